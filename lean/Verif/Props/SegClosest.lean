import Verif.Proofs.ArcSector

/-! C14: closest point of an arc segment. -/
namespace Cavc
open Spec
open scoped Classical

theorem pointWithinArcSweepAngle_run {b : ℝ} (h0 : realThreshold < |b|) (h1 : |b| ≤ 1)
    (c s e p : V2) : pointWithinArcSweepAngle c s e b p = .ok (if b > 0 then
      decide (isLeftOrCoincident c s p ∧ isRightOrCoincident c e p) else
      decide (isRightOrCoincident c s p ∧ isLeftOrCoincident c e p)) := by
  unfold pointWithinArcSweepAngle
  rw [assertP_pos h0, ok_bind, assertP_pos h1, ok_bind]
  split_ifs <;> rfl

theorem arc_bulge_gt {v : Vertex} (h : ¬ IsLine v) : realThreshold < |v.bulge| := by
  unfold IsLine at h
  unfold realThreshold
  push Not at h
  exact lt_of_lt_of_le (by norm_num) h

/-- The tolerant sweep test, as a proposition. -/
def NearSector (v1 v2 : Vertex) (p : V2) : Prop :=
  if v1.bulge > 0 then isLeftOrCoincident (centerOf v1 v2) v1.pos p ∧
    isRightOrCoincident (centerOf v1 v2) v2.pos p
  else isRightOrCoincident (centerOf v1 v2) v1.pos p ∧ isLeftOrCoincident (centerOf v1 v2) v2.pos p

theorem within_eq {v1 v2 : Vertex} (hl : ¬ IsLine v1) (hb : |v1.bulge| ≤ 1) (p : V2) :
    pointWithinArcSweepAngle (centerOf v1 v2) v1.pos v2.pos v1.bulge p =
      .ok (decide (NearSector v1 v2 p)) := by
  rw [pointWithinArcSweepAngle_run (arc_bulge_gt hl) hb]
  unfold NearSector
  split_ifs <;> rfl

theorem nearSector_of_inSector {v1 v2 : Vertex} {p : V2} (h : InSector v1 v2 p) :
    NearSector v1 v2 p := by
  have := realThreshold_pos
  unfold NearSector isLeftOrCoincident isRightOrCoincident
  rcases h with ⟨hb, hs, he⟩ | ⟨hb, hs, he⟩
  · rw [if_pos hb]; constructor <;> linarith
  · rw [if_neg (by linarith)]; constructor <;> linarith

/-- What `closestPointOnSeg` computes for an arc. -/
theorem closestPointOnSeg_arc {v1 v2 : Vertex} (ha : ArcOk v1 v2) (hb : |v1.bulge| ≤ 1) (p : V2) :
    (fuzzyEqualV p (centerOf v1 v2) ∧ closestPointOnSeg v1 v2 p = .ok v1.pos) ∨
    (¬ fuzzyEqualV p (centerOf v1 v2) ∧ NearSector v1 v2 p ∧ ∀ ψ,
      (distance v1.pos (centerOf v1 v2)) • (p - centerOf v1 v2) =
      (distance p (centerOf v1 v2)) • (rot (centerOf v1 v2) ψ v1.pos - centerOf v1 v2) →
      closestPointOnSeg v1 v2 p = .ok (rot (centerOf v1 v2) ψ v1.pos)) ∨
    (¬ fuzzyEqualV p (centerOf v1 v2) ∧ ¬ NearSector v1 v2 p ∧
      closestPointOnSeg v1 v2 p =
        .ok (if dist2 p v1.pos < dist2 p v2.pos then v1.pos else v2.pos)) := by
  have hrun : closestPointOnSeg v1 v2 p =
      if fuzzyEqualV p (centerOf v1 v2) then .ok v1.pos
      else if NearSector v1 v2 p then (do
        let vToPoint ← normalizeV (p - centerOf v1 v2)
        return (arcOf v1 v2).radius • vToPoint + centerOf v1 v2)
      else if distSquared v1.pos p < distSquared v2.pos p then .ok v1.pos else .ok v2.pos := by
    unfold closestPointOnSeg
    rw [if_neg (show ¬ v1.bulgeIsZero from ha.arc), ha.run, ok_bind, ha.center]
    by_cases h1 : fuzzyEqualV p (centerOf v1 v2)
    · rw [if_pos h1, if_pos h1]; rfl
    · rw [if_neg h1, if_neg h1, within_eq ha.arc hb, ok_bind]
      by_cases h2 : NearSector v1 v2 p
      · simp only [h2]; rfl
      · simp only [h2]
        rfl
  by_cases h1 : fuzzyEqualV p (centerOf v1 v2)
  · exact Or.inl ⟨h1, by rw [hrun, if_pos h1]⟩
  · by_cases h2 : NearSector v1 v2 p
    · refine Or.inr (Or.inl ⟨h1, h2, fun ψ hψ => ?_⟩)
      rw [hrun, if_neg h1, if_pos h2]
      unfold normalizeV
      have hz : ¬ fuzzyZeroV (p - centerOf v1 v2) := h1
      rw [assertP_pos hz, ok_bind]
      have hpc : p ≠ centerOf v1 v2 := ne_of_not_fuzzyEqualV realThreshold_pos h1
      have hd := distance_pos hpc
      have hlen : Real.sqrt (dot (p - centerOf v1 v2) (p - centerOf v1 v2)) =
          distance p (centerOf v1 v2) := by
        rw [dot_sub_self, distance, dist2_comm]
      have hx := congrArg V2.x hψ
      have hy := congrArg V2.y hψ
      simp only [V2.smul_x, V2.smul_y, V2.sub_x, V2.sub_y] at hx hy
      rw [hlen, ha.radius_eq]
      show Except.ok _ = Except.ok _
      congr 1
      ext
      · simp only [V2.add_x, V2.smul_x, V2.sub_x]
        rw [← mul_div_assoc, hx, mul_div_assoc, mul_comm, div_mul_cancel₀ _ hd.ne']
        ring
      · simp only [V2.add_y, V2.smul_y, V2.sub_y]
        rw [← mul_div_assoc, hy, mul_div_assoc, mul_comm, div_mul_cancel₀ _ hd.ne']
        ring
    · refine Or.inr (Or.inr ⟨h1, h2, ?_⟩)
      rw [hrun, if_neg h1, if_neg h2]
      simp only [distSquared, dot_sub_self, dist2_comm p]
      split_ifs <;> rfl

/-- C14. For an arc segment of at most a half circle and any query point, the function does not
fault; with `c` the center of the arc, the returned point is on the circle of the arc; no point of
the arc is closer to the query point, except when the query point is within 1e-8 of the center (in
both coordinates), when the returned distance is less than 3e-8 above the minimum; and the returned
point is on the arc itself if the query point is not within the 1e-8 tolerance of the lines from the
center through the end points, or is exactly between them, or is not between them even with the
tolerance. -/
theorem C14_closestPointOnSeg {v1 v2 : Vertex} (hok : SegOk v1 v2) (hl : ¬ IsLine v1) (p : V2) :
    ∃ q c, closestPointOnSeg v1 v2 p = .ok q ∧ IsCenter v1 v2 c ∧
      distance q c = distance v1.pos c ∧
      (∀ x, OnSeg v1 v2 x → distance p q ≤ distance p x + 3 / 10 ^ 8) ∧
      (1 / 10 ^ 8 ≤ |p.x - c.x| ∨ 1 / 10 ^ 8 ≤ |p.y - c.y| →
        ∀ x, OnSeg v1 v2 x → distance p q ≤ distance p x) ∧
      ((1 / 10 ^ 8 ≤ |side c v1.pos p| ∧ 1 / 10 ^ 8 ≤ |side c v2.pos p|) ∨
        (0 < v1.bulge ∧ 0 ≤ side c v1.pos p ∧ side c v2.pos p ≤ 0) ∨
        (v1.bulge < 0 ∧ side c v1.pos p ≤ 0 ∧ 0 ≤ side c v2.pos p) ∨ ¬ InSweep (1 / 10 ^ 8) v1 v2 c p →
        OnSeg v1 v2 q) := by
  simp only [InSweep, show side = cross from rfl]
  have ha := hok.arcOk hl
  have hb := hok.half
  have hr := distance_pos ha.start_ne
  set c := centerOf v1 v2 with hc
  have hcir : ∀ x, OnSeg v1 v2 x → distance x c = distance v1.pos c := by
    intro x hx
    obtain ⟨t, -, -, rfl⟩ := (onSeg_arc hl).mp hx
    unfold distance; rw [dist2_rot]
  obtain ⟨ψ, h1, h2, hψ⟩ := exists_offset c v1.pos p
  -- distance to any point of the circle
  have hlow : ∀ x, OnSeg v1 v2 x → |distance v1.pos c - distance p c| ≤ distance p x := by
    intro x hx
    obtain ⟨t, -, -, rfl⟩ := (onSeg_arc hl).mp hx
    have := offset_dist2 ha.start_ne hψ (t * sweep v1)
    apply Real.le_sqrt_of_sq_le
    rw [sq_abs, this]
    have hcos := Real.cos_le_one (ψ - t * sweep v1)
    have := mul_nonneg hr.le (distance_nonneg p c)
    nlinarith
  rcases closestPointOnSeg_arc ha hb p with ⟨hf, hrun⟩ | ⟨hf, hn, hrun⟩ | ⟨hf, hn, hrun⟩
  · refine ⟨v1.pos, c, hrun, isCenter_centerOf ha.b_ne, rfl, ?_, ?_, fun _ => onSeg_start _ _⟩
    · intro x hx
      have h := hlow x hx
      have hd := offset_dist2 ha.start_ne hψ 0
      rw [rot_zero] at hd
      have hub : distance p v1.pos ≤ distance v1.pos c + distance p c := by
        refine Real.sqrt_le_iff.mpr ⟨by linarith [distance_nonneg p c], ?_⟩
        rw [hd]
        have hcos := Real.neg_one_le_cos (ψ - 0)
        have := mul_nonneg hr.le (distance_nonneg p c)
        nlinarith
      have hpc : distance p c ≤ 3 / 2 / 10 ^ 8 := by
        obtain ⟨hx, hy⟩ := hf
        unfold fuzzyEqual realThreshold at hx hy
        unfold distance dist2
        rw [Real.sqrt_le_left (by norm_num)]
        rw [abs_lt] at hx hy
        nlinarith
      rw [abs_le] at h
      linarith
    · intro h
      exact absurd hf (not_fuzzyEqualV h)
  · have hexact : ∀ x, OnSeg v1 v2 x → distance p (rot c ψ v1.pos) ≤ distance p x := by
      intro x hx
      refine le_trans ?_ (hlow x hx)
      refine Real.sqrt_le_iff.mpr ⟨abs_nonneg _, ?_⟩
      rw [offset_dist2 ha.start_ne hψ ψ, sq_abs, sub_self, Real.cos_zero]
      apply le_of_eq; ring
    refine ⟨_, c, hrun ψ hψ, isCenter_centerOf ha.b_ne, ?_, ?_, fun _ => hexact, ?_⟩
    · unfold distance; rw [dist2_rot]
    · intro x hx
      have := hexact x hx
      linarith [show (0 : ℝ) < 3 / 10 ^ 8 by norm_num]
    · intro h
      have hin : InSector v1 v2 p := by
        rcases h with ⟨g1, g2⟩ | h
        · unfold NearSector isLeftOrCoincident isRightOrCoincident realThreshold at hn
          rcases lt_or_gt_of_ne ha.b_ne with hb | hb
          · rw [if_neg (by linarith)] at hn
            refine Or.inr ⟨hb, ?_, ?_⟩
            · by_contra h'; push Not at h'
              rw [abs_of_pos h'] at g1
              linarith [hn.1]
            · by_contra h'; push Not at h'
              rw [abs_of_neg h'] at g2
              linarith [hn.2]
          · rw [if_pos hb] at hn
            refine Or.inl ⟨hb, ?_, ?_⟩
            · by_contra h'; push Not at h'
              rw [abs_of_neg h'] at g1
              linarith [hn.1]
            · by_contra h'; push Not at h'
              rw [abs_of_pos h'] at g2
              linarith [hn.2]
        · rcases h with h | h | h
          · exact Or.inl h
          · exact Or.inr h
          · refine absurd ?_ h
            unfold NearSector isLeftOrCoincident isRightOrCoincident realThreshold at hn
            rcases lt_or_gt_of_ne ha.b_ne with hb | hb
            · rw [if_neg (by linarith)] at hn
              exact Or.inr ⟨hb, hn.1, hn.2⟩
            · rw [if_pos hb] at hn
              exact Or.inl ⟨hb, hn.1, hn.2⟩
      exact onSeg_of_inSector ha hb (ne_of_not_fuzzyEqualV realThreshold_pos hf) hin h1 h2 hψ
  · have hnin : ¬ InSector v1 v2 p := fun h => hn (nearSector_of_inSector h)
    have hexact : ∀ x, OnSeg v1 v2 x →
        distance p (if dist2 p v1.pos < dist2 p v2.pos then v1.pos else v2.pos) ≤ distance p x := by
      intro x hx
      apply Real.sqrt_le_sqrt
      rcases dist2_le_of_not_inSector ha hb hnin hx with h | h
      · split_ifs with h' <;> linarith
      · split_ifs with h' <;> linarith
    have hon : OnSeg v1 v2 (if dist2 p v1.pos < dist2 p v2.pos then v1.pos else v2.pos) := by
      split_ifs
      · exact onSeg_start _ _
      · exact onSeg_end _ _
    refine ⟨_, c, hrun, isCenter_centerOf ha.b_ne, hcir _ hon, ?_, fun _ => hexact, fun _ => hon⟩
    intro x hx
    have := hexact x hx
    linarith [show (0 : ℝ) < 3 / 10 ^ 8 by norm_num]

/-- The tolerance of the sweep test can put the returned point off the arc: for the upper half of
the unit circle and the query point (1.2e-8, -9e-9), the result is (0.8, -0.6), more than half a
radius away from every point of the arc. -/
theorem C14_off_arc_witness :
    closestPointOnSeg ⟨⟨1, 0⟩, 1⟩ ⟨⟨-1, 0⟩, 0⟩ ⟨12 / 10 ^ 9, -(9 / 10 ^ 9)⟩ = .ok ⟨4 / 5, -(3 / 5)⟩ ∧
    ∀ x, OnSeg ⟨⟨1, 0⟩, 1⟩ ⟨⟨-1, 0⟩, 0⟩ x → 1 / 2 < distance x ⟨4 / 5, -(3 / 5)⟩ := by
  show closestPointOnSeg semiStart semiEnd _ = _ ∧ ∀ x, OnSeg semiStart semiEnd x → _
  have ha := semi_ok.1.arcOk semi_ok.2
  constructor
  · have hnf : ¬ fuzzyEqualV ⟨12 / 10 ^ 9, -(9 / 10 ^ 9)⟩ (centerOf semiStart semiEnd) := by
      rw [semi_center]
      exact not_fuzzyEqualV (Or.inl (by norm_num [realThreshold]))
    have hnear : NearSector semiStart semiEnd ⟨12 / 10 ^ 9, -(9 / 10 ^ 9)⟩ := by
      unfold NearSector
      rw [if_pos (by norm_num [semiStart]), semi_center]
      constructor
      · norm_num [isLeftOrCoincident, cross, semiStart, realThreshold]
      · norm_num [isRightOrCoincident, cross, semiEnd, realThreshold]
    rcases closestPointOnSeg_arc ha semi_ok.1.half ⟨12 / 10 ^ 9, -(9 / 10 ^ 9)⟩ with
      h | ⟨-, -, h⟩ | ⟨-, h, -⟩
    · exact absurd h.1 hnf
    · have hsin : Real.sin (Real.arcsin (-(3 / 5))) = -(3 / 5) :=
        Real.sin_arcsin (by norm_num) (by norm_num)
      have hcos : Real.cos (Real.arcsin (-(3 / 5))) = 4 / 5 := by
        rw [Real.cos_arcsin, show (1 : ℝ) - (-(3 / 5)) ^ 2 = (4 / 5) ^ 2 by norm_num]
        exact Real.sqrt_sq (by norm_num)
      have hd : distance ⟨12 / 10 ^ 9, -(9 / 10 ^ 9)⟩ ⟨0, 0⟩ = 15 / 10 ^ 9 := by
        unfold distance dist2
        rw [show (12 / 10 ^ 9 - 0 : ℝ) ^ 2 + (-(9 / 10 ^ 9) - 0) ^ 2 = (15 / 10 ^ 9) ^ 2 by norm_num]
        exact Real.sqrt_sq (by norm_num)
      have hd1 : distance semiStart.pos ⟨0, 0⟩ = 1 := by
        norm_num [distance, dist2, semiStart]
      have e : rot ⟨0, 0⟩ (Real.arcsin (-(3 / 5))) semiStart.pos = ⟨4 / 5, -(3 / 5)⟩ := by
        ext <;> simp only [rot, hsin, hcos, semiStart] <;> norm_num
      rw [h (Real.arcsin (-(3 / 5))), semi_center, e]
      rw [semi_center, hd, hd1, e]
      ext <;> norm_num
    · exact absurd hnear h
  · intro x hx
    obtain ⟨t, h0, h1, hx⟩ := hx
    rw [semi_atParam] at hx
    have hy : 0 ≤ x.y := by
      rw [hx]
      exact Real.sin_nonneg_of_nonneg_of_le_pi (by positivity)
        (by nlinarith [Real.pi_pos])
    apply Real.lt_sqrt_of_sq_lt
    unfold dist2
    simp only
    nlinarith [sq_nonneg (x.x - 4 / 5)]

/-- C14 applies to the half circle and a point well above it; the result is on the arc. -/
example : ∃ q, closestPointOnSeg ⟨⟨1, 0⟩, 1⟩ ⟨⟨-1, 0⟩, 0⟩ ⟨3, 4⟩ = .ok q ∧
    OnSeg ⟨⟨1, 0⟩, 1⟩ ⟨⟨-1, 0⟩, 0⟩ q := by
  obtain ⟨q, c, h1, h2, -, -, -, h3⟩ := C14_closestPointOnSeg semi_ok.1 semi_ok.2 ⟨3, 4⟩
  have hc : c = ⟨0, 0⟩ := by
    rw [isCenter_unique (bulge_ne_zero semi_ok.2) h2, semi_center]
  subst hc
  refine ⟨q, h1, h3 (Or.inl ⟨?_, ?_⟩)⟩ <;> norm_num [side, semiStart, semiEnd]

end Cavc

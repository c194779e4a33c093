import Verif.Proofs.Semi

/-! Directions from the center of an arc: inside and outside of its sector. -/
namespace Cavc
open Spec
open scoped Classical

/-- Direction inside the sector (turned to a counter clockwise arc). -/
theorem sector_inside {ψ θ : ℝ} (h1 : -Real.pi < ψ) (h2 : ψ ≤ Real.pi) (ht0 : 0 < θ)
    (hs : 0 ≤ Real.sin ψ) (he : Real.sin (ψ - θ) ≤ 0) : 0 ≤ ψ ∧ ψ ≤ θ := by
  have h0 : 0 ≤ ψ := by
    by_contra h
    push Not at h
    have := Real.sin_neg_of_neg_of_neg_pi_lt h h1
    linarith
  refine ⟨h0, ?_⟩
  by_contra h
  push Not at h
  have := Real.sin_pos_of_pos_of_lt_pi (show 0 < ψ - θ by linarith) (by linarith)
  linarith

theorem cos_le_max {χ w θ : ℝ} (h0 : 0 ≤ χ) (h1 : χ ≤ Real.pi) (hw0 : 0 ≤ w) (hw1 : w ≤ θ)
    (ht : θ ≤ Real.pi) : Real.cos (χ + w) ≤ max (Real.cos χ) (Real.cos (χ + θ)) := by
  rcases le_total (χ + w) Real.pi with h | h
  · exact le_max_of_le_left (Real.cos_le_cos_of_nonneg_of_le_pi h0 h (by linarith))
  · apply le_max_of_le_right
    have e1 : Real.cos (χ + w) = Real.cos (2 * Real.pi - (χ + w)) := by
      rw [Real.cos_two_pi_sub]
    have e2 : Real.cos (χ + θ) = Real.cos (2 * Real.pi - (χ + θ)) := by
      rw [Real.cos_two_pi_sub]
    rw [e1, e2]
    exact Real.cos_le_cos_of_nonneg_of_le_pi (by linarith) (by linarith) (by linarith)

/-- Direction outside of the sector: no direction inside is nearer than both ends. -/
theorem sector_outside {ψ θ u : ℝ} (h1 : -Real.pi < ψ) (h2 : ψ ≤ Real.pi) (ht0 : 0 < θ)
    (ht1 : θ ≤ Real.pi) (h : Real.sin ψ < 0 ∨ 0 < Real.sin (ψ - θ)) (hu0 : 0 ≤ u) (hu1 : u ≤ θ) :
    Real.cos (ψ - u) ≤ max (Real.cos ψ) (Real.cos (ψ - θ)) := by
  have caseA : Real.sin ψ < 0 → Real.cos (ψ - u) ≤ max (Real.cos ψ) (Real.cos (ψ - θ)) := by
    intro hs
    have hneg : ψ < 0 := by
      by_contra h'
      push Not at h'
      linarith [Real.sin_nonneg_of_nonneg_of_le_pi h' h2]
    have := cos_le_max (χ := -ψ) (w := u) (θ := θ) (by linarith) (by linarith) hu0 hu1 ht1
    rw [← Real.cos_neg (-ψ + u), ← Real.cos_neg (-ψ + θ), Real.cos_neg ψ] at this
    rwa [show -(-ψ + u) = ψ - u by ring, show -(-ψ + θ) = ψ - θ by ring] at this
  rcases lt_or_ge (Real.sin ψ) 0 with hs | hs
  · exact caseA hs
  · rcases h with h | h
    · linarith
    have h0 : 0 ≤ ψ := by
      by_contra h'
      push Not at h'
      linarith [Real.sin_neg_of_neg_of_neg_pi_lt h' h1]
    have hgt : θ < ψ := by
      by_contra h'
      push Not at h'
      have := Real.sin_nonpos_of_nonpos_of_neg_pi_le (show ψ - θ ≤ 0 by linarith) (by linarith)
      linarith
    have := cos_le_max (χ := ψ - θ) (w := θ - u) (θ := θ) (by linarith) (by linarith) (by linarith)
      (by linarith) ht1
    rw [show ψ - θ + (θ - u) = ψ - u by ring, show ψ - θ + θ = ψ by ring, max_comm] at this
    exact this

/-- A direction as an offset in (-π, π] from a reference direction. -/
theorem exists_offset (c s p : V2) :
    ∃ ψ, -Real.pi < ψ ∧ ψ ≤ Real.pi ∧
      (distance s c) • (p - c) = (distance p c) • (rot c ψ s - c) := by
  obtain ⟨h1, h2, k, hk⟩ := deltaAngle_spec (angle c s) (angle c p)
  refine ⟨_, h1, h2, ?_⟩
  have hp := polar c p
  have hr := rot_polar c s (deltaAngle (angle c s) (angle c p))
  have e : angle c s + deltaAngle (angle c s) (angle c p) = angle c p + k * (2 * Real.pi) := by
    rw [hk]; unfold tau; ring
  rw [e, Real.cos_add_int_mul_two_pi, Real.sin_add_int_mul_two_pi] at hr
  have hx := congrArg V2.x hp
  have hy := congrArg V2.y hp
  simp only at hx hy
  rw [hr]
  ext
  · simp only [V2.smul_x, V2.sub_x]
    linear_combination distance s c * hx
  · simp only [V2.smul_y, V2.sub_y]
    linear_combination distance s c * hy

/-- cross product and squared distance in terms of the offset -/
theorem offset_cross {c s p : V2} {ψ : ℝ} (hs : s ≠ c)
    (h : (distance s c) • (p - c) = (distance p c) • (rot c ψ s - c)) (θ : ℝ) :
    cross c (rot c θ s) p = distance s c * distance p c * Real.sin (ψ - θ) := by
  have hr := distance_pos hs
  have hx := congrArg V2.x h
  have hy := congrArg V2.y h
  simp only [V2.smul_x, V2.smul_y, V2.sub_x, V2.sub_y, rot] at hx hy
  have h2 : distance s c ^ 2 = (s.x - c.x) ^ 2 + (s.y - c.y) ^ 2 := distance_sq s c
  apply mul_left_cancel₀ hr.ne'
  simp only [cross, rot]
  rw [Real.sin_sub]
  have key : distance s c * (((s.x - c.x) * Real.cos θ - (s.y - c.y) * Real.sin θ) * (p.y - c.y) -
      ((s.x - c.x) * Real.sin θ + (s.y - c.y) * Real.cos θ) * (p.x - c.x)) =
      distance p c * (distance s c ^ 2 * (Real.sin ψ * Real.cos θ - Real.cos ψ * Real.sin θ)) := by
    rw [h2]
    linear_combination ((s.x - c.x) * Real.cos θ - (s.y - c.y) * Real.sin θ) * hy -
      ((s.x - c.x) * Real.sin θ + (s.y - c.y) * Real.cos θ) * hx
  linear_combination key

theorem offset_dist2 {c s p : V2} {ψ : ℝ} (hs : s ≠ c)
    (h : (distance s c) • (p - c) = (distance p c) • (rot c ψ s - c)) (u : ℝ) :
    dist2 p (rot c u s) = distance p c ^ 2 + distance s c ^ 2 -
      2 * (distance s c * distance p c) * Real.cos (ψ - u) := by
  have hr := distance_pos hs
  have hx := congrArg V2.x h
  have hy := congrArg V2.y h
  simp only [V2.smul_x, V2.smul_y, V2.sub_x, V2.sub_y, rot] at hx hy
  have h2 : distance s c ^ 2 = (s.x - c.x) ^ 2 + (s.y - c.y) ^ 2 := distance_sq s c
  have h3 : distance p c ^ 2 = (p.x - c.x) ^ 2 + (p.y - c.y) ^ 2 := distance_sq p c
  have hu := Real.sin_sq_add_cos_sq u
  apply mul_left_cancel₀ hr.ne'
  simp only [dist2, rot]
  rw [Real.cos_sub, h3, h2]
  linear_combination (-2 * ((s.x - c.x) * Real.cos u - (s.y - c.y) * Real.sin u)) * hx +
    (-2 * ((s.x - c.x) * Real.sin u + (s.y - c.y) * Real.cos u)) * hy +
    distance s c * ((s.x - c.x) ^ 2 + (s.y - c.y) ^ 2) * hu +
    2 * distance p c * (Real.cos ψ * Real.cos u + Real.sin ψ * Real.sin u) * h2

/-- `p` is in the closed sector of the arc (exact version of the sweep test). -/
def InSector (v1 v2 : Vertex) (p : V2) : Prop :=
  (0 < v1.bulge ∧ 0 ≤ cross (centerOf v1 v2) v1.pos p ∧ cross (centerOf v1 v2) v2.pos p ≤ 0) ∨
  (v1.bulge < 0 ∧ cross (centerOf v1 v2) v1.pos p ≤ 0 ∧ 0 ≤ cross (centerOf v1 v2) v2.pos p)

theorem onSeg_arc {v1 v2 : Vertex} (hl : ¬ IsLine v1) {p : V2} : OnSeg v1 v2 p ↔
    ∃ t, 0 ≤ t ∧ t ≤ 1 ∧ p = rot (centerOf v1 v2) (t * sweep v1) v1.pos := by
  unfold OnSeg; simp only [atParam_arc hl]

theorem onSeg_line {v1 v2 : Vertex} (hl : IsLine v1) {p : V2} : OnSeg v1 v2 p ↔
    ∃ t, 0 ≤ t ∧ t ≤ 1 ∧ p = lerp v1.pos v2.pos t := by
  unfold OnSeg; simp only [atParam_line hl]

theorem onSeg_start (v1 v2 : Vertex) : OnSeg v1 v2 v1.pos := by
  refine ⟨0, le_refl _, zero_le_one, ?_⟩
  by_cases hl : IsLine v1
  · rw [atParam_line hl]; ext <;> simp [lerp]
  · rw [atParam_arc hl, zero_mul, rot_zero]

theorem onSeg_end (v1 v2 : Vertex) : OnSeg v1 v2 v2.pos := by
  refine ⟨1, zero_le_one, le_refl _, ?_⟩
  by_cases hl : IsLine v1
  · rw [atParam_line hl]; ext <;> simp [lerp]
  · rw [atParam_arc hl, one_mul]; exact (isCenter_centerOf (bulge_ne_zero hl)).symm

/-- An offset within the sweep gives a point of the arc. -/
theorem onSeg_of_offset {v1 v2 : Vertex} (ha : ArcOk v1 v2) {ψ : ℝ}
    (h : (0 ≤ ψ ∧ ψ ≤ sweep v1) ∨ (sweep v1 ≤ ψ ∧ ψ ≤ 0)) :
    OnSeg v1 v2 (rot (centerOf v1 v2) ψ v1.pos) := by
  rw [onSeg_arc ha.arc]
  rcases lt_or_gt_of_ne ha.b_ne with hb | hb
  · have hs := sweep_neg hb
    have h' : sweep v1 ≤ ψ ∧ ψ ≤ 0 := by
      rcases h with h | h
      · constructor <;> linarith
      · exact h
    refine ⟨ψ / sweep v1, div_nonneg_of_nonpos h'.2 hs.le, ?_, ?_⟩
    · rw [div_le_one_of_neg hs]; exact h'.1
    · rw [div_mul_cancel₀ _ hs.ne]
  · have hs := sweep_pos hb
    have h' : 0 ≤ ψ ∧ ψ ≤ sweep v1 := by
      rcases h with h | h
      · exact h
      · constructor <;> linarith
    refine ⟨ψ / sweep v1, div_nonneg h'.1 hs.le, ?_, ?_⟩
    · rw [div_le_one hs]; exact h'.2
    · rw [div_mul_cancel₀ _ hs.ne']

theorem onSeg_of_inSector {v1 v2 : Vertex} (ha : ArcOk v1 v2) (hb : |v1.bulge| ≤ 1) {p : V2}
    (hpc : p ≠ centerOf v1 v2) (h : InSector v1 v2 p) {ψ : ℝ} (h1 : -Real.pi < ψ) (h2 : ψ ≤ Real.pi)
    (hψ : (distance v1.pos (centerOf v1 v2)) • (p - centerOf v1 v2) =
      (distance p (centerOf v1 v2)) • (rot (centerOf v1 v2) ψ v1.pos - centerOf v1 v2)) :
    OnSeg v1 v2 (rot (centerOf v1 v2) ψ v1.pos) := by
  have hpos : 0 < distance v1.pos (centerOf v1 v2) * distance p (centerOf v1 v2) :=
    mul_pos (distance_pos ha.start_ne) (distance_pos hpc)
  have c0 := offset_cross ha.start_ne hψ 0
  have c1 := offset_cross ha.start_ne hψ (sweep v1)
  rw [rot_zero, sub_zero] at c0
  rw [ha.end_eq] at c1
  have hsw := abs_sweep_le hb
  rw [abs_le] at hsw
  rcases h with ⟨hb, hs, he⟩ | ⟨hb, hs, he⟩
  · rw [c0, mul_nonneg_iff_of_pos_left hpos] at hs
    rw [c1] at he
    have he' : Real.sin (ψ - sweep v1) ≤ 0 := by
      by_contra h'; push Not at h'
      have := mul_pos hpos h'
      linarith
    exact onSeg_of_offset ha (Or.inl (sector_inside h1 h2 (sweep_pos hb) hs he'))
  · rw [c0] at hs
    rw [c1, mul_nonneg_iff_of_pos_left hpos] at he
    have hs' : Real.sin ψ ≤ 0 := by
      by_contra h'; push Not at h'
      have := mul_pos hpos h'
      linarith
    rcases eq_or_lt_of_le h2 with rfl | h2
    · -- direction opposite to the start: only the end of a half circle
      have hth : sweep v1 = -Real.pi := by
        have h3 : Real.sin (Real.pi - sweep v1) = Real.sin (sweep v1) := Real.sin_pi_sub _
        rw [h3] at he
        by_contra hne
        have := Real.sin_neg_of_neg_of_neg_pi_lt (sweep_neg hb) (lt_of_le_of_ne hsw.1 (Ne.symm hne))
        linarith
      have : rot (centerOf v1 v2) Real.pi v1.pos = v2.pos := by
        rw [← ha.end_eq, hth]; simp [rot]
      rw [this]; exact onSeg_end _ _
    · have := sector_inside (ψ := -ψ) (θ := -sweep v1) (by linarith) (by linarith)
        (by linarith [sweep_neg hb]) (by rw [Real.sin_neg]; linarith)
        (by rw [show -ψ - -sweep v1 = -(ψ - sweep v1) by ring, Real.sin_neg]; linarith)
      exact onSeg_of_offset ha (Or.inr ⟨by linarith, by linarith⟩)

theorem dist2_le_of_not_inSector {v1 v2 : Vertex} (ha : ArcOk v1 v2) (hb : |v1.bulge| ≤ 1) {p : V2}
    (h : ¬ InSector v1 v2 p) {x : V2} (hx : OnSeg v1 v2 x) :
    dist2 p v1.pos ≤ dist2 p x ∨ dist2 p v2.pos ≤ dist2 p x := by
  have hpc : p ≠ centerOf v1 v2 := by
    rintro rfl
    apply h
    have : ∀ c s : V2, cross c s c = 0 := by intro c s; simp [cross]
    rcases lt_or_gt_of_ne ha.b_ne with hb | hb
    · exact Or.inr ⟨hb, (this _ _).le, (this _ _).ge⟩
    · exact Or.inl ⟨hb, (this _ _).ge, (this _ _).le⟩
  have hpos : 0 < distance v1.pos (centerOf v1 v2) * distance p (centerOf v1 v2) :=
    mul_pos (distance_pos ha.start_ne) (distance_pos hpc)
  obtain ⟨ψ, h1, h2, hψ⟩ := exists_offset (centerOf v1 v2) v1.pos p
  have c0 := offset_cross ha.start_ne hψ 0
  have c1 := offset_cross ha.start_ne hψ (sweep v1)
  have d0 := offset_dist2 ha.start_ne hψ 0
  have d1 := offset_dist2 ha.start_ne hψ (sweep v1)
  rw [rot_zero, sub_zero] at c0 d0
  rw [ha.end_eq] at c1 d1
  have hsw := abs_sweep_le hb
  rw [abs_le] at hsw
  obtain ⟨t, t0, t1, rfl⟩ := (onSeg_arc ha.arc).mp hx
  have du := offset_dist2 ha.start_ne hψ (t * sweep v1)
  suffices hc : Real.cos (ψ - t * sweep v1) ≤ max (Real.cos ψ) (Real.cos (ψ - sweep v1)) by
    rcases le_max_iff.mp hc with hc | hc
    · left
      have := mul_le_mul_of_nonneg_left hc hpos.le
      rw [d0, du]; linarith
    · right
      have := mul_le_mul_of_nonneg_left hc hpos.le
      rw [d1, du]; linarith
  rcases lt_or_gt_of_ne ha.b_ne with hb | hb
  · have hs := sweep_neg hb
    have hout : 0 < Real.sin ψ ∨ Real.sin (ψ - sweep v1) < 0 := by
      by_contra hn
      push Not at hn
      apply h
      refine Or.inr ⟨hb, ?_, ?_⟩
      · rw [c0]; exact mul_nonpos_of_nonneg_of_nonpos hpos.le hn.1
      · rw [c1]; exact mul_nonneg hpos.le hn.2
    rcases eq_or_lt_of_le h2 with rfl | h2
    · have := sector_outside (ψ := Real.pi) (θ := -sweep v1) (u := -(t * sweep v1)) h1 (le_refl _)
        (by linarith) (by linarith) (Or.inr ?_) (by nlinarith) (by nlinarith)
      · rw [show Real.pi - -(t * sweep v1) = t * sweep v1 - Real.pi + 2 * Real.pi by ring,
          show Real.pi - -sweep v1 = sweep v1 - Real.pi + 2 * Real.pi by ring, Real.cos_add_two_pi,
          Real.cos_add_two_pi, ← Real.cos_neg (t * sweep v1 - Real.pi),
          ← Real.cos_neg (sweep v1 - Real.pi), neg_sub, neg_sub] at this
        exact this
      · rcases hout with h' | h'
        · rw [Real.sin_pi] at h'; exact absurd h' (lt_irrefl _)
        · rw [Real.sin_pi_sub] at h'
          rw [show Real.pi - -sweep v1 = Real.pi + sweep v1 by ring, Real.sin_add]
          simp; linarith
    · have := sector_outside (ψ := -ψ) (θ := -sweep v1) (u := -(t * sweep v1)) (by linarith)
        (by linarith) (by linarith) (by linarith) ?_ (by nlinarith) (by nlinarith)
      · rw [show -ψ - -(t * sweep v1) = -(ψ - t * sweep v1) by ring,
          show -ψ - -sweep v1 = -(ψ - sweep v1) by ring, Real.cos_neg, Real.cos_neg,
          Real.cos_neg] at this
        exact this
      · rw [show -ψ - -sweep v1 = -(ψ - sweep v1) by ring, Real.sin_neg, Real.sin_neg]
        rcases hout with h' | h'
        · left; linarith
        · right; linarith
  · have hs := sweep_pos hb
    have hout : Real.sin ψ < 0 ∨ 0 < Real.sin (ψ - sweep v1) := by
      by_contra hn
      push Not at hn
      apply h
      refine Or.inl ⟨hb, ?_, ?_⟩
      · rw [c0]; exact mul_nonneg hpos.le hn.1
      · rw [c1]; exact mul_nonpos_of_nonneg_of_nonpos hpos.le hn.2
    exact sector_outside h1 h2 hs hsw.2 hout (by nlinarith) (by nlinarith)

end Cavc

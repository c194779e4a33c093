import Verif.Props.Circle
import Verif.Props.LineLine
import Verif.Props.SegClosest

/-! C50: intersects of two polyline segments. -/
namespace Cavc
open Spec
open scoped Classical

theorem nearSector_iff {v1 v2 : Vertex} (hb : v1.bulge ≠ 0) (p : V2) :
    NearSector v1 v2 p ↔ InSweep (1 / 10 ^ 8) v1 v2 (centerOf v1 v2) p := by
  unfold NearSector InSweep isLeftOrCoincident isRightOrCoincident realThreshold
  rw [show side = cross from rfl]
  rcases lt_or_gt_of_ne hb with h | h
  · rw [if_neg (by linarith)]
    constructor
    · rintro ⟨a, b⟩; exact Or.inr ⟨h, a, b⟩
    · rintro (⟨a, -⟩ | ⟨-, a, b⟩)
      · linarith
      · exact ⟨a, b⟩
  · rw [if_pos h]
    constructor
    · rintro ⟨a, b⟩; exact Or.inl ⟨h, a, b⟩
    · rintro (⟨-, a, b⟩ | ⟨a, -⟩)
      · exact ⟨a, b⟩
      · linarith

/-- Points of the arc are in its sector. -/
theorem inSector_of_onSeg {v1 v2 : Vertex} (ha : ArcOk v1 v2) (hb : |v1.bulge| ≤ 1) {x : V2}
    (hx : OnSeg v1 v2 x) : InSector v1 v2 x := by
  obtain ⟨t, t0, t1, rfl⟩ := (onSeg_arc ha.arc).mp hx
  have hψ : (distance v1.pos (centerOf v1 v2)) •
      (rot (centerOf v1 v2) (t * sweep v1) v1.pos - centerOf v1 v2) =
      (distance (rot (centerOf v1 v2) (t * sweep v1) v1.pos) (centerOf v1 v2)) •
        (rot (centerOf v1 v2) (t * sweep v1) v1.pos - centerOf v1 v2) := by
    have : distance (rot (centerOf v1 v2) (t * sweep v1) v1.pos) (centerOf v1 v2) =
      distance v1.pos (centerOf v1 v2) := by unfold distance; rw [dist2_rot]
    rw [this]
  have c0 := offset_cross ha.start_ne hψ 0
  have c1 := offset_cross ha.start_ne hψ (sweep v1)
  rw [rot_zero, sub_zero] at c0
  rw [ha.end_eq] at c1
  have hsw := abs_sweep_le hb
  rw [abs_le] at hsw
  have hpos : 0 ≤ distance v1.pos (centerOf v1 v2) *
      distance (rot (centerOf v1 v2) (t * sweep v1) v1.pos) (centerOf v1 v2) :=
    mul_nonneg (distance_nonneg _ _) (distance_nonneg _ _)
  rcases lt_or_gt_of_ne ha.b_ne with h | h
  · have hs := sweep_neg h
    refine Or.inr ⟨h, ?_, ?_⟩
    · rw [c0]
      apply mul_nonpos_of_nonneg_of_nonpos hpos
      exact Real.sin_nonpos_of_nonpos_of_neg_pi_le (by nlinarith) (by nlinarith)
    · rw [c1]
      apply mul_nonneg hpos
      exact Real.sin_nonneg_of_nonneg_of_le_pi (by nlinarith) (by nlinarith)
  · have hs := sweep_pos h
    refine Or.inl ⟨h, ?_, ?_⟩
    · rw [c0]
      apply mul_nonneg hpos
      exact Real.sin_nonneg_of_nonneg_of_le_pi (by nlinarith) (by nlinarith)
    · rw [c1]
      apply mul_nonpos_of_nonneg_of_nonpos hpos
      exact Real.sin_nonpos_of_nonpos_of_neg_pi_le (by nlinarith) (by nlinarith)

/-- The points of an arc are exactly the points of its circle in its sector. (This justifies
`InSweep` as the meaning of the sweep tests.) -/
theorem onSeg_iff_circle {v1 v2 : Vertex} (ha : ArcOk v1 v2) (hb : |v1.bulge| ≤ 1) (x : V2) :
    OnSeg v1 v2 x ↔ OnCircle (distance v1.pos (centerOf v1 v2)) (centerOf v1 v2) x ∧
      InSector v1 v2 x := by
  constructor
  · intro hx
    refine ⟨?_, inSector_of_onSeg ha hb hx⟩
    obtain ⟨t, t0, t1, rfl⟩ := (onSeg_arc ha.arc).mp hx
    unfold OnCircle; rw [dist2_rot, distance_sq]
  · rintro ⟨h1, h2⟩
    have hd : distance x (centerOf v1 v2) = distance v1.pos (centerOf v1 v2) := by
      unfold OnCircle at h1
      rw [distance, h1, Real.sqrt_sq (distance_nonneg _ _)]
    have hr := distance_pos ha.start_ne
    have hxc : x ≠ centerOf v1 v2 := by
      rintro rfl
      unfold OnCircle at h1
      rw [dist2_eq_zero.mpr rfl] at h1
      have := pow_pos hr 2
      linarith
    obtain ⟨ψ, g1, g2, hψ⟩ := exists_offset (centerOf v1 v2) v1.pos x
    have := onSeg_of_inSector ha hb hxc h2 g1 g2 hψ
    have e : x = rot (centerOf v1 v2) ψ v1.pos := by
      rw [hd] at hψ
      have hx := congrArg V2.x hψ
      have hy := congrArg V2.y hψ
      simp only [V2.smul_x, V2.smul_y, V2.sub_x, V2.sub_y] at hx hy
      have hx' := mul_left_cancel₀ hr.ne' hx
      have hy' := mul_left_cancel₀ hr.ne' hy
      ext <;> linarith
    rw [e]; exact this

theorem pointInSweep_run {u1 u2 : Vertex} (hu : ArcOk u1 u2) (hb : |u1.bulge| ≤ 1) (p0 p1 : V2)
    (t : ℝ) : pointInSweep p0 p1 (arcOf u1 u2) u1 u2 t =
      .ok (if -(1 / 10 ^ 8) ≤ t ∧ t ≤ 1 + 1 / 10 ^ 8 ∧
        InSweep (1 / 10 ^ 8) u1 u2 (centerOf u1 u2) (lerp p0 p1 t) then some (lerp p0 p1 t)
        else none) := by
  unfold pointInSweep
  by_cases h : t + realThreshold < 0 ∨ t > 1 + realThreshold
  · rw [if_pos h, if_neg]
    rintro ⟨h1, h2, -⟩
    unfold realThreshold at h
    rcases h with h | h <;> linarith
  · rw [if_neg h, hu.center]
    simp only [pointFromParametric, lerp_def]
    rw [within_eq hu.arc hb, ok_bind]
    simp only [nearSector_iff hu.b_ne, decide_eq_true_eq]
    unfold realThreshold at h
    push Not at h
    have h1 : -(1 / 10 ^ 8) ≤ t := by linarith [h.1]
    simp only [h1, h.2, true_and]
    rfl

/-- C50, straight segment and arc. The call does not fault. Every reported point is on the straight
segment (extended by 1e-8 of its length at both ends), within the sweep of the arc (up to the 1e-8
tolerance of the sweep test), and on the circle of the arc up to 1e-8 / (4 length²) in squared
distance. -/
theorem C50_line_arc_sound {v1 v2 u1 u2 : Vertex} (hv : IsLine v1) (hu : ¬ IsLine u1)
    (hok : SegOk u1 u2) {c : V2} (hc : IsCenter u1 u2 c) :
    (∃ res, intrPlineSegs v1 v2 u1 u2 = .ok res ∧ ∀ p, Reports res p →
      (∃ t, -(1 / 10 ^ 8) ≤ t ∧ t ≤ 1 + 1 / 10 ^ 8 ∧ p = lerp v1.pos v2.pos t) ∧
      InSweep (1 / 10 ^ 8) u1 u2 c p ∧
      |dist2 p c - dist2 u1.pos c| * (4 * dist2 v1.pos v2.pos) < 1 / 10 ^ 8) ∧
    intrPlineSegs u1 u2 v1 v2 = intrPlineSegs v1 v2 u1 u2 := by
  have hua := hok.arcOk hu
  have e8 : (0 : ℝ) < 1 / 10 ^ 8 := by norm_num
  obtain rfl := isCenter_unique hua.b_ne hc
  have hr2 : (arcOf u1 u2).radius ^ 2 = dist2 u1.pos (centerOf u1 u2) := arcOf_radius_sq hua.b_ne
  have hrun : intrPlineSegs v1 v2 u1 u2 = processLineArcIntr v1.pos v2.pos u1 u2 := by
    unfold intrPlineSegs
    rw [if_neg (fun h => hu h.2), if_pos (show v1.bulgeIsZero from hv)]
  have hrun' : intrPlineSegs u1 u2 v1 v2 = processLineArcIntr v1.pos v2.pos u1 u2 := by
    unfold intrPlineSegs
    rw [if_neg (fun h => hu h.1), if_neg (show ¬ u1.bulgeIsZero from hu),
      if_pos (show v1.bulgeIsZero from hv)]
  refine ⟨?_, by rw [hrun, hrun']⟩
  rw [hrun]
  unfold processLineArcIntr
  rw [hua.run, ok_bind]
  obtain ⟨res, h1, hshort, hlong⟩ := C19_line_circle v1.pos v2.pos (arcOf u1 u2).radius
    (arcOf u1 u2).center
  rw [h1, ok_bind]
  rw [hua.center, hr2] at hshort
  simp only [hua.center] at hlong
  have good : ∀ t, (-(1 / 10 ^ 8) ≤ t ∧ t ≤ 1 + 1 / 10 ^ 8 ∧
      InSweep (1 / 10 ^ 8) u1 u2 (centerOf u1 u2) (lerp v1.pos v2.pos t)) →
      |dist2 (lerp v1.pos v2.pos t) (centerOf u1 u2) - dist2 u1.pos (centerOf u1 u2)| *
        (4 * dist2 v1.pos v2.pos) < 1 / 10 ^ 8 → ∀ p, p = lerp v1.pos v2.pos t →
      (∃ t, -(1 / 10 ^ 8) ≤ t ∧ t ≤ 1 + 1 / 10 ^ 8 ∧ p = lerp v1.pos v2.pos t) ∧
      InSweep (1 / 10 ^ 8) u1 u2 (centerOf u1 u2) p ∧
      |dist2 p (centerOf u1 u2) - dist2 u1.pos (centerOf u1 u2)| * (4 * dist2 v1.pos v2.pos)
        < 1 / 10 ^ 8 := by
    rintro t ht hd p rfl
    exact ⟨⟨t, ht.1, ht.2.1, rfl⟩, ht.2.2, hd⟩
  cases res with
  | none => exact ⟨_, rfl, fun p hp => hp.elim⟩
  | one t0 =>
    have hd : |dist2 (lerp v1.pos v2.pos t0) (centerOf u1 u2) - dist2 u1.pos (centerOf u1 u2)| *
        (4 * dist2 v1.pos v2.pos) < 1 / 10 ^ 8 := by
      rcases lt_or_ge (dist2 v1.pos v2.pos) (1 / 10 ^ 8) with h | h
      · have hs := hshort h
        split_ifs at hs with hs1
        obtain rfl : t0 = 0 := by injection hs
        have e : lerp v1.pos v2.pos 0 = v1.pos := by ext <;> simp [lerp]
        rw [e]
        have hn := dist2_nonneg v1.pos v2.pos
        have : 4 * dist2 v1.pos v2.pos ≤ 1 := by
          have : (1 : ℝ) / 10 ^ 8 ≤ 1 / 4 := by norm_num
          linarith
        exact lt_of_le_of_lt (mul_le_of_le_one_right (abs_nonneg _) this) hs1
      · have := (hlong h).2
        rw [hr2] at this; exact this
    simp only [pointInSweep_run hua hok.half, ok_bind]
    split_ifs with ht
    · exact ⟨_, rfl, fun p hp => good t0 ht hd p hp⟩
    · exact ⟨_, rfl, fun p hp => hp.elim⟩
  | two t0 t1 =>
    have hd : ∀ t, t = t0 ∨ t = t1 →
        |dist2 (lerp v1.pos v2.pos t) (centerOf u1 u2) - dist2 u1.pos (centerOf u1 u2)| *
        (4 * dist2 v1.pos v2.pos) < 1 / 10 ^ 8 := by
      intro t ht
      rcases lt_or_ge (dist2 v1.pos v2.pos) (1 / 10 ^ 8) with h | h
      · have hs := hshort h
        split_ifs at hs
      · have := ((hlong h).2 t).mpr ht
        unfold OnCircle at this
        rw [this, hr2, sub_self, abs_zero, zero_mul]; exact e8
    simp only [pointInSweep_run hua hok.half, ok_bind]
    split_ifs with ht ht' ht'
    · refine ⟨_, rfl, fun p hp => ?_⟩
      rcases hp with hp | hp
      · exact good t0 ht (hd _ (Or.inl rfl)) p hp
      · exact good t1 ht' (hd _ (Or.inr rfl)) p hp
    · exact ⟨_, rfl, fun p hp => good t0 ht (hd _ (Or.inl rfl)) p hp⟩
    · exact ⟨_, rfl, fun p hp => good t1 ht' (hd _ (Or.inr rfl)) p hp⟩
    · exact ⟨_, rfl, fun p hp => hp.elim⟩

theorem inSweep_of_inSector {v1 v2 : Vertex} {p : V2} (h : InSector v1 v2 p) :
    InSweep (1 / 10 ^ 8) v1 v2 (centerOf v1 v2) p := by
  have e8 : (0 : ℝ) < 1 / 10 ^ 8 := by norm_num
  unfold InSweep
  rw [show side = cross from rfl]
  rcases h with ⟨a, b, c⟩ | ⟨a, b, c⟩
  · exact Or.inl ⟨a, by linarith, by linarith⟩
  · exact Or.inr ⟨a, by linarith, by linarith⟩

/-- C50, straight segment and arc, completeness: a common point of a straight segment of length at
least 1e-4 and an arc is reported, unless the line is nearly tangent to the circle there: the line
must cut the circle in a second point, at a distance from the first one of at least 1e-4 / length. -/
theorem C50_line_arc_complete {v1 v2 u1 u2 : Vertex} (hv : IsLine v1) (hu : ¬ IsLine u1)
    (hok : SegOk u1 u2) {c : V2} (hc : IsCenter u1 u2 c) (hlen : 1 / 10 ^ 8 ≤ dist2 v1.pos v2.pos)
    {t t' : ℝ} (h0 : 0 ≤ t) (h1 : t ≤ 1) (hx : OnSeg u1 u2 (lerp v1.pos v2.pos t))
    (hx' : OnCircle (distance u1.pos c) c (lerp v1.pos v2.pos t'))
    (hsep : 1 / 10 ^ 4 ≤ dist2 v1.pos v2.pos * |t - t'|) :
    ∃ res, intrPlineSegs v1 v2 u1 u2 = .ok res ∧ Reports res (lerp v1.pos v2.pos t) := by
  have hua := hok.arcOk hu
  have e8 : (0 : ℝ) < 1 / 10 ^ 8 := by norm_num
  obtain rfl := isCenter_unique hua.b_ne hc
  have hr2 : (arcOf u1 u2).radius = distance u1.pos (centerOf u1 u2) := hua.radius_eq
  have hrun : intrPlineSegs v1 v2 u1 u2 = processLineArcIntr v1.pos v2.pos u1 u2 := by
    unfold intrPlineSegs
    rw [if_neg (fun h => hu h.2), if_pos (show v1.bulgeIsZero from hv)]
  rw [hrun]
  obtain ⟨hcir, hsec⟩ := (onSeg_iff_circle hua hok.half _).mp hx
  unfold processLineArcIntr
  rw [hua.run, ok_bind]
  obtain ⟨res, g1, -, hlong⟩ := C19_line_circle v1.pos v2.pos (arcOf u1 u2).radius
    (arcOf u1 u2).center
  rw [g1, ok_bind]
  have hlong := hlong hlen
  simp only [hua.center, hr2] at hlong
  have hin : -(1 / 10 ^ 8) ≤ t ∧ t ≤ 1 + 1 / 10 ^ 8 ∧
      InSweep (1 / 10 ^ 8) u1 u2 (centerOf u1 u2) (lerp v1.pos v2.pos t) :=
    ⟨by linarith, by linarith, inSweep_of_inSector hsec⟩
  cases res with
  | none => exact absurd hcir (hlong t)
  | one t0 =>
    exfalso
    -- the two points are symmetric about the nearest one, which is then too far off
    obtain ⟨hmin, hd⟩ := hlong
    have hq : ∀ s, dist2 (lerp v1.pos v2.pos s) (centerOf u1 u2) =
        dist2 v1.pos v2.pos * s ^ 2 + 2 * ((v2.pos.x - v1.pos.x) * (v1.pos.x - (centerOf u1 u2).x) +
          (v2.pos.y - v1.pos.y) * (v1.pos.y - (centerOf u1 u2).y)) * s +
          dist2 v1.pos (centerOf u1 u2) := by
      intro s; simp only [dist2, lerp]; ring
    set A := dist2 v1.pos v2.pos
    set B := 2 * ((v2.pos.x - v1.pos.x) * (v1.pos.x - (centerOf u1 u2).x) +
          (v2.pos.y - v1.pos.y) * (v1.pos.y - (centerOf u1 u2).y))
    set C := dist2 v1.pos (centerOf u1 u2)
    set R := distance u1.pos (centerOf u1 u2) ^ 2 with hR
    unfold OnCircle at hcir hx'
    rw [hq] at hcir hx'
    have hA : 0 < A := by linarith
    have hne : t ≠ t' := by
      rintro rfl
      rw [sub_self, abs_zero, mul_zero] at hsep
      norm_num at hsep
    have hB : B = -A * (t + t') := by
      have : (t - t') * (A * (t + t') + B) = 0 := by linear_combination hcir - hx'
      have := (mul_eq_zero.mp this).resolve_left (sub_ne_zero.mpr hne)
      linarith
    -- nearest point is at the middle
    have hm := hmin ((t + t') / 2)
    rw [hq, hq] at hm
    have ht0 : t0 = (t + t') / 2 := by
      have : A * (t0 - (t + t') / 2) ^ 2 ≤ 0 := by rw [hB] at hm; nlinarith
      have h2 : (t0 - (t + t') / 2) ^ 2 ≤ 0 := by
        by_contra h; push Not at h
        have := mul_pos hA h; linarith
      have := pow_eq_zero_iff (two_ne_zero) |>.mp (le_antisymm h2 (sq_nonneg _))
      linarith
    rw [hq, ht0] at hd
    have hval : A * ((t + t') / 2) ^ 2 + B * ((t + t') / 2) + C - R = -(A * ((t - t') / 2) ^ 2) := by
      have hC : C = R - A * t ^ 2 - B * t := by linarith
      rw [hC, hB]; ring
    rw [hval, abs_neg, abs_of_nonneg (by positivity)] at hd
    have : A * ((t - t') / 2) ^ 2 * (4 * A) = (A * |t - t'|) ^ 2 := by
      rw [mul_pow, sq_abs]; ring
    rw [this] at hd
    have : (1 / 10 ^ 4 : ℝ) ^ 2 ≤ (A * |t - t'|) ^ 2 := by gcongr
    norm_num at this hd
    linarith
  | two t0 t1 =>
    have ht := (hlong.2 t).mp hcir
    simp only [pointInSweep_run hua hok.half, ok_bind]
    rcases ht with rfl | rfl
    · rw [if_pos hin]
      split_ifs
      · exact ⟨_, rfl, Or.inl rfl⟩
      · exact ⟨_, rfl, rfl⟩
    · rw [if_pos hin]
      split_ifs
      · exact ⟨_, rfl, Or.inr rfl⟩
      · exact ⟨_, rfl, rfl⟩

theorem bothArcs_run {v1 v2 u1 u2 : Vertex} (hv : ArcOk v1 v2) (hvb : |v1.bulge| ≤ 1)
    (hu : ArcOk u1 u2) (hub : |u1.bulge| ≤ 1) (p : V2) :
    bothArcsSweepPoint v1 v2 u1 u2 (arcOf v1 v2) (arcOf u1 u2) p =
      .ok (decide (InSweep (1 / 10 ^ 8) v1 v2 (centerOf v1 v2) p ∧
        InSweep (1 / 10 ^ 8) u1 u2 (centerOf u1 u2) p)) := by
  unfold bothArcsSweepPoint
  rw [hv.center, hu.center, within_eq hv.arc hvb, ok_bind, within_eq hu.arc hub]
  simp only [nearSector_iff hv.b_ne, nearSector_iff hu.b_ne, decide_eq_true_eq]
  by_cases h1 : InSweep (1 / 10 ^ 8) v1 v2 (centerOf v1 v2) p
  · rw [if_pos h1]; simp only [h1, true_and]
  · rw [if_neg h1]; simp only [h1, false_and, decide_false]; rfl

/-- The arc-arc case when the circles do not count as coincident. -/
theorem arcArc_run {v1 v2 u1 u2 : Vertex} (hv : ArcOk v1 v2) (hvb : |v1.bulge| ≤ 1)
    (hu : ArcOk u1 u2) (hub : |u1.bulge| ≤ 1) :
    intrPlineSegs v1 v2 u1 u2 =
      match intrCircle2Circle2 (distance v1.pos (centerOf v1 v2)) (centerOf v1 v2)
        (distance u1.pos (centerOf u1 u2)) (centerOf u1 u2) with
      | .noIntersect => .ok .noIntersect
      | .one p => .ok (if InSweep (1 / 10 ^ 8) v1 v2 (centerOf v1 v2) p ∧
          InSweep (1 / 10 ^ 8) u1 u2 (centerOf u1 u2) p then .oneIntersect p else .noIntersect)
      | .two p q => .ok (
          if InSweep (1 / 10 ^ 8) v1 v2 (centerOf v1 v2) p ∧
            InSweep (1 / 10 ^ 8) u1 u2 (centerOf u1 u2) p then
            if InSweep (1 / 10 ^ 8) v1 v2 (centerOf v1 v2) q ∧
              InSweep (1 / 10 ^ 8) u1 u2 (centerOf u1 u2) q then .twoIntersects p q
            else .oneIntersect p
          else if InSweep (1 / 10 ^ 8) v1 v2 (centerOf v1 v2) q ∧
              InSweep (1 / 10 ^ 8) u1 u2 (centerOf u1 u2) q then .oneIntersect q else .noIntersect)
      | .coincident => .ok (coincidentArcs v1 v2 u1 u2 (arcOf v1 v2) (arcOf u1 u2)) := by
  unfold intrPlineSegs
  rw [if_neg (fun h => hv.arc h.1), if_neg (show ¬ v1.bulgeIsZero from hv.arc),
    if_neg (show ¬ u1.bulgeIsZero from hu.arc)]
  unfold processArcArcIntr
  rw [hv.run, ok_bind, hu.run, ok_bind]
  simp only [hv.center, hu.center, hv.radius_eq, hu.radius_eq]
  generalize intrCircle2Circle2 (distance v1.pos (centerOf v1 v2)) (centerOf v1 v2)
        (distance u1.pos (centerOf u1 u2)) (centerOf u1 u2) = res
  cases res with
  | noIntersect => rfl
  | coincident => rfl
  | one p =>
    simp only [bothArcs_run hv hvb hu hub, ok_bind, decide_eq_true_eq]
    split_ifs <;> rfl
  | two p q =>
    simp only [bothArcs_run hv hvb hu hub, ok_bind, Bool.and_eq_true, decide_eq_true_eq]
    split_ifs <;> first | rfl | (exfalso; tauto)

/-- C50, two arcs on circles that do not count as coincident (centers or radii differ by at least
1e-8). The call does not fault; every reported point is within the sweeps of both arcs (up to the
1e-8 tolerance of the sweep test), and on both circles up to 2e-8 (1 + smaller radius / distance of
the centers); conversely a common point of both arcs is reported if the circles meet in a second
point at least 2e-8 away from it in a coordinate. -/
theorem C50_arc_arc {v1 v2 u1 u2 : Vertex} (hvl : ¬ IsLine v1) (hul : ¬ IsLine u1)
    (hv : SegOk v1 v2) (hu : SegOk u1 u2) {c d : V2} (hc : IsCenter v1 v2 c) (hd : IsCenter u1 u2 d)
    (hdiff : 1 / 10 ^ 8 ≤ distance c d ∨ 1 / 10 ^ 8 ≤ |distance v1.pos c - distance u1.pos d|) :
    ∃ res, intrPlineSegs v1 v2 u1 u2 = .ok res ∧
      (∀ p, Reports res p → InSweep (1 / 10 ^ 8) v1 v2 c p ∧ InSweep (1 / 10 ^ 8) u1 u2 d p ∧
        |distance p c - distance v1.pos c| ≤
          2 / 10 ^ 8 * (1 + min (distance v1.pos c) (distance u1.pos d) / distance c d) ∧
        |distance p d - distance u1.pos d| ≤
          2 / 10 ^ 8 * (1 + min (distance v1.pos c) (distance u1.pos d) / distance c d)) ∧
      (∀ x y, OnSeg v1 v2 x → OnSeg u1 u2 x → OnCircle (distance v1.pos c) c y →
        OnCircle (distance u1.pos d) d y → (2 / 10 ^ 8 ≤ |x.x - y.x| ∨ 2 / 10 ^ 8 ≤ |x.y - y.y|) →
        Reports res x) := by
  have hva := hv.arcOk hvl
  have hua := hu.arcOk hul
  obtain rfl := isCenter_unique hva.b_ne hc
  obtain rfl := isCenter_unique hua.b_ne hd
  rw [arcArc_run hva hv.half hua hu.half]
  have hcc := C20_circle_circle (distance_nonneg v1.pos (centerOf v1 v2))
    (distance_nonneg u1.pos (centerOf u1 u2)) (centerOf v1 v2) (centerOf u1 u2)
  have hnn : (0 : ℝ) ≤ 2 / 10 ^ 8 * (1 + min (distance v1.pos (centerOf v1 v2))
      (distance u1.pos (centerOf u1 u2)) / distance (centerOf v1 v2) (centerOf u1 u2)) := by
    have h1 := distance_nonneg v1.pos (centerOf v1 v2)
    have h2 := distance_nonneg u1.pos (centerOf u1 u2)
    have h3 := distance_nonneg (centerOf v1 v2) (centerOf u1 u2)
    have h4 : 0 ≤ min (distance v1.pos (centerOf v1 v2)) (distance u1.pos (centerOf u1 u2)) :=
      le_min h1 h2
    positivity
  have exact0 : ∀ {r : ℝ} {c p : V2}, 0 ≤ r → OnCircle r c p → distance p c - r = 0 := by
    intro r c p hr h
    unfold OnCircle at h
    rw [distance, h, Real.sqrt_sq hr, sub_self]
  -- a common point, in terms of the circles and the sweeps
  have com : ∀ x, OnSeg v1 v2 x → OnSeg u1 u2 x →
      (OnCircle (distance v1.pos (centerOf v1 v2)) (centerOf v1 v2) x ∧
        OnCircle (distance u1.pos (centerOf u1 u2)) (centerOf u1 u2) x) ∧
      InSweep (1 / 10 ^ 8) v1 v2 (centerOf v1 v2) x ∧
        InSweep (1 / 10 ^ 8) u1 u2 (centerOf u1 u2) x := by
    intro x hx hx'
    have a := (onSeg_iff_circle hva hv.half x).mp hx
    have b := (onSeg_iff_circle hua hu.half x).mp hx'
    exact ⟨⟨a.1, b.1⟩, inSweep_of_inSector a.2, inSweep_of_inSector b.2⟩
  generalize intrCircle2Circle2 (distance v1.pos (centerOf v1 v2)) (centerOf v1 v2)
        (distance u1.pos (centerOf u1 u2)) (centerOf u1 u2) = res at hcc ⊢
  cases res with
  | coincident =>
    simp only at hcc
    exfalso
    rcases hdiff with h | h <;> linarith [hcc.1, hcc.2]
  | noIntersect =>
    simp only at hcc
    refine ⟨_, rfl, fun p hp => hp.elim, fun x y hx hx' => ?_⟩
    exact absurd (com x hx hx').1 (hcc.2 x)
  | one p =>
    simp only at hcc
    have tol : |distance p (centerOf v1 v2) - distance v1.pos (centerOf v1 v2)| ≤ 2 / 10 ^ 8 *
        (1 + min (distance v1.pos (centerOf v1 v2)) (distance u1.pos (centerOf u1 u2)) /
          distance (centerOf v1 v2) (centerOf u1 u2)) ∧
        |distance p (centerOf u1 u2) - distance u1.pos (centerOf u1 u2)| ≤ 2 / 10 ^ 8 *
        (1 + min (distance v1.pos (centerOf v1 v2)) (distance u1.pos (centerOf u1 u2)) /
          distance (centerOf v1 v2) (centerOf u1 u2)) := by
      rcases hcc with ⟨h1, h2, -⟩ | ⟨-, h1, h2⟩
      · rw [exact0 (distance_nonneg _ _) h1, exact0 (distance_nonneg _ _) h2, abs_zero]
        exact ⟨hnn, hnn⟩
      · exact ⟨h1, h2⟩
    refine ⟨_, rfl, ?_, ?_⟩
    · intro q hq
      split_ifs at hq with hin
      · simp only [Reports] at hq
        subst hq
        exact ⟨hin.1, hin.2, tol⟩
      · exact hq.elim
    · intro x y hx hx' hy hy' hxy
      exfalso
      have hx2 := (com x hx hx').1
      rcases hcc with ⟨-, -, h⟩ | ⟨h, -⟩
      · have g1 := h x hx2
        have g2 := h y ⟨hy, hy'⟩
        rw [abs_lt, abs_lt] at g1 g2
        rw [le_abs, le_abs] at hxy
        rcases hxy with (h | h) | (h | h) <;> linarith [g1.1.1, g1.1.2, g1.2.1, g1.2.2, g2.1.1, g2.1.2, g2.2.1, g2.2.2]
      · exact h x hx2
  | two p q =>
    simp only at hcc
    obtain ⟨-, hall⟩ := hcc
    have onp := (hall p).mpr (Or.inl rfl)
    have onq := (hall q).mpr (Or.inr rfl)
    have good : ∀ x, x = p ∨ x = q → (InSweep (1 / 10 ^ 8) v1 v2 (centerOf v1 v2) x ∧
        InSweep (1 / 10 ^ 8) u1 u2 (centerOf u1 u2) x) → InSweep (1 / 10 ^ 8) v1 v2 (centerOf v1 v2) x ∧
        InSweep (1 / 10 ^ 8) u1 u2 (centerOf u1 u2) x ∧
        |distance x (centerOf v1 v2) - distance v1.pos (centerOf v1 v2)| ≤ 2 / 10 ^ 8 *
        (1 + min (distance v1.pos (centerOf v1 v2)) (distance u1.pos (centerOf u1 u2)) /
          distance (centerOf v1 v2) (centerOf u1 u2)) ∧
        |distance x (centerOf u1 u2) - distance u1.pos (centerOf u1 u2)| ≤ 2 / 10 ^ 8 *
        (1 + min (distance v1.pos (centerOf v1 v2)) (distance u1.pos (centerOf u1 u2)) /
          distance (centerOf v1 v2) (centerOf u1 u2)) := by
      intro x hx hin
      have on := (hall x).mpr hx
      rw [exact0 (distance_nonneg _ _) on.1, exact0 (distance_nonneg _ _) on.2, abs_zero]
      exact ⟨hin.1, hin.2, hnn, hnn⟩
    refine ⟨_, rfl, ?_, ?_⟩
    · intro x hx
      split_ifs at hx with g1 g2 g2
      · rcases hx with rfl | rfl
        · exact good _ (Or.inl rfl) g1
        · exact good _ (Or.inr rfl) g2
      · simp only [Reports] at hx; subst hx; exact good _ (Or.inl rfl) g1
      · simp only [Reports] at hx; subst hx; exact good _ (Or.inr rfl) g2
      · exact hx.elim
    · intro x y hx hx' _ _ _
      have h := com x hx hx'
      rcases (hall x).mp h.1 with rfl | rfl
      · rw [if_pos h.2]
        split_ifs
        · exact Or.inl rfl
        · rfl
      · split_ifs with g1 g2 g2
        · exact Or.inr rfl
        · exact absurd h.2 g2
        · rfl
        · exact absurd h.2 g2

end Cavc

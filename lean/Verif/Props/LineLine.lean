import Verif.Proofs.ArcSector

/-! C18: intersect of two straight segments. -/
namespace Cavc
open Spec
open scoped Classical

/-- The points the result reports; `v1 v2` is the second segment. -/
def Spec.LineLineReports (v1 v2 : V2) : LineLineResult → V2 → Prop
  | .none, _ => False
  | .trueIntr q, p => p = q
  | .coincident t0 t1, p => p = lerp v1 v2 t0 ∨ p = lerp v1 v2 t1
  | .falseIntr _ _ _, _ => False

theorem lerp_def (p q : V2) (t : ℝ) : p + t • (q - p) = lerp p q t := by
  ext <;> simp [lerp]

/-- C18, lines that cross at an angle (cross product of the directions above 1e-8): there is exactly
one pair of parameters at which the two infinite lines meet; the result is a true intersect with
that point if both parameters are in [-1e-8, 1 + 1e-8], and otherwise a false intersect with those
parameters and that point. -/
theorem C18_crossing (u1 u2 v1 v2 : V2)
    (h : 1 / 10 ^ 8 < |(u2.x - u1.x) * (v2.y - v1.y) - (u2.y - u1.y) * (v2.x - v1.x)|) :
    ∃ t0 t1 p, lerp u1 u2 t0 = p ∧ lerp v1 v2 t1 = p ∧
      (∀ s r, lerp u1 u2 s = lerp v1 v2 r → s = t0 ∧ r = t1) ∧
      intrLineSeg2LineSeg2 u1 u2 v1 v2 =
        if -(1 / 10 ^ 8) ≤ t0 ∧ t0 ≤ 1 + 1 / 10 ^ 8 ∧ -(1 / 10 ^ 8) ≤ t1 ∧ t1 ≤ 1 + 1 / 10 ^ 8
        then .trueIntr p else .falseIntr t0 t1 p := by
  have hd : perpDot (u2 - u1) (v2 - v1) ≠ 0 := by
    intro h0
    have : (u2.x - u1.x) * (v2.y - v1.y) - (u2.y - u1.y) * (v2.x - v1.x) = 0 := h0
    rw [this, abs_zero] at h
    norm_num at h
  refine ⟨perpDot (v2 - v1) (u1 - v1) / perpDot (u2 - u1) (v2 - v1),
    perpDot (u2 - u1) (u1 - v1) / perpDot (u2 - u1) (v2 - v1), _, ?_, rfl, ?_, ?_⟩
  · have hD : perpDot (u2 - u1) (v2 - v1) =
        (u2.x - u1.x) * (v2.y - v1.y) - (u2.y - u1.y) * (v2.x - v1.x) := rfl
    generalize perpDot (u2 - u1) (v2 - v1) = D at hd hD ⊢
    ext
    · simp only [lerp, perpDot, V2.sub_x, V2.sub_y]
      field_simp
      rw [hD]; ring
    · simp only [lerp, perpDot, V2.sub_x, V2.sub_y]
      field_simp
      rw [hD]; ring
  · intro s r hsr
    have hx := congrArg V2.x hsr
    have hy := congrArg V2.y hsr
    simp only [lerp] at hx hy
    constructor
    · rw [eq_div_iff hd]
      simp only [perpDot, V2.sub_x, V2.sub_y]
      linear_combination (v2.y - v1.y) * hx - (v2.x - v1.x) * hy
    · rw [eq_div_iff hd]
      simp only [perpDot, V2.sub_x, V2.sub_y]
      linear_combination (u2.y - u1.y) * hx - (u2.x - u1.x) * hy
  · unfold intrLineSeg2LineSeg2
    simp only
    rw [if_pos (show |perpDot (u2 - u1) (v2 - v1)| > realThreshold from h)]
    simp only [lerp_def, realThreshold]
    split_ifs with h1 h2 h2
    · rcases h1 with h1 | h1 | h1 | h1 <;> linarith [h2.1, h2.2.1, h2.2.2.1, h2.2.2.2]
    · rfl
    · rfl
    · exfalso
      apply h2
      push Not at h1
      refine ⟨?_, h1.2.1, ?_, h1.2.2.2⟩ <;> linarith [h1.1, h1.2.2.1]

/-- The parts of the parallel branch. -/
theorem parallel_branch {u1 u2 v1 v2 : V2}
    (h : ¬ 1 / 10 ^ 8 < |(u2.x - u1.x) * (v2.y - v1.y) - (u2.y - u1.y) * (v2.x - v1.x)|) :
    intrLineSeg2LineSeg2 u1 u2 v1 v2 =
      if |perpDot (u2 - u1) (u1 - v1)| > realThreshold ∨ |perpDot (v2 - v1) (u1 - v1)| > realThreshold
      then .none
      else if fuzzyEqualV u1 u2 ∧ fuzzyEqualV v1 v2 then
        if fuzzyEqualV u1 v1 then .trueIntr u1 else .none
      else if fuzzyEqualV u1 u2 then
        if isInSegment u1 v1 v2 then .trueIntr u1 else .none
      else if fuzzyEqualV v1 v2 then
        if isInSegment v1 u1 u2 then .trueIntr v1 else .none
      else collinearOverlap v1 (v2 - v1) (u1 - v1) (u2 - v1) := by
  unfold intrLineSeg2LineSeg2
  simp only
  rw [if_neg (show ¬ |perpDot (u2 - u1) (v2 - v1)| > realThreshold from h)]

/-- The coordinate along which the overlap is computed. -/
noncomputable def domCoord (v p : V2) : ℝ := if |v.x| < realThreshold then p.y else p.x

theorem overlap_eq (v1 v w w2 : V2) : collinearOverlap v1 v w w2 =
    let t0 := domCoord v w / domCoord v v
    let t1 := domCoord v w2 / domCoord v v
    if min t0 t1 > 1 + realThreshold ∨ max t0 t1 + realThreshold < 0 then .none
    else if |min (max t0 t1) 1 - max (min t0 t1) 0| < realThreshold then
      .trueIntr (v1 + max (min t0 t1) 0 • v)
    else .coincident (max (min t0 t1) 0) (min (max t0 t1) 1) := by
  have e : ∀ p : V2, (if |v.x| < realThreshold then p.y / v.y else p.x / v.x) =
      domCoord v p / domCoord v v := by
    intro p; unfold domCoord; split_ifs <;> rfl
  have hmin : ∀ a b : ℝ, (if a > b then b else a) = min a b := by
    intro a b; rw [min_def]; split_ifs <;> first | rfl | linarith
  have hmax : ∀ a b : ℝ, (if a > b then a else b) = max a b := by
    intro a b; rw [max_def]; split_ifs <;> first | rfl | linarith
  unfold collinearOverlap
  simp only [e, hmin, hmax]

theorem domCoord_ne {v1 v2 : V2} (h : ¬ fuzzyEqualV v1 v2) : domCoord (v2 - v1) (v2 - v1) ≠ 0 := by
  unfold domCoord
  split_ifs with hx
  · intro h0
    apply h
    have e : (v2 - v1).y = 0 := h0
    simp only [V2.sub_x, V2.sub_y] at hx e
    refine ⟨by rw [fuzzyEqual, abs_sub_comm]; exact hx, ?_⟩
    rw [fuzzyEqual, abs_sub_comm, e, abs_zero]; exact realThreshold_pos
  · intro h0
    apply hx
    rw [h0, abs_zero]; exact realThreshold_pos

theorem domCoord_lerp {u1 u2 v1 v2 : V2} {s r : ℝ} (h : lerp u1 u2 s = lerp v1 v2 r) :
    (1 - s) * domCoord (v2 - v1) (u1 - v1) + s * domCoord (v2 - v1) (u2 - v1) =
      r * domCoord (v2 - v1) (v2 - v1) := by
  have hx := congrArg V2.x h
  have hy := congrArg V2.y h
  simp only [lerp] at hx hy
  unfold domCoord
  split_ifs
  · simp only [V2.sub_y]; linear_combination hy
  · simp only [V2.sub_x]; linear_combination hx

theorem between_of_convex {a b s r : ℝ} (h0 : 0 ≤ s) (h1 : s ≤ 1) (h : (1 - s) * a + s * b = r) :
    min a b ≤ r ∧ r ≤ max a b := by
  have a1 := min_le_left a b
  have a2 := min_le_right a b
  have a3 := le_max_left a b
  have a4 := le_max_right a b
  constructor <;> nlinarith

/-- Common points have parameters between the parameters of the ends of the other segment. -/
theorem overlap_between {u1 u2 v1 v2 : V2} (hv : ¬ fuzzyEqualV v1 v2) {s r : ℝ} (h0 : 0 ≤ s)
    (h1 : s ≤ 1) (h : lerp u1 u2 s = lerp v1 v2 r) :
    let t0 := domCoord (v2 - v1) (u1 - v1) / domCoord (v2 - v1) (v2 - v1)
    let t1 := domCoord (v2 - v1) (u2 - v1) / domCoord (v2 - v1) (v2 - v1)
    min t0 t1 ≤ r ∧ r ≤ max t0 t1 := by
  have hd := domCoord_ne hv
  have h' := domCoord_lerp h
  apply between_of_convex h0 h1
  field_simp
  linarith

/-- C18, completeness: if the two segments have a common point, the result is a true intersect or an
overlap, unless both segments are shorter than 1e-8 in both coordinates (then this holds if their
start points agree to 1e-8). -/
theorem C18_complete {u1 u2 v1 v2 : V2} {s r : ℝ} (hs0 : 0 ≤ s) (hs1 : s ≤ 1) (hr0 : 0 ≤ r)
    (hr1 : r ≤ 1) (hsr : lerp u1 u2 s = lerp v1 v2 r)
    (hdeg : (1 / 10 ^ 8 ≤ |u1.x - u2.x| ∨ 1 / 10 ^ 8 ≤ |u1.y - u2.y|) ∨
      (1 / 10 ^ 8 ≤ |v1.x - v2.x| ∨ 1 / 10 ^ 8 ≤ |v1.y - v2.y|) ∨
      (|u1.x - v1.x| < 1 / 10 ^ 8 ∧ |u1.y - v1.y| < 1 / 10 ^ 8)) :
    (∃ p, intrLineSeg2LineSeg2 u1 u2 v1 v2 = .trueIntr p) ∨
    (∃ t0 t1, intrLineSeg2LineSeg2 u1 u2 v1 v2 = .coincident t0 t1) := by
  by_cases h : 1 / 10 ^ 8 < |(u2.x - u1.x) * (v2.y - v1.y) - (u2.y - u1.y) * (v2.x - v1.x)|
  · obtain ⟨t0, t1, p, -, -, huniq, hres⟩ := C18_crossing u1 u2 v1 v2 h
    obtain ⟨rfl, rfl⟩ := huniq s r hsr
    left
    refine ⟨p, ?_⟩
    rw [hres, if_pos]
    have : (0 : ℝ) < 1 / 10 ^ 8 := by norm_num
    refine ⟨?_, ?_, ?_, ?_⟩ <;> linarith
  · rw [parallel_branch h]
    have hx := congrArg V2.x hsr
    have hy := congrArg V2.y hsr
    simp only [lerp] at hx hy
    have h' := not_lt.mp h
    have ha : |perpDot (u2 - u1) (u1 - v1)| ≤ realThreshold := by
      have e : perpDot (u2 - u1) (u1 - v1) =
          r * ((u2.x - u1.x) * (v2.y - v1.y) - (u2.y - u1.y) * (v2.x - v1.x)) := by
        simp only [perpDot, V2.sub_x, V2.sub_y]
        linear_combination (u2.x - u1.x) * hy - (u2.y - u1.y) * hx
      rw [e, abs_mul, abs_of_nonneg hr0]
      exact (mul_le_of_le_one_left (abs_nonneg _) hr1).trans h'
    have hb : |perpDot (v2 - v1) (u1 - v1)| ≤ realThreshold := by
      have e : perpDot (v2 - v1) (u1 - v1) =
          s * ((u2.x - u1.x) * (v2.y - v1.y) - (u2.y - u1.y) * (v2.x - v1.x)) := by
        simp only [perpDot, V2.sub_x, V2.sub_y]
        linear_combination (v2.x - v1.x) * hy - (v2.y - v1.y) * hx
      rw [e, abs_mul, abs_of_nonneg hs0]
      exact (mul_le_of_le_one_left (abs_nonneg _) hs1).trans h'
    rw [if_neg (by rw [not_or]; exact ⟨not_lt.mpr ha, not_lt.mpr hb⟩)]
    -- a short segment lies within the threshold of any of its points
    have near : ∀ a b t : ℝ, 0 ≤ t → t ≤ 1 → |a - b| < realThreshold →
        |a - (a + t * (b - a))| < realThreshold := by
      intro a b t t0 t1 hab
      rw [show a - (a + t * (b - a)) = t * (a - b) by ring, abs_mul, abs_of_nonneg t0]
      exact lt_of_le_of_lt (mul_le_of_le_one_left (abs_nonneg _) t1) hab
    have inseg : ∀ (a b p : V2) (t : ℝ), 0 ≤ t → t ≤ 1 → |p.x - (lerp a b t).x| < realThreshold →
        |p.y - (lerp a b t).y| < realThreshold → isInSegment p a b := by
      intro a b p t t0 t1 px py
      have bet : ∀ m n : ℝ, min m n ≤ m + t * (n - m) ∧ m + t * (n - m) ≤ max m n :=
        fun m n => between_of_convex t0 t1 (by ring)
      simp only [lerp] at px py
      rw [abs_lt] at px py
      unfold isInSegment fuzzyInRange
      split_ifs
      · have := bet a.y b.y
        constructor <;> linarith [this.1, this.2]
      · have := bet a.x b.x
        constructor <;> linarith [this.1, this.2]
    by_cases hu : fuzzyEqualV u1 u2
    · have nx := near u1.x u2.x s hs0 hs1 hu.1
      have ny := near u1.y u2.y s hs0 hs1 hu.2
      by_cases hv : fuzzyEqualV v1 v2
      · rw [if_pos ⟨hu, hv⟩, if_pos]
        · exact Or.inl ⟨_, rfl⟩
        · rcases hdeg with hdeg | hdeg | hdeg
          · exact absurd hu (not_fuzzyEqualV hdeg)
          · exact absurd hv (not_fuzzyEqualV hdeg)
          · exact hdeg
      · rw [if_neg (fun h => hv h.2), if_pos hu, if_pos]
        · exact Or.inl ⟨_, rfl⟩
        · apply inseg v1 v2 u1 r hr0 hr1
          · rw [← hsr]; exact nx
          · rw [← hsr]; exact ny
    · rw [if_neg (fun h => hu h.1), if_neg hu]
      by_cases hv : fuzzyEqualV v1 v2
      · have nx := near v1.x v2.x r hr0 hr1 hv.1
        have ny := near v1.y v2.y r hr0 hr1 hv.2
        rw [if_pos hv, if_pos]
        · exact Or.inl ⟨_, rfl⟩
        · apply inseg u1 u2 v1 s hs0 hs1
          · rw [hsr]; exact nx
          · rw [hsr]; exact ny
      · rw [if_neg hv, overlap_eq]
        have hb := overlap_between hv hs0 hs1 hsr
        simp only at hb ⊢
        have := realThreshold_pos
        rw [if_neg (by rw [not_or]; constructor <;> linarith [hb.1, hb.2])]
        split_ifs
        · exact Or.inl ⟨_, rfl⟩
        · exact Or.inr ⟨_, _, rfl⟩

/-- C18, soundness: every reported point is within the thresholds on both lines: it spans with
either segment a triangle of (twice the) area at most 3e-8; unless a segment is shorter than 1e-8 in
both coordinates, it is a point of the second segment extended by 1e-8 of its length at both ends.
A result that reports a false intersect never names a common point of the two segments. -/
theorem C18_sound (u1 u2 v1 v2 : V2) :
    (∀ p, LineLineReports v1 v2 (intrLineSeg2LineSeg2 u1 u2 v1 v2) p →
      ((1 / 10 ^ 8 < |(u2.x - u1.x) * (v2.y - v1.y) - (u2.y - u1.y) * (v2.x - v1.x)| ∧
        side u1 u2 p = 0) ∨ |side u1 u2 p| ≤ 3 / 10 ^ 8) ∧
      |side v1 v2 p| ≤ 3 / 10 ^ 8 ∧
      ((1 / 10 ^ 8 ≤ |u1.x - u2.x| ∨ 1 / 10 ^ 8 ≤ |u1.y - u2.y|) →
        ∃ r, -(1 / 10 ^ 8) ≤ r ∧ r ≤ 1 + 1 / 10 ^ 8 ∧ p = lerp v1 v2 r)) ∧
    (∀ t0 t1 p, intrLineSeg2LineSeg2 u1 u2 v1 v2 = .falseIntr t0 t1 p →
      lerp u1 u2 t0 = p ∧ lerp v1 v2 t1 = p ∧
      ¬ ∃ s r, 0 ≤ s ∧ s ≤ 1 ∧ 0 ≤ r ∧ r ≤ 1 ∧ lerp u1 u2 s = lerp v1 v2 r) := by
  have e8 : (0 : ℝ) < 1 / 10 ^ 8 := by norm_num
  have side_lerp : ∀ (a b : V2) (t : ℝ), side a b (lerp a b t) = 0 := by
    intro a b t; simp only [side, lerp]; ring
  by_cases h : 1 / 10 ^ 8 < |(u2.x - u1.x) * (v2.y - v1.y) - (u2.y - u1.y) * (v2.x - v1.x)|
  · obtain ⟨t0, t1, p, h0, h1, huniq, hres⟩ := C18_crossing u1 u2 v1 v2 h
    rw [hres]
    constructor
    · intro q hq
      split_ifs at hq with hin
      · simp only [LineLineReports] at hq
        subst hq
        refine ⟨Or.inl ⟨h, ?_⟩, ?_, fun _ => ⟨t1, hin.2.2.1, hin.2.2.2, h1.symm⟩⟩
        · rw [← h0, side_lerp]
        · rw [← h1, side_lerp, abs_zero]; norm_num
      · exact hq.elim
    · intro s0 s1 q hq
      split_ifs at hq with hin
      obtain ⟨rfl, rfl, rfl⟩ := hq
      refine ⟨h0, h1, ?_⟩
      rintro ⟨s, r, a1, a2, a3, a4, he⟩
      obtain ⟨rfl, rfl⟩ := huniq s r he
      apply hin
      refine ⟨?_, ?_, ?_, ?_⟩ <;> linarith
  · have hd := not_lt.mp h
    rw [parallel_branch h]
    by_cases hab : |perpDot (u2 - u1) (u1 - v1)| > realThreshold ∨
        |perpDot (v2 - v1) (u1 - v1)| > realThreshold
    · rw [if_pos hab]
      exact ⟨fun _ hq => hq.elim, fun _ _ _ hq => by simp at hq⟩
    · rw [if_neg hab]
      push Not at hab
      have sv : side v1 v2 u1 = perpDot (v2 - v1) (u1 - v1) := rfl
      have su : side u1 u2 v1 = -perpDot (u2 - u1) (u1 - v1) := by
        simp only [side, perpDot, V2.sub_x, V2.sub_y]; ring
      have uu : side u1 u2 u1 = 0 := by simp [side]
      have vv : side v1 v2 v1 = 0 := by simp [side]
      have a1 : |side v1 v2 u1| ≤ 3 / 10 ^ 8 := by
        rw [sv]; have := hab.2; unfold realThreshold at this; linarith
      have a2 : |side u1 u2 v1| ≤ 3 / 10 ^ 8 := by
        rw [su, abs_neg]; have := hab.1; unfold realThreshold at this; linarith
      have z : |(0 : ℝ)| ≤ 3 / 10 ^ 8 := by rw [abs_zero]; norm_num
      split_ifs with c1 c2 c3 c4 c5 c6
      · refine ⟨fun q hq => ?_, fun _ _ _ hq => by simp at hq⟩
        simp only [LineLineReports] at hq
        subst hq
        exact ⟨Or.inr (by rw [uu]; exact z), a1, fun hn => absurd c1.1 (not_fuzzyEqualV hn)⟩
      · exact ⟨fun _ hq => hq.elim, fun _ _ _ hq => by simp at hq⟩
      · refine ⟨fun q hq => ?_, fun _ _ _ hq => by simp at hq⟩
        simp only [LineLineReports] at hq
        subst hq
        exact ⟨Or.inr (by rw [uu]; exact z), a1, fun hn => absurd c3 (not_fuzzyEqualV hn)⟩
      · exact ⟨fun _ hq => hq.elim, fun _ _ _ hq => by simp at hq⟩
      · refine ⟨fun q hq => ?_, fun _ _ _ hq => by simp at hq⟩
        simp only [LineLineReports] at hq
        subst hq
        exact ⟨Or.inr a2, by rw [vv]; exact z, fun _ => ⟨0, by linarith, by linarith, by
          ext <;> simp [lerp]⟩⟩
      · exact ⟨fun _ hq => hq.elim, fun _ _ _ hq => by simp at hq⟩
      · rw [overlap_eq]
        have good : ∀ r, -(1 / 10 ^ 8) ≤ r → r ≤ 1 + 1 / 10 ^ 8 →
            |side u1 u2 (lerp v1 v2 r)| ≤ 3 / 10 ^ 8 := by
          intro r r0 r1
          have e : side u1 u2 (lerp v1 v2 r) = -perpDot (u2 - u1) (u1 - v1) +
              r * ((u2.x - u1.x) * (v2.y - v1.y) - (u2.y - u1.y) * (v2.x - v1.x)) := by
            simp only [side, lerp, perpDot, V2.sub_x, V2.sub_y]; ring
          rw [e]
          have h1 := hab.1
          unfold realThreshold at h1
          have hr : |r| ≤ 2 := by rw [abs_le]; constructor <;> linarith [show (1 : ℝ) / 10 ^ 8 ≤ 1 by norm_num]
          calc _ ≤ |-perpDot (u2 - u1) (u1 - v1)| + |r * _| := abs_add_le _ _
            _ ≤ 1 / 10 ^ 8 + 2 * (1 / 10 ^ 8) := by
              rw [abs_neg, abs_mul]
              exact add_le_add h1 (mul_le_mul hr hd (abs_nonneg _) (by norm_num))
            _ = 3 / 10 ^ 8 := by norm_num
        simp only
        set t0 := domCoord (v2 - v1) (u1 - v1) / domCoord (v2 - v1) (v2 - v1)
        set t1 := domCoord (v2 - v1) (u2 - v1) / domCoord (v2 - v1) (v2 - v1)
        by_cases hout : min t0 t1 > 1 + realThreshold ∨ max t0 t1 + realThreshold < 0
        · rw [if_pos hout]
          exact ⟨fun _ hq => hq.elim, fun _ _ _ hq => by simp at hq⟩
        · rw [if_neg hout]
          push Not at hout
          unfold realThreshold at hout
          have b1 : -(1 / 10 ^ 8) ≤ max (min t0 t1) 0 := le_max_of_le_right (by linarith)
          have b2 : max (min t0 t1) 0 ≤ 1 + 1 / 10 ^ 8 := max_le hout.1 (by linarith)
          have b3 : -(1 / 10 ^ 8) ≤ min (max t0 t1) 1 := le_min (by linarith [hout.2]) (by linarith)
          have b4 : min (max t0 t1) 1 ≤ 1 + 1 / 10 ^ 8 := min_le_of_right_le (by linarith)
          have rep : ∀ r, -(1 / 10 ^ 8) ≤ r → r ≤ 1 + 1 / 10 ^ 8 → ∀ q, q = lerp v1 v2 r →
              ((1 / 10 ^ 8 < |(u2.x - u1.x) * (v2.y - v1.y) - (u2.y - u1.y) * (v2.x - v1.x)| ∧
                side u1 u2 q = 0) ∨ |side u1 u2 q| ≤ 3 / 10 ^ 8) ∧
              |side v1 v2 q| ≤ 3 / 10 ^ 8 ∧
              ((1 / 10 ^ 8 ≤ |u1.x - u2.x| ∨ 1 / 10 ^ 8 ≤ |u1.y - u2.y|) →
                ∃ r, -(1 / 10 ^ 8) ≤ r ∧ r ≤ 1 + 1 / 10 ^ 8 ∧ q = lerp v1 v2 r) := by
            rintro r r0 r1 q rfl
            exact ⟨Or.inr (good r r0 r1), by rw [side_lerp]; exact z, fun _ => ⟨r, r0, r1, rfl⟩⟩
          split_ifs
          · refine ⟨fun q hq => ?_, fun _ _ _ hq => by simp at hq⟩
            simp only [LineLineReports, lerp_def] at hq
            exact rep _ b1 b2 q hq
          · refine ⟨fun q hq => ?_, fun _ _ _ hq => by simp at hq⟩
            simp only [LineLineReports] at hq
            rcases hq with hq | hq
            · exact rep _ b1 b2 q hq
            · exact rep _ b3 b4 q hq

/-- C18, overlap: for segments on one line (exactly collinear, each at least 1e-8 long in a
coordinate) an overlap result names exactly the common part: the parameters are ordered, and a point
of the second segment is on the first one if and only if its parameter is between them (the
parameters themselves are in [0, 1], up to 1e-8 for the first one). A single point result is within
1e-8 (as a parameter) of a point of the first segment. -/
theorem C18_collinear {u1 u2 v1 v2 : V2} (h1 : side u1 u2 v1 = 0) (h2 : side u1 u2 v2 = 0)
    (hu : 1 / 10 ^ 8 ≤ |u1.x - u2.x| ∨ 1 / 10 ^ 8 ≤ |u1.y - u2.y|)
    (hv : 1 / 10 ^ 8 ≤ |v1.x - v2.x| ∨ 1 / 10 ^ 8 ≤ |v1.y - v2.y|) :
    (∀ t0 t1, intrLineSeg2LineSeg2 u1 u2 v1 v2 = .coincident t0 t1 →
      0 ≤ t0 ∧ t0 ≤ 1 + 1 / 10 ^ 8 ∧ -(1 / 10 ^ 8) ≤ t1 ∧ t1 ≤ 1 ∧
      ∀ r, 0 ≤ r → r ≤ 1 →
        ((∃ s, 0 ≤ s ∧ s ≤ 1 ∧ lerp u1 u2 s = lerp v1 v2 r) ↔ t0 ≤ r ∧ r ≤ t1)) ∧
    (∀ p, intrLineSeg2LineSeg2 u1 u2 v1 v2 = .trueIntr p →
      ∃ r r' s, 0 ≤ r ∧ r ≤ 1 + 1 / 10 ^ 8 ∧ p = lerp v1 v2 r ∧ 0 ≤ s ∧ s ≤ 1 ∧
        lerp u1 u2 s = lerp v1 v2 r' ∧ |r - r'| ≤ 1 / 10 ^ 8) ∧
    (∀ t0 t1 p, intrLineSeg2LineSeg2 u1 u2 v1 v2 ≠ .falseIntr t0 t1 p) := by
  have hd : (u2.x - u1.x) * (v2.y - v1.y) - (u2.y - u1.y) * (v2.x - v1.x) = 0 := by
    simp only [side] at h1 h2; linarith
  have nu : ¬ fuzzyEqualV u1 u2 := not_fuzzyEqualV hu
  have nv : ¬ fuzzyEqualV v1 v2 := not_fuzzyEqualV hv
  have ha : perpDot (u2 - u1) (u1 - v1) = 0 := by
    simp only [side] at h1
    simp only [perpDot, V2.sub_x, V2.sub_y]; linarith
  have une : u2.x - u1.x ≠ 0 ∨ u2.y - u1.y ≠ 0 := by
    by_contra hc
    push Not at hc
    apply nu
    constructor <;> unfold fuzzyEqual <;> rw [abs_sub_comm]
    · rw [hc.1, abs_zero]; exact realThreshold_pos
    · rw [hc.2, abs_zero]; exact realThreshold_pos
  -- all on one line, so both vectors relative to v1 are multiples of v
  have hb : perpDot (v2 - v1) (u1 - v1) = 0 := by
    have k1 : (u2.x - u1.x) * perpDot (v2 - v1) (u1 - v1) = 0 := by
      simp only [perpDot, V2.sub_x, V2.sub_y] at ha ⊢
      linear_combination (v2.x - v1.x) * ha - (u1.x - v1.x) * hd
    have k2 : (u2.y - u1.y) * perpDot (v2 - v1) (u1 - v1) = 0 := by
      simp only [perpDot, V2.sub_x, V2.sub_y] at ha ⊢
      linear_combination (v2.y - v1.y) * ha - (u1.y - v1.y) * hd
    rcases une with hne | hne
    · exact (mul_eq_zero.mp k1).resolve_left hne
    · exact (mul_eq_zero.mp k2).resolve_left hne
  have hrun : intrLineSeg2LineSeg2 u1 u2 v1 v2 =
      collinearOverlap v1 (v2 - v1) (u1 - v1) (u2 - v1) := by
    rw [parallel_branch (by rw [hd, abs_zero]; norm_num), if_neg, if_neg (fun h => nu h.1),
      if_neg nu, if_neg nv]
    rw [ha, hb, abs_zero]
    have := realThreshold_pos
    rw [not_or]; constructor <;> linarith
  have hvd := domCoord_ne nv
  -- the ends of the first segment as points of the second line
  have onv : ∀ p : V2, perpDot (v2 - v1) (p - v1) = 0 →
      lerp v1 v2 (domCoord (v2 - v1) (p - v1) / domCoord (v2 - v1) (v2 - v1)) = p := by
    intro p hp
    simp only [perpDot, V2.sub_x, V2.sub_y] at hp
    revert hvd
    unfold domCoord
    split_ifs
    · intro hvd
      simp only [V2.sub_y] at hvd ⊢
      ext <;> simp only [lerp]
      · field_simp; linarith
      · field_simp; ring
    · intro hvd
      simp only [V2.sub_x] at hvd ⊢
      ext <;> simp only [lerp]
      · field_simp; ring
      · field_simp; linarith
  have hb2 : perpDot (v2 - v1) (u2 - v1) = 0 := by
    simp only [perpDot, V2.sub_x, V2.sub_y] at hb hd ⊢
    linarith
  have e1 := onv u1 hb
  have e2 := onv u2 hb2
  rw [hrun, overlap_eq]
  simp only
  have hbet := fun (s r : ℝ) h0 h1' hsr => overlap_between (u1 := u1) (u2 := u2) nv (s := s) (r := r) h0 h1' hsr
  simp only at hbet
  set t0 := domCoord (v2 - v1) (u1 - v1) / domCoord (v2 - v1) (v2 - v1)
  set t1 := domCoord (v2 - v1) (u2 - v1) / domCoord (v2 - v1) (v2 - v1)
  have hl : ∀ s, lerp u1 u2 s = lerp v1 v2 ((1 - s) * t0 + s * t1) := by
    intro s
    rw [← e1, ← e2]; ext <;> simp only [lerp] <;> ring
  -- every parameter between t0 and t1 is on the first segment
  have conv : ∀ r, min t0 t1 ≤ r → r ≤ max t0 t1 → ∃ s, 0 ≤ s ∧ s ≤ 1 ∧
      lerp u1 u2 s = lerp v1 v2 r := by
    intro r r0 r1
    by_cases heq : t0 = t1
    · refine ⟨0, le_refl _, zero_le_one, ?_⟩
      rw [hl 0]; rw [heq, min_self] at r0; rw [heq, max_self] at r1
      rw [heq, show r = t1 from le_antisymm r1 r0]; congr 1; ring
    · have hne : t1 - t0 ≠ 0 := fun h => heq (by linarith)
      refine ⟨(r - t0) / (t1 - t0), ?_, ?_, ?_⟩
      · rcases le_total t0 t1 with hle | hle
        · rw [min_eq_left hle] at r0; exact div_nonneg (by linarith) (by linarith)
        · rw [max_eq_left hle] at r1
          exact div_nonneg_of_nonpos (by linarith) (by linarith)
      · rcases le_total t0 t1 with hle | hle
        · rw [max_eq_right hle] at r1
          rw [div_le_one (lt_of_le_of_ne (by linarith) (Ne.symm hne))]; linarith
        · rw [min_eq_right hle] at r0
          rw [div_le_one_of_neg (lt_of_le_of_ne (by linarith) hne)]; linarith
      · rw [hl]; congr 1; field_simp; ring
  by_cases hout : min t0 t1 > 1 + realThreshold ∨ max t0 t1 + realThreshold < 0
  · rw [if_pos hout]
    exact ⟨fun _ _ hq => by simp at hq, fun _ hq => by simp at hq, fun _ _ _ hq => by simp at hq⟩
  · rw [if_neg hout]
    push Not at hout
    unfold realThreshold at hout ⊢
    have hmm : min t0 t1 ≤ max t0 t1 := min_le_max
    have e8 : (0 : ℝ) < 1 / 10 ^ 8 := by norm_num
    split_ifs with hsmall
    · refine ⟨fun _ _ hq => by simp at hq, fun p hq => ?_, fun _ _ _ hq => by simp at hq⟩
      simp only [LineLineResult.trueIntr.injEq, lerp_def] at hq
      subst hq
      have hr1 : max (min t0 t1) 0 ≤ 1 + 1 / 10 ^ 8 := max_le hout.1 (by linarith)
      rcases le_total 0 (min t0 t1) with hm | hm
      · rw [max_eq_left hm] at hr1 ⊢
        obtain ⟨s, s0, s1, hs⟩ := conv (min t0 t1) (le_refl _) hmm
        exact ⟨_, _, s, hm, hr1, rfl, s0, s1, hs, by rw [sub_self, abs_zero]; linarith⟩
      · rw [max_eq_right hm] at hr1 ⊢
        by_cases hM : 0 ≤ max t0 t1
        · obtain ⟨s, s0, s1, hs⟩ := conv 0 hm hM
          exact ⟨_, _, s, le_refl _, hr1, rfl, s0, s1, hs, by rw [sub_self, abs_zero]; linarith⟩
        · push Not at hM
          obtain ⟨s, s0, s1, hs⟩ := conv (max t0 t1) hmm (le_refl _)
          refine ⟨_, _, s, le_refl _, hr1, rfl, s0, s1, hs, ?_⟩
          rw [zero_sub, abs_neg, abs_of_neg hM]
          linarith [hout.2]
    · refine ⟨fun a b hq => ?_, fun _ hq => by simp at hq, fun _ _ _ hq => by simp at hq⟩
      simp only [LineLineResult.coincident.injEq] at hq
      obtain ⟨rfl, rfl⟩ := hq
      refine ⟨le_max_right _ _, max_le hout.1 (by linarith), le_min (by linarith [hout.2])
        (by linarith), min_le_right _ _, ?_⟩
      intro r r0 r1
      constructor
      · rintro ⟨s, s0, s1, hs⟩
        have := hbet s r s0 s1 hs
        exact ⟨max_le this.1 r0, le_min this.2 r1⟩
      · rintro ⟨g1, g2⟩
        exact conv r ((le_max_left _ _).trans g1) (g2.trans (min_le_left _ _))

/-- Crossing diagonals of a square. -/
example : intrLineSeg2LineSeg2 ⟨0, 0⟩ ⟨2, 2⟩ ⟨0, 2⟩ ⟨2, 0⟩ = .trueIntr ⟨1, 1⟩ := by
  obtain ⟨t0, t1, p, h0, h1, hu, hr⟩ := C18_crossing ⟨0, 0⟩ ⟨2, 2⟩ ⟨0, 2⟩ ⟨2, 0⟩ (by norm_num)
  obtain ⟨rfl, rfl⟩ := hu (1 / 2) (1 / 2) (by ext <;> norm_num [lerp])
  rw [hr, if_pos (by norm_num), ← h0]
  norm_num [lerp]

/-- C18_complete and C18_collinear apply to two overlapping segments of the x axis, and the overlap
reported is from 1/2 to 1. -/
example : (∃ p, intrLineSeg2LineSeg2 ⟨1, 0⟩ ⟨3, 0⟩ ⟨0, 0⟩ ⟨2, 0⟩ = .trueIntr p) ∨
    (∃ t0 t1, intrLineSeg2LineSeg2 ⟨1, 0⟩ ⟨3, 0⟩ ⟨0, 0⟩ ⟨2, 0⟩ = .coincident t0 t1 ∧
      t0 = 1 / 2 ∧ t1 = 1) := by
  have hu : (1 : ℝ) / 10 ^ 8 ≤ |(⟨1, 0⟩ : V2).x - (⟨3, 0⟩ : V2).x| ∨
      (1 : ℝ) / 10 ^ 8 ≤ |(⟨1, 0⟩ : V2).y - (⟨3, 0⟩ : V2).y| := Or.inl (by norm_num)
  have hv : (1 : ℝ) / 10 ^ 8 ≤ |(⟨0, 0⟩ : V2).x - (⟨2, 0⟩ : V2).x| ∨
      (1 : ℝ) / 10 ^ 8 ≤ |(⟨0, 0⟩ : V2).y - (⟨2, 0⟩ : V2).y| := Or.inl (by norm_num)
  rcases C18_complete (u1 := ⟨1, 0⟩) (u2 := ⟨3, 0⟩) (v1 := ⟨0, 0⟩) (v2 := ⟨2, 0⟩) (s := 0)
    (r := 1 / 2) (by norm_num) (by norm_num) (by norm_num) (by norm_num)
    (by ext <;> norm_num [lerp]) (Or.inl hu) with h | ⟨t0, t1, h⟩
  · exact Or.inl h
  · right
    have := (C18_collinear (by norm_num [side]) (by norm_num [side]) hu hv).1 t0 t1 h
    obtain ⟨a0, -, -, a1, hiff⟩ := this
    have g1 := (hiff (1 / 2) (by norm_num) (by norm_num)).mp
      ⟨0, by norm_num, by norm_num, by ext <;> norm_num [lerp]⟩
    have g2 := (hiff 1 (by norm_num) (by norm_num)).mp
      ⟨1 / 2, by norm_num, by norm_num, by ext <;> norm_num [lerp]⟩
    refine ⟨t0, t1, h, ?_, le_antisymm a1 g2.2⟩
    apply le_antisymm g1.1
    by_contra hlt
    push Not at hlt
    obtain ⟨s, s0, s1, hs⟩ := (hiff t0 a0 (by linarith)).mpr ⟨le_refl _, by linarith [g1.2]⟩
    have := congrArg V2.x hs
    simp only [lerp] at this
    linarith

end Cavc

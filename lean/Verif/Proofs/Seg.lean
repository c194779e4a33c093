import Verif.Proofs.Angles
import Mathlib.Analysis.SpecialFunctions.Trigonometric.Bounds

/-! Helper facts about segments. -/
namespace Cavc
open Spec
open scoped Classical

theorem realThreshold_pos : 0 < realThreshold := by unfold realThreshold; positivity
theorem realPrecision_pos : 0 < realPrecision := by unfold realPrecision; positivity

theorem not_fuzzyEqualV {p q : V2} {ε : ℝ} (h : ε ≤ |p.x - q.x| ∨ ε ≤ |p.y - q.y|) :
    ¬ fuzzyEqualV p q ε := by
  rintro ⟨h1, h2⟩
  unfold fuzzyEqual at h1 h2
  rcases h with h | h <;> linarith

theorem ne_of_not_fuzzyEqualV {p q : V2} {ε : ℝ} (hε : 0 < ε) (h : ¬ fuzzyEqualV p q ε) : p ≠ q := by
  rintro rfl
  exact h ⟨by simpa [fuzzyEqual] using hε, by simpa [fuzzyEqual] using hε⟩

/-- arcs with different end points, any size -/
structure ArcOk (v1 v2 : Vertex) : Prop where
  arc : ¬ IsLine v1
  far : 1 / 10 ^ 8 ≤ |v1.pos.x - v2.pos.x| ∨ 1 / 10 ^ 8 ≤ |v1.pos.y - v2.pos.y|

theorem Spec.SegOk.arcOk {v1 v2 : Vertex} (h : SegOk v1 v2) (hl : ¬ IsLine v1) : ArcOk v1 v2 :=
  ⟨hl, h.distinct hl⟩

theorem ArcOk.b_ne {v1 v2 : Vertex} (h : ArcOk v1 v2) : v1.bulge ≠ 0 := bulge_ne_zero h.arc

theorem ArcOk.not_fuzzy {v1 v2 : Vertex} (h : ArcOk v1 v2) : ¬ fuzzyEqualV v1.pos v2.pos :=
  not_fuzzyEqualV h.far

theorem ArcOk.ne {v1 v2 : Vertex} (h : ArcOk v1 v2) : v1.pos ≠ v2.pos :=
  ne_of_not_fuzzyEqualV realThreshold_pos h.not_fuzzy

theorem ArcOk.run {v1 v2 : Vertex} (h : ArcOk v1 v2) :
    arcRadiusAndCenter v1 v2 = .ok (arcOf v1 v2) := by
  unfold arcRadiusAndCenter
  rw [assertP_pos (show ¬ v1.bulgeIsZero from h.arc), ok_bind, assertP_pos h.not_fuzzy]; rfl

theorem ArcOk.center {v1 v2 : Vertex} (h : ArcOk v1 v2) :
    (arcOf v1 v2).center = centerOf v1 v2 := arcOf_center h.b_ne h.ne

theorem ArcOk.start_ne {v1 v2 : Vertex} (h : ArcOk v1 v2) : v1.pos ≠ centerOf v1 v2 :=
  center_ne_start h.b_ne h.ne

theorem ArcOk.radius_pos {v1 v2 : Vertex} (h : ArcOk v1 v2) : 0 < (arcOf v1 v2).radius :=
  arcOf_radius_pos h.b_ne h.ne

theorem ArcOk.radius_eq {v1 v2 : Vertex} (h : ArcOk v1 v2) :
    (arcOf v1 v2).radius = distance v1.pos (centerOf v1 v2) := by
  rw [distance, ← arcOf_radius_sq h.b_ne, Real.sqrt_sq h.radius_pos.le]

/-- end point as rotated start point -/
theorem ArcOk.end_eq {v1 v2 : Vertex} (h : ArcOk v1 v2) :
    rot (centerOf v1 v2) (sweep v1) v1.pos = v2.pos := isCenter_centerOf h.b_ne

theorem arctan_abs_lt (b : ℝ) : |2 * Real.arctan b| < Real.pi := by
  rw [abs_lt]
  constructor
  · linarith [Real.neg_pi_div_two_lt_arctan b]
  · linarith [Real.arctan_lt_pi_div_two b]

/-- `sin (u φ) / sin φ` is in [-1, 1] for `|φ| ≤ π/2`, `|u| ≤ 1`. -/
theorem sin_ratio {φ u : ℝ} (h0 : φ ≠ 0) (h1 : |φ| ≤ Real.pi / 2) (hu : |u| ≤ 1) :
    |Real.sin (u * φ) / Real.sin φ| ≤ 1 := by
  have key : ∀ φ : ℝ, 0 < φ → φ ≤ Real.pi / 2 → |Real.sin (u * φ) / Real.sin φ| ≤ 1 := by
    intro φ hp hle
    have hs : 0 < Real.sin φ := Real.sin_pos_of_pos_of_lt_pi hp (by linarith [Real.pi_pos])
    rw [abs_div, abs_of_pos hs, div_le_one hs, abs_le]
    rw [abs_le] at hu
    have a1 : u * φ ≤ φ := by nlinarith
    have a2 : -φ ≤ u * φ := by nlinarith
    constructor
    · rw [← Real.sin_neg]
      exact Real.sin_le_sin_of_le_of_le_pi_div_two (by linarith) (by linarith) a2
    · exact Real.sin_le_sin_of_le_of_le_pi_div_two (by linarith) (by linarith) a1
  rcases lt_or_gt_of_ne h0 with h | h
  · have := key (-φ) (by linarith) (by rw [abs_of_neg h] at h1; exact h1)
    rwa [mul_neg, Real.sin_neg, Real.sin_neg, neg_div_neg_eq] at this
  · exact key φ h (by rw [abs_of_pos h] at h1; exact h1)

theorem cos_le_cos_mul {φ u : ℝ} (h1 : |φ| ≤ Real.pi) (hu : |u| ≤ 1) :
    Real.cos φ ≤ Real.cos (u * φ) := by
  rw [← Real.cos_abs φ, ← Real.cos_abs (u * φ)]
  apply Real.cos_le_cos_of_nonneg_of_le_pi (abs_nonneg _) h1
  rw [abs_mul]
  exact mul_le_of_le_one_left (abs_nonneg _) hu

/-- Points of an arc of at most a half circle: along the chord by `s` and towards the apex of the
sagitta by `h`, both in [0, 1]. -/
theorem arc_point_bounds {v1 v2 : Vertex} (hl : ¬ IsLine v1) (hb : |v1.bulge| ≤ 1) {t : ℝ}
    (h0 : 0 ≤ t) (h1 : t ≤ 1) {p : V2} (hp : AtParam v1 v2 t p) :
    ∃ s h, 0 ≤ s ∧ s ≤ 1 ∧ 0 ≤ h ∧ h ≤ 1 ∧
      p.x = v1.pos.x + s * (v2.pos.x - v1.pos.x) + h * (v1.bulge / 2 * (v2.pos.y - v1.pos.y)) ∧
      p.y = v1.pos.y + s * (v2.pos.y - v1.pos.y) - h * (v1.bulge / 2 * (v2.pos.x - v1.pos.x)) := by
  have hne := bulge_ne_zero hl
  rw [atParam_arc hl, arc_chord_form hne] at hp
  set φ := 2 * Real.arctan v1.bulge with hφ
  have hφ2 : |φ| ≤ Real.pi / 2 := by
    have := abs_sweep_le hb
    have e : sweep v1 = 2 * φ := by rw [hφ, sweep]; ring
    rw [e, abs_mul, abs_of_pos (by norm_num : (0 : ℝ) < 2)] at this
    linarith
  have hφ0 : φ ≠ 0 := by
    rw [hφ]; intro h
    have : Real.arctan v1.bulge = 0 := by linarith
    rw [Real.arctan_eq_zero_iff] at this
    exact hne this
  have hu : |2 * t - 1| ≤ 1 := by rw [abs_le]; constructor <;> linarith
  have hs := abs_le.mp (sin_ratio hφ0 hφ2 hu)
  have hc := cos_le_cos_mul (hφ2.trans (by linarith [Real.pi_pos])) hu
  have hc1 : Real.cos φ < 1 := by
    rw [hφ, cos_two_arctan, div_lt_one (by positivity)]
    have : 0 < v1.bulge ^ 2 := by positivity
    linarith
  have hc2 := Real.cos_le_one ((2 * t - 1) * φ)
  refine ⟨_, _, ?_, ?_, ?_, ?_, congrArg V2.x hp, congrArg V2.y hp⟩
  · linarith [hs.1]
  · linarith [hs.2]
  · exact div_nonneg (by linarith) (by linarith)
  · rw [div_le_one (by linarith)]; linarith

end Cavc

import Verif.Spec.Geom
import Mathlib.Tactic.Linarith
import Mathlib.Tactic.LinearCombination
import Mathlib.Tactic.FieldSimp
import Mathlib.Tactic.Positivity
import Mathlib.Tactic.NormNum
import Mathlib.Analysis.SpecialFunctions.Trigonometric.Angle

/-! Geometry of arcs: rotations, half sweep, center, chord form. -/
namespace Cavc
open Spec

theorem rot_zero (c p : V2) : rot c 0 p = p := by ext <;> simp [rot]

theorem rot_add (c p : V2) (a b : ℝ) : rot c a (rot c b p) = rot c (a + b) p := by
  ext
  · simp only [rot, Real.cos_add, Real.sin_add]; ring
  · simp only [rot, Real.cos_add, Real.sin_add]; ring

theorem dist2_rot (c p : V2) (a : ℝ) : dist2 (rot c a p) c = dist2 p c := by
  have := Real.sin_sq_add_cos_sq a
  simp only [dist2, rot]
  linear_combination ((p.x - c.x) ^ 2 + (p.y - c.y) ^ 2) * this

theorem cos_two_arctan (b : ℝ) : Real.cos (2 * Real.arctan b) = (1 - b ^ 2) / (1 + b ^ 2) := by
  have h : (0 : ℝ) < 1 + b ^ 2 := by positivity
  rw [Real.cos_two_mul, Real.cos_sq_arctan]
  field_simp; ring

theorem sin_two_arctan (b : ℝ) : Real.sin (2 * Real.arctan b) = 2 * b / (1 + b ^ 2) := by
  have h : (0 : ℝ) < 1 + b ^ 2 := by positivity
  have hs := Real.sqrt_pos.mpr h
  have hs2 := Real.sq_sqrt h.le
  rw [Real.sin_two_mul, Real.sin_arctan, Real.cos_arctan]
  field_simp
  rw [hs2]

theorem cos_sweep (v : Vertex) :
    Real.cos (sweep v) = ((1 - v.bulge ^ 2) ^ 2 - 4 * v.bulge ^ 2) / (1 + v.bulge ^ 2) ^ 2 := by
  have h : (0 : ℝ) < 1 + v.bulge ^ 2 := by positivity
  rw [sweep, show 4 * Real.arctan v.bulge = 2 * (2 * Real.arctan v.bulge) by ring, Real.cos_two_mul,
    cos_two_arctan]
  field_simp; ring

theorem sin_sweep (v : Vertex) :
    Real.sin (sweep v) = 4 * v.bulge * (1 - v.bulge ^ 2) / (1 + v.bulge ^ 2) ^ 2 := by
  have h : (0 : ℝ) < 1 + v.bulge ^ 2 := by positivity
  rw [sweep, show 4 * Real.arctan v.bulge = 2 * (2 * Real.arctan v.bulge) by ring, Real.sin_two_mul,
    cos_two_arctan, sin_two_arctan]
  field_simp; ring

theorem cos_sweep_ne_one {v : Vertex} (hb : v.bulge ≠ 0) : Real.cos (sweep v) ≠ 1 := by
  rw [cos_sweep]
  have h : (0 : ℝ) < 1 + v.bulge ^ 2 := by positivity
  rw [Ne, div_eq_one_iff_eq (by positivity)]
  intro h'
  have : v.bulge ^ 2 = 0 := by nlinarith
  exact hb (by simpa using this)

/-- The center in closed form: midpoint plus `(1 - b²)/(4 b)` times the perpendicular. -/
noncomputable def centerOf (v1 v2 : Vertex) : V2 :=
  ⟨(v1.pos.x + v2.pos.x) / 2 - (1 - v1.bulge ^ 2) / (4 * v1.bulge) * (v2.pos.y - v1.pos.y),
   (v1.pos.y + v2.pos.y) / 2 + (1 - v1.bulge ^ 2) / (4 * v1.bulge) * (v2.pos.x - v1.pos.x)⟩

theorem isCenter_centerOf {v1 v2 : Vertex} (hb : v1.bulge ≠ 0) : IsCenter v1 v2 (centerOf v1 v2) := by
  have h : (0 : ℝ) < 1 + v1.bulge ^ 2 := by positivity
  unfold IsCenter
  ext
  · simp only [rot, centerOf, cos_sweep, sin_sweep]
    field_simp
    ring
  · simp only [rot, centerOf, cos_sweep, sin_sweep]
    field_simp
    ring

theorem isCenter_unique {v1 v2 : Vertex} (hb : v1.bulge ≠ 0) {c : V2} (hc : IsCenter v1 v2 c) :
    c = centerOf v1 v2 := by
  have hc' := isCenter_centerOf (v2 := v2) hb
  set e := centerOf v1 v2
  unfold IsCenter at hc hc'
  rw [← hc] at hc'
  have h1 := congrArg V2.x hc'
  have h2 := congrArg V2.y hc'
  simp only [rot] at h1 h2
  have hcos := cos_sweep_ne_one hb
  have hsc := Real.sin_sq_add_cos_sq (sweep v1)
  set C := Real.cos (sweep v1)
  set S := Real.sin (sweep v1)
  have k : (2 : ℝ) * (1 - C) ≠ 0 := by
    intro h; apply hcos; linarith
  ext
  · have : (2 * (1 - C)) * (c.x - e.x) = 0 := by
      linear_combination (-(1 - C)) * h1 + S * h2 - (c.x - e.x) * hsc
    rcases mul_eq_zero.mp this with h | h
    · exact absurd h k
    · linarith
  · have : (2 * (1 - C)) * (c.y - e.y) = 0 := by
      linear_combination (-S) * h1 + (-(1 - C)) * h2 - (c.y - e.y) * hsc
    rcases mul_eq_zero.mp this with h | h
    · exact absurd h k
    · linarith

theorem isCenter_iff {v1 v2 : Vertex} (hb : v1.bulge ≠ 0) {c : V2} :
    IsCenter v1 v2 c ↔ c = centerOf v1 v2 :=
  ⟨isCenter_unique hb, fun h => h ▸ isCenter_centerOf hb⟩

theorem bulge_ne_zero {v : Vertex} (h : ¬ IsLine v) : v.bulge ≠ 0 := by
  intro h0; apply h; simp [IsLine, h0]

theorem bulgeIsZero_iff (v : Vertex) : v.bulgeIsZero ↔ IsLine v := Iff.rfl

theorem atParam_line {v1 v2 : Vertex} (h : IsLine v1) {t : ℝ} {p : V2} :
    AtParam v1 v2 t p ↔ p = lerp v1.pos v2.pos t := by
  unfold AtParam; tauto

theorem atParam_arc {v1 v2 : Vertex} (h : ¬ IsLine v1) {t : ℝ} {p : V2} :
    AtParam v1 v2 t p ↔ p = rot (centerOf v1 v2) (t * sweep v1) v1.pos := by
  unfold AtParam
  have hb := bulge_ne_zero h
  constructor
  · rintro (⟨h', _⟩ | ⟨_, c, hc, hp⟩)
    · exact absurd h' h
    · rw [← isCenter_unique hb hc]; exact hp
  · intro hp
    exact Or.inr ⟨h, _, isCenter_centerOf hb, hp⟩

/-- every parameter has exactly one point -/
theorem atParam_unique (v1 v2 : Vertex) (t : ℝ) : ∃! p, AtParam v1 v2 t p := by
  by_cases h : IsLine v1
  · exact ⟨_, (atParam_line h).mpr rfl, fun y hy => (atParam_line h).mp hy⟩
  · exact ⟨_, (atParam_arc h).mpr rfl, fun y hy => (atParam_arc h).mp hy⟩

theorem dist2_nonneg (p q : V2) : 0 ≤ dist2 p q := by unfold dist2; positivity

theorem dist2_comm (p q : V2) : dist2 p q = dist2 q p := by unfold dist2; ring

theorem dist2_eq_zero {p q : V2} : dist2 p q = 0 ↔ p = q := by
  unfold dist2
  constructor
  · intro h
    have h1 : (p.x - q.x) ^ 2 = 0 := by nlinarith [sq_nonneg (p.x - q.x), sq_nonneg (p.y - q.y)]
    have h2 : (p.y - q.y) ^ 2 = 0 := by nlinarith [sq_nonneg (p.x - q.x), sq_nonneg (p.y - q.y)]
    ext
    · have := pow_eq_zero_iff (two_ne_zero) |>.mp h1; linarith
    · have := pow_eq_zero_iff (two_ne_zero) |>.mp h2; linarith
  · rintro rfl; ring

theorem dist2_pos {p q : V2} (h : p ≠ q) : 0 < dist2 p q :=
  lt_of_le_of_ne (dist2_nonneg _ _) (fun h' => h (dist2_eq_zero.mp h'.symm))

theorem dot_sub_self (p q : V2) : dot (q - p) (q - p) = dist2 p q := by
  simp only [dot, dist2, V2.sub_x, V2.sub_y]; ring

theorem length_sub (p q : V2) : (q - p).length = distance p q := by
  simp only [V2.length, dot_sub_self, distance]

theorem distance_pos {p q : V2} (h : p ≠ q) : 0 < distance p q := Real.sqrt_pos.mpr (dist2_pos h)

theorem distance_nonneg (p q : V2) : 0 ≤ distance p q := Real.sqrt_nonneg _

theorem distance_sq (p q : V2) : distance p q ^ 2 = dist2 p q := Real.sq_sqrt (dist2_nonneg _ _)

/-- The center the code computes is the center in closed form. -/
theorem arcOf_center {v1 v2 : Vertex} (hb : v1.bulge ≠ 0) (hne : v1.pos ≠ v2.pos) :
    (arcOf v1 v2).center = centerOf v1 v2 := by
  have hd := distance_pos hne
  have hr : ∀ (b d : ℝ), b ≠ 0 → d * (b * b + 1) / (4 * b) - b * d / 2 = d * ((1 - b ^ 2) / (4 * b)) := by
    intro b d hb; field_simp; ring
  simp only [arcOf, length_sub, centerOf, hr _ _ (abs_ne_zero.mpr hb), sq_abs]
  set d := distance v1.pos v2.pos
  by_cases hneg : v1.bulgeIsNeg
  · have hlt : v1.bulge < 0 := hneg
    rw [if_pos hneg, if_pos hneg, abs_of_neg hlt]
    ext
    · simp only [V2.sub_x, V2.sub_y]; field_simp; ring
    · simp only [V2.sub_x, V2.sub_y]; field_simp; ring
  · have hge : 0 ≤ v1.bulge := not_lt.mp hneg
    rw [if_neg hneg, if_neg hneg, abs_of_nonneg hge]
    ext
    · simp only [V2.sub_x, V2.sub_y]; field_simp; ring
    · simp only [V2.sub_x, V2.sub_y]; field_simp; ring

theorem arcOf_radius_pos {v1 v2 : Vertex} (hb : v1.bulge ≠ 0) (hne : v1.pos ≠ v2.pos) :
    0 < (arcOf v1 v2).radius := by
  have hd := distance_pos hne
  have hb' : 0 < |v1.bulge| := abs_pos.mpr hb
  simp only [arcOf, length_sub]
  positivity

theorem arcOf_radius_sq {v1 v2 : Vertex} (hb : v1.bulge ≠ 0) :
    (arcOf v1 v2).radius ^ 2 = dist2 v1.pos (centerOf v1 v2) := by
  simp only [arcOf, length_sub]
  have h1 : (distance v1.pos v2.pos * (|v1.bulge| * |v1.bulge| + 1) / (4 * |v1.bulge|)) ^ 2 =
      distance v1.pos v2.pos ^ 2 * (|v1.bulge| ^ 2 + 1) ^ 2 / (16 * |v1.bulge| ^ 2) := by ring
  rw [h1, distance_sq, sq_abs]
  simp only [dist2, centerOf]
  field_simp
  ring

theorem center_ne_start {v1 v2 : Vertex} (hb : v1.bulge ≠ 0) (hne : v1.pos ≠ v2.pos) :
    v1.pos ≠ centerOf v1 v2 := by
  intro h
  have h1 := arcOf_radius_sq (v2 := v2) hb
  rw [dist2_eq_zero.mpr h] at h1
  have := arcOf_radius_pos hb hne
  have := pow_pos this 2
  linarith

/-- Chord form of an arc: along the chord and towards the sagitta. -/
theorem arc_chord_form {v1 v2 : Vertex} (hb : v1.bulge ≠ 0) (t : ℝ) :
    let φ := 2 * Real.arctan v1.bulge
    let s := (1 + Real.sin ((2 * t - 1) * φ) / Real.sin φ) / 2
    let h := (Real.cos ((2 * t - 1) * φ) - Real.cos φ) / (1 - Real.cos φ)
    rot (centerOf v1 v2) (t * sweep v1) v1.pos =
      ⟨v1.pos.x + s * (v2.pos.x - v1.pos.x) + h * (v1.bulge / 2 * (v2.pos.y - v1.pos.y)),
       v1.pos.y + s * (v2.pos.y - v1.pos.y) - h * (v1.bulge / 2 * (v2.pos.x - v1.pos.x))⟩ := by
  intro φ s h
  have hp : (0 : ℝ) < 1 + v1.bulge ^ 2 := by positivity
  have hb2 : (0 : ℝ) < v1.bulge ^ 2 := by positivity
  have hth : t * sweep v1 = (2 * t - 1) * φ + φ := by simp only [φ, sweep]; ring
  have hc : Real.cos φ = (1 - v1.bulge ^ 2) / (1 + v1.bulge ^ 2) := cos_two_arctan _
  have hs : Real.sin φ = 2 * v1.bulge / (1 + v1.bulge ^ 2) := sin_two_arctan _
  have h1c : 1 - Real.cos φ = 2 * v1.bulge ^ 2 / (1 + v1.bulge ^ 2) := by
    rw [hc]; field_simp; ring
  have hsd : s = (1 + Real.sin ((2 * t - 1) * φ) * (1 + v1.bulge ^ 2) / (2 * v1.bulge)) / 2 := by
    simp only [s, hs]; field_simp
  have hhd : h = (Real.cos ((2 * t - 1) * φ) * (1 + v1.bulge ^ 2) - (1 - v1.bulge ^ 2)) /
      (2 * v1.bulge ^ 2) := by
    simp only [h, h1c]; rw [hc]; field_simp
  rw [hsd, hhd, hth]
  simp only [rot, centerOf, Real.cos_add, Real.sin_add, hc, hs]
  set CC := Real.cos ((2 * t - 1) * φ)
  set SS := Real.sin ((2 * t - 1) * φ)
  ext
  · field_simp
    ring
  · field_simp
    ring

end Cavc

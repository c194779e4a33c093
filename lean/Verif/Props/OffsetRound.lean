import Verif.Props.OffsetLoopsOnce
import Verif.Props.OffsetRegion

/-! C52: the offset of a rectangle to the outside, which has rounded corners; example for C74. -/
namespace Cavc
open Spec
open scoped Classical
noncomputable section

/-! ### A line and an arc that touch -/

/-- A line that touches the circle of an arc at one of its ends is not reported to meet it anywhere else. -/
theorem touch_points {p0 p1 m c : V2} {a1 a2 : Vertex} (hr : 0 < dist2 m c) (ha : ¬ IsLine a1)
    (hf : 1 / 10 ^ 8 ≤ |a1.pos.x - a2.pos.x| ∨ 1 / 10 ^ 8 ≤ |a1.pos.y - a2.pos.y|) (hc : IsCenter a1 a2 c)
    (hm : dist2 a1.pos c = dist2 m c) (hl : 1 / 10 ^ 8 ≤ dist2 p0 p1) {tm : ℝ} (hmt : m = lerp p0 p1 tm)
    (hdot : (p1.x - p0.x) * (m.x - c.x) + (p1.y - p0.y) * (m.y - c.y) = 0) {res : SegIntr}
    (h : processLineArcIntr p0 p1 a1 a2 = .ok res) : res = .noIntersect ∨ res = .oneIntersect m := by
  obtain ⟨a, h1, h2, h3, h4, h5, h6⟩ := C10_arcRadiusAndCenter ha hf
  have hac := h3 c hc
  have h0 : 0 < dist2 p0 p1 := lt_of_lt_of_le (by norm_num) hl
  have hr2 : a.radius ^ 2 = dist2 m c := by rw [← h5, distance_sq, ← hac, hm]
  have hq : ∀ t, dist2 (lerp p0 p1 t) c = dist2 m c + (t - tm) ^ 2 * dist2 p0 p1 := by
    intro t
    subst hmt
    simp only [dist2, lerp] at hdot ⊢
    linear_combination 2 * (t - tm) * hdot
  obtain ⟨res', g1, -, g3⟩ := C19_line_circle p0 p1 a.radius a.center
  have g3 := g3 hl
  unfold processLineArcIntr at h
  rw [h1, ok_bind, g1, ok_bind] at h
  rw [← hac] at g3
  match res', g3 with
  | .none, _ =>
    left
    exact (Except.ok.inj h).symm
  | .one t0, g3 =>
    have ht : t0 = tm := by
      have := g3.1 tm
      rw [hq, hq] at this
      have h8 : (t0 - tm) ^ 2 * dist2 p0 p1 ≤ 0 := by nlinarith
      have h9 : (t0 - tm) ^ 2 ≤ 0 := by
        by_contra hcon
        push Not at hcon
        nlinarith [mul_pos hcon h0]
      nlinarith [pow_eq_zero_iff (n := 2) (a := t0 - tm) (by norm_num) |>.1 (le_antisymm h9 (sq_nonneg _))]
    simp only at h
    unfold pointInSweep at h
    split_ifs at h with hb
    · rw [ok_bind] at h
      left
      exact (Except.ok.inj h).symm
    · obtain ⟨o, ho, h⟩ := bind_eq_ok.1 h
      obtain ⟨w, -, ho⟩ := bind_eq_ok.1 ho
      have ho := Except.ok.inj ho
      subst ho
      cases w
      · left
        exact (Except.ok.inj h).symm
      · right
        have := (Except.ok.inj h).symm
        rw [this, ht, hmt]
        rfl
  | .two t0 t1, g3 =>
    exfalso
    have key : ∀ t, (∃ q, q = t ∧ OnCircle a.radius c (lerp p0 p1 t)) → t = tm := by
      rintro t ⟨-, -, ht⟩
      unfold OnCircle at ht
      rw [hq, hr2] at ht
      have h9 : (t - tm) ^ 2 * dist2 p0 p1 = 0 := by linarith
      have := (mul_eq_zero.1 h9).resolve_right h0.ne'
      have := pow_eq_zero_iff (n := 2) (by norm_num) |>.1 this
      linarith
    exact g3.1 ((key t0 ⟨_, rfl, (g3.2 t0).2 (Or.inl rfl)⟩).trans (key t1 ⟨_, rfl, (g3.2 t1).2 (Or.inr rfl)⟩).symm)

theorem touch_none {v1 v2 v3 : Vertex} (hn : ¬ Near (1 / 10 ^ 5) v1.pos v2.pos)
    (h : ∀ res, intrPlineSegs v1 v2 v2 v3 = .ok res → res = .noIntersect ∨ res = .oneIntersect v2.pos) :
    consecutivePoints v1 v2 v3 = [] := by
  unfold consecutivePoints
  rw [if_neg hn]
  cases hi : intrPlineSegs v1 v2 v2 v3 with
  | error e => rfl
  | ok res =>
    rcases h res hi with rfl | rfl
    · rfl
    · simp [Near]

/-- A line and then an arc that touches it. -/
theorem touch_line_arc {v1 v2 v3 : Vertex} {c : V2} (hn : ¬ Near (1 / 10 ^ 5) v1.pos v2.pos) (hl1 : IsLine v1)
    (hl : 1 / 10 ^ 8 ≤ dist2 v1.pos v2.pos) (ha : ¬ IsLine v2) (hr : 0 < dist2 v2.pos c)
    (hf : 1 / 10 ^ 8 ≤ |v2.pos.x - v3.pos.x| ∨ 1 / 10 ^ 8 ≤ |v2.pos.y - v3.pos.y|) (hc : IsCenter v2 v3 c)
    (hdot : (v2.pos.x - v1.pos.x) * (v2.pos.x - c.x) + (v2.pos.y - v1.pos.y) * (v2.pos.y - c.y) = 0)
    : consecutivePoints v1 v2 v3 = [] := by
  refine touch_none hn fun res h => ?_
  unfold intrPlineSegs at h
  rw [if_neg (fun q => ha q.2), if_pos (show v1.bulgeIsZero from hl1)] at h
  exact touch_points hr ha hf hc rfl hl (tm := 1) (by ext <;> simp [lerp]) hdot h

/-- An arc and then a line that touches it. -/
theorem touch_arc_line {v1 v2 v3 : Vertex} {c : V2} (hn : ¬ Near (1 / 10 ^ 5) v1.pos v2.pos) (hl2 : IsLine v2)
    (hl : 1 / 10 ^ 8 ≤ dist2 v2.pos v3.pos) (ha : ¬ IsLine v1) (hr : 0 < dist2 v2.pos c)
    (hf : 1 / 10 ^ 8 ≤ |v1.pos.x - v2.pos.x| ∨ 1 / 10 ^ 8 ≤ |v1.pos.y - v2.pos.y|) (hc : IsCenter v1 v2 c)
    (hdot : (v3.pos.x - v2.pos.x) * (v2.pos.x - c.x) + (v3.pos.y - v2.pos.y) * (v2.pos.y - c.y) = 0)
    : consecutivePoints v1 v2 v3 = [] := by
  refine touch_none hn fun res h => ?_
  unfold intrPlineSegs at h
  rw [if_neg (fun q => ha q.1), if_neg (show ¬ v1.bulgeIsZero from ha), if_pos (show v2.bulgeIsZero from hl2)] at h
  refine touch_points hr ha hf hc ?_ hl (tm := 0) (by ext <;> simp [lerp]) hdot h
  rw [← show rot c (sweep v1) v1.pos = v2.pos from hc, dist2_rot]

/-! ### Bounds of segments -/

/-- Bounds for the box of a segment, with the sign `σ` for the x coordinates. -/
structure SegIn (σ lx hx ly hy : ℝ) (v w : Vertex) : Prop where
  minX : lx ≤ σ * (createFastApproxBoundingBox v w).xMin ∧ σ * (createFastApproxBoundingBox v w).xMin ≤ hx
  maxX : lx ≤ σ * (createFastApproxBoundingBox v w).xMax ∧ σ * (createFastApproxBoundingBox v w).xMax ≤ hx
  minY : ly ≤ (createFastApproxBoundingBox v w).yMin ∧ (createFastApproxBoundingBox v w).yMin ≤ hy
  maxY : ly ≤ (createFastApproxBoundingBox v w).yMax ∧ (createFastApproxBoundingBox v w).yMax ≤ hy

theorem box_ends {v w : Vertex} {P Q : ℝ → Prop} (h1 : P v.pos.x) (h2 : P w.pos.x) (h3 : Q v.pos.y) (h4 : Q w.pos.y)
    (h : ¬ IsLine v → P (v.pos.x + v.bulge * (w.pos.y - v.pos.y) / 2) ∧ P (w.pos.x + v.bulge * (w.pos.y - v.pos.y) / 2) ∧
      Q (v.pos.y + -v.bulge * (w.pos.x - v.pos.x) / 2) ∧ Q (w.pos.y + -v.bulge * (w.pos.x - v.pos.x) / 2)) :
    P (createFastApproxBoundingBox v w).xMin ∧ P (createFastApproxBoundingBox v w).xMax ∧
      Q (createFastApproxBoundingBox v w).yMin ∧ Q (createFastApproxBoundingBox v w).yMax := by
  unfold createFastApproxBoundingBox
  by_cases c : v.bulgeIsZero
  · rw [if_pos c]
    refine ⟨?_, ?_, ?_, ?_⟩ <;> simp only <;> split_ifs <;> assumption
  · rw [if_neg c]
    obtain ⟨g1, g2, g3, g4⟩ := h c
    have hmin : ∀ {R : ℝ → Prop} {a b : ℝ}, R a → R b → R (min a b) := fun {R a b} ha hb => by
      rcases min_choice a b with e | e <;> rw [e] <;> assumption
    have hmax : ∀ {R : ℝ → Prop} {a b : ℝ}, R a → R b → R (max a b) := fun {R a b} ha hb => by
      rcases max_choice a b with e | e <;> rw [e] <;> assumption
    have hif : ∀ {R : ℝ → Prop} {a b : ℝ} {p : Prop} [Decidable p], R a → R b → R (if p then a else b) :=
      fun {R a b p} _ ha hb => by split_ifs <;> assumption
    refine ⟨hmin (hif h1 h2) (hif g1 g2), hmax (hif h2 h1) (hif g2 g1), hmin (hif h3 h4) (hif g3 g4),
      hmax (hif h4 h3) (hif g4 g3)⟩

theorem SegIn.not_close {σ lx hx ly hy lx' hx' ly' hy' : ℝ} {v w v' w' : Vertex} (hσ : σ = 1 ∨ σ = -1)
    (h : SegIn σ lx hx ly hy v w) (h' : SegIn σ lx' hx' ly' hy' v' w')
    (hs : hx + 1 / 10 ^ 4 ≤ lx' ∨ hx' + 1 / 10 ^ 4 ≤ lx ∨ hy + 1 / 10 ^ 4 ≤ ly' ∨ hy' + 1 / 10 ^ 4 ≤ ly) :
    ¬ BoxesClose (1 / 10 ^ 8) v w v' w' := by
  rintro ⟨b1, b2, b3, b4⟩
  have e8 : (1 / 10 ^ 8 : ℝ) < 1 / 10 ^ 4 := by norm_num
  have := h.minX
  have := h.maxX
  have := h.minY
  have := h.maxY
  have := h'.minX
  have := h'.maxX
  have := h'.minY
  have := h'.maxY
  rcases hσ with rfl | rfl <;> rcases hs with hs | hs | hs | hs <;> linarith

theorem SegIn.point {σ lx hx ly hy : ℝ} {v w : Vertex} (hσ : σ = 1 ∨ σ = -1) (hok : SegOk v w)
    (h : SegIn σ lx hx ly hy v w) {x : V2} (hx' : OnSeg v w x) :
    lx ≤ σ * x.x ∧ σ * x.x ≤ hx ∧ ly ≤ x.y ∧ x.y ≤ hy := by
  obtain ⟨b1, b2, b3, b4⟩ := C12_bbox_contains hok.half hx'
  have := h.minX
  have := h.maxX
  have := h.minY
  have := h.maxY
  rcases hσ with rfl | rfl <;> exact ⟨by linarith, by linarith, by linarith, by linarith⟩

/-! ### Quarter circles -/

/-- The sweep of an arc about `c` that turns `a` to `σ` times `a` turned to the left. -/
theorem quarter_sweep {c : V2} {v w : Vertex} {σ : ℝ} (hσ : σ = 1 ∨ σ = -1) (hc : IsCenter v w c)
    (hx : w.pos.x - c.x = -σ * (v.pos.y - c.y)) (hy : w.pos.y - c.y = σ * (v.pos.x - c.x)) (h0 : 0 < dist2 v.pos c)
    (hb : |v.bulge| ≤ 1) : sweep v = σ * (Real.pi / 2) ∧ v.bulge = σ * Real.tan (Real.pi / 8) := by
  have hs : rot c (sweep v) v.pos = w.pos := hc
  have e1 := congrArg V2.x hs
  have e2 := congrArg V2.y hs
  simp only [rot] at e1 e2
  have hsin : Real.sin (sweep v) = σ := by
    unfold dist2 at h0
    have : (Real.sin (sweep v) - σ) * ((v.pos.x - c.x) ^ 2 + (v.pos.y - c.y) ^ 2) = 0 := by
      linear_combination (v.pos.x - c.x) * (e2 + hy) - (v.pos.y - c.y) * (e1 + hx)
    linarith [(mul_eq_zero.1 this).resolve_right h0.ne']
  have hr : -(Real.pi) ≤ sweep v ∧ sweep v ≤ Real.pi := by
    obtain ⟨b1, b2⟩ := abs_le.1 hb
    have h1 := Real.arctan_mono b1
    have h2 := Real.arctan_mono b2
    rw [Real.arctan_neg, Real.arctan_one] at h1
    rw [Real.arctan_one] at h2
    unfold sweep
    constructor <;> linarith
  have hsw : sweep v = σ * (Real.pi / 2) := by
    have hpi := Real.pi_pos
    rcases hσ with rfl | rfl
    · rw [one_mul]
      by_contra hne
      have h1 : Real.cos (sweep v - Real.pi / 2) = 1 := by rw [Real.cos_sub_pi_div_two, hsin]
      rw [Real.cos_eq_one_iff_of_lt_of_lt (by linarith) (by linarith)] at h1
      exact hne (by linarith)
    · by_contra hne
      have h1 : Real.cos (sweep v + Real.pi / 2) = 1 := by rw [Real.cos_add_pi_div_two, hsin]; norm_num
      rw [Real.cos_eq_one_iff_of_lt_of_lt (by linarith) (by linarith)] at h1
      exact hne (by linarith)
  refine ⟨hsw, ?_⟩
  have h4 : Real.arctan v.bulge = σ * (Real.pi / 8) := by unfold sweep at hsw; linarith
  rw [← Real.tan_arctan v.bulge, h4]
  rcases hσ with rfl | rfl
  · simp
  · rw [show (-1 : ℝ) * (Real.pi / 8) = -(Real.pi / 8) by ring, Real.tan_neg]; ring

/-! ### The offset of a rectangle to the outside -/

section
variable {σ X0 y0 X1 y1 d : ℝ}

/-- The rectangle, in the direction `σ`. -/
abbrev turned (σ X0 y0 X1 y1 : ℝ) : Polyline := rect (σ * X0) y0 (σ * X1) y1

/-- What is assumed about it and the offset. -/
structure RoundOk (σ X0 y0 X1 y1 d : ℝ) : Prop where
  sign : σ = 1 ∨ σ = -1
  width : X0 + 1 / 10 ^ 3 ≤ X1
  height : y0 + 1 / 10 ^ 3 ≤ y1
  offset : 1 / 10 ^ 4 ≤ d
  size : X1 - X0 < 10 ^ 8 * d ∨ y1 - y0 < 10 ^ 8 * d

theorem turned_corner {i : ℕ} {a b c : V2} (h : IsCorner (turned σ X0 y0 X1 y1) i a b c) :
    (i = 0 ∧ a = ⟨σ * X0, y0⟩ ∧ b = ⟨σ * X1, y0⟩ ∧ c = ⟨σ * X1, y1⟩) ∨
    (i = 1 ∧ a = ⟨σ * X1, y0⟩ ∧ b = ⟨σ * X1, y1⟩ ∧ c = ⟨σ * X0, y1⟩) ∨
    (i = 2 ∧ a = ⟨σ * X1, y1⟩ ∧ b = ⟨σ * X0, y1⟩ ∧ c = ⟨σ * X0, y0⟩) ∨
    (i = 3 ∧ a = ⟨σ * X0, y1⟩ ∧ b = ⟨σ * X0, y0⟩ ∧ c = ⟨σ * X1, y0⟩) := by
  obtain ⟨hi, rfl, rfl, rfl⟩ := (isCorner_iff rfl (by simp [turned, rect, Polyline.size])).1 h
  have : i < 4 := hi
  interval_cases i <;> simp [ppos, vtx, rect, Polyline.size]

theorem turned_moved (h : RoundOk σ X0 y0 X1 y1 d) (x : V2) :
    movedLeft (-(σ * d)) ⟨σ * X0, y0⟩ ⟨σ * X1, y0⟩ x = ⟨x.x, x.y - d⟩ ∧
    movedLeft (-(σ * d)) ⟨σ * X1, y0⟩ ⟨σ * X1, y1⟩ x = ⟨x.x + σ * d, x.y⟩ ∧
    movedLeft (-(σ * d)) ⟨σ * X1, y1⟩ ⟨σ * X0, y1⟩ x = ⟨x.x, x.y + d⟩ ∧
    movedLeft (-(σ * d)) ⟨σ * X0, y1⟩ ⟨σ * X0, y0⟩ x = ⟨x.x - σ * d, x.y⟩ := by
  have e3 : (0 : ℝ) < 1 / 10 ^ 3 := by norm_num
  have hw : 0 < X1 - X0 := by linarith [h.width]
  have hh : 0 < y1 - y0 := by linarith [h.height]
  have hσ2 : σ ^ 2 = 1 := by rcases h.sign with e | e <;> rw [e] <;> norm_num
  have d0 : distance ⟨σ * X0, y0⟩ ⟨σ * X1, y0⟩ = X1 - X0 := by
    unfold distance dist2
    rw [show (σ * X0 - σ * X1) ^ 2 + (y0 - y0) ^ 2 = (X1 - X0) ^ 2 by linear_combination (X1 - X0) ^ 2 * hσ2]
    exact Real.sqrt_sq hw.le
  have d1 : distance ⟨σ * X1, y0⟩ ⟨σ * X1, y1⟩ = y1 - y0 := by
    unfold distance dist2
    rw [show (σ * X1 - σ * X1) ^ 2 + (y0 - y1) ^ 2 = (y1 - y0) ^ 2 by ring]
    exact Real.sqrt_sq hh.le
  have d2 : distance ⟨σ * X1, y1⟩ ⟨σ * X0, y1⟩ = X1 - X0 := by
    unfold distance dist2
    rw [show (σ * X1 - σ * X0) ^ 2 + (y1 - y1) ^ 2 = (X1 - X0) ^ 2 by linear_combination (X1 - X0) ^ 2 * hσ2]
    exact Real.sqrt_sq hw.le
  have d3 : distance ⟨σ * X0, y1⟩ ⟨σ * X0, y0⟩ = y1 - y0 := by
    unfold distance dist2
    rw [show (σ * X0 - σ * X0) ^ 2 + (y1 - y0) ^ 2 = (y1 - y0) ^ 2 by ring]
    exact Real.sqrt_sq hh.le
  unfold movedLeft
  rw [d0, d1, d2, d3]
  refine ⟨?_, ?_, ?_, ?_⟩ <;> ext <;> simp only <;> field_simp <;> first | ring1 | (rw [hσ2]; ring1)

theorem turned_side (hs : RoundOk σ X0 y0 X1 y1 d) {i : ℕ} {a b c : V2} (h : IsCorner (turned σ X0 y0 X1 y1) i a b c) :
    side a b c = σ * ((X1 - X0) * (y1 - y0)) ∧ distance a b * distance b c = (X1 - X0) * (y1 - y0) := by
  have e3 : (0 : ℝ) < 1 / 10 ^ 3 := by norm_num
  have hw : 0 < X1 - X0 := by linarith [hs.width]
  have hh : 0 < y1 - y0 := by linarith [hs.height]
  have hσ2 : σ ^ 2 = 1 := by rcases hs.sign with e | e <;> rw [e] <;> norm_num
  have dx : ∀ y, distance ⟨σ * X0, y⟩ ⟨σ * X1, y⟩ = X1 - X0 ∧ distance ⟨σ * X1, y⟩ ⟨σ * X0, y⟩ = X1 - X0 := by
    intro y
    unfold distance dist2
    rw [show (σ * X0 - σ * X1) ^ 2 + (y - y) ^ 2 = (X1 - X0) ^ 2 by linear_combination (X1 - X0) ^ 2 * hσ2,
      show (σ * X1 - σ * X0) ^ 2 + (y - y) ^ 2 = (X1 - X0) ^ 2 by linear_combination (X1 - X0) ^ 2 * hσ2]
    exact ⟨Real.sqrt_sq hw.le, Real.sqrt_sq hw.le⟩
  have dy : ∀ x, distance ⟨x, y0⟩ ⟨x, y1⟩ = y1 - y0 ∧ distance ⟨x, y1⟩ ⟨x, y0⟩ = y1 - y0 := by
    intro x
    unfold distance dist2
    rw [show (x - x) ^ 2 + (y0 - y1) ^ 2 = (y1 - y0) ^ 2 by ring, show (x - x) ^ 2 + (y1 - y0) ^ 2 = (y1 - y0) ^ 2 by ring]
    exact ⟨Real.sqrt_sq hh.le, Real.sqrt_sq hh.le⟩
  rcases turned_corner h with ⟨rfl, rfl, rfl, rfl⟩ | ⟨rfl, rfl, rfl, rfl⟩ | ⟨rfl, rfl, rfl, rfl⟩ | ⟨rfl, rfl, rfl, rfl⟩ <;>
    refine ⟨by unfold side; simp only; ring, ?_⟩
  · rw [(dx _).1, (dy _).1]
  · rw [(dy _).1, (dx _).2]; ring
  · rw [(dx _).2, (dy _).2]
  · rw [(dy _).2, (dx _).1]; ring

/-- The points of the offset. -/
def roundPts (σ X0 y0 X1 y1 d : ℝ) : List (List V2) :=
  [[⟨σ * X1, y0 - d⟩, ⟨σ * X1 + σ * d, y0⟩], [⟨σ * X1 + σ * d, y1⟩, ⟨σ * X1, y1 + d⟩],
   [⟨σ * X0, y1 + d⟩, ⟨σ * X0 - σ * d, y1⟩], [⟨σ * X0 - σ * d, y0⟩, ⟨σ * X0, y0 - d⟩]]

/-- The moved sides do not meet, not even within the tolerance. -/
theorem turned_apart (hs : RoundOk σ X0 y0 X1 y1 d) {i : ℕ} {a b c : V2} (h : IsCorner (turned σ X0 y0 X1 y1) i a b c)
    {t0 t1 : ℝ} {x : V2} (hm : MovedMeet (-(σ * d)) a b c t0 t1 x) (a0 : t0 ≤ 1 + 1 / 10 ^ 8) (b0 : -(1 / 10 ^ 8) ≤ t1) :
    False := by
  have e3 : (0 : ℝ) < 1 / 10 ^ 3 := by norm_num
  have hw : 0 < X1 - X0 := by linarith [hs.width]
  have hh : 0 < y1 - y0 := by linarith [hs.height]
  have hσ2 : σ * σ = 1 := by rcases hs.sign with e | e <;> rw [e] <;> norm_num
  have hmv := turned_moved hs
  obtain ⟨m1, m2⟩ := hm
  have hmm := m1.trans m2.symm
  have key : ∀ {t t' w w' : ℝ}, 0 < w → 0 < w' → (w < 10 ^ 8 * d ∨ w' < 10 ^ 8 * d) → (t - 1) * w = d → -t' * w' = d →
      t ≤ 1 + 1 / 10 ^ 8 → -(1 / 10 ^ 8) ≤ t' → False := by
    intro t t' w w' hw hw' hsz g1 g2 g3 g4
    have k1 : d ≤ 1 / 10 ^ 8 * w := by rw [← g1]; exact mul_le_mul_of_nonneg_right (by linarith) hw.le
    have k2 : d ≤ 1 / 10 ^ 8 * w' := by rw [← g2]; exact mul_le_mul_of_nonneg_right (by linarith) hw'.le
    rcases hsz with h | h <;> norm_num at k1 k2 h <;> linarith
  rcases turned_corner h with ⟨rfl, rfl, rfl, rfl⟩ | ⟨rfl, rfl, rfl, rfl⟩ | ⟨rfl, rfl, rfl, rfl⟩ | ⟨rfl, rfl, rfl, rfl⟩
  all_goals
    simp only [(hmv _).1, (hmv _).2.1, (hmv _).2.2.1, (hmv _).2.2.2] at hmm
    have ex := congrArg V2.x hmm
    have ey := congrArg V2.y hmm
    simp only [lerp] at ex ey
  · exact key hw hh hs.size (by linear_combination σ * ex - ((t0 - 1) * (X1 - X0) - d) * hσ2) (by linear_combination ey) a0 b0
  · exact key hh hw hs.size.symm (by linear_combination ey) (by linear_combination -σ * ex - (-t1 * (X1 - X0) - d) * hσ2) a0 b0
  · exact key hw hh hs.size (by linear_combination -σ * ex - ((t0 - 1) * (X1 - X0) - d) * hσ2) (by linear_combination -ey) a0 b0
  · exact key hh hw hs.size.symm (by linear_combination -ey) (by linear_combination σ * ex - (-t1 * (X1 - X0) - d) * hσ2) a0 b0

theorem turned_points (hs : RoundOk σ X0 y0 X1 y1 d) {i : ℕ} {a b c : V2} (h : IsCorner (turned σ X0 y0 X1 y1) i a b c) :
    ∃ l, CornerPoints (-(σ * d)) a b c l ∧ (roundPts σ X0 y0 X1 y1 d)[i]? = some l := by
  have hmv := turned_moved hs
  refine ⟨_, Or.inr ⟨?_, rfl⟩, ?_⟩
  · rintro ⟨t0, t1, x, -, h1, h2, -, hm⟩
    exact turned_apart hs h hm (by linarith [show (0 : ℝ) < 1 / 10 ^ 8 by norm_num])
      (by linarith [show (0 : ℝ) < 1 / 10 ^ 8 by norm_num])
  · rcases turned_corner h with ⟨rfl, rfl, rfl, rfl⟩ | ⟨rfl, rfl, rfl, rfl⟩ | ⟨rfl, rfl, rfl, rfl⟩ | ⟨rfl, rfl, rfl, rfl⟩ <;>
      simp only [(hmv _).1, (hmv _).2.1, (hmv _).2.2.1, (hmv _).2.2.2] <;> rfl

theorem turned_area (hs : RoundOk σ X0 y0 X1 y1 d) : 1 / 10 ^ 6 ≤ (X1 - X0) * (y1 - y0) := by
  have : (1 / 10 ^ 3 : ℝ) * (1 / 10 ^ 3) ≤ (X1 - X0) * (y1 - y0) := by
    apply mul_le_mul <;> linarith [hs.width, hs.height, show (0 : ℝ) < 1 / 10 ^ 3 by norm_num]
  norm_num at this ⊢
  linarith

theorem turned_side_ne (hs : RoundOk σ X0 y0 X1 y1 d) {i : ℕ} {a b c : V2} (h : IsCorner (turned σ X0 y0 X1 y1) i a b c) :
    side a b c ≠ 0 := by
  have h1 := turned_area hs
  have h2 : (0 : ℝ) < 1 / 10 ^ 6 := by norm_num
  rw [(turned_side hs h).1]
  rcases hs.sign with e | e <;> rw [e] <;> intro h3 <;> linarith

theorem turned_all (hs : RoundOk σ X0 y0 X1 y1 d) {pts : List (List V2)}
    (h : AllCornerPoints (turned σ X0 y0 X1 y1) (-(σ * d)) pts) : pts = roundPts σ X0 y0 X1 y1 d := by
  obtain ⟨hlen, hpts⟩ := h
  have hlen' : pts.length = 4 := hlen
  apply List.ext_getElem?
  intro i
  by_cases hi : i < 4
  · have h : IsCorner (turned σ X0 y0 X1 y1) i _ _ _ :=
      (isCorner_iff rfl (by simp [turned, rect, Polyline.size])).2 ⟨hi, rfl, rfl, rfl⟩
    obtain ⟨l, hl, el⟩ := turned_points hs h
    obtain ⟨l', hl', hr⟩ := hpts i _ _ _ h
    rw [hl', el, cornerPoints_unique (turned_side_ne hs h) hr hl]
  · rw [List.getElem?_eq_none (by omega), List.getElem?_eq_none (by simp [roundPts]; omega)]

theorem abs_sign {s z : ℝ} (hs : s = 1 ∨ s = -1) : |s * z| = |z| := by
  rcases hs with e | e <;> rw [e] <;> simp

theorem turned_clear (hs : RoundOk σ X0 y0 X1 y1 d) : ClearOffset (turned σ X0 y0 X1 y1) (-(σ * d)) := by
  have e3 : (0 : ℝ) < 1 / 10 ^ 3 := by norm_num
  have e35 : (1 / 10 ^ 5 : ℝ) ≤ 1 / 10 ^ 3 := by norm_num
  have e45 : (1 / 10 ^ 5 : ℝ) ≤ 1 / 10 ^ 4 := by norm_num
  have hw := hs.width
  have hh := hs.height
  have hd := hs.offset
  have hd0 : 0 < d := lt_of_lt_of_le (by norm_num) hd
  have ha := turned_area hs
  have aw : |σ * X0 - σ * X1| = X1 - X0 := by
    rw [← mul_sub, abs_sign hs.sign, abs_sub_comm, abs_of_pos (by linarith)]
  have aw' : |σ * X1 - σ * X0| = X1 - X0 := by rw [abs_sub_comm, aw]
  have ah : |y0 - y1| = y1 - y0 := by rw [abs_sub_comm, abs_of_pos (by linarith)]
  have ah' : |y1 - y0| = y1 - y0 := by rw [abs_sub_comm, ah]
  have ad : |σ * d| = d := by rw [abs_sign hs.sign, abs_of_pos hd0]
  refine ⟨?_, ?_, ?_, ?_⟩
  · rintro i v1 v2 h ⟨n1, n2⟩
    rcases rect_seg h with ⟨-, rfl, rfl⟩ | ⟨-, rfl, rfl⟩ | ⟨-, rfl, rfl⟩ | ⟨-, rfl, rfl⟩ <;> simp only at n1 n2 <;>
      first | (rw [aw] at n1; linarith) | (rw [aw'] at n1; linarith) | (rw [ah] at n2; linarith) | (rw [ah'] at n2; linarith)
  · intro i a b c h
    obtain ⟨s1, s2⟩ := turned_side hs h
    have hpos : 0 < (X1 - X0) * (y1 - y0) := lt_of_lt_of_le (by norm_num) ha
    refine ⟨?_, ?_, fun t0 t1 x hm _ h1 h2 _ => (turned_apart hs h hm h1 h2).elim⟩
    · rw [s1, abs_sign hs.sign, abs_of_pos hpos]
      exact lt_of_lt_of_le (by norm_num) ha
    · rw [s1, s2, abs_sign hs.sign, abs_of_pos hpos]
      nlinarith
  · intro pts h x hx hn
    rw [turned_all hs h] at hx
    simp only [roundPts, List.flatten_cons, List.flatten_nil, List.append_nil, List.cons_append, List.nil_append,
      zip_rotate_one, pairsTo, List.mem_cons, List.not_mem_nil, or_false] at hx
    obtain ⟨n1, n2⟩ := hn
    rcases hx with rfl | rfl | rfl | rfl | rfl | rfl | rfl | rfl <;> simp only at n1 n2
    · rw [show y0 - d - y0 = -d by ring, abs_neg, abs_of_pos hd0] at n2; linarith
    · rw [ah] at n2; linarith
    · rw [show y1 - (y1 + d) = -d by ring, abs_neg, abs_of_pos hd0] at n2; linarith
    · rw [aw'] at n1; linarith
    · rw [show y1 + d - y1 = d by ring, abs_of_pos hd0] at n2; linarith
    · rw [ah'] at n2; linarith
    · rw [show y0 - (y0 - d) = d by ring, abs_of_pos hd0] at n2; linarith
    · rw [aw] at n1; linarith
  · intro a b c l x h hl hx hn
    obtain ⟨l', hl', el⟩ := turned_points hs h
    rw [cornerPoints_unique (turned_side_ne hs h) hl hl'] at hx
    rcases turned_corner h with ⟨-, rfl, rfl, rfl⟩ | ⟨h, -⟩ | ⟨h, -⟩ | ⟨h, -⟩
    · cases el
      simp at hx
      subst hx
      rw [(turned_moved hs _).1] at hn
      have n1 := hn.1
      simp only at n1
      rw [aw] at n1
      linarith
    all_goals omega

/-- The corner of the raw offset. -/
theorem turned_round (hs : RoundOk σ X0 y0 X1 y1 d) {i : ℕ} {a b c : V2} (h : IsCorner (turned σ X0 y0 X1 y1) i a b c)
    {l : List Vertex} (hr : Rounds (-(σ * d)) a b c l) : ∃ w w', l = [w, w'] ∧
      (roundPts σ X0 y0 X1 y1 d)[i]? = some [w.pos, w'.pos] ∧ IsLine w' ∧ CircularAbout b d w w' := by
  obtain ⟨l', hl', el⟩ := turned_points hs h
  have hd0 : 0 < d := lt_of_lt_of_le (by norm_num) hs.offset
  have e := cornerPoints_unique (turned_side_ne hs h) hr.1 hl'
  have hlen : l'.length = 2 := by
    have hi := (isCorner_iff rfl (by simp [turned, rect, Polyline.size])).1 h |>.1
    have : i < 4 := hi
    interval_cases i <;> cases el <;> rfl
  rcases hr.2 with ⟨v, rfl, -⟩ | ⟨w, w', rfl, hw', hif⟩
  · rw [← e] at hlen
    simp at hlen
  · refine ⟨w, w', rfl, by rw [el, ← e]; rfl, hw', ?_⟩
    rw [if_pos, abs_neg, abs_sign hs.sign, abs_of_pos hd0] at hif
    · exact hif.1
    · rw [(turned_side hs h).1]
      have := turned_area hs
      have h6 : (0 : ℝ) < 1 / 10 ^ 6 := by norm_num
      have hσ2 : σ * σ = 1 := by rcases hs.sign with e | e <;> rw [e] <;> norm_num
      rw [show -(σ * d) * (σ * ((X1 - X0) * (y1 - y0))) = -(σ * σ) * (d * ((X1 - X0) * (y1 - y0))) by ring, hσ2]
      have : 0 < d * ((X1 - X0) * (y1 - y0)) := mul_pos hd0 (by linarith)
      linarith

end

/-- The rectangle with rounded corners. -/
def roundRect (x0 y0 x1 y1 u d β b0 b1 b2 b3 : ℝ) : Polyline :=
  ⟨true, [⟨⟨x0, y0 - d⟩, b0⟩, ⟨⟨x1, y0 - d⟩, β⟩, ⟨⟨x1 + u, y0⟩, b1⟩, ⟨⟨x1 + u, y1⟩, β⟩, ⟨⟨x1, y1 + d⟩, b2⟩,
    ⟨⟨x0, y1 + d⟩, β⟩, ⟨⟨x0 - u, y1⟩, b3⟩, ⟨⟨x0 - u, y0⟩, β⟩]⟩

section
variable {σ X0 y0 X1 y1 d : ℝ}

theorem turned_raw (hs : RoundOk σ X0 y0 X1 y1 d) : ∃ b0 b1 b2 b3 : ℝ, (|b0| < 1 / 10 ^ 5 ∧ |b1| < 1 / 10 ^ 5 ∧
      |b2| < 1 / 10 ^ 5 ∧ |b3| < 1 / 10 ^ 5) ∧ createRawOffsetPline (turned σ X0 y0 X1 y1) (-(σ * d)) =
      .ok (roundRect (σ * X0) y0 (σ * X1) y1 (σ * d) d (σ * Real.tan (Real.pi / 8)) b0 b1 b2 b3) := by
  have hd0 : 0 < d := lt_of_lt_of_le (by norm_num) hs.offset
  have hσ2 : σ * σ = 1 := by rcases hs.sign with e | e <;> rw [e] <;> norm_num
  obtain ⟨raw, ls, hraw, hc, ⟨hlen, hall⟩, hv⟩ := C62_raw (p := turned σ X0 y0 X1 y1) (offset := -(σ * d)) rfl
    (by simp [turned, rect, isLine_zero]) (by simp [turned, rect]) (turned_clear hs)
  have hcor : ∀ i < 4, IsCorner (turned σ X0 y0 X1 y1) i _ _ _ := fun i hi =>
    (isCorner_iff rfl (by simp [turned, rect, Polyline.size])).2 ⟨hi, rfl, rfl, rfl⟩
  have get : ∀ i < 4, ∃ w w', ls[i]? = some [w, w'] ∧
      (roundPts σ X0 y0 X1 y1 d)[i]? = some [w.pos, w'.pos] ∧ IsLine w' ∧
        CircularAbout (ppos (turned σ X0 y0 X1 y1) (i + 1)) d w w' := by
    intro i hi
    obtain ⟨l, hl, hr⟩ := hall i _ _ _ (hcor i hi)
    obtain ⟨w, w', rfl, h2, h3, h4⟩ := turned_round hs (hcor i hi) hr
    exact ⟨w, w', hl, h2, h3, h4⟩
  obtain ⟨⟨p0, β0⟩, ⟨q0, c0⟩, g0, e0, l0, a0⟩ := get 0 (by norm_num)
  obtain ⟨⟨p1, β1⟩, ⟨q1, c1⟩, g1, e1, l1, a1⟩ := get 1 (by norm_num)
  obtain ⟨⟨p2, β2⟩, ⟨q2, c2⟩, g2, e2, l2, a2⟩ := get 2 (by norm_num)
  obtain ⟨⟨p3, β3⟩, ⟨q3, c3⟩, g3, e3, l3, a3⟩ := get 3 (by norm_num)
  have hls : ls = [[⟨p0, β0⟩, ⟨q0, c0⟩], [⟨p1, β1⟩, ⟨q1, c1⟩], [⟨p2, β2⟩, ⟨q2, c2⟩], [⟨p3, β3⟩, ⟨q3, c3⟩]] := by
    have hlen' : ls.length = 4 := hlen
    apply List.ext_getElem?
    intro i
    by_cases hi : i < 4
    · interval_cases i
      · exact g0
      · exact g1
      · exact g2
      · exact g3
    · rw [List.getElem?_eq_none (by omega), List.getElem?_eq_none (by simp; omega)]
  cases e0
  cases e1
  cases e2
  cases e3
  have hppos : ppos (turned σ X0 y0 X1 y1) 1 = ⟨σ * X1, y0⟩ ∧ ppos (turned σ X0 y0 X1 y1) 2 = ⟨σ * X1, y1⟩ ∧
      ppos (turned σ X0 y0 X1 y1) 3 = ⟨σ * X0, y1⟩ ∧ ppos (turned σ X0 y0 X1 y1) 4 = ⟨σ * X0, y0⟩ := by
    simp [ppos, vtx, rect, Polyline.size]
  simp only [zero_add, Nat.reduceAdd, hppos.1, hppos.2.1, hppos.2.2.1, hppos.2.2.2] at a0 a1 a2 a3
  have hpos : 0 < d ^ 2 := by positivity
  have k0 := (quarter_sweep hs.sign a0.1 (by simp) (by simp) (by simp [dist2]; exact hpos) a0.2.2).2
  have k1 := (quarter_sweep hs.sign a1.1 (by simp) (by simp [← mul_assoc, hσ2])
    (by simp [dist2, mul_pow, show σ ^ 2 = 1 by rw [sq, hσ2]]; exact hpos) a1.2.2).2
  have k2 := (quarter_sweep hs.sign a2.1 (by simp) (by simp) (by simp [dist2]; exact hpos) a2.2.2).2
  have k3 := (quarter_sweep hs.sign a3.1 (by simp) (by simp [← mul_assoc, hσ2])
    (by simp [dist2, mul_pow, show σ ^ 2 = 1 by rw [sq, hσ2]]; exact hpos) a3.2.2).2
  simp only at k0 k1 k2 k3
  refine ⟨c3, c0, c1, c2, ⟨l3, l0, l1, l2⟩, ?_⟩
  rw [hraw]
  obtain ⟨cl, vs⟩ := raw
  simp only at hc hv
  subst hc hv hls k0 k1 k2 k3
  rfl

/-- The raw offset, with the tolerances of its straight segments. -/
structure IsRound (σ X0 y0 X1 y1 d : ℝ) (q : Polyline) : Prop extends RoundOk σ X0 y0 X1 y1 d where
  shape : ∃ b0 b1 b2 b3 : ℝ, (|b0| < 1 / 10 ^ 5 ∧ |b1| < 1 / 10 ^ 5 ∧ |b2| < 1 / 10 ^ 5 ∧ |b3| < 1 / 10 ^ 5) ∧
    q = roundRect (σ * X0) y0 (σ * X1) y1 (σ * d) d (σ * Real.tan (Real.pi / 8)) b0 b1 b2 b3

/-- The straight segments. -/
structure IsSide (σ lx hx ly hy : ℝ) (v w : Vertex) : Prop where
  line : IsLine v
  inBox : SegIn σ lx hx ly hy v w

/-- The arcs about `c`. -/
structure IsRounding (σ lx hx ly hy d : ℝ) (c : V2) (v w : Vertex) : Prop where
  bulge : v.bulge = σ * Real.tan (Real.pi / 8)
  center : IsCenter v w c
  inBox : SegIn σ lx hx ly hy v w

theorem eighth_arc {σ : ℝ} (hσ : σ = 1 ∨ σ = -1) {v : Vertex} (h : v.bulge = σ * Real.tan (Real.pi / 8)) :
    ¬ IsLine v ∧ |v.bulge| ≤ 1 ∧ 0 ≤ σ * v.bulge ∧ σ * v.bulge ≤ 1 ∧ sweep v = σ * (Real.pi / 2) := by
  obtain ⟨t1, t2⟩ := tan_eighth
  have t0 : 0 < Real.tan (Real.pi / 8) := lt_of_lt_of_le (by norm_num) t1
  have hσ2 : σ * σ = 1 := by rcases hσ with e | e <;> rw [e] <;> norm_num
  have hpi := Real.pi_pos
  refine ⟨?_, ?_, ?_, ?_, ?_⟩
  · unfold IsLine
    rw [h, abs_sign hσ, abs_of_pos t0, not_lt]
    exact le_trans (by norm_num) t1
  · rw [h, abs_sign hσ, abs_of_pos t0]
    exact t2
  · rw [h, ← mul_assoc, hσ2, one_mul]; exact t0.le
  · rw [h, ← mul_assoc, hσ2, one_mul]; exact t2
  · unfold sweep
    rw [h]
    have ha : Real.arctan (Real.tan (Real.pi / 8)) = Real.pi / 8 := Real.arctan_tan (by linarith) (by linarith)
    rcases hσ with rfl | rfl
    · rw [one_mul, ha]; ring
    · rw [neg_one_mul, Real.arctan_neg, ha]; ring

theorem side_in {σ X X' y y' : ℝ} {v w : Vertex} (hσ : σ = 1 ∨ σ = -1) (hl : IsLine v) (hv : v.pos.x = σ * X)
    (hw : w.pos.x = σ * X') (hv' : v.pos.y = y) (hw' : w.pos.y = y') {lx hx ly hy : ℝ} (h1 : lx ≤ X ∧ X ≤ hx)
    (h2 : lx ≤ X' ∧ X' ≤ hx) (h3 : ly ≤ y ∧ y ≤ hy) (h4 : ly ≤ y' ∧ y' ≤ hy) : IsSide σ lx hx ly hy v w := by
  have hσ2 : σ * σ = 1 := by rcases hσ with e | e <;> rw [e] <;> norm_num
  obtain ⟨a1, a2, a3, a4⟩ := box_ends (v := v) (w := w) (P := fun z => lx ≤ σ * z ∧ σ * z ≤ hx) (Q := fun z => ly ≤ z ∧ z ≤ hy)
    (by rw [hv, ← mul_assoc, hσ2, one_mul]; exact h1) (by rw [hw, ← mul_assoc, hσ2, one_mul]; exact h2)
    (by rw [hv']; exact h3) (by rw [hw']; exact h4) fun h => absurd hl h
  exact ⟨hl, a1, a2, a3, a4⟩

theorem rounding_in {σ X X' y y' d : ℝ} {c : V2} {v w : Vertex} (hσ : σ = 1 ∨ σ = -1)
    (hb : v.bulge = σ * Real.tan (Real.pi / 8)) (hd : 0 ≤ d) (hv : v.pos.x = σ * X)
    (hw : w.pos.x = σ * X') (hv' : v.pos.y = y) (hw' : w.pos.y = y')
    (hcx : w.pos.x - c.x = -σ * (v.pos.y - c.y)) (hcy : w.pos.y - c.y = σ * (v.pos.x - c.x))
    {lx hx ly hy : ℝ} (h1 : ∀ t, 0 ≤ t → t ≤ 1 → lx ≤ X + t * (y' - y) / 2 ∧ X + t * (y' - y) / 2 ≤ hx ∧
      lx ≤ X' + t * (y' - y) / 2 ∧ X' + t * (y' - y) / 2 ≤ hx)
    (h2 : ∀ t, 0 ≤ t → t ≤ 1 → ly ≤ y - t * (X' - X) / 2 ∧ y - t * (X' - X) / 2 ≤ hy ∧
      ly ≤ y' - t * (X' - X) / 2 ∧ y' - t * (X' - X) / 2 ≤ hy) : IsRounding σ lx hx ly hy d c v w := by
  have hσ2 : σ * σ = 1 := by rcases hσ with e | e <;> rw [e] <;> norm_num
  obtain ⟨e1, e2, e3, e4, e5⟩ := eighth_arc hσ hb
  have z1 := h1 0 le_rfl zero_le_one
  have z2 := h2 0 le_rfl zero_le_one
  simp only [zero_mul, zero_div, add_zero, sub_zero] at z1 z2
  have k1 := h1 (σ * v.bulge) e3 e4
  have k2 := h2 (σ * v.bulge) e3 e4
  obtain ⟨a1, a2, a3, a4⟩ := box_ends (v := v) (w := w) (P := fun z => lx ≤ σ * z ∧ σ * z ≤ hx) (Q := fun z => ly ≤ z ∧ z ≤ hy)
    (by rw [hv, ← mul_assoc, hσ2, one_mul]; exact ⟨z1.1, z1.2.1⟩)
    (by rw [hw, ← mul_assoc, hσ2, one_mul]; exact z1.2.2)
    (by rw [hv']; exact ⟨z2.1, z2.2.1⟩) (by rw [hw']; exact z2.2.2) fun _ => by
      rw [hv, hw, hv', hw',
        show σ * (σ * X + v.bulge * (y' - y) / 2) = σ * σ * X + σ * v.bulge * (y' - y) / 2 by ring,
        show σ * (σ * X' + v.bulge * (y' - y) / 2) = σ * σ * X' + σ * v.bulge * (y' - y) / 2 by ring, hσ2, one_mul, one_mul,
        show y + -v.bulge * (σ * X' - σ * X) / 2 = y - σ * v.bulge * (X' - X) / 2 by ring,
        show y' + -v.bulge * (σ * X' - σ * X) / 2 = y' - σ * v.bulge * (X' - X) / 2 by ring]
      exact ⟨⟨k1.1, k1.2.1⟩, k1.2.2, ⟨k2.1, k2.2.1⟩, k2.2.2⟩
  refine ⟨hb, ?_, a1, a2, a3, a4⟩
  unfold IsCenter
  rw [e5]
  have hcs : Real.cos (σ * (Real.pi / 2)) = 0 ∧ Real.sin (σ * (Real.pi / 2)) = σ := by
    rcases hσ with rfl | rfl <;> simp
  ext <;> simp only [rot] <;> rw [hcs.1, hcs.2] <;> linarith

/-- The segments of the raw offset. -/
theorem round_seg {q : Polyline} (h : IsRound σ X0 y0 X1 y1 d q) {i : ℕ} {v w : Vertex} (hseg : IsSeg q i v w) :
    (i = 0 ∧ v.pos = ⟨σ * X0, y0 - d⟩ ∧ w.pos = ⟨σ * X1, y0 - d⟩ ∧ IsSide σ X0 X1 (y0 - d) (y0 - d) v w) ∨
    (i = 1 ∧ v.pos = ⟨σ * X1, y0 - d⟩ ∧ w.pos = ⟨σ * (X1 + d), y0⟩ ∧
      IsRounding σ X1 (X1 + 2 * d) (y0 - 2 * d) y0 d ⟨σ * X1, y0⟩ v w) ∨
    (i = 2 ∧ v.pos = ⟨σ * (X1 + d), y0⟩ ∧ w.pos = ⟨σ * (X1 + d), y1⟩ ∧ IsSide σ (X1 + d) (X1 + d) y0 y1 v w) ∨
    (i = 3 ∧ v.pos = ⟨σ * (X1 + d), y1⟩ ∧ w.pos = ⟨σ * X1, y1 + d⟩ ∧
      IsRounding σ X1 (X1 + 2 * d) y1 (y1 + 2 * d) d ⟨σ * X1, y1⟩ v w) ∨
    (i = 4 ∧ v.pos = ⟨σ * X1, y1 + d⟩ ∧ w.pos = ⟨σ * X0, y1 + d⟩ ∧ IsSide σ X0 X1 (y1 + d) (y1 + d) v w) ∨
    (i = 5 ∧ v.pos = ⟨σ * X0, y1 + d⟩ ∧ w.pos = ⟨σ * (X0 - d), y1⟩ ∧
      IsRounding σ (X0 - 2 * d) X0 y1 (y1 + 2 * d) d ⟨σ * X0, y1⟩ v w) ∨
    (i = 6 ∧ v.pos = ⟨σ * (X0 - d), y1⟩ ∧ w.pos = ⟨σ * (X0 - d), y0⟩ ∧ IsSide σ (X0 - d) (X0 - d) y0 y1 v w) ∨
    (i = 7 ∧ v.pos = ⟨σ * (X0 - d), y0⟩ ∧ w.pos = ⟨σ * X0, y0 - d⟩ ∧
      IsRounding σ (X0 - 2 * d) X0 (y0 - 2 * d) y0 d ⟨σ * X0, y0⟩ v w) := by
  obtain ⟨b0, b1, b2, b3, ⟨l0, l1, l2, l3⟩, rfl⟩ := h.shape
  have hσ2 : σ * σ = 1 := by rcases h.sign with e | e <;> rw [e] <;> norm_num
  have hd0 : 0 < d := lt_of_lt_of_le (by norm_num) h.offset
  have e3 : (0 : ℝ) < 1 / 10 ^ 3 := by norm_num
  have hw := h.width
  have hh := h.height
  unfold IsSeg at hseg
  have hsg : segs (roundRect (σ * X0) y0 (σ * X1) y1 (σ * d) d (σ * Real.tan (Real.pi / 8)) b0 b1 b2 b3) =
    [(⟨⟨σ * X0, y0 - d⟩, b0⟩, ⟨⟨σ * X1, y0 - d⟩, σ * Real.tan (Real.pi / 8)⟩),
     (⟨⟨σ * X1, y0 - d⟩, σ * Real.tan (Real.pi / 8)⟩, ⟨⟨σ * X1 + σ * d, y0⟩, b1⟩),
     (⟨⟨σ * X1 + σ * d, y0⟩, b1⟩, ⟨⟨σ * X1 + σ * d, y1⟩, σ * Real.tan (Real.pi / 8)⟩),
     (⟨⟨σ * X1 + σ * d, y1⟩, σ * Real.tan (Real.pi / 8)⟩, ⟨⟨σ * X1, y1 + d⟩, b2⟩),
     (⟨⟨σ * X1, y1 + d⟩, b2⟩, ⟨⟨σ * X0, y1 + d⟩, σ * Real.tan (Real.pi / 8)⟩),
     (⟨⟨σ * X0, y1 + d⟩, σ * Real.tan (Real.pi / 8)⟩, ⟨⟨σ * X0 - σ * d, y1⟩, b3⟩),
     (⟨⟨σ * X0 - σ * d, y1⟩, b3⟩, ⟨⟨σ * X0 - σ * d, y0⟩, σ * Real.tan (Real.pi / 8)⟩),
     (⟨⟨σ * X0 - σ * d, y0⟩, σ * Real.tan (Real.pi / 8)⟩, ⟨⟨σ * X0, y0 - d⟩, b0⟩)] := rfl
  rw [hsg] at hseg
  have m1 : σ * X1 + σ * d = σ * (X1 + d) := by ring
  have m0 : σ * X0 - σ * d = σ * (X0 - d) := by ring
  rw [m1, m0] at hseg
  match i, hseg with
  | 0, hseg =>
    cases hseg
    exact Or.inl ⟨rfl, rfl, rfl, side_in h.sign (by exact l0) rfl rfl rfl rfl ⟨le_rfl, by linarith⟩ ⟨by linarith, le_rfl⟩ ⟨le_rfl, le_rfl⟩
      ⟨le_rfl, le_rfl⟩⟩
  | 1, hseg =>
    cases hseg
    refine Or.inr (Or.inl ⟨rfl, rfl, rfl, rounding_in (X := X1) (X' := X1 + d) h.sign rfl hd0.le rfl rfl rfl rfl (by simp only; ring)
      (by simp only; ring) (fun t t0 t1 => ?_) (fun t t0 t1 => ?_)⟩)
    all_goals
      refine ⟨?_, ?_, ?_, ?_⟩ <;> nlinarith
  | 2, hseg =>
    cases hseg
    exact Or.inr (Or.inr (Or.inl ⟨rfl, rfl, rfl, side_in h.sign (by exact l1) rfl rfl rfl rfl ⟨le_rfl, le_rfl⟩ ⟨le_rfl, le_rfl⟩
      ⟨le_rfl, by linarith⟩ ⟨by linarith, le_rfl⟩⟩))
  | 3, hseg =>
    cases hseg
    refine Or.inr (Or.inr (Or.inr (Or.inl ⟨rfl, rfl, rfl, rounding_in (X := X1 + d) (X' := X1) h.sign rfl hd0.le rfl rfl rfl rfl
      (by simp only; ring) (by simp only; linear_combination -d * hσ2) (fun t t0 t1 => ?_) (fun t t0 t1 => ?_)⟩)))
    all_goals
      refine ⟨?_, ?_, ?_, ?_⟩ <;> nlinarith
  | 4, hseg =>
    cases hseg
    exact Or.inr (Or.inr (Or.inr (Or.inr (Or.inl ⟨rfl, rfl, rfl, side_in h.sign (by exact l2) rfl rfl rfl rfl ⟨by linarith, le_rfl⟩
      ⟨le_rfl, by linarith⟩ ⟨le_rfl, le_rfl⟩ ⟨le_rfl, le_rfl⟩⟩))))
  | 5, hseg =>
    cases hseg
    refine Or.inr (Or.inr (Or.inr (Or.inr (Or.inr (Or.inl ⟨rfl, rfl, rfl, rounding_in (X := X0) (X' := X0 - d) h.sign rfl hd0.le rfl
      rfl rfl rfl (by simp only; ring) (by simp only; ring) (fun t t0 t1 => ?_) (fun t t0 t1 => ?_)⟩)))))
    all_goals
      refine ⟨?_, ?_, ?_, ?_⟩ <;> nlinarith
  | 6, hseg =>
    cases hseg
    exact Or.inr (Or.inr (Or.inr (Or.inr (Or.inr (Or.inr (Or.inl ⟨rfl, rfl, rfl, side_in h.sign (by exact l3) rfl rfl rfl rfl ⟨le_rfl, le_rfl⟩
      ⟨le_rfl, le_rfl⟩ ⟨by linarith, le_rfl⟩ ⟨le_rfl, by linarith⟩⟩))))))
  | 7, hseg =>
    cases hseg
    refine Or.inr (Or.inr (Or.inr (Or.inr (Or.inr (Or.inr (Or.inr ⟨rfl, rfl, rfl, rounding_in (X := X0 - d) (X' := X0) h.sign rfl
      hd0.le rfl rfl rfl rfl (by simp only; ring) (by simp only; linear_combination d * hσ2) (fun t t0 t1 => ?_)
      (fun t t0 t1 => ?_)⟩))))))
    all_goals
      refine ⟨?_, ?_, ?_, ?_⟩ <;> nlinarith
  | n + 8, hseg => simp at hseg

theorem IsRound.ok {q : Polyline} (h : IsRound σ X0 y0 X1 y1 d q) : PlineOk q := by
  have hd0 : 0 < d := lt_of_lt_of_le (by norm_num) h.offset
  have hd4 := h.offset
  have e84 : (1 / 10 ^ 8 : ℝ) ≤ 1 / 10 ^ 4 := by norm_num
  have hy : ∀ a b : ℝ, a - b = d ∨ a - b = -d → 1 / 10 ^ 8 ≤ |a - b| := by
    rintro a b (e | e) <;> rw [e]
    · rw [abs_of_pos hd0]; linarith
    · rw [abs_neg, abs_of_pos hd0]; linarith
  have hside : ∀ {lx hx ly hy : ℝ} {v w : Vertex}, IsSide σ lx hx ly hy v w → SegOk v w := fun hv =>
    ⟨by have := hv.line; unfold IsLine at this; linarith [show (1 : ℝ) / 10 ^ 5 ≤ 1 by norm_num], fun hn => absurd hv.line hn⟩
  intro i v w hs
  rcases round_seg h hs with ⟨rfl, hv, hw, hk⟩ | ⟨rfl, hv, hw, hk⟩ | ⟨rfl, hv, hw, hk⟩ | ⟨rfl, hv, hw, hk⟩ |
    ⟨rfl, hv, hw, hk⟩ | ⟨rfl, hv, hw, hk⟩ | ⟨rfl, hv, hw, hk⟩ | ⟨rfl, hv, hw, hk⟩
  · exact hside hk
  · exact ⟨(eighth_arc h.sign hk.bulge).2.1, fun _ => by rw [hv, hw]; exact Or.inr (hy _ _ (Or.inr (by ring)))⟩
  · exact hside hk
  · exact ⟨(eighth_arc h.sign hk.bulge).2.1, fun _ => by rw [hv, hw]; exact Or.inr (hy _ _ (Or.inr (by ring)))⟩
  · exact hside hk
  · exact ⟨(eighth_arc h.sign hk.bulge).2.1, fun _ => by rw [hv, hw]; exact Or.inr (hy _ _ (Or.inl (by ring)))⟩
  · exact hside hk
  · exact ⟨(eighth_arc h.sign hk.bulge).2.1, fun _ => by rw [hv, hw]; exact Or.inr (hy _ _ (Or.inl (by ring)))⟩

theorem IsRound.far {q : Polyline} (h : IsRound σ X0 y0 X1 y1 d q) {i : ℕ} {v w : Vertex} (hs : IsSeg q i v w) :
    1 / 10 ^ 4 ≤ |v.pos.x - w.pos.x| ∨ 1 / 10 ^ 4 ≤ |v.pos.y - w.pos.y| := by
  have hd0 : 0 < d := lt_of_lt_of_le (by norm_num) h.offset
  have hd4 := h.offset
  have e43 : (1 / 10 ^ 4 : ℝ) ≤ 1 / 10 ^ 3 := by norm_num
  have e3 : (0 : ℝ) < 1 / 10 ^ 3 := by norm_num
  have hw := h.width
  have hh := h.height
  have key : ∀ a b k : ℝ, 1 / 10 ^ 4 ≤ k → a - b = k ∨ a - b = -k → 1 / 10 ^ 4 ≤ |a - b| := by
    rintro a b k hk (e | e) <;> rw [e]
    · exact hk.trans (le_abs_self _)
    · rw [abs_neg]; exact hk.trans (le_abs_self _)
  have aw : |σ * X0 - σ * X1| = X1 - X0 := by
    rw [← mul_sub, abs_sign h.sign, abs_sub_comm, abs_of_pos (by linarith)]
  have aw' : |σ * X1 - σ * X0| = X1 - X0 := by rw [abs_sub_comm, aw]
  rcases round_seg h hs with ⟨rfl, hv, hw, hk⟩ | ⟨rfl, hv, hw, hk⟩ | ⟨rfl, hv, hw, hk⟩ | ⟨rfl, hv, hw, hk⟩ |
    ⟨rfl, hv, hw, hk⟩ | ⟨rfl, hv, hw, hk⟩ | ⟨rfl, hv, hw, hk⟩ | ⟨rfl, hv, hw, hk⟩ <;> rw [hv, hw]
  · left; simp only; rw [aw]; linarith
  · exact Or.inr (key _ _ d hd4 (Or.inr (by ring)))
  · exact Or.inr (key _ _ (y1 - y0) (by linarith) (Or.inr (by ring)))
  · exact Or.inr (key _ _ d hd4 (Or.inr (by ring)))
  · left; simp only; rw [aw']; linarith
  · exact Or.inr (key _ _ d hd4 (Or.inl (by ring)))
  · exact Or.inr (key _ _ (y1 - y0) (by linarith) (Or.inl (by ring)))
  · exact Or.inr (key _ _ d hd4 (Or.inl (by ring)))

theorem IsRound.not_near {q : Polyline} (h : IsRound σ X0 y0 X1 y1 d q) {i : ℕ} {v w : Vertex} (hs : IsSeg q i v w) {ε : ℝ}
    (hε : ε ≤ 1 / 10 ^ 4) : ¬ Near ε v.pos w.pos := by
  rintro ⟨n1, n2⟩
  rcases h.far hs with k | k <;> linarith

theorem IsRound.long {q : Polyline} (h : IsRound σ X0 y0 X1 y1 d q) : LongArcs q :=
  fun _ _ _ hs _ => h.not_near hs (by norm_num)

theorem IsRound.size_eq {q : Polyline} (h : IsRound σ X0 y0 X1 y1 d q) : q.vertexes.length = 8 ∧ q.isClosed = true ∧
    (segs q).length = 8 := by
  obtain ⟨b0, b1, b2, b3, -, rfl⟩ := h.shape
  exact ⟨rfl, rfl, rfl⟩

theorem IsRound.indexable {q : Polyline} (h : IsRound σ X0 y0 X1 y1 d q) (inf ninf : ℝ) :
    Indexable (codePlatform inf ninf) q :=
  indexable_code (by rw [h.size_eq.1]; norm_num) (by rw [h.size_eq.2.2]; norm_num) _ _
    (Or.inl (by rw [h.size_eq.2.2]; norm_num)) fun i v1 v2 hs => (h.ok i v1 v2 hs).half

/-- Bounds for all segments, by number. -/
theorem IsRound.bounds {q : Polyline} (h : IsRound σ X0 y0 X1 y1 d q) {i : ℕ} {v w : Vertex} (hs : IsSeg q i v w) :
    ∃ lx hx ly hy : ℝ, SegIn σ lx hx ly hy v w ∧
      ((i = 0 ∧ w.pos = ⟨σ * X1, y0 - d⟩ ∧ lx = X0 ∧ hx = X1 ∧ ly = y0 - d ∧ hy = y0 - d) ∨
       (i = 1 ∧ w.pos = ⟨σ * (X1 + d), y0⟩ ∧ lx = X1 ∧ hx = X1 + 2 * d ∧ ly = y0 - 2 * d ∧ hy = y0) ∨
       (i = 2 ∧ w.pos = ⟨σ * (X1 + d), y1⟩ ∧ lx = X1 + d ∧ hx = X1 + d ∧ ly = y0 ∧ hy = y1) ∨
       (i = 3 ∧ w.pos = ⟨σ * X1, y1 + d⟩ ∧ lx = X1 ∧ hx = X1 + 2 * d ∧ ly = y1 ∧ hy = y1 + 2 * d) ∨
       (i = 4 ∧ w.pos = ⟨σ * X0, y1 + d⟩ ∧ lx = X0 ∧ hx = X1 ∧ ly = y1 + d ∧ hy = y1 + d) ∨
       (i = 5 ∧ w.pos = ⟨σ * (X0 - d), y1⟩ ∧ lx = X0 - 2 * d ∧ hx = X0 ∧ ly = y1 ∧ hy = y1 + 2 * d) ∨
       (i = 6 ∧ w.pos = ⟨σ * (X0 - d), y0⟩ ∧ lx = X0 - d ∧ hx = X0 - d ∧ ly = y0 ∧ hy = y1) ∨
       (i = 7 ∧ w.pos = ⟨σ * X0, y0 - d⟩ ∧ lx = X0 - 2 * d ∧ hx = X0 ∧ ly = y0 - 2 * d ∧ hy = y0)) := by
  rcases round_seg h hs with ⟨rfl, hv, hw, hk⟩ | ⟨rfl, hv, hw, hk⟩ | ⟨rfl, hv, hw, hk⟩ | ⟨rfl, hv, hw, hk⟩ |
    ⟨rfl, hv, hw, hk⟩ | ⟨rfl, hv, hw, hk⟩ | ⟨rfl, hv, hw, hk⟩ | ⟨rfl, hv, hw, hk⟩ <;>
    exact ⟨_, _, _, _, hk.inBox, by simp [hw]⟩

theorem IsRound.far_pairs {q : Polyline} (h : IsRound σ X0 y0 X1 y1 d q) {i j : ℕ} :
    ¬ (NonAdjacent q i j ∧ ∃ v1 v2 u1 u2, IsSeg q i v1 v2 ∧ IsSeg q j u1 u2 ∧ BoxesClose (1 / 10 ^ 8) v1 v2 u1 u2) := by
  rintro ⟨⟨n1, n2, n3⟩, v1, v2, u1, u2, h1, h2, hb⟩
  have hd0 : 0 < d := lt_of_lt_of_le (by norm_num) h.offset
  have hd4 := h.offset
  have e43 : (1 / 10 ^ 4 : ℝ) ≤ 1 / 10 ^ 3 := by norm_num
  have hw := h.width
  have hh := h.height
  unfold IsPrev at n2 n3
  rw [h.size_eq.1] at n2 n3
  obtain ⟨lx, hx, ly, hy, s1, k1⟩ := h.bounds h1
  obtain ⟨lx', hx', ly', hy', s2, k2⟩ := h.bounds h2
  refine s1.not_close h.sign s2 ?_ hb
  clear hb s1 s2 h1 h2
  rcases k1 with ⟨rfl, -, rfl, rfl, rfl, rfl⟩ | ⟨rfl, -, rfl, rfl, rfl, rfl⟩ | ⟨rfl, -, rfl, rfl, rfl, rfl⟩ | ⟨rfl, -, rfl, rfl, rfl, rfl⟩ |
    ⟨rfl, -, rfl, rfl, rfl, rfl⟩ | ⟨rfl, -, rfl, rfl, rfl, rfl⟩ | ⟨rfl, -, rfl, rfl, rfl, rfl⟩ | ⟨rfl, -, rfl, rfl, rfl, rfl⟩ <;>
  rcases k2 with ⟨rfl, -, rfl, rfl, rfl, rfl⟩ | ⟨rfl, -, rfl, rfl, rfl, rfl⟩ | ⟨rfl, -, rfl, rfl, rfl, rfl⟩ | ⟨rfl, -, rfl, rfl, rfl, rfl⟩ |
    ⟨rfl, -, rfl, rfl, rfl, rfl⟩ | ⟨rfl, -, rfl, rfl, rfl, rfl⟩ | ⟨rfl, -, rfl, rfl, rfl, rfl⟩ | ⟨rfl, -, rfl, rfl, rfl, rfl⟩ <;>
  first
  | (exfalso; omega)
  | (left; linarith)
  | (right; left; linarith)
  | (right; right; left; linarith)
  | (right; right; right; linarith)

theorem IsRound.once {q : Polyline} (h : IsRound σ X0 y0 X1 y1 d q) (x : V2) : ¬ PassedTwice q x := by
  rintro ⟨i, j, v1, v2, u1, u2, h1, h2, hne, o1, o2, hn⟩
  apply hn
  clear hn
  have hd0 : 0 < d := lt_of_lt_of_le (by norm_num) h.offset
  have e3 : (0 : ℝ) < 1 / 10 ^ 3 := by norm_num
  have hw := h.width
  have hh := h.height
  obtain ⟨lx, hx, ly, hy, s1, k1⟩ := h.bounds h1
  obtain ⟨lx', hx', ly', hy', s2, k2⟩ := h.bounds h2
  obtain ⟨a1, a2, a3, a4⟩ := s1.point h.sign (h.ok _ _ _ h1) o1
  obtain ⟨b1, b2, b3, b4⟩ := s2.point h.sign (h.ok _ _ _ h2) o2
  rw [h.size_eq.1]
  have hσ2 : σ * σ = 1 := by rcases h.sign with e | e <;> rw [e] <;> norm_num
  have hpt : ∀ {X y : ℝ} {z : V2}, z = ⟨σ * X, y⟩ → σ * x.x = X → x.y = y → x = z := by
    intro X y z hz h1 h2
    rw [hz]
    ext
    · simp only; rw [← h1, ← mul_assoc, hσ2, one_mul]
    · exact h2
  clear s1 s2 h1 h2 o1 o2
  rcases k1 with ⟨rfl, g, rfl, rfl, rfl, rfl⟩ | ⟨rfl, g, rfl, rfl, rfl, rfl⟩ | ⟨rfl, g, rfl, rfl, rfl, rfl⟩ | ⟨rfl, g, rfl, rfl, rfl, rfl⟩ |
    ⟨rfl, g, rfl, rfl, rfl, rfl⟩ | ⟨rfl, g, rfl, rfl, rfl, rfl⟩ | ⟨rfl, g, rfl, rfl, rfl, rfl⟩ | ⟨rfl, g, rfl, rfl, rfl, rfl⟩ <;>
  rcases k2 with ⟨rfl, g', rfl, rfl, rfl, rfl⟩ | ⟨rfl, g', rfl, rfl, rfl, rfl⟩ | ⟨rfl, g', rfl, rfl, rfl, rfl⟩ | ⟨rfl, g', rfl, rfl, rfl, rfl⟩ |
    ⟨rfl, g', rfl, rfl, rfl, rfl⟩ | ⟨rfl, g', rfl, rfl, rfl, rfl⟩ | ⟨rfl, g', rfl, rfl, rfl, rfl⟩ | ⟨rfl, g', rfl, rfl, rfl, rfl⟩ <;>
  first
  | exact absurd rfl hne
  | (left; exact ⟨rfl, hpt g (by linarith) (by linarith)⟩)
  | (right; exact ⟨rfl, hpt g' (by linarith) (by linarith)⟩)
  | (exfalso; linarith)

theorem IsRound.consecutive {q : Polyline} (h : IsRound σ X0 y0 X1 y1 d q) {i : ℕ} {v1 v2 v3 : Vertex}
    (h1 : IsSeg q i v1 v2) (h2 : IsSeg q ((i + 1) % 8) v2 v3) : consecutivePoints v1 v2 v3 = [] := by
  have hd0 : 0 < d := lt_of_lt_of_le (by norm_num) h.offset
  have hpos : 0 < d ^ 2 := by positivity
  have hσ2 : σ ^ 2 = 1 := by rcases h.sign with e | e <;> rw [e] <;> norm_num
  have hn := h.not_near h1 (ε := 1 / 10 ^ 5) (by norm_num)
  have hlong : ∀ {k : ℕ} {v w : Vertex}, IsSeg q k v w → 1 / 10 ^ 8 ≤ dist2 v.pos w.pos := by
    intro k v w hk
    have e : (1 / 10 ^ 8 : ℝ) = (1 / 10 ^ 4) ^ 2 := by norm_num
    unfold dist2
    rw [e]
    rcases h.far hk with g | g
    · have := pow_le_pow_left₀ (by norm_num) g 2
      rw [sq_abs] at this
      nlinarith [sq_nonneg (v.pos.y - w.pos.y)]
    · have := pow_le_pow_left₀ (by norm_num) g 2
      rw [sq_abs] at this
      nlinarith [sq_nonneg (v.pos.x - w.pos.x)]
  have hf : ∀ {k : ℕ} {v w : Vertex}, IsSeg q k v w →
      1 / 10 ^ 8 ≤ |v.pos.x - w.pos.x| ∨ 1 / 10 ^ 8 ≤ |v.pos.y - w.pos.y| := fun hk =>
    (h.far hk).imp (le_trans (by norm_num)) (le_trans (by norm_num))
  have la : ∀ {lx hx ly hy lx' hx' ly' hy' : ℝ} {c : V2}, IsSide σ lx hx ly hy v1 v2 →
      IsRounding σ lx' hx' ly' hy' d c v2 v3 → 0 < dist2 v2.pos c →
      (v2.pos.x - v1.pos.x) * (v2.pos.x - c.x) + (v2.pos.y - v1.pos.y) * (v2.pos.y - c.y) = 0 →
      consecutivePoints v1 v2 v3 = [] := fun a b h0 hdot =>
    touch_line_arc hn a.line (hlong h1) (eighth_arc h.sign b.bulge).1 h0 (hf h2) b.center hdot
  have al : ∀ {lx hx ly hy lx' hx' ly' hy' : ℝ} {c : V2}, IsRounding σ lx hx ly hy d c v1 v2 →
      IsSide σ lx' hx' ly' hy' v2 v3 → 0 < dist2 v2.pos c →
      (v3.pos.x - v2.pos.x) * (v2.pos.x - c.x) + (v3.pos.y - v2.pos.y) * (v2.pos.y - c.y) = 0 →
      consecutivePoints v1 v2 v3 = [] := fun a b h0 hdot =>
    touch_arc_line hn b.line (hlong h2) (eighth_arc h.sign a.bulge).1 h0 (hf h1) a.center hdot
  have k2 := round_seg h h2
  rcases round_seg h h1 with ⟨rfl, hv, hw, hk⟩ | ⟨rfl, hv, hw, hk⟩ | ⟨rfl, hv, hw, hk⟩ | ⟨rfl, hv, hw, hk⟩ |
    ⟨rfl, hv, hw, hk⟩ | ⟨rfl, hv, hw, hk⟩ | ⟨rfl, hv, hw, hk⟩ | ⟨rfl, hv, hw, hk⟩ <;>
    norm_num at k2 <;> obtain ⟨-, g2, g3⟩ := k2
  · refine la hk g3 ?_ ?_ <;> rw [hw]
    · simp only [dist2]; nlinarith
    · rw [hv]; simp only; ring
  · refine al hk g3 ?_ ?_ <;> rw [hw]
    · simp only [dist2]; nlinarith
    · rw [g2]; simp only; ring
  · refine la hk g3 ?_ ?_ <;> rw [hw]
    · simp only [dist2]; nlinarith
    · rw [hv]; simp only; ring
  · refine al hk g3 ?_ ?_ <;> rw [hw]
    · simp only [dist2]; nlinarith
    · rw [g2]; simp only; ring
  · refine la hk g3 ?_ ?_ <;> rw [hw]
    · simp only [dist2]; nlinarith
    · rw [hv]; simp only; ring
  · refine al hk g3 ?_ ?_ <;> rw [hw]
    · simp only [dist2]; nlinarith
    · rw [g2]; simp only; ring
  · refine la hk g3 ?_ ?_ <;> rw [hw]
    · simp only [dist2]; nlinarith
    · rw [hv]; simp only; ring
  · refine al hk g3 ?_ ?_ <;> rw [hw]
    · simp only [dist2]; nlinarith
    · rw [g2]; simp only; ring

theorem IsRound.selfs {q : Polyline} (h : IsRound σ X0 y0 X1 y1 d q) {l : List PlineIntersect} (hl : SelfIntersectsOf q l) :
    l = [] := by
  obtain ⟨pairs, -, -, hp, rfl⟩ := hl
  have : pairs = [] := by
    rw [List.eq_nil_iff_forall_not_mem]
    rintro ⟨i, j⟩ hij
    exact h.far_pairs ((hp i j).1 (Or.inl hij))
  rw [this, List.flatMap_nil, List.append_nil]
  have e : consecutiveOf q = (List.range (segs q).length).flatMap (consecutiveHits q) := by
    obtain ⟨b0, b1, b2, b3, -, rfl⟩ := h.shape
    rfl
  rw [e, List.flatMap_eq_nil_iff]
  intro i hi
  rw [List.mem_range, h.size_eq.2.2] at hi
  unfold consecutiveHits
  have hj : (if q.isClosed = true ∧ i + 1 = q.vertexes.length then 0 else i + 1) = (i + 1) % 8 := by
    rw [h.size_eq.1]
    split_ifs with c
    · rw [c.2]
    · have : i + 1 ≠ 8 := fun e => c ⟨h.size_eq.2.1, e⟩
      omega
  simp only
  rw [hj]
  have hsz : q.size = 8 := h.size_eq.1
  have g1 := closed_isSeg h.size_eq.2.1 (by omega) (k := i) (by omega)
  have g2 := closed_isSeg h.size_eq.2.1 (by omega) (k := (i + 1) % 8) (by omega)
  rw [hsz] at g1 g2
  have g1' := g1
  have g2' := g2
  unfold IsSeg at g1' g2'
  rw [g1', g2']
  simp only
  rw [h.consecutive g1 g2, List.map_nil]

theorem rect_simple_cw {x0 y0 x1 y1 : ℝ} (hx : x1 < x0) (hy : y0 < y1) : SimplePolygon (rect x0 y0 x1 y1) := by
  refine ⟨rfl, by simp [rect, isLine_zero], by simp [rect], ?_, ?_⟩
  · intro i v1 v2 h he
    have e1 := congrArg V2.x he
    have e2 := congrArg V2.y he
    rcases rect_seg h with ⟨-, rfl, rfl⟩ | ⟨-, rfl, rfl⟩ | ⟨-, rfl, rfl⟩ | ⟨-, rfl, rfl⟩ <;> simp only at e1 e2 <;> linarith
  · intro i j v1 v2 u1 u2 x h1 h2 hne o1 o2
    have hl : ∀ a b : V2, OnSeg ⟨a, 0⟩ ⟨b, 0⟩ x → ∃ t, 0 ≤ t ∧ t ≤ 1 ∧ x.x = a.x + t * (b.x - a.x) ∧ x.y = a.y + t * (b.y - a.y) := by
      intro a b h
      obtain ⟨t, t0, t1, h⟩ := (onSeg_line (v1 := ⟨a, 0⟩) (v2 := ⟨b, 0⟩) (isLine_zero _)).1 h
      exact ⟨t, t0, t1, by rw [h]; rfl, by rw [h]; rfl⟩
    have hlen : (rect x0 y0 x1 y1).vertexes.length = 4 := rfl
    rw [hlen]
    rcases rect_seg h1 with ⟨rfl, rfl, rfl⟩ | ⟨rfl, rfl, rfl⟩ | ⟨rfl, rfl, rfl⟩ | ⟨rfl, rfl, rfl⟩ <;>
      rcases rect_seg h2 with ⟨rfl, rfl, rfl⟩ | ⟨rfl, rfl, rfl⟩ | ⟨rfl, rfl, rfl⟩ | ⟨rfl, rfl, rfl⟩ <;>
      obtain ⟨t, t0, t1, hx1, hy1⟩ := hl _ _ o1 <;> obtain ⟨u, u0, u1, hx2, hy2⟩ := hl _ _ o2 <;>
      simp only [sub_self, mul_zero, add_zero] at hx1 hy1 hx2 hy2 <;>
      first
      | exact absurd rfl hne
      | (left; refine ⟨rfl, ?_⟩; ext <;> simp only <;> linarith)
      | (right; refine ⟨rfl, ?_⟩; ext <;> simp only <;> linarith)
      | (exfalso; linarith)


theorem turned_simple (hs : RoundOk σ X0 y0 X1 y1 d) : SimplePolygon (turned σ X0 y0 X1 y1) := by
  have e3 : (0 : ℝ) < 1 / 10 ^ 3 := by norm_num
  have hw := hs.width
  have hh := hs.height
  rcases hs.sign with rfl | rfl
  · exact rect_simple (by linarith) (by linarith)
  · exact rect_simple_cw (by linarith) (by linarith)

theorem turned_raw_round (hs : RoundOk σ X0 y0 X1 y1 d) : ∃ q, IsRound σ X0 y0 X1 y1 d q ∧
    createRawOffsetPline (turned σ X0 y0 X1 y1) (-(σ * d)) = .ok q := by
  obtain ⟨b0, b1, b2, b3, hb, h⟩ := turned_raw hs
  exact ⟨_, ⟨hs, b0, b1, b2, b3, hb, rfl⟩, h⟩

theorem turned_good (hs : RoundOk σ X0 y0 X1 y1 d) (inf ninf : ℝ) :
    GoodOffset (codePlatform inf ninf) (turned σ X0 y0 X1 y1) (-(σ * d)) := by
  obtain ⟨q, hq, hraw⟩ := turned_raw_round hs
  refine ⟨turned_clear hs, rect_indexable inf ninf, q, hraw, hq.indexable inf ninf, hq.long,
    Or.inr ⟨hq.once, fun l hl => hq.selfs hl, ?_⟩⟩
  intro v hv _ z hz
  have hd0 : 0 < d := lt_of_lt_of_le (by norm_num) hs.offset
  have e3 : (0 : ℝ) < 1 / 10 ^ 3 := by norm_num
  have hh := hs.height
  have hvp : v.pos.y = y0 - d := by
    obtain ⟨b0, b1, b2, b3, -, rfl⟩ := hq.shape
    cases hv
    rfl
  rw [abs_neg, abs_sign hs.sign, abs_of_pos hd0]
  obtain ⟨i, v1, v2, hseg, ho⟩ := hz
  have hy : y0 ≤ z.y := by
    rcases rect_seg hseg with ⟨-, rfl, rfl⟩ | ⟨-, rfl, rfl⟩ | ⟨-, rfl, rfl⟩ | ⟨-, rfl, rfl⟩ <;>
      obtain ⟨t, t0, t1, hx, hy⟩ := on_line ho <;> rw [hy] <;> simp only <;> nlinarith
  apply Real.le_sqrt_of_sq_le
  unfold dist2
  rw [hvp]
  nlinarith [sq_nonneg (v.pos.x - z.x)]

theorem turned_offset {std : StdSort} {hash : HashOrder} (inf ninf : ℝ) (hs : RoundOk σ X0 y0 X1 y1 d) :
    ∃ q, IsRound σ X0 y0 X1 y1 d q ∧
      parallelOffset (codePlatform inf ninf) std hash (turned σ X0 y0 X1 y1) (-(σ * d)) = .ok [q] := by
  obtain ⟨q, hq, hraw⟩ := turned_raw_round hs
  have hd0 : 0 < d := lt_of_lt_of_le (by norm_num) hs.offset
  have ho : 1 / 10 ^ 4 ≤ |-(σ * d)| := by
    rw [abs_neg, abs_sign hs.sign, abs_of_pos hd0]; exact hs.offset
  have hgood := turned_good hs inf ninf
  have hp := turned_simple hs
  obtain ⟨r, hr⟩ := C65_parallelOffset (std := std) (hash := hash) inf ninf (p := turned σ X0 y0 X1 y1) (offset := -(σ * d))
    (rect_indexable inf ninf) rect_ok (fun v hv => by
      simp only [turned, rect, List.mem_cons, List.not_mem_nil, or_false] at hv
      rcases hv with rfl | rfl | rfl | rfl <;> simp) hgood.1.repeats rfl
    (line_not_collapses hp.lines hgood.1.repeats) (fun raw h => by
      rw [hraw] at h
      cases h
      exact Or.inr ⟨hq.indexable inf ninf, hq.long, fun l hl => by rw [hq.selfs hl]; simp [selfCuts]⟩)
  refine ⟨q, hq, ?_⟩
  have hne : r ≠ [] := by
    obtain ⟨q0, holes, hperm, -⟩ := C74_outward hp ho hgood hr (rect_area _ _ _ _) (by
      have := turned_area hs
      have h6 : (0 : ℝ) < 1 / 10 ^ 6 := by norm_num
      have hσ2 : σ * σ = 1 := by rcases hs.sign with e | e <;> rw [e] <;> norm_num
      rw [show -(σ * d) * ((σ * X1 - σ * X0) * (y1 - y0)) = -(σ * σ) * (d * ((X1 - X0) * (y1 - y0))) by ring, hσ2]
      have : 0 < d * ((X1 - X0) * (y1 - y0)) := mul_pos hd0 (by linarith)
      linarith)
    rintro rfl
    simp at hperm
  rcases C63_uncut inf ninf hp ho hgood.1 (rect_indexable inf ninf) hraw (hq.indexable inf ninf) hq.ok hq.once
    (fun l hl => hq.selfs hl) hr with ⟨rfl, -⟩ | ⟨-, rfl | ⟨rfl, -⟩⟩
  · exact hr
  · exact absurd rfl hne
  · exact hr

end

section
variable {x0 y0 x1 y1 d : ℝ}

/-- **C52.** The offset of a counter clockwise rectangle to the outside: its sides moved outwards, joined by quarter
circles about the corners (of bulge tan (π / 8)). Bulges below 1e-5 are straight segments for the library. -/
theorem C52_outward {std : StdSort} {hash : HashOrder} (inf ninf : ℝ) (hd : 1 / 10 ^ 4 ≤ d) (hw : x0 + 1 / 10 ^ 3 ≤ x1)
    (hh : y0 + 1 / 10 ^ 3 ≤ y1) (hsz : x1 - x0 < 10 ^ 8 * d ∨ y1 - y0 < 10 ^ 8 * d) :
    ∃ b0 b1 b2 b3 : ℝ, (|b0| < 1 / 10 ^ 5 ∧ |b1| < 1 / 10 ^ 5 ∧ |b2| < 1 / 10 ^ 5 ∧ |b3| < 1 / 10 ^ 5) ∧
    parallelOffset (codePlatform inf ninf) std hash
      ⟨true, [⟨⟨x0, y0⟩, 0⟩, ⟨⟨x1, y0⟩, 0⟩, ⟨⟨x1, y1⟩, 0⟩, ⟨⟨x0, y1⟩, 0⟩]⟩ (-d) =
    .ok [⟨true, [⟨⟨x0, y0 - d⟩, b0⟩, ⟨⟨x1, y0 - d⟩, Real.tan (Real.pi / 8)⟩, ⟨⟨x1 + d, y0⟩, b1⟩,
      ⟨⟨x1 + d, y1⟩, Real.tan (Real.pi / 8)⟩, ⟨⟨x1, y1 + d⟩, b2⟩, ⟨⟨x0, y1 + d⟩, Real.tan (Real.pi / 8)⟩,
      ⟨⟨x0 - d, y1⟩, b3⟩, ⟨⟨x0 - d, y0⟩, Real.tan (Real.pi / 8)⟩]⟩] := by
  obtain ⟨q, hq, h⟩ := turned_offset (std := std) (hash := hash) inf ninf (σ := 1) ⟨Or.inl rfl, hw, hh, hd, hsz⟩
  obtain ⟨b0, b1, b2, b3, hb, rfl⟩ := hq.shape
  refine ⟨b0, b1, b2, b3, hb, ?_⟩
  simp only [one_mul, turned, rect, roundRect] at h
  exact h

/-- **C52.** The same for a clockwise rectangle. -/
theorem C52_outward_clockwise {std : StdSort} {hash : HashOrder} (inf ninf : ℝ) (hd : 1 / 10 ^ 4 ≤ d)
    (hw : x0 + 1 / 10 ^ 3 ≤ x1) (hh : y0 + 1 / 10 ^ 3 ≤ y1) (hsz : x1 - x0 < 10 ^ 8 * d ∨ y1 - y0 < 10 ^ 8 * d) :
    ∃ b0 b1 b2 b3 : ℝ, (|b0| < 1 / 10 ^ 5 ∧ |b1| < 1 / 10 ^ 5 ∧ |b2| < 1 / 10 ^ 5 ∧ |b3| < 1 / 10 ^ 5) ∧
    parallelOffset (codePlatform inf ninf) std hash
      ⟨true, [⟨⟨x1, y0⟩, 0⟩, ⟨⟨x0, y0⟩, 0⟩, ⟨⟨x0, y1⟩, 0⟩, ⟨⟨x1, y1⟩, 0⟩]⟩ d =
    .ok [⟨true, [⟨⟨x1, y0 - d⟩, b0⟩, ⟨⟨x0, y0 - d⟩, -Real.tan (Real.pi / 8)⟩, ⟨⟨x0 - d, y0⟩, b1⟩,
      ⟨⟨x0 - d, y1⟩, -Real.tan (Real.pi / 8)⟩, ⟨⟨x0, y1 + d⟩, b2⟩, ⟨⟨x1, y1 + d⟩, -Real.tan (Real.pi / 8)⟩,
      ⟨⟨x1 + d, y1⟩, b3⟩, ⟨⟨x1 + d, y0⟩, -Real.tan (Real.pi / 8)⟩]⟩] := by
  obtain ⟨q, hq, h⟩ := turned_offset (std := std) (hash := hash) inf ninf (σ := -1) (X0 := -x1) (X1 := -x0) (d := d) (y0 := y0)
    (y1 := y1) ⟨Or.inr rfl, by linarith, hh, hd, hsz.imp (fun h => by linarith) id⟩
  obtain ⟨b0, b1, b2, b3, hb, rfl⟩ := hq.shape
  refine ⟨b0, b1, b2, b3, hb, ?_⟩
  simp only [neg_one_mul, neg_neg, turned, rect, roundRect, sub_neg_eq_add, ← sub_eq_add_neg] at h
  exact h

/-- The hypotheses of `C74_outward` are met by the square of side 10, offset by 1 to the outside; there are no holes. -/
example (std : StdSort) (hash : HashOrder) (inf ninf : ℝ) :
    ∃ q, parallelOffset (codePlatform inf ninf) std hash (rect 0 0 10 10) (-1) = .ok [q] ∧
      OneWithHoles (rect 0 0 10 10) (OffsetRegion (rect 0 0 10 10) (-1)) 1 q [] := by
  have hs : RoundOk 1 0 0 10 10 1 := ⟨Or.inl rfl, by norm_num, by norm_num, by norm_num, by norm_num⟩
  obtain ⟨q, -, h⟩ := turned_offset (std := std) (hash := hash) inf ninf hs
  have hg := turned_good hs inf ninf
  have hp := turned_simple hs
  norm_num [turned] at h hg hp
  obtain ⟨q0, holes, hperm, hone⟩ := C74_outward hp (by norm_num) hg h (rect_area _ _ _ _) (by norm_num)
  rw [if_pos (by norm_num)] at hone
  have e := List.singleton_perm.1 hperm
  injection e with e1 e2
  subst e1 e2
  exact ⟨_, h, hone⟩

end

end
end Cavc

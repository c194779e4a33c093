import Verif.Proofs.WindTurn
import Verif.Proofs.CircSeg

/-! How the turning of a segment changes where the point crosses it. -/
namespace Cavc
open Spec
open scoped Classical Topology
noncomputable section

theorem sin_three (p q : ℝ) : Real.sin (2 * p + 2 * q) - Real.sin (2 * p) - Real.sin (2 * q) =
    -(4 * Real.sin p * Real.sin q * Real.sin (p + q)) := by
  rw [Real.sin_add, Real.sin_add, Real.sin_two_mul, Real.sin_two_mul, Real.cos_two_mul', Real.cos_two_mul']
  have h1 := Real.sin_sq_add_cos_sq p
  have h2 := Real.sin_sq_add_cos_sq q
  linear_combination (2 * Real.sin q * Real.cos q) * h1 + (2 * Real.sin p * Real.cos p) * h2

/-- Which side of the chord the points of a circle are on. -/
theorem cross_rot (c a : V2) (α θ : ℝ) : cross a (rot c θ a) (rot c α a) =
    -(4 * dist2 a c * Real.sin (α / 2) * Real.sin ((θ - α) / 2) * Real.sin (θ / 2)) := by
  have h := sin_three (α / 2) ((θ - α) / 2)
  have e1 : 2 * (α / 2) + 2 * ((θ - α) / 2) = θ := by ring
  have e2 : 2 * (α / 2) = α := by ring
  have e3 : 2 * ((θ - α) / 2) = θ - α := by ring
  have e4 : α / 2 + (θ - α) / 2 = θ / 2 := by ring
  rw [e1, e2, e3, e4] at h
  have h3 := Real.sin_sub θ α
  have s1 := Real.sin_sq_add_cos_sq α
  have s2 := Real.sin_sq_add_cos_sq θ
  have : cross a (rot c θ a) (rot c α a) = dist2 a c * (Real.sin θ - Real.sin α - Real.sin (θ - α)) := by
    rw [h3]
    simp only [cross, rot, dist2]
    ring
  rw [this, h]
  ring

/-- The inner points of an arc are strictly on its side of the chord. -/
theorem arc_cross {v e : Vertex} (hb0 : v.bulge ≠ 0) (hne : v.pos ≠ centerOf v e) (hb : |v.bulge| ≤ 1) {t : ℝ} (t0 : 0 < t) (t1 : t < 1) :
    v.bulge * cross v.pos e.pos (rot (centerOf v e) (t * sweep v) v.pos) < 0 := by
  have hc : rot (centerOf v e) (sweep v) v.pos = e.pos := isCenter_centerOf hb0
  have hd := dist2_pos hne
  have hp := Real.pi_pos
  rw [← hc, cross_rot]
  have hmax : |sweep v| ≤ Real.pi := by
    unfold sweep
    have h1 : Real.arctan v.bulge ≤ Real.pi / 4 := by
      rw [← Real.arctan_one]; exact Real.arctan_strictMono.monotone (abs_le.1 hb).2
    have h2 : -(Real.pi / 4) ≤ Real.arctan v.bulge := by
      rw [← Real.arctan_one, ← Real.arctan_neg]; exact Real.arctan_strictMono.monotone (abs_le.1 hb).1
    rw [abs_le]
    constructor <;> linarith
  rcases lt_or_gt_of_ne hb0 with h | h
  · have hs := sweep_neg h
    rw [abs_of_neg hs] at hmax
    have n1 : Real.sin (t * sweep v / 2) < 0 := Real.sin_neg_of_neg_of_neg_pi_lt (by nlinarith) (by nlinarith)
    have n2 : Real.sin ((sweep v - t * sweep v) / 2) < 0 := Real.sin_neg_of_neg_of_neg_pi_lt (by nlinarith) (by nlinarith)
    have n3 : Real.sin (sweep v / 2) < 0 := Real.sin_neg_of_neg_of_neg_pi_lt (by linarith) (by linarith)
    have := mul_pos (mul_pos_of_neg_of_neg n1 n2) hd
    have := mul_pos_of_neg_of_neg h (mul_neg_of_neg_of_pos n3 this)
    nlinarith
  · have hs := sweep_pos h
    rw [abs_of_pos hs] at hmax
    have n1 : 0 < Real.sin (t * sweep v / 2) := Real.sin_pos_of_pos_of_lt_pi (by positivity) (by nlinarith)
    have n2 : 0 < Real.sin ((sweep v - t * sweep v) / 2) := Real.sin_pos_of_pos_of_lt_pi (by nlinarith) (by nlinarith)
    have n3 : 0 < Real.sin (sweep v / 2) := Real.sin_pos_of_pos_of_lt_pi (by linarith) (by linarith)
    have := mul_pos (mul_pos (mul_pos n1 n2) hd) (mul_pos n3 h)
    nlinarith

/-- How far to the left of the segment a point is: positive to the left of it. -/
def leftOf (v e : Vertex) (x : V2) : ℝ :=
  if IsLine v then cross v.pos e.pos x
  else if 0 < v.bulge then dist2 v.pos (centerOf v e) - dist2 x (centerOf v e)
  else dist2 x (centerOf v e) - dist2 v.pos (centerOf v e)

/-- An arc turns like its chord, up to full turns inside the circular segment. -/
theorem arc_chord {v e : Vertex} (ha : ArcOk v e) (hb : |v.bulge| ≤ 1) {x : V2} (hx : ¬ OnSeg v e x)
    (hx' : ¬ OnLine v.pos e.pos x) (h0 : cross v.pos e.pos x ≠ 0) :
    turn v e x 0 1 = turn ⟨v.pos, 0⟩ e x 0 1 + 2 * Real.pi * arcExtra v e x := by
  obtain ⟨k, h1, h2⟩ := seg_turn_arc ha hb hx (isPath_segPt.2 rfl)
  rw [arc_split ha hb h0] at h1
  have h1 := Except.ok.inj h1
  have hl : IsLine ⟨v.pos, 0⟩ := by unfold IsLine; norm_num
  have h3 := seg_turn_line (v1 := ⟨v.pos, 0⟩) (v2 := e) hl (p := x)
    (by rw [onSeg_line hl]; exact hx') (isPath_segPt.2 rfl)
  rw [turning_segPt] at h2 h3
  have h4 : (lineWinding ⟨v.pos, 0⟩ e x) = lw v.pos e.pos x := rfl
  rw [h4] at h3
  rw [h2, h3, ← h1]
  push_cast
  ring

theorem cont_cross (a b : V2) : Continuous fun z : ℝ × ℝ => cross a b (toV z) := by
  unfold cross toV; simp only; fun_prop

theorem cont_dist2 (c : V2) : Continuous fun z : ℝ × ℝ => dist2 (toV z) c := by
  unfold dist2 toV; simp only; fun_prop

theorem cross_chord (a b : V2) (t : ℝ) : cross a b (lerp a b t) = 0 := by
  simp only [cross, lerp]; ring

/-- Near an inner point of an arc. -/
theorem arc_jump {v e : Vertex} (ha : ArcOk v e) (hb : |v.bulge| ≤ 1) {t : ℝ} (t0 : 0 < t) (t1 : t < 1) :
    ∃ G : ℝ × ℝ → ℝ, ContinuousAt G (xy (segPt v e t)) ∧ ∀ᶠ x in 𝓝 (xy (segPt v e t)), leftOf v e (toV x) ≠ 0 →
      turn v e (toV x) 0 1 = G x + 2 * Real.pi * (if 0 < leftOf v e (toV x) then 1 else 0) := by
  have hz := arc_cross ha.b_ne ha.start_ne hb t0 t1
  have hpt : segPt v e t = rot (centerOf v e) (t * sweep v) v.pos := by unfold segPt; rw [if_neg ha.arc]
  rw [hpt]
  obtain ⟨z, hzd⟩ : ∃ z, z = rot (centerOf v e) (t * sweep v) v.pos := ⟨_, rfl⟩
  rw [← hzd] at hz ⊢
  have hl : IsLine ⟨v.pos, 0⟩ := by unfold IsLine; norm_num
  have hG : ContinuousAt (fun x => turn ⟨v.pos, 0⟩ e (toV x) 0 1) (xy z) := by
    refine turn_continuousAt zero_le_one fun s _ he => ?_
    have : segPt ⟨v.pos, 0⟩ e s = lerp v.pos e.pos s := by unfold segPt; rw [if_pos hl]
    rw [this, toV_xy] at he
    rw [← he, cross_chord, mul_zero] at hz
    exact absurd hz (lt_irrefl _)
  have hev : ∀ᶠ x in 𝓝 (xy z), v.bulge * cross v.pos e.pos (toV x) < 0 := by
    have hc : Continuous fun x : ℝ × ℝ => v.bulge * cross v.pos e.pos (toV x) := continuous_const.mul (cont_cross _ _)
    exact hc.continuousAt.eventually (gt_mem_nhds (by simpa using hz))
  have hoff : ∀ {x}, leftOf v e x ≠ 0 → ¬ OnSeg v e x := by
    intro x hx ho
    obtain ⟨s, s0, s1, rfl⟩ := onSeg_segPt.1 ho
    apply hx
    unfold leftOf segPt
    rw [if_neg ha.arc, if_neg ha.arc, dist2_rot]
    split_ifs <;> ring
  have hoff' : ∀ {x}, v.bulge * cross v.pos e.pos x < 0 → ¬ OnLine v.pos e.pos x := by
    rintro x hx ⟨s, -, -, rfl⟩
    rw [cross_chord, mul_zero] at hx
    exact lt_irrefl _ hx
  refine ⟨fun x => turn ⟨v.pos, 0⟩ e (toV x) 0 1 + 2 * Real.pi * (if 0 < v.bulge then 0 else -1), hG.add continuousAt_const, ?_⟩
  filter_upwards [hev] with x hx h0
  rw [arc_chord ha hb (hoff h0) (hoff' hx) (fun h => by rw [h, mul_zero] at hx; exact lt_irrefl _ hx)]
  unfold leftOf at h0 ⊢
  rw [if_neg ha.arc] at h0 ⊢
  unfold arcExtra
  rcases lt_or_gt_of_ne ha.b_ne with h | h
  · rw [if_neg (not_lt.2 h.le)] at h0
    have hcr : 0 < cross v.pos e.pos (toV x) := by nlinarith
    simp only [if_neg (not_lt.2 h.le), hcr, true_and]
    by_cases hd : dist2 (toV x) (centerOf v e) < dist2 v.pos (centerOf v e)
    · rw [if_pos hd, if_neg (by linarith)]; push_cast; ring
    · rw [if_neg hd, if_pos (lt_of_le_of_ne (by linarith) (Ne.symm h0))]; push_cast; ring
  · rw [if_pos h] at h0
    have hcr : cross v.pos e.pos (toV x) < 0 := by nlinarith
    simp only [if_pos h, hcr, true_and]
    by_cases hd : dist2 (toV x) (centerOf v e) < dist2 v.pos (centerOf v e)
    · rw [if_pos hd, if_pos (by linarith)]; push_cast; ring
    · rw [if_neg hd, if_neg (by linarith)]; push_cast; ring

/-- Near an inner point of a straight segment. -/
theorem line_jump {v e : Vertex} (hl : IsLine v) (hne : 1 / 10 ^ 8 ≤ |v.pos.x - e.pos.x| ∨ 1 / 10 ^ 8 ≤ |v.pos.y - e.pos.y|)
    {t : ℝ} (t0 : 0 < t) (t1 : t < 1) :
    ∃ G : ℝ × ℝ → ℝ, ContinuousAt G (xy (segPt v e t)) ∧ ∀ᶠ x in 𝓝 (xy (segPt v e t)), leftOf v e (toV x) ≠ 0 →
      turn v e (toV x) 0 1 = G x + 2 * Real.pi * (if 0 < leftOf v e (toV x) then 1 else 0) := by
  have ha : ArcOk ⟨v.pos, 1⟩ e := ⟨by unfold IsLine; norm_num, hne⟩
  have hpt : segPt v e t = lerp v.pos e.pos t := by unfold segPt; rw [if_pos hl]
  rw [hpt]
  obtain ⟨z, hzd⟩ : ∃ z, z = lerp v.pos e.pos t := ⟨_, rfl⟩
  rw [← hzd]
  have hl0 : IsLine ⟨v.pos, 0⟩ := by unfold IsLine; norm_num
  have hte : turn v e = turn ⟨v.pos, 0⟩ e := by
    have h1 : segPt v e = segPt ⟨v.pos, 0⟩ e := by
      funext s; unfold segPt; rw [if_pos hl, if_pos hl0]
    have h2 : vel v e = vel ⟨v.pos, 0⟩ e := by
      funext s; unfold vel; rw [if_pos hl, if_pos hl0]
    funext x a b
    unfold turn rate
    rw [h1, h2]
  have hcen : centerOf ⟨v.pos, 1⟩ e = ⟨(v.pos.x + e.pos.x) / 2, (v.pos.y + e.pos.y) / 2⟩ := by
    ext
    · simp only [centerOf]; ring
    · simp only [centerOf]; ring
  have hpos : 0 < dist2 v.pos e.pos := dist2_pos (by
    intro h
    rw [h] at hne
    norm_num at hne)
  -- `z` is inside the circle
  have hin : dist2 z (centerOf ⟨v.pos, 1⟩ e) < dist2 v.pos (centerOf ⟨v.pos, 1⟩ e) := by
    have e1 : dist2 v.pos (centerOf ⟨v.pos, 1⟩ e) - dist2 z (centerOf ⟨v.pos, 1⟩ e) = t * (1 - t) * dist2 v.pos e.pos := by
      rw [hcen, hzd]
      simp only [dist2, lerp]
      ring
    have : 0 < t * (1 - t) * dist2 v.pos e.pos := mul_pos (mul_pos t0 (by linarith)) hpos
    linarith
  have hG : ContinuousAt (fun x => turn ⟨v.pos, 1⟩ e (toV x) 0 1) (xy z) := by
    refine turn_continuousAt zero_le_one fun s _ he => ?_
    rw [toV_xy] at he
    have : segPt ⟨v.pos, 1⟩ e s = rot (centerOf ⟨v.pos, 1⟩ e) (s * sweep ⟨v.pos, 1⟩) v.pos := by
      unfold segPt; rw [if_neg ha.arc]
    rw [← he, this, dist2_rot] at hin
    exact lt_irrefl _ hin
  have hev : ∀ᶠ x in 𝓝 (xy z), dist2 (toV x) (centerOf ⟨v.pos, 1⟩ e) < dist2 v.pos (centerOf ⟨v.pos, 1⟩ e) :=
    (cont_dist2 _).continuousAt.eventually (gt_mem_nhds (by simpa using hin))
  refine ⟨fun x => turn ⟨v.pos, 1⟩ e (toV x) 0 1 + 2 * Real.pi * (-1), hG.add continuousAt_const, ?_⟩
  filter_upwards [hev] with x hx h0
  unfold leftOf at h0 ⊢
  rw [if_pos hl] at h0
  rw [if_pos hl, hte]
  have hon : ¬ OnSeg ⟨v.pos, 1⟩ e (toV x) := by
    intro ho
    obtain ⟨s, -, -, he⟩ := onSeg_segPt.1 ho
    have : segPt ⟨v.pos, 1⟩ e s = rot (centerOf ⟨v.pos, 1⟩ e) (s * sweep ⟨v.pos, 1⟩) v.pos := by
      unfold segPt; rw [if_neg ha.arc]
    rw [he, this, dist2_rot] at hx
    exact lt_irrefl _ hx
  have hon' : ¬ OnLine v.pos e.pos (toV x) := by
    rintro ⟨s, -, -, he⟩
    apply h0
    rw [he, cross_chord]
  have key := arc_chord ha (by norm_num) hon hon' h0
  have e1 : arcExtra ⟨v.pos, 1⟩ e (toV x) = if cross v.pos e.pos (toV x) < 0 then 1 else 0 := by
    unfold arcExtra
    rw [if_pos (show (0 : ℝ) < (⟨v.pos, 1⟩ : Vertex).bulge from one_pos)]
    show (if cross v.pos e.pos (toV x) < 0 ∧ dist2 (toV x) (centerOf ⟨v.pos, 1⟩ e) < dist2 v.pos (centerOf ⟨v.pos, 1⟩ e) then (1 : ℤ) else 0) = _
    simp only [hx, and_true]
  rw [e1] at key
  rw [key]
  rcases lt_or_gt_of_ne h0 with h | h
  · rw [if_pos h, if_neg (not_lt.2 h.le)]; push_cast; ring
  · rw [if_neg (not_lt.2 h.le), if_pos h]; push_cast; ring

end
end Cavc

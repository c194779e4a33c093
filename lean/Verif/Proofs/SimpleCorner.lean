import Verif.Proofs.SimpleArcs

/-! The two sides of a closed polyline with arcs around a vertex: small circles. -/
namespace Cavc
open Spec
open scoped Classical
open Filter Topology
noncomputable section

/-- The point of the circle about `c` at the angle `θ`. -/
def circ (c : V2) (ρ θ : ℝ) : V2 := ⟨c.x + ρ * Real.cos θ, c.y + ρ * Real.sin θ⟩

theorem continuous_circ (c : V2) (ρ : ℝ) : Continuous fun θ => xy (circ c ρ θ) := by
  unfold circ xy; simp only; fun_prop

theorem circ_dist (c : V2) (ρ θ : ℝ) : dist2 c (circ c ρ θ) = ρ ^ 2 := by
  simp only [dist2, circ]
  linear_combination ρ ^ 2 * Real.sin_sq_add_cos_sq θ

theorem circ_per (c : V2) (ρ θ : ℝ) : circ c ρ (θ + 2 * Real.pi) = circ c ρ θ := by
  unfold circ; rw [Real.cos_add_two_pi, Real.sin_add_two_pi]

theorem circ_inj {c : V2} {ρ θ θ' : ℝ} (hρ : ρ ≠ 0) (h : circ c ρ θ = circ c ρ θ') (h1 : θ' - 2 * Real.pi < θ)
    (h2 : θ < θ' + 2 * Real.pi) : θ = θ' := by
  have hx := congrArg V2.x h
  have hy := congrArg V2.y h
  simp only [circ, add_right_inj, mul_eq_mul_left_iff, hρ, or_false] at hx hy
  have : Real.cos (θ - θ') = 1 := by
    rw [Real.cos_sub, hx, hy, ← sq, ← sq, add_comm, Real.sin_sq_add_cos_sq]
  rw [Real.cos_eq_one_iff_of_lt_of_lt (by linarith) (by linarith)] at this
  linarith

/-- Every point of the circle has an angle in each half open turn. -/
theorem exists_angle {c y : V2} {ρ : ℝ} (hρ : 0 < ρ) (h : dist2 c y = ρ ^ 2) (θ0 : ℝ) :
    ∃ θ, θ0 ≤ θ ∧ θ < θ0 + 2 * Real.pi ∧ y = circ c ρ θ := by
  set w : ℂ := ⟨y.x - c.x, y.y - c.y⟩ with hw
  have hn : ‖w‖ = ρ := by
    rw [Complex.norm_def, Real.sqrt_eq_iff_mul_self_eq (Complex.normSq_nonneg _) hρ.le, Complex.normSq_apply, ← sq, ← sq, ← sq, ← h]
    simp only [hw, dist2]; ring
  have h1 := Complex.norm_mul_cos_arg w
  have h2 := Complex.norm_mul_sin_arg w
  rw [hn] at h1 h2
  have hm := toIcoMod_mem_Ico Real.two_pi_pos θ0 (Complex.arg w)
  refine ⟨toIcoMod Real.two_pi_pos θ0 (Complex.arg w), hm.1, hm.2, ?_⟩
  have e : toIcoMod Real.two_pi_pos θ0 (Complex.arg w) =
      Complex.arg w - (toIcoDiv Real.two_pi_pos θ0 (Complex.arg w)) * (2 * Real.pi) := by
    rw [toIcoMod, zsmul_eq_mul]
  rw [e]
  unfold circ
  rw [Real.cos_sub_int_mul_two_pi, Real.sin_sub_int_mul_two_pi, h1, h2]
  ext <;> simp [hw]

/-- Where a small circle about an end crosses the segment, it changes to the other side. -/
theorem circ_sign {u w : Vertex} (ha : ¬ IsLine u → u.bulge ≠ 0) {c : V2} {ρ θ s D : ℝ} (h : circ c ρ θ = segPt u w s)
    (hD : D = (vel u w s).x * ((segPt u w s).x - c.x) + (vel u w s).y * ((segPt u w s).y - c.y)) (hD0 : D ≠ 0) :
    ∀ᶠ δ in 𝓝[>] (0 : ℝ), (0 < leftOf u w (circ c ρ (θ + δ)) ↔ 0 < D) ∧ (0 < leftOf u w (circ c ρ (θ - δ)) ↔ D < 0) := by
  have key : ∃ κ : ℝ, 0 < κ ∧ HasDerivAt (fun θ => leftOf u w (circ c ρ θ)) (κ * D) θ := by
    have hx := congrArg V2.x h
    have hy := congrArg V2.y h
    simp only [circ] at hx hy
    have d1 : HasDerivAt (fun θ => c.x + ρ * Real.cos θ) (-(ρ * Real.sin θ)) θ :=
      (((Real.hasDerivAt_cos θ).const_mul ρ).const_add c.x).congr_deriv (by ring)
    have d2 : HasDerivAt (fun θ => c.y + ρ * Real.sin θ) (ρ * Real.cos θ) θ :=
      (((Real.hasDerivAt_sin θ).const_mul ρ).const_add c.y).congr_deriv (by ring)
    by_cases hl : IsLine u
    · refine ⟨1, one_pos, ?_⟩
      have e1 : (fun θ => leftOf u w (circ c ρ θ)) = fun θ => (w.pos.x - u.pos.x) * ((c.y + ρ * Real.sin θ) - u.pos.y) -
          (w.pos.y - u.pos.y) * ((c.x + ρ * Real.cos θ) - u.pos.x) := by
        funext θ; unfold leftOf; rw [if_pos hl]; simp only [cross, circ]
      rw [e1]
      have hv : vel u w s = w.pos - u.pos := by unfold vel; rw [if_pos hl]
      refine (((d2.sub_const u.pos.y).const_mul _).sub ((d1.sub_const u.pos.x).const_mul _)).congr_deriv ?_
      rw [hD, hv, ← hx, ← hy]
      show _ = 1 * ((w.pos.x - u.pos.x) * _ + (w.pos.y - u.pos.y) * _)
      ring
    · set m := centerOf u w with hm
      have hv : vel u w s = ⟨-sweep u * ((segPt u w s).y - m.y), sweep u * ((segPt u w s).x - m.x)⟩ := by
        unfold vel; rw [if_neg hl]
      have dd : HasDerivAt (fun θ => (c.x + ρ * Real.cos θ - m.x) ^ 2 + (c.y + ρ * Real.sin θ - m.y) ^ 2)
          (2 * (c.x + ρ * Real.cos θ - m.x) * (-(ρ * Real.sin θ)) + 2 * (c.y + ρ * Real.sin θ - m.y) * (ρ * Real.cos θ)) θ := by
        refine (((d1.sub_const m.x).pow 2).add ((d2.sub_const m.y).pow 2)).congr_deriv ?_
        simp only [Nat.cast_ofNat]; ring
      by_cases hb : 0 < u.bulge
      · have hω := sweep_pos hb
        refine ⟨2 / sweep u, by positivity, ?_⟩
        have e1 : (fun θ => leftOf u w (circ c ρ θ)) = fun θ => dist2 u.pos m -
            ((c.x + ρ * Real.cos θ - m.x) ^ 2 + (c.y + ρ * Real.sin θ - m.y) ^ 2) := by
          funext θ; unfold leftOf; rw [if_neg hl, if_pos hb]; simp only [circ, dist2]; rfl
        rw [e1]
        refine (dd.const_sub _).congr_deriv ?_
        rw [hD, hv, ← hx, ← hy]
        field_simp
        ring
      · have hω := sweep_neg (lt_of_le_of_ne (not_lt.1 hb) (ha hl))
        refine ⟨-(2 / sweep u), by rw [neg_pos]; exact div_neg_of_pos_of_neg two_pos hω, ?_⟩
        have e1 : (fun θ => leftOf u w (circ c ρ θ)) = fun θ =>
            ((c.x + ρ * Real.cos θ - m.x) ^ 2 + (c.y + ρ * Real.sin θ - m.y) ^ 2) - dist2 u.pos m := by
          funext θ; unfold leftOf; rw [if_neg hl, if_neg hb]; simp only [circ, dist2]; rfl
        rw [e1]
        refine (dd.sub_const _).congr_deriv ?_
        rw [hD, hv, ← hx, ← hy]
        have := hω.ne
        field_simp
        ring
  obtain ⟨κ, hκ, hd⟩ := key
  have h0 : leftOf u w (circ c ρ θ) = 0 := by rw [h]; exact leftOf_self _ _ _
  filter_upwards [sign_near hd h0 (mul_ne_zero hκ.ne' hD0)] with δ hδ
  obtain ⟨⟨-, h1⟩, -, h2⟩ := hδ
  refine ⟨h1.trans (mul_pos_iff_of_pos_left hκ), h2.trans ?_⟩
  constructor
  · intro h; by_contra hn; nlinarith [not_lt.1 hn]
  · intro h; nlinarith

/-- Along a segment one moves away from its start. -/
theorem vel_start {u w : Vertex} (hok : SegOk u w) (hne : u.pos ≠ w.pos) {s : ℝ} (s0 : 0 < s) (s1 : s < 1) :
    0 < (vel u w s).x * ((segPt u w s).x - u.pos.x) + (vel u w s).y * ((segPt u w s).y - u.pos.y) := by
  by_cases hl : IsLine u
  · have hv : vel u w s = w.pos - u.pos := by unfold vel; rw [if_pos hl]
    have hp : segPt u w s = lerp u.pos w.pos s := by unfold segPt; rw [if_pos hl]
    rw [hv, hp]
    have := mul_pos s0 (dist2_pos hne)
    show 0 < (w.pos.x - u.pos.x) * _ + (w.pos.y - u.pos.y) * _
    simp only [lerp]
    simp only [dist2] at this
    nlinarith
  · have ha := hok.arcOk hl
    set m := centerOf u w with hm
    have hv : vel u w s = ⟨-sweep u * ((segPt u w s).y - m.y), sweep u * ((segPt u w s).x - m.x)⟩ := by
      unfold vel; rw [if_neg hl]
    have hp : segPt u w s = rot m (s * sweep u) u.pos := by unfold segPt; rw [if_neg hl]
    have e : (vel u w s).x * ((segPt u w s).x - u.pos.x) + (vel u w s).y * ((segPt u w s).y - u.pos.y) =
        sweep u * Real.sin (s * sweep u) * dist2 u.pos m := by
      rw [hv, hp]
      simp only [rot, dist2]
      ring
    rw [e]
    have hd := dist2_pos ha.start_ne
    refine mul_pos ?_ hd
    have hb := abs_le.1 (hok.half)
    rcases lt_or_gt_of_ne ha.b_ne with h | h
    · have h1 := sweep_neg h
      have h2 : -Real.pi ≤ sweep u := by
        unfold sweep
        have := Real.arctan_strictMono.monotone hb.1
        rw [Real.arctan_neg, Real.arctan_one] at this
        linarith
      have : Real.sin (s * sweep u) < 0 := Real.sin_neg_of_neg_of_neg_pi_lt (by nlinarith) (by nlinarith [Real.pi_pos])
      exact mul_pos_of_neg_of_neg h1 this
    · have h1 := sweep_pos h
      have h2 : sweep u ≤ Real.pi := by
        unfold sweep
        have := Real.arctan_strictMono.monotone hb.2
        rw [Real.arctan_one] at this
        linarith
      exact mul_pos h1 (Real.sin_pos_of_pos_of_lt_pi (by nlinarith) (by nlinarith [Real.pi_pos]))

/-- Along a segment one moves towards its end. -/
theorem vel_end {u w : Vertex} (hok : SegOk u w) (hne : u.pos ≠ w.pos) {s : ℝ} (s0 : 0 < s) (s1 : s < 1) :
    (vel u w s).x * ((segPt u w s).x - w.pos.x) + (vel u w s).y * ((segPt u w s).y - w.pos.y) < 0 := by
  by_cases hl : IsLine u
  · have hv : vel u w s = w.pos - u.pos := by unfold vel; rw [if_pos hl]
    have hp : segPt u w s = lerp u.pos w.pos s := by unfold segPt; rw [if_pos hl]
    rw [hv, hp]
    have := mul_pos (sub_pos.2 s1) (dist2_pos hne)
    show (w.pos.x - u.pos.x) * _ + (w.pos.y - u.pos.y) * _ < 0
    simp only [lerp]
    simp only [dist2] at this
    nlinarith
  · have ha := hok.arcOk hl
    set m := centerOf u w with hm
    set q := segPt u w s with hq
    have hv : vel u w s = ⟨-sweep u * (q.y - m.y), sweep u * (q.x - m.x)⟩ := by
      unfold vel; rw [if_neg hl]
    have hp : q = rot m (s * sweep u) u.pos := by rw [hq]; unfold segPt; rw [if_neg hl]
    have hw : w.pos = rot m ((1 - s) * sweep u) q := by
      rw [hp, rot_add, ← add_mul, sub_add_cancel, one_mul]
      exact (isCenter_centerOf ha.b_ne).symm
    have hd : 0 < dist2 q m := by rw [hp, dist2_rot]; exact dist2_pos ha.start_ne
    have e : (vel u w s).x * (q.x - w.pos.x) + (vel u w s).y * (q.y - w.pos.y) =
        -(sweep u * Real.sin ((1 - s) * sweep u) * dist2 q m) := by
      rw [hv, hw]
      simp only [rot, dist2]
      ring
    rw [e, neg_lt_zero]
    refine mul_pos ?_ hd
    have hb := abs_le.1 hok.half
    have s1' := sub_pos.2 s1
    rcases lt_or_gt_of_ne ha.b_ne with h | h
    · have h1 := sweep_neg h
      have h2 : -Real.pi ≤ sweep u := by
        unfold sweep
        have := Real.arctan_strictMono.monotone hb.1
        rw [Real.arctan_neg, Real.arctan_one] at this
        linarith
      have : Real.sin ((1 - s) * sweep u) < 0 := Real.sin_neg_of_neg_of_neg_pi_lt (by nlinarith) (by nlinarith [Real.pi_pos])
      exact mul_pos_of_neg_of_neg h1 this
    · have h1 := sweep_pos h
      have h2 : sweep u ≤ Real.pi := by
        unfold sweep
        have := Real.arctan_strictMono.monotone hb.2
        rw [Real.arctan_one] at this
        linarith
      exact mul_pos h1 (Real.sin_pos_of_pos_of_lt_pi (by nlinarith) (by nlinarith [Real.pi_pos]))

theorem dist2_comm' (a b : V2) : dist2 a b = dist2 b a := by simp only [dist2]; ring

/-- A small circle about the start meets the segment at one point. -/
theorem hit_start {u w : Vertex} (hok : SegOk u w) (hne : u.pos ≠ w.pos) {ρ : ℝ} (h0 : 0 < ρ) (h1 : ρ ^ 2 < dist2 u.pos w.pos) :
    ∃ s, 0 < s ∧ s < 1 ∧ ∀ t, 0 ≤ t → t ≤ 1 → (dist2 u.pos (segPt u w t) = ρ ^ 2 ↔ t = s) := by
  have hc : Continuous fun t => dist2 u.pos (segPt u w t) := by
    have := continuous_segPt_x u w
    have := continuous_segPt_y u w
    unfold dist2; fun_prop
  have e0 : dist2 u.pos (segPt u w 0) = 0 := by rw [segPt_zero]; simp [dist2]
  have e1 : dist2 u.pos (segPt u w 1) = dist2 u.pos w.pos := by rw [segPt_one]
  obtain ⟨s, hs, he⟩ := intermediate_value_Icc (zero_le_one (α := ℝ)) hc.continuousOn
    (show ρ ^ 2 ∈ Set.Icc _ _ from ⟨by rw [e0]; positivity, by rw [e1]; exact h1.le⟩)
  have he : dist2 u.pos (segPt u w s) = ρ ^ 2 := he
  refine ⟨s, lt_of_le_of_ne hs.1 ?_, lt_of_le_of_ne hs.2 ?_, fun t t0 t1 => ⟨fun h => ?_, fun h => by rw [h, he]⟩⟩
  · rintro rfl; rw [e0] at he; have := pow_pos h0 2; linarith
  · rintro rfl; rw [e1] at he; linarith
  · rcases lt_trichotomy t s with hlt | heq | hlt
    · have := dist2_segPt_lt hok hne t0 hlt hs.2
      linarith
    · exact heq
    · have := dist2_segPt_lt hok hne hs.1 hlt t1
      linarith

theorem flip_ok {u w : Vertex} (hok : SegOk u w) : SegOk ⟨w.pos, -u.bulge⟩ ⟨u.pos, 0⟩ := by
  refine ⟨by simpa using hok.half, fun h => ?_⟩
  have := hok.distinct fun hl => h (by unfold IsLine at hl ⊢; simpa using hl)
  simp only
  rwa [abs_sub_comm, abs_sub_comm w.pos.y]

/-- A small circle about the end meets the segment at one point. -/
theorem hit_end {u w : Vertex} (hok : SegOk u w) (hne : u.pos ≠ w.pos) {ρ : ℝ} (h0 : 0 < ρ) (h1 : ρ ^ 2 < dist2 u.pos w.pos) :
    ∃ s, 0 < s ∧ s < 1 ∧ ∀ t, 0 ≤ t → t ≤ 1 → (dist2 w.pos (segPt u w t) = ρ ^ 2 ↔ t = s) := by
  obtain ⟨s, s0, s1, h⟩ := hit_start (flip_ok hok) (Ne.symm hne) h0 (by rw [dist2_comm']; exact h1)
  refine ⟨1 - s, by linarith, by linarith, fun t t0 t1 => ?_⟩
  have := h (1 - t) (by linarith) (by linarith)
  rw [segPt_flip] at this
  rw [show 1 - (1 - t) = t by ring] at this
  rw [this]
  constructor <;> intro h <;> linarith

section
variable {p : Polyline} (hs : SimpleCurve p) {α : Type} {f : ℝ × ℝ → α}
include hs

set_option maxHeartbeats 1000000 in
/-- Around a vertex there are only the two sides, and they go on. -/
theorem _root_.Cavc.Spec.SimpleCurve.corner (hf : ConnConst p f) {j : ℕ} (hj : j < p.size) {K K' L L' : α}
    (hK : ∀ s, 0 < s → s < 1 → SidesAt p f j s K K') (hL : ∀ s, 0 < s → s < 1 → SidesAt p f ((j + 1) % p.size) s L L') :
    K = L ∧ K' = L' ∧ ∃ ρ0 > 0, ∀ y, dist2 (rv p (j + 1)).pos y < ρ0 ^ 2 → ¬ OnPline p y → f (xy y) = K ∨ f (xy y) = K' := by
  have h2 := hs.two'
  have hm : (j + 1) % p.size < p.size := Nat.mod_lt _ (by omega)
  have hmj : (j + 1) % p.size ≠ j := by
    rcases Nat.lt_or_ge (j + 1) p.size with h | h
    · rw [Nat.mod_eq_of_lt h]; omega
    · have : j + 1 = p.size := by omega
      rw [this, Nat.mod_self]; omega
  set u := rv p j with hu
  set v := rv p (j + 1) with hv
  set w := rv p (j + 1 + 1) with hw
  have e1 : rv p ((j + 1) % p.size) = v := rv_mod _ _
  have e2 : rv p ((j + 1) % p.size + 1) = w := rv_mod_succ _ _
  set c := v.pos with hc
  have hok1 : SegOk u v := hs.segOk j
  have hok2 : SegOk v w := hs.segOk (j + 1)
  have hne1 : u.pos ≠ v.pos := hs.ne j
  have hne2 : v.pos ≠ w.pos := hs.ne (j + 1)
  have hp := Real.pi_pos
  -- the other segments are away
  have haway := segs_away hs (z := c) (J := fun k => k = j ∨ k = (j + 1) % p.size) (by
    intro k hk hn ho
    rcases hs.meet hj hk (fun h => hn (Or.inl h.symm)) (onSeg_end u v) ho with ⟨h, -⟩ | ⟨h, h'⟩
    · exact hn (Or.inr h)
    · have : rv p (k + 1) = u := by rw [hu, h, rv_mod]
      rw [this] at h'
      exact hne1 h'.symm)
  obtain ⟨r, hr, hb⟩ := Metric.eventually_nhds_iff.1 haway
  have d1 := dist2_pos hne1
  have d2 := dist2_pos hne2
  set ρ0 := min r (min (Real.sqrt (dist2 u.pos v.pos)) (Real.sqrt (dist2 v.pos w.pos))) with hρ0
  have hρ0pos : 0 < ρ0 := lt_min hr (lt_min (Real.sqrt_pos.2 d1) (Real.sqrt_pos.2 d2))
  have key : ∀ ρ, 0 < ρ → ρ < ρ0 → (K = L ∧ K' = L') ∧ ∀ y, dist2 c y = ρ ^ 2 → ¬ OnPline p y → f (xy y) = K ∨ f (xy y) = K' := by
    intro ρ ρp ρl
    have l1 : ρ ^ 2 < dist2 u.pos v.pos := by
      have : ρ < Real.sqrt (dist2 u.pos v.pos) := ρl.trans_le ((min_le_right _ _).trans (min_le_left _ _))
      rwa [Real.lt_sqrt ρp.le] at this
    have l2 : ρ ^ 2 < dist2 v.pos w.pos := by
      have : ρ < Real.sqrt (dist2 v.pos w.pos) := ρl.trans_le ((min_le_right _ _).trans (min_le_right _ _))
      rwa [Real.lt_sqrt ρp.le] at this
    have lr : ρ < r := ρl.trans_le (min_le_left _ _)
    obtain ⟨s1, a0, a1, ha⟩ := hit_end hok1 hne1 ρp l1
    obtain ⟨s2, b0, b1, hb2⟩ := hit_start hok2 hne2 ρp l2
    -- the circle meets the polyline twice
    have hon : ∀ y, dist2 c y = ρ ^ 2 → OnPline p y → y = segPt u v s1 ∨ y = segPt v w s2 := by
      intro y hy ho
      obtain ⟨k, hk, ho⟩ := hs.on.1 ho
      by_cases hk' : k = j ∨ k = (j + 1) % p.size
      · rcases hk' with rfl | rfl
        · left
          obtain ⟨t, t0, t1, rfl⟩ := onSeg_segPt.1 ho
          rw [(ha t t0 t1).1 hy]
        · right
          rw [e1, e2] at ho
          obtain ⟨t, t0, t1, rfl⟩ := onSeg_segPt.1 ho
          rw [(hb2 t t0 t1).1 hy]
      · exfalso
        refine hb (y := xy y) ?_ k hk hk' ho
        rw [Prod.dist_eq, max_lt_iff, Real.dist_eq, Real.dist_eq]
        have hy' : (c.x - y.x) ^ 2 + (c.y - y.y) ^ 2 = ρ ^ 2 := hy
        constructor
        · show |y.x - c.x| < r
          exact lt_of_le_of_lt (abs_le_of_sq_le_sq (by nlinarith [sq_nonneg (c.y - y.y)]) ρp.le) lr
        · show |y.y - c.y| < r
          exact lt_of_le_of_lt (abs_le_of_sq_le_sq (by nlinarith [sq_nonneg (c.x - y.x)]) ρp.le) lr
    have q1 : dist2 c (segPt u v s1) = ρ ^ 2 := (ha s1 a0.le a1.le).2 rfl
    have q2 : dist2 c (segPt v w s2) = ρ ^ 2 := (hb2 s2 b0.le b1.le).2 rfl
    have q12 : segPt u v s1 ≠ segPt v w s2 := by
      intro h
      apply hs.inner hj a0 a1 hm hmj
      rw [e1, e2]
      exact onSeg_segPt.2 ⟨s2, b0.le, b1.le, h⟩
    -- angles
    obtain ⟨θ2, -, -, ht2⟩ := exists_angle ρp q2 0
    obtain ⟨θ1, o1, o2, ht1⟩ := exists_angle ρp q1 θ2
    have o1' : θ2 < θ1 := by
      refine lt_of_le_of_ne o1 ?_
      rintro rfl
      exact q12 (ht1.trans ht2.symm)
    have hoff : ∀ θ, θ2 < θ → θ < θ2 + 2 * Real.pi → θ ≠ θ1 → ¬ OnPline p (circ c ρ θ) := by
      intro θ g1 g2 g3 ho
      rcases hon _ (circ_dist c ρ θ) ho with h | h
      · rw [ht1] at h
        exact g3 (circ_inj ρp.ne' h (by linarith) (by linarith))
      · rw [ht2] at h
        exact g1.ne' (circ_inj ρp.ne' h (by linarith) (by linarith))
    -- the values on the two parts of the circle
    have hconst : ∀ a b, θ2 ≤ a → b ≤ θ2 + 2 * Real.pi → (∀ θ, a < θ → θ < b → θ ≠ θ1) → ∀ θ θ', a < θ → θ < b → a < θ' → θ' < b →
        f (xy (circ c ρ θ)) = f (xy (circ c ρ θ')) := by
      intro a b h1 h2 h3 θ θ' g1 g2 g3 g4
      refine hf ((fun θ => xy (circ c ρ θ)) '' Set.Ioo a b) (isPreconnected_Ioo.image _ (continuous_circ c ρ).continuousOn) ?_
        _ ⟨θ, ⟨g1, g2⟩, rfl⟩ _ ⟨θ', ⟨g3, g4⟩, rfl⟩
      rintro z ⟨θ, ⟨g1, g2⟩, rfl⟩
      rw [toV_xy]
      exact hoff θ (by linarith) (by linarith) (h3 θ g1 g2)
    -- around the crossing with the outgoing segment
    have tend : ∀ θ : ℝ, Tendsto (fun δ : ℝ => xy (circ c ρ (θ + δ))) (𝓝[>] 0) (𝓝 (xy (circ c ρ θ))) ∧
        Tendsto (fun δ : ℝ => xy (circ c ρ (θ - δ))) (𝓝[>] 0) (𝓝 (xy (circ c ρ θ))) := by
      intro θ
      constructor
      · have : Continuous fun δ : ℝ => xy (circ c ρ (θ + δ)) := (continuous_circ c ρ).comp (continuous_const.add continuous_id)
        have := (this.tendsto 0).mono_left (nhdsWithin_le_nhds (s := Set.Ioi 0))
        simpa using this
      · have : Continuous fun δ : ℝ => xy (circ c ρ (θ - δ)) := (continuous_circ c ρ).comp (continuous_const.sub continuous_id)
        have := (this.tendsto 0).mono_left (nhdsWithin_le_nhds (s := Set.Ioi 0))
        simpa using this
    have gap : ∀ᶠ δ in 𝓝[>] (0 : ℝ), 0 < δ ∧ δ < θ1 - θ2 ∧ δ < θ2 + 2 * Real.pi - θ1 := by
      have g1 : ∀ᶠ δ in 𝓝[>] (0 : ℝ), δ < θ1 - θ2 := nhdsWithin_le_nhds (Iio_mem_nhds (by linarith))
      have g2 : ∀ᶠ δ in 𝓝[>] (0 : ℝ), δ < θ2 + 2 * Real.pi - θ1 := nhdsWithin_le_nhds (Iio_mem_nhds (by linarith))
      filter_upwards [self_mem_nhdsWithin, g1, g2] with δ x1 x2 x3
      exact ⟨x1, x2, x3⟩
    have hLs := hL s2 b0 b1
    have hKs := hK s1 a0 a1
    unfold SidesAt at hLs hKs
    rw [e1, e2, ht2] at hLs
    rw [← hu, ← hv, ht1] at hKs
    have sg2 := circ_sign (fun hl => (hok2.arcOk hl).b_ne) ht2.symm rfl (vel_start hok2 hne2 b0 b1).ne'
    have sg1 := circ_sign (fun hl => (hok1.arcOk hl).b_ne) ht1.symm rfl (vel_end hok1 hne1 a0 a1).ne
    have vs := vel_start hok2 hne2 b0 b1
    have ve := vel_end hok1 hne1 a0 a1
    obtain ⟨δ, ⟨w1, w2, w3⟩, x1, x2, x3, x4, x5, x6⟩ := (gap.and (((tend θ2).1.eventually hLs).and (((tend θ2).2.eventually hLs).and
      (((tend θ1).1.eventually hKs).and (((tend θ1).2.eventually hKs).and (sg2.and sg1)))))).exists
    simp only [toV_xy] at x1 x2 x3 x4
    have y1 : f (xy (circ c ρ (θ2 + δ))) = L := by
      rcases x1 (hoff _ (by linarith) (by linarith) (by linarith)) with ⟨-, h⟩ | ⟨h, -⟩
      · exact h
      · exact absurd (x5.1.2 vs) (not_lt.2 h.le)
    have y2 : f (xy (circ c ρ (θ2 + 2 * Real.pi - δ))) = L' := by
      have e : circ c ρ (θ2 + 2 * Real.pi - δ) = circ c ρ (θ2 - δ) := by
        rw [show θ2 + 2 * Real.pi - δ = θ2 - δ + 2 * Real.pi by ring, circ_per]
      have o := hoff (θ2 + 2 * Real.pi - δ) (by linarith) (by linarith) (by linarith)
      rw [e] at o ⊢
      rcases x2 o with ⟨h, -⟩ | ⟨-, h⟩
      · exact absurd (x5.2.1 h) (not_lt.2 vs.le)
      · exact h
    have y3 : f (xy (circ c ρ (θ1 + δ))) = K' := by
      rcases x3 (hoff _ (by linarith) (by linarith) (by linarith)) with ⟨h, -⟩ | ⟨-, h⟩
      · exact absurd (x6.1.1 h) (not_lt.2 ve.le)
      · exact h
    have y4 : f (xy (circ c ρ (θ1 - δ))) = K := by
      rcases x4 (hoff _ (by linarith) (by linarith) (by linarith)) with ⟨-, h⟩ | ⟨h, -⟩
      · exact h
      · exact absurd (x6.2.2 ve) (not_lt.2 h.le)
    have part1 := hconst θ2 θ1 le_rfl (by linarith) (fun θ _ h => h.ne)
    have part2 := hconst θ1 (θ2 + 2 * Real.pi) (by linarith) le_rfl (fun θ h _ => h.ne')
    refine ⟨⟨?_, ?_⟩, ?_⟩
    · rw [← y1, ← y4]
      exact part1 _ _ (by linarith) (by linarith) (by linarith) (by linarith)
    · rw [← y2, ← y3]
      exact part2 _ _ (by linarith) (by linarith) (by linarith) (by linarith)
    · intro y hy hno
      obtain ⟨θ, t1, t2, rfl⟩ := exists_angle ρp hy θ2
      have n2 : θ ≠ θ2 := by
        rintro rfl
        rw [← ht2] at hno
        exact hno (hs.on.2 ⟨_, hm, by rw [e1, e2]; exact onSeg_segPt.2 ⟨s2, b0.le, b1.le, rfl⟩⟩)
      have t1' : θ2 < θ := lt_of_le_of_ne t1 (Ne.symm n2)
      rcases lt_trichotomy θ θ1 with h | h | h
      · left
        rw [← y4]
        exact part1 _ _ t1' h (by linarith) (by linarith)
      · subst h
        rw [← ht1] at hno
        exact absurd (hs.on.2 ⟨_, hj, onSeg_segPt.2 ⟨s1, a0.le, a1.le, rfl⟩⟩) hno
      · right
        rw [← y3]
        exact part2 _ _ h t2 (by linarith) (by linarith)
  obtain ⟨⟨k1, k2⟩, -⟩ := key (ρ0 / 2) (by linarith) (by linarith)
  refine ⟨k1, k2, ρ0, hρ0pos, fun y hy hno => ?_⟩
  have hne : c ≠ y := by
    rintro h
    exact hno (h ▸ hs.on.2 ⟨j, hj, onSeg_end u v⟩)
  have hd := dist2_pos hne
  refine (key (Real.sqrt (dist2 c y)) (Real.sqrt_pos.2 hd) ?_).2 y (Real.sq_sqrt hd.le).symm hno
  rw [Real.sqrt_lt' hρ0pos]
  exact hy

end
end
end Cavc

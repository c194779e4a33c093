import Verif.Proofs.ArcJump

/-! How the winding number of a closed polyline changes along a path that crosses it. -/
namespace Cavc
open Spec
open scoped Classical Topology
noncomputable section

theorem seg_jump {v e : Vertex} (hok : SegOk v e)
    (hne : 1 / 10 ^ 8 ≤ |v.pos.x - e.pos.x| ∨ 1 / 10 ^ 8 ≤ |v.pos.y - e.pos.y|) {t : ℝ} (t0 : 0 < t) (t1 : t < 1) :
    ∃ G : ℝ × ℝ → ℝ, ContinuousAt G (xy (segPt v e t)) ∧ ∀ᶠ x in 𝓝 (xy (segPt v e t)), leftOf v e (toV x) ≠ 0 →
      turn v e (toV x) 0 1 = G x + 2 * Real.pi * (if 0 < leftOf v e (toV x) then 1 else 0) := by
  by_cases hl : IsLine v
  · exact line_jump hl hne t0 t1
  · exact arc_jump (hok.arcOk hl) hok.half t0 t1

/-- In which direction the path `(v, e)` crosses `(u, w)`: positive from right to left. -/
def velCross (v e : Vertex) (t : ℝ) (u w : Vertex) (s : ℝ) : ℝ :=
  (vel u w s).x * (vel v e t).y - (vel u w s).y * (vel v e t).x

theorem velCross_swap (v e : Vertex) (t : ℝ) (u w : Vertex) (s : ℝ) : velCross u w s v e t = -velCross v e t u w s := by
  unfold velCross; ring

theorem hasDerivAt_segPt (v e : Vertex) (t : ℝ) : HasDerivAt (fun t => (segPt v e t).x) (vel v e t).x t ∧
    HasDerivAt (fun t => (segPt v e t).y) (vel v e t).y t := by
  have h := (segPt_contDiff v e).differentiable (by norm_num) t
  have h1 := h.fst
  have h2 := h.snd
  have e := velocity_segPt v e t
  rw [← e]
  exact ⟨h1.hasDerivAt, h2.hasDerivAt⟩

theorem leftOf_self (u w : Vertex) (s : ℝ) : leftOf u w (segPt u w s) = 0 := by
  unfold leftOf segPt
  split_ifs
  · exact cross_chord _ _ _
  · rw [dist2_rot, sub_self]
  · rw [dist2_rot, sub_self]

theorem leftOf_deriv {v e u w : Vertex} {t s : ℝ} (h : segPt v e t = segPt u w s) (hu : ¬ IsLine u → u.bulge ≠ 0) :
    ∃ κ : ℝ, 0 < κ ∧ HasDerivAt (fun t => leftOf u w (segPt v e t)) (κ * velCross v e t u w s) t := by
  obtain ⟨h1, h2⟩ := hasDerivAt_segPt v e t
  by_cases hl : IsLine u
  · refine ⟨1, one_pos, ?_⟩
    have e1 : (fun t => leftOf u w (segPt v e t)) = fun t => (w.pos.x - u.pos.x) * ((segPt v e t).y - u.pos.y) -
        (w.pos.y - u.pos.y) * ((segPt v e t).x - u.pos.x) := by
      funext t; unfold leftOf; rw [if_pos hl]; rfl
    rw [e1]
    have := ((h2.sub_const u.pos.y).const_mul (w.pos.x - u.pos.x)).sub ((h1.sub_const u.pos.x).const_mul (w.pos.y - u.pos.y))
    refine HasDerivAt.congr_deriv this ?_
    unfold velCross
    have : vel u w s = w.pos - u.pos := by unfold vel; rw [if_pos hl]
    rw [this, one_mul]
    rfl
  · have hb := hu hl
    obtain ⟨c, hc⟩ : ∃ c, c = centerOf u w := ⟨_, rfl⟩
    have hd : HasDerivAt (fun t => dist2 (segPt v e t) c)
        (2 * (((segPt v e t).x - c.x) * (vel v e t).x + ((segPt v e t).y - c.y) * (vel v e t).y)) t := by
      have := ((h1.sub_const c.x).pow 2).add ((h2.sub_const c.y).pow 2)
      exact HasDerivAt.congr_deriv (f := fun t => dist2 (segPt v e t) c) this (by norm_num; ring)
    have hv : vel u w s = ⟨-sweep u * ((segPt u w s).y - c.y), sweep u * ((segPt u w s).x - c.x)⟩ := by
      unfold vel; rw [if_neg hl, hc]
    rcases lt_or_gt_of_ne hb with hn | hp
    · have hs := sweep_neg hn
      refine ⟨-2 / sweep u, div_pos_of_neg_of_neg (by norm_num) hs, ?_⟩
      have e1 : (fun t => leftOf u w (segPt v e t)) = fun t => dist2 (segPt v e t) c - dist2 u.pos c := by
        funext t; unfold leftOf; rw [if_neg hl, if_neg (not_lt.2 hn.le), hc]
      rw [e1]
      have := hd.sub_const (dist2 u.pos c)
      refine HasDerivAt.congr_deriv this ?_
      unfold velCross
      rw [hv, h]
      field_simp [hs.ne]
      ring
    · have hs := sweep_pos hp
      refine ⟨2 / sweep u, div_pos (by norm_num) hs, ?_⟩
      have e1 : (fun t => leftOf u w (segPt v e t)) = fun t => dist2 u.pos c - dist2 (segPt v e t) c := by
        funext t; unfold leftOf; rw [if_neg hl, if_pos hp, hc]
      rw [e1]
      have := hd.const_sub (dist2 u.pos c)
      refine HasDerivAt.congr_deriv this ?_
      unfold velCross
      rw [hv, h]
      field_simp [hs.ne']
      ring

/-- The sign of a function near a zero with a derivative that is not zero. -/
theorem sign_near {f : ℝ → ℝ} {f' t : ℝ} (h : HasDerivAt f f' t) (h0 : f t = 0) (hn : f' ≠ 0) :
    ∀ᶠ δ in 𝓝[>] (0 : ℝ), (f (t + δ) ≠ 0 ∧ (0 < f (t + δ) ↔ 0 < f')) ∧ (f (t - δ) ≠ 0 ∧ (0 < f (t - δ) ↔ f' < 0)) := by
  have hs := hasDerivAt_iff_tendsto_slope_zero.1 h
  have hev : ∀ᶠ d in 𝓝[≠] (0 : ℝ), 0 < (d⁻¹ • (f (t + d) - f t)) * f' := by
    have : Filter.Tendsto (fun d => (d⁻¹ • (f (t + d) - f t)) * f') (𝓝[≠] 0) (𝓝 (f' * f')) := hs.mul_const f'
    exact this.eventually (lt_mem_nhds (mul_self_pos.2 hn))
  rw [eventually_nhdsWithin_iff] at hev
  have hev2 : ∀ᶠ d in 𝓝 (0 : ℝ), -d ∈ ({0}ᶜ : Set ℝ) → 0 < ((-d)⁻¹ • (f (t + -d) - f t)) * f' := by
    have : Filter.Tendsto (fun d : ℝ => -d) (𝓝 0) (𝓝 0) := by simpa using (continuous_neg.tendsto (0 : ℝ))
    exact this.eventually hev
  rw [eventually_nhdsWithin_iff]
  filter_upwards [hev, hev2] with d hd1 hd2 hd
  have hd0 : (0 : ℝ) < d := hd
  have q1 := hd1 (by simpa using hd0.ne')
  have q2 := hd2 (by simpa using hd0.ne')
  rw [h0, sub_zero, smul_eq_mul] at q1 q2
  have p1 : 0 < f (t + d) * f' := by
    have : f (t + d) * f' = d * (d⁻¹ * f (t + d) * f') := by field_simp
    rw [this]; exact mul_pos hd0 q1
  have p2 : f (t - d) * f' < 0 := by
    have : f (t - d) * f' = -d * ((-d)⁻¹ * f (t + -d) * f') := by
      rw [← sub_eq_add_neg]; field_simp
    rw [this]; exact mul_neg_of_neg_of_pos (by linarith) q2
  rcases lt_or_gt_of_ne hn with h1 | h1
  · have a1 : f (t + d) < 0 := by by_contra hh; nlinarith [not_lt.1 hh]
    have a2 : 0 < f (t - d) := by by_contra hh; nlinarith [not_lt.1 hh]
    exact ⟨⟨a1.ne, by constructor <;> intro <;> linarith⟩, ⟨a2.ne', by constructor <;> intro <;> assumption⟩⟩
  · have a1 : 0 < f (t + d) := by by_contra hh; nlinarith [not_lt.1 hh]
    have a2 : f (t - d) < 0 := by by_contra hh; nlinarith [not_lt.1 hh]
    exact ⟨⟨a1.ne', by constructor <;> intro <;> assumption⟩, ⟨a2.ne, by constructor <;> intro <;> linarith⟩⟩

/-- The winding number near an inner point of one segment that is on no other one. -/
theorem wind_near {p : Polyline} (hok : PlineOk p) (hc : p.isClosed = true) (h2 : 2 ≤ p.size) {k : ℕ} (hk : k < p.size)
    (hne : 1 / 10 ^ 8 ≤ |(rv p k).pos.x - (rv p (k + 1)).pos.x| ∨ 1 / 10 ^ 8 ≤ |(rv p k).pos.y - (rv p (k + 1)).pos.y|)
    {t : ℝ} (t0 : 0 < t) (t1 : t < 1)
    (hother : ∀ j < p.size, j ≠ k → ¬ OnSeg (rv p j) (rv p (j + 1)) (segPt (rv p k) (rv p (k + 1)) t)) :
    ∃ c : ℝ, ∀ᶠ x in 𝓝 (xy (segPt (rv p k) (rv p (k + 1)) t)), ¬ OnPline p (toV x) →
      leftOf (rv p k) (rv p (k + 1)) (toV x) ≠ 0 →
      turnAll p (toV x) / (2 * Real.pi) = c + if 0 < leftOf (rv p k) (rv p (k + 1)) (toV x) then 1 else 0 := by
  have hs := rv_seg hc h2 k
  obtain ⟨G, hG, hGe⟩ := seg_jump (hok _ _ _ hs) hne t0 t1
  obtain ⟨z, hz⟩ : ∃ z, z = xy (segPt (rv p k) (rv p (k + 1)) t) := ⟨_, rfl⟩
  rw [← hz] at hG hGe ⊢
  have hp := Real.pi_pos
  have hrest : ContinuousAt (fun x => ∑ j ∈ (Finset.range p.size).erase k, turn (rv p j) (rv p (j + 1)) (toV x) 0 1) z := by
    refine tendsto_finsetSum _ fun j hj => ?_
    rw [Finset.mem_erase, Finset.mem_range] at hj
    refine turn_continuousAt zero_le_one fun s hs he => ?_
    rw [hz, toV_xy] at he
    exact hother j hj.2 hj.1 (onSeg_segPt.2 ⟨s, hs.1, hs.2, he.symm⟩)
  obtain ⟨c, hcv⟩ := int_local (z := z) (D := fun x => turnAll p (toV x) / (2 * Real.pi) -
      if 0 < leftOf (rv p k) (rv p (k + 1)) (toV x) then 1 else 0)
    (G := fun x => (G x + ∑ j ∈ (Finset.range p.size).erase k, turn (rv p j) (rv p (j + 1)) (toV x) 0 1) / (2 * Real.pi))
    (O := fun x => ¬ OnPline p (toV x) ∧ leftOf (rv p k) (rv p (k + 1)) (toV x) ≠ 0)
    ((hG.add hrest).div_const _) (by
      filter_upwards [hGe] with x hx ho
      have e1 : turnAll p (toV x) = turn (rv p k) (rv p (k + 1)) (toV x) 0 1 +
          ∑ j ∈ (Finset.range p.size).erase k, turn (rv p j) (rv p (j + 1)) (toV x) 0 1 := by
        unfold turnAll
        rw [Finset.add_sum_erase _ (fun j => turn (rv p j) (rv p (j + 1)) (toV x) 0 1) (Finset.mem_range.2 hk)]
      rw [e1, hx ho.2]
      field_simp
      ring)
    (by
      intro x ho
      obtain ⟨n, hn⟩ := turnAll_int hok hc h2 ho.1
      rw [hn]
      split_ifs
      · exact ⟨n - 1, by push_cast; ring⟩
      · exact ⟨n, by ring⟩)
  refine ⟨c, ?_⟩
  filter_upwards [hcv] with x hx h3 h4
  have := hx ⟨h3, h4⟩
  linarith

/-- Where a path crosses a segment of the closed polyline, the winding number changes by one. -/
theorem wind_cross {p : Polyline} (hok : PlineOk p) (hc : p.isClosed = true) (h2 : 2 ≤ p.size) {k : ℕ} (hk : k < p.size)
    (hne : 1 / 10 ^ 8 ≤ |(rv p k).pos.x - (rv p (k + 1)).pos.x| ∨ 1 / 10 ^ 8 ≤ |(rv p k).pos.y - (rv p (k + 1)).pos.y|)
    {s : ℝ} (s0 : 0 < s) (s1 : s < 1)
    (hother : ∀ j < p.size, j ≠ k → ¬ OnSeg (rv p j) (rv p (j + 1)) (segPt (rv p k) (rv p (k + 1)) s))
    {v e : Vertex} {t : ℝ} (hm : segPt v e t = segPt (rv p k) (rv p (k + 1)) s)
    (hD : velCross v e t (rv p k) (rv p (k + 1)) s ≠ 0) :
    ∀ᶠ δ in 𝓝[>] (0 : ℝ), ¬ OnPline p (segPt v e (t + δ)) → ¬ OnPline p (segPt v e (t - δ)) →
      turnAll p (segPt v e (t + δ)) / (2 * Real.pi) = turnAll p (segPt v e (t - δ)) / (2 * Real.pi) +
        if 0 < velCross v e t (rv p k) (rv p (k + 1)) s then 1 else -1 := by
  have hs := rv_seg hc h2 k
  obtain ⟨κ, hκ, hder⟩ := leftOf_deriv (w := rv p (k + 1)) hm (fun hl => ((hok _ _ _ hs).arcOk hl).b_ne)
  obtain ⟨c, hcv⟩ := wind_near hok hc h2 hk hne s0 s1 hother
  rw [← hm] at hcv
  have hsg := sign_near hder (by rw [hm]; exact leftOf_self _ _ _) (mul_ne_zero hκ.ne' hD)
  have hcont := (continuous_segPt v e)
  have t1 : Filter.Tendsto (fun δ : ℝ => xy (segPt v e (t + δ))) (𝓝[>] 0) (𝓝 (xy (segPt v e t))) := by
    have : Continuous fun δ : ℝ => xy (segPt v e (t + δ)) := hcont.comp (continuous_const.add continuous_id)
    have := (this.tendsto 0).mono_left (nhdsWithin_le_nhds (s := Set.Ioi 0))
    simpa using this
  have t2 : Filter.Tendsto (fun δ : ℝ => xy (segPt v e (t - δ))) (𝓝[>] 0) (𝓝 (xy (segPt v e t))) := by
    have : Continuous fun δ : ℝ => xy (segPt v e (t - δ)) := hcont.comp (continuous_const.sub continuous_id)
    have := (this.tendsto 0).mono_left (nhdsWithin_le_nhds (s := Set.Ioi 0))
    simpa using this
  filter_upwards [hsg, t1.eventually hcv, t2.eventually hcv] with δ h1 h3 h4 o1 o2
  have e3 := h3 o1 h1.1.1
  have e4 := h4 o2 h1.2.1
  have q1 := h1.1.2
  have q2 := h1.2.2
  have hκ1 : 0 < κ * velCross v e t (rv p k) (rv p (k + 1)) s ↔ 0 < velCross v e t (rv p k) (rv p (k + 1)) s :=
    mul_pos_iff_of_pos_left hκ
  rcases lt_or_gt_of_ne hD with hd | hd
  · have : κ * velCross v e t (rv p k) (rv p (k + 1)) s < 0 := mul_neg_of_pos_of_neg hκ hd
    rw [if_neg (show ¬ 0 < leftOf (rv p k) (rv p (k + 1)) (toV (xy (segPt v e (t + δ)))) from
      fun h => absurd (q1.1 h) (not_lt.2 this.le))] at e3
    rw [if_pos (show 0 < leftOf (rv p k) (rv p (k + 1)) (toV (xy (segPt v e (t - δ)))) from q2.2 this)] at e4
    rw [toV_xy] at e3 e4
    rw [e3, e4, if_neg (not_lt.2 hd.le)]
    ring
  · have : 0 < κ * velCross v e t (rv p k) (rv p (k + 1)) s := mul_pos hκ hd
    rw [if_pos (show 0 < leftOf (rv p k) (rv p (k + 1)) (toV (xy (segPt v e (t + δ)))) from q1.2 this)] at e3
    rw [if_neg (show ¬ 0 < leftOf (rv p k) (rv p (k + 1)) (toV (xy (segPt v e (t - δ)))) from
      fun h => absurd (q2.1 h) (not_lt.2 this.le))] at e4
    rw [toV_xy] at e3 e4
    rw [e3, e4, if_pos hd]
    ring

end
end Cavc

import Verif.Proofs.OffsetRegion
import Verif.Props.WindingRegion

/-! How often the segments of the exact offset of a polygon turn about the points of the plane. -/
namespace Cavc
open Spec
open scoped Classical
open Filter Topology
noncomputable section

theorem eOff_near {es : List (Vertex × V2)} {x : V2} (h : eOff es x) : ∀ᶠ y in 𝓝 (xy x), eOff es (toV y) := by
  have : ∀ e ∈ es.toFinset, ∀ᶠ y in 𝓝 (xy x), ¬ eOn (toV y) e := by
    intro e he
    exact (onSeg_closed e.1 ⟨e.2, 0⟩).isOpen_compl.mem_nhds (h e (List.mem_toFinset.1 he))
  rw [← Filter.eventually_all_finset] at this
  filter_upwards [this] with y hy e he
  exact hy e (List.mem_toFinset.2 he)

theorem eTurns_near {es : List (Vertex × V2)} (hok : ∀ e ∈ es, eOk e)
    (hb : (es.map fun e => e.1.pos).Perm (es.map fun e => e.2)) {x : V2} (h : eOff es x) :
    ∀ᶠ y in 𝓝 (xy x), eTurns es (toV y) / (2 * Real.pi) = eTurns es x / (2 * Real.pi) := by
  obtain ⟨k, hk⟩ := eTurns_int hok hb h
  have hc : ContinuousAt (fun y : ℝ × ℝ => eTurns es (toV y) / (2 * Real.pi)) (xy x) := (eTurns_continuousAt h).div_const _
  have h1 := Metric.continuousAt_iff'.1 hc 1 one_pos
  filter_upwards [h1, eOff_near h] with y hy hyo
  obtain ⟨m, hm⟩ := eTurns_int hok hb hyo
  simp only [toV_xy] at hy
  rw [hm, hk] at hy ⊢
  rw [Real.dist_eq, ← Int.cast_sub, ← Int.cast_abs] at hy
  have : |m - k| < 1 := by exact_mod_cast hy
  rw [Int.abs_lt_one_iff] at this
  congr 1
  omega

section
variable {p raw : Polyline} {offset : ℝ} {σ : ℝ} {V V' : ℤ} {X : Set V2} {es : List (Vertex × V2)}

theorem LevelEdges.ok (h : LevelEdges p raw offset X es) : ∀ e ∈ es, eOk e := by
  intro e he
  obtain ⟨k, s, t, -, -, -, hsub⟩ := h.sub e he
  exact hsub.ok

theorem finite_near {X : Set V2} (hX : X.Finite) (x : V2) : ∀ᶠ y in 𝓝[≠] (xy x), toV y ∉ X := by
  have hc : IsClosed (xy '' (X \ {x})) := ((hX.subset Set.sdiff_subset).image _).isClosed
  have hx : xy x ∉ xy '' (X \ {x}) := by
    rintro ⟨y, hy, e⟩
    apply hy.2
    have : toV (xy y) = toV (xy x) := by rw [e]
    simpa using this
  have h1 : ∀ᶠ y in 𝓝 (xy x), y ∉ xy '' (X \ {x}) := hc.isOpen_compl.mem_nhds hx
  filter_upwards [mem_nhdsWithin_of_mem_nhds h1, self_mem_nhdsWithin] with y hy hne hyX
  refine hy ⟨toV y, ⟨hyX, fun e => hne ?_⟩, rfl⟩
  have : xy (toV y) = xy x := by rw [e]
  simpa using this

theorem LevelEdges.rest_const (h : LevelEdges p raw offset X es) (hp : SimplePolygon p) (hne : offset ≠ 0)
    (hσ : σ = 1 ∨ σ = -1) (hj : NoJumps es (DeepP (ppos p) p.size offset V) σ X)
    (hside : ∀ x, ¬ OnPline p x → (OnOffsetSide p offset x ↔ polyW (ppos p) p.size x = V)) :
    ∃ C, ∀ x, eOff es x → eRest es (DeepP (ppos p) p.size offset V) σ x = C := by
  have hb := hj.balanced h.fin hσ h.ok
  obtain ⟨C, hC⟩ := hj.const h.fin hσ h.ok
  refine ⟨C, fun x hx => ?_⟩
  -- a point close by that is as deep
  obtain ⟨y, y1, y2, y3, y4⟩ : ∃ y : ℝ × ℝ, toV y ∉ X ∧ eOff es (toV y) ∧
      eTurns es (toV y) / (2 * Real.pi) = eTurns es x / (2 * Real.pi) ∧
      (DeepP (ppos p) p.size offset V (toV y) ↔ DeepP (ppos p) p.size offset V x) := by
    by_cases hat : AtOffset p offset x
    · obtain ⟨-, -, w, hw, hd⟩ := hat
      have hD : ¬ DeepP (ppos p) p.size offset V x := by
        intro hD
        obtain ⟨-, k, hk, hwk⟩ := (polygon_onPline hp.closed hp.lines).1 hw
        have := hD.2 k hk w hwk
        rw [← distance_sq, hd, sq_abs] at this
        exact lt_irrefl _ this
      have hwx : w ≠ x := by
        rintro rfl
        rw [show distance w w = 0 by simp [distance, dist2]] at hd
        exact hne (abs_eq_zero.1 hd.symm)
      have hc : Tendsto (fun ε : ℝ => xy (lerp x w ε)) (𝓝[>] 0) (𝓝[≠] (xy x)) := by
        refine tendsto_nhdsWithin_iff.2 ⟨?_, ?_⟩
        · have : Continuous fun ε : ℝ => xy (lerp x w ε) := by unfold xy lerp; fun_prop
          have h0 := this.tendsto 0
          rw [show xy (lerp x w 0) = xy x by simp [lerp]] at h0
          exact h0.mono_left nhdsWithin_le_nhds
        · filter_upwards [self_mem_nhdsWithin] with ε hε heq
          have hε' : (0 : ℝ) < ε := hε
          have : toV (xy (lerp x w ε)) = toV (xy x) := by rw [heq]
          simp only [toV_xy] at this
          apply hwx
          have e1 := congrArg V2.x this
          have e2 := congrArg V2.y this
          simp only [lerp] at e1 e2
          ext
          · nlinarith [mul_eq_zero.1 (show ε * (w.x - x.x) = 0 by linarith)|>.resolve_left hε'.ne']
          · nlinarith [mul_eq_zero.1 (show ε * (w.y - x.y) = 0 by linarith)|>.resolve_left hε'.ne']
      have hcl : ∀ᶠ ε : ℝ in 𝓝[>] 0, Closer p |offset| (lerp x w ε) := by
        have h1 : ∀ᶠ ε : ℝ in 𝓝[>] 0, ε < 1 := mem_nhdsWithin_of_mem_nhds (gt_mem_nhds one_pos)
        filter_upwards [h1, self_mem_nhdsWithin] with ε e1 e0
        have e0' : (0 : ℝ) < ε := e0
        refine ⟨w, hw, ?_⟩
        have : dist2 (lerp x w ε) w = (1 - ε) ^ 2 * dist2 x w := by simp only [dist2, lerp]; ring
        have hlt : distance (lerp x w ε) w ^ 2 < |offset| ^ 2 := by
          rw [distance_sq, this, ← hd, distance_sq]
          have hpos : 0 < dist2 x w := dist2_pos hwx.symm
          have : (1 - ε) ^ 2 < 1 := by nlinarith
          nlinarith
        exact lt_of_pow_lt_pow_left₀ 2 (abs_nonneg _) hlt
      have hall := ((hc.eventually (finite_near h.fin x)).and ((hc.mono_right nhdsWithin_le_nhds).eventually
        ((eOff_near hx).and (eTurns_near h.ok hb hx)))).and hcl
      obtain ⟨ε, ⟨a1, a2, a3⟩, a4⟩ := hall.exists
      refine ⟨_, a1, a2, a3, iff_of_false (fun q => ?_) hD⟩
      exact deep_not_closer hp q (by simpa using a4)
    · have hall := (finite_near h.fin x).and (nhdsWithin_le_nhds (((eOff_near hx).and (eTurns_near h.ok hb hx)).and
        (deep_near hp hne hside hat)))
      obtain ⟨y, b1, ⟨b2, b3⟩, b4⟩ := hall.exists
      exact ⟨y, b1, b2, b3, b4⟩
  have := hC _ y1 y2
  rw [← this]
  unfold eRest
  rw [y3]
  simp only [y4]

theorem eTurns_far : ∀ es : List (Vertex × V2), Tendsto (fun R : ℝ => eTurns es ⟨R, 0⟩) atTop (𝓝 0)
  | [] => by simp [eTurns]
  | e :: es => by
    simp only [eTurns_cons]
    have := (turn_far e.1 ⟨e.2, 0⟩ (c := 0) (d := 1) le_rfl zero_le_one le_rfl).add (eTurns_far es)
    rw [add_zero] at this
    exact this

/-- The segments of the exact offset go once around the points that are further away from the polygon, on the side of
the offset, compared with the points far away. -/
theorem LevelEdges.winds (h : LevelEdges p raw offset X es) (hp : SimplePolygon p) (hne : offset ≠ 0)
    (hσ : σ = 1 ∨ σ = -1) (hj : NoJumps es (DeepP (ppos p) p.size offset V) σ X)
    (hside : ∀ x, ¬ OnPline p x → (OnOffsetSide p offset x ↔ polyW (ppos p) p.size x = V)) {x : V2} (hx : eOff es x) :
    eTurns es x / (2 * Real.pi) =
      σ * ((if DeepP (ppos p) p.size offset V x then 1 else 0) - (if V = 0 then 1 else 0)) := by
  obtain ⟨C, hC⟩ := h.rest_const hp hne hσ hj hside
  have h2 := hp.two'
  obtain ⟨M, hM⟩ := onPline_bounded hp.closed h2
  have hdist : ∀ z : V2, M + |offset| < z.x → ∀ w, OnPline p w → |offset| < distance z w := by
    intro z hz w hw
    have h1 := (abs_lt.1 (hM w hw).1).2
    have h3 : |offset| < z.x - w.x := by linarith
    have h4 : |offset| ^ 2 < distance z w ^ 2 := by
      rw [distance_sq]
      unfold dist2
      have := abs_nonneg offset
      nlinarith [sq_nonneg (z.y - w.y)]
    exact lt_of_pow_lt_pow_left₀ 2 (Real.sqrt_nonneg _) h4
  have hfar : ∀ R, M + |offset| < R → eOff es ⟨R, 0⟩ ∧ (DeepP (ppos p) p.size offset V ⟨R, 0⟩ ↔ V = 0) := by
    intro R hR
    have hd := hdist ⟨R, 0⟩ hR
    constructor
    · intro e he ho
      obtain ⟨-, -, w, hw, e1⟩ := h.level e he _ ho
      have := hd w hw
      linarith
    · have hoff : ¬ OnPline p ⟨R, 0⟩ := by
        intro ho
        have := hd _ ho
        rw [show distance (⟨R, 0⟩ : V2) ⟨R, 0⟩ = 0 by simp [distance, dist2]] at this
        exact absurd this (not_lt.2 (abs_nonneg _))
      have hW : polyW (ppos p) p.size ⟨R, 0⟩ = 0 := by
        have h3 := (getWinding_turnAll (lines_ok hp.lines) hp.closed h2 hoff).1 (simple_run hp _)
        rw [turnAll_right (lines_ok hp.lines) hp.closed h2 (fun y hy => by
          have := (abs_lt.1 (hM y hy).1).2
          have := abs_nonneg offset
          show y.x < R
          linarith), zero_div] at h3
        exact_mod_cast h3
      constructor
      · rintro ⟨q, -⟩
        rw [← q, hW]
      · rintro rfl
        refine ⟨hW, fun k hk z hz => ?_⟩
        have := hd z ((polygon_onPline hp.closed hp.lines).2 ⟨h2, k, hk, hz⟩)
        rw [← distance_sq, ← sq_abs offset]
        exact pow_lt_pow_left₀ this (abs_nonneg _) two_ne_zero
  have hCv : C = -(σ * (if V = 0 then 1 else 0)) := by
    have t1 : Tendsto (fun R : ℝ => eRest es (DeepP (ppos p) p.size offset V) σ ⟨R, 0⟩) atTop (𝓝 C) := by
      refine tendsto_const_nhds.congr' ?_
      filter_upwards [eventually_gt_atTop (M + |offset|)] with R hR
      exact (hC _ (hfar R hR).1).symm
    have t2 : Tendsto (fun R : ℝ => eRest es (DeepP (ppos p) p.size offset V) σ ⟨R, 0⟩) atTop
        (𝓝 (-(σ * (if V = 0 then 1 else 0)))) := by
      have t3 := ((eTurns_far es).div_const (2 * Real.pi)).sub_const (σ * (if V = 0 then 1 else 0))
      rw [zero_div, zero_sub] at t3
      refine t3.congr' ?_
      filter_upwards [eventually_gt_atTop (M + |offset|)] with R hR
      unfold eRest
      simp only [(hfar R hR).2]
    exact tendsto_nhds_unique t1 t2
  have := hC x hx
  rw [hCv] at this
  unfold eRest at this
  linarith

end
end
end Cavc

import Verif.Proofs.IslandDeep

/-! Segments that make up the boundary of an inset region: how often they turn about a point. -/
namespace Cavc
open Spec
open scoped Classical
open Filter Topology
noncomputable section

/-- `raw` is the raw offset of `p`. -/
structure RawOf (p raw : Polyline) (d : ℝ) : Prop where
  clear : ClearOffset p d
  run : createRawOffsetPline p d = .ok raw
  ok : ∀ k, SegOk (rv raw k) (rv raw (k + 1))
  far : ∀ k, ¬ Near (1 / 10 ^ 5) (rv raw k).pos (rv raw (k + 1)).pos

/-- The segment is a part of the raw offset of one of the outlines, on the exact offset of that one, not closer to the
other ones, and further away from them except perhaps for points of `X`. -/
def InsetEdge (ps : List Polyline) (d : ℝ) (X : Set V2) (e : Vertex × V2) : Prop :=
  ∃ (i : ℕ) (p raw : Polyline) (k : ℕ) (s t : ℝ), ps[i]? = some p ∧ RawOf p raw d ∧ k < raw.size ∧ 0 ≤ s ∧ t ≤ 1 ∧
    Sub e.1 ⟨e.2, 0⟩ (rv raw k) (rv raw (k + 1)) s t ∧ (∀ z, PassedTwice raw z → z ∈ X) ∧
    ∀ z, eOn z e → AtOffset p d z ∧ ∀ q ∈ otherPs ps i, NotCloser q d z ∧ (z ∉ X → ∀ w, OnPline q w → d < distance z w)

/-- The segments make up the boundary of the inset region, each part once, all apart from the points of `X`. -/
structure InsetEdges (ps : List Polyline) (d : ℝ) (X : Set V2) (es : List (Vertex × V2)) : Prop where
  fin : X.Finite
  edge : ∀ e ∈ es, InsetEdge ps d X e
  ends : ∀ e ∈ es, e.1.pos ∈ X ∧ e.2 ∈ X
  cover : ∀ z, AtInset ps d z → z ∉ X → ∃ e ∈ es, eOn z e
  once : es.Pairwise fun e f => ∀ z, z ∉ X → eOn z e → ¬ eOn z f

section
variable {ps : List Polyline} {d : ℝ} {X : Set V2} {es : List (Vertex × V2)}

theorem InsetEdges.ok (h : InsetEdges ps d X es) : ∀ e ∈ es, eOk e := by
  intro e he
  obtain ⟨i, p, raw, k, s, t, -, -, -, -, -, hsub, -⟩ := h.edge e he
  exact hsub.ok

theorem InsetEdges.noJumps (h : InsetEdges ps d X es) (ho : Outlines ps) (hd : 0 < d) (hS : OutlineSides ps d) :
    NoJumps es (DeepAll ps d) 1 X := by
  intro z hz
  by_cases hzo : eOff es z
  · have hat : ¬ AtInset ps d z := by
      intro hat
      obtain ⟨e, he, ho⟩ := h.cover z hat hz
      exact hzo e he ho
    refine ⟨fun x => eTurns es (toV x) / (2 * Real.pi) - 1 * (if DeepAll ps d z then 1 else 0),
      ((eTurns_continuousAt hzo).div_const _).sub continuousAt_const, ?_⟩
    filter_upwards [ho.deep_near hd hS hat] with x hx _
    unfold eRest
    simp only [hx]
  · unfold eOff at hzo
    push Not at hzo
    obtain ⟨e, he, hon⟩ := hzo
    obtain ⟨l1, l2, rfl⟩ := List.append_of_mem he
    have hperm : (l1 ++ e :: l2).Perm (e :: (l1 ++ l2)) := List.perm_middle
    have hon1 := (hperm.pairwise_iff (fun {a b} hab z hz hb ha => hab z hz ha hb)).1 h.once
    obtain ⟨hrest, -⟩ := List.pairwise_cons.1 hon1
    have hroff : eOff (l1 ++ l2) z := fun f hf => hrest f hf z hz hon
    obtain ⟨i, p, raw, k, s, t, hi, hr, hk, s0, t1, hsub, hpass, hlev⟩ := h.edge e he
    have hp := ho.simple p (List.mem_of_getElem? hi)
    obtain ⟨V, V', hV, hVV, hside⟩ := hS i p hi
    obtain ⟨hat, hoth⟩ := hlev z hon
    obtain ⟨-, hcl, w, hw, hdw⟩ := hat
    rw [abs_of_pos hd] at hdw
    have hone := ho.deep_one hi hV hVV hd hw hdw fun q hq => (hoth q hq).2 hz
    obtain ⟨τ, τ0, τ1, rfl⟩ := hsub.onSeg.1 hon
    have hs : s < τ := lt_of_le_of_ne τ0 (by rintro rfl; exact hz (hsub.start ▸ (h.ends e he).1))
    have ht : τ < t := lt_of_le_of_ne τ1 (by rintro rfl; exact hz (hsub.stop ▸ (h.ends e he).2))
    have hpos : (rv raw k).pos ≠ (rv raw (k + 1)).pos := ne_of_not_near (by norm_num) (hr.far k)
    have hfar8 : 1 / 10 ^ 8 ≤ |(rv raw k).pos.x - (rv raw (k + 1)).pos.x| ∨
        1 / 10 ^ 8 ≤ |(rv raw k).pos.y - (rv raw (k + 1)).pos.y| := by
      rcases not_near_or (hr.far k) with q | q
      · left; refine le_trans ?_ q; norm_num
      · right; refine le_trans ?_ q; norm_num
    obtain ⟨G, hG, hjump⟩ := part_jump (hr.ok k) hfar8 hpos s0 t1 hs ht
    have hD := raw_side hp hd.ne' hr.clear hr.run hV (by linarith) hk hpos (by linarith) (by linarith) hcl
      (fun q => hz (hpass _ q))
    have hpart := on_part (hr.ok k) hpos hs ht
    have hpi := Real.pi_pos
    refine ⟨fun x => (eTurns (l1 ++ l2) (toV x) + G x) / (2 * Real.pi),
      ((eTurns_continuousAt hroff).add hG).div_const _, ?_⟩
    filter_upwards [hjump, hD, hpart, hone] with x h1 h2 h3 h4 hoff
    have hl : leftOf (rv raw k) (rv raw (k + 1)) (toV x) ≠ 0 := by
      intro q
      obtain ⟨r, r0, r1, hr⟩ := h3 q
      exact hoff e (by simp) (hsub.onSeg.2 ⟨r, r0.le, r1.le, hr⟩)
    unfold eRest
    rw [eTurns_perm hperm, eTurns_cons, show eTurn (toV x) e = turn e.1 ⟨e.2, 0⟩ (toV x) 0 1 from rfl, turn_sub hsub,
      h1 hl]
    simp only [h4, h2]
    clear h1 h2 h3 h4 hD hjump hpart hone
    generalize leftOf (rv raw k) (rv raw (k + 1)) (toV x) = L at hl ⊢
    have hpi' : Real.pi ≠ 0 := hpi.ne'
    rcases lt_or_gt_of_ne hl with q | q
    · have q1 : ¬ 0 < L := by linarith
      have q2 : ¬ 0 < 1 * L := by linarith
      simp only [if_neg q1, if_neg q2]
      field_simp
      ring
    · have q2 : 0 < 1 * L := by linarith
      simp only [if_pos q, if_pos q2]
      field_simp
      ring

theorem InsetEdges.rest_const (h : InsetEdges ps d X es) (ho : Outlines ps) (hd : 0 < d) (hS : OutlineSides ps d) :
    ∃ C, ∀ x, eOff es x → eRest es (DeepAll ps d) 1 x = C := by
  have hj := h.noJumps ho hd hS
  have hb := hj.balanced h.fin (Or.inl rfl) h.ok
  obtain ⟨C, hC⟩ := hj.const h.fin (Or.inl rfl) h.ok
  refine ⟨C, fun x hx => ?_⟩
  -- a point close by that is as deep
  obtain ⟨y, y1, y2, y3, y4⟩ : ∃ y : ℝ × ℝ, toV y ∉ X ∧ eOff es (toV y) ∧
      eTurns es (toV y) / (2 * Real.pi) = eTurns es x / (2 * Real.pi) ∧
      (DeepAll ps d (toV y) ↔ DeepAll ps d x) := by
    by_cases hat : AtInset ps d x
    · obtain ⟨i, p, hi, ⟨-, -, w, hw, hdw⟩, -⟩ := hat
      have hpm := List.mem_of_getElem? hi
      rw [abs_of_pos hd] at hdw
      have hD : ¬ DeepAll ps d x := by
        intro hD
        have := hD.2 p hpm w hw
        linarith
      have hwx : w ≠ x := by
        rintro rfl
        rw [show distance w w = 0 by simp [distance, dist2]] at hdw
        exact hd.ne hdw
      have hc : Tendsto (fun ε : ℝ => xy (lerp x w ε)) (𝓝[>] 0) (𝓝[≠] (xy x)) := by
        refine tendsto_nhdsWithin_iff.2 ⟨?_, ?_⟩
        · have : Continuous fun ε : ℝ => xy (lerp x w ε) := by unfold xy lerp; fun_prop
          have h0 := this.tendsto 0
          rw [show xy (lerp x w 0) = xy x by simp [lerp]] at h0
          exact h0.mono_left nhdsWithin_le_nhds
        · filter_upwards [self_mem_nhdsWithin] with ε hε heq
          have hε' : (0 : ℝ) < ε := hε
          have : toV (xy (lerp x w ε)) = toV (xy x) := by rw [heq]
          simp only [toV_xy] at this
          apply hwx
          have e1 := congrArg V2.x this
          have e2 := congrArg V2.y this
          simp only [lerp] at e1 e2
          ext
          · nlinarith [mul_eq_zero.1 (show ε * (w.x - x.x) = 0 by linarith)|>.resolve_left hε'.ne']
          · nlinarith [mul_eq_zero.1 (show ε * (w.y - x.y) = 0 by linarith)|>.resolve_left hε'.ne']
      have hcl : ∀ᶠ ε : ℝ in 𝓝[>] 0, Closer p d (lerp x w ε) := by
        have h1 : ∀ᶠ ε : ℝ in 𝓝[>] 0, ε < 1 := mem_nhdsWithin_of_mem_nhds (gt_mem_nhds one_pos)
        filter_upwards [h1, self_mem_nhdsWithin] with ε e1 e0
        have e0' : (0 : ℝ) < ε := e0
        refine ⟨w, hw, ?_⟩
        have : dist2 (lerp x w ε) w = (1 - ε) ^ 2 * dist2 x w := by simp only [dist2, lerp]; ring
        have hlt : distance (lerp x w ε) w ^ 2 < d ^ 2 := by
          rw [distance_sq, this, ← hdw, distance_sq]
          have hpos : 0 < dist2 x w := dist2_pos hwx.symm
          have : (1 - ε) ^ 2 < 1 := by nlinarith
          nlinarith
        exact lt_of_pow_lt_pow_left₀ 2 hd.le hlt
      have hall := ((hc.eventually (finite_near h.fin x)).and ((hc.mono_right nhdsWithin_le_nhds).eventually
        ((eOff_near hx).and (eTurns_near h.ok hb hx)))).and hcl
      obtain ⟨ε, ⟨a1, a2, a3⟩, a4⟩ := hall.exists
      refine ⟨_, a1, a2, a3, iff_of_false (fun q => ?_) hD⟩
      exact not_closer_of_deep q hpm (by simpa using a4)
    · have hall := (finite_near h.fin x).and (nhdsWithin_le_nhds (((eOff_near hx).and (eTurns_near h.ok hb hx)).and
        (ho.deep_near hd hS hat)))
      obtain ⟨y, b1, ⟨b2, b3⟩, b4⟩ := hall.exists
      exact ⟨y, b1, b2, b3, b4⟩
  have := hC _ y1 y2
  rw [← this]
  unfold eRest
  rw [y3]
  simp only [y4]

theorem totW_right : ∀ {ps : List Polyline}, (∀ p ∈ ps, SimplePolygon p) → ∀ {x : V2},
    (∀ p ∈ ps, ∀ y, OnPline p y → y.x < x.x) → totW ps x = 0
  | [], _, _, _ => rfl
  | p :: ps, hs, x, h => by
    rw [totW_cons, totW_right (ps := ps) (fun q hq => hs q (List.mem_cons_of_mem _ hq)) fun q hq => h q (List.mem_cons_of_mem _ hq),
      add_zero]
    have hp := hs p List.mem_cons_self
    have hx := h p List.mem_cons_self
    have hoff : ¬ OnPline p x := fun ho => lt_irrefl _ (hx x ho)
    have h3 := (getWinding_turnAll (lines_ok hp.lines) hp.closed hp.two' hoff).1 (simple_run hp _)
    rw [turnAll_right (lines_ok hp.lines) hp.closed hp.two' hx, zero_div] at h3
    exact_mod_cast h3

theorem list_bounded : ∀ {ps : List Polyline}, (∀ p ∈ ps, SimplePolygon p) → ∃ M, 0 ≤ M ∧ ∀ p ∈ ps, ∀ y, OnPline p y → y.x < M
  | [], _ => ⟨0, le_rfl, by simp⟩
  | p :: ps, hs => by
    obtain ⟨M, hM, h⟩ := list_bounded (ps := ps) fun q hq => hs q (List.mem_cons_of_mem _ hq)
    have hp := hs p List.mem_cons_self
    obtain ⟨N, hN⟩ := onPline_bounded hp.closed hp.two'
    refine ⟨max M N, le_max_of_le_left hM, fun q hq y hy => ?_⟩
    rcases List.mem_cons.1 hq with rfl | hq
    · exact lt_max_of_lt_right (abs_lt.1 (hN y hy).1).2
    · exact lt_max_of_lt_left (h q hq y hy)

/-- The segments go once around the points of the inset region. -/
theorem InsetEdges.winds (h : InsetEdges ps d X es) (ho : Outlines ps) (hd : 0 < d) (hS : OutlineSides ps d) {x : V2}
    (hx : eOff es x) : eTurns es x / (2 * Real.pi) = if DeepAll ps d x then 1 else 0 := by
  obtain ⟨C, hC⟩ := h.rest_const ho hd hS
  obtain ⟨M, hM0, hM⟩ := list_bounded ho.simple
  have hfar : ∀ R, M + d < R → eOff es ⟨R, 0⟩ ∧ ¬ DeepAll ps d ⟨R, 0⟩ := by
    intro R hR
    constructor
    · intro e he hoe
      obtain ⟨i, p, raw, k, s, t, hi, -, -, -, -, -, -, hlev⟩ := h.edge e he
      obtain ⟨⟨-, -, w, hw, e1⟩, -⟩ := hlev _ hoe
      have h1 := hM p (List.mem_of_getElem? hi) w hw
      rw [abs_of_pos hd] at e1
      have h2 : distance (⟨R, 0⟩ : V2) w ^ 2 = dist2 ⟨R, 0⟩ w := distance_sq _ _
      rw [e1] at h2
      simp only [dist2] at h2
      have h3 : d < R - w.x := by linarith
      nlinarith [sq_nonneg ((0 : ℝ) - w.y)]
    · intro q
      have := totW_right ho.simple (x := ⟨R, 0⟩) (fun p hp y hy => by
        have := hM p hp y hy
        show y.x < R
        linarith)
      rw [q.1] at this
      norm_num at this
  have hCv : C = 0 := by
    have t1 : Tendsto (fun R : ℝ => eRest es (DeepAll ps d) 1 ⟨R, 0⟩) atTop (𝓝 C) := by
      refine tendsto_const_nhds.congr' ?_
      filter_upwards [eventually_gt_atTop (M + d)] with R hR
      exact (hC _ (hfar R hR).1).symm
    have t2 : Tendsto (fun R : ℝ => eRest es (DeepAll ps d) 1 ⟨R, 0⟩) atTop (𝓝 0) := by
      have t3 := (eTurns_far es).div_const (2 * Real.pi)
      rw [zero_div] at t3
      refine t3.congr' ?_
      filter_upwards [eventually_gt_atTop (M + d)] with R hR
      unfold eRest
      simp only [if_neg (hfar R hR).2, mul_zero, sub_zero]
    exact tendsto_nhds_unique t1 t2
  have := hC x hx
  rw [hCv] at this
  unfold eRest at this
  linarith

end
end
end Cavc

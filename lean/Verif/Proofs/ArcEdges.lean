import Verif.Proofs.CrossJump
import Verif.Proofs.LoopSum
import Verif.Proofs.CutShape
import Verif.Props.PlineInvert

/-! The segments of polylines with arcs as a list, and how far they turn about a point. -/
namespace Cavc
open Spec
open scoped Classical Topology
noncomputable section

/-- The segments along vertexes: the start vertex and the end of each. -/
def vEdges (vs : List Vertex) : List (Vertex × V2) := vs.zip (vs.tail.map Vertex.pos)

/-- How far a segment turns about a point. -/
def eTurn (x : V2) (e : Vertex × V2) : ℝ := turn e.1 ⟨e.2, 0⟩ x 0 1

/-- All segments of a list together. -/
def eTurns (es : List (Vertex × V2)) (x : V2) : ℝ := (es.map (eTurn x)).sum

/-- The point is on the segment. -/
def eOn (x : V2) (e : Vertex × V2) : Prop := OnSeg e.1 ⟨e.2, 0⟩ x

/-- The segment is a valid one. -/
def eOk (e : Vertex × V2) : Prop := SegOk e.1 ⟨e.2, 0⟩

theorem eTurn_eq {v e : Vertex} (x : V2) : eTurn x (v, e.pos) = turn v e x 0 1 := by
  unfold eTurn turn
  rw [rate_congr (v := v) (e := ⟨e.pos, 0⟩) (e' := e) rfl]

theorem eOn_eq {v e : Vertex} {x : V2} : eOn x (v, e.pos) ↔ OnSeg v e x := by
  unfold eOn
  rw [onSeg_segPt, onSeg_segPt]
  have : ∀ t, segPt v ⟨e.pos, 0⟩ t = segPt v e t := fun t => segPt_congr rfl t
  simp only [this]

theorem eOk_eq {v e : Vertex} : eOk (v, e.pos) ↔ SegOk v e :=
  ⟨fun h => segOk_congr (v := v) (e := ⟨e.pos, 0⟩) (e' := e) rfl h,
    fun h => segOk_congr (v := v) (e := e) (e' := ⟨e.pos, 0⟩) rfl h⟩

@[simp] theorem vEdges_nil : vEdges [] = [] := rfl
@[simp] theorem vEdges_single (u : Vertex) : vEdges [u] = [] := rfl
@[simp] theorem vEdges_cons (u w : Vertex) (l : List Vertex) : vEdges (u :: w :: l) = (u, w.pos) :: vEdges (w :: l) := rfl

theorem vEdges_append {z w : Vertex} (h : w.pos = z.pos) (st : List Vertex) : ∀ l : List Vertex,
    vEdges (l ++ w :: st) = vEdges (l ++ [z]) ++ vEdges (w :: st)
  | [] => by simp
  | [u] => by simp [h]
  | u :: u' :: l => by
    have := vEdges_append h st (u' :: l)
    simp only [List.cons_append, vEdges_cons] at this ⊢
    rw [this]

theorem vEdges_length (vs : List Vertex) : (vEdges vs).length = vs.length - 1 := by
  unfold vEdges
  simp

theorem vEdges_get {vs : List Vertex} {i : ℕ} (h : i < (vEdges vs).length) :
    (vEdges vs)[i] = (vs[i]'(by rw [vEdges_length] at h; omega), (vs[i + 1]'(by rw [vEdges_length] at h; omega)).pos) := by
  unfold vEdges
  simp

theorem eTurns_append (es fs : List (Vertex × V2)) (x : V2) : eTurns (es ++ fs) x = eTurns es x + eTurns fs x := by
  unfold eTurns; rw [List.map_append, List.sum_append]

theorem eTurns_cons (e : Vertex × V2) (es : List (Vertex × V2)) (x : V2) : eTurns (e :: es) x = eTurn x e + eTurns es x := by
  unfold eTurns; rw [List.map_cons, List.sum_cons]

theorem eTurns_perm {es fs : List (Vertex × V2)} (h : es.Perm fs) (x : V2) : eTurns es x = eTurns fs x := by
  unfold eTurns; exact (h.map _).sum_eq

theorem eTurns_flatten {α : Type} (ls : List α) (f : α → List (Vertex × V2)) (x : V2) :
    eTurns (ls.map f).flatten x = (ls.map fun l => eTurns (f l) x).sum := by
  induction ls with
  | nil => rfl
  | cons a l ih => rw [List.map_cons, List.flatten_cons, eTurns_append, ih]; simp

theorem onPline_vEdges : ∀ {vs : List Vertex} {x : V2}, OnPline ⟨false, vs⟩ x ↔ ∃ e ∈ vEdges vs, eOn x e
  | [], x => by
    simp only [vEdges_nil, List.not_mem_nil, false_and, exists_false, iff_false]
    rintro ⟨i, v, e, h, -⟩
    simp [IsSeg, segs] at h
  | [u], x => by
    simp only [vEdges_single, List.not_mem_nil, false_and, exists_false, iff_false]
    exact onPline_single
  | u :: w :: l, x => by
    rw [onPline_cons, onPline_vEdges, vEdges_cons]
    simp only [List.mem_cons, exists_eq_or_imp, eOn_eq]

/-! ### Closed polylines -/

/-- The segments of a closed polyline. -/
def cEdges (q : Polyline) : List (Vertex × V2) :=
  (List.range q.size).map fun k => (rv q k, (rv q (k + 1)).pos)

theorem turnAll_cEdges (q : Polyline) (x : V2) : turnAll q x = eTurns (cEdges q) x := by
  unfold turnAll cEdges eTurns
  rw [List.map_map, ← List.sum_toFinset _ List.nodup_range]
  refine Finset.sum_congr (by ext; simp) fun k _ => ?_
  simp only [Function.comp_apply]
  exact (eTurn_eq x).symm

theorem onPline_cEdges {q : Polyline} (hc : q.isClosed = true) (h2 : 2 ≤ q.size) {x : V2} :
    OnPline q x ↔ ∃ e ∈ cEdges q, eOn x e := by
  unfold cEdges
  constructor
  · rintro ⟨k, v, e, hs, ho⟩
    obtain ⟨h1, -, rfl, rfl⟩ := seg_rv hc hs
    exact ⟨_, List.mem_map.2 ⟨k, List.mem_range.2 h1, rfl⟩, eOn_eq.2 ho⟩
  · rintro ⟨e, he, ho⟩
    obtain ⟨k, -, rfl⟩ := List.mem_map.1 he
    exact ⟨_, _, _, rv_seg hc h2 k, eOn_eq.1 ho⟩

theorem plineOk_cEdges {q : Polyline} (hc : q.isClosed = true) (h : ∀ e ∈ cEdges q, eOk e) : PlineOk q := by
  intro k v e hs
  obtain ⟨h1, -, rfl, rfl⟩ := seg_rv hc hs
  exact eOk_eq.1 (h _ (List.mem_map.2 ⟨k, List.mem_range.2 h1, rfl⟩))

theorem cEdges_closed {w : Vertex} {st : List Vertex} {z : Vertex} (hz : z.pos = w.pos) :
    cEdges ⟨true, w :: st⟩ = vEdges (w :: st ++ [z]) := by
  have hsz : Polyline.size ⟨true, w :: st⟩ = st.length + 1 := rfl
  unfold cEdges
  rw [hsz]
  apply List.ext_getElem
  · simp [vEdges_length]
  · intro i h1 h2
    rw [vEdges_get]
    simp only [List.length_map, List.length_range] at h1
    simp only [List.getElem_map, List.getElem_range]
    have e1 : rv ⟨true, w :: st⟩ i = (w :: st)[i]'(by simpa using h1) := by
      rw [rv_lt (by rw [hsz]; exact h1)]
      unfold vtx
      rw [List.getD_eq_getElem]
    have e2 : (rv ⟨true, w :: st⟩ (i + 1)).pos = ((w :: st ++ [z])[i + 1]'(by simp; omega)).pos := by
      by_cases hi : i + 1 < st.length + 1
      · rw [rv_lt (by rw [hsz]; exact hi)]
        unfold vtx
        rw [List.getD_eq_getElem _ _ (by simpa using hi), List.getElem_append_left (by simpa using hi)]
      · have : i = st.length := by omega
        subst this
        unfold rv
        rw [hsz, Nat.mod_self, List.getElem_append_right (by simp)]
        simp [vtx, hz]
    refine Prod.ext ?_ e2
    simp only
    rw [e1, List.getElem_append_left]

/-! ### Parts of a segment and of a path -/

theorem vel_sub {u w v e : Vertex} {a b : ℝ} (h : Sub u w v e a b) (s : ℝ) :
    vel u w s = ⟨(b - a) * (vel v e (a + (b - a) * s)).x, (b - a) * (vel v e (a + (b - a) * s)).y⟩ := by
  have hf : segPt u w = fun s => segPt v e (a + (b - a) * s) := funext h.pts
  rw [← velocity_segPt, hf]
  unfold velocity
  obtain ⟨d1, d2⟩ := hasDerivAt_segPt v e (a + (b - a) * s)
  have hg : HasDerivAt (fun s => a + (b - a) * s) (b - a) s := by
    have := ((hasDerivAt_id s).const_mul (b - a)).const_add a
    simpa using this
  have k1 := HasDerivAt.comp s d1 hg
  have k2 := HasDerivAt.comp s d2 hg
  ext
  · have := k1.deriv
    simp only [Function.comp_def] at this
    simp only
    rw [this]; ring
  · have := k2.deriv
    simp only [Function.comp_def] at this
    simp only
    rw [this]; ring

theorem turn_sub {u w v e : Vertex} {a b : ℝ} (h : Sub u w v e a b) (x : V2) : turn u w x 0 1 = turn v e x a b := by
  unfold turn
  have e1 : ∀ s, rate u w x s = (b - a) * rate v e x (a + (b - a) * s) := by
    intro s
    unfold rate
    rw [vel_sub h, h.pts]
    simp only
    ring
  simp only [e1]
  rw [intervalIntegral.integral_const_mul]
  have hne : b - a ≠ 0 := by linarith [h.lt]
  have := intervalIntegral.integral_comp_mul_add (a := 0) (b := 1) (rate v e x) hne a
  simp only [add_comm _ a] at this
  rw [this, smul_eq_mul, ← mul_assoc, mul_inv_cancel₀ hne, one_mul]
  congr 1
  · ring
  · ring

theorem along_edges {p : Polyline} : ∀ {vs : List Vertex} {a b : ℝ}, Along p a vs b → ∀ e ∈ vEdges vs, eOk e
  | [], _, _, h, _, _ => h.elim
  | [_], _, _, _, e, he => by simp at he
  | u :: w :: l, a, b, h, e, he => by
    obtain ⟨k, s, t, rfl, -, -, h1, h2⟩ := h
    rw [vEdges_cons, List.mem_cons] at he
    rcases he with rfl | he
    · exact eOk_eq.2 h1.ok
    · exact along_edges h2 e he

theorem along_turn {p : Polyline} {x : V2} : ∀ {vs : List Vertex} {a b : ℝ}, Along p a vs b → b ≤ 2 * p.size →
    (∀ g ∈ Set.Icc a b, trace p g ≠ x) → eTurns (vEdges vs) x = turnPath p x a b
  | [], _, _, h, _, _ => h.elim
  | [_], a, b, h, _, _ => by
    obtain ⟨rfl, -⟩ := h
    simp [eTurns, turnPath, turn_self]
  | u :: w :: l, a, b, h, hb, hx => by
    obtain ⟨k, s, t, rfl, s0, t1, h1, h2⟩ := h
    have hst := h1.lt
    have hle := h2.le
    have hk : k < 2 * p.size := by
      have : (k : ℝ) < 2 * p.size := by linarith
      exact_mod_cast this
    rw [vEdges_cons, eTurns_cons, eTurn_eq, turn_sub h1, ← turnPath_seg hk s0 hst.le t1,
      along_turn h2 hb fun g hg => hx g ⟨by linarith [hg.1], hg.2⟩]
    exact turnPath_add (by linarith) hle hx

/-- The last segment of a part of the path. -/
theorem along_last {p : Polyline} : ∀ {l : List Vertex} {u w : Vertex} {a b : ℝ}, Along p a (l ++ [u, w]) b →
    ∃ (k : ℕ) (s t : ℝ), a ≤ k + s ∧ b = k + t ∧ 0 ≤ s ∧ t ≤ 1 ∧ Sub u w (rv p k) (rv p (k + 1)) s t
  | [], u, w, a, b, h => by
    obtain ⟨k, s, t, rfl, s0, t1, h1, h2, -⟩ := h
    exact ⟨k, s, t, le_rfl, h2.symm, s0, t1, h1⟩
  | [z], u, w, a, b, h => by
    obtain ⟨k, s, t, rfl, s0, t1, h1, h2⟩ := h
    obtain ⟨k', s', t', g1, g2⟩ := along_last (l := []) h2
    exact ⟨k', s', t', by linarith [h1.lt], g2⟩
  | z :: z' :: l, u, w, a, b, h => by
    obtain ⟨k, s, t, rfl, s0, t1, h1, h2⟩ := h
    obtain ⟨k', s', t', g1, g2⟩ := along_last (l := z' :: l) h2
    exact ⟨k', s', t', by linarith [h1.lt], g2⟩

/-! ### The other direction -/

/-- The segment in the other direction. -/
def eFlip (e : Vertex × V2) : Vertex × V2 := (⟨e.2, -e.1.bulge⟩, e.1.pos)

theorem segPt_flip (v e : Vertex) (t : ℝ) : segPt ⟨e.pos, -v.bulge⟩ ⟨v.pos, 0⟩ t = segPt v e (1 - t) :=
  atParam_segPt.1 ((atParam_reverse (v1 := v) (v2 := e) (w1 := ⟨e.pos, -v.bulge⟩) (w2 := ⟨v.pos, 0⟩) rfl rfl rfl t
    (segPt ⟨e.pos, -v.bulge⟩ ⟨v.pos, 0⟩ t)).1 (atParam_segPt.2 rfl))

theorem eTurn_flip (x : V2) (e : Vertex × V2) : eTurn x (eFlip e) = -eTurn x e := by
  unfold eTurn eFlip
  rw [← turning_segPt, ← turning_segPt, ← turning_reverse]
  congr 1
  funext t
  exact segPt_flip e.1 ⟨e.2, 0⟩ t

theorem eOn_flip {x : V2} {e : Vertex × V2} : eOn x (eFlip e) ↔ eOn x e := by
  unfold eOn eFlip
  rw [onSeg_segPt, onSeg_segPt]
  simp only [segPt_flip e.1 ⟨e.2, 0⟩]
  constructor
  · rintro ⟨t, t0, t1, h⟩
    exact ⟨1 - t, by linarith, by linarith, h⟩
  · rintro ⟨t, t0, t1, h⟩
    exact ⟨1 - t, by linarith, by linarith, by rw [sub_sub_cancel]; exact h⟩

theorem eOk_flip {e : Vertex × V2} (h : eOk e) : eOk (eFlip e) := by
  unfold eOk eFlip at *
  refine ⟨by simpa using h.half, fun hl => ?_⟩
  have := h.distinct (by
    intro hn
    apply hl
    unfold IsLine at hn ⊢
    simpa using hn)
  rw [abs_sub_comm, abs_sub_comm (e.2).y]
  exact this

theorem vEdges_inverted {p q : Polyline} (h : invertDirection p = .ok q) (h2 : 2 ≤ p.size) :
    vEdges q.vertexes = ((vEdges p.vertexes).map eFlip).reverse := by
  obtain ⟨q', h1, -, h3, h4⟩ := invertDirection_spec h2
  rw [h] at h1
  cases h1
  have lp : p.vertexes.length = p.size := rfl
  have lq : q.vertexes.length = p.size := h3
  have gq : ∀ {j} (hj : j < q.vertexes.length), q.vertexes[j] = vtx q j := by
    intro j hj; unfold vtx; rw [List.getD_eq_getElem]
  have gp : ∀ {j} (hj : j < p.vertexes.length), p.vertexes[j] = vtx p j := by
    intro j hj; unfold vtx; rw [List.getD_eq_getElem]
  apply List.ext_getElem
  · simp [vEdges_length, lp, lq]
  · intro i i1 i2
    have i1' := i1
    rw [vEdges_length, lq] at i1'
    rw [vEdges_get, List.getElem_reverse, List.getElem_map, vEdges_get]
    simp only [List.length_map, vEdges_length, lp]
    rw [gq, gq, gp, gp, h4 i (by omega), h4 (i + 1) (by omega)]
    unfold eFlip
    simp only
    rw [if_neg (by omega)]
    have a1 : p.size - 1 - 1 - i + 1 = p.size - 1 - i := by omega
    have a2 : p.size - 2 - i = p.size - 1 - 1 - i := by omega
    have a3 : p.size - 1 - (i + 1) = p.size - 1 - 1 - i := by omega
    rw [a1, a2, a3]

theorem eTurns_flip (es : List (Vertex × V2)) (x : V2) : eTurns ((es.map eFlip).reverse) x = -eTurns es x := by
  rw [eTurns_perm (List.reverse_perm _)]
  induction es with
  | nil => simp [eTurns]
  | cons e es ih => rw [List.map_cons, eTurns_cons, eTurns_cons, ih, eTurn_flip]; ring

end
end Cavc

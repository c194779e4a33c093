import Verif.Proofs.MeetSum
import Verif.Proofs.LoopSimple

/-! The polygons of a part of an operation on polygons that do not meet themselves do not meet themselves or
each other. -/
namespace Cavc
open Spec
open scoped Classical
noncomputable section

/-- The edges of the kept pieces. -/
def keptEdges (r : List Polyline) : List (V2 × V2) := (r.map fun q => pathEdges (pts q)).flatten

theorem mem_keptEdges {r : List Polyline} {e : V2 × V2} : e ∈ keptEdges r ↔ ∃ q ∈ r, e ∈ pathEdges (pts q) := by
  unfold keptEdges
  rw [List.mem_flatten]
  constructor
  · rintro ⟨l, hl, he⟩
    obtain ⟨q, hq, rfl⟩ := List.mem_map.1 hl
    exact ⟨q, hq, he⟩
  · rintro ⟨q, hq, he⟩
    exact ⟨_, List.mem_map.2 ⟨q, hq, rfl⟩, he⟩

variable {A B : Polyline} {intrs : List PlineIntersect} {s : ℤ} {inside : Bool} {c : CutPoly} {r : List Polyline}

theorem KeptSide.planar (h : KeptSide A B intrs s inside c r) (hs : SimpleP (ppos A) A.size) :
    (keptEdges r).Pairwise Planar := by
  obtain ⟨js, h1, h2, -⟩ := h.pieces
  have e := c.edges_planar (by rw [h.P_eq, h.n_eq]; exact hs)
  unfold CutPoly.edges at e
  have hsub : ((js.map fun j => pathEdges (c.piece j)).flatten).Sublist
      ((List.range c.N).map fun j => pathEdges (c.piece j)).flatten := (h1.map _).flatten
  have hp : (keptEdges r).Perm ((js.map fun j => pathEdges (c.piece j)).flatten) := by
    unfold keptEdges
    have := (h2.map pathEdges).flatten
    rw [List.map_map, List.map_map] at this
    exact this
  exact (hp.pairwise_iff (fun h => Planar.symm h)).2 (e.sublist hsub)

/-- What is known of a point of a kept edge. -/
theorem KeptSide.point (h : KeptSide A B intrs s inside c r) {q : Polyline} (hq : q ∈ r) {e : V2 × V2}
    (he : e ∈ pathEdges (pts q)) {z : V2} (hz : OnLine e.1 e.2 z) :
    (∃ k t, z = lerp (ppos A k) (ppos A (k + 1)) t ∧ 0 ≤ t ∧ t ≤ 1) ∧
    ((z = startOf q ∧ z ∈ intrs.map PlineIntersect.pos) ∨ (z = endOf q ∧ z ∈ intrs.map PlineIntersect.pos) ∨
      (OffP (ppos B) B.size z ∧ (polyW (ppos B) B.size z ≠ 0 ↔ inside = true))) := by
  obtain ⟨js, h1, h2, h3⟩ := h.pieces
  obtain ⟨j, hj, hpj⟩ := List.mem_map.1 (h2.mem_iff.1 (List.mem_map.2 ⟨q, hq, rfl⟩))
  have hh := h.head q hq
  have hl := h.last q hq
  rw [← hpj] at he hh hl
  rw [(piece_ends c j).1, Option.some.injEq] at hh
  rw [(piece_ends c j).2.1, Option.some.injEq] at hl
  obtain ⟨k, t, e1, t0, t1, hst⟩ := c.edge_strict he hz
  have hB : ppos B B.size = ppos B 0 := by
    have := ppos_per B 0
    rwa [zero_add] at this
  refine ⟨⟨k, t, by rw [e1, h.P_eq], t0, t1⟩, ?_⟩
  by_cases c1 : z = c.pos j
  · exact Or.inl ⟨c1.trans hh, c1 ▸ h.cut_mem j⟩
  by_cases c2 : z = c.pos (j + 1)
  · exact Or.inr (Or.inl ⟨c2.trans hl, c2 ▸ h.cut_mem (j + 1)⟩)
  · have hst := hst c1 c2
    refine Or.inr (Or.inr ⟨?_, ?_⟩)
    · rw [e1]; exact hst.off h.all
    · have := hst.side hB h.all
      rw [e1]
      unfold polyW
      rw [this]
      exact h3 j hj

/-- At a crossing a kept edge is at the end of its piece. -/
theorem KeptSide.touch (h : KeptSide A B intrs s inside c r) (hs : SimpleP (ppos A) A.size) {q : Polyline} (hq : q ∈ r)
    {e : V2 × V2} (he : e ∈ pathEdges (pts q)) {z : V2} (hz : OnLine e.1 e.2 z)
    (hX : ¬ OffP (ppos B) B.size z) : (z = e.1 ∧ z = startOf q) ∨ (z = e.2 ∧ z = endOf q) := by
  obtain ⟨js, h1, h2, h3⟩ := h.pieces
  obtain ⟨j, hj, hpj⟩ := List.mem_map.1 (h2.mem_iff.1 (List.mem_map.2 ⟨q, hq, rfl⟩))
  have hh := h.head q hq
  have hl := h.last q hq
  rw [← hpj] at he hh hl
  rw [(piece_ends c j).1, Option.some.injEq] at hh
  rw [(piece_ends c j).2.1, Option.some.injEq] at hl
  rw [c.piece_subs] at he
  obtain ⟨x, hx, rfl⟩ := List.mem_map.1 he
  obtain ⟨x1, x2, x3, x4, x5⟩ := c.subs_spec hx
  obtain ⟨t, t1, t2, ht⟩ := onLine_sub x2 hz
  unfold OffP at hX
  push Not at hX
  obtain ⟨i, hi, ho⟩ := hX
  rw [ht] at ho
  obtain ⟨i', hk, hT⟩ := h.all x.1 t (by linarith) (by linarith) i hi ho
  unfold CutPoly.sub
  simp only
  by_cases hij : i' ≤ j
  · left
    rcases c.mono hij with q1 | q1 <;> rcases x4 with q2 | q2
    · omega
    · omega
    · omega
    · have e1 : t = x.2.1 := by linarith [q1.2, q2.2]
      refine ⟨by rw [ht, e1], ?_⟩
      rw [ht, ← hh]
      unfold CutPoly.pos
      rw [q2.1]
      congr 1
      linarith [q1.2, q2.2]
  · right
    rcases c.mono (show j + 1 ≤ i' by omega) with q1 | q1 <;> rcases x5 with q2 | q2
    · omega
    · omega
    · omega
    · have e1 : t = x.2.2 := by linarith [q1.2, q2.2]
      refine ⟨by rw [ht, e1], ?_⟩
      rw [ht, ← hl]
      unfold CutPoly.pos
      rw [← q2.2.antisymm (by linarith [q1.2, q2.2]), ← q2.1, e1]

/-- Every kept edge has an inner point that is inside an edge of the polygon and not on the other one. -/
theorem KeptSide.inner (h : KeptSide A B intrs s inside c r) (hs : SimpleP (ppos A) A.size) {e : V2 × V2}
    (he : e ∈ keptEdges r) : e.1 ≠ e.2 ∧ ∃ z k t, OnLine e.1 e.2 z ∧ z ≠ e.1 ∧ z ≠ e.2 ∧ k < A.size ∧ 0 < t ∧ t < 1 ∧
      z = lerp (ppos A k) (ppos A (k + 1)) t ∧ OffP (ppos B) B.size z ∧
      (polyW (ppos B) B.size z ≠ 0 ↔ inside = true) := by
  obtain ⟨q, hq, he⟩ := mem_keptEdges.1 he
  obtain ⟨js, h1, h2, h3⟩ := h.pieces
  obtain ⟨j, hj, hpj⟩ := List.mem_map.1 (h2.mem_iff.1 (List.mem_map.2 ⟨q, hq, rfl⟩))
  rw [← hpj, c.piece_subs] at he
  obtain ⟨x, hx, rfl⟩ := List.mem_map.1 he
  obtain ⟨x1, x2, x3, x4, x5⟩ := c.subs_spec hx
  have hne : c.P x.1 ≠ c.P (x.1 + 1) := by rw [h.P_eq]; exact hs.ne _
  set t := (x.2.1 + x.2.2) / 2 with ht
  have hz : OnLine (c.sub x).1 (c.sub x).2 (lerp (c.P x.1) (c.P (x.1 + 1)) t) := by
    refine ⟨1 / 2, by norm_num, by norm_num, ?_⟩
    unfold CutPoly.sub
    rw [ht]
    ext <;> simp only [lerp] <;> ring
  have z1 : lerp (c.P x.1) (c.P (x.1 + 1)) t ≠ (c.sub x).1 := by
    intro e
    have := lerp_inj hne e
    linarith
  have z2 : lerp (c.P x.1) (c.P (x.1 + 1)) t ≠ (c.sub x).2 := by
    intro e
    have := lerp_inj hne e
    linarith
  have hst : c.Strict j x.1 t := by
    refine ⟨by linarith, by linarith, ?_, ?_⟩
    · rcases x4 with q | q
      · exact Or.inl q
      · exact Or.inr ⟨q.1, by linarith [q.2]⟩
    · rcases x5 with q | q
      · exact Or.inl q
      · exact Or.inr ⟨q.1, by linarith [q.2]⟩
  have hB : ppos B B.size = ppos B 0 := by
    have := ppos_per B 0
    rwa [zero_add] at this
  refine ⟨?_, _, x.1 % A.size, t, hz, z1, z2, Nat.mod_lt _ hs.pos, by linarith, by linarith, ?_, hst.off h.all, ?_⟩
  · intro e
    have := lerp_inj hne e
    linarith
  · rw [h.P_eq, ← (hs.mod x.1).1, ← (hs.mod x.1).2]
  · have := hst.side hB h.all
    unfold polyW
    rw [this]
    exact h3 j hj

/-- There are pieces that are not kept. -/
theorem KeptSide.not_kept (h : KeptSide A B intrs s inside c r) (hs : SimpleP (ppos A) A.size) :
    ∃ k t, k < A.size ∧ 0 < t ∧ t < 1 ∧ OffP (ppos B) B.size (lerp (ppos A k) (ppos A (k + 1)) t) ∧
      ¬ (polyW (ppos B) B.size (lerp (ppos A k) (ppos A (k + 1)) t) ≠ 0 ↔ inside = true) := by
  obtain ⟨j, hj⟩ := h.other
  have hB : ppos B B.size = ppos B 0 := by
    have := ppos_per B 0
    rwa [zero_add] at this
  obtain ⟨x, hx⟩ : ∃ x, x ∈ c.subs j := by
    unfold CutPoly.subs
    split_ifs
    · exact ⟨_, List.mem_singleton.2 rfl⟩
    · exact ⟨_, List.mem_cons_self⟩
  obtain ⟨x1, x2, x3, x4, x5⟩ := c.subs_spec hx
  have hst : c.Strict j x.1 ((x.2.1 + x.2.2) / 2) := by
    refine ⟨by linarith, by linarith, ?_, ?_⟩
    · rcases x4 with q | q
      · exact Or.inl q
      · exact Or.inr ⟨q.1, by linarith [q.2]⟩
    · rcases x5 with q | q
      · exact Or.inl q
      · exact Or.inr ⟨q.1, by linarith [q.2]⟩
  refine ⟨x.1 % A.size, (x.2.1 + x.2.2) / 2, Nat.mod_lt _ hs.pos, by linarith, by linarith, ?_, ?_⟩
  · rw [← (hs.mod x.1).1, ← (hs.mod x.1).2, ← h.P_eq]
    exact hst.off h.all
  · rw [← (hs.mod x.1).1, ← (hs.mod x.1).2, ← h.P_eq]
    have := hst.side hB h.all
    unfold polyW
    rw [this]
    exact hj

theorem crossAt_on (pA : Polygon A) (pB : Polygon B) {y : PlineIntersect} (h : CrossAt A B y) :
    ¬ OffP (ppos A) A.size y.pos ∧ ¬ OffP (ppos B) B.size y.pos := by
  obtain ⟨v1, v2, u1, u2, a, b, hx⟩ := h
  obtain ⟨s, s0, s1, es⟩ := hx.first
  obtain ⟨t, t0, t1, et⟩ := hx.second
  obtain ⟨a1, -, -, -, a2, a3⟩ := ppos_seg pA.closed a
  obtain ⟨b1, -, -, -, b2, b3⟩ := ppos_seg pB.closed b
  constructor
  · intro h
    refine h _ a1 ?_
    rw [a2, a3]
    exact ⟨s, s0.le, s1.le, es⟩
  · intro h
    refine h _ b1 ?_
    rw [b2, b3]
    exact ⟨t, t0.le, t1.le, et⟩

end
end Cavc

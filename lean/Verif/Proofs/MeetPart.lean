import Verif.Proofs.LoopSum

/-! The kept pieces of two polygons in general position that cross, and what the stitched ones wind. -/
namespace Cavc
open Spec
open scoped Classical
noncomputable section

def startOf (s : Polyline) : V2 := (pts s).headD ⟨0, 0⟩
def endOf (s : Polyline) : V2 := (pts s).getLastD ⟨0, 0⟩

theorem piece_ends (c : CutPoly) (j : ℕ) :
    (c.piece j).head? = some (c.pos j) ∧ (c.piece j).getLast? = some (c.pos (j + 1)) ∧ 2 ≤ (c.piece j).length := by
  unfold CutPoly.piece
  split_ifs
  · simp
  · refine ⟨by simp, ?_, by simp⟩
    rw [List.getLast?_concat]

theorem range_rot (f : ℕ → V2) (N : ℕ) (hN : 0 < N) (hper : f N = f 0) :
    ((List.range N).map fun j => f (j + 1)).Perm ((List.range N).map f) := by
  obtain ⟨m, rfl⟩ : ∃ m, N = m + 1 := ⟨N - 1, by omega⟩
  have h1 : (List.range (m + 1)).map (fun j => f (j + 1)) = (List.range m).map (fun j => f (j + 1)) ++ [f 0] := by
    rw [List.range_succ, List.map_append]
    simp only [List.map_cons, List.map_nil]
    rw [hper]
  have h2 : (List.range (m + 1)).map f = f 0 :: (List.range m).map (fun j => f (j + 1)) := by
    rw [List.range_succ_eq_map, List.map_cons, List.map_map]
    rfl
  rw [h1, h2]
  exact List.perm_append_singleton _ _

theorem filter_map_iff {α : Type} (l : List ℕ) (f : ℕ → α) (P : ℕ → Prop) (Q : α → Prop)
    (h : ∀ j ∈ l, (P j ↔ Q (f j))) : (l.filter fun j => decide (P j)).map f = (l.map f).filter fun z => decide (Q z) := by
  rw [List.filter_map]
  congr 1
  apply List.filter_congr
  intro j hj
  simp only [Function.comp_apply]
  exact decide_eq_decide.2 (h j hj)

theorem filter_map_not {α : Type} (l : List ℕ) (f : ℕ → α) (P : ℕ → Prop) (Q : α → Prop)
    (h : ∀ j ∈ l, (P j ↔ ¬ Q (f j))) : (l.filter fun j => decide (P j)).map f = (l.map f).filter fun z => !decide (Q z) := by
  rw [List.filter_map]
  congr 1
  apply List.filter_congr
  intro j hj
  simp only [Function.comp_apply]
  by_cases hq : Q (f j)
  · simp [hq, h j hj]
  · simp [hq, h j hj]

/-- Which crossings a kept piece of the first polygon starts at. -/
def StartsAt (A B : Polyline) (intrs : List PlineIntersect) (s : ℤ) (inside : Bool) (z : V2) : Prop :=
  ∃ y ∈ intrs, y.pos = z ∧ (crossSign A B y = s ↔ inside = true)

/-- What the pieces add, each one with the side it is on. -/
def sided (c : CutPoly) (B : Polyline) (x : V2) : ℤ :=
  ∑ j ∈ Finset.range c.N, c.side (ppos B) B.size j * edgesW (pathEdges (c.piece j)) x

theorem general_sizes {A B : Polyline} {intrs : List PlineIntersect} (pA : Polygon A) (pB : Polygon B)
    (hmem : ∀ y, y ∈ intrs ↔ CrossAt A B y) (hne : intrs ≠ []) : 2 ≤ A.size ∧ 2 ≤ B.size := by
  obtain ⟨y, hy⟩ := List.exists_mem_of_ne_nil _ hne
  obtain ⟨v1, v2, u1, u2, a, b, hx⟩ := (hmem y).1 hy
  exact ⟨(ppos_seg pA.closed a).2.1, (ppos_seg pB.closed b).2.1⟩

/-- The kept pieces of one of the polygons. -/
structure KeptSide (A B : Polyline) (intrs : List PlineIntersect) (s : ℤ) (inside : Bool) (c : CutPoly)
    (r : List Polyline) : Prop where
  n_eq : c.n = A.size
  P_eq : c.P = ppos A
  all : c.CutsAll (ppos B) B.size
  two : ∀ q ∈ r, 2 ≤ q.vertexes.length
  lines : ∀ q ∈ r, ∀ v ∈ q.vertexes, IsLine v
  head : ∀ q ∈ r, (pts q).head? = some (startOf q)
  last : ∀ q ∈ r, (pts q).getLast? = some (endOf q)
  ne : ∀ q ∈ r, startOf q ≠ endOf q
  starts : (r.map startOf).Perm ((intrs.map PlineIntersect.pos).filter fun z => decide (StartsAt A B intrs s inside z))
  ends : (r.map endOf).Perm ((intrs.map PlineIntersect.pos).filter fun z => !decide (StartsAt A B intrs s inside z))
  edges : ∀ q ∈ r, ∀ e ∈ pathEdges (pts q), e ∈ c.edges
  pieces : ∃ js : List ℕ, js.Sublist (List.range c.N) ∧ (r.map pts).Perm (js.map c.piece) ∧
    ∀ j ∈ js, (c.side (ppos B) B.size j ≠ 0 ↔ inside = true)
  other : ∃ j, ¬ (c.side (ppos B) B.size j ≠ 0 ↔ inside = true)
  cut_mem : ∀ j, c.pos j ∈ intrs.map PlineIntersect.pos
  sum : ∀ x, (r.map fun q => edgesW (pathEdges (pts q)) x).sum =
    if inside = true then s * sided c B x else c.W x - s * sided c B x

set_option maxHeartbeats 1000000 in
theorem kept_side {A B : Polyline} {intrs : List PlineIntersect} (pA : Polygon A) (pB : Polygon B)
    (hg : GeneralPosition A B) (hnd : intrs.Nodup) (hmem : ∀ y, y ∈ intrs ↔ CrossAt A B y) (hne : intrs ≠ [])
    {s : ℤ} (hs : s = 1 ∨ s = -1) (honce : ∀ x, ¬ OnPline B x → ∀ k, Winding B x k → k = 0 ∨ k = s)
    {inside : Bool} {r : List Polyline}
    (h : KeptSlices A (intrs.map cut1) (fun x => WindsAround B x ↔ inside = true) r) :
    ∃ c, KeptSide A B intrs s inside c r := by
  obtain ⟨hA2, hB2⟩ := general_sizes pA pB hmem hne
  obtain ⟨kp, hkp⟩ : ∃ kp : V2 → Prop, kp = fun x => (WindsAround B x ↔ inside = true) := ⟨_, rfl⟩
  rw [← hkp] at h
  obtain ⟨c, cs, f, hperm, hc, hf, hr⟩ := kept_pieces pA (by simpa using hne)
    (by
      intro d hd
      obtain ⟨y, hy, rfl⟩ := List.mem_map.1 hd
      exact crossing_cutIn ((hmem y).1 hy))
    (cuts_sep hg hnd hmem) h
  have hall := cut_all pA pB hg hmem hperm hc hA2 hB2
  have hside := cut_side pA pB hg hmem hperm hc hA2 hB2 hs honce
  have hrange : ∀ j, c.side (ppos B) B.size j = 0 ∨ c.side (ppos B) B.size j = s := by
    intro j
    obtain ⟨⟨y, -, -, h1⟩, -⟩ := hside j
    rw [h1]
    split_ifs <;> simp
  have hs0 : s ≠ 0 := by rcases hs with rfl | rfl <;> norm_num
  obtain ⟨keep, hke⟩ : ∃ keep : ℕ → Prop, keep = fun j => kp (c.mid j) := ⟨_, rfl⟩
  have hkd : ∀ j, keep j ↔ (WindsAround B (c.mid j) ↔ inside = true) := by
    intro j; rw [hke, hkp]
  replace hr : r.Perm (((List.range c.N).filter fun j => decide (keep j)).map f) := by
    rw [hke]; exact hr
  have hkeep : ∀ j, keep j ↔ (c.side (ppos B) B.size j ≠ 0 ↔ inside = true) := by
    intro j
    have : WindsAround B (c.mid j) ↔ c.side (ppos B) B.size j ≠ 0 := by
      unfold WindsAround
      rw [polygon_getWinding pB.closed pB.lines, if_neg (by omega)]
      constructor
      · rintro ⟨w, hw, hw0⟩
        cases hw
        exact hw0
      · intro h
        exact ⟨_, rfl, h⟩
    rw [hkd, this]
  have hXnd : (intrs.map PlineIntersect.pos).Nodup := by
    rw [List.nodup_map_iff_inj_on hnd]
    intro y hy y' hy' he
    exact crossing_pos_inj hg ((hmem y).1 hy) ((hmem y').1 hy') he
  have huniq : ∀ {y y'}, y ∈ intrs → y' ∈ intrs → y.pos = y'.pos → y = y' := by
    intro y y' hy hy' he
    exact crossing_pos_inj hg ((hmem y).1 hy) ((hmem y').1 hy') he
  have hG : ∀ y, crossSign A B y = 1 ∨ crossSign A B y = -1 := by
    intro y
    unfold crossSign
    split_ifs <;> simp
  have hst : ∀ j, keep j ↔ StartsAt A B intrs s inside (c.pos j) := by
    intro j
    rw [hkeep]
    obtain ⟨⟨y, hy, h1, h2⟩, -⟩ := hside j
    rw [h2]
    have e : (if crossSign A B y = s then s else 0) ≠ 0 ↔ crossSign A B y = s := by
      split_ifs with h <;> simp [h, hs0]
    rw [e]
    constructor
    · intro h; exact ⟨y, hy, h1.symm, h⟩
    · rintro ⟨y', hy', h3, h4⟩
      rwa [huniq hy' hy (h3.trans h1)] at h4
  have hen : ∀ j, keep j ↔ ¬ StartsAt A B intrs s inside (c.pos (j + 1)) := by
    intro j
    rw [hkeep]
    obtain ⟨-, ⟨y, hy, h1, h2⟩⟩ := hside j
    rw [h2]
    have e : (if crossSign A B y = s then 0 else s) ≠ 0 ↔ ¬ crossSign A B y = s := by
      split_ifs with h <;> simp [h, hs0]
    rw [e]
    have e2 : StartsAt A B intrs s inside (c.pos (j + 1)) ↔ (crossSign A B y = s ↔ inside = true) := by
      constructor
      · rintro ⟨y', hy', h3, h4⟩
        rwa [huniq hy' hy (h3.trans h1)] at h4
      · intro h; exact ⟨y, hy, h1.symm, h⟩
    rw [e2]
    tauto
  have hkept : ∀ q ∈ r, ∃ j < c.N, q = f j ∧ keep j := by
    intro q hq
    have := hr.mem_iff.1 hq
    obtain ⟨j, hj, rfl⟩ := List.mem_map.1 this
    rw [List.mem_filter, List.mem_range] at hj
    exact ⟨j, hj.1, rfl, of_decide_eq_true hj.2⟩
  have hsO : ∀ j < c.N, startOf (f j) = c.pos j := by
    intro j hj
    unfold startOf
    rw [(hf j hj).1, List.headD_eq_head?_getD, (piece_ends c j).1]; rfl
  have heO : ∀ j < c.N, endOf (f j) = c.pos (j + 1) := by
    intro j hj
    unfold endOf
    rw [(hf j hj).1, List.getLastD_eq_getLast?, (piece_ends c j).2.1]; rfl
  refine ⟨c, hc.n_eq, hc.P_eq, hall, ?_, ?_, ?_, ?_, ?_, ?_, ?_, ?_, ?_, ?_, ?_, ?_⟩
  · intro q hq
    obtain ⟨j, hj, rfl, -⟩ := hkept q hq
    have := (piece_ends c j).2.2
    rw [← (hf j hj).1] at this
    unfold pts at this
    rwa [List.length_map] at this
  · intro q hq
    obtain ⟨j, hj, rfl, -⟩ := hkept q hq
    exact (hf j hj).2.1
  · intro q hq
    obtain ⟨j, hj, rfl, -⟩ := hkept q hq
    rw [hsO j hj, (hf j hj).1]
    exact (piece_ends c j).1
  · intro q hq
    obtain ⟨j, hj, rfl, -⟩ := hkept q hq
    rw [heO j hj, (hf j hj).1]
    exact (piece_ends c j).2.1
  · intro q hq
    obtain ⟨j, hj, rfl, hk⟩ := hkept q hq
    rw [hsO j hj, heO j hj]
    intro he
    have h1 := (hst j).1 hk
    have h2 := (hen j).1 hk
    rw [← he] at h2
    exact h2 h1
  · refine (hr.map startOf).trans ?_
    rw [List.map_map]
    have e1 : ((List.range c.N).filter fun j => decide (keep j)).map (startOf ∘ f) =
        ((List.range c.N).filter fun j => decide (keep j)).map c.pos := by
      apply List.map_congr_left
      intro j hj
      rw [List.mem_filter, List.mem_range] at hj
      exact hsO j hj.1
    rw [e1, filter_map_iff _ _ _ _ fun j _ => hst j]
    exact (cut_perm hperm hc).filter _
  · refine (hr.map endOf).trans ?_
    rw [List.map_map]
    have e1 : ((List.range c.N).filter fun j => decide (keep j)).map (endOf ∘ f) =
        ((List.range c.N).filter fun j => decide (keep j)).map fun j => c.pos (j + 1) := by
      apply List.map_congr_left
      intro j hj
      rw [List.mem_filter, List.mem_range] at hj
      exact heO j hj.1
    rw [e1, filter_map_not _ (fun j => c.pos (j + 1)) _ (StartsAt A B intrs s inside) fun j _ => hen j]
    refine List.Perm.filter _ ?_
    refine (range_rot c.pos c.N c.N_pos ?_).trans (cut_perm hperm hc)
    have := c.pos_per 0
    rwa [zero_add] at this
  · intro q hq e he
    obtain ⟨j, hj, rfl, -⟩ := hkept q hq
    rw [(hf j hj).1] at he
    exact CutPoly.mem_edges.2 ⟨j, hj, he⟩
  · refine ⟨(List.range c.N).filter fun j => decide (keep j), List.filter_sublist, ?_, ?_⟩
    · refine (hr.map pts).trans (List.Perm.of_eq ?_)
      rw [List.map_map]
      apply List.map_congr_left
      intro j hj
      rw [List.mem_filter, List.mem_range] at hj
      exact (hf j hj.1).1
    · intro j hj
      rw [List.mem_filter] at hj
      exact (hkeep j).1 (of_decide_eq_true hj.2)
  · by_contra hn
    push Not at hn
    have k0 := (hkeep 0).2 (hn 0)
    have k1 := (hkeep 1).2 (hn 1)
    exact (hen 0).1 k0 ((hst 1).1 k1)
  · intro j
    obtain ⟨⟨y, hy, h1, -⟩, -⟩ := hside j
    rw [h1]
    exact List.mem_map.2 ⟨y, hy, rfl⟩
  · intro x
    rw [(hr.map _).sum_eq, List.map_map]
    have e1 : (((List.range c.N).filter fun j => decide (keep j)).map
        ((fun q => edgesW (pathEdges (pts q)) x) ∘ f)) =
        ((List.range c.N).filter fun j => decide (keep j)).map
          fun j => edgesW (pathEdges (c.piece j)) x := by
      apply List.map_congr_left
      intro j hj
      rw [List.mem_filter, List.mem_range] at hj
      simp only [Function.comp_apply]
      rw [(hf j hj.1).1]
    rw [e1]
    have e2 : ∀ (l : List ℕ), ((l.filter fun j => decide (keep j)).map
          fun j => edgesW (pathEdges (c.piece j)) x).sum =
        (l.map fun j => if keep j then edgesW (pathEdges (c.piece j)) x else 0).sum := by
      intro l
      induction l with
      | nil => rfl
      | cons j l ih =>
        rw [List.map_cons, List.sum_cons, ← ih]
        by_cases hk : keep j
        · rw [List.filter_cons_of_pos (by simpa using hk), List.map_cons, List.sum_cons, if_pos hk]
        · rw [List.filter_cons_of_neg (by simpa using hk), if_neg hk, zero_add]
    rw [e2, CutPoly.list_sum_range, ← c.sum_pieces x]
    have hss : s * s = 1 := by rcases hs with rfl | rfl <;> norm_num
    have e3 : ∀ j, s * c.side (ppos B) B.size j = if c.side (ppos B) B.size j ≠ 0 then 1 else 0 := by
      intro j
      rcases hrange j with h | h
      · rw [h]; simp
      · rw [h, if_pos hs0, hss]
    unfold sided
    rw [Finset.mul_sum]
    by_cases hin : inside = true
    · rw [if_pos hin]
      apply Finset.sum_congr rfl
      intro j _
      rw [← mul_assoc, e3]
      simp only [hkeep, hin, iff_true]
      split_ifs <;> simp
    · rw [if_neg hin, ← Finset.sum_sub_distrib]
      apply Finset.sum_congr rfl
      intro j _
      rw [← mul_assoc, e3]
      simp only [hkeep, hin]
      by_cases h0 : c.side (ppos B) B.size j = 0
      · simp [h0]
      · simp [h0]

end
end Cavc

import Verif.Spec.Polyline
import Verif.Spec.SpatialIndex
import Mathlib.Data.List.GetD
import Mathlib.Algebra.BigOperators.Fin

/-! Iteration over the segments of a polyline. -/
namespace Cavc
open Spec
open scoped Classical

/-- The index pairs in the order in which `visitSegIndices` visits them. -/
def visitOrder (closed : Bool) (n : ℕ) : List (ℕ × ℕ) :=
  if n < 2 then []
  else (if closed then [(n - 1, 0)] else []) ++ (List.range (n - 1)).map fun i => (i, i + 1)

/-- Run a visitor that may fault along a list until it answers `false`. -/
def runM {β σ : Type} (visitor : σ → β → M (σ × Bool)) : σ → List β → M σ
  | st, [] => .ok st
  | st, x :: xs => do
    let r ← visitor st x
    if r.2 then runM visitor r.1 xs else .ok r.1

variable {σ : Type}

theorem segLoop_eq (n : ℕ) (visitor : σ → ℕ → ℕ → M (σ × Bool)) (k : ℕ) : ∀ (fuel j i : ℕ) (st : σ),
    i + k = n → k < fuel → segLoop n visitor fuel j i st =
      runM (fun st (x : ℕ × ℕ) => visitor st x.1 x.2) st
        (if k = 0 then [] else (j, i) :: (List.range' i (k - 1)).map fun m => (m, m + 1)) := by
  induction k with
  | zero =>
    intro fuel j i st h hf
    obtain ⟨f, rfl⟩ : ∃ f, fuel = f + 1 := ⟨fuel - 1, by omega⟩
    simp [segLoop, runM, show ¬ i < n by omega]
  | succ k ih =>
    intro fuel j i st h hf
    obtain ⟨f, rfl⟩ : ∃ f, fuel = f + 1 := ⟨fuel - 1, by omega⟩
    rw [segLoop, if_pos (by omega), if_neg (by omega)]
    rw [runM]
    congr 1
    funext r
    by_cases hr : r.2
    · rw [if_pos hr, if_pos hr, ih f i (i + 1) r.1 (by omega) (by omega)]
      congr 1
      rcases k with _ | k
      · simp
      · simp [List.range'_succ]
    · rw [if_neg hr, if_neg hr]

theorem visitSegIndices_eq (p : Polyline) (visitor : σ → ℕ → ℕ → M (σ × Bool)) (st : σ) :
    p.visitSegIndices visitor st = runM (fun st (x : ℕ × ℕ) => visitor st x.1 x.2) st
      (visitOrder p.isClosed p.size) := by
  unfold Polyline.visitSegIndices visitOrder
  by_cases h : p.size < 2
  · simp [h, runM]
  · rw [if_neg h, if_neg h]
    cases p.isClosed
    · rw [if_neg (by simp), if_neg (by simp), segLoop_eq p.size visitor (p.size - 1) _ _ _ _ (by omega) (by omega),
        if_neg (by omega)]
      congr 1
      obtain ⟨m, hm⟩ : ∃ m, p.size = m + 2 := ⟨p.size - 2, by omega⟩
      rw [hm, List.nil_append, List.range_eq_range', show m + 2 - 1 = m + 1 by omega, List.range'_succ]
      simp
    · rw [if_pos rfl, if_pos rfl, segLoop_eq p.size visitor p.size _ _ _ _ (by omega) (by omega),
        if_neg (by omega), List.range_eq_range']
      rfl

theorem runM_pure {β : Type} (v : σ → β → σ × Bool) (st : σ) (l : List β) :
    runM (fun st x => .ok (v st x)) st l = .ok (runVisitor v st l).1 := by
  induction l generalizing st with
  | nil => rfl
  | cons a l ih =>
    simp only [runM, runVisitor, ok_bind]
    by_cases h : (v st a).2
    · rw [if_pos h, if_pos h, ih]
    · rw [if_neg h, if_neg h]

/-- The vertex list element, with a default that is never used. -/
noncomputable def vtx (p : Polyline) (i : ℕ) : Vertex := p.vertexes.getD i ⟨⟨0, 0⟩, 0⟩

theorem at_eq {p : Polyline} {i : ℕ} (h : i < p.size) : p.at i = .ok (vtx p i) := by
  unfold Polyline.at vtx
  have h' : i < p.vertexes.length := h
  rw [getM_of_lt h', List.getD_eq_getElem _ _ h']

theorem segs_eq (p : Polyline) : segs p = (List.range (if p.size < 2 then 0 else
    if p.isClosed then p.size else p.size - 1)).map
      fun i => (vtx p i, vtx p (if i + 1 = p.size then 0 else i + 1)) := by
  unfold segs Polyline.size
  by_cases h : p.vertexes.length < 2
  · simp [h]
  · rw [if_neg h, if_neg h]
    cases p.isClosed
    · rw [if_neg (by simp), if_neg (by simp)]
      apply List.ext_getElem
      · simp
      · intro i h1 h2
        simp only [List.length_map, List.length_range] at h2
        simp only [List.getElem_zip, List.getElem_map, List.getElem_range, List.getElem_tail]
        rw [if_neg (by omega)]
        unfold vtx
        rw [List.getD_eq_getElem _ _ (by omega), List.getD_eq_getElem _ _ (by omega)]
    · rw [if_pos rfl, if_pos rfl]
      apply List.ext_getElem
      · simp
      · intro i h1 h2
        simp only [List.length_map, List.length_range] at h2
        simp only [List.getElem_zip, List.getElem_map, List.getElem_range, List.getElem_rotate]
        unfold vtx
        rw [List.getD_eq_getElem _ _ (by omega)]
        by_cases h3 : i + 1 = p.vertexes.length
        · rw [if_pos h3, List.getD_eq_getElem _ _ (by omega)]
          simp [h3]
        · rw [if_neg h3, List.getD_eq_getElem _ _ (by omega)]
          simp [Nat.mod_eq_of_lt (show i + 1 < p.vertexes.length by omega)]

/-- The segments with their numbers, in the order of the visits. -/
noncomputable def visitList (p : Polyline) : List (Vertex × Vertex × ℕ) :=
  (visitOrder p.isClosed p.size).map fun x => (vtx p x.1, vtx p x.2, x.1)

theorem visitOrder_lt {c : Bool} {n : ℕ} {x : ℕ × ℕ} (h : x ∈ visitOrder c n) : x.1 < n ∧ x.2 < n := by
  unfold visitOrder at h
  split_ifs at h with h1 h2
  · simp at h
  · simp only [List.mem_append, List.mem_singleton, List.mem_map, List.mem_range] at h
    rcases h with rfl | ⟨i, hi, rfl⟩
    · exact ⟨by simp only; omega, by simp only; omega⟩
    · exact ⟨by simp only; omega, by simp only; omega⟩
  · simp only [List.nil_append, List.mem_map, List.mem_range] at h
    obtain ⟨i, hi, rfl⟩ := h
    exact ⟨by simp only; omega, by simp only; omega⟩

theorem runM_allSegs (p : Polyline) (f : σ → Vertex → Vertex → ℕ → M σ) (l : List (ℕ × ℕ))
    (hl : ∀ x ∈ l, x.1 < p.size ∧ x.2 < p.size) (st : σ) :
    runM (fun st (x : ℕ × ℕ) => allSegs p f st x.1 x.2) st l =
      (l.map fun x => (vtx p x.1, vtx p x.2, x.1)).foldlM
        (fun st (x : Vertex × Vertex × ℕ) => f st x.1 x.2.1 x.2.2) st := by
  induction l generalizing st with
  | nil => rfl
  | cons a l ih =>
    have ha := hl a (by simp)
    rw [runM, List.map_cons, List.foldlM_cons, allSegs, at_eq ha.1, ok_bind, at_eq ha.2, ok_bind]
    cases f st (vtx p a.1) (vtx p a.2) a.1 with
    | error e => rfl
    | ok st' => simp only [ok_bind, pure_eq_ok, if_true]; exact ih (fun x hx => hl x (by simp [hx])) st'

theorem visitAll_eq (p : Polyline) (f : σ → Vertex → Vertex → ℕ → M σ) (st : σ) :
    p.visitSegIndices (allSegs p f) st =
      (visitList p).foldlM (fun st (x : Vertex × Vertex × ℕ) => f st x.1 x.2.1 x.2.2) st := by
  rw [visitSegIndices_eq]
  exact runM_allSegs p f _ (fun x hx => visitOrder_lt hx) st

/-- The visits are the segments, each once. -/
theorem visitList_perm (p : Polyline) :
    (visitList p).Perm ((segs p).zipIdx.map fun x => (x.1.1, x.1.2, x.2)) := by
  have e : ((segs p).zipIdx.map fun x => (x.1.1, x.1.2, x.2)) = (List.range (if p.size < 2 then 0 else
    if p.isClosed then p.size else p.size - 1)).map
      fun i => (vtx p i, vtx p (if i + 1 = p.size then 0 else i + 1), i) := by
    rw [segs_eq]
    apply List.ext_getElem
    · simp
    · intro i h1 h2
      simp
  rw [e]
  unfold visitList visitOrder
  by_cases h : p.size < 2
  · simp [h]
  · rw [if_neg h, if_neg h]
    have key : ((List.range (p.size - 1)).map fun i => (i, i + 1)).map
        (fun x => (vtx p x.1, vtx p x.2, x.1)) = (List.range (p.size - 1)).map
        fun i => (vtx p i, vtx p (if i + 1 = p.size then 0 else i + 1), i) := by
      rw [List.map_map]
      apply List.map_congr_left
      intro i hi
      rw [List.mem_range] at hi
      simp only [Function.comp]
      rw [if_neg (by omega)]
    cases p.isClosed
    · simp only [Bool.false_eq_true, if_false, List.nil_append]
      rw [key]
    · simp only [if_true]
      rw [List.map_append, key]
      obtain ⟨m, hm⟩ : ∃ m, p.size = m + 1 := ⟨p.size - 1, by omega⟩
      rw [show List.range p.size = List.range (p.size - 1) ++ [p.size - 1] by
        rw [hm, show m + 1 - 1 = m by omega, List.range_succ], List.map_append]
      simp only [List.map_cons, List.map_nil]
      rw [if_pos (by omega)]
      exact List.perm_append_comm

theorem mem_visitList {p : Polyline} {v1 v2 : Vertex} {i : ℕ} :
    (v1, v2, i) ∈ visitList p ↔ IsSeg p i v1 v2 := by
  rw [(visitList_perm p).mem_iff, List.mem_map]
  unfold IsSeg
  constructor
  · rintro ⟨⟨⟨a, b⟩, k⟩, hm, h⟩
    simp only [Prod.mk.injEq] at h
    obtain ⟨rfl, rfl, rfl⟩ := h
    exact List.mem_zipIdx_iff_getElem?.mp hm
  · intro h
    exact ⟨⟨⟨v1, v2⟩, i⟩, List.mem_zipIdx_iff_getElem?.mpr h, rfl⟩

/-- A fold that adds a number per segment. -/
theorem foldlM_add {R : Type} [AddCommMonoid R] {β : Type} (f : R → β → M R) (g : β → R) (l : List β)
    (h : ∀ x ∈ l, ∀ st, f st x = .ok (st + g x)) (st : R) :
    l.foldlM f st = .ok (st + (l.map g).sum) := by
  induction l generalizing st with
  | nil => simp
  | cons a l ih =>
    rw [List.foldlM_cons, h a (by simp) st, ok_bind, ih (fun x hx => h x (by simp [hx]))]
    simp [add_assoc]

theorem segs_length (p : Polyline) : (segs p).length =
    if p.size < 2 then 0 else if p.isClosed then p.size else p.size - 1 := by
  rw [segs_eq]; simp

theorem isSeg_iff {p : Polyline} {i : ℕ} {v1 v2 : Vertex} : IsSeg p i v1 v2 ↔
    i < (segs p).length ∧ v1 = vtx p i ∧ v2 = vtx p (if i + 1 = p.size then 0 else i + 1) := by
  unfold IsSeg
  rw [segs_length]
  conv_lhs => rw [segs_eq]
  rw [List.getElem?_map]
  generalize (if p.size < 2 then 0 else if p.isClosed then p.size else p.size - 1) = m
  by_cases h : i < m
  · rw [List.getElem?_range h]
    simp only [Option.map_some, Option.some.injEq, Prod.mk.injEq, h, true_and]
    constructor
    · rintro ⟨a, b⟩; exact ⟨a.symm, b.symm⟩
    · rintro ⟨a, b⟩; exact ⟨a.symm, b.symm⟩
  · rw [List.getElem?_eq_none (by simpa using h)]
    simp [h]

/-- The sum over the segments does not depend on the order of the visits. -/
theorem sum_visitList {R : Type} [AddCommMonoid R] (p : Polyline) (g : Vertex × Vertex × ℕ → R) :
    ((visitList p).map g).sum = ∑ i ∈ Finset.range (segs p).length,
      g (vtx p i, vtx p (if i + 1 = p.size then 0 else i + 1), i) := by
  have h := ((visitList_perm p).map g).sum_eq
  rw [h, List.map_map, Finset.sum_range]
  have e : (List.map (g ∘ fun x => (x.1.1, x.1.2, x.2)) (segs p).zipIdx) =
      List.ofFn fun i : Fin (segs p).length =>
        g (vtx p i, vtx p (if (i : ℕ) + 1 = p.size then 0 else i + 1), i) := by
    apply List.ext_getElem
    · simp
    · intro i h1 h2
      simp only [List.length_ofFn] at h2
      simp only [List.getElem_map, List.getElem_zipIdx, Function.comp, List.getElem_ofFn]
      have := (isSeg_iff (p := p) (i := i) (v1 := (segs p)[i].1) (v2 := (segs p)[i].2)).mp
        (by unfold IsSeg; simp [h2])
      rw [this.2.1, this.2.2]
      simp
  rw [e, List.sum_ofFn]

end Cavc

import Verif.Proofs.CutPoly
import Mathlib.Order.Interval.Set.Infinite

/-! Two cut polygons: the product of their winding numbers, from the sides the pieces are on. -/
namespace Cavc
open Spec
open scoped Classical
noncomputable section

theorem lw_horizontal {a b : V2} (h : a.y = b.y) (x : V2) : lw a b x = 0 := by
  rw [lw_eq]
  split_ifs with h1 h2 h3
  · exact absurd h2.1 (by rw [← h]; exact not_lt.2 h1)
  · rfl
  · exact absurd (h ▸ h3.1) h1
  · rfl

/-- A segment that is not horizontal has points at other heights than finitely many. -/
theorem exists_height {a b : V2} (h : a.y ≠ b.y) (cuts : List ℝ) : ∃ z, OnLine a b z ∧ z.y ∉ cuts := by
  by_contra hn
  push Not at hn
  have hinf : (Set.Icc (0 : ℝ) 1).Infinite := Set.Icc_infinite zero_lt_one
  have hinj : Set.InjOn (fun t : ℝ => (lerp a b t).y) (Set.Icc (0 : ℝ) 1) := by
    intro s _ t _ hst
    simp only [lerp] at hst
    have : (s - t) * (b.y - a.y) = 0 := by linarith
    rcases mul_eq_zero.1 this with h1 | h1
    · linarith
    · exact absurd (by linarith) h
  have himg := hinf.image hinj
  apply himg
  apply (List.finite_toSet cuts).subset
  rintro y ⟨t, ⟨t0, t1⟩, rfl⟩
  exact hn _ ⟨t, t0, t1, rfl⟩

theorem lw_rev {a b x : V2} (h : ¬ OnLine a b x) : lw b a x = -lw a b x := by
  by_cases hy : a.y = b.y
  · rw [lw_horizontal hy, lw_horizontal hy.symm]; rfl
  by_cases hc : cross a b x = 0
  · -- on the line but not on the segment
    have hd : b.y - a.y ≠ 0 := fun e => hy (by linarith)
    have hx : x = lerp a b ((x.y - a.y) / (b.y - a.y)) := by
      simp only [cross] at hc
      ext
      · simp only [lerp]; field_simp; linarith
      · simp only [lerp]; field_simp; ring
    have hout : ¬ (0 ≤ (x.y - a.y) / (b.y - a.y) ∧ (x.y - a.y) / (b.y - a.y) ≤ 1) :=
      fun h' => h ⟨_, h'.1, h'.2, hx⟩
    have hc' : cross b a x = 0 := by simp only [cross] at hc ⊢; linarith
    rw [lw_eq, lw_eq, hc, hc']
    simp only [lt_irrefl, and_false, if_false, not_false_iff, and_true]
    by_cases h1 : a.y ≤ x.y <;> by_cases h2 : b.y ≤ x.y
    · simp [h1, h2]
    · exfalso
      push Not at h2
      exact hout ⟨div_nonneg (by linarith) (by linarith), by rw [div_le_one (by linarith)]; linarith⟩
    · exfalso
      push Not at h1
      apply hout
      refine ⟨div_nonneg_of_nonpos (by linarith) (by linarith), ?_⟩
      rw [div_le_one_of_neg (by linarith)]; linarith
    · simp [h1, h2]
  · have e : cross b a x = -cross a b x := by simp only [cross]; ring
    rw [lw_eq, lw_eq, e]
    rcases lt_or_gt_of_ne hc with h1 | h1
    · have g1 : ¬ 0 < cross a b x := not_lt.2 h1.le
      have g2 : 0 < -cross a b x := by linarith
      by_cases h1 : a.y ≤ x.y <;> by_cases h2 : b.y ≤ x.y <;> simp [h1, h2, g1, g2, not_lt.2, not_le.1]
      all_goals linarith
    · have g2 : ¬ 0 < -cross a b x := by linarith
      by_cases h1 : a.y ≤ x.y <;> by_cases h2 : b.y ≤ x.y <;> simp [h1, h2, g2, h1, not_lt.2, not_le.1]
      all_goals linarith

theorem pathEdges_reverse (l : List V2) : pathEdges l.reverse = ((pathEdges l).map Prod.swap).reverse := by
  induction l with
  | nil => rfl
  | cons a l ih =>
    cases l with
    | nil => rfl
    | cons b l =>
      rw [pathEdges_cons, List.map_cons, List.reverse_cons (a := (a, b).swap), ← ih, List.reverse_cons, List.reverse_cons,
        List.append_assoc, List.singleton_append, pathEdges_append]
      rfl

theorem edgesW_reverse {l : List V2} {x : V2} (h : ∀ e ∈ pathEdges l, ¬ OnLine e.1 e.2 x) :
    edgesW (pathEdges l.reverse) x = -edgesW (pathEdges l) x := by
  rw [pathEdges_reverse]
  unfold edgesW
  rw [List.map_reverse, List.sum_reverse, List.map_map]
  generalize pathEdges l = E at h
  induction E with
  | nil => rfl
  | cons e E ih =>
    simp only [List.map_cons, List.sum_cons, Function.comp_apply, Prod.fst_swap, Prod.snd_swap]
    rw [ih fun e he => h e (List.mem_cons_of_mem _ he), lw_rev (h e (by simp))]
    ring

namespace CutPoly

/-- All edges of all pieces. -/
def edges (c : CutPoly) : List (V2 × V2) := ((List.range c.N).map fun j => pathEdges (c.piece j)).flatten

theorem mem_edges {c : CutPoly} {e : V2 × V2} : e ∈ c.edges ↔ ∃ j < c.N, e ∈ pathEdges (c.piece j) := by
  unfold edges
  simp only [List.mem_flatten, List.mem_map, List.mem_range]
  constructor
  · rintro ⟨l, ⟨j, hj, rfl⟩, he⟩; exact ⟨j, hj, he⟩
  · rintro ⟨j, hj, he⟩; exact ⟨_, ⟨j, hj, rfl⟩, he⟩

theorem list_sum_range (n : ℕ) (f : ℕ → ℤ) : ((List.range n).map f).sum = ∑ j ∈ Finset.range n, f j := by
  induction n with
  | zero => rfl
  | succ n ih => rw [List.range_succ, List.map_append, List.sum_append, ih, Finset.sum_range_succ]; simp

theorem edgesW_flat {α : Type} (ls : List α) (f : α → List (V2 × V2)) (x : V2) :
    edgesW (ls.map f).flatten x = (ls.map fun l => edgesW (f l) x).sum := by
  induction ls with
  | nil => rfl
  | cons a l ih => rw [List.map_cons, List.flatten_cons, edgesW_append, ih]; simp

theorem edges_W (c : CutPoly) (x : V2) : edgesW c.edges x = c.W x := by
  unfold edges
  rw [edgesW_flat, list_sum_range, c.sum_pieces]

theorem P_mod (c : CutPoly) (k q : ℕ) : c.P (k + c.n * q) = c.P k := by
  induction q with
  | zero => rfl
  | succ q ih => rw [Nat.mul_succ, ← Nat.add_assoc, c.P_per, ih]

theorem pos_mod (c : CutPoly) (j q : ℕ) : c.pos (j + c.N * q) = c.pos j := by
  induction q with
  | zero => rfl
  | succ q ih => rw [Nat.mul_succ, ← Nat.add_assoc, c.pos_per, ih]

theorem onLine_mod (c : CutPoly) (k : ℕ) (z : V2) :
    OnLine (c.P k) (c.P (k + 1)) z ↔ OnLine (c.P (k % c.n)) (c.P (k % c.n + 1)) z := by
  have h1 : c.P k = c.P (k % c.n) := by
    conv_lhs => rw [← Nat.mod_add_div k c.n]
    rw [c.P_mod]
  have h2 : c.P (k + 1) = c.P (k % c.n + 1) := by
    conv_lhs => rw [← Nat.mod_add_div k c.n, show k % c.n + c.n * (k / c.n) + 1 = k % c.n + 1 + c.n * (k / c.n) by omega]
    rw [c.P_mod]
  rw [h1, h2]

/-- The heights of the cuts. -/
def heights (c : CutPoly) : List ℝ := (List.range c.N).map fun j => (c.pos j).y

theorem mem_heights (c : CutPoly) (j : ℕ) : (c.pos j).y ∈ c.heights := by
  unfold heights
  rw [List.mem_map]
  refine ⟨j % c.N, List.mem_range.2 (Nat.mod_lt _ c.N_pos), ?_⟩
  conv_rhs => rw [← Nat.mod_add_div j c.N, c.pos_mod]

theorem P_n (c : CutPoly) : c.P c.n = c.P 0 := by
  have := c.P_per 0
  rwa [zero_add] at this

/-- The points of the edges of the pieces are on the polygon. -/
theorem edge_on {c : CutPoly} (hn : 0 < c.n) {e : V2 × V2} (he : e ∈ c.edges) {z : V2} (hz : OnLine e.1 e.2 z) :
    ∃ k < c.n, OnLine (c.P k) (c.P (k + 1)) z := by
  obtain ⟨j, -, hj⟩ := mem_edges.1 he
  obtain ⟨k, t, h1, h2, h3, -⟩ := c.edge_strict hj hz
  refine ⟨k % c.n, Nat.mod_lt _ hn, ?_⟩
  rw [← c.onLine_mod]
  exact ⟨t, h2, h3, h1⟩

/-- What the pieces of one polygon add, each one with the side it is on, and the same for the other
polygon: together it is the product of the winding numbers. -/
theorem sides_mul {c d : CutPoly} (hc : 0 < c.n) (hd : 0 < d.n) (hcd : c.CutsAll d.P d.n) (hdc : d.CutsAll c.P c.n)
    {x : V2} (hx : ∀ k < c.n, ¬ OnLine (c.P k) (c.P (k + 1)) x) (hx' : ∀ k < d.n, ¬ OnLine (d.P k) (d.P (k + 1)) x) :
    c.W x * d.W x =
      ∑ j ∈ Finset.range c.N, c.side d.P d.n j * edgesW (pathEdges (c.piece j)) x +
      ∑ j ∈ Finset.range d.N, d.side c.P c.n j * edgesW (pathEdges (d.piece j)) x := by
  -- the side by an edge
  have hβ : ∀ (c d : CutPoly), c.CutsAll d.P d.n → ∃ β : V2 × V2 → ℤ, ∀ j < c.N, ∀ e ∈ pathEdges (c.piece j),
      (∀ z, OnLine e.1 e.2 z → z.y ∉ c.heights ++ d.heights → edgesW d.edges z = β e) ∧
      ∀ x, β e * lw e.1 e.2 x = c.side d.P d.n j * lw e.1 e.2 x := by
    intro c d hcd
    have key : ∀ j, ∀ e ∈ pathEdges (c.piece j), ∀ z, OnLine e.1 e.2 z → z.y ∉ c.heights ++ d.heights →
        edgesW d.edges z = c.side d.P d.n j := by
      intro j e he z hz hy
      rw [edges_W]
      refine side_edge he hz ?_ ?_ d.P_n hcd
      · rintro rfl
        exact hy (List.mem_append_left _ (c.mem_heights j))
      · rintro rfl
        exact hy (List.mem_append_left _ (c.mem_heights (j + 1)))
    refine ⟨fun e => if h : ∃ z, OnLine e.1 e.2 z ∧ z.y ∉ c.heights ++ d.heights then edgesW d.edges h.choose else 0, ?_⟩
    intro j _ e he
    by_cases h : ∃ z, OnLine e.1 e.2 z ∧ z.y ∉ c.heights ++ d.heights
    · simp only [dif_pos h]
      have e1 := key j e he _ h.choose_spec.1 h.choose_spec.2
      rw [e1]
      exact ⟨fun z hz hy => key j e he z hz hy, fun x => rfl⟩
    · simp only [dif_neg h]
      refine ⟨fun z hz hy => absurd ⟨z, hz, hy⟩ h, fun x => ?_⟩
      have : e.1.y = e.2.y := by
        by_contra hn
        exact h (exists_height hn _)
      rw [lw_horizontal this, mul_zero, mul_zero]
  obtain ⟨β, h1⟩ := hβ c d hcd
  obtain ⟨α, h2⟩ := hβ d c hdc
  have hmul := edges_mul (E := c.edges) (F := d.edges) (x := x) (β := β) (α := α) (c.heights ++ d.heights)
    (by
      intro e he ho
      obtain ⟨k, hk, h⟩ := edge_on hc he ho
      exact hx k hk h)
    (by
      intro e he ho
      obtain ⟨k, hk, h⟩ := edge_on hd he ho
      exact hx' k hk h)
    (by
      intro e he f hf z hz hz'
      obtain ⟨k, hk, t, t0, t1, h⟩ := edge_on hc he hz
      obtain ⟨i, hi, h'⟩ := edge_on hd hf hz'
      rw [h] at h'
      obtain ⟨j, e1, e2⟩ := hcd k t t0 t1 i hi h'
      have : z = c.pos j := by
        rw [h]; unfold pos; rw [e1, e2]
      rw [this]
      exact List.mem_append_left _ (c.mem_heights j))
    (by
      intro e he z hz hy
      obtain ⟨j, hj, he⟩ := mem_edges.1 he
      exact (h1 j hj e he).1 z hz hy)
    (by
      intro e he z hz hy
      obtain ⟨j, hj, he⟩ := mem_edges.1 he
      refine (h2 j hj e he).1 z hz ?_
      rw [List.mem_append] at hy ⊢
      tauto)
  rw [edges_W, edges_W] at hmul
  rw [hmul]
  have hsum : ∀ (c d : CutPoly) (β : V2 × V2 → ℤ), (∀ j < c.N, ∀ e ∈ pathEdges (c.piece j),
      (∀ z, OnLine e.1 e.2 z → z.y ∉ c.heights ++ d.heights → edgesW d.edges z = β e) ∧
      ∀ x, β e * lw e.1 e.2 x = c.side d.P d.n j * lw e.1 e.2 x) →
      (c.edges.map fun e => β e * lw e.1 e.2 x).sum =
        ∑ j ∈ Finset.range c.N, c.side d.P d.n j * edgesW (pathEdges (c.piece j)) x := by
    intro c d β h
    unfold edges
    rw [List.map_flatten, List.sum_flatten, List.map_map, List.map_map, list_sum_range]
    apply Finset.sum_congr rfl
    intro j hj
    simp only [Function.comp_apply]
    rw [List.map_congr_left fun e he => (h j (Finset.mem_range.1 hj) e he).2 x, List.sum_map_mul_left]
    rfl
  rw [hsum c d β h1, hsum d c α h2]

end CutPoly
end
end Cavc

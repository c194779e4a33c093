import Verif.Proofs.WindConst

/-! A polygon that is cut at points of its edges: its pieces. -/
namespace Cavc
open Spec
open scoped Classical
noncomputable section

/-- The edges of a path. -/
def pathEdges (l : List V2) : List (V2 × V2) := l.zip l.tail

theorem pathEdges_cons (a b : V2) (l : List V2) : pathEdges (a :: b :: l) = (a, b) :: pathEdges (b :: l) := rfl

@[simp] theorem pathEdges_single (a : V2) : pathEdges [a] = [] := rfl

theorem pathEdges_append (l : List V2) (a : V2) (l' : List V2) :
    pathEdges (l ++ a :: l') = pathEdges (l ++ [a]) ++ pathEdges (a :: l') := by
  induction l with
  | nil => simp
  | cons b l ih =>
    cases l with
    | nil => simp [pathEdges]
    | cons c l =>
      simp only [List.cons_append, pathEdges_cons] at ih ⊢
      rw [ih]

theorem pathEdges_map (f : ℕ → V2) (m : ℕ) :
    pathEdges ((List.range (m + 1)).map f) = (List.range m).map fun k => (f k, f (k + 1)) := by
  induction m with
  | zero => rfl
  | succ m ih =>
    rw [List.range_succ, List.map_append, List.range_succ (n := m), List.map_append, List.append_assoc]
    simp only [List.map_cons, List.map_nil, List.singleton_append]
    rw [pathEdges_append]
    have := ih
    rw [List.range_succ, List.map_append] at this
    simp only [List.map_cons, List.map_nil] at this
    rw [this, List.map_append]
    rfl

theorem edgesW_nil (x : V2) : edgesW [] x = 0 := rfl

theorem edgesW_cons (e : V2 × V2) (E : List (V2 × V2)) (x : V2) :
    edgesW (e :: E) x = lw e.1 e.2 x + edgesW E x := by simp [edgesW]

/-- A closed polygon `P 0`, ..., `P (n - 1)` with `N` cuts per turn: cut `j` is on edge `K j` at
parameter `T j`. Everything goes on periodically. -/
structure CutPoly where
  n : ℕ
  P : ℕ → V2
  N : ℕ
  K : ℕ → ℕ
  T : ℕ → ℝ
  N_pos : 0 < N
  P_per : ∀ k, P (k + n) = P k
  K_per : ∀ j, K (j + N) = K j + n
  T_per : ∀ j, T (j + N) = T j
  T_pos : ∀ j, 0 < T j
  T_lt : ∀ j, T j < 1
  inc : ∀ j, K j < K (j + 1) ∨ (K j = K (j + 1) ∧ T j < T (j + 1))

namespace CutPoly
variable (c : CutPoly)

/-- The position of a cut. -/
def pos (j : ℕ) : V2 := lerp (c.P (c.K j)) (c.P (c.K j + 1)) (c.T j)

/-- The piece from cut `j` to the next one. -/
def piece (j : ℕ) : List V2 :=
  if c.K (j + 1) = c.K j then [c.pos j, c.pos (j + 1)]
  else c.pos j :: (List.range (c.K (j + 1) - c.K j)).map (fun i => c.P (c.K j + 1 + i)) ++ [c.pos (j + 1)]

theorem K_le (j : ℕ) : c.K j ≤ c.K (j + 1) := by
  rcases c.inc j with h | h <;> omega

theorem pos_per (j : ℕ) : c.pos (j + c.N) = c.pos j := by
  unfold pos
  rw [c.K_per, c.T_per, c.P_per, show c.K j + c.n + 1 = c.K j + 1 + c.n by omega, c.P_per]

theorem piece_per (j : ℕ) : c.piece (j + c.N) = c.piece j := by
  unfold piece
  have e : j + c.N + 1 = j + 1 + c.N := by omega
  rw [e, c.pos_per, c.pos_per, c.K_per, c.K_per]
  have h1 : (c.K (j + 1) + c.n = c.K j + c.n) = (c.K (j + 1) = c.K j) := by
    apply propext; omega
  have h2 : c.K (j + 1) + c.n - (c.K j + c.n) = c.K (j + 1) - c.K j := by omega
  simp only [h1, h2]
  split_ifs
  · rfl
  · congr 2
    apply List.map_congr_left
    intro i _
    rw [show c.K j + c.n + 1 + i = c.K j + 1 + i + c.n by omega, c.P_per]

/-- What the path from vertex 0 to cut `j` adds. -/
def L (j : ℕ) (x : V2) : ℤ :=
  ∑ k ∈ Finset.range (c.K j), lw (c.P k) (c.P (k + 1)) x + lw (c.P (c.K j)) (c.pos j) x

/-- The winding number. -/
def W (x : V2) : ℤ := edgesW (polyEdges c.P c.n) x

theorem sum_per (K : ℕ) (x : V2) : ∑ k ∈ Finset.range (K + c.n), lw (c.P k) (c.P (k + 1)) x =
    ∑ k ∈ Finset.range K, lw (c.P k) (c.P (k + 1)) x + c.W x := by
  induction K with
  | zero => simp [W, polyEdges_W]
  | succ K ih =>
    rw [show K + 1 + c.n = K + c.n + 1 by omega, Finset.sum_range_succ, ih, Finset.sum_range_succ,
      show K + c.n + 1 = K + 1 + c.n by omega, c.P_per, c.P_per]
    ring

theorem L_per (j : ℕ) (x : V2) : c.L (j + c.N) x = c.L j x + c.W x := by
  unfold L
  rw [c.pos_per, c.K_per, c.P_per, c.sum_per]
  ring

theorem piece_W (j : ℕ) (x : V2) : edgesW (pathEdges (c.piece j)) x = c.L (j + 1) x - c.L j x := by
  unfold piece
  by_cases h : c.K (j + 1) = c.K j
  · rw [if_pos h, pathEdges_cons, edgesW_cons, pathEdges_single, edgesW_nil]
    have hT : c.T j < c.T (j + 1) := by
      rcases c.inc j with h' | h'
      · omega
      · exact h'.2
    unfold L
    rw [h]
    have := lw_between (a := c.P (c.K j)) (b := c.P (c.K j + 1)) (c.T_pos j) hT x
    unfold pos
    rw [h]
    simp only
    rw [this]
    ring
  · rw [if_neg h]
    obtain ⟨m, hm⟩ : ∃ m, c.K (j + 1) = c.K j + (m + 1) :=
      ⟨c.K (j + 1) - c.K j - 1, by have := c.K_le j; omega⟩
    rw [show c.K (j + 1) - c.K j = m + 1 by omega]
    have hl : (List.range (m + 1)).map (fun i => c.P (c.K j + 1 + i)) =
        c.P (c.K j + 1) :: (List.range m).map (fun i => c.P (c.K j + 1 + (i + 1))) := by
      rw [List.range_succ_eq_map, List.map_cons, List.map_map]
      rfl
    have hl' : (List.range (m + 1)).map (fun i => c.P (c.K j + 1 + i)) =
        (List.range m).map (fun i => c.P (c.K j + 1 + i)) ++ [c.P (c.K (j + 1))] := by
      rw [List.range_succ, List.map_append]
      simp only [List.map_cons, List.map_nil]
      rw [show c.K j + 1 + m = c.K (j + 1) by omega]
    have e1 : pathEdges (c.pos j :: (List.range (m + 1)).map (fun i => c.P (c.K j + 1 + i)) ++ [c.pos (j + 1)]) =
        (c.pos j, c.P (c.K j + 1)) :: (List.range m).map (fun k => (c.P (c.K j + 1 + k), c.P (c.K j + 1 + (k + 1)))) ++
          [(c.P (c.K (j + 1)), c.pos (j + 1))] := by
      have := pathEdges_map (fun i => c.P (c.K j + 1 + i)) m
      rw [← this, List.cons_append]
      nth_rewrite 1 [hl]
      rw [List.cons_append, pathEdges_cons, ← List.cons_append, ← hl]
      rw [hl', List.append_assoc, List.singleton_append, pathEdges_append]
      rfl
    rw [e1, edgesW_append, edgesW_cons, edgesW_cons, edgesW_nil]
    have e2 : edgesW ((List.range m).map fun k => (c.P (c.K j + 1 + k), c.P (c.K j + 1 + (k + 1)))) x =
        ∑ k ∈ Finset.range m, lw (c.P (c.K j + 1 + k)) (c.P (c.K j + 1 + k + 1)) x := by
      have := polyEdges_W (fun k => c.P (c.K j + 1 + k)) m x
      exact this
    rw [e2]
    unfold L
    have hs := lw_split (a := c.P (c.K j)) (b := c.P (c.K j + 1)) (c.T_pos j) (c.T_lt j) x
    have e3 : ∑ k ∈ Finset.range (c.K (j + 1)), lw (c.P k) (c.P (k + 1)) x =
        ∑ k ∈ Finset.range (c.K j), lw (c.P k) (c.P (k + 1)) x + lw (c.P (c.K j)) (c.P (c.K j + 1)) x +
        ∑ k ∈ Finset.range m, lw (c.P (c.K j + 1 + k)) (c.P (c.K j + 1 + k + 1)) x := by
      rw [hm, show c.K j + (m + 1) = c.K j + 1 + m by omega, Finset.sum_range_add, Finset.sum_range_succ]
    rw [e3]
    change _ = _ - (_ + lw (c.P (c.K j)) (lerp (c.P (c.K j)) (c.P (c.K j + 1)) (c.T j)) x)
    rw [hs]
    unfold pos
    ring

/-- The pieces of one turn together add what the polygon adds. -/
theorem sum_pieces (x : V2) : ∑ j ∈ Finset.range c.N, edgesW (pathEdges (c.piece j)) x = c.W x := by
  rw [Finset.sum_congr rfl fun j _ => c.piece_W j x, Finset.sum_range_sub (fun j => c.L j x)]
  have := c.L_per 0 x
  rw [zero_add] at this
  rw [this]; ring

/-! ### What is on a piece -/

/-- The point at parameter `t` of edge `k` is on piece `j`, and not a cut. -/
structure Strict (j k : ℕ) (t : ℝ) : Prop where
  t0 : 0 ≤ t
  t1 : t ≤ 1
  lo : c.K j < k ∨ (c.K j = k ∧ c.T j < t)
  hi : k < c.K (j + 1) ∨ (k = c.K (j + 1) ∧ t < c.T (j + 1))

theorem mono {i j : ℕ} (h : i ≤ j) : c.K i < c.K j ∨ (c.K i = c.K j ∧ c.T i ≤ c.T j) := by
  induction h with
  | refl => exact Or.inr ⟨rfl, le_rfl⟩
  | step _ ih =>
    rename_i m _
    rw [Nat.succ_eq_add_one]
    rcases ih with h1 | h1 <;> rcases c.inc m with h2 | h2
    · left; omega
    · left; omega
    · left; omega
    · right; exact ⟨by omega, by linarith [h1.2, h2.2]⟩

/-- Points of a piece other than its ends are not cuts. -/
theorem Strict.not_cut {c : CutPoly} {j k : ℕ} {t : ℝ} (h : c.Strict j k t) (i : ℕ) :
    ¬ (c.K i = k ∧ c.T i = t) := by
  rintro ⟨h1, h2⟩
  by_cases hij : i ≤ j
  · rcases c.mono hij with h3 | h3 <;> rcases h.lo with h4 | h4
    · omega
    · omega
    · omega
    · linarith [h3.2, h4.2]
  · rcases c.mono (show j + 1 ≤ i by omega) with h3 | h3 <;> rcases h.hi with h4 | h4
    · omega
    · omega
    · omega
    · linarith [h3.2, h4.2]

theorem exists_strict {j k : ℕ} {t : ℝ} (t0 : 0 ≤ t) (t1 : t ≤ 1)
    (lo : c.K j < k ∨ (c.K j = k ∧ c.T j ≤ t)) (hi : k < c.K (j + 1) ∨ (k = c.K (j + 1) ∧ t ≤ c.T (j + 1)))
    (n1 : lerp (c.P k) (c.P (k + 1)) t ≠ c.pos j) (n2 : lerp (c.P k) (c.P (k + 1)) t ≠ c.pos (j + 1)) :
    c.Strict j k t := by
  refine ⟨t0, t1, ?_, ?_⟩
  · rcases lo with h | ⟨h, h'⟩
    · exact Or.inl h
    · refine Or.inr ⟨h, lt_of_le_of_ne h' ?_⟩
      rintro e
      apply n1
      unfold pos
      rw [h, e]
  · rcases hi with h | ⟨h, h'⟩
    · exact Or.inl h
    · refine Or.inr ⟨h, lt_of_le_of_ne h' ?_⟩
      rintro e
      apply n2
      unfold pos
      rw [← h, e]

/-- The points of the edges of a piece. -/
theorem edge_strict {j : ℕ} {e : V2 × V2} (he : e ∈ pathEdges (c.piece j)) {z : V2} (hz : OnLine e.1 e.2 z) :
    ∃ k t, z = lerp (c.P k) (c.P (k + 1)) t ∧ 0 ≤ t ∧ t ≤ 1 ∧
      (z ≠ c.pos j → z ≠ c.pos (j + 1) → c.Strict j k t) := by
  have lerp2 : ∀ (a b : V2) (s t u : ℝ), lerp (lerp a b s) (lerp a b t) u = lerp a b (s + u * (t - s)) := by
    intro a b s t u
    ext <;> simp only [lerp] <;> ring
  have lerp1 : ∀ a b : V2, lerp a b 1 = b := by intro a b; ext <;> simp [lerp]
  have lerp0 : ∀ a b : V2, lerp a b 0 = a := by intro a b; ext <;> simp [lerp]
  obtain ⟨u, u0, u1, rfl⟩ := hz
  have fin : ∀ k t, lerp e.1 e.2 u = lerp (c.P k) (c.P (k + 1)) t → 0 ≤ t → t ≤ 1 →
      (c.K j < k ∨ (c.K j = k ∧ c.T j ≤ t)) → (k < c.K (j + 1) ∨ (k = c.K (j + 1) ∧ t ≤ c.T (j + 1))) →
      ∃ k t, lerp e.1 e.2 u = lerp (c.P k) (c.P (k + 1)) t ∧ 0 ≤ t ∧ t ≤ 1 ∧
      (lerp e.1 e.2 u ≠ c.pos j → lerp e.1 e.2 u ≠ c.pos (j + 1) → c.Strict j k t) := by
    intro k t h1 h2 h3 h4 h5
    refine ⟨k, t, h1, h2, h3, ?_⟩
    rw [h1]
    exact c.exists_strict h2 h3 h4 h5
  have q0 := c.T_pos j
  have q1 := c.T_lt j
  have r0 := c.T_pos (j + 1)
  have r1 := c.T_lt (j + 1)
  unfold piece at he
  by_cases h : c.K (j + 1) = c.K j
  · rw [if_pos h] at he
    simp only [pathEdges_cons, pathEdges_single, List.mem_singleton] at he
    have hT : c.T j < c.T (j + 1) := by
      rcases c.inc j with h' | h'
      · omega
      · exact h'.2
    subst he
    refine fin (c.K j) (c.T j + u * (c.T (j + 1) - c.T j)) ?_ (by nlinarith) (by nlinarith)
      (Or.inr ⟨rfl, by nlinarith⟩) (Or.inr ⟨h.symm, by nlinarith⟩)
    unfold pos
    rw [h]
    exact lerp2 _ _ _ _ _
  · rw [if_neg h] at he
    obtain ⟨m, hm⟩ : ∃ m, c.K (j + 1) = c.K j + (m + 1) :=
      ⟨c.K (j + 1) - c.K j - 1, by have := c.K_le j; omega⟩
    rw [show c.K (j + 1) - c.K j = m + 1 by omega] at he
    have hl : (List.range (m + 1)).map (fun i => c.P (c.K j + 1 + i)) =
        c.P (c.K j + 1) :: (List.range m).map (fun i => c.P (c.K j + 1 + (i + 1))) := by
      rw [List.range_succ_eq_map, List.map_cons, List.map_map]
      rfl
    have hl' : (List.range (m + 1)).map (fun i => c.P (c.K j + 1 + i)) =
        (List.range m).map (fun i => c.P (c.K j + 1 + i)) ++ [c.P (c.K (j + 1))] := by
      rw [List.range_succ, List.map_append]
      simp only [List.map_cons, List.map_nil]
      rw [show c.K j + 1 + m = c.K (j + 1) by omega]
    have e1 : pathEdges (c.pos j :: (List.range (m + 1)).map (fun i => c.P (c.K j + 1 + i)) ++ [c.pos (j + 1)]) =
        (c.pos j, c.P (c.K j + 1)) :: (List.range m).map (fun k => (c.P (c.K j + 1 + k), c.P (c.K j + 1 + (k + 1)))) ++
          [(c.P (c.K (j + 1)), c.pos (j + 1))] := by
      have := pathEdges_map (fun i => c.P (c.K j + 1 + i)) m
      rw [← this, List.cons_append]
      nth_rewrite 1 [hl]
      rw [List.cons_append, pathEdges_cons, ← List.cons_append, ← hl]
      rw [hl', List.append_assoc, List.singleton_append, pathEdges_append]
      rfl
    rw [e1] at he
    simp only [List.cons_append, List.mem_cons, List.mem_append, List.mem_map, List.mem_range,
      List.not_mem_nil, or_false] at he
    rcases he with rfl | ⟨i, hi, rfl⟩ | rfl
    · refine fin (c.K j) (c.T j + u * (1 - c.T j)) ?_ (by nlinarith) (by nlinarith)
        (Or.inr ⟨rfl, by nlinarith⟩) (Or.inl (by omega))
      have := lerp2 (c.P (c.K j)) (c.P (c.K j + 1)) (c.T j) 1 u
      rw [lerp1] at this
      exact this
    · exact fin (c.K j + 1 + i) u rfl u0 u1 (Or.inl (by omega)) (Or.inl (by omega))
    · refine fin (c.K (j + 1)) (u * c.T (j + 1)) ?_ (by nlinarith) (by nlinarith)
        (Or.inl (by omega)) (Or.inr ⟨rfl, by nlinarith⟩)
      have := lerp2 (c.P (c.K (j + 1))) (c.P (c.K (j + 1) + 1)) 0 (c.T (j + 1)) u
      rw [lerp0, zero_add, sub_zero] at this
      exact this

/-- The cuts are all the places where the polygon meets the polygon `Q`. -/
def CutsAll (Q : ℕ → V2) (m : ℕ) : Prop :=
  ∀ k t, 0 ≤ t → t ≤ 1 → ∀ i < m, OnLine (Q i) (Q (i + 1)) (lerp (c.P k) (c.P (k + 1)) t) →
    ∃ j, c.K j = k ∧ c.T j = t

variable {c}

theorem Strict.off {j k : ℕ} {t : ℝ} (h : c.Strict j k t) {Q : ℕ → V2} {m : ℕ} (hQ : c.CutsAll Q m) :
    ∀ i < m, ¬ OnLine (Q i) (Q (i + 1)) (lerp (c.P k) (c.P (k + 1)) t) := by
  intro i hi ho
  obtain ⟨i', h1, h2⟩ := hQ k t h.t0 h.t1 i hi ho
  exact h.not_cut i' ⟨h1, h2⟩

/-- A piece is on one side of the other polygon. -/
theorem Strict.const {j k k' : ℕ} {t t' : ℝ} (h : c.Strict j k t) (h' : c.Strict j k' t') {Q : ℕ → V2} {m : ℕ}
    (hQm : Q m = Q 0) (hQ : c.CutsAll Q m) :
    edgesW (polyEdges Q m) (lerp (c.P k) (c.P (k + 1)) t) =
      edgesW (polyEdges Q m) (lerp (c.P k') (c.P (k' + 1)) t') := by
  have same : ∀ {k : ℕ} {t t' : ℝ}, c.Strict j k t → c.Strict j k t' →
      edgesW (polyEdges Q m) (lerp (c.P k) (c.P (k + 1)) t) =
      edgesW (polyEdges Q m) (lerp (c.P k) (c.P (k + 1)) t') := by
    intro k t t' h h'
    refine wind_const hQm (S := {s | c.Strict j k s}) ?_ (fun s hs => hs.off hQ) h h'
    apply Set.OrdConnected.isPreconnected
    refine ⟨fun a ha b hb s hs => ?_⟩
    refine ⟨ha.t0.trans hs.1, hs.2.trans hb.t1, ?_, ?_⟩
    · rcases ha.lo with q | q
      · exact Or.inl q
      · exact Or.inr ⟨q.1, lt_of_lt_of_le q.2 hs.1⟩
    · rcases hb.hi with q | q
      · exact Or.inl q
      · exact Or.inr ⟨q.1, lt_of_le_of_lt hs.2 q.2⟩
  have step : ∀ d k t k' t', k' = k + d → c.Strict j k t → c.Strict j k' t' →
      edgesW (polyEdges Q m) (lerp (c.P k) (c.P (k + 1)) t) =
      edgesW (polyEdges Q m) (lerp (c.P k') (c.P (k' + 1)) t') := by
    intro d
    induction d with
    | zero =>
      rintro k t k' t' rfl h h'
      exact same h h'
    | succ d ih =>
      rintro k t k' t' rfl h h'
      have hK1 : c.K j ≤ k := by rcases h.lo with q | q <;> omega
      have hK2 : k + (d + 1) ≤ c.K (j + 1) := by rcases h'.hi with q | q <;> omega
      have s1 : c.Strict j k 1 := by
        refine ⟨zero_le_one, le_rfl, ?_, Or.inl (by omega)⟩
        rcases Nat.lt_or_ge (c.K j) k with q | q
        · exact Or.inl q
        · exact Or.inr ⟨by omega, c.T_lt j⟩
      have s2 : c.Strict j (k + 1) 0 := by
        refine ⟨le_rfl, zero_le_one, Or.inl (by omega), ?_⟩
        rcases Nat.lt_or_ge (k + 1) (c.K (j + 1)) with q | q
        · exact Or.inl q
        · exact Or.inr ⟨by omega, c.T_pos (j + 1)⟩
      rw [same h s1]
      have e : lerp (c.P k) (c.P (k + 1)) 1 = lerp (c.P (k + 1)) (c.P (k + 1 + 1)) 0 := by
        ext <;> simp [lerp]
      rw [e]
      exact ih (k + 1) 0 _ t' (by omega) s2 h'
  rcases le_total k k' with hk | hk
  · exact step (k' - k) k t k' t' (by omega) h h'
  · exact (step (k - k') k' t' k t (by omega) h' h).symm

/-- Some point of the last edge of a piece, and the other ones. -/
theorem strict_last (c : CutPoly) (j : ℕ) {u : ℝ} (h0 : 0 < u) (h1 : u < 1) :
    c.Strict j (c.K (j + 1)) (if c.K (j + 1) = c.K j then c.T j + u * (c.T (j + 1) - c.T j) else u * c.T (j + 1)) := by
  have q0 := c.T_pos j
  have q1 := c.T_lt j
  have r0 := c.T_pos (j + 1)
  have r1 := c.T_lt (j + 1)
  by_cases h : c.K (j + 1) = c.K j
  · rw [if_pos h]
    have hT : c.T j < c.T (j + 1) := by
      rcases c.inc j with h' | h'
      · omega
      · exact h'.2
    exact ⟨by nlinarith, by nlinarith, Or.inr ⟨h.symm, by nlinarith⟩, Or.inr ⟨rfl, by nlinarith⟩⟩
  · rw [if_neg h]
    exact ⟨by nlinarith, by nlinarith, Or.inl (lt_of_le_of_ne (c.K_le j) (Ne.symm h)), Or.inr ⟨rfl, by nlinarith⟩⟩

theorem strict_first (c : CutPoly) (j : ℕ) {u : ℝ} (h0 : 0 < u) (h1 : u < 1) :
    c.Strict j (c.K j) (if c.K (j + 1) = c.K j then c.T j + u * (c.T (j + 1) - c.T j) else
      c.T j + u * (1 - c.T j)) := by
  have q0 := c.T_pos j
  have q1 := c.T_lt j
  have r0 := c.T_pos (j + 1)
  have r1 := c.T_lt (j + 1)
  by_cases h : c.K (j + 1) = c.K j
  · rw [if_pos h]
    have hT : c.T j < c.T (j + 1) := by
      rcases c.inc j with h' | h'
      · omega
      · exact h'.2
    exact ⟨by nlinarith, by nlinarith, Or.inr ⟨rfl, by nlinarith⟩, Or.inr ⟨h.symm, by nlinarith⟩⟩
  · rw [if_neg h]
    exact ⟨by nlinarith, by nlinarith, Or.inr ⟨rfl, by nlinarith⟩, Or.inl (lt_of_le_of_ne (c.K_le j) (Ne.symm h))⟩

/-- The side a piece is on: the winding number at the midpoint of its last edge. -/
def side (c : CutPoly) (Q : ℕ → V2) (m : ℕ) (j : ℕ) : ℤ :=
  edgesW (polyEdges Q m) (lerp (c.P (c.K (j + 1))) (c.P (c.K (j + 1) + 1))
    (if c.K (j + 1) = c.K j then c.T j + 1 / 2 * (c.T (j + 1) - c.T j) else 1 / 2 * c.T (j + 1)))

theorem Strict.side {j k : ℕ} {t : ℝ} (h : c.Strict j k t) {Q : ℕ → V2} {m : ℕ}
    (hQm : Q m = Q 0) (hQ : c.CutsAll Q m) :
    edgesW (polyEdges Q m) (lerp (c.P k) (c.P (k + 1)) t) = c.side Q m j :=
  h.const (c.strict_last j (by norm_num) (by norm_num)) hQm hQ

theorem side_edge {j : ℕ} {e : V2 × V2} (he : e ∈ pathEdges (c.piece j)) {z : V2} (hz : OnLine e.1 e.2 z)
    (h1 : z ≠ c.pos j) (h2 : z ≠ c.pos (j + 1)) {Q : ℕ → V2} {m : ℕ} (hQm : Q m = Q 0) (hQ : c.CutsAll Q m) :
    edgesW (polyEdges Q m) z = c.side Q m j := by
  obtain ⟨k, t, rfl, -, -, h⟩ := c.edge_strict he hz
  exact (h h1 h2).side hQm hQ

/-- Where the polygon crosses an edge of the other one the side changes. -/
theorem side_jump {j : ℕ} {Q : ℕ → V2} {m : ℕ} (hQm : Q m = Q 0) (hQ : c.CutsAll Q m) {i : ℕ} (hi : i < m)
    {s0 : ℝ} (hs0 : 0 < s0) (hs1 : s0 < 1) (hc : c.pos (j + 1) = lerp (Q i) (Q (i + 1)) s0)
    (ho : ∀ k < m, k ≠ i → ¬ OnLine (Q k) (Q (k + 1)) (c.pos (j + 1)))
    {D : ℝ} (hD : D = ((Q (i + 1)).x - (Q i).x) * ((c.P (c.K (j + 1) + 1)).y - (c.P (c.K (j + 1))).y) -
      ((Q (i + 1)).y - (Q i).y) * ((c.P (c.K (j + 1) + 1)).x - (c.P (c.K (j + 1))).x)) (hD0 : D ≠ 0) :
    c.side Q m (j + 1) = c.side Q m j + (if 0 < D then 1 else -1) := by
  obtain ⟨δ, hδ, h⟩ := wind_jump hQm hi hs0 hs1 hc ho hD hD0
  obtain ⟨u, u0, u1, hu1, hu2⟩ : ∃ u : ℝ, 0 < u ∧ u < 1 ∧ u < δ ∧ 1 - u < 1 := by
    refine ⟨min (1 / 2) (δ / 2), by positivity, ?_, ?_, ?_⟩
    · exact lt_of_le_of_lt (min_le_left _ _) (by norm_num)
    · exact lt_of_le_of_lt (min_le_right _ _) (by linarith)
    · have : (0 : ℝ) < min (1 / 2) (δ / 2) := by positivity
      linarith
  have q0 := c.T_pos j
  have q1 := c.T_lt j
  have r0 := c.T_pos (j + 1)
  have r1 := c.T_lt (j + 1)
  have p0 := c.T_pos (j + 1 + 1)
  have p1 := c.T_lt (j + 1 + 1)
  have s1 := c.strict_last j (u := 1 - u) (by linarith) hu2
  have s2 := c.strict_first (j + 1) u0 u1
  rw [← s1.side hQm hQ, ← s2.side hQm hQ]
  apply h
  · split_ifs with hk
    · have hT : c.T j < c.T (j + 1) := by
        rcases c.inc j with h' | h'
        · omega
        · exact h'.2
      nlinarith
    · nlinarith
  · split_ifs with hk
    · have hT : c.T j < c.T (j + 1) := by
        rcases c.inc j with h' | h'
        · omega
        · exact h'.2
      nlinarith
    · nlinarith
  · split_ifs with hk
    · have hT : c.T (j + 1) < c.T (j + 1 + 1) := by
        rcases c.inc (j + 1) with h' | h'
        · omega
        · exact h'.2
      nlinarith
    · nlinarith
  · split_ifs with hk
    · have hT : c.T (j + 1) < c.T (j + 1 + 1) := by
        rcases c.inc (j + 1) with h' | h'
        · omega
        · exact h'.2
      nlinarith
    · nlinarith

end CutPoly
end
end Cavc

import Verif.Proofs.Loops

/-! Two polygons in general position, cut where they cross: which side of the other one the pieces are on. -/
namespace Cavc
open Spec
open scoped Classical
noncomputable section

/-! ### Both orders -/

theorem crossing_symm {a b p q x : V2} (h : Crossing a b p q x) : Crossing p q a b x := by
  refine ⟨h.second, h.first, ?_, h.away.2.2.1, h.away.2.2.2, h.away.1, h.away.2.1⟩
  have := h.angle
  rw [← abs_neg] at this
  convert this using 2
  ring

theorem awayFrom_symm {a b p q : V2} (h : AwayFrom a b p q) : AwayFrom p q a b := by
  unfold AwayFrom at h ⊢
  tauto

theorem near_small {ε δ : ℝ} (h : ε ≤ δ) {a b : V2} (hn : Near ε a b) : Near δ a b :=
  ⟨hn.1.trans_le h, hn.2.trans_le h⟩

theorem general_symm {A B : Polyline} (h : GeneralPosition A B) : GeneralPosition B A := by
  constructor
  · intro i j v1 v2 u1 u2 a b
    rcases h.pairs j i u1 u2 v1 v2 b a with ⟨x, hx⟩ | hx
    · exact Or.inl ⟨x, crossing_symm hx⟩
    · exact Or.inr (awayFrom_symm hx)
  · intro i j i' j' v1 v2 u1 u2 v1' v2' u1' u2' x x' a b a' b' hx hx' hne
    refine h.separate j i j' i' u1 u2 v1 v2 u1' u2' v1' v2' x x' b a b' a' (crossing_symm hx) (crossing_symm hx') ?_
    intro e
    apply hne
    rw [Prod.mk.injEq] at e ⊢
    exact ⟨e.2, e.1⟩

/-- The same intersect with the polylines the other way round. -/
def swapI (y : PlineIntersect) : PlineIntersect := ⟨y.sIndex2, y.sIndex1, y.pos⟩

theorem crossAt_swap {A B : Polyline} {y : PlineIntersect} (h : CrossAt A B y) : CrossAt B A (swapI y) := by
  obtain ⟨v1, v2, u1, u2, a, b, hx⟩ := h
  exact ⟨u1, u2, v1, v2, b, a, crossing_symm hx⟩

theorem mem_swap {A B : Polyline} {intrs : List PlineIntersect} (hmem : ∀ y, y ∈ intrs ↔ CrossAt A B y) :
    ∀ y, y ∈ intrs.map swapI ↔ CrossAt B A y := by
  intro y
  rw [List.mem_map]
  constructor
  · rintro ⟨z, hz, rfl⟩
    exact crossAt_swap ((hmem z).1 hz)
  · intro h
    exact ⟨swapI y, (hmem _).2 (crossAt_swap h), rfl⟩

/-- The cut of the first polyline. -/
def cut1 (y : PlineIntersect) : Cut := ⟨y.sIndex1, y.pos, false⟩

theorem cutsOfFirst_nil (intrs : List PlineIntersect) : cutsOfFirst intrs [] [] = intrs.map cut1 := by
  unfold cutsOfFirst
  simp [cut1]

theorem cutsOfSecond_nil (intrs : List PlineIntersect) : cutsOfSecond intrs [] = (intrs.map swapI).map cut1 := by
  unfold cutsOfSecond
  simp [cut1, swapI]

/-! ### Crossings -/

section
variable {A B : Polyline} {intrs : List PlineIntersect}

theorem crossing_pos {y y' : PlineIntersect} (h : CrossAt A B y) (h' : CrossAt A B y')
    (h1 : y.sIndex1 = y'.sIndex1) (h2 : y.sIndex2 = y'.sIndex2) : y = y' := by
  obtain ⟨v1, v2, u1, u2, a, b, hx⟩ := h
  obtain ⟨v1', v2', u1', u2', a', b', hx'⟩ := h'
  rw [← h1] at a'
  rw [← h2] at b'
  obtain ⟨rfl, rfl⟩ := isSeg_inj a a'
  obtain ⟨rfl, rfl⟩ := isSeg_inj b b'
  obtain ⟨s, -, -, hs⟩ := hx'.first
  obtain ⟨t, -, -, ht⟩ := hx'.second
  have := hx.only (hs.symm.trans ht)
  rw [← hs] at this
  cases y; cases y'
  simp_all

theorem crossing_separate (hg : GeneralPosition A B) {y y' : PlineIntersect} (h : CrossAt A B y)
    (h' : CrossAt A B y') (hne : y ≠ y') : ¬ Near (3 / 10 ^ 4) y.pos y'.pos := by
  obtain ⟨v1, v2, u1, u2, a, b, hx⟩ := id h
  obtain ⟨v1', v2', u1', u2', a', b', hx'⟩ := id h'
  refine hg.separate _ _ _ _ _ _ _ _ _ _ _ _ _ _ a b a' b' hx hx' ?_
  intro e
  rw [Prod.mk.injEq] at e
  exact hne (crossing_pos h h' e.1 e.2)

theorem crossing_pos_inj (hg : GeneralPosition A B) {y y' : PlineIntersect} (h : CrossAt A B y)
    (h' : CrossAt A B y') (he : y.pos = y'.pos) : y = y' := by
  by_contra hne
  exact ne_of_not_near (by norm_num) (crossing_separate hg h h' hne) he

theorem crossing_cutIn {y : PlineIntersect} (h : CrossAt A B y) : CutIn A (cut1 y) := by
  obtain ⟨v1, v2, u1, u2, a, b, hx⟩ := h
  obtain ⟨s, s0, s1, hs⟩ := hx.first
  exact ⟨v1, v2, s, a, s0, s1, hs, hx.away.1, hx.away.2.1, rfl⟩

theorem cuts_sep (hg : GeneralPosition A B) (hnd : intrs.Nodup) (hmem : ∀ y, y ∈ intrs ↔ CrossAt A B y) :
    (intrs.map cut1).Pairwise fun a b => ¬ Near (1 / 10 ^ 5) a.pos b.pos := by
  rw [List.pairwise_map]
  refine List.Pairwise.imp_of_mem ?_ hnd
  intro y y' hy hy' hne h
  exact crossing_separate hg ((hmem _).1 hy) ((hmem _).1 hy') hne (near_small (by norm_num) h)

/-- The direction in which the first polygon crosses the second one: 1 from right to left. -/
def crossDet (A B : Polyline) (y : PlineIntersect) : ℝ :=
  ((ppos B (y.sIndex2 + 1)).x - (ppos B y.sIndex2).x) * ((ppos A (y.sIndex1 + 1)).y - (ppos A y.sIndex1).y) -
  ((ppos B (y.sIndex2 + 1)).y - (ppos B y.sIndex2).y) * ((ppos A (y.sIndex1 + 1)).x - (ppos A y.sIndex1).x)

def crossSign (A B : Polyline) (y : PlineIntersect) : ℤ := if 0 < crossDet A B y then 1 else -1

theorem crossDet_ne (pA : Polygon A) (pB : Polygon B) {y : PlineIntersect} (h : CrossAt A B y) :
    crossDet A B y ≠ 0 := by
  obtain ⟨v1, v2, u1, u2, a, b, hx⟩ := h
  obtain ⟨-, -, -, -, e1, e2⟩ := ppos_seg pA.closed a
  obtain ⟨-, -, -, -, e3, e4⟩ := ppos_seg pB.closed b
  unfold crossDet
  rw [e1, e2, e3, e4]
  intro h
  apply hx.det_ne
  linear_combination -h

theorem crossSign_swap (pA : Polygon A) (pB : Polygon B) {y : PlineIntersect} (h : CrossAt A B y) :
    crossSign B A (swapI y) = -crossSign A B y := by
  have h0 := crossDet_ne pA pB h
  have : crossDet B A (swapI y) = -crossDet A B y := by
    unfold crossDet swapI
    ring
  unfold crossSign
  rw [this]
  rcases lt_or_gt_of_ne h0 with h1 | h1
  · rw [if_pos (by linarith), if_neg (by linarith)]; rfl
  · rw [if_neg (by linarith), if_pos h1]

end

/-! ### The cuts of one polygon -/

theorem CutPoly.mid_per (c : CutPoly) (j : ℕ) : c.mid (j + c.N) = c.mid j := by
  unfold CutPoly.mid
  have e : j + c.N + 1 = j + 1 + c.N := by omega
  rw [e, c.K_per, c.K_per, c.T_per, c.T_per, c.P_per, show c.K (j + 1) + c.n + 1 = c.K (j + 1) + 1 + c.n by omega,
    c.P_per]
  have h1 : (c.K (j + 1) + c.n = c.K j + c.n) = (c.K (j + 1) = c.K j) := by
    apply propext; omega
  simp only [h1]

theorem CutPoly.side_mid (c : CutPoly) (Q : ℕ → V2) (m j : ℕ) : c.side Q m j = edgesW (polyEdges Q m) (c.mid j) := rfl

theorem CutPoly.side_per (c : CutPoly) (Q : ℕ → V2) (m j : ℕ) : c.side Q m (j + c.N) = c.side Q m j := by
  rw [c.side_mid, c.side_mid, c.mid_per]

section
variable {A B : Polyline} {intrs : List PlineIntersect} {cs : List Cut} {c : CutPoly}

theorem cut_at (hperm : cs.Perm (intrs.map cut1)) (hc : CutOf A cs c) (j : ℕ) :
    ∃ y ∈ intrs, c.pos j = y.pos ∧ c.K j = y.sIndex1 + A.size * (j / c.N) := by
  have hN : 0 < cs.length := by rw [← hc.N_eq]; exact c.N_pos
  have hj := Nat.mod_lt j hN
  obtain ⟨h1, h2⟩ := hc.cut j _ (List.getElem?_eq_getElem hj)
  have hm := hperm.mem_iff.1 (List.getElem_mem hj)
  rw [List.mem_map] at hm
  obtain ⟨y, hy, he⟩ := hm
  rw [← he] at h1 h2
  rw [hc.N_eq]
  exact ⟨y, hy, h2, h1⟩

theorem cut_of (hperm : cs.Perm (intrs.map cut1)) (hc : CutOf A cs c) {y : PlineIntersect} (hy : y ∈ intrs) (q : ℕ) :
    ∃ j, c.pos j = y.pos ∧ c.K j = y.sIndex1 + A.size * q := by
  have hN : 0 < cs.length := by rw [← hc.N_eq]; exact c.N_pos
  obtain ⟨j, hj, he⟩ := List.getElem_of_mem (hperm.mem_iff.2 (List.mem_map.2 ⟨y, hy, rfl⟩))
  refine ⟨j + cs.length * q, ?_⟩
  obtain ⟨h1, h2⟩ := hc.cut (j + cs.length * q) (cut1 y) (by
    rw [Nat.add_mul_mod_self_left, Nat.mod_eq_of_lt hj, List.getElem?_eq_getElem hj, he])
  rw [Nat.add_mul_div_left _ _ hN, Nat.div_eq_of_lt hj, zero_add] at h1
  exact ⟨h2, h1⟩

theorem cut_perm (hperm : cs.Perm (intrs.map cut1)) (hc : CutOf A cs c) :
    ((List.range c.N).map c.pos).Perm (intrs.map PlineIntersect.pos) := by
  have e : (List.range c.N).map c.pos = cs.map Cut.pos := by
    apply List.ext_getElem
    · simp [hc.N_eq]
    · intro i h1 h2
      simp only [List.length_map] at h2
      simp only [List.getElem_map, List.getElem_range]
      exact (hc.cut i _ (by rw [Nat.mod_eq_of_lt h2]; exact List.getElem?_eq_getElem h2)).2
  rw [e]
  have := hperm.map Cut.pos
  rw [List.map_map] at this
  exact this

variable (pA : Polygon A) (pB : Polygon B) (hg : GeneralPosition A B) (hmem : ∀ y, y ∈ intrs ↔ CrossAt A B y)
  (hperm : cs.Perm (intrs.map cut1)) (hc : CutOf A cs c)

include pA pB hg hmem in
/-- A common point of an edge of each polygon is a crossing. -/
theorem common_crossing (k : ℕ) (hA2 : 2 ≤ A.size) {i : ℕ} (hi : i < B.size) (hB2 : 2 ≤ B.size)
    {t s : ℝ} (t0 : 0 ≤ t) (t1 : t ≤ 1) (s0 : 0 ≤ s) (s1 : s ≤ 1)
    (h : lerp (ppos A k) (ppos A (k + 1)) t = lerp (ppos B i) (ppos B (i + 1)) s) :
    ∃ y ∈ intrs, y.pos = lerp (ppos A k) (ppos A (k + 1)) t ∧ y.sIndex1 = k % A.size ∧ y.sIndex2 = i := by
  have hk : k % A.size < A.size := Nat.mod_lt _ (by omega)
  have sA := closed_isSeg pA.closed hA2 hk
  have sB := closed_isSeg pB.closed hB2 hi
  obtain ⟨-, -, -, -, e3, e4⟩ := ppos_seg pB.closed sB
  have e1 : ppos A k = (vtx A (k % A.size)).pos := rfl
  have e2 : ppos A (k + 1) = (vtx A ((k % A.size + 1) % A.size)).pos := by
    unfold ppos
    rw [Nat.mod_add_mod]
  rw [e1, e2, e3, e4] at h
  rcases hg.pairs _ _ _ _ _ _ sA sB with ⟨x, hx⟩ | hx
  · refine ⟨⟨k % A.size, i, x⟩, (hmem _).2 ⟨_, _, _, _, sA, sB, hx⟩, ?_, rfl, rfl⟩
    rw [e1, e2]
    exact (hx.only h).symm
  · exact absurd h (awayFrom_off hx t0 t1 s0 s1)

include pA pB hg hmem hperm hc in
theorem cut_all (hA2 : 2 ≤ A.size) (hB2 : 2 ≤ B.size) : c.CutsAll (ppos B) B.size := by
  intro k t t0 t1 i hi ⟨s, s0, s1, hs⟩
  rw [hc.P_eq] at hs
  obtain ⟨y, hy, h1, h2, h3⟩ := common_crossing pA pB hg hmem k hA2 hi hB2 t0 t1 s0 s1 hs
  obtain ⟨j, g1, g2⟩ := cut_of hperm hc hy (k / A.size)
  have hK : c.K j = k := by
    rw [g2, h2]
    exact Nat.mod_add_div k A.size
  refine ⟨j, hK, ?_⟩
  obtain ⟨v1, v2, u1, u2, a, b, hx⟩ := (hmem y).1 hy
  obtain ⟨-, -, -, -, e1, e2⟩ := ppos_seg pA.closed a
  obtain ⟨-, -, -, -, e3, e4⟩ := ppos_seg pB.closed b
  have f1 : ppos A k = v1.pos := by
    rw [← e1, h2]; unfold ppos; rw [Nat.mod_mod]
  have f2 : ppos A (k + 1) = v2.pos := by
    rw [← e2, h2]; unfold ppos; rw [Nat.mod_add_mod]
  unfold CutPoly.pos at g1
  rw [hK, hc.P_eq, f1, f2] at g1
  rw [f1, f2] at h1
  rw [h3] at e3 e4
  rw [f1, f2, e3, e4] at hs
  exact (det_unique hx.det_ne (g1.trans (h1.trans hs)) hs).1

include pA pB hg hmem hperm hc in
/-- Where the first polygon crosses the second one, the side changes. -/
theorem cut_jump (hA2 : 2 ≤ A.size) (hB2 : 2 ≤ B.size) (j : ℕ) : ∃ y ∈ intrs, c.pos (j + 1) = y.pos ∧
    c.side (ppos B) B.size (j + 1) = c.side (ppos B) B.size j + crossSign A B y := by
  obtain ⟨y, hy, h1, h2⟩ := cut_at hperm hc (j + 1)
  refine ⟨y, hy, h1, ?_⟩
  have hcr := (hmem y).1 hy
  obtain ⟨v1, v2, u1, u2, a, b, hx⟩ := id hcr
  obtain ⟨-, -, -, -, e1, e2⟩ := ppos_seg pA.closed a
  obtain ⟨i1, -, -, -, e3, e4⟩ := ppos_seg pB.closed b
  obtain ⟨s, s0, s1, hs⟩ := hx.second
  have hQ : ppos B B.size = ppos B 0 := by
    have := ppos_per B 0
    rwa [zero_add] at this
  have f1 : ppos A (c.K (j + 1)) = ppos A y.sIndex1 := by
    rw [h2]; unfold ppos; rw [Nat.add_mul_mod_self_left]
  have f2 : ppos A (c.K (j + 1) + 1) = ppos A (y.sIndex1 + 1) := by
    rw [h2, show y.sIndex1 + A.size * ((j + 1) / c.N) + 1 = y.sIndex1 + 1 + A.size * ((j + 1) / c.N) by omega]
    unfold ppos; rw [Nat.add_mul_mod_self_left]
  refine CutPoly.side_jump hQ (cut_all pA pB hg hmem hperm hc hA2 hB2) i1 s0 s1 ?_ ?_ ?_ (crossDet_ne pA pB hcr)
  · rw [h1, hs, e3, e4]
  · rintro k hk hki ⟨r, r0, r1, hr⟩
    obtain ⟨s', s0', s1', hs'⟩ := hx.first
    have hk1 := (ppos_seg pA.closed a).1
    have := common_crossing pA pB hg hmem y.sIndex1 hA2 hk hB2 s0'.le s1'.le r0 r1 (by
      rw [e1, e2, ← hs', ← h1, hr])
    obtain ⟨y', hy', g1, g2, g3⟩ := this
    rw [e1, e2, ← hs'] at g1
    have := crossing_pos_inj hg ((hmem _).1 hy') hcr g1
    rw [this] at g3
    exact hki g3.symm
  · unfold crossDet
    rw [hc.P_eq, f1, f2]

include pA pB hg hmem hperm hc in
/-- The side a piece is on follows from the crossing at its start, and from the one at its end. -/
theorem cut_side (hA2 : 2 ≤ A.size) (hB2 : 2 ≤ B.size) {s : ℤ} (hs : s = 1 ∨ s = -1)
    (honce : ∀ x, ¬ OnPline B x → ∀ k, Winding B x k → k = 0 ∨ k = s) (j : ℕ) :
    (∃ y ∈ intrs, c.pos j = y.pos ∧ c.side (ppos B) B.size j = if crossSign A B y = s then s else 0) ∧
    (∃ y ∈ intrs, c.pos (j + 1) = y.pos ∧ c.side (ppos B) B.size j = if crossSign A B y = s then 0 else s) := by
  have hrange : ∀ j, c.side (ppos B) B.size j = 0 ∨ c.side (ppos B) B.size j = s := by
    intro j
    have hst := c.strict_last j (u := 1 / 2) (by norm_num) (by norm_num)
    have hoff := hst.off (cut_all pA pB hg hmem hperm hc hA2 hB2)
    have hoff' : ¬ OnPline B (c.mid j) := by
      rw [polygon_onPline pB.closed pB.lines]
      rintro ⟨-, k, hk, ho⟩
      exact hoff k hk ho
    apply honce _ hoff'
    rw [winding_iff pB.ok pB.closed hoff', polygon_getWinding pB.closed pB.lines, if_neg (by omega)]
    rfl
  have hG : ∀ y, crossSign A B y = 1 ∨ crossSign A B y = -1 := by
    intro y
    unfold crossSign
    split_ifs <;> simp
  have e : j + c.N = (j + c.N - 1) + 1 := by have := c.N_pos; omega
  constructor
  · obtain ⟨y, hy, h1, h2⟩ := cut_jump pA pB hg hmem hperm hc hA2 hB2 (j + c.N - 1)
    rw [← e, c.pos_per] at h1
    rw [← e, c.side_per] at h2
    refine ⟨y, hy, h1, ?_⟩
    have r1 := hrange j
    have r2 := hrange (j + c.N - 1)
    have r3 := hG y
    split_ifs <;> omega
  · obtain ⟨y, hy, h1, h2⟩ := cut_jump pA pB hg hmem hperm hc hA2 hB2 j
    refine ⟨y, hy, h1, ?_⟩
    have r1 := hrange j
    have r2 := hrange (j + 1)
    have r3 := hG y
    split_ifs <;> omega

end

end
end Cavc

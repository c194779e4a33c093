import Verif.Proofs.SidesMul
import Verif.Proofs.SimplePoly

/-! The edges of the pieces of a polygon that does not meet itself: they do not meet either. -/
namespace Cavc
open Spec
open scoped Classical
noncomputable section

/-- Two edges have at most a point in common in which one ends and the other one starts. -/
def Planar (e f : V2 × V2) : Prop :=
  ∀ z, OnLine e.1 e.2 z → OnLine f.1 f.2 z → (z = e.2 ∧ z = f.1) ∨ (z = e.1 ∧ z = f.2)

theorem Planar.symm {e f : V2 × V2} (h : Planar e f) : Planar f e := by
  intro z h1 h2
  rcases h z h2 h1 with q | q
  · exact Or.inr ⟨q.2, q.1⟩
  · exact Or.inl ⟨q.2, q.1⟩

instance planar_symm : Std.Symm Planar := ⟨fun _ _ => Planar.symm⟩

theorem onLine_swap {a b z : V2} (h : OnLine a b z) : OnLine b a z := by
  obtain ⟨t, t0, t1, rfl⟩ := h
  refine ⟨1 - t, by linarith, by linarith, ?_⟩
  ext <;> simp only [lerp] <;> ring

theorem Planar.swap {e f : V2 × V2} (h : Planar e f) : Planar e.swap f.swap := by
  intro z h1 h2
  rcases h z (onLine_swap h1) (onLine_swap h2) with q | q
  · exact Or.inr ⟨q.1, q.2⟩
  · exact Or.inl ⟨q.1, q.2⟩

namespace CutPoly
variable (c : CutPoly)

/-- The parts of edges that piece `j` is made of: the edge and the parameters of its ends. -/
def subs (j : ℕ) : List (ℕ × ℝ × ℝ) :=
  if c.K (j + 1) = c.K j then [(c.K j, c.T j, c.T (j + 1))]
  else (c.K j, c.T j, 1) :: (List.range (c.K (j + 1) - c.K j - 1)).map (fun i => (c.K j + 1 + i, (0 : ℝ), (1 : ℝ))) ++
    [(c.K (j + 1), 0, c.T (j + 1))]

def sub (x : ℕ × ℝ × ℝ) : V2 × V2 :=
  (lerp (c.P x.1) (c.P (x.1 + 1)) x.2.1, lerp (c.P x.1) (c.P (x.1 + 1)) x.2.2)

theorem piece_subs (j : ℕ) : pathEdges (c.piece j) = (c.subs j).map c.sub := by
  unfold piece subs
  by_cases h : c.K (j + 1) = c.K j
  · rw [if_pos h, if_pos h, pathEdges_cons, pathEdges_single]
    simp only [List.map_cons, List.map_nil, sub, pos, h]
  · rw [if_neg h, if_neg h]
    obtain ⟨m, hm⟩ : ∃ m, c.K (j + 1) = c.K j + (m + 1) :=
      ⟨c.K (j + 1) - c.K j - 1, by have := c.K_le j; omega⟩
    rw [show c.K (j + 1) - c.K j = m + 1 by omega, Nat.add_sub_cancel]
    have hl : (List.range (m + 1)).map (fun i => c.P (c.K j + 1 + i)) =
        c.P (c.K j + 1) :: (List.range m).map (fun i => c.P (c.K j + 1 + (i + 1))) := by
      rw [List.range_succ_eq_map, List.map_cons, List.map_map]
      rfl
    have hl' : (List.range (m + 1)).map (fun i => c.P (c.K j + 1 + i)) =
        (List.range m).map (fun i => c.P (c.K j + 1 + i)) ++ [c.P (c.K (j + 1))] := by
      rw [List.range_succ, List.map_append]
      simp only [List.map_cons, List.map_nil]
      rw [show c.K j + 1 + m = c.K (j + 1) by omega]
    have e1 : pathEdges (c.pos j :: (List.range (m + 1)).map (fun i => c.P (c.K j + 1 + i)) ++ [c.pos (j + 1)]) =
        (c.pos j, c.P (c.K j + 1)) :: (List.range m).map (fun k => (c.P (c.K j + 1 + k), c.P (c.K j + 1 + (k + 1)))) ++
          [(c.P (c.K (j + 1)), c.pos (j + 1))] := by
      have := pathEdges_map (fun i => c.P (c.K j + 1 + i)) m
      rw [← this, List.cons_append]
      nth_rewrite 1 [hl]
      rw [List.cons_append, pathEdges_cons, ← List.cons_append, ← hl]
      rw [hl', List.append_assoc, List.singleton_append, pathEdges_append]
      rfl
    rw [e1]
    simp only [List.map_append, List.map_cons, List.map_nil, List.map_map, sub, pos, lerp_zero, lerp_one]
    congr 2
    apply List.map_congr_left
    intro i _
    simp only [Function.comp_apply, sub, lerp_zero, lerp_one]
    rfl

/-- The first part of an edge comes before the second one. -/
def Bef (x y : ℕ × ℝ × ℝ) : Prop := x.1 < y.1 ∨ (x.1 = y.1 ∧ x.2.2 ≤ y.2.1)

theorem subs_spec {j : ℕ} {x : ℕ × ℝ × ℝ} (hx : x ∈ c.subs j) : 0 ≤ x.2.1 ∧ x.2.1 < x.2.2 ∧ x.2.2 ≤ 1 ∧
    (c.K j < x.1 ∨ (c.K j = x.1 ∧ c.T j ≤ x.2.1)) ∧ (x.1 < c.K (j + 1) ∨ (x.1 = c.K (j + 1) ∧ x.2.2 ≤ c.T (j + 1))) := by
  have q0 := c.T_pos j
  have q1 := c.T_lt j
  have r0 := c.T_pos (j + 1)
  have r1 := c.T_lt (j + 1)
  have hle := c.K_le j
  unfold subs at hx
  by_cases h : c.K (j + 1) = c.K j
  · have hT : c.T j < c.T (j + 1) := by
      rcases c.inc j with h' | h'
      · omega
      · exact h'.2
    rw [if_pos h, List.mem_singleton] at hx
    subst hx
    exact ⟨q0.le, hT, r1.le, Or.inr ⟨rfl, le_rfl⟩, Or.inr ⟨h.symm, le_rfl⟩⟩
  · rw [if_neg h] at hx
    simp only [List.cons_append, List.mem_cons, List.mem_append, List.mem_map, List.mem_range,
      List.not_mem_nil, or_false] at hx
    rcases hx with rfl | ⟨i, hi, rfl⟩ | rfl
    · exact ⟨q0.le, q1, le_rfl, Or.inr ⟨rfl, le_rfl⟩, Or.inl (by simp only; omega)⟩
    · exact ⟨le_rfl, zero_lt_one, le_rfl, Or.inl (by simp only; omega), Or.inl (by simp only; omega)⟩
    · exact ⟨le_rfl, r0, r1.le, Or.inl (by simp only; omega), Or.inr ⟨rfl, le_rfl⟩⟩

theorem subs_pairwise (j : ℕ) : (c.subs j).Pairwise Bef := by
  have hle := c.K_le j
  unfold subs
  by_cases h : c.K (j + 1) = c.K j
  · rw [if_pos h]; exact List.pairwise_singleton _ _
  · rw [if_neg h, List.cons_append, List.pairwise_cons, List.pairwise_append]
    refine ⟨?_, ?_, List.pairwise_singleton _ _, ?_⟩
    · intro x hx
      simp only [List.mem_append, List.mem_map, List.mem_range, List.mem_singleton] at hx
      rcases hx with ⟨i, hi, rfl⟩ | rfl
      · left; simp only; omega
      · left; simp only; omega
    · rw [List.pairwise_map]
      refine List.Pairwise.imp ?_ List.pairwise_lt_range
      intro a b hab
      left; simp only; omega
    · intro x hx y hy
      simp only [List.mem_map, List.mem_range, List.mem_singleton] at hx hy
      obtain ⟨i, hi, rfl⟩ := hx
      subst hy
      left; simp only; omega

/-- All parts of edges. -/
def allSubs : List (ℕ × ℝ × ℝ) := ((List.range c.N).map c.subs).flatten

theorem edges_subs : c.edges = c.allSubs.map c.sub := by
  unfold edges allSubs
  rw [List.map_flatten, List.map_map]
  congr 1
  apply List.map_congr_left
  intro j _
  exact c.piece_subs j

theorem allSubs_pairwise : c.allSubs.Pairwise Bef := by
  unfold allSubs
  rw [List.pairwise_flatten]
  refine ⟨?_, ?_⟩
  · intro l hl
    obtain ⟨j, -, rfl⟩ := List.mem_map.1 hl
    exact c.subs_pairwise j
  · rw [List.pairwise_map]
    refine List.Pairwise.imp ?_ List.pairwise_lt_range
    intro i j hij x hx y hy
    obtain ⟨-, -, -, -, h1⟩ := c.subs_spec hx
    obtain ⟨-, -, -, h2, -⟩ := c.subs_spec hy
    unfold Bef
    rcases c.mono (show i + 1 ≤ j by omega) with h | h <;> rcases h1 with h1 | h1 <;> rcases h2 with h2 | h2
    · left; omega
    · left; omega
    · left; omega
    · left; omega
    · left; omega
    · left; omega
    · left; omega
    · right; exact ⟨by omega, by linarith [h.2, h1.2, h2.2]⟩

theorem allSubs_spec {x : ℕ × ℝ × ℝ} (hx : x ∈ c.allSubs) : 0 ≤ x.2.1 ∧ x.2.1 < x.2.2 ∧ x.2.2 ≤ 1 ∧
    (c.K 0 < x.1 ∨ (c.K 0 = x.1 ∧ c.T 0 ≤ x.2.1)) ∧ (x.1 < c.K 0 + c.n ∨ (x.1 = c.K 0 + c.n ∧ x.2.2 ≤ c.T 0)) := by
  unfold allSubs at hx
  obtain ⟨l, hl, hx⟩ := List.mem_flatten.1 hx
  obtain ⟨j, hj, rfl⟩ := List.mem_map.1 hl
  rw [List.mem_range] at hj
  obtain ⟨h1, h2, h3, h4, h5⟩ := c.subs_spec hx
  have hN := c.K_per 0
  have hT := c.T_per 0
  rw [zero_add] at hN hT
  refine ⟨h1, h2, h3, ?_, ?_⟩
  · rcases c.mono (Nat.zero_le j) with h | h <;> rcases h4 with h4 | h4
    · left; omega
    · left; omega
    · left; omega
    · right; exact ⟨by omega, by linarith [h.2, h4.2]⟩
  · rcases c.mono (show j + 1 ≤ c.N by omega) with h | h <;> rcases h5 with h5 | h5
    · left; omega
    · left; omega
    · left; omega
    · right; exact ⟨by omega, by linarith [h.2, h5.2]⟩

end CutPoly

theorem lerp_inj {a b : V2} (hab : a ≠ b) {s t : ℝ} (h : lerp a b s = lerp a b t) : s = t := by
  by_contra hne
  apply hab
  have ex := congrArg V2.x h
  have ey := congrArg V2.y h
  simp only [lerp] at ex ey
  have h0 : s - t ≠ 0 := sub_ne_zero.2 hne
  ext
  · have : (s - t) * (b.x - a.x) = 0 := by linarith
    rcases mul_eq_zero.1 this with q | q
    · exact absurd q h0
    · linarith
  · have : (s - t) * (b.y - a.y) = 0 := by linarith
    rcases mul_eq_zero.1 this with q | q
    · exact absurd q h0
    · linarith

theorem onLine_sub {a b z : V2} {u v : ℝ} (huv : u < v) (h : OnLine (lerp a b u) (lerp a b v) z) :
    ∃ t, u ≤ t ∧ t ≤ v ∧ z = lerp a b t := by
  obtain ⟨s, s0, s1, rfl⟩ := h
  refine ⟨u + s * (v - u), by nlinarith, by nlinarith, ?_⟩
  ext <;> simp only [lerp] <;> ring

theorem SimpleP.mod {P : ℕ → V2} {n : ℕ} (hs : SimpleP P n) (k : ℕ) : P k = P (k % n) ∧ P (k + 1) = P (k % n + 1) := by
  have key : ∀ q k, P (k + n * q) = P k := by
    intro q
    induction q with
    | zero => intro k; rfl
    | succ q ih =>
      intro k
      rw [Nat.mul_succ, ← Nat.add_assoc, hs.per, ih]
  have e := Nat.mod_add_div k n
  constructor
  · nth_rewrite 1 [← e]; exact key _ _
  · nth_rewrite 1 [← e]
    rw [show k % n + n * (k / n) + 1 = (k % n + 1) + n * (k / n) by omega]
    exact key _ _

/-- The edges of the pieces do not meet. -/
theorem CutPoly.edges_planar (c : CutPoly) (hs : SimpleP c.P c.n) : c.edges.Pairwise Planar := by
  rw [c.edges_subs, List.pairwise_map]
  refine List.Pairwise.imp_of_mem ?_ c.allSubs_pairwise
  intro x y hx hy hxy z hzx hzy
  obtain ⟨x1, x2, x3, x4, x5⟩ := c.allSubs_spec hx
  obtain ⟨y1, y2, y3, y4, y5⟩ := c.allSubs_spec hy
  obtain ⟨t, t1, t2, ht⟩ := onLine_sub x2 hzx
  obtain ⟨s, s1, s2, hs'⟩ := onLine_sub y2 hzy
  unfold CutPoly.sub
  simp only
  have hn := hs.pos
  rcases hxy with hlt | ⟨heq, hle⟩
  · by_cases hfull : y.1 = x.1 + c.n
    · -- once around
      have ex : x.1 = c.K 0 := by omega
      have ey : y.1 = c.K 0 + c.n := by omega
      have a1 : c.T 0 ≤ x.2.1 := by
        rcases x4 with q | q
        · omega
        · exact q.2
      have a2 : y.2.2 ≤ c.T 0 := by
        rcases y5 with q | q
        · omega
        · exact q.2
      rw [ey, c.P_per, show c.K 0 + c.n + 1 = c.K 0 + 1 + c.n by omega, c.P_per, ← ex] at hs'
      have := lerp_inj (hs.ne x.1) (ht.symm.trans hs')
      right
      constructor
      · rw [ht]; congr 1; linarith
      · rw [ey, c.P_per, show c.K 0 + c.n + 1 = c.K 0 + 1 + c.n by omega, c.P_per, ← ex, hs']; congr 1; linarith
    · have hlt' : y.1 < x.1 + c.n := by
        rcases x4 with q | q <;> rcases y5 with q' | q' <;> omega
      obtain ⟨m1, m2⟩ := hs.mod x.1
      obtain ⟨m3, m4⟩ := hs.mod y.1
      have hne : x.1 % c.n ≠ y.1 % c.n := by
        intro h
        have hd : c.n ∣ y.1 - x.1 := (Nat.modEq_iff_dvd' hlt.le).1 h
        have := Nat.le_of_dvd (by omega) hd
        omega
      have hap := hs.apart (x.1 % c.n) (y.1 % c.n) z (Nat.mod_lt _ hn) (Nat.mod_lt _ hn) hne
        (by rw [← m1, ← m2]; exact ⟨t, by linarith, by linarith, ht⟩)
        (by rw [← m3, ← m4]; exact ⟨s, by linarith, by linarith, hs'⟩)
      rcases hap with ⟨e, hz⟩ | ⟨e, hz⟩
      · left
        have hz1 : z = c.P (x.1 + 1) := by
          rw [hz, e, Nat.mod_add_mod, ← (hs.mod (x.1 + 1)).1]
        have hz2 : z = c.P y.1 := by rw [hz, ← m3]
        have et : t = 1 := by
          apply lerp_inj (hs.ne x.1)
          rw [← ht, lerp_one, hz1]
        have es : s = 0 := by
          apply lerp_inj (hs.ne y.1)
          rw [← hs', lerp_zero, hz2]
        constructor
        · rw [show x.2.2 = 1 by linarith, lerp_one, hz1]
        · rw [show y.2.1 = 0 by linarith, lerp_zero, hz2]
      · right
        have hz1 : z = c.P (y.1 + 1) := by
          rw [hz, e, Nat.mod_add_mod, ← (hs.mod (y.1 + 1)).1]
        have hz2 : z = c.P x.1 := by rw [hz, ← m1]
        have et : t = 0 := by
          apply lerp_inj (hs.ne x.1)
          rw [← ht, lerp_zero, hz2]
        have es : s = 1 := by
          apply lerp_inj (hs.ne y.1)
          rw [← hs', lerp_one, hz1]
        constructor
        · rw [show x.2.1 = 0 by linarith, lerp_zero, hz2]
        · rw [show y.2.2 = 1 by linarith, lerp_one, hz1]
  · left
    rw [← heq] at hs'
    have := lerp_inj (hs.ne x.1) (ht.symm.trans hs')
    constructor
    · rw [ht]; congr 1; linarith
    · rw [hs', ← heq]; congr 1; linarith

end
end Cavc

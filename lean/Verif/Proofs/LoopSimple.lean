import Verif.Proofs.SubEdges
import Verif.Proofs.PolyPieces

/-! Closed polygons whose edges do not meet do not meet themselves or each other. -/
namespace Cavc
open Spec
open scoped Classical
noncomputable section

/-- Edges that start at the same point are not in one plane picture. -/
theorem Planar.not_same_start {e f : V2 × V2} (h : Planar e f) (he : e.1 ≠ e.2) (hf : f.1 ≠ f.2) : e.1 ≠ f.1 := by
  intro h1
  rcases h e.1 (onLine_start _ _) (h1 ▸ onLine_start f.1 f.2) with q | q
  · exact he q.1
  · exact hf (h1 ▸ q.2)

theorem simpleP_of_planar {P : ℕ → V2} {n : ℕ} (h2 : 0 < n) (hper : ∀ k, P (k + n) = P k)
    (hd : ∀ e ∈ polyEdges P n, e.1 ≠ e.2) (hp : (polyEdges P n).Pairwise Planar) : SimpleP P n := by
  have hd' : ∀ k < n, P k ≠ P (k + 1) := fun k hk =>
    hd (P k, P (k + 1)) (List.mem_map.2 ⟨k, List.mem_range.2 hk, rfl⟩)
  have hp' : ∀ j k, j < k → k < n → Planar (P j, P (j + 1)) (P k, P (k + 1)) := by
    intro j k hjk hk
    unfold polyEdges at hp
    rw [List.pairwise_map] at hp
    have := List.pairwise_iff_getElem.1 hp j k (by simpa using hjk.trans hk) (by simpa using hk) hjk
    simpa using this
  have hst : ∀ j k, j < n → k < n → P j = P k → j = k := by
    intro j k hj hk he
    rcases lt_trichotomy j k with h | h | h
    · exact absurd he ((hp' j k h hk).not_same_start (hd' j hj) (hd' k hk))
    · exact h
    · exact absurd he.symm ((hp' k j h hj).not_same_start (hd' k hk) (hd' j hj))
  have hn0 : P n = P 0 := by have := hper 0; rwa [zero_add] at this
  have hnext : ∀ j < n, P (j + 1) = P ((j + 1) % n) := by
    intro j hj
    rcases Nat.lt_or_ge (j + 1) n with h | h
    · rw [Nat.mod_eq_of_lt h]
    · have : j + 1 = n := by omega
      rw [this, Nat.mod_self, hn0]
  have key : ∀ j k z, j < k → k < n → OnLine (P j) (P (j + 1)) z → OnLine (P k) (P (k + 1)) z →
      (k = (j + 1) % n ∧ z = P k) ∨ (j = (k + 1) % n ∧ z = P j) := by
    intro j k z hjk hk h1 h3
    rcases hp' j k hjk hk z h1 h3 with ⟨q1, q2⟩ | ⟨q1, q2⟩
    · left
      simp only at q1 q2
      refine ⟨?_, q2⟩
      apply hst _ _ hk (Nat.mod_lt _ h2)
      rw [← hnext j (by omega), ← q1, ← q2]
    · right
      simp only at q1 q2
      refine ⟨?_, q1⟩
      apply hst _ _ (by omega) (Nat.mod_lt _ h2)
      rw [← hnext k hk, ← q1, ← q2]
  refine ⟨⟨h2, hper, ?_⟩, ?_⟩
  · have : ∀ q k, k < n → P (k + n * q) ≠ P (k + n * q + 1) := by
      intro q
      induction q with
      | zero => intro k hk; exact hd' k hk
      | succ q ih =>
        intro k hk
        rw [Nat.mul_succ, ← Nat.add_assoc, hper, show k + n * q + n + 1 = k + n * q + 1 + n by omega, hper]
        exact ih k hk
    intro k
    have := this (k / n) (k % n) (Nat.mod_lt _ h2)
    rwa [Nat.mod_add_div] at this
  · intro j k z hj hk hne h1 h3
    rcases Nat.lt_or_gt_of_ne hne with h | h
    · exact key j k z h hk h1 h3
    · rcases key k j z h hj h3 h1 with q | q
      · exact Or.inr q
      · exact Or.inl q

/-- Two closed polygons with such edges have no common point. -/
theorem disjoint_of_planar {P Q : ℕ → V2} {n m : ℕ} (hn : 0 < n) (hm : 0 < m) (hP : P n = P 0) (hQ : Q m = Q 0)
    (hdP : ∀ e ∈ polyEdges P n, e.1 ≠ e.2) (hdQ : ∀ e ∈ polyEdges Q m, e.1 ≠ e.2)
    (h : ∀ e ∈ polyEdges P n, ∀ f ∈ polyEdges Q m, Planar e f) (z : V2) : OffP P n z ∨ OffP Q m z := by
  by_contra hc
  push Not at hc
  obtain ⟨hc1, hc2⟩ := hc
  unfold OffP at hc1 hc2
  push Not at hc1 hc2
  obtain ⟨j, hj, oj⟩ := hc1
  obtain ⟨k, hk, ok⟩ := hc2
  have hmP : ∀ {j}, j < n → (P j, P (j + 1)) ∈ polyEdges P n := fun hj =>
    List.mem_map.2 ⟨_, List.mem_range.2 hj, rfl⟩
  have hmQ : ∀ {j}, j < m → (Q j, Q (j + 1)) ∈ polyEdges Q m := fun hj =>
    List.mem_map.2 ⟨_, List.mem_range.2 hj, rfl⟩
  have hst : ∀ j < n, ∀ k < m, P j ≠ Q k := fun j hj k hk =>
    (h _ (hmP hj) _ (hmQ hk)).not_same_start (hdP _ (hmP hj)) (hdQ _ (hmQ hk))
  rcases h _ (hmP hj) _ (hmQ hk) z oj ok with ⟨q1, q2⟩ | ⟨q1, q2⟩
  · simp only at q1 q2
    rcases Nat.lt_or_ge (j + 1) n with h' | h'
    · exact hst _ h' k hk (q1.symm.trans q2)
    · have : j + 1 = n := by omega
      rw [this, hP] at q1
      exact hst 0 hn k hk (q1.symm.trans q2)
  · simp only at q1 q2
    rcases Nat.lt_or_ge (k + 1) m with h' | h'
    · exact hst j hj _ h' (q1.symm.trans q2)
    · have : k + 1 = m := by omega
      rw [this, hQ] at q2
      exact hst j hj 0 hm (q1.symm.trans q2)

/-- All loops do not meet themselves or each other. -/
theorem loops_simple {res : List Polyline} (hsz : ∀ q ∈ res, 2 ≤ q.size)
    (hd : ∀ e ∈ (res.map fun q => polyEdges (ppos q) q.size).flatten, e.1 ≠ e.2)
    (hp : (res.map fun q => polyEdges (ppos q) q.size).flatten.Pairwise Planar) :
    (∀ q ∈ res, SimpleP (ppos q) q.size) ∧
    res.Pairwise fun q q' => ∀ z, OffP (ppos q) q.size z ∨ OffP (ppos q') q'.size z := by
  rw [List.pairwise_flatten] at hp
  obtain ⟨h1, h2⟩ := hp
  have hdq : ∀ q ∈ res, ∀ e ∈ polyEdges (ppos q) q.size, e.1 ≠ e.2 := fun q hq e he =>
    hd e (List.mem_flatten.2 ⟨_, List.mem_map.2 ⟨q, hq, rfl⟩, he⟩)
  have hper : ∀ q : Polyline, ppos q q.size = ppos q 0 := by
    intro q
    have := ppos_per q 0
    rwa [zero_add] at this
  constructor
  · intro q hq
    have := hsz q hq
    exact simpleP_of_planar (by omega) (ppos_per q) (hdq q hq) (h1 _ (List.mem_map.2 ⟨q, hq, rfl⟩))
  · rw [List.pairwise_map] at h2
    refine List.Pairwise.imp_of_mem ?_ h2
    intro q q' hq hq' h z
    have e1 := hsz q hq
    have e2 := hsz q' hq'
    exact disjoint_of_planar (by omega) (by omega) (hper q) (hper q') (hdq q hq) (hdq q' hq') h z

end
end Cavc

import Verif.Proofs.SIndexBuild

/-! How many boxes `finish` writes, whatever the allocated size is. -/
namespace Cavc
variable {α : Type} [LinearOrder α]

theorem nodeScan_count (boxes : List (Box α)) (endPos : ℕ) (hend : endPos ≤ boxes.length)
    (j pos : ℕ) (b : Box α) (hp : pos ≤ endPos) :
    ∃ b', nodeScan boxes endPos j pos b = .ok (b', min (pos + j) endPos) := by
  induction j generalizing pos b with
  | zero => exact ⟨b, by simp [nodeScan, hp]⟩
  | succ j ih =>
    unfold nodeScan
    by_cases h : pos < endPos
    · rw [if_pos h, getM_of_lt (by omega), ok_bind]
      obtain ⟨b', hb⟩ := ih (pos + 1) (b.grow (boxes[pos]'(by omega))) (by omega)
      exact ⟨b', by rw [hb]; congr 3; omega⟩
    · rw [if_neg h]
      exact ⟨b, by congr 2; omega⟩

/-- `s'` differs from `s` only in the two arrays. -/
structure SameShape (s s' : SIndex α) : Prop where
  nodeSize : s'.nodeSize = s.nodeSize
  numItems : s'.numItems = s.numItems
  levelBounds : s'.levelBounds = s.levelBounds
  numNodes : s'.numNodes = s.numNodes

omit [LinearOrder α] in
theorem SameShape.refl (s : SIndex α) : SameShape s s := ⟨rfl, rfl, rfl, rfl⟩

omit [LinearOrder α] in
theorem SameShape.trans {s s' s'' : SIndex α} (h : SameShape s s') (h' : SameShape s' s'') :
    SameShape s s'' :=
  ⟨h'.nodeSize.trans h.nodeSize, h'.numItems.trans h.numItems, h'.levelBounds.trans h.levelBounds,
    h'.numNodes.trans h.numNodes⟩

theorem levelLoop_count (inf ninf : α) (endPos fuel : ℕ) (s : SIndex α) (pos : ℕ)
    (hN : 1 ≤ s.nodeSize) (hend : endPos ≤ s.boxes.length) (hp : pos ≤ endPos)
    (hfuel : endPos - pos < fuel) (hle : s.boxes.length ≤ s.numNodes) :
    levelLoop inf ninf endPos fuel s pos = .error .outOfBounds ∨
    ∃ s', levelLoop inf ninf endPos fuel s pos = .ok (s', endPos) ∧ SameShape s s' ∧
      s'.boxes.length = s.boxes.length + (endPos - pos + s.nodeSize - 1) / s.nodeSize ∧
      s'.boxes.length ≤ s'.numNodes := by
  induction fuel generalizing s pos with
  | zero => omega
  | succ f ih =>
    unfold levelLoop
    by_cases h : pos < endPos
    · rw [if_pos h]
      obtain ⟨b', hb⟩ := nodeScan_count s.boxes endPos hend s.nodeSize pos
        { minX := inf, minY := inf, maxX := ninf, maxY := ninf } hp
      rw [hb, ok_bind]
      simp only
      unfold SIndex.append
      by_cases hroom : s.boxes.length < s.numNodes
      · rw [if_pos hroom, ok_bind]
        rcases ih { s with boxes := s.boxes ++ [b'], indices := s.indices ++ [pos] }
          (min (pos + s.nodeSize) endPos) hN (by simp; omega) (by omega) (by omega)
          (by simp; omega) with h1 | ⟨s', h1, h2, h3, h4⟩
        · exact Or.inl h1
        · refine Or.inr ⟨s', h1, ⟨h2.nodeSize, h2.numItems, h2.levelBounds, h2.numNodes⟩, ?_, h4⟩
          rw [h3]
          simp only [List.length_append, List.length_cons, List.length_nil, Nat.zero_add]
          have : (endPos - pos + s.nodeSize - 1) / s.nodeSize =
              (endPos - min (pos + s.nodeSize) endPos + s.nodeSize - 1) / s.nodeSize + 1 := by
            by_cases hc : pos + s.nodeSize ≤ endPos
            · rw [min_eq_left hc, ← Nat.add_div_right _ (by omega)]
              congr 1; omega
            · rw [min_eq_right (by omega)]
              rw [show endPos - endPos + s.nodeSize - 1 = s.nodeSize - 1 by omega,
                Nat.div_eq_of_lt (show s.nodeSize - 1 < s.nodeSize by omega)]
              exact Nat.div_eq_of_lt_le (by omega) (by omega)
          omega
      · rw [if_neg hroom]; exact Or.inl rfl
    · rw [if_neg h]
      refine Or.inr ⟨s, by congr 2; omega, SameShape.refl s, ?_, hle⟩
      rw [Nat.div_eq_of_lt (by omega)]; omega

end Cavc

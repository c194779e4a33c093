import Verif.Proofs.ArcSide

/-! The kept parts of a closed polyline with arcs that crosses another one. -/
namespace Cavc
open Spec
open scoped Classical Topology
noncomputable section

variable {A B : Polyline} {intrs : List PlineIntersect}

/-- Which crossings a kept part of the first polyline starts at. -/
def ArcStarts (A B : Polyline) (intrs : List PlineIntersect) (s : ℤ) (inside : Bool) (z : V2) : Prop :=
  ∃ y ∈ intrs, y.pos = z ∧ (arcSign A B y = s ↔ inside = true)

/-- How far the parts turn, each one times the winding number of the other polyline along it. -/
def arcSided (A : Polyline) (N : ℕ) (g : ℕ → ℝ) (β : ℕ → ℤ) (x : V2) : ℝ :=
  ∑ i ∈ Finset.range N, (β i : ℝ) * turnPath A x (g i) (g (i + 1))

/-- All parts together. -/
theorem sum_turnPath {p : Polyline} {cs : List Cut} {T : Cut → ℝ} {g : ℕ → ℝ} (h : CutPos p cs T g) (hne : cs ≠ [])
    {x : V2} (hx : ∀ g, 0 ≤ g → trace p g ≠ x) :
    ∑ i ∈ Finset.range cs.length, turnPath p x (g i) (g (i + 1)) = turnAll p x := by
  have g0 := h.nonneg hne
  have key : ∀ n ≤ cs.length, ∑ i ∈ Finset.range n, turnPath p x (g i) (g (i + 1)) = turnPath p x (g 0) (g n) := by
    intro n
    induction n with
    | zero =>
      intro _
      have := turnPath_add (p := p) (x := x) (a := g 0) (b := g 0) (c := g 0) le_rfl le_rfl
        fun y hy => hx y (by linarith [hy.1])
      simp only [Finset.range_zero, Finset.sum_empty]
      linarith
    | succ n ih =>
      intro hn
      rw [Finset.sum_range_succ, ih (by omega)]
      exact turnPath_add (h.le (Nat.zero_le _) (by omega)) (h.mono n (by omega)).le
        fun y hy => hx y (by linarith [hy.1])
  rw [key _ le_rfl, h.around]
  exact turnPath_around g0.le (h.lt_size (List.length_pos_iff.2 hne)).le hx

/-- The kept parts of one of the polylines. -/
structure ArcKept (A B : Polyline) (intrs : List PlineIntersect) (s : ℤ) (inside : Bool) (cs : List Cut) (T : Cut → ℝ)
    (g : ℕ → ℝ) (β : ℕ → ℤ) (r : List Polyline) : Prop extends ArcSides A B intrs s cs T g β where
  some : cs ≠ []
  two : ∀ q ∈ r, 2 ≤ q.vertexes.length
  head : ∀ q ∈ r, (pts q).head? = .some (startOf q)
  last : ∀ q ∈ r, (pts q).getLast? = .some (endOf q)
  ne : ∀ q ∈ r, startOf q ≠ endOf q
  starts : (r.map startOf).Perm ((intrs.map PlineIntersect.pos).filter fun z => decide (ArcStarts A B intrs s inside z))
  ends : (r.map endOf).Perm ((intrs.map PlineIntersect.pos).filter fun z => !decide (ArcStarts A B intrs s inside z))
  along : ∀ q ∈ r, ∃ i < cs.length, Along A (g i) q.vertexes (g (i + 1))
  kept : ∃ (js : List ℕ) (f : ℕ → Polyline), js.Sublist (List.range cs.length) ∧ r.Perm (js.map f) ∧
    ∀ j ∈ js, Along A (g j) (f j).vertexes (g (j + 1)) ∧ (β j ≠ 0 ↔ inside = true)
  sum : ∀ x, ¬ OnPline A x → (r.map fun q => eTurns (vEdges q.vertexes) x).sum =
    if inside = true then s * arcSided A cs.length g β x else turnAll A x - s * arcSided A cs.length g β x

set_option maxHeartbeats 1000000 in
theorem arc_kept (h : ArcMeet A B intrs) (hne : intrs ≠ []) {s : ℤ} (hs : s = 1 ∨ s = -1)
    (honce : ∀ x, ¬ OnPline B x → ∀ k, Winding B x k → k = 0 ∨ k = s) {inside : Bool} {r : List Polyline}
    (hk : KeptSlices A (intrs.map cut1) (fun x => WindsAround B x ↔ inside = true) r) :
    ∃ cs T g β, ArcKept A B intrs s inside cs T g β r := by
  obtain ⟨cs, os, hperm, hal, hlen, hsl, hr⟩ := hk
  have hcne : cs ≠ [] := by
    rintro rfl
    have := hperm.length_eq
    simp at this
    exact hne (List.length_eq_zero_iff.1 this.symm)
  obtain ⟨T, g, β, hsd⟩ := arc_sides h honce hcne hperm hal
  have hg := hsd.pos
  have hcl := cleanCuts_perm hperm h.clean
  have hN : 0 < cs.length := List.length_pos_iff.2 hcne
  have hs0 : s ≠ 0 := by rcases hs with rfl | rfl <;> norm_num
  obtain ⟨keep, hkeep⟩ : ∃ keep : ℕ → Prop, ∀ i, keep i ↔ (β i ≠ 0 ↔ inside = true) := ⟨_, fun _ => Iff.rfl⟩
  -- the slices
  have hf : ∀ i, ∃ f : Polyline, i < cs.length → 2 ≤ f.vertexes.length ∧ Along A (g i) f.vertexes (g (i + 1)) ∧
      os[i]? = some (if keep i then some f else none) := by
    intro i
    by_cases hi : i < cs.length
    · obtain ⟨f, u, f1, f2, f3, f4, f5, f6⟩ := slice_arc hg h.closed.1 h.size.1 h.ok.1 hcl
        (by
          intro c hc
          obtain ⟨y, -, rfl⟩ := List.mem_map.1 (hperm.mem_iff.1 hc)
          rfl) (hsl i _ (List.getElem?_eq_getElem (by omega)))
      refine ⟨f, fun _ => ⟨f2, f3, ?_⟩⟩
      rw [List.getElem?_eq_getElem (by omega), f6]
      congr 1
      have e : (WindsAround B (trace A u) ↔ inside = true) ↔ keep i := by
        rw [hkeep]
        obtain ⟨o1, o2⟩ := hsd.off i hi u f4 f5
        have : WindsAround B (trace A u) ↔ β i ≠ 0 := by
          unfold WindsAround
          constructor
          · rintro ⟨w, hw, hw0⟩
            rw [getWinding_turnAll h.ok.2 h.closed.2 h.size.2 o1, o2] at hw
            have : w = β i := by exact_mod_cast hw
            rwa [← this]
          · intro hb
            exact ⟨β i, (getWinding_turnAll h.ok.2 h.closed.2 h.size.2 o1).2 o2.symm, hb⟩
        rw [this]
      by_cases hki : keep i
      · rw [if_pos hki, if_pos (e.2 hki)]
      · rw [if_neg hki, if_neg fun hh => hki (e.1 hh)]
    · exact ⟨Polyline.empty, fun h => absurd h hi⟩
  choose f hf using hf
  have hrp : r.Perm (((List.range cs.length).filter fun j => decide (keep j)).map f) := by
    refine hr.trans (List.Perm.of_eq ?_)
    have e1 : os = (List.range cs.length).map fun i => if keep i then some (f i) else none := by
      apply List.ext_getElem?
      intro i
      by_cases hi : i < cs.length
      · rw [(hf i hi).2.2, List.getElem?_map, List.getElem?_range hi]
        rfl
      · rw [List.getElem?_eq_none (by omega), List.getElem?_eq_none (by simp; omega)]
    rw [e1]
    generalize List.range cs.length = l
    induction l with
    | nil => rfl
    | cons j l ih =>
      by_cases hj : keep j
      · rw [List.filter_cons_of_pos (by simpa using hj), List.map_cons, if_pos hj, List.map_cons,
          List.filterMap_cons_some (by rfl), ih]
      · rw [List.filter_cons_of_neg (by simpa using hj), List.map_cons, if_neg hj,
          List.filterMap_cons_none (by rfl), ih]
  have hG : ∀ y, arcSign A B y = 1 ∨ arcSign A B y = -1 := by
    intro y
    unfold arcSign
    split_ifs <;> simp
  have hsig : ∀ i < cs.length, ∃ y ∈ intrs, y.pos = trace A (g (i + 1)) ∧
      trace A (g (i + 1)) = trace A (g ((i + 1) % cs.length)) ∧
      (β ((i + 1) % cs.length) ≠ 0 ↔ arcSign A B y = s) ∧ (β i ≠ 0 ↔ ¬ arcSign A B y = s) := by
    intro i hi
    obtain ⟨y, hy, h1, h2, h3⟩ := hsd.jump i hi
    refine ⟨y, hy, h1, h2, ?_⟩
    have r1 := hsd.range i hi
    have r2 := hsd.range _ (Nat.mod_lt (i + 1) hN)
    have r3 := hG y
    rcases hs with rfl | rfl <;> rcases r1 with r1 | r1 <;> rcases r2 with r2 | r2 <;> rcases r3 with r3 | r3 <;>
      rw [r1, r2, r3] at h3 <;> first | (exfalso; revert h3; norm_num; done) | (rw [r1, r2, r3]; norm_num)
  have hstY : ∀ {y : PlineIntersect} {z : V2}, y ∈ intrs → y.pos = z →
      (ArcStarts A B intrs s inside z ↔ (arcSign A B y = s ↔ inside = true)) := by
    intro y z hy hz
    constructor
    · rintro ⟨y', hy', h3, h4⟩
      rwa [h.pos_inj hy' hy (h3.trans hz.symm)] at h4
    · intro h'; exact ⟨y, hy, hz, h'⟩
  have hen : ∀ i < cs.length, keep i ↔ ¬ ArcStarts A B intrs s inside (trace A (g (i + 1))) := by
    intro i hi
    obtain ⟨y, hy, h1, -, -, h4⟩ := hsig i hi
    rw [hkeep, hstY hy h1, h4]
    tauto
  have hst : ∀ i < cs.length, keep i ↔ ArcStarts A B intrs s inside (trace A (g i)) := by
    intro i hi
    obtain ⟨j, hj, hji⟩ : ∃ j < cs.length, (j + 1) % cs.length = i := by
      rcases Nat.eq_zero_or_pos i with rfl | h0
      · exact ⟨cs.length - 1, by omega, by rw [Nat.sub_add_cancel hN, Nat.mod_self]⟩
      · exact ⟨i - 1, by omega, by rw [Nat.sub_add_cancel h0, Nat.mod_eq_of_lt hi]⟩
    obtain ⟨y, hy, h1, h2, h3, -⟩ := hsig j hj
    rw [hji] at h2 h3
    rw [hkeep, hstY hy (h1.trans h2), h3]
  have hkept : ∀ q ∈ r, ∃ j < cs.length, q = f j ∧ keep j := by
    intro q hq
    obtain ⟨j, hj, rfl⟩ := List.mem_map.1 (hrp.mem_iff.1 hq)
    rw [List.mem_filter, List.mem_range] at hj
    exact ⟨j, hj.1, rfl, of_decide_eq_true hj.2⟩
  have hhd : ∀ j < cs.length, (pts (f j)).head? = some (trace A (g j)) := by
    intro j hj
    obtain ⟨u, hu, hu'⟩ := (hf j hj).2.1.head
    unfold pts
    rw [List.head?_map, hu, ← hu']; rfl
  have hla : ∀ j < cs.length, (pts (f j)).getLast? = some (trace A (g (j + 1))) := by
    intro j hj
    obtain ⟨u, hu, hu'⟩ := (hf j hj).2.1.last
    unfold pts
    rw [List.getLast?_map, hu, ← hu']; rfl
  have hsO : ∀ j < cs.length, startOf (f j) = trace A (g j) := by
    intro j hj
    unfold startOf
    rw [List.headD_eq_head?_getD, hhd j hj]; rfl
  have heO : ∀ j < cs.length, endOf (f j) = trace A (g (j + 1)) := by
    intro j hj
    unfold endOf
    rw [List.getLastD_eq_getLast?, hla j hj]; rfl
  have hposs : ((List.range cs.length).map fun j => trace A (g j)).Perm (intrs.map PlineIntersect.pos) := by
    have e1 : ((List.range cs.length).map fun j => trace A (g j)) = cs.map Cut.pos := by
      apply List.ext_getElem
      · simp
      · intro j h1 h2
        simp only [List.length_map, List.length_range] at h1
        simp only [List.getElem_map, List.getElem_range]
        exact hg.trace (List.getElem?_eq_getElem h1)
    rw [e1]
    refine (hperm.map _).trans (List.Perm.of_eq ?_)
    rw [List.map_map]
    rfl
  refine ⟨cs, T, g, β, hsd, hcne, ?_, ?_, ?_, ?_, ?_, ?_, ?_, ?_, ?_⟩
  · intro q hq
    obtain ⟨j, hj, rfl, -⟩ := hkept q hq
    exact (hf j hj).1
  · intro q hq
    obtain ⟨j, hj, rfl, -⟩ := hkept q hq
    rw [hsO j hj]; exact hhd j hj
  · intro q hq
    obtain ⟨j, hj, rfl, -⟩ := hkept q hq
    rw [heO j hj]; exact hla j hj
  · intro q hq
    obtain ⟨j, hj, rfl, hkj⟩ := hkept q hq
    rw [hsO j hj, heO j hj]
    intro he
    have h1 := (hst j hj).1 hkj
    have h2 := (hen j hj).1 hkj
    rw [← he] at h2
    exact h2 h1
  · refine (hrp.map startOf).trans ?_
    rw [List.map_map]
    have e1 : ((List.range cs.length).filter fun j => decide (keep j)).map (startOf ∘ f) =
        ((List.range cs.length).filter fun j => decide (keep j)).map fun j => trace A (g j) := by
      apply List.map_congr_left
      intro j hj
      rw [List.mem_filter, List.mem_range] at hj
      exact hsO j hj.1
    rw [e1, filter_map_iff _ (fun j => trace A (g j)) _ (ArcStarts A B intrs s inside)
      fun j hj => hst j (List.mem_range.1 hj)]
    exact hposs.filter _
  · refine (hrp.map endOf).trans ?_
    rw [List.map_map]
    have e1 : ((List.range cs.length).filter fun j => decide (keep j)).map (endOf ∘ f) =
        ((List.range cs.length).filter fun j => decide (keep j)).map fun j => trace A (g (j + 1)) := by
      apply List.map_congr_left
      intro j hj
      rw [List.mem_filter, List.mem_range] at hj
      exact heO j hj.1
    rw [e1, filter_map_not _ (fun j => trace A (g (j + 1))) _ (ArcStarts A B intrs s inside)
      fun j hj => hen j (List.mem_range.1 hj)]
    refine List.Perm.filter _ ?_
    refine (range_rot (fun j => trace A (g j)) cs.length hN ?_).trans hposs
    rw [hg.around, trace_per A (hg.nonneg hcne).le]
  · intro q hq
    obtain ⟨j, hj, rfl, -⟩ := hkept q hq
    exact ⟨j, hj, (hf j hj).2.1⟩
  · refine ⟨(List.range cs.length).filter fun j => decide (keep j), f, List.filter_sublist, hrp, ?_⟩
    intro j hj
    rw [List.mem_filter, List.mem_range] at hj
    exact ⟨(hf j hj.1).2.1, (hkeep j).1 (of_decide_eq_true hj.2)⟩
  · intro x hx
    have hxt : ∀ u, 0 ≤ u → trace A u ≠ x := by
      rintro u hu rfl
      exact hx (trace_onPline h.closed.1 h.size.1 hu)
    have hturn : ∀ j < cs.length, eTurns (vEdges (f j).vertexes) x = turnPath A x (g j) (g (j + 1)) := by
      intro j hj
      refine along_turn (hf j hj).2.1 ?_ fun u hu => hxt u ?_
      · have h1 := hg.le (show j + 1 ≤ cs.length by omega) le_rfl
        rw [hg.around] at h1
        have := hg.lt_size hN
        linarith
      · have := hg.nonneg hcne
        have := hg.le (Nat.zero_le j) hj.le
        linarith [hu.1]
    rw [(hrp.map _).sum_eq, List.map_map]
    have e1 : (((List.range cs.length).filter fun j => decide (keep j)).map
        ((fun q : Polyline => eTurns (vEdges q.vertexes) x) ∘ f)) =
        ((List.range cs.length).filter fun j => decide (keep j)).map
          fun j => turnPath A x (g j) (g (j + 1)) := by
      apply List.map_congr_left
      intro j hj
      rw [List.mem_filter, List.mem_range] at hj
      exact hturn j hj.1
    rw [e1]
    have e2 : ∀ (l : List ℕ), ((l.filter fun j => decide (keep j)).map
          fun j => turnPath A x (g j) (g (j + 1))).sum =
        (l.map fun j => if keep j then turnPath A x (g j) (g (j + 1)) else 0).sum := by
      intro l
      induction l with
      | nil => rfl
      | cons j l ih =>
        rw [List.map_cons, List.sum_cons, ← ih]
        by_cases hk : keep j
        · rw [List.filter_cons_of_pos (by simpa using hk), List.map_cons, List.sum_cons, if_pos hk]
        · rw [List.filter_cons_of_neg (by simpa using hk), if_neg hk, zero_add]
    have e0 : ((List.range cs.length).map fun j => if keep j then turnPath A x (g j) (g (j + 1)) else 0).sum =
        ∑ j ∈ Finset.range cs.length, if keep j then turnPath A x (g j) (g (j + 1)) else 0 := by
      rw [← List.sum_toFinset _ List.nodup_range]
      exact Finset.sum_congr (by ext; simp) fun _ _ => rfl
    rw [e2, e0, ← sum_turnPath hg hcne hxt]
    have hss : s * s = 1 := by rcases hs with rfl | rfl <;> norm_num
    have e3 : ∀ j < cs.length, (s : ℝ) * (β j : ℝ) = if β j ≠ 0 then 1 else 0 := by
      intro j hj
      rcases hsd.range j hj with h | h
      · rw [h]; simp
      · rw [h, if_pos hs0]; exact_mod_cast hss
    unfold arcSided
    rw [Finset.mul_sum]
    by_cases hin : inside = true
    · rw [if_pos hin]
      apply Finset.sum_congr rfl
      intro j hj
      rw [← mul_assoc, e3 j (Finset.mem_range.1 hj)]
      simp only [hkeep, hin, iff_true]
      split_ifs <;> simp
    · rw [if_neg hin, ← Finset.sum_sub_distrib]
      apply Finset.sum_congr rfl
      intro j hj
      rw [← mul_assoc, e3 j (Finset.mem_range.1 hj)]
      simp only [hkeep, hin]
      by_cases h0 : β j = 0
      · simp [h0]
      · simp [h0]

end
end Cavc

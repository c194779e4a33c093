import Verif.Props.IslandsCuts

/-! C56: which loops of a set are cut with each other, and where. -/
namespace Cavc
open Spec
open scoped Classical
noncomputable section

/-! ### Indexes that have been built -/

/-- If the construction of an index does not fault, its items are in the domain of properties C01 and
C02. -/
theorem build_domain {N : ℕ} {inf ninf : ℝ} {hv : Box ℝ → Box ℝ → M ℕ} {items : List (Box ℝ)}
    {s : SIndex ℝ} (hN : 2 ≤ N ∧ N ≤ 2 ^ 24) (hn : 1 ≤ items.length ∧ items.length ≤ 2 ^ 24)
    (h : SIndex.build N inf ninf hv items = .ok s) : IndexDomain N inf ninf hv items := by
  refine ⟨hN, hn, ?_⟩
  intro hlt b hb
  obtain ⟨L, hL2, htop, hmin, h0⟩ := create_spec inf ninf hN.1 hN.2 hn.1 hn.2
  have hb1 := base_one N items.length
  have hnL : items.length ≤ base N items.length L := by
    have := base_mono N items.length (a := 1) (b := L) (by omega)
    omega
  unfold SIndex.build at h
  rw [h0, ok_bind, adds_spec items _ (by simpa using hnL) (by simp), ok_bind] at h
  simp only [List.nil_append, List.length_nil, Nat.zero_add] at h
  unfold SIndex.finish at h
  simp only [decide_true, assertM_true, ok_bind, List.take_length] at h
  rw [if_neg (by omega)] at h
  obtain ⟨vs, hvs, -⟩ := bind_eq_ok.1 h
  obtain ⟨v, -, hv⟩ := forall2_left (mapM_forall hvs) hb
  exact ⟨v, hv⟩

/-! ### The pairs of loops -/

/-- The lookup lists, for every loop, the sets it belongs to. -/
structure SetsLookup (n : ℕ) (st : SlicePointState) : Prop where
  ne : ∀ s ∈ st.sets, s.loopIndex1 ≠ s.loopIndex2
  len : st.lookup.length = n
  lt : ∀ s ∈ st.sets, s.loopIndex1 < n ∧ s.loopIndex2 < n
  lists : ∀ a < n, st.lookup[a]? = some ((st.sets.zipIdx.filter fun x =>
    x.1.loopIndex1 = a ∨ x.1.loopIndex2 = a).map Prod.snd)

theorem pushLookup_eq {l l' : List (List ℕ)} {i k : ℕ} (h : pushLookup l i k = .ok l') :
    i < l.length ∧ l'.length = l.length ∧ ∀ a, l'[a]? = if a = i then l[a]?.map (· ++ [k]) else l[a]? := by
  unfold pushLookup at h
  obtain ⟨x, hx, h⟩ := bind_eq_ok.1 h
  have hx := getM_some hx
  have hlt := (List.getElem?_eq_some_iff.1 hx).1
  unfold setM at h
  rw [if_pos hlt] at h
  cases h
  refine ⟨hlt, by simp, ?_⟩
  intro a
  rw [List.getElem?_set]
  by_cases c : a = i
  · subst c
    rw [if_pos rfl, if_pos rfl, if_pos hlt, hx]
    rfl
  · rw [if_neg c, if_neg (fun h => c h.symm)]

theorem pair_lookup {std : StdSort} {loops : OffsetLoopSet} {i : ℕ} {l1 : OffsetLoop} {n : ℕ}
    {st st' : SlicePointState} {j : ℕ} (hs : SetsLookup n st)
    (h : slicePointsPair std loops i l1 st j = .ok st') : SetsLookup n st' := by
  unfold slicePointsPair at h
  by_cases c1 : i = j
  · rw [if_pos c1] at h; cases h; exact hs
  rw [if_neg c1] at h
  by_cases c2 : (j, i) ∈ st.visited
  · rw [if_pos c2] at h; cases h; exact hs
  rw [if_neg c2] at h
  obtain ⟨l2, -, h⟩ := bind_eq_ok.1 h
  obtain ⟨x, -, h⟩ := bind_eq_ok.1 h
  by_cases c3 : x.intersects.length ≠ 0 ∨ x.coincidentIntersects.length ≠ 0
  · rw [if_pos c3] at h
    obtain ⟨pts, -, h⟩ := bind_eq_ok.1 h
    obtain ⟨k1, hk1, h⟩ := bind_eq_ok.1 h
    obtain ⟨k2, hk2, h⟩ := bind_eq_ok.1 h
    cases h
    obtain ⟨a1, a2, a3⟩ := pushLookup_eq hk1
    obtain ⟨b1, b2, b3⟩ := pushLookup_eq hk2
    have hin : i < n := by rw [← hs.len]; exact a1
    have hjn : j < n := by rw [← hs.len, ← a2]; exact b1
    refine ⟨?_, ?_, ?_, ?_⟩
    · intro s hm
      rcases List.mem_append.1 hm with hm | hm
      · exact hs.ne s hm
      · rw [List.mem_singleton] at hm; subst hm; exact c1
    · simp only; rw [b2, a2, hs.len]
    · intro s hm
      rcases List.mem_append.1 hm with hm | hm
      · exact hs.lt s hm
      · rw [List.mem_singleton] at hm; subst hm; exact ⟨hin, hjn⟩
    · intro a ha
      simp only
      rw [b3, a3, hs.lists a ha, List.zipIdx_append, List.filter_append, List.map_append]
      simp only [Nat.zero_add, List.zipIdx_cons, List.zipIdx_nil]
      by_cases e1 : a = i
      · subst e1
        rw [if_pos rfl, if_neg c1, List.filter_cons_of_pos (by simp)]
        rfl
      · by_cases e2 : a = j
        · subst e2
          rw [if_pos rfl, if_neg e1, List.filter_cons_of_pos (by simp)]
          rfl
        · rw [if_neg e2, if_neg e1, List.filter_cons_of_neg (by simp; omega)]
          simp
  · rw [if_neg c3] at h
    cases h
    exact ⟨hs.ne, hs.len, hs.lt, hs.lists⟩

theorem createSlicePoints_lookup {std : StdSort} {loops : OffsetLoopSet} {idx : SIndex ℝ}
    {sp : SlicePointState} (h : createSlicePoints std loops idx = .ok sp) : SetsLookup loops.count sp := by
  unfold createSlicePoints at h
  refine foldlM_inv (Inv := SetsLookup loops.count) _ _ _ ?_ ⟨by simp, by simp, by simp, ?_⟩ h
  · intro st i st' _ hi hstep
    unfold slicePointsStep at hstep
    obtain ⟨l1, -, hstep⟩ := bind_eq_ok.1 hstep
    obtain ⟨qs, -, hstep⟩ := bind_eq_ok.1 hstep
    exact foldlM_inv (Inv := SetsLookup loops.count) _ _ _ (fun st j st' _ hj hp => pair_lookup hj hp) hi hstep
  · intro a ha
    simp [ha]

/-- The extents of two loops, by index, overlap. -/
def ExtMeet (L : List OffsetLoop) (a b : ℕ) : Prop :=
  ∃ la lb, L[a]? = some la ∧ L[b]? = some lb ∧ Overlap la.spatialIndex.ext lb.spatialIndex.ext

/-- The pairs up to loop `i`, of this one those with the loops in `seen`, have been looked at. -/
structure PairsOk (std : StdSort) (L : List OffsetLoop) (i : ℕ) (seen : List ℕ) (st : SlicePointState) :
    Prop where
  visited : ∀ a b, (a, b) ∈ st.visited ↔ a < b ∧ ExtMeet L a b ∧ (a < i ∨ (a = i ∧ b ∈ seen))
  nodup : (st.sets.map fun s => (s.loopIndex1, s.loopIndex2)).Nodup
  mem : ∀ a b, (∃ s ∈ st.sets, s.loopIndex1 = a ∧ s.loopIndex2 = b) ↔
    (a, b) ∈ st.visited ∧ ∃ la lb, L[a]? = some la ∧ L[b]? = some lb ∧ LoopsMeet la lb
  points : ∀ s ∈ st.sets, ∀ la lb, L[s.loopIndex1]? = some la → L[s.loopIndex2]? = some lb →
    CutPoints std la lb s.slicePoints

theorem overlap_symm {a b : Box ℝ} (h : Overlap a b) : Overlap b a := by
  unfold Overlap at h ⊢
  obtain ⟨h1, h2, h3, h4⟩ := h
  exact ⟨by assumption, by assumption, by assumption, by assumption⟩

theorem pair_step {std : StdSort} {loops : OffsetLoopSet} {i : ℕ} {l1 : OffsetLoop}
    {st st' : SlicePointState} {j : ℕ} {seen : List ℕ} (hl1 : (loopsOf loops)[i]? = some l1)
    (hj : ExtMeet (loopsOf loops) i j) (hns : j ∉ seen) (hs : PairsOk std (loopsOf loops) i seen st)
    (h : slicePointsPair std loops i l1 st j = .ok st') :
    PairsOk std (loopsOf loops) i (seen ++ [j]) st' := by
  have skip : ¬ i < j → PairsOk std (loopsOf loops) i (seen ++ [j]) st := by
    intro hle
    refine ⟨?_, hs.nodup, hs.mem, hs.points⟩
    intro a b
    rw [hs.visited]
    constructor
    · rintro ⟨h1, h2, h3⟩
      exact ⟨h1, h2, h3.imp id fun h => ⟨h.1, by simp [h.2]⟩⟩
    · rintro ⟨h1, h2, h3 | ⟨rfl, h3⟩⟩
      · exact ⟨h1, h2, Or.inl h3⟩
      · refine ⟨h1, h2, Or.inr ⟨rfl, ?_⟩⟩
        rcases List.mem_append.1 h3 with h3 | h3
        · exact h3
        · rw [List.mem_singleton] at h3
          subst h3
          exact absurd h1 hle
  unfold slicePointsPair at h
  by_cases c1 : i = j
  · rw [if_pos c1] at h; cases h; exact skip (by omega)
  rw [if_neg c1] at h
  have hji : (j, i) ∈ st.visited ↔ j < i := by
    rw [hs.visited]
    constructor
    · exact fun h => h.1
    · intro h
      obtain ⟨la, lb, g1, g2, g3⟩ := hj
      exact ⟨h, ⟨lb, la, g2, g1, overlap_symm g3⟩, Or.inl h⟩
  by_cases c2 : (j, i) ∈ st.visited
  · rw [if_pos c2] at h
    cases h
    have := hji.1 c2
    exact skip (by omega)
  rw [if_neg c2] at h
  have hij : i < j := by
    have : ¬ j < i := fun h => c2 (hji.2 h)
    omega
  have hvis : ∀ a b, (a, b) ∈ (i, j) :: st.visited ↔
      a < b ∧ ExtMeet (loopsOf loops) a b ∧ (a < i ∨ (a = i ∧ b ∈ seen ++ [j])) := by
    intro a b
    rw [List.mem_cons, hs.visited, Prod.mk.injEq]
    constructor
    · rintro (⟨rfl, rfl⟩ | ⟨h1, h2, h3⟩)
      · exact ⟨hij, hj, Or.inr ⟨rfl, by simp⟩⟩
      · exact ⟨h1, h2, h3.imp id fun h => ⟨h.1, by simp [h.2]⟩⟩
    · rintro ⟨h1, h2, h3 | ⟨rfl, h3⟩⟩
      · exact Or.inr ⟨h1, h2, Or.inl h3⟩
      · rcases List.mem_append.1 h3 with h3 | h3
        · exact Or.inr ⟨h1, h2, Or.inr ⟨rfl, h3⟩⟩
        · rw [List.mem_singleton] at h3
          exact Or.inl ⟨rfl, h3⟩
  have hnew : (i, j) ∉ st.visited := by
    rw [hs.visited]
    rintro ⟨-, -, h | h⟩
    · omega
    · exact hns h.2
  obtain ⟨l2, hl2, h⟩ := bind_eq_ok.1 h
  rw [get_eq] at hl2
  have hl2 := getM_some hl2
  obtain ⟨x, hx, h⟩ := bind_eq_ok.1 h
  by_cases c3 : x.intersects.length ≠ 0 ∨ x.coincidentIntersects.length ≠ 0
  · rw [if_pos c3] at h
    obtain ⟨pts, hpts, h⟩ := bind_eq_ok.1 h
    obtain ⟨k1, hk1, h⟩ := bind_eq_ok.1 h
    obtain ⟨k2, hk2, h⟩ := bind_eq_ok.1 h
    cases h
    have hmeet : LoopsMeet l1 l2 := by
      refine ⟨x, hx, ?_⟩
      rcases c3 with c | c
      · exact Or.inl fun h => c (by rw [h]; rfl)
      · exact Or.inr fun h => c (by rw [h]; rfl)
    refine ⟨hvis, ?_, ?_, ?_⟩
    · simp only [List.map_append, List.map_cons, List.map_nil]
      rw [List.nodup_append]
      refine ⟨hs.nodup, by simp, ?_⟩
      intro a ha b hb hab
      rw [List.mem_singleton] at hb
      subst hab
      subst hb
      obtain ⟨s, hm, he⟩ := List.mem_map.1 ha
      simp only [Prod.mk.injEq] at he
      exact hnew ((hs.mem i j).1 ⟨s, hm, he.1, he.2⟩).1
    · intro a b
      simp only
      rw [List.mem_cons, Prod.mk.injEq]
      constructor
      · rintro ⟨s, hm, h1, h2⟩
        rcases List.mem_append.1 hm with hm | hm
        · obtain ⟨g1, g2⟩ := (hs.mem a b).1 ⟨s, hm, h1, h2⟩
          exact ⟨Or.inr g1, g2⟩
        · rw [List.mem_singleton] at hm
          subst hm
          simp only at h1 h2
          subst h1 h2
          exact ⟨Or.inl ⟨rfl, rfl⟩, l1, l2, hl1, hl2, hmeet⟩
      · rintro ⟨⟨rfl, rfl⟩ | hv, hm⟩
        · exact ⟨_, List.mem_append_right _ (List.mem_singleton.2 rfl), rfl, rfl⟩
        · obtain ⟨s, g1, g2⟩ := (hs.mem a b).2 ⟨hv, hm⟩
          exact ⟨s, List.mem_append_left _ g1, g2⟩
    · intro s hm la lb ha hb
      rcases List.mem_append.1 hm with hm | hm
      · exact hs.points s hm la lb ha hb
      · rw [List.mem_singleton] at hm
        subst hm
        simp only at ha hb ⊢
        rw [hl1] at ha
        rw [hl2] at hb
        cases ha
        cases hb
        refine ⟨x, hx, ?_⟩
        unfold slicePointsOf at hpts
        by_cases c : x.coincidentIntersects = []
        · rw [if_pos c]
          rw [if_neg (by simp [c])] at hpts
          cases hpts
          rfl
        · rw [if_neg c]
          rw [if_pos (by simpa using c)] at hpts
          obtain ⟨⟨cc, y⟩, hc, hpts⟩ := bind_eq_ok.1 hpts
          cases hpts
          exact ⟨cc, y, hc, rfl⟩
  · rw [if_neg c3] at h
    cases h
    refine ⟨hvis, hs.nodup, ?_, hs.points⟩
    intro a b
    simp only
    rw [hs.mem, List.mem_cons, Prod.mk.injEq]
    constructor
    · rintro ⟨g1, g2⟩
      exact ⟨Or.inr g1, g2⟩
    · rintro ⟨⟨rfl, rfl⟩ | hv, hm⟩
      · exfalso
        obtain ⟨la, lb, ha, hb, x', hx', hne⟩ := hm
        rw [hl1] at ha
        rw [hl2] at hb
        cases ha
        cases hb
        rw [hx] at hx'
        cases hx'
        push Not at c3
        rcases hne with hne | hne
        · exact hne (List.length_eq_zero_iff.1 c3.1)
        · exact hne (List.length_eq_zero_iff.1 c3.2)
      · exact ⟨hv, hm⟩

theorem pairs_fold {std : StdSort} {loops : OffsetLoopSet} {i : ℕ} {l1 : OffsetLoop}
    (hl1 : (loopsOf loops)[i]? = some l1) : ∀ (js seen : List ℕ) (st st' : SlicePointState),
    (∀ j ∈ js, ExtMeet (loopsOf loops) i j) → (seen ++ js).Nodup →
    PairsOk std (loopsOf loops) i seen st → js.foldlM (slicePointsPair std loops i l1) st = .ok st' →
    PairsOk std (loopsOf loops) i (seen ++ js) st'
  | [], seen, st, st', _, _, hs, h => by
    cases h
    simpa using hs
  | j :: js, seen, st, st', hjs, hnd, hs, h => by
    rw [List.foldlM_cons] at h
    obtain ⟨s1, h1, h⟩ := bind_eq_ok.1 h
    have hns : j ∉ seen := by
      rw [List.nodup_append] at hnd
      exact fun hm => hnd.2.2 j hm j (by simp) rfl
    have := pair_step hl1 (hjs j (by simp)) hns hs h1
    have r := pairs_fold hl1 js (seen ++ [j]) s1 st' (fun j hj => hjs j (by simp [hj]))
      (by simpa using hnd) this h
    simpa using r

theorem loops_count (s : OffsetLoopSet) : s.count = (loopsOf s).length := by
  unfold OffsetLoopSet.count loopsOf
  rw [List.length_append]

/-- The sets of slice points as crossings. -/
def crossingsOf (sp : SlicePointState) : List LoopCrossing :=
  sp.sets.map fun s => ⟨s.loopIndex1, s.loopIndex2, s.slicePoints⟩

/-- C56. Of every two offset loops with overlapping extents it is found out, exactly once, whether they
meet; the result has the points where they are cut: their isolated intersects and the ends of their
overlaps, with the indexes of the segments in the order of the two loops. -/
theorem C56_slice_points {pf : Platform} {std : StdSort} {loops : OffsetLoopSet} {idx : SIndex ℝ}
    {sp : SlicePointState} (hn : 1 ≤ loops.count ∧ loops.count ≤ 2 ^ 24)
    (hidx : createOffsetLoopsIndex pf loops = .ok idx)
    (h : createSlicePoints std loops idx = .ok sp) :
    LoopCrossings std (loopsOf loops) (crossingsOf sp) := by
  have hlen : (loops.ccwLoops ++ loops.cwLoops).length = loops.count := by
    rw [loops_count]; rfl
  have hdom := build_domain (by norm_num) (by rw [List.length_map, hlen]; exact hn) hidx
  obtain ⟨idx', hb, hx⟩ := hdom.indexOf
  unfold createOffsetLoopsIndex at hidx
  rw [hb] at hidx
  cases hidx
  have key : ∀ n ≤ loops.count, ∀ st, (List.range n).foldlM (slicePointsStep std loops idx)
      ⟨[], [], List.replicate loops.count []⟩ = .ok st → PairsOk std (loopsOf loops) n [] st := by
    intro n
    induction n with
    | zero =>
      intro _ st h
      cases h
      refine ⟨?_, by simp, by simp, by simp⟩
      intro a b
      simp
    | succ n ih =>
      intro hle st h
      rw [List.range_succ, List.foldlM_append] at h
      obtain ⟨s1, h1, h⟩ := bind_eq_ok.1 h
      have hi := ih (by omega) s1 h1
      rw [List.foldlM_cons] at h
      obtain ⟨s2, h2, h⟩ := bind_eq_ok.1 h
      cases h
      unfold slicePointsStep at h2
      obtain ⟨l1, hl1, h2⟩ := bind_eq_ok.1 h2
      rw [get_eq] at hl1
      have hl1 := getM_some hl1
      obtain ⟨qs, hqs, h2⟩ := bind_eq_ok.1 h2
      obtain ⟨r, r1, r2, r3, -⟩ := hx.query l1.spatialIndex.ext
      rw [r3] at hqs
      have hqs := Except.ok.inj hqs
      subst hqs
      have hmem : ∀ j, j ∈ r ↔ ExtMeet (loopsOf loops) n j := by
        intro j
        rw [r2]
        constructor
        · rintro ⟨b, hb, ho⟩
          rw [List.getElem?_map, Option.map_eq_some_iff] at hb
          obtain ⟨l2, hl2, rfl⟩ := hb
          exact ⟨l1, l2, hl1, hl2, ho⟩
        · rintro ⟨la, lb, ha, hb, ho⟩
          rw [hl1] at ha
          cases ha
          exact ⟨lb.spatialIndex.ext, by
            rw [List.getElem?_map, Option.map_eq_some_iff]
            exact ⟨lb, hb, rfl⟩, ho⟩
      have := pairs_fold hl1 r [] s1 st (fun j hj => (hmem j).1 hj) (by simpa using r1) hi h2
      refine ⟨?_, this.nodup, this.mem, this.points⟩
      intro a b
      rw [this.visited]
      constructor
      · rintro ⟨g1, g2, g3⟩
        exact ⟨g1, g2, Or.inl (by omega)⟩
      · rintro ⟨g1, g2, g3 | g3⟩
        · refine ⟨g1, g2, ?_⟩
          by_cases c : a < n
          · exact Or.inl c
          · have : a = n := by omega
            subst this
            exact Or.inr ⟨rfl, by simpa using (hmem b).2 g2⟩
        · simp at g3
  have hp := key loops.count (le_refl _) sp h
  refine ⟨?_, ?_, ?_⟩
  · unfold crossingsOf
    rw [List.map_map]
    exact hp.nodup
  · intro i j
    have : (∃ x ∈ crossingsOf sp, x.first = i ∧ x.second = j) ↔
        ∃ s ∈ sp.sets, s.loopIndex1 = i ∧ s.loopIndex2 = j := by
      constructor
      · rintro ⟨x, hx, h1, h2⟩
        obtain ⟨s, hs, rfl⟩ := List.mem_map.1 hx
        exact ⟨s, hs, h1, h2⟩
      · rintro ⟨s, hs, h1, h2⟩
        exact ⟨_, List.mem_map.2 ⟨s, hs, rfl⟩, h1, h2⟩
    rw [this, hp.mem, hp.visited]
    constructor
    · rintro ⟨⟨g1, ⟨la, lb, a1, a2, a3⟩, -⟩, la', lb', b1, b2, b3⟩
      rw [a1] at b1
      rw [a2] at b2
      cases b1
      cases b2
      exact ⟨g1, la, lb, a1, a2, a3, b3⟩
    · rintro ⟨g1, la, lb, a1, a2, a3, a4⟩
      refine ⟨⟨g1, ⟨la, lb, a1, a2, a3⟩, Or.inl ?_⟩, la, lb, a1, a2, a4⟩
      rw [loops_count]
      exact (List.getElem?_eq_some_iff.1 a1).1
  · intro x hx l1 l2 h1 h2
    obtain ⟨s, hs, rfl⟩ := List.mem_map.1 hx
    exact hp.points s hs l1 l2 h1 h2

end
end Cavc

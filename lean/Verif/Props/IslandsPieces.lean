import Verif.Props.IslandsPairs

/-! C55: what the offset of a set of loops consists of. -/
namespace Cavc
open Spec
open scoped Classical
noncomputable section

/-! ### The offset loops -/

section
variable {pf : Platform} {std : StdSort} {hash : HashOrder} {input : OffsetLoopSet} {delta : ℝ}

/-- The offsets numbered from `k` on. -/
def numberedFrom (k : ℕ) (offs : List (List Polyline)) : List (ℕ × Polyline) :=
  (offs.zipIdx k).flatMap fun x => x.1.map fun q => (x.2, q)

theorem numberedFrom_cons (k : ℕ) (o : List Polyline) (offs : List (List Polyline)) :
    numberedFrom k (o :: offs) = (o.map fun q => (k, q)) ++ numberedFrom (k + 1) offs := by
  unfold numberedFrom
  rw [List.zipIdx_cons, List.flatMap_cons]

theorem numberedFrom_append (k : ℕ) (a b : List (List Polyline)) :
    numberedFrom k (a ++ b) = numberedFrom k a ++ numberedFrom (k + a.length) b := by
  unfold numberedFrom
  rw [List.zipIdx_append, List.flatMap_append]

theorem numberedFrom_lt : ∀ (k : ℕ) (offs : List (List Polyline)) (x : ℕ × Polyline),
    x ∈ numberedFrom k offs → k ≤ x.1 ∧ x.1 < k + offs.length
  | k, [], x, h => by simp [numberedFrom] at h
  | k, o :: offs, x, h => by
    rw [numberedFrom_cons, List.mem_append] at h
    rcases h with h | h
    · obtain ⟨q, -, rfl⟩ := List.mem_map.1 h
      simp
    · have := numberedFrom_lt (k + 1) offs x h
      rw [List.length_cons]
      omega

theorem ccw_of {q : Polyline} {a : ℝ} (h : getArea q = .ok a) : CounterClockwise q ↔ ¬ a < 0 := by
  constructor
  · rintro ⟨b, hb, h0⟩
    rw [h] at hb
    cases hb
    exact not_lt.2 h0
  · intro h0
    exact ⟨a, h, not_lt.1 h0⟩

theorem cw_of {q : Polyline} {a : ℝ} (h : getArea q = .ok a) : Clockwise q ↔ a < 0 := by
  constructor
  · rintro ⟨b, hb, h0⟩
    rw [h] at hb
    cases hb
    exact h0
  · intro h0
    exact ⟨a, h, h0⟩

theorem addCcw_fold {k : ℕ} : ∀ (offsets : List Polyline) (s s' : OffsetLoopSet),
    offsets.foldlM (addCcwOffset pf k) s = .ok s' →
    s'.ccwLoops.map OffsetLoop.named = s.ccwLoops.map OffsetLoop.named ++
      ((offsets.map fun q => (k, q)).filter fun x => CounterClockwise x.2) ∧
    s'.cwLoops = s.cwLoops
  | [], s, s', h => by
    cases h
    simp
  | q :: offsets, s, s', h => by
    rw [List.foldlM_cons] at h
    obtain ⟨s1, h1, h⟩ := bind_eq_ok.1 h
    obtain ⟨i1, i2⟩ := addCcw_fold offsets s1 s' h
    unfold addCcwOffset at h1
    obtain ⟨a, ha, h1⟩ := bind_eq_ok.1 h1
    rw [i1, i2, List.map_cons]
    by_cases c : a < 0
    · rw [if_pos c] at h1
      cases h1
      rw [List.filter_cons_of_neg (by
        simp only [decide_eq_true_eq]
        exact fun h => (ccw_of ha).1 h c)]
      exact ⟨rfl, rfl⟩
    · rw [if_neg c] at h1
      obtain ⟨idx, -, h1⟩ := bind_eq_ok.1 h1
      cases h1
      rw [List.filter_cons_of_pos (by
        simp only [decide_eq_true_eq]
        exact (ccw_of ha).2 c)]
      refine ⟨?_, rfl⟩
      simp [OffsetLoop.named]

theorem addCw_fold {k : ℕ} : ∀ (offsets : List Polyline) (s s' : OffsetLoopSet),
    offsets.foldlM (addCwOffset pf k) s = .ok s' →
    s'.ccwLoops.map OffsetLoop.named = s.ccwLoops.map OffsetLoop.named ++
      ((offsets.map fun q => (k, q)).filter fun x => CounterClockwise x.2) ∧
    s'.cwLoops.map OffsetLoop.named = s.cwLoops.map OffsetLoop.named ++
      ((offsets.map fun q => (k, q)).filter fun x => Clockwise x.2)
  | [], s, s', h => by
    cases h
    simp
  | q :: offsets, s, s', h => by
    rw [List.foldlM_cons] at h
    obtain ⟨s1, h1, h⟩ := bind_eq_ok.1 h
    obtain ⟨i1, i2⟩ := addCw_fold offsets s1 s' h
    unfold addCwOffset at h1
    obtain ⟨idx, -, h1⟩ := bind_eq_ok.1 h1
    obtain ⟨a, ha, h1⟩ := bind_eq_ok.1 h1
    rw [i1, i2, List.map_cons]
    by_cases c : a < 0
    · rw [if_pos c] at h1
      cases h1
      rw [List.filter_cons_of_neg (by
        simp only [decide_eq_true_eq]
        exact fun h => (ccw_of ha).1 h c), List.filter_cons_of_pos (by
        simp only [decide_eq_true_eq]
        exact (cw_of ha).2 c)]
      refine ⟨rfl, ?_⟩
      simp [OffsetLoop.named]
    · rw [if_neg c] at h1
      cases h1
      rw [List.filter_cons_of_pos (by
        simp only [decide_eq_true_eq]
        exact (ccw_of ha).2 c), List.filter_cons_of_neg (by
        simp only [decide_eq_true_eq]
        exact fun h => c ((cw_of ha).1 h))]
      refine ⟨?_, rfl⟩
      simp [OffsetLoop.named]

theorem offsets_fold {add : ℕ → OffsetLoopSet → Polyline → M OffsetLoopSet} {C : Polyline → Prop}
    (hadd : ∀ (k : ℕ) (offsets : List Polyline) (s s' : OffsetLoopSet), offsets.foldlM (add k) s = .ok s' →
      s'.ccwLoops.map OffsetLoop.named = s.ccwLoops.map OffsetLoop.named ++
        ((offsets.map fun q => (k, q)).filter fun x => CounterClockwise x.2) ∧
      s'.cwLoops.map OffsetLoop.named = s.cwLoops.map OffsetLoop.named ++
        ((offsets.map fun q => (k, q)).filter fun x => C x.2)) :
    ∀ (xs : List OffsetLoop) (k : ℕ) (s : OffsetLoopSet) (st' : ℕ × OffsetLoopSet),
      xs.foldlM (offsetLoopsOf pf std hash |delta| add) (k, s) = .ok st' →
      ∃ offs, List.Forall₂ (fun l o => parallelOffset pf std hash l.polyline |delta| = .ok o) xs offs ∧
        st'.1 = k + xs.length ∧
        st'.2.ccwLoops.map OffsetLoop.named = s.ccwLoops.map OffsetLoop.named ++
          ((numberedFrom k offs).filter fun x => CounterClockwise x.2) ∧
        st'.2.cwLoops.map OffsetLoop.named = s.cwLoops.map OffsetLoop.named ++
          ((numberedFrom k offs).filter fun x => C x.2)
  | [], k, s, st', h => by
    cases h
    exact ⟨[], .nil, rfl, by simp [numberedFrom], by simp [numberedFrom]⟩
  | x :: xs, k, s, st', h => by
    rw [List.foldlM_cons] at h
    obtain ⟨st1, h1, h⟩ := bind_eq_ok.1 h
    unfold offsetLoopsOf at h1
    obtain ⟨offsets, ho, h1⟩ := bind_eq_ok.1 h1
    obtain ⟨s1, hs1, h1⟩ := bind_eq_ok.1 h1
    cases h1
    obtain ⟨a1, a2⟩ := hadd k offsets s s1 hs1
    obtain ⟨offs, b1, b2, b3, b4⟩ := offsets_fold hadd xs (k + 1) s1 st' h
    refine ⟨offsets :: offs, .cons ho b1, ?_, ?_, ?_⟩
    · rw [b2, List.length_cons]
      omega
    · rw [b3, a1, numberedFrom_cons, List.filter_append, List.append_assoc]
    · rw [b4, a2, numberedFrom_cons, List.filter_append, List.append_assoc]

theorem createOffsetLoops_is {loops : OffsetLoopSet}
    (h : createOffsetLoops pf std hash input |delta| = .ok loops) :
    OffsetLoops pf std hash input delta loops := by
  have hg := createOffsetLoops_good h
  unfold createOffsetLoops at h
  obtain ⟨⟨k1, s1⟩, h1, h⟩ := bind_eq_ok.1 h
  obtain ⟨⟨k2, s2⟩, h2, h⟩ := bind_eq_ok.1 h
  cases h
  obtain ⟨o1, a1, a2, a3, a4⟩ := offsets_fold (C := fun _ => False) (by
    intro k offsets s s' h
    obtain ⟨g1, g2⟩ := addCcw_fold offsets s s' h
    refine ⟨g1, ?_⟩
    rw [g2]
    simp) input.ccwLoops 0 ⟨[], []⟩ _ h1
  obtain ⟨o2, b1, b2, b3, b4⟩ := offsets_fold (C := Clockwise) (fun k offsets s s' h =>
    addCw_fold offsets s s' h) input.cwLoops k1 s1 _ h2
  simp only [Nat.zero_add, List.map_nil, List.nil_append] at a2 a3 a4 b3 b4
  have hlen : o1.length = input.ccwLoops.length := a1.length_eq.symm
  have e : numbered (o1 ++ o2) = numberedFrom 0 o1 ++ numberedFrom k1 o2 := by
    rw [show numbered (o1 ++ o2) = numberedFrom 0 (o1 ++ o2) from rfl, numberedFrom_append, hlen, a2,
      Nat.zero_add]
  refine ⟨o1 ++ o2, List.rel_append a1 b1, ?_, ?_, ?_⟩
  · rw [b3, a3, e, List.filter_append]
  · rw [b4, a4, e, List.filter_append]
    congr 1
    · rw [List.filter_eq_nil_iff.2 (by simp), eq_comm, List.filter_eq_nil_iff]
      intro x hx
      have := numberedFrom_lt _ _ _ hx
      simp only [decide_eq_true_eq, not_and]
      omega
    · apply List.filter_congr
      intro x hx
      have := numberedFrom_lt _ _ _ hx
      simp only [decide_eq_decide]
      constructor
      · intro h
        exact ⟨by omega, h⟩
      · exact fun h => h.2
  · intro l hl
    unfold loopsOf at hl
    rcases List.mem_append.1 hl with hl | hl
    · exact (hg.ccw l hl).2.1
    · exact (hg.cw l hl).2.1

/-! ### The distance -/

theorem validLoop_iff (hin : ∀ l ∈ loopsOf input, LoopOk pf l) {skip : ℕ} {pt : V2} :
    ∀ (is : List ℕ) (b : Bool), (∀ i ∈ is, i < (loopsOf input).length) →
      pointOnOffsetValidLoop input skip pt |delta| is = .ok b →
      (b = true ↔ ∀ i ∈ is, i ≠ skip → ∀ l, (loopsOf input)[i]? = some l →
        FarEnough l.polyline delta pt)
  | [], b, _, h => by
    cases h
    simp
  | i :: is, b, hi, h => by
    unfold pointOnOffsetValidLoop at h
    by_cases c : i = skip
    · rw [if_pos c] at h
      rw [validLoop_iff hin is b (fun j hj => hi j (by simp [hj])) h]
      constructor
      · intro g j hj hne
        rcases List.mem_cons.1 hj with rfl | hj
        · exact absurd c hne
        · exact g j hj hne
      · exact fun g j hj => g j (by simp [hj])
    · rw [if_neg c] at h
      obtain ⟨l, hl, h⟩ := bind_eq_ok.1 h
      rw [get_eq] at hl
      have hl := getM_some hl
      obtain ⟨b1, hb1, h⟩ := bind_eq_ok.1 h
      have hk := hin l (List.mem_of_getElem? hl)
      obtain ⟨b2, hb2, hb⟩ := pointValid_iff hk.indexOf hk.ok |delta| offsetThreshold pt
      rw [hb2] at hb1
      cases hb1
      have hfar : b1 = true ↔ FarEnough l.polyline delta pt := by
        rw [hb, abs_abs]
        exact Iff.rfl
      cases b1 with
      | true =>
        simp only [if_true] at h
        rw [validLoop_iff hin is b (fun j hj => hi j (by simp [hj])) h]
        constructor
        · intro g j hj hne l' hl'
          rcases List.mem_cons.1 hj with rfl | hj
          · rw [hl] at hl'
            cases hl'
            exact hfar.1 rfl
          · exact g j hj hne l' hl'
        · exact fun g j hj => g j (by simp [hj])
      | false =>
        simp only [Bool.false_eq_true, if_false] at h
        cases h
        simp only [Bool.false_eq_true, false_iff]
        intro g
        have := hfar.2 (g i (by simp) c l hl)
        simp at this

theorem valid_iff (hin : ∀ l ∈ loopsOf input, LoopOk pf l) {skip : ℕ} {pt : V2} {b : Bool}
    (h : pointOnOffsetValid input skip pt |delta| = .ok b) :
    b = true ↔ FarFromOthers input delta skip pt := by
  unfold pointOnOffsetValid at h
  rw [validLoop_iff hin _ b (by
    intro i hi
    rw [List.mem_range, loops_count] at hi
    exact hi) h]
  constructor
  · intro g i l hne hl
    refine g i ?_ hne l hl
    rw [List.mem_range, loops_count]
    exact (List.getElem?_eq_some_iff.1 hl).1
  · intro g i _ hne l hl
    exact g i l hne hl

/-! ### The loops one after the other -/

theorem untouched_iff {n : ℕ} {sp : SlicePointState} (hs : SetsLookup n sp) {i : ℕ} {ks : List ℕ}
    (h : sp.lookup[i]? = some ks) : Untouched (crossingsOf sp) i ↔ ks.length = 0 := by
  have hi : i < n := by
    rw [← hs.len]
    exact (List.getElem?_eq_some_iff.1 h).1
  rw [hs.lists i hi] at h
  cases h
  rw [List.length_map, List.length_eq_zero_iff, List.filter_eq_nil_iff]
  unfold Untouched crossingsOf
  constructor
  · rintro g ⟨s, k⟩ hx
    have := g _ (List.mem_map.2 ⟨s, List.fst_mem_of_mem_zipIdx hx, rfl⟩)
    simp only at this
    simp [this.1, this.2]
  · intro g x hx
    obtain ⟨s, hs, rfl⟩ := List.mem_map.1 hx
    obtain ⟨k, hk, rfl⟩ := List.getElem_of_mem hs
    have := g (sp.sets[k], k) (by
      rw [List.mem_zipIdx_iff_getElem?]
      exact List.getElem?_eq_getElem hk)
    simp only [decide_eq_true_eq, not_or] at this
    exact this

theorem sets_of_lookup {n : ℕ} {sp : SlicePointState} (hs : SetsLookup n sp) {i : ℕ} {ks : List ℕ}
    {ss : List SlicePointSet} (h : sp.lookup[i]? = some ks)
    (hf : List.Forall₂ (fun k s => sp.sets[k]? = some s) ks ss) :
    ss.flatMap (cutsOfSet i) = cutsOfLoop (crossingsOf sp) i := by
  have hi : i < n := by
    rw [← hs.len]
    exact (List.getElem?_eq_some_iff.1 h).1
  rw [hs.lists i hi] at h
  cases h
  have e : ss = sp.sets.filter fun s => s.loopIndex1 = i ∨ s.loopIndex2 = i := by
    have : ∀ (l : List (SlicePointSet × ℕ)), (∀ x ∈ l, sp.sets[x.2]? = some x.1) → ∀ ss,
        List.Forall₂ (fun k s => sp.sets[k]? = some s) (l.map Prod.snd) ss → ss = l.map Prod.fst := by
      intro l
      induction l with
      | nil => intro _ ss h; cases h; rfl
      | cons x l ih =>
        intro hx ss h
        rw [List.map_cons] at h
        cases h with
        | cons h1 h2 =>
          rw [hx x (by simp)] at h1
          cases h1
          rw [List.map_cons, ih (fun y hy => hx y (by simp [hy])) _ h2]
    rw [this _ (by
      intro x hx
      have := List.mem_of_mem_filter hx
      rw [List.mem_zipIdx_iff_getElem?] at this
      exact this) ss hf]
    have e2 : (sp.sets.zipIdx.filter fun x => x.1.loopIndex1 = i ∨ x.1.loopIndex2 = i) =
        sp.sets.zipIdx.filter ((fun s : SlicePointSet => decide (s.loopIndex1 = i ∨ s.loopIndex2 = i)) ∘
          Prod.fst) := rfl
    rw [e2, ← List.filter_map, List.zipIdx_map_fst]
  rw [e]
  unfold cutsOfLoop crossingsOf
  rw [List.flatMap_map]
  induction sp.sets with
  | nil => rfl
  | cons s l ih =>
    rw [List.flatMap_cons, ← ih]
    by_cases c1 : s.loopIndex1 = i
    · rw [List.filter_cons_of_pos (by simp [c1]), List.flatMap_cons, if_pos c1]
      congr 1
      unfold cutsOfSet
      rw [if_pos c1.symm]
    · rw [if_neg c1]
      by_cases c2 : s.loopIndex2 = i
      · rw [List.filter_cons_of_pos (by simp [c2]), List.flatMap_cons, if_pos c2]
        congr 1
        unfold cutsOfSet
        rw [if_neg fun h => c1 h.symm]
      · rw [if_neg c2, List.filter_cons_of_neg (by simp [c1, c2])]
        rfl

theorem whole_take_succ {xs : List LoopCrossing} {k n : ℕ} {l : List OffsetLoop} {a : OffsetLoop}
    (ha : l[n]? = some a) :
    wholeLoops input delta xs k (l.take (n + 1)) = wholeLoops input delta xs k (l.take n) ++
      if Untouched xs (k + n) ∧ ∃ v, a.polyline.vertexes.head? = some v ∧
        FarFromOthers input delta a.parentLoopIndex v.pos then [a] else [] := by
  have hlt := (List.getElem?_eq_some_iff.1 ha).1
  unfold wholeLoops
  rw [List.take_add_one, ha, List.zipIdx_append, List.filter_append, List.map_append, List.length_take,
    Nat.min_eq_left hlt.le]
  congr 1
  simp only [Option.toList_some, List.zipIdx_cons, List.zipIdx_nil]
  split_ifs with c
  · rw [List.filter_cons_of_pos (by simpa using c)]
    rfl
  · rw [List.filter_cons_of_neg (by simpa using c)]
    rfl

/-- What has come of the first `n` loops. -/
structure LoopsDone (input : OffsetLoopSet) (delta : ℝ) (loops : OffsetLoopSet) (xs : List LoopCrossing)
    (n : ℕ) (st : OffsetLoopSet × List DissectedSlice) (pieces : List (List Polyline)) : Prop where
  ccw : st.1.ccwLoops = wholeLoops input delta xs 0 (loops.ccwLoops.take n)
  cw : st.1.cwLoops = wholeLoops input delta xs loops.ccwLoops.length
    (loops.cwLoops.take (n - loops.ccwLoops.length))
  all : List.Forall₂ (fun (a : OffsetLoop × ℕ) ps => if Untouched xs a.2 then ps = [] else
      (a.1.polyline.isClosed = true → KeptSlices a.1.polyline (cutsOfLoop xs a.2)
        (FarFromOthers input delta a.1.parentLoopIndex) ps)) ((loopsOf loops).take n).zipIdx pieces
  slices : plines st.2 = pieces.flatten
  ne : ∀ s ∈ st.2, s.pline.vertexes ≠ []

theorem indexed_size {l : OffsetLoop} (h : Indexed pf l) : 2 ≤ l.polyline.size := by
  unfold Indexed createApproxSpatialIndex at h
  obtain ⟨u, hu, -⟩ := bind_eq_ok.1 h
  unfold assertP at hu
  by_contra hc
  rw [if_neg (by omega)] at hu
  cases hu

theorem computeStep_done (hin : ∀ l ∈ loopsOf input, LoopOk pf l) {loops : OffsetLoopSet}
    (hidx : ∀ l ∈ loopsOf loops, Indexed pf l) {sp : SlicePointState}
    (hs : SetsLookup loops.count sp) {n : ℕ} {st st' : OffsetLoopSet × List DissectedSlice}
    {pieces : List (List Polyline)}
    (hd : LoopsDone input delta loops (crossingsOf sp) n st pieces)
    (h : computeStep std hash input loops sp |delta| st n = .ok st') :
    ∃ ps, LoopsDone input delta loops (crossingsOf sp) (n + 1) st' (pieces ++ [ps]) := by
  unfold computeStep at h
  obtain ⟨ks, hks, h⟩ := bind_eq_ok.1 h
  have hks := getM_some hks
  have hun := untouched_iff hs hks
  have hn : n < loops.count := by
    rw [← hs.len]
    exact (List.getElem?_eq_some_iff.1 hks).1
  have hn' : n < (loopsOf loops).length := by rw [← loops_count]; exact hn
  have hl : (loopsOf loops)[n]? = some (loopsOf loops)[n] := List.getElem?_eq_getElem hn'
  generalize (loopsOf loops)[n] = l at hl
  have hz : ((loopsOf loops).take (n + 1)).zipIdx = ((loopsOf loops).take n).zipIdx ++ [(l, n)] := by
    rw [List.take_add_one, hl, List.zipIdx_append, List.length_take, Nat.min_eq_left hn'.le]
    simp
  have hccw : n < loops.ccwLoops.length → loops.ccwLoops[n]? = some l := by
    intro c
    unfold loopsOf at hl
    rwa [List.getElem?_append_left c] at hl
  have hcw : ¬ n < loops.ccwLoops.length → loops.cwLoops[n - loops.ccwLoops.length]? = some l := by
    intro c
    unfold loopsOf at hl
    rwa [List.getElem?_append_right (by omega)] at hl
  have grow : ∀ b : Bool, (b = true ↔ Untouched (crossingsOf sp) n ∧ ∃ v,
      l.polyline.vertexes.head? = some v ∧ FarFromOthers input delta l.parentLoopIndex v.pos) →
      wholeLoops input delta (crossingsOf sp) 0 (loops.ccwLoops.take (n + 1)) =
        wholeLoops input delta (crossingsOf sp) 0 (loops.ccwLoops.take n) ++
          (if b = true ∧ n < loops.ccwLoops.length then [l] else []) ∧
      wholeLoops input delta (crossingsOf sp) loops.ccwLoops.length
          (loops.cwLoops.take (n + 1 - loops.ccwLoops.length)) =
        wholeLoops input delta (crossingsOf sp) loops.ccwLoops.length
          (loops.cwLoops.take (n - loops.ccwLoops.length)) ++
          (if b = true ∧ ¬ n < loops.ccwLoops.length then [l] else []) := by
    intro b hb
    by_cases c : n < loops.ccwLoops.length
    · constructor
      · rw [whole_take_succ (hccw c), Nat.zero_add]
        congr 1
        by_cases hbt : b = true
        · rw [if_pos (hb.1 hbt), if_pos ⟨hbt, c⟩]
        · rw [if_neg (fun h => hbt (hb.2 h)), if_neg (fun h => hbt h.1)]
      · rw [show n + 1 - loops.ccwLoops.length = 0 by omega, show n - loops.ccwLoops.length = 0 by omega,
          if_neg (fun h => h.2 c), List.append_nil]
    · constructor
      · rw [List.take_of_length_le (by omega), List.take_of_length_le (by omega),
          if_neg (fun h => c h.2), List.append_nil]
      · rw [show n + 1 - loops.ccwLoops.length = n - loops.ccwLoops.length + 1 by omega,
          whole_take_succ (hcw c), show loops.ccwLoops.length + (n - loops.ccwLoops.length) = n by omega]
        congr 1
        by_cases hbt : b = true
        · rw [if_pos (hb.1 hbt), if_pos ⟨hbt, c⟩]
        · rw [if_neg (fun h => hbt (hb.2 h)), if_neg (fun h => hbt h.1)]
  by_cases c : ks.length = 0
  · rw [if_pos c] at h
    obtain ⟨r, hr, h⟩ := bind_eq_ok.1 h
    cases h
    refine ⟨[], ?_⟩
    unfold keepUntouched at hr
    obtain ⟨l', hl', hr⟩ := bind_eq_ok.1 hr
    rw [get_eq] at hl'
    have hl' := getM_some hl'
    rw [hl] at hl'
    cases hl'
    obtain ⟨v, hv, hr⟩ := bind_eq_ok.1 hr
    have hv := head_of_at hv
    obtain ⟨b, hb, hr⟩ := bind_eq_ok.1 hr
    have hbi := valid_iff hin hb
    obtain ⟨g1, g2⟩ := grow b (by
      rw [hbi]
      constructor
      · exact fun h => ⟨hun.2 c, v, hv, h⟩
      · rintro ⟨-, v', hv', h⟩
        rw [hv] at hv'
        cases hv'
        exact h)
    refine ⟨?_, ?_, ?_, ?_, hd.ne⟩
    · rw [g1, ← hd.ccw]
      by_cases hbt : b = true
      · rw [if_neg (not_not.2 hbt)] at hr
        by_cases cc : n < loops.ccwLoops.length
        · rw [if_pos cc] at hr
          cases hr
          rw [if_pos ⟨hbt, cc⟩]
        · rw [if_neg cc] at hr
          cases hr
          rw [if_neg (fun h => cc h.2), List.append_nil]
      · rw [if_pos hbt] at hr
        cases hr
        rw [if_neg (fun h => hbt h.1), List.append_nil]
    · rw [g2, ← hd.cw]
      by_cases hbt : b = true
      · rw [if_neg (not_not.2 hbt)] at hr
        by_cases cc : n < loops.ccwLoops.length
        · rw [if_pos cc] at hr
          cases hr
          rw [if_neg (fun h => h.2 cc), List.append_nil]
        · rw [if_neg cc] at hr
          cases hr
          rw [if_pos ⟨hbt, cc⟩]
      · rw [if_pos hbt] at hr
        cases hr
        rw [if_neg (fun h => hbt h.1), List.append_nil]
    · rw [hz]
      refine List.rel_append hd.all (.cons ?_ .nil)
      rw [if_pos (hun.2 c)]
    · simp only
      rw [hd.slices]
      simp
  · rw [if_neg c] at h
    obtain ⟨s, hsl, h⟩ := bind_eq_ok.1 h
    cases h
    obtain ⟨ks', ss, ps, a1, a2, a3, a4⟩ := createSlices_cuts hl
      (indexed_size (hidx l (List.mem_of_getElem? hl))) (fun x b hx => valid_iff hin hx) hsl
    rw [hks] at a1
    cases a1
    rw [sets_of_lookup hs hks a2] at a4
    have hnu : ¬ Untouched (crossingsOf sp) n := fun h => c (hun.1 h)
    obtain ⟨g1, g2⟩ := grow false (by
      constructor
      · intro h; cases h
      · exact fun h => absurd h.1 hnu)
    refine ⟨ps, ?_, ?_, ?_, ?_, ?_⟩
    · rw [g1, ← hd.ccw, if_neg (by simp), List.append_nil]
    · rw [g2, ← hd.cw, if_neg (by simp), List.append_nil]
    · rw [hz]
      refine List.rel_append hd.all (.cons ?_ .nil)
      rw [if_neg hnu]
      exact a4
    · simp only
      rw [a3, hd.slices]
      simp
    · refine createSlices_kept (P := fun s => s.pline.vertexes ≠ []) hd.ne ?_ hsl
      rintro l' - s ⟨-, k, u, w, m, hv, -⟩ -
      rw [hv]
      simp

theorem computeSteps_done (hin : ∀ l ∈ loopsOf input, LoopOk pf l) {loops : OffsetLoopSet}
    (hidx : ∀ l ∈ loopsOf loops, Indexed pf l) {sp : SlicePointState}
    (hs : SetsLookup loops.count sp) : ∀ (n : ℕ) (st : OffsetLoopSet × List DissectedSlice),
    (List.range n).foldlM (computeStep std hash input loops sp |delta|) (⟨[], []⟩, []) = .ok st →
    ∃ pieces, LoopsDone input delta loops (crossingsOf sp) n st pieces
  | 0, st, h => by
    cases h
    exact ⟨[], by simp [wholeLoops], by simp [wholeLoops], by simp, rfl, by simp⟩
  | n + 1, st, h => by
    rw [List.range_succ, List.foldlM_append] at h
    obtain ⟨s1, h1, h⟩ := bind_eq_ok.1 h
    rw [List.foldlM_cons] at h
    obtain ⟨s2, h2, h⟩ := bind_eq_ok.1 h
    cases h
    obtain ⟨pieces, hp⟩ := computeSteps_done hin hidx hs n s1 h1
    obtain ⟨ps, hp'⟩ := computeStep_done hin hidx hs hp h2
    exact ⟨_, hp'⟩

/-! ### Stitching -/

theorem selectedChain_congr {follows : ℕ → ℕ → Prop} {sel sel' : StitchSelector}
    (he : ∀ i avail, avail ≠ [] → sel i avail = sel' i avail) {first : ℕ} {closes : Bool}
    {later : List ℕ} : ∀ c : List ℕ, SelectedChain follows sel first closes later c →
      SelectedChain follows sel' first closes later c
  | [], h => h
  | [i], h => by
    obtain ⟨avail, h1, h2⟩ := h
    refine ⟨avail, h1, ?_⟩
    rcases h2 with ⟨g1, g2, g3⟩ | ⟨g1, g2⟩
    · exact Or.inl ⟨g1, g2, by rw [← he i avail g2]; exact g3⟩
    · by_cases hne : avail = []
      · exact Or.inr ⟨g1, Or.inl hne⟩
      · exact Or.inr ⟨g1, g2.imp id fun g => by rw [← he i avail hne]; exact g⟩
  | i :: j :: c, h => by
    obtain ⟨⟨avail, h1, h2, h3, h4⟩, h5⟩ := h
    exact ⟨⟨avail, h1, h2, h3, by rw [← he i avail h2]; exact h4⟩, selectedChain_congr he (j :: c) h5⟩

theorem selectedChains_congr {follows : ℕ → ℕ → Prop} {sel sel' : StitchSelector}
    (he : ∀ i avail, avail ≠ [] → sel i avail = sel' i avail) : ∀ cs : List (List ℕ × Bool),
      SelectedChains follows sel cs → SelectedChains follows sel' cs
  | [], h => h
  | (c, closes) :: rest, h => by
    obtain ⟨⟨first, h1, h2, h3⟩, h4⟩ := h
    exact ⟨⟨first, h1, h2, selectedChain_congr he c h3⟩, selectedChains_congr he rest h4⟩

theorem firstAvailable_eq (i : ℕ) {avail : List ℕ} (h : avail ≠ []) :
    stitchFirstAvailable i avail = .ok avail.head? := by
  obtain ⟨a, l, rfl⟩ := List.exists_cons_of_ne_nil h
  rfl

theorem stitch_is {slices res : List Polyline} (hne : ∀ s ∈ slices, s.vertexes ≠ [])
    (hl : slices.length ≤ 2 ^ 24)
    (h : stitchOrderedSlicesIntoClosedPolylines pf slices = .ok res) :
    ∃ chains : List (List ℕ × Bool),
      let verts : ℕ → List Vertex := fun i => (slices.getD i Polyline.empty).vertexes
      res = chains.filterMap (closedChain verts) ∧
      (chains.map Prod.fst).flatten.Perm (List.range slices.length) ∧
      SelectedChains (fun i j => Follows (1 / 10 ^ 4) (verts i) (verts j))
        (fun _ avail => .ok avail.head?) chains := by
  obtain ⟨chains, h1, h2, h3⟩ := C44_stitchOrderedSlices (pf := pf) (sel := stitchFirstAvailable)
    (thr := sliceJoinThreshold) hne (by
      intro i avail ha
      refine ⟨_, firstAvailable_eq i ha, ?_⟩
      intro k hk
      exact List.mem_of_head? hk) (by
      intro hs
      unfold stitchOrderedSlicesIntoClosedPolylines at h
      rw [if_neg (by simpa using hs), orderedBoxes_run hne, ok_bind] at h
      obtain ⟨idx, hidx, -⟩ := bind_eq_ok.1 h
      refine build_domain (by norm_num) ?_ hidx
      have : 0 < slices.length := List.length_pos_of_ne_nil hs
      simp only [orderedBoxes, List.length_map]
      omega)
  rw [h1] at h
  cases h
  exact ⟨chains, rfl, h2, selectedChains_congr (fun i avail ha => firstAvailable_eq i ha) _ h3⟩

theorem addStitched_fold : ∀ (res : List Polyline) (r r' : OffsetLoopSet),
    res.foldlM (addStitched pf) r = .ok r' →
    r'.ccwLoops.map OffsetLoop.named = r.ccwLoops.map OffsetLoop.named ++
      (res.filter fun q => ∃ a, getArea q = .ok a ∧ 1 / 10 ^ 4 ≤ a).map (fun q => (0, q)) ∧
    r'.cwLoops.map OffsetLoop.named = r.cwLoops.map OffsetLoop.named ++
      (res.filter fun q => ∃ a, getArea q = .ok a ∧ a ≤ - (1 / 10 ^ 4)).map (fun q => (0, q)) ∧
    ((∀ l ∈ loopsOf r, Indexed pf l) → ∀ l ∈ loopsOf r', Indexed pf l)
  | [], r, r', h => by
    cases h
    simp
  | q :: res, r, r', h => by
    rw [List.foldlM_cons] at h
    obtain ⟨r1, h1, h⟩ := bind_eq_ok.1 h
    obtain ⟨i1, i2, i3⟩ := addStitched_fold res r1 r' h
    unfold addStitched at h1
    obtain ⟨a, ha, h1⟩ := bind_eq_ok.1 h1
    have e1 : (∃ a, getArea q = .ok a ∧ 1 / 10 ^ 4 ≤ a) ↔ 1 / 10 ^ 4 ≤ a := by
      constructor
      · rintro ⟨b, hb, h⟩
        rw [ha] at hb
        cases hb
        exact h
      · exact fun h => ⟨a, ha, h⟩
    have e2 : (∃ a, getArea q = .ok a ∧ a ≤ - (1 / 10 ^ 4)) ↔ a ≤ - (1 / 10 ^ 4) := by
      constructor
      · rintro ⟨b, hb, h⟩
        rw [ha] at hb
        cases hb
        exact h
      · exact fun h => ⟨a, ha, h⟩
    have hpos : (0 : ℝ) < 1 / 10 ^ 4 := by norm_num
    rw [i1, i2]
    by_cases c : |a| < 1 / 10 ^ 4
    · rw [if_pos c] at h1
      cases h1
      rw [abs_lt] at c
      rw [List.filter_cons_of_neg (by
        simp only [decide_eq_true_eq]
        rw [e1]; linarith), List.filter_cons_of_neg (by
        simp only [decide_eq_true_eq]
        rw [e2]; linarith)]
      exact ⟨rfl, rfl, i3⟩
    · rw [if_neg c] at h1
      obtain ⟨idx, hidx, h1⟩ := bind_eq_ok.1 h1
      have c := not_lt.1 c
      by_cases c2 : a < 0
      · rw [if_pos c2] at h1
        cases h1
        rw [abs_of_neg c2] at c
        rw [List.filter_cons_of_neg (by
          simp only [decide_eq_true_eq]
          rw [e1]; linarith), List.filter_cons_of_pos (by
          simp only [decide_eq_true_eq]
          rw [e2]; linarith)]
        refine ⟨rfl, by simp [OffsetLoop.named], fun hr => i3 ?_⟩
        intro l hl
        simp only [loopsOf, List.mem_append, List.mem_singleton] at hl hr
        rcases hl with hl | hl | rfl
        · exact hr l (Or.inl hl)
        · exact hr l (Or.inr hl)
        · exact hidx
      · rw [if_neg c2] at h1
        cases h1
        rw [abs_of_nonneg (not_lt.1 c2)] at c
        rw [List.filter_cons_of_pos (by
          simp only [decide_eq_true_eq]
          rw [e1]; exact c), List.filter_cons_of_neg (by
          simp only [decide_eq_true_eq]
          rw [e2]; linarith)]
        refine ⟨by simp [OffsetLoop.named], rfl, fun hr => i3 ?_⟩
        intro l hl
        simp only [loopsOf, List.mem_append, List.mem_singleton] at hl hr
        rcases hl with (hl | rfl) | hl
        · exact hr l (Or.inl hl)
        · exact hidx
        · exact hr l (Or.inr hl)

theorem whole_mem {xs : List LoopCrossing} {k : ℕ} {l : List OffsetLoop} {a : OffsetLoop}
    (h : a ∈ wholeLoops input delta xs k l) : a ∈ l := by
  unfold wholeLoops at h
  obtain ⟨x, hx, rfl⟩ := List.mem_map.1 h
  exact List.fst_mem_of_mem_zipIdx (List.mem_of_mem_filter hx)

/-- C55. Whatever the offset of a set of loops (valid, with the spatial indexes of their polylines)
returns consists of: the offset loops of the input loops that no other offset loop meets and that start
far enough from the other input loops, and the closed polylines stitched of the pieces that the other
offset loops are cut into where they meet, as far as these are far enough from the other input loops. -/
theorem C55_islands (hin : ∀ l ∈ loopsOf input, LoopOk pf l) {r : OffsetLoopSet}
    (h : computeIslands pf std hash input delta = .ok r) :
    IslandsResult pf std hash input delta r := by
  unfold computeIslands at h
  obtain ⟨loops, h1, h⟩ := bind_eq_ok.1 h
  have hl := createOffsetLoops_is h1
  have hidx : ∀ l ∈ loopsOf loops, Indexed pf l := by
    obtain ⟨-, -, -, -, hi⟩ := hl
    exact hi
  by_cases c : loops.count = 0
  · rw [if_pos c] at h
    cases h
    have hnil : loopsOf loops = [] := by
      rw [loops_count] at c
      exact List.length_eq_zero_iff.1 c
    have hcc : loops.ccwLoops = [] ∧ loops.cwLoops = [] := by
      unfold loopsOf at hnil
      exact List.append_eq_nil_iff.1 hnil
    refine ⟨loops, [], [], [], hl, ?_, ?_, ?_, ?_, ?_, ?_⟩
    · intro _
      rw [hnil]
      exact ⟨by simp, by simp, by simp⟩
    · rw [hnil]
      exact .nil
    · intro _
      exact ⟨[], rfl, by simp, trivial⟩
    · rw [hcc.1]; rfl
    · rw [hcc.2]; rfl
    · simp [loopsOf]
  · rw [if_neg c] at h
    obtain ⟨idx, hidx', h⟩ := bind_eq_ok.1 h
    obtain ⟨sp, hsp, h⟩ := bind_eq_ok.1 h
    obtain ⟨⟨r0, slices⟩, hst, h⟩ := bind_eq_ok.1 h
    simp only at h
    obtain ⟨res, hres, h⟩ := bind_eq_ok.1 h
    obtain ⟨pieces, hd⟩ := computeSteps_done hin hidx (createSlicePoints_lookup hsp) _ _ hst
    obtain ⟨f1, f2, f3⟩ := addStitched_fold res r0 r h
    have hp : plines slices = pieces.flatten := hd.slices
    have hd1 : r0.ccwLoops = wholeLoops input delta (crossingsOf sp) 0 loops.ccwLoops := by
      have := hd.ccw
      rwa [List.take_of_length_le (by unfold OffsetLoopSet.count; omega)] at this
    have hd2 : r0.cwLoops = wholeLoops input delta (crossingsOf sp) loops.ccwLoops.length
        loops.cwLoops := by
      have := hd.cw
      rwa [List.take_of_length_le (by unfold OffsetLoopSet.count; omega)] at this
    refine ⟨loops, crossingsOf sp, pieces, res, hl, ?_, ?_, ?_, ?_, ?_, ?_⟩
    · intro hn
      exact C56_slice_points ⟨by omega, hn⟩ hidx' hsp
    · have := hd.all
      rwa [List.take_of_length_le (by rw [loops_count])] at this
    · intro hn
      rw [← hp]
      refine stitch_is ?_ (by rw [hp]; exact hn) hres
      intro s hs
      obtain ⟨d, hd', rfl⟩ := List.mem_map.1 hs
      exact hd.ne d hd'
    · rw [f1, hd1]
    · rw [f2, hd2]
    · refine f3 ?_
      intro l hl'
      unfold loopsOf at hl'
      rw [hd1, hd2] at hl'
      refine hidx l ?_
      unfold loopsOf
      rcases List.mem_append.1 hl' with hl' | hl'
      · exact List.mem_append_left _ (whole_mem hl')
      · exact List.mem_append_right _ (whole_mem hl')

end

end
end Cavc

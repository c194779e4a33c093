import Verif.Props.IslandsTotal
import Verif.Props.IslandsRects
import Verif.Props.OffsetCircle

/-! C82: the offset of loops whose offsets do not meet each other. -/
namespace Cavc
open Spec
open scoped Classical
noncomputable section

section
variable {std : StdSort} {hash : HashOrder} {input loops : OffsetLoopSet} {delta : ℝ}

theorem step_untouched {pf : Platform} (hin : ∀ l ∈ loopsOf input, LoopOk pf l) (hind : ∀ l ∈ loopsOf loops, Indexed pf l)
    {sp : SlicePointState} (hsp : NoPoints loops.count sp) {d : ℝ} {st : OffsetLoopSet × List DissectedSlice} (hst : st.2 = [])
    {i : ℕ} (hi : i < loops.count) : ∃ st', computeStep std hash input loops sp d st i = .ok st' ∧ st'.2 = [] := by
  have hlt : i < (loopsOf loops).length := by rw [← loops_count]; exact hi
  have hl : getM sp.lookup i = .ok [] := by
    rw [hsp.2, getM_of_lt (by rw [List.length_replicate]; exact hi), List.getElem_replicate]
  unfold computeStep
  rw [hl, ok_bind, if_pos (show ([] : List ℕ).length = 0 from rfl)]
  unfold keepUntouched
  rw [get_eq, getM_of_lt hlt, ok_bind]
  have h2 := indexed_size (hind _ (List.getElem_mem hlt))
  have h0 : 0 < (loopsOf loops)[i].polyline.vertexes.length := by
    unfold Polyline.size at h2; omega
  have hat : (loopsOf loops)[i].polyline.at 0 = .ok (loopsOf loops)[i].polyline.vertexes[0] := getM_of_lt h0
  rw [hat, ok_bind]
  obtain ⟨b, hb⟩ := valid_total hin (loopsOf loops)[i].parentLoopIndex (loopsOf loops)[i].polyline.vertexes[0].pos d
  rw [hb, ok_bind]
  split_ifs
  · exact ⟨_, rfl, hst⟩
  · exact ⟨_, rfl, hst⟩
  · exact ⟨_, rfl, hst⟩

/-- The offset loops that count: counter clockwise, and clockwise ones of clockwise loops; far enough from the other loops. -/
theorem wholeLoops_nil {k : ℕ} {l : List OffsetLoop} : (wholeLoops input delta [] k l).map OffsetLoop.named =
    (l.map OffsetLoop.named).filter fun x => ∃ v, x.2.vertexes.head? = some v ∧ FarFromOthers input delta x.1 v.pos := by
  unfold wholeLoops
  induction l generalizing k with
  | nil => rfl
  | cons a l ih =>
    rw [List.zipIdx_cons, List.map_cons]
    by_cases c : ∃ v, a.polyline.vertexes.head? = some v ∧ FarFromOthers input delta a.parentLoopIndex v.pos
    · rw [List.filter_cons_of_pos (by simp only [decide_eq_true_eq]; exact ⟨by simp [Untouched], c⟩),
        List.filter_cons_of_pos (by simp only [decide_eq_true_eq]; exact c), List.map_cons, List.map_cons, ih]
    · rw [List.filter_cons_of_neg (by simp only [decide_eq_true_eq]; exact fun h => c h.2),
        List.filter_cons_of_neg (by simp only [decide_eq_true_eq]; exact c), ih]

theorem apart_facts {inf ninf : ℝ} {offs : List (List Polyline)} {loops : OffsetLoopSet} {k : ℕ}
    (hix : ∀ q ∈ offs.flatten, Indexable (codePlatform inf ninf) q)
    (hq : ∀ q ∈ offs.flatten, PlineOk q ∧ getArea q ≠ .ok 0 ∧ q.vertexes.length ≤ 2 ^ 24) (hn : offs.flatten.length ≤ 2 ^ 24)
    (hap : ∀ q q', [q, q'].Subperm offs.flatten → NothingReported q q')
    (hccw : loops.ccwLoops.map OffsetLoop.named = ((numbered offs).filter fun x => CounterClockwise x.2))
    (hcw : loops.cwLoops.map OffsetLoop.named = ((numbered offs).filter fun x => k ≤ x.1 ∧ Clockwise x.2))
    (hind : ∀ l ∈ loopsOf loops, Indexed (codePlatform inf ninf) l) :
    (∀ l ∈ loopsOf loops, l.polyline ∈ offs.flatten) ∧ (∀ l ∈ loopsOf loops, LoopOk (codePlatform inf ninf) l) ∧
    loops.count ≤ 2 ^ 24 ∧ ∀ (i j : ℕ) (l l' : OffsetLoop), i ≠ j → (loopsOf loops)[i]? = some l →
      (loopsOf loops)[j]? = some l' → findIntersects l.polyline l'.polyline l.spatialIndex ⟨[], []⟩ = .ok ⟨[], []⟩ := by
  have hsub : ((loopsOf loops).map OffsetLoop.polyline).Subperm offs.flatten := by
    rw [← numbered_snd, show (OffsetLoop.polyline) = Prod.snd ∘ OffsetLoop.named from rfl, ← List.map_map]
    have h : ((loopsOf loops).map OffsetLoop.named).Subperm (numbered offs) := by
      unfold loopsOf
      rw [List.map_append, hccw, hcw]
      have := filters_subperm (fun x : ℕ × Polyline => CounterClockwise x.2)
        (fun x => k ≤ x.1 ∧ Clockwise x.2) (numbered offs) ?_
      · convert this
      rintro x - ⟨-, a, ha, h1⟩ ⟨b, hb, h2⟩
      rw [ha] at hb
      cases hb
      linarith
    obtain ⟨c', k1, k2⟩ := h
    exact ⟨_, k1.map _, k2.map _⟩
  have hmem : ∀ l ∈ loopsOf loops, l.polyline ∈ offs.flatten := fun l hl =>
    hsub.subset (List.mem_map.2 ⟨l, hl, rfl⟩)
  have hok : ∀ l ∈ loopsOf loops, LoopOk (codePlatform inf ninf) l := fun l hl =>
    ⟨(hq _ (hmem l hl)).1, hix _ (hmem l hl), hind l hl⟩
  have hcount : loops.count ≤ 2 ^ 24 := by
    have := hsub.length_le
    rw [List.length_map, ← loops_count] at this
    omega
  have hnone : ∀ (i j : ℕ) (l l' : OffsetLoop), i ≠ j → (loopsOf loops)[i]? = some l → (loopsOf loops)[j]? = some l' →
      findIntersects l.polyline l'.polyline l.spatialIndex ⟨[], []⟩ = .ok ⟨[], []⟩ := by
    intro i j l l' hij h1 h2
    have m1 := List.mem_of_getElem? h1
    have m2 := List.mem_of_getElem? h2
    exact findIntersects_none (hok l m1).indexable (hok l m1).indexed (hok l m1).ok (hok l' m2).ok
      (hap _ _ (List.Subperm.trans (pair_subperm hij (by rw [List.getElem?_map, h1]; rfl) (by rw [List.getElem?_map, h2]; rfl)) hsub))
  exact ⟨hmem, hok, hcount, hnone⟩

/-- C82. If the parallel offsets of the loops are lines and arcs of at most a half circle with an area and no two of them
report an intersect or an overlap, the offset of the set does not fault and consists of exactly those offsets (in order,
each with the index of its loop) whose first vertex is far enough from all other input loops; the clockwise offsets of
counter clockwise loops are dropped. -/
theorem C82_islands_apart (inf ninf : ℝ) (hin : ∀ l ∈ loopsOf input, LoopOk (codePlatform inf ninf) l)
    {offs : List (List Polyline)}
    (ho : List.Forall₂ (fun l o => parallelOffset (codePlatform inf ninf) std hash l.polyline |delta| = .ok o)
      (loopsOf input) offs)
    (hq : ∀ q ∈ offs.flatten, PlineOk q ∧ getArea q ≠ .ok 0 ∧ q.vertexes.length ≤ 2 ^ 24) (hn : offs.flatten.length ≤ 2 ^ 24)
    (hap : ∀ q q', [q, q'].Subperm offs.flatten → NothingReported q q') :
    ∃ r, computeIslands (codePlatform inf ninf) std hash input delta = .ok r ∧
      r.ccwLoops.map OffsetLoop.named = ((numbered offs).filter fun x => CounterClockwise x.2 ∧
        ∃ v, x.2.vertexes.head? = some v ∧ FarFromOthers input delta x.1 v.pos) ∧
      r.cwLoops.map OffsetLoop.named = ((numbered offs).filter fun x => (input.ccwLoops.length ≤ x.1 ∧ Clockwise x.2) ∧
        ∃ v, x.2.vertexes.head? = some v ∧ FarFromOthers input delta x.1 v.pos) := by
  have hix : ∀ q ∈ offs.flatten, Indexable (codePlatform inf ninf) q := by
    intro q hm
    obtain ⟨a, ha⟩ := getArea_total q
    exact indexable_area inf ninf ha (fun h => (hq q hm).2.1 (by rw [ha, h])) (hq q hm).2.2
      fun i v1 v2 hs => ((hq q hm).1 i v1 v2 hs).half
  obtain ⟨loops, hloops⟩ := offsets_total ho hix
  obtain ⟨offs', ho', hccw, hcw, hind⟩ := createOffsetLoops_is hloops
  have := forall2_det ho ho'
  subst this
  obtain ⟨hmem, hok, hcount, hnone⟩ := apart_facts hix hq hn hap hccw hcw hind
  have hrun : ∃ r, computeIslands (codePlatform inf ninf) std hash input delta = .ok r := by
    unfold computeIslands
    simp only
    rw [hloops, ok_bind]
    by_cases c : loops.count = 0
    · rw [if_pos c]; exact ⟨_, rfl⟩
    rw [if_neg c]
    obtain ⟨idx, hidx⟩ := loopsIndex_total hok (fun l hl => (hq _ (hmem l hl)).2.1) ⟨by omega, hcount⟩
    obtain ⟨sp, hsp, hno⟩ := noPoints (std := std) ⟨by omega, hcount⟩ hidx hnone
    rw [hidx, ok_bind, hsp, ok_bind]
    obtain ⟨⟨r0, slices⟩, h1, h2⟩ := foldlM_ex (Inv := fun st : OffsetLoopSet × List DissectedSlice => st.2 = [])
      (f := computeStep std hash input loops sp |delta|) (List.range loops.count) (⟨[], []⟩, [])
      (fun st i hi hst => step_untouched hin hind hno hst (List.mem_range.1 hi)) rfl
    rw [h1, ok_bind]
    simp only at h2 ⊢
    rw [h2, List.map_nil]
    obtain ⟨res, h3, h4⟩ := stitched_total (inf := inf) (ninf := ninf) (slices := []) (by simp) (by simp) (by simp)
    rw [h3, ok_bind]
    exact foldlM_total res r0 fun q hm s => addStitched_total s (h4 q hm).1 (h4 q hm).2
  obtain ⟨r, hr⟩ := hrun
  refine ⟨r, hr, ?_⟩
  obtain ⟨loops', xs, pieces, res, hl', hx, hpieces, hres, rc, rw', -⟩ := C55_islands hin hr
  obtain ⟨offs', ho', hccw', hcw', hind'⟩ := hl'
  have := forall2_det ho ho'
  subst this
  obtain ⟨hmem', hok', hcount', hnone'⟩ := apart_facts hix hq hn hap hccw' hcw' hind'
  have hxs : xs = [] := by
    obtain ⟨-, h2, -⟩ := hx hcount'
    rw [List.eq_nil_iff_forall_not_mem]
    intro x hm
    obtain ⟨hlt, l1, l2, g1, g2, -, y, hy, hne⟩ := (h2 x.first x.second).1 ⟨x, hm, rfl, rfl⟩
    rw [hnone' _ _ _ _ hlt.ne g1 g2] at hy
    cases hy
    rcases hne with h | h <;> exact h rfl
  subst hxs
  have hpn : pieces.flatten = [] := by
    rw [List.flatten_eq_nil_iff]
    intro ps hps
    obtain ⟨k, hk, rfl⟩ := List.getElem_of_mem hps
    have := List.forall₂_iff_get.1 hpieces
    have h := this.2 k (by rw [this.1]; exact hk) hk
    rw [if_pos (by simp [Untouched])] at h
    exact h
  have hres0 : res = [] := by
    obtain ⟨chains, e1, e2, e3⟩ := hres (by rw [hpn]; simp)
    rw [hpn] at e2
    simp only [List.length_nil, List.range_zero, List.perm_nil, List.flatten_eq_nil_iff] at e2
    cases chains with
    | nil => exact e1
    | cons c t =>
      obtain ⟨c, b⟩ := c
      obtain ⟨⟨first, h1, -⟩, -⟩ := e3
      rw [e2 c (by simp)] at h1
      simp at h1
  subst hres0
  rw [wholeLoops_nil, hccw', List.filter_filter, List.filter_nil, List.map_nil, List.append_nil] at rc
  rw [wholeLoops_nil, hcw', List.filter_filter, List.filter_nil, List.map_nil, List.append_nil] at rw'
  refine ⟨?_, ?_⟩
  · rw [rc]
    apply List.filter_congr
    intro x _
    simp only [Bool.decide_and, Bool.and_comm]
  · rw [rw']
    apply List.filter_congr
    intro x _
    simp only [Bool.decide_and, Bool.and_comm]
end
end
end Cavc

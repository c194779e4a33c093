import Verif.Proofs.IslandWinds
import Verif.Proofs.SelLoops
import Verif.Proofs.OffsetEdges

/-! The parts of a closed polyline, cut wherever it comes to a distance from some polygons, that keep that distance. -/
namespace Cavc
open Spec
open scoped Classical
open Filter Topology
noncomputable section

/-- Not closer than `d` to any of the polygons. -/
def ClearAll (F : List Polyline) (d : ℝ) (z : V2) : Prop := ∀ o ∈ F, NotCloser o d z

/-- Further away than `d` from all of the polygons. -/
def FarAll (F : List Polyline) (d : ℝ) (z : V2) : Prop := ∀ o ∈ F, ∀ w, OnPline o w → d < distance z w

/-- `z` is at the distance `d` from one of the polygons. -/
def TouchAll (F : List Polyline) (d : ℝ) (z : V2) : Prop := ∃ o ∈ F, ∃ w, OnPline o w ∧ distance z w = d

theorem clear_far {F : List Polyline} {d : ℝ} {z : V2} (h : ClearAll F d z) (ht : ¬ TouchAll F d z) : FarAll F d z := by
  intro o ho w hw
  refine lt_of_le_of_ne (h o ho w hw) fun e => ht ⟨o, ho, w, hw, e.symm⟩

theorem FarAll.clear {F : List Polyline} {d : ℝ} {z : V2} (h : FarAll F d z) : ClearAll F d z :=
  fun o ho w hw => (h o ho w hw).le

theorem stretch_const {F : List Polyline} (hF : ∀ o ∈ F, SimplePolygon o) {d : ℝ} (hd : 0 ≤ d) {S : Set (ℝ × ℝ)}
    (hS : IsPreconnected S) (hno : ∀ z ∈ S, ClearAll F d (toV z) → FarAll F d (toV z)) {z z' : ℝ × ℝ} (hz : z ∈ S)
    (hz' : z' ∈ S) (h : ClearAll F d (toV z)) : FarAll F d (toV z') := by
  by_contra hn
  have hU : IsOpen {y : ℝ × ℝ | FarAll F d (toV y)} := isOpen_iff_mem_nhds.2 fun y hy => by
    have := far_list_near hF hd (x := toV y) hy
    rwa [xy_toV] at this
  have hV : IsOpen {y : ℝ × ℝ | ∃ o ∈ F, Closer o d (toV y)} := isOpen_iff_mem_nhds.2 fun y hy => by
    obtain ⟨o, ho, hc⟩ := hy
    have := closer_near hd hc
    rw [xy_toV] at this
    filter_upwards [this] with u hu
    exact ⟨o, ho, hu⟩
  have hdich : ∀ y ∈ S, FarAll F d (toV y) ∨ ∃ o ∈ F, Closer o d (toV y) := by
    intro y hy
    by_cases q : ClearAll F d (toV y)
    · exact Or.inl (hno y hy q)
    · right
      unfold ClearAll NotCloser at q
      push Not at q
      obtain ⟨o, ho, w, hw, hlt⟩ := q
      exact ⟨o, ho, w, hw, hlt⟩
  obtain ⟨y, -, h1, o, ho, w, hw, hlt⟩ := hS _ _ hU hV hdich ⟨z, hz, hno z hz h⟩ ⟨z', hz', (hdich z' hz').resolve_left hn⟩
  have h1 : FarAll F d (toV y) := h1
  linarith [h1 o ho w hw]

/-- The kept parts. -/
structure LoopKept (q : Polyline) (F : List Polyline) (d : ℝ) (cuts : List Cut) (r : List Polyline) : Prop where
  two : ∀ s ∈ r, 2 ≤ s.vertexes.length
  short : ∀ s ∈ r, s.vertexes.length = 2 → beginOf s.vertexes ≠ stopOf s.vertexes
  ends : ∀ s ∈ r, (∃ c ∈ cuts, c.pos = beginOf s.vertexes) ∧ ∃ c ∈ cuts, c.pos = stopOf s.vertexes
  len : r.length ≤ cuts.length
  sub : ∀ e ∈ (r.map fun s => vEdges s.vertexes).flatten, ∃ (k : ℕ) (s t : ℝ), k < q.size ∧ 0 ≤ s ∧ t ≤ 1 ∧
    Sub e.1 ⟨e.2, 0⟩ (rv q k) (rv q (k + 1)) s t
  far : ∀ e ∈ (r.map fun s => vEdges s.vertexes).flatten, ∀ z, eOn z e →
    ClearAll F d z ∧ ((∀ c ∈ cuts, c.pos ≠ z) → FarAll F d z)
  cover : ∀ z, OnPline q z → ClearAll F d z → (∀ c ∈ cuts, c.pos ≠ z) →
    ∃ e ∈ (r.map fun s => vEdges s.vertexes).flatten, eOn z e
  once : ∀ X : Set V2, (∀ z, PassedTwice q z → z ∈ X) → cornerSet q ⊆ X →
    (∀ e ∈ (r.map fun s => vEdges s.vertexes).flatten, e.1.pos ∈ X ∧ e.2 ∈ X) →
    (r.map fun s => vEdges s.vertexes).flatten.Pairwise fun e f => ∀ z, z ∉ X → eOn z e → ¬ eOn z f

set_option maxHeartbeats 1000000 in
theorem loop_kept {q : Polyline} {F : List Polyline} {d : ℝ} {cuts : List Cut} {r : List Polyline} {P : V2 → Prop}
    (hF : ∀ o ∈ F, SimplePolygon o) (hd : 0 ≤ d) (hc : q.isClosed = true) (hok : PlineOk q) (hne : cuts ≠ [])
    (hex : CleanCuts q cuts) (hov : ∀ c ∈ cuts, c.overlap = false)
    (hcomp : ∀ k v e z, IsSeg q k v e → OnSeg v e z → ClearAll F d z → TouchAll F d z → ∃ c ∈ cuts, c.seg = k ∧ c.pos = z)
    (hP : ∀ z, P z ↔ ClearAll F d z) (hk : KeptSlices q cuts P r) : LoopKept q F d cuts r := by
  obtain ⟨cs, os, hperm, hal, hlen, hsl, hr⟩ := hk
  have hcne : cs ≠ [] := by rintro rfl; exact hne (List.nil_perm.1 hperm)
  have hcl := cleanCuts_perm hperm hex
  have h2 : 2 ≤ q.size := by
    obtain ⟨c, hcm⟩ := List.exists_mem_of_ne_nil _ hne
    obtain ⟨v, e, t, hs, -⟩ := hex.inside c hcm
    exact (seg_rv hc hs).2.1
  have hpne : ∀ k, (rv q k).pos ≠ (rv q (k + 1)).pos := exact_ne hc h2 hcl
  obtain ⟨T, g, hg⟩ := exists_cutPos hc h2 hok hcl hal hcne
  have hN : 0 < cs.length := List.length_pos_iff.2 hcne
  have hg0 := hg.nonneg hcne
  have hgi : ∀ {i}, i ≤ cs.length → 0 < g i := fun {i} hi => hg0.trans_le (hg.le (Nat.zero_le i) hi)
  have hmem : ∀ c, c ∈ cs ↔ c ∈ cuts := fun c => hperm.mem_iff
  -- nothing between cuts touches
  have hbt : ∀ {i}, i < cs.length → ∀ u, g i < u → u < g (i + 1) → ClearAll F d (trace q u) → FarAll F d (trace q u) := by
    intro i hi u h0 h1 hcu
    refine clear_far hcu fun ht => ?_
    exact hg.none_between hc h2 hok hcl (P := fun z => ClearAll F d z ∧ TouchAll F d z) (by
      intro k v e x a1 a2 a3
      obtain ⟨c, m, e⟩ := hcomp k v e x a1 a2 a3.1 a3.2
      exact ⟨c, (hmem c).2 m, e⟩) hcne hi h0 h1 ⟨hcu, ht⟩
  have hall : ∀ {i}, i < cs.length → ∀ {u u'}, g i < u → u < g (i + 1) → g i < u' → u' < g (i + 1) →
      ClearAll F d (trace q u) → FarAll F d (trace q u') := by
    intro i hi u u' a1 a2 b1 b2 hcu
    have hconn := trace_conn (p := q) (a := g i) (b := g (i + 1)) (hgi hi.le).le
    have := stretch_const hF hd hconn (z := xy (trace q u)) (z' := xy (trace q u')) (by
      rintro _ ⟨_, ⟨w, hw, rfl⟩, rfl⟩ hcw
      rw [toV_xy] at hcw ⊢
      exact hbt hi w hw.1 hw.2 hcw) ⟨_, ⟨u, ⟨a1, a2⟩, rfl⟩, rfl⟩ ⟨_, ⟨u', ⟨b1, b2⟩, rfl⟩, rfl⟩ (by rw [toV_xy]; exact hcu)
    rwa [toV_xy] at this
  obtain ⟨keep, hkeep⟩ : ∃ keep : ℕ → Prop, ∀ i, keep i ↔ ∃ u, g i < u ∧ u < g (i + 1) ∧ ClearAll F d (trace q u) :=
    ⟨_, fun _ => Iff.rfl⟩
  have hf : ∀ i, ∃ f : Polyline, i < cs.length → 2 ≤ f.vertexes.length ∧ Along q (g i) f.vertexes (g (i + 1)) ∧
      f.isClosed = false ∧ os[i]? = some (if keep i then some f else none) := by
    intro i
    by_cases hi : i < cs.length
    · obtain ⟨f, u, f1, f2, f3, f4, f5, f6⟩ := slice_arc hg hc h2 hok hcl
        (fun c hc => hov c ((hmem c).1 hc)) (hsl i _ (List.getElem?_eq_getElem (by omega)))
      refine ⟨f, fun _ => ⟨f2, f3, f1, ?_⟩⟩
      rw [List.getElem?_eq_getElem (by omega), f6]
      congr 1
      have e : P (trace q u) ↔ keep i := by
        rw [hkeep, hP]
        exact ⟨fun h => ⟨u, f4, f5, h⟩, fun ⟨w, w1, w2, w3⟩ => (hall hi w1 w2 f4 f5 w3).clear⟩
      by_cases hki : keep i
      · rw [if_pos hki, if_pos (e.2 hki)]
      · rw [if_neg hki, if_neg fun hh => hki (e.1 hh)]
    · exact ⟨Polyline.empty, fun h => absurd h hi⟩
  choose f hf using hf
  have hrp : r.Perm (((List.range cs.length).filter fun j => decide (keep j)).map f) := by
    refine hr.trans (List.Perm.of_eq ?_)
    have e1 : os = (List.range cs.length).map fun i => if keep i then some (f i) else none := by
      apply List.ext_getElem?
      intro i
      by_cases hi : i < cs.length
      · rw [(hf i hi).2.2.2, List.getElem?_map, List.getElem?_range hi]
        rfl
      · rw [List.getElem?_eq_none (by omega), List.getElem?_eq_none (by simp; omega)]
    rw [e1]
    generalize List.range cs.length = l
    induction l with
    | nil => rfl
    | cons j l ih =>
      by_cases hj : keep j
      · rw [List.filter_cons_of_pos (by simpa using hj), List.map_cons, if_pos hj, List.map_cons,
          List.filterMap_cons_some (by rfl), ih]
      · rw [List.filter_cons_of_neg (by simpa using hj), List.map_cons, if_neg hj,
          List.filterMap_cons_none (by rfl), ih]
  have hkept : ∀ s, s ∈ r ↔ ∃ j < cs.length, keep j ∧ f j = s := by
    intro s
    rw [hrp.mem_iff, List.mem_map]
    simp only [List.mem_filter, List.mem_range, decide_eq_true_eq, and_assoc]
  have hbe : ∀ {j}, j < cs.length → beginOf (f j).vertexes = trace q (g j) ∧ stopOf (f j).vertexes = trace q (g (j + 1)) := by
    intro j hj
    obtain ⟨u, hu, hu'⟩ := (hf j hj).2.1.head
    obtain ⟨w, hw, hw'⟩ := (hf j hj).2.1.last
    rw [← hu', ← hw']
    exact ends_beginOf ⟨u, w, hu, hw, rfl, rfl⟩
  have hmemE : ∀ {e}, e ∈ (r.map fun s => vEdges s.vertexes).flatten ↔
      ∃ j < cs.length, keep j ∧ e ∈ vEdges (f j).vertexes := by
    intro e
    rw [List.mem_flatten]
    constructor
    · rintro ⟨l, hl, he⟩
      obtain ⟨s, hs, rfl⟩ := List.mem_map.1 hl
      obtain ⟨j, hj, hk, rfl⟩ := (hkept s).1 hs
      exact ⟨j, hj, hk, he⟩
    · rintro ⟨j, hj, hk, he⟩
      exact ⟨_, List.mem_map.2 ⟨f j, (hkept _).2 ⟨j, hj, hk, rfl⟩, rfl⟩, he⟩
  have hcutpos : ∀ {j}, j ≤ cs.length → ∃ c ∈ cuts, c.pos = trace q (g j) := by
    intro j hj
    rcases Nat.lt_or_ge j cs.length with h | h
    · exact ⟨cs[j], (hmem _).1 (List.getElem_mem h), (hg.trace (List.getElem?_eq_getElem h)).symm⟩
    · have hj : j = cs.length := le_antisymm hj h
      rw [hj, hg.around, trace_per q hg0.le]
      exact ⟨cs[0], (hmem _).1 (List.getElem_mem hN), (hg.trace (List.getElem?_eq_getElem hN)).symm⟩
  refine ⟨?_, ?_, ?_, ?_, ?_, ?_, ?_, ?_⟩
  · intro s hs
    obtain ⟨j, hj, -, rfl⟩ := (hkept s).1 hs
    exact (hf j hj).1
  · intro s hs hl
    obtain ⟨j, hj, -, rfl⟩ := (hkept s).1 hs
    have ha := (hf j hj).2.1
    generalize (f j).vertexes = vs at ha hl
    match vs, hl with
    | [u, w], _ =>
      obtain ⟨k, s, t, -, -, -, hsub, -⟩ := ha
      have := ne_of_not_near (by norm_num) hsub.far
      simpa [beginOf, stopOf, posns] using this
  · intro s hs
    obtain ⟨j, hj, -, rfl⟩ := (hkept s).1 hs
    rw [(hbe hj).1, (hbe hj).2]
    exact ⟨hcutpos hj.le, hcutpos hj⟩
  · rw [hrp.length_eq, List.length_map, ← hperm.length_eq]
    exact (List.length_filter_le _ _).trans (by simp)
  · intro e he
    obtain ⟨j, hj, -, he⟩ := hmemE.1 he
    exact along_subs (by omega) (hf j hj).2.1 e he
  · intro e he z hz
    obtain ⟨j, hj, hkj, he⟩ := hmemE.1 he
    obtain ⟨c, c', r1, r2, r3⟩ := (along_ranged (hf j hj).2.1).1 e he
    obtain ⟨y, y0, y1, rfl⟩ := (r3.on z).1 hz
    obtain ⟨u, u1, u2, u3⟩ := (hkeep j).1 hkj
    have hin : ∀ y, g j < y → y < g (j + 1) → FarAll F d (trace q y) := fun y a b => hall hj u1 u2 a b u3
    constructor
    · intro o ho
      exact notCloser_closure (hgi hj.le).le (hg.mono j hj) (fun y a b => (hin y a b).clear o ho)
        (by linarith) (by linarith)
    · intro hnc
      refine hin y (lt_of_le_of_ne (by linarith) ?_) (lt_of_le_of_ne (by linarith) ?_)
      · rintro rfl
        obtain ⟨c, hc, e⟩ := hcutpos hj.le
        exact hnc c hc e
      · rintro rfl
        obtain ⟨c, hc, e⟩ := hcutpos (j := j + 1) hj
        exact hnc c hc e
  · intro z hz hcz hnc
    obtain ⟨y, y0, y1, rfl⟩ := (onPline_trace hc h2).1 hz
    obtain ⟨i, hi, y', a1, a2, e⟩ := hg.cover hcne y0 y1
    rw [← e] at hcz hnc ⊢
    have b1 : g i < y' := lt_of_le_of_ne a1 (by
      rintro rfl
      obtain ⟨c, hc, e⟩ := hcutpos hi.le
      exact hnc c hc e)
    have b2 : y' < g (i + 1) := lt_of_le_of_ne a2 (by
      rintro rfl
      obtain ⟨c, hc, e⟩ := hcutpos (j := i + 1) hi
      exact hnc c hc e)
    have hki : keep i := (hkeep i).2 ⟨y', b1, b2, hcz⟩
    obtain ⟨f1, f2, f3, -⟩ := hf i hi
    obtain ⟨e', he', hz'⟩ := onPline_vEdges.1 ((f2.onPline f1 (trace q y')).2 ⟨y', a1, a2, rfl⟩)
    exact ⟨e', hmemE.2 ⟨i, hi, hki, he'⟩, hz'⟩
  · intro X xpass xcor xend
    have hone : ∀ z, z ∉ X → (r.map fun s => vEdges s.vertexes).flatten.Pairwise fun e f => eOn z e → ¬ eOn z f := by
      intro z hz
      have hzp : ¬ PassedTwice q z := fun q => hz (xpass z q)
      have hzv : ∀ k, z ≠ (rv q k).pos := fun k q => hz (q ▸ xcor ⟨k, rfl⟩)
      have hsize : ∀ {i}, i < cs.length → g (i + 1) ≤ g 0 + q.size := fun {i} hi => by
        rw [← hg.around]; exact hg.le hi le_rfl
      have hp1 := (hrp.map fun s => vEdges s.vertexes).flatten
      rw [hp1.pairwise_iff (fun {a b} hab hb ha => hab ha hb), List.pairwise_flatten, List.map_map]
      constructor
      · intro l hl
        obtain ⟨j, hj, rfl⟩ := List.mem_map.1 hl
        simp only [List.mem_filter, List.mem_range, decide_eq_true_eq] at hj
        have hsz := hsize hj.1
        have hgj : g 0 ≤ g j := hg.le (Nat.zero_le _) hj.1.le
        refine (List.pairwise_iff_forall_sublist.2 ?_)
        intro e f' hef hz1
        obtain ⟨c, d, c', d', r1, r2, r3, r4, r5⟩ := List.pairwise_iff_forall_sublist.1 (along_ranged (hf j hj.1).2.1).2 hef
        have hem : e ∈ (r.map fun s => vEdges s.vertexes).flatten := hmemE.2 ⟨j, hj.1, hj.2, hef.subset (by simp)⟩
        exact r1.once hc h2 hok hpne r2 (by linarith) r4 (by linarith) hzp hzv
          (fun q => hz (q ▸ (xend e hem).1)) (fun q => hz (q ▸ (xend e hem).2)) hz1
      · rw [List.pairwise_map]
        refine List.Pairwise.imp_of_mem ?_ (List.Pairwise.filter (R := (· < ·)) (fun j => decide (keep j)) List.pairwise_lt_range)
        intro i j hi hj hij e he f' hf' hz1
        simp only [List.mem_filter, List.mem_range, decide_eq_true_eq] at hi hj
        have a1 := (hf i hi.1).2.1
        have a2 := (hf j hj.1).2.1
        obtain ⟨c, d, r1, r2, r3⟩ := (along_ranged a1).1 e he
        obtain ⟨c', d', r1', r2', r3'⟩ := (along_ranged a2).1 f' hf'
        have hsz := hsize hj.1
        have hgi : g 0 ≤ g i := hg.le (Nat.zero_le _) hi.1.le
        have hgj : g (i + 1) ≤ g j := hg.le hij hj.1.le
        have hem : e ∈ (r.map fun s => vEdges s.vertexes).flatten := hmemE.2 ⟨i, hi.1, hi.2, he⟩
        exact r3.once hc h2 hok hpne r3' (by linarith) (by linarith) (by linarith) hzp hzv
          (fun q => hz (q ▸ (xend e hem).1)) (fun q => hz (q ▸ (xend e hem).2)) hz1
    rw [List.pairwise_iff_getElem]
    intro i j hi hj hij z hz
    exact List.pairwise_iff_getElem.1 (hone z hz) i j hi hj hij

/-- A loop that nowhere comes to that distance, unless it is too close there, keeps it everywhere or nowhere. -/
theorem loop_whole {q : Polyline} {F : List Polyline} {d : ℝ} (hF : ∀ o ∈ F, SimplePolygon o) (hd : 0 ≤ d)
    (hno : ∀ z, OnPline q z → ClearAll F d z → ¬ TouchAll F d z) {x y : V2} (hx : OnPline q x) (hy : OnPline q y)
    (h : ClearAll F d x) : FarAll F d y := by
  have := stretch_const hF hd (connected_pline q) (z := xy x) (z' := xy y) (by
    rintro _ ⟨w, hw, rfl⟩ hcw
    rw [toV_xy] at hcw ⊢
    exact clear_far hcw (hno w hw hcw)) ⟨x, hx, rfl⟩ ⟨y, hy, rfl⟩ (by rw [toV_xy]; exact h)
  rwa [toV_xy] at this

end
end Cavc

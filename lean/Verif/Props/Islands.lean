import Verif.Spec.Islands
import Verif.Props.CombineRect
import Verif.Props.CombineRun

/-! C53, C54: the offset of a set of loops. -/
namespace Cavc
open Spec
open scoped Classical
noncomputable section

/-! ### Loops over lists -/

theorem foldlM_inv {σ α : Type} {Inv : σ → Prop} {f : σ → α → M σ} : ∀ (l : List α) (st st' : σ),
    (∀ st x st', x ∈ l → Inv st → f st x = .ok st' → Inv st') → Inv st → l.foldlM f st = .ok st' →
    Inv st'
  | [], st, st', _, hi, h => by
    cases h
    exact hi
  | a :: l, st, st', hf, hi, h => by
    rw [List.foldlM_cons] at h
    obtain ⟨s1, h1, h⟩ := bind_eq_ok.1 h
    exact foldlM_inv l s1 st' (fun s x s' hx => hf s x s' (by simp [hx])) (hf _ _ _ (by simp) hi h1) h

theorem get_eq (s : OffsetLoopSet) (i : ℕ) : s.get i = getM (loopsOf s) i := by
  unfold OffsetLoopSet.get loopsOf
  by_cases h : i < s.ccwLoops.length
  · rw [if_pos h]
    unfold getM
    rw [List.getElem?_append_left h]
  · rw [if_neg h]
    unfold getM
    rw [List.getElem?_append_right (by omega)]

theorem getM_some {α : Type} {l : List α} {i : ℕ} {x : α} (h : getM l i = .ok x) : l[i]? = some x := by
  unfold getM at h
  cases hh : l[i]? with
  | none => rw [hh] at h; cases h
  | some y => rw [hh] at h; cases h; rfl

/-! ### createOffsetLoops -/

section
variable {pf : Platform} {std : StdSort} {hash : HashOrder} {input : OffsetLoopSet} {delta : ℝ}

/-- The loops collected so far. -/
structure GoodLoops (pf : Platform) (std : StdSort) (hash : HashOrder) (input : OffsetLoopSet)
    (delta : ℝ) (s : OffsetLoopSet) : Prop where
  ccw : ∀ l ∈ s.ccwLoops, OffsetOf pf std hash input delta l ∧ Indexed pf l ∧ CounterClockwise l.polyline
  cw : ∀ l ∈ s.cwLoops, OffsetOf pf std hash input delta l ∧ Indexed pf l ∧ Clockwise l.polyline

theorem addCcw_good {k : ℕ} {parent : OffsetLoop} {offsets : List Polyline}
    (hp : (loopsOf input)[k]? = some parent)
    (ho : parallelOffset pf std hash parent.polyline |delta| = .ok offsets) {s s' : OffsetLoopSet}
    {q : Polyline} (hq : q ∈ offsets) (hs : GoodLoops pf std hash input delta s)
    (h : addCcwOffset pf k s q = .ok s') : GoodLoops pf std hash input delta s' := by
  unfold addCcwOffset at h
  obtain ⟨a, ha, h⟩ := bind_eq_ok.1 h
  split_ifs at h with c
  · cases h; exact hs
  · obtain ⟨idx, hi, h⟩ := bind_eq_ok.1 h
    cases h
    refine ⟨?_, hs.cw⟩
    intro l hl
    rw [List.mem_append, List.mem_singleton] at hl
    rcases hl with hl | rfl
    · exact hs.ccw l hl
    · exact ⟨⟨parent, offsets, hp, ho, hq⟩, hi, a, ha, not_lt.1 c⟩

theorem addCw_good {k : ℕ} {parent : OffsetLoop} {offsets : List Polyline}
    (hp : (loopsOf input)[k]? = some parent)
    (ho : parallelOffset pf std hash parent.polyline |delta| = .ok offsets) {s s' : OffsetLoopSet}
    {q : Polyline} (hq : q ∈ offsets) (hs : GoodLoops pf std hash input delta s)
    (h : addCwOffset pf k s q = .ok s') : GoodLoops pf std hash input delta s' := by
  unfold addCwOffset at h
  obtain ⟨idx, hi, h⟩ := bind_eq_ok.1 h
  obtain ⟨a, ha, h⟩ := bind_eq_ok.1 h
  split_ifs at h with c
  · cases h
    refine ⟨hs.ccw, ?_⟩
    intro l hl
    rw [List.mem_append, List.mem_singleton] at hl
    rcases hl with hl | rfl
    · exact hs.cw l hl
    · exact ⟨⟨parent, offsets, hp, ho, hq⟩, hi, a, ha, c⟩
  · cases h
    refine ⟨?_, hs.cw⟩
    intro l hl
    rw [List.mem_append, List.mem_singleton] at hl
    rcases hl with hl | rfl
    · exact hs.ccw l hl
    · exact ⟨⟨parent, offsets, hp, ho, hq⟩, hi, a, ha, not_lt.1 c⟩

theorem offsetLoops_good {add : ℕ → OffsetLoopSet → Polyline → M OffsetLoopSet}
    (hadd : ∀ k parent offsets s s' q, (loopsOf input)[k]? = some parent →
      parallelOffset pf std hash parent.polyline |delta| = .ok offsets → q ∈ offsets →
      GoodLoops pf std hash input delta s → add k s q = .ok s' → GoodLoops pf std hash input delta s') :
    ∀ (xs : List OffsetLoop) (k : ℕ) (s : OffsetLoopSet) (st' : ℕ × OffsetLoopSet),
      (∀ t l, xs[t]? = some l → (loopsOf input)[k + t]? = some l) →
      GoodLoops pf std hash input delta s →
      xs.foldlM (offsetLoopsOf pf std hash |delta| add) (k, s) = .ok st' →
      st'.1 = k + xs.length ∧ GoodLoops pf std hash input delta st'.2
  | [], k, s, st', _, hs, h => by
    cases h
    exact ⟨rfl, hs⟩
  | x :: xs, k, s, st', hx, hs, h => by
    rw [List.foldlM_cons] at h
    obtain ⟨st1, h1, h⟩ := bind_eq_ok.1 h
    unfold offsetLoopsOf at h1
    obtain ⟨offsets, ho, h1⟩ := bind_eq_ok.1 h1
    obtain ⟨s1, hs1, h1⟩ := bind_eq_ok.1 h1
    cases h1
    have hg := foldlM_inv (Inv := GoodLoops pf std hash input delta) offsets s s1
      (fun st q st' hq hi hr => hadd k x offsets st st' q (by simpa using hx 0 x rfl) ho hq hi hr) hs hs1
    obtain ⟨e1, e2⟩ := offsetLoops_good hadd xs (k + 1) s1 st' (by
      intro t l ht
      have := hx (t + 1) l (by simpa using ht)
      rw [show k + (t + 1) = k + 1 + t by omega] at this
      exact this) hg h
    exact ⟨by rw [e1, List.length_cons]; omega, e2⟩

theorem createOffsetLoops_good {loops : OffsetLoopSet}
    (h : createOffsetLoops pf std hash input |delta| = .ok loops) :
    GoodLoops pf std hash input delta loops := by
  unfold createOffsetLoops at h
  obtain ⟨st1, h1, h⟩ := bind_eq_ok.1 h
  obtain ⟨st2, h2, h⟩ := bind_eq_ok.1 h
  cases h
  obtain ⟨a1, a2⟩ := offsetLoops_good (input := input) (delta := delta) (add := addCcwOffset pf)
    (fun k p o s s' q hp ho hq hs hr => addCcw_good hp ho hq hs hr) input.ccwLoops 0 ⟨[], []⟩ st1 (by
      intro t l ht
      unfold loopsOf
      rw [zero_add, List.getElem?_append_left (by
        rw [List.getElem?_eq_some_iff] at ht
        exact ht.1)]
      exact ht) ⟨by simp, by simp⟩ h1
  obtain ⟨k, s⟩ := st1
  simp only [zero_add] at a1 a2
  subst a1
  exact (offsetLoops_good (add := addCwOffset pf)
    (fun k p o s s' q hp ho hq hs hr => addCw_good hp ho hq hs hr) input.cwLoops _ s st2 (by
      intro t l ht
      unfold loopsOf
      rw [List.getElem?_append_right (by omega)]
      simpa using ht) a2 h2).2

/-! ### pointOnOffsetValid -/

theorem validLoop_true {skip : ℕ} {pt : V2} {d : ℝ} : ∀ is : List ℕ,
    pointOnOffsetValidLoop input skip pt d is = .ok true → ∀ i ∈ is, i ≠ skip →
      ∃ l, (loopsOf input)[i]? = some l ∧
        pointValidForOffset l.polyline d l.spatialIndex pt = .ok true
  | [], _, i, hi, _ => by simp at hi
  | j :: is, h, i, hi, hne => by
    unfold pointOnOffsetValidLoop at h
    rcases List.mem_cons.1 hi with rfl | hi
    · rw [if_neg hne] at h
      obtain ⟨l, hl, h⟩ := bind_eq_ok.1 h
      obtain ⟨b, hb, h⟩ := bind_eq_ok.1 h
      rw [get_eq] at hl
      cases b with
      | true => exact ⟨l, getM_some hl, hb⟩
      | false => simp at h
    · by_cases hj : j = skip
      · rw [if_pos hj] at h
        exact validLoop_true is h i hi hne
      · rw [if_neg hj] at h
        obtain ⟨l, hl, h⟩ := bind_eq_ok.1 h
        obtain ⟨b, hb, h⟩ := bind_eq_ok.1 h
        cases b with
        | true => exact validLoop_true is h i hi hne
        | false => simp at h

/-- An input loop the offset is specified for: lines and arcs of at most a half circle, with the
spatial index of its polyline. -/
structure LoopOk (pf : Platform) (l : OffsetLoop) : Prop where
  ok : PlineOk l.polyline
  indexable : Indexable pf l.polyline
  indexed : Indexed pf l

theorem LoopOk.indexOf {l : OffsetLoop} (h : LoopOk pf l) :
    IndexOf (segBoxes l.polyline) l.spatialIndex := by
  obtain ⟨s, h1, h2⟩ := h.indexable.indexOf
  have := h.indexed
  unfold Indexed at this
  rw [h1] at this
  cases this
  exact h2

theorem validPoint_clear (hin : ∀ l ∈ loopsOf input, LoopOk pf l) (hd : 1 / 10 ^ 4 ≤ |delta|)
    {skip : ℕ} {pt : V2} (h : pointOnOffsetValid input skip pt |delta| = .ok true) :
    ClearOfOthers input delta skip pt := by
  intro i l hne hl
  have hlt : i < (loopsOf input).length := (List.getElem?_eq_some_iff.1 hl).1
  obtain ⟨l', hl', hv⟩ := validLoop_true _ h i (by
    rw [List.mem_range]
    unfold loopsOf at hlt
    rw [List.length_append] at hlt
    exact hlt) hne
  rw [hl] at hl'
  cases hl'
  have hk := hin l (List.mem_of_getElem? hl)
  obtain ⟨s, b, h1, h2, h3, -⟩ := C39_pointValidForOffset hk.indexable hk.ok |delta| offsetThreshold
    (by rw [abs_abs]; exact hd) pt
  have hi := hk.indexed
  unfold Indexed at hi
  rw [h1] at hi
  cases hi
  rw [hv] at h2
  cases h2
  have := h3 rfl
  rw [abs_abs] at this
  exact this

/-! ### Slices -/

/-- A kept slice as the code knows it. -/
def Kept (valid : V2 → M Bool) (s : DissectedSlice) : Prop :=
  s.pline.isClosed = false ∧ ∃ l u w m, s.pline.vertexes = l ++ [u, w] ∧ segMidpoint u w = .ok m ∧
    valid m = .ok true

theorem endSlice_open {pline : Polyline} {i : ℕ} {x : V2} {cur q : Polyline}
    (h : endSlice pline i x cur = .ok q) (hc : cur.isClosed = false) : q.isClosed = false := by
  unfold endSlice at h
  obtain ⟨a, -, h⟩ := bind_eq_ok.1 h
  obtain ⟨b, -, h⟩ := bind_eq_ok.1 h
  obtain ⟨c, -, h⟩ := bind_eq_ok.1 h
  obtain ⟨d, hd, h⟩ := bind_eq_ok.1 h
  cases h
  unfold Polyline.setLast at hd
  split_ifs at hd with hh
  cases hd
  unfold addOrReplaceIfSamePos
  split
  · exact hc
  · split_ifs <;> exact hc

theorem dissectLoop_open {pline : Polyline} {lookup : DissectLookup} : ∀ (fuel i : ℕ)
    (cur : Polyline) (r : Polyline × ℕ), cur.isClosed = false →
    dissectLoop pline lookup fuel i cur = .ok r → r.1.isClosed = false
  | 0, i, cur, r, _, h => by cases h
  | fuel + 1, i, cur, r, hc, h => by
    unfold dissectLoop at h
    obtain ⟨v, -, h⟩ := bind_eq_ok.1 h
    simp only at h
    have hc' : (addOrReplaceIfSamePos cur v).isClosed = false := by rw [addOrReplace_closed, hc]
    cases hf : lookup.find? i with
    | none =>
      rw [hf] at h
      exact dissectLoop_open fuel _ _ r hc' h
    | some ps =>
      rw [hf] at h
      cases ps with
      | nil => cases h
      | cons p rest =>
        simp only at h
        obtain ⟨q, hq, h⟩ := bind_eq_ok.1 h
        cases h
        exact endSlice_open hq hc'

theorem betweenDissect_kept {e : DissectEnv} {ev : Vertex} {P : DissectedSlice → Prop}
    (hP : ∀ s, Kept e.valid s → s.sliceParentIndex = e.loopIndex → P s) :
    ∀ (ps : List DissectionPoint) (prev : DissectionPoint) (pv : Vertex)
    (result out : List DissectedSlice), (∀ s ∈ result, P s) →
    betweenDissect e ev prev ps pv result = .ok out → ∀ s ∈ out, P s
  | [], _, _, result, out, hr, h => by
    unfold betweenDissect at h
    cases h
    exact hr
  | p :: rest, prev, pv, result, out, hr, h => by
    unfold betweenDissect at h
    obtain ⟨split, -, h⟩ := bind_eq_ok.1 h
    split_ifs at h with c
    · exact betweenDissect_kept hP rest p _ result out hr h
    · obtain ⟨m, hm, h⟩ := bind_eq_ok.1 h
      obtain ⟨b, hb, h⟩ := bind_eq_ok.1 h
      refine betweenDissect_kept hP rest p _ _ out ?_ h
      intro s hs
      cases b with
      | false => exact hr s hs
      | true =>
        simp only [if_true] at hs
        rw [List.mem_append, List.mem_singleton] at hs
        rcases hs with hs | rfl
        · exact hr s hs
        · exact hP _ ⟨rfl, [], _, _, m, rfl, hm, hb⟩ rfl

theorem innerDissect_kept {e : DissectEnv} {sv ev : Vertex} {ps : List DissectionPoint}
    {result out : List DissectedSlice} {P : DissectedSlice → Prop}
    (hP : ∀ s, Kept e.valid s → s.sliceParentIndex = e.loopIndex → P s) (hr : ∀ s ∈ result, P s)
    (h : innerDissect e sv ev ps result = .ok out) : ∀ s ∈ out, P s := by
  unfold innerDissect at h
  by_cases c : ps.length ≠ 1
  · rw [if_pos c] at h
    cases ps with
    | nil => cases h
    | cons p rest =>
      simp only at h
      obtain ⟨sp, -, h⟩ := bind_eq_ok.1 h
      exact betweenDissect_kept hP _ _ _ _ _ hr h
  · rw [if_neg c] at h
    cases h
    exact hr

theorem last_two {l : List Vertex} (h : 2 ≤ l.length) : ∃ a u w, l = a ++ [u, w] := by
  have h1 : l ≠ [] := by intro h0; rw [h0] at h; simp at h
  have h2 : l.dropLast ≠ [] := by
    intro h0
    have := congrArg List.length h0
    rw [List.length_dropLast] at this
    simp at this
    omega
  refine ⟨l.dropLast.dropLast, l.dropLast.getLast h2, l.getLast h1, ?_⟩
  rw [show l.dropLast.dropLast ++ [l.dropLast.getLast h2, l.getLast h1] =
    (l.dropLast.dropLast ++ [l.dropLast.getLast h2]) ++ [l.getLast h1] by simp,
    List.dropLast_append_getLast h2, List.dropLast_append_getLast h1]

theorem outerDissect_kept {e : DissectEnv} {lookup : DissectLookup} {k : ℕ} {sv ev : Vertex}
    {ps : List DissectionPoint} {result out : List DissectedSlice} {P : DissectedSlice → Prop}
    (hP : ∀ s, Kept e.valid s → s.sliceParentIndex = e.loopIndex → P s) (hr : ∀ s ∈ result, P s)
    (h : outerDissect e lookup k sv ev ps result = .ok out) : ∀ s ∈ out, P s := by
  unfold outerDissect at h
  cases hl : ps.getLast? with
  | none => rw [hl] at h; cases h
  | some back =>
    rw [hl] at h
    simp only at h
    obtain ⟨split, -, h⟩ := bind_eq_ok.1 h
    obtain ⟨⟨q, en⟩, hq, h⟩ := bind_eq_ok.1 h
    have ho := dissectLoop_open _ _ _ _ rfl hq
    simp only at h ho
    split_ifs at h with c
    · obtain ⟨v1, h1, h⟩ := bind_eq_ok.1 h
      obtain ⟨v2, h2, h⟩ := bind_eq_ok.1 h
      obtain ⟨m, hm, h⟩ := bind_eq_ok.1 h
      obtain ⟨b, hb, h⟩ := bind_eq_ok.1 h
      cases h
      cases b with
      | false => exact hr
      | true =>
        intro s hs
        simp only [if_true] at hs
        rw [List.mem_append, List.mem_singleton] at hs
        rcases hs with hs | rfl
        · exact hr s hs
        · obtain ⟨a, u, w, hv⟩ := last_two (l := q.vertexes) c
          refine hP _ ⟨ho, a, u, w, m, hv, ?_, hb⟩ rfl
          have e1 : q.at (q.size - 2) = .ok u := by
            unfold Polyline.at getM Polyline.size
            rw [hv]; simp
          have e2 : q.lastVertex = .ok w := by
            unfold Polyline.lastVertex
            rw [hv]; simp
          rw [e1] at h1
          rw [e2] at h2
          cases h1
          cases h2
          exact hm
    · cases h
      exact hr

theorem createSlices_kept {loops : OffsetLoopSet} {sp : SlicePointState} {d : ℝ} {i : ℕ}
    {result out : List DissectedSlice} {P : DissectedSlice → Prop} (hr : ∀ s ∈ result, P s)
    (hP : ∀ l, (loopsOf loops)[i]? = some l → ∀ s, Kept (fun pt =>
      pointOnOffsetValid input l.parentLoopIndex pt d) s → s.sliceParentIndex = i → P s)
    (h : createSlicesFromLoop std hash input loops sp d i result = .ok out) : ∀ s ∈ out, P s := by
  unfold createSlicesFromLoop at h
  obtain ⟨l, hl, h⟩ := bind_eq_ok.1 h
  obtain ⟨si, -, h⟩ := bind_eq_ok.1 h
  obtain ⟨lk, -, h⟩ := bind_eq_ok.1 h
  obtain ⟨lk', -, h⟩ := bind_eq_ok.1 h
  rw [get_eq] at hl
  simp only at h
  refine foldlM_inv (Inv := fun r : List DissectedSlice => ∀ s ∈ r, P s) _ result out ?_ hr h
  intro r kv r' _ hi hstep
  unfold dissectStep at hstep
  obtain ⟨sv, -, hstep⟩ := bind_eq_ok.1 hstep
  obtain ⟨ev, -, hstep⟩ := bind_eq_ok.1 hstep
  obtain ⟨r1, h1, h2⟩ := bind_eq_ok.1 hstep
  have hP' := hP l (getM_some hl)
  exact outerDissect_kept (fun s a b => hP' s a b) (innerDissect_kept (fun s a b => hP' s a b) hi h1) h2

/-! ### Stitching -/

/-- A closed polyline put together of slices. -/
def OfSlices (slices : List Polyline) (q : Polyline) : Prop :=
  ∃ c : List ℕ, c ≠ [] ∧ (∀ i ∈ c, i < slices.length) ∧
    3 ≤ (stitched (c.map (pv slices))).length ∧ q = ⟨true, (stitched (c.map (pv slices))).dropLast⟩

theorem closePline_cases {vs : List Vertex} {result result' : List Polyline}
    (h : closePline ⟨false, vs⟩ result = .ok result') :
    ∀ q ∈ result', q ∈ result ∨ (3 ≤ vs.length ∧ q = ⟨true, vs.dropLast⟩) := by
  rw [closePline_run] at h
  cases h
  intro q hq
  rw [List.mem_append] at hq
  rcases hq with hq | hq
  · exact Or.inl hq
  · split_ifs at hq with hc
    · rw [List.mem_singleton] at hq
      exact Or.inr ⟨hc, hq⟩
    · simp at hq

theorem orderedLoop_partial {slices : List Polyline} {index : SIndex ℝ} {sel : StitchSelector} {thr : ℝ}
    {first : ℕ} (hsl : ∀ s ∈ slices, s.vertexes ≠ []) :
    ∀ (fuel curr : ℕ) (vs : List Vertex) (visited : List Bool) (result : List Polyline)
      (out : List Bool × List Polyline), curr < slices.length →
      orderedLoop slices index sel thr first fuel curr ⟨false, vs ++ pv slices curr⟩ visited result =
        .ok out →
      ∀ q ∈ out.2, q ∈ result ∨ ∃ c : List ℕ, (∀ i ∈ c, i < slices.length) ∧
        3 ≤ (vs ++ stitched ((curr :: c).map (pv slices))).length ∧
        q = ⟨true, (vs ++ stitched ((curr :: c).map (pv slices))).dropLast⟩ := by
  intro fuel
  induction fuel with
  | zero => intro curr vs visited result out _ h; cases h
  | succ fuel ih =>
    intro curr vs visited result out hcurr h
    have hne : pv slices curr ≠ [] := by rw [pv_eq hcurr]; exact hsl _ (List.getElem_mem hcurr)
    unfold orderedLoop at h
    obtain ⟨e, -, h⟩ := bind_eq_ok.1 h
    obtain ⟨r, -, h⟩ := bind_eq_ok.1 h
    obtain ⟨cand, -, h⟩ := bind_eq_ok.1 h
    by_cases h0 : cand.length = 0
    · rw [if_pos h0] at h
      cases h
      exact fun q hq => Or.inl hq
    rw [if_neg h0] at h
    obtain ⟨o, -, h⟩ := bind_eq_ok.1 h
    cases o with
    | none =>
      cases h
      exact fun q hq => Or.inl hq
    | some next =>
      simp only at h
      by_cases hn : next = first
      · rw [if_pos hn] at h
        obtain ⟨res, hres, h⟩ := bind_eq_ok.1 h
        cases h
        intro q hq
        rcases closePline_cases hres q hq with hq | hq
        · exact Or.inl hq
        · exact Or.inr ⟨[], by simp, by simpa [stitched] using hq⟩
      · rw [if_neg hn] at h
        obtain ⟨s, hs, h⟩ := bind_eq_ok.1 h
        obtain ⟨popped, hp, h⟩ := bind_eq_ok.1 h
        obtain ⟨vis, -, h⟩ := bind_eq_ok.1 h
        have hpop : Polyline.popBack ⟨false, vs ++ pv slices curr⟩ =
            .ok ⟨false, vs ++ (pv slices curr).dropLast⟩ := by
          unfold Polyline.popBack
          rw [if_neg (by simp only; intro h; exact hne (List.append_eq_nil_iff.1 h).2)]
          simp only
          rw [List.dropLast_append_of_ne_nil hne]
        rw [hpop] at hp
        cases hp
        obtain ⟨hlt, hse⟩ := List.getElem?_eq_some_iff.1 (getM_some hs)
        have e1 : s.vertexes = pv slices next := by rw [pv_eq hlt, hse]
        rw [e1] at h
        intro q hq
        rcases ih next _ _ _ out hlt h q hq with hq | ⟨c, h1, h2, h3⟩
        · exact Or.inl hq
        · refine Or.inr ⟨next :: c, ?_, ?_, ?_⟩
          · intro i hi
            rcases List.mem_cons.1 hi with rfl | hi
            · exact hlt
            · exact h1 i hi
          · simpa [stitched, List.append_assoc] using h2
          · rw [h3]
            simp [stitched, List.append_assoc]

theorem orderedOuter_partial {slices : List Polyline} {index : SIndex ℝ} {sel : StitchSelector} {thr : ℝ}
    (hsl : ∀ s ∈ slices, s.vertexes ≠ []) : ∀ (k i : ℕ) (visited : List Bool) (result out : List Polyline),
    orderedOuter slices index sel thr k i visited result = .ok out →
    ∀ q ∈ out, q ∈ result ∨ OfSlices slices q := by
  intro k
  induction k with
  | zero => intro i visited result out h; cases h; exact fun q hq => Or.inl hq
  | succ k ih =>
    intro i visited result out h
    unfold orderedOuter at h
    obtain ⟨b, -, h⟩ := bind_eq_ok.1 h
    cases b with
    | true => exact ih _ _ _ _ h
    | false =>
      simp only [Bool.false_eq_true, if_false] at h
      obtain ⟨vis, -, h⟩ := bind_eq_ok.1 h
      obtain ⟨s, hs, h⟩ := bind_eq_ok.1 h
      obtain ⟨⟨vis', res⟩, hl, h⟩ := bind_eq_ok.1 h
      obtain ⟨hlt, hse⟩ := List.getElem?_eq_some_iff.1 (getM_some hs)
      have e1 : s.vertexes = [] ++ pv slices i := by rw [pv_eq hlt, hse]; rfl
      rw [e1] at hl
      intro q hq
      rcases ih _ _ _ _ h q hq with hq | hq
      · rcases orderedLoop_partial hsl _ _ _ _ _ _ hlt hl q hq with hq | ⟨c, h1, h2, h3⟩
        · exact Or.inl hq
        · refine Or.inr ⟨i :: c, by simp, ?_, by simpa using h2, by simpa using h3⟩
          intro j hj
          rcases List.mem_cons.1 hj with rfl | hj
          · exact hlt
          · exact h1 j hj
      · exact Or.inr hq

theorem stitchOrdered_partial {slices : List Polyline} {sel : StitchSelector} {thr : ℝ}
    (hsl : ∀ s ∈ slices, s.vertexes ≠ []) {out : List Polyline}
    (h : stitchOrderedSlicesIntoClosedPolylines pf slices sel thr = .ok out) :
    ∀ q ∈ out, OfSlices slices q := by
  unfold stitchOrderedSlicesIntoClosedPolylines at h
  split_ifs at h with c
  · cases h
    simp
  · obtain ⟨b, -, h⟩ := bind_eq_ok.1 h
    obtain ⟨idx, -, h⟩ := bind_eq_ok.1 h
    intro q hq
    rcases orderedOuter_partial hsl _ _ _ _ _ h q hq with hq | hq
    · simp at hq
    · exact hq

/-! ### compute -/

/-- What is known of a loop of the result. -/
def LoopFrom (pf : Platform) (std : StdSort) (hash : HashOrder) (input : OffsetLoopSet) (delta : ℝ)
    (loops : OffsetLoopSet) (l : OffsetLoop) : Prop :=
  Indexed pf l ∧
  ((OffsetOf pf std hash input delta l ∧ ∃ v, l.polyline.vertexes.head? = some v ∧
      pointOnOffsetValid input l.parentLoopIndex v.pos |delta| = .ok true) ∨
   (l.parentLoopIndex = 0 ∧ (∃ a, getArea l.polyline = .ok a ∧ 1 / 10 ^ 4 ≤ |a|) ∧
    ∃ slices : List Polyline, (∀ s ∈ slices, ∃ ol ∈ loopsOf loops, ∃ d, d.pline = s ∧
      Kept (fun pt => pointOnOffsetValid input ol.parentLoopIndex pt |delta|) d) ∧
      OfSlices slices l.polyline))

/-- The loops of the result so far. -/
structure GoodResult (pf : Platform) (std : StdSort) (hash : HashOrder) (input : OffsetLoopSet)
    (delta : ℝ) (loops s : OffsetLoopSet) : Prop where
  ccw : ∀ l ∈ s.ccwLoops, LoopFrom pf std hash input delta loops l ∧ CounterClockwise l.polyline
  cw : ∀ l ∈ s.cwLoops, LoopFrom pf std hash input delta loops l ∧ Clockwise l.polyline

theorem head_of_at {p : Polyline} {v : Vertex} (h : p.at 0 = .ok v) : p.vertexes.head? = some v := by
  unfold Polyline.at at h
  have := getM_some h
  rw [List.head?_eq_getElem?]
  exact this

theorem keepUntouched_good {loops : OffsetLoopSet} (hl : GoodLoops pf std hash input delta loops)
    {i : ℕ} {r r' : OffsetLoopSet} (hr : GoodResult pf std hash input delta loops r)
    (h : keepUntouched input loops |delta| i r = .ok r') :
    GoodResult pf std hash input delta loops r' := by
  unfold keepUntouched at h
  obtain ⟨l, hg, h⟩ := bind_eq_ok.1 h
  obtain ⟨v, hv, h⟩ := bind_eq_ok.1 h
  obtain ⟨b, hb, h⟩ := bind_eq_ok.1 h
  by_cases hbt : b = true
  · rw [if_neg (not_not.2 hbt)] at h
    rw [hbt] at hb
    have hf : ∀ o : OffsetOf pf std hash input delta l, Indexed pf l →
        LoopFrom pf std hash input delta loops l :=
      fun o hi => ⟨hi, Or.inl ⟨o, v, head_of_at hv, hb⟩⟩
    unfold OffsetLoopSet.get at hg
    by_cases hi : i < loops.ccwLoops.length
    · rw [if_pos hi] at h hg
      cases h
      obtain ⟨g1, g2, g3⟩ := hl.ccw l (List.mem_of_getElem? (getM_some hg))
      refine ⟨?_, hr.cw⟩
      intro l' hl'
      rw [List.mem_append, List.mem_singleton] at hl'
      rcases hl' with hl' | rfl
      · exact hr.ccw l' hl'
      · exact ⟨hf g1 g2, g3⟩
    · rw [if_neg hi] at h hg
      cases h
      obtain ⟨g1, g2, g3⟩ := hl.cw l (List.mem_of_getElem? (getM_some hg))
      refine ⟨hr.ccw, ?_⟩
      intro l' hl'
      rw [List.mem_append, List.mem_singleton] at hl'
      rcases hl' with hl' | rfl
      · exact hr.cw l' hl'
      · exact ⟨hf g1 g2, g3⟩
  · rw [if_pos hbt] at h
    cases h
    exact hr

/-- A slice of the dissected loops. -/
def KeptOf (input : OffsetLoopSet) (delta : ℝ) (loops : OffsetLoopSet) (s : DissectedSlice) : Prop :=
  ∃ ol ∈ loopsOf loops, Kept (fun pt => pointOnOffsetValid input ol.parentLoopIndex pt |delta|) s

theorem computeStep_good {loops : OffsetLoopSet} (hl : GoodLoops pf std hash input delta loops)
    {sp : SlicePointState} {i : ℕ} {st st' : OffsetLoopSet × List DissectedSlice}
    (h1 : GoodResult pf std hash input delta loops st.1) (h2 : ∀ s ∈ st.2, KeptOf input delta loops s)
    (h : computeStep std hash input loops sp |delta| st i = .ok st') :
    GoodResult pf std hash input delta loops st'.1 ∧ ∀ s ∈ st'.2, KeptOf input delta loops s := by
  unfold computeStep at h
  obtain ⟨l, -, h⟩ := bind_eq_ok.1 h
  split_ifs at h with c
  · obtain ⟨r, hr, h⟩ := bind_eq_ok.1 h
    cases h
    exact ⟨keepUntouched_good hl h1 hr, h2⟩
  · obtain ⟨r, hr, h⟩ := bind_eq_ok.1 h
    cases h
    refine ⟨h1, createSlices_kept h2 ?_ hr⟩
    intro ol hol s hs _
    exact ⟨ol, List.mem_of_getElem? hol, hs⟩

theorem addStitched_good {loops : OffsetLoopSet} {slices : List Polyline}
    (hs : ∀ s ∈ slices, ∃ ol ∈ loopsOf loops, ∃ d, d.pline = s ∧
      Kept (fun pt => pointOnOffsetValid input ol.parentLoopIndex pt |delta|) d) {q : Polyline}
    (hq : OfSlices slices q) {r r' : OffsetLoopSet} (hr : GoodResult pf std hash input delta loops r)
    (h : addStitched pf r q = .ok r') : GoodResult pf std hash input delta loops r' := by
  unfold addStitched at h
  obtain ⟨a, ha, h⟩ := bind_eq_ok.1 h
  by_cases c : |a| < 1 / 10 ^ 4
  · rw [if_pos c] at h
    cases h
    exact hr
  · rw [if_neg c] at h
    obtain ⟨idx, hidx, h⟩ := bind_eq_ok.1 h
    have hf : LoopFrom pf std hash input delta loops ⟨0, q, idx⟩ :=
      ⟨hidx, Or.inr ⟨rfl, ⟨a, ha, not_lt.1 c⟩, slices, hs, hq⟩⟩
    by_cases c2 : a < 0
    · rw [if_pos c2] at h
      cases h
      refine ⟨hr.ccw, ?_⟩
      intro l' hl'
      rw [List.mem_append, List.mem_singleton] at hl'
      rcases hl' with hl' | rfl
      · exact hr.cw l' hl'
      · exact ⟨hf, a, ha, c2⟩
    · rw [if_neg c2] at h
      cases h
      refine ⟨?_, hr.cw⟩
      intro l' hl'
      rw [List.mem_append, List.mem_singleton] at hl'
      rcases hl' with hl' | rfl
      · exact hr.ccw l' hl'
      · exact ⟨hf, a, ha, not_lt.1 c2⟩

theorem computeIslands_good {r : OffsetLoopSet} (h : computeIslands pf std hash input delta = .ok r) :
    ∃ loops, GoodLoops pf std hash input delta loops ∧
      GoodResult pf std hash input delta loops r := by
  unfold computeIslands at h
  obtain ⟨loops, h1, h⟩ := bind_eq_ok.1 h
  have hl := createOffsetLoops_good h1
  have h0 : GoodResult pf std hash input delta loops ⟨[], []⟩ := ⟨by simp, by simp⟩
  refine ⟨loops, hl, ?_⟩
  split_ifs at h with c
  · cases h
    exact h0
  · obtain ⟨idx, -, h⟩ := bind_eq_ok.1 h
    obtain ⟨sp, -, h⟩ := bind_eq_ok.1 h
    obtain ⟨⟨r0, slices⟩, hst, h⟩ := bind_eq_ok.1 h
    simp only at h
    obtain ⟨sts, hsts, h⟩ := bind_eq_ok.1 h
    obtain ⟨g1, g2⟩ := foldlM_inv (Inv := fun st : OffsetLoopSet × List DissectedSlice =>
      GoodResult pf std hash input delta loops st.1 ∧ ∀ s ∈ st.2, KeptOf input delta loops s) _ _ _
      (fun st x st' _ hi hr => computeStep_good hl hi.1 hi.2 hr) ⟨h0, by simp⟩ hst
    simp only at g1 g2
    have hk : ∀ s ∈ slices.map (fun s => s.pline), ∃ ol ∈ loopsOf loops, ∃ d, d.pline = s ∧
        Kept (fun pt => pointOnOffsetValid input ol.parentLoopIndex pt |delta|) d := by
      intro s hs
      obtain ⟨d, hd, rfl⟩ := List.mem_map.1 hs
      obtain ⟨ol, h1, h2⟩ := g2 d hd
      exact ⟨ol, h1, d, rfl, h2⟩
    have hne : ∀ s ∈ slices.map (fun s => s.pline), s.vertexes ≠ [] := by
      intro s hs
      obtain ⟨ol, -, d, rfl, -, l, u, w, m, hv, -⟩ := hk s hs
      rw [hv]
      simp
    have hof := stitchOrdered_partial hne hsts
    exact foldlM_inv (Inv := GoodResult pf std hash input delta loops) sts r0 r
      (fun st q st' hq hi hr => addStitched_good hk (hof q hq) hi hr) g1 h

/-- C53. The loops the islands offset returns are sorted by orientation, and each one has the spatial
index of its polyline. Every one of them is one of the parallel offsets of an input loop (the one
its parent index names), or a closed polyline with at least two vertexes and an area of at least
`1e-4`. -/
theorem C53_islands_loops {r : OffsetLoopSet} (h : computeIslands pf std hash input delta = .ok r) :
    (∀ l ∈ r.ccwLoops, CounterClockwise l.polyline) ∧ (∀ l ∈ r.cwLoops, Clockwise l.polyline) ∧
    ∀ l ∈ loopsOf r, Indexed pf l ∧ (OffsetOf pf std hash input delta l ∨
      (l.parentLoopIndex = 0 ∧ l.polyline.isClosed = true ∧ 2 ≤ l.polyline.vertexes.length ∧
        ∃ a, getArea l.polyline = .ok a ∧ 1 / 10 ^ 4 ≤ |a|)) := by
  obtain ⟨loops, hl, hr⟩ := computeIslands_good h
  refine ⟨fun l h => (hr.ccw l h).2, fun l h => (hr.cw l h).2, ?_⟩
  intro l hm
  have hf : LoopFrom pf std hash input delta loops l := by
    unfold loopsOf at hm
    rw [List.mem_append] at hm
    rcases hm with hm | hm
    · exact (hr.ccw l hm).1
    · exact (hr.cw l hm).1
  refine ⟨hf.1, ?_⟩
  rcases hf.2 with ⟨h1, -⟩ | ⟨h1, h2, slices, -, c, -, -, h4, h5⟩
  · exact Or.inl h1
  · refine Or.inr ⟨h1, by rw [h5], ?_, h2⟩
    rw [h5, List.length_dropLast]
    omega

/-- C54. Offset loops that are returned as they are start at a point that is clear, at the offset
distance up to `1e-4`, of all input loops but their own parent; the other returned loops are put
together of slices of offset loops, each of them clear at the midpoint of its last segment of all
input loops but the parent. -/
theorem C54_islands_distance (hin : ∀ l ∈ loopsOf input, LoopOk pf l) (hd : 1 / 10 ^ 4 ≤ |delta|)
    {r : OffsetLoopSet} (h : computeIslands pf std hash input delta = .ok r) :
    ∀ l ∈ loopsOf r,
      (OffsetOf pf std hash input delta l ∧ ∃ v, l.polyline.vertexes.head? = some v ∧
        ClearOfOthers input delta l.parentLoopIndex v.pos) ∨
      StitchedOfKept pf std hash input delta l.polyline := by
  obtain ⟨loops, hl, hr⟩ := computeIslands_good h
  intro l hm
  have hf : LoopFrom pf std hash input delta loops l := by
    unfold loopsOf at hm
    rw [List.mem_append] at hm
    rcases hm with hm | hm
    · exact (hr.ccw l hm).1
    · exact (hr.cw l hm).1
  have ho : ∀ ol ∈ loopsOf loops, OffsetOf pf std hash input delta ol := by
    intro ol hol
    unfold loopsOf at hol
    rw [List.mem_append] at hol
    rcases hol with hol | hol
    · exact (hl.ccw ol hol).1
    · exact (hl.cw ol hol).1
  rcases hf.2 with ⟨h1, v, hv, hval⟩ | ⟨-, -, slices, hs, c, hc, hlt, -, h5⟩
  · exact Or.inl ⟨h1, v, hv, validPoint_clear hin hd hval⟩
  · refine Or.inr ⟨c.map fun i => slices.getD i Polyline.empty, by simpa using hc, ?_, ?_⟩
    · intro s hs'
      obtain ⟨i, hi, rfl⟩ := List.mem_map.1 hs'
      rw [List.getD_eq_getElem _ _ (hlt i hi)]
      obtain ⟨ol, hol, d, hd', h1, k, u, w, m, h2, h3, h4⟩ := hs _ (List.getElem_mem (hlt i hi))
      rw [hd'] at h1 h2
      exact ⟨ol, ho ol hol, h1, k, u, w, m, h2, h3, validPoint_clear hin hd h4⟩
    · rw [h5, List.map_map]
      rfl

end

/-! ### One rectangle -/

theorem rect_area (x0 y0 x1 y1 : ℝ) : getArea (rect x0 y0 x1 y1) = .ok ((x1 - x0) * (y1 - y0)) := by
  rw [getArea_eq rfl (by simp [rect])]
  rw [rect_segs]
  simp only [List.length_cons, List.length_nil, Finset.sum_range_succ, Finset.sum_range_zero]
  congr 1
  simp [areaTerm, vtx, rect, Polyline.size]
  ring

/-- C53. The offset of a single rectangle with room for it is the smaller rectangle. -/
theorem C53_rectangle {std : StdSort} {hash : HashOrder} (inf ninf : ℝ) {x0 y0 x1 y1 d : ℝ}
    (hd : 1 / 10 ^ 4 ≤ |d|) (hw : x0 + 2 * |d| + 1 / 10 ^ 3 ≤ x1) (hh : y0 + 2 * |d| + 1 / 10 ^ 3 ≤ y1)
    (s : SIndex ℝ) :
    ∃ s', computeIslands (codePlatform inf ninf) std hash ⟨[⟨0, rect x0 y0 x1 y1, s⟩], []⟩ d =
      .ok ⟨[⟨0, rect (x0 + |d|) (y0 + |d|) (x1 - |d|) (y1 - |d|), s'⟩], []⟩ := by
  obtain ⟨s', hs', hx⟩ := (rect_indexable (x0 := x0 + |d|) (y0 := y0 + |d|) (x1 := x1 - |d|)
    (y1 := y1 - |d|) inf ninf).indexOf
  have ho := C52_rectangle (std := std) (hash := hash) (x0 := x0) (y0 := y0) (x1 := x1) (y1 := y1) inf
    ninf hd hw hh
  change parallelOffset _ _ _ (rect x0 y0 x1 y1) _ = .ok [rect _ _ _ _] at ho
  have ha : ¬ (x1 - |d| - (x0 + |d|)) * (y1 - |d| - (y0 + |d|)) < 0 := by
    apply not_lt.2
    apply mul_nonneg
    · have : (0 : ℝ) < 1 / 10 ^ 3 := by norm_num
      linarith
    · have : (0 : ℝ) < 1 / 10 ^ 3 := by norm_num
      linarith
  refine ⟨s', ?_⟩
  have h1 : createOffsetLoops (codePlatform inf ninf) std hash ⟨[⟨0, rect x0 y0 x1 y1, s⟩], []⟩ |d| =
      .ok ⟨[⟨0, rect (x0 + |d|) (y0 + |d|) (x1 - |d|) (y1 - |d|), s'⟩], []⟩ := by
    unfold createOffsetLoops
    simp only [List.foldlM_cons, List.foldlM_nil]
    unfold offsetLoopsOf
    simp only
    rw [ho, ok_bind]
    simp only [List.foldlM_cons, List.foldlM_nil]
    unfold addCcwOffset
    rw [rect_area, ok_bind, if_neg ha, hs']
    rfl
  have hdom : IndexDomain 16 (codePlatform inf ninf).inf (codePlatform inf ninf).ninf
      (codePlatform inf ninf).hilbert [s'.ext] :=
    ⟨by norm_num, by simp, by simp⟩
  obtain ⟨idx, hidx, hi⟩ := hdom.indexOf
  obtain ⟨r, hnd, hr, hq, -⟩ := hi.queryM s'.ext
  have hall : ∀ i ∈ r, i = 0 := by
    intro i hm
    obtain ⟨b, hb, -⟩ := (hr i).1 hm
    obtain ⟨hlt, -⟩ := List.getElem?_eq_some_iff.1 hb
    simpa using hlt
  have hnone : r.foldlM (slicePointsPair std
      ⟨[⟨0, rect (x0 + |d|) (y0 + |d|) (x1 - |d|) (y1 - |d|), s'⟩], []⟩ 0
      ⟨0, rect (x0 + |d|) (y0 + |d|) (x1 - |d|) (y1 - |d|), s'⟩) ⟨[], [], [[]]⟩ =
      .ok ⟨[], [], [[]]⟩ := by
    have : ∀ l : List ℕ, (∀ i ∈ l, i = 0) → l.foldlM (slicePointsPair std
        ⟨[⟨0, rect (x0 + |d|) (y0 + |d|) (x1 - |d|) (y1 - |d|), s'⟩], []⟩ 0
        ⟨0, rect (x0 + |d|) (y0 + |d|) (x1 - |d|) (y1 - |d|), s'⟩) ⟨[], [], [[]]⟩ =
        .ok ⟨[], [], [[]]⟩ := by
      intro l
      induction l with
      | nil => intro _; rfl
      | cons a l ih =>
        intro h
        rw [List.foldlM_cons]
        have h0 := h a (by simp)
        subst h0
        unfold slicePointsPair
        rw [if_pos rfl, ok_bind]
        exact ih fun i hi => h i (by simp [hi])
    exact this r hall
  have hsp : createSlicePoints std
      ⟨[⟨0, rect (x0 + |d|) (y0 + |d|) (x1 - |d|) (y1 - |d|), s'⟩], []⟩ idx =
      .ok ⟨[], [], [[]]⟩ := by
    unfold createSlicePoints
    change ([0] : List ℕ).foldlM _ _ = _
    simp only [List.foldlM_cons, List.foldlM_nil]
    unfold slicePointsStep
    change ((idx.query s'.ext >>= _) >>= _) = _
    rw [hq, ok_bind]
    refine Eq.trans (congrArg (· >>= pure) hnone) rfl
  unfold computeIslands
  simp only
  rw [h1, ok_bind, if_neg (by simp [OffsetLoopSet.count])]
  have hci : createOffsetLoopsIndex (codePlatform inf ninf)
      ⟨[⟨0, rect (x0 + |d|) (y0 + |d|) (x1 - |d|) (y1 - |d|), s'⟩], []⟩ = .ok idx := hidx
  rw [hci, ok_bind, hsp, ok_bind]
  have hstep : (List.range (OffsetLoopSet.count
      ⟨[⟨0, rect (x0 + |d|) (y0 + |d|) (x1 - |d|) (y1 - |d|), s'⟩], []⟩)).foldlM
      (computeStep std hash ⟨[⟨0, rect x0 y0 x1 y1, s⟩], []⟩
        ⟨[⟨0, rect (x0 + |d|) (y0 + |d|) (x1 - |d|) (y1 - |d|), s'⟩], []⟩ ⟨[], [], [[]]⟩ |d|)
      (⟨[], []⟩, []) =
      .ok (⟨[⟨0, rect (x0 + |d|) (y0 + |d|) (x1 - |d|) (y1 - |d|), s'⟩], []⟩, []) := by
    change ([0] : List ℕ).foldlM _ _ = _
    simp only [List.foldlM_cons, List.foldlM_nil]
    rfl
  rw [hstep, ok_bind]
  rfl

/-- The hypotheses of C53 and C54 hold in the case of C53_rectangle. -/
example (inf ninf : ℝ) (std : StdSort) (hash : HashOrder) : ∃ s r,
    (∀ l ∈ loopsOf ⟨[⟨0, rect 0 0 4 4, s⟩], []⟩, LoopOk (codePlatform inf ninf) l) ∧
    computeIslands (codePlatform inf ninf) std hash ⟨[⟨0, rect 0 0 4 4, s⟩], []⟩ 1 = .ok r ∧
    r.ccwLoops ≠ [] := by
  obtain ⟨s, hs, -⟩ := (rect_indexable (x0 := 0) (y0 := 0) (x1 := 4) (y1 := 4) inf ninf).indexOf
  obtain ⟨s', h⟩ := C53_rectangle (std := std) (hash := hash) (x0 := 0) (y0 := 0) (x1 := 4) (y1 := 4)
    (d := 1) inf ninf (by norm_num) (by norm_num) (by norm_num) s
  refine ⟨s, _, ?_, h, by simp⟩
  intro l hl
  simp only [loopsOf, List.append_nil, List.mem_singleton] at hl
  subst hl
  exact ⟨rect_ok, rect_indexable inf ninf, hs⟩

end
end Cavc

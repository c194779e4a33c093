import Verif.Spec.Stitch
import Verif.Proofs.FindIntr
import Verif.Props.Coincident
import Verif.Props.PlineInvert
import Verif.Props.PlineIndex

/-! C40: stitching offset slices. -/
namespace Cavc
open Spec
open scoped Classical
noncomputable section

/-- The vertexes of slice number `i`. -/
def sv (slices : List OpenSlice) (i : ℕ) : List Vertex := (sliceAt slices i).pline.vertexes

theorem sliceAt_eq {slices : List OpenSlice} {i : ℕ} (h : i < slices.length) :
    sliceAt slices i = slices[i] := by
  unfold sliceAt; rw [List.getD_eq_getElem _ _ h]

theorem getM_slice {slices : List OpenSlice} {i : ℕ} (h : i < slices.length) :
    getM slices i = .ok (sliceAt slices i) := by
  rw [sliceAt_eq h]; exact getM_of_lt h

/-- Every slice has at least two vertexes and is open. -/
def SlicesOk (slices : List OpenSlice) : Prop :=
  ∀ s ∈ slices, 2 ≤ s.pline.vertexes.length ∧ s.pline.isClosed = false

theorem SlicesOk.at {slices : List OpenSlice} (h : SlicesOk slices) {i : ℕ} (hi : i < slices.length) :
    2 ≤ (sv slices i).length ∧ (sliceAt slices i).pline.isClosed = false := by
  unfold sv
  rw [sliceAt_eq hi]; exact h _ (List.getElem_mem hi)

theorem stitchLess_strictWeak (slices : List OpenSlice) (m c : ℕ) (p : V2) :
    StrictWeak (stitchLess slices m c p) := by
  constructor
  · intro a h
    unfold stitchLess at h
    simp only [if_true] at h
    exact h.1 h.2
  · intro a b d h1 h2
    unfold stitchLess at *
    simp only at *
    split_ifs at * <;> first | omega | tauto
  · intro a b d h1 h2 h3 h4
    unfold stitchLess at *
    simp only at *
    constructor <;> split_ifs at * <;> first | omega | tauto

/-- `visited[j]` is false. -/
def Unv (visited : List Bool) (j : ℕ) : Prop := visited[j]? = some false

theorem unv_set {visited : List Bool} {i j : ℕ} (hi : i < visited.length) :
    Unv (visited.set i true) j ↔ Unv visited j ∧ j ≠ i := by
  unfold Unv
  rw [List.getElem?_set]
  by_cases h : i = j
  · subst h; simp [hi]
  · simp [h, Ne.symm h]

theorem Unv.lt {visited : List Bool} {j : ℕ} (h : Unv visited j) : j < visited.length := by
  unfold Unv at h
  exact (List.getElem?_eq_some_iff.1 h).1

/-- Number of slices not used yet. -/
def unused (visited : List Bool) : ℕ := visited.count false

theorem unused_set {visited : List Bool} {i : ℕ} (h : Unv visited i) :
    unused (visited.set i true) + 1 = unused visited := by
  unfold Unv at h
  unfold unused
  induction visited generalizing i with
  | nil => simp at h
  | cons a l ih =>
    cases i with
    | zero =>
      simp only [List.getElem?_cons_zero, Option.some.injEq] at h
      subst h
      simp
    | succ i =>
      simp only [List.getElem?_cons_succ] at h
      have := ih h
      simp only [List.set_cons_succ, List.count_cons]
      omega

/-- What one run of the inner loop yields. -/
structure ChainRun (slices : List OpenSlice) (closed : Bool) (m : ℕ) (thr : ℝ)
    (curr : ℕ) (cp : Polyline) (visited : List Bool) (c : List ℕ) (visited' : List Bool)
    (q : Polyline) : Prop where
  head : ∃ t, c = curr :: t ∧ ∀ j ∈ t, Unv visited j
  nodup : c.Nodup
  len : visited'.length = visited.length
  unv : ∀ j, Unv visited' j ↔ Unv visited j ∧ j ∉ c
  greedy : ∀ later, (∀ j ∈ later, Unv visited' j) →
    GreedyChain (fun i j => Follows thr (sv slices i) (sv slices j))
      (fun i j => indexDist m (sliceAt slices i).intrStartIndex (sliceAt slices j).intrStartIndex)
      later c
  out : ClosesTo closed (1 / 10 ^ 5) (cp.vertexes ++ stitched (c.map (sv slices))) q

theorem finishStitch_ok (closed : Bool) (vs : List Vertex) (result : List Polyline)
    (h : 2 ≤ vs.length) : ∃ q, finishStitch closed ⟨false, vs⟩ result = .ok (result ++ [q]) ∧
      ClosesTo closed (1 / 10 ^ 5) vs q := by
  obtain ⟨a, t, rfl⟩ : ∃ a t, vs = a :: t := by
    cases vs with
    | nil => simp at h
    | cons a t => exact ⟨a, t, rfl⟩
  have hl : (a :: t).getLast? = some ((a :: t).getLast (by simp)) := List.getLast?_eq_some_getLast _
  generalize (a :: t).getLast (by simp) = b at hl
  have hat : Polyline.at ⟨false, a :: t⟩ 0 = .ok a := rfl
  have hlast : Polyline.lastVertex ⟨false, a :: t⟩ = .ok b := by
    unfold Polyline.lastVertex; simp only; rw [hl]
  have hem : EndsMeet (1 / 10 ^ 5) (a :: t) ↔ Near (1 / 10 ^ 5) a.pos b.pos := by
    constructor
    · rintro ⟨a', b', h1, h2, h3⟩
      rw [hl] at h2
      simp only [List.head?_cons, Option.some.injEq] at h1 h2
      rw [h1, h2]; exact h3
    · intro h3; exact ⟨a, b, rfl, hl, h3⟩
  unfold finishStitch
  rw [if_pos (show Polyline.size ⟨false, a :: t⟩ > 1 by unfold Polyline.size; exact h), hat, ok_bind,
    hlast, ok_bind]
  by_cases hc : closed = true ∧ fuzzyEqualV a.pos b.pos realPrecision
  · rw [if_pos hc]
    exact ⟨⟨true, (a :: t).dropLast⟩, by simp [Polyline.popBack], Or.inl ⟨hc.1, hem.2 hc.2, rfl⟩⟩
  · rw [if_neg hc]
    exact ⟨_, rfl, Or.inr ⟨fun hh => hc ⟨hh.1, hem.1 hh.2⟩, rfl⟩⟩

theorem overlap_follows {a b : List Vertex} {thr : ℝ} {e s : Vertex} (he : a.getLast? = some e)
    (hs : b.head? = some s) :
    Overlap (⟨e.pos.x - thr, e.pos.y - thr, e.pos.x + thr, e.pos.y + thr⟩ : Box ℝ)
      ⟨s.pos.x - thr, s.pos.y - thr, s.pos.x + thr, s.pos.y + thr⟩ ↔ Follows thr a b := by
  unfold Overlap Follows
  simp only
  constructor
  · rintro ⟨h1, h2, h3, h4⟩
    refine ⟨e, s, he, hs, ?_, ?_⟩ <;> rw [abs_le] <;> constructor <;> linarith
  · rintro ⟨e', s', he', hs', h1, h2⟩
    rw [he] at he'; rw [hs] at hs'
    cases he'; cases hs'
    rw [abs_le] at h1 h2
    refine ⟨?_, ?_, ?_, ?_⟩ <;> linarith

/-- The boxes around the start points. -/
def startBoxes (thr : ℝ) (slices : List OpenSlice) : List (Box ℝ) :=
  slices.map fun s => match s.pline.vertexes.head? with
    | some v => ⟨v.pos.x - thr, v.pos.y - thr, v.pos.x + thr, v.pos.y + thr⟩
    | none => ⟨0, 0, 0, 0⟩

theorem startBoxes_run {thr : ℝ} {slices : List OpenSlice} (h : SlicesOk slices) :
    slices.mapM (startBox thr) = .ok (startBoxes thr slices) := by
  unfold startBoxes
  induction slices with
  | nil => rfl
  | cons s l ih =>
    rw [List.mapM_cons, ih (fun x hx => h x (List.mem_cons_of_mem _ hx))]
    have hs := (h s (by simp)).1
    obtain ⟨v, t, hv⟩ : ∃ v t, s.pline.vertexes = v :: t := by
      cases hh : s.pline.vertexes with
      | nil => rw [hh] at hs; simp at hs
      | cons v t => exact ⟨v, t, rfl⟩
    have : startBox thr s =
        .ok ⟨v.pos.x - thr, v.pos.y - thr, v.pos.x + thr, v.pos.y + thr⟩ := by
      unfold startBox Polyline.at getM
      rw [hv]; rfl
    rw [this]
    simp [hv]

theorem startBoxes_get {thr : ℝ} {slices : List OpenSlice} (h : SlicesOk slices) {j : ℕ}
    {b : Box ℝ} : (startBoxes thr slices)[j]? = some b ↔ j < slices.length ∧ ∃ v,
      (sv slices j).head? = some v ∧
      b = ⟨v.pos.x - thr, v.pos.y - thr, v.pos.x + thr, v.pos.y + thr⟩ := by
  unfold startBoxes
  rw [List.getElem?_map, Option.map_eq_some_iff]
  constructor
  · rintro ⟨s, hs, hb⟩
    obtain ⟨hj, rfl⟩ := List.getElem?_eq_some_iff.1 hs
    refine ⟨hj, ?_⟩
    have h2 := (h.at hj).1
    unfold sv at h2 ⊢
    rw [sliceAt_eq hj] at h2 ⊢
    cases hh : (slices[j]).pline.vertexes with
    | nil => rw [hh] at h2; simp at h2
    | cons v t =>
      rw [hh] at hb
      exact ⟨v, rfl, hb.symm⟩
  · rintro ⟨hj, v, hv, rfl⟩
    refine ⟨slices[j], List.getElem?_eq_getElem hj, ?_⟩
    unfold sv at hv
    rw [sliceAt_eq hj] at hv
    rw [hv]

theorem stitchLoop_run {std : StdSort} {slices : List OpenSlice} {index : SIndex ℝ} {closed : Bool}
    {m : ℕ} {thr : ℝ} {init : V2} (hsl : SlicesOk slices)
    (hidx : IndexOf (startBoxes thr slices) index) :
    ∀ (fuel curr : ℕ) (vs : List Vertex) (visited : List Bool) (result : List Polyline),
      visited.length = slices.length → curr < slices.length → ¬ Unv visited curr →
      unused visited < fuel →
      ∃ c visited' q, stitchLoop std slices index closed m thr init fuel curr ⟨false, vs⟩ visited
          result = .ok (visited', result ++ [q]) ∧
        ChainRun slices closed m thr curr ⟨false, vs⟩ visited c visited' q := by
  intro fuel
  induction fuel with
  | zero => intro curr vs visited result _ _ _ h; omega
  | succ fuel ih =>
    intro curr vs visited result hlen hcurr hvis hfuel
    have h2 := (hsl.at hcurr).1
    have hne : sv slices curr ≠ [] := by intro h; rw [h] at h2; simp at h2
    obtain ⟨e, he⟩ : ∃ e, (sv slices curr).getLast? = some e := ⟨_, List.getLast?_eq_some_getLast hne⟩
    have hlast : (sliceAt slices curr).pline.lastVertex = .ok e := by
      unfold Polyline.lastVertex; unfold sv at he; rw [he]
    obtain ⟨r, hnd, hr, hq, -⟩ := hidx.queryM
      ⟨e.pos.x - thr, e.pos.y - thr, e.pos.x + thr, e.pos.y + thr⟩
    have hmem : ∀ j, j ∈ r ↔ j < slices.length ∧ Follows thr (sv slices curr) (sv slices j) := by
      intro j
      rw [hr]
      constructor
      · rintro ⟨b, hb, ho⟩
        obtain ⟨hj, v, hv, rfl⟩ := (startBoxes_get hsl).1 hb
        exact ⟨hj, (overlap_follows he hv).1 ho⟩
      · rintro ⟨hj, hf⟩
        obtain ⟨e', v, he', hv, -⟩ := id hf
        exact ⟨_, (startBoxes_get hsl).2 ⟨hj, v, hv, rfl⟩, (overlap_follows he hv).2 hf⟩
    obtain ⟨cand, hrem, hmc⟩ : ∃ cand, removeIfM (fun i => getM visited i) r = .ok cand ∧
        ∀ j, j ∈ cand ↔ Follows thr (sv slices curr) (sv slices j) ∧ Unv visited j := by
      refine ⟨_, removeIfM_eq (fun i => getM visited i) (fun x => ¬ Unv visited x) r ?_, ?_⟩
      · intro x hx
        have hx' : x < visited.length := by rw [hlen]; exact ((hmem x).1 hx).1
        rw [getM_of_lt hx']
        unfold Unv
        rw [List.getElem?_eq_getElem hx']
        cases visited[x] <;> simp
      · intro j
        rw [List.mem_filter, hmem]
        simp only [not_not, decide_eq_true_eq]
        constructor
        · rintro ⟨⟨-, h1⟩, h2⟩; exact ⟨h1, h2⟩
        · rintro ⟨h1, h2⟩; exact ⟨⟨by rw [← hlen]; exact h2.lt, h1⟩, h2⟩
    unfold stitchLoop
    rw [getM_slice hcurr, ok_bind, hlast, ok_bind]
    simp only
    rw [hq, ok_bind, hrem, ok_bind]
    have hperm := std.perm (stitchLess slices m (sliceAt slices curr).intrStartIndex init) cand
      (stitchLess_strictWeak _ _ _ _)
    have hsorted := std.sorted (stitchLess slices m (sliceAt slices curr).intrStartIndex init) cand
      (stitchLess_strictWeak _ _ _ _)
    have hsv : (sliceAt slices curr).pline.vertexes = sv slices curr := rfl
    cases hsort : std.sort (stitchLess slices m (sliceAt slices curr).intrStartIndex init) cand with
    | nil =>
      rw [hsort] at hperm
      have hnone : ∀ j, ¬ (Follows thr (sv slices curr) (sv slices j) ∧ Unv visited j) := by
        intro j hj
        have := hperm.mem_iff.2 ((hmc j).2 hj)
        simp at this
      obtain ⟨q, hq1, hq2⟩ := finishStitch_ok closed (vs ++ sv slices curr) result
        (by simp; omega)
      rw [hsv, hq1, ok_bind]
      refine ⟨[curr], visited, q, rfl, ⟨⟨[], rfl, by simp⟩, by simp, rfl, ?_, ?_, ?_⟩⟩
      · intro j
        constructor
        · intro h; exact ⟨h, by simp only [List.mem_singleton]; rintro rfl; exact hvis h⟩
        · exact fun h => h.1
      · intro later hl j hj hf
        exact hnone j ⟨hf, hl j hj⟩
      · simpa [stitched] using hq2
    | cons next rest =>
      rw [hsort] at hperm hsorted
      have hnext := (hmc next).1 (hperm.mem_iff.1 (by simp))
      have hnl : next < visited.length := hnext.2.lt
      have hbest : ∀ k, Unv visited k → Follows thr (sv slices curr) (sv slices k) →
          indexDist m (sliceAt slices curr).intrStartIndex (sliceAt slices next).intrStartIndex ≤
          indexDist m (sliceAt slices curr).intrStartIndex (sliceAt slices k).intrStartIndex := by
        intro k hk hf
        have hk' := hperm.mem_iff.2 ((hmc k).2 ⟨hf, hk⟩)
        rcases List.mem_cons.1 hk' with rfl | hk'
        · exact le_rfl
        · have := List.rel_of_pairwise_cons hsorted hk'
          unfold stitchLess at this
          simp only at this
          split_ifs at this <;> omega
      simp only
      rw [setM_of_lt hnl, ok_bind]
      have hpop : Polyline.popBack ⟨false, vs ++ (sliceAt slices curr).pline.vertexes⟩ =
          .ok ⟨false, vs ++ (sv slices curr).dropLast⟩ := by
        unfold Polyline.popBack
        rw [if_neg (by simp only [hsv]; intro h; exact hne (List.append_eq_nil_iff.1 h).2)]
        simp only [hsv]
        rw [List.dropLast_append_of_ne_nil hne]
      rw [hpop, ok_bind]
      have hus := unused_set hnext.2
      obtain ⟨c, visited', q, hrun, hc⟩ := ih next (vs ++ (sv slices curr).dropLast)
        (visited.set next true) result (by simp [hlen]) (by omega)
        (by rw [unv_set hnl]; exact fun h => h.2 rfl) (by omega)
      refine ⟨curr :: c, visited', q, hrun, ?_⟩
      obtain ⟨t, rfl, ht⟩ := hc.head
      have hct : ∀ j ∈ next :: t, Unv visited j := by
        intro j hj
        rcases List.mem_cons.1 hj with rfl | hj
        · exact hnext.2
        · exact ((unv_set hnl).1 (ht j hj)).1
      refine ⟨⟨next :: t, rfl, hct⟩, ?_, by rw [hc.len]; simp, ?_, ?_, ?_⟩
      · exact List.nodup_cons.2 ⟨fun h => hvis (hct _ h), hc.nodup⟩
      · intro j
        rw [hc.unv, unv_set hnl]
        simp only [List.mem_cons, not_or]
        constructor
        · rintro ⟨⟨h1, h2⟩, h3, h4⟩; exact ⟨h1, fun h => by rw [h] at h1; exact hvis h1, h3, h4⟩
        · rintro ⟨h1, -, h3, h4⟩; exact ⟨⟨h1, h3⟩, h3, h4⟩
      · intro later hl
        refine ⟨hnext.1, ?_, hc.greedy later hl⟩
        intro k hk hf
        apply hbest k _ hf
        rcases List.mem_append.1 hk with hk | hk
        · exact hct k (List.mem_cons_of_mem _ hk)
        · exact ((unv_set hnl).1 ((hc.unv k).1 (hl k hk)).1).1
      · have := hc.out
        simpa [stitched, List.append_assoc] using this

/-- What the outer loop yields. -/
theorem stitchOuter_run {std : StdSort} {slices : List OpenSlice} {index : SIndex ℝ} {closed : Bool}
    {m : ℕ} {thr : ℝ} (hsl : SlicesOk slices)
    (hidx : IndexOf (startBoxes thr slices) index) :
    ∀ (k i : ℕ) (visited : List Bool) (result : List Polyline),
      i + k = slices.length → visited.length = slices.length → (∀ j < i, ¬ Unv visited j) →
      ∃ chains rs, stitchOuter std slices index closed m thr k i visited result =
          .ok (result ++ rs) ∧ chains.flatten.Nodup ∧ (∀ j, j ∈ chains.flatten ↔ Unv visited j) ∧
        GreedyChains (fun i j => Follows thr (sv slices i) (sv slices j))
          (fun i j => indexDist m (sliceAt slices i).intrStartIndex (sliceAt slices j).intrStartIndex)
          chains ∧
        List.Forall₂ (fun c q => ClosesTo closed (1 / 10 ^ 5) (stitched (c.map (sv slices))) q)
          chains rs := by
  intro k
  induction k with
  | zero =>
    intro i visited result hi hlen hv
    refine ⟨[], [], by simp [stitchOuter], by simp, ?_, trivial, List.Forall₂.nil⟩
    intro j
    simp only [List.flatten_nil, List.not_mem_nil, false_iff]
    intro h
    have := h.lt
    exact hv j (by omega) h
  | succ k ih =>
    intro i visited result hi hlen hv
    have hil : i < visited.length := by omega
    unfold stitchOuter
    rw [getM_of_lt hil, ok_bind]
    cases hvi : visited[i] with
    | true =>
      simp only [if_true]
      apply ih (i + 1) visited result (by omega) hlen
      intro j hj
      by_cases h : j = i
      · subst h; unfold Unv; rw [List.getElem?_eq_getElem hil, hvi]; simp
      · exact hv j (by omega)
    | false =>
      simp only [Bool.false_eq_true, if_false]
      have hui : Unv visited i := by unfold Unv; rw [List.getElem?_eq_getElem hil, hvi]
      rw [setM_of_lt hil, ok_bind, getM_slice (by omega), ok_bind]
      have h2 := (hsl.at (i := i) (by omega)).1
      obtain ⟨v, t, hvt⟩ : ∃ v t, sv slices i = v :: t := by
        cases hh : sv slices i with
        | nil => rw [hh] at h2; simp at h2
        | cons v t => exact ⟨v, t, rfl⟩
      have hat : (sliceAt slices i).pline.at 0 = .ok v := by
        unfold Polyline.at getM; unfold sv at hvt; rw [hvt]; rfl
      rw [hat, ok_bind]
      obtain ⟨c, visited', q, hrun, hc⟩ := stitchLoop_run (std := std) (closed := closed) (m := m)
        (init := v.pos) hsl hidx (slices.length + 1) i [] (visited.set i true) result (by simp [hlen])
        (by omega) (by rw [unv_set hil]; exact fun h => h.2 rfl)
        (by
          have := unused_set hui
          have h3 : unused visited ≤ visited.length := List.count_le_length
          omega)
      rw [show Polyline.empty = ⟨false, []⟩ from rfl, hrun, ok_bind]
      simp only
      obtain ⟨chains, rs, hrec, hnd, hmem, hg, hf⟩ := ih (i + 1) visited' (result ++ [q]) (by omega)
        (by rw [hc.len]; simp [hlen]) (by
          intro j hj hu
          have := (unv_set hil).1 ((hc.unv j).1 hu).1
          exact hv j (by have := this.2; omega) this.1)
      obtain ⟨t', rfl, ht'⟩ := hc.head
      refine ⟨(i :: t') :: chains, q :: rs, ?_, ?_, ?_, ⟨?_, hg⟩, ?_⟩
      · rw [hrec]; simp
      · rw [List.flatten_cons, List.nodup_append]
        refine ⟨hc.nodup, hnd, ?_⟩
        intro a ha b hb hab
        subst hab
        exact ((hc.unv a).1 ((hmem a).1 hb)).2 ha
      · intro j
        rw [List.flatten_cons, List.mem_append, hmem, hc.unv, unv_set hil]
        constructor
        · rintro (h | h)
          · rcases List.mem_cons.1 h with rfl | h
            · exact hui
            · exact ((unv_set hil).1 (ht' j h)).1
          · exact h.1.1
        · intro h
          by_cases hj : j ∈ i :: t'
          · exact Or.inl hj
          · exact Or.inr ⟨⟨h, fun h' => hj (by simp [h'])⟩, hj⟩
      · exact hc.greedy _ (fun j hj => (hmem j).1 hj)
      · refine List.Forall₂.cons ?_ hf
        simpa using hc.out

theorem indexDist_eq {m a b : ℕ} (ha : a ≤ m) (hm : m < 2 ^ 64) :
    indexDist m a b = forwardDist m a b := by
  unfold indexDist forwardDist
  split_ifs with h
  · rfl
  · rw [show m + 2 ^ 64 - a + b = (m - a + b) + 2 ^ 64 by omega, Nat.add_mod_right,
      Nat.mod_eq_of_lt (by omega)]

theorem greedyChain_congr {α : Type} {f f' : α → α → Prop} {d d' : α → α → ℕ} {later : List α}
    (P : α → Prop) (hf : ∀ i j, P i → P j → (f i j ↔ f' i j)) (hd : ∀ i j, P i → P j → d i j = d' i j)
    (hl : ∀ i ∈ later, P i) : ∀ c : List α, (∀ i ∈ c, P i) → GreedyChain f d later c →
      GreedyChain f' d' later c
  | [], _, h => h
  | [i], hc, h => fun j hj hf' => h j hj ((hf i j (hc i (by simp)) (hl j hj)).2 hf')
  | i :: j :: c, hc, h => by
    have hi := hc i (by simp)
    have hj := hc j (by simp)
    refine ⟨(hf i j hi hj).1 h.1, ?_, greedyChain_congr P hf hd hl (j :: c)
      (fun k hk => hc k (List.mem_cons_of_mem _ hk)) h.2.2⟩
    intro k hk hfk
    have hPk : P k := by
      rcases List.mem_append.1 hk with hk | hk
      · exact hc k (by simp [hk])
      · exact hl k hk
    rw [← hd i j hi hj, ← hd i k hi hPk]
    exact h.2.1 k hk ((hf i k hi hPk).2 hfk)

theorem greedyChains_congr {α : Type} {f f' : α → α → Prop} {d d' : α → α → ℕ} (P : α → Prop)
    (hf : ∀ i j, P i → P j → (f i j ↔ f' i j)) (hd : ∀ i j, P i → P j → d i j = d' i j) :
    ∀ cs : List (List α), (∀ i ∈ cs.flatten, P i) → GreedyChains f d cs → GreedyChains f' d' cs
  | [], _, h => h
  | c :: cs, hP, h => ⟨greedyChain_congr P hf hd (fun i hi => hP i (by simp at hi ⊢; exact Or.inr hi)) c
      (fun i hi => hP i (by simp [hi])) h.1,
      greedyChains_congr P hf hd cs (fun i hi => hP i (by simp at hi ⊢; exact Or.inr hi)) h.2⟩

theorem greedyChain_map {α β : Type} (g : α → β) (f : β → β → Prop) (d : β → β → ℕ) (later : List α) :
    ∀ c : List α, GreedyChain (fun i j => f (g i) (g j)) (fun i j => d (g i) (g j)) later c →
      GreedyChain f d (later.map g) (c.map g)
  | [], h => h
  | [i], h => by
    intro j hj
    obtain ⟨k, hk, rfl⟩ := List.mem_map.1 hj
    exact h k hk
  | i :: j :: c, h => by
    refine ⟨h.1, ?_, greedyChain_map g f d later (j :: c) h.2.2⟩
    intro k hk
    rw [← List.map_append] at hk
    obtain ⟨k', hk', rfl⟩ := List.mem_map.1 hk
    exact h.2.1 k' hk'

theorem greedyChains_map {α β : Type} (g : α → β) (f : β → β → Prop) (d : β → β → ℕ) :
    ∀ cs : List (List α), GreedyChains (fun i j => f (g i) (g j)) (fun i j => d (g i) (g j)) cs →
      GreedyChains f d (cs.map fun c => c.map g)
  | [], h => h
  | c :: cs, h => by
    refine ⟨?_, greedyChains_map g f d cs h.2⟩
    have := greedyChain_map g f d cs.flatten c h.1
    rwa [List.map_flatten] at this

/-- The greedy chains of more than one slice. -/
theorem stitch_many {pf : Platform} {std : StdSort} {slices : List OpenSlice} {closed : Bool} {m : ℕ}
    {thr : ℝ} (hsl : SlicesOk slices) (h2 : 2 ≤ slices.length)
    (hdom : IndexDomain 16 pf.inf pf.ninf pf.hilbert (startBoxes thr slices)) :
    ∃ chains r, stitchOffsetSlicesTogether pf std slices closed m thr = .ok r ∧
      chains.flatten.Perm (List.range slices.length) ∧
      GreedyChains (fun i j => Follows thr (sv slices i) (sv slices j))
          (fun i j => indexDist m (sliceAt slices i).intrStartIndex (sliceAt slices j).intrStartIndex)
          chains ∧
      List.Forall₂ (fun c q => ClosesTo closed (1 / 10 ^ 5) (stitched (c.map (sv slices))) q)
        chains r := by
  obtain ⟨index, hb, hidx⟩ := hdom.indexOf
  obtain ⟨chains, rs, h1, h3, h4, h5, h6⟩ := stitchOuter_run (std := std) (closed := closed) (m := m)
    hsl hidx slices.length 0 (List.replicate slices.length false) [] (by omega) (by simp) (by omega)
  refine ⟨chains, rs, ?_, ?_, h5, h6⟩
  · unfold stitchOffsetSlicesTogether
    match slices, h2 with
    | a :: b :: l, _ =>
      simp only
      rw [startBoxes_run hsl, ok_bind, hb, ok_bind, h1]
      rfl
  · rw [List.perm_ext_iff_of_nodup h3 List.nodup_range]
    intro j
    rw [h4, List.mem_range]
    unfold Unv
    rw [List.getElem?_replicate]
    split_ifs with h <;> simp [h]

/-- C40. Stitching slices of at least two vertexes never faults (in particular it never exceeds its
loop bound). The slices are divided into chains in which every slice occurs exactly once; each slice
of a chain starts, up to the threshold, where the one before ends, and it is the next one going
forward of all unused ones that do; a chain ends only when no unused slice starts at its end. Each
chain gives one polyline. All this holds whatever order equivalent candidates are sorted in. -/
theorem C40_stitchOffsetSlicesTogether {pf : Platform} {std : StdSort} {slices : List OpenSlice}
    {closed : Bool} {m : ℕ} {thr : ℝ}
    (hsl : ∀ s ∈ slices, 2 ≤ s.pline.vertexes.length ∧ s.pline.isClosed = false)
    (h2 : 2 ≤ slices.length) (hm : m < 2 ^ 64) (hidx : ∀ s ∈ slices, s.intrStartIndex ≤ m)
    (hdom : IndexDomain 16 pf.inf pf.ninf pf.hilbert (slices.map fun s =>
      match s.pline.vertexes.head? with
      | some v => ⟨v.pos.x - thr, v.pos.y - thr, v.pos.x + thr, v.pos.y + thr⟩
      | none => ⟨0, 0, 0, 0⟩)) :
    ∃ (chains : List (List OpenSlice)) (r : List Polyline),
      stitchOffsetSlicesTogether pf std slices closed m thr = .ok r ∧
      chains.flatten.Perm slices ∧
      GreedyChains (fun a b => Follows thr a.pline.vertexes b.pline.vertexes)
        (fun a b => forwardDist m a.intrStartIndex b.intrStartIndex) chains ∧
      List.Forall₂ (fun c q => ClosesTo closed (1 / 10 ^ 5)
        (stitched (c.map fun s => s.pline.vertexes)) q) chains r := by
  obtain ⟨chains, r, h1, hp, h3, h4⟩ := stitch_many (std := std) (closed := closed) (m := m) hsl h2 hdom
  have hlt : ∀ i ∈ chains.flatten, i < slices.length := fun i hi => by
    simpa using hp.mem_iff.1 hi
  refine ⟨chains.map (fun c => c.map (sliceAt slices)), r, h1, ?_, ?_, ?_⟩
  · have hflat : (chains.map (fun c => c.map (sliceAt slices))).flatten =
        chains.flatten.map (sliceAt slices) := by
      rw [List.map_flatten]
    rw [hflat]
    refine (hp.map _).trans ?_
    rw [show (List.range slices.length).map (sliceAt slices) = slices by
      apply List.ext_getElem
      · simp
      · intro i h1 h2; simp [sliceAt_eq h2]]
  · have hc := greedyChains_congr (f' := fun i j => Follows thr (sv slices i) (sv slices j))
      (d' := fun i j => forwardDist m (sliceAt slices i).intrStartIndex (sliceAt slices j).intrStartIndex)
      (fun i => i < slices.length) (fun _ _ _ _ => Iff.rfl)
      (fun i j hi _ => indexDist_eq (by rw [sliceAt_eq hi]; exact hidx _ (List.getElem_mem hi)) hm) chains hlt h3
    exact greedyChains_map (sliceAt slices) _ _ chains hc
  · rw [List.forall₂_map_left_iff]
    refine h4.imp ?_
    intro c q h
    rw [List.map_map]
    exact h

/-- The index condition of C40 holds for the code's Hilbert values: up to 2^24 slices and a positive
threshold. -/
theorem C40_domain {slices : List OpenSlice} {thr : ℝ} (inf ninf : ℝ) (ht : 0 < thr)
    (hsl : ∀ s ∈ slices, 2 ≤ s.pline.vertexes.length) (h1 : slices ≠ [])
    (h2 : slices.length ≤ 2 ^ 24) :
    IndexDomain 16 (codePlatform inf ninf).inf (codePlatform inf ninf).ninf
      (codePlatform inf ninf).hilbert (slices.map fun s =>
      match s.pline.vertexes.head? with
      | some v => ⟨v.pos.x - thr, v.pos.y - thr, v.pos.x + thr, v.pos.y + thr⟩
      | none => ⟨0, 0, 0, 0⟩) := by
  have key : ∀ b ∈ (slices.map fun s =>
      match s.pline.vertexes.head? with
      | some v => (⟨v.pos.x - thr, v.pos.y - thr, v.pos.x + thr, v.pos.y + thr⟩ : Box ℝ)
      | none => ⟨0, 0, 0, 0⟩), b.minX < b.maxX ∧ b.minY < b.maxY := by
    intro b hb
    obtain ⟨s, hs, rfl⟩ := List.mem_map.1 hb
    have := hsl s hs
    cases h : s.pline.vertexes with
    | nil => rw [h] at this; simp at this
    | cons v t => simp only [List.head?_cons]; constructor <;> linarith
  have hl : 1 ≤ slices.length := by
    rcases slices with _ | ⟨a, l⟩
    · exact absurd rfl h1
    · simp
  refine C06_hilbert_defined (by norm_num) inf ninf _ ⟨by simpa using hl, by simpa using h2⟩ ?_ ?_ ?_
  · intro b hb; exact ⟨(key b hb).1.le, (key b hb).2.le⟩
  · obtain ⟨b, hb⟩ := List.exists_mem_of_ne_nil _ (show (slices.map fun s =>
      match s.pline.vertexes.head? with
      | some v => (⟨v.pos.x - thr, v.pos.y - thr, v.pos.x + thr, v.pos.y + thr⟩ : Box ℝ)
      | none => ⟨0, 0, 0, 0⟩) ≠ [] by simpa using h1)
    exact ⟨b, hb, b, hb, (key b hb).1⟩
  · obtain ⟨b, hb⟩ := List.exists_mem_of_ne_nil _ (show (slices.map fun s =>
      match s.pline.vertexes.head? with
      | some v => (⟨v.pos.x - thr, v.pos.y - thr, v.pos.x + thr, v.pos.y + thr⟩ : Box ℝ)
      | none => ⟨0, 0, 0, 0⟩) ≠ [] by simpa using h1)
    exact ⟨b, hb, b, hb, (key b hb).2⟩

/-- C40 for no slice and for one: a single slice is closed if its ends meet up to the threshold (and
not, as the chains of several slices, up to 1e-5). -/
theorem C40_small (pf : Platform) (std : StdSort) (closed : Bool) (m : ℕ) (thr : ℝ) :
    stitchOffsetSlicesTogether pf std [] closed m thr = .ok [] ∧
    ∀ s : OpenSlice, s.pline.vertexes ≠ [] → s.pline.isClosed = false →
      ∃ q, stitchOffsetSlicesTogether pf std [s] closed m thr = .ok [q] ∧
        ClosesTo closed thr s.pline.vertexes q := by
  refine ⟨rfl, ?_⟩
  rintro ⟨i, ⟨cl, vs⟩⟩ hne hcl
  simp only at hne hcl
  subst hcl
  obtain ⟨a, t, rfl⟩ := List.exists_cons_of_ne_nil hne
  have hl : (a :: t).getLast? = some ((a :: t).getLast (by simp)) := List.getLast?_eq_some_getLast _
  generalize (a :: t).getLast (by simp) = b at hl
  have hat : Polyline.at ⟨false, a :: t⟩ 0 = .ok a := rfl
  have hlast : Polyline.lastVertex ⟨false, a :: t⟩ = .ok b := by
    unfold Polyline.lastVertex; simp only; rw [hl]
  have hem : EndsMeet thr (a :: t) ↔ Near thr a.pos b.pos := by
    constructor
    · rintro ⟨a', b', h1, h2, h3⟩
      rw [hl] at h2
      simp only [List.head?_cons, Option.some.injEq] at h1 h2
      rw [h1, h2]; exact h3
    · intro h3; exact ⟨a, b, rfl, hl, h3⟩
  unfold stitchOffsetSlicesTogether
  simp only
  cases closed with
  | false => exact ⟨_, rfl, Or.inr ⟨by simp, rfl⟩⟩
  | true =>
    simp only [if_true]
    rw [hat, ok_bind, hlast, ok_bind]
    by_cases hc : fuzzyEqualV a.pos b.pos thr
    · rw [if_pos hc]
      exact ⟨⟨true, (a :: t).dropLast⟩, by simp [Polyline.popBack], Or.inl ⟨rfl, hem.2 hc, rfl⟩⟩
    · rw [if_neg hc]
      exact ⟨_, rfl, Or.inr ⟨fun hh => hc (hem.1 hh.2), rfl⟩⟩

/-- A single short slice becomes a closed polyline of one vertex. -/
theorem C40_single_vertex_witness (pf : Platform) (std : StdSort) :
    stitchOffsetSlicesTogether pf std [⟨0, ⟨false, [⟨⟨0, 0⟩, 0⟩, ⟨⟨1 / 10 ^ 5, 0⟩, 0⟩]⟩⟩] true 0 =
      .ok [⟨true, [⟨⟨0, 0⟩, 0⟩]⟩] := by
  obtain ⟨q, hq, h⟩ := (C40_small pf std true 0 sliceJoinThreshold).2
    ⟨0, ⟨false, [⟨⟨0, 0⟩, 0⟩, ⟨⟨1 / 10 ^ 5, 0⟩, 0⟩]⟩⟩ (by simp) rfl
  rw [hq]
  have hem : EndsMeet sliceJoinThreshold [⟨⟨0, 0⟩, 0⟩, ⟨⟨1 / 10 ^ 5, 0⟩, 0⟩] := by
    refine ⟨_, _, rfl, rfl, ?_, ?_⟩
    · simp only [sliceJoinThreshold]; rw [abs_of_neg (by norm_num)]; norm_num
    · simp only [sliceJoinThreshold]; norm_num
  rcases h with ⟨-, -, rfl⟩ | ⟨h, -⟩
  · rfl
  · exact absurd ⟨rfl, hem⟩ h

/-- Two slices that together run around the unit square meet the hypotheses of C40. -/
example (inf ninf : ℝ) (std : StdSort) :
    let s1 : OpenSlice := ⟨0, ⟨false, [⟨⟨0, 0⟩, 0⟩, ⟨⟨1, 0⟩, 0⟩, ⟨⟨1, 1⟩, 0⟩]⟩⟩
    let s2 : OpenSlice := ⟨2, ⟨false, [⟨⟨1, 1⟩, 0⟩, ⟨⟨0, 1⟩, 0⟩, ⟨⟨0, 0⟩, 0⟩]⟩⟩
    ∃ chains r, stitchOffsetSlicesTogether (codePlatform inf ninf) std [s1, s2] true 3 = .ok r ∧
      chains.flatten.Perm [s1, s2] ∧
      List.Forall₂ (fun (c : List OpenSlice) q => ClosesTo true (1 / 10 ^ 5)
        (stitched (c.map fun s => s.pline.vertexes)) q) chains r := by
  intro s1 s2
  obtain ⟨chains, r, h1, h2, -, h3⟩ := C40_stitchOffsetSlicesTogether (pf := codePlatform inf ninf)
    (std := std) (slices := [s1, s2]) (closed := true) (m := 3) (thr := sliceJoinThreshold)
    (by simp [s1, s2]) (by simp) (by norm_num) (by simp [s1, s2])
    (C40_domain inf ninf (by norm_num [sliceJoinThreshold]) (by simp [s1, s2]) (by simp) (by simp))
  exact ⟨chains, r, h1, h2, h3⟩

end
end Cavc

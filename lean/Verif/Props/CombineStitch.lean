import Verif.Spec.Combine
import Verif.Props.OffsetStitch

/-! C44, C45: stitching the slices of boolean operations. -/
namespace Cavc
open Spec
open scoped Classical
noncomputable section

/-- The vertexes of slice number `i`. -/
def pv (slices : List Polyline) (i : ℕ) : List Vertex := (slices.getD i Polyline.empty).vertexes

theorem pv_eq {slices : List Polyline} {i : ℕ} (h : i < slices.length) :
    pv slices i = (slices[i]).vertexes := by
  unfold pv; rw [List.getD_eq_getElem _ _ h]

/-- The boxes around the start points. -/
def orderedBoxes (thr : ℝ) (slices : List Polyline) : List (Box ℝ) :=
  slices.map fun s => match s.vertexes.head? with
    | some v => ⟨v.pos.x - thr, v.pos.y - thr, v.pos.x + thr, v.pos.y + thr⟩
    | none => ⟨0, 0, 0, 0⟩

theorem orderedBoxes_run {thr : ℝ} {slices : List Polyline} (h : ∀ s ∈ slices, s.vertexes ≠ []) :
    slices.mapM (orderedBox thr) = .ok (orderedBoxes thr slices) := by
  unfold orderedBoxes
  induction slices with
  | nil => rfl
  | cons s l ih =>
    rw [List.mapM_cons, ih (fun x hx => h x (List.mem_cons_of_mem _ hx))]
    obtain ⟨v, t, hv⟩ := List.exists_cons_of_ne_nil (h s (by simp))
    have : orderedBox thr s =
        .ok ⟨v.pos.x - thr, v.pos.y - thr, v.pos.x + thr, v.pos.y + thr⟩ := by
      unfold orderedBox Polyline.at getM
      rw [hv]; rfl
    rw [this]
    simp [hv]

theorem orderedBoxes_get {thr : ℝ} {slices : List Polyline} (h : ∀ s ∈ slices, s.vertexes ≠ [])
    {j : ℕ} {b : Box ℝ} : (orderedBoxes thr slices)[j]? = some b ↔ j < slices.length ∧ ∃ v,
      (pv slices j).head? = some v ∧
      b = ⟨v.pos.x - thr, v.pos.y - thr, v.pos.x + thr, v.pos.y + thr⟩ := by
  unfold orderedBoxes
  rw [List.getElem?_map, Option.map_eq_some_iff]
  constructor
  · rintro ⟨s, hs, hb⟩
    obtain ⟨hj, rfl⟩ := List.getElem?_eq_some_iff.1 hs
    refine ⟨hj, ?_⟩
    rw [pv_eq hj]
    obtain ⟨v, t, hv⟩ := List.exists_cons_of_ne_nil (h _ (List.getElem_mem hj))
    rw [hv] at hb ⊢
    exact ⟨v, rfl, hb.symm⟩
  · rintro ⟨hj, v, hv, rfl⟩
    refine ⟨slices[j], List.getElem?_eq_getElem hj, ?_⟩
    rw [pv_eq hj] at hv
    rw [hv]

/-- What is required of a selector: it gives one of the available slices or none. -/
def SelectorOk (sel : StitchSelector) : Prop :=
  ∀ i avail, avail ≠ [] → ∃ r, sel i avail = .ok r ∧ ∀ k, r = some k → k ∈ avail

theorem closePline_run (vs : List Vertex) (result : List Polyline) :
    closePline ⟨false, vs⟩ result =
      .ok (result ++ (if 3 ≤ vs.length then [⟨true, vs.dropLast⟩] else [])) := by
  unfold closePline
  by_cases h : vs.length < 3
  · rw [if_pos (show Polyline.size ⟨false, vs⟩ < 3 from h), if_neg (by omega), List.append_nil]
  · rw [if_neg (show ¬ Polyline.size ⟨false, vs⟩ < 3 from h), if_pos (by omega)]
    unfold Polyline.popBack
    rw [if_neg (by simp only; intro h'; rw [h'] at h; simp at h)]
    rfl

/-- The result of one chain. -/
def chainOut (vs : List Vertex) (closes : Bool) : List Polyline :=
  if closes = true ∧ 3 ≤ vs.length then [⟨true, vs.dropLast⟩] else []

theorem orderedLoop_run {slices : List Polyline} {index : SIndex ℝ} {sel : StitchSelector} {thr : ℝ}
    {first : ℕ} (hsl : ∀ s ∈ slices, s.vertexes ≠ []) (hsel : SelectorOk sel)
    (hidx : IndexOf (orderedBoxes thr slices) index) (hfirst : first < slices.length) :
    ∀ (fuel curr : ℕ) (vs : List Vertex) (visited : List Bool) (result : List Polyline),
      visited.length = slices.length → curr < slices.length → ¬ Unv visited curr →
      ¬ Unv visited first → unused visited < fuel →
      ∃ c closes visited', orderedLoop slices index sel thr first fuel curr
          ⟨false, vs ++ pv slices curr⟩ visited result =
            .ok (visited', result ++ chainOut (vs ++ stitched ((curr :: c).map (pv slices))) closes) ∧
        (∀ j ∈ c, Unv visited j) ∧ (curr :: c).Nodup ∧ visited'.length = visited.length ∧
        (∀ j, Unv visited' j ↔ Unv visited j ∧ j ∉ curr :: c) ∧
        ∀ later, (∀ j, j ∈ later ↔ Unv visited' j) →
          SelectedChain (fun i j => Follows thr (pv slices i) (pv slices j)) sel first closes later
            (curr :: c) := by
  intro fuel
  induction fuel with
  | zero => intro curr vs visited result _ _ _ _ h; omega
  | succ fuel ih =>
    intro curr vs visited result hlen hcurr hvis hvf hfuel
    have hne : pv slices curr ≠ [] := by rw [pv_eq hcurr]; exact hsl _ (List.getElem_mem hcurr)
    obtain ⟨e, he⟩ : ∃ e, (pv slices curr).getLast? = some e :=
      ⟨_, List.getLast?_eq_some_getLast hne⟩
    have hlast : Polyline.lastVertex ⟨false, vs ++ pv slices curr⟩ = .ok e := by
      unfold Polyline.lastVertex
      simp only
      rw [List.getLast?_append_of_ne_nil _ hne, he]
    obtain ⟨r, hnd, hr, hq, -⟩ := hidx.queryM
      ⟨e.pos.x - thr, e.pos.y - thr, e.pos.x + thr, e.pos.y + thr⟩
    have hmem : ∀ j, j ∈ r ↔ j < slices.length ∧ Follows thr (pv slices curr) (pv slices j) := by
      intro j
      rw [hr]
      constructor
      · rintro ⟨b, hb, ho⟩
        obtain ⟨hj, v, hv, rfl⟩ := (orderedBoxes_get hsl).1 hb
        exact ⟨hj, (overlap_follows he hv).1 ho⟩
      · rintro ⟨hj, hf⟩
        obtain ⟨e', v, he', hv, -⟩ := id hf
        exact ⟨_, (orderedBoxes_get hsl).2 ⟨hj, v, hv, rfl⟩, (overlap_follows he hv).2 hf⟩
    obtain ⟨cand, hrem, hmc, hcnd⟩ : ∃ cand, removeIfM (unavailable first visited) r = .ok cand ∧
        (∀ j, j ∈ cand ↔ Follows thr (pv slices curr) (pv slices j) ∧ (j = first ∨ Unv visited j)) ∧
        cand.Nodup := by
      refine ⟨_, removeIfM_eq (unavailable first visited)
        (fun x => ¬ (x = first ∨ Unv visited x)) r ?_, ?_, ?_⟩
      · intro x hx
        have hx' : x < visited.length := by rw [hlen]; exact ((hmem x).1 hx).1
        unfold unavailable
        by_cases hxf : x = first
        · rw [if_neg (by simpa using hxf)]
          simp [hxf]
        · rw [if_pos hxf, getM_of_lt hx']
          unfold Unv
          rw [List.getElem?_eq_getElem hx']
          cases visited[x] <;> simp [hxf]
      · intro j
        rw [List.mem_filter, hmem]
        simp only [not_not, decide_eq_true_eq]
        constructor
        · rintro ⟨⟨-, h1⟩, h2⟩; exact ⟨h1, h2⟩
        · rintro ⟨h1, h2⟩
          refine ⟨⟨?_, h1⟩, h2⟩
          rcases h2 with rfl | h2
          · exact hfirst
          · rw [← hlen]; exact h2.lt
      · exact hnd.filter _
    unfold orderedLoop
    rw [hlast, ok_bind]
    rw [hq, ok_bind, hrem, ok_bind]
    have hstop : ∀ closes : Bool,
        ((closes = true ∧ cand ≠ [] ∧ sel curr cand = .ok (some first)) ∨
         (closes = false ∧ (cand = [] ∨ sel curr cand = .ok none))) →
        (∀ j ∈ ([] : List ℕ), Unv visited j) ∧ [curr].Nodup ∧ visited.length = visited.length ∧
        (∀ j, Unv visited j ↔ Unv visited j ∧ j ∉ [curr]) ∧
        ∀ later, (∀ j, j ∈ later ↔ Unv visited j) →
          SelectedChain (fun i j => Follows thr (pv slices i) (pv slices j)) sel first closes later
            [curr] := by
      intro closes hc
      refine ⟨by simp, by simp, rfl, ?_, ?_⟩
      · intro j
        constructor
        · intro h; exact ⟨h, by simp only [List.mem_singleton]; rintro rfl; exact hvis h⟩
        · exact fun h => h.1
      · intro later hl
        refine ⟨cand, ⟨hcnd, ?_⟩, hc⟩
        intro k
        rw [hmc, hl]
    by_cases hnil : cand = []
    · rw [if_pos (by simp [hnil])]
      exact ⟨[], false, visited, by simp [chainOut], hstop false (Or.inr ⟨rfl, Or.inl hnil⟩)⟩
    · rw [if_neg (by simpa using hnil)]
      obtain ⟨o, ho, hom⟩ := hsel curr cand hnil
      rw [ho, ok_bind]
      cases o with
      | none =>
        exact ⟨[], false, visited, by simp [chainOut], hstop false (Or.inr ⟨rfl, Or.inr ho⟩)⟩
      | some next =>
        simp only
        have hnm := hom next rfl
        have hnx := (hmc next).1 hnm
        by_cases hnf : next = first
        · rw [if_pos hnf, closePline_run, ok_bind]
          refine ⟨[], true, visited, ?_, hstop true (Or.inl ⟨rfl, hnil, by rw [ho, hnf]⟩)⟩
          simp [chainOut, stitched]
        · rw [if_neg hnf]
          have hunv : Unv visited next := by
            rcases hnx.2 with h | h
            · exact absurd h hnf
            · exact h
          have hnl : next < visited.length := hunv.lt
          have hnl' : next < slices.length := by omega
          have hpop : Polyline.popBack ⟨false, vs ++ pv slices curr⟩ =
              .ok ⟨false, vs ++ (pv slices curr).dropLast⟩ := by
            unfold Polyline.popBack
            rw [if_neg (by simp only; intro h; exact hne (List.append_eq_nil_iff.1 h).2)]
            simp only
            rw [List.dropLast_append_of_ne_nil hne]
          rw [getM_of_lt hnl', ok_bind, hpop, ok_bind, setM_of_lt hnl, ok_bind]
          have hus := unused_set hunv
          obtain ⟨c, closes, visited', hrun, hc1, hc2, hc3, hc4, hc5⟩ := ih next
            (vs ++ (pv slices curr).dropLast) (visited.set next true) result (by simp [hlen]) hnl'
            (by rw [unv_set hnl]; exact fun h => h.2 rfl)
            (by rw [unv_set hnl]; exact fun h => hvf h.1) (by omega)
          rw [pv_eq hnl'] at hrun
          have hct : ∀ j ∈ next :: c, Unv visited j := by
            intro j hj
            rcases List.mem_cons.1 hj with rfl | hj
            · exact hunv
            · exact ((unv_set hnl).1 (hc1 j hj)).1
          have hunv' : ∀ j, Unv visited' j ↔ Unv visited j ∧ j ∉ curr :: next :: c := by
            intro j
            rw [hc4, unv_set hnl]
            simp only [List.mem_cons, not_or]
            constructor
            · rintro ⟨⟨h1, h2⟩, h3, h4⟩; exact ⟨h1, fun h => by rw [h] at h1; exact hvis h1, h3, h4⟩
            · rintro ⟨h1, -, h3, h4⟩; exact ⟨⟨h1, h3⟩, h3, h4⟩
          refine ⟨next :: c, closes, visited', ?_, hct, ?_, by rw [hc3]; simp, hunv', ?_⟩
          · rw [hrun]
            simp [stitched, List.append_assoc]
          · exact List.nodup_cons.2 ⟨fun h => hvis (hct _ h), hc2⟩
          · intro later hl
            refine ⟨⟨cand, ⟨hcnd, ?_⟩, hnil, hnf, ho⟩, hc5 later hl⟩
            intro k
            rw [hmc]
            have : Unv visited k ↔ k ∈ next :: c ++ later := by
              rw [List.mem_append, hl, hunv']
              constructor
              · intro h
                by_cases hk : k ∈ next :: c
                · exact Or.inl hk
                · refine Or.inr ⟨h, ?_⟩
                  rw [List.mem_cons, not_or]
                  exact ⟨fun h' => hvis (h' ▸ h), hk⟩
              · rintro (h | h)
                · exact hct k h
                · exact h.1
            rw [this]

theorem orderedOuter_run {slices : List Polyline} {index : SIndex ℝ} {sel : StitchSelector} {thr : ℝ}
    (hsl : ∀ s ∈ slices, s.vertexes ≠ []) (hsel : SelectorOk sel)
    (hidx : IndexOf (orderedBoxes thr slices) index) :
    ∀ (k i : ℕ) (visited : List Bool) (result : List Polyline),
      i + k = slices.length → visited.length = slices.length → (∀ j < i, ¬ Unv visited j) →
      ∃ chains : List (List ℕ × Bool), orderedOuter slices index sel thr k i visited result =
          .ok (result ++ chains.filterMap (closedChain (pv slices))) ∧
        (chains.map Prod.fst).flatten.Nodup ∧
        (∀ j, j ∈ (chains.map Prod.fst).flatten ↔ Unv visited j) ∧
        SelectedChains (fun i j => Follows thr (pv slices i) (pv slices j)) sel chains := by
  intro k
  induction k with
  | zero =>
    intro i visited result hi hlen hv
    refine ⟨[], by simp [orderedOuter], by simp, ?_, trivial⟩
    intro j
    simp only [List.map_nil, List.flatten_nil, List.not_mem_nil, false_iff]
    intro h
    have := h.lt
    exact hv j (by omega) h
  | succ k ih =>
    intro i visited result hi hlen hv
    have hil : i < visited.length := by omega
    have hil' : i < slices.length := by omega
    unfold orderedOuter
    rw [getM_of_lt hil, ok_bind]
    cases hvi : visited[i] with
    | true =>
      simp only [if_true]
      apply ih (i + 1) visited result (by omega) hlen
      intro j hj
      by_cases h : j = i
      · subst h; unfold Unv; rw [List.getElem?_eq_getElem hil, hvi]; simp
      · exact hv j (by omega)
    | false =>
      simp only [Bool.false_eq_true, if_false]
      have hui : Unv visited i := by unfold Unv; rw [List.getElem?_eq_getElem hil, hvi]
      rw [setM_of_lt hil, ok_bind, getM_of_lt hil', ok_bind]
      have hni : ¬ Unv (visited.set i true) i := by rw [unv_set hil]; exact fun h => h.2 rfl
      obtain ⟨c, closes, visited', hrun, hc1, hc2, hc3, hc4, hc5⟩ := orderedLoop_run (sel := sel)
        (first := i) hsl hsel hidx hil' (slices.length + 1) i [] (visited.set i true) result
        (by simp [hlen]) hil' hni hni
        (by
          have := unused_set hui
          have h3 : unused visited ≤ visited.length := List.count_le_length
          omega)
      rw [List.nil_append, pv_eq hil'] at hrun
      rw [hrun, ok_bind]
      simp only
      obtain ⟨chains, hrec, hnd, hmem, hg⟩ := ih (i + 1) visited'
        (result ++ chainOut (stitched ((i :: c).map (pv slices))) closes) (by omega)
        (by rw [hc3]; simp [hlen]) (by
          intro j hj hu
          have := (unv_set hil).1 ((hc4 j).1 hu).1
          exact hv j (by have := this.2; omega) this.1)
      have hall : ∀ j, j ∈ (i :: c) ++ (chains.map Prod.fst).flatten ↔ Unv visited j := by
        intro j
        rw [List.mem_append, hmem, hc4, unv_set hil]
        constructor
        · rintro (h | h)
          · rcases List.mem_cons.1 h with rfl | h
            · exact hui
            · exact ((unv_set hil).1 (hc1 j h)).1
          · exact h.1.1
        · intro h
          by_cases hj : j ∈ i :: c
          · exact Or.inl hj
          · exact Or.inr ⟨⟨h, fun h' => hj (by simp [h'])⟩, hj⟩
      refine ⟨(i :: c, closes) :: chains, ?_, ?_, ?_, ⟨i, rfl, ?_, hc5 _ hmem⟩, hg⟩
      · rw [List.nil_append, hrec, List.append_assoc]
        congr 2
        rw [List.filterMap_cons]
        unfold chainOut closedChain
        simp only
        split_ifs <;> simp
      · rw [List.map_cons, List.flatten_cons, List.nodup_append]
        refine ⟨hc2, hnd, ?_⟩
        intro a ha b hb hab
        subst hab
        exact ((hc4 a).1 ((hmem a).1 hb)).2 ha
      · intro j
        rw [List.map_cons, List.flatten_cons]
        exact hall j
      · intro j hj
        have := (hall j).1 hj
        by_contra hlt
        exact hv j (by omega) this

/-- C44. Stitching nonempty slices never faults (in particular it never exceeds its loop bound),
whatever selector is given. The slices are divided into chains in which every slice occurs exactly
once; each chain starts at the first unused slice, and each next slice starts, up to the threshold,
where the one before ends and is the one the selector chooses among all that do and are unused or the
first one of the chain. The results are the chains that come back to their first slice, as closed
polylines. -/
theorem C44_stitchOrderedSlices {pf : Platform} {slices : List Polyline} {sel : StitchSelector}
    {thr : ℝ} (hsl : ∀ s ∈ slices, s.vertexes ≠ [])
    (hsel : ∀ i avail, avail ≠ [] → ∃ r, sel i avail = .ok r ∧ ∀ k, r = some k → k ∈ avail)
    (hdom : slices ≠ [] → IndexDomain 16 pf.inf pf.ninf pf.hilbert (slices.map fun s =>
      match s.vertexes.head? with
      | some v => ⟨v.pos.x - thr, v.pos.y - thr, v.pos.x + thr, v.pos.y + thr⟩
      | none => ⟨0, 0, 0, 0⟩)) :
    ∃ chains : List (List ℕ × Bool),
      stitchOrderedSlicesIntoClosedPolylines pf slices sel thr =
        .ok (chains.filterMap (closedChain fun i => (slices.getD i Polyline.empty).vertexes)) ∧
      (chains.map Prod.fst).flatten.Perm (List.range slices.length) ∧
      SelectedChains (fun i j => Follows thr (slices.getD i Polyline.empty).vertexes
        (slices.getD j Polyline.empty).vertexes) sel chains := by
  unfold stitchOrderedSlicesIntoClosedPolylines
  by_cases hne : slices = []
  · subst hne
    exact ⟨[], by simp, by simp, trivial⟩
  · rw [if_neg (by simpa using hne)]
    obtain ⟨index, hb, hidx⟩ := (hdom hne).indexOf
    obtain ⟨chains, h1, h3, h4, h5⟩ := orderedOuter_run (sel := sel) hsl hsel hidx slices.length 0
      (List.replicate slices.length false) [] (by omega) (by simp) (by omega)
    refine ⟨chains, ?_, ?_, h5⟩
    · rw [orderedBoxes_run hsl, ok_bind]
      unfold orderedBoxes
      rw [hb, ok_bind, h1]
      rfl
    · rw [List.perm_ext_iff_of_nodup h3 List.nodup_range]
      intro j
      rw [h4, List.mem_range]
      unfold Unv
      rw [List.getElem?_replicate]
      split_ifs with h <;> simp [h]

/-- The index condition of C44 holds for the code's Hilbert values: up to 2^24 slices and a positive
threshold. -/
theorem C44_domain {slices : List Polyline} {thr : ℝ} (inf ninf : ℝ) (ht : 0 < thr)
    (hsl : ∀ s ∈ slices, s.vertexes ≠ []) (h1 : slices ≠ [])
    (h2 : slices.length ≤ 2 ^ 24) :
    IndexDomain 16 (codePlatform inf ninf).inf (codePlatform inf ninf).ninf
      (codePlatform inf ninf).hilbert (slices.map fun s =>
      match s.vertexes.head? with
      | some v => ⟨v.pos.x - thr, v.pos.y - thr, v.pos.x + thr, v.pos.y + thr⟩
      | none => ⟨0, 0, 0, 0⟩) := by
  change IndexDomain 16 _ _ _ (orderedBoxes thr slices)
  have key : ∀ b ∈ orderedBoxes thr slices, b.minX < b.maxX ∧ b.minY < b.maxY := by
    intro b hb
    obtain ⟨s, hs, rfl⟩ := List.mem_map.1 hb
    obtain ⟨v, t, hv⟩ := List.exists_cons_of_ne_nil (hsl s hs)
    rw [hv]
    simp only [List.head?_cons]; constructor <;> linarith
  have hlen : (orderedBoxes thr slices).length = slices.length := by simp [orderedBoxes]
  have hl : 1 ≤ slices.length := by
    rcases slices with _ | ⟨a, l⟩
    · exact absurd rfl h1
    · simp
  obtain ⟨b, hb⟩ := List.exists_mem_of_ne_nil (orderedBoxes thr slices)
    (by intro h; rw [h] at hlen; simp at hlen; omega)
  refine C06_hilbert_defined (by norm_num) inf ninf _ ⟨by omega, by omega⟩ ?_ ?_ ?_
  · intro b hb; exact ⟨(key b hb).1.le, (key b hb).2.le⟩
  · exact ⟨b, hb, b, hb, (key b hb).1⟩
  · exact ⟨b, hb, b, hb, (key b hb).2⟩

theorem picks_find {avail : List ℕ} {P : ℕ → Prop} [DecidablePred P] {rest : List (ℕ → Prop)} :
    (∀ k, avail.find? (fun i => P i) = some k → Picks avail (P :: rest) (some k)) ∧
    (avail.find? (fun i => P i) = none → ∀ r, Picks avail rest r → Picks avail (P :: rest) r) := by
  constructor
  · intro k hk
    have h1 := List.find?_some hk
    exact Or.inl ⟨k, rfl, List.mem_of_find?_eq_some hk, by simpa using h1⟩
  · intro hn r hr
    rw [List.find?_eq_none] at hn
    exact Or.inr ⟨fun k hk => by simpa using hn k hk, hr⟩

theorem picks_mem {avail : List ℕ} : ∀ {prefs : List (ℕ → Prop)} {r : Option ℕ},
    Picks avail prefs r → ∀ k, r = some k → k ∈ avail
  | [], r, h => by
    intro k hk
    rw [show r = none from h] at hk
    cases hk
  | P :: rest, r, h => by
    intro k hk
    rcases h with ⟨j, hj, hm, -⟩ | ⟨-, h⟩
    · rw [hk] at hj; cases hj; exact hm
    · exact picks_mem h k hk

theorem picks_first {a : ℕ} {l : List ℕ} : Picks (a :: l) [fun _ => True] (some a) :=
  Or.inl ⟨a, rfl, by simp, trivial⟩

/-- C45, union and intersect: slices that are not coincident are preferred; another one is taken only
after a slice that is not coincident. -/
theorem C45_unionSelector (start curr : ℕ) (avail : List ℕ) (h : avail ≠ []) :
    ∃ r, unionSelector start curr avail = .ok r ∧
      Picks avail ((fun k => k < start) :: if curr < start then [fun _ => True] else []) r := by
  obtain ⟨a, l, rfl⟩ := List.exists_cons_of_ne_nil h
  unfold unionSelector
  cases hf : (a :: l).find? (fun i => i < start) with
  | some k =>
    refine ⟨some k, rfl, picks_find.1 k hf⟩
  | none =>
    simp only
    by_cases hc : curr < start
    · rw [if_neg (by omega), if_pos hc]
      exact ⟨some a, rfl, picks_find.2 hf _ picks_first⟩
    · rw [if_pos (by omega), if_neg hc]
      exact ⟨none, rfl, picks_find.2 hf _ rfl⟩

/-- C45, exclude and XOR: after a slice of A one of B is preferred, and one of A after a slice of B;
any other only after slices that are not coincident. After a coincident slice of A a slice of B is
preferred to one of A, after a coincident slice of B a slice of A to one of B; no other is taken. -/
theorem C45_excludeSelector (startB startAC startBC curr : ℕ) (h1 : startB ≤ startAC)
    (h2 : startAC ≤ startBC) (avail : List ℕ) (h : avail ≠ []) :
    let isA : ℕ → Prop := fun k => k < startB
    let isB : ℕ → Prop := fun k => startB ≤ k ∧ k < startAC
    let isAC : ℕ → Prop := fun k => startAC ≤ k ∧ k < startBC
    let isBC : ℕ → Prop := fun k => startBC ≤ k
    ∃ r, excludeSelector startB startAC startBC curr avail = .ok r ∧
      (isA curr → Picks avail [isB, fun _ => True] r) ∧
      (isB curr → Picks avail [isA, fun _ => True] r) ∧
      (isAC curr → Picks avail [isB, isA] r) ∧
      (isBC curr → Picks avail [isA, isB] r) := by
  intro isA isB isAC isBC
  obtain ⟨a, l, rfl⟩ := List.exists_cons_of_ne_nil h
  have ff : ∀ {P : ℕ → Prop} [DecidablePred P],
      Picks (a :: l) [P] ((a :: l).find? (fun i => P i)) := by
    intro P _
    cases hf : (a :: l).find? (fun i => P i) with
    | some k => exact picks_find.1 k hf
    | none => exact picks_find.2 hf _ rfl
  unfold excludeSelector
  by_cases hc : curr ≥ startAC
  · rw [if_pos hc]
    by_cases hb : curr < startBC
    · rw [if_pos hb]
      cases hf : (a :: l).find? (fun i => i ≥ startB ∧ i < startAC) with
      | some k =>
        exact ⟨some k, rfl, fun h => by omega, fun h => by omega, fun _ => picks_find.1 k hf,
          fun h => by omega⟩
      | none =>
        exact ⟨_, rfl, fun h => by omega, fun h => by omega, fun _ => picks_find.2 hf _ ff,
          fun h => by omega⟩
    · rw [if_neg hb]
      cases hf : (a :: l).find? (fun i => i < startB) with
      | some k =>
        exact ⟨some k, rfl, fun h => by omega, fun h => by omega, fun h => by omega,
          fun _ => picks_find.1 k hf⟩
      | none =>
        refine ⟨_, rfl, fun h => by omega, fun h => by omega, fun h => by omega,
          fun _ => picks_find.2 hf _ ?_⟩
        have hno : ∀ k ∈ a :: l, ¬ k < startB := by
          rw [List.find?_eq_none] at hf
          intro k hk; simpa using hf k hk
        have e : (a :: l).find? (fun i => decide (i < startAC)) =
            (a :: l).find? (fun i => decide (startB ≤ i ∧ i < startAC)) := by
          apply List.find?_congr
          intro k hk
          have := hno k hk
          rw [decide_eq_decide]
          omega
        rw [e]
        exact ff
  · rw [if_neg hc]
    by_cases hb : curr < startB
    · rw [if_pos hb]
      cases hf : (a :: l).find? (fun i => i ≥ startB ∧ i < startAC) with
      | some k =>
        exact ⟨some k, rfl, fun _ => picks_find.1 k hf, fun h => by omega, fun h => by omega,
          fun h => by omega⟩
      | none =>
        exact ⟨some a, rfl, fun _ => picks_find.2 hf _ picks_first, fun h => by omega,
          fun h => by omega, fun h => by omega⟩
    · rw [if_neg hb]
      cases hf : (a :: l).find? (fun i => i < startB) with
      | some k =>
        exact ⟨some k, rfl, fun h => by omega, fun _ => picks_find.1 k hf, fun h => by omega,
          fun h => by omega⟩
      | none =>
        exact ⟨some a, rfl, fun h => by omega, fun _ => picks_find.2 hf _ picks_first,
          fun h => by omega, fun h => by omega⟩

theorem selectorOk_first : SelectorOk stitchFirstAvailable := by
  intro i avail h
  obtain ⟨a, l, rfl⟩ := List.exists_cons_of_ne_nil h
  exact ⟨some a, rfl, by rintro k ⟨⟩; simp⟩

theorem selectorOk_union (start : ℕ) : SelectorOk (unionSelector start) := by
  intro i avail h
  obtain ⟨r, h1, h2⟩ := C45_unionSelector start i avail h
  exact ⟨r, h1, picks_mem h2⟩

theorem selectorOk_exclude {a b c : ℕ} (h1 : a ≤ b) (h2 : b ≤ c) :
    SelectorOk (excludeSelector a b c) := by
  intro i avail h
  obtain ⟨r, h3, p1, p2, p3, p4⟩ := C45_excludeSelector a b c i h1 h2 avail h
  refine ⟨r, h3, ?_⟩
  by_cases ha : i < a
  · exact picks_mem (p1 ha)
  by_cases hb : i < b
  · exact picks_mem (p2 ⟨by omega, hb⟩)
  by_cases hc : i < c
  · exact picks_mem (p3 ⟨by omega, hc⟩)
  · exact picks_mem (p4 (by show c ≤ i; omega))

/-- In a chain, two slices that satisfy `P` never follow each other if the selector never chooses one
after the other. -/
theorem chain_no_pair {follows : ℕ → ℕ → Prop} {sel : StitchSelector} {P : ℕ → Prop}
    (hsel : ∀ i avail j, P i → sel i avail = .ok (some j) → ¬ P j) {first : ℕ} {closes : Bool}
    {later : List ℕ} : ∀ c : List ℕ, SelectedChain follows sel first closes later c →
      List.IsChain (fun i j => ¬ (P i ∧ P j)) (if closes = true then c ++ [first] else c)
  | [], h => h.elim
  | [i], h => by
    obtain ⟨avail, -, h⟩ := h
    rcases h with ⟨hc, -, h⟩ | ⟨hc, h⟩
    · rw [if_pos hc]
      simp only [List.cons_append, List.nil_append, List.isChain_cons_cons, List.isChain_singleton,
        and_true]
      exact fun hp => hsel i avail first hp.1 h hp.2
    · rw [if_neg (by simp [hc])]
      simp
  | i :: j :: c, h => by
    obtain ⟨⟨avail, -, -, -, h1⟩, h2⟩ := h
    have := chain_no_pair hsel (j :: c) h2
    have hij : ¬ (P i ∧ P j) := fun hp => hsel i avail j hp.1 h1 hp.2
    cases closes with
    | true =>
      simp only [if_true, List.cons_append] at this ⊢
      exact List.isChain_cons_cons.2 ⟨hij, this⟩
    | false =>
      simp only [Bool.false_eq_true, if_false] at this ⊢
      exact List.isChain_cons_cons.2 ⟨hij, this⟩

/-- C45. With either selector no result joins two coincident slices with each other, the first one of
a closed chain counting as the one after the last. -/
theorem C45_no_coincident_pair {follows : ℕ → ℕ → Prop} {startB startAC startBC first : ℕ}
    (h1 : startB ≤ startAC) {closes : Bool} {later c : List ℕ}
    (h : SelectedChain follows (unionSelector startAC) first closes later c ∨
      SelectedChain follows (excludeSelector startB startAC startBC) first closes later c) :
    List.IsChain (fun i j => ¬ (startAC ≤ i ∧ startAC ≤ j))
      (if closes = true then c ++ [first] else c) := by
  rcases h with h | h
  · refine chain_no_pair (P := fun i => startAC ≤ i) ?_ c h
    intro i avail j hi hj hj'
    unfold unionSelector at hj
    cases hf : avail.find? (fun i => i < startAC) with
    | some k =>
      rw [hf] at hj
      simp only [Except.ok.injEq, Option.some.injEq] at hj
      have := List.find?_some hf
      simp only [decide_eq_true_eq] at this
      omega
    | none =>
      rw [hf] at hj
      simp only at hj
      rw [if_pos hi] at hj
      simp at hj
  · refine chain_no_pair (P := fun i => startAC ≤ i) ?_ c h
    intro i avail j hi hj hj'
    unfold excludeSelector at hj
    rw [if_pos hi] at hj
    have key : ∀ (Q : ℕ → Bool) k, avail.find? Q = some k → (Q k = true → k < startAC) → k < startAC :=
      fun Q k hk hq => hq (List.find?_some hk)
    split_ifs at hj with hb
    · cases hf : avail.find? (fun i => i ≥ startB ∧ i < startAC) with
      | some k =>
        rw [hf] at hj
        simp only [Except.ok.injEq, Option.some.injEq] at hj
        have := key _ _ hf (by simp)
        omega
      | none =>
        rw [hf] at hj
        simp only [Except.ok.injEq] at hj
        have := key _ _ hj (by simp; omega)
        omega
    · cases hf : avail.find? (fun i => i < startB) with
      | some k =>
        rw [hf] at hj
        simp only [Except.ok.injEq, Option.some.injEq] at hj
        have := key _ _ hf (by simp; omega)
        omega
      | none =>
        rw [hf] at hj
        simp only [Except.ok.injEq] at hj
        have := key _ _ hj (by simp)
        omega

/-- Two slices that make up a square. -/
example (inf ninf : ℝ) : ∃ chains : List (List ℕ × Bool),
    stitchOrderedSlicesIntoClosedPolylines (codePlatform inf ninf)
      [⟨false, [⟨⟨0, 0⟩, 0⟩, ⟨⟨1, 0⟩, 0⟩, ⟨⟨1, 1⟩, 0⟩]⟩, ⟨false, [⟨⟨1, 1⟩, 0⟩, ⟨⟨0, 1⟩, 0⟩, ⟨⟨0, 0⟩, 0⟩]⟩]
      (unionSelector 2) = .ok (chains.filterMap (closedChain fun i =>
        ([⟨false, [⟨⟨0, 0⟩, 0⟩, ⟨⟨1, 0⟩, 0⟩, ⟨⟨1, 1⟩, 0⟩]⟩,
          ⟨false, [⟨⟨1, 1⟩, 0⟩, ⟨⟨0, 1⟩, 0⟩, ⟨⟨0, 0⟩, 0⟩]⟩].getD i Polyline.empty).vertexes)) ∧
      (chains.map Prod.fst).flatten.Perm [0, 1] := by
  obtain ⟨chains, h1, h2, -⟩ := C44_stitchOrderedSlices (pf := codePlatform inf ninf)
    (thr := sliceJoinThreshold)
    (slices := [⟨false, [⟨⟨0, 0⟩, 0⟩, ⟨⟨1, 0⟩, 0⟩, ⟨⟨1, 1⟩, 0⟩]⟩,
      ⟨false, [⟨⟨1, 1⟩, 0⟩, ⟨⟨0, 1⟩, 0⟩, ⟨⟨0, 0⟩, 0⟩]⟩])
    (by simp) (selectorOk_union 2)
    (fun _ => C44_domain inf ninf (by norm_num [sliceJoinThreshold]) (by simp) (by simp) (by simp))
  exact ⟨chains, h1, h2⟩

end
end Cavc

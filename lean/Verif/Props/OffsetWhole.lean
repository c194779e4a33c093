import Verif.Props.OffsetEnds
import Verif.Props.OffsetRect

/-! C59: what `parallelOffset` puts together. -/
namespace Cavc
open Spec
open scoped Classical
noncomputable section

/-! ### The self intersects -/

theorem consecutiveOf_two (v w : Vertex) : consecutiveOf ⟨true, [v, w]⟩ =
    if |v.bulge + w.bulge| < 1 / 10 ^ 8 then [⟨0, 1, w.pos⟩, ⟨1, 0, v.pos⟩] else [] := rfl

theorem local_is {p : Polyline} {l : List PlineIntersect} (hok : PlineOk p) {out : List PlineIntersect}
    (h : localSelfIntersects p out = .ok l) : l = out ++ consecutiveOf p := by
  have hgen : consecutiveOf p = (List.range (segs p).length).flatMap (consecutiveHits p) ∨
      ∃ v w, p = ⟨true, [v, w]⟩ := by
    obtain ⟨c, vs⟩ := p
    rcases vs with _ | ⟨v, _ | ⟨w, _ | ⟨x, vs⟩⟩⟩ <;> cases c <;>
      first | exact Or.inr ⟨_, _, rfl⟩ | exact Or.inl rfl
  by_cases h3 : 3 ≤ p.vertexes.length
  · rw [C35_localSelfIntersects h3 hok] at h
    cases h
    rcases hgen with e | ⟨v, w, rfl⟩
    · rw [e]
    · simp at h3
  · by_cases hs : p.vertexes.length < 2 ∨ (p.vertexes.length = 2 ∧ p.isClosed = false)
    · rw [(C35_small p out).1 hs] at h
      cases h
      rcases hgen with e | ⟨v, w, rfl⟩
      · rw [e]
        obtain ⟨c, vs⟩ := p
        rcases vs with _ | ⟨v, _ | ⟨w, _ | ⟨x, vs⟩⟩⟩
        · cases c <;> simp [segs]
        · cases c <;> simp [segs]
        · rcases hs with hs | ⟨-, hs⟩
          · simp at hs
          · simp only at hs
            subst hs
            simp [segs, consecutiveHits]
        · simp at h3
      · simp at hs
    · push Not at hs
      obtain ⟨c, vs⟩ := p
      have h2 : vs.length = 2 := by simp only at hs h3; omega
      have hc : c = true := by
        have := hs.2 h2
        simpa using this
      obtain ⟨v, w, rfl⟩ := List.length_eq_two.1 h2
      subst hc
      obtain ⟨g1, g2⟩ := (C35_small ⟨true, [v, w]⟩ out).2 v w rfl
      rw [consecutiveOf_two]
      by_cases hb : |v.bulge + w.bulge| < 1 / 10 ^ 8
      · rw [g1 hb] at h
        cases h
        rw [if_pos hb]
      · rw [g2 (not_lt.1 hb)] at h
        cases h
        rw [if_neg hb, List.append_nil]

theorem self_is {pf : Platform} {p : Polyline} (hi : Indexable pf p) (hok : PlineOk p) {s : SIndex ℝ}
    (hs : createApproxSpatialIndex pf p = .ok s) {l : List PlineIntersect}
    (h : allSelfIntersects p [] s = .ok l) : SelfIntersectsOf p l := by
  obtain ⟨s', hs', pairs, h1, h2, h3, h4⟩ := C34_globalSelfIntersects hi hok
  rw [hs] at hs'
  cases hs'
  unfold allSelfIntersects at h
  obtain ⟨o, ho, h⟩ := bind_eq_ok.1 h
  rw [h4 o] at h
  cases h
  refine ⟨pairs, h1, h2, h3, ?_⟩
  rw [local_is hok ho, List.nil_append]

theorem self_seg {p : Polyline} {l : List PlineIntersect} (h : SelfIntersectsOf p l) :
    ∀ x ∈ l, (∃ v1 v2, IsSeg p x.sIndex1 v1 v2) ∧ ∃ v1 v2, IsSeg p x.sIndex2 v1 v2 := by
  obtain ⟨pairs, -, -, -, rfl⟩ := h
  have hcons : ∀ i, ∀ x ∈ consecutiveHits p i,
      (∃ v1 v2, IsSeg p x.sIndex1 v1 v2) ∧ ∃ v1 v2, IsSeg p x.sIndex2 v1 v2 := by
    intro i x hx
    unfold consecutiveHits at hx
    simp only at hx
    generalize (if p.isClosed = true ∧ i + 1 = p.vertexes.length then 0 else i + 1) = j at hx
    cases h1 : (segs p)[i]? with
    | none => rw [h1] at hx; simp at hx
    | some a =>
      cases h2 : (segs p)[j]? with
      | none => rw [h1, h2] at hx; simp at hx
      | some b =>
        rw [h1, h2] at hx
        simp only at hx
        obtain ⟨y, -, rfl⟩ := List.mem_map.1 hx
        exact ⟨⟨a.1, a.2, h1⟩, b.1, b.2, h2⟩
  intro x hx
  rcases List.mem_append.1 hx with hx | hx
  · obtain ⟨c, vs⟩ := p
    have hgen : consecutiveOf ⟨c, vs⟩ = (List.range (segs ⟨c, vs⟩).length).flatMap (consecutiveHits ⟨c, vs⟩) ∨
        ∃ v w, (⟨c, vs⟩ : Polyline) = ⟨true, [v, w]⟩ := by
      rcases vs with _ | ⟨v, _ | ⟨w, _ | ⟨x, vs⟩⟩⟩ <;> cases c <;>
        first | exact Or.inr ⟨_, _, rfl⟩ | exact Or.inl rfl
    rcases hgen with e | ⟨v, w, e⟩
    · rw [e] at hx
      obtain ⟨i, -, hx⟩ := List.mem_flatMap.1 hx
      exact hcons i x hx
    · rw [e] at hx ⊢
      rw [consecutiveOf_two] at hx
      have s0 : IsSeg ⟨true, [v, w]⟩ 0 v w := rfl
      have s1 : IsSeg ⟨true, [v, w]⟩ 1 w v := rfl
      split_ifs at hx
      · simp only [List.mem_cons, List.not_mem_nil, or_false] at hx
        rcases hx with rfl | rfl
        · exact ⟨⟨_, _, s0⟩, _, _, s1⟩
        · exact ⟨⟨_, _, s1⟩, _, _, s0⟩
      · simp at hx
  · obtain ⟨⟨i, j⟩, -, hx⟩ := List.mem_flatMap.1 hx
    unfold selfHits at hx
    simp only at hx
    cases h1 : (segs p)[i]? with
    | none => rw [h1] at hx; simp at hx
    | some a =>
      cases h2 : (segs p)[j]? with
      | none => rw [h1, h2] at hx; simp at hx
      | some b =>
        rw [h1, h2] at hx
        simp only at hx
        cases h3 : intrPlineSegs a.1 a.2 b.1 b.2 with
        | error e => rw [h3] at hx; simp at hx
        | ok r =>
          rw [h3] at hx
          simp only at hx
          obtain ⟨y, -, rfl⟩ := List.mem_map.1 hx
          exact ⟨⟨a.1, a.2, h1⟩, b.1, b.2, h2⟩

theorem selfCuts_seg {p : Polyline} {l : List PlineIntersect} (h : SelfIntersectsOf p l) :
    ∀ c ∈ selfCuts l, ∃ v1 v2, IsSeg p c.seg v1 v2 := by
  intro c hc
  obtain ⟨x, hx, hc⟩ := List.mem_flatMap.1 hc
  obtain ⟨h1, h2⟩ := self_seg h x hx
  simp only [List.mem_cons, List.not_mem_nil, or_false] at hc
  rcases hc with rfl | rfl
  · exact h1
  · exact h2

theorem dualCuts_seg {pf : Platform} {p1 p2 : Polyline} (hi : Indexable pf p1) (h1 : PlineOk p1)
    (h2 : PlineOk p2) {s : SIndex ℝ} (hs : createApproxSpatialIndex pf p1 = .ok s) {d : IntersectsResult}
    (h : findIntersects p1 p2 s ⟨[], []⟩ = .ok d) : ∀ c ∈ dualCuts d, ∃ v1 v2, IsSeg p1 c.seg v1 v2 := by
  obtain ⟨s', d', hs', hd', hB, hA, -⟩ := C33_findIntersects hi h1 h2
  rw [hs] at hs'
  cases hs'
  rw [h] at hd'
  cases hd'
  intro c hc
  rcases List.mem_append.1 hc with hc | hc
  · obtain ⟨⟨i, j, x⟩, hx, rfl⟩ := List.mem_map.1 hc
    obtain ⟨v1, v2, -, -, g, -⟩ := (hA i j x).1 hx
    exact ⟨v1, v2, g⟩
  · obtain ⟨⟨i, j, a, b⟩, hx, hc⟩ := List.mem_flatMap.1 hc
    obtain ⟨v1, v2, -, -, g, -⟩ := (hB i j a b).1 hx
    simp only [List.mem_cons, List.not_mem_nil, or_false] at hc
    rcases hc with rfl | rfl <;> exact ⟨v1, v2, g⟩

/-! ### The slices -/

theorem keyed_seg {raw : Polyline} {l : Lookup} {cuts : List Cut} (hk : Keyed (slOf l))
    (hp : (cutsIn (slOf l)).Perm cuts) (hseg : ∀ c ∈ cuts, ∃ v1 v2, IsSeg raw c.seg v1 v2) :
    ∀ kv ∈ l, ∃ v1 v2, IsSeg raw kv.1 v1 v2 := by
  intro kv hkv
  obtain ⟨sp, rest, hsp⟩ := List.exists_cons_of_ne_nil (hk.2 _ (List.mem_map.2 ⟨kv, hkv, rfl⟩))
  have hm : cutOf kv.1 sp ∈ cutsIn (slOf l) :=
    List.mem_flatMap.2 ⟨_, List.mem_map.2 ⟨kv, hkv, rfl⟩, by rw [hsp]; simp⟩
  exact hseg _ (hp.mem_iff.1 hm)

/-- The blocks of an iteration in another order. -/
theorem perm_blocks {P : ℕ × List V2 → List (Option Polyline) → Prop} {l l' : Lookup}
    {oss : List (List (Option Polyline))} (hp : l.Perm l') (h : List.Forall₂ P l oss) :
    ∃ oss', List.Forall₂ P l' oss' ∧ ((l.zip oss).map fun x => onSeg x.1.1 x.2).flatten.Perm
      ((l'.zip oss').map fun x => onSeg x.1.1 x.2).flatten := by
  have h1 : List.Forall₂ (fun kv (ko : ℕ × List (Option Polyline)) => ko.1 = kv.1 ∧ P kv ko.2) l
      ((l.zip oss).map fun x => (x.1.1, x.2)) := by
    clear hp
    induction h with
    | nil => exact .nil
    | cons h _ ih => exact .cons ⟨rfl, h⟩ ih
  obtain ⟨ks, h2, h3⟩ := List.perm_comp_forall₂ hp.symm h1
  have h4 : ∀ {l' : Lookup} {ks : List (ℕ × List (Option Polyline))},
      List.Forall₂ (fun kv (ko : ℕ × List (Option Polyline)) => ko.1 = kv.1 ∧ P kv ko.2) l' ks →
      List.Forall₂ P l' (ks.map Prod.snd) ∧
      ((l'.zip (ks.map Prod.snd)).map fun x => onSeg x.1.1 x.2) = ks.map fun k => onSeg k.1 k.2 := by
    intro l' ks h
    induction h with
    | nil => exact ⟨.nil, rfl⟩
    | cons h _ ih =>
      refine ⟨.cons h.2 ih.1, ?_⟩
      rw [List.map_cons, List.zip_cons_cons, List.map_cons, ih.2, List.map_cons, h.1]
  obtain ⟨h5, h6⟩ := h4 h2
  refine ⟨_, h5, ?_⟩
  rw [h6]
  refine List.Perm.trans ?_ (h3.symm.map _).flatten
  rw [List.map_map]
  rfl

/-- The kept pieces, from what comes of the entries. -/
theorem kept_of {p : Polyline} {offset : ℝ} {e : SliceEnv} (ht : Tests p offset e)
    {l : Lookup} (hk : Keyed (slOf l)) {cuts : List Cut} (hperm : (cutsIn (slOf l)).Perm cuts)
    (hcs : ∀ c ∈ cuts, ∃ v1 v2, IsSeg e.raw c.seg v1 v2)
    (hal : AlongPline e.raw (cutsIn (slOf l))) {adv : ℕ → Option ℕ} {long : Polyline → Prop}
    (hac : e.raw.isClosed = true → ∀ j, j < e.raw.size → adv j = some ((j + 1) % e.raw.size))
    (hao : e.raw.isClosed = false → ∀ j, j + 1 < e.raw.size → adv j = some (j + 1))
    (haz : e.raw.isClosed = false → adv (e.raw.size - 1) = none)
    {oss : List (List (Option Polyline))}
    (h : List.Forall₂ (StepIs p offset e l adv long) l oss) {first : Option Polyline}
    (hf : ∀ s, first = some s ↔ e.raw.isClosed = false ∧
      ∃ c, (cutsIn (slOf l)).head? = some c ∧ KeptToFirst p e.raw offset c s)
    {slices : List OpenSlice} (hs : slices.Perm ((first.toList.map fun s => ⟨0, s⟩) ++
      ((l.zip oss).map fun x => onSeg x.1.1 x.2).flatten)) :
    KeptPieces p e.raw offset long cuts slices := by
  obtain ⟨g1, -, g3⟩ := flat_at (fun _ _ h => h.len) h
  refine ⟨cutsIn (slOf l), first, oss.flatten, hperm, hal, g1,
    pieces_is ht hk (keyed_seg hk hperm hcs) hal hac hao haz h, hf, ?_⟩
  rw [← g3]
  exact hs

/-- The slices of a closed raw offset polyline. -/
theorem rawSlices_is {std : StdSort} {hash : HashOrder} {p : Polyline} {offset : ℝ} {e : SliceEnv}
    (ht : Tests p offset e) (hrc : e.raw.isClosed = true) {selfs : List PlineIntersect}
    (hself : SelfIntersectsOf e.raw selfs) {lookup : Lookup}
    (hl : sortLookup std e.raw (selfs.foldl
      (fun (l : Lookup) si => (l.push si.sIndex1 si.pos).push si.sIndex2 si.pos) []) = .ok lookup)
    {slices : List OpenSlice}
    (h : (hash.iter lookup).foldlM (rawSliceStep e lookup) [] = .ok slices) :
    KeptPieces p e.raw offset LongLoop (selfCuts selfs) slices := by
  obtain ⟨k0, c0⟩ := self_cuts selfs [] ⟨by simp [slOf], by simp [slOf]⟩
  obtain ⟨k1, c1, c2⟩ := sortLookup_cuts k0 hl
  have hperm : (cutsIn (slOf lookup)).Perm (selfCuts selfs) := c1.trans c0
  have hseg := keyed_seg k1 hperm (selfCuts_seg hself)
  obtain ⟨oss, f1, f2⟩ := steps_is (P := StepIs p offset e lookup
      (fun i => some (nextWrappingIndex i e.raw.size)) LongLoop) (l0 := lookup)
    (fun kv hkv acc r h => by
      obtain ⟨v1, v2, hv⟩ := hseg kv hkv
      exact rawStep_is ht (isSeg_mod hv).1 h)
    _ _ _ (fun kv hkv => (hash.perm lookup).mem_iff.1 hkv) h
  obtain ⟨oss', g1, g2⟩ := perm_blocks (hash.perm lookup) f1
  refine kept_of ht k1 hperm (selfCuts_seg hself) c2 (fun _ j hj => by rw [next_eq_mod hj])
    (fun ho => ?_) (fun ho => ?_) g1 (first := none) (fun s => ?_) ?_
  · rw [hrc] at ho; cases ho
  · rw [hrc] at ho; cases ho
  · refine ⟨(fun h => nomatch h), fun ho => ?_⟩
    rw [hrc] at ho
    cases ho.1
  · rw [f2, List.nil_append]
    exact g2

theorem first_of {p : Polyline} {offset : ℝ} {e : SliceEnv} (ht : Tests p offset e)
    (hc : e.raw.isClosed = e.original.isClosed) {l : Lookup} (hne : l ≠ []) (hk : Keyed (slOf l))
    (hseg : ∀ kv ∈ l, ∃ v1 v2, IsSeg e.raw kv.1 v1 v2) {out : List OpenSlice}
    (h : dualFirst e l = .ok out) :
    ∃ first : Option Polyline, out = first.toList.map (fun s => ⟨0, s⟩) ∧
      ∀ s, first = some s ↔ e.raw.isClosed = false ∧
        ∃ c, (cutsIn (slOf l)).head? = some c ∧ KeptToFirst p e.raw offset c s := by
  unfold dualFirst at h
  by_cases hcl : e.original.isClosed = true
  · rw [if_pos hcl] at h
    cases h
    refine ⟨none, rfl, fun s => ⟨(fun h => nomatch h), fun ho => ?_⟩⟩
    rw [hc, hcl] at ho
    cases ho.1
  · rw [if_neg hcl] at h
    have hop : e.raw.isClosed = false := by rw [hc]; simpa using hcl
    obtain ⟨kv, l1, rfl⟩ := List.exists_cons_of_ne_nil hne
    obtain ⟨v1, v2, hv⟩ := hseg kv (by simp)
    obtain ⟨a1, a2, a3, a4⟩ := isSeg_mod hv
    have a5 := open_seg_lt hop hv
    rw [Nat.mod_eq_of_lt a5] at a4
    have hne2 := hk.2 (kv.1, kv.2.map fun x => ⟨x, false⟩) (by simp [slOf])
    obtain ⟨x, rest, hx⟩ : ∃ x rest, kv.2 = x :: rest := by
      cases hkv : kv.2 with
      | nil => rw [hkv] at hne2; simp at hne2
      | cons x rest => exact ⟨x, rest, rfl⟩
    have hmin : ∀ a ∈ slOf (kv :: l1), kv.1 ≤ a.1 := by
      intro a ha
      have := hk.1
      unfold slOf at this ha
      rw [List.map_cons] at this ha
      rcases List.mem_cons.1 ha with rfl | ha
      · exact le_refl _
      · exact le_of_lt ((List.pairwise_cons.1 this).1 a ha)
    obtain ⟨o, g1, g2⟩ := first_is ht (x := x) (rest := rest) kv.1 _ 0 [] out (by omega) (by simp)
      (fun t htt => find_none (find_eq_none (fun a ha => by have := hmin a ha; omega)))
      (by rw [Nat.zero_add, find_some hk (by simp), hx]) h
    refine ⟨o, g1, fun s => ?_⟩
    have hhead : (cutsIn (slOf (kv :: l1))).head? = some ⟨kv.1, x, false⟩ := by
      unfold cutsIn slOf
      rw [List.map_cons, List.flatMap_cons, hx]
      rfl
    rw [g2, hhead, Nat.zero_add, List.drop_zero]
    constructor
    · rintro ⟨q1, r, m, q2, q3, q4, q5, q6, q7⟩
      refine ⟨hop, _, rfl, v1, v2, r, m, q1, hv, q2, ?_, q4, q5, q6, q7⟩
      rw [a3, a4]
      exact q3
    · rintro ⟨-, c, hcc, w1, w2, r, m, q1, q2, q3, q4, q5, q6, q7, q8⟩
      cases hcc
      obtain ⟨rfl, rfl⟩ := isSeg_inj hv q2
      rw [a3, a4] at q4
      exact ⟨q1, r, m, q3, q4, q5, q6, q7, q8⟩

/-- The slices of a raw offset polyline that is also cut at the one to the other side. -/
theorem dualSlices_is {std : StdSort} {p : Polyline} {offset : ℝ} {e : SliceEnv}
    (ht : Tests p offset e) (hc : e.raw.isClosed = e.original.isClosed) (h2 : 2 ≤ e.raw.size)
    {l0 lookup : Lookup} (hne : l0 ≠ [])
    (hk : Keyed (slOf l0)) {cuts : List Cut} (hp0 : (cutsIn (slOf l0)).Perm cuts)
    (hcs : ∀ c ∈ cuts, ∃ v1 v2, IsSeg e.raw c.seg v1 v2)
    (hl : sortLookup std e.raw l0 = .ok lookup) {first slices : List OpenSlice}
    (hf : dualFirst e lookup = .ok first)
    (h : lookup.foldlM (dualSliceStep e lookup) first = .ok slices) :
    KeptPieces p e.raw offset (fun _ => True) cuts slices := by
  obtain ⟨k1, c1, c2⟩ := sortLookup_cuts hk hl
  have hperm := c1.trans hp0
  have hseg := keyed_seg k1 hperm hcs
  have hne' : lookup ≠ [] := by
    rintro rfl
    have := mapM_forall hl
    cases this
    exact hne rfl
  obtain ⟨fo, q1, q2⟩ := first_of ht hc hne' k1 hseg hf
  obtain ⟨oss, f1, f2⟩ := steps_is (P := StepIs p offset e lookup
      (dualAdvance e.original.isClosed e.raw.size) (fun _ => True)) (l0 := lookup)
    (fun kv hkv acc r h => by
      obtain ⟨v1, v2, hv⟩ := hseg kv hkv
      exact dualStep_is ht (isSeg_mod hv).1 h)
    _ _ _ (fun kv hkv => hkv) h
  refine kept_of ht k1 hperm hcs c2 (fun ho j hj => ?_) (fun ho j hj => ?_) (fun ho => ?_) f1 q2 ?_
  · unfold dualAdvance
    rw [← hc, ho]
    by_cases hj' : j = e.raw.size - 1
    · rw [if_pos hj', show j + 1 = e.raw.size by omega, Nat.mod_self]
      rfl
    · rw [if_neg hj', Nat.mod_eq_of_lt (by omega)]
  · unfold dualAdvance
    rw [if_neg (by omega)]
  · unfold dualAdvance
    rw [if_pos rfl, ← hc, ho]
    rfl
  · rw [f2, q1]

/-! ### The result -/

theorem kept_shape {p raw : Polyline} {offset : ℝ} {long : Polyline → Prop} {cuts : List Cut}
    {slices : List OpenSlice} (hcs : ∀ c ∈ cuts, ∃ v1 v2, IsSeg raw c.seg v1 v2)
    (h : KeptPieces p raw offset long cuts slices) (h1 : 1 ≤ raw.vertexes.length) :
    (∀ s ∈ slices, s.pline.isClosed = false ∧ s.intrStartIndex ≤ raw.vertexes.length - 1 ∧
      s.pline.vertexes ≠ []) ∧
    (raw.isClosed = true → ∀ s ∈ slices, 2 ≤ s.pline.vertexes.length) := by
  have joined_ne : ∀ vs v, joined vs v ≠ [] := by
    intro vs v
    unfold joined
    split
    · simp
    · split_ifs <;> simp
  obtain ⟨cs, first, os, hp, -, hlen, hk, hf, hsl⟩ := h
  have hpiece : ∀ i s, KeptPiece p raw offset long cs i s → s.isClosed = false ∧ 2 ≤ s.vertexes.length := by
    rintro i s ⟨c, c', -, -, ⟨-, -, ⟨v, e, u, r, -, -, -, hs⟩, -⟩ | ⟨-, ⟨v, e, r, us, u, v', e', r', m, -, -,
      -, -, -, -, -, -, -, -, hs⟩, h2, -⟩ | ⟨-, -, ⟨v, e, r, -, -, -, -, hs⟩, h2, -⟩⟩
    · subst hs; exact ⟨rfl, le_refl _⟩
    · exact ⟨by rw [hs], h2⟩
    · exact ⟨by rw [hs], h2⟩
  have hmem : ∀ s ∈ slices, (∃ q, first = some q ∧ s = ⟨0, q⟩) ∨
      ∃ i c, c ∈ cs ∧ s.intrStartIndex = c.seg ∧ KeptPiece p raw offset long cs i s.pline := by
    intro s hs
    rcases List.mem_append.1 (hsl.mem_iff.1 hs) with hs | hs
    · obtain ⟨q, hq, rfl⟩ := List.mem_map.1 hs
      exact Or.inl ⟨q, by simpa using hq, rfl⟩
    · obtain ⟨⟨c, o⟩, hco, hs⟩ := List.mem_filterMap.1 hs
      obtain ⟨q, hq, rfl⟩ := Option.map_eq_some_iff.1 hs
      obtain ⟨i, hi, hie⟩ := List.getElem_of_mem hco
      rw [List.getElem_zip] at hie
      cases hie
      have hi' : i < os.length := by rw [List.length_zip] at hi; omega
      exact Or.inr ⟨i, _, List.getElem_mem _, rfl,
        (hk i _ (List.getElem?_eq_getElem hi') q).1 hq⟩
  constructor
  · intro s hs
    rcases hmem s hs with ⟨q, hq, rfl⟩ | ⟨i, c, hc, e1, hki⟩
    · obtain ⟨-, c, -, v, e, r, m, -, -, -, -, -, -, -, rfl⟩ := (hf q).1 hq
      exact ⟨rfl, Nat.zero_le _, joined_ne _ _⟩
    · obtain ⟨g1, g2⟩ := hpiece i _ hki
      obtain ⟨v1, v2, hv⟩ := hcs c (hp.mem_iff.1 hc)
      have := (isSeg_mod hv).1
      have hsz : raw.size = raw.vertexes.length := rfl
      refine ⟨g1, by omega, ?_⟩
      intro h0
      rw [h0] at g2
      simp at g2
  · intro hcl s hs
    rcases hmem s hs with ⟨q, hq, rfl⟩ | ⟨i, c, hc, e1, hki⟩
    · have := ((hf q).1 hq).1
      rw [hcl] at this
      cases this
    · exact (hpiece i _ hki).2

theorem stitch_result {std : StdSort} {inf ninf : ℝ} {closed : Bool} {m : ℕ} {slices : List OpenSlice}
    {r : List Polyline} (hm : m < 2 ^ 64)
    (h1 : ∀ s ∈ slices, s.pline.isClosed = false ∧ s.intrStartIndex ≤ m ∧ s.pline.vertexes ≠ [])
    (h2 : ∀ s ∈ slices, 2 ≤ s.pline.vertexes.length) (h3 : slices.length ≤ 2 ^ 24)
    (h : stitchOffsetSlicesTogether (codePlatform inf ninf) std slices closed m = .ok r) :
    StitchResult closed m slices r := by
  have hthr : sliceJoinThreshold = 1 / 10 ^ 4 := by unfold sliceJoinThreshold; norm_num
  rcases slices with _ | ⟨s, _ | ⟨t, rest⟩⟩
  · rw [(C40_small _ std closed m _).1] at h
    cases h
    exact Or.inl ⟨rfl, rfl⟩
  · obtain ⟨a1, -, a3⟩ := h1 s (by simp)
    obtain ⟨q, hq, hc⟩ := (C40_small (codePlatform inf ninf) std closed m sliceJoinThreshold).2 s a3 a1
    rw [hq] at h
    cases h
    rw [hthr] at hc
    exact Or.inr (Or.inl ⟨s, q, rfl, rfl, hc⟩)
  · have hpos : 0 < sliceJoinThreshold := by rw [hthr]; norm_num
    obtain ⟨chains, r', g1, g2, g3, g4⟩ := C40_stitchOffsetSlicesTogether (pf := codePlatform inf ninf)
      (std := std) (closed := closed) (m := m) (thr := sliceJoinThreshold)
      (fun s hs => ⟨h2 s hs, (h1 s hs).1⟩) (by simp) hm (fun s hs => (h1 s hs).2.1)
      (C40_domain inf ninf hpos h2 (by simp) h3)
    rw [g1] at h
    cases h
    rw [hthr] at g3
    exact Or.inr (Or.inr ⟨by simp, chains, g2, g3, g4⟩)

/-- From the slices to the result. -/
theorem offset_result {std : StdSort} {inf ninf : ℝ} {p raw : Polyline} {offset : ℝ}
    {long : Polyline → Prop} {cuts : List Cut} {slices : List OpenSlice} {r : List Polyline}
    (hI : Indexable (codePlatform inf ninf) raw) (hrc : raw.isClosed = p.isClosed)
    (hcs : ∀ c ∈ cuts, ∃ v1 v2, IsSeg raw c.seg v1 v2)
    (hw : cuts = [] → ∃ v, raw.at 0 = .ok v ∧
      slices = if FarEnough p offset v.pos then [wholeSlice raw v p.isClosed] else [])
    (hk : cuts ≠ [] → KeptPieces p raw offset long cuts slices)
    (h : stitchOffsetSlicesTogether (codePlatform inf ninf) std slices p.isClosed
      ((raw.size + sizeMax) % 2 ^ 64) = .ok r) :
    OffsetResult p raw offset long cuts r := by
  have h2 : 2 ≤ raw.size := hI.size
  have hb : raw.size ≤ 2 ^ 24 + 1 := by
    have := hI.dom.count.2
    unfold segBoxes at this
    rw [List.length_map, segs_length, if_neg (show ¬ raw.size < 2 by omega)] at this
    split_ifs at this <;> omega
  have hm : (raw.size + sizeMax) % 2 ^ 64 = raw.size - 1 := by
    unfold sizeMax
    omega
  rw [hm] at h
  constructor
  · intro hc
    obtain ⟨v, hv, rfl⟩ := hw hc
    refine ⟨v, ?_, ?_⟩
    · rw [List.head?_eq_getElem?]
      exact getM_eq_ok.1 hv
    · by_cases hf : FarEnough p offset v.pos
      · rw [if_pos hf] at h ⊢
        exact stitch_whole h2 hv h
      · rw [if_neg hf] at h ⊢
        rw [(C40_small _ std _ _ _).1] at h
        cases h
        rfl
  · intro hc
    have hkp := hk hc
    have h1 : 1 ≤ raw.vertexes.length := by
      have : raw.size = raw.vertexes.length := rfl
      omega
    obtain ⟨g1, g2⟩ := kept_shape hcs hkp h1
    refine ⟨slices, hkp, fun q1 q2 => ?_⟩
    refine stitch_result (by have : raw.size = raw.vertexes.length := rfl; omega) g1 ?_ q2 h
    cases hpc : p.isClosed with
    | true => exact g2 (by rw [hrc, hpc])
    | false => exact q1 hpc

/-- C59. The parallel offset of a closed polyline that is not marked as self intersecting: the raw
offset polyline is cut at all its self intersects, the pieces that are far enough from the original are
kept (short loops are dropped), and they are stitched; without self intersects it is the raw offset
polyline itself, if its first vertex is far enough. -/
theorem C59_parallelOffset {std : StdSort} {hash : HashOrder} (inf ninf : ℝ) {p raw : Polyline}
    {offset : ℝ} (hi : Indexable (codePlatform inf ninf) p) (hok : PlineOk p) (hb : BulgesOk p)
    (hn : NoRepeats p) (hc : p.isClosed = true) (hraw : createRawOffsetPline p offset = .ok raw)
    (hri : Indexable (codePlatform inf ninf) raw) (hro : PlineOk raw) {r : List Polyline}
    (hr : parallelOffset (codePlatform inf ninf) std hash p offset = .ok r) :
    ∃ selfs, SelfIntersectsOf raw selfs ∧
      OffsetResult p raw offset LongLoop (selfCuts selfs) r := by
  have hp2 : ¬ p.size < 2 := by have : 2 ≤ p.size := hi.size; omega
  have hr2 : ¬ raw.size < 2 := by have : 2 ≤ raw.size := hri.size; omega
  have hrc : raw.isClosed = p.isClosed := by
    rcases C38_createRawOffsetPline p offset hb hn with ⟨r', h1, -, -, -, h5⟩ | ⟨h1, -⟩
    · rw [hraw] at h1
      cases h1
      refine h5 (fun h0 => hr2 ?_)
      have : raw.size = raw.vertexes.length := rfl
      rw [this, h0]
      simp
    · rw [hraw] at h1
      cases h1
  unfold parallelOffset at hr
  rw [if_neg hp2, hraw, ok_bind] at hr
  simp only at hr
  rw [if_pos ⟨hc, by simp⟩] at hr
  obtain ⟨slices, hs, hr⟩ := bind_eq_ok.1 hr
  unfold slicesFromRawOffset at hs
  rw [assertP_pos hc, ok_bind, if_neg hr2] at hs
  obtain ⟨s, hs1, hx⟩ := hi.indexOf
  rw [hs1, ok_bind] at hs
  obtain ⟨rs, hs2, hs⟩ := bind_eq_ok.1 hs
  obtain ⟨selfs, hs3, hs⟩ := bind_eq_ok.1 hs
  have ht : Tests p offset ⟨p, s, offset, raw⟩ := tests_of hx hok
  have hself := self_is hri hro hs2 hs3
  refine ⟨selfs, hself, ?_⟩
  refine offset_result hri hrc (selfCuts_seg hself) ?_ ?_ hr
  · intro h0
    have hs0 : selfs = [] := by
      cases selfs with
      | nil => rfl
      | cons a l => simp [selfCuts] at h0
    simp only at hs
    rw [if_pos (by rw [hs0]; rfl)] at hs
    obtain ⟨v, hv, hs⟩ := bind_eq_ok.1 hs
    obtain ⟨b, hb, hs⟩ := bind_eq_ok.1 hs
    refine ⟨v, hv, ?_⟩
    by_cases c : b = true
    · rw [if_neg (not_not.2 c)] at hs
      cases hs
      rw [if_pos ((ht.far hb).1 c), hc]
    · rw [if_pos c] at hs
      cases hs
      rw [if_neg (fun hf => c ((ht.far hb).2 hf))]
  · intro h0
    have hs0 : ¬ selfs.length = 0 := by
      intro h
      rw [List.length_eq_zero_iff] at h
      subst h
      exact h0 rfl
    simp only at hs
    rw [if_neg hs0] at hs
    obtain ⟨lookup, hl, hs⟩ := bind_eq_ok.1 hs
    exact rawSlices_is ht (by rw [← hc]; exact hrc) hself hl hs

/-- C59 for an open polyline and for one marked as self intersecting: the raw offset polyline is also
cut at its intersects with the raw offset polyline to the other side and, if it is open, with the circles
around its ends; the piece before the first cut and the one after the last cut of an open polyline are
kept by the same rule. -/
theorem C59_parallelOffset_dual {std : StdSort} {hash : HashOrder} (inf ninf : ℝ) {p raw dual : Polyline}
    {offset : ℝ} {flag : Bool} (hi : Indexable (codePlatform inf ninf) p) (hok : PlineOk p)
    (hb : BulgesOk p) (hn : NoRepeats p) (hc : p.isClosed = false ∨ flag = true)
    (hraw : createRawOffsetPline p offset = .ok raw) (hdual : createRawOffsetPline p (-offset) = .ok dual)
    (hri : Indexable (codePlatform inf ninf) raw) (hro : PlineOk raw) (hdo : PlineOk dual)
    {r : List Polyline} (hr : parallelOffset (codePlatform inf ninf) std hash p offset flag = .ok r) :
    ∃ selfs s d ends, SelfIntersectsOf raw selfs ∧
      createApproxSpatialIndex (codePlatform inf ninf) raw = .ok s ∧
      findIntersects raw dual s ⟨[], []⟩ = .ok d ∧ EndCuts p raw offset ends ∧
      OffsetResult p raw offset (fun _ => True) (ends ++ selfCuts selfs ++ dualCuts d) r := by
  have hp2 : ¬ p.size < 2 := by have : 2 ≤ p.size := hi.size; omega
  have hr2 : ¬ raw.size < 2 := by have : 2 ≤ raw.size := hri.size; omega
  have hrc : raw.isClosed = p.isClosed := by
    rcases C38_createRawOffsetPline p offset hb hn with ⟨r', h1, -, -, -, h5⟩ | ⟨h1, -⟩
    · rw [hraw] at h1
      cases h1
      refine h5 (fun h0 => hr2 ?_)
      have : raw.size = raw.vertexes.length := rfl
      rw [this, h0]
      simp
    · rw [hraw] at h1
      cases h1
  unfold parallelOffset at hr
  rw [if_neg hp2, hraw, ok_bind] at hr
  simp only at hr
  rw [if_neg (by rintro ⟨h1, h2⟩; rcases hc with h | h
                 · rw [h] at h1; cases h1
                 · exact h2 h), hdual, ok_bind] at hr
  obtain ⟨slices, hs, hr⟩ := bind_eq_ok.1 hr
  unfold dualSliceAtIntersectsForOffset at hs
  rw [if_neg hr2] at hs
  obtain ⟨os, hs1, hx⟩ := hi.indexOf
  rw [hs1, ok_bind] at hs
  obtain ⟨rs, hs2, hrx⟩ := hri.indexOf
  rw [hs2, ok_bind] at hs
  obtain ⟨selfs, hs3, hs⟩ := bind_eq_ok.1 hs
  obtain ⟨d, hs4, hs⟩ := bind_eq_ok.1 hs
  obtain ⟨circles, hs5, hs⟩ := bind_eq_ok.1 hs
  have ht : Tests p offset ⟨p, os, offset, raw⟩ := tests_of hx hok
  have hself := self_is hri hro hs2 hs3
  have hends := end_cuts hrx hrc hs5
  obtain ⟨k1, k2⟩ := dualLookup_cuts circles selfs d
  have hcs : ∀ c ∈ circles.map circCut ++ selfCuts selfs ++ dualCuts d, ∃ v1 v2, IsSeg raw c.seg v1 v2 := by
    intro c hcm
    rcases List.mem_append.1 hcm with hcm | hcm
    · rcases List.mem_append.1 hcm with hcm | hcm
      · exact endCuts_seg hends c hcm
      · exact selfCuts_seg hself c hcm
    · exact dualCuts_seg hri hro hdo hs2 hs4 c hcm
  refine ⟨selfs, rs, d, circles.map circCut, hself, hs2, hs4, hends, ?_⟩
  have k2' : (cutsIn (slOf (dualLookup circles selfs d))).Perm
      (circles.map circCut ++ selfCuts selfs ++ dualCuts d) := k2
  have hempty : (dualLookup circles selfs d).length = 0 ↔
      circles.map circCut ++ selfCuts selfs ++ dualCuts d = [] := by
    rw [List.length_eq_zero_iff]
    constructor
    · intro h
      rw [h] at k2'
      exact k2'.nil_eq.symm
    · intro h
      rw [h] at k2'
      have h3 := k2'.eq_nil
      cases hl : dualLookup circles selfs d with
      | nil => rfl
      | cons kv l =>
        rw [hl] at h3 k1
        have := k1.2 _ (List.mem_map.2 ⟨kv, by simp, rfl⟩)
        obtain ⟨sp, rest, hsp⟩ := List.exists_cons_of_ne_nil this
        have hm : cutOf kv.1 sp ∈ cutsIn (slOf (kv :: l)) :=
          List.mem_flatMap.2 ⟨_, List.mem_map.2 ⟨kv, by simp, rfl⟩, by rw [hsp]; simp⟩
        rw [h3] at hm
        simp at hm
  refine offset_result hri hrc hcs ?_ ?_ hr
  · intro h0
    simp only at hs
    rw [if_pos (hempty.2 h0)] at hs
    obtain ⟨v, hv, hs⟩ := bind_eq_ok.1 hs
    obtain ⟨b, hb, hs⟩ := bind_eq_ok.1 hs
    refine ⟨v, hv, ?_⟩
    by_cases c : b = true
    · rw [if_neg (not_not.2 c)] at hs
      cases hs
      rw [if_pos ((ht.far hb).1 c)]
    · rw [if_pos c] at hs
      cases hs
      rw [if_neg (fun hf => c ((ht.far hb).2 hf))]
  · intro h0
    simp only at hs
    rw [if_neg (fun h => h0 (hempty.1 h))] at hs
    obtain ⟨lookup, hl, hs⟩ := bind_eq_ok.1 hs
    obtain ⟨first, hf, hs⟩ := bind_eq_ok.1 hs
    exact dualSlices_is (e := ⟨p, os, offset, raw⟩) ht hrc (by show 2 ≤ raw.size; omega)
      (fun h => h0 (hempty.1 (by rw [h]; rfl))) k1 k2' hcs hl hf hs

/-- C59: when fewer than two vertexes are left of the raw offset polyline, the offset is empty. -/
theorem C59_nothing_left {pf : Platform} {std : StdSort} {hash : HashOrder} {p raw : Polyline} {offset : ℝ}
    {flag : Bool} (hraw : createRawOffsetPline p offset = .ok raw) (hr2 : raw.vertexes.length < 2)
    {r : List Polyline} (hr : parallelOffset pf std hash p offset flag = .ok r) : r = [] := by
  have hr2' : raw.size < 2 := hr2
  unfold parallelOffset at hr
  by_cases hp2 : p.size < 2
  · rw [if_pos hp2] at hr
    cases hr
    rfl
  · rw [if_neg hp2, hraw, ok_bind] at hr
    simp only at hr
    by_cases hc : p.isClosed = true ∧ ¬ flag = true
    · rw [if_pos hc] at hr
      unfold slicesFromRawOffset at hr
      rw [assertP_pos hc.1, ok_bind, if_pos hr2', pure_eq_ok, ok_bind, (C40_small _ std _ _ _).1] at hr
      cases hr
      rfl
    · rw [if_neg hc] at hr
      obtain ⟨dual, -, hr⟩ := bind_eq_ok.1 hr
      unfold dualSliceAtIntersectsForOffset at hr
      rw [if_pos hr2', ok_bind, (C40_small _ std _ _ _).1] at hr
      cases hr
      rfl

/-- A rectangle meets the hypotheses of C59. -/
example (std : StdSort) (hash : HashOrder) (inf ninf : ℝ) :
    ∃ r selfs, parallelOffset (codePlatform inf ninf) std hash (rect 0 0 10 10) 1 = .ok r ∧
      OffsetResult (rect 0 0 10 10) (rect 1 1 9 9) 1 LongLoop (selfCuts selfs) r := by
  have hraw := rect_raw (x0 := 0) (y0 := 0) (x1 := 10) (y1 := 10) (d := 1) (by norm_num) (by norm_num)
    (by norm_num) (by norm_num) (by norm_num)
  have hr := C52_rectangle (std := std) (hash := hash) inf ninf (x0 := 0) (y0 := 0) (x1 := 10) (y1 := 10)
    (d := 1) (by norm_num) (by norm_num) (by norm_num)
  norm_num at hraw
  obtain ⟨selfs, -, h⟩ := C59_parallelOffset (std := std) (hash := hash) inf ninf
    (rect_indexable inf ninf) rect_ok (p := rect 0 0 10 10) (offset := 1)
    (by
      intro v hv
      simp only [rect, List.mem_cons, List.not_mem_nil, or_false] at hv
      rcases hv with rfl | rfl | rfl | rfl <;> norm_num)
    (by
      intro i v1 v2 h
      rcases rect_seg h with ⟨-, rfl, rfl⟩ | ⟨-, rfl, rfl⟩ | ⟨-, rfl, rfl⟩ | ⟨-, rfl, rfl⟩ <;>
        norm_num [Near])
    rfl hraw (rect_indexable inf ninf) rect_ok hr
  exact ⟨_, selfs, hr, h⟩

end
end Cavc

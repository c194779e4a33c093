import Verif.Props.IslandsPieces
import Verif.Props.CombineRun
import Verif.Props.PlineIndexArea
import Verif.Props.OffsetTotal

/-! C66: the parts of the offset of a set of loops do not fault. -/
namespace Cavc
open Spec
open scoped Classical
noncomputable section

/-! ### The slices are cut like those of a boolean operation -/

theorem exceptMap_ok {α β : Type} {f : α → β} {m : M α} {r : β} (h : m.map f = .ok r) :
    ∃ a, m = .ok a ∧ r = f a := by
  cases m with
  | error e => cases h
  | ok a => exact ⟨a, rfl, (Except.ok.inj h).symm⟩

theorem map_error {α β : Type} {f : α → β} {m : M α} {e : Fault} (h : m.map f = .error e) :
    m = .error e := by
  cases m with
  | error e' => exact congrArg Except.error (Except.error.inj h)
  | ok a => cases h

theorem between_map {e : DissectEnv} {ev : Vertex} : ∀ (ps : List DissectionPoint)
    (prev : DissectionPoint) (pv : Vertex) (result : List DissectedSlice),
    (betweenDissect e ev prev ps pv result).map plines =
    betweenIntersects e.valid ev (slPoint prev) (ps.map slPoint) pv (plines result)
  | [], _, _, result => rfl
  | p :: rest, prev, pv, result => by
    rw [List.map_cons]
    unfold betweenDissect betweenIntersects
    rw [show (slPoint p).pos = p.pos from rfl]
    cases hs : splitAtPoint pv ev p.pos with
    | error e => rfl
    | ok split =>
      rw [ok_bind, ok_bind, if_neg (show ¬ (slPoint prev).startOfCoincidentSlice = true by simp [slPoint])]
      by_cases c : fuzzyEqualV split.updatedStart.pos split.splitVertex.pos realPrecision
      · rw [if_pos c, if_pos c]
        exact between_map rest p _ result
      · rw [if_neg c, if_neg c]
        cases hm : segMidpoint split.updatedStart split.splitVertex with
        | error e => rfl
        | ok m =>
          rw [ok_bind, ok_bind]
          cases hb : e.valid m with
          | error e => rfl
          | ok b =>
            rw [ok_bind, ok_bind]
            refine (between_map rest p _ _).trans ?_
            congr 1
            cases b <;> simp [plines]

theorem inner_map {e : DissectEnv} {sv ev : Vertex} {ps : List DissectionPoint}
    {result : List DissectedSlice} : (innerDissect e sv ev ps result).map plines =
    innerIntersects e.valid sv ev (ps.map slPoint) (plines result) := by
  unfold innerDissect innerIntersects
  rw [List.length_map]
  by_cases c : ps.length ≠ 1
  · rw [if_pos c, if_pos c]
    cases ps with
    | nil => rfl
    | cons p rest =>
      rw [List.map_cons]
      simp only
      rw [show (slPoint p).pos = p.pos from rfl]
      cases hsp : splitAtPoint sv ev p.pos with
      | error e => rfl
      | ok sp => exact between_map _ _ _ _
  · rw [if_neg c, if_neg c]
    rfl

theorem loop_map {p : Polyline} {l : DissectLookup} : ∀ (fuel i : ℕ) (cur : Polyline),
    (dissectLoop p l fuel i cur).map Prod.fst = intersectLoop p (slOfD l) fuel i cur
  | 0, i, cur => rfl
  | fuel + 1, i, cur => by
    unfold dissectLoop intersectLoop
    cases hv : p.at i with
    | error e => rfl
    | ok v =>
      rw [ok_bind, ok_bind]
      simp only
      rw [slOfD_find]
      cases hf : l.find? i with
      | none => exact loop_map fuel _ _
      | some ps =>
        cases ps with
        | nil => rfl
        | cons x rest =>
          simp only [Option.map_some, List.map_cons]
          rw [show (slPoint x).pos = x.pos from rfl]
          cases endSlice p i x.pos (addOrReplaceIfSamePos cur v) with
          | error e => rfl
          | ok s => rfl

theorem outer_map {e : DissectEnv} {l : DissectLookup} {k : ℕ} {sv ev : Vertex}
    {ps : List DissectionPoint} {result : List DissectedSlice} :
    (outerDissect e l k sv ev ps result).map plines =
    outerIntersects e.pline (slOfD l) e.valid k sv ev (ps.map slPoint) (plines result) := by
  unfold outerDissect outerIntersects
  rw [List.getLast?_map]
  cases hl : ps.getLast? with
  | none => rfl
  | some back =>
    simp only [Option.map_some]
    rw [if_neg (show ¬ (slPoint back).startOfCoincidentSlice = true by simp [slPoint]),
      show (slPoint back).pos = back.pos from rfl]
    cases hs : splitAtPoint sv ev back.pos with
    | error e => rfl
    | ok split =>
      rw [ok_bind, ok_bind, ← loop_map]
      cases hq : dissectLoop e.pline l (e.pline.size + 1) (nextWrappingIndex k e.pline.size)
        (Polyline.empty.addVertex split.splitVertex) with
      | error e => rfl
      | ok q =>
        obtain ⟨q, endIdx⟩ := q
        change Except.map plines (if q.size > 1 then _ else _) = (if q.size > 1 then _ else _)
        by_cases c : q.size > 1
        · rw [if_pos c, if_pos c]
          cases q.at (q.size - 2) with
          | error e => rfl
          | ok v1 =>
            rw [ok_bind, ok_bind]
            cases q.lastVertex with
            | error e => rfl
            | ok v2 =>
              rw [ok_bind, ok_bind]
              cases segMidpoint v1 v2 with
              | error e => rfl
              | ok m =>
                rw [ok_bind, ok_bind]
                cases e.valid m with
                | error e => rfl
                | ok b =>
                  rw [ok_bind, ok_bind]
                  cases b <;> simp [plines, pure_eq_ok, Except.map]
        · rw [if_neg c, if_neg c]
          rfl

theorem step_map {e : DissectEnv} {l : DissectLookup} {result : List DissectedSlice}
    {kv : ℕ × List DissectionPoint} : (dissectStep e l result kv).map plines =
    intersectsStep e.pline (slOfD l) e.valid (plines result) (kv.1, kv.2.map slPoint) := by
  unfold dissectStep intersectsStep
  cases e.pline.at kv.1 with
  | error e => rfl
  | ok sv =>
    rw [ok_bind, ok_bind]
    cases e.pline.at (nextWrappingIndex kv.1 e.pline.size) with
    | error e => rfl
    | ok ev =>
      rw [ok_bind, ok_bind]
      simp only
      rw [← inner_map]
      cases innerDissect e sv ev kv.2 result with
      | error e => rfl
      | ok r => exact outer_map

/-- What a step of the slicing does in the terms of a boolean operation. -/
theorem Outcome.of_map {α β : Type} {bad : Prop} {P : β → Prop} {f : α → β} {m : M α}
    (h : Outcome bad P (m.map f)) : Outcome bad (fun a => P (f a)) m := by
  rcases h with ⟨r, h1, h2⟩ | ⟨h1, h2⟩
  · obtain ⟨a, h3, rfl⟩ := exceptMap_ok h1
    exact Or.inl ⟨a, h3, h2⟩
  · exact Or.inr ⟨h1, map_error h2⟩

theorem foldlM_outcome {σ α : Type} {bad : Prop} {Inv : σ → Prop} {f : σ → α → M σ} :
    ∀ (xs : List α) (st : σ), (∀ st x, x ∈ xs → Inv st → Outcome bad Inv (f st x)) → Inv st →
      Outcome bad Inv (xs.foldlM f st)
  | [], st, _, hi => Outcome.ok hi
  | x :: xs, st, hf, hi => by
    rw [List.foldlM_cons]
    exact (hf st x (by simp) hi).bind fun r hr =>
      foldlM_outcome xs r (fun a y hy => hf a y (by simp [hy])) hr

theorem foldlM_ex {σ α : Type} {Inv : σ → Prop} {f : σ → α → M σ} :
    ∀ (xs : List α) (st : σ), (∀ st x, x ∈ xs → Inv st → ∃ st', f st x = .ok st' ∧ Inv st') → Inv st →
      ∃ st', xs.foldlM f st = .ok st' ∧ Inv st'
  | [], st, _, hi => ⟨st, rfl, hi⟩
  | x :: xs, st, hf, hi => by
    obtain ⟨r, h1, h2⟩ := hf st x (by simp) hi
    rw [List.foldlM_cons, h1]
    exact foldlM_ex xs r (fun a y hy => hf a y (by simp [hy])) h2

/-! ### The slices of one loop -/

theorem validLoop_total {pf : Platform} {input : OffsetLoopSet} (hin : ∀ l ∈ loopsOf input, LoopOk pf l)
    (skip : ℕ) (pt : V2) (d : ℝ) : ∀ is : List ℕ, (∀ i ∈ is, i < (loopsOf input).length) →
      ∃ b, pointOnOffsetValidLoop input skip pt d is = .ok b
  | [], _ => ⟨true, rfl⟩
  | i :: is, hi => by
    unfold pointOnOffsetValidLoop
    obtain ⟨b, hb⟩ := validLoop_total hin skip pt d is fun j hj => hi j (by simp [hj])
    by_cases c : i = skip
    · rw [if_pos c]; exact ⟨b, hb⟩
    · have hlt := hi i (by simp)
      rw [if_neg c, get_eq, getM_of_lt hlt, ok_bind]
      have hk := hin _ (List.getElem_mem hlt)
      obtain ⟨b', hb', -⟩ := pointValid_iff hk.indexOf hk.ok d offsetThreshold pt
      rw [hb', ok_bind]
      cases b' with
      | true => exact ⟨b, hb⟩
      | false => exact ⟨false, rfl⟩

theorem valid_total {pf : Platform} {input : OffsetLoopSet} (hin : ∀ l ∈ loopsOf input, LoopOk pf l)
    (skip : ℕ) (pt : V2) (d : ℝ) : ∃ b, pointOnOffsetValid input skip pt d = .ok b :=
  validLoop_total hin skip pt d _ (by
    intro i hi
    rw [List.mem_range, loops_count] at hi
    exact hi)

theorem lookup_of_cuts {K : V2 → Prop} {n : ℕ} {l : SliceLookup} (hk : Keyed l)
    (h : ∀ c ∈ cutsIn l, c.seg < n ∧ K c.pos) : LookupOk K n l := by
  intro kv hkv
  have hne := hk.2 kv hkv
  have hm : ∀ sp ∈ kv.2, cutOf kv.1 sp ∈ cutsIn l := fun sp hsp =>
    List.mem_flatMap.2 ⟨kv, hkv, List.mem_map.2 ⟨sp, hsp, rfl⟩⟩
  refine ⟨?_, hne, fun sp hsp => (h _ (hm sp hsp)).2⟩
  obtain ⟨a, r, e⟩ := List.exists_cons_of_ne_nil hne
  exact (h _ (hm a (by rw [e]; simp))).1

theorem createSlices_run {std : StdSort} {hash : HashOrder} {input loops : OffsetLoopSet}
    {sp : SlicePointState} {d : ℝ} {i : ℕ} {result : List DissectedSlice} {l : OffsetLoop}
    {K : V2 → Prop} {arcs bad : Prop} (hl : (loopsOf loops)[i]? = some l)
    (hp : ∀ v ∈ l.polyline.vertexes, VOk K arcs v)
    (hvalid : ∀ x, ∃ b, pointOnOffsetValid input l.parentLoopIndex x d = .ok b)
    (hs : SetsLookup loops.count sp)
    (hpts : ∀ c ∈ cutsOfLoop (crossingsOf sp) i, c.seg < l.polyline.size ∧ K c.pos)
    (hsafe : SafeAt bad arcs K l.polyline) :
    Outcome bad (fun _ => True) (createSlicesFromLoop std hash input loops sp d i result) := by
  obtain ⟨hlt, rfl⟩ := List.getElem?_eq_some_iff.1 hl
  have hi : i < loops.count := by rw [loops_count]; exact hlt
  have hks := hs.lists i hi
  generalize hkd : (sp.sets.zipIdx.filter fun x => x.1.loopIndex1 = i ∨ x.1.loopIndex2 = i).map Prod.snd = ks at hks
  have hksl : ∀ k ∈ ks, k < sp.sets.length := by
    intro k hk
    rw [← hkd] at hk
    obtain ⟨x, hx, rfl⟩ := List.mem_map.1 hk
    have := List.mem_of_mem_filter hx
    have := List.mem_zipIdx this
    omega
  have hgl : getM sp.lookup i = .ok ks := by
    obtain ⟨h1, h2⟩ := List.getElem?_eq_some_iff.1 hks
    rw [getM_of_lt h1, h2]
  obtain ⟨l0, h0⟩ := foldlM_total (f := dissectSet sp.sets i) ks [] (by
    intro k hk b
    unfold dissectSet
    rw [getM_of_lt (hksl k hk), ok_bind]
    split_ifs <;> exact ⟨_, rfl⟩)
  obtain ⟨ss, s1, s2, s3⟩ := dissectSets_cuts ks [] l0 ⟨by simp [slOfD], by simp [slOfD]⟩ h0
  rw [show cutsIn (slOfD []) = [] from rfl, List.nil_append, sets_of_lookup hs hks s1] at s3
  have k0 := lookup_of_cuts s2 fun c hc => hpts c (s3.mem_iff.1 hc)
  obtain ⟨l1, h1, -, -⟩ := mapM_all (P := fun kv : ℕ × List DissectionPoint => kv.1 < (loopsOf loops)[i].polyline.size)
    (Q := fun _ => True) (fun kv => do
      let v ← (loopsOf loops)[i].polyline.at kv.1
      return (kv.1, std.sort (fun p1 p2 : DissectionPoint => distSquared p1.pos v.pos < distSquared p2.pos v.pos) kv.2))
    (by
      intro kv hkv
      rw [at_eq hkv]
      exact ⟨_, rfl, trivial⟩) l0 (by
      intro kv hkv
      exact (k0 (kv.1, kv.2.map slPoint) (List.mem_map.2 ⟨kv, hkv, rfl⟩)).1)
  change sortDissect std _ _ = _ at h1
  obtain ⟨t1, t2, t3, t4⟩ := sortDissect_cuts s2 h1
  have k1 := lookup_of_cuts t1 fun c hc => hpts c (s3.mem_iff.1 (t2.mem_iff.1 hc))
  unfold createSlicesFromLoop
  rw [get_eq, getM_of_lt hlt, ok_bind, hgl, ok_bind, h0, ok_bind, h1, ok_bind]
  refine (foldlM_outcome (Inv := fun _ => True) _ _ ?_ trivial)
  intro st kv hkv _
  refine Outcome.mono (Outcome.of_map (f := plines) (P := fun _ => True) ?_) fun _ _ => trivial
  rw [step_map]
  refine (intersectsStep_run (K := K) (arcs := arcs) (R := fun _ => True) (fun _ _ => trivial) hvalid hp k1
    (kv := (kv.1, kv.2.map slPoint)) ?_ (fun _ _ => trivial) ?_).mono fun _ _ => trivial
  · exact List.mem_map.2 ⟨kv, (hash.perm l1).mem_iff.1 hkv, rfl⟩
  · intro hb
    refine (hsafe hb).imp_right fun ⟨g1, g2⟩ => ⟨g1, fun kv' hkv' sp' hsp => ?_⟩
    obtain ⟨e1, -, e3⟩ := k1 kv' hkv'
    exact g2 _ (e3 sp' hsp) _ e1

/-! ### How many vertexes the slices have -/

theorem joined_length (vs : List Vertex) (v : Vertex) : (joined vs v).length ≤ vs.length + 1 := by
  unfold joined
  cases h : vs.getLast? with
  | none => simp
  | some u =>
    simp only
    split_ifs
    · have : vs ≠ [] := by rintro rfl; simp at h
      have := List.length_pos_of_ne_nil this
      simp only [List.length_append, List.length_dropLast, List.length_singleton]
      omega
    · simp

theorem joined_fold_length : ∀ (ws vs : List Vertex), (ws.foldl joined vs).length ≤ vs.length + ws.length
  | [], vs => by simp
  | w :: ws, vs => by
    rw [List.foldl_cons]
    have := joined_fold_length ws (joined vs w)
    have := joined_length vs w
    rw [List.length_cons]
    omega

theorem joined_bulge {vs : List Vertex} {v : Vertex} (h : ∀ w ∈ vs, |w.bulge| ≤ 1) (hv : |v.bulge| ≤ 1) :
    ∀ w ∈ joined vs v, |w.bulge| ≤ 1 := by
  unfold joined
  intro w hw
  cases hl : vs.getLast? with
  | none =>
    rw [hl] at hw
    simp only [List.mem_singleton] at hw
    rw [hw]; exact hv
  | some u =>
    rw [hl] at hw
    simp only at hw
    split_ifs at hw
    · rw [List.mem_append, List.mem_singleton] at hw
      rcases hw with hw | rfl
      · exact h w (List.dropLast_subset _ hw)
      · exact hv
    · rw [List.mem_append, List.mem_singleton] at hw
      rcases hw with hw | rfl
      · exact h w hw
      · exact hv

theorem joined_fold_bulge : ∀ (ws vs : List Vertex), (∀ w ∈ ws, |w.bulge| ≤ 1) → (∀ w ∈ vs, |w.bulge| ≤ 1) →
    ∀ w ∈ ws.foldl joined vs, |w.bulge| ≤ 1
  | [], vs, _, h => h
  | w :: ws, vs, h1, h2 => by
    rw [List.foldl_cons]
    exact joined_fold_bulge ws _ (fun x hx => h1 x (by simp [hx])) (joined_bulge h2 (h1 w (by simp)))

theorem split_bulge {v e : Vertex} {x : V2} {r : SplitResult} (hv : |v.bulge| ≤ 1)
    (h : splitAtPoint v e x = .ok r) : |r.updatedStart.bulge| ≤ 1 ∧ |r.splitVertex.bulge| ≤ 1 := by
  obtain ⟨r', h1, h2, h3, -⟩ := cut_total (e := e) hv x
  rw [h] at h1
  cases h1
  exact ⟨h2, h3⟩

theorem rest_bulge {e : Vertex} : ∀ (xs : List V2) (v w : Vertex), |v.bulge| ≤ 1 → Rest e v xs w → |w.bulge| ≤ 1
  | [], v, w, hv, h => by
    have h : w = v := h
    rw [h]; exact hv
  | x :: xs, v, w, hv, h => by
    obtain ⟨r, h1, h2⟩ := h
    exact rest_bulge xs _ w (split_bulge hv h1).2 h2

theorem piece_within {p : Polyline} (hb : ∀ v ∈ p.vertexes, |v.bulge| ≤ 1) {before : List Cut} {c c' : Cut}
    {s : Polyline} (h : PieceWithin p before c c' s) : s.vertexes.length = 2 ∧ ∀ v ∈ s.vertexes, |v.bulge| ≤ 1 := by
  obtain ⟨v, e, u, r, h1, h2, h3, rfl⟩ := h
  obtain ⟨a, -, -, rfl, -⟩ := seg_lt h1
  have hu := rest_bulge _ _ _ (hb _ (vtx_mem a)) h2
  obtain ⟨g1, g2⟩ := split_bulge hu h3
  refine ⟨rfl, fun w hw => ?_⟩
  simp only [List.mem_cons, List.not_mem_nil, or_false] at hw
  rcases hw with rfl | rfl
  · exact g1
  · exact g2

theorem piece_across {p : Polyline} (hb : ∀ v ∈ p.vertexes, |v.bulge| ≤ 1) {c c' : Cut}
    {s : Polyline} (h : PieceAcross p c c' s) :
    s.vertexes.length ≤ 3 + (c'.seg + p.vertexes.length - (c.seg + 1)) % p.vertexes.length ∧
      ∀ v ∈ s.vertexes, |v.bulge| ≤ 1 := by
  obtain ⟨v, e, r, us, u, v', e', r', h1, h2, h3, h4, h5, rfl⟩ := h
  obtain ⟨a, -, -, rfl, -⟩ := seg_lt h1
  have hr := (split_bulge (hb _ (vtx_mem a)) h2).2
  have hall := joined_fold_bulge ((p.vertexes.rotate (c.seg + 1)).take
    ((c'.seg + p.vertexes.length - (c.seg + 1)) % p.vertexes.length + 1)) [r.splitVertex] (by
      intro w hw
      exact hb w (List.mem_rotate.1 (List.mem_of_mem_take hw))) (by simpa using hr)
  have hlen := joined_fold_length ((p.vertexes.rotate (c.seg + 1)).take
    ((c'.seg + p.vertexes.length - (c.seg + 1)) % p.vertexes.length + 1)) [r.splitVertex]
  rw [h3] at hall hlen
  have hu : |u.bulge| ≤ 1 := hall u (by simp)
  have hr' := (split_bulge hu h5).1
  constructor
  · have := joined_length (us ++ [r'.updatedStart]) ⟨c'.pos, 0⟩
    simp only [List.length_append, List.length_singleton, List.length_take] at this hlen
    simp only
    omega
  · refine joined_bulge ?_ (by norm_num)
    intro w hw
    rw [List.mem_append, List.mem_singleton] at hw
    rcases hw with hw | rfl
    · exact hall w (by simp [hw])
    · exact hr'

theorem sum_le_range {l : List ℕ} {g : ℕ → ℕ} (h : ∀ i x, l[i]? = some x → x ≤ g i) :
    l.sum ≤ ∑ i ∈ Finset.range l.length, g i := by
  induction l using List.reverseRecOn with
  | nil => simp
  | append_singleton l a ih =>
    rw [List.sum_append, List.sum_singleton, List.length_append, List.length_singleton,
      Finset.sum_range_succ]
    have h1 := ih fun i x hx => h i x (by
      rw [List.getElem?_append_left (List.getElem?_eq_some_iff.1 hx).1]
      exact hx)
    have h2 := h l.length a (by simp)
    omega

theorem sum_gaps (f : ℕ → ℕ) (m : ℕ) (h : ∀ i < m, f i ≤ f (i + 1)) :
    ∑ i ∈ Finset.range m, (f (i + 1) - f i) + f 0 = f m := by
  induction m with
  | zero => simp
  | succ m ih =>
    rw [Finset.sum_range_succ]
    have := ih fun i hi => h i (by omega)
    have := h m (by omega)
    omega

theorem filterMap_sum (f : Polyline → ℕ) : ∀ os : List (Option Polyline),
    ((os.filterMap id).map f).sum = (os.map fun o => (o.map f).getD 0).sum
  | [] => rfl
  | none :: os => by
    rw [List.filterMap_cons_none rfl, filterMap_sum f os]
    simp
  | some a :: os => by
    change ((a :: os.filterMap id).map f).sum = _
    rw [List.map_cons, List.sum_cons, filterMap_sum f os]
    simp

/-- The kept slices of a closed polyline have together at most all its vertexes and two more for each
cut, and their bulges are at most 1. -/
theorem kept_size {p : Polyline} (hb : ∀ v ∈ p.vertexes, |v.bulge| ≤ 1) {cuts : List Cut} {keep : V2 → Prop}
    {ps : List Polyline} (hc : ∀ c : Cut, c ∈ cuts → c.seg < p.vertexes.length) (h : KeptSlices p cuts keep ps) :
    (ps.map fun s => s.vertexes.length).sum ≤ p.vertexes.length + 2 * cuts.length ∧
      ∀ s ∈ ps, ∀ v ∈ s.vertexes, |v.bulge| ≤ 1 := by
  obtain ⟨cs, os, h1, h2, h3, h4, h5⟩ := h
  have hcs : ∀ i (c : Cut), cs[i]? = some c → c.seg < p.vertexes.length := fun i c hi =>
    hc c (h1.mem_iff.1 (List.mem_of_getElem? hi))
  constructor
  · rw [(h5.map _).sum_eq, filterMap_sum]
    rcases Nat.eq_zero_or_pos cs.length with h0 | h0
    · have : os = [] := List.length_eq_zero_iff.1 (by omega)
      rw [this]
      simp
    obtain ⟨m, hm⟩ : ∃ m, cs.length = m + 1 := ⟨cs.length - 1, by omega⟩
    let f : ℕ → ℕ := fun i => (cs[i]?.map Cut.seg).getD 0
    have hf : ∀ i (c : Cut), cs[i]? = some c → f i = c.seg := by
      intro i c hi
      simp only [f, hi, Option.map_some, Option.getD_some]
    have hmono : ∀ i < m, f i ≤ f (i + 1) := by
      intro i hi
      have g1 : cs[i]? = some cs[i] := List.getElem?_eq_getElem (by omega)
      have g2 : cs[i + 1]? = some cs[i + 1] := List.getElem?_eq_getElem (by omega)
      rw [hf _ _ g1, hf _ _ g2]
      have := List.pairwise_iff_getElem.1 h2 i (i + 1) (by omega) (by omega) (by omega)
      rcases this with h | h
      · exact h.le
      · exact h.1.le
    have hle : f 0 ≤ f m := by
      have := sum_gaps f m hmono
      omega
    have hfm : f m < p.vertexes.length := by
      have g1 : cs[m]? = some cs[m] := List.getElem?_eq_getElem (by omega)
      rw [hf _ _ g1]
      exact hcs _ _ g1
    let g : ℕ → ℕ := fun i => 2 + if i = m then f 0 + p.vertexes.length - f m else f (i + 1) - f i
    refine (sum_le_range (g := g) ?_).trans ?_
    · intro i x hx
      rw [List.getElem?_map] at hx
      obtain ⟨o, ho, rfl⟩ := Option.map_eq_some_iff.1 hx
      have hilt : i < cs.length := by
        rw [← h3]
        exact (List.getElem?_eq_some_iff.1 ho).1
      obtain ⟨c, c', e1, e2, e3⟩ := h4 i o ho
      have e1' := hcs _ _ e1
      have e2' := hcs _ _ e2
      cases o with
      | none => simp
      | some s =>
        simp only [Option.map_some, Option.getD_some]
        rcases e3 with ⟨-, h⟩ | ⟨-, k1, k2, s', k3, k4⟩ | ⟨-, k1, s', k3, k4⟩
        · cases h
        · split_ifs at k4
          cases k4
          rw [(piece_within hb k3).1]
          simp only [g]
          omega
        · split_ifs at k4
          cases k4
          refine (piece_across hb k3).1.trans ?_
          simp only [g]
          by_cases hi : i = m
          · subst hi
            rw [if_pos rfl]
            rw [hm, Nat.mod_self] at e2
            rw [hf _ _ e1] at hle ⊢
            rw [hf _ _ e2] at hle ⊢
            rw [Nat.mod_eq_of_lt (by omega)]
            omega
          · rw [if_neg hi]
            rw [Nat.mod_eq_of_lt (by omega)] at e2
            have := hmono i (by omega)
            rw [hf _ _ e1, hf _ _ e2] at this ⊢
            have hne : c'.seg ≠ c.seg := by
              rcases k1 with k1 | k1
              · omega
              · exact k1
            rw [show c'.seg + p.vertexes.length - (c.seg + 1) = (c'.seg - c.seg - 1) + p.vertexes.length by omega,
              Nat.add_mod_right, Nat.mod_eq_of_lt (by omega)]
            omega
    · rw [List.length_map, h3, hm, Finset.sum_range_succ]
      have : ∀ i ∈ Finset.range m, g i = 2 + (f (i + 1) - f i) := by
        intro i hi
        rw [Finset.mem_range] at hi
        simp only [g]
        rw [if_neg (by omega)]
      rw [Finset.sum_congr rfl this, Finset.sum_add_distrib, Finset.sum_const, Finset.card_range]
      have hg := sum_gaps f m hmono
      simp only [g, if_true, smul_eq_mul]
      have := h1.length_eq
      omega
  · intro s hs
    obtain ⟨o, ho, hso⟩ := List.mem_filterMap.1 (h5.mem_iff.1 hs)
    simp only [id] at hso
    subst hso
    obtain ⟨i, hi⟩ := List.getElem?_of_mem ho
    obtain ⟨c, c', e1, e2, e3⟩ := h4 i _ hi
    rcases e3 with ⟨-, h⟩ | ⟨-, k1, k2, s', k3, k4⟩ | ⟨-, k1, s', k3, k4⟩
    · cases h
    · split_ifs at k4
      cases k4
      exact (piece_within hb k3).2
    · split_ifs at k4
      cases k4
      exact (piece_across hb k3).2

end
end Cavc

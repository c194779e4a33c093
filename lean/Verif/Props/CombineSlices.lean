import Verif.Props.CombineTable
import Verif.Props.CombineStitch
import Verif.Props.OffsetSlices

/-! C43: the slices and results of boolean operations. -/
namespace Cavc
open Spec
open scoped Classical
noncomputable section

/-! ### Runs that end well, or in a failed assertion if there are arcs -/

/-- The run returns a value with `P`, or there are arcs and an assertion fails. -/
def Outcome {α : Type} (arcs : Prop) (P : α → Prop) (m : M α) : Prop :=
  (∃ r, m = .ok r ∧ P r) ∨ (arcs ∧ m = .error .assertFailed)

theorem Outcome.ok {α : Type} {arcs : Prop} {P : α → Prop} {r : α} (h : P r) :
    Outcome arcs P (.ok r) := Or.inl ⟨r, rfl, h⟩

theorem Outcome.bind {α β : Type} {arcs : Prop} {P : α → Prop} {Q : β → Prop} {m : M α} {f : α → M β}
    (h : Outcome arcs P m) (hf : ∀ r, P r → Outcome arcs Q (f r)) : Outcome arcs Q (m >>= f) := by
  rcases h with ⟨r, rfl, hr⟩ | ⟨ha, rfl⟩
  · exact hf r hr
  · exact Or.inr ⟨ha, rfl⟩

theorem Outcome.mono {α : Type} {arcs : Prop} {P Q : α → Prop} {m : M α} (h : Outcome arcs P m)
    (hpq : ∀ r, P r → Q r) : Outcome arcs Q m := by
  rcases h with ⟨r, rfl, hr⟩ | h
  · exact Or.inl ⟨r, rfl, hpq r hr⟩
  · exact Or.inr h

theorem Outcome.foldlM {α β : Type} {arcs : Prop} {Inv : List β → Prop} {w : α → ℕ}
    {f : List β → α → M (List β)} : ∀ (xs : List α) (acc : List β),
      (∀ acc x, x ∈ xs → Inv acc → Outcome arcs (fun r => Inv r ∧ r.length ≤ acc.length + w x) (f acc x)) →
      Inv acc → Outcome arcs (fun r => Inv r ∧ r.length ≤ acc.length + (xs.map w).sum) (xs.foldlM f acc)
  | [], acc, _, hi => Outcome.ok ⟨hi, by simp⟩
  | x :: xs, acc, hf, hi => by
    rw [List.foldlM_cons]
    refine (hf acc x (by simp) hi).bind ?_
    rintro r ⟨hr, hl⟩
    refine (Outcome.foldlM xs r (fun a y hy => hf a y (by simp [hy])) hr).mono ?_
    rintro r' ⟨h1, h2⟩
    refine ⟨h1, ?_⟩
    rw [List.map_cons, List.sum_cons]
    omega

/-! ### Vertexes -/

/-- The position has `K` and, unless there are arcs, the vertex starts a straight segment. -/
structure VOk (K : V2 → Prop) (arcs : Prop) (v : Vertex) : Prop where
  pos : K v.pos
  line : ¬ arcs → IsLine v

theorem isLine_zero (p : V2) : IsLine ⟨p, 0⟩ := by
  unfold IsLine; norm_num

theorem split_total {K : V2 → Prop} {arcs : Prop} {v1 v2 : Vertex} {x : V2} (h1 : VOk K arcs v1)
    (h2 : K v2.pos) (hx : K x) : ∃ r, splitAtPoint v1 v2 x = .ok r ∧ VOk K arcs r.updatedStart ∧
      VOk K arcs r.splitVertex := by
  unfold splitAtPoint
  by_cases hz : v1.bulgeIsZero
  · rw [if_pos hz]
    exact ⟨_, rfl, h1, hx, fun _ => isLine_zero x⟩
  · rw [if_neg hz]
    have ha : arcs := by
      by_contra h
      exact hz (h1.line h)
    by_cases h3 : fuzzyEqualV v1.pos v2.pos realPrecision ∨ fuzzyEqualV v1.pos x realPrecision
    · rw [if_pos h3]
      exact ⟨_, rfl, ⟨hx, fun h => absurd ha h⟩, hx, fun h => absurd ha h⟩
    · rw [if_neg h3]
      by_cases h4 : fuzzyEqualV v2.pos x realPrecision
      · rw [if_pos h4]
        exact ⟨_, rfl, h1, h2, fun h => absurd ha h⟩
      · rw [if_neg h4]
        have hne : ¬ fuzzyEqualV v1.pos v2.pos := by
          intro h
          apply h3
          left
          have e : realThreshold < realPrecision := by norm_num [realThreshold, realPrecision]
          exact ⟨lt_trans h.1 e, lt_trans h.2 e⟩
        unfold arcRadiusAndCenter
        rw [assertP_pos hz, ok_bind, assertP_pos hne]
        exact ⟨_, rfl, ⟨h1.pos, fun h => absurd ha h⟩, hx, fun h => absurd ha h⟩

theorem midpoint_outcome {K : V2 → Prop} {arcs : Prop} {v1 v2 : Vertex} (h1 : VOk K arcs v1) :
    Outcome arcs (fun _ => True) (segMidpoint v1 v2) := by
  unfold segMidpoint
  by_cases hz : v1.bulgeIsZero
  · rw [if_pos hz]; exact Outcome.ok trivial
  · rw [if_neg hz]
    have ha : arcs := by
      by_contra h
      exact hz (h1.line h)
    unfold arcRadiusAndCenter
    rw [assertP_pos hz, ok_bind]
    by_cases hn : fuzzyEqualV v1.pos v2.pos
    · right
      refine ⟨ha, ?_⟩
      unfold assertP
      rw [if_neg (not_not.2 hn)]
      rfl
    · rw [assertP_pos hn]
      exact Outcome.ok trivial

/-- The midpoint of a segment that is straight, or whose ends are not at the same position. -/
theorem midpoint_far {v1 v2 : Vertex} (h : ¬ IsLine v1 → ¬ Near (1 / 10 ^ 8) v1.pos v2.pos) :
    ∃ m, segMidpoint v1 v2 = .ok m := by
  unfold segMidpoint
  by_cases hz : v1.bulgeIsZero
  · rw [if_pos hz]; exact ⟨_, rfl⟩
  · rw [if_neg hz]
    unfold arcRadiusAndCenter
    rw [assertP_pos hz, ok_bind, assertP_pos (show ¬ fuzzyEqualV v1.pos v2.pos from h hz)]
    exact ⟨_, rfl⟩

/-- An open polyline, not empty, all of whose vertexes are of the kind. -/
structure OpenOk (K : V2 → Prop) (arcs : Prop) (p : Polyline) : Prop where
  opened : p.isClosed = false
  ne : p.vertexes ≠ []
  all : ∀ v ∈ p.vertexes, VOk K arcs v

theorem addOrReplace_ok {K : V2 → Prop} {arcs : Prop} {p : Polyline} {v : Vertex}
    (h : OpenOk K arcs p) (hv : VOk K arcs v) : OpenOk K arcs (addOrReplaceIfSamePos p v) := by
  unfold addOrReplaceIfSamePos
  rw [List.getLast?_eq_some_getLast h.ne]
  simp only
  have hl := h.all _ (List.getLast_mem h.ne)
  split_ifs with c
  · refine ⟨h.opened, by simp, ?_⟩
    intro w hw
    simp only [List.mem_append, List.mem_singleton] at hw
    rcases hw with hw | rfl
    · exact h.all w (List.dropLast_subset _ hw)
    · exact ⟨hl.pos, hv.line⟩
  · refine ⟨h.opened, by simp [Polyline.addVertex], ?_⟩
    intro w hw
    simp only [Polyline.addVertex, List.mem_append, List.mem_singleton] at hw
    rcases hw with hw | rfl
    · exact h.all w hw
    · exact hv

/-! ### The lookup -/

/-- All keys are segments, all lists have elements, and their points are of the kind. -/
def LookupOk (K : V2 → Prop) (n : ℕ) (l : SliceLookup) : Prop :=
  ∀ kv ∈ l, kv.1 < n ∧ kv.2 ≠ [] ∧ ∀ sp ∈ kv.2, K sp.pos

/-- The number of points. -/
def points (l : SliceLookup) : ℕ := (l.map fun kv => kv.2.length).sum

theorem push_ok {K : V2 → Prop} {n key : ℕ} {p : SlicePoint} (hk : key < n) (hp : K p.pos) :
    ∀ l : SliceLookup, LookupOk K n l →
      LookupOk K n (SliceLookup.push key p l) ∧ points (SliceLookup.push key p l) = points l + 1
  | [], _ => by
    refine ⟨?_, by simp [SliceLookup.push, points]⟩
    intro kv hkv
    simp only [SliceLookup.push, List.mem_singleton] at hkv
    subst hkv
    exact ⟨hk, by simp, by simpa using hp⟩
  | (k, ps) :: rest, h => by
    obtain ⟨i1, i2⟩ := push_ok hk hp rest (fun kv hkv => h kv (by simp [hkv]))
    have h0 := h (k, ps) (by simp)
    unfold SliceLookup.push
    split_ifs with c1 c2
    · refine ⟨?_, by simp [points]; omega⟩
      intro kv hkv
      rcases List.mem_cons.1 hkv with rfl | hkv
      · exact ⟨hk, by simp, by simpa using hp⟩
      · exact h kv hkv
    · refine ⟨?_, by simp [points]; omega⟩
      intro kv hkv
      rcases List.mem_cons.1 hkv with rfl | hkv
      · refine ⟨h0.1, by simp, ?_⟩
        intro sp hsp
        simp only [List.mem_append, List.mem_singleton] at hsp
        rcases hsp with hsp | rfl
        · exact h0.2.2 sp hsp
        · exact hp
      · exact h kv (by simp [hkv])
    · refine ⟨?_, ?_⟩
      · intro kv hkv
        rcases List.mem_cons.1 hkv with rfl | hkv
        · exact h0
        · exact i1 kv hkv
      · unfold points at i2 ⊢
        simp only [List.map_cons, List.sum_cons]
        omega

theorem pushes_ok {K : V2 → Prop} {n : ℕ} {α : Type} (key : α → ℕ) (pt : α → SlicePoint) :
    ∀ (xs : List α) (l : SliceLookup), (∀ x ∈ xs, key x < n ∧ K (pt x).pos) → LookupOk K n l →
      LookupOk K n (xs.foldl (fun (l : SliceLookup) x => l.push (key x) (pt x)) l) ∧
      points (xs.foldl (fun (l : SliceLookup) x => l.push (key x) (pt x)) l) = points l + xs.length
  | [], l, _, hl => ⟨hl, rfl⟩
  | x :: xs, l, h, hl => by
    obtain ⟨h1, h2⟩ := push_ok (h x (by simp)).1 (h x (by simp)).2 l hl
    obtain ⟨h3, h4⟩ := pushes_ok key pt xs _ (fun y hy => h y (by simp [hy])) h1
    refine ⟨h3, ?_⟩
    rw [List.foldl_cons, h4, h2, List.length_cons]
    omega

theorem find_mem {l : SliceLookup} {k : ℕ} {ps : List SlicePoint} (h : l.find? k = some ps) :
    (k, ps) ∈ l := by
  unfold SliceLookup.find? at h
  obtain ⟨⟨k', ps'⟩, h1, rfl⟩ := Option.map_eq_some_iff.1 h
  have := List.find?_some h1
  simp only [decide_eq_true_eq] at this
  subst this
  exact List.mem_of_find?_eq_some h1

theorem find_ne {l : SliceLookup} {kv : ℕ × List SlicePoint} (h : kv ∈ l) : l.find? kv.1 ≠ none := by
  unfold SliceLookup.find?
  rw [ne_eq, Option.map_eq_none_iff, List.find?_eq_none]
  intro hn
  simpa using hn kv h

theorem keyLess_strictWeak {α : Type} (f : α → ℝ) : StrictWeak (fun a b => f a < f b) := by
  constructor
  · intro a h; exact lt_irrefl _ h
  · intro a b c h1 h2; exact lt_trans h1 h2
  · intro a b c h1 h2 h3 h4
    constructor <;> intro h <;> linarith

theorem sortSliceLookup_run {std : StdSort} {K : V2 → Prop} {p : Polyline} {l : SliceLookup}
    (h : LookupOk K p.size l) : ∃ l', sortSliceLookup std p l = .ok l' ∧ LookupOk K p.size l' ∧
      points l' = points l := by
  unfold sortSliceLookup
  have hperm := fun (kv : ℕ × List SlicePoint) => std.perm
    (fun i1 i2 => distSquared i1.pos (vtx p kv.1).pos < distSquared i2.pos (vtx p kv.1).pos) kv.2
    (keyLess_strictWeak (fun i : SlicePoint => distSquared i.pos (vtx p kv.1).pos))
  refine ⟨_, mapM_total _ (fun kv => (kv.1, std.sort (fun i1 i2 =>
    distSquared i1.pos (vtx p kv.1).pos < distSquared i2.pos (vtx p kv.1).pos) kv.2)) l ?_, ?_, ?_⟩
  · intro kv hkv
    rw [at_eq (h kv hkv).1, ok_bind]
    rfl
  · intro kv hkv
    obtain ⟨kv', hkv', rfl⟩ := List.mem_map.1 hkv
    obtain ⟨h1, h2, h3⟩ := h kv' hkv'
    refine ⟨h1, ?_, ?_⟩
    · intro hn
      have := (hperm kv').length_eq
      simp only at hn
      rw [hn] at this
      exact h2 (List.length_eq_zero_iff.1 this.symm)
    · intro sp hsp
      exact h3 sp ((hperm kv').mem_iff.1 hsp)
  · unfold points
    rw [List.map_map]
    congr 1
    apply List.map_congr_left
    intro kv hkv
    simp only [Function.comp]
    exact (hperm kv).length_eq

/-! ### Slices -/

/-- A slice that is kept: open, at least two vertexes, and the test holds at the midpoint of its last
segment. -/
structure SliceOk (K : V2 → Prop) (arcs : Prop) (pred : V2 → M Bool) (s : Polyline) : Prop where
  ok : OpenOk K arcs s
  two : 2 ≤ s.vertexes.length
  test : ∃ l u w m, s.vertexes = l ++ [u, w] ∧ segMidpoint u w = .ok m ∧ pred m = .ok true

theorem betweenIntersects_run {K : V2 → Prop} {arcs bad : Prop} {pred : V2 → M Bool}
    {R : Polyline → Prop} (hR : ∀ s, SliceOk K arcs pred s → R s)
    (hpred : ∀ x, ∃ b, pred x = .ok b) {endVertex : Vertex} (he : K endVertex.pos) :
    ∀ (sps : List SlicePoint) (prev : SlicePoint) (pv : Vertex) (result : List Polyline),
      (∀ sp ∈ sps, K sp.pos) → VOk K arcs pv → (∀ s ∈ result, R s) →
      Outcome bad (fun r => (∀ s ∈ r, R s) ∧ r.length ≤ result.length + sps.length)
        (betweenIntersects pred endVertex prev sps pv result)
  | [], prev, pv, result, _, _, hr => Outcome.ok ⟨hr, by simp⟩
  | sp :: rest, prev, pv, result, hs, hv, hr => by
    obtain ⟨r, h1, h2, h3⟩ := split_total hv he (hs sp (by simp))
    have hrest : ∀ sp ∈ rest, K sp.pos := fun s h => hs s (by simp [h])
    have hgo : ∀ result' : List Polyline, (∀ s ∈ result', R s) →
        result'.length ≤ result.length + 1 →
        Outcome bad (fun r => (∀ s ∈ r, R s) ∧
          r.length ≤ result.length + (sp :: rest).length)
          (betweenIntersects pred endVertex sp rest r.splitVertex result') := by
      intro result' h4 h5
      refine (betweenIntersects_run hR hpred he rest sp r.splitVertex result' hrest h3 h4).mono ?_
      rintro q ⟨q1, q2⟩
      refine ⟨q1, ?_⟩
      rw [List.length_cons]
      omega
    unfold betweenIntersects
    rw [h1, ok_bind]
    split_ifs with c1 c2
    · exact hgo result hr (by omega)
    · exact hgo result hr (by omega)
    · obtain ⟨m, hm⟩ := midpoint_far (v1 := r.updatedStart) (v2 := r.splitVertex) fun _ h => c2
        ⟨h.1.trans (by norm_num [realPrecision]), h.2.trans (by norm_num [realPrecision])⟩
      obtain ⟨b, hb⟩ := hpred m
      rw [hm, ok_bind, hb, ok_bind]
      cases b with
      | false => exact hgo result hr (by omega)
      | true =>
        simp only [if_true]
        refine hgo _ ?_ (by simp)
        intro s hs'
        rw [List.mem_append, List.mem_singleton] at hs'
        rcases hs' with hs' | rfl
        · exact hr s hs'
        · refine hR _ ⟨⟨rfl, by simp, ?_⟩, by simp, [], _, _, m, rfl, hm, hb⟩
          intro v hv'
          simp only [List.mem_cons, List.not_mem_nil, or_false] at hv'
          rcases hv' with rfl | rfl
          · exact h2
          · exact h3

theorem innerIntersects_run {K : V2 → Prop} {arcs bad : Prop} {pred : V2 → M Bool}
    {R : Polyline → Prop} (hR : ∀ s, SliceOk K arcs pred s → R s)
    (hpred : ∀ x, ∃ b, pred x = .ok b) {sv ev : Vertex} (hs : VOk K arcs sv) (he : K ev.pos)
    {sps : List SlicePoint} (hne : sps ≠ []) (hsp : ∀ sp ∈ sps, K sp.pos) {result : List Polyline}
    (hr : ∀ s ∈ result, R s) :
    Outcome bad (fun r => (∀ s ∈ r, R s) ∧
      r.length + 1 ≤ result.length + sps.length) (innerIntersects pred sv ev sps result) := by
  obtain ⟨sp, rest, rfl⟩ := List.exists_cons_of_ne_nil hne
  unfold innerIntersects
  by_cases h1 : (sp :: rest).length ≠ 1
  · rw [if_pos h1]
    obtain ⟨r, g1, g2, g3⟩ := split_total hs he (hsp sp (by simp))
    simp only
    rw [g1, ok_bind]
    refine (betweenIntersects_run hR hpred he rest sp _ result (fun s h => hsp s (by simp [h])) g3 hr).mono ?_
    rintro q ⟨q1, q2⟩
    refine ⟨q1, ?_⟩
    rw [List.length_cons]
    omega
  · rw [if_neg h1]
    refine Outcome.ok ⟨hr, ?_⟩
    simp

theorem endSlice_run {K : V2 → Prop} {arcs : Prop} {p : Polyline}
    (hp : ∀ v ∈ p.vertexes, VOk K arcs v) {index : ℕ} (hi : index < p.size) {x : V2} (hx : K x)
    {cur : Polyline} (hc : OpenOk K arcs cur) :
    ∃ q, endSlice p index x cur = .ok q ∧ OpenOk K arcs q := by
  have hn : nextWrappingIndex index p.size < p.size := by
    unfold nextWrappingIndex; split_ifs <;> omega
  have hmem : vtx p (nextWrappingIndex index p.size) ∈ p.vertexes := by
    unfold vtx
    rw [List.getD_eq_getElem _ _ hn]
    exact List.getElem_mem _
  obtain ⟨r, h1, h2, h3⟩ := split_total (v2 := vtx p (nextWrappingIndex index p.size))
    (hc.all _ (List.getLast_mem hc.ne)) (hp _ hmem).pos hx
  unfold endSlice
  have hlast : cur.lastVertex = .ok (cur.vertexes.getLast hc.ne) := by
    unfold Polyline.lastVertex
    rw [List.getLast?_eq_some_getLast hc.ne]
  have hset : cur.setLast r.updatedStart =
      .ok ⟨cur.isClosed, cur.vertexes.dropLast ++ [r.updatedStart]⟩ := by
    unfold Polyline.setLast
    rw [if_neg hc.ne]
  rw [hlast, ok_bind, at_eq hn, ok_bind, h1, ok_bind, hset, ok_bind]
  refine ⟨_, rfl, addOrReplace_ok ⟨hc.opened, by simp, ?_⟩ ⟨hx, fun _ => isLine_zero x⟩⟩
  intro v hv
  simp only [List.mem_append, List.mem_singleton] at hv
  rcases hv with hv | rfl
  · exact hc.all v (List.dropLast_subset _ hv)
  · exact h2

theorem vtx_mem {p : Polyline} {i : ℕ} (h : i < p.size) : vtx p i ∈ p.vertexes := by
  unfold vtx
  rw [List.getD_eq_getElem _ _ h]
  exact List.getElem_mem _

theorem intersectLoop_run {K : V2 → Prop} {arcs : Prop} {p : Polyline} {lookup : SliceLookup}
    (hp : ∀ v ∈ p.vertexes, VOk K arcs v) (hl : LookupOk K p.size lookup) {k : ℕ} (hk : k < p.size)
    (hf : lookup.find? k ≠ none) :
    ∀ (fuel i : ℕ) (cur : Polyline), i < p.size → (k + p.size - i) % p.size < fuel →
      OpenOk K arcs cur → ∃ q, intersectLoop p lookup fuel i cur = .ok q ∧ OpenOk K arcs q := by
  intro fuel
  induction fuel with
  | zero => intro i cur _ h; omega
  | succ fuel ih =>
    intro i cur hi hd hc
    unfold intersectLoop
    rw [at_eq hi, ok_bind]
    have hc' := addOrReplace_ok hc (hp _ (vtx_mem hi))
    simp only
    cases hfi : lookup.find? i with
    | some ps =>
      have := hl _ (find_mem hfi)
      cases ps with
      | nil => exact absurd rfl this.2.1
      | cons sp rest => exact endSlice_run hp hi (this.2.2 sp (by simp)) hc'
    | none =>
      have hne : i ≠ k := by rintro rfl; exact hf hfi
      obtain ⟨h1, h2⟩ := next_dist hk hi hne
      exact ih _ _ h1 (by omega) hc'

/-! ### The last segment of a slice -/

/-- Arcs have their ends well apart. -/
def LongAt (p : Polyline) : Prop :=
  ∀ i < p.size, ¬ IsLine (vtx p i) → ¬ Near (1 / 10 ^ 4) (vtx p i).pos (vtx p (nextWrappingIndex i p.size)).pos

/-- Cuts of arcs are at the end of the arc or well apart from it. -/
def CleanAt (p : Polyline) (i : ℕ) (x : V2) : Prop :=
  ¬ IsLine (vtx p i) → x = (vtx p (nextWrappingIndex i p.size)).pos ∨
    ¬ Near (1 / 10 ^ 4) x (vtx p (nextWrappingIndex i p.size)).pos

/-- The last segment, if it is an arc, has its ends apart. -/
def EndApart (vs : List Vertex) : Prop :=
  ∀ l t w, vs = l ++ [t, w] → ¬ IsLine t → ¬ Near (5 / 10 ^ 5) t.pos w.pos

/-- The last vertex stands for `v`, and the last segment has its ends apart. -/
def AtVertex (vs : List Vertex) (v : Vertex) : Prop :=
  EndApart vs ∧ ∃ l w, vs = l ++ [w] ∧ w.bulge = v.bulge ∧ Near (1 / 10 ^ 5) w.pos v.pos

theorem near_of_near {d e f : ℝ} {x y z : V2} (h1 : Near d x y) (h2 : Near e y z) (h : d + e ≤ f) : Near f x z := by
  constructor
  · have := abs_sub_le x.x y.x z.x
    have := h1.1; have := h2.1
    linarith
  · have := abs_sub_le x.y y.y z.y
    have := h1.2; have := h2.2
    linarith

theorem near_comm {d : ℝ} {x y : V2} (h : Near d x y) : Near d y x :=
  ⟨by rw [abs_sub_comm]; exact h.1, by rw [abs_sub_comm]; exact h.2⟩

theorem near_same {d : ℝ} (hd : 0 < d) (x : V2) : Near d x x := by
  constructor <;> simpa using hd

/-- Adding the vertex `v` to a polyline with last vertex `w`. -/
theorem addOrReplace_at {cur : Polyline} {l : List Vertex} {w v : Vertex} (hc : cur.vertexes = l ++ [w])
    (ha : EndApart (l ++ [w])) (hw : ¬ IsLine w → Near (1 / 10 ^ 5) w.pos v.pos ∨ ¬ Near (5 / 10 ^ 5) w.pos v.pos) :
    AtVertex (addOrReplaceIfSamePos cur v).vertexes v := by
  have hl : cur.vertexes.getLast? = some w := by rw [hc]; simp
  unfold addOrReplaceIfSamePos
  rw [hl]
  simp only
  by_cases c : fuzzyEqualV w.pos v.pos realPrecision
  · rw [if_pos c]
    have c' : Near (1 / 10 ^ 5) w.pos v.pos := c
    have e : cur.vertexes.dropLast = l := by rw [hc]; simp
    refine ⟨?_, l, ⟨w.pos, v.bulge⟩, by simp only; rw [e], rfl, c'⟩
    simp only
    rw [e]
    intro l' t w' h ht
    rw [show l' ++ [t, w'] = (l' ++ [t]) ++ [w'] by simp] at h
    obtain ⟨h1, h2⟩ := List.append_inj' h rfl
    have h3 : w'.pos = w.pos := by
      have := List.singleton_inj.1 h2
      rw [← this]
    rw [h3]
    exact ha l' t w (by rw [h1]; simp) ht
  · rw [if_neg c]
    have c' : ¬ Near (1 / 10 ^ 5) w.pos v.pos := c
    unfold Polyline.addVertex
    simp only
    rw [hc]
    refine ⟨?_, l ++ [w], v, rfl, rfl, near_same (by norm_num) _⟩
    intro l' t w' h ht
    rw [show l' ++ [t, w'] = (l' ++ [t]) ++ [w'] by simp] at h
    obtain ⟨h1, h2⟩ := List.append_inj' h rfl
    obtain ⟨-, h4⟩ := List.append_inj' h1 rfl
    have e1 := List.singleton_inj.1 h2
    have e2 := List.singleton_inj.1 h4
    subst e1 e2
    exact (hw ht).resolve_left c'

theorem atVertex_next {cur : Polyline} {v v' : Vertex} (h : AtVertex cur.vertexes v)
    (hl : ¬ IsLine v → ¬ Near (1 / 10 ^ 4) v.pos v'.pos) :
    AtVertex (addOrReplaceIfSamePos cur v').vertexes v' := by
  obtain ⟨h1, l, w, h2, h3, h4⟩ := h
  refine addOrReplace_at h2 (by rw [← h2]; exact h1) fun hw => Or.inr fun hn => ?_
  have hv : ¬ IsLine v := by unfold IsLine at hw ⊢; rwa [← h3]
  exact hl hv (near_of_near (near_comm h4) hn (by norm_num))

theorem split_end {v e : Vertex} {x : V2} {r : SplitResult} (h : splitAtPoint v e x = .ok r) :
    (r.updatedStart.pos = v.pos ∨ (r.updatedStart.pos = x ∧ (Near (1 / 10 ^ 5) v.pos e.pos ∧ ¬ IsLine v ∨
      Near (1 / 10 ^ 5) v.pos x))) ∧ (¬ IsLine r.splitVertex → ¬ IsLine v ∧ r.splitVertex.pos = x) := by
  have z : ∀ x : V2, IsLine ⟨x, 0⟩ := isLine_zero
  unfold splitAtPoint at h
  split_ifs at h with c1 c2 c3
  · cases h
    exact ⟨Or.inl rfl, fun h => absurd (z _) h⟩
  · cases h
    refine ⟨Or.inr ⟨rfl, ?_⟩, fun _ => ⟨c1, rfl⟩⟩
    rcases c2 with c2 | c2
    · exact Or.inl ⟨c2, c1⟩
    · exact Or.inr c2
  · cases h
    exact ⟨Or.inl rfl, fun h => absurd (z _) h⟩
  · obtain ⟨a, -, h⟩ := bind_eq_ok.1 h
    cases h
    exact ⟨Or.inl rfl, fun _ => ⟨c1, rfl⟩⟩

theorem endSlice_safe {p : Polyline} {i : ℕ} (hi : i < p.size) (hl : LongAt p) {x : V2} {cur q : Polyline}
    (ha : AtVertex cur.vertexes (vtx p i)) (h : endSlice p i x cur = .ok q) {l : List Vertex} {u w : Vertex}
    (hq : q.vertexes = l ++ [u, w]) : ∃ m, segMidpoint u w = .ok m := by
  obtain ⟨h1, l0, w0, h2, h3, h4⟩ := ha
  have hn : nextWrappingIndex i p.size < p.size := by
    unfold nextWrappingIndex; split_ifs <;> omega
  unfold endSlice at h
  have hlast : cur.lastVertex = .ok w0 := by
    unfold Polyline.lastVertex
    rw [h2]
    simp
  rw [hlast, ok_bind, at_eq hn, ok_bind] at h
  obtain ⟨r, hr, h⟩ := bind_eq_ok.1 h
  have hset : cur.setLast r.updatedStart = .ok ⟨cur.isClosed, l0 ++ [r.updatedStart]⟩ := by
    unfold Polyline.setLast
    rw [if_neg (by rw [h2]; simp), h2]
    simp
  rw [hset, ok_bind] at h
  have h := Except.ok.inj h
  have hpos : Near (1 / 10 ^ 5) r.updatedStart.pos w0.pos := by
    rcases (split_end hr).1 with e | ⟨e, ⟨e1, e2⟩ | e1⟩
    · rw [e]; exact near_same (by norm_num) _
    · exfalso
      have hv : ¬ IsLine (vtx p i) := by unfold IsLine at e2 ⊢; rwa [← h3]
      exact hl i hi hv (near_of_near (near_comm h4) e1 (by norm_num))
    · rw [e]; exact near_comm e1
  apply midpoint_far
  intro hu
  unfold addOrReplaceIfSamePos at h
  rw [show (l0 ++ [r.updatedStart]).getLast? = some r.updatedStart by simp] at h
  simp only at h
  rw [show l ++ [u, w] = (l ++ [u]) ++ [w] by simp] at hq
  by_cases c : fuzzyEqualV r.updatedStart.pos x realPrecision
  · rw [if_pos c] at h
    rw [← h] at hq
    rw [List.dropLast_concat] at hq
    obtain ⟨e1, e2⟩ := List.append_inj' hq rfl
    have e3 : w.pos = r.updatedStart.pos := by rw [← List.singleton_inj.1 e2]
    rw [e3]
    intro hnear
    refine h1 l u w0 (by rw [h2, e1]; simp) hu (near_of_near hnear hpos (by norm_num))
  · rw [if_neg c] at h
    rw [← h] at hq
    unfold Polyline.addVertex at hq
    simp only at hq
    obtain ⟨e1, e2⟩ := List.append_inj' hq rfl
    obtain ⟨-, e3⟩ := List.append_inj' e1 rfl
    have e4 := List.singleton_inj.1 e3
    have e5 := List.singleton_inj.1 e2
    subst e4 e5
    intro hnear
    exact c ⟨hnear.1.trans (by norm_num [realPrecision]), hnear.2.trans (by norm_num [realPrecision])⟩

theorem intersectLoop_safe {p : Polyline} {lookup : SliceLookup} (hl : LongAt p) : ∀ (fuel i : ℕ) (cur q : Polyline),
    i < p.size → AtVertex (addOrReplaceIfSamePos cur (vtx p i)).vertexes (vtx p i) →
    intersectLoop p lookup fuel i cur = .ok q → ∀ l u w, q.vertexes = l ++ [u, w] → ∃ m, segMidpoint u w = .ok m
  | 0, _, _, _, _, _, h => by cases h
  | fuel + 1, i, cur, q, hi, ha, h => by
    unfold intersectLoop at h
    rw [at_eq hi, ok_bind] at h
    simp only at h
    cases hf : lookup.find? i with
    | none =>
      rw [hf] at h
      have hn : nextWrappingIndex i p.size < p.size := by
        unfold nextWrappingIndex; split_ifs <;> omega
      exact intersectLoop_safe hl fuel _ _ q hn (atVertex_next ha (hl i hi)) h
    | some ps =>
      rw [hf] at h
      cases ps with
      | nil => cases h
      | cons sp rest =>
        intro l u w hq
        exact endSlice_safe hi hl ha h hq

/-- The first vertex after a cut of segment `k`. -/
theorem atVertex_first {p : Polyline} {k : ℕ} {x : V2} {r : SplitResult}
    (h : splitAtPoint (vtx p k) (vtx p (nextWrappingIndex k p.size)) x = .ok r) (hc : CleanAt p k x) :
    AtVertex (addOrReplaceIfSamePos (Polyline.empty.addVertex r.splitVertex)
      (vtx p (nextWrappingIndex k p.size))).vertexes (vtx p (nextWrappingIndex k p.size)) := by
  refine addOrReplace_at (l := []) (w := r.splitVertex) (by simp [Polyline.addVertex, Polyline.empty]) ?_ ?_
  · intro l t w h
    have := congrArg List.length h
    simp at this
  · intro hw
    obtain ⟨h1, h2⟩ := (split_end h).2 hw
    rw [h2]
    rcases hc h1 with e | e
    · left; rw [← e]; exact near_same (by norm_num) _
    · right
      exact fun hn => e (near_of_near hn (near_same (d := 1 / 10 ^ 5) (by norm_num) _) (by norm_num))

/-- Nothing can go wrong unless `bad`: there are no arcs, or arcs are long and cut cleanly. -/
def SafeCuts (bad arcs : Prop) (p : Polyline) (lookup : SliceLookup) : Prop :=
  ¬ bad → ¬ arcs ∨ (LongAt p ∧ ∀ kv ∈ lookup, ∀ sp ∈ kv.2, CleanAt p kv.1 sp.pos)

theorem outerIntersects_run {K : V2 → Prop} {arcs bad : Prop} {pred : V2 → M Bool}
    {R : Polyline → Prop} (hR : ∀ s, SliceOk K arcs pred s → R s)
    (hpred : ∀ x, ∃ b, pred x = .ok b) {p : Polyline} {lookup : SliceLookup}
    (hp : ∀ v ∈ p.vertexes, VOk K arcs v) (hl : LookupOk K p.size lookup)
    {kv : ℕ × List SlicePoint} (hkv : kv ∈ lookup) {result : List Polyline}
    (hr : ∀ s ∈ result, R s) (hsafe : SafeCuts bad arcs p lookup) :
    Outcome bad (fun r => (∀ s ∈ r, R s) ∧ r.length ≤ result.length + 1)
      (outerIntersects p lookup pred kv.1 (vtx p kv.1) (vtx p (nextWrappingIndex kv.1 p.size)) kv.2
        result) := by
  obtain ⟨hk, hne, hsp⟩ := hl kv hkv
  have hn : nextWrappingIndex kv.1 p.size < p.size := by
    unfold nextWrappingIndex; split_ifs <;> omega
  unfold outerIntersects
  rw [List.getLast?_eq_some_getLast hne]
  simp only
  split_ifs with c1
  · exact Outcome.ok ⟨hr, by omega⟩
  · obtain ⟨r, h1, h2, h3⟩ := split_total (hp _ (vtx_mem hk)) (hp _ (vtx_mem hn)).pos
      (hsp _ (List.getLast_mem hne))
    rw [h1, ok_bind]
    obtain ⟨q, hq, hqo⟩ := intersectLoop_run hp hl hk (find_ne hkv) (p.size + 1) _
      (Polyline.empty.addVertex r.splitVertex) hn (by
        have := Nat.mod_lt (kv.1 + p.size - nextWrappingIndex kv.1 p.size) (show 0 < p.size by omega)
        omega) ⟨rfl, by simp [Polyline.addVertex], by
          intro v hv
          simp only [Polyline.addVertex, Polyline.empty, List.nil_append, List.mem_singleton] at hv
          rw [hv]; exact h3⟩
    rw [hq, ok_bind]
    by_cases hsz : q.size > 1
    · rw [if_pos hsz]
      obtain ⟨l, u, w, hlu⟩ : ∃ l u w, q.vertexes = l ++ [u, w] := by
        have e := List.dropLast_append_getLast hqo.ne
        have hd : q.vertexes.dropLast ≠ [] := by
          intro h
          have := congrArg List.length h
          rw [List.length_dropLast] at this
          have : q.vertexes.length = q.size := rfl
          simp at *
          omega
        refine ⟨q.vertexes.dropLast.dropLast, q.vertexes.dropLast.getLast hd, q.vertexes.getLast hqo.ne, ?_⟩
        rw [show q.vertexes.dropLast.dropLast ++ [q.vertexes.dropLast.getLast hd, q.vertexes.getLast hqo.ne] =
          (q.vertexes.dropLast.dropLast ++ [q.vertexes.dropLast.getLast hd]) ++ [q.vertexes.getLast hqo.ne]
          by simp, List.dropLast_append_getLast hd, e]
      have hat : q.at (q.size - 2) = .ok u := by
        unfold Polyline.at getM Polyline.size
        rw [hlu]
        simp
      have hla : q.lastVertex = .ok w := by
        unfold Polyline.lastVertex
        rw [hlu]
        simp
      rw [hat, ok_bind, hla, ok_bind]
      have hu : VOk K arcs u := hqo.all u (by rw [hlu]; simp)
      have hmid : Outcome bad (fun _ => True) (segMidpoint u w) := by
        by_cases hb : bad
        · rcases midpoint_outcome (v2 := w) hu with h | ⟨-, h⟩
          · exact Or.inl h
          · exact Or.inr ⟨hb, h⟩
        · rcases hsafe hb with h | ⟨h, hc⟩
          · obtain ⟨m, hm⟩ := midpoint_far (v1 := u) (v2 := w) fun hn => absurd (hu.line h) hn
            exact Or.inl ⟨m, hm, trivial⟩
          · obtain ⟨m, hm⟩ := intersectLoop_safe h _ _ _ _ hn
              (atVertex_first h1 (hc kv hkv _ (List.getLast_mem hne))) hq l u w hlu
            exact Or.inl ⟨m, hm, trivial⟩
      obtain ⟨m, hm, -⟩ | hm := hmid
      · obtain ⟨b, hb⟩ := hpred m
        rw [hm, ok_bind, hb, ok_bind]
        cases b with
        | false => exact Outcome.ok ⟨hr, by simp⟩
        | true =>
          refine Outcome.ok ⟨?_, by simp⟩
          intro s hs'
          simp only [if_true] at hs'
          rw [List.mem_append, List.mem_singleton] at hs'
          rcases hs' with hs' | rfl
          · exact hr s hs'
          · exact hR _ ⟨hqo, hsz, l, u, w, m, hlu, hm, hb⟩
      · rw [hm.2]
        exact Or.inr ⟨hm.1, rfl⟩
    · rw [if_neg hsz]
      exact Outcome.ok ⟨hr, by omega⟩

theorem intersectsStep_run {K : V2 → Prop} {arcs bad : Prop} {pred : V2 → M Bool}
    {R : Polyline → Prop} (hR : ∀ s, SliceOk K arcs pred s → R s)
    (hpred : ∀ x, ∃ b, pred x = .ok b) {p : Polyline} {lookup : SliceLookup}
    (hp : ∀ v ∈ p.vertexes, VOk K arcs v) (hl : LookupOk K p.size lookup)
    {kv : ℕ × List SlicePoint} (hkv : kv ∈ lookup) {result : List Polyline}
    (hr : ∀ s ∈ result, R s) (hsafe : SafeCuts bad arcs p lookup) :
    Outcome bad (fun r => (∀ s ∈ r, R s) ∧ r.length ≤ result.length + kv.2.length)
      (intersectsStep p lookup pred result kv) := by
  obtain ⟨hk, hne, hsp⟩ := hl kv hkv
  have hn : nextWrappingIndex kv.1 p.size < p.size := by
    unfold nextWrappingIndex; split_ifs <;> omega
  unfold intersectsStep
  rw [at_eq hk, ok_bind, at_eq hn, ok_bind]
  refine (innerIntersects_run hR hpred (hp _ (vtx_mem hk)) (hp _ (vtx_mem hn)).pos hne hsp hr).bind ?_
  rintro r ⟨h1, h2⟩
  refine (outerIntersects_run hR hpred hp hl hkv h1 hsafe).mono ?_
  rintro q ⟨q1, q2⟩
  exact ⟨q1, by omega⟩

end
end Cavc

import Verif.Props.OffsetWhole
import Verif.Props.PlineLength

/-! C65: `parallelOffset` does not fault. -/
namespace Cavc
open Spec
open scoped Classical
noncomputable section

/-! ### Splitting and midpoints -/

/-- Splitting never faults. -/
theorem cut_total {v e : Vertex} (hv : |v.bulge| ≤ 1) (x : V2) :
    ∃ r, splitAtPoint v e x = .ok r ∧ |r.updatedStart.bulge| ≤ 1 ∧ |r.splitVertex.bulge| ≤ 1 ∧
      (¬ IsLine r.updatedStart → ¬ Near (1 / 10 ^ 5) r.updatedStart.pos x) ∧
      (¬ IsLine r.splitVertex → (r.splitVertex.pos = x ∧ ¬ Near (1 / 10 ^ 5) e.pos x) ∨
        (¬ IsLine v ∧ r.splitVertex.pos = x ∧ (Near (1 / 10 ^ 5) v.pos e.pos ∨ Near (1 / 10 ^ 5) v.pos x))) := by
  have z : ∀ x : V2, IsLine ⟨x, 0⟩ := fun x => by unfold IsLine; norm_num
  unfold splitAtPoint
  by_cases hl : IsLine v
  · rw [if_pos (show v.bulgeIsZero from hl)]
    exact ⟨_, rfl, hv, by norm_num, fun h => absurd hl h, fun h => absurd (z _) h⟩
  rw [if_neg (show ¬ v.bulgeIsZero from hl)]
  by_cases c1 : fuzzyEqualV v.pos e.pos realPrecision ∨ fuzzyEqualV v.pos x realPrecision
  · rw [if_pos c1]
    exact ⟨_, rfl, by norm_num, hv, fun h => absurd (z _) h, fun _ => Or.inr ⟨hl, rfl, c1⟩⟩
  rw [if_neg c1]
  by_cases c2 : fuzzyEqualV e.pos x realPrecision
  · rw [if_pos c2]
    exact ⟨_, rfl, hv, by norm_num, fun _ h => c1 (Or.inr h), fun h => absurd (z _) h⟩
  rw [if_neg c2]
  unfold arcRadiusAndCenter
  rw [assertP_pos (show ¬ v.bulgeIsZero from hl), ok_bind, assertP_pos, ok_bind, pure_eq_ok, ok_bind]
  · exact ⟨_, rfl, tan_delta_le _ _, tan_delta_le _ _, fun _ h => c1 (Or.inr h), fun _ => Or.inl ⟨rfl, c2⟩⟩
  · rintro ⟨h1, h2⟩
    refine c1 (Or.inl ⟨?_, ?_⟩)
    · unfold fuzzyEqual realThreshold at *
      unfold realPrecision
      exact h1.trans (by norm_num)
    · unfold fuzzyEqual realThreshold at *
      unfold realPrecision
      exact h2.trans (by norm_num)

theorem segOk_far {v e : Vertex} (hb : |v.bulge| ≤ 1) (h : ¬ IsLine v → ¬ Near (1 / 10 ^ 5) v.pos e.pos) :
    SegOk v e := by
  refine ⟨hb, fun hl => ?_⟩
  have := h hl
  by_contra hc
  rw [not_or, not_le, not_le] at hc
  exact this ⟨hc.1.trans (by norm_num), hc.2.trans (by norm_num)⟩

/-! ### The tests -/

/-- The tests never fault. -/
structure Testable (e : SliceEnv) : Prop where
  far : ∀ x, ∃ b, e.valid x = .ok b
  meets : ∀ v w, SegOk v w → ∃ b, intersectsOrigPline e.original e.index v w = .ok b

theorem meets_total {p : Polyline} (hok : PlineOk p) {v w : Vertex} (hv : SegOk v w) : ∀ (r : List ℕ) (b : Bool),
    (∀ i ∈ r, ∃ u1 u2, IsSeg p i u1 u2) → ∃ b', runM (intersectsOrigVisitor p v w) b r = .ok b'
  | [], b, _ => ⟨b, rfl⟩
  | a :: r, b, hs => by
    obtain ⟨u1, u2, hu⟩ := hs a (by simp)
    obtain ⟨e1, e2⟩ := seg_at hu
    obtain ⟨s, h2⟩ := C50_no_fault hv (hok _ _ _ hu)
    unfold runM
    unfold intersectsOrigVisitor
    simp only
    rw [e1, ok_bind, e2, ok_bind, h2, ok_bind, pure_eq_ok, ok_bind]
    simp only
    split_ifs
    · exact meets_total hok hv r _ fun i hi => hs i (by simp [hi])
    · exact ⟨_, rfl⟩

theorem testable_of {p raw : Polyline} {index : SIndex ℝ} {offset : ℝ} (hx : IndexOf (segBoxes p) index)
    (hok : PlineOk p) : Testable ⟨p, index, offset, raw⟩ := by
  constructor
  · intro x
    obtain ⟨b, hb, -⟩ := pointValid_iff hx hok offset offsetThreshold x
    exact ⟨b, hb⟩
  · intro v w hv
    unfold intersectsOrigPline
    simp only
    obtain ⟨r, -, hr, -, h⟩ := hx.queryM (createFastApproxBoundingBox v w).toBox
    rw [h]
    refine meets_total hok hv r _ fun i hi => ?_
    obtain ⟨b, hb, -⟩ := (hr i).1 hi
    obtain ⟨v1, v2, h, -⟩ := segBoxes_get.1 hb
    exact ⟨v1, v2, h⟩

/-! ### The slices -/

/-- All bulges are at most 1 and there is a vertex. -/
structure Bulgy (s : Polyline) : Prop where
  ne : s.vertexes ≠ []
  open_ : s.isClosed = false
  half : ∀ v ∈ s.vertexes, |v.bulge| ≤ 1

theorem Bulgy.length {s : Polyline} (h : Bulgy s) : ∃ L, getPathLength s = .ok L := by
  refine ⟨_, getPathLength_eq fun i v1 v2 hs => ?_⟩
  refine h.half v1 ?_
  unfold IsSeg segs at hs
  split_ifs at hs with c1 c2
  · simp at hs
  · exact (List.of_mem_zip (List.mem_of_getElem? hs)).1
  · exact (List.of_mem_zip (List.mem_of_getElem? hs)).1

/-- Appending a vertex. -/
theorem Bulgy.add {s : Polyline} {v : Vertex} (h : Bulgy s) (hv : |v.bulge| ≤ 1) :
    Bulgy (addOrReplaceIfSamePos s v) ∧ ∃ u, (addOrReplaceIfSamePos s v).vertexes.getLast? = some u ∧
      u.bulge = v.bulge ∧ (u.pos = v.pos ∨ Near (1 / 10 ^ 5) u.pos v.pos) := by
  obtain ⟨l, hl⟩ : ∃ l, s.vertexes.getLast? = some l := ⟨_, List.getLast?_eq_getLast_of_ne_nil h.ne⟩
  unfold addOrReplaceIfSamePos
  rw [hl]
  simp only
  by_cases c : fuzzyEqualV l.pos v.pos realPrecision
  · rw [if_pos c]
    refine ⟨⟨by simp, h.open_, ?_⟩, _, List.getLast?_concat, rfl, Or.inr c⟩
    intro w hw
    simp only [List.mem_append, List.mem_singleton] at hw
    rcases hw with hw | rfl
    · exact h.half w (List.dropLast_subset _ hw)
    · exact hv
  · rw [if_neg c]
    unfold Polyline.addVertex
    refine ⟨⟨by simp, h.open_, ?_⟩, _, List.getLast?_concat, rfl, Or.inl rfl⟩
    intro w hw
    simp only [List.mem_append, List.mem_singleton] at hw
    rcases hw with hw | rfl
    · exact h.half w hw
    · exact hv

theorem longArcs_next {raw : Polyline} (hok : PlineOk raw) (ha : LongArcs raw) {i : ℕ} {v w u : Vertex}
    (hs : IsSeg raw i v w) (hb : u.bulge = v.bulge) (hp : u.pos = v.pos ∨ Near (1 / 10 ^ 5) u.pos v.pos) :
    SegOk u w := by
  have h1 := hok _ _ _ hs
  refine ⟨by rw [hb]; exact h1.half, fun hl => ?_⟩
  have hl' : ¬ IsLine v := by unfold IsLine at hl ⊢; rwa [hb] at hl
  rcases hp with hp | ⟨p1, p2⟩
  · rw [hp]; exact h1.distinct hl'
  · by_contra hc
    rw [not_or, not_le, not_le] at hc
    refine ha i v w hs hl' ⟨?_, ?_⟩
    · have := abs_sub_le v.pos.x u.pos.x w.pos.x
      linarith [hc.1, abs_sub_comm u.pos.x v.pos.x]
    · have := abs_sub_le v.pos.y u.pos.y w.pos.y
      linarith [hc.2, abs_sub_comm u.pos.y v.pos.y]

theorem longArcs_split {raw : Polyline} (hok : PlineOk raw) (ha : LongArcs raw) {i : ℕ} {v w : Vertex}
    (hs : IsSeg raw i v w) (x : V2) : ∃ r, splitAtPoint v w x = .ok r ∧ |r.splitVertex.bulge| ≤ 1 ∧
      SegOk r.splitVertex w := by
  obtain ⟨r, h1, -, h3, -, h5⟩ := cut_total (e := w) (hok _ _ _ hs).half x
  refine ⟨r, h1, h3, h3, fun hl => ?_⟩
  by_contra hc
  rw [not_or, not_le, not_le] at hc
  rcases h5 hl with ⟨e, h⟩ | ⟨hv, e, h | h⟩
  · rw [e] at hc
    refine h ⟨?_, ?_⟩
    · rw [abs_sub_comm]; exact hc.1.trans (by norm_num)
    · rw [abs_sub_comm]; exact hc.2.trans (by norm_num)
  · exact ha i v w hs hv ⟨h.1.trans (by norm_num), h.2.trans (by norm_num)⟩
  · rw [e] at hc
    refine ha i v w hs hv ⟨?_, ?_⟩
    · have := abs_sub_le v.pos.x x.x w.pos.x
      linarith [hc.1, h.1]
    · have := abs_sub_le v.pos.y x.y w.pos.y
      linarith [hc.2, h.2]

theorem between_total {e : SliceEnv} (ht : Testable e) (k : ℕ) (ev : Vertex) :
    ∀ (xs : List V2) (pv : Vertex) (res : List OpenSlice), |pv.bulge| ≤ 1 →
      ∃ r, betweenSlices e k ev xs pv res = .ok r
  | [], _, res, _ => ⟨res, rfl⟩
  | x :: xs, pv, res, hb => by
    obtain ⟨r, h1, h2, h3, h4, -⟩ := cut_total (e := ev) hb x
    have ih := fun res => between_total ht k ev xs r.splitVertex res h3
    unfold betweenSlices
    rw [h1, ok_bind]
    simp only
    by_cases c : fuzzyEqualV r.updatedStart.pos r.splitVertex.pos realPrecision
    · rw [if_pos c]; exact ih _
    rw [if_neg c]
    have hok : SegOk r.updatedStart r.splitVertex := segOk_far h2 fun _ => c
    obtain ⟨b1, g1⟩ := ht.far r.updatedStart.pos
    rw [g1, ok_bind]
    by_cases d1 : ¬ b1 = true
    · rw [if_pos d1]; exact ih _
    rw [if_neg d1]
    obtain ⟨b2, g2⟩ := ht.far r.splitVertex.pos
    rw [g2, ok_bind]
    by_cases d2 : ¬ b2 = true
    · rw [if_pos d2]; exact ih _
    rw [if_neg d2]
    obtain ⟨m, hm, -⟩ := C16_segMidpoint hok
    rw [hm, ok_bind]
    obtain ⟨b3, g3⟩ := ht.far m
    rw [g3, ok_bind]
    by_cases d3 : ¬ b3 = true
    · rw [if_pos d3]; exact ih _
    rw [if_neg d3]
    obtain ⟨b4, g4⟩ := ht.meets _ _ hok
    rw [g4, ok_bind]
    cases b4
    · exact ih _
    · exact ih _

theorem inner_total {e : SliceEnv} (ht : Testable e) (k : ℕ) {sv : Vertex} (hb : |sv.bulge| ≤ 1) (ev : Vertex)
    {xs : List V2} (hx : xs ≠ []) (res : List OpenSlice) : ∃ r, innerSlices e k sv ev xs res = .ok r := by
  unfold innerSlices
  by_cases c : xs.length ≠ 1
  · rw [if_pos c]
    obtain ⟨x, xs, rfl⟩ := List.exists_cons_of_ne_nil hx
    simp only
    obtain ⟨r, h1, -, h3, -⟩ := cut_total (e := ev) hb x
    rw [h1, ok_bind]
    exact between_total ht k ev xs _ _ h3
  · rw [if_neg c]
    exact ⟨_, rfl⟩

theorem lastVertex_some {s : Polyline} {u : Vertex} (h : s.vertexes.getLast? = some u) : s.lastVertex = .ok u := by
  unfold Polyline.lastVertex
  rw [h]

theorem setLast_total {s : Polyline} (h : Bulgy s) {v : Vertex} (hv : |v.bulge| ≤ 1) :
    ∃ q, s.setLast v = .ok q ∧ Bulgy q := by
  have hq : s.setLast v = .ok ⟨s.isClosed, s.vertexes.dropLast ++ [v]⟩ := by
    unfold Polyline.setLast
    rw [if_neg h.ne]
  refine ⟨_, hq, by simp, h.open_, ?_⟩
  intro w hw
  simp only [List.mem_append, List.mem_singleton] at hw
  rcases hw with hw | rfl
  · exact h.half w (List.dropLast_subset _ hw)
  · exact hv

theorem finish_total {e : SliceEnv} (ht : Testable e) {j : ℕ} (hj : j < e.raw.size) (x : V2) {cur : Polyline}
    (hc : Bulgy cur) : ∃ o, finishSlice e j x cur = .ok o ∧ ∀ s, o = some s → Bulgy s := by
  obtain ⟨l, hl⟩ : ∃ l, cur.vertexes.getLast? = some l := ⟨_, List.getLast?_eq_getLast_of_ne_nil hc.ne⟩
  have hlb := hc.half l (List.mem_of_getLast? hl)
  unfold finishSlice
  obtain ⟨b1, g1⟩ := ht.far x
  rw [g1, ok_bind]
  by_cases d1 : ¬ b1 = true
  · rw [if_pos d1]; exact ⟨_, rfl, fun s h => nomatch h⟩
  rw [if_neg d1, lastVertex_some hl, ok_bind]
  have hn : nextWrappingIndex j e.raw.size < e.raw.size := by
    unfold nextWrappingIndex; split_ifs <;> omega
  rw [at_eq hn, ok_bind]
  obtain ⟨r, h1, h2, h3, h4, -⟩ := cut_total (e := vtx e.raw (nextWrappingIndex j e.raw.size)) hlb x
  rw [h1, ok_bind]
  simp only
  obtain ⟨m, hm, -⟩ := C16_segMidpoint (segOk_far (e := ⟨x, 0⟩) h2 h4)
  rw [hm, ok_bind]
  obtain ⟨b2, g2⟩ := ht.far m
  rw [g2, ok_bind]
  by_cases d2 : ¬ b2 = true
  · rw [if_pos d2]; exact ⟨_, rfl, fun s h => nomatch h⟩
  rw [if_neg d2]
  obtain ⟨q, hq, hqb⟩ := setLast_total hc h2
  rw [hq, ok_bind]
  refine ⟨_, rfl, fun s h => ?_⟩
  cases h
  exact (hqb.add (v := ⟨x, 0⟩) (by norm_num)).1

/-- What the loop needs to know of the lookup and of the next index. -/
structure SliceLoopOk (e : SliceEnv) (lookup : Lookup) (adv : ℕ → Option ℕ) : Prop where
  ne : ∀ i, lookup.find? i ≠ some []
  next : ∀ i < e.raw.size, adv i = none ∨
    (adv i = some (nextWrappingIndex i e.raw.size) ∧ IsSeg e.raw i (vtx e.raw i) (vtx e.raw (nextWrappingIndex i e.raw.size)))

theorem loop_total {e : SliceEnv} (ht : Testable e) (hok : PlineOk e.raw) (hb : ∀ v ∈ e.raw.vertexes, |v.bulge| ≤ 1)
    (ha : LongArcs e.raw) {lookup : Lookup}
    {adv : ℕ → Option ℕ} (hl : SliceLoopOk e lookup adv) {k : ℕ} (hk : k < e.raw.size) (hf : lookup.find? k ≠ none) :
    ∀ (fuel i : ℕ) (cur : Polyline) (u : Vertex), i < e.raw.size → (k + e.raw.size - i) % e.raw.size < fuel →
      Bulgy cur → cur.vertexes.getLast? = some u → SegOk u (vtx e.raw i) →
      ∃ o, sliceLoop e lookup adv fuel i cur = .ok o ∧ ∀ s, o = some s → Bulgy s := by
  intro fuel
  induction fuel with
  | zero => intro i cur u _ h; omega
  | succ fuel ih =>
    intro i cur u hi hd hc hu huk
    unfold sliceLoop
    rw [at_eq hi, ok_bind]
    obtain ⟨b1, g1⟩ := ht.far (vtx e.raw i).pos
    rw [g1, ok_bind]
    by_cases d1 : ¬ b1 = true
    · rw [if_pos d1]; exact ⟨_, rfl, fun s h => nomatch h⟩
    rw [if_neg d1, lastVertex_some hu, ok_bind]
    obtain ⟨b2, g2⟩ := ht.meets _ _ huk
    rw [g2, ok_bind]
    cases b2 with
    | true => exact ⟨_, rfl, fun s h => nomatch h⟩
    | false =>
      simp only [Bool.false_eq_true, if_false]
      obtain ⟨hc', w, hw, w1, w2⟩ := hc.add (hb _ (vtx_mem hi))
      cases hfi : lookup.find? i with
      | some l =>
        cases l with
        | nil => exact absurd hfi (hl.ne i)
        | cons x rest => exact finish_total ht hi x hc'
      | none =>
        have hne : i ≠ k := by rintro rfl; exact hf hfi
        obtain ⟨n1, n2⟩ := next_dist hk hi hne
        simp only
        rcases hl.next i hi with h | ⟨h, hs⟩
        · rw [h]
          refine ⟨_, rfl, fun s h => ?_⟩
          cases h
          exact hc'
        · rw [h]
          exact ih _ _ w n1 (by omega) hc' hw (longArcs_next hok ha hs w1 w2)

theorem outer_total {e : SliceEnv} (ht : Testable e) (hok : PlineOk e.raw)
    (hb : ∀ v ∈ e.raw.vertexes, |v.bulge| ≤ 1) (ha : LongArcs e.raw) {lookup : Lookup}
    {adv : ℕ → Option ℕ} (hl : SliceLoopOk e lookup adv) {k : ℕ} (hk : k < e.raw.size) (hf : lookup.find? k ≠ none)
    (hs : IsSeg e.raw k (vtx e.raw k) (vtx e.raw (nextWrappingIndex k e.raw.size))) {xs : List V2} (hx : xs ≠ []) :
    ∃ o, outerSlice e lookup adv k (vtx e.raw k) (vtx e.raw (nextWrappingIndex k e.raw.size)) xs = .ok o ∧
      ∀ s, o = some s → Bulgy s := by
  unfold outerSlice
  rw [List.getLast?_eq_getLast_of_ne_nil hx]
  simp only
  obtain ⟨b1, g1⟩ := ht.far (xs.getLast hx)
  rw [g1, ok_bind]
  by_cases d1 : ¬ b1 = true
  · rw [if_pos d1]; exact ⟨_, rfl, fun s h => nomatch h⟩
  rw [if_neg d1]
  obtain ⟨r, h1, h2, h3⟩ := longArcs_split hok ha hs (xs.getLast hx)
  rw [h1, ok_bind]
  have hn : nextWrappingIndex k e.raw.size < e.raw.size := by
    unfold nextWrappingIndex; split_ifs <;> omega
  refine loop_total ht hok hb ha hl hk hf _ _ _ r.splitVertex hn ?_ ⟨?_, rfl, ?_⟩ ?_ h3
  · have := Nat.mod_lt (k + e.raw.size - nextWrappingIndex k e.raw.size) (show 0 < e.raw.size by omega)
    omega
  · simp [Polyline.addVertex, Polyline.empty]
  · intro v hv
    simp [Polyline.addVertex, Polyline.empty] at hv
    rw [hv]; exact h2
  · simp [Polyline.addVertex, Polyline.empty]

theorem keep_total {s : Polyline} (h : Bulgy s) : ∃ b, keepClosedSlice s = .ok b := by
  unfold keepClosedSlice
  obtain ⟨l, hl⟩ : ∃ l, s.vertexes.getLast? = some l := ⟨_, List.getLast?_eq_getLast_of_ne_nil h.ne⟩
  obtain ⟨L, hL⟩ := h.length
  by_cases c : s.size > 1
  · rw [if_pos c, at_eq (show 0 < s.size by omega), ok_bind, lastVertex_some hl, ok_bind]
    by_cases d : fuzzyEqualV (vtx s 0).pos l.pos
    · rw [if_pos d, hL, ok_bind]
      exact ⟨_, rfl⟩
    · rw [if_neg d]
      exact ⟨_, rfl⟩
  · rw [if_neg c]
    exact ⟨_, rfl⟩

theorem foldlM_total {α β : Type} {f : β → α → M β} : ∀ (l : List α) (b : β),
    (∀ a ∈ l, ∀ b, ∃ b', f b a = .ok b') → ∃ b', l.foldlM f b = .ok b'
  | [], b, _ => ⟨b, rfl⟩
  | a :: l, b, h => by
    obtain ⟨b', hb⟩ := h a (by simp) b
    rw [List.foldlM_cons, hb, ok_bind]
    exact foldlM_total l b' fun a' ha' => h a' (by simp [ha'])

/-! ### Circles around the ends -/

theorem within_total {c a b x : V2} {bulge : ℝ} (h0 : 1 / 10 ^ 5 ≤ |bulge|) (h1 : |bulge| ≤ 1) :
    ∃ r, pointWithinArcSweepAngle c a b bulge x = .ok r := by
  unfold pointWithinArcSweepAngle
  rw [assertP_pos (by unfold realThreshold; exact lt_of_lt_of_le (by norm_num) h0), ok_bind, assertP_pos h1, ok_bind]
  split_ifs <;> exact ⟨_, rfl⟩

theorem arcCircle_total {i : ℕ} {arc : Arc} {v1 v2 : Vertex} (hl : ¬ IsLine v1) (hb : |v1.bulge| ≤ 1) (x : V2)
    (out : List (ℕ × V2)) : ∃ out', addArcCircleIntr i arc v1 v2 x out = .ok out' := by
  have h0 : 1 / 10 ^ 5 ≤ |v1.bulge| := not_lt.1 hl
  unfold addArcCircleIntr validArcSegIntersect
  by_cases c : fuzzyEqualV v1.pos x realPrecision
  · rw [if_pos c, ok_bind]
    exact ⟨_, rfl⟩
  · rw [if_neg c]
    obtain ⟨r, hr⟩ := within_total (c := arc.center) (a := v1.pos) (b := v2.pos) (x := x) h0 hb
    rw [hr, ok_bind]
    exact ⟨_, rfl⟩

theorem circleStep_total {raw : Polyline} (hok : PlineOk raw) (hop : raw.isClosed = false) (R : ℝ) (c : V2)
    (out : List (ℕ × V2)) {i : ℕ} {v1 v2 : Vertex} (hs : IsSeg raw i v1 v2) :
    ∃ out', circleIntrStep raw R c out i = .ok out' := by
  obtain ⟨a1, -, a3, a4⟩ := isSeg_mod hs
  have a5 := open_seg_lt hop hs
  rw [Nat.mod_eq_of_lt a5] at a4
  have hv := hok _ _ _ hs
  unfold circleIntrStep
  rw [at_eq a1, ok_bind, at_eq a5, ok_bind, ← a3, ← a4]
  by_cases hl : IsLine v1
  · rw [if_pos (show v1.bulgeIsZero from hl)]
    obtain ⟨r, hr, -⟩ := C19_line_circle v1.pos v2.pos R c
    rw [hr, ok_bind]
    cases r <;> exact ⟨_, rfl⟩
  · rw [if_neg (show ¬ v1.bulgeIsZero from hl)]
    have harc : ∃ a, arcRadiusAndCenter v1 v2 = .ok a := by
      unfold arcRadiusAndCenter
      rw [assertP_pos (show ¬ v1.bulgeIsZero from hl), ok_bind, assertP_pos, ok_bind]
      · exact ⟨_, rfl⟩
      · rintro ⟨h1, h2⟩
        unfold fuzzyEqual realThreshold at h1 h2
        rcases hv.distinct hl with h | h <;> linarith
    obtain ⟨a, ha⟩ := harc
    rw [ha, ok_bind]
    cases intrCircle2Circle2 a.radius a.center R c with
    | noIntersect => exact ⟨_, rfl⟩
    | coincident => exact ⟨_, rfl⟩
    | one x => exact arcCircle_total hl hv.half x out
    | two x y =>
      obtain ⟨o1, h1⟩ := arcCircle_total (arc := a) (i := i) (v2 := v2) hl hv.half x out
      simp only
      rw [h1, ok_bind]
      exact arcCircle_total hl hv.half y o1

theorem circle_total {raw : Polyline} {s : SIndex ℝ} (hx : IndexOf (segBoxes raw) s) (hok : PlineOk raw)
    (hop : raw.isClosed = false) (offset : ℝ) (c : V2) (out : List (ℕ × V2)) :
    ∃ out', offsetCircleIntersectsWithPline raw offset c s out = .ok out' := by
  unfold offsetCircleIntersectsWithPline
  obtain ⟨is, h1, h2, h3, -⟩ := hx.queryM (squareAround |offset| c)
  simp only
  rw [show (⟨c.x - |offset|, c.y - |offset|, c.x + |offset|, c.y + |offset|⟩ : Box ℝ) =
    squareAround |offset| c from rfl, h3, ok_bind]
  refine foldlM_total is out fun i hi out => ?_
  obtain ⟨b, hb, -⟩ := (h2 i).1 hi
  obtain ⟨v1, v2, hs, -⟩ := segBoxes_get.1 hb
  exact circleStep_total hok hop _ _ _ hs

theorem dualCircles_total {p raw : Polyline} {s : SIndex ℝ} (hx : IndexOf (segBoxes raw) s) (hok : PlineOk raw)
    (hc : raw.isClosed = p.isClosed) (h2 : 2 ≤ p.size) (offset : ℝ) :
    ∃ out, dualCircles p raw offset s = .ok out := by
  unfold dualCircles
  by_cases c : p.isClosed = true
  · rw [if_pos c]
    exact ⟨_, rfl⟩
  · rw [if_neg c]
    have hop : raw.isClosed = false := by rw [hc]; simpa using c
    have hne : p.vertexes ≠ [] := by
      intro h
      have : p.size = p.vertexes.length := rfl
      rw [h] at this
      simp at this
      omega
    rw [at_eq (show 0 < p.size by omega), ok_bind, lastVertex_some (List.getLast?_eq_getLast_of_ne_nil hne), ok_bind]
    obtain ⟨o1, h1⟩ := circle_total hx hok hop offset (vtx p 0).pos []
    rw [h1, ok_bind]
    exact circle_total hx hok hop offset _ _

/-! ### The first slice of an open polyline -/

theorem first_total {e : SliceEnv} (ht : Testable e) (hok : PlineOk e.raw) (hb : BulgesOk e.raw)
    (ha : LongArcs e.raw) (hop : e.raw.isClosed = false) {lookup : Lookup} (hne : ∀ i, lookup.find? i ≠ some [])
    {k : ℕ} (hk : k + 1 < e.raw.size) (hf : lookup.find? k ≠ none) :
    ∀ (fuel i : ℕ) (cur : Polyline), i ≤ k → k < i + fuel →
      (i = 0 ∧ cur = Polyline.empty ∨ i ≠ 0 ∧ Bulgy cur ∧ ∃ u, cur.vertexes.getLast? = some u ∧ SegOk u (vtx e.raw i)) →
      ∃ o, firstSliceLoop e lookup fuel i cur = .ok o := by
  intro fuel
  induction fuel with
  | zero => intro i cur h1 h2; omega
  | succ fuel ih =>
    intro i cur h1 h2 hc
    have hi : i < e.raw.size := by omega
    have hi1 : i + 1 < e.raw.size := by omega
    have hseg : IsSeg e.raw i (vtx e.raw i) (vtx e.raw (i + 1)) := by
      refine isSeg_iff.2 ⟨?_, rfl, by rw [if_neg (by omega)]⟩
      rw [segs_length, if_neg (by omega), hop]
      simp
      omega
    unfold firstSliceLoop
    cases hfi : lookup.find? i with
    | none =>
      simp only
      rw [at_eq hi, ok_bind]
      obtain ⟨b1, g1⟩ := ht.far (vtx e.raw i).pos
      rw [g1, ok_bind]
      by_cases d1 : ¬ b1 = true
      · rw [if_pos d1]; exact ⟨_, rfl⟩
      rw [if_neg d1]
      have hik : i + 1 ≤ k := by
        have : i ≠ k := by rintro rfl; exact hf hfi
        omega
      have hbv := hb _ (vtx_mem hi)
      have hnext : ∃ cur', addOrReplaceIfSamePos cur (vtx e.raw i) = cur' ∧ Bulgy cur' ∧
          ∃ u, cur'.vertexes.getLast? = some u ∧ SegOk u (vtx e.raw (i + 1)) := by
        refine ⟨_, rfl, ?_⟩
        rcases hc with ⟨-, rfl⟩ | ⟨-, hcb, -⟩
        · have : addOrReplaceIfSamePos Polyline.empty (vtx e.raw i) = ⟨false, [vtx e.raw i]⟩ := rfl
          rw [this]
          refine ⟨⟨by simp, rfl, by simpa using hbv⟩, _, rfl, hok _ _ _ hseg⟩
        · obtain ⟨q1, u, q2, q3, q4⟩ := hcb.add hbv
          exact ⟨q1, u, q2, longArcs_next hok ha hseg q3 q4⟩
      obtain ⟨cur', e1, n1, n2⟩ := hnext
      rw [e1]
      have hrec := ih (i + 1) cur' hik (by omega) (Or.inr ⟨by omega, n1, n2⟩)
      rcases hc with ⟨h0, -⟩ | ⟨h0, -, u, hu, huk⟩
      · rw [if_neg (not_not.2 h0), ok_bind]
        exact hrec
      · rw [if_pos h0, lastVertex_some hu, ok_bind]
        obtain ⟨b2, g2⟩ := ht.meets _ _ huk
        rw [g2, ok_bind]
        cases b2
        · exact hrec
        · exact ⟨_, rfl⟩
    | some l =>
      cases l with
      | nil => exact absurd hfi (hne i)
      | cons x rest =>
        simp only
        obtain ⟨b1, g1⟩ := ht.far x
        rw [g1, ok_bind]
        by_cases d1 : ¬ b1 = true
        · rw [if_pos d1]; exact ⟨_, rfl⟩
        rw [if_neg d1, at_eq hi, ok_bind, at_eq hi1, ok_bind]
        obtain ⟨r, h1, h2, h3, h4, -⟩ := cut_total (e := vtx e.raw (i + 1)) (hb _ (vtx_mem hi)) x
        rw [h1, ok_bind]
        have hso : SegOk r.updatedStart ⟨x, 0⟩ := segOk_far h2 h4
        obtain ⟨m, hm, -⟩ := C16_segMidpoint hso
        rw [hm, ok_bind]
        obtain ⟨b2, g2⟩ := ht.far m
        rw [g2, ok_bind]
        by_cases d2 : ¬ b2 = true
        · rw [if_pos d2]; exact ⟨_, rfl⟩
        rw [if_neg d2]
        obtain ⟨b3, g3⟩ := ht.meets _ _ hso
        rw [g3, ok_bind]
        cases b3 <;> exact ⟨_, rfl⟩

/-! ### All slices -/

theorem lookupOk_ne {l : Lookup} (hk : Keyed (slOf l)) (i : ℕ) : l.find? i ≠ some [] := by
  intro h
  unfold Lookup.find? at h
  obtain ⟨kv, h1, h2⟩ := Option.map_eq_some_iff.1 h
  have hm := List.mem_of_find?_eq_some h1
  refine hk.2 (kv.1, kv.2.map fun x => ⟨x, false⟩) (List.mem_map.2 ⟨kv, hm, rfl⟩) ?_
  simp only
  rw [h2]
  rfl

theorem sort_total {std : StdSort} {p : Polyline} {l : Lookup} (h : ∀ kv ∈ l, kv.1 < p.size) :
    ∃ l', sortLookup std p l = .ok l' := by
  unfold sortLookup
  induction l with
  | nil => exact ⟨_, rfl⟩
  | cons kv l ih =>
    obtain ⟨l', hl'⟩ := ih fun kv' h' => h kv' (by simp [h'])
    rw [List.mapM_cons, at_eq (h kv (by simp)), ok_bind, pure_eq_ok, ok_bind, hl', ok_bind]
    exact ⟨_, rfl⟩

theorem self_total {pf : Platform} {p : Polyline} (hi : Indexable pf p) (hok : PlineOk p) {s : SIndex ℝ}
    (hs : createApproxSpatialIndex pf p = .ok s) : ∃ l, allSelfIntersects p [] s = .ok l := by
  obtain ⟨s', hs', pairs, -, -, -, h4⟩ := C34_globalSelfIntersects hi hok
  rw [hs] at hs'
  cases hs'
  have hloc : ∃ o, localSelfIntersects p [] = .ok o := by
    by_cases h3 : 3 ≤ p.vertexes.length
    · exact ⟨_, C35_localSelfIntersects h3 hok []⟩
    · by_cases hc : p.vertexes.length < 2 ∨ (p.vertexes.length = 2 ∧ p.isClosed = false)
      · exact ⟨_, (C35_small p []).1 hc⟩
      · push Not at hc
        obtain ⟨c, vs⟩ := p
        have h2 : vs.length = 2 := by simp only at hc h3; omega
        have hcc : c = true := by
          have := hc.2 h2
          simpa using this
        obtain ⟨v, w, rfl⟩ := List.length_eq_two.1 h2
        subst hcc
        obtain ⟨g1, g2⟩ := (C35_small ⟨true, [v, w]⟩ []).2 v w rfl
        by_cases hb : |v.bulge + w.bulge| < 1 / 10 ^ 8
        · exact ⟨_, g1 hb⟩
        · exact ⟨_, g2 (not_lt.1 hb)⟩
  obtain ⟨o, ho⟩ := hloc
  unfold allSelfIntersects
  rw [ho, ok_bind]
  exact ⟨_, h4 o⟩

/-- One entry of the lookup. -/
theorem step_total {e : SliceEnv} (ht : Testable e) (hok : PlineOk e.raw) (hb : BulgesOk e.raw) (ha : LongArcs e.raw)
    {lookup : Lookup} (hkey : Keyed (slOf lookup)) {adv : ℕ → Option ℕ} (hl : SliceLoopOk e lookup adv)
    {kv : ℕ × List V2} (hkv : kv ∈ lookup) {v1 v2 : Vertex} (hs : IsSeg e.raw kv.1 v1 v2) (res : List OpenSlice) :
    kv.1 < e.raw.size ∧ nextWrappingIndex kv.1 e.raw.size < e.raw.size ∧
    (∃ r, innerSlices e kv.1 (vtx e.raw kv.1) (vtx e.raw (nextWrappingIndex kv.1 e.raw.size)) kv.2 res = .ok r) ∧
    ∃ o, outerSlice e lookup adv kv.1 (vtx e.raw kv.1) (vtx e.raw (nextWrappingIndex kv.1 e.raw.size)) kv.2 = .ok o ∧
      ∀ s, o = some s → Bulgy s := by
  obtain ⟨a1, -, a3, a4⟩ := isSeg_mod hs
  have hf := find_some hkey hkv
  have hne : kv.2 ≠ [] := by
    intro h
    exact hkey.2 (kv.1, kv.2.map fun x => ⟨x, false⟩) (List.mem_map.2 ⟨kv, hkv, rfl⟩) (by rw [h]; rfl)
  have hn : nextWrappingIndex kv.1 e.raw.size < e.raw.size := by
    unfold nextWrappingIndex; split_ifs <;> omega
  have hs' : IsSeg e.raw kv.1 (vtx e.raw kv.1) (vtx e.raw (nextWrappingIndex kv.1 e.raw.size)) := by
    rw [next_eq_mod a1, ← a3, ← a4]
    exact hs
  exact ⟨a1, hn, inner_total ht _ (hb _ (vtx_mem a1)) _ hne _,
    outer_total ht hok hb ha hl a1 (by rw [hf]; simp) hs' hne⟩

theorem rawStep_total {e : SliceEnv} (ht : Testable e) (hok : PlineOk e.raw) (hb : BulgesOk e.raw) (ha : LongArcs e.raw)
    {lookup : Lookup} (hkey : Keyed (slOf lookup))
    (hl : SliceLoopOk e lookup (fun i => some (nextWrappingIndex i e.raw.size)))
    {kv : ℕ × List V2} (hkv : kv ∈ lookup) {v1 v2 : Vertex} (hs : IsSeg e.raw kv.1 v1 v2) (res : List OpenSlice) :
    ∃ r, rawSliceStep e lookup res kv = .ok r := by
  obtain ⟨a1, a2, ⟨r, hr⟩, o, ho, hob⟩ := step_total ht hok hb ha hkey hl hkv hs res
  unfold rawSliceStep
  rw [at_eq a1, ok_bind, at_eq a2, ok_bind, hr, ok_bind, ho, ok_bind]
  cases o with
  | none => exact ⟨_, rfl⟩
  | some s =>
    obtain ⟨b, hb⟩ := keep_total (hob s rfl)
    simp only
    rw [hb, ok_bind]
    exact ⟨_, rfl⟩

theorem dualStep_total {e : SliceEnv} (ht : Testable e) (hok : PlineOk e.raw) (hb : BulgesOk e.raw) (ha : LongArcs e.raw)
    {lookup : Lookup} (hkey : Keyed (slOf lookup))
    (hl : SliceLoopOk e lookup (dualAdvance e.original.isClosed e.raw.size))
    {kv : ℕ × List V2} (hkv : kv ∈ lookup) {v1 v2 : Vertex} (hs : IsSeg e.raw kv.1 v1 v2) (res : List OpenSlice) :
    ∃ r, dualSliceStep e lookup res kv = .ok r := by
  obtain ⟨a1, a2, ⟨r, hr⟩, o, ho, -⟩ := step_total ht hok hb ha hkey hl hkv hs res
  unfold dualSliceStep
  rw [at_eq a1, ok_bind, at_eq a2, ok_bind, hr, ok_bind, ho, ok_bind]
  cases o <;> exact ⟨_, rfl⟩

theorem loopOk_closed {e : SliceEnv} (hc : e.raw.isClosed = true) (h2 : 2 ≤ e.raw.size) {lookup : Lookup}
    (hkey : Keyed (slOf lookup)) : SliceLoopOk e lookup (fun i => some (nextWrappingIndex i e.raw.size)) := by
  refine ⟨lookupOk_ne hkey, fun i hi => Or.inr ⟨rfl, ?_⟩⟩
  refine isSeg_iff.2 ⟨?_, rfl, ?_⟩
  · rw [segs_length, if_neg (by omega), hc]
    simpa using hi
  · unfold nextWrappingIndex
    congr 1
    split_ifs <;> omega

theorem loopOk_dual {e : SliceEnv} (hc : e.raw.isClosed = e.original.isClosed) (h2 : 2 ≤ e.raw.size) {lookup : Lookup}
    (hkey : Keyed (slOf lookup)) : SliceLoopOk e lookup (dualAdvance e.original.isClosed e.raw.size) := by
  refine ⟨lookupOk_ne hkey, fun i hi => ?_⟩
  rw [← hc]
  unfold dualAdvance nextWrappingIndex
  by_cases h : i = e.raw.size - 1
  · rw [if_pos h, if_pos h]
    cases hcl : e.raw.isClosed with
    | false => left; rfl
    | true =>
      right
      refine ⟨rfl, isSeg_iff.2 ⟨?_, rfl, ?_⟩⟩
      · rw [segs_length, if_neg (by omega), hcl]
        simpa using hi
      · congr 1
        split_ifs <;> omega
  · rw [if_neg h, if_neg h]
    right
    refine ⟨rfl, isSeg_iff.2 ⟨?_, rfl, ?_⟩⟩
    · rw [segs_length, if_neg (by omega)]
      split_ifs <;> omega
    · congr 1
      split_ifs <;> omega

/-! ### Stitching and the whole function -/

theorem stitch_total {std : StdSort} {inf ninf : ℝ} {closed : Bool} {m : ℕ} {slices : List OpenSlice}
    (hm : m < 2 ^ 64)
    (h1 : ∀ s ∈ slices, s.pline.isClosed = false ∧ s.intrStartIndex ≤ m ∧ s.pline.vertexes ≠ [])
    (h2 : ∀ s ∈ slices, 2 ≤ s.pline.vertexes.length) (h3 : slices.length ≤ 2 ^ 24) :
    ∃ r, stitchOffsetSlicesTogether (codePlatform inf ninf) std slices closed m = .ok r := by
  rcases slices with _ | ⟨s, _ | ⟨t, rest⟩⟩
  · exact ⟨_, (C40_small _ std closed m _).1⟩
  · obtain ⟨a1, -, a3⟩ := h1 s (by simp)
    obtain ⟨q, hq, -⟩ := (C40_small (codePlatform inf ninf) std closed m sliceJoinThreshold).2 s a3 a1
    exact ⟨_, hq⟩
  · have hpos : 0 < sliceJoinThreshold := by unfold sliceJoinThreshold; norm_num
    obtain ⟨chains, r', g1, -⟩ := C40_stitchOffsetSlicesTogether (pf := codePlatform inf ninf)
      (std := std) (closed := closed) (m := m) (thr := sliceJoinThreshold)
      (fun s hs => ⟨h2 s hs, (h1 s hs).1⟩) (by simp) hm (fun s hs => (h1 s hs).2.1)
      (C40_domain inf ninf hpos h2 (by simp) h3)
    exact ⟨r', g1⟩

theorem joined_head {vs : List Vertex} {a : Vertex} (h : vs.head? = some a) (v : Vertex) :
    ∃ b, (joined vs v).head? = some b ∧ b.pos = a.pos := by
  obtain ⟨t, rfl⟩ : ∃ t, vs = a :: t := by
    cases vs with
    | nil => cases h
    | cons b t => cases h; exact ⟨t, rfl⟩
  unfold joined
  cases hl : (a :: t).getLast? with
  | none => simp at hl
  | some u =>
    simp only
    split_ifs
    · cases t with
      | nil =>
        simp at hl
        subst hl
        exact ⟨_, rfl, rfl⟩
      | cons b t => exact ⟨a, by simp, rfl⟩
    · exact ⟨a, by simp, rfl⟩

theorem joined_foldl_head : ∀ (ws vs : List Vertex) {a : Vertex}, vs.head? = some a →
    ∃ b, (ws.foldl joined vs).head? = some b ∧ b.pos = a.pos
  | [], vs, a, h => ⟨a, h, rfl⟩
  | w :: ws, vs, a, h => by
    obtain ⟨b, h1, h2⟩ := joined_head h w
    obtain ⟨c, h3, h4⟩ := joined_foldl_head ws _ h1
    exact ⟨c, h3, h4.trans h2⟩

theorem joined_two {vs : List Vertex} {a : Vertex} (h : vs.head? = some a) {v : Vertex}
    (hn : ¬ Near (1 / 10 ^ 5) a.pos v.pos) : 2 ≤ (joined vs v).length := by
  obtain ⟨t, rfl⟩ : ∃ t, vs = a :: t := by
    cases vs with
    | nil => cases h
    | cons b t => cases h; exact ⟨t, rfl⟩
  unfold joined
  cases t with
  | nil =>
    simp only [List.getLast?_singleton]
    rw [if_neg hn]
    simp
  | cons b t =>
    cases hl : (a :: b :: t).getLast? with
    | none => simp at hl
    | some u =>
      simp only
      split_ifs <;> simp

theorem updated_pos {v e : Vertex} {x : V2} {r : SplitResult} (h : splitAtPoint v e x = .ok r) :
    r.updatedStart.pos = v.pos ∨ r.updatedStart.pos = x := by
  unfold splitAtPoint at h
  split_ifs at h with c1 c2 c3
  · cases h; exact Or.inl rfl
  · cases h; exact Or.inr rfl
  · cases h; exact Or.inl rfl
  · obtain ⟨a, -, h⟩ := bind_eq_ok.1 h
    cases h; exact Or.inl rfl

theorem kept_count {p raw : Polyline} {offset : ℝ} {long : Polyline → Prop} {cuts : List Cut}
    {slices : List OpenSlice} (h : KeptPieces p raw offset long cuts slices) :
    slices.length ≤ cuts.length + 1 ∧ (raw.isClosed = true → slices.length ≤ cuts.length) := by
  obtain ⟨cs, first, os, k1, k2, k3, k4, k5, k6⟩ := h
  have h1 : slices.length ≤ first.toList.length + cuts.length := by
    rw [k6.length_eq, List.length_append, List.length_map]
    have := List.length_filterMap_le (fun co : Cut × Option Polyline => co.2.map fun s => (⟨co.1.seg, s⟩ : OpenSlice))
      (cs.zip os)
    rw [List.length_zip] at this
    have := k1.length_eq
    omega
  constructor
  · have : first.toList.length ≤ 1 := by cases first <;> simp
    omega
  · intro hc
    have : first = none := by
      cases hf : first with
      | none => rfl
      | some s =>
        have := ((k5 s).1 hf).1
        rw [hc] at this
        cases this
    rw [this] at h1
    simpa using h1

theorem kept_open {p raw : Polyline} {offset : ℝ} {cuts : List Cut} {slices : List OpenSlice}
    (hop : raw.isClosed = false) (ha : LongArcs raw)
    (hn : ∀ c ∈ cuts, ∀ v, raw.vertexes.head? = some v → ¬ Near (1 / 10 ^ 5) v.pos c.pos)
    (hcs : ∀ c ∈ cuts, ∃ v1 v2, IsSeg raw c.seg v1 v2)
    (h : KeptPieces p raw offset (fun _ => True) cuts slices) :
    ∀ s ∈ slices, 2 ≤ s.pline.vertexes.length := by
  obtain ⟨cs, first, os, k1, k2, k3, k4, k5, k6⟩ := h
  intro s hs
  rcases List.mem_append.1 (k6.mem_iff.1 hs) with hs | hs
  · obtain ⟨q, hq, rfl⟩ := List.mem_map.1 hs
    obtain ⟨-, c, hc, v, e, r, m, -, hseg, -, hsp, -, -, -, rfl⟩ := (k5 q).1 (by simpa using hq)
    have hcm := k1.mem_iff.1 (List.mem_of_mem_head? hc)
    obtain ⟨a1, -, a3, a4⟩ := isSeg_mod hseg
    have hsz : raw.size = raw.vertexes.length := rfl
    obtain ⟨v0, rest, hv0⟩ : ∃ v0 rest, raw.vertexes = v0 :: rest := by
      cases hr : raw.vertexes with
      | nil => rw [hr] at hsz; simp at hsz; omega
      | cons v0 rest => exact ⟨v0, rest, rfl⟩
    have hn0 := hn c hcm v0 (by rw [hv0]; rfl)
    simp only
    have hhead : ∃ b, (joined ((raw.vertexes.take c.seg).foldl joined []) r.updatedStart).head? = some b ∧
        b.pos = v0.pos := by
      cases hcs : c.seg with
      | zero =>
        refine ⟨r.updatedStart, rfl, ?_⟩
        have hv : v = v0 := by rw [a3, hcs]; simp [vtx, hv0]
        rw [← hv]
        have hn' := hn0
        rw [← hv] at hn'
        unfold splitAtPoint at hsp
        split_ifs at hsp with c1 c2 c3
        · cases hsp; rfl
        · rcases c2 with c2 | c2
          · exact absurd (⟨c2.1.trans (by unfold realPrecision; norm_num),
              c2.2.trans (by unfold realPrecision; norm_num)⟩ : Near (1 / 10 ^ 5 + 1 / 10 ^ 8) v.pos e.pos)
              (ha _ _ _ hseg c1)
          · exact absurd c2 hn'
        · cases hsp; rfl
        · obtain ⟨a, -, h⟩ := bind_eq_ok.1 hsp
          cases h; rfl
      | succ n =>
        rw [hv0, List.take_succ_cons, List.foldl_cons]
        obtain ⟨b, h1, h2⟩ := joined_foldl_head (rest.take n) (joined [] v0) (a := v0) rfl
        obtain ⟨b', h3, h4⟩ := joined_head h1 r.updatedStart
        exact ⟨b', h3, h4.trans h2⟩
    obtain ⟨b, h1, h2⟩ := hhead
    exact joined_two h1 (by rw [h2]; exact hn0)
  · obtain ⟨⟨c, o⟩, hco, hs⟩ := List.mem_filterMap.1 hs
    obtain ⟨q, hq, rfl⟩ := Option.map_eq_some_iff.1 hs
    obtain ⟨i, hi, hie⟩ := List.getElem_of_mem hco
    rw [List.getElem_zip] at hie
    cases hie
    have hi' : i < os.length := by rw [List.length_zip] at hi; omega
    obtain ⟨c, c', -, -, ⟨-, -, ⟨v, e, u, r, -, -, -, hs⟩, -⟩ | ⟨-, -, h2, -⟩ | ⟨-, -, -, h2, -⟩⟩ :=
      (k4 i _ (List.getElem?_eq_getElem hi') q).1 hq
    · subst hs; exact le_refl _
    · exact h2
    · exact h2

theorem size_bounds {inf ninf : ℝ} {raw : Polyline} (hI : Indexable (codePlatform inf ninf) raw) :
    2 ≤ raw.size ∧ (raw.size + sizeMax) % 2 ^ 64 = raw.size - 1 ∧ raw.size - 1 < 2 ^ 64 := by
  have h2 : 2 ≤ raw.size := hI.size
  have hb : raw.size ≤ 2 ^ 24 + 1 := by
    have := hI.dom.count.2
    unfold segBoxes at this
    rw [List.length_map, segs_length, if_neg (show ¬ raw.size < 2 by omega)] at this
    split_ifs at this <;> omega
  unfold sizeMax
  refine ⟨h2, ?_, ?_⟩ <;> omega

theorem plineOk_long {raw : Polyline} (hb : BulgesOk raw) (ha : LongArcs raw) : PlineOk raw := by
  intro i v1 v2 hs
  refine ⟨?_, fun hl => ?_⟩
  · obtain ⟨a1, -, a3, -⟩ := isSeg_mod hs
    rw [a3]
    exact hb _ (vtx_mem a1)
  · by_contra hc
    rw [not_or, not_le, not_le] at hc
    exact ha i _ _ hs hl ⟨hc.1.trans (by norm_num), hc.2.trans (by norm_num)⟩

theorem whole_total {inf ninf : ℝ} {std : StdSort} {raw : Polyline} (h2 : 2 ≤ raw.size) (v : Vertex) (closed : Bool)
    (m : ℕ) : ∃ r, stitchOffsetSlicesTogether (codePlatform inf ninf) std [wholeSlice raw v closed] closed m = .ok r := by
  have hne : raw.vertexes ≠ [] := by
    intro h; unfold Polyline.size at h2; rw [h] at h2; simp at h2
  obtain ⟨q, hq, -⟩ := (C40_small (codePlatform inf ninf) std closed m sliceJoinThreshold).2 (wholeSlice raw v closed)
    (by unfold wholeSlice; simp only; split_ifs <;> simp [hne]) rfl
  exact ⟨_, hq⟩

theorem line_not_collapses {p : Polyline} {offset : ℝ} (hl : ∀ v ∈ p.vertexes, IsLine v) (hn : NoRepeats p) (i : ℕ)
    (v1 v2 : Vertex) (hs : IsSeg p i v1 v2) : ¬ NearlyCollapses offset v1 v2 := by
  rintro ⟨s, h, -, g1, g2⟩
  obtain ⟨a1, -, a3, -⟩ := isSeg_mod hs
  have hn' := hn _ _ _ hs
  obtain ⟨-, -, e1, e2⟩ := offsets_line (by rw [a3]; exact hl _ (vtx_mem a1)) hn' h
  rw [e1, e2] at g1 g2
  simp only at g1 g2
  refine hn' ⟨?_, ?_⟩
  · ring_nf at g1 ⊢
    exact g1.trans (by norm_num)
  · ring_nf at g2 ⊢
    exact g2.trans (by norm_num)

/-- C65. The parallel offset of a closed polyline that is not marked as self intersecting does not fault, as long as
the raw offset can be indexed, has no arcs with ends that are nearly the same, and does not have millions of self
intersects. -/
theorem C65_parallelOffset {std : StdSort} {hash : HashOrder} (inf ninf : ℝ) {p : Polyline} {offset : ℝ}
    (hi : Indexable (codePlatform inf ninf) p) (hok : PlineOk p) (hb : BulgesOk p) (hn : NoRepeats p)
    (hc : p.isClosed = true) (hnc : ∀ i v1 v2, IsSeg p i v1 v2 → ¬ NearlyCollapses offset v1 v2)
    (hraw : ∀ raw, createRawOffsetPline p offset = .ok raw → raw.vertexes.length < 2 ∨
      Indexable (codePlatform inf ninf) raw ∧ LongArcs raw ∧
        ∀ l, SelfIntersectsOf raw l → (selfCuts l).length ≤ 2 ^ 24) :
    ∃ r, parallelOffset (codePlatform inf ninf) std hash p offset = .ok r := by
  have hp2 : ¬ p.size < 2 := by have : 2 ≤ p.size := hi.size; omega
  obtain ⟨raw, hrun, hrb, hrs, -, hrc⟩ : ∃ r, createRawOffsetPline p offset = .ok r ∧ BulgesOk r ∧ Spread r ∧
      r.vertexes.length ≠ 1 ∧ (r.vertexes ≠ [] → r.isClosed = p.isClosed) := by
    rcases C38_createRawOffsetPline p offset hb hn with h | ⟨-, i, v1, v2, h1, h2⟩
    · exact h
    · exact absurd h2 (hnc i v1 v2 h1)
  unfold parallelOffset
  rw [if_neg hp2, hrun, ok_bind]
  simp only
  rw [if_pos ⟨hc, by simp⟩]
  unfold slicesFromRawOffset
  rw [assertP_pos hc, ok_bind]
  rcases hraw raw hrun with hr2 | ⟨hri, ha, hcount⟩
  · rw [if_pos (show raw.size < 2 from hr2), pure_eq_ok, ok_bind]
    exact ⟨_, (C40_small _ std _ _ _).1⟩
  obtain ⟨h2, hm, hm2⟩ := size_bounds hri
  have hsz : raw.size = raw.vertexes.length := rfl
  have hrc : raw.isClosed = true := by
    rw [← hc]
    refine hrc ?_
    intro h0
    rw [h0] at hsz
    simp at hsz
    omega
  have hro := plineOk_long hrb ha
  obtain ⟨s, hs1, hx⟩ := hi.indexOf
  obtain ⟨rs, hs2, hrx⟩ := hri.indexOf
  obtain ⟨selfs, hs3⟩ := self_total hri hro hs2
  have hself := self_is hri hro hs2 hs3
  rw [if_neg (by omega), hs1, ok_bind, hs2, ok_bind, hs3, ok_bind]
  have htt := testable_of (raw := raw) (offset := offset) hx hok
  have ht : Tests p offset ⟨p, s, offset, raw⟩ := tests_of hx hok
  simp only
  by_cases h0 : selfs.length = 0
  · rw [if_pos h0, at_eq (show 0 < raw.size by omega), ok_bind]
    obtain ⟨b, hb⟩ := htt.far (vtx raw 0).pos
    rw [hb, ok_bind]
    cases b with
    | false =>
      rw [if_pos (by simp), pure_eq_ok, ok_bind]
      exact ⟨_, (C40_small _ std _ _ _).1⟩
    | true =>
      rw [if_neg (by simp), pure_eq_ok, ok_bind, hc]
      exact whole_total h2 _ _ _
  · rw [if_neg h0]
    obtain ⟨k0, c0⟩ := self_cuts selfs [] ⟨by simp [slOf], by simp [slOf]⟩
    have hseg0 := keyed_seg k0 (c0.trans (by simp [slOf, cutsIn])) (selfCuts_seg hself)
    obtain ⟨lookup, hl⟩ := sort_total (std := std) (p := raw) (fun kv hkv => by
      obtain ⟨v1, v2, hv⟩ := hseg0 kv hkv
      exact (isSeg_mod hv).1)
    rw [hl, ok_bind]
    obtain ⟨k1, c1, c2⟩ := sortLookup_cuts k0 hl
    have hperm : (cutsIn (slOf lookup)).Perm (selfCuts selfs) := c1.trans c0
    have hseg := keyed_seg k1 hperm (selfCuts_seg hself)
    obtain ⟨slices, hsl⟩ := foldlM_total (f := rawSliceStep ⟨p, s, offset, raw⟩ lookup) (hash.iter lookup) []
      (fun kv hkv res => by
        have hkv' := (hash.perm lookup).mem_iff.1 hkv
        obtain ⟨v1, v2, hv⟩ := hseg kv hkv'
        exact rawStep_total htt hro hrb ha k1 (loopOk_closed hrc h2 k1) hkv' hv res)
    rw [hsl, ok_bind]
    have hkp := rawSlices_is ht hrc hself hl hsl
    obtain ⟨g1, g2⟩ := kept_shape (selfCuts_seg hself) hkp (by omega)
    rw [hm]
    exact stitch_total hm2 (by rw [hsz]; exact g1) (g2 hrc) (((kept_count hkp).2 hrc).trans (hcount _ hself))

/-- C65 for an open polyline and for one marked as self intersecting. For an open polyline no cut of the raw offset may
be within 1e-5 of its first vertex: the piece before it would have one vertex only, and stitching assumes two. -/
theorem C65_parallelOffset_dual {std : StdSort} {hash : HashOrder} (inf ninf : ℝ) {p : Polyline} {offset : ℝ}
    {flag : Bool} (hi : Indexable (codePlatform inf ninf) p) (hok : PlineOk p) (hb : BulgesOk p) (hn : NoRepeats p)
    (hc : p.isClosed = false ∨ flag = true)
    (hnc : ∀ i v1 v2, IsSeg p i v1 v2 → ¬ NearlyCollapses offset v1 v2 ∧ ¬ NearlyCollapses (-offset) v1 v2)
    (hraw : ∀ raw dual, createRawOffsetPline p offset = .ok raw → createRawOffsetPline p (-offset) = .ok dual →
      raw.vertexes.length < 2 ∨
      Indexable (codePlatform inf ninf) raw ∧ LongArcs raw ∧ PlineOk dual ∧
        ∀ selfs s d ends, SelfIntersectsOf raw selfs → createApproxSpatialIndex (codePlatform inf ninf) raw = .ok s →
          findIntersects raw dual s ⟨[], []⟩ = .ok d → EndCuts p raw offset ends →
          (ends ++ selfCuts selfs ++ dualCuts d).length < 2 ^ 24 ∧
          (p.isClosed = false → ∀ c ∈ ends ++ selfCuts selfs ++ dualCuts d, ∀ v, raw.vertexes.head? = some v →
            ¬ Near (1 / 10 ^ 5) v.pos c.pos)) :
    ∃ r, parallelOffset (codePlatform inf ninf) std hash p offset flag = .ok r := by
  have hp2 : ¬ p.size < 2 := by have : 2 ≤ p.size := hi.size; omega
  have key : ∀ o, (∀ i v1 v2, IsSeg p i v1 v2 → ¬ NearlyCollapses o v1 v2) →
      ∃ r, createRawOffsetPline p o = .ok r ∧ BulgesOk r ∧ Spread r ∧
      r.vertexes.length ≠ 1 ∧ (r.vertexes ≠ [] → r.isClosed = p.isClosed) := by
    intro o ho
    rcases C38_createRawOffsetPline p o hb hn with h | ⟨-, i, v1, v2, h1, h2⟩
    · exact h
    · exact absurd h2 (ho i v1 v2 h1)
  obtain ⟨raw, hrun, hrb, hrs, -, hrc⟩ := key offset fun i v1 v2 h => (hnc i v1 v2 h).1
  obtain ⟨dual, hdun, -⟩ := key (-offset) fun i v1 v2 h => (hnc i v1 v2 h).2
  unfold parallelOffset
  rw [if_neg hp2, hrun, ok_bind]
  simp only
  rw [if_neg (by rintro ⟨h1, h2⟩; rcases hc with h | h
                 · rw [h] at h1; cases h1
                 · exact h2 h), hdun, ok_bind]
  unfold dualSliceAtIntersectsForOffset
  rcases hraw raw dual hrun hdun with hr2 | ⟨hri, ha, hdo, hcount⟩
  · rw [if_pos (show raw.size < 2 from hr2), ok_bind]
    exact ⟨_, (C40_small _ std _ _ _).1⟩
  obtain ⟨h2, hm, hm2⟩ := size_bounds hri
  have hsz : raw.size = raw.vertexes.length := rfl
  have hrc : raw.isClosed = p.isClosed := by
    refine hrc ?_
    intro h0
    rw [h0] at hsz
    simp at hsz
    omega
  have hro := plineOk_long hrb ha
  obtain ⟨os, hs1, hx⟩ := hi.indexOf
  obtain ⟨rs, hs2, hrx⟩ := hri.indexOf
  obtain ⟨selfs, hs3⟩ := self_total hri hro hs2
  have hself := self_is hri hro hs2 hs3
  obtain ⟨rs', d, hs2', hs4, -⟩ := C33_findIntersects hri hro hdo
  rw [hs2] at hs2'
  cases hs2'
  obtain ⟨circles, hs5⟩ := dualCircles_total (p := p) hrx hro hrc hi.size offset
  have hends := end_cuts hrx hrc hs5
  obtain ⟨hcount, hfirst⟩ := hcount selfs rs d _ hself hs2 hs4 hends
  rw [if_neg (by omega), hs1, ok_bind, hs2, ok_bind, hs3, ok_bind, hs4, ok_bind, hs5, ok_bind]
  have htt := testable_of (raw := raw) (offset := offset) hx hok
  have ht : Tests p offset ⟨p, os, offset, raw⟩ := tests_of hx hok
  obtain ⟨k1, k2⟩ := dualLookup_cuts circles selfs d
  have hcs : ∀ c ∈ circles.map circCut ++ selfCuts selfs ++ dualCuts d, ∃ v1 v2, IsSeg raw c.seg v1 v2 := by
    intro c hcm
    rcases List.mem_append.1 hcm with hcm | hcm
    · rcases List.mem_append.1 hcm with hcm | hcm
      · exact endCuts_seg hends c hcm
      · exact selfCuts_seg hself c hcm
    · exact dualCuts_seg hri hro hdo hs2 hs4 c hcm
  have k2' : (cutsIn (slOf (dualLookup circles selfs d))).Perm
      (circles.map circCut ++ selfCuts selfs ++ dualCuts d) := k2
  simp only
  by_cases h0 : (dualLookup circles selfs d).length = 0
  · rw [if_pos h0, at_eq (show 0 < raw.size by omega), ok_bind]
    obtain ⟨b, hb⟩ := htt.far (vtx raw 0).pos
    rw [hb, ok_bind]
    cases b with
    | false =>
      rw [if_pos (by simp), pure_eq_ok, ok_bind]
      exact ⟨_, (C40_small _ std _ _ _).1⟩
    | true =>
      rw [if_neg (by simp), pure_eq_ok, ok_bind]
      exact whole_total h2 _ _ _
  · rw [if_neg h0]
    have hseg0 := keyed_seg k1 k2' hcs
    obtain ⟨lookup, hl⟩ := sort_total (std := std) (p := raw) (fun kv hkv => by
      obtain ⟨v1, v2, hv⟩ := hseg0 kv hkv
      exact (isSeg_mod hv).1)
    rw [hl, ok_bind]
    obtain ⟨k3, c1, c2⟩ := sortLookup_cuts k1 hl
    have hperm := c1.trans k2'
    have hseg := keyed_seg k3 hperm hcs
    have hne : dualLookup circles selfs d ≠ [] := fun h => h0 (by rw [h]; rfl)
    have hne' : lookup ≠ [] := by
      have hlen := (mapM_forall hl).length_eq
      intro h
      rw [h, List.length_nil] at hlen
      exact h0 hlen
    have hdf : ∃ first, dualFirst ⟨p, os, offset, raw⟩ lookup = .ok first := by
      unfold dualFirst
      by_cases hcl : p.isClosed = true
      · rw [if_pos hcl]
        exact ⟨_, rfl⟩
      · rw [if_neg hcl]
        have hop : raw.isClosed = false := by rw [hrc]; simpa using hcl
        obtain ⟨kv, l1, rfl⟩ := List.exists_cons_of_ne_nil hne'
        obtain ⟨v1, v2, hv⟩ := hseg kv (by simp)
        have a5 := open_seg_lt hop hv
        refine first_total htt hro hrb ha hop (lookupOk_ne k3) (k := kv.1) a5 ?_ _ 0 _ (Nat.zero_le _) ?_
          (Or.inl ⟨rfl, rfl⟩)
        · rw [find_some k3 (by simp)]; simp
        · show kv.1 < 0 + (raw.size + 1)
          omega
    obtain ⟨first, hdf⟩ := hdf
    rw [hdf, ok_bind]
    obtain ⟨slices, hsl⟩ := foldlM_total (f := dualSliceStep ⟨p, os, offset, raw⟩ lookup) lookup first
      (fun kv hkv res => by
        obtain ⟨v1, v2, hv⟩ := hseg kv hkv
        exact dualStep_total htt hro hrb ha k3 (loopOk_dual hrc h2 k3) hkv hv res)
    rw [hsl, ok_bind]
    have hkp := dualSlices_is (e := ⟨p, os, offset, raw⟩) ht hrc h2 hne k1 k2' hcs hl hdf hsl
    obtain ⟨g1, g2⟩ := kept_shape hcs hkp (by omega)
    rw [hm]
    refine stitch_total hm2 (by rw [hsz]; exact g1) ?_ ((kept_count hkp).1.trans (by
      simp only [List.length_append] at hcount ⊢
      exact hcount))
    cases hpc : p.isClosed with
    | true => exact g2 (by rw [hrc, hpc])
    | false => exact kept_open (by rw [hrc, hpc]) ha (hfirst hpc) hcs hkp

end
end Cavc

import Verif.Props.IslandsPieces
import Verif.Props.CombineRect

/-! Offset loops that do not meet, and the offset of two rectangles (property C53). -/
namespace Cavc
open Spec
open scoped Classical
noncomputable section

/-- No intersects are found between two loops for which the tests report nothing. -/
theorem findIntersects_none {pf : Platform} {A B : Polyline} {s : SIndex ℝ} (hi : Indexable pf A)
    (hs : createApproxSpatialIndex pf A = .ok s) (hA : PlineOk A) (hB : PlineOk B)
    (hno : NothingReported A B) : findIntersects A B s ⟨[], []⟩ = .ok ⟨[], []⟩ := by
  obtain ⟨s', out, hs', ho, hcoin, hint, -⟩ := C33_findIntersects hi hA hB
  rw [hs] at hs'
  cases hs'
  have e1 : out.coincidentIntersects = [] := by
    rw [List.eq_nil_iff_forall_not_mem]
    rintro ⟨i, j, x, y⟩ hm
    obtain ⟨v1, v2, u1, u2, g1, g2, g3, g4⟩ := (hcoin _ _ _ _).1 hm
    exact (hno i j v1 v2 u1 u2 g1 g2 g3 x).2 y g4
  have e2 : out.intersects = [] := by
    rw [List.eq_nil_iff_forall_not_mem]
    rintro ⟨i, j, x⟩ hm
    obtain ⟨v1, v2, u1, u2, g1, g2, g3, g4, -⟩ := (hint _ _ _).1 hm
    exact (hno i j v1 v2 u1 u2 g1 g2 g3 x).1 g4
  rw [ho]
  obtain ⟨a, b⟩ := out
  simp only at e1 e2
  rw [e1, e2]

/-- The state of the search for slice points when nothing was found. -/
def NoPoints (n : ℕ) (st : SlicePointState) : Prop := st.sets = [] ∧ st.lookup = List.replicate n []

section
variable {std : StdSort} {loops : OffsetLoopSet} {n : ℕ}

theorem noPoints_pair {i j : ℕ} {l : OffsetLoop} {st : SlicePointState} (hst : NoPoints n st)
    (hj : j < loops.count) (hnone : ∀ l', j ≠ i → (loopsOf loops)[j]? = some l' →
      findIntersects l.polyline l'.polyline l.spatialIndex ⟨[], []⟩ = .ok ⟨[], []⟩) :
    ∃ st', slicePointsPair std loops i l st j = .ok st' ∧ NoPoints n st' := by
  unfold slicePointsPair
  by_cases c : i = j
  · exact ⟨st, by rw [if_pos c], hst⟩
  rw [if_neg c]
  by_cases c' : (j, i) ∈ st.visited
  · exact ⟨st, by rw [if_pos c'], hst⟩
  rw [if_neg c', get_eq]
  rw [loops_count] at hj
  have hg : getM (loopsOf loops) j = .ok (loopsOf loops)[j] := by
    unfold getM
    rw [List.getElem?_eq_getElem hj]
  rw [hg, ok_bind, hnone _ (fun h => c h.symm) (List.getElem?_eq_getElem hj), ok_bind]
  rw [if_neg (by simp)]
  exact ⟨_, rfl, hst⟩

theorem noPoints_fold {i : ℕ} {l : OffsetLoop} : ∀ (r : List ℕ) (st : SlicePointState), NoPoints n st →
    (∀ j ∈ r, j < loops.count) → (∀ j l', j ≠ i → (loopsOf loops)[j]? = some l' →
      findIntersects l.polyline l'.polyline l.spatialIndex ⟨[], []⟩ = .ok ⟨[], []⟩) →
    ∃ st', r.foldlM (slicePointsPair std loops i l) st = .ok st' ∧ NoPoints n st'
  | [], st, hst, _, _ => ⟨st, rfl, hst⟩
  | j :: r, st, hst, hr, hnone => by
    obtain ⟨st', h1, h2⟩ := noPoints_pair (std := std) hst (hr j (by simp)) (hnone j)
    rw [List.foldlM_cons, h1, ok_bind]
    exact noPoints_fold r st' h2 (fun j hj => hr j (by simp [hj])) hnone

/-- Loops of which no two have an intersect have no slice points. -/
theorem noPoints {pf : Platform} {idx : SIndex ℝ} (hc : 1 ≤ loops.count ∧ loops.count ≤ 2 ^ 24)
    (hidx : createOffsetLoopsIndex pf loops = .ok idx)
    (hnone : ∀ (i j : ℕ) (l l' : OffsetLoop), i ≠ j → (loopsOf loops)[i]? = some l → (loopsOf loops)[j]? = some l' →
      findIntersects l.polyline l'.polyline l.spatialIndex ⟨[], []⟩ = .ok ⟨[], []⟩) :
    ∃ sp, createSlicePoints std loops idx = .ok sp ∧ NoPoints loops.count sp := by
  have hlen : ((loops.ccwLoops ++ loops.cwLoops).map fun l => l.spatialIndex.ext).length =
      loops.count := by simp [OffsetLoopSet.count]
  have hdom := build_domain (by norm_num) (by rw [hlen]; exact hc) hidx
  obtain ⟨idx', hidx', hi⟩ := hdom.indexOf
  unfold createOffsetLoopsIndex at hidx
  rw [hidx] at hidx'
  cases hidx'
  have key : ∀ (is : List ℕ) (st : SlicePointState), (∀ i ∈ is, i < loops.count) →
      NoPoints loops.count st →
      ∃ st', is.foldlM (slicePointsStep std loops idx) st = .ok st' ∧ NoPoints loops.count st' := by
    intro is
    induction is with
    | nil => intro st _ hst; exact ⟨st, rfl, hst⟩
    | cons i is ih =>
      intro st his hst
      have hlt := his i (by simp)
      rw [loops_count] at hlt
      have hg : getM (loopsOf loops) i = .ok (loopsOf loops)[i] := by
        unfold getM
        rw [List.getElem?_eq_getElem hlt]
      obtain ⟨r, -, hr, hq, -⟩ := hi.queryM (loopsOf loops)[i].spatialIndex.ext
      obtain ⟨st', h1, h2⟩ := noPoints_fold (std := std) (loops := loops) (i := i)
        (l := (loopsOf loops)[i]) r st hst
        (fun j hj => by
          obtain ⟨b, hb, -⟩ := (hr j).1 hj
          obtain ⟨hlt', -⟩ := List.getElem?_eq_some_iff.1 hb
          rw [loops_count]
          simpa [loopsOf] using hlt')
        (fun j l' hj hl' => hnone i j _ l' (fun h => hj h.symm) (List.getElem?_eq_getElem hlt) hl')
      have hs : slicePointsStep std loops idx st i = .ok st' := by
        unfold slicePointsStep
        rw [get_eq, hg, ok_bind, hq, ok_bind, h1]
      rw [List.foldlM_cons, hs, ok_bind]
      exact ih st' (fun j hj => his j (by simp [hj])) h2
  unfold createSlicePoints
  exact key _ _ (fun i hi => by simpa using hi) ⟨rfl, rfl⟩

end

theorem rects_apart {a0 b0 a1 b1 x0 y0 x1 y1 : ℝ} (hx : a0 < a1) (hy : b0 < b1) (hX : x0 < x1)
    (hY : y0 < y1) (h : a1 + 1 / 10 ^ 5 < x0 ∨ x1 + 1 / 10 ^ 5 < a0) :
    NothingReported (rect a0 b0 a1 b1) (rect x0 y0 x1 y1) := by
  intro i j v1 v2 u1 u2 s1 s2 hc
  exfalso
  obtain ⟨c1, c2, c3, c4⟩ := hc
  rcases rect_box hx hy s1 with ⟨e1, e2, e3, e4 | e4⟩ | ⟨e1, e2, e3, e4 | e4⟩ <;>
  rcases rect_box hX hY s2 with ⟨f1, f2, f3, f4 | f4⟩ | ⟨f1, f2, f3, f4 | f4⟩ <;>
  rcases h with h | h <;> linarith

/-- A point more than the offset to the left or right of a rectangle passes the distance test. -/
theorem rect_valid_beside {x0 y0 x1 y1 : ℝ} {s : SIndex ℝ} {d : ℝ} {pt : V2} (hX : x0 ≤ x1)
    (hs : IndexOf (segBoxes (rect x0 y0 x1 y1)) s) (hd : 1 / 10 ^ 4 ≤ d)
    (h : pt.x + d ≤ x0 ∨ x1 + d ≤ pt.x) :
    pointValidForOffset (rect x0 y0 x1 y1) d s pt = .ok true := by
  have hd0 : 0 < d := lt_of_lt_of_le (by norm_num) hd
  obtain ⟨b, hb, hbi⟩ := pointValid_iff hs rect_ok d offsetThreshold pt
  rw [hb]
  congr 1
  rw [hbi]
  intro i v1 v2 q hseg _ hq
  rw [abs_of_pos hd0]
  have e4 : (0 : ℝ) < 1 / 10 ^ 4 := by norm_num
  have hl : v1.bulgeIsZero := by
    unfold Vertex.bulgeIsZero; rw [rect_line hseg]; norm_num [realPrecision]
  unfold closestPointOnSeg at hq
  rw [if_pos hl] at hq
  cases hq
  obtain ⟨t, t0, t1, ht⟩ := (C13_closestPointOnLineSeg v1.pos v2.pos pt).1
  rw [ht]
  have hq : x0 ≤ (lerp v1.pos v2.pos t).x ∧ (lerp v1.pos v2.pos t).x ≤ x1 := by
    rcases rect_seg hseg with ⟨rfl, rfl, rfl⟩ | ⟨rfl, rfl, rfl⟩ | ⟨rfl, rfl, rfl⟩ | ⟨rfl, rfl, rfl⟩ <;>
      simp only [lerp] <;> constructor <;> nlinarith
  have hz : d ≤ |(lerp v1.pos v2.pos t).x - pt.x| := by
    rcases h with h | h
    · rw [abs_of_nonneg (by linarith [hq.1])]; linarith [hq.1]
    · rw [abs_of_nonpos (by linarith [hq.2])]; linarith [hq.2]
  unfold dist2
  have h1 : (d - offsetThreshold) ^ 2 < d ^ 2 := by
    unfold offsetThreshold
    apply pow_lt_pow_left₀ <;> linarith
  have h2 : d ^ 2 ≤ ((lerp v1.pos v2.pos t).x - pt.x) ^ 2 := by
    rw [← sq_abs ((lerp v1.pos v2.pos t).x - pt.x)]; exact pow_le_pow_left₀ hd0.le hz 2
  have h3 := sq_nonneg ((lerp v1.pos v2.pos t).y - pt.y)
  linarith

/-- C53. The offset of two rectangles side by side, each with room for it, are the two smaller
rectangles, each with the index of its own rectangle. -/
theorem C53_two_rectangles {std : StdSort} {hash : HashOrder} (inf ninf : ℝ)
    {x0 y0 x1 y1 a0 b0 a1 b1 d : ℝ} (hd : 1 / 10 ^ 4 ≤ |d|)
    (hw : x0 + 2 * |d| + 1 / 10 ^ 3 ≤ x1) (hh : y0 + 2 * |d| + 1 / 10 ^ 3 ≤ y1)
    (ha : a0 + 2 * |d| + 1 / 10 ^ 3 ≤ a1) (hb : b0 + 2 * |d| + 1 / 10 ^ 3 ≤ b1) (hlt : x1 ≤ a0)
    {s1 s2 : SIndex ℝ}
    (h1 : createApproxSpatialIndex (codePlatform inf ninf) (rect x0 y0 x1 y1) = .ok s1)
    (h2 : createApproxSpatialIndex (codePlatform inf ninf) (rect a0 b0 a1 b1) = .ok s2) :
    ∃ t1 t2, computeIslands (codePlatform inf ninf) std hash
        ⟨[⟨0, rect x0 y0 x1 y1, s1⟩, ⟨0, rect a0 b0 a1 b1, s2⟩], []⟩ d =
      .ok ⟨[⟨0, rect (x0 + |d|) (y0 + |d|) (x1 - |d|) (y1 - |d|), t1⟩,
        ⟨1, rect (a0 + |d|) (b0 + |d|) (a1 - |d|) (b1 - |d|), t2⟩], []⟩ := by
  have e3 : (0 : ℝ) < 1 / 10 ^ 3 := by norm_num
  have e5 : (1 : ℝ) / 10 ^ 5 < 1 / 10 ^ 4 := by norm_num
  have e4 : (0 : ℝ) < 1 / 10 ^ 4 := by norm_num
  have i1 : IndexOf (segBoxes (rect x0 y0 x1 y1)) s1 := by
    obtain ⟨s, g1, g2⟩ := (rect_indexable (x0 := x0) (y0 := y0) (x1 := x1) (y1 := y1) inf ninf).indexOf
    rw [h1] at g1; cases g1; exact g2
  have i2 : IndexOf (segBoxes (rect a0 b0 a1 b1)) s2 := by
    obtain ⟨s, g1, g2⟩ := (rect_indexable (x0 := a0) (y0 := b0) (x1 := a1) (y1 := b1) inf ninf).indexOf
    rw [h2] at g1; cases g1; exact g2
  have o1 := C52_rectangle (std := std) (hash := hash) (x0 := x0) (y0 := y0) (x1 := x1) (y1 := y1) inf
    ninf hd hw hh
  have o2 := C52_rectangle (std := std) (hash := hash) (x0 := a0) (y0 := b0) (x1 := a1) (y1 := b1) inf
    ninf hd ha hb
  change parallelOffset _ _ _ (rect x0 y0 x1 y1) _ = .ok [rect _ _ _ _] at o1
  change parallelOffset _ _ _ (rect a0 b0 a1 b1) _ = .ok [rect _ _ _ _] at o2
  unfold computeIslands
  simp only
  generalize |d| = e at *
  obtain ⟨t1, ht1, -⟩ := (rect_indexable (x0 := x0 + e) (y0 := y0 + e) (x1 := x1 - e)
    (y1 := y1 - e) inf ninf).indexOf
  obtain ⟨t2, ht2, -⟩ := (rect_indexable (x0 := a0 + e) (y0 := b0 + e) (x1 := a1 - e)
    (y1 := b1 - e) inf ninf).indexOf
  refine ⟨t1, t2, ?_⟩
  have n1 : ¬ (x1 - e - (x0 + e)) * (y1 - e - (y0 + e)) < 0 :=
    not_lt.2 (mul_nonneg (by linarith) (by linarith))
  have n2 : ¬ (a1 - e - (a0 + e)) * (b1 - e - (b0 + e)) < 0 :=
    not_lt.2 (mul_nonneg (by linarith) (by linarith))
  have no12 : NothingReported (rect (x0 + e) (y0 + e) (x1 - e) (y1 - e))
      (rect (a0 + e) (b0 + e) (a1 - e) (b1 - e)) :=
    rects_apart (by linarith) (by linarith) (by linarith) (by linarith) (Or.inl (by linarith))
  have no21 : NothingReported (rect (a0 + e) (b0 + e) (a1 - e) (b1 - e))
      (rect (x0 + e) (y0 + e) (x1 - e) (y1 - e)) :=
    rects_apart (by linarith) (by linarith) (by linarith) (by linarith) (Or.inr (by linarith))
  have p2 : pointValidForOffset (rect a0 b0 a1 b1) e s2 ⟨x0 + e, y0 + e⟩ = .ok true :=
    rect_valid_beside (by linarith) i2 hd (Or.inl (by simp only; linarith))
  have p1 : pointValidForOffset (rect x0 y0 x1 y1) e s1 ⟨a0 + e, b0 + e⟩ = .ok true :=
    rect_valid_beside (by linarith) i1 hd (Or.inr (by simp only; linarith))
  set l1 : OffsetLoop := ⟨0, rect (x0 + e) (y0 + e) (x1 - e) (y1 - e), t1⟩ with hl1
  set l2 : OffsetLoop := ⟨1, rect (a0 + e) (b0 + e) (a1 - e) (b1 - e), t2⟩ with hl2
  set inp : OffsetLoopSet := ⟨[⟨0, rect x0 y0 x1 y1, s1⟩, ⟨0, rect a0 b0 a1 b1, s2⟩], []⟩ with hinp
  have hc : createOffsetLoops (codePlatform inf ninf) std hash inp e = .ok ⟨[l1, l2], []⟩ := by
    unfold createOffsetLoops
    simp only [hinp, List.foldlM_cons, List.foldlM_nil]
    have g1 : offsetLoopsOf (codePlatform inf ninf) std hash e (addCcwOffset (codePlatform inf ninf))
        (0, ⟨[], []⟩) ⟨0, rect x0 y0 x1 y1, s1⟩ = .ok (1, ⟨[l1], []⟩) := by
      unfold offsetLoopsOf
      simp only
      rw [o1, ok_bind]
      simp only [List.foldlM_cons, List.foldlM_nil]
      unfold addCcwOffset
      rw [rect_area, ok_bind, if_neg n1, ht1]
      rfl
    have g2 : offsetLoopsOf (codePlatform inf ninf) std hash e (addCcwOffset (codePlatform inf ninf))
        (1, ⟨[l1], []⟩) ⟨0, rect a0 b0 a1 b1, s2⟩ = .ok (2, ⟨[l1, l2], []⟩) := by
      unfold offsetLoopsOf
      simp only
      rw [o2, ok_bind]
      simp only [List.foldlM_cons, List.foldlM_nil]
      unfold addCcwOffset
      rw [rect_area, ok_bind, if_neg n2, ht2]
      rfl
    rw [g1, ok_bind, g2]
    rfl
  have hdom : IndexDomain 16 (codePlatform inf ninf).inf (codePlatform inf ninf).ninf
      (codePlatform inf ninf).hilbert
      (([l1, l2] ++ ([] : List OffsetLoop)).map fun l => l.spatialIndex.ext) := by
    exact ⟨by norm_num, by simp, by simp⟩
  obtain ⟨idx, hidx, -⟩ := hdom.indexOf
  have hci : createOffsetLoopsIndex (codePlatform inf ninf) ⟨[l1, l2], []⟩ = .ok idx := hidx
  obtain ⟨sp, hsp, hno1, hno2⟩ := noPoints (std := std) (loops := ⟨[l1, l2], []⟩)
    (by simp [OffsetLoopSet.count]) hci (by
      intro i j l l' hij hi hj
      simp only [loopsOf, List.append_nil] at hi hj
      match i, j, hi, hj with
      | 0, 0, _, _ => exact absurd rfl hij
      | 0, 1, hi, hj =>
        simp only [List.getElem?_cons_zero, List.getElem?_cons_succ, Option.some.injEq] at hi hj
        subst hi; subst hj
        exact findIntersects_none (rect_indexable inf ninf) ht1 rect_ok rect_ok no12
      | 1, 0, hi, hj =>
        simp only [List.getElem?_cons_zero, List.getElem?_cons_succ, Option.some.injEq] at hi hj
        subst hi; subst hj
        exact findIntersects_none (rect_indexable inf ninf) ht2 rect_ok rect_ok no21
      | 1, 1, _, _ => exact absurd rfl hij
      | i + 2, _, hi, _ => simp at hi
      | _, j + 2, _, hj => simp at hj)
  rw [hc, ok_bind, if_neg (by simp [OffsetLoopSet.count]), hci, ok_bind, hsp, ok_bind]
  have hst : (List.range (OffsetLoopSet.count ⟨[l1, l2], []⟩)).foldlM
      (computeStep std hash inp ⟨[l1, l2], []⟩ sp e) (⟨[], []⟩, []) = .ok (⟨[l1, l2], []⟩, []) := by
    change ([0, 1] : List ℕ).foldlM _ _ = _
    simp only [List.foldlM_cons, List.foldlM_nil]
    have hlk : sp.lookup = [[], []] := hno2
    have k1 : computeStep std hash inp ⟨[l1, l2], []⟩ sp e (⟨[], []⟩, []) 0 =
        .ok (⟨[l1], []⟩, []) := by
      have v1 : pointOnOffsetValid inp 0 ⟨x0 + e, y0 + e⟩ e = .ok true := by
        change pointOnOffsetValidLoop inp 0 _ e [0, 1] = _
        unfold pointOnOffsetValidLoop
        rw [if_pos rfl]
        unfold pointOnOffsetValidLoop
        rw [if_neg (by norm_num)]
        change (pointValidForOffset (rect a0 b0 a1 b1) e s2 _ >>= _) = _
        rw [p2, ok_bind]
        rfl
      unfold computeStep
      rw [hlk]
      change ((keepUntouched inp ⟨[l1, l2], []⟩ e 0 ⟨[], []⟩) >>= _) = _
      unfold keepUntouched
      change (((pointOnOffsetValid inp 0 ⟨x0 + e, y0 + e⟩ e) >>= _) >>= _) = _
      rw [v1, ok_bind]
      rfl
    have k2 : computeStep std hash inp ⟨[l1, l2], []⟩ sp e (⟨[l1], []⟩, []) 1 =
        .ok (⟨[l1, l2], []⟩, []) := by
      have v1 : pointOnOffsetValid inp 1 ⟨a0 + e, b0 + e⟩ e = .ok true := by
        change pointOnOffsetValidLoop inp 1 _ e [0, 1] = _
        unfold pointOnOffsetValidLoop
        rw [if_neg (by norm_num)]
        change (pointValidForOffset (rect x0 y0 x1 y1) e s1 _ >>= _) = _
        rw [p1, ok_bind]
        change pointOnOffsetValidLoop inp 1 ⟨a0 + e, b0 + e⟩ e [1] = _
        unfold pointOnOffsetValidLoop
        rw [if_pos rfl]
        rfl
      unfold computeStep
      rw [hlk]
      change ((keepUntouched inp ⟨[l1, l2], []⟩ e 1 ⟨[l1], []⟩) >>= _) = _
      unfold keepUntouched
      change (((pointOnOffsetValid inp 1 ⟨a0 + e, b0 + e⟩ e) >>= _) >>= _) = _
      rw [v1, ok_bind]
      rfl
    rw [k1, ok_bind, k2]
    rfl
  rw [hst, ok_bind]
  rfl

/-- The hypotheses of C55 and C56 hold for two rectangles, and both offsets are in the result. -/
example (inf ninf : ℝ) (std : StdSort) (hash : HashOrder) : ∃ s1 s2 r,
    (∀ l ∈ loopsOf ⟨[⟨0, rect 0 0 4 4, s1⟩, ⟨0, rect 5 0 9 4, s2⟩], []⟩,
      LoopOk (codePlatform inf ninf) l) ∧
    computeIslands (codePlatform inf ninf) std hash
      ⟨[⟨0, rect 0 0 4 4, s1⟩, ⟨0, rect 5 0 9 4, s2⟩], []⟩ 1 = .ok r ∧
    r.ccwLoops.map OffsetLoop.named = [(0, rect (0 + 1) (0 + 1) (4 - 1) (4 - 1)),
      (1, rect (5 + 1) (0 + 1) (9 - 1) (4 - 1))] := by
  obtain ⟨s1, h1, -⟩ := (rect_indexable (x0 := 0) (y0 := 0) (x1 := 4) (y1 := 4) inf ninf).indexOf
  obtain ⟨s2, h2, -⟩ := (rect_indexable (x0 := 5) (y0 := 0) (x1 := 9) (y1 := 4) inf ninf).indexOf
  obtain ⟨t1, t2, h⟩ := C53_two_rectangles (std := std) (hash := hash) (d := 1) inf ninf (by norm_num)
    (by norm_num) (by norm_num) (by norm_num) (by norm_num) (by norm_num) h1 h2
  refine ⟨s1, s2, _, ?_, h, by rw [abs_one]; rfl⟩
  intro l hl
  simp only [loopsOf, List.append_nil, List.mem_cons, List.not_mem_nil, or_false] at hl
  rcases hl with rfl | rfl
  · exact ⟨rect_ok, rect_indexable inf ninf, h1⟩
  · exact ⟨rect_ok, rect_indexable inf ninf, h2⟩

end
end Cavc

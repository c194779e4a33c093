import Verif.Props.FindIntersects
import Verif.Props.PlineInvert

/-!
C34, C35: the search for self intersects between segments that share no vertex, and between
consecutive segments.
-/
namespace Cavc
open Spec
open scoped Classical
noncomputable section

/-- The two indexes name segments that share no vertex. -/
theorem local_iff {p : Polyline} {i h : ℕ} {v1 v2 u1 u2 : Vertex} (hi : IsSeg p i v1 v2)
    (hh : IsSeg p h u1 u2) : (i = h ∨ i = nextWrappingIndex h p.size ∨ nextWrappingIndex i p.size = h ∨
      nextWrappingIndex i p.size = nextWrappingIndex h p.size) ↔ ¬ NonAdjacent p i h := by
  have a := seg_lt hi
  have b := seg_lt hh
  rw [seg_next hi, seg_next hh]
  unfold NonAdjacent IsPrev nxt
  have : p.vertexes.length = p.size := rfl
  rw [this]
  obtain ⟨a1, -, a3, -⟩ := a
  obtain ⟨b1, -, -, -⟩ := b
  generalize p.size = n at *
  rw [not_and_or, not_and_or, not_not, not_not, not_not]
  split_ifs <;> constructor <;> intro hk <;> first | omega | (simp only [or_false] at hk; omega)

/-- One step of the search. -/
def globalStep (p : Polyline) (st : GlobalState) (x : ℕ × ℕ) : M GlobalState := do
  let v1 ← p.at x.1
  let v2 ← p.at (nextWrappingIndex x.1 p.size)
  let r ← globalIndexVisitor p x.1 (nextWrappingIndex x.1 p.size) v1 v2 st x.2
  return r.1

theorem globalVisitor_true (p : Polyline) (i j : ℕ) (v1 v2 : Vertex) (st : GlobalState) (h : ℕ) :
    globalIndexVisitor p i j v1 v2 st h =
      (do let s ← (do let r ← globalIndexVisitor p i j v1 v2 st h; return r.1); return (s, true)) := by
  unfold globalIndexVisitor
  simp only
  split_ifs
  · rfl
  · rfl
  · cases p.at h with
    | error e => rfl
    | ok u1 =>
      simp only [ok_bind]
      cases p.at (nextWrappingIndex h p.size) with
      | error e => rfl
      | ok u2 =>
        simp only [ok_bind]
        cases intrPlineSegs v1 v2 u1 u2 with
        | error e => rfl
        | ok r => cases r <;> rfl

theorem globalStep_eq {p : Polyline} (hp : PlineOk p) {i h : ℕ} {v1 v2 u1 u2 : Vertex}
    (hi : IsSeg p i v1 v2) (hh : IsSeg p h u1 u2) (st : GlobalState) :
    globalStep p st (i, h) = .ok (if ¬ NonAdjacent p i h ∨ (h, i) ∈ st.visited then st
      else ⟨(i, h) :: st.visited, st.output ++ selfHits p (i, h)⟩) := by
  unfold globalStep
  obtain ⟨a1, a2⟩ := seg_at hi
  obtain ⟨b1, b2⟩ := seg_at hh
  rw [a1, a2, ok_bind, ok_bind]
  unfold globalIndexVisitor
  simp only
  by_cases hl : ¬ NonAdjacent p i h
  · rw [if_pos ((local_iff hi hh).2 hl), if_pos (Or.inl hl)]; rfl
  · rw [if_neg (fun c => hl ((local_iff hi hh).1 c))]
    by_cases hv : (h, i) ∈ st.visited
    · rw [if_pos hv, if_pos (Or.inr hv)]; rfl
    · rw [if_neg hv, if_neg (by rw [not_or]; exact ⟨hl, hv⟩), b1, b2, ok_bind, ok_bind,
        resOf_eq (hp _ _ _ hi) (hp _ _ _ hh), ok_bind]
      have hs : selfHits p (i, h) = ((reported (resOf v1 v2 u1 u2)).filter fun y =>
          ¬ intrAtStartPt v1 u1 y).map fun y => ⟨i, h, y⟩ := by
        unfold selfHits
        simp only
        rw [show (segs p)[i]? = _ from hi, show (segs p)[h]? = _ from hh]
        simp only
        rw [resOf_eq (hp _ _ _ hi) (hp _ _ _ hh)]
        simp only
        congr 1
        apply List.filter_congr
        intro y _
        rw [decide_eq_decide]
        unfold intrAtStartPt
        rw [not_or]
        rfl
      rw [hs]
      cases resOf v1 v2 u1 u2 with
      | noIntersect => simp [reported]
      | oneIntersect a => simp only [addUnlessStart_eq, reported, pure_eq_ok, ok_bind]
      | twoIntersects a b =>
        simp only [addUnlessStart_eq, reported, pure_eq_ok, ok_bind]
        rw [show [a, b] = [a] ++ [b] from rfl, List.filter_append, List.map_append, List.append_assoc]
      | segmentOverlap a b =>
        simp only [addUnlessStart_eq, reported, pure_eq_ok, ok_bind]
        rw [show [a, b] = [a] ++ [b] from rfl, List.filter_append, List.map_append, List.append_assoc]
      | arcOverlap a b =>
        simp only [addUnlessStart_eq, reported, pure_eq_ok, ok_bind]
        rw [show [a, b] = [a] ++ [b] from rfl, List.filter_append, List.map_append, List.append_assoc]

/-- The invariant of the search after the pairs in `done`. -/
structure GInv (p : Polyline) (out0 : List PlineIntersect) (done : List (ℕ × ℕ)) (st : GlobalState) :
    Prop where
  nodup : st.visited.Nodup
  sub : ∀ x ∈ st.visited, x ∈ done ∧ NonAdjacent p x.1 x.2
  asymm : ∀ i j, (i, j) ∈ st.visited → (j, i) ∉ st.visited
  cover : ∀ i j, (i, j) ∈ done → NonAdjacent p i j → (i, j) ∈ st.visited ∨ (j, i) ∈ st.visited
  output : st.output = out0 ++ st.visited.reverse.flatMap (selfHits p)

theorem global_fold {p : Polyline} (hp : PlineOk p) (out0 : List PlineIntersect) (l : List (ℕ × ℕ))
    (hl : ∀ x ∈ l, (∃ v1 v2, IsSeg p x.1 v1 v2) ∧ ∃ v1 v2, IsSeg p x.2 v1 v2) :
    ∀ (done : List (ℕ × ℕ)) (st : GlobalState), (done ++ l).Nodup → GInv p out0 done st →
      ∃ st', l.foldlM (globalStep p) st = .ok st' ∧ GInv p out0 (done ++ l) st' := by
  induction l with
  | nil => intro done st _ h; exact ⟨st, rfl, by simpa using h⟩
  | cons a l ih =>
    intro done st hnd h
    obtain ⟨i, j⟩ := a
    obtain ⟨⟨v1, v2, hi⟩, ⟨u1, u2, hj⟩⟩ := hl (i, j) (by simp)
    have hnot : (i, j) ∉ done := by
      intro hc
      have := (List.nodup_append.1 hnd).2.2 (i, j) hc (i, j) (by simp)
      exact this rfl
    have e : done ++ (i, j) :: l = (done ++ [(i, j)]) ++ l := by simp
    rw [List.foldlM_cons, globalStep_eq hp hi hj, ok_bind, e]
    rw [e] at hnd
    refine ih (fun x hx => hl x (by simp [hx])) _ _ hnd ?_
    by_cases hc : ¬ NonAdjacent p i j ∨ (j, i) ∈ st.visited
    · rw [if_pos hc]
      refine ⟨h.nodup, fun x hx => ⟨by simp [(h.sub x hx).1], (h.sub x hx).2⟩, h.asymm, ?_, h.output⟩
      intro a b hab hna
      rw [List.mem_append, List.mem_singleton] at hab
      rcases hab with hab | hab
      · exact h.cover a b hab hna
      · simp only [Prod.mk.injEq] at hab
        obtain ⟨rfl, rfl⟩ := hab
        rcases hc with hc | hc
        · exact absurd hna hc
        · exact Or.inr hc
    · rw [if_neg hc]
      rw [not_or, not_not] at hc
      refine ⟨?_, ?_, ?_, ?_, ?_⟩
      · exact List.nodup_cons.2 ⟨fun hm => hnot (h.sub _ hm).1, h.nodup⟩
      · intro x hx
        rcases List.mem_cons.1 hx with rfl | hx
        · exact ⟨by simp, hc.1⟩
        · exact ⟨by simp [(h.sub x hx).1], (h.sub x hx).2⟩
      · intro a b hab hba
        rw [List.mem_cons] at hab hba
        rcases hab with hab | hab <;> rcases hba with hba | hba
        · simp only [Prod.mk.injEq] at hab hba
          exact hc.1.1 (by omega)
        · simp only [Prod.mk.injEq] at hab
          obtain ⟨rfl, rfl⟩ := hab
          exact hc.2 hba
        · simp only [Prod.mk.injEq] at hba
          obtain ⟨rfl, rfl⟩ := hba
          exact hc.2 hab
        · exact h.asymm a b hab hba
      · intro a b hab hna
        rw [List.mem_append, List.mem_singleton] at hab
        rcases hab with hab | hab
        · rcases h.cover a b hab hna with h | h
          · exact Or.inl (List.mem_cons_of_mem _ h)
          · exact Or.inr (List.mem_cons_of_mem _ h)
        · exact Or.inl (by rw [hab]; exact List.mem_cons_self ..)
      · simp only [List.reverse_cons, List.flatMap_append, List.flatMap_cons, List.flatMap_nil,
          List.append_nil]
        rw [h.output, List.append_assoc]

/-- C34. `globalSelfIntersects` with the polyline's own index compares every unordered pair of
segments without a common vertex whose bounding boxes are within 1e-8 of overlapping, and no other
pair, exactly once, and appends what the segment test reports away from the segment starts. -/
theorem C34_globalSelfIntersects {pf : Platform} {p : Polyline} (hi : Indexable pf p)
    (hp : PlineOk p) :
    ∃ s, createApproxSpatialIndex pf p = .ok s ∧ ∃ pairs : List (ℕ × ℕ),
      pairs.Nodup ∧ (∀ i j, (i, j) ∈ pairs → (j, i) ∉ pairs) ∧
      (∀ i j, ((i, j) ∈ pairs ∨ (j, i) ∈ pairs) ↔ NonAdjacent p i j ∧ ∃ v1 v2 u1 u2,
        IsSeg p i v1 v2 ∧ IsSeg p j u1 u2 ∧ BoxesClose (1 / 10 ^ 8) v1 v2 u1 u2) ∧
      ∀ output, globalSelfIntersects p output s = .ok (output ++ pairs.flatMap (selfHits p)) := by
  obtain ⟨s, hs, hidx⟩ := hi.indexOf
  refine ⟨s, hs, ?_⟩
  have close_symm : ∀ {v1 v2 u1 u2 : Vertex} {ε : ℝ}, BoxesClose ε v1 v2 u1 u2 →
      BoxesClose ε u1 u2 v1 v2 := by
    rintro v1 v2 u1 u2 ε ⟨a, b, c, d⟩
    exact ⟨by linarith, by linarith, by linarith, by linarith⟩
  by_cases h3 : p.size < 3
  · refine ⟨[], List.nodup_nil, by simp, ?_, ?_⟩
    · intro i j
      simp only [List.not_mem_nil, or_self, false_iff]
      rintro ⟨⟨h1, h2, h4⟩, v1, v2, u1, u2, a, b, -⟩
      have la := seg_lt a
      have lb := seg_lt b
      unfold IsPrev at h2 h4
      have : p.vertexes.length = p.size := rfl
      omega
    · intro output
      unfold globalSelfIntersects
      rw [if_pos h3]; simp
  · obtain ⟨order, hperm, hvis⟩ := hidx.itemBoxesM
    choose r hnd hmem _ hqm using hidx.queryM
    have hord : ∀ i b, (i, b) ∈ order ↔ ∃ v1 v2, IsSeg p i v1 v2 ∧
        b = (createFastApproxBoundingBox v1 v2).toBox := by
      intro i b
      rw [hperm.mem_iff, ← segBoxes_get]
      simp only [List.mem_map, Prod.mk.injEq, Prod.exists]
      constructor
      · rintro ⟨b', i', h, rfl, rfl⟩
        exact List.mem_zipIdx_iff_getElem?.1 h
      · intro h
        exact ⟨b, i, List.mem_zipIdx_iff_getElem?.2 h, rfl, rfl⟩
    have hondup : (order.map Prod.fst).Nodup := by
      rw [(hperm.map Prod.fst).nodup_iff, List.map_map]
      show ((segBoxes p).zipIdx.map Prod.snd).Nodup
      rw [List.zipIdx_map_snd]
      exact List.nodup_range'
    set env : Box ℝ → Box ℝ := fun b =>
      ((⟨b.minX, b.minY, b.maxX, b.maxY⟩ : AABB).expand realThreshold).toBox with henv
    have hclose : ∀ {i v1 v2}, IsSeg p i v1 v2 → ∀ h, h ∈ r (env (createFastApproxBoundingBox v1 v2).toBox) ↔
        ∃ u1 u2, IsSeg p h u1 u2 ∧ BoxesClose (1 / 10 ^ 8) v1 v2 u1 u2 := by
      intro i v1 v2 _ h
      rw [hmem]
      constructor
      · rintro ⟨b, hb, ho⟩
        obtain ⟨u1, u2, hseg, rfl⟩ := segBoxes_get.1 hb
        exact ⟨u1, u2, hseg, close_symm ho⟩
      · rintro ⟨u1, u2, hseg, ho⟩
        exact ⟨_, segBoxes_get.2 ⟨u1, u2, hseg, rfl⟩, close_symm ho⟩
    set all := order.flatMap fun x => (r (env x.2)).map fun h => (x.1, h) with hall
    have hallm : ∀ i j, (i, j) ∈ all ↔ ∃ v1 v2 u1 u2, IsSeg p i v1 v2 ∧ IsSeg p j u1 u2 ∧
        BoxesClose (1 / 10 ^ 8) v1 v2 u1 u2 := by
      intro i j
      simp only [hall, List.mem_flatMap, List.mem_map, Prod.mk.injEq, Prod.exists]
      constructor
      · rintro ⟨i', b, hm, h, hh, rfl, rfl⟩
        obtain ⟨v1, v2, hseg, rfl⟩ := (hord _ _).1 hm
        obtain ⟨u1, u2, hseg2, hc⟩ := (hclose hseg _).1 hh
        exact ⟨v1, v2, u1, u2, hseg, hseg2, hc⟩
      · rintro ⟨v1, v2, u1, u2, h1, h2, hc⟩
        exact ⟨i, _, (hord _ _).2 ⟨v1, v2, h1, rfl⟩, j, (hclose h1 _).2 ⟨u1, u2, h2, hc⟩, rfl, rfl⟩
    have hallnd : all.Nodup := by
      rw [hall, List.nodup_flatMap]
      refine ⟨fun x _ => List.Nodup.map (fun a b h => by simpa using h) (hnd _), ?_⟩
      refine (List.pairwise_map.1 hondup).imp ?_
      intro a b hab c hc hc'
      rw [List.mem_map] at hc hc'
      obtain ⟨x, -, rfl⟩ := hc
      obtain ⟨y, -, hy⟩ := hc'
      simp only [Prod.mk.injEq] at hy
      exact hab hy.1.symm
    have hrun : ∀ output, globalSelfIntersects p output s =
        (do let st ← all.foldlM (globalStep p) ⟨[], output⟩; return st.output) := by
      intro output
      unfold globalSelfIntersects
      rw [if_neg h3, hvis]
      congr 1
      rw [runM_true _ (fun st x => (r (env x.2)).foldlM (fun st h => globalStep p st (x.1, h)) st)]
      · rw [foldlM_flatMap _ (globalStep p) (fun x => (r (env x.2)).map fun h => (x.1, h))]
        intro x _ st
        rw [List.foldlM_map]
      · rintro ⟨i, b⟩ hx st
        obtain ⟨v1, v2, hseg, rfl⟩ := (hord _ _).1 hx
        obtain ⟨a1, a2⟩ := seg_at hseg
        unfold globalVisitor
        simp only
        rw [a1, a2, ok_bind, ok_bind, hqm, runM_true _ (fun st h => globalStep p st (i, h))]
        intro h _ st
        rw [globalVisitor_true]
        unfold globalStep
        simp only
        rw [a1, a2, ok_bind, ok_bind]
    have hfold := fun out0 => global_fold hp out0 all (fun x hx => by
      obtain ⟨v1, v2, u1, u2, h1, h2, -⟩ := (hallm x.1 x.2).1 hx
      exact ⟨⟨v1, v2, h1⟩, ⟨u1, u2, h2⟩⟩) [] ⟨[], out0⟩ (by simpa using hallnd)
      ⟨List.nodup_nil, by simp, by simp, by simp, by simp⟩
    -- the visited pairs do not depend on the output
    have hindep : ∀ (l : List (ℕ × ℕ)), (∀ x ∈ l, x ∈ all) → ∀ (v : List (ℕ × ℕ)) (o1 o2 : List PlineIntersect),
        ∀ s1 s2, l.foldlM (globalStep p) ⟨v, o1⟩ = .ok s1 → l.foldlM (globalStep p) ⟨v, o2⟩ = .ok s2 →
        s1.visited = s2.visited := by
      intro l
      induction l with
      | nil => intro _ v o1 o2 s1 s2 h1 h2; cases h1; cases h2; rfl
      | cons a l ih =>
        intro hm v o1 o2 s1 s2 h1 h2
        obtain ⟨i, j⟩ := a
        obtain ⟨v1, v2, u1, u2, a, b, -⟩ := (hallm i j).1 (hm _ (by simp))
        rw [List.foldlM_cons, globalStep_eq hp a b, ok_bind] at h1 h2
        simp only at h1 h2
        by_cases hc : ¬ NonAdjacent p i j ∨ (j, i) ∈ v
        · rw [if_pos hc] at h1 h2
          exact ih (fun x hx => hm x (by simp [hx])) _ _ _ _ _ h1 h2
        · rw [if_neg hc] at h1 h2
          exact ih (fun x hx => hm x (by simp [hx])) _ _ _ _ _ h1 h2
    obtain ⟨st0, hst0, inv0⟩ := hfold []
    refine ⟨st0.visited.reverse, List.nodup_reverse.2 inv0.nodup, ?_, ?_, ?_⟩
    · intro i j hij
      rw [List.mem_reverse] at hij ⊢
      exact inv0.asymm i j hij
    · intro i j
      rw [List.mem_reverse, List.mem_reverse]
      constructor
      · rintro (h | h)
        · have := inv0.sub _ h
          refine ⟨this.2, ?_⟩
          exact (hallm i j).1 (by simpa using this.1)
        · have := inv0.sub _ h
          refine ⟨⟨this.2.1.symm, this.2.2.2, this.2.2.1⟩, ?_⟩
          obtain ⟨v1, v2, u1, u2, a, b, c⟩ := (hallm j i).1 (by simpa using this.1)
          exact ⟨u1, u2, v1, v2, b, a, close_symm c⟩
      · rintro ⟨hna, h⟩
        exact inv0.cover i j (by simpa using (hallm i j).2 h) hna
    · intro output
      obtain ⟨st, hst, inv⟩ := hfold output
      rw [hrun, hst, ok_bind, pure_eq_ok, inv.output,
        hindep all (fun x hx => hx) [] output [] st st0 hst hst0]

/-- C34: no pair with a common point is left out. -/
theorem C34_complete {pf : Platform} {p : Polyline} (hi : Indexable pf p) (hp : PlineOk p) :
    ∃ s out, createApproxSpatialIndex pf p = .ok s ∧ globalSelfIntersects p [] s = .ok out ∧
      (∀ i j v1 v2 u1 u2 x, NonAdjacent p i j → IsSeg p i v1 v2 → IsSeg p j u1 u2 →
        OnSeg v1 v2 x → OnSeg u1 u2 x →
        (∀ y ∈ selfHits p (i, j), y ∈ out) ∨ ∀ y ∈ selfHits p (j, i), y ∈ out) ∧
      ∀ y ∈ out, NonAdjacent p y.sIndex1 y.sIndex2 ∧ y ∈ selfHits p (y.sIndex1, y.sIndex2) := by
  obtain ⟨s, hs, pairs, -, -, hpairs, hout⟩ := C34_globalSelfIntersects hi hp
  refine ⟨s, _, hs, hout [], ?_, ?_⟩
  · intro i j v1 v2 u1 u2 x hna hi' hj' h1 h2
    obtain ⟨a1, a2, a3, a4⟩ := C12_bbox_contains (hp _ _ _ hi').half h1
    obtain ⟨b1, b2, b3, b4⟩ := C12_bbox_contains (hp _ _ _ hj').half h2
    have e : (0 : ℝ) < 1 / 10 ^ 8 := by norm_num
    have hc : BoxesClose (1 / 10 ^ 8) v1 v2 u1 u2 := by
      refine ⟨?_, ?_, ?_, ?_⟩ <;> linarith
    rcases (hpairs i j).2 ⟨hna, v1, v2, u1, u2, hi', hj', hc⟩ with h | h
    · left
      intro y hy
      rw [List.nil_append, List.mem_flatMap]
      exact ⟨_, h, hy⟩
    · right
      intro y hy
      rw [List.nil_append, List.mem_flatMap]
      exact ⟨_, h, hy⟩
  · intro y hy
    rw [List.nil_append, List.mem_flatMap] at hy
    obtain ⟨⟨i, j⟩, hx, hy⟩ := hy
    have hidx : y.sIndex1 = i ∧ y.sIndex2 = j := by
      unfold selfHits at hy
      simp only at hy
      split at hy
      · split at hy
        · rw [List.mem_map] at hy
          obtain ⟨z, -, rfl⟩ := hy
          exact ⟨rfl, rfl⟩
        · simp at hy
      · simp at hy
    rw [hidx.1, hidx.2]
    exact ⟨((hpairs i j).1 (Or.inl hx)).1, hy⟩

/-- An open polyline whose third segment crosses the first. -/
def loopExample : Polyline :=
  ⟨false, [⟨⟨-1, 0⟩, 0⟩, ⟨⟨1, 0⟩, 0⟩, ⟨⟨0, -1⟩, 0⟩, ⟨⟨0, 1⟩, 0⟩]⟩

theorem loopExample_bulge {i : ℕ} {v1 v2 : Vertex} (h : IsSeg loopExample i v1 v2) : v1.bulge = 0 := by
  have hm := List.mem_of_getElem? h
  simp [segs, loopExample] at hm
  rcases hm with ⟨rfl, -⟩ | ⟨rfl, -⟩ | ⟨rfl, -⟩ <;> rfl

theorem loopExample_ok : PlineOk loopExample := by
  intro i v1 v2 h
  have hb := loopExample_bulge h
  exact ⟨by rw [hb]; norm_num, fun hl => absurd (show |v1.bulge| < 1 / 10 ^ 5 by rw [hb]; norm_num) hl⟩

theorem loopExample_indexable (inf ninf : ℝ) : Indexable (codePlatform inf ninf) loopExample := by
  refine indexable_code (by simp [loopExample]) (by simp [segs, loopExample]) _ _
    (Or.inl (by simp [segs, loopExample])) ?_
  intro i v1 v2 h
  exact (loopExample_ok i v1 v2 h).half

/-- C34 applied: the crossing is reported, by one of the two orders of its segments. -/
example : ∃ s out, createApproxSpatialIndex (codePlatform 1000 (-1000)) loopExample = .ok s ∧
    globalSelfIntersects loopExample [] s = .ok out ∧
    ((∀ y ∈ selfHits loopExample (0, 2), y ∈ out) ∨ ∀ y ∈ selfHits loopExample (2, 0), y ∈ out) ∧
    selfHits loopExample (0, 2) = [⟨0, 2, ⟨0, 0⟩⟩] := by
  obtain ⟨s, out, hs, ho, h, -⟩ := C34_complete (loopExample_indexable 1000 (-1000)) loopExample_ok
  have hl : |(0 : ℝ)| < 1 / 10 ^ 5 := by norm_num
  refine ⟨s, out, hs, ho, ?_, ?_⟩
  · refine h 0 2 ⟨⟨-1, 0⟩, 0⟩ ⟨⟨1, 0⟩, 0⟩ ⟨⟨0, -1⟩, 0⟩ ⟨⟨0, 1⟩, 0⟩ ⟨0, 0⟩ ?_ rfl rfl
      ⟨1 / 2, by norm_num, by norm_num, Or.inl ⟨hl, by norm_num [lerp]⟩⟩
      ⟨1 / 2, by norm_num, by norm_num, Or.inl ⟨hl, by norm_num [lerp]⟩⟩
    simp [NonAdjacent, IsPrev, loopExample]
  · unfold selfHits
    simp only [segs, loopExample]
    norm_num
    rw [cross_hit']
    simp only [reported]
    norm_num [Near]

/-! ### C35 -/

theorem addUnlessAt_eq (i j : ℕ) (v p : V2) (l : List PlineIntersect) :
    addUnlessAt i j v p l = l ++ (([p].filter fun x => ¬ Near (1 / 10 ^ 5) x v).map
      fun x => ⟨i, j, x⟩) := by
  unfold addUnlessAt
  have : fuzzyEqualV p v realPrecision ↔ Near (1 / 10 ^ 5) p v := Iff.rfl
  generalize (1 / 10 ^ 5 : ℝ) = ε at *
  by_cases h : Near ε p v
  · rw [if_neg (by rw [this]; exact not_not.2 h)]; simp [h]
  · rw [if_pos (by rw [this]; exact h)]; simp [h]

theorem testAndAdd_eq {p : Polyline} {i j k : ℕ} {v1 v2 v3 : Vertex} (h1 : p.at i = .ok v1)
    (h2 : p.at j = .ok v2) (h3 : p.at k = .ok v3) (hv : SegOk v1 v2) (hu : SegOk v2 v3)
    (output : List PlineIntersect) :
    testAndAddIntersect p i j k output =
      .ok (output ++ (consecutivePoints v1 v2 v3).map fun x => ⟨i, j, x⟩) := by
  unfold testAndAddIntersect consecutivePoints
  rw [h1, h2, h3, ok_bind, ok_bind, ok_bind]
  have : fuzzyEqualV v1.pos v2.pos realPrecision ↔ Near (1 / 10 ^ 5) v1.pos v2.pos := Iff.rfl
  by_cases h : Near (1 / 10 ^ 5) v1.pos v2.pos
  · rw [if_pos (this.2 h), if_pos h]; rfl
  · rw [if_neg (fun c => h (this.1 c)), if_neg h, resOf_eq hv hu, ok_bind]
    cases resOf v1 v2 v2 v3 with
    | noIntersect => simp
    | oneIntersect a => simp only [addUnlessAt_eq, pure_eq_ok]
    | twoIntersects a b =>
      simp only [addUnlessAt_eq, pure_eq_ok]
      rw [show [a, b] = [a] ++ [b] from rfl, List.filter_append, List.map_append, List.append_assoc]
    | segmentOverlap a b => simp
    | arcOverlap a b => simp

theorem consecutiveHits_eq {p : Polyline} {i j : ℕ} {v1 v2 v3 : Vertex} (h1 : IsSeg p i v1 v2)
    (h2 : IsSeg p j v2 v3) (hj : j = if p.isClosed ∧ i + 1 = p.vertexes.length then 0 else i + 1) :
    consecutiveHits p i = (consecutivePoints v1 v2 v3).map fun x => ⟨i, j, x⟩ := by
  unfold consecutiveHits
  simp only
  rw [← hj, show (segs p)[i]? = _ from h1, show (segs p)[j]? = _ from h2]

/-- The pair of segments `i`, `i + 1`, or the last and the first. -/
theorem testAndAdd_hits {p : Polyline} (hp : PlineOk p) {i j : ℕ} (hj : j = nxt p i)
    (h3 : 3 ≤ p.size) (hi : i < p.size) (hc : p.isClosed = true ∨ i + 2 < p.size)
    (output : List PlineIntersect) :
    testAndAddIntersect p i j (nxt p j) output = .ok (output ++ consecutiveHits p i) := by
  have hjl : j < p.size := by rw [hj]; unfold nxt; split_ifs <;> omega
  have hkl : nxt p j < p.size := by unfold nxt; split_ifs <;> omega
  have hs : ∀ m, m < p.size → (p.isClosed = true ∨ m + 1 < p.size) →
      IsSeg p m (vtx p m) (vtx p (nxt p m)) := by
    intro m hm hc
    rw [isSeg_iff, segs_length, if_neg (by omega)]
    refine ⟨?_, rfl, ?_⟩
    · rcases hc with hc | hc
      · rw [hc]; simpa using hm
      · split_ifs <;> omega
    · unfold nxt; rfl
  have h1 := hs i hi (by rcases hc with h | h; · exact Or.inl h
                         · exact Or.inr (by omega))
  have h2 := hs j hjl (by
    rcases hc with h | h
    · exact Or.inl h
    · right; rw [hj]; unfold nxt; rw [if_neg (by omega)]; omega)
  rw [← hj] at h1
  rw [testAndAdd_eq (at_eq hi) (at_eq hjl) (at_eq hkl) (hp _ _ _ h1) (hp _ _ _ h2),
    consecutiveHits_eq h1 h2]
  rw [hj]
  unfold nxt
  have : p.vertexes.length = p.size := rfl
  rw [this]
  rcases hc with h | h
  · simp [h]
  · rw [if_neg (by omega), if_neg (by omega)]

theorem localLoop_eq {p : Polyline} (hp : PlineOk p) (h3 : 3 ≤ p.size) (k : ℕ) : ∀ i output,
    i + 2 + k ≤ p.size → localLoop p k (i + 2) output =
      .ok (output ++ (List.range' i k).flatMap (consecutiveHits p)) := by
  induction k with
  | zero => intro i output _; simp [localLoop]
  | succ k ih =>
    intro i output hk
    unfold localLoop
    have hn : nxt p i = i + 1 := by unfold nxt; rw [if_neg (by omega)]
    have hn' : nxt p (i + 1) = i + 2 := by unfold nxt; rw [if_neg (by omega)]
    have := testAndAdd_hits hp hn.symm h3 (by omega) (Or.inr (by omega)) output
    rw [hn'] at this
    rw [show i + 2 - 2 = i by omega, show i + 2 - 1 = i + 1 by omega, this, ok_bind,
      show i + 2 + 1 = (i + 1) + 2 by omega, ih (i + 1) _ (by omega), List.range'_succ,
      List.flatMap_cons, List.append_assoc]

/-- C35. `localSelfIntersects` on a polyline of at least three vertexes appends, for every two
consecutive segments in order (of a closed polyline also for the last and the first), what is
to be reported for them, and nothing else. -/
theorem C35_localSelfIntersects {p : Polyline} (h3 : 3 ≤ p.vertexes.length) (hp : PlineOk p)
    (output : List PlineIntersect) :
    localSelfIntersects p output =
      .ok (output ++ (List.range (segs p).length).flatMap (consecutiveHits p)) := by
  replace h3 : 3 ≤ p.size := h3
  unfold localSelfIntersects
  rw [if_neg (by omega), if_neg (by omega), localLoop_eq hp h3 _ 0 _ (by omega), ok_bind,
    segs_length, if_neg (show ¬ p.size < 2 by omega)]
  by_cases hc : p.isClosed = true
  · have e1 : nxt p (p.size - 2) = p.size - 1 := by unfold nxt; split_ifs <;> omega
    have e2 : nxt p (p.size - 1) = 0 := by unfold nxt; split_ifs <;> omega
    have e3 : nxt p 0 = 1 := by unfold nxt; split_ifs <;> omega
    have t1 := testAndAdd_hits hp (i := p.size - 2) e1.symm h3 (by omega) (Or.inl hc)
    have t2 := testAndAdd_hits hp (i := p.size - 1) e2.symm h3 (by omega) (Or.inl hc)
    rw [e2] at t1
    rw [e3] at t2
    rw [if_pos hc, if_pos hc, t1, ok_bind, t2, List.range_eq_range']
    obtain ⟨n, hn⟩ : ∃ n, p.size = n + 2 := ⟨p.size - 2, by omega⟩
    rw [hn, show n + 2 - 2 = n by omega, show n + 2 - 1 = n + 1 by omega,
      List.range'_concat, List.range'_concat]
    simp
  · rw [if_neg hc, if_neg hc, pure_eq_ok, List.range_eq_range']
    obtain ⟨n, hn⟩ : ∃ n, p.size = n + 2 := ⟨p.size - 2, by omega⟩
    rw [hn, show n + 2 - 2 = n by omega, show n + 2 - 1 = n + 1 by omega, List.range'_concat]
    have : consecutiveHits p n = [] := by
      unfold consecutiveHits
      simp only
      rw [if_neg (by rintro ⟨h, -⟩; exact hc h)]
      have : (segs p)[n + 1]? = none := by
        rw [List.getElem?_eq_none_iff, segs_length, if_neg (by omega), if_neg hc]; omega
      rw [this]
      cases (segs p)[0 + 1 * n]? <;> simp
    simp [this]

/-- C35: a polyline of fewer than three vertexes. Only a closed one of two vertexes can overlap
itself: when its two arcs have opposite bulges, and then both vertexes are reported. -/
theorem C35_small (p : Polyline) (output : List PlineIntersect) :
    (p.vertexes.length < 2 ∨ (p.vertexes.length = 2 ∧ p.isClosed = false) →
      localSelfIntersects p output = .ok output) ∧
    ∀ v w, p = ⟨true, [v, w]⟩ →
      (|v.bulge + w.bulge| < 1 / 10 ^ 8 →
        localSelfIntersects p output = .ok (output ++ [⟨0, 1, w.pos⟩, ⟨1, 0, v.pos⟩])) ∧
      (1 / 10 ^ 8 ≤ |v.bulge + w.bulge| → localSelfIntersects p output = .ok output) := by
  constructor
  · have e : p.vertexes.length = p.size := rfl
    rw [e]
    rintro (h | ⟨h, hc⟩)
    · unfold localSelfIntersects; rw [if_pos h]
    · unfold localSelfIntersects; rw [if_neg (by omega), if_pos h, hc]; rfl
  · rintro v w rfl
    have hz : fuzzyEqual v.bulge (-w.bulge) ↔ |v.bulge + w.bulge| < 1 / 10 ^ 8 := by
      unfold fuzzyEqual realThreshold; rw [sub_neg_eq_add]
    have hrun : localSelfIntersects ⟨true, [v, w]⟩ output = (if fuzzyEqual v.bulge (-w.bulge) then
        (.ok (output ++ [⟨0, 1, w.pos⟩] ++ [⟨1, 0, v.pos⟩])) else .ok output) := by
      unfold localSelfIntersects
      rw [if_neg (by simp [Polyline.size]), if_pos (by simp [Polyline.size])]
      rfl
    constructor
    · intro h
      rw [hrun, if_pos (hz.2 h)]; simp
    · intro h
      rw [hrun, if_neg (fun c => absurd (hz.1 c) (not_lt.2 h))]

/-- C35: when the two bulges are exactly opposite the two segments are the same point set. -/
theorem C35_small_overlap {v w : Vertex} (h : v.bulge = -w.bulge) (x : V2) :
    OnSeg v w x ↔ OnSeg w v x := by
  constructor
  · rintro ⟨t, h0, h1, ht⟩
    exact ⟨1 - t, by linarith, by linarith, (atParam_reverse rfl rfl h _ _).1 ht⟩
  · rintro ⟨t, h0, h1, ht⟩
    exact ⟨1 - t, by linarith, by linarith,
      (atParam_reverse (v1 := v) (v2 := w) rfl rfl (by rw [h, neg_neg]) _ _).1 ht⟩

/-- C35 is false for a closed polyline of two vertexes whose bulges are not opposite but both so
small that the segments count as straight: they are the same point set and nothing is reported. -/
theorem C35_small_witness : ∃ v w : Vertex, (∀ x, OnSeg v w x ↔ OnSeg w v x) ∧ v.pos ≠ w.pos ∧
    PlineOk ⟨true, [v, w]⟩ ∧ localSelfIntersects ⟨true, [v, w]⟩ [] = .ok [] := by
  refine ⟨⟨⟨0, 0⟩, 1 / 10 ^ 6⟩, ⟨⟨1, 0⟩, 0⟩, ?_, by simp, ?_, ?_⟩
  · have l1 : IsLine ⟨⟨0, 0⟩, 1 / 10 ^ 6⟩ := by
      unfold IsLine; rw [abs_of_pos (by norm_num)]; norm_num
    have l2 : IsLine ⟨⟨1, 0⟩, 0⟩ := by unfold IsLine; norm_num
    intro x
    constructor
    · rintro ⟨t, h0, h1, ht⟩
      rw [atParam_line l1] at ht
      refine ⟨1 - t, by linarith, by linarith, ?_⟩
      rw [atParam_line l2, ht]; ext <;> simp [lerp]
    · rintro ⟨t, h0, h1, ht⟩
      rw [atParam_line l2] at ht
      refine ⟨1 - t, by linarith, by linarith, ?_⟩
      rw [atParam_line l1, ht]; ext <;> simp [lerp]; ring
  · intro i v1 v2 h
    have hm := List.mem_of_getElem? h
    simp [segs] at hm
    rcases hm with ⟨rfl, -⟩ | ⟨rfl, -⟩
    · refine ⟨by simp; norm_num, fun hl => absurd ?_ hl⟩
      unfold IsLine; rw [abs_of_pos (by norm_num)]; norm_num
    · exact ⟨by norm_num, fun h => absurd (show |(0 : ℝ)| < 1 / 10 ^ 5 by norm_num) h⟩
  · exact ((C35_small _ []).2 _ _ rfl).2 (by
      rw [add_zero, abs_of_pos (by norm_num)]; norm_num)

/-- C35 needs the hypothesis that arcs have distinct ends although the function is meant to report
repeated vertexes: if the repeated vertex is the start of an arc the assertion of
`arcRadiusAndCenter` fails. -/
theorem C35_singular_arc_witness :
    localSelfIntersects ⟨false, [⟨⟨0, 0⟩, 0⟩, ⟨⟨1, 0⟩, 1⟩, ⟨⟨1, 0⟩, 0⟩]⟩ [] =
      .error .assertFailed := by
  have hz : (⟨⟨0, 0⟩, 0⟩ : Vertex).bulgeIsZero := by norm_num [Vertex.bulgeIsZero, realPrecision]
  have hz' : ¬ (⟨⟨1, 0⟩, 1⟩ : Vertex).bulgeIsZero := by norm_num [Vertex.bulgeIsZero, realPrecision]
  have h1 : intrPlineSegs ⟨⟨0, 0⟩, 0⟩ ⟨⟨1, 0⟩, 1⟩ ⟨⟨1, 0⟩, 1⟩ ⟨⟨1, 0⟩, 0⟩ = .error .assertFailed := by
    unfold intrPlineSegs
    rw [if_neg (fun c => hz' c.2), if_pos hz]
    unfold processLineArcIntr arcRadiusAndCenter
    rw [assertP_pos (show ¬ (⟨⟨1, 0⟩, 1⟩ : Vertex).bulgeIsZero from hz'), ok_bind,
      assertP_neg (by unfold fuzzyEqualV fuzzyEqual realThreshold; norm_num)]
    rfl
  have h2 : testAndAddIntersect ⟨false, [⟨⟨0, 0⟩, 0⟩, ⟨⟨1, 0⟩, 1⟩, ⟨⟨1, 0⟩, 0⟩]⟩ 0 1 2 [] =
      .error .assertFailed := by
    unfold testAndAddIntersect
    rw [show Polyline.at _ 0 = .ok (⟨⟨0, 0⟩, 0⟩ : Vertex) from rfl,
      show Polyline.at _ 1 = .ok (⟨⟨1, 0⟩, 1⟩ : Vertex) from rfl,
      show Polyline.at _ 2 = .ok (⟨⟨1, 0⟩, 0⟩ : Vertex) from rfl, ok_bind, ok_bind, ok_bind, if_neg, h1]
    · rfl
    · unfold fuzzyEqualV fuzzyEqual realPrecision; norm_num
  unfold localSelfIntersects
  rw [if_neg (by simp [Polyline.size]), if_neg (by simp [Polyline.size]),
    show Polyline.size ⟨false, [⟨⟨0, 0⟩, 0⟩, ⟨⟨1, 0⟩, 1⟩, ⟨⟨1, 0⟩, 0⟩]⟩ - 2 = 1 from rfl]
  unfold localLoop
  rw [show 2 - 2 = 0 from rfl, show 2 - 1 = 1 from rfl, h2]
  rfl

/-- C35 applied: a closed triangle meets the hypotheses. -/
example : let p : Polyline := ⟨true, [⟨⟨0, 0⟩, 0⟩, ⟨⟨2, 0⟩, 0⟩, ⟨⟨0, 1⟩, 0⟩]⟩
    ∃ out, localSelfIntersects p [] = .ok out := by
  intro p
  refine ⟨_, C35_localSelfIntersects (p := p) (by simp [p]) ?_ []⟩
  intro i v1 v2 h
  have hm := List.mem_of_getElem? h
  simp [segs, p] at hm
  rcases hm with ⟨rfl, -⟩ | ⟨rfl, -⟩ | ⟨rfl, -⟩ <;>
    exact ⟨by norm_num, fun h => absurd (show |(0 : ℝ)| < 1 / 10 ^ 5 by norm_num) h⟩

/-- A non empty contribution: going back over the first half of the segment before. -/
example : consecutivePoints ⟨⟨0, 0⟩, 0⟩ ⟨⟨2, 0⟩, 0⟩ ⟨⟨1, 0⟩, 0⟩ ≠ [] := by
  have hz : ∀ x : V2, (⟨x, 0⟩ : Vertex).bulgeIsZero := by
    intro x; norm_num [Vertex.bulgeIsZero, realPrecision]
  have h : ∃ a b, intrPlineSegs ⟨⟨0, 0⟩, 0⟩ ⟨⟨2, 0⟩, 0⟩ ⟨⟨2, 0⟩, 0⟩ ⟨⟨1, 0⟩, 0⟩ =
      .ok (.segmentOverlap a b) := by
    unfold intrPlineSegs
    rw [if_pos ⟨hz _, hz _⟩]
    have : ∃ a b, intrLineSeg2LineSeg2 ⟨0, 0⟩ ⟨2, 0⟩ ⟨2, 0⟩ ⟨1, 0⟩ = .coincident a b := by
      unfold intrLineSeg2LineSeg2
      norm_num [perpDot, realThreshold, fuzzyEqualV, fuzzyEqual, realPrecision,
        collinearOverlap]
    obtain ⟨a, b, h⟩ := this
    rw [h]
    exact ⟨_, _, rfl⟩
  obtain ⟨a, b, h⟩ := h
  unfold consecutivePoints
  rw [if_neg (by norm_num [Near]), h]
  simp

end
end Cavc

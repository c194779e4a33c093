import Verif.Proofs.IndexUse
import Verif.Props.SegIntrSame
import Verif.Spec.Intersects

/-! The run of `findIntersects`. -/
namespace Cavc
open Spec
open scoped Classical
noncomputable section

/-- The result of the segment test, `noIntersect` if it faults. -/
def resOf (v1 v2 u1 u2 : Vertex) : SegIntr :=
  match intrPlineSegs v1 v2 u1 u2 with
  | .ok r => r
  | .error _ => .noIntersect

theorem resOf_eq {v1 v2 u1 u2 : Vertex} (hv : SegOk v1 v2) (hu : SegOk u1 u2) :
    intrPlineSegs v1 v2 u1 u2 = .ok (resOf v1 v2 u1 u2) := by
  obtain ⟨res, h⟩ := C50_no_fault hv hu
  unfold resOf
  rw [h]

/-- The isolated points of a result. -/
def ptsOf : SegIntr → List V2
  | .noIntersect => []
  | .oneIntersect p => [p]
  | .twoIntersects p q => [p, q]
  | .segmentOverlap _ _ => []
  | .arcOverlap _ _ => []

/-- The overlap of a result. -/
def overlapOf : SegIntr → List (V2 × V2)
  | .segmentOverlap p q => [(p, q)]
  | .arcOverlap p q => [(p, q)]
  | _ => []

theorem mem_ptsOf {v1 v2 u1 u2 : Vertex} (hv : SegOk v1 v2) (hu : SegOk u1 u2) (x : V2) :
    x ∈ ptsOf (resOf v1 v2 u1 u2) ↔ PointHit v1 v2 u1 u2 x := by
  unfold PointHit
  rw [resOf_eq hv hu]
  cases resOf v1 v2 u1 u2 <;> simp [ptsOf, eq_comm]
  rename_i p q
  constructor
  · rintro (rfl | rfl)
    · exact ⟨q, Or.inl ⟨rfl, rfl⟩⟩
    · exact ⟨p, Or.inr ⟨rfl, rfl⟩⟩
  · rintro ⟨y, ⟨rfl, -⟩ | ⟨-, rfl⟩⟩
    · exact Or.inl rfl
    · exact Or.inr rfl

theorem mem_overlapOf {v1 v2 u1 u2 : Vertex} (hv : SegOk v1 v2) (hu : SegOk u1 u2) (a b : V2) :
    (a, b) ∈ overlapOf (resOf v1 v2 u1 u2) ↔ OverlapHit v1 v2 u1 u2 a b := by
  unfold OverlapHit
  rw [resOf_eq hv hu]
  cases resOf v1 v2 u1 u2 <;> simp [overlapOf, eq_comm]

/-- Next vertex index. -/
def nxt (p : Polyline) (i : ℕ) : ℕ := if i + 1 = p.size then 0 else i + 1

theorem seg_lt {p : Polyline} {i : ℕ} {v1 v2 : Vertex} (h : IsSeg p i v1 v2) :
    i < p.size ∧ nxt p i < p.size ∧ 2 ≤ p.size ∧ v1 = vtx p i ∧ v2 = vtx p (nxt p i) := by
  rw [isSeg_iff, segs_length] at h
  unfold nxt
  obtain ⟨h, h1, h2⟩ := h
  by_cases h3 : p.size < 2
  · rw [if_pos h3] at h; omega
  · rw [if_neg h3] at h
    refine ⟨by split_ifs at h <;> omega, by split_ifs at h ⊢ <;> omega, by omega, h1, h2⟩

theorem seg_next {p : Polyline} {i : ℕ} {v1 v2 : Vertex} (h : IsSeg p i v1 v2) :
    nextWrappingIndex i p.size = nxt p i := by
  have := seg_lt h
  unfold nextWrappingIndex nxt
  split_ifs <;> omega

theorem seg_at {p : Polyline} {i : ℕ} {v1 v2 : Vertex} (h : IsSeg p i v1 v2) :
    p.at i = .ok v1 ∧ p.at (nextWrappingIndex i p.size) = .ok v2 := by
  obtain ⟨h1, h2, -, h3, h4⟩ := seg_lt h
  rw [seg_next h, at_eq h1, at_eq h2, h3, h4]
  exact ⟨rfl, rfl⟩

theorem isSeg_inj {p : Polyline} {i : ℕ} {v1 v2 w1 w2 : Vertex} (h : IsSeg p i v1 v2)
    (h' : IsSeg p i w1 w2) : v1 = w1 ∧ v2 = w2 := by
  unfold IsSeg at h h'
  rw [h] at h'
  simpa using h'

theorem addUnlessStart_eq (v1 u1 : Vertex) (i j : ℕ) (p : V2) (l : List PlineIntersect) :
    addUnlessStart v1 u1 i j p l = l ++ (([p].filter fun p => ¬ intrAtStartPt v1 u1 p).map
      fun p => ⟨i, j, p⟩) := by
  unfold addUnlessStart
  by_cases h : intrAtStartPt v1 u1 p <;> simp [h]

/-- The intersects a pair adds. -/
def pairIntrs (v1 v2 u1 u2 : Vertex) (i1 i2 : ℕ) : List PlineIntersect :=
  ((ptsOf (resOf v1 v2 u1 u2)).filter fun p => ¬ intrAtStartPt v1 u1 p).map fun p => ⟨i1, i2, p⟩

/-- The coincident intersects a pair adds. -/
def pairCoin (v1 v2 u1 u2 : Vertex) (i1 i2 : ℕ) : List CoincidentIntersect :=
  (overlapOf (resOf v1 v2 u1 u2)).map fun x => ⟨i1, i2, x.1, x.2⟩

/-- The possible duplicates a pair adds. -/
def pairDups (p1 p2 : Polyline) (v1 v2 u1 u2 : Vertex) (i1 i2 : ℕ) : List (ℕ × ℕ) :=
  (overlapOf (resOf v1 v2 u1 u2)).flatMap fun x =>
    (if fuzzyEqualV u1.pos x.1 ∨ fuzzyEqualV u1.pos x.2
      then [(i1, prevWrappingIndex i2 p2.size)] else []) ++
    (if fuzzyEqualV v1.pos x.1 ∨ fuzzyEqualV v1.pos x.2
      then [(prevWrappingIndex i1 p1.size, i2)] else [])

/-- One pair added to the state. -/
def FindState.add (st : FindState) (c : FindState) : FindState :=
  ⟨st.intrs ++ c.intrs, st.coincidentIntrs ++ c.coincidentIntrs,
    c.possibleDuplicates ++ st.possibleDuplicates⟩

/-- What a pair adds. -/
def pairAdds (p1 p2 : Polyline) (v1 v2 u1 u2 : Vertex) (i1 i2 : ℕ) : FindState :=
  ⟨pairIntrs v1 v2 u1 u2 i1 i2, pairCoin v1 v2 u1 u2 i1 i2, pairDups p1 p2 v1 v2 u1 u2 i1 i2⟩

theorem findStep_eq {p1 p2 : Polyline} {i1 i2 : ℕ} {v1 v2 u1 u2 : Vertex} (h1 : IsSeg p1 i1 v1 v2)
    (hv : SegOk v1 v2) (hu : SegOk u1 u2) (st : FindState) :
    findStep p1 p2 u1 u2 i2 st i1 = .ok (st.add (pairAdds p1 p2 v1 v2 u1 u2 i1 i2)) := by
  unfold findStep
  obtain ⟨a1, a2⟩ := seg_at h1
  simp only
  rw [a1, a2, ok_bind, ok_bind, resOf_eq hv hu, ok_bind]
  unfold FindState.add pairAdds pairIntrs pairCoin pairDups
  cases resOf v1 v2 u1 u2 with
  | noIntersect => simp [ptsOf, overlapOf]
  | oneIntersect p =>
    simp only [addUnlessStart_eq, ptsOf, overlapOf, pure_eq_ok, List.map_nil, List.append_nil,
      List.flatMap_nil, List.nil_append]
  | twoIntersects p q =>
    simp only [addUnlessStart_eq, ptsOf, overlapOf, pure_eq_ok, List.map_nil, List.append_nil,
      List.flatMap_nil, List.nil_append]
    congr 2
    rw [show [p, q] = [p] ++ [q] from rfl, List.filter_append, List.map_append, List.append_assoc]
  | segmentOverlap p q =>
    simp only [addCoincident, ptsOf, overlapOf, pure_eq_ok, List.map_nil, List.append_nil,
      List.map_cons, List.filter_nil]
    congr 2
    simp only [List.flatMap_cons, List.flatMap_nil]
    split_ifs <;> simp
  | arcOverlap p q =>
    simp only [addCoincident, ptsOf, overlapOf, pure_eq_ok, List.map_nil, List.append_nil,
      List.map_cons, List.filter_nil]
    congr 2
    simp only [List.flatMap_cons, List.flatMap_nil]
    split_ifs <;> simp

theorem foldlM_addState {β : Type} (f : FindState → β → M FindState) (c : β → FindState) (l : List β)
    (h : ∀ x ∈ l, ∀ st, f st x = .ok (st.add (c x))) (st : FindState) :
    ∃ r, l.foldlM f st = .ok r ∧ r.intrs = st.intrs ++ l.flatMap (fun x => (c x).intrs) ∧
      r.coincidentIntrs = st.coincidentIntrs ++ l.flatMap (fun x => (c x).coincidentIntrs) ∧
      ∀ d, d ∈ r.possibleDuplicates ↔ d ∈ st.possibleDuplicates ∨
        ∃ x ∈ l, d ∈ (c x).possibleDuplicates := by
  induction l generalizing st with
  | nil => exact ⟨st, rfl, by simp, by simp, by simp⟩
  | cons a l ih =>
    obtain ⟨r, h1, h2, h3, h4⟩ := ih (fun x hx => h x (by simp [hx])) (st.add (c a))
    refine ⟨r, ?_, ?_, ?_, ?_⟩
    · rw [List.foldlM_cons, h a (by simp) st, ok_bind, h1]
    · rw [h2]; simp [FindState.add, List.append_assoc]
    · rw [h3]; simp [FindState.add, List.append_assoc]
    · intro d
      rw [h4]
      simp only [FindState.add, List.mem_append, List.mem_cons]
      constructor
      · rintro ((h | h) | ⟨x, hx, h⟩)
        · exact Or.inr ⟨a, Or.inl rfl, h⟩
        · exact Or.inl h
        · exact Or.inr ⟨x, Or.inr hx, h⟩
      · rintro (hh | ⟨x, hx | hx, hh⟩)
        · exact Or.inl (Or.inr hh)
        · subst hx; exact Or.inl (Or.inl hh)
        · exact Or.inr ⟨x, hx, hh⟩

theorem foldlM_flatMap {σ β γ : Type} (f : σ → β → M σ) (g : σ → γ → M σ) (k : β → List γ) (l : List β)
    (h : ∀ x ∈ l, ∀ st, f st x = (k x).foldlM g st) (st : σ) :
    l.foldlM f st = (l.flatMap k).foldlM g st := by
  induction l generalizing st with
  | nil => rfl
  | cons a l ih =>
    rw [List.foldlM_cons, h a (by simp) st, List.flatMap_cons, List.foldlM_append]
    congr 1
    funext s
    exact ih (fun x hx => h x (by simp [hx])) s

theorem removeIfM_eq {α : Type} (pred : α → M Bool) (b : α → Prop) (l : List α)
    (h : ∀ x ∈ l, pred x = .ok (decide (b x))) :
    removeIfM pred l = .ok (l.filter fun x => ¬ b x) := by
  induction l with
  | nil => rfl
  | cons a l ih =>
    unfold removeIfM
    rw [h a (by simp), ok_bind, ih (fun x hx => h x (by simp [hx])), ok_bind]
    by_cases hb : b a <;> simp [hb]

/-- The pairs of segments the search compares. -/
theorem find_run {p1 p2 : Polyline} {s : SIndex ℝ} (hs : IndexOf (segBoxes p1) s)
    (h1 : PlineOk p1) (h2 : PlineOk p2) (st : FindState) :
    ∃ l : List (Vertex × Vertex × Vertex × Vertex × ℕ × ℕ),
      l.Nodup ∧
      (∀ v1 v2 u1 u2 i1 i2, (v1, v2, u1, u2, i1, i2) ∈ l ↔ IsSeg p1 i1 v1 v2 ∧ IsSeg p2 i2 u1 u2 ∧
        BoxesClose (1 / 10 ^ 5) v1 v2 u1 u2) ∧
      ∃ r, p2.visitSegIndices (allSegs p2 (findSegVisitor p1 p2 s)) st = .ok r ∧
        r.intrs = st.intrs ++ l.flatMap (fun x => pairIntrs x.1 x.2.1 x.2.2.1 x.2.2.2.1 x.2.2.2.2.1 x.2.2.2.2.2) ∧
        r.coincidentIntrs = st.coincidentIntrs ++
          l.flatMap (fun x => pairCoin x.1 x.2.1 x.2.2.1 x.2.2.2.1 x.2.2.2.2.1 x.2.2.2.2.2) ∧
        ∀ d, d ∈ r.possibleDuplicates ↔ d ∈ st.possibleDuplicates ∨
          ∃ x ∈ l, d ∈ pairDups p1 p2 x.1 x.2.1 x.2.2.1 x.2.2.2.1 x.2.2.2.2.1 x.2.2.2.2.2 := by
  choose r hnd hmem hq _ using hs.queryM
  set box : Vertex → Vertex → Box ℝ := fun u1 u2 =>
    let bb := createFastApproxBoundingBox u1 u2
    ⟨bb.xMin - realPrecision, bb.yMin - realPrecision, bb.xMax + realPrecision,
      bb.yMax + realPrecision⟩ with hbox
  have hclose : ∀ u1 u2 i, i ∈ r (box u1 u2) ↔ ∃ v1 v2, IsSeg p1 i v1 v2 ∧
      BoxesClose (1 / 10 ^ 5) v1 v2 u1 u2 := by
    intro u1 u2 i
    rw [hmem]
    constructor
    · rintro ⟨b, hb, ho⟩
      obtain ⟨v1, v2, hseg, rfl⟩ := segBoxes_get.1 hb
      exact ⟨v1, v2, hseg, ho⟩
    · rintro ⟨v1, v2, hseg, ho⟩
      exact ⟨_, segBoxes_get.2 ⟨v1, v2, hseg, rfl⟩, ho⟩
  set k : Vertex × Vertex × ℕ → List (Vertex × Vertex × Vertex × Vertex × ℕ × ℕ) := fun x =>
    (r (box x.1 x.2.1)).map fun i1 => (vtx p1 i1, vtx p1 (nxt p1 i1), x.1, x.2.1, i1, x.2.2) with hk
  refine ⟨(visitList p2).flatMap k, ?_, ?_, ?_⟩
  · rw [List.nodup_flatMap]
    refine ⟨fun x _ => ?_, ?_⟩
    · refine List.Nodup.map ?_ (hnd _)
      intro a b hab
      simp only [Prod.mk.injEq] at hab
      exact hab.2.2.2.2.1
    · have hnd2 : ((visitList p2).map fun x => x.2.2).Nodup := by
        have := (visitList_perm p2).map (fun x => x.2.2)
        rw [this.nodup_iff, List.map_map]
        show ((segs p2).zipIdx.map Prod.snd).Nodup
        rw [List.zipIdx_map_snd]
        exact List.nodup_range'
      have := List.pairwise_map.1 hnd2
      refine this.imp ?_
      intro a b hab c hc hc'
      simp only [hk, List.mem_map] at hc hc'
      obtain ⟨i, -, rfl⟩ := hc
      obtain ⟨j, -, hj⟩ := hc'
      simp only [Prod.mk.injEq] at hj
      exact hab hj.2.2.2.2.2.symm
  · intro v1 v2 u1 u2 i1 i2
    simp only [List.mem_flatMap, hk, List.mem_map, Prod.mk.injEq, Prod.exists]
    constructor
    · rintro ⟨a, b, c, hm, i, hi, rfl, rfl, rfl, rfl, rfl, rfl⟩
      obtain ⟨v1, v2, hseg, hc⟩ := (hclose _ _ _).1 hi
      obtain ⟨-, -, -, e1, e2⟩ := seg_lt hseg
      rw [← e1, ← e2]
      exact ⟨hseg, mem_visitList.1 hm, hc⟩
    · rintro ⟨hseg, hs2, hc⟩
      obtain ⟨-, -, -, e1, e2⟩ := seg_lt hseg
      exact ⟨u1, u2, i2, mem_visitList.2 hs2, i1, (hclose _ _ _).2 ⟨v1, v2, hseg, hc⟩, e1.symm,
        e2.symm, rfl, rfl, rfl, rfl⟩
  · rw [visitAll_eq, foldlM_flatMap _ (fun st (x : Vertex × Vertex × Vertex × Vertex × ℕ × ℕ) => findStep p1 p2 x.2.2.1 x.2.2.2.1 x.2.2.2.2.2 st x.2.2.2.2.1) k]
    · refine foldlM_addState _
        (fun x : Vertex × Vertex × Vertex × Vertex × ℕ × ℕ => pairAdds p1 p2 x.1 x.2.1 x.2.2.1 x.2.2.2.1 x.2.2.2.2.1 x.2.2.2.2.2) _ ?_ st
      rintro ⟨v1, v2, u1, u2, i1, i2⟩ hx st
      simp only [List.mem_flatMap, hk, List.mem_map, Prod.mk.injEq, Prod.exists] at hx
      obtain ⟨a, b, c, hm, i, hi, rfl, rfl, rfl, rfl, rfl, rfl⟩ := hx
      obtain ⟨v1, v2, hseg, hc⟩ := (hclose _ _ _).1 hi
      obtain ⟨-, -, -, e1, e2⟩ := seg_lt hseg
      simp only
      rw [← e1, ← e2]
      exact findStep_eq hseg (h1 _ _ _ hseg) (h2 _ _ _ (mem_visitList.1 hm)) st
    · rintro ⟨u1, u2, i2⟩ _ st
      simp only [hk, findSegVisitor]
      rw [show (⟨(createFastApproxBoundingBox u1 u2).xMin - realPrecision,
        (createFastApproxBoundingBox u1 u2).yMin - realPrecision,
        (createFastApproxBoundingBox u1 u2).xMax + realPrecision,
        (createFastApproxBoundingBox u1 u2).yMax + realPrecision⟩ : Box ℝ) = box u1 u2 from rfl, hq,
        ok_bind, List.foldlM_map]

end
end Cavc

import Verif.Proofs.FindIntr
import Verif.Props.PlineIndex

/-!
C33: the search for intersects of two polylines.
-/
namespace Cavc
open Spec
open scoped Classical
noncomputable section

theorem near_iff {a b : V2} {ε : ℝ} : fuzzyEqualV a b ε ↔ Near ε a b := Iff.rfl

theorem near8_iff {a b : V2} : fuzzyEqualV a b ↔ Near (1 / 10 ^ 8) a b := Iff.rfl

theorem mem_pairIntrs {v1 v2 u1 u2 : Vertex} (hv : SegOk v1 v2) (hu : SegOk u1 u2) {i1 i2 : ℕ}
    {y : PlineIntersect} : y ∈ pairIntrs v1 v2 u1 u2 i1 i2 ↔ y.sIndex1 = i1 ∧ y.sIndex2 = i2 ∧
      PointHit v1 v2 u1 u2 y.pos ∧ ¬ Near (1 / 10 ^ 8) v1.pos y.pos ∧ ¬ Near (1 / 10 ^ 8) u1.pos y.pos := by
  unfold pairIntrs
  rw [List.mem_map]
  constructor
  · rintro ⟨x, hx, rfl⟩
    rw [List.mem_filter, mem_ptsOf hv hu] at hx
    have h := of_decide_eq_true hx.2
    unfold intrAtStartPt at h
    rw [not_or] at h
    exact ⟨rfl, rfl, hx.1, h.1, h.2⟩
  · rintro ⟨rfl, rfl, h1, h2, h3⟩
    refine ⟨y.pos, ?_, rfl⟩
    rw [List.mem_filter, mem_ptsOf hv hu]
    exact ⟨h1, decide_eq_true (by unfold intrAtStartPt; rw [not_or]; exact ⟨h2, h3⟩)⟩

theorem mem_pairCoin {v1 v2 u1 u2 : Vertex} (hv : SegOk v1 v2) (hu : SegOk u1 u2) {i1 i2 : ℕ}
    {y : CoincidentIntersect} : y ∈ pairCoin v1 v2 u1 u2 i1 i2 ↔ y.sIndex1 = i1 ∧ y.sIndex2 = i2 ∧
      OverlapHit v1 v2 u1 u2 y.point1 y.point2 := by
  unfold pairCoin
  rw [List.mem_map]
  constructor
  · rintro ⟨⟨a, b⟩, hx, rfl⟩
    rw [mem_overlapOf hv hu] at hx
    exact ⟨rfl, rfl, hx⟩
  · rintro ⟨rfl, rfl, h⟩
    exact ⟨(y.point1, y.point2), (mem_overlapOf hv hu _ _).2 h, rfl⟩

theorem prev_iff {n i j : ℕ} (hi : i < n) (hj : j < n) : prevWrappingIndex i n = j ↔ IsPrev n i j := by
  unfold prevWrappingIndex IsPrev
  split_ifs <;> omega

/-- C33. For valid polylines (the first one indexable) `findIntersects` does not fault. It reports
exactly the overlaps the segment test reports for pairs of segments with close bounding boxes, and
exactly the isolated intersects it reports for such pairs that are not at the start of one of the two
segments and do not repeat an end of a reported overlap; no pair of segments comes more often than the
segment test reports points. -/
theorem C33_findIntersects {pf : Platform} {p1 p2 : Polyline} (hi : Indexable pf p1)
    (h1 : PlineOk p1) (h2 : PlineOk p2) :
    ∃ s out, createApproxSpatialIndex pf p1 = .ok s ∧ findIntersects p1 p2 s ⟨[], []⟩ = .ok out ∧
      (∀ i1 i2 a b, ⟨i1, i2, a, b⟩ ∈ out.coincidentIntersects ↔
        ∃ v1 v2 u1 u2, IsSeg p1 i1 v1 v2 ∧ IsSeg p2 i2 u1 u2 ∧
          BoxesClose (1 / 10 ^ 5) v1 v2 u1 u2 ∧ OverlapHit v1 v2 u1 u2 a b) ∧
      (∀ i1 i2 x, ⟨i1, i2, x⟩ ∈ out.intersects ↔
        ∃ v1 v2 u1 u2, IsSeg p1 i1 v1 v2 ∧ IsSeg p2 i2 u1 u2 ∧
          BoxesClose (1 / 10 ^ 5) v1 v2 u1 u2 ∧ PointHit v1 v2 u1 u2 x ∧
          ¬ Near (1 / 10 ^ 8) v1.pos x ∧ ¬ Near (1 / 10 ^ 8) u1.pos x ∧
          ¬ (RepeatsOverlap p1 p2 out.coincidentIntersects i1 i2 ∧
            (Near (1 / 10 ^ 8) x v2.pos ∨ Near (1 / 10 ^ 8) x u2.pos))) ∧
      (∀ i1 i2, (out.coincidentIntersects.filter fun c => c.sIndex1 = i1 ∧ c.sIndex2 = i2).length ≤ 1 ∧
        (out.intersects.filter fun c => c.sIndex1 = i1 ∧ c.sIndex2 = i2).length ≤ 2 ∧
        ∀ v1 v2 u1 u2 r, IsSeg p1 i1 v1 v2 → IsSeg p2 i2 u1 u2 → intrPlineSegs v1 v2 u1 u2 = .ok r →
          (out.intersects.filter fun c => c.sIndex1 = i1 ∧ c.sIndex2 = i2).length ≤ (reported r).length) := by
  obtain ⟨s, hs, hidx⟩ := hi.indexOf
  obtain ⟨l, hnd, hl, r, hr, ra, rb, rd⟩ := find_run hidx h1 h2 ⟨[], [], []⟩
  simp only [List.nil_append, List.not_mem_nil, false_or] at ra rb rd
  have hA : ∀ y : PlineIntersect, y ∈ r.intrs ↔ ∃ v1 v2 u1 u2, IsSeg p1 y.sIndex1 v1 v2 ∧
      IsSeg p2 y.sIndex2 u1 u2 ∧ BoxesClose (1 / 10 ^ 5) v1 v2 u1 u2 ∧ PointHit v1 v2 u1 u2 y.pos ∧
      ¬ Near (1 / 10 ^ 8) v1.pos y.pos ∧ ¬ Near (1 / 10 ^ 8) u1.pos y.pos := by
    intro y
    rw [ra, List.mem_flatMap]
    constructor
    · rintro ⟨⟨v1, v2, u1, u2, i1, i2⟩, hm, hy⟩
      obtain ⟨a, b, c⟩ := (hl _ _ _ _ _ _).1 hm
      obtain ⟨rfl, rfl, d⟩ := (mem_pairIntrs (h1 _ _ _ a) (h2 _ _ _ b)).1 hy
      exact ⟨v1, v2, u1, u2, a, b, c, d⟩
    · rintro ⟨v1, v2, u1, u2, a, b, c, d⟩
      exact ⟨(v1, v2, u1, u2, y.sIndex1, y.sIndex2), (hl _ _ _ _ _ _).2 ⟨a, b, c⟩,
        (mem_pairIntrs (h1 _ _ _ a) (h2 _ _ _ b)).2 ⟨rfl, rfl, d⟩⟩
  have hB : ∀ y : CoincidentIntersect, y ∈ r.coincidentIntrs ↔ ∃ v1 v2 u1 u2,
      IsSeg p1 y.sIndex1 v1 v2 ∧ IsSeg p2 y.sIndex2 u1 u2 ∧ BoxesClose (1 / 10 ^ 5) v1 v2 u1 u2 ∧
      OverlapHit v1 v2 u1 u2 y.point1 y.point2 := by
    intro y
    rw [rb, List.mem_flatMap]
    constructor
    · rintro ⟨⟨v1, v2, u1, u2, i1, i2⟩, hm, hy⟩
      obtain ⟨a, b, c⟩ := (hl _ _ _ _ _ _).1 hm
      obtain ⟨rfl, rfl, d⟩ := (mem_pairCoin (h1 _ _ _ a) (h2 _ _ _ b)).1 hy
      exact ⟨v1, v2, u1, u2, a, b, c, d⟩
    · rintro ⟨v1, v2, u1, u2, a, b, c, d⟩
      exact ⟨(v1, v2, u1, u2, y.sIndex1, y.sIndex2), (hl _ _ _ _ _ _).2 ⟨a, b, c⟩,
        (mem_pairCoin (h1 _ _ _ a) (h2 _ _ _ b)).2 ⟨rfl, rfl, d⟩⟩
  have hD : ∀ {i1 i2 v1 v2 u1 u2}, IsSeg p1 i1 v1 v2 → IsSeg p2 i2 u1 u2 →
      ((i1, i2) ∈ r.possibleDuplicates ↔ RepeatsOverlap p1 p2 r.coincidentIntrs i1 i2) := by
    intro i1 i2 v1 v2 u1 u2 hs1 hs2
    have l1 := (seg_lt hs1).1
    have l2 := (seg_lt hs2).1
    rw [rd]
    constructor
    · rintro ⟨⟨w1, w2, x1, x2, j1, j2⟩, hm, hy⟩
      obtain ⟨a, b, c⟩ := (hl _ _ _ _ _ _).1 hm
      have m1 := (seg_lt a).1
      have m2 := (seg_lt b).1
      unfold pairDups at hy
      rw [List.mem_flatMap] at hy
      obtain ⟨⟨q1, q2⟩, hq, hy⟩ := hy
      have ho := (mem_overlapOf (h1 _ _ _ a) (h2 _ _ _ b) _ _).1 hq
      refine ⟨⟨j1, j2, q1, q2⟩, (hB _).2 ⟨w1, w2, x1, x2, a, b, c, ho⟩, w1, w2, x1, x2, a, b, ?_⟩
      rw [List.mem_append] at hy
      rcases hy with hy | hy
      · split_ifs at hy with hc
        · simp only [List.mem_singleton, Prod.mk.injEq] at hy
          obtain ⟨rfl, rfl⟩ := hy
          exact Or.inr ⟨rfl, (prev_iff m2 l2).1 rfl, hc⟩
        · simp at hy
      · split_ifs at hy with hc
        · simp only [List.mem_singleton, Prod.mk.injEq] at hy
          obtain ⟨rfl, rfl⟩ := hy
          exact Or.inl ⟨(prev_iff m1 l1).1 rfl, rfl, hc⟩
        · simp at hy
    · rintro ⟨⟨j1, j2, q1, q2⟩, hc, w1, w2, x1, x2, a, b, hcase⟩
      obtain ⟨w1', w2', x1', x2', a', b', cl, ho⟩ := (hB _).1 hc
      obtain ⟨rfl, rfl⟩ := isSeg_inj a a'
      obtain ⟨rfl, rfl⟩ := isSeg_inj b b'
      simp only at a b ho hcase
      refine ⟨(w1, w2, x1, x2, j1, j2), (hl _ _ _ _ _ _).2 ⟨a, b, cl⟩, ?_⟩
      unfold pairDups
      rw [List.mem_flatMap]
      refine ⟨(q1, q2), (mem_overlapOf (h1 _ _ _ a) (h2 _ _ _ b) _ _).2 ho, ?_⟩
      rw [List.mem_append]
      rcases hcase with ⟨e1, rfl, hn⟩ | ⟨rfl, e2, hn⟩
      · right
        simp only
        rw [if_pos (show fuzzyEqualV w1.pos q1 ∨ fuzzyEqualV w1.pos q2 from hn),
          (prev_iff (seg_lt a).1 l1).2 e1]
        simp
      · left
        simp only
        rw [if_pos (show fuzzyEqualV x1.pos q1 ∨ fuzzyEqualV x1.pos q2 from hn),
          (prev_iff (seg_lt b).1 l2).2 e2]
        simp
  obtain ⟨dupP, hdup⟩ : ∃ P : PlineIntersect → Prop, P = fun y => (y.sIndex1, y.sIndex2) ∈ r.possibleDuplicates ∧
    (Near (1 / 10 ^ 8) y.pos (vtx p1 (nextWrappingIndex y.sIndex1 p1.size)).pos ∨
      Near (1 / 10 ^ 8) y.pos (vtx p2 (nextWrappingIndex y.sIndex2 p2.size)).pos) := ⟨_, rfl⟩
  have hrem : removeIfM (isDuplicate p1 p2 r.possibleDuplicates) r.intrs =
      .ok (r.intrs.filter fun y => ¬ dupP y) := by
    apply removeIfM_eq
    intro y hy
    obtain ⟨v1, v2, u1, u2, a, b, -⟩ := (hA y).1 hy
    unfold isDuplicate
    by_cases hm : (y.sIndex1, y.sIndex2) ∈ r.possibleDuplicates
    · rw [if_neg (not_not.2 hm)]
      have e1 := (seg_at a).2
      have e2 := (seg_at b).2
      have f1 : vtx p1 (nextWrappingIndex y.sIndex1 p1.size) = v2 := by
        rw [seg_next a, (seg_lt a).2.2.2.2]
      have f2 : vtx p2 (nextWrappingIndex y.sIndex2 p2.size) = u2 := by
        rw [seg_next b, (seg_lt b).2.2.2.2]
      rw [e1, ok_bind, e2]
      simp only [hdup, f1, f2, hm, true_and]
      by_cases hc : fuzzyEqualV y.pos v2.pos
      · rw [if_pos hc, pure_eq_ok]
        congr 1
        exact (decide_eq_true (Or.inl hc)).symm
      · rw [if_neg hc, ok_bind, pure_eq_ok]
        congr 1
        rw [decide_eq_decide]
        exact ⟨fun h => Or.inr h, fun h => h.resolve_left hc⟩
    · rw [if_pos hm]
      simp [hdup, hm]
  refine ⟨s, ⟨r.intrs.filter fun y => ¬ dupP y, r.coincidentIntrs⟩, hs, ?_, ?_, ?_, ?_⟩
  · unfold findIntersects
    simp only
    rw [hr, ok_bind, hrem, ok_bind]
    rfl
  · intro i1 i2 a b
    exact hB ⟨i1, i2, a, b⟩
  · intro i1 i2 x
    simp only [List.mem_filter, decide_eq_true_eq]
    rw [hA]
    constructor
    · rintro ⟨⟨v1, v2, u1, u2, a, b, c, d, e, f⟩, hn⟩
      refine ⟨v1, v2, u1, u2, a, b, c, d, e, f, ?_⟩
      rintro ⟨g1, g2⟩
      apply hn
      rw [hdup]
      have f1 : vtx p1 (nextWrappingIndex i1 p1.size) = v2 := by
        rw [seg_next a, (seg_lt a).2.2.2.2]
      have f2 : vtx p2 (nextWrappingIndex i2 p2.size) = u2 := by
        rw [seg_next b, (seg_lt b).2.2.2.2]
      refine ⟨(hD a b).2 g1, ?_⟩
      simp only [f1, f2]
      exact g2
    · rintro ⟨v1, v2, u1, u2, a, b, c, d, e, f, hn⟩
      refine ⟨⟨v1, v2, u1, u2, a, b, c, d, e, f⟩, ?_⟩
      rw [hdup]
      rintro ⟨g1, g2⟩
      have f1 : vtx p1 (nextWrappingIndex i1 p1.size) = v2 := by
        rw [seg_next a, (seg_lt a).2.2.2.2]
      have f2 : vtx p2 (nextWrappingIndex i2 p2.size) = u2 := by
        rw [seg_next b, (seg_lt b).2.2.2.2]
      simp only [f1, f2] at g2
      exact hn ⟨(hD a b).1 g1, g2⟩
  · have cnt : ∀ {β : Type} (f : Vertex × Vertex × Vertex × Vertex × ℕ × ℕ → List β) (m : ℕ)
        (g : β → ℕ × ℕ) (ij : ℕ × ℕ), (∀ x ∈ l, x.2.2.2.2 = ij → (f x).length ≤ m) →
        (∀ x, ∀ y ∈ f x, g y = x.2.2.2.2) → ((l.flatMap f).filter fun y => g y = ij).length ≤ m := by
      intro β f m g ij hf hg
      have key : ∀ l' : List (Vertex × Vertex × Vertex × Vertex × ℕ × ℕ), l'.Nodup → (∀ x ∈ l', x ∈ l) →
          ((∀ x ∈ l', x.2.2.2.2 ≠ ij) → ((l'.flatMap f).filter fun y => g y = ij) = []) ∧
          ((l'.flatMap f).filter fun y => g y = ij).length ≤ m := by
        intro l'
        induction l' with
        | nil => intro _ _; simp
        | cons a l' ih =>
          intro hnd' hsub
          rw [List.nodup_cons] at hnd'
          obtain ⟨i1, i2⟩ := ih hnd'.2 (fun x hx => hsub x (by simp [hx]))
          rw [List.flatMap_cons, List.filter_append, List.length_append]
          by_cases ha : a.2.2.2.2 = ij
          · refine ⟨fun h => absurd ha (h a (by simp)), ?_⟩
            rw [i1 ?_, List.length_nil, Nat.add_zero]
            · exact (List.length_filter_le _ _).trans (hf a (hsub a (by simp)) ha)
            · intro x hx hxe
              apply hnd'.1
              have : x = a := by
                obtain ⟨v1, v2, u1, u2, i, j⟩ := x
                obtain ⟨v1', v2', u1', u2', i', j'⟩ := a
                simp only at ha hxe
                rw [← hxe] at ha
                simp only [Prod.mk.injEq] at ha
                obtain ⟨rfl, rfl⟩ := ha
                obtain ⟨a1, b1, -⟩ := (hl _ _ _ _ _ _).1 (hsub _ (List.mem_cons_of_mem _ hx))
                obtain ⟨a2, b2, -⟩ := (hl _ _ _ _ _ _).1 (hsub _ (List.mem_cons_self ..))
                obtain ⟨rfl, rfl⟩ := isSeg_inj a1 a2
                obtain ⟨rfl, rfl⟩ := isSeg_inj b1 b2
                rfl
              rw [← this]; exact hx
          · have e0 : (f a).filter (fun y => decide (g y = ij)) = [] := by
              rw [List.filter_eq_nil_iff]
              intro y hy
              rw [hg a y hy]
              simpa using ha
            rw [e0]
            refine ⟨fun h => ?_, by simpa using i2⟩
            rw [i1 (fun x hx => h x (by simp [hx]))]
            rfl
      exact (key l hnd (fun x hx => hx)).2
    intro i1 i2
    have cntI : ∀ m, (∀ x ∈ l, x.2.2.2.2 = (i1, i2) →
        (pairIntrs x.1 x.2.1 x.2.2.1 x.2.2.2.1 x.2.2.2.2.1 x.2.2.2.2.2).length ≤ m) →
        ((r.intrs.filter fun y => ¬ dupP y).filter fun c => c.sIndex1 = i1 ∧ c.sIndex2 = i2).length ≤ m := by
      intro m hm
      have := cnt (fun x => pairIntrs x.1 x.2.1 x.2.2.1 x.2.2.2.1 x.2.2.2.2.1 x.2.2.2.2.2) m
        (fun y => (y.sIndex1, y.sIndex2)) (i1, i2) hm (fun x y hy => by
          unfold pairIntrs at hy
          rw [List.mem_map] at hy
          obtain ⟨z, -, rfl⟩ := hy
          rfl)
      rw [← ra] at this
      simp only [Prod.mk.injEq] at this
      refine le_trans ?_ this
      rw [List.filter_filter]
      exact (List.Sublist.length_le (List.monotone_filter_right _ (by
        intro a; simp only [Bool.and_eq_true]; exact fun h => h.1)))
    refine ⟨?_, ?_, ?_⟩
    · simp only
      have := cnt (fun x => pairCoin x.1 x.2.1 x.2.2.1 x.2.2.2.1 x.2.2.2.2.1 x.2.2.2.2.2) 1
        (fun y => (y.sIndex1, y.sIndex2)) (i1, i2) (fun x _ _ => by
          unfold pairCoin
          rw [List.length_map]
          cases resOf x.1 x.2.1 x.2.2.1 x.2.2.2.1 <;> simp [overlapOf]) (fun x y hy => by
          unfold pairCoin at hy
          rw [List.mem_map] at hy
          obtain ⟨z, -, rfl⟩ := hy
          rfl)
      rw [← rb] at this
      simpa [Prod.mk.injEq] using this
    · refine cntI 2 fun x _ _ => ?_
      unfold pairIntrs
      rw [List.length_map]
      refine (List.length_filter_le _ _).trans ?_
      cases resOf x.1 x.2.1 x.2.2.1 x.2.2.2.1 <;> simp [ptsOf]
    · intro v1 v2 u1 u2 r' a b hr'
      refine cntI _ ?_
      rintro ⟨w1, w2, x1, x2, j1, j2⟩ hx he
      simp only [Prod.mk.injEq] at he
      obtain ⟨rfl, rfl⟩ := he
      obtain ⟨a', b', -⟩ := (hl _ _ _ _ _ _).1 hx
      obtain ⟨rfl, rfl⟩ := isSeg_inj a a'
      obtain ⟨rfl, rfl⟩ := isSeg_inj b b'
      unfold pairIntrs
      rw [List.length_map]
      refine (List.length_filter_le _ _).trans ?_
      have e : resOf v1 v2 u1 u2 = r' := by
        have := resOf_eq (h1 _ _ _ a) (h2 _ _ _ b)
        rw [hr'] at this
        simpa using this.symm
      rw [e]
      cases r' <;> simp [ptsOf, reported]

/-- C33: segments with a common point have close bounding boxes, so the spatial index never hides
them from the search. -/
theorem C33_common_point_close {v1 v2 u1 u2 : Vertex} (hv : |v1.bulge| ≤ 1) (hu : |u1.bulge| ≤ 1)
    {x : V2} (h1 : OnSeg v1 v2 x) (h2 : OnSeg u1 u2 x) : BoxesClose (1 / 10 ^ 5) v1 v2 u1 u2 := by
  obtain ⟨a1, a2, a3, a4⟩ := C12_bbox_contains hv h1
  obtain ⟨b1, b2, b3, b4⟩ := C12_bbox_contains hu h2
  have e : (0 : ℝ) < 1 / 10 ^ 5 := by norm_num
  refine ⟨?_, ?_, ?_, ?_⟩ <;> linarith

/-- C33, as a user sees it: if the test of a segment of each polyline reports a common point `x` of
the two as an isolated intersect, and `x` is not at their starts, then the intersect is in the result
or `x` is at the end of one of the segments and an overlap that begins there is in the result; if the
test reports an overlap of two segments with a common point, it is in the result. -/
theorem C33_complete {pf : Platform} {p1 p2 : Polyline} (hi : Indexable pf p1)
    (h1 : PlineOk p1) (h2 : PlineOk p2) :
    ∃ s out, createApproxSpatialIndex pf p1 = .ok s ∧ findIntersects p1 p2 s ⟨[], []⟩ = .ok out ∧
      ∀ i1 i2 v1 v2 u1 u2 x, IsSeg p1 i1 v1 v2 → IsSeg p2 i2 u1 u2 → OnSeg v1 v2 x → OnSeg u1 u2 x →
        (PointHit v1 v2 u1 u2 x → ¬ Near (1 / 10 ^ 8) v1.pos x → ¬ Near (1 / 10 ^ 8) u1.pos x →
          ⟨i1, i2, x⟩ ∈ out.intersects ∨
          ((Near (1 / 10 ^ 8) x v2.pos ∨ Near (1 / 10 ^ 8) x u2.pos) ∧
            RepeatsOverlap p1 p2 out.coincidentIntersects i1 i2)) ∧
        (∀ a b, OverlapHit v1 v2 u1 u2 a b → ⟨i1, i2, a, b⟩ ∈ out.coincidentIntersects) := by
  obtain ⟨s, out, hs, ho, hB, hA, -⟩ := C33_findIntersects hi h1 h2
  refine ⟨s, out, hs, ho, ?_⟩
  intro i1 i2 v1 v2 u1 u2 x a b x1 x2
  have hc := C33_common_point_close (h1 _ _ _ a).half (h2 _ _ _ b).half x1 x2
  refine ⟨fun hp n1 n2 => ?_, fun q1 q2 hov => (hB _ _ _ _).2 ⟨v1, v2, u1, u2, a, b, hc, hov⟩⟩
  by_cases hr : RepeatsOverlap p1 p2 out.coincidentIntersects i1 i2 ∧
      (Near (1 / 10 ^ 8) x v2.pos ∨ Near (1 / 10 ^ 8) x u2.pos)
  · exact Or.inr ⟨hr.2, hr.1⟩
  · exact Or.inl ((hA _ _ _).2 ⟨v1, v2, u1, u2, a, b, hc, hp, n1, n2, hr⟩)

/-- Two segments that cross at (0, 0). -/
theorem cross_hit : intrPlineSegs ⟨⟨0, 0⟩, 0⟩ ⟨⟨1, 0⟩, 0⟩ ⟨⟨0, -1⟩, 0⟩ ⟨⟨0, 1⟩, 0⟩ =
    .ok (.oneIntersect ⟨0, 0⟩) := by
  have hz : (⟨⟨0, 0⟩, 0⟩ : Vertex).bulgeIsZero := by norm_num [Vertex.bulgeIsZero, realPrecision]
  have hz' : (⟨⟨0, -1⟩, 0⟩ : Vertex).bulgeIsZero := by norm_num [Vertex.bulgeIsZero, realPrecision]
  unfold intrPlineSegs
  rw [if_pos ⟨hz, hz'⟩]
  have : intrLineSeg2LineSeg2 ⟨0, 0⟩ ⟨1, 0⟩ ⟨0, -1⟩ ⟨0, 1⟩ = .trueIntr ⟨0, 0⟩ := by
    unfold intrLineSeg2LineSeg2
    simp only
    rw [if_pos (by norm_num [perpDot, realThreshold])]
    rw [if_neg (by norm_num [perpDot, realThreshold])]
    congr 1
    ext <;> norm_num [perpDot]
  rw [this]

/-- The cross of `C33_first_vertex_witness`, shifted so that the intersect is inside the segments. -/
theorem cross_hit' : intrPlineSegs ⟨⟨-1, 0⟩, 0⟩ ⟨⟨1, 0⟩, 0⟩ ⟨⟨0, -1⟩, 0⟩ ⟨⟨0, 1⟩, 0⟩ =
    .ok (.oneIntersect ⟨0, 0⟩) := by
  have hz : (⟨⟨-1, 0⟩, 0⟩ : Vertex).bulgeIsZero := by norm_num [Vertex.bulgeIsZero, realPrecision]
  have hz' : (⟨⟨0, -1⟩, 0⟩ : Vertex).bulgeIsZero := by norm_num [Vertex.bulgeIsZero, realPrecision]
  unfold intrPlineSegs
  rw [if_pos ⟨hz, hz'⟩]
  have : intrLineSeg2LineSeg2 ⟨-1, 0⟩ ⟨1, 0⟩ ⟨0, -1⟩ ⟨0, 1⟩ = .trueIntr ⟨0, 0⟩ := by
    unfold intrLineSeg2LineSeg2
    simp only
    rw [if_pos (by norm_num [perpDot, realThreshold])]
    rw [if_neg (by norm_num [perpDot, realThreshold])]
    congr 1
    ext <;> norm_num [perpDot]
  rw [this]

/-- A single straight segment as an open polyline. -/
theorem one_seg {a b : Vertex} {i : ℕ} {v1 v2 : Vertex} (h : IsSeg ⟨false, [a, b]⟩ i v1 v2) :
    i = 0 ∧ v1 = a ∧ v2 = b := by
  unfold IsSeg segs at h
  rcases i with _ | i
  · simp at h; exact ⟨rfl, h.1.symm, h.2.symm⟩
  · simp at h

theorem segOk_line {a b : V2} : SegOk ⟨a, 0⟩ ⟨b, 0⟩ :=
  ⟨by norm_num, fun h => absurd (show |(0 : ℝ)| < 1 / 10 ^ 5 by norm_num) h⟩

theorem one_seg_ok {a b : V2} : PlineOk ⟨false, [⟨a, 0⟩, ⟨b, 0⟩]⟩ := by
  intro i v1 v2 h
  obtain ⟨-, rfl, rfl⟩ := one_seg h
  exact segOk_line

theorem one_seg_indexable (inf ninf : ℝ) {a b : V2} :
    Indexable (codePlatform inf ninf) ⟨false, [⟨a, 0⟩, ⟨b, 0⟩]⟩ := by
  refine indexable_code (by simp) (by simp [segs]) _ _ (Or.inl (by simp [segs])) ?_
  intro i v1 v2 h
  exact (one_seg_ok i v1 v2 h).half

/-- C33 is false without the exclusion of start points: an open polyline that only touches another
one with its first vertex gets no intersect at all (there is no previous segment to report it). -/
theorem C33_first_vertex_witness (inf ninf : ℝ) :
    let p1 : Polyline := ⟨false, [⟨⟨0, 0⟩, 0⟩, ⟨⟨1, 0⟩, 0⟩]⟩
    let p2 : Polyline := ⟨false, [⟨⟨0, -1⟩, 0⟩, ⟨⟨0, 1⟩, 0⟩]⟩
    OnPline p1 ⟨0, 0⟩ ∧ OnPline p2 ⟨0, 0⟩ ∧
    ∃ s out, createApproxSpatialIndex (codePlatform inf ninf) p1 = .ok s ∧
      findIntersects p1 p2 s ⟨[], []⟩ = .ok out ∧ out.intersects = [] ∧
      out.coincidentIntersects = [] := by
  intro p1 p2
  obtain ⟨s, out, hs, ho, hB, hA, -⟩ := C33_findIntersects (one_seg_indexable inf ninf (a := ⟨0, 0⟩)
    (b := ⟨1, 0⟩)) one_seg_ok (one_seg_ok (a := ⟨0, -1⟩) (b := ⟨0, 1⟩))
  refine ⟨?_, ?_, s, out, hs, ho, ?_, ?_⟩
  · exact ⟨0, _, _, rfl, onSeg_start _ _⟩
  · refine ⟨0, ⟨⟨0, -1⟩, 0⟩, ⟨⟨0, 1⟩, 0⟩, rfl, 1 / 2, by norm_num, by norm_num, Or.inl ⟨?_, ?_⟩⟩
    · show |(0 : ℝ)| < 1 / 10 ^ 5
      norm_num
    · norm_num [lerp]
  · rw [List.eq_nil_iff_forall_not_mem]
    rintro ⟨i1, i2, x⟩ hx
    obtain ⟨v1, v2, u1, u2, h1, h2, -, hp, n1, -⟩ := (hA _ _ _).1 hx
    obtain ⟨-, rfl, rfl⟩ := one_seg h1
    obtain ⟨-, rfl, rfl⟩ := one_seg h2
    unfold PointHit at hp
    rw [cross_hit] at hp
    simp only [Except.ok.injEq, SegIntr.oneIntersect.injEq, reduceCtorEq, or_self, exists_false,
      or_false] at hp
    subst hp
    apply n1
    norm_num [Near]
  · rw [List.eq_nil_iff_forall_not_mem]
    rintro ⟨i1, i2, a, b⟩ hx
    obtain ⟨v1, v2, u1, u2, h1, h2, -, hp⟩ := (hB _ _ _ _).1 hx
    obtain ⟨-, rfl, rfl⟩ := one_seg h1
    obtain ⟨-, rfl, rfl⟩ := one_seg h2
    unfold OverlapHit at hp
    rw [cross_hit] at hp
    simp at hp

/-- C33 applied: two crossing segments, the intersect is reported. -/
example : ∃ s out, createApproxSpatialIndex (codePlatform 1000 (-1000))
      ⟨false, [⟨⟨-1, 0⟩, 0⟩, ⟨⟨1, 0⟩, 0⟩]⟩ = .ok s ∧
    findIntersects ⟨false, [⟨⟨-1, 0⟩, 0⟩, ⟨⟨1, 0⟩, 0⟩]⟩ ⟨false, [⟨⟨0, -1⟩, 0⟩, ⟨⟨0, 1⟩, 0⟩]⟩ s
      ⟨[], []⟩ = .ok out ∧ ⟨0, 0, ⟨0, 0⟩⟩ ∈ out.intersects := by
  obtain ⟨s, out, hs, ho, h⟩ := C33_complete (one_seg_indexable 1000 (-1000) (a := ⟨-1, 0⟩)
    (b := ⟨1, 0⟩)) one_seg_ok (one_seg_ok (a := ⟨0, -1⟩) (b := ⟨0, 1⟩))
  refine ⟨s, out, hs, ho, ?_⟩
  have hl : |(0 : ℝ)| < 1 / 10 ^ 5 := by norm_num
  rcases (h 0 0 ⟨⟨-1, 0⟩, 0⟩ ⟨⟨1, 0⟩, 0⟩ ⟨⟨0, -1⟩, 0⟩ ⟨⟨0, 1⟩, 0⟩ ⟨0, 0⟩ rfl rfl
    ⟨1 / 2, by norm_num, by norm_num, Or.inl ⟨hl, by norm_num [lerp]⟩⟩
    ⟨1 / 2, by norm_num, by norm_num, Or.inl ⟨hl, by norm_num [lerp]⟩⟩).1 (Or.inl cross_hit')
    (by norm_num [Near]) (by norm_num [Near]) with h | h
  · exact h
  · exfalso
    have := h.1
    norm_num [Near] at this

end
end Cavc

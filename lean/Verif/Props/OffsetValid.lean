import Verif.Spec.Offset
import Verif.Props.FindIntersects
import Verif.Props.PlineClosest
import Verif.Props.Coincident

/-! C39: the test whether a point is far enough from the original polyline. -/
namespace Cavc
open Spec
open scoped Classical

/-- The box around `pt` that `pointValidForOffset` asks the index for. -/
noncomputable def validBox (d : ℝ) (pt : V2) : Box ℝ := ⟨pt.x - d, pt.y - d, pt.x + d, pt.y + d⟩

theorem pointValidVisitor_eq {p : Polyline} {i : ℕ} {v1 v2 : Vertex} {q pt : V2} {m : ℝ} {st : Bool}
    (h : IsSeg p i v1 v2) (hq : closestPointOnSeg v1 v2 pt = .ok q) :
    pointValidVisitor p pt m st i = .ok (decide (m < dist2 q pt), decide (m < dist2 q pt)) := by
  obtain ⟨h1, h2⟩ := seg_at h
  unfold pointValidVisitor
  simp only
  rw [h1, ok_bind, h2, ok_bind, hq, ok_bind, distSquared_eq]
  rfl

theorem pointValid_run {p : Polyline} (hok : PlineOk p) (pt : V2) (m : ℝ) : ∀ (r : List ℕ),
    (∀ i ∈ r, ∃ v1 v2, IsSeg p i v1 v2) →
    ∃ b, runM (pointValidVisitor p pt m) true r = .ok b ∧
      (b = true ↔ ∀ i ∈ r, ∀ v1 v2 q, IsSeg p i v1 v2 → closestPointOnSeg v1 v2 pt = .ok q →
        m < dist2 q pt) := by
  intro r
  induction r with
  | nil => intro _; exact ⟨true, rfl, by simp⟩
  | cons a r ih =>
    intro h
    obtain ⟨v1, v2, hs⟩ := h a (by simp)
    obtain ⟨q, hq⟩ := closestPointOnSeg_ok (hok _ _ _ hs) pt
    unfold runM
    rw [pointValidVisitor_eq hs hq, ok_bind]
    by_cases hm : m < dist2 q pt
    · obtain ⟨b, hb, hbi⟩ := ih (fun i hi => h i (List.mem_cons_of_mem _ hi))
      simp only [hm, decide_true, if_true]
      refine ⟨b, hb, ?_⟩
      rw [hbi]
      constructor
      · intro hr i hi w1 w2 q' hw hq'
        rcases List.mem_cons.1 hi with rfl | hi
        · obtain ⟨rfl, rfl⟩ := isSeg_inj hs hw
          rw [hq] at hq'; cases hq'; exact hm
        · exact hr i hi w1 w2 q' hw hq'
      · intro hr i hi
        exact hr i (List.mem_cons_of_mem _ hi)
    · simp only [hm, decide_false]
      refine ⟨false, rfl, ?_⟩
      simp only [Bool.false_eq_true, false_iff]
      intro hr
      exact hm (hr a (by simp) v1 v2 q hs hq)

theorem pointValid_iff {p : Polyline} {s : SIndex ℝ} (hs : IndexOf (segBoxes p) s) (hok : PlineOk p)
    (offset tol : ℝ) (pt : V2) :
    ∃ b, pointValidForOffset p offset s pt tol = .ok b ∧
      (b = true ↔ ∀ i v1 v2 q, IsSeg p i v1 v2 →
        Overlap (validBox (|offset| - tol) pt) (createFastApproxBoundingBox v1 v2).toBox →
        closestPointOnSeg v1 v2 pt = .ok q → (|offset| - tol) ^ 2 < dist2 q pt) := by
  obtain ⟨r, -, hr, -, hv⟩ := hs.queryM (validBox (|offset| - tol) pt)
  unfold pointValidForOffset
  simp only
  rw [show (⟨pt.x - (|offset| - tol), pt.y - (|offset| - tol), pt.x + (|offset| - tol),
    pt.y + (|offset| - tol)⟩ : Box ℝ) = validBox (|offset| - tol) pt from rfl, hv]
  obtain ⟨b, hb, hbi⟩ := pointValid_run hok pt ((|offset| - tol) * (|offset| - tol)) r (by
    intro i hi
    obtain ⟨b, hb, -⟩ := (hr i).1 hi
    obtain ⟨v1, v2, h, -⟩ := segBoxes_get.1 hb
    exact ⟨v1, v2, h⟩)
  refine ⟨b, hb, ?_⟩
  rw [hbi]
  constructor
  · intro h i v1 v2 q hseg hover hq
    rw [pow_two]
    exact h i ((hr i).2 ⟨_, segBoxes_get.2 ⟨v1, v2, hseg, rfl⟩, hover⟩) v1 v2 q hseg hq
  · intro h i hi v1 v2 q hseg hq
    obtain ⟨bx, hbx, hover⟩ := (hr i).1 hi
    obtain ⟨w1, w2, hw, rfl⟩ := segBoxes_get.1 hbx
    obtain ⟨rfl, rfl⟩ := isSeg_inj hw hseg
    rw [← pow_two]
    exact h i _ _ q hseg hover hq

/-- The closest point the library computes is never much farther than the true one. -/
theorem closest_le {v1 v2 : Vertex} {pt q x : V2} (hok : SegOk v1 v2)
    (hq : closestPointOnSeg v1 v2 pt = .ok q) (hx : OnSeg v1 v2 x) :
    distance pt q ≤ distance pt x + 3 / 10 ^ 8 ∨ distance pt q ^ 2 ≤ distance pt x ^ 2 + 2 / 10 ^ 8 := by
  by_cases hl : IsLine v1
  · right
    have hc : closestPointOnSeg v1 v2 pt = .ok (closestPointOnLineSeg v1.pos v2.pos pt) := by
      unfold closestPointOnSeg
      rw [if_pos (show v1.bulgeIsZero from hl)]
    rw [hc] at hq
    cases hq
    obtain ⟨t, t0, t1, hx⟩ := hx
    rw [distance_sq, distance_sq, (atParam_line hl).1 hx]
    exact (C13_closestPointOnLineSeg v1.pos v2.pos pt).2.1 t t0 t1
  · left
    obtain ⟨q', c, h, -, -, h4, -⟩ := C14_closestPointOnSeg hok hl pt
    rw [hq] at h
    cases h
    exact h4 x hx

theorem abs_le_distance (a b : V2) : |a.x - b.x| ≤ distance a b ∧ |a.y - b.y| ≤ distance a b := by
  have h := distance_sq a b
  have h0 := distance_nonneg a b
  unfold dist2 at h
  constructor <;> apply abs_le_of_sq_le_sq _ h0 <;> nlinarith [sq_nonneg (a.x - b.x), sq_nonneg (a.y - b.y)]

theorem clear_of_valid {p : Polyline} {d : ℝ} {pt : V2} (hok : PlineOk p) (hd : 0 ≤ d)
    (h : ∀ i v1 v2 q, IsSeg p i v1 v2 →
        Overlap (validBox d pt) (createFastApproxBoundingBox v1 v2).toBox →
        closestPointOnSeg v1 v2 pt = .ok q → d ^ 2 < dist2 q pt) : Clear p d pt := by
  rintro x ⟨i, v1, v2, hs, hx⟩
  by_cases hn : distance pt x ≤ d
  · obtain ⟨q, hq⟩ := closestPointOnSeg_ok (hok _ _ _ hs) pt
    have hb := C12_bbox_contains (hok _ _ _ hs).half hx
    have ha := abs_le_distance pt x
    have h1 := abs_le.1 (ha.1.trans hn)
    have h2 := abs_le.1 (ha.2.trans hn)
    have hlt := h i v1 v2 q hs (by
      obtain ⟨b1, b2, b3, b4⟩ := hb
      refine ⟨?_, ?_, ?_, ?_⟩ <;> simp only [validBox, AABB.toBox] <;> linarith) hq
    have hdq : d < distance pt q := by
      have : d ^ 2 < distance pt q ^ 2 := by rw [distance_sq]; unfold dist2 at hlt ⊢; linarith
      exact lt_of_pow_lt_pow_left₀ 2 (distance_nonneg _ _) this
    rcases closest_le (hok _ _ _ hs) hq hx with h | h
    · left; linarith
    · right
      have : d ^ 2 < distance pt q ^ 2 := by
        have := distance_nonneg pt q
        nlinarith
      linarith
  · left; linarith

/-- C39. The index of the polyline never hides a segment that matters: for an offset beyond the
tolerance the test answers `true` only for points clear of the polyline by `|offset| - tol`, and
`false` only if some segment has a computed closest point within that distance, which is a point of
the polyline unless the test point is within 1e-8 of the boundary of an arc's sector. -/
theorem C39_pointValidForOffset {pf : Platform} {p : Polyline} (hi : Indexable pf p)
    (hok : PlineOk p) (offset tol : ℝ) (ht : tol ≤ |offset|) (pt : V2) :
    ∃ s b, createApproxSpatialIndex pf p = .ok s ∧ pointValidForOffset p offset s pt tol = .ok b ∧
      (b = true → Clear p (|offset| - tol) pt) ∧
      (b = false → ∃ i v1 v2 q, IsSeg p i v1 v2 ∧ closestPointOnSeg v1 v2 pt = .ok q ∧
        distance pt q ≤ |offset| - tol ∧ (Decided v1 v2 pt → OnSeg v1 v2 q)) := by
  obtain ⟨s, hs, hx⟩ := hi.indexOf
  obtain ⟨b, hb, hbi⟩ := pointValid_iff hx hok offset tol pt
  refine ⟨s, b, hs, hb, fun h => clear_of_valid hok (by linarith) (hbi.1 h), fun h => ?_⟩
  have : ¬ b = true := by rw [h]; simp
  rw [hbi] at this
  push Not at this
  obtain ⟨i, v1, v2, q, hseg, -, hq, hle⟩ := this
  refine ⟨i, v1, v2, q, hseg, hq, ?_, ?_⟩
  · apply le_of_sq_le_sq _ (by linarith)
    rw [distance_sq]; unfold dist2 at hle ⊢; linarith
  · intro hdec
    by_cases hl : IsLine v1
    · have hc : closestPointOnSeg v1 v2 pt = .ok (closestPointOnLineSeg v1.pos v2.pos pt) := by
        unfold closestPointOnSeg
        rw [if_pos (show v1.bulgeIsZero from hl)]
      rw [hc] at hq
      cases hq
      obtain ⟨t, t0, t1, h⟩ := (C13_closestPointOnLineSeg v1.pos v2.pos pt).1
      exact ⟨t, t0, t1, (atParam_line hl).2 h⟩
    · obtain ⟨q', c, h, hc, -, -, -, h6⟩ := C14_closestPointOnSeg (hok _ _ _ hseg) hl pt
      rw [hq] at h
      cases h
      exact h6 (Or.inl ((hdec.resolve_left hl) c hc))

/-- C39 needs the offset to exceed the tolerance: the box given to the index is inverted otherwise, and
a point on the polyline itself passes the test. -/
theorem C39_small_offset_witness (inf ninf : ℝ) :
    ∃ s, createApproxSpatialIndex (codePlatform inf ninf) ⟨false, [⟨⟨0, 0⟩, 0⟩, ⟨⟨1, 0⟩, 0⟩]⟩ = .ok s ∧
      pointValidForOffset ⟨false, [⟨⟨0, 0⟩, 0⟩, ⟨⟨1, 0⟩, 0⟩]⟩ (1 / 10 ^ 5) s ⟨1 / 2, 0⟩ = .ok true := by
  obtain ⟨s, hs, hx⟩ := (one_seg_indexable inf ninf (a := ⟨0, 0⟩) (b := ⟨1, 0⟩)).indexOf
  obtain ⟨b, hb, hbi⟩ := pointValid_iff hx one_seg_ok (1 / 10 ^ 5) offsetThreshold ⟨1 / 2, 0⟩
  have : b = true := by
    rw [hbi]
    intro i v1 v2 q hseg hover
    obtain ⟨-, rfl, rfl⟩ := one_seg hseg
    exfalso
    have h3 := hover.2.2.1
    simp [validBox, AABB.toBox, createFastApproxBoundingBox, Vertex.bulgeIsZero, realPrecision,
      offsetThreshold] at h3
    norm_num at h3
  rw [this] at hb
  exact ⟨s, hs, hb⟩

/-- A unit segment and an offset of 1/4 meet the hypotheses of C39; the test rejects (1/2, 1/10). -/
example (inf ninf : ℝ) : ∃ s, createApproxSpatialIndex (codePlatform inf ninf)
      ⟨false, [⟨⟨0, 0⟩, 0⟩, ⟨⟨1, 0⟩, 0⟩]⟩ = .ok s ∧
    pointValidForOffset ⟨false, [⟨⟨0, 0⟩, 0⟩, ⟨⟨1, 0⟩, 0⟩]⟩ (1 / 4) s ⟨1 / 2, 1 / 10⟩ = .ok false := by
  obtain ⟨s, b, hs, hb, h, -⟩ := C39_pointValidForOffset (one_seg_indexable inf ninf (a := ⟨0, 0⟩)
    (b := ⟨1, 0⟩)) one_seg_ok (1 / 4) offsetThreshold
    (by rw [abs_of_pos (by norm_num)]; norm_num [offsetThreshold]) ⟨1 / 2, 1 / 10⟩
  refine ⟨s, hs, ?_⟩
  cases b with
  | false => exact hb
  | true =>
    exfalso
    have hx : OnPline ⟨false, [⟨⟨0, 0⟩, 0⟩, ⟨⟨1, 0⟩, 0⟩]⟩ ⟨1 / 2, 0⟩ :=
      ⟨0, _, _, rfl, 1 / 2, by norm_num, by norm_num,
        (atParam_line (by simp [IsLine])).2 (by ext <;> simp [lerp])⟩
    have hd : distance ⟨1 / 2, 1 / 10⟩ ⟨1 / 2, 0⟩ = 1 / 10 := by
      unfold distance dist2
      rw [show ((1 : ℝ) / 2 - 1 / 2) ^ 2 + (1 / 10 - 0) ^ 2 = (1 / 10) ^ 2 by norm_num]
      exact Real.sqrt_sq (by norm_num)
    have := h rfl _ hx
    rw [hd, abs_of_pos (by norm_num)] at this
    norm_num [offsetThreshold] at this

end Cavc

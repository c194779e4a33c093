import Verif.Props.OffsetRect
import Verif.Props.OffsetWhole

/-! C52: `parallelOffset` of an open polyline of one straight segment, from beginning to end; and the
example for C59 of an open polyline. -/
namespace Cavc
open Spec
open scoped Classical
noncomputable section

/-- A straight segment as an open polyline. -/
def oneSeg (p q : V2) : Polyline := ⟨false, [⟨p, 0⟩, ⟨q, 0⟩]⟩

theorem line_zero (p : V2) : Vertex.bulgeIsZero ⟨p, 0⟩ := by norm_num [Vertex.bulgeIsZero, realPrecision]

/-- The raw offset of a segment. -/
theorem oneSeg_raw {d L ux uy : ℝ} {p q : V2} (hL : 1 / 10 ^ 3 ≤ L) (hu : ux ^ 2 + uy ^ 2 = 1)
    (hx : q.x - p.x = L * ux) (hy : q.y - p.y = L * uy) :
    createRawOffsetPline (oneSeg p q) d =
      .ok (oneSeg ⟨p.x - d * uy, p.y + d * ux⟩ ⟨q.x - d * uy, q.y + d * ux⟩) := by
  have ho := offset_dir (d := d) hL hu hx hy
  unfold createRawOffsetPline
  rw [if_neg (by simp [oneSeg, Polyline.size]), createUntrimmed_eq _ _ (by simp [oneSeg, Polyline.size]),
    show segs (oneSeg p q) = [(⟨p, 0⟩, ⟨q, 0⟩)] from rfl]
  simp only [List.mapM_cons, List.mapM_nil, ho, ok_bind, pure_eq_ok]
  unfold joinRawSegs
  rw [if_neg (by simp)]
  simp only [joinFirst, joinOthers, ok_bind, List.getLast?_nil, Option.getD_none]
  unfold joinEnd
  rw [if_neg (by simp [oneSeg]), ok_bind, add_far rfl]
  · rfl
  · show Far ⟨p.x - d * uy, p.y + d * ux⟩ ⟨q.x - d * uy, q.y + d * ux⟩
    unfold Far
    simp only [sub_sub_sub_cancel_right, add_sub_add_right_eq_sub]
    by_contra hc
    rw [not_or, not_le, not_le] at hc
    obtain ⟨h1, h2⟩ := hc
    rw [abs_sub_comm, hx] at h1
    rw [abs_sub_comm, hy] at h2
    have h3 := mul_self_lt_mul_self (abs_nonneg _) h1
    have h4 := mul_self_lt_mul_self (abs_nonneg _) h2
    rw [abs_mul_abs_self] at h3 h4
    have h5 : L ^ 2 = (L * ux) * (L * ux) + (L * uy) * (L * uy) := by linear_combination -L ^ 2 * hu
    have h6 : (1 / 10 ^ 3 : ℝ) ^ 2 ≤ L ^ 2 := pow_le_pow_left₀ (by norm_num) hL 2
    norm_num at h3 h4 h6
    linarith

/-- A point at the distance of the offset from the line of the segment passes the test. -/
theorem oneSeg_valid {s : SIndex ℝ} {d ux uy L : ℝ} {p q : V2}
    (hs : IndexOf (segBoxes (oneSeg p q)) s) (hd : 1 / 10 ^ 3 ≤ |d|) (hu : ux ^ 2 + uy ^ 2 = 1)
    (hx : q.x - p.x = L * ux) (hy : q.y - p.y = L * uy) {x : V2}
    (h : (x.y - p.y) * ux - (x.x - p.x) * uy = d) :
    pointValidForOffset (oneSeg p q) d s x = .ok true := by
  obtain ⟨b, hb, hbi⟩ := pointValid_iff hs one_seg_ok d offsetThreshold x
  refine hb.trans ?_
  congr 1
  rw [hbi]
  intro i v1 v2 r hseg _ hr
  obtain ⟨-, rfl, rfl⟩ := one_seg hseg
  unfold closestPointOnSeg at hr
  rw [if_pos (line_zero _)] at hr
  cases hr
  obtain ⟨t, t0, t1, ht⟩ := (C13_closestPointOnLineSeg p q x).1
  rw [ht]
  have h1 : d ^ 2 ≤ dist2 (lerp p q t) x := by
    have e : dist2 (lerp p q t) x = d ^ 2 +
        ((x.x - p.x - t * (L * ux)) * ux + (x.y - p.y - t * (L * uy)) * uy) ^ 2 := by
      simp only [dist2, lerp]
      rw [hx, hy, ← h]
      linear_combination -((x.x - p.x - t * (L * ux)) ^ 2 + (x.y - p.y - t * (L * uy)) ^ 2) * hu
    rw [e]
    have := sq_nonneg ((x.x - p.x - t * (L * ux)) * ux + (x.y - p.y - t * (L * uy)) * uy)
    linarith
  have e4 : offsetThreshold = 1 / 10 ^ 4 := rfl
  have h2 : (|d| - offsetThreshold) ^ 2 < d ^ 2 := by
    rw [← sq_abs d]
    have : (0 : ℝ) < 1 / 10 ^ 4 := by norm_num
    have : (1 / 10 ^ 4 : ℝ) < 1 / 10 ^ 3 := by norm_num
    apply pow_lt_pow_left₀ <;> linarith
  linarith

/-- Parallel lines that are apart do not meet. -/
theorem parallel_none {a b c e : V2} (h0 : (b.x - a.x) * (e.y - c.y) - (b.y - a.y) * (e.x - c.x) = 0)
    (h1 : 1 / 10 ^ 8 < |(e.x - c.x) * (a.y - c.y) - (e.y - c.y) * (a.x - c.x)|) :
    intrPlineSegs ⟨a, 0⟩ ⟨b, 0⟩ ⟨c, 0⟩ ⟨e, 0⟩ = .ok .noIntersect := by
  unfold intrPlineSegs
  rw [if_pos ⟨line_zero _, line_zero _⟩]
  have : intrLineSeg2LineSeg2 a b c e = .none := by
    unfold intrLineSeg2LineSeg2
    simp only
    rw [if_neg, if_pos]
    · right; exact h1
    · have : perpDot (b - a) (e - c) = 0 := h0
      rw [this]; norm_num [realThreshold]
  rw [this]

theorem oneSeg_no_hit {s : SIndex ℝ} {p q : V2} (hs : IndexOf (segBoxes (oneSeg p q)) s) {a b : V2}
    (h0 : (b.x - a.x) * (q.y - p.y) - (b.y - a.y) * (q.x - p.x) = 0)
    (h1 : 1 / 10 ^ 8 < |(q.x - p.x) * (a.y - p.y) - (q.y - p.y) * (a.x - p.x)|) :
    intersectsOrigPline (oneSeg p q) s ⟨a, 0⟩ ⟨b, 0⟩ = .ok false := by
  unfold intersectsOrigPline
  simp only
  obtain ⟨r, -, hr, -, hv⟩ := hs.queryM (createFastApproxBoundingBox ⟨a, 0⟩ ⟨b, 0⟩).toBox
  rw [hv]
  have : ∀ i ∈ r, i = 0 := by
    intro i hi
    obtain ⟨bx, hb, -⟩ := (hr i).1 hi
    obtain ⟨v1, v2, h, -⟩ := segBoxes_get.1 hb
    exact (one_seg h).1
  clear hr hv
  induction r with
  | nil => rfl
  | cons i r ih =>
    obtain rfl := this i (by simp)
    unfold runM
    have : intersectsOrigVisitor (oneSeg p q) ⟨a, 0⟩ ⟨b, 0⟩ false 0 = .ok (false, true) := by
      unfold intersectsOrigVisitor
      simp only [nextWrappingIndex]
      rw [show Polyline.at (oneSeg p q) 0 = .ok ⟨p, 0⟩ from rfl, ok_bind,
        show Polyline.at (oneSeg p q) (if 0 = (oneSeg p q).size - 1 then 0 else 0 + 1) = .ok ⟨q, 0⟩ from rfl,
        ok_bind, parallel_none h0 h1]
      rfl
    rw [this, ok_bind]
    simp only [if_true]
    exact ih (fun i hi => by have := ‹∀ i ∈ 0 :: r, i = 0› i (by simp [hi]); exact this)

/-- A line tangent to a circle. -/
theorem tangent_one {a b c : V2} {R t : ℝ} (hl : 1 / 10 ^ 8 ≤ dist2 a b)
    (ht : (b.x - a.x) * (a.x - c.x) + (b.y - a.y) * (a.y - c.y) = - t * dist2 a b)
    (hR : dist2 a c = R ^ 2 + t ^ 2 * dist2 a b) :
    intrLineSeg2Circle2 a b R c = .ok (.one t) := by
  unfold intrLineSeg2Circle2
  simp only
  have e : (b.x - a.x) * (b.x - a.x) + (b.y - a.y) * (b.y - a.y) = dist2 a b := by
    simp only [dist2]; ring
  have hp : 0 < dist2 a b := lt_of_lt_of_le (by norm_num) hl
  rw [e, ht, if_neg (by rw [abs_of_pos hp]; exact not_lt.2 hl), if_pos]
  · congr 2
    field_simp
  · have e2 : a.x * a.x - 2 * c.x * a.x + c.x * c.x + (a.y * a.y - 2 * c.y * a.y + c.y * c.y) - R * R =
        t ^ 2 * dist2 a b := by
      simp only [dist2] at hR ⊢
      linear_combination hR
    rw [e2]
    have : 2 * (-t * dist2 a b) * (2 * (-t * dist2 a b)) - 4 * dist2 a b * (t ^ 2 * dist2 a b) = 0 := by ring
    rw [this]; norm_num [realThreshold]

/-- The intersects of a single segment with a circle it is tangent to. -/
theorem oneSeg_circle {s : SIndex ℝ} {a b c : V2} {d t : ℝ} (hs : IndexOf (segBoxes (oneSeg a b)) s)
    (hl : 1 / 10 ^ 8 ≤ dist2 a b)
    (ht : (b.x - a.x) * (a.x - c.x) + (b.y - a.y) * (a.y - c.y) = - t * dist2 a b)
    (hR : dist2 a c = |d| ^ 2 + t ^ 2 * dist2 a b)
    (hov : Overlap (squareAround |d| c) (createFastApproxBoundingBox ⟨a, 0⟩ ⟨b, 0⟩).toBox)
    (out : List (ℕ × V2)) :
    offsetCircleIntersectsWithPline (oneSeg a b) d c s out =
      .ok (addLineCircleIntr 0 ⟨a, 0⟩ ⟨b, 0⟩ t out) := by
  unfold offsetCircleIntersectsWithPline
  simp only
  obtain ⟨r, hn, hr, hq, -⟩ := hs.queryM (squareAround |d| c)
  unfold squareAround at hq
  rw [hq, ok_bind]
  have h0 : 0 ∈ r := (hr 0).2 ⟨_, segBoxes_get.2 ⟨_, _, rfl, rfl⟩, hov⟩
  have hall : ∀ i ∈ r, i = 0 := by
    intro i hi
    obtain ⟨bx, hb, -⟩ := (hr i).1 hi
    obtain ⟨v1, v2, h, -⟩ := segBoxes_get.1 hb
    exact (one_seg h).1
  have hr0 : r = [0] := by
    match r, h0, hall, hn with
    | [x], _, h, _ => rw [h x (by simp)]
    | x :: y :: r, _, h, hn =>
      have h1 := h x (by simp)
      have h2 := h y (by simp)
      subst h1 h2
      simp at hn
  rw [hr0]
  simp only [List.foldlM_cons, List.foldlM_nil]
  unfold circleIntrStep
  rw [show Polyline.at (oneSeg a b) 0 = .ok ⟨a, 0⟩ from rfl, ok_bind,
    show Polyline.at (oneSeg a b) (0 + 1) = .ok ⟨b, 0⟩ from rfl, ok_bind, if_pos (line_zero _),
    tangent_one hl ht hR, ok_bind]
  rfl

/-- C52. The offset of a straight segment of length at least 1e-3 by at least 1e-3 is the segment
shifted to the left by the offset (to the right, if the offset is negative): `(ux, uy)` is its
direction. -/
theorem C52_segment {std : StdSort} {hash : HashOrder} (inf ninf : ℝ) {d L ux uy : ℝ} {p q : V2}
    (hd : 1 / 10 ^ 3 ≤ |d|) (hL : 1 / 10 ^ 3 ≤ L) (hu : ux ^ 2 + uy ^ 2 = 1)
    (hx : q.x - p.x = L * ux) (hy : q.y - p.y = L * uy) :
    parallelOffset (codePlatform inf ninf) std hash ⟨false, [⟨p, 0⟩, ⟨q, 0⟩]⟩ d =
      .ok [⟨false, [⟨⟨p.x - d * uy, p.y + d * ux⟩, 0⟩, ⟨⟨q.x - d * uy, q.y + d * ux⟩, 0⟩]⟩] := by
  have hraw := oneSeg_raw (d := d) hL hu hx hy
  have hdual := oneSeg_raw (d := -d) hL hu hx hy
  have e3 : (0 : ℝ) < 1 / 10 ^ 3 := by norm_num
  have hL0 : 0 < L := by linarith
  obtain ⟨s, hs, hix⟩ := (one_seg_indexable inf ninf (a := p) (b := q)).indexOf
  have hqx : q.x = p.x + L * ux := by linarith
  have hqy : q.y = p.y + L * uy := by linarith
  -- the points
  have hval : ∀ x : V2, (x.y - p.y) * ux - (x.x - p.x) * uy = d →
      pointValidForOffset (oneSeg p q) d s x = .ok true := fun x h => oneSeg_valid hix hd hu hx hy h
  have hsep : ∀ z : ℝ, |z| = L * |d| → 1 / 10 ^ 8 < |z| := by
    intro z hz
    rw [hz]
    have : (1 / 10 ^ 3 : ℝ) * (1 / 10 ^ 3) ≤ L * |d| := by
      apply mul_le_mul <;> linarith
    exact lt_of_lt_of_le (by norm_num) this
  have vp : (⟨p.x - d * uy, p.y + d * ux⟩ : V2) = ⟨p.x - d * uy, p.y + d * ux⟩ := rfl
  generalize hp' : (⟨p.x - d * uy, p.y + d * ux⟩ : V2) = p' at *
  generalize hq' : (⟨q.x - d * uy, q.y + d * ux⟩ : V2) = q' at *
  have px : p'.x = p.x - d * uy := by rw [← hp']
  have py : p'.y = p.y + d * ux := by rw [← hp']
  have qx : q'.x = p.x + L * ux - d * uy := by rw [← hq', ← hqx]
  have qy : q'.y = p.y + L * uy + d * ux := by rw [← hq', ← hqy]
  obtain ⟨rs, hrs, hrx⟩ := (one_seg_indexable inf ninf (a := p') (b := q')).indexOf
  have hlen : dist2 p' q' = L ^ 2 := by
    simp only [dist2]; rw [px, py, qx, qy]; linear_combination L ^ 2 * hu
  have hlen8 : 1 / 10 ^ 8 ≤ dist2 p' q' := by
    rw [hlen]
    have h6 : (1 / 10 ^ 3 : ℝ) ^ 2 ≤ L ^ 2 := pow_le_pow_left₀ (by norm_num) hL 2
    norm_num at h6 ⊢
    linarith
  -- no self intersects
  have hself : allSelfIntersects (oneSeg p' q') [] rs = .ok [] := by
    unfold allSelfIntersects
    rw [show localSelfIntersects (oneSeg p' q') [] = .ok [] from rfl, ok_bind]
    rfl
  -- the other side is apart
  have hfind : findIntersects (oneSeg p' q')
      (oneSeg ⟨p.x - -d * uy, p.y + -d * ux⟩ ⟨q.x - -d * uy, q.y + -d * ux⟩) rs ⟨[], []⟩ =
      .ok ⟨[], []⟩ := by
    obtain ⟨s', out, hs', ho, hB, hA, -⟩ := C33_findIntersects (one_seg_indexable inf ninf (a := p')
      (b := q')) one_seg_ok (one_seg_ok (a := ⟨p.x - -d * uy, p.y + -d * ux⟩)
      (b := ⟨q.x - -d * uy, q.y + -d * ux⟩))
    rw [hrs] at hs'
    cases hs'
    have hno : intrPlineSegs ⟨p', 0⟩ ⟨q', 0⟩ ⟨⟨p.x - -d * uy, p.y + -d * ux⟩, 0⟩
        ⟨⟨q.x - -d * uy, q.y + -d * ux⟩, 0⟩ = .ok .noIntersect := by
      refine parallel_none ?_ ?_
      · simp only; rw [px, py, qx, qy, hqx, hqy]; ring
      · simp only
        rw [px, py, hqx, hqy]
        have e : (p.x + L * ux - -d * uy - (p.x - -d * uy)) * (p.y + d * ux - (p.y + -d * ux)) -
            (p.y + L * uy + -d * ux - (p.y + -d * ux)) * (p.x - d * uy - (p.x - -d * uy)) =
            2 * (L * d) := by linear_combination (2 * L * d) * hu
        rw [e, abs_mul, abs_of_pos (by norm_num : (0 : ℝ) < 2)]
        have := hsep (L * d) (by rw [abs_mul, abs_of_pos hL0])
        have := abs_nonneg (L * d)
        linarith
    have hc : out.coincidentIntersects = [] := by
      rw [List.eq_nil_iff_forall_not_mem]
      rintro ⟨i, j, a, b⟩ hm
      obtain ⟨v1, v2, u1, u2, g1, g2, -, g3⟩ := (hB _ _ _ _).1 hm
      obtain ⟨-, rfl, rfl⟩ := one_seg g1
      obtain ⟨-, rfl, rfl⟩ := one_seg g2
      unfold OverlapHit at g3
      rw [hno] at g3
      simp at g3
    have hi : out.intersects = [] := by
      rw [List.eq_nil_iff_forall_not_mem]
      rintro ⟨i, j, x⟩ hm
      obtain ⟨v1, v2, u1, u2, g1, g2, -, g3, -⟩ := (hA _ _ _).1 hm
      obtain ⟨-, rfl, rfl⟩ := one_seg g1
      obtain ⟨-, rfl, rfl⟩ := one_seg g2
      unfold PointHit at g3
      rw [hno] at g3
      simp at g3
    refine ho.trans ?_
    cases out
    simp only at hc hi
    rw [hc, hi]
  have dabs : |d| ^ 2 = d ^ 2 := sq_abs d
  have uxb : |d * ux| ≤ |d| := by
    rw [abs_mul]
    have : |ux| ≤ 1 := by rw [← sq_le_one_iff_abs_le_one]; nlinarith [sq_nonneg uy]
    nlinarith [abs_nonneg d]
  have uyb : |d * uy| ≤ |d| := by
    rw [abs_mul]
    have : |uy| ≤ 1 := by rw [← sq_le_one_iff_abs_le_one]; nlinarith [sq_nonneg ux]
    nlinarith [abs_nonneg d]
  -- the circles
  have hsq : ∀ x c : V2, OnSeg ⟨p', 0⟩ ⟨q', 0⟩ x → |x.x - c.x| ≤ |d| → |x.y - c.y| ≤ |d| →
      Overlap (squareAround |d| c) (createFastApproxBoundingBox ⟨p', 0⟩ ⟨q', 0⟩).toBox := by
    intro x c hx h1 h2
    obtain ⟨b1, b2, b3, b4⟩ := C12_bbox_contains (by norm_num) hx
    rw [abs_le] at h1 h2
    refine ⟨le_trans ?_ b2, le_trans b1 ?_, le_trans ?_ b4, le_trans b3 ?_⟩ <;>
      simp only [squareAround] <;> linarith
  have c1 := oneSeg_circle (d := d) (c := p) (t := 0) hrx hlen8
    (by rw [px, py, qx, qy]; ring)
    (by simp only [dist2]; rw [px, py, dabs]; linear_combination d ^ 2 * hu)
    (hsq p' p (by show OnSeg (⟨p', 0⟩ : Vertex) ⟨q', 0⟩ _; exact onSeg_start _ _)
      (by rw [px]; simpa using uyb) (by rw [py]; simpa using uxb)) []
  have c2 := oneSeg_circle (d := d) (c := q) (t := 1) hrx hlen8
    (by rw [hlen, px, py, qx, qy, hqx, hqy]; linear_combination -L ^ 2 * hu)
    (by rw [hlen]; simp only [dist2]; rw [px, py, hqx, hqy, dabs]; linear_combination (L ^ 2 + d ^ 2) * hu)
    (hsq q' q (by show OnSeg (⟨p', 0⟩ : Vertex) ⟨q', 0⟩ _; exact onSeg_end _ _)
      (by rw [qx, hqx]; simpa using uyb) (by rw [qy, hqy]; simpa using uxb)) []
  have hcirc : dualCircles (oneSeg p q) (oneSeg p' q') d rs = .ok [(0, q')] := by
    unfold dualCircles
    rw [if_neg (by simp [oneSeg]), show Polyline.at (oneSeg p q) 0 = .ok ⟨p, 0⟩ from rfl, ok_bind,
      show (oneSeg p q).lastVertex = .ok ⟨q, 0⟩ from rfl, ok_bind, c1, ok_bind]
    simp only
    rw [show addLineCircleIntr 0 ⟨p', 0⟩ ⟨q', 0⟩ 0 [] = [] by
      unfold addLineCircleIntr validLineSegIntersect
      rw [if_neg (by norm_num [realPrecision])]]
    rw [c2]
    unfold addLineCircleIntr validLineSegIntersect falseIntersect
    rw [if_pos (by norm_num [realPrecision])]
    have : pointFromParametric p' q' 1 = q' := by
      ext
      · show p'.x + 1 * (q'.x - p'.x) = _; ring
      · show p'.y + 1 * (q'.y - p'.y) = _; ring
    rw [this]
    rfl
  have hlook : dualLookup [(0, q')] [] ⟨[], []⟩ = [(0, [q'])] := rfl
  have hsort : sortLookup std (oneSeg p' q') [(0, [q'])] = .ok [(0, [q'])] := by
    unfold sortLookup
    rw [List.mapM_cons, List.mapM_nil, show Polyline.at (oneSeg p' q') 0 = .ok ⟨p', 0⟩ from rfl, ok_bind]
    rw [List.perm_singleton.1 (std.perm _ [q'] (keyLess_strictWeak fun x => distSquared x p'))]
    rfl
  have vq : pointValidForOffset (oneSeg p q) d s q' = .ok true :=
    hval _ (by rw [qx, qy]; linear_combination d * hu)
  have vm : pointValidForOffset (oneSeg p q) d s (midpoint p' q') = .ok true :=
    hval _ (by simp only [midpoint]; rw [px, py, qx, qy]; linear_combination d * hu)
  have hhit : intersectsOrigPline (oneSeg p q) s ⟨p', 0⟩ ⟨q', 0⟩ = .ok false := by
    refine oneSeg_no_hit hix ?_ (hsep _ ?_)
    · rw [px, py, qx, qy, hqx, hqy]; ring
    · rw [px, py, hqx, hqy, ← abs_of_pos hL0, ← abs_mul, abs_of_pos hL0]
      congr 1
      linear_combination L * d * hu
  have hhit2 : intersectsOrigPline (oneSeg p q) s ⟨q', 0⟩ ⟨q', 0⟩ = .ok false := by
    refine oneSeg_no_hit hix ?_ (hsep _ ?_)
    · ring
    · rw [qx, qy, hqx, hqy, ← abs_of_pos hL0, ← abs_mul, abs_of_pos hL0]
      congr 1
      linear_combination L * d * hu
  have hfar : Far p' q' := by
    unfold Far
    by_contra hc
    rw [not_or, not_le, not_le] at hc
    obtain ⟨h1, h2⟩ := hc
    have h3 := mul_self_lt_mul_self (abs_nonneg _) h1
    have h4 := mul_self_lt_mul_self (abs_nonneg _) h2
    rw [abs_mul_abs_self] at h3 h4
    have h6 : (1 / 10 ^ 3 : ℝ) ^ 2 ≤ L ^ 2 := pow_le_pow_left₀ (by norm_num) hL 2
    rw [← hlen] at h6
    simp only [dist2] at h6
    norm_num at h3 h4 h6
    nlinarith
  have hfirst : dualFirst ⟨oneSeg p q, s, d, oneSeg p' q'⟩ [(0, [q'])] =
      .ok [⟨0, oneSeg p' q'⟩] := by
    unfold dualFirst
    rw [if_neg (by simp [oneSeg])]
    show firstSliceLoop _ _ (2 + 1) 0 _ = _
    unfold firstSliceLoop
    rw [show Lookup.find? [(0, [q'])] 0 = some [q'] from rfl]
    simp only [SliceEnv.valid]
    rw [vq, ok_bind, if_neg (by simp), show Polyline.at (oneSeg p' q') 0 = .ok ⟨p', 0⟩ from rfl, ok_bind,
      show Polyline.at (oneSeg p' q') (0 + 1) = .ok ⟨q', 0⟩ from rfl, ok_bind]
    unfold splitAtPoint
    rw [if_pos (line_zero _), ok_bind]
    simp only
    unfold segMidpoint
    rw [if_pos (line_zero _), ok_bind, vm, ok_bind, if_neg (by simp), hhit, ok_bind]
    simp only [Bool.false_eq_true, if_false, pure_eq_ok]
    rw [show addOrReplaceIfSamePos Polyline.empty ⟨p', 0⟩ = ⟨false, [⟨p', 0⟩]⟩ from rfl, add_far rfl hfar]
    rfl
  have hstep : dualSliceStep ⟨oneSeg p q, s, d, oneSeg p' q'⟩ [(0, [q'])] [⟨0, oneSeg p' q'⟩] (0, [q']) =
      .ok [⟨0, oneSeg p' q'⟩] := by
    unfold dualSliceStep
    simp only
    rw [show Polyline.at (oneSeg p' q') 0 = .ok ⟨p', 0⟩ from rfl, ok_bind,
      show Polyline.at (oneSeg p' q') (nextWrappingIndex 0 (oneSeg p' q').size) = .ok ⟨q', 0⟩ from rfl,
      ok_bind]
    unfold innerSlices
    rw [if_neg (by simp), ok_bind]
    unfold outerSlice
    simp only [List.getLast?_singleton, SliceEnv.valid]
    rw [vq, ok_bind, if_neg (by simp)]
    unfold splitAtPoint
    rw [if_pos (line_zero _), ok_bind]
    show (sliceLoop _ _ _ (2 + 1) 1 ⟨false, [⟨q', 0⟩]⟩ >>= _) = _
    unfold sliceLoop
    simp only [SliceEnv.valid]
    rw [show Polyline.at (oneSeg p' q') 1 = .ok ⟨q', 0⟩ from rfl, ok_bind]
    simp only
    rw [vq, ok_bind, if_neg (by simp),
      show Polyline.lastVertex ⟨false, [(⟨q', 0⟩ : Vertex)]⟩ = .ok ⟨q', 0⟩ from rfl, ok_bind, hhit2,
      ok_bind, if_neg (by simp)]
    rw [show Lookup.find? [(0, [q'])] 1 = none from rfl]
    simp only
    rw [show dualAdvance (oneSeg p q).isClosed (oneSeg p' q').size 1 = none from rfl]
    simp only [pure_eq_ok, ok_bind]
    have : addOrReplaceIfSamePos ⟨false, [(⟨q', 0⟩ : Vertex)]⟩ ⟨q', 0⟩ = ⟨false, [⟨q', 0⟩]⟩ := by
      unfold addOrReplaceIfSamePos
      simp [fuzzyEqualV, fuzzyEqual, realPrecision]
    rw [this]
    rw [if_neg (by simp [Polyline.size])]
  change parallelOffset _ _ _ (oneSeg p q) d = .ok [oneSeg p' q']
  unfold parallelOffset
  rw [if_neg (by simp [oneSeg, Polyline.size]), hraw, ok_bind]
  simp only
  rw [if_neg (by simp [oneSeg]), hdual, ok_bind]
  unfold dualSliceAtIntersectsForOffset
  rw [if_neg (by simp [oneSeg, Polyline.size]),
    show createApproxSpatialIndex (codePlatform inf ninf) (oneSeg p q) = .ok s from hs, ok_bind,
    show createApproxSpatialIndex (codePlatform inf ninf) (oneSeg p' q') = .ok rs from hrs, ok_bind,
    hself, ok_bind, hfind, ok_bind, hcirc, ok_bind, hlook]
  simp only
  rw [if_neg (by simp), hsort, ok_bind, hfirst, ok_bind, List.foldlM_cons, hstep, ok_bind,
    List.foldlM_nil, pure_eq_ok, ok_bind]
  rfl

/-- A segment of length 5. -/
example (std : StdSort) (hash : HashOrder) :
    parallelOffset (codePlatform 0 0) std hash ⟨false, [⟨⟨0, 0⟩, 0⟩, ⟨⟨3, 4⟩, 0⟩]⟩ (-5) =
      .ok [⟨false, [⟨⟨4, -3⟩, 0⟩, ⟨⟨7, 1⟩, 0⟩]⟩] := by
  have := C52_segment (std := std) (hash := hash) 0 0 (d := -5) (L := 5) (ux := 3 / 5) (uy := 4 / 5)
    (p := ⟨0, 0⟩) (q := ⟨3, 4⟩) (by norm_num [abs_of_neg]) (by norm_num) (by norm_num) (by norm_num)
    (by norm_num)
  norm_num at this
  exact this

/-- The same segment meets the hypotheses of `C59_parallelOffset_dual`. -/
example (std : StdSort) (hash : HashOrder) (inf ninf : ℝ) :
    ∃ r selfs s d ends, parallelOffset (codePlatform inf ninf) std hash
        ⟨false, [⟨⟨0, 0⟩, 0⟩, ⟨⟨3, 4⟩, 0⟩]⟩ 5 = .ok r ∧ r ≠ [] ∧
      SelfIntersectsOf ⟨false, [⟨⟨-4, 3⟩, 0⟩, ⟨⟨-1, 7⟩, 0⟩]⟩ selfs ∧
      findIntersects ⟨false, [⟨⟨-4, 3⟩, 0⟩, ⟨⟨-1, 7⟩, 0⟩]⟩ ⟨false, [⟨⟨4, -3⟩, 0⟩, ⟨⟨7, 1⟩, 0⟩]⟩ s ⟨[], []⟩ =
        .ok d ∧
      OffsetResult ⟨false, [⟨⟨0, 0⟩, 0⟩, ⟨⟨3, 4⟩, 0⟩]⟩ ⟨false, [⟨⟨-4, 3⟩, 0⟩, ⟨⟨-1, 7⟩, 0⟩]⟩ 5
        (fun _ => True) (ends ++ selfCuts selfs ++ dualCuts d) r := by
  have hr := C52_segment (std := std) (hash := hash) inf ninf (d := 5) (L := 5) (ux := 3 / 5)
    (uy := 4 / 5) (p := ⟨0, 0⟩) (q := ⟨3, 4⟩) (by norm_num) (by norm_num) (by norm_num) (by norm_num)
    (by norm_num)
  have h1 := oneSeg_raw (d := 5) (L := 5) (ux := 3 / 5) (uy := 4 / 5) (p := ⟨0, 0⟩) (q := ⟨3, 4⟩)
    (by norm_num) (by norm_num) (by norm_num) (by norm_num)
  have h2 := oneSeg_raw (d := -5) (L := 5) (ux := 3 / 5) (uy := 4 / 5) (p := ⟨0, 0⟩) (q := ⟨3, 4⟩)
    (by norm_num) (by norm_num) (by norm_num) (by norm_num)
  unfold oneSeg at h1 h2
  norm_num at h1 h2
  obtain ⟨selfs, s, d, ends, k1, -, k2, -, k3⟩ := C59_parallelOffset_dual (std := std) (hash := hash)
    inf ninf (p := ⟨false, [⟨⟨0, 0⟩, 0⟩, ⟨⟨3, 4⟩, 0⟩]⟩) (offset := 5) (flag := false)
    (one_seg_indexable inf ninf) one_seg_ok
    (by
      intro v hv
      simp only [List.mem_cons, List.not_mem_nil, or_false] at hv
      rcases hv with rfl | rfl <;> norm_num)
    (by
      intro i v1 v2 h
      obtain ⟨-, rfl, rfl⟩ := one_seg h
      norm_num [Near])
    (Or.inl rfl) h1 h2 (one_seg_indexable inf ninf) one_seg_ok one_seg_ok hr
  exact ⟨_, selfs, s, d, ends, hr, by simp, k1, k2, k3⟩

end
end Cavc

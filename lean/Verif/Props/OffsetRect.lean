import Verif.Props.OffsetSlices
import Verif.Props.OffsetRaw
import Verif.Props.SelfIntersects

/-! C52: `parallelOffset` of a rectangle, from beginning to end. -/
namespace Cavc
open Spec
open scoped Classical
noncomputable section

/-- The closed polyline through four corners of a rectangle. -/
def rect (x0 y0 x1 y1 : ℝ) : Polyline :=
  ⟨true, [⟨⟨x0, y0⟩, 0⟩, ⟨⟨x1, y0⟩, 0⟩, ⟨⟨x1, y1⟩, 0⟩, ⟨⟨x0, y1⟩, 0⟩]⟩

variable {x0 y0 x1 y1 : ℝ}

theorem rect_segs : segs (rect x0 y0 x1 y1) =
    [(⟨⟨x0, y0⟩, 0⟩, ⟨⟨x1, y0⟩, 0⟩), (⟨⟨x1, y0⟩, 0⟩, ⟨⟨x1, y1⟩, 0⟩), (⟨⟨x1, y1⟩, 0⟩, ⟨⟨x0, y1⟩, 0⟩),
      (⟨⟨x0, y1⟩, 0⟩, ⟨⟨x0, y0⟩, 0⟩)] := rfl

theorem rect_seg {i : ℕ} {v1 v2 : Vertex} (h : IsSeg (rect x0 y0 x1 y1) i v1 v2) :
    (i = 0 ∧ v1 = ⟨⟨x0, y0⟩, 0⟩ ∧ v2 = ⟨⟨x1, y0⟩, 0⟩) ∨
    (i = 1 ∧ v1 = ⟨⟨x1, y0⟩, 0⟩ ∧ v2 = ⟨⟨x1, y1⟩, 0⟩) ∨
    (i = 2 ∧ v1 = ⟨⟨x1, y1⟩, 0⟩ ∧ v2 = ⟨⟨x0, y1⟩, 0⟩) ∨
    (i = 3 ∧ v1 = ⟨⟨x0, y1⟩, 0⟩ ∧ v2 = ⟨⟨x0, y0⟩, 0⟩) := by
  unfold IsSeg at h
  rw [rect_segs] at h
  match i, h with
  | 0, h => simp at h; exact Or.inl ⟨rfl, h.1.symm, h.2.symm⟩
  | 1, h => simp at h; exact Or.inr (Or.inl ⟨rfl, h.1.symm, h.2.symm⟩)
  | 2, h => simp at h; exact Or.inr (Or.inr (Or.inl ⟨rfl, h.1.symm, h.2.symm⟩))
  | 3, h => simp at h; exact Or.inr (Or.inr (Or.inr ⟨rfl, h.1.symm, h.2.symm⟩))
  | n + 4, h => simp at h

theorem rect_line {i : ℕ} {v1 v2 : Vertex} (h : IsSeg (rect x0 y0 x1 y1) i v1 v2) : v1.bulge = 0 := by
  rcases rect_seg h with ⟨-, rfl, -⟩ | ⟨-, rfl, -⟩ | ⟨-, rfl, -⟩ | ⟨-, rfl, -⟩ <;> rfl

theorem rect_ok : PlineOk (rect x0 y0 x1 y1) := by
  intro i v1 v2 h
  rcases rect_seg h with ⟨-, rfl, rfl⟩ | ⟨-, rfl, rfl⟩ | ⟨-, rfl, rfl⟩ | ⟨-, rfl, rfl⟩ <;>
    exact segOk_line

theorem rect_indexable (inf ninf : ℝ) : Indexable (codePlatform inf ninf) (rect x0 y0 x1 y1) := by
  refine indexable_code (by simp [rect]) (by rw [rect_segs]; simp) _ _
    (Or.inl (by rw [rect_segs]; simp)) ?_
  intro i v1 v2 h
  exact (rect_ok i v1 v2 h).half

/-- Two segments that cross: the result is their common point. -/
theorem intr_true {u1 u2 v1 v2 x : V2} {s r : ℝ}
    (h : 1 / 10 ^ 8 < |(u2.x - u1.x) * (v2.y - v1.y) - (u2.y - u1.y) * (v2.x - v1.x)|)
    (hs0 : 0 ≤ s) (hs1 : s ≤ 1) (hr0 : 0 ≤ r) (hr1 : r ≤ 1) (hu : lerp u1 u2 s = x)
    (hv : lerp v1 v2 r = x) : intrLineSeg2LineSeg2 u1 u2 v1 v2 = .trueIntr x := by
  obtain ⟨t0, t1, p, h0, h1, huniq, hres⟩ := C18_crossing u1 u2 v1 v2 h
  obtain ⟨rfl, rfl⟩ := huniq s r (hu.trans hv.symm)
  rw [hres, if_pos (by norm_num; refine ⟨?_, ?_, ?_, ?_⟩ <;> linarith), ← hv, h1]

theorem join_true {s1 s2 : OffsetSegment} {ccw : Prop} {result : Polyline} {x : V2}
    (b1 : s1.v1.bulge = 0) (b2 : s2.v1.bulge = 0) (c1 : s1.collapsedArc = false)
    (c2 : s2.collapsedArc = false)
    (hi : intrLineSeg2LineSeg2 s1.v1.pos s1.v2.pos s2.v1.pos s2.v2.pos = .trueIntr x) :
    joinSegs ccw s1 s2 result = .ok (addOrReplaceIfSamePos result ⟨x, 0⟩) := by
  have z1 : s1.v1.bulgeIsZero := by unfold Vertex.bulgeIsZero; rw [b1]; norm_num [realPrecision]
  have z2 : s2.v1.bulgeIsZero := by unfold Vertex.bulgeIsZero; rw [b2]; norm_num [realPrecision]
  unfold joinSegs
  rw [if_pos ⟨z1, z2⟩]
  unfold lineToLineJoin
  rw [assertP_pos ⟨z1, z2⟩, ok_bind, if_neg (by rw [c1, c2]; simp), hi]
  rfl

/-- Two positions that are not near. -/
def Far (a b : V2) : Prop := 1 / 10 ^ 5 ≤ |a.x - b.x| ∨ 1 / 10 ^ 5 ≤ |a.y - b.y|

/-- Appending a vertex that is not near the last one. -/
theorem add_far {c : Bool} {vs : List Vertex} {last v : Vertex} (hl : vs.getLast? = some last)
    (h : Far last.pos v.pos) :
    addOrReplaceIfSamePos ⟨c, vs⟩ v = ⟨c, vs ++ [v]⟩ := by
  unfold addOrReplaceIfSamePos
  simp only
  rw [hl]
  simp only
  rw [if_neg]
  · rfl
  · rintro ⟨h1, h2⟩
    unfold fuzzyEqual realPrecision at h1 h2
    rcases h with h | h <;> linarith

theorem offset_dir {d L ux uy : ℝ} {p q : V2} (hL : 1 / 10 ^ 3 ≤ L) (hu : ux ^ 2 + uy ^ 2 = 1)
    (hx : q.x - p.x = L * ux) (hy : q.y - p.y = L * uy) :
    offsetSeg d ⟨p, 0⟩ ⟨q, 0⟩ =
      .ok ⟨⟨⟨p.x - d * uy, p.y + d * ux⟩, 0⟩, ⟨⟨q.x - d * uy, q.y + d * ux⟩, 0⟩, q, false⟩ := by
  have hL0 : 0 < L := lt_of_lt_of_le (by norm_num) hL
  unfold offsetSeg
  rw [if_pos (show Vertex.bulgeIsZero ⟨p, 0⟩ by norm_num [Vertex.bulgeIsZero, realPrecision])]
  unfold offsetLineSeg
  simp only
  have hn : unitPerp (q - p) = .ok ⟨-uy, ux⟩ := by
    unfold unitPerp normalizeV
    have e1 : (q - p).x = L * ux := hx
    have e2 : (q - p).y = L * uy := hy
    have hd : dot (⟨-(q - p).y, (q - p).x⟩ : V2) ⟨-(q - p).y, (q - p).x⟩ = L ^ 2 := by
      unfold dot; simp only; rw [e1, e2]; linear_combination L ^ 2 * hu
    rw [assertP_pos, ok_bind]
    · simp only
      rw [hd, Real.sqrt_sq hL0.le, e1, e2]
      simp only [pure_eq_ok]
      congr 2
      · field_simp
      · field_simp
    · rintro ⟨h1, h2⟩
      unfold realThreshold at h1 h2
      simp only [e1, e2, abs_neg] at h1 h2
      have h3 : (L * uy) ^ 2 ≤ (1 / 10 ^ 8) ^ 2 := sq_le_sq' (by linarith [(abs_lt.1 h1).1]) (by linarith [(abs_lt.1 h1).2])
      have h4 : (L * ux) ^ 2 ≤ (1 / 10 ^ 8) ^ 2 := sq_le_sq' (by linarith [(abs_lt.1 h2).1]) (by linarith [(abs_lt.1 h2).2])
      have h5 : L ^ 2 ≤ 2 * (1 / 10 ^ 8) ^ 2 := by
        have : L ^ 2 = (L * ux) ^ 2 + (L * uy) ^ 2 := by linear_combination - L ^ 2 * hu
        linarith
      have h6 : (1 / 10 ^ 3 : ℝ) ^ 2 ≤ L ^ 2 := pow_le_pow_left₀ (by norm_num) hL 2
      norm_num at h5 h6
      linarith
  rw [hn, ok_bind]
  simp only [pure_eq_ok]
  congr 2
  · congr 1
    ext
    · show p.x + d * (-uy) = _; ring
    · rfl
  · congr 1
    ext
    · show q.x + d * (-uy) = _; ring
    · rfl

/-- Four raw segments, each crossing the next. -/
theorem four_joins {p : Polyline} {d : ℝ} {s0 s1 s2 s3 : OffsetSegment} {a b c e : V2}
    (hc : p.isClosed = true) (h0 : s0.v1.bulge = 0 ∧ s0.collapsedArc = false)
    (h1 : s1.v1.bulge = 0 ∧ s1.collapsedArc = false) (h2 : s2.v1.bulge = 0 ∧ s2.collapsedArc = false)
    (h3 : s3.v1.bulge = 0 ∧ s3.collapsedArc = false)
    (i01 : intrLineSeg2LineSeg2 s0.v1.pos s0.v2.pos s1.v1.pos s1.v2.pos = .trueIntr b)
    (i12 : intrLineSeg2LineSeg2 s1.v1.pos s1.v2.pos s2.v1.pos s2.v2.pos = .trueIntr c)
    (i23 : intrLineSeg2LineSeg2 s2.v1.pos s2.v2.pos s3.v1.pos s3.v2.pos = .trueIntr e)
    (i30 : intrLineSeg2LineSeg2 s3.v1.pos s3.v2.pos s0.v1.pos s0.v2.pos = .trueIntr a)
    (f0 : Far s0.v1.pos b) (f1 : Far b c) (f2 : Far c e) (f3 : Far e a) (f4 : Far a b) :
    joinRawSegs p d s0 [s1, s2, s3] = .ok ⟨true, [⟨a, 0⟩, ⟨b, 0⟩, ⟨c, 0⟩, ⟨e, 0⟩]⟩ := by
  unfold joinRawSegs
  rw [if_neg (by simp)]
  simp only [joinFirst, joinOthers, joinSegsLoop]
  rw [join_true h0.1 h1.1 h0.2 h1.2 i01, ok_bind, add_far rfl f0]
  rw [join_true h1.1 h2.1 h1.2 h2.2 i12, ok_bind, add_far rfl f1]
  rw [join_true h2.1 h3.1 h2.2 h3.2 i23, ok_bind, add_far rfl f2, ok_bind]
  simp only [List.cons_append, List.nil_append]
  have hz : Vertex.bulgeIsZero s0.v1 := by
    unfold Vertex.bulgeIsZero; rw [h0.1]; norm_num [realPrecision]
  have hend : ∀ fr : Prop, ¬ fr → joinEnd p.isClosed (d < 0) s3 s0 fr
      ⟨p.isClosed, [s0.v1, ⟨b, 0⟩, ⟨c, 0⟩, ⟨e, 0⟩]⟩ =
      .ok ⟨true, [⟨a, 0⟩, ⟨b, 0⟩, ⟨c, 0⟩, ⟨e, 0⟩]⟩ := by
    intro fr hfr
    unfold joinEnd
    rw [if_pos ⟨hc, by simp [Polyline.size]⟩, hc]
    unfold joinClosing
    rw [show Polyline.lastVertex ⟨true, [s0.v1, ⟨b, 0⟩, ⟨c, 0⟩, ⟨e, 0⟩]⟩ = .ok (⟨e, 0⟩ : Vertex) from rfl,
      ok_bind, show Polyline.empty.addVertex (⟨e, 0⟩ : Vertex) = ⟨false, [⟨e, 0⟩]⟩ from rfl,
      join_true h3.1 h0.1 h3.2 h0.2 i30, ok_bind, add_far rfl f3]
    simp only [List.cons_append, List.nil_append]
    rw [show Polyline.at ⟨false, [⟨e, 0⟩, ⟨a, 0⟩]⟩ 0 = .ok (⟨e, 0⟩ : Vertex) from rfl, ok_bind,
      show Polyline.setLast ⟨true, [s0.v1, ⟨b, 0⟩, ⟨c, 0⟩, ⟨e, 0⟩]⟩ ⟨e, 0⟩ =
        .ok ⟨true, [s0.v1, ⟨b, 0⟩, ⟨c, 0⟩, ⟨e, 0⟩]⟩ by simp [Polyline.setLast], ok_bind]
    simp only [List.tail_cons, List.cons_append, List.nil_append]
    rw [show Polyline.popBack ⟨true, [s0.v1, ⟨b, 0⟩, ⟨c, 0⟩, ⟨e, 0⟩, ⟨a, 0⟩]⟩ =
        .ok ⟨true, [s0.v1, ⟨b, 0⟩, ⟨c, 0⟩, ⟨e, 0⟩]⟩ by simp [Polyline.popBack], ok_bind,
      show Polyline.lastVertex ⟨false, [⟨e, 0⟩, ⟨a, 0⟩]⟩ = .ok (⟨a, 0⟩ : Vertex) from rfl, ok_bind]
    simp only
    rw [if_pos hfr]
    unfold updateFirstVertex
    rw [show Polyline.at ⟨true, [s0.v1, ⟨b, 0⟩, ⟨c, 0⟩, ⟨e, 0⟩]⟩ 0 = .ok s0.v1 from rfl, ok_bind,
      if_pos hz]
    simp only [setM, List.length_cons, List.length_nil]
    rw [if_pos (by norm_num), ok_bind, pure_eq_ok, ok_bind, h0.1]
    simp only [List.set_cons_zero]
    unfold pruneFirstVertex
    rw [if_pos (by simp [Polyline.size]),
      show Polyline.at ⟨true, [⟨a, 0⟩, ⟨b, 0⟩, ⟨c, 0⟩, ⟨e, 0⟩]⟩ 0 = .ok (⟨a, 0⟩ : Vertex) from rfl,
      ok_bind,
      show Polyline.at ⟨true, [⟨a, 0⟩, ⟨b, 0⟩, ⟨c, 0⟩, ⟨e, 0⟩]⟩ 1 = .ok (⟨b, 0⟩ : Vertex) from rfl,
      ok_bind, if_neg]
    · rfl
    · rintro ⟨g1, g2⟩
      unfold fuzzyEqual realPrecision at g1 g2
      rcases f4 with h | h <;> simp only at g1 g2 <;> linarith
  simp only [List.getLast?_cons_cons, List.getLast?_singleton, Option.getD_some]
  rw [hend _ (by simp [Polyline.size]), ok_bind, if_neg (by simp [Polyline.size])]
  rfl

/-- The raw offset of a rectangle. -/
theorem rect_raw {d : ℝ} (hd : 0 < d) (hdw : x0 + d + 1 / 10 ^ 3 ≤ x1)
    (hdh : y0 + d + 1 / 10 ^ 3 ≤ y1) (hw2 : 1 / 10 ^ 3 ≤ |x1 - x0 - 2 * d|)
    (hh2 : 1 / 10 ^ 3 ≤ |y1 - y0 - 2 * d|) :
    createRawOffsetPline (rect x0 y0 x1 y1) d = .ok (rect (x0 + d) (y0 + d) (x1 - d) (y1 - d)) := by
  have hw : x0 + 1 / 10 ^ 3 ≤ x1 := by linarith
  have hh : y0 + 1 / 10 ^ 3 ≤ y1 := by linarith
  have hwh : 1 / 10 ^ 6 ≤ (x1 - x0) * (y1 - y0) := by
    have : (1 / 10 ^ 3 : ℝ) * (1 / 10 ^ 3) ≤ (x1 - x0) * (y1 - y0) := by
      apply mul_le_mul <;> linarith
    norm_num at this ⊢
    linarith
  have o0 := offset_dir (d := d) (p := ⟨x0, y0⟩) (q := ⟨x1, y0⟩) (L := x1 - x0) (ux := 1) (uy := 0)
    (by linarith) (by norm_num) (by simp) (by simp)
  have o1 := offset_dir (d := d) (p := ⟨x1, y0⟩) (q := ⟨x1, y1⟩) (L := y1 - y0) (ux := 0) (uy := 1)
    (by linarith) (by norm_num) (by simp) (by simp)
  have o2 := offset_dir (d := d) (p := ⟨x1, y1⟩) (q := ⟨x0, y1⟩) (L := x1 - x0) (ux := -1) (uy := 0)
    (by linarith) (by norm_num) (by simp) (by simp)
  have o3 := offset_dir (d := d) (p := ⟨x0, y1⟩) (q := ⟨x0, y0⟩) (L := y1 - y0) (ux := 0) (uy := -1)
    (by linarith) (by norm_num) (by simp) (by simp)
  simp only [mul_zero, mul_one, sub_zero, add_zero, mul_neg, sub_neg_eq_add, ← sub_eq_add_neg]
    at o0 o1 o2 o3
  have hwpos : 0 < x1 - x0 := by linarith [show (0 : ℝ) < 1 / 10 ^ 3 by norm_num]
  have hhpos : 0 < y1 - y0 := by linarith [show (0 : ℝ) < 1 / 10 ^ 3 by norm_num]
  have cross : ∀ z : ℝ, z = (x1 - x0) * (y1 - y0) → 1 / 10 ^ 8 < |z| := by
    rintro z rfl
    rw [abs_of_pos (by positivity)]
    exact lt_of_lt_of_le (by norm_num) hwh
  have dw : 0 ≤ d / (x1 - x0) ∧ d / (x1 - x0) ≤ 1 := ⟨by positivity, by rw [div_le_one hwpos]; linarith⟩
  have dh : 0 ≤ d / (y1 - y0) ∧ d / (y1 - y0) ≤ 1 := ⟨by positivity, by rw [div_le_one hhpos]; linarith⟩
  have ew : d / (x1 - x0) * (x1 - x0) = d := div_mul_cancel₀ _ hwpos.ne'
  have eh : d / (y1 - y0) * (y1 - y0) = d := div_mul_cancel₀ _ hhpos.ne'
  generalize d / (x1 - x0) = a at dw ew
  generalize d / (y1 - y0) = b at dh eh
  have i01 : intrLineSeg2LineSeg2 ⟨x0, y0 + d⟩ ⟨x1, y0 + d⟩ ⟨x1 - d, y0⟩ ⟨x1 - d, y1⟩ =
      .trueIntr ⟨x1 - d, y0 + d⟩ := by
    refine intr_true (s := 1 - a) (r := b) (cross _ (by ring)) (by linarith) (by linarith) dh.1 dh.2
      ?_ ?_ <;> ext <;> simp only [lerp] <;> linarith
  have i12 : intrLineSeg2LineSeg2 ⟨x1 - d, y0⟩ ⟨x1 - d, y1⟩ ⟨x1, y1 - d⟩ ⟨x0, y1 - d⟩ =
      .trueIntr ⟨x1 - d, y1 - d⟩ := by
    refine intr_true (s := 1 - b) (r := a) (cross _ (by ring)) (by linarith) (by linarith) dw.1 dw.2
      ?_ ?_ <;> ext <;> simp only [lerp] <;> linarith
  have i23 : intrLineSeg2LineSeg2 ⟨x1, y1 - d⟩ ⟨x0, y1 - d⟩ ⟨x0 + d, y1⟩ ⟨x0 + d, y0⟩ =
      .trueIntr ⟨x0 + d, y1 - d⟩ := by
    refine intr_true (s := 1 - a) (r := b) (cross _ (by ring)) (by linarith) (by linarith) dh.1 dh.2
      ?_ ?_ <;> ext <;> simp only [lerp] <;> linarith
  have i30 : intrLineSeg2LineSeg2 ⟨x0 + d, y1⟩ ⟨x0 + d, y0⟩ ⟨x0, y0 + d⟩ ⟨x1, y0 + d⟩ =
      .trueIntr ⟨x0 + d, y0 + d⟩ := by
    refine intr_true (s := 1 - b) (r := a) (cross _ (by ring)) (by linarith) (by linarith) dw.1 dw.2
      ?_ ?_ <;> ext <;> simp only [lerp] <;> linarith
  have e35 : (1 / 10 ^ 5 : ℝ) ≤ 1 / 10 ^ 3 := by norm_num
  have f0 : 1 / 10 ^ 5 ≤ |x0 - (x1 - d)| := by
    rw [abs_of_neg (by linarith)]; linarith
  have f1 : 1 / 10 ^ 5 ≤ |y0 + d - (y1 - d)| := by
    rw [abs_sub_comm, show y1 - d - (y0 + d) = y1 - y0 - 2 * d by ring]; exact e35.trans hh2
  have f2 : 1 / 10 ^ 5 ≤ |x1 - d - (x0 + d)| := by
    rw [show x1 - d - (x0 + d) = x1 - x0 - 2 * d by ring]; exact e35.trans hw2
  have f3 : 1 / 10 ^ 5 ≤ |y1 - d - (y0 + d)| := by rw [abs_sub_comm]; exact f1
  have f4 : 1 / 10 ^ 5 ≤ |x0 + d - (x1 - d)| := by rw [abs_sub_comm]; exact f2
  unfold createRawOffsetPline
  rw [if_neg (by simp [rect, Polyline.size]), createUntrimmed_eq _ _ (by simp [rect, Polyline.size]),
    rect_segs]
  simp only [List.mapM_cons, List.mapM_nil, o0, o1, o2, o3, ok_bind, pure_eq_ok]
  exact four_joins rfl ⟨rfl, rfl⟩ ⟨rfl, rfl⟩ ⟨rfl, rfl⟩ ⟨rfl, rfl⟩ i01 i12 i23 i30 (Or.inl f0) (Or.inr f1)
    (Or.inl f2) (Or.inr f3) (Or.inl f4)

/-- A proper corner of two lines reports nothing. -/
theorem corner_none {a b c : V2} (hf : Far a b)
    (h : 1 / 10 ^ 8 < |(b.x - a.x) * (c.y - b.y) - (b.y - a.y) * (c.x - b.x)|) :
    consecutivePoints ⟨a, 0⟩ ⟨b, 0⟩ ⟨c, 0⟩ = [] := by
  unfold consecutivePoints
  rw [if_neg]
  · have hi : intrLineSeg2LineSeg2 a b b c = .trueIntr b := by
      refine intr_true (s := 1) (r := 0) h (by norm_num) le_rfl le_rfl (by norm_num) ?_ ?_ <;>
        ext <;> simp [lerp]
    have : intrPlineSegs ⟨a, 0⟩ ⟨b, 0⟩ ⟨b, 0⟩ ⟨c, 0⟩ = .ok (.oneIntersect b) := by
      unfold intrPlineSegs
      rw [if_pos ⟨by norm_num [Vertex.bulgeIsZero, realPrecision],
        by norm_num [Vertex.bulgeIsZero, realPrecision]⟩, hi]
    rw [this]
    simp [Near]
  · rintro ⟨h1, h2⟩
    rcases hf with h | h <;> simp only at h1 h2 <;> linarith

theorem rect_consecutive (hw : 1 / 10 ^ 3 ≤ |x1 - x0|) (hh : 1 / 10 ^ 3 ≤ |y1 - y0|) :
    (List.range (segs (rect x0 y0 x1 y1)).length).flatMap (consecutiveHits (rect x0 y0 x1 y1)) = [] := by
  have e35 : (1 / 10 ^ 5 : ℝ) ≤ 1 / 10 ^ 3 := by norm_num
  have cross : 1 / 10 ^ 8 < |x1 - x0| * |y1 - y0| := by
    have : (1 / 10 ^ 3 : ℝ) * (1 / 10 ^ 3) ≤ |x1 - x0| * |y1 - y0| := by
      apply mul_le_mul hw hh (by norm_num) (abs_nonneg _)
    exact lt_of_lt_of_le (by norm_num) this
  have fx : 1 / 10 ^ 5 ≤ |x0 - x1| := by rw [abs_sub_comm]; linarith
  have fx' : 1 / 10 ^ 5 ≤ |x1 - x0| := by linarith
  have fy : 1 / 10 ^ 5 ≤ |y0 - y1| := by rw [abs_sub_comm]; linarith
  have fy' : 1 / 10 ^ 5 ≤ |y1 - y0| := by linarith
  have hcr : ∀ z : ℝ, |z| = |x1 - x0| * |y1 - y0| → 1 / 10 ^ 8 < |z| := fun z hz => by rw [hz]; exact cross
  rw [List.flatMap_eq_nil_iff]
  intro i hi
  rw [List.mem_range, rect_segs] at hi
  simp only [List.length_cons, List.length_nil] at hi
  unfold consecutiveHits
  rw [rect_segs]
  simp only
  have hlen : (rect x0 y0 x1 y1).vertexes.length = 4 := rfl
  have hcl : (rect x0 y0 x1 y1).isClosed = true := rfl
  rw [hlen, hcl]
  interval_cases i
  · simp only [List.getElem?_cons_zero, List.getElem?_cons_succ, Nat.reduceAdd, Nat.reduceEqDiff,
      and_false, if_false]
    rw [corner_none (Or.inl fx) (hcr _ (by simp [abs_mul]))]; rfl
  · simp only [List.getElem?_cons_zero, List.getElem?_cons_succ, Nat.reduceAdd, Nat.reduceEqDiff,
      and_false, if_false]
    rw [corner_none (Or.inr fy) (hcr _ (by simp [abs_mul, abs_sub_comm x0 x1, mul_comm]))]; rfl
  · simp only [List.getElem?_cons_zero, List.getElem?_cons_succ, Nat.reduceAdd, Nat.reduceEqDiff,
      and_false, if_false]
    rw [corner_none (Or.inl fx') (hcr _ (by
      simp [abs_mul, abs_sub_comm x0 x1, abs_sub_comm y0 y1]))]; rfl
  · simp only [List.getElem?_cons_zero, List.getElem?_cons_succ, Nat.reduceAdd,
      and_true, if_true]
    rw [corner_none (Or.inr fy') (hcr _ (by
      simp [abs_mul, abs_sub_comm y0 y1, mul_comm]))]; rfl

theorem rect_far_pairs (hw : 1 / 10 ^ 3 ≤ |x1 - x0|) (hh : 1 / 10 ^ 3 ≤ |y1 - y0|) {i j : ℕ} :
    ¬ (NonAdjacent (rect x0 y0 x1 y1) i j ∧ ∃ v1 v2 u1 u2, IsSeg (rect x0 y0 x1 y1) i v1 v2 ∧
      IsSeg (rect x0 y0 x1 y1) j u1 u2 ∧ BoxesClose (1 / 10 ^ 8) v1 v2 u1 u2) := by
  rintro ⟨⟨n1, n2, n3⟩, v1, v2, u1, u2, h1, h2, hb⟩
  have e8 : (1 / 10 ^ 8 : ℝ) < 1 / 10 ^ 3 := by norm_num
  unfold IsPrev at n2 n3
  have hlen : (rect x0 y0 x1 y1).vertexes.length = 4 := rfl
  rw [hlen] at n2 n3
  unfold BoxesClose at hb
  rcases rect_seg h1 with ⟨rfl, rfl, rfl⟩ | ⟨rfl, rfl, rfl⟩ | ⟨rfl, rfl, rfl⟩ | ⟨rfl, rfl, rfl⟩ <;>
  rcases rect_seg h2 with ⟨rfl, rfl, rfl⟩ | ⟨rfl, rfl, rfl⟩ | ⟨rfl, rfl, rfl⟩ | ⟨rfl, rfl, rfl⟩ <;>
  first
  | omega
  | (simp only [createFastApproxBoundingBox, Vertex.bulgeIsZero, realPrecision] at hb
     norm_num at hb
     rcases le_abs.1 hw with hw | hw <;> rcases le_abs.1 hh with hh | hh <;> linarith [hb.1, hb.2.1, hb.2.2.1, hb.2.2.2])

theorem rect_no_self {pf : Platform} (hi : Indexable pf (rect x0 y0 x1 y1))
    (hw : 1 / 10 ^ 3 ≤ |x1 - x0|) (hh : 1 / 10 ^ 3 ≤ |y1 - y0|) :
    ∃ s, createApproxSpatialIndex pf (rect x0 y0 x1 y1) = .ok s ∧
      allSelfIntersects (rect x0 y0 x1 y1) [] s = .ok [] := by
  obtain ⟨s, hs, pairs, -, -, hpairs, hout⟩ := C34_globalSelfIntersects hi rect_ok
  refine ⟨s, hs, ?_⟩
  have hp : pairs = [] := by
    rw [List.eq_nil_iff_forall_not_mem]
    rintro ⟨i, j⟩ hij
    exact rect_far_pairs hw hh ((hpairs i j).1 (Or.inl hij))
  unfold allSelfIntersects
  rw [C35_localSelfIntersects (by simp [rect]) rect_ok, rect_consecutive hw hh, List.nil_append, ok_bind, hout, hp]
  rfl

/-- The distance test at the first vertex of the raw offset of a rectangle. -/
theorem rect_valid {s : SIndex ℝ} {d : ℝ} (hs : IndexOf (segBoxes (rect x0 y0 x1 y1)) s)
    (hd : 1 / 10 ^ 4 ≤ d) (hw : x0 + 2 * d ≤ x1) (hh : y0 + 2 * d ≤ y1) :
    pointValidForOffset (rect x0 y0 x1 y1) d s ⟨x0 + d, y0 + d⟩ = .ok true := by
  have hd0 : 0 < d := lt_of_lt_of_le (by norm_num) hd
  obtain ⟨b, hb, hbi⟩ := pointValid_iff hs rect_ok d offsetThreshold ⟨x0 + d, y0 + d⟩
  rw [hb]
  congr 1
  rw [hbi]
  intro i v1 v2 q hseg _ hq
  rw [abs_of_pos hd0]
  have e4 : (0 : ℝ) < 1 / 10 ^ 4 := by norm_num
  have key : ∀ z : ℝ, d ≤ |z| → ∀ w : ℝ, (d - offsetThreshold) ^ 2 < z ^ 2 + w ^ 2 := by
    intro z hz w
    have h1 : (d - offsetThreshold) ^ 2 < d ^ 2 := by
      unfold offsetThreshold
      apply pow_lt_pow_left₀ <;> linarith
    have h2 : d ^ 2 ≤ z ^ 2 := by rw [← sq_abs z]; exact pow_le_pow_left₀ hd0.le hz 2
    have h3 := sq_nonneg w
    linarith
  have hl : v1.bulgeIsZero := by
    unfold Vertex.bulgeIsZero; rw [rect_line hseg]; norm_num [realPrecision]
  unfold closestPointOnSeg at hq
  rw [if_pos hl] at hq
  cases hq
  obtain ⟨t, t0, t1, ht⟩ := (C13_closestPointOnLineSeg v1.pos v2.pos ⟨x0 + d, y0 + d⟩).1
  rw [ht]
  unfold dist2
  rcases rect_seg hseg with ⟨rfl, rfl, rfl⟩ | ⟨rfl, rfl, rfl⟩ | ⟨rfl, rfl, rfl⟩ | ⟨rfl, rfl, rfl⟩
  · rw [add_comm]
    refine key _ ?_ _
    simp only [lerp]
    rw [abs_of_neg (by linarith)]; linarith
  · refine key _ ?_ _
    simp only [lerp]
    rw [abs_of_pos (by linarith)]; linarith
  · rw [add_comm]
    refine key _ ?_ _
    simp only [lerp]
    rw [abs_of_pos (by linarith)]; linarith
  · refine key _ ?_ _
    simp only [lerp]
    rw [abs_of_neg (by linarith)]; linarith

/-- The distance test at the first vertex of the raw offset of a rectangle that is too small. -/
theorem rect_invalid {s : SIndex ℝ} {d : ℝ} (hs : IndexOf (segBoxes (rect x0 y0 x1 y1)) s)
    (hdw : x0 + d + 1 / 10 ^ 3 ≤ x1) (hdh : y0 + d + 1 / 10 ^ 3 ≤ y1)
    (h : x1 + 1 / 10 ^ 3 ≤ x0 + 2 * d ∨ y1 + 1 / 10 ^ 3 ≤ y0 + 2 * d) :
    pointValidForOffset (rect x0 y0 x1 y1) d s ⟨x0 + d, y0 + d⟩ = .ok false := by
  have hd3 : 2 / 10 ^ 3 ≤ d := by
    have : (2 / 10 ^ 3 : ℝ) = 1 / 10 ^ 3 + 1 / 10 ^ 3 := by norm_num
    rcases h with h | h <;> linarith
  have e3 : (0 : ℝ) < 2 / 10 ^ 3 := by norm_num
  have hd0 : 0 < d := by linarith
  obtain ⟨b, hb, hbi⟩ := pointValid_iff hs rect_ok d offsetThreshold ⟨x0 + d, y0 + d⟩
  rw [hb]
  congr 1
  rw [← Bool.not_eq_true, hbi]
  intro hall
  rw [abs_of_pos hd0] at hall
  have close : ∀ (z : ℝ) (a b : V2) (t : ℝ), 0 ≤ t → t ≤ 1 → 0 ≤ z → z ≤ d - 1 / 10 ^ 3 →
      dist2 ⟨x0 + d, y0 + d⟩ (lerp a b t) = z ^ 2 →
      ¬ (d - offsetThreshold) ^ 2 < dist2 (closestPointOnLineSeg a b ⟨x0 + d, y0 + d⟩)
        ⟨x0 + d, y0 + d⟩ := by
    intro z a b t t0 t1 z0 z1 hz hlt
    have := (C13_closestPointOnLineSeg a b ⟨x0 + d, y0 + d⟩).2.1 t t0 t1
    rw [hz] at this
    have hsym : ∀ p q : V2, dist2 p q = dist2 q p := fun p q => by unfold dist2; ring
    rw [hsym] at hlt
    have hz2 : z ^ 2 ≤ (d - 1 / 10 ^ 3) ^ 2 := pow_le_pow_left₀ z0 z1 2
    unfold offsetThreshold at hlt
    nlinarith
  have hline : ∀ (a b : V2), closestPointOnSeg ⟨a, 0⟩ ⟨b, 0⟩ ⟨x0 + d, y0 + d⟩ =
      .ok (closestPointOnLineSeg a b ⟨x0 + d, y0 + d⟩) := by
    intro a b
    unfold closestPointOnSeg
    rw [if_pos (by norm_num [Vertex.bulgeIsZero, realPrecision])]
  have hz : ∀ a : V2, Vertex.bulgeIsZero ⟨a, 0⟩ := fun a => by
    norm_num [Vertex.bulgeIsZero, realPrecision]
  have e34 : (1 / 10 ^ 4 : ℝ) < 1 / 10 ^ 3 := by norm_num
  have e33 : (0 : ℝ) < 1 / 10 ^ 3 := by norm_num
  have h1 := fun hb => hall 1 ⟨⟨x1, y0⟩, 0⟩ ⟨⟨x1, y1⟩, 0⟩ _ rfl hb (hline _ _)
  have h2 := fun hb => hall 2 ⟨⟨x1, y1⟩, 0⟩ ⟨⟨x0, y1⟩, 0⟩ _ rfl hb (hline _ _)
  rcases h with h | h
  · refine close (x1 - x0 - d) ⟨x1, y0⟩ ⟨x1, y1⟩ (d / (y1 - y0)) (by
      apply div_nonneg <;> linarith) (by rw [div_le_one (by linarith)]; linarith) (by linarith)
      (by linarith) ?_ (h1 ?_)
    · unfold dist2
      have : d / (y1 - y0) * (y1 - y0) = d := div_mul_cancel₀ _ (by linarith)
      simp only [lerp]
      rw [this]; ring
    · unfold Overlap validBox createFastApproxBoundingBox
      rw [if_pos (hz _)]
      simp only [AABB.toBox, offsetThreshold]
      refine ⟨?_, ?_, ?_, ?_⟩ <;> split_ifs <;> linarith [show (1 / 10 ^ 4 : ℝ) < 2 / 10 ^ 3 by norm_num]
  · refine close (y1 - y0 - d) ⟨x1, y1⟩ ⟨x0, y1⟩ (1 - d / (x1 - x0)) (by
      rw [sub_nonneg, div_le_one (by linarith)]; linarith)
      (by linarith [div_nonneg hd0.le (show 0 ≤ x1 - x0 by linarith)]) (by linarith)
      (by linarith) ?_ (h2 ?_)
    · unfold dist2
      have : d / (x1 - x0) * (x1 - x0) = d := div_mul_cancel₀ _ (by linarith)
      simp only [lerp]
      rw [show x0 + d - (x1 + (1 - d / (x1 - x0)) * (x0 - x1)) = d - d / (x1 - x0) * (x1 - x0) by ring,
        this]
      ring
    · unfold Overlap validBox createFastApproxBoundingBox
      rw [if_pos (hz _)]
      simp only [AABB.toBox, offsetThreshold]
      refine ⟨?_, ?_, ?_, ?_⟩ <;> split_ifs <;> linarith [show (1 / 10 ^ 4 : ℝ) < 2 / 10 ^ 3 by norm_num]

theorem slices_none {pf : Platform} {std : StdSort} {hash : HashOrder} {p raw : Polyline} {d : ℝ}
    {s rs : SIndex ℝ} {v : Vertex} {b : Bool} (hc : p.isClosed = true) (h2 : 2 ≤ raw.size)
    (hs : createApproxSpatialIndex pf p = .ok s) (hrs : createApproxSpatialIndex pf raw = .ok rs)
    (hsi : allSelfIntersects raw [] rs = .ok []) (hv : raw.at 0 = .ok v)
    (hb : pointValidForOffset p d s v.pos = .ok b) :
    slicesFromRawOffset pf std hash p raw d =
      .ok (if b = true then [wholeSlice raw v true] else []) := by
  unfold slicesFromRawOffset
  rw [assertP_pos hc, ok_bind, if_neg (by omega), hs, ok_bind, hrs, ok_bind, hsi, ok_bind]
  simp only
  rw [if_pos (by rfl), hv, ok_bind]
  unfold SliceEnv.valid
  simp only
  rw [hb, ok_bind]
  cases b <;> simp

/-- C52. The offset to the inside of a rectangle with room for it is the smaller rectangle, whatever
the orders of hash tables and ties in sorting. -/
theorem C52_rectangle {std : StdSort} {hash : HashOrder} (inf ninf : ℝ) {d : ℝ}
    (hd : 1 / 10 ^ 4 ≤ d) (hw : x0 + 2 * d + 1 / 10 ^ 3 ≤ x1) (hh : y0 + 2 * d + 1 / 10 ^ 3 ≤ y1) :
    parallelOffset (codePlatform inf ninf) std hash
      ⟨true, [⟨⟨x0, y0⟩, 0⟩, ⟨⟨x1, y0⟩, 0⟩, ⟨⟨x1, y1⟩, 0⟩, ⟨⟨x0, y1⟩, 0⟩]⟩ d =
    .ok [⟨true, [⟨⟨x0 + d, y0 + d⟩, 0⟩, ⟨⟨x1 - d, y0 + d⟩, 0⟩, ⟨⟨x1 - d, y1 - d⟩, 0⟩,
      ⟨⟨x0 + d, y1 - d⟩, 0⟩]⟩] := by
  have e3 : (0 : ℝ) < 1 / 10 ^ 3 := by norm_num
  have hd0 : 0 < d := lt_of_lt_of_le (by norm_num) hd
  have hraw := rect_raw (x0 := x0) (y0 := y0) (x1 := x1) (y1 := y1) hd0 (by linarith) (by linarith)
    (by rw [abs_of_pos] <;> linarith) (by rw [abs_of_pos] <;> linarith)
  obtain ⟨s, hs, hx⟩ := (rect_indexable (x0 := x0) (y0 := y0) (x1 := x1) (y1 := y1) inf ninf).indexOf
  obtain ⟨rs, hrs, hsi⟩ := rect_no_self (rect_indexable (x0 := x0 + d) (y0 := y0 + d) (x1 := x1 - d)
    (y1 := y1 - d) inf ninf) (by rw [abs_of_pos] <;> linarith) (by rw [abs_of_pos] <;> linarith)
  have hval := rect_valid hx hd (by linarith) (by linarith)
  change parallelOffset _ _ _ (rect x0 y0 x1 y1) d = .ok [rect (x0 + d) (y0 + d) (x1 - d) (y1 - d)]
  have hsl := slices_none (pf := codePlatform inf ninf) (std := std) (hash := hash)
    (p := rect x0 y0 x1 y1) (raw := rect (x0 + d) (y0 + d) (x1 - d) (y1 - d))
    (v := ⟨⟨x0 + d, y0 + d⟩, 0⟩) rfl (by simp [rect, Polyline.size]) hs hrs hsi rfl hval
  rw [if_pos rfl] at hsl
  unfold parallelOffset
  rw [if_neg (by simp [rect, Polyline.size]), hraw, ok_bind]
  simp only
  rw [if_pos ⟨rfl, by simp⟩, hsl, ok_bind]
  obtain ⟨q, hq, -⟩ := (C40_small (codePlatform inf ninf) std true
    (((rect (x0 + d) (y0 + d) (x1 - d) (y1 - d)).size + sizeMax) % 2 ^ 64) sliceJoinThreshold).2
    (wholeSlice (rect (x0 + d) (y0 + d) (x1 - d) (y1 - d)) ⟨⟨x0 + d, y0 + d⟩, 0⟩ true)
    (by simp [wholeSlice]) rfl
  have := stitch_whole (raw := rect (x0 + d) (y0 + d) (x1 - d) (y1 - d)) (v := ⟨⟨x0 + d, y0 + d⟩, 0⟩)
    (by simp [rect, Polyline.size]) rfl hq
  rw [this] at hq
  exact hq

/-- C52. If a side of the rectangle is shorter than twice the offset there is no offset at all. -/
theorem C52_rectangle_collapse {std : StdSort} {hash : HashOrder} (inf ninf : ℝ) {d : ℝ}
    (hdw : x0 + d + 1 / 10 ^ 3 ≤ x1) (hdh : y0 + d + 1 / 10 ^ 3 ≤ y1)
    (hw2 : 1 / 10 ^ 3 ≤ |x1 - x0 - 2 * d|) (hh2 : 1 / 10 ^ 3 ≤ |y1 - y0 - 2 * d|)
    (h : x1 < x0 + 2 * d ∨ y1 < y0 + 2 * d) :
    parallelOffset (codePlatform inf ninf) std hash
      ⟨true, [⟨⟨x0, y0⟩, 0⟩, ⟨⟨x1, y0⟩, 0⟩, ⟨⟨x1, y1⟩, 0⟩, ⟨⟨x0, y1⟩, 0⟩]⟩ d = .ok [] := by
  have e3 : (0 : ℝ) < 1 / 10 ^ 3 := by norm_num
  have h' : x1 + 1 / 10 ^ 3 ≤ x0 + 2 * d ∨ y1 + 1 / 10 ^ 3 ≤ y0 + 2 * d := by
    rcases h with h | h
    · left; rw [abs_of_neg (by linarith)] at hw2; linarith
    · right; rw [abs_of_neg (by linarith)] at hh2; linarith
  have hd0 : 0 < d := by rcases h with h | h <;> linarith
  have hraw := rect_raw (x0 := x0) (y0 := y0) (x1 := x1) (y1 := y1) hd0 hdw hdh hw2 hh2
  obtain ⟨s, hs, hx⟩ := (rect_indexable (x0 := x0) (y0 := y0) (x1 := x1) (y1 := y1) inf ninf).indexOf
  obtain ⟨rs, hrs, hsi⟩ := rect_no_self (rect_indexable (x0 := x0 + d) (y0 := y0 + d) (x1 := x1 - d)
    (y1 := y1 - d) inf ninf) (by rw [show x1 - d - (x0 + d) = x1 - x0 - 2 * d by ring]; exact hw2)
    (by rw [show y1 - d - (y0 + d) = y1 - y0 - 2 * d by ring]; exact hh2)
  have hval := rect_invalid hx hdw hdh h'
  change parallelOffset _ _ _ (rect x0 y0 x1 y1) d = .ok []
  have hsl := slices_none (pf := codePlatform inf ninf) (std := std) (hash := hash)
    (p := rect x0 y0 x1 y1) (raw := rect (x0 + d) (y0 + d) (x1 - d) (y1 - d))
    (v := ⟨⟨x0 + d, y0 + d⟩, 0⟩) rfl (by simp [rect, Polyline.size]) hs hrs hsi rfl hval
  rw [if_neg (by simp)] at hsl
  unfold parallelOffset
  rw [if_neg (by simp [rect, Polyline.size]), hraw, ok_bind]
  simp only
  rw [if_pos ⟨rfl, by simp⟩, hsl, ok_bind]
  rfl

/-- A 10 by 6 rectangle with offsets 1 and 4. -/
example (std : StdSort) (hash : HashOrder) :
    parallelOffset (codePlatform 0 0) std hash
      ⟨true, [⟨⟨0, 0⟩, 0⟩, ⟨⟨10, 0⟩, 0⟩, ⟨⟨10, 6⟩, 0⟩, ⟨⟨0, 6⟩, 0⟩]⟩ 4 = .ok [] ∧
    ∃ r, parallelOffset (codePlatform 0 0) std hash
      ⟨true, [⟨⟨0, 0⟩, 0⟩, ⟨⟨10, 0⟩, 0⟩, ⟨⟨10, 6⟩, 0⟩, ⟨⟨0, 6⟩, 0⟩]⟩ 1 = .ok r ∧ r.length = 1 := by
  constructor
  · exact C52_rectangle_collapse 0 0 (by norm_num) (by norm_num) (by norm_num [abs_of_pos])
      (by rw [abs_of_neg] <;> norm_num) (Or.inr (by norm_num))
  · exact ⟨_, C52_rectangle 0 0 (by norm_num) (by norm_num) (by norm_num), rfl⟩

/-- The same rectangle meets the hypotheses of C51. -/
example (std : StdSort) (hash : HashOrder) :
    let p : Polyline := ⟨true, [⟨⟨0, 0⟩, 0⟩, ⟨⟨10, 0⟩, 0⟩, ⟨⟨10, 6⟩, 0⟩, ⟨⟨0, 6⟩, 0⟩]⟩
    Indexable (codePlatform 0 0) p ∧ PlineOk p ∧ p.isClosed = true ∧
      (1 / 10 ^ 4 : ℝ) ≤ |(1 : ℝ)| ∧ ∃ r, parallelOffset (codePlatform 0 0) std hash p 1 = .ok r :=
  ⟨rect_indexable 0 0, rect_ok, rfl, by norm_num,
    _, C52_rectangle 0 0 (by norm_num) (by norm_num) (by norm_num)⟩

end
end Cavc

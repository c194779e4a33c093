import Verif.Props.CombineSides
import Verif.Props.OffsetRect
import Verif.Proofs.CutPoly
import Verif.Spec.Region

/-! Polygons in general position: what the search for intersects reports. -/
namespace Cavc
open Spec
open scoped Classical
noncomputable section

/-! ### Segments -/

/-- A segment on one side of a line does not meet it, not even with the tolerance of the parameters. -/
theorem oneSide_ne {a b p q : V2} (h : OneSide a b p q) {t : ℝ} (h0 : -(1 / 10 ^ 8) ≤ t)
    (h1 : t ≤ 1 + 1 / 10 ^ 8) : side a b (lerp p q t) ≠ 0 := by
  have e : side a b (lerp p q t) = side a b p + t * (side a b q - side a b p) := by
    simp only [side, lerp]; ring
  rw [e]
  unfold OneSide at h
  simp only at h
  generalize side a b p = α at h ⊢
  generalize side a b q = β at h ⊢
  intro h2
  rcases le_total α β with hab | hab
  · rw [abs_of_nonneg (by linarith)] at h
    rcases h with ⟨q1, q2⟩ | ⟨q1, q2⟩
    · nlinarith
    · nlinarith
  · rw [abs_of_nonpos (by linarith)] at h
    rcases h with ⟨q1, q2⟩ | ⟨q1, q2⟩
    · nlinarith
    · nlinarith

theorem oneSide_big {a b p q : V2} (h : OneSide a b p q) : 1 / 10 ^ 8 < |side a b p| := by
  unfold OneSide at h
  simp only at h
  have := abs_nonneg (side a b q - side a b p)
  rw [lt_abs]
  rcases h with ⟨q1, q2⟩ | ⟨q1, q2⟩
  · left; nlinarith
  · right; nlinarith

theorem side_lerp_self (a b : V2) (t : ℝ) : side a b (lerp a b t) = 0 := by
  simp only [side, lerp]; ring

/-- No point is reported for segments one of which is on one side of the line of the other. -/
theorem oneSide_none {a b p q : V2} (h : OneSide a b p q ∨ OneSide p q a b) :
    intrLineSeg2LineSeg2 a b p q = .none ∨ ∃ t0 t1 x, intrLineSeg2LineSeg2 a b p q = .falseIntr t0 t1 x := by
  by_cases hd : 1 / 10 ^ 8 < |(b.x - a.x) * (q.y - p.y) - (b.y - a.y) * (q.x - p.x)|
  · obtain ⟨t0, t1, x, h0, h1, -, hres⟩ := C18_crossing a b p q hd
    right
    refine ⟨t0, t1, x, ?_⟩
    rw [hres, if_neg]
    rintro ⟨b1, b2, b3, b4⟩
    rcases h with h | h
    · apply oneSide_ne h b3 b4
      rw [h1, ← h0, side_lerp_self]
    · apply oneSide_ne h b1 b2
      rw [h0, ← h1, side_lerp_self]
  · left
    rw [parallel_branch hd, if_pos]
    rcases h with h | h
    · left
      have := oneSide_big h
      rw [show perpDot (b - a) (a - p) = -side a b p by simp only [perpDot, side, V2.sub_x, V2.sub_y]; ring,
        abs_neg]
      exact this
    · right
      have := oneSide_big h
      rw [show perpDot (q - p) (a - p) = side p q a by simp only [perpDot, side, V2.sub_x, V2.sub_y]]
      exact this

theorem lerp_min_max {a b t : ℝ} (h0 : 0 ≤ t) (h1 : t ≤ 1) :
    min a b ≤ a + t * (b - a) ∧ a + t * (b - a) ≤ max a b :=
  between_of_convex h0 h1 (by ring)

theorem before_ne {a b p q s t : ℝ} (h : Before a b p q) (h0 : 0 ≤ s) (h1 : s ≤ 1) (h2 : 0 ≤ t) (h3 : t ≤ 1) :
    a + s * (b - a) < p + t * (q - p) := by
  have q1 := (lerp_min_max (a := a) (b := b) h0 h1).2
  have q2 := (lerp_min_max (a := p) (b := q) h2 h3).1
  unfold Before at h
  have : (0 : ℝ) < 1 / 10 ^ 5 := by norm_num
  linarith

/-- Segments away from each other have no common point. -/
theorem awayFrom_off {a b p q : V2} (h : AwayFrom a b p q) {s t : ℝ} (h0 : 0 ≤ s) (h1 : s ≤ 1) (h2 : 0 ≤ t)
    (h3 : t ≤ 1) : lerp a b s ≠ lerp p q t := by
  intro e
  have e8 : (0 : ℝ) < 1 / 10 ^ 8 := by norm_num
  have ex : a.x + s * (b.x - a.x) = p.x + t * (q.x - p.x) := congrArg V2.x e
  have ey : a.y + s * (b.y - a.y) = p.y + t * (q.y - p.y) := congrArg V2.y e
  rcases h with h | h | h | h | h | h
  · apply oneSide_ne h (show -(1 / 10 ^ 8) ≤ t by linarith) (by linarith)
    rw [← e, side_lerp_self]
  · apply oneSide_ne h (show -(1 / 10 ^ 8) ≤ s by linarith) (by linarith)
    rw [e, side_lerp_self]
  · have := before_ne h h0 h1 h2 h3
    linarith
  · have := before_ne h h2 h3 h0 h1
    linarith
  · have := before_ne h h0 h1 h2 h3
    linarith
  · have := before_ne h h2 h3 h0 h1
    linarith

/-- Nothing is reported for segments away from each other with close boxes. -/
theorem awayFrom_nothing {v1 v2 u1 u2 : Vertex} (l1 : IsLine v1) (l2 : IsLine u1)
    (h : AwayFrom v1.pos v2.pos u1.pos u2.pos) (hb : BoxesClose (1 / 10 ^ 5) v1 v2 u1 u2) :
    intrPlineSegs v1 v2 u1 u2 = .ok .noIntersect := by
  have key : OneSide v1.pos v2.pos u1.pos u2.pos ∨ OneSide u1.pos u2.pos v1.pos v2.pos := by
    have hmin : ∀ x y : ℝ, (if x < y then x else y) = min x y := by
      intro x y; rw [min_def]; split_ifs <;> first | rfl | linarith
    have hmax : ∀ x y : ℝ, (if x < y then y else x) = max x y := by
      intro x y; rw [max_def]; split_ifs <;> first | rfl | linarith
    unfold BoxesClose createFastApproxBoundingBox at hb
    simp only [if_pos (show v1.bulgeIsZero from l1), if_pos (show u1.bulgeIsZero from l2), hmin, hmax] at hb
    obtain ⟨b1, b2, b3, b4⟩ := hb
    rcases h with h | h | h | h | h | h
    · exact Or.inl h
    · exact Or.inr h
    all_goals
      exfalso
      unfold Before at h
      linarith
  unfold intrPlineSegs
  rw [if_pos ⟨show v1.bulgeIsZero from l1, show u1.bulgeIsZero from l2⟩]
  rcases oneSide_none key with e | ⟨t0, t1, x, e⟩ <;> rw [e]

/-- A crossing is reported. -/
theorem crossing_one {v1 v2 u1 u2 : Vertex} {x : V2} (l1 : IsLine v1) (l2 : IsLine u1)
    (h : Crossing v1.pos v2.pos u1.pos u2.pos x) : intrPlineSegs v1 v2 u1 u2 = .ok (.oneIntersect x) := by
  obtain ⟨s, s0, s1, hs⟩ := h.first
  obtain ⟨t, t0, t1, ht⟩ := h.second
  unfold intrPlineSegs
  rw [if_pos ⟨show v1.bulgeIsZero from l1, show u1.bulgeIsZero from l2⟩,
    intr_true h.angle s0.le s1.le t0.le t1.le hs.symm ht.symm]

theorem det_unique {a b p q : V2} (h : (b.x - a.x) * (q.y - p.y) - (b.y - a.y) * (q.x - p.x) ≠ 0)
    {s t s' t' : ℝ} (e : lerp a b s = lerp p q t) (e' : lerp a b s' = lerp p q t') : s = s' ∧ t = t' := by
  have ex := congrArg V2.x e
  have ey := congrArg V2.y e
  have ex' := congrArg V2.x e'
  have ey' := congrArg V2.y e'
  simp only [lerp] at ex ey ex' ey'
  constructor
  · apply sub_eq_zero.1
    refine (mul_eq_zero.1 (show (s - s') * ((b.x - a.x) * (q.y - p.y) - (b.y - a.y) * (q.x - p.x)) = 0 from ?_)).resolve_right h
    linear_combination (ex - ex') * (q.y - p.y) - (ey - ey') * (q.x - p.x)
  · apply sub_eq_zero.1
    refine (mul_eq_zero.1 (show (t - t') * ((b.x - a.x) * (q.y - p.y) - (b.y - a.y) * (q.x - p.x)) = 0 from ?_)).resolve_right h
    linear_combination (ex - ex') * (b.y - a.y) - (ey - ey') * (b.x - a.x)

theorem _root_.Cavc.Spec.Crossing.det_ne {a b p q x : V2} (h : Crossing a b p q x) :
    (b.x - a.x) * (q.y - p.y) - (b.y - a.y) * (q.x - p.x) ≠ 0 := by
  intro h0
  have := h.angle
  rw [h0, abs_zero] at this
  norm_num at this

/-- The crossing is the only common point. -/
theorem _root_.Cavc.Spec.Crossing.only {a b p q x : V2} (h : Crossing a b p q x) {s t : ℝ}
    (e : lerp a b s = lerp p q t) : lerp a b s = x := by
  obtain ⟨s', -, -, hs⟩ := h.first
  obtain ⟨t', -, -, ht⟩ := h.second
  rw [(det_unique h.det_ne e (hs.symm.trans ht)).1, hs]

/-! ### Polygons -/

theorem _root_.Cavc.Spec.Polygon.line {p : Polyline} (h : Polygon p) {i : ℕ} {v1 v2 : Vertex} (hs : IsSeg p i v1 v2) : IsLine v1 := by
  obtain ⟨a, -, -, rfl, -⟩ := seg_lt hs
  exact h.lines _ (vtx_mem a)

theorem _root_.Cavc.Spec.Polygon.ok {p : Polyline} (h : Polygon p) : PlineOk p := by
  intro i v1 v2 hs
  have hl := h.line hs
  exact ⟨le_trans (le_of_lt hl) (by norm_num), fun hn => absurd hl hn⟩

/-- `x` is where segment `i` of `A` crosses segment `j` of `B`. -/
def CrossAt (A B : Polyline) (y : PlineIntersect) : Prop :=
  ∃ v1 v2 u1 u2, IsSeg A y.sIndex1 v1 v2 ∧ IsSeg B y.sIndex2 u1 u2 ∧
    Crossing v1.pos v2.pos u1.pos u2.pos y.pos

/-- What is found for polygons in general position: the crossings, each once. -/
theorem found_general {A B : Polyline} (pA : Polygon A) (pB : Polygon B) (hg : GeneralPosition A B) {pf : Platform}
    (hi : Indexable pf A) : ∃ s found, createApproxSpatialIndex pf A = .ok s ∧
      findIntersects A B s ⟨[], []⟩ = .ok found ∧ found.coincidentIntersects = [] ∧
      found.intersects.Nodup ∧ ∀ y, y ∈ found.intersects ↔ CrossAt A B y := by
  obtain ⟨s, found, h1, h2, hc, hp, hcount⟩ := C33_findIntersects hi pA.ok pB.ok
  have res : ∀ {i j v1 v2 u1 u2}, IsSeg A i v1 v2 → IsSeg B j u1 u2 → BoxesClose (1 / 10 ^ 5) v1 v2 u1 u2 →
      intrPlineSegs v1 v2 u1 u2 = .ok .noIntersect ∨
      ∃ x, Crossing v1.pos v2.pos u1.pos u2.pos x ∧ intrPlineSegs v1 v2 u1 u2 = .ok (.oneIntersect x) := by
    intro i j v1 v2 u1 u2 a b c
    rcases hg.pairs i j v1 v2 u1 u2 a b with ⟨x, h⟩ | h
    · exact Or.inr ⟨x, h, crossing_one (pA.line a) (pB.line b) h⟩
    · exact Or.inl (awayFrom_nothing (pA.line a) (pB.line b) h c)
  have e0 : found.coincidentIntersects = [] := by
    rw [List.eq_nil_iff_forall_not_mem]
    rintro ⟨i, j, x, y⟩ hm
    obtain ⟨v1, v2, u1, u2, a, b, c, d⟩ := (hc _ _ _ _).1 hm
    unfold OverlapHit at d
    rcases res a b c with e | ⟨z, -, e⟩ <;> rw [e] at d <;> simp at d
  have hmem : ∀ y, y ∈ found.intersects ↔ CrossAt A B y := by
    rintro ⟨i, j, x⟩
    rw [hp]
    constructor
    · rintro ⟨v1, v2, u1, u2, a, b, c, d, -⟩
      unfold PointHit at d
      rcases res a b c with e | ⟨z, hz, e⟩ <;> rw [e] at d
      · simp at d
      · simp only [Except.ok.injEq, SegIntr.oneIntersect.injEq, reduceCtorEq, or_self, exists_false,
          or_false] at d
        subst d
        exact ⟨v1, v2, u1, u2, a, b, hz⟩
    · rintro ⟨v1, v2, u1, u2, a, b, hx⟩
      simp only at a b hx
      obtain ⟨s, s0, s1, hs⟩ := hx.first
      obtain ⟨t, t0, t1, ht⟩ := hx.second
      have small : ∀ {u w : V2}, Near (1 / 10 ^ 8) u w → Near (1 / 10 ^ 5) w u := by
        rintro u w ⟨q1, q2⟩
        rw [abs_sub_comm] at q1 q2
        exact ⟨lt_trans q1 (by norm_num), lt_trans q2 (by norm_num)⟩
      refine ⟨v1, v2, u1, u2, a, b, ?_, Or.inl (crossing_one (pA.line a) (pB.line b) hx), ?_, ?_, ?_⟩
      · exact C33_common_point_close (pA.ok _ _ _ a).half (pB.ok _ _ _ b).half
          ⟨s, s0.le, s1.le, Or.inl ⟨pA.line a, hs⟩⟩ ⟨t, t0.le, t1.le, Or.inl ⟨pB.line b, ht⟩⟩
      · exact fun h => hx.away.1 (small h)
      · exact fun h => hx.away.2.2.1 (small h)
      · rintro ⟨⟨c, hc, -⟩, -⟩
        rw [e0] at hc
        simp at hc
  refine ⟨s, found, h1, h2, e0, ?_, hmem⟩
  rw [List.nodup_iff_count_le_one]
  rintro ⟨i, j, x⟩
  by_cases hm : (⟨i, j, x⟩ : PlineIntersect) ∈ found.intersects
  · obtain ⟨v1, v2, u1, u2, a, b, hx⟩ := (hmem _).1 hm
    have := (hcount i j).2.2 v1 v2 u1 u2 _ a b (crossing_one (pA.line a) (pB.line b) hx)
    refine le_trans ?_ this
    rw [List.count, List.countP_eq_length_filter]
    apply List.Sublist.length_le
    apply List.monotone_filter_right
    intro y hy
    have : y = ⟨i, j, x⟩ := by simpa using hy
    subst this
    simp
  · rw [List.count_eq_zero_of_not_mem hm]; omega

end
end Cavc

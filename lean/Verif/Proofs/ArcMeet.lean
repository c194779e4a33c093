import Verif.Proofs.ArcSlices
import Verif.Proofs.MeetSum

/-! Two closed polylines with arcs that cross at finitely many points: which side of the other one the parts between
the crossings are on. -/
namespace Cavc
open Spec
open scoped Classical Topology
noncomputable section

/-- Two closed polylines cross at the intersects and meet nowhere else. -/
structure ArcMeet (A B : Polyline) (intrs : List PlineIntersect) : Prop where
  closed : A.isClosed = true ∧ B.isClosed = true
  size : 2 ≤ A.size ∧ 2 ≤ B.size
  ok : PlineOk A ∧ PlineOk B
  nodup : intrs.Nodup
  mem : ∀ y, y ∈ intrs ↔ ∃ v e u w, IsSeg A y.sIndex1 v e ∧ IsSeg B y.sIndex2 u w ∧ OnSeg v e y.pos ∧ OnSeg u w y.pos
  cross : ∀ i j v e u w t s, IsSeg A i v e → IsSeg B j u w → 0 ≤ t → t ≤ 1 → 0 ≤ s → s ≤ 1 →
    segPt v e t = segPt u w s → (0 < t ∧ t < 1) ∧ (0 < s ∧ s < 1) ∧ velCross v e t u w s ≠ 0
  sepA : ∀ k v e t t' x x', IsSeg A k v e → Mark (intrs.map cut1) k v e t x → Mark (intrs.map cut1) k v e t' x' →
    t < t' → ¬ Near (1 / 10 ^ 5) x x' ∧ (¬ IsLine v → 1 / 10 ^ 4 ≤ (t' - t) * |sweep v|)
  sepB : ∀ k v e t t' x x', IsSeg B k v e → Mark ((intrs.map swapI).map cut1) k v e t x →
    Mark ((intrs.map swapI).map cut1) k v e t' x' →
    t < t' → ¬ Near (1 / 10 ^ 5) x x' ∧ (¬ IsLine v → 1 / 10 ^ 4 ≤ (t' - t) * |sweep v|)
  apart : ∀ y ∈ intrs, ∀ y' ∈ intrs, y ≠ y' → ¬ Near (3 / 10 ^ 4) y.pos y'.pos

variable {A B : Polyline} {intrs : List PlineIntersect}

theorem swapI_swapI (y : PlineIntersect) : swapI (swapI y) = y := rfl

theorem map_swap_swap (l : List PlineIntersect) : (l.map swapI).map swapI = l := by
  rw [List.map_map]
  conv_rhs => rw [← List.map_id l]
  rfl

theorem ArcMeet.symm (h : ArcMeet A B intrs) : ArcMeet B A (intrs.map swapI) := by
  refine ⟨h.closed.symm, h.size.symm, h.ok.symm, h.nodup.map swapI_inj, ?_, ?_, h.sepB, ?_, ?_⟩
  · intro y
    have : y ∈ intrs.map swapI ↔ swapI y ∈ intrs := by
      rw [List.mem_map]
      constructor
      · rintro ⟨z, hz, rfl⟩; exact hz
      · intro hz; exact ⟨_, hz, rfl⟩
    rw [this, h.mem]
    constructor
    · rintro ⟨v, e, u, w, a, b, c, d⟩; exact ⟨u, w, v, e, b, a, d, c⟩
    · rintro ⟨v, e, u, w, a, b, c, d⟩; exact ⟨u, w, v, e, b, a, d, c⟩
  · intro i j v e u w t s a b t0 t1 s0 s1 he
    obtain ⟨c1, c2, c3⟩ := h.cross j i u w v e s t b a s0 s1 t0 t1 he.symm
    refine ⟨c2, c1, ?_⟩
    rw [velCross_swap]
    exact neg_ne_zero.2 c3
  · rw [map_swap_swap]; exact h.sepA
  · intro y hy y' hy' hne
    obtain ⟨z, hz, rfl⟩ := List.mem_map.1 hy
    obtain ⟨z', hz', rfl⟩ := List.mem_map.1 hy'
    exact h.apart z hz z' hz' fun e => hne (by rw [e])

theorem ArcMeet.pos_inj (h : ArcMeet A B intrs) {y y' : PlineIntersect} (hy : y ∈ intrs) (hy' : y' ∈ intrs)
    (he : y.pos = y'.pos) : y = y' := by
  by_contra hne
  exact ne_of_not_near (by norm_num) (h.apart y hy y' hy' hne) he

theorem ArcMeet.clean (h : ArcMeet A B intrs) : CleanCuts A (intrs.map cut1) := by
  refine ⟨?_, ?_, h.sepA⟩
  · intro c hc
    obtain ⟨y, hy, rfl⟩ := List.mem_map.1 hc
    obtain ⟨v, e, u, w, a, b, c, d⟩ := (h.mem y).1 hy
    obtain ⟨t, t0, t1, ht⟩ := onSeg_segPt.1 c
    obtain ⟨s, s0, s1, hs⟩ := onSeg_segPt.1 d
    obtain ⟨c1, -, -⟩ := h.cross _ _ v e u w t s a b t0 t1 s0 s1 (ht.symm.trans hs)
    exact ⟨v, e, t, a, c1.1, c1.2, atParam_segPt.2 ht⟩
  · rw [List.pairwise_map]
    refine List.Pairwise.imp_of_mem ?_ h.nodup
    intro y y' hy hy' hne _ he
    exact hne (h.pos_inj hy hy' he)

theorem ArcMeet.complete (h : ArcMeet A B intrs) : ∀ k v e x, IsSeg A k v e → OnSeg v e x → OnPline B x →
    ∃ c ∈ intrs.map cut1, c.seg = k ∧ c.pos = x := by
  rintro k v e x hs ho ⟨j, u, w, hs', ho'⟩
  exact ⟨cut1 ⟨k, j, x⟩, List.mem_map.2 ⟨_, (h.mem _).2 ⟨v, e, u, w, hs, hs', ho, ho'⟩, rfl⟩, rfl, rfl⟩

/-- The parameter of a point of a segment. -/
def par (p : Polyline) (k : ℕ) (x : V2) : ℝ :=
  if h : ∃ t, 0 ≤ t ∧ t ≤ 1 ∧ x = segPt (rv p k) (rv p (k + 1)) t then h.choose else 0

theorem par_spec {p : Polyline} {k : ℕ} {x : V2} (h : OnSeg (rv p k) (rv p (k + 1)) x) :
    0 ≤ par p k x ∧ par p k x ≤ 1 ∧ x = segPt (rv p k) (rv p (k + 1)) (par p k x) := by
  have := onSeg_segPt.1 h
  unfold par
  rw [dif_pos this]
  exact this.choose_spec

/-- The direction in which the first polyline crosses the second one: 1 from right to left. -/
def arcSign (A B : Polyline) (y : PlineIntersect) : ℤ :=
  if 0 < velCross (rv A y.sIndex1) (rv A (y.sIndex1 + 1)) (par A y.sIndex1 y.pos)
    (rv B y.sIndex2) (rv B (y.sIndex2 + 1)) (par B y.sIndex2 y.pos) then 1 else -1

/-- The segments at an intersect. -/
theorem ArcMeet.at (h : ArcMeet A B intrs) {y : PlineIntersect} (hy : y ∈ intrs) :
    y.sIndex1 < A.size ∧ y.sIndex2 < B.size ∧
    (0 < par A y.sIndex1 y.pos ∧ par A y.sIndex1 y.pos < 1) ∧ (0 < par B y.sIndex2 y.pos ∧ par B y.sIndex2 y.pos < 1) ∧
    y.pos = segPt (rv A y.sIndex1) (rv A (y.sIndex1 + 1)) (par A y.sIndex1 y.pos) ∧
    y.pos = segPt (rv B y.sIndex2) (rv B (y.sIndex2 + 1)) (par B y.sIndex2 y.pos) ∧
    velCross (rv A y.sIndex1) (rv A (y.sIndex1 + 1)) (par A y.sIndex1 y.pos)
      (rv B y.sIndex2) (rv B (y.sIndex2 + 1)) (par B y.sIndex2 y.pos) ≠ 0 := by
  obtain ⟨v, e, u, w, a, b, c, d⟩ := (h.mem y).1 hy
  obtain ⟨h1, -, rfl, rfl⟩ := seg_rv h.closed.1 a
  obtain ⟨h2, -, rfl, rfl⟩ := seg_rv h.closed.2 b
  obtain ⟨t0, t1, ht⟩ := par_spec c
  obtain ⟨s0, s1, hs⟩ := par_spec d
  obtain ⟨c1, c2, c3⟩ := h.cross _ _ _ _ _ _ _ _ a b t0 t1 s0 s1 (ht.symm.trans hs)
  exact ⟨h1, h2, c1, c2, ht, hs, c3⟩

theorem arcSign_swap (h : ArcMeet A B intrs) {y : PlineIntersect} (hy : y ∈ intrs) :
    arcSign B A (swapI y) = -arcSign A B y := by
  obtain ⟨-, -, -, -, -, -, h7⟩ := h.at hy
  unfold arcSign swapI
  simp only
  rw [velCross_swap]
  generalize velCross (rv A y.sIndex1) (rv A (y.sIndex1 + 1)) (par A y.sIndex1 y.pos)
      (rv B y.sIndex2) (rv B (y.sIndex2 + 1)) (par B y.sIndex2 y.pos) = D at h7
  rcases lt_or_gt_of_ne h7 with h8 | h8
  · rw [if_pos (by linarith), if_neg (by linarith)]; rfl
  · rw [if_neg (by linarith), if_pos h8]

theorem ArcMeet.far (h : ArcMeet A B intrs) (k : ℕ) :
    1 / 10 ^ 8 ≤ |(rv A k).pos.x - (rv A (k + 1)).pos.x| ∨ 1 / 10 ^ 8 ≤ |(rv A k).pos.y - (rv A (k + 1)).pos.y| := by
  have := not_near_or (exact_far h.closed.1 h.size.1 h.clean k)
  rcases this with h1 | h1
  · exact Or.inl (le_trans (by norm_num) h1)
  · exact Or.inr (le_trans (by norm_num) h1)

/-- At an intersect the winding number of the second polyline changes by one. -/
theorem ArcMeet.jump (h : ArcMeet A B intrs) {y : PlineIntersect} (hy : y ∈ intrs) :
    ∀ᶠ δ in 𝓝[>] (0 : ℝ),
      ¬ OnPline B (segPt (rv A y.sIndex1) (rv A (y.sIndex1 + 1)) (par A y.sIndex1 y.pos + δ)) →
      ¬ OnPline B (segPt (rv A y.sIndex1) (rv A (y.sIndex1 + 1)) (par A y.sIndex1 y.pos - δ)) →
      turnAll B (segPt (rv A y.sIndex1) (rv A (y.sIndex1 + 1)) (par A y.sIndex1 y.pos + δ)) / (2 * Real.pi) =
      turnAll B (segPt (rv A y.sIndex1) (rv A (y.sIndex1 + 1)) (par A y.sIndex1 y.pos - δ)) / (2 * Real.pi) +
        arcSign A B y := by
  obtain ⟨a1, a2, a3, a4, a5, a6, a7⟩ := h.at hy
  have := wind_cross h.ok.2 h.closed.2 h.size.2 a2 (h.symm.far _) a4.1 a4.2
    (by
      intro j hj hne ho
      rw [← a6] at ho
      have h1 : (⟨y.sIndex1, j, y.pos⟩ : PlineIntersect) ∈ intrs := (h.mem _).2
        ⟨_, _, _, _, rv_seg_lt h.closed.1 h.size.1 a1, rv_seg_lt h.closed.2 h.size.2 hj,
          onSeg_segPt.2 ⟨_, a3.1.le, a3.2.le, a5⟩, ho⟩
      have := h.pos_inj h1 hy rfl
      exact hne (congrArg PlineIntersect.sIndex2 this))
    (a5.symm.trans a6) a7
  filter_upwards [this] with δ hδ h1 h2
  rw [hδ h1 h2]
  unfold arcSign
  split_ifs <;> simp

end
end Cavc

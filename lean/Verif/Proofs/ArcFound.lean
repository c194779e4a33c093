import Verif.Props.SegIntrExact
import Verif.Proofs.ArcPart
import Verif.Props.CombineRegion

/-! Polylines with arcs that cross clearly: what the search reports, and what they do when they do not cross. -/
namespace Cavc
open Spec
open scoped Classical Topology
noncomputable section

variable {A B : Polyline}

/-- What is found for polylines that cross clearly: the common points, each once. -/
theorem found_arcs (oA : PlineOk A) (oB : PlineOk B) (hg : CleanMeet A B) {pf : Platform}
    (hi : Indexable pf A) : ∃ s found, createApproxSpatialIndex pf A = .ok s ∧
      findIntersects A B s ⟨[], []⟩ = .ok found ∧ found.coincidentIntersects = [] ∧
      found.intersects.Nodup ∧ ∀ y, y ∈ found.intersects ↔ Common A B y.sIndex1 y.sIndex2 y.pos := by
  obtain ⟨s, found, h1, h2, hc, hp, hcount⟩ := C33_findIntersects hi oA oB
  have res : ∀ {i j v1 v2 u1 u2}, IsSeg A i v1 v2 → IsSeg B j u1 u2 → BoxesClose (1 / 10 ^ 5) v1 v2 u1 u2 →
      ∃ r, intrPlineSegs v1 v2 u1 u2 = .ok r ∧ FoundExactly r v1 v2 u1 u2 := by
    intro i j v1 v2 u1 u2 a b c
    exact C50_exact (oA _ _ _ a) (oB _ _ _ b) (hg.pairs i j v1 v2 u1 u2 a b c)
  have e0 : found.coincidentIntersects = [] := by
    rw [List.eq_nil_iff_forall_not_mem]
    rintro ⟨i, j, x, y⟩ hm
    obtain ⟨v1, v2, u1, u2, a, b, c, d⟩ := (hc _ _ _ _).1 hm
    obtain ⟨r, hr, ho, -⟩ := res a b c
    unfold OverlapHit at d
    rw [hr] at d
    rcases d with d | d
    · exact (ho x y).1 (Except.ok.inj d)
    · exact (ho x y).2 (Except.ok.inj d)
  have hit : ∀ {r v1 v2 u1 u2 x}, intrPlineSegs v1 v2 u1 u2 = .ok r → FoundExactly r v1 v2 u1 u2 →
      (PointHit v1 v2 u1 u2 x ↔ x ∈ reported r) := by
    intro r v1 v2 u1 u2 x hr ho
    unfold PointHit
    rw [hr]
    cases r with
    | noIntersect => simp [reported]
    | oneIntersect p => simp [reported, eq_comm]
    | twoIntersects p q =>
      simp only [reported, Except.ok.injEq, reduceCtorEq, SegIntr.twoIntersects.injEq, false_or, List.mem_cons,
        List.not_mem_nil, or_false]
      constructor
      · rintro ⟨y, ⟨rfl, rfl⟩ | ⟨rfl, rfl⟩⟩
        · exact Or.inl rfl
        · exact Or.inr rfl
      · rintro (rfl | rfl)
        · exact ⟨q, Or.inl ⟨rfl, rfl⟩⟩
        · exact ⟨p, Or.inr ⟨rfl, rfl⟩⟩
    | segmentOverlap a b => exact absurd rfl (ho.1 a b).1
    | arcOverlap a b => exact absurd rfl (ho.1 a b).2
  have hmem : ∀ y, y ∈ found.intersects ↔ Common A B y.sIndex1 y.sIndex2 y.pos := by
    rintro ⟨i, j, x⟩
    rw [hp]
    constructor
    · rintro ⟨v1, v2, u1, u2, a, b, c, d, -⟩
      obtain ⟨r, hr, ho⟩ := res a b c
      obtain ⟨q1, q2⟩ := (ho.2.2 x).1 ((hit hr ho).1 d)
      exact ⟨v1, v2, u1, u2, a, b, q1, q2⟩
    · rintro ⟨v1, v2, u1, u2, a, b, x1, x2⟩
      simp only at a b x1 x2
      have hcl := C33_common_point_close (oA _ _ _ a).half (oB _ _ _ b).half x1 x2
      obtain ⟨r, hr, ho⟩ := res a b hcl
      refine ⟨v1, v2, u1, u2, a, b, hcl, (hit hr ho).2 ((ho.2.2 x).2 ⟨x1, x2⟩), ?_, ?_, ?_⟩
      · intro hn
        obtain ⟨t, t0, t1, ht⟩ := x1
        rcases t0.lt_or_eq with h | rfl
        · refine (hg.alongA i v1 v2 0 t v1.pos x a ⟨le_rfl, zero_le_one, ?_, Or.inl rfl⟩
            ⟨t0, t1, ht, Or.inr (Or.inr ⟨j, u1, u2, b, x2⟩)⟩ h).1 ?_
          · exact atParam_segPt.2 (segPt_zero v1 v2).symm
          · exact ⟨lt_trans hn.1 (by norm_num), lt_trans hn.2 (by norm_num)⟩
        · rw [atParam_segPt, segPt_zero] at ht
          subst ht
          obtain ⟨hk, -, -, rfl, -⟩ := seg_lt a
          exact hg.vertexA _ (vtx_mem hk) ⟨j, u1, u2, b, x2⟩
      · intro hn
        obtain ⟨t, t0, t1, ht⟩ := x2
        rcases t0.lt_or_eq with h | rfl
        · refine (hg.alongB j u1 u2 0 t u1.pos x b ⟨le_rfl, zero_le_one, ?_, Or.inl rfl⟩
            ⟨t0, t1, ht, Or.inr (Or.inr ⟨i, v1, v2, a, x1⟩)⟩ h).1 ?_
          · exact atParam_segPt.2 (segPt_zero u1 u2).symm
          · exact ⟨lt_trans hn.1 (by norm_num), lt_trans hn.2 (by norm_num)⟩
        · rw [atParam_segPt, segPt_zero] at ht
          subst ht
          obtain ⟨hk, -, -, rfl, -⟩ := seg_lt b
          exact hg.vertexB _ (vtx_mem hk) ⟨i, v1, v2, a, x1⟩
      · rintro ⟨⟨c, hc, -⟩, -⟩
        rw [e0] at hc
        simp at hc
  refine ⟨s, found, h1, h2, e0, ?_, hmem⟩
  -- each once: for a pair of segments no more are found than there are
  rw [List.nodup_iff_count_le_one]
  rintro ⟨i, j, x⟩
  by_cases hm : (⟨i, j, x⟩ : PlineIntersect) ∈ found.intersects
  · obtain ⟨v1, v2, u1, u2, a, b, x1, x2⟩ := (hmem _).1 hm
    obtain ⟨r, hr, ho, hnd, hx⟩ := res a b (C33_common_point_close (oA _ _ _ a).half (oB _ _ _ b).half x1 x2)
    have hle := (hcount i j).2.2 v1 v2 u1 u2 r a b hr
    obtain ⟨F, hF⟩ : ∃ F, F = found.intersects.filter fun c => c.sIndex1 = i ∧ c.sIndex2 = j := ⟨_, rfl⟩
    rw [← hF] at hle
    have hsub : (reported r).Subperm (F.map PlineIntersect.pos) := by
      apply List.subperm_of_subset hnd
      intro z hz
      obtain ⟨z1, z2⟩ := (hx z).1 hz
      refine List.mem_map.2 ⟨⟨i, j, z⟩, ?_, rfl⟩
      rw [hF, List.mem_filter]
      exact ⟨(hmem _).2 ⟨v1, v2, u1, u2, a, b, z1, z2⟩, by simp⟩
    have hperm := hsub.perm_of_length_le (by rw [List.length_map]; exact hle)
    have hndF : F.Nodup := List.Nodup.of_map _ (hperm.nodup_iff.1 hnd)
    have : List.count (⟨i, j, x⟩ : PlineIntersect) found.intersects = List.count ⟨i, j, x⟩ F := by
      rw [hF, List.count_filter]
      simp
    rw [this]
    exact List.nodup_iff_count_le_one.1 hndF _
  · rw [List.count_eq_zero_of_not_mem hm]; omega

/-- Closed polylines that cross clearly, at the intersects found. -/
theorem clean_meet (oA : PlineOk A) (oB : PlineOk B) (cA : A.isClosed = true) (cB : B.isClosed = true) (nA : 2 ≤ A.size)
    (nB : 2 ≤ B.size) (hg : CleanMeet A B) {intrs : List PlineIntersect} (hnd : intrs.Nodup)
    (hmem : ∀ y, y ∈ intrs ↔ Common A B y.sIndex1 y.sIndex2 y.pos) : ArcMeet A B intrs := by
  have inner : ∀ {p q : Polyline}, (∀ v ∈ p.vertexes, ¬ OnPline q v.pos) →
      ∀ {k v e t}, IsSeg p k v e → 0 ≤ t → t ≤ 1 → OnPline q (segPt v e t) → 0 < t ∧ t < 1 := by
    intro p q hv k v e t hs t0 t1 ho
    obtain ⟨h1, h2, -, rfl, rfl⟩ := seg_lt hs
    refine ⟨lt_of_le_of_ne t0 ?_, lt_of_le_of_ne t1 ?_⟩
    · rintro rfl
      rw [segPt_zero] at ho
      exact hv _ (vtx_mem h1) ho
    · rintro rfl
      rw [segPt_one] at ho
      exact hv _ (vtx_mem h2) ho
  refine ⟨⟨cA, cB⟩, ⟨nA, nB⟩, ⟨oA, oB⟩, hnd, ?_, ?_, ?_, ?_, ?_⟩
  · intro y
    rw [hmem]
    rfl
  · intro i j v e u w t s h1 h2 t0 t1 s0 s1 he
    have o1 : OnSeg v e (segPt v e t) := onSeg_segPt.2 ⟨t, t0, t1, rfl⟩
    have o2 : OnSeg u w (segPt u w s) := onSeg_segPt.2 ⟨s, s0, s1, rfl⟩
    refine ⟨inner hg.vertexA h1 t0 t1 ⟨j, u, w, h2, by rw [he]; exact o2⟩,
      inner hg.vertexB h2 s0 s1 ⟨i, v, e, h1, by rw [← he]; exact o1⟩, ?_⟩
    have hcl := C33_common_point_close (oA _ _ _ h1).half (oB _ _ _ h2).half o1 (by rw [he]; exact o2)
    exact clear_cross (oA _ _ _ h1) (oB _ _ _ h2) (hg.pairs i j v e u w h1 h2 hcl) t0 t1 s0 s1 he
  · intro k v e t t' x x' hs h1 h2 hlt
    have conv : ∀ {t x}, Mark (intrs.map cut1) k v e t x → EndOrMeet B v e t x := by
      rintro t x ⟨a, b, c, d⟩
      refine ⟨a, b, c, ?_⟩
      rcases d with d | d | ⟨cc, hcc, -, hpos⟩
      · exact Or.inl d
      · exact Or.inr (Or.inl d)
      · obtain ⟨y, hy, rfl⟩ := List.mem_map.1 hcc
        obtain ⟨v1, v2, u1, u2, -, q2, -, q4⟩ := (hmem y).1 hy
        exact Or.inr (Or.inr ⟨_, _, _, q2, by rw [← hpos]; exact q4⟩)
    exact hg.alongA k v e t t' x x' hs (conv h1) (conv h2) hlt
  · intro k v e t t' x x' hs h1 h2 hlt
    have conv : ∀ {t x}, Mark ((intrs.map swapI).map cut1) k v e t x → EndOrMeet A v e t x := by
      rintro t x ⟨a, b, c, d⟩
      refine ⟨a, b, c, ?_⟩
      rcases d with d | d | ⟨cc, hcc, -, hpos⟩
      · exact Or.inl d
      · exact Or.inr (Or.inl d)
      · obtain ⟨y', hy', rfl⟩ := List.mem_map.1 hcc
        obtain ⟨y, hy, rfl⟩ := List.mem_map.1 hy'
        obtain ⟨v1, v2, u1, u2, q1, -, q3, -⟩ := (hmem y).1 hy
        exact Or.inr (Or.inr ⟨_, _, _, q1, by rw [← hpos]; exact q3⟩)
    exact hg.alongB k v e t t' x x' hs (conv h1) (conv h2) hlt
  · intro y hy y' hy' hne
    refine hg.apart _ _ _ _ _ _ ((hmem y).1 hy) ((hmem y').1 hy') fun h => hne ?_
    simp only [Prod.mk.injEq] at h
    cases y; cases y'
    simp only [PlineIntersect.mk.injEq]
    exact h

/-! ### Winding numbers -/

section
variable {p : Polyline} (hok : PlineOk p) (hc : p.isClosed = true) (h2 : 2 ≤ p.size)
include hok hc h2

theorem winding_arcW {x : V2} (hoff : ¬ OnPline p x) {k : ℤ} : Winding p x k ↔ k = arcW p x := by
  rw [winding_turnAll hc h2, arcW_eq hok hc h2 hoff, Int.cast_inj]

theorem getWinding_arcW {x : V2} (hoff : ¬ OnPline p x) : getWindingNumber p x = .ok (arcW p x) :=
  (getWinding_turnAll hok hc h2 hoff).2 (arcW_eq hok hc h2 hoff).symm

theorem inside_arcW {x : V2} (hoff : ¬ OnPline p x) : Inside p x ↔ arcW p x ≠ 0 := by
  obtain ⟨k, h1, h3⟩ := inside_run hok hc hoff
  rw [getWinding_arcW hok hc h2 hoff] at h1
  cases h1
  exact h3

theorem windsAround_arcW {x : V2} (hoff : ¬ OnPline p x) : WindsAround p x ↔ arcW p x ≠ 0 := by
  unfold WindsAround
  rw [getWinding_arcW hok hc h2 hoff]
  constructor
  · rintro ⟨w, hw, h⟩; cases hw; exact h
  · intro h; exact ⟨_, rfl, h⟩
end

theorem evenOdd_arcW {ps : List Polyline} {x : V2} (h : ∀ p ∈ ps, PlineOk p ∧ p.isClosed = true ∧ 2 ≤ p.size ∧
    ¬ OnPline p x) : EvenOdd ps x ↔ Odd (ps.map fun p => arcW p x).sum := by
  have key : ∀ {ps : List Polyline}, (∀ p ∈ ps, PlineOk p ∧ p.isClosed = true ∧ 2 ≤ p.size ∧ ¬ OnPline p x) →
      ∀ ks, List.Forall₂ (fun p k => Winding p x k) ps ks ↔ ks = ps.map fun p => arcW p x := by
    intro ps
    induction ps with
    | nil => intro _ ks; simp
    | cons p ps ih =>
      intro h ks
      obtain ⟨a, b, c, d⟩ := h p (by simp)
      rw [List.forall₂_cons_left_iff]
      simp only [winding_arcW a b c d, ih fun q hq => h q (List.mem_cons_of_mem _ hq), List.map_cons]
      constructor
      · rintro ⟨k, ks', rfl, rfl, rfl⟩; rfl
      · rintro rfl; exact ⟨_, _, rfl, rfl, rfl⟩
  unfold EvenOdd
  constructor
  · rintro ⟨ks, h1, h2⟩
    rw [(key h ks).1 h1] at h2
    exact h2
  · intro ho
    exact ⟨_, (key h _).2 rfl, ho⟩

/-! ### Polylines that do not meet -/

/-- A polyline that another one does not meet winds equally often around all points of it. -/
theorem arcs_const (oB : PlineOk B) (cB : B.isClosed = true) (nB : 2 ≤ B.size)
    (hoff : ∀ x, OnPline A x → ¬ OnPline B x) {x y : V2} (hx : OnPline A x) (hy : OnPline A y) :
    turnAll B x = turnAll B y := by
  have := turnAll_const oB cB nB (connected_pline A) (x := xy x) (y := xy y)
    (by rintro z ⟨w, hw, rfl⟩; rw [toV_xy]; exact hoff w hw) ⟨x, hx, rfl⟩ ⟨y, hy, rfl⟩
  rwa [toV_xy, toV_xy] at this

/-- The path as one piece. -/
def wholePiece (p : Polyline) : Piece := pathPiece p 0 (0 + p.size) le_rfl (by positivity)

theorem wholePiece_on {p : Polyline} (hc : p.isClosed = true) (h2 : 2 ≤ p.size) {z : ℝ × ℝ} :
    z ∈ (wholePiece p).on ↔ OnPline p (toV z) := by
  have e : (wholePiece p).on = pathSet p 0 (0 + p.size) := rfl
  rw [e]
  constructor
  · rintro ⟨g, ⟨g0, g1⟩, rfl⟩
    exact trace_onPline hc h2 g0
  · intro h
    obtain ⟨g, g0, g1, hg⟩ := (onPline_trace hc h2).1 h
    exact ⟨g, ⟨g0, by rw [zero_add]; exact g1.le⟩, by simp only [← hg, xy_toV]⟩

theorem wholePiece_T {p : Polyline} (hc : p.isClosed = true) (h2 : 2 ≤ p.size) {z : ℝ × ℝ} (h : ¬ OnPline p (toV z)) :
    (wholePiece p).T z = turnAll p (toV z) / (2 * Real.pi) := by
  have e : (wholePiece p).T z = turnPath p (toV z) 0 (0 + p.size) / (2 * Real.pi) := rfl
  rw [e, turnPath_around le_rfl (by positivity)]
  intro g g0 he
  exact h (he ▸ trace_onPline hc h2 g0)

theorem arcs_mul (oA : PlineOk A) (oB : PlineOk B) (cA : A.isClosed = true) (cB : B.isClosed = true) (nA : 2 ≤ A.size)
    (nB : 2 ≤ B.size) (hoff : ∀ x, OnPline A x → ¬ OnPline B x) {a b : V2} (ha : OnPline A a) (hb : OnPline B b)
    {x : V2} (hxA : ¬ OnPline A x) (hxB : ¬ OnPline B x) :
    arcW A x * arcW B x = arcW B a * arcW A x + arcW A b * arcW B x := by
  have hoff' : ∀ x, OnPline B x → ¬ OnPline A x := fun x h1 h2 => hoff x h2 h1
  have oA' : ∀ z, OffAll {()} (fun _ => wholePiece A) z ↔ ¬ OnPline A (toV z) := by
    intro z
    unfold OffAll
    simp only [Finset.mem_singleton, forall_const, wholePiece_on cA nA]
  have oB' : ∀ z, OffAll {()} (fun _ => wholePiece B) z ↔ ¬ OnPline B (toV z) := by
    intro z
    unfold OffAll
    simp only [Finset.mem_singleton, forall_const, wholePiece_on cB nB]
  have := curves_mul (E := {()}) (F := {()}) (a := fun _ => wholePiece A) (b := fun _ => wholePiece B)
    (β := fun _ => (arcW B a : ℝ)) (α := fun _ => (arcW A b : ℝ)) (cuts := ∅) Set.countable_empty
    (by
      intro z hz
      rw [oA'] at hz
      rw [Finset.sum_singleton, wholePiece_T cA nA hz]
      exact turnAll_int oA cA nA hz)
    (by
      intro z hz
      rw [oB'] at hz
      rw [Finset.sum_singleton, wholePiece_T cB nB hz]
      exact turnAll_int oB cB nB hz)
    (by
      intro i _ z hz _
      rw [wholePiece_on cA nA] at hz
      have h1 := hoff _ hz
      refine ⟨(oB' z).2 h1, ?_⟩
      rw [Finset.sum_singleton, wholePiece_T cB nB h1, arcs_const oB cB nB hoff hz ha, arcW_eq oB cB nB (hoff _ ha)])
    (by
      intro i _ z hz _
      rw [wholePiece_on cB nB] at hz
      have h1 := hoff' _ hz
      refine ⟨(oA' z).2 h1, ?_⟩
      rw [Finset.sum_singleton, wholePiece_T cA nA h1, arcs_const oA cA nA hoff' hz hb, arcW_eq oA cA nA (hoff' _ hb)])
    (by
      intro z hz hz'
      rw [oA'] at hz
      rw [oB'] at hz'
      rw [Finset.sum_singleton, Finset.sum_singleton, wholePiece_T cA nA hz, wholePiece_T cB nB hz',
        arcW_eq oA cA nA hz, arcW_eq oB cB nB hz']
      exact ⟨arcW B a * arcW A (toV z) + arcW A b * arcW B (toV z), by push_cast; ring⟩)
    (z := xy x) ((oA' _).2 (by rwa [toV_xy])) ((oB' _).2 (by rwa [toV_xy]))
  rw [Finset.sum_singleton, Finset.sum_singleton, Finset.sum_singleton, Finset.sum_singleton,
    wholePiece_T cA nA (by rwa [toV_xy]), wholePiece_T cB nB (by rwa [toV_xy]), toV_xy, arcW_eq oA cA nA hxA,
    arcW_eq oB cB nB hxB] at this
  exact_mod_cast this.symm

end
end Cavc

import Verif.Proofs.Beside
import Verif.Proofs.ArcPart
import Verif.Spec.Simple

/-! A closed polyline of lines and arcs that does not meet itself: its two sides. -/
namespace Cavc
open Spec
open scoped Classical
open Filter Topology
noncomputable section

/-- `f` has one value on each connected set off the polyline. -/
def ConnConst {α : Type} (p : Polyline) (f : ℝ × ℝ → α) : Prop :=
  ∀ S : Set (ℝ × ℝ), IsPreconnected S → (∀ z ∈ S, ¬ OnPline p (toV z)) → ∀ z ∈ S, ∀ z' ∈ S, f z = f z'

section
variable {p : Polyline} (hs : SimpleCurve p)
include hs

theorem _root_.Cavc.Spec.SimpleCurve.two' : 2 ≤ p.size := hs.two

theorem _root_.Cavc.Spec.SimpleCurve.seg (k : ℕ) : IsSeg p (k % p.size) (rv p k) (rv p (k + 1)) := rv_seg hs.closed hs.two k

theorem _root_.Cavc.Spec.SimpleCurve.segOk (k : ℕ) : SegOk (rv p k) (rv p (k + 1)) := hs.ok _ _ _ (hs.seg k)

theorem _root_.Cavc.Spec.SimpleCurve.far (k : ℕ) :
    1 / 10 ^ 8 ≤ |(rv p k).pos.x - (rv p (k + 1)).pos.x| ∨ 1 / 10 ^ 8 ≤ |(rv p k).pos.y - (rv p (k + 1)).pos.y| := by
  have := hs.distinct _ _ _ (hs.seg k)
  unfold Near at this
  rw [not_and_or, not_lt, not_lt] at this
  exact this

theorem _root_.Cavc.Spec.SimpleCurve.ne (k : ℕ) : (rv p k).pos ≠ (rv p (k + 1)).pos := by
  intro h
  have := hs.far k
  rw [h] at this
  norm_num at this

theorem _root_.Cavc.Spec.SimpleCurve.meet {j k : ℕ} (hj : j < p.size) (hk : k < p.size) (hne : j ≠ k) {z : V2}
    (h1 : OnSeg (rv p j) (rv p (j + 1)) z) (h2 : OnSeg (rv p k) (rv p (k + 1)) z) :
    (k = (j + 1) % p.size ∧ z = (rv p (j + 1)).pos) ∨ (j = (k + 1) % p.size ∧ z = (rv p (k + 1)).pos) :=
  hs.apart j k _ _ _ _ z (rv_seg_lt hs.closed hs.two hj) (rv_seg_lt hs.closed hs.two hk) hne h1 h2

/-- An inner point of a segment is on no other one. -/
theorem _root_.Cavc.Spec.SimpleCurve.inner {j : ℕ} (hj : j < p.size) {s : ℝ} (h0 : 0 < s) (h1 : s < 1) {k : ℕ} (hk : k < p.size)
    (hne : k ≠ j) : ¬ OnSeg (rv p k) (rv p (k + 1)) (segPt (rv p j) (rv p (j + 1)) s) := by
  intro ho
  rcases hs.meet hj hk (Ne.symm hne) (onSeg_segPt.2 ⟨s, h0.le, h1.le, rfl⟩) ho with ⟨-, h⟩ | ⟨e, h⟩
  · rw [← segPt_one (rv p j)] at h
    exact absurd (segPt_inj (hs.segOk j) (hs.ne j) h0.le h1.le zero_le_one le_rfl h) h1.ne
  · have : rv p (k + 1) = rv p j := by rw [e, rv_mod]
    rw [this, ← segPt_zero (rv p j) (rv p (j + 1))] at h
    exact absurd (segPt_inj (hs.segOk j) (hs.ne j) h0.le h1.le le_rfl zero_le_one h) h0.ne'

/-- Around a point the segments that it is not on are away. -/
theorem segs_away {z : V2} {J : ℕ → Prop} (h : ∀ k < p.size, ¬ J k → ¬ OnSeg (rv p k) (rv p (k + 1)) z) :
    ∀ᶠ y in 𝓝 (xy z), ∀ k < p.size, ¬ J k → ¬ OnSeg (rv p k) (rv p (k + 1)) (toV y) := by
  have key : ∀ᶠ y in 𝓝 (xy z), ∀ k ∈ Finset.range p.size, ¬ J k → ¬ OnSeg (rv p k) (rv p (k + 1)) (toV y) := by
    rw [Filter.eventually_all_finset]
    intro k hk
    by_cases hJ : J k
    · exact Eventually.of_forall fun x hn => absurd hJ hn
    · have : {z : ℝ × ℝ | OnSeg (rv p k) (rv p (k + 1)) (toV z)}ᶜ ∈ 𝓝 (xy z) := by
        refine IsOpen.mem_nhds (isOpen_compl_iff.2 ?_) ?_
        · have e : {z : ℝ × ℝ | OnSeg (rv p k) (rv p (k + 1)) (toV z)} = (fun t => xy (segPt (rv p k) (rv p (k + 1)) t)) '' Set.Icc 0 1 := by
            ext z
            rw [Set.mem_ofPred_eq, onSeg_segPt]
            constructor
            · rintro ⟨t, t0, t1, he⟩
              exact ⟨t, ⟨t0, t1⟩, by show xy (segPt _ _ t) = z; rw [← he]; rfl⟩
            · rintro ⟨t, ht, rfl⟩
              exact ⟨t, ht.1, ht.2, rfl⟩
          rw [e]
          exact (isCompact_Icc.image (continuous_segPt _ _)).isClosed
        · exact h k (Finset.mem_range.1 hk) hJ
      filter_upwards [this] with x hx _ ho
      exact hx ho
  filter_upwards [key] with y hy k hk
  exact hy k (Finset.mem_range.2 hk)

theorem _root_.Cavc.Spec.SimpleCurve.on {x : V2} : OnPline p x ↔ ∃ k < p.size, OnSeg (rv p k) (rv p (k + 1)) x := by
  constructor
  · rintro ⟨j, w1, w2, hw, ho⟩
    obtain ⟨h1, -, rfl, rfl⟩ := seg_rv hs.closed hw
    exact ⟨j, h1, ho⟩
  · rintro ⟨k, hk, ho⟩
    exact ⟨k, _, _, rv_seg_lt hs.closed hs.two hk, ho⟩

variable {α : Type} {f : ℝ × ℝ → α}

/-- The values of `f` on the left and on the right of segment `j` at parameter `s`. -/
def SidesAt {α : Type} (p : Polyline) (f : ℝ × ℝ → α) (j : ℕ) (s : ℝ) (K K' : α) : Prop :=
  ∀ᶠ y in 𝓝 (xy (segPt (rv p j) (rv p (j + 1)) s)), ¬ OnPline p (toV y) →
    (0 < leftOf (rv p j) (rv p (j + 1)) (toV y) ∧ f y = K) ∨ (leftOf (rv p j) (rv p (j + 1)) (toV y) < 0 ∧ f y = K')

set_option maxHeartbeats 400000 in
theorem _root_.Cavc.Spec.SimpleCurve.sides_at (hf : ConnConst p f) {j : ℕ} (hj : j < p.size) {s : ℝ} (h0 : 0 < s) (h1 : s < 1) :
    ∃ K K', SidesAt p f j s K K' := by
  set v := rv p j with hv
  set e := rv p (j + 1) with he
  have hne : v.pos ≠ e.pos := hs.ne j
  have hok : SegOk v e := hs.segOk j
  have haway := segs_away hs (z := segPt v e s) (J := fun k => k = j) (fun k hk hn => hs.inner hj h0 h1 hk hn)
  -- a box of coordinates
  have hcont := (continuous_sideP v e).continuousAt (x := (s, 0))
  have e0 : xy (sideP v e s 0) = xy (segPt v e s) := by rw [sideP_zero]
  have hbox := hcont.eventually (by simp only; rw [e0]; exact haway)
  obtain ⟨ε', hε', hb⟩ := Metric.eventually_nhds_iff.1 hbox
  set ε := min ε' (min (min s (1 - s)) 1) with hε
  have ε0 : 0 < ε := lt_min hε' (lt_min (lt_min h0 (by linarith)) one_pos)
  have εs : ε ≤ s := (min_le_right _ _).trans ((min_le_left _ _).trans (min_le_left _ _))
  have ε1s : ε ≤ 1 - s := (min_le_right _ _).trans ((min_le_left _ _).trans (min_le_right _ _))
  have ε1 : ε ≤ 1 := (min_le_right _ _).trans (min_le_right _ _)
  have hside : ∀ {t u}, |u| < ε → (0 < leftOf v e (sideP v e t u) ↔ 0 < u) ∧ (leftOf v e (sideP v e t u) < 0 ↔ u < 0) := by
    intro t u hu
    have := abs_lt.1 hu
    exact leftOf_sideP hne (fun hl => (hok.arcOk hl).start_ne) (by linarith) (by linarith)
  have hoff : ∀ {t u}, |t - s| < ε → |u| < ε → u ≠ 0 → ¬ OnPline p (sideP v e t u) := by
    intro t u ht hu hu0 ho
    obtain ⟨k, hk, ho⟩ := hs.on.1 ho
    by_cases hkj : k = j
    · subst hkj
      obtain ⟨r, -, -, hr⟩ := onSeg_segPt.1 ho
      have hl := hside (t := t) hu
      rw [hr, leftOf_self] at hl
      rcases lt_or_gt_of_ne hu0 with h | h
      · exact lt_irrefl _ (hl.2.2 h)
      · exact lt_irrefl _ (hl.1.2 h)
    · have := hb (y := (t, u)) (by
        rw [Prod.dist_eq, max_lt_iff, Real.dist_eq, Real.dist_eq, sub_zero]
        exact ⟨ht.trans_le (min_le_left _ _), hu.trans_le (min_le_left _ _)⟩) k hk hkj
      exact this ho
  -- on each side one value
  have hconst : ∀ {I : Set ℝ}, IsPreconnected I → (∀ u ∈ I, |u| < ε ∧ u ≠ 0) → ∀ {t u t' u'}, |t - s| < ε → |t' - s| < ε →
      u ∈ I → u' ∈ I → f (xy (sideP v e t u)) = f (xy (sideP v e t' u')) := by
    intro I hI hIu t u t' u' ht ht' hu hu'
    refine hf ((fun z : ℝ × ℝ => xy (sideP v e z.1 z.2)) '' (Set.Ioo (s - ε) (s + ε) ×ˢ I)) ?_ ?_ _
      ⟨(t, u), ⟨⟨by linarith [(abs_lt.1 ht).1], by linarith [(abs_lt.1 ht).2]⟩, hu⟩, rfl⟩ _
      ⟨(t', u'), ⟨⟨by linarith [(abs_lt.1 ht').1], by linarith [(abs_lt.1 ht').2]⟩, hu'⟩, rfl⟩
    · exact (isPreconnected_Ioo.prod hI).image _ (continuous_sideP v e).continuousOn
    · rintro z ⟨⟨t, u⟩, ⟨ht, hu⟩, rfl⟩
      rw [toV_xy]
      exact hoff (abs_lt.2 ⟨by linarith [ht.1], by linarith [ht.2]⟩) (hIu u hu).1 (hIu u hu).2
  refine ⟨f (xy (sideP v e s (ε / 2))), f (xy (sideP v e s (-(ε / 2)))), ?_⟩
  unfold SidesAt
  filter_upwards [beside hne hok (t0 := s) ε0] with y ⟨t, u, ht, hu, hy⟩ hno
  have hyy : y = xy (sideP v e t u) := by rw [← hy, xy_toV]
  have hl := hside (t := t) hu
  rw [← hy] at hl
  rcases lt_trichotomy u 0 with h | h | h
  · right
    refine ⟨hl.2.2 h, ?_⟩
    rw [hyy]
    exact hconst (I := Set.Ioo (-ε) 0) isPreconnected_Ioo (fun u hu => ⟨abs_lt.2 ⟨hu.1, by linarith [hu.2]⟩, hu.2.ne⟩) ht
      (by simpa using ε0) ⟨(abs_lt.1 hu).1, h⟩ ⟨by linarith, by linarith⟩
  · exfalso
    apply hno
    rw [hy, h, sideP_zero]
    have := abs_lt.1 ht
    exact hs.on.2 ⟨j, hj, onSeg_segPt.2 ⟨t, by linarith, by linarith, rfl⟩⟩
  · left
    refine ⟨hl.1.2 h, ?_⟩
    rw [hyy]
    exact hconst (I := Set.Ioo 0 ε) isPreconnected_Ioo (fun u hu => ⟨abs_lt.2 ⟨by linarith [hu.1], hu.2⟩, hu.1.ne'⟩) ht
      (by simpa using ε0) ⟨h, (abs_lt.1 hu).2⟩ ⟨by linarith, by linarith⟩

/-- There are points off the polyline on both sides of an inner point. -/
theorem _root_.Cavc.Spec.SimpleCurve.side_points {j : ℕ} (hj : j < p.size) {s : ℝ} (h0 : 0 < s) (h1 : s < 1)
    {P : ℝ × ℝ → Prop} (hP : ∀ᶠ y in 𝓝 (xy (segPt (rv p j) (rv p (j + 1)) s)), P y) :
    (∃ y, P y ∧ ¬ OnPline p (toV y) ∧ 0 < leftOf (rv p j) (rv p (j + 1)) (toV y)) ∧
    ∃ y, P y ∧ ¬ OnPline p (toV y) ∧ leftOf (rv p j) (rv p (j + 1)) (toV y) < 0 := by
  set v := rv p j with hv
  set e := rv p (j + 1) with he
  have hne : v.pos ≠ e.pos := hs.ne j
  have hok : SegOk v e := hs.segOk j
  have haway := segs_away hs (z := segPt v e s) (J := fun k => k = j) (fun k hk hn => hs.inner hj h0 h1 hk hn)
  have hcont := (continuous_sideP v e).continuousAt (x := (s, 0))
  have e0 : xy (sideP v e s 0) = xy (segPt v e s) := by rw [sideP_zero]
  have hbox := hcont.eventually (by simp only; rw [e0]; exact haway.and hP)
  obtain ⟨ε', hε', hb⟩ := Metric.eventually_nhds_iff.1 hbox
  set ε := min ε' 1 with hε
  have ε0 : 0 < ε := lt_min hε' one_pos
  have ε1 : ε ≤ 1 := min_le_right _ _
  have key : ∀ u, |u| < ε → u ≠ 0 → P (xy (sideP v e s u)) ∧ ¬ OnPline p (sideP v e s u) ∧
      ((0 < leftOf v e (sideP v e s u) ↔ 0 < u) ∧ (leftOf v e (sideP v e s u) < 0 ↔ u < 0)) := by
    intro u hu hu0
    have hu' := abs_lt.1 hu
    have hl := leftOf_sideP (t := s) hne (fun hl => (hok.arcOk hl).start_ne) (u := u) (by linarith) (by linarith)
    have hb' := hb (y := (s, u)) (by
        rw [Prod.dist_eq, max_lt_iff, Real.dist_eq, Real.dist_eq, sub_zero, sub_self, abs_zero]
        exact ⟨hε', hu.trans_le (min_le_left _ _)⟩)
    refine ⟨hb'.2, ?_, hl⟩
    intro ho
    obtain ⟨k, hk, ho⟩ := hs.on.1 ho
    by_cases hkj : k = j
    · subst hkj
      obtain ⟨r, -, -, hr⟩ := onSeg_segPt.1 ho
      rw [hr, leftOf_self] at hl
      rcases lt_or_gt_of_ne hu0 with h | h
      · exact lt_irrefl _ (hl.2.2 h)
      · exact lt_irrefl _ (hl.1.2 h)
    · exact hb'.1 k hk hkj ho
  constructor
  · obtain ⟨a, b, c, -⟩ := key (ε / 2) (by rw [abs_of_pos (by linarith)]; linarith) (by linarith)
    exact ⟨_, a, b, c.2 (by linarith)⟩
  · obtain ⟨a, b, -, c⟩ := key (-(ε / 2)) (by rw [abs_neg, abs_of_pos (by linarith)]; linarith) (by linarith)
    exact ⟨_, a, b, c.2 (by linarith)⟩

theorem _root_.Cavc.Spec.SimpleCurve.sides_unique {j : ℕ} (hj : j < p.size) {s : ℝ} (h0 : 0 < s) (h1 : s < 1) {K K' L L' : α}
    (h : SidesAt p f j s K K') (h' : SidesAt p f j s L L') : K = L ∧ K' = L' := by
  obtain ⟨⟨y, ⟨q1, q2⟩, o, l⟩, z, ⟨q3, q4⟩, o', l'⟩ := hs.side_points hj h0 h1 (h.and h')
  constructor
  · rcases q1 o with ⟨-, a⟩ | ⟨a, -⟩
    · rcases q2 o with ⟨-, b⟩ | ⟨b, -⟩
      · rw [← a, ← b]
      · exact absurd b (not_lt.2 l.le)
    · exact absurd a (not_lt.2 l.le)
  · rcases q3 o' with ⟨a, -⟩ | ⟨-, a⟩
    · exact absurd a (not_lt.2 l'.le)
    · rcases q4 o' with ⟨b, -⟩ | ⟨-, b⟩
      · exact absurd b (not_lt.2 l'.le)
      · rw [← a, ← b]

/-- Each side of a segment has one value. -/
theorem _root_.Cavc.Spec.SimpleCurve.sides_seg (hf : ConnConst p f) {j : ℕ} (hj : j < p.size) :
    ∃ K K', ∀ s, 0 < s → s < 1 → SidesAt p f j s K K' := by
  letI : TopologicalSpace α := ⊥
  haveI : DiscreteTopology α := ⟨rfl⟩
  have hex : ∀ s, ∃ L : α × α, 0 < s → s < 1 → SidesAt p f j s L.1 L.2 := by
    intro s
    by_cases h : 0 < s ∧ s < 1
    · obtain ⟨K, K', hK⟩ := hs.sides_at hf hj h.1 h.2
      exact ⟨(K, K'), fun _ _ => hK⟩
    · exact ⟨(f 0, f 0), fun a b => absurd ⟨a, b⟩ h⟩
  choose L hL using hex
  refine ⟨(L (1 / 2)).1, (L (1 / 2)).2, fun s h0 h1 => ?_⟩
  have hc : ContinuousOn L (Set.Ioo 0 1) := by
    intro t ht
    have hK := (hL t ht.1 ht.2)
    have hK2 := (continuous_segPt (rv p j) (rv p (j + 1))).continuousAt (x := t) |>.eventually (eventually_eventually_nhds.2 hK)
    refine ContinuousWithinAt.congr_of_eventuallyEq (continuousWithinAt_const (b := L t)) ?_ rfl
    filter_upwards [self_mem_nhdsWithin, nhdsWithin_le_nhds hK2] with t' ht' hK'
    have := hs.sides_unique hj ht'.1 ht'.2 (hL t' ht'.1 ht'.2) hK'
    exact Prod.ext this.1 this.2
  have := isPreconnected_Ioo.constant hc (x := s) (y := 1 / 2) ⟨h0, h1⟩ (by norm_num)
  rw [← this]
  exact hL s h0 h1

end
end
end Cavc

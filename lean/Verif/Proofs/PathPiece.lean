import Verif.Proofs.TurnCont
import Verif.Proofs.CurveMul
import Verif.Proofs.CutPath
import Mathlib.Topology.MetricSpace.HausdorffDimension

/-! Parts of the path of a closed polyline, and how far they turn about a point. -/
namespace Cavc
open Spec
open scoped Classical Topology
noncomputable section

/-- The parameter cut off to [0, 1]. -/
def clamp (t : ℝ) : ℝ := max 0 (min t 1)

theorem clamp_nonneg (t : ℝ) : 0 ≤ clamp t := le_max_left _ _
theorem clamp_le (t : ℝ) : clamp t ≤ 1 := max_le zero_le_one (min_le_right _ _)
theorem clamp_mono {s t : ℝ} (h : s ≤ t) : clamp s ≤ clamp t := max_le_max_left _ (min_le_min_right _ h)
theorem clamp_id {t : ℝ} (h0 : 0 ≤ t) (h1 : t ≤ 1) : clamp t = t := by unfold clamp; rw [min_eq_left h1, max_eq_right h0]
theorem clamp_one {t : ℝ} (h : 1 ≤ t) : clamp t = 1 := by unfold clamp; rw [min_eq_right h, max_eq_right zero_le_one]
theorem clamp_zero {t : ℝ} (h : t ≤ 0) : clamp t = 0 := by unfold clamp; rw [max_eq_left ((min_le_left _ _).trans h)]

/-- Between cut off parameters that differ nothing is cut off. -/
theorem clamp_between {a b t : ℝ} (h : clamp a < clamp b) (h0 : clamp a ≤ t) (h1 : t ≤ clamp b) : a ≤ t ∧ t ≤ b := by
  have ha : a < 1 := by
    by_contra hn
    rw [clamp_one (not_lt.1 hn)] at h
    exact absurd (clamp_le b) (not_le.2 h)
  have hb : 0 < b := by
    by_contra hn
    rw [clamp_zero (not_lt.1 hn)] at h
    exact absurd (clamp_nonneg a) (not_le.2 h)
  constructor
  · refine le_trans ?_ h0
    unfold clamp
    rw [min_eq_left ha.le]
    exact le_max_right _ _
  · refine h1.trans ?_
    unfold clamp
    exact max_le hb.le (min_le_left _ _)

theorem turn_self (v e : Vertex) (x : V2) (a : ℝ) : turn v e x a a = 0 := intervalIntegral.integral_same

theorem turn_add {v e : Vertex} {x : V2} {a b c : ℝ} (hab : a ≤ b) (hbc : b ≤ c)
    (h : ∀ t ∈ Set.Icc a c, segPt v e t ≠ x) : turn v e x a b + turn v e x b c = turn v e x a c := by
  have hc := rate_continuousOn h
  apply intervalIntegral.integral_add_adjacent_intervals
  · apply ContinuousOn.intervalIntegrable
    rw [Set.uIcc_of_le hab]
    exact hc.mono (Set.Icc_subset_Icc_right hbc)
  · apply ContinuousOn.intervalIntegrable
    rw [Set.uIcc_of_le hbc]
    exact hc.mono (Set.Icc_subset_Icc_left hab)

/-- How far the path turns about `x` from one parameter to another, in the first two times around. -/
def turnPath (p : Polyline) (x : V2) (a b : ℝ) : ℝ :=
  ∑ k ∈ Finset.range (2 * p.size), turn (rv p k) (rv p (k + 1)) x (clamp (a - k)) (clamp (b - k))

/-- A point of a segment between cut off parameters is one of the path between the parameters. -/
theorem clamp_trace {p : Polyline} {a b : ℝ} {k : ℕ} (h : clamp (a - k) < clamp (b - k)) {t : ℝ}
    (ht : t ∈ Set.Icc (clamp (a - k)) (clamp (b - k))) :
    (k + t) ∈ Set.Icc a b ∧ segPt (rv p k) (rv p (k + 1)) t = trace p (k + t) := by
  obtain ⟨h1, h2⟩ := clamp_between h ht.1 ht.2
  refine ⟨⟨by linarith, by linarith⟩, ?_⟩
  rw [trace_on (k := k) (by linarith [(clamp_nonneg _).trans ht.1]) (by linarith [ht.2.trans (clamp_le _)]),
    add_sub_cancel_left]

theorem turnPath_add {p : Polyline} {x : V2} {a b c : ℝ} (hab : a ≤ b) (hbc : b ≤ c)
    (h : ∀ g ∈ Set.Icc a c, trace p g ≠ x) : turnPath p x a b + turnPath p x b c = turnPath p x a c := by
  unfold turnPath
  rw [← Finset.sum_add_distrib]
  refine Finset.sum_congr rfl fun k _ => ?_
  have h1 := clamp_mono (show a - k ≤ b - k by linarith)
  have h2 := clamp_mono (show b - k ≤ c - k by linarith)
  by_cases hlt : clamp (a - k) < clamp (c - k)
  · refine turn_add h1 h2 fun t ht => ?_
    obtain ⟨h3, h4⟩ := clamp_trace (p := p) hlt ht
    rw [h4]
    exact h _ h3
  · have h3 : clamp (a - k) = clamp (b - k) := by linarith
    have h4 : clamp (b - k) = clamp (c - k) := by linarith
    rw [h3, h4, turn_self, add_zero]

/-- Inside one segment. -/
theorem turnPath_seg {p : Polyline} {x : V2} {k : ℕ} (hk : k < 2 * p.size) {s t : ℝ} (s0 : 0 ≤ s) (hst : s ≤ t) (t1 : t ≤ 1) :
    turnPath p x (k + s) (k + t) = turn (rv p k) (rv p (k + 1)) x s t := by
  unfold turnPath
  rw [Finset.sum_eq_single k]
  · rw [add_sub_cancel_left, add_sub_cancel_left, clamp_id s0 (hst.trans t1), clamp_id (s0.trans hst) t1]
  · intro j _ hj
    rcases Nat.lt_or_gt_of_ne hj with h | h
    · have : (j : ℝ) + 1 ≤ k := by exact_mod_cast h
      rw [clamp_one (by linarith), clamp_one (by linarith), turn_self]
    · have : (k : ℝ) + 1 ≤ j := by exact_mod_cast h
      rw [clamp_zero (by linarith), clamp_zero (by linarith), turn_self]
  · intro h
    exact absurd (Finset.mem_range.2 hk) h

/-- How far a closed polyline turns about a point. -/
def turnAll (p : Polyline) (x : V2) : ℝ :=
  ∑ k ∈ Finset.range p.size, turn (rv p k) (rv p (k + 1)) x 0 1

theorem turnPath_around {p : Polyline} {x : V2} {g : ℝ} (g0 : 0 ≤ g) (g1 : g ≤ p.size)
    (h : ∀ g, 0 ≤ g → trace p g ≠ x) : turnPath p x g (g + p.size) = turnAll p x := by
  unfold turnPath turnAll
  rw [two_mul, Finset.sum_range_add, ← Finset.sum_add_distrib]
  refine Finset.sum_congr rfl fun k hk => ?_
  have hk' : (k : ℝ) + 1 ≤ p.size := by exact_mod_cast Finset.mem_range.1 hk
  have e1 : clamp (g - ((p.size + k : ℕ) : ℝ)) = 0 := clamp_zero (by push_cast; linarith [(Nat.cast_nonneg k : (0 : ℝ) ≤ k)])
  have e2 : clamp (g + p.size - ((p.size + k : ℕ) : ℝ)) = clamp (g - k) := by
    congr 1; push_cast; ring
  have e3 : clamp (g + p.size - k) = 1 := clamp_one (by linarith)
  rw [e1, e2, e3, show p.size + k = k + p.size by omega, rv_per, show k + p.size + 1 = k + 1 + p.size by omega, rv_per,
    add_comm]
  refine turn_add (clamp_nonneg _) (clamp_le _) fun t ht => ?_
  have := h (k + t) (by linarith [ht.1, (Nat.cast_nonneg k : (0 : ℝ) ≤ k)])
  rwa [trace_on (k := k) (by linarith [ht.1]) (by linarith [ht.2]), add_sub_cancel_left] at this

/-! ### Pieces -/

theorem segPt_contDiff (v e : Vertex) : ContDiff ℝ 1 fun t => xy (segPt v e t) := by
  unfold segPt xy
  split_ifs
  · simp only [lerp]; fun_prop
  · simp only [rot]; fun_prop

theorem segPt_thin (v e : Vertex) : Dense (Set.range fun t => xy (segPt v e t))ᶜ :=
  (segPt_contDiff v e).dense_compl_range_of_finrank_lt_finrank (by simp)

/-- The points of the path between two parameters. -/
def pathSet (p : Polyline) (a b : ℝ) : Set (ℝ × ℝ) := (fun g => xy (trace p g)) '' Set.Icc a b

theorem pathSet_compact {p : Polyline} {a b : ℝ} (ha : 0 ≤ a) : IsCompact (pathSet p a b) := by
  obtain ⟨N, hN⟩ := exists_nat_ge b
  exact isCompact_Icc.image_of_continuousOn
    ((trace_cont p N).mono fun g hg => ⟨ha.trans hg.1, hg.2.trans hN⟩)

theorem pathSet_thin {p : Polyline} {a b : ℝ} (ha : 0 ≤ a) : interior (pathSet p a b) = ∅ := by
  obtain ⟨N, hN⟩ := exists_nat_gt b
  have hsub : pathSet p a b ⊆ ⋃ k ∈ (Finset.range N : Set ℕ), (fun t => xy (segPt (rv p k) (rv p (k + 1)) t)) '' Set.Icc 0 1 := by
    rintro z ⟨g, hg, rfl⟩
    have g0 : 0 ≤ g := ha.trans hg.1
    have h1 := Nat.floor_le g0
    have h2 := Nat.lt_floor_add_one g
    simp only [Set.mem_iUnion]
    refine ⟨⌊g⌋₊, ?_, g - ⌊g⌋₊, ⟨by linarith, by linarith⟩, ?_⟩
    · rw [Finset.mem_coe, Finset.mem_range]
      have : (⌊g⌋₊ : ℝ) < N := by linarith [hg.2]
      exact_mod_cast this
    · rfl
  rw [interior_eq_empty_iff_dense_compl]
  have hd : Dense (⋂ k ∈ (Finset.range N : Set ℕ), ((fun t => xy (segPt (rv p k) (rv p (k + 1)) t)) '' Set.Icc 0 1)ᶜ) := by
    refine dense_biInter_of_isOpen (fun k _ => ?_) (Finset.range N).countable_toSet fun k _ => ?_
    · exact (isCompact_Icc.image (continuous_segPt _ _)).isClosed.isOpen_compl
    · exact (segPt_thin (rv p k) (rv p (k + 1))).mono (Set.compl_subset_compl.2 (Set.image_subset_range _ _))
  refine hd.mono ?_
  rw [← Set.compl_iUnion₂]
  exact Set.compl_subset_compl.2 hsub

/-- The part of a path between two parameters as a piece of a curve. -/
def pathPiece (p : Polyline) (a b : ℝ) (ha : 0 ≤ a) (hab : a ≤ b) : Piece where
  on := pathSet p a b
  T z := turnPath p (toV z) a b / (2 * Real.pi)
  closed := (pathSet_compact ha).isClosed
  thin := pathSet_thin ha
  cont := by
    intro z hz
    apply ContinuousAt.div_const
    unfold turnPath
    refine tendsto_finsetSum _ fun k _ => ?_
    have h1 := clamp_mono (show a - k ≤ b - k by linarith)
    rcases h1.lt_or_eq with h2 | h2
    · refine turn_continuousAt h1 fun t ht he => ?_
      obtain ⟨h3, h4⟩ := clamp_trace (p := p) h2 ht
      exact hz ⟨_, h3, by
        show xy (trace p _) = z
        rw [← h4, he]; rfl⟩
    · simp only [h2, turn_self]
      exact tendsto_const_nhds
  far := by
    have h1 : Filter.Tendsto (fun R : ℝ => turnPath p ⟨R, 0⟩ a b) Filter.atTop (𝓝 0) := by
      unfold turnPath
      have := tendsto_finsetSum (Finset.range (2 * p.size)) fun k _ => turn_far (rv p k) (rv p (k + 1))
        (clamp_nonneg (a - k)) (clamp_mono (show a - k ≤ b - k by linarith)) (clamp_le (b - k))
      simpa using this
    have := h1.div_const (2 * Real.pi)
    simpa [toV] using this
  off := by
    obtain ⟨M, hM⟩ := (pathSet_compact (p := p) (b := b) ha).isBounded.exists_norm_le
    filter_upwards [Filter.eventually_gt_atTop M, Filter.eventually_ge_atTop 0] with R hR hR0 hmem
    have h1 := hM _ hmem
    have h2 : ‖R‖ ≤ ‖((R, (0 : ℝ)) : ℝ × ℝ)‖ := norm_fst_le (R, (0 : ℝ))
    rw [Real.norm_eq_abs, abs_of_nonneg hR0] at h2
    linarith

end
end Cavc

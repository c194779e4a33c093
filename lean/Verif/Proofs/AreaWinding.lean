import Verif.Proofs.SimplePoly
import Mathlib.MeasureTheory.Integral.Prod
import Mathlib.MeasureTheory.Integral.IntervalIntegral.Basic
import Mathlib.Analysis.SpecialFunctions.Integrals.Basic
import Mathlib.MeasureTheory.Measure.Lebesgue.Basic
import Mathlib.MeasureTheory.Constructions.BorelSpace.Order

/-! The signed area of a polygon is the integral of its winding number over the plane. -/
namespace Cavc
open Spec
open scoped Classical
open MeasureTheory
noncomputable section

/-- The edge pressed onto the vertical axis. -/
def onAxis (a : V2) : V2 := ⟨0, a.y⟩

/-- What an edge counts at a point, compared with the same edge pressed onto the vertical axis. -/
def edgeTerm (a b : V2) (z : ℝ × ℝ) : ℝ :=
  (lw a b ⟨z.1, z.2⟩ : ℝ) - (lw (onAxis a) (onAxis b) ⟨z.1, z.2⟩ : ℝ)

theorem measurable_lw (a b : V2) : Measurable fun z : ℝ × ℝ => (lw a b ⟨z.1, z.2⟩ : ℝ) := by
  have e : (fun z : ℝ × ℝ => (lw a b ⟨z.1, z.2⟩ : ℝ)) = fun z : ℝ × ℝ =>
      if a.y ≤ z.2 then (if z.2 < b.y ∧ 0 < cross a b ⟨z.1, z.2⟩ then (1 : ℝ) else 0)
      else if b.y ≤ z.2 ∧ ¬ 0 < cross a b ⟨z.1, z.2⟩ then (-1 : ℝ) else 0 := by
    funext z
    rw [lw_eq]
    split_ifs <;> simp
  have hc : Measurable fun z : ℝ × ℝ => cross a b ⟨z.1, z.2⟩ := by
    unfold cross; fun_prop
  have m1 : MeasurableSet {z : ℝ × ℝ | a.y ≤ z.2} := measurableSet_le measurable_const measurable_snd
  have m2 : MeasurableSet {z : ℝ × ℝ | z.2 < b.y} := measurableSet_lt measurable_snd measurable_const
  have m3 : MeasurableSet {z : ℝ × ℝ | b.y ≤ z.2} := measurableSet_le measurable_const measurable_snd
  have m4 : MeasurableSet {z : ℝ × ℝ | 0 < cross a b ⟨z.1, z.2⟩} := measurableSet_lt measurable_const hc
  rw [e]
  refine Measurable.ite m1 (Measurable.ite (m2.inter m4) measurable_const measurable_const)
    (Measurable.ite (m3.inter m4.compl) measurable_const measurable_const)

/-- At a height that an edge crosses its point is not far. -/
theorem atHeight_bound {a b : V2} {y : ℝ} (h : crosses a b y ≠ 0) : |(atHeight a b y).x| ≤ |a.x| + |b.x| := by
  obtain ⟨-, t, t0, t1, e⟩ := crosses_ne h
  rw [e]
  simp only [lerp]
  have e' : a.x + t * (b.x - a.x) = (1 - t) * a.x + t * b.x := by ring
  rw [e']
  calc |(1 - t) * a.x + t * b.x| ≤ |(1 - t) * a.x| + |t * b.x| := abs_add_le _ _
    _ = (1 - t) * |a.x| + t * |b.x| := by rw [abs_mul, abs_mul, abs_of_nonneg t0, abs_of_nonneg (by linarith : 0 ≤ 1 - t)]
    _ ≤ |a.x| + |b.x| := by nlinarith [abs_nonneg a.x, abs_nonneg b.x]

theorem crosses_axis (a b : V2) (y : ℝ) : crosses (onAxis a) (onAxis b) y = crosses a b y := rfl

theorem atHeight_axis (a b : V2) (y : ℝ) : (atHeight (onAxis a) (onAxis b) y).x = 0 := by
  simp [atHeight, lerp, onAxis]

theorem crosses_range {a b : V2} {y : ℝ} (h : crosses a b y ≠ 0) : min a.y b.y ≤ y ∧ y ≤ max a.y b.y := by
  unfold crosses at h
  split_ifs at h with h1 h2 h2
  · exact ⟨(min_le_left _ _).trans h1, h2.le.trans (le_max_right _ _)⟩
  · exact absurd rfl h
  · exact ⟨(min_le_right _ _).trans h2, (not_le.1 h1).le.trans (le_max_left _ _)⟩
  · exact absurd rfl h

theorem crosses_abs (a b : V2) (y : ℝ) : |(crosses a b y : ℝ)| ≤ 1 := by
  unfold crosses; split_ifs <;> norm_num

theorem lw_abs (a b x : V2) : |(lw a b x : ℝ)| ≤ 1 := by
  rw [lw_eq]; split_ifs <;> norm_num

/-- On a horizontal line, except at two points. -/
theorem edgeTerm_eq {a b : V2} {x y : ℝ} (h1 : x ≠ (atHeight a b y).x) (h2 : x ≠ 0) :
    edgeTerm a b (x, y) = (crosses a b y : ℝ) *
      ((if x < (atHeight a b y).x then 1 else 0) - (if x < 0 then 1 else 0)) := by
  unfold edgeTerm
  rw [lw_crosses (show (⟨x, y⟩ : V2).x ≠ (atHeight a b (⟨x, y⟩ : V2).y).x from h1),
    lw_crosses (show (⟨x, y⟩ : V2).x ≠ (atHeight (onAxis a) (onAxis b) (⟨x, y⟩ : V2).y).x by
      rw [atHeight_axis]; exact h2)]
  simp only [atHeight_axis, crosses_axis]
  split_ifs <;> simp

theorem edgeTerm_zero {a b : V2} {z : ℝ × ℝ}
    (h : z ∉ Set.Icc (-(|a.x| + |b.x| + 1)) (|a.x| + |b.x| + 1) ×ˢ Set.Icc (min a.y b.y) (max a.y b.y)) :
    edgeTerm a b z = 0 := by
  by_cases hc : crosses a b z.2 = 0
  · unfold edgeTerm
    rw [lw_crosses_zero (show crosses a b (⟨z.1, z.2⟩ : V2).y = 0 from hc),
      lw_crosses_zero (show crosses (onAxis a) (onAxis b) (⟨z.1, z.2⟩ : V2).y = 0 from hc), sub_self]
  · have hb := atHeight_bound hc
    have hr := crosses_range hc
    have hx : z.1 ∉ Set.Icc (-(|a.x| + |b.x| + 1)) (|a.x| + |b.x| + 1) := fun hx => h ⟨hx, hr⟩
    rw [Set.mem_Icc, not_and_or, not_le, not_le] at hx
    have p0 := abs_nonneg a.x
    have p1 := abs_nonneg b.x
    rw [abs_le] at hb
    have n1 : z.1 ≠ (atHeight a b z.2).x := by rcases hx with hx | hx <;> intro e <;> linarith
    have n2 : z.1 ≠ 0 := by rcases hx with hx | hx <;> intro e <;> linarith
    rw [show z = (z.1, z.2) from rfl, edgeTerm_eq n1 n2]
    rcases hx with hx | hx
    · rw [if_pos (by linarith), if_pos (by linarith)]; ring
    · rw [if_neg (by linarith), if_neg (by linarith)]; ring

theorem integrable_edgeTerm (a b : V2) : Integrable (edgeTerm a b) := by
  set S := Set.Icc (-(|a.x| + |b.x| + 1)) (|a.x| + |b.x| + 1) ×ˢ Set.Icc (min a.y b.y) (max a.y b.y) with hS
  have hm : Measurable (edgeTerm a b) := (measurable_lw a b).sub (measurable_lw _ _)
  have hSm : MeasurableSet S := measurableSet_Icc.prod measurableSet_Icc
  have hSf : volume S < ⊤ := by
    rw [hS]
    exact (isCompact_Icc.prod isCompact_Icc).measure_lt_top
  have hi : IntegrableOn (edgeTerm a b) S := by
    refine Measure.integrableOn_of_bounded (M := 2) hSf.ne hm.aestronglyMeasurable ?_
    refine Filter.Eventually.of_forall fun z => ?_
    rw [Real.norm_eq_abs]
    unfold edgeTerm
    calc _ ≤ |(lw a b ⟨z.1, z.2⟩ : ℝ)| + |(lw (onAxis a) (onAxis b) ⟨z.1, z.2⟩ : ℝ)| := abs_sub _ _
      _ ≤ 2 := by linarith [lw_abs a b ⟨z.1, z.2⟩, lw_abs (onAxis a) (onAxis b) ⟨z.1, z.2⟩]
  exact hi.integrable_of_forall_notMem_eq_zero fun z hz => edgeTerm_zero hz

/-- The length between zero and `h`, with sign. -/
theorem integral_step (h : ℝ) : ∫ x : ℝ, (((if x < h then 1 else 0) - (if x < 0 then 1 else 0)) : ℝ) = h := by
  rcases le_total 0 h with h0 | h0
  · have e : (fun x : ℝ => (((if x < h then 1 else 0) - (if x < 0 then 1 else 0)) : ℝ)) =
        (Set.Ico 0 h).indicator (fun _ => (1 : ℝ)) := by
      funext x
      rw [Set.indicator_apply]
      by_cases q1 : x < 0
      · rw [if_pos q1, if_pos (by linarith), if_neg (fun q => absurd q.1 (not_le.2 q1))]; ring
      · rw [if_neg q1]
        by_cases q2 : x < h
        · rw [if_pos q2, if_pos ⟨not_lt.1 q1, q2⟩]; ring
        · rw [if_neg q2, if_neg (fun q => q2 q.2)]; ring
    rw [e, integral_indicator measurableSet_Ico, setIntegral_const]
    simp [h0]
  · have e : (fun x : ℝ => (((if x < h then 1 else 0) - (if x < 0 then 1 else 0)) : ℝ)) =
        (Set.Ico h 0).indicator (fun _ => (-1 : ℝ)) := by
      funext x
      rw [Set.indicator_apply]
      by_cases q1 : x < h
      · rw [if_pos q1, if_pos (by linarith), if_neg (fun q => absurd q.1 (not_le.2 q1))]; ring
      · rw [if_neg q1]
        by_cases q2 : x < 0
        · rw [if_pos q2, if_pos ⟨not_lt.1 q1, q2⟩]; ring
        · rw [if_neg q2, if_neg (fun q => q2 q.2)]; ring
    rw [e, integral_indicator measurableSet_Ico, setIntegral_const]
    simp [h0]

theorem integral_inner (a b : V2) (y : ℝ) :
    ∫ x : ℝ, edgeTerm a b (x, y) = (crosses a b y : ℝ) * (atHeight a b y).x := by
  have : ∫ x : ℝ, edgeTerm a b (x, y) = ∫ x : ℝ, (crosses a b y : ℝ) *
      ((if x < (atHeight a b y).x then 1 else 0) - (if x < 0 then 1 else 0)) := by
    apply integral_congr_ae
    have h1 : ∀ᵐ x : ℝ, x ≠ (atHeight a b y).x := by
      rw [ae_iff]; simp
    have h2 : ∀ᵐ x : ℝ, x ≠ 0 := by
      rw [ae_iff]; simp
    filter_upwards [h1, h2] with x q1 q2
    exact edgeTerm_eq q1 q2
  rw [this, integral_const_mul, integral_step]

theorem integral_line {a b : V2} (h : a.y ≠ b.y) :
    ∫ y in a.y..b.y, (atHeight a b y).x = (b.y - a.y) * ((a.x + b.x) / 2) := by
  have hd : b.y - a.y ≠ 0 := fun q => h (by linarith)
  have e : ∀ y, (atHeight a b y).x = (a.x - a.y * ((b.x - a.x) / (b.y - a.y))) + (b.x - a.x) / (b.y - a.y) * y := by
    intro y
    simp only [atHeight, lerp]
    field_simp
    ring
  simp only [e]
  rw [intervalIntegral.integral_add (by simp) (by
    apply Continuous.intervalIntegrable; fun_prop), intervalIntegral.integral_const,
    intervalIntegral.integral_const_mul, integral_id, smul_eq_mul]
  field_simp
  ring

theorem integral_edge (a b : V2) : ∫ z, edgeTerm a b z = (b.y - a.y) * ((a.x + b.x) / 2) := by
  have hint := integrable_edgeTerm a b
  rw [Measure.volume_eq_prod] at hint ⊢
  rw [integral_prod_symm _ hint]
  simp only [integral_inner]
  rcases lt_trichotomy a.y b.y with h | h | h
  · have e : (fun y : ℝ => (crosses a b y : ℝ) * (atHeight a b y).x) =
        (Set.Ico a.y b.y).indicator (fun y => (atHeight a b y).x) := by
      funext y
      rw [Set.indicator_apply]
      unfold crosses
      by_cases q1 : a.y ≤ y
      · rw [if_pos q1]
        by_cases q2 : y < b.y
        · rw [if_pos q2, if_pos ⟨q1, q2⟩]; push_cast; ring
        · rw [if_neg q2, if_neg (fun q => q2 q.2)]; simp
      · rw [if_neg q1, if_neg (by linarith), if_neg (fun q => q1 q.1)]; simp
    rw [e, integral_indicator measurableSet_Ico, integral_Ico_eq_integral_Ioc,
      ← intervalIntegral.integral_of_le h.le, integral_line h.ne]
  · have e : (fun y : ℝ => (crosses a b y : ℝ) * (atHeight a b y).x) = fun _ => 0 := by
      funext y
      unfold crosses
      by_cases q1 : a.y ≤ y
      · rw [if_pos q1, if_neg (by linarith)]; simp
      · rw [if_neg q1, if_neg (by linarith)]; simp
    rw [e, h]; simp
  · have e : (fun y : ℝ => (crosses a b y : ℝ) * (atHeight a b y).x) =
        (Set.Ico b.y a.y).indicator (fun y => - (atHeight a b y).x) := by
      funext y
      rw [Set.indicator_apply]
      unfold crosses
      by_cases q1 : a.y ≤ y
      · rw [if_pos q1, if_neg (by linarith), if_neg (fun q => absurd q.2 (not_lt.2 q1))]; simp
      · rw [if_neg q1]
        by_cases q2 : b.y ≤ y
        · rw [if_pos q2, if_pos ⟨q2, not_le.1 q1⟩]; push_cast; ring
        · rw [if_neg q2, if_neg (fun q => q2 q.1)]; simp
    rw [e, integral_indicator measurableSet_Ico, integral_Ico_eq_integral_Ioc, integral_neg,
      ← intervalIntegral.integral_of_le h.le, ← intervalIntegral.integral_symm, integral_line h.ne']

/-- Twice the area, as a sum over the edges. -/
def shoelace (P : ℕ → V2) (n : ℕ) : ℝ :=
  ∑ k ∈ Finset.range n, ((P k).x * (P (k + 1)).y - (P k).y * (P (k + 1)).x)

theorem sum_axis {P : ℕ → V2} {n : ℕ} (hP : P n = P 0) {x : V2} (hx : x.x ≠ 0) :
    ∑ k ∈ Finset.range n, lw (onAxis (P k)) (onAxis (P (k + 1))) x = 0 := by
  have key : ∀ a b : V2, lw (onAxis a) (onAxis b) x =
      (if x.x < 0 then (if x.y < b.y then 1 else 0) else 0) -
        (if x.x < 0 then (if x.y < a.y then 1 else 0) else 0) := by
    intro a b
    rw [lw_crosses (by rw [atHeight_axis]; exact hx), atHeight_axis, crosses_axis]
    by_cases h : x.x < 0
    · rw [if_pos h, if_pos h, if_pos h]
      unfold crosses
      by_cases h1 : a.y ≤ x.y
      · rw [if_pos h1, if_neg (not_lt.2 h1), sub_zero]
      · rw [if_neg h1, if_pos (not_le.1 h1)]
        by_cases h2 : b.y ≤ x.y
        · rw [if_pos h2, if_neg (not_lt.2 h2)]; rfl
        · rw [if_neg h2, if_pos (not_le.1 h2)]; rfl
    · rw [if_neg h, if_neg h, if_neg h, sub_zero]
  simp only [key]
  rw [Finset.sum_range_sub (fun k => if x.x < 0 then (if x.y < (P k).y then (1 : ℤ) else 0) else 0), hP, sub_self]

/-- Away from the vertical axis the winding number is what the edges count. -/
theorem polyW_terms {P : ℕ → V2} {n : ℕ} (hP : P n = P 0) {z : ℝ × ℝ} (hz : z.1 ≠ 0) :
    (polyW P n ⟨z.1, z.2⟩ : ℝ) = ∑ k ∈ Finset.range n, edgeTerm (P k) (P (k + 1)) z := by
  have h := sum_axis (P := P) (n := n) hP (x := ⟨z.1, z.2⟩) hz
  simp only [edgeTerm, Finset.sum_sub_distrib]
  have h' : (∑ k ∈ Finset.range n, (lw (onAxis (P k)) (onAxis (P (k + 1))) ⟨z.1, z.2⟩ : ℝ)) = 0 := by
    exact_mod_cast h
  rw [h', sub_zero]
  unfold polyW
  rw [polyEdges_W]
  push_cast
  rfl

theorem ae_axis : ∀ᵐ z : ℝ × ℝ, z.1 ≠ 0 := by
  rw [ae_iff]
  have : {z : ℝ × ℝ | ¬ z.1 ≠ 0} = {(0 : ℝ)} ×ˢ Set.univ := by ext z; simp
  rw [this, Measure.volume_eq_prod, Measure.prod_prod]
  simp

theorem polyW_ae {P : ℕ → V2} {n : ℕ} (hP : P n = P 0) :
    (fun z : ℝ × ℝ => (polyW P n ⟨z.1, z.2⟩ : ℝ)) =ᵐ[volume]
      fun z => ∑ k ∈ Finset.range n, edgeTerm (P k) (P (k + 1)) z := by
  filter_upwards [ae_axis] with z hz
  exact polyW_terms hP hz

theorem polyW_integrable {P : ℕ → V2} {n : ℕ} (hP : P n = P 0) :
    Integrable fun z : ℝ × ℝ => (polyW P n ⟨z.1, z.2⟩ : ℝ) :=
  (integrable_finset_sum _ fun k _ => integrable_edgeTerm _ _).congr (polyW_ae hP).symm

theorem polyW_integral {P : ℕ → V2} {n : ℕ} (hP : P n = P 0) :
    ∫ z : ℝ × ℝ, (polyW P n ⟨z.1, z.2⟩ : ℝ) = shoelace P n / 2 := by
  rw [integral_congr_ae (polyW_ae hP), integral_finset_sum _ fun k _ => integrable_edgeTerm _ _]
  simp only [integral_edge]
  have : ∀ k ∈ Finset.range n, ((P (k + 1)).y - (P k).y) * (((P k).x + (P (k + 1)).x) / 2) =
      ((P k).x * (P (k + 1)).y - (P k).y * (P (k + 1)).x) / 2 +
        ((P (k + 1)).x * (P (k + 1)).y / 2 - (P k).x * (P k).y / 2) := fun k _ => by ring
  rw [Finset.sum_congr rfl this, Finset.sum_add_distrib, Finset.sum_range_sub (fun k => (P k).x * (P k).y / 2), hP,
    sub_self, add_zero, shoelace, Finset.sum_div]

/-- The points of a line are few. -/
theorem cross_null {a b : V2} (h : a ≠ b) : ∀ᵐ z : ℝ × ℝ, cross a b ⟨z.1, z.2⟩ ≠ 0 := by
  have hc : Measurable fun z : ℝ × ℝ => cross a b ⟨z.1, z.2⟩ := by
    unfold cross; fun_prop
  have hm : MeasurableSet {z : ℝ × ℝ | cross a b ⟨z.1, z.2⟩ = 0} := hc (measurableSet_singleton 0)
  have h0 : volume {z : ℝ × ℝ | cross a b ⟨z.1, z.2⟩ = 0} = 0 := by
    rw [Measure.volume_eq_prod, Measure.measure_prod_null hm]
    by_cases hx : a.x = b.x
    · have hy : a.y ≠ b.y := fun hy => h (V2.ext hx hy)
      have : ∀ᵐ x : ℝ, x ≠ a.x := by rw [ae_iff]; simp
      filter_upwards [this] with x hxa
      have : Prod.mk x ⁻¹' {z : ℝ × ℝ | cross a b ⟨z.1, z.2⟩ = 0} = ∅ := by
        ext y
        simp only [Set.mem_preimage, Set.mem_ofPred_eq, Set.mem_empty_iff_false, iff_false, cross, hx]
        intro q
        have q' : (b.y - a.y) * (x - a.x) = 0 := by rw [hx]; linarith
        rcases mul_eq_zero.1 q' with q' | q'
        · exact hy (by linarith)
        · exact hxa (by linarith)
      rw [this]; simp
    · refine Filter.Eventually.of_forall fun x => ?_
      have hd : b.x - a.x ≠ 0 := fun q => hx (by linarith)
      have : Prod.mk x ⁻¹' {z : ℝ × ℝ | cross a b ⟨z.1, z.2⟩ = 0} ⊆
          {a.y + (b.y - a.y) * (x - a.x) / (b.x - a.x)} := by
        intro y
        simp only [Set.mem_preimage, Set.mem_ofPred_eq, Set.mem_singleton_iff, cross]
        intro q
        field_simp
        linarith
      exact measure_mono_null this (by simp)
  rw [ae_iff]
  simpa only [not_not] using h0

theorem line_null {a b : V2} (h : a ≠ b) : ∀ᵐ z : ℝ × ℝ, ¬ OnLine a b ⟨z.1, z.2⟩ := by
  filter_upwards [cross_null h] with z hz ho
  exact hz (cross_onLine ho)

/-- Almost all points are off the polygon. -/
theorem SimpleP.ae_off {P : ℕ → V2} {n : ℕ} (hs : SimpleP P n) : ∀ᵐ z : ℝ × ℝ, OffP P n ⟨z.1, z.2⟩ := by
  have : ∀ k ∈ Finset.range n, ∀ᵐ z : ℝ × ℝ, ¬ OnLine (P k) (P (k + 1)) ⟨z.1, z.2⟩ := fun k _ => line_null (hs.ne k)
  rw [← Finset.eventually_all] at this
  filter_upwards [this] with z hz k hk
  exact hz k (Finset.mem_range.2 hk)

/-- The value on a side is taken on a set that is not small. -/
theorem SimpleP.side_pos {P : ℕ → V2} {n : ℕ} (hs : SimpleP P n) {σ : ℝ} (hσ : σ = 1 ∨ σ = -1) {j : ℕ} {s : ℝ} {K : ℤ}
    (h : SideVal P n σ j s K) : 0 < volume {z : ℝ × ℝ | polyW P n ⟨z.1, z.2⟩ = K} := by
  obtain ⟨ρ, hρ, h⟩ := h
  set c := lerp (P j) (P (j + 1)) s with hcc
  set U : Set (ℝ × ℝ) := {z | |z.1 - c.x| < ρ ∧ |z.2 - c.y| < ρ ∧ 0 < σ * cross (P j) (P (j + 1)) ⟨z.1, z.2⟩} with hU
  have hUo : IsOpen U := by
    rw [hU]
    simp only [Set.ofPred_and]
    refine (isOpen_lt (by fun_prop) continuous_const).inter ((isOpen_lt (by fun_prop) continuous_const).inter
      (isOpen_lt continuous_const ?_))
    unfold cross
    fun_prop
  have hUn : U.Nonempty := by
    obtain ⟨y, h1, h2, -⟩ := exists_beside (hs.ne j) (z := c) (by rw [hcc]; simp only [cross, lerp]; ring) hσ hρ c c
    exact ⟨(y.x, y.y), h1.1, h1.2, h2⟩
  refine lt_of_lt_of_le (hUo.measure_pos volume hUn) (measure_mono ?_)
  rintro z ⟨h1, h2, h3⟩
  exact h _ ⟨h1, h2⟩ h3

/-- A simple polygon winds once around what is inside, in the direction of its area. -/
theorem SimpleP.once {P : ℕ → V2} {n : ℕ} (hs : SimpleP P n) : ∃ σ : ℤ, (σ = 1 ∨ σ = -1) ∧ 0 < σ * shoelace P n ∧
    (∀ x, OffP P n x → polyW P n x = 0 ∨ polyW P n x = σ) ∧
    ∀ j < n, ∀ t, 0 < t → t < 1 → SideVal P n σ j t σ ∧ SideVal P n (-σ) j t 0 := by
  obtain ⟨K, hK, hside, hval⟩ := hs.values
  have hint := polyW_integrable hs.closed
  have hI := polyW_integral hs.closed
  have main : ∀ σ : ℤ, (σ = 1 ∨ σ = -1) → (∀ x, OffP P n x → polyW P n x = 0 ∨ polyW P n x = σ) →
      0 < volume {z : ℝ × ℝ | polyW P n ⟨z.1, z.2⟩ = σ} → 0 < (σ : ℝ) * shoelace P n := by
    intro σ hσ hv hp
    have hσ0 : (σ : ℝ) ≠ 0 := by rcases hσ with rfl | rfl <;> norm_num
    have hσ1 : 0 < (σ : ℝ) * σ := by rcases hσ with rfl | rfl <;> norm_num
    have : 0 < ∫ z : ℝ × ℝ, (σ : ℝ) * (polyW P n ⟨z.1, z.2⟩ : ℝ) := by
      rw [integral_pos_iff_support_of_nonneg_ae]
      · refine lt_of_lt_of_le hp (measure_mono ?_)
        intro z hz
        rw [Set.mem_ofPred_eq] at hz
        rw [Function.mem_support, hz]
        exact hσ1.ne'
      · filter_upwards [hs.ae_off] with z hz
        rcases hv _ hz with h | h
        · rw [h]; simp
        · rw [h]; exact hσ1.le
      · exact hint.const_mul _
    rw [integral_const_mul, hI] at this
    linarith
  rcases hK with rfl | rfl
  · refine ⟨-1, Or.inr rfl, main _ (Or.inr rfl) (fun x hx => hval x hx) ?_, fun x hx => hval x hx,
      fun j hj t t0 t1 => ?_⟩
    · exact hs.side_pos (Or.inr rfl) (hside 0 hs.pos (1 / 2) (by norm_num) (by norm_num)).2
    · have := hside j hj t t0 t1
      exact ⟨by simpa using this.2, by simpa using this.1⟩
  · refine ⟨1, Or.inl rfl, main _ (Or.inl rfl) (fun x hx => (hval x hx).symm) ?_, fun x hx => (hval x hx).symm,
      fun j hj t t0 t1 => ?_⟩
    · exact hs.side_pos (Or.inl rfl) (hside 0 hs.pos (1 / 2) (by norm_num) (by norm_num)).1
    · have := hside j hj t t0 t1
      exact ⟨by simpa using this.1, by simpa using this.2⟩

theorem polyW_measurable (P : ℕ → V2) (n : ℕ) : Measurable fun z : ℝ × ℝ => (polyW P n ⟨z.1, z.2⟩ : ℝ) := by
  have : (fun z : ℝ × ℝ => (polyW P n ⟨z.1, z.2⟩ : ℝ)) = fun z =>
      ∑ k ∈ Finset.range n, (lw (P k) (P (k + 1)) ⟨z.1, z.2⟩ : ℝ) := by
    funext z
    unfold polyW
    rw [polyEdges_W]
    push_cast
    rfl
  rw [this]
  exact Finset.measurable_sum _ fun k _ => measurable_lw _ _

theorem offP_measurable (P : ℕ → V2) (n : ℕ) : MeasurableSet {z : ℝ × ℝ | OffP P n ⟨z.1, z.2⟩} := by
  have : {z : ℝ × ℝ | OffP P n ⟨z.1, z.2⟩} =
      ⋂ k ∈ Finset.range n, {z : ℝ × ℝ | OnLine (P k) (P (k + 1)) ⟨z.1, z.2⟩}ᶜ := by
    ext z
    simp [OffP]
  rw [this]
  exact Finset.measurableSet_biInter _ fun k _ => (onLine_closed _ _).measurableSet.compl

/-- The area is the measure of what is inside. -/
theorem SimpleP.volume {P : ℕ → V2} {n : ℕ} (hs : SimpleP P n) :
    MeasureTheory.volume {z : ℝ × ℝ | OffP P n ⟨z.1, z.2⟩ ∧ polyW P n ⟨z.1, z.2⟩ ≠ 0} =
      ENNReal.ofReal |shoelace P n / 2| := by
  obtain ⟨σ, hσ, hpos, hval, -⟩ := hs.once
  set T : Set (ℝ × ℝ) := {z : ℝ × ℝ | OffP P n ⟨z.1, z.2⟩ ∧ polyW P n ⟨z.1, z.2⟩ ≠ 0} with hT
  have hTm : MeasurableSet T := by
    have m1 := offP_measurable P n
    have m2 : MeasurableSet {z : ℝ × ℝ | (polyW P n ⟨z.1, z.2⟩ : ℝ) = 0} :=
      polyW_measurable P n (measurableSet_singleton 0)
    have : T = {z : ℝ × ℝ | OffP P n ⟨z.1, z.2⟩} ∩ {z : ℝ × ℝ | (polyW P n ⟨z.1, z.2⟩ : ℝ) = 0}ᶜ := by
      ext z
      simp [hT]
    rw [this]
    exact m1.inter m2.compl
  have hσ1 : (σ : ℝ) * σ = 1 := by rcases hσ with rfl | rfl <;> norm_num
  have hae : (fun z : ℝ × ℝ => (σ : ℝ) * (polyW P n ⟨z.1, z.2⟩ : ℝ)) =ᵐ[MeasureTheory.volume]
      T.indicator (fun _ => (1 : ℝ)) := by
    filter_upwards [hs.ae_off] with z hz
    rw [Set.indicator_apply]
    rcases hval _ hz with h | h
    · rw [if_neg (fun q => q.2 h), h]; simp
    · rw [if_pos ⟨hz, by rw [h]; rcases hσ with rfl | rfl <;> norm_num⟩, h, hσ1]
  have hint := (polyW_integrable hs.closed).const_mul (σ : ℝ)
  have hi2 := hint.congr hae
  rw [integrable_indicator_iff hTm] at hi2
  have hfin : MeasureTheory.volume T ≠ ⊤ := by
    have := integrableOn_const_iff (μ := MeasureTheory.volume) (s := T) (C := (1 : ℝ)) |>.1 hi2
    rcases this with h | h
    · norm_num at h
    · exact h.ne
  have hI : ∫ z : ℝ × ℝ, (σ : ℝ) * (polyW P n ⟨z.1, z.2⟩ : ℝ) = (MeasureTheory.volume T).toReal := by
    rw [integral_congr_ae hae, integral_indicator hTm, setIntegral_const]
    simp [Measure.real]
  rw [integral_const_mul, polyW_integral hs.closed] at hI
  have habs : |shoelace P n / 2| = (σ : ℝ) * (shoelace P n / 2) := by
    rcases hσ with rfl | rfl
    · rw [abs_of_pos]
      · simp
      · simp at hpos; linarith
    · rw [abs_of_neg]
      · simp
      · simp at hpos; linarith
  rw [habs, hI, ENNReal.ofReal_toReal hfin]

end
end Cavc

import Verif.Proofs.PathWind
import Mathlib.Analysis.SpecialFunctions.Complex.Arg
import Mathlib.Topology.Connected.TotallyDisconnected
import Mathlib.Topology.Instances.Int

/-! The winding number of a polygon is constant away from it and changes by one where an edge is
crossed. -/
namespace Cavc
open Spec
open scoped Classical
noncomputable section

/-- The edges of the closed polygon through `P 0`, ..., `P (n - 1)`. -/
def polyEdges (P : ℕ → V2) (n : ℕ) : List (V2 × V2) := (List.range n).map fun k => (P k, P (k + 1))

theorem polyEdges_W (P : ℕ → V2) (n : ℕ) (x : V2) :
    edgesW (polyEdges P n) x = ∑ k ∈ Finset.range n, lw (P k) (P (k + 1)) x := by
  unfold edgesW polyEdges
  rw [List.map_map]
  induction n with
  | zero => simp
  | succ n ih => rw [List.range_succ, List.map_append, List.sum_append, ih, Finset.sum_range_succ]; simp

/-- The ratio of the two ends seen from `z`. -/
def ratio (a b z : V2) : ℂ := from' z b / from' z a

theorem onLine_start (a b : V2) : OnLine a b a := ⟨0, le_rfl, zero_le_one, by ext <;> simp [lerp]⟩
theorem onLine_end (a b : V2) : OnLine a b b := ⟨1, zero_le_one, le_rfl, by ext <;> simp [lerp]⟩

/-- The turn of a segment is the argument of the ratio. -/
theorem arg_ratio {a b z : V2} (h : ¬ OnLine a b z) :
    (ratio a b z).arg = polarAngle (from' z b) - polarAngle (from' z a) + 2 * Real.pi * (lw a b z : ℝ) ∧
      ratio a b z ∈ Complex.slitPlane := by
  have hne : ∀ t : ℝ, 0 ≤ t → t ≤ 1 → lerp a b t ≠ z := fun t h0 h1 he => h ⟨t, h0, h1, he.symm⟩
  have hl : IsLine ⟨a, 0⟩ := by simp [IsLine]
  have hp : ¬ OnSeg ⟨a, 0⟩ ⟨b, 0⟩ z := by
    intro hs
    obtain ⟨t, h0, h1, he⟩ := (onSeg_line hl).1 hs
    exact hne t h0 h1 he.symm
  have ht := seg_turn_line (v1 := ⟨a, 0⟩) (v2 := ⟨b, 0⟩) hl hp (γ := fun t => lerp a b t)
    (fun t => (atParam_line hl).2 rfl)
  obtain ⟨h1, h2, h3⟩ := turning_line hne
  have n1 : from' z a ≠ 0 := from_ne (fun e => h (e ▸ onLine_start a b))
  have n2 : from' z b ≠ 0 := from_ne (fun e => h (e ▸ onLine_end a b))
  have e0 : seen z (fun t => lerp a b t) 0 = from' z a := by simp [seen, from', lerp]
  have e1 : seen z (fun t => lerp a b t) 1 = from' z b := by simp [seen, from', lerp]
  rw [e0, e1] at h3
  rw [lineWinding_eq] at ht
  simp only at ht
  rw [← ht]
  generalize turning z (fun t => lerp a b t) = θ at *
  have hr : (0 : ℝ) < ‖from' z b‖ / ‖from' z a‖ := div_pos (norm_pos_iff.2 n2) (norm_pos_iff.2 n1)
  have hrat : ratio a b z = ((‖from' z b‖ / ‖from' z a‖ : ℝ) : ℂ) * (Complex.cos θ + Complex.sin θ * Complex.I) := by
    rw [← Complex.exp_mul_I]
    unfold ratio
    have hzn : (‖from' z a‖ : ℂ) ≠ 0 := by simpa using n1
    unfold TurnsTo at h3
    push_cast
    field_simp
    linear_combination h3
  have harg : (ratio a b z).arg = θ := by
    rw [hrat]
    exact Complex.arg_mul_cos_add_sin_mul_I hr ⟨h1, h2.le⟩
  refine ⟨harg, Complex.mem_slitPlane_iff_arg.2 ⟨?_, ?_⟩⟩
  · rw [harg]; exact h2.ne
  · exact div_ne_zero n2 n1

theorem poly_turn {P : ℕ → V2} {n : ℕ} (hP : P n = P 0) {z : V2}
    (h : ∀ k < n, ¬ OnLine (P k) (P (k + 1)) z) :
    2 * Real.pi * (edgesW (polyEdges P n) z : ℝ) = ∑ k ∈ Finset.range n, (ratio (P k) (P (k + 1)) z).arg := by
  rw [Finset.sum_congr rfl fun k hk => (arg_ratio (h k (Finset.mem_range.1 hk))).1, Finset.sum_add_distrib,
    Finset.sum_range_sub (fun k => polarAngle (from' z (P k))), hP, sub_self, zero_add, ← Finset.mul_sum,
    polyEdges_W]
  push_cast
  rfl

theorem ratio_continuousAt {p q a b : V2} {t : ℝ} (h : lerp a b t ≠ p) :
    ContinuousAt (fun s => ratio p q (lerp a b s)) t := by
  have hc : ∀ r : V2, Continuous fun s : ℝ => from' (lerp a b s) r := by
    intro r
    have : (fun s : ℝ => from' (lerp a b s) r) = fun s : ℝ =>
        (((r.x - (a.x + s * (b.x - a.x)) : ℝ) : ℂ) + ((r.y - (a.y + s * (b.y - a.y)) : ℝ) : ℂ) * Complex.I) := by
      funext s
      apply Complex.ext <;> simp [from', lerp]
    rw [this]
    fun_prop
  exact (hc q).continuousAt.div (hc p).continuousAt (from_ne h.symm)

/-- Along a straight line that does not meet the polygon the winding number is constant. -/
theorem wind_const {P : ℕ → V2} {n : ℕ} (hP : P n = P 0) {a b : V2} {S : Set ℝ} (hS : IsPreconnected S)
    (h : ∀ t ∈ S, ∀ k < n, ¬ OnLine (P k) (P (k + 1)) (lerp a b t)) {t t' : ℝ} (ht : t ∈ S) (ht' : t' ∈ S) :
    edgesW (polyEdges P n) (lerp a b t) = edgesW (polyEdges P n) (lerp a b t') := by
  have hpi := Real.pi_pos
  refine hS.constant (f := fun t => edgesW (polyEdges P n) (lerp a b t)) ?_ ht ht'
  rw [Int.isClosedEmbedding_coe_real.isEmbedding.isInducing.continuousOn_iff]
  have he : Set.EqOn (((↑) : ℤ → ℝ) ∘ fun t => edgesW (polyEdges P n) (lerp a b t))
      (fun t => (∑ k ∈ Finset.range n, (ratio (P k) (P (k + 1)) (lerp a b t)).arg) / (2 * Real.pi)) S := by
    intro s hs
    simp only [Function.comp_apply]
    rw [← poly_turn hP (h s hs)]
    field_simp
  refine ContinuousOn.congr ?_ he
  apply ContinuousOn.div_const
  apply continuousOn_finsetSum
  intro k hk s hs
  have hoff := h s hs k (Finset.mem_range.1 hk)
  apply ContinuousAt.continuousWithinAt
  exact ContinuousAt.comp (f := fun s => ratio (P k) (P (k + 1)) (lerp a b s)) (g := Complex.arg)
    (Complex.continuousAt_arg (arg_ratio hoff).2)
    (ratio_continuousAt (fun e => hoff (e ▸ onLine_start _ _)))

theorem ratio_im (p q z : V2) : ∃ r : ℝ, 0 ≤ r ∧ (ratio p q z).im = r * cross p q z ∧
    (z ≠ p → 0 < r) := by
  refine ⟨(Complex.normSq (from' z p))⁻¹, inv_nonneg.2 (Complex.normSq_nonneg _), ?_, ?_⟩
  · unfold ratio
    rw [Complex.div_im, ← cross_from]
    field_simp
  · intro h
    exact inv_pos.2 (Complex.normSq_pos.2 (from_ne h.symm))

open Filter Topology in
/-- Where a straight line crosses one edge the winding number changes by one. -/
theorem wind_jump {P : ℕ → V2} {n : ℕ} (hP : P n = P 0) {a b : V2} {t0 s0 : ℝ} {j : ℕ} (hj : j < n)
    (hs0 : 0 < s0) (hs1 : s0 < 1) (hc : lerp a b t0 = lerp (P j) (P (j + 1)) s0)
    (ho : ∀ k < n, k ≠ j → ¬ OnLine (P k) (P (k + 1)) (lerp a b t0))
    {D : ℝ} (hD : D = ((P (j + 1)).x - (P j).x) * (b.y - a.y) - ((P (j + 1)).y - (P j).y) * (b.x - a.x))
    (hD0 : D ≠ 0) :
    ∃ δ > 0, ∀ t1 t2, t0 - δ < t1 → t1 < t0 → t0 < t2 → t2 < t0 + δ →
      edgesW (polyEdges P n) (lerp a b t2) =
        edgesW (polyEdges P n) (lerp a b t1) + (if 0 < D then 1 else -1) := by
  have hpi := Real.pi_pos
  set p := P j with hp
  set q := P (j + 1) with hq
  have hpq : q.x - p.x ≠ 0 ∨ q.y - p.y ≠ 0 := by
    by_contra hn
    push Not at hn
    apply hD0
    rw [hD, hn.1, hn.2]; ring
  have hne : lerp a b t0 ≠ p := by
    rw [hc]
    intro e
    have hx := congrArg V2.x e
    have hy := congrArg V2.y e
    simp only [lerp] at hx hy
    rcases hpq with h | h
    · apply h
      have : s0 * (q.x - p.x) = 0 := by linarith
      exact (mul_eq_zero.1 this).resolve_left hs0.ne'
    · apply h
      have : s0 * (q.y - p.y) = 0 := by linarith
      exact (mul_eq_zero.1 this).resolve_left hs0.ne'
  have hcross : ∀ t, cross p q (lerp a b t) = (t - t0) * D := by
    intro t
    have hx := congrArg V2.x hc
    have hy := congrArg V2.y hc
    simp only [lerp] at hx hy
    rw [hD]
    simp only [cross, lerp]
    linear_combination (q.x - p.x) * hy - (q.y - p.y) * hx
  -- the continuous part
  set S : ℝ → ℝ := fun t => (∑ k ∈ (Finset.range n).erase j, (ratio (P k) (P (k + 1)) (lerp a b t)).arg) +
    (-ratio p q (lerp a b t)).arg with hSdef
  have hslit : -ratio p q (lerp a b t0) ∈ Complex.slitPlane := by
    have e : -ratio p q (lerp a b t0) = (((1 - s0) / s0 : ℝ) : ℂ) := by
      rw [hc] at hne ⊢
      unfold ratio
      have n1 : from' (lerp p q s0) p ≠ 0 := from_ne hne.symm
      rw [← neg_div, div_eq_iff n1]
      apply Complex.ext
      · simp [from', lerp]; field_simp; ring
      · simp [from', lerp]; field_simp; ring
    rw [e]
    left
    rw [Complex.ofReal_re]
    exact div_pos (by linarith) hs0
  have hScont : ContinuousAt S t0 := by
    apply ContinuousAt.add
    · refine tendsto_finsetSum _ fun k hk => ?_
      rw [Finset.mem_erase, Finset.mem_range] at hk
      have hoff := ho k hk.2 hk.1
      exact ContinuousAt.comp (f := fun s => ratio (P k) (P (k + 1)) (lerp a b s)) (g := Complex.arg)
        (Complex.continuousAt_arg (arg_ratio hoff).2)
        (ratio_continuousAt (fun e => hoff (e ▸ onLine_start _ _)))
    · exact ContinuousAt.comp (f := fun s => -ratio p q (lerp a b s)) (g := Complex.arg)
        (Complex.continuousAt_arg hslit) (ratio_continuousAt hne).neg
  have hSnear : ∀ᶠ t in 𝓝 t0, |S t - S t0| < Real.pi / 2 := by
    have := Metric.continuousAt_iff'.1 hScont (Real.pi / 2) (by positivity)
    simpa [Real.dist_eq] using this
  have hOff : ∀ᶠ t in 𝓝 t0, ∀ k ∈ (Finset.range n).erase j, ¬ OnLine (P k) (P (k + 1)) (lerp a b t) := by
    rw [Filter.eventually_all_finset]
    intro k hk
    rw [Finset.mem_erase, Finset.mem_range] at hk
    have hcn : Continuous fun t : ℝ => ((lerp a b t).x, (lerp a b t).y) := by
      simp only [lerp]; fun_prop
    exact (hcn.tendsto t0).eventually ((onLine_closed (P k) (P (k + 1))).isOpen_compl.mem_nhds (ho k hk.2 hk.1))
  obtain ⟨δ, hδ, hball⟩ := Metric.eventually_nhds_iff.1 (hSnear.and hOff)
  refine ⟨δ, hδ, ?_⟩
  intro t1 t2 h1 h1' h2 h2'
  have hval : ∀ t, |t - t0| < δ → t ≠ t0 → 2 * Real.pi * (edgesW (polyEdges P n) (lerp a b t) : ℝ) =
      S t + (if 0 < (t - t0) * D then Real.pi else -Real.pi) := by
    intro t ht hne'
    obtain ⟨-, hoff⟩ := hball (show dist t t0 < δ by rwa [Real.dist_eq])
    have hcr := hcross t
    have hcr0 : (t - t0) * D ≠ 0 := mul_ne_zero (sub_ne_zero.2 hne') hD0
    have hoffj : ¬ OnLine p q (lerp a b t) := by
      rintro ⟨u, -, -, hu⟩
      apply hcr0
      rw [← hcr, hu]
      simp only [cross, lerp]; ring
    rw [poly_turn hP]
    · rw [← Finset.add_sum_erase _ _ (Finset.mem_range.2 hj), hSdef]
      simp only
      obtain ⟨r, hr0, hr, hrp⟩ := ratio_im p q (lerp a b t)
      have hrp := hrp (fun e => hoffj (e ▸ onLine_start _ _))
      rw [hcr] at hr
      rw [← hp, ← hq]
      by_cases hs : 0 < (t - t0) * D
      · rw [if_pos hs]
        have := Complex.arg_neg_eq_arg_sub_pi_of_im_pos (x := ratio p q (lerp a b t))
          (by rw [hr]; exact mul_pos hrp hs)
        rw [this]; ring
      · rw [if_neg hs]
        have := Complex.arg_neg_eq_arg_add_pi_of_im_neg (x := ratio p q (lerp a b t))
          (by rw [hr]; exact mul_neg_of_pos_of_neg hrp (lt_of_le_of_ne (not_lt.1 hs) hcr0))
        rw [this]; ring
    · intro k hk
      by_cases hkj : k = j
      · rw [hkj]; exact hoffj
      · exact hoff k (Finset.mem_erase.2 ⟨hkj, Finset.mem_range.2 hk⟩)
  have a1 : |t1 - t0| < δ := by rw [abs_lt]; constructor <;> linarith
  have a2 : |t2 - t0| < δ := by rw [abs_lt]; constructor <;> linarith
  have v1 := hval t1 a1 h1'.ne
  have v2 := hval t2 a2 h2.ne'
  have b1 := abs_lt.1 (hball (show dist t1 t0 < δ by rwa [Real.dist_eq])).1
  have b2 := abs_lt.1 (hball (show dist t2 t0 < δ by rwa [Real.dist_eq])).1
  have key : ∀ k : ℤ, |2 * Real.pi * (k : ℝ)| < 2 * Real.pi → k = 0 := by
    intro k hk
    rw [abs_mul, abs_of_pos (by positivity : (0:ℝ) < 2 * Real.pi)] at hk
    have : |(k : ℝ)| < 1 := by
      by_contra hn
      push Not at hn
      nlinarith
    have h3 : |k| < 1 := by exact_mod_cast this
    exact Int.abs_lt_one_iff.1 h3
  rcases lt_or_gt_of_ne hD0 with hneg | hpos
  · rw [if_neg (by linarith)]
    rw [if_pos (mul_pos_of_neg_of_neg (by linarith) hneg)] at v1
    rw [if_neg (not_lt.2 (mul_nonpos_of_nonneg_of_nonpos (by linarith) hneg.le))] at v2
    have := key (edgesW (polyEdges P n) (lerp a b t2) - edgesW (polyEdges P n) (lerp a b t1) + 1) (by
      push_cast
      rw [abs_lt]
      constructor <;> nlinarith)
    omega
  · rw [if_pos hpos]
    rw [if_neg (not_lt.2 (mul_nonpos_of_nonpos_of_nonneg (by linarith) hpos.le))] at v1
    rw [if_pos (mul_pos (by linarith) hpos)] at v2
    have := key (edgesW (polyEdges P n) (lerp a b t2) - edgesW (polyEdges P n) (lerp a b t1) - 1) (by
      push_cast
      rw [abs_lt]
      constructor <;> nlinarith)
    omega

end
end Cavc

import Verif.Proofs.WindConst

/-! A polygon that does not meet itself: on its left side the winding number is the same everywhere, on
its right side it is less by one, and there are no other points. -/
namespace Cavc
open Spec
open scoped Classical
open Filter Topology
noncomputable section

/-- A closed polygon through `P 0`, ..., `P (n - 1)`. -/
structure PolyP (P : ℕ → V2) (n : ℕ) : Prop where
  pos : 0 < n
  per : ∀ k, P (k + n) = P k
  ne : ∀ k, P k ≠ P (k + 1)

/-- The closed polygon through `P 0`, ..., `P (n - 1)` does not meet itself. -/
structure SimpleP (P : ℕ → V2) (n : ℕ) : Prop extends PolyP P n where
  apart : ∀ j k z, j < n → k < n → j ≠ k → OnLine (P j) (P (j + 1)) z → OnLine (P k) (P (k + 1)) z →
    (k = (j + 1) % n ∧ z = P k) ∨ (j = (k + 1) % n ∧ z = P j)

/-- The winding number of the polygon. -/
abbrev polyW (P : ℕ → V2) (n : ℕ) (x : V2) : ℤ := edgesW (polyEdges P n) x

/-- `x` is not on the polygon. -/
def OffP (P : ℕ → V2) (n : ℕ) (x : V2) : Prop := ∀ k < n, ¬ OnLine (P k) (P (k + 1)) x

theorem lerp_zero (a b : V2) : lerp a b 0 = a := by ext <;> simp [lerp]
theorem lerp_one (a b : V2) : lerp a b 1 = b := by ext <;> simp [lerp]

theorem cross_lerp (a b p q : V2) (t : ℝ) :
    cross a b (lerp p q t) = (1 - t) * cross a b p + t * cross a b q := by
  simp only [cross, lerp]; ring

theorem cross_onLine {a b z : V2} (h : OnLine a b z) : cross a b z = 0 := by
  obtain ⟨t, -, -, rfl⟩ := h
  simp only [cross, lerp]; ring

theorem abs_between {u v ρ t : ℝ} (hu : |u| < ρ) (hv : |v| < ρ) (h0 : 0 ≤ t) (h1 : t ≤ 1) :
    |u + t * (v - u)| < ρ := by
  rw [abs_lt] at hu hv ⊢
  rcases le_total u v with h | h
  · have q1 := mul_nonneg h0 (sub_nonneg.2 h)
    have q2 := mul_nonneg (sub_nonneg.2 h1) (sub_nonneg.2 h)
    constructor <;> nlinarith
  · have q1 := mul_nonneg h0 (sub_nonneg.2 h)
    have q2 := mul_nonneg (sub_nonneg.2 h1) (sub_nonneg.2 h)
    constructor <;> nlinarith

theorem near_lerp {ρ : ℝ} {p a b : V2} (ha : Near ρ a p) (hb : Near ρ b p) {t : ℝ} (h0 : 0 ≤ t)
    (h1 : t ≤ 1) : Near ρ (lerp a b t) p := by
  constructor
  · have : (lerp a b t).x - p.x = (a.x - p.x) + t * ((b.x - p.x) - (a.x - p.x)) := by
      simp only [lerp]; ring
    rw [this]
    exact abs_between ha.1 hb.1 h0 h1
  · have : (lerp a b t).y - p.y = (a.y - p.y) + t * ((b.y - p.y) - (a.y - p.y)) := by
      simp only [lerp]; ring
    rw [this]
    exact abs_between ha.2 hb.2 h0 h1

/-- Around a point the edges that it is not on are away. -/
theorem clear_near {P : ℕ → V2} {n : ℕ} {J : ℕ → Prop} {p : V2}
    (h : ∀ k < n, ¬ J k → ¬ OnLine (P k) (P (k + 1)) p) :
    ∃ ρ > 0, ∀ y, Near ρ y p → ∀ k < n, ¬ J k → ¬ OnLine (P k) (P (k + 1)) y := by
  have key : ∀ k ∈ Finset.range n, ∀ᶠ z : ℝ × ℝ in 𝓝 (p.x, p.y), ¬ J k →
      ¬ OnLine (P k) (P (k + 1)) ⟨z.1, z.2⟩ := by
    intro k hk
    by_cases hJ : J k
    · exact Eventually.of_forall fun z hz => absurd hJ hz
    · have := (onLine_closed (P k) (P (k + 1))).isOpen_compl.mem_nhds
        (show (p.x, p.y) ∈ {z : ℝ × ℝ | OnLine (P k) (P (k + 1)) ⟨z.1, z.2⟩}ᶜ from
          h k (Finset.mem_range.1 hk) hJ)
      filter_upwards [this] with z hz _
      exact hz
  have hall := (Filter.eventually_all_finset (Finset.range n)).2 key
  obtain ⟨ρ, hρ, hb⟩ := Metric.eventually_nhds_iff.1 hall
  refine ⟨ρ, hρ, fun y hy k hk hJ => ?_⟩
  refine hb (y := (y.x, y.y)) ?_ k (Finset.mem_range.2 hk) hJ
  rw [Prod.dist_eq, max_lt_iff, Real.dist_eq, Real.dist_eq]
  exact hy

section
variable {P : ℕ → V2} {n : ℕ}

theorem polyW_const (hP : P n = P 0) {a b : V2} (h : ∀ t, 0 ≤ t → t ≤ 1 → OffP P n (lerp a b t)) :
    polyW P n a = polyW P n b := by
  have := wind_const hP (a := a) (b := b) (S := Set.Icc 0 1) isPreconnected_Icc
    (fun t ht => h t ht.1 ht.2) (t := 0) (t' := 1) (by simp) (by simp)
  rwa [lerp_zero, lerp_one] at this

/-- `f` has the same value at two points if the segment between them does not meet the polygon. -/
def SegConst {α : Type} (P : ℕ → V2) (n : ℕ) (f : V2 → α) : Prop :=
  ∀ a b, (∀ t, 0 ≤ t → t ≤ 1 → OffP P n (lerp a b t)) → f a = f b

theorem polyW_seg (hP : P n = P 0) : SegConst P n (polyW P n) := fun _ _ h => polyW_const hP h

variable {α : Type} {f : V2 → α}

/-- Two points around `p` that are on the same side of lines beyond which the edges around `p` are. -/
theorem side_const (hf : SegConst P n f) {J : ℕ → Prop} {p : V2} {ρ : ℝ}
    (hcl : ∀ y, Near ρ y p → ∀ k < n, ¬ J k → ¬ OnLine (P k) (P (k + 1)) y) {σ : ℝ} {a b : V2}
    (hJ : ∀ k < n, J k → ∃ q r, (∀ z, OnLine (P k) (P (k + 1)) z → σ * cross q r z ≤ 0) ∧
      0 < σ * cross q r a ∧ 0 < σ * cross q r b)
    (ha : Near ρ a p) (hb : Near ρ b p) : f a = f b := by
  refine hf _ _ fun t h0 h1 k hk ho => ?_
  by_cases hk' : J k
  · obtain ⟨q, r, hq, ha', hb'⟩ := hJ k hk hk'
    have := hq _ ho
    rw [cross_lerp] at this
    rcases h0.eq_or_lt with rfl | h0
    · nlinarith
    · nlinarith [mul_pos h0 hb', mul_nonneg (sub_nonneg.2 h1) ha'.le]
  · exact hcl _ (near_lerp ha hb h0 h1) k hk hk' ho

/-- The points to the left (`σ` is 1) or right (`σ` is -1) of edge `j` at parameter `s`. -/
def SideOf {α : Type} (P : ℕ → V2) (f : V2 → α) (σ : ℝ) (j : ℕ) (s : ℝ) (K : α) : Prop :=
  ∃ ρ > 0, ∀ y, Near ρ y (lerp (P j) (P (j + 1)) s) → 0 < σ * cross (P j) (P (j + 1)) y → f y = K

/-- The winding number to the left or right of edge `j`. -/
abbrev SideVal (P : ℕ → V2) (n : ℕ) (σ : ℝ) (j : ℕ) (s : ℝ) (K : ℤ) : Prop := SideOf P (polyW P n) σ j s K

/-- The normal to the left. -/
def normalAt (a b z : V2) (t : ℝ) : V2 := ⟨z.x - t * (b.y - a.y), z.y + t * (b.x - a.x)⟩

theorem cross_normalAt {a b z : V2} (hz : cross a b z = 0) (t : ℝ) :
    cross a b (normalAt a b z t) = t * dist2 a b := by
  have : cross a b (normalAt a b z t) = cross a b z + t * dist2 a b := by
    simp only [cross, normalAt, dist2]; ring
  rw [this, hz, zero_add]

theorem near_normalAt (a b z : V2) {ρ : ℝ} (hρ : 0 < ρ) :
    ∃ δ > 0, ∀ t, |t| < δ → Near ρ (normalAt a b z t) z := by
  set M := |b.x - a.x| + |b.y - a.y| + 1 with hM
  have hM0 : 0 < M := by positivity
  refine ⟨ρ / M, by positivity, fun t ht => ?_⟩
  have h1 : |t| * M < ρ := by rwa [lt_div_iff₀ hM0] at ht
  have hx := abs_nonneg (b.x - a.x)
  have hy := abs_nonneg (b.y - a.y)
  have ht0 := abs_nonneg t
  constructor
  · have : (normalAt a b z t).x - z.x = - (t * (b.y - a.y)) := by simp only [normalAt]; ring
    rw [this, abs_neg, abs_mul]
    nlinarith
  · have : (normalAt a b z t).y - z.y = t * (b.x - a.x) := by simp only [normalAt]; ring
    rw [this, abs_mul]
    nlinarith

theorem near_self {ρ : ℝ} (h : 0 < ρ) (z : V2) : Near ρ z z := by
  constructor <;> simpa using h

theorem PolyP.closed (hs : PolyP P n) : P n = P 0 := by simpa using hs.per 0

theorem PolyP.two (hs : PolyP P n) : 2 ≤ n := by
  have := hs.pos
  by_contra hn
  have h1 : n = 1 := by omega
  have := hs.ne 0
  have h2 := hs.per 0
  rw [h1] at h2
  exact this h2.symm

theorem PolyP.next (hs : PolyP P n) {j : ℕ} (hj : j < n) : (j + 1) % n < n ∧ (j + 1) % n ≠ j ∧
    P ((j + 1) % n) = P (j + 1) ∧ P ((j + 1) % n + 1) = P (j + 2) := by
  have h2 := hs.two
  rcases Nat.lt_or_ge (j + 1) n with hc | hc
  · rw [Nat.mod_eq_of_lt hc]
    exact ⟨hc, by omega, rfl, rfl⟩
  · have e : j + 1 = n := by omega
    rw [show (j + 1) % n = 0 by rw [e, Nat.mod_self]]
    refine ⟨by omega, by omega, ?_, ?_⟩
    · rw [e, hs.closed]
    · have := hs.per 1
      rw [show j + 2 = 1 + n by omega, this]

variable (hs : SimpleP P n)
include hs

/-- An inner point of an edge is on no other edge. -/
theorem SimpleP.inner {j : ℕ} (hj : j < n) {s : ℝ} (h0 : 0 < s) (h1 : s < 1) {k : ℕ} (hk : k < n)
    (hne : k ≠ j) : ¬ OnLine (P k) (P (k + 1)) (lerp (P j) (P (j + 1)) s) := by
  intro ho
  have hd := hs.ne j
  rcases hs.apart j k _ hj hk (fun h => hne h.symm) ⟨s, h0.le, h1.le, rfl⟩ ho with ⟨e, h⟩ | ⟨e, h⟩
  · have hPk : P k = P (j + 1) := by
      rcases Nat.lt_or_ge (j + 1) n with hc | hc
      · rw [e, Nat.mod_eq_of_lt hc]
      · have : j + 1 = n := by omega
        rw [e, this, Nat.mod_self, hs.closed]
    rw [hPk] at h
    apply hd
    have ex := congrArg V2.x h
    have ey := congrArg V2.y h
    simp only [lerp] at ex ey
    ext
    · have : (1 - s) * ((P (j + 1)).x - (P j).x) = 0 := by linarith
      rcases mul_eq_zero.1 this with q | q <;> linarith
    · have : (1 - s) * ((P (j + 1)).y - (P j).y) = 0 := by linarith
      rcases mul_eq_zero.1 this with q | q <;> linarith
  · apply hd
    have ex := congrArg V2.x h
    have ey := congrArg V2.y h
    simp only [lerp] at ex ey
    ext
    · have : s * ((P (j + 1)).x - (P j).x) = 0 := by linarith
      rcases mul_eq_zero.1 this with q | q <;> linarith
    · have : s * ((P (j + 1)).y - (P j).y) = 0 := by linarith
      rcases mul_eq_zero.1 this with q | q <;> linarith

/-- Around an inner point of an edge each side has one winding number. -/
theorem SimpleP.sideVal (hf : SegConst P n f) {σ : ℝ} (hσ : σ = 1 ∨ σ = -1) {j : ℕ} (hj : j < n) {s : ℝ} (h0 : 0 < s)
    (h1 : s < 1) : ∃ K, ∀ᶠ s' in 𝓝 s, SideOf P f σ j s' K := by
  obtain ⟨ρ, hρ, hcl⟩ := clear_near (P := P) (n := n) (J := fun k => k = j) (fun k hk hne => hs.inner hj h0 h1 hk hne)
  set z := lerp (P j) (P (j + 1)) s with hz
  have hz0 : cross (P j) (P (j + 1)) z = 0 := cross_onLine ⟨s, h0.le, h1.le, rfl⟩
  obtain ⟨δ, hδ, hnear⟩ := near_normalAt (P j) (P (j + 1)) z hρ
  have hd := dist2_pos (hs.ne j)
  have hσ2 : σ * σ = 1 := by rcases hσ with rfl | rfl <;> norm_num
  have hσa : |σ| = 1 := by rcases hσ with rfl | rfl <;> norm_num
  have hy0 : 0 < σ * cross (P j) (P (j + 1)) (normalAt (P j) (P (j + 1)) z (σ * (δ / 2))) := by
    rw [cross_normalAt hz0]
    have : σ * (σ * (δ / 2) * dist2 (P j) (P (j + 1))) = (σ * σ) * (δ / 2 * dist2 (P j) (P (j + 1))) := by ring
    rw [this, hσ2]; positivity
  have hyn := hnear (σ * (δ / 2)) (by rw [abs_mul, hσa, one_mul, abs_of_pos (by linarith)]; linarith)
  refine ⟨f (normalAt (P j) (P (j + 1)) z (σ * (δ / 2))), ?_⟩
  have hev : ∀ᶠ s' in 𝓝 s, Near (ρ / 2) (lerp (P j) (P (j + 1)) s') z := by
    have c1 : Continuous fun s' : ℝ => |(lerp (P j) (P (j + 1)) s').x - z.x| := by
      unfold lerp; fun_prop
    have c2 : Continuous fun s' : ℝ => |(lerp (P j) (P (j + 1)) s').y - z.y| := by
      unfold lerp; fun_prop
    have e1 := (c1.tendsto s).eventually (gt_mem_nhds (show |(lerp (P j) (P (j + 1)) s).x - z.x| < ρ / 2 by
      rw [← hz]; simpa using hρ))
    have e2 := (c2.tendsto s).eventually (gt_mem_nhds (show |(lerp (P j) (P (j + 1)) s).y - z.y| < ρ / 2 by
      rw [← hz]; simpa using hρ))
    filter_upwards [e1, e2] with s' q1 q2
    exact ⟨q1, q2⟩
  filter_upwards [hev] with s' hs'
  refine ⟨ρ / 2, by linarith, fun y hy hc => ?_⟩
  refine side_const hf hcl (σ := σ) ?_ ?_ hyn
  · rintro k - rfl
    exact ⟨_, _, fun w hw => by rw [cross_onLine hw, mul_zero], hc, hy0⟩
  · obtain ⟨a1, a2⟩ := hs'
    obtain ⟨b1, b2⟩ := hy
    constructor
    · calc |y.x - z.x| ≤ |y.x - (lerp (P j) (P (j + 1)) s').x| + |(lerp (P j) (P (j + 1)) s').x - z.x| :=
            abs_sub_le _ _ _
        _ < ρ := by linarith
    · calc |y.y - z.y| ≤ |y.y - (lerp (P j) (P (j + 1)) s').y| + |(lerp (P j) (P (j + 1)) s').y - z.y| :=
            abs_sub_le _ _ _
        _ < ρ := by linarith

theorem SimpleP.sideVal_unique {σ : ℝ} (hσ : σ = 1 ∨ σ = -1) {j : ℕ} {s : ℝ} {K K' : α}
    (h : SideOf P f σ j s K) (h' : SideOf P f σ j s K') : K = K' := by
  obtain ⟨ρ, hρ, h⟩ := h
  obtain ⟨ρ', hρ', h'⟩ := h'
  set z := lerp (P j) (P (j + 1)) s with hz
  have hz0 : cross (P j) (P (j + 1)) z = 0 := by rw [hz]; simp only [cross, lerp]; ring
  obtain ⟨δ, hδ, hnear⟩ := near_normalAt (P j) (P (j + 1)) z (lt_min hρ hρ')
  have hd := dist2_pos (hs.ne j)
  have hσ2 : σ * σ = 1 := by rcases hσ with rfl | rfl <;> norm_num
  have hσa : |σ| = 1 := by rcases hσ with rfl | rfl <;> norm_num
  have hy0 : 0 < σ * cross (P j) (P (j + 1)) (normalAt (P j) (P (j + 1)) z (σ * (δ / 2))) := by
    rw [cross_normalAt hz0]
    have : σ * (σ * (δ / 2) * dist2 (P j) (P (j + 1))) = (σ * σ) * (δ / 2 * dist2 (P j) (P (j + 1))) := by ring
    rw [this, hσ2]; positivity
  have hyn := hnear (σ * (δ / 2)) (by rw [abs_mul, hσa, one_mul, abs_of_pos (by linarith)]; linarith)
  rw [← h _ ⟨hyn.1.trans_le (min_le_left _ _), hyn.2.trans_le (min_le_left _ _)⟩ hy0,
    ← h' _ ⟨hyn.1.trans_le (min_le_right _ _), hyn.2.trans_le (min_le_right _ _)⟩ hy0]

/-- Each side of an edge has one winding number. -/
theorem SimpleP.edge [TopologicalSpace α] [DiscreteTopology α] (hf : SegConst P n f) {σ : ℝ} (hσ : σ = 1 ∨ σ = -1) {j : ℕ} (hj : j < n) :
    ∃ K, ∀ s, 0 < s → s < 1 → SideOf P f σ j s K := by
  have hex : ∀ s, ∃ K, 0 < s → s < 1 → SideOf P f σ j s K := by
    intro s
    by_cases h : 0 < s ∧ s < 1
    · obtain ⟨K, hK⟩ := hs.sideVal hf hσ hj h.1 h.2
      exact ⟨K, fun _ _ => hK.self_of_nhds⟩
    · exact ⟨f (P 0), fun a b => absurd ⟨a, b⟩ h⟩
  choose L hL using hex
  refine ⟨L (1 / 2), fun s h0 h1 => ?_⟩
  have hc : ContinuousOn L (Set.Ioo 0 1) := by
    intro t ht
    obtain ⟨K, hK⟩ := hs.sideVal hf hσ hj ht.1 ht.2
    have hKt : K = L t := hs.sideVal_unique hσ hK.self_of_nhds (hL t ht.1 ht.2)
    refine ContinuousWithinAt.congr_of_eventuallyEq (continuousWithinAt_const (b := L t)) ?_ rfl
    filter_upwards [self_mem_nhdsWithin, nhdsWithin_le_nhds hK] with t' ht' hK'
    rw [← hKt]
    exact hs.sideVal_unique hσ (hL t' ht'.1 ht'.2) hK'
  have := isPreconnected_Ioo.constant hc (x := s) (y := 1 / 2) ⟨h0, h1⟩ (by norm_num)
  rw [← this]
  exact hL s h0 h1

/-- On the left of an edge the winding number is one more than on the right. -/
theorem SimpleP.jump {j : ℕ} (hj : j < n) {s : ℝ} (h0 : 0 < s) (h1 : s < 1) {K K' : ℤ}
    (h : SideVal P n 1 j s K) (h' : SideVal P n (-1) j s K') : K = K' + 1 := by
  set z := lerp (P j) (P (j + 1)) s with hz
  have hz0 : cross (P j) (P (j + 1)) z = 0 := by rw [hz]; simp only [cross, lerp]; ring
  have hd := dist2_pos (hs.ne j)
  have e0 : ∀ t, lerp z (normalAt (P j) (P (j + 1)) z 1) t = normalAt (P j) (P (j + 1)) z t := by
    intro t; ext <;> simp only [lerp, normalAt] <;> ring
  obtain ⟨δ, hδ, hj'⟩ := wind_jump hs.closed (a := z) (b := normalAt (P j) (P (j + 1)) z 1) (t0 := 0)
    (s0 := s) hj h0 h1 (by rw [lerp_zero]) (fun k hk hne => by
      rw [lerp_zero]; exact hs.inner hj h0 h1 hk hne) (D := dist2 (P j) (P (j + 1))) (by
      simp only [normalAt, dist2]; ring) hd.ne'
  rw [if_pos hd] at hj'
  obtain ⟨ρ, hρ, h⟩ := h
  obtain ⟨ρ', hρ', h'⟩ := h'
  obtain ⟨η, hη, hnear⟩ := near_normalAt (P j) (P (j + 1)) z (lt_min hρ hρ')
  set t := min δ η / 2 with ht
  have htp : 0 < t := by have := lt_min hδ hη; rw [ht]; linarith
  have htd : t < δ := by have := min_le_left δ η; rw [ht]; linarith [lt_min hδ hη]
  have hte : t < η := by have := min_le_right δ η; rw [ht]; linarith [lt_min hδ hη]
  have n1 := hnear t (by rw [abs_of_pos htp]; exact hte)
  have n2 := hnear (-t) (by rw [abs_neg, abs_of_pos htp]; exact hte)
  have r1 := h _ ⟨n1.1.trans_le (min_le_left _ _), n1.2.trans_le (min_le_left _ _)⟩
    (by rw [cross_normalAt hz0]; positivity)
  have r2 := h' _ ⟨n2.1.trans_le (min_le_right _ _), n2.2.trans_le (min_le_right _ _)⟩
    (by rw [cross_normalAt hz0]
        have : 0 < t * dist2 (P j) (P (j + 1)) := by positivity
        linarith)
  have := hj' (-t) t (by linarith) (by linarith) (by linarith) (by linarith)
  rw [e0, e0] at this
  rw [← r1, ← r2]
  exact this

omit hs in
theorem near_trans {ρ ρ' : ℝ} {a b c : V2} (h : Near ρ a b) (h' : Near ρ' b c) : Near (ρ + ρ') a c :=
  ⟨lt_of_le_of_lt (abs_sub_le _ _ _) (add_lt_add h.1 h'.1),
    lt_of_le_of_lt (abs_sub_le _ _ _) (add_lt_add h.2 h'.2)⟩

omit hs in
/-- A point beside `z`, strictly on one side of the line through it, and on the side of a second line
on which `z` is. -/
theorem exists_beside {a b z : V2} (hab : a ≠ b) (hz : cross a b z = 0) {σ ρ : ℝ} (hσ : σ = 1 ∨ σ = -1)
    (hρ : 0 < ρ) (q r : V2) : ∃ y, Near ρ y z ∧ 0 < σ * cross a b y ∧
      (0 < σ * cross q r z → 0 < σ * cross q r y) := by
  obtain ⟨δ, hδ, hnear⟩ := near_normalAt a b z hρ
  have hσ2 : σ * σ = 1 := by rcases hσ with rfl | rfl <;> norm_num
  have hσa : |σ| = 1 := by rcases hσ with rfl | rfl <;> norm_num
  have hd := dist2_pos hab
  have hc : Continuous fun t : ℝ => σ * cross q r (normalAt a b z (σ * t)) := by
    unfold cross normalAt; fun_prop
  have e0 : normalAt a b z (σ * 0) = z := by ext <;> simp [normalAt]
  have hev : ∀ᶠ t : ℝ in 𝓝[>] 0, (0 < σ * cross q r z → 0 < σ * cross q r (normalAt a b z (σ * t))) := by
    by_cases h : 0 < σ * cross q r z
    · have := (hc.tendsto 0).eventually (lt_mem_nhds (a := 0) (by rw [e0]; exact h))
      have h' : ∀ᶠ t : ℝ in 𝓝[>] 0, 0 < σ * cross q r (normalAt a b z (σ * t)) := nhdsWithin_le_nhds this
      exact h'.mono fun t ht _ => ht
    · exact Eventually.of_forall fun t h' => absurd h' h
  have hsm : ∀ᶠ t : ℝ in 𝓝[>] 0, t < δ := nhdsWithin_le_nhds (gt_mem_nhds hδ)
  have hpos : ∀ᶠ t : ℝ in 𝓝[>] 0, 0 < t := eventually_mem_nhdsWithin
  obtain ⟨t, h1, h2, h3⟩ := (hev.and (hsm.and hpos)).exists
  refine ⟨normalAt a b z (σ * t), hnear _ ?_, ?_, h1⟩
  · rw [abs_mul, hσa, one_mul, abs_of_pos h3]; exact h2
  · rw [cross_normalAt hz]
    have : σ * (σ * t * dist2 a b) = (σ * σ) * (t * dist2 a b) := by ring
    rw [this, hσ2]; positivity

/-- Around the end of edge `j` only the edges `j` and the next one are near. -/
theorem SimpleP.corner {j : ℕ} (hj : j < n) : ∃ ρ > 0, ∀ y, Near ρ y (P (j + 1)) → ∀ k < n,
    ¬ (k = j ∨ k = (j + 1) % n) → ¬ OnLine (P k) (P (k + 1)) y := by
  apply clear_near
  intro k hk hne ho
  obtain ⟨n1, n2, n3, n4⟩ := hs.next hj
  rcases hs.apart j k _ hj hk (fun h => hne (Or.inl h.symm)) (onLine_end _ _) ho with ⟨e, -⟩ | ⟨-, h⟩
  · exact hne (Or.inr e)
  · exact hs.ne j h.symm

/-- Where the line of edge `j` is left at its end. -/
def bend (P : ℕ → V2) (j : ℕ) : ℝ := cross (P j) (P (j + 1)) (P (j + 2))

omit hs in
theorem corner_on_next {j : ℕ} {z : V2} (h : OnLine (P (j + 1)) (P (j + 2)) z) :
    ∃ t, 0 ≤ t ∧ t ≤ 1 ∧ cross (P j) (P (j + 1)) z = t * bend P j := by
  obtain ⟨t, h0, h1, rfl⟩ := h
  refine ⟨t, h0, h1, ?_⟩
  simp only [bend, cross, lerp]; ring

omit hs in
theorem corner_on_prev {j : ℕ} {z : V2} (h : OnLine (P j) (P (j + 1)) z) :
    ∃ t, 0 ≤ t ∧ t ≤ 1 ∧ cross (P (j + 1)) (P (j + 2)) z = t * bend P j := by
  obtain ⟨t, h0, h1, rfl⟩ := h
  refine ⟨1 - t, by linarith, by linarith, ?_⟩
  simp only [bend, cross, lerp]; ring

omit hs in
theorem near_lerp_end (a b : V2) {ρ : ℝ} (hρ : 0 < ρ) : ∃ s, 0 < s ∧ s < 1 ∧ Near ρ (lerp a b s) b := by
  set M := |b.x - a.x| + |b.y - a.y| + 1 with hM
  have hx := abs_nonneg (b.x - a.x)
  have hy := abs_nonneg (b.y - a.y)
  have hM0 : 0 < M := by positivity
  set e := min (1 / 2) (ρ / M / 2) with he
  have e0 : 0 < e := by rw [he]; positivity
  have e1 : e ≤ 1 / 2 := min_le_left _ _
  have e2 : e * M < ρ := by
    have : e ≤ ρ / M / 2 := min_le_right _ _
    have h3 : ρ / M / 2 < ρ / M := by have : 0 < ρ / M := by positivity
                                      linarith
    exact (lt_div_iff₀ hM0).1 (lt_of_le_of_lt this h3)
  refine ⟨1 - e, by linarith, by linarith, ?_, ?_⟩
  · have : (lerp a b (1 - e)).x - b.x = - (e * (b.x - a.x)) := by simp only [lerp]; ring
    rw [this, abs_neg, abs_mul, abs_of_pos e0]
    nlinarith
  · have : (lerp a b (1 - e)).y - b.y = - (e * (b.y - a.y)) := by simp only [lerp]; ring
    rw [this, abs_neg, abs_mul, abs_of_pos e0]
    nlinarith

omit hs in
theorem near_lerp_start (a b : V2) {ρ : ℝ} (hρ : 0 < ρ) : ∃ s, 0 < s ∧ s < 1 ∧ Near ρ (lerp a b s) a := by
  obtain ⟨s, h0, h1, h⟩ := near_lerp_end b a hρ
  refine ⟨1 - s, by linarith, by linarith, ?_⟩
  have : lerp a b (1 - s) = lerp b a s := by ext <;> simp only [lerp] <;> ring
  rwa [this]

/-- Around a corner, a point on the side of an edge on which the edges do not bend has the value of that
side; so has a point that is on the same side of both edges if they bend to that side. -/
theorem SimpleP.around (hf : SegConst P n f) {σ : ℝ} (hσ : σ = 1 ∨ σ = -1) {j : ℕ} (hj : j < n) {K K' : α}
    (hK : ∀ s, 0 < s → s < 1 → SideOf P f σ j s K)
    (hK' : ∀ s, 0 < s → s < 1 → SideOf P f σ ((j + 1) % n) s K') :
    ∃ ρ > 0, ∀ y, Near ρ y (P (j + 1)) →
      (σ * bend P j ≤ 0 → (0 < σ * cross (P j) (P (j + 1)) y → f y = K) ∧
        (0 < σ * cross (P (j + 1)) (P (j + 2)) y → f y = K')) ∧
      (0 < σ * bend P j → 0 < σ * cross (P j) (P (j + 1)) y →
        0 < σ * cross (P (j + 1)) (P (j + 2)) y → f y = K ∧ f y = K') := by
  obtain ⟨n1, n2, n3, n4⟩ := hs.next hj
  obtain ⟨ρ, hρ, hcl⟩ := hs.corner hj
  obtain ⟨s, s0, s1, hsn⟩ := near_lerp_end (P j) (P (j + 1)) (half_pos hρ)
  obtain ⟨s', s0', s1', hsn'⟩ := near_lerp_start (P (j + 1)) (P (j + 2)) (half_pos hρ)
  obtain ⟨r1, hr1, hv⟩ := hK s s0 s1
  obtain ⟨r2, hr2, hv'⟩ := hK' s' s0' s1'
  rw [n3, n4] at hv'
  have z0 : cross (P j) (P (j + 1)) (lerp (P j) (P (j + 1)) s) = 0 := cross_onLine ⟨s, s0.le, s1.le, rfl⟩
  have z0' : cross (P (j + 1)) (P (j + 2)) (lerp (P (j + 1)) (P (j + 2)) s') = 0 :=
    cross_onLine ⟨s', s0'.le, s1'.le, rfl⟩
  have z1 : cross (P (j + 1)) (P (j + 2)) (lerp (P j) (P (j + 1)) s) = (1 - s) * bend P j := by
    simp only [bend, cross, lerp]; ring
  have z1' : cross (P j) (P (j + 1)) (lerp (P (j + 1)) (P (j + 2)) s') = s' * bend P j := by
    simp only [bend, cross, lerp]; ring
  obtain ⟨a, ha, ha1, ha2⟩ := exists_beside (hs.ne j) z0 hσ (lt_min hr1 (half_pos hρ)) (P (j + 1)) (P (j + 2))
  obtain ⟨b, hb, hb1, hb2⟩ := exists_beside (hs.ne (j + 1)) z0' hσ (lt_min hr2 (half_pos hρ)) (P j) (P (j + 1))
  have na : Near ρ a (P (j + 1)) := by
    have := near_trans (ρ := ρ / 2) (ρ' := ρ / 2)
      ⟨ha.1.trans_le (min_le_right _ _), ha.2.trans_le (min_le_right _ _)⟩ hsn
    rwa [add_halves] at this
  have nb : Near ρ b (P (j + 1)) := by
    have := near_trans (ρ := ρ / 2) (ρ' := ρ / 2)
      ⟨hb.1.trans_le (min_le_right _ _), hb.2.trans_le (min_le_right _ _)⟩ hsn'
    rwa [add_halves] at this
  have wa := hv a ⟨ha.1.trans_le (min_le_left _ _), ha.2.trans_le (min_le_left _ _)⟩ ha1
  have wb := hv' b ⟨hb.1.trans_le (min_le_left _ _), hb.2.trans_le (min_le_left _ _)⟩ hb1
  have on0 : ∀ z, OnLine (P j) (P (j + 1)) z → σ * cross (P j) (P (j + 1)) z ≤ 0 := fun z hz => by
    rw [cross_onLine hz, mul_zero]
  have on1 : ∀ z, OnLine (P (j + 1)) (P (j + 2)) z → σ * cross (P (j + 1)) (P (j + 2)) z ≤ 0 := fun z hz => by
    rw [cross_onLine hz, mul_zero]
  refine ⟨ρ, hρ, fun y hy => ⟨fun hC => ⟨fun h => ?_, fun h => ?_⟩, fun hC h h' => ?_⟩⟩
  · rw [← wa]
    refine side_const hf hcl (σ := σ) ?_ hy na
    rintro k hk (rfl | rfl)
    · exact ⟨_, _, on0, h, ha1⟩
    · rw [n3, n4]
      refine ⟨_, _, fun z hz => ?_, h, ha1⟩
      obtain ⟨t, t0, -, e⟩ := corner_on_next hz
      rw [e]
      have : σ * (t * bend P j) = t * (σ * bend P j) := by ring
      rw [this]
      exact mul_nonpos_of_nonneg_of_nonpos t0 hC
  · rw [← wb]
    refine side_const hf hcl (σ := σ) ?_ hy nb
    rintro k hk (rfl | rfl)
    · refine ⟨_, _, fun z hz => ?_, h, hb1⟩
      obtain ⟨t, t0, -, e⟩ := corner_on_prev hz
      rw [e]
      have : σ * (t * bend P k) = t * (σ * bend P k) := by ring
      rw [this]
      exact mul_nonpos_of_nonneg_of_nonpos t0 hC
    · rw [n3, n4]
      exact ⟨_, _, on1, h, hb1⟩
  · have ha2' := ha2 (by
      rw [z1]
      have : σ * ((1 - s) * bend P j) = (1 - s) * (σ * bend P j) := by ring
      rw [this]; exact mul_pos (by linarith) hC)
    have hb2' := hb2 (by
      rw [z1']
      have : σ * (s' * bend P j) = s' * (σ * bend P j) := by ring
      rw [this]; exact mul_pos s0' hC)
    constructor
    · rw [← wa]
      refine side_const hf hcl (σ := σ) ?_ hy na
      rintro k hk (rfl | rfl)
      · exact ⟨_, _, on0, h, ha1⟩
      · rw [n3, n4]
        exact ⟨_, _, on1, h', ha2'⟩
    · rw [← wb]
      refine side_const hf hcl (σ := σ) ?_ hy nb
      rintro k hk (rfl | rfl)
      · exact ⟨_, _, on0, h, hb2'⟩
      · rw [n3, n4]
        exact ⟨_, _, on1, h', hb1⟩

/-- The directions of the edges before and after a corner. -/
def along (P : ℕ → V2) (j : ℕ) : ℝ :=
  ((P (j + 1)).x - (P j).x) * ((P (j + 2)).x - (P (j + 1)).x) +
    ((P (j + 1)).y - (P j).y) * ((P (j + 2)).y - (P (j + 1)).y)

/-- An edge does not go back along the edge before it. -/
theorem SimpleP.forward {j : ℕ} (hj : j < n) (h : bend P j = 0) : 0 < along P j := by
  obtain ⟨n1, n2, n3, n4⟩ := hs.next hj
  by_contra hn
  rw [not_lt] at hn
  have d1 := dist2_pos (hs.ne j)
  have d2 := dist2_pos (hs.ne (j + 1))
  -- a point of both edges other than the corner
  set A := dist2 (P j) (P (j + 1)) with hA
  set B := dist2 (P (j + 1)) (P (j + 2)) with hB
  have hsq : along P j ^ 2 = A * B - bend P j ^ 2 := by
    rw [hA, hB]; simp only [along, bend, cross, dist2]; ring
  rw [h] at hsq
  have hAB : 0 < A * B := mul_pos d1 d2
  have hlt : along P j < 0 := by
    rcases hn.lt_or_eq with h1 | h1
    · exact h1
    · rw [h1] at hsq; nlinarith
  -- the second direction is `along / A` times the first
  have e1 : A * ((P (j + 2)).x - (P (j + 1)).x) = along P j * ((P (j + 1)).x - (P j).x) := by
    have : A * ((P (j + 2)).x - (P (j + 1)).x) - along P j * ((P (j + 1)).x - (P j).x) =
        - bend P j * ((P (j + 1)).y - (P j).y) := by
      rw [hA]; simp only [along, bend, cross, dist2]; ring
    rw [h] at this; linarith
  have e2 : A * ((P (j + 2)).y - (P (j + 1)).y) = along P j * ((P (j + 1)).y - (P j).y) := by
    have : A * ((P (j + 2)).y - (P (j + 1)).y) - along P j * ((P (j + 1)).y - (P j).y) =
        bend P j * ((P (j + 1)).x - (P j).x) := by
      rw [hA]; simp only [along, bend, cross, dist2]; ring
    rw [h] at this; linarith
  set c := - along P j / A with hc
  have hc0 : 0 < c := by rw [hc]; exact div_pos (by linarith) d1
  set t := min 1 (1 / c) with ht
  have t0 : 0 < t := by rw [ht]; positivity
  have t1 : t ≤ 1 := min_le_left _ _
  have tc : t * c ≤ 1 := by
    have : t ≤ 1 / c := min_le_right _ _
    rwa [le_div_iff₀ hc0] at this
  have hcA : c * A = - along P j := by rw [hc]; field_simp
  have x1 : (P (j + 2)).x - (P (j + 1)).x = - c * ((P (j + 1)).x - (P j).x) := by
    have : A * ((P (j + 2)).x - (P (j + 1)).x) = A * (- c * ((P (j + 1)).x - (P j).x)) := by
      rw [e1]; linear_combination ((P (j + 1)).x - (P j).x) * hcA
    exact mul_left_cancel₀ d1.ne' this
  have y1 : (P (j + 2)).y - (P (j + 1)).y = - c * ((P (j + 1)).y - (P j).y) := by
    have : A * ((P (j + 2)).y - (P (j + 1)).y) = A * (- c * ((P (j + 1)).y - (P j).y)) := by
      rw [e2]; linear_combination ((P (j + 1)).y - (P j).y) * hcA
    exact mul_left_cancel₀ d1.ne' this
  have same : lerp (P (j + 1)) (P (j + 2)) t = lerp (P j) (P (j + 1)) (1 - t * c) := by
    ext
    · simp only [lerp]; rw [x1]; ring
    · simp only [lerp]; rw [y1]; ring
  have o1 : OnLine (P j) (P (j + 1)) (lerp (P (j + 1)) (P (j + 2)) t) :=
    ⟨1 - t * c, by linarith, by nlinarith, same⟩
  have o2 : OnLine (P ((j + 1) % n)) (P ((j + 1) % n + 1)) (lerp (P (j + 1)) (P (j + 2)) t) := by
    rw [n3, n4]; exact ⟨t, t0.le, t1, rfl⟩
  have hne := hs.ne (j + 1)
  rcases hs.apart j _ _ hj n1 n2.symm o1 o2 with ⟨-, q⟩ | ⟨q0, q⟩
  · rw [n3] at q
    apply hne
    have ex := congrArg V2.x q
    have ey := congrArg V2.y q
    simp only [lerp] at ex ey
    ext
    · have : t * ((P (j + 2)).x - (P (j + 1)).x) = 0 := by linarith
      rcases mul_eq_zero.1 this with r | r <;> linarith
    · have : t * ((P (j + 2)).y - (P (j + 1)).y) = 0 := by linarith
      rcases mul_eq_zero.1 this with r | r <;> linarith
  · -- two edges back and forth: a middle point is on both
    have hPj : P (j + 2) = P j := by
      have h3 := (hs.next n1).2.2.1
      rw [← q0, n4] at h3
      exact h3.symm
    have o3 : OnLine (P j) (P (j + 1)) (lerp (P j) (P (j + 1)) (1 / 2)) := ⟨1 / 2, by norm_num, by norm_num, rfl⟩
    have o4 : OnLine (P ((j + 1) % n)) (P ((j + 1) % n + 1)) (lerp (P j) (P (j + 1)) (1 / 2)) := by
      rw [n3, n4, hPj]
      refine ⟨1 / 2, by norm_num, by norm_num, ?_⟩
      ext <;> simp only [lerp] <;> ring
    exact hs.inner hj (by norm_num) (by norm_num) n1 n2 o4

/-- The winding number on one side is the same before and after a corner. -/
theorem SimpleP.same (hf : SegConst P n f) {σ : ℝ} (hσ : σ = 1 ∨ σ = -1) {j : ℕ} (hj : j < n) {K K' : α}
    (hK : ∀ s, 0 < s → s < 1 → SideOf P f σ j s K)
    (hK' : ∀ s, 0 < s → s < 1 → SideOf P f σ ((j + 1) % n) s K') : K = K' := by
  obtain ⟨ρ, hρ, h⟩ := hs.around hf hσ hj hK hK'
  have hσ2 : σ * σ = 1 := by rcases hσ with rfl | rfl <;> norm_num
  have hσa : |σ| = 1 := by rcases hσ with rfl | rfl <;> norm_num
  rcases lt_trichotomy (σ * bend P j) 0 with hC | hC | hC
  · -- the point beyond the corner
    set u : V2 := ⟨(P (j + 1)).x + ((P (j + 1)).x - (P j).x) - ((P (j + 2)).x - (P (j + 1)).x),
      (P (j + 1)).y + ((P (j + 1)).y - (P j).y) - ((P (j + 2)).y - (P (j + 1)).y)⟩ with hu
    obtain ⟨s, s0, s1, hn⟩ := near_lerp_start (P (j + 1)) u hρ
    have c1 : cross (P j) (P (j + 1)) (lerp (P (j + 1)) u s) = - (s * bend P j) := by
      rw [hu]; simp only [bend, cross, lerp]; ring
    have c2 : cross (P (j + 1)) (P (j + 2)) (lerp (P (j + 1)) u s) = - (s * bend P j) := by
      rw [hu]; simp only [bend, cross, lerp]; ring
    have hp : 0 < σ * (- (s * bend P j)) := by
      have : σ * (- (s * bend P j)) = s * (-(σ * bend P j)) := by ring
      rw [this]; exact mul_pos s0 (by linarith)
    obtain ⟨q1, q2⟩ := (h _ hn).1 hC.le
    rw [← q1 (by rw [c1]; exact hp), ← q2 (by rw [c2]; exact hp)]
  · have hb : bend P j = 0 := by
      rcases hσ with rfl | rfl <;> linarith
    have ha := hs.forward hj hb
    obtain ⟨δ, hδ, hn⟩ := near_normalAt (P j) (P (j + 1)) (P (j + 1)) hρ
    have hn' := hn (σ * (δ / 2)) (by rw [abs_mul, hσa, one_mul, abs_of_pos (by linarith)]; linarith)
    have hz : cross (P j) (P (j + 1)) (P (j + 1)) = 0 := cross_onLine (onLine_end _ _)
    have c2 : cross (P (j + 1)) (P (j + 2)) (normalAt (P j) (P (j + 1)) (P (j + 1)) (σ * (δ / 2))) =
        σ * (δ / 2) * along P j := by
      simp only [along, cross, normalAt]; ring
    obtain ⟨q1, q2⟩ := (h _ hn').1 hC.le
    rw [← q1 ?_, ← q2 ?_]
    · rw [c2]
      have : σ * (σ * (δ / 2) * along P j) = (σ * σ) * (δ / 2 * along P j) := by ring
      rw [this, hσ2]; positivity
    · rw [cross_normalAt hz]
      have : σ * (σ * (δ / 2) * dist2 (P j) (P (j + 1))) = (σ * σ) * (δ / 2 * dist2 (P j) (P (j + 1))) := by ring
      have hd := dist2_pos (hs.ne j)
      rw [this, hσ2]; positivity
  · -- a point inside the corner
    set u : V2 := ⟨(P (j + 1)).x - ((P (j + 1)).x - (P j).x) + ((P (j + 2)).x - (P (j + 1)).x),
      (P (j + 1)).y - ((P (j + 1)).y - (P j).y) + ((P (j + 2)).y - (P (j + 1)).y)⟩ with hu
    obtain ⟨s, s0, s1, hn⟩ := near_lerp_start (P (j + 1)) u hρ
    have c1 : cross (P j) (P (j + 1)) (lerp (P (j + 1)) u s) = s * bend P j := by
      rw [hu]; simp only [bend, cross, lerp]; ring
    have c2 : cross (P (j + 1)) (P (j + 2)) (lerp (P (j + 1)) u s) = s * bend P j := by
      rw [hu]; simp only [bend, cross, lerp]; ring
    have hp : 0 < σ * (s * bend P j) := by
      have : σ * (s * bend P j) = s * (σ * bend P j) := by ring
      rw [this]; exact mul_pos s0 hC
    obtain ⟨q1, q2⟩ := (h _ hn).2 hC (by rw [c1]; exact hp) (by rw [c2]; exact hp)
    rw [← q1, ← q2]

/-- One value on each side of all edges. -/
theorem SimpleP.sideOf [TopologicalSpace α] [DiscreteTopology α] (hf : SegConst P n f) {σ : ℝ} (hσ : σ = 1 ∨ σ = -1) :
    ∃ K, ∀ j < n, ∀ s, 0 < s → s < 1 → SideOf P f σ j s K := by
  have hex : ∀ j, ∃ K, j < n → ∀ s, 0 < s → s < 1 → SideOf P f σ j s K := by
    intro j
    by_cases hj : j < n
    · obtain ⟨K, hK⟩ := hs.edge hf hσ hj
      exact ⟨K, fun _ => hK⟩
    · exact ⟨f (P 0), fun h => absurd h hj⟩
  choose L hL using hex
  have hall : ∀ j < n, L j = L 0 := by
    intro j
    induction j with
    | zero => intro _; rfl
    | succ j ih =>
      intro hj
      rw [← ih (by omega)]
      have e : (j + 1) % n = j + 1 := Nat.mod_eq_of_lt hj
      exact (hs.same hf hσ (by omega) (hL j (by omega)) (by rw [e]; exact hL (j + 1) hj)).symm
  refine ⟨L 0, fun j hj s h0 h1 => ?_⟩
  have h := hL j hj s h0 h1
  rwa [hall j hj] at h

/-- One winding number on the left of all edges, one less on the right. -/
theorem SimpleP.sides : ∃ K, ∀ j < n, ∀ s, 0 < s → s < 1 → SideVal P n 1 j s K ∧
    SideVal P n (-1) j s (K - 1) := by
  obtain ⟨K, hK⟩ := hs.sideOf (polyW_seg hs.closed) (Or.inl rfl)
  obtain ⟨K', hK'⟩ := hs.sideOf (polyW_seg hs.closed) (Or.inr rfl)
  refine ⟨K, fun j hj s h0 h1 => ⟨hK j hj s h0 h1, ?_⟩⟩
  have := hs.jump hj h0 h1 (hK j hj s h0 h1) (hK' j hj s h0 h1)
  have e : K' = K - 1 := by omega
  rw [← e]
  exact hK' j hj s h0 h1

omit hs in
/-- A polygon has a closest point. -/
theorem exists_closest (hn : 0 < n) (x : V2) : ∃ j < n, ∃ t, 0 ≤ t ∧ t ≤ 1 ∧ ∀ k < n, ∀ z,
    OnLine (P k) (P (k + 1)) z → dist2 x (lerp (P j) (P (j + 1)) t) ≤ dist2 x z := by
  have h1 : ∀ k, ∃ t ∈ Set.Icc (0 : ℝ) 1, ∀ u ∈ Set.Icc (0 : ℝ) 1,
      dist2 x (lerp (P k) (P (k + 1)) t) ≤ dist2 x (lerp (P k) (P (k + 1)) u) := by
    intro k
    have hc : ContinuousOn (fun t : ℝ => dist2 x (lerp (P k) (P (k + 1)) t)) (Set.Icc 0 1) := by
      unfold dist2 lerp; fun_prop
    obtain ⟨t, ht, hm⟩ := isCompact_Icc.exists_isMinOn (Set.nonempty_Icc.2 zero_le_one) hc
    exact ⟨t, ht, fun u hu => hm hu⟩
  choose T hT hmin using h1
  obtain ⟨j, hj, hjm⟩ := Finset.exists_min_image (Finset.range n)
    (fun k => dist2 x (lerp (P k) (P (k + 1)) (T k))) ⟨0, Finset.mem_range.2 hn⟩
  refine ⟨j, Finset.mem_range.1 hj, T j, (hT j).1, (hT j).2, fun k hk z hz => ?_⟩
  obtain ⟨u, u0, u1, rfl⟩ := hz
  exact (hjm k (Finset.mem_range.2 hk)).trans (hmin k u ⟨u0, u1⟩)

omit hs in
theorem dist2_symm (a b : V2) : dist2 a b = dist2 b a := by simp only [dist2]; ring

omit hs in
/-- On the way from a closest point the polygon is not met. -/
theorem way_off {x z : V2} (hne : z ≠ x) (hc : ∀ k < n, ∀ w, OnLine (P k) (P (k + 1)) w → dist2 x z ≤ dist2 x w)
    {τ : ℝ} (h0 : 0 < τ) (h1 : τ ≤ 1) : OffP P n (lerp z x τ) := by
  intro k hk ho
  have := hc k hk _ ho
  have e : dist2 x (lerp z x τ) = (1 - τ) ^ 2 * dist2 x z := by simp only [dist2, lerp]; ring
  rw [e] at this
  have hd := dist2_pos hne.symm
  have : 1 ≤ (1 - τ) ^ 2 := by
    by_contra hlt
    nlinarith
  nlinarith

omit hs in
theorem way_seg (hf : SegConst P n f) {x z : V2} (hne : z ≠ x)
    (hc : ∀ k < n, ∀ w, OnLine (P k) (P (k + 1)) w → dist2 x z ≤ dist2 x w)
    {τ : ℝ} (h0 : 0 < τ) (h1 : τ ≤ 1) : f (lerp z x τ) = f x := by
  refine hf _ _ fun t t0 t1 => ?_
  have : lerp (lerp z x τ) x t = lerp z x (τ + t * (1 - τ)) := by ext <;> simp only [lerp] <;> ring
  rw [this]
  have := mul_nonneg t0 (sub_nonneg.2 h1)
  exact way_off hne hc (by linarith) (by nlinarith)

omit hs in
theorem way_const (hP : P n = P 0) {x z : V2} (hne : z ≠ x)
    (hc : ∀ k < n, ∀ w, OnLine (P k) (P (k + 1)) w → dist2 x z ≤ dist2 x w)
    {τ : ℝ} (h0 : 0 < τ) (h1 : τ ≤ 1) : polyW P n (lerp z x τ) = polyW P n x :=
  way_seg (polyW_seg hP) hne hc h0 h1

omit hs in
theorem quad_nonneg {c m : ℝ} (h : ∀ e : ℝ, 0 ≤ e → e ≤ 1 → 0 ≤ 2 * e * c + e ^ 2 * m) : 0 ≤ c := by
  by_contra hn
  rw [not_le] at hn
  rcases le_or_gt m 0 with hm | hm
  · have := h 1 zero_le_one le_rfl
    nlinarith
  · set e := min 1 (-c / m) with he
    have e0 : 0 < e := by rw [he]; exact lt_min zero_lt_one (div_pos (by linarith) hm)
    have e1 : e ≤ 1 := min_le_left _ _
    have e2 : e * m ≤ -c := by
      have : e ≤ -c / m := min_le_right _ _
      rwa [le_div_iff₀ hm] at this
    have := h e e0.le e1
    nlinarith

set_option maxHeartbeats 1000000 in
/-- Off the polygon there are only the values of its two sides. -/
theorem SimpleP.two_sides (hf : SegConst P n f) {K K' : α} (hK : ∀ j < n, ∀ s, 0 < s → s < 1 → SideOf P f 1 j s K ∧
    SideOf P f (-1) j s K') {x : V2} (hx : OffP P n x) : f x = K ∨ f x = K' := by
  obtain ⟨j, hj, t, t0, t1, hc⟩ := exists_closest hs.pos x
  have hzne : lerp (P j) (P (j + 1)) t ≠ x := fun h => hx j hj ⟨t, t0, t1, h.symm⟩
  have hway := fun {τ : ℝ} => way_seg (τ := τ) hf hzne hc
  -- at a corner
  have atCorner : ∀ i < n, lerp (P j) (P (j + 1)) t = P (i + 1) → f x = K ∨ f x = K' := by
    intro i hi hz
    rw [hz] at hc hzne hway
    obtain ⟨n1, n2, n3, n4⟩ := hs.next hi
    obtain ⟨ρ1, hρ1, h1⟩ := hs.around hf (Or.inl rfl) hi (fun s s0 s1 => (hK i hi s s0 s1).1)
      (fun s s0 s1 => (hK _ n1 s s0 s1).1)
    obtain ⟨ρ2, hρ2, h2⟩ := hs.around hf (Or.inr rfl) hi (fun s s0 s1 => (hK i hi s s0 s1).2)
      (fun s s0 s1 => (hK _ n1 s s0 s1).2)
    obtain ⟨τ, τ0, τ1, hn⟩ := near_lerp_start (P (i + 1)) x (lt_min hρ1 hρ2)
    have h1 := h1 _ ⟨hn.1.trans_le (min_le_left _ _), hn.2.trans_le (min_le_left _ _)⟩
    have h2 := h2 _ ⟨hn.1.trans_le (min_le_right _ _), hn.2.trans_le (min_le_right _ _)⟩
    rw [hway τ0 τ1.le] at h1 h2
    set E := cross (P i) (P (i + 1)) x with hE
    set F := cross (P (i + 1)) (P (i + 2)) x with hF
    have cE : cross (P i) (P (i + 1)) (lerp (P (i + 1)) x τ) = τ * E := by
      rw [hE]; simp only [cross, lerp]; ring
    have cF : cross (P (i + 1)) (P (i + 2)) (lerp (P (i + 1)) x τ) = τ * F := by
      rw [hF]; simp only [cross, lerp]; ring
    rw [cE, cF] at h1 h2
    set A := ((P (i + 1)).x - (P i).x) * (x.x - (P (i + 1)).x) +
      ((P (i + 1)).y - (P i).y) * (x.y - (P (i + 1)).y) with hA
    set B := ((P (i + 2)).x - (P (i + 1)).x) * (x.x - (P (i + 1)).x) +
      ((P (i + 2)).y - (P (i + 1)).y) * (x.y - (P (i + 1)).y) with hB
    have hA0 : 0 ≤ A := by
      refine quad_nonneg (m := dist2 (P i) (P (i + 1))) fun e e0 e1 => ?_
      have := hc i hi (lerp (P i) (P (i + 1)) (1 - e)) ⟨1 - e, by linarith, by linarith, rfl⟩
      have q : dist2 x (lerp (P i) (P (i + 1)) (1 - e)) =
          dist2 x (P (i + 1)) + 2 * e * A + e ^ 2 * dist2 (P i) (P (i + 1)) := by
        rw [hA]; simp only [dist2, lerp]; ring
      linarith
    have hB0 : 0 ≤ -B := by
      refine quad_nonneg (m := dist2 (P (i + 1)) (P (i + 2))) fun e e0 e1 => ?_
      have := hc _ n1 (lerp (P (i + 1)) (P (i + 2)) e) (by rw [n3, n4]; exact ⟨e, e0, e1, rfl⟩)
      have q : dist2 x (lerp (P (i + 1)) (P (i + 2)) e) =
          dist2 x (P (i + 1)) + 2 * e * (-B) + e ^ 2 * dist2 (P (i + 1)) (P (i + 2)) := by
        rw [hB]; simp only [dist2, lerp]; ring
      linarith
    have hv := dist2_pos hzne
    have id1 : bend P i * dist2 (P (i + 1)) x = - (A * F) + E * B := by
      rw [hA, hB, hE, hF]; simp only [bend, cross, dist2]; ring
    have id2 : along P i * dist2 (P (i + 1)) x = A * B + E * F := by
      rw [hA, hB, hE, hF]; simp only [along, cross, dist2]; ring
    rcases lt_trichotomy (bend P i) 0 with hC | hC | hC
    · obtain ⟨q1, q2⟩ := h1.1 (by linarith)
      by_cases hE0 : 0 < E
      · exact Or.inl (q1 (by have := mul_pos τ0 hE0; linarith))
      by_cases hF0 : 0 < F
      · exact Or.inl (q2 (by have := mul_pos τ0 hF0; linarith))
      exfalso
      rw [not_lt] at hE0 hF0
      have := mul_pos_of_neg_of_neg hC (neg_lt_zero.2 hv)
      nlinarith [mul_nonneg hA0 (neg_nonneg.2 hF0), mul_nonneg (neg_nonneg.2 hE0) hB0]
    · rcases lt_trichotomy E 0 with hE0 | hE0 | hE0
      · obtain ⟨q1, -⟩ := h2.1 (by rw [hC]; simp)
        exact Or.inr (q1 (by have := mul_pos τ0 (neg_pos.2 hE0); linarith))
      · exfalso
        have hal := hs.forward hi hC
        rw [hE0] at id2
        have := mul_pos hal hv
        nlinarith [mul_nonneg hA0 hB0]
      · obtain ⟨q1, -⟩ := h1.1 (by rw [hC]; simp)
        exact Or.inl (q1 (by have := mul_pos τ0 hE0; linarith))
    · obtain ⟨q1, q2⟩ := h2.1 (by linarith)
      by_cases hE0 : E < 0
      · exact Or.inr (q1 (by have := mul_pos τ0 (neg_pos.2 hE0); linarith))
      by_cases hF0 : F < 0
      · exact Or.inr (q2 (by have := mul_pos τ0 (neg_pos.2 hF0); linarith))
      exfalso
      rw [not_lt] at hE0 hF0
      have := mul_pos hC hv
      nlinarith [mul_nonneg hA0 hF0, mul_nonneg hE0 hB0]
  rcases t1.lt_or_eq with t1 | rfl
  · rcases t0.lt_or_eq with t0 | rfl
    · -- inside an edge
      obtain ⟨⟨ρ1, hρ1, h1⟩, ρ2, hρ2, h2⟩ := hK j hj t t0 t1
      set z := lerp (P j) (P (j + 1)) t with hz
      obtain ⟨τ, τ0, τ1, hn⟩ := near_lerp_start z x (lt_min hρ1 hρ2)
      have h1 := h1 _ ⟨hn.1.trans_le (min_le_left _ _), hn.2.trans_le (min_le_left _ _)⟩
      have h2 := h2 _ ⟨hn.1.trans_le (min_le_right _ _), hn.2.trans_le (min_le_right _ _)⟩
      rw [hway τ0 τ1.le] at h1 h2
      set E := cross (P j) (P (j + 1)) x with hE
      have cE : cross (P j) (P (j + 1)) (lerp z x τ) = τ * E := by
        rw [hE, hz]; simp only [cross, lerp]; ring
      rw [cE] at h1 h2
      rcases lt_trichotomy E 0 with hE0 | hE0 | hE0
      · exact Or.inr (h2 (by have := mul_pos τ0 (neg_pos.2 hE0); linarith))
      · exfalso
        set A := ((P (j + 1)).x - (P j).x) * (x.x - z.x) + ((P (j + 1)).y - (P j).y) * (x.y - z.y) with hA
        have hd := dist2_pos (hs.ne j)
        have q : ∀ e, dist2 x (lerp (P j) (P (j + 1)) (t + e)) =
            dist2 x z - 2 * e * A + e ^ 2 * dist2 (P j) (P (j + 1)) := by
          intro e; rw [hA, hz]; simp only [dist2, lerp]; ring
        have hA1 : 0 ≤ A * t := by
          refine quad_nonneg (m := t ^ 2 * dist2 (P j) (P (j + 1))) fun e e0 e1 => ?_
          have := hc j hj (lerp (P j) (P (j + 1)) (t + - (e * t))) ⟨_, by nlinarith, by nlinarith, rfl⟩
          rw [q] at this
          nlinarith
        have hA2 : 0 ≤ - A * (1 - t) := by
          refine quad_nonneg (m := (1 - t) ^ 2 * dist2 (P j) (P (j + 1))) fun e e0 e1 => ?_
          have := hc j hj (lerp (P j) (P (j + 1)) (t + e * (1 - t))) ⟨_, by nlinarith, by nlinarith, rfl⟩
          rw [q] at this
          nlinarith
        have hA0 : A = 0 := by
          have a1 : 0 ≤ A := nonneg_of_mul_nonneg_left hA1 t0
          have a2 : 0 ≤ -A := nonneg_of_mul_nonneg_left hA2 (by linarith)
          linarith
        have id : dist2 (P j) (P (j + 1)) * dist2 z x = A ^ 2 + E ^ 2 := by
          rw [hA, hE, hz]; simp only [dist2, cross, lerp]; ring
        rw [hA0, hE0] at id
        have := mul_pos hd (dist2_pos hzne)
        nlinarith
      · exact Or.inl (h1 (by have := mul_pos τ0 hE0; linarith))
    · -- the start of an edge
      rw [lerp_zero] at atCorner
      rcases Nat.eq_zero_or_pos j with rfl | hj0
      · refine atCorner (n - 1) (by have := hs.pos; omega) ?_
        rw [Nat.sub_add_cancel hs.pos, hs.closed]
      · refine atCorner (j - 1) (by omega) ?_
        rw [Nat.sub_add_cancel hj0]
  · exact atCorner j hj (lerp_one _ _)

/-- Off the polygon there are only the winding numbers of its two sides. -/
theorem SimpleP.dichotomy {K : ℤ} (hK : ∀ j < n, ∀ s, 0 < s → s < 1 → SideVal P n 1 j s K ∧
    SideVal P n (-1) j s (K - 1)) {x : V2} (hx : OffP P n x) : polyW P n x = K ∨ polyW P n x = K - 1 :=
  hs.two_sides (polyW_seg hs.closed) hK hx

/-- Two points off the polygon with the same winding number are on the same side. -/
theorem SimpleP.separates [TopologicalSpace α] [DiscreteTopology α] (hf : SegConst P n f) {x y : V2} (hx : OffP P n x)
    (hy : OffP P n y) (h : polyW P n x = polyW P n y) : f x = f y := by
  have hg : SegConst P n fun z => (f z, polyW P n z) := fun a b hab =>
    Prod.ext (hf a b hab) (polyW_seg hs.closed a b hab)
  obtain ⟨K, hK⟩ := hs.sideOf hg (Or.inl rfl)
  obtain ⟨K', hK'⟩ := hs.sideOf hg (Or.inr rfl)
  have hne : K.2 = K'.2 + 1 := by
    have e1 : SideVal P n 1 0 (1 / 2) K.2 := by
      obtain ⟨ρ, hρ, q⟩ := hK 0 hs.pos (1 / 2) (by norm_num) (by norm_num)
      exact ⟨ρ, hρ, fun y a b => by rw [← q y a b]⟩
    have e2 : SideVal P n (-1) 0 (1 / 2) K'.2 := by
      obtain ⟨ρ, hρ, q⟩ := hK' 0 hs.pos (1 / 2) (by norm_num) (by norm_num)
      exact ⟨ρ, hρ, fun y a b => by rw [← q y a b]⟩
    exact hs.jump hs.pos (by norm_num) (by norm_num) e1 e2
  have hd := fun {z} (hz : OffP P n z) => hs.two_sides hg (fun j hj s h0 h1 => ⟨hK j hj s h0 h1, hK' j hj s h0 h1⟩) hz
  rcases hd hx with q | q <;> rcases hd hy with q' | q'
  · exact congrArg Prod.fst (q.trans q'.symm)
  · have a := congrArg Prod.snd q; have b := congrArg Prod.snd q'; simp only at a b; omega
  · have a := congrArg Prod.snd q; have b := congrArg Prod.snd q'; simp only at a b; omega
  · exact congrArg Prod.fst (q.trans q'.symm)

omit hs in
/-- Above the polygon the winding number is zero. -/
theorem polyW_above {x : V2} (h : ∀ k < n, (P (k + 1)).y < x.y) (h0 : (P 0).y < x.y) :
    OffP P n x ∧ polyW P n x = 0 := by
  have hy : ∀ k ≤ n, (P k).y < x.y := by
    intro k hk
    cases k with
    | zero => exact h0
    | succ k => exact h k (by omega)
  constructor
  · rintro k hk ⟨t, t0, t1, rfl⟩
    have a1 := hy k hk.le
    have a2 := hy (k + 1) hk
    simp only [lerp] at a1 a2
    rcases le_total (P k).y (P (k + 1)).y with q | q
    · nlinarith [mul_nonneg (sub_nonneg.2 t1) (sub_nonneg.2 q)]
    · nlinarith [mul_nonneg t0 (sub_nonneg.2 q)]
  · rw [polyW, polyEdges_W]
    refine Finset.sum_eq_zero fun k hk => ?_
    have a1 := hy k (Finset.mem_range.1 hk).le
    have a2 := hy (k + 1) (Finset.mem_range.1 hk)
    rw [lw_eq, if_pos a1.le, if_neg (fun h => absurd h.1 (not_lt.2 a2.le))]

/-- A polygon that does not meet itself winds once, in one direction, around the points inside. -/
theorem SimpleP.values : ∃ K : ℤ, (K = 0 ∨ K = 1) ∧ (∀ j < n, ∀ s, 0 < s → s < 1 → SideVal P n 1 j s K ∧
    SideVal P n (-1) j s (K - 1)) ∧ ∀ x, OffP P n x → polyW P n x = K ∨ polyW P n x = K - 1 := by
  obtain ⟨K, hK⟩ := hs.sides
  refine ⟨K, ?_, hK, fun x hx => hs.dichotomy hK hx⟩
  obtain ⟨m, hm⟩ : ∃ m : ℝ, ∀ k ≤ n, (P k).y < m := by
    obtain ⟨k, -, hk⟩ := Finset.exists_max_image (Finset.range (n + 1)) (fun k => (P k).y) ⟨0, by simp⟩
    exact ⟨(P k).y + 1, fun i hi => lt_of_le_of_lt (hk i (Finset.mem_range.2 (by omega))) (by linarith)⟩
  obtain ⟨o, w⟩ := polyW_above (P := P) (n := n) (x := ⟨0, m⟩) (fun k hk => hm _ hk) (hm 0 (by omega))
  have := hs.dichotomy hK o
  rw [w] at this
  omega

end
end
end Cavc

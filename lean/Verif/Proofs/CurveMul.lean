import Mathlib.Analysis.Normed.Module.Connected
import Mathlib.Topology.LocallyConstant.Basic
import Mathlib.LinearAlgebra.Dimension.Constructions
import Mathlib.Topology.Algebra.Order.Field
import Mathlib.Topology.Algebra.Monoid
import Mathlib.Topology.Baire.CompleteMetrizable
import Mathlib.Topology.Baire.Lemmas

/-! The product of two winding numbers as a sum over the pieces of both curves, each with the winding number
of the other one along it. -/
namespace Cavc
open scoped Classical Topology
noncomputable section

/-- A piece of a curve: where it is, and how far it turns about a point, in full turns. -/
structure Piece where
  on : Set (ℝ × ℝ)
  T : ℝ × ℝ → ℝ
  closed : IsClosed on
  thin : interior on = ∅
  cont : ∀ z, z ∉ on → ContinuousAt T z
  far : Filter.Tendsto (fun R : ℝ => T (R, 0)) Filter.atTop (𝓝 0)
  off : ∀ᶠ R : ℝ in Filter.atTop, (R, (0 : ℝ)) ∉ on

/-- A continuous function with integer values is constant on connected sets. -/
theorem int_const {X : Type} [TopologicalSpace X] {S : Set X} (hS : IsPreconnected S) {f : X → ℝ}
    (hf : ContinuousOn f S) (hi : ∀ x ∈ S, ∃ k : ℤ, f x = k) {x y : X} (hx : x ∈ S) (hy : y ∈ S) : f x = f y := by
  have key : ∀ {x y}, x ∈ S → y ∈ S → ¬ f x < f y := by
    intro x y hx hy hlt
    obtain ⟨k, hk⟩ := hi x hx
    obtain ⟨l, hl⟩ := hi y hy
    have hkl : (k : ℝ) + 1 ≤ l := by
      rw [hk, hl] at hlt
      exact_mod_cast hlt
    have hc := (hS.image f hf).ordConnected
    obtain ⟨w, hw, he⟩ := hc.out ⟨x, hx, rfl⟩ ⟨y, hy, rfl⟩ (show f x + 1 / 2 ∈ Set.Icc (f x) (f y) from
      ⟨by linarith, by linarith⟩)
    obtain ⟨m, hm⟩ := hi w hw
    rw [hm, hk] at he
    have h1 : k < m := by
      have : (k : ℝ) < m := by rw [he]; linarith
      exact_mod_cast this
    have h2 : (k : ℝ) + 1 ≤ m := by exact_mod_cast h1
    linarith
  rcases lt_trichotomy (f x) (f y) with h | h | h
  · exact absurd h (key hx hy)
  · exact h
  · exact absurd h (key hy hx)

/-- Where a function agrees with a continuous one and has integer values it is locally constant. -/
theorem int_local {X : Type} [TopologicalSpace X] {z : X} {D G : X → ℝ} {O : X → Prop} (hG : ContinuousAt G z)
    (hD : ∀ᶠ x in 𝓝 z, O x → D x = G x) (hi : ∀ x, O x → ∃ k : ℤ, D x = k) :
    ∃ c : ℝ, ∀ᶠ x in 𝓝 z, O x → D x = c := by
  have h1 : ∀ᶠ x in 𝓝 z, |G x - G z| < 1 / 4 := by
    have := Metric.continuousAt_iff'.1 hG (1 / 4) (by norm_num)
    simpa [Real.dist_eq] using this
  by_cases hne : ∃ᶠ x in 𝓝 z, O x
  · obtain ⟨x0, o0, h0, h0'⟩ := (hne.and_eventually (h1.and hD)).exists
    refine ⟨D x0, ?_⟩
    filter_upwards [h1, hD] with x h2 h3 ho
    obtain ⟨k, hk⟩ := hi x ho
    obtain ⟨l, hl⟩ := hi x0 o0
    have e1 := h3 ho
    have e2 := h0' o0
    rw [abs_lt] at h2 h0
    have h4 : |((k - l : ℤ) : ℝ)| < 1 := by
      push_cast
      rw [← hk, ← hl, e1, e2, abs_lt]
      constructor <;> linarith [h2.1, h2.2, h0.1, h0.2]
    have h5 : k - l = 0 := by
      have : |k - l| < 1 := by exact_mod_cast h4
      exact Int.abs_lt_one_iff.1 this
    rw [hk, hl]
    have : k = l := by omega
    rw [this]
  · refine ⟨0, ?_⟩
    rw [Filter.not_frequently] at hne
    filter_upwards [hne] with x hx ho
    exact absurd ho hx

section
variable {ι κ : Type} (E : Finset ι) (F : Finset κ) (a : ι → Piece) (b : κ → Piece) (β : ι → ℝ) (α : κ → ℝ)

/-- The point is on none of the pieces. -/
def OffAll {ι : Type} (E : Finset ι) (a : ι → Piece) (z : ℝ × ℝ) : Prop := ∀ i ∈ E, z ∉ (a i).on

variable {E F a b β α}

theorem offAll_open {ι : Type} (E : Finset ι) (a : ι → Piece) : IsOpen {z | OffAll E a z} := by
  have : {z | OffAll E a z} = ⋂ i ∈ E, (a i).onᶜ := by
    ext z; simp [OffAll]
  rw [this]
  exact isOpen_biInter_finset fun i _ => (a i).closed.isOpen_compl

theorem offAll_dense {ι : Type} (E : Finset ι) (a : ι → Piece) : Dense {z | OffAll E a z} := by
  have : {z | OffAll E a z} = ⋂ i ∈ (E : Set ι), (a i).onᶜ := by
    ext z; simp [OffAll]
  rw [this]
  refine dense_biInter_of_isOpen (fun i _ => (a i).closed.isOpen_compl) E.countable_toSet ?_
  intro i _
  rw [← interior_eq_empty_iff_dense_compl]
  exact (a i).thin

theorem sum_cont {ι : Type} {E : Finset ι} {a : ι → Piece} {β : ι → ℝ} {z : ℝ × ℝ}
    (h : ∀ i ∈ E, z ∈ (a i).on → β i = 0) : ContinuousAt (fun x => ∑ i ∈ E, β i * (a i).T x) z := by
  refine tendsto_finsetSum _ fun i hi => ?_
  by_cases ho : z ∈ (a i).on
  · have := h i hi ho
    simp only [this, zero_mul]
    exact tendsto_const_nhds
  · exact ((a i).cont z ho).const_mul (β i)

theorem sum_far {ι : Type} (E : Finset ι) (a : ι → Piece) (β : ι → ℝ) :
    Filter.Tendsto (fun R : ℝ => ∑ i ∈ E, β i * (a i).T (R, 0)) Filter.atTop (𝓝 0) := by
  have := tendsto_finsetSum E fun i _ => ((a i).far.const_mul (β i))
  simpa using this

theorem wind_local {ι : Type} {E : Finset ι} {a : ι → Piece} (hA : ∀ z, OffAll E a z → ∃ k : ℤ, ∑ i ∈ E, (a i).T z = k)
    {z : ℝ × ℝ} (hz : OffAll E a z) : ∀ᶠ x in 𝓝 z, OffAll E a x ∧ ∑ i ∈ E, (a i).T x = ∑ i ∈ E, (a i).T z := by
  have ho := (offAll_open E a).mem_nhds hz
  have hc : ContinuousAt (fun x => ∑ i ∈ E, (a i).T x) z := by
    have := sum_cont (E := E) (a := a) (β := fun _ => 1) (z := z) fun i hi h => absurd h (hz i hi)
    simpa using this
  obtain ⟨c, h⟩ := int_local (O := OffAll E a) hc (Filter.Eventually.of_forall fun _ _ => rfl) hA
  have h0 := h.self_of_nhds hz
  filter_upwards [h, ho] with x h1 h2
  exact ⟨h2, by rw [h1 h2, h0]⟩

theorem curves_mul {cuts : Set (ℝ × ℝ)} (hfin : cuts.Countable)
    (hA : ∀ z, OffAll E a z → ∃ k : ℤ, ∑ i ∈ E, (a i).T z = k)
    (hB : ∀ z, OffAll F b z → ∃ k : ℤ, ∑ j ∈ F, (b j).T z = k)
    (hβ : ∀ i ∈ E, ∀ z ∈ (a i).on, z ∉ cuts → OffAll F b z ∧ ∑ j ∈ F, (b j).T z = β i)
    (hα : ∀ j ∈ F, ∀ z ∈ (b j).on, z ∉ cuts → OffAll E a z ∧ ∑ i ∈ E, (a i).T z = α j)
    (hint : ∀ z, OffAll E a z → OffAll F b z →
      ∃ k : ℤ, ∑ i ∈ E, β i * (a i).T z + ∑ j ∈ F, α j * (b j).T z = k)
    {z : ℝ × ℝ} (h1 : OffAll E a z) (h2 : OffAll F b z) :
    ∑ i ∈ E, β i * (a i).T z + ∑ j ∈ F, α j * (b j).T z = (∑ i ∈ E, (a i).T z) * ∑ j ∈ F, (b j).T z := by
  obtain ⟨D, hD⟩ : ∃ D : ℝ × ℝ → ℝ, D = fun z => ∑ i ∈ E, β i * (a i).T z + ∑ j ∈ F, α j * (b j).T z -
    (∑ i ∈ E, (a i).T z) * ∑ j ∈ F, (b j).T z := ⟨_, rfl⟩
  obtain ⟨O, hO⟩ : ∃ O : ℝ × ℝ → Prop, O = fun z => OffAll E a z ∧ OffAll F b z := ⟨_, rfl⟩
  obtain ⟨cuts', hcuts⟩ : ∃ cuts' : Set (ℝ × ℝ), cuts' = {z | z ∈ cuts ∧ ¬ O z} := ⟨_, rfl⟩
  have hfin' : cuts'.Countable := hfin.mono fun z hz => by rw [hcuts] at hz; exact hz.1
  have hin : ∀ {z}, z ∉ cuts' → ¬ O z → z ∉ cuts := by
    intro z h3 h4 h5
    exact h3 (by rw [hcuts]; exact ⟨h5, h4⟩)
  have hin' : ∀ {z}, O z → z ∉ cuts' := by
    intro z h3 h4
    rw [hcuts] at h4
    exact h4.2 h3
  replace hβ : ∀ i ∈ E, ∀ z ∈ (a i).on, z ∉ cuts' → OffAll F b z ∧ ∑ j ∈ F, (b j).T z = β i := by
    intro i hi z hz hzc
    refine hβ i hi z hz (hin hzc fun ho => ?_)
    rw [hO] at ho
    exact ho.1 i hi hz
  replace hα : ∀ j ∈ F, ∀ z ∈ (b j).on, z ∉ cuts' → OffAll E a z ∧ ∑ i ∈ E, (a i).T z = α j := by
    intro j hj z hz hzc
    refine hα j hj z hz (hin hzc fun ho => ?_)
    rw [hO] at ho
    exact ho.2 j hj hz
  have hDint : ∀ x, O x → ∃ k : ℤ, D x = k := by
    intro x hx
    rw [hO] at hx
    obtain ⟨k, hk⟩ := hint x hx.1 hx.2
    obtain ⟨l, hl⟩ := hA x hx.1
    obtain ⟨m, hm⟩ := hB x hx.2
    refine ⟨k - l * m, ?_⟩
    rw [hD]
    simp only
    rw [hk, hl, hm]
    push_cast
    ring
  have hdense : Dense {x | O x} := by
    have : {x | O x} = {x | OffAll E a x} ∩ {x | OffAll F b x} := by
      rw [hO]; rfl
    rw [this]
    exact (offAll_dense E a).inter_of_isOpen_left (offAll_dense F b) (offAll_open E a)
  have hloc : ∀ z, z ∉ cuts' → ∃ c : ℝ, ∀ᶠ x in 𝓝 z, O x → D x = c := by
    intro z hz
    by_cases hzB : OffAll F b z
    · obtain ⟨σ, hσ⟩ : ∃ σ, σ = ∑ j ∈ F, (b j).T z := ⟨_, rfl⟩
      refine int_local (G := fun x => ∑ i ∈ E, (β i - σ) * (a i).T x + ∑ j ∈ F, α j * (b j).T x) ?_ ?_ hDint
      · refine ContinuousAt.add (sum_cont ?_) (sum_cont fun j hj h => absurd h (hzB j hj))
        intro i hi ho
        rw [← (hβ i hi z ho hz).2, hσ, sub_self]
      · filter_upwards [wind_local hB hzB] with x hx _
        rw [hD]
        simp only [sub_mul, Finset.sum_sub_distrib, ← Finset.mul_sum]
        rw [hx.2, ← hσ]
        ring
    · have hzA : OffAll E a z := by
        unfold OffAll at hzB
        push Not at hzB
        obtain ⟨j, hj, ho⟩ := hzB
        exact (hα j hj z ho hz).1
      obtain ⟨σ, hσ⟩ : ∃ σ, σ = ∑ i ∈ E, (a i).T z := ⟨_, rfl⟩
      refine int_local (G := fun x => ∑ i ∈ E, β i * (a i).T x + ∑ j ∈ F, (α j - σ) * (b j).T x) ?_ ?_ hDint
      · refine ContinuousAt.add (sum_cont fun i hi h => absurd h (hzA i hi)) (sum_cont ?_)
        intro j hj ho
        rw [← (hα j hj z ho hz).2, hσ, sub_self]
      · filter_upwards [wind_local hA hzA] with x hx _
        rw [hD]
        simp only [sub_mul, Finset.sum_sub_distrib, ← Finset.mul_sum]
        rw [hx.2, ← hσ]
        ring
  choose! C hC using hloc
  have hconn : IsPreconnected cuts'ᶜ := by
    refine (hfin'.isPathConnected_compl_of_one_lt_rank ?_).isConnected.isPreconnected
    have : Module.rank ℝ (ℝ × ℝ) = 2 := by simp; norm_num
    rw [this]
    norm_num
  have hlc : IsLocallyConstant fun u : (cuts'ᶜ : Set (ℝ × ℝ)) => C u := by
    rw [IsLocallyConstant.iff_eventually_eq]
    intro u
    have h3 := (hC u u.2).eventually_nhds
    have h4 : ∀ᶠ w in 𝓝 (u : ℝ × ℝ), w ∉ cuts' → C w = C u := by
      filter_upwards [h3] with w hw hwc
      have h5 := hw.and (hC w hwc)
      obtain ⟨x, hxO, hx⟩ := (hdense.inter_nhds_nonempty (t := {x | (O x → D x = C u) ∧ (O x → D x = C w)}) h5)
      rw [← hx.1 hxO, ← hx.2 hxO]
    have h6 := (continuous_subtype_val.continuousAt (x := u)).eventually h4
    filter_upwards [h6] with w hw
    exact hw w.2
  have hconst : ∀ {x y}, x ∉ cuts' → y ∉ cuts' → C x = C y := by
    intro x y hx hy
    have : PreconnectedSpace (cuts'ᶜ : Set (ℝ × ℝ)) := isPreconnected_iff_preconnectedSpace.1 hconn
    exact hlc.apply_eq_of_isPreconnected isPreconnected_univ (x := ⟨x, hx⟩) (y := ⟨y, hy⟩) trivial trivial
  have hval : ∀ {x}, O x → D x = C x := fun {x} hx => (hC x (hin' hx)).self_of_nhds hx
  -- far away
  have hfarO : ∀ᶠ R : ℝ in Filter.atTop, O (R, 0) := by
    have h3 : ∀ᶠ R : ℝ in Filter.atTop, OffAll E a (R, 0) := by
      unfold OffAll
      exact (Filter.eventually_all_finset E).2 fun i _ => (a i).off
    have h4 : ∀ᶠ R : ℝ in Filter.atTop, OffAll F b (R, 0) := by
      unfold OffAll
      exact (Filter.eventually_all_finset F).2 fun i _ => (b i).off
    filter_upwards [h3, h4] with R h5 h6
    rw [hO]
    exact ⟨h5, h6⟩
  have hOz : O z := by rw [hO]; exact ⟨h1, h2⟩
  have hlim : Filter.Tendsto (fun R : ℝ => D (R, 0)) Filter.atTop (𝓝 0) := by
    have e1 := sum_far E a β
    have e2 := sum_far F b α
    have e3 := sum_far E a fun _ => 1
    have e4 := sum_far F b fun _ => 1
    simp only [one_mul] at e3 e4
    have := (e1.add e2).sub (e3.mul e4)
    rw [hD]
    simpa using this
  have hlim' : Filter.Tendsto (fun _ : ℝ => D z) Filter.atTop (𝓝 0) := by
    refine hlim.congr' ?_
    filter_upwards [hfarO] with R hR
    rw [hval hR, hval hOz]
    exact hconst (hin' hR) (hin' hOz)
  have := tendsto_nhds_unique tendsto_const_nhds hlim'
  rw [hD] at this
  simp only at this
  linarith
end
end
end Cavc

import Verif.Proofs.SimpleCorner
import Verif.Proofs.ArcFound
import Verif.Proofs.AreaWinding

/-! A closed polyline of lines and arcs that does not meet itself divides the rest of the plane into two parts. -/
namespace Cavc
open Spec
open scoped Classical
open Filter Topology MeasureTheory
noncomputable section

section
variable {p : Polyline} (hs : SimpleCurve p) {α : Type} {f : ℝ × ℝ → α}
include hs

/-- All segments have the same two sides. -/
theorem _root_.Cavc.Spec.SimpleCurve.sides (hf : ConnConst p f) :
    ∃ K K', ∀ j < p.size, ∀ s, 0 < s → s < 1 → SidesAt p f j s K K' := by
  have h2 := hs.two'
  obtain ⟨K, K', hK⟩ := hs.sides_seg hf (j := 0) (by omega)
  refine ⟨K, K', fun j => ?_⟩
  induction j with
  | zero => exact fun _ => hK
  | succ j ih =>
    intro hj
    obtain ⟨L, L', hL⟩ := hs.sides_seg hf (j := j + 1) hj
    have hm : (j + 1) % p.size = j + 1 := Nat.mod_eq_of_lt hj
    obtain ⟨e1, e2, -⟩ := hs.corner hf (j := j) (by omega) (ih (by omega)) (by rw [hm]; exact hL)
    subst e1 e2
    exact hL

theorem _root_.Cavc.Spec.SimpleCurve.closest (x : V2) : ∃ j < p.size, ∃ t, 0 ≤ t ∧ t ≤ 1 ∧ ∀ z, OnPline p z →
    dist2 x (segPt (rv p j) (rv p (j + 1)) t) ≤ dist2 x z := by
  have h2 := hs.two'
  have h1 : ∀ k, ∃ t ∈ Set.Icc (0 : ℝ) 1, ∀ u ∈ Set.Icc (0 : ℝ) 1,
      dist2 x (segPt (rv p k) (rv p (k + 1)) t) ≤ dist2 x (segPt (rv p k) (rv p (k + 1)) u) := by
    intro k
    have hc : ContinuousOn (fun t : ℝ => dist2 x (segPt (rv p k) (rv p (k + 1)) t)) (Set.Icc 0 1) := by
      have h1 := (continuous_segPt (rv p k) (rv p (k + 1))).fst
      have h2 := (continuous_segPt (rv p k) (rv p (k + 1))).snd
      simp only [xy] at h1 h2
      unfold dist2
      exact (((continuous_const.sub h1).pow 2).add ((continuous_const.sub h2).pow 2)).continuousOn
    obtain ⟨t, ht, hm⟩ := isCompact_Icc.exists_isMinOn (Set.nonempty_Icc.2 zero_le_one) hc
    exact ⟨t, ht, fun u hu => hm hu⟩
  choose T hT hmin using h1
  obtain ⟨j, hj, hjm⟩ := Finset.exists_min_image (Finset.range p.size)
    (fun k => dist2 x (segPt (rv p k) (rv p (k + 1)) (T k))) ⟨0, Finset.mem_range.2 (by omega)⟩
  refine ⟨j, Finset.mem_range.1 hj, T j, (hT j).1, (hT j).2, fun z hz => ?_⟩
  obtain ⟨k, hk, ho⟩ := hs.on.1 hz
  obtain ⟨u, u0, u1, rfl⟩ := onSeg_segPt.1 ho
  exact (hjm k (Finset.mem_range.2 hk)).trans (hmin k u ⟨u0, u1⟩)

omit hs in
theorem lerp_off {x z : V2} (hne : z ≠ x) (hc : ∀ w, OnPline p w → dist2 x z ≤ dist2 x w)
    {τ : ℝ} (h0 : 0 < τ) (h1 : τ ≤ 1) : ¬ OnPline p (lerp z x τ) := by
  intro ho
  have := hc _ ho
  have e : dist2 x (lerp z x τ) = (1 - τ) ^ 2 * dist2 x z := by simp only [dist2, lerp]; ring
  rw [e] at this
  have hd := dist2_pos hne.symm
  have : 1 ≤ (1 - τ) ^ 2 := by
    by_contra hlt
    nlinarith
  nlinarith

omit hs in
theorem continuous_lerp (a b : V2) : Continuous fun t : ℝ => xy (lerp a b t) := by
  unfold xy lerp; fun_prop

/-- There are only the two sides. -/
theorem _root_.Cavc.Spec.SimpleCurve.two_sides (hf : ConnConst p f) {K K' : α}
    (hK : ∀ j < p.size, ∀ s, 0 < s → s < 1 → SidesAt p f j s K K') {x : V2} (hx : ¬ OnPline p x) :
    f (xy x) = K ∨ f (xy x) = K' := by
  have h2 := hs.two'
  obtain ⟨j, hj, t, t0, t1, hmin⟩ := hs.closest x
  set z := segPt (rv p j) (rv p (j + 1)) t with hz
  have hon : OnPline p z := hs.on.2 ⟨j, hj, onSeg_segPt.2 ⟨t, t0, t1, rfl⟩⟩
  have hne : z ≠ x := fun h => hx (h ▸ hon)
  -- on the way
  have hway : ∀ τ, 0 < τ → τ ≤ 1 → f (xy (lerp z x τ)) = f (xy x) := by
    intro τ τ0 τ1
    refine hf ((fun u => xy (lerp z x u)) '' Set.Ioc 0 1) (isPreconnected_Ioc.image _ (continuous_lerp z x).continuousOn) ?_ _
      ⟨τ, ⟨τ0, τ1⟩, rfl⟩ _ ⟨1, ⟨one_pos, le_rfl⟩, by simp only [lerp_one]⟩
    rintro _ ⟨u, hu, rfl⟩
    rw [toV_xy]
    exact lerp_off hne hmin hu.1 hu.2
  have hnear : ∀ {P : ℝ × ℝ → Prop}, (∀ᶠ y in 𝓝 (xy z), P y) → ∃ τ, 0 < τ ∧ τ ≤ 1 ∧ P (xy (lerp z x τ)) := by
    intro P hP
    have hc := (continuous_lerp z x).continuousAt (x := 0)
    have e0 : xy (lerp z x 0) = xy z := by rw [lerp_zero]
    have := hc.eventually (by simp only; rw [e0]; exact hP)
    obtain ⟨ε, hε, h⟩ := Metric.eventually_nhds_iff.1 this
    refine ⟨min (ε / 2) 1, lt_min (by linarith) one_pos, min_le_right _ _, h ?_⟩
    rw [Real.dist_eq, sub_zero, abs_of_pos (lt_min (by linarith) one_pos)]
    exact (min_le_left _ _).trans_lt (by linarith)
  -- around a vertex
  have hvert : ∀ i < p.size, z = (rv p (i + 1)).pos → f (xy x) = K ∨ f (xy x) = K' := by
    intro i hi he
    obtain ⟨-, -, ρ0, ρp, hρ⟩ := hs.corner hf hi (hK i hi) (hK _ (Nat.mod_lt _ (by omega)))
    rw [← he] at hρ
    have : ∀ᶠ y in 𝓝 (xy z), dist2 z (toV y) < ρ0 ^ 2 := by
      have hc : Continuous fun y : ℝ × ℝ => dist2 z (toV y) := by unfold dist2 toV; fun_prop
      have := hc.continuousAt (x := xy z)
      refine this.eventually (gt_mem_nhds ?_)
      simp only [toV_xy, dist2, sub_self]
      norm_num
      positivity
    obtain ⟨τ, τ0, τ1, hτ⟩ := hnear this
    rw [toV_xy] at hτ
    rw [← hway τ τ0 τ1]
    exact hρ _ hτ (lerp_off hne hmin τ0 τ1)
  rcases t0.eq_or_lt with h | h
  · have hz' : z = (rv p j).pos := by rw [hz, ← h, segPt_zero]
    refine hvert ((j + (p.size - 1)) % p.size) (Nat.mod_lt _ (by omega)) ?_
    rw [hz', rv_mod_succ, show j + (p.size - 1) + 1 = j + p.size by omega, ← rv_mod p (j + p.size), Nat.add_mod_right, rv_mod]
  rcases t1.eq_or_lt with h' | h'
  · exact hvert j hj (by rw [hz, h', segPt_one])
  obtain ⟨τ, τ0, τ1, hτ⟩ := hnear (hK j hj t h h')
  rw [← hway τ τ0 τ1]
  rcases hτ (by rw [toV_xy]; exact lerp_off hne hmin τ0 τ1) with ⟨-, q⟩ | ⟨-, q⟩
  · exact Or.inl q
  · exact Or.inr q

theorem _root_.Cavc.Spec.SimpleCurve.arcW_conn : ConnConst p fun z => arcW p (toV z) := by
  intro S hS hoff z hz z' hz'
  have := turnAll_const hs.ok hs.closed hs.two hS hoff hz hz'
  have e1 := arcW_eq hs.ok hs.closed hs.two (hoff z hz)
  have e2 := arcW_eq hs.ok hs.closed hs.two (hoff z' hz')
  rw [this, e2] at e1
  exact_mod_cast e1.symm

/-- The winding number is larger by one on the left. -/
theorem _root_.Cavc.Spec.SimpleCurve.jump {j : ℕ} (hj : j < p.size) {s : ℝ} (h0 : 0 < s) (h1 : s < 1) {K K' : ℤ}
    (h : SidesAt p (fun z => arcW p (toV z)) j s K K') : K = K' + 1 := by
  obtain ⟨c, hc⟩ := wind_near hs.ok hs.closed hs.two hj (hs.far j) h0 h1 (fun k hk hne => hs.inner hj h0 h1 hk hne)
  obtain ⟨⟨y, ⟨q1, q2⟩, o, l⟩, z, ⟨q3, q4⟩, o', l'⟩ := hs.side_points hj h0 h1 (h.and hc)
  have r2 := q2 o l.ne'
  have r4 := q4 o' l'.ne
  rw [if_pos l, arcW_eq hs.ok hs.closed hs.two o] at r2
  rw [if_neg (not_lt.2 l'.le), arcW_eq hs.ok hs.closed hs.two o'] at r4
  have k1 : arcW p (toV y) = K := by
    rcases q1 o with ⟨-, a⟩ | ⟨a, -⟩
    · exact a
    · exact absurd a (not_lt.2 l.le)
  have k2 : arcW p (toV z) = K' := by
    rcases q3 o' with ⟨a, -⟩ | ⟨-, a⟩
    · exact absurd a (not_lt.2 l'.le)
    · exact a
  rw [k1] at r2
  rw [k2] at r4
  have : (K : ℝ) = K' + 1 := by linarith
  exact_mod_cast this

omit hs in
theorem beyond_off {p : Polyline} (hc : p.isClosed = true) (h2 : 2 ≤ p.size) : ∃ x, ∀ y, OnPline p y → y.x < x := by
  obtain ⟨M, hM⟩ := onPline_bounded hc h2
  exact ⟨M, fun y hy => (le_abs_self _).trans_lt (hM y hy).1⟩

/-- A closed polyline that does not meet itself winds once, in one direction, around the points inside. -/
theorem _root_.Cavc.Spec.SimpleCurve.values : ∃ s : ℤ, (s = 1 ∨ s = -1) ∧ ∃ K K' : ℤ, K = K' + 1 ∧
    ((s = 1 ∧ K = 1) ∨ (s = -1 ∧ K = 0)) ∧
    (∀ j < p.size, ∀ t, 0 < t → t < 1 → SidesAt p (fun z => arcW p (toV z)) j t K K') ∧
    ∀ x, ¬ OnPline p x → arcW p x = K ∨ arcW p x = K' := by
  have h2 := hs.two'
  obtain ⟨K, K', hK⟩ := hs.sides hs.arcW_conn
  have hj := hs.jump (j := 0) (by omega) one_half_pos one_half_lt_one (hK 0 (by omega) _ one_half_pos one_half_lt_one)
  have hd : ∀ x, ¬ OnPline p x → arcW p x = K ∨ arcW p x = K' := fun x hx => hs.two_sides hs.arcW_conn hK hx
  obtain ⟨m, hm⟩ := beyond_off hs.closed hs.two
  have ho : ¬ OnPline p ⟨m, 0⟩ := fun ho => lt_irrefl _ (hm _ ho)
  have h0 : arcW p ⟨m, 0⟩ = 0 := by
    have := arcW_eq hs.ok hs.closed hs.two ho
    rw [turnAll_right hs.ok hs.closed hs.two (x := ⟨m, 0⟩) hm, zero_div] at this
    exact_mod_cast this.symm
  have := hd _ ho
  rw [h0] at this
  rcases this with h | h
  · exact ⟨-1, Or.inr rfl, K, K', hj, Or.inr ⟨rfl, h.symm⟩, hK, hd⟩
  · exact ⟨1, Or.inl rfl, K, K', hj, Or.inl ⟨rfl, by omega⟩, hK, hd⟩

/-- Two points off the polyline with the same winding number are on the same side. -/
theorem _root_.Cavc.Spec.SimpleCurve.separates (hf : ConnConst p f) {x y : V2} (hx : ¬ OnPline p x)
    (hy : ¬ OnPline p y) (h : arcW p x = arcW p y) : f (xy x) = f (xy y) := by
  have h2 := hs.two'
  have hg : ConnConst p fun z => (f z, arcW p (toV z)) := fun S hS ho a ha b hb =>
    Prod.ext (hf S hS ho a ha b hb) (hs.arcW_conn S hS ho a ha b hb)
  obtain ⟨K, K', hK⟩ := hs.sides hg
  have hne : K.2 = K'.2 + 1 := by
    refine hs.jump (j := 0) (by omega) one_half_pos one_half_lt_one ?_
    have := hK 0 (by omega) _ one_half_pos one_half_lt_one
    unfold SidesAt at this ⊢
    filter_upwards [this] with y hy o
    rcases hy o with ⟨a, b⟩ | ⟨a, b⟩
    · exact Or.inl ⟨a, congrArg Prod.snd b⟩
    · exact Or.inr ⟨a, congrArg Prod.snd b⟩
  have hd := fun {z : V2} (hz : ¬ OnPline p z) => hs.two_sides hg hK hz
  simp only [toV_xy] at hd
  rcases hd hx with q | q <;> rcases hd hy with q' | q'
  · exact congrArg Prod.fst (q.trans q'.symm)
  · have a := congrArg Prod.snd q; have b := congrArg Prod.snd q'; simp only at a b; omega
  · have a := congrArg Prod.snd q; have b := congrArg Prod.snd q'; simp only at a b; omega
  · exact congrArg Prod.fst (q.trans q'.symm)

end

/-! ### Points on a polyline are few -/

theorem circle_null (c : V2) (r : ℝ) : ∀ᵐ z : ℝ × ℝ, dist2 c ⟨z.1, z.2⟩ ≠ r := by
  have hc : Measurable fun z : ℝ × ℝ => dist2 c ⟨z.1, z.2⟩ := by unfold dist2; fun_prop
  have hm : MeasurableSet {z : ℝ × ℝ | dist2 c ⟨z.1, z.2⟩ = r} := hc (measurableSet_singleton r)
  have h0 : volume {z : ℝ × ℝ | dist2 c ⟨z.1, z.2⟩ = r} = 0 := by
    rw [Measure.volume_eq_prod, Measure.measure_prod_null hm]
    refine Filter.Eventually.of_forall fun x => ?_
    have : Prod.mk x ⁻¹' {z : ℝ × ℝ | dist2 c ⟨z.1, z.2⟩ = r} ⊆
        {c.y + Real.sqrt (r - (c.x - x) ^ 2), c.y - Real.sqrt (r - (c.x - x) ^ 2)} := by
      intro y
      simp only [Set.mem_preimage, Set.mem_ofPred_eq, Set.mem_insert_iff, Set.mem_singleton_iff, dist2]
      intro q
      have e : r - (c.x - x) ^ 2 = (y - c.y) ^ 2 := by rw [← q]; ring
      rw [e, Real.sqrt_sq_eq_abs]
      rcases abs_cases (y - c.y) with ⟨h, -⟩ | ⟨h, -⟩ <;> rw [h]
      · left; ring
      · right; ring
    exact measure_mono_null this ((Set.toFinite _).measure_zero _)
  rw [ae_iff]
  have e : {z : ℝ × ℝ | ¬ dist2 c ⟨z.1, z.2⟩ ≠ r} = {z : ℝ × ℝ | dist2 c ⟨z.1, z.2⟩ = r} := by ext z; simp only [Set.mem_ofPred_eq, ne_eq, not_not]
  rw [e]; exact h0

theorem onSeg_null (v1 v2 : Vertex) : ∀ᵐ z : ℝ × ℝ, ¬ OnSeg v1 v2 ⟨z.1, z.2⟩ := by
  by_cases hl : IsLine v1
  · by_cases hne : v1.pos = v2.pos
    · filter_upwards [circle_null v1.pos 0] with z hz ho
      obtain ⟨t, -, -, h⟩ := (onSeg_line hl).1 ho
      apply hz
      rw [h, hne]
      simp only [lerp, dist2]; ring
    · filter_upwards [line_null hne] with z hz ho
      exact hz ((onSeg_line hl).1 ho)
  · filter_upwards [circle_null (centerOf v1 v2) (dist2 (centerOf v1 v2) v1.pos)] with z hz ho
    obtain ⟨t, -, -, h⟩ := (onSeg_arc hl).1 ho
    apply hz
    rw [h, dist2_comm', dist2_rot, dist2_comm']

/-- Almost all points are off the polyline. -/
theorem onPline_null (p : Polyline) : ∀ᵐ z : ℝ × ℝ, ¬ OnPline p ⟨z.1, z.2⟩ := by
  have : ∀ k ∈ Finset.range (segs p).length, ∀ᵐ z : ℝ × ℝ,
      ¬ OnSeg (vtx p k) (vtx p (if k + 1 = p.size then 0 else k + 1)) ⟨z.1, z.2⟩ := fun k _ => onSeg_null _ _
  rw [← Finset.eventually_all] at this
  filter_upwards [this] with z hz ⟨i, v1, v2, h, ho⟩
  obtain ⟨a, rfl, rfl⟩ := isSeg_iff.1 h
  exact hz i (Finset.mem_range.2 a) ho

end
end Cavc

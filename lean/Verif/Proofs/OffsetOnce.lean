import Verif.Proofs.IslandLevel
import Verif.Proofs.IslandAll

/-! Each polyline of the offset of a polygon, on its own, winds around the points off it once or not at all. -/
namespace Cavc
open Spec Filter Topology
open scoped Classical
noncomputable section

/-- The polylines have the exact offset of the polygon as their segments, each part once, and all together wind `s` times
around the points of `D`, more than around the others. -/
structure OffsetWind (p : Polyline) (d : ℝ) (r : List Polyline) (X : Set V2) (D : V2 → Prop) (s : ℤ) (c : ℝ) : Prop where
  pos : 0 < d
  fin : X.Finite
  closed : ∀ q ∈ r, q.isClosed = true ∧ 2 ≤ q.size ∧ PlineOk q
  far : ∀ e ∈ (r.map cEdges).flatten, ∀ z, eOn z e → NotCloser p d z ∧ ∃ w, OnPline p w ∧ distance z w = d
  once : (r.map cEdges).flatten.Pairwise fun e f => ∀ z, z ∉ X → eOn z e → ¬ eOn z f
  deep : ∀ x, D x → ¬ Closer p d x
  winds : ∀ x, eOff (r.map cEdges).flatten x →
    eTurns (r.map cEdges).flatten x / (2 * Real.pi) = s * ((if D x then 1 else 0) - c)

section
variable {p : Polyline} {d : ℝ} {r : List Polyline} {X : Set V2} {D : V2 → Prop} {s : ℤ} {c : ℝ}

theorem balanced_cEdges {q : Polyline} (h : 0 < q.size) : ((cEdges q).map fun e => e.1.pos).Perm ((cEdges q).map fun e => e.2) := by
  unfold cEdges
  rw [List.map_map, List.map_map]
  refine (range_rot (fun k => (rv q k).pos) q.size h ?_).symm
  show (rv q q.size).pos = (rv q 0).pos
  rw [show q.size = 0 + q.size by omega, rv_per]

theorem balanced_all {r : List Polyline} (h : ∀ q ∈ r, 0 < q.size) :
    ((r.map cEdges).flatten.map fun e => e.1.pos).Perm ((r.map cEdges).flatten.map fun e => e.2) := by
  induction r with
  | nil => simp
  | cons q r ih =>
    rw [List.map_cons, List.flatten_cons, List.map_append, List.map_append]
    exact (balanced_cEdges (h q List.mem_cons_self)).append (ih fun q hq => h q (List.mem_cons_of_mem _ hq))

theorem eOff_flatten (hr : ∀ q ∈ r, q.isClosed = true ∧ 2 ≤ q.size ∧ PlineOk q) {x : V2} :
    eOff (r.map cEdges).flatten x ↔ ∀ q ∈ r, ¬ OnPline q x := by
  constructor
  · intro h q hq ho
    obtain ⟨e, he, hoe⟩ := (onPline_cEdges (hr q hq).1 (hr q hq).2.1).1 ho
    exact h e (List.mem_flatten.2 ⟨_, List.mem_map.2 ⟨q, hq, rfl⟩, he⟩) hoe
  · intro h e he ho
    obtain ⟨l, hl, hel⟩ := List.mem_flatten.1 he
    obtain ⟨q, hq, rfl⟩ := List.mem_map.1 hl
    exact h q hq ((onPline_cEdges (hr q hq).1 (hr q hq).2.1).2 ⟨e, hel, ho⟩)

theorem OffsetWind.off (h : OffsetWind p d r X D s c) {x : V2} (hx : Closer p d x) {q : Polyline} (hq : q ∈ r) : ¬ OnPline q x := by
  intro ho
  obtain ⟨e, he, hoe⟩ := (onPline_cEdges (h.closed q hq).1 (h.closed q hq).2.1).1 ho
  have := (h.far e (List.mem_flatten.2 ⟨_, List.mem_map.2 ⟨q, hq, rfl⟩, he⟩) x hoe).1
  obtain ⟨z, hz, hlt⟩ := hx
  linarith [this z hz]

theorem closer_lerp {x z : V2} (hz : OnPline p z) (h : distance x z < d) {t : ℝ} (t0 : 0 ≤ t) (t1 : t ≤ 1) :
    Closer p d (lerp x z t) := by
  refine ⟨z, hz, ?_⟩
  unfold distance at *
  refine lt_of_le_of_lt (Real.sqrt_le_sqrt ?_) h
  have e : dist2 (lerp x z t) z = (1 - t) ^ 2 * dist2 x z := by simp only [dist2, lerp]; ring
  rw [e]
  have h1 : (1 - t) ^ 2 ≤ 1 := by nlinarith
  have h2 := dist2_nonneg x z
  nlinarith

/-- Close to the polygon a polyline of the offset winds the same number of times around all points. -/
theorem OffsetWind.near_const (h : OffsetWind p d r X D s c) {q : Polyline} (hq : q ∈ r) :
    ∃ K : ℤ, ∀ x, Closer p d x → arcW q x = K := by
  obtain ⟨hc, h2, hok⟩ := h.closed q hq
  by_cases hne : ∃ z, OnPline p z
  · obtain ⟨z0, hz0⟩ := hne
    have hself : ∀ z, OnPline p z → Closer p d z := fun z hz => ⟨z, hz, by
      rw [show distance z z = 0 by simp [distance, dist2]]; exact h.pos⟩
    refine ⟨arcW q z0, ?_⟩
    rintro x ⟨z, hz, hlt⟩
    have h1 : turnAll q z = turnAll q z0 := by
      have := turnAll_const hok hc h2 (connected_pline p) (fun y hy => by
        obtain ⟨w, hw, rfl⟩ := hy
        rw [toV_xy]
        exact h.off (hself w hw) hq) (x := xy z) (y := xy z0) ⟨z, hz, rfl⟩ ⟨z0, hz0, rfl⟩
      rwa [toV_xy, toV_xy] at this
    have h3 : turnAll q x = turnAll q z := by
      have := turnAll_const hok hc h2 (convex_segment (𝕜 := ℝ) (xy x) (xy z)).isPreconnected (fun y hy => by
        rw [segment_eq_image] at hy
        obtain ⟨t, ⟨t0, t1⟩, rfl⟩ := hy
        have e : toV ((1 - t) • xy x + t • xy z) = lerp x z t := by
          ext <;> simp [toV, xy, lerp] <;> ring
        simp only [e]
        exact h.off (closer_lerp hz hlt t0 t1) hq) (left_mem_segment ℝ _ _) (right_mem_segment ℝ _ _)
      rwa [toV_xy, toV_xy] at this
    unfold arcW
    rw [h3, h1]
  · exact ⟨0, fun x ⟨z, hz, _⟩ => absurd ⟨z, hz⟩ hne⟩

/-- Around a point of the polyline that no other segment goes through. -/
theorem OffsetWind.around (h : OffsetWind p d r X D s c) {q : Polyline} (hq : q ∈ r) {K : ℤ}
    (hK : ∀ x, Closer p d x → arcW q x = K) {z : V2} (hz : z ∉ X) (hon : OnPline q z) :
    ∀ᶠ y in 𝓝 (xy z), eOff (r.map cEdges).flatten (toV y) → arcW q (toV y) = K + s * (if D (toV y) then 1 else 0) := by
  obtain ⟨hc, h2, hok⟩ := h.closed q hq
  obtain ⟨r1, r2, rfl⟩ := List.append_of_mem hq
  obtain ⟨e, he, hoe⟩ := (onPline_cEdges hc h2).1 hon
  have hperm : (((r1 ++ r2).map cEdges).flatten ++ cEdges q).Perm ((r1 ++ q :: r2).map cEdges).flatten := by
    simp only [List.map_append, List.map_cons, List.flatten_append, List.flatten_cons, List.append_assoc]
    exact List.Perm.append_left _ (List.perm_append_comm)
  have honce := (hperm.pairwise_iff (R := fun e f => ∀ z, z ∉ X → eOn z e → ¬ eOn z f)
    (fun {a b} hab z hz hb ha => hab z hz ha hb)).2 h.once
  rw [List.pairwise_append] at honce
  have hrest : ∀ q' ∈ r1 ++ r2, q' ∈ r1 ++ q :: r2 := fun q' hq' => by
    rw [List.mem_append] at hq' ⊢
    rcases hq' with h | h
    · exact Or.inl h
    · exact Or.inr (List.mem_cons_of_mem _ h)
  have hoffO : eOff ((r1 ++ r2).map cEdges).flatten z := fun f hf hof => honce.2.2 f hf e he z hz hof hoe
  have hok' : ∀ e ∈ ((r1 ++ r2).map cEdges).flatten, eOk e := by
    intro e he
    obtain ⟨l, hl, hel⟩ := List.mem_flatten.1 he
    obtain ⟨q', hq', rfl⟩ := List.mem_map.1 hl
    obtain ⟨a1, a2, a3⟩ := h.closed q' (hrest q' hq')
    obtain ⟨k, -, rfl⟩ := mem_cEdges hel
    exact eOk_eq.2 (rv_ok a1 a2 a3 k)
  have hnear := eTurns_near hok' (balanced_all fun q' hq' => by
    have := (h.closed q' (hrest q' hq')).2.1; omega) hoffO
  obtain ⟨k, hk⟩ := eTurns_int hok' (balanced_all fun q' hq' => by
    have := (h.closed q' (hrest q' hq')).2.1; omega) hoffO
  -- how often it winds, up to a constant
  have hval : ∀ᶠ y in 𝓝 (xy z), eOff ((r1 ++ q :: r2).map cEdges).flatten (toV y) →
      (arcW q (toV y) : ℝ) = s * (if D (toV y) then 1 else 0) - s * c - k := by
    filter_upwards [hnear] with y hy ho
    have h1 := h.winds _ ho
    have h3 := arcW_eq hok hc h2 ((eOff_flatten h.closed).1 ho q hq)
    rw [turnAll_cEdges] at h3
    rw [← eTurns_perm hperm, eTurns_append, add_div, h3, hy, hk] at h1
    linarith
  obtain ⟨w, hw, hdw⟩ := (h.far e (hperm.mem_iff.1 (List.mem_append_right _ he)) z hoe).2
  -- a point close to the polygon
  have hKc : (K : ℝ) = - s * c - k := by
    have hcont : Continuous fun t : ℝ => xy (lerp z w t) := by
      unfold xy lerp
      fun_prop
    have h0 : Tendsto (fun t : ℝ => xy (lerp z w t)) (𝓝[>] 0) (𝓝 (xy z)) := by
      have := (hcont.tendsto 0).mono_left (nhdsWithin_le_nhds (s := Set.Ioi (0 : ℝ)))
      rwa [lerp_zero] at this
    obtain ⟨t, ⟨ht, htp⟩, htl⟩ := (((h0.eventually hval).and self_mem_nhdsWithin).and
      (Ioo_mem_nhdsGT (show (0 : ℝ) < 1 by norm_num))).exists
    have hcl : Closer p d (lerp z w t) := by
      refine ⟨w, hw, ?_⟩
      have hd := h.pos
      have e : dist2 (lerp z w t) w = (1 - t) ^ 2 * dist2 z w := by simp only [dist2, lerp]; ring
      unfold distance
      rw [e, Real.sqrt_mul (sq_nonneg _), Real.sqrt_sq (by linarith [htl.2])]
      change (1 - t) * distance z w < d
      rw [hdw]
      have : (0 : ℝ) < t := htp
      nlinarith
    rw [toV_xy] at ht
    have := ht ((eOff_flatten h.closed).2 fun q' hq' => h.off hcl hq')
    rw [hK _ hcl, if_neg fun hD => h.deep _ hD hcl] at this
    rw [this]
    ring
  filter_upwards [hval] with y hy ho
  have := hy ho
  have e : (arcW q (toV y) : ℝ) = ((K + s * (if D (toV y) then 1 else 0) : ℤ) : ℝ) := by
    rw [this]
    by_cases hD : D (toV y)
    · rw [if_pos hD, if_pos hD]; push_cast; rw [hKc]; ring
    · rw [if_neg hD, if_neg hD]; push_cast; rw [hKc]; ring
  exact_mod_cast e

/-- A polyline of the offset winds around the points off it only two different numbers of times. -/
theorem OffsetWind.two (h : OffsetWind p d r X D s c) (hp : ∃ z, OnPline p z) {q : Polyline} (hq : q ∈ r) {K : ℤ}
    (hK : ∀ x, Closer p d x → arcW q x = K) {x : V2} (hx : ¬ OnPline q x) : arcW q x = K ∨ arcW q x = K + s := by
  obtain ⟨hc, h2, hok⟩ := h.closed q hq
  set f : ℝ × ℝ → ℝ := fun y => ((arcW q (toV y) - K) * (arcW q (toV y) - K - s) : ℤ) with hf
  have hfin : (xy '' X).Countable := (h.fin.image _).countable
  have hconn : IsPreconnected (xy '' X)ᶜ := by
    refine (hfin.isPathConnected_compl_of_one_lt_rank ?_).isConnected.isPreconnected
    rw [← Module.finrank_eq_rank]
    have : Module.finrank ℝ (ℝ × ℝ) = 2 := by simp
    rw [this]
    norm_num
  have hcompl : Dense (xy '' X)ᶜ := Set.Countable.dense_compl ℝ hfin
  have hdense := hcompl.inter_of_isOpen_left (eOff_dense (r.map cEdges).flatten) (h.fin.image _).isClosed.isOpen_compl
  obtain ⟨C, hC⟩ := glue_const hconn (eOff_dense (r.map cEdges).flatten) (f := f) fun z hz => by
    by_cases hon : OnPline q (toV z)
    · refine ⟨0, ?_⟩
      have := h.around hq hK (z := toV z) (fun hx => hz ⟨_, hx, xy_toV z⟩) hon
      rw [xy_toV] at this
      filter_upwards [this] with y hy ho
      have := hy ho
      simp only [hf]
      by_cases hD : D (toV y)
      · rw [if_pos hD] at this; rw [this]; push_cast; ring
      · rw [if_neg hD] at this; rw [this]; push_cast; ring
    · refine ⟨f z, ?_⟩
      filter_upwards [arcW_near hok hc h2 hon] with y hy _
      simp only [hf]
      rw [hy.2]
  -- close to the polygon it is zero
  have hC0 : C = 0 := by
    obtain ⟨z, hz⟩ := hp
    have hz' : Closer p d z := ⟨z, hz, by rw [show distance z z = 0 by simp [distance, dist2]]; exact h.pos⟩
    obtain ⟨y, hy1, hy2, hy3⟩ := mem_closure_iff_nhds.1 (hdense (xy z)) _ (closer_near h.pos.le hz')
    rw [← hC y hy2 hy3]
    simp only [hf]
    rw [hK _ hy1]
    push_cast
    ring
  obtain ⟨y, hy1, hy2, hy3⟩ := mem_closure_iff_nhds.1 (hdense (xy x)) _ (arcW_near hok hc h2 (z := xy x) (by rwa [toV_xy]))
  have h1 := hC y hy2 hy3
  rw [hC0] at h1
  simp only [hf] at h1
  rw [hy1.2, toV_xy] at h1
  have h3 : (arcW q x - K) * (arcW q x - K - s) = 0 := by exact_mod_cast h1
  rcases mul_eq_zero.1 h3 with h3 | h3
  · left; omega
  · right; omega

/-- Close to the polygon a polyline of the offset winds once or not at all. -/
theorem OffsetWind.near_value (h : OffsetWind p d r X D s c) (hp : ∃ z, OnPline p z) {q : Polyline} (hq : q ∈ r) {K : ℤ}
    (hK : ∀ x, Closer p d x → arcW q x = K) : K = 0 ∨ K = -s := by
  obtain ⟨hc, h2, hok⟩ := h.closed q hq
  obtain ⟨M, hM⟩ := onPline_bounded hc h2
  have hr : ∀ y, OnPline q y → y.x < M + 1 := fun y hy => by linarith [(abs_lt.1 (hM y hy).1).2]
  have h0 : arcW q ⟨M + 1, 0⟩ = 0 := by
    unfold arcW
    rw [turnAll_right hok hc h2 (x := ⟨M + 1, 0⟩) hr]
    simp
  have := h.two hp hq hK (x := ⟨M + 1, 0⟩) fun ho => lt_irrefl _ (hr _ ho)
  rw [h0] at this
  omega

end
end
end Cavc

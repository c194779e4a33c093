import Verif.Proofs.PathPiece
import Verif.Proofs.PolyPieces

/-! The winding number of a closed polyline, as how far its path turns. -/
namespace Cavc
open Spec
open scoped Classical Topology
noncomputable section

theorem path_turn {p : Polyline} (hc : p.isClosed = true) (h2 : 2 ≤ p.size) {γ : ℕ → ℝ → V2} (hγ : IsPathOf p γ) (x : V2) :
    ∑ i ∈ Finset.range (segs p).length, turning x (γ i) = turnAll p x := by
  rw [segs_length, if_neg (by omega), if_pos hc]
  refine Finset.sum_congr rfl fun k hk => ?_
  have hk' := Finset.mem_range.1 hk
  have hs := rv_seg hc h2 k
  rw [Nat.mod_eq_of_lt hk'] at hs
  rw [isPath_segPt.1 (hγ _ _ _ hs), turning_segPt]

theorem winding_turnAll {p : Polyline} (hc : p.isClosed = true) (h2 : 2 ≤ p.size) {x : V2} {k : ℤ} :
    Winding p x k ↔ (k : ℝ) = turnAll p x / (2 * Real.pi) := by
  constructor
  · rintro ⟨γ, hγ, hk⟩
    rw [hk, path_turn hc h2 hγ]
  · intro h
    obtain ⟨γ, hγ⟩ := exists_path p
    exact ⟨γ, hγ, by rw [h, path_turn hc h2 hγ]⟩

theorem turnAll_int {p : Polyline} (hok : PlineOk p) (hc : p.isClosed = true) (h2 : 2 ≤ p.size) {x : V2} (h : ¬ OnPline p x) :
    ∃ k : ℤ, turnAll p x / (2 * Real.pi) = k := by
  obtain ⟨γ, hγ⟩ := exists_path p
  obtain ⟨k, -, hk⟩ := C25_getWindingNumber p hok hc x h γ hγ
  exact ⟨k, by rw [hk, path_turn hc h2 hγ]⟩

theorem getWinding_turnAll {p : Polyline} (hok : PlineOk p) (hc : p.isClosed = true) (h2 : 2 ≤ p.size) {x : V2}
    (h : ¬ OnPline p x) {k : ℤ} : getWindingNumber p x = .ok k ↔ (k : ℝ) = turnAll p x / (2 * Real.pi) := by
  rw [← winding_iff hok hc h, winding_turnAll hc h2]

theorem turnAll_continuousAt {p : Polyline} (hc : p.isClosed = true) (h2 : 2 ≤ p.size) {z : ℝ × ℝ} (h : ¬ OnPline p (toV z)) :
    ContinuousAt (fun x => turnAll p (toV x)) z := by
  unfold turnAll
  refine tendsto_finsetSum _ fun k _ => ?_
  refine turn_continuousAt zero_le_one fun t ht he => ?_
  exact h ⟨_, _, _, rv_seg hc h2 k, onSeg_segPt.2 ⟨t, ht.1, ht.2, he.symm⟩⟩

/-- On a connected set off the polyline it turns equally far. -/
theorem turnAll_const {p : Polyline} (hok : PlineOk p) (hc : p.isClosed = true) (h2 : 2 ≤ p.size) {S : Set (ℝ × ℝ)}
    (hS : IsPreconnected S) (hoff : ∀ z ∈ S, ¬ OnPline p (toV z)) {x y : ℝ × ℝ} (hx : x ∈ S) (hy : y ∈ S) :
    turnAll p (toV x) = turnAll p (toV y) := by
  have := int_const hS (f := fun z => turnAll p (toV z) / (2 * Real.pi))
    (fun z hz => ((turnAll_continuousAt hc h2 (hoff z hz)).div_const _).continuousWithinAt)
    (fun z hz => turnAll_int hok hc h2 (hoff z hz)) hx hy
  have hp := Real.pi_pos
  rwa [div_left_inj' (by positivity)] at this

theorem turnAll_far (p : Polyline) : Filter.Tendsto (fun R : ℝ => turnAll p ⟨R, 0⟩) Filter.atTop (𝓝 0) := by
  unfold turnAll
  have := tendsto_finsetSum (Finset.range p.size) fun k _ => turn_far (rv p k) (rv p (k + 1)) le_rfl zero_le_one le_rfl
  simpa using this

/-- To the right of the polyline it does not turn. -/
theorem turnAll_right {p : Polyline} (hok : PlineOk p) (hc : p.isClosed = true) (h2 : 2 ≤ p.size) {x : V2}
    (h : ∀ y, OnPline p y → y.x < x.x) : turnAll p x = 0 := by
  have hS : IsPreconnected {z : ℝ × ℝ | x.x ≤ z.1} := by
    apply Convex.isPreconnected
    intro a ha b hb s t s0 t0 hst
    simp only [Set.mem_ofPred_eq, Prod.fst_add, Prod.smul_fst, smul_eq_mul] at *
    have e : x.x = s * x.x + t * x.x := by rw [← add_mul, hst, one_mul]
    rw [e]
    exact add_le_add (mul_le_mul_of_nonneg_left ha s0) (mul_le_mul_of_nonneg_left hb t0)
  have hoff : ∀ z ∈ {z : ℝ × ℝ | x.x ≤ z.1}, ¬ OnPline p (toV z) := by
    intro z hz ho
    have h1 := h _ ho
    have h2 : x.x ≤ z.1 := hz
    have h3 : (toV z).x = z.1 := rfl
    linarith
  have h0 : ∀ R, x.x ≤ R → turnAll p ⟨R, 0⟩ = turnAll p x := by
    intro R hR
    have := turnAll_const hok hc h2 hS hoff (x := (R, 0)) (y := xy x) hR (le_refl x.x)
    simpa [toV, xy] using this
  have h1 : Filter.Tendsto (fun R : ℝ => turnAll p ⟨R, 0⟩) Filter.atTop (𝓝 (turnAll p x)) := by
    refine tendsto_const_nhds.congr' ?_
    filter_upwards [Filter.eventually_ge_atTop x.x] with R hR
    exact (h0 R hR).symm
  exact tendsto_nhds_unique h1 (turnAll_far p)

/-- A half plane is connected. -/
theorem halfplane_conn (a b c : ℝ) : IsPreconnected {z : ℝ × ℝ | c ≤ a * z.1 + b * z.2} := by
  apply Convex.isPreconnected
  intro z hz w hw s t s0 t0 hst
  simp only [Set.mem_ofPred_eq, Prod.fst_add, Prod.snd_add, Prod.smul_fst, Prod.smul_snd, smul_eq_mul] at *
  have e : a * (s * z.1 + t * w.1) + b * (s * z.2 + t * w.2) = s * (a * z.1 + b * z.2) + t * (a * w.1 + b * w.2) := by ring
  have e' : c = s * c + t * c := by rw [← add_mul, hst, one_mul]
  rw [e, e']
  exact add_le_add (mul_le_mul_of_nonneg_left hz s0) (mul_le_mul_of_nonneg_left hw t0)

theorem onPline_bounded {p : Polyline} (hc : p.isClosed = true) (h2 : 2 ≤ p.size) :
    ∃ M : ℝ, ∀ y, OnPline p y → |y.x| < M ∧ |y.y| < M := by
  obtain ⟨M, hM⟩ := (pathSet_compact (p := p) (a := 0) (b := p.size) le_rfl).isBounded.exists_norm_le
  refine ⟨M + 1, fun y hy => ?_⟩
  obtain ⟨g, g0, g1, rfl⟩ := (onPline_trace hc h2).1 hy
  have h1 := hM _ ⟨g, ⟨g0, g1.le⟩, rfl⟩
  have h3 := (norm_fst_le (xy (trace p g))).trans h1
  have h4 := (norm_snd_le (xy (trace p g))).trans h1
  rw [Real.norm_eq_abs] at h3 h4
  have h5 : (xy (trace p g)).1 = (trace p g).x := rfl
  have h6 : (xy (trace p g)).2 = (trace p g).y := rfl
  rw [h5] at h3
  rw [h6] at h4
  exact ⟨by linarith, by linarith⟩

/-- On the other side of a line from the polyline it does not turn. -/
theorem turnAll_beyond {p : Polyline} (hok : PlineOk p) (hc : p.isClosed = true) (h2 : 2 ≤ p.size) {x : V2} {a b : ℝ}
    (h : ∀ y, OnPline p y → a * y.x + b * y.y < a * x.x + b * x.y) : turnAll p x = 0 := by
  obtain ⟨M, hM⟩ := onPline_bounded hc h2
  have hon : OnPline p (trace p 0) := trace_onPline hc h2 le_rfl
  have hab : 0 < a ^ 2 + b ^ 2 := by
    by_contra hn
    have ha : a = 0 := by nlinarith [sq_nonneg a, sq_nonneg b]
    have hb : b = 0 := by nlinarith [sq_nonneg a, sq_nonneg b]
    have := h _ hon
    rw [ha, hb] at this
    linarith
  have step : ∀ {a b c : ℝ} {x y : V2}, (∀ y, OnPline p y → a * y.x + b * y.y < c) → c ≤ a * x.x + b * x.y →
      c ≤ a * y.x + b * y.y → turnAll p x = turnAll p y := by
    intro a b c x y h hx hy
    have := turnAll_const hok hc h2 (halfplane_conn a b c) (x := xy x) (y := xy y) (fun z hz ho => by
      have h1 := h _ ho
      have h2 : c ≤ a * z.1 + b * z.2 := hz
      exact absurd h1 (not_lt.2 h2)) hx hy
    simpa using this
  -- from `x` far away, in the direction of the normal, or in one near it that points to the right or up
  obtain ⟨c, hcd⟩ : ∃ c, c = a * x.x + b * x.y := ⟨_, rfl⟩
  rw [← hcd] at h
  have hr : ∀ {y : V2}, M ≤ y.x → turnAll p y = 0 := by
    intro y hy
    exact turnAll_right hok hc h2 fun w hw => by linarith [(hM w hw).1, le_abs_self w.x]
  have hu : ∀ {y : V2}, M ≤ y.y → turnAll p y = 0 := by
    intro y hy
    rw [step (a := 0) (b := 1) (c := M) (y := ⟨M, M⟩) (fun w hw => by linarith [(hM w hw).2, le_abs_self w.y])
      (by linarith) (by simp)]
    exact hr le_rfl
  have hd : ∀ {y : V2}, y.y ≤ -M → turnAll p y = 0 := by
    intro y hy
    rw [step (a := 0) (b := -1) (c := M) (y := ⟨M, -M⟩) (fun w hw => by linarith [(hM w hw).2, neg_abs_le w.y])
      (by linarith) (by simp)]
    exact hr le_rfl
  have hl : ∀ {y : V2}, y.x ≤ -M → turnAll p y = 0 := by
    intro y hy
    rw [step (a := -1) (b := 0) (c := M) (y := ⟨-M, M⟩) (fun w hw => by linarith [(hM w hw).1, neg_abs_le w.x])
      (by linarith) (by simp)]
    exact hu le_rfl
  -- a point far away beyond the line
  have hfar : ∀ t : ℝ, 0 ≤ t → turnAll p x = turnAll p ⟨x.x + t * a, x.y + t * b⟩ := by
    intro t ht
    refine step h hcd.le ?_
    simp only
    nlinarith
  rcases lt_trichotomy a 0 with h0 | h0 | h0
  · obtain ⟨t, ht⟩ : ∃ t, t = (|x.x| + |M|) / (-a) := ⟨_, rfl⟩
    have t0 : 0 ≤ t := by rw [ht]; exact div_nonneg (by positivity) (by linarith)
    rw [hfar t t0]
    apply hl
    have : t * a = -(|x.x| + |M|) := by rw [ht, div_neg, neg_mul, div_mul_cancel₀ _ h0.ne]
    simp only
    rw [this]
    linarith [le_abs_self x.x, le_abs_self M]
  · have hb : b ≠ 0 := by
      rintro rfl
      rw [h0] at hab
      norm_num at hab
    rcases lt_or_gt_of_ne hb with h1 | h1
    · obtain ⟨t, ht⟩ : ∃ t, t = (|x.y| + |M|) / (-b) := ⟨_, rfl⟩
      have t0 : 0 ≤ t := by rw [ht]; exact div_nonneg (by positivity) (by linarith)
      rw [hfar t t0]
      apply hd
      have : t * b = -(|x.y| + |M|) := by rw [ht, div_neg, neg_mul, div_mul_cancel₀ _ h1.ne]
      simp only
      rw [this]
      linarith [le_abs_self x.y, le_abs_self M]
    · obtain ⟨t, ht⟩ : ∃ t, t = (|x.y| + |M|) / b := ⟨_, rfl⟩
      have t0 : 0 ≤ t := by rw [ht]; exact div_nonneg (by positivity) (by linarith)
      rw [hfar t t0]
      apply hu
      have : t * b = (|x.y| + |M|) := by rw [ht]; field_simp
      simp only
      rw [this]
      linarith [neg_abs_le x.y, le_abs_self M]
  · obtain ⟨t, ht⟩ : ∃ t, t = (|x.x| + |M|) / a := ⟨_, rfl⟩
    have t0 : 0 ≤ t := by rw [ht]; exact div_nonneg (by positivity) (by linarith)
    rw [hfar t t0]
    apply hr
    have : t * a = (|x.x| + |M|) := by rw [ht]; field_simp
    simp only
    rw [this]
    linarith [neg_abs_le x.x, le_abs_self M]

end
end Cavc

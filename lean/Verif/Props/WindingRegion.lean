import Verif.Proofs.CrossJump
import Verif.Props.CombineRun

/-!
C70. The winding number of a closed polyline with arcs as a function of the point: it is the same on
connected sets that do not meet the polyline, zero beyond it, and changes by one where the polyline is
crossed.
-/
namespace Cavc
open Spec
open scoped Classical Topology
noncomputable section

/-- C70. Two points of a connected set that does not meet the closed polyline have the same winding
number. -/
theorem C70_connected (p : Polyline) (hok : PlineOk p) (hc : p.isClosed = true) (S : Set (ℝ × ℝ)) (hS : IsPreconnected S)
    (hoff : ∀ z ∈ S, ¬ OnPline p ⟨z.1, z.2⟩) :
    ∃ k : ℤ, ∀ z ∈ S, getWindingNumber p ⟨z.1, z.2⟩ = .ok k := by
  by_cases h2 : p.size < 2
  · exact ⟨0, fun z _ => C26_trivial p _ (Or.inr h2)⟩
  rw [not_lt] at h2
  rcases S.eq_empty_or_nonempty with rfl | ⟨z0, h0⟩
  · exact ⟨0, by simp⟩
  obtain ⟨k, hk⟩ := turnAll_int hok hc h2 (hoff z0 h0)
  refine ⟨k, fun z hz => ?_⟩
  rw [getWinding_turnAll hok hc h2 (hoff z hz), ← hk]
  have := turnAll_const hok hc h2 hS hoff hz h0
  unfold toV at this
  rw [this]

/-- C70. A point that is beyond the polyline in some direction has winding number 0: in particular every
point outside of its extents or its convex hull. -/
theorem C70_beyond (p : Polyline) (hok : PlineOk p) (x : V2) (a b : ℝ)
    (h : ∀ y, OnPline p y → a * y.x + b * y.y < a * x.x + b * x.y) : getWindingNumber p x = .ok 0 := by
  by_cases hc : p.isClosed = true
  swap
  · exact C26_trivial p _ (Or.inl (by simpa using hc))
  by_cases h2 : p.size < 2
  · exact C26_trivial p _ (Or.inr h2)
  rw [not_lt] at h2
  rw [getWinding_turnAll hok hc h2 (fun ho => lt_irrefl _ (h x ho)), turnAll_beyond hok hc h2 h]
  simp

/-- C70. In an unbounded connected set that does not meet the polyline the winding number is 0. -/
theorem C70_unbounded (p : Polyline) (hok : PlineOk p) (hc : p.isClosed = true) (S : Set (ℝ × ℝ)) (hS : IsPreconnected S)
    (hoff : ∀ z ∈ S, ¬ OnPline p ⟨z.1, z.2⟩) (hun : ¬ Bornology.IsBounded S) :
    ∀ z ∈ S, getWindingNumber p ⟨z.1, z.2⟩ = .ok 0 := by
  by_cases h2 : p.size < 2
  · exact fun z _ => C26_trivial p _ (Or.inr h2)
  rw [not_lt] at h2
  obtain ⟨k, hk⟩ := C70_connected p hok hc S hS hoff
  obtain ⟨M, hM⟩ := onPline_bounded hc h2
  obtain ⟨w, hw, hfar⟩ : ∃ w ∈ S, M < |w.1| ∨ M < |w.2| := by
    by_contra hn
    push Not at hn
    apply hun
    rw [isBounded_iff_forall_norm_le]
    refine ⟨M, fun w hw => ?_⟩
    rw [Prod.norm_def]
    exact max_le (hn w hw).1 (hn w hw).2
  have h0 : getWindingNumber p ⟨w.1, w.2⟩ = .ok 0 := by
    rcases hfar with h | h
    · rcases abs_cases w.1 with ⟨e, -⟩ | ⟨e, -⟩
      · exact C70_beyond p hok _ 1 0 fun y hy => by
          have := (hM y hy).1
          have := le_abs_self y.x
          simp only
          linarith
      · exact C70_beyond p hok _ (-1) 0 fun y hy => by
          have := (hM y hy).1
          have := neg_abs_le y.x
          simp only
          linarith
    · rcases abs_cases w.2 with ⟨e, -⟩ | ⟨e, -⟩
      · exact C70_beyond p hok _ 0 1 fun y hy => by
          have := (hM y hy).2
          have := le_abs_self y.y
          simp only
          linarith
      · exact C70_beyond p hok _ 0 (-1) fun y hy => by
          have := (hM y hy).2
          have := neg_abs_le y.y
          simp only
          linarith
  have := hk w hw
  rw [h0] at this
  intro z hz
  rw [hk z hz, ← Except.ok.inj this]

theorem onSeg_closed (v e : Vertex) : IsClosed {z : ℝ × ℝ | OnSeg v e (toV z)} := by
  have : {z : ℝ × ℝ | OnSeg v e (toV z)} = (fun t => xy (segPt v e t)) '' Set.Icc 0 1 := by
    ext z
    rw [Set.mem_ofPred_eq, onSeg_segPt]
    constructor
    · rintro ⟨t, t0, t1, he⟩
      exact ⟨t, ⟨t0, t1⟩, by show xy (segPt v e t) = z; rw [← he]; rfl⟩
    · rintro ⟨t, ht, rfl⟩
      exact ⟨t, ht.1, ht.2, rfl⟩
  rw [this]
  exact (isCompact_Icc.image (continuous_segPt v e)).isClosed

/-- C70. Where a path crosses a segment of the closed polyline at an inner point that is on no other
segment, and not in its direction, the winding number changes by one: up from right to left and down from
left to right. -/
theorem C70_crossing (p : Polyline) (hok : PlineOk p) (hc : p.isClosed = true) (i : ℕ) (v1 v2 : Vertex)
    (hs : IsSeg p i v1 v2) (hlen : ¬ Near (1 / 10 ^ 8) v1.pos v2.pos) (γ : ℝ → V2) (hγ : IsPath v1 v2 γ)
    (s : ℝ) (s0 : 0 < s) (s1 : s < 1)
    (hother : ∀ j w1 w2, IsSeg p j w1 w2 → j ≠ i → ¬ OnSeg w1 w2 (γ s))
    (u1 u2 : Vertex) (η : ℝ → V2) (hη : IsPath u1 u2 η) (t : ℝ) (hmeet : η t = γ s) (D : ℝ)
    (hDd : D = (velocity γ s).x * (velocity η t).y - (velocity γ s).y * (velocity η t).x) (hD : D ≠ 0) :
    ∃ ε > 0, ∀ δ, 0 < δ → δ < ε → ∃ k : ℤ, getWindingNumber p (η (t - δ)) = .ok k ∧
      getWindingNumber p (η (t + δ)) = .ok (k + if 0 < D then 1 else -1) := by
  obtain ⟨hi, h2, rfl, rfl⟩ := seg_rv hc hs
  rw [isPath_segPt] at hγ hη
  subst hγ hη
  rw [velocity_segPt, velocity_segPt] at hDd
  have hne : 1 / 10 ^ 8 ≤ |(rv p i).pos.x - (rv p (i + 1)).pos.x| ∨ 1 / 10 ^ 8 ≤ |(rv p i).pos.y - (rv p (i + 1)).pos.y| := by
    unfold Near at hlen
    rw [not_and_or, not_lt, not_lt] at hlen
    exact hlen
  have hoth : ∀ j < p.size, j ≠ i → ¬ OnSeg (rv p j) (rv p (j + 1)) (segPt (rv p i) (rv p (i + 1)) s) := by
    intro j hj hji
    have := rv_seg hc h2 j
    rw [Nat.mod_eq_of_lt hj] at this
    exact hother j _ _ this hji
  have hDv : D = velCross u1 u2 t (rv p i) (rv p (i + 1)) s := hDd
  have key := wind_cross hok hc h2 hi hne s0 s1 hoth hmeet (by rw [← hDv]; exact hD)
  -- near the crossing the path is off the polyline
  obtain ⟨κ, hκ, hder⟩ := leftOf_deriv (w := rv p (i + 1)) hmeet (fun hl => ((hok _ _ _ hs).arcOk hl).b_ne)
  have hsg := sign_near hder (by rw [hmeet]; exact leftOf_self _ _ _) (mul_ne_zero hκ.ne' (by rw [← hDv]; exact hD))
  have hoff : ∀ᶠ x in 𝓝 (xy (segPt u1 u2 t)), ∀ j ∈ (Finset.range p.size), j ≠ i → ¬ OnSeg (rv p j) (rv p (j + 1)) (toV x) := by
    rw [Filter.eventually_all_finset]
    intro j hj
    by_cases hji : j = i
    · exact Filter.Eventually.of_forall fun x h => absurd hji h
    · have : {z : ℝ × ℝ | OnSeg (rv p j) (rv p (j + 1)) (toV z)}ᶜ ∈ 𝓝 (xy (segPt u1 u2 t)) := by
        refine (onSeg_closed _ _).isOpen_compl.mem_nhds ?_
        rw [Set.mem_compl_iff, Set.mem_ofPred_eq, toV_xy, hmeet]
        exact hoth j (Finset.mem_range.1 hj) hji
      filter_upwards [this] with x hx _ ho
      exact hx ho
  have hcont := (continuous_segPt u1 u2)
  have t1 : Filter.Tendsto (fun δ : ℝ => xy (segPt u1 u2 (t + δ))) (𝓝[>] 0) (𝓝 (xy (segPt u1 u2 t))) := by
    have : Continuous fun δ : ℝ => xy (segPt u1 u2 (t + δ)) := hcont.comp (continuous_const.add continuous_id)
    have := (this.tendsto 0).mono_left (nhdsWithin_le_nhds (s := Set.Ioi 0))
    simpa using this
  have t2 : Filter.Tendsto (fun δ : ℝ => xy (segPt u1 u2 (t - δ))) (𝓝[>] 0) (𝓝 (xy (segPt u1 u2 t))) := by
    have : Continuous fun δ : ℝ => xy (segPt u1 u2 (t - δ)) := hcont.comp (continuous_const.sub continuous_id)
    have := (this.tendsto 0).mono_left (nhdsWithin_le_nhds (s := Set.Ioi 0))
    simpa using this
  have hall : ∀ᶠ δ in 𝓝[>] (0 : ℝ), ∃ k : ℤ, getWindingNumber p (segPt u1 u2 (t - δ)) = .ok k ∧
      getWindingNumber p (segPt u1 u2 (t + δ)) = .ok (k + if 0 < D then 1 else -1) := by
    filter_upwards [key, hsg, t1.eventually hoff, t2.eventually hoff] with δ hk hl h3 h4
    have off : ∀ {x}, leftOf (rv p i) (rv p (i + 1)) x ≠ 0 →
        (∀ j ∈ Finset.range p.size, j ≠ i → ¬ OnSeg (rv p j) (rv p (j + 1)) x) → ¬ OnPline p x := by
      rintro x hx hj ⟨j, w1, w2, hw, ho⟩
      obtain ⟨h1, -, rfl, rfl⟩ := seg_rv hc hw
      by_cases hji : j = i
      · subst hji
        obtain ⟨r, -, -, rfl⟩ := onSeg_segPt.1 ho
        exact hx (leftOf_self _ _ _)
      · exact hj j (Finset.mem_range.2 h1) hji ho
    have o1 := off hl.1.1 (by simpa using h3)
    have o2 := off hl.2.1 (by simpa using h4)
    have := hk o1 o2
    obtain ⟨k, hkk⟩ := turnAll_int hok hc h2 o2
    refine ⟨k, (getWinding_turnAll hok hc h2 o2).2 hkk.symm, (getWinding_turnAll hok hc h2 o1).2 ?_⟩
    rw [this, hkk, ← hDv]
    split_ifs <;> push_cast <;> ring
  rw [eventually_nhdsWithin_iff, Metric.eventually_nhds_iff] at hall
  obtain ⟨ε, hε, h⟩ := hall
  refine ⟨ε, hε, fun δ d0 d1 => h ?_ d0⟩
  rw [Real.dist_eq, sub_zero, abs_of_pos d0]
  exact d1

/-! ### The disc of radius 5 -/

theorem arc5 (x : ℝ) : ¬ IsLine ⟨⟨x, 0⟩, 1⟩ := by unfold IsLine; norm_num

theorem disc5_on {x : V2} (h : OnPline disc5 x) : x.x ^ 2 + x.y ^ 2 = 25 := by
  obtain ⟨i, v1, v2, hs, ho⟩ := h
  rcases disc5_seg hs with ⟨rfl, rfl⟩ | ⟨rfl, rfl⟩
  · obtain ⟨t, -, -, rfl⟩ := (onSeg_arc (arc5 _)).1 ho
    have := Real.sin_sq_add_cos_sq (t * sweep ⟨⟨-5, 0⟩, 1⟩)
    norm_num [rot, centerOf]
    nlinarith
  · obtain ⟨t, -, -, rfl⟩ := (onSeg_arc (arc5 _)).1 ho
    have := Real.sin_sq_add_cos_sq (t * sweep ⟨⟨5, 0⟩, 1⟩)
    norm_num [rot, centerOf]
    nlinarith

-- the inside of the disc: a square around the centre
example : ∃ k : ℤ, ∀ z ∈ Metric.ball (0 : ℝ × ℝ) 3, getWindingNumber disc5 ⟨z.1, z.2⟩ = .ok k := by
  refine C70_connected disc5 disc5_ok rfl _ (convex_ball _ _).isPreconnected ?_
  intro z hz ho
  have h := disc5_on ho
  rw [mem_ball_zero_iff] at hz
  have h1 := (norm_fst_le z).trans_lt hz
  have h2 := (norm_snd_le z).trans_lt hz
  rw [Real.norm_eq_abs, abs_lt] at h1 h2
  simp only at h
  nlinarith

-- a point beyond it
example : getWindingNumber disc5 ⟨4, 4⟩ = .ok 0 :=
  C70_beyond disc5 disc5_ok _ 1 1 fun y hy => by
    have := disc5_on hy
    norm_num
    nlinarith [sq_nonneg (y.x - y.y), sq_nonneg (y.x + y.y - 8)]

example : ∀ z ∈ {z : ℝ × ℝ | 6 ≤ 1 * z.1 + 0 * z.2}, getWindingNumber disc5 ⟨z.1, z.2⟩ = .ok 0 := by
  refine C70_unbounded disc5 disc5_ok rfl _ (halfplane_conn 1 0 6) ?_ ?_
  · rintro z hz ho
    have := disc5_on ho
    simp only [Set.mem_ofPred_eq] at hz this
    nlinarith [sq_nonneg z.2]
  · intro hb
    obtain ⟨M, hM⟩ := isBounded_iff_forall_norm_le.1 hb
    have h1 := hM (|M| + 6, 0) (by simp)
    have h2 := norm_fst_le ((|M| + 6, 0) : ℝ × ℝ)
    simp only [Real.norm_eq_abs] at h2
    rw [abs_of_pos (by positivity)] at h2
    linarith [le_abs_self M]

-- downwards out of the disc through its lowest point
example : ∃ ε > 0, ∀ δ, 0 < δ → δ < ε → ∃ k : ℤ,
    getWindingNumber disc5 (segPt ⟨⟨0, 0⟩, 0⟩ ⟨⟨0, -10⟩, 0⟩ (1 / 2 - δ)) = .ok k ∧
    getWindingNumber disc5 (segPt ⟨⟨0, 0⟩, 0⟩ ⟨⟨0, -10⟩, 0⟩ (1 / 2 + δ)) = .ok (k - 1) := by
  have hl : IsLine ⟨⟨0, 0⟩, 0⟩ := by unfold IsLine; norm_num
  have ha : ¬ IsLine ⟨⟨-5, 0⟩, 1⟩ := by unfold IsLine; norm_num
  have hsw : (1 / 2 : ℝ) * sweep ⟨⟨-5, 0⟩, 1⟩ = Real.pi / 2 := by
    simp only [sweep, Real.arctan_one]; ring
  have hpt : segPt ⟨⟨-5, 0⟩, 1⟩ ⟨⟨5, 0⟩, 1⟩ (1 / 2) = ⟨0, -5⟩ := by
    unfold segPt
    rw [if_neg ha]
    show rot (centerOf ⟨⟨-5, 0⟩, 1⟩ ⟨⟨5, 0⟩, 1⟩) (1 / 2 * sweep ⟨⟨-5, 0⟩, 1⟩) ⟨-5, 0⟩ = _
    rw [hsw]
    ext <;> norm_num [rot, centerOf, Real.sin_pi_div_two, Real.cos_pi_div_two]
  have hpt2 : segPt ⟨⟨0, 0⟩, 0⟩ ⟨⟨0, -10⟩, 0⟩ (1 / 2) = ⟨0, -5⟩ := by
    unfold segPt
    rw [if_pos hl]
    ext <;> norm_num [lerp]
  have hv : (vel ⟨⟨-5, 0⟩, 1⟩ ⟨⟨5, 0⟩, 1⟩ (1 / 2)) = ⟨5 * Real.pi, 0⟩ := by
    unfold vel
    rw [if_neg ha, hpt]
    have : sweep ⟨⟨-5, 0⟩, 1⟩ = Real.pi := by linarith
    rw [this]
    ext <;> norm_num [centerOf]
    ring
  have hv2 : (vel ⟨⟨0, 0⟩, 0⟩ ⟨⟨0, -10⟩, 0⟩ (1 / 2)) = ⟨0, -10⟩ := by
    unfold vel
    rw [if_pos hl]
    show V2.mk (0 - 0) (-10 - 0) = _
    norm_num
  have hs : IsSeg disc5 0 ⟨⟨-5, 0⟩, 1⟩ ⟨⟨5, 0⟩, 1⟩ := by simp [IsSeg, segs, disc5]
  have key := C70_crossing disc5 disc5_ok rfl 0 _ _ hs (by unfold Near; norm_num) _ (isPath_segPt.2 rfl) (1 / 2)
    (by norm_num) (by norm_num) (by
      intro j w1 w2 hw hj ho
      rcases disc5_seg hw with ⟨rfl, rfl⟩ | ⟨rfl, rfl⟩
      · have h0 := seg_rv (p := disc5) rfl hw
        have : j < 2 := h0.1
        interval_cases j
        · exact hj rfl
        · simp [IsSeg, segs, disc5] at hw
          norm_num at hw
      · rw [hpt] at ho
        have hsp := (onSeg_arc (arc5 _)).1 ho
        obtain ⟨t, t0, t1, he⟩ := hsp
        have e2 : sweep ⟨⟨5, 0⟩, 1⟩ = Real.pi := by simp only [sweep, Real.arctan_one]; ring
        rw [e2] at he
        have h1 := congrArg V2.y he
        norm_num [rot, centerOf] at h1
        have := Real.sin_nonneg_of_nonneg_of_le_pi (mul_nonneg t0 Real.pi_pos.le) (by nlinarith [Real.pi_pos])
        linarith)
    ⟨⟨0, 0⟩, 0⟩ ⟨⟨0, -10⟩, 0⟩ _ (isPath_segPt.2 rfl) (1 / 2) (by rw [hpt, hpt2]) _ rfl (by
      rw [velocity_segPt, velocity_segPt, hv, hv2]
      have := Real.pi_pos
      norm_num)
  obtain ⟨ε, hε, h⟩ := key
  refine ⟨ε, hε, fun δ d0 d1 => ?_⟩
  obtain ⟨k, h1, h2⟩ := h δ d0 d1
  refine ⟨k, h1, ?_⟩
  rw [h2]
  rw [velocity_segPt, velocity_segPt, hv, hv2, if_neg (by have := Real.pi_pos; norm_num; positivity)]
  rfl

end
end Cavc

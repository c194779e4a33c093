import Verif.Proofs.RawParts
import Verif.Proofs.CrossJump

/-! Around a point inside a part of the raw offset of a polygon that is far enough away and that is passed only
once, the points further away from the polygon are those on one side of that part. -/
namespace Cavc
open Spec
open scoped Classical Topology
noncomputable section

section
variable {P : ℕ → V2} {n : ℕ} {o : ℝ} {ls : ℕ → List Vertex}

/-- `x` is on the side with winding number `V`, and further than `|o|` away from the polygon. -/
def DeepP (P : ℕ → V2) (n : ℕ) (o : ℝ) (V : ℤ) (x : V2) : Prop :=
  polyW P n x = V ∧ ∀ k < n, ∀ z, OnLine (P k) (P (k + 1)) z → o ^ 2 < dist2 x z

theorem SimpleP.polyW_near (hs : SimpleP P n) {x0 : V2} (h : OffP P n x0) :
    ∀ᶠ x in 𝓝 (xy x0), polyW P n (toV x) = polyW P n x0 := by
  obtain ⟨ρ, hρ, hcl⟩ := clear_near (P := P) (n := n) (J := fun _ => False) (p := x0) (fun k hk _ => h k hk)
  have : ∀ᶠ x in 𝓝 (xy x0), dist x (xy x0) < ρ := Metric.ball_mem_nhds _ hρ
  filter_upwards [this] with x hx
  rw [Prod.dist_eq, max_lt_iff] at hx
  have hn : Near ρ (toV x) x0 := ⟨hx.1, hx.2⟩
  exact polyW_const hs.closed fun t t0 t1 k hk ho =>
    hcl _ (near_lerp hn (near_self hρ x0) t0 t1) k hk (fun q => q) ho

theorem farP_off (ho : o ≠ 0) {x0 : V2} (h : FarP P n o x0) : OffP P n x0 := by
  intro k hk hz
  have := h k hk _ hz
  rw [show dist2 x0 x0 = 0 by simp [dist2]] at this
  have : 0 < o ^ 2 := by positivity
  linarith

/-- Points of a segment that are all further away than `d` are so from all points around. -/
theorem far_near {a b x0 : V2} {d : ℝ} (h : ∀ z, OnLine a b z → d < dist2 x0 z) :
    ∀ᶠ x in 𝓝 (xy x0), ∀ z, OnLine a b z → d < dist2 (toV x) z := by
  have : ∀ᶠ x : ℝ × ℝ in 𝓝 (xy x0), ∀ t ∈ Set.Icc (0 : ℝ) 1, d < dist2 (toV x) (lerp a b t) := by
    apply isCompact_Icc.eventually_forall_of_forall_eventually
    intro t ht
    have hc : Continuous fun q : (ℝ × ℝ) × ℝ => dist2 (toV q.1) (lerp a b q.2) := by
      unfold dist2 toV lerp
      fun_prop
    exact hc.continuousAt.eventually (lt_mem_nhds (h _ ⟨t, ht.1, ht.2, rfl⟩))
  filter_upwards [this] with x hx z ⟨t, t0, t1, hz⟩
  rw [hz]
  exact hx t ⟨t0, t1⟩

/-- The ends of the line after corner `i`, and their parameters. -/
theorem RawP.lineEnds (h : RawP P n o ls) {i : ℕ} (hi : i < n) {u v : Vertex} (hu : (ls i).getLast? = some u)
    (hv : (ls ((i + 1) % n)).head? = some v) : ∃ tS tE, IsLine u ∧
    0 ≤ tS ∧ tS ≤ 1 ∧ 0 ≤ tE ∧ tE ≤ 1 ∧
    (tS = 0 ∨ ∃ t0, 0 ≤ t0 ∧ t0 ≤ 1 ∧ offE P o i t0 = offE P o (i + 1) tS ∧ 0 < o * bend P i) ∧
    (tE = 1 ∨ ∃ t1, 0 ≤ t1 ∧ t1 ≤ 1 ∧ 0 < o * bend P ((i + 1) % n) ∧
      offE P o ((i + 1) % n) tE = offE P o ((i + 1) % n + 1) t1) ∧
    u.pos = offE P o (i + 1) tS ∧ v.pos = offE P o (i + 1) tE := by
  obtain ⟨n1, n2, n3, n4⟩ := h.simple.next hi
  have hcg : ∀ t, offE P o ((i + 1) % n) t = offE P o (i + 1) t := fun t => offE_congr n3 n4 t
  obtain ⟨tS, hl, a0, a1, ea, hS⟩ : ∃ tS, IsLine u ∧ 0 ≤ tS ∧ tS ≤ 1 ∧
      u.pos = offE P o (i + 1) tS ∧
      (tS = 0 ∨ ∃ t0, 0 ≤ t0 ∧ t0 ≤ 1 ∧ offE P o i t0 = offE P o (i + 1) tS ∧ 0 < o * bend P i) := by
    rcases h.corner i hi with ⟨v, t0, t1, e, hl, a0, a1, b0, b1, e0, e1, hb⟩ | ⟨w, w', e, hl, e0, e1, -⟩
    · rw [e] at hu
      cases hu
      exact ⟨t1, hl, b0, b1, e1, Or.inr ⟨t0, a0, a1, e0.symm.trans e1, hb⟩⟩
    · rw [e] at hu
      cases hu
      exact ⟨0, hl, le_rfl, zero_le_one, e1, Or.inl rfl⟩
  obtain ⟨tE, b0, b1, eb, hE⟩ : ∃ tE, 0 ≤ tE ∧ tE ≤ 1 ∧
      v.pos = offE P o ((i + 1) % n) tE ∧
      (tE = 1 ∨ ∃ t1, 0 ≤ t1 ∧ t1 ≤ 1 ∧ 0 < o * bend P ((i + 1) % n) ∧
        offE P o ((i + 1) % n) tE = offE P o ((i + 1) % n + 1) t1) := by
    rcases h.corner _ n1 with ⟨v, t0, t1, e, hl, a0, a1, b0, b1, e0, e1, hb⟩ | ⟨w, w', e, hl, e0, e1, -⟩
    · rw [e] at hv
      cases hv
      exact ⟨t0, a0, a1, e0, Or.inr ⟨t1, b0, b1, hb, e0.symm.trans e1⟩⟩
    · rw [e] at hv
      cases hv
      exact ⟨1, zero_le_one, le_rfl, e0, Or.inl rfl⟩
  exact ⟨tS, tE, hl, a0, a1, b0, b1, hS, hE, ea, by rw [eb, hcg]⟩

/-- The square of the distance from the edge, where the foot is inside the edge. -/
theorem dist2_edge (a b x : V2) (t : ℝ) :
    dist2 a b * dist2 x (lerp a b t) = cross a b x ^ 2 +
      (((b.x - a.x) * (x.x - a.x) + (b.y - a.y) * (x.y - a.y)) - t * dist2 a b) ^ 2 := by
  simp only [dist2, cross, lerp]; ring

/-- Around a point inside a line of the raw offset. -/
theorem RawP.line_side (h : RawP P n o ls) {σ : ℝ} {V V' : ℤ} (hV : Sides P n σ V V') (hσ : 0 < σ * o) {i : ℕ}
    (hi : i < n) {u v : Vertex} (hu : (ls i).getLast? = some u) (hv : (ls ((i + 1) % n)).head? = some v)
    (huv : u.pos ≠ v.pos) {s : ℝ} (s0 : 0 < s) (s1 : s < 1) {x0 : V2} (hx0 : x0 = lerp u.pos v.pos s)
    (hf : FarP P n o x0) (ho : Once n ls x0) :
    IsLine u ∧ ∀ᶠ x in 𝓝 (xy x0), DeepP P n o V (toV x) ↔ 0 < σ * cross u.pos v.pos (toV x) := by
  have hs := h.simple
  obtain ⟨n1, n2, n3, n4⟩ := hs.next hi
  obtain ⟨tS, tE, hl, a0, a1, b0, b1, hS, hE, eu, ev⟩ := h.lineEnds hi hu hv
  refine ⟨hl, ?_⟩
  have hne : tS ≠ tE := by rintro rfl; exact huv (eu.trans ev.symm)
  have ext : x0 = offE P o (i + 1) (tS + s * (tE - tS)) := by rw [hx0, eu, ev, lerp_offE]
  obtain ⟨t, ht⟩ : ∃ t, t = tS + s * (tE - tS) := ⟨_, rfl⟩
  rw [← ht] at ext
  have hfw := h.forward hi b0 b1 a0 a1 hS hE (t := t) (by rw [ht]; nlinarith) (by rw [ht]; nlinarith) (ext ▸ hf)
  have hlt : tS < tE := lt_of_le_of_ne (hfw.1.trans hfw.2) hne
  have t0 : 0 < t := by rw [ht]; nlinarith [mul_pos s0 (sub_pos.2 hlt)]
  have t1 : t < 1 := by rw [ht]; nlinarith [mul_pos (sub_pos.2 s1) (sub_pos.2 hlt)]
  have hon : OnLineEl n ls i x0 := ⟨u, v, hu, hv, (onSeg_line hl).2 ⟨s, s0.le, s1.le, hx0⟩⟩
  have xu : x0 ≠ u.pos := by
    intro e
    rw [e, eu] at ext
    have := hs.offE_inj ext
    rw [ht] at this
    nlinarith [mul_pos s0 (sub_pos.2 hlt)]
  have xv : x0 ≠ v.pos := by
    intro e
    rw [e, ev] at ext
    have := hs.offE_inj ext
    rw [ht] at this
    nlinarith [mul_pos (sub_pos.2 s1) (sub_pos.2 hlt)]
  have hW := h.level hV hσ (onRaw_iff.2 ⟨i, hi, Or.inr hon⟩) hf
  -- the other edges are further away
  have hother : ∀ k < n, k ≠ (i + 1) % n → ∀ z, OnLine (P k) (P (k + 1)) z → o ^ 2 < dist2 x0 z := by
    intro k hk hki z hz
    refine lt_of_le_of_ne (hf k hk z hz) fun hd => ?_
    obtain ⟨r, r0, r1, rfl⟩ := hz
    rcases hs.level_cases hV hσ h.bent hW hf hk r0 r1 hd.symm with ⟨r0, r1, hx⟩ | ⟨i', hi', hz, hb, hw⟩
    · obtain ⟨i', hi', -, ei⟩ := hs.vertex_end hk
      obtain ⟨m1, m2, m3, m4⟩ := hs.next hi'
      have hcg : ∀ t, offE P o k t = offE P o (i' + 1) t := by
        intro t; rw [← ei]; exact offE_congr m3 m4 t
      have hon' : OnLineEl n ls i' x0 := by
        rw [hx, hcg]
        rw [hx, hcg] at hf
        exact h.on_line hi' r0.le r1.le hf
      have hii : i ≠ i' := by rintro rfl; exact hki ei.symm
      rcases ho.lines i hi i' hi' hii hon hon' with ⟨e, v', hv', hxv⟩ | ⟨e, v', hv', hxv⟩
      · rw [e] at hv'
        rw [hv'] at hv
        cases hv
        exact xv hxv
      · rw [hv'] at hu
        cases hu
        exact xu hxv
    · have hm := h.on_mid hi' (hV.neg_of hσ hb) hw (by rw [← hz]; exact hd.symm)
      rcases ho.mixed i hi i' hi' hon hm with ⟨e, w, w', hw', hxv⟩ | ⟨e, w, w', hw', hxv⟩
      · rw [e] at hw'
        rw [hw'] at hv
        cases hv
        exact xv hxv
      · rw [e] at hw'
        rw [hw'] at hu
        cases hu
        exact xu hxv
  have hev : ∀ᶠ x in 𝓝 (xy x0), ∀ k ∈ Finset.range n, k ≠ (i + 1) % n → ∀ z, OnLine (P k) (P (k + 1)) z →
      o ^ 2 < dist2 (toV x) z := by
    rw [Filter.eventually_all_finset]
    intro k hk
    by_cases hki : k = (i + 1) % n
    · exact Filter.Eventually.of_forall fun x hn => absurd hki hn
    · filter_upwards [far_near (hother k (Finset.mem_range.1 hk) hki)] with x hx _
      exact hx
  -- the edge itself
  set a := P (i + 1) with ha
  set b := P (i + 2) with hb
  have hl2 : 0 < dist2 a b := dist2_pos (hs.ne (i + 1))
  have hel : 0 < elen P (i + 1) := hs.elen_pos (i + 1)
  have hel2 : elen P (i + 1) ^ 2 = dist2 a b := elen_sq (i + 1)
  have hcr : cross a b x0 = o * elen P (i + 1) := by rw [ext]; exact hs.cross_offE o (i + 1) t
  have hcont : Continuous fun x : ℝ × ℝ => (b.x - a.x) * (x.1 - a.x) + (b.y - a.y) * (x.2 - a.y) := by fun_prop
  have hcc : Continuous fun x : ℝ × ℝ => cross a b (toV x) := by unfold cross toV; fun_prop
  have hpar : (b.x - a.x) * (x0.x - a.x) + (b.y - a.y) * (x0.y - a.y) = t * dist2 a b := by
    rw [ext]
    simp only [offE, normalAt, lerp, dist2, ← ha, show i + 1 + 1 = i + 2 from rfl, ← hb]
    ring
  have e1 : ∀ᶠ x in 𝓝 (xy x0), 0 < (b.x - a.x) * (x.1 - a.x) + (b.y - a.y) * (x.2 - a.y) :=
    (hcont.tendsto (xy x0)).eventually (lt_mem_nhds (by
      show 0 < (b.x - a.x) * (x0.x - a.x) + (b.y - a.y) * (x0.y - a.y)
      rw [hpar]; positivity))
  have e2 : ∀ᶠ x in 𝓝 (xy x0), (b.x - a.x) * (x.1 - a.x) + (b.y - a.y) * (x.2 - a.y) < dist2 a b :=
    (hcont.tendsto (xy x0)).eventually (gt_mem_nhds (by
      show (b.x - a.x) * (x0.x - a.x) + (b.y - a.y) * (x0.y - a.y) < dist2 a b
      rw [hpar]; nlinarith))
  have e3 : ∀ᶠ x in 𝓝 (xy x0), 0 < σ * cross a b (toV x) :=
    ((continuous_const.mul hcc).tendsto (xy x0)).eventually (lt_mem_nhds (by
      show 0 < σ * cross a b (toV (xy x0))
      rw [toV_xy, hcr]
      have := mul_pos hσ hel
      nlinarith))
  filter_upwards [hev, e1, e2, e3, hs.polyW_near (farP_off h.ne hf)] with x h1 h2 h3 h4 h5
  have hcuv : cross u.pos v.pos (toV x) = (tE - tS) * (cross a b (toV x) - o * elen P (i + 1)) := by
    rw [eu, ev]
    have hm : o * elen P (i + 1) = o / elen P (i + 1) * dist2 a b := by
      rw [← hel2]; field_simp
    rw [hm]
    simp only [offE, normalAt, lerp, cross, dist2, ← ha, show i + 1 + 1 = i + 2 from rfl, ← hb]
    ring
  have hiff : (∀ z, OnLine a b z → o ^ 2 < dist2 (toV x) z) ↔ 0 < σ * (cross a b (toV x) - o * elen P (i + 1)) := by
    have key : ∀ r, o ^ 2 < dist2 (toV x) (lerp a b r) ↔ (o * elen P (i + 1)) ^ 2 < dist2 a b * dist2 (toV x) (lerp a b r) := by
      intro r
      rw [mul_pow, hel2, mul_comm (o ^ 2)]
      exact (mul_lt_mul_iff_right₀ hl2).symm
    have hsq : (o * elen P (i + 1)) ^ 2 < cross a b (toV x) ^ 2 ↔ 0 < σ * (cross a b (toV x) - o * elen P (i + 1)) := by
      have q1 : 0 < σ * (o * elen P (i + 1)) := by have := mul_pos hσ hel; nlinarith
      have q2 : σ * σ = 1 := hV.sq
      constructor
      · intro q
        by_contra hn
        have : σ * cross a b (toV x) ≤ σ * (o * elen P (i + 1)) := by linarith [not_lt.1 hn]
        have h6 := mul_self_le_mul_self h4.le this
        have e7 : σ * cross a b (toV x) * (σ * cross a b (toV x)) = cross a b (toV x) ^ 2 := by
          linear_combination cross a b (toV x) ^ 2 * q2
        have e8 : σ * (o * elen P (i + 1)) * (σ * (o * elen P (i + 1))) = (o * elen P (i + 1)) ^ 2 := by
          linear_combination (o * elen P (i + 1)) ^ 2 * q2
        linarith
      · intro q
        have : σ * (o * elen P (i + 1)) < σ * cross a b (toV x) := by linarith
        have h6 := mul_self_lt_mul_self q1.le this
        have e7 : σ * cross a b (toV x) * (σ * cross a b (toV x)) = cross a b (toV x) ^ 2 := by
          linear_combination cross a b (toV x) ^ 2 * q2
        have e8 : σ * (o * elen P (i + 1)) * (σ * (o * elen P (i + 1))) = (o * elen P (i + 1)) ^ 2 := by
          linear_combination (o * elen P (i + 1)) ^ 2 * q2
        linarith
    rw [← hsq]
    constructor
    · intro q
      have := q (lerp a b (((b.x - a.x) * (x.1 - a.x) + (b.y - a.y) * (x.2 - a.y)) / dist2 a b))
        ⟨_, (div_pos h2 hl2).le, by rw [div_le_one hl2]; exact h3.le, rfl⟩
      rw [key, dist2_edge, div_mul_cancel₀ _ hl2.ne'] at this
      simpa [toV] using this
    · rintro q z ⟨r, r0, r1, rfl⟩
      rw [key, dist2_edge]
      have := sq_nonneg (((b.x - a.x) * ((toV x).x - a.x) + (b.y - a.y) * ((toV x).y - a.y)) - r * dist2 a b)
      linarith
  have hmul : 0 < σ * cross u.pos v.pos (toV x) ↔ 0 < σ * (cross a b (toV x) - o * elen P (i + 1)) := by
    rw [hcuv, mul_left_comm]
    exact mul_pos_iff_of_pos_left (sub_pos.2 hlt)
  rw [hmul, ← hiff]
  constructor
  · intro q z hz
    exact q.2 _ n1 z (by rw [n3, n4]; exact hz)
  · intro q
    refine ⟨h5.trans hW, fun k hk z hz => ?_⟩
    by_cases hki : k = (i + 1) % n
    · rw [hki, n3, n4] at hz
      exact q z hz
    · exact h1 k (Finset.mem_range.2 hk) hki z hz

/-- The inner points of an arc are inside the wedge of its corner. -/
theorem RawP.arc_wedge_inner (h : RawP P n o ls) {i : ℕ} {w w' : Vertex} (e0 : w.pos = offE P o i 1)
    (e1 : w'.pos = offE P o (i + 1) 0) (ha : ArcOk w w') (hc : CircularAbout (P (i + 1)) |o| w w')
    (hsg : o * w.bulge < 0) {t : ℝ} (t0 : 0 < t) (t1 : t < 1) {x : V2} (hx : x = rot (centerOf w w') (t * sweep w) w.pos) :
    0 < ahead (P i) (P (i + 1)) x ∧ 0 < ahead (P (i + 2)) (P (i + 1)) x := by
  have hs := h.simple
  have l0 := hs.elen_pos i
  have l1 := hs.elen_pos (i + 1)
  have hcen := isCenter_unique ha.b_ne hc.1
  rw [← hcen] at hx
  have hb := hc.2.2
  have hpi := Real.pi_pos
  have hat : |sweep w| ≤ Real.pi := by
    unfold sweep
    rw [abs_mul, abs_of_pos (by norm_num : (0 : ℝ) < 4)]
    have h1 : |Real.arctan w.bulge| ≤ Real.pi / 4 := by
      rw [abs_le, ← Real.arctan_one]
      rw [abs_le] at hb
      constructor
      · rw [← Real.arctan_neg]; exact Real.arctan_mono hb.1
      · exact Real.arctan_mono hb.2
    linarith
  have hd0 : dist2 w.pos (P (i + 1)) = o ^ 2 := by rw [e0]; exact dist2_offE_end hs.toPolyP i
  have k0 : cross (P (i + 1)) w.pos x = o ^ 2 * Real.sin (t * sweep w) := by
    rw [hx, ← hd0]; simp only [cross, rot, dist2]; ring
  have k1 : cross (P (i + 1)) w'.pos x = - (o ^ 2 * Real.sin ((1 - t) * sweep w)) := by
    have : w'.pos = rot (P (i + 1)) ((1 - t) * sweep w) x := by
      rw [hx, rot_add, ← hc.1]
      congr 1; ring
    have hdx : dist2 x (P (i + 1)) = o ^ 2 := by rw [hx, dist2_rot, hd0]
    rw [this, ← hdx]; simp only [cross, rot, dist2]; ring
  have c0 : cross (P (i + 1)) (offE P o i 1) x * elen P i = - (o * ahead (P i) (P (i + 1)) x) := by
    simp only [cross, offE, normalAt, lerp, ahead]
    field_simp
    ring
  have c1 : cross (P (i + 1)) (offE P o (i + 1) 0) x * elen P (i + 1) = o * ahead (P (i + 2)) (P (i + 1)) x := by
    simp only [cross, offE, normalAt, lerp, ahead]
    field_simp
    ring
  rw [← e0, k0] at c0
  rw [← e1, k1] at c1
  have ho2 : 0 < o ^ 2 := by have := h.ne; positivity
  have sgn : ∀ τ, 0 < τ → τ < 1 → o * Real.sin (τ * sweep w) < 0 := by
    intro τ τ0 τ1
    rcases lt_or_gt_of_ne h.ne with ho | ho
    · have hbp : 0 < w.bulge := pos_of_mul_neg_right hsg ho.le
      have hsw : 0 < sweep w := by unfold sweep; have := Real.arctan_pos.2 hbp; linarith
      rw [abs_of_pos hsw] at hat
      have := Real.sin_pos_of_pos_of_lt_pi (mul_pos τ0 hsw) (by nlinarith)
      exact mul_neg_of_neg_of_pos ho this
    · have hbp : w.bulge < 0 := neg_of_mul_neg_right hsg ho.le
      have hsw : sweep w < 0 := by unfold sweep; have := Real.arctan_lt_zero.2 hbp; linarith
      rw [abs_of_neg hsw] at hat
      have := Real.sin_neg_of_neg_of_neg_pi_lt (mul_neg_of_pos_of_neg τ0 hsw) (by nlinarith)
      exact mul_neg_of_pos_of_neg ho this
  constructor
  · have h1 := sgn t t0 t1
    have : o ^ 2 * ahead (P i) (P (i + 1)) x = - (o ^ 2 * elen P i * (o * Real.sin (t * sweep w))) := by
      linear_combination o * c0
    have h2 : 0 < o ^ 2 * ahead (P i) (P (i + 1)) x := by
      rw [this]
      have := mul_neg_of_pos_of_neg (mul_pos ho2 l0) h1
      linarith
    exact (mul_pos_iff_of_pos_left ho2).1 h2
  · have h1 := sgn (1 - t) (by linarith) (by linarith)
    have : o ^ 2 * ahead (P (i + 2)) (P (i + 1)) x = - (o ^ 2 * elen P (i + 1) * (o * Real.sin ((1 - t) * sweep w))) := by
      linear_combination - o * c1
    have h2 : 0 < o ^ 2 * ahead (P (i + 2)) (P (i + 1)) x := by
      rw [this]
      have := mul_neg_of_pos_of_neg (mul_pos ho2 l1) h1
      linarith
    exact (mul_pos_iff_of_pos_left ho2).1 h2



/-- Around a point inside an arc of the raw offset. -/
theorem RawP.arc_side (h : RawP P n o ls) {σ : ℝ} {V V' : ℤ} (hV : Sides P n σ V V') (hσ : 0 < σ * o) {i : ℕ}
    (hi : i < n) {w w' : Vertex} (hw : ls i = [w, w']) {s : ℝ} (s0 : 0 < s) (s1 : s < 1) {x0 : V2}
    (hx0 : x0 = segPt w w' s) (hf : FarP P n o x0) (ho : Once n ls x0) :
    ∀ᶠ x in 𝓝 (xy x0), DeepP P n o V (toV x) ↔ 0 < σ * leftOf w w' (toV x) := by
  have hs := h.simple
  obtain ⟨n1, n2, n3, n4⟩ := hs.next hi
  have hon : OnMid ls i x0 := ⟨w, w', hw, onSeg_segPt.2 ⟨s, s0.le, s1.le, hx0⟩⟩
  have hb := h.mid_far hi hon hf
  obtain ⟨e0, e1, ha, hc, hsg⟩ : w.pos = offE P o i 1 ∧ w'.pos = offE P o (i + 1) 0 ∧ ArcOk w w' ∧
      CircularAbout (P (i + 1)) |o| w w' ∧ o * w.bulge < 0 := by
    rcases h.corner i hi with ⟨v, t0, t1, e', _⟩ | ⟨w1, w1', e', hl, e0, e1, hk⟩
    · rw [hw] at e'; simp at e'
    · rw [hw] at e'
      simp only [List.cons.injEq, and_true] at e'
      obtain ⟨rfl, rfl⟩ := e'
      rcases hk with ⟨-, ha, hc, hsg⟩ | ⟨hb2, -⟩
      · exact ⟨e0, e1, ha, hc, hsg⟩
      · linarith
  have hcen := isCenter_unique ha.b_ne hc.1
  have hd0 : dist2 w.pos (P (i + 1)) = o ^ 2 := by rw [e0]; exact dist2_offE_end hs.toPolyP i
  have hpt : x0 = rot (centerOf w w') (s * sweep w) w.pos := by rw [hx0]; unfold segPt; rw [if_neg ha.arc]
  have hdx : dist2 x0 (P (i + 1)) = o ^ 2 := by rw [hpt, ← hcen, dist2_rot, hd0]
  obtain ⟨w1, w2⟩ := h.arc_wedge_inner e0 e1 ha hc hsg s0 s1 hpt
  have hW := h.level hV hσ (onRaw_iff.2 ⟨i, hi, Or.inl hon⟩) hf
  have xw : x0 ≠ w.pos := by
    intro e
    rw [e] at w1
    rw [e0, (ahead_start hs.toPolyP i).1] at w1
    exact lt_irrefl _ w1
  have xw' : x0 ≠ w'.pos := by
    intro e
    rw [e] at w2
    rw [e1, (ahead_end hs.toPolyP i).1] at w2
    exact lt_irrefl _ w2
  have hother : ∀ k < n, k ≠ i → k ≠ (i + 1) % n → ∀ z, OnLine (P k) (P (k + 1)) z → o ^ 2 < dist2 x0 z := by
    intro k hk hki hki' z hz
    refine lt_of_le_of_ne (hf k hk z hz) fun hd => ?_
    obtain ⟨r, r0, r1, rfl⟩ := hz
    rcases hs.level_cases hV hσ h.bent hW hf hk r0 r1 hd.symm with ⟨r0, r1, hx⟩ | ⟨i', hi', hz, hb', hw'⟩
    · obtain ⟨i', hi', -, ei⟩ := hs.vertex_end hk
      obtain ⟨m1, m2, m3, m4⟩ := hs.next hi'
      have hcg : ∀ t, offE P o k t = offE P o (i' + 1) t := by
        intro t; rw [← ei]; exact offE_congr m3 m4 t
      have hon' : OnLineEl n ls i' x0 := by
        rw [hx, hcg]
        rw [hx, hcg] at hf
        exact h.on_line hi' r0.le r1.le hf
      rcases ho.mixed i' hi' i hi hon' hon with ⟨e, w1, w1', hw1, hxv⟩ | ⟨e, w1, w1', hw1, hxv⟩
      · rw [hw] at hw1
        simp only [List.cons.injEq, and_true] at hw1
        exact xw (hw1.1 ▸ hxv)
      · rw [hw] at hw1
        simp only [List.cons.injEq, and_true] at hw1
        exact xw' (hw1.2 ▸ hxv)
    · have hm := h.on_mid hi' (hV.neg_of hσ hb') hw' (by rw [← hz]; exact hd.symm)
      by_cases hii : i = i'
      · subst hii
        have q : OnLine (P k) (P (k + 1)) (P (i + 1)) := by rw [← hz]; exact onLine_lerp r0 r1
        rcases hs.apart k i _ hk hi hki q (onLine_end _ _) with ⟨-, q⟩ | ⟨q, -⟩
        · exact hs.ne i q.symm
        · exact hki' q
      · exact ho.mids i hi i' hi' hii hon hm
  have hev : ∀ᶠ x in 𝓝 (xy x0), ∀ k ∈ Finset.range n, k ≠ i → k ≠ (i + 1) % n → ∀ z, OnLine (P k) (P (k + 1)) z →
      o ^ 2 < dist2 (toV x) z := by
    rw [Filter.eventually_all_finset]
    intro k hk
    by_cases hki : k = i ∨ k = (i + 1) % n
    · exact Filter.Eventually.of_forall fun x hn hn' => absurd hki (by tauto)
    · push Not at hki
      filter_upwards [far_near (hother k (Finset.mem_range.1 hk) hki.1 hki.2)] with x hx _ _
      exact hx
  have c1 : Continuous fun x : ℝ × ℝ => ahead (P i) (P (i + 1)) (toV x) := by unfold ahead toV; fun_prop
  have c2 : Continuous fun x : ℝ × ℝ => ahead (P (i + 2)) (P (i + 1)) (toV x) := by unfold ahead toV; fun_prop
  filter_upwards [hev, (c1.tendsto (xy x0)).eventually (lt_mem_nhds w1), (c2.tendsto (xy x0)).eventually (lt_mem_nhds w2),
    hs.polyW_near (farP_off h.ne hf)] with x h1 h2 h3 h5
  have hleft : 0 < σ * leftOf w w' (toV x) ↔ o ^ 2 < dist2 (toV x) (P (i + 1)) := by
    unfold leftOf
    rw [if_neg ha.arc, ← hcen, hd0]
    rcases lt_or_gt_of_ne h.ne with hon | hop
    · have hbp : 0 < w.bulge := pos_of_mul_neg_right hsg hon.le
      have hsn : σ = -1 := by
        rcases hV.1 with q | q
        · rw [q] at hσ; linarith
        · exact q
      rw [if_pos hbp, hsn]
      constructor <;> intro <;> linarith
    · have hbp : w.bulge < 0 := neg_of_mul_neg_right hsg hop.le
      have hsn : σ = 1 := by
        rcases hV.1 with q | q
        · exact q
        · rw [q] at hσ; linarith
      rw [if_neg (not_lt.2 hbp.le), hsn]
      constructor <;> intro <;> linarith
  rw [hleft]
  constructor
  · intro q
    exact q.2 i hi _ (onLine_end _ _)
  · intro q
    have hr : dist2 (toV x) (P (i + 1)) = Real.sqrt (dist2 (toV x) (P (i + 1))) ^ 2 := by
      rw [Real.sq_sqrt]; unfold dist2; positivity
    refine ⟨h5.trans hW, fun k hk z hz => ?_⟩
    by_cases hki : k = i
    · rw [hki] at hz
      have := far_wedge (i := i) (x := toV x) ⟨le_of_lt h2, le_of_lt h3⟩ hr (Or.inl hz)
      rw [← hr] at this
      linarith
    · by_cases hki' : k = (i + 1) % n
      · rw [hki', n3, n4] at hz
        have := far_wedge (i := i) (x := toV x) ⟨le_of_lt h2, le_of_lt h3⟩ hr (Or.inr hz)
        rw [← hr] at this
        linarith
      · exact h1 k (Finset.mem_range.2 hk) hki hki' z hz

end
end
end Cavc

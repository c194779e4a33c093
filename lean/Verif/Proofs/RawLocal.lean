import Verif.Props.OffsetPolygonLevel

/-! Around a point of the raw offset of a polygon that is far enough away and that is passed only once, all
points of the raw offset are far enough away. -/
namespace Cavc
open Spec
open scoped Classical
noncomputable section

section
variable {P : ℕ → V2} {n : ℕ} {o : ℝ} {ls : ℕ → List Vertex}

/-! ### Distances from the edges at a corner -/

theorem PolyP.far_own (hs : PolyP P n) (k : ℕ) (s : ℝ) {z : V2} (hz : OnLine (P k) (P (k + 1)) z) :
    o ^ 2 ≤ dist2 (offE P o k s) z := by
  obtain ⟨u, -, -, rfl⟩ := hz
  rw [hs.offE_own]
  have : 0 ≤ dist2 (P k) (P (k + 1)) := by unfold dist2; positivity
  nlinarith [mul_nonneg (sq_nonneg (s - u)) this]

theorem PolyP.far_next_trim (hs : PolyP P n) {i : ℕ} (hb : bend P i ≠ 0) {t0 t1 s : ℝ}
    (h : offE P o i t0 = offE P o (i + 1) t1) (hs0 : s ≤ t0) {z : V2}
    (hz : OnLine (P (i + 1)) (P (i + 2)) z) : o ^ 2 ≤ dist2 (offE P o i s) z := by
  obtain ⟨u, u0, -, rfl⟩ := hz
  obtain ⟨-, e⟩ := hs.trim hb h
  have l0 := hs.elen_pos i
  have l1 := hs.elen_pos (i + 1)
  have hc := hs.corner_pos i hb
  rw [hs.offE_next]
  set L := elen P i
  set L' := elen P (i + 1)
  have e3 : 2 * u * (o / L) * bend P i = 2 * u / L * ((1 - t0) * L * (L * L' + along P i)) := by
    rw [e]; ring
  rw [e3]
  have e4 : 2 * u / L * ((1 - t0) * L * (L * L' + along P i)) = 2 * u * (1 - t0) * (L * L' + along P i) := by
    field_simp
  rw [e4]
  have e5 : 2 * u * (1 - t0) * (L * L' + along P i) ≤ 2 * u * (1 - s) * (L * L' + along P i) := by
    apply mul_le_mul_of_nonneg_right _ hc.le
    nlinarith
  nlinarith [sq_nonneg ((1 - s) * L - u * L')]

theorem PolyP.far_prev_trim (hs : PolyP P n) {i : ℕ} (hb : bend P i ≠ 0) {t0 t1 s : ℝ}
    (h : offE P o i t0 = offE P o (i + 1) t1) (hs0 : t1 ≤ s) {z : V2}
    (hz : OnLine (P i) (P (i + 1)) z) : o ^ 2 ≤ dist2 (offE P o (i + 1) s) z := by
  obtain ⟨u, -, u1, rfl⟩ := hz
  obtain ⟨e1, e⟩ := hs.trim hb h
  rw [e1] at e
  have l0 := hs.elen_pos i
  have l1 := hs.elen_pos (i + 1)
  have hc := hs.corner_pos i hb
  rw [hs.offE_prev]
  set L := elen P i
  set L' := elen P (i + 1)
  have e3 : 2 * (1 - u) * (o / L') * bend P i = 2 * (1 - u) / L' * (t1 * L' * (L * L' + along P i)) := by
    rw [e]; ring
  rw [e3]
  have e4 : 2 * (1 - u) / L' * (t1 * L' * (L * L' + along P i)) = 2 * (1 - u) * t1 * (L * L' + along P i) := by
    field_simp
  rw [e4]
  have e5 : 2 * (1 - u) * t1 * (L * L' + along P i) ≤ 2 * (1 - u) * s * (L * L' + along P i) := by
    apply mul_le_mul_of_nonneg_right _ hc.le
    nlinarith
  nlinarith [sq_nonneg (s * L' - (1 - u) * L)]

theorem PolyP.along_ge (hs : PolyP P n) (i : ℕ) : - (elen P i * elen P (i + 1)) ≤ along P i := by
  have h := along_sq (P := P) i
  have h1 := mul_pos (hs.elen_pos i) (hs.elen_pos (i + 1))
  have : along P i ^ 2 ≤ (elen P i * elen P (i + 1)) ^ 2 := by nlinarith [sq_nonneg (bend P i)]
  exact (abs_le_of_sq_le_sq' this h1.le).1

theorem PolyP.far_next_reflex (hs : PolyP P n) {i : ℕ} (hb : o * bend P i < 0) {s : ℝ} (hs1 : s ≤ 1) {z : V2}
    (hz : OnLine (P (i + 1)) (P (i + 2)) z) : o ^ 2 ≤ dist2 (offE P o i s) z := by
  obtain ⟨u, u0, -, rfl⟩ := hz
  have l0 := hs.elen_pos i
  have l1 := hs.elen_pos (i + 1)
  have hc := hs.along_ge i
  rw [hs.offE_next]
  set L := elen P i
  set L' := elen P (i + 1)
  have e3 : 2 * u * (o / L) * bend P i = 2 * u / L * (o * bend P i) := by ring
  rw [e3]
  have e4 : 2 * u / L * (o * bend P i) ≤ 0 :=
    mul_nonpos_of_nonneg_of_nonpos (by positivity) hb.le
  have e5 : 2 * (1 - s) * u * (-(L * L')) ≤ 2 * (1 - s) * u * along P i :=
    mul_le_mul_of_nonneg_left hc (mul_nonneg (by linarith) u0)
  nlinarith [sq_nonneg ((1 - s) * L - u * L')]

theorem PolyP.far_prev_reflex (hs : PolyP P n) {i : ℕ} (hb : o * bend P i < 0) {s : ℝ} (hs1 : 0 ≤ s) {z : V2}
    (hz : OnLine (P i) (P (i + 1)) z) : o ^ 2 ≤ dist2 (offE P o (i + 1) s) z := by
  obtain ⟨u, -, u1, rfl⟩ := hz
  have l0 := hs.elen_pos i
  have l1 := hs.elen_pos (i + 1)
  have hc := hs.along_ge i
  rw [hs.offE_prev]
  set L := elen P i
  set L' := elen P (i + 1)
  have e3 : 2 * (1 - u) * (o / L') * bend P i = 2 * (1 - u) / L' * (o * bend P i) := by ring
  rw [e3]
  have e4 : 2 * (1 - u) / L' * (o * bend P i) ≤ 0 :=
    mul_nonpos_of_nonneg_of_nonpos (div_nonneg (by linarith) l1.le) hb.le
  have e5 : 2 * s * (1 - u) * (-(L * L')) ≤ 2 * s * (1 - u) * along P i :=
    mul_le_mul_of_nonneg_left hc (mul_nonneg (by linarith) (by linarith))
  nlinarith [sq_nonneg (s * L' - (1 - u) * L)]

theorem far_wedge {i : ℕ} {x : V2} (hw : Wedge P i x) (hd : dist2 x (P (i + 1)) = o ^ 2) {z : V2}
    (hz : OnLine (P i) (P (i + 1)) z ∨ OnLine (P (i + 1)) (P (i + 2)) z) : o ^ 2 ≤ dist2 x z := by
  rcases hz with ⟨u, u0, u1, rfl⟩ | ⟨u, u0, u1, rfl⟩
  · have q : dist2 x (lerp (P i) (P (i + 1)) u) =
        dist2 x (P (i + 1)) + 2 * (1 - u) * ahead (P i) (P (i + 1)) x + (1 - u) ^ 2 * dist2 (P i) (P (i + 1)) := by
      simp only [ahead, dist2, lerp]; ring
    rw [q, hd]
    have h1 := mul_nonneg (sub_nonneg.2 u1) hw.1
    have h2 : 0 ≤ (1 - u) ^ 2 * dist2 (P i) (P (i + 1)) := by unfold dist2; positivity
    linarith
  · have q : dist2 x (lerp (P (i + 1)) (P (i + 2)) u) =
        dist2 x (P (i + 1)) + 2 * u * ahead (P (i + 2)) (P (i + 1)) x + u ^ 2 * dist2 (P (i + 1)) (P (i + 2)) := by
      simp only [ahead, dist2, lerp]; ring
    rw [q, hd]
    have h1 := mul_nonneg u0 hw.2
    have h2 : 0 ≤ u ^ 2 * dist2 (P (i + 1)) (P (i + 2)) := by unfold dist2; positivity
    linarith

/-- The points of an arc are in the wedge of its corner. -/
theorem RawG.arc_wedge (h : RawG P n o ls) {i : ℕ} {w w' : Vertex} (e0 : w.pos = offE P o i 1)
    (e1 : w'.pos = offE P o (i + 1) 0) (ha : ArcOk w w') (hc : CircularAbout (P (i + 1)) |o| w w')
    (hsg : o * w.bulge < 0) {x : V2} (hx : OnSeg w w' x) : Wedge P i x := by
  have hs := h.poly
  have l0 := hs.elen_pos i
  have l1 := hs.elen_pos (i + 1)
  have hcen := isCenter_unique ha.b_ne hc.1
  obtain ⟨t, t0, t1, hx⟩ := (onSeg_arc ha.arc).1 hx
  rw [← hcen] at hx
  have hb := hc.2.2
  have hpi := Real.pi_pos
  have hat : |sweep w| ≤ Real.pi := by
    unfold sweep
    rw [abs_mul, abs_of_pos (by norm_num : (0 : ℝ) < 4)]
    have h1 : |Real.arctan w.bulge| ≤ Real.pi / 4 := by
      rw [abs_le, ← Real.arctan_one]
      rw [abs_le] at hb
      constructor
      · rw [← Real.arctan_neg]; exact Real.arctan_mono hb.1
      · exact Real.arctan_mono hb.2
    linarith
  have hd0 : dist2 w.pos (P (i + 1)) = o ^ 2 := by rw [e0]; exact dist2_offE_end hs i
  have k0 : cross (P (i + 1)) w.pos x = o ^ 2 * Real.sin (t * sweep w) := by
    rw [hx, ← hd0]; simp only [cross, rot, dist2]; ring
  have k1 : cross (P (i + 1)) w'.pos x = - (o ^ 2 * Real.sin ((1 - t) * sweep w)) := by
    have : w'.pos = rot (P (i + 1)) ((1 - t) * sweep w) x := by
      rw [hx, rot_add, ← hc.1]
      congr 1; ring
    have hdx : dist2 x (P (i + 1)) = o ^ 2 := by rw [hx, dist2_rot, hd0]
    rw [this, ← hdx]; simp only [cross, rot, dist2]; ring
  have c0 : cross (P (i + 1)) (offE P o i 1) x * elen P i = - (o * ahead (P i) (P (i + 1)) x) := by
    simp only [cross, offE, normalAt, lerp, ahead]
    field_simp
    ring
  have c1 : cross (P (i + 1)) (offE P o (i + 1) 0) x * elen P (i + 1) = o * ahead (P (i + 2)) (P (i + 1)) x := by
    simp only [cross, offE, normalAt, lerp, ahead]
    field_simp
    ring
  rw [← e0, k0] at c0
  rw [← e1, k1] at c1
  have ho2 : 0 < o ^ 2 := by have := h.ne; positivity
  have sgn : ∀ τ, 0 ≤ τ → τ ≤ 1 → o * Real.sin (τ * sweep w) ≤ 0 := by
    intro τ τ0 τ1
    rcases lt_or_gt_of_ne h.ne with ho | ho
    · have hbp : 0 < w.bulge := pos_of_mul_neg_right hsg ho.le
      have hsw : 0 < sweep w := by unfold sweep; have := Real.arctan_pos.2 hbp; linarith
      rw [abs_of_pos hsw] at hat
      have := Real.sin_nonneg_of_nonneg_of_le_pi (mul_nonneg τ0 hsw.le) (by nlinarith)
      exact mul_nonpos_of_nonpos_of_nonneg ho.le this
    · have hbp : w.bulge < 0 := neg_of_mul_neg_right hsg ho.le
      have hsw : sweep w < 0 := by unfold sweep; have := Real.arctan_lt_zero.2 hbp; linarith
      rw [abs_of_neg hsw] at hat
      have := Real.sin_nonpos_of_nonpos_of_neg_pi_le (mul_nonpos_of_nonneg_of_nonpos τ0 hsw.le) (by nlinarith)
      exact mul_nonpos_of_nonneg_of_nonpos ho.le this
  constructor
  · have h1 := sgn t t0 t1
    have : o ^ 2 * ahead (P i) (P (i + 1)) x = - (o ^ 2 * elen P i * (o * Real.sin (t * sweep w))) := by
      linear_combination o * c0
    have h2 : 0 ≤ o ^ 2 * ahead (P i) (P (i + 1)) x := by
      rw [this]
      have := mul_nonpos_of_nonneg_of_nonpos (mul_nonneg ho2.le l0.le) h1
      linarith
    exact nonneg_of_mul_nonneg_right h2 ho2
  · have h1 := sgn (1 - t) (by linarith) (by linarith)
    have : o ^ 2 * ahead (P (i + 2)) (P (i + 1)) x = - (o ^ 2 * elen P (i + 1) * (o * Real.sin ((1 - t) * sweep w))) := by
      linear_combination - o * c1
    have h2 : 0 ≤ o ^ 2 * ahead (P (i + 2)) (P (i + 1)) x := by
      rw [this]
      have := mul_nonpos_of_nonneg_of_nonpos (mul_nonneg ho2.le l1.le) h1
      linarith
    exact nonneg_of_mul_nonneg_right h2 ho2


/-! ### The parts of the raw offset -/

/-- `x` is on the line after corner `i`. -/
def OnLineEl (n : ℕ) (ls : ℕ → List Vertex) (i : ℕ) (x : V2) : Prop :=
  ∃ u v, (ls i).getLast? = some u ∧ (ls ((i + 1) % n)).head? = some v ∧ OnSeg u v x

/-- `x` is on the arc or line of corner `i`. -/
def OnMid (ls : ℕ → List Vertex) (i : ℕ) (x : V2) : Prop := ∃ w w', ls i = [w, w'] ∧ OnSeg w w' x

/-- The raw offset passes `x` only once: different parts have it in common only where one of them ends and
is followed by the other. -/
structure Once (n : ℕ) (ls : ℕ → List Vertex) (x : V2) : Prop where
  lines : ∀ i < n, ∀ j < n, i ≠ j → OnLineEl n ls i x → OnLineEl n ls j x →
    (j = (i + 1) % n ∧ ∃ v, ls j = [v] ∧ x = v.pos) ∨ (i = (j + 1) % n ∧ ∃ v, ls i = [v] ∧ x = v.pos)
  mids : ∀ i < n, ∀ j < n, i ≠ j → OnMid ls i x → ¬ OnMid ls j x
  mixed : ∀ i < n, ∀ j < n, OnLineEl n ls i x → OnMid ls j x →
    (j = (i + 1) % n ∧ ∃ w w', ls j = [w, w'] ∧ x = w.pos) ∨ (j = i ∧ ∃ w w', ls j = [w, w'] ∧ x = w'.pos)

theorem onRaw_iff {x : V2} : OnRaw n ls x ↔ ∃ i < n, OnMid ls i x ∨ OnLineEl n ls i x := Iff.rfl

/-- The parameters of the line on the edge after corner `i`. -/
theorem RawG.lineEl (h : RawG P n o ls) {i : ℕ} (hi : i < n) : ∃ tS tE,
    0 ≤ tS ∧ tS ≤ 1 ∧ 0 ≤ tE ∧ tE ≤ 1 ∧
    (tS = 0 ∨ ∃ t0, 0 ≤ t0 ∧ t0 ≤ 1 ∧ offE P o i t0 = offE P o (i + 1) tS ∧ 0 < o * bend P i) ∧
    (tE = 1 ∨ ∃ t1, 0 ≤ t1 ∧ t1 ≤ 1 ∧ 0 < o * bend P ((i + 1) % n) ∧
      offE P o ((i + 1) % n) tE = offE P o ((i + 1) % n + 1) t1) ∧
    (∀ v, ls i = [v] → v.pos = offE P o (i + 1) tS) ∧
    (∀ v, ls ((i + 1) % n) = [v] → v.pos = offE P o ((i + 1) % n) tE) ∧
    (∀ w w', ls i = [w, w'] → tS = 0) ∧ (∀ w w', ls ((i + 1) % n) = [w, w'] → tE = 1) ∧
    ∀ x, OnLineEl n ls i x ↔ ∃ s, 0 ≤ s ∧ s ≤ 1 ∧ x = offE P o (i + 1) (tS + s * (tE - tS)) := by
  obtain ⟨n1, n2, n3, n4⟩ := h.poly.next hi
  have hcg : ∀ t, offE P o ((i + 1) % n) t = offE P o (i + 1) t := fun t => offE_congr n3 n4 t
  obtain ⟨u, tS, hu, hl, a0, a1, ea, hS, hS1, hS2⟩ : ∃ u tS, (ls i).getLast? = some u ∧ IsLine u ∧ 0 ≤ tS ∧ tS ≤ 1 ∧
      u.pos = offE P o (i + 1) tS ∧
      (tS = 0 ∨ ∃ t0, 0 ≤ t0 ∧ t0 ≤ 1 ∧ offE P o i t0 = offE P o (i + 1) tS ∧ 0 < o * bend P i) ∧
      (∀ v, ls i = [v] → v.pos = offE P o (i + 1) tS) ∧ (∀ w w', ls i = [w, w'] → tS = 0) := by
    rcases h.corner i hi with ⟨v, t0, t1, e, hl, a0, a1, b0, b1, e0, e1, hb⟩ | ⟨w, w', e, hl, e0, e1, -⟩
    · rw [e]
      exact ⟨v, t1, rfl, hl, b0, b1, e1, Or.inr ⟨t0, a0, a1, e0.symm.trans e1, hb⟩,
        fun v' hv => by simp at hv; rw [← hv, e1], fun w w' hw => by simp at hw⟩
    · rw [e]
      exact ⟨w', 0, rfl, hl, le_rfl, zero_le_one, e1, Or.inl rfl, fun v hv => by simp at hv, fun _ _ _ => rfl⟩
  obtain ⟨v, tE, hv, b0, b1, eb, hE, hE1, hE2⟩ : ∃ v tE, (ls ((i + 1) % n)).head? = some v ∧ 0 ≤ tE ∧ tE ≤ 1 ∧
      v.pos = offE P o ((i + 1) % n) tE ∧
      (tE = 1 ∨ ∃ t1, 0 ≤ t1 ∧ t1 ≤ 1 ∧ 0 < o * bend P ((i + 1) % n) ∧
        offE P o ((i + 1) % n) tE = offE P o ((i + 1) % n + 1) t1) ∧
      (∀ v, ls ((i + 1) % n) = [v] → v.pos = offE P o ((i + 1) % n) tE) ∧
      (∀ w w', ls ((i + 1) % n) = [w, w'] → tE = 1) := by
    rcases h.corner _ n1 with ⟨v, t0, t1, e, hl, a0, a1, b0, b1, e0, e1, hb⟩ | ⟨w, w', e, hl, e0, e1, -⟩
    · rw [e]
      exact ⟨v, t0, rfl, a0, a1, e0, Or.inr ⟨t1, b0, b1, hb, e0.symm.trans e1⟩,
        fun v' hv => by simp at hv; rw [← hv, e0], fun w w' hw => by simp at hw⟩
    · rw [e]
      exact ⟨w, 1, rfl, zero_le_one, le_rfl, e0, Or.inl rfl, fun v hv => by simp at hv, fun _ _ _ => rfl⟩
  refine ⟨tS, tE, a0, a1, b0, b1, hS, hE, hS1, hE1, hS2, hE2, fun x => ?_⟩
  unfold OnLineEl
  rw [hu, hv]
  constructor
  · rintro ⟨u', v', e1, e2, hx⟩
    cases e1; cases e2
    obtain ⟨s, s0, s1, rfl⟩ := (onSeg_line hl).1 hx
    exact ⟨s, s0, s1, by rw [ea, eb, hcg, lerp_offE]⟩
  · rintro ⟨s, s0, s1, rfl⟩
    refine ⟨u, v, rfl, rfl, (onSeg_line hl).2 ⟨s, s0, s1, ?_⟩⟩
    rw [ea, eb, hcg, lerp_offE]

theorem PolyP.offE_inj (hs : PolyP P n) {k : ℕ} {s t : ℝ} (h : offE P o k s = offE P o k t) : s = t := by
  have h1 := hs.offE_own o k s t
  have h2 := hs.offE_own o k t t
  rw [h, h2] at h1
  have hd := dist2_pos (hs.ne k)
  have : (s - t) ^ 2 * dist2 (P k) (P (k + 1)) = 0 := by linarith [sub_self t]
  rcases mul_eq_zero.1 this with q | q
  · have := pow_eq_zero_iff two_ne_zero |>.1 q
    linarith
  · linarith

/-- If a point of the line is far enough away, the line goes forward. -/
theorem RawG.forward (h : RawG P n o ls) {i : ℕ} (hi : i < n) {tS tE : ℝ} (b0 : 0 ≤ tE) (b1 : tE ≤ 1)
    (a0 : 0 ≤ tS) (a1 : tS ≤ 1)
    (hS : tS = 0 ∨ ∃ t0, 0 ≤ t0 ∧ t0 ≤ 1 ∧ offE P o i t0 = offE P o (i + 1) tS ∧ 0 < o * bend P i)
    (hE : tE = 1 ∨ ∃ t1, 0 ≤ t1 ∧ t1 ≤ 1 ∧ 0 < o * bend P ((i + 1) % n) ∧
      offE P o ((i + 1) % n) tE = offE P o ((i + 1) % n + 1) t1) {t : ℝ} (t0 : 0 ≤ t) (t1 : t ≤ 1)
    (hf : FarP P n o (offE P o (i + 1) t)) : tS ≤ t ∧ t ≤ tE := by
  have hs := h.poly
  obtain ⟨n1, n2, n3, n4⟩ := hs.next hi
  have hcg : ∀ t, offE P o ((i + 1) % n) t = offE P o (i + 1) t := fun t => offE_congr n3 n4 t
  constructor
  · rcases hS with rfl | ⟨t0', c0, c1, he, hb⟩
    · exact t0
    · by_contra hn
      rcases t0.eq_or_lt with rfl | tp
      · have := (h.chord hi hb zero_le_one le_rfl).2
        rw [lerp_one] at this
        exact this hf
      · obtain ⟨z, hz, hlt⟩ := hs.trim_start (h.bent i hi) he c0 (not_le.1 hn) tp
        exact absurd (hf i hi z hz) (not_le.2 hlt)
  · rcases hE with rfl | ⟨t1', c0, c1, hb, he⟩
    · exact t1
    · by_contra hn
      obtain ⟨m1, m2, m3, m4⟩ := hs.next n1
      rcases t1.eq_or_lt with rfl | tp
      · have := (h.chord n1 hb le_rfl zero_le_one).2
        rw [lerp_zero, hcg] at this
        exact this hf
      · obtain ⟨z, hz, hlt⟩ := hs.trim_end (h.bent _ n1) he c1 (not_le.1 hn) tp
        rw [hcg] at hlt
        exact absurd (hf _ m1 z (by rw [m3, m4]; exact hz)) (not_le.2 hlt)

/-- A point beside the inside of an edge that is far enough away is on the line of that edge. -/
theorem RawG.on_line (h : RawG P n o ls) {i : ℕ} (hi : i < n) {t : ℝ} (t0 : 0 ≤ t) (t1 : t ≤ 1)
    (hf : FarP P n o (offE P o (i + 1) t)) : OnLineEl n ls i (offE P o (i + 1) t) := by
  obtain ⟨tS, tE, a0, a1, b0, b1, hS, hE, -, -, -, -, hon⟩ := h.lineEl hi
  obtain ⟨h1, h2⟩ := h.forward hi b0 b1 a0 a1 hS hE t0 t1 hf
  rw [hon]
  rcases (h1.trans h2).eq_or_lt with e | hlt
  · exact ⟨0, le_rfl, zero_le_one, by rw [zero_mul, add_zero]; congr 1; linarith⟩
  · refine ⟨(t - tS) / (tE - tS), div_nonneg (by linarith) (by linarith),
      by rw [div_le_one (by linarith)]; linarith, ?_⟩
    rw [div_mul_cancel₀ _ (by linarith : tE - tS ≠ 0)]
    congr 1; ring

/-- A point beyond a corner that bends away is on the arc of it. -/
theorem RawG.on_mid (h : RawG P n o ls) {i : ℕ} (hi : i < n) {x : V2} (hb : o * bend P i < 0) (hw : Wedge P i x)
    (hd : dist2 x (P (i + 1)) = o ^ 2) : OnMid ls i x := by
  rcases h.corner i hi with ⟨v, t0, t1, e, hl, -, -, -, -, -, -, hb2⟩ | ⟨w, w', e, hl, e0, e1, hk⟩
  · linarith
  · rcases hk with ⟨-, ha, hc, hsg⟩ | ⟨hb2, -⟩
    · exact ⟨w, w', e, (h.arc e0 e1 ha hc hsg).2 hd hw⟩
    · linarith

/-- What is on the arc of a corner that bends away. -/
theorem RawG.mid (h : RawG P n o ls) {i : ℕ} (hi : i < n) {x : V2} (hb : o * bend P i < 0) :
    OnMid ls i x ↔ Wedge P i x ∧ dist2 x (P (i + 1)) = o ^ 2 := by
  constructor
  · rintro ⟨w, w', e, hx⟩
    rcases h.corner i hi with ⟨v, t0, t1, e', _⟩ | ⟨w1, w1', e', hl, e0, e1, hk⟩
    · rw [e] at e'; simp at e'
    · rw [e] at e'
      simp only [List.cons.injEq, and_true] at e'
      obtain ⟨rfl, rfl⟩ := e'
      rcases hk with ⟨-, ha, hc, hsg⟩ | ⟨hb2, -⟩
      · exact ⟨h.arc_wedge e0 e1 ha hc hsg hx, (h.arc e0 e1 ha hc hsg).1 hx⟩
      · linarith
  · rintro ⟨hw, hd⟩; exact h.on_mid hi hb hw hd

/-- Points on the line of a corner that does not bend away are not far enough away. -/
theorem RawG.mid_far (h : RawG P n o ls) {i : ℕ} (hi : i < n) {x : V2} (hx : OnMid ls i x) (hf : FarP P n o x) :
    o * bend P i < 0 := by
  obtain ⟨w, w', e, hx⟩ := hx
  rcases h.corner i hi with ⟨v, t0, t1, e', _⟩ | ⟨w1, w1', e', hl, e0, e1, hk⟩
  · rw [e] at e'; simp at e'
  · rw [e] at e'
    simp only [List.cons.injEq, and_true] at e'
    obtain ⟨rfl, rfl⟩ := e'
    rcases hk with ⟨hb, -⟩ | ⟨hb2, hl⟩
    · exact hb
    · obtain ⟨t, t0, t1, rfl⟩ := (onSeg_line hl).1 hx
      rw [e0, e1] at hf
      exact absurd hf (h.chord hi hb2 t0 t1).2

/-! ### Close to a point that is passed only once -/

theorem RawG.lineEl_offE (h : RawG P n o ls) {i : ℕ} (hi : i < n) {x : V2} (hx : OnLineEl n ls i x) :
    ∃ s, 0 ≤ s ∧ s ≤ 1 ∧ x = offE P o (i + 1) s := by
  obtain ⟨tS, tE, a0, a1, b0, b1, -, -, -, -, -, -, hon⟩ := h.lineEl hi
  obtain ⟨s, s0, s1, rfl⟩ := (hon x).1 hx
  exact ⟨_, by nlinarith, by nlinarith, rfl⟩

theorem Sides.neg_of {σ : ℝ} {V V' : ℤ} (hV : Sides P n σ V V') (hσ : 0 < σ * o) {r : ℝ} (hr : σ * r < 0) :
    o * r < 0 := by
  rcases hV.1 with rfl | rfl
  · rw [one_mul] at hσ hr
    exact mul_neg_of_pos_of_neg hσ hr
  · have : 0 < r := by linarith
    exact mul_neg_of_neg_of_pos (by linarith) this

/-- Where the distance of `x0` from an edge is `|o|`, `x0` is beside the edge or beyond a corner at an end of it
that bends away. -/
def LevelAt (P : ℕ → V2) (n : ℕ) (o : ℝ) (x0 : V2) : Prop :=
  ∀ k < n, ∀ t, 0 ≤ t → t ≤ 1 → dist2 x0 (lerp (P k) (P (k + 1)) t) = o ^ 2 →
    (0 < t ∧ t < 1 ∧ x0 = offE P o k t) ∨
    ∃ i < n, lerp (P k) (P (k + 1)) t = P (i + 1) ∧ o * bend P i < 0 ∧ Wedge P i x0 ∧ (k = i ∨ k = (i + 1) % n)

/-- If the edge `k` is as close to the point `x0`, which is passed only once, as an edge may be, then no
point of a part of the raw offset with `x0` on it is too close to that edge. -/
theorem RawG.own (h : RawG P n o ls) {x0 : V2} (hlev : LevelAt P n o x0)
    (hf : FarP P n o x0) (ho : Once n ls x0) {k : ℕ} (hk : k < n) {z : V2}
    (hz : OnLine (P k) (P (k + 1)) z) (hd : dist2 x0 z = o ^ 2) :
    (∀ i < n, OnLineEl n ls i x0 → ∀ x, OnLineEl n ls i x → ∀ z', OnLine (P k) (P (k + 1)) z' → o ^ 2 ≤ dist2 x z') ∧
    (∀ i < n, OnMid ls i x0 → ∀ x, OnMid ls i x → ∀ z', OnLine (P k) (P (k + 1)) z' → o ^ 2 ≤ dist2 x z') := by
  have hs := h.poly
  obtain ⟨t, t0, t1, rfl⟩ := hz
  rcases hlev k hk t t0 t1 hd with ⟨t0, t1, rfl⟩ | ⟨i, hi, hz, hb', hw, hki⟩
  · obtain ⟨i, hi, -, ei⟩ := hs.vertex_end hk
    obtain ⟨n1, n2, n3, n4⟩ := hs.next hi
    have hcg : ∀ t, offE P o k t = offE P o (i + 1) t := by
      intro t; rw [← ei]; exact offE_congr n3 n4 t
    have hon : OnLineEl n ls i (offE P o k t) := by
      rw [hcg]; rw [hcg] at hf; exact h.on_line hi t0.le t1.le hf
    obtain ⟨tS, tE, a0, a1, b0, b1, hS, hE, hS1, hE1, hS2, hE2, -⟩ := h.lineEl hi
    constructor
    · intro i' hi' hx0' x hx z' hz'
      by_cases hii : i' = i
      · subst hii
        obtain ⟨s, -, -, rfl⟩ := h.lineEl_offE hi hx
        rw [← hcg]
        exact hs.far_own k s hz'
      · rcases ho.lines i hi i' hi' (Ne.symm hii) hon hx0' with ⟨e, v, hv, hxv⟩ | ⟨e, v, hv, hxv⟩
        · rw [ei] at e
          subst e
          obtain ⟨uS, uE, c0, c1, d0, d1, gS, gE, gS1, -, -, -, gon⟩ := h.lineEl hi'
          rcases gS with q | ⟨t0', q0, q1, q2, q3⟩
          · -- the corner has one vertex, so this is the end of a trimmed line
            rcases h.corner i' hi' with ⟨v', r0, r1, e', -, -, -, -, -, w0, w1, hb⟩ | ⟨w, w', e', -⟩
            · rw [hv] at e'
              simp only [List.cons.injEq, and_true] at e'
              subst e'
              obtain ⟨s, s0, s1, rfl⟩ := (gon x).1 hx
              have eS := hs.offE_inj ((gS1 v hv).symm.trans w1)
              have hfw := h.forward hi' d0 d1 c0 c1 (Or.inl q) gE c0 c1 (by rw [← gS1 v hv, ← hxv]; exact hf)
              refine hs.far_prev_trim (h.bent i' hi') (w0.symm.trans w1) ?_ hz'
              rw [← eS]
              have := mul_nonneg s0 (sub_nonneg.2 hfw.2)
              linarith
            · rw [hv] at e'; simp at e'
          · obtain ⟨s, s0, s1, rfl⟩ := (gon x).1 hx
            have hfw := h.forward hi' d0 d1 c0 c1 (Or.inr ⟨t0', q0, q1, q2, q3⟩) gE c0 c1
              (by rw [← gS1 v hv, ← hxv]; exact hf)
            refine hs.far_prev_trim (h.bent i' hi') q2 ?_ hz'
            have := mul_nonneg s0 (sub_nonneg.2 hfw.2)
            linarith
        · obtain ⟨m1, m2, m3, m4⟩ := hs.next hi'
          rw [← e] at m3 m4
          obtain ⟨uS, uE, c0, c1, d0, d1, gS, gE, -, gE1, -, -, gon⟩ := h.lineEl hi'
          rw [← e] at gE1
          obtain ⟨s, s0, s1, rfl⟩ := (gon x).1 hx
          have hfw := h.forward hi' d0 d1 c0 c1 gS gE d0 d1
            (by rw [← offE_congr m3 m4, ← gE1 v hv, ← hxv]; exact hf)
          rcases h.corner i hi with ⟨v', r0, r1, e', -, -, -, -, -, w0, w1, hb⟩ | ⟨w, w', e', -⟩
          · rw [hv] at e'
            simp only [List.cons.injEq, and_true] at e'
            subst e'
            have eE := hs.offE_inj ((gE1 v hv).symm.trans w0)
            rw [← offE_congr m3 m4]
            rw [← ei, n3, n4] at hz'
            refine hs.far_next_trim (h.bent i hi) (w0.symm.trans w1) ?_ hz'
            rw [← eE]
            have := mul_nonneg (sub_nonneg.2 s1) (sub_nonneg.2 hfw.1)
            nlinarith
          · rw [hv] at e'; simp at e'
    · intro i' hi' hx0' x hx z' hz'
      exfalso
      rcases ho.mixed i hi i' hi' hon hx0' with ⟨e, w, w', hw, hxv⟩ | ⟨e, w, w', hw, hxv⟩
      · rw [ei] at e
        subst e
        rcases h.corner i' hi' with ⟨v', r0, r1, e', -⟩ | ⟨w1, w1', e', -, w0, w1, hb⟩
        · rw [hw] at e'; simp at e'
        · rw [hw] at e'
          simp only [List.cons.injEq, and_true] at e'
          obtain ⟨rfl, rfl⟩ := e'
          have := hs.offE_inj (hxv.trans w0)
          linarith
      · subst e
        rcases h.corner i' hi' with ⟨v', r0, r1, e', -⟩ | ⟨w1, w1', e', -, w0, w1, hb⟩
        · rw [hw] at e'; simp at e'
        · rw [hw] at e'
          simp only [List.cons.injEq, and_true] at e'
          obtain ⟨rfl, rfl⟩ := e'
          rw [hcg] at hxv
          have := hs.offE_inj (hxv.trans w1)
          linarith
  · rw [hz] at hd
    obtain ⟨n1, n2, n3, n4⟩ := hs.next hi
    have hon := h.on_mid hi hb' hw hd
    have hz2 : ∀ z', OnLine (P k) (P (k + 1)) z' → OnLine (P i) (P (i + 1)) z' ∧ k = i ∨
        OnLine (P (i + 1)) (P (i + 2)) z' ∧ k = (i + 1) % n := by
      intro z' hz'
      rcases hki with e | e
      · left; rw [e] at hz'; exact ⟨hz', e⟩
      · right; rw [e, n3, n4] at hz'; exact ⟨hz', e⟩
    constructor
    · intro i' hi' hx0' x hx z' hz'
      obtain ⟨s, s0, s1, rfl⟩ := h.lineEl_offE hi' hx
      rcases ho.mixed i' hi' i hi hx0' hon with ⟨e, -⟩ | ⟨e, -⟩
      · obtain ⟨m1, m2, m3, m4⟩ := hs.next hi'
        rw [← e] at m3 m4
        rw [← offE_congr m3 m4]
        rcases hz2 z' hz' with ⟨q, -⟩ | ⟨q, -⟩
        · exact hs.far_own i s q
        · exact hs.far_next_reflex hb' s1 q
      · subst e
        rcases hz2 z' hz' with ⟨q, -⟩ | ⟨q, -⟩
        · exact hs.far_prev_reflex hb' s0 q
        · exact hs.far_own (i + 1) s q
    · intro i' hi' hx0' x hx z' hz'
      by_cases e : i' = i
      · subst e
        obtain ⟨hw', hd'⟩ := (h.mid hi' hb').1 hx
        exact far_wedge hw' hd' ((hz2 z' hz').imp And.left And.left)
      · exact absurd hx0' (ho.mids i hi i' hi' (Ne.symm e) hon)

theorem RawP.levelAt (h : RawP P n o ls) {σ : ℝ} {V V' : ℤ} (hV : Sides P n σ V V') (hσ : 0 < σ * o) {x0 : V2}
    (hraw : OnRaw n ls x0) (hf : FarP P n o x0) : LevelAt P n o x0 := by
  intro k hk t t0 t1 hd
  rcases h.simple.level_cases hV hσ h.bent (h.level hV hσ hraw hf) hf hk t0 t1 hd with q | ⟨i, hi, hz, hb, hw⟩
  · exact Or.inl q
  · refine Or.inr ⟨i, hi, hz, hV.neg_of hσ hb, hw, ?_⟩
    by_cases e : k = i
    · exact Or.inl e
    · right
      have q : OnLine (P k) (P (k + 1)) (P (i + 1)) := by rw [← hz]; exact onLine_lerp t0 t1
      rcases h.simple.apart k i _ hk hi e q (onLine_end _ _) with ⟨-, q⟩ | ⟨q, -⟩
      · exact absurd q.symm (h.simple.ne i)
      · exact q

/-- A point at distance `|o|` from a polygon, which may meet itself, that is not on the raw offset to the other
side. -/
theorem RawG.levelAt {ls' : ℕ → List Vertex} (h : RawG P n o ls) (h' : RawG P n (-o) ls') {x0 : V2}
    (hf : FarP P n o x0) (hn : ¬ OnRaw n ls' x0) : LevelAt P n o x0 := by
  intro k hk t t0 t1 hd
  have hs := h.poly
  have hf' : FarP P n (-o) x0 := fun k hk z hz => by rw [neg_sq]; exact hf k hk z hz
  have corner : ∀ i < n, lerp (P k) (P (k + 1)) t = P (i + 1) → o * bend P i < 0 ∧ Wedge P i x0 := by
    intro i hi hz
    rw [hz] at hd
    obtain ⟨n1, n2, n3, n4⟩ := hs.next hi
    have hw : Wedge P i x0 := wedge_of_closest (fun w hw => hd.le.trans (hf i hi w hw))
      (fun w hw => hd.le.trans (hf _ n1 w (by rw [n3, n4]; exact hw)))
    refine ⟨?_, hw⟩
    by_contra hnb
    have hb := lt_of_le_of_ne (not_lt.1 hnb) (mul_ne_zero h.ne (h.bent i hi)).symm
    exact hn ⟨i, hi, Or.inl (h'.on_mid hi (by linarith) hw (by rw [neg_sq]; exact hd))⟩
  rcases t1.lt_or_eq with t1 | rfl
  · rcases t0.lt_or_eq with t0 | rfl
    · left
      refine ⟨t0, t1, ?_⟩
      rcases hs.foot t0 t1 (fun w hw => hd.le.trans (hf k hk w hw)) hd with e | e
      · exact e
      · exfalso
        obtain ⟨i, hi, -, ei⟩ := hs.vertex_end hk
        obtain ⟨n1, n2, n3, n4⟩ := hs.next hi
        rw [ei] at n3 n4
        rw [offE_congr n3 n4] at e
        rw [e] at hf' hn
        exact hn ⟨i, hi, Or.inr (h'.on_line hi t0.le t1.le hf')⟩
    · right
      obtain ⟨i, hi, e, ei⟩ := hs.vertex_end hk
      have hz : lerp (P k) (P (k + 1)) 0 = P (i + 1) := by rw [lerp_zero, e]
      exact ⟨i, hi, hz, (corner i hi hz).1, (corner i hi hz).2, Or.inr ei.symm⟩
  · right
    exact ⟨k, hk, lerp_one _ _, (corner k hk (lerp_one _ _)).1, (corner k hk (lerp_one _ _)).2, Or.inl rfl⟩

/-- Every point at distance `|o|` from the polygon is on one of the two raw offsets. -/
theorem RawG.either {ls' : ℕ → List Vertex} (h : RawG P n o ls) (h' : RawG P n (-o) ls') {x0 : V2}
    (hf : FarP P n o x0) {k : ℕ} (hk : k < n) {z : V2} (hz : OnLine (P k) (P (k + 1)) z) (hd : dist2 x0 z = o ^ 2) :
    OnRaw n ls x0 ∨ OnRaw n ls' x0 := by
  by_contra hn
  push Not at hn
  obtain ⟨t, t0, t1, rfl⟩ := hz
  rcases h.levelAt h' hf hn.2 k hk t t0 t1 hd with ⟨t0, t1, e⟩ | ⟨i, hi, hz, hb, hw, -⟩
  · obtain ⟨i, hi, -, ei⟩ := h.poly.vertex_end hk
    obtain ⟨n1, n2, n3, n4⟩ := h.poly.next hi
    rw [ei] at n3 n4
    rw [offE_congr n3 n4] at e
    rw [e] at hf hn
    exact hn.1 ⟨i, hi, Or.inr (h.on_line hi t0.le t1.le hf)⟩
  · rw [hz] at hd
    exact hn.1 ⟨i, hi, Or.inl (h.on_mid hi hb hw hd)⟩

end
end
end Cavc

import Verif.Props.OffsetPolygon

/-! The raw offset of a polygon that does not meet itself contains exactly the points of the exact offset,
and points that are closer (C62). -/
namespace Cavc
open Spec
open scoped Classical
noncomputable section

theorem movedLeft_offE (P : ℕ → V2) (o : ℝ) (k : ℕ) (t : ℝ) :
    movedLeft o (P k) (P (k + 1)) (lerp (P k) (P (k + 1)) t) = offE P o k t := by
  have : distance (P k) (P (k + 1)) = elen P k := rfl
  unfold movedLeft offE normalAt
  rw [this]
  ext <;> simp only <;> ring

theorem movedLeft_start (P : ℕ → V2) (o : ℝ) (k : ℕ) : movedLeft o (P k) (P (k + 1)) (P k) = offE P o k 0 := by
  rw [← movedLeft_offE, lerp_zero]

theorem movedLeft_end (P : ℕ → V2) (o : ℝ) (k : ℕ) : movedLeft o (P k) (P (k + 1)) (P (k + 1)) = offE P o k 1 := by
  rw [← movedLeft_offE, lerp_one]

theorem lerp_offE (P : ℕ → V2) (o : ℝ) (k : ℕ) (a b t : ℝ) :
    lerp (offE P o k a) (offE P o k b) t = offE P o k (a + t * (b - a)) := by
  simp only [offE, normalAt, lerp]
  ext <;> simp only <;> ring

theorem offE_congr {P : ℕ → V2} {o : ℝ} {j k : ℕ} (h1 : P j = P k) (h2 : P (j + 1) = P (k + 1)) (t : ℝ) :
    offE P o j t = offE P o k t := by
  unfold offE elen
  rw [h1, h2]

/-- The vertexes at corner `i`. -/
def CornerP (P : ℕ → V2) (o : ℝ) (i : ℕ) (l : List Vertex) : Prop :=
  (∃ v t0 t1, l = [v] ∧ IsLine v ∧ 0 ≤ t0 ∧ t0 ≤ 1 ∧ 0 ≤ t1 ∧ t1 ≤ 1 ∧ v.pos = offE P o i t0 ∧
    v.pos = offE P o (i + 1) t1 ∧ 0 < o * bend P i) ∨
  (∃ w w', l = [w, w'] ∧ IsLine w' ∧ w.pos = offE P o i 1 ∧ w'.pos = offE P o (i + 1) 0 ∧
    ((o * bend P i < 0 ∧ ArcOk w w' ∧ CircularAbout (P (i + 1)) |o| w w' ∧ o * w.bulge < 0) ∨
     (0 < o * bend P i ∧ IsLine w)))

/-- The raw offset of a polygon. -/
structure RawG (P : ℕ → V2) (n : ℕ) (o : ℝ) (ls : ℕ → List Vertex) : Prop where
  poly : PolyP P n
  one : 1 < n
  ne : o ≠ 0
  bent : ∀ i < n, Cavc.bend P i ≠ 0
  corner : ∀ i < n, CornerP P o i (ls i)

/-- The raw offset of a polygon that does not meet itself. -/
structure RawP (P : ℕ → V2) (n : ℕ) (o : ℝ) (ls : ℕ → List Vertex) : Prop extends RawG P n o ls where
  simple : SimpleP P n

/-- The points of it. -/
def OnRaw (n : ℕ) (ls : ℕ → List Vertex) (x : V2) : Prop :=
  ∃ i < n, (∃ w w', ls i = [w, w'] ∧ OnSeg w w' x) ∨
    ∃ u v, (ls i).getLast? = some u ∧ (ls ((i + 1) % n)).head? = some v ∧ OnSeg u v x

section
variable {P : ℕ → V2} {n : ℕ} {o : ℝ} {ls : ℕ → List Vertex}

theorem CornerP.start {i : ℕ} {l : List Vertex} (h : CornerP P o i l) : ∃ u t1, l.getLast? = some u ∧ IsLine u ∧
    0 ≤ t1 ∧ t1 ≤ 1 ∧ u.pos = offE P o (i + 1) t1 ∧
      (t1 = 0 ∨ ∃ t0, 0 ≤ t0 ∧ t0 ≤ 1 ∧ offE P o i t0 = offE P o (i + 1) t1) := by
  rcases h with ⟨v, t0, t1, rfl, hl, a0, a1, b0, b1, e0, e1, -⟩ | ⟨w, w', rfl, hl, e0, e1, -⟩
  · exact ⟨v, t1, rfl, hl, b0, b1, e1, Or.inr ⟨t0, a0, a1, e0.symm.trans e1⟩⟩
  · exact ⟨w', 0, rfl, hl, le_rfl, zero_le_one, e1, Or.inl rfl⟩

theorem CornerP.stop {i : ℕ} {l : List Vertex} (h : CornerP P o i l) : ∃ u t0, l.head? = some u ∧
    0 ≤ t0 ∧ t0 ≤ 1 ∧ u.pos = offE P o i t0 ∧
      (t0 = 1 ∨ ∃ t1, 0 ≤ t1 ∧ t1 ≤ 1 ∧ offE P o i t0 = offE P o (i + 1) t1) := by
  rcases h with ⟨v, t0, t1, rfl, hl, a0, a1, b0, b1, e0, e1, -⟩ | ⟨w, w', rfl, hl, e0, e1, -⟩
  · exact ⟨v, t0, rfl, a0, a1, e0, Or.inr ⟨t1, b0, b1, e0.symm.trans e1⟩⟩
  · exact ⟨w, 1, rfl, zero_le_one, le_rfl, e0, Or.inl rfl⟩

/-- The line on edge `j`. -/
theorem RawG.line (h : RawG P n o ls) {i : ℕ} (hi : i < n) {u v : Vertex} {x : V2} (hu : (ls i).getLast? = some u)
    (hv : (ls ((i + 1) % n)).head? = some v) :
    OnSeg u v x ↔ ∃ s tS tE, 0 ≤ tS ∧ tS ≤ 1 ∧ 0 ≤ tE ∧ tE ≤ 1 ∧ u.pos = offE P o ((i + 1) % n) tS ∧
      v.pos = offE P o ((i + 1) % n) tE ∧ 0 ≤ s ∧ s ≤ 1 ∧ x = offE P o ((i + 1) % n) (tS + s * (tE - tS)) := by
  obtain ⟨n1, n2, n3, n4⟩ := h.poly.next hi
  obtain ⟨u', t1, hu', hl, a0, a1, ea, -⟩ := (h.corner i hi).start
  obtain ⟨v', t0, hv', b0, b1, eb, -⟩ := (h.corner _ n1).stop
  rw [hu] at hu'; rw [hv] at hv'
  cases hu'; cases hv'
  have ea' : u.pos = offE P o ((i + 1) % n) t1 := by
    rw [ea]; exact offE_congr n3.symm n4.symm t1
  rw [onSeg_line hl]
  constructor
  · rintro ⟨s, s0, s1, rfl⟩
    exact ⟨s, t1, t0, a0, a1, b0, b1, ea', eb, s0, s1, by rw [ea', eb, lerp_offE]⟩
  · rintro ⟨s, tS, tE, -, -, -, -, e1, e2, s0, s1, rfl⟩
    exact ⟨s, s0, s1, by rw [e1, e2, lerp_offE]⟩

theorem ahead_start (hs : PolyP P n) (i : ℕ) :
    ahead (P i) (P (i + 1)) (offE P o i 1) = 0 ∧
      ahead (P (i + 2)) (P (i + 1)) (offE P o i 1) * elen P i = - (o * bend P i) := by
  have := (hs.elen_pos i).ne'
  constructor
  · simp only [ahead, offE, normalAt, lerp]; ring
  · simp only [ahead, offE, normalAt, lerp, bend, cross]
    field_simp
    ring

theorem ahead_end (hs : PolyP P n) (i : ℕ) :
    ahead (P (i + 2)) (P (i + 1)) (offE P o (i + 1) 0) = 0 ∧
      ahead (P i) (P (i + 1)) (offE P o (i + 1) 0) * elen P (i + 1) = - (o * bend P i) := by
  have := (hs.elen_pos (i + 1)).ne'
  constructor
  · simp only [ahead, offE, normalAt, lerp]; ring
  · simp only [ahead, offE, normalAt, lerp, bend, cross]
    field_simp
    ring

theorem dist2_offE_end (hs : PolyP P n) (i : ℕ) : dist2 (offE P o i 1) (P (i + 1)) = o ^ 2 := by
  have := hs.offE_own o i 1 1
  rw [lerp_one] at this
  rw [this]; ring

theorem dist2_offE_start (hs : PolyP P n) (i : ℕ) : dist2 (offE P o i 0) (P i) = o ^ 2 := by
  have := hs.offE_own o i 0 0
  rw [lerp_zero] at this
  rw [this]; ring

/-- Points between the ends of the moved segments at a corner that does not bend away are too close. -/
theorem RawG.chord (h : RawG P n o ls) {i : ℕ} (hi : i < n) (hb : 0 < o * bend P i) {t : ℝ} (t0 : 0 ≤ t) (t1 : t ≤ 1) :
    dist2 (lerp (offE P o i 1) (offE P o (i + 1) 0) t) (P (i + 1)) ≤ o ^ 2 ∧
      ¬ FarP P n o (lerp (offE P o i 1) (offE P o (i + 1) 0) t) := by
  have hs := h.poly
  set x := lerp (offE P o i 1) (offE P o (i + 1) 0) t with hx
  have d1 := dist2_offE_end (o := o) hs i
  have d2 := dist2_offE_start (o := o) hs (i + 1)
  have hle : dist2 x (P (i + 1)) ≤ o ^ 2 := by
    have e : dist2 x (P (i + 1)) = (1 - t) * dist2 (offE P o i 1) (P (i + 1)) +
        t * dist2 (offE P o (i + 1) 0) (P (i + 1)) - t * (1 - t) * dist2 (offE P o i 1) (offE P o (i + 1) 0) := by
      rw [hx]; simp only [dist2, lerp]; ring
    rw [e, d1, d2]
    have : 0 ≤ dist2 (offE P o i 1) (offE P o (i + 1) 0) := by unfold dist2; positivity
    nlinarith [mul_nonneg (mul_nonneg t0 (sub_nonneg.2 t1)) this]
  refine ⟨hle, fun hf => ?_⟩
  obtain ⟨n1, n2, n3, n4⟩ := hs.next hi
  have hw : Wedge P i x := wedge_of_closest (fun w hw => hle.trans (hf i hi w hw))
    (fun w hw => hle.trans (hf _ n1 w (by rw [n3, n4]; exact hw)))
  obtain ⟨a1, a2⟩ := ahead_start (o := o) hs i
  obtain ⟨b1, b2⟩ := ahead_end (o := o) hs i
  have l0 := hs.elen_pos i
  have l1 := hs.elen_pos (i + 1)
  have e1 : ahead (P i) (P (i + 1)) x = (1 - t) * ahead (P i) (P (i + 1)) (offE P o i 1) +
      t * ahead (P i) (P (i + 1)) (offE P o (i + 1) 0) := by
    rw [hx]; simp only [ahead, lerp]; ring
  have e2 : ahead (P (i + 2)) (P (i + 1)) x = (1 - t) * ahead (P (i + 2)) (P (i + 1)) (offE P o i 1) +
      t * ahead (P (i + 2)) (P (i + 1)) (offE P o (i + 1) 0) := by
    rw [hx]; simp only [ahead, lerp]; ring
  have w1 := hw.1
  have w2 := hw.2
  rw [e1, a1, mul_zero, zero_add] at w1
  rw [e2, b1, mul_zero, add_zero] at w2
  have q1 : ahead (P i) (P (i + 1)) (offE P o (i + 1) 0) < 0 := by
    by_contra hn
    have := mul_nonneg (not_lt.1 hn) l1.le
    linarith
  have q2 : ahead (P (i + 2)) (P (i + 1)) (offE P o i 1) < 0 := by
    by_contra hn
    have := mul_nonneg (not_lt.1 hn) l0.le
    linarith
  rcases t0.eq_or_lt with rfl | tp
  · linarith
  · have := mul_neg_of_pos_of_neg tp q1
    linarith

/-- The points of the arc at a corner that bends away. -/
theorem RawG.arc (h : RawG P n o ls) {i : ℕ} {w w' : Vertex} (e0 : w.pos = offE P o i 1)
    (e1 : w'.pos = offE P o (i + 1) 0) (ha : ArcOk w w') (hc : CircularAbout (P (i + 1)) |o| w w')
    (hsg : o * w.bulge < 0) {x : V2} :
    (OnSeg w w' x → dist2 x (P (i + 1)) = o ^ 2) ∧ (dist2 x (P (i + 1)) = o ^ 2 → Wedge P i x → OnSeg w w' x) := by
  have hs := h.poly
  have l0 := hs.elen_pos i
  have l1 := hs.elen_pos (i + 1)
  have hcen := isCenter_unique ha.b_ne hc.1
  have hd0 : dist2 w.pos (P (i + 1)) = o ^ 2 := by rw [e0]; exact dist2_offE_end hs i
  constructor
  · intro hx
    obtain ⟨t, t0, t1, rfl⟩ := (onSeg_arc ha.arc).1 hx
    rw [← hcen, dist2_rot, hd0]
  · intro hx hw
    have hne : x ≠ centerOf w w' := by
      rw [← hcen]
      rintro rfl
      have : dist2 (P (i + 1)) (P (i + 1)) = 0 := by simp [dist2]
      rw [this] at hx
      exact h.ne (pow_eq_zero_iff two_ne_zero |>.1 hx.symm)
    obtain ⟨ψ, p1, p2, hψ⟩ := exists_offset (centerOf w w') w.pos x
    have hsec : InSector w w' x := by
      unfold InSector
      rw [← hcen, e0, e1]
      have c0 : cross (P (i + 1)) (offE P o i 1) x * elen P i = - (o * ahead (P i) (P (i + 1)) x) := by
        simp only [cross, offE, normalAt, lerp, ahead]
        field_simp
        ring
      have c1 : cross (P (i + 1)) (offE P o (i + 1) 0) x * elen P (i + 1) = o * ahead (P (i + 2)) (P (i + 1)) x := by
        simp only [cross, offE, normalAt, lerp, ahead]
        field_simp
        ring
      obtain ⟨w1, w2⟩ := hw
      rcases lt_or_gt_of_ne h.ne with ho | ho
      · left
        refine ⟨pos_of_mul_neg_right hsg ho.le, ?_, ?_⟩
        · refine nonneg_of_mul_nonneg_left (b := elen P i) ?_ l0
          rw [c0]; nlinarith
        · refine nonpos_of_mul_nonpos_left ?_ l1
          rw [c1]; nlinarith
      · right
        refine ⟨neg_of_mul_neg_right hsg ho.le, ?_, ?_⟩
        · refine nonpos_of_mul_nonpos_left ?_ l0
          rw [c0]; nlinarith
        · refine nonneg_of_mul_nonneg_left (b := elen P (i + 1)) ?_ l1
          rw [c1]; nlinarith
    have hon := onSeg_of_inSector ha hc.2.2 hne hsec p1 p2 hψ
    have hdd : distance w.pos (centerOf w w') = distance x (centerOf w w') := by
      unfold distance; rw [← hcen, hd0, hx]
    have hpos := distance_pos hne
    rw [hdd] at hψ
    have : x = rot (centerOf w w') ψ w.pos := by
      have hX := congrArg V2.x hψ
      have hY := congrArg V2.y hψ
      simp only [V2.smul_x, V2.smul_y, V2.sub_x, V2.sub_y] at hX hY
      have hX := mul_left_cancel₀ hpos.ne' hX
      have hY := mul_left_cancel₀ hpos.ne' hY
      ext <;> linarith
    rw [this]; exact hon


/-- The three kinds of points of the raw offset. -/
theorem RawG.kinds (h : RawG P n o ls) {x : V2} (hx : OnRaw n ls x) :
    (∃ j < n, ∃ t, 0 ≤ t ∧ t ≤ 1 ∧ x = offE P o j t) ∨
    (∃ i < n, o * bend P i < 0 ∧ dist2 x (P (i + 1)) = o ^ 2) ∨
    ∃ i < n, 0 < o * bend P i ∧ ∃ t, 0 ≤ t ∧ t ≤ 1 ∧ x = lerp (offE P o i 1) (offE P o (i + 1) 0) t := by
  obtain ⟨i, hi, hx⟩ := hx
  rcases hx with ⟨w, w', e, hx⟩ | ⟨u, v, hu, hv, hx⟩
  · rcases h.corner i hi with ⟨v, _, _, e', _⟩ | ⟨w1, w1', e', hl, e0, e1, hk⟩
    · rw [e] at e'; simp at e'
    · rw [e] at e'
      simp only [List.cons.injEq, and_true] at e'
      obtain ⟨rfl, rfl⟩ := e'
      rcases hk with ⟨hb, ha, hc, hsg⟩ | ⟨hb, hl'⟩
      · exact Or.inr (Or.inl ⟨i, hi, hb, (h.arc e0 e1 ha hc hsg).1 hx⟩)
      · obtain ⟨t, t0, t1, rfl⟩ := (onSeg_line hl').1 hx
        exact Or.inr (Or.inr ⟨i, hi, hb, t, t0, t1, by rw [e0, e1]⟩)
  · obtain ⟨s, tS, tE, a0, a1, b0, b1, -, -, s0, s1, rfl⟩ := (h.line hi hu hv).1 hx
    refine Or.inl ⟨_, (h.poly.next hi).1, _, ?_, ?_, rfl⟩
    · nlinarith
    · nlinarith

/-- No point of the raw offset is farther away than it should be. -/
theorem RawG.close (h : RawG P n o ls) {x : V2} (hx : OnRaw n ls x) :
    ∃ k < n, ∃ z, OnLine (P k) (P (k + 1)) z ∧ dist2 x z ≤ o ^ 2 := by
  rcases h.kinds hx with ⟨j, hj, t, t0, t1, rfl⟩ | ⟨i, hi, -, hd⟩ | ⟨i, hi, hb, t, t0, t1, rfl⟩
  · refine ⟨j, hj, _, onLine_lerp t0 t1, ?_⟩
    rw [h.poly.offE_own]; simp
  · exact ⟨i, hi, _, onLine_end _ _, hd.le⟩
  · exact ⟨i, hi, _, onLine_end _ _, (h.chord hi hb t0 t1).1⟩

/-- A point of the raw offset that is far enough away is on the side of the offset. -/
theorem RawP.level (h : RawP P n o ls) {σ : ℝ} {V V' : ℤ} (hV : Sides P n σ V V') (hσ : 0 < σ * o) {x : V2}
    (hx : OnRaw n ls x) (hf : FarP P n o x) : polyW P n x = V := by
  have hs := h.simple
  have sq := hV.sq
  have flip : ∀ r, o * r < 0 → σ * r < 0 := by
    intro r hr
    rcases hV.1 with rfl | rfl
    · rw [one_mul] at hσ ⊢
      exact neg_of_mul_neg_right hr hσ.le
    · have : 0 < r := pos_of_mul_neg_right hr (by linarith)
      linarith
  have corner : ∀ i < n, dist2 x (P (i + 1)) = o ^ 2 → o * bend P i < 0 → polyW P n x = V := by
    intro i hi hd hb
    have hne : P (i + 1) ≠ x := by
      rintro e
      rw [← e] at hd
      have : dist2 (P (i + 1)) (P (i + 1)) = 0 := by simp [dist2]
      rw [this] at hd
      exact h.ne (pow_eq_zero_iff two_ne_zero |>.1 hd.symm)
    obtain ⟨n1, n2, n3, n4⟩ := hs.next hi
    have hc : ∀ k < n, ∀ w, OnLine (P k) (P (k + 1)) w → dist2 x (P (i + 1)) ≤ dist2 x w :=
      fun k hk w hw => hd.le.trans (hf k hk w hw)
    have hw : Wedge P i x := wedge_of_closest (hc i hi) (by have := hc _ n1; rw [n3, n4] at this; exact this)
    exact hs.value_corner hV hi hc (flip _ hb).le (wedge_side hw hne (flip _ hb))
  rcases h.kinds hx with ⟨j, hj, t, t0, t1, rfl⟩ | ⟨i, hi, hb, hd⟩ | ⟨i, hi, hb, t, t0, t1, rfl⟩
  · have hd : dist2 (offE P o j t) (lerp (P j) (P (j + 1)) t) = o ^ 2 := by
      rw [hs.offE_own]; ring
    rcases t1.lt_or_eq with t1 | rfl
    · rcases t0.lt_or_eq with t0 | rfl
      · refine hs.value_inner hV hj t0 t1 (fun k hk w hw => hd.le.trans (hf k hk w hw)) ?_
        rw [hs.cross_offE, ← mul_assoc]
        exact mul_pos hσ (hs.elen_pos j)
      · obtain ⟨i, hi, e, ei⟩ := hs.vertex_end hj
        obtain ⟨n1, n2, n3, n4⟩ := hs.next hi
        rw [ei] at n3 n4
        have e' : offE P o j 0 = offE P o (i + 1) 0 := offE_congr n3 n4 0
        rw [lerp_zero, e] at hd
        refine corner i hi hd ?_
        rcases lt_or_gt_of_ne (mul_ne_zero h.ne (h.bent i hi)) with hb | hb
        · exact hb
        · have := (h.chord hi hb zero_le_one le_rfl).2
          rw [lerp_one, ← e'] at this
          exact absurd hf this
    · rw [lerp_one] at hd
      refine corner j hj hd ?_
      rcases lt_or_gt_of_ne (mul_ne_zero h.ne (h.bent j hj)) with hb | hb
      · exact hb
      · have := (h.chord hj hb le_rfl zero_le_one).2
        rw [lerp_zero] at this
        exact absurd hf this
  · exact corner i hi hd hb
  · exact absurd hf (h.chord hi hb t0 t1).2

/-- Every point of the exact offset is on the raw offset. -/
theorem RawP.onRaw (h : RawP P n o ls) {σ : ℝ} {V V' : ℤ} (hV : Sides P n σ V V') (hσ : 0 < σ * o) {x : V2}
    (hx : polyW P n x = V) (hf : FarP P n o x) {k : ℕ} (hk : k < n) {z : V2} (hz : OnLine (P k) (P (k + 1)) z)
    (hd : dist2 x z = o ^ 2) : OnRaw n ls x := by
  have hs := h.simple
  have flip : ∀ r, σ * r < 0 → o * r < 0 := by
    intro r hr
    rcases hV.1 with rfl | rfl
    · rw [one_mul] at hσ hr
      exact mul_neg_of_pos_of_neg hσ hr
    · have : 0 < r := by linarith
      exact mul_neg_of_neg_of_pos (by linarith) this
  obtain ⟨t, t0, t1, rfl⟩ := hz
  rcases hs.level_cases hV hσ h.bent hx hf hk t0 t1 hd with ⟨t0, t1, rfl⟩ | ⟨i, hi, hz, hb, hw⟩
  · obtain ⟨i, hi, -, ei⟩ := hs.vertex_end hk
    obtain ⟨n1, n2, n3, n4⟩ := hs.next hi
    rw [ei] at n3 n4
    obtain ⟨u, tS, hu, hl, a0, a1, ea, hS⟩ := (h.corner i hi).start
    obtain ⟨v, tE, hv, b0, b1, eb, hE⟩ := (h.corner k hk).stop
    have hSt : tS ≤ t := by
      rcases hS with rfl | ⟨t0', c0, c1, he⟩
      · exact t0.le
      · by_contra hn
        obtain ⟨z, hz, hlt⟩ := hs.trim_start (h.bent i hi) he c0 (not_le.1 hn) t0
        rw [← offE_congr n3 n4] at hlt
        exact absurd (hf i hi z hz) (not_le.2 hlt)
    have hEt : t ≤ tE := by
      rcases hE with rfl | ⟨t1', c0, c1, he⟩
      · exact t1.le
      · by_contra hn
        obtain ⟨z, hz, hlt⟩ := hs.trim_end (h.bent k hk) he c1 (not_le.1 hn) t1
        obtain ⟨m1, m2, m3, m4⟩ := hs.next hk
        exact absurd (hf _ m1 z (by rw [m3, m4]; exact hz)) (not_le.2 hlt)
    refine ⟨i, hi, Or.inr ⟨u, v, hu, by rw [ei]; exact hv, ?_⟩⟩
    rw [h.line hi hu (by rw [ei]; exact hv), ei]
    rcases (hSt.trans hEt).eq_or_lt with e | hlt
    · have : t = tS := by linarith
      exact ⟨0, tS, tE, a0, a1, b0, b1, by rw [ea, offE_congr n3 n4], eb, le_rfl, zero_le_one, by rw [this]; ring_nf⟩
    · refine ⟨(t - tS) / (tE - tS), tS, tE, a0, a1, b0, b1, by rw [ea, offE_congr n3 n4], eb,
        div_nonneg (by linarith) (by linarith), by rw [div_le_one (by linarith)]; linarith, ?_⟩
      rw [div_mul_cancel₀ _ (by linarith : tE - tS ≠ 0)]
      ring_nf
  · rw [hz] at hd
    have hb' := flip _ hb
    refine ⟨i, hi, Or.inl ?_⟩
    rcases h.corner i hi with ⟨v, t0, t1, e, hl, -, -, -, -, -, -, hb2⟩ | ⟨w, w', e, hl, e0, e1, hk⟩
    · linarith
    · rcases hk with ⟨-, ha, hc, hsg⟩ | ⟨hb2, -⟩
      · exact ⟨w, w', e, (h.arc e0 e1 ha hc hsg).2 hd hw⟩
      · linarith

end

/-! ### From the polylines -/

theorem head_flatten {α : Type} {b : List α} {B : List (List α)} (hb : b ≠ []) :
    (b :: B).flatten.head? = b.head? := by
  cases b with
  | nil => exact absurd rfl hb
  | cons a t => rfl

theorem next_head {α : Type} {ls A B : List (List α)} {l : List α} {a : α} (h : ls = A ++ l :: B)
    (hne : ∀ l ∈ ls, l ≠ []) (ha : ls.flatten.head? = some a) :
    (ls[(A.length + 1) % ls.length]?.getD []).head? = some (B.flatten.head?.getD a) := by
  have hlen : ls.length = A.length + B.length + 1 := by rw [h]; simp; omega
  cases B with
  | nil =>
    simp only [List.length_nil, Nat.add_zero] at hlen
    rw [hlen, Nat.mod_self]
    simp only [List.flatten_nil, List.head?_nil, Option.getD_none]
    cases ls with
    | nil => simp at hlen
    | cons b ls =>
      rw [head_flatten (hne b (by simp))] at ha
      exact ha
  | cons b B =>
    have hb : b ≠ [] := hne b (by rw [h]; simp)
    rw [Nat.mod_eq_of_lt (by rw [hlen]; simp), head_flatten hb]
    have : ls[A.length + 1]? = some b := by
      rw [h, List.getElem?_append_right (by omega)]
      simp
    rw [this]
    cases b with
    | nil => exact absurd rfl hb
    | cons c t => rfl

/-- The points of the raw offset, from its corners. -/
theorem raw_onRaw {raw : Polyline} {ls : List (List Vertex)} {n : ℕ} (hc : raw.isClosed = true)
    (hlen : ls.length = n) (h2 : 2 ≤ n)
    (hk : ∀ l ∈ ls, (∃ v, l = [v]) ∨ ∃ w w', l = [w, w'])
    (hr : raw.vertexes = ls.flatten.rotate (ls.flatten.length - 1)) {x : V2} :
    OnPline raw x ↔ OnRaw n (fun i => ls[i]?.getD []) x := by
  have hne : ∀ l ∈ ls, l ≠ [] := by
    intro l hl
    rcases hk l hl with ⟨v, rfl⟩ | ⟨w, w', rfl⟩ <;> simp
  have hL : 2 ≤ ls.flatten.length := by
    rw [List.length_flatten]
    have : ∀ m ∈ ls.map List.length, 1 ≤ m := by
      intro m hm
      obtain ⟨l, hl, rfl⟩ := List.mem_map.1 hm
      exact List.length_pos_iff.2 (hne l hl)
    have := List.card_nsmul_le_sum (ls.map List.length) 1 this
    simp at this
    omega
  rw [onPline_rotate hc hL hr]
  obtain ⟨a, t, hat⟩ : ∃ a t, ls.flatten = a :: t := by
    cases h : ls.flatten with
    | nil => rw [h] at hL; simp at hL
    | cons a t => exact ⟨a, t, rfl⟩
  have hhead : ls.flatten.head? = some a := by rw [hat]; rfl
  have hz : ls.flatten.zip (ls.flatten.rotate 1) = pairsTo ls.flatten a := by
    rw [hat, zip_rotate_one]
  rw [hz]
  simp only [mem_pairs_flatten ls a hne]
  have split : ∀ A l B, ls = A ++ l :: B → A.length < n ∧ ls[A.length]?.getD [] = l ∧
      (ls[(A.length + 1) % n]?.getD []).head? = some (B.flatten.head?.getD a) := by
    intro A l B h
    refine ⟨by rw [← hlen, h]; simp, ?_, ?_⟩
    · rw [h, List.getElem?_append_right (by omega)]; simp
    · rw [← hlen]; exact next_head h hne hhead
  constructor
  · rintro ⟨v, e, ⟨A, l, B, h, hp⟩, ho⟩
    obtain ⟨q1, q2, q3⟩ := split A l B h
    refine ⟨A.length, q1, ?_⟩
    simp only [q2]
    rcases hk l (by rw [h]; simp) with ⟨w, rfl⟩ | ⟨w, w', rfl⟩
    · simp only [pairsTo, List.mem_singleton, Prod.mk.injEq] at hp
      obtain ⟨rfl, rfl⟩ := hp
      exact Or.inr ⟨_, _, rfl, q3, ho⟩
    · simp only [pairsTo, List.mem_cons, List.not_mem_nil, or_false, Prod.mk.injEq] at hp
      rcases hp with ⟨rfl, rfl⟩ | ⟨rfl, rfl⟩
      · exact Or.inl ⟨_, _, rfl, ho⟩
      · exact Or.inr ⟨_, _, rfl, q3, ho⟩
  · rintro ⟨i, hi, h⟩
    have hi' : i < ls.length := by omega
    have hsp : ls = ls.take i ++ ls[i] :: ls.drop (i + 1) := by
      rw [List.getElem_cons_drop, List.take_append_drop]
    obtain ⟨q1, q2, q3⟩ := split _ _ _ hsp
    have hti : (ls.take i).length = i := by simp; omega
    rw [hti] at q2 q3
    simp only [q2] at h
    rcases h with ⟨w, w', e, ho⟩ | ⟨u, v, hu, hv, ho⟩
    · exact ⟨w, w', ⟨_, _, _, hsp, by rw [e]; simp [pairsTo]⟩, ho⟩
    · rw [q3] at hv
      have hv := Option.some.inj hv
      refine ⟨u, v, ⟨_, _, _, hsp, ?_⟩, ho⟩
      rw [hv]
      rcases hk ls[i] (List.getElem_mem _) with ⟨w, e⟩ | ⟨w, w', e⟩ <;> rw [e] at hu ⊢ <;> simp at hu <;>
        simp [pairsTo, hu]

/-- The sweep of an arc that is not too flat. -/
theorem not_line_of_sweep {w w' : Vertex} {c : V2} {r : ℝ} (hr : 0 < r) (hc : CircularAbout c r w w')
    (h : 1 / 10 ^ 4 * r ^ 2 ≤ |cross c w.pos w'.pos|) : ¬ IsLine w := by
  obtain ⟨hcen, hd, hb⟩ := hc
  have hd2 : dist2 w.pos c = r ^ 2 := by
    rw [← hd]; unfold distance; rw [Real.sq_sqrt]; unfold dist2; positivity
  have hcr : cross c w.pos w'.pos = r ^ 2 * Real.sin (sweep w) := by
    rw [← hcen, ← hd2]
    simp only [cross, rot, dist2]; ring
  rw [hcr, abs_mul, abs_of_pos (by positivity : (0 : ℝ) < r ^ 2)] at h
  have h1 : 1 / 10 ^ 4 ≤ |Real.sin (sweep w)| := by
    have : 0 < r ^ 2 := by positivity
    by_contra hn
    nlinarith [not_le.1 hn]
  have h2 : |Real.sin (sweep w)| ≤ |sweep w| := Real.abs_sin_le_abs
  have h3 : |sweep w| ≤ 4 * |w.bulge| := by
    unfold sweep
    rw [abs_mul, abs_of_pos (by norm_num : (0 : ℝ) < 4)]
    have := arctan_abs_le w.bulge
    linarith
  unfold IsLine
  intro hl
  have : (1 : ℝ) / 10 ^ 4 ≤ 4 * (1 / 10 ^ 5) := by linarith
  norm_num at this

/-- The corners of the raw offset of a polygon. -/
theorem round_corner {P : ℕ → V2} {n : ℕ} {o : ℝ} {i : ℕ} (hs : PolyP P n) (ho : o ≠ 0)
    (hc : ClearCorner o (P i) (P (i + 1)) (P (i + 2))) {l : List Vertex}
    (h : Rounds o (P i) (P (i + 1)) (P (i + 2)) l)
    (hfar : ∀ w w', l = [w, w'] → ¬ Near (1 / 10 ^ 5) w.pos w'.pos) : CornerP P o i l := by
  have hb : bend P i ≠ 0 := by
    intro h0
    have := hc.turn
    rw [show side (P i) (P (i + 1)) (P (i + 2)) = bend P i from rfl, h0, abs_zero] at this
    norm_num at this
  have ml : ∀ t, lerp (movedLeft o (P i) (P (i + 1)) (P i)) (movedLeft o (P i) (P (i + 1)) (P (i + 1))) t = offE P o i t := by
    intro t; rw [moved_dir, movedLeft_offE]
  have mr : ∀ t, lerp (movedLeft o (P (i + 1)) (P (i + 2)) (P (i + 1))) (movedLeft o (P (i + 1)) (P (i + 2)) (P (i + 2))) t
      = offE P o (i + 1) t := by
    intro t; rw [moved_dir]; exact movedLeft_offE P o (i + 1) t
  obtain ⟨h1, h2⟩ := h
  rcases h1 with ⟨t0, t1, x, a0, a1, b0, b1, ⟨m1, m2⟩, hp⟩ | ⟨hno, hp⟩
  · left
    rcases h2 with ⟨v, rfl, hl⟩ | ⟨w, w', rfl, -⟩
    · simp only [List.map_cons, List.map_nil, List.cons.injEq, and_true] at hp
      rw [ml] at m1
      rw [mr] at m2
      refine ⟨v, t0, t1, rfl, hl, a0, a1, b0, b1, by rw [hp, m1], by rw [hp, m2], ?_⟩
      obtain ⟨-, e⟩ := hs.trim hb (m1.trans m2.symm)
      have := mul_nonneg (mul_nonneg (sub_nonneg.2 a1) (hs.elen_pos i).le) (hs.corner_pos i hb).le
      rw [e] at this
      exact lt_of_le_of_ne this (mul_ne_zero ho hb).symm
    · simp at hp
  · right
    rcases h2 with ⟨v, rfl, hl⟩ | ⟨w, w', rfl, hl, h3⟩
    · simp at hp
    · simp only [List.map_cons, List.map_nil, List.cons.injEq, and_true] at hp
      have e0 : w.pos = offE P o i 1 := by rw [hp.1, movedLeft_end]
      have e1 : w'.pos = offE P o (i + 1) 0 := by rw [hp.2]; exact movedLeft_start P o (i + 1)
      refine ⟨w, w', rfl, hl, e0, e1, ?_⟩
      rw [show side (P i) (P (i + 1)) (P (i + 2)) = bend P i from rfl] at h3
      split_ifs at h3 with hneg
      · left
        refine ⟨hneg, ⟨?_, ?_⟩, h3.1, h3.2⟩
        · refine not_line_of_sweep (abs_pos.2 ho) h3.1 ?_
          have hcr : cross (P (i + 1)) w.pos w'.pos * (elen P i * elen P (i + 1)) = o ^ 2 * bend P i := by
            rw [e0, e1]
            have := (hs.elen_pos i).ne'
            have := (hs.elen_pos (i + 1)).ne'
            simp only [cross, offE, normalAt, lerp, bend]
            field_simp
            ring
          have hL : 0 < elen P i * elen P (i + 1) := mul_pos (hs.elen_pos i) (hs.elen_pos (i + 1))
          have ha : |cross (P (i + 1)) w.pos w'.pos| * (elen P i * elen P (i + 1)) = o ^ 2 * |bend P i| := by
            rw [← abs_of_pos hL, ← abs_mul, hcr, abs_mul, abs_of_nonneg (sq_nonneg o)]
          have hang := hc.angle
          rw [show side (P i) (P (i + 1)) (P (i + 2)) = bend P i from rfl,
            show distance (P i) (P (i + 1)) = elen P i from rfl,
            show distance (P (i + 1)) (P (i + 2)) = elen P (i + 1) from rfl] at hang
          rw [sq_abs]
          refine le_of_mul_le_mul_right ?_ hL
          rw [ha]
          have := mul_le_mul_of_nonneg_left hang (sq_nonneg o)
          linarith
        · have := hfar w w' rfl
          unfold Near at this
          by_contra hn
          push Not at hn
          exact this ⟨hn.1.trans (by norm_num), hn.2.trans (by norm_num)⟩
      · right
        exact ⟨lt_of_le_of_ne (not_lt.1 hneg) (mul_ne_zero ho hb).symm, h3⟩


theorem RoundsAll.kinds {p : Polyline} {o : ℝ} {ls : List (List Vertex)} (hc : p.isClosed = true) (h2 : 2 ≤ p.size)
    (h : RoundsAll p o ls) : ∀ l ∈ ls, (∃ v, l = [v]) ∨ ∃ w w', l = [w, w'] := by
  intro l hl
  obtain ⟨i, hi, e⟩ := List.mem_iff_getElem.1 hl
  obtain ⟨l', hl', hr⟩ := h.2 i _ _ _ ((isCorner_iff hc h2).2 ⟨by rw [← show ls.length = p.size from h.1]; exact hi, rfl, rfl, rfl⟩)
  rw [List.getElem?_eq_getElem hi, e] at hl'
  cases hl'
  rcases hr.2 with ⟨v, rfl, -⟩ | ⟨w, w', rfl, -⟩
  · exact Or.inl ⟨v, rfl⟩
  · exact Or.inr ⟨w, w', rfl⟩

/-- A closed polygon, which may meet itself. -/
theorem closed_polyP {p : Polyline} (hcl : p.isClosed = true) (h2 : 2 ≤ p.size)
    (hn : NoRepeats p) : PolyP (ppos p) p.size := by
  refine ⟨by omega, ppos_per p, fun k => ?_⟩
  have hmod : ∀ k, ppos p k = ppos p (k % p.size) := by
    intro k; unfold ppos; rw [Nat.mod_mod]
  have hi : k % p.size < p.size := Nat.mod_lt _ (by omega)
  have hs := closed_isSeg hcl h2 hi
  obtain ⟨-, -, -, -, e1, e2⟩ := ppos_seg hcl hs
  have e3 : ppos p (k + 1) = ppos p (k % p.size + 1) := by
    rw [hmod (k + 1), ← Nat.mod_add_mod, ← hmod]
  rw [hmod k, e3, e1, e2]
  intro e
  exact hn _ _ _ hs (by rw [e]; constructor <;> norm_num)

theorem poly_rawG {p : Polyline} {o : ℝ} {ls : List (List Vertex)} (hcl : p.isClosed = true) (h2 : 2 ≤ p.size) (ho : o ≠ 0)
    (hc : ClearOffset p o) (h : RoundsAll p o ls) : RawG (ppos p) p.size o (fun i => ls[i]?.getD []) := by
  have hs := closed_polyP hcl h2 hc.repeats
  have cor : ∀ i < p.size, ClearCorner o (ppos p i) (ppos p (i + 1)) (ppos p (i + 2)) := fun i hi =>
    hc.corner i _ _ _ ((isCorner_iff hcl h2).2 ⟨hi, rfl, rfl, rfl⟩)
  have hk := RoundsAll.kinds hcl h2 h
  have hne : ∀ l ∈ ls, l ≠ [] := by
    intro l hl
    rcases hk l hl with ⟨v, rfl⟩ | ⟨w, w', rfl⟩ <;> simp
  have hpts : AllCornerPoints p o (ls.map (List.map Vertex.pos)) := by
    refine ⟨by rw [List.length_map]; exact h.1, fun i a b c hcor => ?_⟩
    obtain ⟨l, hl, hr⟩ := h.2 i a b c hcor
    exact ⟨_, by rw [List.getElem?_map, hl]; rfl, hr.1⟩
  have hap := hc.apart _ hpts
  refine ⟨hs, by omega, ho, fun i hi h0 => ?_, fun i hi => ?_⟩
  · have := (cor i hi).turn
    rw [show side (ppos p i) (ppos p (i + 1)) (ppos p (i + 2)) = bend (ppos p) i from rfl, h0, abs_zero] at this
    norm_num at this
  · obtain ⟨l, hl, hr⟩ := h.2 i _ _ _ ((isCorner_iff hcl h2).2 ⟨hi, rfl, rfl, rfl⟩)
    simp only [hl, Option.getD_some]
    refine round_corner hs ho (cor i hi) hr ?_
    rintro w w' rfl
    obtain ⟨hi', e⟩ := List.getElem?_eq_some_iff.1 hl
    have hsp : ls = ls.take i ++ ls[i] :: ls.drop (i + 1) := by
      rw [List.getElem_cons_drop, List.take_append_drop]
    rw [e] at hsp
    obtain ⟨a, t, hat⟩ : ∃ a t, (ls.map (List.map Vertex.pos)).flatten = a :: t := by
      rw [hsp]
      cases ls.take i with
      | nil => exact ⟨w.pos, _, rfl⟩
      | cons b B =>
        cases hf : (List.map (List.map Vertex.pos) (b :: B ++ [w, w'] :: ls.drop (i + 1))).flatten with
        | nil => simp at hf
        | cons a t => exact ⟨a, t, rfl⟩
    refine hap (w.pos, w'.pos) ?_
    rw [hat, zip_rotate_one, ← hat, mem_pairs_flatten]
    · refine ⟨(ls.take i).map (List.map Vertex.pos), [w.pos, w'.pos], (ls.drop (i + 1)).map (List.map Vertex.pos), ?_, ?_⟩
      · conv_lhs => rw [hsp]
        simp
      · simp [pairsTo]
    · intro l hl
      obtain ⟨l', hl', rfl⟩ := List.mem_map.1 hl
      simpa using hne l' hl'

theorem simple_rawP {p : Polyline} {o : ℝ} {ls : List (List Vertex)} (hp : SimplePolygon p) (ho : o ≠ 0)
    (hc : ClearOffset p o) (h : RoundsAll p o ls) : RawP (ppos p) p.size o (fun i => ls[i]?.getD []) :=
  ⟨poly_rawG hp.closed hp.two' ho hc h, hp.simpleP⟩

theorem notCloser_poly {p : Polyline} (hcl : p.isClosed = true) (hl : ∀ v ∈ p.vertexes, IsLine v) (h2 : 2 ≤ p.size)
    {o : ℝ} {x : V2} : NotCloser p |o| x ↔ FarP (ppos p) p.size o x := by
  unfold NotCloser FarP
  simp only [polygon_onPline hcl hl]
  have key : ∀ z, |o| ≤ distance x z ↔ o ^ 2 ≤ dist2 x z := by
    intro z
    unfold distance
    rw [Real.le_sqrt (abs_nonneg _) (by unfold dist2; positivity), sq_abs]
  constructor
  · intro h k hk z hz
    exact (key z).1 (h z ⟨h2, k, hk, hz⟩)
  · rintro h z ⟨-, k, hk, hz⟩
    exact (key z).2 (h k hk z hz)

theorem notCloser_iff {p : Polyline} (hp : SimplePolygon p) {o : ℝ} {x : V2} :
    NotCloser p |o| x ↔ FarP (ppos p) p.size o x := notCloser_poly hp.closed hp.lines hp.two'

/-- The winding number on the side of the offset. -/
theorem offsetSide_sides {p : Polyline} (hp : SimplePolygon p) {o : ℝ} (ho : o ≠ 0) :
    ∃ (σ : ℝ) (V V' : ℤ), Sides (ppos p) p.size σ V V' ∧ 0 < σ * o ∧
      ∀ x, ¬ OnPline p x → (OnOffsetSide p o x ↔ polyW (ppos p) p.size x = V) := by
  obtain ⟨s, hs1, hpos, hval, hside⟩ := hp.simpleP.once
  have hs0 : s ≠ 0 := by rcases hs1 with rfl | rfl <;> norm_num
  have hsR : (s : ℝ) = 1 ∨ (s : ℝ) = -1 := by rcases hs1 with rfl | rfl <;> simp
  have hin : ∀ x, ¬ OnPline p x → (Inside p x ↔ polyW (ppos p) p.size x ≠ 0) := fun x hx =>
    inside_wnum hp.closed hp.lines hp.two' hx
  have hunf : ∀ x, ¬ OnPline p x →
      (OnOffsetSide p o x ↔ (polyW (ppos p) p.size x ≠ 0 ↔ 0 < o * (shoelace (ppos p) p.size / 2))) := by
    intro x hx
    unfold OnOffsetSide
    rw [simple_area hp, ← hin x hx]
    constructor
    · rintro ⟨-, h⟩; exact h _ rfl
    · intro h
      refine ⟨hx, fun a ha => ?_⟩
      have := Except.ok.inj ha
      rw [← this]; exact h
  have hS1 : Sides (ppos p) p.size s s 0 := ⟨hsR, hs0, fun j hj t t0 t1 => hside j hj t t0 t1⟩
  by_cases h : 0 < (s : ℝ) * o
  · refine ⟨s, s, 0, hS1, h, fun x hx => ?_⟩
    rw [hunf x hx]
    have : 0 < o * (shoelace (ppos p) p.size / 2) := by
      rcases hsR with e | e <;> rw [e] at h hpos <;> nlinarith
    rw [iff_true_right this]
    rcases hval x ((simple_off hp).1 hx) with q | q
    · rw [q]; simp [hs0.symm]
    · rw [q]; simp [hs0]
  · refine ⟨-s, 0, s, hS1.flip, ?_, fun x hx => ?_⟩
    · have : (s : ℝ) * o ≠ 0 := mul_ne_zero (by rcases hsR with e | e <;> rw [e] <;> norm_num) ho
      have := lt_of_le_of_ne (not_lt.1 h) this
      linarith
    · rw [hunf x hx]
      have : ¬ 0 < o * (shoelace (ppos p) p.size / 2) := by
        rcases hsR with e | e <;> rw [e] at h hpos <;> nlinarith
      rw [iff_false_right this]
      simp

/-- **C62.** The raw offset of a polygon that does not meet itself, when the tolerances of the library do
not matter: it is a closed polyline, all its points are at most the offset away from the polygon, and those
that are not closer are exactly the points of the exact offset. -/
theorem C62_level {p : Polyline} {offset : ℝ} (hp : SimplePolygon p) (hne : offset ≠ 0)
    (hclear : ClearOffset p offset) :
    ∃ raw, createRawOffsetPline p offset = .ok raw ∧ raw.isClosed = true ∧
      (∀ x, OnPline raw x → ∃ z, OnPline p z ∧ distance x z ≤ |offset|) ∧
      ∀ x, AtOffset p offset x ↔ OnPline raw x ∧ NotCloser p |offset| x := by
  obtain ⟨raw, ls, hrun, hc, hls, hr⟩ := C62_raw hp.closed hp.lines hp.two hclear
  have h2 := hp.two'
  have hraw := simple_rawP hp hne hclear hls
  have hon : ∀ x, OnPline raw x ↔ OnRaw p.size (fun i => ls[i]?.getD []) x := fun x =>
    raw_onRaw hc hls.1 h2 (RoundsAll.kinds hp.closed h2 hls) hr
  obtain ⟨σ, V, V', hV, hσ, hside⟩ := offsetSide_sides hp hne
  have hd : ∀ x z, (distance x z ≤ |offset| ↔ dist2 x z ≤ offset ^ 2) := by
    intro x z
    unfold distance
    rw [Real.sqrt_le_left (abs_nonneg _), sq_abs]
  have hd2 : ∀ x z, (distance x z = |offset| ↔ dist2 x z = offset ^ 2) := by
    intro x z
    unfold distance
    rw [Real.sqrt_eq_iff_mul_self_eq_of_pos (abs_pos.2 hne), abs_mul_abs_self, ← pow_two]
    exact eq_comm
  refine ⟨raw, hrun, hc, fun x hx => ?_, fun x => ?_⟩
  · obtain ⟨k, hk, z, hz, hdz⟩ := hraw.close ((hon x).1 hx)
    exact ⟨z, (polygon_onPline hp.closed hp.lines).2 ⟨h2, k, hk, hz⟩, (hd x z).2 hdz⟩
  · rw [hon]
    unfold AtOffset
    rw [notCloser_iff hp]
    constructor
    · rintro ⟨h1, hf, z, hz, hdz⟩
      obtain ⟨-, k, hk, hz⟩ := (polygon_onPline hp.closed hp.lines).1 hz
      exact ⟨hraw.onRaw hV hσ ((hside x h1.1).1 h1) hf hk hz ((hd2 x z).1 hdz), hf⟩
    · rintro ⟨hx, hf⟩
      have hoff : ¬ OnPline p x := by
        intro h
        obtain ⟨-, k, hk, hz⟩ := (polygon_onPline hp.closed hp.lines).1 h
        have := hf k hk x hz
        have e : dist2 x x = 0 := by simp [dist2]
        rw [e] at this
        have := pow_pos (abs_pos.2 hne) 2
        rw [sq_abs] at this
        linarith
      refine ⟨(hside x hoff).2 (hraw.level hV hσ hx hf), hf, ?_⟩
      obtain ⟨k, hk, z, hz, hdz⟩ := hraw.close hx
      exact ⟨z, (polygon_onPline hp.closed hp.lines).2 ⟨h2, k, hk, hz⟩,
        (hd2 x z).2 (le_antisymm hdz (hf k hk z hz))⟩


/-! ### The hypotheses are met -/

theorem letterL_corner {i : ℕ} {a b c : V2} (h : IsCorner letterL i a b c) :
    (i = 0 ∧ a = ⟨0, 0⟩ ∧ b = ⟨2, 0⟩ ∧ c = ⟨2, 1⟩) ∨ (i = 1 ∧ a = ⟨2, 0⟩ ∧ b = ⟨2, 1⟩ ∧ c = ⟨1, 1⟩) ∨
    (i = 2 ∧ a = ⟨2, 1⟩ ∧ b = ⟨1, 1⟩ ∧ c = ⟨1, 2⟩) ∨ (i = 3 ∧ a = ⟨1, 1⟩ ∧ b = ⟨1, 2⟩ ∧ c = ⟨0, 2⟩) ∨
    (i = 4 ∧ a = ⟨1, 2⟩ ∧ b = ⟨0, 2⟩ ∧ c = ⟨0, 0⟩) ∨ (i = 5 ∧ a = ⟨0, 2⟩ ∧ b = ⟨0, 0⟩ ∧ c = ⟨2, 0⟩) := by
  obtain ⟨hi, rfl, rfl, rfl⟩ := (isCorner_iff rfl (by decide)).1 h
  have : letterL.size = 6 := rfl
  rw [this] at hi
  interval_cases i <;> simp [ppos, vtx, letterL, Polyline.size]

theorem letterL_moved (x : V2) :
    movedLeft (1 / 4) ⟨0, 0⟩ ⟨2, 0⟩ x = ⟨x.x, x.y + 1 / 4⟩ ∧ movedLeft (1 / 4) ⟨2, 0⟩ ⟨2, 1⟩ x = ⟨x.x - 1 / 4, x.y⟩ ∧
    movedLeft (1 / 4) ⟨2, 1⟩ ⟨1, 1⟩ x = ⟨x.x, x.y - 1 / 4⟩ ∧ movedLeft (1 / 4) ⟨1, 1⟩ ⟨1, 2⟩ x = ⟨x.x - 1 / 4, x.y⟩ ∧
    movedLeft (1 / 4) ⟨1, 2⟩ ⟨0, 2⟩ x = ⟨x.x, x.y - 1 / 4⟩ ∧ movedLeft (1 / 4) ⟨0, 2⟩ ⟨0, 0⟩ x = ⟨x.x + 1 / 4, x.y⟩ := by
  have h2 : Real.sqrt (2 ^ 2) = 2 := Real.sqrt_sq (by norm_num)
  refine ⟨?_, ?_, ?_, ?_, ?_, ?_⟩ <;> ext <;> simp [movedLeft, distance, dist2, h2] <;> norm_num <;> ring

theorem letterL_points {i : ℕ} {a b c : V2} (h : IsCorner letterL i a b c) : side a b c ≠ 0 ∧
    ∃ l, CornerPoints (1 / 4) a b c l ∧ l = [[⟨7 / 4, 1 / 4⟩], [⟨7 / 4, 3 / 4⟩], [⟨1, 3 / 4⟩, ⟨3 / 4, 1⟩],
      [⟨3 / 4, 7 / 4⟩], [⟨1 / 4, 7 / 4⟩], [⟨1 / 4, 1 / 4⟩]].getD i [] := by
  have hm := letterL_moved
  rcases letterL_corner h with ⟨rfl, rfl, rfl, rfl⟩ | ⟨rfl, rfl, rfl, rfl⟩ | ⟨rfl, rfl, rfl, rfl⟩ |
    ⟨rfl, rfl, rfl, rfl⟩ | ⟨rfl, rfl, rfl, rfl⟩ | ⟨rfl, rfl, rfl, rfl⟩
  · refine ⟨by norm_num [side], _, Or.inl ⟨7 / 8, 1 / 4, ⟨7 / 4, 1 / 4⟩, ?_, ?_, ?_, ?_, ⟨?_, ?_⟩, rfl⟩, rfl⟩
    all_goals first | norm_num | skip
    all_goals simp only [(hm _).1, (hm _).2.1]; ext <;> simp [lerp] <;> norm_num
  · refine ⟨by norm_num [side], _, Or.inl ⟨3 / 4, 1 / 4, ⟨7 / 4, 3 / 4⟩, ?_, ?_, ?_, ?_, ⟨?_, ?_⟩, rfl⟩, rfl⟩
    all_goals first | norm_num | skip
    all_goals simp only [(hm _).2.1, (hm _).2.2.1]; ext <;> simp [lerp] <;> norm_num
  · refine ⟨by norm_num [side], _, Or.inr ⟨?_, ?_⟩, rfl⟩
    · rintro ⟨t0, t1, x, a0, a1, b0, b1, e0, e1⟩
      simp only [(hm _).2.2.1] at e0
      simp only [(hm _).2.2.2.1] at e1
      have := congrArg V2.x (e0.trans e1.symm)
      simp [lerp] at this
      linarith
    · simp only [(hm _).2.2.1, (hm _).2.2.2.1]; norm_num
  · refine ⟨by norm_num [side], _, Or.inl ⟨3 / 4, 1 / 4, ⟨3 / 4, 7 / 4⟩, ?_, ?_, ?_, ?_, ⟨?_, ?_⟩, rfl⟩, rfl⟩
    all_goals first | norm_num | skip
    all_goals simp only [(hm _).2.2.2.1, (hm _).2.2.2.2.1]; ext <;> simp [lerp] <;> norm_num
  · refine ⟨by norm_num [side], _, Or.inl ⟨3 / 4, 1 / 8, ⟨1 / 4, 7 / 4⟩, ?_, ?_, ?_, ?_, ⟨?_, ?_⟩, rfl⟩, rfl⟩
    all_goals first | norm_num | skip
    all_goals simp only [(hm _).2.2.2.2.1, (hm _).2.2.2.2.2]; ext <;> simp [lerp] <;> norm_num
  · refine ⟨by norm_num [side], _, Or.inl ⟨7 / 8, 1 / 8, ⟨1 / 4, 1 / 4⟩, ?_, ?_, ?_, ?_, ⟨?_, ?_⟩, rfl⟩, rfl⟩
    all_goals first | norm_num | skip
    all_goals simp only [(hm _).2.2.2.2.2, (hm _).1]; ext <;> simp [lerp] <;> norm_num

theorem letterL_clear : ClearOffset letterL (1 / 4) := by
  have hm := letterL_moved
  have hcor : ∀ i < 6, ∃ a b c, IsCorner letterL i a b c := fun i hi =>
    ⟨_, _, _, (isCorner_iff rfl (by decide)).2 ⟨hi, rfl, rfl, rfl⟩⟩
  refine ⟨?_, ?_, ?_, ?_⟩
  · intro i v1 v2 h hn
    rcases letterL_seg h with ⟨-, rfl, rfl⟩ | ⟨-, rfl, rfl⟩ | ⟨-, rfl, rfl⟩ | ⟨-, rfl, rfl⟩ | ⟨-, rfl, rfl⟩ | ⟨-, rfl, rfl⟩ <;>
      norm_num [Near] at hn
  · intro i a b c h
    have h2 : Real.sqrt (2 ^ 2) = 2 := Real.sqrt_sq (by norm_num)
    refine ⟨?_, ?_, ?_⟩
    · rcases letterL_corner h with ⟨rfl, rfl, rfl, rfl⟩ | ⟨rfl, rfl, rfl, rfl⟩ | ⟨rfl, rfl, rfl, rfl⟩ |
        ⟨rfl, rfl, rfl, rfl⟩ | ⟨rfl, rfl, rfl, rfl⟩ | ⟨rfl, rfl, rfl, rfl⟩ <;> norm_num [side, abs_of_neg]
    · rcases letterL_corner h with ⟨rfl, rfl, rfl, rfl⟩ | ⟨rfl, rfl, rfl, rfl⟩ | ⟨rfl, rfl, rfl, rfl⟩ |
        ⟨rfl, rfl, rfl, rfl⟩ | ⟨rfl, rfl, rfl, rfl⟩ | ⟨rfl, rfl, rfl, rfl⟩ <;>
        simp [side, distance, dist2, h2] <;> norm_num [abs_of_neg]
    · rcases letterL_corner h with ⟨rfl, rfl, rfl, rfl⟩ | ⟨rfl, rfl, rfl, rfl⟩ | ⟨rfl, rfl, rfl, rfl⟩ |
        ⟨rfl, rfl, rfl, rfl⟩ | ⟨rfl, rfl, rfl, rfl⟩ | ⟨rfl, rfl, rfl, rfl⟩
      all_goals
        rintro t0 t1 x ⟨e0, e1⟩ a0 a1 b0 b1
        simp only [(hm _).1, (hm _).2.1, (hm _).2.2.1, (hm _).2.2.2.1, (hm _).2.2.2.2.1, (hm _).2.2.2.2.2] at e0 e1
        have hx := congrArg V2.x (e0.trans e1.symm)
        have hy := congrArg V2.y (e0.trans e1.symm)
        simp only [lerp] at hx hy
        norm_num at a0 a1 b0 b1
        first
          | exact ⟨by linarith, by linarith, by linarith, by linarith⟩
          | (exfalso; linarith)
  · rintro pts ⟨hlen, hpts⟩ x hx
    have hlen' : pts.length = 6 := hlen
    have e : pts = [[⟨7 / 4, 1 / 4⟩], [⟨7 / 4, 3 / 4⟩], [⟨1, 3 / 4⟩, ⟨3 / 4, 1⟩],
        [⟨3 / 4, 7 / 4⟩], [⟨1 / 4, 7 / 4⟩], [⟨1 / 4, 1 / 4⟩]] := by
      apply List.ext_getElem?
      intro i
      by_cases hi : i < 6
      · obtain ⟨a, b, c, h⟩ := hcor i hi
        obtain ⟨hS, l, hl, el⟩ := letterL_points h
        obtain ⟨l', hl', hr⟩ := hpts i a b c h
        rw [hl', cornerPoints_unique hS hr hl, el]
        interval_cases i <;> rfl
      · rw [List.getElem?_eq_none (by omega), List.getElem?_eq_none (by simp; omega)]
    subst e
    simp only [List.flatten_cons, List.flatten_nil, List.append_nil, List.cons_append, List.nil_append,
      zip_rotate_one, pairsTo, List.mem_cons, List.not_mem_nil, or_false] at hx
    rcases hx with rfl | rfl | rfl | rfl | rfl | rfl | rfl <;> intro hn <;> norm_num [Near, abs_of_neg] at hn
  · intro a b c l x h hl hx hn
    obtain ⟨hS, l', hl', el⟩ := letterL_points h
    rw [cornerPoints_unique hS hl hl', el] at hx
    rcases letterL_corner h with ⟨-, rfl, rfl, rfl⟩ | ⟨h, -⟩ | ⟨h, -⟩ | ⟨h, -⟩ | ⟨h, -⟩ | ⟨h, -⟩
    · simp at hx
      subst hx
      rw [(hm _).1] at hn
      norm_num [Near, abs_of_neg] at hn
    all_goals omega

/-- A concrete case: the L with five corners that are cut and one that is rounded. -/
example : ∃ raw, createRawOffsetPline letterL (1 / 4) = .ok raw ∧
    (∀ x, OnPline raw x → ∃ z, OnPline letterL z ∧ distance x z ≤ |1 / 4|) ∧
    ∀ x, AtOffset letterL (1 / 4) x ↔ OnPline raw x ∧ NotCloser letterL |1 / 4| x := by
  obtain ⟨raw, h1, -, h2, h3⟩ := C62_level letterL_simple (by norm_num) letterL_clear
  exact ⟨raw, h1, h2, h3⟩

end
end Cavc

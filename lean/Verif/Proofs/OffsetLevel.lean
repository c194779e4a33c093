import Verif.Proofs.AreaWinding

/-! The points at a fixed distance from a polygon that does not meet itself, on one of its sides. -/
namespace Cavc
open Spec
open scoped Classical
noncomputable section

/-- The length of edge `k`. -/
def elen (P : ℕ → V2) (k : ℕ) : ℝ := Real.sqrt (dist2 (P k) (P (k + 1)))

/-- The point beside edge `k` at parameter `t`, `o` to the left. -/
def offE (P : ℕ → V2) (o : ℝ) (k : ℕ) (t : ℝ) : V2 :=
  normalAt (P k) (P (k + 1)) (lerp (P k) (P (k + 1)) t) (o / elen P k)

/-- No point of the polygon is closer than `|o|`. -/
def FarP (P : ℕ → V2) (n : ℕ) (o : ℝ) (x : V2) : Prop :=
  ∀ k < n, ∀ z, OnLine (P k) (P (k + 1)) z → o ^ 2 ≤ dist2 x z

section
variable {P : ℕ → V2} {n : ℕ}

theorem PolyP.elen_pos (hs : PolyP P n) (k : ℕ) : 0 < elen P k := Real.sqrt_pos.2 (dist2_pos (hs.ne k))

theorem elen_sq (k : ℕ) : elen P k ^ 2 = dist2 (P k) (P (k + 1)) := by
  unfold elen; rw [Real.sq_sqrt]; unfold dist2; positivity

theorem onLine_lerp {a b : V2} {t : ℝ} (h0 : 0 ≤ t) (h1 : t ≤ 1) : OnLine a b (lerp a b t) := ⟨t, h0, h1, rfl⟩

theorem PolyP.off_sq (hs : PolyP P n) (o : ℝ) (k : ℕ) : (o / elen P k) ^ 2 * dist2 (P k) (P (k + 1)) = o ^ 2 := by
  rw [← elen_sq, div_pow, div_mul_cancel₀]
  exact (pow_pos (hs.elen_pos k) 2).ne'

theorem PolyP.cross_offE (hs : PolyP P n) (o : ℝ) (k : ℕ) (t : ℝ) : cross (P k) (P (k + 1)) (offE P o k t) = o * elen P k := by
  have hz : cross (P k) (P (k + 1)) (lerp (P k) (P (k + 1)) t) = 0 := by simp only [cross, lerp]; ring
  unfold offE
  rw [cross_normalAt hz, ← elen_sq]
  have := (hs.elen_pos k).ne'
  field_simp

theorem PolyP.offE_own (hs : PolyP P n) (o : ℝ) (k : ℕ) (t u : ℝ) :
    dist2 (offE P o k t) (lerp (P k) (P (k + 1)) u) = o ^ 2 + (t - u) ^ 2 * dist2 (P k) (P (k + 1)) := by
  rw [← hs.off_sq o k]
  unfold offE
  simp only [dist2, normalAt, lerp]; ring

/-- The distance from the edge after. -/
theorem PolyP.offE_next (hs : PolyP P n) (o : ℝ) (j : ℕ) (t u : ℝ) :
    dist2 (offE P o j t) (lerp (P (j + 1)) (P (j + 2)) u) = o ^ 2 + ((1 - t) * elen P j) ^ 2 +
      (u * elen P (j + 1)) ^ 2 + 2 * (1 - t) * u * along P j - 2 * u * (o / elen P j) * bend P j := by
  rw [mul_pow, mul_pow, elen_sq, elen_sq, ← hs.off_sq o j]
  unfold offE
  simp only [dist2, normalAt, lerp, along, bend, cross]; ring

/-- The distance from the edge before. -/
theorem PolyP.offE_prev (hs : PolyP P n) (o : ℝ) (j : ℕ) (t u : ℝ) :
    dist2 (offE P o (j + 1) t) (lerp (P j) (P (j + 1)) u) = o ^ 2 + (t * elen P (j + 1)) ^ 2 +
      ((1 - u) * elen P j) ^ 2 + 2 * t * (1 - u) * along P j - 2 * (1 - u) * (o / elen P (j + 1)) * bend P j := by
  rw [mul_pow, mul_pow, elen_sq, elen_sq, ← hs.off_sq o (j + 1)]
  unfold offE
  simp only [dist2, normalAt, lerp, along, bend, cross]; ring

theorem along_sq (j : ℕ) : along P j ^ 2 + bend P j ^ 2 = (elen P j * elen P (j + 1)) ^ 2 := by
  rw [mul_pow, elen_sq, elen_sq]
  simp only [along, bend, cross, dist2]; ring

/-- At a corner the directions are not opposite. -/
theorem PolyP.corner_pos (hs : PolyP P n) (j : ℕ) (hb : bend P j ≠ 0) : 0 < elen P j * elen P (j + 1) + along P j := by
  have h := along_sq (P := P) j
  have h1 := mul_pos (hs.elen_pos j) (hs.elen_pos (j + 1))
  have h2 : 0 < bend P j ^ 2 := by positivity
  nlinarith

/-- Where the shifted edges meet, both are cut by the same length. -/
theorem PolyP.trim (hs : PolyP P n) {o : ℝ} {j : ℕ} (hb : bend P j ≠ 0) {t0 t1 : ℝ} (h : offE P o j t0 = offE P o (j + 1) t1) :
    (1 - t0) * elen P j = t1 * elen P (j + 1) ∧
      (1 - t0) * elen P j * (elen P j * elen P (j + 1) + along P j) = o * bend P j := by
  have l0 := hs.elen_pos j
  have l1 := hs.elen_pos (j + 1)
  have hx := congrArg V2.x h
  have hy := congrArg V2.y h
  simp only [offE, normalAt, lerp] at hx hy
  set m := o / elen P j with hm
  set m' := o / elen P (j + 1) with hm'
  have em : m * elen P j = o := by rw [hm]; field_simp
  have em' : m' * elen P (j + 1) = o := by rw [hm']; field_simp
  have d0 := elen_sq (P := P) j
  have d1 := elen_sq (P := P) (j + 1)
  have e1 : (1 - t0) * bend P j = m' * dist2 (P (j + 1)) (P (j + 1 + 1)) - m * along P j := by
    simp only [bend, along, cross, dist2]
    simp only [show j + 1 + 1 = j + 2 from rfl] at hx hy ⊢
    linear_combination (-((P (j + 2)).y - (P (j + 1)).y)) * hx + ((P (j + 2)).x - (P (j + 1)).x) * hy
  have e2 : t1 * bend P j = m * dist2 (P j) (P (j + 1)) - m' * along P j := by
    simp only [bend, along, cross, dist2]
    simp only [show j + 1 + 1 = j + 2 from rfl] at hx hy ⊢
    linear_combination (((P (j + 1)).y - (P j).y)) * hx - ((P (j + 1)).x - (P j).x) * hy
  rw [← d1] at e1
  rw [← d0] at e2
  set L := elen P j
  set L' := elen P (j + 1)
  have f1 : (1 - t0) * L * bend P j = o * (L * L' - along P j) := by
    linear_combination L * e1 + L * L' * em' - along P j * em
  have f2 : t1 * L' * bend P j = o * (L * L' - along P j) := by
    linear_combination L' * e2 + L * L' * em - along P j * em'
  refine ⟨mul_right_cancel₀ hb (f1.trans f2.symm), mul_right_cancel₀ hb ?_⟩
  have := along_sq (P := P) j
  linear_combination (L * L' + along P j) * f1 - o * this

/-- Beyond the place where the next shifted edge is met, a shifted edge is too close to the next edge. -/
theorem PolyP.trim_end (hs : PolyP P n) {o : ℝ} {j : ℕ} (hb : bend P j ≠ 0) {t0 t1 : ℝ}
    (h : offE P o j t0 = offE P o (j + 1) t1) (h1 : t1 ≤ 1) {t : ℝ} (ht : t0 < t) (ht1 : t < 1) :
    ∃ z, OnLine (P (j + 1)) (P (j + 2)) z ∧ dist2 (offE P o j t) z < o ^ 2 := by
  obtain ⟨e1, e2⟩ := hs.trim hb h
  have l0 := hs.elen_pos j
  have l1 := hs.elen_pos (j + 1)
  have hc := hs.corner_pos j hb
  have hu0 : 0 < (1 - t) * elen P j / elen P (j + 1) := div_pos (mul_pos (by linarith) l0) l1
  refine ⟨_, onLine_lerp hu0.le ?_, ?_⟩
  · rw [div_le_one l1]
    nlinarith
  · rw [hs.offE_next]
    set L := elen P j
    set L' := elen P (j + 1)
    have e3 : (o : ℝ) ^ 2 + ((1 - t) * L) ^ 2 + ((1 - t) * L / L' * L') ^ 2 +
        2 * (1 - t) * ((1 - t) * L / L') * along P j - 2 * ((1 - t) * L / L') * (o / L) * bend P j =
        o ^ 2 + 2 * (1 - t) / L' * (((1 - t) * L) * (L * L' + along P j) - o * bend P j) := by
      field_simp; ring
    rw [e3, ← e2, ← sub_mul]
    have : ((1 - t) * L - (1 - t0) * L) < 0 := by nlinarith
    have q1 : 0 < 2 * (1 - t) / L' := div_pos (by linarith) l1
    have := mul_neg_of_pos_of_neg q1 (mul_neg_of_neg_of_pos this hc)
    linarith

theorem PolyP.trim_start (hs : PolyP P n) {o : ℝ} {j : ℕ} (hb : bend P j ≠ 0) {t0 t1 : ℝ}
    (h : offE P o j t0 = offE P o (j + 1) t1) (h0 : 0 ≤ t0) {t : ℝ} (ht : t < t1) (ht0 : 0 < t) :
    ∃ z, OnLine (P j) (P (j + 1)) z ∧ dist2 (offE P o (j + 1) t) z < o ^ 2 := by
  obtain ⟨e1, e2⟩ := hs.trim hb h
  rw [e1] at e2
  have l0 := hs.elen_pos j
  have l1 := hs.elen_pos (j + 1)
  have hc := hs.corner_pos j hb
  have hu0 : 0 < t * elen P (j + 1) / elen P j := div_pos (mul_pos (by linarith) l1) l0
  refine ⟨_, onLine_lerp (t := 1 - t * elen P (j + 1) / elen P j) ?_ (by linarith), ?_⟩
  · rw [sub_nonneg, div_le_one l0]
    nlinarith
  · rw [hs.offE_prev]
    set L := elen P j
    set L' := elen P (j + 1)
    have e3 : (o : ℝ) ^ 2 + (t * L') ^ 2 + ((1 - (1 - t * L' / L)) * L) ^ 2 +
        2 * t * (1 - (1 - t * L' / L)) * along P j - 2 * (1 - (1 - t * L' / L)) * (o / L') * bend P j =
        o ^ 2 + 2 * t / L * ((t * L') * (L * L' + along P j) - o * bend P j) := by
      field_simp; ring
    rw [e3, ← e2, ← sub_mul]
    have : (t * L' - t1 * L') < 0 := by nlinarith
    have q1 : 0 < 2 * t / L := div_pos (by linarith) l0
    have := mul_neg_of_pos_of_neg q1 (mul_neg_of_neg_of_pos this hc)
    linarith


/-- How far `x` is beyond the end of the segment, in the direction of it. -/
def ahead (a b x : V2) : ℝ := (b.x - a.x) * (x.x - b.x) + (b.y - a.y) * (x.y - b.y)

/-- `x` is beyond the end of edge `i` and before the start of the next one. -/
def Wedge (P : ℕ → V2) (i : ℕ) (x : V2) : Prop :=
  0 ≤ ahead (P i) (P (i + 1)) x ∧ 0 ≤ ahead (P (i + 2)) (P (i + 1)) x

/-- The left side (`σ` is 1) or right side (`σ` is -1) of the polygon has the winding number `V`, the
other side `V'`. -/
def Sides (P : ℕ → V2) (n : ℕ) (σ : ℝ) (V V' : ℤ) : Prop :=
  (σ = 1 ∨ σ = -1) ∧ V ≠ V' ∧ ∀ j < n, ∀ s, 0 < s → s < 1 → SideVal P n σ j s V ∧ SideVal P n (-σ) j s V'

theorem Sides.flip {σ : ℝ} {V V' : ℤ} (h : Sides P n σ V V') : Sides P n (-σ) V' V := by
  refine ⟨?_, h.2.1.symm, fun j hj s s0 s1 => ?_⟩
  · rcases h.1 with h | h <;> rw [h] <;> norm_num
  · rw [neg_neg]; exact (h.2.2 j hj s s0 s1).symm

theorem Sides.sq {σ : ℝ} {V V' : ℤ} (h : Sides P n σ V V') : σ * σ = 1 := by
  rcases h.1 with h | h <;> rw [h] <;> norm_num

/-- The value of a point whose closest point is inside an edge. -/
theorem SimpleP.value_inner (hs : SimpleP P n) {σ : ℝ} {V V' : ℤ} (hV : Sides P n σ V V') {x : V2} {j : ℕ} (hj : j < n) {t : ℝ}
    (t0 : 0 < t) (t1 : t < 1)
    (hc : ∀ k < n, ∀ w, OnLine (P k) (P (k + 1)) w → dist2 x (lerp (P j) (P (j + 1)) t) ≤ dist2 x w)
    (hx : 0 < σ * cross (P j) (P (j + 1)) x) : polyW P n x = V := by
  set z := lerp (P j) (P (j + 1)) t with hz
  have hzne : z ≠ x := by
    intro h
    rw [← h, hz, cross_onLine (onLine_lerp t0.le t1.le)] at hx
    simp at hx
  obtain ⟨ρ, hρ, h⟩ := (hV.2.2 j hj t t0 t1).1
  rw [← hz] at h
  obtain ⟨τ, τ0, τ1, hn⟩ := near_lerp_start z x hρ
  have cE : cross (P j) (P (j + 1)) (lerp z x τ) = τ * cross (P j) (P (j + 1)) x := by
    rw [hz]; simp only [cross, lerp]; ring
  have := h _ hn (by rw [cE]; have := mul_pos τ0 hx; linarith)
  rwa [way_const hs.closed hzne hc τ0 τ1.le] at this

/-- The value of a point whose closest point is a corner. -/
theorem SimpleP.value_corner (hs : SimpleP P n) {σ : ℝ} {V V' : ℤ} (hV : Sides P n σ V V') {x : V2} {j : ℕ} (hj : j < n)
    (hc : ∀ k < n, ∀ w, OnLine (P k) (P (k + 1)) w → dist2 x (P (j + 1)) ≤ dist2 x w)
    (hb : σ * bend P j ≤ 0)
    (hx : 0 < σ * cross (P j) (P (j + 1)) x ∨ 0 < σ * cross (P (j + 1)) (P (j + 2)) x) : polyW P n x = V := by
  obtain ⟨n1, n2, n3, n4⟩ := hs.next hj
  have hzne : P (j + 1) ≠ x := by
    intro h
    rw [← h, cross_onLine (onLine_end _ _), show cross (P (j + 1)) (P (j + 2)) (P (j + 1)) = 0 by
      simp only [cross]; ring] at hx
    simp at hx
  obtain ⟨ρ, hρ, h⟩ := hs.around (polyW_seg hs.closed) hV.1 hj (fun s s0 s1 => (hV.2.2 j hj s s0 s1).1)
    (fun s s0 s1 => (hV.2.2 _ n1 s s0 s1).1)
  obtain ⟨τ, τ0, τ1, hn⟩ := near_lerp_start (P (j + 1)) x hρ
  have cE : cross (P j) (P (j + 1)) (lerp (P (j + 1)) x τ) = τ * cross (P j) (P (j + 1)) x := by
    simp only [cross, lerp]; ring
  have cF : cross (P (j + 1)) (P (j + 2)) (lerp (P (j + 1)) x τ) = τ * cross (P (j + 1)) (P (j + 2)) x := by
    simp only [cross, lerp]; ring
  obtain ⟨q1, q2⟩ := (h _ hn).1 hb
  rw [cE] at q1
  rw [cF] at q2
  rw [way_const hs.closed hzne hc τ0 τ1.le] at q1 q2
  rcases hx with hx | hx
  · exact q1 (by have := mul_pos τ0 hx; linarith)
  · exact q2 (by have := mul_pos τ0 hx; linarith)

/-- A closest corner: the point is in its wedge. -/
theorem wedge_of_closest {x : V2} {i : ℕ}
    (h0 : ∀ w, OnLine (P i) (P (i + 1)) w → dist2 x (P (i + 1)) ≤ dist2 x w)
    (h1 : ∀ w, OnLine (P (i + 1)) (P (i + 2)) w → dist2 x (P (i + 1)) ≤ dist2 x w) : Wedge P i x := by
  constructor
  · refine quad_nonneg (m := dist2 (P i) (P (i + 1))) fun e e0 e1 => ?_
    have := h0 (lerp (P i) (P (i + 1)) (1 - e)) ⟨1 - e, by linarith, by linarith, rfl⟩
    have q : dist2 x (lerp (P i) (P (i + 1)) (1 - e)) =
        dist2 x (P (i + 1)) + 2 * e * ahead (P i) (P (i + 1)) x + e ^ 2 * dist2 (P i) (P (i + 1)) := by
      simp only [ahead, dist2, lerp]; ring
    linarith
  · refine quad_nonneg (m := dist2 (P (i + 1)) (P (i + 2))) fun e e0 e1 => ?_
    have := h1 (lerp (P (i + 1)) (P (i + 2)) e) ⟨e, e0, e1, rfl⟩
    have q : dist2 x (lerp (P (i + 1)) (P (i + 2)) e) =
        dist2 x (P (i + 1)) + 2 * e * ahead (P (i + 2)) (P (i + 1)) x + e ^ 2 * dist2 (P (i + 1)) (P (i + 2)) := by
      simp only [ahead, dist2, lerp]; ring
    linarith

/-- In the wedge of a corner that bends away, a point is on the side from which the corner bends away. -/
theorem wedge_side {σ : ℝ} {x : V2} {i : ℕ} (hw : Wedge P i x) (hne : P (i + 1) ≠ x) (hb : σ * bend P i < 0) :
    0 < σ * cross (P i) (P (i + 1)) x ∨ 0 < σ * cross (P (i + 1)) (P (i + 2)) x := by
  obtain ⟨hA, hB⟩ := hw
  set A := ahead (P i) (P (i + 1)) x with eA
  set B := ahead (P (i + 2)) (P (i + 1)) x with eB
  set E := cross (P i) (P (i + 1)) x with hE
  set F := cross (P (i + 1)) (P (i + 2)) x with hF
  have id1 : bend P i * dist2 (P (i + 1)) x = - (A * F) - E * B := by
    rw [eA, eB, hE, hF]; simp only [ahead, bend, cross, dist2]; ring
  have hv := dist2_pos hne
  by_contra hn
  push Not at hn
  have h1 : σ * bend P i * dist2 (P (i + 1)) x = A * (-(σ * F)) + (-(σ * E)) * B := by
    linear_combination σ * id1
  have h2 := mul_neg_of_neg_of_pos hb hv
  have h3 := mul_nonneg hA (neg_nonneg.2 hn.2)
  have h4 := mul_nonneg (neg_nonneg.2 hn.1) hB
  linarith

/-- A point whose closest point is inside an edge is beside it. -/
theorem PolyP.foot (hs : PolyP P n) {x : V2} {j : ℕ} {t d : ℝ} (t0 : 0 < t) (t1 : t < 1)
    (hc : ∀ w, OnLine (P j) (P (j + 1)) w → dist2 x (lerp (P j) (P (j + 1)) t) ≤ dist2 x w)
    (hd : dist2 x (lerp (P j) (P (j + 1)) t) = d ^ 2) : x = offE P d j t ∨ x = offE P (-d) j t := by
  set z := lerp (P j) (P (j + 1)) t with hz
  set A := ((P (j + 1)).x - (P j).x) * (x.x - z.x) + ((P (j + 1)).y - (P j).y) * (x.y - z.y) with hA
  set E := cross (P j) (P (j + 1)) x with hE
  have hdp := dist2_pos (hs.ne j)
  have q : ∀ e, dist2 x (lerp (P j) (P (j + 1)) (t + e)) =
      dist2 x z - 2 * e * A + e ^ 2 * dist2 (P j) (P (j + 1)) := by
    intro e; rw [hA, hz]; simp only [dist2, lerp]; ring
  have hA1 : 0 ≤ A * t := by
    refine quad_nonneg (m := t ^ 2 * dist2 (P j) (P (j + 1))) fun e e0 e1 => ?_
    have := hc (lerp (P j) (P (j + 1)) (t + - (e * t))) ⟨_, by nlinarith, by nlinarith, rfl⟩
    rw [q] at this
    nlinarith
  have hA2 : 0 ≤ - A * (1 - t) := by
    refine quad_nonneg (m := (1 - t) ^ 2 * dist2 (P j) (P (j + 1))) fun e e0 e1 => ?_
    have := hc (lerp (P j) (P (j + 1)) (t + e * (1 - t))) ⟨_, by nlinarith, by nlinarith, rfl⟩
    rw [q] at this
    nlinarith
  have hA0 : A = 0 := by
    have a1 : 0 ≤ A := nonneg_of_mul_nonneg_left hA1 t0
    have a2 : 0 ≤ -A := nonneg_of_mul_nonneg_left hA2 (by linarith)
    linarith
  have id : dist2 (P j) (P (j + 1)) * dist2 x z = A ^ 2 + E ^ 2 := by
    rw [hA, hE, hz]; simp only [dist2, cross, lerp]; ring
  rw [hA0, hd] at id
  have hL := hs.elen_pos j
  have hL2 := elen_sq (P := P) j
  have hEs : (E - d * elen P j) * (E + d * elen P j) = 0 := by
    rw [← hL2] at id; linear_combination - id
  have main : ∀ m : ℝ, E = m * elen P j → x = offE P m j t := by
    intro m hm
    unfold offE
    have hmE : m / elen P j * dist2 (P j) (P (j + 1)) = E := by
      rw [hm, ← hL2]; field_simp
    have ex : dist2 (P j) (P (j + 1)) * (x.x - z.x) = - (E * ((P (j + 1)).y - (P j).y)) := by
      have : dist2 (P j) (P (j + 1)) * (x.x - z.x) = A * ((P (j + 1)).x - (P j).x) - (E * ((P (j + 1)).y - (P j).y)) := by
        rw [hA, hE, hz]; simp only [dist2, cross, lerp]; ring
      rw [this, hA0]; ring
    have ey : dist2 (P j) (P (j + 1)) * (x.y - z.y) = E * ((P (j + 1)).x - (P j).x) := by
      have : dist2 (P j) (P (j + 1)) * (x.y - z.y) = A * ((P (j + 1)).y - (P j).y) + (E * ((P (j + 1)).x - (P j).x)) := by
        rw [hA, hE, hz]; simp only [dist2, cross, lerp]; ring
      rw [this, hA0]; ring
    rw [← hmE] at ex ey
    rw [← hz]
    ext
    · simp only [normalAt]
      have : x.x - z.x = - (m / elen P j * ((P (j + 1)).y - (P j).y)) :=
        mul_left_cancel₀ hdp.ne' (by linear_combination ex)
      linarith
    · simp only [normalAt]
      have : x.y - z.y = m / elen P j * ((P (j + 1)).x - (P j).x) :=
        mul_left_cancel₀ hdp.ne' (by linear_combination ey)
      linarith
  rcases mul_eq_zero.1 hEs with h | h
  · exact Or.inl (main d (by linarith))
  · exact Or.inr (main (-d) (by linarith))

/-- Every corner of the polygon is the end of an edge. -/
theorem PolyP.vertex_end (hs : PolyP P n) {j : ℕ} (hj : j < n) : ∃ i < n, P j = P (i + 1) ∧ (i + 1) % n = j := by
  rcases Nat.eq_zero_or_pos j with rfl | hj0
  · refine ⟨n - 1, by omega, ?_, ?_⟩
    · rw [Nat.sub_add_cancel hs.pos, hs.closed]
    · rw [Nat.sub_add_cancel hs.pos, Nat.mod_self]
  · refine ⟨j - 1, by omega, ?_, ?_⟩
    · rw [Nat.sub_add_cancel hj0]
    · rw [Nat.sub_add_cancel hj0, Nat.mod_eq_of_lt hj]

/-- A point of one side at distance `|o|` from the polygon is beside an edge, or beyond a corner that bends
away from that side. -/
theorem SimpleP.level_cases (hs : SimpleP P n) {o σ : ℝ} {V V' : ℤ} (hV : Sides P n σ V V') (hσ : 0 < σ * o)
    (hb : ∀ j < n, bend P j ≠ 0) {x : V2} (hx : polyW P n x = V) (hf : FarP P n o x) {j : ℕ} (hj : j < n)
    {t : ℝ} (t0 : 0 ≤ t) (t1 : t ≤ 1) (hd : dist2 x (lerp (P j) (P (j + 1)) t) = o ^ 2) :
    (0 < t ∧ t < 1 ∧ x = offE P o j t) ∨
    ∃ i < n, lerp (P j) (P (j + 1)) t = P (i + 1) ∧ σ * bend P i < 0 ∧ Wedge P i x := by
  have ho : o ≠ 0 := by rintro rfl; simp at hσ
  have hc : ∀ k < n, ∀ w, OnLine (P k) (P (k + 1)) w → dist2 x (lerp (P j) (P (j + 1)) t) ≤ dist2 x w :=
    fun k hk w hw => by rw [hd]; exact hf k hk w hw
  have corner : ∀ i < n, lerp (P j) (P (j + 1)) t = P (i + 1) → σ * bend P i < 0 ∧ Wedge P i x := by
    intro i hi hz
    rw [hz] at hc hd
    obtain ⟨n1, n2, n3, n4⟩ := hs.next hi
    have hw : Wedge P i x := wedge_of_closest (hc i hi) (by have := hc _ n1; rw [n3, n4] at this; exact this)
    refine ⟨?_, hw⟩
    have hne : P (i + 1) ≠ x := by
      rintro h
      rw [← h] at hd
      have : dist2 (P (i + 1)) (P (i + 1)) = 0 := by simp [dist2]
      rw [this] at hd
      exact ho (pow_eq_zero_iff two_ne_zero |>.1 hd.symm)
    by_contra hn
    have hlt : -σ * bend P i < 0 := by
      have h1 : σ * bend P i ≠ 0 := mul_ne_zero (by rintro rfl; simp at hσ) (hb i hi)
      have := lt_of_le_of_ne (not_lt.1 hn) h1.symm
      linarith
    have := hs.value_corner hV.flip hi hc hlt.le (wedge_side hw hne hlt)
    exact hV.2.1 (hx.symm.trans this)
  rcases t1.lt_or_eq with t1 | rfl
  · rcases t0.lt_or_eq with t0 | rfl
    · left
      refine ⟨t0, t1, ?_⟩
      rcases hs.foot t0 t1 (hc j hj) hd with h | h
      · exact h
      · exfalso
        have hcr := hs.cross_offE (-o) j t
        rw [← h] at hcr
        have hL := hs.elen_pos j
        have := hs.value_inner hV.flip hj t0 t1 hc (by rw [hcr]; have := mul_pos hσ hL; linarith)
        exact hV.2.1 (hx.symm.trans this)
    · right
      obtain ⟨i, hi, e, -⟩ := hs.vertex_end hj
      have hz : lerp (P j) (P (j + 1)) 0 = P (i + 1) := by rw [lerp_zero, e]
      exact ⟨i, hi, hz, corner i hi hz⟩
  · right
    exact ⟨j, hj, lerp_one _ _, corner j hj (lerp_one _ _)⟩

end
end
end Cavc

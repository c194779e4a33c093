import Verif.Props.RoundHoles
import Verif.Props.SimpleCurve
import Verif.Props.CombineCurves

/-! C83: circles as polylines, what is inside of them, and combining two of them. -/
namespace Cavc
open Spec
open scoped Classical
noncomputable section

variable {c c' e e' : V2} {r r' σ σ' : ℝ}

/-- The points of a half circle. -/
theorem half_onSeg (hσ : σ = 1 ∨ σ = -1) (he : e.x ^ 2 + e.y ^ 2 = 1) (hr : 1 / 10 ^ 4 ≤ r) {i : ℕ} {s : ℝ} (hs : s = 1 ∨ s = -1)
    (hseg : IsSeg (twoHalves c e r σ) i ⟨⟨c.x + s * r * e.x, c.y + s * r * e.y⟩, σ⟩ ⟨⟨c.x - s * r * e.x, c.y - s * r * e.y⟩, σ⟩) {x : V2} :
    OnSeg ⟨⟨c.x + s * r * e.x, c.y + s * r * e.y⟩, σ⟩ ⟨⟨c.x - s * r * e.x, c.y - s * r * e.y⟩, σ⟩ x ↔
      distance x c = r ∧ 0 ≤ σ * s * (e.x * (x.y - c.y) - e.y * (x.x - c.x)) := by
  have ok := halves_pline_ok (c := c) hσ he hr i _ _ hseg
  have hr0 : (0 : ℝ) < r := lt_of_lt_of_le (by norm_num) hr
  rw [onSeg_iff_circle (ok.arcOk (half_arc hσ _)) ok.half]
  unfold OnCircle InSector
  rw [half_centerOf hσ]
  simp only
  rw [half_radius hs he hr0.le]
  have h1 : dist2 x c = r ^ 2 ↔ distance x c = r := by
    rw [← distance_sq]
    constructor
    · intro h
      exact (pow_left_inj₀ (Real.sqrt_nonneg _) hr0.le two_ne_zero).1 h
    · intro h; rw [h]
  rw [h1]
  refine and_congr_right fun _ => ?_
  simp only [cross]
  have e1 : (c.x + s * r * e.x - c.x) * (x.y - c.y) - (c.y + s * r * e.y - c.y) * (x.x - c.x) =
    r * (s * (e.x * (x.y - c.y) - e.y * (x.x - c.x))) := by ring
  have e2 : (c.x - s * r * e.x - c.x) * (x.y - c.y) - (c.y - s * r * e.y - c.y) * (x.x - c.x) =
    -(r * (s * (e.x * (x.y - c.y) - e.y * (x.x - c.x)))) := by ring
  rw [e1, e2, mul_assoc σ]
  generalize s * (e.x * (x.y - c.y) - e.y * (x.x - c.x)) = w
  rcases hσ with rfl | rfl
  · constructor
    · rintro (⟨-, h, -⟩ | ⟨h, -⟩)
      · rw [one_mul]; exact nonneg_of_mul_nonneg_right h hr0
      · norm_num at h
    · intro h
      rw [one_mul] at h
      have := mul_nonneg hr0.le h
      exact Or.inl ⟨by norm_num, this, by linarith⟩
  · constructor
    · rintro (⟨h, -⟩ | ⟨-, h, -⟩)
      · norm_num at h
      · have h : 0 ≤ r * (-w) := by linarith
        have := nonneg_of_mul_nonneg_right h hr0
        linarith
    · intro h
      have h : 0 ≤ -w := by linarith
      have := mul_nonneg hr0.le h
      exact Or.inr ⟨by norm_num, by linarith, by linarith⟩

theorem halves_seg0 : IsSeg (twoHalves c e r σ) 0 ⟨⟨c.x + 1 * r * e.x, c.y + 1 * r * e.y⟩, σ⟩ ⟨⟨c.x - 1 * r * e.x, c.y - 1 * r * e.y⟩, σ⟩ := by
  simp only [one_mul]
  rfl

theorem halves_seg1 : IsSeg (twoHalves c e r σ) 1 ⟨⟨c.x + (-1) * r * e.x, c.y + (-1) * r * e.y⟩, σ⟩
    ⟨⟨c.x - (-1) * r * e.x, c.y - (-1) * r * e.y⟩, σ⟩ := by
  have a1 : c.x + (-1) * r * e.x = c.x - r * e.x := by ring
  have a2 : c.y + (-1) * r * e.y = c.y - r * e.y := by ring
  have a3 : c.x - (-1) * r * e.x = c.x + r * e.x := by ring
  have a4 : c.y - (-1) * r * e.y = c.y + r * e.y := by ring
  rw [a1, a2, a3, a4]
  rfl

/-- C83. The points on the polyline are the points of the circle. -/
theorem C83_points (hσ : σ = 1 ∨ σ = -1) (he : e.x ^ 2 + e.y ^ 2 = 1) (hr : 1 / 10 ^ 4 ≤ r) {x : V2} :
    OnPline (twoHalves c e r σ) x ↔ distance x c = r := by
  constructor
  · rintro ⟨i, v1, v2, hseg, ho⟩
    obtain ⟨s, hs, -, rfl, rfl⟩ := halves_seg hseg
    exact ((half_onSeg hσ he hr hs hseg).1 ho).1
  · intro h
    rcases le_total 0 (σ * (e.x * (x.y - c.y) - e.y * (x.x - c.x))) with hw | hw
    · exact ⟨0, _, _, halves_seg0, (half_onSeg hσ he hr (Or.inl rfl) halves_seg0).2 ⟨h, by linarith⟩⟩
    · exact ⟨1, _, _, halves_seg1, (half_onSeg hσ he hr (Or.inr rfl) halves_seg1).2 ⟨h, by linarith⟩⟩

/-- C83. The winding number is 1 or -1, by the direction, inside of the circle and 0 outside. -/
theorem C83_winding (hσ : σ = 1 ∨ σ = -1) (he : e.x ^ 2 + e.y ^ 2 = 1) (hr : 1 / 10 ^ 4 ≤ r) {x : V2} :
    (distance x c < r → ∃ k : ℤ, (k : ℝ) = σ ∧ getWindingNumber (twoHalves c e r σ) x = .ok k) ∧
    (r < distance x c → getWindingNumber (twoHalves c e r σ) x = .ok 0) := by
  have hr0 : (0 : ℝ) < r := lt_of_lt_of_le (by norm_num) hr
  have ok := halves_pline_ok (c := c) hσ he hr
  constructor
  · intro hin
    have hoff : ¬ OnPline (twoHalves c e r σ) x := fun h => hin.ne ((C83_points hσ he hr).1 h)
    obtain ⟨γ, hγ⟩ := exists_path (twoHalves c e r σ)
    obtain ⟨k, hk, hs⟩ := C25_getWindingNumber _ ok rfl x hoff γ hγ
    refine ⟨k, ?_, hk⟩
    have p0 := halves_seg0 (c := c) (e := e) (r := r) (σ := σ)
    have p1 := halves_seg1 (c := c) (e := e) (r := r) (σ := σ)
    have hin2 : dist2 x c ≤ r ^ 2 := by
      rw [← distance_sq]
      exact pow_le_pow_left₀ (Real.sqrt_nonneg _) hin.le 2
    have d0 : ∀ s : ℝ, s = 1 ∨ s = -1 → dist2 x c ≤ dist2 ⟨c.x + s * r * e.x, c.y + s * r * e.y⟩ c := by
      intro s hs
      have h := distance_sq ⟨c.x + s * r * e.x, c.y + s * r * e.y⟩ c
      rw [half_radius hs he hr0.le] at h
      rw [← h]; exact hin2
    have t0 := (arc_turn ((ok _ _ _ p0).arcOk (half_arc hσ _)) (ok _ _ _ p0).half (fun h => hoff ⟨_, _, _, p0, h⟩)
        (hγ _ _ _ p0)).2.2 (by rw [half_centerOf hσ]; exact d0 _ (Or.inl rfl))
    have t1 := (arc_turn ((ok _ _ _ p1).arcOk (half_arc hσ _)) (ok _ _ _ p1).half (fun h => hoff ⟨_, _, _, p1, h⟩)
        (hγ _ _ _ p1)).2.2 (by rw [half_centerOf hσ]; exact d0 _ (Or.inr rfl))
    have hl : (segs (twoHalves c e r σ)).length = 2 := rfl
    rw [hl, Finset.sum_range_succ, Finset.sum_range_one] at hs
    have hp := Real.pi_pos
    simp only at t0 t1
    rcases hσ with rfl | rfl
    · have t0 := t0.1 one_pos
      have t1 := t1.1 one_pos
      rw [eq_div_iff (by positivity)] at hs
      have k0 : (0 : ℝ) < k := by
        by_contra hn
        nlinarith
      have k2 : (k : ℝ) < 2 := by
        by_contra hn
        nlinarith
      have k0' : 0 < k := by exact_mod_cast k0
      have k2' : k < 2 := by exact_mod_cast k2
      have : k = 1 := by omega
      rw [this]; norm_num
    · have t0 := t0.2 (by norm_num)
      have t1 := t1.2 (by norm_num)
      rw [eq_div_iff (by positivity)] at hs
      have k0 : (k : ℝ) < 0 := by
        by_contra hn
        nlinarith
      have k2 : (-2 : ℝ) < k := by
        by_contra hn
        nlinarith
      have k0' : k < 0 := by exact_mod_cast k0
      have k2' : -2 < k := by exact_mod_cast k2
      have : k = -1 := by omega
      rw [this]; norm_num
  · intro hout
    refine C70_beyond _ ok x (x.x - c.x) (x.y - c.y) fun y hy => ?_
    have hy := (C83_points hσ he hr).1 hy
    have h1 : dist2 y c < dist2 x c := by
      rw [← distance_sq, ← distance_sq, hy]
      exact pow_lt_pow_left₀ hout hr0.le two_ne_zero
    simp only [dist2] at h1
    nlinarith [sq_nonneg (x.x - y.x), sq_nonneg (x.y - y.y)]

/-- C83. What is inside of the polyline is the disc. -/
theorem C83_inside (hσ : σ = 1 ∨ σ = -1) (he : e.x ^ 2 + e.y ^ 2 = 1) (hr : 1 / 10 ^ 4 ≤ r) {x : V2} (hx : distance x c ≠ r) :
    Inside (twoHalves c e r σ) x ↔ distance x c < r := by
  have hoff : ¬ OnPline (twoHalves c e r σ) x := fun h => hx ((C83_points hσ he hr).1 h)
  obtain ⟨k, hk, hi⟩ := inside_run (halves_pline_ok (c := c) hσ he hr) rfl hoff
  obtain ⟨h1, h2⟩ := C83_winding (c := c) hσ he hr (x := x)
  rw [hi]
  rcases lt_or_gt_of_ne hx with h | h
  · obtain ⟨k', hk', h3⟩ := h1 h
    rw [hk] at h3
    have h3 := Except.ok.inj h3
    subst h3
    refine iff_of_true ?_ h
    rintro rfl
    rcases hσ with rfl | rfl <;> norm_num at hk'
  · have h3 := h2 h
    rw [hk] at h3
    have h3 := Except.ok.inj h3
    subst h3
    exact iff_of_false (by simp) (not_lt.2 h.le)

/-- A circle does not meet itself. -/
theorem C83_simple (hσ : σ = 1 ∨ σ = -1) (he : e.x ^ 2 + e.y ^ 2 = 1) (hr : 1 / 10 ^ 4 ≤ r) : SimpleCurve (twoHalves c e r σ) := by
  have hr0 : (0 : ℝ) < r := lt_of_lt_of_le (by norm_num) hr
  refine ⟨rfl, halves_pline_ok hσ he hr, show 2 ≤ 2 by norm_num, ?_, ?_⟩
  · rintro i v1 v2 h ⟨n1, n2⟩
    obtain ⟨s, hs, -, rfl, rfl⟩ := halves_seg h
    exact halves_apart (c := c) hs he hr ⟨lt_trans n1 (by norm_num), lt_trans n2 (by norm_num)⟩
  · intro i j v1 v2 u1 u2 x h1 h2 hne o1 o2
    obtain ⟨s, hs, hi, rfl, rfl⟩ := halves_seg h1
    obtain ⟨t, ht, hj, rfl, rfl⟩ := halves_seg h2
    obtain ⟨a1, a2⟩ := (half_onSeg hσ he hr hs h1).1 o1
    obtain ⟨-, b2⟩ := (half_onSeg hσ he hr ht h2).1 o2
    have hlen : (twoHalves c e r σ).vertexes.length = 2 := rfl
    rw [hlen]
    have hst : t = -s ∧ j = (i + 1) % 2 ∧ i = (j + 1) % 2 := by
      rcases hi with ⟨rfl, rfl⟩ | ⟨rfl, rfl⟩ <;> rcases hj with ⟨rfl, rfl⟩ | ⟨rfl, rfl⟩ <;>
        first | exact absurd rfl hne | (refine ⟨by norm_num, by norm_num, by norm_num⟩)
    obtain ⟨rfl, e1, e2⟩ := hst
    have hw : e.x * (x.y - c.y) - e.y * (x.x - c.x) = 0 := by
      generalize e.x * (x.y - c.y) - e.y * (x.x - c.x) = w at a2 b2
      rcases hσ with rfl | rfl <;> rcases hs with rfl | rfl <;> linarith
    have hd : (x.x - c.x) ^ 2 + (x.y - c.y) ^ 2 = r ^ 2 := by
      have := distance_sq x c
      rw [a1] at this
      rw [this]; simp only [dist2]
    -- the component along the direction
    set u := e.x * (x.x - c.x) + e.y * (x.y - c.y) with hu
    have hx : x.x - c.x = u * e.x := by
      have : x.x - c.x = u * e.x - e.y * (e.x * (x.y - c.y) - e.y * (x.x - c.x)) := by
        rw [hu]; linear_combination (x.x - c.x) * (-he)
      rw [this, hw]; ring
    have hy : x.y - c.y = u * e.y := by
      have : x.y - c.y = u * e.y + e.x * (e.x * (x.y - c.y) - e.y * (x.x - c.x)) := by
        rw [hu]; linear_combination (x.y - c.y) * (-he)
      rw [this, hw]; ring
    have hu2 : u ^ 2 = r ^ 2 := by
      rw [hx, hy] at hd
      linear_combination hd - u ^ 2 * he
    have hs2 : s * s = 1 := by rcases hs with rfl | rfl <;> norm_num
    rcases sq_eq_sq_iff_eq_or_eq_neg.1 hu2 with h | h
    all_goals
      rcases hs with rfl | rfl
      all_goals
        first
          | (left; refine ⟨e1, ?_⟩; rw [h] at hx hy; ext <;> simp only <;> linarith)
          | (right; refine ⟨e2, ?_⟩; rw [h] at hx hy; ext <;> simp only <;> linarith)

/-- C83. Length and area of a circle are `2 π r` and `π r²`, with the sign of its direction. -/
theorem C83_measures (hσ : σ = 1 ∨ σ = -1) (he : e.x ^ 2 + e.y ^ 2 = 1) (hr : 1 / 10 ^ 4 ≤ r) :
    getPathLength (twoHalves c e r σ) = .ok (2 * Real.pi * r) ∧ getArea (twoHalves c e r σ) = .ok (σ * (Real.pi * r ^ 2)) := by
  refine ⟨?_, halves_area hσ he⟩
  have hr0 : (0 : ℝ) < r := lt_of_lt_of_le (by norm_num) hr
  have ok := halves_pline_ok (c := c) hσ he hr
  obtain ⟨γ, hγ⟩ := exists_path (twoHalves c e r σ)
  obtain ⟨L, hL, -, -, hex⟩ := C23_getPathLength _ (fun i v1 v2 h => (ok i v1 v2 h).half) γ hγ
  rw [hL]
  congr 1
  rw [hex fun i v1 v2 h => by
    have hd := (ok i v1 v2 h).distinct
    obtain ⟨s, -, -, rfl, rfl⟩ := halves_seg h
    exact hd (half_arc hσ _)]
  have hl : (segs (twoHalves c e r σ)).length = 2 := rfl
  have key : ∀ i v1 v2, IsSeg (twoHalves c e r σ) i v1 v2 → curveLength (γ i) = Real.pi * r := by
    intro i v1 v2 h
    have hp := hγ _ _ _ h
    obtain ⟨s, hs, -, rfl, rfl⟩ := halves_seg h
    rw [path_arc (half_arc hσ _) hp, curveLength_rot, half_centerOf hσ, half_sweep hσ, half_radius hs he hr0.le]
    rcases hσ with rfl | rfl
    · rw [one_mul, abs_of_pos Real.pi_pos]; ring
    · rw [neg_one_mul, abs_neg, abs_of_pos Real.pi_pos]; ring
  rw [hl, Finset.sum_range_succ, Finset.sum_range_one, key _ _ _ halves_seg0, key _ _ _ halves_seg1]
  ring

/-- C83. The closest point on a circle is on the circle, at the distance of the radius from the distance to the center
(unless the point is within `1e-8` of the center). -/
theorem C83_closest (hσ : σ = 1 ∨ σ = -1) (he : e.x ^ 2 + e.y ^ 2 = 1) (hr : 1 / 10 ^ 4 ≤ r) (x : V2) :
    ∃ q, closestPoint (twoHalves c e r σ) x = .ok q ∧ distance q.point c = r ∧ q.distance = distance x q.point ∧
      (1 / 10 ^ 8 ≤ |x.x - c.x| ∨ 1 / 10 ^ 8 ≤ |x.y - c.y| → q.distance = |distance x c - r|) := by
  have hr0 : (0 : ℝ) < r := lt_of_lt_of_le (by norm_num) hr
  have ok := halves_pline_ok (c := c) hσ he hr
  obtain ⟨q, i, v1, v2, h1, h2, h3, h4, h5, -⟩ := C27_closestPoint _ ok (show 2 ≤ 2 by norm_num) x
  have on : ∀ i v1 v2, IsSeg (twoHalves c e r σ) i v1 v2 → ∀ z, closestPointOnSeg v1 v2 x = .ok z → distance z c = r ∧
      (1 / 10 ^ 8 ≤ |x.x - c.x| ∨ 1 / 10 ^ 8 ≤ |x.y - c.y| → ∀ y, OnSeg v1 v2 y → distance x z ≤ distance x y) := by
    intro i v1 v2 h z hz
    have hok := ok i v1 v2 h
    obtain ⟨s, hs, -, rfl, rfl⟩ := halves_seg h
    obtain ⟨z', c', hz', hc', hqc, -, hbest, -⟩ := C14_closestPointOnSeg hok (half_arc hσ _) x
    rw [hz] at hz'
    have hz' := Except.ok.inj hz'
    subst hz'
    have hcen := isCenter_unique (by rcases hσ with rfl | rfl <;> norm_num) hc'
    rw [half_centerOf hσ] at hcen
    subst hcen
    simp only at hqc
    rw [half_radius hs he hr0.le] at hqc
    exact ⟨hqc, hbest⟩
  have hq := (on _ _ _ h2 _ h3).1
  refine ⟨q, h1, hq, h4, fun hfar => ?_⟩
  have hge : |distance x c - r| ≤ q.distance := by
    rw [h4, abs_le]
    have t1 := distance_tri x q.point c
    have t2 := distance_tri q.point x c
    rw [distance_symm q.point x] at t2
    rw [hq] at t1 t2
    constructor <;> linarith
  refine le_antisymm ?_ hge
  set D := distance x c with hD
  have hD0 : 0 < D := by
    refine lt_of_le_of_ne (Real.sqrt_nonneg _) fun h0 => ?_
    have : dist2 x c = 0 := by rw [← distance_sq, ← hD, ← h0]; norm_num
    simp only [dist2] at this
    have a1 : x.x - c.x = 0 := by nlinarith [sq_nonneg (x.x - c.x), sq_nonneg (x.y - c.y)]
    have a2 : x.y - c.y = 0 := by nlinarith [sq_nonneg (x.x - c.x), sq_nonneg (x.y - c.y)]
    rw [a1, a2] at hfar
    norm_num at hfar
  have hD2 : (x.x - c.x) ^ 2 + (x.y - c.y) ^ 2 = D ^ 2 := by rw [hD, distance_sq]; rfl
  set y : V2 := ⟨c.x + r / D * (x.x - c.x), c.y + r / D * (x.y - c.y)⟩ with hy
  have hyc : distance y c = r := by
    have : dist2 y c = r ^ 2 := by
      simp only [dist2, hy]
      have : (c.x + r / D * (x.x - c.x) - c.x) ^ 2 + (c.y + r / D * (x.y - c.y) - c.y) ^ 2 =
        (r / D) ^ 2 * ((x.x - c.x) ^ 2 + (x.y - c.y) ^ 2) := by ring
      rw [this, hD2]
      field_simp
    rw [distance, this, Real.sqrt_sq hr0.le]
  have hxy : distance x y = |D - r| := by
    have : dist2 x y = (D - r) ^ 2 := by
      simp only [dist2, hy]
      have : (x.x - (c.x + r / D * (x.x - c.x))) ^ 2 + (x.y - (c.y + r / D * (x.y - c.y))) ^ 2 =
        (1 - r / D) ^ 2 * ((x.x - c.x) ^ 2 + (x.y - c.y) ^ 2) := by ring
      rw [this, hD2]
      field_simp
    rw [distance, this, Real.sqrt_sq_eq_abs]
  obtain ⟨j, w1, w2, hseg, ho⟩ := (C83_points (c := c) hσ he hr).2 hyc
  obtain ⟨z, hz⟩ : ∃ z, closestPointOnSeg w1 w2 x = .ok z := by
    have hok := ok j w1 w2 hseg
    obtain ⟨s, hs, -, rfl, rfl⟩ := halves_seg hseg
    obtain ⟨z', -, hz', -⟩ := C14_closestPointOnSeg hok (half_arc hσ _) x
    exact ⟨z', hz'⟩
  have b1 := (h5 j w1 w2 z hseg hz).1
  have b2 := (on _ _ _ hseg _ hz).2 hfar y ho
  rw [hxy] at b2
  linarith

section
variable {std : StdSort} {hash : HashOrder}

theorem round_start (k : RoundLoop) : k.polyline.vertexes.head? =
    some ⟨⟨k.center.x + k.radius * k.dir.x, k.center.y + k.radius * k.dir.y⟩, k.sign⟩ := rfl

theorem round_start_dist {k : RoundLoop} (hk : RoundLoopOk 0 k) :
    distance ⟨k.center.x + k.radius * k.dir.x, k.center.y + k.radius * k.dir.y⟩ k.center = k.radius := by
  have hr0 : (0 : ℝ) ≤ k.radius := le_trans (by norm_num) hk.radius
  have := half_radius (c := k.center) (Or.inl rfl) hk.unit hr0
  simpa only [one_mul] using this

theorem offset_zero (k : RoundLoop) : k.offset 0 = k := by
  unfold RoundLoop.offset
  rw [mul_zero, sub_zero]

/-- How the start of one circle lies to the other one. -/
theorem round_starts {k k' : RoundLoop} (hk : RoundLoopOk 0 k) (h : Room 0 k k') :
    let a : V2 := ⟨k.center.x + k.radius * k.dir.x, k.center.y + k.radius * k.dir.y⟩
    distance a k'.center ≠ k'.radius ∧
      (distance a k'.center < k'.radius ↔ distance k.center k'.center + k.radius ≤ k'.radius) := by
  intro a
  have ha : distance a k.center = k.radius := round_start_dist hk
  clear_value a
  have t1 := distance_tri a k.center k'.center
  have t2 := distance_tri k.center a k'.center
  have t3 := distance_tri a k'.center k.center
  have t4 := distance_tri k.center k'.center a
  rw [distance_symm k.center a] at t2
  rw [distance_symm k'.center k.center] at t3
  have h4 : (0 : ℝ) < 1 / 10 ^ 4 := by norm_num
  have hr0 : (0 : ℝ) < k.radius := lt_of_lt_of_le h4 hk.radius
  rcases h with h | h
  · constructor
    · intro h'; linarith
    · constructor <;> intro h' <;> linarith
  · rw [le_abs] at h
    rcases h with h | h
    · constructor
      · intro h'; linarith
      · have hD : 0 ≤ distance k.center k'.center := Real.sqrt_nonneg _
        constructor <;> intro h' <;> linarith
    · constructor
      · intro h'; linarith
      · constructor <;> intro h' <;> linarith

/-- C83. Combining two circles of which one is clearly outside or clearly inside the other one: decided by which of
them, if any, is inside of the other. -/
theorem C83_combine (inf ninf : ℝ) {A B : RoundLoop} (hA : RoundLoopOk 0 A) (hB : RoundLoopOk 0 B) (h : Room 0 A B)
    (mode : CombineMode) :
    combinePolylines (codePlatform inf ninf) std hash A.polyline B.polyline mode = .ok (
      let within := distance A.center B.center + A.radius ≤ B.radius
      let around := distance A.center B.center + B.radius ≤ A.radius
      match mode with
      | .union => if within then ⟨[B.polyline], []⟩ else if around then ⟨[A.polyline], []⟩ else ⟨[A.polyline, B.polyline], []⟩
      | .exclude => if within then ⟨[], []⟩ else if around then ⟨[A.polyline], [B.polyline]⟩ else ⟨[A.polyline], []⟩
      | .intersect => if within then ⟨[A.polyline], []⟩ else if around then ⟨[B.polyline], []⟩ else ⟨[], []⟩
      | .xor => if within then ⟨[B.polyline], [A.polyline]⟩ else if around then ⟨[A.polyline], [B.polyline]⟩
          else ⟨[A.polyline, B.polyline], []⟩) := by
  have hno := room_apart (le_refl 0) hA hB h
  rw [offset_zero, offset_zero] at hno
  obtain ⟨a1, a2⟩ := round_starts hA h
  obtain ⟨b1, b2⟩ := round_starts hB (room_symm h)
  rw [distance_symm B.center] at b2
  have iA := C83_inside (c := B.center) hB.sign hB.unit hB.radius a1
  have iB := C83_inside (c := A.center) hA.sign hA.unit hA.radius b1
  have table := C42_table (std := std) (hash := hash) (halves_indexable hA.sign inf ninf)
    (halves_pline_ok (c := A.center) hA.sign hA.unit hA.radius) (halves_pline_ok (c := B.center) hB.sign hB.unit hB.radius) rfl rfl
    (round_start A) (round_start B) hno (fun h => a1 ((C83_points hB.sign hB.unit hB.radius).1 h))
    (fun h => b1 ((C83_points hA.sign hA.unit hA.radius).1 h)) mode
  simp only [iA.trans a2, iB.trans b2] at table
  exact table

/-- C83. The result stands for the operation on the two discs. -/
theorem C83_regions (inf ninf : ℝ) {A B : RoundLoop} (hA : RoundLoopOk 0 A) (hB : RoundLoopOk 0 B) (h : Room 0 A B)
    (mode : CombineMode) :
    ∃ r, combinePolylines (codePlatform inf ninf) std hash A.polyline B.polyline mode = .ok r ∧
      ∀ x, distance x A.center ≠ A.radius → distance x B.center ≠ B.radius →
        (InResult r x ↔ boolOp mode (distance x A.center < A.radius) (distance x B.center < B.radius)) := by
  refine ⟨_, C83_combine inf ninf hA hB h mode, fun x x1 x2 => ?_⟩
  have iA := C83_inside (c := A.center) hA.sign hA.unit hA.radius x1
  have iB := C83_inside (c := B.center) hB.sign hB.unit hB.radius x2
  have t1 := distance_tri x A.center B.center
  have t2 := distance_tri x B.center A.center
  have t3 := distance_tri A.center x B.center
  rw [distance_symm B.center A.center] at t2
  rw [distance_symm A.center x] at t3
  have h4 : (0 : ℝ) < 1 / 10 ^ 4 := by norm_num
  have hD : 0 ≤ distance A.center B.center := Real.sqrt_nonneg _
  have key1 : distance A.center B.center + A.radius ≤ B.radius → distance x A.center < A.radius → distance x B.center < B.radius :=
    fun h1 h2 => by linarith
  have key2 : distance A.center B.center + B.radius ≤ A.radius → distance x B.center < B.radius → distance x A.center < A.radius :=
    fun h1 h2 => by linarith
  have key3 : ¬ distance A.center B.center + A.radius ≤ B.radius → ¬ distance A.center B.center + B.radius ≤ A.radius →
      ¬ (distance x A.center < A.radius ∧ distance x B.center < B.radius) := by
    rintro h1 h2 ⟨h3, h4'⟩
    rcases h with h | h
    · linarith
    · rw [le_abs] at h
      rcases h with h | h <;> linarith
  have e1 : ∀ (p : Polyline) (l l' : List Polyline), InResult ⟨p :: l, l'⟩ x ↔
      (Inside p x ∨ ∃ q ∈ l, Inside q x) ∧ ∀ q ∈ l', ¬ Inside q x := by
    intro p l l'; unfold InResult; simp
  have e0 : ∀ l' : List Polyline, ¬ InResult ⟨[], l'⟩ x := by
    intro l'; unfold InResult; simp
  change Inside A.polyline x ↔ _ at iA
  change Inside B.polyline x ↔ _ at iB
  rw [← iA, ← iB] at key1 key2 key3 ⊢
  clear iA iB t1 t2 t3 x1 x2
  clear h hA hB hD h4
  by_cases h1 : distance A.center B.center + A.radius ≤ B.radius <;>
    by_cases h2 : distance A.center B.center + B.radius ≤ A.radius <;> cases mode <;>
    simp only [h1, h2, if_true, if_false, e1, e0, boolOp, true_implies, not_true_eq_false, not_false_eq_true, false_implies] at key1 key2 key3 ⊢ <;>
    by_cases h3 : Inside A.polyline x <;> by_cases h4 : Inside B.polyline x <;> simp [h3, h4] at key1 key2 key3 ⊢

/-- Cutting the circle of radius 2 out of the circle of radius 5 about the same point leaves the ring. -/
example (inf ninf : ℝ) : combinePolylines (codePlatform inf ninf) std hash (twoHalves ⟨1, 1⟩ ⟨1, 0⟩ 5 1) (twoHalves ⟨1, 1⟩ ⟨0, 1⟩ 2 (-1)) .exclude =
    .ok ⟨[twoHalves ⟨1, 1⟩ ⟨1, 0⟩ 5 1], [twoHalves ⟨1, 1⟩ ⟨0, 1⟩ 2 (-1)]⟩ := by
  have hd : distance ⟨1, 1⟩ ⟨1, 1⟩ = 0 := by simp [distance, dist2]
  have := C83_combine (std := std) (hash := hash) inf ninf (A := ⟨⟨1, 1⟩, ⟨1, 0⟩, 5, 1⟩) (B := ⟨⟨1, 1⟩, ⟨0, 1⟩, 2, -1⟩)
    (by constructor <;> norm_num) (by constructor <;> norm_num) (by right; simp only [hd]; norm_num) .exclude
  simp only [hd, RoundLoop.polyline] at this
  rw [if_neg (by norm_num), if_pos (by norm_num)] at this
  exact this

end
end
end Cavc

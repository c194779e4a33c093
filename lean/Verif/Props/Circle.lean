import Verif.Props.MathUtils
import Verif.Proofs.ArcSector

/-! C19, C20: intersects with circles. -/
namespace Cavc
open Spec
open scoped Classical

/-- C19. Line segment `p0 p1` (as an infinite line, parameter 0 at `p0`, 1 at `p1`) and circle. The
call never faults. For a segment of length at least 1e-4: two intersects are exactly the two points
of the line on the circle; no intersect means that no point of the line is on the circle; one
intersect gives the point of the line nearest to the center, and its squared distance from the
center differs from the squared radius by less than 1e-8 / (4 length²). A shorter segment counts as
a point and is reported if the squared distance of `p0` differs from the squared radius by less than
1e-8. -/
theorem C19_line_circle (p0 p1 : V2) (r : ℝ) (c : V2) :
    ∃ res, intrLineSeg2Circle2 p0 p1 r c = .ok res ∧
    (dist2 p0 p1 < 1 / 10 ^ 8 →
      res = if |dist2 p0 c - r ^ 2| < 1 / 10 ^ 8 then .one 0 else .none) ∧
    (1 / 10 ^ 8 ≤ dist2 p0 p1 →
      match res with
      | .none => ∀ t, ¬ OnCircle r c (lerp p0 p1 t)
      | .one t0 => (∀ t, dist2 (lerp p0 p1 t0) c ≤ dist2 (lerp p0 p1 t) c) ∧
          |dist2 (lerp p0 p1 t0) c - r ^ 2| * (4 * dist2 p0 p1) < 1 / 10 ^ 8
      | .two t0 t1 => t0 ≠ t1 ∧ ∀ t, OnCircle r c (lerp p0 p1 t) ↔ t = t0 ∨ t = t1) := by
  set a := (p1.x - p0.x) * (p1.x - p0.x) + (p1.y - p0.y) * (p1.y - p0.y) with ha
  have hda : dist2 p0 p1 = a := by rw [dist2, ha]; ring
  have ha0 : 0 ≤ a := by rw [← hda]; exact dist2_nonneg _ _
  set b := 2 * ((p1.x - p0.x) * (p0.x - c.x) + (p1.y - p0.y) * (p0.y - c.y)) with hb
  set k := (p0.x * p0.x - 2 * c.x * p0.x + c.x * c.x) + (p0.y * p0.y - 2 * c.y * p0.y + c.y * c.y)
    - r * r with hk
  have hq : ∀ t, dist2 (lerp p0 p1 t) c - r ^ 2 = a * t ^ 2 + b * t + k := by
    intro t; simp only [dist2, lerp, ha, hb, hk]; ring
  have e8 : (0 : ℝ) < 1 / 10 ^ 8 := by norm_num
  unfold intrLineSeg2Circle2
  simp only [← ha, ← hb, ← hk]
  by_cases h1 : a < 1 / 10 ^ 8
  · rw [if_pos (show |a| < realThreshold by rw [abs_of_nonneg ha0]; exact h1)]
    have e : (p0.x - c.x) * (p0.x - c.x) + (p0.y - c.y) * (p0.y - c.y) - r * r =
        dist2 p0 c - r ^ 2 := by rw [dist2]; ring
    by_cases h2 : |dist2 p0 c - r ^ 2| < 1 / 10 ^ 8
    · refine ⟨.one 0, ?_, fun _ => by rw [if_pos h2], fun h => ?_⟩
      · rw [if_pos]; unfold fuzzyEqual; rw [e]; exact h2
      · rw [hda] at h; linarith
    · refine ⟨.none, ?_, fun _ => by rw [if_neg h2], fun h => ?_⟩
      · rw [if_neg]; unfold fuzzyEqual; rw [e]; exact h2
      · rw [hda] at h; linarith
  · rw [if_neg (show ¬ |a| < realThreshold by rw [abs_of_nonneg ha0]; exact h1)]
    have h1' : 1 / 10 ^ 8 ≤ a := not_lt.mp h1
    have hap : 0 < a := lt_of_lt_of_le e8 h1'
    have hsq : ∀ t, dist2 (lerp p0 p1 t) c - r ^ 2 =
        a * (t + b / (2 * a)) ^ 2 - (b * b - 4 * a * k) / (4 * a) := by
      intro t; rw [hq]; field_simp; ring
    by_cases h2 : |b * b - 4 * a * k| < realThreshold
    · rw [if_pos h2]
      refine ⟨_, rfl, fun h => ?_, fun _ => ⟨?_, ?_⟩⟩
      · rw [hda] at h; linarith
      · intro t
        have g1 := hsq (-b / (2 * a))
        have g2 := hsq t
        have : -b / (2 * a) + b / (2 * a) = 0 := by ring
        rw [this] at g1
        nlinarith [sq_nonneg (t + b / (2 * a))]
      · have g1 := hsq (-b / (2 * a))
        have : -b / (2 * a) + b / (2 * a) = 0 := by ring
        rw [this] at g1
        have g2 : dist2 (lerp p0 p1 (-b / (2 * a))) c - r ^ 2 = -((b * b - 4 * a * k) / (4 * a)) := by
          rw [g1]; ring
        rw [g2, abs_neg, abs_div, abs_of_pos (show 0 < 4 * a by linarith), hda,
          div_mul_cancel₀ _ (show 4 * a ≠ 0 by linarith)]
        exact h2
    · rw [if_neg h2]
      by_cases h3 : b * b - 4 * a * k < 0
      · rw [if_pos h3]
        refine ⟨_, rfl, fun h => ?_, fun _ t ht => ?_⟩
        · rw [hda] at h; linarith
        · have g := hsq t
          unfold OnCircle at ht
          rw [ht, sub_self] at g
          have : 0 < -((b * b - 4 * a * k) / (4 * a)) := by
            rw [← neg_div]; exact div_pos (by linarith) (by linarith)
          nlinarith [sq_nonneg (t + b / (2 * a))]
      · rw [if_neg h3]
        have h3' : 0 < b * b - 4 * a * k := by
          have h0 := not_lt.mp h3
          rw [abs_of_nonneg h0] at h2
          exact lt_of_lt_of_le realThreshold_pos (not_lt.mp h2)
        obtain ⟨x1, x2, hx, hroots⟩ := C09_quadratic a b k hap.ne' h3'.le (Or.inl h3')
        rw [hx, ok_bind]
        refine ⟨_, rfl, fun h => ?_, fun _ => ⟨?_, ?_⟩⟩
        · rw [hda] at h; linarith
        · intro heq
          obtain rfl : x1 = x2 := heq
          -- a double root has no discriminant
          have r0 := hroots 0
          have r1 := hroots 1
          have r2 := hroots (-1)
          have hb' : b = -2 * a * x1 := by linarith
          have hk' : k = a * x1 ^ 2 := by linarith
          rw [hb', hk'] at h3'
          have : -2 * a * x1 * (-2 * a * x1) - 4 * a * (a * x1 ^ 2) = 0 := by ring
          linarith
        · intro t
          have e1 : OnCircle r c (lerp p0 p1 t) ↔ a * t ^ 2 + b * t + k = 0 := by
            rw [← hq]; unfold OnCircle; exact sub_eq_zero.symm
          rw [e1, hroots, mul_assoc, mul_eq_zero, mul_eq_zero]
          simp only [hap.ne', false_or, sub_eq_zero]

/-- A line through the unit circle. -/
example : ∃ t0 t1, intrLineSeg2Circle2 ⟨-2, 0⟩ ⟨2, 0⟩ 1 ⟨0, 0⟩ = .ok (.two t0 t1) := by
  obtain ⟨res, h1, -, h2⟩ := C19_line_circle ⟨-2, 0⟩ ⟨2, 0⟩ 1 ⟨0, 0⟩
  have h2 := h2 (by norm_num [dist2])
  cases res with
  | none => exact absurd (by norm_num [OnCircle, dist2, lerp]) (h2 (1 / 4))
  | one t0 =>
    exfalso
    simp only at h2
    obtain ⟨g1, g2⟩ := h2
    have := g1 (1 / 2)
    have hle : dist2 (lerp ⟨-2, 0⟩ ⟨2, 0⟩ t0) ⟨0, 0⟩ ≤ 0 := by
      refine this.trans ?_; norm_num [dist2, lerp]
    have h0 := le_antisymm hle (dist2_nonneg _ _)
    rw [h0] at g2
    norm_num [dist2] at g2
  | two t0 t1 => exact ⟨t0, t1, h1⟩

/-- C19, short segments: a segment of length 8e-5 that crosses the unit circle, with its ends at
distances 1 - 4e-5 and 1 + 4e-5 from the center, is reported as not intersecting. -/
theorem C19_short_segment_missed :
    intrLineSeg2Circle2 ⟨1 - 4 / 10 ^ 5, 0⟩ ⟨1 + 4 / 10 ^ 5, 0⟩ 1 ⟨0, 0⟩ = .ok .none ∧
    OnCircle 1 ⟨0, 0⟩ (lerp ⟨1 - 4 / 10 ^ 5, 0⟩ ⟨1 + 4 / 10 ^ 5, 0⟩ (1 / 2)) := by
  constructor
  · obtain ⟨res, h1, h2, -⟩ := C19_line_circle ⟨1 - 4 / 10 ^ 5, 0⟩ ⟨1 + 4 / 10 ^ 5, 0⟩ 1 ⟨0, 0⟩
    rw [h1, h2 (by norm_num [dist2]), if_neg]
    simp only [dist2]
    rw [not_lt, abs_of_neg (by norm_num)]
    norm_num
  · norm_num [OnCircle, lerp, dist2]

/-- C19, false tangent: a segment of length 1.1e-4 that stays a tenth of the radius inside of the
unit circle is reported to intersect it at its midpoint. -/
theorem C19_false_tangent :
    intrLineSeg2Circle2 ⟨-(55 / 10 ^ 6), 9 / 10⟩ ⟨55 / 10 ^ 6, 9 / 10⟩ 1 ⟨0, 0⟩ = .ok (.one (1 / 2)) ∧
    (∀ t, 0 ≤ t → t ≤ 1 →
      dist2 (lerp ⟨-(55 / 10 ^ 6), 9 / 10⟩ ⟨55 / 10 ^ 6, 9 / 10⟩ t) ⟨0, 0⟩ < (91 / 100) ^ 2) := by
  constructor
  · unfold intrLineSeg2Circle2
    simp only
    rw [if_neg (by norm_num [realThreshold]), if_pos]
    · norm_num
    · rw [abs_of_pos (by norm_num)]
      norm_num [realThreshold]
  · intro t t0 t1
    simp only [dist2, lerp]
    norm_num
    nlinarith

/-- Tangency within the tolerance: how far the reported point is off one circle. -/
theorem tangent_bound {d r s b : ℝ} (hdp : 0 < d) (hs' : 1 / 10 ^ 8 ≤ d) (hr : 0 ≤ r) (hs0 : 0 ≤ s)
    (hb : 2 * d * b = r * r - s * s + d ^ 2) (f1 : d ≤ r + s + 1 / 10 ^ 8)
    (f2 : |r - s| ≤ d + 1 / 10 ^ 8) (g : d > r + s ∨ d < |r - s|) :
    |(|b| - r)| ≤ 2 / 10 ^ 8 * (1 + min r s / d) := by
  have e8 : (0 : ℝ) < 1 / 10 ^ 8 := by norm_num
  have hd0 := hdp.le
  have hmin : 0 ≤ min r s := le_min hr hs0
  have expand : 2 / 10 ^ 8 * (1 + min r s / d) = 2 / 10 ^ 8 + 2 / 10 ^ 8 * min r s / d := by
    ring
  rw [expand]
  have mul_le : ∀ z, d * (z - 2 / 10 ^ 8) ≤ 2 / 10 ^ 8 * min r s →
      z ≤ 2 / 10 ^ 8 + 2 / 10 ^ 8 * min r s / d := by
    intro z hz
    have : z - 2 / 10 ^ 8 ≤ 2 / 10 ^ 8 * min r s / d := by
      rw [le_div_iff₀ hdp]; linarith
    linarith
  have nn : 0 ≤ 2 / 10 ^ 8 + 2 / 10 ^ 8 * min r s / d := by positivity
  rcases g with g | g
  · -- apart: b - r = (δ² + 2 δ s) / (2 d)
    obtain ⟨δ, hδ⟩ : ∃ δ, d = r + s + δ := ⟨d - r - s, by ring⟩
    have hδ0 : 0 < δ := by linarith
    have hδ1 : δ ≤ 1 / 10 ^ 8 := by linarith
    have e : 2 * d * (b - r) = δ * (δ + 2 * s) := by
      have : 2 * d * (b - r) = 2 * d * b - 2 * d * r := by ring
      rw [this, hb, hδ]; ring
    have hbr : 0 ≤ b - r := by
      by_contra hn; push Not at hn
      have : 2 * d * (b - r) < 0 := mul_neg_of_pos_of_neg (by linarith) hn
      nlinarith
    rw [abs_of_nonneg (show 0 ≤ b by linarith), abs_of_nonneg hbr]
    apply mul_le
    have : 2 * d * (b - r) ≤ 2 * d * (1 / 10 ^ 8) := by
      rw [e]; nlinarith
    have : 0 ≤ 2 / 10 ^ 8 * min r s := by positivity
    nlinarith
  · rcases le_total s r with hsr | hsr
    · rw [abs_of_nonneg (by linarith)] at f2 g
      obtain ⟨δ, hδ⟩ : ∃ δ, r = s + d + δ := ⟨r - s - d, by ring⟩
      have hδ0 : 0 < δ := by linarith
      have hδ1 : δ ≤ 1 / 10 ^ 8 := by linarith
      have e : 2 * d * (b - r) = δ * (δ + 2 * s) := by
        have : 2 * d * (b - r) = 2 * d * b - 2 * d * r := by ring
        rw [this, hb, hδ]; ring
      have hbr : 0 ≤ b - r := by
        by_contra hn; push Not at hn
        have : 2 * d * (b - r) < 0 := mul_neg_of_pos_of_neg (by linarith) hn
        nlinarith
      rw [abs_of_nonneg (show 0 ≤ b by linarith), abs_of_nonneg hbr]
      apply mul_le
      rw [min_eq_right hsr]
      have k1 : δ * δ ≤ 1 / 10 ^ 8 * d := mul_le_mul hδ1 (hδ1.trans hs') hδ0.le e8.le
      have k2 : δ * s ≤ 1 / 10 ^ 8 * s := mul_le_mul_of_nonneg_right hδ1 hs0
      nlinarith
    · rw [abs_of_nonpos (by linarith)] at f2 g
      obtain ⟨δ, hδ⟩ : ∃ δ, s = r + d + δ := ⟨s - r - d, by ring⟩
      have hδ0 : 0 < δ := by linarith
      have hδ1 : δ ≤ 1 / 10 ^ 8 := by linarith
      have e : 2 * d * (-b - r) = 2 * r * δ + 2 * d * δ + δ * δ := by
        have : 2 * d * (-b - r) = -(2 * d * b) - 2 * d * r := by ring
        rw [this, hb, hδ]; ring
      have hbr : 0 ≤ -b - r := by
        by_contra hn; push Not at hn
        have : 2 * d * (-b - r) < 0 := mul_neg_of_pos_of_neg (by linarith) hn
        have : 0 ≤ 2 * r * δ + 2 * d * δ + δ * δ := by positivity
        linarith
      rw [abs_of_nonpos (show b ≤ 0 by linarith), abs_of_nonneg hbr]
      apply mul_le
      rw [min_eq_left hsr]
      have k1 : δ * δ ≤ 1 / 10 ^ 8 * d := mul_le_mul hδ1 (hδ1.trans hs') hδ0.le e8.le
      have k2 : δ * r ≤ 1 / 10 ^ 8 * r := mul_le_mul_of_nonneg_right hδ1 hr
      have k3 : δ * d ≤ 1 / 10 ^ 8 * d := mul_le_mul_of_nonneg_right hδ1 hd0
      nlinarith

set_option maxHeartbeats 1000000 in
/-- C20. Two circles of non-negative radius. Coincident is reported exactly when the centers are
less than 1e-8 apart and the radii differ by less than 1e-8. No intersect is reported only if the
circles have no common point. Two intersects are exactly the common points, and different. One
intersect is either an exact common point, with any other common point less than 1e-8 away in both
coordinates, or the circles have no common point and the reported point misses either circle by at
most 2e-8 (1 + smaller radius / distance of the centers). -/
theorem C20_circle_circle {r1 r2 : ℝ} (h1 : 0 ≤ r1) (h2 : 0 ≤ r2) (c1 c2 : V2) :
    match intrCircle2Circle2 r1 c1 r2 c2 with
    | .coincident => distance c1 c2 < 1 / 10 ^ 8 ∧ |r1 - r2| < 1 / 10 ^ 8
    | .noIntersect => ¬ (distance c1 c2 < 1 / 10 ^ 8 ∧ |r1 - r2| < 1 / 10 ^ 8) ∧
        ∀ p, ¬ (OnCircle r1 c1 p ∧ OnCircle r2 c2 p)
    | .two p q => p ≠ q ∧ ∀ x, (OnCircle r1 c1 x ∧ OnCircle r2 c2 x) ↔ x = p ∨ x = q
    | .one p =>
        (OnCircle r1 c1 p ∧ OnCircle r2 c2 p ∧ ∀ x, OnCircle r1 c1 x ∧ OnCircle r2 c2 x →
          |p.x - x.x| < 1 / 10 ^ 8 ∧ |p.y - x.y| < 1 / 10 ^ 8) ∨
        ((∀ x, ¬ (OnCircle r1 c1 x ∧ OnCircle r2 c2 x)) ∧
          |distance p c1 - r1| ≤ 2 / 10 ^ 8 * (1 + min r1 r2 / distance c1 c2) ∧
          |distance p c2 - r2| ≤ 2 / 10 ^ 8 * (1 + min r1 r2 / distance c1 c2)) := by
  have e8 : (0 : ℝ) < 1 / 10 ^ 8 := by norm_num
  set d := distance c1 c2 with hd
  have hd0 : 0 ≤ d := distance_nonneg _ _
  have hd2 : d ^ 2 = (c1.x - c2.x) ^ 2 + (c1.y - c2.y) ^ 2 := distance_sq _ _
  -- common points keep the triangle inequality
  have tri : ∀ x, OnCircle r1 c1 x → OnCircle r2 c2 x → d ≤ r1 + r2 ∧ |r1 - r2| ≤ d := by
    intro x hx1 hx2
    unfold OnCircle dist2 at hx1 hx2
    have cs : ((x.x - c1.x) * (x.x - c2.x) + (x.y - c1.y) * (x.y - c2.y)) ^ 2 ≤ (r1 * r2) ^ 2 := by
      have : (r1 * r2) ^ 2 = r1 ^ 2 * r2 ^ 2 := by ring
      rw [this, ← hx1, ← hx2]
      nlinarith [sq_nonneg ((x.x - c1.x) * (x.y - c2.y) - (x.y - c1.y) * (x.x - c2.x))]
    have := abs_le_of_sq_le_sq' cs (mul_nonneg h1 h2)
    constructor
    · refine abs_le_of_sq_le_sq' ?_ (by linarith) |>.2
      rw [hd2]; nlinarith
    · refine abs_le_of_sq_le_sq ?_ hd0
      rw [hd2]; nlinarith
  unfold intrCircle2Circle2
  have hdd0 : dot (c2 - c1) (c2 - c1) = dist2 c1 c2 := dot_sub_self _ _
  have hdd : dot (c2 - c1) (c2 - c1) = d ^ 2 := by rw [dot_sub_self, hd, distance_sq]
  simp only [hdd, Real.sqrt_sq hd0]
  by_cases hs : d < 1 / 10 ^ 8
  · rw [if_pos (show d < realThreshold from hs)]
    by_cases hr : |r1 - r2| < 1 / 10 ^ 8
    · rw [if_pos (show fuzzyEqual r1 r2 from hr)]
      exact ⟨hs, hr⟩
    · rw [if_neg (show ¬ fuzzyEqual r1 r2 from hr)]
      refine ⟨fun h => hr h.2, fun p hp => ?_⟩
      have := (tri p hp.1 hp.2).2
      linarith [not_lt.mp hr]
  · rw [if_neg (show ¬ d < realThreshold from hs)]
    have hs' : 1 / 10 ^ 8 ≤ d := not_lt.mp hs
    have hdp : 0 < d := by linarith
    by_cases hfar : d > r1 + r2 + realThreshold ∨ d + realThreshold < |r1 - r2|
    · rw [if_pos hfar]
      refine ⟨fun h => hs h.1, fun p hp => ?_⟩
      have t := tri p hp.1 hp.2
      unfold realThreshold at hfar
      rcases hfar with hfar | hfar <;> linarith [t.1, t.2]
    · rw [if_neg hfar]
      push Not at hfar
      unfold realThreshold at hfar
      set a := (r1 * r1 - r2 * r2 + d ^ 2) / (2 * d) with ha
      have ha' : 2 * d * a = r1 * r1 - r2 * r2 + d ^ 2 := by
        rw [ha]; field_simp
      set m : V2 := ⟨c1.x + a * (c2 - c1).x / d, c1.y + a * (c2 - c1).y / d⟩ with hm
      have hmx : m.x = c1.x + a / d * (c2.x - c1.x) := by rw [hm]; simp only [V2.sub_x]; ring
      have hmy : m.y = c1.y + a / d * (c2.y - c1.y) := by rw [hm]; simp only [V2.sub_y]; ring
      clear_value m a
      have hd2' : (c2.x - c1.x) ^ 2 + (c2.y - c1.y) ^ 2 = d ^ 2 := by rw [hd2]; ring
      -- any common point, resolved along and across the center line
      have comp : ∀ x, OnCircle r1 c1 x → OnCircle r2 c2 x →
          (x.x - c1.x) * (c2.x - c1.x) + (x.y - c1.y) * (c2.y - c1.y) = a * d ∧
          ((x.x - c1.x) * (c2.y - c1.y) - (x.y - c1.y) * (c2.x - c1.x)) ^ 2 =
            (r1 * r1 - a * a) * d ^ 2 := by
        intro x hx1 hx2
        unfold OnCircle dist2 at hx1 hx2
        have k1 : (x.x - c1.x) * (c2.x - c1.x) + (x.y - c1.y) * (c2.y - c1.y) = a * d := by
          nlinarith
        refine ⟨k1, ?_⟩
        have lag : ((x.x - c1.x) * (c2.y - c1.y) - (x.y - c1.y) * (c2.x - c1.x)) ^ 2 +
            ((x.x - c1.x) * (c2.x - c1.x) + (x.y - c1.y) * (c2.y - c1.y)) ^ 2 =
            ((x.x - c1.x) ^ 2 + (x.y - c1.y) ^ 2) * ((c2.x - c1.x) ^ 2 + (c2.y - c1.y) ^ 2) := by
          ring
        rw [k1, hx1, hd2'] at lag
        linarith
      by_cases hdiff : r1 * r1 - a * a < 0
      · rw [if_pos hdiff]
        right
        refine ⟨?_, ?_⟩
        · rintro x ⟨hx1, hx2⟩
          have := (comp x hx1 hx2).2
          have h0 : (r1 * r1 - a * a) * d ^ 2 < 0 := mul_neg_of_neg_of_pos hdiff (by positivity)
          nlinarith [sq_nonneg ((x.x - c1.x) * (c2.y - c1.y) - (x.y - c1.y) * (c2.x - c1.x))]
        · have dm1 : distance m c1 = |a| := by
            have : dist2 m c1 = a ^ 2 := by
              rw [dist2, hmx, hmy]
              have : (c1.x + a / d * (c2.x - c1.x) - c1.x) ^ 2 + (c1.y + a / d * (c2.y - c1.y) - c1.y) ^ 2
                = (a / d) ^ 2 * ((c2.x - c1.x) ^ 2 + (c2.y - c1.y) ^ 2) := by ring
              rw [this, hd2']; field_simp
            rw [distance, this, Real.sqrt_sq_eq_abs]
          have dm2 : distance m c2 = |d - a| := by
            have : dist2 m c2 = (d - a) ^ 2 := by
              rw [dist2, hmx, hmy]
              have : (c1.x + a / d * (c2.x - c1.x) - c2.x) ^ 2 + (c1.y + a / d * (c2.y - c1.y) - c2.y) ^ 2
                = (1 - a / d) ^ 2 * ((c2.x - c1.x) ^ 2 + (c2.y - c1.y) ^ 2) := by ring
              rw [this, hd2']; field_simp
            rw [distance, this, Real.sqrt_sq_eq_abs]
          have gap : d > r1 + r2 ∨ d < |r1 - r2| := by
            by_contra hn
            push Not at hn
            have id4 : 4 * d ^ 2 * (r1 * r1 - a * a) =
                ((r1 + r2) ^ 2 - d ^ 2) * (d ^ 2 - (r1 - r2) ^ 2) := by
              have : 4 * d ^ 2 * (r1 * r1 - a * a) = 4 * d ^ 2 * (r1 * r1) - (2 * d * a) ^ 2 := by
                ring
              rw [this, ha']; ring
            have g1 : 0 ≤ (r1 + r2) ^ 2 - d ^ 2 := by nlinarith [hn.1]
            have g2 : 0 ≤ d ^ 2 - (r1 - r2) ^ 2 := by
              have := hn.2
              rw [← sq_abs (r1 - r2)]
              nlinarith [abs_nonneg (r1 - r2)]
            have : 4 * d ^ 2 * (r1 * r1 - a * a) < 0 := mul_neg_of_pos_of_neg (by positivity) hdiff
            linarith [mul_nonneg g1 g2]
          -- one side of the claim, for either circle
          constructor
          · rw [dm1]
            exact tangent_bound hdp hs' h1 h2 ha' hfar.1 hfar.2 gap
          · rw [dm2, min_comm]
            refine tangent_bound hdp hs' h2 h1 (by linarith) (by linarith) ?_ ?_
            · rw [abs_sub_comm]; exact hfar.2
            · rw [abs_sub_comm, add_comm]; exact gap
      · rw [if_neg hdiff]
        have hdiff' := not_lt.mp hdiff
        set h := Real.sqrt (r1 * r1 - a * a) with hh
        have hh2 : h ^ 2 = r1 * r1 - a * a := Real.sq_sqrt hdiff'
        clear_value h
        set P : V2 := ⟨c1.x + a * (c2 - c1).x / d + h / d * (c2 - c1).y,
          c1.y + a * (c2 - c1).y / d - h / d * (c2 - c1).x⟩ with hP0
        set Q : V2 := ⟨c1.x + a * (c2 - c1).x / d - h / d * (c2 - c1).y,
          c1.y + a * (c2 - c1).y / d + h / d * (c2 - c1).x⟩ with hQ0
        have hP : P = ⟨m.x + h / d * (c2.y - c1.y), m.y - h / d * (c2.x - c1.x)⟩ := by
          rw [hP0, hm]; rfl
        have hQ : Q = ⟨m.x - h / d * (c2.y - c1.y), m.y + h / d * (c2.x - c1.x)⟩ := by
          rw [hQ0, hm]; rfl
        clear_value P Q
        have on : ∀ σ : ℝ, σ ^ 2 = 1 →
            OnCircle r1 c1 ⟨m.x + σ * (h / d) * (c2.y - c1.y), m.y - σ * (h / d) * (c2.x - c1.x)⟩ ∧
            OnCircle r2 c2 ⟨m.x + σ * (h / d) * (c2.y - c1.y), m.y - σ * (h / d) * (c2.x - c1.x)⟩ := by
          intro σ hσ
          unfold OnCircle dist2
          simp only [hmx, hmy]
          constructor
          · have : (c1.x + a / d * (c2.x - c1.x) + σ * (h / d) * (c2.y - c1.y) - c1.x) ^ 2 +
                (c1.y + a / d * (c2.y - c1.y) - σ * (h / d) * (c2.x - c1.x) - c1.y) ^ 2 =
                ((a / d) ^ 2 + σ ^ 2 * (h / d) ^ 2) * ((c2.x - c1.x) ^ 2 + (c2.y - c1.y) ^ 2) := by ring
            rw [this, hd2', hσ, div_pow a d, div_pow h d, hh2]
            field_simp; ring
          · have : (c1.x + a / d * (c2.x - c1.x) + σ * (h / d) * (c2.y - c1.y) - c2.x) ^ 2 +
                (c1.y + a / d * (c2.y - c1.y) - σ * (h / d) * (c2.x - c1.x) - c2.y) ^ 2 =
                ((1 - a / d) ^ 2 + σ ^ 2 * (h / d) ^ 2) * ((c2.x - c1.x) ^ 2 + (c2.y - c1.y) ^ 2) := by
              ring
            rw [this, hd2', hσ, div_pow h d, hh2]
            field_simp
            linarith
        have onP : OnCircle r1 c1 P ∧ OnCircle r2 c2 P := by
          have := on 1 (by norm_num)
          rw [hP]; simpa only [one_mul] using this
        have onQ : OnCircle r1 c1 Q ∧ OnCircle r2 c2 Q := by
          have := on (-1) (by norm_num)
          have e : (⟨m.x + -1 * (h / d) * (c2.y - c1.y), m.y - -1 * (h / d) * (c2.x - c1.x)⟩ : V2) = Q := by
            rw [hQ]; ext <;> ring
          rw [e] at this; exact this
        have all : ∀ x, OnCircle r1 c1 x → OnCircle r2 c2 x → x = P ∨ x = Q := by
          intro x hx1 hx2
          obtain ⟨k1, k2⟩ := comp x hx1 hx2
          rw [← hh2] at k2
          have hc : ((x.x - c1.x) * (c2.y - c1.y) - (x.y - c1.y) * (c2.x - c1.x)) = h * d ∨
              ((x.x - c1.x) * (c2.y - c1.y) - (x.y - c1.y) * (c2.x - c1.x)) = -(h * d) := by
            apply sq_eq_sq_iff_eq_or_eq_neg.mp
            rw [k2]; ring
          have hdne : d ^ 2 ≠ 0 := by positivity
          have sol : ∀ σ : ℝ, ((x.x - c1.x) * (c2.y - c1.y) - (x.y - c1.y) * (c2.x - c1.x)) = σ * (h * d) →
              x.x = m.x + σ * (h / d) * (c2.y - c1.y) ∧ x.y = m.y - σ * (h / d) * (c2.x - c1.x) := by
            intro σ hσ
            rw [hmx, hmy]
            constructor
            · apply mul_left_cancel₀ hdne
              have e1 : d ^ 2 * (c1.x + a / d * (c2.x - c1.x) + σ * (h / d) * (c2.y - c1.y)) =
                  d ^ 2 * c1.x + (a * d) * (c2.x - c1.x) + σ * (h * d) * (c2.y - c1.y) := by
                field_simp
              rw [e1, ← hσ, ← k1, ← hd2']; ring
            · apply mul_left_cancel₀ hdne
              have e1 : d ^ 2 * (c1.y + a / d * (c2.y - c1.y) - σ * (h / d) * (c2.x - c1.x)) =
                  d ^ 2 * c1.y + (a * d) * (c2.y - c1.y) - σ * (h * d) * (c2.x - c1.x) := by
                field_simp
              rw [e1, ← hσ, ← k1, ← hd2']; ring
          rcases hc with hc | hc
          · left
            have := sol 1 (by rw [hc]; ring)
            rw [hP]; ext
            · rw [this.1]; simp
            · rw [this.2]; simp
          · right
            have := sol (-1) (by rw [hc]; ring)
            rw [hQ]; ext
            · rw [this.1]; simp; ring
            · rw [this.2]; simp
        by_cases hf : fuzzyEqualV P Q
        · rw [if_pos hf]
          left
          refine ⟨onP.1, onP.2, fun x hx => ?_⟩
          rcases all x hx.1 hx.2 with rfl | rfl
          · rw [sub_self, sub_self, abs_zero]; exact ⟨e8, e8⟩
          · exact hf
        · rw [if_neg hf]
          refine ⟨ne_of_not_fuzzyEqualV realThreshold_pos hf, fun x => ⟨fun hx => all x hx.1 hx.2, ?_⟩⟩
          rintro (rfl | rfl)
          · exact onP
          · exact onQ

/-- Unit circles about (0, 0) and (1, 0) have two common points. -/
example : ∃ p q, intrCircle2Circle2 1 ⟨0, 0⟩ 1 ⟨1, 0⟩ = .two p q ∧ OnCircle 1 ⟨1, 0⟩ q := by
  have h := C20_circle_circle (r1 := 1) (r2 := 1) (by norm_num) (by norm_num) ⟨0, 0⟩ ⟨1, 0⟩
  have hd : distance ⟨0, 0⟩ ⟨1, 0⟩ = 1 := by norm_num [distance, dist2]
  have hs : Real.sqrt (3 / 4) ^ 2 = 3 / 4 := Real.sq_sqrt (by norm_num)
  have c1 : OnCircle 1 ⟨0, 0⟩ ⟨1 / 2, Real.sqrt (3 / 4)⟩ ∧ OnCircle 1 ⟨1, 0⟩ ⟨1 / 2, Real.sqrt (3 / 4)⟩ := by
    constructor <;> simp only [OnCircle, dist2, sub_zero, hs] <;> norm_num
  have c2 : OnCircle 1 ⟨0, 0⟩ ⟨1 / 2, -Real.sqrt (3 / 4)⟩ ∧ OnCircle 1 ⟨1, 0⟩ ⟨1 / 2, -Real.sqrt (3 / 4)⟩ := by
    constructor <;> simp only [OnCircle, dist2, sub_zero, neg_sq, hs] <;> norm_num
  generalize intrCircle2Circle2 1 ⟨0, 0⟩ 1 ⟨1, 0⟩ = res at h
  cases res with
  | coincident => rw [hd] at h; norm_num at h
  | noIntersect => exact absurd c1 (h.2 _)
  | two p q => exact ⟨p, q, rfl, ((h.2 q).mpr (Or.inr rfl)).2⟩
  | one p =>
    exfalso
    rcases h with h | h
    · have g1 := (h.2.2 _ c1).2
      have g2 := (h.2.2 _ c2).2
      simp only at g1 g2
      rw [abs_lt] at g1 g2
      have hpos : 1 / 2 ≤ Real.sqrt (3 / 4) := Real.le_sqrt_of_sq_le (by norm_num)
      linarith [g1.1, g2.2, show (1 : ℝ) / 10 ^ 8 ≤ 1 / 4 by norm_num]
    · exact h.1 _ c1

/-- C20, nearly coincident circles: for radii 100 + 2e-8 and 100 and centers 1e-8 apart, the circles
have no common point, and the one reported is about 100 away from both of them. -/
theorem C20_near_coincident_witness :
    ∃ p, intrCircle2Circle2 (100 + 2 / 10 ^ 8) ⟨0, 0⟩ 100 ⟨1 / 10 ^ 8, 0⟩ = .one p ∧ 200 ≤ p.x ∧
      p.y = 0 := by
  have hd : Real.sqrt (dot ((⟨1 / 10 ^ 8, 0⟩ : V2) - ⟨0, 0⟩) ((⟨1 / 10 ^ 8, 0⟩ : V2) - ⟨0, 0⟩)) =
      1 / 10 ^ 8 := by
    rw [show dot ((⟨1 / 10 ^ 8, 0⟩ : V2) - ⟨0, 0⟩) ((⟨1 / 10 ^ 8, 0⟩ : V2) - ⟨0, 0⟩) =
      (1 / 10 ^ 8) ^ 2 by simp only [dot, V2.sub_x, V2.sub_y]; norm_num]
    exact Real.sqrt_sq (by norm_num)
  unfold intrCircle2Circle2
  simp only [hd]
  rw [if_neg (by norm_num [realThreshold]), if_neg, if_pos]
  · refine ⟨_, rfl, ?_, ?_⟩
    · simp only [dot, V2.sub_x, V2.sub_y]; norm_num
    · simp only [dot, V2.sub_x, V2.sub_y]; norm_num
  · simp only [dot, V2.sub_x, V2.sub_y]; norm_num
  · rw [not_or]
    constructor
    · norm_num [realThreshold]
    · rw [abs_of_pos (by norm_num)]; norm_num [realThreshold]

end Cavc

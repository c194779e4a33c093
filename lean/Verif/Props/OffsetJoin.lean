import Verif.Props.OffsetSegs
import Verif.Props.LineLine
import Verif.Props.Circle

/-! C38: the arcs that connect raw offset segments, and the bound on all bulges of the raw offset. -/
namespace Cavc
open Spec
open scoped Classical

theorem abs_deltaAngle_le (a b : ℝ) : |deltaAngle a b| ≤ Real.pi := by
  obtain ⟨h1, h2, -⟩ := deltaAngle_spec a b
  rw [abs_le]; exact ⟨h1.le, h2⟩

theorem tan_quarter_le {θ : ℝ} (h : |θ| ≤ Real.pi) : |Real.tan (θ / 4)| ≤ 1 := by
  have hpi := Real.pi_pos
  rw [abs_le] at h
  have e1 : Real.tan (θ / 4) ≤ Real.tan (Real.pi / 4) :=
    Real.strictMonoOn_tan.monotoneOn (by constructor <;> linarith) (by constructor <;> linarith)
      (by linarith)
  have e2 : Real.tan (-(Real.pi / 4)) ≤ Real.tan (θ / 4) :=
    Real.strictMonoOn_tan.monotoneOn (by constructor <;> linarith) (by constructor <;> linarith)
      (by linarith)
  rw [Real.tan_neg] at e2
  rw [Real.tan_pi_div_four] at e1 e2
  rw [abs_le]; exact ⟨by linarith, e1⟩

/-- C38, bound: whatever the points, the connection arc is at most a half circle and turns in the
direction asked for. -/
theorem C38_bulgeForConnection (c sp ep : V2) (ccw : Prop) :
    |bulgeForConnection c sp ep ccw| ≤ 1 ∧ (ccw → 0 ≤ bulgeForConnection c sp ep ccw) ∧
      (¬ ccw → bulgeForConnection c sp ep ccw ≤ 0) := by
  have h := abs_deltaAngle_le (angle c sp) (angle c ep)
  have h1 := tan_quarter_le (θ := |deltaAngle (angle c sp) (angle c ep)|) (by rwa [abs_abs])
  have h0 : 0 ≤ Real.tan (|deltaAngle (angle c sp) (angle c ep)| / 4) :=
    Real.tan_nonneg_of_nonneg_of_le_pi_div_two (by positivity) (by linarith [Real.pi_pos])
  unfold bulgeForConnection
  by_cases hc : ccw
  · simp only [if_pos hc]; exact ⟨h1, fun _ => h0, fun h => absurd hc h⟩
  · simp only [if_neg hc, abs_neg]; exact ⟨h1, fun h => absurd h hc, fun _ => by linarith⟩

/-- C38, shape: if the end point is the start point turned about `c` by an angle of the direction
asked for and of at most a half turn, the connection arc is the arc about `c`. -/
theorem C38_connection_center {c sp ep : V2} {ccw : Prop} {θ : ℝ} (hne : sp ≠ c)
    (he : ep = rot c θ sp) (h1 : ccw → 0 ≤ θ ∧ θ ≤ Real.pi) (h2 : ¬ ccw → -Real.pi ≤ θ ∧ θ ≤ 0)
    (b : ℝ) :
    sweep ⟨sp, bulgeForConnection c sp ep ccw⟩ = θ ∧
    CircularAbout c (distance sp c) ⟨sp, bulgeForConnection c sp ep ccw⟩ ⟨ep, b⟩ := by
  have hpi := Real.pi_pos
  have habs : |θ| ≤ Real.pi := by
    rw [abs_le]
    by_cases hc : ccw
    · have := h1 hc; constructor <;> linarith
    · have := h2 hc; constructor <;> linarith
  obtain ⟨k, hk⟩ := angle_rot hne θ
  have hd : |deltaAngle (angle c sp) (angle c ep)| = |θ| := by
    rw [he]; exact abs_deltaAngle habs ⟨k, hk⟩
  have hsw : sweep ⟨sp, bulgeForConnection c sp ep ccw⟩ = θ := by
    unfold sweep bulgeForConnection
    simp only [hd]
    have ht : Real.arctan (Real.tan (|θ| / 4)) = |θ| / 4 :=
      Real.arctan_tan (by have := abs_nonneg θ; linarith) (by linarith)
    by_cases hc : ccw
    · rw [if_pos hc, ht, abs_of_nonneg (h1 hc).1]; ring
    · rw [if_neg hc, Real.arctan_neg, ht, abs_of_nonpos (h2 hc).2]; ring
  refine ⟨hsw, ?_, rfl, (C38_bulgeForConnection c sp ep ccw).1⟩
  unfold IsCenter
  rw [hsw]; exact he.symm

/-- The raw offset of a line, written out. -/
theorem offsets_line {offset : ℝ} {v1 v2 : Vertex} {s : OffsetSegment} (hl : IsLine v1)
    (hne : ¬ Near (1 / 10 ^ 5) v1.pos v2.pos) (h : Offsets offset v1 v2 s) :
    s.collapsedArc = false ∧ s.v1.bulge = v1.bulge ∧
    s.v1.pos = ⟨v1.pos.x - offset * (v2.pos.y - v1.pos.y) / distance v1.pos v2.pos,
      v1.pos.y + offset * (v2.pos.x - v1.pos.x) / distance v1.pos v2.pos⟩ ∧
    s.v2.pos = ⟨v2.pos.x - offset * (v2.pos.y - v1.pos.y) / distance v1.pos v2.pos,
      v2.pos.y + offset * (v2.pos.x - v1.pos.x) / distance v1.pos v2.pos⟩ := by
  have hc : s.collapsedArc = false := by
    rw [← Bool.not_eq_true, h.collapsed]; exact fun h => h.1 hl
  have hγ : IsPath v1 v2 (fun t => lerp v1.pos v2.pos t) := fun t => (atParam_line hl).mpr rfl
  have hb := h.bulge1
  rw [hc] at hb
  refine ⟨hc, by simpa using hb, ?_, ?_⟩
  · obtain ⟨n, hn⟩ := C37_normal_exists hne hγ 0
    rw [h.start _ n hγ hn]
    obtain ⟨e1, e2⟩ := leftNormal_line hn
    ext
    · simp only [V2.add_x, V2.smul_x, e1, lerp]; ring
    · simp only [V2.add_y, V2.smul_y, e2, lerp]; ring
  · obtain ⟨n, hn⟩ := C37_normal_exists hne hγ 1
    rw [h.stop _ n hγ hn]
    obtain ⟨e1, e2⟩ := leftNormal_line hn
    ext
    · simp only [V2.add_x, V2.smul_x, e1, lerp]; ring
    · simp only [V2.add_y, V2.smul_y, e2, lerp]; ring

theorem corner_angle (a b c : V2) :
    ∃ θ, -Real.pi < θ ∧ θ ≤ Real.pi ∧ (0 < side a b c → 0 < θ) ∧ (side a b c < 0 → θ < 0) ∧
      distance a b * distance b c * Real.cos θ =
        (b.x - a.x) * (c.x - b.x) + (b.y - a.y) * (c.y - b.y) ∧
      distance a b * distance b c * Real.sin θ = side a b c := by
  set z : ℂ := ⟨(b.x - a.x) * (c.x - b.x) + (b.y - a.y) * (c.y - b.y), side a b c⟩ with hz
  have hn : ‖z‖ = distance a b * distance b c := by
    rw [Complex.norm_def, Complex.normSq_apply]
    unfold distance
    rw [← Real.sqrt_mul (dist2_nonneg _ _)]
    congr 1
    simp only [hz, side, dist2]; ring
  refine ⟨Complex.arg z, Complex.neg_pi_lt_arg z, Complex.arg_le_pi z, ?_, ?_, ?_, ?_⟩
  · intro h
    have h0 : 0 ≤ Complex.arg z := Complex.arg_nonneg_iff.mpr h.le
    refine lt_of_le_of_ne h0 fun he => ?_
    have := (Complex.arg_eq_zero_iff.mp he.symm).2
    exact h.ne' this
  · intro h; exact Complex.arg_neg_iff.mpr h
  · rw [← hn]; exact Complex.norm_mul_cos_arg z
  · rw [← hn]; exact Complex.norm_mul_sin_arg z

theorem collinearOverlap_not_false (v1 v w w2 : V2) (t0 t1 : ℝ) (p : V2) :
    collinearOverlap v1 v w w2 ≠ .falseIntr t0 t1 p := by
  unfold collinearOverlap
  simp only
  generalize (if |v.x| < realThreshold then w.y / v.y else w.x / v.x) = a
  generalize (if |v.x| < realThreshold then w2.y / v.y else w2.x / v.x) = b
  generalize (if a > b then b else a) = c
  generalize (if a > b then a else b) = d
  by_cases h1 : c > 1 + realThreshold ∨ d + realThreshold < 0
  · rw [if_pos h1]; simp
  · rw [if_neg h1]
    by_cases h2 : |min d 1 - max c 0| < realThreshold
    · rw [if_pos h2]; simp
    · rw [if_neg h2]; simp

theorem parallel_not_false {u1 u2 v1 v2 : V2}
    (h : ¬ |perpDot (u2 - u1) (v2 - v1)| > realThreshold) (t0 t1 : ℝ) (p : V2) :
    intrLineSeg2LineSeg2 u1 u2 v1 v2 ≠ .falseIntr t0 t1 p := by
  have hc := collinearOverlap_not_false v1 (v2 - v1) (u1 - v1) (u2 - v1) t0 t1 p
  unfold intrLineSeg2LineSeg2
  simp only
  rw [if_neg h]
  generalize collinearOverlap v1 (v2 - v1) (u1 - v1) (u2 - v1) = r at hc
  split_ifs <;> first | exact hc | simp

set_option maxHeartbeats 4000000 in
/-- C38, two lines. At a corner `v1 v2 v3` of two lines the join of their raw offsets appends: no
arc at all if the lines are parallel up to 1e-8; the point where the two raw segments intersect,
if they do; otherwise, if the corner turns away from the side of the offset, the two raw end points
connected by the arc of radius `|offset|` about the original corner; and if it turns to that side,
the two end points connected by a line. -/
theorem C38_line_to_line {offset : ℝ} {v1 v2 v3 : Vertex} {s1 s2 : OffsetSegment}
    (h1 : IsLine v1) (h2 : IsLine v2) (hn1 : ¬ Near (1 / 10 ^ 5) v1.pos v2.pos)
    (hn2 : ¬ Near (1 / 10 ^ 5) v2.pos v3.pos) (hs1 : Offsets offset v1 v2 s1)
    (hs2 : Offsets offset v2 v3 s2) (result : Polyline) :
    ∃ added result', lineToLineJoin s1 s2 (offset < 0) result = .ok result' ∧
      Appends result added result' ∧
      ((|side v1.pos v2.pos v3.pos| ≤ 1 / 10 ^ 8 ∧ ∀ w ∈ added, IsLine w) ∨
       (1 / 10 ^ 8 < |side v1.pos v2.pos v3.pos| ∧ ∃ t0 t1 x,
          lerp s1.v1.pos s1.v2.pos t0 = x ∧ lerp s2.v1.pos s2.v2.pos t1 = x ∧
          (if -(1 / 10 ^ 8) ≤ t0 ∧ t0 ≤ 1 + 1 / 10 ^ 8 ∧ -(1 / 10 ^ 8) ≤ t1 ∧ t1 ≤ 1 + 1 / 10 ^ 8
           then added = [⟨x, 0⟩]
           else if offset * side v1.pos v2.pos v3.pos < 0 then
             ∃ w w', added = [w, w'] ∧ w.pos = s1.v2.pos ∧ w'.pos = s2.v1.pos ∧ IsLine w' ∧
               CircularAbout v2.pos |offset| w w' ∧ offset * w.bulge < 0
           else 0 < offset * side v1.pos v2.pos v3.pos ∧
             added = [⟨s1.v2.pos, 0⟩, s2.v1]))) := by
  obtain ⟨c1, b1, p11, p12⟩ := offsets_line h1 hn1 hs1
  obtain ⟨c2, b2, p21, p22⟩ := offsets_line h2 hn2 hs2
  have ne1 : v1.pos ≠ v2.pos := by rintro h; apply hn1; rw [h]; simp [Near]
  have ne2 : v2.pos ≠ v3.pos := by rintro h; apply hn2; rw [h]; simp [Near]
  have hL1 := distance_pos ne1
  have hL2 := distance_pos ne2
  have z1 : s1.v1.bulgeIsZero := by unfold Vertex.bulgeIsZero; rw [b1]; exact h1
  have z2 : s2.v1.bulgeIsZero := by unfold Vertex.bulgeIsZero; rw [b2]; exact h2
  have l0 : ∀ p : V2, IsLine ⟨p, 0⟩ := fun p => by simp [IsLine]
  unfold lineToLineJoin
  rw [assertP_pos ⟨z1, z2⟩, ok_bind, if_neg (by rw [c1, c2]; simp)]
  have hdir : (s1.v2.pos.x - s1.v1.pos.x) * (s2.v2.pos.y - s2.v1.pos.y) -
      (s1.v2.pos.y - s1.v1.pos.y) * (s2.v2.pos.x - s2.v1.pos.x) = side v1.pos v2.pos v3.pos := by
    rw [p11, p12, p21, p22]; unfold side; ring
  by_cases hS : 1 / 10 ^ 8 < |side v1.pos v2.pos v3.pos|
  · have hS0 : side v1.pos v2.pos v3.pos ≠ 0 := by
      intro h; rw [h, abs_zero] at hS; norm_num at hS
    obtain ⟨t0, t1, x, e0, e1, -, hres⟩ := C18_crossing s1.v1.pos s1.v2.pos s2.v1.pos s2.v2.pos
      (by rw [hdir]; exact hS)
    rw [hres]
    by_cases ht : -(1 / 10 ^ 8) ≤ t0 ∧ t0 ≤ 1 + 1 / 10 ^ 8 ∧ -(1 / 10 ^ 8) ≤ t1 ∧ t1 ≤ 1 + 1 / 10 ^ 8
    · rw [if_pos ht]
      exact ⟨[⟨x, 0⟩], _, rfl, rfl, Or.inr ⟨hS, t0, t1, x, e0, e1, by rw [if_pos ht]⟩⟩
    · rw [if_neg ht]
      simp only
      -- the position of the crossing
      have hx := congrArg V2.x (e0.trans e1.symm)
      have hy := congrArg V2.y (e0.trans e1.symm)
      rw [p11, p12, p21, p22] at hx hy
      simp only [lerp] at hx hy
      have sq1 := distance_sq v1.pos v2.pos
      have sq2 := distance_sq v2.pos v3.pos
      set L1 := distance v1.pos v2.pos with hL1'
      set L2 := distance v2.pos v3.pos with hL2'
      obtain ⟨θ, hθ1, hθ2, hθp, hθn, hcos, hsin⟩ := corner_angle v1.pos v2.pos v3.pos
      rw [← hL1', ← hL2'] at hcos hsin
      set D := (v2.pos.x - v1.pos.x) * (v3.pos.x - v2.pos.x) +
        (v2.pos.y - v1.pos.y) * (v3.pos.y - v2.pos.y) with hD
      set S := side v1.pos v2.pos v3.pos with hSdef
      have hDlt : D < L1 * L2 := by
        have h12 : D ^ 2 + S ^ 2 = (L1 * L2) ^ 2 := by
          rw [mul_pow, sq1, sq2, hD, hSdef]; unfold side dist2; ring
        have : 0 < S ^ 2 := by positivity
        have hpos : 0 < L1 * L2 := by positivity
        nlinarith
      have k0 : (t0 - 1) * S * (L1 * L2) = offset * (D - L1 * L2) * L2 := by
        have hx' : (v2.pos.x - v1.pos.x) * (t0 - 1) * (L1 * L2) =
            offset * (v2.pos.y - v1.pos.y) * L2 - offset * (v3.pos.y - v2.pos.y) * L1 +
            t1 * (v3.pos.x - v2.pos.x) * (L1 * L2) := by
          field_simp at hx; linear_combination hx
        have hy' : (v2.pos.y - v1.pos.y) * (t0 - 1) * (L1 * L2) =
            -(offset * (v2.pos.x - v1.pos.x) * L2) + offset * (v3.pos.x - v2.pos.x) * L1 +
            t1 * (v3.pos.y - v2.pos.y) * (L1 * L2) := by
          field_simp at hy; linear_combination hy
        have : L2 ^ 2 = (v3.pos.x - v2.pos.x) ^ 2 + (v3.pos.y - v2.pos.y) ^ 2 := by
          rw [sq2]; unfold dist2; ring
        rw [hSdef, hD]; unfold side
        linear_combination (v3.pos.y - v2.pos.y) * hx' - (v3.pos.x - v2.pos.x) * hy' +
          offset * L1 * this
      have k1 : t1 * S * (L1 * L2) = offset * (L1 * L2 - D) * L1 := by
        have hx' : (v2.pos.x - v1.pos.x) * (t0 - 1) * (L1 * L2) =
            offset * (v2.pos.y - v1.pos.y) * L2 - offset * (v3.pos.y - v2.pos.y) * L1 +
            t1 * (v3.pos.x - v2.pos.x) * (L1 * L2) := by
          field_simp at hx; linear_combination hx
        have hy' : (v2.pos.y - v1.pos.y) * (t0 - 1) * (L1 * L2) =
            -(offset * (v2.pos.x - v1.pos.x) * L2) + offset * (v3.pos.x - v2.pos.x) * L1 +
            t1 * (v3.pos.y - v2.pos.y) * (L1 * L2) := by
          field_simp at hy; linear_combination hy
        have : L1 ^ 2 = (v2.pos.x - v1.pos.x) ^ 2 + (v2.pos.y - v1.pos.y) ^ 2 := by
          rw [sq1]; unfold dist2; ring
        rw [hSdef, hD]; unfold side
        linear_combination (v2.pos.y - v1.pos.y) * hx' - (v2.pos.x - v1.pos.x) * hy' -
          offset * L2 * this
      have hoff : offset ≠ 0 := by
        rintro rfl
        apply ht
        have a0 : (t0 - 1) * S * (L1 * L2) = 0 := by rw [k0]; ring
        have a1 : t1 * S * (L1 * L2) = 0 := by rw [k1]; ring
        have b0 : t0 - 1 = 0 := by
          rcases mul_eq_zero.mp a0 with h | h
          · exact (mul_eq_zero.mp h).resolve_right hS0
          · exfalso; have : 0 < L1 * L2 := by positivity
            linarith
        have b1 : t1 = 0 := by
          rcases mul_eq_zero.mp a1 with h | h
          · exact (mul_eq_zero.mp h).resolve_right hS0
          · exfalso; have : 0 < L1 * L2 := by positivity
            linarith
        rw [b1, show t0 = 1 by linarith]; norm_num
      have hLL : 0 < L1 * L2 := by positivity
      have hSS : 0 < S ^ 2 := by positivity
      by_cases hneg : offset * S < 0
      · -- arc
        have ht0 : t0 > 1 := by
          have : 0 < (t0 - 1) * (S ^ 2 * (L1 * L2)) := by
            rw [show (t0 - 1) * (S ^ 2 * (L1 * L2)) = (offset * S) * ((D - L1 * L2) * L2) by
              linear_combination S * k0]
            exact mul_pos_of_neg_of_neg hneg (mul_neg_of_neg_of_pos (by linarith) hL2)
          have := pos_of_mul_pos_left this (by positivity)
          linarith
        have ht1 : t1 < 0 := by
          have : t1 * (S ^ 2 * (L1 * L2)) < 0 := by
            rw [show t1 * (S ^ 2 * (L1 * L2)) = (offset * S) * ((L1 * L2 - D) * L1) by
              linear_combination S * k1]
            exact mul_neg_of_neg_of_pos hneg (mul_pos (by linarith) hL1)
          by_contra hc
          push Not at hc
          have : 0 ≤ t1 * (S ^ 2 * (L1 * L2)) := by positivity
          linarith
        rw [if_pos ⟨ht0, Or.inl ht1⟩]
        have hsp : s1.v2.pos ≠ v2.pos := by
          intro h
          rw [p12] at h
          have hx := congrArg V2.x h
          have hy := congrArg V2.y h
          simp only at hx hy
          have u1 : v2.pos.y - v1.pos.y = 0 := by
            have : offset * (v2.pos.y - v1.pos.y) / L1 = 0 := by linarith
            rcases div_eq_zero_iff.mp this with h | h
            · exact (mul_eq_zero.mp h).resolve_left hoff
            · exact absurd h hL1.ne'
          have u2 : v2.pos.x - v1.pos.x = 0 := by
            have : offset * (v2.pos.x - v1.pos.x) / L1 = 0 := by linarith
            rcases div_eq_zero_iff.mp this with h | h
            · exact (mul_eq_zero.mp h).resolve_left hoff
            · exact absurd h hL1.ne'
          apply ne1; ext <;> linarith
        have hrot : s2.v1.pos = rot v2.pos θ s1.v2.pos := by
          have hc' : Real.cos θ = D / (L1 * L2) := by rw [eq_div_iff hLL.ne']; linarith
          have hs' : Real.sin θ = S / (L1 * L2) := by rw [eq_div_iff hLL.ne']; linarith
          have hL1q : L1 ^ 2 = (v2.pos.x - v1.pos.x) ^ 2 + (v2.pos.y - v1.pos.y) ^ 2 := by
            rw [sq1]; unfold dist2; ring
          rw [p21, p12]
          ext
          · simp only [rot, hc', hs', hSdef, hD]; unfold side
            field_simp
            linear_combination -(offset * (v3.pos.y - v2.pos.y)) * hL1q
          · simp only [rot, hc', hs', hSdef, hD]; unfold side
            field_simp
            linear_combination (offset * (v3.pos.x - v2.pos.x)) * hL1q
        have hdist : distance s1.v2.pos v2.pos = |offset| := by
          have hL1q : L1 ^ 2 = (v2.pos.x - v1.pos.x) ^ 2 + (v2.pos.y - v1.pos.y) ^ 2 := by
            rw [sq1]; unfold dist2; ring
          unfold distance
          rw [show dist2 s1.v2.pos v2.pos = offset ^ 2 by
            rw [p12]; simp only [dist2]; field_simp; linear_combination -(offset ^ 2) * hL1q]
          exact Real.sqrt_sq_eq_abs offset
        have hsign : (offset < 0 → 0 < S) ∧ (¬ offset < 0 → S < 0) := by
          constructor
          · intro h; by_contra hc; push Not at hc
            have := mul_nonneg_of_nonpos_of_nonpos h.le hc; linarith
          · intro h; by_contra hc; push Not at hc h
            have := mul_nonneg h hc; linarith
        obtain ⟨hsw, hcirc⟩ := C38_connection_center (ccw := offset < 0) hsp hrot
          (fun h => ⟨(hθp (hsign.1 h)).le, hθ2⟩) (fun h => ⟨hθ1.le, (hθn (hsign.2 h)).le⟩) 0
        rw [hdist] at hcirc
        refine ⟨[⟨s1.v2.pos, bulgeForConnection v2.pos s1.v2.pos s2.v1.pos (offset < 0)⟩,
          ⟨s2.v1.pos, 0⟩], _, rfl, ?_, Or.inr ⟨hS, t0, t1, x, e0, e1, ?_⟩⟩
        · simp only [Appends, connectUsingArc, List.foldl_cons, List.foldl_nil, hs1.orig]
        · rw [if_neg ht, if_pos hneg]
          refine ⟨_, _, rfl, rfl, rfl, l0 _, hcirc, ?_⟩
          simp only
          unfold sweep at hsw
          simp only at hsw
          rcases lt_or_ge offset 0 with ho | ho
          · have : 0 < bulgeForConnection v2.pos s1.v2.pos s2.v1.pos (offset < 0) := by
              rw [← Real.arctan_pos]; linarith [hθp (hsign.1 ho)]
            exact mul_neg_of_neg_of_pos ho this
          · have : bulgeForConnection v2.pos s1.v2.pos s2.v1.pos (offset < 0) < 0 := by
              rw [← Real.arctan_lt_zero]; linarith [hθn (hsign.2 (not_lt.mpr ho))]
            exact mul_neg_of_pos_of_neg (lt_of_le_of_ne ho hoff.symm) this
      · -- line
        have hpos : 0 < offset * S := by
          rcases lt_or_eq_of_le (not_lt.mp hneg) with h | h
          · exact h
          · exact absurd h.symm (mul_ne_zero hoff hS0)
        have ht0 : ¬ t0 > 1 := by
          intro h
          have : (t0 - 1) * (S ^ 2 * (L1 * L2)) < 0 := by
            rw [show (t0 - 1) * (S ^ 2 * (L1 * L2)) = (offset * S) * ((D - L1 * L2) * L2) by
              linear_combination S * k0]
            exact mul_neg_of_pos_of_neg hpos (mul_neg_of_neg_of_pos (by linarith) hL2)
          have h' : 0 < t0 - 1 := by linarith
          have : 0 < (t0 - 1) * (S ^ 2 * (L1 * L2)) := by positivity
          linarith
        rw [if_neg (fun h => ht0 h.1)]
        refine ⟨[⟨s1.v2.pos, 0⟩, s2.v1], _, rfl, rfl, Or.inr ⟨hS, t0, t1, x, e0, e1, ?_⟩⟩
        rw [if_neg ht, if_neg hneg]
        exact ⟨hpos, rfl⟩
  · push Not at hS
    have hln : IsLine s2.v1 := z2
    have hd' : ¬ |perpDot (s1.v2.pos - s1.v1.pos) (s2.v2.pos - s2.v1.pos)| > realThreshold := by
      rw [not_lt]
      have : perpDot (s1.v2.pos - s1.v1.pos) (s2.v2.pos - s2.v1.pos) = side v1.pos v2.pos v3.pos := by
        rw [← hdir]; simp only [perpDot, V2.sub_x, V2.sub_y]
      rw [this]; exact hS
    have hnf : ∀ t0 t1 p, intrLineSeg2LineSeg2 s1.v1.pos s1.v2.pos s2.v1.pos s2.v2.pos ≠
        .falseIntr t0 t1 p := by
      exact parallel_not_false hd'
    cases hr : intrLineSeg2LineSeg2 s1.v1.pos s1.v2.pos s2.v1.pos s2.v2.pos with
    | none =>
      exact ⟨[⟨s1.v2.pos, 0⟩, s2.v1], _, rfl, rfl, Or.inl ⟨hS, by
        intro w hw; simp at hw; rcases hw with rfl | rfl; exacts [l0 _, hln]⟩⟩
    | trueIntr p =>
      exact ⟨[⟨p, 0⟩], _, rfl, rfl, Or.inl ⟨hS, by
        intro w hw; simp at hw; rw [hw]; exact l0 _⟩⟩
    | coincident a b =>
      exact ⟨[⟨s1.v2.pos, 0⟩], _, rfl, rfl, Or.inl ⟨hS, by
        intro w hw; simp at hw; rw [hw]; exact l0 _⟩⟩
    | falseIntr a b p => exact absurd hr (hnf a b p)

/-- The left turn (0,0), (1,0), (1,1), offset by 1/4 to the right: the hypotheses of C38 hold and the
join is the quarter circle of radius 1/4 about (1,0). -/
example : ∃ s1 s2 r' w w', Offsets (-(1 / 4)) ⟨⟨0, 0⟩, 0⟩ ⟨⟨1, 0⟩, 0⟩ s1 ∧
    Offsets (-(1 / 4)) ⟨⟨1, 0⟩, 0⟩ ⟨⟨1, 1⟩, 0⟩ s2 ∧
    lineToLineJoin s1 s2 (-(1 / 4 : ℝ) < 0) ⟨false, [s1.v1]⟩ = .ok r' ∧
    Appends ⟨false, [s1.v1]⟩ [w, w'] r' ∧ CircularAbout ⟨1, 0⟩ (1 / 4) w w' := by
  have hl : ∀ p : V2, IsLine ⟨p, 0⟩ := fun p => by simp [IsLine]
  have hn1 : ¬ Near (1 / 10 ^ 5) (⟨0, 0⟩ : V2) ⟨1, 0⟩ := by rintro ⟨h, -⟩; norm_num at h
  have hn2 : ¬ Near (1 / 10 ^ 5) (⟨1, 0⟩ : V2) ⟨1, 1⟩ := by rintro ⟨-, h⟩; norm_num at h
  obtain ⟨s1, -, h1⟩ := offsetSeg_spec (offset := -(1 / 4)) (v1 := ⟨⟨0, 0⟩, 0⟩) (v2 := ⟨⟨1, 0⟩, 0⟩) hn1
  obtain ⟨s2, -, h2⟩ := offsetSeg_spec (offset := -(1 / 4)) (v1 := ⟨⟨1, 0⟩, 0⟩) (v2 := ⟨⟨1, 1⟩, 0⟩) hn2
  obtain ⟨-, -, p11, p12⟩ := offsets_line (hl _) hn1 h1
  obtain ⟨-, -, p21, p22⟩ := offsets_line (hl _) hn2 h2
  have d1 : distance ⟨0, 0⟩ ⟨1, 0⟩ = 1 := by unfold distance dist2; norm_num
  have d2 : distance ⟨1, 0⟩ ⟨1, 1⟩ = 1 := by unfold distance dist2; norm_num
  simp only [d1, d2] at p11 p12 p21 p22
  have hS : side ⟨0, 0⟩ ⟨1, 0⟩ ⟨1, 1⟩ = 1 := by unfold side; norm_num
  obtain ⟨added, r', hr, ha, h⟩ := C38_line_to_line (hl _) (hl _) hn1 hn2 h1 h2 ⟨false, [s1.v1]⟩
  simp only [hS, abs_one] at h
  rcases h with ⟨h, -⟩ | ⟨-, t0, t1, x, e0, e1, h⟩
  · norm_num at h
  · have ht : t0 = 5 / 4 := by
      have := congrArg V2.x (e0.trans e1.symm)
      rw [p11, p12, p21, p22] at this
      simp only [lerp] at this
      linarith
    rw [if_neg (by rintro ⟨-, h, -⟩; rw [ht] at h; norm_num at h), if_pos (by norm_num)] at h
    obtain ⟨w, w', rfl, -, -, -, hc, -⟩ := h
    refine ⟨s1, s2, r', w, w', h1, h2, hr, ha, ?_⟩
    have : |(-(1 / 4) : ℝ)| = 1 / 4 := by rw [abs_neg, abs_of_pos (by norm_num)]
    rwa [this] at hc

end Cavc

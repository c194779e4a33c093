import Verif.Props.LineLine
import Verif.Props.SegIntr
import Verif.Proofs.IslandDeep
import Verif.Proofs.PathDiam

/-! Segments that are reported to intersect are close to each other, if they are not too small or too large. -/
namespace Cavc
open Spec
open scoped Classical
noncomputable section

/-! ### Lines -/

theorem distance_lerps (a b : V2) (t t' : ℝ) : distance (lerp a b t) (lerp a b t') = |t - t'| * distance a b := by
  unfold distance
  rw [show dist2 (lerp a b t) (lerp a b t') = (t - t') ^ 2 * dist2 a b by simp only [dist2, lerp]; ring,
    Real.sqrt_mul (sq_nonneg _), Real.sqrt_sq_eq_abs]

/-- A point just past an end of a segment is close to the end. -/
theorem clamp_near (a b : V2) {t ε : ℝ} (hε : 0 ≤ ε) (h0 : -ε ≤ t) (h1 : t ≤ 1 + ε) :
    ∃ t', 0 ≤ t' ∧ t' ≤ 1 ∧ distance (lerp a b t) (lerp a b t') ≤ ε * distance a b := by
  have hd := distance_nonneg a b
  rcases le_total t 0 with h | h
  · refine ⟨0, le_rfl, zero_le_one, ?_⟩
    rw [distance_lerps]
    exact mul_le_mul_of_nonneg_right (by rw [sub_zero, abs_of_nonpos h]; linarith) hd
  · rcases le_total t 1 with h' | h'
    · refine ⟨t, h, h', ?_⟩
      rw [distance_lerps, sub_self, abs_zero, zero_mul]
      positivity
    · refine ⟨1, zero_le_one, le_rfl, ?_⟩
      rw [distance_lerps]
      exact mul_le_mul_of_nonneg_right (by rw [abs_of_nonneg (by linarith)]; linarith) hd

/-- Some value between `a` and `b` is at most `h` and at least `l`. -/
theorem between_some {a b l h : ℝ} (hlh : l ≤ h) (h1 : min a b ≤ h) (h2 : l ≤ max a b) :
    ∃ s, 0 ≤ s ∧ s ≤ 1 ∧ l ≤ (1 - s) * a + s * b ∧ (1 - s) * a + s * b ≤ h := by
  by_cases ha : a ≤ h
  · by_cases ha' : l ≤ a
    · exact ⟨0, le_rfl, zero_le_one, by simpa using ha', by simpa using ha⟩
    · push Not at ha'
      have hb : l ≤ b := by
        rcases le_max_iff.1 h2 with q | q
        · linarith
        · exact q
      have hp : 0 < b - a := by linarith
      refine ⟨(l - a) / (b - a), div_nonneg (by linarith) hp.le, (div_le_one hp).2 (by linarith), ?_, ?_⟩
      · have : (1 - (l - a) / (b - a)) * a + (l - a) / (b - a) * b = l := by field_simp; ring
        rw [this]
      · have : (1 - (l - a) / (b - a)) * a + (l - a) / (b - a) * b = l := by field_simp; ring
        rw [this]; exact hlh
  · push Not at ha
    have hb : b ≤ h := by
      rcases min_le_iff.1 h1 with q | q
      · linarith
      · exact q
    have hp : 0 < a - b := by linarith
    have e : (1 - (a - h) / (a - b)) * a + (a - h) / (a - b) * b = h := by field_simp; ring
    refine ⟨(a - h) / (a - b), div_nonneg (by linarith) hp.le, (div_le_one hp).2 (by linarith), ?_, ?_⟩
    · rw [e]; exact hlh
    · rw [e]

/-- A segment that is not too small, for the offset `r`. -/
structure EdgeFits (r : ℝ) (a b : V2) : Prop where
  long : 1 / 10 ≤ distance a b
  short : distance a b ≤ 10 ^ 6 * r
  steep : |b.x - a.x| < 1 / 10 ^ 8 ∨ 1 / 10 ^ 4 ≤ |b.x - a.x|

theorem EdgeFits.tall {r : ℝ} {a b : V2} (h : EdgeFits r a b) (hx : |b.x - a.x| < 1 / 10 ^ 8) : 1 / 20 ≤ |b.y - a.y| := by
  have h1 := h.long
  have h2 := distance_sq a b
  have h3 := distance_nonneg a b
  unfold dist2 at h2
  have h4 : (b.x - a.x) ^ 2 ≤ 1 / 10 ^ 16 := by
    rw [← sq_abs]
    calc |b.x - a.x| ^ 2 ≤ (1 / 10 ^ 8) ^ 2 := by gcongr
      _ = _ := by norm_num
  have h5 : (1 / 20 : ℝ) ^ 2 ≤ (b.y - a.y) ^ 2 := by norm_num at h4 ⊢; nlinarith
  have := Real.sqrt_le_sqrt h5
  rwa [Real.sqrt_sq (by norm_num), Real.sqrt_sq_eq_abs] at this

/-- Two straight segments that are reported to meet come closer than `r`. -/
theorem line_line_close {u w a b : V2} {r : ℝ} (hr : 1 / 100 ≤ r) (hu : distance u w ≤ 10 ^ 6 * r)
    (hf : ¬ Near (1 / 10 ^ 8) u w) (he : EdgeFits r a b) (h1 : intrLineSeg2LineSeg2 u w a b ≠ .none)
    (h2 : ∀ s t x, intrLineSeg2LineSeg2 u w a b ≠ .falseIntr s t x) :
    ∃ s t, 0 ≤ s ∧ s ≤ 1 ∧ 0 ≤ t ∧ t ≤ 1 ∧ distance (lerp u w s) (lerp a b t) < r := by
  have e8 : (0 : ℝ) ≤ 1 / 10 ^ 8 := by norm_num
  have hshort := he.short
  by_cases hx : 1 / 10 ^ 8 < |(w.x - u.x) * (b.y - a.y) - (w.y - u.y) * (b.x - a.x)|
  · obtain ⟨t0, t1, x, e0, e1, -, hres⟩ := C18_crossing u w a b hx
    by_cases hc : -(1 / 10 ^ 8) ≤ t0 ∧ t0 ≤ 1 + 1 / 10 ^ 8 ∧ -(1 / 10 ^ 8) ≤ t1 ∧ t1 ≤ 1 + 1 / 10 ^ 8
    · obtain ⟨s, s0, s1, hs⟩ := clamp_near u w e8 hc.1 hc.2.1
      obtain ⟨t, t0', t1', ht⟩ := clamp_near a b e8 hc.2.2.1 hc.2.2.2
      refine ⟨s, t, s0, s1, t0', t1', ?_⟩
      rw [e0] at hs
      rw [e1] at ht
      have := distance_tri (lerp u w s) x (lerp a b t)
      rw [distance_symm (lerp u w s) x] at this
      norm_num at hs ht hu hshort
      linarith
    · rw [if_neg hc] at hres
      exact absurd hres (h2 _ _ _)
  · rw [parallel_branch hx] at h1
    by_cases hp : |perpDot (w - u) (u - a)| > realThreshold ∨ |perpDot (b - a) (u - a)| > realThreshold
    · rw [if_pos hp] at h1
      exact absurd rfl h1
    rw [if_neg hp] at h1
    push Not at hp
    have hfu : ¬ fuzzyEqualV u w := hf
    have hxs := he.steep
    have hfe : ¬ fuzzyEqualV a b := by
      rintro ⟨q1, q2⟩
      unfold fuzzyEqual realThreshold at q1 q2
      rw [abs_sub_comm] at q1 q2
      have := he.tall q1
      norm_num at q2 this
      linarith
    rw [if_neg (fun q => hfu q.1), if_neg hfu, if_neg hfe, overlap_eq] at h1
    simp only at h1
    have hd := domCoord_ne hfe
    have hdom : 1 / 10 ^ 4 ≤ |domCoord (b - a) (b - a)| := by
      unfold domCoord
      split_ifs with hc
      · have : |b.x - a.x| < 1 / 10 ^ 8 := hc
        have := he.tall this
        simp only [V2.sub_y]
        exact le_trans (by norm_num) this
      · simp only [V2.sub_x]
        rcases hxs with q | q
        · exact absurd q hc
        · exact q
    set t0 := domCoord (b - a) (u - a) / domCoord (b - a) (b - a) with ht0
    set t1 := domCoord (b - a) (w - a) / domCoord (b - a) (b - a) with ht1
    have hn : ¬ (min t0 t1 > 1 + realThreshold ∨ max t0 t1 + realThreshold < 0) := fun q => by
      rw [if_pos q] at h1
      exact h1 rfl
    push Not at hn
    obtain ⟨s, s0, s1, g1, g2⟩ := between_some (a := t0) (b := t1) (l := -(1 / 10 ^ 8)) (h := 1 + 1 / 10 ^ 8) (by norm_num)
      hn.1 (by have := hn.2; unfold realThreshold at this; linarith)
    set τ := (1 - s) * t0 + s * t1 with hτ
    obtain ⟨t, t0', t1', ht⟩ := clamp_near a b e8 g1 g2
    refine ⟨s, t, s0, s1, t0', t1', ?_⟩
    have hτd : τ * domCoord (b - a) (b - a) = (1 - s) * domCoord (b - a) (u - a) + s * domCoord (b - a) (w - a) := by
      rw [hτ, ht0, ht1]; field_simp
    -- the distance across
    have hcr : |(b.x - a.x) * ((lerp u w s).y - (lerp a b τ).y) - (b.y - a.y) * ((lerp u w s).x - (lerp a b τ).x)| ≤
        2 / 10 ^ 8 := by
      have e : (b.x - a.x) * ((lerp u w s).y - (lerp a b τ).y) - (b.y - a.y) * ((lerp u w s).x - (lerp a b τ).x) =
          perpDot (b - a) (u - a) - s * ((w.x - u.x) * (b.y - a.y) - (w.y - u.y) * (b.x - a.x)) := by
        simp only [lerp, perpDot, V2.sub_x, V2.sub_y]; ring
      rw [e]
      have q1 := hp.2
      unfold realThreshold at q1
      have q2 := not_lt.1 hx
      have q3 : |s * ((w.x - u.x) * (b.y - a.y) - (w.y - u.y) * (b.x - a.x))| ≤ 1 / 10 ^ 8 := by
        rw [abs_mul, abs_of_nonneg s0]
        exact (mul_le_of_le_one_left (abs_nonneg _) s1).trans q2
      refine (abs_sub _ _).trans ?_
      calc _ ≤ (1 / 10 ^ 8 : ℝ) + 1 / 10 ^ 8 := add_le_add q1 q3
        _ = _ := by norm_num
    have key : ∀ {D e : ℝ}, 1 / 10 ^ 4 ≤ |D| → |D * e| ≤ 2 / 10 ^ 8 → |e| ≤ 2 / 10 ^ 4 := by
      intro D e hD he
      rw [abs_mul] at he
      have := mul_le_mul_of_nonneg_right hD (abs_nonneg e)
      norm_num at this he ⊢
      linarith
    have hdist : distance (lerp u w s) (lerp a b τ) ≤ 2 / 10 ^ 4 := by
      have hboth : ((lerp u w s).x - (lerp a b τ).x) ^ 2 + ((lerp u w s).y - (lerp a b τ).y) ^ 2 ≤ (2 / 10 ^ 4) ^ 2 := by
        unfold domCoord at hdom hτd
        by_cases hc : |(b - a).x| < realThreshold
        · rw [if_pos hc] at hdom
          simp only [if_pos hc] at hτd
          have e0 : (lerp u w s).y - (lerp a b τ).y = 0 := by
            simp only [V2.sub_y] at hτd
            simp only [lerp]
            linear_combination -hτd
          rw [e0, mul_zero, zero_sub, abs_neg] at hcr
          have := key hdom hcr
          rw [e0, ← sq_abs ((lerp u w s).x - _)]
          have h0 := abs_nonneg ((lerp u w s).x - (lerp a b τ).x)
          nlinarith
        · rw [if_neg hc] at hdom
          simp only [if_neg hc] at hτd
          have e0 : (lerp u w s).x - (lerp a b τ).x = 0 := by
            simp only [V2.sub_x] at hτd
            simp only [lerp]
            linear_combination -hτd
          rw [e0, mul_zero, sub_zero] at hcr
          have := key hdom hcr
          rw [e0, ← sq_abs ((lerp u w s).y - _)]
          have h0 := abs_nonneg ((lerp u w s).y - (lerp a b τ).y)
          nlinarith
      have := Real.sqrt_le_sqrt hboth
      rwa [Real.sqrt_sq (by norm_num)] at this
    have := distance_tri (lerp u w s) (lerp a b τ) (lerp a b t)
    norm_num at ht hu hshort hdist
    linarith

/-! ### Arcs -/

set_option maxHeartbeats 1000000 in
/-- `P` just outside of the sector from `U` to `W`, on the side of `U`. -/
theorem sector_out {a b c d x y R : ℝ} (hR : 1 / 10 ^ 4 ≤ R) (hU : a ^ 2 + b ^ 2 = R) (hW : c ^ 2 + d ^ 2 = R)
    (hP : |x ^ 2 + y ^ 2 - R| ≤ 1 / 400 * R) (h1 : -(1 / 10 ^ 8) < a * y - b * x) (h2 : a * y - b * x < 0)
    (h3 : c * y - d * x < 1 / 10 ^ 8) (hZ : 0 ≤ a * d - b * c) (hch : 1 / 10 ^ 10 ≤ (a - c) ^ 2 + (b - d) ^ 2) :
    (x - a) ^ 2 + (y - b) ^ 2 ≤ R / 4 ∨ (x - c) ^ 2 + (y - d) ^ 2 ≤ R / 4 := by
  obtain ⟨p1, p2⟩ := abs_le.1 hP
  have hR0 : 0 < R := lt_of_lt_of_le (by norm_num) hR
  obtain ⟨X, hX⟩ : ∃ X, X = a * y - b * x := ⟨_, rfl⟩
  obtain ⟨Y, hY⟩ : ∃ Y, Y = a * x + b * y := ⟨_, rfl⟩
  obtain ⟨Z, hZe⟩ : ∃ Z, Z = a * d - b * c := ⟨_, rfl⟩
  obtain ⟨T, hT⟩ : ∃ T, T = a * c + b * d := ⟨_, rfl⟩
  obtain ⟨V, hV⟩ : ∃ V, V = c * y - d * x := ⟨_, rfl⟩
  obtain ⟨G, hG⟩ : ∃ G, G = c * x + d * y := ⟨_, rfl⟩
  obtain ⟨S, hS⟩ : ∃ S, S = x ^ 2 + y ^ 2 := ⟨_, rfl⟩
  have i1 : X ^ 2 + Y ^ 2 = R * S := by rw [hX, hY, hS, ← hU]; ring
  have i2 : Z ^ 2 + T ^ 2 = R * R := by
    rw [hZe, hT]
    linear_combination (c ^ 2 + d ^ 2) * hU + R * hW
  have i3 : R * V = T * X - Z * Y := by rw [hX, hY, hT, hZe, hV, ← hU]; ring
  have i4 : R * G = T * Y + Z * X := by rw [hX, hY, hT, hZe, hG, ← hU]; ring
  have i5 : (a - c) ^ 2 + (b - d) ^ 2 = 2 * (R - T) := by rw [hT]; linear_combination hU + hW
  have g1 : (x - a) ^ 2 + (y - b) ^ 2 = S + R - 2 * Y := by rw [hS, hY, ← hU]; ring
  have g2 : (x - c) ^ 2 + (y - d) ^ 2 = S + R - 2 * G := by rw [hS, hG, ← hW]; ring
  rw [← hX] at h1 h2
  rw [← hV] at h3
  rw [← hZe] at hZ
  rw [← hS] at p1 p2
  rw [i5] at hch
  rw [g1, g2]
  clear hX hY hZe hT hV hG hS hU hW i5 g1 g2 hP
  have hε : (1 / 10 ^ 8 : ℝ) ≤ 1 / 10 ^ 4 * R := by norm_num at hR ⊢; linarith
  have hX2 : X ^ 2 ≤ (1 / 10 ^ 4 * R) ^ 2 := by nlinarith
  have hYsq : (99 / 100 * R) ^ 2 ≤ Y ^ 2 := by norm_num at hX2 ⊢; nlinarith
  by_cases hYp : 0 < Y
  · left
    have : 99 / 100 * R ≤ Y := by
      by_contra hc
      push Not at hc
      nlinarith
    linarith
  · push Not at hYp
    have hYn : Y ≤ -(99 / 100 * R) := by
      by_contra hc
      push Not at hc
      nlinarith
    have hTR : T ≤ R ∧ -R ≤ T := by
      constructor
      · by_contra hc; push Not at hc; nlinarith [sq_nonneg Z]
      · by_contra hc; push Not at hc; nlinarith [sq_nonneg Z]
    have hTX : -(R * (1 / 10 ^ 8)) ≤ T * X := by nlinarith
    have hZY : 99 / 100 * R * Z ≤ -(Z * Y) := by nlinarith
    have hZ' : Z ≤ 21 / 10 * (1 / 10 ^ 8) := by
      by_contra hc
      push Not at hc
      have q1 : 99 / 100 * R * (21 / 10 * (1 / 10 ^ 8)) < 99 / 100 * R * Z := by
        apply mul_lt_mul_of_pos_left hc; positivity
      have q2 : R * V < R * (1 / 10 ^ 8) := mul_lt_mul_of_pos_left h3 hR0
      norm_num at q1 q2 hTX
      nlinarith
    by_cases hTp : 0 ≤ T
    · exfalso
      have q1 : (R - T) * R ≤ Z ^ 2 := by nlinarith
      have q2 : (1 / 2 * (1 / 10 ^ 10)) * (1 / 10 ^ 4) ≤ (R - T) * R := by
        apply mul_le_mul _ hR (by norm_num) (by linarith [hTR.1])
        norm_num at hch ⊢; linarith
      have q3 : Z ^ 2 ≤ (21 / 10 * (1 / 10 ^ 8)) ^ 2 := by
        apply pow_le_pow_left₀ hZ hZ'
      norm_num at q2 q3
      linarith
    · push Not at hTp
      right
      have q3 : Z ^ 2 ≤ (21 / 10 * (1 / 10 ^ 4) * R) ^ 2 := by
        apply pow_le_pow_left₀ hZ
        norm_num at hZ' hε ⊢
        linarith
      have hT' : T ≤ -(99 / 100 * R) := by
        by_contra hc
        push Not at hc
        have q : (-T) ^ 2 ≤ (99 / 100 * R) ^ 2 := pow_le_pow_left₀ (by linarith) (by linarith) 2
        have hRR : 0 < R * R := mul_pos hR0 hR0
        clear i1 i3 i4 h1 h2 h3 hX2 hYsq hTX hZY hZ' hch
        norm_num [mul_pow] at q3
        rw [neg_sq, mul_pow] at q
        norm_num at q
        nlinarith
      have q4 : 99 / 100 * R * (99 / 100 * R) ≤ T * Y := by
        have := mul_le_mul (neg_le_neg hT') (neg_le_neg hYn) (by linarith) (by linarith)
        simpa using this
      have q5 : -(1 / 100 * R * R) ≤ Z * X := by
        have : Z ≤ 1 / 10 * R := by norm_num at hZ' hε ⊢; linarith
        have : -(1 / 10 * R) ≤ X := by norm_num at h1 hε ⊢; linarith
        have : Z * -X ≤ 1 / 10 * R * (1 / 10 * R) := by
          apply mul_le_mul <;> linarith
        linarith
      have q6 : 97 / 100 * R ≤ G := by
        by_contra hc
        push Not at hc
        have := mul_lt_mul_of_pos_left hc hR0
        have hRR : 0 < R * R := mul_pos hR0 hR0
        linarith
      linarith

/-- The ends of an arc of at most a half circle turn to the side of its bulge. -/
theorem ends_turn {u w : Vertex} {c : V2} (hc : IsCenter u w c) (hb : |u.bulge| ≤ 1) :
    (0 < u.bulge → 0 ≤ (u.pos.x - c.x) * (w.pos.y - c.y) - (u.pos.y - c.y) * (w.pos.x - c.x)) ∧
    (u.bulge < 0 → (u.pos.x - c.x) * (w.pos.y - c.y) - (u.pos.y - c.y) * (w.pos.x - c.x) ≤ 0) := by
  have hs : rot c (sweep u) u.pos = w.pos := hc
  have e1 := congrArg V2.x hs
  have e2 := congrArg V2.y hs
  simp only [rot] at e1 e2
  have e : (u.pos.x - c.x) * (w.pos.y - c.y) - (u.pos.y - c.y) * (w.pos.x - c.x) =
      Real.sin (sweep u) * dist2 u.pos c := by
    rw [← e1, ← e2]; unfold dist2; ring
  obtain ⟨b1, b2⟩ := abs_le.1 hb
  have h1 := Real.arctan_mono b1
  have h2 := Real.arctan_mono b2
  rw [Real.arctan_neg, Real.arctan_one] at h1
  rw [Real.arctan_one] at h2
  have hd : 0 ≤ dist2 u.pos c := by unfold dist2; positivity
  rw [e]
  constructor
  · intro h
    have := Real.arctan_pos.2 h
    refine mul_nonneg (Real.sin_nonneg_of_nonneg_of_le_pi ?_ ?_) hd <;> unfold sweep <;> linarith
  · intro h
    have := Real.arctan_lt_zero.2 h
    refine mul_nonpos_of_nonpos_of_nonneg (Real.sin_nonpos_of_nonpos_of_neg_pi_le ?_ ?_) hd <;> unfold sweep <;> linarith

/-- A point in the sector of an arc, or just outside, and close to its circle, is close to the arc. -/
theorem arc_close {u w : Vertex} {c x : V2} {r : ℝ} (hr : 1 / 100 ≤ r) (hl : ¬ IsLine u) (hok : SegOk u w)
    (hc : IsCenter u w c) (hu : dist2 u.pos c = r ^ 2) (hf : ¬ Near (1 / 10 ^ 5) u.pos w.pos)
    (hx : InSweep (1 / 10 ^ 8) u w c x) (hd : |dist2 x c - r ^ 2| ≤ 1 / 400 * r ^ 2) :
    ∃ q, OnSeg u w q ∧ distance x q ≤ r / 2 := by
  have hr0 : 0 < r := lt_of_lt_of_le (by norm_num) hr
  have ha := hok.arcOk hl
  have hce := isCenter_unique ha.b_ne hc
  have hR : (1 / 10 ^ 4 : ℝ) ≤ r ^ 2 := by norm_num at hr ⊢; nlinarith
  have hw : dist2 w.pos c = r ^ 2 := by rw [← show rot c (sweep u) u.pos = w.pos from hc, dist2_rot, hu]
  have hfar : 1 / 10 ^ 10 ≤ ((u.pos.x - c.x) - (w.pos.x - c.x)) ^ 2 + ((u.pos.y - c.y) - (w.pos.y - c.y)) ^ 2 := by
    have k : ∀ z : ℝ, 1 / 10 ^ 5 ≤ |z| → 1 / 10 ^ 10 ≤ z ^ 2 := by
      intro z hz
      rw [← sq_abs]
      calc (1 / 10 ^ 10 : ℝ) = (1 / 10 ^ 5) ^ 2 := by norm_num
        _ ≤ |z| ^ 2 := by gcongr
    rw [sub_sub_sub_cancel_right, sub_sub_sub_cancel_right]
    by_cases hxx : |u.pos.x - w.pos.x| < 1 / 10 ^ 5
    · have := k _ (not_lt.1 fun q => hf ⟨hxx, q⟩)
      linarith [sq_nonneg (u.pos.x - w.pos.x)]
    · have := k _ (not_lt.1 hxx)
      linarith [sq_nonneg (u.pos.y - w.pos.y)]
  obtain ⟨t1, t2⟩ := ends_turn hc hok.half
  have fin : ∀ q : V2, (x.x - c.x - (q.x - c.x)) ^ 2 + (x.y - c.y - (q.y - c.y)) ^ 2 ≤ r ^ 2 / 4 → distance x q ≤ r / 2 := by
    intro q hq
    refine Real.sqrt_le_iff.2 ⟨by linarith, ?_⟩
    unfold dist2
    rw [sub_sub_sub_cancel_right, sub_sub_sub_cancel_right] at hq
    linarith
  have ends : ((x.x - c.x - (u.pos.x - c.x)) ^ 2 + (x.y - c.y - (u.pos.y - c.y)) ^ 2 ≤ r ^ 2 / 4 ∨
      (x.x - c.x - (w.pos.x - c.x)) ^ 2 + (x.y - c.y - (w.pos.y - c.y)) ^ 2 ≤ r ^ 2 / 4) →
      ∃ q, OnSeg u w q ∧ distance x q ≤ r / 2 := by
    rintro (h | h)
    · exact ⟨_, onSeg_start u w, fin _ h⟩
    · exact ⟨_, onSeg_end u w, fin _ h⟩
  -- the projection
  have proj : InSector u w x → ∃ q, OnSeg u w q ∧ distance x q ≤ r / 2 := by
    intro hs
    have hp := distance_sq x c
    have hp0 := distance_nonneg x c
    obtain ⟨d1, d2⟩ := abs_le.1 hd
    have hpos : 99 / 100 * r ≤ distance x c := by
      by_contra hcon
      push Not at hcon
      nlinarith
    have hpos' : distance x c ≤ 101 / 100 * r := by
      by_contra hcon
      push Not at hcon
      nlinarith
    have hdp : 0 < distance x c := by linarith
    obtain ⟨k, hk⟩ : ∃ k, k = r / distance x c := ⟨_, rfl⟩
    have hkp : 0 < k := by rw [hk]; positivity
    have hkr : k * distance x c = r := by rw [hk]; field_simp
    refine ⟨lerp c x k, (onSeg_iff_circle ha hok.half _).2 ⟨?_, ?_⟩, ?_⟩
    · unfold OnCircle
      rw [distance_sq, ← hce, hu]
      have : dist2 (lerp c x k) c = k ^ 2 * dist2 x c := by simp only [dist2, lerp]; ring
      rw [this, ← hp, ← hkr]; ring
    · unfold InSector at hs ⊢
      rw [← hce] at hs ⊢
      have e : ∀ z : V2, cross c z (lerp c x k) = k * cross c z x := by
        intro z; simp only [cross, lerp]; ring
      rw [e, e]
      rcases hs with ⟨q1, q2, q3⟩ | ⟨q1, q2, q3⟩
      · exact Or.inl ⟨q1, mul_nonneg hkp.le q2, mul_nonpos_of_nonneg_of_nonpos hkp.le q3⟩
      · exact Or.inr ⟨q1, mul_nonpos_of_nonneg_of_nonpos hkp.le q2, mul_nonneg hkp.le q3⟩
    · have e1 : x = lerp c x 1 := by ext <;> simp [lerp]
      have e2 : distance x (lerp c x k) = |1 - k| * distance c x := by
        conv_lhs => rw [e1]
        rw [show lerp c (lerp c x 1) k = lerp c x k by rw [← e1]]
        exact distance_lerps c x 1 k
      rw [e2, distance_symm c x, ← abs_of_pos hdp, ← abs_mul, abs_le]
      constructor <;> nlinarith
  have hside : ∀ a b : V2, side c a b = (a.x - c.x) * (b.y - c.y) - (a.y - c.y) * (b.x - c.x) := fun a b => rfl
  have hcross : ∀ a b : V2, cross c a b = (a.x - c.x) * (b.y - c.y) - (a.y - c.y) * (b.x - c.x) := fun a b => by
    simp only [cross]
  unfold InSweep at hx
  simp only [hside] at hx
  unfold InSector at proj
  simp only [← hce, hcross] at proj
  unfold dist2 at hu hw hd
  generalize u.pos.x - c.x = a at *
  generalize u.pos.y - c.y = b at *
  generalize w.pos.x - c.x = a' at *
  generalize w.pos.y - c.y = b' at *
  generalize x.x - c.x = p at *
  generalize x.y - c.y = q at *
  rcases hx with ⟨hb, h1, h2⟩ | ⟨hb, h1, h2⟩
  · have hZ := t1 hb
    by_cases c1 : a * q - b * p < 0
    · exact ends (sector_out hR hu hw hd h1 c1 h2 hZ hfar)
    · by_cases c2 : 0 < a' * q - b' * p
      · have := sector_out (a := a') (b := -b') (c := a) (d := -b) (x := p) (y := -q) hR (by rw [neg_sq]; exact hw)
          (by rw [neg_sq]; exact hu) (by rw [neg_sq]; exact hd) (by linarith) (by linarith) (by linarith) (by linarith)
          (by nlinarith)
        refine ends (this.symm.imp (fun h => ?_) fun h => ?_)
        · nlinarith
        · nlinarith
      · exact proj (Or.inl ⟨hb, by linarith, by linarith⟩)
  · have hZ := t2 hb
    by_cases c1 : 0 < a * q - b * p
    · have := sector_out (a := a) (b := -b) (c := a') (d := -b') (x := p) (y := -q) hR (by rw [neg_sq]; exact hu)
          (by rw [neg_sq]; exact hw) (by rw [neg_sq]; exact hd) (by linarith) (by linarith) (by linarith) (by linarith)
          (by nlinarith)
      refine ends (this.imp (fun h => ?_) fun h => ?_)
      · nlinarith
      · nlinarith
    · by_cases c2 : a' * q - b' * p < 0
      · have := sector_out (a := a') (b := b') (c := a) (d := b) (x := p) (y := q) hR hw hu hd h2 c2 h1 (by linarith)
          (by nlinarith)
        exact ends this.symm
      · exact proj (Or.inr ⟨hb, by linarith, by linarith⟩)

end
end Cavc

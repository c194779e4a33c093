import Verif.Props.SegIntr
import Verif.Props.MathUtils
import Verif.Proofs.Semi

/-! C50: intersects of two arcs of the same circle. -/
namespace Cavc
open Spec
open scoped Classical

/-- `x` is in `[lo, lo + ℓ + 1e-8)` up to full turns. -/
def InArc (lo ℓ x : ℝ) : Prop := ∃ k : ℤ, lo ≤ x + k * tau ∧ x + k * tau < lo + ℓ + 1 / 10 ^ 8

/-- `x` is within 1e-8 of `[lo, lo + ℓ]` up to full turns. -/
def NearIv (lo ℓ x : ℝ) : Prop :=
  ∃ k : ℤ, lo - 1 / 10 ^ 8 ≤ x + k * tau ∧ x + k * tau ≤ lo + ℓ + 1 / 10 ^ 8

theorem InArc.near {lo ℓ x : ℝ} (h : InArc lo ℓ x) : NearIv lo ℓ x := by
  obtain ⟨k, a, b⟩ := h
  have e8 : (0 : ℝ) < 1 / 10 ^ 8 := by norm_num
  exact ⟨k, by linarith, by linarith⟩

theorem within_ccw {s w x : ℝ} (h0 : 0 ≤ w) (h1 : w ≤ Real.pi) (hne : x - s ≠ 2 * Real.pi) :
    angleIsWithinSweep s w x ↔ InArc s w x := by
  have hp := Real.pi_pos
  have hp3 := Real.pi_gt_three
  have e8 : (1 : ℝ) / 10 ^ 8 < 1 := by norm_num
  have := C08_sweep_ccw s w x realThreshold h0 (by linarith) hne
  rw [this]
  unfold InArc tau realThreshold
  constructor
  · rintro ⟨t, a, b, c, k, hk⟩
    exact ⟨-k, by push_cast; linarith, by push_cast; linarith⟩
  · rintro ⟨k, a, b⟩
    exact ⟨x + k * (2 * Real.pi) - s, by linarith, by linarith, by linarith, -k, by push_cast; ring⟩

theorem within_cw {s w x : ℝ} (h0 : w < 0) (h1 : -w ≤ Real.pi) (hne : x - (s + w) ≠ 2 * Real.pi) :
    angleIsWithinSweep s w x ↔ InArc (s + w) (-w) x := by
  have hp := Real.pi_pos
  have hp3 := Real.pi_gt_three
  have e8 : (1 : ℝ) / 10 ^ 8 < 1 := by norm_num
  have := C08_sweep_cw s w x realThreshold h0 (by linarith) hne
  rw [this]
  unfold InArc tau realThreshold
  constructor
  · rintro ⟨t, a, b, c, k, hk⟩
    exact ⟨-k, by push_cast; linarith, by push_cast; linarith⟩
  · rintro ⟨k, a, b⟩
    exact ⟨x + k * (2 * Real.pi) - (s + w), by linarith, by linarith, by linarith, -k,
      by push_cast; ring⟩

/-- Shifting the first interval by full turns. -/
theorem InArc.shift {lo ℓ x : ℝ} (k : ℤ) : InArc (lo + k * tau) ℓ x ↔ InArc lo ℓ x := by
  constructor
  · rintro ⟨j, a, b⟩; exact ⟨j - k, by push_cast; linarith, by push_cast; linarith⟩
  · rintro ⟨j, a, b⟩; exact ⟨j + k, by push_cast; linarith, by push_cast; linarith⟩

theorem NearIv.shift {lo ℓ x : ℝ} (k : ℤ) : NearIv (lo + k * tau) ℓ x ↔ NearIv lo ℓ x := by
  constructor
  · rintro ⟨j, a, b⟩; exact ⟨j - k, by push_cast; linarith, by push_cast; linarith⟩
  · rintro ⟨j, a, b⟩; exact ⟨j + k, by push_cast; linarith, by push_cast; linarith⟩

theorem near_hi1 {a ℓ b m : ℝ} (hm : 0 ≤ m) (h1 : InArc a ℓ b) (h2 : ¬ InArc a ℓ (b + m)) :
    NearIv b m (a + ℓ) := by
  obtain ⟨k, h3, h4⟩ := h1
  have e8 : (0 : ℝ) < 1 / 10 ^ 8 := by norm_num
  have : a + ℓ + 1 / 10 ^ 8 ≤ b + m + k * tau := by
    by_contra h
    exact h2 ⟨k, by linarith, by linarith⟩
  exact ⟨-k, by push_cast; linarith, by push_cast; linarith⟩

theorem near_lo1 {a ℓ b m : ℝ} (hm : 0 ≤ m) (h1 : InArc a ℓ (b + m)) (h2 : ¬ InArc a ℓ b) :
    NearIv b m a := by
  obtain ⟨k, h3, h4⟩ := h1
  have e8 : (0 : ℝ) < 1 / 10 ^ 8 := by norm_num
  have : b + k * tau < a := by
    by_contra h
    exact h2 ⟨k, by linarith, by linarith⟩
  exact ⟨-k, by push_cast; linarith, by push_cast; linarith⟩

theorem near_hi1' {a ℓ b m : ℝ} (hl : 0 ≤ ℓ) (h1 : InArc b m a)
    (h2 : ¬ InArc a ℓ (b + m)) (ht : ∀ k : ℤ, 1 / 10 ^ 8 ≤ |b + m - a + k * tau|) :
    NearIv b m (a + ℓ) := by
  obtain ⟨k, h3, h4⟩ := h1
  have e8 : (0 : ℝ) < 1 / 10 ^ 8 := by norm_num
  refine ⟨k, by linarith, ?_⟩
  by_contra h
  have h5 : a ≤ b + m - k * tau := by
    by_contra h'
    have := ht (-k)
    push_cast at this
    rw [le_abs] at this
    rcases this with h | h <;> linarith
  exact h2 ⟨-k, by push_cast; linarith, by push_cast; linarith⟩

theorem near_lo1' {a ℓ b m : ℝ} (hl : 1 / 10 ^ 8 ≤ ℓ) (h1 : InArc b m (a + ℓ))
    (h2 : ¬ InArc a ℓ b) : NearIv b m a := by
  obtain ⟨k, h4, h5⟩ := h1
  have e8 : (0 : ℝ) < 1 / 10 ^ 8 := by norm_num
  have h6 : b - k * tau < a := by
    by_contra h
    exact h2 ⟨-k, by push_cast; linarith, by push_cast; linarith⟩
  have h7 : a - 1 / 10 ^ 8 ≤ b + m - k * tau := by linarith
  refine ⟨k, by linarith, by linarith⟩

/-- Two arcs with a common point: the start of one is in the other. -/
theorem common_lo {a ℓ b m x : ℝ} {j k : ℤ} (h1 : a ≤ x + j * tau) (h2 : x + j * tau ≤ a + ℓ)
    (h3 : b ≤ x + k * tau) (h4 : x + k * tau ≤ b + m) : InArc a ℓ b ∨ InArc b m a := by
  have e8 : (0 : ℝ) < 1 / 10 ^ 8 := by norm_num
  rcases le_total (a - j * tau) (b - k * tau) with h | h
  · exact Or.inl ⟨j - k, by push_cast; linarith, by push_cast; linarith⟩
  · exact Or.inr ⟨k - j, by push_cast; linarith, by push_cast; linarith⟩

theorem common_hi {a ℓ b m x : ℝ} {j k : ℤ} (h1 : a ≤ x + j * tau) (h2 : x + j * tau ≤ a + ℓ)
    (h3 : b ≤ x + k * tau) (h4 : x + k * tau ≤ b + m) :
    InArc a ℓ (b + m) ∨ InArc b m (a + ℓ) := by
  have e8 : (0 : ℝ) < 1 / 10 ^ 8 := by norm_num
  rcases le_total (a + ℓ - j * tau) (b + m - k * tau) with h | h
  · exact Or.inr ⟨k - j, by push_cast; linarith, by push_cast; linarith⟩
  · exact Or.inl ⟨j - k, by push_cast; linarith, by push_cast; linarith⟩

theorem touch_iff (a b : ℝ) : |deltaAngle a b| < realThreshold ↔
    ∃ k : ℤ, |b - a + k * tau| < 1 / 10 ^ 8 := by
  constructor
  · intro h
    obtain ⟨-, -, k, hk⟩ := deltaAngle_spec a b
    exact ⟨k, by rw [← hk]; exact h⟩
  · rintro ⟨k, hk⟩
    have hp3 := Real.pi_gt_three
    have e8 : (1 : ℝ) / 10 ^ 8 < 1 := by norm_num
    have hk' := hk
    rw [abs_lt] at hk
    rw [deltaAngle_eq (θ := b - a + k * tau) (by linarith) (by linarith)
      ⟨-k, by push_cast; ring⟩]
    exact hk'

/-- Point at angle `α` of a circle. -/
noncomputable def circlePt (c : V2) (r α : ℝ) : V2 :=
  ⟨c.x + r * Real.cos α, c.y + r * Real.sin α⟩

theorem circlePt_turn (c : V2) (r α : ℝ) (k : ℤ) : circlePt c r (α + k * tau) = circlePt c r α := by
  unfold circlePt tau
  rw [Real.cos_add_int_mul_two_pi, Real.sin_add_int_mul_two_pi]

theorem rot_circlePt (c : V2) (r α η : ℝ) : rot c η (circlePt c r α) = circlePt c r (α + η) := by
  unfold rot circlePt
  ext
  · simp only [Real.cos_add]; ring
  · simp only [Real.sin_add]; ring

theorem circlePt_inj {c : V2} {r α β : ℝ} (hr : r ≠ 0) (h : circlePt c r α = circlePt c r β) :
    ∃ k : ℤ, α = β + k * tau := by
  have hx := congrArg V2.x h
  have hy := congrArg V2.y h
  simp only [circlePt, add_right_inj] at hx hy
  exact angle_eq_mod (mul_left_cancel₀ hr hx) (mul_left_cancel₀ hr hy)

/-- The start of an arc at its normalised angle. -/
theorem start_circlePt (c p : V2) :
    circlePt c (distance p c) (normalizeRadians (angle c p)) = p ∧
      0 ≤ normalizeRadians (angle c p) ∧ normalizeRadians (angle c p) < 2 * Real.pi := by
  obtain ⟨h0, h1, k, hk⟩ := normalizeRadians_spec (angle c p)
  refine ⟨?_, h0, ?_⟩
  · rw [hk, circlePt_turn]; exact (polar c p).symm
  · rcases h1 with h1 | h1
    · exact h1
    · have : angle c p ≤ Real.pi := Complex.arg_le_pi _
      have := Real.pi_pos
      unfold tau at h1
      linarith [h1.1]

theorem nearArc_of {v1 v2 : Vertex} {c : V2} {r s : ℝ} (hl : ¬ IsLine v1) (hc : IsCenter v1 v2 c)
    (h1 : circlePt c r s = v1.pos) {x t : ℝ} {k : ℤ} (t0 : 0 ≤ t) (t1 : t ≤ 1)
    (hn : |x + k * tau - (s + t * sweep v1)| ≤ 1 / 10 ^ 8) : NearArc v1 v2 c (circlePt c r x) := by
  refine ⟨circlePt c r (s + t * sweep v1), x + k * tau - (s + t * sweep v1), ?_, hn, ?_⟩
  · refine ⟨t, t0, t1, Or.inr ⟨hl, c, hc, ?_⟩⟩
    rw [← h1, rot_circlePt]
  · rw [rot_circlePt, ← circlePt_turn c r x k]
    congr 1; ring

theorem nearArc_ccw {v1 v2 : Vertex} {c : V2} {r s : ℝ} (hl : ¬ IsLine v1) (hc : IsCenter v1 v2 c)
    (h1 : circlePt c r s = v1.pos) (hb : 0 < sweep v1) {x : ℝ} (hn : NearIv s (sweep v1) x) :
    NearArc v1 v2 c (circlePt c r x) := by
  obtain ⟨k, a, b⟩ := hn
  have e8 : (0 : ℝ) < 1 / 10 ^ 8 := by norm_num
  rcases le_total (x + k * tau) s with h | h
  · exact nearArc_of hl hc h1 (k := k) (le_refl 0) zero_le_one
      (by rw [abs_le]; constructor <;> linarith)
  · rcases le_total (x + k * tau) (s + sweep v1) with h' | h'
    · refine nearArc_of hl hc h1 (k := k) (t := (x + k * tau - s) / sweep v1)
        (div_nonneg (by linarith) hb.le) ((div_le_one hb).mpr (by linarith)) ?_
      rw [div_mul_cancel₀ _ hb.ne', abs_le]; constructor <;> linarith
    · exact nearArc_of hl hc h1 (k := k) zero_le_one (le_refl 1)
        (by rw [abs_le]; constructor <;> linarith)

theorem nearArc_cw {v1 v2 : Vertex} {c : V2} {r s : ℝ} (hl : ¬ IsLine v1) (hc : IsCenter v1 v2 c)
    (h1 : circlePt c r s = v1.pos) (hb : sweep v1 < 0) {x : ℝ}
    (hn : NearIv (s + sweep v1) (-sweep v1) x) : NearArc v1 v2 c (circlePt c r x) := by
  obtain ⟨k, a, b⟩ := hn
  have e8 : (0 : ℝ) < 1 / 10 ^ 8 := by norm_num
  rcases le_total s (x + k * tau) with h | h
  · exact nearArc_of hl hc h1 (k := k) (le_refl 0) zero_le_one
      (by rw [abs_le]; constructor <;> linarith)
  · rcases le_total (s + sweep v1) (x + k * tau) with h' | h'
    · refine nearArc_of hl hc h1 (k := k) (t := (x + k * tau - s) / sweep v1)
        (div_nonneg_of_nonpos (by linarith) hb.le) ((div_le_one_of_neg hb).mpr (by linarith)) ?_
      rw [div_mul_cancel₀ _ hb.ne, abs_le]; constructor <;> linarith
    · exact nearArc_of hl hc h1 (k := k) zero_le_one (le_refl 1)
        (by rw [abs_le]; constructor <;> linarith)

theorem nearArc_onSeg {v1 v2 : Vertex} {c p : V2} (h : OnSeg v1 v2 p) : NearArc v1 v2 c p := by
  refine ⟨p, 0, h, by norm_num, by rw [rot_zero]⟩

/-- An arc is longer than the tolerances. -/
theorem sweep_ge {v : Vertex} (h : ¬ IsLine v) : 1 / 10 ^ 8 ≤ |sweep v| := by
  unfold IsLine at h
  push Not at h
  have h3 : |sweep v| = 4 * Real.arctan |v.bulge| := by
    unfold sweep
    rw [abs_mul, abs_of_pos (by norm_num : (0:ℝ) < 4)]
    congr 1
    rcases le_total 0 v.bulge with h | h
    · rw [abs_of_nonneg h, abs_of_nonneg (by simpa using h)]
    · rw [abs_of_nonpos h, Real.arctan_neg, abs_of_nonpos (by simpa using h)]
  rw [h3]
  by_contra hlt
  push Not at hlt
  set θ := Real.arctan |v.bulge| with hθ
  have h0 : 0 ≤ θ := by rw [hθ]; simp
  have hb : |v.bulge| = Real.sin θ / Real.cos θ := by
    rw [← Real.tan_eq_sin_div_cos, hθ, Real.tan_arctan]
  have hs := Real.sin_le h0
  have hc := Real.one_sub_sq_div_two_le_cos (x := θ)
  have hc' : (1 : ℝ) / 2 ≤ Real.cos θ := by norm_num at hlt; nlinarith
  rw [hb, le_div_iff₀ (by linarith)] at h
  norm_num at h hlt
  linarith

/-- C50, two arcs of the same circle and of the same direction. The call does not fault; every
reported point is on both arcs, or at most 1e-8 radians past the end of one of them; and if the arcs
have a common point, a point is reported. -/
theorem C50_same_circle {v1 v2 u1 u2 : Vertex} (hvl : ¬ IsLine v1) (hul : ¬ IsLine u1)
    (hv : SegOk v1 v2) (hu : SegOk u1 u2) {c : V2} (hc : IsCenter v1 v2 c) (hd : IsCenter u1 u2 c)
    (hr : distance v1.pos c = distance u1.pos c) (hdir : 0 < v1.bulge ↔ 0 < u1.bulge) :
    ∃ res, intrPlineSegs v1 v2 u1 u2 = .ok res ∧
      (∀ p, Reports res p → NearArc v1 v2 c p ∧ NearArc u1 u2 c p) ∧
      (∀ x, OnSeg v1 v2 x → OnSeg u1 u2 x → ∃ p, Reports res p) := by
  have hva := hv.arcOk hvl
  have hua := hu.arcOk hul
  have e1 := isCenter_unique hva.b_ne hc
  have e2 := isCenter_unique hua.b_ne hd
  have hrun : intrPlineSegs v1 v2 u1 u2 =
      .ok (coincidentArcs v1 v2 u1 u2 (arcOf v1 v2) (arcOf u1 u2)) := by
    rw [arcArc_run hva hv.half hua hu.half, ← e1, ← e2, hr]
    unfold intrCircle2Circle2
    simp only
    rw [if_pos, if_pos]
    · unfold fuzzyEqual realThreshold; rw [sub_self, abs_zero]; norm_num
    · have : dot (c - c) (c - c) = 0 := by simp [dot]
      rw [this, Real.sqrt_zero]; unfold realThreshold; norm_num
  rw [hrun]
  refine ⟨_, rfl, ?_⟩
  have hneg : (v1.bulgeIsNeg ↔ u1.bulgeIsNeg) := by
    unfold Vertex.bulgeIsNeg
    have h1 := hva.b_ne
    have h2 := hua.b_ne
    constructor
    · intro h
      rcases lt_or_gt_of_ne h2 with g | g
      · exact g
      · linarith [hdir.mpr g]
    · intro h
      rcases lt_or_gt_of_ne h1 with g | g
      · exact g
      · linarith [hdir.mp g]
  unfold coincidentArcs
  rw [if_pos hneg]
  unfold startAndSweepAngle
  simp only [hva.center, hua.center, ← e1, ← e2]
  obtain ⟨p1, s10, s11⟩ := start_circlePt c v1.pos
  obtain ⟨p2, s20, s21⟩ := start_circlePt c u1.pos
  rw [← hr] at p2
  rw [show 4 * Real.arctan v1.bulge = sweep v1 from rfl,
    show 4 * Real.arctan u1.bulge = sweep u1 from rfl]
  generalize normalizeRadians (angle c v1.pos) = s1 at *
  generalize normalizeRadians (angle c u1.pos) = s2 at *
  have hr0 : distance v1.pos c ≠ 0 := by
    rw [e1]; exact (distance_pos hva.start_ne).ne'
  generalize distance v1.pos c = r at *
  have q1 : circlePt c r (s1 + sweep v1) = v2.pos := by
    rw [← rot_circlePt, p1]; exact hc
  have q2 : circlePt c r (s2 + sweep u1) = u2.pos := by
    rw [← rot_circlePt, p2]; exact hd
  have onV : ∀ x, OnSeg v1 v2 x → ∃ t, 0 ≤ t ∧ t ≤ 1 ∧ x = circlePt c r (s1 + t * sweep v1) := by
    rintro x ⟨t, t0, t1, h | ⟨-, c', hc', rfl⟩⟩
    · exact absurd h.1 hvl
    · rw [(isCenter_unique hva.b_ne hc').trans e1.symm, ← p1, rot_circlePt]
      exact ⟨t, t0, t1, rfl⟩
  have onU : ∀ x, OnSeg u1 u2 x → ∃ t, 0 ≤ t ∧ t ≤ 1 ∧ x = circlePt c r (s2 + t * sweep u1) := by
    rintro x ⟨t, t0, t1, h | ⟨-, c', hc', rfl⟩⟩
    · exact absurd h.1 hul
    · rw [(isCenter_unique hua.b_ne hc').trans e2.symm, ← p2, rot_circlePt]
      exact ⟨t, t0, t1, rfl⟩
  have nv1 : NearArc v1 v2 c v1.pos := by
    rw [← p1]; exact nearArc_of hvl hc p1 (k := 0) (le_refl 0) zero_le_one (by norm_num)
  have nv2 : NearArc v1 v2 c v2.pos := by
    rw [← q1]; exact nearArc_of hvl hc p1 (k := 0) zero_le_one (le_refl 1) (by norm_num)
  have nu1 : NearArc u1 u2 c u1.pos := by
    rw [← p2]; exact nearArc_of hul hd p2 (k := 0) (le_refl 0) zero_le_one (by norm_num)
  have nu2 : NearArc u1 u2 c u2.pos := by
    rw [← q2]; exact nearArc_of hul hd p2 (k := 0) zero_le_one (le_refl 1) (by norm_num)
  have e8 : (0 : ℝ) < 1 / 10 ^ 8 := by norm_num
  have hw1 := abs_sweep_le hv.half
  have hw2 := abs_sweep_le hu.half
  have hg1 := sweep_ge hvl
  have hg2 := sweep_ge hul
  have hp3 := Real.pi_gt_three
  by_cases ht1 : |deltaAngle s1 (s2 + sweep u1)| < realThreshold
  · rw [if_pos ht1]
    refine ⟨?_, fun x _ _ => ⟨_, rfl⟩⟩
    rintro p rfl
    obtain ⟨k, hk⟩ := (touch_iff _ _).mp ht1
    refine ⟨nv1, ?_⟩
    rw [← p1]
    refine nearArc_of hul hd p2 (k := -k) zero_le_one (le_refl 1) ?_
    rw [← abs_neg]
    refine le_of_eq_of_le (congrArg abs ?_) hk.le
    push_cast; ring
  rw [if_neg ht1]
  by_cases ht2 : |deltaAngle s2 (s1 + sweep v1)| < realThreshold
  · rw [if_pos ht2]
    refine ⟨?_, fun x _ _ => ⟨_, rfl⟩⟩
    rintro p rfl
    obtain ⟨k, hk⟩ := (touch_iff _ _).mp ht2
    refine ⟨?_, nu1⟩
    rw [← p2]
    refine nearArc_of hvl hc p1 (k := -k) zero_le_one (le_refl 1) ?_
    rw [← abs_neg]
    refine le_of_eq_of_le (congrArg abs ?_) hk.le
    push_cast; ring
  rw [if_neg ht2]
  rw [touch_iff] at ht1 ht2
  push Not at ht1 ht2
  have pair : ∀ {A B : V2}, (NearArc v1 v2 c A ∧ NearArc u1 u2 c A) →
      (NearArc v1 v2 c B ∧ NearArc u1 u2 c B) →
      (∀ p, Reports (.arcOverlap A B) p → NearArc v1 v2 c p ∧ NearArc u1 u2 c p) ∧
      (∀ x, OnSeg v1 v2 x → OnSeg u1 u2 x → ∃ p, Reports (.arcOverlap A B) p) := by
    intro A B hA hB
    refine ⟨?_, fun x _ _ => ⟨A, Or.inl rfl⟩⟩
    rintro p (rfl | rfl)
    · exact hA
    · exact hB
  have key : ∀ x, OnSeg v1 v2 x → OnSeg u1 u2 x → ∃ t t' : ℝ, ∃ k : ℤ, 0 ≤ t ∧ t ≤ 1 ∧ 0 ≤ t' ∧
      t' ≤ 1 ∧ s1 + t * sweep v1 = s2 + t' * sweep u1 + k * tau := by
    intro x hx hx'
    obtain ⟨t, t0, t1, h⟩ := onV x hx
    obtain ⟨t', t0', t1', h'⟩ := onU x hx'
    obtain ⟨k, hk⟩ := circlePt_inj hr0 (h.symm.trans h')
    exact ⟨t, t', k, t0, t1, t0', t1', hk⟩
  rcases lt_or_gt_of_ne hva.b_ne with hb | hb
  · -- clockwise
    have hb' : u1.bulge < 0 := hneg.mp hb
    have w1 := sweep_neg hb
    have w2 := sweep_neg hb'
    rw [abs_of_neg w1] at hw1 hg1
    rw [abs_of_neg w2] at hw2 hg2
    have W1s : angleIsWithinSweep s1 (sweep v1) s2 ↔ InArc (s1 + sweep v1) (-sweep v1) s2 := by
      apply within_cw w1 hw1
      intro h
      have := ht2 1
      rw [show s1 + sweep v1 - s2 + (1 : ℤ) * tau = 0 by push_cast; unfold tau; linarith, abs_zero]
        at this
      linarith
    have W2s : angleIsWithinSweep s2 (sweep u1) s1 ↔ InArc (s2 + sweep u1) (-sweep u1) s1 := by
      apply within_cw w2 hw2
      intro h
      have := ht1 1
      rw [show s2 + sweep u1 - s1 + (1 : ℤ) * tau = 0 by push_cast; unfold tau; linarith, abs_zero]
        at this
      linarith
    have nV : ∀ {x : ℝ}, NearIv (s1 + sweep v1) (-sweep v1) x → NearArc v1 v2 c (circlePt c r x) :=
      fun h => nearArc_cw hvl hc p1 w1 h
    have nU : ∀ {x : ℝ}, NearIv (s2 + sweep u1) (-sweep u1) x → NearArc u1 u2 c (circlePt c r x) :=
      fun h => nearArc_cw hul hd p2 w2 h
    have es2 : s2 + sweep u1 + -sweep u1 = s2 := by ring
    have es1 : s1 + sweep v1 + -sweep v1 = s1 := by ring
    by_cases hex : s2 + sweep u1 - (s1 + sweep v1) = 2 * Real.pi
    · -- the arcs end in the same point and the first is the longer one
      have hend : v2.pos = u2.pos := by
        rw [← q1, ← q2, show s2 + sweep u1 = s1 + sweep v1 + (1 : ℤ) * tau by
          push_cast; unfold tau; linarith, circlePt_turn]
      have hin : InArc (s1 + sweep v1) (-sweep v1) s2 :=
        ⟨-1, by push_cast; unfold tau; linarith, by push_cast; unfold tau; linarith⟩
      have hu1 : NearArc v1 v2 c u1.pos := by rw [← p2]; exact nV hin.near
      by_cases hB : angleIsWithinSweep s1 (sweep v1) (s2 + sweep u1)
      · rw [if_pos ⟨W1s.mpr hin, hB⟩]
        exact pair ⟨hu1, nu1⟩ ⟨hend ▸ nv2, nu2⟩
      · rw [if_neg (fun h => hB h.2), if_pos (W1s.mpr hin)]
        exact pair ⟨hu1, nu1⟩ ⟨nv2, hend ▸ nu2⟩
    have W1e : angleIsWithinSweep s1 (sweep v1) (s2 + sweep u1) ↔
        InArc (s1 + sweep v1) (-sweep v1) (s2 + sweep u1) := within_cw w1 hw1 hex
    rw [W1s, W2s, W1e]
    by_cases hA : InArc (s1 + sweep v1) (-sweep v1) s2
    · have hu1 : NearArc v1 v2 c u1.pos := by rw [← p2]; exact nV hA.near
      by_cases hB : InArc (s1 + sweep v1) (-sweep v1) (s2 + sweep u1)
      · rw [if_pos ⟨hA, hB⟩]
        exact pair ⟨hu1, nu1⟩ ⟨by rw [← q2]; exact nV hB.near, nu2⟩
      · rw [if_neg (fun h => hB h.2), if_pos hA]
        refine pair ⟨hu1, nu1⟩ ⟨nv2, ?_⟩
        rw [← q1]
        exact nU (near_lo1 (by linarith) (by rw [es2]; exact hA) hB)
    · rw [if_neg (fun h => hA h.1), if_neg hA]
      by_cases hB : InArc (s1 + sweep v1) (-sweep v1) (s2 + sweep u1)
      · rw [if_pos hB]
        refine pair ⟨nv1, ?_⟩ ⟨by rw [← q2]; exact nV hB.near, nu2⟩
        rw [← p1, ← es1]
        exact nU (near_hi1 (by linarith) hB (by rw [es2]; exact hA))
      · rw [if_neg hB]
        by_cases hC : InArc (s2 + sweep u1) (-sweep u1) s1
        · rw [if_pos hC]
          refine pair ⟨nv1, by rw [← p1]; exact nU hC.near⟩ ⟨nv2, ?_⟩
          rw [← q1]
          exact nU (near_lo1' hg1 (by rw [es1]; exact hC) hB)
        · rw [if_neg hC]
          refine ⟨fun p hp => hp.elim, fun x hx hx' => ?_⟩
          exfalso
          obtain ⟨t, t', k, t0, t1, t0', t1', hk⟩ := key x hx hx'
          have := common_hi (a := s1 + sweep v1) (ℓ := -sweep v1) (b := s2 + sweep u1)
            (m := -sweep u1) (x := s1 + t * sweep v1) (j := 0) (k := -k) (by push_cast; nlinarith)
            (by push_cast; nlinarith) (by push_cast; nlinarith) (by push_cast; nlinarith)
          rw [es1, es2] at this
          exact this.elim hA hC
  · -- counter clockwise
    have hb' : 0 < u1.bulge := hdir.mp hb
    have w1 := sweep_pos hb
    have w2 := sweep_pos hb'
    rw [abs_of_pos w1] at hw1 hg1
    rw [abs_of_pos w2] at hw2 hg2
    have W1s : angleIsWithinSweep s1 (sweep v1) s2 ↔ InArc s1 (sweep v1) s2 :=
      within_ccw w1.le hw1 (by intro h; linarith)
    have W2s : angleIsWithinSweep s2 (sweep u1) s1 ↔ InArc s2 (sweep u1) s1 :=
      within_ccw w2.le hw2 (by intro h; linarith)
    have W1e : angleIsWithinSweep s1 (sweep v1) (s2 + sweep u1) ↔
        InArc s1 (sweep v1) (s2 + sweep u1) := by
      apply within_ccw w1.le hw1
      intro h
      have := ht1 (-1)
      rw [show s2 + sweep u1 - s1 + (-1 : ℤ) * tau = 0 by push_cast; unfold tau; linarith, abs_zero]
        at this
      linarith
    have nV : ∀ {x : ℝ}, NearIv s1 (sweep v1) x → NearArc v1 v2 c (circlePt c r x) :=
      fun h => nearArc_ccw hvl hc p1 w1 h
    have nU : ∀ {x : ℝ}, NearIv s2 (sweep u1) x → NearArc u1 u2 c (circlePt c r x) :=
      fun h => nearArc_ccw hul hd p2 w2 h
    rw [W1s, W2s, W1e]
    by_cases hA : InArc s1 (sweep v1) s2
    · have hu1 : NearArc v1 v2 c u1.pos := by rw [← p2]; exact nV hA.near
      by_cases hB : InArc s1 (sweep v1) (s2 + sweep u1)
      · rw [if_pos ⟨hA, hB⟩]
        exact pair ⟨hu1, nu1⟩ ⟨by rw [← q2]; exact nV hB.near, nu2⟩
      · rw [if_neg (fun h => hB h.2), if_pos hA]
        refine pair ⟨hu1, nu1⟩ ⟨nv2, ?_⟩
        rw [← q1]
        exact nU (near_hi1 w2.le hA hB)
    · rw [if_neg (fun h => hA h.1), if_neg hA]
      by_cases hB : InArc s1 (sweep v1) (s2 + sweep u1)
      · rw [if_pos hB]
        refine pair ⟨nv1, ?_⟩ ⟨by rw [← q2]; exact nV hB.near, nu2⟩
        rw [← p1]
        exact nU (near_lo1 w2.le hB hA)
      · rw [if_neg hB]
        by_cases hC : InArc s2 (sweep u1) s1
        · rw [if_pos hC]
          refine pair ⟨nv1, by rw [← p1]; exact nU hC.near⟩ ⟨nv2, ?_⟩
          rw [← q1]
          exact nU (near_hi1' w1.le hC hB ht1)
        · rw [if_neg hC]
          refine ⟨fun p hp => hp.elim, fun x hx hx' => ?_⟩
          exfalso
          obtain ⟨t, t', k, t0, t1, t0', t1', hk⟩ := key x hx hx'
          have := common_lo (a := s1) (ℓ := sweep v1) (b := s2)
            (m := sweep u1) (x := s1 + t * sweep v1) (j := 0) (k := -k) (by push_cast; nlinarith)
            (by push_cast; nlinarith) (by push_cast; nlinarith) (by push_cast; nlinarith)
          exact this.elim hA hC

/-- C50: two straight segments. A common point implies that a point is reported; every reported
point spans with either segment a triangle of (twice the) area at most 3e-8 (exactly 0 with the first
one if the directions cross), and is on the second segment extended by 1e-8. -/
theorem C50_line_line {v1 v2 u1 u2 : Vertex} (hv : IsLine v1) (hu : IsLine u1)
    (hv2 : 1 / 10 ^ 8 ≤ |v1.pos.x - v2.pos.x| ∨ 1 / 10 ^ 8 ≤ |v1.pos.y - v2.pos.y|) :
    ∃ res, intrPlineSegs v1 v2 u1 u2 = .ok res ∧
      (∀ p, Reports res p → |side v1.pos v2.pos p| ≤ 3 / 10 ^ 8 ∧ |side u1.pos u2.pos p| ≤ 3 / 10 ^ 8 ∧
        ∃ r, -(1 / 10 ^ 8) ≤ r ∧ r ≤ 1 + 1 / 10 ^ 8 ∧ p = lerp u1.pos u2.pos r) ∧
      (∀ x, OnSeg v1 v2 x → OnSeg u1 u2 x → ∃ p, Reports res p) := by
  have hs := (C18_sound v1.pos v2.pos u1.pos u2.pos).1
  have hcmp : ∀ x, OnSeg v1 v2 x → OnSeg u1 u2 x →
      (∃ p, intrLineSeg2LineSeg2 v1.pos v2.pos u1.pos u2.pos = .trueIntr p) ∨
      (∃ t0 t1, intrLineSeg2LineSeg2 v1.pos v2.pos u1.pos u2.pos = .coincident t0 t1) := by
    rintro x ⟨s, s0, s1, hx | hx⟩ ⟨r, r0, r1, hx' | hx'⟩
    · exact C18_complete s0 s1 r0 r1 (hx.2.symm.trans hx'.2) (Or.inl hv2)
    · exact absurd hu hx'.1
    · exact absurd hv hx.1
    · exact absurd hv hx.1
  unfold intrPlineSegs
  rw [if_pos ⟨hv, hu⟩]
  have e8 : (0 : ℝ) ≤ 3 / 10 ^ 8 := by norm_num
  have conv : ∀ p, LineLineReports u1.pos u2.pos
      (intrLineSeg2LineSeg2 v1.pos v2.pos u1.pos u2.pos) p →
      |side v1.pos v2.pos p| ≤ 3 / 10 ^ 8 ∧ |side u1.pos u2.pos p| ≤ 3 / 10 ^ 8 ∧
        ∃ r, -(1 / 10 ^ 8) ≤ r ∧ r ≤ 1 + 1 / 10 ^ 8 ∧ p = lerp u1.pos u2.pos r := by
    intro p hp
    obtain ⟨h1, h2, h3⟩ := hs p hp
    refine ⟨?_, h2, h3 hv2⟩
    rcases h1 with ⟨-, h⟩ | h
    · rw [h, abs_zero]; exact e8
    · exact h
  cases hres : intrLineSeg2LineSeg2 v1.pos v2.pos u1.pos u2.pos with
  | none =>
    refine ⟨_, rfl, fun p hp => hp.elim, fun x hx hx' => ?_⟩
    have := hcmp x hx hx'
    rw [hres] at this
    simp at this
  | falseIntr a b q =>
    refine ⟨_, rfl, fun p hp => hp.elim, fun x hx hx' => ?_⟩
    have := hcmp x hx hx'
    rw [hres] at this
    simp at this
  | trueIntr q =>
    refine ⟨_, rfl, fun p hp => ?_, fun x hx hx' => ⟨q, rfl⟩⟩
    exact conv p (by rw [hres]; exact hp)
  | coincident a b =>
    refine ⟨_, rfl, fun p hp => ?_, fun x hx hx' => ⟨_, Or.inl rfl⟩⟩
    exact conv p (by rw [hres]; exact hp)

/-- C50: the call never faults on segments the library is meant for. -/
theorem C50_no_fault {v1 v2 u1 u2 : Vertex} (hv : SegOk v1 v2) (hu : SegOk u1 u2) :
    ∃ res, intrPlineSegs v1 v2 u1 u2 = .ok res := by
  by_cases h1 : IsLine v1
  · by_cases h2 : IsLine u1
    · unfold intrPlineSegs
      rw [if_pos ⟨h1, h2⟩]
      cases intrLineSeg2LineSeg2 v1.pos v2.pos u1.pos u2.pos <;> exact ⟨_, rfl⟩
    · obtain ⟨⟨res, h, -⟩, -⟩ := C50_line_arc_sound (v2 := v2) h1 h2 hu
        (isCenter_centerOf (hu.arcOk h2).b_ne)
      exact ⟨res, h⟩
  · by_cases h2 : IsLine u1
    · obtain ⟨⟨res, h, -⟩, h'⟩ := C50_line_arc_sound (v2 := u2) h2 h1 hv
        (isCenter_centerOf (hv.arcOk h1).b_ne)
      exact ⟨res, h'.trans h⟩
    · rw [arcArc_run (hv.arcOk h1) hv.half (hu.arcOk h2) hu.half]
      cases intrCircle2Circle2 (distance v1.pos (centerOf v1 v2)) (centerOf v1 v2)
        (distance u1.pos (centerOf u1 u2)) (centerOf u1 u2) <;> exact ⟨_, rfl⟩

/-! ### Coincident arcs of opposite direction -/

theorem arctan_eighth : 4 * Real.arctan (Real.tan (Real.pi / 8)) = Real.pi / 2 := by
  have := Real.pi_pos
  rw [Real.arctan_tan (by linarith) (by linarith)]; ring

theorem tan_eighth : 1 / 10 ≤ Real.tan (Real.pi / 8) ∧ Real.tan (Real.pi / 8) ≤ 1 := by
  have := Real.pi_pos
  have h3 := Real.pi_gt_three
  constructor
  · have := Real.le_tan (x := Real.pi / 8) (by linarith) (by linarith)
    linarith
  · rw [← Real.tan_pi_div_four]
    exact (Real.tan_lt_tan_of_nonneg_of_lt_pi_div_two (by linarith) (by linarith)
      (by linarith)).le

/-- quarter circle (1,0) to (0,1), counter clockwise -/
noncomputable def q1s : Vertex := ⟨⟨1, 0⟩, Real.tan (Real.pi / 8)⟩
/-- end of both quarter circles -/
def qe : Vertex := ⟨⟨0, 1⟩, 0⟩
/-- quarter circle (-1,0) to (0,1), clockwise -/
noncomputable def q2s : Vertex := ⟨⟨-1, 0⟩, -Real.tan (Real.pi / 8)⟩

theorem q1s_sweep : sweep q1s = Real.pi / 2 := arctan_eighth
theorem q2s_sweep : sweep q2s = -(Real.pi / 2) := by
  unfold sweep q2s
  simp only [Real.arctan_neg]
  linarith [arctan_eighth]

theorem q1_ok : SegOk q1s qe ∧ ¬ IsLine q1s ∧ IsCenter q1s qe ⟨0, 0⟩ := by
  have h := tan_eighth
  refine ⟨⟨?_, fun _ => Or.inl (by norm_num [q1s, qe])⟩, ?_, ?_⟩
  · rw [q1s, abs_of_nonneg (by linarith)]; exact h.2
  · unfold IsLine; rw [q1s, abs_of_nonneg (by linarith)]; norm_num; linarith
  · unfold IsCenter; rw [q1s_sweep]; ext <;> simp [rot, q1s, qe]

theorem q2_ok : SegOk q2s qe ∧ ¬ IsLine q2s ∧ IsCenter q2s qe ⟨0, 0⟩ := by
  have h := tan_eighth
  refine ⟨⟨?_, fun _ => Or.inl (by norm_num [q2s, qe])⟩, ?_, ?_⟩
  · rw [q2s, abs_neg, abs_of_nonneg (by linarith)]; exact h.2
  · unfold IsLine; rw [q2s, abs_neg, abs_of_nonneg (by linarith)]; norm_num; linarith
  · unfold IsCenter; rw [q2s_sweep]; ext <;> simp [rot, q2s, qe]

theorem angle_right : angle ⟨0, 0⟩ ⟨1, 0⟩ = 0 := by
  unfold angle
  rw [show (⟨(1:ℝ) - 0, (0:ℝ) - 0⟩ : ℂ) = ((1 : ℝ) : ℂ) by apply Complex.ext <;> simp]
  exact Complex.arg_ofReal_of_nonneg zero_le_one

theorem angle_up : angle ⟨0, 0⟩ ⟨0, 1⟩ = Real.pi / 2 := by
  unfold angle
  rw [show (⟨(0:ℝ) - 0, (1:ℝ) - 0⟩ : ℂ) = Complex.I by apply Complex.ext <;> simp]
  exact Complex.arg_I

/-- C50 fails for arcs of the same circle and opposite directions (plinesegment.hpp:441-481 swaps the
ends of the second arc for the tests but not for the reported points): the quarter circles from
(1,0) counter clockwise to (0,1) and from (-1,0) clockwise to (0,1) touch in (0,1), but the reported
point is (-1,0), more than 1.4 away from every point of the first arc. -/
theorem C50_opposite_direction_witness :
    SegOk q1s qe ∧ SegOk q2s qe ∧
    intrPlineSegs q1s qe q2s qe = .ok (.oneIntersect ⟨-1, 0⟩) ∧
    OnSeg q1s qe ⟨0, 1⟩ ∧ OnSeg q2s qe ⟨0, 1⟩ ∧
    ∀ x, OnSeg q1s qe x → 2 ≤ dist2 x ⟨-1, 0⟩ := by
  obtain ⟨h1, l1, c1⟩ := q1_ok
  obtain ⟨h2, l2, c2⟩ := q2_ok
  have a1 := h1.arcOk l1
  have a2 := h2.arcOk l2
  have e1 := isCenter_unique a1.b_ne c1
  have e2 := isCenter_unique a2.b_ne c2
  have hp := Real.pi_pos
  have hp3 := Real.pi_gt_three
  refine ⟨h1, h2, ?_, ?_, ?_, ?_⟩
  · rw [arcArc_run a1 h1.half a2 h2.half, ← e1, ← e2]
    have d1 : distance q1s.pos ⟨0, 0⟩ = 1 := by simp [distance, dist2, q1s]
    have d2 : distance q2s.pos ⟨0, 0⟩ = 1 := by simp [distance, dist2, q2s]
    rw [d1, d2]
    have hcc : intrCircle2Circle2 1 ⟨0, 0⟩ 1 ⟨0, 0⟩ = .coincident := by
      unfold intrCircle2Circle2
      simp only
      rw [if_pos, if_pos]
      · unfold fuzzyEqual realThreshold; rw [sub_self, abs_zero]; norm_num
      · simp [dot, realThreshold]
    rw [hcc]
    simp only
    congr 1
    unfold coincidentArcs
    have ht := tan_eighth
    have hd : ¬ (q1s.bulgeIsNeg ↔ q2s.bulgeIsNeg) := by
      unfold Vertex.bulgeIsNeg q1s q2s
      simp only
      intro h
      linarith [h.mpr (by linarith)]
    rw [if_neg hd]
    unfold startAndSweepAngle
    simp only [a1.center, a2.center, ← e1, ← e2]
    have n0 : normalizeRadians (angle ⟨0, 0⟩ q1s.pos) = 0 := by
      rw [show q1s.pos = ⟨1, 0⟩ from rfl, angle_right]
      unfold normalizeRadians
      rw [if_pos ⟨le_refl _, tau_pos.le⟩]
    have n1 : normalizeRadians (angle ⟨0, 0⟩ qe.pos) = Real.pi / 2 := by
      rw [show qe.pos = ⟨0, 1⟩ from rfl, angle_up]
      unfold normalizeRadians
      rw [if_pos ⟨by linarith, by unfold tau; linarith⟩]
    have s1 : 4 * Real.arctan q1s.bulge = Real.pi / 2 := arctan_eighth
    have s2 : 4 * Real.arctan (-q2s.bulge) = Real.pi / 2 := by
      rw [show -q2s.bulge = Real.tan (Real.pi / 8) from neg_neg _]; exact arctan_eighth
    rw [n0, n1, s1, s2, if_neg, if_pos]
    · rfl
    · rw [touch_iff]
      exact ⟨0, by norm_num⟩
    · rw [deltaAngle_eq (θ := Real.pi) (by linarith) (le_refl _) ⟨0, by push_cast; ring⟩,
        abs_of_pos hp]
      unfold realThreshold
      norm_num
      linarith
  · refine ⟨1, zero_le_one, le_refl 1, Or.inr ⟨l1, _, c1, ?_⟩⟩
    rw [one_mul]; exact c1.symm
  · refine ⟨1, zero_le_one, le_refl 1, Or.inr ⟨l2, _, c2, ?_⟩⟩
    rw [one_mul]; exact c2.symm
  · rintro x ⟨t, t0, t1, h | ⟨-, c', hc', rfl⟩⟩
    · exact absurd h.1 l1
    · rw [(isCenter_unique a1.b_ne hc').trans e1.symm, q1s_sweep]
      have hcos : 0 ≤ Real.cos (t * (Real.pi / 2)) :=
        Real.cos_nonneg_of_neg_pi_div_two_le_of_le (by nlinarith) (by nlinarith)
      have := Real.sin_sq_add_cos_sq (t * (Real.pi / 2))
      simp only [dist2, rot, q1s]
      nlinarith

/-! ### Concrete cases -/

/-- C50_same_circle: the half circle and the first quarter of it. -/
example : ∃ res, intrPlineSegs semiStart semiEnd q1s qe = .ok res ∧
    (∀ p, Reports res p → NearArc semiStart semiEnd ⟨0, 0⟩ p ∧ NearArc q1s qe ⟨0, 0⟩ p) ∧
    (∀ x, OnSeg semiStart semiEnd x → OnSeg q1s qe x → ∃ p, Reports res p) := by
  have hc := isCenter_centerOf (v2 := semiEnd) (semi_ok.1.arcOk semi_ok.2).b_ne
  rw [semi_center] at hc
  refine C50_same_circle semi_ok.2 q1_ok.2.1 semi_ok.1 q1_ok.1 hc q1_ok.2.2 rfl ?_
  have := tan_eighth
  constructor
  · intro _; unfold q1s; simp only; linarith
  · intro _; norm_num [semiStart]

/-- C50_line_arc_sound and _complete: the vertical line from (0,0) to (0,2) and the half circle meet
in (0,1). -/
example : ∃ res, intrPlineSegs ⟨⟨0, 0⟩, 0⟩ ⟨⟨0, 2⟩, 0⟩ semiStart semiEnd = .ok res ∧
    Reports res ⟨0, 1⟩ := by
  have hc := isCenter_centerOf (v2 := semiEnd) (semi_ok.1.arcOk semi_ok.2).b_ne
  rw [semi_center] at hc
  have h := C50_line_arc_complete (v1 := ⟨⟨0, 0⟩, 0⟩) (v2 := ⟨⟨0, 2⟩, 0⟩) (by norm_num [IsLine])
    semi_ok.2 semi_ok.1 hc (by norm_num [dist2]) (t := 1 / 2) (t' := -(1 / 2)) (by norm_num)
    (by norm_num) ⟨1 / 2, by norm_num, by norm_num, ?_⟩ ?_ (by norm_num [dist2])
  · simpa [lerp] using h
  · rw [semi_atParam]
    have : (1 / 2 : ℝ) * Real.pi = Real.pi / 2 := by ring
    rw [this, Real.cos_pi_div_two, Real.sin_pi_div_two]
    ext <;> norm_num [lerp]
  · norm_num [OnCircle, lerp, dist2, distance, semiStart]

/-- C50_arc_arc: upper half circles of radius 1 about (0,0) and (1,0). -/
example : ∃ res, intrPlineSegs semiStart semiEnd ⟨⟨2, 0⟩, 1⟩ ⟨⟨0, 0⟩, 0⟩ = .ok res ∧
      ∀ p, Reports res p → InSweep (1 / 10 ^ 8) semiStart semiEnd ⟨0, 0⟩ p := by
  have hc := isCenter_centerOf (v2 := semiEnd) (semi_ok.1.arcOk semi_ok.2).b_ne
  rw [semi_center] at hc
  have hd := isCenter_centerOf (v1 := ⟨⟨2, 0⟩, 1⟩) (v2 := ⟨⟨0, 0⟩, 0⟩) (by norm_num)
  rw [show centerOf ⟨⟨2, 0⟩, 1⟩ ⟨⟨0, 0⟩, 0⟩ = ⟨1, 0⟩ by ext <;> norm_num [centerOf]] at hd
  obtain ⟨res, h, h', -⟩ := C50_arc_arc semi_ok.2 (by norm_num [IsLine]) semi_ok.1
    ⟨by norm_num, fun _ => Or.inl (by norm_num)⟩ hc hd (Or.inl (by norm_num [distance, dist2]))
  exact ⟨res, h, fun p hp => (h' p hp).1⟩

/-- C50_line_line: two crossing diagonals. -/
example : ∃ res, intrPlineSegs ⟨⟨0, 0⟩, 0⟩ ⟨⟨2, 2⟩, 0⟩ ⟨⟨0, 2⟩, 0⟩ ⟨⟨2, 0⟩, 0⟩ = .ok res ∧
    ∃ p, Reports res p := by
  obtain ⟨res, h, -, h'⟩ := C50_line_line (v1 := ⟨⟨0, 0⟩, 0⟩) (v2 := ⟨⟨2, 2⟩, 0⟩)
    (u1 := ⟨⟨0, 2⟩, 0⟩) (u2 := ⟨⟨2, 0⟩, 0⟩) (by norm_num [IsLine]) (by norm_num [IsLine])
    (Or.inl (by norm_num))
  refine ⟨res, h, h' ⟨1, 1⟩ ⟨1 / 2, by norm_num, by norm_num, Or.inl ⟨by norm_num [IsLine], ?_⟩⟩
    ⟨1 / 2, by norm_num, by norm_num, Or.inl ⟨by norm_num [IsLine], ?_⟩⟩⟩
  · ext <;> norm_num [lerp]
  · ext <;> norm_num [lerp]

end Cavc

import Verif.Props.RoundCombine

/-! C83: combining two circles that cross. -/
namespace Cavc
open Spec
open scoped Classical
open MeasureTheory
noncomputable section

section
variable {A B : RoundLoop}

theorem round_has {k : RoundLoop} (hk : RoundLoopOk 0 k) {z : V2} : OnPline k.polyline z ↔ k.Has z :=
  C83_points hk.sign hk.unit hk.radius

/-- A segment of a circle. -/
theorem circle_seg {k : RoundLoop} {i : ℕ} {v1 v2 : Vertex} (h : IsSeg k.polyline i v1 v2) :
    ∃ s : ℝ, (s = 1 ∨ s = -1) ∧
      v1 = ⟨⟨k.center.x + s * k.radius * k.dir.x, k.center.y + s * k.radius * k.dir.y⟩, k.sign⟩ ∧
      v2 = ⟨⟨k.center.x - s * k.radius * k.dir.x, k.center.y - s * k.radius * k.dir.y⟩, k.sign⟩ ∧
      v1 ∈ k.polyline.vertexes ∧ v2 ∈ k.polyline.vertexes := by
  have h' := h
  obtain ⟨s, hs, -, rfl, rfl⟩ := halves_seg h
  refine ⟨s, hs, rfl, rfl, ?_, ?_⟩
  · unfold RoundLoop.polyline twoHalves
    simp only [List.mem_cons, List.not_mem_nil, or_false, Vertex.mk.injEq, V2.mk.injEq, and_true]
    rcases hs with rfl | rfl
    · left; constructor <;> ring
    · right; constructor <;> ring
  · unfold RoundLoop.polyline twoHalves
    simp only [List.mem_cons, List.not_mem_nil, or_false, Vertex.mk.injEq, V2.mk.injEq, and_true]
    rcases hs with rfl | rfl
    · right; constructor <;> ring
    · left; constructor <;> ring

theorem round_vertex_has {k : RoundLoop} (hk : RoundLoopOk 0 k) {v : Vertex} (hv : v ∈ k.polyline.vertexes) : k.Has v.pos := by
  have hr0 : (0 : ℝ) ≤ k.radius := le_trans (by norm_num) hk.radius
  unfold RoundLoop.polyline twoHalves at hv
  simp only [List.mem_cons, List.not_mem_nil, or_false] at hv
  rcases hv with rfl | rfl
  · have := half_radius (c := k.center) (Or.inl rfl) hk.unit hr0
    simp only [one_mul] at this
    exact this
  · have h := half_radius (c := k.center) (e := k.dir) (r := k.radius) (Or.inr rfl) hk.unit hr0
    have e : (⟨k.center.x - k.radius * k.dir.x, k.center.y - k.radius * k.dir.y⟩ : V2) =
        ⟨k.center.x + -1 * k.radius * k.dir.x, k.center.y + -1 * k.radius * k.dir.y⟩ := by
      ext <;> simp only <;> ring
    show distance _ _ = _
    simp only
    rw [e]
    exact h

theorem mark_symm {z : V2} (h : CrossMark A B z) : CrossMark B A z := by
  rcases h with h | ⟨v, hv, e⟩
  · exact Or.inl h.symm
  · exact Or.inr ⟨v, by rw [List.mem_append] at hv ⊢; exact hv.symm, e⟩

theorem cross_symm (h : CrossClearly A B) : CrossClearly B A where
  two := by
    obtain ⟨x, y, hne, hx, hy⟩ := h.two
    exact ⟨x, y, hne, hx.symm, hy.symm⟩
  centers := by rw [distance_symm]; exact h.centers
  vertexA := h.vertexB
  vertexB := h.vertexA
  gap := fun z w hz hw hne => by
    have := h.gap z w (mark_symm hz) (mark_symm hw) hne
    linarith

theorem far_not_near {z w : V2} (h : 1 / 1000 ≤ distance z w) : ¬ Near (3 / 10 ^ 4) z w := by
  rintro ⟨n1, n2⟩
  have a1 := sq_lt_sq' (neg_lt_of_abs_lt n1) (lt_of_abs_lt n1)
  have a2 := sq_lt_sq' (neg_lt_of_abs_lt n2) (lt_of_abs_lt n2)
  have h2 := pow_le_pow_left₀ (by norm_num) h 2
  rw [distance_sq] at h2
  simp only [dist2] at h2
  norm_num at a1 a2 h2
  linarith

theorem cross_not_near (hA : RoundLoopOk 0 A) (hB : RoundLoopOk 0 B) (h : CrossClearly A B) {z w : V2} (hz : CrossMark A B z)
    (hw : CrossMark A B w) (hne : z ≠ w) : ¬ Near (3 / 10 ^ 4) z w := by
  refine far_not_near (le_trans ?_ (h.gap z w hz hw hne))
  have h1 := hA.radius
  have h2 := hB.radius
  have h0 : (0 : ℝ) < 1 / 10 ^ 4 := by norm_num
  linarith

/-- Two points of a half circle at different parameters: they are different, and not farther apart than the arc is long. -/
theorem half_chord {c e : V2} {r σ s : ℝ} (hσ : σ = 1 ∨ σ = -1) (hs : s = 1 ∨ s = -1) (he : e.x ^ 2 + e.y ^ 2 = 1) (hr : 0 < r) {t t' : ℝ}
    {x x' : V2} (hx : AtParam ⟨⟨c.x + s * r * e.x, c.y + s * r * e.y⟩, σ⟩ ⟨⟨c.x - s * r * e.x, c.y - s * r * e.y⟩, σ⟩ t x)
    (hx' : AtParam ⟨⟨c.x + s * r * e.x, c.y + s * r * e.y⟩, σ⟩ ⟨⟨c.x - s * r * e.x, c.y - s * r * e.y⟩, σ⟩ t' x') (h0 : 0 ≤ t)
    (h1 : t' ≤ 1) (hlt : t < t') : x ≠ x' ∧ distance x x' ≤ r * ((t' - t) * Real.pi) := by
  rw [atParam_arc (half_arc hσ _), half_centerOf hσ, half_sweep hσ] at hx hx'
  have hp := Real.pi_pos
  have hs2 : s ^ 2 = 1 := by rcases hs with rfl | rfl <;> norm_num
  have hd : dist2 x x' = 2 * r ^ 2 * (1 - Real.cos ((t' - t) * Real.pi)) := by
    have hcos : Real.cos ((t' - t) * Real.pi) = Real.cos (t' * (σ * Real.pi)) * Real.cos (t * (σ * Real.pi)) +
        Real.sin (t' * (σ * Real.pi)) * Real.sin (t * (σ * Real.pi)) := by
      rw [← Real.cos_sub]
      rcases hσ with rfl | rfl
      · congr 1; ring
      · rw [← Real.cos_neg]; congr 1; ring
    have q1 := Real.sin_sq_add_cos_sq (t * (σ * Real.pi))
    have q2 := Real.sin_sq_add_cos_sq (t' * (σ * Real.pi))
    rw [hx, hx', hcos]
    simp only [dist2, rot]
    linear_combination (r ^ 2 * s ^ 2 * (e.x ^ 2 + e.y ^ 2)) * q1 + (r ^ 2 * s ^ 2 * (e.x ^ 2 + e.y ^ 2)) * q2 +
      (2 * r ^ 2 * s ^ 2 * (1 - (Real.cos (t' * (σ * Real.pi)) * Real.cos (t * (σ * Real.pi)) +
        Real.sin (t' * (σ * Real.pi)) * Real.sin (t * (σ * Real.pi))))) * he +
      (2 * r ^ 2 * (1 - (Real.cos (t' * (σ * Real.pi)) * Real.cos (t * (σ * Real.pi)) +
        Real.sin (t' * (σ * Real.pi)) * Real.sin (t * (σ * Real.pi))))) * hs2
  have hu0 : 0 < (t' - t) * Real.pi := mul_pos (by linarith) hp
  have hu1 : (t' - t) * Real.pi ≤ Real.pi := by nlinarith
  generalize (t' - t) * Real.pi = u at hd hu0 hu1
  constructor
  · rintro rfl
    have hz : dist2 x x = 0 := by simp [dist2]
    rw [hz] at hd
    have hc : Real.cos u < Real.cos 0 := Real.cos_lt_cos_of_nonneg_of_le_pi le_rfl hu1 hu0
    rw [Real.cos_zero] at hc
    have := mul_pos (mul_pos two_pos (pow_pos hr 2)) (sub_pos.2 hc)
    linarith
  · have hc := Real.one_sub_sq_div_two_le_cos (x := u)
    have : dist2 x x' ≤ (r * u) ^ 2 := by
      rw [hd]
      have hr2 := pow_pos hr 2
      nlinarith
    unfold distance
    rw [Real.sqrt_le_left (mul_nonneg hr.le hu0.le)]
    exact this

theorem round_separated (hA : RoundLoopOk 0 A) (hB : RoundLoopOk 0 B) (h : CrossClearly A B) : Separated A.polyline B.polyline := by
  intro k v e t t' x x' hseg hx hx' hlt
  obtain ⟨s, hs, rfl, rfl, m1, m2⟩ := circle_seg hseg
  have hr0 : (0 : ℝ) < A.radius := lt_of_lt_of_le (by norm_num) hA.radius
  have mark : ∀ {t x}, EndOrMeet B.polyline
      ⟨⟨A.center.x + s * A.radius * A.dir.x, A.center.y + s * A.radius * A.dir.y⟩, A.sign⟩
      ⟨⟨A.center.x - s * A.radius * A.dir.x, A.center.y - s * A.radius * A.dir.y⟩, A.sign⟩ t x → CrossMark A B x := by
    rintro t x ⟨t0, t1, hp, hc⟩
    have hon : OnPline A.polyline x := ⟨k, _, _, hseg, t, t0, t1, hp⟩
    rw [atParam_arc (half_arc hA.sign _)] at hp
    rcases hc with rfl | rfl | hc
    · rw [zero_mul, rot_zero] at hp
      exact Or.inr ⟨_, List.mem_append_left _ m1, hp⟩
    · rw [one_mul] at hp
      have hcen : rot (centerOf _ _) (sweep _) _ = _ :=
        isCenter_centerOf (v1 := ⟨⟨A.center.x + s * A.radius * A.dir.x, A.center.y + s * A.radius * A.dir.y⟩, A.sign⟩)
          (v2 := ⟨⟨A.center.x - s * A.radius * A.dir.x, A.center.y - s * A.radius * A.dir.y⟩, A.sign⟩)
          (by rcases hA.sign with e | e <;> rw [e] <;> norm_num)
      rw [hcen] at hp
      exact Or.inr ⟨_, List.mem_append_left _ m2, hp⟩
    · exact Or.inl ⟨(round_has hA).1 hon, (round_has hB).1 hc⟩
  obtain ⟨hne, hle⟩ := half_chord (c := A.center) (e := A.dir) hA.sign hs hA.unit hr0 hx.2.2.1 hx'.2.2.1 hx.1 hx'.2.1 hlt
  have hg := h.gap x x' (mark hx) (mark hx') hne
  refine ⟨fun hn => cross_not_near hA hB h (mark hx) (mark hx') hne ⟨lt_trans hn.1 (by norm_num), lt_trans hn.2 (by norm_num)⟩, fun _ => ?_⟩
  rw [half_sweep hA.sign]
  have hsw : |A.sign * Real.pi| = Real.pi := by
    rcases hA.sign with e | e
    · rw [e, one_mul, abs_of_pos Real.pi_pos]
    · rw [e, neg_one_mul, abs_neg, abs_of_pos Real.pi_pos]
  rw [hsw]
  have hb : (0 : ℝ) < B.radius := lt_of_lt_of_le (by norm_num) hB.radius
  have : A.radius * (1 / 10 ^ 4) ≤ A.radius * ((t' - t) * Real.pi) := by linarith
  exact le_of_mul_le_mul_left this hr0

/-- Near an end of a half circle the tolerance does not matter if the ends are not near. -/
theorem half_exact {c e x : V2} {r σ s w : ℝ} (hσ : σ = 1 ∨ σ = -1) (hs : s = 1 ∨ s = -1) (he : e.x ^ 2 + e.y ^ 2 = 1)
    (hr : 1 / 10 ^ 4 ≤ r) (hw : w = e.x * (x.y - c.y) - e.y * (x.x - c.x)) (hx : distance x c = r)
    (h : InSweep (1 / 10 ^ 8) ⟨⟨c.x + s * r * e.x, c.y + s * r * e.y⟩, σ⟩ ⟨⟨c.x - s * r * e.x, c.y - s * r * e.y⟩, σ⟩ c x)
    (f1 : 1 / 1000 ≤ distance x ⟨c.x + s * r * e.x, c.y + s * r * e.y⟩)
    (f2 : 1 / 1000 ≤ distance x ⟨c.x - s * r * e.x, c.y - s * r * e.y⟩) : 0 ≤ σ * s * w := by
  by_contra hneg
  rw [not_le] at hneg
  have hr0 : (0 : ℝ) < r := lt_of_lt_of_le (by norm_num) hr
  have hs2 : s ^ 2 = 1 := by rcases hs with rfl | rfl <;> norm_num
  have hlow : -(1 / 10 ^ 8) < r * (σ * s * w) := by
    unfold InSweep at h
    simp only [side] at h
    have e1 : (c.x + s * r * e.x - c.x) * (x.y - c.y) - (c.y + s * r * e.y - c.y) * (x.x - c.x) = r * (s * w) := by rw [hw]; ring
    rw [e1] at h
    rcases hσ with rfl | rfl
    · rcases h with ⟨-, h, -⟩ | ⟨h, -⟩
      · rw [one_mul]; exact h
      · norm_num at h
    · rcases h with ⟨h, -⟩ | ⟨-, h, -⟩
      · norm_num at h
      · linarith
  have hm : -(1 / 10 ^ 4) < σ * s * w := by
    by_contra hc
    rw [not_lt] at hc
    have h4 : (0 : ℝ) < 1 / 10 ^ 4 := by norm_num
    have : r * (σ * s * w) ≤ r * (-(1 / 10 ^ 4)) := mul_le_mul_of_nonneg_left hc hr0.le
    have h2 : (1 / 10 ^ 4) * (1 / 10 ^ 4) ≤ r * (1 / 10 ^ 4 : ℝ) := mul_le_mul_of_nonneg_right hr h4.le
    norm_num at *
    linarith
  have hw2 : w ^ 2 < (1 / 10 ^ 4) ^ 2 := by
    have : w ^ 2 = (σ * s * w) ^ 2 := by
      have hσ2 : σ ^ 2 = 1 := by rcases hσ with rfl | rfl <;> norm_num
      rw [mul_pow, mul_pow, hσ2, hs2]; ring
    rw [this]
    exact sq_lt_sq' hm (lt_trans hneg (by norm_num))
  have hc2 : (x.x - c.x) ^ 2 + (x.y - c.y) ^ 2 = r ^ 2 := by
    have := distance_sq x c
    rw [hx] at this
    rw [this]; rfl
  set u := s * (e.x * (x.x - c.x) + e.y * (x.y - c.y)) with hu
  have huw : u ^ 2 + w ^ 2 = r ^ 2 := by
    rw [hu, hw, ← hc2]
    linear_combination (e.x * (x.x - c.x) + e.y * (x.y - c.y)) ^ 2 * hs2 + ((x.x - c.x) ^ 2 + (x.y - c.y) ^ 2) * he
  have d1 : dist2 x ⟨c.x + s * r * e.x, c.y + s * r * e.y⟩ = (u - r) ^ 2 + w ^ 2 := by
    have : dist2 x ⟨c.x + s * r * e.x, c.y + s * r * e.y⟩ = r ^ 2 - 2 * r * u + s ^ 2 * r ^ 2 * (e.x ^ 2 + e.y ^ 2) := by
      rw [hu]; simp only [dist2]; linear_combination hc2
    rw [this, hs2, he]
    linear_combination -huw
  have d2 : dist2 x ⟨c.x - s * r * e.x, c.y - s * r * e.y⟩ = (u + r) ^ 2 + w ^ 2 := by
    have : dist2 x ⟨c.x - s * r * e.x, c.y - s * r * e.y⟩ = r ^ 2 + 2 * r * u + s ^ 2 * r ^ 2 * (e.x ^ 2 + e.y ^ 2) := by
      rw [hu]; simp only [dist2]; linear_combination hc2
    rw [this, hs2, he]
    linear_combination -huw
  have g1 := pow_le_pow_left₀ (by norm_num) f1 2
  have g2 := pow_le_pow_left₀ (by norm_num) f2 2
  rw [distance_sq, d1] at g1
  rw [distance_sq, d2] at g2
  norm_num at g1 g2 hw2
  have hub : u ^ 2 ≤ r ^ 2 := by nlinarith [sq_nonneg w]
  obtain ⟨l1, l2⟩ := abs_le.1 (abs_le_of_sq_le_sq hub hr0.le)
  rcases le_total 0 u with h0 | h0
  · have p := mul_nonneg h0 (sub_nonneg.2 l2)
    have : (u - r) ^ 2 + 2 * (u * (r - u)) = w ^ 2 := by linear_combination -huw
    linarith
  · have p := mul_nonneg (neg_nonneg.2 h0) (neg_le_iff_add_nonneg.1 l1)
    have : (u + r) ^ 2 + 2 * (-u * (u + r)) = w ^ 2 := by linear_combination -huw
    linarith

theorem gap_le (hA : RoundLoopOk 0 A) (hB : RoundLoopOk 0 B) : (1 / 1000 : ℝ) ≤ (1 + A.radius + B.radius) / 1000 := by
  have h1 := hA.radius
  have h2 := hB.radius
  have h0 : (0 : ℝ) < 1 / 10 ^ 4 := by norm_num
  linarith

theorem round_exact (hA : RoundLoopOk 0 A) (hB : RoundLoopOk 0 B) (h : CrossClearly A B) {i : ℕ} {v1 v2 : Vertex}
    (hseg : IsSeg A.polyline i v1 v2) {x : V2} (hx : OnLonger (1 / 10 ^ 8) v1 v2 x) (hon : A.Has x) (hon' : B.Has x) : OnSeg v1 v2 x := by
  obtain ⟨s, hs, rfl, rfl, m1, m2⟩ := circle_seg hseg
  rcases hx with ⟨hl, -⟩ | ⟨-, c, hc, -, hsw⟩
  · exact absurd hl (half_arc hA.sign _)
  have hcen := isCenter_unique (by rcases hA.sign with e | e <;> simp only [e] <;> norm_num) hc
  rw [half_centerOf hA.sign] at hcen
  subst hcen
  have hmx : CrossMark A B x := Or.inl ⟨hon, hon'⟩
  have f : ∀ v ∈ A.polyline.vertexes, 1 / 1000 ≤ distance x v.pos := by
    intro v hv
    exact le_trans (gap_le hA hB)
      (h.gap x v.pos hmx (Or.inr ⟨v, List.mem_append_left _ hv, rfl⟩) (by rintro rfl; exact h.vertexA v hv hon'))
  have hend := half_exact hA.sign hs hA.unit hA.radius rfl hon hsw (f _ m1) (f _ m2)
  rw [half_onSeg hA.sign hA.unit hA.radius hs hseg]
  exact ⟨hon, hend⟩

theorem longer_has {k : RoundLoop} (hk : RoundLoopOk 0 k) {i : ℕ} {v1 v2 : Vertex} (hseg : IsSeg k.polyline i v1 v2) {ε : ℝ} {x : V2}
    (hx : OnLonger ε v1 v2 x) : k.Has x := by
  obtain ⟨s, hs, rfl, rfl, -, -⟩ := circle_seg hseg
  have hr0 : (0 : ℝ) ≤ k.radius := le_trans (by norm_num) hk.radius
  rcases hx with ⟨hl, -⟩ | ⟨-, c, hc, ho, -⟩
  · exact absurd hl (half_arc hk.sign _)
  have hcen := isCenter_unique (by rcases hk.sign with e | e <;> simp only [e] <;> norm_num) hc
  rw [half_centerOf hk.sign] at hcen
  subst hcen
  unfold OnCircle at ho
  simp only at ho
  rw [half_radius hs hk.unit hr0] at ho
  unfold RoundLoop.Has
  rw [distance, ho, Real.sqrt_sq hr0]

theorem round_pair (hA : RoundLoopOk 0 A) (hB : RoundLoopOk 0 B) (h : CrossClearly A B) {i j : ℕ} {v1 v2 u1 u2 : Vertex}
    (hv : IsSeg A.polyline i v1 v2) (hu : IsSeg B.polyline j u1 u2) : ClearPair v1 v2 u1 u2 where
  lines := fun l _ => by
    obtain ⟨s, hs, rfl, rfl, -⟩ := circle_seg hv
    exact absurd l (half_arc hA.sign _)
  lineArc := fun l _ => by
    obtain ⟨s, hs, rfl, rfl, -⟩ := circle_seg hv
    exact absurd l (half_arc hA.sign _)
  arcLine := fun _ l => by
    obtain ⟨s, hs, rfl, rfl, -⟩ := circle_seg hu
    exact absurd l (half_arc hB.sign _)
  arcs := fun _ _ c d hc hd => by
    obtain ⟨s, hs, rfl, rfl, -⟩ := circle_seg hv
    obtain ⟨t, ht, rfl, rfl, -⟩ := circle_seg hu
    have hra : (0 : ℝ) ≤ A.radius := le_trans (by norm_num) hA.radius
    have hrb : (0 : ℝ) ≤ B.radius := le_trans (by norm_num) hB.radius
    have e1 := isCenter_unique (by rcases hA.sign with e | e <;> simp only [e] <;> norm_num) hc
    have e2 := isCenter_unique (by rcases hB.sign with e | e <;> simp only [e] <;> norm_num) hd
    rw [half_centerOf hA.sign] at e1
    rw [half_centerOf hB.sign] at e2
    subst e1 e2
    simp only
    rw [half_radius hs hA.unit hra, half_radius ht hB.unit hrb]
    obtain ⟨x, y, hne, hx, hy⟩ := h.two
    have circ : ∀ {k : RoundLoop} {z : V2}, k.Has z → OnCircle k.radius k.center z := by
      intro k z hz
      unfold OnCircle
      rw [← distance_sq, hz]
    refine Or.inr (Or.inr ⟨h.centers, x, y, ⟨circ hx.1, circ hx.2⟩, ⟨circ hy.1, circ hy.2⟩, ?_⟩)
    have hn := cross_not_near hA hB h (Or.inl hx) (Or.inl hy) hne
    unfold Near at hn
    rw [not_and_or, not_lt, not_lt] at hn
    rcases hn with hn | hn
    · left; exact le_trans (by norm_num) hn
    · right; exact le_trans (by norm_num) hn
  exact := fun x hx hx' => by
    have a := longer_has hA hv hx
    have b := longer_has hB hu hx'
    exact ⟨round_exact hA hB h hv hx a b, round_exact hB hA (cross_symm h) hu hx' b a⟩

theorem round_clean (hA : RoundLoopOk 0 A) (hB : RoundLoopOk 0 B) (h : CrossClearly A B) : CleanMeet A.polyline B.polyline where
  pairs := fun _ _ _ _ _ _ hv hu _ => round_pair hA hB h hv hu
  vertexA := fun v hv ho => h.vertexA v hv ((round_has hB).1 ho)
  vertexB := fun v hv ho => h.vertexB v hv ((round_has hA).1 ho)
  alongA := round_separated hA hB h
  alongB := round_separated hB hA (cross_symm h)
  apart := by
    rintro i j x i' j' x' ⟨v1, v2, u1, u2, a1, a2, a3, a4⟩ ⟨w1, w2, z1, z2, b1, b2, b3, b4⟩ hne
    have hx : A.Has x ∧ B.Has x := ⟨(round_has hA).1 ⟨_, _, _, a1, a3⟩, (round_has hB).1 ⟨_, _, _, a2, a4⟩⟩
    have hx' : A.Has x' ∧ B.Has x' := ⟨(round_has hA).1 ⟨_, _, _, b1, b3⟩, (round_has hB).1 ⟨_, _, _, b2, b4⟩⟩
    refine cross_not_near hA hB h (Or.inl hx) (Or.inl hx') ?_
    rintro rfl
    have hij : i = i' ∧ j = j' := by
      constructor
      · by_contra hi
        have sA : SimpleCurve A.polyline := C83_simple hA.sign hA.unit hA.radius
        rcases sA.apart i i' v1 v2 w1 w2 x a1 b1 hi a3 b3 with ⟨-, e⟩ | ⟨-, e⟩
        · obtain ⟨-, -, -, -, -, m⟩ := circle_seg a1
          exact h.vertexA v2 m (e ▸ hx.2)
        · obtain ⟨-, -, -, -, -, m⟩ := circle_seg b1
          exact h.vertexA w2 m (e ▸ hx.2)
      · by_contra hi
        have sB : SimpleCurve B.polyline := C83_simple hB.sign hB.unit hB.radius
        rcases sB.apart j j' u1 u2 z1 z2 x a2 b2 hi a4 b4 with ⟨-, e⟩ | ⟨-, e⟩
        · obtain ⟨-, -, -, -, -, m⟩ := circle_seg a2
          exact h.vertexB u2 m (e ▸ hx.1)
        · obtain ⟨-, -, -, -, -, m⟩ := circle_seg b2
          exact h.vertexB z2 m (e ▸ hx.1)
    exact hne (by rw [hij.1, hij.2])

theorem round_ends (hA : RoundLoopOk 0 A) (hB : RoundLoopOk 0 B) (h : CrossClearly A B) : ArcEndsApart A.polyline B.polyline := by
  have known : ∀ x, Known A.polyline B.polyline x → CrossMark A B x := by
    rintro x (hv | ⟨i, j, v1, v2, u1, u2, hv, hu, hh⟩)
    · exact Or.inr hv
    · obtain ⟨r, hr, hno, -, hrep⟩ := C50_exact (halves_pline_ok hA.sign hA.unit hA.radius i v1 v2 hv)
        (halves_pline_ok hB.sign hB.unit hB.radius j u1 u2 hu) (round_pair hA hB h hv hu)
      have hpt : x ∈ reported r := by
        rcases hh with hh | ⟨y, hh⟩
        · rcases hh with hh | ⟨y, hh | hh⟩ <;> rw [hr] at hh <;> have hh := Except.ok.inj hh <;> subst hh <;> simp [reported]
        · exfalso
          rcases hh with (hh | hh) | (hh | hh) <;> rw [hr] at hh <;> have hh := Except.ok.inj hh
          · exact (hno _ _).1 hh
          · exact (hno _ _).2 hh
          · exact (hno _ _).1 hh
          · exact (hno _ _).2 hh
      obtain ⟨o1, o2⟩ := (hrep x).1 hpt
      exact Or.inl ⟨(round_has hA).1 ⟨_, _, _, hv, o1⟩, (round_has hB).1 ⟨_, _, _, hu, o2⟩⟩
  intro p hp i v1 v2 hseg _ x hx
  by_cases c : x = v2.pos
  · exact Or.inl c
  right
  have hm : v2 ∈ A.polyline.vertexes ++ B.polyline.vertexes := by
    rcases hp with rfl | rfl
    · obtain ⟨-, -, -, -, -, m⟩ := circle_seg hseg
      exact List.mem_append_left _ m
    · obtain ⟨-, -, -, -, -, m⟩ := circle_seg hseg
      exact List.mem_append_right _ m
  intro hn
  exact cross_not_near hA hB h (known x hx) (Or.inr ⟨v2, hm, rfl⟩) c ⟨lt_trans hn.1 (by norm_num), lt_trans hn.2 (by norm_num)⟩


/-- C83. Circles that cross clearly: the combination is correct, its curves are simple, and its area is the area of the regions. -/
theorem C83_cross (inf ninf : ℝ) {std : StdSort} {hash : HashOrder} (hA : RoundLoopOk 0 A) (hB : RoundLoopOk 0 B) (h : CrossClearly A B)
    (mode : CombineMode) :
    ∃ r a, combinePolylines (codePlatform inf ninf) std hash A.polyline B.polyline mode = .ok r ∧
      (∀ q ∈ r.remaining ++ r.subtracted, SimpleCurve q ∧ ∀ x, OnPline q x → A.Has x ∨ B.Has x) ∧
      (∀ x, ¬ A.Has x → ¬ B.Has x →
        (InResult r x ↔ boolOp mode (distance x A.center < A.radius) (distance x B.center < B.radius))) ∧
      AreaOf r a ∧ 0 ≤ a ∧
      volume {z : ℝ × ℝ | boolOp mode (distance ⟨z.1, z.2⟩ A.center < A.radius) (distance ⟨z.1, z.2⟩ B.center < B.radius)} =
        ENNReal.ofReal a := by
  have sA : SimpleCurve A.polyline := C83_simple hA.sign hA.unit hA.radius
  have sB : SimpleCurve B.polyline := C83_simple hB.sign hB.unit hB.radius
  have hi := halves_indexable (c := A.center) (e := A.dir) (r := A.radius) hA.sign inf ninf
  have hn : A.polyline.vertexes.length * B.polyline.vertexes.length ≤ 10 ^ 6 := show 2 * 2 ≤ 10 ^ 6 by norm_num
  have hg := round_clean hA hB h
  have hap := round_ends hA hB h
  obtain ⟨r, hr, h1, h2, -⟩ := C73_combinePolylines inf ninf (std := std) (hash := hash) sA sB hg hap hi hn mode
  obtain ⟨r', a, hr', ha, ha0, hv⟩ := C73_area inf ninf (std := std) (hash := hash) sA sB hg hap hi hn mode
  rw [hr] at hr'
  have hr' := Except.ok.inj hr'
  subst hr'
  refine ⟨r, a, hr, fun q hq => ⟨(h1 q hq).1, fun x hx => ((h1 q hq).2 x hx).imp (round_has hA).1 (round_has hB).1⟩, fun x xA xB => ?_,
    ha, ha0, ?_⟩
  · rw [((h2 x (fun g => xA ((round_has hA).1 g)) (fun g => xB ((round_has hB).1 g))).1)]
    have iA : Inside A.polyline x ↔ distance x A.center < A.radius := C83_inside hA.sign hA.unit hA.radius xA
    have iB : Inside B.polyline x ↔ distance x B.center < B.radius := C83_inside hB.sign hB.unit hB.radius xB
    rw [propext iA, propext iB]
  · rw [← hv]
    apply MeasureTheory.measure_congr
    filter_upwards [onPline_null A.polyline, onPline_null B.polyline] with z zA zB
    have iA : Inside A.polyline ⟨z.1, z.2⟩ ↔ distance ⟨z.1, z.2⟩ A.center < A.radius :=
      C83_inside hA.sign hA.unit hA.radius fun g => zA ((round_has hA).2 g)
    have iB : Inside B.polyline ⟨z.1, z.2⟩ ↔ distance ⟨z.1, z.2⟩ B.center < B.radius :=
      C83_inside hB.sign hB.unit hB.radius fun g => zB ((round_has hB).2 g)
    refine propext (show boolOp mode (distance ⟨z.1, z.2⟩ A.center < A.radius) (distance ⟨z.1, z.2⟩ B.center < B.radius) ↔
      z ∈ Combined A.polyline B.polyline mode from ?_)
    rw [← propext iA, ← propext iB]
    constructor
    · exact fun g => ⟨zA, zB, g⟩
    · exact fun g => g.2.2

/-- Two circles of radius 5 whose centers are 8 apart meet in (4, 3) and (4, -3). -/
def leftCircle : RoundLoop := ⟨⟨0, 0⟩, ⟨1, 0⟩, 5, 1⟩
def rightCircle : RoundLoop := ⟨⟨8, 0⟩, ⟨1, 0⟩, 5, 1⟩

theorem leftCircle_ok : RoundLoopOk 0 leftCircle := by
  constructor <;> norm_num [leftCircle]
theorem rightCircle_ok : RoundLoopOk 0 rightCircle := by
  constructor <;> norm_num [rightCircle]

theorem five_iff {z c : V2} : distance z c = 5 ↔ (z.x - c.x) ^ 2 + (z.y - c.y) ^ 2 = 25 := by
  have h := distance_sq z c
  simp only [dist2] at h
  rw [← h]
  constructor
  · intro e; rw [e]; norm_num
  · intro e
    have : 0 ≤ distance z c := Real.sqrt_nonneg _
    nlinarith

theorem circles_meet {z : V2} : (leftCircle.Has z ∧ rightCircle.Has z) ↔ z = ⟨4, 3⟩ ∨ z = ⟨4, -3⟩ := by
  unfold RoundLoop.Has
  show (distance z ⟨0, 0⟩ = 5 ∧ distance z ⟨8, 0⟩ = 5) ↔ _
  rw [five_iff, five_iff]
  simp only [sub_zero]
  obtain ⟨x, y⟩ := z
  simp only [V2.mk.injEq]
  constructor
  · rintro ⟨h1, h2⟩
    have hx : x = 4 := by linarith
    subst hx
    have : (y - 3) * (y + 3) = 0 := by linarith
    rcases mul_eq_zero.1 this with e | e
    · left; exact ⟨rfl, by linarith⟩
    · right; exact ⟨rfl, by linarith⟩
  · rintro (⟨rfl, rfl⟩ | ⟨rfl, rfl⟩) <;> norm_num

theorem circles_marks {z : V2} (h : CrossMark leftCircle rightCircle z) :
    z = ⟨4, 3⟩ ∨ z = ⟨4, -3⟩ ∨ z = ⟨5, 0⟩ ∨ z = ⟨-5, 0⟩ ∨ z = ⟨13, 0⟩ ∨ z = ⟨3, 0⟩ := by
  rcases h with h | ⟨v, hv, rfl⟩
  · rcases circles_meet.1 h with e | e
    · exact Or.inl e
    · exact Or.inr (Or.inl e)
  · simp only [RoundLoop.polyline, twoHalves, leftCircle, rightCircle, List.cons_append, List.nil_append, List.mem_cons, List.not_mem_nil,
      or_false] at hv
    rcases hv with rfl | rfl | rfl | rfl <;> norm_num

theorem circles_cross : CrossClearly leftCircle rightCircle where
  two := by
    refine ⟨⟨4, 3⟩, ⟨4, -3⟩, ?_, circles_meet.2 (Or.inl rfl), circles_meet.2 (Or.inr rfl)⟩
    intro h
    rw [V2.mk.injEq] at h
    norm_num at h
  centers := by
    refine le_trans ?_ (Real.le_sqrt_of_sq_le (x := 8) ?_)
    · norm_num
    · simp only [leftCircle, rightCircle, dist2]; norm_num
  vertexA := by
    intro v hv
    simp only [RoundLoop.polyline, twoHalves, leftCircle, List.mem_cons, List.not_mem_nil, or_false] at hv
    unfold RoundLoop.Has
    show ¬ distance v.pos ⟨8, 0⟩ = 5
    rw [five_iff]
    rcases hv with rfl | rfl <;> norm_num
  vertexB := by
    intro v hv
    simp only [RoundLoop.polyline, twoHalves, rightCircle, List.mem_cons, List.not_mem_nil, or_false] at hv
    unfold RoundLoop.Has
    show ¬ distance v.pos ⟨0, 0⟩ = 5
    rw [five_iff]
    rcases hv with rfl | rfl <;> norm_num
  gap := by
    intro z w hz hw hne
    refine Real.le_sqrt_of_sq_le ?_
    simp only [leftCircle, rightCircle, dist2]
    rcases circles_marks hz with rfl | rfl | rfl | rfl | rfl | rfl <;> rcases circles_marks hw with rfl | rfl | rfl | rfl | rfl | rfl <;>
      first | exact absurd rfl hne | norm_num

example (inf ninf : ℝ) (std : StdSort) (hash : HashOrder) :
    ∃ r a, combinePolylines (codePlatform inf ninf) std hash leftCircle.polyline rightCircle.polyline .intersect = .ok r ∧ AreaOf r a ∧
      volume {z : ℝ × ℝ | distance ⟨z.1, z.2⟩ ⟨0, 0⟩ < 5 ∧ distance ⟨z.1, z.2⟩ ⟨8, 0⟩ < 5} = ENNReal.ofReal a := by
  obtain ⟨r, a, hr, -, -, ha, -, hv⟩ := C83_cross inf ninf (std := std) (hash := hash) leftCircle_ok rightCircle_ok circles_cross .intersect
  exact ⟨r, a, hr, ha, hv⟩

end
end
end Cavc

import Verif.Props.OffsetSmooth

/-! C80: the parallel offset of a circle. -/
namespace Cavc
open Spec
open scoped Classical
noncomputable section

variable {c e : V2} {r σ : ℝ}

theorem halves_seg {i : ℕ} {v1 v2 : Vertex} (h : IsSeg (twoHalves c e r σ) i v1 v2) :
    ∃ s : ℝ, (s = 1 ∨ s = -1) ∧ ((i = 0 ∧ s = 1) ∨ (i = 1 ∧ s = -1)) ∧ v1 = ⟨⟨c.x + s * r * e.x, c.y + s * r * e.y⟩, σ⟩ ∧
      v2 = ⟨⟨c.x - s * r * e.x, c.y - s * r * e.y⟩, σ⟩ := by
  unfold IsSeg twoHalves at h
  have hs : segs ⟨true, [⟨⟨c.x + r * e.x, c.y + r * e.y⟩, σ⟩, ⟨⟨c.x - r * e.x, c.y - r * e.y⟩, σ⟩]⟩ =
    [(⟨⟨c.x + r * e.x, c.y + r * e.y⟩, σ⟩, ⟨⟨c.x - r * e.x, c.y - r * e.y⟩, σ⟩),
     (⟨⟨c.x - r * e.x, c.y - r * e.y⟩, σ⟩, ⟨⟨c.x + r * e.x, c.y + r * e.y⟩, σ⟩)] := rfl
  rw [hs] at h
  match i, h with
  | 0, h =>
    simp only [List.getElem?_cons_zero, Option.some.injEq, Prod.mk.injEq] at h
    refine ⟨1, Or.inl rfl, Or.inl ⟨rfl, rfl⟩, ?_, ?_⟩
    · rw [← h.1]; simp only [one_mul]
    · rw [← h.2]; simp only [one_mul]
  | 1, h =>
    simp only [List.getElem?_cons_succ, List.getElem?_cons_zero, Option.some.injEq, Prod.mk.injEq] at h
    refine ⟨-1, Or.inr rfl, Or.inr ⟨rfl, rfl⟩, ?_, ?_⟩
    · rw [← h.1]; simp only [Vertex.mk.injEq, V2.mk.injEq, and_true]; constructor <;> ring
    · rw [← h.2]; simp only [Vertex.mk.injEq, V2.mk.injEq, and_true]; constructor <;> ring
  | (k + 2), h => simp at h

theorem half_sweep (hσ : σ = 1 ∨ σ = -1) (x : V2) : sweep ⟨x, σ⟩ = σ * Real.pi := by
  unfold sweep
  rcases hσ with rfl | rfl
  · simp only [Real.arctan_one]; ring
  · simp only [Real.arctan_neg, Real.arctan_one]; ring

theorem half_arc (hσ : σ = 1 ∨ σ = -1) (x : V2) : ¬ IsLine ⟨x, σ⟩ := by
  unfold IsLine
  rcases hσ with rfl | rfl <;> norm_num

theorem half_center (hσ : σ = 1 ∨ σ = -1) (x y : ℝ) (b : ℝ) : IsCenter ⟨⟨c.x + x, c.y + y⟩, σ⟩ ⟨⟨c.x - x, c.y - y⟩, b⟩ c := by
  unfold IsCenter
  rw [half_sweep hσ]
  have hs : Real.sin (σ * Real.pi) = 0 ∧ Real.cos (σ * Real.pi) = -1 := by rcases hσ with rfl | rfl <;> simp
  ext <;> simp only [rot, hs.1, hs.2] <;> ring

theorem half_centerOf (hσ : σ = 1 ∨ σ = -1) (x y : ℝ) (b : ℝ) :
    centerOf ⟨⟨c.x + x, c.y + y⟩, σ⟩ ⟨⟨c.x - x, c.y - y⟩, b⟩ = c :=
  (isCenter_unique (by rcases hσ with rfl | rfl <;> norm_num) (half_center hσ x y b)).symm

theorem half_radius {s : ℝ} (hs : s = 1 ∨ s = -1) (he : e.x ^ 2 + e.y ^ 2 = 1) (hr : 0 ≤ r) :
    distance ⟨c.x + s * r * e.x, c.y + s * r * e.y⟩ c = r := by
  have h2 : s ^ 2 = 1 := by rcases hs with rfl | rfl <;> norm_num
  have : dist2 ⟨c.x + s * r * e.x, c.y + s * r * e.y⟩ c = r ^ 2 := by
    simp only [dist2]
    have : (c.x + s * r * e.x - c.x) ^ 2 + (c.y + s * r * e.y - c.y) ^ 2 = s ^ 2 * r ^ 2 * (e.x ^ 2 + e.y ^ 2) := by ring
    rw [this, he, h2]; ring
  rw [distance, this, Real.sqrt_sq hr]

theorem halves_apart {s : ℝ} (hs : s = 1 ∨ s = -1) (he : e.x ^ 2 + e.y ^ 2 = 1) (hr : 1 / 10 ^ 4 ≤ r) :
    ¬ Near (1 / 10 ^ 5) ⟨c.x + s * r * e.x, c.y + s * r * e.y⟩ ⟨c.x - s * r * e.x, c.y - s * r * e.y⟩ := by
  rintro ⟨h1, h2⟩
  simp only at h1 h2
  have hr0 : (0 : ℝ) < 1 / 10 ^ 4 := by norm_num
  have hs2 : s ^ 2 = 1 := by rcases hs with rfl | rfl <;> norm_num
  rw [show c.x + s * r * e.x - (c.x - s * r * e.x) = 2 * s * r * e.x by ring] at h1
  rw [show c.y + s * r * e.y - (c.y - s * r * e.y) = 2 * s * r * e.y by ring] at h2
  have a1 := sq_lt_sq' (neg_lt_of_abs_lt h1) (lt_of_abs_lt h1)
  have a2 := sq_lt_sq' (neg_lt_of_abs_lt h2) (lt_of_abs_lt h2)
  have key : (2 * s * r * e.x) ^ 2 + (2 * s * r * e.y) ^ 2 = 4 * r ^ 2 := by
    have : (2 * s * r * e.x) ^ 2 + (2 * s * r * e.y) ^ 2 = 4 * s ^ 2 * r ^ 2 * (e.x ^ 2 + e.y ^ 2) := by ring
    rw [this, he, hs2]; ring
  have hr2 := pow_le_pow_left₀ hr0.le hr 2
  norm_num at a1 a2 hr2
  linarith

theorem halves_ok (hσ : σ = 1 ∨ σ = -1) (he : e.x ^ 2 + e.y ^ 2 = 1) (hr : 1 / 10 ^ 4 ≤ r) :
    BulgesOk (twoHalves c e r σ) ∧ NoRepeats (twoHalves c e r σ) ∧ NotTiny (twoHalves c e r σ) := by
  have hno : NoRepeats (twoHalves c e r σ) := by
    intro i v1 v2 h
    obtain ⟨s, hs, -, rfl, rfl⟩ := halves_seg h
    exact halves_apart hs he hr
  have hmem : ∀ v ∈ (twoHalves c e r σ).vertexes, ¬ IsLine v ∧ v.bulge = σ := by
    intro v hv
    simp only [twoHalves, List.mem_cons, List.not_mem_nil, or_false] at hv
    rcases hv with rfl | rfl <;> exact ⟨half_arc hσ _, rfl⟩
  refine ⟨?_, hno, ?_, ?_, ?_, hno⟩
  · intro v hv
    rw [(hmem v hv).2]
    rcases hσ with rfl | rfl <;> norm_num
  · intro i j v1 v2 v3 h _ _ hl
    obtain ⟨s, hs, -, rfl, rfl⟩ := halves_seg h
    exact half_arc hσ _ hl.1
  · intro v hv hl
    exact absurd hl (hmem v hv).1
  · intro i v1 v2 h hl
    obtain ⟨s, hs, -, rfl, rfl⟩ := halves_seg h
    exact absurd hl (half_arc hσ _)

theorem halves_indexable (hσ : σ = 1 ∨ σ = -1) (inf ninf : ℝ) : Indexable (codePlatform inf ninf) (twoHalves c e r σ) := by
  refine indexable_code (by simp [twoHalves]) (show 2 ≤ _ by norm_num) _ _ (Or.inl (show 2 ≤ _ by norm_num)) ?_
  intro i v1 v2 h
  obtain ⟨s, hs, -, rfl, rfl⟩ := halves_seg h
  simp only
  rcases hσ with rfl | rfl <;> norm_num

theorem halves_selfs (hσ : σ = 1 ∨ σ = -1) {l : List PlineIntersect} (h : SelfIntersectsOf (twoHalves c e r σ) l) : l = [] := by
  obtain ⟨pairs, -, -, hp, rfl⟩ := h
  have e1 : pairs = [] := by
    rw [List.eq_nil_iff_forall_not_mem]
    rintro ⟨i, j⟩ hij
    obtain ⟨⟨hne, n1, n2⟩, v1, v2, u1, u2, h1, h2, -⟩ := (hp i j).1 (Or.inl hij)
    obtain ⟨s, -, hi, -⟩ := halves_seg h1
    obtain ⟨s', -, hj, -⟩ := halves_seg h2
    have hl : (twoHalves c e r σ).vertexes.length = 2 := rfl
    rw [hl] at n1 n2
    unfold IsPrev at n1 n2
    omega
  rw [e1, List.flatMap_nil, List.append_nil]
  unfold twoHalves consecutiveOf
  simp only
  rw [if_neg]
  rcases hσ with rfl | rfl <;> norm_num

theorem halves_parallel (hσ : σ = 1 ∨ σ = -1) (he : e.x ^ 2 + e.y ^ 2 = 1) {offset : ℝ} (hr : 1 / 10 ^ 4 ≤ r) :
    ParallelTo offset (twoHalves c e r σ) (twoHalves c e (r - σ * offset) σ) := by
  have hr0 : 0 < r := lt_of_lt_of_le (by norm_num) hr
  have h2 : σ * σ = 1 := by rcases hσ with rfl | rfl <;> norm_num
  refine ⟨rfl, rfl, rfl, ?_⟩
  intro i v1 v2 w1 w2 hv hw
  obtain ⟨s, hs, his, rfl, rfl⟩ := halves_seg hv
  obtain ⟨s', hs', his', rfl, rfl⟩ := halves_seg hw
  have hss : s' = s := by
    rcases his with ⟨h, rfl⟩ | ⟨h, rfl⟩ <;> rcases his' with ⟨h', rfl⟩ | ⟨h', rfl⟩ <;> first | rfl | omega
  subst hss
  refine ⟨rfl, ?_⟩
  intro γ γ' t n hγ hγ' hn
  have hcen := half_centerOf (c := c) hσ (s' * r * e.x) (s' * r * e.y) σ
  have hne : (⟨c.x + s' * r * e.x, c.y + s' * r * e.y⟩ : V2) ≠ c := by
    intro h
    have := half_radius (c := c) hs' he hr0.le
    rw [h] at this
    have h0 : distance c c = 0 := by simp [distance, dist2]
    rw [h0] at this
    linarith
  obtain ⟨κ, hκ, -, hx, hy⟩ := arc_normal (half_arc hσ _) hγ hn (by rw [hcen]; exact hne)
  rw [hcen] at hκ hx hy
  rw [half_sweep hσ, half_radius hs' he hr0.le] at hκ
  have hsg : ((SignType.sign (σ * Real.pi) : SignType) : ℝ) = σ := by
    rcases hσ with rfl | rfl
    · rw [one_mul, sign_pos Real.pi_pos]; rfl
    · rw [neg_one_mul, sign_neg (by linarith [Real.pi_pos])]; rfl
  rw [hsg] at hκ
  have hγ1 := path_arc (half_arc hσ _) hγ
  have hγ2 := path_arc (half_arc hσ _) hγ'
  rw [hcen] at hγ1
  rw [half_centerOf hσ] at hγ2
  have e1 : γ t = rot c (t * (σ * Real.pi)) ⟨c.x + s' * r * e.x, c.y + s' * r * e.y⟩ := by rw [hγ1, half_sweep hσ]
  have e2 : γ' t = rot c (t * (σ * Real.pi)) ⟨c.x + s' * (r - σ * offset) * e.x, c.y + s' * (r - σ * offset) * e.y⟩ := by
    rw [hγ2, half_sweep hσ]
  have f1 : σ * n.x * r = -(r * s' * (Real.cos (t * (σ * Real.pi)) * e.x - Real.sin (t * (σ * Real.pi)) * e.y)) := by
    rw [e1, hκ] at hx
    simp only [rot] at hx
    linarith
  have f2 : σ * n.y * r = -(r * s' * (Real.sin (t * (σ * Real.pi)) * e.x + Real.cos (t * (σ * Real.pi)) * e.y)) := by
    rw [e1, hκ] at hy
    simp only [rot] at hy
    linarith
  have g1 : σ * n.x = -(s' * (Real.cos (t * (σ * Real.pi)) * e.x - Real.sin (t * (σ * Real.pi)) * e.y)) :=
    mul_right_cancel₀ hr0.ne' (by linarith)
  have g2 : σ * n.y = -(s' * (Real.sin (t * (σ * Real.pi)) * e.x + Real.cos (t * (σ * Real.pi)) * e.y)) :=
    mul_right_cancel₀ hr0.ne' (by linarith)
  rw [e1, e2]
  ext
  · simp only [V2.add_x, V2.smul_x, rot]
    linear_combination (-(offset * σ)) * g1 + offset * n.x * h2
  · simp only [V2.add_y, V2.smul_y, rot]
    linear_combination (-(offset * σ)) * g2 + offset * n.y * h2

/-- C80. The offset of a circle is the circle with the other radius, whatever the direction in which it runs, where it
starts and what orders of hash tables and sorting there are. -/
theorem C80_circle {std : StdSort} {hash : HashOrder} (inf ninf : ℝ) {offset : ℝ} (hσ : σ = 1 ∨ σ = -1)
    (he : e.x ^ 2 + e.y ^ 2 = 1) (hr : 1 / 10 ^ 4 ≤ r) (ho : 1 / 10 ^ 4 ≤ |offset|) (hr' : 1 / 10 ^ 4 ≤ r - σ * offset) :
    parallelOffset (codePlatform inf ninf) std hash (twoHalves c e r σ) offset = .ok [twoHalves c e (r - σ * offset) σ] := by
  have hr0 : 0 < r := lt_of_lt_of_le (by norm_num) hr
  have hr0' : 0 < r - σ * offset := lt_of_lt_of_le (by norm_num) hr'
  obtain ⟨hb, hn, -⟩ := halves_ok (c := c) hσ he hr
  obtain ⟨-, -, ht⟩ := halves_ok (c := c) hσ he hr'
  have habs : |σ * offset| = |offset| := by rcases hσ with rfl | rfl <;> simp
  obtain ⟨res, h1, -, h2, -⟩ := C80_parallel (std := std) (hash := hash) inf ninf (halves_parallel (c := c) hσ he (offset := offset) hr)
    (show 2 ≤ 2 by norm_num) ho (halves_indexable hσ inf ninf) (halves_indexable hσ inf ninf) hb hn ht (by
      rintro i v1 v2 h ⟨-, ρ, ⟨c', hc', rfl⟩, hlt⟩
      obtain ⟨s, hs, -, rfl, rfl⟩ := halves_seg h
      have := isCenter_unique (by rcases hσ with rfl | rfl <;> norm_num) hc'
      rw [half_centerOf hσ] at this
      subst this
      rw [half_radius hs he hr0.le] at hlt
      have h8 : (1 : ℝ) / 10 ^ 8 < 1 / 10 ^ 4 := by norm_num
      rcases hσ with rfl | rfl
      · rw [if_neg (by norm_num)] at hlt; linarith
      · rw [if_pos (by norm_num)] at hlt; linarith) (fun l hl => halves_selfs hσ hl)
    (first := ⟨⟨c.x + (r - σ * offset) * e.x, c.y + (r - σ * offset) * e.y⟩, σ⟩) rfl
  rw [h1]
  congr 1
  apply h2
  · rintro z ⟨i, v1, v2, hseg, hon⟩
    obtain ⟨s, hs, -, rfl, rfl⟩ := halves_seg hseg
    obtain ⟨t, -, -, hz⟩ := hon
    rw [atParam_arc (half_arc hσ _), half_centerOf hσ] at hz
    have hzc : distance z c = r := by
      rw [hz, distance, dist2_rot, ← distance, half_radius hs he hr0.le]
    have hxc := half_radius (c := c) (Or.inl rfl) he hr0'.le
    simp only [one_mul] at hxc
    have t1 := distance_tri (⟨c.x + (r - σ * offset) * e.x, c.y + (r - σ * offset) * e.y⟩ : V2) z c
    have t2 := distance_tri z (⟨c.x + (r - σ * offset) * e.x, c.y + (r - σ * offset) * e.y⟩ : V2) c
    rw [hzc, hxc] at t1 t2
    rw [distance_symm z] at t2
    rw [← habs, abs_le]
    constructor <;> linarith
  · intro i v1 v2 hseg
    obtain ⟨s, hs, -, rfl, rfl⟩ := halves_seg hseg
    refine Or.inr fun c' hc' => ?_
    have := isCenter_unique (by rcases hσ with rfl | rfl <;> norm_num) hc'
    rw [half_centerOf hσ] at this
    subst this
    have s1 : side c' ⟨c'.x + s * r * e.x, c'.y + s * r * e.y⟩ ⟨c'.x + (r - σ * offset) * e.x, c'.y + (r - σ * offset) * e.y⟩ = 0 := by
      simp only [side]; ring
    have s2 : side c' ⟨c'.x - s * r * e.x, c'.y - s * r * e.y⟩ ⟨c'.x + (r - σ * offset) * e.x, c'.y + (r - σ * offset) * e.y⟩ = 0 := by
      simp only [side]; ring
    simp only [s1, s2, le_refl, and_true]
    rcases hσ with rfl | rfl <;> norm_num

/-- Offsets of a circle add up. -/
theorem C80_circle_twice {std : StdSort} {hash : HashOrder} (inf ninf : ℝ) {o1 o2 : ℝ} (hσ : σ = 1 ∨ σ = -1)
    (he : e.x ^ 2 + e.y ^ 2 = 1) (hr : 1 / 10 ^ 4 ≤ r) (h1 : 1 / 10 ^ 4 ≤ |o1|) (h2 : 1 / 10 ^ 4 ≤ |o2|) (h3 : 1 / 10 ^ 4 ≤ |o1 + o2|)
    (hr1 : 1 / 10 ^ 4 ≤ r - σ * o1) (hr2 : 1 / 10 ^ 4 ≤ r - σ * (o1 + o2)) :
    ∃ q q', parallelOffset (codePlatform inf ninf) std hash (twoHalves c e r σ) o1 = .ok [q] ∧
      parallelOffset (codePlatform inf ninf) std hash q o2 = .ok [q'] ∧
      parallelOffset (codePlatform inf ninf) std hash (twoHalves c e r σ) (o1 + o2) = .ok [q'] := by
  refine ⟨_, _, C80_circle inf ninf hσ he hr h1 hr1, C80_circle inf ninf hσ he hr1 h2 (by linarith), ?_⟩
  rw [C80_circle inf ninf hσ he hr h3 hr2]
  rw [show r - σ * (o1 + o2) = r - σ * o1 - σ * o2 by ring]

/-- The circle of radius 5 about (1, 2), started in direction (3/5, 4/5) and run clockwise, with offset 2. -/
example (std : StdSort) (hash : HashOrder) :
    parallelOffset (codePlatform 0 0) std hash (twoHalves ⟨1, 2⟩ ⟨3 / 5, 4 / 5⟩ 5 (-1)) 2 = .ok [twoHalves ⟨1, 2⟩ ⟨3 / 5, 4 / 5⟩ 7 (-1)] := by
  have := C80_circle (std := std) (hash := hash) 0 0 (c := ⟨1, 2⟩) (e := ⟨3 / 5, 4 / 5⟩) (r := 5) (σ := -1) (offset := 2) (Or.inr rfl)
    (by norm_num) (by norm_num) (by norm_num) (by norm_num)
  rw [this]
  norm_num

end
end Cavc

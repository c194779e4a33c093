import Verif.Props.OffsetSmooth

/-! C80: the parallel offset of a rectangle with rounded corners. -/
namespace Cavc
open Spec
open scoped Classical
noncomputable section

theorem start_mem {p : Polyline} {i : ℕ} {v1 v2 : Vertex} (h : IsSeg p i v1 v2) : v1 ∈ p.vertexes := by
  unfold IsSeg segs at h
  split_ifs at h
  · simp at h
  · exact (List.of_mem_zip (List.mem_of_getElem? h)).1
  · exact (List.of_mem_zip (List.mem_of_getElem? h)).1

/-- A line moved along its normal. -/
theorem parallelSeg_line {offset L : ℝ} {v1 v2 w1 w2 : Vertex} {m : V2} (hl : IsLine v1) (hb : w1.bulge = v1.bulge) (hL : 0 < L)
    (hm : m.x ^ 2 + m.y ^ 2 = 1) (hx : v2.pos.x - v1.pos.x = L * m.y) (hy : v2.pos.y - v1.pos.y = -(L * m.x))
    (h1 : w1.pos = v1.pos + offset • m) (h2 : w2.pos = v2.pos + offset • m) : ParallelSeg offset v1 v2 w1 w2 := by
  refine ⟨hb, fun γ γ' t n hγ hγ' hn => ?_⟩
  rw [path_line hl hγ] at hn
  rw [path_line hl hγ, path_line ((isLine_same hb).2 hl) hγ']
  obtain ⟨hu, k, hk, hv⟩ := hn
  rw [velocity_line] at hv
  have ex : v2.pos.x - v1.pos.x = k * n.y := congrArg V2.x hv
  have ey : v2.pos.y - v1.pos.y = -(k * n.x) := congrArg V2.y hv
  have e1 : k * n.y = L * m.y := by rw [← ex, hx]
  have e2 : k * n.x = L * m.x := by linarith
  have hkL : k = L := by
    have : k ^ 2 = L ^ 2 := by
      have a : k ^ 2 = (k * n.x) ^ 2 + (k * n.y) ^ 2 := by rw [mul_pow, mul_pow, ← mul_add, hu, mul_one]
      have b : L ^ 2 = (L * m.x) ^ 2 + (L * m.y) ^ 2 := by rw [mul_pow, mul_pow, ← mul_add, hm, mul_one]
      rw [a, b, e1, e2]
    nlinarith
  subst hkL
  have en : n = m := by
    ext
    · exact mul_left_cancel₀ hk.ne' e2
    · exact mul_left_cancel₀ hk.ne' e1
  rw [en, h1, h2]
  ext
  · simp only [lerp, V2.add_x, V2.smul_x]; ring
  · simp only [lerp, V2.add_y, V2.smul_y]; ring

/-- An arc with the same center and another radius. -/
theorem parallelSeg_arc {offset σ r : ℝ} {v1 v2 w1 w2 : Vertex} {c : V2} (hl : ¬ IsLine v1) (hb : w1.bulge = v1.bulge)
    (hc : IsCenter v1 v2 c) (hc' : IsCenter w1 w2 c) (hr : 0 < r) (hd : distance v1.pos c = r) (hσ : 0 < σ * sweep v1)
    (hσ1 : σ = 1 ∨ σ = -1) (hx : (w1.pos.x - c.x) * r = (v1.pos.x - c.x) * (r - σ * offset))
    (hy : (w1.pos.y - c.y) * r = (v1.pos.y - c.y) * (r - σ * offset)) : ParallelSeg offset v1 v2 w1 w2 := by
  refine ⟨hb, fun γ γ' t n hγ hγ' hn => ?_⟩
  have hl' : ¬ IsLine w1 := fun h => hl ((isLine_same hb).1 h)
  have ec := isCenter_unique (bulge_ne_zero hl) hc
  have ec' := isCenter_unique (bulge_ne_zero hl') hc'
  have hne : v1.pos ≠ centerOf v1 v2 := by
    rw [← ec]
    intro h
    rw [h] at hd
    have h0 : distance c c = 0 := by simp [distance, dist2]
    linarith
  obtain ⟨κ, hκ, -, kx, ky⟩ := arc_normal hl hγ hn hne
  rw [← ec] at hκ kx ky
  have hsg : ((SignType.sign (sweep v1) : SignType) : ℝ) = σ := by
    rcases hσ1 with rfl | rfl
    · rw [sign_pos (by linarith)]; rfl
    · rw [sign_neg (by linarith)]; rfl
  rw [hsg, hd] at hκ
  have e1 : γ t = rot c (t * sweep v1) v1.pos := by rw [path_arc hl hγ, ← ec]
  have e2 : γ' t = rot c (t * sweep v1) w1.pos := by
    rw [path_arc hl' hγ', ← ec']
    simp only [sweep, hb]
  have h2 : σ * σ = 1 := by rcases hσ1 with rfl | rfl <;> norm_num
  have wx : w1.pos.x = c.x + (r - σ * offset) / r * (v1.pos.x - c.x) := by field_simp; linarith
  have wy : w1.pos.y = c.y + (r - σ * offset) / r * (v1.pos.y - c.y) := by field_simp; linarith
  have ew : w1.pos = ⟨c.x + (r - σ * offset) / r * (v1.pos.x - c.x), c.y + (r - σ * offset) / r * (v1.pos.y - c.y)⟩ := by
    ext
    · exact wx
    · exact wy
  rw [e2, ew, rot_scale, ← e1]
  rw [hκ] at kx ky
  ext
  · simp only [V2.add_x, V2.smul_x]
    have : (γ t).x - c.x = -(σ * r * n.x) := by linarith
    rw [this]
    have : (γ t).x = c.x - σ * r * n.x := by linarith
    rw [this]
    field_simp
    linear_combination (offset * n.x) * h2
  · simp only [V2.add_y, V2.smul_y]
    have : (γ t).y - c.y = -(σ * r * n.y) := by linarith
    rw [this]
    have : (γ t).y = c.y - σ * r * n.y := by linarith
    rw [this]
    field_simp
    linear_combination (offset * n.y) * h2

section
variable {σ X0 y0 X1 y1 d d' : ℝ}

/-- The rectangle with rounded corners of radius `d`, in the direction `σ`, with exactly straight sides. -/
abbrev rounded (σ X0 y0 X1 y1 d : ℝ) : Polyline := roundRect (σ * X0) y0 (σ * X1) y1 (σ * d) d (σ * Real.tan (Real.pi / 8)) 0 0 0 0

theorem rounded_is (h : RoundOk σ X0 y0 X1 y1 d) : IsRound σ X0 y0 X1 y1 d (rounded σ X0 y0 X1 y1 d) :=
  ⟨h, 0, 0, 0, 0, by norm_num, rfl⟩

theorem rounded_zero {v : Vertex} (hσ : σ = 1 ∨ σ = -1) (hv : v ∈ (rounded σ X0 y0 X1 y1 d).vertexes) (hl : IsLine v) : v.bulge = 0 := by
  simp only [roundRect, List.mem_cons, List.not_mem_nil, or_false] at hv
  have harc : ∀ x : V2, ¬ IsLine ⟨x, σ * Real.tan (Real.pi / 8)⟩ := fun x => (eighth_arc hσ rfl).1
  rcases hv with rfl | rfl | rfl | rfl | rfl | rfl | rfl | rfl <;> first | rfl | exact absurd hl (harc _)

theorem rounded_parallel (h : RoundOk σ X0 y0 X1 y1 d) (h' : RoundOk σ X0 y0 X1 y1 d') :
    ParallelTo (-(σ * (d' - d))) (rounded σ X0 y0 X1 y1 d) (rounded σ X0 y0 X1 y1 d') := by
  have hd0 : 0 < d := lt_of_lt_of_le (by norm_num) h.offset
  have e3 : (0 : ℝ) < 1 / 10 ^ 3 := by norm_num
  have hw := h.width
  have hh := h.height
  have hσ2 : σ * σ = 1 := by rcases h.sign with e | e <;> rw [e] <;> norm_num
  have hσσ : σ ^ 2 = 1 := by rw [sq, hσ2]
  refine ⟨rfl, rfl, rfl, ?_⟩
  intro i v1 v2 w1 w2 hv hww
  have hz : IsLine v1 → IsLine w1 → w1.bulge = v1.bulge := fun a b => by
    have m1 : v1 ∈ (rounded σ X0 y0 X1 y1 d).vertexes := start_mem hv
    have m2 : w1 ∈ (rounded σ X0 y0 X1 y1 d').vertexes := start_mem hww
    rw [rounded_zero h.sign m1 a, rounded_zero h.sign m2 b]
  have arc : ∀ {lx hx ly hy lx' hx' ly' hy' : ℝ} {c : V2}, IsRounding σ lx hx ly hy d c v1 v2 →
      IsRounding σ lx' hx' ly' hy' d' c w1 w2 → distance v1.pos c = d → (w1.pos.x - c.x) * d = (v1.pos.x - c.x) * d' →
      (w1.pos.y - c.y) * d = (v1.pos.y - c.y) * d' → ParallelSeg (-(σ * (d' - d))) v1 v2 w1 w2 := by
    intro lx hx ly hy lx' hx' ly' hy' c g g' e1 e2 e4
    obtain ⟨ha, -, -, -, hsw⟩ := eighth_arc h.sign g.bulge
    refine parallelSeg_arc ha (by rw [g.bulge, g'.bulge]) g.center g'.center hd0 e1 ?_ h.sign ?_ ?_
    · rw [hsw, ← mul_assoc, hσ2]; have := Real.pi_pos; linarith
    · rw [e2]; linear_combination (v1.pos.x - c.x) * (d - d') * hσ2
    · rw [e4]; linear_combination (v1.pos.y - c.y) * (d - d') * hσ2
  have hdist : ∀ {a b : V2}, (a.x - b.x) ^ 2 + (a.y - b.y) ^ 2 = d ^ 2 → distance a b = d := by
    intro a b hab
    rw [distance, show dist2 a b = d ^ 2 from hab, Real.sqrt_sq hd0.le]
  rcases round_seg (rounded_is h) hv with ⟨rfl, a, b, g⟩ | ⟨rfl, a, b, g⟩ | ⟨rfl, a, b, g⟩ | ⟨rfl, a, b, g⟩ |
    ⟨rfl, a, b, g⟩ | ⟨rfl, a, b, g⟩ | ⟨rfl, a, b, g⟩ | ⟨rfl, a, b, g⟩ <;>
  rcases round_seg (rounded_is h') hww with ⟨e, a', b', g'⟩ | ⟨e, a', b', g'⟩ | ⟨e, a', b', g'⟩ | ⟨e, a', b', g'⟩ |
    ⟨e, a', b', g'⟩ | ⟨e, a', b', g'⟩ | ⟨e, a', b', g'⟩ | ⟨e, a', b', g'⟩ <;>
  first
  | (exfalso; omega)
  | skip
  · refine parallelSeg_line (L := X1 - X0) (m := ⟨0, σ⟩) g.line (hz g.line g'.line) (by linarith) (by simp [hσσ]) ?_ ?_ ?_ ?_
    · rw [a, b]; simp only; ring
    · rw [a, b]; simp only; ring
    · rw [a, a']; ext
      · simp
      · simp only [V2.add_y, V2.smul_y]; linear_combination (d' - d) * hσ2
    · rw [b, b']; ext
      · simp
      · simp only [V2.add_y, V2.smul_y]; linear_combination (d' - d) * hσ2
  · refine arc g g' (hdist ?_) ?_ ?_
    · rw [a]; simp only; ring
    · rw [a, a']; simp only; ring
    · rw [a, a']; simp only; ring
  · refine parallelSeg_line (L := y1 - y0) (m := ⟨-1, 0⟩) g.line (hz g.line g'.line) (by linarith) (by norm_num) ?_ ?_ ?_ ?_
    · rw [a, b]; simp only; ring
    · rw [a, b]; simp only; ring
    · rw [a, a']; ext
      · simp only [V2.add_x, V2.smul_x]; ring
      · simp
    · rw [b, b']; ext
      · simp only [V2.add_x, V2.smul_x]; ring
      · simp
  · refine arc g g' (hdist ?_) ?_ ?_
    · rw [a]; simp only; linear_combination d ^ 2 * hσ2
    · rw [a, a']; simp only; ring
    · rw [a, a']; simp only; ring
  · refine parallelSeg_line (L := X1 - X0) (m := ⟨0, -σ⟩) g.line (hz g.line g'.line) (by linarith) (by simp [hσσ]) ?_ ?_ ?_ ?_
    · rw [a, b]; simp only; ring
    · rw [a, b]; simp only; ring
    · rw [a, a']; ext
      · simp
      · simp only [V2.add_y, V2.smul_y]; linear_combination (d - d') * hσ2
    · rw [b, b']; ext
      · simp
      · simp only [V2.add_y, V2.smul_y]; linear_combination (d - d') * hσ2
  · refine arc g g' (hdist ?_) ?_ ?_
    · rw [a]; simp only; ring
    · rw [a, a']; simp only; ring
    · rw [a, a']; simp only; ring
  · refine parallelSeg_line (L := y1 - y0) (m := ⟨1, 0⟩) g.line (hz g.line g'.line) (by linarith) (by norm_num) ?_ ?_ ?_ ?_
    · rw [a, b]; simp only; ring
    · rw [a, b]; simp only; ring
    · rw [a, a']; ext
      · simp only [V2.add_x, V2.smul_x]; ring
      · simp
    · rw [b, b']; ext
      · simp only [V2.add_x, V2.smul_x]; ring
      · simp
  · refine arc g g' (hdist ?_) ?_ ?_
    · rw [a]; simp only; linear_combination d ^ 2 * hσ2
    · rw [a, a']; simp only; ring
    · rw [a, a']; simp only; ring

/-- The points of the rectangle with rounded corners are not closer than `d` to the first corner, and not below its lowest side. -/
theorem rounded_points (h : RoundOk σ X0 y0 X1 y1 d) {z : V2} (hz : OnPline (rounded σ X0 y0 X1 y1 d) z) :
    d ≤ distance ⟨σ * X0, y0⟩ z ∧ y0 - d ≤ z.y := by
  obtain ⟨i, v, w, hseg, hon⟩ := hz
  have hd0 : 0 < d := lt_of_lt_of_le (by norm_num) h.offset
  have e3 : (0 : ℝ) < 1 / 10 ^ 3 := by norm_num
  have hw := h.width
  have hh := h.height
  have hσ2 : σ * σ = 1 := by rcases h.sign with e | e <;> rw [e] <;> norm_num
  have hok := (rounded_is h).ok _ _ _ hseg
  have far : ∀ {A B : ℝ}, d ^ 2 ≤ A ^ 2 + B ^ 2 → (σ * X0 - z.x) ^ 2 = A ^ 2 → (y0 - z.y) ^ 2 = B ^ 2 → d ≤ distance ⟨σ * X0, y0⟩ z := by
    intro A B h1 h2 h3
    unfold distance dist2
    simp only
    rw [h2, h3]
    exact Real.le_sqrt_of_sq_le h1
  have sx : (σ * X0 - z.x) ^ 2 = (X0 - σ * z.x) ^ 2 := by
    linear_combination (X0 ^ 2 - z.x ^ 2) * hσ2
  have onc : ∀ {lx hx ly hy : ℝ} {c : V2}, IsRounding σ lx hx ly hy d c v w → (v.pos.x - c.x) ^ 2 + (v.pos.y - c.y) ^ 2 = d ^ 2 →
      (z.x - c.x) ^ 2 + (z.y - c.y) ^ 2 = d ^ 2 := by
    intro lx hx ly hy c g e
    have ha := (eighth_arc h.sign g.bulge).1
    obtain ⟨t, -, -, ht⟩ := hon
    rw [atParam_arc ha, ← isCenter_unique (bulge_ne_zero ha) g.center] at ht
    have := dist2_rot c v.pos (t * sweep v)
    rw [← ht] at this
    rw [show dist2 z c = (z.x - c.x) ^ 2 + (z.y - c.y) ^ 2 from rfl] at this
    rw [this]
    exact e
  rcases round_seg (rounded_is h) hseg with ⟨-, a, b, g⟩ | ⟨-, a, b, g⟩ | ⟨-, a, b, g⟩ | ⟨-, a, b, g⟩ |
    ⟨-, a, b, g⟩ | ⟨-, a, b, g⟩ | ⟨-, a, b, g⟩ | ⟨-, a, b, g⟩ <;> obtain ⟨p1, p2, p3, p4⟩ := g.inBox.point h.sign hok hon
  · refine ⟨far (A := X0 - σ * z.x) (B := d) (by nlinarith [sq_nonneg (X0 - σ * z.x)]) sx (by rw [show y0 - z.y = d by linarith]), by linarith⟩
  · have c := onc g (by rw [a]; simp only; ring)
    simp only at c
    have cx : (z.x - σ * X1) ^ 2 = (σ * z.x - X1) ^ 2 := by linear_combination (X1 ^ 2 - z.x ^ 2) * hσ2
    rw [cx] at c
    refine ⟨far (A := X0 - σ * z.x) (B := y0 - z.y) ?_ sx rfl, ?_⟩
    · nlinarith
    · have := abs_le_of_sq_le_sq' (show (z.y - y0) ^ 2 ≤ d ^ 2 by nlinarith [sq_nonneg (σ * z.x - X1)]) hd0.le
      linarith [this.1]
  · refine ⟨far (A := X0 - σ * z.x) (B := y0 - z.y) (by nlinarith [sq_nonneg (y0 - z.y)]) sx rfl, by linarith⟩
  · have c := onc g (by rw [a]; simp only; linear_combination d ^ 2 * hσ2)
    simp only at c
    have cx : (z.x - σ * X1) ^ 2 = (σ * z.x - X1) ^ 2 := by linear_combination (X1 ^ 2 - z.x ^ 2) * hσ2
    rw [cx] at c
    refine ⟨far (A := X0 - σ * z.x) (B := y0 - z.y) ?_ sx rfl, by linarith⟩
    have k1 : (σ * z.x - X1) ^ 2 ≤ (X0 - σ * z.x) ^ 2 := by nlinarith
    have k2 : (z.y - y1) ^ 2 ≤ (y0 - z.y) ^ 2 := by nlinarith
    linarith
  · refine ⟨far (A := X0 - σ * z.x) (B := y0 - z.y) (by nlinarith [sq_nonneg (X0 - σ * z.x)]) sx rfl, by linarith⟩
  · have c := onc g (by rw [a]; simp only; ring)
    simp only at c
    have cx : (z.x - σ * X0) ^ 2 = (X0 - σ * z.x) ^ 2 := by rw [← sx]; ring
    rw [cx] at c
    refine ⟨far (A := X0 - σ * z.x) (B := y0 - z.y) ?_ sx rfl, by linarith⟩
    have k2 : (z.y - y1) ^ 2 ≤ (y0 - z.y) ^ 2 := by nlinarith
    linarith
  · refine ⟨far (A := d) (B := y0 - z.y) (by nlinarith [sq_nonneg (y0 - z.y)]) (by rw [sx, show X0 - σ * z.x = d by linarith]) rfl, by linarith⟩
  · have c := onc g (by rw [a]; simp only; linear_combination d ^ 2 * hσ2)
    simp only at c
    have cx : (z.x - σ * X0) ^ 2 = (X0 - σ * z.x) ^ 2 := by rw [← sx]; ring
    rw [cx] at c
    refine ⟨far (A := X0 - σ * z.x) (B := y0 - z.y) ?_ sx rfl, ?_⟩
    · rw [← c]; apply le_of_eq; ring
    · have := abs_le_of_sq_le_sq' (show (z.y - y0) ^ 2 ≤ d ^ 2 by nlinarith [sq_nonneg (X0 - σ * z.x)]) hd0.le
      linarith [this.1]

theorem rounded_decided (h : RoundOk σ X0 y0 X1 y1 d) (h' : RoundOk σ X0 y0 X1 y1 d') {i : ℕ} {v w : Vertex}
    (hseg : IsSeg (rounded σ X0 y0 X1 y1 d) i v w) : SectorDecided v w ⟨σ * X0, y0 - d'⟩ := by
  have hd0 : 0 < d := lt_of_lt_of_le (by norm_num) h.offset
  have hd0' : 0 < d' := lt_of_lt_of_le (by norm_num) h'.offset
  have hd4 := h.offset
  have hd4' := h'.offset
  have e3 : (0 : ℝ) < 1 / 10 ^ 3 := by norm_num
  have hw := h.width
  have hh := h.height
  have hdd : 1 / 10 ^ 8 ≤ d * d' := by
    have : (1 : ℝ) / 10 ^ 8 = 1 / 10 ^ 4 * (1 / 10 ^ 4) := by norm_num
    rw [this]; exact mul_le_mul hd4 hd4' (by norm_num) hd0.le
  have hdw : 1 / 10 ^ 8 ≤ d * (X1 - X0) := by
    have : (1 : ℝ) / 10 ^ 8 ≤ 1 / 10 ^ 4 * (1 / 10 ^ 3) := by norm_num
    exact this.trans (mul_le_mul hd4 (by linarith) (by norm_num) hd0.le)
  have hdh : 1 / 10 ^ 8 ≤ d * (y1 - y0 + d') := by
    have : (1 : ℝ) / 10 ^ 8 ≤ 1 / 10 ^ 4 * (1 / 10 ^ 3) := by norm_num
    exact this.trans (mul_le_mul hd4 (by linarith) (by norm_num) hd0.le)
  have e8 : (0 : ℝ) < 1 / 10 ^ 8 := by norm_num
  obtain ⟨t1, -⟩ := tan_eighth
  have t0 : 0 < Real.tan (Real.pi / 8) := lt_of_lt_of_le (by norm_num) t1
  rcases round_seg (rounded_is h) hseg with ⟨-, a, b, g⟩ | ⟨-, a, b, g⟩ | ⟨-, a, b, g⟩ | ⟨-, a, b, g⟩ |
    ⟨-, a, b, g⟩ | ⟨-, a, b, g⟩ | ⟨-, a, b, g⟩ | ⟨-, a, b, g⟩
  · exact Or.inl g.line
  · refine Or.inr fun c hc => Or.inr (Or.inr ?_)
    have ha := (eighth_arc h.sign g.bulge).1
    rw [isCenter_unique (bulge_ne_zero ha) hc, ← isCenter_unique (bulge_ne_zero ha) g.center]
    unfold InSweep
    rw [a, b, g.bulge]
    simp only [side]
    rcases h.sign with rfl | rfl
    · rintro (⟨-, q1, q2⟩ | ⟨q0, -⟩) <;> nlinarith
    · rintro (⟨q0, -⟩ | ⟨-, q1, q2⟩) <;> nlinarith
  · exact Or.inl g.line
  · refine Or.inr fun c hc => Or.inr (Or.inr ?_)
    have ha := (eighth_arc h.sign g.bulge).1
    rw [isCenter_unique (bulge_ne_zero ha) hc, ← isCenter_unique (bulge_ne_zero ha) g.center]
    unfold InSweep
    rw [a, b, g.bulge]
    simp only [side]
    rcases h.sign with rfl | rfl
    · rintro (⟨-, q1, q2⟩ | ⟨q0, -⟩) <;> nlinarith
    · rintro (⟨q0, -⟩ | ⟨-, q1, q2⟩) <;> nlinarith
  · exact Or.inl g.line
  · refine Or.inr fun c hc => Or.inr (Or.inr ?_)
    have ha := (eighth_arc h.sign g.bulge).1
    rw [isCenter_unique (bulge_ne_zero ha) hc, ← isCenter_unique (bulge_ne_zero ha) g.center]
    unfold InSweep
    rw [a, b, g.bulge]
    simp only [side]
    rcases h.sign with rfl | rfl
    · rintro (⟨-, q1, q2⟩ | ⟨q0, -⟩) <;> nlinarith
    · rintro (⟨q0, -⟩ | ⟨-, q1, q2⟩) <;> nlinarith
  · exact Or.inl g.line
  · refine Or.inr fun c hc => ?_
    have ha := (eighth_arc h.sign g.bulge).1
    rw [isCenter_unique (bulge_ne_zero ha) hc, ← isCenter_unique (bulge_ne_zero ha) g.center]
    rw [a, b, g.bulge]
    simp only [side]
    rcases h.sign with rfl | rfl
    · refine Or.inl ⟨by linarith, ?_, ?_⟩ <;> nlinarith
    · refine Or.inr (Or.inl ⟨by linarith, ?_, ?_⟩) <;> nlinarith

theorem rounded_tiny (h : RoundOk σ X0 y0 X1 y1 d) : NotTiny (rounded σ X0 y0 X1 y1 d) := by
  have hq := rounded_is h
  refine ⟨?_, fun v hv hl => rounded_zero h.sign hv hl, ?_, fun i v1 v2 hs => hq.not_near hs (by norm_num)⟩
  · intro i j v1 v2 v3 s1 s2 hij ⟨l1, l2⟩
    have hlen : (rounded σ X0 y0 X1 y1 d).vertexes.length = 8 := rfl
    rw [hlen] at hij
    have no : ∀ {k : ℕ} {v w : Vertex}, IsSeg (rounded σ X0 y0 X1 y1 d) k v w → IsLine v → k % 2 = 0 := by
      intro k v w hs hl
      rcases round_seg hq hs with ⟨rfl, -⟩ | ⟨rfl, -, -, g⟩ | ⟨rfl, -⟩ | ⟨rfl, -, -, g⟩ | ⟨rfl, -⟩ | ⟨rfl, -, -, g⟩ | ⟨rfl, -⟩ | ⟨rfl, -, -, g⟩ <;>
        first | rfl | exact absurd hl (eighth_arc h.sign g.bulge).1
    have := no s1 l1
    have := no s2 l2
    omega
  · intro i v1 v2 hs _
    have hf := hq.far hs
    have h4 : (0 : ℝ) ≤ 1 / 10 ^ 4 := by norm_num
    unfold distance dist2
    apply Real.le_sqrt_of_sq_le
    rcases hf with k | k
    · have := pow_le_pow_left₀ h4 k 2
      rw [sq_abs] at this
      nlinarith [sq_nonneg (v1.pos.y - v2.pos.y)]
    · have := pow_le_pow_left₀ h4 k 2
      rw [sq_abs] at this
      nlinarith [sq_nonneg (v1.pos.x - v2.pos.x)]

/-- A rectangle with rounded corners does not come close to itself. -/
theorem rounded_apart (h : RoundOk σ X0 y0 X1 y1 d) : KeepsApart (rounded σ X0 y0 X1 y1 d) := by
  have hq := rounded_is h
  refine ⟨?_, ?_⟩
  · intro i j v1 v2 v3 h1 h2 hj a1 a2
    exfalso
    rw [show (rounded σ X0 y0 X1 y1 d).vertexes.length = 8 from rfl] at hj
    rcases round_seg hq h1 with ⟨e, -, -, g⟩ | ⟨e, -, -, g⟩ | ⟨e, -, -, g⟩ | ⟨e, -, -, g⟩ |
      ⟨e, -, -, g⟩ | ⟨e, -, -, g⟩ | ⟨e, -, -, g⟩ | ⟨e, -, -, g⟩ <;>
    first
    | exact a1 g.line
    | (rcases round_seg hq h2 with ⟨e', -, -, g'⟩ | ⟨e', -, -, g'⟩ | ⟨e', -, -, g'⟩ | ⟨e', -, -, g'⟩ |
        ⟨e', -, -, g'⟩ | ⟨e', -, -, g'⟩ | ⟨e', -, -, g'⟩ | ⟨e', -, -, g'⟩ <;>
      first
      | exact a2 g'.line
      | omega)
  · intro i j v1 v2 u1 u2 h1 h2 hn
    exact Or.inl fun hb => hq.far_pairs ⟨hn, v1, v2, u1, u2, h1, h2, hb⟩

theorem rounded_bulges (h : RoundOk σ X0 y0 X1 y1 d) : BulgesOk (rounded σ X0 y0 X1 y1 d) := by
  have hq := rounded_is h
  intro v hv
  obtain ⟨i, hi, rfl⟩ := List.getElem_of_mem hv
  have hs := isSeg_closed (p := rounded σ X0 y0 X1 y1 d) rfl (show 2 ≤ 8 by norm_num) hi
  have := (hq.ok _ _ _ hs).half
  unfold vtx at this
  rwa [List.getD_eq_getElem _ _ hi] at this

theorem rounded_repeats (h : RoundOk σ X0 y0 X1 y1 d) : NoRepeats (rounded σ X0 y0 X1 y1 d) :=
  fun _ _ _ hs => (rounded_is h).not_near hs (by norm_num)

/-- No corner collapses when its radius is changed to a positive one. -/
theorem rounded_collapses (h : RoundOk σ X0 y0 X1 y1 d) (h' : RoundOk σ X0 y0 X1 y1 d') (i : ℕ) (v1 v2 : Vertex)
    (hs : IsSeg (rounded σ X0 y0 X1 y1 d) i v1 v2) : ¬ Collapses (-(σ * (d' - d))) v1 v2 := by
  have hd0 : 0 < d := lt_of_lt_of_le (by norm_num) h.offset
  have hσ2 : σ * σ = 1 := by rcases h.sign with e | e <;> rw [e] <;> norm_num
  have hq := rounded_is h
  rintro ⟨hl, ρ, ⟨c, hc, rfl⟩, hlt⟩
  have key : ∀ {lx hx ly hy : ℝ} {c' : V2}, IsRounding σ lx hx ly hy d c' v1 v2 →
      (v1.pos.x - c'.x) ^ 2 + (v1.pos.y - c'.y) ^ 2 = d ^ 2 → False := by
    intro lx hx ly hy c' g e
    have ha := (eighth_arc h.sign g.bulge).1
    have ec : c = c' := (isCenter_unique (bulge_ne_zero ha) hc).trans (isCenter_unique (bulge_ne_zero ha) g.center).symm
    subst ec
    have hdist : distance v1.pos c = d := by
      rw [distance, show dist2 v1.pos c = d ^ 2 from e, Real.sqrt_sq hd0.le]
    rw [hdist, g.bulge] at hlt
    obtain ⟨t1, -⟩ := tan_eighth
    have t0 : 0 < Real.tan (Real.pi / 8) := lt_of_lt_of_le (by norm_num) t1
    have h48 : (1 : ℝ) / 10 ^ 8 < 1 / 10 ^ 4 := by norm_num
    have := h'.offset
    rcases h.sign with rfl | rfl
    · rw [if_neg (by linarith)] at hlt; linarith
    · rw [if_pos (by linarith)] at hlt; linarith
  rcases round_seg hq hs with ⟨-, a, b, g⟩ | ⟨-, a, b, g⟩ | ⟨-, a, b, g⟩ | ⟨-, a, b, g⟩ |
    ⟨-, a, b, g⟩ | ⟨-, a, b, g⟩ | ⟨-, a, b, g⟩ | ⟨-, a, b, g⟩
  · exact hl g.line
  · exact key g (by rw [a]; simp only; ring)
  · exact hl g.line
  · exact key g (by rw [a]; simp only; linear_combination d ^ 2 * hσ2)
  · exact hl g.line
  · exact key g (by rw [a]; simp only; ring)
  · exact hl g.line
  · exact key g (by rw [a]; simp only; linear_combination d ^ 2 * hσ2)

/-- The first vertex keeps its distance. -/
theorem rounded_first (h : RoundOk σ X0 y0 X1 y1 d) (h' : RoundOk σ X0 y0 X1 y1 d') :
    NotCloser (rounded σ X0 y0 X1 y1 d) |d' - d| ⟨σ * X0, y0 - d'⟩ := by
  have hd0' : 0 < d' := lt_of_lt_of_le (by norm_num) h'.offset
  intro z hz
  obtain ⟨z1, z2⟩ := rounded_points h hz
  rcases le_or_gt d d' with hle | hlt
  · rw [abs_of_nonneg (by linarith)]
    unfold distance dist2
    apply Real.le_sqrt_of_sq_le
    simp only
    nlinarith [sq_nonneg (σ * X0 - z.x)]
  · rw [abs_of_neg (by linarith)]
    have := distance_tri ⟨σ * X0, y0⟩ ⟨σ * X0, y0 - d'⟩ z
    have e : distance ⟨σ * X0, y0⟩ ⟨σ * X0, y0 - d'⟩ = d' := by
      unfold distance dist2
      simp only
      rw [show (σ * X0 - σ * X0) ^ 2 + (y0 - (y0 - d')) ^ 2 = d' ^ 2 by ring, Real.sqrt_sq hd0'.le]
    linarith

/-- C80. The offset of a rectangle with rounded corners of radius `d` is the one with corners of radius `d'`, for offsets to
the outside (`d < d'`) and to the inside, whatever the direction. -/
theorem C80_rounded {std : StdSort} {hash : HashOrder} (inf ninf : ℝ) (h : RoundOk σ X0 y0 X1 y1 d) (h' : RoundOk σ X0 y0 X1 y1 d')
    (ho : 1 / 10 ^ 4 ≤ |d' - d|) :
    parallelOffset (codePlatform inf ninf) std hash (rounded σ X0 y0 X1 y1 d) (-(σ * (d' - d))) = .ok [rounded σ X0 y0 X1 y1 d'] := by
  have hd0 : 0 < d := lt_of_lt_of_le (by norm_num) h.offset
  have hd0' : 0 < d' := lt_of_lt_of_le (by norm_num) h'.offset
  have hσ2 : σ * σ = 1 := by rcases h.sign with e | e <;> rw [e] <;> norm_num
  have habs : |-(σ * (d' - d))| = |d' - d| := by rw [abs_neg, abs_sign h.sign]
  have hq := rounded_is h
  have hq' := rounded_is h'
  refine C80_parallel_simple (std := std) (hash := hash) inf ninf (rounded_parallel h h') (show 3 ≤ 8 by norm_num)
    (by rw [habs]; exact ho) (hq.indexable inf ninf) (hq'.indexable inf ninf) (rounded_bulges h) (fun i v1 v2 hs => hq.not_near hs (by norm_num)) (rounded_tiny h') (rounded_collapses h h') (rounded_apart h')
    (first := ⟨⟨σ * X0, y0 - d'⟩, 0⟩) rfl ?_ ?_
  · rw [habs]
    exact rounded_first h h'
  · intro i v1 v2 hs
    exact rounded_decided h h' hs

/-- A rectangle of 10 by 6 with corners of radius 2, offset by 1 to the inside and by 1 to the outside. -/
example (std : StdSort) (hash : HashOrder) :
    parallelOffset (codePlatform 0 0) std hash (rounded 1 0 0 10 6 2) 1 = .ok [rounded 1 0 0 10 6 1] ∧
    parallelOffset (codePlatform 0 0) std hash (rounded 1 0 0 10 6 2) (-1) = .ok [rounded 1 0 0 10 6 3] := by
  have ok : ∀ r : ℝ, 1 ≤ r → RoundOk 1 0 0 10 6 r := fun r hr =>
    ⟨Or.inl rfl, by norm_num, by norm_num, by norm_num; linarith, Or.inl (by norm_num; linarith)⟩
  refine ⟨?_, ?_⟩
  · have := C80_rounded (std := std) (hash := hash) 0 0 (ok 2 (by norm_num)) (ok 1 (by norm_num)) (by rw [abs_of_neg] <;> norm_num)
    rwa [show -((1 : ℝ) * (1 - 2)) = 1 by norm_num] at this
  · have := C80_rounded (std := std) (hash := hash) 0 0 (ok 2 (by norm_num)) (ok 3 (by norm_num)) (by rw [abs_of_pos] <;> norm_num)
    rwa [show -((1 : ℝ) * (3 - 2)) = -1 by norm_num] at this

end

end
end Cavc

import Verif.Props.OffsetSteiner

/-! C84: offsetting a smooth closed curve twice, and back. -/
namespace Cavc
open Spec
open scoped Classical
noncomputable section

theorem leftNormal_unique {γ : ℝ → V2} {t : ℝ} {n m : V2} (hn : LeftNormal γ t n) (hm : LeftNormal γ t m) : n = m := by
  obtain ⟨n1, k, hk, e⟩ := hn
  obtain ⟨m1, l, hl, e'⟩ := hm
  rw [e] at e'
  have hx : k * n.y = l * m.y := congrArg V2.x e'
  have hy : -(k * n.x) = -(l * m.x) := congrArg V2.y e'
  have hkl : k ^ 2 = l ^ 2 := by
    have : (k * n.y) ^ 2 + (k * n.x) ^ 2 = (l * m.y) ^ 2 + (l * m.x) ^ 2 := by rw [hx, neg_inj.1 hy]
    linear_combination this - k ^ 2 * n1 + l ^ 2 * m1
  have hkl : k = l := (pow_left_inj₀ hk.le hl.le two_ne_zero).1 hkl
  subst hkl
  ext
  · exact mul_left_cancel₀ hk.ne' (neg_inj.1 hy)
  · exact mul_left_cancel₀ hk.ne' hx

/-- The radius of the parallel arc. -/
theorem parallel_radius {offset : ℝ} {v1 v2 w1 w2 : Vertex} (h : ParallelSeg offset v1 v2 w1 w2)
    (hne : ¬ Near (1 / 10 ^ 5) v1.pos v2.pos) (hl : ¬ IsLine v1) (hcol : ¬ Collapses offset v1 v2) :
    ∃ s : ℝ, s ^ 2 = 1 ∧ (SignType.sign (sweep v1) : ℝ) = s ∧ (if v1.bulge < 0 then offset else -offset) = -(s * offset) ∧
      distance w1.pos (centerOf v1 v2) = distance v1.pos (centerOf v1 v2) - s * offset ∧
      1 / 10 ^ 8 ≤ distance v1.pos (centerOf v1 v2) - s * offset := by
  obtain ⟨γ, hγ⟩ := path_of v1 v2
  obtain ⟨n0, hn0⟩ := C37_normal_exists hne hγ 0
  have e0 := (parallel_ends h hγ).1 hn0
  obtain ⟨κ, hκ, k0, x0, y0⟩ := arc_normal hl hγ hn0 (center_ne hl hne)
  rw [(path_ends hγ).1] at x0 y0
  have hu0 := hn0.1
  set c := centerOf v1 v2 with hc
  set r := distance v1.pos c with hr
  obtain ⟨s, hs2, hs, hneg⟩ : ∃ s : ℝ, s ^ 2 = 1 ∧ (SignType.sign (sweep v1) : ℝ) = s ∧
      (if v1.bulge < 0 then offset else -offset) = -(s * offset) := by
    rcases lt_or_gt_of_ne (bulge_ne_zero hl) with hb | hb
    · have hθ0 : sweep v1 < 0 := by
        unfold sweep
        have := Real.arctan_lt_zero.2 hb
        linarith
      exact ⟨-1, by norm_num, by rw [sign_neg hθ0]; simp, by rw [if_pos hb]; ring⟩
    · have hθ0 : 0 < sweep v1 := by
        unfold sweep
        have := Real.arctan_pos.2 hb
        linarith
      exact ⟨1, by norm_num, by rw [sign_pos hθ0]; simp, by rw [if_neg (by linarith)]; ring⟩
  have hrad : 1 / 10 ^ 8 ≤ r - s * offset := by
    by_contra hlt
    apply hcol
    refine ⟨hl, _, ⟨c, isCenter_centerOf (bulge_ne_zero hl), rfl⟩, ?_⟩
    rw [hneg, ← hr]
    push Not at hlt
    linarith
  have hD : dist2 w1.pos c = (r - s * offset) ^ 2 := by
    rw [hs] at hκ
    rw [e0]
    simp only [dist2, V2.add_x, V2.add_y, V2.smul_x, V2.smul_y]
    rw [x0, y0, hκ]
    linear_combination ((s * r - offset) ^ 2) * hu0 + (r ^ 2 - offset ^ 2) * hs2
  refine ⟨s, hs2, hs, hneg, ?_, hrad⟩
  unfold distance at hr ⊢
  rw [hD, Real.sqrt_sq (le_trans (by norm_num) hrad)]

/-- A segment that does not collapse has the normals of the parallel segment. -/
theorem parallel_normal {offset : ℝ} {v1 v2 w1 w2 : Vertex} (h : ParallelSeg offset v1 v2 w1 w2)
    (hne : ¬ Near (1 / 10 ^ 5) v1.pos v2.pos) (hcol : ¬ Collapses offset v1 v2) {γ γ' : ℝ → V2} (hγ : IsPath v1 v2 γ)
    (hγ' : IsPath w1 w2 γ') {t : ℝ} {n : V2} (hn : LeftNormal γ' t n) : LeftNormal γ t n := by
  by_cases hl : IsLine v1
  · obtain ⟨n0, hn0⟩ := C37_normal_exists hne hγ 0
    obtain ⟨n1, hn1⟩ := C37_normal_exists hne hγ 1
    have e0 := (parallel_ends h hγ).1 hn0
    have e1 := (parallel_ends h hγ).2 hn1
    have hl' := (isLine_same h.1).2 hl
    rw [path_line hl hγ] at hn0 hn1
    obtain ⟨a0, b0⟩ := leftNormal_line hn0
    obtain ⟨a1, b1⟩ := leftNormal_line hn1
    have en : n0 = n1 := by ext; rw [a0, a1]; rw [b0, b1]
    subst en
    obtain ⟨hu, k, hk, hv⟩ := hn
    refine ⟨hu, k, hk, ?_⟩
    rw [path_line hl' hγ', velocity_line, e0, e1] at hv
    rw [path_line hl hγ, velocity_line, ← hv]
    ext
    · simp only [V2.sub_x, V2.add_x]; ring
    · simp only [V2.sub_y, V2.add_y]; ring
  · obtain ⟨n0, hn0⟩ := C37_normal_exists hne hγ t
    have he := h.2 γ γ' t n0 hγ hγ' hn0
    have hl' : ¬ IsLine w1 := fun e => hl ((isLine_same h.1).1 e)
    obtain ⟨s, hs2, hs, -, hd, hr⟩ := parallel_radius h hne hl hcol
    have hcen := parallel_center h hne hl
    have hsw : sweep w1 = sweep v1 := by unfold sweep; rw [h.1]
    have hne' : w1.pos ≠ centerOf w1 w2 := by
      intro e
      rw [hcen] at e
      have : distance w1.pos (centerOf v1 v2) = 0 := by rw [e]; unfold distance dist2; simp
      rw [hd] at this
      rw [this] at hr
      norm_num at hr
    obtain ⟨κ, hκ, -, x0, y0⟩ := arc_normal hl hγ hn0 (center_ne hl hne)
    obtain ⟨κ', hκ', k0, x1, y1⟩ := arc_normal hl' hγ' hn hne'
    rw [hcen, he] at x1 y1
    rw [hcen, hd, hsw, hs] at hκ'
    rw [hs] at hκ
    have hk : κ' = κ - offset := by rw [hκ', hκ]; linear_combination -offset * hs2
    simp only [V2.add_x, V2.add_y, V2.smul_x, V2.smul_y] at x1 y1
    have : n0 = n := by
      ext
      · exact mul_left_cancel₀ k0 (by rw [hk]; rw [hk] at x1; linarith)
      · exact mul_left_cancel₀ k0 (by rw [hk]; rw [hk] at y1; linarith)
    rw [← this]
    exact hn0

theorem parallel_back {offset : ℝ} {v1 v2 w1 w2 : Vertex} (h : ParallelSeg offset v1 v2 w1 w2)
    (hne : ¬ Near (1 / 10 ^ 5) v1.pos v2.pos) (hcol : ¬ Collapses offset v1 v2) : ParallelSeg (-offset) w1 w2 v1 v2 := by
  refine ⟨h.1.symm, fun γ' γ t n hγ' hγ hn => ?_⟩
  rw [h.2 γ γ' t n hγ hγ' (parallel_normal h hne hcol hγ hγ' hn)]
  ext
  · simp only [V2.add_x, V2.smul_x]; ring
  · simp only [V2.add_y, V2.smul_y]; ring

theorem parallel_twice {a b : ℝ} {v1 v2 w1 w2 u1 u2 : Vertex} (h : ParallelSeg a v1 v2 w1 w2) (h' : ParallelSeg b w1 w2 u1 u2)
    (hne : ¬ Near (1 / 10 ^ 5) v1.pos v2.pos) (hne' : ¬ Near (1 / 10 ^ 5) w1.pos w2.pos) (hcol : ¬ Collapses a v1 v2) :
    ParallelSeg (a + b) v1 v2 u1 u2 := by
  refine ⟨h'.1.trans h.1, fun γ δ t n hγ hδ hn => ?_⟩
  obtain ⟨γ', hγ'⟩ := path_of w1 w2
  obtain ⟨m, hm⟩ := C37_normal_exists hne' hγ' t
  have e := leftNormal_unique hn (parallel_normal h hne hcol hγ hγ' hm)
  subst e
  rw [h'.2 γ' δ t n hγ' hδ hm, h.2 γ γ' t n hγ hγ' hn]
  ext
  · simp only [V2.add_x, V2.smul_x]; ring
  · simp only [V2.add_y, V2.smul_y]; ring

/-- Offset back, an arc that did not collapse does not collapse: it gets its radius again. -/
theorem back_collapses {offset : ℝ} {v1 v2 w1 w2 : Vertex} (h : ParallelSeg offset v1 v2 w1 w2)
    (hne : ¬ Near (1 / 10 ^ 5) v1.pos v2.pos) (hcol : ¬ Collapses offset v1 v2) : ¬ Collapses (-offset) w1 w2 := by
  rintro ⟨hl', r, ⟨c, hc, hr⟩, hlt⟩
  have hl : ¬ IsLine v1 := fun e => hl' ((isLine_same h.1).2 e)
  obtain ⟨s, hs2, hs, hneg, hd, -⟩ := parallel_radius h hne hl hcol
  rw [isCenter_unique (bulge_ne_zero hl') hc, parallel_center h hne hl, hd, h.1] at hr
  have hneg' : (if v1.bulge < 0 then -offset else - -offset) = s * offset := by
    split_ifs at hneg ⊢ <;> linarith
  rw [hneg'] at hr
  have hrv : r = distance v1.pos (centerOf v1 v2) := by linarith
  -- the end points are on the circle of this radius, and not near
  have hcv := isCenter_centerOf (v2 := v2) (bulge_ne_zero hl)
  have hr2 : distance v2.pos (centerOf v1 v2) = distance v1.pos (centerOf v1 v2) := by
    rw [← hcv]
    unfold distance
    congr 1
    simp only [dist2, rot]
    linear_combination ((v1.pos.x - (centerOf v1 v2).x) ^ 2 + (v1.pos.y - (centerOf v1 v2).y) ^ 2) * Real.sin_sq_add_cos_sq (sweep v1)
  have ht := distance_tri v1.pos (centerOf v1 v2) v2.pos
  rw [distance_symm (centerOf v1 v2), hr2, ← hrv] at ht
  apply hne
  have hsq := distance_sq v1.pos v2.pos
  have h0 : (0 : ℝ) ≤ distance v1.pos v2.pos := Real.sqrt_nonneg _
  have hlt2 : distance v1.pos v2.pos ^ 2 < (1 / 10 ^ 5) ^ 2 :=
    pow_lt_pow_left₀ (lt_of_le_of_lt ht (by norm_num at hlt ⊢; linarith)) h0 two_ne_zero
  rw [hsq] at hlt2
  simp only [dist2] at hlt2
  have p5 : (0 : ℝ) ≤ 1 / 10 ^ 5 := by norm_num
  exact ⟨abs_lt_of_sq_lt_sq (by nlinarith [sq_nonneg (v1.pos.y - v2.pos.y)]) p5,
    abs_lt_of_sq_lt_sq (by nlinarith [sq_nonneg (v1.pos.x - v2.pos.x)]) p5⟩

section
variable {p q : Polyline} {offset : ℝ}

theorem parallel_pair (h : ParallelTo offset p q) (h2 : 2 ≤ p.vertexes.length) {i : ℕ} {w1 w2 : Vertex} (hs : IsSeg q i w1 w2) :
    ∃ v1 v2, IsSeg p i v1 v2 ∧ ParallelSeg offset v1 v2 w1 w2 := by
  have hi : i < p.vertexes.length := by
    have := (isSeg_iff.1 hs).1
    rw [segs_length, if_neg (show ¬ q.size < 2 by unfold Polyline.size; have := h.length; omega), if_pos h.closed'] at this
    rw [← h.length]; exact this
  exact ⟨_, _, isSeg_closed h.closed h2 hi, h.segs i _ _ _ _ (isSeg_closed h.closed h2 hi) hs⟩

/-- C84. If `q` is parallel to `p` at the distance `offset`, `p` is parallel to `q` at the distance `-offset`. -/
theorem C84_symm (h : ParallelTo offset p q) (hr : NoRepeats p) (hc : ∀ i v1 v2, IsSeg p i v1 v2 → ¬ Collapses offset v1 v2) :
    ParallelTo (-offset) q p where
  closed := h.closed'
  closed' := h.closed
  length := h.length.symm
  segs := fun i w1 w2 v1 v2 hw hv => parallel_back (h.segs i v1 v2 w1 w2 hv hw) (hr _ _ _ hv) (hc _ _ _ hv)

/-- C84. Parallel curves of parallel curves: the distances add up. -/
theorem C84_trans {a b : ℝ} {r : Polyline} (h : ParallelTo a p q) (h' : ParallelTo b q r) (h2 : 2 ≤ p.vertexes.length)
    (hr : NoRepeats p) (hr' : NoRepeats q) (hc : ∀ i v1 v2, IsSeg p i v1 v2 → ¬ Collapses a v1 v2) : ParallelTo (a + b) p r where
  closed := h.closed
  closed' := h'.closed'
  length := h'.length.trans h.length
  segs := fun i v1 v2 u1 u2 hv hu => by
    obtain ⟨w1, w2, hw, hp⟩ := parallel_pair h' (by rw [h.length]; exact h2) hu
    exact parallel_twice (h.segs i v1 v2 w1 w2 hv hw) hp (hr _ _ _ hv) (hr' _ _ _ hw) (hc _ _ _ hv)

theorem parallel_bulges (h : ParallelTo offset p q) (h2 : 2 ≤ p.vertexes.length) (hb : BulgesOk p) : BulgesOk q := by
  intro w hw
  obtain ⟨i, hi, rfl⟩ := List.getElem_of_mem hw
  have hi' : i < p.vertexes.length := by rw [← h.length]; exact hi
  have e := parallel_bulge h h2 hi'
  unfold vtx at e
  rw [List.getD_eq_getElem _ _ hi, List.getD_eq_getElem _ _ hi'] at e
  rw [e]
  exact hb _ (List.getElem_mem _)

/-- C84. There and back: the offset of a smooth curve `p` is its parallel curve `q`, and the offset of `q` to the other side is `p`. -/
theorem C84_back {std : StdSort} {hash : HashOrder} (inf ninf : ℝ) (h : ParallelTo offset p q) (h3 : 3 ≤ p.vertexes.length)
    (ho : 1 / 10 ^ 4 ≤ |offset|) (hi : Indexable (codePlatform inf ninf) p) (hj : Indexable (codePlatform inf ninf) q)
    (hb : BulgesOk p) (hc : ∀ i v1 v2, IsSeg p i v1 v2 → ¬ Collapses offset v1 v2) (hp : Roomy |offset| p q) (hq : Roomy |offset| q p) :
    parallelOffset (codePlatform inf ninf) std hash p offset = .ok [q] ∧
    parallelOffset (codePlatform inf ninf) std hash q (-offset) = .ok [p] := by
  obtain ⟨f, f1, f2, f3⟩ := hp.first
  obtain ⟨g, g1, g2, g3⟩ := hq.first
  have h' := C84_symm h hq.tiny.apart hc
  refine ⟨C80_parallel_simple inf ninf h h3 ho hi hj hb hq.tiny.apart hp.tiny hc hp.keeps f1 f2 f3, ?_⟩
  refine C80_parallel_simple inf ninf h' (by rw [h.length]; exact h3) (by rw [abs_neg]; exact ho) hj hi
    (parallel_bulges h (by omega) hb) hp.tiny.apart hq.tiny ?_ hq.keeps g1 (by rw [abs_neg]; exact g2) g3
  intro i w1 w2 hw
  obtain ⟨v1, v2, hv, hs⟩ := parallel_pair h (by omega) hw
  exact back_collapses hs (hq.tiny.apart _ _ _ hv) (hc _ _ _ hv)

/-- C84. Twice: the offset of the offset is the offset by the sum. -/
theorem C84_twice {std : StdSort} {hash : HashOrder} (inf ninf : ℝ) {a b : ℝ} {r : Polyline} (h : ParallelTo a p q) (h' : ParallelTo b q r)
    (h3 : 3 ≤ p.vertexes.length) (ha : 1 / 10 ^ 4 ≤ |a|) (hb : 1 / 10 ^ 4 ≤ |b|) (hab : 1 / 10 ^ 4 ≤ |a + b|)
    (hip : Indexable (codePlatform inf ninf) p) (hiq : Indexable (codePlatform inf ninf) q) (hir : Indexable (codePlatform inf ninf) r)
    (hbu : BulgesOk p) (hr : NoRepeats p) (hc : ∀ i v1 v2, IsSeg p i v1 v2 → ¬ Collapses a v1 v2)
    (hc' : ∀ i v1 v2, IsSeg q i v1 v2 → ¬ Collapses b v1 v2) (hc'' : ∀ i v1 v2, IsSeg p i v1 v2 → ¬ Collapses (a + b) v1 v2)
    (hq : Roomy |a| p q) (hqr : Roomy |b| q r) (hpr : Roomy |a + b| p r) :
    parallelOffset (codePlatform inf ninf) std hash p a = .ok [q] ∧
    parallelOffset (codePlatform inf ninf) std hash q b = .ok [r] ∧
    parallelOffset (codePlatform inf ninf) std hash p (a + b) = .ok [r] := by
  obtain ⟨f, f1, f2, f3⟩ := hq.first
  obtain ⟨g, g1, g2, g3⟩ := hqr.first
  obtain ⟨k, k1, k2, k3⟩ := hpr.first
  have h2 : 2 ≤ p.vertexes.length := by omega
  exact ⟨C80_parallel_simple inf ninf h h3 ha hip hiq hbu hr hq.tiny hc hq.keeps f1 f2 f3,
    C80_parallel_simple inf ninf h' (by rw [h.length]; exact h3) hb hiq hir (parallel_bulges h h2 hbu) hq.tiny.apart hqr.tiny hc' hqr.keeps g1 g2 g3,
    C80_parallel_simple inf ninf (C84_trans h h' h2 hr hq.tiny.apart hc) h3 hab hip hir hbu hr hpr.tiny hc'' hpr.keeps k1 k2 k3⟩

end

section
variable {σ X0 y0 X1 y1 d d' d'' : ℝ}

/-- The hypotheses hold for rectangles with rounded corners. -/
theorem rounded_roomy (h : RoundOk σ X0 y0 X1 y1 d) (h' : RoundOk σ X0 y0 X1 y1 d') :
    Roomy |(-(σ * (d' - d)))| (rounded σ X0 y0 X1 y1 d) (rounded σ X0 y0 X1 y1 d') where
  tiny := rounded_tiny h'
  keeps := rounded_apart h'
  first := ⟨⟨⟨σ * X0, y0 - d'⟩, 0⟩, rfl, by rw [abs_neg, abs_sign h.sign]; exact rounded_first h h',
    fun i v1 v2 hs => rounded_decided h h' hs⟩

/-- C84. Rectangles with rounded corners: there and back. -/
theorem C84_rounded {std : StdSort} {hash : HashOrder} (inf ninf : ℝ) (h : RoundOk σ X0 y0 X1 y1 d) (h' : RoundOk σ X0 y0 X1 y1 d')
    (ho : 1 / 10 ^ 4 ≤ |d' - d|) :
    parallelOffset (codePlatform inf ninf) std hash (rounded σ X0 y0 X1 y1 d) (-(σ * (d' - d))) = .ok [rounded σ X0 y0 X1 y1 d'] ∧
    parallelOffset (codePlatform inf ninf) std hash (rounded σ X0 y0 X1 y1 d') (-(-(σ * (d' - d)))) = .ok [rounded σ X0 y0 X1 y1 d] := by
  have habs : |-(σ * (d' - d))| = |d' - d| := by rw [abs_neg, abs_sign h.sign]
  refine C84_back inf ninf (rounded_parallel h h') (show 3 ≤ 8 by norm_num) (by rw [habs]; exact ho)
    ((rounded_is h).indexable inf ninf) ((rounded_is h').indexable inf ninf) (rounded_bulges h) (rounded_collapses h h')
    (rounded_roomy h h') ?_
  have := rounded_roomy h' h
  rwa [show -(σ * (d - d')) = -(-(σ * (d' - d))) by ring, abs_neg] at this

/-- A rectangle of 10 by 6 with corners of radius 2, offset by 1 to the outside and back to the inside. -/
example (std : StdSort) (hash : HashOrder) :
    parallelOffset (codePlatform 0 0) std hash (rounded 1 0 0 10 6 2) (-1) = .ok [rounded 1 0 0 10 6 3] ∧
    parallelOffset (codePlatform 0 0) std hash (rounded 1 0 0 10 6 3) 1 = .ok [rounded 1 0 0 10 6 2] := by
  have ok : ∀ r : ℝ, 1 ≤ r → RoundOk 1 0 0 10 6 r := fun r hr =>
    ⟨Or.inl rfl, by norm_num, by norm_num, by norm_num; linarith, Or.inl (by norm_num; linarith)⟩
  have := C84_rounded (std := std) (hash := hash) 0 0 (ok 2 (by norm_num)) (ok 3 (by norm_num)) (by rw [abs_of_pos] <;> norm_num)
  rwa [show -((1 : ℝ) * (3 - 2)) = -1 by norm_num, neg_neg] at this

/-- C84. Rectangles with rounded corners: twice. -/
theorem C84_rounded_twice {std : StdSort} {hash : HashOrder} (inf ninf : ℝ) (h : RoundOk σ X0 y0 X1 y1 d)
    (h' : RoundOk σ X0 y0 X1 y1 d') (h'' : RoundOk σ X0 y0 X1 y1 d'') (ha : 1 / 10 ^ 4 ≤ |d' - d|) (hb : 1 / 10 ^ 4 ≤ |d'' - d'|)
    (hab : 1 / 10 ^ 4 ≤ |d'' - d|) :
    ∃ q r, parallelOffset (codePlatform inf ninf) std hash (rounded σ X0 y0 X1 y1 d) (-(σ * (d' - d))) = .ok [q] ∧
      parallelOffset (codePlatform inf ninf) std hash q (-(σ * (d'' - d'))) = .ok [r] ∧
      parallelOffset (codePlatform inf ninf) std hash (rounded σ X0 y0 X1 y1 d) (-(σ * (d' - d)) + -(σ * (d'' - d'))) = .ok [r] := by
  have e : -(σ * (d' - d)) + -(σ * (d'' - d')) = -(σ * (d'' - d)) := by ring
  have abs (x : ℝ) : |-(σ * x)| = |x| := by rw [abs_neg, abs_sign h.sign]
  have r3 := rounded_roomy h h''
  have c3 := rounded_collapses h h''
  rw [← e] at r3 c3
  exact ⟨_, _, C84_twice inf ninf (rounded_parallel h h') (rounded_parallel h' h'') (show 3 ≤ 8 by norm_num) (by rw [abs]; exact ha)
    (by rw [abs]; exact hb) (by rw [e, abs]; exact hab) ((rounded_is h).indexable inf ninf) ((rounded_is h').indexable inf ninf)
    ((rounded_is h'').indexable inf ninf) (rounded_bulges h) (rounded_tiny h).apart (rounded_collapses h h') (rounded_collapses h' h'') c3
    (rounded_roomy h h') (rounded_roomy h' h'') r3⟩

end

end
end Cavc

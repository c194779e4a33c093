import Verif.Props.IslandsSmooth
import Verif.Props.CombineLaws
import Verif.Props.PlineIndexArea

/-! C80: the parallel offset of a smooth closed curve written down from another vertex. -/
namespace Cavc
open Spec
open scoped Classical
noncomputable section

section
variable {p q : Polyline} {offset : ℝ} {m : ℕ}

theorem startAt_length : (startAt m p).vertexes.length = p.vertexes.length := List.length_rotate ..

theorem segs_startAt (hc : p.isClosed = true) : segs (startAt m p) = (segs p).rotate m := by
  unfold segs startAt
  simp only [List.length_rotate, hc, if_true]
  split_ifs with c
  · simp
  · rw [List.rotate_rotate, Nat.add_comm m 1, ← List.rotate_rotate]
    exact (List.zipWith_rotate_distrib _ _ _ _ (by simp)).symm

theorem isSeg_startAt (hc : p.isClosed = true) (h2 : 2 ≤ p.vertexes.length) {j : ℕ} {v w : Vertex} (h : IsSeg (startAt m p) j v w) :
    j < p.vertexes.length ∧ IsSeg p ((j + m) % p.vertexes.length) v w := by
  have hn : (segs p).length = p.vertexes.length := by
    rw [segs_length, if_neg (show ¬ p.size < 2 by unfold Polyline.size; omega), if_pos hc]
    rfl
  unfold IsSeg at h ⊢
  rw [segs_startAt hc] at h
  have hj : j < (segs p).length := by
    obtain ⟨hj, -⟩ := List.getElem?_eq_some_iff.1 h
    rwa [List.length_rotate] at hj
  rw [List.getElem?_rotate hj] at h
  rw [← hn]
  exact ⟨hj, h⟩

theorem isPrev_iff {n i j : ℕ} (hi : i < n) (hj : j < n) : IsPrev n i j ↔ i = (j + 1) % n := by
  unfold IsPrev
  rcases lt_or_ge (j + 1) n with h | h
  · rw [Nat.mod_eq_of_lt h]
    omega
  · obtain rfl : n = j + 1 := by omega
    rw [Nat.mod_self]
    omega

theorem nonAdjacent_startAt {i j : ℕ} (hi : i < p.vertexes.length) (hj : j < p.vertexes.length) (h : NonAdjacent (startAt m p) i j) :
    NonAdjacent p ((i + m) % p.vertexes.length) ((j + m) % p.vertexes.length) := by
  obtain ⟨h1, h2, h3⟩ := h
  rw [startAt_length] at h2 h3
  rw [isPrev_iff hi hj] at h2
  rw [isPrev_iff hj hi] at h3
  have n0 : 0 < p.vertexes.length := by omega
  refine ⟨fun e => h1 (mod_inj hj hi e), ?_, ?_⟩
  · rw [isPrev_iff (Nat.mod_lt _ n0) (Nat.mod_lt _ n0)]
    exact fun e => h2 (mod_succ_inj hi e)
  · rw [isPrev_iff (Nat.mod_lt _ n0) (Nat.mod_lt _ n0)]
    exact fun e => h3 (mod_succ_inj hj e)

theorem mod_shift {n i j : ℕ} (h : j = (i + 1) % n) : (j + m) % n = ((i + m) % n + 1) % n := by
  rw [h, Nat.mod_add_mod, Nat.mod_add_mod]
  congr 1
  ring

theorem parallelTo_startAt (h : ParallelTo offset p q) (h2 : 2 ≤ p.vertexes.length) :
    ParallelTo offset (startAt m p) (startAt m q) where
  closed := h.closed
  closed' := h.closed'
  length := by rw [startAt_length, startAt_length, h.length]
  segs := fun i v1 v2 w1 w2 hv hw => by
    have a := (isSeg_startAt h.closed h2 hv).2
    have b := (isSeg_startAt h.closed' (by rw [h.length]; exact h2) hw).2
    rw [h.length] at b
    exact h.segs _ _ _ _ _ a b

theorem notTiny_startAt (hc : q.isClosed = true) (h2 : 2 ≤ q.vertexes.length) (h : NotTiny q) : NotTiny (startAt m q) where
  notBoth := fun i j v1 v2 v3 a b e => by
    rw [startAt_length] at e
    exact h.notBoth _ _ _ _ _ (isSeg_startAt hc h2 a).2 (isSeg_startAt hc h2 b).2 (mod_shift e)
  zero := fun v hv => h.zero v (List.mem_rotate.1 hv)
  lines := fun i v1 v2 a => h.lines _ _ _ (isSeg_startAt hc h2 a).2
  apart := fun i v1 v2 a => h.apart _ _ _ (isSeg_startAt hc h2 a).2

theorem keepsApart_startAt (hc : q.isClosed = true) (h2 : 2 ≤ q.vertexes.length) (h : KeepsApart q) : KeepsApart (startAt m q) where
  circles := fun i j v1 v2 v3 a b e => by
    rw [startAt_length] at e
    exact h.circles _ _ _ _ _ (isSeg_startAt hc h2 a).2 (isSeg_startAt hc h2 b).2 (mod_shift e)
  pairs := fun i j v1 v2 u1 u2 a b e =>
    h.pairs _ _ _ _ _ _ (isSeg_startAt hc h2 a).2 (isSeg_startAt hc h2 b).2
      (nonAdjacent_startAt (isSeg_startAt hc h2 a).1 (isSeg_startAt hc h2 b).1 e)

theorem indexable_startAt (inf ninf : ℝ) {a : ℝ} (ha : getArea p = .ok a) (h0 : a ≠ 0)
    (hn : p.vertexes.length ≤ 2 ^ 24) (hb : BulgesOk p) : Indexable (codePlatform inf ninf) (startAt m p) := by
  obtain ⟨hc, h2⟩ := area_closed ha h0
  have e := onPline_rotated (A := p) (B := startAt m p) hc hc ⟨m, rfl⟩
  have hl : (segs (startAt m p)).length = p.vertexes.length := by
    rw [segs_length, if_neg (show ¬ (startAt m p).size < 2 by unfold Polyline.size; rw [startAt_length]; omega),
      if_pos (show (startAt m p).isClosed = true from hc)]
    exact startAt_length
  refine indexable_code (by rw [startAt_length]; exact h2) (by rw [hl]; exact hn) inf ninf (Or.inr ⟨?_, ?_⟩) ?_
  · obtain ⟨x, y, h1, h2, h3⟩ := area_wide ha h0
    exact ⟨x, y, (e x).1 h1, (e y).1 h2, h3⟩
  · obtain ⟨x, y, h1, h2, h3⟩ := area_high ha h0
    exact ⟨x, y, (e x).1 h1, (e y).1 h2, h3⟩
  · intro i v1 v2 hs
    exact hb v1 (List.mem_rotate.1 (start_mem hs))

/-- C80. The offset of the curve written down from another vertex is the parallel curve written down from the vertex that
belongs to it. -/
theorem C80_start {std : StdSort} {hash : HashOrder} (inf ninf : ℝ) {w : Vertex}
    (h : ParallelTo offset p q) (h3 : 3 ≤ p.vertexes.length) (hn : p.vertexes.length ≤ 2 ^ 24) {a b : ℝ}
    (ha : getArea p = .ok a) (ha0 : a ≠ 0) (hq : getArea q = .ok b) (hq0 : b ≠ 0) (ho : 1 / 10 ^ 4 ≤ |offset|)
    (hb : BulgesOk p) (hr : NoRepeats p) (ht : NotTiny q) (hc : ∀ i v1 v2, IsSeg p i v1 v2 → ¬ Collapses offset v1 v2)
    (hk : KeepsApart q) (hw : q.vertexes[m]? = some w) (hw' : NotCloser p |offset| w.pos)
    (hd : ∀ i v1 v2, IsSeg p i v1 v2 → SectorDecided v1 v2 w.pos) :
    parallelOffset (codePlatform inf ninf) std hash (startAt m p) offset = .ok [startAt m q] := by
  have h2 : 2 ≤ p.vertexes.length := by omega
  have h2' : 2 ≤ q.vertexes.length := by rw [h.length]; exact h2
  have hbq := parallel_bulges h h2 hb
  have seg := fun {i : ℕ} {v1 v2 : Vertex} (a : IsSeg (startAt m p) i v1 v2) => (isSeg_startAt h.closed h2 a).2
  refine C80_parallel_simple inf ninf (parallelTo_startAt h h2) (by rw [startAt_length]; exact h3) ho ?_ ?_
    (fun v hv => hb v (List.mem_rotate.1 hv)) (fun i v1 v2 a => hr _ _ _ (seg a)) (notTiny_startAt h.closed' h2' ht)
    (fun i v1 v2 a => hc _ _ _ (seg a)) (keepsApart_startAt h.closed' h2' hk) (first := w) ?_ ?_
    (fun i v1 v2 a => hd _ _ _ (seg a))
  · exact indexable_startAt inf ninf ha ha0 hn hb
  · exact indexable_startAt inf ninf hq hq0 (by rw [h.length]; exact hn) hbq
  · obtain ⟨hm, -⟩ := List.getElem?_eq_some_iff.1 hw
    show (q.vertexes.rotate m).head? = some w
    rw [List.head?_rotate hm, hw]
  · rintro z ⟨i, v1, v2, a, b⟩
    exact hw' z ⟨_, v1, v2, seg a, b⟩

end

section
variable {X0 y0 X1 y1 d d' : ℝ}

theorem rounded_top (h : RoundOk 1 X0 y0 X1 y1 d) {z : V2} (hz : OnPline (rounded 1 X0 y0 X1 y1 d) z) : z.y ≤ y1 + d := by
  obtain ⟨i, v, w, hseg, hon⟩ := hz
  have hd0 : 0 < d := lt_of_lt_of_le (by norm_num) h.offset
  have e3 : (0 : ℝ) < 1 / 10 ^ 3 := by norm_num
  have hh := h.height
  have hok := (rounded_is h).ok _ _ _ hseg
  have onc : ∀ {lx hx ly hy : ℝ} {c : V2}, IsRounding 1 lx hx ly hy d c v w → (v.pos.x - c.x) ^ 2 + (v.pos.y - c.y) ^ 2 = d ^ 2 →
      (z.x - c.x) ^ 2 + (z.y - c.y) ^ 2 = d ^ 2 := by
    intro lx hx ly hy c g e
    have ha := (eighth_arc h.sign g.bulge).1
    obtain ⟨t, -, -, ht⟩ := hon
    rw [atParam_arc ha, ← isCenter_unique (bulge_ne_zero ha) g.center] at ht
    have := dist2_rot c v.pos (t * sweep v)
    rw [← ht] at this
    rw [show dist2 z c = (z.x - c.x) ^ 2 + (z.y - c.y) ^ 2 from rfl] at this
    rw [this]
    exact e
  rcases round_seg (rounded_is h) hseg with ⟨-, a, b, g⟩ | ⟨-, a, b, g⟩ | ⟨-, a, b, g⟩ | ⟨-, a, b, g⟩ |
    ⟨-, a, b, g⟩ | ⟨-, a, b, g⟩ | ⟨-, a, b, g⟩ | ⟨-, a, b, g⟩ <;> obtain ⟨p1, p2, p3, p4⟩ := g.inBox.point h.sign hok hon
  · linarith
  · linarith
  · linarith
  · have c := onc g (by rw [a]; simp only; ring)
    simp only at c
    have := abs_le_of_sq_le_sq' (show (z.y - y1) ^ 2 ≤ d ^ 2 by nlinarith [sq_nonneg (z.x - 1 * X1)]) hd0.le
    linarith [this.2]
  · linarith
  · have c := onc g (by rw [a]; simp only; ring)
    simp only at c
    have := abs_le_of_sq_le_sq' (show (z.y - y1) ^ 2 ≤ d ^ 2 by nlinarith [sq_nonneg (z.x - 1 * X0)]) hd0.le
    linarith [this.2]
  · linarith
  · linarith

theorem rounded_decided_top (h : RoundOk 1 X0 y0 X1 y1 d) (h' : RoundOk 1 X0 y0 X1 y1 d') {i : ℕ} {v w : Vertex}
    (hseg : IsSeg (rounded 1 X0 y0 X1 y1 d) i v w) : SectorDecided v w ⟨X1, y1 + d'⟩ := by
  have hd0 : 0 < d := lt_of_lt_of_le (by norm_num) h.offset
  have hd0' : 0 < d' := lt_of_lt_of_le (by norm_num) h'.offset
  have hd4 := h.offset
  have hd4' := h'.offset
  have e3 : (0 : ℝ) < 1 / 10 ^ 3 := by norm_num
  have hw := h.width
  have hh := h.height
  have hdd : 1 / 10 ^ 8 ≤ d * d' := by
    have : (1 : ℝ) / 10 ^ 8 = 1 / 10 ^ 4 * (1 / 10 ^ 4) := by norm_num
    rw [this]; exact mul_le_mul hd4 hd4' (by norm_num) hd0.le
  have hdw : 1 / 10 ^ 8 ≤ d * (X1 - X0) := by
    have : (1 : ℝ) / 10 ^ 8 ≤ 1 / 10 ^ 4 * (1 / 10 ^ 3) := by norm_num
    exact this.trans (mul_le_mul hd4 (by linarith) (by norm_num) hd0.le)
  have hdh : 1 / 10 ^ 8 ≤ d * (y1 - y0 + d') := by
    have : (1 : ℝ) / 10 ^ 8 ≤ 1 / 10 ^ 4 * (1 / 10 ^ 3) := by norm_num
    exact this.trans (mul_le_mul hd4 (by linarith) (by norm_num) hd0.le)
  have e8 : (0 : ℝ) < 1 / 10 ^ 8 := by norm_num
  obtain ⟨t1, -⟩ := tan_eighth
  have t0 : 0 < Real.tan (Real.pi / 8) := lt_of_lt_of_le (by norm_num) t1
  have out : ∀ {lx hx ly hy : ℝ} {c : V2}, IsRounding 1 lx hx ly hy d c v w → ¬ InSweep (1 / 10 ^ 8) v w c ⟨X1, y1 + d'⟩ →
      SectorDecided v w ⟨X1, y1 + d'⟩ := by
    intro lx hx ly hy c g hn
    refine Or.inr fun c' hc => Or.inr (Or.inr ?_)
    have ha := (eighth_arc h.sign g.bulge).1
    rwa [isCenter_unique (bulge_ne_zero ha) hc, ← isCenter_unique (bulge_ne_zero ha) g.center]
  rcases round_seg (rounded_is h) hseg with ⟨-, a, b, g⟩ | ⟨-, a, b, g⟩ | ⟨-, a, b, g⟩ | ⟨-, a, b, g⟩ |
    ⟨-, a, b, g⟩ | ⟨-, a, b, g⟩ | ⟨-, a, b, g⟩ | ⟨-, a, b, g⟩
  · exact Or.inl g.line
  · apply out g
    unfold InSweep
    rw [a, b, g.bulge]
    simp only [side]
    rintro (⟨-, q1, q2⟩ | ⟨q0, -⟩) <;> nlinarith
  · exact Or.inl g.line
  · refine Or.inr fun c hc => ?_
    have ha := (eighth_arc h.sign g.bulge).1
    rw [isCenter_unique (bulge_ne_zero ha) hc, ← isCenter_unique (bulge_ne_zero ha) g.center]
    rw [a, b, g.bulge]
    simp only [side]
    refine Or.inl ⟨by linarith, ?_, ?_⟩ <;> nlinarith
  · exact Or.inl g.line
  · apply out g
    unfold InSweep
    rw [a, b, g.bulge]
    simp only [side]
    rintro (⟨-, q1, q2⟩ | ⟨q0, -⟩) <;> nlinarith
  · exact Or.inl g.line
  · apply out g
    unfold InSweep
    rw [a, b, g.bulge]
    simp only [side]
    rintro (⟨-, q1, q2⟩ | ⟨q0, -⟩) <;> nlinarith

/-- A rectangle of 10 by 6 with corners of radius 2, written down from its vertex 4 (the upper right one on the upper edge)
and offset by 1 to the outside. -/
example (std : StdSort) (hash : HashOrder) :
    parallelOffset (codePlatform 0 0) std hash (startAt 4 (rounded 1 0 0 10 6 2)) (-1) = .ok [startAt 4 (rounded 1 0 0 10 6 3)] := by
  have ok : ∀ r : ℝ, 1 ≤ r → RoundOk 1 0 0 10 6 r := fun r hr =>
    ⟨Or.inl rfl, by norm_num, by norm_num, by norm_num; linarith, Or.inl (by norm_num; linarith)⟩
  have h := ok 2 (by norm_num)
  have h' := ok 3 (by norm_num)
  have hp := rounded_parallel h h'
  have hc := rounded_collapses h h'
  rw [show -((1 : ℝ) * (3 - 2)) = -1 by norm_num] at hp hc
  obtain ⟨a, ha, a0⟩ := rounded_turns h
  obtain ⟨b, hb, b0⟩ := rounded_turns h'
  refine C80_start 0 0 (w := ⟨⟨1 * 10, 6 + 3⟩, 0⟩) hp (show 3 ≤ 8 by norm_num) (show 8 ≤ 2 ^ 24 by norm_num) ha
    (by rintro rfl; simp at a0) hb (by rintro rfl; simp at b0) (by norm_num) (rounded_bulges h) (rounded_tiny h).apart (rounded_tiny h')
    hc (rounded_apart h') rfl ?_ ?_
  · intro z hz
    have := rounded_top h hz
    have e : |(-1 : ℝ)| = 1 := by norm_num
    rw [e]
    unfold distance dist2
    apply Real.le_sqrt_of_sq_le
    simp only
    nlinarith [sq_nonneg (1 * 10 - z.x)]
  · intro i v1 v2 hs
    have := rounded_decided_top h h' hs
    simpa using this

end

end
end Cavc

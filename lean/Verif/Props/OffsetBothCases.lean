import Verif.Props.OffsetBoth
import Verif.Props.OffsetRound

/-! A concrete case of C76: a square, offset to the outside. -/
namespace Cavc
open Spec
open scoped Classical
noncomputable section

theorem intersects_none {p1 p2 : Polyline} {d : IntersectsResult} (h : IntersectsOf p1 p2 d)
    (hb : ∀ i1 i2 v1 v2 u1 u2, IsSeg p1 i1 v1 v2 → IsSeg p2 i2 u1 u2 → ¬ BoxesClose (1 / 10 ^ 5) v1 v2 u1 u2) :
    dualCuts d = [] := by
  have hc : d.coincidentIntersects = [] := by
    rw [List.eq_nil_iff_forall_not_mem]
    rintro ⟨i, j, a, b⟩ hm
    obtain ⟨v1, v2, u1, u2, g1, g2, g3, -⟩ := (h.overlaps _ _ _ _).1 hm
    exact hb _ _ _ _ _ _ g1 g2 g3
  have hi : d.intersects = [] := by
    rw [List.eq_nil_iff_forall_not_mem]
    rintro ⟨i, j, x⟩ hm
    obtain ⟨v1, v2, u1, u2, g1, g2, g3, -⟩ := (h.points _ _ _).1 hm
    exact hb _ _ _ _ _ _ g1 g2 g3
  unfold dualCuts
  rw [hc, hi]
  rfl

theorem rect_in {i : ℕ} {v w : Vertex} (h : IsSeg (rect 1 1 9 9) i v w) : SegIn 1 1 9 1 9 v w := by
  obtain ⟨k1, k2, k3, k4⟩ := box_ends (v := v) (w := w) (P := fun z => 1 ≤ z ∧ z ≤ 9) (Q := fun z => 1 ≤ z ∧ z ≤ 9)
    (by rcases rect_seg h with ⟨-, rfl, rfl⟩ | ⟨-, rfl, rfl⟩ | ⟨-, rfl, rfl⟩ | ⟨-, rfl, rfl⟩ <;> norm_num)
    (by rcases rect_seg h with ⟨-, rfl, rfl⟩ | ⟨-, rfl, rfl⟩ | ⟨-, rfl, rfl⟩ | ⟨-, rfl, rfl⟩ <;> norm_num)
    (by rcases rect_seg h with ⟨-, rfl, rfl⟩ | ⟨-, rfl, rfl⟩ | ⟨-, rfl, rfl⟩ | ⟨-, rfl, rfl⟩ <;> norm_num)
    (by rcases rect_seg h with ⟨-, rfl, rfl⟩ | ⟨-, rfl, rfl⟩ | ⟨-, rfl, rfl⟩ | ⟨-, rfl, rfl⟩ <;> norm_num)
    (fun hn => absurd (by have := rect_line h; unfold IsLine; rw [this]; norm_num) hn)
  exact ⟨by simpa using k1, by simpa using k2, k3, k4⟩

/-- The hypotheses of `C76_uncut` are met by the square of side 10, offset by 1 to the outside. -/
example (std : StdSort) (hash : HashOrder) (inf ninf : ℝ) :
    ∃ q r, createRawOffsetPline (rect 0 0 10 10) (-1) = .ok q ∧ q.vertexes.length = 8 ∧
      parallelOffset (codePlatform inf ninf) std hash (rect 0 0 10 10) (-1) true = .ok r ∧
      ((r = [q] ∧ ∀ x, OnPline q x → AtDistance (rect 0 0 10 10) |-1| x) ∨
       ((∀ x, OnPline q x → ¬ AtDistance (rect 0 0 10 10) |-1| x) ∧
        (r = [] ∨ r = [q] ∧ ∃ v, q.vertexes.head? = some v ∧ Clear (rect 0 0 10 10) (|-1| - 1 / 10 ^ 4) v.pos))) := by
  have hs : RoundOk 1 0 0 10 10 1 := ⟨Or.inl rfl, by norm_num, by norm_num, by norm_num, by norm_num⟩
  obtain ⟨q, hq, hraw⟩ := turned_raw_round hs
  have hcl := turned_clear hs
  have e1 : turned 1 0 0 10 10 = rect 0 0 10 10 := by simp [turned]
  have e2 : -((1 : ℝ) * 1) = -1 := by norm_num
  rw [e1, e2] at hraw hcl
  have hdual : createRawOffsetPline (rect 0 0 10 10) (-(-1)) = .ok (rect 1 1 9 9) := by
    rw [neg_neg, rect_raw (by norm_num) (by norm_num) (by norm_num) (by norm_num [abs_of_pos]) (by norm_num [abs_of_pos])]
    norm_num
  have hb : BothOffset (codePlatform inf ninf) (rect 0 0 10 10) q (rect 1 1 9 9) (-1) := by
    refine ⟨⟨rfl, by simp [rect], by simp [rect, isLine_zero]⟩, by norm_num, hcl, by rw [neg_neg]; exact square_clear,
      rect_indexable inf ninf, hraw, hdual, hq.indexable inf ninf, hq.long, ?_⟩
    intro i v w h hl
    exact absurd (by have := rect_line h; unfold IsLine; rw [this]; norm_num) hl
  have hsep : ∀ {i : ℕ} {v w : Vertex}, IsSeg q i v w → ∃ lx hx ly hy, SegIn 1 lx hx ly hy v w ∧
      (hx ≤ 0 ∨ 10 ≤ lx ∨ hy ≤ 0 ∨ 10 ≤ ly) := by
    intro i v w h
    obtain ⟨lx, hx, ly, hy, h1, h2⟩ := hq.bounds h
    refine ⟨lx, hx, ly, hy, h1, ?_⟩
    rcases h2 with h2 | h2 | h2 | h2 | h2 | h2 | h2 | h2 <;> obtain ⟨-, -, rfl, rfl, rfl, rfl⟩ := h2 <;> norm_num
  have hnm : ∀ x, ¬ MeetsAt q (rect 1 1 9 9) x := by
    rintro x (h | ⟨⟨i, v, w, h, ho⟩, ⟨j, v', w', h', ho'⟩⟩)
    · exact hq.once x h
    · obtain ⟨lx, hx, ly, hy, h1, h2⟩ := hsep h
      have k1 := h1.point (Or.inl rfl) (hq.ok _ _ _ h) ho
      have k2 := (rect_in h').point (Or.inl rfl) (rect_ok _ _ _ h') ho'
      rcases h2 with h2 | h2 | h2 | h2 <;> linarith [k1.1, k1.2.1, k1.2.2.1, k1.2.2.2, k2.1, k2.2.1, k2.2.2.1, k2.2.2.2]
  obtain ⟨r, hr, h⟩ := C76_uncut (std := std) (hash := hash) hb hnm (fun selfs d hs hd => by
    rw [hq.selfs hs, intersects_none hd]
    · rfl
    · rintro i j v w v' w' h h' ⟨b1, b2, b3, b4⟩
      obtain ⟨lx, hx, ly, hy, h1, h2⟩ := hsep h
      have h3 := rect_in h'
      have e5 : (1 / 10 ^ 5 : ℝ) < 1 := by norm_num
      rcases h2 with h2 | h2 | h2 | h2 <;>
        linarith [h1.minX, h1.maxX, h1.minY, h1.maxY, h3.minX, h3.maxX, h3.minY, h3.maxY, h1.minX.1, h1.maxX.1, h1.minY.1,
          h1.maxY.1, h3.minX.1, h3.maxX.1, h3.minY.1, h3.maxY.1, h1.minX.2, h1.maxX.2, h1.minY.2,
          h1.maxY.2, h3.minX.2, h3.maxX.2, h3.minY.2, h3.maxY.2])
  exact ⟨q, r, hraw, hq.size_eq.1, hr, h⟩

end
end Cavc

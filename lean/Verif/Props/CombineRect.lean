import Verif.Props.CombineTable
import Verif.Props.OffsetRect

/-! C42 for rectangles: nested ones and ones that are apart. -/
namespace Cavc
open Spec
open scoped Classical
noncomputable section

variable {x0 y0 x1 y1 : ℝ}

/-- The winding number of a rectangle. -/
theorem rect_winding (hx : x0 < x1) (hy : y0 < y1) (p : V2) :
    getWindingNumber (rect x0 y0 x1 y1) p =
      .ok (if (x0 < p.x ∧ p.x < x1) ∧ y0 ≤ p.y ∧ p.y < y1 then 1 else 0) := by
  have hz : ∀ q : V2, (⟨q, 0⟩ : Vertex).bulgeIsZero := by
    intro q; norm_num [Vertex.bulgeIsZero, realPrecision]
  have hvl : visitList (rect x0 y0 x1 y1) = [(⟨⟨x0, y1⟩, 0⟩, ⟨⟨x0, y0⟩, 0⟩, 3),
      (⟨⟨x0, y0⟩, 0⟩, ⟨⟨x1, y0⟩, 0⟩, 0), (⟨⟨x1, y0⟩, 0⟩, ⟨⟨x1, y1⟩, 0⟩, 1),
      (⟨⟨x1, y1⟩, 0⟩, ⟨⟨x0, y1⟩, 0⟩, 2)] := rfl
  unfold getWindingNumber
  rw [if_neg (by simp [rect, Polyline.size]), visitAll_eq, hvl]
  simp only [List.foldlM_cons, List.foldlM_nil, windingVisitor, if_pos (hz _), ok_bind, pure_eq_ok,
    zero_add]
  congr 1
  have e1 : lineWinding ⟨⟨x0, y0⟩, 0⟩ ⟨⟨x1, y0⟩, 0⟩ p = 0 := by
    unfold lineWinding
    simp only
    split_ifs with h1 h2 h3
    · exact absurd h2.1 (by simp; linarith)
    · rfl
    · exact absurd h3.1 h1
    · rfl
  have e2 : lineWinding ⟨⟨x1, y1⟩, 0⟩ ⟨⟨x0, y1⟩, 0⟩ p = 0 := by
    unfold lineWinding
    simp only
    split_ifs with h1 h2 h3
    · exact absurd h2.1 (by simp; linarith)
    · rfl
    · exact absurd h3.1 h1
    · rfl
  have hd : 0 < y1 - y0 := by linarith
  have e3 : lineWinding ⟨⟨x1, y0⟩, 0⟩ ⟨⟨x1, y1⟩, 0⟩ p =
      if (y0 ≤ p.y ∧ p.y < y1) ∧ p.x < x1 then 1 else 0 := by
    have : isLeft ⟨x1, y0⟩ ⟨x1, y1⟩ p ↔ p.x < x1 := by
      unfold isLeft cross
      simp only
      constructor <;> intro h <;> nlinarith
    unfold lineWinding
    simp only [this]
    split_ifs <;> first | rfl | (exfalso; simp_all; try linarith)
  have e4 : lineWinding ⟨⟨x0, y1⟩, 0⟩ ⟨⟨x0, y0⟩, 0⟩ p =
      if (y0 ≤ p.y ∧ p.y < y1) ∧ p.x ≤ x0 then -1 else 0 := by
    have : isLeft ⟨x0, y1⟩ ⟨x0, y0⟩ p ↔ x0 < p.x := by
      unfold isLeft cross
      simp only
      constructor <;> intro h <;> nlinarith
    unfold lineWinding
    simp only [this, not_lt]
    split_ifs <;> first | rfl | (exfalso; simp_all; try linarith)
  rw [e1, e2, e3, e4]
  by_cases h1 : y0 ≤ p.y ∧ p.y < y1
  · by_cases h2 : p.x < x1
    · by_cases h3 : p.x ≤ x0
      · simp [h1, h2, h3]
      · simp [h1, h2, h3, not_le.1 h3]
    · have h3 : ¬ p.x ≤ x0 := by intro h; linarith
      simp [h1, h2, h3]
  · simp [h1]

theorem rect_onPline {p : V2} (hx : x0 ≤ x1) (hy : y0 ≤ y1) (h : OnPline (rect x0 y0 x1 y1) p) :
    ((p.x = x0 ∨ p.x = x1) ∧ y0 ≤ p.y ∧ p.y ≤ y1) ∨ ((p.y = y0 ∨ p.y = y1) ∧ x0 ≤ p.x ∧ p.x ≤ x1) := by
  obtain ⟨i, v1, v2, hs, t, ht0, ht1, hp⟩ := h
  have hl := rect_line hs
  have : p = lerp v1.pos v2.pos t := by
    rcases hp with ⟨_, rfl⟩ | ⟨hn, _⟩
    · rfl
    · exact absurd (show |v1.bulge| < 1 / 10 ^ 5 by rw [hl]; norm_num) hn
  subst this
  rcases rect_seg hs with ⟨-, rfl, rfl⟩ | ⟨-, rfl, rfl⟩ | ⟨-, rfl, rfl⟩ | ⟨-, rfl, rfl⟩ <;>
    simp only [lerp]
  · right; exact ⟨Or.inl (by ring), by nlinarith, by nlinarith⟩
  · left; exact ⟨Or.inr (by ring), by nlinarith, by nlinarith⟩
  · right; exact ⟨Or.inr (by ring), by nlinarith, by nlinarith⟩
  · left; exact ⟨Or.inl (by ring), by nlinarith, by nlinarith⟩

/-- The inside of a rectangle. -/
theorem rect_inside (hx : x0 < x1) (hy : y0 < y1) {p : V2} (hoff : ¬ OnPline (rect x0 y0 x1 y1) p) :
    Inside (rect x0 y0 x1 y1) p ↔ (x0 < p.x ∧ p.x < x1) ∧ y0 ≤ p.y ∧ p.y < y1 := by
  obtain ⟨k, hk, hi⟩ := inside_run rect_ok rfl hoff
  rw [hi]
  rw [rect_winding hx hy] at hk
  injection hk with hk
  rw [← hk]
  split_ifs with h <;> simp [h]

theorem rect_box {i : ℕ} {v1 v2 : Vertex} (hx : x0 < x1) (hy : y0 < y1)
    (h : IsSeg (rect x0 y0 x1 y1) i v1 v2) :
    let b := createFastApproxBoundingBox v1 v2
    (b.xMin = x0 ∧ b.xMax = x1 ∧ b.yMin = b.yMax ∧ (b.yMin = y0 ∨ b.yMin = y1)) ∨
    (b.yMin = y0 ∧ b.yMax = y1 ∧ b.xMin = b.xMax ∧ (b.xMin = x0 ∨ b.xMin = x1)) := by
  have hz : ∀ q : V2, (⟨q, 0⟩ : Vertex).bulgeIsZero := by
    intro q; norm_num [Vertex.bulgeIsZero, realPrecision]
  have n1 : ¬ x1 < x0 := by linarith
  have n2 : ¬ y1 < y0 := by linarith
  rcases rect_seg h with ⟨-, rfl, rfl⟩ | ⟨-, rfl, rfl⟩ | ⟨-, rfl, rfl⟩ | ⟨-, rfl, rfl⟩ <;>
    simp only [createFastApproxBoundingBox, if_pos (hz _), if_pos hx, if_pos hy, if_neg n1, if_neg n2,
      lt_irrefl, if_false] <;> simp

theorem nested_nothing {a0 b0 a1 b1 : ℝ}
    (hx : a0 < a1) (hy : b0 < b1) (h1 : x0 + 1 / 10 ^ 4 ≤ a0) (h2 : a1 + 1 / 10 ^ 4 ≤ x1)
    (h3 : y0 + 1 / 10 ^ 4 ≤ b0) (h4 : b1 + 1 / 10 ^ 4 ≤ y1) :
    NothingReported (rect a0 b0 a1 b1) (rect x0 y0 x1 y1) := by
  intro i j v1 v2 u1 u2 s1 s2 hc
  exfalso
  obtain ⟨c1, c2, c3, c4⟩ := hc
  rcases rect_box hx hy s1 with ⟨e1, e2, e3, e4 | e4⟩ | ⟨e1, e2, e3, e4 | e4⟩ <;>
  rcases rect_box (show x0 < x1 by linarith) (show y0 < y1 by linarith) s2 with
    ⟨f1, f2, f3, f4 | f4⟩ | ⟨f1, f2, f3, f4 | f4⟩ <;> linarith

/-- C42 for a rectangle inside another one, at least `1 / 10 ^ 4` from its boundary. -/
theorem C42_nested_rectangles (inf ninf : ℝ) {std : StdSort} {hash : HashOrder} {a0 b0 a1 b1 : ℝ}
    (hx : a0 < a1) (hy : b0 < b1) (h1 : x0 + 1 / 10 ^ 4 ≤ a0) (h2 : a1 + 1 / 10 ^ 4 ≤ x1)
    (h3 : y0 + 1 / 10 ^ 4 ≤ b0) (h4 : b1 + 1 / 10 ^ 4 ≤ y1) (mode : CombineMode) :
    let A := rect a0 b0 a1 b1
    let B := rect x0 y0 x1 y1
    combinePolylines (codePlatform inf ninf) std hash A B mode = .ok (
      match mode with
      | .union => ⟨[B], []⟩
      | .exclude => ⟨[], []⟩
      | .intersect => ⟨[A], []⟩
      | .xor => ⟨[B], [A]⟩) ∧
    combinePolylines (codePlatform inf ninf) std hash B A mode = .ok (
      match mode with
      | .union => ⟨[B], []⟩
      | .exclude => ⟨[B], [A]⟩
      | .intersect => ⟨[A], []⟩
      | .xor => ⟨[B], [A]⟩) := by
  intro A B
  have hX : x0 < x1 := by linarith
  have hY : y0 < y1 := by linarith
  have hno : NothingReported A B := nested_nothing hx hy h1 h2 h3 h4
  have hno' : NothingReported B A := by
    intro i j v1 v2 u1 u2 s1 s2 hc
    exfalso
    obtain ⟨c1, c2, c3, c4⟩ := hc
    rcases rect_box hx hy s2 with ⟨e1, e2, e3, e4 | e4⟩ | ⟨e1, e2, e3, e4 | e4⟩ <;>
    rcases rect_box hX hY s1 with ⟨f1, f2, f3, f4 | f4⟩ | ⟨f1, f2, f3, f4 | f4⟩ <;> linarith
  have oA : ¬ OnPline B ⟨a0, b0⟩ := by
    intro h
    rcases rect_onPline hX.le hY.le h with ⟨g1 | g1, -⟩ | ⟨g1 | g1, -⟩ <;> simp only at g1 <;> linarith
  have oB : ¬ OnPline A ⟨x0, y0⟩ := by
    intro h
    rcases rect_onPline hx.le hy.le h with ⟨-, g1, -⟩ | ⟨-, g1, -⟩ <;> simp only at g1 <;> linarith
  have iA : Inside B ⟨a0, b0⟩ :=
    (rect_inside hX hY oA).2 ⟨⟨by simp only; linarith, by simp only; linarith⟩, by simp only; linarith,
      by simp only; linarith⟩
  have iB : ¬ Inside A ⟨x0, y0⟩ := by
    intro h
    have := ((rect_inside hx hy oB).1 h).1.1
    simp only at this
    linarith
  constructor
  · rw [C42_table (rect_indexable inf ninf) rect_ok rect_ok rfl rfl (a := ⟨⟨a0, b0⟩, 0⟩)
      (b := ⟨⟨x0, y0⟩, 0⟩) rfl rfl hno oA oB mode]
    simp only [A, B] at iA iB ⊢
    cases mode <;> simp only [if_pos iA]
  · rw [C42_table (rect_indexable inf ninf) rect_ok rect_ok rfl rfl (b := ⟨⟨a0, b0⟩, 0⟩)
      (a := ⟨⟨x0, y0⟩, 0⟩) rfl rfl hno' oB oA mode]
    simp only [A, B] at iA iB ⊢
    cases mode <;> simp only [if_pos iA, if_neg iB]

/-- C42 for two rectangles that are more than `1 / 10 ^ 5` apart. -/
theorem C42_rectangles_apart (inf ninf : ℝ) {std : StdSort} {hash : HashOrder} {a0 b0 a1 b1 : ℝ}
    (hx : a0 < a1) (hy : b0 < b1) (hX : x0 < x1) (hY : y0 < y1)
    (h : a1 + 1 / 10 ^ 5 < x0 ∨ x1 + 1 / 10 ^ 5 < a0 ∨ b1 + 1 / 10 ^ 5 < y0 ∨ y1 + 1 / 10 ^ 5 < b0)
    (mode : CombineMode) :
    let A := rect a0 b0 a1 b1
    let B := rect x0 y0 x1 y1
    combinePolylines (codePlatform inf ninf) std hash A B mode = .ok (
      match mode with
      | .union => ⟨[A, B], []⟩
      | .exclude => ⟨[A], []⟩
      | .intersect => ⟨[], []⟩
      | .xor => ⟨[A, B], []⟩) := by
  intro A B
  have hno : NothingReported A B := by
    intro i j v1 v2 u1 u2 s1 s2 hc
    exfalso
    obtain ⟨c1, c2, c3, c4⟩ := hc
    rcases rect_box hx hy s1 with ⟨e1, e2, e3, e4 | e4⟩ | ⟨e1, e2, e3, e4 | e4⟩ <;>
    rcases rect_box hX hY s2 with ⟨f1, f2, f3, f4 | f4⟩ | ⟨f1, f2, f3, f4 | f4⟩ <;>
    rcases h with h | h | h | h <;> linarith
  have oA : ¬ OnPline B ⟨a0, b0⟩ := by
    intro g
    rcases rect_onPline hX.le hY.le g with ⟨g1 | g1, g2, g3⟩ | ⟨g1 | g1, g2, g3⟩ <;>
      simp only at g1 g2 g3 <;> rcases h with h | h | h | h <;> linarith
  have oB : ¬ OnPline A ⟨x0, y0⟩ := by
    intro g
    rcases rect_onPline hx.le hy.le g with ⟨g1 | g1, g2, g3⟩ | ⟨g1 | g1, g2, g3⟩ <;>
      simp only at g1 g2 g3 <;> rcases h with h | h | h | h <;> linarith
  have iA : ¬ Inside B ⟨a0, b0⟩ := by
    intro g
    obtain ⟨⟨g1, g2⟩, g3, g4⟩ := (rect_inside hX hY oA).1 g
    simp only at g1 g2 g3 g4
    rcases h with h | h | h | h <;> linarith
  have iB : ¬ Inside A ⟨x0, y0⟩ := by
    intro g
    obtain ⟨⟨g1, g2⟩, g3, g4⟩ := (rect_inside hx hy oB).1 g
    simp only at g1 g2 g3 g4
    rcases h with h | h | h | h <;> linarith
  rw [C42_table (rect_indexable inf ninf) rect_ok rect_ok rfl rfl (a := ⟨⟨a0, b0⟩, 0⟩)
    (b := ⟨⟨x0, y0⟩, 0⟩) rfl rfl hno oA oB mode]
  simp only [A, B] at iA iB ⊢
  cases mode <;> simp only [if_neg iA, if_neg iB]

/-- The hypotheses of `C42_boolean` hold for a rectangle inside another one, at every point that is on
neither of them. -/
example (inf ninf : ℝ) (std : StdSort) (hash : HashOrder) (mode : CombineMode) (x : V2)
    (hA : ¬ OnPline (rect 2 2 4 4) x) (hB : ¬ OnPline (rect 0 0 10 10) x) :
    ∃ r, combinePolylines (codePlatform inf ninf) std hash (rect 2 2 4 4) (rect 0 0 10 10) mode = .ok r ∧
      (InResult r x ↔ boolOp mode (Inside (rect 2 2 4 4) x) (Inside (rect 0 0 10 10) x)) := by
  have n4 : (2 : ℝ) < 4 := by norm_num
  have n10 : (0 : ℝ) < 10 := by norm_num
  have oA : ¬ OnPline (rect 0 0 10 10) ⟨2, 2⟩ := by
    intro h
    rcases rect_onPline n10.le n10.le h with ⟨g1 | g1, -⟩ | ⟨g1 | g1, -⟩ <;> norm_num at g1
  have oB : ¬ OnPline (rect 2 2 4 4) ⟨0, 0⟩ := by
    intro h
    rcases rect_onPline n4.le n4.le h with ⟨-, g1, -⟩ | ⟨-, g1, -⟩ <;> norm_num at g1
  have iA : Inside (rect 0 0 10 10) ⟨2, 2⟩ := (rect_inside n10 n10 oA).2 (by norm_num)
  have iB : ¬ Inside (rect 2 2 4 4) ⟨0, 0⟩ := fun h => by
    have := ((rect_inside n4 n4 oB).1 h).1.1
    norm_num at this
  refine C42_boolean (rect_indexable inf ninf) rect_ok rect_ok rfl rfl (a := ⟨⟨2, 2⟩, 0⟩)
    (b := ⟨⟨0, 0⟩, 0⟩) rfl rfl
    (nested_nothing n4 n4 (by norm_num) (by norm_num) (by norm_num) (by norm_num))
    oA oB mode x ?_ (fun h => absurd h iB) (fun h => absurd iA h)
  intro _ h
  obtain ⟨⟨g1, g2⟩, g3, g4⟩ := (rect_inside n4 n4 hA).1 h
  exact (rect_inside n10 n10 hB).2 ⟨⟨by linarith, by linarith⟩, by linarith, by linarith⟩

end
end Cavc

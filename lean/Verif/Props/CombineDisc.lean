import Verif.Props.CombineArcs
import Verif.Props.WindingRegion
import Verif.Props.CombineRegion

/-!
A disc and a rectangle that cross at two points: the hypotheses of C71 and C50_exact.
-/
namespace Cavc
open Spec
open scoped Classical
noncomputable section

theorem disc5_center {a b : ℝ} (h : a + b = 0) {c : V2} (hc : IsCenter ⟨⟨a, 0⟩, 1⟩ ⟨⟨b, 0⟩, 1⟩ c) : c = ⟨0, 0⟩ := by
  rw [isCenter_unique (by norm_num) hc]
  have : b = -a := by linarith
  subst this
  ext <;> norm_num [centerOf]

/-- The points of the lower and of the upper half of the circle. -/
theorem half_on {a b : ℝ} (h : (a = 5 ∧ b = -5) ∨ (a = -5 ∧ b = 5)) {x : V2} :
    OnSeg ⟨⟨a, 0⟩, 1⟩ ⟨⟨b, 0⟩, 1⟩ x ↔ x.x ^ 2 + x.y ^ 2 = 25 ∧ 0 ≤ a * x.y := by
  have hc : centerOf ⟨⟨a, 0⟩, 1⟩ ⟨⟨b, 0⟩, 1⟩ = ⟨0, 0⟩ :=
    disc5_center (by rcases h with ⟨rfl, rfl⟩ | ⟨rfl, rfl⟩ <;> norm_num) (isCenter_centerOf (by norm_num))
  have ha : ArcOk ⟨⟨a, 0⟩, 1⟩ ⟨⟨b, 0⟩, 1⟩ := by
    refine SegOk.arcOk ⟨by norm_num, fun _ => Or.inl ?_⟩ (arc5 _)
    rcases h with ⟨rfl, rfl⟩ | ⟨rfl, rfl⟩ <;> norm_num
  rw [onSeg_iff_circle ha (by norm_num), hc]
  unfold OnCircle InSector
  rw [distance_sq, hc]
  simp only [dist2, cross]
  rcases h with ⟨rfl, rfl⟩ | ⟨rfl, rfl⟩
  · constructor
    · rintro ⟨h1, h2 | h2⟩
      · exact ⟨by nlinarith, by linarith [h2.2.1]⟩
      · norm_num at h2
    · rintro ⟨h1, h2⟩
      exact ⟨by nlinarith, Or.inl ⟨by norm_num, by linarith, by linarith⟩⟩
  · constructor
    · rintro ⟨h1, h2 | h2⟩
      · exact ⟨by nlinarith, by linarith [h2.2.1]⟩
      · norm_num at h2
    · rintro ⟨h1, h2⟩
      exact ⟨by nlinarith, Or.inl ⟨by norm_num, by linarith, by linarith⟩⟩

theorem half_longer {a b : ℝ} (h : (a = 5 ∧ b = -5) ∨ (a = -5 ∧ b = 5)) {x : V2}
    (hx : OnLonger (1 / 10 ^ 8) ⟨⟨a, 0⟩, 1⟩ ⟨⟨b, 0⟩, 1⟩ x) : x.x ^ 2 + x.y ^ 2 = 25 ∧ -1 / 10 ^ 8 < a * x.y := by
  rcases hx with ⟨hl, -⟩ | ⟨-, c, hc, h1, h2⟩
  · exact absurd hl (arc5 _)
  · rw [disc5_center (by rcases h with ⟨rfl, rfl⟩ | ⟨rfl, rfl⟩ <;> norm_num) hc] at h1 h2
    unfold OnCircle at h1
    rw [distance_sq] at h1
    simp only [dist2, InSweep, side] at h1 h2
    rcases h with ⟨rfl, rfl⟩ | ⟨rfl, rfl⟩ <;> norm_num at h1 h2 ⊢ <;> exact ⟨h1, by linarith⟩

/-- The edge of the rectangle that meets the circle, and where. -/
theorem edge_longer {j : ℕ} {u1 u2 : Vertex} (h : IsSeg (rect 3 (-8) 10 8) j u1 u2) {x : V2}
    (hx : OnLonger (1 / 10 ^ 8) u1 u2 x) (hc : x.x ^ 2 + x.y ^ 2 = 25) :
    j = 3 ∧ (x = ⟨3, 4⟩ ∨ x = ⟨3, -4⟩) := by
  have hl : ∃ t, x = lerp u1.pos u2.pos t := by
    rcases hx with ⟨-, t, -, -, ht⟩ | ⟨hn, -⟩
    · exact ⟨t, ht⟩
    · rcases rect_seg h with ⟨-, rfl, -⟩ | ⟨-, rfl, -⟩ | ⟨-, rfl, -⟩ | ⟨-, rfl, -⟩ <;>
        exact absurd (isLine_zero _) hn
  obtain ⟨t, rfl⟩ := hl
  rcases rect_seg h with ⟨rfl, rfl, rfl⟩ | ⟨rfl, rfl, rfl⟩ | ⟨rfl, rfl, rfl⟩ | ⟨rfl, rfl, rfl⟩ <;>
    simp only [lerp] at hc ⊢
  · nlinarith [sq_nonneg (3 + (10 - 3) * t)]
  · nlinarith [sq_nonneg (-8 + (8 - -8) * t)]
  · nlinarith [sq_nonneg (10 + (3 - 10) * t)]
  · refine ⟨trivial, ?_⟩
    have : (8 - 16 * t - 4) * (8 - 16 * t + 4) = 0 := by nlinarith
    rcases mul_eq_zero.1 this with h | h
    · left; ext <;> simp; linarith
    · right; ext <;> simp; linarith

theorem edge3_on : OnSeg ⟨⟨3, 8⟩, 0⟩ ⟨⟨3, -8⟩, 0⟩ ⟨3, 4⟩ ∧ OnSeg ⟨⟨3, 8⟩, 0⟩ ⟨⟨3, -8⟩, 0⟩ ⟨3, -4⟩ := by
  constructor
  · rw [onSeg_line (isLine_zero _)]
    exact ⟨1 / 4, by norm_num, by norm_num, by ext <;> norm_num [lerp]⟩
  · rw [onSeg_line (isLine_zero _)]
    exact ⟨3 / 4, by norm_num, by norm_num, by ext <;> norm_num [lerp]⟩

theorem edge_on {j : ℕ} {u1 u2 : Vertex} (h : IsSeg (rect 3 (-8) 10 8) j u1 u2) {x : V2}
    (hx : OnSeg u1 u2 x) (hc : x.x ^ 2 + x.y ^ 2 = 25) : j = 3 ∧ (x = ⟨3, 4⟩ ∨ x = ⟨3, -4⟩) :=
  edge_longer h (onSeg_longer (rect_ok _ _ _ h) hx) hc

theorem disc5_index {i : ℕ} {v1 v2 : Vertex} (h : IsSeg disc5 i v1 v2) :
    (i = 0 ∧ v1 = ⟨⟨-5, 0⟩, 1⟩ ∧ v2 = ⟨⟨5, 0⟩, 1⟩) ∨ (i = 1 ∧ v1 = ⟨⟨5, 0⟩, 1⟩ ∧ v2 = ⟨⟨-5, 0⟩, 1⟩) := by
  have h' : [((⟨⟨-5, 0⟩, 1⟩ : Vertex), (⟨⟨5, 0⟩, 1⟩ : Vertex)), (⟨⟨5, 0⟩, 1⟩, ⟨⟨-5, 0⟩, 1⟩)][i]? = some (v1, v2) := h
  match i, h' with
  | 0, h' => simp at h'; exact Or.inl ⟨rfl, h'.1.symm, h'.2.symm⟩
  | 1, h' => simp at h'; exact Or.inr ⟨rfl, h'.1.symm, h'.2.symm⟩
  | n + 2, h' => simp at h'

/-- The half circles and the edges. -/
theorem disc5_pair {i j : ℕ} {v1 v2 u1 u2 : Vertex} (h1 : IsSeg disc5 i v1 v2)
    (h2 : IsSeg (rect 3 (-8) 10 8) j u1 u2) : ClearPair v1 v2 u1 u2 := by
  have hal : ¬ IsLine v1 := by rcases disc5_seg h1 with ⟨rfl, -⟩ | ⟨rfl, -⟩ <;> exact arc5 _
  have hul : IsLine u1 := by
    rcases rect_seg h2 with ⟨-, rfl, -⟩ | ⟨-, rfl, -⟩ | ⟨-, rfl, -⟩ | ⟨-, rfl, -⟩ <;> exact isLine_zero _
  refine ⟨fun h => absurd h hal, fun h => absurd h hal, fun _ _ c hc => ?_, fun _ h => absurd hul h, ?_⟩
  · have e : c = ⟨0, 0⟩ ∧ distance v1.pos c ^ 2 = 25 := by
      rcases disc5_seg h1 with ⟨rfl, rfl⟩ | ⟨rfl, rfl⟩ <;>
      · have := disc5_center (by norm_num) hc
        subst this
        refine ⟨rfl, ?_⟩
        rw [distance_sq]
        norm_num [dist2]
    unfold LineCircleClear
    rw [e.2, e.1]
    rcases rect_seg h2 with ⟨-, rfl, rfl⟩ | ⟨-, rfl, rfl⟩ | ⟨-, rfl, rfl⟩ | ⟨-, rfl, rfl⟩ <;>
      norm_num [dist2, side]
  · intro x hx1 hx2
    rcases disc5_seg h1 with ⟨rfl, rfl⟩ | ⟨rfl, rfl⟩
    · obtain ⟨c1, c2⟩ := half_longer (Or.inr ⟨rfl, rfl⟩) hx1
      obtain ⟨rfl, e⟩ := edge_longer h2 hx2 c1
      rcases rect_seg h2 with ⟨h, -⟩ | ⟨h, -⟩ | ⟨h, -⟩ | ⟨-, rfl, rfl⟩ <;> try omega
      rcases e with rfl | rfl
      · norm_num at c2
      · exact ⟨(half_on (Or.inr ⟨rfl, rfl⟩)).2 (by norm_num), edge3_on.2⟩
    · obtain ⟨c1, c2⟩ := half_longer (Or.inl ⟨rfl, rfl⟩) hx1
      obtain ⟨rfl, e⟩ := edge_longer h2 hx2 c1
      rcases rect_seg h2 with ⟨h, -⟩ | ⟨h, -⟩ | ⟨h, -⟩ | ⟨-, rfl, rfl⟩ <;> try omega
      rcases e with rfl | rfl
      · exact ⟨(half_on (Or.inl ⟨rfl, rfl⟩)).2 (by norm_num), edge3_on.1⟩
      · norm_num at c2

/-- C50_exact applied: the upper half circle and the left edge are reported to meet at (3, 4) and nowhere else. -/
example : ∃ res, intrPlineSegs ⟨⟨5, 0⟩, 1⟩ ⟨⟨-5, 0⟩, 1⟩ ⟨⟨3, 8⟩, 0⟩ ⟨⟨3, -8⟩, 0⟩ = .ok res ∧
    FoundExactly res ⟨⟨5, 0⟩, 1⟩ ⟨⟨-5, 0⟩, 1⟩ ⟨⟨3, 8⟩, 0⟩ ⟨⟨3, -8⟩, 0⟩ :=
  C50_exact (disc5_ok 1 _ _ rfl) (rect_ok (x0 := 3) (y0 := -8) (x1 := 10) (y1 := 8) 3 _ _ rfl) (disc5_pair (i := 1) (j := 3) rfl rfl)

/-- The point of a half circle at a parameter. -/
theorem half_at {a b t : ℝ} (h : a + b = 0) {x : V2} (hx : AtParam ⟨⟨a, 0⟩, 1⟩ ⟨⟨b, 0⟩, 1⟩ t x) :
    x.x = a * Real.cos (t * Real.pi) := by
  rw [atParam_arc (arc5 _)] at hx
  have hc : centerOf ⟨⟨a, 0⟩, 1⟩ ⟨⟨b, 0⟩, 1⟩ = ⟨0, 0⟩ := disc5_center h (isCenter_centerOf (by norm_num))
  have hs : sweep ⟨⟨a, 0⟩, 1⟩ = Real.pi := by simp only [sweep, Real.arctan_one]; ring
  rw [hx, hc, hs]
  simp [rot]

theorem disc5_once : GoesOnce disc5 1 := by
  refine ⟨Or.inl rfl, ?_, ?_⟩
  · obtain ⟨γ, hγ⟩ := exists_path disc5
    refine ⟨γ, hγ, ?_⟩
    have h1 := C21_getArea disc5 rfl γ hγ
    have h2 : getArea disc5 = .ok (25 * Real.pi) := by
      rw [getArea_eq rfl (by simp [disc5])]
      congr 1
      simp only [segs, disc5, List.length_cons, List.length_nil, Polyline.size]
      norm_num [Finset.sum_range_succ, vtx, areaTerm, IsLine, dist2]
      ring
    rw [h2] at h1
    injection h1 with h1
    rw [← h1, Int.cast_one, one_mul]
    positivity
  · intro x hoff k hk
    have hne : x.x ^ 2 + x.y ^ 2 ≠ 25 := by
      intro he
      apply hoff
      rcases le_total 0 x.y with h | h
      · exact ⟨1, _, _, rfl, (half_on (Or.inl ⟨rfl, rfl⟩)).2 ⟨he, by linarith⟩⟩
      · exact ⟨0, _, _, rfl, (half_on (Or.inr ⟨rfl, rfl⟩)).2 ⟨he, by linarith⟩⟩
    rcases lt_or_gt_of_ne hne with hin | hout
    · right
      obtain ⟨γ, hγ, he⟩ := hk
      have p0 : IsSeg disc5 0 ⟨⟨-5, 0⟩, 1⟩ ⟨⟨5, 0⟩, 1⟩ := rfl
      have p1 : IsSeg disc5 1 ⟨⟨5, 0⟩, 1⟩ ⟨⟨-5, 0⟩, 1⟩ := rfl
      have c0 : centerOf ⟨⟨-5, 0⟩, 1⟩ ⟨⟨5, 0⟩, 1⟩ = ⟨0, 0⟩ := disc5_center (by norm_num) (isCenter_centerOf (by norm_num))
      have c1 : centerOf ⟨⟨5, 0⟩, 1⟩ ⟨⟨-5, 0⟩, 1⟩ = ⟨0, 0⟩ := disc5_center (by norm_num) (isCenter_centerOf (by norm_num))
      have t0 := ((arc_turn ((disc5_ok _ _ _ p0).arcOk (arc5 _)) (by norm_num) (fun h => hoff ⟨_, _, _, p0, h⟩)
        (hγ _ _ _ p0)).2.2 (by rw [c0]; simp only [dist2]; nlinarith)).1 (by norm_num)
      have t1 := ((arc_turn ((disc5_ok _ _ _ p1).arcOk (arc5 _)) (by norm_num) (fun h => hoff ⟨_, _, _, p1, h⟩)
        (hγ _ _ _ p1)).2.2 (by rw [c1]; simp only [dist2]; nlinarith)).1 (by norm_num)
      have hl : (segs disc5).length = 2 := rfl
      rw [hl, Finset.sum_range_succ, Finset.sum_range_one, eq_div_iff (by positivity)] at he
      have hp := Real.pi_pos
      have k0 : (0 : ℝ) < k := by
        by_contra hn
        nlinarith
      have k2 : (k : ℝ) < 2 := by
        by_contra hn
        nlinarith
      have k0' : 0 < k := by exact_mod_cast k0
      have k2' : k < 2 := by exact_mod_cast k2
      omega
    · left
      have h0 := C70_beyond disc5 disc5_ok x x.x x.y fun y hy => by
        have := disc5_on hy
        nlinarith [sq_nonneg (x.x - y.x), sq_nonneg (x.y - y.y)]
      rw [winding_iff disc5_ok rfl hoff, h0] at hk
      exact (Except.ok.inj hk).symm

theorem far_x {x y : V2} (h : 1 ≤ |x.x - y.x| ∨ 1 ≤ |x.y - y.y|) {ε : ℝ} (he : ε ≤ 1) : ¬ Near ε x y := by
  rintro ⟨h1, h2⟩
  rcases h with h | h <;> linarith

theorem half_apart {a b : ℝ} (hab : (a = 5 ∧ b = -5) ∨ (a = -5 ∧ b = 5)) {t t' : ℝ} {x x' : V2}
    (h : EndOrMeet (rect 3 (-8) 10 8) ⟨⟨a, 0⟩, 1⟩ ⟨⟨b, 0⟩, 1⟩ t x)
    (h' : EndOrMeet (rect 3 (-8) 10 8) ⟨⟨a, 0⟩, 1⟩ ⟨⟨b, 0⟩, 1⟩ t' x') (hlt : t < t') :
    1 ≤ |x.x - x'.x| ∧ 1 / 10 ^ 4 ≤ (t' - t) * |sweep ⟨⟨a, 0⟩, 1⟩| := by
  have hs : sweep ⟨⟨a, 0⟩, 1⟩ = Real.pi := by simp only [sweep, Real.arctan_one]; ring
  have hsum : a + b = 0 := by rcases hab with ⟨rfl, rfl⟩ | ⟨rfl, rfl⟩ <;> norm_num
  have key : ∀ {t x}, EndOrMeet (rect 3 (-8) 10 8) ⟨⟨a, 0⟩, 1⟩ ⟨⟨b, 0⟩, 1⟩ t x →
      x.x = -5 ∨ x.x = 3 ∨ x.x = 5 := by
    rintro t x ⟨t0, t1, hx, h⟩
    have hc := half_at hsum hx
    rcases h with rfl | rfl | ⟨j, u1, u2, h1, h2⟩
    · rw [zero_mul, Real.cos_zero] at hc
      rcases hab with ⟨rfl, rfl⟩ | ⟨rfl, rfl⟩ <;> simp [hc]
    · rw [one_mul, Real.cos_pi] at hc
      rcases hab with ⟨rfl, rfl⟩ | ⟨rfl, rfl⟩ <;> simp [hc]
    · have := ((half_on hab).1 ⟨t, t0, t1, hx⟩).1
      rcases (edge_on h1 h2 this).2 with rfl | rfl <;> simp
  have hp := Real.pi_pos
  have hcos : Real.cos (t' * Real.pi) < Real.cos (t * Real.pi) :=
    Real.cos_lt_cos_of_nonneg_of_le_pi (mul_nonneg h.1 hp.le) (by nlinarith [h'.2.1])
      (by nlinarith)
  have hxx : x.x - x'.x = a * (Real.cos (t * Real.pi) - Real.cos (t' * Real.pi)) := by
    rw [half_at hsum h.2.2.1, half_at hsum h'.2.2.1]; ring
  have hne : x.x ≠ x'.x := by
    intro he
    rw [he, sub_self] at hxx
    rcases mul_eq_zero.1 hxx.symm with h | h
    · rcases hab with ⟨rfl, -⟩ | ⟨rfl, -⟩ <;> norm_num at h
    · linarith
  have h2 : 2 ≤ |x.x - x'.x| := by
    rcases key h with e | e | e <;> rcases key h' with e' | e' | e' <;> rw [e, e'] at hne ⊢ <;>
      first | exact absurd rfl hne | norm_num
  refine ⟨by linarith, ?_⟩
  rw [hs, abs_of_pos hp]
  have hlip := Real.abs_cos_sub_cos_le (t * Real.pi) (t' * Real.pi)
  have ha5 : |a| = 5 := by rcases hab with ⟨rfl, -⟩ | ⟨rfl, -⟩ <;> norm_num
  rw [hxx, abs_mul, ha5] at h2
  have e : |t * Real.pi - t' * Real.pi| = (t' - t) * Real.pi := by
    rw [abs_sub_comm, ← sub_mul, abs_of_pos (mul_pos (by linarith) hp)]
  rw [e] at hlip
  linarith

theorem disc5_clean : CleanMeet disc5 (rect 3 (-8) 10 8) where
  pairs := fun i j v1 v2 u1 u2 h1 h2 _ => disc5_pair h1 h2
  vertexA := by
    intro v hv ho
    have := rect_onPline (by norm_num) (by norm_num) ho
    simp only [disc5, List.mem_cons, List.not_mem_nil, or_false] at hv
    rcases hv with rfl | rfl <;> norm_num at this
  vertexB := by
    intro v hv ho
    have := disc5_on ho
    simp only [rect, List.mem_cons, List.not_mem_nil, or_false] at hv
    rcases hv with rfl | rfl | rfl | rfl <;> norm_num at this
  alongA := by
    intro k v e t t' x x' hs h h' hlt
    rcases disc5_seg hs with ⟨rfl, rfl⟩ | ⟨rfl, rfl⟩
    · obtain ⟨h1, h2⟩ := half_apart (Or.inr ⟨rfl, rfl⟩) h h' hlt
      exact ⟨far_x (Or.inl h1) (by norm_num), fun _ => h2⟩
    · obtain ⟨h1, h2⟩ := half_apart (Or.inl ⟨rfl, rfl⟩) h h' hlt
      exact ⟨far_x (Or.inl h1) (by norm_num), fun _ => h2⟩
  alongB := by
    intro k v e t t' x x' hs h h' hlt
    have hl : IsLine v := by
      rcases rect_seg hs with ⟨-, rfl, -⟩ | ⟨-, rfl, -⟩ | ⟨-, rfl, -⟩ | ⟨-, rfl, -⟩ <;> exact isLine_zero _
    have key : ∀ {t x}, EndOrMeet disc5 v e t x → t = 0 ∨ t = 1 ∨ (k = 3 ∧ (t = 1 / 4 ∨ t = 3 / 4)) := by
      rintro t x ⟨t0, t1, hx, h | h | h⟩
      · exact Or.inl h
      · exact Or.inr (Or.inl h)
      · obtain ⟨rfl, hh⟩ := edge_on hs ⟨t, t0, t1, hx⟩ (disc5_on h)
        rcases rect_seg hs with ⟨h, -⟩ | ⟨h, -⟩ | ⟨h, -⟩ | ⟨-, rfl, rfl⟩ <;> try omega
        rw [atParam_line hl] at hx
        right; right
        refine ⟨rfl, ?_⟩
        rcases hh with rfl | rfl
        · have := congrArg V2.y hx
          simp only [lerp] at this
          left; linarith
        · have := congrArg V2.y hx
          simp only [lerp] at this
          right; linarith
    have kt := key h
    have kt' := key h'
    have hd : 1 / 4 ≤ t' - t := by
      rcases kt with rfl | rfl | ⟨-, rfl | rfl⟩ <;> rcases kt' with rfl | rfl | ⟨-, rfl | rfl⟩ <;> linarith
    refine ⟨?_, fun hn => absurd hl hn⟩
    have hx := (atParam_line hl).1 h.2.2.1
    have hx' := (atParam_line hl).1 h'.2.2.1
    rw [hx, hx']
    apply far_x _ (by norm_num)
    rcases rect_seg hs with ⟨-, rfl, rfl⟩ | ⟨-, rfl, rfl⟩ | ⟨-, rfl, rfl⟩ | ⟨-, rfl, rfl⟩ <;> simp only [lerp]
    · left; rw [abs_sub_comm, le_abs]; left; linarith
    · right; rw [abs_sub_comm, le_abs]; left; linarith
    · left; rw [le_abs]; left; linarith
    · right; rw [le_abs]; left; linarith
  apart := by
    have key : ∀ {i j x}, Common disc5 (rect 3 (-8) 10 8) i j x → j = 3 ∧
        ((i = 1 ∧ x = ⟨3, 4⟩) ∨ (i = 0 ∧ x = ⟨3, -4⟩)) := by
      rintro i j x ⟨v1, v2, u1, u2, h1, h2, h3, h4⟩
      rcases disc5_index h1 with ⟨rfl, rfl, rfl⟩ | ⟨rfl, rfl, rfl⟩
      · obtain ⟨c1, c2⟩ := (half_on (Or.inr ⟨rfl, rfl⟩)).1 h3
        obtain ⟨e1, e2⟩ := edge_on h2 h4 c1
        refine ⟨e1, Or.inr ⟨rfl, ?_⟩⟩
        rcases e2 with rfl | rfl
        · norm_num at c2
        · rfl
      · obtain ⟨c1, c2⟩ := (half_on (Or.inl ⟨rfl, rfl⟩)).1 h3
        obtain ⟨e1, e2⟩ := edge_on h2 h4 c1
        refine ⟨e1, Or.inl ⟨rfl, ?_⟩⟩
        rcases e2 with rfl | rfl
        · rfl
        · norm_num at c2
    intro i j x i' j' x' h h' hne
    obtain ⟨rfl, h1⟩ := key h
    clear h
    obtain ⟨rfl, h2⟩ := key h'
    clear h'
    rcases h1 with ⟨rfl, rfl⟩ | ⟨rfl, rfl⟩ <;> rcases h2 with ⟨rfl, rfl⟩ | ⟨rfl, rfl⟩
    · exact absurd rfl hne
    · exact far_x (Or.inr (by norm_num)) (by norm_num)
    · exact far_x (Or.inr (by norm_num)) (by norm_num)
    · exact absurd rfl hne

/-- C71 applied to the disc and the rectangle: every mode gives the region it should. -/
example (inf ninf : ℝ) (std : StdSort) (hash : HashOrder) (mode : CombineMode) :
    ∃ r, combinePolylines (codePlatform inf ninf) std hash disc5 (rect 3 (-8) 10 8) mode = .ok r ∧
      ∀ x, ¬ OnPline disc5 x → ¬ OnPline (rect 3 (-8) 10 8) x →
        (EvenOdd (r.remaining ++ r.subtracted) x ↔
          boolOp mode (Inside disc5 x) (Inside (rect 3 (-8) 10 8) x)) := by
  obtain ⟨r, h1, -, h3⟩ := C71_combinePolylines inf ninf (std := std) (hash := hash) disc5_ok rect_ok rfl rfl disc5_clean
    disc5_once (rect_once (by norm_num) (by norm_num)) disc5_apart (disc5_indexable inf ninf)
    (by simp [disc5, rect]) mode
  exact ⟨r, h1, h3⟩

end
end Cavc

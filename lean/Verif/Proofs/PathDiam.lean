import Verif.Proofs.CutShape
import Verif.Props.PlineLength
import Verif.Proofs.ArcEdges

/-! The points of a polyline are not further apart than it is long. -/
namespace Cavc
open Spec
open scoped Classical
noncomputable section

theorem distance_tri (a b c : V2) : distance a c ≤ distance a b + distance b c := by
  have h1 := distance_nonneg a b
  have h2 := distance_nonneg b c
  refine Real.sqrt_le_iff.2 ⟨by linarith, ?_⟩
  have e1 := distance_sq a b
  have e2 := distance_sq b c
  have hcs : ((b.x - a.x) * (c.x - b.x) + (b.y - a.y) * (c.y - b.y)) ≤ distance a b * distance b c := by
    refine (le_abs_self _).trans (abs_le_of_sq_le_sq ?_ (mul_nonneg h1 h2))
    rw [mul_pow, e1, e2]
    unfold dist2
    nlinarith [sq_nonneg ((b.x - a.x) * (c.y - b.y) - (b.y - a.y) * (c.x - b.x))]
  rw [add_sq, e1, e2]
  unfold dist2 at *
  nlinarith

theorem distance_symm (a b : V2) : distance a b = distance b a := by
  unfold distance; rw [dist2_comm]

theorem segPt_apart {v e : Vertex} (hf : ¬ Near (1 / 10 ^ 8) v.pos e.pos) {t t' : ℝ} (h0 : 0 ≤ t) (h1 : t ≤ 1)
    (h0' : 0 ≤ t') (h1' : t' ≤ 1) : distance (segPt v e t) (segPt v e t') ≤ segLen v e := by
  have hfz : ¬ fuzzyEqualV v.pos e.pos := by
    intro h
    apply hf
    obtain ⟨hx, hy⟩ := h
    unfold fuzzyEqual realThreshold at hx hy
    exact ⟨by norm_num at *; exact hx, by norm_num at *; exact hy⟩
  have ht : |t - t'| ≤ 1 := by rw [abs_le]; constructor <;> linarith
  unfold segLen segPt
  rw [if_neg hfz]
  by_cases hl : IsLine v
  · rw [if_pos hl, if_pos hl, if_pos hl]
    have hsq : (t - t') ^ 2 ≤ 1 := by rw [← sq_abs]; nlinarith [abs_nonneg (t - t')]
    apply Real.sqrt_le_sqrt
    have : dist2 (lerp v.pos e.pos t) (lerp v.pos e.pos t') = (t - t') ^ 2 * dist2 v.pos e.pos := by
      simp only [dist2, lerp]; ring
    rw [this]
    have := dist2_nonneg v.pos e.pos
    nlinarith
  · rw [if_neg hl, if_neg hl, if_neg hl, ← arc_radius_dist (bulge_ne_zero hl)]
    have hr := distance_nonneg v.pos (centerOf v e)
    refine Real.sqrt_le_iff.2 ⟨by positivity, ?_⟩
    have e1 : dist2 (rot (centerOf v e) (t * sweep v) v.pos) (rot (centerOf v e) (t' * sweep v) v.pos) =
        2 * dist2 v.pos (centerOf v e) * (1 - Real.cos (t * sweep v - t' * sweep v)) := by
      rw [Real.cos_sub]
      simp only [dist2, rot]
      have s1 := Real.sin_sq_add_cos_sq (t * sweep v)
      have s2 := Real.sin_sq_add_cos_sq (t' * sweep v)
      linear_combination ((v.pos.x - (centerOf v e).x) ^ 2 + (v.pos.y - (centerOf v e).y) ^ 2) * (s1 + s2)
    rw [e1, mul_pow, distance_sq, sq_abs]
    have hc := Real.one_sub_sq_div_two_le_cos (x := t * sweep v - t' * sweep v)
    have hd := dist2_nonneg v.pos (centerOf v e)
    have h2 : (t * sweep v - t' * sweep v) ^ 2 ≤ sweep v ^ 2 := by
      rw [← sub_mul, mul_pow]
      have hsq : (t - t') ^ 2 ≤ 1 := by rw [← sq_abs]; nlinarith [abs_nonneg (t - t')]
      nlinarith [sq_nonneg (sweep v)]
    nlinarith

/-- The sum of the lengths of the segments. -/
def lenAll : List Vertex → ℝ
  | u :: w :: l => segLen u w + lenAll (w :: l)
  | _ => 0

theorem lenAll_nonneg : ∀ vs : List Vertex, 0 ≤ lenAll vs
  | [] => le_rfl
  | [_] => le_rfl
  | u :: w :: l => add_nonneg (segLen_nonneg _ _) (lenAll_nonneg (w :: l))

theorem lenAll_sum : ∀ vs : List Vertex, lenAll vs = ∑ i ∈ Finset.range (vs.length - 1),
    segLen (vs.getD i ⟨⟨0, 0⟩, 0⟩) (vs.getD (i + 1) ⟨⟨0, 0⟩, 0⟩)
  | [] => by simp [lenAll]
  | [_] => by simp [lenAll]
  | u :: w :: l => by
    rw [lenAll, lenAll_sum (w :: l)]
    simp only [List.length_cons, Nat.add_sub_cancel]
    rw [Finset.sum_range_succ', add_comm]
    rfl

theorem open_length {vs : List Vertex} (hb : ∀ i v1 v2, IsSeg ⟨false, vs⟩ i v1 v2 → |v1.bulge| ≤ 1) :
    getPathLength ⟨false, vs⟩ = .ok (lenAll vs) := by
  rw [getPathLength_eq hb, lenAll_sum]
  congr 1
  have hseg : (segs ⟨false, vs⟩).length = vs.length - 1 := by
    rw [segs_length]
    simp only [Polyline.size, Bool.false_eq_true, if_false]
    split_ifs with h
    · omega
    · rfl
  rw [hseg]
  refine Finset.sum_congr rfl fun i hi => ?_
  rw [Finset.mem_range] at hi
  rw [if_neg (by simp only [Polyline.size]; omega)]
  rfl

theorem along_diam {p : Polyline} : ∀ {vs : List Vertex} {a b : ℝ}, Along p a vs b →
    (∀ u ∈ vs.head?, ∀ x, OnPline ⟨false, vs⟩ x → distance u.pos x ≤ lenAll vs) ∧
    ∀ x y, OnPline ⟨false, vs⟩ x → OnPline ⟨false, vs⟩ y → distance x y ≤ lenAll vs
  | [], _, _, h => h.elim
  | [u], _, _, _ => by
    have : ∀ x, ¬ OnPline ⟨false, [u]⟩ x := by
      rintro x ⟨i, v1, v2, hs, -⟩
      obtain ⟨h1, -, h2, -, -⟩ := seg_lt hs
      simp [Polyline.size] at h2
    exact ⟨fun _ _ x hx => absurd hx (this x), fun x y hx => absurd hx (this x)⟩
  | u :: w :: l, a, b, h => by
    obtain ⟨k, s, t, -, -, -, h1, h2⟩ := h
    obtain ⟨i1, i2⟩ := along_diam h2
    have hf : ¬ Near (1 / 10 ^ 8) u.pos w.pos := fun q => h1.far ⟨q.1.trans (by norm_num), q.2.trans (by norm_num)⟩
    have hon : ∀ x, OnPline ⟨false, u :: w :: l⟩ x ↔ OnSeg u w x ∨ OnPline ⟨false, w :: l⟩ x := by
      intro x
      rw [onPline_vEdges, onPline_vEdges]
      rw [vEdges_cons]
      simp only [List.mem_cons, exists_eq_or_imp]
      rw [eOn_eq]
    have hseg : ∀ x y, OnSeg u w x → OnSeg u w y → distance x y ≤ segLen u w := by
      intro x y hx hy
      obtain ⟨t, t0, t1, rfl⟩ := onSeg_segPt.1 hx
      obtain ⟨t', t0', t1', rfl⟩ := onSeg_segPt.1 hy
      exact segPt_apart hf t0 t1 t0' t1'
    have hend : OnSeg u w w.pos := onSeg_segPt.2 ⟨1, zero_le_one, le_rfl, (segPt_one _ _).symm⟩
    have hst : OnSeg u w u.pos := onSeg_start _ _
    have hl := lenAll_nonneg (w :: l)
    have hs := segLen_nonneg u w
    have i1' := i1 w rfl
    rw [lenAll]
    have key : ∀ x y, OnSeg u w x → OnPline ⟨false, w :: l⟩ y → distance x y ≤ segLen u w + lenAll (w :: l) := by
      intro x y hx hy
      have := distance_tri x w.pos y
      have := hseg x w.pos hx hend
      have := i1' y hy
      linarith
    refine ⟨?_, ?_⟩
    · intro u' hu x hx
      cases hu
      rcases (hon x).1 hx with q | q
      · linarith [hseg _ _ hst q]
      · exact key _ _ hst q
    · intro x y hx hy
      rcases (hon x).1 hx with q | q <;> rcases (hon y).1 hy with r | r
      · linarith [hseg _ _ q r]
      · exact key _ _ q r
      · rw [distance_symm]; exact key _ _ r q
      · linarith [i2 _ _ q r]

theorem along_zip {p : Polyline} : ∀ {vs : List Vertex} {a b : ℝ}, Along p a vs b → ∀ e ∈ vs.zip vs.tail, SegOk e.1 e.2
  | [], _, _, h, _, _ => h.elim
  | [_], _, _, _, e, he => by simp at he
  | u :: w :: l, _, _, h, e, he => by
    obtain ⟨k, s, t, -, -, -, h1, h2⟩ := h
    rw [List.tail_cons, List.zip_cons_cons, List.mem_cons] at he
    rcases he with rfl | he
    · exact h1.ok
    · exact along_zip h2 e he

theorem along_half {p : Polyline} {vs : List Vertex} {a b : ℝ} (h : Along p a vs b) :
    ∀ i v1 v2, IsSeg ⟨false, vs⟩ i v1 v2 → |v1.bulge| ≤ 1 := by
  intro i v1 v2 hs
  unfold IsSeg segs at hs
  split_ifs at hs with h2 h3
  · simp at hs
  · exact absurd h3 (by simp)
  · exact (along_zip h _ (List.mem_of_getElem? hs)).half

/-- All points of the kept part are within its length. -/
theorem along_short {p : Polyline} {vs : List Vertex} {a b : ℝ} (h : Along p a vs b) :
    ∃ l, getPathLength ⟨false, vs⟩ = .ok l ∧
      ∀ x y, OnPline ⟨false, vs⟩ x → OnPline ⟨false, vs⟩ y → distance x y ≤ l :=
  ⟨_, open_length (along_half h), (along_diam h).2⟩

end
end Cavc

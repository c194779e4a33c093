import Verif.Props.OffsetRounded
import Verif.Props.OffsetCircle
import Verif.Props.PlineArea

/-! C81: length and area of the offset of a smooth closed curve. -/
namespace Cavc
open Spec
open scoped Classical
noncomputable section

/-- The turn of one segment. -/
def segTurn (v : Vertex) : ℝ := if IsLine v then 0 else sweep v

def crs (a b : V2) : ℝ := a.x * b.y - a.y * b.x

theorem steiner_line {offset : ℝ} {v1 v2 w1 w2 : Vertex} (h : ParallelSeg offset v1 v2 w1 w2)
    (hne : ¬ Near (1 / 10 ^ 5) v1.pos v2.pos) (hl : IsLine v1) {γ γ' : ℝ → V2} (hγ : IsPath v1 v2 γ) (hγ' : IsPath w1 w2 γ') :
    curveLength γ' = curveLength γ ∧
      curveArea γ' = curveArea γ - offset * curveLength γ + (crs v2.pos w2.pos - crs v1.pos w1.pos) / 2 := by
  obtain ⟨n0, hn0⟩ := C37_normal_exists hne hγ 0
  obtain ⟨n1, hn1⟩ := C37_normal_exists hne hγ 1
  have e0 := (parallel_ends h hγ).1 hn0
  have e1 := (parallel_ends h hγ).2 hn1
  have hl' := (isLine_same h.1).2 hl
  rw [path_line hl hγ] at hn0 hn1
  obtain ⟨a0, b0⟩ := leftNormal_line hn0
  obtain ⟨a1, b1⟩ := leftNormal_line hn1
  have en : n0 = n1 := by ext; rw [a0, a1]; rw [b0, b1]
  subst en
  obtain ⟨hu, k, hk, hv⟩ := hn0
  rw [velocity_line] at hv
  have hx : v2.pos.x - v1.pos.x = k * n0.y := congrArg V2.x hv
  have hy : v2.pos.y - v1.pos.y = -(k * n0.x) := congrArg V2.y hv
  rw [path_line hl hγ, path_line hl' hγ', curveLength_line, curveLength_line, curveArea_line, curveArea_line]
  have hd : distance v1.pos v2.pos = k := by
    unfold distance dist2
    rw [show (v1.pos.x - v2.pos.x) ^ 2 + (v1.pos.y - v2.pos.y) ^ 2 = k ^ 2 by
      linear_combination (v2.pos.x - v1.pos.x + k * n0.y) * hx + (v2.pos.y - v1.pos.y - k * n0.x) * hy + k ^ 2 * hu,
      Real.sqrt_sq hk.le]
  refine ⟨?_, ?_⟩
  · rw [e0, e1]
    unfold distance dist2
    congr 1
    simp only [V2.add_x, V2.add_y, V2.smul_x, V2.smul_y]
    ring
  · rw [hd, e0, e1]
    simp only [crs, V2.add_x, V2.add_y, V2.smul_x, V2.smul_y]
    linear_combination (-offset * n0.y) * hx + (offset * n0.x) * hy - (offset * k) * hu

theorem steiner_arc {offset : ℝ} {v1 v2 w1 w2 : Vertex} (h : ParallelSeg offset v1 v2 w1 w2)
    (hne : ¬ Near (1 / 10 ^ 5) v1.pos v2.pos) (hl : ¬ IsLine v1) (hcol : ¬ Collapses offset v1 v2) {γ γ' : ℝ → V2}
    (hγ : IsPath v1 v2 γ) (hγ' : IsPath w1 w2 γ') :
    curveLength γ' = curveLength γ - offset * sweep v1 ∧
      curveArea γ' = curveArea γ - offset * curveLength γ + offset ^ 2 / 2 * sweep v1 +
        (crs v2.pos w2.pos - crs v1.pos w1.pos) / 2 := by
  obtain ⟨n0, hn0⟩ := C37_normal_exists hne hγ 0
  obtain ⟨n1, hn1⟩ := C37_normal_exists hne hγ 1
  have e0 := (parallel_ends h hγ).1 hn0
  have e1 := (parallel_ends h hγ).2 hn1
  have hl' : ¬ IsLine w1 := fun e => hl ((isLine_same h.1).1 e)
  have hcen := parallel_center h hne hl
  have hcv := isCenter_centerOf (v2 := v2) (bulge_ne_zero hl)
  have hcw := isCenter_centerOf (v2 := w2) (bulge_ne_zero hl')
  obtain ⟨κ, hκ, k0, x0, y0⟩ := arc_normal hl hγ hn0 (center_ne hl hne)
  obtain ⟨κ', hκ', -, x1, y1⟩ := arc_normal hl hγ hn1 (center_ne hl hne)
  rw [← hκ] at hκ'
  subst hκ'
  rw [(path_ends hγ).1] at x0 y0
  rw [(path_ends hγ).2] at x1 y1
  have hsw : sweep w1 = sweep v1 := by unfold sweep; rw [h.1]
  have hu0 := hn0.1
  have hu1 := hn1.1
  rw [path_arc hl hγ, path_arc hl' hγ', curveLength_rot, curveLength_rot, curveArea_rot, curveArea_rot, hcen, hsw]
  unfold IsCenter at hcv hcw
  rw [hcen, hsw] at hcw
  rw [hcv, hcw]
  set c := centerOf v1 v2 with hc
  set r := distance v1.pos c with hr
  set θ := sweep v1 with hθ
  obtain ⟨s, hs, hs2, hsθ, hneg⟩ : ∃ s : ℝ, κ' = s * r ∧ s ^ 2 = 1 ∧ |θ| = s * θ ∧ (if v1.bulge < 0 then offset else -offset) = -(s * offset) := by
    rcases lt_or_gt_of_ne (bulge_ne_zero hl) with hb | hb
    · have hθ0 : θ < 0 := by
        rw [hθ]; unfold sweep
        have := Real.arctan_lt_zero.2 hb
        linarith
      refine ⟨-1, ?_, by norm_num, by rw [abs_of_neg hθ0]; ring, by rw [if_pos hb]; ring⟩
      rw [hκ, sign_neg hθ0]; simp
    · have hθ0 : 0 < θ := by
        rw [hθ]; unfold sweep
        have := Real.arctan_pos.2 hb
        linarith
      refine ⟨1, ?_, by norm_num, by rw [abs_of_pos hθ0]; ring, by rw [if_neg (by linarith)]; ring⟩
      rw [hκ, sign_pos hθ0]; simp
  have hrad : 0 ≤ r - s * offset := by
    by_contra hlt
    apply hcol
    refine ⟨hl, _, ⟨c, isCenter_centerOf (bulge_ne_zero hl), rfl⟩, ?_⟩
    rw [hneg, ← hr]
    have : (0 : ℝ) < 1 / 10 ^ 8 := by norm_num
    push Not at hlt
    linarith
  have hD : dist2 w1.pos c = (κ' - offset) ^ 2 := by
    rw [e0]
    simp only [dist2, V2.add_x, V2.add_y, V2.smul_x, V2.smul_y]
    rw [x0, y0]
    linear_combination ((κ' - offset) ^ 2) * hu0
  have hV : dist2 v1.pos c = κ' ^ 2 := by
    simp only [dist2]
    rw [x0, y0]
    linear_combination (κ' ^ 2) * hu0
  refine ⟨?_, ?_⟩
  · have : distance w1.pos c = r - s * offset := by
      unfold distance
      rw [hD, hs, show (s * r - offset) ^ 2 = (r - s * offset) ^ 2 by linear_combination (r ^ 2 - offset ^ 2) * hs2, Real.sqrt_sq hrad]
    rw [this, hsθ]
    linear_combination (-(offset * θ)) * hs2
  · rw [hD, hV, hsθ, e0, e1]
    simp only [crs, V2.add_x, V2.add_y, V2.smul_x, V2.smul_y]
    have kx : c.x * n1.y - c.y * n1.x = v2.pos.x * n1.y - v2.pos.y * n1.x := by rw [x1, y1]; ring
    have ky : c.x * n0.y - c.y * n0.x = v1.pos.x * n0.y - v1.pos.y * n0.x := by rw [x0, y0]; ring
    rw [hs]
    linear_combination (offset / 2) * kx - (offset / 2) * ky

theorem steiner_seg {offset : ℝ} {v1 v2 w1 w2 : Vertex} (h : ParallelSeg offset v1 v2 w1 w2)
    (hne : ¬ Near (1 / 10 ^ 5) v1.pos v2.pos) (hcol : ¬ Collapses offset v1 v2) {γ γ' : ℝ → V2}
    (hγ : IsPath v1 v2 γ) (hγ' : IsPath w1 w2 γ') :
    curveLength γ' = curveLength γ - offset * segTurn v1 ∧
      curveArea γ' = curveArea γ - offset * curveLength γ + offset ^ 2 / 2 * segTurn v1 +
        (crs v2.pos w2.pos - crs v1.pos w1.pos) / 2 := by
  unfold segTurn
  by_cases hl : IsLine v1
  · obtain ⟨a, b⟩ := steiner_line h hne hl hγ hγ'
    rw [if_pos hl]
    exact ⟨by rw [a]; ring, by rw [b]; ring⟩
  · rw [if_neg hl]
    exact steiner_arc h hne hl hcol hγ hγ'

theorem list_sum_range {α : Type} (f : α → ℝ) (d : α) : ∀ l : List α, (l.map f).sum = ∑ i ∈ Finset.range l.length, f (l.getD i d)
  | [] => by simp
  | a :: l => by
    rw [List.map_cons, List.sum_cons, list_sum_range f d l, List.length_cons, Finset.sum_range_succ']
    simp [add_comm]

theorem totalTurn_eq {p : Polyline} : totalTurn p = ∑ i ∈ Finset.range (segs p).length, segTurn (vtx p i) := by
  unfold totalTurn
  rw [list_sum_range _ (⟨⟨0, 0⟩, 0⟩, ⟨⟨0, 0⟩, 0⟩)]
  apply Finset.sum_congr rfl
  intro i hi
  rw [Finset.mem_range] at hi
  obtain ⟨-, h1, -⟩ := isSeg_iff.1 (show IsSeg p i (segs p)[i].1 (segs p)[i].2 by unfold IsSeg; rw [List.getElem?_eq_getElem hi])
  rw [List.getD_eq_getElem _ _ hi, h1]
  rfl

theorem sum_cyclic (g : ℕ → ℝ) (n : ℕ) : ∑ i ∈ Finset.range n, g (if i + 1 = n then 0 else i + 1) = ∑ i ∈ Finset.range n, g i := by
  rcases n with _ | m
  · simp
  · rw [Finset.sum_range_succ, Finset.sum_range_succ', if_pos rfl]
    congr 1
    apply Finset.sum_congr rfl
    intro i hi
    rw [Finset.mem_range] at hi
    rw [if_neg (by omega)]

/-- C81. The length of the offset of a smooth closed curve is the length of the curve less the offset times its total turn,
and its area is the area less the offset times the length plus half the square of the offset times the total turn, as
reported by `getPathLength` and `getArea`. -/
theorem C81_parallel {p q : Polyline} {offset : ℝ} (h : ParallelTo offset p q) (h2 : 2 ≤ p.vertexes.length) (hb : BulgesOk p)
    (hr : NoRepeats p) (hr' : NoRepeats q) (hc : ∀ i v1 v2, IsSeg p i v1 v2 → ¬ Collapses offset v1 v2) :
    ∃ L A, getPathLength p = .ok L ∧ getArea p = .ok A ∧ getPathLength q = .ok (L - offset * totalTurn p) ∧
      getArea q = .ok (A - offset * L + offset ^ 2 / 2 * totalTurn p) := by
  obtain ⟨γ, hγ⟩ := exists_path p
  obtain ⟨γ', hγ'⟩ := exists_path q
  have hlen : (segs p).length = p.vertexes.length := by
    rw [segs_length, if_neg (show ¬ p.size < 2 by unfold Polyline.size; omega), if_pos h.closed]; rfl
  have hlen' : (segs q).length = p.vertexes.length := by
    rw [segs_length, if_neg (show ¬ q.size < 2 by unfold Polyline.size; have := h.length; omega), if_pos h.closed', ← h.length]; rfl
  have hfar : ∀ {u : Polyline}, NoRepeats u → ∀ i v1 v2, IsSeg u i v1 v2 → 1 / 10 ^ 8 ≤ |v1.pos.x - v2.pos.x| ∨
          1 / 10 ^ 8 ≤ |v1.pos.y - v2.pos.y| := by
    intro u hu i v1 v2 hs
    by_contra hcon
    push Not at hcon
    exact hu i v1 v2 hs ⟨lt_trans hcon.1 (by norm_num), lt_trans hcon.2 (by norm_num)⟩
  have hbp : ∀ i v1 v2, IsSeg p i v1 v2 → |v1.bulge| ≤ 1 := fun i v1 v2 hs => hb v1 (start_mem hs)
  have hbq : ∀ i v1 v2, IsSeg q i v1 v2 → |v1.bulge| ≤ 1 := by
    intro i w1 w2 hs
    obtain ⟨hi, e1, -⟩ := isSeg_iff.1 hs
    rw [hlen'] at hi
    rw [e1, parallel_bulge h h2 hi]
    exact hbp _ _ _ (isSeg_closed h.closed h2 hi)
  obtain ⟨L, l1, -, -, l2⟩ := C23_getPathLength p hbp γ hγ
  obtain ⟨L', l1', -, -, l2'⟩ := C23_getPathLength q hbq γ' hγ'
  refine ⟨L, _, l1, C21_getArea p h.closed γ hγ, ?_, ?_⟩
  all_goals
    have key : ∀ i ∈ Finset.range p.vertexes.length, curveLength (γ' i) = curveLength (γ i) - offset * segTurn (vtx p i) ∧
        curveArea (γ' i) = curveArea (γ i) - offset * curveLength (γ i) + offset ^ 2 / 2 * segTurn (vtx p i) +
          (crs (vtx p (if i + 1 = p.vertexes.length then 0 else i + 1)).pos
            (vtx q (if i + 1 = p.vertexes.length then 0 else i + 1)).pos - crs (vtx p i).pos (vtx q i).pos) / 2 := by
      intro i hi
      rw [Finset.mem_range] at hi
      have hs := isSeg_closed h.closed h2 hi
      have hs' := isSeg_closed h.closed' (by rw [h.length]; exact h2) (i := i) (by rw [h.length]; exact hi)
      rw [h.length] at hs'
      exact steiner_seg (parallel_seg h h2 hi) (hr _ _ _ hs) (hc _ _ _ hs) (hγ i _ _ hs) (hγ' i _ _ hs')
    have lsum := l2 (hfar hr)
    rw [hlen] at lsum
  · rw [l1', l2' (hfar hr'), hlen', totalTurn_eq, hlen, Finset.sum_congr rfl fun i hi => (key i hi).1, Finset.sum_sub_distrib,
      ← lsum, Finset.mul_sum]
  · rw [C21_getArea q h.closed' γ' hγ', hlen', totalTurn_eq, hlen, Finset.sum_congr rfl fun i hi => (key i hi).2,
      Finset.sum_add_distrib, Finset.sum_add_distrib, Finset.sum_sub_distrib, ← Finset.sum_div, Finset.sum_sub_distrib,
      sum_cyclic (fun i => crs (vtx p i).pos (vtx q i).pos), ← Finset.mul_sum, ← Finset.mul_sum, ← lsum]
    simp

/-- C81. The same for the results of `parallelOffset`: every result has the length and the area of the parallel curve. -/
theorem C81_offset {std : StdSort} {hash : HashOrder} (inf ninf : ℝ) {p q : Polyline} {offset : ℝ}
    (h : ParallelTo offset p q) (h2 : 2 ≤ p.vertexes.length) (ho : 1 / 10 ^ 4 ≤ |offset|)
    (hi : Indexable (codePlatform inf ninf) p) (hj : Indexable (codePlatform inf ninf) q) (hb : BulgesOk p) (hr : NoRepeats p)
    (ht : NotTiny q) (hc : ∀ i v1 v2, IsSeg p i v1 v2 → ¬ Collapses offset v1 v2) (hself : ∀ l, SelfIntersectsOf q l → l = []) :
    ∃ r L A, parallelOffset (codePlatform inf ninf) std hash p offset = .ok r ∧ getPathLength p = .ok L ∧ getArea p = .ok A ∧
      ∀ res ∈ r, getPathLength res = .ok (L - offset * totalTurn p) ∧
        getArea res = .ok (A - offset * L + offset ^ 2 / 2 * totalTurn p) := by
  obtain ⟨L, A, l1, a1, l2, a2⟩ := C81_parallel h h2 hb hr ht.apart hc
  obtain ⟨first, hf⟩ : ∃ first, q.vertexes.head? = some first := by
    have := h.length
    rcases hq : q.vertexes with _ | ⟨f, t⟩
    · rw [hq] at this; simp at this; omega
    · exact ⟨f, rfl⟩
  obtain ⟨r, hr', hor, -⟩ := C80_parallel (std := std) (hash := hash) inf ninf h h2 ho hi hj hb hr ht hc hself hf
  refine ⟨r, L, A, hr', l1, a1, ?_⟩
  intro res hres
  rcases hor with rfl | rfl
  · rw [List.mem_singleton] at hres
    subst hres
    exact ⟨l2, a2⟩
  · simp at hres

section
variable {σ X0 y0 X1 y1 d d' : ℝ}

/-- A rectangle with rounded corners turns once. -/
theorem rounded_turn (h : RoundOk σ X0 y0 X1 y1 d) : totalTurn (rounded σ X0 y0 X1 y1 d) = σ * (2 * Real.pi) := by
  have hpi := Real.pi_pos
  have harc : Real.arctan (σ * Real.tan (Real.pi / 8)) = σ * (Real.pi / 8) := by
    have := Real.arctan_tan (x := Real.pi / 8) (by linarith) (by linarith)
    rcases h.sign with rfl | rfl
    · rw [one_mul, one_mul, this]
    · rw [neg_one_mul, Real.arctan_neg, this, neg_one_mul]
  have hl : ∀ a : V2, IsLine (⟨a, 0⟩ : Vertex) := fun a => by norm_num [IsLine]
  have hn : ∀ a : V2, ¬ IsLine (⟨a, σ * Real.tan (Real.pi / 8)⟩ : Vertex) := fun a =>
    (eighth_arc (v := ⟨a, σ * Real.tan (Real.pi / 8)⟩) h.sign rfl).1
  unfold totalTurn segs rounded roundRect
  simp [List.rotate_cons_succ, hl, hn, sweep, harc]
  ring

/-- C81. Offsetting a rectangle with rounded corners changes its length by 2π times the change of the radius of the corners. -/
theorem C81_rounded {std : StdSort} {hash : HashOrder} (inf ninf : ℝ) (h : RoundOk σ X0 y0 X1 y1 d) (h' : RoundOk σ X0 y0 X1 y1 d')
    (ho : 1 / 10 ^ 4 ≤ |d' - d|) :
    ∃ q L A, parallelOffset (codePlatform inf ninf) std hash (rounded σ X0 y0 X1 y1 d) (-(σ * (d' - d))) = .ok [q] ∧
      getPathLength (rounded σ X0 y0 X1 y1 d) = .ok L ∧ getArea (rounded σ X0 y0 X1 y1 d) = .ok A ∧
      getPathLength q = .ok (L + 2 * Real.pi * (d' - d)) ∧
      getArea q = .ok (A + σ * ((d' - d) * L + Real.pi * (d' - d) ^ 2)) := by
  have hσ2 : σ * σ = 1 := by rcases h.sign with e | e <;> rw [e] <;> norm_num
  obtain ⟨L, A, l1, a1, l2, a2⟩ := C81_parallel (rounded_parallel h h') (show 2 ≤ 8 by norm_num) (rounded_bulges h)
    (rounded_repeats h) (rounded_repeats h') (rounded_collapses h h')
  refine ⟨_, L, A, C80_rounded inf ninf h h' ho, l1, a1, ?_, ?_⟩
  · rw [l2, rounded_turn h]
    congr 1
    linear_combination (2 * Real.pi * (d' - d)) * hσ2
  · rw [a2, rounded_turn h]
    congr 1
    linear_combination (Real.pi * (d' - d) ^ 2 * σ) * hσ2

end

/-- The hypotheses of `C81_rounded` are met by the rectangle of 10 by 6 with corners of radius 2. -/
example (std : StdSort) (hash : HashOrder) :
    ∃ q L, parallelOffset (codePlatform 0 0) std hash (rounded 1 0 0 10 6 2) (-1) = .ok [q] ∧
      getPathLength (rounded 1 0 0 10 6 2) = .ok L ∧ getPathLength q = .ok (L + 2 * Real.pi) := by
  have ok : ∀ r : ℝ, 1 ≤ r → RoundOk 1 0 0 10 6 r := fun r hr =>
    ⟨Or.inl rfl, by norm_num, by norm_num, by norm_num; linarith, Or.inl (by norm_num; linarith)⟩
  obtain ⟨q, L, A, h1, h2, -, h4, -⟩ := C81_rounded (std := std) (hash := hash) 0 0 (ok 2 (by norm_num)) (ok 3 (by norm_num))
    (by rw [abs_of_pos] <;> norm_num)
  refine ⟨q, L, ?_, h2, ?_⟩
  · rwa [show -((1 : ℝ) * (3 - 2)) = -1 by norm_num] at h1
  · rw [h4]; norm_num

end
end Cavc

import Verif.Proofs.Pline
import Verif.Proofs.Curve
import Verif.Proofs.Semi

/-! C31 (iteration), C21 and C22 (area). -/
namespace Cavc
open Spec
open scoped Classical

/-- C31. Running any visitor over the segment indices of a polyline is running it along this list of
index pairs until it answers false: the closing pair first if the polyline is closed, then each
vertex with its successor. The list has exactly the pairs of consecutive vertexes, each once. -/
theorem C31_visitSegIndices (p : Polyline) (h : 2 ≤ p.vertexes.length) :
    ∃ order : List (ℕ × ℕ),
      (∀ (σ : Type) (v : σ → ℕ × ℕ → σ × Bool) (st : σ),
        p.visitSegIndices (fun st j i => .ok (v st (j, i))) st = .ok (runVisitor v st order).1) ∧
      order.Nodup ∧
      (∀ i j, (i, j) ∈ order ↔ i < p.vertexes.length ∧ j = (i + 1) % p.vertexes.length ∧
        (p.isClosed = true ∨ i + 1 < p.vertexes.length)) ∧
      (∀ a b, a < b → b < order.length → ∀ x y, order[a]? = some x → order[b]? = some y →
        x.2 < y.2) := by
  refine ⟨visitOrder p.isClosed p.vertexes.length, ?_, ?_, ?_, ?_⟩
  · intro σ v st
    rw [visitSegIndices_eq]
    exact runM_pure v st _
  · unfold visitOrder
    rw [if_neg (by omega)]
    have : ((List.range (p.vertexes.length - 1)).map fun i => (i, i + 1)).Nodup :=
      List.Nodup.map (fun a b hab => by simpa using congrArg Prod.fst hab) List.nodup_range
    split_ifs
    · rw [List.singleton_append, List.nodup_cons]
      refine ⟨?_, this⟩
      simp
    · simpa using this
  · intro i j
    unfold visitOrder
    rw [if_neg (by omega)]
    cases p.isClosed
    · simp only [Bool.false_eq_true, if_false, List.nil_append, List.mem_map, List.mem_range,
        Prod.mk.injEq, false_or]
      constructor
      · rintro ⟨k, hk, rfl, rfl⟩
        refine ⟨by omega, ?_, by omega⟩
        rw [Nat.mod_eq_of_lt (by omega)]
      · rintro ⟨h1, h2, h3⟩
        rw [Nat.mod_eq_of_lt h3] at h2
        exact ⟨i, by omega, rfl, h2.symm⟩
    · simp only [if_true, List.mem_append, List.mem_map, List.mem_range, Prod.mk.injEq, true_or,
        and_true, List.mem_singleton]
      constructor
      · rintro (⟨rfl, rfl⟩ | ⟨k, hk, rfl, rfl⟩)
        · refine ⟨by omega, ?_⟩
          rw [show p.vertexes.length - 1 + 1 = p.vertexes.length by omega, Nat.mod_self]
        · refine ⟨by omega, ?_⟩
          rw [Nat.mod_eq_of_lt (by omega)]
      · rintro ⟨h1, h2⟩
        by_cases h3 : i + 1 = p.vertexes.length
        · left
          rw [h3, Nat.mod_self] at h2
          exact ⟨by omega, h2⟩
        · right
          rw [Nat.mod_eq_of_lt (by omega)] at h2
          exact ⟨i, by omega, rfl, h2.symm⟩
  · intro a b hab hb x y hx hy
    have key : ∀ (k : ℕ) (z : ℕ × ℕ) (n : ℕ),
        ((List.range n).map fun i => (i, i + 1))[k]? = some z → z.2 = k + 1 := by
      intro k z n hz
      rw [List.getElem?_map] at hz
      by_cases hk : k < n
      · rw [List.getElem?_range hk] at hz
        simp at hz
        rw [← hz]
      · rw [List.getElem?_eq_none (by simpa using hk)] at hz
        simp at hz
    unfold visitOrder at hx hy
    rw [if_neg (by omega)] at hx hy
    cases hc : p.isClosed
    · rw [hc] at hx hy
      simp only [Bool.false_eq_true, if_false, List.nil_append] at hx hy
      rw [key a x _ hx, key b y _ hy]; omega
    · rw [hc] at hx hy
      simp only [if_true, List.singleton_append] at hx hy
      obtain ⟨b', rfl⟩ : ∃ b', b = b' + 1 := ⟨b - 1, by omega⟩
      rw [List.getElem?_cons_succ] at hy
      rw [key b' y _ hy]
      rcases a with _ | a
      · simp at hx; rw [← hx]; simp
      · rw [List.getElem?_cons_succ] at hx
        rw [key a x _ hx]; omega

/-- C31: with fewer than two vertexes nothing is visited. -/
theorem C31_too_small (p : Polyline) (h : p.vertexes.length < 2) (σ : Type)
    (v : σ → ℕ → ℕ → M (σ × Bool)) (st : σ) : p.visitSegIndices v st = .ok st := by
  unfold Polyline.visitSegIndices
  rw [if_pos (show p.size < 2 from h)]

/-- C31: the concrete order of a closed triangle. -/
example (v : Vertex) : (Polyline.mk true [v, v, v]).visitSegIndices
    (fun (l : List (ℕ × ℕ)) j i => .ok (l ++ [(j, i)], decide (i < 1))) [] =
      .ok [(2, 0), (0, 1)] := by
  simp [Polyline.visitSegIndices, Polyline.size, segLoop]

/-- Twice the area a segment adds. -/
noncomputable def areaTerm (v1 v2 : Vertex) : ℝ :=
  v1.pos.x * v2.pos.y - v1.pos.y * v2.pos.x +
    if IsLine v1 then 0 else
      4 * Real.arctan v1.bulge * (dist2 v1.pos v2.pos * (v1.bulge ^ 2 + 1) ^ 2 / (16 * v1.bulge ^ 2)) -
        dist2 v1.pos v2.pos * ((1 - v1.bulge ^ 2) / (4 * v1.bulge))

theorem areaVisitor_eq (a : ℝ) (v1 v2 : Vertex) (i : ℕ) :
    areaVisitor a v1 v2 i = .ok (a + areaTerm v1 v2) := by
  unfold areaVisitor areaTerm
  by_cases hl : IsLine v1
  · simp only [if_pos hl]
    rw [if_neg (not_not.mpr (show v1.bulgeIsZero from hl))]
    simp
  · simp only [if_neg hl]
    rw [if_pos (show ¬ v1.bulgeIsZero from hl)]
    have hb := bulge_ne_zero hl
    congr 2
    rw [length_sub]
    have h2 := distance_sq v1.pos v2.pos
    rw [← h2]
    unfold Vertex.bulgeIsNeg
    rcases lt_or_gt_of_ne hb with h | h
    · rw [if_pos h, abs_of_neg h, Real.arctan_neg]
      field_simp
      ring
    · rw [if_neg (by linarith), abs_of_pos h]
      field_simp
      ring

theorem areaTerm_eq {v1 v2 : Vertex} {γ : ℝ → V2} (hγ : IsPath v1 v2 γ) :
    areaTerm v1 v2 = 2 * curveArea γ := by
  unfold areaTerm
  by_cases hl : IsLine v1
  · rw [if_pos hl, hγ.line hl, curveArea_line]; ring
  · rw [if_neg hl, hγ.arc hl, curveArea_rot]
    have hb := bulge_ne_zero hl
    have hc : rot (centerOf v1 v2) (sweep v1) v1.pos = v2.pos := isCenter_centerOf hb
    rw [hc, sweep]
    simp only [dist2, centerOf]
    field_simp
    ring

theorem getArea_eq {p : Polyline} (hc : p.isClosed = true) (h : 2 ≤ p.vertexes.length) :
    getArea p = .ok ((∑ i ∈ Finset.range (segs p).length,
      areaTerm (vtx p i) (vtx p (if i + 1 = p.size then 0 else i + 1))) / 2) := by
  unfold getArea
  have hs : ¬ p.size < 2 := by unfold Polyline.size; omega
  rw [if_neg (by simp [hc, hs]), visitAll_eq,
    foldlM_add (fun st (x : Vertex × Vertex × ℕ) => areaVisitor st x.1 x.2.1 x.2.2)
      (fun x => areaTerm x.1 x.2.1) (visitList p) (fun x _ st => areaVisitor_eq st _ _ _), ok_bind,
    sum_visitList p (fun x => areaTerm x.1 x.2.1), zero_add]
  rfl

/-- C21. The area of a closed polyline is the sum over its segments of `½ ∮ (x dy - y dx)` along
the segment: the signed area bounded by the path. -/
theorem C21_getArea (p : Polyline) (hc : p.isClosed = true) (γ : ℕ → ℝ → V2) (hγ : IsPathOf p γ) :
    getArea p = .ok (∑ i ∈ Finset.range (segs p).length, curveArea (γ i)) := by
  by_cases h : 2 ≤ p.vertexes.length
  · rw [getArea_eq hc h]
    congr 1
    rw [Finset.sum_div]
    apply Finset.sum_congr rfl
    intro i hi
    rw [Finset.mem_range] at hi
    rw [areaTerm_eq (hγ i _ _ (isSeg_iff.mpr ⟨hi, rfl, rfl⟩))]
    ring
  · have hs : p.size < 2 := by unfold Polyline.size; omega
    unfold getArea
    rw [if_pos (Or.inr hs), segs_length, if_pos hs]
    simp

/-- C21: open polylines have area 0. -/
theorem C21_open (p : Polyline) (hc : p.isClosed = false) : getArea p = .ok 0 := by
  unfold getArea
  rw [if_pos (Or.inl (by simp [hc]))]

/-- C21: every polyline has a path, so the theorem is not vacuous. -/
theorem exists_path (p : Polyline) : ∃ γ, IsPathOf p γ := by
  have h : ∀ i : ℕ, ∃ f : ℝ → V2, ∀ v1 v2, IsSeg p i v1 v2 → IsPath v1 v2 f := by
    intro i
    refine ⟨fun t => (atParam_unique (vtx p i) (vtx p (if i + 1 = p.size then 0 else i + 1)) t).choose,
      ?_⟩
    intro v1 v2 hs t
    rw [isSeg_iff] at hs
    rw [hs.2.1, hs.2.2]
    exact (atParam_unique _ _ t).choose_spec.1
  choose γ hγ using h
  exact ⟨γ, fun i v1 v2 => hγ i v1 v2⟩

/-- C21: the closed upper half disc of radius 1 has area π/2. -/
example : getArea ⟨true, [semiStart, semiEnd]⟩ = .ok (Real.pi / 2) := by
  rw [getArea_eq rfl (by simp)]
  congr 1
  simp only [segs, List.length_cons, List.length_nil, Polyline.size]
  norm_num [Finset.sum_range_succ, vtx, areaTerm, semiStart, semiEnd, IsLine, dist2]
  ring

/-! ### Transformations -/

theorem sum_next {R : Type} [AddCommMonoid R] (n : ℕ) (hn : 0 < n) (f : ℕ → R) :
    ∑ i ∈ Finset.range n, f (if i + 1 = n then 0 else i + 1) = ∑ i ∈ Finset.range n, f i := by
  obtain ⟨m, rfl⟩ : ∃ m, n = m + 1 := ⟨n - 1, by omega⟩
  rw [Finset.sum_range_succ, Finset.sum_range_succ', if_pos rfl]
  congr 1
  apply Finset.sum_congr rfl
  intro i hi
  rw [Finset.mem_range] at hi
  rw [if_neg (by omega)]

theorem vtx_translate {p : Polyline} {o : V2} {i : ℕ} (h : i < p.size) :
    vtx (translatePolyline p o) i =
      ⟨⟨o.x + (vtx p i).pos.x, o.y + (vtx p i).pos.y⟩, (vtx p i).bulge⟩ := by
  have h' : i < p.vertexes.length := h
  unfold vtx translatePolyline
  simp only
  rw [List.getD_eq_getElem _ _ (by simpa using h'), List.getD_eq_getElem _ _ h', List.getElem_map]

theorem vtx_scale {p : Polyline} {s : ℝ} {i : ℕ} (h : i < p.size) :
    vtx (scalePolyline p s) i =
      ⟨⟨s * (vtx p i).pos.x, s * (vtx p i).pos.y⟩, (vtx p i).bulge⟩ := by
  have h' : i < p.vertexes.length := h
  unfold vtx scalePolyline
  simp only
  rw [List.getD_eq_getElem _ _ (by simpa using h'), List.getD_eq_getElem _ _ h', List.getElem_map]
  rfl

theorem size_translate (p : Polyline) (o : V2) : (translatePolyline p o).size = p.size := by
  simp [Polyline.size, translatePolyline]
theorem size_scale (p : Polyline) (s : ℝ) : (scalePolyline p s).size = p.size := by
  simp [Polyline.size, scalePolyline]
theorem segs_translate (p : Polyline) (o : V2) :
    (segs (translatePolyline p o)).length = (segs p).length := by
  rw [segs_length, segs_length, size_translate]; rfl
theorem segs_scale (p : Polyline) (s : ℝ) :
    (segs (scalePolyline p s)).length = (segs p).length := by
  rw [segs_length, segs_length, size_scale]; rfl

theorem next_lt {n i : ℕ} (h : i < n) : (if i + 1 = n then 0 else i + 1) < n := by
  split_ifs <;> omega

theorem lt_size {p : Polyline} {i : ℕ} (h : i < (segs p).length) : i < p.size := by
  rw [segs_length] at h
  split_ifs at h <;> omega

/-- C22, translation. -/
theorem C22_translate (p : Polyline) (o : V2) : getArea (translatePolyline p o) = getArea p := by
  by_cases hc : p.isClosed = true
  · by_cases h : 2 ≤ p.vertexes.length
    · have h' : 2 ≤ (translatePolyline p o).vertexes.length := by simpa [translatePolyline] using h
      rw [getArea_eq hc h, getArea_eq (p := translatePolyline p o) hc h', segs_translate]
      congr 2
      have hlen : (segs p).length = p.size := by
        rw [segs_length, if_neg (by unfold Polyline.size; omega), if_pos hc]
      rw [hlen]
      have hn : 0 < p.size := by unfold Polyline.size; omega
      have key : ∀ i ∈ Finset.range p.size,
          areaTerm (vtx (translatePolyline p o) i)
            (vtx (translatePolyline p o) (if i + 1 = (translatePolyline p o).size then 0 else i + 1)) =
          areaTerm (vtx p i) (vtx p (if i + 1 = p.size then 0 else i + 1)) +
            ((o.x * (vtx p (if i + 1 = p.size then 0 else i + 1)).pos.y -
              o.y * (vtx p (if i + 1 = p.size then 0 else i + 1)).pos.x) -
             (o.x * (vtx p i).pos.y - o.y * (vtx p i).pos.x)) := by
        intro i hi
        rw [Finset.mem_range] at hi
        rw [size_translate, vtx_translate hi, vtx_translate (next_lt hi)]
        generalize vtx p (if i + 1 = p.size then 0 else i + 1) = w
        generalize vtx p i = v
        unfold areaTerm IsLine dist2
        simp only
        have e : ∀ a b c : ℝ, a + b - (a + c) = b - c := fun a b c => by ring
        simp only [e]
        ring
      rw [Finset.sum_congr rfl key, Finset.sum_add_distrib, Finset.sum_sub_distrib,
        sum_next p.size hn (fun j => o.x * (vtx p j).pos.y - o.y * (vtx p j).pos.x), sub_self,
        add_zero]
    · have hs : p.size < 2 := by unfold Polyline.size; omega
      unfold getArea
      rw [if_pos (Or.inr hs), if_pos (Or.inr (by rw [size_translate]; exact hs))]
  · have hc' : p.isClosed = false := by simpa using hc
    rw [C21_open p hc', C21_open (translatePolyline p o) hc']

/-- C22, scaling. -/
theorem C22_scale (p : Polyline) (s : ℝ) :
    ∃ a, getArea p = .ok a ∧ getArea (scalePolyline p s) = .ok (s ^ 2 * a) := by
  by_cases hc : p.isClosed = true
  · by_cases h : 2 ≤ p.vertexes.length
    · have h' : 2 ≤ (scalePolyline p s).vertexes.length := by simpa [scalePolyline] using h
      refine ⟨_, getArea_eq hc h, ?_⟩
      rw [getArea_eq (p := scalePolyline p s) hc h', segs_scale]
      congr 1
      rw [mul_div_assoc', Finset.mul_sum]
      congr 1
      apply Finset.sum_congr rfl
      intro i hi
      rw [Finset.mem_range] at hi
      have hi' := lt_size hi
      rw [size_scale, vtx_scale hi', vtx_scale (next_lt hi')]
      generalize vtx p (if i + 1 = p.size then 0 else i + 1) = w
      generalize vtx p i = v
      unfold areaTerm IsLine dist2
      simp only
      split_ifs <;> ring
    · have hs : p.size < 2 := by unfold Polyline.size; omega
      refine ⟨0, ?_, ?_⟩
      · unfold getArea
        rw [if_pos (Or.inr hs)]
      · unfold getArea
        rw [if_pos (Or.inr (by rw [size_scale]; exact hs)), mul_zero]
  · have hc' : p.isClosed = false := by simpa using hc
    exact ⟨0, C21_open p hc', by rw [C21_open (scalePolyline p s) hc', mul_zero]⟩

end Cavc

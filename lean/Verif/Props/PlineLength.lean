import Verif.Props.PlineInvert
import Verif.Props.SegCurve

/-! C23 (path length). -/
namespace Cavc
open Spec
open scoped Classical

/-- Closed form of `segLength`. -/
noncomputable def segLen (v1 v2 : Vertex) : ℝ :=
  if fuzzyEqualV v1.pos v2.pos then 0
  else if IsLine v1 then distance v1.pos v2.pos
  else distance v1.pos v2.pos * (v1.bulge ^ 2 + 1) / (4 * |v1.bulge|) * |sweep v1|

theorem arc_radius_dist {v1 v2 : Vertex} (hb : v1.bulge ≠ 0) :
    distance v1.pos (centerOf v1 v2) =
      distance v1.pos v2.pos * (v1.bulge ^ 2 + 1) / (4 * |v1.bulge|) := by
  have hb' : 0 < |v1.bulge| := abs_pos.mpr hb
  apply (sq_eq_sq₀ (distance_nonneg _ _)
    (div_nonneg (mul_nonneg (distance_nonneg _ _) (by positivity)) (by positivity))).mp
  rw [div_pow, mul_pow, mul_pow, distance_sq, distance_sq, sq_abs]
  simp only [dist2, centerOf]
  field_simp
  ring

theorem segLength_eq {v1 v2 : Vertex} (hb : |v1.bulge| ≤ 1) : segLength v1 v2 = .ok (segLen v1 v2) := by
  unfold segLen
  by_cases hf : fuzzyEqualV v1.pos v2.pos
  · unfold segLength
    rw [if_pos hf, if_pos hf]
  · have hd : 1 / 10 ^ 8 ≤ |v1.pos.x - v2.pos.x| ∨ 1 / 10 ^ 8 ≤ |v1.pos.y - v2.pos.y| := by
      by_contra h
      push Not at h
      exact hf ⟨h.1, h.2⟩
    obtain ⟨γ, hγ⟩ : ∃ γ, IsPath v1 v2 γ :=
      ⟨fun t => (atParam_unique v1 v2 t).choose, fun t => (atParam_unique v1 v2 t).choose_spec.1⟩
    obtain ⟨L, h1, h2, -⟩ := C15_segLength hb hγ
    rw [h1, h2 hd, if_neg hf]
    by_cases hl : IsLine v1
    · rw [if_pos hl, hγ.line hl, curveLength_line]
    · rw [if_neg hl, hγ.arc hl, curveLength_rot, arc_radius_dist (bulge_ne_zero hl)]

theorem segLen_nonneg (v1 v2 : Vertex) : 0 ≤ segLen v1 v2 := by
  unfold segLen
  split_ifs
  · exact le_refl _
  · exact distance_nonneg _ _
  · exact mul_nonneg (div_nonneg (mul_nonneg (distance_nonneg _ _) (by positivity)) (by positivity))
      (abs_nonneg _)

theorem getPathLength_eq {p : Polyline} (hb : ∀ i v1 v2, IsSeg p i v1 v2 → |v1.bulge| ≤ 1) :
    getPathLength p = .ok (∑ i ∈ Finset.range (segs p).length,
      segLen (vtx p i) (vtx p (if i + 1 = p.size then 0 else i + 1))) := by
  unfold getPathLength
  by_cases h : p.size < 2
  · rw [if_pos h, segs_length, if_pos h]; simp
  · rw [if_neg h, visitAll_eq,
      foldlM_add (fun st (x : Vertex × Vertex × ℕ) => do
          let l ← segLength x.1 x.2.1
          return st + l)
        (fun x => segLen x.1 x.2.1) (visitList p) ?_,
      sum_visitList p (fun x => segLen x.1 x.2.1), zero_add]
    rintro ⟨v1, v2, i⟩ hx st
    simp only [segLength_eq (hb i v1 v2 (mem_visitList.mp hx)), ok_bind]
    rfl

/-- C23. The path length is the sum of the lengths of the segments as curves, except that segments
whose end points agree to less than 1e-8 in both coordinates count 0 (an error below 3e-8 each);
the closing segment counts exactly if the polyline is closed (see `segs`). -/
theorem C23_getPathLength (p : Polyline) (hb : ∀ i v1 v2, IsSeg p i v1 v2 → |v1.bulge| ≤ 1)
    (γ : ℕ → ℝ → V2) (hγ : IsPathOf p γ) :
    ∃ L, getPathLength p = .ok L ∧ 0 ≤ L ∧
      |L - ∑ i ∈ Finset.range (segs p).length, curveLength (γ i)| ≤ 3 / 10 ^ 8 * (segs p).length ∧
      ((∀ i v1 v2, IsSeg p i v1 v2 → 1 / 10 ^ 8 ≤ |v1.pos.x - v2.pos.x| ∨
          1 / 10 ^ 8 ≤ |v1.pos.y - v2.pos.y|) →
        L = ∑ i ∈ Finset.range (segs p).length, curveLength (γ i)) := by
  refine ⟨_, getPathLength_eq hb, Finset.sum_nonneg fun i _ => segLen_nonneg _ _, ?_, ?_⟩
  · rw [← Finset.sum_sub_distrib]
    refine (Finset.abs_sum_le_sum_abs _ _).trans ?_
    have : ∀ i ∈ Finset.range (segs p).length, |segLen (vtx p i)
        (vtx p (if i + 1 = p.size then 0 else i + 1)) - curveLength (γ i)| ≤ 3 / 10 ^ 8 := by
      intro i hi
      rw [Finset.mem_range] at hi
      have hs := isSeg_iff.mpr ⟨hi, rfl, rfl⟩
      obtain ⟨L, h1, -, h3⟩ := C15_segLength (hb i _ _ hs) (hγ i _ _ hs)
      rw [segLength_eq (hb i _ _ hs)] at h1
      have : segLen (vtx p i) (vtx p (if i + 1 = p.size then 0 else i + 1)) = L := by simpa using h1
      rw [this]; exact h3
    refine (Finset.sum_le_sum this).trans ?_
    rw [Finset.sum_const, Finset.card_range, nsmul_eq_mul, mul_comm]
  · intro hd
    apply Finset.sum_congr rfl
    intro i hi
    rw [Finset.mem_range] at hi
    have hs := isSeg_iff.mpr ⟨hi, rfl, rfl⟩
    obtain ⟨L, h1, h2, -⟩ := C15_segLength (hb i _ _ hs) (hγ i _ _ hs)
    rw [segLength_eq (hb i _ _ hs)] at h1
    have : segLen (vtx p i) (vtx p (if i + 1 = p.size then 0 else i + 1)) = L := by simpa using h1
    rw [this]; exact h2 (hd i _ _ hs)

/-- The closed half disc has perimeter 2 + π. -/
example : getPathLength ⟨true, [semiStart, semiEnd]⟩ = .ok (Real.pi + 2) := by
  rw [getPathLength_eq]
  · congr 1
    simp only [segs, List.length_cons, List.length_nil, Polyline.size]
    have h1 : segLen semiStart semiEnd = Real.pi := by
      have hf : ¬ fuzzyEqualV semiStart.pos semiEnd.pos :=
        not_fuzzyEqualV (Or.inl (by norm_num [semiStart, semiEnd, realThreshold]))
      unfold segLen
      rw [if_neg hf, if_neg semi_ok.2, semi_sweep, abs_of_pos Real.pi_pos]
      have : distance semiStart.pos semiEnd.pos = 2 := by
        unfold distance dist2 semiStart semiEnd
        rw [show ((1 : ℝ) - -1) ^ 2 + (0 - 0) ^ 2 = 2 ^ 2 by norm_num, Real.sqrt_sq (by norm_num)]
      rw [this]
      norm_num [semiStart]
    have h2 : segLen semiEnd semiStart = 2 := by
      have hf : ¬ fuzzyEqualV semiEnd.pos semiStart.pos :=
        not_fuzzyEqualV (Or.inl (by norm_num [semiStart, semiEnd, realThreshold]))
      unfold segLen
      rw [if_neg hf, if_pos (by norm_num [IsLine, semiEnd])]
      unfold distance dist2 semiStart semiEnd
      rw [show ((-1 : ℝ) - 1) ^ 2 + (0 - 0) ^ 2 = 2 ^ 2 by norm_num, Real.sqrt_sq (by norm_num)]
    norm_num [Finset.sum_range_succ, vtx, h1, h2]
  · intro i v1 v2 hs
    unfold IsSeg segs at hs
    rcases i with _ | _ | i
    · simp at hs; rw [← hs.1]; norm_num [semiStart]
    · simp at hs; rw [← hs.1]; norm_num [semiEnd]
    · simp at hs

theorem bulge_translate {p : Polyline} (o : V2) (hb : ∀ i v1 v2, IsSeg p i v1 v2 → |v1.bulge| ≤ 1) :
    ∀ i v1 v2, IsSeg (translatePolyline p o) i v1 v2 → |v1.bulge| ≤ 1 := by
  intro i v1 v2 hs
  obtain ⟨hi, rfl, rfl⟩ := isSeg_iff.mp hs
  rw [segs_translate] at hi
  rw [vtx_translate (lt_size hi)]
  exact hb i (vtx p i) _ (isSeg_iff.mpr ⟨hi, rfl, rfl⟩)

theorem bulge_scale {p : Polyline} (s : ℝ) (hb : ∀ i v1 v2, IsSeg p i v1 v2 → |v1.bulge| ≤ 1) :
    ∀ i v1 v2, IsSeg (scalePolyline p s) i v1 v2 → |v1.bulge| ≤ 1 := by
  intro i v1 v2 hs
  obtain ⟨hi, rfl, rfl⟩ := isSeg_iff.mp hs
  rw [segs_scale] at hi
  rw [vtx_scale (lt_size hi)]
  exact hb i (vtx p i) _ (isSeg_iff.mpr ⟨hi, rfl, rfl⟩)

/-- C23: translation keeps the path length. -/
theorem C23_translate (p : Polyline) (o : V2) (hb : ∀ i v1 v2, IsSeg p i v1 v2 → |v1.bulge| ≤ 1) :
    getPathLength (translatePolyline p o) = getPathLength p := by
  rw [getPathLength_eq hb, getPathLength_eq (bulge_translate o hb), segs_translate]
  congr 1
  apply Finset.sum_congr rfl
  intro i hi
  rw [Finset.mem_range] at hi
  have hi' := lt_size hi
  rw [size_translate, vtx_translate hi', vtx_translate (next_lt hi')]
  unfold segLen fuzzyEqualV fuzzyEqual distance dist2 IsLine sweep
  simp only [add_sub_add_left_eq_sub]
  split_ifs <;> rfl

/-- C23: inverting keeps the path length. -/
theorem C23_invert (p : Polyline) (hb : ∀ i v1 v2, IsSeg p i v1 v2 → |v1.bulge| ≤ 1) :
    (invertDirection p >>= getPathLength) = getPathLength p := by
  obtain ⟨q, hq, hc, hpos, hlen, hseg⟩ := C28_invertDirection p
  rw [hq, ok_bind]
  have hb' : ∀ i v1 v2, IsSeg q i v1 v2 → |v1.bulge| ≤ 1 := by
    intro i v1 v2 hs
    have hqp : invertDirection q = .ok p := by
      have := C28_involution p; rwa [hq, ok_bind] at this
    obtain ⟨p', hp', -, -, -, hseg'⟩ := C28_invertDirection q
    rw [hqp] at hp'
    obtain rfl : p = p' := by simpa using hp'
    obtain ⟨w1, w2, hw, -, -, hbw, -⟩ := hseg' i v1 v2 hs
    have := hb _ _ _ hw
    rwa [hbw, abs_neg] at this
  rw [getPathLength_eq hb, getPathLength_eq hb', sum_invert hq segLen segLen]
  intro v1 v2 w1 w2 h1 h2 hbb
  unfold segLen fuzzyEqualV fuzzyEqual distance IsLine sweep
  rw [h1, h2, hbb, abs_neg, Real.arctan_neg, neg_sq, dist2_comm v2.pos v1.pos,
    abs_sub_comm v2.pos.x, abs_sub_comm v2.pos.y, mul_neg, abs_neg]

/-- C23: scaling multiplies the path length by `|s|`, provided no segment is below the 1e-8 cut
before or after. -/
theorem C23_scale (p : Polyline) (s : ℝ) (hb : ∀ i v1 v2, IsSeg p i v1 v2 → |v1.bulge| ≤ 1)
    (hd : ∀ i v1 v2, IsSeg p i v1 v2 →
      (1 / 10 ^ 8 ≤ |v1.pos.x - v2.pos.x| ∨ 1 / 10 ^ 8 ≤ |v1.pos.y - v2.pos.y|) ∧
      (1 / 10 ^ 8 ≤ |s| * |v1.pos.x - v2.pos.x| ∨ 1 / 10 ^ 8 ≤ |s| * |v1.pos.y - v2.pos.y|)) :
    ∃ L, getPathLength p = .ok L ∧ getPathLength (scalePolyline p s) = .ok (|s| * L) := by
  refine ⟨_, getPathLength_eq hb, ?_⟩
  rw [getPathLength_eq (bulge_scale s hb), segs_scale, Finset.mul_sum]
  congr 1
  apply Finset.sum_congr rfl
  intro i hi
  rw [Finset.mem_range] at hi
  have hi' := lt_size hi
  obtain ⟨h1, h2⟩ := hd i _ _ (isSeg_iff.mpr ⟨hi, rfl, rfl⟩)
  rw [size_scale, vtx_scale hi', vtx_scale (next_lt hi')]
  revert h1 h2
  generalize vtx p (if i + 1 = p.size then 0 else i + 1) = w
  generalize vtx p i = v
  intro h1 h2
  have hdist : distance ⟨s * v.pos.x, s * v.pos.y⟩ ⟨s * w.pos.x, s * w.pos.y⟩ =
      |s| * distance v.pos w.pos := by
    unfold distance
    rw [← Real.sqrt_sq_eq_abs, ← Real.sqrt_mul (sq_nonneg s)]
    congr 1
    simp only [dist2]; ring
  unfold segLen
  have n1 : ¬ fuzzyEqualV v.pos w.pos := not_fuzzyEqualV h1
  have n2 : ¬ fuzzyEqualV (⟨s * v.pos.x, s * v.pos.y⟩ : V2) ⟨s * w.pos.x, s * w.pos.y⟩ :=
    not_fuzzyEqualV (by
      simp only
      rw [← mul_sub, ← mul_sub, abs_mul, abs_mul]
      exact h2)
  rw [if_neg n1, if_neg n2]
  have hl : IsLine ⟨⟨s * v.pos.x, s * v.pos.y⟩, v.bulge⟩ ↔ IsLine v := Iff.rfl
  simp only [hl, hdist]
  split_ifs
  · rfl
  · unfold sweep; ring

end Cavc

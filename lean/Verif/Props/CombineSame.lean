import Verif.Spec.SameCurve
import Verif.Props.CombineCurves
import Verif.Props.SegIntrSame
import Verif.Props.Coincident
import Verif.Props.CombineDisc
import Verif.Props.PlineInvert

/-! C78: combining a closed polyline with the same curve. -/
namespace Cavc
open Spec
open scoped Classical
noncomputable section

/-- The same line, in either direction: the overlap reported is from end to end. -/
theorem same_line {v1 v2 u1 u2 : Vertex} (hl : IsLine v1) (hn : ¬ Near (1 / 10 ^ 8) v1.pos v2.pos)
    (h : SameSeg v1 v2 u1 u2) : OverlapHit v1 v2 u1 u2 u1.pos u2.pos := by
  have hul : IsLine u1 := by
    unfold IsLine at hl ⊢
    rcases h with ⟨-, -, h⟩ | ⟨-, -, h⟩ <;> rw [h]
    · exact hl
    · rw [abs_neg]; exact hl
  have hpar : ¬ 1 / 10 ^ 8 < |(v2.pos.x - v1.pos.x) * (u2.pos.y - u1.pos.y) - (v2.pos.y - v1.pos.y) * (u2.pos.x - u1.pos.x)| := by
    have : (v2.pos.x - v1.pos.x) * (u2.pos.y - u1.pos.y) - (v2.pos.y - v1.pos.y) * (u2.pos.x - u1.pos.x) = 0 := by
      rcases h with ⟨h1, h2, -⟩ | ⟨h1, h2, -⟩ <;> rw [h1, h2] <;> ring
    rw [this, abs_zero]; norm_num
  have hun : ¬ fuzzyEqualV u1.pos u2.pos := by
    rcases h with ⟨h1, h2, -⟩ | ⟨h1, h2, -⟩ <;> rw [h1, h2]
    · exact hn
    · rintro ⟨a, b⟩
      unfold fuzzyEqual at a b
      rw [abs_sub_comm] at a b
      exact hn ⟨a, b⟩
  have hd := domCoord_ne hun
  have hn' : ¬ fuzzyEqualV v1.pos v2.pos := hn
  have e8 : (0 : ℝ) < realThreshold := by unfold realThreshold; norm_num
  have e81 : realThreshold < 1 := by unfold realThreshold; norm_num
  left
  unfold intrPlineSegs
  rw [if_pos ⟨hl, hul⟩, parallel_branch hpar, if_neg, if_neg (fun c => hn' c.1), if_neg hn', if_neg hun, overlap_eq]
  · have p0 : ∀ a b : V2, pointFromParametric a b 0 = a := by
      intro a b; unfold pointFromParametric; ext <;> simp
    have p1 : ∀ a b : V2, pointFromParametric a b 1 = b := by
      intro a b; unfold pointFromParametric; ext <;> simp
    have z : domCoord (u2.pos - u1.pos) (u1.pos - u1.pos) = 0 := by unfold domCoord; split_ifs <;> simp
    rcases h with ⟨h1, h2, -⟩ | ⟨h1, h2, -⟩
    · rw [← h1, ← h2, z, zero_div, div_self hd]
      simp only [min_eq_left (zero_le_one (α := ℝ)), max_eq_right (zero_le_one (α := ℝ)), max_self, min_self]
      rw [if_neg (by rintro (c | c) <;> linarith), if_neg (by rw [sub_zero, abs_one]; linarith)]
      simp only [p0, p1]
    · rw [← h1, ← h2, z, zero_div, div_self hd]
      simp only [min_eq_right (zero_le_one (α := ℝ)), max_eq_left (zero_le_one (α := ℝ)), max_self, min_self]
      rw [if_neg (by rintro (c | c) <;> linarith), if_neg (by rw [sub_zero, abs_one]; linarith)]
      simp only [p0, p1]
  · rw [not_or]
    have a1 : perpDot (v2.pos - v1.pos) (v1.pos - u1.pos) = 0 := by
      rcases h with ⟨h1, h2, -⟩ | ⟨h1, h2, -⟩ <;> rw [h1] <;> simp [perpDot]; ring
    have a2 : perpDot (u2.pos - u1.pos) (v1.pos - u1.pos) = 0 := by
      rcases h with ⟨h1, h2, -⟩ | ⟨h1, h2, -⟩ <;> rw [h1, h2] <;> simp [perpDot]; ring
    rw [a1, a2, abs_zero]
    exact ⟨by linarith, by linarith⟩

theorem within_self {s w : ℝ} (h : |w| ≤ Real.pi) : angleIsWithinSweep s w s ∧ angleIsWithinSweep s w (s + w) := by
  have hp := Real.pi_gt_three
  obtain ⟨h1, h2⟩ := abs_le.1 h
  have e8 : (0 : ℝ) < realThreshold := by unfold realThreshold; norm_num
  have n : ∀ x : ℝ, 0 ≤ x → x ≤ Real.pi → normalizeRadians x = x := by
    intro x hx hx'
    unfold normalizeRadians
    rw [if_pos ⟨hx, by unfold tau; linarith⟩]
  unfold angleIsWithinSweep angleIsBetween
  simp only
  by_cases hw : w < 0
  · rw [if_pos hw, if_pos hw, show s - (s + w) = -w by ring, n (-w) (by linarith) (by linarith), sub_self, n 0 le_rfl (by linarith)]
    exact ⟨by linarith, by linarith⟩
  · rw [if_neg hw, if_neg hw, show s + w - s = w by ring, n w (by linarith) (by linarith), sub_self, n 0 le_rfl (by linarith)]
    exact ⟨by linarith, by linarith⟩

theorem sameSeg_center {v1 v2 u1 u2 : Vertex} {c : V2} (hc : IsCenter v1 v2 c) (h : SameSeg v1 v2 u1 u2) :
    IsCenter u1 u2 c := by
  rcases h with ⟨h1, h2, h3⟩ | ⟨h1, h2, h3⟩
  · unfold IsCenter sweep at hc ⊢
    rw [h1, h2, h3]; exact hc
  · have hs : sweep u1 = -sweep v1 := by unfold sweep; rw [h3, Real.arctan_neg]; ring
    unfold IsCenter at hc ⊢
    rw [h1, h2, hs, ← hc]
    have hcs := Real.sin_sq_add_cos_sq (sweep v1)
    ext
    · simp only [rot, Real.cos_neg, Real.sin_neg]
      linear_combination (v1.pos.x - c.x) * hcs
    · simp only [rot, Real.cos_neg, Real.sin_neg]
      linear_combination (v1.pos.y - c.y) * hcs

/-- The same arc, in either direction: the overlap reported is from end to end. -/
theorem same_arc {v1 v2 u1 u2 : Vertex} (hl : ¬ IsLine v1) (hv : SegOk v1 v2) (hu : SegOk u1 u2)
    (h : SameSeg v1 v2 u1 u2) : OverlapHit v1 v2 u1 u2 u1.pos u2.pos := by
  have hul : ¬ IsLine u1 := by
    unfold IsLine at hl ⊢
    rcases h with ⟨-, -, h⟩ | ⟨-, -, h⟩ <;> rw [h]
    · exact hl
    · rw [abs_neg]; exact hl
  have hva := hv.arcOk hl
  have hua := hu.arcOk hul
  have hc := isCenter_centerOf (v2 := v2) hva.b_ne
  have hd := sameSeg_center hc h
  have e2 := isCenter_unique hua.b_ne hd
  have hr : distance v1.pos (centerOf v1 v2) = distance u1.pos (centerOf v1 v2) := by
    rcases h with ⟨h1, -, -⟩ | ⟨h1, -, -⟩
    · rw [h1]
    · rw [h1]
      have := hc
      unfold IsCenter at this
      conv_rhs => rw [← this]
      unfold distance dist2
      congr 1
      simp only [rot]
      have hcs := Real.sin_sq_add_cos_sq (sweep v1)
      linear_combination (-(v1.pos.x - (centerOf v1 v2).x) ^ 2 - (v1.pos.y - (centerOf v1 v2).y) ^ 2) * hcs
  have hrun : intrPlineSegs v1 v2 u1 u2 = .ok (coincidentArcs v1 v2 u1 u2 (arcOf v1 v2) (arcOf u1 u2)) := by
    rw [arcArc_run hva hv.half hua hu.half, ← e2, hr]
    unfold intrCircle2Circle2
    simp only
    rw [if_pos, if_pos]
    · unfold fuzzyEqual realThreshold; rw [sub_self, abs_zero]; norm_num
    · have : dot (centerOf v1 v2 - centerOf v1 v2) (centerOf v1 v2 - centerOf v1 v2) = 0 := by simp [dot]
      rw [this, Real.sqrt_zero]; unfold realThreshold; norm_num
  right
  rw [hrun]
  unfold coincidentArcs
  have hs : (if v1.bulgeIsNeg ↔ u1.bulgeIsNeg then startAndSweepAngle u1.pos (arcOf u1 u2).center u1.bulge
      else startAndSweepAngle u2.pos (arcOf u1 u2).center (-u1.bulge)) = startAndSweepAngle v1.pos (arcOf v1 v2).center v1.bulge := by
    rw [hva.center, hua.center, ← e2]
    rcases h with ⟨h1, h2, h3⟩ | ⟨h1, h2, h3⟩
    · rw [if_pos (by unfold Vertex.bulgeIsNeg; rw [h3]), h1, h3]
    · rw [if_neg, h2, h3, neg_neg]
      unfold Vertex.bulgeIsNeg
      rw [h3]
      intro hh
      rcases lt_or_gt_of_ne hva.b_ne with c | c
      · have := hh.1 c; linarith
      · have := hh.2 (by linarith); linarith
  simp only
  rw [hs]
  unfold startAndSweepAngle
  simp only
  rw [show 4 * Real.arctan v1.bulge = sweep v1 from rfl]
  generalize normalizeRadians (angle (arcOf v1 v2).center v1.pos) = s
  have hw := abs_sweep_le hv.half
  have hg := sweep_ge hl
  have hp3 := Real.pi_gt_three
  have hnt : ¬ |deltaAngle s (s + sweep v1)| < realThreshold := by
    rw [touch_iff]
    rintro ⟨k, hk⟩
    rw [show s + sweep v1 - s = sweep v1 by ring] at hk
    by_cases hk0 : k = 0
    · rw [hk0] at hk; simp only [Int.cast_zero, zero_mul, add_zero] at hk; linarith
    · have h1 : (1 : ℝ) ≤ |(k : ℝ)| := by exact_mod_cast Int.one_le_abs hk0
      have h2 : |(k : ℝ) * tau| = |(k : ℝ)| * (2 * Real.pi) := by
        rw [abs_mul, abs_of_pos (show 0 < tau by unfold tau; linarith)]; rfl
      have h3 : |(k : ℝ) * tau| ≤ |sweep v1 + k * tau| + |sweep v1| := by
        have := abs_sub (sweep v1 + k * tau) (sweep v1)
        rwa [add_sub_cancel_left] at this
      rw [h2] at h3
      nlinarith
  rw [if_neg hnt, if_neg hnt, if_pos (within_self hw)]

theorem same_hit {v1 v2 u1 u2 : Vertex} (hv : SegOk v1 v2) (hu : SegOk u1 u2) (hn : ¬ Near (1 / 10 ^ 8) v1.pos v2.pos)
    (h : SameSeg v1 v2 u1 u2) : OverlapHit v1 v2 u1 u2 u1.pos u2.pos := by
  by_cases hl : IsLine v1
  · exact same_line hl hn h
  · exact same_arc hl hv hu h

theorem one_run {α : Type} {R : α → α → Prop} {l : List α} (h : l.IsChain R) {gs : List (List α)} (hf : gs.flatten = l)
    (hne : ∀ g ∈ gs, g ≠ []) (hm : gs.IsChain fun g g' => ∀ a ∈ g.getLast?, ∀ b ∈ g'.head?, ¬ R a b) :
    gs = [] ∨ gs = [l] := by
  rcases gs with _ | ⟨g, _ | ⟨g', t⟩⟩
  · exact Or.inl rfl
  · right
    simpa using hf
  · exfalso
    have e1 := hne g (by simp)
    have e2 := hne g' (by simp)
    obtain ⟨b, g', rfl⟩ := List.exists_cons_of_ne_nil e2
    have hb := (List.isChain_cons_cons.1 hm).1 _ (List.getLast?_eq_some_getLast e1) b rfl
    rw [← hf, List.flatten_cons] at h
    have := (List.isChain_append.1 h).2.2 _ (List.getLast?_eq_some_getLast e1) b (by simp)
    exact hb this

theorem hit_unique {v1 v2 u1 u2 : Vertex} {a b a' b' : V2} (h : OverlapHit v1 v2 u1 u2 a b) (h' : OverlapHit v1 v2 u1 u2 a' b') :
    a = a' ∧ b = b' := by
  rcases h with h | h <;> rcases h' with h' | h' <;> rw [h] at h' <;> cases h' <;> exact ⟨rfl, rfl⟩

theorem sameSeg_close {v1 v2 u1 u2 : Vertex} (hv : SegOk v1 v2) (hu : SegOk u1 u2) (h : SameSeg v1 v2 u1 u2) :
    BoxesClose (1 / 10 ^ 5) v1 v2 u1 u2 := by
  rcases h with ⟨h1, -, -⟩ | ⟨-, h2, -⟩
  · exact C33_common_point_close hv.half hu.half (onSeg_start _ _) (by rw [← h1]; exact onSeg_start _ _)
  · exact C33_common_point_close hv.half hu.half (onSeg_start _ _) (by rw [← h2]; exact onSeg_end _ _)

theorem cut_start {p : Polyline} {i : ℕ} {v1 v2 w : Vertex} (h : IsSeg p i v1 v2) (hw : CutVertex p i v1.pos w) : w.pos = v1.pos := by
  obtain ⟨x1, x2, r, hs, hr, rfl⟩ := hw
  obtain ⟨rfl, rfl⟩ := isSeg_inj h hs
  unfold splitAtPoint at hr
  have hself : fuzzyEqualV v1.pos v1.pos realPrecision := by
    unfold fuzzyEqualV fuzzyEqual realPrecision; simp
  split_ifs at hr with c1 c2
  · cases hr; rfl
  · cases hr; rfl
  · exact absurd (Or.inr hself) c2
  · exact absurd (Or.inr hself) c2

theorem cut_end {p : Polyline} {i : ℕ} {v1 v2 w : Vertex} (h : IsSeg p i v1 v2) (hw : CutVertex p i v2.pos w) :
    w.pos = v2.pos := by
  obtain ⟨x1, x2, r, hs, hr, rfl⟩ := hw
  obtain ⟨rfl, rfl⟩ := isSeg_inj h hs
  have hself : fuzzyEqualV v2.pos v2.pos realPrecision := by
    unfold fuzzyEqualV fuzzyEqual realPrecision; simp
  unfold splitAtPoint at hr
  split_ifs at hr with c1 c2
  · cases hr; rfl
  · cases hr; rfl
  · cases hr; rfl

theorem forall2_one {α β : Type} {R : α → β → Prop} {a : α} {l : List β} (h : List.Forall₂ R [a] l) : ∃ b, l = [b] ∧ R a b := by
  rcases h with _ | ⟨h, hn⟩
  cases hn
  exact ⟨_, rfl, h⟩

theorem fromStart_keys {p : Polyline} {C l : List CoincidentIntersect} (h : List.Forall₂ (FromStart p) C l) :
    l.map CoincidentIntersect.sIndex1 = C.map CoincidentIntersect.sIndex1 := by
  induction h with
  | nil => rfl
  | cons h _ ih =>
    rw [List.map_cons, List.map_cons, ih]
    congr 1
    rcases h.1 with h | h <;> rw [h]

/-- The runs of overlaps of a closed polyline with the same curve. -/
theorem same_info {std : StdSort} {A B : Polyline} (cA : A.isClosed = true) (hA2 : 2 ≤ A.size) (oA : PlineOk A) (oB : PlineOk B)
    (hd : ∀ i v1 v2, IsSeg A i v1 v2 → ¬ Near (1 / 10 ^ 8) v1.pos v2.pos) (hs : SameSegs A B) {C : List CoincidentIntersect}
    (hC : ∀ i1 i2 a b, ⟨i1, i2, a, b⟩ ∈ C ↔ ∃ v1 v2 u1 u2, IsSeg A i1 v1 v2 ∧ IsSeg B i2 u1 u2 ∧
      BoxesClose (1 / 10 ^ 5) v1 v2 u1 u2 ∧ OverlapHit v1 v2 u1 u2 a b)
    (h1 : ∀ i1 i2, (C.filter fun c => c.sIndex1 = i1 ∧ c.sIndex2 = i2).length ≤ 1) :
    C ≠ [] ∧ ∃ r sorted, sortAndjoinCoincidentSlices std C A B = .ok (r, sorted) ∧
      ∃ x y, r.sliceStartPoints = [x] ∧ r.sliceEndPoints = [y] ∧ x.pos = y.pos := by
  have hseg : ∀ i < A.size, IsSeg A i (vtx A i) (vtx A (if i + 1 = A.size then 0 else i + 1)) := by
    intro i hi
    rw [isSeg_iff, segs_length, if_neg (show ¬ A.size < 2 by omega), if_pos cA]
    exact ⟨hi, rfl, rfl⟩
  -- the overlaps are those of a segment with its partner
  have hmem : ∀ c ∈ C, ∃ v1 v2 u1 u2, IsSeg A c.sIndex1 v1 v2 ∧ IsSeg B c.sIndex2 u1 u2 ∧ SameSeg v1 v2 u1 u2 ∧
      c.point1 = u1.pos ∧ c.point2 = u2.pos := by
    rintro ⟨i, j, a, b⟩ hc
    obtain ⟨v1, v2, u1, u2, g1, g2, g3, g4⟩ := (hC _ _ _ _).1 hc
    obtain ⟨j', w1, w2, k1, k2⟩ := hs.each i v1 v2 g1
    have hj := hs.only i j' j v1 v2 w1 w2 u1 u2 a b g1 k1 g2 k2 g3 g4
    subst hj
    obtain ⟨rfl, rfl⟩ := isSeg_inj g2 k1
    obtain ⟨rfl, rfl⟩ := hit_unique g4 (same_hit (oA _ _ _ g1) (oB _ _ _ g2) (hd _ _ _ g1) k2)
    exact ⟨v1, v2, u1, u2, g1, g2, k2, rfl, rfl⟩
  have hex : ∀ i < A.size, ∃ c ∈ C, c.sIndex1 = i := by
    intro i hi
    obtain ⟨j, u1, u2, k1, k2⟩ := hs.each _ _ _ (hseg i hi)
    exact ⟨⟨i, j, u1.pos, u2.pos⟩, (hC _ _ _ _).2 ⟨_, _, u1, u2, hseg i hi, k1, sameSeg_close (oA _ _ _ (hseg i hi)) (oB _ _ _ k1) k2,
      same_hit (oA _ _ _ (hseg i hi)) (oB _ _ _ k1) (hd _ _ _ (hseg i hi)) k2⟩, rfl⟩
  have hkey : (C.map CoincidentIntersect.sIndex1).Nodup := by
    rw [List.nodup_iff_count_le_one]
    intro i
    rw [List.count_eq_countP, List.countP_map, List.countP_eq_length_filter]
    by_cases hi : i < A.size
    · obtain ⟨j, u1, u2, k1, k2⟩ := hs.each _ _ _ (hseg i hi)
      refine le_trans (le_of_eq ?_) (h1 i j)
      congr 1
      apply List.filter_congr
      rintro ⟨i', j', a, b⟩ hc
      rw [Bool.eq_iff_iff]
      simp only [Function.comp, beq_iff_eq, decide_eq_true_eq]
      constructor
      · rintro rfl
        refine ⟨rfl, ?_⟩
        obtain ⟨v1, v2, w1, w2, g1, g2, g3, g4⟩ := (hC _ _ _ _).1 hc
        obtain ⟨rfl, rfl⟩ := isSeg_inj g1 (hseg _ hi)
        exact hs.only _ _ _ _ _ _ _ _ _ _ _ g1 k1 g2 k2 g3 g4
      · exact fun h => h.1
    · rw [List.length_eq_zero_iff.2]
      · omega
      · rw [List.filter_eq_nil_iff]
        intro c hc
        obtain ⟨v1, v2, u1, u2, g1, -⟩ := hmem c hc
        have := (seg_lt g1).1
        simp only [Function.comp, beq_iff_eq]
        intro h
        exact hi (h ▸ this)
  have hCne : C ≠ [] := by
    rintro rfl
    obtain ⟨c, hc, -⟩ := hex 0 (by omega)
    simp at hc
  obtain ⟨r, sorted, gs, hrun, ⟨l, hl, hperm⟩, hpw, hruns, hso, -⟩ := C36_sortAndjoinCoincidentSlices std oA oB C (by
    intro c hc
    obtain ⟨v1, v2, u1, u2, g1, g2, -⟩ := hmem c hc
    exact ⟨⟨_, _, g1⟩, ⟨_, _, g2⟩⟩)
  refine ⟨hCne, r, sorted, hrun, ?_⟩
  -- in order along the first
  have hlmem : ∀ c' ∈ l, ∃ v1 v2, IsSeg A c'.sIndex1 v1 v2 ∧ c'.point1 = v1.pos ∧ c'.point2 = v2.pos := by
    intro c' hc'
    obtain ⟨c, hc, hf⟩ := forall2_right hl hc'
    obtain ⟨v1, v2, u1, u2, g1, g2, g3, g4, g5⟩ := hmem c hc
    have hi : c'.sIndex1 = c.sIndex1 := by rcases hf.1 with h | h <;> rw [h]
    refine ⟨v1, v2, by rw [hi]; exact g1, ?_⟩
    have hle := hf.2 v1 v2 g1
    have hne : v1.pos ≠ v2.pos := by
      intro h
      apply hd _ _ _ g1
      rw [h]
      exact ⟨by simp, by simp⟩
    have hz : ¬ dist2 v1.pos v2.pos ≤ dist2 v1.pos v1.pos := by
      intro h
      apply hne
      simp only [dist2] at h
      ext <;> nlinarith [sq_nonneg (v1.pos.x - v2.pos.x), sq_nonneg (v1.pos.y - v2.pos.y)]
    rcases hf.1 with rfl | h <;> rcases g3 with ⟨k1, k2, -⟩ | ⟨k1, k2, -⟩
    · exact ⟨g4.trans k1, g5.trans k2⟩
    · rw [g4, g5, k1, k2] at hle
      exact absurd hle hz
    · rw [h] at hle
      simp only [g4, g5, k1, k2] at hle
      exact absurd hle hz
    · rw [h]
      exact ⟨g5.trans k2, g4.trans k1⟩
  have hsmem := fun c (hc : c ∈ sorted) => hlmem c (hperm.mem_iff.1 hc)
  have hlk : l.map CoincidentIntersect.sIndex1 = C.map CoincidentIntersect.sIndex1 := fromStart_keys hl
  have hnd : (sorted.map CoincidentIntersect.sIndex1).Nodup := by
    rw [(hperm.map _).nodup_iff, hlk]; exact hkey
  have hkeys : sorted.map CoincidentIntersect.sIndex1 = List.range A.size := by
    refine List.Perm.eq_of_pairwise (le := (· ≤ ·)) (fun a b _ _ h h' => le_antisymm h h') ?_ ?_ ?_
    · rw [List.pairwise_map]
      refine hpw.imp ?_
      rintro a b (h | ⟨h, -⟩)
      · exact h.le
      · exact h.le
    · exact List.pairwise_lt_range.imp (fun h => h.le)
    · rw [List.perm_ext_iff_of_nodup hnd List.nodup_range]
      intro i
      rw [(hperm.map _).mem_iff, hlk, List.mem_range, List.mem_map]
      constructor
      · rintro ⟨c, hc, rfl⟩
        obtain ⟨v1, v2, u1, u2, g1, -⟩ := hmem c hc
        exact (seg_lt g1).1
      · intro hi
        obtain ⟨c, hc, h⟩ := hex i hi
        exact ⟨c, hc, h⟩
  have hlen : sorted.length = A.size := by
    have := congrArg List.length hkeys
    simpa using this
  have hat : ∀ k (hk : k < sorted.length), sorted[k].sIndex1 = k := by
    intro k hk
    have : (sorted.map CoincidentIntersect.sIndex1)[k]'(by simpa using hk) = (List.range A.size)[k]'(by simpa using (hlen ▸ hk)) := by
      congr 1
    simpa using this
  have hchain : sorted.IsChain (Connects A) := by
    rw [List.isChain_iff_getElem]
    intro k hk
    obtain ⟨v1, v2, g1, g2, g3⟩ := hsmem sorted[k] (List.getElem_mem _)
    obtain ⟨w1, w2, k1, k2, k3⟩ := hsmem sorted[k + 1] (List.getElem_mem _)
    obtain ⟨r, hr, he⟩ := cut_eq oA g1 sorted[k].point2
    have hcv : CutVertex A sorted[k].sIndex1 sorted[k].point2 r.splitVertex := ⟨v1, v2, r, g1, hr, rfl⟩
    refine ⟨r.splitVertex, hcv, ?_⟩
    rw [g3] at hcv
    rw [cut_end g1 hcv, k2]
    rw [hat k (by omega)] at g1
    rw [hat (k + 1) hk] at k1
    have e1 := (isSeg_mod g1).2.2.2
    have e2 := (isSeg_mod k1).2.2.1
    rw [Nat.mod_eq_of_lt (by omega)] at e1
    rw [e1, e2]
    exact ⟨by simp, by simp⟩
  rcases one_run hchain hruns.flatten hruns.nonempty hruns.maximal with h | h
  · have := hruns.flatten
    rw [h] at this
    rw [← this] at hkeys
    have := congrArg List.length hkeys
    simp at this
    omega
  · rw [h] at hso
    have hsl := hso (fun c => by simpa using c.1)
    obtain ⟨x, hx, hxs⟩ := forall2_one hsl.starts
    obtain ⟨y, hy, hys⟩ := forall2_one hsl.ends
    refine ⟨x, y, hx, hy, ?_⟩
    obtain ⟨c, w, v1, v2, u1, u2, hc, hw, g1, g2, hp, -⟩ := hxs
    obtain ⟨c', u1', u2', hc', g2', hp', -⟩ := hys
    have hc0 : c = sorted[0]'(by omega) := by
      have := List.head?_eq_getElem? (l := sorted)
      rw [Option.mem_def.1 hc, List.getElem?_eq_getElem (by omega)] at this
      exact Option.some.inj this
    have hcl : c' = sorted[A.size - 1]'(by omega) := by
      have := List.getLast?_eq_getElem? (l := sorted)
      rw [Option.mem_def.1 hc', hlen, List.getElem?_eq_getElem (by omega)] at this
      exact Option.some.inj this
    obtain ⟨a1, a2, f1, f2, -⟩ := hsmem c (by rw [hc0]; exact List.getElem_mem _)
    obtain ⟨b1, b2, f1', -, f3'⟩ := hsmem c' (by rw [hcl]; exact List.getElem_mem _)
    rw [f2] at hw
    rw [hp, hp', cut_start f1 hw, f3']
    rw [hc0, hat] at f1
    rw [hcl, hat] at f1'
    rw [(isSeg_mod f1).2.2.1, (isSeg_mod f1').2.2.2, show A.size - 1 + 1 = A.size by omega, Nat.mod_self]

/-- **C78.** Combining a closed polyline `A` with one that has all its segments, in any order and directions, and no other
segments that are reported to overlap these: union and intersection are `A`, the difference and the symmetric difference
are empty. -/
theorem C78_same_segs {pf : Platform} {std : StdSort} {hash : HashOrder} {A B : Polyline} (cA : A.isClosed = true)
    (cB : B.isClosed = true) (hA2 : 2 ≤ A.vertexes.length) (oA : PlineOk A) (oB : PlineOk B)
    (hd : ∀ i v1 v2, IsSeg A i v1 v2 → ¬ Near (1 / 10 ^ 8) v1.pos v2.pos) (hs : SameSegs A B) (hi : Indexable pf A)
    (mode : CombineMode) : combinePolylines pf std hash A B mode = .ok (combineWithSame A mode) := by
  obtain ⟨s, out, hs1, ho, hB, -, hcnt⟩ := C33_findIntersects hi oA oB
  obtain ⟨hne, r, sorted, hrun, x, y, hx, hy, hxy⟩ := same_info (std := std) cA hA2 oA oB hd hs hB (fun i j => (hcnt i j).1)
  obtain ⟨x1, hx1⟩ := getArea_total A
  obtain ⟨x2, hx2⟩ := getArea_total B
  unfold combinePolylines
  rw [assertP_pos ⟨cA, cB⟩, ok_bind, hs1, ok_bind]
  unfold processForCombine
  rw [assertP_pos ⟨cA, cB⟩, ok_bind, ho, ok_bind, hx1, ok_bind, hx2, ok_bind,
    if_neg (by rw [List.length_eq_zero_iff]; exact hne), hrun, ok_bind]
  simp only [pure_bind]
  have hcc : CombineInfo.completelyCoincident ⟨r.coincidentSlices, out.intersects, r.sliceStartPoints, r.sliceEndPoints,
      r.coincidentIsOpposingDirection, decide (x1 < 0), decide (x2 < 0)⟩ := by
    unfold CombineInfo.completelyCoincident
    simp only [hx, hy]
    rw [hxy]
    unfold fuzzyEqualV fuzzyEqual realPrecision
    simp
  cases mode
  · exact if_pos hcc
  · exact if_pos hcc
  · exact if_pos hcc
  · exact if_pos hcc

/-- Segments of a curve that does not meet itself are different curves. -/
theorem same_index {p : Polyline} (hp : SimpleCurve p) {i j : ℕ} {v1 v2 u1 u2 : Vertex} (h : IsSeg p i v1 v2)
    (h' : IsSeg p j u1 u2) (hs : SameSeg v1 v2 u1 u2) : i = j := by
  by_contra hne
  have hn : v1.pos ≠ v2.pos := by
    intro e
    apply hp.distinct _ _ _ h
    rw [e]
    exact ⟨by simp, by simp⟩
  have h1 : OnSeg v1 v2 (segPt v1 v2 (1 / 2)) := onSeg_segPt.2 ⟨1 / 2, by norm_num, by norm_num, rfl⟩
  have h2 : OnSeg u1 u2 (segPt v1 v2 (1 / 2)) := by
    obtain ⟨t, t0, t1, ht⟩ := h1
    rcases hs with ⟨e1, e2, e3⟩ | ⟨e1, e2, e3⟩
    · refine ⟨t, t0, t1, ?_⟩
      unfold AtParam IsLine IsCenter sweep at ht ⊢
      rw [e1, e2, e3]; exact ht
    · refine ⟨1 - t, by linarith, by linarith, ?_⟩
      rw [atParam_reverse e1 e2 e3]
      simpa using ht
  have e0 : segPt v1 v2 0 = v1.pos := segPt_zero _ _
  have e1 : segPt v1 v2 1 = v2.pos := segPt_one _ _
  have hok := hp.ok _ _ _ h
  have n0 : segPt v1 v2 (1 / 2) ≠ v1.pos := by
    rw [← e0]
    intro e
    have := segPt_inj hok hn (by norm_num) (by norm_num) (by norm_num) (by norm_num) e
    norm_num at this
  have n1 : segPt v1 v2 (1 / 2) ≠ v2.pos := by
    rw [← e1]
    intro e
    have := segPt_inj hok hn (by norm_num) (by norm_num) (by norm_num) (by norm_num) e
    norm_num at this
  rcases hp.apart i j v1 v2 u1 u2 _ h h' hne h1 h2 with ⟨-, e⟩ | ⟨-, e⟩
  · exact n1 e
  · rcases hs with ⟨-, e2, -⟩ | ⟨-, e2, -⟩ <;> rw [e2] at e
    · exact n1 e
    · exact n0 e

theorem segs_rotated {A B : Polyline} (cA : A.isClosed = true) (cB : B.isClosed = true) (h : A.vertexes ~r B.vertexes) :
    segs A ~r segs B := by
  obtain ⟨k, hk⟩ := h
  refine ⟨k, ?_⟩
  unfold segs
  rw [← hk, List.length_rotate]
  split_ifs with c
  · simp
  · rw [List.rotate_rotate, Nat.add_comm k 1, ← List.rotate_rotate]
    exact List.zipWith_rotate_distrib _ _ _ _ (by simp)

/-- **C78.** In particular a curve that does not meet itself combined with itself, and with the same curve started at
another vertex. -/
theorem C78_rotated {pf : Platform} {std : StdSort} {hash : HashOrder} {A B : Polyline} (sA : SimpleCurve A)
    (cB : B.isClosed = true) (hrot : A.vertexes ~r B.vertexes) (hno : NoOverlaps A) (hi : Indexable pf A)
    (mode : CombineMode) : combinePolylines pf std hash A B mode = .ok (combineWithSame A mode) := by
  obtain ⟨k, hk⟩ := segs_rotated sA.closed cB hrot
  have hBA : ∀ j u1 u2, IsSeg B j u1 u2 ↔ j < (segs A).length ∧ IsSeg A ((j + k) % (segs A).length) u1 u2 := by
    intro j u1 u2
    unfold IsSeg
    rw [← hk]
    by_cases hj : j < (segs A).length
    · rw [List.getElem?_rotate hj]; simp [hj]
    · rw [List.getElem?_eq_none (by simpa using hj)]; simp [hj]
  have hlt : ∀ i v1 v2, IsSeg A i v1 v2 → i < (segs A).length := fun i v1 v2 h => (isSeg_iff.1 h).1
  refine C78_same_segs sA.closed cB sA.two sA.ok ?_ sA.distinct ⟨?_, ?_⟩ hi mode
  · intro j u1 u2 h
    exact sA.ok _ _ _ ((hBA _ _ _).1 h).2
  · intro i v1 v2 h
    have hn := hlt _ _ _ h
    have hpos : 0 < (segs A).length := by omega
    refine ⟨(i + ((segs A).length - k % (segs A).length)) % (segs A).length, v1, v2, ?_, Or.inl ⟨rfl, rfl, rfl⟩⟩
    rw [hBA]
    refine ⟨Nat.mod_lt _ hpos, ?_⟩
    convert h using 1
    have hkl := Nat.mod_lt k hpos
    rw [Nat.add_mod, Nat.mod_mod, ← Nat.add_mod, Nat.add_mod _ k, ← Nat.add_mod_mod]
    rw [Nat.mod_add_mod, Nat.mod_mod, show i + ((segs A).length - k % (segs A).length) + k % (segs A).length = i + (segs A).length by omega]
    rw [Nat.add_mod_right, Nat.mod_eq_of_lt hn]
  · intro i j j' v1 v2 u1 u2 w1 w2 a b h1 h2 h3 h4 h5 h6
    obtain ⟨a2, b2⟩ := (hBA _ _ _).1 h2
    obtain ⟨a3, b3⟩ := (hBA _ _ _).1 h3
    have e1 := same_index sA h1 b2 h4
    have e2 : i = (j' + k) % (segs A).length := by
      by_contra hne
      exact hno _ _ _ _ _ _ _ _ h1 b3 hne h5 h6
    have e3 : (j' + k) % (segs A).length = (j + k) % (segs A).length := e2.symm.trans e1
    have := Nat.ModEq.add_right_cancel' k (show j' + k ≡ j + k [MOD (segs A).length] from e3)
    rwa [Nat.ModEq, Nat.mod_eq_of_lt a3, Nat.mod_eq_of_lt a2] at this

theorem sameSeg_symm {v1 v2 u1 u2 : Vertex} (h : SameSeg v1 v2 u1 u2) : SameSeg u1 u2 v1 v2 := by
  rcases h with ⟨h1, h2, h3⟩ | ⟨h1, h2, h3⟩
  · exact Or.inl ⟨h1.symm, h2.symm, h3.symm⟩
  · exact Or.inr ⟨h2.symm, h1.symm, by rw [h3, neg_neg]⟩

theorem sameSeg_trans {v1 v2 u1 u2 w1 w2 : Vertex} (h : SameSeg v1 v2 u1 u2) (h' : SameSeg u1 u2 w1 w2) : SameSeg v1 v2 w1 w2 := by
  rcases h with ⟨h1, h2, h3⟩ | ⟨h1, h2, h3⟩ <;> rcases h' with ⟨k1, k2, k3⟩ | ⟨k1, k2, k3⟩
  · exact Or.inl ⟨k1.trans h1, k2.trans h2, k3.trans h3⟩
  · exact Or.inr ⟨k1.trans h2, k2.trans h1, by rw [k3, h3]⟩
  · exact Or.inr ⟨k1.trans h1, k2.trans h2, by rw [k3, h3]⟩
  · exact Or.inl ⟨k1.trans h2, k2.trans h1, by rw [k3, h3, neg_neg]⟩

theorem sameSeg_ok {v1 v2 u1 u2 : Vertex} (h : SameSeg v1 v2 u1 u2) (hv : SegOk v1 v2) : SegOk u1 u2 := by
  rcases h with ⟨h1, h2, h3⟩ | ⟨h1, h2, h3⟩
  · refine ⟨by rw [h3]; exact hv.half, fun hl => ?_⟩
    rw [h1, h2]
    exact hv.distinct (fun c => hl (by unfold IsLine at c ⊢; rw [h3]; exact c))
  · refine ⟨by rw [h3, abs_neg]; exact hv.half, fun hl => ?_⟩
    rw [h1, h2, abs_sub_comm, abs_sub_comm v2.pos.y]
    exact hv.distinct (fun c => hl (by unfold IsLine at c ⊢; rw [h3, abs_neg]; exact c))

/-- No overlap is reported for lines that are not in one line. -/
theorem notInLine_noHit {v1 v2 u1 u2 w1 w2 : Vertex} (hv : IsLine v1) (hu : IsLine u1) (hs : SameSeg u1 u2 w1 w2)
    (h : 1 / 10 ^ 8 < |(v2.pos.x - v1.pos.x) * (u2.pos.y - u1.pos.y) - (v2.pos.y - v1.pos.y) * (u2.pos.x - u1.pos.x)| ∨
      2 / 10 ^ 8 < |side v1.pos v2.pos u1.pos|) {a b : V2} : ¬ OverlapHit v1 v2 w1 w2 a b := by
  have hw : IsLine w1 := by
    unfold IsLine at hu ⊢
    rcases hs with ⟨-, -, h⟩ | ⟨-, -, h⟩ <;> rw [h]
    · exact hu
    · rw [abs_neg]; exact hu
  have hcr : |(v2.pos.x - v1.pos.x) * (w2.pos.y - w1.pos.y) - (v2.pos.y - v1.pos.y) * (w2.pos.x - w1.pos.x)| =
      |(v2.pos.x - v1.pos.x) * (u2.pos.y - u1.pos.y) - (v2.pos.y - v1.pos.y) * (u2.pos.x - u1.pos.x)| := by
    rcases hs with ⟨h1, h2, -⟩ | ⟨h1, h2, -⟩ <;> rw [h1, h2]
    rw [← abs_neg]
    congr 1; ring
  have hnc : ∀ t0 t1, intrLineSeg2LineSeg2 v1.pos v2.pos w1.pos w2.pos ≠ .coincident t0 t1 := by
    intro t0 t1
    by_cases hc : 1 / 10 ^ 8 < |(v2.pos.x - v1.pos.x) * (w2.pos.y - w1.pos.y) - (v2.pos.y - v1.pos.y) * (w2.pos.x - w1.pos.x)|
    · obtain ⟨s0, s1, p, -, -, -, hr⟩ := C18_crossing _ _ _ _ hc
      rw [hr]
      split_ifs <;> simp
    · rw [parallel_branch hc, if_pos]
      · simp
      left
      rw [hcr] at hc
      have h2 : 2 / 10 ^ 8 < |side v1.pos v2.pos u1.pos| := h.resolve_left hc
      push Not at hc
      have e : perpDot (v2.pos - v1.pos) (v1.pos - w1.pos) = -side v1.pos v2.pos w1.pos := by
        simp only [perpDot, side, V2.sub_x, V2.sub_y]; ring
      rw [e, abs_neg]
      unfold realThreshold
      rcases hs with ⟨h1, -, -⟩ | ⟨h1, -, -⟩ <;> rw [h1]
      · show 1 / 10 ^ 8 < _
        linarith
      · have e2 : side v1.pos v2.pos u2.pos = side v1.pos v2.pos u1.pos +
          ((v2.pos.x - v1.pos.x) * (u2.pos.y - u1.pos.y) - (v2.pos.y - v1.pos.y) * (u2.pos.x - u1.pos.x)) := by
          unfold side; ring
        have e3 := abs_sub (side v1.pos v2.pos u2.pos)
          ((v2.pos.x - v1.pos.x) * (u2.pos.y - u1.pos.y) - (v2.pos.y - v1.pos.y) * (u2.pos.x - u1.pos.x))
        rw [e2, add_sub_cancel_right, ← e2] at e3
        show 1 / 10 ^ 8 < _
        linarith
  unfold OverlapHit intrPlineSegs
  rw [if_pos ⟨hv, hw⟩]
  generalize intrLineSeg2LineSeg2 v1.pos v2.pos w1.pos w2.pos = res at hnc
  cases res with
  | coincident t0 t1 => exact absurd rfl (hnc t0 t1)
  | none => simp
  | trueIntr p => simp
  | falseIntr x y z => simp

/-- **C78.** Polygons: combining two polygons with the same edges, in any directions and started at any vertex. -/
theorem C78_polygons {pf : Platform} {std : StdSort} {hash : HashOrder} {A B : Polyline} (sA : SimpleCurve A)
    (sB : SimpleCurve B) (lA : ∀ v ∈ A.vertexes, IsLine v) (hs : SameCurve A B) (hno : NotInLine A) (hi : Indexable pf A)
    (mode : CombineMode) : combinePolylines pf std hash A B mode = .ok (combineWithSame A mode) := by
  have hl : ∀ i v1 v2, IsSeg A i v1 v2 → IsLine v1 := by
    intro i v1 v2 h
    obtain ⟨h1, -, h3, -⟩ := isSeg_mod h
    rw [h3, vtx, List.getD_eq_getElem _ _ h1]
    exact lA _ (List.getElem_mem _)
  refine C78_same_segs sA.closed sB.closed sA.two sA.ok sB.ok sA.distinct ⟨hs.1, ?_⟩ hi mode
  intro i j j' v1 v2 u1 u2 w1 w2 a b h1 h2 h3 h4 h5 h6
  obtain ⟨i', x1, x2, g1, g2⟩ := hs.2 _ _ _ h3
  by_cases hne : i = i'
  · subst hne
    obtain ⟨rfl, rfl⟩ := isSeg_inj h1 g1
    exact same_index sB h3 h2 (sameSeg_trans (sameSeg_symm g2) h4)
  · refine absurd h6 (notInLine_noHit (hl _ _ _ h1) (hl _ _ _ g1) g2 (hno _ _ _ _ _ _ h1 g1 hne ?_))
    have e : createFastApproxBoundingBox w1 w2 = createFastApproxBoundingBox x1 x2 := by
      have c1 : IsLine x1 := hl _ _ _ g1
      have c2 : IsLine w1 := by
        unfold IsLine at c1 ⊢
        rcases g2 with ⟨-, -, h⟩ | ⟨-, -, h⟩ <;> rw [h]
        · exact c1
        · rw [abs_neg]; exact c1
      unfold createFastApproxBoundingBox
      rw [if_pos (show w1.bulgeIsZero from c2), if_pos (show x1.bulgeIsZero from c1)]
      rcases g2 with ⟨e1, e2, -⟩ | ⟨e1, e2, -⟩ <;> rw [e1, e2]
      have f1 : ∀ a b : ℝ, (if a < b then a else b) = if b < a then b else a := by
        intro a b; split_ifs <;> linarith
      have f2 : ∀ a b : ℝ, (if a < b then b else a) = if b < a then a else b := by
        intro a b; split_ifs <;> linarith
      rw [f1 x2.pos.x, f1 x2.pos.y, f2 x2.pos.x, f2 x2.pos.y]
    unfold BoxesClose at h5 ⊢
    rw [e] at h5
    exact h5

theorem sameCurve_invert {A B : Polyline} (h : invertDirection A = .ok B) : SameCurve A B := by
  obtain ⟨q, hq, -, -, -, hseg⟩ := C28_invertDirection A
  have hi := C28_involution A
  rw [h, ok_bind] at hi
  obtain ⟨q', hq', -, -, -, hseg'⟩ := C28_invertDirection B
  rw [h] at hq
  cases hq
  rw [hi] at hq'
  cases hq'
  constructor
  · intro i v1 v2 hv
    obtain ⟨w1, w2, g1, g2, g3, g4, -⟩ := hseg i v1 v2 hv
    exact ⟨_, w1, w2, g1, Or.inr ⟨g2, g3, g4⟩⟩
  · intro j u1 u2 hu
    obtain ⟨w1, w2, g1, g2, g3, g4, -⟩ := hseg' j u1 u2 hu
    exact ⟨_, w1, w2, g1, sameSeg_symm (Or.inr ⟨g2, g3, g4⟩)⟩

theorem sameCurve_rotated {A B : Polyline} (cA : A.isClosed = true) (cB : B.isClosed = true) (h : A.vertexes ~r B.vertexes) :
    SameCurve A B := by
  have hm : ∀ x, x ∈ segs A ↔ x ∈ segs B := fun x => (segs_rotated cA cB h).mem_iff
  constructor
  · intro i v1 v2 hv
    obtain ⟨j, hj⟩ := List.mem_iff_getElem?.1 ((hm _).1 (List.mem_of_getElem? hv))
    exact ⟨j, v1, v2, hj, Or.inl ⟨rfl, rfl, rfl⟩⟩
  · intro i v1 v2 hv
    obtain ⟨j, hj⟩ := List.mem_iff_getElem?.1 ((hm _).2 (List.mem_of_getElem? hv))
    exact ⟨j, v1, v2, hj, Or.inl ⟨rfl, rfl, rfl⟩⟩

theorem inv_index {n j : ℕ} (hj : j < n) : (2 * n - 2 - j) % n = if j + 1 = n then n - 1 else n - 2 - j := by
  split_ifs with c
  · rw [show 2 * n - 2 - j = n - 1 by omega, Nat.mod_eq_of_lt (by omega)]
  · rw [show 2 * n - 2 - j = n - 2 - j + n by omega, Nat.add_mod_right, Nat.mod_eq_of_lt (by omega)]

/-- A curve that does not meet itself, in the other direction. -/
theorem simpleCurve_invert {A B : Polyline} (sA : SimpleCurve A) (h : invertDirection A = .ok B) : SimpleCurve B := by
  have hi := C28_involution A
  rw [h, ok_bind] at hi
  obtain ⟨q, hq, hcl, hpos, -⟩ := C28_invertDirection A
  rw [h] at hq
  cases hq
  have hlen : B.vertexes.length = A.vertexes.length := by
    have := congrArg List.length hpos
    simpa using this
  obtain ⟨q', hq', -, -, -, hseg⟩ := C28_invertDirection B
  rw [hi] at hq'
  cases hq'
  have hsame := sameCurve_invert h
  refine ⟨by rw [hcl]; exact sA.closed, ?_, by rw [hlen]; exact sA.two, ?_, ?_⟩
  · intro j u1 u2 hu
    obtain ⟨i, v1, v2, g1, g2⟩ := hsame.2 _ _ _ hu
    exact sameSeg_ok g2 (sA.ok _ _ _ g1)
  · intro j u1 u2 hu hn
    obtain ⟨v1, v2, g1, g2, g3, -⟩ := hseg j u1 u2 hu
    apply sA.distinct _ _ _ g1
    rw [g2, g3]
    exact ⟨by rw [abs_sub_comm]; exact hn.1, by rw [abs_sub_comm]; exact hn.2⟩
  · intro i j v1 v2 u1 u2 x h1 h2 hne o1 o2
    obtain ⟨a1, a2, g1, g2, g3, -, gp⟩ := hseg i v1 v2 h1
    obtain ⟨b1, b2, k1, k2, k3, -, kp⟩ := hseg j u1 u2 h2
    have p1 : OnSeg a1 a2 x := by
      obtain ⟨t, t0, t1, ht⟩ := o1
      exact ⟨1 - t, by linarith, by linarith, (gp _ _).2 (by simpa using ht)⟩
    have p2 : OnSeg b1 b2 x := by
      obtain ⟨t, t0, t1, ht⟩ := o2
      exact ⟨1 - t, by linarith, by linarith, (kp _ _).2 (by simpa using ht)⟩
    have hi1 : i < B.vertexes.length := (seg_lt h1).1
    have hj1 : j < B.vertexes.length := (seg_lt h2).1
    have hn2 := sA.two
    rw [hlen] at g1 k1 hi1 hj1 ⊢
    generalize hn : A.vertexes.length = n at *
    rw [inv_index hi1] at g1
    rw [inv_index hj1] at k1
    have hm : ∀ m, m < n → (m + 1) % n = if m + 1 = n then 0 else m + 1 := by
      intro m hm
      split_ifs with c
      · rw [c, Nat.mod_self]
      · exact Nat.mod_eq_of_lt (by omega)
    have hne' : (if i + 1 = n then n - 1 else n - 2 - i) ≠ if j + 1 = n then n - 1 else n - 2 - j := by
      split_ifs <;> omega
    rw [hm i hi1, hm j hj1]
    have hs : A.size = n := hn
    rcases sA.apart _ _ _ _ _ _ x g1 k1 hne' p1 p2 with ⟨e1, e2⟩ | ⟨e1, e2⟩
    · right
      rw [hn, hm _ (by split_ifs <;> omega)] at e1
      refine ⟨by split_ifs at e1 ⊢ <;> omega, ?_⟩
      rw [e2, ← k2, (isSeg_mod g1).2.2.2, (isSeg_mod k1).2.2.1, hs, hm _ (by split_ifs <;> omega), e1]
    · left
      rw [hn, hm _ (by split_ifs <;> omega)] at e1
      refine ⟨by split_ifs at e1 ⊢ <;> omega, ?_⟩
      rw [e2, ← g2, (isSeg_mod k1).2.2.2, (isSeg_mod g1).2.2.1, hs, hm _ (by split_ifs <;> omega), e1]

/-- **C78.** A polygon combined with itself in the other direction. -/
theorem C78_inverted {pf : Platform} {std : StdSort} {hash : HashOrder} {A B : Polyline} (sA : SimpleCurve A)
    (lA : ∀ v ∈ A.vertexes, IsLine v) (hB : invertDirection A = .ok B) (hno : NotInLine A) (hi : Indexable pf A)
    (mode : CombineMode) : combinePolylines pf std hash A B mode = .ok (combineWithSame A mode) :=
  C78_polygons sA (simpleCurve_invert sA hB) lA (sameCurve_invert hB) hno hi mode

/-- A polygon whose edges are not in one line has no edges that are reported to overlap. -/
theorem notInLine_noOverlaps {A : Polyline} (lA : ∀ v ∈ A.vertexes, IsLine v) (h : NotInLine A) : NoOverlaps A := by
  have hl : ∀ i v1 v2, IsSeg A i v1 v2 → IsLine v1 := by
    intro i v1 v2 h
    obtain ⟨h1, -, h3, -⟩ := isSeg_mod h
    rw [h3, vtx, List.getD_eq_getElem _ _ h1]
    exact lA _ (List.getElem_mem _)
  intro i j v1 v2 u1 u2 a b h1 h2 hne hb
  exact notInLine_noHit (hl _ _ _ h1) (hl _ _ _ h2) (Or.inl ⟨rfl, rfl, rfl⟩) (h _ _ _ _ _ _ h1 h2 hne hb)

/-! ### Cases that meet the hypotheses -/

theorem rect_notInLine {x0 y0 x1 y1 : ℝ} (hx : 1 ≤ x1 - x0) (hy : 1 ≤ y1 - y0) : NotInLine (rect x0 y0 x1 y1) := by
  intro i j v1 v2 u1 u2 h1 h2 hne _
  have hm : 1 ≤ (x1 - x0) * (y1 - y0) := by nlinarith
  have big : ∀ e : ℝ, (e = (x1 - x0) * (y1 - y0) ∨ e = -((x1 - x0) * (y1 - y0))) → 2 / 10 ^ 8 < |e| := by
    rintro e (rfl | rfl)
    · rw [abs_of_pos (by linarith)]; norm_num; linarith
    · rw [abs_neg, abs_of_pos (by linarith)]; norm_num; linarith
  have big1 : ∀ e : ℝ, (e = (x1 - x0) * (y1 - y0) ∨ e = -((x1 - x0) * (y1 - y0))) → 1 / 10 ^ 8 < |e| := by
    intro e he
    have := big e he
    norm_num at this ⊢
    linarith
  unfold side
  rcases rect_seg h1 with ⟨rfl, rfl, rfl⟩ | ⟨rfl, rfl, rfl⟩ | ⟨rfl, rfl, rfl⟩ | ⟨rfl, rfl, rfl⟩ <;>
    rcases rect_seg h2 with ⟨rfl, rfl, rfl⟩ | ⟨rfl, rfl, rfl⟩ | ⟨rfl, rfl, rfl⟩ | ⟨rfl, rfl, rfl⟩ <;>
    first
    | exact absurd rfl hne
    | exact Or.inl (big1 _ (Or.inl (by simp only; ring1)))
    | exact Or.inl (big1 _ (Or.inr (by simp only; ring1)))
    | exact Or.inr (big _ (Or.inl (by simp only; ring1)))
    | exact Or.inr (big _ (Or.inr (by simp only; ring1)))

theorem rect_curve {x0 y0 x1 y1 : ℝ} (hx : 1 ≤ x1 - x0) (hy : 1 ≤ y1 - y0) : SimpleCurve (rect x0 y0 x1 y1) := by
  refine simplePolygon_curve (rect_simple (by linarith) (by linarith)) fun i v1 v2 h hn => ?_
  obtain ⟨n1, n2⟩ := hn
  norm_num at n1 n2
  rw [abs_lt] at n1 n2
  rcases rect_seg h with ⟨-, rfl, rfl⟩ | ⟨-, rfl, rfl⟩ | ⟨-, rfl, rfl⟩ | ⟨-, rfl, rfl⟩ <;> simp only at n1 n2 <;> linarith [n1.1, n1.2, n2.1, n2.2]

/-- A rectangle and itself in the other direction: their union is the rectangle, and nothing is left of the difference. -/
example (inf ninf : ℝ) (std : StdSort) (hash : HashOrder) : ∃ B, invertDirection (rect 0 0 40 30) = .ok B ∧
    B.vertexes.map Vertex.pos = [⟨0, 30⟩, ⟨40, 30⟩, ⟨40, 0⟩, ⟨0, 0⟩] ∧
    combinePolylines (codePlatform inf ninf) std hash (rect 0 0 40 30) B .union = .ok ⟨[rect 0 0 40 30], []⟩ ∧
    combinePolylines (codePlatform inf ninf) std hash (rect 0 0 40 30) B .exclude = .ok ⟨[], []⟩ := by
  obtain ⟨B, hB, -, hp, -⟩ := C28_invertDirection (rect 0 0 40 30)
  have h := fun mode => C78_inverted (std := std) (hash := hash) (rect_curve (by norm_num) (by norm_num)) (by simp [rect, isLine_zero]) hB
    (rect_notInLine (by norm_num) (by norm_num)) (rect_indexable inf ninf) mode
  exact ⟨B, hB, by rw [hp]; simp [rect], h .union, h .exclude⟩

/-- The rectangle written down from the next vertex. -/
example (inf ninf : ℝ) (std : StdSort) (hash : HashOrder) :
    combinePolylines (codePlatform inf ninf) std hash (rect 0 0 40 30)
      ⟨true, [⟨⟨40, 0⟩, 0⟩, ⟨⟨40, 30⟩, 0⟩, ⟨⟨0, 30⟩, 0⟩, ⟨⟨0, 0⟩, 0⟩]⟩ .xor = .ok ⟨[], []⟩ :=
  C78_rotated (rect_curve (by norm_num) (by norm_num)) rfl ⟨1, rfl⟩ (notInLine_noOverlaps (by simp [rect, isLine_zero])
    (rect_notInLine (by norm_num) (by norm_num))) (rect_indexable inf ninf) .xor

/-- Two arcs of a circle, the first of which starts where the second ends, are not reported to overlap. -/
theorem arcs_touch {v1 v2 u1 u2 : Vertex} (hvl : ¬ IsLine v1) (hul : ¬ IsLine u1) (hv : SegOk v1 v2) (hu : SegOk u1 u2) {c : V2}
    (hc : IsCenter v1 v2 c) (hd : IsCenter u1 u2 c) (hr : distance v1.pos c = distance u1.pos c)
    (hdir : v1.bulge < 0 ↔ u1.bulge < 0) (he : u2.pos = v1.pos) {a b : V2} : ¬ OverlapHit v1 v2 u1 u2 a b := by
  have hva := hv.arcOk hvl
  have hua := hu.arcOk hul
  have e1 := isCenter_unique hva.b_ne hc
  have e2 := isCenter_unique hua.b_ne hd
  have hrun : intrPlineSegs v1 v2 u1 u2 = .ok (coincidentArcs v1 v2 u1 u2 (arcOf v1 v2) (arcOf u1 u2)) := by
    rw [arcArc_run hva hv.half hua hu.half, ← e1, ← e2, hr]
    unfold intrCircle2Circle2
    simp only
    rw [if_pos, if_pos]
    · unfold fuzzyEqual realThreshold; rw [sub_self, abs_zero]; norm_num
    · have : dot (c - c) (c - c) = 0 := by simp [dot]
      rw [this, Real.sqrt_zero]; unfold realThreshold; norm_num
  unfold OverlapHit
  rw [hrun]
  unfold coincidentArcs
  rw [if_pos (show v1.bulgeIsNeg ↔ u1.bulgeIsNeg from hdir)]
  unfold startAndSweepAngle
  simp only [hva.center, hua.center, ← e1, ← e2]
  obtain ⟨p1, -, -⟩ := start_circlePt c v1.pos
  obtain ⟨p2, -, -⟩ := start_circlePt c u1.pos
  rw [← hr] at p2
  rw [show 4 * Real.arctan u1.bulge = sweep u1 from rfl]
  have hr0 : distance v1.pos c ≠ 0 := by
    rw [e1]; exact (distance_pos hva.start_ne).ne'
  have q2 : circlePt c (distance v1.pos c) (normalizeRadians (angle c u1.pos) + sweep u1) = u2.pos := by
    rw [← rot_circlePt, p2]; exact hd
  rw [he, ← p1] at q2
  rw [p1] at q2
  nth_rewrite 2 [← p1] at q2
  obtain ⟨k, hk⟩ := circlePt_inj hr0 q2
  rw [if_pos]
  · simp
  · rw [touch_iff]
    refine ⟨-k, ?_⟩
    rw [hk]
    push_cast
    rw [show ∀ x y : ℝ, x + y - x + -(k : ℝ) * tau = y - k * tau by intro x y; ring, sub_self, abs_zero]
    norm_num

/-- A disc of two half circles and the same disc. -/
example (inf ninf : ℝ) (std : StdSort) (hash : HashOrder) :
    combinePolylines (codePlatform inf ninf) std hash disc5 ⟨true, [⟨⟨5, 0⟩, 1⟩, ⟨⟨-5, 0⟩, 1⟩]⟩ .intersect = .ok ⟨[disc5], []⟩ := by
  refine C78_rotated disc5_simple rfl ⟨1, rfl⟩ ?_ (disc5_indexable inf ninf) .intersect
  intro i j v1 v2 u1 u2 a b h1 h2 hne _
  have o1 := disc5_ok _ _ _ h1
  have o2 := disc5_ok _ _ _ h2
  rcases disc5_index h1 with ⟨rfl, rfl, rfl⟩ | ⟨rfl, rfl, rfl⟩ <;> rcases disc5_index h2 with ⟨rfl, rfl, rfl⟩ | ⟨rfl, rfl, rfl⟩ <;>
    first
    | exact absurd rfl hne
    | skip
  all_goals
    have c1 := isCenter_centerOf (v1 := ⟨⟨-5, 0⟩, 1⟩) (v2 := ⟨⟨5, 0⟩, 1⟩) (by norm_num)
    have c2 := isCenter_centerOf (v1 := ⟨⟨5, 0⟩, 1⟩) (v2 := ⟨⟨-5, 0⟩, 1⟩) (by norm_num)
    rw [disc5_center (by norm_num) c1] at c1
    rw [disc5_center (by norm_num) c2] at c2
  · exact arcs_touch (arc5 _) (arc5 _) o1 o2 c1 c2 (by norm_num [distance, dist2]) Iff.rfl rfl
  · exact arcs_touch (arc5 _) (arc5 _) o1 o2 c2 c1 (by norm_num [distance, dist2]) Iff.rfl rfl

end
end Cavc

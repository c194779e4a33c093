import Verif.Props.PlineArea

/-! C28 (invertDirection) and its part of C22. -/
namespace Cavc
open Spec
open scoped Classical

theorem setM_of_lt {α : Type} {l : List α} {i : ℕ} (h : i < l.length) (x : α) :
    setM l i x = .ok (l.set i x) := if_pos h

theorem shiftBulges_spec (k : ℕ) : ∀ (i : ℕ) (l : List Vertex), 1 ≤ i → i + k = l.length →
    ∃ r, shiftBulges k i l = .ok r ∧ r.length = l.length ∧
      ∀ j (hj : j < r.length) (hj' : j < l.length), r[j] =
        if h : i - 1 ≤ j ∧ j + 1 < l.length then ⟨l[j].pos, -(l[j + 1]'h.2).bulge⟩ else l[j] := by
  induction k with
  | zero =>
    intro i l h1 h2
    refine ⟨l, rfl, rfl, fun j hj hj' => ?_⟩
    rw [dif_neg (by omega)]
  | succ k ih =>
    intro i l h1 h2
    have hi : i < l.length := by omega
    rw [shiftBulges, getM_of_lt hi, ok_bind, getM_of_lt (show i - 1 < l.length by omega), ok_bind,
      setM_of_lt (by omega), ok_bind]
    obtain ⟨r, hr, hlen, hj⟩ := ih (i + 1) (l.set (i - 1) ⟨l[i - 1].pos, -l[i].bulge⟩) (by omega)
      (by rw [List.length_set]; omega)
    refine ⟨r, hr, by rw [hlen, List.length_set], ?_⟩
    intro j h3 h4
    rw [hj j h3 (by rw [List.length_set]; exact h4)]
    simp only [List.length_set, List.getElem_set, Nat.add_sub_cancel]
    by_cases h5 : i ≤ j ∧ j + 1 < l.length
    · rw [dif_pos h5, dif_pos (by omega), if_neg (by omega), if_neg (by omega)]
    · rw [dif_neg h5]
      by_cases h6 : i - 1 = j
      · subst h6
        rw [if_pos rfl, dif_pos (by omega)]
        simp only [show i - 1 + 1 = i by omega]
      · rw [if_neg h6, dif_neg (by omega)]

/-- Closed form of the result. -/
theorem invertDirection_spec {p : Polyline} (h : 2 ≤ p.size) :
    ∃ q, invertDirection p = .ok q ∧ q.isClosed = p.isClosed ∧ q.size = p.size ∧
      ∀ j, j < p.size → vtx q j = ⟨(vtx p (p.size - 1 - j)).pos,
        -(vtx p (if j + 1 = p.size then p.size - 1 else p.size - 2 - j)).bulge⟩ := by
  have hl : p.vertexes.length = p.size := rfl
  have hr : p.vertexes.reverse.length = p.size := by simp [hl]
  unfold invertDirection
  rw [if_neg (by omega)]
  simp only
  rw [getM_of_lt (by omega), ok_bind]
  obtain ⟨r, h1, h2, h3⟩ := shiftBulges_spec (p.size - 1) 1 p.vertexes.reverse (by omega) (by omega)
  rw [h1, ok_bind]
  have hne : r ≠ [] := by
    intro h0; rw [h0] at h2; simp at h2; omega
  have hlast : Polyline.lastVertex ⟨p.isClosed, r⟩ = .ok (r.getLast hne) := by
    unfold Polyline.lastVertex
    simp only [List.getLast?_eq_some_getLast hne]
  rw [hlast, ok_bind]
  unfold Polyline.setLast
  rw [if_neg hne]
  refine ⟨_, rfl, rfl, ?_, ?_⟩
  · simp only [Polyline.size, List.length_append, List.length_dropLast, List.length_singleton]
    omega
  · intro j hj
    have hv : ∀ i, (hi : i < p.size) → vtx p i = p.vertexes[i] := fun i hi => by
      unfold vtx; exact List.getD_eq_getElem _ _ hi
    rw [hv _ (by omega), hv _ (by split_ifs <;> omega)]
    unfold vtx
    simp only
    rw [List.getD_eq_getElem _ _ (by simp; omega)]
    by_cases hj' : j + 1 = p.size
    · rw [List.getElem_append_right (by simp; omega)]
      simp only [List.length_dropLast, List.getElem_singleton, hj', if_true]
      rw [List.getLast_eq_getElem, h3 _ (by omega) (by omega), dif_neg (by omega)]
      simp only [List.getElem_reverse]
      have e1 : p.vertexes.length - 1 - (r.length - 1) = p.size - 1 - j := by omega
      have e2 : p.vertexes.length - 1 - 0 = p.size - 1 := by omega
      simp only [e1, e2]
      rfl
    · rw [List.getElem_append_left (by simp; omega), List.getElem_dropLast,
        h3 j (by omega) (by omega), dif_pos (by omega)]
      simp only [List.getElem_reverse, hj', if_false]
      have e1 : p.vertexes.length - 1 - j = p.size - 1 - j := by omega
      have e2 : p.vertexes.length - 1 - (j + 1) = p.size - 2 - j := by omega
      simp only [e1, e2]
      rfl

theorem pline_ext {p q : Polyline} (hc : p.isClosed = q.isClosed) (hs : p.size = q.size)
    (h : ∀ i, i < p.size → vtx p i = vtx q i) : p = q := by
  ext1
  · exact hc
  · apply List.ext_getElem hs
    intro i h1 h2
    have := h i h1
    unfold vtx at this
    rwa [List.getD_eq_getElem _ _ h1, List.getD_eq_getElem _ _ h2] at this

/-- The reversed arc has the same center and the opposite sweep. -/
theorem atParam_reverse {v1 v2 w1 w2 : Vertex} (h1 : w1.pos = v2.pos) (h2 : w2.pos = v1.pos)
    (hb : w1.bulge = -v1.bulge) (t : ℝ) (x : V2) :
    AtParam w1 w2 t x ↔ AtParam v1 v2 (1 - t) x := by
  have hl : IsLine w1 ↔ IsLine v1 := by unfold IsLine; rw [hb, abs_neg]
  by_cases h : IsLine v1
  · rw [atParam_line h, atParam_line (hl.mpr h), h1, h2]
    have : lerp v2.pos v1.pos t = lerp v1.pos v2.pos (1 - t) := by
      ext <;> simp [lerp] <;> ring
    rw [this]
  · have h' : ¬ IsLine w1 := fun hh => h (hl.mp hh)
    have hs : sweep w1 = -sweep v1 := by unfold sweep; rw [hb, Real.arctan_neg]; ring
    have hc : ∀ c, IsCenter w1 w2 c ↔ IsCenter v1 v2 c := by
      intro c
      unfold IsCenter
      rw [hs, h1, h2]
      constructor
      · intro hh; rw [← hh, rot_add, add_neg_cancel, rot_zero]
      · intro hh; rw [← hh, rot_add, neg_add_cancel, rot_zero]
    unfold AtParam
    simp only [h, h', false_and, not_false_eq_true, true_and, false_or]
    refine exists_congr fun c => ?_
    rw [hc]
    refine and_congr_right fun hcc => ?_
    have hcc' : rot c (sweep v1) v1.pos = v2.pos := hcc
    rw [h1, hs, ← hcc', rot_add, show t * -sweep v1 + sweep v1 = (1 - t) * sweep v1 by ring]

/-- C28. `invertDirection` never faults; the result is a polyline of the same kind and size with the
positions in the opposite order; every segment of the original, traversed backwards, is a segment of
the result, and the other way round, where `i ↦ (2 n - 2 - i) mod n` is the renumbering. -/
theorem C28_invertDirection (p : Polyline) :
    ∃ q, invertDirection p = .ok q ∧ q.isClosed = p.isClosed ∧
      q.vertexes.map Vertex.pos = (p.vertexes.map Vertex.pos).reverse ∧
      (segs q).length = (segs p).length ∧
      (∀ i v1 v2, IsSeg p i v1 v2 → ∃ w1 w2,
        IsSeg q ((2 * p.vertexes.length - 2 - i) % p.vertexes.length) w1 w2 ∧
        w1.pos = v2.pos ∧ w2.pos = v1.pos ∧ w1.bulge = -v1.bulge ∧
        ∀ t x, AtParam w1 w2 t x ↔ AtParam v1 v2 (1 - t) x) := by
  by_cases h : 2 ≤ p.size
  · obtain ⟨q, h1, h2, h3, h4⟩ := invertDirection_spec h
    refine ⟨q, h1, h2, ?_, by rw [segs_length, segs_length, h2, h3], ?_⟩
    · apply List.ext_getElem
      · simp only [List.length_map, List.length_reverse]; exact h3
      · intro j hj1 hj2
        simp only [List.length_map, List.length_reverse] at hj1 hj2
        have := h4 j hj2
        have hlp : p.vertexes.length = p.size := rfl
        unfold vtx at this
        rw [List.getD_eq_getElem _ _ hj1] at this
        simp only [List.getElem_map, List.getElem_reverse, this, List.length_map]
        rw [List.getD_eq_getElem _ _ (by omega)]
        rfl
    · intro i v1 v2 hs
      obtain ⟨hi, rfl, rfl⟩ := isSeg_iff.mp hs
      have hip := lt_size hi
      have hlen : p.vertexes.length = p.size := rfl
      rw [hlen]
      set n := p.size with hn
      have hk : (2 * n - 2 - i) % n = if i + 1 = n then n - 1 else n - 2 - i := by
        split_ifs with h6
        · rw [show 2 * n - 2 - i = n - 1 by omega, Nat.mod_eq_of_lt (by omega)]
        · rw [show 2 * n - 2 - i = (n - 2 - i) + n by omega, Nat.add_mod_right,
            Nat.mod_eq_of_lt (by omega)]
      rw [hk]
      have hlt : (if i + 1 = n then n - 1 else n - 2 - i) < n := by split_ifs <;> omega
      refine ⟨_, _, isSeg_iff.mpr ⟨?_, rfl, rfl⟩, ?_⟩
      · rw [segs_length, h2, h3]
        rw [segs_length] at hi
        split_ifs at hi ⊢ <;> omega
      · have key : ∀ w1 w2 : Vertex, w1.pos = (vtx p (if i + 1 = n then 0 else i + 1)).pos →
            w2.pos = (vtx p i).pos → w1.bulge = -(vtx p i).bulge →
            (w1.pos = (vtx p (if i + 1 = n then 0 else i + 1)).pos ∧
            w2.pos = (vtx p i).pos ∧ w1.bulge = -(vtx p i).bulge ∧ ∀ t x,
              AtParam w1 w2 t x ↔ AtParam (vtx p i) (vtx p (if i + 1 = n then 0 else i + 1)) (1 - t) x) :=
          fun w1 w2 a b c => ⟨a, b, c, fun t x => atParam_reverse a b c t x⟩
        apply key
        · rw [h4 _ hlt]
          simp only
          congr 2
          split_ifs <;> omega
        · rw [h3, h4 _ (next_lt hlt)]
          simp only
          congr 2
          split_ifs <;> omega
        · rw [h4 _ hlt]
          simp only
          congr 3
          split_ifs <;> omega
  · refine ⟨p, ?_, rfl, ?_, rfl, ?_⟩
    · unfold invertDirection; rw [if_pos (by omega)]
    · have : p.vertexes.length < 2 := by unfold Polyline.size at h; omega
      rcases hv : p.vertexes with _ | ⟨a, _ | ⟨b, l⟩⟩
      · rfl
      · rfl
      · rw [hv] at this; simp at this
    · intro i v1 v2 hs
      have hi := (isSeg_iff.mp hs).1
      rw [segs_length, if_pos (by omega)] at hi
      omega

/-- C28: inverting twice gives the polyline back. -/
theorem C28_involution (p : Polyline) : (invertDirection p >>= invertDirection) = .ok p := by
  by_cases h : 2 ≤ p.size
  · obtain ⟨q, h1, h2, h3, h4⟩ := invertDirection_spec h
    obtain ⟨r, g1, g2, g3, g4⟩ := invertDirection_spec (p := q) (by omega)
    rw [h1, ok_bind, g1]
    congr 1
    apply pline_ext (g2.trans h2) (g3.trans h3)
    intro i hi
    have hi' : i < p.size := by omega
    rw [g4 i (by omega), h3, h4 _ (by omega), h4 _ (by split_ifs <;> omega)]
    ext1
    · simp only; congr 2; omega
    · simp only [neg_neg]
      congr 2
      split_ifs <;> omega
  · have : invertDirection p = .ok p := by unfold invertDirection; rw [if_pos (by omega)]
    rw [this, ok_bind, this]

/-- C28: hence the same points are on both polylines. -/
theorem C28_same_points (p q : Polyline) (h : invertDirection p = .ok q) (x : V2) :
    OnPline q x ↔ OnPline p x := by
  have half : ∀ p q : Polyline, invertDirection p = .ok q → OnPline p x → OnPline q x := by
    rintro p q h ⟨i, v1, v2, hs, t, h0, h1, hx⟩
    obtain ⟨q', hq, -, -, -, hseg⟩ := C28_invertDirection p
    rw [h] at hq
    obtain rfl : q = q' := by simpa using hq
    obtain ⟨w1, w2, hw, -, -, -, hp⟩ := hseg i v1 v2 hs
    exact ⟨_, w1, w2, hw, 1 - t, by linarith, by linarith, by rw [hp]; simpa using hx⟩
  refine ⟨half q p ?_, half p q h⟩
  have := C28_involution p
  rwa [h, ok_bind] at this

/-- C28: an open path of a line and an arc, inverted. -/
example : invertDirection ⟨false, [⟨⟨0, 0⟩, 0⟩, ⟨⟨1, 0⟩, 1⟩, ⟨⟨2, 0⟩, 0⟩]⟩ =
    .ok ⟨false, [⟨⟨2, 0⟩, -1⟩, ⟨⟨1, 0⟩, 0⟩, ⟨⟨0, 0⟩, 0⟩]⟩ := by
  simp [invertDirection, Polyline.size, shiftBulges, getM, setM, Polyline.lastVertex, Polyline.setLast]

/-- The renumbering is a bijection, so a sum over segments can be reversed. -/
theorem sum_reverse {R : Type} [AddCommMonoid R] {n m : ℕ} (h : m = n ∨ m = n - 1) (f : ℕ → R) :
    ∑ i ∈ Finset.range m, f (if i + 1 = n then n - 1 else n - 2 - i) = ∑ i ∈ Finset.range m, f i := by
  refine Finset.sum_nbij' (fun i => if i + 1 = n then n - 1 else n - 2 - i)
    (fun i => if i + 1 = n then n - 1 else n - 2 - i) ?_ ?_ ?_ ?_ ?_
  · intro i hi; rw [Finset.mem_range] at hi ⊢; split_ifs <;> omega
  · intro i hi; rw [Finset.mem_range] at hi ⊢; split_ifs <;> omega
  · intro i hi; rw [Finset.mem_range] at hi; split_ifs <;> omega
  · intro i hi; rw [Finset.mem_range] at hi; split_ifs <;> omega
  · intro i _; rfl

/-- A quantity summed over the segments, after inverting. -/
theorem sum_invert {R : Type} [AddCommMonoid R] {p q : Polyline} (h : invertDirection p = .ok q)
    (f g : Vertex → Vertex → R)
    (hfg : ∀ v1 v2 w1 w2 : Vertex, w1.pos = v2.pos → w2.pos = v1.pos → w1.bulge = -v1.bulge →
      f w1 w2 = g v1 v2) :
    ∑ i ∈ Finset.range (segs q).length, f (vtx q i) (vtx q (if i + 1 = q.size then 0 else i + 1)) =
    ∑ i ∈ Finset.range (segs p).length, g (vtx p i) (vtx p (if i + 1 = p.size then 0 else i + 1)) := by
  by_cases h2 : 2 ≤ p.size
  · obtain ⟨q', hq, hc, hs, hv⟩ := invertDirection_spec h2
    rw [h] at hq
    obtain rfl : q = q' := by simpa using hq
    have hlen : (segs q).length = (segs p).length := by rw [segs_length, segs_length, hc, hs]
    rw [hlen, ← sum_reverse (n := p.size) (m := (segs p).length)
      (by rw [segs_length, if_neg (by omega)]; split_ifs <;> simp)
      (fun i => g (vtx p i) (vtx p (if i + 1 = p.size then 0 else i + 1)))]
    apply Finset.sum_congr rfl
    intro i hi
    rw [Finset.mem_range] at hi
    have hi' := lt_size hi
    apply hfg
    · rw [hv i hi']
      simp only
      congr 2
      split_ifs <;> omega
    · rw [hs, hv _ (next_lt hi')]
      simp only
      congr 2
      split_ifs <;> omega
    · rw [hv i hi']
  · have hps : (segs p).length = 0 := by rw [segs_length, if_pos (by omega)]
    have : invertDirection p = .ok p := by unfold invertDirection; rw [if_pos (by omega)]
    rw [this] at h
    obtain rfl : p = q := by simpa using h
    rw [hps]; simp

/-- C22, inversion: the area changes sign. -/
theorem C22_invert (p : Polyline) :
    ∃ q a, invertDirection p = .ok q ∧ getArea p = .ok a ∧ getArea q = .ok (-a) := by
  obtain ⟨q, hq, hc, hpos, -⟩ := C28_invertDirection p
  have hlen : q.vertexes.length = p.vertexes.length := by
    have := congrArg List.length hpos; simpa using this
  by_cases hcl : p.isClosed = true
  · by_cases h : 2 ≤ p.vertexes.length
    · refine ⟨q, _, hq, getArea_eq hcl h, ?_⟩
      rw [getArea_eq (hc.trans hcl) (by omega),
        sum_invert hq areaTerm (fun v1 v2 => -areaTerm v1 v2) ?_, Finset.sum_neg_distrib, neg_div]
      intro v1 v2 w1 w2 h1 h2 hb
      have hl : IsLine w1 ↔ IsLine v1 := by unfold IsLine; rw [hb, abs_neg]
      unfold areaTerm
      rw [h1, h2, hb, dist2_comm v2.pos v1.pos]
      by_cases hll : IsLine v1
      · rw [if_pos hll, if_pos (hl.mpr hll)]; ring
      · rw [if_neg hll, if_neg (fun hh => hll (hl.mp hh)), Real.arctan_neg]
        have := bulge_ne_zero hll
        field_simp
        ring
    · refine ⟨q, 0, hq, ?_, ?_⟩ <;> unfold getArea Polyline.size
      · rw [if_pos (Or.inr (by omega))]
      · rw [if_pos (Or.inr (by omega)), neg_zero]
  · have hcl' : p.isClosed = false := by simpa using hcl
    exact ⟨q, 0, hq, C21_open p hcl', by rw [C21_open q (hc.trans hcl'), neg_zero]⟩

end Cavc

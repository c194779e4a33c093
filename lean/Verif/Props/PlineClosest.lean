import Verif.Props.PlineArea
import Verif.Props.SegClosest
import Verif.Props.Segment

/-! C27 (ClosestPoint). -/
namespace Cavc
open Spec
open scoped Classical

theorem closestPointOnSeg_ok {v1 v2 : Vertex} (hok : SegOk v1 v2) (p : V2) :
    ∃ c, closestPointOnSeg v1 v2 p = .ok c := by
  by_cases hl : IsLine v1
  · unfold closestPointOnSeg
    rw [if_pos (show v1.bulgeIsZero from hl)]
    exact ⟨_, rfl⟩
  · obtain ⟨q, c, h, -⟩ := C14_closestPointOnSeg hok hl p
    exact ⟨q, h⟩

theorem dot_sub_dist2 (p q : V2) : dot (p - q) (p - q) = dist2 p q := by
  rw [dot_sub_self, dist2_comm]

/-- The fold keeps the first minimum. -/
theorem closest_fold (point : V2) (l : List (Vertex × Vertex × ℕ))
    (hl : ∀ x ∈ l, ∃ c, closestPointOnSeg x.1 x.2.1 point = .ok c) (b : ClosestPoint) :
    ∃ r, l.foldlM (fun st (x : Vertex × Vertex × ℕ) => closestVisitor point st x.1 x.2.1 x.2.2)
        (some b) = .ok (some r) ∧ r.distance ≤ b.distance ∧
      (∀ x ∈ l, ∀ c, closestPointOnSeg x.1 x.2.1 point = .ok c → r.distance ≤ dist2 point c) ∧
      (r = b ∨ (∃ (k : ℕ) (x : Vertex × Vertex × ℕ), l[k]? = some x ∧
        closestPointOnSeg x.1 x.2.1 point = .ok r.point ∧
        r.index = x.2.2 ∧ r.distance = dist2 point r.point ∧ r.distance < b.distance ∧
        ∀ j < k, ∀ y : Vertex × Vertex × ℕ, l[j]? = some y →
          ∀ c, closestPointOnSeg y.1 y.2.1 point = .ok c → r.distance < dist2 point c)) := by
  induction l generalizing b with
  | nil => exact ⟨b, rfl, le_refl _, by simp, Or.inl rfl⟩
  | cons a l ih =>
    obtain ⟨c, hc⟩ := hl a (by simp)
    have hv : closestVisitor point (some b) a.1 a.2.1 a.2.2 =
        .ok (if dist2 point c < b.distance then some ⟨a.2.2, c, dist2 point c⟩ else some b) := by
      unfold closestVisitor
      rw [hc, ok_bind]
      simp only [pure_eq_ok, dot_sub_dist2]
    rw [List.foldlM_cons, hv, ok_bind]
    by_cases h : dist2 point c < b.distance
    · rw [if_pos h]
      obtain ⟨r, h1, h2, h3, h4⟩ := ih (fun x hx => hl x (by simp [hx])) ⟨a.2.2, c, dist2 point c⟩
      refine ⟨r, h1, h2.trans h.le, ?_, Or.inr ?_⟩
      · intro x hx c' hc'
        rcases List.mem_cons.mp hx with rfl | hx
        · rw [hc] at hc'
          obtain rfl : c = c' := by simpa using hc'
          exact h2
        · exact h3 x hx c' hc'
      · rcases h4 with rfl | ⟨k, x, g1, g2, g3, g4, g5, g6⟩
        · exact ⟨0, a, rfl, hc, rfl, rfl, h, fun j hj => absurd hj (by omega)⟩
        · refine ⟨k + 1, x, g1, g2, g3, g4, g5.trans h, ?_⟩
          intro j hj y hy c' hc'
          rcases j with _ | j
          · simp only [List.getElem?_cons_zero, Option.some.injEq] at hy
            subst hy
            rw [hc] at hc'
            obtain rfl : c = c' := by simpa using hc'
            exact g5
          · exact g6 j (by omega) y (by simpa using hy) c' hc'
    · rw [if_neg h]
      obtain ⟨r, h1, h2, h3, h4⟩ := ih (fun x hx => hl x (by simp [hx])) b
      refine ⟨r, h1, h2, ?_, ?_⟩
      · intro x hx c' hc'
        rcases List.mem_cons.mp hx with rfl | hx
        · rw [hc] at hc'
          obtain rfl : c = c' := by simpa using hc'
          exact h2.trans (not_lt.mp h)
        · exact h3 x hx c' hc'
      · rcases h4 with rfl | ⟨k, x, g1, g2, g3, g4, g5, g6⟩
        · exact Or.inl rfl
        · refine Or.inr ⟨k + 1, x, g1, g2, g3, g4, g5, ?_⟩
          intro j hj y hy c' hc'
          rcases j with _ | j
          · simp only [List.getElem?_cons_zero, Option.some.injEq] at hy
            subst hy
            rw [hc] at hc'
            obtain rfl : c = c' := by simpa using hc'
            exact g5.trans_le (not_lt.mp h)
          · exact g6 j (by omega) y (by simpa using hy) c' hc'

/-- Where a segment comes in the order of the visits. -/
theorem visitList_getElem {p : Polyline} (h : 2 ≤ p.size) {k : ℕ} {v1 v2 : Vertex} {i : ℕ}
    (hk : (visitList p)[k]? = some (v1, v2, i)) :
    i < p.size ∧ (i + 1) % p.size = if p.isClosed = true then k else k + 1 := by
  unfold visitList visitOrder at hk
  rw [if_neg (by omega), List.getElem?_map] at hk
  have key : ∀ (m : ℕ) (z : ℕ × ℕ),
      ((List.range (p.size - 1)).map fun i => (i, i + 1))[m]? = some z →
        m < p.size - 1 ∧ z = (m, m + 1) := by
    intro m z hz
    rw [List.getElem?_map] at hz
    by_cases hm : m < p.size - 1
    · rw [List.getElem?_range hm] at hz
      simp at hz
      exact ⟨hm, hz.symm⟩
    · rw [List.getElem?_eq_none (by simpa using hm)] at hz
      simp at hz
  cases hc : p.isClosed
  · rw [hc] at hk
    simp only [Bool.false_eq_true, if_false, List.nil_append, Option.map_eq_some_iff] at hk ⊢
    obtain ⟨z, hz, he⟩ := hk
    obtain ⟨hm, rfl⟩ := key k z hz
    simp only [Prod.mk.injEq] at he
    obtain ⟨-, -, rfl⟩ := he
    exact ⟨by omega, Nat.mod_eq_of_lt (by omega)⟩
  · rw [hc] at hk
    simp only [if_true, Option.map_eq_some_iff] at hk ⊢
    obtain ⟨z, hz, he⟩ := hk
    rcases k with _ | k
    · simp at hz
      subst hz
      simp only [Prod.mk.injEq] at he
      obtain ⟨-, -, rfl⟩ := he
      refine ⟨by omega, ?_⟩
      rw [show p.size - 1 + 1 = p.size by omega, Nat.mod_self]
    · rw [List.singleton_append, List.getElem?_cons_succ] at hz
      obtain ⟨hm, rfl⟩ := key k z hz
      simp only [Prod.mk.injEq] at he
      obtain ⟨-, -, rfl⟩ := he
      exact ⟨by omega, Nat.mod_eq_of_lt (by omega)⟩

theorem closestPoint_spec (p : Polyline) (hok : PlineOk p) (h2 : 2 ≤ p.size) (pt : V2) :
    ∃ r i v1 v2, closestPoint p pt = .ok r ∧ IsSeg p i v1 v2 ∧
      closestPointOnSeg v1 v2 pt = .ok r.point ∧ r.distance = distance pt r.point ∧
      (∀ j w1 w2 c, IsSeg p j w1 w2 → closestPointOnSeg w1 w2 pt = .ok c →
        r.distance ≤ distance pt c ∧ ((j + 1) % p.size < (i + 1) % p.size →
          r.distance < distance pt c)) ∧
      (r.index < (segs p).length) ∧
      (r.index = i ∨ (r.index = (i + 1) % p.size ∧ fuzzyEqualV r.point v2.pos)) := by
  have hlen : 0 < (visitList p).length := by
    unfold visitList visitOrder
    rw [if_neg (by omega)]
    simp; omega
  obtain ⟨a, l, hal⟩ : ∃ a l, visitList p = a :: l := by
    rcases hv : visitList p with _ | ⟨a, l⟩
    · rw [hv] at hlen; simp at hlen
    · exact ⟨a, l, rfl⟩
  have hall : ∀ x ∈ visitList p, ∃ c, closestPointOnSeg x.1 x.2.1 pt = .ok c := by
    rintro ⟨v1, v2, i⟩ hx
    exact closestPointOnSeg_ok (hok i v1 v2 (mem_visitList.mp hx)) pt
  -- the fold
  obtain ⟨b, hb, k, x, hx, e1, e2, e3, hmin, hfirst⟩ :
      ∃ b : ClosestPoint, p.visitSegIndices (allSegs p (closestVisitor pt)) none = .ok (some b) ∧
        ∃ (k : ℕ) (x : Vertex × Vertex × ℕ), (visitList p)[k]? = some x ∧
          closestPointOnSeg x.1 x.2.1 pt = .ok b.point ∧ b.index = x.2.2 ∧
          b.distance = dist2 pt b.point ∧
          (∀ y ∈ visitList p, ∀ c, closestPointOnSeg y.1 y.2.1 pt = .ok c →
            b.distance ≤ dist2 pt c) ∧
          (∀ j < k, ∀ y : Vertex × Vertex × ℕ, (visitList p)[j]? = some y →
            ∀ c, closestPointOnSeg y.1 y.2.1 pt = .ok c → b.distance < dist2 pt c) := by
    rw [visitAll_eq, hal, List.foldlM_cons]
    rw [hal] at hall
    obtain ⟨c, hc⟩ := hall a (by simp)
    have hv : closestVisitor pt none a.1 a.2.1 a.2.2 = .ok (some ⟨a.2.2, c, dist2 pt c⟩) := by
      unfold closestVisitor
      rw [hc, ok_bind]
      simp only [pure_eq_ok, dot_sub_dist2]
    rw [hv, ok_bind]
    obtain ⟨r, h1, g2, g3, g4⟩ := closest_fold pt l (fun x hx => hall x (by simp [hx]))
      ⟨a.2.2, c, dist2 pt c⟩
    refine ⟨r, h1, ?_⟩
    have hm : ∀ y ∈ a :: l, ∀ c, closestPointOnSeg y.1 y.2.1 pt = .ok c →
        r.distance ≤ dist2 pt c := by
      intro y hy c' hc'
      rcases List.mem_cons.mp hy with rfl | hy
      · rw [hc] at hc'
        obtain rfl : c = c' := by simpa using hc'
        exact g2
      · exact g3 y hy c' hc'
    rcases g4 with rfl | ⟨k, x, k1, k2, k3, k4, k5, k6⟩
    · exact ⟨0, a, rfl, hc, rfl, rfl, hm, fun j hj => absurd hj (by omega)⟩
    · refine ⟨k + 1, x, k1, k2, k3, k4, hm, ?_⟩
      intro j hj y hy c' hc'
      rcases j with _ | j
      · simp only [List.getElem?_cons_zero, Option.some.injEq] at hy
        subst hy
        rw [hc] at hc'
        obtain rfl : c = c' := by simpa using hc'
        exact k5
      · exact k6 j (by omega) y (by simpa using hy) c' hc'
  obtain ⟨v1, v2, i⟩ := x
  simp only at e1 e2
  have hseg : IsSeg p i v1 v2 := mem_visitList.mp (List.mem_of_getElem? hx)
  have hik := visitList_getElem h2 hx
  obtain ⟨hi, hv1, hv2⟩ := isSeg_iff.mp hseg
  have hnext : nextWrappingIndex i p.size = (i + 1) % p.size := by
    unfold nextWrappingIndex
    split_ifs with h
    · rw [show i + 1 = p.size by omega, Nat.mod_self]
    · rw [Nat.mod_eq_of_lt (by omega)]
  have hnlt : (i + 1) % p.size < p.size := Nat.mod_lt _ (by omega)
  have hv2' : vtx p ((i + 1) % p.size) = v2 := by
    rw [hv2]
    congr 1
    split_ifs with h
    · rw [h, Nat.mod_self]
    · rw [Nat.mod_eq_of_lt (by omega)]
  have hd0 : 0 ≤ b.distance := by rw [e3]; exact dist2_nonneg _ _
  have hdist : Real.sqrt b.distance = distance pt b.point := by rw [e3]; rfl
  have hminor : ∀ j w1 w2 c, IsSeg p j w1 w2 → closestPointOnSeg w1 w2 pt = .ok c →
        Real.sqrt b.distance ≤ distance pt c ∧ ((j + 1) % p.size < (i + 1) % p.size →
          Real.sqrt b.distance < distance pt c) := by
    intro j w1 w2 c hs hc
    have hmem := mem_visitList.mpr hs
    refine ⟨Real.sqrt_le_sqrt (hmin _ hmem c hc), fun hj => ?_⟩
    obtain ⟨m, hm⟩ := List.getElem?_of_mem hmem
    have hjm := visitList_getElem h2 hm
    have : m < k := by
      have a1 := hjm.2
      have a2 := hik.2
      split_ifs at a1 a2 <;> omega
    exact Real.sqrt_lt_sqrt hd0 (hfirst m this _ hm c hc)
  unfold closestPoint
  rw [assertP_pos (by omega), ok_bind, if_neg (by omega), hb, ok_bind]
  simp only [e2, hnext]
  rw [at_eq hnlt, ok_bind, hv2']
  by_cases hf : fuzzyEqualV b.point v2.pos
  · simp only [if_pos hf]
    refine ⟨_, i, v1, v2, rfl, hseg, e1, hdist, hminor, ?_, ?_⟩
    · simp only
      rw [segs_length, if_neg (show ¬ p.size < 2 by omega)]
      rw [segs_length, if_neg (show ¬ p.size < 2 by omega)] at hi
      by_cases hc : p.isClosed = true
      · rw [if_pos hc, if_neg (by simp [hc])]
        exact hnlt
      · rw [if_neg hc] at hi ⊢
        have : (i + 1) % p.size = i + 1 := Nat.mod_eq_of_lt (by omega)
        rw [this]
        split_ifs with hh
        · omega
        · have : i + 1 ≠ p.size - 1 := fun h => hh ⟨hc, by omega, h⟩
          omega
    · simp only
      rw [segs_length, if_neg (show ¬ p.size < 2 by omega)] at hi
      by_cases hc : p.isClosed = true
      · rw [if_neg (by simp [hc])]
        exact Or.inr ⟨rfl, hf⟩
      · rw [if_neg hc] at hi
        have : (i + 1) % p.size = i + 1 := Nat.mod_eq_of_lt (by omega)
        rw [this]
        split_ifs with hh
        · left; omega
        · right; exact ⟨rfl, hf⟩
  · simp only [if_neg hf]
    refine ⟨_, i, v1, v2, rfl, hseg, e1, hdist, hminor, ?_, ?_⟩
    · simp only
      split_ifs with hh
      · omega
      · exact hi
    · left
      simp only
      rw [if_neg]
      rintro ⟨hc, -, hh⟩
      rw [segs_length, if_neg (show ¬ p.size < 2 by omega), if_neg hc] at hi
      omega

/-- C27. For a polyline of at least two vertexes, `ClosestPoint` does not fault. Its point is the
closest point the library computes for some segment `i`, its distance is the distance to that point,
it is minimal over all segments (and `i` is the first segment in the order of the visits that attains
it), and the index is that of a segment: `i`, or the one after it if the point is within 1e-8 of the
common vertex. No point of the polyline is closer, up to the tolerances of C13 and C14; for straight
segments the point is on the segment. -/
theorem C27_closestPoint (p : Polyline) (hok : PlineOk p) (h2 : 2 ≤ p.vertexes.length) (pt : V2) :
    ∃ r i v1 v2, closestPoint p pt = .ok r ∧ IsSeg p i v1 v2 ∧
      closestPointOnSeg v1 v2 pt = .ok r.point ∧ r.distance = distance pt r.point ∧
      (∀ j w1 w2 c, IsSeg p j w1 w2 → closestPointOnSeg w1 w2 pt = .ok c →
        r.distance ≤ distance pt c ∧
        ((j + 1) % p.vertexes.length < (i + 1) % p.vertexes.length → r.distance < distance pt c)) ∧
      (∃ w1 w2, IsSeg p r.index w1 w2) ∧
      (r.index = i ∨ (r.index = (i + 1) % p.vertexes.length ∧
        |r.point.x - v2.pos.x| < 1 / 10 ^ 8 ∧ |r.point.y - v2.pos.y| < 1 / 10 ^ 8)) ∧
      (∀ q, OnPline p q → r.distance ≤ distance pt q + 3 / 10 ^ 8 ∨
        r.distance ^ 2 ≤ distance pt q ^ 2 + 2 / 10 ^ 8) ∧
      (IsLine v1 → OnSeg v1 v2 r.point) := by
  obtain ⟨r, i, v1, v2, g1, g2, g3, g4, g5, g6, g7⟩ := closestPoint_spec p hok h2 pt
  refine ⟨r, i, v1, v2, g1, g2, g3, g4, g5, ⟨_, _, isSeg_iff.mpr ⟨g6, rfl, rfl⟩⟩, g7, ?_, ?_⟩
  · rintro q ⟨j, w1, w2, hs, hq⟩
    by_cases hl : IsLine w1
    · right
      have hc : closestPointOnSeg w1 w2 pt = .ok (closestPointOnLineSeg w1.pos w2.pos pt) := by
        unfold closestPointOnSeg
        rw [if_pos (show w1.bulgeIsZero from hl)]
      have h1 := (g5 j w1 w2 _ hs hc).1
      have h0 : 0 ≤ r.distance := by rw [g4]; exact distance_nonneg _ _
      obtain ⟨t, t0, t1, hq⟩ := hq
      rw [atParam_line hl] at hq
      have h3 := (C13_closestPointOnLineSeg w1.pos w2.pos pt).2.1 t t0 t1
      rw [← hq, ← distance_sq, ← distance_sq] at h3
      have : r.distance ^ 2 ≤ distance pt (closestPointOnLineSeg w1.pos w2.pos pt) ^ 2 :=
        pow_le_pow_left₀ h0 h1 2
      linarith
    · left
      obtain ⟨c, ctr, h1, -, -, h3, -⟩ := C14_closestPointOnSeg (hok j w1 w2 hs) hl pt
      exact ((g5 j w1 w2 c hs h1).1).trans (h3 q hq)
  · intro hl
    unfold closestPointOnSeg at g3
    rw [if_pos (show v1.bulgeIsZero from hl)] at g3
    have : r.point = closestPointOnLineSeg v1.pos v2.pos pt := by simpa using g3.symm
    obtain ⟨t, t0, t1, ht⟩ := (C13_closestPointOnLineSeg v1.pos v2.pos pt).1
    exact ⟨t, t0, t1, by rw [atParam_line hl, this, ht]⟩

/-- C27: one vertex, and the empty polyline. -/
theorem C27_small (closed : Bool) (v : Vertex) (pt : V2) :
    closestPoint ⟨closed, [v]⟩ pt = .ok ⟨0, v.pos, distance pt v.pos⟩ ∧
    closestPoint ⟨closed, []⟩ pt = .error .assertFailed := by
  constructor
  · unfold closestPoint
    rw [assertP_pos (by simp [Polyline.size]), ok_bind, if_pos (by simp [Polyline.size])]
    simp [Polyline.at, getM, V2.length, dot_sub_dist2, distance]
  · unfold closestPoint
    rw [assertP_neg (by simp [Polyline.size])]
    rfl

/-- C27: for an open right angle the hypotheses hold; (3, 1) is closest to (2, 1). -/
example : ∃ r, closestPoint ⟨false, [⟨⟨0, 0⟩, 0⟩, ⟨⟨2, 0⟩, 0⟩, ⟨⟨2, 2⟩, 0⟩]⟩ ⟨3, 1⟩ = .ok r ∧
    r.distance ^ 2 ≤ 1 + 1 / 10 ^ 6 := by
  have hs : ∀ i v1 v2, IsSeg ⟨false, [⟨⟨0, 0⟩, 0⟩, ⟨⟨2, 0⟩, 0⟩, ⟨⟨2, 2⟩, 0⟩]⟩ i v1 v2 →
      v1.bulge = 0 := by
    intro i v1 v2 hs
    unfold IsSeg segs at hs
    rcases i with _ | _ | i
    · simp at hs; rw [← hs.1]
    · simp at hs; rw [← hs.1]
    · simp at hs
  obtain ⟨r, i, v1, v2, h1, -, -, h4, -, -, -, h3, -⟩ := C27_closestPoint
    ⟨false, [⟨⟨0, 0⟩, 0⟩, ⟨⟨2, 0⟩, 0⟩, ⟨⟨2, 2⟩, 0⟩]⟩ (by
      intro i v1 v2 h
      have := hs i v1 v2 h
      exact ⟨by rw [this]; norm_num, fun hl => absurd (by simp [IsLine, this]) hl⟩)
    (by simp) ⟨3, 1⟩
  have hr0 : 0 ≤ r.distance := by rw [h4]; exact distance_nonneg _ _
  refine ⟨r, h1, ?_⟩
  have hd : distance (⟨3, 1⟩ : V2) ⟨2, 1⟩ = 1 := by norm_num [distance, dist2]
  have hon : OnPline ⟨false, [⟨⟨0, 0⟩, 0⟩, ⟨⟨2, 0⟩, 0⟩, ⟨⟨2, 2⟩, 0⟩]⟩ ⟨2, 1⟩ := by
    refine ⟨1, ⟨⟨2, 0⟩, 0⟩, ⟨⟨2, 2⟩, 0⟩, by simp [IsSeg, segs], 1 / 2, by norm_num, by norm_num, ?_⟩
    rw [atParam_line (by norm_num [IsLine])]
    norm_num [lerp]
  rcases h3 _ hon with h | h
  · rw [hd] at h
    norm_num at h ⊢
    nlinarith
  · rw [hd] at h
    norm_num at h ⊢
    linarith

end Cavc

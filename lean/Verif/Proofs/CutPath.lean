import Verif.Proofs.SubSeg
import Verif.Proofs.PolyPieces
import Verif.Spec.OffsetExact
import Mathlib.Topology.Order.IntermediateValue

/-! A closed polyline as a path, and the parts of it between cuts. -/
namespace Cavc
open Spec
open scoped Classical
noncomputable section

/-- The vertexes of a closed polyline, over and over. -/
def rv (p : Polyline) (k : ℕ) : Vertex := vtx p (k % p.size)

theorem rv_per (p : Polyline) (k : ℕ) : rv p (k + p.size) = rv p k := by
  unfold rv; rw [Nat.add_mod_right]

theorem rv_lt {p : Polyline} {k : ℕ} (h : k < p.size) : rv p k = vtx p k := by
  unfold rv; rw [Nat.mod_eq_of_lt h]

theorem rv_mod (p : Polyline) (k : ℕ) : rv p (k % p.size) = rv p k := by
  unfold rv; rw [Nat.mod_mod]

theorem rv_mod_succ (p : Polyline) (k : ℕ) : rv p (k % p.size + 1) = rv p (k + 1) := by
  unfold rv; rw [Nat.mod_add_mod]

theorem rv_seg {p : Polyline} (hc : p.isClosed = true) (h2 : 2 ≤ p.size) (k : ℕ) :
    IsSeg p (k % p.size) (rv p k) (rv p (k + 1)) := by
  have := closed_isSeg hc h2 (k := k % p.size) (Nat.mod_lt _ (by omega))
  rw [Nat.mod_add_mod] at this
  exact this

theorem seg_rv {p : Polyline} {k : ℕ} {v e : Vertex} (hc : p.isClosed = true) (h : IsSeg p k v e) :
    k < p.size ∧ 2 ≤ p.size ∧ v = rv p k ∧ e = rv p (k + 1) := by
  obtain ⟨h1, h2, h3, h4, -, -⟩ := ppos_seg hc h
  exact ⟨h1, h2, by rw [rv_lt h1]; exact h3, h4⟩

/-- The point of the closed polyline at a parameter: segment number `k` goes from `k` to `k + 1`. -/
def trace (p : Polyline) (g : ℝ) : V2 := segPt (rv p ⌊g⌋₊) (rv p (⌊g⌋₊ + 1)) (g - ⌊g⌋₊)

theorem trace_on {p : Polyline} {k : ℕ} {g : ℝ} (h0 : (k : ℝ) ≤ g) (h1 : g ≤ k + 1) :
    trace p g = segPt (rv p k) (rv p (k + 1)) (g - k) := by
  unfold trace
  rcases h1.lt_or_eq with h | h
  · have : ⌊g⌋₊ = k := by
      rw [Nat.floor_eq_iff ((Nat.cast_nonneg k).trans h0)]
      exact ⟨h0, h⟩
    rw [this]
  · have : ⌊g⌋₊ = k + 1 := by
      rw [h, show ((k : ℝ) + 1) = ((k + 1 : ℕ) : ℝ) by push_cast; ring, Nat.floor_natCast]
    rw [this, h]
    push_cast
    rw [sub_self, add_sub_cancel_left, segPt_zero, segPt_one]

theorem trace_per (p : Polyline) {g : ℝ} (h : 0 ≤ g) : trace p (g + p.size) = trace p g := by
  unfold trace
  rw [Nat.floor_add_natCast h, rv_per, show ⌊g⌋₊ + p.size + 1 = ⌊g⌋₊ + 1 + p.size by omega, rv_per]
  congr 1
  push_cast
  ring

theorem trace_cont (p : Polyline) : ∀ N : ℕ, ContinuousOn (fun g => xy (trace p g)) (Set.Icc 0 N)
  | 0 => by
    rw [Nat.cast_zero, Set.Icc_self]
    exact continuousOn_singleton _ _
  | N + 1 => by
    have h1 := trace_cont p N
    have h2 : ContinuousOn (fun g => xy (trace p g)) (Set.Icc (N : ℝ) (N + 1)) := by
      have : ContinuousOn (fun g : ℝ => xy (segPt (rv p N) (rv p (N + 1)) (g - N))) (Set.Icc (N : ℝ) (N + 1)) :=
        ((continuous_segPt _ _).comp (continuous_id.sub continuous_const)).continuousOn
      refine this.congr fun g hg => ?_
      simp only
      rw [trace_on hg.1 hg.2]
    have := h1.union_of_isClosed h2 isClosed_Icc isClosed_Icc
    rw [Set.Icc_union_Icc_eq_Icc (Nat.cast_nonneg N) (by linarith)] at this
    push_cast
    exact this

theorem trace_conn (p : Polyline) {a b : ℝ} (ha : 0 ≤ a) :
    IsPreconnected (xy '' (trace p '' Set.Ioo a b)) := by
  obtain ⟨N, hN⟩ := exists_nat_ge b
  rw [Set.image_image]
  exact isPreconnected_Ioo.image _ ((trace_cont p N).mono fun g hg => ⟨ha.trans hg.1.le, hg.2.le.trans hN⟩)

theorem onPline_trace {p : Polyline} (hc : p.isClosed = true) (h2 : 2 ≤ p.size) {x : V2} :
    OnPline p x ↔ ∃ g : ℝ, 0 ≤ g ∧ g < p.size ∧ x = trace p g := by
  constructor
  · rintro ⟨k, v, e, hs, ho⟩
    obtain ⟨h1, -, rfl, rfl⟩ := seg_rv hc hs
    obtain ⟨t, t0, t1, rfl⟩ := onSeg_segPt.1 ho
    have hk : (k : ℝ) + 1 ≤ p.size := by exact_mod_cast h1
    by_cases ht : k + t < (p.size : ℝ)
    · refine ⟨k + t, by positivity, ht, ?_⟩
      rw [trace_on (k := k) (by linarith) (by linarith)]
      congr 1
      ring
    · have hn : (0 : ℝ) < p.size := by exact_mod_cast (show 0 < p.size by omega)
      refine ⟨0, le_refl _, hn, ?_⟩
      have e1 : (k : ℝ) + t = p.size := by linarith
      have := trace_per p (le_refl (0 : ℝ))
      rw [zero_add, ← e1, trace_on (k := k) (by linarith) (by linarith), add_sub_cancel_left] at this
      exact this
  · rintro ⟨g, g0, g1, rfl⟩
    have hf := Nat.floor_le g0
    have hf' := (Nat.lt_floor_add_one g).le
    refine ⟨_, _, _, rv_seg hc h2 ⌊g⌋₊, onSeg_segPt.2 ⟨g - ⌊g⌋₊, by linarith, by linarith, rfl⟩⟩

theorem trace_onPline {p : Polyline} (hc : p.isClosed = true) (h2 : 2 ≤ p.size) {g : ℝ} (g0 : 0 ≤ g) :
    OnPline p (trace p g) := by
  have hf := Nat.floor_le g0
  have hf' := (Nat.lt_floor_add_one g).le
  exact ⟨_, _, _, rv_seg hc h2 ⌊g⌋₊, onSeg_segPt.2 ⟨g - ⌊g⌋₊, by linarith, by linarith, rfl⟩⟩

/-! ### Vertexes along a part of the path -/

/-- The vertexes follow the path from `a` to `b`. -/
def Along (p : Polyline) : ℝ → List Vertex → ℝ → Prop
  | _, [], _ => False
  | a, [u], b => a = b ∧ u.pos = trace p a
  | a, u :: w :: l, b => ∃ (k : ℕ) (s t : ℝ), a = k + s ∧ 0 ≤ s ∧ t ≤ 1 ∧ Sub u w (rv p k) (rv p (k + 1)) s t ∧
      Along p (k + t) (w :: l) b

theorem Along.le {p : Polyline} : ∀ {vs : List Vertex} {a b : ℝ}, Along p a vs b → a ≤ b
  | [], _, _, h => h.elim
  | [_], _, _, h => h.1.le
  | _ :: _ :: _, _, _, h => by
    obtain ⟨k, s, t, rfl, -, -, h1, h2⟩ := h
    have := h2.le
    linarith [h1.lt]

theorem Along.head {p : Polyline} : ∀ {vs : List Vertex} {a b : ℝ}, Along p a vs b →
    ∃ u, vs.head? = some u ∧ u.pos = trace p a
  | [], _, _, h => h.elim
  | [u], _, _, h => ⟨u, rfl, h.2⟩
  | u :: _ :: _, _, _, h => by
    obtain ⟨k, s, t, rfl, h0, ht, h1, -⟩ := h
    refine ⟨u, rfl, ?_⟩
    have := h1.lt
    rw [h1.start, trace_on (k := k) (by linarith) (by linarith), add_sub_cancel_left]

theorem Along.last {p : Polyline} : ∀ {vs : List Vertex} {a b : ℝ}, Along p a vs b →
    ∃ u, vs.getLast? = some u ∧ u.pos = trace p b
  | [], _, _, h => h.elim
  | [u], _, _, h => ⟨u, rfl, by rw [← h.1]; exact h.2⟩
  | u :: w :: l, _, _, h => by
    obtain ⟨k, s, t, -, -, -, -, h2⟩ := h
    obtain ⟨z, hz, e⟩ := h2.last
    exact ⟨z, by rw [List.getLast?_cons_cons]; exact hz, e⟩

/-- The segments of an open polyline with a vertex put in front. -/
theorem onPline_cons {u w : Vertex} {l : List Vertex} {x : V2} :
    OnPline ⟨false, u :: w :: l⟩ x ↔ OnSeg u w x ∨ OnPline ⟨false, w :: l⟩ x := by
  have hs : segs ⟨false, u :: w :: l⟩ = (u, w) :: segs ⟨false, w :: l⟩ := by
    unfold segs
    cases l with
    | nil => simp
    | cons z l => simp
  unfold OnPline IsSeg
  rw [hs]
  constructor
  · rintro ⟨i, v1, v2, h, ho⟩
    cases i with
    | zero =>
      rw [List.getElem?_cons_zero] at h
      cases h
      exact Or.inl ho
    | succ i =>
      rw [List.getElem?_cons_succ] at h
      exact Or.inr ⟨i, v1, v2, h, ho⟩
  · rintro (h | ⟨i, v1, v2, h, ho⟩)
    · exact ⟨0, u, w, rfl, h⟩
    · exact ⟨i + 1, v1, v2, by rw [List.getElem?_cons_succ]; exact h, ho⟩

theorem onPline_single {u : Vertex} {x : V2} : ¬ OnPline ⟨false, [u]⟩ x := by
  rintro ⟨i, v1, v2, h, -⟩
  simp [IsSeg, segs] at h

theorem Along.onPline {p : Polyline} : ∀ {vs : List Vertex} {a b : ℝ}, Along p a vs b → 2 ≤ vs.length → ∀ x,
    (OnPline ⟨false, vs⟩ x ↔ ∃ g, a ≤ g ∧ g ≤ b ∧ x = trace p g)
  | [], _, _, h, _, _ => h.elim
  | [_], _, _, _, h, _ => by simp at h
  | u :: w :: l, _, b, h, _, x => by
    obtain ⟨k, s, t, rfl, h0, ht, h1, h2⟩ := h
    have hst := h1.lt
    have hle := h2.le
    rw [onPline_cons, h1.onSeg]
    have key : (∃ g, s ≤ g ∧ g ≤ t ∧ x = segPt (rv p k) (rv p (k + 1)) g) ↔
        ∃ g, (k : ℝ) + s ≤ g ∧ g ≤ k + t ∧ x = trace p g := by
      constructor
      · rintro ⟨g, g0, g1, rfl⟩
        refine ⟨k + g, by linarith, by linarith, ?_⟩
        rw [trace_on (k := k) (by linarith) (by linarith), add_sub_cancel_left]
      · rintro ⟨g, g0, g1, rfl⟩
        refine ⟨g - k, by linarith, by linarith, ?_⟩
        rw [trace_on (k := k) (by linarith) (by linarith)]
    rw [key]
    cases l with
    | nil =>
      obtain ⟨rfl, hw⟩ := h2
      constructor
      · rintro (h | h)
        · exact h
        · exact absurd h onPline_single
      · exact Or.inl
    | cons z l =>
      rw [h2.onPline (by simp)]
      constructor
      · rintro (⟨g, g0, g1, e⟩ | ⟨g, g0, g1, e⟩)
        · exact ⟨g, g0, by linarith, e⟩
        · exact ⟨g, by linarith, g1, e⟩
      · rintro ⟨g, g0, g1, e⟩
        rcases le_total g (k + t) with h | h
        · exact Or.inl ⟨g, g0, h, e⟩
        · exact Or.inr ⟨g, h, g1, e⟩

/-- Every vertex is on the path. -/
theorem Along.mem {p : Polyline} : ∀ {vs : List Vertex} {a b : ℝ}, Along p a vs b → ∀ v ∈ vs,
    ∃ g, a ≤ g ∧ g ≤ b ∧ v.pos = trace p g
  | [], _, _, h, _, _ => h.elim
  | [u], _, _, h, v, hv => by
    simp only [List.mem_cons, List.not_mem_nil, or_false] at hv
    subst hv
    exact ⟨_, le_refl _, h.1.le, h.2⟩
  | u :: w :: l, a, b, h, v, hv => by
    rcases List.mem_cons.1 hv with rfl | hv
    · obtain ⟨z, hz, e⟩ := h.head
      cases hz
      exact ⟨a, le_refl _, h.le, e⟩
    · obtain ⟨k, s, t, rfl, h0, ht, h1, h2⟩ := h
      obtain ⟨g, g0, g1, e⟩ := h2.mem v hv
      exact ⟨g, by linarith [h1.lt], g1, e⟩

end
end Cavc

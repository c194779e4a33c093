import Verif.Props.PlineIndex
import Verif.Props.PlineArea

/-! C32: polylines with an area can be indexed. -/
namespace Cavc
open Spec
open scoped Classical
noncomputable section

/-- The middle of an arc. -/
theorem arc_middle {v1 v2 : Vertex} (hl : ¬ IsLine v1) : OnSeg v1 v2
    ⟨(v1.pos.x + v2.pos.x) / 2 + v1.bulge / 2 * (v2.pos.y - v1.pos.y),
     (v1.pos.y + v2.pos.y) / 2 - v1.bulge / 2 * (v2.pos.x - v1.pos.x)⟩ := by
  have hb : v1.bulge ≠ 0 := by
    rintro h
    apply hl
    unfold IsLine
    rw [h]
    norm_num
  have h : (0 : ℝ) < 1 + v1.bulge ^ 2 := by positivity
  rw [onSeg_arc hl]
  refine ⟨1 / 2, by norm_num, by norm_num, ?_⟩
  rw [sweep, show 1 / 2 * (4 * Real.arctan v1.bulge) = 2 * Real.arctan v1.bulge by ring]
  ext
  · simp only [rot, centerOf, cos_two_arctan, sin_two_arctan]
    field_simp
    ring
  · simp only [rot, centerOf, cos_two_arctan, sin_two_arctan]
    field_simp
    ring

theorem sum_around (f : ℕ → ℝ) (n : ℕ) (h : 1 ≤ n) :
    ∑ i ∈ Finset.range n, (f (if i + 1 = n then 0 else i + 1) - f i) = 0 := by
  obtain ⟨m, rfl⟩ : ∃ m, n = m + 1 := ⟨n - 1, by omega⟩
  rw [Finset.sum_range_succ]
  have : ∀ i ∈ Finset.range m, f (if i + 1 = m + 1 then 0 else i + 1) - f i = f (i + 1) - f i := by
    intro i hi
    rw [Finset.mem_range] at hi
    rw [if_neg (by omega)]
  rw [Finset.sum_congr rfl this, Finset.sum_range_sub, if_pos rfl]
  ring

theorem area_closed {p : Polyline} {a : ℝ} (ha : getArea p = .ok a) (h0 : a ≠ 0) :
    p.isClosed = true ∧ 2 ≤ p.vertexes.length := by
  by_contra h
  unfold getArea at ha
  rw [if_pos (by
    have : p.size = p.vertexes.length := rfl
    cases hc : p.isClosed
    · simp
    · rw [hc] at h
      simp at h ⊢
      omega)] at ha
  exact h0 (Except.ok.inj ha).symm

theorem closed_segs {p : Polyline} (hc : p.isClosed = true) (h2 : 2 ≤ p.vertexes.length) {i : ℕ}
    (hi : i < p.size) : IsSeg p i (vtx p i) (vtx p (if i + 1 = p.size then 0 else i + 1)) := by
  rw [isSeg_iff, segs_length, if_neg (show ¬ p.size < 2 by unfold Polyline.size; omega), if_pos hc]
  exact ⟨hi, rfl, rfl⟩

/-- A closed polyline with an area is on no vertical line. -/
theorem area_wide {p : Polyline} {a : ℝ} (ha : getArea p = .ok a) (h0 : a ≠ 0) :
    ∃ x y, OnPline p x ∧ OnPline p y ∧ x.x < y.x := by
  obtain ⟨hc, h2⟩ := area_closed ha h0
  by_contra hno
  have hall : ∀ x y, OnPline p x → OnPline p y → x.x = y.x := by
    intro x y hx hy
    by_contra hne
    rcases lt_or_gt_of_ne hne with h | h
    · exact hno ⟨x, y, hx, hy, h⟩
    · exact hno ⟨y, x, hy, hx, h⟩
  have hs2 : 2 ≤ p.size := h2
  have hn : (segs p).length = p.size := by
    rw [segs_length, if_neg (show ¬ p.size < 2 by omega), if_pos hc]
  have hv : ∀ i < p.size, (vtx p i).pos.x = (vtx p 0).pos.x := fun i hi =>
    hall _ _ ⟨i, _, _, closed_segs hc h2 hi, onSeg_start _ _⟩
      ⟨0, _, _, closed_segs hc h2 (by omega), onSeg_start _ _⟩
  rw [getArea_eq hc h2, hn] at ha
  have hterm : ∀ i ∈ Finset.range p.size, areaTerm (vtx p i) (vtx p (if i + 1 = p.size then 0 else i + 1)) =
      (vtx p 0).pos.x * ((vtx p (if i + 1 = p.size then 0 else i + 1)).pos.y - (vtx p i).pos.y) := by
    intro i hi
    rw [Finset.mem_range] at hi
    have hs := closed_segs hc h2 hi
    have hi' : (if i + 1 = p.size then 0 else i + 1) < p.size := by split_ifs <;> omega
    have e1 := hv i hi
    have e2 := hv _ hi'
    generalize vtx p (if i + 1 = p.size then 0 else i + 1) = v2 at *
    unfold areaTerm
    by_cases hl : IsLine (vtx p i)
    · rw [if_pos hl, e1, e2]
      ring
    · have hm := hall _ _ ⟨i, _, _, hs, arc_middle hl⟩ ⟨i, _, _, hs, onSeg_start _ _⟩
      simp only at hm
      have hb : (vtx p i).bulge ≠ 0 := by
        rintro h
        apply hl
        unfold IsLine
        rw [h]
        norm_num
      have hy : v2.pos.y - (vtx p i).pos.y = 0 := by
        rw [e1, e2] at hm
        have : (vtx p i).bulge * (v2.pos.y - (vtx p i).pos.y) = 0 := by linarith
        exact (mul_eq_zero.1 this).resolve_left hb
      have hd : dist2 (vtx p i).pos v2.pos = 0 := by
        unfold dist2
        rw [e1, e2, show (vtx p i).pos.y - v2.pos.y = 0 by linarith]
        ring
      rw [if_neg hl, hd, e1, e2]
      ring
  rw [Finset.sum_congr rfl hterm, ← Finset.mul_sum, sum_around (fun i => (vtx p i).pos.y) p.size (by omega)] at ha
  simp only [mul_zero, zero_div] at ha
  exact h0 (Except.ok.inj ha).symm

/-- A closed polyline with an area is on no horizontal line. -/
theorem area_high {p : Polyline} {a : ℝ} (ha : getArea p = .ok a) (h0 : a ≠ 0) :
    ∃ x y, OnPline p x ∧ OnPline p y ∧ x.y < y.y := by
  obtain ⟨hc, h2⟩ := area_closed ha h0
  by_contra hno
  have hall : ∀ x y, OnPline p x → OnPline p y → x.y = y.y := by
    intro x y hx hy
    by_contra hne
    rcases lt_or_gt_of_ne hne with h | h
    · exact hno ⟨x, y, hx, hy, h⟩
    · exact hno ⟨y, x, hy, hx, h⟩
  have hs2 : 2 ≤ p.size := h2
  have hn : (segs p).length = p.size := by
    rw [segs_length, if_neg (show ¬ p.size < 2 by omega), if_pos hc]
  have hv : ∀ i < p.size, (vtx p i).pos.y = (vtx p 0).pos.y := fun i hi =>
    hall _ _ ⟨i, _, _, closed_segs hc h2 hi, onSeg_start _ _⟩
      ⟨0, _, _, closed_segs hc h2 (by omega), onSeg_start _ _⟩
  rw [getArea_eq hc h2, hn] at ha
  have hterm : ∀ i ∈ Finset.range p.size, areaTerm (vtx p i) (vtx p (if i + 1 = p.size then 0 else i + 1)) =
      - (vtx p 0).pos.y * ((vtx p (if i + 1 = p.size then 0 else i + 1)).pos.x - (vtx p i).pos.x) := by
    intro i hi
    rw [Finset.mem_range] at hi
    have hs := closed_segs hc h2 hi
    have hi' : (if i + 1 = p.size then 0 else i + 1) < p.size := by split_ifs <;> omega
    have e1 := hv i hi
    have e2 := hv _ hi'
    generalize vtx p (if i + 1 = p.size then 0 else i + 1) = v2 at *
    unfold areaTerm
    by_cases hl : IsLine (vtx p i)
    · rw [if_pos hl, e1, e2]
      ring
    · have hm := hall _ _ ⟨i, _, _, hs, arc_middle hl⟩ ⟨i, _, _, hs, onSeg_start _ _⟩
      simp only at hm
      have hb : (vtx p i).bulge ≠ 0 := by
        rintro h
        apply hl
        unfold IsLine
        rw [h]
        norm_num
      have hy : v2.pos.x - (vtx p i).pos.x = 0 := by
        rw [e1, e2] at hm
        have : (vtx p i).bulge * (v2.pos.x - (vtx p i).pos.x) = 0 := by linarith
        exact (mul_eq_zero.1 this).resolve_left hb
      have hd : dist2 (vtx p i).pos v2.pos = 0 := by
        unfold dist2
        rw [e1, e2, show (vtx p i).pos.x - v2.pos.x = 0 by linarith]
        ring
      rw [if_neg hl, hd, e1, e2]
      ring
  rw [Finset.sum_congr rfl hterm, ← Finset.mul_sum, sum_around (fun i => (vtx p i).pos.x) p.size (by omega)] at ha
  simp only [mul_zero, zero_div] at ha
  exact h0 (Except.ok.inj ha).symm

theorem indexable_area (inf ninf : ℝ) {p : Polyline} {a : ℝ} (ha : getArea p = .ok a) (h0 : a ≠ 0)
    (hn : p.vertexes.length ≤ 2 ^ 24) (hb : ∀ i v1 v2, IsSeg p i v1 v2 → |v1.bulge| ≤ 1) :
    Indexable (codePlatform inf ninf) p := by
  obtain ⟨hc, h2⟩ := area_closed ha h0
  have hs2 : 2 ≤ p.size := h2
  refine indexable_code h2 ?_ inf ninf (Or.inr ⟨area_wide ha h0, area_high ha h0⟩) hb
  rw [segs_length, if_neg (show ¬ p.size < 2 by omega), if_pos hc]
  exact hn

/-- C32 for polylines with an area: if `getArea` of a polyline of at most 2^24 vertexes, with arcs of at
most a half circle, is not zero, its spatial index can be built and a query never faults, reports each
index once and only indexes of segments, and reports every segment that has a point in the query
box. -/
theorem C32_area (inf ninf : ℝ) {p : Polyline} {a : ℝ} (ha : getArea p = .ok a) (h0 : a ≠ 0)
    (hn : p.vertexes.length ≤ 2 ^ 24) (hb : ∀ i v1 v2, IsSeg p i v1 v2 → |v1.bulge| ≤ 1) :
    ∃ s, createApproxSpatialIndex (codePlatform inf ninf) p = .ok s ∧
      ∀ q : Box ℝ, ∃ r : List ℕ, s.query q = .ok r ∧ r.Nodup ∧
        (∀ i ∈ r, ∃ v1 v2, IsSeg p i v1 v2) ∧
        ∀ i v1 v2 x, IsSeg p i v1 v2 → OnSeg v1 v2 x →
          q.minX ≤ x.x → x.x ≤ q.maxX → q.minY ≤ x.y → x.y ≤ q.maxY → i ∈ r := by
  obtain ⟨hc, h2⟩ := area_closed ha h0
  have hs2 : 2 ≤ p.size := h2
  refine C32_createApproxSpatialIndex inf ninf h2 ?_ (Or.inr ⟨area_wide ha h0, area_high ha h0⟩) hb
  rw [segs_length, if_neg (show ¬ p.size < 2 by omega), if_pos hc]
  exact hn

/-- A triangle. -/
example (inf ninf : ℝ) : ∃ s, createApproxSpatialIndex (codePlatform inf ninf)
    ⟨true, [⟨⟨0, 0⟩, 0⟩, ⟨⟨4, 0⟩, 0⟩, ⟨⟨0, 4⟩, 0⟩]⟩ = .ok s := by
  obtain ⟨s, h, -⟩ := C32_area (p := ⟨true, [⟨⟨0, 0⟩, 0⟩, ⟨⟨4, 0⟩, 0⟩, ⟨⟨0, 4⟩, 0⟩]⟩) (a := 8) inf ninf (by
    rw [getArea_eq rfl (by simp)]
    congr 1
    simp [segs, Finset.sum_range_succ, areaTerm, vtx, Polyline.size, IsLine]
    norm_num) (by norm_num) (by simp) (by
    intro i v1 v2 h
    obtain ⟨-, rfl, -⟩ := isSeg_iff.1 h
    have : ∀ j, |(vtx ⟨true, [⟨⟨0, 0⟩, 0⟩, ⟨⟨4, 0⟩, 0⟩, ⟨⟨0, 4⟩, 0⟩]⟩ j).bulge| ≤ 1 := by
      intro j
      match j with
      | 0 => simp [vtx]
      | 1 => simp [vtx]
      | 2 => simp [vtx]
      | n + 3 => simp [vtx]
    exact this i)
  exact ⟨s, h⟩

end
end Cavc

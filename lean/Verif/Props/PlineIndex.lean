import Verif.Proofs.PlineIndex
import Verif.Proofs.ArcSector
import Verif.Proofs.Semi

/-!
C32: the spatial index of a polyline finds every segment.
-/
namespace Cavc
open Spec
open scoped Classical
noncomputable section

/-- The platform of the code: the Hilbert values of staticspatialindex.hpp. -/
def codePlatform (inf ninf : ℝ) : Platform := ⟨inf, ninf, hilbertValue⟩

theorem indexable_code {p : Polyline} (h2 : 2 ≤ p.vertexes.length) (hn : (segs p).length ≤ 2 ^ 24)
    (inf ninf : ℝ)
    (hext : (segs p).length ≤ 16 ∨
      ((∃ x y, OnPline p x ∧ OnPline p y ∧ x.x < y.x) ∧
       ∃ x y, OnPline p x ∧ OnPline p y ∧ x.y < y.y))
    (hb : ∀ i v1 v2, IsSeg p i v1 v2 → |v1.bulge| ≤ 1) : Indexable (codePlatform inf ninf) p := by
  have hl : 1 ≤ (segBoxes p).length := by
    rw [segBoxes_length, segs_length, if_neg (show ¬ p.size < 2 by unfold Polyline.size; omega)]
    have : 2 ≤ p.size := h2
    split_ifs <;> omega
  have hbox : ∀ x, OnPline p x → ∃ b ∈ segBoxes p, b.minX ≤ x.x ∧ x.x ≤ b.maxX ∧
      b.minY ≤ x.y ∧ x.y ≤ b.maxY := by
    rintro x ⟨i, v1, v2, hs, hx⟩
    refine ⟨_, List.mem_of_getElem? (segBoxes_get.2 ⟨v1, v2, hs, rfl⟩), ?_⟩
    exact C12_bbox_contains (hb i v1 v2 hs) hx
  refine ⟨h2, ?_⟩
  rcases hext with hs | ⟨⟨x, y, hx, hy, hxy⟩, ⟨x', y', hx', hy', hxy'⟩⟩
  · refine ⟨by norm_num, ⟨hl, by rw [segBoxes_length]; exact hn⟩, fun hlt => ?_⟩
    rw [segBoxes_length] at hlt; omega
  · refine C06_hilbert_defined (by norm_num) inf ninf _ ⟨hl, by rw [segBoxes_length]; exact hn⟩ ?_ ?_ ?_
    · intro b hbm
      obtain ⟨i, hi⟩ := List.getElem?_of_mem hbm
      obtain ⟨v1, v2, hs, rfl⟩ := segBoxes_get.1 hi
      have h := C12_bbox_contains (hb i v1 v2 hs) (onSeg_start v1 v2)
      exact ⟨h.1.trans h.2.1, h.2.2.1.trans h.2.2.2⟩
    · obtain ⟨b, hb, h⟩ := hbox x hx
      obtain ⟨b', hb', h'⟩ := hbox y hy
      exact ⟨b, hb, b', hb', by linarith⟩
    · obtain ⟨b, hb, h⟩ := hbox x' hx'
      obtain ⟨b', hb', h'⟩ := hbox y' hy'
      exact ⟨b, hb, b', hb', by linarith⟩

/-- C32. The index of a polyline (arcs of at most a half circle, at most 2^24 segments, and either
at most 16 segments or neither all on one vertical nor all on one horizontal line) can be built; a
query never faults, reports each index once and only indexes of segments, and reports every segment
that has a point in the query box. -/
theorem C32_createApproxSpatialIndex (inf ninf : ℝ) {p : Polyline} (h2 : 2 ≤ p.vertexes.length)
    (hn : (segs p).length ≤ 2 ^ 24)
    (hext : (segs p).length ≤ 16 ∨
      ((∃ x y, OnPline p x ∧ OnPline p y ∧ x.x < y.x) ∧
       ∃ x y, OnPline p x ∧ OnPline p y ∧ x.y < y.y))
    (hb : ∀ i v1 v2, IsSeg p i v1 v2 → |v1.bulge| ≤ 1) :
    ∃ s, createApproxSpatialIndex (codePlatform inf ninf) p = .ok s ∧
      ∀ q : Box ℝ, ∃ r : List ℕ, s.query q = .ok r ∧ r.Nodup ∧
        (∀ i ∈ r, ∃ v1 v2, IsSeg p i v1 v2) ∧
        ∀ i v1 v2 x, IsSeg p i v1 v2 → OnSeg v1 v2 x →
          q.minX ≤ x.x → x.x ≤ q.maxX → q.minY ≤ x.y → x.y ≤ q.maxY → i ∈ r := by
  have hi := indexable_code h2 hn inf ninf hext hb
  obtain ⟨s, hs, hq⟩ := C01_query_exact hi.dom
  refine ⟨s, by rw [createApprox_eq _ _ h2]; exact hs, fun q => ?_⟩
  obtain ⟨r, hr, hnd, hmem⟩ := hq q
  refine ⟨r, hr, hnd, fun i h => ?_, fun i v1 v2 x hseg hx a1 a2 a3 a4 => ?_⟩
  · obtain ⟨b, hb', -⟩ := (hmem i).1 h
    obtain ⟨v1, v2, h, -⟩ := segBoxes_get.1 hb'
    exact ⟨v1, v2, h⟩
  · refine (hmem i).2 ⟨_, segBoxes_get.2 ⟨v1, v2, hseg, rfl⟩, ?_⟩
    obtain ⟨b1, b2, b3, b4⟩ := C12_bbox_contains (hb i v1 v2 hseg) hx
    exact ⟨a1.trans b2, b1.trans a2, a3.trans b4, b3.trans a4⟩

/-- C32: a polyline of fewer than two vertexes fails the assertion. -/
theorem C32_too_small (pf : Platform) {p : Polyline} (h : p.vertexes.length < 2) :
    createApproxSpatialIndex pf p = .error .assertFailed := by
  unfold createApproxSpatialIndex
  rw [assertP_neg (show ¬ p.size > 1 by unfold Polyline.size; omega)]
  rfl

/-- A closed polyline of two half circles meets the hypotheses of C32. -/
example : let p : Polyline := ⟨true, [⟨⟨0, 0⟩, 1⟩, ⟨⟨2, 0⟩, 1⟩]⟩
    2 ≤ p.vertexes.length ∧ (segs p).length ≤ 16 ∧ (segs p).length ≤ 2 ^ 24 ∧
      ∀ i v1 v2, IsSeg p i v1 v2 → |v1.bulge| ≤ 1 := by
  refine ⟨by simp, by simp [segs], by simp [segs], ?_⟩
  intro i v1 v2 h
  have hm := List.mem_of_getElem? h
  simp [segs] at hm
  rcases hm with ⟨rfl, -⟩ | ⟨rfl, -⟩ <;> simp

end
end Cavc

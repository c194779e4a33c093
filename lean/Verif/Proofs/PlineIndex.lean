import Verif.Proofs.Pline
import Verif.Props.SpatialIndex
import Verif.Props.Segment

/-! The spatial index of a polyline is the index built from the boxes of its segments. -/
namespace Cavc
open Spec
open scoped Classical
noncomputable section

/-- The boxes of the segments, in order. -/
def segBoxes (p : Polyline) : List (Box ℝ) :=
  (segs p).map fun s => (createFastApproxBoundingBox s.1 s.2).toBox

theorem segBoxes_length (p : Polyline) : (segBoxes p).length = (segs p).length := by
  simp [segBoxes]

theorem segBoxes_eq (p : Polyline) : segBoxes p = (List.range (if p.size < 2 then 0 else
    if p.isClosed then p.size else p.size - 1)).map
      fun i => (createFastApproxBoundingBox (vtx p i) (vtx p (if i + 1 = p.size then 0 else i + 1))).toBox := by
  unfold segBoxes
  rw [segs_eq, List.map_map]
  rfl

theorem addSegBoxes_eq (p : Polyline) (k : ℕ) : ∀ (i : ℕ) (s : SIndex ℝ), i + k < p.size →
    addSegBoxes p k i s = ((List.range' i k).map fun i =>
      (createFastApproxBoundingBox (vtx p i) (vtx p (i + 1))).toBox).foldlM (fun s b => s.add b) s := by
  induction k with
  | zero => intro i s _; rfl
  | succ k ih =>
    intro i s h
    simp only [addSegBoxes, List.range'_succ, List.map_cons, List.foldlM_cons]
    rw [at_eq (show i < p.size by omega), at_eq (show i + 1 < p.size by omega)]
    simp only [ok_bind]
    congr 1
    funext s'
    exact ih (i + 1) s' (by omega)

theorem lastVertex_eq {p : Polyline} (h : 0 < p.size) : p.lastVertex = .ok (vtx p (p.size - 1)) := by
  have h' : p.vertexes.length - 1 < p.vertexes.length := by
    have : 0 < p.vertexes.length := h
    omega
  unfold Polyline.lastVertex vtx Polyline.size
  rw [List.getLast?_eq_getElem?, List.getElem?_eq_getElem h', List.getD_eq_getElem _ _ h']

theorem createApprox_eq (pf : Platform) (p : Polyline) (h : 2 ≤ p.size) :
    createApproxSpatialIndex pf p = SIndex.build 16 pf.inf pf.ninf pf.hilbert (segBoxes p) := by
  unfold createApproxSpatialIndex SIndex.build
  rw [assertP_pos (show p.size > 1 by omega)]
  simp only [ok_bind]
  rw [segBoxes_length, segs_length, if_neg (show ¬ p.size < 2 by omega)]
  congr 1
  funext s
  rw [addSegBoxes_eq p _ _ _ (by omega), segBoxes_eq, if_neg (show ¬ p.size < 2 by omega)]
  have e : ((List.range (p.size - 1)).map fun i => (createFastApproxBoundingBox (vtx p i)
      (vtx p (if i + 1 = p.size then 0 else i + 1))).toBox) = (List.range' 0 (p.size - 1)).map fun i =>
      (createFastApproxBoundingBox (vtx p i) (vtx p (i + 1))).toBox := by
    rw [List.range_eq_range']
    apply List.map_congr_left
    intro i hi
    simp only [List.mem_range'_1] at hi
    rw [if_neg (show ¬ i + 1 = p.size by omega)]
  cases hc : p.isClosed
  · simp only [Bool.false_eq_true, if_false]
    rw [e]
  · simp only [if_true]
    obtain ⟨m, hm⟩ : ∃ m, p.size = m + 1 := ⟨p.size - 1, by omega⟩
    rw [lastVertex_eq (show 0 < p.size by omega), at_eq (show 0 < p.size by omega)]
    simp only [ok_bind]
    rw [hm] at e ⊢
    simp only [Nat.add_sub_cancel] at e ⊢
    rw [List.range_succ, List.map_append, List.foldlM_append, e]
    simp [List.foldlM_cons, List.foldlM_nil]

/-- The polyline can be indexed: two vertexes and the domain of the index. -/
structure Indexable (pf : Platform) (p : Polyline) : Prop where
  size : 2 ≤ p.vertexes.length
  dom : IndexDomain 16 pf.inf pf.ninf pf.hilbert (segBoxes p)

theorem segBoxes_get {p : Polyline} {i : ℕ} {b : Box ℝ} : (segBoxes p)[i]? = some b ↔
    ∃ v1 v2, IsSeg p i v1 v2 ∧ b = (createFastApproxBoundingBox v1 v2).toBox := by
  unfold segBoxes IsSeg
  rw [List.getElem?_map, Option.map_eq_some_iff]
  constructor
  · rintro ⟨⟨v1, v2⟩, h1, h2⟩; exact ⟨v1, v2, h1, h2.symm⟩
  · rintro ⟨v1, v2, h1, h2⟩; exact ⟨(v1, v2), h1, h2.symm⟩

end
end Cavc

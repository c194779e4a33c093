import Verif.Spec.OffsetRegion
import Verif.Spec.IslandPieces
import Verif.Proofs.IndexUse

/-!
The region that the offset of a set of loops (outer loops and islands) bounds, independently of the code, and when
the tolerances of the library do not matter for it.
-/
namespace Cavc.Spec
open scoped Classical
noncomputable section

/-- The loops are the outlines of a region to the left of all of them: polygons that meet neither themselves nor each
other and that, all together, wind once or not at all around each point off them. (Outer loops are counter clockwise,
the holes in them clockwise, the islands in the holes counter clockwise, and so on.) -/
structure Outlines (ps : List Polyline) : Prop where
  simple : ∀ p ∈ ps, SimplePolygon p
  apart : ps.Pairwise fun p q => ∀ x, OnPline p x → ¬ OnPline q x
  once : ∀ x k, (∀ p ∈ ps, ¬ OnPline p x) → TurnAround ps x k → k = 0 ∨ k = 1

/-- `x` is in the region outlined by the loops, and more than `d` away from all of them. -/
def InsetRegion (ps : List Polyline) (d : ℝ) (x : V2) : Prop :=
  TurnAround ps x 1 ∧ ∀ p ∈ ps, ∀ z, OnPline p z → d < distance x z

/-- The polylines are the boundary of the region that is left when all points at most `d` away from the outlines are
taken away: closed polylines of valid segments that, all together, wind once around each point of it, counter
clockwise, and not around any other point. -/
structure BoundsInset (ps : List Polyline) (d : ℝ) (r : List Polyline) : Prop where
  closed : ∀ q ∈ r, q.isClosed = true ∧ 2 ≤ q.vertexes.length ∧ PlineOk q
  winds : ∀ x, (∀ q ∈ r, ¬ OnPline q x) → TurnAround r x (if InsetRegion ps d x then 1 else 0)

/-- The tolerances of the library do not matter for the parallel offset of the polygon (as in property C74): its raw
offset is either cut at exactly the points where it meets itself, or does not meet itself at all. -/
def GoodOffset (pf : Platform) (p : Polyline) (offset : ℝ) : Prop :=
  ClearOffset p offset ∧ Indexable pf p ∧ ∃ raw, createRawOffsetPline p offset = .ok raw ∧ Indexable pf raw ∧ LongArcs raw ∧
    (((∀ l, SelfIntersectsOf raw l → l ≠ [] ∧ ExactCuts raw (selfCuts l) ∧ ApartCuts (selfCuts l) ∧
          (selfCuts l).length ≤ 2 ^ 24) ∧
        ClearMeets p raw offset ∧
        ∀ l s, SelfIntersectsOf raw l →
          ¬ Shallow p raw offset (selfCuts l) s ∧ ¬ ShortLoop p raw offset (selfCuts l) s) ∨
      ((∀ x, ¬ PassedTwice raw x) ∧ (∀ l, SelfIntersectsOf raw l → l = []) ∧
        ∀ v, raw.vertexes.head? = some v → Clear p (|offset| - 1 / 10 ^ 4) v.pos → NotCloser p |offset| v.pos))

/-- `x` is not closer than the offset to any input loop except the one with index `own`. -/
def ClearOfRest (input : OffsetLoopSet) (delta : ℝ) (own : ℕ) (x : V2) : Prop :=
  ∀ i l, i ≠ own → (loopsOf input)[i]? = some l → NotCloser l.polyline |delta| x

/-- `s` is one of the pieces that the polyline is cut into. -/
def IsPiece (p : Polyline) (cuts : List Cut) (s : Polyline) : Prop :=
  ∃ cs i, cs.Perm cuts ∧ AlongPline p cs ∧ SliceAt p (fun _ => True) cs i (some s)

/-- The tolerances of the library do not matter for the offset loops `loops`, which meet as listed in `xs`: loops that
meet are cut somewhere, inside their segments, the cuts and the ends of a segment are apart, and so are different cut
points; a loop is cut wherever it comes to the distance of the offset from another input loop, unless it is too close
to some input loop there; and where it is tested how far a piece, or a loop that is not cut, is from the other input
loops, it is not closer than the offset if it is not closer by 1e-4. -/
structure CleanLoops (input : OffsetLoopSet) (delta : ℝ) (loops : List OffsetLoop) (xs : List LoopCrossing) : Prop where
  points : ∀ x ∈ xs, x.points ≠ []
  clean : ∀ i l, loops[i]? = some l → ¬ Untouched xs i → CleanCuts l.polyline (cutsOfLoop xs i)
  complete : ∀ i l k v e z, loops[i]? = some l → IsSeg l.polyline k v e → OnSeg v e z →
    ClearOfRest input delta l.parentLoopIndex z →
    (∃ j m w, j ≠ l.parentLoopIndex ∧ (loopsOf input)[j]? = some m ∧ OnPline m.polyline w ∧ distance z w = |delta|) →
    ∃ c ∈ cutsOfLoop xs i, c.seg = k ∧ c.pos = z
  apart : ApartCuts ((List.range loops.length).flatMap (cutsOfLoop xs))
  few : ((List.range loops.length).flatMap (cutsOfLoop xs)).length ≤ 2 ^ 24
  piece : ∀ i l s, loops[i]? = some l → ¬ Untouched xs i → IsPiece l.polyline (cutsOfLoop xs i) s →
    KeptBy (FarFromOthers input delta l.parentLoopIndex) s → KeptBy (ClearOfRest input delta l.parentLoopIndex) s
  whole : ∀ i l v, loops[i]? = some l → Untouched xs i → l.polyline.vertexes.head? = some v →
    FarFromOthers input delta l.parentLoopIndex v.pos → ClearOfRest input delta l.parentLoopIndex v.pos

end
end Cavc.Spec

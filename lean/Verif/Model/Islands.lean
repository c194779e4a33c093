import Verif.Model.Combine

/-!
Model of include/cavc/polylineoffsetislands.hpp. The buffers `m_queryStack`, `m_queryResults` and
`intrsResults`, which are cleared before every use, are left out; the other members are passed as
arguments. `noSliceAfterForIndex1` (never read by the code) is left out.
-/
namespace Cavc
open scoped Classical
noncomputable section

/-- `OffsetLoop` (polylineoffsetislands.hpp:10-14). -/
structure OffsetLoop where
  parentLoopIndex : ℕ
  polyline : Polyline
  spatialIndex : SIndex ℝ

/-- `OffsetLoopSet` (polylineoffsetislands.hpp:16-19). -/
structure OffsetLoopSet where
  ccwLoops : List OffsetLoop
  cwLoops : List OffsetLoop

/-- `getOffsetLoop` and `getParentLoop` (polylineoffsetislands.hpp:45-53): the loops of a set by
index, first the counter clockwise ones, then the clockwise ones. -/
def OffsetLoopSet.get (s : OffsetLoopSet) (i : ℕ) : M OffsetLoop :=
  if i < s.ccwLoops.length then getM s.ccwLoops i else getM s.cwLoops (i - s.ccwLoops.length)

/-- `totalOffsetLoopsCount` (polylineoffsetislands.hpp:86), and `inputTotalCount`
(polylineoffsetislands.hpp:217). -/
def OffsetLoopSet.count (s : OffsetLoopSet) : ℕ := s.ccwLoops.length + s.cwLoops.length

/-- `SlicePointSet` (polylineoffsetislands.hpp:35-42). -/
structure SlicePointSet where
  loopIndex1 : ℕ
  loopIndex2 : ℕ
  slicePoints : List PlineIntersect

/-- `DissectionPoint` (polylineoffsetislands.hpp:59-62). -/
structure DissectionPoint where
  otherLoopIndex : ℕ
  pos : V2

/-- `DissectedSlice` (polylineoffsetislands.hpp:64-73). -/
structure DissectedSlice where
  pline : Polyline
  sliceParentIndex : ℕ
  startLoopIndex : ℕ
  endLoopIndex : ℕ

/-! ### createOffsetLoops -/

/-- Body of the loop over the offsets of a counter clockwise loop
(polylineoffsetislands.hpp:111-118). -/
def addCcwOffset (pf : Platform) (parentIndex : ℕ) (s : OffsetLoopSet) (offset : Polyline) :
    M OffsetLoopSet := do
  let area ← getArea offset
  if area < 0 then return s
  else do
    let index ← createApproxSpatialIndex pf offset
    return { s with ccwLoops := s.ccwLoops ++ [⟨parentIndex, offset, index⟩] }

/-- Body of the loop over the offsets of a clockwise loop (polylineoffsetislands.hpp:126-133). -/
def addCwOffset (pf : Platform) (parentIndex : ℕ) (s : OffsetLoopSet) (offset : Polyline) :
    M OffsetLoopSet := do
  let index ← createApproxSpatialIndex pf offset
  let area ← getArea offset
  if area < 0 then return { s with cwLoops := s.cwLoops ++ [⟨parentIndex, offset, index⟩] }
  else return { s with ccwLoops := s.ccwLoops ++ [⟨parentIndex, offset, index⟩] }

/-- The loop over the input loops (polylineoffsetislands.hpp:109-120, 124-135), with the state
`parentIndex` and the loops so far. -/
def offsetLoopsOf (pf : Platform) (std : StdSort) (hash : HashOrder) (absDelta : ℝ)
    (addOffset : ℕ → OffsetLoopSet → Polyline → M OffsetLoopSet)
    (st : ℕ × OffsetLoopSet) (loop : OffsetLoop) : M (ℕ × OffsetLoopSet) := do
  let offsets ← parallelOffset pf std hash loop.polyline absDelta
  let s ← offsets.foldlM (addOffset st.1) st.2
  return (st.1 + 1, s)

/-- `createOffsetLoops` (polylineoffsetislands.hpp:103-136). -/
def createOffsetLoops (pf : Platform) (std : StdSort) (hash : HashOrder) (input : OffsetLoopSet)
    (absDelta : ℝ) : M OffsetLoopSet := do
  let st ← input.ccwLoops.foldlM (offsetLoopsOf pf std hash absDelta (addCcwOffset pf)) (0, ⟨[], []⟩)
  let st ← input.cwLoops.foldlM (offsetLoopsOf pf std hash absDelta (addCwOffset pf)) st
  return st.2

/-- `createOffsetLoopsIndex` (polylineoffsetislands.hpp:138-151). -/
def createOffsetLoopsIndex (pf : Platform) (loops : OffsetLoopSet) : M (SIndex ℝ) :=
  SIndex.build 16 pf.inf pf.ninf pf.hilbert
    ((loops.ccwLoops ++ loops.cwLoops).map fun l => l.spatialIndex.ext)

/-! ### createSlicePoints -/

/-- `m_visitedLoopPairs`, `m_slicePointSets` and `m_slicePointsLookup`
(polylineoffsetislands.hpp:90-98). -/
structure SlicePointState where
  visited : List (ℕ × ℕ)
  sets : List SlicePointSet
  lookup : List (List ℕ)

/-- `m_slicePointsLookup[i].push_back(k)` (polylineoffsetislands.hpp:206-207). -/
def pushLookup (lookup : List (List ℕ)) (i k : ℕ) : M (List (List ℕ)) := do
  let l ← getM lookup i
  setM lookup i (l ++ [k])

/-- The slice points of two loops (polylineoffsetislands.hpp:190-204). -/
def slicePointsOf (std : StdSort) (loop1 loop2 : OffsetLoop) (intrs : IntersectsResult) :
    M (List PlineIntersect) :=
  if intrs.coincidentIntersects.length ≠ 0 then do
    let (c, _) ← sortAndjoinCoincidentSlices std intrs.coincidentIntersects loop1.polyline
      loop2.polyline
    return intrs.intersects ++ c.sliceStartPoints ++ c.sliceEndPoints
  else .ok intrs.intersects

/-- Body of the `for` over the query results (polylineoffsetislands.hpp:170-209). -/
def slicePointsPair (std : StdSort) (loops : OffsetLoopSet) (i : ℕ) (loop1 : OffsetLoop)
    (st : SlicePointState) (j : ℕ) : M SlicePointState :=
  if i = j then .ok st
  else if (j, i) ∈ st.visited then .ok st
  else do
    let loop2 ← loops.get j
    let intrs ← findIntersects loop1.polyline loop2.polyline loop1.spatialIndex ⟨[], []⟩
    if intrs.intersects.length ≠ 0 ∨ intrs.coincidentIntersects.length ≠ 0 then do
      let points ← slicePointsOf std loop1 loop2 intrs
      let lookup ← pushLookup st.lookup i st.sets.length
      let lookup ← pushLookup lookup j st.sets.length
      return ⟨(i, j) :: st.visited, st.sets ++ [⟨i, j, points⟩], lookup⟩
    else return { st with visited := (i, j) :: st.visited }

/-- Body of the `for` over the loops (polylineoffsetislands.hpp:162-210). -/
def slicePointsStep (std : StdSort) (loops : OffsetLoopSet) (loopsIndex : SIndex ℝ)
    (st : SlicePointState) (i : ℕ) : M SlicePointState := do
  let loop1 ← loops.get i
  let queryResults ← loopsIndex.query loop1.spatialIndex.ext
  queryResults.foldlM (slicePointsPair std loops i loop1) st

/-- `createSlicePoints` (polylineoffsetislands.hpp:153-211). -/
def createSlicePoints (std : StdSort) (loops : OffsetLoopSet) (loopsIndex : SIndex ℝ) :
    M SlicePointState :=
  (List.range loops.count).foldlM (slicePointsStep std loops loopsIndex)
    ⟨[], [], List.replicate loops.count []⟩

/-! ### createSlicesFromLoop -/

/-- Body of the `for` of `pointOnOffsetValid` (polylineoffsetislands.hpp:218-229), over the rest of
the indexes. -/
def pointOnOffsetValidLoop (input : OffsetLoopSet) (skipIndex : ℕ) (pt : V2) (absDelta : ℝ) :
    List ℕ → M Bool
  | [] => .ok true
  | i :: rest =>
    if i = skipIndex then pointOnOffsetValidLoop input skipIndex pt absDelta rest
    else do
      let parentLoop ← input.get i
      let ok ← pointValidForOffset parentLoop.polyline absDelta parentLoop.spatialIndex pt
      if ok then pointOnOffsetValidLoop input skipIndex pt absDelta rest else return false

/-- `pointOnOffsetValid` (polylineoffsetislands.hpp:213-231). -/
def pointOnOffsetValid (input : OffsetLoopSet) (skipIndex : ℕ) (pt : V2) (absDelta : ℝ) : M Bool :=
  pointOnOffsetValidLoop input skipIndex pt absDelta (List.range input.count)

/-- `m_loopDissectionPoints` (polylineoffsetislands.hpp:99): the pairs, in order of the keys. -/
abbrev DissectLookup := List (ℕ × List DissectionPoint)

/-- `m_loopDissectionPoints[key].push_back(p)` (polylineoffsetislands.hpp:244, 248). -/
def DissectLookup.push (key : ℕ) (p : DissectionPoint) : DissectLookup → DissectLookup
  | [] => [(key, [p])]
  | (k, ps) :: rest =>
    if key < k then (key, [p]) :: (k, ps) :: rest
    else if key = k then (k, ps ++ [p]) :: rest
    else (k, ps) :: DissectLookup.push key p rest

/-- `m_loopDissectionPoints.find(key)` (polylineoffsetislands.hpp:328). -/
def DissectLookup.find? (l : DissectLookup) (key : ℕ) : Option (List DissectionPoint) :=
  (List.find? (fun kv => kv.1 = key) l).map Prod.snd

/-- Body of the `for` over the sets of a loop (polylineoffsetislands.hpp:240-251). -/
def dissectSet (sets : List SlicePointSet) (loopIndex : ℕ) (l : DissectLookup) (setIndex : ℕ) :
    M DissectLookup := do
  let set ← getM sets setIndex
  if loopIndex = set.loopIndex1 then
    return set.slicePoints.foldl (fun (l : DissectLookup) p => l.push p.sIndex1 ⟨set.loopIndex2, p.pos⟩) l
  else
    return set.slicePoints.foldl (fun (l : DissectLookup) p => l.push p.sIndex2 ⟨set.loopIndex1, p.pos⟩) l

/-- Sorting every list by the distance from the start vertex
(polylineoffsetislands.hpp:254-260). -/
def sortDissect (std : StdSort) (pline : Polyline) (lookup : DissectLookup) : M DissectLookup :=
  lookup.mapM fun kv => do
    let v ← pline.at kv.1
    return (kv.1, std.sort (fun p1 p2 => distSquared p1.pos v.pos < distSquared p2.pos v.pos) kv.2)

/-- What the parts of `createSlicesFromLoop` use: the loop, its index and the test
`pointOnOffsetValid(parentIndex, ·, absDelta)` (polylineoffsetislands.hpp:233-237). -/
structure DissectEnv where
  pline : Polyline
  loopIndex : ℕ
  valid : V2 → M Bool

/-- The `for` over the points of one segment (polylineoffsetislands.hpp:279-303), over the rest of
`intrsList`; `prev` is `intrsList[i - 1]`. -/
def betweenDissect (e : DissectEnv) (endVertex : Vertex) :
    DissectionPoint → List DissectionPoint → Vertex → List DissectedSlice → M (List DissectedSlice)
  | _, [], _, result => .ok result
  | prev, p :: rest, prevVertex, result => do
    let split ← splitAtPoint prevVertex endVertex p.pos
    if fuzzyEqualV split.updatedStart.pos split.splitVertex.pos realPrecision then
      betweenDissect e endVertex p rest split.splitVertex result
    else do
      let sMidpoint ← segMidpoint split.updatedStart split.splitVertex
      let ok ← e.valid sMidpoint
      let slice : DissectedSlice := ⟨⟨false, [split.updatedStart, split.splitVertex]⟩, e.loopIndex,
        prev.otherLoopIndex, p.otherLoopIndex⟩
      betweenDissect e endVertex p rest split.splitVertex (if ok then result ++ [slice] else result)

/-- The part for segments with more than one point (polylineoffsetislands.hpp:273-304). -/
def innerDissect (e : DissectEnv) (startVertex endVertex : Vertex) (intrsList : List DissectionPoint)
    (result : List DissectedSlice) : M (List DissectedSlice) :=
  if intrsList.length ≠ 1 then
    match intrsList with
    | [] => .error .outOfBounds
    | p0 :: rest => do
      let firstSplit ← splitAtPoint startVertex endVertex p0.pos
      betweenDissect e endVertex p0 rest firstSplit.splitVertex result
  else .ok result

/-- The `while (true)` (polylineoffsetislands.hpp:318-345): the slice and its `endLoopIndex`. The
first argument is the number of iterations the loop count allows. The end of a slice
(polylineoffsetislands.hpp:331-341) is the same code as polylinecombine.hpp:195-204. -/
def dissectLoop (pline : Polyline) (lookup : DissectLookup) : ℕ → ℕ → Polyline → M (Polyline × ℕ)
  | 0, _, _ => .error .assertFailed
  | fuel + 1, index, currSlice => do
    let v ← pline.at index
    let currSlice := addOrReplaceIfSamePos currSlice v
    match lookup.find? index with
    | some (p :: _) => do
      let slice ← endSlice pline index p.pos currSlice
      return (slice, p.otherLoopIndex)
    | some [] => .error .outOfBounds
    | none => dissectLoop pline lookup fuel (nextWrappingIndex index pline.size) currSlice

/-- The slice from the last point of a segment to the next point
(polylineoffsetislands.hpp:306-356). -/
def outerDissect (e : DissectEnv) (lookup : DissectLookup) (sIndex : ℕ)
    (startVertex endVertex : Vertex) (intrsList : List DissectionPoint)
    (result : List DissectedSlice) : M (List DissectedSlice) :=
  match intrsList.getLast? with
  | none => .error .emptyVector
  | some back => do
    let split ← splitAtPoint startVertex endVertex back.pos
    let (currSlice, endLoopIndex) ← dissectLoop e.pline lookup (e.pline.size + 1)
      (nextWrappingIndex sIndex e.pline.size) (Polyline.empty.addVertex split.splitVertex)
    if currSlice.size > 1 then do
      let v1 ← currSlice.at (currSlice.size - 2)
      let v2 ← currSlice.lastVertex
      let sMidpoint ← segMidpoint v1 v2
      let ok ← e.valid sMidpoint
      return if ok then result ++ [⟨currSlice, e.loopIndex, back.otherLoopIndex, endLoopIndex⟩]
        else result
    else return result

/-- Body of the `for` over the points (polylineoffsetislands.hpp:263-357). -/
def dissectStep (e : DissectEnv) (lookup : DissectLookup) (result : List DissectedSlice)
    (kvp : ℕ × List DissectionPoint) : M (List DissectedSlice) := do
  let startVertex ← e.pline.at kvp.1
  let endVertex ← e.pline.at (nextWrappingIndex kvp.1 e.pline.size)
  let result ← innerDissect e startVertex endVertex kvp.2 result
  outerDissect e lookup kvp.1 startVertex endVertex kvp.2 result

/-- `createSlicesFromLoop` (polylineoffsetislands.hpp:233-358). -/
def createSlicesFromLoop (std : StdSort) (hash : HashOrder) (input loops : OffsetLoopSet)
    (sp : SlicePointState) (absDelta : ℝ) (loopIndex : ℕ) (result : List DissectedSlice) :
    M (List DissectedSlice) := do
  let offsetLoop ← loops.get loopIndex
  let setIndexes ← getM sp.lookup loopIndex
  let lookup ← setIndexes.foldlM (dissectSet sp.sets loopIndex) []
  let lookup ← sortDissect std offsetLoop.polyline lookup
  let e : DissectEnv := ⟨offsetLoop.polyline, loopIndex,
    fun pt => pointOnOffsetValid input offsetLoop.parentLoopIndex pt absDelta⟩
  (hash.iter lookup).foldlM (dissectStep e lookup) result

/-! ### compute -/

/-- An offset loop without intersects (polylineoffsetislands.hpp:380-392). -/
def keepUntouched (input loops : OffsetLoopSet) (absDelta : ℝ) (i : ℕ) (result : OffsetLoopSet) :
    M OffsetLoopSet := do
  let loop ← loops.get i
  let v ← loop.polyline.at 0
  let ok ← pointOnOffsetValid input loop.parentLoopIndex v.pos absDelta
  if ¬ ok = true then return result
  else if i < loops.ccwLoops.length then return { result with ccwLoops := result.ccwLoops ++ [loop] }
  else return { result with cwLoops := result.cwLoops ++ [loop] }

/-- Body of the `for` over the offset loops (polylineoffsetislands.hpp:378-395). -/
def computeStep (std : StdSort) (hash : HashOrder) (input loops : OffsetLoopSet)
    (sp : SlicePointState) (absDelta : ℝ) (st : OffsetLoopSet × List DissectedSlice) (i : ℕ) :
    M (OffsetLoopSet × List DissectedSlice) := do
  let l ← getM sp.lookup i
  if l.length = 0 then do
    let r ← keepUntouched input loops absDelta i st.1
    return (r, st.2)
  else do
    let s ← createSlicesFromLoop std hash input loops sp absDelta i st.2
    return (st.1, s)

/-- Body of the `for` over the stitched polylines (polylineoffsetislands.hpp:403-414). -/
def addStitched (pf : Platform) (result : OffsetLoopSet) (r : Polyline) : M OffsetLoopSet := do
  let area ← getArea r
  if |area| < 1 / 10 ^ 4 then return result
  else do
    let index ← createApproxSpatialIndex pf r
    if area < 0 then return { result with cwLoops := result.cwLoops ++ [⟨0, r, index⟩] }
    else return { result with ccwLoops := result.ccwLoops ++ [⟨0, r, index⟩] }

/-- `compute` (polylineoffsetislands.hpp:360-417). -/
def computeIslands (pf : Platform) (std : StdSort) (hash : HashOrder) (input : OffsetLoopSet)
    (offsetDelta : ℝ) : M OffsetLoopSet := do
  let absDelta := |offsetDelta|
  let loops ← createOffsetLoops pf std hash input absDelta
  if loops.count = 0 then return ⟨[], []⟩
  else do
    let loopsIndex ← createOffsetLoopsIndex pf loops
    let sp ← createSlicePoints std loops loopsIndex
    let (result, slices) ← (List.range loops.count).foldlM
      (computeStep std hash input loops sp absDelta) (⟨[], []⟩, [])
    let stitched ← stitchOrderedSlicesIntoClosedPolylines pf (slices.map fun s => s.pline)
    stitched.foldlM (addStitched pf) result

end
end Cavc

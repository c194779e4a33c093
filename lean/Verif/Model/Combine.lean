import Verif.Model.Offset

/-!
Model of include/cavc/polylinecombine.hpp. The order in which a range-`for` goes over an
`unordered_map` and the order of ties in `std::sort` are parameters.
-/
namespace Cavc
open scoped Classical
noncomputable section

/-- `ProcessForCombineResult` (polylinecombine.hpp:12-19). -/
structure CombineInfo where
  coincidentSlices : List Polyline
  nonCoincidentIntersects : List PlineIntersect
  coincidentSliceStartPoints : List PlineIntersect
  coincidentSliceEndPoints : List PlineIntersect
  coincidentIsOpposingDirection : List Bool
  pline1IsCW : Bool
  pline2IsCW : Bool

/-- `completelyCoincident` (polylinecombine.hpp:20-24). -/
def CombineInfo.completelyCoincident (c : CombineInfo) : Prop :=
  match c.coincidentSliceStartPoints, c.coincidentSliceEndPoints with
  | [s], [e] => fuzzyEqualV s.pos e.pos realPrecision
  | _, _ => False

/-- `plineOpposingDirections` (polylinecombine.hpp:26). -/
def CombineInfo.plineOpposingDirections (c : CombineInfo) : Bool := c.pline1IsCW != c.pline2IsCW

/-- `anyIntersects` (polylinecombine.hpp:28-30). -/
def CombineInfo.anyIntersects (c : CombineInfo) : Prop :=
  c.coincidentSlices.length ≠ 0 ∨ c.nonCoincidentIntersects.length ≠ 0

/-- `processForCombine` (polylinecombine.hpp:33-60). -/
def processForCombine (std : StdSort) (pline1 pline2 : Polyline) (pline1SpatialIndex : SIndex ℝ) :
    M CombineInfo := do
  assertP (pline1.isClosed = true ∧ pline2.isClosed = true)
  let intrs ← findIntersects pline1 pline2 pline1SpatialIndex ⟨[], []⟩
  let area1 ← getArea pline1
  let area2 ← getArea pline2
  if intrs.coincidentIntersects.length = 0 then
    return ⟨[], intrs.intersects, [], [], [], decide (area1 < 0), decide (area2 < 0)⟩
  else do
    let (c, _) ← sortAndjoinCoincidentSlices std intrs.coincidentIntersects pline1 pline2
    return ⟨c.coincidentSlices, intrs.intersects, c.sliceStartPoints, c.sliceEndPoints,
      c.coincidentIsOpposingDirection, decide (area1 < 0), decide (area2 < 0)⟩

/-! ### sliceAtIntersects -/

/-- `SlicePoint` (polylinecombine.hpp:62-68). -/
structure SlicePoint where
  pos : V2
  startOfCoincidentSlice : Bool

/-- `std::unordered_map<std::size_t, std::vector<SlicePoint>>` (polylinecombine.hpp:80): the pairs,
in order of the keys. -/
abbrev SliceLookup := List (ℕ × List SlicePoint)

/-- `intersectsLookup[key].push_back(p)` (polylinecombine.hpp:88). -/
def SliceLookup.push (key : ℕ) (p : SlicePoint) : SliceLookup → SliceLookup
  | [] => [(key, [p])]
  | (k, ps) :: rest =>
    if key < k then (key, [p]) :: (k, ps) :: rest
    else if key = k then (k, ps ++ [p]) :: rest
    else (k, ps) :: SliceLookup.push key p rest

/-- `intersectsLookup.find(key)` (polylinecombine.hpp:192). -/
def SliceLookup.find? (l : SliceLookup) (key : ℕ) : Option (List SlicePoint) :=
  (List.find? (fun kv => kv.1 = key) l).map Prod.snd

/-- Body of the `for` over the coincident slices for the second index
(polylinecombine.hpp:91-101). -/
def pushCoincident2 (info : CombineInfo) (l : SliceLookup) (i : ℕ) : M SliceLookup := do
  let sp ← getM info.coincidentSliceStartPoints i
  let ep ← getM info.coincidentSliceEndPoints i
  let opposing ← getM info.coincidentIsOpposingDirection i
  if opposing then
    return (l.push sp.sIndex2 ⟨sp.pos, false⟩).push ep.sIndex2 ⟨ep.pos, true⟩
  else
    return (l.push sp.sIndex2 ⟨sp.pos, true⟩).push ep.sIndex2 ⟨ep.pos, false⟩

/-- Filling of the lookup (polylinecombine.hpp:80-114). -/
def combineLookup (info : CombineInfo) (useSecondIndex : Bool) : M SliceLookup :=
  if useSecondIndex then
    (List.range info.coincidentSliceStartPoints.length).foldlM (pushCoincident2 info)
      (info.nonCoincidentIntersects.foldl
        (fun (l : SliceLookup) intr => l.push intr.sIndex2 ⟨intr.pos, false⟩) [])
  else
    let l := info.nonCoincidentIntersects.foldl
      (fun (l : SliceLookup) intr => l.push intr.sIndex1 ⟨intr.pos, false⟩) []
    let l := info.coincidentSliceStartPoints.foldl
      (fun (l : SliceLookup) intr => l.push intr.sIndex1 ⟨intr.pos, true⟩) l
    .ok (info.coincidentSliceEndPoints.foldl
      (fun (l : SliceLookup) intr => l.push intr.sIndex1 ⟨intr.pos, false⟩) l)

/-- Sorting every list of the lookup by the distance from the start vertex
(polylinecombine.hpp:117-123). -/
def sortSliceLookup (std : StdSort) (pline : Polyline) (lookup : SliceLookup) : M SliceLookup :=
  lookup.mapM fun kv => do
    let v ← pline.at kv.1
    return (kv.1, std.sort (fun i1 i2 => distSquared i1.pos v.pos < distSquared i2.pos v.pos) kv.2)

/-- The `for` over the intersects of one segment (polylinecombine.hpp:141-167), over the rest of
`intrsList`; `prev` is `intrsList[i - 1]`. -/
def betweenIntersects (pred : V2 → M Bool) (endVertex : Vertex) :
    SlicePoint → List SlicePoint → Vertex → List Polyline → M (List Polyline)
  | _, [], _, result => .ok result
  | prev, sp :: rest, prevVertex, result => do
    let split ← splitAtPoint prevVertex endVertex sp.pos
    if prev.startOfCoincidentSlice then
      betweenIntersects pred endVertex sp rest split.splitVertex result
    else if fuzzyEqualV split.updatedStart.pos split.splitVertex.pos realPrecision then
      betweenIntersects pred endVertex sp rest split.splitVertex result
    else do
      let sMidpoint ← segMidpoint split.updatedStart split.splitVertex
      let ok ← pred sMidpoint
      let slice : Polyline := ⟨false, [split.updatedStart, split.splitVertex]⟩
      betweenIntersects pred endVertex sp rest split.splitVertex
        (if ok then result ++ [slice] else result)

/-- The part for segments with more than one intersect (polylinecombine.hpp:135-168). -/
def innerIntersects (pred : V2 → M Bool) (startVertex endVertex : Vertex)
    (intrsList : List SlicePoint) (result : List Polyline) : M (List Polyline) :=
  if intrsList.length ≠ 1 then
    match intrsList with
    | [] => .error .outOfBounds
    | sp0 :: rest => do
      let firstSplit ← splitAtPoint startVertex endVertex sp0.pos
      betweenIntersects pred endVertex sp0 rest firstSplit.splitVertex result
  else .ok result

/-- End of a slice at the first intersect of a segment (polylinecombine.hpp:195-204). -/
def endSlice (pline : Polyline) (index : ℕ) (intersectPos : V2) (currSlice : Polyline) :
    M Polyline := do
  let last ← currSlice.lastVertex
  let next ← pline.at (nextWrappingIndex index pline.size)
  let split ← splitAtPoint last next intersectPos
  let currSlice ← currSlice.setLast split.updatedStart
  return addOrReplaceIfSamePos currSlice ⟨intersectPos, 0⟩

/-- The `while (true)` (polylinecombine.hpp:182-209). The first argument is the number of iterations
the loop count allows. -/
def intersectLoop (pline : Polyline) (lookup : SliceLookup) : ℕ → ℕ → Polyline → M Polyline
  | 0, _, _ => .error .assertFailed
  | fuel + 1, index, currSlice => do
    let v ← pline.at index
    let currSlice := addOrReplaceIfSamePos currSlice v
    match lookup.find? index with
    | some (sp :: _) => endSlice pline index sp.pos currSlice
    | some [] => .error .outOfBounds
    | none => intersectLoop pline lookup fuel (nextWrappingIndex index pline.size) currSlice

/-- The slice from the last intersect of a segment to the next intersect
(polylinecombine.hpp:170-216). -/
def outerIntersects (pline : Polyline) (lookup : SliceLookup) (pred : V2 → M Bool) (sIndex : ℕ)
    (startVertex endVertex : Vertex) (intrsList : List SlicePoint) (result : List Polyline) :
    M (List Polyline) :=
  match intrsList.getLast? with
  | none => .error .emptyVector
  | some back =>
    if back.startOfCoincidentSlice then .ok result
    else do
      let split ← splitAtPoint startVertex endVertex back.pos
      let currSlice ← intersectLoop pline lookup (pline.size + 1)
        (nextWrappingIndex sIndex pline.size) (Polyline.empty.addVertex split.splitVertex)
      if currSlice.size > 1 then do
        let v1 ← currSlice.at (currSlice.size - 2)
        let v2 ← currSlice.lastVertex
        let sMidpoint ← segMidpoint v1 v2
        let ok ← pred sMidpoint
        return if ok then result ++ [currSlice] else result
      else return result

/-- Body of the `for` over the lookup (polylinecombine.hpp:125-217). -/
def intersectsStep (pline : Polyline) (lookup : SliceLookup) (pred : V2 → M Bool)
    (result : List Polyline) (kvp : ℕ × List SlicePoint) : M (List Polyline) := do
  let startVertex ← pline.at kvp.1
  let endVertex ← pline.at (nextWrappingIndex kvp.1 pline.size)
  let result ← innerIntersects pred startVertex endVertex kvp.2 result
  outerIntersects pline lookup pred kvp.1 startVertex endVertex kvp.2 result

/-- `sliceAtIntersects` (polylinecombine.hpp:75-218): the slices it adds to `result`. -/
def sliceAtIntersects (std : StdSort) (hash : HashOrder) (pline : Polyline) (info : CombineInfo)
    (useSecondIndex : Bool) (pred : V2 → M Bool) : M (List Polyline) := do
  let lookup ← combineLookup info useSecondIndex
  let lookup ← sortSliceLookup std pline lookup
  (hash.iter lookup).foldlM (intersectsStep pline lookup pred) []

/-! ### collectSlices -/

/-- `CollectedSlices` (polylinecombine.hpp:223-228). -/
structure CollectedSlices where
  slicesRemaining : List Polyline
  startOfPlineBSlicesIdx : ℕ
  startOfPlineACoincidentSlicesIdx : ℕ
  startOfPlineBCoincidentSlicesIdx : ℕ

/-- `if (flag) { invertDirection(slice); }` (polylinecombine.hpp:259-261). -/
def invertIf (flag : Bool) (p : Polyline) : M Polyline := if flag then invertDirection p else .ok p

/-- Direction of a coincident slice of plineB (polylinecombine.hpp:257-263). -/
def orientCoincident (info : CombineInfo) (pi : Polyline × ℕ) : M Polyline := do
  let flag ← getM info.coincidentIsOpposingDirection pi.2
  invertIf flag pi.1

/-- `collectSlices` (polylinecombine.hpp:230-278). The four parts of `slicesRemaining` are built
separately and put together at the end. -/
def collectSlices (std : StdSort) (hash : HashOrder) (plineA plineB : Polyline) (info : CombineInfo)
    (predA predB : V2 → M Bool) (setOpposingOrientation : Bool) : M CollectedSlices := do
  let slicesA ← sliceAtIntersects std hash plineA info false predA
  let slicesB ← sliceAtIntersects std hash plineB info true predB
  let coincidentB ← info.coincidentSlices.zipIdx.mapM (orientCoincident info)
  let flip := setOpposingOrientation != info.plineOpposingDirections
  let slicesB ← slicesB.mapM (invertIf flip)
  let coincidentB ← coincidentB.mapM (invertIf flip)
  let idxB := slicesA.length
  let idxAC := idxB + slicesB.length
  return ⟨slicesA ++ slicesB ++ info.coincidentSlices ++ coincidentB, idxB, idxAC,
    idxAC + info.coincidentSlices.length⟩

/-! ### Stitching -/

/-- Type of the stitch selectors: the index of the current slice and the available ones to the one to
stitch, `none` for `std::numeric_limits<std::size_t>::max()` (polylinecombine.hpp:290-296, 371-376). -/
abbrev StitchSelector := ℕ → List ℕ → M (Option ℕ)

/-- `StitchFirstAvailable` (polylinecombine.hpp:280-285). -/
def stitchFirstAvailable : StitchSelector := fun _ available => do
  let a ← getM available 0
  return some a

/-- `createUnionAndIntersectStitchSelector` (polylinecombine.hpp:432-450). -/
def unionSelector (startOfCoincidentSlicesIdx : ℕ) : StitchSelector :=
  fun currSliceIndex available =>
    match available.find? (fun i => i < startOfCoincidentSlicesIdx) with
    | none =>
      if currSliceIndex ≥ startOfCoincidentSlicesIdx then .ok none
      else do
        let a ← getM available 0
        return some a
    | some i => .ok (some i)

/-- `createExcludeAndXORStitchSelector` (polylinecombine.hpp:452-525). -/
def excludeSelector (startB startAC startBC : ℕ) : StitchSelector :=
  fun currSliceIndex available =>
    if currSliceIndex ≥ startAC then
      if currSliceIndex < startBC then
        match available.find? (fun i => i ≥ startB ∧ i < startAC) with
        | some i => .ok (some i)
        | none => .ok (available.find? (fun i => i < startB))
      else
        match available.find? (fun i => i < startB) with
        | some i => .ok (some i)
        | none => .ok (available.find? (fun i => i < startAC))
    else if currSliceIndex < startB then
      match available.find? (fun i => i ≥ startB ∧ i < startAC) with
      | some i => .ok (some i)
      | none => do
        let a ← getM available 0
        return some a
    else
      match available.find? (fun i => i < startB) with
      | some i => .ok (some i)
      | none => do
        let a ← getM available 0
        return some a

/-- `closePline` (polylinecombine.hpp:318-329). -/
def closePline (pline : Polyline) (result : List Polyline) : M (List Polyline) :=
  if pline.size < 3 then .ok result
  else do
    let popped ← pline.popBack
    return result ++ [⟨true, popped.vertexes⟩]

/-- The predicate given to `std::remove_if` (polylinecombine.hpp:360-363). -/
def unavailable (beginning : ℕ) (visited : List Bool) (i : ℕ) : M Bool :=
  if i ≠ beginning then getM visited i else .ok false

/-- The `while (true)` (polylinecombine.hpp:346-389). The first argument is the number of iterations
the loop count allows. -/
def orderedLoop (slices : List Polyline) (index : SIndex ℝ) (selector : StitchSelector)
    (joinThreshold : ℝ) (beginning : ℕ) :
    ℕ → ℕ → Polyline → List Bool → List Polyline → M (List Bool × List Polyline)
  | 0, _, _, _, _ => .error .assertFailed
  | fuel + 1, currIndex, currPline, visited, result => do
    let currEnd ← currPline.lastVertex
    let queryResults ← index.query
      ⟨currEnd.pos.x - joinThreshold, currEnd.pos.y - joinThreshold,
        currEnd.pos.x + joinThreshold, currEnd.pos.y + joinThreshold⟩
    let queryResults ← removeIfM (unavailable beginning visited) queryResults
    if queryResults.length = 0 then return (visited, result)
    else do
      let connected ← selector currIndex queryResults
      match connected with
      | none => return (visited, result)
      | some next =>
        if next = beginning then do
          let result ← closePline currPline result
          return (visited, result)
        else do
          let slice ← getM slices next
          let popped ← currPline.popBack
          let visited ← setM visited next true
          orderedLoop slices index selector joinThreshold beginning fuel next
            ⟨popped.isClosed, popped.vertexes ++ slice.vertexes⟩ visited result

/-- The `for` over the slices (polylinecombine.hpp:332-390), `k` iterations left. -/
def orderedOuter (slices : List Polyline) (index : SIndex ℝ) (selector : StitchSelector)
    (joinThreshold : ℝ) : ℕ → ℕ → List Bool → List Polyline → M (List Polyline)
  | 0, _, _, result => .ok result
  | k + 1, i, visited, result => do
    if ← getM visited i then
      orderedOuter slices index selector joinThreshold k (i + 1) visited result
    else do
      let visited ← setM visited i true
      let s ← getM slices i
      let (visited, result) ← orderedLoop slices index selector joinThreshold i (slices.length + 1)
        i ⟨false, s.vertexes⟩ visited result
      orderedOuter slices index selector joinThreshold k (i + 1) visited result

/-- Box of the start point of a slice (polylinecombine.hpp:303-310). -/
def orderedBox (joinThreshold : ℝ) (s : Polyline) : M (Box ℝ) := do
  let v ← s.at 0
  return ⟨v.pos.x - joinThreshold, v.pos.y - joinThreshold,
    v.pos.x + joinThreshold, v.pos.y + joinThreshold⟩

/-- `stitchOrderedSlicesIntoClosedPolylines` (polylinecombine.hpp:290-393). -/
def stitchOrderedSlicesIntoClosedPolylines (pf : Platform) (slices : List Polyline)
    (selector : StitchSelector := stitchFirstAvailable)
    (joinThreshold : ℝ := sliceJoinThreshold) : M (List Polyline) :=
  if slices.length = 0 then .ok []
  else do
    let boxes ← slices.mapM (orderedBox joinThreshold)
    let index ← SIndex.build 16 pf.inf pf.ninf pf.hilbert boxes
    orderedOuter slices index selector joinThreshold slices.length 0
      (List.replicate slices.length false) []

/-! ### combinePolylines -/

/-- `PlineCombineMode` (polylinecombine.hpp:402). -/
inductive CombineMode
  | union | exclude | intersect | xor

/-- `CombineResult` (polylinecombine.hpp:406-409). -/
@[ext] structure CombineResult where
  remaining : List Polyline
  subtracted : List Polyline

/-- `pointInA` and `pointInB` (polylinecombine.hpp:424-426). -/
def pointIn (p : Polyline) (pt : V2) : M Bool := do
  let w ← getWindingNumber p pt
  return decide (w ≠ 0)

/-- The lambdas `!pointInB(pt)` (polylinecombine.hpp:544-545). -/
def pointNotIn (p : Polyline) (pt : V2) : M Bool := do
  let b ← pointIn p pt
  return !b

/-- `isAInsideB` and `isBInsideA` (polylinecombine.hpp:429-430). -/
def isInside (p q : Polyline) : M Bool := do
  let v ← p.at 0
  pointIn q v.pos

/-- What the lambdas of `combinePolylines` capture (polylinecombine.hpp:413-426). -/
structure CombineEnv where
  pf : Platform
  std : StdSort
  hash : HashOrder
  plineA : Polyline
  plineB : Polyline
  info : CombineInfo

/-- The case without intersects: `inA` if A is in B, `inB` if B is in A, `apart` otherwise: the
`else if (!combineInfo.anyIntersects())` branches of polylinecombine.hpp:528-682. -/
def CombineEnv.withoutIntersects (e : CombineEnv) (inA inB apart : CombineResult) :
    M CombineResult := do
  let aInB ← isInside e.plineA e.plineB
  if aInB then return inA
  else do
    let bInA ← isInside e.plineB e.plineA
    return if bInA then inB else apart

/-- Collecting slices and stitching them with the selector for union and intersect
(polylinecombine.hpp:543-551 and 607-613). -/
def CombineEnv.stitchUnion (e : CombineEnv) (predA predB : V2 → M Bool) : M (List Polyline) := do
  let c ← collectSlices e.std e.hash e.plineA e.plineB e.info predA predB false
  stitchOrderedSlicesIntoClosedPolylines e.pf c.slicesRemaining
    (unionSelector c.startOfPlineACoincidentSlicesIdx)

/-- Collecting slices and stitching them with the selector for exclude and XOR
(polylinecombine.hpp:584-591, 637-645 and 651-659). -/
def CombineEnv.stitchExclude (e : CombineEnv) (predA predB : V2 → M Bool) : M (List Polyline) := do
  let c ← collectSlices e.std e.hash e.plineA e.plineB e.info predA predB true
  stitchOrderedSlicesIntoClosedPolylines e.pf c.slicesRemaining
    (excludeSelector c.startOfPlineBSlicesIdx c.startOfPlineACoincidentSlicesIdx
      c.startOfPlineBCoincidentSlicesIdx)

/-- Body of the `for` that separates islands (polylinecombine.hpp:553-562). -/
def separateIsland (info : CombineInfo) (r : CombineResult) (p : Polyline) : M CombineResult := do
  let area ← getArea p
  if decide (area < 0) ≠ info.pline1IsCW then return { r with subtracted := r.subtracted ++ [p] }
  else return { r with remaining := r.remaining ++ [p] }

/-- `performUnion` (polylinecombine.hpp:527-564). -/
def CombineEnv.performUnion (e : CombineEnv) : M CombineResult :=
  if e.info.completelyCoincident then .ok ⟨[e.plineA], []⟩
  else if ¬ e.info.anyIntersects then
    e.withoutIntersects ⟨[e.plineB], []⟩ ⟨[e.plineA], []⟩ ⟨[e.plineA, e.plineB], []⟩
  else do
    let remaining ← e.stitchUnion (pointNotIn e.plineB) (pointNotIn e.plineA)
    remaining.foldlM (separateIsland e.info) ⟨[], []⟩

/-- `performExclude` (polylinecombine.hpp:566-593). -/
def CombineEnv.performExclude (e : CombineEnv) : M CombineResult :=
  if e.info.completelyCoincident then .ok ⟨[], []⟩
  else if ¬ e.info.anyIntersects then
    e.withoutIntersects ⟨[], []⟩ ⟨[e.plineA], [e.plineB]⟩ ⟨[e.plineA], []⟩
  else do
    let remaining ← e.stitchExclude (pointNotIn e.plineB) (pointIn e.plineA)
    return ⟨remaining, []⟩

/-- `performIntersect` (polylinecombine.hpp:595-616). -/
def CombineEnv.performIntersect (e : CombineEnv) : M CombineResult :=
  if e.info.completelyCoincident then .ok ⟨[e.plineA], []⟩
  else if ¬ e.info.anyIntersects then
    e.withoutIntersects ⟨[e.plineA], []⟩ ⟨[e.plineB], []⟩ ⟨[], []⟩
  else do
    let remaining ← e.stitchUnion (pointIn e.plineB) (pointIn e.plineA)
    return ⟨remaining, []⟩

/-- `performXOR` (polylinecombine.hpp:618-666). -/
def CombineEnv.performXOR (e : CombineEnv) : M CombineResult :=
  if e.info.completelyCoincident then .ok ⟨[], []⟩
  else if ¬ e.info.anyIntersects then
    e.withoutIntersects ⟨[e.plineB], [e.plineA]⟩ ⟨[e.plineA], [e.plineB]⟩ ⟨[e.plineA, e.plineB], []⟩
  else do
    let aMinusB ← e.stitchExclude (pointNotIn e.plineB) (pointIn e.plineA)
    let bMinusA ← e.stitchExclude (pointIn e.plineB) (pointNotIn e.plineA)
    return ⟨aMinusB ++ bMinusA, []⟩

/-- The `switch` (polylinecombine.hpp:668-681). -/
def CombineEnv.perform (e : CombineEnv) : CombineMode → M CombineResult
  | .union => e.performUnion
  | .exclude => e.performExclude
  | .intersect => e.performIntersect
  | .xor => e.performXOR

/-- `combinePolylines` (polylinecombine.hpp:412-684). -/
def combinePolylines (pf : Platform) (std : StdSort) (hash : HashOrder) (plineA plineB : Polyline)
    (combineMode : CombineMode) : M CombineResult := do
  assertP (plineA.isClosed = true ∧ plineB.isClosed = true)
  let index ← createApproxSpatialIndex pf plineA
  let info ← processForCombine std plineA plineB index
  CombineEnv.perform ⟨pf, std, hash, plineA, plineB, info⟩ combineMode

end
end Cavc

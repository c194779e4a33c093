import Verif.Model.Basic
import Mathlib.Data.Int.Log
import Mathlib.Data.Rat.Floor
import Mathlib.Order.Lattice
import Mathlib.Order.Defs.LinearOrder

/-
Model of include/cavc/staticspatialindex.hpp.

Simplifications, all stated once here:
* positions are in units of boxes, the code's are in units of reals (`4 *` that); the four reals of
  a box are always read and written together at a multiple of 4, so this loses nothing;
* `m_boxes`/`m_indices` are modelled by the list of their initialised prefix (all writes of the code
  are appends at `m_pos` or swaps), `m_numNodes` is the allocated size, an append past it is
  `outOfBounds`, a read past the prefix is `outOfBounds`;
* `m_pos` is the length of `boxes`;
* `Real` is any linear order `α`, `inf`/`ninf` (`std::numeric_limits<Real>::infinity()` and its
  negative) are arbitrary elements: nothing is assumed about them;
* the Hilbert value of a box is computed by the parameter `hv extents box` (the real instance is in
  Verif/Model/Hilbert.lean).
-/
namespace Cavc

/-- Four consecutive reals of `m_boxes` (staticspatialindex.hpp:53-56); also a query rectangle. -/
@[ext] structure Box (α : Type _) where
  minX : α
  minY : α
  maxX : α
  maxY : α

/-! ### IEEE binary32, used by the code to compute the number of nodes per level -/

/-- Round half to even, for the `float` arithmetic of staticspatialindex.hpp:29. -/
def roundEven (q : ℚ) : ℤ :=
  if q - ⌊q⌋ < 1 / 2 then ⌊q⌋
  else if 1 / 2 < q - ⌊q⌋ then ⌊q⌋ + 1
  else if ⌊q⌋ % 2 = 0 then ⌊q⌋ else ⌊q⌋ + 1

/-- Nearest binary32 number (24 bit significand, ties to even) of a non negative rational in the
normal range. Overflow and subnormals do not occur for the operands of staticspatialindex.hpp:29. -/
def f32 (q : ℚ) : ℚ :=
  if q = 0 then 0
  else (roundEven (q / (2 : ℚ) ^ (Int.log 2 q - 23)) : ℚ) * (2 : ℚ) ^ (Int.log 2 q - 23)

/-- `n = static_cast<std::size_t>(std::ceil(static_cast<float>(n) / NodeSize))`
(staticspatialindex.hpp:29 and :354). -/
def nextLevelSize (N n : ℕ) : ℕ := ⌈f32 (f32 n / f32 N)⌉₊

/-! ### State -/

/-- `class StaticSpatialIndex` (staticspatialindex.hpp:12, fields 337-348). -/
structure SIndex (α : Type _) where
  /-- template parameter `NodeSize` -/
  nodeSize : ℕ
  numItems : ℕ
  numLevels : ℕ
  /-- `m_levelBounds`, in boxes -/
  levelBounds : List ℕ
  numNodes : ℕ
  boxes : List (Box α)
  indices : List ℕ
  /-- `m_minX .. m_maxY` -/
  ext : Box α

variable {α : Type _}

/-- `computeNumLevels` (staticspatialindex.hpp:350-359): the do-while loop. -/
def computeNumLevelsLoop (N : ℕ) : ℕ → ℕ → ℕ → M ℕ
  | 0, _, _ => .error .nonTermination
  | fuel + 1, n, size =>
    let n := nextLevelSize N n
    let size := size + 1
    if n ≠ 1 then computeNumLevelsLoop N fuel n size else .ok size

/-- `computeNumLevels` (staticspatialindex.hpp:350-359). -/
def computeNumLevels (N numItems : ℕ) : M ℕ := computeNumLevelsLoop N (numItems + 1) numItems 1

/-- The loop that fills `m_levelBounds` (staticspatialindex.hpp:27-33); `m_levelBounds` has
`numLevels` elements, `bounds` is the part filled so far. Returns the bounds and `numNodes`. -/
def levelBoundsLoop (N numLevels : ℕ) : ℕ → ℕ → ℕ → List ℕ → M (List ℕ × ℕ)
  | 0, _, _, _ => .error .nonTermination
  | fuel + 1, n, numNodes, bounds =>
    let n := nextLevelSize N n
    let numNodes := numNodes + n
    if bounds.length < numLevels then
      let bounds := bounds ++ [numNodes]
      if n ≠ 1 then levelBoundsLoop N numLevels fuel n numNodes bounds else .ok (bounds, numNodes)
    else .error .outOfBounds

/-- The constructor (staticspatialindex.hpp:14-43). -/
def SIndex.create (N : ℕ) (inf ninf : α) (numItems : ℕ) : M (SIndex α) := do
  assertM (0 < numItems)
  let numLevels ← computeNumLevels N numItems
  let (bounds, numNodes) ←
    levelBoundsLoop N numLevels (numItems + 1) numItems numItems [numItems]
  return { nodeSize := N, numItems := numItems, numLevels := numLevels, levelBounds := bounds,
           numNodes := numNodes, boxes := [], indices := [],
           ext := { minX := inf, minY := inf, maxX := ninf, maxY := ninf } }

/-- `m_indices[m_pos >> 2] = idx; m_boxes[m_pos++] = ...` (staticspatialindex.hpp:52-56, 74-79,
142-146): append one box and its index entry. -/
def SIndex.append (s : SIndex α) (b : Box α) (idx : ℕ) : M (SIndex α) :=
  if s.boxes.length < s.numNodes then
    .ok { s with boxes := s.boxes ++ [b], indices := s.indices ++ [idx] }
  else .error .outOfBounds

section order
variable [LinearOrder α]

/-- The four `if`s that grow an extent (staticspatialindex.hpp:58-65 and 131-138). -/
def Box.grow (e b : Box α) : Box α :=
  { minX := if b.minX < e.minX then b.minX else e.minX
    minY := if b.minY < e.minY then b.minY else e.minY
    maxX := if b.maxX > e.maxX then b.maxX else e.maxX
    maxY := if b.maxY > e.maxY then b.maxY else e.maxY }

/-- `add` (staticspatialindex.hpp:50-66). -/
def SIndex.add (s : SIndex α) (b : Box α) : M (SIndex α) := do
  let s' ← s.append b s.boxes.length
  return { s' with ext := s.ext.grow b }

/-! ### The bucket quicksort (staticspatialindex.hpp:361-416) -/

/-- The three arrays permuted by `sort` (staticspatialindex.hpp:361-363). -/
structure SortState (α : Type _) where
  values : List ℕ
  boxes : List (Box α)
  indices : List ℕ

end order

/-- Exchange of two elements through a temporary (staticspatialindex.hpp:392-416). -/
def swapM {β : Type _} (l : List β) (i j : ℕ) : M (List β) := do
  let temp ← getM l i
  let y ← getM l j
  let l ← setM l i y
  setM l j temp

/-- `swap` (staticspatialindex.hpp:391-416). -/
def SortState.swap (st : SortState α) (i j : ℕ) : M (SortState α) := do
  let values ← swapM st.values i j
  let boxes ← swapM st.boxes i j
  let indices ← swapM st.indices i j
  return { values := values, boxes := boxes, indices := indices }

/-- `do i++; while (values[i] < pivot);` (staticspatialindex.hpp:376-378). The argument `i` is the
already incremented `i` (this avoids the wrap-around of `left - 1` for `left = 0`). -/
def scanUp (values : List ℕ) (pivot : ℕ) : ℕ → ℕ → M ℕ
  | 0, _ => .error .nonTermination
  | fuel + 1, i => do
    let v ← getM values i
    if v < pivot then scanUp values pivot fuel (i + 1) else return i

/-- `do j--; while (values[j] > pivot);` (staticspatialindex.hpp:379-381). -/
def scanDown (values : List ℕ) (pivot : ℕ) : ℕ → ℕ → M ℕ
  | 0, _ => .error .nonTermination
  | fuel + 1, j =>
    if j = 0 then .error .outOfBounds
    else do
      let v ← getM values (j - 1)
      if v > pivot then scanDown values pivot fuel (j - 1) else return j - 1

/-- The `while (true)` of the partition (staticspatialindex.hpp:375-385), returns the final `j`.
`i` is one more than the code's `i` at the loop head. -/
def partitionLoop (pivot : ℕ) : ℕ → SortState α → ℕ → ℕ → M (SortState α × ℕ)
  | 0, _, _, _ => .error .nonTermination
  | fuel + 1, st, i, j => do
    let i ← scanUp st.values pivot (st.values.length + 1) i
    let j ← scanDown st.values pivot (st.values.length + 1) j
    if i ≥ j then return (st, j)
    else do
      let st ← st.swap i j
      partitionLoop pivot fuel st (i + 1) j

/-- `sort` (staticspatialindex.hpp:362-389). -/
def sortLoop (N : ℕ) : ℕ → SortState α → ℕ → ℕ → M (SortState α)
  | 0, _, _, _ => .error .nonTermination
  | fuel + 1, st, left, right => do
    assertM (left ≤ right)
    if left / N ≥ right / N then return st
    else do
      let pivot ← getM st.values ((left + right) / 2)
      let (st, j) ← partitionLoop pivot (st.values.length + 1) st left (right + 1)
      let st ← sortLoop N fuel st left j
      sortLoop N fuel st (j + 1) right

section order
variable [LinearOrder α]

/-! ### finish -/

/-- The inner `for` of `finish` (staticspatialindex.hpp:126-139): `j` counts the remaining
iterations allowed by `j < NodeSize`. Returns the grown box and `pos`. -/
def nodeScan (boxes : List (Box α)) (endPos : ℕ) : ℕ → ℕ → Box α → M (Box α × ℕ)
  | 0, pos, e => .ok (e, pos)
  | j + 1, pos, e =>
    if pos < endPos then do
      let b ← getM boxes pos
      nodeScan boxes endPos j (pos + 1) (e.grow b)
    else .ok (e, pos)

/-- `while (pos < end)` of `finish` (staticspatialindex.hpp:118-147). -/
def levelLoop (inf ninf : α) (endPos : ℕ) : ℕ → SIndex α → ℕ → M (SIndex α × ℕ)
  | 0, s, pos => if pos < endPos then .error .nonTermination else .ok (s, pos)
  | fuel + 1, s, pos =>
    if pos < endPos then do
      let nodeIndex := pos
      let (b, pos) ← nodeScan s.boxes endPos s.nodeSize pos
        { minX := inf, minY := inf, maxX := ninf, maxY := ninf }
      let s ← s.append b nodeIndex
      levelLoop inf ninf endPos fuel s pos
    else .ok (s, pos)

/-- `for (i = 0; i < m_numLevels - 1; i++)` of `finish` (staticspatialindex.hpp:114-148). `k` is
the number of iterations left. -/
def levelsLoop (inf ninf : α) : ℕ → ℕ → SIndex α → ℕ → M (SIndex α)
  | 0, _, s, _ => .ok s
  | k + 1, i, s, pos => do
    let endPos ← getM s.levelBounds i
    let (s, pos) ← levelLoop inf ninf endPos (endPos + 1) s pos
    levelsLoop inf ninf k (i + 1) s pos

/-- `finish` (staticspatialindex.hpp:68-149). -/
def SIndex.finish (inf ninf : α) (hv : Box α → Box α → M ℕ) (s : SIndex α) : M (SIndex α) := do
  assertM (s.boxes.length = s.numItems)
  if s.numItems ≤ s.nodeSize then
    s.append s.ext 0
  else do
    let values ← (s.boxes.take s.numItems).mapM (hv s.ext)
    let st ← sortLoop s.nodeSize (s.numItems + 1)
      { values := values, boxes := s.boxes, indices := s.indices } 0 (s.numItems - 1)
    levelsLoop inf ninf (s.numLevels - 1) 0 { s with boxes := st.boxes, indices := st.indices } 0

/-- A client that constructs the index, adds all boxes in order, and finishes (the documented
use, e.g. polyline.hpp:384-398). -/
def SIndex.build (N : ℕ) (inf ninf : α) (hv : Box α → Box α → M ℕ) (items : List (Box α)) :
    M (SIndex α) := do
  let s ← SIndex.create N inf ninf items.length
  let s ← items.foldlM (fun s b => s.add b) s
  s.finish inf ninf hv

/-! ### Queries -/

/-- The test of visitQuery (staticspatialindex.hpp:252-253): true if there is no intersect. -/
def Box.noIntersect (q b : Box α) : Bool :=
  q.maxX < b.minX || q.maxY < b.minY || q.minX > b.maxX || q.minY > b.maxY

variable {σ : Type _}

/-- The `for` over the boxes of one node in visitQuery (staticspatialindex.hpp:249-268); `k`
iterations are left. Returns visitor state, stack (top first, a flat list of numbers as in the
code) and `done`. -/
def scanNode (s : SIndex α) (q : Box α) (visitor : σ → ℕ → σ × Bool) (nodeIndex level : ℕ) :
    ℕ → ℕ → σ → List ℕ → M (σ × List ℕ × Bool)
  | 0, _, st, stack => .ok (st, stack, false)
  | k + 1, pos, st, stack => do
    let index ← getM s.indices pos
    let b ← getM s.boxes pos
    if q.noIntersect b then scanNode s q visitor nodeIndex level k (pos + 1) st stack
    else if nodeIndex < s.numItems then
      let (st, goOn) := visitor st index
      if !goOn then .ok (st, stack, true)
      else scanNode s q visitor nodeIndex level k (pos + 1) st stack
    else if level = 0 then .error .outOfBounds
    else scanNode s q visitor nodeIndex level k (pos + 1) st ((level - 1) :: index :: stack)

/-- The `while (!done)` of visitQuery (staticspatialindex.hpp:244-278). -/
def queryLoop (s : SIndex α) (q : Box α) (visitor : σ → ℕ → σ × Bool) :
    ℕ → ℕ → ℕ → σ → List ℕ → M σ
  | 0, _, _, _, _ => .error .nonTermination
  | fuel + 1, nodeIndex, level, st, stack => do
    let bound ← getM s.levelBounds level
    let endPos := min (nodeIndex + s.nodeSize) bound
    let (st, stack, done) ←
      scanNode s q visitor nodeIndex level (endPos - nodeIndex) nodeIndex st stack
    match stack with
    | level :: nodeIndex :: rest =>
      if done then .ok st else queryLoop s q visitor fuel nodeIndex level st rest
    | _ => .ok st

/-- `visitQuery` (staticspatialindex.hpp:232-279). The visitor is a state transformer returning
whether to continue. The fuel is proved sufficient (Verif/Props/SpatialIndex.lean). -/
def SIndex.visitQuery (s : SIndex α) (q : Box α) (visitor : σ → ℕ → σ × Bool) (st : σ) : M σ := do
  assertM (s.boxes.length = s.numNodes)
  if s.numNodes = 0 ∨ s.numLevels = 0 then .error .outOfBounds
  else
    queryLoop s q visitor ((s.nodeSize + 1) ^ s.numLevels) (s.numNodes - 1) (s.numLevels - 1) st []

/-- `query` (staticspatialindex.hpp:199-218), result vector included. -/
def SIndex.query (s : SIndex α) (q : Box α) : M (List ℕ) :=
  s.visitQuery q (fun results index => (results ++ [index], true)) []

end order

/-! ### Enumerations -/

variable {σ : Type _}

/-- The loop of `visitItemBoxes` (staticspatialindex.hpp:191-195), `k` iterations left. -/
def itemBoxesLoop (s : SIndex α) (visitor : σ → ℕ → Box α → σ × Bool) : ℕ → ℕ → σ → M σ
  | 0, _, st => .ok st
  | k + 1, i, st => do
    let index ← getM s.indices i
    let b ← getM s.boxes i
    let (st, goOn) := visitor st index b
    if !goOn then .ok st else itemBoxesLoop s visitor k (i + 1) st

/-- `visitItemBoxes` (staticspatialindex.hpp:190-196). -/
def SIndex.visitItemBoxes (s : SIndex α) (visitor : σ → ℕ → Box α → σ × Bool) (st : σ) : M σ := do
  let bound ← getM s.levelBounds 0
  itemBoxesLoop s visitor bound 0 st

/-- Inner `for` of `visitBoundingBoxes` (staticspatialindex.hpp:164-174). -/
def scanNodeBoxes (s : SIndex α) (visitor : σ → ℕ → Box α → σ × Bool) (nodeIndex level : ℕ) :
    ℕ → ℕ → σ → List ℕ → M (σ × List ℕ × Bool)
  | 0, _, st, stack => .ok (st, stack, false)
  | k + 1, pos, st, stack => do
    let index ← getM s.indices pos
    let b ← getM s.boxes pos
    let (st, goOn) := visitor st level b
    if !goOn then .ok (st, stack, true)
    else if nodeIndex ≥ s.numItems then
      if level = 0 then .error .outOfBounds
      else scanNodeBoxes s visitor nodeIndex level k (pos + 1) st ((level - 1) :: index :: stack)
    else scanNodeBoxes s visitor nodeIndex level k (pos + 1) st stack

/-- `while (!done)` of `visitBoundingBoxes` (staticspatialindex.hpp:161-184). -/
def boundingBoxesLoop (s : SIndex α) (visitor : σ → ℕ → Box α → σ × Bool) :
    ℕ → ℕ → ℕ → σ → List ℕ → M σ
  | 0, _, _, _, _ => .error .nonTermination
  | fuel + 1, nodeIndex, level, st, stack => do
    let bound ← getM s.levelBounds level
    let endPos := min (nodeIndex + s.nodeSize) bound
    let (st, stack, ret) ←
      scanNodeBoxes s visitor nodeIndex level (endPos - nodeIndex) nodeIndex st stack
    if ret then .ok st
    else
      match stack with
      | level :: nodeIndex :: rest => boundingBoxesLoop s visitor fuel nodeIndex level st rest
      | _ => .ok st

/-- `visitBoundingBoxes` (staticspatialindex.hpp:154-185). -/
def SIndex.visitBoundingBoxes (s : SIndex α) (visitor : σ → ℕ → Box α → σ × Bool) (st : σ) :
    M σ :=
  if s.numNodes = 0 ∨ s.numLevels = 0 then .error .outOfBounds
  else boundingBoxesLoop s visitor ((s.nodeSize + 1) ^ s.numLevels) (s.numNodes - 1)
    (s.numLevels - 1) st []

end Cavc

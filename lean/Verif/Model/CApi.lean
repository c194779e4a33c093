import Verif.Model.Combine

/-
Model of the C API, src/cavaliercontours.cpp: handles are addresses, objects live in a heap, `new`
takes an address from an allocator, `delete` frees it. Using or freeing what is not a live object of
the right type is the fault `invalidPointer`.

Not modelled: failing allocation of the storage of a `std::vector` (the object itself may fail to be
allocated, see `Allocator`), the contents of `std::cerr`. The algorithms below the API are the model
of the other files, with their assertions switched on; the assertions of this file can be switched
off (`Env.asserts`).
-/
namespace Cavc

noncomputable section
open scoped Classical

/-- A pointer; 0 is the null pointer. -/
abbrev Addr := ℕ

/-- `cavc_vertex` (c_api_include/cavaliercontours.h:46-50). -/
@[ext] structure CVertex where
  x : ℝ
  y : ℝ
  bulge : ℝ

/-- `addVertex(x, y, bulge)` (polyline.hpp:28): the vertex made of the fields. -/
def CVertex.toVertex (v : CVertex) : Vertex := ⟨⟨v.x, v.y⟩, v.bulge⟩

/-- `cavc_vertex{v.x(), v.y(), v.bulge()}` (cavaliercontours.cpp:53). -/
def CVertex.ofVertex (v : Vertex) : CVertex := ⟨v.pos.x, v.pos.y, v.bulge⟩

/-- `struct cavc_pline` (cavaliercontours.cpp:17-21) with the capacity of its vertex vector. -/
@[ext] structure CPline where
  data : Polyline
  capacity : ℕ

/-- What a heap cell holds: a `cavc_pline`, or a `cavc_pline_list` (cavaliercontours.cpp:23-25) whose
`unique_ptr`s are the addresses of its elements. -/
inductive Obj
  | pline (p : CPline)
  | list (elems : List Addr)

/-- The heap: which addresses hold a live object. -/
abbrev Heap := Addr → Option Obj

/-- The heap with one cell changed. -/
def Heap.set (h : Heap) (a : Addr) (o : Option Obj) : Heap := fun b => if b = a then o else h b

/-- `operator new` (used at cavaliercontours.cpp:32, 59, 189 and 220-221): the address of the `n`-th
allocation, not null and not in use, possibly one that was freed before; `none` if `std::bad_alloc` is
thrown. The theorems hold for every allocator. -/
structure Allocator where
  pick : ℕ → Heap → Option Addr
  fresh : ∀ n h a, pick n h = some a → a ≠ 0 ∧ h a = none

/-- How a `std::vector` chooses its capacity (cavaliercontours.cpp:39-44, 63, 86, 122): `reserve` does
nothing if the capacity suffices, otherwise provides at least the wanted one; `push_back` keeps the
capacity while there is room; a copy has room for its elements. The theorems hold for every choice. -/
structure Growth where
  reserve : ℕ → ℕ → ℕ
  reserve_keep : ∀ c n, n ≤ c → reserve c n = c
  reserve_ge : ∀ c n, c < n → n ≤ reserve c n
  push : ℕ → ℕ → ℕ
  push_keep : ∀ c n, n < c → push c n = c
  push_ge : ∀ c n, c ≤ n → n < push c n
  copy : ℕ → ℕ
  copy_ge : ∀ n, n ≤ copy n

/-- What the calls depend on besides the state: platform, `std::sort`, hash order, allocator, vector
growth, and whether the `CAVC_ASSERT`s of this file are compiled in (internal/common.hpp:9). -/
structure Env where
  pf : Platform
  std : StdSort
  hash : HashOrder
  alloc : Allocator
  growth : Growth
  asserts : Bool

/-- The heap and the number of allocations made so far. -/
structure CState where
  heap : Heap
  allocs : ℕ

/-- Before the first call: nothing allocated. -/
def CState.init : CState := ⟨fun _ => none, 0⟩

/-- `CAVC_ASSERT` in this file (cavaliercontours.cpp:77 etc.). -/
def Env.check (e : Env) (c : Prop) : M Unit := if e.asserts = true then assertP c else .ok ()

/-- `new` (cavaliercontours.cpp:32, 59, 189, 220-221); the exception ends in `std::terminate`. -/
def Env.new (e : Env) (s : CState) (o : Obj) : M (CState × Addr) :=
  match e.alloc.pick s.allocs s.heap with
  | none => .error .thrown
  | some a => .ok (⟨s.heap.set a (some o), s.allocs + 1⟩, a)

/-- `pline->data` (cavaliercontours.cpp:79 etc.). -/
def CState.plineAt (s : CState) (a : Addr) : M CPline :=
  match s.heap a with
  | some (.pline p) => .ok p
  | _ => .error .invalidPointer

/-- `pline_list->data` (cavaliercontours.cpp:160 etc.). -/
def CState.listAt (s : CState) (l : Addr) : M (List Addr) :=
  match s.heap l with
  | some (.list es) => .ok es
  | _ => .error .invalidPointer

/-- Writing an object back or freeing its cell. -/
def CState.set (s : CState) (a : Addr) (o : Option Obj) : CState := ⟨s.heap.set a o, s.allocs⟩

/-- `static_cast<uint32_t>` of a `size_t`, and `uint32_t` arithmetic (cavaliercontours.cpp:50, 129). -/
def u32 (n : ℕ) : ℕ := n % 2 ^ 32

/-! ### Helpers of the API -/

/-- The `for` of `copy_to_pline` (cavaliercontours.cpp:42-44), from index `i`, `k` iterations left. -/
def copyVertexes (g : Growth) (vertexData : List CVertex) : ℕ → ℕ → CPline → M CPline
  | 0, _, p => .ok p
  | k + 1, i, p => do
    let v ← getM vertexData i
    copyVertexes g vertexData k (i + 1)
      ⟨⟨p.data.isClosed, p.data.vertexes ++ [v.toVertex]⟩, g.push p.capacity p.data.vertexes.length⟩

/-- `copy_to_pline` (cavaliercontours.cpp:37-45); a null array is used only if the count is not 0. -/
def copyToPline (g : Growth) (p : CPline) (vertexData : Option (List CVertex)) (vertexCount : ℕ) :
    M CPline :=
  let p : CPline := ⟨⟨p.data.isClosed, []⟩, g.reserve p.capacity vertexCount⟩
  match vertexData with
  | some l => copyVertexes g l vertexCount 0 p
  | none => if vertexCount = 0 then .ok p else .error .invalidPointer

/-- The `for` of `copy_to_vertex_data` (cavaliercontours.cpp:51-54), from index `i`, `k` iterations
left. -/
def writeVertexes (pline : Polyline) : ℕ → ℕ → List CVertex → M (List CVertex)
  | 0, _, out => .ok out
  | k + 1, i, out => do
    let v ← pline.at i
    let out ← setM out i (CVertex.ofVertex v)
    writeVertexes pline k (i + 1) out

/-- `copy_to_vertex_data` (cavaliercontours.cpp:48-55): the array afterwards. -/
def copyToVertexData (p : CPline) (vertexData : List CVertex) : M (List CVertex) :=
  writeVertexes p.data (u32 p.data.size) 0 vertexData

/-- The `for` of `move_to_list` (cavaliercontours.cpp:31-33): a new `cavc_pline` with a copy of each
polyline (the constructor at line 20 copies), their addresses in order. -/
def moveToList (e : Env) : List Polyline → CState → M (CState × List Addr)
  | [], s => .ok (s, [])
  | p :: ps, s => do
    let (s, a) ← e.new s (.pline ⟨p, e.growth.copy p.size⟩)
    let (s, as) ← moveToList e ps s
    return (s, a :: as)

/-- `new cavc_pline_list()` and `move_to_list` (cavaliercontours.cpp:189-190): the list object is
filled after its elements were made. -/
def fillList (e : Env) (l : Addr) (ps : List Polyline) (s : CState) : M (CState × List Addr) := do
  let (s, as) ← moveToList e ps s
  return (s.set l (some (.list as)), as)

/-! ### Functions for cavc_pline -/

/-- The vertexes and the capacity of a new polyline (cavaliercontours.cpp:60-64). -/
def initialPline (g : Growth) (vertexData : Option (List CVertex)) (vertexCount : ℕ) : M CPline :=
  match vertexData with
  | some l => copyToPline g ⟨Polyline.empty, 0⟩ (some l) vertexCount
  | none => .ok ⟨Polyline.empty, g.reserve 0 vertexCount⟩

/-- `cavc_pline_new` (cavaliercontours.cpp:57-68). The object is filled before it is entered in the
heap: nothing else can see it earlier. -/
def cavcPlineNew (e : Env) (s : CState) (vertexData : Option (List CVertex)) (vertexCount : ℕ)
    (isClosed : ℤ) : M (CState × Addr) := do
  let p ← initialPline e.growth vertexData vertexCount
  e.new s (.pline ⟨⟨decide (isClosed ≠ 0), p.data.vertexes⟩, p.capacity⟩)

/-- `cavc_pline_delete` (cavaliercontours.cpp:70-74); `delete` of null does nothing. -/
def cavcPlineDelete (s : CState) (a : Addr) : M CState :=
  if a = 0 then .ok s
  else do
    let _ ← s.plineAt a
    return s.set a none

/-- `CAVC_ASSERT(pline, "null pline not allowed")` and the access (cavaliercontours.cpp:77 etc.). -/
def Env.pline (e : Env) (s : CState) (a : Addr) : M CPline := do
  e.check (a ≠ 0)
  s.plineAt a

/-- `cavc_pline_capacity` (cavaliercontours.cpp:76-81). -/
def cavcPlineCapacity (e : Env) (s : CState) (a : Addr) : M ℕ := do
  let p ← e.pline s a
  return u32 p.capacity

/-- `cavc_pline_set_capacity` (cavaliercontours.cpp:83-88). -/
def cavcPlineSetCapacity (e : Env) (s : CState) (a : Addr) (size : ℕ) : M CState := do
  let p ← e.pline s a
  return s.set a (some (.pline ⟨p.data, e.growth.reserve p.capacity size⟩))

/-- `cavc_pline_vertex_count` (cavaliercontours.cpp:90-95). -/
def cavcPlineVertexCount (e : Env) (s : CState) (a : Addr) : M ℕ := do
  let p ← e.pline s a
  return u32 p.data.size

/-- `cavc_pline_vertex_data` (cavaliercontours.cpp:97-102): the array afterwards. -/
def cavcPlineVertexData (e : Env) (s : CState) (a : Addr) (vertexData : List CVertex) :
    M (List CVertex) := do
  let p ← e.pline s a
  copyToVertexData p vertexData

/-- `cavc_pline_is_closed` (cavaliercontours.cpp:104-109). -/
def cavcPlineIsClosed (e : Env) (s : CState) (a : Addr) : M ℤ := do
  let p ← e.pline s a
  return if p.data.isClosed = true then 1 else 0

/-- `cavc_pline_set_vertex_data` (cavaliercontours.cpp:111-117). -/
def cavcPlineSetVertexData (e : Env) (s : CState) (a : Addr) (vertexData : Option (List CVertex))
    (vertexCount : ℕ) : M CState := do
  let p ← e.pline s a
  let p ← copyToPline e.growth p vertexData vertexCount
  return s.set a (some (.pline p))

/-- `cavc_pline_add_vertex` (cavaliercontours.cpp:119-124). -/
def cavcPlineAddVertex (e : Env) (s : CState) (a : Addr) (v : CVertex) : M CState := do
  let p ← e.pline s a
  return s.set a (some (.pline ⟨⟨p.data.isClosed, p.data.vertexes ++ [v.toVertex]⟩,
    e.growth.push p.capacity p.data.vertexes.length⟩))

/-- `vertexes.erase(start_it, start_it + count)` (cavaliercontours.cpp:131-133): erasing beyond the
end is undefined. -/
def eraseRange (l : List Vertex) (start count : ℕ) : M (List Vertex) :=
  if start + count ≤ l.length then .ok (l.take start ++ l.drop (start + count))
  else .error .outOfBounds

/-- `cavc_pline_remove_range` (cavaliercontours.cpp:126-135). `start_index + count` is computed in
`uint32_t`. -/
def cavcPlineRemoveRange (e : Env) (s : CState) (a : Addr) (start count : ℕ) : M CState := do
  let p ← e.pline s a
  e.check (start < p.data.size)
  e.check (u32 (start + count) ≤ p.data.size)
  let vs ← eraseRange p.data.vertexes start count
  return s.set a (some (.pline ⟨⟨p.data.isClosed, vs⟩, p.capacity⟩))

/-- `cavc_pline_clear` (cavaliercontours.cpp:137-142). -/
def cavcPlineClear (e : Env) (s : CState) (a : Addr) : M CState := do
  let p ← e.pline s a
  return s.set a (some (.pline ⟨⟨p.data.isClosed, []⟩, p.capacity⟩))

/-- `cavc_pline_set_is_closed` (cavaliercontours.cpp:144-149). -/
def cavcPlineSetIsClosed (e : Env) (s : CState) (a : Addr) (isClosed : ℤ) : M CState := do
  let p ← e.pline s a
  return s.set a (some (.pline ⟨⟨decide (isClosed ≠ 0), p.data.vertexes⟩, p.capacity⟩))

/-! ### Functions for cavc_pline_list -/

/-- Destruction of the `unique_ptr`s of a list (cavaliercontours.cpp:24, 153): every element is
deleted. -/
def deleteElems : List Addr → CState → M CState
  | [], s => .ok s
  | a :: as, s => do
    let s ← cavcPlineDelete s a
    deleteElems as s

/-- `cavc_pline_list_delete` (cavaliercontours.cpp:151-155). -/
def cavcPlineListDelete (s : CState) (l : Addr) : M CState :=
  if l = 0 then .ok s
  else do
    let es ← s.listAt l
    let s ← deleteElems es s
    return s.set l none

/-- `CAVC_ASSERT(pline_list, ...)` and the access (cavaliercontours.cpp:158 etc.). -/
def Env.list (e : Env) (s : CState) (l : Addr) : M (List Addr) := do
  e.check (l ≠ 0)
  s.listAt l

/-- `cavc_pline_list_count` (cavaliercontours.cpp:157-162). -/
def cavcPlineListCount (e : Env) (s : CState) (l : Addr) : M ℕ := do
  let es ← e.list s l
  return u32 es.length

/-- `cavc_pline_list_get` (cavaliercontours.cpp:164-170). -/
def cavcPlineListGet (e : Env) (s : CState) (l : Addr) (index : ℕ) : M Addr := do
  let es ← e.list s l
  e.check (index < es.length)
  getM es index

/-- `cavc_pline_list_release` (cavaliercontours.cpp:172-180). -/
def cavcPlineListRelease (e : Env) (s : CState) (l : Addr) (index : ℕ) : M (CState × Addr) := do
  let es ← e.list s l
  e.check (index < es.length)
  let target ← getM es index
  return (s.set l (some (.list (es.eraseIdx index))), target)

/-! ### Algorithm functions -/

/-- `cavc_parallel_offset` (cavaliercontours.cpp:182-192): the new list and its elements. -/
def cavcParallelOffset (e : Env) (s : CState) (a : Addr) (delta : ℝ) (optionFlags : BitVec 32) :
    M (CState × Addr × List Addr) := do
  let p ← e.pline s a
  let mayHaveSelfIntersects := decide (optionFlags &&& 1#32 ≠ 0#32)
  let results ← parallelOffset e.pf e.std e.hash p.data delta mayHaveSelfIntersects
  let (s, l) ← e.new s (.list [])
  let (s, as) ← fillList e l results s
  return (s, l, as)

/-- The `switch` of `cavc_combine_plines` (cavaliercontours.cpp:200-217). -/
def combineModeOf (mode : ℤ) : CombineMode :=
  if mode = 0 then .union
  else if mode = 1 then .exclude
  else if mode = 2 then .intersect
  else if mode = 3 then .xor
  else .union

/-- `cavc_combine_plines` (cavaliercontours.cpp:194-225): the two new lists with their elements. -/
def cavcCombinePlines (e : Env) (s : CState) (a b : Addr) (mode : ℤ) :
    M (CState × (Addr × List Addr) × (Addr × List Addr)) := do
  e.check (a ≠ 0)
  e.check (b ≠ 0)
  e.check (0 ≤ mode ∧ mode ≤ 3)
  let pa ← s.plineAt a
  let pb ← s.plineAt b
  let results ← combinePolylines e.pf e.std e.hash pa.data pb.data (combineModeOf mode)
  let (s, remaining) ← e.new s (.list [])
  let (s, subtracted) ← e.new s (.list [])
  let (s, ras) ← fillList e remaining results.remaining s
  let (s, sas) ← fillList e subtracted results.subtracted s
  return (s, (remaining, ras), (subtracted, sas))

/-- `cavc_get_path_length` (cavaliercontours.cpp:227-232). -/
def cavcGetPathLength (e : Env) (s : CState) (a : Addr) : M ℝ := do
  let p ← e.pline s a
  getPathLength p.data

/-- `cavc_get_area` (cavaliercontours.cpp:234-239). -/
def cavcGetArea (e : Env) (s : CState) (a : Addr) : M ℝ := do
  let p ← e.pline s a
  getArea p.data

/-- `cavc_get_winding_number` (cavaliercontours.cpp:241-246). -/
def cavcGetWindingNumber (e : Env) (s : CState) (a : Addr) (x y : ℝ) : M ℤ := do
  let p ← e.pline s a
  getWindingNumber p.data ⟨x, y⟩

/-- `cavc_get_extents` (cavaliercontours.cpp:248-258): `(min_x, min_y, max_x, max_y)`, `none` for the
four infinities. -/
def cavcGetExtents (e : Env) (s : CState) (a : Addr) : M (Option (ℝ × ℝ × ℝ × ℝ)) := do
  let p ← e.pline s a
  let r ← getExtents p.data
  return r.map fun b => (b.xMin, b.yMin, b.xMax, b.yMax)

/-- `cavc_get_closest_point` (cavaliercontours.cpp:260-272): `closest_start_index`, `closest_point`
and `distance`. -/
def cavcGetClosestPoint (e : Env) (s : CState) (a : Addr) (x y : ℝ) : M (ℕ × ℝ × ℝ × ℝ) := do
  let p ← e.pline s a
  e.check (p.data.size ≠ 0)
  let r ← closestPoint p.data ⟨x, y⟩
  return (u32 r.index, r.point.x, r.point.y, r.distance)

/-! ### Any call -/

/-- A call of one of the functions above with its arguments. Arrays passed by the caller are their
contents (`none`: a null pointer). Counts and indexes are `uint32_t` values. -/
inductive Call
  | plineNew (vertexData : Option (List CVertex)) (vertexCount : ℕ) (isClosed : ℤ)
  | plineDelete (a : Addr)
  | plineCapacity (a : Addr)
  | plineSetCapacity (a : Addr) (size : ℕ)
  | plineVertexCount (a : Addr)
  | plineVertexData (a : Addr) (out : List CVertex)
  | plineIsClosed (a : Addr)
  | plineSetVertexData (a : Addr) (vertexData : Option (List CVertex)) (vertexCount : ℕ)
  | plineAddVertex (a : Addr) (v : CVertex)
  | plineRemoveRange (a : Addr) (start count : ℕ)
  | plineClear (a : Addr)
  | plineSetIsClosed (a : Addr) (isClosed : ℤ)
  | listDelete (l : Addr)
  | listCount (l : Addr)
  | listGet (l : Addr) (index : ℕ)
  | listRelease (l : Addr) (index : ℕ)
  | parallelOffset (a : Addr) (delta : ℝ) (flags : BitVec 32)
  | combinePlines (a b : Addr) (mode : ℤ)
  | getPathLength (a : Addr)
  | getArea (a : Addr)
  | getWindingNumber (a : Addr) (x y : ℝ)
  | getExtents (a : Addr)
  | getClosestPoint (a : Addr) (x y : ℝ)

/-- The handles a call returns: one polyline, one list (with its elements), two lists; `nothing` for
the other results. -/
inductive Ret
  | nothing
  | pline (a : Addr)
  | list (l : Addr) (elems : List Addr)
  | lists (l : Addr) (elems : List Addr) (l' : Addr) (elems' : List Addr)

/-- The call as a step of the state: each function of src/cavaliercontours.cpp:57-272. -/
def exec (e : Env) (s : CState) : Call → M (CState × Ret)
  | .plineNew d n c => do let (s, a) ← cavcPlineNew e s d n c; return (s, .pline a)
  | .plineDelete a => do let s ← cavcPlineDelete s a; return (s, .nothing)
  | .plineCapacity a => do let _ ← cavcPlineCapacity e s a; return (s, .nothing)
  | .plineSetCapacity a n => do let s ← cavcPlineSetCapacity e s a n; return (s, .nothing)
  | .plineVertexCount a => do let _ ← cavcPlineVertexCount e s a; return (s, .nothing)
  | .plineVertexData a out => do let _ ← cavcPlineVertexData e s a out; return (s, .nothing)
  | .plineIsClosed a => do let _ ← cavcPlineIsClosed e s a; return (s, .nothing)
  | .plineSetVertexData a d n => do let s ← cavcPlineSetVertexData e s a d n; return (s, .nothing)
  | .plineAddVertex a v => do let s ← cavcPlineAddVertex e s a v; return (s, .nothing)
  | .plineRemoveRange a i n => do let s ← cavcPlineRemoveRange e s a i n; return (s, .nothing)
  | .plineClear a => do let s ← cavcPlineClear e s a; return (s, .nothing)
  | .plineSetIsClosed a c => do let s ← cavcPlineSetIsClosed e s a c; return (s, .nothing)
  | .listDelete l => do let s ← cavcPlineListDelete s l; return (s, .nothing)
  | .listCount l => do let _ ← cavcPlineListCount e s l; return (s, .nothing)
  | .listGet l i => do let a ← cavcPlineListGet e s l i; return (s, .pline a)
  | .listRelease l i => do let (s, a) ← cavcPlineListRelease e s l i; return (s, .pline a)
  | .parallelOffset a d f => do
    let (s, l, es) ← cavcParallelOffset e s a d f
    return (s, .list l es)
  | .combinePlines a b m => do
    let (s, r, t) ← cavcCombinePlines e s a b m
    return (s, .lists r.1 r.2 t.1 t.2)
  | .getPathLength a => do let _ ← cavcGetPathLength e s a; return (s, .nothing)
  | .getArea a => do let _ ← cavcGetArea e s a; return (s, .nothing)
  | .getWindingNumber a x y => do let _ ← cavcGetWindingNumber e s a x y; return (s, .nothing)
  | .getExtents a => do let _ ← cavcGetExtents e s a; return (s, .nothing)
  | .getClosestPoint a x y => do let _ ← cavcGetClosestPoint e s a x y; return (s, .nothing)

end
end Cavc

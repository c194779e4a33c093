import Verif.Model.CApi

/-
What a caller of the C API knows and may do, from the documentation in
c_api_include/cavaliercontours.h, without reference to how the library keeps its objects.
-/
namespace Cavc.Spec

/-- The polyline behind a handle, if the handle is valid. -/
def valueAt (s : CState) (a : Addr) : Option Polyline :=
  match s.heap a with
  | some (.pline p) => some p.data
  | _ => none

/-- The room for vertexes of the polyline behind a handle. -/
def capacityAt (s : CState) (a : Addr) : Option ℕ :=
  match s.heap a with
  | some (.pline p) => some p.capacity
  | _ => none

/-- The handles of the elements of the list behind a handle, if the handle is valid. -/
def elemsAt (s : CState) (l : Addr) : Option (List Addr) :=
  match s.heap l with
  | some (.list es) => some es
  | _ => none

/-- What the caller has to keep track of: the polylines it has to delete (made by `cavc_pline_new` or
released from a list, not deleted since) and the lists it has to delete, each with the polylines that
belong to it. -/
structure Ledger where
  owned : Set Addr
  lists : Addr → Option (List Addr)

/-- Nothing to delete. -/
def Ledger.empty : Ledger := ⟨∅, fun _ => none⟩

/-- The polylines the caller may use: its own and the elements of its lists. -/
def Ledger.Usable (L : Ledger) (a : Addr) : Prop :=
  a ∈ L.owned ∨ ∃ l es, L.lists l = some es ∧ a ∈ es

/-- A list entered or, with `none`, removed. -/
noncomputable def Ledger.setList (L : Ledger) (l : Addr) (es : Option (List Addr)) : Ledger :=
  ⟨L.owned, Function.update L.lists l es⟩

/-- The caller's books after a call. -/
noncomputable def Ledger.after (L : Ledger) : Call → Ret → Ledger
  | .plineNew .., .pline a => ⟨insert a L.owned, L.lists⟩
  | .plineDelete a, _ => ⟨L.owned \ {a}, L.lists⟩
  | .listDelete l, _ => L.setList l none
  | .listRelease l i, .pline a =>
    ⟨insert a L.owned, (L.setList l ((L.lists l).map fun es => es.eraseIdx i)).lists⟩
  | .parallelOffset .., .list l es => L.setList l (some es)
  | .combinePlines .., .lists l es l' es' => (L.setList l (some es)).setList l' (some es')
  | _, _ => L

/-- The array has the number of elements the caller says; a null pointer only without elements. -/
def ArrayOk (d : Option (List CVertex)) (n : ℕ) : Prop :=
  match d with
  | some l => n ≤ l.length
  | none => n = 0

/-- The calls the documentation permits: only usable handles, deletion only of what the caller owns,
indexes and counts in range, arrays large enough. The counts are the ones the library reports. -/
def Allowed (e : Env) (s : CState) (L : Ledger) : Call → Prop
  | .plineNew d n _ => d = none ∨ ArrayOk d n
  | .plineDelete a => a = 0 ∨ a ∈ L.owned
  | .plineCapacity a | .plineSetCapacity a _ | .plineVertexCount a | .plineIsClosed a
  | .plineAddVertex a _ | .plineClear a | .plineSetIsClosed a _ | .getPathLength a | .getArea a
  | .getWindingNumber a _ _ | .getExtents a | .parallelOffset a _ _ => L.Usable a
  | .plineVertexData a out =>
    L.Usable a ∧ ∀ n, cavcPlineVertexCount e s a = .ok n → n ≤ out.length
  | .plineSetVertexData a d n => L.Usable a ∧ ArrayOk d n
  | .plineRemoveRange a i n =>
    L.Usable a ∧ ∀ k, cavcPlineVertexCount e s a = .ok k → i < k ∧ i + n ≤ k
  | .listDelete l => l = 0 ∨ L.lists l ≠ none
  | .listCount l => L.lists l ≠ none
  | .listGet l i | .listRelease l i => ∃ es, L.lists l = some es ∧ i < es.length
  | .combinePlines a b mode => L.Usable a ∧ L.Usable b ∧ 0 ≤ mode ∧ mode ≤ 3
  | .getClosestPoint a _ _ => L.Usable a ∧ ∀ n, cavcPlineVertexCount e s a = .ok n → n ≠ 0

/-- The states, with the caller's books, that histories of permitted calls lead to. -/
inductive Reaches (e : Env) : CState → Ledger → Prop
  | start : Reaches e CState.init Ledger.empty
  | call {s s' : CState} {L : Ledger} {c : Call} {r : Ret} : Reaches e s L → Allowed e s L c →
      exec e s c = .ok (s', r) → Reaches e s' (L.after c r)

/-- The books agree with the heap: the valid polyline handles are the usable ones, the valid list
handles are the entered ones with their elements; nobody owns a polyline twice; null is not valid. -/
structure Agrees (s : CState) (L : Ledger) : Prop where
  plines : ∀ a, valueAt s a ≠ none ↔ L.Usable a
  lists : ∀ l, elemsAt s l = L.lists l
  owned_once : ∀ a ∈ L.owned, ∀ l es, L.lists l = some es → a ∉ es
  listed_once : ∀ l es, L.lists l = some es → es.Nodup
  lists_apart : ∀ l es l' es', L.lists l = some es → L.lists l' = some es' → l ≠ l' →
    ∀ a ∈ es, a ∉ es'
  null : s.heap 0 = none

/-- The algorithm behind a call, applied to the polylines behind the handles, goes wrong: a failed
assertion inside `parallelOffset`, `combinePolylines` or one of the queries. -/
def AlgorithmFault (e : Env) (s : CState) (f : Fault) : Call → Prop
  | .parallelOffset a d fl => ∃ p, valueAt s a = some p ∧
      parallelOffset e.pf e.std e.hash p d (fl.getLsbD 0) = .error f
  | .combinePlines a b m => ∃ p q mode, valueAt s a = some p ∧ valueAt s b = some q ∧
      (m, mode) ∈ [((0 : ℤ), CombineMode.union), (1, .exclude), (2, .intersect), (3, .xor)] ∧
      combinePolylines e.pf e.std e.hash p q mode = .error f
  | .getPathLength a => ∃ p, valueAt s a = some p ∧ getPathLength p = .error f
  | .getArea a => ∃ p, valueAt s a = some p ∧ getArea p = .error f
  | .getWindingNumber a x y => ∃ p, valueAt s a = some p ∧ getWindingNumber p ⟨x, y⟩ = .error f
  | .getExtents a => ∃ p, valueAt s a = some p ∧ getExtents p = .error f
  | .getClosestPoint a x y => ∃ p, valueAt s a = some p ∧ closestPoint p ⟨x, y⟩ = .error f
  | _ => False

/-- The calls that allocate. -/
def Allocates : Call → Prop
  | .plineNew .. | .parallelOffset .. | .combinePlines .. => True
  | _ => False

/-- The handles whose object a call may change or destroy. -/
def Touches (L : Ledger) : Call → Addr → Prop
  | .plineDelete a, b | .plineSetCapacity a _, b | .plineSetVertexData a _ _, b
  | .plineAddVertex a _, b | .plineRemoveRange a _ _, b | .plineClear a, b
  | .plineSetIsClosed a _, b => b = a
  | .listDelete l, b => b = l ∨ ∃ es, L.lists l = some es ∧ b ∈ es
  | .listRelease l _, b => b = l
  | _, _ => False

end Cavc.Spec

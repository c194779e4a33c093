/-
Outcome monad of the model: every way in which the C++ code can go wrong (failed `CAVC_ASSERT`,
out of range access, `back()` on an empty vector, undefined float to integer casts, an uncaught
exception, a loop that does not end) is a distinct value, never silently totalised.
-/
namespace Cavc

/-- The ways a call can go wrong. `CAVC_ASSERT` is `assert` (include/cavc/internal/common.hpp:9). -/
inductive Fault where
  /-- a `CAVC_ASSERT` whose condition is false (debug builds abort, release builds go on) -/
  | assertFailed
  /-- reading or writing outside the initialised part of an array or vector -/
  | outOfBounds
  /-- `back()`, `pop_back()` or `[0]` on an empty vector -/
  | emptyVector
  /-- conversion of a NaN or out of range real to an integer type, or integer division by zero -/
  | badCast
  /-- division of a real by zero (inf/NaN in the code; the real model has no such values) -/
  | divByZero
  /-- `throw` that nothing catches -/
  | thrown
  /-- the fuel given to a loop of the code ran out -/
  | nonTermination
  /-- use or `delete` of a pointer that is null or points to no live object of its type -/
  | invalidPointer
  deriving DecidableEq, Repr

/-- Result of running a piece of the code. -/
abbrev M (α : Type _) := Except Fault α

/-- `v[i]` of a `std::vector`/`unique_ptr<T[]>`, out of range being a fault. -/
def getM {α : Type _} (l : List α) (i : Nat) : M α :=
  match l[i]? with
  | some x => .ok x
  | none => .error .outOfBounds

/-- `v[i] = x`, out of range being a fault. -/
def setM {α : Type _} (l : List α) (i : Nat) (x : α) : M (List α) :=
  if i < l.length then .ok (l.set i x) else .error .outOfBounds

/-- `CAVC_ASSERT(cond, msg)` (include/cavc/internal/common.hpp:9), debug semantics. -/
def assertM (c : Bool) : M Unit := if c then .ok () else .error .assertFailed

/-- `CAVC_ASSERT(cond, msg)` for a condition that is a proposition. -/
def assertP (p : Prop) [Decidable p] : M Unit := if p then .ok () else .error .assertFailed

theorem assertP_pos {p : Prop} [Decidable p] (h : p) : assertP p = .ok () := if_pos h
theorem assertP_neg {p : Prop} [Decidable p] (h : ¬ p) : assertP p = .error .assertFailed := if_neg h
theorem assertP_eq_ok {p : Prop} [Decidable p] {u : Unit} : assertP p = .ok u ↔ p := by
  by_cases h : p <;> simp [assertP, h]

@[simp] theorem ok_bind {α β : Type _} (a : α) (f : α → M β) :
    ((Except.ok a : M α) >>= f) = f a := rfl

@[simp] theorem error_bind {α β : Type _} (e : Fault) (f : α → M β) :
    ((Except.error e : M α) >>= f) = .error e := rfl

@[simp] theorem pure_eq_ok {α : Type _} (a : α) : (pure a : M α) = .ok a := rfl

@[simp] theorem map_ok {α β : Type _} (a : α) (f : α → β) :
    (f <$> (Except.ok a : M α)) = .ok (f a) := rfl

theorem bind_eq_ok {α β : Type _} {m : M α} {f : α → M β} {b : β} :
    (m >>= f) = .ok b ↔ ∃ a, m = .ok a ∧ f a = .ok b := by
  cases m <;> simp

theorem getM_eq_ok {α : Type _} {l : List α} {i : Nat} {x : α} :
    getM l i = .ok x ↔ l[i]? = some x := by
  unfold getM; split <;> simp_all

@[simp] theorem getM_of_lt {α : Type _} {l : List α} {i : Nat} (h : i < l.length) :
    getM l i = .ok l[i] := by
  simp [getM_eq_ok, h]

theorem getM_of_ge {α : Type _} {l : List α} {i : Nat} (h : l.length ≤ i) :
    getM l i = .error .outOfBounds := by
  unfold getM; simp [List.getElem?_eq_none h]

@[simp] theorem assertM_true : assertM true = .ok () := rfl
@[simp] theorem assertM_false : assertM false = .error .assertFailed := rfl

theorem assertM_eq_ok {c : Bool} {u : Unit} : assertM c = .ok u ↔ c = true := by
  cases c <;> simp

end Cavc

import Verif.Model.SpatialIndex
import Mathlib.Data.List.Sort

/-!
What the model assumes of the C++ standard library, and visitors that may fault.
-/
namespace Cavc
open scoped Classical

/-- A strict weak order, what `std::sort` requires of its comparison. -/
structure StrictWeak {α : Type} (lt : α → α → Prop) : Prop where
  irrefl : ∀ a, ¬ lt a a
  trans : ∀ a b c, lt a b → lt b c → lt a c
  incomp : ∀ a b c, ¬ lt a b → ¬ lt b a → ¬ lt b c → ¬ lt c b → ¬ lt a c ∧ ¬ lt c a

/-- `std::sort` (e.g. polylineoffset.hpp:661): some function that, for a strict weak order, permutes the range so that no element
is less than an earlier one. In which order equivalent elements come out is not specified: the
theorems hold for every such function. -/
structure StdSort where
  sort : {α : Type} → (α → α → Prop) → List α → List α
  perm : ∀ {α : Type} (lt : α → α → Prop) (l : List α), StrictWeak lt → (sort lt l).Perm l
  sorted : ∀ {α : Type} (lt : α → α → Prop) (l : List α), StrictWeak lt →
    (sort lt l).Pairwise fun a b => ¬ lt b a

/-- Insertion of one element before the first one it is not greater than. -/
noncomputable def insertBy {α : Type} (lt : α → α → Prop) (a : α) : List α → List α
  | [] => [a]
  | b :: l => if lt b a then b :: insertBy lt a l else a :: b :: l

theorem insertBy_perm {α : Type} (lt : α → α → Prop) (a : α) (l : List α) :
    (insertBy lt a l).Perm (a :: l) := by
  induction l with
  | nil => exact List.Perm.refl _
  | cons b l ih =>
    unfold insertBy
    split_ifs
    · exact (ih.cons b).trans (List.Perm.swap a b l)
    · exact List.Perm.refl _

theorem insertBy_sorted {α : Type} {lt : α → α → Prop} (h : StrictWeak lt) (a : α) (l : List α)
    (hl : l.Pairwise fun a b => ¬ lt b a) : (insertBy lt a l).Pairwise fun a b => ¬ lt b a := by
  induction l with
  | nil => simp [insertBy]
  | cons b l ih =>
    rw [List.pairwise_cons] at hl
    unfold insertBy
    split_ifs with hba
    · rw [List.pairwise_cons]
      refine ⟨fun x hx => ?_, ih hl.2⟩
      rcases List.mem_cons.1 ((insertBy_perm lt a l).mem_iff.1 hx) with rfl | hx
      · intro hab; exact h.irrefl _ (h.trans _ _ _ hba hab)
      · exact hl.1 x hx
    · rw [List.pairwise_cons]
      refine ⟨fun x hx hxa => ?_, List.pairwise_cons.2 hl⟩
      rcases List.mem_cons.1 hx with rfl | hx
      · exact hba hxa
      · have hxb := hl.1 x hx
        by_cases hbx : lt b x
        · exact hba (h.trans _ _ _ hbx hxa)
        · by_cases hab : lt a b
          · exact hxb (h.trans _ _ _ hxa hab)
          · exact (h.incomp x b a hxb hbx hba hab).1 hxa

/-- Such functions exist: insertion sort. -/
noncomputable def insertionSort : StdSort where
  sort lt l := l.foldr (insertBy lt) []
  perm lt l _ := by
    induction l with
    | nil => exact List.Perm.refl _
    | cons a l ih => exact (insertBy_perm lt a _).trans (ih.cons a)
  sorted lt l h := by
    induction l with
    | nil => exact List.Pairwise.nil
    | cons a l ih => exact insertBy_sorted h a _ ih

/-- A lambda that may fault as the visitor of `visitQuery` (staticspatialindex.hpp:233-281): after a
fault nothing more is done. -/
def faulting {σ β : Type} (f : σ → β → M (σ × Bool)) (st : M σ) (b : β) : M σ × Bool :=
  match st with
  | .error e => (.error e, false)
  | .ok st =>
    match f st b with
    | .error e => (.error e, false)
    | .ok r => (.ok r.1, r.2)

/-- `visitQuery` (staticspatialindex.hpp:232-279) with a visitor that may fault. -/
def SIndex.visitQueryM {α σ : Type} [LinearOrder α] (s : SIndex α) (q : Box α)
    (f : σ → ℕ → M (σ × Bool)) (st : σ) : M σ := do
  let r ← s.visitQuery q (faulting f) (.ok st)
  r

/-- `visitItemBoxes` (staticspatialindex.hpp:190-196) with a visitor that may fault. -/
def SIndex.visitItemBoxesM {α σ : Type} (s : SIndex α)
    (f : σ → ℕ → Box α → M (σ × Bool)) (st : σ) : M σ := do
  let r ← s.visitItemBoxes (fun st i b => faulting (fun st (x : ℕ × Box α) => f st x.1 x.2) st (i, b))
    (.ok st)
  r

end Cavc

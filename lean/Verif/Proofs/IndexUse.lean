import Verif.Proofs.PlineIndex
import Verif.Model.Intersects

/-! What users of a spatial index need: it is the index of a list of boxes. -/
namespace Cavc
open Spec
open scoped Classical
noncomputable section

/-- `s` answers queries and enumerations over `items`. -/
structure IndexOf (items : List (Box ℝ)) (s : SIndex ℝ) : Prop where
  query : ∀ q : Box ℝ, ∃ r : List ℕ, r.Nodup ∧ (∀ i, i ∈ r ↔ ∃ b, items[i]? = some b ∧ Overlap q b) ∧
    s.query q = .ok r ∧
    ∀ (σ : Type) (v : σ → ℕ → σ × Bool) (st : σ), s.visitQuery q v st = .ok (runVisitor v st r).1
  boxes : ∃ order : List (ℕ × Box ℝ), order.Perm (items.zipIdx.map fun x => (x.2, x.1)) ∧
    ∀ (σ : Type) (v : σ → ℕ → Box ℝ → σ × Bool) (st : σ), s.visitItemBoxes v st =
      .ok (runVisitor (fun st (x : ℕ × Box ℝ) => v st x.1 x.2) st order).1

theorem IndexDomain.indexOf {N : ℕ} {inf ninf : ℝ} {hv : Box ℝ → Box ℝ → M ℕ}
    {items : List (Box ℝ)} (h : IndexDomain N inf ninf hv items) :
    ∃ s, SIndex.build N inf ninf hv items = .ok s ∧ IndexOf items s := by
  obtain ⟨s, L, e, h1, h2⟩ := build_spec inf ninf hv items h.node.1 h.node.2 h.count.1 h.count.2
    h.hilbert
  have hN : 1 ≤ N := by have := h.node.1; omega
  exact ⟨s, h1, fun q => ⟨queryOrder s q, h2.nodup_queryOrder hN q, h2.mem_queryOrder hN q,
    h2.query_eq hN q, fun σ v st => h2.visitQuery_eq hN q v st⟩,
    ⟨_, present_level0 h2, fun σ v st => h2.visitItemBoxes_eq v st⟩⟩

theorem Indexable.indexOf {pf : Platform} {p : Polyline} (h : Indexable pf p) :
    ∃ s, createApproxSpatialIndex pf p = .ok s ∧ IndexOf (segBoxes p) s := by
  obtain ⟨s, h1, h2⟩ := h.dom.indexOf
  exact ⟨s, by rw [createApprox_eq _ _ h.size]; exact h1, h2⟩

theorem runVisitor_error {σ β : Type} (f : σ → β → M (σ × Bool)) (e : Fault) (l : List β) :
    (runVisitor (faulting f) (.error e) l).1 = .error e := by
  cases l <;> rfl

theorem runVisitor_faulting {σ β : Type} (f : σ → β → M (σ × Bool)) (st : σ) (l : List β) :
    (runVisitor (faulting f) (.ok st) l).1 = runM f st l := by
  induction l generalizing st with
  | nil => rfl
  | cons a l ih =>
    unfold runM runVisitor
    cases h : f st a with
    | error e =>
      simp only [error_bind, faulting, h]
      rfl
    | ok r =>
      obtain ⟨st', go⟩ := r
      simp only [ok_bind, faulting, h]
      cases go
      · rfl
      · exact ih st'

theorem runM_true {σ β : Type} (f : σ → β → M (σ × Bool)) (g : σ → β → M σ) (st : σ) (l : List β)
    (h : ∀ x ∈ l, ∀ st, f st x = (do let s ← g st x; return (s, true))) :
    runM f st l = l.foldlM g st := by
  induction l generalizing st with
  | nil => rfl
  | cons a l ih =>
    rw [runM, List.foldlM_cons, h a (by simp) st]
    cases g st a with
    | error e => rfl
    | ok s =>
      simp only [ok_bind, pure_eq_ok, if_true]
      exact ih s (fun x hx => h x (by simp [hx]))

theorem IndexOf.queryM {items : List (Box ℝ)} {s : SIndex ℝ} (h : IndexOf items s) (q : Box ℝ) :
    ∃ r : List ℕ, r.Nodup ∧ (∀ i, i ∈ r ↔ ∃ b, items[i]? = some b ∧ Overlap q b) ∧
      s.query q = .ok r ∧
      ∀ (σ : Type) (f : σ → ℕ → M (σ × Bool)) (st : σ), s.visitQueryM q f st = runM f st r := by
  obtain ⟨r, h1, h2, h3, h4⟩ := h.query q
  refine ⟨r, h1, h2, h3, fun σ f st => ?_⟩
  unfold SIndex.visitQueryM
  rw [h4, ok_bind, runVisitor_faulting]

theorem IndexOf.itemBoxesM {items : List (Box ℝ)} {s : SIndex ℝ} (h : IndexOf items s) :
    ∃ order : List (ℕ × Box ℝ), order.Perm (items.zipIdx.map fun x => (x.2, x.1)) ∧
      ∀ (σ : Type) (f : σ → ℕ → Box ℝ → M (σ × Bool)) (st : σ), s.visitItemBoxesM f st =
        runM (fun st (x : ℕ × Box ℝ) => f st x.1 x.2) st order := by
  obtain ⟨order, h1, h2⟩ := h.boxes
  refine ⟨order, h1, fun σ f st => ?_⟩
  unfold SIndex.visitItemBoxesM
  rw [h2, ok_bind]
  exact runVisitor_faulting _ _ _

end
end Cavc

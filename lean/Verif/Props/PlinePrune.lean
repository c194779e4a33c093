import Verif.Props.PlineArea
import Mathlib.Data.List.Chain
import Mathlib.Data.List.Forall2

/-! C29 (pruneSingularities). -/
namespace Cavc
open Spec
open scoped Classical

theorem fuzzyEqualV_iff (a b : V2) (ε : ℝ) : fuzzyEqualV a b ε ↔ Near ε a b := Iff.rfl

theorem lastVertex_append (c : Bool) (l : List Vertex) (v : Vertex) :
    Polyline.lastVertex ⟨c, l ++ [v]⟩ = .ok v := by
  simp [Polyline.lastVertex]

/-- Consecutive vertexes are not near each other. -/
abbrev Apart (ε : ℝ) (l : List Vertex) : Prop := l.IsChain fun v w => ¬ Near ε v.pos w.pos

theorem apart_replace_last {ε : ℝ} {l : List Vertex} {v w : Vertex} (h : Apart ε (l ++ [v]))
    (hp : w.pos = v.pos) : Apart ε (l ++ [w]) := by
  rw [Apart, List.isChain_append] at h ⊢
  refine ⟨h.1, List.isChain_singleton _, ?_⟩
  intro x hx y hy
  have := h.2.2 x hx v (by simp)
  simp at hy
  rw [← hy, hp]; exact this

theorem forall2_append_iff {α β : Type} {R : α → β → Prop} {a c : List α} {b d : List β}
    (h : a.length = b.length) :
    List.Forall₂ R (a ++ c) (b ++ d) ↔ List.Forall₂ R a b ∧ List.Forall₂ R c d := by
  induction a generalizing b with
  | nil =>
    cases b with
    | nil => simp
    | cons y b => simp at h
  | cons x a ih =>
    cases b with
    | nil => simp at h
    | cons y b =>
      simp only [List.cons_append, List.forall₂_cons, ih (by simpa using h), and_assoc]

theorem pruneLoop_spec (ε : ℝ) (c : Bool) (rest : List Vertex) :
    ∀ (gs : List (List Vertex)) (rs : List Vertex), rs ≠ [] → List.Forall₂ (Merged ε) gs rs →
      Apart ε rs →
      ∃ gs' rs', pruneLoop ε rest ⟨c, rs⟩ = .ok ⟨c, rs'⟩ ∧ rs' ≠ [] ∧
        List.Forall₂ (Merged ε) gs' rs' ∧ Apart ε rs' ∧ gs'.flatten = gs.flatten ++ rest := by
  induction rest with
  | nil => intro gs rs h1 h2 h3; exact ⟨gs, rs, rfl, h1, h2, h3, by simp⟩
  | cons v rest ih =>
    intro gs rs h1 h2 h3
    obtain ⟨rs0, last, rfl⟩ : ∃ rs0 last, rs = rs0 ++ [last] :=
      ⟨rs.dropLast, rs.getLast h1, (List.dropLast_append_getLast h1).symm⟩
    rw [pruneLoop, lastVertex_append, ok_bind]
    by_cases hf : fuzzyEqualV last.pos v.pos ε
    · rw [if_pos hf]
      have hset : Polyline.setLast ⟨c, rs0 ++ [last]⟩ ⟨last.pos, v.bulge⟩ =
          .ok ⟨c, rs0 ++ [⟨last.pos, v.bulge⟩]⟩ := by
        simp [Polyline.setLast]
      rw [hset, ok_bind]
      -- the last group grows
      have hlen : gs ≠ [] := by
        intro h0; rw [h0] at h2; simp at h2
      obtain ⟨gs0, g, rfl⟩ : ∃ gs0 g, gs = gs0 ++ [g] :=
        ⟨gs.dropLast, gs.getLast hlen, (List.dropLast_append_getLast hlen).symm⟩
      have hl0 : gs0.length = rs0.length := by
        have := h2.length_eq; simpa using this
      obtain ⟨k1, k2⟩ := (forall2_append_iff hl0).mp h2
      have k2' : Merged ε g last := by simpa using k2
      obtain ⟨h, t, hh, ht, hnear, hv⟩ := k2'
      obtain ⟨gt, rfl⟩ : ∃ gt, g = h :: gt := by
        cases g with
        | nil => simp at hh
        | cons a b => simp at hh; exact ⟨b, by rw [hh]⟩
      obtain ⟨gs', rs', e1, e2, e3, e4, e5⟩ := ih (gs0 ++ [h :: gt ++ [v]])
        (rs0 ++ [⟨last.pos, v.bulge⟩]) (by simp)
        ((forall2_append_iff hl0).mpr ⟨k1, by
          refine List.Forall₂.cons ⟨h, v, by simp, List.getLast?_concat, ?_, by rw [hv]⟩ List.Forall₂.nil
          intro w hw
          rw [List.cons_append, List.tail_cons, List.mem_append] at hw
          rcases hw with hw | hw
          · exact hnear w hw
          · simp at hw
            rw [hw]
            have : last.pos = h.pos := by rw [hv]
            rw [← this]; exact hf⟩)
        (apart_replace_last h3 rfl)
      exact ⟨gs', rs', e1, e2, e3, e4, by rw [e5]; simp⟩
    · rw [if_neg hf]
      obtain ⟨gs', rs', e1, e2, e3, e4, e5⟩ := ih (gs ++ [[v]]) (rs0 ++ [last] ++ [v]) (by simp)
        ((forall2_append_iff h2.length_eq).mpr ⟨h2,
          List.Forall₂.cons ⟨v, v, rfl, rfl, by simp, rfl⟩ List.Forall₂.nil⟩)
        (by
          rw [Apart, List.isChain_append]
          refine ⟨h3, List.isChain_singleton _, ?_⟩
          intro x hx y hy
          simp at hx hy
          rw [← hx, ← hy]; exact hf)
      exact ⟨gs', rs', e1, e2, e3, e4, by rw [e5]; simp⟩

/-- C29. The vertexes split into consecutive runs such that in each run all positions are near the
first; each run becomes one vertex with the position of its first and the bulge of its last element;
positions of consecutive runs are not near each other; and for closed polylines with more than one
run, the last one is dropped if its position is near that of the first one. -/
theorem C29_prune (p : Polyline) (ε : ℝ) :
    ∃ (q : Polyline) (runs : List (List Vertex)) (merged : List Vertex),
      pruneSingularities p ε = .ok q ∧ q.isClosed = p.isClosed ∧ runs.flatten = p.vertexes ∧
      List.Forall₂ (Merged ε) runs merged ∧
      merged.IsChain (fun v w => ¬ Near ε v.pos w.pos) ∧
      (q.vertexes = merged ∨ (p.isClosed = true ∧ 2 ≤ merged.length ∧ q.vertexes = merged.dropLast)) ∧
      (q.vertexes ≠ merged ↔ p.isClosed = true ∧ 2 ≤ merged.length ∧
        ∃ first last, merged.head? = some first ∧ merged.getLast? = some last ∧
          Near ε last.pos first.pos) := by
  unfold pruneSingularities
  rcases hv : p.vertexes with _ | ⟨v, rest⟩
  · refine ⟨_, [], [], rfl, rfl, rfl, List.Forall₂.nil, List.isChain_nil, Or.inl rfl, ?_⟩
    simp
  · obtain ⟨runs, merged, e1, e2, e3, e4, e5⟩ := pruneLoop_spec ε p.isClosed rest [[v]] [v]
      (by simp) (List.Forall₂.cons ⟨v, v, rfl, rfl, by simp, rfl⟩ List.Forall₂.nil)
      (List.isChain_singleton _)
    simp only
    rw [e1, ok_bind]
    have hflat : runs.flatten = v :: rest := by rw [e5]; simp
    obtain ⟨first, l', hm⟩ : ∃ first l', merged = first :: l' := by
      cases merged with
      | nil => exact absurd rfl e2
      | cons a b => exact ⟨a, b, rfl⟩
    by_cases hc : p.isClosed = true ∧ 2 ≤ merged.length
    · rw [if_pos (by simp only [Polyline.size]; exact ⟨hc.1, by omega⟩)]
      have hlast : Polyline.lastVertex ⟨p.isClosed, merged⟩ = .ok (merged.getLast e2) := by
        simp [Polyline.lastVertex, List.getLast?_eq_some_getLast e2]
      have hfirst : Polyline.at ⟨p.isClosed, merged⟩ 0 = .ok first := by
        simp [Polyline.at, getM, hm]
      rw [hlast, ok_bind, hfirst, ok_bind]
      have hiff : (∃ first last, merged.head? = some first ∧ merged.getLast? = some last ∧
          Near ε last.pos first.pos) ↔ Near ε (merged.getLast e2).pos first.pos := by
        rw [List.getLast?_eq_some_getLast e2]
        have : merged.head? = some first := by rw [hm]; rfl
        rw [this]
        simp
      by_cases hf : fuzzyEqualV (merged.getLast e2).pos first.pos ε
      · rw [if_pos hf]
        refine ⟨⟨p.isClosed, merged.dropLast⟩, runs, merged, ?_, rfl, hflat, e3, e4,
          Or.inr ⟨hc.1, hc.2, rfl⟩, ?_⟩
        · simp [Polyline.popBack, e2]
        · refine ⟨fun _ => ⟨hc.1, hc.2, hiff.mpr hf⟩, fun _ h => ?_⟩
          have := congrArg List.length h
          simp at this
          omega
      · rw [if_neg hf]
        refine ⟨_, runs, merged, rfl, rfl, hflat, e3, e4, Or.inl rfl, ?_⟩
        refine ⟨fun h => absurd rfl h, fun h => absurd (hiff.mp h.2.2) hf⟩
    · rw [if_neg (by simp only [Polyline.size]; intro h; exact hc ⟨h.1, by omega⟩)]
      refine ⟨_, runs, merged, rfl, rfl, hflat, e3, e4, Or.inl rfl, ?_⟩
      refine ⟨fun h => absurd rfl h, fun h => absurd ⟨h.1, h.2.1⟩ hc⟩

theorem pruneLoop_unchanged (ε : ℝ) (c : Bool) (rest : List Vertex) : ∀ (rs : List Vertex),
    rs ≠ [] → Apart ε (rs ++ rest) → pruneLoop ε rest ⟨c, rs⟩ = .ok ⟨c, rs ++ rest⟩ := by
  induction rest with
  | nil => intro rs _ _; simp [pruneLoop]
  | cons v rest ih =>
    intro rs h1 h2
    obtain ⟨rs0, last, rfl⟩ : ∃ rs0 last, rs = rs0 ++ [last] :=
      ⟨rs.dropLast, rs.getLast h1, (List.dropLast_append_getLast h1).symm⟩
    rw [pruneLoop, lastVertex_append, ok_bind]
    have hn : ¬ fuzzyEqualV last.pos v.pos ε := by
      rw [Apart, List.isChain_append] at h2
      exact h2.2.2 last (by simp) v (by simp)
    rw [if_neg hn]
    show pruneLoop ε rest ⟨c, rs0 ++ [last] ++ [v]⟩ = _
    rw [ih _ (by simp) (by simpa using h2)]
    simp

/-- C29: a polyline without near consecutive vertexes (the last and first included if it is closed)
is returned unchanged. -/
theorem C29_unchanged (p : Polyline) (ε : ℝ)
    (h : p.vertexes.IsChain (fun v w => ¬ Near ε v.pos w.pos))
    (hc : p.isClosed = true → ∀ first last, p.vertexes.head? = some first →
      p.vertexes.getLast? = some last → 2 ≤ p.vertexes.length → ¬ Near ε last.pos first.pos) :
    pruneSingularities p ε = .ok p := by
  obtain ⟨c, vs⟩ := p
  unfold pruneSingularities
  simp only at h hc ⊢
  rcases vs with _ | ⟨v, rest⟩
  · rfl
  · simp only
    rw [pruneLoop_unchanged ε c rest [v] (by simp) (by simpa using h), ok_bind]
    by_cases h2 : c = true ∧ 2 ≤ (v :: rest).length
    · rw [if_pos (by simp only [Polyline.size]; exact ⟨h2.1, h2.2⟩)]
      have hne : v :: rest ≠ [] := by simp
      have hlast : Polyline.lastVertex ⟨c, [v] ++ rest⟩ = .ok ((v :: rest).getLast hne) := by
        simp [Polyline.lastVertex, List.getLast?_eq_some_getLast hne]
      rw [hlast, ok_bind]
      have hf : ¬ fuzzyEqualV ((v :: rest).getLast hne).pos v.pos ε :=
        hc h2.1 v _ rfl (List.getLast?_eq_some_getLast hne) h2.2
      simp only [Polyline.at, getM, List.singleton_append, List.getElem?_cons_zero, ok_bind]
      rw [if_neg hf]
      rfl
    · rw [if_neg (by
        simp only [Polyline.size]
        intro h
        exact h2 ⟨h.1, h.2⟩)]
      rfl

/-- C29: a repeated vertex is removed and the later bulge kept. -/
example : pruneSingularities ⟨false, [⟨⟨0, 0⟩, 1⟩, ⟨⟨0, 0⟩, 0⟩, ⟨⟨5, 0⟩, 1⟩]⟩ 1 =
    .ok ⟨false, [⟨⟨0, 0⟩, 0⟩, ⟨⟨5, 0⟩, 1⟩]⟩ := by
  norm_num [pruneSingularities, pruneLoop, Polyline.lastVertex, Polyline.setLast, fuzzyEqualV,
    fuzzyEqual, Polyline.addVertex]

/-- C29: near but not equal positions are not transitive, so after the last vertex was dropped the
new last one can be near the first one. -/
theorem C29_closing_witness :
    pruneSingularities ⟨true, [⟨⟨0, 0⟩, 0⟩, ⟨⟨5, 0⟩, 0⟩, ⟨⟨9 / 10, 0⟩, 0⟩, ⟨⟨-(9 / 10), 0⟩, 0⟩]⟩ 1 =
      .ok ⟨true, [⟨⟨0, 0⟩, 0⟩, ⟨⟨5, 0⟩, 0⟩, ⟨⟨9 / 10, 0⟩, 0⟩]⟩ ∧ Near 1 ⟨9 / 10, 0⟩ ⟨0, 0⟩ := by
  constructor
  · simp only [pruneSingularities, pruneLoop, Polyline.lastVertex, List.getLast?_singleton, ok_bind]
    rw [if_neg (by norm_num [fuzzyEqualV, fuzzyEqual])]
    simp only [Polyline.addVertex, List.getLast?_cons_cons,
      List.getLast?_singleton, ok_bind, List.cons_append, List.nil_append]
    rw [if_neg (by norm_num [fuzzyEqualV, fuzzyEqual])]
    rw [if_neg (by norm_num [fuzzyEqualV, fuzzyEqual])]
    simp only [ok_bind, Polyline.size, List.length_cons, List.length_nil,
      List.getLast?_cons_cons, List.getLast?_singleton, Polyline.at, getM,
      List.getElem?_cons_zero]
    rw [if_pos (by norm_num), if_pos (by norm_num [fuzzyEqualV, fuzzyEqual, abs_lt])]
    simp [Polyline.popBack]
  · norm_num [Near, abs_lt]

end Cavc

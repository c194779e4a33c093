import Verif.Proofs.CutPath
import Verif.Spec.OffsetPieces

/-! Stitching slices that really meet does not change the points. -/
namespace Cavc
open Spec
open scoped Classical
noncomputable section

theorem onSeg_congr {u w w' : Vertex} (h : w.pos = w'.pos) {x : V2} : OnSeg u w x ↔ OnSeg u w' x := by
  rw [onSeg_segPt, onSeg_segPt]
  simp only [segPt_congr h]

/-- Two open polylines, one of which ends where the other one starts, as one. -/
theorem onPline_append : ∀ {a : List Vertex} {z w : Vertex} {b : List Vertex}, z.pos = w.pos → ∀ {x : V2},
    (OnPline ⟨false, a ++ w :: b⟩ x ↔ OnPline ⟨false, a ++ [z]⟩ x ∨ OnPline ⟨false, w :: b⟩ x)
  | [], _, _, _, _, _ => by
    rw [List.nil_append, List.nil_append]
    exact ⟨Or.inr, fun h => h.resolve_left onPline_single⟩
  | [u], z, w, b, h, x => by
    rw [List.singleton_append, List.singleton_append, onPline_cons, onPline_cons, onSeg_congr h]
    have : ¬ OnPline ⟨false, [z]⟩ x := onPline_single
    tauto
  | u :: u' :: a, z, w, b, h, x => by
    have ih := onPline_append (a := u' :: a) (b := b) h (x := x)
    rw [List.cons_append, List.cons_append] at ih ⊢
    rw [List.cons_append, List.cons_append, onPline_cons, onPline_cons, ih, or_assoc]

/-- Only the position of the last vertex counts. -/
theorem onPline_last {a : List Vertex} {z w : Vertex} (h : z.pos = w.pos) {x : V2} :
    OnPline ⟨false, a ++ [w]⟩ x ↔ OnPline ⟨false, a ++ [z]⟩ x := by
  rw [onPline_append h (a := a) (b := [])]
  have : ¬ OnPline ⟨false, [w]⟩ x := onPline_single
  tauto

theorem onPline_closed {h : Vertex} {t : List Vertex} (ht : t ≠ []) {x : V2} :
    OnPline ⟨true, h :: t⟩ x ↔ OnPline ⟨false, h :: t ++ [h]⟩ x := by
  have hs : segs ⟨true, h :: t⟩ = segs ⟨false, h :: t ++ [h]⟩ := by
    have hl : 0 < t.length := List.length_pos_iff.2 ht
    unfold segs
    have l1 : ¬ (h :: t).length < 2 := by simp only [List.length_cons]; omega
    have l2 : ¬ (h :: t ++ [h]).length < 2 := by simp only [List.length_cons, List.length_append]; omega
    simp only [if_neg l1, if_neg l2, if_true, Bool.false_eq_true, if_false]
    rw [show (h :: t).rotate 1 = t ++ [h] from List.rotate_cons_succ _ _ _ |>.trans (List.rotate_zero _),
      List.cons_append, List.tail_cons, ← List.cons_append]
    have := List.zip_append (l₁ := h :: t) (r₁ := [h]) (l₂ := t ++ [h]) (r₂ := ([] : List Vertex)) (by simp)
    rw [List.append_nil, List.zip_nil_right, List.append_nil] at this
    exact this.symm
  unfold OnPline IsSeg
  rw [hs]

/-- The first vertex is `a` and the last one `b`. -/
def Ends (vs : List Vertex) (a b : V2) : Prop :=
  ∃ u w, vs.head? = some u ∧ vs.getLast? = some w ∧ u.pos = a ∧ w.pos = b

/-- Closing a polyline whose ends are the same does not change its points. -/
theorem closes_onPline {closed : Bool} {ε : ℝ} {vs : List Vertex} {q : Polyline} (h : ClosesTo closed ε vs q)
    {a b : V2} (he : Ends vs a b) (hm : Near ε a b → a = b ∧ 3 ≤ vs.length) {x : V2} :
    OnPline q x ↔ OnPline ⟨false, vs⟩ x := by
  rcases h with ⟨-, ⟨u', w', h1, h2, hn⟩, rfl⟩ | ⟨-, rfl⟩
  · obtain ⟨u, w, e1, e2, rfl, rfl⟩ := he
    rw [e1] at h1
    rw [e2] at h2
    have e3 := Option.some.inj h1
    have e4 := Option.some.inj h2
    rw [← e3, ← e4] at hn
    obtain ⟨hp, hl⟩ := hm hn
    have hvs : vs = vs.dropLast ++ [w] := by
      have hne : vs ≠ [] := by rintro rfl; simp at hl
      rw [List.getLast?_eq_getLast_of_ne_nil hne] at e2
      cases e2
      exact (List.dropLast_append_getLast hne).symm
    have hdl : 2 ≤ vs.dropLast.length := by rw [List.length_dropLast]; omega
    rw [hvs] at e1
    generalize vs.dropLast = l at *
    subst hvs
    cases l with
    | nil => simp at hdl
    | cons h t =>
      rw [List.cons_append, List.head?_cons] at e1
      cases e1
      rw [onPline_closed (by rintro rfl; simp at hdl)]
      exact (onPline_last hp).symm
  · exact Iff.rfl

/-- The ends of consecutive slices are the same points. -/
def EndLinked : List (List Vertex) → Prop
  | [] => True
  | [_] => True
  | a :: b :: r => (∃ e s, a.getLast? = some e ∧ b.head? = some s ∧ e.pos = s.pos) ∧ EndLinked (b :: r)

theorem stitched_head : ∀ {ls : List (List Vertex)} {a : List Vertex}, (∀ l ∈ a :: ls, 2 ≤ l.length) →
    (stitched (a :: ls)).head? = a.head?
  | [], a, _ => rfl
  | b :: ls, a, h => by
    have := h a (by simp)
    rw [stitched]
    rcases a with _ | ⟨u, _ | ⟨w, a⟩⟩
    · simp at this
    · simp at this
    · rfl

theorem stitched_ne : ∀ {ls : List (List Vertex)} {a : List Vertex}, (∀ l ∈ a :: ls, 2 ≤ l.length) →
    stitched (a :: ls) ≠ []
  | ls, a, h => by
    intro h0
    have h1 := stitched_head h
    rw [h0] at h1
    have := h a (by simp)
    rcases a with _ | ⟨u, a⟩
    · simp at this
    · simp at h1

theorem stitched_last : ∀ {ls : List (List Vertex)} {a : List Vertex}, (∀ l ∈ a :: ls, 2 ≤ l.length) →
    ∀ z, (a :: ls).getLast? = some z → (stitched (a :: ls)).getLast? = z.getLast?
  | [], a, _, z, hz => by cases hz; rfl
  | b :: ls, a, h, z, hz => by
    rw [List.getLast?_cons_cons] at hz
    rw [stitched, List.getLast?_append_of_ne_nil _ (stitched_ne fun l hl => h l (by simp [hl]))]
    exact stitched_last (fun l hl => h l (by simp [hl])) z hz

theorem stitched_length : ∀ {ls : List (List Vertex)} {a : List Vertex}, (∀ l ∈ a :: ls, 2 ≤ l.length) →
    2 ≤ (stitched (a :: ls)).length ∧ (ls ≠ [] → 3 ≤ (stitched (a :: ls)).length)
  | [], a, h => ⟨h a (by simp), fun hn => absurd rfl hn⟩
  | b :: ls, a, h => by
    have h1 := (stitched_length (ls := ls) (a := b) fun l hl => h l (by simp [hl])).1
    have h2 := h a (by simp)
    rw [stitched, List.length_append, List.length_dropLast]
    exact ⟨by omega, fun _ => by omega⟩

theorem stitched_onPline : ∀ {ls : List (List Vertex)}, (∀ l ∈ ls, 2 ≤ l.length) → EndLinked ls → ∀ {x : V2},
    (OnPline ⟨false, stitched ls⟩ x ↔ ∃ l ∈ ls, OnPline ⟨false, l⟩ x)
  | [], _, _, x => by
    simp only [stitched, List.not_mem_nil, false_and, exists_false, iff_false]
    rintro ⟨i, v1, v2, h, -⟩
    simp [IsSeg, segs] at h
  | [a], _, _, x => by simp [stitched]
  | a :: b :: ls, h, hl, x => by
    obtain ⟨⟨e, s, h1, h2, h3⟩, h4⟩ := hl
    have ih := stitched_onPline (ls := b :: ls) (fun l hl => h l (by simp [hl])) h4 (x := x)
    have hh := stitched_head (ls := ls) (a := b) fun l hl => h l (by simp [hl])
    rw [h2] at hh
    have ha : a = a.dropLast ++ [e] := by
      have hne : a ≠ [] := by rintro rfl; simp at h1
      rw [List.getLast?_eq_getLast_of_ne_nil hne] at h1
      cases h1
      exact (List.dropLast_append_getLast hne).symm
    rw [stitched]
    generalize stitched (b :: ls) = c at *
    cases c with
    | nil => simp at hh
    | cons w c =>
      cases hh
      rw [onPline_append h3, ← ha, ih]
      simp only [List.mem_cons]
      constructor
      · rintro (h | ⟨l, hl, h⟩)
        · exact ⟨a, Or.inl rfl, h⟩
        · exact ⟨l, Or.inr hl, h⟩
      · rintro ⟨l, rfl | hl, ho⟩
        · exact Or.inl ho
        · exact Or.inr ⟨l, hl, ho⟩

theorem greedy_linked_mem {α : Type} {f : α → α → Prop} {d : α → α → ℕ} {later : List α} (v : α → List Vertex) :
    ∀ {c : List α}, (∀ a ∈ c, ∀ b ∈ c, f a b → ∃ e s, (v a).getLast? = some e ∧ (v b).head? = some s ∧ e.pos = s.pos) →
    GreedyChain f d later c → EndLinked (c.map v)
  | [], _, _ => trivial
  | [_], _, _ => trivial
  | a :: b :: c, hf, h => ⟨hf a (by simp) b (by simp) h.1,
      greedy_linked_mem v (fun a' ha b' hb => hf a' (by simp [ha]) b' (by simp [hb])) h.2.2⟩

theorem greedyChains_mem {α : Type} {f : α → α → Prop} {d : α → α → ℕ} : ∀ {cs : List (List α)},
    GreedyChains f d cs → ∀ c ∈ cs, ∃ later, GreedyChain f d later c
  | [], _, c, hc => by simp at hc
  | c :: cs, h, c', hc => by
    rcases List.mem_cons.1 hc with rfl | hc
    · exact ⟨_, h.1⟩
    · exact greedyChains_mem h.2 c' hc

/-- Slices whose ends are, if they are close, the same. -/
structure StitchOk (slices : List OpenSlice) : Prop where
  two : ∀ s ∈ slices, s.pline.isClosed = false ∧ 2 ≤ s.pline.vertexes.length
  ends : ∀ s ∈ slices, ∃ a b, Ends s.pline.vertexes a b ∧ (s.pline.vertexes.length = 2 → a ≠ b)
  apart : ∀ s ∈ slices, ∀ s' ∈ slices, ∀ a b a' b', Ends s.pline.vertexes a b → Ends s'.pline.vertexes a' b' →
    |b.x - a'.x| ≤ 2 / 10 ^ 4 → |b.y - a'.y| ≤ 2 / 10 ^ 4 → b = a'

/-- The points of the result are the points of the slices. -/
theorem stitch_points {closed : Bool} {m : ℕ} {slices : List OpenSlice} {r : List Polyline}
    (h : StitchResult closed m slices r) (hok : StitchOk slices) {x : V2} :
    (∃ q ∈ r, OnPline q x) ↔ ∃ s ∈ slices, OnPline s.pline x := by
  have hop : ∀ s ∈ slices, (⟨false, s.pline.vertexes⟩ : Polyline) = s.pline := by
    intro s hs
    rw [← (hok.two s hs).1]
  rcases h with ⟨rfl, rfl⟩ | ⟨s, q, rfl, rfl, h⟩ | ⟨-, chains, hperm, hg, hf⟩
  · simp
  · simp only [List.mem_singleton, exists_eq_left]
    obtain ⟨a, b, he, h2⟩ := hok.ends s (by simp)
    rw [closes_onPline h he, hop s (by simp)]
    intro hn
    have hab := hok.apart s (by simp) s (by simp) a b a b he he
      (by rw [abs_sub_comm]; have := hn.1.le; linarith [show (1 : ℝ) / 10 ^ 4 ≤ 2 / 10 ^ 4 by norm_num])
      (by rw [abs_sub_comm]; have := hn.2.le; linarith [show (1 : ℝ) / 10 ^ 4 ≤ 2 / 10 ^ 4 by norm_num])
    refine ⟨hab.symm, ?_⟩
    by_contra hl
    have := (hok.two s (by simp)).2
    exact h2 (by omega) hab.symm
  · have hmem : ∀ c ∈ chains, ∀ s ∈ c, s ∈ slices := fun c hc s hs =>
      hperm.mem_iff.1 (List.mem_flatten.2 ⟨c, hc, hs⟩)
    have key : ∀ c ∈ chains, ∀ q, ClosesTo closed (1 / 10 ^ 5) (stitched (c.map fun s => s.pline.vertexes)) q →
        (OnPline q x ↔ ∃ s ∈ c, OnPline s.pline x) := by
      intro c hc q hq
      obtain ⟨later, hgr⟩ := greedyChains_mem hg c hc
      have htwo : ∀ l ∈ c.map (fun s => s.pline.vertexes), 2 ≤ l.length := by
        intro l hl
        obtain ⟨s, hs, rfl⟩ := List.mem_map.1 hl
        exact (hok.two s (hmem c hc s hs)).2
      have hlink : EndLinked (c.map fun s => s.pline.vertexes) := by
        refine greedy_linked_mem _ (fun s hs s' hs' hfol => ?_) hgr
        obtain ⟨e, st, f1, f2, f3, f4⟩ := hfol
        obtain ⟨a, b, ⟨u, w, e1, e2, e3, e4⟩, -⟩ := hok.ends s (hmem c hc s hs)
        obtain ⟨a', b', ⟨u', w', e1', e2', e3', e4'⟩, -⟩ := hok.ends s' (hmem c hc s' hs')
        rw [f1] at e2
        cases e2
        rw [f2] at e1'
        cases e1'
        refine ⟨e, st, f1, f2, ?_⟩
        rw [e4, e3']
        refine hok.apart s (hmem c hc s hs) s' (hmem c hc s' hs') a b a' b' ⟨u, e, e1, f1, e3, e4⟩
          ⟨st, w', f2, e2', e3', e4'⟩ ?_ ?_
        · rw [← e4, ← e3']; linarith [show 2 * ((1 : ℝ) / 10 ^ 4) = 2 / 10 ^ 4 by norm_num]
        · rw [← e4, ← e3']; linarith [show 2 * ((1 : ℝ) / 10 ^ 4) = 2 / 10 ^ 4 by norm_num]
      cases c with
      | nil => exact absurd hgr (by simp [GreedyChain])
      | cons s0 c =>
        obtain ⟨z, hz⟩ : ∃ z, (s0 :: c).getLast? = some z := ⟨_, List.getLast?_eq_getLast_of_ne_nil (by simp)⟩
        have hzm : z ∈ s0 :: c := List.mem_of_getLast? hz
        obtain ⟨a, b, he, he2⟩ := hok.ends s0 (hmem _ hc s0 (by simp))
        obtain ⟨a', b', he', -⟩ := hok.ends z (hmem _ hc z hzm)
        have hends : Ends (stitched ((s0 :: c).map fun s => s.pline.vertexes)) a b' := by
          obtain ⟨u, w, e1, e2, e3, e4⟩ := he
          obtain ⟨u', w', e1', e2', e3', e4'⟩ := he'
          refine ⟨u, w', ?_, ?_, e3, e4'⟩
          · rw [List.map_cons] at htwo ⊢
            rw [stitched_head htwo, e1]
          · have := stitched_last (ls := c.map fun s : OpenSlice => s.pline.vertexes) (a := s0.pline.vertexes) htwo
              z.pline.vertexes (by rw [← List.map_cons (f := fun s : OpenSlice => s.pline.vertexes), List.getLast?_map, hz]; rfl)
            rw [List.map_cons, this, e2']
        rw [closes_onPline hq hends, stitched_onPline htwo hlink]
        · constructor
          · rintro ⟨l, hl, ho⟩
            obtain ⟨s, hs, rfl⟩ := List.mem_map.1 hl
            exact ⟨s, hs, by rwa [← hop s (hmem _ hc s hs)]⟩
          · rintro ⟨s, hs, ho⟩
            exact ⟨_, List.mem_map.2 ⟨s, hs, rfl⟩, by rwa [hop s (hmem _ hc s hs)]⟩
        · intro hn
          have hab := hok.apart z (hmem _ hc z hzm) s0 (hmem _ hc s0 (by simp)) a' b' a b he' he
            (by rw [abs_sub_comm]; have := hn.1.le; linarith [show (1 : ℝ) / 10 ^ 5 ≤ 2 / 10 ^ 4 by norm_num])
            (by rw [abs_sub_comm]; have := hn.2.le; linarith [show (1 : ℝ) / 10 ^ 5 ≤ 2 / 10 ^ 4 by norm_num])
          refine ⟨hab.symm, ?_⟩
          have hlen := stitched_length (ls := c.map fun s : OpenSlice => s.pline.vertexes) (a := s0.pline.vertexes) htwo
          rw [List.map_cons]
          cases c with
          | nil =>
            obtain rfl : s0 = z := Option.some.inj hz
            have : a' = a ∧ b' = b := by
              obtain ⟨u, w, e1, e2, rfl, rfl⟩ := he
              obtain ⟨u', w', e1', e2', rfl, rfl⟩ := he'
              rw [e1] at e1'; cases e1'
              rw [e2] at e2'; cases e2'
              exact ⟨rfl, rfl⟩
            obtain ⟨rfl, rfl⟩ := this
            have h2 := hlen.1
            simp only [List.map_nil, stitched] at h2 ⊢
            by_contra hl
            exact he2 (by omega) hab.symm
          | cons s1 c => exact hlen.2 (by simp)
    constructor
    · rintro ⟨q, hq, ho⟩
      obtain ⟨j, hj, rfl⟩ := List.getElem_of_mem hq
      have hlen := hf.length_eq
      have hcl := (List.forall₂_iff_get.1 hf).2 j (by omega) hj
      simp only [List.get_eq_getElem] at hcl
      obtain ⟨s, hs, ho⟩ := (key _ (List.getElem_mem _) _ hcl).1 ho
      exact ⟨s, hmem _ (List.getElem_mem _) s hs, ho⟩
    · rintro ⟨s, hs, ho⟩
      obtain ⟨c, hc, hsc⟩ := List.mem_flatten.1 (hperm.mem_iff.2 hs)
      obtain ⟨j, hj, rfl⟩ := List.getElem_of_mem hc
      have hlen := hf.length_eq
      have hcl := (List.forall₂_iff_get.1 hf).2 j hj (by omega)
      simp only [List.get_eq_getElem] at hcl
      exact ⟨_, List.getElem_mem _, (key _ (List.getElem_mem _) _ hcl).2 ⟨s, hsc, ho⟩⟩

end
end Cavc

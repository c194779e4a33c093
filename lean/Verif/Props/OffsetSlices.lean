import Verif.Props.OffsetValid
import Verif.Props.OffsetStitch

/-! C41 and C51: the slices of a raw offset polyline and `parallelOffset` as a whole. -/
namespace Cavc
open Spec
open scoped Classical
noncomputable section

/-- The position passes the distance test. -/
def SliceEnv.Valid (e : SliceEnv) (p : V2) : Prop := e.valid p = .ok true

/-- All vertexes pass the distance test, except those at the place `x`. -/
def AllValid (e : SliceEnv) (bad : V2 → Prop) (p : Polyline) : Prop :=
  ∀ v ∈ p.vertexes, e.Valid v.pos ∨ bad v.pos

theorem addOrReplace_mem {p : Polyline} {v w : Vertex} {ε : ℝ}
    (h : w ∈ (addOrReplaceIfSamePos p v ε).vertexes) :
    w.pos = v.pos ∨ ∃ u ∈ p.vertexes, u.pos = w.pos := by
  unfold addOrReplaceIfSamePos at h
  split at h
  · simp only [Polyline.addVertex, List.mem_append, List.mem_singleton] at h
    rcases h with h | rfl
    · exact Or.inr ⟨w, h, rfl⟩
    · exact Or.inl rfl
  · rename_i last hl
    split_ifs at h with hf
    · simp only [List.mem_append, List.mem_singleton] at h
      rcases h with h | rfl
      · exact Or.inr ⟨w, List.mem_of_mem_dropLast h, rfl⟩
      · exact Or.inr ⟨last, List.mem_of_getLast? hl, rfl⟩
    · simp only [Polyline.addVertex, List.mem_append, List.mem_singleton] at h
      rcases h with h | rfl
      · exact Or.inr ⟨w, h, rfl⟩
      · exact Or.inl rfl

theorem addOrReplace_closed (p : Polyline) (v : Vertex) (ε : ℝ) :
    (addOrReplaceIfSamePos p v ε).isClosed = p.isClosed := by
  unfold addOrReplaceIfSamePos
  split
  · rfl
  · split_ifs <;> rfl

theorem addOrReplace_ne (p : Polyline) (v : Vertex) (ε : ℝ) :
    (addOrReplaceIfSamePos p v ε).vertexes ≠ [] := by
  unfold addOrReplaceIfSamePos
  split
  · simp [Polyline.addVertex]
  · split_ifs <;> simp [Polyline.addVertex]

theorem AllValid.add {e : SliceEnv} {bad : V2 → Prop} {p : Polyline} (h : AllValid e bad p)
    {v : Vertex} (hv : e.Valid v.pos ∨ bad v.pos) (ε : ℝ) :
    AllValid e bad (addOrReplaceIfSamePos p v ε) := by
  intro w hw
  rcases addOrReplace_mem hw with h1 | ⟨u, hu, h1⟩
  · rw [h1]; exact hv
  · rw [← h1]; exact h u hu

theorem split_pos {v1 v2 : Vertex} {p : V2} {r : SplitResult} (h : splitAtPoint v1 v2 p = .ok r) :
    (r.updatedStart.pos = v1.pos ∨ r.updatedStart.pos = p) ∧
    (r.splitVertex.pos = p ∨ r.splitVertex.pos = v2.pos) := by
  unfold splitAtPoint at h
  split_ifs at h
  · cases h; exact ⟨Or.inl rfl, Or.inl rfl⟩
  · cases h; exact ⟨Or.inr rfl, Or.inl rfl⟩
  · cases h; exact ⟨Or.inl rfl, Or.inr rfl⟩
  · obtain ⟨a, -, h⟩ := bind_eq_ok.1 h
    cases h; exact ⟨Or.inl rfl, Or.inl rfl⟩

theorem setLast_ok {p q : Polyline} {v : Vertex} (h : p.setLast v = .ok q) :
    q.isClosed = p.isClosed ∧ q.vertexes = p.vertexes.dropLast ++ [v] := by
  unfold Polyline.setLast at h
  split_ifs at h
  cases h; exact ⟨rfl, rfl⟩

theorem lastVertex_eq_ok {p : Polyline} {v : Vertex} (h : p.lastVertex = .ok v) :
    p.vertexes.getLast? = some v := by
  unfold Polyline.lastVertex at h
  split at h
  · rename_i w hw; cases h; exact hw
  · cases h

/-- What is known of a slice. -/
structure GoodSlice (e : SliceEnv) (bad : V2 → Prop) (s : OpenSlice) : Prop where
  opened : s.pline.isClosed = false
  ne : s.pline.vertexes ≠ []
  valid : AllValid e bad s.pline

theorem betweenSlices_good {e : SliceEnv} {bad : V2 → Prop} {m : ℕ} (hm : m ≤ 2) {sIndex : ℕ} {endVertex : Vertex} :
    ∀ (sis : List V2) (prev : Vertex) (result out : List OpenSlice),
      (∀ s ∈ result, GoodSlice e bad s ∧ m ≤ s.pline.size) →
      betweenSlices e sIndex endVertex sis prev result = .ok out →
      ∀ s ∈ out, GoodSlice e bad s ∧ m ≤ s.pline.size := by
  intro sis
  induction sis with
  | nil => intro prev result out h hr; cases hr; exact h
  | cons si rest ih =>
    intro prev result out h hr
    unfold betweenSlices at hr
    obtain ⟨split, -, hr⟩ := bind_eq_ok.1 hr
    simp only at hr
    split_ifs at hr with h1
    · exact ih _ _ _ h hr
    · obtain ⟨ok1, hv1, hr⟩ := bind_eq_ok.1 hr
      split_ifs at hr with h2
      rotate_left
      · exact ih _ _ _ h hr
      · obtain ⟨ok2, hv2, hr⟩ := bind_eq_ok.1 hr
        split_ifs at hr with h3
        rotate_left
        · exact ih _ _ _ h hr
        · obtain ⟨mp, -, hr⟩ := bind_eq_ok.1 hr
          obtain ⟨ok3, hv3, hr⟩ := bind_eq_ok.1 hr
          split_ifs at hr with h4
          rotate_left
          · exact ih _ _ _ h hr
          · obtain ⟨hit, -, hr⟩ := bind_eq_ok.1 hr
            split_ifs at hr with h5
            · exact ih _ _ _ h hr
            · refine ih _ _ _ ?_ hr
              intro s hs
              rcases List.mem_append.1 hs with hs | hs
              · exact h s hs
              · rw [List.mem_singleton] at hs
                subst hs
                refine ⟨⟨rfl, by simp, ?_⟩, by simpa [Polyline.size] using hm⟩
                intro v hv
                simp only [List.mem_cons, List.not_mem_nil, or_false] at hv
                rcases hv with rfl | rfl
                · left; unfold SliceEnv.Valid; rw [hv1, h2]
                · left; unfold SliceEnv.Valid; rw [hv2, h3]

theorem finishSlice_good {e : SliceEnv} {bad : V2 → Prop} {index : ℕ} {ip : V2} {cur q : Polyline}
    (ho : cur.isClosed = false) (hv : AllValid e bad cur)
    (h : finishSlice e index ip cur = .ok (some q)) :
    q.isClosed = false ∧ q.vertexes ≠ [] ∧ AllValid e bad q := by
  unfold finishSlice at h
  obtain ⟨ok1, h1, h⟩ := bind_eq_ok.1 h
  split_ifs at h with c1
  rotate_left
  · simp at h
  · obtain ⟨last, hlast, h⟩ := bind_eq_ok.1 h
    obtain ⟨next, -, h⟩ := bind_eq_ok.1 h
    obtain ⟨split, hsplit, h⟩ := bind_eq_ok.1 h
    simp only at h
    obtain ⟨mp, -, h⟩ := bind_eq_ok.1 h
    obtain ⟨ok2, -, h⟩ := bind_eq_ok.1 h
    split_ifs at h with c2
    rotate_left
    · simp at h
    · obtain ⟨cur', hset, h⟩ := bind_eq_ok.1 h
      simp only [pure_eq_ok, Except.ok.injEq, Option.some.injEq] at h
      subst h
      have hip : e.Valid ip := by unfold SliceEnv.Valid; rw [h1, c1]
      have hlv := hv last (List.mem_of_getLast? (lastVertex_eq_ok hlast))
      obtain ⟨hc, hvs⟩ := setLast_ok hset
      refine ⟨by rw [addOrReplace_closed, hc, ho], addOrReplace_ne _ _ _, AllValid.add ?_ (Or.inl hip) _⟩
      intro v hv'
      rw [hvs] at hv'
      rcases List.mem_append.1 hv' with hv' | hv'
      · exact hv v (List.mem_of_mem_dropLast hv')
      · rw [List.mem_singleton] at hv'
        subst hv'
        rcases (split_pos hsplit).1 with h | h
        · rw [h]; exact hlv
        · rw [h]; exact Or.inl hip

theorem sliceLoop_good {e : SliceEnv} {bad : V2 → Prop} {lookup : Lookup} {adv : ℕ → Option ℕ} :
    ∀ (fuel index : ℕ) (cur q : Polyline), cur.isClosed = false →
      (∀ v ∈ cur.vertexes, e.Valid v.pos ∨ bad v.pos ∨ ∃ w, e.raw.at index = .ok w ∧ w.pos = v.pos) →
      sliceLoop e lookup adv fuel index cur = .ok (some q) →
      q.isClosed = false ∧ q.vertexes ≠ [] ∧ AllValid e bad q := by
  intro fuel
  induction fuel with
  | zero => intro index cur q _ _ h; cases h
  | succ fuel ih =>
    intro index cur q ho hv h
    unfold sliceLoop at h
    obtain ⟨v, hat, h⟩ := bind_eq_ok.1 h
    obtain ⟨ok, hok, h⟩ := bind_eq_ok.1 h
    split_ifs at h with c1
    rotate_left
    · simp at h
    · obtain ⟨last, -, h⟩ := bind_eq_ok.1 h
      obtain ⟨hit, -, h⟩ := bind_eq_ok.1 h
      have hvv : e.Valid v.pos := by unfold SliceEnv.Valid; rw [hok, c1]
      have hcur : AllValid e bad cur := by
        intro w hw
        rcases hv w hw with h | h | ⟨u, hu, h⟩
        · exact Or.inl h
        · exact Or.inr h
        · rw [hat] at hu; cases hu; rw [← h]; exact Or.inl hvv
      split_ifs at h with c2
      · simp at h
      · simp only at h
        have hadd := hcur.add (Or.inl hvv : e.Valid v.pos ∨ bad v.pos) realPrecision
        have hclo := (addOrReplace_closed cur v realPrecision).trans ho
        split at h
        · exact finishSlice_good hclo hadd h
        · cases h
        · split at h
          · simp only [pure_eq_ok, Except.ok.injEq, Option.some.injEq] at h
            subst h
            exact ⟨hclo, addOrReplace_ne _ _ _, hadd⟩
          · refine ih _ _ _ hclo ?_ h
            intro w hw
            rcases hadd w hw with h | h
            · exact Or.inl h
            · exact Or.inr (Or.inl h)

theorem innerSlices_good {e : SliceEnv} {bad : V2 → Prop} {m : ℕ} (hm : m ≤ 2) {sIndex : ℕ} {sv ev : Vertex}
    {sis : List V2} {result out : List OpenSlice}
    (h : ∀ s ∈ result, GoodSlice e bad s ∧ m ≤ s.pline.size)
    (hr : innerSlices e sIndex sv ev sis result = .ok out) :
    ∀ s ∈ out, GoodSlice e bad s ∧ m ≤ s.pline.size := by
  unfold innerSlices at hr
  split_ifs at hr with c
  · split at hr
    · cases hr
    · obtain ⟨fs, -, hr⟩ := bind_eq_ok.1 hr
      exact betweenSlices_good hm _ _ _ _ h hr
  · cases hr; exact h

theorem outerSlice_good {e : SliceEnv} {bad : V2 → Prop} {lookup : Lookup} {adv : ℕ → Option ℕ}
    {sIndex : ℕ} {sv ev : Vertex} {sis : List V2} {q : Polyline}
    (hev : e.raw.at (nextWrappingIndex sIndex e.raw.size) = .ok ev)
    (h : outerSlice e lookup adv sIndex sv ev sis = .ok (some q)) :
    q.isClosed = false ∧ q.vertexes ≠ [] ∧ AllValid e bad q := by
  unfold outerSlice at h
  split at h
  · cases h
  · obtain ⟨ok, hok, h⟩ := bind_eq_ok.1 h
    split_ifs at h with c1
    rotate_left
    · simp at h
    · obtain ⟨split, hs, h⟩ := bind_eq_ok.1 h
      refine sliceLoop_good _ _ _ _ rfl ?_ h
      intro v hv
      simp only [Polyline.addVertex, Polyline.empty, List.nil_append, List.mem_singleton] at hv
      subst hv
      rcases (split_pos hs).2 with h | h
      · left; unfold SliceEnv.Valid; rw [h, hok, c1]
      · right; right; exact ⟨ev, hev, h.symm⟩

theorem rawSliceStep_good {e : SliceEnv} {bad : V2 → Prop} {lookup : Lookup}
    {result out : List OpenSlice} {kvp : ℕ × List V2}
    (h : ∀ s ∈ result, GoodSlice e bad s ∧ 2 ≤ s.pline.size)
    (hr : rawSliceStep e lookup result kvp = .ok out) :
    ∀ s ∈ out, GoodSlice e bad s ∧ 2 ≤ s.pline.size := by
  unfold rawSliceStep at hr
  obtain ⟨sv, -, hr⟩ := bind_eq_ok.1 hr
  obtain ⟨ev, hev, hr⟩ := bind_eq_ok.1 hr
  obtain ⟨res, hin, hr⟩ := bind_eq_ok.1 hr
  obtain ⟨slice, hout, hr⟩ := bind_eq_ok.1 hr
  have hres := innerSlices_good le_rfl h hin
  split at hr
  · cases hr; exact hres
  · rename_i cur
    obtain ⟨keep, hk, hr⟩ := bind_eq_ok.1 hr
    simp only [pure_eq_ok, Except.ok.injEq] at hr
    subst hr
    obtain ⟨h1, h2, h3⟩ := outerSlice_good (bad := bad) hev hout
    split_ifs with c
    · intro s hs
      rcases List.mem_append.1 hs with hs | hs
      · exact hres s hs
      · rw [List.mem_singleton] at hs
        subst hs
        refine ⟨⟨h1, h2, h3⟩, ?_⟩
        unfold keepClosedSlice at hk
        split_ifs at hk with c1
        · exact c1
        · cases hk; simp at c
    · exact hres

theorem dualSliceStep_good {e : SliceEnv} {bad : V2 → Prop} {lookup : Lookup} {m : ℕ} (hm : m ≤ 2)
    {result out : List OpenSlice} {kvp : ℕ × List V2}
    (h : ∀ s ∈ result, GoodSlice e bad s ∧ m ≤ s.pline.size)
    (hr : dualSliceStep e lookup result kvp = .ok out) :
    ∀ s ∈ out, GoodSlice e bad s ∧ m ≤ s.pline.size := by
  unfold dualSliceStep at hr
  obtain ⟨sv, -, hr⟩ := bind_eq_ok.1 hr
  obtain ⟨ev, hev, hr⟩ := bind_eq_ok.1 hr
  obtain ⟨res, hin, hr⟩ := bind_eq_ok.1 hr
  obtain ⟨slice, hout, hr⟩ := bind_eq_ok.1 hr
  have hres := innerSlices_good hm h hin
  split at hr
  · cases hr; exact hres
  · rename_i cur
    simp only [pure_eq_ok, Except.ok.injEq] at hr
    subst hr
    obtain ⟨h1, h2, h3⟩ := outerSlice_good (bad := bad) hev hout
    split_ifs with c
    · intro s hs
      rcases List.mem_append.1 hs with hs | hs
      · exact hres s hs
      · rw [List.mem_singleton] at hs
        subst hs
        exact ⟨⟨h1, h2, h3⟩, by have : cur.size > 1 := c; simp only; omega⟩
    · exact hres

theorem firstSliceLoop_good {e : SliceEnv} {lookup : Lookup} :
    ∀ (fuel index : ℕ) (cur : Polyline) (out : List OpenSlice), cur.isClosed = false →
      AllValid e (fun _ => False) cur → firstSliceLoop e lookup fuel index cur = .ok out →
      ∃ x, ∀ s ∈ out, GoodSlice e (fun y => y = x) s ∧ 1 ≤ s.pline.size := by
  intro fuel
  induction fuel with
  | zero => intro index cur out _ _ h; cases h
  | succ fuel ih =>
    intro index cur out ho hv h
    unfold firstSliceLoop at h
    split at h
    · obtain ⟨v, hat, h⟩ := bind_eq_ok.1 h
      obtain ⟨ok, hok, h⟩ := bind_eq_ok.1 h
      cases ok with
      | false => rw [if_pos (by simp)] at h; cases h; exact ⟨⟨0, 0⟩, by simp⟩
      | true =>
        rw [if_neg (by simp)] at h
        simp only at h
        have key : ∀ hit : Bool, (if hit = true then (pure [] : M (List OpenSlice))
            else firstSliceLoop e lookup fuel (index + 1) (addOrReplaceIfSamePos cur v)) = .ok out →
            ∃ x, ∀ s ∈ out, GoodSlice e (fun y => y = x) s ∧ 1 ≤ s.pline.size := by
          intro hit h
          split_ifs at h
          · cases h; exact ⟨⟨0, 0⟩, by simp⟩
          · exact ih _ _ _ (by rw [addOrReplace_closed, ho]) (hv.add (Or.inl hok) _) h
        split_ifs at h
        · obtain ⟨last, -, h⟩ := bind_eq_ok.1 h
          obtain ⟨hit, -, h⟩ := bind_eq_ok.1 h
          exact key _ h
        · obtain ⟨hit, -, h⟩ := bind_eq_ok.1 h
          exact key _ h
    · cases h
    · rename_i ip tl hf
      obtain ⟨ok1, hok1, h⟩ := bind_eq_ok.1 h
      split_ifs at h with c1
      rotate_left
      · cases h; exact ⟨⟨0, 0⟩, by simp⟩
      · obtain ⟨v1, hv1, h⟩ := bind_eq_ok.1 h
        obtain ⟨v2, hv2, h⟩ := bind_eq_ok.1 h
        obtain ⟨split, hsplit, h⟩ := bind_eq_ok.1 h
        simp only at h
        obtain ⟨mp, -, h⟩ := bind_eq_ok.1 h
        obtain ⟨ok2, -, h⟩ := bind_eq_ok.1 h
        split_ifs at h with c2
        rotate_left
        · cases h; exact ⟨⟨0, 0⟩, by simp⟩
        · obtain ⟨hit, -, h⟩ := bind_eq_ok.1 h
          split_ifs at h with c3
          · cases h; exact ⟨⟨0, 0⟩, by simp⟩
          · cases h
            refine ⟨v1.pos, ?_⟩
            intro s hs
            rw [List.mem_singleton] at hs
            subst hs
            have hip : e.Valid ip := by unfold SliceEnv.Valid; rw [hok1, c1]
            have hv' : AllValid e (fun y => y = v1.pos) cur := fun w hw =>
              Or.inl ((hv w hw).resolve_right id)
            refine ⟨⟨?_, addOrReplace_ne _ _ _, (hv'.add ?_ _).add (Or.inl hip) _⟩, ?_⟩
            · simp only [addOrReplace_closed, ho]
            · rcases (split_pos hsplit).1 with h | h
              · exact Or.inr h
              · rw [h]; exact Or.inl hip
            · exact List.length_pos_iff.2 (addOrReplace_ne _ _ _)

/-- Every result of stitching consists of vertexes of the slices. -/
theorem stitchLoop_mem {std : StdSort} {slices : List OpenSlice} {index : SIndex ℝ} {closed : Bool}
    {m : ℕ} {thr : ℝ} {init : V2} {P : Polyline → Prop}
    (hP : ∀ vs q, 2 ≤ vs.length → (∀ v ∈ vs, ∃ s ∈ slices, v ∈ s.pline.vertexes) →
      ClosesTo closed (1 / 10 ^ 5) vs q → P q) :
    ∀ (fuel curr : ℕ) (vs : List Vertex) (visited visited' : List Bool) (result out : List Polyline),
      (∀ v ∈ vs, ∃ s ∈ slices, v ∈ s.pline.vertexes) → (∀ q ∈ result, P q) →
      stitchLoop std slices index closed m thr init fuel curr ⟨false, vs⟩ visited result =
        .ok (visited', out) → ∀ q ∈ out, P q := by
  intro fuel
  induction fuel with
  | zero => intro curr vs visited visited' result out _ _ h; cases h
  | succ fuel ih =>
    intro curr vs visited visited' result out hvs hres h
    unfold stitchLoop at h
    obtain ⟨cur, hcur, h⟩ := bind_eq_ok.1 h
    obtain ⟨ce, -, h⟩ := bind_eq_ok.1 h
    simp only at h
    obtain ⟨qr, -, h⟩ := bind_eq_ok.1 h
    obtain ⟨qr', -, h⟩ := bind_eq_ok.1 h
    have hmem : cur ∈ slices := List.mem_of_getElem? (getM_eq_ok.1 hcur)
    have hall : ∀ v ∈ vs ++ cur.pline.vertexes, ∃ s ∈ slices, v ∈ s.pline.vertexes := by
      intro v hv
      rcases List.mem_append.1 hv with hv | hv
      · exact hvs v hv
      · exact ⟨cur, hmem, hv⟩
    split at h
    · obtain ⟨res, hf, h⟩ := bind_eq_ok.1 h
      cases h
      by_cases h2 : 2 ≤ (vs ++ cur.pline.vertexes).length
      · obtain ⟨q, hq, hc⟩ := finishStitch_ok closed _ result h2
        rw [hq] at hf
        cases hf
        intro q' hq'
        rcases List.mem_append.1 hq' with hq' | hq'
        · exact hres q' hq'
        · rw [List.mem_singleton] at hq'
          subst hq'
          exact hP _ _ h2 hall hc
      · unfold finishStitch at hf
        rw [if_neg (by unfold Polyline.size; simp only; omega)] at hf
        cases hf
        exact hres
    · rename_i next tl _
      obtain ⟨vis, -, h⟩ := bind_eq_ok.1 h
      obtain ⟨popped, hpop, h⟩ := bind_eq_ok.1 h
      unfold Polyline.popBack at hpop
      split_ifs at hpop
      cases hpop
      exact ih _ _ _ _ _ _ (fun v hv => hall v (List.mem_of_mem_dropLast hv)) hres h

theorem stitchOuter_mem {std : StdSort} {slices : List OpenSlice} {index : SIndex ℝ} {closed : Bool}
    {m : ℕ} {thr : ℝ} {P : Polyline → Prop}
    (hP : ∀ vs q, 2 ≤ vs.length → (∀ v ∈ vs, ∃ s ∈ slices, v ∈ s.pline.vertexes) →
      ClosesTo closed (1 / 10 ^ 5) vs q → P q) :
    ∀ (k i : ℕ) (visited : List Bool) (result out : List Polyline), (∀ q ∈ result, P q) →
      stitchOuter std slices index closed m thr k i visited result = .ok out → ∀ q ∈ out, P q := by
  intro k
  induction k with
  | zero => intro i visited result out hres h; cases h; exact hres
  | succ k ih =>
    intro i visited result out hres h
    unfold stitchOuter at h
    obtain ⟨b, -, h⟩ := bind_eq_ok.1 h
    split_ifs at h
    · exact ih _ _ _ _ hres h
    · obtain ⟨vis, -, h⟩ := bind_eq_ok.1 h
      obtain ⟨s, -, h⟩ := bind_eq_ok.1 h
      obtain ⟨first, -, h⟩ := bind_eq_ok.1 h
      obtain ⟨⟨vis', res'⟩, hl, h⟩ := bind_eq_ok.1 h
      exact ih _ _ _ _ (stitchLoop_mem hP _ _ _ _ _ _ _ (by simp) hres hl) h

/-- Every result of stitching consists of vertexes of the slices. -/
theorem stitch_mem {pf : Platform} {std : StdSort} {slices : List OpenSlice} {closed : Bool}
    {m : ℕ} {thr : ℝ} {r : List Polyline} (ho : ∀ s ∈ slices, s.pline.isClosed = false)
    (hne : ∀ s ∈ slices, s.pline.vertexes ≠ [])
    (h : stitchOffsetSlicesTogether pf std slices closed m thr = .ok r) :
    ∀ q ∈ r, ∃ vs, (∀ v ∈ vs, ∃ s ∈ slices, v ∈ s.pline.vertexes) ∧
      ((2 ≤ vs.length ∧ ClosesTo closed (1 / 10 ^ 5) vs q) ∨
       ∃ s, slices = [s] ∧ vs = s.pline.vertexes ∧ ClosesTo closed thr vs q) := by
  match slices, h with
  | [], h => unfold stitchOffsetSlicesTogether at h; cases h; simp
  | [s], h =>
    obtain ⟨q, hq, hc⟩ := (C40_small pf std closed m thr).2 s (hne s (by simp)) (ho s (by simp))
    rw [hq] at h
    cases h
    intro q' hq'
    rw [List.mem_singleton] at hq'
    subst hq'
    exact ⟨s.pline.vertexes, fun v hv => ⟨s, by simp, hv⟩, Or.inr ⟨s, rfl, rfl, hc⟩⟩
  | s1 :: s2 :: ss, h =>
    unfold stitchOffsetSlicesTogether at h
    simp only at h
    obtain ⟨boxes, -, h⟩ := bind_eq_ok.1 h
    obtain ⟨idx, -, h⟩ := bind_eq_ok.1 h
    refine stitchOuter_mem ?_ _ _ _ _ _ (by simp) h
    intro vs q h2 hv hc
    exact ⟨vs, hv, Or.inl ⟨h2, hc⟩⟩

/-- The two kinds of results of the slicing functions. -/
theorem foldlM_good {α : Type} {P : OpenSlice → Prop} {f : List OpenSlice → α → M (List OpenSlice)}
    (hf : ∀ l a l', (∀ s ∈ l, P s) → f l a = .ok l' → ∀ s ∈ l', P s) :
    ∀ (as : List α) (l out : List OpenSlice), (∀ s ∈ l, P s) → as.foldlM f l = .ok out →
      ∀ s ∈ out, P s := by
  intro as
  induction as with
  | nil => intro l out h hr; cases hr; exact h
  | cons a as ih =>
    intro l out h hr
    rw [List.foldlM_cons] at hr
    obtain ⟨l', h1, hr⟩ := bind_eq_ok.1 hr
    exact ih _ _ (hf _ _ _ h h1) hr

theorem slicesFromRawOffset_good {pf : Platform} {std : StdSort} {hash : HashOrder}
    {p raw : Polyline} {offset : ℝ} {out : List OpenSlice} {index : SIndex ℝ}
    (hidx : createApproxSpatialIndex pf p = .ok index)
    (h : slicesFromRawOffset pf std hash p raw offset = .ok out) :
    (∀ s ∈ out, GoodSlice ⟨p, index, offset, raw⟩ (fun _ => False) s ∧ 2 ≤ s.pline.size) ∨
    ∃ ri v, 2 ≤ raw.size ∧ createApproxSpatialIndex pf raw = .ok ri ∧
      allSelfIntersects raw [] ri = .ok [] ∧ raw.at 0 = .ok v ∧
      SliceEnv.Valid ⟨p, index, offset, raw⟩ v.pos ∧ out = [wholeSlice raw v true] := by
  unfold slicesFromRawOffset at h
  obtain ⟨-, -, h⟩ := bind_eq_ok.1 h
  split_ifs at h with c
  · cases h; left; simp
  · obtain ⟨i, hi, h⟩ := bind_eq_ok.1 h
    rw [hidx] at hi
    cases hi
    obtain ⟨ri, hri, h⟩ := bind_eq_ok.1 h
    obtain ⟨si, hsi, h⟩ := bind_eq_ok.1 h
    simp only at h
    split_ifs at h with c1
    · obtain ⟨v, hv, h⟩ := bind_eq_ok.1 h
      obtain ⟨ok, hok, h⟩ := bind_eq_ok.1 h
      split_ifs at h with c2
      · cases h
        right
        rw [List.length_eq_zero_iff] at c1
        subst c1
        exact ⟨ri, v, by omega, hri, hsi, hv, by unfold SliceEnv.Valid; rw [hok, c2], rfl⟩
      · cases h; left; simp
    · obtain ⟨lookup, -, h⟩ := bind_eq_ok.1 h
      left
      exact foldlM_good (fun l a l' hl hf => rawSliceStep_good hl hf) _ _ _ (by simp) h

theorem dualSlice_good {pf : Platform} {std : StdSort}
    {p raw dual : Polyline} {offset : ℝ} {out : List OpenSlice} {index : SIndex ℝ}
    (hidx : createApproxSpatialIndex pf p = .ok index)
    (h : dualSliceAtIntersectsForOffset pf std p raw dual offset = .ok out) :
    (∃ x, ∀ s ∈ out, GoodSlice ⟨p, index, offset, raw⟩
      (fun y => p.isClosed = false ∧ y = x) s ∧ (p.isClosed = true → 2 ≤ s.pline.size)) ∨
    ∃ v, 2 ≤ raw.size ∧ raw.at 0 = .ok v ∧
      SliceEnv.Valid ⟨p, index, offset, raw⟩ v.pos ∧ out = [wholeSlice raw v p.isClosed] := by
  unfold dualSliceAtIntersectsForOffset at h
  split_ifs at h with c
  · cases h; left; exact ⟨⟨0, 0⟩, by simp⟩
  · obtain ⟨i, hi, h⟩ := bind_eq_ok.1 h
    rw [hidx] at hi
    cases hi
    obtain ⟨ri, hri, h⟩ := bind_eq_ok.1 h
    obtain ⟨si, hsi, h⟩ := bind_eq_ok.1 h
    obtain ⟨du, hdu, h⟩ := bind_eq_ok.1 h
    obtain ⟨ci, hci, h⟩ := bind_eq_ok.1 h
    simp only at h
    split_ifs at h with c1
    · obtain ⟨v, hv, h⟩ := bind_eq_ok.1 h
      obtain ⟨ok, hok, h⟩ := bind_eq_ok.1 h
      split_ifs at h with c2
      · cases h
        right
        exact ⟨v, by omega, hv, by unfold SliceEnv.Valid; rw [hok, c2], rfl⟩
      · cases h; left; exact ⟨⟨0, 0⟩, by simp⟩
    · obtain ⟨lookup, -, h⟩ := bind_eq_ok.1 h
      obtain ⟨first, hfirst, h⟩ := bind_eq_ok.1 h
      left
      unfold dualFirst at hfirst
      simp only at hfirst
      by_cases hcl : p.isClosed = true
      · rw [if_pos hcl] at hfirst
        cases hfirst
        refine ⟨⟨0, 0⟩, ?_⟩
        have := foldlM_good (fun l a l' hl hf => dualSliceStep_good
          (bad := fun y => p.isClosed = false ∧ y = ⟨0, 0⟩) (le_refl 2) hl hf) _ _ _ (by simp) h
        intro s hs
        exact ⟨(this s hs).1, fun _ => (this s hs).2⟩
      · rw [if_neg hcl] at hfirst
        obtain ⟨x, hx⟩ := firstSliceLoop_good _ _ _ _ rfl (by intro v hv; simp [Polyline.empty] at hv)
          hfirst
        refine ⟨x, ?_⟩
        have := foldlM_good (fun l a l' hl hf => dualSliceStep_good (by omega : 1 ≤ 2) hl hf) _ _ _
          hx h
        intro s hs
        obtain ⟨h1, h2⟩ := this s hs
        refine ⟨⟨h1.opened, h1.ne, fun v hv => ?_⟩, fun h => absurd h hcl⟩
        rcases h1.valid v hv with h | h
        · exact Or.inl h
        · exact Or.inr ⟨by simpa using hcl, h⟩

theorem clear_of_env {pf : Platform} {p raw : Polyline} (hi : Indexable pf p) (hok : PlineOk p)
    {offset : ℝ} (ho : 1 / 10 ^ 4 ≤ |offset|) : ∃ index, createApproxSpatialIndex pf p = .ok index ∧
      ∀ pt, SliceEnv.Valid ⟨p, index, offset, raw⟩ pt → Clear p (|offset| - 1 / 10 ^ 4) pt := by
  obtain ⟨s, hs, hx⟩ := hi.indexOf
  refine ⟨s, hs, fun pt hv => ?_⟩
  obtain ⟨b, hb, hbi⟩ := pointValid_iff hx hok offset offsetThreshold pt
  unfold SliceEnv.Valid SliceEnv.valid at hv
  simp only at hv
  rw [hb] at hv
  cases hv
  exact clear_of_valid hok (by linarith) (hbi.1 rfl)

theorem closesTo_mem {closed : Bool} {ε : ℝ} {vs : List Vertex} {q : Polyline}
    (h : ClosesTo closed ε vs q) {v : Vertex} (hv : v ∈ q.vertexes) : v ∈ vs := by
  rcases h with ⟨-, -, rfl⟩ | ⟨-, rfl⟩
  · exact List.mem_of_mem_dropLast hv
  · exact hv

theorem stitch_whole {pf : Platform} {std : StdSort} {raw : Polyline} {v : Vertex} {closed : Bool}
    {m : ℕ} (h2 : 2 ≤ raw.size) (hv : raw.at 0 = .ok v) {r : List Polyline}
    (h : stitchOffsetSlicesTogether pf std [wholeSlice raw v closed] closed m = .ok r) :
    r = [⟨closed, raw.vertexes⟩] := by
  have hne : raw.vertexes ≠ [] := by
    intro h; unfold Polyline.size at h2; rw [h] at h2; simp at h2
  obtain ⟨q, hq, hc⟩ := (C40_small pf std closed m sliceJoinThreshold).2 (wholeSlice raw v closed)
    (by unfold wholeSlice; simp only; split_ifs <;> simp [hne]) rfl
  rw [hq] at h
  cases h
  congr 1
  cases closed with
  | false =>
    rcases hc with ⟨h, -, -⟩ | ⟨-, rfl⟩
    · cases h
    · simp [wholeSlice]
  | true =>
    have hem : EndsMeet sliceJoinThreshold (wholeSlice raw v true).pline.vertexes := by
      refine ⟨v, ⟨v.pos, 0⟩, ?_, ?_, ?_⟩
      · have := getM_eq_ok.1 hv
        obtain ⟨a, t, hat⟩ := List.exists_cons_of_ne_nil hne
        rw [hat] at this
        simp only [List.getElem?_cons_zero, Option.some.injEq] at this
        simp [wholeSlice, hat, this]
      · simp [wholeSlice]
      · constructor <;> simp [sliceJoinThreshold]
    rcases hc with ⟨-, -, rfl⟩ | ⟨h, -⟩
    · simp [wholeSlice]
    · exact absurd ⟨rfl, hem⟩ h

/-- C51 (closed polylines without self intersections). Whenever `parallelOffset` returns, either every
vertex of every resulting polyline is clear of the whole input polyline by the offset minus the
tolerance 1e-4, or the raw offset polyline has no self intersections at all, its first vertex is
clear, and the result is the raw offset polyline itself. -/
theorem C51_parallelOffset_distance {pf : Platform} {std : StdSort} {hash : HashOrder} {p : Polyline}
    {offset : ℝ} (hi : Indexable pf p) (hok : PlineOk p) (hc : p.isClosed = true)
    (ho : 1 / 10 ^ 4 ≤ |offset|) {r : List Polyline}
    (hr : parallelOffset pf std hash p offset = .ok r) :
    (∀ q ∈ r, ∀ v ∈ q.vertexes, Clear p (|offset| - 1 / 10 ^ 4) v.pos) ∨
    ∃ raw index v, createRawOffsetPline p offset = .ok raw ∧
      createApproxSpatialIndex pf raw = .ok index ∧ allSelfIntersects raw [] index = .ok [] ∧
      raw.vertexes.head? = some v ∧ Clear p (|offset| - 1 / 10 ^ 4) v.pos ∧
      r = [⟨true, raw.vertexes⟩] := by
  unfold parallelOffset at hr
  split_ifs at hr with h1 h2
  · cases hr; left; simp
  · obtain ⟨raw, hraw, hr⟩ := bind_eq_ok.1 hr
    simp only at hr
    obtain ⟨slices, hsl, hr⟩ := bind_eq_ok.1 hr
    obtain ⟨index, hidx, hclear⟩ := clear_of_env (raw := raw) hi hok ho
    rcases slicesFromRawOffset_good hidx hsl with hg | ⟨ri, v, hsz, hri, hsi, hv, hval, rfl⟩
    · left
      intro q hq v hv
      obtain ⟨vs, hvs, hcl⟩ := stitch_mem (fun s hs => (hg s hs).1.opened) (fun s hs => (hg s hs).1.ne)
        hr q hq
      have hvm : v ∈ vs := by
        rcases hcl with ⟨-, h⟩ | ⟨s, -, -, h⟩ <;> exact closesTo_mem h hv
      obtain ⟨s, hs, hvs⟩ := hvs v hvm
      exact hclear _ (((hg s hs).1.valid v hvs).resolve_right id)
    · right
      refine ⟨raw, ri, v, hraw, hri, hsi, ?_, hclear _ hval, ?_⟩
      · have := getM_eq_ok.1 hv
        rw [List.head?_eq_getElem?]; exact this
      · rw [hc] at hr
        exact stitch_whole hsz hv hr
  · simp [hc] at h2

/-- C51 (open polylines and polylines with self intersections). Whenever `parallelOffset` returns,
every vertex of every resulting polyline is clear of the whole input polyline, except that vertexes
of the results of an open polyline at one single place may not have been tested; or the raw offset
polyline has nothing to be cut at, its first vertex is clear and it is itself the result. -/
theorem C51_dual_distance {pf : Platform} {std : StdSort} {hash : HashOrder} {p : Polyline}
    {offset : ℝ} (hi : Indexable pf p) (hok : PlineOk p) (flag : Bool)
    (hf : p.isClosed = false ∨ flag = true) (ho : 1 / 10 ^ 4 ≤ |offset|) {r : List Polyline}
    (hr : parallelOffset pf std hash p offset flag = .ok r) :
    (∃ x, ∀ q ∈ r, ∀ v ∈ q.vertexes, Clear p (|offset| - 1 / 10 ^ 4) v.pos ∨
      (p.isClosed = false ∧ v.pos = x)) ∨
    ∃ raw v, createRawOffsetPline p offset = .ok raw ∧
      raw.vertexes.head? = some v ∧ Clear p (|offset| - 1 / 10 ^ 4) v.pos ∧
      r = [⟨p.isClosed, raw.vertexes⟩] := by
  unfold parallelOffset at hr
  split_ifs at hr with h1 h2
  · cases hr; left; exact ⟨⟨0, 0⟩, by simp⟩
  · exfalso
    rcases hf with h | h
    · rw [h] at h2; simp at h2
    · exact h2.2 h
  · obtain ⟨raw, hraw, hr⟩ := bind_eq_ok.1 hr
    simp only at hr
    obtain ⟨draw, hdraw, hr⟩ := bind_eq_ok.1 hr
    obtain ⟨slices, hsl, hr⟩ := bind_eq_ok.1 hr
    obtain ⟨index, hidx, hclear⟩ := clear_of_env (raw := raw) hi hok ho
    rcases dualSlice_good hidx hsl with ⟨x, hg⟩ | ⟨v, hsz, hv, hval, rfl⟩
    · left
      refine ⟨x, ?_⟩
      intro q hq v hv
      obtain ⟨vs, hvs, hcl⟩ := stitch_mem (fun s hs => (hg s hs).1.opened) (fun s hs => (hg s hs).1.ne)
        hr q hq
      have hvm : v ∈ vs := by
        rcases hcl with ⟨-, h⟩ | ⟨s, -, -, h⟩ <;> exact closesTo_mem h hv
      obtain ⟨s, hs, hvs⟩ := hvs v hvm
      rcases (hg s hs).1.valid v hvs with h | h
      · exact Or.inl (hclear _ h)
      · exact Or.inr h
    · right
      refine ⟨raw, v, hraw, ?_, hclear _ hval, ?_⟩
      · have := getM_eq_ok.1 hv
        rw [List.head?_eq_getElem?]; exact this
      · exact stitch_whole hsz hv hr

/-- C41. Fewer than two vertexes have no offset. -/
theorem C41_small {pf : Platform} {std : StdSort} {hash : HashOrder} {p : Polyline}
    (h : p.vertexes.length < 2) (offset : ℝ) (flag : Bool) :
    parallelOffset pf std hash p offset flag = .ok [] := by
  unfold parallelOffset
  rw [if_pos (show p.size < 2 from h)]

theorem endsMeet_mono {ε ε' : ℝ} (h : ε ≤ ε') {vs : List Vertex} (hm : EndsMeet ε vs) :
    EndsMeet ε' vs := by
  obtain ⟨a, b, h1, h2, h3, h4⟩ := hm
  exact ⟨a, b, h1, h2, h3.trans_le h, h4.trans_le h⟩

/-- C41. The offsets of an open polyline are open; those of a closed polyline are closed unless their
ends do not meet; none of them is empty. -/
theorem C41_shape {pf : Platform} {std : StdSort} {hash : HashOrder} {p : Polyline}
    {offset : ℝ} {flag : Bool} {index : SIndex ℝ} (hidx : createApproxSpatialIndex pf p = .ok index)
    {r : List Polyline} (hr : parallelOffset pf std hash p offset flag = .ok r) :
    ∀ q ∈ r, q.vertexes ≠ [] ∧ (q.isClosed = true → p.isClosed = true) ∧
      (p.isClosed = true → q.isClosed = false →
        2 ≤ q.vertexes.length ∧ ¬ EndsMeet (1 / 10 ^ 5) q.vertexes) := by
  have fin : ∀ (slices : List OpenSlice) (m : ℕ),
      (∀ s ∈ slices, s.pline.isClosed = false ∧ s.pline.vertexes ≠ [] ∧
        (p.isClosed = true → 2 ≤ s.pline.vertexes.length)) →
      stitchOffsetSlicesTogether pf std slices p.isClosed m = .ok r →
      ∀ q ∈ r, q.vertexes ≠ [] ∧ (q.isClosed = true → p.isClosed = true) ∧
      (p.isClosed = true → q.isClosed = false →
        2 ≤ q.vertexes.length ∧ ¬ EndsMeet (1 / 10 ^ 5) q.vertexes) := by
    intro slices m hs hr q hq
    obtain ⟨vs, hvs, hcl⟩ := stitch_mem (fun s h => (hs s h).1) (fun s h => (hs s h).2.1) hr q hq
    have hcl' : ∃ ε : ℝ, 1 / 10 ^ 5 ≤ ε ∧ ClosesTo p.isClosed ε vs q ∧ vs ≠ [] ∧
        (p.isClosed = true → 2 ≤ vs.length) := by
      rcases hcl with ⟨h2, h⟩ | ⟨s, hs1, rfl, h⟩
      · exact ⟨_, le_rfl, h, by intro h; rw [h] at h2; simp at h2, fun _ => h2⟩
      · have := hs s (by rw [hs1]; simp)
        exact ⟨_, by norm_num [sliceJoinThreshold], h, this.2.1, this.2.2⟩
    obtain ⟨ε, hε, hc, hne, h2⟩ := hcl'
    rcases hc with ⟨hpc, hm, rfl⟩ | ⟨hn, rfl⟩
    · refine ⟨?_, fun _ => hpc, fun _ h => by cases h⟩
      have := h2 hpc
      intro h
      have := congrArg List.length h
      simp at this
      omega
    · refine ⟨hne, fun h => (by cases h), fun hpc _ => ⟨h2 hpc, fun hm => hn ⟨hpc, endsMeet_mono hε hm⟩⟩⟩
  have whole : ∀ (raw : Polyline) (v : Vertex), 2 ≤ raw.size → ∀ s ∈ [wholeSlice raw v p.isClosed],
      s.pline.isClosed = false ∧ s.pline.vertexes ≠ [] ∧
        (p.isClosed = true → 2 ≤ s.pline.vertexes.length) := by
    intro raw v h2 s hs
    rw [List.mem_singleton] at hs
    subst hs
    have hne : raw.vertexes ≠ [] := by
      intro h; unfold Polyline.size at h2; rw [h] at h2; simp at h2
    unfold Polyline.size at h2
    refine ⟨rfl, ?_, fun h => ?_⟩
    · unfold wholeSlice; simp only; split_ifs <;> simp [hne]
    · simp [wholeSlice, h]; omega
  unfold parallelOffset at hr
  split_ifs at hr with h1 h2
  · cases hr; simp
  · obtain ⟨raw, hraw, hr⟩ := bind_eq_ok.1 hr
    simp only at hr
    obtain ⟨slices, hsl, hr⟩ := bind_eq_ok.1 hr
    rcases slicesFromRawOffset_good hidx hsl with hg | ⟨ri, v, hsz, hri, hsi, hv, hval, rfl⟩
    · exact fin slices _ (fun s hs => ⟨(hg s hs).1.opened, (hg s hs).1.ne, fun _ => (hg s hs).2⟩) hr
    · have := whole raw v hsz
      rw [h2.1] at this
      exact fin _ _ (by simpa [h2.1] using this) hr
  · obtain ⟨raw, hraw, hr⟩ := bind_eq_ok.1 hr
    simp only at hr
    obtain ⟨draw, hdraw, hr⟩ := bind_eq_ok.1 hr
    obtain ⟨slices, hsl, hr⟩ := bind_eq_ok.1 hr
    rcases dualSlice_good hidx hsl with ⟨x, hg⟩ | ⟨v, hsz, hv, hval, rfl⟩
    · exact fin slices _ (fun s hs => ⟨(hg s hs).1.opened, (hg s hs).1.ne, (hg s hs).2⟩) hr
    · exact fin _ _ (whole raw v hsz) hr

/-! ### The loop counts -/

theorem next_dist {n k i : ℕ} (hk : k < n) (hi : i < n) (hne : i ≠ k) :
    nextWrappingIndex i n < n ∧
      (k + n - nextWrappingIndex i n) % n + 1 = (k + n - i) % n := by
  unfold nextWrappingIndex
  split_ifs with h
  · refine ⟨by omega, ?_⟩
    have h2 : (k + n - 0) % n = k := by
      rw [Nat.sub_zero, Nat.add_mod_right, Nat.mod_eq_of_lt hk]
    rw [h2, Nat.mod_eq_of_lt (by omega)]; omega
  · refine ⟨by omega, ?_⟩
    by_cases hik : i < k
    · rw [show k + n - (i + 1) = k - i - 1 + n by omega, show k + n - i = k - i + n by omega,
        Nat.add_mod_right, Nat.add_mod_right, Nat.mod_eq_of_lt (by omega), Nat.mod_eq_of_lt (by omega)]
      omega
    · rw [Nat.mod_eq_of_lt (by omega), Nat.mod_eq_of_lt (by omega)]; omega

theorem sliceLoop_fuel {e : SliceEnv} {lookup : Lookup} {k : ℕ} (hk : k < e.raw.size)
    (hf : lookup.find? k ≠ none) {adv : ℕ → Option ℕ}
    (hadv : ∀ i < e.raw.size, adv i = none ∨ adv i = some (nextWrappingIndex i e.raw.size)) (extra : ℕ) :
    ∀ (fuel i : ℕ) (cur : Polyline), i < e.raw.size → (k + e.raw.size - i) % e.raw.size < fuel →
      sliceLoop e lookup adv (fuel + extra) i cur = sliceLoop e lookup adv fuel i cur := by
  intro fuel
  induction fuel with
  | zero => intro i cur _ h; omega
  | succ fuel ih =>
    intro i cur hi hd
    rw [show fuel + 1 + extra = fuel + extra + 1 by omega]
    unfold sliceLoop
    cases hl : lookup.find? i with
    | some l => cases l <;> rfl
    | none =>
      have hne : i ≠ k := by rintro rfl; exact hf hl
      obtain ⟨h1, h2⟩ := next_dist hk hi hne
      simp only
      rcases hadv i hi with ha | ha
      · rw [ha]
      · rw [ha]
        simp only
        simp only [ih _ _ h1 (by omega)]

/-- C51: the loop count of the `while (true)` that builds a slice is never exceeded: it starts after
a vertex whose segment has an intersect, and allowing any number of further iterations does not
change what the loop does. -/
theorem C51_slice_loop_bound {e : SliceEnv} {lookup : Lookup} {k : ℕ} (hk : k < e.raw.vertexes.length)
    (hf : lookup.find? k ≠ none) (closed : Bool) (extra : ℕ) (cur : Polyline) :
    sliceLoop e lookup (fun i => some (nextWrappingIndex i e.raw.size)) (e.raw.size + 1 + extra)
      (nextWrappingIndex k e.raw.size) cur =
    sliceLoop e lookup (fun i => some (nextWrappingIndex i e.raw.size)) (e.raw.size + 1)
      (nextWrappingIndex k e.raw.size) cur ∧
    sliceLoop e lookup (dualAdvance closed e.raw.size) (e.raw.size + 1 + extra)
      (nextWrappingIndex k e.raw.size) cur =
    sliceLoop e lookup (dualAdvance closed e.raw.size) (e.raw.size + 1)
      (nextWrappingIndex k e.raw.size) cur := by
  have hk' : k < e.raw.size := hk
  have hn : nextWrappingIndex k e.raw.size < e.raw.size := by
    unfold nextWrappingIndex; split_ifs <;> omega
  have hm := Nat.mod_lt (k + e.raw.size - nextWrappingIndex k e.raw.size)
    (show 0 < e.raw.size by omega)
  constructor
  · exact sliceLoop_fuel hk' hf (fun i _ => Or.inr rfl) extra _ _ _ hn (by omega)
  · refine sliceLoop_fuel hk' hf (fun i hi => ?_) extra _ _ _ hn (by omega)
    unfold dualAdvance nextWrappingIndex
    by_cases h : i = e.raw.size - 1
    · rw [if_pos h, if_pos h]
      cases closed
      · left; rfl
      · right; rfl
    · rw [if_neg h, if_neg h]; right; rfl

theorem firstSliceLoop_fuel {e : SliceEnv} {lookup : Lookup} (extra : ℕ) :
    ∀ (fuel i : ℕ) (cur : Polyline), i ≤ e.raw.size → e.raw.size < i + fuel →
      firstSliceLoop e lookup (fuel + extra) i cur = firstSliceLoop e lookup fuel i cur := by
  intro fuel
  induction fuel with
  | zero => intro i cur h1 h2; omega
  | succ fuel ih =>
    intro i cur h1 h2
    rw [show fuel + 1 + extra = fuel + extra + 1 by omega]
    unfold firstSliceLoop
    cases hl : lookup.find? i with
    | some l => cases l <;> rfl
    | none =>
      simp only
      by_cases hi : i < e.raw.size
      · simp only [ih _ _ (show i + 1 ≤ e.raw.size by omega) (show e.raw.size < i + 1 + fuel by omega)]
      · have : e.raw.at i = .error .outOfBounds := by
          unfold Polyline.at getM
          rw [List.getElem?_eq_none (by unfold Polyline.size at hi; omega)]
        rw [this]; rfl

/-- C51: nor is the loop count of the `while (true)` that builds the first slice of an open
polyline. -/
theorem C51_first_slice_loop_bound (e : SliceEnv) (lookup : Lookup) (extra : ℕ) (cur : Polyline) :
    firstSliceLoop e lookup (e.raw.size + 1 + extra) 0 cur =
      firstSliceLoop e lookup (e.raw.size + 1) 0 cur :=
  firstSliceLoop_fuel extra _ _ _ (Nat.zero_le _) (by omega)

end
end Cavc

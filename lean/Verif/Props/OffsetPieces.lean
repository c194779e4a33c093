import Verif.Props.OffsetCuts
import Verif.Props.SelfIntersects

/-! C59: what `parallelOffset` puts together. -/
namespace Cavc
open Spec
open scoped Classical
noncomputable section

/-! ### One entry of the lookup -/

/-- What comes of the last cut of a segment. -/
def OuterIs (p : Polyline) (offset : ℝ) (e : SliceEnv) (lookup : Lookup) (adv : ℕ → Option ℕ)
    (long : Polyline → Prop) (k : ℕ) (x : V2) (o : Option Polyline) : Prop :=
  ∃ o' : Option Polyline, (∀ s, o = some s ↔ o' = some s ∧ 2 ≤ s.vertexes.length ∧ long s) ∧
    ((¬ FarEnough p offset x ∧ o' = none) ∨ (FarEnough p offset x ∧ ∃ r,
      splitAtPoint (vtx e.raw k) (vtx e.raw ((k + 1) % e.raw.size)) x = .ok r ∧
      sliceLoop e lookup adv (e.raw.size + 1) ((k + 1) % e.raw.size) ⟨false, [r.splitVertex]⟩ = .ok o'))

/-- What comes of the cuts of a segment. -/
structure StepIs (p : Polyline) (offset : ℝ) (e : SliceEnv) (lookup : Lookup) (adv : ℕ → Option ℕ)
    (long : Polyline → Prop) (kv : ℕ × List V2) (os : List (Option Polyline)) : Prop where
  len : os.length = kv.2.length
  inner : ∀ t x o, kv.2[t + 1]? = some x → os[t]? = some o →
    WithinIs p offset (vtx e.raw ((kv.1 + 1) % e.raw.size)) (vtx e.raw kv.1) (kv.2.take (t + 1)) x o
  outer : ∀ t x o, t + 1 = kv.2.length → kv.2[t]? = some x → os[t]? = some o →
    OuterIs p offset e lookup adv long kv.1 x o

theorem outer_is {p : Polyline} {offset : ℝ} {e : SliceEnv} (ht : Tests p offset e) {lookup : Lookup}
    {adv : ℕ → Option ℕ} {k : ℕ} (hk : k < e.raw.size) {sis : List V2} {o' : Option Polyline}
    (h : outerSlice e lookup adv k (vtx e.raw k) (vtx e.raw ((k + 1) % e.raw.size)) sis = .ok o') :
    ∃ x, sis.getLast? = some x ∧
    ((¬ FarEnough p offset x ∧ o' = none) ∨ (FarEnough p offset x ∧ ∃ r,
      splitAtPoint (vtx e.raw k) (vtx e.raw ((k + 1) % e.raw.size)) x = .ok r ∧
      sliceLoop e lookup adv (e.raw.size + 1) ((k + 1) % e.raw.size) ⟨false, [r.splitVertex]⟩ = .ok o')) := by
  unfold outerSlice at h
  cases hl : sis.getLast? with
  | none => rw [hl] at h; cases h
  | some x =>
    rw [hl] at h
    simp only at h
    refine ⟨x, rfl, ?_⟩
    obtain ⟨b, hb, h⟩ := bind_eq_ok.1 h
    by_cases c : b = true
    · rw [if_neg (not_not.2 c)] at h
      obtain ⟨r, hr, h⟩ := bind_eq_ok.1 h
      rw [next_eq_mod hk] at h
      exact Or.inr ⟨(ht.far hb).1 c, r, hr, h⟩
    · rw [if_pos c] at h
      cases h
      exact Or.inl ⟨fun hf => c ((ht.far hb).2 hf), rfl⟩

theorem keepClosed_is {s : Polyline} {b : Bool} (h : keepClosedSlice s = .ok b) :
    b = true ↔ 2 ≤ s.vertexes.length ∧ LongLoop s := by
  unfold keepClosedSlice at h
  have hsz : s.size = s.vertexes.length := rfl
  by_cases c : s.size > 1
  · rw [if_pos c] at h
    obtain ⟨a, ha, h⟩ := bind_eq_ok.1 h
    obtain ⟨z, hz, h⟩ := bind_eq_ok.1 h
    have ha' : s.vertexes.head? = some a := by
      rw [List.head?_eq_getElem?]
      exact getM_eq_ok.1 ha
    have hz' : s.vertexes.getLast? = some z := lastVertex_eq_ok hz
    have hem : EndsMeet (1 / 10 ^ 8) s.vertexes ↔ fuzzyEqualV a.pos z.pos := by
      rw [near8_iff]
      constructor
      · rintro ⟨a', z', h1, h2, h3⟩
        rw [ha'] at h1
        rw [hz'] at h2
        cases h1
        cases h2
        exact h3
      · exact fun h3 => ⟨a, z, ha', hz', h3⟩
    unfold LongLoop
    rw [hem]
    by_cases c1 : fuzzyEqualV a.pos z.pos
    · rw [if_pos c1] at h
      obtain ⟨l, hl, h⟩ := bind_eq_ok.1 h
      simp only [pure_eq_ok, Except.ok.injEq] at h
      subst h
      rw [decide_eq_true_eq]
      constructor
      · exact fun h => ⟨by omega, fun _ => ⟨l, hl, h⟩⟩
      · rintro ⟨-, h⟩
        obtain ⟨l', h1, h2⟩ := h c1
        rw [hl] at h1
        cases h1
        exact h2
    · rw [if_neg c1] at h
      cases h
      exact ⟨fun _ => ⟨by omega, fun h => absurd h c1⟩, fun _ => rfl⟩
  · rw [if_neg c] at h
    cases h
    refine ⟨(fun h => nomatch h), ?_⟩
    rintro ⟨h, -⟩
    omega

/-- From the parts of a step to what comes of it. -/
theorem step_of {p : Polyline} {offset : ℝ} {e : SliceEnv} {lookup : Lookup}
    {adv : ℕ → Option ℕ} {long : Polyline → Prop} {kv : ℕ × List V2} {os : List (Option Polyline)}
    {o o' : Option Polyline} (a1 : os.length + 1 = kv.2.length)
    (a3 : ∀ t x o, kv.2[t + 1]? = some x → os[t]? = some o →
      WithinIs p offset (vtx e.raw ((kv.1 + 1) % e.raw.size)) (vtx e.raw kv.1) (kv.2.take (t + 1)) x o)
    (hb : ∃ x, kv.2.getLast? = some x ∧
      ((¬ FarEnough p offset x ∧ o' = none) ∨ (FarEnough p offset x ∧ ∃ r,
        splitAtPoint (vtx e.raw kv.1) (vtx e.raw ((kv.1 + 1) % e.raw.size)) x = .ok r ∧
        sliceLoop e lookup adv (e.raw.size + 1) ((kv.1 + 1) % e.raw.size) ⟨false, [r.splitVertex]⟩ =
          .ok o')))
    (ho : ∀ s, o = some s ↔ o' = some s ∧ 2 ≤ s.vertexes.length ∧ long s) :
    StepIs p offset e lookup adv long kv (os ++ [o]) := by
  refine ⟨by simp [a1], ?_, ?_⟩
  · intro t x o1 e2 e3
    have hlt2 : t + 1 < kv.2.length := (List.getElem?_eq_some_iff.1 e2).1
    rw [List.getElem?_append_left (by omega)] at e3
    exact a3 t x o1 e2 e3
  · intro t x o1 e1 e2 e3
    rw [List.getElem?_append_right (by omega), show t - os.length = 0 by omega] at e3
    simp only [List.getElem?_cons_zero, Option.some.injEq] at e3
    subst e3
    obtain ⟨x', b2, b3⟩ := hb
    rw [List.getLast?_eq_getElem?, show kv.2.length - 1 = t by omega, e2] at b2
    cases b2
    exact ⟨o', ho, b3⟩

theorem rawStep_is {p : Polyline} {offset : ℝ} {e : SliceEnv} (ht : Tests p offset e) {lookup : Lookup}
    {kv : ℕ × List V2} (hlt : kv.1 < e.raw.size) {acc r : List OpenSlice}
    (h : rawSliceStep e lookup acc kv = .ok r) :
    ∃ os, StepIs p offset e lookup (fun i => some (nextWrappingIndex i e.raw.size)) LongLoop kv os ∧
      r = acc ++ onSeg kv.1 os := by
  unfold rawSliceStep at h
  have hn : nextWrappingIndex kv.1 e.raw.size = (kv.1 + 1) % e.raw.size := next_eq_mod hlt
  rw [at_eq hlt, ok_bind, hn, at_eq (Nat.mod_lt _ (by omega)), ok_bind] at h
  obtain ⟨r1, h1, h⟩ := bind_eq_ok.1 h
  obtain ⟨o', h2, h⟩ := bind_eq_ok.1 h
  obtain ⟨os, a1, a2, a3⟩ := inner_is ht h1
  have hb := outer_is ht hlt h2
  cases o' with
  | none =>
    simp only [pure_eq_ok, Except.ok.injEq] at h
    refine ⟨os ++ [none], step_of a1 a3 hb (by simp), ?_⟩
    rw [← h, a2]
    simp [onSeg]
  | some s =>
    obtain ⟨b, h3, h⟩ := bind_eq_ok.1 h
    simp only [pure_eq_ok, Except.ok.injEq] at h
    refine ⟨os ++ [if b then some s else none], step_of a1 a3 hb ?_, ?_⟩
    · intro s'
      have hk := keepClosed_is h3
      constructor
      · intro hs
        cases b with
        | true => rw [if_pos rfl] at hs; cases hs; exact ⟨rfl, hk.1 rfl⟩
        | false => simp at hs
      · rintro ⟨hs, h2⟩
        cases hs
        rw [hk.2 h2, if_pos rfl]
    · rw [← h, a2]
      cases b <;> simp [onSeg]

theorem dualStep_is {p : Polyline} {offset : ℝ} {e : SliceEnv} (ht : Tests p offset e) {lookup : Lookup}
    {kv : ℕ × List V2} (hlt : kv.1 < e.raw.size) {acc r : List OpenSlice}
    (h : dualSliceStep e lookup acc kv = .ok r) :
    ∃ os, StepIs p offset e lookup (dualAdvance e.original.isClosed e.raw.size) (fun _ => True) kv os ∧
      r = acc ++ onSeg kv.1 os := by
  unfold dualSliceStep at h
  have hn : nextWrappingIndex kv.1 e.raw.size = (kv.1 + 1) % e.raw.size := next_eq_mod hlt
  rw [at_eq hlt, ok_bind, hn, at_eq (Nat.mod_lt _ (by omega)), ok_bind] at h
  obtain ⟨r1, h1, h⟩ := bind_eq_ok.1 h
  obtain ⟨o', h2, h⟩ := bind_eq_ok.1 h
  obtain ⟨os, a1, a2, a3⟩ := inner_is ht h1
  have hb := outer_is ht hlt h2
  cases o' with
  | none =>
    simp only [pure_eq_ok, Except.ok.injEq] at h
    refine ⟨os ++ [none], step_of a1 a3 hb (by simp), ?_⟩
    rw [← h, a2]
    simp [onSeg]
  | some s =>
    simp only [pure_eq_ok, Except.ok.injEq] at h
    have hsz : s.size = s.vertexes.length := rfl
    refine ⟨os ++ [if s.size > 1 then some s else none], step_of a1 a3 hb ?_, ?_⟩
    · intro s'
      by_cases c : s.size > 1
      · rw [if_pos c]
        constructor
        · intro hs
          cases hs
          exact ⟨rfl, by omega, trivial⟩
        · exact fun hs => hs.1
      · rw [if_neg c]
        refine ⟨(fun h => nomatch h), ?_⟩
        rintro ⟨hs, h2, -⟩
        cases hs
        omega
    · rw [← h, a2]
      by_cases c : s.size > 1
      · rw [if_pos c, if_pos c]; simp [onSeg]
      · rw [if_neg c, if_neg c]; simp [onSeg]

/-- All entries. -/
theorem steps_is {P : ℕ × List V2 → List (Option Polyline) → Prop}
    {f : List OpenSlice → ℕ × List V2 → M (List OpenSlice)} {l0 : Lookup}
    (hf : ∀ kv ∈ l0, ∀ acc r, f acc kv = .ok r → ∃ os, P kv os ∧ r = acc ++ onSeg kv.1 os) :
    ∀ (kvs : Lookup) (acc r : List OpenSlice), (∀ kv ∈ kvs, kv ∈ l0) → kvs.foldlM f acc = .ok r →
      ∃ oss, List.Forall₂ P kvs oss ∧ r = acc ++ ((kvs.zip oss).map fun x => onSeg x.1.1 x.2).flatten
  | [], acc, r, _, h => by
    cases h
    exact ⟨[], .nil, by simp⟩
  | kv :: kvs, acc, r, hm, h => by
    rw [List.foldlM_cons] at h
    obtain ⟨r1, h1, h⟩ := bind_eq_ok.1 h
    obtain ⟨os, a1, a2⟩ := hf kv (hm kv (by simp)) _ _ h1
    obtain ⟨oss, b1, b2⟩ := steps_is hf kvs r1 r (fun kv' h' => hm kv' (by simp [h'])) h
    refine ⟨os :: oss, .cons a1 b1, ?_⟩
    rw [b2, a2, List.zip_cons_cons, List.map_cons, List.flatten_cons, List.append_assoc]

theorem flat_at {P : ℕ × List V2 → List (Option Polyline) → Prop} (hP : ∀ kv os, P kv os →
    os.length = kv.2.length) {l : Lookup} {oss : List (List (Option Polyline))}
    (h : List.Forall₂ P l oss) : oss.flatten.length = (cutsIn (slOf l)).length ∧
    (∀ i o, oss.flatten[i]? = some o → ∃ L1 kv L2 O t, l = L1 ++ kv :: L2 ∧ P kv O ∧ O[t]? = some o ∧
      i = (cutsIn (slOf L1)).length + t) ∧
    ((l.zip oss).map fun x => onSeg x.1.1 x.2).flatten =
      ((cutsIn (slOf l)).zip oss.flatten).filterMap fun co => co.2.map fun s => ⟨co.1.seg, s⟩ := by
  have hone : ∀ (k : ℕ) (xs : List V2) (os : List (Option Polyline)), os.length = xs.length →
      onSeg k os = ((xs.map fun x => cutOf k ⟨x, false⟩).zip os).filterMap
        fun co => co.2.map fun s => ⟨co.1.seg, s⟩ := by
    intro k xs
    induction xs with
    | nil =>
      intro os h
      rw [List.length_nil, List.length_eq_zero_iff] at h
      subst h
      rfl
    | cons x xs ih =>
      intro os h
      obtain ⟨o, os, rfl⟩ := List.exists_cons_of_length_eq_add_one h
      have := ih os (by simpa using h)
      unfold onSeg at this ⊢
      rw [List.map_cons, List.zip_cons_cons, List.filterMap_cons, List.filterMap_cons, this]
      rfl
  have hcons : ∀ (kv : ℕ × List V2) (l : Lookup), cutsIn (slOf (kv :: l)) =
      (kv.2.map fun x => cutOf kv.1 ⟨x, false⟩) ++ cutsIn (slOf l) := by
    intro kv l
    unfold cutsIn slOf
    rw [List.map_cons, List.flatMap_cons, List.map_map]
    rfl
  induction h with
  | nil => exact ⟨rfl, by simp, rfl⟩
  | @cons kv O l oss h1 _ ih =>
    obtain ⟨i1, i2, i3⟩ := ih
    have hl := hP _ _ h1
    refine ⟨?_, ?_, ?_⟩
    · rw [List.flatten_cons, hcons, List.length_append, List.length_append, i1, hl, List.length_map]
    · intro i o h
      rw [List.flatten_cons] at h
      by_cases hi : i < O.length
      · rw [List.getElem?_append_left hi] at h
        exact ⟨[], kv, l, O, i, rfl, h1, h, by simp [cutsIn, slOf]⟩
      · rw [List.getElem?_append_right (by omega)] at h
        obtain ⟨L1, kv', L2, O', t, e1, e2, e3, e4⟩ := i2 _ _ h
        refine ⟨kv :: L1, kv', L2, O', t, by rw [e1]; rfl, e2, e3, ?_⟩
        rw [hcons, List.length_append, List.length_map]
        omega
    · rw [List.zip_cons_cons, List.map_cons, List.flatten_cons, i3, List.flatten_cons, hcons,
        List.zip_append (by rw [List.length_map]; exact hl.symm), List.filterMap_append,
        hone kv.1 kv.2 O hl]

end
end Cavc

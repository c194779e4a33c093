import Verif.Spec.CApi
import Verif.Props.OffsetRect
import Mathlib.Data.List.Nodup

/-
C46: ownership of the C API. Every history of permitted calls keeps the library's heap in step with
the caller's books; no permitted call uses or frees an invalid handle; nothing leaks.
-/
namespace Cavc
open Spec
open scoped Classical

/-! ### The heap -/

theorem Heap.set_self (h : Heap) (a : Addr) (o : Option Obj) : h.set a o a = o := if_pos rfl

theorem Heap.set_ne (h : Heap) {a b : Addr} (o : Option Obj) (hb : b ≠ a) : h.set a o b = h b :=
  if_neg hb

theorem CState.set_self (s : CState) (a : Addr) (o : Option Obj) : (s.set a o).heap a = o := if_pos rfl

theorem CState.set_ne (s : CState) {a b : Addr} (o : Option Obj) (hb : b ≠ a) :
    (s.set a o).heap b = s.heap b := if_neg hb

theorem valueAt_congr {s t : CState} {a : Addr} (h : s.heap a = t.heap a) :
    valueAt s a = valueAt t a := by unfold valueAt; rw [h]

theorem elemsAt_congr {s t : CState} {a : Addr} (h : s.heap a = t.heap a) :
    elemsAt s a = elemsAt t a := by unfold elemsAt; rw [h]

theorem valueAt_some {s : CState} {a : Addr} {p : Polyline} :
    valueAt s a = some p ↔ ∃ c, s.heap a = some (.pline ⟨p, c⟩) := by
  unfold valueAt
  constructor
  · intro h
    split at h
    · rename_i q hq
      obtain rfl := Option.some.inj h
      exact ⟨q.capacity, hq⟩
    · cases h
  · rintro ⟨c, h⟩; rw [h]

theorem valueAt_ne_none {s : CState} {a : Addr} :
    valueAt s a ≠ none ↔ ∃ p, s.heap a = some (.pline p) := by
  unfold valueAt
  constructor
  · intro h
    split at h
    · rename_i q hq; exact ⟨q, hq⟩
    · exact (h rfl).elim
  · rintro ⟨p, h⟩; rw [h]; exact fun h => by cases h

theorem elemsAt_some {s : CState} {a : Addr} {es : List Addr} :
    elemsAt s a = some es ↔ s.heap a = some (.list es) := by
  unfold elemsAt
  constructor
  · intro h
    split at h
    · rename_i q hq
      obtain rfl := Option.some.inj h
      exact hq
    · cases h
  · intro h; rw [h]

theorem plineAt_ok {s : CState} {a : Addr} {p : CPline} :
    s.plineAt a = .ok p ↔ s.heap a = some (.pline p) := by
  unfold CState.plineAt
  constructor
  · intro h
    split at h
    · rename_i q hq
      obtain rfl := Except.ok.inj h
      exact hq
    · cases h
  · intro h; rw [h]

theorem listAt_ok {s : CState} {a : Addr} {es : List Addr} :
    s.listAt a = .ok es ↔ s.heap a = some (.list es) := by
  unfold CState.listAt
  constructor
  · intro h
    split at h
    · rename_i q hq
      obtain rfl := Except.ok.inj h
      exact hq
    · cases h
  · intro h; rw [h]

theorem check_pos {e : Env} {c : Prop} (h : c) : e.check c = .ok () := by
  unfold Env.check; rw [assertP_pos h, ite_self]

theorem pline_of {e : Env} {s : CState} {a : Addr} {p : CPline} (h0 : s.heap 0 = none)
    (h : s.heap a = some (.pline p)) : e.pline s a = .ok p := by
  have ha : a ≠ 0 := by rintro rfl; rw [h0] at h; cases h
  unfold Env.pline
  rw [check_pos ha, ok_bind]
  exact plineAt_ok.2 h

theorem pline_ok {e : Env} {s : CState} {a : Addr} {p : CPline} (h : e.pline s a = .ok p) :
    s.heap a = some (.pline p) := by
  unfold Env.pline at h
  obtain ⟨_, -, h⟩ := bind_eq_ok.1 h
  exact plineAt_ok.1 h

theorem list_of {e : Env} {s : CState} {a : Addr} {es : List Addr} (h0 : s.heap 0 = none)
    (h : s.heap a = some (.list es)) : e.list s a = .ok es := by
  have ha : a ≠ 0 := by rintro rfl; rw [h0] at h; cases h
  unfold Env.list
  rw [check_pos ha, ok_bind]
  exact listAt_ok.2 h

theorem list_ok {e : Env} {s : CState} {a : Addr} {es : List Addr} (h : e.list s a = .ok es) :
    s.heap a = some (.list es) := by
  unfold Env.list at h
  obtain ⟨_, -, h⟩ := bind_eq_ok.1 h
  exact listAt_ok.1 h

theorem new_ok {e : Env} {s s' : CState} {o : Obj} {a : Addr} (h : e.new s o = .ok (s', a)) :
    a ≠ 0 ∧ s.heap a = none ∧ s'.heap = s.heap.set a (some o) := by
  unfold Env.new at h
  split at h
  · cases h
  · rename_i b hb
    obtain ⟨h0, hf⟩ := e.alloc.fresh _ _ _ hb
    injection h with h
    injection h with h1 h2
    subst h1 h2
    exact ⟨h0, hf, rfl⟩

theorem new_error {e : Env} {s : CState} {o : Obj} {f : Fault} (h : e.new s o = .error f) :
    f = .thrown := by
  unfold Env.new at h
  split at h
  · injection h with h; exact h.symm
  · cases h

theorem ne_of_mem_not {l : Addr} {as : List Addr} (hl : l ∉ as) {a : Addr} (ha : a ∈ as) : a ≠ l :=
  fun hc => hl (hc ▸ ha)

/-- What `move_to_list` leaves behind: new polylines with the given contents, all else as before. -/
structure MovedTo (e : Env) (s s' : CState) (ps : List Polyline) (as : List Addr) : Prop where
  nodup : as.Nodup
  fresh : ∀ a ∈ as, a ≠ 0 ∧ s.heap a = none
  same : ∀ b, b ∉ as → s'.heap b = s.heap b
  values : List.Forall₂ (fun a p => s'.heap a = some (.pline ⟨p, e.growth.copy p.size⟩)) as ps

theorem moveToList_ok {e : Env} : ∀ {ps : List Polyline} {s s' : CState} {as : List Addr},
    moveToList e ps s = .ok (s', as) → MovedTo e s s' ps as
  | [], s, s', as, h => by
    simp only [moveToList] at h
    injection h with h; injection h with h1 h2; subst h1 h2
    exact ⟨List.nodup_nil, by simp, fun _ _ => rfl, .nil⟩
  | p :: ps, s, s', as, h => by
    simp only [moveToList] at h
    obtain ⟨⟨s1, a⟩, hn, h⟩ := bind_eq_ok.1 h
    obtain ⟨⟨s2, as'⟩, hm, h⟩ := bind_eq_ok.1 h
    simp only [pure_eq_ok] at h
    injection h with h; injection h with h1 h2; subst h1 h2
    obtain ⟨ha0, haf, hs1⟩ := new_ok hn
    have m := moveToList_ok hm
    have hna : a ∉ as' := fun hmem => by
      have := (m.fresh a hmem).2
      rw [hs1, Heap.set_self] at this; cases this
    refine ⟨List.nodup_cons.2 ⟨hna, m.nodup⟩, ?_, ?_, ?_⟩
    · intro b hb
      rcases List.mem_cons.1 hb with rfl | hb
      · exact ⟨ha0, haf⟩
      · have := m.fresh b hb
        rw [hs1] at this
        have hne : b ≠ a := fun hc => hna (hc ▸ hb)
        rw [Heap.set_ne _ _ hne] at this
        exact this
    · intro b hb
      rw [List.mem_cons, not_or] at hb
      rw [m.same b hb.2, hs1, Heap.set_ne _ _ hb.1]
    · refine .cons ?_ m.values
      rw [m.same a hna, hs1, Heap.set_self]

theorem moveToList_error {e : Env} : ∀ {ps : List Polyline} {s : CState} {f : Fault},
    moveToList e ps s = .error f → f = .thrown
  | [], s, f, h => by simp only [moveToList] at h; cases h
  | p :: ps, s, f, h => by
    simp only [moveToList] at h
    rcases hn : e.new s (.pline ⟨p, e.growth.copy p.size⟩) with f' | ⟨s1, a⟩
    · rw [hn] at h; injection h with h; rw [← h]; exact new_error hn
    · rw [hn, ok_bind] at h
      dsimp only at h
      rcases hm : moveToList e ps s1 with f' | ⟨s2, as'⟩
      · rw [hm] at h; injection h with h; rw [← h]; exact moveToList_error hm
      · rw [hm] at h; cases h

theorem forall₂_left {α β : Type} {R : α → β → Prop} {l : List α} {m : List β}
    (h : List.Forall₂ R l m) : ∀ a ∈ l, ∃ b ∈ m, R a b := by
  induction h with
  | nil => simp
  | cons h _ ih =>
    intro a ha
    rcases List.mem_cons.1 ha with rfl | ha
    · exact ⟨_, List.mem_cons_self, h⟩
    · obtain ⟨b, hb, hr⟩ := ih a ha
      exact ⟨b, List.mem_cons_of_mem _ hb, hr⟩

/-- A list object with new elements added to a heap, all else as before. -/
structure ListAdded (e : Env) (s s' : CState) (ps : List Polyline) (l : Addr) (as : List Addr) :
    Prop where
  head : l ≠ 0 ∧ s.heap l = none ∧ l ∉ as
  nodup : as.Nodup
  fresh : ∀ a ∈ as, a ≠ 0 ∧ s.heap a = none
  same : ∀ b, b ≠ l → b ∉ as → s'.heap b = s.heap b
  list : s'.heap l = some (.list as)
  values : List.Forall₂ (fun a p => s'.heap a = some (.pline ⟨p, e.growth.copy p.size⟩)) as ps

theorem fillList_ok {e : Env} {ps : List Polyline} {s s' : CState} {l : Addr} {as : List Addr}
    {o : Obj} (hl : s.heap l = some o) (h : fillList e l ps s = .ok (s', as)) :
    ∃ s1, MovedTo e s s1 ps as ∧ l ∉ as ∧ s' = s1.set l (some (.list as)) := by
  unfold fillList at h
  obtain ⟨⟨s1, as'⟩, hm, h⟩ := bind_eq_ok.1 h
  simp only [pure_eq_ok] at h
  injection h with h; injection h with h1 h2; subst h1 h2
  have m := moveToList_ok hm
  refine ⟨s1, m, fun hmem => ?_, rfl⟩
  have := (m.fresh l hmem).2
  rw [hl] at this; cases this

theorem fillList_error {e : Env} {ps : List Polyline} {s : CState} {l : Addr} {f : Fault}
    (h : fillList e l ps s = .error f) : f = .thrown := by
  unfold fillList at h
  rcases hm : moveToList e ps s with f' | ⟨s1, as'⟩
  · rw [hm] at h; injection h with h; rw [← h]; exact moveToList_error hm
  · rw [hm] at h; cases h

theorem MovedTo.set_values {e : Env} {s s1 : CState} {ps : List Polyline} {as : List Addr} {l : Addr}
    {o : Option Obj} (m : MovedTo e s s1 ps as) (hl : l ∉ as) :
    List.Forall₂ (fun a p => (s1.set l o).heap a = some (.pline ⟨p, e.growth.copy p.size⟩)) as ps := by
  refine (List.forall₂_iff_get.2 ?_)
  obtain ⟨hlen, hv⟩ := List.forall₂_iff_get.1 m.values
  refine ⟨hlen, fun i h1 h2 => ?_⟩
  rw [CState.set_ne _ _ (ne_of_mem_not hl (List.get_mem _ _))]
  exact hv i h1 h2

/-- `new` of a list and `move_to_list`. -/
theorem addList_ok {e : Env} {ps : List Polyline} {s s1 s' : CState} {l : Addr} {as : List Addr}
    {o : Obj} (hn : e.new s o = .ok (s1, l)) (hf : fillList e l ps s1 = .ok (s', as)) :
    ListAdded e s s' ps l as := by
  obtain ⟨hl0, hlf, hs1⟩ := new_ok hn
  obtain ⟨s2, m, hla, rfl⟩ := fillList_ok (by rw [hs1, Heap.set_self]) hf
  refine ⟨⟨hl0, hlf, hla⟩, m.nodup, ?_, ?_, CState.set_self .., m.set_values hla⟩
  · intro a ha
    have := m.fresh a ha
    rw [hs1, Heap.set_ne _ _ (ne_of_mem_not hla ha)] at this
    exact this
  · intro b hb hba
    rw [CState.set_ne _ _ hb, m.same b hba, hs1, Heap.set_ne _ _ hb]

/-! ### The books -/

theorem Spec.Agrees.init : Agrees CState.init Ledger.empty where
  plines a := by
    constructor
    · intro h; exact (h rfl).elim
    · rintro (h | ⟨l, es, h, -⟩)
      · exact h.elim
      · cases h
  lists _ := rfl
  owned_once _ h := h.elim
  listed_once _ _ h := by cases h
  lists_apart _ _ _ _ h := by cases h
  null := rfl

theorem Spec.Agrees.usable {s : CState} {L : Ledger} (h : Agrees s L) {a : Addr} (ha : L.Usable a) :
    ∃ p, s.heap a = some (.pline p) := valueAt_ne_none.1 ((h.plines a).2 ha)

theorem Spec.Agrees.listed {s : CState} {L : Ledger} (h : Agrees s L) {l : Addr} {es : List Addr}
    (hl : L.lists l = some es) : s.heap l = some (.list es) := by
  rw [← h.lists] at hl; exact elemsAt_some.1 hl

theorem Spec.Agrees.entered {s : CState} {L : Ledger} (h : Agrees s L) {l : Addr} {es : List Addr}
    (hl : s.heap l = some (.list es)) : L.lists l = some es := by
  rw [← h.lists]; exact elemsAt_some.2 hl

/-- A change of the contents of one polyline. -/
theorem Spec.Agrees.update {s : CState} {L : Ledger} (h : Agrees s L) {a : Addr} {p q : CPline}
    (ha : s.heap a = some (.pline p)) : Agrees (s.set a (some (.pline q))) L where
  plines b := by
    rw [← h.plines b, valueAt_ne_none, valueAt_ne_none]
    by_cases hb : b = a
    · subst hb; rw [CState.set_self, ha]; exact ⟨fun _ => ⟨_, rfl⟩, fun _ => ⟨_, rfl⟩⟩
    · rw [CState.set_ne _ _ hb]
  lists b := by
    rw [← h.lists b]
    by_cases hb : b = a
    · subst hb; unfold elemsAt; rw [CState.set_self, ha]
    · exact elemsAt_congr (CState.set_ne _ _ hb)
  owned_once := h.owned_once
  listed_once := h.listed_once
  lists_apart := h.lists_apart
  null := by
    have : (0 : Addr) ≠ a := by rintro rfl; rw [h.null] at ha; cases ha
    rw [CState.set_ne _ _ this]; exact h.null

theorem Spec.Agrees.fresh_not_usable {s : CState} {L : Ledger} (h : Agrees s L) {a : Addr}
    (ha : s.heap a = none) : ¬ L.Usable a := fun hu => by
  obtain ⟨p, hp⟩ := h.usable hu; rw [ha] at hp; cases hp

theorem Spec.Agrees.new {s s' : CState} {L : Ledger} (h : Agrees s L) {a : Addr} {p : CPline}
    (ha : a ≠ 0) (hf : s.heap a = none) (hs : s'.heap = s.heap.set a (some (.pline p))) :
    Agrees s' ⟨insert a L.owned, L.lists⟩ where
  plines b := by
    rw [valueAt_ne_none, hs]
    by_cases hb : b = a
    · subst hb; rw [Heap.set_self]
      exact ⟨fun _ => Or.inl (Set.mem_insert _ _), fun _ => ⟨_, rfl⟩⟩
    · rw [Heap.set_ne _ _ hb, ← valueAt_ne_none, h.plines b]
      unfold Ledger.Usable
      rw [Set.mem_insert_iff]
      constructor
      · rintro (h1 | h1)
        · exact Or.inl (Or.inr h1)
        · exact Or.inr h1
      · rintro ((h1 | h1) | h1)
        · exact (hb h1).elim
        · exact Or.inl h1
        · exact Or.inr h1
  lists b := by
    rw [← h.lists b]
    by_cases hb : b = a
    · subst hb; unfold elemsAt; rw [hs, Heap.set_self, hf]
    · exact elemsAt_congr (by rw [hs, Heap.set_ne _ _ hb])
  owned_once b hb l es hl := by
    rcases Set.mem_insert_iff.1 hb with rfl | hb
    · exact fun hmem => h.fresh_not_usable hf (Or.inr ⟨l, es, hl, hmem⟩)
    · exact h.owned_once b hb l es hl
  listed_once := h.listed_once
  lists_apart := h.lists_apart
  null := by rw [hs, Heap.set_ne _ _ ha.symm]; exact h.null

theorem Spec.Agrees.delete {s : CState} {L : Ledger} (h : Agrees s L) {a : Addr} (ha : a ∈ L.owned) :
    Agrees (s.set a none) ⟨L.owned \ {a}, L.lists⟩ where
  plines b := by
    rw [valueAt_ne_none]
    by_cases hb : b = a
    · subst hb; rw [CState.set_self]
      constructor
      · rintro ⟨p, hp⟩; cases hp
      · rintro (h1 | ⟨l, es, hl, hm⟩)
        · exact (h1.2 rfl).elim
        · exact (h.owned_once b ha l es hl hm).elim
    · rw [CState.set_ne _ _ hb, ← valueAt_ne_none, h.plines b]
      unfold Ledger.Usable
      constructor
      · rintro (h1 | h1)
        · exact Or.inl ⟨h1, hb⟩
        · exact Or.inr h1
      · rintro (h1 | h1)
        · exact Or.inl h1.1
        · exact Or.inr h1
  lists b := by
    rw [← h.lists b]
    by_cases hb : b = a
    · subst hb; unfold elemsAt; rw [CState.set_self]
      obtain ⟨p, hp⟩ := h.usable (Or.inl ha)
      rw [hp]
    · exact elemsAt_congr (CState.set_ne _ _ hb)
  owned_once b hb := h.owned_once b hb.1
  listed_once := h.listed_once
  lists_apart := h.lists_apart
  null := by
    by_cases hb : 0 = a
    · subst hb; exact CState.set_self ..
    · rw [CState.set_ne _ _ hb]; exact h.null

theorem setList_self (L : Ledger) (l : Addr) (es : Option (List Addr)) :
    (L.setList l es).lists l = es := Function.update_self ..

theorem setList_ne (L : Ledger) {l b : Addr} (es : Option (List Addr)) (hb : b ≠ l) :
    (L.setList l es).lists b = L.lists b := Function.update_of_ne hb ..

theorem ListAdded.agrees {e : Env} {s s' : CState} {ps : List Polyline} {l : Addr} {as : List Addr}
    {L : Ledger} (k : ListAdded e s s' ps l as) (h : Agrees s L) :
    Agrees s' (L.setList l (some as)) := by
  obtain ⟨hl0, hlf, hla⟩ := k.head
  have hlL : L.lists l = none := by
    rw [← h.lists]; unfold elemsAt; rw [hlf]
  have hnot : ∀ a ∈ as, ¬ L.Usable a := fun a ha => h.fresh_not_usable (k.fresh a ha).2
  have hval : ∀ a ∈ as, ∃ p, s'.heap a = some (.pline p) := fun a ha => by
    obtain ⟨p, -, hp⟩ := forall₂_left k.values a ha
    exact ⟨_, hp⟩
  constructor
  · intro b
    rw [valueAt_ne_none]
    by_cases hbl : b = l
    · subst hbl
      rw [k.list]
      constructor
      · rintro ⟨p, hp⟩; cases hp
      · rintro (h1 | ⟨l', es, hl', hm⟩)
        · exact (h.fresh_not_usable hlf (Or.inl h1)).elim
        · by_cases hc : l' = b
          · subst hc
            rw [setList_self] at hl'
            obtain rfl := Option.some.inj hl'
            exact (hla hm).elim
          · rw [setList_ne _ _ hc] at hl'
            exact (h.fresh_not_usable hlf (Or.inr ⟨l', es, hl', hm⟩)).elim
    · by_cases hba : b ∈ as
      · constructor
        · intro _; exact Or.inr ⟨l, as, setList_self .., hba⟩
        · intro _; exact hval b hba
      · rw [k.same b hbl hba, ← valueAt_ne_none, h.plines b]
        constructor
        · rintro (h1 | ⟨l', es, hl', hm⟩)
          · exact Or.inl h1
          · refine Or.inr ⟨l', es, ?_, hm⟩
            rw [setList_ne _ _ (by rintro rfl; rw [hlL] at hl'; cases hl')]; exact hl'
        · rintro (h1 | ⟨l', es, hl', hm⟩)
          · exact Or.inl h1
          · by_cases hc : l' = l
            · subst hc
              rw [setList_self] at hl'
              obtain rfl := Option.some.inj hl'
              exact (hba hm).elim
            · rw [setList_ne _ _ hc] at hl'
              exact Or.inr ⟨l', es, hl', hm⟩
  · intro b
    by_cases hbl : b = l
    · subst hbl; rw [setList_self]; exact elemsAt_some.2 k.list
    · rw [setList_ne _ _ hbl, ← h.lists b]
      by_cases hba : b ∈ as
      · obtain ⟨p, hp⟩ := hval b hba
        unfold elemsAt; rw [hp, (k.fresh b hba).2]
      · exact elemsAt_congr (k.same b hbl hba)
  · intro a ha l' es hl' hm
    by_cases hc : l' = l
    · subst hc
      rw [setList_self] at hl'
      obtain rfl := Option.some.inj hl'
      exact hnot a hm (Or.inl ha)
    · rw [setList_ne _ _ hc] at hl'
      exact h.owned_once a ha l' es hl' hm
  · intro l' es hl'
    by_cases hc : l' = l
    · subst hc
      rw [setList_self] at hl'
      obtain rfl := Option.some.inj hl'
      exact k.nodup
    · rw [setList_ne _ _ hc] at hl'
      exact h.listed_once l' es hl'
  · intro l1 es1 l2 es2 h1 h2 hne a ha1 ha2
    by_cases hc1 : l1 = l
    · subst hc1
      rw [setList_self] at h1
      obtain rfl := Option.some.inj h1
      rw [setList_ne _ _ hne.symm] at h2
      exact hnot a ha1 (Or.inr ⟨l2, es2, h2, ha2⟩)
    · rw [setList_ne _ _ hc1] at h1
      by_cases hc2 : l2 = l
      · subst hc2
        rw [setList_self] at h2
        obtain rfl := Option.some.inj h2
        exact hnot a ha2 (Or.inr ⟨l1, es1, h1, ha1⟩)
      · rw [setList_ne _ _ hc2] at h2
        exact h.lists_apart l1 es1 l2 es2 h1 h2 hne a ha1 ha2
  · rw [k.same 0 hl0.symm (fun h0 => (k.fresh 0 h0).1 rfl)]; exact h.null

/-- The two lists of `cavc_combine_plines`, one after the other. -/
theorem addTwo_ok {e : Env} {ps qs : List Polyline} {s s1 s2 s3 s' : CState} {l l' : Addr}
    {as as' : List Addr} (hn : e.new s (.list []) = .ok (s1, l))
    (hn' : e.new s1 (.list []) = .ok (s2, l')) (hf : fillList e l ps s2 = .ok (s3, as))
    (hf' : fillList e l' qs s3 = .ok (s', as')) :
    ∃ t, ListAdded e s t ps l as ∧ ListAdded e t s' qs l' as' := by
  obtain ⟨hl0, hlf, hs1⟩ := new_ok hn
  obtain ⟨hl0', hlf', hs2⟩ := new_ok hn'
  have hll : l' ≠ l := by
    rintro rfl; rw [hs1, Heap.set_self] at hlf'; cases hlf'
  obtain ⟨s3', m, hla, rfl⟩ :=
    fillList_ok (o := .list []) (by rw [hs2, Heap.set_ne _ _ hll.symm, hs1, Heap.set_self]) hf
  have hl'as : l' ∉ as := fun hm => by
    have := (m.fresh l' hm).2
    rw [hs2, Heap.set_self] at this; cases this
  have hs3l' : (s3'.set l (some (.list as))).heap l' = some (.list []) := by
    rw [CState.set_ne _ _ hll, m.same l' hl'as, hs2, Heap.set_self]
  obtain ⟨s4, m', hla', rfl⟩ := fillList_ok hs3l' hf'
  have hlas' : l ∉ as' := fun hm => by
    have := (m'.fresh l hm).2
    rw [CState.set_self] at this; cases this
  have hdis : ∀ a ∈ as', a ∉ as := fun a ha hm => by
    have := (m'.fresh a ha).2
    obtain ⟨p, -, hp⟩ := forall₂_left (m.set_values (o := some (.list as)) hla) a hm
    rw [hp] at this; cases this
  have hfr : ∀ a ∈ as', s.heap a = none := fun a ha => by
    have := (m'.fresh a ha).2
    have h1 : a ≠ l := fun hc => hlas' (hc ▸ ha)
    have h2 : a ≠ l' := fun hc => hla' (hc ▸ ha)
    rw [CState.set_ne _ _ h1, m.same a (hdis a ha), hs2, Heap.set_ne _ _ h2, hs1,
      Heap.set_ne _ _ h1] at this
    exact this
  have hl's : s.heap l' = none := by
    rw [hs1, Heap.set_ne _ _ hll] at hlf'; exact hlf'
  -- the heap as if the second list had not been made
  refine ⟨⟨fun b => if b = l' ∨ b ∈ as' then none else (s4.set l' (some (.list as'))).heap b, 0⟩,
    ⟨⟨hl0, hlf, hla⟩, m.nodup, ?_, ?_, ?_, ?_⟩, ⟨⟨hl0', ?_, hla'⟩, m'.nodup, ?_, ?_, ?_, ?_⟩⟩
  · intro a ha
    have := m.fresh a ha
    have h1 : a ≠ l := fun hc => hla (hc ▸ ha)
    have h2 : a ≠ l' := fun hc => hl'as (hc ▸ ha)
    rw [hs2, Heap.set_ne _ _ h2, hs1, Heap.set_ne _ _ h1] at this
    exact this
  · intro b hbl hba
    dsimp only
    by_cases hb : b = l' ∨ b ∈ as'
    · rw [if_pos hb]
      rcases hb with rfl | hb
      · exact hl's.symm
      · exact (hfr b hb).symm
    · rw [if_neg hb]
      rw [not_or] at hb
      rw [CState.set_ne _ _ hb.1, m'.same b hb.2, CState.set_ne _ _ hbl, m.same b hba, hs2,
        Heap.set_ne _ _ hb.1, hs1, Heap.set_ne _ _ hbl]
  · dsimp only
    rw [if_neg (by rintro (h | h); exacts [hll h.symm, hlas' h]), CState.set_ne _ _ hll.symm,
      m'.same l hlas', CState.set_self]
  · refine (List.forall₂_iff_get.2 ?_)
    obtain ⟨hlen, hv⟩ := List.forall₂_iff_get.1 (m.set_values (o := some (.list as)) hla)
    refine ⟨hlen, fun i h1 h2 => ?_⟩
    have hmem := List.get_mem as ⟨i, h1⟩
    dsimp only
    rw [if_neg (by
      rintro (h | h)
      · exact hl'as (h ▸ hmem)
      · exact hdis _ h hmem), CState.set_ne _ _ (ne_of_mem_not hl'as hmem),
      m'.same _ (fun hc => hdis _ hc hmem)]
    exact hv i h1 h2
  · exact if_pos (Or.inl rfl)
  · intro a ha
    exact ⟨(m'.fresh a ha).1, if_pos (Or.inr ha)⟩
  · intro b hb hba
    exact (if_neg (by rintro (h | h); exacts [hb h, hba h])).symm
  · exact CState.set_self ..
  · exact m'.set_values hla'

theorem deleteElems_run : ∀ {as : List Addr} {s : CState}, as.Nodup → s.heap 0 = none →
    (∀ a ∈ as, ∃ p, s.heap a = some (.pline p)) →
    ∃ s', deleteElems as s = .ok s' ∧ (∀ a ∈ as, s'.heap a = none) ∧
      ∀ b, b ∉ as → s'.heap b = s.heap b
  | [], s, _, _, _ => ⟨s, rfl, by simp, fun _ _ => rfl⟩
  | a :: as, s, hn, h0, hv => by
    obtain ⟨p, hp⟩ := hv a List.mem_cons_self
    have ha0 : a ≠ 0 := by rintro rfl; rw [h0] at hp; cases hp
    rw [List.nodup_cons] at hn
    have hd : cavcPlineDelete s a = .ok (s.set a none) := by
      unfold cavcPlineDelete
      rw [if_neg ha0, plineAt_ok.2 hp]; rfl
    obtain ⟨s', hs', h1, h2⟩ := deleteElems_run (as := as) (s := s.set a none) hn.2
      (by rw [CState.set_ne _ _ ha0.symm]; exact h0)
      (fun b hb => by
        rw [CState.set_ne _ _ (ne_of_mem_not hn.1 hb)]
        exact hv b (List.mem_cons_of_mem _ hb))
    refine ⟨s', ?_, ?_, ?_⟩
    · simp only [deleteElems]; rw [hd, ok_bind, hs']
    · intro b hb
      rcases List.mem_cons.1 hb with rfl | hb
      · rw [h2 b hn.1, CState.set_self]
      · exact h1 b hb
    · intro b hb
      rw [List.mem_cons, not_or] at hb
      rw [h2 b hb.2, CState.set_ne _ _ hb.1]

theorem Spec.Agrees.listDelete {s s' : CState} {L : Ledger} (h : Agrees s L) {l : Addr} {es : List Addr}
    (hl : L.lists l = some es) (hgone : ∀ a, (a = l ∨ a ∈ es) → s'.heap a = none)
    (hsame : ∀ b, b ≠ l → b ∉ es → s'.heap b = s.heap b) : Agrees s' (L.setList l none) := by
  have hll := h.listed hl
  constructor
  · intro b
    rw [valueAt_ne_none]
    by_cases hb : b = l ∨ b ∈ es
    · rw [hgone b hb]
      constructor
      · rintro ⟨p, hp⟩; cases hp
      · intro hu
        exfalso
        rcases hb with rfl | hb
        · have hu' : L.Usable b := by
            rcases hu with h1 | ⟨l', es', hl', hm⟩
            · exact Or.inl h1
            · by_cases hc : l' = b
              · subst hc; rw [setList_self] at hl'; cases hl'
              · rw [setList_ne _ _ hc] at hl'; exact Or.inr ⟨l', es', hl', hm⟩
          obtain ⟨p, hp⟩ := h.usable hu'
          rw [hll] at hp; cases hp
        · rcases hu with h1 | ⟨l', es', hl', hm⟩
          · exact h.owned_once b h1 l es hl hb
          · by_cases hc : l' = l
            · subst hc; rw [setList_self] at hl'; cases hl'
            · rw [setList_ne _ _ hc] at hl'
              exact h.lists_apart l' es' l es hl' hl hc b hm hb
    · rw [not_or] at hb
      rw [hsame b hb.1 hb.2, ← valueAt_ne_none, h.plines b]
      constructor
      · rintro (h1 | ⟨l', es', hl', hm⟩)
        · exact Or.inl h1
        · refine Or.inr ⟨l', es', ?_, hm⟩
          rw [setList_ne]
          · exact hl'
          · rintro rfl
            rw [hl] at hl'
            obtain rfl := Option.some.inj hl'
            exact hb.2 hm
      · rintro (h1 | ⟨l', es', hl', hm⟩)
        · exact Or.inl h1
        · by_cases hc : l' = l
          · subst hc; rw [setList_self] at hl'; cases hl'
          · rw [setList_ne _ _ hc] at hl'; exact Or.inr ⟨l', es', hl', hm⟩
  · intro b
    by_cases hb : b = l
    · subst hb; rw [setList_self]; unfold elemsAt; rw [hgone b (Or.inl rfl)]
    · rw [setList_ne _ _ hb, ← h.lists b]
      by_cases hbe : b ∈ es
      · obtain ⟨p, hp⟩ := h.usable (Or.inr ⟨l, es, hl, hbe⟩)
        unfold elemsAt; rw [hgone b (Or.inr hbe), hp]
      · exact elemsAt_congr (hsame b hb hbe)
  · intro a ha l' es' hl'
    by_cases hc : l' = l
    · subst hc; rw [setList_self] at hl'; cases hl'
    · rw [setList_ne _ _ hc] at hl'; exact h.owned_once a ha l' es' hl'
  · intro l' es' hl'
    by_cases hc : l' = l
    · subst hc; rw [setList_self] at hl'; cases hl'
    · rw [setList_ne _ _ hc] at hl'; exact h.listed_once l' es' hl'
  · intro l1 es1 l2 es2 h1 h2
    by_cases hc : l1 = l
    · subst hc; rw [setList_self] at h1; cases h1
    · by_cases hc2 : l2 = l
      · subst hc2; rw [setList_self] at h2; cases h2
      · rw [setList_ne _ _ hc] at h1; rw [setList_ne _ _ hc2] at h2
        exact h.lists_apart l1 es1 l2 es2 h1 h2
  · by_cases h0 : 0 = l ∨ 0 ∈ es
    · exact hgone 0 h0
    · rw [not_or] at h0; rw [hsame 0 h0.1 h0.2]; exact h.null

theorem Spec.Agrees.release {s : CState} {L : Ledger} (h : Agrees s L) {l : Addr} {es : List Addr}
    (hl : L.lists l = some es) {i : ℕ} (hi : i < es.length) :
    Agrees (s.set l (some (.list (es.eraseIdx i))))
      ⟨insert es[i] L.owned, (L.setList l (some (es.eraseIdx i))).lists⟩ := by
  have hll := h.listed hl
  have hnd := h.listed_once l es hl
  have hmem : ∀ b, b ∈ es.eraseIdx i ↔ b ∈ es ∧ b ≠ es[i] := by
    intro b
    rw [← hnd.erase_getElem (i := i) hi, hnd.mem_erase_iff]
    exact and_comm
  set L' : Ledger := ⟨insert es[i] L.owned, (L.setList l (some (es.eraseIdx i))).lists⟩ with hL'
  have hself : L'.lists l = some (es.eraseIdx i) := setList_self ..
  have hne : ∀ b, b ≠ l → L'.lists b = L.lists b := fun b hb => setList_ne _ _ hb
  have husable : ∀ b, L'.Usable b ↔ L.Usable b := by
    intro b
    constructor
    · rintro (h1 | ⟨l', es', hl', hm⟩)
      · rcases Set.mem_insert_iff.1 h1 with rfl | h1
        · exact Or.inr ⟨l, es, hl, List.getElem_mem hi⟩
        · exact Or.inl h1
      · by_cases hc : l' = l
        · subst hc
          rw [hself] at hl'
          obtain rfl := Option.some.inj hl'
          exact Or.inr ⟨l', es, hl, ((hmem b).1 hm).1⟩
        · rw [hne _ hc] at hl'; exact Or.inr ⟨l', es', hl', hm⟩
    · rintro (h1 | ⟨l', es', hl', hm⟩)
      · exact Or.inl (Set.mem_insert_of_mem _ h1)
      · by_cases hc : l' = l
        · subst hc
          rw [hl] at hl'
          obtain rfl := Option.some.inj hl'
          by_cases hb : b = es[i]
          · exact Or.inl (Set.mem_insert_iff.2 (Or.inl hb))
          · exact Or.inr ⟨l', _, hself, (hmem b).2 ⟨hm, hb⟩⟩
        · exact Or.inr ⟨l', es', by rw [hne _ hc]; exact hl', hm⟩
  constructor
  · intro b
    rw [husable, ← h.plines b, valueAt_ne_none, valueAt_ne_none]
    by_cases hb : b = l
    · subst hb; rw [CState.set_self, hll]
      constructor <;> (rintro ⟨p, hp⟩; cases hp)
    · rw [CState.set_ne _ _ hb]
  · intro b
    by_cases hb : b = l
    · subst hb; rw [hself]; exact elemsAt_some.2 (CState.set_self ..)
    · rw [hne _ hb, ← h.lists b]; exact elemsAt_congr (CState.set_ne _ _ hb)
  · intro a ha l' es' hl' hm
    rcases Set.mem_insert_iff.1 ha with rfl | hao
    · by_cases hc : l' = l
      · subst hc
        rw [hself] at hl'
        obtain rfl := Option.some.inj hl'
        exact ((hmem _).1 hm).2 rfl
      · rw [hne _ hc] at hl'
        exact h.lists_apart l es l' es' hl hl' (Ne.symm hc) _ (List.getElem_mem hi) hm
    · by_cases hc : l' = l
      · subst hc
        rw [hself] at hl'
        obtain rfl := Option.some.inj hl'
        exact h.owned_once a hao l' es hl ((hmem _).1 hm).1
      · rw [hne _ hc] at hl'; exact h.owned_once a hao l' es' hl' hm
  · intro l' es' hl'
    by_cases hc : l' = l
    · subst hc
      rw [hself] at hl'
      obtain rfl := Option.some.inj hl'
      exact hnd.eraseIdx i
    · rw [hne _ hc] at hl'; exact h.listed_once l' es' hl'
  · intro l1 es1 l2 es2 h1 h2 hn a ha1 ha2
    by_cases hc1 : l1 = l
    · subst hc1
      rw [hself] at h1
      obtain rfl := Option.some.inj h1
      rw [hne _ hn.symm] at h2
      exact h.lists_apart l1 es l2 es2 hl h2 hn a ((hmem a).1 ha1).1 ha2
    · rw [hne _ hc1] at h1
      by_cases hc2 : l2 = l
      · subst hc2
        rw [hself] at h2
        obtain rfl := Option.some.inj h2
        exact h.lists_apart l1 es1 l2 es h1 hl hc1 a ha1 ((hmem a).1 ha2).1
      · rw [hne _ hc2] at h2
        exact h.lists_apart l1 es1 l2 es2 h1 h2 hn a ha1 ha2
  · have : (0 : Addr) ≠ l := by rintro rfl; rw [h.null] at hll; cases hll
    rw [CState.set_ne _ _ this]; exact h.null

/-! ### One call -/

theorem reserve_room (g : Growth) (c n : ℕ) : n ≤ g.reserve c n := by
  by_cases h : n ≤ c
  · rw [g.reserve_keep c n h]; exact h
  · exact g.reserve_ge c n (by omega)

theorem copyVertexes_run (g : Growth) (l : List CVertex) : ∀ (k i : ℕ) (p : CPline),
    i + k ≤ l.length → p.data.vertexes.length + k ≤ p.capacity → copyVertexes g l k i p =
      .ok ⟨⟨p.data.isClosed, p.data.vertexes ++ ((l.drop i).take k).map CVertex.toVertex⟩, p.capacity⟩
  | 0, i, p, _, _ => by simp [copyVertexes]
  | k + 1, i, p, h, hc => by
    have hi : i < l.length := by omega
    have hp : g.push p.capacity p.data.vertexes.length = p.capacity := g.push_keep _ _ (by omega)
    simp only [copyVertexes, getM_of_lt hi, ok_bind, hp]
    rw [copyVertexes_run g l k (i + 1) _ (by omega)
      (by simp only [List.length_append, List.length_cons, List.length_nil]; omega),
      List.drop_eq_getElem_cons hi, List.take_succ_cons, List.map_cons]
    simp

theorem copyToPline_run (g : Growth) (p : CPline) (l : List CVertex) (n : ℕ) (h : n ≤ l.length) :
    copyToPline g p (some l) n =
      .ok ⟨⟨p.data.isClosed, (l.take n).map CVertex.toVertex⟩, g.reserve p.capacity n⟩ := by
  unfold copyToPline
  simp only
  rw [copyVertexes_run g l n 0 _ (by omega) (by simpa using reserve_room g p.capacity n)]
  simp

theorem copyToPline_arrayOk (g : Growth) (p : CPline) {d : Option (List CVertex)} {n : ℕ}
    (h : ArrayOk d n) : copyToPline g p d n =
      .ok ⟨⟨p.data.isClosed, ((d.getD []).take n).map CVertex.toVertex⟩, g.reserve p.capacity n⟩ := by
  cases d with
  | some l => exact copyToPline_run g p l n h
  | none =>
    have h : n = 0 := h
    subst h
    simp [copyToPline]

/-- The vertex array a caller gets. -/
theorem writeVertexes_run (pl : Polyline) : ∀ (k i : ℕ) (out : List CVertex),
    i + k ≤ pl.vertexes.length → i + k ≤ out.length →
    writeVertexes pl k i out = .ok (out.take i ++
      ((pl.vertexes.drop i).take k).map CVertex.ofVertex ++ out.drop (i + k))
  | 0, i, out, _, _ => by simp [writeVertexes]
  | k + 1, i, out, h, ho => by
    have hi : i < pl.vertexes.length := by omega
    have hio : i < out.length := by omega
    have hat : pl.at i = .ok pl.vertexes[i] := getM_of_lt hi
    simp only [writeVertexes, hat, ok_bind, setM, if_pos hio]
    rw [writeVertexes_run pl k (i + 1) _ (by omega) (by rw [List.length_set]; omega),
      List.drop_eq_getElem_cons hi, List.take_succ_cons, List.map_cons]
    congr 1
    have h1 : (out.set i (CVertex.ofVertex pl.vertexes[i])).take (i + 1) =
        out.take i ++ [CVertex.ofVertex pl.vertexes[i]] := by
      rw [List.take_add_one, List.take_set_of_le (le_refl i), List.getElem?_set_self hio]
      rfl
    have h2 : (out.set i (CVertex.ofVertex pl.vertexes[i])).drop (i + 1 + k) =
        out.drop (i + (k + 1)) := by
      rw [List.drop_set_of_lt (by omega)]
      congr 1; omega
    rw [h1, h2]
    simp

theorem u32_le (n : ℕ) : u32 n ≤ n := Nat.mod_le ..

theorem u32_of_lt {n : ℕ} (h : n < 2 ^ 32) : u32 n = n := Nat.mod_eq_of_lt h

theorem copyToVertexData_run (p : CPline) (out : List CVertex) (h : u32 p.data.size ≤ out.length) :
    copyToVertexData p out = .ok
      ((p.data.vertexes.take (u32 p.data.size)).map CVertex.ofVertex ++
        out.drop (u32 p.data.size)) := by
  unfold copyToVertexData
  rw [writeVertexes_run p.data _ 0 out (by rw [Nat.zero_add]; exact u32_le _)
    (by rw [Nat.zero_add]; exact h)]
  simp

theorem flag_eq (f : BitVec 32) : decide (f &&& 1#32 ≠ 0#32) = f.getLsbD 0 := by
  by_cases h : f.getLsbD 0 = true
  · rw [h, decide_eq_true_iff]
    intro hc
    have := congrArg (fun b => b.getLsbD 0) hc
    simp only [BitVec.getLsbD_and] at this
    rw [h] at this
    simp at this
  · rw [Bool.not_eq_true] at h
    rw [h, decide_eq_false_iff_not, not_not]
    apply BitVec.eq_of_getLsbD_eq
    intro i hi
    rw [BitVec.getLsbD_and]
    by_cases h0 : i = 0
    · subst h0; rw [h]; simp
    · have : (1#32).getLsbD i = false := by
        rw [BitVec.getLsbD_one]; simp [h0]
      simp [this]

theorem combineModeOf_spec {m : ℤ} (h0 : 0 ≤ m) (h3 : m ≤ 3) : (m, combineModeOf m) ∈
    [((0 : ℤ), CombineMode.union), (1, .exclude), (2, .intersect), (3, .xor)] := by
  obtain rfl | rfl | rfl | rfl : m = 0 ∨ m = 1 ∨ m = 2 ∨ m = 3 := by omega
  all_goals simp [combineModeOf]

/-- What a permitted call does: it returns in a state that agrees with the books, or memory runs out,
or the algorithm behind it goes wrong. -/
def CallOk (e : Env) (s : CState) (L : Ledger) (c : Call) : Prop :=
  (∃ s' r, exec e s c = .ok (s', r) ∧ Agrees s' (L.after c r) ∧
    ∀ b, s.heap b ≠ none → ¬ Touches L c b → s'.heap b = s.heap b) ∨
  (exec e s c = .error .thrown ∧ Allocates c) ∨
  ∃ f, exec e s c = .error f ∧ AlgorithmFault e s f c

theorem CallOk.read {e : Env} {s : CState} {L : Ledger} {c : Call} (h : Agrees s L)
    (hx : exec e s c = .ok (s, .nothing)) (hl : L.after c .nothing = L) : CallOk e s L c :=
  Or.inl ⟨s, .nothing, hx, hl.symm ▸ h, fun _ _ _ => rfl⟩

theorem CallOk.write {e : Env} {s : CState} {L : Ledger} {c : Call} (h : Agrees s L) {a : Addr}
    {p q : CPline} (ha : s.heap a = some (.pline p))
    (hx : exec e s c = .ok (s.set a (some (.pline q)), .nothing)) (hl : L.after c .nothing = L)
    (ht : Touches L c a) : CallOk e s L c :=
  Or.inl ⟨_, .nothing, hx, hl.symm ▸ h.update ha, fun _ _ hb =>
    CState.set_ne _ _ (fun hc => hb (hc ▸ ht))⟩

theorem callOk {e : Env} {s : CState} {L : Ledger} {c : Call} (h : Agrees s L)
    (ha : Allowed e s L c) : CallOk e s L c := by
  cases c with
  | plineNew d n cl =>
    have hp : ∃ p, exec e s (.plineNew d n cl) =
        (e.new s (.pline p) >>= fun x => .ok (x.1, Ret.pline x.2)) := by
      cases d with
      | none =>
        simp only [exec, cavcPlineNew, initialPline, ok_bind]
        exact ⟨_, rfl⟩
      | some l =>
        have hl : ArrayOk (some l) n := ha.resolve_left (by simp)
        simp only [exec, cavcPlineNew, initialPline]
        rw [copyToPline_arrayOk _ _ hl]
        exact ⟨_, rfl⟩
    obtain ⟨p, hp⟩ := hp
    rcases hn : e.new s (.pline p) with f | ⟨s', a⟩
    · rw [hn] at hp
      have := new_error hn
      subst this
      exact Or.inr (Or.inl ⟨hp, trivial⟩)
    · rw [hn, ok_bind] at hp
      obtain ⟨ha0, haf, hs⟩ := new_ok hn
      refine Or.inl ⟨s', .pline a, hp, h.new ha0 haf hs, fun b hb _ => ?_⟩
      rw [hs, Heap.set_ne]
      rintro rfl; exact hb haf
  | plineDelete a =>
    rcases ha with rfl | ha
    · refine Or.inl ⟨s, .nothing, by simp [exec, cavcPlineDelete], ?_, fun _ _ _ => rfl⟩
      have h0 : (0 : Addr) ∉ L.owned := fun hc => by
        obtain ⟨p, hp⟩ := h.usable (Or.inl hc)
        rw [h.null] at hp; cases hp
      have : L.after (.plineDelete 0) .nothing = L := by
        simp only [Ledger.after, Set.sdiff_singleton_eq_self h0]
      rw [this]; exact h
    · obtain ⟨p, hp⟩ := h.usable (Or.inl ha)
      have ha0 : a ≠ 0 := by rintro rfl; rw [h.null] at hp; cases hp
      refine Or.inl ⟨s.set a none, .nothing, ?_, h.delete ha, fun b _ hb => CState.set_ne _ _ hb⟩
      simp only [exec, cavcPlineDelete]
      rw [if_neg ha0, plineAt_ok.2 hp]; rfl
  | plineCapacity a =>
    obtain ⟨p, hp⟩ := h.usable ha
    exact .read h (by simp only [exec, cavcPlineCapacity]; rw [pline_of h.null hp]; rfl) rfl
  | plineSetCapacity a n =>
    obtain ⟨p, hp⟩ := h.usable ha
    exact .write h hp (by simp only [exec, cavcPlineSetCapacity]; rw [pline_of h.null hp]; rfl) rfl rfl
  | plineVertexCount a =>
    obtain ⟨p, hp⟩ := h.usable ha
    exact .read h (by simp only [exec, cavcPlineVertexCount]; rw [pline_of h.null hp]; rfl) rfl
  | plineVertexData a out =>
    obtain ⟨p, hp⟩ := h.usable ha.1
    have hc : cavcPlineVertexCount e s a = .ok (u32 p.data.size) := by
      unfold cavcPlineVertexCount; rw [pline_of h.null hp]; rfl
    refine .read h ?_ rfl
    simp only [exec, cavcPlineVertexData]
    rw [pline_of h.null hp, ok_bind, copyToVertexData_run p out (ha.2 _ hc)]; rfl
  | plineIsClosed a =>
    obtain ⟨p, hp⟩ := h.usable ha
    exact .read h (by simp only [exec, cavcPlineIsClosed]; rw [pline_of h.null hp]; rfl) rfl
  | plineSetVertexData a d n =>
    obtain ⟨p, hp⟩ := h.usable ha.1
    exact .write h hp (by
      simp only [exec, cavcPlineSetVertexData]
      rw [pline_of h.null hp, ok_bind, copyToPline_arrayOk _ _ ha.2]; rfl) rfl rfl
  | plineAddVertex a v =>
    obtain ⟨p, hp⟩ := h.usable ha
    exact .write h hp (by simp only [exec, cavcPlineAddVertex]; rw [pline_of h.null hp]; rfl) rfl rfl
  | plineRemoveRange a i n =>
    obtain ⟨p, hp⟩ := h.usable ha.1
    have hc : cavcPlineVertexCount e s a = .ok (u32 p.data.size) := by
      unfold cavcPlineVertexCount; rw [pline_of h.null hp]; rfl
    obtain ⟨h1, h2⟩ := ha.2 _ hc
    have hle := u32_le p.data.size
    have hle' := u32_le (i + n)
    have hsz : p.data.size = p.data.vertexes.length := rfl
    exact .write h hp (q := ⟨⟨p.data.isClosed, p.data.vertexes.take i ++ p.data.vertexes.drop (i + n)⟩,
        p.capacity⟩) (by
      simp only [exec, cavcPlineRemoveRange]
      rw [pline_of h.null hp, ok_bind, check_pos (by omega), ok_bind, check_pos (by omega), ok_bind,
        eraseRange, if_pos (by omega)]; rfl) rfl rfl
  | plineClear a =>
    obtain ⟨p, hp⟩ := h.usable ha
    exact .write h hp (by simp only [exec, cavcPlineClear]; rw [pline_of h.null hp]; rfl) rfl rfl
  | plineSetIsClosed a cl =>
    obtain ⟨p, hp⟩ := h.usable ha
    exact .write h hp (by simp only [exec, cavcPlineSetIsClosed]; rw [pline_of h.null hp]; rfl) rfl rfl
  | listDelete l =>
    rcases ha with rfl | ha
    · refine Or.inl ⟨s, .nothing, by simp [exec, cavcPlineListDelete], ?_, fun _ _ _ => rfl⟩
      have h0 : L.lists 0 = none := by
        rw [← h.lists]; unfold elemsAt; rw [h.null]
      have : L.after (.listDelete 0) .nothing = L := by
        simp only [Ledger.after, Ledger.setList]
        rw [← h0, Function.update_eq_self]
      rw [this]; exact h
    · obtain ⟨es, hes⟩ := Option.ne_none_iff_exists'.1 ha
      have hl := h.listed hes
      have hl0 : l ≠ 0 := by rintro rfl; rw [h.null] at hl; cases hl
      obtain ⟨s', hs', hg, hsame⟩ := deleteElems_run (h.listed_once l es hes) h.null
        (fun a ham => h.usable (Or.inr ⟨l, es, hes, ham⟩))
      refine Or.inl ⟨s'.set l none, .nothing, ?_, h.listDelete hes ?_ ?_, ?_⟩
      · simp only [exec, cavcPlineListDelete]
        rw [if_neg hl0, listAt_ok.2 hl, ok_bind, hs']; rfl
      · intro a ham
        by_cases hal : a = l
        · subst hal; exact CState.set_self ..
        · rw [CState.set_ne _ _ hal]; exact hg a (ham.resolve_left hal)
      · intro b hb hbe
        rw [CState.set_ne _ _ hb]; exact hsame b hbe
      · intro b _ hb
        have hb : ¬ (b = l ∨ ∃ es, L.lists l = some es ∧ b ∈ es) := hb
        rw [not_or] at hb
        rw [CState.set_ne _ _ hb.1]
        exact hsame b (fun hm => hb.2 ⟨es, hes, hm⟩)
  | listCount l =>
    obtain ⟨es, hes⟩ := Option.ne_none_iff_exists'.1 ha
    exact .read h (by
      simp only [exec, cavcPlineListCount]; rw [list_of h.null (h.listed hes)]; rfl) rfl
  | listGet l i =>
    obtain ⟨es, hes, hi⟩ := ha
    refine Or.inl ⟨s, .pline es[i], ?_, h, fun _ _ _ => rfl⟩
    simp only [exec, cavcPlineListGet]
    rw [list_of h.null (h.listed hes), ok_bind, check_pos hi, ok_bind, getM_of_lt hi]; rfl
  | listRelease l i =>
    obtain ⟨es, hes, hi⟩ := ha
    refine Or.inl ⟨s.set l (some (.list (es.eraseIdx i))), .pline es[i], ?_, ?_, fun b _ hb =>
      CState.set_ne _ _ hb⟩
    · simp only [exec, cavcPlineListRelease]
      rw [list_of h.null (h.listed hes), ok_bind, check_pos hi, ok_bind, getM_of_lt hi]; rfl
    · have := h.release hes hi
      simp only [Ledger.after, hes, Option.map_some]
      exact this
  | parallelOffset a d fl =>
    obtain ⟨p, hp⟩ := h.usable ha
    have hv : valueAt s a = some p.data := valueAt_some.2 ⟨p.capacity, hp⟩
    rcases hr : parallelOffset e.pf e.std e.hash p.data d (fl.getLsbD 0) with f | results
    · refine Or.inr (Or.inr ⟨f, ?_, p.data, hv, hr⟩)
      simp only [exec, cavcParallelOffset]
      rw [pline_of h.null hp, ok_bind, flag_eq, hr]; rfl
    · have hx : exec e s (.parallelOffset a d fl) = (e.new s (.list []) >>= fun x =>
          (fillList e x.2 results x.1 >>= fun y => .ok (y.1, Ret.list x.2 y.2))) := by
        simp only [exec, cavcParallelOffset]
        rw [pline_of h.null hp, ok_bind, flag_eq, hr, ok_bind]
        rcases e.new s (.list []) with f | ⟨s1, l⟩
        · rfl
        · simp only [ok_bind]
          rcases fillList e l results s1 with f | ⟨s2, as⟩ <;> rfl
      rcases hn : e.new s (.list []) with f | ⟨s1, l⟩
      · rw [hn] at hx
        obtain rfl := new_error hn
        exact Or.inr (Or.inl ⟨hx, trivial⟩)
      · rw [hn, ok_bind] at hx
        dsimp only at hx
        rcases hf : fillList e l results s1 with f | ⟨s2, as⟩
        · rw [hf] at hx
          obtain rfl := fillList_error hf
          exact Or.inr (Or.inl ⟨hx, trivial⟩)
        · rw [hf, ok_bind] at hx
          have k := addList_ok hn hf
          refine Or.inl ⟨s2, .list l as, hx, k.agrees h, fun b hb _ => k.same b ?_ ?_⟩
          · rintro rfl; exact hb k.head.2.1
          · intro hm; exact hb (k.fresh b hm).2
  | combinePlines a b m =>
    obtain ⟨hua, hub, hm0, hm3⟩ := ha
    obtain ⟨p, hp⟩ := h.usable hua
    obtain ⟨q, hq⟩ := h.usable hub
    have ha0 : a ≠ 0 := by rintro rfl; rw [h.null] at hp; cases hp
    have hb0 : b ≠ 0 := by rintro rfl; rw [h.null] at hq; cases hq
    have hva : valueAt s a = some p.data := valueAt_some.2 ⟨p.capacity, hp⟩
    have hvb : valueAt s b = some q.data := valueAt_some.2 ⟨q.capacity, hq⟩
    have hx0 : cavcCombinePlines e s a b m = (combinePolylines e.pf e.std e.hash p.data q.data
        (combineModeOf m) >>= fun results => do
          let (s, remaining) ← e.new s (.list [])
          let (s, subtracted) ← e.new s (.list [])
          let (s, ras) ← fillList e remaining results.remaining s
          let (s, sas) ← fillList e subtracted results.subtracted s
          return (s, (remaining, ras), (subtracted, sas))) := by
      unfold cavcCombinePlines
      rw [check_pos ha0, ok_bind, check_pos hb0, ok_bind, check_pos ⟨hm0, hm3⟩, ok_bind,
        plineAt_ok.2 hp, ok_bind, plineAt_ok.2 hq, ok_bind]
    have hx : exec e s (.combinePlines a b m) = (cavcCombinePlines e s a b m >>= fun x =>
        .ok (x.1, .lists x.2.1.1 x.2.1.2 x.2.2.1 x.2.2.2)) := by
      simp only [exec]
      rcases cavcCombinePlines e s a b m with f | ⟨s1, r, t⟩ <;> rfl
    rcases hr : combinePolylines e.pf e.std e.hash p.data q.data (combineModeOf m) with f | results
    · rw [hx0, hr] at hx
      exact Or.inr (Or.inr ⟨f, hx, p.data, q.data, _, hva, hvb, combineModeOf_spec hm0 hm3, hr⟩)
    · rw [hx0, hr, ok_bind] at hx
      rcases hn : e.new s (.list []) with f | ⟨s1, l⟩
      · rw [hn] at hx
        obtain rfl := new_error hn
        exact Or.inr (Or.inl ⟨hx, trivial⟩)
      · rw [hn, ok_bind] at hx
        dsimp only at hx
        rcases hn' : e.new s1 (.list []) with f | ⟨s2, l'⟩
        · rw [hn'] at hx
          obtain rfl := new_error hn'
          exact Or.inr (Or.inl ⟨hx, trivial⟩)
        · rw [hn', ok_bind] at hx
          dsimp only at hx
          rcases hf : fillList e l results.remaining s2 with f | ⟨s3, as⟩
          · rw [hf] at hx
            obtain rfl := fillList_error hf
            exact Or.inr (Or.inl ⟨hx, trivial⟩)
          · rw [hf, ok_bind] at hx
            dsimp only at hx
            rcases hf' : fillList e l' results.subtracted s3 with f | ⟨s4, as'⟩
            · rw [hf'] at hx
              obtain rfl := fillList_error hf'
              exact Or.inr (Or.inl ⟨hx, trivial⟩)
            · rw [hf', ok_bind, pure_eq_ok, ok_bind] at hx
              obtain ⟨t, k, k'⟩ := addTwo_ok hn hn' hf hf'
              refine Or.inl ⟨s4, .lists l as l' as', hx, k'.agrees (k.agrees h), fun b hb _ => ?_⟩
              have h1 : b ≠ l := by rintro rfl; exact hb k.head.2.1
              have h2 : b ∉ as := fun hm => hb (k.fresh b hm).2
              have ht := k.same b h1 h2
              rw [← ht] at hb ⊢
              refine k'.same b ?_ ?_
              · rintro rfl; exact hb k'.head.2.1
              · intro hm; exact hb (k'.fresh b hm).2
  | getPathLength a =>
    obtain ⟨p, hp⟩ := h.usable ha
    have hv : valueAt s a = some p.data := valueAt_some.2 ⟨p.capacity, hp⟩
    rcases hr : getPathLength p.data with f | x
    · refine Or.inr (Or.inr ⟨f, ?_, p.data, hv, hr⟩)
      simp only [exec, cavcGetPathLength]
      rw [pline_of h.null hp, ok_bind, hr]; rfl
    · refine .read h ?_ rfl
      simp only [exec, cavcGetPathLength]
      rw [pline_of h.null hp, ok_bind, hr]; rfl
  | getArea a =>
    obtain ⟨p, hp⟩ := h.usable ha
    have hv : valueAt s a = some p.data := valueAt_some.2 ⟨p.capacity, hp⟩
    rcases hr : getArea p.data with f | x
    · refine Or.inr (Or.inr ⟨f, ?_, p.data, hv, hr⟩)
      simp only [exec, cavcGetArea]
      rw [pline_of h.null hp, ok_bind, hr]; rfl
    · refine .read h ?_ rfl
      simp only [exec, cavcGetArea]
      rw [pline_of h.null hp, ok_bind, hr]; rfl
  | getWindingNumber a x y =>
    obtain ⟨p, hp⟩ := h.usable ha
    have hv : valueAt s a = some p.data := valueAt_some.2 ⟨p.capacity, hp⟩
    rcases hr : getWindingNumber p.data ⟨x, y⟩ with f | w
    · refine Or.inr (Or.inr ⟨f, ?_, p.data, hv, hr⟩)
      simp only [exec, cavcGetWindingNumber]
      rw [pline_of h.null hp, ok_bind, hr]; rfl
    · refine .read h ?_ rfl
      simp only [exec, cavcGetWindingNumber]
      rw [pline_of h.null hp, ok_bind, hr]; rfl
  | getExtents a =>
    obtain ⟨p, hp⟩ := h.usable ha
    have hv : valueAt s a = some p.data := valueAt_some.2 ⟨p.capacity, hp⟩
    rcases hr : getExtents p.data with f | w
    · refine Or.inr (Or.inr ⟨f, ?_, p.data, hv, hr⟩)
      simp only [exec, cavcGetExtents]
      rw [pline_of h.null hp, ok_bind, hr]; rfl
    · refine .read h ?_ rfl
      simp only [exec, cavcGetExtents]
      rw [pline_of h.null hp, ok_bind, hr]; rfl
  | getClosestPoint a x y =>
    obtain ⟨p, hp⟩ := h.usable ha.1
    have hc : cavcPlineVertexCount e s a = .ok (u32 p.data.size) := by
      unfold cavcPlineVertexCount; rw [pline_of h.null hp]; rfl
    have hne : p.data.size ≠ 0 := fun h0 => ha.2 _ hc (by rw [h0]; rfl)
    have hv : valueAt s a = some p.data := valueAt_some.2 ⟨p.capacity, hp⟩
    rcases hr : closestPoint p.data ⟨x, y⟩ with f | w
    · refine Or.inr (Or.inr ⟨f, ?_, p.data, hv, hr⟩)
      simp only [exec, cavcGetClosestPoint]
      rw [pline_of h.null hp, ok_bind, check_pos hne, ok_bind, hr]; rfl
    · refine .read h ?_ rfl
      simp only [exec, cavcGetClosestPoint]
      rw [pline_of h.null hp, ok_bind, check_pos hne, ok_bind, hr]; rfl

/-! ### C46 -/

/-- C46: after any history of permitted calls the valid handles are exactly those in the caller's
books: every polyline the caller may use and every list it has is alive, with the elements it knows,
no polyline belongs to two owners, and nothing else is alive. -/
theorem C46_ownership {e : Env} {s : CState} {L : Ledger} (h : Reaches e s L) : Agrees s L := by
  induction h with
  | start => exact Agrees.init
  | call _ ha hx ih =>
    rcases callOk ih ha with ⟨s', r, hx', hag, -⟩ | ⟨hx', -⟩ | ⟨f, hx', -⟩
    · rw [hx] at hx'
      injection hx' with hx'; injection hx' with h1 h2; subst h1 h2
      exact hag
    · rw [hx] at hx'; cases hx'
    · rw [hx] at hx'; cases hx'

/-- C46: no permitted call uses or frees an invalid handle, reads or writes out of range or fails an
assertion of the API: it returns, or memory runs out, or the algorithm it wraps goes wrong on the
polylines given. -/
theorem C46_permitted_calls {e : Env} {s : CState} {L : Ledger} (h : Reaches e s L) {c : Call}
    (ha : Allowed e s L c) : (∃ s' r, exec e s c = .ok (s', r)) ∨
      (exec e s c = .error .thrown ∧ Allocates c) ∨
      ∃ f, exec e s c = .error f ∧ AlgorithmFault e s f c := by
  rcases callOk (C46_ownership h) ha with ⟨s', r, hx, -⟩ | hx | hx
  · exact Or.inl ⟨s', r, hx⟩
  · exact Or.inr (Or.inl hx)
  · exact Or.inr (Or.inr hx)

/-- C46: no leak. When the caller has deleted everything it had to, no object is left. -/
theorem C46_no_leak {e : Env} {s : CState} {L : Ledger} (h : Reaches e s L) (ho : L.owned = ∅)
    (hl : ∀ l, L.lists l = none) : ∀ a, s.heap a = none := by
  have hag := C46_ownership h
  intro a
  rcases ha : s.heap a with _ | ⟨p⟩ | ⟨es⟩
  · rfl
  · rcases (hag.plines a).1 (valueAt_ne_none.2 ⟨p, ha⟩) with h1 | ⟨l, es, h1, -⟩
    · rw [ho] at h1; exact h1.elim
    · rw [hl l] at h1; cases h1
  · have := hag.entered ha
    rw [hl a] at this; cases this

/-- C46: a call changes or destroys only the object it is about (for a list also its elements); every
other object that is alive stays as it is. -/
theorem C46_frame {e : Env} {s s' : CState} {L : Ledger} (h : Reaches e s L) {c : Call} {r : Ret}
    (ha : Allowed e s L c) (hx : exec e s c = .ok (s', r)) {b : Addr} (hb : s.heap b ≠ none)
    (ht : ¬ Touches L c b) : s'.heap b = s.heap b := by
  rcases callOk (C46_ownership h) ha with ⟨s1, r1, hx', -, hf⟩ | ⟨hx', -⟩ | ⟨f, hx', -⟩
  · rw [hx] at hx'
    injection hx' with hx'; injection hx' with h1 h2; subst h1 h2
    exact hf b hb ht
  · rw [hx] at hx'; cases hx'
  · rw [hx] at hx'; cases hx'

/-- C46: a handle that `cavc_pline_new` returns is not null and was not valid before. -/
theorem C46_new_handle {e : Env} {s s' : CState} {d : Option (List CVertex)} {n : ℕ} {cl : ℤ}
    {a : Addr} (h : cavcPlineNew e s d n cl = .ok (s', a)) : a ≠ 0 ∧ s.heap a = none := by
  unfold cavcPlineNew at h
  obtain ⟨p, -, h⟩ := bind_eq_ok.1 h
  exact ⟨(new_ok h).1, (new_ok h).2.1⟩

/-- What the rules are for: deleting a handle twice, deleting an element of a list, or using a handle
after deletion is an error. -/
theorem C46_double_delete_witness (s : CState) {a : Addr} (ha : a ≠ 0) {p : CPline}
    (hp : s.heap a = some (.pline p)) : ∃ s', cavcPlineDelete s a = .ok s' ∧
      cavcPlineDelete s' a = .error .invalidPointer ∧ s'.plineAt a = .error .invalidPointer := by
  have hn : (s.set a none).plineAt a = .error .invalidPointer := by
    unfold CState.plineAt; rw [CState.set_self]
  refine ⟨s.set a none, ?_, ?_, hn⟩
  · unfold cavcPlineDelete; rw [if_neg ha, plineAt_ok.2 hp]; rfl
  · unfold cavcPlineDelete; rw [if_neg ha, hn]; rfl

end Cavc

import Verif.Spec.CombineSides
import Verif.Props.CombineRun

/-! C57: the pieces a boolean operation cuts its polylines into. -/
namespace Cavc
open Spec
open scoped Classical
noncomputable section

/-! ### The lookup as a list of cuts -/

def cutOf (k : ℕ) (sp : SlicePoint) : Cut := ⟨k, sp.pos, sp.startOfCoincidentSlice⟩

/-- The cuts of a lookup. -/
def cutsIn (l : SliceLookup) : List Cut := l.flatMap fun kv => kv.2.map (cutOf kv.1)

/-- The keys ascend and no list is empty. -/
def Keyed (l : SliceLookup) : Prop := l.Pairwise (fun a b => a.1 < b.1) ∧ ∀ kv ∈ l, kv.2 ≠ []

theorem push_keys {key : ℕ} {p : SlicePoint} : ∀ {l : SliceLookup} {kv : ℕ × List SlicePoint},
    kv ∈ SliceLookup.push key p l → kv.1 = key ∨ ∃ kv' ∈ l, kv.1 = kv'.1
  | [], kv, h => by
    simp only [SliceLookup.push, List.mem_singleton] at h
    subst h
    exact Or.inl rfl
  | (k, ps) :: rest, kv, h => by
    unfold SliceLookup.push at h
    by_cases c1 : key < k
    · rw [if_pos c1] at h
      rcases List.mem_cons.1 h with rfl | h
      · exact Or.inl rfl
      · exact Or.inr ⟨kv, h, rfl⟩
    · rw [if_neg c1] at h
      by_cases c2 : key = k
      · rw [if_pos c2] at h
        rcases List.mem_cons.1 h with rfl | h
        · exact Or.inl c2.symm
        · exact Or.inr ⟨kv, by simp [h], rfl⟩
      · rw [if_neg c2] at h
        rcases List.mem_cons.1 h with rfl | h
        · exact Or.inr ⟨(k, ps), by simp, rfl⟩
        · rcases push_keys h with h | ⟨kv', h1, h2⟩
          · exact Or.inl h
          · exact Or.inr ⟨kv', by simp [h1], h2⟩

theorem push_cuts (key : ℕ) (p : SlicePoint) : ∀ l : SliceLookup, Keyed l →
    Keyed (SliceLookup.push key p l) ∧ (cutsIn (SliceLookup.push key p l)).Perm (cutOf key p :: cutsIn l)
  | [], _ => by
    refine ⟨⟨by simp [SliceLookup.push], ?_⟩, by simp [SliceLookup.push, cutsIn]⟩
    intro kv h
    simp only [SliceLookup.push, List.mem_singleton] at h
    subst h
    simp
  | (k, ps) :: rest, h => by
    have h1 := List.pairwise_cons.1 h.1
    obtain ⟨i1, i2⟩ := push_cuts key p rest ⟨h1.2, fun kv hkv => h.2 kv (by simp [hkv])⟩
    unfold SliceLookup.push
    split_ifs with c1 c2
    · refine ⟨⟨List.pairwise_cons.2 ⟨?_, h.1⟩, ?_⟩, by simp [cutsIn]⟩
      · intro kv hkv
        rcases List.mem_cons.1 hkv with rfl | hkv
        · exact c1
        · exact lt_trans c1 (h1.1 kv hkv)
      · intro kv hkv
        rcases List.mem_cons.1 hkv with rfl | hkv
        · simp
        · exact h.2 kv hkv
    · refine ⟨⟨List.pairwise_cons.2 ⟨h1.1, h1.2⟩, ?_⟩, ?_⟩
      · intro kv hkv
        rcases List.mem_cons.1 hkv with rfl | hkv
        · simp
        · exact h.2 kv (by simp [hkv])
      · subst c2
        simp only [cutsIn, List.flatMap_cons, List.map_append, List.map_cons, List.map_nil,
          List.append_assoc, List.singleton_append]
        exact List.perm_middle
    · refine ⟨⟨List.pairwise_cons.2 ⟨?_, i1.1⟩, ?_⟩, ?_⟩
      · intro kv hkv
        rcases push_keys hkv with hk | ⟨kv', hk1, hk2⟩
        · rw [hk]; simp only; omega
        · rw [hk2]; exact h1.1 kv' hk1
      · intro kv hkv
        rcases List.mem_cons.1 hkv with rfl | hkv
        · exact h.2 _ (by simp)
        · exact i1.2 kv hkv
      · unfold cutsIn at i2 ⊢
        simp only [List.flatMap_cons]
        exact (List.Perm.append_left _ i2).trans List.perm_middle

theorem pushes_cuts {α : Type} (key : α → ℕ) (pt : α → SlicePoint) :
    ∀ (xs : List α) (l : SliceLookup), Keyed l →
      Keyed (xs.foldl (fun (l : SliceLookup) x => l.push (key x) (pt x)) l) ∧
      (cutsIn (xs.foldl (fun (l : SliceLookup) x => l.push (key x) (pt x)) l)).Perm
        (cutsIn l ++ xs.map fun x => cutOf (key x) (pt x))
  | [], l, hl => ⟨hl, by simp⟩
  | x :: xs, l, hl => by
    obtain ⟨h1, h2⟩ := push_cuts (key x) (pt x) l hl
    obtain ⟨h3, h4⟩ := pushes_cuts key pt xs _ h1
    refine ⟨h3, h4.trans ?_⟩
    rw [List.map_cons]
    exact (List.Perm.append_right _ h2).trans List.perm_middle.symm

theorem pushCoincident2_cuts {info : CombineInfo}
    {ov : List (PlineIntersect × PlineIntersect × Bool)}
    (h1 : info.coincidentSliceStartPoints = ov.map fun o => o.1)
    (h2 : info.coincidentSliceEndPoints = ov.map fun o => o.2.1)
    (h3 : info.coincidentIsOpposingDirection = ov.map fun o => o.2.2) :
    ∀ (n k : ℕ) (l r : SliceLookup), k + n = ov.length → Keyed l →
      (List.range' k n).foldlM (pushCoincident2 info) l = .ok r →
      Keyed r ∧ (cutsIn r).Perm (cutsIn l ++ (ov.drop k).flatMap fun o =>
        [⟨o.1.sIndex2, o.1.pos, !o.2.2⟩, ⟨o.2.1.sIndex2, o.2.1.pos, o.2.2⟩]) := by
  intro n
  induction n with
  | zero =>
    intro k l r hk hl h
    simp only [List.range'_zero, List.foldlM_nil, pure_eq_ok, Except.ok.injEq] at h
    subst h
    rw [List.drop_of_length_le (by omega)]
    exact ⟨hl, by simp⟩
  | succ n ih =>
    intro k l r hk hl h
    rw [List.range'_succ, List.foldlM_cons] at h
    obtain ⟨l1, e1, e2⟩ := bind_eq_ok.1 h
    have hlt : k < ov.length := by omega
    have hstep : l1 = (l.push ov[k].1.sIndex2 ⟨ov[k].1.pos, !ov[k].2.2⟩).push ov[k].2.1.sIndex2
        ⟨ov[k].2.1.pos, ov[k].2.2⟩ := by
      unfold pushCoincident2 at e1
      rw [h1, h2, h3, getM_of_lt (by simpa using hlt), ok_bind, getM_of_lt (by simpa using hlt), ok_bind,
        getM_of_lt (by simpa using hlt), ok_bind] at e1
      simp only [List.getElem_map] at e1
      cases hb : ov[k].2.2 with
      | true => rw [hb] at e1; simpa using e1.symm
      | false => rw [hb] at e1; simpa using e1.symm
    obtain ⟨a1, a2⟩ := push_cuts ov[k].1.sIndex2 ⟨ov[k].1.pos, !ov[k].2.2⟩ l hl
    obtain ⟨a3, a4⟩ := push_cuts ov[k].2.1.sIndex2 ⟨ov[k].2.1.pos, ov[k].2.2⟩ _ a1
    rw [← hstep] at a3 a4
    obtain ⟨b1, b2⟩ := ih (k + 1) l1 r (by omega) a3 e2
    refine ⟨b1, b2.trans ?_⟩
    rw [List.drop_eq_getElem_cons hlt, List.flatMap_cons]
    refine (List.Perm.append_right _ (a4.trans (List.Perm.cons _ a2))).trans ?_
    refine List.Perm.trans (List.Perm.append_right _ (List.Perm.swap _ _ _)) ?_
    rw [List.cons_append, List.cons_append, List.cons_append, List.cons_append, List.nil_append]
    refine (List.Perm.cons _ List.perm_middle.symm).trans List.perm_middle.symm

/-- The cuts the code uses. -/
def cutsFor (info : CombineInfo) (second : Bool) : List Cut :=
  if second then
    cutsOfSecond info.nonCoincidentIntersects (info.coincidentSliceStartPoints.zip
      (info.coincidentSliceEndPoints.zip info.coincidentIsOpposingDirection))
  else cutsOfFirst info.nonCoincidentIntersects info.coincidentSliceStartPoints
    info.coincidentSliceEndPoints

theorem combineLookup_cuts {info : CombineInfo} {second : Bool} {l : SliceLookup}
    (h1 : info.coincidentSliceEndPoints.length = info.coincidentSliceStartPoints.length)
    (h2 : info.coincidentIsOpposingDirection.length = info.coincidentSliceStartPoints.length)
    (h : combineLookup info second = .ok l) : Keyed l ∧ (cutsIn l).Perm (cutsFor info second) := by
  have h0 : Keyed [] := ⟨by simp, by simp⟩
  cases second with
  | true =>
    unfold combineLookup at h
    simp only [if_true] at h
    rw [List.range_eq_range'] at h
    obtain ⟨a1, a2⟩ := pushes_cuts PlineIntersect.sIndex2 (fun intr => ⟨intr.pos, false⟩)
      info.nonCoincidentIntersects [] h0
    have e1 : info.coincidentSliceEndPoints = (info.coincidentSliceEndPoints.zip
        info.coincidentIsOpposingDirection).map Prod.fst := by
      rw [List.map_fst_zip (by omega)]
    have e2 : info.coincidentIsOpposingDirection = (info.coincidentSliceEndPoints.zip
        info.coincidentIsOpposingDirection).map Prod.snd := by
      rw [List.map_snd_zip (by omega)]
    have l0 : (info.coincidentSliceEndPoints.zip info.coincidentIsOpposingDirection).length =
        info.coincidentSliceStartPoints.length := by
      rw [List.length_zip]; omega
    have e3 : info.coincidentSliceStartPoints = (info.coincidentSliceStartPoints.zip
        (info.coincidentSliceEndPoints.zip info.coincidentIsOpposingDirection)).map fun o => o.1 := by
      change _ = List.map Prod.fst _
      rw [List.map_fst_zip (by omega)]
    have e4 : info.coincidentSliceEndPoints.zip info.coincidentIsOpposingDirection =
        (info.coincidentSliceStartPoints.zip
        (info.coincidentSliceEndPoints.zip info.coincidentIsOpposingDirection)).map Prod.snd := by
      rw [List.map_snd_zip (by omega)]
    obtain ⟨b1, b2⟩ := pushCoincident2_cuts (info := info)
      (ov := info.coincidentSliceStartPoints.zip
        (info.coincidentSliceEndPoints.zip info.coincidentIsOpposingDirection)) e3
      (by
        conv_lhs => rw [e1, e4, List.map_map]
        rfl)
      (by
        conv_lhs => rw [e2, e4, List.map_map]
        rfl) _ 0 _ l (by rw [List.length_zip]; omega) a1 h
    refine ⟨b1, b2.trans ?_⟩
    unfold cutsFor cutsOfSecond
    rw [if_pos rfl, List.drop_zero]
    exact List.Perm.append_right _ a2
  | false =>
    unfold combineLookup at h
    simp only [Bool.false_eq_true, if_false, Except.ok.injEq] at h
    obtain ⟨a1, a2⟩ := pushes_cuts PlineIntersect.sIndex1 (fun intr => ⟨intr.pos, false⟩)
      info.nonCoincidentIntersects [] h0
    obtain ⟨b1, b2⟩ := pushes_cuts PlineIntersect.sIndex1 (fun intr => ⟨intr.pos, true⟩)
      info.coincidentSliceStartPoints _ a1
    obtain ⟨c1, c2⟩ := pushes_cuts PlineIntersect.sIndex1 (fun intr => ⟨intr.pos, false⟩)
      info.coincidentSliceEndPoints _ b1
    rw [h] at c1 c2
    refine ⟨c1, c2.trans ?_⟩
    unfold cutsFor cutsOfFirst
    rw [if_neg (by simp)]
    exact List.Perm.append_right _ (b2.trans (List.Perm.append_right _ a2))

/-! ### Sorting -/

theorem mapM_forall {α β : Type} {f : α → M β} : ∀ {l : List α} {l' : List β}, l.mapM f = .ok l' →
    List.Forall₂ (fun a b => f a = .ok b) l l'
  | [], l', h => by
    simp only [List.mapM_nil, pure_eq_ok, Except.ok.injEq] at h
    subst h
    exact .nil
  | a :: l, l', h => by
    rw [List.mapM_cons] at h
    obtain ⟨b, hb, h⟩ := bind_eq_ok.1 h
    obtain ⟨bs, hbs, h⟩ := bind_eq_ok.1 h
    simp only [pure_eq_ok, Except.ok.injEq] at h
    subst h
    exact .cons hb (mapM_forall hbs)

theorem along_of {p : Polyline} : ∀ {l : SliceLookup}, l.Pairwise (fun a b => a.1 < b.1) →
    (∀ kv ∈ l, kv.2.Pairwise fun a b => dist2 (vtx p kv.1).pos a.pos ≤ dist2 (vtx p kv.1).pos b.pos) →
    AlongPline p (cutsIn l)
  | [], _, _ => List.Pairwise.nil
  | kv :: l, h1, h2 => by
    have h1' := List.pairwise_cons.1 h1
    unfold AlongPline cutsIn
    rw [List.flatMap_cons, List.pairwise_append]
    refine ⟨?_, along_of h1'.2 (fun kv hkv => h2 kv (by simp [hkv])), ?_⟩
    · rw [List.pairwise_map]
      refine (h2 kv (by simp)).imp ?_
      intro a b hab
      refine Or.inr ⟨rfl, ?_⟩
      intro v1 v2 hs
      obtain ⟨-, -, -, rfl, -⟩ := seg_lt hs
      exact hab
    · intro a ha b hb
      obtain ⟨sp, -, rfl⟩ := List.mem_map.1 ha
      obtain ⟨kv', hkv', hb⟩ := List.mem_flatMap.1 hb
      obtain ⟨sp', -, rfl⟩ := List.mem_map.1 hb
      exact Or.inl (h1'.1 kv' hkv')

theorem sorted_keys {P : ℕ × List SlicePoint → ℕ × List SlicePoint → Prop} {l l' : SliceLookup}
    (h : List.Forall₂ (fun kv kv' => kv'.1 = kv.1 ∧ P kv kv') l l') :
    l'.map Prod.fst = l.map Prod.fst := by
  induction h with
  | nil => rfl
  | cons h1 _ ih => rw [List.map_cons, List.map_cons, h1.1, ih]

theorem sortSliceLookup_cuts {std : StdSort} {p : Polyline} {l l' : SliceLookup} (hk : Keyed l)
    (h : sortSliceLookup std p l = .ok l') :
    Keyed l' ∧ (cutsIn l').Perm (cutsIn l) ∧ AlongPline p (cutsIn l') := by
  have hf := mapM_forall h
  have hR : List.Forall₂ (fun (kv kv' : ℕ × List SlicePoint) => kv'.1 = kv.1 ∧ kv'.2.Perm kv.2 ∧
      kv'.2.Pairwise fun a b => dist2 (vtx p kv'.1).pos a.pos ≤ dist2 (vtx p kv'.1).pos b.pos) l l' := by
    refine hf.imp ?_
    intro kv kv' hkv
    obtain ⟨v, hv, hkv⟩ := bind_eq_ok.1 hkv
    simp only [pure_eq_ok, Except.ok.injEq] at hkv
    subst hkv
    have hlt : kv.1 < p.size := by
      unfold Polyline.at at hv
      rw [getM_eq_ok] at hv
      obtain ⟨h, -⟩ := List.getElem?_eq_some_iff.1 hv
      exact h
    rw [at_eq hlt] at hv
    cases hv
    have sw := keyLess_strictWeak (fun i : SlicePoint => distSquared i.pos (vtx p kv.1).pos)
    refine ⟨rfl, std.perm _ _ sw, (std.sorted _ _ sw).imp ?_⟩
    intro a b hab
    have e : ∀ x y : V2, dist2 x y = distSquared y x := by
      intro x y
      unfold dist2 distSquared
      simp [dot]
      ring
    rw [e, e]
    exact not_lt.1 hab
  clear hf h
  have hkeys : l'.Pairwise (fun a b => a.1 < b.1) := by
    have := hk.1
    rw [← List.pairwise_map (f := Prod.fst) (R := (· < ·))] at this ⊢
    rw [sorted_keys hR]
    exact this
  refine ⟨⟨hkeys, ?_⟩, ?_, ?_⟩
  · intro kv' hkv'
    obtain ⟨kv, hkv, h1, h2, -⟩ := forall2_right hR hkv'
    intro h0
    rw [h0] at h2
    exact hk.2 kv hkv h2.symm.eq_nil
  · clear hk hkeys
    induction hR with
    | nil => exact List.Perm.refl _
    | cons h1 _ ih =>
      unfold cutsIn at ih ⊢
      rw [List.flatMap_cons, List.flatMap_cons, h1.1]
      exact (h1.2.1.map _).append ih
  · exact along_of hkeys (fun kv' hkv' => (forall2_right hR hkv').elim fun kv h => h.2.2.2)

/-! ### The pieces within a segment -/

theorem tiny_pair {u w : Vertex} : Tiny ⟨false, [u, w]⟩ ↔ fuzzyEqualV u.pos w.pos realPrecision := by
  have hs : ∀ {a b : V2}, Near (1 / 10 ^ 5) a b → Near (1 / 10 ^ 5) b a := by
    intro a b h
    unfold Near at h ⊢
    rw [abs_sub_comm b.x, abs_sub_comm b.y]
    exact h
  have hr : ∀ a : V2, Near (1 / 10 ^ 5) a a := by
    intro a
    unfold Near
    norm_num
  rw [show fuzzyEqualV u.pos w.pos realPrecision ↔ Near (1 / 10 ^ 5) u.pos w.pos from near5_iff]
  unfold Tiny
  simp only [List.mem_cons, List.not_mem_nil, or_false]
  constructor
  · intro h
    exact h u (Or.inl rfl) w (Or.inr rfl)
  · rintro h a (rfl | rfl) b (rfl | rfl)
    · exact hr _
    · exact h
    · exact hs h
    · exact hr _

theorem keptBy_pair {keep : V2 → Prop} {u w : Vertex} {l : List Vertex} {c : Bool} {m : V2}
    (hm : segMidpoint u w = .ok m) : KeptBy keep ⟨c, l ++ [u, w]⟩ ↔ keep m := by
  constructor
  · rintro ⟨l', u', w', m', h1, h2, h3⟩
    simp only at h1
    have := List.append_inj' h1 rfl
    simp only [List.cons.injEq, and_true] at this
    obtain ⟨-, rfl, rfl⟩ := this
    rw [hm] at h2
    cases h2
    exact h3
  · intro h
    exact ⟨l, u, w, m, rfl, hm, h⟩

/-- What comes of a cut that is not the last one of its segment. -/
def InnerOut (keep : V2 → Prop) (e v : Vertex) (xs : List V2) (sp sp' : SlicePoint)
    (o : Option Polyline) : Prop :=
  (sp.startOfCoincidentSlice = true ∧ o = none) ∨
  (sp.startOfCoincidentSlice = false ∧ ∃ u r, Rest e v xs u ∧ splitAtPoint u e sp'.pos = .ok r ∧
    o = if ¬ Tiny ⟨false, [r.updatedStart, r.splitVertex]⟩ ∧
      KeptBy keep ⟨false, [r.updatedStart, r.splitVertex]⟩
      then some ⟨false, [r.updatedStart, r.splitVertex]⟩ else none)

theorem innerOut_cons {keep : V2 → Prop} {e v : Vertex} {x : V2} {xs : List V2} {r : SplitResult}
    {sp sp' : SlicePoint} {o : Option Polyline} (hr : splitAtPoint v e x = .ok r)
    (h : InnerOut keep e r.splitVertex xs sp sp' o) : InnerOut keep e v (x :: xs) sp sp' o := by
  rcases h with h | ⟨h1, u, r', h2, h3⟩
  · exact Or.inl h
  · exact Or.inr ⟨h1, u, r', ⟨r, hr, h2⟩, h3⟩

theorem between_cuts {pred : V2 → M Bool} {keep : V2 → Prop}
    (hk : ∀ x b, pred x = .ok b → (b = true ↔ keep x)) {e : Vertex} :
    ∀ (sps : List SlicePoint) (prev : SlicePoint) (pv : Vertex) (result r : List Polyline),
      betweenIntersects pred e prev sps pv result = .ok r →
      ∃ os : List (Option Polyline), os.length = sps.length ∧ r = result ++ os.filterMap id ∧
        ∀ t sp sp' o, (prev :: sps)[t]? = some sp → sps[t]? = some sp' → os[t]? = some o →
          InnerOut keep e pv ((sps.take t).map SlicePoint.pos) sp sp' o
  | [], prev, pv, result, r, h => by
    unfold betweenIntersects at h
    cases h
    exact ⟨[], rfl, by simp, by simp⟩
  | sp :: rest, prev, pv, result, r, h => by
    unfold betweenIntersects at h
    obtain ⟨sr, hsr, h⟩ := bind_eq_ok.1 h
    have go : ∀ (result' : List Polyline) (o : Option Polyline), result' = result ++ o.toList →
        InnerOut keep e pv [] prev sp o → betweenIntersects pred e sp rest sr.splitVertex result' = .ok r →
        ∃ os : List (Option Polyline), os.length = (sp :: rest).length ∧ r = result ++ os.filterMap id ∧
        ∀ t sp1 sp' o, (prev :: sp :: rest)[t]? = some sp1 → (sp :: rest)[t]? = some sp' →
          os[t]? = some o → InnerOut keep e pv (((sp :: rest).take t).map SlicePoint.pos) sp1 sp' o := by
      rintro result' o rfl ho h
      obtain ⟨os, g1, g2, g3⟩ := between_cuts hk rest sp sr.splitVertex _ r h
      refine ⟨o :: os, by simp [g1], ?_, ?_⟩
      · rw [g2]
        cases o <;> simp
      · intro t sp1 sp' o' h1 h2 h3
        cases t with
        | zero =>
          simp only [List.getElem?_cons_zero, Option.some.injEq] at h1 h2 h3
          subst h1 h2 h3
          exact ho
        | succ t =>
          simp only [List.getElem?_cons_succ] at h1 h2 h3
          exact innerOut_cons hsr (g3 t sp1 sp' o' h1 h2 h3)
    by_cases c1 : prev.startOfCoincidentSlice
    · rw [if_pos c1] at h
      exact go result none (by simp) (Or.inl ⟨c1, rfl⟩) h
    · rw [if_neg c1] at h
      have c1' : prev.startOfCoincidentSlice = false := by simpa using c1
      by_cases c2 : fuzzyEqualV sr.updatedStart.pos sr.splitVertex.pos realPrecision
      · rw [if_pos c2] at h
        refine go result none (by simp) (Or.inr ⟨c1', pv, sr, rfl, hsr, ?_⟩) h
        rw [if_neg]
        rintro ⟨hn, -⟩
        exact hn (tiny_pair.2 c2)
      · rw [if_neg c2] at h
        obtain ⟨m, hm, h⟩ := bind_eq_ok.1 h
        obtain ⟨b, hb, h⟩ := bind_eq_ok.1 h
        have hkb : KeptBy keep ⟨false, [sr.updatedStart, sr.splitVertex]⟩ ↔ b = true := by
          rw [hk m b hb]
          exact keptBy_pair (l := []) hm
        refine go _ (if b then some ⟨false, [sr.updatedStart, sr.splitVertex]⟩ else none) ?_
          (Or.inr ⟨c1', pv, sr, rfl, hsr, ?_⟩) h
        · cases b <;> simp
        · cases b with
          | true =>
            rw [if_pos rfl]
            exact (if_pos ⟨fun hn => c2 (tiny_pair.1 hn), hkb.2 rfl⟩).symm
          | false =>
            rw [if_neg (by simp)]
            exact (if_neg (fun hn => by simpa using hkb.1 hn.2)).symm

theorem inner_cuts {pred : V2 → M Bool} {keep : V2 → Prop}
    (hk : ∀ x b, pred x = .ok b → (b = true ↔ keep x)) {sv ev : Vertex} {sps : List SlicePoint}
    {result r : List Polyline} (h : innerIntersects pred sv ev sps result = .ok r) :
    ∃ os : List (Option Polyline), os.length + 1 = sps.length ∧ r = result ++ os.filterMap id ∧
      ∀ t sp sp' o, sps[t]? = some sp → sps[t + 1]? = some sp' → os[t]? = some o →
        InnerOut keep ev sv ((sps.take (t + 1)).map SlicePoint.pos) sp sp' o := by
  unfold innerIntersects at h
  by_cases c : sps.length ≠ 1
  · rw [if_pos c] at h
    cases sps with
    | nil => cases h
    | cons sp0 rest =>
      simp only at h
      obtain ⟨fr, hfr, h⟩ := bind_eq_ok.1 h
      obtain ⟨os, g1, g2, g3⟩ := between_cuts hk rest sp0 _ _ _ h
      refine ⟨os, by simp [g1], g2, ?_⟩
      intro t sp sp' o h1 h2 h3
      exact innerOut_cons hfr (g3 t sp sp' o h1 (by simpa using h2) h3)
  · rw [if_neg c] at h
    push Not at c
    cases h
    obtain ⟨x, rfl⟩ := List.length_eq_one_iff.1 c
    exact ⟨[], rfl, by simp, by simp⟩

/-! ### The pieces over vertexes -/

theorem addOrReplace_joined (c : Bool) (vs : List Vertex) (v : Vertex) :
    addOrReplaceIfSamePos ⟨c, vs⟩ v = ⟨c, joined vs v⟩ := by
  unfold addOrReplaceIfSamePos joined
  cases h : vs.getLast? with
  | none =>
    rw [List.getLast?_eq_none_iff] at h
    subst h
    rfl
  | some u =>
    simp only
    by_cases hn : fuzzyEqualV u.pos v.pos realPrecision
    · rw [if_pos hn, if_pos (near5_iff.1 hn)]
    · rw [if_neg hn, if_neg (fun h => hn (near5_iff.2 h))]
      rfl

theorem next_eq_mod {i n : ℕ} (h : i < n) : nextWrappingIndex i n = (i + 1) % n := by
  unfold nextWrappingIndex
  split_ifs with c
  · rw [c, show n - 1 + 1 = n by omega, Nat.mod_self]
  · rw [Nat.mod_eq_of_lt (by omega)]

/-- The vertexes from index `i` on, going around. -/
def vertsFrom (p : Polyline) (i d : ℕ) : List Vertex :=
  (List.range d).map fun t => vtx p ((i + t) % p.size)

theorem vertsFrom_rotate {p : Polyline} {i d : ℕ} (hd : d ≤ p.size) :
    vertsFrom p i d = (p.vertexes.rotate i).take d := by
  have hs : p.size = p.vertexes.length := rfl
  apply List.ext_getElem
  · simp [vertsFrom]; omega
  · intro t h1 h2
    simp only [vertsFrom, List.length_map, List.length_range] at h1
    simp only [vertsFrom, List.getElem_map, List.getElem_range, List.getElem_take,
      List.getElem_rotate]
    unfold vtx
    rw [List.getD_eq_getElem _ _ (by rw [← hs]; exact Nat.mod_lt _ (by omega))]
    congr 2
    omega

theorem vertsFrom_succ (p : Polyline) {i : ℕ} (hi : i < p.size) (d : ℕ) :
    vertsFrom p i (d + 1) = vtx p i :: vertsFrom p ((i + 1) % p.size) d := by
  unfold vertsFrom
  rw [List.range_succ_eq_map, List.map_cons, List.map_map, Nat.add_zero, Nat.mod_eq_of_lt hi]
  congr 1
  apply List.map_congr_left
  intro t _
  simp only [Function.comp]
  congr 1
  rw [Nat.mod_add_mod]
  congr 1
  omega

theorem loop_cuts {p : Polyline} {lookup : SliceLookup} : ∀ (d fuel i : ℕ) (vs : List Vertex)
    (q : Polyline) (sp : SlicePoint) (rest : List SlicePoint), i < p.size →
    (∀ t < d, lookup.find? ((i + t) % p.size) = none) →
    lookup.find? ((i + d) % p.size) = some (sp :: rest) →
    intersectLoop p lookup fuel i ⟨false, vs⟩ = .ok q →
    endSlice p ((i + d) % p.size) sp.pos ⟨false, (vertsFrom p i (d + 1)).foldl joined vs⟩ = .ok q := by
  intro d
  induction d with
  | zero =>
    intro fuel i vs q sp rest hi _ hf h
    cases fuel with
    | zero => cases h
    | succ fuel =>
      unfold intersectLoop at h
      rw [at_eq hi, ok_bind] at h
      simp only [addOrReplace_joined] at h
      rw [Nat.add_zero, Nat.mod_eq_of_lt hi] at hf ⊢
      rw [hf] at h
      simp only at h
      rw [vertsFrom_succ p hi]
      simpa [vertsFrom] using h
  | succ d ih =>
    intro fuel i vs q sp rest hi hn hf h
    cases fuel with
    | zero => cases h
    | succ fuel =>
      unfold intersectLoop at h
      rw [at_eq hi, ok_bind] at h
      simp only [addOrReplace_joined] at h
      have h0 := hn 0 (by omega)
      rw [Nat.add_zero, Nat.mod_eq_of_lt hi] at h0
      rw [h0] at h
      simp only at h
      have e : ∀ t, ((i + 1) % p.size + t) % p.size = (i + (t + 1)) % p.size := by
        intro t
        rw [Nat.mod_add_mod]
        congr 1
        omega
      rw [next_eq_mod hi] at h
      have := ih fuel ((i + 1) % p.size) _ q sp rest (Nat.mod_lt _ (by omega))
        (fun t ht => by rw [e]; exact hn (t + 1) (by omega)) (by rw [e]; exact hf) h
      rw [e] at this
      rw [vertsFrom_succ p hi, List.foldl_cons]
      exact this

theorem endSlice_out {p : Polyline} {j : ℕ} {x : V2} {vs : List Vertex} {q : Polyline}
    (hj : j < p.size) (h : endSlice p j x ⟨false, vs⟩ = .ok q) :
    ∃ us u r, vs = us ++ [u] ∧ splitAtPoint u (vtx p ((j + 1) % p.size)) x = .ok r ∧
      q = ⟨false, joined (us ++ [r.updatedStart]) ⟨x, 0⟩⟩ := by
  unfold endSlice at h
  obtain ⟨u, hu, h⟩ := bind_eq_ok.1 h
  rw [next_eq_mod hj, at_eq (Nat.mod_lt _ (by omega)), ok_bind] at h
  obtain ⟨r, hr, h⟩ := bind_eq_ok.1 h
  obtain ⟨q', hq, h⟩ := bind_eq_ok.1 h
  unfold Polyline.lastVertex at hu
  cases hl : vs.getLast? with
  | none => rw [hl] at hu; cases hu
  | some u' =>
    rw [hl] at hu
    cases hu
    have hne : vs ≠ [] := by
      rintro rfl
      simp at hl
    unfold Polyline.setLast at hq
    rw [if_neg hne] at hq
    cases hq
    cases h
    refine ⟨vs.dropLast, u, r, ?_, hr, addOrReplace_joined _ _ _⟩
    have := List.dropLast_append_getLast? u hl
    exact this.symm

theorem outer_cuts {p : Polyline} {lookup : SliceLookup} {pred : V2 → M Bool} {keep : V2 → Prop}
    (hk : ∀ x b, pred x = .ok b → (b = true ↔ keep x)) {k : ℕ} {sv ev : Vertex}
    {sps : List SlicePoint} {result r : List Polyline}
    (h : outerIntersects p lookup pred k sv ev sps result = .ok r) :
    ∃ o sp, r = result ++ o.toList ∧ sps.getLast? = some sp ∧
      ((sp.startOfCoincidentSlice = true ∧ o = none) ∨
       (sp.startOfCoincidentSlice = false ∧ ∃ sr q, splitAtPoint sv ev sp.pos = .ok sr ∧
        intersectLoop p lookup (p.size + 1) (nextWrappingIndex k p.size) ⟨false, [sr.splitVertex]⟩ = .ok q ∧
        o = if KeptBy keep q then some q else none)) := by
  unfold outerIntersects at h
  cases hl : sps.getLast? with
  | none => rw [hl] at h; cases h
  | some back =>
    rw [hl] at h
    simp only at h
    by_cases c : back.startOfCoincidentSlice
    · rw [if_pos c] at h
      cases h
      exact ⟨none, back, by simp, rfl, Or.inl ⟨c, rfl⟩⟩
    · rw [if_neg c] at h
      have c' : back.startOfCoincidentSlice = false := by simpa using c
      obtain ⟨sr, hsr, h⟩ := bind_eq_ok.1 h
      obtain ⟨q, hq, h⟩ := bind_eq_ok.1 h
      refine ⟨if KeptBy keep q then some q else none, back, ?_, rfl, Or.inr ⟨c', sr, q, hsr, hq, rfl⟩⟩
      by_cases hsz : q.size > 1
      · rw [if_pos hsz] at h
        obtain ⟨v1, h1, h⟩ := bind_eq_ok.1 h
        obtain ⟨v2, h2, h⟩ := bind_eq_ok.1 h
        obtain ⟨m, hm, h⟩ := bind_eq_ok.1 h
        obtain ⟨b, hb, h⟩ := bind_eq_ok.1 h
        have hv : ∃ l, q.vertexes = l ++ [v1, v2] := by
          unfold Polyline.lastVertex at h2
          cases hq2 : q.vertexes.getLast? with
          | none => rw [hq2] at h2; cases h2
          | some w =>
            rw [hq2] at h2
            cases h2
            have e1 := List.dropLast_append_getLast? v2 hq2
            have hs : q.size = q.vertexes.length := rfl
            unfold Polyline.at at h1
            rw [getM_eq_ok] at h1
            have hd : q.vertexes.dropLast.getLast? = some v1 := by
              rw [List.getLast?_eq_getElem?, List.length_dropLast, List.getElem?_dropLast]
              rw [if_pos (by omega), ← h1]
              congr 1
            have e2 := List.dropLast_append_getLast? v1 hd
            refine ⟨q.vertexes.dropLast.dropLast, ?_⟩
            rw [← e1, ← e2]
            simp
        obtain ⟨l, hv⟩ := hv
        have hkb : KeptBy keep q ↔ b = true := by
          rw [hk m b hb, ← keptBy_pair (keep := keep) (l := l) (c := q.isClosed) hm, ← hv]
        cases b with
        | true => rw [if_pos (hkb.2 rfl)]; simpa using h.symm
        | false => rw [if_neg (fun hn => by simpa using hkb.1 hn)]; simpa using h.symm
      · rw [if_neg hsz] at h
        rw [if_neg]
        · simpa using h.symm
        · rintro ⟨l, u, w, m, h1, -⟩
          apply hsz
          unfold Polyline.size
          rw [h1]
          simp

/-! ### All the pieces -/

/-- What comes of the cuts of one segment. -/
structure StepOut (p : Polyline) (lookup : SliceLookup) (keep : V2 → Prop)
    (kv : ℕ × List SlicePoint) (os : List (Option Polyline)) : Prop where
  len : os.length = kv.2.length
  inner : ∀ t sp sp' o, kv.2[t]? = some sp → kv.2[t + 1]? = some sp' → os[t]? = some o →
    InnerOut keep (vtx p ((kv.1 + 1) % p.size)) (vtx p kv.1) ((kv.2.take (t + 1)).map SlicePoint.pos)
      sp sp' o
  outer : ∀ t sp o, t + 1 = kv.2.length → kv.2[t]? = some sp → os[t]? = some o →
      ((sp.startOfCoincidentSlice = true ∧ o = none) ∨
       (sp.startOfCoincidentSlice = false ∧ ∃ sr q,
        splitAtPoint (vtx p kv.1) (vtx p ((kv.1 + 1) % p.size)) sp.pos = .ok sr ∧
        intersectLoop p lookup (p.size + 1) ((kv.1 + 1) % p.size) ⟨false, [sr.splitVertex]⟩ = .ok q ∧
        o = if KeptBy keep q then some q else none))

theorem step_cuts {p : Polyline} {lookup : SliceLookup} {pred : V2 → M Bool} {keep : V2 → Prop}
    (hk : ∀ x b, pred x = .ok b → (b = true ↔ keep x)) {kv : ℕ × List SlicePoint}
    (hlt : kv.1 < p.size) {acc r : List Polyline} (h : intersectsStep p lookup pred acc kv = .ok r) :
    ∃ os, StepOut p lookup keep kv os ∧ r = acc ++ os.filterMap id := by
  unfold intersectsStep at h
  have hn : nextWrappingIndex kv.1 p.size = (kv.1 + 1) % p.size := next_eq_mod hlt
  rw [at_eq hlt, ok_bind, hn, at_eq (Nat.mod_lt _ (by omega)), ok_bind] at h
  obtain ⟨r1, h1, h⟩ := bind_eq_ok.1 h
  obtain ⟨os, a1, a2, a3⟩ := inner_cuts hk h1
  obtain ⟨o, sp, b1, b2, b3⟩ := outer_cuts hk h
  rw [hn] at b3
  refine ⟨os ++ [o], ⟨by simp [a1], ?_, ?_⟩, ?_⟩
  · intro t sp1 sp' o' e1 e2 e3
    have hlt2 : t + 1 < kv.2.length := (List.getElem?_eq_some_iff.1 e2).1
    rw [List.getElem?_append_left (by omega)] at e3
    exact a3 t sp1 sp' o' e1 e2 e3
  · intro t sp1 o' e1 e2 e3
    rw [List.getElem?_append_right (by omega), show t - os.length = 0 by omega] at e3
    simp only [List.getElem?_cons_zero, Option.some.injEq] at e3
    subst e3
    rw [List.getLast?_eq_getElem?, show kv.2.length - 1 = t by omega, e2] at b2
    cases b2
    exact b3
  · rw [b1, a2, List.filterMap_append]
    cases o <;> simp

theorem steps_cuts {p : Polyline} {lookup : SliceLookup} {pred : V2 → M Bool} {keep : V2 → Prop}
    (hk : ∀ x b, pred x = .ok b → (b = true ↔ keep x)) :
    ∀ (kvs : List (ℕ × List SlicePoint)) (acc r : List Polyline), (∀ kv ∈ kvs, kv.1 < p.size) →
      kvs.foldlM (intersectsStep p lookup pred) acc = .ok r →
      ∃ oss, List.Forall₂ (StepOut p lookup keep) kvs oss ∧ r = acc ++ oss.flatten.filterMap id
  | [], acc, r, _, h => by
    cases h
    exact ⟨[], .nil, by simp⟩
  | kv :: kvs, acc, r, hlt, h => by
    rw [List.foldlM_cons] at h
    obtain ⟨r1, h1, h⟩ := bind_eq_ok.1 h
    obtain ⟨os, a1, a2⟩ := step_cuts hk (hlt kv (by simp)) h1
    obtain ⟨oss, b1, b2⟩ := steps_cuts hk kvs r1 r (fun kv' h' => hlt kv' (by simp [h'])) h
    refine ⟨os :: oss, .cons a1 b1, ?_⟩
    rw [b2, a2, List.flatten_cons, List.filterMap_append, List.append_assoc]

theorem cutsIn_length {l : SliceLookup} {oss : List (List (Option Polyline))}
    {p : Polyline} {lookup : SliceLookup} {keep : V2 → Prop}
    (h : List.Forall₂ (StepOut p lookup keep) l oss) : oss.flatten.length = (cutsIn l).length := by
  induction h with
  | nil => rfl
  | cons h1 _ ih =>
    unfold cutsIn at ih ⊢
    rw [List.flatten_cons, List.flatMap_cons, List.length_append, List.length_append, ih, h1.len,
      List.length_map]

theorem flat_split {l : SliceLookup} {oss : List (List (Option Polyline))}
    {p : Polyline} {lookup : SliceLookup} {keep : V2 → Prop}
    (h : List.Forall₂ (StepOut p lookup keep) l oss) : ∀ i o, oss.flatten[i]? = some o →
    ∃ L1 kv L2 O t, l = L1 ++ kv :: L2 ∧ StepOut p lookup keep kv O ∧ O[t]? = some o ∧
      i = (cutsIn L1).length + t := by
  induction h with
  | nil => intro i o h; simp at h
  | @cons kv O l oss h1 _ ih =>
    intro i o h
    rw [List.flatten_cons] at h
    by_cases hi : i < O.length
    · rw [List.getElem?_append_left hi] at h
      exact ⟨[], kv, l, O, i, rfl, h1, h, by simp [cutsIn]⟩
    · rw [List.getElem?_append_right (by omega)] at h
      obtain ⟨L1, kv', L2, O', t, e1, e2, e3, e4⟩ := ih _ _ h
      refine ⟨kv :: L1, kv', L2, O', t, by rw [e1]; rfl, e2, e3, ?_⟩
      have e5 : (cutsIn (kv :: L1)).length = O.length + (cutsIn L1).length := by
        unfold cutsIn
        rw [List.flatMap_cons, List.length_append, List.length_map, h1.len]
      omega

theorem find_eq_none {l : SliceLookup} {j : ℕ} (h : ∀ kv ∈ l, kv.1 ≠ j) : l.find? j = none := by
  unfold SliceLookup.find?
  rw [Option.map_eq_none_iff, List.find?_eq_none]
  intro kv hkv
  simpa using h kv hkv

theorem find_eq_some {l : SliceLookup} (hp : l.Pairwise fun a b => a.1 < b.1)
    {kv : ℕ × List SlicePoint} (h : kv ∈ l) : l.find? kv.1 = some kv.2 := by
  cases hf : l.find? kv.1 with
  | none => exact absurd hf (find_ne h)
  | some ps =>
    have hm := find_mem hf
    by_cases he : (kv.1, ps) = kv
    · rw [← he]
    · exfalso
      have h2 : (l.map Prod.fst).Nodup := by
        rw [List.Nodup, List.pairwise_map]
        exact hp.imp fun h => ne_of_lt h
      exact he (List.inj_on_of_nodup_map h2 hm h rfl)

/-- The entry with the cut that comes after the last one of an entry. -/
theorem next_entry {l L1 L2 : SliceLookup} {kv : ℕ × List SlicePoint} {n : ℕ} (hk : Keyed l)
    (hlt : ∀ kv ∈ l, kv.1 < n) (hl : l = L1 ++ kv :: L2) {i t : ℕ} (hi : i = (cutsIn L1).length + t)
    (ht : t + 1 = kv.2.length) :
    ∃ kvN spN restN, kvN ∈ l ∧ kvN.2 = spN :: restN ∧
      (cutsIn l)[(i + 1) % (cutsIn l).length]? = some (cutOf kvN.1 spN) ∧
      (i + 1 = (cutsIn l).length ∨ kvN.1 ≠ kv.1) ∧
      ∀ s < (kvN.1 + n - (kv.1 + 1)) % n, l.find? ((kv.1 + 1 + s) % n) = none := by
  have hkv : kv ∈ l := by rw [hl]; simp
  have hkn := hlt kv hkv
  have hp := hk.1
  have hp' := hp
  rw [hl, List.pairwise_append] at hp
  obtain ⟨p1, p2, p3⟩ := hp
  have hL1 : ∀ a ∈ L1, a.1 < kv.1 := fun a ha => p3 a ha kv (by simp)
  have hL2 : ∀ a ∈ L2, kv.1 < a.1 := (List.pairwise_cons.1 p2).1
  have hcs : cutsIn l = cutsIn L1 ++ (kv.2.map (cutOf kv.1) ++ cutsIn L2) := by
    unfold cutsIn
    rw [hl, List.flatMap_append, List.flatMap_cons]
  have hlen : (cutsIn l).length = i + 1 + (cutsIn L2).length := by
    rw [hcs]
    simp only [List.length_append, List.length_map]
    omega
  cases L2 with
  | nil =>
    have hlen' : (cutsIn l).length = i + 1 := by rw [hlen]; rfl
    obtain ⟨kvN, l0, hl0⟩ := List.exists_cons_of_ne_nil (List.ne_nil_of_mem hkv)
    have hN : kvN ∈ l := by rw [hl0]; simp
    obtain ⟨spN, restN, hsp⟩ := List.exists_cons_of_ne_nil (hk.2 kvN hN)
    refine ⟨kvN, spN, restN, hN, hsp, ?_, Or.inl hlen'.symm, ?_⟩
    · rw [hlen', Nat.mod_self, hl0]
      unfold cutsIn
      rw [List.flatMap_cons, hsp]
      rfl
    · have hmin : ∀ a ∈ l, kvN.1 ≤ a.1 := by
        intro a ha
        rw [hl0] at ha hp'
        rcases List.mem_cons.1 ha with rfl | ha
        · exact le_refl _
        · exact le_of_lt ((List.pairwise_cons.1 hp').1 a ha)
      have hmax : ∀ a ∈ l, a.1 ≤ kv.1 := by
        intro a ha
        rw [hl] at ha
        simp only [List.mem_append, List.mem_singleton] at ha
        rcases ha with ha | rfl
        · exact le_of_lt (hL1 a ha)
        · exact le_refl _
      intro s hs
      have h1 := hmin kv hkv
      rw [Nat.mod_eq_of_lt (by omega)] at hs
      apply find_eq_none
      intro a ha hj
      have h2 := hmin a ha
      have h3 := hmax a ha
      by_cases hc : kv.1 + 1 + s < n
      · rw [Nat.mod_eq_of_lt hc] at hj; omega
      · rw [Nat.mod_eq_sub_mod (by omega), Nat.mod_eq_of_lt (by omega)] at hj; omega
  | cons kvN L3 =>
    have hN : kvN ∈ l := by rw [hl]; simp
    obtain ⟨spN, restN, hsp⟩ := List.exists_cons_of_ne_nil (hk.2 kvN hN)
    have hgt := hL2 kvN (by simp)
    have hNn := hlt kvN hN
    have hpos : 0 < (cutsIn (kvN :: L3)).length := by
      unfold cutsIn
      rw [List.flatMap_cons, hsp]
      simp
    refine ⟨kvN, spN, restN, hN, hsp, ?_, Or.inr (by omega), ?_⟩
    · rw [Nat.mod_eq_of_lt (by omega), hcs, List.getElem?_append_right (by omega),
        List.getElem?_append_right (by rw [List.length_map]; omega), List.length_map]
      rw [show i + 1 - (cutsIn L1).length - kv.2.length = 0 by omega]
      unfold cutsIn
      rw [List.flatMap_cons, hsp]
      rfl
    · intro s hs
      rw [show kvN.1 + n - (kv.1 + 1) = (kvN.1 - (kv.1 + 1)) + n by omega, Nat.add_mod_right,
        Nat.mod_eq_of_lt (by omega)] at hs
      rw [Nat.mod_eq_of_lt (by omega)]
      apply find_eq_none
      intro a ha hj
      rw [hl] at ha
      simp only [List.mem_append, List.mem_cons] at ha
      have hL3 : ∀ a ∈ L3, kvN.1 < a.1 :=
        (List.pairwise_cons.1 (List.pairwise_cons.1 p2).2).1
      rcases ha with ha | rfl | rfl | ha
      · have := hL1 a ha; omega
      · omega
      · omega
      · have := hL3 a ha; omega

theorem closed_isSeg {p : Polyline} (hc : p.isClosed = true) (h2 : 2 ≤ p.size) {k : ℕ} (hk : k < p.size) :
    IsSeg p k (vtx p k) (vtx p ((k + 1) % p.size)) := by
  rw [isSeg_iff, segs_length, if_neg (show ¬ p.size < 2 by omega), if_pos hc]
  refine ⟨hk, rfl, ?_⟩
  congr 1
  by_cases he : k + 1 = p.size
  · rw [if_pos he, he, Nat.mod_self]
  · rw [if_neg he, Nat.mod_eq_of_lt (by omega)]

theorem filter_cuts {L1 : SliceLookup} {kv : ℕ × List SlicePoint} (hL1 : ∀ a ∈ L1, a.1 < kv.1)
    (sps : List SlicePoint) :
    ((cutsIn L1 ++ sps.map (cutOf kv.1)).filter fun d => d.seg = kv.1).map Cut.pos =
      sps.map SlicePoint.pos := by
  rw [List.filter_append, List.filter_eq_nil_iff.2, List.nil_append, List.filter_eq_self.2,
    List.map_map]
  · rfl
  · intro d hd
    obtain ⟨sp, -, rfl⟩ := List.mem_map.1 hd
    simp [cutOf]
  · intro d hd
    obtain ⟨a, ha, hd⟩ := List.mem_flatMap.1 hd
    obtain ⟨sp, -, rfl⟩ := List.mem_map.1 hd
    have := hL1 a ha
    intro hd
    have hd' : a.1 = kv.1 := of_decide_eq_true hd
    omega

theorem slices_cuts {p : Polyline} (hc : p.isClosed = true) (h2 : 2 ≤ p.size) {l : SliceLookup}
    (hk : Keyed l) (hlt : ∀ kv ∈ l, kv.1 < p.size) {keep : V2 → Prop}
    {oss : List (List (Option Polyline))} (h : List.Forall₂ (StepOut p l keep) l oss) :
    ∀ i o, oss.flatten[i]? = some o → SliceAt p keep (cutsIn l) i o := by
  intro i o hio
  obtain ⟨L1, kv, L2, O, t, e1, e2, e3, e4⟩ := flat_split h i o hio
  have hkv : kv ∈ l := by rw [e1]; simp
  have hkn := hlt kv hkv
  have hcs : cutsIn l = cutsIn L1 ++ (kv.2.map (cutOf kv.1) ++ cutsIn L2) := by
    unfold cutsIn
    rw [e1, List.flatMap_append, List.flatMap_cons]
  have hL1 : ∀ a ∈ L1, a.1 < kv.1 := by
    have hp := hk.1
    rw [e1, List.pairwise_append] at hp
    exact fun a ha => hp.2.2 a ha kv (by simp)
  have htO := (List.getElem?_eq_some_iff.1 e3).1
  rw [e2.len] at htO
  have hlen : (cutsIn l).length = (cutsIn L1).length + kv.2.length + (cutsIn L2).length := by
    rw [hcs]
    simp only [List.length_append, List.length_map]
    omega
  have hat : ∀ s, s < kv.2.length → (cutsIn l)[(cutsIn L1).length + s]? = kv.2[s]?.map (cutOf kv.1) := by
    intro s hs
    rw [hcs, List.getElem?_append_right (by omega), List.getElem?_append_left (by
      rw [List.length_map]; omega), Nat.add_sub_cancel_left, List.getElem?_map]
  have hsp : kv.2[t]? = some kv.2[t] := List.getElem?_eq_getElem htO
  by_cases ht : t + 1 < kv.2.length
  · have hsp' : kv.2[t + 1]? = some kv.2[t + 1] := List.getElem?_eq_getElem ht
    refine ⟨cutOf kv.1 kv.2[t], cutOf kv.1 kv.2[t + 1], ?_, ?_, ?_⟩
    · rw [e4, hat t htO, hsp]; rfl
    · rw [Nat.mod_eq_of_lt (by omega), e4, Nat.add_assoc, hat _ ht, hsp']; rfl
    · rcases e2.inner t _ _ o hsp hsp' e3 with g | ⟨g1, u, r, g2, g3, g4⟩
      · exact Or.inl g
      · refine Or.inr (Or.inl ⟨g1, by omega, rfl, _, ⟨vtx p kv.1, vtx p ((kv.1 + 1) % p.size), u, r,
          closed_isSeg hc h2 hkn, ?_, g3, rfl⟩, g4⟩)
        have e5 : (cutsIn l).take i ++ [cutOf kv.1 kv.2[t]] =
            cutsIn L1 ++ (kv.2.take (t + 1)).map (cutOf kv.1) := by
          rw [hcs, e4, List.take_length_add_append, List.take_append_of_le_length (by
            rw [List.length_map]; omega), List.append_assoc, List.map_take, List.take_add_one,
            List.getElem?_map, hsp]
          rfl
        rw [e5]
        change Rest _ _ (((_ : List Cut).filter fun d => d.seg = kv.1).map Cut.pos) u
        rw [filter_cuts hL1]
        exact g2
  · have ht' : t + 1 = kv.2.length := by omega
    obtain ⟨kvN, spN, restN, n1, n2, n3, n4, n5⟩ := next_entry hk hlt e1 e4 ht'
    refine ⟨cutOf kv.1 kv.2[t], cutOf kvN.1 spN, ?_, n3, ?_⟩
    · rw [e4, hat t htO, hsp]; rfl
    · rcases e2.outer t _ o ht' hsp e3 with g | ⟨g1, sr, q, g2, g3, g4⟩
      · exact Or.inl g
      · refine Or.inr (Or.inr ⟨g1, n4, q, ?_, g4⟩)
        have hNn := hlt kvN n1
        have hd : (((kv.1 + 1) % p.size + (kvN.1 + p.size - (kv.1 + 1)) % p.size) % p.size) = kvN.1 := by
          rw [← Nat.add_mod, show kv.1 + 1 + (kvN.1 + p.size - (kv.1 + 1)) = kvN.1 + p.size by omega,
            Nat.add_mod_right, Nat.mod_eq_of_lt hNn]
        have hl := loop_cuts (p := p) (lookup := l) ((kvN.1 + p.size - (kv.1 + 1)) % p.size) (p.size + 1)
          ((kv.1 + 1) % p.size) [sr.splitVertex] q spN restN (Nat.mod_lt _ (by omega))
          (fun s hs => by rw [Nat.mod_add_mod]; exact n5 s hs)
          (by rw [hd, find_eq_some hk.1 n1, n2]) g3
        rw [hd] at hl
        obtain ⟨us, u, r', q1, q2, q3⟩ := endSlice_out hNn hl
        refine ⟨vtx p kv.1, vtx p ((kv.1 + 1) % p.size), sr, us, u, vtx p kvN.1,
          vtx p ((kvN.1 + 1) % p.size), r', closed_isSeg hc h2 hkn, g2, ?_, closed_isSeg hc h2 hNn, q2, q3⟩
        rw [← q1, vertsFrom_rotate (by have := Nat.mod_lt (kvN.1 + p.size - (kv.1 + 1)) (show 0 < p.size by omega); omega)]
        have hs : p.size = p.vertexes.length := rfl
        rw [hs, List.rotate_mod]
        rfl

/-- The slices of a polyline at its intersects are the kept pieces it is cut into. -/
theorem sliceAtIntersects_kept {std : StdSort} {hash : HashOrder} {p : Polyline} {info : CombineInfo}
    {second : Bool} {pred : V2 → M Bool} {keep : V2 → Prop} {r : List Polyline}
    (hk : ∀ x b, pred x = .ok b → (b = true ↔ keep x))
    (h1 : info.coincidentSliceEndPoints.length = info.coincidentSliceStartPoints.length)
    (h2 : info.coincidentIsOpposingDirection.length = info.coincidentSliceStartPoints.length)
    (hc : p.isClosed = true) (hseg : ∀ c ∈ cutsFor info second, ∃ v1 v2, IsSeg p c.seg v1 v2)
    (h : sliceAtIntersects std hash p info second pred = .ok r) :
    KeptSlices p (cutsFor info second) keep r := by
  unfold sliceAtIntersects at h
  obtain ⟨l0, e0, h⟩ := bind_eq_ok.1 h
  obtain ⟨l, e1, h⟩ := bind_eq_ok.1 h
  obtain ⟨k0, c0⟩ := combineLookup_cuts h1 h2 e0
  obtain ⟨k1, c1, c2⟩ := sortSliceLookup_cuts k0 e1
  have hlt : ∀ kv ∈ l, kv.1 < p.size ∧ 2 ≤ p.size := by
    intro kv hkv
    obtain ⟨sp, rest, hsp⟩ := List.exists_cons_of_ne_nil (k1.2 kv hkv)
    have hm : cutOf kv.1 sp ∈ cutsIn l := List.mem_flatMap.2 ⟨kv, hkv, by rw [hsp]; simp⟩
    obtain ⟨v1, v2, hs⟩ := hseg _ ((c1.trans c0).mem_iff.1 hm)
    obtain ⟨a, -, b, -⟩ := seg_lt hs
    exact ⟨a, b⟩
  obtain ⟨oss, f1, f2⟩ := steps_cuts (keep := keep) hk _ _ _
    (fun kv hkv => (hlt kv ((hash.perm l).mem_iff.1 hkv)).1) h
  obtain ⟨oss', g1, g2⟩ := List.perm_comp_forall₂ (hash.perm l).symm f1
  refine ⟨cutsIn l, oss'.flatten, c1.trans c0, c2, cutsIn_length g1, ?_, ?_⟩
  · by_cases hl : l = []
    · subst hl
      cases g1
      simp
    · obtain ⟨kv, l1, rfl⟩ := List.exists_cons_of_ne_nil hl
      exact slices_cuts hc (hlt kv (by simp)).2 k1 (fun kv h => (hlt kv h).1) g1
  · rw [f2, List.nil_append]
    exact (List.Perm.flatten g2.symm).filterMap id

end
end Cavc

import Verif.Spec.OffsetPieces
import Verif.Props.OffsetSlices
import Verif.Props.CombineCuts

/-! C59: the pieces a parallel offset cuts the raw offset polyline into. -/
namespace Cavc
open Spec
open scoped Classical
noncomputable section

/-! ### The tests -/

/-- What the two tests of the slicing functions mean. -/
structure Tests (p : Polyline) (offset : ℝ) (e : SliceEnv) : Prop where
  far : ∀ {x b}, e.valid x = .ok b → (b = true ↔ FarEnough p offset x)
  meets : ∀ {v w b}, intersectsOrigPline e.original e.index v w = .ok b → (b = true ↔ Meets p v w)

theorem meets_run {p : Polyline} {v w : Vertex} : ∀ (r : List ℕ) {b : Bool},
    (∀ i ∈ r, ∃ u1 u2, IsSeg p i u1 u2) → runM (intersectsOrigVisitor p v w) false r = .ok b →
    (b = true ↔ ∃ i ∈ r, ∃ u1 u2 s, IsSeg p i u1 u2 ∧ intrPlineSegs v w u1 u2 = .ok s ∧ s ≠ .noIntersect)
  | [], b, _, h => by
    cases h
    simp
  | a :: r, b, hs, h => by
    obtain ⟨u1, u2, hu⟩ := hs a (by simp)
    obtain ⟨e1, e2⟩ := seg_at hu
    unfold runM at h
    obtain ⟨st, h1, h⟩ := bind_eq_ok.1 h
    unfold intersectsOrigVisitor at h1
    simp only at h1
    rw [e1, ok_bind, e2, ok_bind] at h1
    obtain ⟨s, h2, h1⟩ := bind_eq_ok.1 h1
    by_cases hn : s = .noIntersect
    · subst hn
      cases h1
      simp only [Bool.not_false, if_true] at h
      rw [meets_run r (fun i hi => hs i (by simp [hi])) h]
      constructor
      · rintro ⟨i, hi, h⟩
        exact ⟨i, by simp [hi], h⟩
      · rintro ⟨i, hi, w1, w2, s, g1, g2, g3⟩
        rcases List.mem_cons.1 hi with rfl | hi
        · obtain ⟨rfl, rfl⟩ := isSeg_inj hu g1
          rw [h2] at g2
          cases g2
          exact absurd rfl g3
        · exact ⟨i, hi, w1, w2, s, g1, g2, g3⟩
    · have hst : st = (true, false) := by
        cases s <;> first | exact absurd rfl hn | (cases h1; rfl)
      subst hst
      simp only [Bool.false_eq_true, if_false] at h
      cases h
      exact ⟨fun _ => ⟨a, by simp, u1, u2, s, hu, h2, hn⟩, fun _ => rfl⟩

theorem tests_of {p raw : Polyline} {index : SIndex ℝ} {offset : ℝ} (hx : IndexOf (segBoxes p) index)
    (hok : PlineOk p) : Tests p offset ⟨p, index, offset, raw⟩ := by
  constructor
  · intro x b h
    obtain ⟨b', hb, hbi⟩ := pointValid_iff hx hok offset offsetThreshold x
    unfold SliceEnv.valid at h
    simp only at h
    rw [hb] at h
    cases h
    rw [hbi]
    exact Iff.rfl
  · intro v w b h
    unfold intersectsOrigPline at h
    simp only at h
    obtain ⟨r, -, hr, -, hv⟩ := hx.queryM (createFastApproxBoundingBox v w).toBox
    rw [hv] at h
    rw [meets_run r (fun i hi => by
      obtain ⟨b, hb, -⟩ := (hr i).1 hi
      obtain ⟨v1, v2, h, -⟩ := segBoxes_get.1 hb
      exact ⟨v1, v2, h⟩) h]
    constructor
    · rintro ⟨i, hi, u1, u2, s, g1, g2, g3⟩
      obtain ⟨bx, hbx, ho⟩ := (hr i).1 hi
      obtain ⟨w1, w2, hw, rfl⟩ := segBoxes_get.1 hbx
      obtain ⟨rfl, rfl⟩ := isSeg_inj hw g1
      exact ⟨i, w1, w2, s, g1, ho, g2, g3⟩
    · rintro ⟨i, u1, u2, s, g1, ho, g2, g3⟩
      exact ⟨i, (hr i).2 ⟨_, segBoxes_get.2 ⟨u1, u2, g1, rfl⟩, ho⟩, u1, u2, s, g1, g2, g3⟩

/-! ### The lookup as a list of cuts -/

/-- A lookup of points as a lookup of slice points. -/
def slOf (l : Lookup) : SliceLookup := l.map fun kv => (kv.1, kv.2.map fun x => ⟨x, false⟩)

theorem slOf_push (key : ℕ) (x : V2) : ∀ l : Lookup,
    slOf (l.push key x) = (slOf l).push key ⟨x, false⟩
  | [] => rfl
  | (k, ps) :: rest => by
    have ih := slOf_push key x rest
    unfold slOf at ih ⊢
    unfold Lookup.push
    rw [List.map_cons]
    unfold SliceLookup.push
    simp only
    split_ifs with c1 c2
    · rfl
    · simp
    · rw [List.map_cons, ih]

theorem slOf_find (l : Lookup) (key : ℕ) :
    (slOf l).find? key = (l.find? key).map fun xs => xs.map fun x => ⟨x, false⟩ := by
  unfold slOf Lookup.find? SliceLookup.find?
  rw [List.find?_map, Option.map_map, Option.map_map]
  rfl

theorem find_none {l : Lookup} {key : ℕ} (h : (slOf l).find? key = none) : l.find? key = none := by
  rw [slOf_find] at h
  simpa using h

theorem find_some {l : Lookup} {kv : ℕ × List V2} (hk : Keyed (slOf l)) (h : kv ∈ l) :
    l.find? kv.1 = some kv.2 := by
  have := find_eq_some hk.1 (List.mem_map.2 ⟨kv, h, rfl⟩)
  simp only at this
  rw [slOf_find] at this
  obtain ⟨xs, h1, h2⟩ := Option.map_eq_some_iff.1 this
  rw [h1]
  congr 1
  refine List.map_injective_iff.2 ?_ h2
  intro a b hab
  cases hab
  rfl

theorem self_cuts : ∀ (selfs : List PlineIntersect) (l : Lookup), Keyed (slOf l) →
    Keyed (slOf (selfs.foldl (fun (l : Lookup) si => (l.push si.sIndex1 si.pos).push si.sIndex2 si.pos) l)) ∧
    (cutsIn (slOf (selfs.foldl
      (fun (l : Lookup) si => (l.push si.sIndex1 si.pos).push si.sIndex2 si.pos) l))).Perm
      (cutsIn (slOf l) ++ selfCuts selfs)
  | [], l, hl => ⟨hl, by simp [selfCuts]⟩
  | x :: xs, l, hl => by
    obtain ⟨a1, a2⟩ := push_cuts x.sIndex1 ⟨x.pos, false⟩ _ hl
    rw [← slOf_push] at a1 a2
    obtain ⟨b1, b2⟩ := push_cuts x.sIndex2 ⟨x.pos, false⟩ _ a1
    rw [← slOf_push] at b1 b2
    obtain ⟨c1, c2⟩ := self_cuts xs _ b1
    refine ⟨c1, c2.trans ?_⟩
    unfold selfCuts
    rw [List.flatMap_cons]
    refine (List.Perm.append_right _ (b2.trans (List.Perm.cons _ a2))).trans ?_
    refine List.Perm.trans (List.Perm.append_right _ (List.Perm.swap _ _ _)) ?_
    rw [List.cons_append, List.cons_append, List.cons_append, List.cons_append, List.nil_append]
    exact (List.Perm.cons _ List.perm_middle.symm).trans List.perm_middle.symm

theorem coin_cuts : ∀ (cs : List CoincidentIntersect) (l : Lookup), Keyed (slOf l) →
    Keyed (slOf (cs.foldl (fun (l : Lookup) intr =>
      (l.push intr.sIndex1 intr.point1).push intr.sIndex1 intr.point2) l)) ∧
    (cutsIn (slOf (cs.foldl (fun (l : Lookup) intr =>
      (l.push intr.sIndex1 intr.point1).push intr.sIndex1 intr.point2) l))).Perm
      (cutsIn (slOf l) ++ cs.flatMap fun x =>
        [⟨x.sIndex1, x.point1, false⟩, ⟨x.sIndex1, x.point2, false⟩])
  | [], l, hl => ⟨hl, by simp⟩
  | x :: xs, l, hl => by
    obtain ⟨a1, a2⟩ := push_cuts x.sIndex1 ⟨x.point1, false⟩ _ hl
    rw [← slOf_push] at a1 a2
    obtain ⟨b1, b2⟩ := push_cuts x.sIndex1 ⟨x.point2, false⟩ _ a1
    rw [← slOf_push] at b1 b2
    obtain ⟨c1, c2⟩ := coin_cuts xs _ b1
    refine ⟨c1, c2.trans ?_⟩
    rw [List.flatMap_cons]
    refine (List.Perm.append_right _ (b2.trans (List.Perm.cons _ a2))).trans ?_
    refine List.Perm.trans (List.Perm.append_right _ (List.Perm.swap _ _ _)) ?_
    rw [List.cons_append, List.cons_append, List.cons_append, List.cons_append, List.nil_append]
    exact (List.Perm.cons _ List.perm_middle.symm).trans List.perm_middle.symm

theorem each_cuts {α : Type} (key : α → ℕ) (pt : α → V2) : ∀ (xs : List α) (l : Lookup), Keyed (slOf l) →
    Keyed (slOf (xs.foldl (fun (l : Lookup) x => l.push (key x) (pt x)) l)) ∧
    (cutsIn (slOf (xs.foldl (fun (l : Lookup) x => l.push (key x) (pt x)) l))).Perm
      (cutsIn (slOf l) ++ xs.map fun x => ⟨key x, pt x, false⟩)
  | [], l, hl => ⟨hl, by simp⟩
  | x :: xs, l, hl => by
    obtain ⟨a1, a2⟩ := push_cuts (key x) ⟨pt x, false⟩ _ hl
    rw [← slOf_push] at a1 a2
    obtain ⟨c1, c2⟩ := each_cuts key pt xs _ a1
    refine ⟨c1, c2.trans ?_⟩
    rw [List.map_cons]
    exact (List.Perm.append_right _ a2).trans List.perm_middle.symm

theorem dualLookup_cuts (circles : List (ℕ × V2)) (selfs : List PlineIntersect) (d : IntersectsResult) :
    Keyed (slOf (dualLookup circles selfs d)) ∧ (cutsIn (slOf (dualLookup circles selfs d))).Perm
      ((circles.map fun c => ⟨c.1, c.2, false⟩) ++ selfCuts selfs ++ dualCuts d) := by
  unfold dualLookup
  simp only
  obtain ⟨a1, a2⟩ := each_cuts Prod.fst Prod.snd circles [] ⟨by simp [slOf], by simp [slOf]⟩
  obtain ⟨b1, b2⟩ := self_cuts selfs _ a1
  obtain ⟨c1, c2⟩ := each_cuts PlineIntersect.sIndex1 PlineIntersect.pos d.intersects _ b1
  obtain ⟨d1, d2⟩ := coin_cuts d.coincidentIntersects _ c1
  refine ⟨d1, d2.trans ?_⟩
  unfold dualCuts
  rw [← List.append_assoc]
  exact List.Perm.append_right _ (c2.trans (List.Perm.append_right _ (b2.trans (List.Perm.append_right _ a2))))

theorem sortLookup_cuts {std : StdSort} {p : Polyline} {l l' : Lookup} (hk : Keyed (slOf l))
    (h : sortLookup std p l = .ok l') :
    Keyed (slOf l') ∧ (cutsIn (slOf l')).Perm (cutsIn (slOf l)) ∧ AlongPline p (cutsIn (slOf l')) := by
  have hf := mapM_forall h
  have hR : List.Forall₂ (fun (kv kv' : ℕ × List V2) => kv'.1 = kv.1 ∧ kv'.2.Perm kv.2 ∧
      kv'.2.Pairwise fun a b => dist2 (vtx p kv'.1).pos a ≤ dist2 (vtx p kv'.1).pos b) l l' := by
    refine hf.imp ?_
    intro kv kv' hkv
    obtain ⟨v, hv, hkv⟩ := bind_eq_ok.1 hkv
    simp only [pure_eq_ok, Except.ok.injEq] at hkv
    subst hkv
    have hlt : kv.1 < p.size := by
      unfold Polyline.at at hv
      rw [getM_eq_ok] at hv
      obtain ⟨h, -⟩ := List.getElem?_eq_some_iff.1 hv
      exact h
    rw [at_eq hlt] at hv
    cases hv
    have sw := keyLess_strictWeak (fun i : V2 => distSquared i (vtx p kv.1).pos)
    refine ⟨rfl, std.perm _ _ sw, (std.sorted _ _ sw).imp ?_⟩
    intro a b hab
    have e : ∀ x y : V2, dist2 x y = distSquared y x := by
      intro x y
      unfold dist2 distSquared
      simp [dot]
      ring
    rw [e, e]
    exact not_lt.1 hab
  clear hf h
  have hR' : List.Forall₂ (fun (kv kv' : ℕ × List SlicePoint) => kv'.1 = kv.1 ∧ kv'.2.Perm kv.2 ∧
      kv'.2.Pairwise fun a b => dist2 (vtx p kv'.1).pos a.pos ≤ dist2 (vtx p kv'.1).pos b.pos)
      (slOf l) (slOf l') := by
    unfold slOf
    rw [List.forall₂_map_left_iff, List.forall₂_map_right_iff]
    refine hR.imp ?_
    rintro kv kv' ⟨h1, h2, h3⟩
    refine ⟨h1, h2.map _, ?_⟩
    rw [List.pairwise_map]
    exact h3
  clear hR
  generalize slOf l = L at *
  generalize slOf l' = L' at *
  have hkeys : L'.Pairwise (fun a b => a.1 < b.1) := by
    have := hk.1
    rw [← List.pairwise_map (f := Prod.fst) (R := (· < ·))] at this ⊢
    rw [sorted_keys hR']
    exact this
  refine ⟨⟨hkeys, ?_⟩, ?_, ?_⟩
  · intro kv' hkv'
    obtain ⟨kv, hkv, h1, h2, -⟩ := forall2_right hR' hkv'
    intro h0
    rw [h0] at h2
    exact hk.2 kv hkv h2.symm.eq_nil
  · clear hk hkeys
    induction hR' with
    | nil => exact List.Perm.refl _
    | cons h1 _ ih =>
      unfold cutsIn at ih ⊢
      rw [List.flatMap_cons, List.flatMap_cons, h1.1]
      exact (h1.2.1.map _).append ih
  · exact along_of hkeys (fun kv' hkv' => (forall2_right hR' hkv').elim fun kv h => h.2.2.2)

/-! ### The pieces within a segment -/

/-- The tests of a piece within a segment. -/
def GoodPair (p : Polyline) (offset : ℝ) (u w : Vertex) : Prop :=
  ¬ Tiny ⟨false, [u, w]⟩ ∧ FarEnough p offset u.pos ∧ FarEnough p offset w.pos ∧
    ∃ m, segMidpoint u w = .ok m ∧ FarEnough p offset m ∧ ¬ Meets p u w

/-- What comes of a cut that is not the last one of its segment. -/
def WithinIs (p : Polyline) (offset : ℝ) (e v : Vertex) (xs : List V2) (x : V2) (o : Option Polyline) :
    Prop :=
  ∃ u r, Rest e v xs u ∧ splitAtPoint u e x = .ok r ∧
    ∀ s, o = some s ↔ s = ⟨false, [r.updatedStart, r.splitVertex]⟩ ∧
      GoodPair p offset r.updatedStart r.splitVertex

theorem withinIs_cons {p : Polyline} {offset : ℝ} {e v : Vertex} {y : V2} {xs : List V2} {r : SplitResult}
    {x : V2} {o : Option Polyline} (hr : splitAtPoint v e y = .ok r)
    (h : WithinIs p offset e r.splitVertex xs x o) : WithinIs p offset e v (y :: xs) x o := by
  obtain ⟨u, r', h1, h2⟩ := h
  exact ⟨u, r', ⟨r, hr, h1⟩, h2⟩

/-- Slices that start on segment `k`. -/
def onSeg (k : ℕ) (os : List (Option Polyline)) : List OpenSlice :=
  os.filterMap fun o => o.map fun s => ⟨k, s⟩

theorem between_is {p : Polyline} {offset : ℝ} {e : SliceEnv} (ht : Tests p offset e) {k : ℕ}
    {ev : Vertex} : ∀ (sis : List V2) (pv : Vertex) (result out : List OpenSlice),
      betweenSlices e k ev sis pv result = .ok out →
      ∃ os : List (Option Polyline), os.length = sis.length ∧ out = result ++ onSeg k os ∧
        ∀ t x o, sis[t]? = some x → os[t]? = some o → WithinIs p offset ev pv (sis.take t) x o
  | [], pv, result, out, h => by
    unfold betweenSlices at h
    cases h
    exact ⟨[], rfl, by simp [onSeg], by simp⟩
  | si :: rest, pv, result, out, h => by
    unfold betweenSlices at h
    obtain ⟨sr, hsr, h⟩ := bind_eq_ok.1 h
    simp only at h
    have go : ∀ (result' : List OpenSlice) (o : Option Polyline), result' = result ++ onSeg k [o] →
        (∀ s, o = some s ↔ s = ⟨false, [sr.updatedStart, sr.splitVertex]⟩ ∧
          GoodPair p offset sr.updatedStart sr.splitVertex) →
        betweenSlices e k ev rest sr.splitVertex result' = .ok out →
        ∃ os : List (Option Polyline), os.length = (si :: rest).length ∧ out = result ++ onSeg k os ∧
          ∀ t x o, (si :: rest)[t]? = some x → os[t]? = some o →
            WithinIs p offset ev pv ((si :: rest).take t) x o := by
      rintro result' o rfl ho h
      obtain ⟨os, g1, g2, g3⟩ := between_is ht rest sr.splitVertex _ out h
      refine ⟨o :: os, by simp [g1], ?_, ?_⟩
      · rw [g2, List.append_assoc]
        unfold onSeg
        rw [← List.filterMap_append]
        rfl
      · intro t x o' h2 h3
        cases t with
        | zero =>
          simp only [List.getElem?_cons_zero, Option.some.injEq] at h2 h3
          subst h2 h3
          exact ⟨pv, sr, rfl, hsr, ho⟩
        | succ t =>
          simp only [List.getElem?_cons_succ] at h2 h3
          exact withinIs_cons hsr (g3 t x o' h2 h3)
    have no : ¬ GoodPair p offset sr.updatedStart sr.splitVertex →
        betweenSlices e k ev rest sr.splitVertex result = .ok out →
        ∃ os : List (Option Polyline), os.length = (si :: rest).length ∧ out = result ++ onSeg k os ∧
          ∀ t x o, (si :: rest)[t]? = some x → os[t]? = some o →
            WithinIs p offset ev pv ((si :: rest).take t) x o := by
      intro hn h
      refine go result none (by simp [onSeg]) ?_ h
      intro s
      exact ⟨(fun h => nomatch h), fun h => absurd h.2 hn⟩
    by_cases c1 : fuzzyEqualV sr.updatedStart.pos sr.splitVertex.pos realPrecision
    · rw [if_pos c1] at h
      exact no (fun hg => hg.1 (tiny_pair.2 c1)) h
    · rw [if_neg c1] at h
      obtain ⟨b1, hb1, h⟩ := bind_eq_ok.1 h
      by_cases c2 : b1 = true
      swap
      · rw [if_pos c2] at h
        exact no (fun hg => c2 ((ht.far hb1).2 hg.2.1)) h
      · rw [if_neg (not_not.2 c2)] at h
        obtain ⟨b2, hb2, h⟩ := bind_eq_ok.1 h
        by_cases c3 : b2 = true
        swap
        · rw [if_pos c3] at h
          exact no (fun hg => c3 ((ht.far hb2).2 hg.2.2.1)) h
        · rw [if_neg (not_not.2 c3)] at h
          obtain ⟨m, hm, h⟩ := bind_eq_ok.1 h
          obtain ⟨b3, hb3, h⟩ := bind_eq_ok.1 h
          by_cases c4 : b3 = true
          swap
          · rw [if_pos c4] at h
            refine no (fun hg => ?_) h
            obtain ⟨m', g1, g2, -⟩ := hg.2.2.2
            rw [hm] at g1
            cases g1
            exact c4 ((ht.far hb3).2 g2)
          · rw [if_neg (not_not.2 c4)] at h
            obtain ⟨b4, hb4, h⟩ := bind_eq_ok.1 h
            by_cases c5 : b4 = true
            · rw [if_pos c5] at h
              refine no (fun hg => ?_) h
              obtain ⟨m', -, -, g2⟩ := hg.2.2.2
              exact g2 ((ht.meets hb4).1 c5)
            · rw [if_neg c5] at h
              refine go _ (some ⟨false, [sr.updatedStart, sr.splitVertex]⟩) rfl ?_ h
              intro s
              rw [Option.some_inj]
              constructor
              · rintro rfl
                exact ⟨rfl, fun hn => c1 (tiny_pair.1 hn), (ht.far hb1).1 c2, (ht.far hb2).1 c3, m, hm,
                  (ht.far hb3).1 c4, fun hm => c5 ((ht.meets hb4).2 hm)⟩
              · exact fun h => h.1.symm

theorem inner_is {p : Polyline} {offset : ℝ} {e : SliceEnv} (ht : Tests p offset e) {k : ℕ}
    {sv ev : Vertex} {sis : List V2} {result out : List OpenSlice}
    (h : innerSlices e k sv ev sis result = .ok out) :
    ∃ os : List (Option Polyline), os.length + 1 = sis.length ∧ out = result ++ onSeg k os ∧
      ∀ t x o, sis[t + 1]? = some x → os[t]? = some o →
        WithinIs p offset ev sv (sis.take (t + 1)) x o := by
  unfold innerSlices at h
  by_cases c : sis.length ≠ 1
  · rw [if_pos c] at h
    cases sis with
    | nil => cases h
    | cons s0 rest =>
      simp only at h
      obtain ⟨fr, hfr, h⟩ := bind_eq_ok.1 h
      obtain ⟨os, g1, g2, g3⟩ := between_is ht rest _ _ _ h
      refine ⟨os, by simp [g1], g2, ?_⟩
      intro t x o h2 h3
      exact withinIs_cons hfr (g3 t x o (by simpa using h2) h3)
  · rw [if_neg c] at h
    push Not at c
    cases h
    obtain ⟨x, rfl⟩ := List.length_eq_one_iff.1 c
    exact ⟨[], rfl, by simp [onSeg], by simp⟩

/-! ### The pieces over vertexes -/

/-- How a piece is ended at a cut. -/
def FinishIs (p raw : Polyline) (offset : ℝ) (j : ℕ) (x : V2) (vs : List Vertex) (s : Polyline) : Prop :=
  ∃ us u r m, vs = us ++ [u] ∧ FarEnough p offset x ∧
    splitAtPoint u (vtx raw ((j + 1) % raw.size)) x = .ok r ∧
    segMidpoint r.updatedStart ⟨x, 0⟩ = .ok m ∧ FarEnough p offset m ∧
    s = ⟨false, joined (us ++ [r.updatedStart]) ⟨x, 0⟩⟩

theorem finish_is {p : Polyline} {offset : ℝ} {e : SliceEnv} (ht : Tests p offset e) {j : ℕ} {x : V2}
    {vs : List Vertex} {o : Option Polyline} (hj : j < e.raw.size)
    (h : finishSlice e j x ⟨false, vs⟩ = .ok o) (s : Polyline) :
    o = some s ↔ FinishIs p e.raw offset j x vs s := by
  unfold finishSlice at h
  obtain ⟨b1, hb1, h⟩ := bind_eq_ok.1 h
  by_cases c1 : b1 = true
  swap
  · rw [if_pos c1] at h
    cases h
    refine ⟨(fun h => nomatch h), ?_⟩
    rintro ⟨us, u, r, m, -, g, -⟩
    exact absurd ((ht.far hb1).2 g) c1
  · rw [if_neg (not_not.2 c1)] at h
    obtain ⟨u, hu, h⟩ := bind_eq_ok.1 h
    rw [next_eq_mod hj, at_eq (Nat.mod_lt _ (by omega)), ok_bind] at h
    obtain ⟨r, hr, h⟩ := bind_eq_ok.1 h
    simp only at h
    obtain ⟨m, hm, h⟩ := bind_eq_ok.1 h
    obtain ⟨b2, hb2, h⟩ := bind_eq_ok.1 h
    have hl : vs.getLast? = some u := lastVertex_eq_ok hu
    have hne : vs ≠ [] := by
      rintro rfl
      simp at hl
    have hvs : vs = vs.dropLast ++ [u] := (List.dropLast_append_getLast? u hl).symm
    have huniq : FinishIs p e.raw offset j x vs s →
        FarEnough p offset m ∧ s = ⟨false, joined (vs.dropLast ++ [r.updatedStart]) ⟨x, 0⟩⟩ := by
      rintro ⟨us, u', r', m', g1, -, g2, g3, g4, g5⟩
      rw [g1, List.getLast?_append, List.getLast?_singleton] at hl
      cases hl
      rw [hr] at g2
      cases g2
      rw [hm] at g3
      cases g3
      refine ⟨g4, ?_⟩
      rw [g5, g1, List.dropLast_concat]
    by_cases c2 : b2 = true
    swap
    · rw [if_pos c2] at h
      cases h
      refine ⟨(fun h => nomatch h), ?_⟩
      intro hf
      exact absurd ((ht.far hb2).2 (huniq hf).1) c2
    · rw [if_neg (not_not.2 c2)] at h
      unfold Polyline.setLast at h
      rw [if_neg hne, ok_bind] at h
      simp only [addOrReplace_joined, pure_eq_ok, Except.ok.injEq] at h
      subst h
      rw [Option.some_inj]
      constructor
      · rintro rfl
        exact ⟨vs.dropLast, u, r, m, hvs, (ht.far hb1).1 c1, hr, hm, (ht.far hb2).1 c2, rfl⟩
      · exact fun hf => (huniq hf).2.symm

theorem loop_is {p : Polyline} {offset : ℝ} {e : SliceEnv} (ht : Tests p offset e) {lookup : Lookup}
    {adv : ℕ → Option ℕ} {x : V2} {rest : List V2} : ∀ (d fuel i : ℕ) (vs : List Vertex)
    (o : Option Polyline), i < e.raw.size → vs ≠ [] →
    (∀ t < d, lookup.find? ((i + t) % e.raw.size) = none) →
    (∀ t < d, adv ((i + t) % e.raw.size) = some ((i + t + 1) % e.raw.size)) →
    lookup.find? ((i + d) % e.raw.size) = some (x :: rest) →
    sliceLoop e lookup adv fuel i ⟨false, vs⟩ = .ok o → ∀ s, o = some s ↔
      Passable p offset vs (vertsFrom e.raw i (d + 1)) ∧
      FinishIs p e.raw offset ((i + d) % e.raw.size) x ((vertsFrom e.raw i (d + 1)).foldl joined vs) s := by
  have joined_ne : ∀ vs v, joined vs v ≠ [] := by
    intro vs v
    unfold joined
    split
    · simp
    · split_ifs <;> simp
  intro d
  induction d with
  | zero =>
    intro fuel i vs o hi hvs _ _ hf h s
    cases fuel with
    | zero => cases h
    | succ fuel =>
      unfold sliceLoop at h
      rw [at_eq hi, ok_bind] at h
      rw [Nat.add_zero, Nat.mod_eq_of_lt hi] at hf
      rw [Nat.add_zero i, Nat.mod_eq_of_lt hi]
      rw [vertsFrom_succ e.raw hi]
      simp only [vertsFrom, List.range_zero, List.map_nil, List.foldl_cons, List.foldl_nil, Passable,
        and_true]
      obtain ⟨b1, hb1, h⟩ := bind_eq_ok.1 h
      by_cases c1 : b1 = true
      swap
      · rw [if_pos c1] at h
        cases h
        refine ⟨(fun h => nomatch h), ?_⟩
        rintro ⟨⟨g, -⟩, -⟩
        exact absurd ((ht.far hb1).2 g) c1
      · rw [if_neg (not_not.2 c1)] at h
        obtain ⟨u, hu, h⟩ := bind_eq_ok.1 h
        obtain ⟨b2, hb2, h⟩ := bind_eq_ok.1 h
        have hl : vs.getLast? = some u := lastVertex_eq_ok hu
        by_cases c2 : b2 = true
        · rw [if_pos c2] at h
          cases h
          refine ⟨(fun h => nomatch h), ?_⟩
          rintro ⟨⟨-, g⟩, -⟩
          exact absurd ((ht.meets hb2).1 c2) (g u hl)
        · rw [if_neg c2] at h
          simp only [addOrReplace_joined] at h
          rw [hf] at h
          simp only at h
          rw [finish_is ht hi h s]
          constructor
          · intro hh
            refine ⟨⟨(ht.far hb1).1 c1, ?_⟩, hh⟩
            intro u' hu' hm
            rw [hl] at hu'
            cases hu'
            exact c2 ((ht.meets hb2).2 hm)
          · exact fun hh => hh.2
  | succ d ih =>
    intro fuel i vs o hi hvs hn ha hf h s
    cases fuel with
    | zero => cases h
    | succ fuel =>
      unfold sliceLoop at h
      rw [at_eq hi, ok_bind] at h
      have e1 : ∀ t, ((i + 1) % e.raw.size + t) % e.raw.size = (i + (t + 1)) % e.raw.size := by
        intro t
        rw [Nat.mod_add_mod]
        congr 1
        omega
      have h0 := hn 0 (by omega)
      have a0 := ha 0 (by omega)
      rw [Nat.add_zero, Nat.mod_eq_of_lt hi] at h0 a0
      rw [vertsFrom_succ e.raw hi, List.foldl_cons]
      change _ ↔ (_ ∧ _ ∧ _) ∧ _
      obtain ⟨b1, hb1, h⟩ := bind_eq_ok.1 h
      by_cases c1 : b1 = true
      swap
      · rw [if_pos c1] at h
        cases h
        refine ⟨(fun h => nomatch h), ?_⟩
        rintro ⟨⟨g, -⟩, -⟩
        exact absurd ((ht.far hb1).2 g) c1
      · rw [if_neg (not_not.2 c1)] at h
        obtain ⟨u, hu, h⟩ := bind_eq_ok.1 h
        obtain ⟨b2, hb2, h⟩ := bind_eq_ok.1 h
        have hl : vs.getLast? = some u := lastVertex_eq_ok hu
        by_cases c2 : b2 = true
        · rw [if_pos c2] at h
          cases h
          refine ⟨(fun h => nomatch h), ?_⟩
          rintro ⟨⟨-, g, -⟩, -⟩
          exact absurd ((ht.meets hb2).1 c2) (g u hl)
        · rw [if_neg c2] at h
          simp only [addOrReplace_joined] at h
          rw [h0] at h
          simp only at h
          rw [a0] at h
          simp only at h
          have := ih fuel ((i + 1) % e.raw.size) _ o (Nat.mod_lt _ (by omega)) (joined_ne _ _)
            (fun t ht => by rw [e1]; exact hn (t + 1) (by omega))
            (fun t ht => by
              rw [e1, ha (t + 1) (by omega)]
              congr 1
              rw [Nat.add_assoc ((i + 1) % e.raw.size), Nat.mod_add_mod]
              congr 1
              omega) (by rw [e1]; exact hf) h s
          rw [e1] at this
          rw [this]
          constructor
          · rintro ⟨g1, g2⟩
            refine ⟨⟨(ht.far hb1).1 c1, ?_, g1⟩, g2⟩
            intro u' hu' hm
            rw [hl] at hu'
            cases hu'
            exact c2 ((ht.meets hb2).2 hm)
          · exact fun hh => ⟨hh.1.2.2, hh.2⟩

theorem toEnd_is {p : Polyline} {offset : ℝ} {e : SliceEnv} (ht : Tests p offset e) {lookup : Lookup}
    {adv : ℕ → Option ℕ} : ∀ (d fuel i : ℕ) (vs : List Vertex)
    (o : Option Polyline), i + d + 1 = e.raw.size →
    (∀ t ≤ d, lookup.find? (i + t) = none) →
    (∀ t < d, adv (i + t) = some (i + t + 1)) → adv (i + d) = none →
    sliceLoop e lookup adv fuel i ⟨false, vs⟩ = .ok o → ∀ s, o = some s ↔
      Passable p offset vs (e.raw.vertexes.drop i) ∧
      s = ⟨false, (e.raw.vertexes.drop i).foldl joined vs⟩ := by
  intro d
  induction d with
  | zero =>
    intro fuel i vs o hi hn _ ha h s
    cases fuel with
    | zero => cases h
    | succ fuel =>
      unfold sliceLoop at h
      have hi' : i < e.raw.size := by omega
      have hi'' : i < e.raw.vertexes.length := hi'
      have hd : e.raw.vertexes.drop i = [vtx e.raw i] := by
        rw [List.drop_eq_getElem_cons hi'', List.drop_of_length_le (by
          have : e.raw.size = e.raw.vertexes.length := rfl
          omega)]
        unfold vtx
        rw [List.getD_eq_getElem _ _ hi'']
      rw [at_eq hi', ok_bind] at h
      have h0 := hn 0 le_rfl
      rw [Nat.add_zero] at h0 ha
      rw [hd]
      simp only [List.foldl_cons, List.foldl_nil, Passable, and_true]
      obtain ⟨b1, hb1, h⟩ := bind_eq_ok.1 h
      by_cases c1 : b1 = true
      swap
      · rw [if_pos c1] at h
        cases h
        refine ⟨(fun h => nomatch h), ?_⟩
        rintro ⟨⟨g, -⟩, -⟩
        exact absurd ((ht.far hb1).2 g) c1
      · rw [if_neg (not_not.2 c1)] at h
        obtain ⟨u, hu, h⟩ := bind_eq_ok.1 h
        obtain ⟨b2, hb2, h⟩ := bind_eq_ok.1 h
        have hl : vs.getLast? = some u := lastVertex_eq_ok hu
        by_cases c2 : b2 = true
        · rw [if_pos c2] at h
          cases h
          refine ⟨(fun h => nomatch h), ?_⟩
          rintro ⟨⟨-, g⟩, -⟩
          exact absurd ((ht.meets hb2).1 c2) (g u hl)
        · rw [if_neg c2] at h
          simp only [addOrReplace_joined] at h
          rw [h0] at h
          simp only at h
          rw [ha] at h
          simp only [pure_eq_ok, Except.ok.injEq] at h
          subst h
          rw [Option.some_inj]
          constructor
          · rintro rfl
            refine ⟨⟨(ht.far hb1).1 c1, ?_⟩, rfl⟩
            intro u' hu' hm
            rw [hl] at hu'
            cases hu'
            exact c2 ((ht.meets hb2).2 hm)
          · exact fun hh => hh.2.symm
  | succ d ih =>
    intro fuel i vs o hi hn ha hz h s
    cases fuel with
    | zero => cases h
    | succ fuel =>
      unfold sliceLoop at h
      have hi' : i < e.raw.size := by omega
      have hi'' : i < e.raw.vertexes.length := hi'
      have hd : e.raw.vertexes.drop i = vtx e.raw i :: e.raw.vertexes.drop (i + 1) := by
        rw [List.drop_eq_getElem_cons hi'']
        unfold vtx
        rw [List.getD_eq_getElem _ _ hi'']
      rw [at_eq hi', ok_bind] at h
      have h0 := hn 0 (by omega)
      have a0 := ha 0 (by omega)
      rw [Nat.add_zero] at h0 a0
      rw [hd, List.foldl_cons]
      change _ ↔ (_ ∧ _ ∧ _) ∧ _
      obtain ⟨b1, hb1, h⟩ := bind_eq_ok.1 h
      by_cases c1 : b1 = true
      swap
      · rw [if_pos c1] at h
        cases h
        refine ⟨(fun h => nomatch h), ?_⟩
        rintro ⟨⟨g, -⟩, -⟩
        exact absurd ((ht.far hb1).2 g) c1
      · rw [if_neg (not_not.2 c1)] at h
        obtain ⟨u, hu, h⟩ := bind_eq_ok.1 h
        obtain ⟨b2, hb2, h⟩ := bind_eq_ok.1 h
        have hl : vs.getLast? = some u := lastVertex_eq_ok hu
        by_cases c2 : b2 = true
        · rw [if_pos c2] at h
          cases h
          refine ⟨(fun h => nomatch h), ?_⟩
          rintro ⟨⟨-, g, -⟩, -⟩
          exact absurd ((ht.meets hb2).1 c2) (g u hl)
        · rw [if_neg c2] at h
          simp only [addOrReplace_joined] at h
          rw [h0] at h
          simp only at h
          rw [a0] at h
          simp only at h
          have := ih fuel (i + 1) _ o (by omega)
            (fun t ht => by rw [show i + 1 + t = i + (t + 1) by omega]; exact hn (t + 1) (by omega))
            (fun t ht => by rw [show i + 1 + t = i + (t + 1) by omega]; exact ha (t + 1) (by omega))
            (by rw [show i + 1 + d = i + (d + 1) by omega]; exact hz) h s
          rw [this]
          constructor
          · rintro ⟨g1, g2⟩
            refine ⟨⟨(ht.far hb1).1 c1, ?_, g1⟩, g2⟩
            intro u' hu' hm
            rw [hl] at hu'
            cases hu'
            exact c2 ((ht.meets hb2).2 hm)
          · exact fun hh => ⟨hh.1.2.2, hh.2⟩

/-- How the first piece of an open polyline is ended at a cut. -/
def FirstIs (p raw : Polyline) (offset : ℝ) (j : ℕ) (x : V2) (vs : List Vertex) (s : Polyline) : Prop :=
  ∃ r m, FarEnough p offset x ∧ splitAtPoint (vtx raw j) (vtx raw (j + 1)) x = .ok r ∧
    segMidpoint r.updatedStart ⟨x, 0⟩ = .ok m ∧ FarEnough p offset m ∧
    ¬ Meets p r.updatedStart ⟨x, 0⟩ ∧ s = ⟨false, joined (joined vs r.updatedStart) ⟨x, 0⟩⟩

theorem first_is {p : Polyline} {offset : ℝ} {e : SliceEnv} (ht : Tests p offset e) {lookup : Lookup}
    {x : V2} {rest : List V2} : ∀ (d fuel i : ℕ) (vs : List Vertex) (out : List OpenSlice),
    i + d + 1 < e.raw.size → (i = 0 ↔ vs = []) → (∀ t < d, lookup.find? (i + t) = none) →
    lookup.find? (i + d) = some (x :: rest) →
    firstSliceLoop e lookup fuel i ⟨false, vs⟩ = .ok out →
    ∃ o : Option Polyline, out = o.toList.map (fun s => ⟨0, s⟩) ∧ ∀ s, o = some s ↔
      Passable p offset vs ((e.raw.vertexes.drop i).take d) ∧
      FirstIs p e.raw offset (i + d) x (((e.raw.vertexes.drop i).take d).foldl joined vs) s := by
  have joined_ne : ∀ vs v, joined vs v ≠ [] := by
    intro vs v
    unfold joined
    split
    · simp
    · split_ifs <;> simp
  intro d
  induction d with
  | zero =>
    intro fuel i vs out hi _ _ hf h
    cases fuel with
    | zero => cases h
    | succ fuel =>
      unfold firstSliceLoop at h
      rw [Nat.add_zero] at hf
      simp only [List.take_zero, List.foldl_nil, Passable, true_and, Nat.add_zero]
      rw [hf] at h
      simp only at h
      obtain ⟨b1, hb1, h⟩ := bind_eq_ok.1 h
      by_cases c1 : b1 = true
      swap
      · rw [if_pos c1] at h
        cases h
        refine ⟨none, rfl, fun s => ⟨(fun h => nomatch h), ?_⟩⟩
        rintro ⟨r, m, g, -⟩
        exact absurd ((ht.far hb1).2 g) c1
      · rw [if_neg (not_not.2 c1), at_eq (show i < e.raw.size by omega), ok_bind,
          at_eq (show i + 1 < e.raw.size by omega), ok_bind] at h
        obtain ⟨r, hr, h⟩ := bind_eq_ok.1 h
        obtain ⟨m, hm, h⟩ := bind_eq_ok.1 h
        obtain ⟨b2, hb2, h⟩ := bind_eq_ok.1 h
        have huniq : ∀ {s}, FirstIs p e.raw offset i x vs s → FarEnough p offset m ∧
            ¬ Meets p r.updatedStart ⟨x, 0⟩ ∧
            s = ⟨false, joined (joined vs r.updatedStart) ⟨x, 0⟩⟩ := by
          rintro s ⟨r', m', -, g1, g2, g3, g4, g5⟩
          rw [hr] at g1
          cases g1
          rw [hm] at g2
          cases g2
          exact ⟨g3, g4, g5⟩
        by_cases c2 : b2 = true
        swap
        · rw [if_pos c2] at h
          cases h
          exact ⟨none, rfl, fun s => ⟨(fun h => nomatch h),
            fun hf => absurd ((ht.far hb2).2 (huniq hf).1) c2⟩⟩
        · rw [if_neg (not_not.2 c2)] at h
          obtain ⟨b3, hb3, h⟩ := bind_eq_ok.1 h
          by_cases c3 : b3 = true
          · rw [if_pos c3] at h
            cases h
            exact ⟨none, rfl, fun s => ⟨(fun h => nomatch h),
              fun hf => absurd ((ht.meets hb3).1 c3) (huniq hf).2.1⟩⟩
          · rw [if_neg c3] at h
            simp only [addOrReplace_joined, pure_eq_ok, Except.ok.injEq] at h
            refine ⟨some ⟨false, joined (joined vs r.updatedStart) ⟨x, 0⟩⟩, h.symm, fun s => ?_⟩
            rw [Option.some_inj]
            constructor
            · rintro rfl
              exact ⟨r, m, (ht.far hb1).1 c1, hr, hm, (ht.far hb2).1 c2,
                fun hm => c3 ((ht.meets hb3).2 hm), rfl⟩
            · exact fun hf => (huniq hf).2.2.symm
  | succ d ih =>
    intro fuel i vs out hi hv hn hf h
    cases fuel with
    | zero => cases h
    | succ fuel =>
      unfold firstSliceLoop at h
      have hi' : i < e.raw.size := by omega
      have hi'' : i < e.raw.vertexes.length := hi'
      have hd : (e.raw.vertexes.drop i).take (d + 1) =
          vtx e.raw i :: (e.raw.vertexes.drop (i + 1)).take d := by
        rw [List.drop_eq_getElem_cons hi'']
        unfold vtx
        rw [List.getD_eq_getElem _ _ hi'']
        rfl
      have h0 := hn 0 (by omega)
      rw [Nat.add_zero] at h0
      rw [h0] at h
      simp only at h
      rw [at_eq hi', ok_bind] at h
      rw [hd, List.foldl_cons]
      obtain ⟨b1, hb1, h⟩ := bind_eq_ok.1 h
      by_cases c1 : b1 = true
      swap
      · rw [if_pos c1] at h
        cases h
        refine ⟨none, rfl, fun s => ⟨(fun h => nomatch h), ?_⟩⟩
        rintro ⟨⟨g, -⟩, -⟩
        exact absurd ((ht.far hb1).2 g) c1
      · rw [if_neg (not_not.2 c1)] at h
        have key : ∀ hit : Bool, (hit = true ↔ ∃ u, vs.getLast? = some u ∧ Meets p u (vtx e.raw i)) →
            (if hit = true then (pure [] : M (List OpenSlice)) else firstSliceLoop e lookup fuel (i + 1)
              (addOrReplaceIfSamePos ⟨false, vs⟩ (vtx e.raw i))) = .ok out →
            ∃ o : Option Polyline, out = o.toList.map (fun s => ⟨0, s⟩) ∧ ∀ s, o = some s ↔
              Passable p offset vs (vtx e.raw i :: (e.raw.vertexes.drop (i + 1)).take d) ∧
              FirstIs p e.raw offset (i + (d + 1)) x
                (((e.raw.vertexes.drop (i + 1)).take d).foldl joined (joined vs (vtx e.raw i))) s := by
          intro hit hh h
          by_cases c2 : hit = true
          · rw [if_pos c2] at h
            cases h
            refine ⟨none, rfl, fun s => ⟨(fun h => nomatch h), ?_⟩⟩
            rintro ⟨⟨-, g, -⟩, -⟩
            obtain ⟨u, hu, hm⟩ := hh.1 c2
            exact absurd hm (g u hu)
          · rw [if_neg c2, addOrReplace_joined] at h
            obtain ⟨o, g1, g2⟩ := ih fuel (i + 1) _ out (by omega)
              (by have := joined_ne vs (vtx e.raw i); simp [this])
              (fun t ht => by rw [show i + 1 + t = i + (t + 1) by omega]; exact hn (t + 1) (by omega))
              (by rw [show i + 1 + d = i + (d + 1) by omega]; exact hf) h
            refine ⟨o, g1, fun s => ?_⟩
            rw [g2, show i + 1 + d = i + (d + 1) by omega]
            constructor
            · rintro ⟨k1, k2⟩
              exact ⟨⟨(ht.far hb1).1 c1, fun u hu hm => c2 (hh.2 ⟨u, hu, hm⟩), k1⟩, k2⟩
            · exact fun hh => ⟨hh.1.2.2, hh.2⟩
        by_cases c3 : i ≠ 0
        · rw [if_pos c3] at h
          obtain ⟨u, hu, h⟩ := bind_eq_ok.1 h
          obtain ⟨hit, hb2, h⟩ := bind_eq_ok.1 h
          have hl : vs.getLast? = some u := lastVertex_eq_ok hu
          refine key hit ?_ h
          rw [ht.meets hb2]
          constructor
          · exact fun hm => ⟨u, hl, hm⟩
          · rintro ⟨u', hu', hm⟩
            rw [hl] at hu'
            cases hu'
            exact hm
        · rw [if_neg c3, ok_bind] at h
          push Not at c3
          have := hv.1 c3
          subst this
          exact key false (by simp) h

end
end Cavc

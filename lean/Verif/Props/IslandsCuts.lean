import Verif.Spec.IslandPieces
import Verif.Props.Islands
import Verif.Props.CombineCuts
import Verif.Props.OffsetCuts

/-! C55: the pieces the offset loops of a set of loops are cut into. -/
namespace Cavc
open Spec
open scoped Classical
noncomputable section

/-! ### The lookup as a list of cuts -/

def slPoint (p : DissectionPoint) : SlicePoint := ⟨p.pos, false⟩

/-- A lookup of dissection points as a lookup of slice points. -/
def slOfD (l : DissectLookup) : SliceLookup := l.map fun kv => (kv.1, kv.2.map slPoint)

theorem slOfD_push (key : ℕ) (x : DissectionPoint) : ∀ l : DissectLookup,
    slOfD (l.push key x) = (slOfD l).push key (slPoint x)
  | [] => rfl
  | (k, ps) :: rest => by
    have ih := slOfD_push key x rest
    unfold slOfD at ih ⊢
    unfold DissectLookup.push
    rw [List.map_cons]
    unfold SliceLookup.push
    simp only
    split_ifs with c1 c2
    · rfl
    · simp
    · rw [List.map_cons, ih]

theorem slOfD_find (l : DissectLookup) (key : ℕ) :
    (slOfD l).find? key = (l.find? key).map fun xs => xs.map slPoint := by
  unfold slOfD DissectLookup.find? SliceLookup.find?
  rw [List.find?_map, Option.map_map, Option.map_map]
  rfl

theorem slOfD_pushes {α : Type} (key : α → ℕ) (pt : α → DissectionPoint) :
    ∀ (xs : List α) (l : DissectLookup),
      slOfD (xs.foldl (fun (l : DissectLookup) x => l.push (key x) (pt x)) l) =
        xs.foldl (fun (l : SliceLookup) x => l.push (key x) (slPoint (pt x))) (slOfD l)
  | [], l => rfl
  | x :: xs, l => by
    rw [List.foldl_cons, List.foldl_cons, slOfD_pushes key pt xs, slOfD_push]

/-- The cuts of one set of slice points. -/
def cutsOfSet (i : ℕ) (s : SlicePointSet) : List Cut :=
  if i = s.loopIndex1 then s.slicePoints.map fun p => ⟨p.sIndex1, p.pos, false⟩
  else s.slicePoints.map fun p => ⟨p.sIndex2, p.pos, false⟩

theorem dissectSet_cuts {sets : List SlicePointSet} {i k : ℕ} {l l' : DissectLookup}
    (hl : Keyed (slOfD l)) (h : dissectSet sets i l k = .ok l') :
    ∃ s, sets[k]? = some s ∧ Keyed (slOfD l') ∧
      (cutsIn (slOfD l')).Perm (cutsIn (slOfD l) ++ cutsOfSet i s) := by
  unfold dissectSet at h
  obtain ⟨s, hs, h⟩ := bind_eq_ok.1 h
  refine ⟨s, getM_some hs, ?_⟩
  unfold cutsOfSet
  by_cases c : i = s.loopIndex1
  · rw [if_pos c] at h ⊢
    cases h
    rw [slOfD_pushes (fun p : PlineIntersect => p.sIndex1) (fun p => ⟨s.loopIndex2, p.pos⟩)]
    exact pushes_cuts (fun p : PlineIntersect => p.sIndex1) (fun p => ⟨p.pos, false⟩) _ _ hl
  · rw [if_neg c] at h ⊢
    cases h
    rw [slOfD_pushes (fun p : PlineIntersect => p.sIndex2) (fun p => ⟨s.loopIndex1, p.pos⟩)]
    exact pushes_cuts (fun p : PlineIntersect => p.sIndex2) (fun p => ⟨p.pos, false⟩) _ _ hl

theorem dissectSets_cuts {sets : List SlicePointSet} {i : ℕ} : ∀ (ks : List ℕ) (l l' : DissectLookup),
    Keyed (slOfD l) → ks.foldlM (dissectSet sets i) l = .ok l' →
    ∃ ss, List.Forall₂ (fun k s => sets[k]? = some s) ks ss ∧ Keyed (slOfD l') ∧
      (cutsIn (slOfD l')).Perm (cutsIn (slOfD l) ++ ss.flatMap (cutsOfSet i))
  | [], l, l', hl, h => by
    cases h
    exact ⟨[], .nil, hl, by simp⟩
  | k :: ks, l, l', hl, h => by
    rw [List.foldlM_cons] at h
    obtain ⟨l1, h1, h⟩ := bind_eq_ok.1 h
    obtain ⟨s, a1, a2, a3⟩ := dissectSet_cuts hl h1
    obtain ⟨ss, b1, b2, b3⟩ := dissectSets_cuts ks l1 l' a2 h
    refine ⟨s :: ss, .cons a1 b1, b2, b3.trans ?_⟩
    rw [List.flatMap_cons, ← List.append_assoc]
    exact List.Perm.append_right _ a3

theorem sortDissect_cuts {std : StdSort} {p : Polyline} {l l' : DissectLookup} (hk : Keyed (slOfD l))
    (h : sortDissect std p l = .ok l') :
    Keyed (slOfD l') ∧ (cutsIn (slOfD l')).Perm (cutsIn (slOfD l)) ∧ AlongPline p (cutsIn (slOfD l')) ∧
      ∀ kv ∈ l', kv.1 < p.size := by
  have hf := mapM_forall h
  have hR : List.Forall₂ (fun (kv kv' : ℕ × List DissectionPoint) => (kv'.1 = kv.1 ∧ kv'.2.Perm kv.2 ∧
      kv'.2.Pairwise fun a b => dist2 (vtx p kv'.1).pos a.pos ≤ dist2 (vtx p kv'.1).pos b.pos) ∧
      kv'.1 < p.size) l l' := by
    refine hf.imp ?_
    intro kv kv' hkv
    obtain ⟨v, hv, hkv⟩ := bind_eq_ok.1 hkv
    simp only [pure_eq_ok, Except.ok.injEq] at hkv
    subst hkv
    have hlt : kv.1 < p.size := by
      unfold Polyline.at at hv
      rw [getM_eq_ok] at hv
      obtain ⟨h, -⟩ := List.getElem?_eq_some_iff.1 hv
      exact h
    rw [at_eq hlt] at hv
    cases hv
    have sw := keyLess_strictWeak (fun i : DissectionPoint => distSquared i.pos (vtx p kv.1).pos)
    refine ⟨⟨rfl, std.perm _ _ sw, (std.sorted _ _ sw).imp ?_⟩, hlt⟩
    intro a b hab
    have e : ∀ x y : V2, dist2 x y = distSquared y x := by
      intro x y
      unfold dist2 distSquared
      simp [dot]
      ring
    rw [e, e]
    exact not_lt.1 hab
  clear hf h
  have hlt : ∀ kv ∈ l', kv.1 < p.size := by
    intro kv' hkv'
    obtain ⟨kv, -, -, h⟩ := forall2_right hR hkv'
    exact h
  have hR' : List.Forall₂ (fun (kv kv' : ℕ × List SlicePoint) => kv'.1 = kv.1 ∧ kv'.2.Perm kv.2 ∧
      kv'.2.Pairwise fun a b => dist2 (vtx p kv'.1).pos a.pos ≤ dist2 (vtx p kv'.1).pos b.pos)
      (slOfD l) (slOfD l') := by
    unfold slOfD
    rw [List.forall₂_map_left_iff, List.forall₂_map_right_iff]
    refine hR.imp ?_
    rintro kv kv' ⟨⟨h1, h2, h3⟩, -⟩
    refine ⟨h1, h2.map _, ?_⟩
    rw [List.pairwise_map]
    exact h3
  clear hR
  suffices H : Keyed (slOfD l') ∧ (cutsIn (slOfD l')).Perm (cutsIn (slOfD l)) ∧
      AlongPline p (cutsIn (slOfD l')) from ⟨H.1, H.2.1, H.2.2, hlt⟩
  generalize slOfD l = L at *
  generalize slOfD l' = L' at *
  have hkeys : L'.Pairwise (fun a b => a.1 < b.1) := by
    have := hk.1
    rw [← List.pairwise_map (f := Prod.fst) (R := (· < ·))] at this ⊢
    rw [sorted_keys hR']
    exact this
  refine ⟨⟨hkeys, ?_⟩, ?_, ?_⟩
  · intro kv' hkv'
    obtain ⟨kv, hkv, h1, h2, -⟩ := forall2_right hR' hkv'
    intro h0
    rw [h0] at h2
    exact hk.2 kv hkv h2.symm.eq_nil
  · clear hk hkeys
    induction hR' with
    | nil => exact List.Perm.refl _
    | cons h1 _ ih =>
      unfold cutsIn at ih ⊢
      rw [List.flatMap_cons, List.flatMap_cons, h1.1]
      exact (h1.2.1.map _).append ih
  · exact along_of hkeys (fun kv' hkv' => (forall2_right hR' hkv').elim fun kv h => h.2.2.2)

/-! ### The slices are those of a boolean operation without overlaps -/

def plines (l : List DissectedSlice) : List Polyline := l.map DissectedSlice.pline

theorem between_bridge {e : DissectEnv} {ev : Vertex} : ∀ (ps : List DissectionPoint)
    (prev : DissectionPoint) (pv : Vertex) (result out : List DissectedSlice),
    betweenDissect e ev prev ps pv result = .ok out →
    betweenIntersects e.valid ev (slPoint prev) (ps.map slPoint) pv (plines result) = .ok (plines out)
  | [], _, _, result, out, h => by
    unfold betweenDissect at h
    cases h
    rfl
  | p :: rest, prev, pv, result, out, h => by
    unfold betweenDissect at h
    obtain ⟨split, hs, h⟩ := bind_eq_ok.1 h
    rw [List.map_cons]
    unfold betweenIntersects
    rw [show (slPoint p).pos = p.pos from rfl, hs, ok_bind,
      if_neg (show ¬ (slPoint prev).startOfCoincidentSlice = true by simp [slPoint])]
    by_cases c : fuzzyEqualV split.updatedStart.pos split.splitVertex.pos realPrecision
    · rw [if_pos c] at h ⊢
      exact between_bridge rest p _ result out h
    · rw [if_neg c] at h ⊢
      obtain ⟨m, hm, h⟩ := bind_eq_ok.1 h
      obtain ⟨b, hb, h⟩ := bind_eq_ok.1 h
      rw [hm, ok_bind, hb, ok_bind]
      have := between_bridge rest p _ _ out h
      refine Eq.trans ?_ this
      congr 1
      cases b <;> simp [plines]

theorem inner_bridge {e : DissectEnv} {sv ev : Vertex} {ps : List DissectionPoint}
    {result out : List DissectedSlice} (h : innerDissect e sv ev ps result = .ok out) :
    innerIntersects e.valid sv ev (ps.map slPoint) (plines result) = .ok (plines out) := by
  unfold innerDissect at h
  unfold innerIntersects
  rw [List.length_map]
  by_cases c : ps.length ≠ 1
  · rw [if_pos c] at h ⊢
    cases ps with
    | nil => cases h
    | cons p rest =>
      simp only at h
      obtain ⟨sp, hsp, h⟩ := bind_eq_ok.1 h
      rw [List.map_cons]
      simp only
      rw [show (slPoint p).pos = p.pos from rfl, hsp, ok_bind]
      exact between_bridge _ _ _ _ _ h
  · rw [if_neg c] at h ⊢
    cases h
    rfl

theorem loop_bridge {p : Polyline} {l : DissectLookup} : ∀ (fuel i : ℕ) (cur : Polyline)
    (r : Polyline × ℕ), dissectLoop p l fuel i cur = .ok r →
    intersectLoop p (slOfD l) fuel i cur = .ok r.1
  | 0, i, cur, r, h => by cases h
  | fuel + 1, i, cur, r, h => by
    unfold dissectLoop at h
    obtain ⟨v, hv, h⟩ := bind_eq_ok.1 h
    unfold intersectLoop
    rw [hv, ok_bind]
    simp only at h ⊢
    rw [slOfD_find]
    cases hf : l.find? i with
    | none =>
      rw [hf] at h
      exact loop_bridge fuel _ _ r h
    | some ps =>
      rw [hf] at h
      cases ps with
      | nil => cases h
      | cons x rest =>
        simp only at h
        obtain ⟨s, hs, h⟩ := bind_eq_ok.1 h
        cases h
        exact hs

theorem outer_bridge {e : DissectEnv} {l : DissectLookup} {k : ℕ} {sv ev : Vertex}
    {ps : List DissectionPoint} {result out : List DissectedSlice}
    (h : outerDissect e l k sv ev ps result = .ok out) :
    outerIntersects e.pline (slOfD l) e.valid k sv ev (ps.map slPoint) (plines result) =
      .ok (plines out) := by
  unfold outerDissect at h
  unfold outerIntersects
  rw [List.getLast?_map]
  cases hl : ps.getLast? with
  | none => rw [hl] at h; cases h
  | some back =>
    rw [hl] at h
    simp only [Option.map_some] at h ⊢
    rw [if_neg (show ¬ (slPoint back).startOfCoincidentSlice = true by simp [slPoint])]
    obtain ⟨split, hs, h⟩ := bind_eq_ok.1 h
    rw [show (slPoint back).pos = back.pos from rfl, hs, ok_bind]
    obtain ⟨⟨q, endIdx⟩, hq, h⟩ := bind_eq_ok.1 h
    rw [loop_bridge _ _ _ _ hq, ok_bind]
    simp only at h ⊢
    by_cases c : q.size > 1
    · rw [if_pos c] at h ⊢
      obtain ⟨v1, h1, h⟩ := bind_eq_ok.1 h
      obtain ⟨v2, h2, h⟩ := bind_eq_ok.1 h
      obtain ⟨m, hm, h⟩ := bind_eq_ok.1 h
      obtain ⟨b, hb, h⟩ := bind_eq_ok.1 h
      rw [h1, ok_bind, h2, ok_bind, hm, ok_bind, hb, ok_bind]
      cases h
      cases b <;> simp [plines]
    · rw [if_neg c] at h ⊢
      cases h
      rfl

theorem step_bridge {e : DissectEnv} {l : DissectLookup} {result out : List DissectedSlice}
    {kv : ℕ × List DissectionPoint} (h : dissectStep e l result kv = .ok out) :
    intersectsStep e.pline (slOfD l) e.valid (plines result) (kv.1, kv.2.map slPoint) =
      .ok (plines out) := by
  unfold dissectStep at h
  obtain ⟨sv, h1, h⟩ := bind_eq_ok.1 h
  obtain ⟨ev, h2, h⟩ := bind_eq_ok.1 h
  obtain ⟨r, hr, h⟩ := bind_eq_ok.1 h
  unfold intersectsStep
  rw [h1, ok_bind, h2, ok_bind, inner_bridge hr, ok_bind]
  exact outer_bridge h

theorem steps_bridge {e : DissectEnv} {l : DissectLookup} : ∀ (kvs : List (ℕ × List DissectionPoint))
    (result out : List DissectedSlice), kvs.foldlM (dissectStep e l) result = .ok out →
    (slOfD kvs).foldlM (intersectsStep e.pline (slOfD l) e.valid) (plines result) = .ok (plines out)
  | [], result, out, h => by
    cases h
    rfl
  | kv :: kvs, result, out, h => by
    rw [List.foldlM_cons] at h
    obtain ⟨r, hr, h⟩ := bind_eq_ok.1 h
    change ((kv.1, kv.2.map slPoint) :: slOfD kvs).foldlM _ _ = _
    rw [List.foldlM_cons, step_bridge hr, ok_bind]
    exact steps_bridge kvs r out h

/-- The slices of one offset loop are the kept pieces it is cut into. -/
theorem createSlices_cuts {std : StdSort} {hash : HashOrder} {input loops : OffsetLoopSet}
    {sp : SlicePointState} {d : ℝ} {i : ℕ} {result out : List DissectedSlice} {keep : V2 → Prop}
    {l : OffsetLoop} (hl : (loopsOf loops)[i]? = some l) (h2 : 2 ≤ l.polyline.size)
    (hk : ∀ x b, pointOnOffsetValid input l.parentLoopIndex x d = .ok b → (b = true ↔ keep x))
    (h : createSlicesFromLoop std hash input loops sp d i result = .ok out) :
    ∃ ks ss ps, sp.lookup[i]? = some ks ∧ List.Forall₂ (fun k s => sp.sets[k]? = some s) ks ss ∧
      plines out = plines result ++ ps ∧
      (l.polyline.isClosed = true → KeptSlices l.polyline (ss.flatMap (cutsOfSet i)) keep ps) := by
  unfold createSlicesFromLoop at h
  obtain ⟨l', hl', h⟩ := bind_eq_ok.1 h
  rw [get_eq] at hl'
  have := getM_some hl'
  rw [hl] at this
  cases this
  obtain ⟨ks, hks, h⟩ := bind_eq_ok.1 h
  obtain ⟨l0, e0, h⟩ := bind_eq_ok.1 h
  obtain ⟨l1, e1, h⟩ := bind_eq_ok.1 h
  obtain ⟨ss, s1, s2, s3⟩ := dissectSets_cuts ks [] l0 ⟨by simp [slOfD], by simp [slOfD]⟩ e0
  rw [show cutsIn (slOfD []) = [] from rfl, List.nil_append] at s3
  obtain ⟨t1, t2, t3, t4⟩ := sortDissect_cuts s2 e1
  have hb := steps_bridge _ _ _ h
  simp only at hb
  have hlt : ∀ kv ∈ slOfD l1, kv.1 < l.polyline.size := by
    intro kv hkv
    obtain ⟨kv', h', rfl⟩ := List.mem_map.1 hkv
    exact t4 kv' h'
  have hp : (slOfD (hash.iter l1)).Perm (slOfD l1) := (hash.perm l1).map _
  obtain ⟨oss, f1, f2⟩ := steps_cuts (keep := keep) hk _ _ _
    (fun kv hkv => hlt kv (hp.mem_iff.1 hkv)) hb
  refine ⟨ks, ss, _, getM_some hks, s1, f2, ?_⟩
  intro hc
  obtain ⟨oss', g1, g2⟩ := List.perm_comp_forall₂ hp.symm f1
  refine ⟨cutsIn (slOfD l1), oss'.flatten, t2.trans s3, t3, cutsIn_length g1, ?_, ?_⟩
  · exact slices_cuts hc h2 t1 hlt g1
  · exact (List.Perm.flatten g2.symm).filterMap id

end
end Cavc

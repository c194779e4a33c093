import Verif.Proofs.IslandAll
import Verif.Props.IslandsTotal
import Verif.Props.AreaIntegral
import Verif.Props.OffsetLoopsOnce

/-!
C75: the result of the offset of a set of loops bounds the region that is left of what they outline.
-/
namespace Cavc
open Spec
open scoped Classical
noncomputable section

/-! ### Lists -/

theorem numbered_own : ∀ (offs : List (List Polyline)) (k i : ℕ), k ≤ i →
    ((numberedFrom k offs).filter fun a => decide (a.1 = i)).map Prod.snd = offs.getD (i - k) []
  | [], k, i, _ => by simp [numberedFrom]
  | o :: offs, k, i, hk => by
    rw [numberedFrom_cons, List.filter_append, List.map_append]
    rcases Nat.eq_or_lt_of_le hk with rfl | hlt
    · have h1 : ((o.map fun q => (k, q)).filter fun a => decide (a.1 = k)) = o.map fun q => (k, q) := by
        rw [List.filter_eq_self]
        intro a ha
        obtain ⟨q, -, rfl⟩ := List.mem_map.1 ha
        simp
      have h2 : ((numberedFrom (k + 1) offs).filter fun a => decide (a.1 = k)) = [] := by
        rw [List.filter_eq_nil_iff]
        intro a ha
        have := (numberedFrom_lt _ _ _ ha).1
        simp only [decide_eq_true_eq]
        omega
      rw [h1, h2, List.map_map, Nat.sub_self]
      simp [Function.comp_def]
    · have h1 : ((o.map fun q => (k, q)).filter fun a => decide (a.1 = i)) = [] := by
        rw [List.filter_eq_nil_iff]
        intro a ha
        obtain ⟨q, -, rfl⟩ := List.mem_map.1 ha
        simp only [decide_eq_true_eq]
        omega
      rw [h1, List.map_nil, List.nil_append, numbered_own offs (k + 1) i (by omega),
        show i - k = (i - (k + 1)) + 1 by omega]
      simp

theorem LevelLoops.perm {p raw : Polyline} {d : ℝ} {X : Set V2} {r s : List Polyline} (h : LevelLoops p raw d X r)
    (hp : s.Perm r) : LevelLoops p raw d X s :=
  ⟨h.isRaw, fun q hq => h.closed q (hp.mem_iff.1 hq), h.level.perm (hp.map _).flatten⟩

theorem cEdges_balanced {q : Polyline} (h : 0 < q.size) : ((cEdges q).map fun e => e.1.pos).Perm ((cEdges q).map fun e => e.2) := by
  unfold cEdges
  rw [List.map_map, List.map_map]
  refine (range_rot (fun k => (rv q k).pos) q.size h ?_).symm
  show (rv q q.size).pos = (rv q 0).pos
  rw [← rv_mod, Nat.mod_self]

theorem cEdges_balanced_all {r : List Polyline} (h : ∀ q ∈ r, 0 < q.size) :
    ((r.map cEdges).flatten.map fun e => e.1.pos).Perm ((r.map cEdges).flatten.map fun e => e.2) := by
  induction r with
  | nil => simp
  | cons q r ih =>
    rw [List.map_cons, List.flatten_cons, List.map_append, List.map_append]
    exact (cEdges_balanced (h q (by simp))).append (ih fun q hq => h q (List.mem_cons_of_mem _ hq))

/-- The pieces of a closed polyline are kept for the same reason. -/
theorem keptSlices_congr {p : Polyline} {cuts : List Cut} {P Q : V2 → Prop} {r : List Polyline}
    (hPQ : ∀ s, IsPiece p cuts s → KeptBy P s → KeptBy Q s) (hQP : ∀ z, Q z → P z) (h : KeptSlices p cuts P r) :
    KeptSlices p cuts Q r := by
  obtain ⟨cs, os, h1, h2, h3, h4, h5⟩ := h
  refine ⟨cs, os, h1, h2, h3, fun i o ho => ?_, h5⟩
  have hT : ∀ s, KeptBy P s → KeptBy (fun _ => True) s := by
    rintro s ⟨l, u, w, m, a, b, -⟩
    exact ⟨l, u, w, m, a, b, trivial⟩
  have hback : ∀ s, KeptBy Q s → KeptBy P s := by
    rintro s ⟨l, u, w, m, a, b, c⟩
    exact ⟨l, u, w, m, a, b, hQP m c⟩
  obtain ⟨c, c', g1, g2, g | ⟨ga, gb, gc, s, gd, ge⟩ | ⟨ga, gb, s, gd, ge⟩⟩ := h4 i o ho
  · exact ⟨c, c', g1, g2, Or.inl g⟩
  · refine ⟨c, c', g1, g2, Or.inr (Or.inl ⟨ga, gb, gc, s, gd, ?_⟩)⟩
    rw [ge]
    by_cases ht : Tiny s
    · rw [if_neg fun h => h.1 ht, if_neg fun h => h.1 ht]
    · by_cases hk : KeptBy P s
      · rw [if_pos ⟨ht, hk⟩, if_pos ⟨ht, hPQ s ⟨cs, i, h1, h2, c, c', g1, g2, Or.inr (Or.inl ⟨ga, gb, gc, s, gd, by
          rw [if_pos ⟨ht, hT s hk⟩]⟩)⟩ hk⟩]
      · rw [if_neg fun h => hk h.2, if_neg fun h => hk (hback s h.2)]
  · refine ⟨c, c', g1, g2, Or.inr (Or.inr ⟨ga, gb, s, gd, ?_⟩)⟩
    rw [ge]
    by_cases hk : KeptBy P s
    · rw [if_pos hk, if_pos (hPQ s ⟨cs, i, h1, h2, c, c', g1, g2, Or.inr (Or.inr ⟨ga, gb, s, gd, by
        rw [if_pos (hT s hk)]⟩)⟩ hk)]
    · rw [if_neg hk, if_neg fun h => hk (hback s h)]

/-- The kept part of a loop: all of it, if no other loop meets it, or its pieces. -/
def keptPart (input : OffsetLoopSet) (delta : ℝ) (xs : List LoopCrossing) (a : OffsetLoop × ℕ) (ps : List Polyline) :
    List (Vertex × V2) :=
  if Untouched xs a.2 then
    (if ∃ v, a.1.polyline.vertexes.head? = some v ∧ FarFromOthers input delta a.1.parentLoopIndex v.pos then
      cEdges a.1.polyline else [])
  else (ps.map fun s => vEdges s.vertexes).flatten

theorem keptPart_all {input : OffsetLoopSet} {delta : ℝ} {xs : List LoopCrossing} : ∀ {loops : List OffsetLoop} {k : ℕ}
    {pieces : List (List Polyline)}, List.Forall₂ (fun (a : OffsetLoop × ℕ) ps => Untouched xs a.2 → ps = []) (loops.zipIdx k) pieces →
    (List.zipWith (keptPart input delta xs) (loops.zipIdx k) pieces).flatten.Perm
      (((wholeLoops input delta xs k loops).map fun l => cEdges l.polyline).flatten ++
        (pieces.flatten.map fun s => vEdges s.vertexes).flatten)
  | [], k, pieces, h => by
    cases h
    simp [wholeLoops]
  | l :: loops, k, pieces, h => by
    rw [List.zipIdx_cons] at h
    cases h with
    | @cons _ ps _ pieces h0 h =>
      have ih := keptPart_all (input := input) (delta := delta) (xs := xs) h
      rw [List.zipIdx_cons, List.zipWith_cons_cons, List.flatten_cons, List.flatten_cons, List.map_append, List.flatten_append]
      have e1 : wholeLoops input delta xs k (l :: loops) =
          (if Untouched xs k ∧ ∃ v, l.polyline.vertexes.head? = some v ∧ FarFromOthers input delta l.parentLoopIndex v.pos then
            [l] else []) ++ wholeLoops input delta xs (k + 1) loops := by
        unfold wholeLoops
        rw [List.zipIdx_cons]
        by_cases c : Untouched xs k ∧ ∃ v, l.polyline.vertexes.head? = some v ∧ FarFromOthers input delta l.parentLoopIndex v.pos
        · rw [if_pos c, List.filter_cons_of_pos (by simpa using c)]
          rfl
        · rw [if_neg c, List.filter_cons_of_neg (by simpa using c)]
          rfl
      rw [e1, List.map_append, List.flatten_append]
      unfold keptPart
      by_cases c : Untouched xs k
      · rw [if_pos (show Untouched xs (l, k).2 from c)]
        have hps : ps = [] := h0 c
        subst hps
        by_cases c' : ∃ v, l.polyline.vertexes.head? = some v ∧ FarFromOthers input delta l.parentLoopIndex v.pos
        · rw [if_pos (show ∃ v, (l, k).1.polyline.vertexes.head? = some v ∧
            FarFromOthers input delta (l, k).1.parentLoopIndex v.pos from c'), if_pos ⟨c, c'⟩]
          simp only [List.map_cons, List.map_nil, List.flatten_cons, List.flatten_nil, List.append_nil, List.nil_append,
            List.append_assoc]
          exact ih.append_left _
        · rw [if_neg (show ¬ ∃ v, (l, k).1.polyline.vertexes.head? = some v ∧
            FarFromOthers input delta (l, k).1.parentLoopIndex v.pos from c'), if_neg fun h => c' h.2]
          simp only [List.map_nil, List.flatten_nil, List.nil_append]
          exact ih
      · rw [if_neg (show ¬ Untouched xs (l, k).2 from c), if_neg fun h => c h.1]
        simp only [List.map_nil, List.flatten_nil, List.nil_append]
        refine (ih.append_left _).trans ?_
        rw [← List.append_assoc, ← List.append_assoc]
        exact List.perm_append_comm.append_right _

/-- How often closed polylines wind, as turns of their segments. -/
theorem turnAround_edges {r : List Polyline} (hr : ∀ q ∈ r, q.isClosed = true ∧ 2 ≤ q.size ∧ PlineOk q) {x : V2}
    (hx : ∀ q ∈ r, ¬ OnPline q x) {k : ℤ} (hk : eTurns (r.map cEdges).flatten x / (2 * Real.pi) = k) : TurnAround r x k := by
  have hlist : ∀ l : List Polyline, (∀ q ∈ l, q ∈ r) → ∃ ws : List ℤ,
      List.Forall₂ (fun q w => getWindingNumber q x = .ok w) l ws ∧
        (ws.sum : ℝ) = (l.map fun q => eTurns (cEdges q) x).sum / (2 * Real.pi) := by
    intro l
    induction l with
    | nil => intro _; exact ⟨[], List.Forall₂.nil, by simp⟩
    | cons q l ih =>
      intro hl
      obtain ⟨ws, h1, h2⟩ := ih fun q hq => hl q (List.mem_cons_of_mem _ hq)
      have hq := hl q List.mem_cons_self
      obtain ⟨g1, g2, g3⟩ := hr q hq
      obtain ⟨m, hm⟩ := turnAll_int g3 g1 g2 (hx q hq)
      refine ⟨m :: ws, List.Forall₂.cons ((getWinding_turnAll g3 g1 g2 (hx q hq)).2 hm.symm) h1, ?_⟩
      rw [List.sum_cons, List.map_cons, List.sum_cons, Int.cast_add, h2, ← turnAll_cEdges, ← hm]
      ring
  obtain ⟨ws, h1, h2⟩ := hlist r fun q hq => hq
  refine ⟨ws, h1, ?_⟩
  rw [← eTurns_flatten, hk] at h2
  exact_mod_cast h2

/-! ### The loops and their kept parts -/

section
variable {std : StdSort} {hash : HashOrder} {inf ninf : ℝ} {input : OffsetLoopSet} {delta : ℝ}

/-- The outlines. -/
abbrev outs (input : OffsetLoopSet) : List Polyline := (loopsOf input).map OffsetLoop.polyline

theorem outs_get {i : ℕ} {l : OffsetLoop} (h : (loopsOf input)[i]? = some l) : (outs input)[i]? = some l.polyline := by
  rw [List.getElem?_map, h]; rfl

theorem outs_some {i : ℕ} {p : Polyline} (h : (outs input)[i]? = some p) :
    ∃ l, (loopsOf input)[i]? = some l ∧ l.polyline = p := by
  rw [List.getElem?_map] at h
  exact Option.map_eq_some_iff.1 h

theorem clearOfRest_iff {own : ℕ} {z : V2} : ClearOfRest input delta own z ↔ ClearAll (otherPs (outs input) own) |delta| z := by
  constructor
  · intro h o ho
    obtain ⟨j, hj, e⟩ := mem_other.1 ho
    obtain ⟨l, hl, rfl⟩ := outs_some e
    exact h j l hj hl
  · intro h i l hi hl
    exact h _ (mem_other.2 ⟨i, hi, outs_get hl⟩)

theorem far_of_clear (ho : Outlines (outs input)) (hd : 1 / 10 ^ 4 ≤ |delta|) {own : ℕ} {z : V2}
    (h : ClearOfRest input delta own z) : FarFromOthers input delta own z := fun i l hi hl =>
  farEnough_of_notCloser (ho.simple _ (List.mem_map.2 ⟨l, List.mem_of_getElem? hl, rfl⟩)).lines hd (h i l hi hl)

theorem cutsOfLoop_ne {xs : List LoopCrossing} {i : ℕ} (hp : ∀ x ∈ xs, x.points ≠ []) (h : ¬ Untouched xs i) :
    cutsOfLoop xs i ≠ [] := by
  unfold Untouched at h
  push Not at h
  obtain ⟨x, hx, h⟩ := h
  obtain ⟨p, hpm⟩ := List.exists_mem_of_ne_nil _ (hp x hx)
  unfold cutsOfLoop
  intro he
  rw [List.flatMap_eq_nil_iff] at he
  have := he x hx
  by_cases c : x.first = i
  · rw [if_pos c, List.map_eq_nil_iff] at this
    exact hp x hx this
  · rw [if_neg c, if_pos (h c), List.map_eq_nil_iff] at this
    exact hp x hx this

theorem cutsOfLoop_overlap {xs : List LoopCrossing} {i : ℕ} {c : Cut} (h : c ∈ cutsOfLoop xs i) : c.overlap = false := by
  unfold cutsOfLoop at h
  obtain ⟨x, -, h⟩ := List.mem_flatMap.1 h
  split_ifs at h
  · obtain ⟨p, -, rfl⟩ := List.mem_map.1 h; rfl
  · obtain ⟨p, -, rfl⟩ := List.mem_map.1 h; rfl
  · simp at h

theorem cutsOfLoop_untouched {xs : List LoopCrossing} {i : ℕ} (h : Untouched xs i) : cutsOfLoop xs i = [] := by
  unfold cutsOfLoop
  rw [List.flatMap_eq_nil_iff]
  intro x hx
  rw [if_neg (h x hx).1, if_neg (h x hx).2]

/-- The offsets of each outline. -/
theorem offset_levels (ho : Outlines (outs input)) (hd : 1 / 10 ^ 4 ≤ |delta|)
    (hgood : ∀ l ∈ loopsOf input, GoodOffset (codePlatform inf ninf) l.polyline |delta|) {offs : List (List Polyline)}
    (hoffs : List.Forall₂ (fun l o => parallelOffset (codePlatform inf ninf) std hash l.polyline |delta| = .ok o)
      (loopsOf input) offs) (i : ℕ) :
    ∃ (raw : Polyline) (Y : Set V2), Y.Finite ∧ ∀ p, (outs input)[i]? = some p → LevelLoops p raw |delta| Y (offs.getD i []) := by
  by_cases hi : i < (loopsOf input).length
  · have hl := hoffs.length_eq
    have h1 := (List.forall₂_iff_get.1 hoffs).2 i hi (by omega)
    simp only [List.get_eq_getElem] at h1
    have hm := List.getElem_mem hi
    obtain ⟨raw, Y, h⟩ := good_level (ho.simple _ (List.mem_map.2 ⟨_, hm, rfl⟩)) (by rwa [abs_abs]) (hgood _ hm) h1
    refine ⟨raw, Y, h.level.fin, fun p hp => ?_⟩
    rw [outs_get (List.getElem?_eq_getElem hi)] at hp
    cases hp
    rw [List.getD_eq_getElem _ _ (by omega)]
    exact h
  · refine ⟨Polyline.empty, ∅, Set.finite_empty, fun p hp => ?_⟩
    obtain ⟨l, hl, -⟩ := outs_some hp
    rw [List.getElem?_eq_none (by omega)] at hl
    cases hl

/-- The loops are all of the offsets. -/
theorem loops_named {loops : OffsetLoopSet} {offs : List (List Polyline)}
    (h1 : loops.ccwLoops.map OffsetLoop.named = ((numbered offs).filter fun x => CounterClockwise x.2))
    (h2 : loops.cwLoops.map OffsetLoop.named =
      ((numbered offs).filter fun x => input.ccwLoops.length ≤ x.1 ∧ Clockwise x.2))
    (harea : ∀ x ∈ numbered offs, ∃ a, getArea x.2 = .ok a)
    (hkeep : ∀ x ∈ numbered offs, x.1 < input.ccwLoops.length → ¬ Clockwise x.2) :
    ((loopsOf loops).map OffsetLoop.named).Perm (numbered offs) := by
  unfold loopsOf
  rw [List.map_append, h1, h2]
  have e : ((numbered offs).filter fun x => decide (input.ccwLoops.length ≤ x.1 ∧ Clockwise x.2)) =
      (numbered offs).filter fun x => !decide (CounterClockwise x.2) := by
    apply List.filter_congr
    intro x hx
    obtain ⟨a, ha⟩ := harea x hx
    rw [← decide_not]
    congr 1
    rw [ccw_of ha, not_not, cw_of ha]
    apply propext
    constructor
    · exact fun h => h.2
    · intro h
      refine ⟨?_, h⟩
      by_contra hn
      exact hkeep x hx (by omega) ((cw_of ha).2 h)
  rw [e]
  exact List.filter_append_perm _ _

set_option maxHeartbeats 1000000 in
/-- **C75.** The offset of a set of loops that outline a region, when the tolerances of the library do not matter: the
loops of the result, together with closed polylines of an area less than 1e-4 that are left out, are the boundary of the
region that is left when all points at most as far as the offset from an outline are taken away: all together they wind
once, counter clockwise, around each point of it, and not around any other point. -/
theorem C75_islands (hin : ∀ l ∈ loopsOf input, LoopOk (codePlatform inf ninf) l)
    (ho : Outlines ((loopsOf input).map OffsetLoop.polyline)) (hd : 1 / 10 ^ 4 ≤ |delta|)
    (hgood : ∀ l ∈ loopsOf input, GoodOffset (codePlatform inf ninf) l.polyline |delta|)
    (hin_ccw : ∀ l ∈ input.ccwLoops, CounterClockwise l.polyline)
    (hclean : ∀ loops, OffsetLoops (codePlatform inf ninf) std hash input delta loops → loops.count ≤ 2 ^ 24 ∧
      ∀ xs, LoopCrossings std (loopsOf loops) xs → CleanLoops input delta (loopsOf loops) xs)
    {r : OffsetLoopSet} (h : computeIslands (codePlatform inf ninf) std hash input delta = .ok r) :
    ∃ small : List Polyline, (∀ q ∈ small, ∃ a, getArea q = .ok a ∧ |a| < 1 / 10 ^ 4) ∧
      BoundsInset ((loopsOf input).map OffsetLoop.polyline) |delta| ((loopsOf r).map OffsetLoop.polyline ++ small) := by
  have hd0 : 0 < |delta| := by linarith [show (0 : ℝ) < 1 / 10 ^ 4 by norm_num]
  obtain ⟨loops, xs, pieces, res, hloops, hcross, hpieces, hstitch, hccw, hcw, -⟩ := C55_islands hin h
  obtain ⟨hcount, hclean⟩ := hclean loops hloops
  have hcl := hclean xs (hcross hcount)
  obtain ⟨offs, hoffs, n1, n2, -⟩ := hloops
  have hlenO := hoffs.length_eq
  choose raw Y hYfin hY using offset_levels ho hd hgood hoffs
  have hnum : ∀ x ∈ numbered offs, ∃ p, (outs input)[x.1]? = some p ∧ x.2 ∈ offs.getD x.1 [] := by
    intro x hx
    have h0 := numbered_own offs 0 x.1 (Nat.zero_le _)
    have h1 : x.2 ∈ ((numberedFrom 0 offs).filter fun a => decide (a.1 = x.1)).map Prod.snd :=
      List.mem_map.2 ⟨x, List.mem_filter.2 ⟨hx, by simp⟩, rfl⟩
    rw [h0, Nat.sub_zero] at h1
    have h2 := (numberedFrom_lt 0 offs x hx).2
    rw [Nat.zero_add, ← hlenO] at h2
    exact ⟨_, outs_get (List.getElem?_eq_getElem h2), h1⟩
  have hnamed : ((loopsOf loops).map OffsetLoop.named).Perm (numbered offs) := by
    refine loops_named (input := input) n1 n2 ?_ ?_
    · intro x hx
      obtain ⟨p, hp, hm⟩ := hnum x hx
      obtain ⟨g1, -, g2⟩ := (hY _ p hp).closed _ hm
      obtain ⟨a, ha, -⟩ := C61_area_integral x.2 g2 g1
      exact ⟨a, ha⟩
    · intro x hx hlt
      obtain ⟨p, hp, hm⟩ := hnum x hx
      have hl : x.1 < (loopsOf input).length := by unfold loopsOf; rw [List.length_append]; omega
      have h1 := (List.forall₂_iff_get.1 hoffs).2 x.1 hl (by omega)
      simp only [List.get_eq_getElem] at h1
      rw [List.getD_eq_getElem _ _ (by omega)] at hm
      have e : (loopsOf input)[x.1] = input.ccwLoops[x.1] := List.getElem_append_left hlt
      obtain ⟨a, ha, a0⟩ := hin_ccw _ (List.getElem_mem hlt)
      rw [← e] at ha
      have hlm : (loopsOf input)[x.1] ∈ loopsOf input := List.getElem_mem hl
      have hsp := ho.simple _ (List.mem_map.2 ⟨_, hlm, rfl⟩)
      have ha0 : a ≠ 0 := by
        obtain ⟨s, σ, V, V', b, hb, b0, -⟩ := offset_sides_signed hsp hd0.ne'
        rw [ha] at hb
        obtain rfl := Except.ok.inj hb
        exact b0
      have hap : 0 < a := lt_of_le_of_ne a0 ha0.symm
      have hon := (C74_inward hsp (by rwa [abs_abs]) (hgood _ hlm) h1 ha (mul_pos hd0 hap)).once x.2 hm
      rw [if_pos hap] at hon
      obtain ⟨b, hb, hb'⟩ := goesOnce_area ((hY _ p hp).closed _ (by
        rw [List.getD_eq_getElem _ _ (by omega)]; exact hm)).1 hon
      rintro ⟨c, hc, hneg⟩
      rw [hb] at hc
      obtain rfl := Except.ok.inj hc
      have := hb'.1 hneg
      norm_num at this
  -- the loops
  have hlvl : ∀ (i : ℕ) (p : Polyline), (outs input)[i]? = some p →
      LevelLoops p (raw i) |delta| (Y i) ((((loopsOf loops).map OffsetLoop.named).filter fun a => decide (a.1 = i)).map Prod.snd) := by
    intro i p hi
    have h0 := numbered_own offs 0 i (Nat.zero_le _)
    rw [Nat.sub_zero] at h0
    refine (hY i p hi).perm ?_
    rw [← h0]
    exact (hnamed.filter _).map _
  have hloop : ∀ (n : ℕ) (l : OffsetLoop), (loopsOf loops)[n]? = some l → ∃ p, (outs input)[l.parentLoopIndex]? = some p ∧
      l.polyline ∈ ((((loopsOf loops).map OffsetLoop.named).filter fun a => decide (a.1 = l.parentLoopIndex)).map Prod.snd) ∧
      ∃ s, LevelLoops p (raw l.parentLoopIndex) |delta| (Y l.parentLoopIndex) s ∧ l.polyline ∈ s := by
    intro n l hl
    have hm : OffsetLoop.named l ∈ (loopsOf loops).map OffsetLoop.named := List.mem_map.2 ⟨l, List.mem_of_getElem? hl, rfl⟩
    obtain ⟨p, hp, hq⟩ := hnum _ (hnamed.mem_iff.1 hm)
    exact ⟨p, hp, List.mem_map.2 ⟨OffsetLoop.named l, List.mem_filter.2 ⟨hm, by simp [OffsetLoop.named]⟩, rfl⟩, _, hY _ p hp, hq⟩
  have hplen := hpieces.length_eq
  rw [List.length_zipIdx] at hplen
  have hpiece : ∀ (n : ℕ) (l : OffsetLoop) (ps : List Polyline), (loopsOf loops)[n]? = some l → pieces[n]? = some ps →
      (Untouched xs n → ps = []) ∧ (¬ Untouched xs n → LoopKept l.polyline (otherPs (outs input) l.parentLoopIndex) |delta|
        (cutsOfLoop xs n) ps) := by
    intro n l ps hl hps
    obtain ⟨g1, g2⟩ := List.getElem?_eq_some_iff.1 hl
    obtain ⟨g3, g4⟩ := List.getElem?_eq_some_iff.1 hps
    have h1 := (List.forall₂_iff_get.1 hpieces).2 n (by simpa using g1) g3
    simp only [List.get_eq_getElem, List.getElem_zipIdx, Nat.zero_add, g2, g4] at h1
    refine ⟨fun hu => by rw [if_pos hu] at h1; exact h1, fun hu => ?_⟩
    rw [if_neg hu] at h1
    obtain ⟨p, hp, -, s, hlv, hq⟩ := hloop n l hl
    obtain ⟨c1, c2, c3⟩ := hlv.closed _ hq
    have hks := keptSlices_congr (Q := ClearOfRest input delta l.parentLoopIndex)
      (fun s hs hk => hcl.piece n l s hl hu hs hk) (fun z hz => far_of_clear ho hd hz) (h1 c1)
    refine loop_kept (ho.others _) hd0.le c1 c3 (cutsOfLoop_ne hcl.points hu) (hcl.clean n l hl hu)
      (fun c hc => cutsOfLoop_overlap hc) ?_ (fun z => clearOfRest_iff) hks
    intro k v e z a1 a2 a3 ⟨o, hom, w, hw, hdw⟩
    obtain ⟨j, hj, ej⟩ := mem_other.1 hom
    obtain ⟨m, hm, rfl⟩ := outs_some ej
    exact hcl.complete n l k v e z hl a1 a2 (clearOfRest_iff.2 a3) ⟨j, m, w, hj, hm, hw, hdw⟩
  -- the segments
  set E := List.zipWith (keptPart input delta xs) (loopsOf loops).zipIdx pieces with hE
  have hElen : E.length = (loopsOf loops).length := by
    rw [hE, List.length_zipWith, List.length_zipIdx]; omega
  have hEget : ∀ n (hn : n < E.length), E[n] = keptPart input delta xs ((loopsOf loops)[n]'(by omega), n) (pieces[n]'(by omega)) := by
    intro n hn
    simp only [hE, List.getElem_zipWith, List.getElem_zipIdx, Nat.zero_add]
  obtain ⟨X, hX⟩ : ∃ X : Set V2, X = (⋃ i ∈ Finset.range (outs input).length, Y i) ∪
      {x | x ∈ ((List.range (loopsOf loops).length).flatMap (cutsOfLoop xs)).map Cut.pos} ∪ edgeEnds E.flatten := ⟨_, rfl⟩
  have hXfin : X.Finite := by
    rw [hX]
    refine Set.Finite.union (Set.Finite.union ?_ (List.finite_toSet _)) (edgeEnds_finite _)
    exact Set.Finite.biUnion (Finset.finite_toSet _) fun i _ => hYfin i
  have xY : ∀ {i : ℕ} {p : Polyline}, (outs input)[i]? = some p → Y i ⊆ X := by
    intro i p hi z hz
    rw [hX]
    refine Or.inl (Or.inl ?_)
    simp only [Set.mem_iUnion, Finset.mem_range]
    exact ⟨i, (List.getElem?_eq_some_iff.1 hi).1, hz⟩
  have xcut : ∀ {n : ℕ} {c : Cut}, n < (loopsOf loops).length → c ∈ cutsOfLoop xs n → c.pos ∈ X := by
    intro n c hn hc
    rw [hX]
    exact Or.inl (Or.inr (List.mem_map.2 ⟨c, List.mem_flatMap.2 ⟨n, List.mem_range.2 hn, hc⟩, rfl⟩))
  have xend : ∀ es ∈ E, ∀ e ∈ es, e.1.pos ∈ X ∧ e.2 ∈ X := by
    intro es hes e he
    have hm : e ∈ E.flatten := List.mem_flatten.2 ⟨es, hes, he⟩
    rw [hX]
    exact ⟨Or.inr (Or.inl (List.mem_map.2 ⟨e, hm, rfl⟩)), Or.inr (Or.inr (List.mem_map.2 ⟨e, hm, rfl⟩))⟩
  have hI : InsetEdges (outs input) |delta| X E.flatten := by
    refine inset_edges hd0 (L := (loopsOf loops).map OffsetLoop.named) hXfin ?_ ?_ ?_
    · intro i p hi
      exact ⟨raw i, Y i, xY hi, hlvl i p hi⟩
    · intro a ha
      obtain ⟨p, hp, -⟩ := hnum a (hnamed.mem_iff.1 ha)
      exact ⟨p, hp⟩
    · rw [List.forall₂_iff_get]
      refine ⟨by rw [List.length_map]; omega, ?_⟩
      intro n g1 g2
      simp only [List.get_eq_getElem, List.getElem_map]
      rw [List.length_map] at g1
      have hl := List.getElem?_eq_getElem g1
      obtain ⟨l, hle⟩ : ∃ l, l = (loopsOf loops)[n] := ⟨_, rfl⟩
      rw [← hle] at hl ⊢
      obtain ⟨p, hp, -, s, hlv, hq⟩ := hloop n l hl
      obtain ⟨c1, c2, c3⟩ := hlv.closed _ hq
      have hXe := xend _ (List.getElem_mem g2)
      rw [hEget n g2] at hXe ⊢
      rw [← hle] at hXe ⊢
      show LoopPart l.polyline (otherPs (outs input) l.parentLoopIndex) |delta| X _
      unfold keptPart at hXe ⊢
      by_cases hu : Untouched xs n
      · have hno : ∀ z, OnPline l.polyline z → ClearAll (otherPs (outs input) l.parentLoopIndex) |delta| z →
            ¬ TouchAll (otherPs (outs input) l.parentLoopIndex) |delta| z := by
          rintro z ⟨k, v, e, a1, a2⟩ a3 ⟨o, hom, w, hw, hdw⟩
          obtain ⟨j, hj, ej⟩ := mem_other.1 hom
          obtain ⟨m, hm, rfl⟩ := outs_some ej
          obtain ⟨c, hc, -⟩ := hcl.complete n l k v e z hl a1 a2 (clearOfRest_iff.2 a3) ⟨j, m, w, hj, hm, hw, hdw⟩
          rw [cutsOfLoop_untouched hu] at hc
          simp at hc
        obtain ⟨v, hv⟩ : ∃ v, l.polyline.vertexes.head? = some v := by
          cases hvs : l.polyline.vertexes with
          | nil =>
            have h2 : 2 ≤ l.polyline.vertexes.length := c2
            rw [hvs] at h2
            simp at h2
          | cons v _ => exact ⟨v, rfl⟩
        have hvon : OnPline l.polyline v.pos := by
          have hs := closed_isSeg c1 c2 (k := 0) (by omega)
          have : vtx l.polyline 0 = v := by
            unfold vtx
            rw [List.getD_eq_getElem?_getD, ← List.head?_eq_getElem?, hv]
            rfl
          rw [this] at hs
          exact ⟨0, _, _, hs, onSeg_start _ _⟩
        rw [if_pos (show Untouched xs (l, n).2 from hu)]
        by_cases hf : ∃ v, l.polyline.vertexes.head? = some v ∧ FarFromOthers input delta l.parentLoopIndex v.pos
        · rw [if_pos (show ∃ v, (l, n).1.polyline.vertexes.head? = some v ∧
            FarFromOthers input delta (l, n).1.parentLoopIndex v.pos from hf)]
          obtain ⟨v', hv', hff⟩ := hf
          rw [hv] at hv'
          cases hv'
          have hvc := clearOfRest_iff.1 (hcl.whole n l v hl hu hv hff)
          exact hlv.whole hq (fun z hz => loop_whole (ho.others _) hd0.le hno hvon hz hvc) (xY hp)
        · rw [if_neg (show ¬ ∃ v, (l, n).1.polyline.vertexes.head? = some v ∧
            FarFromOthers input delta (l, n).1.parentLoopIndex v.pos from hf)]
          refine part_nil fun z hz hc => hf ⟨v, hv, ?_⟩
          exact far_of_clear ho hd (clearOfRest_iff.2 (loop_whole (ho.others _) hd0.le hno hz hvon hc).clear)
      · rw [if_neg (show ¬ Untouched xs (l, n).2 from hu)] at hXe ⊢
        have hk := (hpiece n l _ hl (List.getElem?_eq_getElem (by omega))).2 hu
        exact hk.part (fun c hc => xcut g1 hc) (fun z hz => xY hp (hlv.passed hq hz)) ((hlv.corner hq).trans (xY hp)) hXe
  have hS := outline_sides ho.simple hd0
  -- closed polylines made of the segments
  have hperm := keptPart_all (input := input) (delta := delta) (xs := xs) (loops := loopsOf loops) (k := 0) (pieces := pieces) (by
    rw [List.forall₂_iff_get]
    refine ⟨by rw [List.length_zipIdx]; omega, fun n g1 g2 => ?_⟩
    rw [List.length_zipIdx] at g1
    simp only [List.get_eq_getElem, List.getElem_zipIdx, Nat.zero_add]
    exact (hpiece n _ _ (List.getElem?_eq_getElem g1) (List.getElem?_eq_getElem g2)).1)
  rw [← hE] at hperm
  have hwm : ∀ l ∈ wholeLoops input delta xs 0 (loopsOf loops), l.polyline.isClosed = true ∧ 2 ≤ l.polyline.size ∧ PlineOk l.polyline := by
    intro l hl
    unfold wholeLoops at hl
    obtain ⟨⟨l', n⟩, hm, rfl⟩ := List.mem_map.1 hl
    have hm' := List.mem_zipIdx_iff_getElem?.1 (List.mem_filter.1 hm).1
    obtain ⟨p, hp, -, s, hlv, hq⟩ := hloop n l' hm'
    exact hlv.closed _ hq
  have hball := (hI.noJumps ho hd0 hS).balanced hI.fin (Or.inl rfl) hI.ok
  have hbw := cEdges_balanced_all (r := (wholeLoops input delta xs 0 (loopsOf loops)).map OffsetLoop.polyline) (by
    intro q hq
    obtain ⟨l, hl, rfl⟩ := List.mem_map.1 hq
    have := (hwm l hl).2.1
    omega)
  rw [List.map_map, show cEdges ∘ OffsetLoop.polyline = fun l : OffsetLoop => cEdges l.polyline from rfl] at hbw
  have hbp : ((pieces.flatten.map fun s => vEdges s.vertexes).flatten.map fun e => e.1.pos).Perm
      ((pieces.flatten.map fun s => vEdges s.vertexes).flatten.map fun e => e.2) := by
    have h1 := ((hperm.map fun e => e.1.pos).symm.trans hball).trans (hperm.map fun e => e.2)
    rw [List.map_append, List.map_append] at h1
    rw [List.perm_iff_count] at h1 hbw ⊢
    intro z
    have i1 := h1 z
    have i2 := hbw z
    rw [List.count_append, List.count_append] at i1
    omega
  have hfind : ∀ s ∈ pieces.flatten, ∃ (n : ℕ) (q : Polyline) (F : List Polyline) (ps : List Polyline),
      n < (loopsOf loops).length ∧ s ∈ ps ∧ LoopKept q F |delta| (cutsOfLoop xs n) ps := by
    intro s hs
    obtain ⟨ps, hps, hs⟩ := List.mem_flatten.1 hs
    obtain ⟨n, hn, rfl⟩ := List.getElem_of_mem hps
    have hn' : n < (loopsOf loops).length := by omega
    obtain ⟨g1, g2⟩ := hpiece n _ _ (List.getElem?_eq_getElem hn') (List.getElem?_eq_getElem hn)
    by_cases hu : Untouched xs n
    · rw [g1 hu] at hs
      simp at hs
    · exact ⟨n, _, _, _, hn', hs, g2 hu⟩
  have hcutmem : ∀ {n : ℕ} {c : Cut}, n < (loopsOf loops).length → c ∈ cutsOfLoop xs n →
      c ∈ (List.range (loopsOf loops).length).flatMap (cutsOfLoop xs) := fun {n c} hn hc =>
    List.mem_flatMap.2 ⟨n, List.mem_range.2 hn, hc⟩
  have hfew : pieces.flatten.length ≤ 2 ^ 24 := by
    refine le_trans ?_ hcl.few
    rw [List.length_flatten, List.length_flatMap]
    refine List.Forall₂.sum_le_sum ?_
    rw [List.forall₂_iff_get]
    refine ⟨by simp; omega, fun n g1 g2 => ?_⟩
    rw [List.length_map] at g1
    simp only [List.get_eq_getElem, List.getElem_map, List.getElem_range]
    obtain ⟨k1, k2⟩ := hpiece n _ _ (List.getElem?_eq_getElem (by omega)) (List.getElem?_eq_getElem g1)
    by_cases hu : Untouched xs n
    · rw [k1 hu]; simp
    · exact (k2 hu).len
  obtain ⟨chains, hres, hch1, hch2⟩ := hstitch hfew
  obtain ⟨hrc, hrp⟩ := sel_loops (slices := pieces.flatten)
    (fun s hs => by
      obtain ⟨n, q, F, ps, -, hm, hk⟩ := hfind s hs
      exact hk.two s hm)
    (fun s hs => by
      obtain ⟨n, q, F, ps, -, hm, hk⟩ := hfind s hs
      exact hk.short s hm)
    (fun s hs t ht hx hy => by
      obtain ⟨n, q, F, ps, hn, hm, hk⟩ := hfind s hs
      obtain ⟨n', q', F', ps', hn', hm', hk'⟩ := hfind t ht
      obtain ⟨c, hc, ec⟩ := (hk.ends s hm).2
      obtain ⟨c', hc', ec'⟩ := (hk'.ends t hm').1
      rw [← ec, ← ec'] at hx hy ⊢
      exact hcl.apart c (hcutmem hn hc) c' (hcutmem hn' hc') hx hy) hbp hch1 hch2
  rw [← hres] at hrc hrp
  -- the result
  obtain ⟨R, hR⟩ : ∃ R, R = (wholeLoops input delta xs 0 (loopsOf loops)).map OffsetLoop.polyline ++ res := ⟨_, rfl⟩
  have hRe : (R.map cEdges).flatten.Perm E.flatten := by
    rw [hR, List.map_append, List.flatten_append, List.map_map]
    exact (hrp.append_left _).trans hperm.symm
  have hRc : ∀ q ∈ R, q.isClosed = true ∧ 2 ≤ q.size ∧ PlineOk q := by
    intro q hq
    have hc : q.isClosed = true ∧ 2 ≤ q.size := by
      rw [hR, List.mem_append] at hq
      rcases hq with hq | hq
      · obtain ⟨l, hl, rfl⟩ := List.mem_map.1 hq
        exact ⟨(hwm l hl).1, (hwm l hl).2.1⟩
      · exact hrc q hq
    refine ⟨hc.1, hc.2, plineOk_cEdges hc.1 fun e he => hI.ok e (hRe.subset ?_)⟩
    exact List.mem_flatten.2 ⟨_, List.mem_map.2 ⟨q, hq, rfl⟩, he⟩
  have harea : ∀ q ∈ R, ∃ a, getArea q = .ok a := fun q hq => by
    obtain ⟨a, ha, -⟩ := C61_area_integral q (hRc q hq).2.2 (hRc q hq).1
    exact ⟨a, ha⟩
  have hresR : ∀ q ∈ res, q ∈ R := fun q hq => by rw [hR]; exact List.mem_append_right _ hq
  obtain ⟨small, hsmall⟩ : ∃ small, small = (res.filter fun q => !decide (∃ a, getArea q = .ok a ∧ 1 / 10 ^ 4 ≤ a)).filter
      fun q => !decide (∃ a, getArea q = .ok a ∧ a ≤ - (1 / 10 ^ 4)) := ⟨_, rfl⟩
  have hfull : ((loopsOf r).map OffsetLoop.polyline ++ small).Perm R := by
    have e1 : ∀ {l : List OffsetLoop} {ns : List (ℕ × Polyline)}, l.map OffsetLoop.named = ns →
        l.map OffsetLoop.polyline = ns.map Prod.snd := by
      rintro l ns rfl
      rw [List.map_map]
      rfl
    have e2 := e1 hccw
    have e3 := e1 hcw
    rw [List.map_append, List.map_map, List.map_map] at e2 e3
    have i1 : (Prod.snd ∘ OffsetLoop.named) = OffsetLoop.polyline := rfl
    have i2 : (Prod.snd ∘ fun q : Polyline => ((0 : ℕ), q)) = id := rfl
    rw [i1, i2, List.map_id] at e2 e3
    have e4 : wholeLoops input delta xs 0 (loopsOf loops) = wholeLoops input delta xs 0 loops.ccwLoops ++
        wholeLoops input delta xs loops.ccwLoops.length loops.cwLoops := by
      unfold wholeLoops loopsOf
      rw [List.zipIdx_append, List.filter_append, List.map_append, Nat.zero_add]
    have e5 : (res.filter fun q => decide (∃ a, getArea q = .ok a ∧ a ≤ - (1 / 10 ^ 4))) =
        (res.filter fun q => !decide (∃ a, getArea q = .ok a ∧ 1 / 10 ^ 4 ≤ a)).filter
          fun q => decide (∃ a, getArea q = .ok a ∧ a ≤ - (1 / 10 ^ 4)) := by
      rw [List.filter_filter]
      apply List.filter_congr
      intro q hq
      by_cases c : ∃ a, getArea q = .ok a ∧ a ≤ - (1 / 10 ^ 4)
      · have c' : ¬ ∃ a, getArea q = .ok a ∧ 1 / 10 ^ 4 ≤ a := by
          rintro ⟨a, ha, h1⟩
          obtain ⟨b, hb, h2⟩ := c
          rw [ha] at hb
          cases hb
          linarith [show (0 : ℝ) < 1 / 10 ^ 4 by norm_num]
        rw [decide_eq_true c, decide_eq_false c']
        rfl
      · rw [decide_eq_false c, Bool.false_and]
    unfold loopsOf
    rw [List.map_append, e2, e3, hR, e4, List.map_append, hsmall]
    have p1 := List.filter_append_perm (fun q : Polyline => decide (∃ a, getArea q = .ok a ∧ 1 / 10 ^ 4 ≤ a)) res
    have p2 := List.filter_append_perm (fun q : Polyline => decide (∃ a, getArea q = .ok a ∧ a ≤ - (1 / 10 ^ 4)))
      (res.filter fun q => !decide (∃ a, getArea q = .ok a ∧ 1 / 10 ^ 4 ≤ a))
    rw [e5]
    rw [List.perm_iff_count] at p1 p2 ⊢
    intro z
    have q1 := p1 z
    have q2 := p2 z
    simp only [List.count_append] at q1 q2 ⊢
    omega
  refine ⟨small, ?_, ?_, ?_⟩
  · intro q hq
    rw [hsmall, List.mem_filter, List.mem_filter] at hq
    obtain ⟨⟨hm, h1⟩, h2⟩ := hq
    obtain ⟨a, ha⟩ := harea q (hresR q hm)
    refine ⟨a, ha, ?_⟩
    rw [Bool.not_eq_true', decide_eq_false_iff_not] at h1 h2
    rw [abs_lt]
    constructor
    · by_contra hc
      exact h2 ⟨a, ha, not_lt.1 hc⟩
    · by_contra hc
      exact h1 ⟨a, ha, not_lt.1 hc⟩
  · intro q hq
    exact hRc q (hfull.mem_iff.1 hq)
  · intro x hx
    have hRx : ∀ q ∈ R, ¬ OnPline q x := fun q hq => hx q (hfull.mem_iff.2 hq)
    have hoff : eOff E.flatten x := by
      intro e he ho
      obtain ⟨l, hl, hel⟩ := List.mem_flatten.1 (hRe.mem_iff.2 he)
      obtain ⟨q, hq, rfl⟩ := List.mem_map.1 hl
      exact hRx q hq ((onPline_cEdges (hRc q hq).1 (hRc q hq).2.1).2 ⟨e, hel, ho⟩)
    have hw := hI.winds ho hd0 hS hoff
    have hfe := ((hfull.map cEdges).flatten).trans hRe
    refine turnAround_edges (fun q hq => hRc q (hfull.mem_iff.1 hq)) hx ?_
    rw [eTurns_perm hfe, hw]
    simp only [← insetRegion_iff ho]
    split_ifs <;> simp

end

end
end Cavc

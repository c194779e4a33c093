import Verif.Proofs.ArcNatural
import Verif.Props.CombineNatural

/-!
C73: the polylines that a boolean operation on closed polylines with arcs that do not meet themselves returns.
-/
namespace Cavc
open Spec
open scoped Classical
open MeasureTheory
noncomputable section

/-- What `combinePolylines` does with closed polylines that cross clearly. -/
theorem combine_cases_arcs {inf ninf : ℝ} {std : StdSort} {hash : HashOrder} {A B : Polyline}
    (ssA : SimpleCurve A) (ssB : SimpleCurve B) (hg : CleanMeet A B)
    (hi : Indexable (codePlatform inf ninf) A) (hn : A.vertexes.length * B.vertexes.length ≤ 10 ^ 6)
    {mode : CombineMode} {r : CombineResult} (hr : combinePolylines (codePlatform inf ninf) std hash A B mode = .ok r) :
    ((∀ z, ¬ (OnPline A z ∧ OnPline B z)) ∧ ∃ a b, OnPline A a ∧ OnPline B b ∧
      r = apartResult A B (arcW B a ≠ 0) (arcW A b ≠ 0) mode) ∨
    ∃ intrs res, ArcMeet A B intrs ∧ intrs ≠ [] ∧ (∀ z ∈ intrs.map PlineIntersect.pos, OnPline A z ∧ OnPline B z) ∧
      List.Forall₂ (PartResult A B intrs ⟨[], [], [], []⟩) (partsOf mode) res ∧ r = metResult A mode res.flatten := by
  have hA2 := ssA.two'
  have hB2 := ssB.two'
  have oA := ssA.ok
  have oB := ssB.ok
  have cA := ssA.closed
  have cB := ssB.closed
  have hAne : A.vertexes ≠ [] := by
    rintro h
    have : A.vertexes.length = A.size := rfl
    rw [h] at this
    simp at this; omega
  have hBne : B.vertexes ≠ [] := by
    rintro h
    have : B.vertexes.length = B.size := rfl
    rw [h] at this
    simp at this; omega
  obtain ⟨a, ha⟩ : ∃ a, A.vertexes.head? = some a := ⟨_, List.head?_eq_some_head hAne⟩
  obtain ⟨b, hb⟩ : ∃ b, B.vertexes.head? = some b := ⟨_, List.head?_eq_some_head hBne⟩
  obtain ⟨s, found, ov, sorted, f1, f2, f3, -, hapart, hmeet⟩ :=
    C57_combinePolylines inf ninf hi oA oB cA cB ha hb hn hr
  obtain ⟨s', found', g1, g2, g3, hnd, hmem⟩ := found_arcs oA oB hg hi
  rw [f1] at g1
  cases g1
  rw [f2] at g2
  cases g2
  rw [g3] at f3
  have hov : ov = ⟨[], [], [], []⟩ := by
    unfold sortAndjoinCoincidentSlices at f3
    rw [if_pos (by simp)] at f3
    cases f3; rfl
  subst hov
  have hm := clean_meet oA oB cA cB hA2 hB2 hg hnd hmem
  by_cases hne : found.intersects = []
  · left
    have hoff : ∀ z, ¬ (OnPline A z ∧ OnPline B z) := by
      rintro x ⟨⟨i, v1, v2, q1, q2⟩, ⟨j, u1, u2, q3, q4⟩⟩
      have : (⟨i, j, x⟩ : PlineIntersect) ∈ found.intersects := (hmem _).2 ⟨v1, v2, u1, u2, q1, q3, q2, q4⟩
      rw [hne] at this
      simp at this
    have onA := head_onPline cA hA2 ha
    have onB := head_onPline cB hB2 hb
    have offa : ¬ OnPline B a.pos := fun h => hoff _ ⟨onA, h⟩
    have offb : ¬ OnPline A b.pos := fun h => hoff _ ⟨h, onB⟩
    have hr' := hapart (by simp [hne])
    have e1 : WindsAround B a.pos = (arcW B a.pos ≠ 0) := propext (windsAround_arcW oB cB hB2 offa)
    have e2 : WindsAround A b.pos = (arcW A b.pos ≠ 0) := propext (windsAround_arcW oA cA hA2 offb)
    rw [e1, e2] at hr'
    exact ⟨hoff, _, _, onA, onB, hr'⟩
  · right
    obtain ⟨res, hres, hr'⟩ := hmeet (by
      rintro ⟨y, z, h, -⟩
      simp at h) (Or.inl hne)
    refine ⟨_, _, hm, hne, ?_, hres, hr'⟩
    intro z hz
    obtain ⟨y, hy, rfl⟩ := List.mem_map.1 hz
    obtain ⟨v1, v2, u1, u2, q1, q3, q2, q4⟩ := (hmem y).1 hy
    exact ⟨⟨_, _, _, q1, q2⟩, ⟨_, _, _, q3, q4⟩⟩

/-! ### One part of an operation on polylines that cross -/

/-- The polylines of one part. -/
structure PartCurves (A B : Polyline) (sA : ℤ) (part : Part) (res : List Polyline) : Prop where
  simple : ∀ q ∈ res, SimpleCurve q
  on : ∀ q ∈ res, ∀ x, OnPline q x → OnPline A x ∨ OnPline B x
  apart : res.Pairwise fun q q' => ∀ z, ¬ (OnPline q z ∧ OnPline q' z)
  parts : part.insideA = true ∨ part.insideB = true →
    (∀ q ∈ res, 0 < (if part.insideA = true then sA else -sA : ℤ) * sArea q) ∧
    ∀ x, ¬ OnPline A x → ¬ OnPline B x →
      (res.filter fun q => Inside q x).length =
        if (Inside A x ↔ part.insideA = true) ∧ (Inside B x ↔ part.insideB = true) then 1 else 0
  union : part.insideA = false ∧ part.insideB = false →
    ∃ l1 o l2, res = l1 ++ o :: l2 ∧ 0 < sA * sArea o ∧ (∀ q ∈ l1 ++ l2, sA * sArea q < 0) ∧
    ∀ x, ¬ OnPline A x → ¬ OnPline B x →
      ((Inside A x ∨ Inside B x) ↔ Inside o x ∧ ∀ q ∈ l1 ++ l2, ¬ Inside q x) ∧
      ((l1 ++ l2).filter fun q => Inside q x).length ≤ 1 ∧ ∀ q ∈ l1 ++ l2, Inside q x → Inside o x

theorem part_curves {A B : Polyline} {intrs : List PlineIntersect}
    (ssA : SimpleCurve A) (ssB : SimpleCurve B) (hm : ArcMeet A B intrs) (hne : intrs ≠ [])
    (hX : ∀ z ∈ intrs.map PlineIntersect.pos, OnPline A z ∧ OnPline B z)
    {sA sB : ℤ} (gA : GoesOnce A sA) (gB : GoesOnce B sB) {part : Part}
    (hpart : part.opposite = (part.insideA != part.insideB))
    {res : List Polyline} (h : PartResult A B intrs ⟨[], [], [], []⟩ part res) : PartCurves A B sA part res := by
  have hturn := sameTurn_once ssA.closed ssB.closed gA gB
  obtain ⟨csA, TA, tA, βA, csB, TB, tB, βB, flip, kA, kB, kB', hs⟩ := arc_setup hm hne gA.1 gB.1 (fun _ h => gA.2.2 _ h)
    (fun _ h => gB.2.2 _ h) hturn hpart h
  obtain ⟨hsp, hdis⟩ := hs.simple ssA ssB
  have hon : ∀ q ∈ res, ∀ x, OnPline q x → OnPline A x ∨ OnPline B x := fun q hq x hx =>
    (hs.state ssA ssB hX hq hx).2.2
  have wA : ∀ {x}, ¬ OnPline A x → (Inside A x ↔ arcW A x ≠ 0) := fun hx => inside_arcW ssA.ok ssA.closed ssA.two' hx
  have wB : ∀ {x}, ¬ OnPline B x → (Inside B x ↔ arcW B x ≠ 0) := fun hx => inside_arcW ssB.ok ssB.closed ssB.two' hx
  have wq : ∀ q ∈ res, ∀ {x}, ¬ OnPline A x → ¬ OnPline B x → (Inside q x ↔ arcW q x ≠ 0) := by
    intro q hq x hA hB
    refine inside_arcW (hsp q hq).ok (hsp q hq).closed (hsp q hq).two' fun hx => ?_
    rcases hon q hq x hx with g | g
    · exact hA g
    · exact hB g
  have hfil : ∀ (l : List Polyline), (∀ q ∈ l, q ∈ res) → ∀ {x}, ¬ OnPline A x → ¬ OnPline B x →
      (l.filter fun q => Inside q x) = l.filter fun q => arcW q x ≠ 0 := by
    intro l hl x hA hB
    apply List.filter_congr
    intro q hq
    exact decide_eq_decide.2 (wq q (hl q hq) hA hB)
  have htot : ∀ x, ¬ OnPline A x → ¬ OnPline B x → _ := fun x hA hB =>
    part_total gA.1 gB.1 (gA.2.2 _ hA _ ((winding_arcW ssA.ok ssA.closed ssA.two' hA).2 rfl))
      (gB.2.2 _ hB _ ((winding_arcW ssB.ok ssB.closed ssB.two' hB).2 rfl)) hpart
      ((arc_part hm hne gA.1 gB.1 (fun _ h => gA.2.2 _ h) (fun _ h => gB.2.2 _ h) hturn hpart h).2 x hA hB)
  refine ⟨hsp, hon, hdis, ?_, ?_⟩
  · intro hp
    obtain ⟨g1, g2⟩ := hs.parts ssA ssB hX gB.1 (δ := if part.insideA = true then sA else -sA)
      (by rcases gA.1 with rfl | rfl <;> split_ifs <;> simp) hp
      (fun x xA xB => (htot x xA xB).2 hp)
    refine ⟨g1, fun x hA hB => ?_⟩
    rw [hfil res (fun q hq => hq) hA hB, g2 x hA hB]
    simp only [wA hA, wB hB]
  · intro hp
    obtain ⟨l1, o, l2, hres, g1, g2, g3⟩ := hs.union ssA ssB hX gB.1 gA.1 hp
      (fun x xA xB => (htot x xA xB).1 hp)
    refine ⟨l1, o, l2, hres, g1, g2, fun x hA hB => ?_⟩
    obtain ⟨f1, f2, f3⟩ := g3 x hA hB
    have hl : ∀ q ∈ l1 ++ l2, q ∈ res := by
      intro q hq
      rw [hres]
      rcases List.mem_append.1 hq with g | g <;> simp [g]
    have ho : o ∈ res := by rw [hres]; simp
    refine ⟨?_, ?_, ?_⟩
    · rw [wA hA, wB hB, wq o ho hA hB, f1]
      refine and_congr_right fun _ => forall₂_congr fun q hq => ?_
      rw [wq q (hl q hq) hA hB, not_not]
    · rw [hfil _ hl hA hB]
      exact f2
    · intro q hq hi
      rw [wq o ho hA hB]
      exact f3 q hq ((wq q (hl q hq) hA hB).1 hi)

theorem sArea_ok {q : Polyline} (h : SimpleCurve q) : getArea q = .ok (sArea q) := by
  obtain ⟨s, -, ⟨a, h1, -⟩, -⟩ := C72_simple h
  unfold sArea
  rw [h1]

theorem sameTurn_curve {A q : Polyline} (ssA : SimpleCurve A) (ssq : SimpleCurve q) {sA : ℤ} (gA : GoesOnce A sA) :
    SameTurn A q ↔ 0 < sA * sArea q := by
  obtain ⟨a, ha, ha'⟩ := goesOnce_area ssA.closed gA
  have hne : sArea q ≠ 0 := by
    obtain ⟨s, -, hpos, -⟩ := ssq.once
    intro h0
    rw [h0, mul_zero] at hpos
    exact lt_irrefl _ hpos
  have : SameTurn A q ↔ (a < 0 ↔ sArea q < 0) := by
    unfold SameTurn
    rw [ha, sArea_ok ssq]
    constructor
    · rintro ⟨a', b', h1, h2, h3⟩; cases h1; cases h2; exact h3
    · intro h; exact ⟨_, _, rfl, rfl, h⟩
  rw [this, ha']
  rcases gA.1 with rfl | rfl
  · norm_num
    constructor
    · intro h; exact lt_of_le_of_ne (by linarith) (Ne.symm hne)
    · intro h; linarith
  · norm_num

/-- C73. For every choice of `std::sort` and of the hash table, every mode, and all closed polylines A and B of
lines and arcs that do not meet themselves and cross each other clearly, `combinePolylines` returns closed polylines such
that
- none of them meets itself, and their points are all on A or on B;
- a point that is not on A or B is in the union, intersection, difference or symmetric difference if
  and only if it is inside of a remaining polyline and not inside of any subtracted one;
- nothing is counted twice: no such point is inside of two remaining polylines, or of two subtracted
  ones, and if it is inside of a subtracted one it is inside of a remaining one;
- except for the symmetric difference, no two of the polylines have a point in common. -/
theorem C73_combinePolylines (inf ninf : ℝ) {std : StdSort} {hash : HashOrder} {A B : Polyline}
    (ssA : SimpleCurve A) (ssB : SimpleCurve B) (hg : CleanMeet A B) (hap : ArcEndsApart A B)
    (hi : Indexable (codePlatform inf ninf) A) (hn : A.vertexes.length * B.vertexes.length ≤ 10 ^ 6)
    (mode : CombineMode) :
    ∃ r, combinePolylines (codePlatform inf ninf) std hash A B mode = .ok r ∧
      (∀ q ∈ r.remaining ++ r.subtracted, SimpleCurve q ∧ ∀ x, OnPline q x → OnPline A x ∨ OnPline B x) ∧
      (∀ x, ¬ OnPline A x → ¬ OnPline B x →
        (InResult r x ↔ boolOp mode (Inside A x) (Inside B x)) ∧
        r.remaining.Pairwise (fun q q' => ¬ (Inside q x ∧ Inside q' x)) ∧
        r.subtracted.Pairwise (fun q q' => ¬ (Inside q x ∧ Inside q' x)) ∧
        ∀ q ∈ r.subtracted, Inside q x → ∃ p ∈ r.remaining, Inside p x) ∧
      (mode ≠ .xor → (r.remaining ++ r.subtracted).Pairwise fun q q' => ∀ z, ¬ (OnPline q z ∧ OnPline q' z)) := by
  obtain ⟨sA, gA⟩ := C72_goes_once ssA
  obtain ⟨sB, gB⟩ := C72_goes_once ssB
  obtain ⟨r, hr, -⟩ := C71_simple inf ninf (std := std) (hash := hash) ssA ssB hg hap hi hn mode
  refine ⟨r, hr, ?_⟩
  rcases combine_cases_arcs ssA ssB hg hi hn hr with ⟨hdis, pa, pb, onA, onB, rfl⟩ | ⟨intrs, res, hm, hne, hX, hres, rfl⟩
  · -- they do not cross
    have hdis' : ∀ z, ¬ (OnPline B z ∧ OnPline A z) := fun z h => hdis z ⟨h.2, h.1⟩
    refine ⟨?_, ?_, ?_⟩
    · intro q hq
      rcases apartResult_mem hq with rfl | rfl
      · exact ⟨ssA, fun x hx => Or.inl hx⟩
      · exact ⟨ssB, fun x hx => Or.inr hx⟩
    · intro x hxA hxB
      have hmul := arcs_mul ssA.ok ssB.ok ssA.closed ssB.closed ssA.two' ssB.two' (fun x hx hx' => hdis x ⟨hx, hx'⟩) onA onB hxA hxB
      have wA : ∀ {x}, ¬ OnPline A x → arcW A x = 0 ∨ arcW A x = sA := fun hx =>
        gA.2.2 _ hx _ ((winding_arcW ssA.ok ssA.closed ssA.two' hx).2 rfl)
      have wB : ∀ {x}, ¬ OnPline B x → arcW B x = 0 ∨ arcW B x = sB := fun hx =>
        gB.2.2 _ hx _ ((winding_arcW ssB.ok ssB.closed ssB.two' hx).2 rfl)
      have eA := inside_arcW ssA.ok ssA.closed ssA.two' hxA
      have eB := inside_arcW ssB.ok ssB.closed ssB.two' hxB
      have h1 := wA hxA
      have h2 := wB hxB
      have ha := wB fun h => hdis _ ⟨onA, h⟩
      have hb := wA fun h => hdis _ ⟨h, onB⟩
      generalize arcW B pa = a at hmul ha ⊢
      generalize arcW A pb = b at hmul hb ⊢
      generalize arcW A x = u at hmul h1 eA
      generalize arcW B x = v at hmul h2 eB
      unfold InResult
      have hsA := gA.1
      have hsB := gB.1
      clear gA gB hr
      rcases hsA with rfl | rfl <;> rcases hsB with rfl | rfl <;> rcases ha with rfl | rfl <;> rcases hb with rfl | rfl <;>
        rcases h1 with rfl | rfl <;> rcases h2 with rfl | rfl <;>
        first
        | (exfalso; revert hmul; norm_num; done)
        | (cases mode <;> simp [apartResult, boolOp, eA, eB])
    · intro _
      cases mode <;> simp only [apartResult] <;> split_ifs <;>
        first | (simp; done) | simpa using hdis | simpa using hdis'
  · -- the polylines cross
    have hpp : ∀ {parts : List Part} {res : List (List Polyline)}, (∀ p ∈ parts, p ∈ partsOf mode) →
        List.Forall₂ (PartResult A B intrs ⟨[], [], [], []⟩) parts res →
        List.Forall₂ (PartCurves A B sA) parts res := by
      intro parts res hmp h
      induction h with
      | nil => exact .nil
      | cons h1 _ ih =>
        exact .cons (part_curves ssA ssB hm hne hX gA gB (partsOf_opposite (hmp _ (by simp))) h1)
          (ih fun p hp => hmp p (List.mem_cons_of_mem _ hp))
    have hP := hpp (fun p hp => hp) hres
    clear hpp hres
    cases mode with
    | union =>
      unfold partsOf at hP
      obtain ⟨l, ls, h1, h2, rfl⟩ := List.forall₂_cons_left_iff.1 hP
      cases h2
      obtain ⟨l1, o, l2, hl, ho, hh, hx⟩ := h1.union ⟨rfl, rfl⟩
      have hfl : [l].flatten = l := by simp
      rw [hfl]
      have hot : SameTurn A o := (sameTurn_curve ssA (h1.simple o (by rw [hl]; simp)) gA).2 ho
      have hht : ∀ q ∈ l1 ++ l2, ¬ SameTurn A q := by
        intro q hq hs
        have := (sameTurn_curve ssA (h1.simple q (by rw [hl]; rcases List.mem_append.1 hq with g | g <;> simp [g])) gA).1 hs
        linarith [hh q hq]
      have hn1 : ∀ q ∈ l1, ¬ SameTurn A q := fun q hq => hht q (by simp [hq])
      have hn2 : ∀ q ∈ l2, ¬ SameTurn A q := fun q hq => hht q (by simp [hq])
      have erem : (metResult A .union l).remaining = [o] := by
        simp only [metResult, hl, List.filter_append, List.filter_cons]
        rw [List.filter_eq_nil_iff.2 (fun q hq => by simpa using hn1 q hq),
          List.filter_eq_nil_iff.2 (fun q hq => by simpa using hn2 q hq), if_pos (by simpa using hot)]
        rfl
      have esub : (metResult A .union l).subtracted = l1 ++ l2 := by
        simp only [metResult, hl, List.filter_append, List.filter_cons]
        rw [List.filter_eq_self.2 (fun q hq => by simpa using hn1 q hq),
          List.filter_eq_self.2 (fun q hq => by simpa using hn2 q hq), if_neg (by simpa using hot)]
      unfold InResult
      rw [erem, esub]
      have hperm : ([o] ++ (l1 ++ l2)).Perm l := by
        rw [hl]
        exact (List.perm_middle (a := o) (l₁ := l1) (l₂ := l2)).symm
      refine ⟨fun q hq => ?_, fun x hA hB => ?_, fun _ => ?_⟩
      · have := hperm.mem_iff.1 hq
        exact ⟨h1.simple q this, h1.on q this⟩
      · obtain ⟨f1, f2, f3⟩ := hx x hA hB
        refine ⟨?_, List.pairwise_singleton _ _, pairwise_of_filter f2, fun q hq hi => ⟨o, by simp, f3 q hq hi⟩⟩
        simp only [List.mem_singleton, exists_eq_left]
        exact f1.symm
      · exact (hperm.pairwise_iff (fun g z hz => g z ⟨hz.2, hz.1⟩)).2 h1.apart
    | exclude =>
      unfold partsOf at hP
      obtain ⟨l, ls, h1, h2, rfl⟩ := List.forall₂_cons_left_iff.1 hP
      cases h2
      obtain ⟨-, hx⟩ := h1.parts (Or.inl rfl)
      have hfl : [l].flatten = l := by simp
      rw [hfl]
      simp only [metResult, List.append_nil, InResult]
      refine ⟨fun q hq => ⟨h1.simple q hq, h1.on q hq⟩, fun x hA hB => ?_, fun _ => h1.apart⟩
      have e := hx x hA hB
      refine ⟨?_, pairwise_of_filter (by rw [e]; split_ifs <;> simp), .nil, by simp⟩
      rw [exists_of_filter _ e]
      simp [boolOp]
    | intersect =>
      unfold partsOf at hP
      obtain ⟨l, ls, h1, h2, rfl⟩ := List.forall₂_cons_left_iff.1 hP
      cases h2
      obtain ⟨-, hx⟩ := h1.parts (Or.inl rfl)
      have hfl : [l].flatten = l := by simp
      rw [hfl]
      simp only [metResult, List.append_nil, InResult]
      refine ⟨fun q hq => ⟨h1.simple q hq, h1.on q hq⟩, fun x hA hB => ?_, fun _ => h1.apart⟩
      have e := hx x hA hB
      refine ⟨?_, pairwise_of_filter (by rw [e]; split_ifs <;> simp), .nil, by simp⟩
      rw [exists_of_filter _ e]
      simp [boolOp]
    | xor =>
      unfold partsOf at hP
      obtain ⟨l, ls, h1, h2, rfl⟩ := List.forall₂_cons_left_iff.1 hP
      obtain ⟨l', ls', h1', h2', rfl⟩ := List.forall₂_cons_left_iff.1 h2
      cases h2'
      obtain ⟨-, hx⟩ := h1.parts (Or.inl rfl)
      obtain ⟨-, hx'⟩ := h1'.parts (Or.inr rfl)
      have hfl : [l, l'].flatten = l ++ l' := by simp
      rw [hfl]
      simp only [metResult, List.append_nil, InResult]
      refine ⟨fun q hq => ?_, fun x hA hB => ?_, fun hn => absurd rfl hn⟩
      · rcases List.mem_append.1 hq with hq | hq
        · exact ⟨h1.simple q hq, h1.on q hq⟩
        · exact ⟨h1'.simple q hq, h1'.on q hq⟩
      have e := hx x hA hB
      have e' := hx' x hA hB
      simp only at e e'
      have et : ((l ++ l').filter fun q => Inside q x).length = if ¬ (Inside A x ↔ Inside B x) then 1 else 0 := by
        rw [List.filter_append, List.length_append, e, e']
        by_cases hA : Inside A x <;> by_cases hB : Inside B x <;> simp [hA, hB]
      refine ⟨?_, pairwise_of_filter (by rw [et]; split_ifs <;> simp), .nil, by simp⟩
      rw [exists_of_filter _ et]
      simp only [boolOp]
      by_cases hA : Inside A x <;> by_cases hB : Inside B x <;> simp [hA, hB]

/-- C73. The directions of the polylines, if A and B cross: the remaining ones go around like A, and the
subtracted ones in the other direction. For the symmetric difference the ones in A go around like A and
the ones in B in the other direction. -/
theorem C73_directions (inf ninf : ℝ) {std : StdSort} {hash : HashOrder} {A B : Polyline}
    (ssA : SimpleCurve A) (ssB : SimpleCurve B) (hg : CleanMeet A B)
    (hi : Indexable (codePlatform inf ninf) A) (hn : A.vertexes.length * B.vertexes.length ≤ 10 ^ 6)
    {mode : CombineMode} {r : CombineResult} (hr : combinePolylines (codePlatform inf ninf) std hash A B mode = .ok r)
    {z : V2} (hzA : OnPline A z) (hzB : OnPline B z) :
    (mode ≠ .xor → (∀ q ∈ r.remaining, SameTurn A q) ∧ ∀ q ∈ r.subtracted, ¬ SameTurn A q) ∧
    (mode = .xor → ∀ q ∈ r.remaining, ∀ x, ¬ OnPline A x → ¬ OnPline B x → Inside q x → (SameTurn A q ↔ Inside A x)) := by
  obtain ⟨sA, gA⟩ := C72_goes_once ssA
  obtain ⟨sB, gB⟩ := C72_goes_once ssB
  rcases combine_cases_arcs ssA ssB hg hi hn hr with ⟨hdis, -⟩ | ⟨intrs, res, hm, hne, hX, hres, rfl⟩
  · exact absurd ⟨hzA, hzB⟩ (hdis z)
  · have hpp := fun part hp res h => part_curves ssA ssB hm hne hX gA gB (part := part) (res := res)
      (partsOf_opposite (mode := mode) hp) h
    cases mode with
    | union =>
      refine ⟨fun _ => ⟨fun q hq => ?_, fun q hq => ?_⟩, fun h => by cases h⟩
      · simpa using (List.mem_filter.1 hq).2
      · simpa using (List.mem_filter.1 hq).2
    | exclude =>
      refine ⟨fun _ => ⟨fun q hq => ?_, fun q hq => by simp [metResult] at hq⟩, fun h => by cases h⟩
      unfold partsOf at hres
      obtain ⟨l, ls, h1, h2, rfl⟩ := List.forall₂_cons_left_iff.1 hres
      cases h2
      have h1 := hpp _ (by simp [partsOf]) _ h1
      simp only [metResult, List.flatten_cons, List.flatten_nil, List.append_nil] at hq
      exact (sameTurn_curve ssA (h1.simple q hq) gA).2 ((h1.parts (Or.inl rfl)).1 q hq)
    | intersect =>
      refine ⟨fun _ => ⟨fun q hq => ?_, fun q hq => by simp [metResult] at hq⟩, fun h => by cases h⟩
      unfold partsOf at hres
      obtain ⟨l, ls, h1, h2, rfl⟩ := List.forall₂_cons_left_iff.1 hres
      cases h2
      have h1 := hpp _ (by simp [partsOf]) _ h1
      simp only [metResult, List.flatten_cons, List.flatten_nil, List.append_nil] at hq
      exact (sameTurn_curve ssA (h1.simple q hq) gA).2 ((h1.parts (Or.inl rfl)).1 q hq)
    | xor =>
      refine ⟨fun h => absurd rfl h, fun _ q hq x hA hB hin => ?_⟩
      unfold partsOf at hres
      obtain ⟨l, ls, h1, h2, rfl⟩ := List.forall₂_cons_left_iff.1 hres
      obtain ⟨l', ls', h1', h2', rfl⟩ := List.forall₂_cons_left_iff.1 h2
      cases h2'
      have h1 := hpp _ (by simp [partsOf]) _ h1
      have h1' := hpp _ (by simp [partsOf]) _ h1'
      simp only [metResult, List.flatten_cons, List.flatten_nil, List.append_nil] at hq
      rcases List.mem_append.1 hq with hq | hq
      · obtain ⟨a, b⟩ := h1.parts (Or.inl rfl)
        refine iff_of_true ((sameTurn_curve ssA (h1.simple q hq) gA).2 (a q hq)) ?_
        have e := (exists_of_filter _ (b x hA hB)).1 ⟨q, hq, hin⟩
        by_contra hno
        simp [hno] at e
      · obtain ⟨a, b⟩ := h1'.parts (Or.inr rfl)
        have ha := a q hq
        simp only [Bool.false_eq_true, if_false, Int.cast_neg] at ha
        refine iff_of_false (fun hs => ?_) fun hi => ?_
        · have := (sameTurn_curve ssA (h1'.simple q hq) gA).1 hs
          linarith
        · have e := (exists_of_filter _ (b x hA hB)).1 ⟨q, hq, hin⟩
          simp [hi] at e

/-! ### Areas -/

theorem onCurve_measurable {q : Polyline} (h : SimpleCurve q) : MeasurableSet {z : ℝ × ℝ | ¬ OnPline q ⟨z.1, z.2⟩} :=
  (pline_closed_set h.closed h.two').isOpen_compl.measurableSet

theorem curveSet_measurable {q : Polyline} (h : SimpleCurve q) : MeasurableSet (insideSet q) :=
  (inside_open h.ok h.closed h.two').measurableSet

theorem curveSet_volume {q : Polyline} (h : SimpleCurve q) : ∃ a, getArea q = .ok a ∧
    volume (insideSet q) = ENNReal.ofReal |a| := by
  obtain ⟨s, -, ⟨a, h1, -, h2⟩, -⟩ := C72_simple h
  exact ⟨a, h1, h2⟩

theorem curve_areas {l : List Polyline} (hl : ∀ q ∈ l, SimpleCurve q) : ∃ as : List ℝ,
    List.Forall₂ (fun q x => getArea q = .ok x) l as ∧
    (l.map fun q => volume (insideSet q)).sum = ENNReal.ofReal (as.map fun x => |x|).sum ∧
    0 ≤ (as.map fun x => |x|).sum := by
  induction l with
  | nil => exact ⟨[], .nil, by simp, by simp⟩
  | cons q l ih =>
    obtain ⟨as, h1, h2, h3⟩ := ih fun p hp => hl p (List.mem_cons_of_mem _ hp)
    obtain ⟨a, ha, hv⟩ := curveSet_volume (hl q (by simp))
    refine ⟨a :: as, .cons ha h1, ?_, ?_⟩
    · rw [List.map_cons, List.sum_cons, h2, hv, List.map_cons, List.sum_cons, ENNReal.ofReal_add (abs_nonneg _) h3]
    · rw [List.map_cons, List.sum_cons]
      exact add_nonneg (abs_nonneg _) h3

/-- In how many of the polylines a point is. -/
theorem lintegral_curves {l : List Polyline} (hl : ∀ q ∈ l, SimpleCurve q) :
    ∫⁻ z, (l.map fun q => (insideSet q).indicator (fun _ => (1 : ENNReal)) z).sum =
      (l.map fun q => volume (insideSet q)).sum := by
  induction l with
  | nil => simp
  | cons q l ih =>
    simp only [List.map_cons, List.sum_cons]
    have hm := curveSet_measurable (hl q (by simp))
    rw [lintegral_add_left (measurable_const.indicator hm), ih fun p hp => hl p (List.mem_cons_of_mem _ hp)]
    congr 1
    rw [lintegral_indicator hm]
    simp

theorem combined_curves {A B : Polyline} (ssA : SimpleCurve A) (ssB : SimpleCurve B) (mode : CombineMode) :
    MeasurableSet (Combined A B mode) := by
  have mA := onCurve_measurable ssA
  have mB := onCurve_measurable ssB
  have iA := curveSet_measurable ssA
  have iB := curveSet_measurable ssB
  cases mode with
  | union =>
    have : Combined A B .union = ({z : ℝ × ℝ | ¬ OnPline A ⟨z.1, z.2⟩} ∩ {z : ℝ × ℝ | ¬ OnPline B ⟨z.1, z.2⟩}) ∩
        (insideSet A ∪ insideSet B) := by
      ext z
      simp only [Combined, boolOp, insideSet, Set.mem_ofPred_eq, Set.mem_inter_iff, Set.mem_union]
      tauto
    rw [this]
    exact (mA.inter mB).inter (iA.union iB)
  | intersect =>
    have : Combined A B .intersect = ({z : ℝ × ℝ | ¬ OnPline A ⟨z.1, z.2⟩} ∩ {z : ℝ × ℝ | ¬ OnPline B ⟨z.1, z.2⟩}) ∩
        (insideSet A ∩ insideSet B) := by
      ext z
      simp only [Combined, boolOp, insideSet, Set.mem_ofPred_eq, Set.mem_inter_iff]
      tauto
    rw [this]
    exact (mA.inter mB).inter (iA.inter iB)
  | exclude =>
    have : Combined A B .exclude = ({z : ℝ × ℝ | ¬ OnPline A ⟨z.1, z.2⟩} ∩ {z : ℝ × ℝ | ¬ OnPline B ⟨z.1, z.2⟩}) ∩
        (insideSet A \ insideSet B) := by
      ext z
      simp only [Combined, boolOp, insideSet, Set.mem_ofPred_eq, Set.mem_inter_iff, Set.mem_sdiff]
      tauto
    rw [this]
    exact (mA.inter mB).inter (iA.diff iB)
  | xor =>
    have : Combined A B .xor = ({z : ℝ × ℝ | ¬ OnPline A ⟨z.1, z.2⟩} ∩ {z : ℝ × ℝ | ¬ OnPline B ⟨z.1, z.2⟩}) ∩
        ((insideSet A \ insideSet B) ∪ (insideSet B \ insideSet A)) := by
      ext z
      simp only [Combined, boolOp, insideSet, Set.mem_ofPred_eq, Set.mem_inter_iff, Set.mem_union, Set.mem_sdiff]
      tauto
    rw [this]
    exact (mA.inter mB).inter ((iA.diff iB).union (iB.diff iA))

/-- C73. In the same cases the areas are right: what `getArea` gives for the remaining polylines less what
it gives for the subtracted ones, without the signs, is the measure of the union, intersection,
difference or symmetric difference. -/
theorem C73_area (inf ninf : ℝ) {std : StdSort} {hash : HashOrder} {A B : Polyline}
    (ssA : SimpleCurve A) (ssB : SimpleCurve B) (hg : CleanMeet A B) (hap : ArcEndsApart A B)
    (hi : Indexable (codePlatform inf ninf) A) (hn : A.vertexes.length * B.vertexes.length ≤ 10 ^ 6)
    (mode : CombineMode) :
    ∃ r a, combinePolylines (codePlatform inf ninf) std hash A B mode = .ok r ∧ AreaOf r a ∧ 0 ≤ a ∧
      volume (Combined A B mode) = ENNReal.ofReal a := by
  obtain ⟨r, hr, h1, h2, -⟩ := C73_combinePolylines inf ninf (std := std) (hash := hash) ssA ssB hg hap hi hn mode
  have hrem : ∀ q ∈ r.remaining, SimpleCurve q := fun q hq => (h1 q (List.mem_append_left _ hq)).1
  have hsub : ∀ q ∈ r.subtracted, SimpleCurve q := fun q hq => (h1 q (List.mem_append_right _ hq)).1
  obtain ⟨as, ha1, ha2, ha3⟩ := curve_areas hrem
  obtain ⟨bs, hb1, hb2, hb3⟩ := curve_areas hsub
  have hm := combined_curves ssA ssB mode
  have hsum : volume (Combined A B mode) + (r.subtracted.map fun q => volume (insideSet q)).sum =
      (r.remaining.map fun q => volume (insideSet q)).sum := by
    rw [← lintegral_curves hrem, ← lintegral_curves hsub]
    have e : volume (Combined A B mode) = ∫⁻ z, (Combined A B mode).indicator (fun _ => (1 : ENNReal)) z := by
      rw [lintegral_indicator hm]
      simp
    rw [e, ← lintegral_add_left (measurable_const.indicator hm)]
    apply lintegral_congr_ae
    filter_upwards [onPline_null A, onPline_null B] with z zA zB
    have hoff : ∀ q ∈ r.remaining ++ r.subtracted, ¬ OnPline q ⟨z.1, z.2⟩ := by
      intro q hq hz
      rcases (h1 q hq).2 _ hz with g | g
      · exact zA g
      · exact zB g
    obtain ⟨f1, f2, f3, f4⟩ := h2 _ zA zB
    rw [count_filter _ fun q hq => hoff q (List.mem_append_left _ hq), count_filter _ fun q hq => hoff q (List.mem_append_right _ hq),
      filter_of_pairwise f2, filter_of_pairwise f3, Set.indicator_apply]
    have hz : z ∈ Combined A B mode ↔ InResult r ⟨z.1, z.2⟩ := by
      rw [f1]
      exact ⟨fun h => h.2.2, fun h => ⟨zA, zB, h⟩⟩
    rw [if_congr hz rfl rfl]
    unfold InResult
    by_cases c1 : ∃ q ∈ r.remaining, Inside q ⟨z.1, z.2⟩ <;> by_cases c2 : ∃ q ∈ r.subtracted, Inside q ⟨z.1, z.2⟩
    · have c3 : ¬ ∀ q ∈ r.subtracted, ¬ Inside q ⟨z.1, z.2⟩ := by push Not; exact c2
      rw [if_pos c1, if_pos c2, if_neg (fun g => c3 g.2)]
      simp
    · have c3 : ∀ q ∈ r.subtracted, ¬ Inside q ⟨z.1, z.2⟩ := by push Not at c2; exact c2
      rw [if_pos c1, if_neg c2, if_pos ⟨c1, c3⟩]
      simp
    · obtain ⟨q, hq, hi⟩ := c2
      exact absurd (f4 q hq hi) c1
    · rw [if_neg c1, if_neg c2, if_neg (fun g => c1 g.1)]
      simp
  rw [ha2, hb2] at hsum
  have hle : (bs.map fun x => |x|).sum ≤ (as.map fun x => |x|).sum := by
    rw [← ENNReal.ofReal_le_ofReal_iff ha3, ← hsum]
    exact le_add_self
  refine ⟨r, _, hr, ⟨as, bs, ha1, hb1, rfl⟩, sub_nonneg.2 hle, ?_⟩
  rw [ENNReal.ofReal_sub _ hb3, ← hsum, ENNReal.add_sub_cancel_right ENNReal.ofReal_ne_top]

/-- C73. The areas of the four operations fit together: union and intersection have the area of A and B
together, difference and intersection that of A, and symmetric difference and intersection that of the
union. -/
theorem C73_inclusion_exclusion (inf ninf : ℝ) {std : StdSort} {hash : HashOrder} {A B : Polyline}
    (ssA : SimpleCurve A) (ssB : SimpleCurve B) (hg : CleanMeet A B) (hap : ArcEndsApart A B)
    (hi : Indexable (codePlatform inf ninf) A) (hn : A.vertexes.length * B.vertexes.length ≤ 10 ^ 6) :
    ∃ (r : CombineMode → CombineResult) (c : CombineMode → ℝ) (a b : ℝ), getArea A = .ok a ∧ getArea B = .ok b ∧
      (∀ mode, combinePolylines (codePlatform inf ninf) std hash A B mode = .ok (r mode) ∧ AreaOf (r mode) (c mode)) ∧
      c .union + c .intersect = |a| + |b| ∧ c .exclude + c .intersect = |a| ∧ c .xor + c .intersect = c .union := by
  choose r c h1 h2 h3 h4 using C73_area inf ninf (std := std) (hash := hash) ssA ssB hg hap hi hn
  obtain ⟨a, ha, va⟩ := curveSet_volume ssA
  obtain ⟨b, hb, vb⟩ := curveSet_volume ssB
  have hae : ∀ mode, volume (Combined A B mode) = volume {z | boolOp mode (z ∈ insideSet A) (z ∈ insideSet B)} := by
    intro mode
    apply measure_congr
    filter_upwards [onPline_null A, onPline_null B] with z zA zB
    apply propext
    have eA : z ∈ insideSet A ↔ Inside A ⟨z.1, z.2⟩ := ⟨fun h => h.2, fun h => ⟨zA, h⟩⟩
    have eB : z ∈ insideSet B ↔ Inside B ⟨z.1, z.2⟩ := ⟨fun h => h.2, fun h => ⟨zB, h⟩⟩
    change z ∈ Combined A B mode ↔ boolOp mode (z ∈ insideSet A) (z ∈ insideSet B)
    rw [eA, eB]
    exact ⟨fun h => h.2.2, fun h => ⟨zA, zB, h⟩⟩
  have mA := curveSet_measurable ssA
  have mB := curveSet_measurable ssB
  have conv : ∀ {u v w : ℝ}, 0 ≤ u → 0 ≤ v → 0 ≤ w → ENNReal.ofReal u + ENNReal.ofReal v = ENNReal.ofReal w → u + v = w := by
    intro u v w hu hv hw h
    rw [← ENNReal.ofReal_add hu hv] at h
    exact (ENNReal.ofReal_eq_ofReal_iff (add_nonneg hu hv) hw).1 h
  have eU := (h4 .union).symm.trans (hae .union)
  have eI := (h4 .intersect).symm.trans (hae .intersect)
  have eE := (h4 .exclude).symm.trans (hae .exclude)
  have eX := (h4 .xor).symm.trans (hae .xor)
  change _ = volume (insideSet A ∪ insideSet B) at eU
  change _ = volume (insideSet A ∩ insideSet B) at eI
  change _ = volume (insideSet A \ insideSet B) at eE
  refine ⟨r, c, a, b, ha, hb, fun mode => ⟨h1 mode, h2 mode⟩, ?_, ?_, ?_⟩
  · have := measure_union_add_inter (μ := volume) (insideSet A) mB
    rw [← eU, ← eI, va, vb, ← ENNReal.ofReal_add (abs_nonneg a) (abs_nonneg b)] at this
    exact conv (h3 _) (h3 _) (add_nonneg (abs_nonneg a) (abs_nonneg b)) this
  · have := measure_sdiff_add_inter (μ := volume) (s := insideSet A) mB
    rw [← eE, ← eI, va] at this
    exact conv (h3 _) (h3 _) (abs_nonneg a) this
  · have := measure_sdiff_add_inter (μ := volume) (s := insideSet A ∪ insideSet B) (mA.inter mB)
    have e1 : (insideSet A ∪ insideSet B) \ (insideSet A ∩ insideSet B) =
        {z | boolOp .xor (z ∈ insideSet A) (z ∈ insideSet B)} := by
      ext z
      simp only [boolOp, Set.mem_sdiff, Set.mem_union, Set.mem_inter_iff, Set.mem_ofPred_eq]
      tauto
    have e2 : (insideSet A ∪ insideSet B) ∩ (insideSet A ∩ insideSet B) = insideSet A ∩ insideSet B := by
      ext z
      simp only [Set.mem_inter_iff, Set.mem_union]
      tauto
    rw [e1, e2, ← eX, ← eI, ← eU] at this
    exact conv (h3 _) (h3 _) (h3 _) this

/-- The disc and the rectangle: whatever polylines come out, union and intersection have together the area of the
disc and the rectangle. -/
example (inf ninf : ℝ) (std : StdSort) (hash : HashOrder) : ∃ r r' c c',
    combinePolylines (codePlatform inf ninf) std hash disc5 (rect 3 (-8) 10 8) .union = .ok r ∧ AreaOf r c ∧
    combinePolylines (codePlatform inf ninf) std hash disc5 (rect 3 (-8) 10 8) .intersect = .ok r' ∧ AreaOf r' c' ∧
    c + c' = 25 * Real.pi + 112 := by
  have hr : SimpleCurve (rect 3 (-8) 10 8) := by
    refine simplePolygon_curve (rect_simple (by norm_num) (by norm_num)) fun i v1 v2 h hn => ?_
    rcases rect_seg h with ⟨-, rfl, rfl⟩ | ⟨-, rfl, rfl⟩ | ⟨-, rfl, rfl⟩ | ⟨-, rfl, rfl⟩ <;> norm_num [Near] at hn
  obtain ⟨r, c, a, b, ha, hb, h1, h2, -⟩ := C73_inclusion_exclusion inf ninf (std := std) (hash := hash) disc5_simple hr
    disc5_clean disc5_apart (disc5_indexable inf ninf) (by simp [disc5, rect])
  have hd : getArea disc5 = .ok (25 * Real.pi) := by
    rw [getArea_eq rfl (by simp [disc5])]
    congr 1
    simp only [segs, disc5, List.length_cons, List.length_nil, Polyline.size]
    norm_num [Finset.sum_range_succ, vtx, areaTerm, IsLine, dist2]
    ring
  rw [rect_area] at hb
  rw [hd] at ha
  refine ⟨_, _, _, _, (h1 .union).1, (h1 .union).2, (h1 .intersect).1, (h1 .intersect).2, ?_⟩
  rw [h2, ← Except.ok.inj ha, ← Except.ok.inj hb, abs_of_pos (by positivity)]
  norm_num

/-- They do cross, so that the polylines of the difference go around like the disc. -/
example (inf ninf : ℝ) (std : StdSort) (hash : HashOrder) : ∃ r,
    combinePolylines (codePlatform inf ninf) std hash disc5 (rect 3 (-8) 10 8) .exclude = .ok r ∧
    ∀ q ∈ r.remaining, SimpleCurve q ∧ SameTurn disc5 q := by
  have hr : SimpleCurve (rect 3 (-8) 10 8) := by
    refine simplePolygon_curve (rect_simple (by norm_num) (by norm_num)) fun i v1 v2 h hn => ?_
    rcases rect_seg h with ⟨-, rfl, rfl⟩ | ⟨-, rfl, rfl⟩ | ⟨-, rfl, rfl⟩ | ⟨-, rfl, rfl⟩ <;> norm_num [Near] at hn
  obtain ⟨r, h1, h2, -⟩ := C73_combinePolylines inf ninf (std := std) (hash := hash) disc5_simple hr disc5_clean
    disc5_apart (disc5_indexable inf ninf) (by simp [disc5, rect]) .exclude
  have o1 : OnPline disc5 ⟨3, 4⟩ := ⟨1, _, _, rfl, (half_on (Or.inl ⟨rfl, rfl⟩)).2 ⟨by norm_num, by norm_num⟩⟩
  have o2 : OnPline (rect 3 (-8) 10 8) ⟨3, 4⟩ := ⟨3, _, _, rfl, edge3_on.1⟩
  refine ⟨r, h1, fun q hq => ⟨(h2 q (by simp [hq])).1, ?_⟩⟩
  exact ((C73_directions inf ninf disc5_simple hr disc5_clean (disc5_indexable inf ninf) (by simp [disc5, rect])
    h1 o1 o2).1 (by simp)).1 q hq

end
end Cavc

import Verif.Proofs.MeetNatural
import Verif.Props.SimplePolygon

/-!
C67 and C68: the polygons that a boolean operation on polygons that do not meet themselves returns.
-/
namespace Cavc
open Spec
open scoped Classical
open MeasureTheory
noncomputable section

theorem simplePolygon_of {p : Polyline} (hc : p.isClosed = true) (hl : ∀ v ∈ p.vertexes, IsLine v)
    (hs : SimpleP (ppos p) p.size) : SimplePolygon p := by
  refine ⟨hc, hl, hs.two, ?_, ?_⟩
  · intro i v1 v2 h
    obtain ⟨-, -, -, -, e1, e2⟩ := ppos_seg hc h
    rw [← e1, ← e2]
    exact hs.ne i
  · intro i j v1 v2 u1 u2 x h1 h2 hne o1 o2
    obtain ⟨a1, -, a2, a3, e1, e2⟩ := ppos_seg hc h1
    obtain ⟨b1, -, b2, b3, f1, f2⟩ := ppos_seg hc h2
    have l1 : IsLine v1 := hl _ (by rw [a2]; exact vtx_mem a1)
    have l2 : IsLine u1 := hl _ (by rw [b2]; exact vtx_mem b1)
    have hmod : ∀ k, ppos p (k % p.size) = ppos p k := by
      intro k; unfold ppos; rw [Nat.mod_mod]
    rcases hs.apart i j x a1 b1 hne (by rw [e1, e2]; exact (onSeg_line l1).1 o1) (by rw [f1, f2]; exact (onSeg_line l2).1 o2) with
      ⟨q1, q2⟩ | ⟨q1, q2⟩
    · refine Or.inl ⟨q1, ?_⟩
      rw [q2, q1, hmod, e2]
    · refine Or.inr ⟨q1, ?_⟩
      rw [q2, q1, hmod, f2]

/-- What `combinePolylines` does with polygons in general position. -/
theorem combine_cases {inf ninf : ℝ} {std : StdSort} {hash : HashOrder} {A B : Polyline}
    (pA : Polygon A) (pB : Polygon B) (hg : GeneralPosition A B) (hA2 : 2 ≤ A.size) (hB2 : 2 ≤ B.size)
    (hi : Indexable (codePlatform inf ninf) A) (hn : A.vertexes.length * B.vertexes.length ≤ 10 ^ 6)
    {mode : CombineMode} {r : CombineResult} (hr : combinePolylines (codePlatform inf ninf) std hash A B mode = .ok r) :
    ((∀ k t, 0 ≤ t → t ≤ 1 → ∀ i < B.size, ¬ OnLine (ppos B i) (ppos B (i + 1)) (lerp (ppos A k) (ppos A (k + 1)) t)) ∧
      (∀ k t, 0 ≤ t → t ≤ 1 → ∀ i < A.size, ¬ OnLine (ppos A i) (ppos A (i + 1)) (lerp (ppos B k) (ppos B (k + 1)) t)) ∧
      r = apartResult A B (wnum B (ppos A 0) ≠ 0) (wnum A (ppos B 0) ≠ 0) mode) ∨
    ∃ intrs res, intrs.Nodup ∧ (∀ y, y ∈ intrs ↔ CrossAt A B y) ∧ intrs ≠ [] ∧
      List.Forall₂ (PartResult A B intrs ⟨[], [], [], []⟩) (partsOf mode) res ∧ r = metResult A mode res.flatten := by
  have hAne : A.vertexes ≠ [] := by
    rintro h
    have : A.vertexes.length = A.size := rfl
    rw [h] at this
    simp at this; omega
  have hBne : B.vertexes ≠ [] := by
    rintro h
    have : B.vertexes.length = B.size := rfl
    rw [h] at this
    simp at this; omega
  obtain ⟨a, ha⟩ : ∃ a, A.vertexes.head? = some a := ⟨_, List.head?_eq_some_head hAne⟩
  obtain ⟨b, hb⟩ : ∃ b, B.vertexes.head? = some b := ⟨_, List.head?_eq_some_head hBne⟩
  obtain ⟨s, found, ov, sorted, f1, f2, f3, -, hapart, hmeet⟩ :=
    C57_combinePolylines inf ninf hi pA.ok pB.ok pA.closed pB.closed ha hb hn hr
  obtain ⟨s', found', g1, g2, g3, hnd, hmem⟩ := found_general pA pB hg hi
  rw [f1] at g1
  cases g1
  rw [f2] at g2
  cases g2
  rw [g3] at f3
  have hov : ov = ⟨[], [], [], []⟩ := by
    unfold sortAndjoinCoincidentSlices at f3
    rw [if_pos (by simp)] at f3
    cases f3; rfl
  subst hov
  by_cases hne : found.intersects = []
  · left
    rw [hne] at hmem
    refine ⟨?_, ?_, ?_⟩
    · rintro k t t0 t1 i hi ⟨u, u0, u1, hu⟩
      obtain ⟨y, hy, -⟩ := common_crossing pA pB hg hmem k hA2 hi hB2 t0 t1 u0 u1 hu
      simp at hy
    · rintro k t t0 t1 i hi ⟨u, u0, u1, hu⟩
      obtain ⟨y, hy, -⟩ := common_crossing pB pA (general_symm hg) (mem_swap hmem) k hB2 hi hA2 t0 t1 u0 u1 hu
      simp at hy
    · have first : ∀ {p : Polyline} {a : Vertex}, p.vertexes.head? = some a → a.pos = ppos p 0 := by
        intro p a h
        unfold ppos vtx
        rw [Nat.zero_mod]
        cases hv : p.vertexes with
        | nil => rw [hv] at h; simp at h
        | cons v vs => rw [hv] at h; simp at h; simp [h]
      have hr' := hapart (by simp [hne])
      rw [first ha, first hb] at hr'
      have e1 : WindsAround B (ppos A 0) = (wnum B (ppos A 0) ≠ 0) :=
        propext (windsAround_wnum pB.closed pB.lines hB2)
      have e2 : WindsAround A (ppos B 0) = (wnum A (ppos B 0) ≠ 0) :=
        propext (windsAround_wnum pA.closed pA.lines hA2)
      rw [e1, e2] at hr'
      exact hr'
  · right
    obtain ⟨res, hres, hr'⟩ := hmeet (by
      rintro ⟨y, z, h, -⟩
      simp at h) (Or.inl hne)
    exact ⟨_, _, hnd, hmem, hne, hres, hr'⟩

/-! ### One part of an operation on polygons that cross -/

/-- What a part winds around a point. -/
theorem part_total {sA sB wA wB T : ℤ} (hsA : sA = 1 ∨ sA = -1) (hsB : sB = 1 ∨ sB = -1)
    (h1 : wA = 0 ∨ wA = sA) (h2 : wB = 0 ∨ wB = sB) {part : Part} (hp : part.opposite = (part.insideA != part.insideB))
    (h : ∃ P Q : ℤ, P + Q = wA * wB ∧
      T = (if part.insideB = true then sB * P else wA - sB * P) +
        (if part.opposite = true then -1 else 1) * (sA * sB) *
        (if part.insideA = true then sA * Q else wB - sA * Q)) :
    (part.insideA = false ∧ part.insideB = false → T = if wA ≠ 0 ∨ wB ≠ 0 then sA else 0) ∧
    (part.insideA = true ∨ part.insideB = true → T = if (wA ≠ 0 ↔ part.insideA = true) ∧ (wB ≠ 0 ↔ part.insideB = true) then
      (if part.insideA = true then sA else -sA) else 0) := by
  obtain ⟨P, Q, hPQ, hT⟩ := h
  obtain rfl : Q = wA * wB - P := by linarith
  obtain ⟨iB, iA, op⟩ := part
  simp only at hp hT ⊢
  subst hp
  cases iA <;> cases iB <;> simp only [Bool.false_eq_true, if_false, if_true, bne_self_eq_false, bne_iff_ne, ne_eq,
      Bool.true_eq_false, not_false_eq_true, not_true] at hT <;>
    rcases hsA with rfl | rfl <;> rcases hsB with rfl | rfl <;> rcases h1 with rfl | rfl <;> rcases h2 with rfl | rfl <;>
    ring_nf at hT <;> rw [hT] <;> simp

/-- The polygons of one part. -/
structure PartPolygons (A B : Polyline) (sA : ℤ) (part : Part) (res : List Polyline) : Prop where
  simple : ∀ q ∈ res, SimplePolygon q
  on : ∀ q ∈ res, ∀ x, OnPline q x → OnPline A x ∨ OnPline B x
  apart : res.Pairwise fun q q' => ∀ z, ¬ (OnPline q z ∧ OnPline q' z)
  parts : part.insideA = true ∨ part.insideB = true →
    (∀ q ∈ res, 0 < (if part.insideA = true then sA else -sA : ℤ) * shoelace (ppos q) q.size) ∧
    ∀ x, ¬ OnPline A x → ¬ OnPline B x →
      (res.filter fun q => Inside q x).length =
        if (Inside A x ↔ part.insideA = true) ∧ (Inside B x ↔ part.insideB = true) then 1 else 0
  union : part.insideA = false ∧ part.insideB = false →
    ∃ l1 o l2, res = l1 ++ o :: l2 ∧ 0 < sA * shoelace (ppos o) o.size ∧ (∀ q ∈ l1 ++ l2, sA * shoelace (ppos q) q.size < 0) ∧
    ∀ x, ¬ OnPline A x → ¬ OnPline B x →
      ((Inside A x ∨ Inside B x) ↔ Inside o x ∧ ∀ q ∈ l1 ++ l2, ¬ Inside q x) ∧
      ((l1 ++ l2).filter fun q => Inside q x).length ≤ 1 ∧ ∀ q ∈ l1 ++ l2, Inside q x → Inside o x

theorem part_polygons {A B : Polyline} {intrs : List PlineIntersect} (pA : Polygon A) (pB : Polygon B)
    (ssA : SimplePolygon A) (ssB : SimplePolygon B) (hg : GeneralPosition A B) (hnd : intrs.Nodup)
    (hmem : ∀ y, y ∈ intrs ↔ CrossAt A B y) (hne : intrs ≠ [])
    {sA sB : ℤ} (gA : GoesOnce A sA) (gB : GoesOnce B sB) {part : Part}
    (hpart : part.opposite = (part.insideA != part.insideB))
    {res : List Polyline} (h : PartResult A B intrs ⟨[], [], [], []⟩ part res) : PartPolygons A B sA part res := by
  have hturn := sameTurn_once pA.closed pB.closed gA gB
  obtain ⟨c, d, flip, kA, kB, kB', hs⟩ := meet_setup pA pB hg hnd hmem hne gA.1 gB.1 (fun _ h => gA.2.2 _ h)
    (fun _ h => gB.2.2 _ h) hturn hpart h
  have hsA := ssA.simpleP
  have hsB := ssB.simpleP
  have hX : ∀ z ∈ intrs.map PlineIntersect.pos, ¬ OffP (ppos A) A.size z ∧ ¬ OffP (ppos B) B.size z := by
    intro z hz
    obtain ⟨y, hy, rfl⟩ := List.mem_map.1 hz
    exact crossAt_on pA pB ((hmem y).1 hy)
  obtain ⟨hsim, hdis⟩ := hs.simple hsA hsB
  have hsp : ∀ q ∈ res, SimplePolygon q := fun q hq => simplePolygon_of (hs.shape q hq).1 (hs.shape q hq).2.1 (hsim q hq)
  have hon : ∀ q ∈ res, ∀ x, OnPline q x → OnPline A x ∨ OnPline B x := by
    intro q hq x hx
    by_contra hn
    push Not at hn
    have hnq : ¬ OffP (ppos q) q.size x := fun ho => (simple_off (hsp q hq)).2 ho hx
    rcases (hs.state hsA hsB hX hq hnq).2.2 with g | g
    · exact g ((simple_off ssA).1 hn.1)
    · exact g ((simple_off ssB).1 hn.2)
  have wA : ∀ {x}, ¬ OnPline A x → (Inside A x ↔ polyW (ppos A) A.size x ≠ 0) := fun hx =>
    inside_wnum ssA.closed ssA.lines ssA.two' hx
  have wB : ∀ {x}, ¬ OnPline B x → (Inside B x ↔ polyW (ppos B) B.size x ≠ 0) := fun hx =>
    inside_wnum ssB.closed ssB.lines ssB.two' hx
  have wq : ∀ q ∈ res, ∀ {x}, ¬ OnPline A x → ¬ OnPline B x → (Inside q x ↔ polyW (ppos q) q.size x ≠ 0) := by
    intro q hq x hA hB
    refine inside_wnum (hsp q hq).closed (hsp q hq).lines (hsp q hq).two' fun hx => ?_
    rcases hon q hq x hx with g | g
    · exact hA g
    · exact hB g
  have hfil : ∀ (l : List Polyline), (∀ q ∈ l, q ∈ res) → ∀ {x}, ¬ OnPline A x → ¬ OnPline B x →
      (l.filter fun q => Inside q x) = l.filter fun q => polyW (ppos q) q.size x ≠ 0 := by
    intro l hl x hA hB
    apply List.filter_congr
    intro q hq
    exact decide_eq_decide.2 (wq q (hl q hq) hA hB)
  have htot : ∀ x, ¬ OnPline A x → ¬ OnPline B x → _ := fun x hA hB =>
    part_total gA.1 gB.1 (gA.2.2 _ hA _ ((winding_wnum ssA.closed ssA.lines ssA.two' hA).2 rfl))
      (gB.2.2 _ hB _ ((winding_wnum ssB.closed ssB.lines ssB.two' hB).2 rfl)) hpart
      (meet_part pA pB hg hnd hmem hne gA.1 gB.1 (fun _ h => gA.2.2 _ h) (fun _ h => gB.2.2 _ h) hturn hpart h hA hB).2
  refine ⟨hsp, hon, ?_, ?_, ?_⟩
  · refine List.Pairwise.imp_of_mem ?_ hdis
    intro q q' hq hq' g z hz
    rcases g z with g | g
    · exact (simple_off (hsp q hq)).2 g hz.1
    · exact (simple_off (hsp q' hq')).2 g hz.2
  · intro hp
    obtain ⟨g1, g2⟩ := hs.parts hsA hsB hX (δ := if part.insideA = true then sA else -sA)
      (by rcases gA.1 with rfl | rfl <;> split_ifs <;> simp) hp
      (fun x xA xB => (htot x ((simple_off ssA).2 xA) ((simple_off ssB).2 xB)).2 hp)
    refine ⟨g1, fun x hA hB => ?_⟩
    rw [hfil res (fun q hq => hq) hA hB, g2 x ((simple_off ssA).1 hA) ((simple_off ssB).1 hB)]
    simp only [wA hA, wB hB]
  · intro hp
    obtain ⟨l1, o, l2, hres, g1, g2, g3⟩ := hs.union hsA hsB hX gA.1 hp
      (fun x xA xB => (htot x ((simple_off ssA).2 xA) ((simple_off ssB).2 xB)).1 hp)
    refine ⟨l1, o, l2, hres, g1, g2, fun x hA hB => ?_⟩
    obtain ⟨f1, f2, f3⟩ := g3 x ((simple_off ssA).1 hA) ((simple_off ssB).1 hB)
    have hl : ∀ q ∈ l1 ++ l2, q ∈ res := by
      intro q hq
      rw [hres]
      rcases List.mem_append.1 hq with g | g <;> simp [g]
    have ho : o ∈ res := by rw [hres]; simp
    refine ⟨?_, ?_, ?_⟩
    · rw [wA hA, wB hB, wq o ho hA hB, f1]
      refine and_congr_right fun _ => forall₂_congr fun q hq => ?_
      rw [wq q (hl q hq) hA hB, not_not]
    · rw [hfil _ hl hA hB]
      exact f2
    · intro q hq hi
      rw [wq o ho hA hB]
      exact f3 q hq ((wq q (hl q hq) hA hB).1 hi)

theorem pairwise_of_filter {α : Type} {p : α → Prop} : ∀ {l : List α}, (l.filter fun q => p q).length ≤ 1 →
    l.Pairwise fun a b => ¬ (p a ∧ p b)
  | [], _ => .nil
  | a :: l, h => by
    by_cases ha : p a
    · rw [List.filter_cons, if_pos (by simpa using ha), List.length_cons] at h
      have h0 : (l.filter fun q => p q) = [] := List.length_eq_zero_iff.1 (by omega)
      rw [List.filter_eq_nil_iff] at h0
      have h0' : ∀ b ∈ l, ¬ p b := fun b hb => by simpa using h0 b hb
      exact .cons (fun b hb g => h0' b hb g.2) (List.Pairwise.imp_of_mem (fun {b _} hb _ _ g => h0' b hb g.1)
        (List.pairwise_of_forall (R := fun _ _ => True) fun _ _ => trivial))
    · rw [List.filter_cons, if_neg (by simpa using ha)] at h
      exact .cons (fun b _ g => ha g.1) (pairwise_of_filter h)

theorem exists_of_filter {α : Type} {p : α → Prop} {l : List α} (n : ℕ) (h : (l.filter fun q => p q).length = n) :
    (∃ q ∈ l, p q) ↔ n ≠ 0 := by
  rw [← h, ← Nat.pos_iff_ne_zero, List.length_pos_iff_exists_mem]
  simp

theorem sameTurn_simple {A q : Polyline} (ssA : SimplePolygon A) (ssq : SimplePolygon q) {sA : ℤ} (gA : GoesOnce A sA) :
    SameTurn A q ↔ 0 < sA * shoelace (ppos q) q.size := by
  obtain ⟨a, ha, ha'⟩ := goesOnce_area ssA.closed gA
  have hne : shoelace (ppos q) q.size ≠ 0 := by
    obtain ⟨s, -, hpos, -⟩ := ssq.simpleP.once
    intro h0
    rw [h0, mul_zero] at hpos
    exact lt_irrefl _ hpos
  have : SameTurn A q ↔ (a < 0 ↔ shoelace (ppos q) q.size / 2 < 0) := by
    unfold SameTurn
    rw [ha, simple_area ssq]
    constructor
    · rintro ⟨a', b', h1, h2, h3⟩; cases h1; cases h2; exact h3
    · intro h; exact ⟨_, _, rfl, rfl, h⟩
  rw [this, ha']
  rcases gA.1 with rfl | rfl
  · norm_num
    constructor
    · intro h; exact lt_of_le_of_ne (by linarith) (Ne.symm hne)
    · intro h; linarith
  · norm_num
    constructor
    · intro h; linarith
    · intro h; linarith

/-- C68. For every choice of `std::sort` and of the hash table, every mode, and all closed polygons A and
B in general position that do not meet themselves, `combinePolylines` returns polygons such that
- none of them meets itself, and their points are all on A or on B;
- a point that is not on A or B is in the union, intersection, difference or symmetric difference if
  and only if it is inside of a remaining polygon and not inside of any subtracted one;
- nothing is counted twice: no such point is inside of two remaining polygons, or of two subtracted
  ones, and if it is inside of a subtracted one it is inside of a remaining one;
- except for the symmetric difference, no two of the polygons have a point in common. -/
theorem C68_combinePolylines (inf ninf : ℝ) {std : StdSort} {hash : HashOrder} {A B : Polyline}
    (ssA : SimplePolygon A) (ssB : SimplePolygon B) (pA : Polygon A) (pB : Polygon B) (hg : GeneralPosition A B)
    (hi : Indexable (codePlatform inf ninf) A) (hn : A.vertexes.length * B.vertexes.length ≤ 10 ^ 6)
    (mode : CombineMode) :
    ∃ r, combinePolylines (codePlatform inf ninf) std hash A B mode = .ok r ∧
      (∀ q ∈ r.remaining ++ r.subtracted, SimplePolygon q ∧ ∀ x, OnPline q x → OnPline A x ∨ OnPline B x) ∧
      (∀ x, ¬ OnPline A x → ¬ OnPline B x →
        (InResult r x ↔ boolOp mode (Inside A x) (Inside B x)) ∧
        r.remaining.Pairwise (fun q q' => ¬ (Inside q x ∧ Inside q' x)) ∧
        r.subtracted.Pairwise (fun q q' => ¬ (Inside q x ∧ Inside q' x)) ∧
        ∀ q ∈ r.subtracted, Inside q x → ∃ p ∈ r.remaining, Inside p x) ∧
      (mode ≠ .xor → (r.remaining ++ r.subtracted).Pairwise fun q q' => ∀ z, ¬ (OnPline q z ∧ OnPline q' z)) := by
  obtain ⟨sA, gA⟩ := C60_goes_once ssA
  obtain ⟨sB, gB⟩ := C60_goes_once ssB
  obtain ⟨r, hr, -⟩ := C58_combinePolylines inf ninf (std := std) (hash := hash) pA pB hg gA gB hi hn mode
  refine ⟨r, hr, ?_⟩
  rcases combine_cases pA pB hg ssA.two' ssB.two' hi hn hr with ⟨hAB, hBA, rfl⟩ | ⟨intrs, res, hnd, hmem, hne, hres, rfl⟩
  · -- the polygons do not cross
    have hmq : ∀ q ∈ (apartResult A B (wnum B (ppos A 0) ≠ 0) (wnum A (ppos B 0) ≠ 0) mode).remaining ++
        (apartResult A B (wnum B (ppos A 0) ≠ 0) (wnum A (ppos B 0) ≠ 0) mode).subtracted, q = A ∨ q = B := by
      intro q hq
      cases mode <;> simp only [apartResult] at hq <;> split_ifs at hq <;> simp at hq <;> tauto
    have hdis : ∀ z, ¬ (OnPline A z ∧ OnPline B z) := by
      rintro z ⟨h1, h2⟩
      obtain ⟨-, k, hk, t, t0, t1, rfl⟩ := (polygon_onPline ssA.closed ssA.lines).1 h1
      obtain ⟨-, i, hi, ho⟩ := (polygon_onPline ssB.closed ssB.lines).1 h2
      exact hAB k t t0 t1 i hi ho
    have hdis' : ∀ z, ¬ (OnPline B z ∧ OnPline A z) := fun z h => hdis z ⟨h.2, h.1⟩
    refine ⟨?_, ?_, ?_⟩
    · intro q hq
      rcases hmq q hq with rfl | rfl
      · exact ⟨ssA, fun x hx => Or.inl hx⟩
      · exact ⟨ssB, fun x hx => Or.inr hx⟩
    · intro x hxA hxB
      have hmul := apart_mul hAB hBA ((simple_off ssA).1 hxA) ((simple_off ssB).1 hxB)
      have offa : ¬ OnPline B (ppos A 0) := by
        rw [polygon_onPline pB.closed pB.lines]
        rintro ⟨-, i, hi, ho⟩
        have := hAB 0 0 le_rfl zero_le_one i hi
        rw [lerp_zero] at this
        exact this ho
      have offb : ¬ OnPline A (ppos B 0) := by
        rw [polygon_onPline pA.closed pA.lines]
        rintro ⟨-, i, hi, ho⟩
        have := hBA 0 0 le_rfl zero_le_one i hi
        rw [lerp_zero] at this
        exact this ho
      have wA : ∀ {x}, ¬ OnPline A x → wnum A x = 0 ∨ wnum A x = sA := fun hx =>
        gA.2.2 _ hx _ ((winding_wnum pA.closed pA.lines ssA.two' hx).2 rfl)
      have wB : ∀ {x}, ¬ OnPline B x → wnum B x = 0 ∨ wnum B x = sB := fun hx =>
        gB.2.2 _ hx _ ((winding_wnum pB.closed pB.lines ssB.two' hx).2 rfl)
      have eA := inside_wnum pA.closed pA.lines ssA.two' hxA
      have eB := inside_wnum pB.closed pB.lines ssB.two' hxB
      have h1 := wA hxA
      have h2 := wB hxB
      have ha := wB offa
      have hb := wA offb
      generalize wnum B (ppos A 0) = a at hmul ha ⊢
      generalize wnum A (ppos B 0) = b at hmul hb ⊢
      generalize wnum A x = u at hmul h1 eA
      generalize wnum B x = v at hmul h2 eB
      unfold InResult
      have hsA := gA.1
      have hsB := gB.1
      clear gA gB hr hmq
      rcases hsA with rfl | rfl <;> rcases hsB with rfl | rfl <;> rcases ha with rfl | rfl <;> rcases hb with rfl | rfl <;>
        rcases h1 with rfl | rfl <;> rcases h2 with rfl | rfl <;>
        first
        | (exfalso; revert hmul; norm_num; done)
        | (cases mode <;> simp [apartResult, boolOp, eA, eB])
    · intro _
      cases mode <;> simp only [apartResult] <;> split_ifs <;>
        first | (simp; done) | simpa using hdis | simpa using hdis'
  · -- the polygons cross
    have hpp : ∀ {parts : List Part} {res : List (List Polyline)}, (∀ p ∈ parts, p ∈ partsOf mode) →
        List.Forall₂ (PartResult A B intrs ⟨[], [], [], []⟩) parts res →
        List.Forall₂ (PartPolygons A B sA) parts res := by
      intro parts res hm h
      induction h with
      | nil => exact .nil
      | cons h1 _ ih =>
        exact .cons (part_polygons pA pB ssA ssB hg hnd hmem hne gA gB (partsOf_opposite (hm _ (by simp))) h1)
          (ih fun p hp => hm p (List.mem_cons_of_mem _ hp))
    have hP := hpp (fun p hp => hp) hres
    clear hpp hres
    cases mode with
    | union =>
      unfold partsOf at hP
      obtain ⟨l, ls, h1, h2, rfl⟩ := List.forall₂_cons_left_iff.1 hP
      cases h2
      obtain ⟨l1, o, l2, hl, ho, hh, hx⟩ := h1.union ⟨rfl, rfl⟩
      have hfl : [l].flatten = l := by simp
      rw [hfl]
      have hot : SameTurn A o := (sameTurn_simple ssA (h1.simple o (by rw [hl]; simp)) gA).2 ho
      have hht : ∀ q ∈ l1 ++ l2, ¬ SameTurn A q := by
        intro q hq hs
        have := (sameTurn_simple ssA (h1.simple q (by rw [hl]; rcases List.mem_append.1 hq with g | g <;> simp [g])) gA).1 hs
        linarith [hh q hq]
      have hn1 : ∀ q ∈ l1, ¬ SameTurn A q := fun q hq => hht q (by simp [hq])
      have hn2 : ∀ q ∈ l2, ¬ SameTurn A q := fun q hq => hht q (by simp [hq])
      have erem : (metResult A .union l).remaining = [o] := by
        simp only [metResult, hl, List.filter_append, List.filter_cons]
        rw [List.filter_eq_nil_iff.2 (fun q hq => by simpa using hn1 q hq),
          List.filter_eq_nil_iff.2 (fun q hq => by simpa using hn2 q hq), if_pos (by simpa using hot)]
        rfl
      have esub : (metResult A .union l).subtracted = l1 ++ l2 := by
        simp only [metResult, hl, List.filter_append, List.filter_cons]
        rw [List.filter_eq_self.2 (fun q hq => by simpa using hn1 q hq),
          List.filter_eq_self.2 (fun q hq => by simpa using hn2 q hq), if_neg (by simpa using hot)]
      unfold InResult
      rw [erem, esub]
      have hperm : ([o] ++ (l1 ++ l2)).Perm l := by
        rw [hl]
        exact (List.perm_middle (a := o) (l₁ := l1) (l₂ := l2)).symm
      refine ⟨fun q hq => ?_, fun x hA hB => ?_, fun _ => ?_⟩
      · have := hperm.mem_iff.1 hq
        exact ⟨h1.simple q this, h1.on q this⟩
      · obtain ⟨f1, f2, f3⟩ := hx x hA hB
        refine ⟨?_, List.pairwise_singleton _ _, pairwise_of_filter f2, fun q hq hi => ⟨o, by simp, f3 q hq hi⟩⟩
        simp only [List.mem_singleton, exists_eq_left]
        exact f1.symm
      · exact (hperm.pairwise_iff (fun g z hz => g z ⟨hz.2, hz.1⟩)).2 h1.apart
    | exclude =>
      unfold partsOf at hP
      obtain ⟨l, ls, h1, h2, rfl⟩ := List.forall₂_cons_left_iff.1 hP
      cases h2
      obtain ⟨-, hx⟩ := h1.parts (Or.inl rfl)
      have hfl : [l].flatten = l := by simp
      rw [hfl]
      simp only [metResult, List.append_nil, InResult]
      refine ⟨fun q hq => ⟨h1.simple q hq, h1.on q hq⟩, fun x hA hB => ?_, fun _ => h1.apart⟩
      have e := hx x hA hB
      refine ⟨?_, pairwise_of_filter (by rw [e]; split_ifs <;> simp), .nil, by simp⟩
      rw [exists_of_filter _ e]
      simp [boolOp]
    | intersect =>
      unfold partsOf at hP
      obtain ⟨l, ls, h1, h2, rfl⟩ := List.forall₂_cons_left_iff.1 hP
      cases h2
      obtain ⟨-, hx⟩ := h1.parts (Or.inl rfl)
      have hfl : [l].flatten = l := by simp
      rw [hfl]
      simp only [metResult, List.append_nil, InResult]
      refine ⟨fun q hq => ⟨h1.simple q hq, h1.on q hq⟩, fun x hA hB => ?_, fun _ => h1.apart⟩
      have e := hx x hA hB
      refine ⟨?_, pairwise_of_filter (by rw [e]; split_ifs <;> simp), .nil, by simp⟩
      rw [exists_of_filter _ e]
      simp [boolOp]
    | xor =>
      unfold partsOf at hP
      obtain ⟨l, ls, h1, h2, rfl⟩ := List.forall₂_cons_left_iff.1 hP
      obtain ⟨l', ls', h1', h2', rfl⟩ := List.forall₂_cons_left_iff.1 h2
      cases h2'
      obtain ⟨-, hx⟩ := h1.parts (Or.inl rfl)
      obtain ⟨-, hx'⟩ := h1'.parts (Or.inr rfl)
      have hfl : [l, l'].flatten = l ++ l' := by simp
      rw [hfl]
      simp only [metResult, List.append_nil, InResult]
      refine ⟨fun q hq => ?_, fun x hA hB => ?_, fun hn => absurd rfl hn⟩
      · rcases List.mem_append.1 hq with hq | hq
        · exact ⟨h1.simple q hq, h1.on q hq⟩
        · exact ⟨h1'.simple q hq, h1'.on q hq⟩
      have e := hx x hA hB
      have e' := hx' x hA hB
      simp only at e e'
      have et : ((l ++ l').filter fun q => Inside q x).length = if ¬ (Inside A x ↔ Inside B x) then 1 else 0 := by
        rw [List.filter_append, List.length_append, e, e']
        by_cases hA : Inside A x <;> by_cases hB : Inside B x <;> simp [hA, hB]
      refine ⟨?_, pairwise_of_filter (by rw [et]; split_ifs <;> simp), .nil, by simp⟩
      rw [exists_of_filter _ et]
      simp only [boolOp]
      by_cases hA : Inside A x <;> by_cases hB : Inside B x <;> simp [hA, hB]

/-- C68. The directions of the polygons, if A and B cross: the remaining ones go around like A, and the
subtracted ones in the other direction. For the symmetric difference the ones in A go around like A and
the ones in B in the other direction. -/
theorem C68_directions (inf ninf : ℝ) {std : StdSort} {hash : HashOrder} {A B : Polyline}
    (ssA : SimplePolygon A) (ssB : SimplePolygon B) (pA : Polygon A) (pB : Polygon B) (hg : GeneralPosition A B)
    (hi : Indexable (codePlatform inf ninf) A) (hn : A.vertexes.length * B.vertexes.length ≤ 10 ^ 6)
    {mode : CombineMode} {r : CombineResult} (hr : combinePolylines (codePlatform inf ninf) std hash A B mode = .ok r)
    {z : V2} (hzA : OnPline A z) (hzB : OnPline B z) :
    (mode ≠ .xor → (∀ q ∈ r.remaining, SameTurn A q) ∧ ∀ q ∈ r.subtracted, ¬ SameTurn A q) ∧
    (mode = .xor → ∀ q ∈ r.remaining, ∀ x, ¬ OnPline A x → ¬ OnPline B x → Inside q x → (SameTurn A q ↔ Inside A x)) := by
  obtain ⟨sA, gA⟩ := C60_goes_once ssA
  obtain ⟨sB, gB⟩ := C60_goes_once ssB
  rcases combine_cases pA pB hg ssA.two' ssB.two' hi hn hr with ⟨hAB, -⟩ | ⟨intrs, res, hnd, hmem, hne, hres, rfl⟩
  · exfalso
    obtain ⟨-, k, hk, t, t0, t1, rfl⟩ := (polygon_onPline ssA.closed ssA.lines).1 hzA
    obtain ⟨-, i, hi, ho⟩ := (polygon_onPline ssB.closed ssB.lines).1 hzB
    exact hAB k t t0 t1 i hi ho
  · have hpp := fun part hp res h => part_polygons pA pB ssA ssB hg hnd hmem hne gA gB (part := part) (res := res)
      (partsOf_opposite (mode := mode) hp) h
    cases mode with
    | union =>
      refine ⟨fun _ => ⟨fun q hq => ?_, fun q hq => ?_⟩, fun h => by cases h⟩
      · simpa using (List.mem_filter.1 hq).2
      · simpa using (List.mem_filter.1 hq).2
    | exclude =>
      refine ⟨fun _ => ⟨fun q hq => ?_, fun q hq => by simp [metResult] at hq⟩, fun h => by cases h⟩
      unfold partsOf at hres
      obtain ⟨l, ls, h1, h2, rfl⟩ := List.forall₂_cons_left_iff.1 hres
      cases h2
      have h1 := hpp _ (by simp [partsOf]) _ h1
      simp only [metResult, List.flatten_cons, List.flatten_nil, List.append_nil] at hq
      exact (sameTurn_simple ssA (h1.simple q hq) gA).2 ((h1.parts (Or.inl rfl)).1 q hq)
    | intersect =>
      refine ⟨fun _ => ⟨fun q hq => ?_, fun q hq => by simp [metResult] at hq⟩, fun h => by cases h⟩
      unfold partsOf at hres
      obtain ⟨l, ls, h1, h2, rfl⟩ := List.forall₂_cons_left_iff.1 hres
      cases h2
      have h1 := hpp _ (by simp [partsOf]) _ h1
      simp only [metResult, List.flatten_cons, List.flatten_nil, List.append_nil] at hq
      exact (sameTurn_simple ssA (h1.simple q hq) gA).2 ((h1.parts (Or.inl rfl)).1 q hq)
    | xor =>
      refine ⟨fun h => absurd rfl h, fun _ q hq x hA hB hin => ?_⟩
      unfold partsOf at hres
      obtain ⟨l, ls, h1, h2, rfl⟩ := List.forall₂_cons_left_iff.1 hres
      obtain ⟨l', ls', h1', h2', rfl⟩ := List.forall₂_cons_left_iff.1 h2
      cases h2'
      have h1 := hpp _ (by simp [partsOf]) _ h1
      have h1' := hpp _ (by simp [partsOf]) _ h1'
      simp only [metResult, List.flatten_cons, List.flatten_nil, List.append_nil] at hq
      rcases List.mem_append.1 hq with hq | hq
      · obtain ⟨a, b⟩ := h1.parts (Or.inl rfl)
        refine iff_of_true ((sameTurn_simple ssA (h1.simple q hq) gA).2 (a q hq)) ?_
        have e := (exists_of_filter _ (b x hA hB)).1 ⟨q, hq, hin⟩
        by_contra hno
        simp [hno] at e
      · obtain ⟨a, b⟩ := h1'.parts (Or.inr rfl)
        have ha := a q hq
        simp only [Bool.false_eq_true, if_false, Int.cast_neg] at ha
        refine iff_of_false (fun hs => ?_) fun hi => ?_
        · have := (sameTurn_simple ssA (h1'.simple q hq) gA).1 hs
          linarith
        · have e := (exists_of_filter _ (b x hA hB)).1 ⟨q, hq, hin⟩
          simp [hi] at e

/-! ### Areas -/

/-- What is inside a polygon. -/
def insideSet (q : Polyline) : Set (ℝ × ℝ) := {z : ℝ × ℝ | ¬ OnPline q ⟨z.1, z.2⟩ ∧ Inside q ⟨z.1, z.2⟩}

theorem onPline_measurable {q : Polyline} (h : SimplePolygon q) : MeasurableSet {z : ℝ × ℝ | ¬ OnPline q ⟨z.1, z.2⟩} := by
  have : {z : ℝ × ℝ | ¬ OnPline q ⟨z.1, z.2⟩} = {z : ℝ × ℝ | OffP (ppos q) q.size ⟨z.1, z.2⟩} := by
    ext z; exact simple_off h
  rw [this]
  exact offP_measurable _ _

theorem insideSet_measurable {q : Polyline} (h : SimplePolygon q) : MeasurableSet (insideSet q) := by
  have m2 : MeasurableSet {z : ℝ × ℝ | (polyW (ppos q) q.size ⟨z.1, z.2⟩ : ℝ) = 0} :=
    polyW_measurable _ _ (measurableSet_singleton 0)
  have : insideSet q = {z : ℝ × ℝ | ¬ OnPline q ⟨z.1, z.2⟩} ∩ {z : ℝ × ℝ | (polyW (ppos q) q.size ⟨z.1, z.2⟩ : ℝ) = 0}ᶜ := by
    ext z
    simp only [insideSet, Set.mem_ofPred_eq, Set.mem_inter_iff, Set.mem_compl_iff, Int.cast_eq_zero]
    refine and_congr_right fun hz => ?_
    exact inside_wnum h.closed h.lines h.two' hz
  rw [this]
  exact (onPline_measurable h).inter m2.compl

theorem insideSet_volume {q : Polyline} (h : SimplePolygon q) : ∃ a, getArea q = .ok a ∧
    volume (insideSet q) = ENNReal.ofReal |a| := by
  obtain ⟨s, -, ⟨a, h1, -, h2⟩, -⟩ := C60_simple h
  exact ⟨a, h1, h2⟩

theorem areas_of {l : List Polyline} (hl : ∀ q ∈ l, SimplePolygon q) : ∃ as : List ℝ,
    List.Forall₂ (fun q x => getArea q = .ok x) l as ∧
    (l.map fun q => volume (insideSet q)).sum = ENNReal.ofReal (as.map fun x => |x|).sum ∧
    0 ≤ (as.map fun x => |x|).sum := by
  induction l with
  | nil => exact ⟨[], .nil, by simp, by simp⟩
  | cons q l ih =>
    obtain ⟨as, h1, h2, h3⟩ := ih fun p hp => hl p (List.mem_cons_of_mem _ hp)
    obtain ⟨a, ha, hv⟩ := insideSet_volume (hl q (by simp))
    refine ⟨a :: as, .cons ha h1, ?_, ?_⟩
    · rw [List.map_cons, List.sum_cons, h2, hv, List.map_cons, List.sum_cons, ENNReal.ofReal_add (abs_nonneg _) h3]
    · rw [List.map_cons, List.sum_cons]
      exact add_nonneg (abs_nonneg _) h3

/-- In how many of the polygons a point is. -/
theorem lintegral_count {l : List Polyline} (hl : ∀ q ∈ l, SimplePolygon q) :
    ∫⁻ z, (l.map fun q => (insideSet q).indicator (fun _ => (1 : ENNReal)) z).sum =
      (l.map fun q => volume (insideSet q)).sum := by
  induction l with
  | nil => simp
  | cons q l ih =>
    simp only [List.map_cons, List.sum_cons]
    have hm := insideSet_measurable (hl q (by simp))
    rw [lintegral_add_left (measurable_const.indicator hm), ih fun p hp => hl p (List.mem_cons_of_mem _ hp)]
    congr 1
    rw [lintegral_indicator hm]
    simp

theorem count_filter (l : List Polyline) {z : ℝ × ℝ} (hl : ∀ q ∈ l, ¬ OnPline q ⟨z.1, z.2⟩) :
    (l.map fun q => (insideSet q).indicator (fun _ => (1 : ENNReal)) z).sum =
      ((l.filter fun q => Inside q ⟨z.1, z.2⟩).length : ENNReal) := by
  induction l with
  | nil => simp
  | cons q l ih =>
    rw [List.map_cons, List.sum_cons, ih fun p hp => hl p (List.mem_cons_of_mem _ hp), List.filter_cons, Set.indicator_apply]
    by_cases h : Inside q ⟨z.1, z.2⟩
    · rw [if_pos (show z ∈ insideSet q from ⟨hl q (by simp), h⟩), if_pos (by simpa using h), List.length_cons]
      push_cast
      ring
    · rw [if_neg (fun g : z ∈ insideSet q => h g.2), if_neg (by simpa using h), zero_add]

theorem filter_of_pairwise {α : Type} {p : α → Prop} {l : List α} (h : l.Pairwise fun a b => ¬ (p a ∧ p b)) :
    (l.filter fun q => p q).length = if ∃ q ∈ l, p q then 1 else 0 := by
  induction h with
  | nil => simp
  | @cons a l h1 _ ih =>
    rw [List.filter_cons]
    by_cases ha : p a
    · rw [if_pos (by simpa using ha), List.length_cons, ih, if_neg, if_pos ⟨a, by simp, ha⟩]
      rintro ⟨b, hb, g⟩
      exact h1 b hb ⟨ha, g⟩
    · rw [if_neg (by simpa using ha), ih]
      congr 1
      simp [ha]

theorem combined_measurable {A B : Polyline} (ssA : SimplePolygon A) (ssB : SimplePolygon B) (mode : CombineMode) :
    MeasurableSet (Combined A B mode) := by
  have mA := onPline_measurable ssA
  have mB := onPline_measurable ssB
  have iA := insideSet_measurable ssA
  have iB := insideSet_measurable ssB
  cases mode with
  | union =>
    have : Combined A B .union = ({z : ℝ × ℝ | ¬ OnPline A ⟨z.1, z.2⟩} ∩ {z : ℝ × ℝ | ¬ OnPline B ⟨z.1, z.2⟩}) ∩
        (insideSet A ∪ insideSet B) := by
      ext z
      simp only [Combined, boolOp, insideSet, Set.mem_ofPred_eq, Set.mem_inter_iff, Set.mem_union]
      tauto
    rw [this]
    exact (mA.inter mB).inter (iA.union iB)
  | intersect =>
    have : Combined A B .intersect = ({z : ℝ × ℝ | ¬ OnPline A ⟨z.1, z.2⟩} ∩ {z : ℝ × ℝ | ¬ OnPline B ⟨z.1, z.2⟩}) ∩
        (insideSet A ∩ insideSet B) := by
      ext z
      simp only [Combined, boolOp, insideSet, Set.mem_ofPred_eq, Set.mem_inter_iff]
      tauto
    rw [this]
    exact (mA.inter mB).inter (iA.inter iB)
  | exclude =>
    have : Combined A B .exclude = ({z : ℝ × ℝ | ¬ OnPline A ⟨z.1, z.2⟩} ∩ {z : ℝ × ℝ | ¬ OnPline B ⟨z.1, z.2⟩}) ∩
        (insideSet A \ insideSet B) := by
      ext z
      simp only [Combined, boolOp, insideSet, Set.mem_ofPred_eq, Set.mem_inter_iff, Set.mem_sdiff]
      tauto
    rw [this]
    exact (mA.inter mB).inter (iA.diff iB)
  | xor =>
    have : Combined A B .xor = ({z : ℝ × ℝ | ¬ OnPline A ⟨z.1, z.2⟩} ∩ {z : ℝ × ℝ | ¬ OnPline B ⟨z.1, z.2⟩}) ∩
        ((insideSet A \ insideSet B) ∪ (insideSet B \ insideSet A)) := by
      ext z
      simp only [Combined, boolOp, insideSet, Set.mem_ofPred_eq, Set.mem_inter_iff, Set.mem_union, Set.mem_sdiff]
      tauto
    rw [this]
    exact (mA.inter mB).inter ((iA.diff iB).union (iB.diff iA))

/-- C67. In the same cases the areas are right: what `getArea` gives for the remaining polygons less what
it gives for the subtracted ones, without the signs, is the measure of the union, intersection,
difference or symmetric difference. -/
theorem C67_area (inf ninf : ℝ) {std : StdSort} {hash : HashOrder} {A B : Polyline}
    (ssA : SimplePolygon A) (ssB : SimplePolygon B) (pA : Polygon A) (pB : Polygon B) (hg : GeneralPosition A B)
    (hi : Indexable (codePlatform inf ninf) A) (hn : A.vertexes.length * B.vertexes.length ≤ 10 ^ 6)
    (mode : CombineMode) :
    ∃ r a, combinePolylines (codePlatform inf ninf) std hash A B mode = .ok r ∧ AreaOf r a ∧ 0 ≤ a ∧
      volume (Combined A B mode) = ENNReal.ofReal a := by
  obtain ⟨r, hr, h1, h2, -⟩ := C68_combinePolylines inf ninf (std := std) (hash := hash) ssA ssB pA pB hg hi hn mode
  have hrem : ∀ q ∈ r.remaining, SimplePolygon q := fun q hq => (h1 q (List.mem_append_left _ hq)).1
  have hsub : ∀ q ∈ r.subtracted, SimplePolygon q := fun q hq => (h1 q (List.mem_append_right _ hq)).1
  obtain ⟨as, ha1, ha2, ha3⟩ := areas_of hrem
  obtain ⟨bs, hb1, hb2, hb3⟩ := areas_of hsub
  have hm := combined_measurable ssA ssB mode
  have hsum : volume (Combined A B mode) + (r.subtracted.map fun q => volume (insideSet q)).sum =
      (r.remaining.map fun q => volume (insideSet q)).sum := by
    rw [← lintegral_count hrem, ← lintegral_count hsub]
    have e : volume (Combined A B mode) = ∫⁻ z, (Combined A B mode).indicator (fun _ => (1 : ENNReal)) z := by
      rw [lintegral_indicator hm]
      simp
    rw [e, ← lintegral_add_left (measurable_const.indicator hm)]
    apply lintegral_congr_ae
    filter_upwards [ssA.simpleP.ae_off, ssB.simpleP.ae_off] with z zA zB
    have zA := (simple_off ssA).2 zA
    have zB := (simple_off ssB).2 zB
    have hoff : ∀ q ∈ r.remaining ++ r.subtracted, ¬ OnPline q ⟨z.1, z.2⟩ := by
      intro q hq hz
      rcases (h1 q hq).2 _ hz with g | g
      · exact zA g
      · exact zB g
    obtain ⟨f1, f2, f3, f4⟩ := h2 _ zA zB
    rw [count_filter _ fun q hq => hoff q (List.mem_append_left _ hq), count_filter _ fun q hq => hoff q (List.mem_append_right _ hq),
      filter_of_pairwise f2, filter_of_pairwise f3, Set.indicator_apply]
    have hz : z ∈ Combined A B mode ↔ InResult r ⟨z.1, z.2⟩ := by
      rw [f1]
      exact ⟨fun h => h.2.2, fun h => ⟨zA, zB, h⟩⟩
    rw [if_congr hz rfl rfl]
    unfold InResult
    by_cases c1 : ∃ q ∈ r.remaining, Inside q ⟨z.1, z.2⟩ <;> by_cases c2 : ∃ q ∈ r.subtracted, Inside q ⟨z.1, z.2⟩
    · have c3 : ¬ ∀ q ∈ r.subtracted, ¬ Inside q ⟨z.1, z.2⟩ := by push Not; exact c2
      rw [if_pos c1, if_pos c2, if_neg (fun g => c3 g.2)]
      simp
    · have c3 : ∀ q ∈ r.subtracted, ¬ Inside q ⟨z.1, z.2⟩ := by push Not at c2; exact c2
      rw [if_pos c1, if_neg c2, if_pos ⟨c1, c3⟩]
      simp
    · obtain ⟨q, hq, hi⟩ := c2
      exact absurd (f4 q hq hi) c1
    · rw [if_neg c1, if_neg c2, if_neg (fun g => c1 g.1)]
      simp
  rw [ha2, hb2] at hsum
  have hle : (bs.map fun x => |x|).sum ≤ (as.map fun x => |x|).sum := by
    rw [← ENNReal.ofReal_le_ofReal_iff ha3, ← hsum]
    exact le_add_self
  refine ⟨r, _, hr, ⟨as, bs, ha1, hb1, rfl⟩, sub_nonneg.2 hle, ?_⟩
  rw [ENNReal.ofReal_sub _ hb3, ← hsum, ENNReal.add_sub_cancel_right ENNReal.ofReal_ne_top]

/-- C67. The areas of the four operations fit together: union and intersection have the area of A and B
together, difference and intersection that of A, and symmetric difference and intersection that of the
union. -/
theorem C67_inclusion_exclusion (inf ninf : ℝ) {std : StdSort} {hash : HashOrder} {A B : Polyline}
    (ssA : SimplePolygon A) (ssB : SimplePolygon B) (pA : Polygon A) (pB : Polygon B) (hg : GeneralPosition A B)
    (hi : Indexable (codePlatform inf ninf) A) (hn : A.vertexes.length * B.vertexes.length ≤ 10 ^ 6) :
    ∃ (r : CombineMode → CombineResult) (c : CombineMode → ℝ) (a b : ℝ), getArea A = .ok a ∧ getArea B = .ok b ∧
      (∀ mode, combinePolylines (codePlatform inf ninf) std hash A B mode = .ok (r mode) ∧ AreaOf (r mode) (c mode)) ∧
      c .union + c .intersect = |a| + |b| ∧ c .exclude + c .intersect = |a| ∧ c .xor + c .intersect = c .union := by
  choose r c h1 h2 h3 h4 using C67_area inf ninf (std := std) (hash := hash) ssA ssB pA pB hg hi hn
  obtain ⟨a, ha, va⟩ := insideSet_volume ssA
  obtain ⟨b, hb, vb⟩ := insideSet_volume ssB
  have hae : ∀ mode, volume (Combined A B mode) = volume {z | boolOp mode (z ∈ insideSet A) (z ∈ insideSet B)} := by
    intro mode
    apply measure_congr
    filter_upwards [ssA.simpleP.ae_off, ssB.simpleP.ae_off] with z zA zB
    have zA := (simple_off ssA).2 zA
    have zB := (simple_off ssB).2 zB
    apply propext
    have eA : z ∈ insideSet A ↔ Inside A ⟨z.1, z.2⟩ := ⟨fun h => h.2, fun h => ⟨zA, h⟩⟩
    have eB : z ∈ insideSet B ↔ Inside B ⟨z.1, z.2⟩ := ⟨fun h => h.2, fun h => ⟨zB, h⟩⟩
    change z ∈ Combined A B mode ↔ boolOp mode (z ∈ insideSet A) (z ∈ insideSet B)
    rw [eA, eB]
    exact ⟨fun h => h.2.2, fun h => ⟨zA, zB, h⟩⟩
  have mA := insideSet_measurable ssA
  have mB := insideSet_measurable ssB
  have conv : ∀ {u v w : ℝ}, 0 ≤ u → 0 ≤ v → 0 ≤ w → ENNReal.ofReal u + ENNReal.ofReal v = ENNReal.ofReal w → u + v = w := by
    intro u v w hu hv hw h
    rw [← ENNReal.ofReal_add hu hv] at h
    exact (ENNReal.ofReal_eq_ofReal_iff (add_nonneg hu hv) hw).1 h
  have eU := (h4 .union).symm.trans (hae .union)
  have eI := (h4 .intersect).symm.trans (hae .intersect)
  have eE := (h4 .exclude).symm.trans (hae .exclude)
  have eX := (h4 .xor).symm.trans (hae .xor)
  change _ = volume (insideSet A ∪ insideSet B) at eU
  change _ = volume (insideSet A ∩ insideSet B) at eI
  change _ = volume (insideSet A \ insideSet B) at eE
  refine ⟨r, c, a, b, ha, hb, fun mode => ⟨h1 mode, h2 mode⟩, ?_, ?_, ?_⟩
  · have := measure_union_add_inter (μ := volume) (insideSet A) mB
    rw [← eU, ← eI, va, vb, ← ENNReal.ofReal_add (abs_nonneg a) (abs_nonneg b)] at this
    exact conv (h3 _) (h3 _) (add_nonneg (abs_nonneg a) (abs_nonneg b)) this
  · have := measure_sdiff_add_inter (μ := volume) (s := insideSet A) mB
    rw [← eE, ← eI, va] at this
    exact conv (h3 _) (h3 _) (abs_nonneg a) this
  · have := measure_sdiff_add_inter (μ := volume) (s := insideSet A ∪ insideSet B) (mA.inter mB)
    have e1 : (insideSet A ∪ insideSet B) \ (insideSet A ∩ insideSet B) =
        {z | boolOp .xor (z ∈ insideSet A) (z ∈ insideSet B)} := by
      ext z
      simp only [boolOp, Set.mem_sdiff, Set.mem_union, Set.mem_inter_iff, Set.mem_ofPred_eq]
      tauto
    have e2 : (insideSet A ∪ insideSet B) ∩ (insideSet A ∩ insideSet B) = insideSet A ∩ insideSet B := by
      ext z
      simp only [Set.mem_inter_iff, Set.mem_union]
      tauto
    rw [e1, e2, ← eX, ← eI, ← eU] at this
    exact conv (h3 _) (h3 _) (h3 _) this

/-- Two overlapping squares: whatever polygons come out, the one of the intersection together with the
ones of the union have area 8. -/
example (inf ninf : ℝ) (std : StdSort) (hash : HashOrder) : ∃ r r' c c',
    combinePolylines (codePlatform inf ninf) std hash (rect 0 0 2 2) (rect 1 1 3 3) .union = .ok r ∧ AreaOf r c ∧
    combinePolylines (codePlatform inf ninf) std hash (rect 0 0 2 2) (rect 1 1 3 3) .intersect = .ok r' ∧ AreaOf r' c' ∧
    c + c' = 8 := by
  obtain ⟨r, c, a, b, ha, hb, h1, h2, -⟩ := C67_inclusion_exclusion inf ninf (std := std) (hash := hash)
    (rect_simple (x0 := 0) (y0 := 0) (x1 := 2) (y1 := 2) (by norm_num) (by norm_num))
    (rect_simple (x0 := 1) (y0 := 1) (x1 := 3) (y1 := 3) (by norm_num) (by norm_num))
    (rect_polygon (by norm_num) (by norm_num)) (rect_polygon (by norm_num) (by norm_num)) rects_general
    (rect_indexable inf ninf) (by simp [rect])
  rw [rect_area] at ha hb
  refine ⟨_, _, _, _, (h1 .union).1, (h1 .union).2, (h1 .intersect).1, (h1 .intersect).2, ?_⟩
  rw [h2, ← Except.ok.inj ha, ← Except.ok.inj hb]
  norm_num

/-- The two squares do cross, so that the polygons of the union go around like the first one. -/
example (inf ninf : ℝ) (std : StdSort) (hash : HashOrder) : ∃ r,
    combinePolylines (codePlatform inf ninf) std hash (rect 0 0 2 2) (rect 1 1 3 3) .union = .ok r ∧
    (∃ q ∈ r.remaining, Inside q ⟨3 / 2, 3 / 2⟩) ∧ ∀ q ∈ r.remaining, SameTurn (rect 0 0 2 2) q := by
  have s1 := rect_simple (x0 := 0) (y0 := 0) (x1 := 2) (y1 := 2) (by norm_num) (by norm_num)
  have s2 := rect_simple (x0 := 1) (y0 := 1) (x1 := 3) (y1 := 3) (by norm_num) (by norm_num)
  have p1 := rect_polygon (x0 := 0) (y0 := 0) (x1 := 2) (y1 := 2) (by norm_num) (by norm_num)
  have p2 := rect_polygon (x0 := 1) (y0 := 1) (x1 := 3) (y1 := 3) (by norm_num) (by norm_num)
  obtain ⟨r, h1, -, h2, -⟩ := C68_combinePolylines inf ninf (std := std) (hash := hash) s1 s2 p1 p2 rects_general
    (rect_indexable inf ninf) (by simp [rect]) .union
  have hA : ¬ OnPline (rect 0 0 2 2) ⟨3 / 2, 3 / 2⟩ := by
    intro h
    have := rect_onPline (by norm_num) (by norm_num) h
    norm_num at this
  have hB : ¬ OnPline (rect 1 1 3 3) ⟨3 / 2, 3 / 2⟩ := by
    intro h
    have := rect_onPline (by norm_num) (by norm_num) h
    norm_num at this
  have iA := (rect_inside (x0 := 0) (y0 := 0) (x1 := 2) (y1 := 2) (by norm_num) (by norm_num) hA).2 (by norm_num)
  refine ⟨r, h1, ((h2 _ hA hB).1.2 (Or.inl iA)).1, ?_⟩
  have z1 : OnPline (rect 0 0 2 2) ⟨2, 1⟩ := by
    rw [polygon_onPline p1.closed p1.lines]
    refine ⟨by simp [rect, Polyline.size], 1, by simp [rect, Polyline.size], 1 / 2, by norm_num, by norm_num, ?_⟩
    ext <;> norm_num [lerp, ppos, vtx, rect, Polyline.size]
  have z2 : OnPline (rect 1 1 3 3) ⟨2, 1⟩ := by
    rw [polygon_onPline p2.closed p2.lines]
    refine ⟨by simp [rect, Polyline.size], 0, by simp [rect, Polyline.size], 1 / 2, by norm_num, by norm_num, ?_⟩
    ext <;> norm_num [lerp, ppos, vtx, rect, Polyline.size]
  exact ((C68_directions inf ninf s1 s2 p1 p2 rects_general (rect_indexable inf ninf) (by simp [rect]) h1 z1 z2).1 (by simp)).1

end
end Cavc

import Verif.Proofs.MeetSum
import Verif.Props.CombineSides
import Verif.Props.Islands

/-!
C58: the region that the result of a boolean operation on polygons in general position bounds.
-/
namespace Cavc
open Spec
open scoped Classical
noncomputable section

/-- The winding number of a polygon, by its edges. -/
def wnum (p : Polyline) (x : V2) : ℤ := edgesW (polyEdges (ppos p) p.size) x

theorem winding_wnum {p : Polyline} (hc : p.isClosed = true) (hl : ∀ v ∈ p.vertexes, IsLine v) (h2 : 2 ≤ p.size)
    {x : V2} (hoff : ¬ OnPline p x) {k : ℤ} : Winding p x k ↔ k = wnum p x := by
  rw [winding_iff (lines_ok hl) hc hoff, polygon_getWinding hc hl, if_neg (by omega)]
  constructor
  · intro h; cases h; rfl
  · rintro rfl; rfl

theorem inside_wnum {p : Polyline} (hc : p.isClosed = true) (hl : ∀ v ∈ p.vertexes, IsLine v) (h2 : 2 ≤ p.size)
    {x : V2} (hoff : ¬ OnPline p x) : Inside p x ↔ wnum p x ≠ 0 := by
  obtain ⟨k, h1, h3⟩ := inside_run (lines_ok hl) hc hoff
  rw [polygon_getWinding hc hl, if_neg (by omega)] at h1
  cases h1
  exact h3

theorem windsAround_wnum {p : Polyline} (hc : p.isClosed = true) (hl : ∀ v ∈ p.vertexes, IsLine v) (h2 : 2 ≤ p.size)
    {x : V2} : WindsAround p x ↔ wnum p x ≠ 0 := by
  unfold WindsAround
  rw [polygon_getWinding hc hl, if_neg (by omega)]
  constructor
  · rintro ⟨w, hw, h⟩; cases hw; exact h
  · intro h; exact ⟨_, rfl, h⟩

theorem evenOdd_wnum {ps : List Polyline} {x : V2} (h : ∀ p ∈ ps, p.isClosed = true ∧ (∀ v ∈ p.vertexes, IsLine v) ∧
    2 ≤ p.size ∧ ¬ OnPline p x) : EvenOdd ps x ↔ Odd (ps.map fun p => wnum p x).sum := by
  have key : ∀ {ps : List Polyline}, (∀ p ∈ ps, p.isClosed = true ∧ (∀ v ∈ p.vertexes, IsLine v) ∧
      2 ≤ p.size ∧ ¬ OnPline p x) → ∀ ks, List.Forall₂ (fun p k => Winding p x k) ps ks ↔ ks = ps.map fun p => wnum p x := by
    intro ps
    induction ps with
    | nil => intro _ ks; simp
    | cons p ps ih =>
      intro h ks
      obtain ⟨a, b, c, d⟩ := h p (by simp)
      rw [List.forall₂_cons_left_iff]
      simp only [winding_wnum a b c d, ih fun q hq => h q (List.mem_cons_of_mem _ hq), List.map_cons]
      constructor
      · rintro ⟨k, ks', rfl, rfl, rfl⟩; rfl
      · rintro rfl; exact ⟨_, _, rfl, rfl, rfl⟩
  unfold EvenOdd
  constructor
  · rintro ⟨ks, h1, h2⟩
    rw [(key h ks).1 h1] at h2
    exact h2
  · intro ho
    exact ⟨_, (key h _).2 rfl, ho⟩

theorem goesOnce_size {p : Polyline} {s : ℤ} (h : GoesOnce p s) : 2 ≤ p.size := by
  obtain ⟨-, ⟨γ, -, hpos⟩, -⟩ := h
  by_contra hn
  rw [segs_length, if_pos (by omega)] at hpos
  simp at hpos

theorem goesOnce_area {p : Polyline} {s : ℤ} (hc : p.isClosed = true) (h : GoesOnce p s) :
    ∃ a, getArea p = .ok a ∧ (a < 0 ↔ s = -1) := by
  obtain ⟨hs, ⟨γ, hγ, hpos⟩, -⟩ := h
  refine ⟨_, C21_getArea p hc γ hγ, ?_⟩
  rcases hs with rfl | rfl
  · simp only [Int.cast_one, one_mul] at hpos
    constructor
    · intro h; linarith
    · intro h; norm_num at h
  · simp only [Int.cast_neg, Int.cast_one] at hpos
    constructor
    · intro; rfl
    · intro; linarith

theorem sameTurn_once {A B : Polyline} {sA sB : ℤ} (cA : A.isClosed = true) (cB : B.isClosed = true)
    (gA : GoesOnce A sA) (gB : GoesOnce B sB) : SameTurn A B ↔ sA = sB := by
  obtain ⟨a, ha, ha'⟩ := goesOnce_area cA gA
  obtain ⟨b, hb, hb'⟩ := goesOnce_area cB gB
  have : SameTurn A B ↔ (a < 0 ↔ b < 0) := by
    unfold SameTurn
    rw [ha, hb]
    constructor
    · rintro ⟨a', b', h1, h2, h3⟩; cases h1; cases h2; exact h3
    · intro h; exact ⟨_, _, rfl, rfl, h⟩
  rw [this, ha', hb']
  rcases gA.1 with rfl | rfl <;> rcases gB.1 with rfl | rfl <;> simp

/-! ### Polygons that do not cross -/

theorem apart_const {A B : Polyline}
    (hoff : ∀ k t, 0 ≤ t → t ≤ 1 → ∀ i < B.size, ¬ OnLine (ppos B i) (ppos B (i + 1)) (lerp (ppos A k) (ppos A (k + 1)) t))
    (k : ℕ) {t : ℝ} (t0 : 0 ≤ t) (t1 : t ≤ 1) : wnum B (lerp (ppos A k) (ppos A (k + 1)) t) = wnum B (ppos A 0) := by
  have hQ : ppos B B.size = ppos B 0 := by
    have := ppos_per B 0
    rwa [zero_add] at this
  have l0 : ∀ a b : V2, lerp a b 0 = a := by intro a b; ext <;> simp [lerp]
  have l1 : ∀ a b : V2, lerp a b 1 = b := by intro a b; ext <;> simp [lerp]
  have edge : ∀ k {t t' : ℝ}, 0 ≤ t → t ≤ 1 → 0 ≤ t' → t' ≤ 1 →
      wnum B (lerp (ppos A k) (ppos A (k + 1)) t) = wnum B (lerp (ppos A k) (ppos A (k + 1)) t') := by
    intro k t t' a b a' b'
    exact wind_const hQ (S := Set.Icc 0 1) isPreconnected_Icc
      (fun s hs i hi => hoff k s hs.1 hs.2 i hi) ⟨a, b⟩ ⟨a', b'⟩
  have vert : ∀ k, wnum B (ppos A k) = wnum B (ppos A 0) := by
    intro k
    induction k with
    | zero => rfl
    | succ k ih =>
      rw [← ih]
      have := edge k (t := 0) (t' := 1) le_rfl zero_le_one zero_le_one le_rfl
      rw [l0, l1] at this
      exact this.symm
  have := edge k t0 t1 (t' := 0) le_rfl zero_le_one
  rw [this, l0]
  exact vert k

theorem apart_mul {A B : Polyline}
    (hAB : ∀ k t, 0 ≤ t → t ≤ 1 → ∀ i < B.size, ¬ OnLine (ppos B i) (ppos B (i + 1)) (lerp (ppos A k) (ppos A (k + 1)) t))
    (hBA : ∀ k t, 0 ≤ t → t ≤ 1 → ∀ i < A.size, ¬ OnLine (ppos A i) (ppos A (i + 1)) (lerp (ppos B k) (ppos B (k + 1)) t))
    {x : V2} (hxA : ∀ k < A.size, ¬ OnLine (ppos A k) (ppos A (k + 1)) x)
    (hxB : ∀ k < B.size, ¬ OnLine (ppos B k) (ppos B (k + 1)) x) :
    wnum A x * wnum B x = wnum B (ppos A 0) * wnum A x + wnum A (ppos B 0) * wnum B x := by
  have hm : ∀ {p : Polyline} {e : V2 × V2}, e ∈ polyEdges (ppos p) p.size →
      ∃ k < p.size, e = (ppos p k, ppos p (k + 1)) := by
    intro p e he
    unfold polyEdges at he
    obtain ⟨k, hk, rfl⟩ := List.mem_map.1 he
    exact ⟨k, List.mem_range.1 hk, rfl⟩
  have := edges_mul (E := polyEdges (ppos A) A.size) (F := polyEdges (ppos B) B.size) (x := x)
    (β := fun _ => wnum B (ppos A 0)) (α := fun _ => wnum A (ppos B 0)) []
    (by
      intro e he
      obtain ⟨k, hk, rfl⟩ := hm he
      exact hxA k hk)
    (by
      intro e he
      obtain ⟨k, hk, rfl⟩ := hm he
      exact hxB k hk)
    (by
      rintro e he f hf z ⟨t, t0, t1, rfl⟩ ho
      obtain ⟨k, hk, rfl⟩ := hm he
      obtain ⟨i, hi, rfl⟩ := hm hf
      exact absurd ho (hAB k t t0 t1 i hi))
    (by
      rintro e he z ⟨t, t0, t1, rfl⟩ -
      obtain ⟨k, hk, rfl⟩ := hm he
      exact apart_const hAB k t0 t1)
    (by
      rintro e he z ⟨t, t0, t1, rfl⟩ -
      obtain ⟨k, hk, rfl⟩ := hm he
      exact apart_const hBA k t0 t1)
  rw [List.sum_map_mul_left, List.sum_map_mul_left] at this
  exact this

/-- The even-odd rule by mode, for polygons that do not cross. -/
theorem apart_table {A B : Polyline} {sA sB a b wA wB : ℤ} {w : Polyline → ℤ} (hsA : sA = 1 ∨ sA = -1) (hsB : sB = 1 ∨ sB = -1)
    (hA : w A = wA) (hB : w B = wB) (h1 : wA = 0 ∨ wA = sA) (h2 : wB = 0 ∨ wB = sB) (ha : a = 0 ∨ a = sB) (hb : b = 0 ∨ b = sA)
    (hmul : wA * wB = a * wA + b * wB) (mode : CombineMode) :
    Odd (((apartResult A B (a ≠ 0) (b ≠ 0) mode).remaining ++ (apartResult A B (a ≠ 0) (b ≠ 0) mode).subtracted).map w).sum ↔
      boolOp mode (wA ≠ 0) (wB ≠ 0) := by
  have o0 : ¬ Odd (0 : ℤ) := by decide
  have o1 : Odd (1 : ℤ) := by decide
  have om : Odd (-1 : ℤ) := by decide
  have o2 : ¬ Odd (2 : ℤ) := by decide
  have o3 : ¬ Odd (-2 : ℤ) := by decide
  rcases hsA with rfl | rfl <;> rcases hsB with rfl | rfl <;> rcases ha with rfl | rfl <;> rcases hb with rfl | rfl <;>
    rcases h1 with h1 | h1 <;> rcases h2 with h2 | h2 <;> rw [h1, h2] at hmul <;> rw [h1] at hA ⊢ <;> rw [h2] at hB ⊢ <;>
    first
    | (exfalso; revert hmul; norm_num; done)
    | (cases mode <;> simp [apartResult, boolOp, hA, hB, o0, o1, om, o2, o3])

/-! ### Polygons that cross -/

theorem sum_flatten_map {α : Type} (ls : List (List α)) (w : α → ℤ) :
    (ls.flatten.map w).sum = (ls.map fun l => (l.map w).sum).sum := by
  rw [List.map_flatten, List.sum_flatten, List.map_map]
  rfl

/-- The polylines of the result of polygons that cross. -/
theorem met_sum (A : Polyline) (mode : CombineMode) (res : List Polyline) (w : Polyline → ℤ) :
    (((metResult A mode res).remaining ++ (metResult A mode res).subtracted).map w).sum = (res.map w).sum ∧
    ∀ q ∈ (metResult A mode res).remaining ++ (metResult A mode res).subtracted, q ∈ res := by
  cases mode with
  | union =>
    unfold metResult
    constructor
    · induction res with
      | nil => rfl
      | cons q res ih =>
        by_cases h : SameTurn A q
        · simp [h] at ih ⊢; linarith
        · simp [h] at ih ⊢; linarith
    · intro q hq
      simp only [List.mem_append, List.mem_filter] at hq
      tauto
  | exclude => simp [metResult]
  | intersect => simp [metResult]
  | xor => simp [metResult]

theorem meet_table {sA sB wA wB : ℤ} (hsA : sA = 1 ∨ sA = -1) (hsB : sB = 1 ∨ sB = -1)
    (h1 : wA = 0 ∨ wA = sA) (h2 : wB = 0 ∨ wB = sB) (mode : CombineMode) {total : List ℤ}
    (h : List.Forall₂ (fun (part : Part) T => ∃ P Q : ℤ, P + Q = wA * wB ∧
      T = (if part.insideB = true then sB * P else wA - sB * P) +
        (if part.opposite = true then -1 else 1) * (sA * sB) *
        (if part.insideA = true then sA * Q else wB - sA * Q)) (partsOf mode) total) :
    (total.sum = 0 ∨ total.sum = sA ∨ mode = .xor) ∧ (Odd total.sum ↔ boolOp mode (wA ≠ 0) (wB ≠ 0)) := by
  have o0 : ¬ Odd (0 : ℤ) := by decide
  have o1 : Odd (1 : ℤ) := by decide
  have om : Odd (-1 : ℤ) := by decide
  cases mode with
  | union =>
    unfold partsOf at h
    rw [List.forall₂_cons_left_iff] at h
    obtain ⟨T, ts, ⟨P, Q, h3, h4⟩, h5, rfl⟩ := h
    cases h5
    simp only [Bool.false_eq_true, if_false] at h4
    rw [List.sum_cons, List.sum_nil, add_zero]
    obtain rfl : Q = wA * wB - P := by linarith
    rcases hsA with rfl | rfl <;> rcases hsB with rfl | rfl <;> rcases h1 with rfl | rfl <;> rcases h2 with rfl | rfl <;>
      ring_nf at h4 <;> rw [h4] <;> simp [boolOp, o0, o1, om]
  | exclude =>
    unfold partsOf at h
    rw [List.forall₂_cons_left_iff] at h
    obtain ⟨T, ts, ⟨P, Q, h3, h4⟩, h5, rfl⟩ := h
    cases h5
    simp only [Bool.false_eq_true, if_false, if_true] at h4
    rw [List.sum_cons, List.sum_nil, add_zero]
    obtain rfl : Q = wA * wB - P := by linarith
    rcases hsA with rfl | rfl <;> rcases hsB with rfl | rfl <;> rcases h1 with rfl | rfl <;> rcases h2 with rfl | rfl <;>
      ring_nf at h4 <;> rw [h4] <;> simp [boolOp, o0, o1, om]
  | intersect =>
    unfold partsOf at h
    rw [List.forall₂_cons_left_iff] at h
    obtain ⟨T, ts, ⟨P, Q, h3, h4⟩, h5, rfl⟩ := h
    cases h5
    simp only [Bool.false_eq_true, if_false, if_true] at h4
    rw [List.sum_cons, List.sum_nil, add_zero]
    obtain rfl : Q = wA * wB - P := by linarith
    rcases hsA with rfl | rfl <;> rcases hsB with rfl | rfl <;> rcases h1 with rfl | rfl <;> rcases h2 with rfl | rfl <;>
      ring_nf at h4 <;> rw [h4] <;> simp [boolOp, o0, o1, om]
  | xor =>
    unfold partsOf at h
    rw [List.forall₂_cons_left_iff] at h
    obtain ⟨T, ts, ⟨P, Q, h3, h4⟩, h5, rfl⟩ := h
    rw [List.forall₂_cons_left_iff] at h5
    obtain ⟨T', ts, ⟨P', Q', h3', h4'⟩, h5, rfl⟩ := h5
    cases h5
    simp only [Bool.false_eq_true, if_false, if_true] at h4 h4'
    rw [List.sum_cons, List.sum_cons, List.sum_nil, add_zero]
    obtain rfl : Q = wA * wB - P := by linarith
    obtain rfl : Q' = wA * wB - P' := by linarith
    refine ⟨Or.inr (Or.inr rfl), ?_⟩
    rcases hsA with rfl | rfl <;> rcases hsB with rfl | rfl <;> rcases h1 with rfl | rfl <;> rcases h2 with rfl | rfl <;>
      ring_nf at h4 h4' <;> rw [h4, h4'] <;> simp [boolOp, o0, o1, om]

theorem partsOf_opposite {mode : CombineMode} {part : Part} (h : part ∈ partsOf mode) :
    part.opposite = (part.insideA != part.insideB) := by
  cases mode <;> simp [partsOf] at h <;> rcases h with rfl | rfl <;> rfl

/-- C58. For every choice of `std::sort` and of the hash table, every mode, and all closed polygons A and
B in general position, each of which goes once around what is inside: `combinePolylines` returns
polygons whose points are all on A or on B, and by the even-odd rule they bound exactly the union,
intersection, difference or symmetric difference of what is inside A and what is inside B. -/
theorem C58_combinePolylines (inf ninf : ℝ) {std : StdSort} {hash : HashOrder} {A B : Polyline}
    (pA : Polygon A) (pB : Polygon B) (hg : GeneralPosition A B) {sA sB : ℤ} (gA : GoesOnce A sA) (gB : GoesOnce B sB)
    (hi : Indexable (codePlatform inf ninf) A) (hn : A.vertexes.length * B.vertexes.length ≤ 10 ^ 6)
    (mode : CombineMode) :
    ∃ r, combinePolylines (codePlatform inf ninf) std hash A B mode = .ok r ∧
      (∀ q ∈ r.remaining ++ r.subtracted, q.isClosed = true ∧ (∀ v ∈ q.vertexes, IsLine v) ∧
        ∀ x, OnPline q x → OnPline A x ∨ OnPline B x) ∧
      ∀ x, ¬ OnPline A x → ¬ OnPline B x →
        (EvenOdd (r.remaining ++ r.subtracted) x ↔ boolOp mode (Inside A x) (Inside B x)) := by
  have hA2 := goesOnce_size gA
  have hB2 := goesOnce_size gB
  have hAne : A.vertexes ≠ [] := by
    rintro h
    have : A.vertexes.length = A.size := rfl
    rw [h] at this
    simp at this; omega
  have hBne : B.vertexes ≠ [] := by
    rintro h
    have : B.vertexes.length = B.size := rfl
    rw [h] at this
    simp at this; omega
  obtain ⟨r, hr, hshape⟩ := C43_polygons inf ninf (std := std) (hash := hash) pA.lines pB.lines hi pA.closed pB.closed hBne hn mode
  refine ⟨r, hr, ?_⟩
  obtain ⟨a, ha⟩ : ∃ a, A.vertexes.head? = some a := ⟨_, List.head?_eq_some_head hAne⟩
  obtain ⟨b, hb⟩ : ∃ b, B.vertexes.head? = some b := ⟨_, List.head?_eq_some_head hBne⟩
  obtain ⟨s, found, ov, sorted, f1, f2, f3, -, hapart, hmeet⟩ :=
    C57_combinePolylines inf ninf hi pA.ok pB.ok pA.closed pB.closed ha hb hn hr
  obtain ⟨s', found', g1, g2, g3, hnd, hmem⟩ := found_general pA pB hg hi
  rw [f1] at g1
  cases g1
  rw [f2] at g2
  cases g2
  rw [g3] at f3
  have hov : ov = ⟨[], [], [], []⟩ := by
    unfold sortAndjoinCoincidentSlices at f3
    rw [if_pos (by simp)] at f3
    cases f3; rfl
  subst hov
  have wA : ∀ {x}, ¬ OnPline A x → wnum A x = 0 ∨ wnum A x = sA := fun hx =>
    gA.2.2 _ hx _ ((winding_wnum pA.closed pA.lines hA2 hx).2 rfl)
  have wB : ∀ {x}, ¬ OnPline B x → wnum B x = 0 ∨ wnum B x = sB := fun hx =>
    gB.2.2 _ hx _ ((winding_wnum pB.closed pB.lines hB2 hx).2 rfl)
  by_cases hne : found.intersects = []
  · -- the polygons do not cross
    rw [hne] at hmem
    have hcom : ∀ k t, 0 ≤ t → t ≤ 1 → ∀ i < B.size,
        ¬ OnLine (ppos B i) (ppos B (i + 1)) (lerp (ppos A k) (ppos A (k + 1)) t) := by
      rintro k t t0 t1 i hi ⟨u, u0, u1, hu⟩
      obtain ⟨y, hy, -⟩ := common_crossing pA pB hg hmem k hA2 hi hB2 t0 t1 u0 u1 hu
      simp at hy
    have hcom' : ∀ k t, 0 ≤ t → t ≤ 1 → ∀ i < A.size,
        ¬ OnLine (ppos A i) (ppos A (i + 1)) (lerp (ppos B k) (ppos B (k + 1)) t) := by
      rintro k t t0 t1 i hi ⟨u, u0, u1, hu⟩
      obtain ⟨y, hy, -⟩ := common_crossing pB pA (general_symm hg) (mem_swap hmem) k hB2 hi hA2 t0 t1 u0 u1 hu
      simp at hy
    have l0 : ∀ a b : V2, lerp a b 0 = a := by intro a b; ext <;> simp [lerp]
    have first : ∀ {p : Polyline} {a : Vertex}, p.vertexes.head? = some a → a.pos = ppos p 0 := by
      intro p a h
      unfold ppos vtx
      rw [Nat.zero_mod]
      cases hv : p.vertexes with
      | nil => rw [hv] at h; simp at h
      | cons v vs => rw [hv] at h; simp at h; simp [h]
    have offa : ¬ OnPline B (ppos A 0) := by
      rw [polygon_onPline pB.closed pB.lines]
      rintro ⟨-, i, hi, ho⟩
      have := hcom 0 0 le_rfl zero_le_one i hi
      rw [l0] at this
      exact this ho
    have offb : ¬ OnPline A (ppos B 0) := by
      rw [polygon_onPline pA.closed pA.lines]
      rintro ⟨-, i, hi, ho⟩
      have := hcom' 0 0 le_rfl zero_le_one i hi
      rw [l0] at this
      exact this ho
    have hr' := hapart (by simp [hne])
    rw [first ha, first hb] at hr'
    have e1 : WindsAround B (ppos A 0) = (wnum B (ppos A 0) ≠ 0) :=
      propext (windsAround_wnum pB.closed pB.lines hB2)
    have e2 : WindsAround A (ppos B 0) = (wnum A (ppos B 0) ≠ 0) :=
      propext (windsAround_wnum pA.closed pA.lines hA2)
    rw [e1, e2] at hr'
    have hmq : ∀ q ∈ r.remaining ++ r.subtracted, q = A ∨ q = B := by
      intro q hq
      rw [hr'] at hq
      cases mode <;> simp only [apartResult] at hq <;> split_ifs at hq <;> simp at hq <;> tauto
    refine ⟨?_, ?_⟩
    · intro q hq
      rcases hmq q hq with rfl | rfl
      · exact ⟨pA.closed, pA.lines, fun x hx => Or.inl hx⟩
      · exact ⟨pB.closed, pB.lines, fun x hx => Or.inr hx⟩
    · intro x hxA hxB
      rw [evenOdd_wnum, inside_wnum pA.closed pA.lines hA2 hxA, inside_wnum pB.closed pB.lines hB2 hxB, hr']
      · refine apart_table gA.1 gB.1 rfl rfl (wA hxA) (wB hxB) (wB offa) (wA offb) ?_ mode
        apply apart_mul hcom hcom'
        · intro k hk ho
          exact hxA ((polygon_onPline pA.closed pA.lines).2 ⟨hA2, k, hk, ho⟩)
        · intro k hk ho
          exact hxB ((polygon_onPline pB.closed pB.lines).2 ⟨hB2, k, hk, ho⟩)
      · intro q hq
        rcases hmq q hq with rfl | rfl
        · exact ⟨pA.closed, pA.lines, hA2, hxA⟩
        · exact ⟨pB.closed, pB.lines, hB2, hxB⟩
  · -- the polygons cross
    obtain ⟨res, hres, hr'⟩ := hmeet (by
      rintro ⟨y, z, h, -⟩
      simp at h) (Or.inl hne)
    have hq : ∀ {x}, ¬ OnPline A x → ¬ OnPline B x → ∀ q ∈ r.remaining ++ r.subtracted,
        q.isClosed = true ∧ (∀ v ∈ q.vertexes, IsLine v) ∧ 2 ≤ q.size ∧ ¬ OnPline q x := by
      intro x hxA hxB q hq
      rw [hr'] at hq
      have := (met_sum A mode res.flatten fun _ => 0).2 q hq
      obtain ⟨l, hl, hql⟩ := List.mem_flatten.1 this
      obtain ⟨i, hi, rfl⟩ := List.getElem_of_mem hl
      have hi' : i < (partsOf mode).length := by rw [hres.length_eq]; exact hi
      exact (meet_part pA pB hg hnd hmem hne gA.1 gB.1 (fun _ h => gA.2.2 _ h) (fun _ h => gB.2.2 _ h)
        (sameTurn_once pA.closed pB.closed gA gB) (partsOf_opposite (List.getElem_mem hi')) (hres.get hi' hi) hxA hxB).1 q hql
    refine ⟨?_, ?_⟩
    · intro q hqm
      obtain ⟨c1, c2⟩ := hshape q hqm
      refine ⟨c1, ?_, fun x hx => ?_⟩
      · rcases c2 with rfl | rfl | c2
        · exact pA.lines
        · exact pB.lines
        · exact fun v hv => (c2.2 v hv).2
      by_contra hno
      push Not at hno
      exact (hq hno.1 hno.2 q hqm).2.2.2 hx
    · intro x hxA hxB
      rw [evenOdd_wnum (hq hxA hxB), inside_wnum pA.closed pA.lines hA2 hxA, inside_wnum pB.closed pB.lines hB2 hxB,
        hr', (met_sum A mode res.flatten fun q => wnum q x).1, sum_flatten_map]
      refine (meet_table gA.1 gB.1 (wA hxA) (wB hxB) mode ?_).2
      have : ∀ {parts : List Part} {res : List (List Polyline)}, (∀ p ∈ parts, p ∈ partsOf mode) →
          List.Forall₂ (PartResult A B found.intersects ⟨[], [], [], []⟩) parts res →
          List.Forall₂ (fun (part : Part) T => ∃ P Q : ℤ, P + Q = wnum A x * wnum B x ∧
            T = (if part.insideB = true then sB * P else wnum A x - sB * P) +
            (if part.opposite = true then -1 else 1) * (sA * sB) *
            (if part.insideA = true then sA * Q else wnum B x - sA * Q)) parts
            (res.map fun l => (l.map fun q => wnum q x).sum) := by
        intro parts res hm h
        induction h with
        | nil => exact .nil
        | cons h1 _ ih =>
          exact .cons (meet_part pA pB hg hnd hmem hne gA.1 gB.1 (fun _ h => gA.2.2 _ h) (fun _ h => gB.2.2 _ h)
            (sameTurn_once pA.closed pB.closed gA gB) (partsOf_opposite (hm _ (by simp))) h1 hxA hxB).2 (ih fun p hp => hm p (List.mem_cons_of_mem _ hp))
      exact this (fun p hp => hp) hres

/-! ### Two rectangles that cross -/

theorem rect_polygon {x0 y0 x1 y1 : ℝ} (hx : x0 + 1 / 10 ^ 5 ≤ x1) (hy : y0 + 1 / 10 ^ 5 ≤ y1) :
    Polygon (rect x0 y0 x1 y1) := by
  refine ⟨rfl, by simp [rect, isLine_zero], ?_⟩
  intro i v1 v2 h hn
  obtain ⟨h1, h2⟩ := hn
  rw [abs_lt] at h1 h2
  rcases rect_seg h with ⟨-, rfl, rfl⟩ | ⟨-, rfl, rfl⟩ | ⟨-, rfl, rfl⟩ | ⟨-, rfl, rfl⟩ <;> simp only at h1 h2 <;> linarith [h1.1, h1.2, h2.1, h2.2]

theorem rect_once {x0 y0 x1 y1 : ℝ} (hx : x0 < x1) (hy : y0 < y1) : GoesOnce (rect x0 y0 x1 y1) 1 := by
  refine ⟨Or.inl rfl, ?_, ?_⟩
  · obtain ⟨γ, hγ⟩ := exists_path (rect x0 y0 x1 y1)
    refine ⟨γ, hγ, ?_⟩
    have h1 := C21_getArea (rect x0 y0 x1 y1) rfl γ hγ
    rw [rect_area] at h1
    injection h1 with h1
    rw [← h1, Int.cast_one, one_mul]
    exact mul_pos (by linarith) (by linarith)
  · intro x hoff k hk
    rw [winding_iff rect_ok rfl hoff, rect_winding hx hy] at hk
    injection hk with hk
    rw [← hk]
    split_ifs <;> simp

theorem rects_general : GeneralPosition (rect 0 0 2 2) (rect 1 1 3 3) := by
  have hcr : ∀ {i j v1 v2 u1 u2 x}, IsSeg (rect 0 0 2 2) i v1 v2 → IsSeg (rect 1 1 3 3) j u1 u2 →
      Crossing v1.pos v2.pos u1.pos u2.pos x → (i = 1 ∧ j = 0 ∧ x = ⟨2, 1⟩) ∨ (i = 2 ∧ j = 3 ∧ x = ⟨1, 2⟩) := by
    intro i j v1 v2 u1 u2 x h1 h2 hc
    obtain ⟨s, s0, s1, hs⟩ := hc.first
    obtain ⟨t, t0, t1, ht⟩ := hc.second
    have hx1 := congrArg V2.x hs
    have hy1 := congrArg V2.y hs
    have hx2 := congrArg V2.x ht
    have hy2 := congrArg V2.y ht
    rcases rect_seg h1 with ⟨rfl, rfl, rfl⟩ | ⟨rfl, rfl, rfl⟩ | ⟨rfl, rfl, rfl⟩ | ⟨rfl, rfl, rfl⟩ <;>
      rcases rect_seg h2 with ⟨rfl, rfl, rfl⟩ | ⟨rfl, rfl, rfl⟩ | ⟨rfl, rfl, rfl⟩ | ⟨rfl, rfl, rfl⟩ <;>
      simp only [lerp] at hx1 hy1 hx2 hy2 <;>
      first
      | (exfalso; linarith)
      | (left; refine ⟨rfl, rfl, ?_⟩; ext <;> simp only <;> linarith)
      | (right; refine ⟨rfl, rfl, ?_⟩; ext <;> simp only <;> linarith)
  constructor
  · intro i j v1 v2 u1 u2 h1 h2
    rcases rect_seg h1 with ⟨rfl, rfl, rfl⟩ | ⟨rfl, rfl, rfl⟩ | ⟨rfl, rfl, rfl⟩ | ⟨rfl, rfl, rfl⟩ <;>
      rcases rect_seg h2 with ⟨rfl, rfl, rfl⟩ | ⟨rfl, rfl, rfl⟩ | ⟨rfl, rfl, rfl⟩ | ⟨rfl, rfl, rfl⟩ <;>
      first
      | (right; unfold AwayFrom; right; right; left; norm_num [Before]; done)
      | (right; unfold AwayFrom; right; right; right; left; norm_num [Before]; done)
      | (right; unfold AwayFrom; right; right; right; right; left; norm_num [Before]; done)
      | (right; unfold AwayFrom; right; right; right; right; right; norm_num [Before]; done)
      | (left; refine ⟨⟨2, 1⟩, ⟨1 / 2, by norm_num, by norm_num, ?_⟩, ⟨1 / 2, by norm_num, by norm_num, ?_⟩, ?_, ?_⟩
         · ext <;> norm_num [lerp]
         · ext <;> norm_num [lerp]
         · norm_num
         · refine ⟨?_, ?_, ?_, ?_⟩ <;> rintro ⟨h3, h4⟩ <;> first | (norm_num at h3; done) | (norm_num at h4; done))
      | (left; refine ⟨⟨1, 2⟩, ⟨1 / 2, by norm_num, by norm_num, ?_⟩, ⟨1 / 2, by norm_num, by norm_num, ?_⟩, ?_, ?_⟩
         · ext <;> norm_num [lerp]
         · ext <;> norm_num [lerp]
         · norm_num
         · refine ⟨?_, ?_, ?_, ?_⟩ <;> rintro ⟨h3, h4⟩ <;> first | (norm_num at h3; done) | (norm_num at h4; done))
  · intro i j i' j' v1 v2 u1 u2 v1' v2' u1' u2' x x' h1 h2 h1' h2' hx hx' hne
    rcases hcr h1 h2 hx with ⟨rfl, rfl, rfl⟩ | ⟨rfl, rfl, rfl⟩ <;>
      rcases hcr h1' h2' hx' with ⟨rfl, rfl, rfl⟩ | ⟨rfl, rfl, rfl⟩
    · exact absurd rfl hne
    · rintro ⟨h3, -⟩; norm_num at h3
    · rintro ⟨h3, -⟩; norm_num at h3
    · exact absurd rfl hne

/-- Two overlapping squares: they meet the conditions, and they do cross. -/
example (inf ninf : ℝ) (std : StdSort) (hash : HashOrder) (mode : CombineMode) :
    ∃ r, combinePolylines (codePlatform inf ninf) std hash (rect 0 0 2 2) (rect 1 1 3 3) mode = .ok r ∧
      ∀ x, ¬ OnPline (rect 0 0 2 2) x → ¬ OnPline (rect 1 1 3 3) x →
        (EvenOdd (r.remaining ++ r.subtracted) x ↔ boolOp mode
          ((0 < x.x ∧ x.x < 2) ∧ 0 ≤ x.y ∧ x.y < 2) ((1 < x.x ∧ x.x < 3) ∧ 1 ≤ x.y ∧ x.y < 3)) := by
  obtain ⟨r, h1, -, h2⟩ := C58_combinePolylines inf ninf (std := std) (hash := hash) (A := rect 0 0 2 2) (B := rect 1 1 3 3)
    (rect_polygon (by norm_num) (by norm_num)) (rect_polygon (by norm_num) (by norm_num)) rects_general
    (rect_once (by norm_num) (by norm_num)) (rect_once (by norm_num) (by norm_num)) (rect_indexable inf ninf)
    (by simp [rect]) mode
  refine ⟨r, h1, fun x hA hB => ?_⟩
  rw [h2 x hA hB, rect_inside (by norm_num) (by norm_num) hA, rect_inside (by norm_num) (by norm_num) hB]

/-- The centre of the overlap is in the intersection and not in the symmetric difference. -/
example (inf ninf : ℝ) (std : StdSort) (hash : HashOrder) : ∃ r r',
    combinePolylines (codePlatform inf ninf) std hash (rect 0 0 2 2) (rect 1 1 3 3) .intersect = .ok r ∧
    combinePolylines (codePlatform inf ninf) std hash (rect 0 0 2 2) (rect 1 1 3 3) .xor = .ok r' ∧
    EvenOdd (r.remaining ++ r.subtracted) ⟨3 / 2, 3 / 2⟩ ∧ ¬ EvenOdd (r'.remaining ++ r'.subtracted) ⟨3 / 2, 3 / 2⟩ := by
  have hrun := fun mode => C58_combinePolylines inf ninf (std := std) (hash := hash) (A := rect 0 0 2 2) (B := rect 1 1 3 3)
    (rect_polygon (by norm_num) (by norm_num)) (rect_polygon (by norm_num) (by norm_num)) rects_general
    (rect_once (by norm_num) (by norm_num)) (rect_once (by norm_num) (by norm_num)) (rect_indexable inf ninf)
    (by simp [rect]) mode
  obtain ⟨r, h1, -, h2⟩ := hrun .intersect
  obtain ⟨r', h1', -, h2'⟩ := hrun .xor
  have hA : ¬ OnPline (rect 0 0 2 2) ⟨3 / 2, 3 / 2⟩ := by
    intro h
    have := rect_onPline (by norm_num) (by norm_num) h
    norm_num at this
  have hB : ¬ OnPline (rect 1 1 3 3) ⟨3 / 2, 3 / 2⟩ := by
    intro h
    have := rect_onPline (by norm_num) (by norm_num) h
    norm_num at this
  have iA := (rect_inside (x0 := 0) (y0 := 0) (x1 := 2) (y1 := 2) (by norm_num) (by norm_num) hA).2 (by norm_num)
  have iB := (rect_inside (x0 := 1) (y0 := 1) (x1 := 3) (y1 := 3) (by norm_num) (by norm_num) hB).2 (by norm_num)
  refine ⟨r, r', h1, h1', (h2 _ hA hB).2 ⟨iA, iB⟩, fun h => ?_⟩
  exact (h2' _ hA hB).1 h (iff_of_true iA iB)

end
end Cavc

import Verif.Proofs.SIndexBuild
import Verif.Spec.SpatialIndex
import Mathlib.Data.List.Nodup
import Mathlib.Data.List.Flatten

/-! The explicit-stack traversals equal a depth first search, and the search is exhaustive. -/
namespace Cavc
open Spec

variable {α : Type} [LinearOrder α]

/-! ### leaves below a node -/

/-- Children (numbered inside their level) of node `i` of the level above. -/
def kids (N m i : ℕ) : List ℕ := List.range' (i * N) (min (i * N + N) m - i * N)

theorem mem_kids {N m i c : ℕ} : c ∈ kids N m i ↔ i * N ≤ c ∧ c < min (i * N + N) m := by
  unfold kids; rw [List.mem_range'_1]; omega

theorem kids_cover (N m k : ℕ) : (List.range k).flatMap (kids N m) = List.range (min (k * N) m) := by
  induction k with
  | zero => simp
  | succ k ih =>
    rw [List.range_succ, List.flatMap_append, ih]
    simp only [List.flatMap_cons, List.flatMap_nil, List.append_nil, kids]
    rw [List.range_eq_range', List.range_eq_range']
    by_cases h : k * N ≤ m
    · have h1 : min (k * N) m = k * N := min_eq_left h
      have h2 : List.range' (k * N) (min (k * N + N) m - k * N) =
          List.range' (0 + k * N) (min (k * N + N) m - k * N) := by rw [Nat.zero_add]
      rw [h1, h2]
      rw [List.range'_append_1]
      congr 1
      rw [add_mul]; omega
    · have h1 : min (k * N) m = m := by omega
      have h2 : min (k * N + N) m - k * N = 0 := by omega
      have h3 : min ((k + 1) * N) m = m := by rw [add_mul]; omega
      rw [h1, h2, h3]; simp

/-- Bottom level positions below node `i` of level `l`. -/
def leaves (N n : ℕ) : ℕ → ℕ → List ℕ
  | 0, i => [i]
  | l + 1, i => (kids N (sz N n l) i).flatMap (leaves N n l)

theorem leaves_cover {N n : ℕ} (hN : 1 ≤ N) (l : ℕ) :
    (List.range (sz N n l)).flatMap (leaves N n l) = List.range n := by
  induction l with
  | zero => simp [leaves, sz]
  | succ l ih =>
    have h : (List.range (sz N n (l + 1))).flatMap (leaves N n (l + 1)) =
        ((List.range (sz N n (l + 1))).flatMap (kids N (sz N n l))).flatMap (leaves N n l) := by
      rw [List.flatMap_assoc]; rfl
    rw [h, kids_cover]
    have : min (sz N n (l + 1) * N) (sz N n l) = sz N n l := by
      apply min_eq_right
      show sz N n l ≤ (sz N n l + N - 1) / N * N
      have := Nat.lt_div_mul_add (a := sz N n l + N - 1) (b := N) (by omega)
      omega
    rw [this, ih]

/-! ### the query -/

/-- box at position `c` exists and is not disjoint from `q` -/
def ov (s : SIndex α) (q : Box α) (c : ℕ) : Bool :=
  match s.boxes[c]? with
  | some b => !q.noIntersect b
  | none => false

def idx (s : SIndex α) (c : ℕ) : ℕ := s.indices.getD c 0

/-- Positions of the block that starts at `p` on level `l`. -/
def blk (N n l p : ℕ) : List ℕ := List.range' p (min (p + N) (base N n (l + 1)) - p)

def collect (s : SIndex α) (q : Box α) (N n : ℕ) : ℕ → ℕ → List ℕ
  | 0, p => ((blk N n 0 p).filter (ov s q)).map (idx s)
  | l + 1, p => ((blk N n (l + 1) p).filter (ov s q)).reverse.flatMap fun c =>
      collect s q N n l (idx s c)

theorem runVisitor_append {β σ : Type} (v : σ → β → σ × Bool) (st : σ) (l l' : List β) :
    runVisitor v st (l ++ l') =
      if (runVisitor v st l).2 then runVisitor v st l else runVisitor v (runVisitor v st l).1 l' := by
  induction l generalizing st with
  | nil => simp [runVisitor]
  | cons a l ih =>
    simp only [List.cons_append, runVisitor]
    by_cases h : (v st a).2
    · simp [h, ih]
    · simp [h]

variable {σ : Type}

theorem scanNode_leaf (s : SIndex α) (q : Box α) (v : σ → ℕ → σ × Bool) (ni level : ℕ)
    (hni : ni < s.numItems) (hlen : s.indices.length = s.boxes.length) (k pos : ℕ) (st : σ)
    (stack : List ℕ) (hk : pos + k ≤ s.boxes.length) :
    scanNode s q v ni level k pos st stack =
      .ok ((runVisitor v st (((List.range' pos k).filter (ov s q)).map (idx s))).1, stack,
        (runVisitor v st (((List.range' pos k).filter (ov s q)).map (idx s))).2) := by
  induction k generalizing pos st with
  | zero => simp [scanNode, runVisitor]
  | succ k ih =>
    unfold scanNode
    rw [getM_of_lt (by omega), ok_bind, getM_of_lt (by omega), ok_bind, List.range'_succ]
    have hov : ov s q pos = !q.noIntersect s.boxes[pos] := by
      unfold ov; rw [List.getElem?_eq_getElem (by omega)]
    have hidx : idx s pos = s.indices[pos]'(by omega) := by
      unfold idx; simp [show pos < s.indices.length by omega]
    by_cases h : q.noIntersect s.boxes[pos]
    · rw [if_pos h, ih _ _ (by omega)]
      rw [List.filter_cons_of_neg (by simp [hov, h])]
    · rw [if_neg h, if_pos hni, List.filter_cons_of_pos (by simp [hov, h])]
      simp only [List.map_cons, runVisitor, hidx]
      rcases hv : v st (s.indices[pos]'(by omega)) with ⟨st', b⟩
      cases b
      · simp
      · simp [ih (pos + 1) st' (by omega)]

theorem scanNode_inner (s : SIndex α) (q : Box α) (v : σ → ℕ → σ × Bool) (ni level : ℕ)
    (hni : s.numItems ≤ ni) (hlen : s.indices.length = s.boxes.length) (k pos : ℕ) (st : σ)
    (stack : List ℕ) (hk : pos + k ≤ s.boxes.length) :
    scanNode s q v ni (level + 1) k pos st stack =
      .ok (st, (((List.range' pos k).filter (ov s q)).reverse.flatMap
        fun c => [level, idx s c]) ++ stack, false) := by
  induction k generalizing pos stack with
  | zero => simp [scanNode]
  | succ k ih =>
    unfold scanNode
    rw [getM_of_lt (by omega), ok_bind, getM_of_lt (by omega), ok_bind, List.range'_succ]
    have hov : ov s q pos = !q.noIntersect s.boxes[pos] := by
      unfold ov; rw [List.getElem?_eq_getElem (by omega)]
    have hidx : idx s pos = s.indices[pos]'(by omega) := by
      unfold idx; simp [show pos < s.indices.length by omega]
    by_cases h : q.noIntersect s.boxes[pos]
    · rw [if_pos h, ih _ _ (by omega)]
      rw [List.filter_cons_of_neg (by simp [hov, h])]
    · rw [if_neg h, if_neg (by omega), if_neg (by omega),
        List.filter_cons_of_pos (by simp [hov, h]), ih _ _ (by omega)]
      simp [hidx, List.flatMap_append]

/-- Stack entries, top first, as pairs (level, start of block). -/
def enc (es : List (ℕ × ℕ)) : List ℕ := es.flatMap fun e => [e.1, e.2]

structure ValidEntry (N n L : ℕ) (e : ℕ × ℕ) : Prop where
  lvl : e.1 < L
  pos : ∃ i, i < sz N n (e.1 + 1) ∧ e.2 = base N n e.1 + i * N

theorem kid_lt {N n l i : ℕ} (hN : 1 ≤ N) (h : i < sz N n (l + 1)) : i * N < sz N n l := by
  have : i + 1 ≤ (sz N n l + N - 1) / N := h
  rw [Nat.le_div_iff_mul_le hN, add_mul] at this
  omega

theorem blk_eq_map (N n l i : ℕ) :
    blk N n l (base N n l + i * N) = (kids N (sz N n l) i).map (fun c => base N n l + c) := by
  unfold blk kids
  rw [List.map_add_range']
  congr 1
  have : base N n (l + 1) = base N n l + sz N n l := rfl
  omega

theorem length_filter_blk_le (N n l p : ℕ) (f : ℕ → Bool) : ((blk N n l p).filter f).length ≤ N := by
  refine (List.length_filter_le _ _).trans ?_
  simp [blk]; omega

/-- weight of a list of pending blocks -/
def wt (N : ℕ) (es : List (ℕ × ℕ)) : ℕ := (es.map fun e => (N + 1) ^ e.1).sum

theorem Built.leaf_lt {N L : ℕ} {items : List (Box α)} {init : Box α} {e : Equiv.Perm ℕ}
    {s : SIndex α} (hN : 1 ≤ N) (_hb : Built N L items init e s) {l p : ℕ}
    (hv : ValidEntry N items.length L (l, p)) : p < items.length ↔ l = 0 := by
  obtain ⟨i, hi, hp⟩ := hv.pos
  simp only at hi hp
  constructor
  · intro h
    by_contra hl
    have h1 := base_mono N items.length (a := 1) (b := l) (by omega)
    rw [base_one] at h1
    omega
  · rintro rfl
    have := kid_lt hN hi
    simp only [base, sz] at hp this
    omega

theorem Built.entry_le {N L : ℕ} {items : List (Box α)} {init : Box α} {e : Equiv.Perm ℕ}
    {s : SIndex α} (hN : 1 ≤ N) (hb : Built N L items init e s) {l p : ℕ}
    (hv : ValidEntry N items.length L (l, p)) :
    p + (min (p + N) (base N items.length (l + 1)) - p) ≤ s.boxes.length := by
  obtain ⟨i, hi, hp⟩ := hv.pos
  have h1 := base_mono N items.length (a := l + 1) (b := L) hv.lvl
  rw [hb.boxesLen]
  have h2 := kid_lt hN hi
  have h3 : base N items.length (l + 1) = base N items.length l + sz N items.length l := rfl
  simp only at h2 hp
  omega

/-- children pushed by an inner block are valid entries -/
theorem Built.child_valid {N L : ℕ} {items : List (Box α)} {init : Box α} {e : Equiv.Perm ℕ}
    {s : SIndex α} (hb : Built N L items init e s) {l p : ℕ}
    (hv : ValidEntry N items.length L (l + 1, p)) {c : ℕ} (hc : c ∈ blk N items.length (l + 1) p) :
    ValidEntry N items.length L (l, idx s c) := by
  obtain ⟨i, hi, hp⟩ := hv.pos
  simp only at hi hp
  rw [hp, blk_eq_map] at hc
  obtain ⟨j, hj, rfl⟩ := List.mem_map.mp hc
  rw [mem_kids] at hj
  have hjs : j < sz N items.length (l + 1) := by omega
  have := (hb.link l hv.lvl j hjs).1
  refine ⟨by have := hv.lvl; omega, j, hjs, ?_⟩
  simp only [idx]
  rw [List.getD_eq_getElem?_getD, this]; rfl

theorem queryLoop_spec {N L : ℕ} {items : List (Box α)} {init : Box α} {e : Equiv.Perm ℕ}
    {s : SIndex α} (hN : 1 ≤ N) (hb : Built N L items init e s) (q : Box α)
    (v : σ → ℕ → σ × Bool) (fuel : ℕ) (l p : ℕ) (st : σ) (es : List (ℕ × ℕ))
    (hv : ValidEntry N items.length L (l, p)) (hes : ∀ x ∈ es, ValidEntry N items.length L x)
    (hfuel : (N + 1) ^ l + wt N es ≤ fuel) :
    queryLoop s q v fuel p l st (enc es) =
      .ok (runVisitor v st (collect s q N items.length l p ++
        es.flatMap fun x => collect s q N items.length x.1 x.2)).1 := by
  induction fuel generalizing l p st es with
  | zero =>
    have : 0 < (N + 1) ^ l := Nat.pow_pos (by omega)
    omega
  | succ f ih =>
    unfold queryLoop
    have hlb : getM s.levelBounds l = .ok (base N items.length (l + 1)) := by
      rw [getM_eq_ok, hb.bounds]; simp [show l < L from hv.lvl]
    have hlen : s.indices.length = s.boxes.length := by rw [hb.indicesLen, hb.boxesLen]
    rw [hlb, ok_bind, hb.nodeSize]
    simp only
    cases l with
    | zero =>
      have hlt := (hb.leaf_lt hN hv).mpr rfl
      rw [scanNode_leaf s q v p 0 (by rw [hb.numItems]; exact hlt) hlen _ _ _ _
        (hb.entry_le hN hv), ok_bind]
      have hc : collect s q N items.length 0 p = ((List.range' p (min (p + N)
        (base N items.length (0 + 1)) - p)).filter (ov s q)).map (idx s) := rfl
      rw [← hc, runVisitor_append]
      rcases hr : runVisitor v st (collect s q N items.length 0 p) with ⟨st', stop⟩
      cases es with
      | nil => cases stop <;> simp [enc, runVisitor]
      | cons x es =>
        simp only [enc, List.flatMap_cons, List.cons_append, List.nil_append]
        cases stop
        · simp only [Bool.false_eq_true, if_false]
          have := ih x.1 x.2 st' es (hes x (by simp)) (fun y hy => hes y (by simp [hy]))
            (by simp [wt] at hfuel ⊢; omega)
          simpa [enc] using this
        · simp
    | succ l =>
      have hge : items.length ≤ p := by
        by_contra h
        have := (hb.leaf_lt hN hv).mp (by omega)
        omega
      rw [scanNode_inner s q v p l (by rw [hb.numItems]; exact hge) hlen _ _ _ _
        (hb.entry_le hN hv), ok_bind]
      set new := ((List.range' p (min (p + N) (base N items.length (l + 1 + 1)) - p)).filter
        (ov s q)).reverse.map (fun c => (l, idx s c)) with hnew
      have hstack : (((List.range' p (min (p + N) (base N items.length (l + 1 + 1)) - p)).filter
          (ov s q)).reverse.flatMap fun c => [l, idx s c]) ++ enc es = enc (new ++ es) := by
        unfold enc
        rw [List.flatMap_append, hnew, List.flatMap_map]
      rw [hstack]
      have hnewv : ∀ x ∈ new, ValidEntry N items.length L x := by
        intro x hx
        simp only [hnew, List.mem_map, List.mem_reverse, List.mem_filter] at hx
        obtain ⟨c, ⟨hc, -⟩, rfl⟩ := hx
        exact hb.child_valid hv hc
      have hcol : collect s q N items.length (l + 1) p =
          new.flatMap fun x => collect s q N items.length x.1 x.2 := by
        simp only [collect, hnew, List.flatMap_map]; rfl
      have hwt : wt N new ≤ N * (N + 1) ^ l := by
        have h1 : wt N new = new.length * (N + 1) ^ l := by
          simp [wt, hnew, List.map_map, Function.comp_def]
        rw [h1]
        apply Nat.mul_le_mul_right
        have := length_filter_blk_le N items.length (l + 1) p (ov s q)
        simpa [hnew, blk] using this
      have hpow : (N + 1) ^ (l + 1) = N * (N + 1) ^ l + (N + 1) ^ l := by rw [pow_succ]; ring
      have hposw : 0 < (N + 1) ^ l := Nat.pow_pos (by omega)
      have hwapp : wt N (new ++ es) = wt N new + wt N es := by simp [wt]
      rw [hcol, ← List.flatMap_append]
      cases hall : new ++ es with
      | nil => simp [enc, runVisitor]
      | cons x xs =>
        simp only [enc, List.flatMap_cons, List.cons_append, List.nil_append, Bool.false_eq_true,
          if_false]
        have hvx : ∀ y ∈ x :: xs, ValidEntry N items.length L y := by
          intro y hy
          rw [← hall] at hy
          rcases List.mem_append.mp hy with h | h
          · exact hnewv y h
          · exact hes y h
        have hw : (N + 1) ^ x.1 + wt N xs = wt N (new ++ es) := by rw [hall]; simp [wt]
        have := ih x.1 x.2 st xs (hvx x (by simp)) (fun y hy => hvx y (by simp [hy])) (by omega)
        simpa [enc] using this

/-! ### exhaustiveness -/

theorem noIntersect_false_iff (q b : Box α) : q.noIntersect b = false ↔ Overlap q b := by
  simp only [Box.noIntersect, Overlap, Bool.or_eq_false_iff, decide_eq_false_iff_not, not_lt,
    gt_iff_lt]
  tauto

theorem Overlap.mono {q P C : Box α} (h : Encl P C) (ho : Overlap q C) : Overlap q P :=
  ⟨ho.1.trans h.maxX, h.minX.trans ho.2.1, ho.2.2.1.trans h.maxY, h.minY.trans ho.2.2.2⟩

theorem Built.leaves_encl {N L : ℕ} {items : List (Box α)} {init : Box α} {e : Equiv.Perm ℕ}
    {s : SIndex α} (hb : Built N L items init e s) (l : ℕ) (hl : l < L) (i : ℕ)
    (hi : i < sz N items.length l) (x : ℕ) (hx : x ∈ leaves N items.length l i) :
    ∀ P C, s.boxes[base N items.length l + i]? = some P → s.boxes[x]? = some C → Encl P C := by
  induction l generalizing i with
  | zero =>
    simp only [leaves, List.mem_singleton] at hx
    subst hx
    intro P C hP hC
    simp only [base, Nat.zero_add] at hP
    rw [hP] at hC; injection hC with hC; subst hC; exact Encl.refl _
  | succ l ih =>
    simp only [leaves, List.mem_flatMap] at hx
    obtain ⟨c, hc, hx⟩ := hx
    rw [mem_kids] at hc
    intro P C hP hC
    have hbl : base N items.length (l + 1) = base N items.length l + sz N items.length l := rfl
    have hcl : base N items.length l + c < s.boxes.length := by
      rw [hb.boxesLen]
      have := base_mono N items.length (a := l + 1) (b := L) (by omega)
      omega
    have h1 := (hb.link l hl i hi).2 (base N items.length l + c) (by omega) (by omega) P _ hP
      (List.getElem?_eq_getElem hcl)
    have h2 := ih (by omega) c (by omega) hx _ C (List.getElem?_eq_getElem hcl) hC
    exact h1.trans h2

theorem Built.not_ov {N L : ℕ} {items : List (Box α)} {init : Box α} {e : Equiv.Perm ℕ}
    {s : SIndex α} (hb : Built N L items init e s) (q : Box α) (l : ℕ) (hl : l < L) (i : ℕ)
    (hi : i < sz N items.length l) (ho : ov s q (base N items.length l + i) = false) :
    (leaves N items.length l i).filter (ov s q) = [] := by
  rw [List.filter_eq_nil_iff]
  intro x hx
  have hlt : base N items.length l + i < s.boxes.length := by
    rw [hb.boxesLen]
    have := base_mono N items.length (a := l + 1) (b := L) (by omega)
    have hbl : base N items.length (l + 1) = base N items.length l + sz N items.length l := rfl
    omega
  unfold ov at ho ⊢
  rw [List.getElem?_eq_getElem hlt] at ho
  cases hC : s.boxes[x]? with
  | none => simp
  | some C =>
    have henc := hb.leaves_encl l hl i hi x hx _ C (List.getElem?_eq_getElem hlt) hC
    simp only [Bool.not_eq_false'] at ho
    simp only [Bool.not_eq_true, Bool.not_eq_false']
    by_contra hcon
    have h1 : q.noIntersect C = false := by simpa using hcon
    have h2 := (noIntersect_false_iff q _).mpr (Overlap.mono henc ((noIntersect_false_iff q C).mp h1))
    rw [h2] at ho; simp at ho

theorem Built.collect_perm {N L : ℕ} {items : List (Box α)} {init : Box α} {e : Equiv.Perm ℕ}
    {s : SIndex α} (hb : Built N L items init e s) (q : Box α) (l : ℕ) (hl : l < L) (i : ℕ)
    (hi : i < sz N items.length (l + 1)) :
    (collect s q N items.length l (base N items.length l + i * N)).Perm
      ((((kids N (sz N items.length l) i).flatMap (leaves N items.length l)).filter (ov s q)).map
        (idx s)) := by
  induction l generalizing i with
  | zero =>
    simp only [collect]
    rw [blk_eq_map]
    simp [leaves, base, List.flatMap_singleton']
  | succ l ih =>
    simp only [collect]
    rw [blk_eq_map, List.filter_map, ← List.map_reverse, List.flatMap_map]
    refine (List.Perm.flatMap_right _ (List.reverse_perm _)).trans ?_
    rw [List.filter_flatMap, List.map_flatMap]
    -- drop the filter: nodes that do not overlap have no overlapping leaves
    have hgen : ∀ ks : List ℕ, (∀ c ∈ ks, c < sz N items.length (l + 1)) →
        ((ks.filter (ov s q ∘ fun c => base N items.length (l + 1) + c)).flatMap fun c =>
          collect s q N items.length l (idx s (base N items.length (l + 1) + c))).Perm
        (ks.flatMap fun c => ((leaves N items.length (l + 1) c).filter (ov s q)).map (idx s)) := by
      intro ks
      induction ks with
      | nil => simp
      | cons c ks ihk =>
        intro hks
        have hc := hks c (by simp)
        have hrest := ihk (fun x hx => hks x (by simp [hx]))
        have hidx : idx s (base N items.length (l + 1) + c) = base N items.length l + c * N := by
          unfold idx
          rw [List.getD_eq_getElem?_getD, (hb.link l hl c hc).1]; rfl
        by_cases ho : ov s q (base N items.length (l + 1) + c)
        · rw [List.filter_cons_of_pos (by simpa using ho)]
          simp only [List.flatMap_cons]
          refine List.Perm.append ?_ hrest
          rw [hidx]
          exact ih (by omega) c hc
        · rw [List.filter_cons_of_neg (by simpa using ho)]
          simp only [List.flatMap_cons]
          rw [hb.not_ov q (l + 1) hl c hc (by simpa using ho)]
          simpa using hrest
    refine hgen _ ?_
    intro c hc
    rw [mem_kids] at hc
    omega

theorem Built.root {N L : ℕ} {items : List (Box α)} {init : Box α} {e : Equiv.Perm ℕ}
    {s : SIndex α} (hN : 1 ≤ N) (hb : Built N L items init e s) :
    ValidEntry N items.length L (L - 1, s.numNodes - 1) ∧
      s.numNodes - 1 = base N items.length (L - 1) + 0 * N ∧ 0 < sz N items.length (L - 1 + 1) ∧
      s.numNodes ≠ 0 := by
  have h2 := hb.two_le
  have h1 : s.numNodes = base N items.length (L - 1) + sz N items.length (L - 1) := by
    rw [hb.numNodes]
    show base N items.length L = base N items.length (L - 1 + 1)
    rw [show L - 1 + 1 = L by omega]
  rw [hb.top] at h1
  have h3 : sz N items.length (L - 1 + 1) = 1 := sz_succ_one hN _ hb.top
  have hp : s.numNodes - 1 = base N items.length (L - 1) + 0 * N := by omega
  exact ⟨⟨by simp; omega, 0, by simp only; omega, hp⟩, hp, by omega, by omega⟩

/-- The order in which the items are reported by a query. -/
def queryOrder (s : SIndex α) (q : Box α) : List ℕ :=
  collect s q s.nodeSize s.numItems (s.numLevels - 1) (s.numNodes - 1)

theorem Built.visitQuery_eq {N L : ℕ} {items : List (Box α)} {init : Box α} {e : Equiv.Perm ℕ}
    {s : SIndex α} (hN : 1 ≤ N) (hb : Built N L items init e s) (q : Box α)
    (v : σ → ℕ → σ × Bool) (st : σ) :
    s.visitQuery q v st = .ok (runVisitor v st (queryOrder s q)).1 := by
  obtain ⟨h1, h2, h3, h4⟩ := hb.root hN
  unfold SIndex.visitQuery
  have : decide (s.boxes.length = s.numNodes) = true := by simp [hb.boxesLen, hb.numNodes]
  rw [this, assertM_true, ok_bind, if_neg (by
    have := hb.two_le
    rw [hb.numLevels]; omega)]
  have := queryLoop_spec hN hb q v ((s.nodeSize + 1) ^ s.numLevels) (L - 1) (s.numNodes - 1) st []
    h1 (by simp) (by
      simp only [wt, List.map_nil, List.sum_nil, Nat.add_zero, hb.nodeSize, hb.numLevels]
      exact Nat.pow_le_pow_right (by omega) (by omega))
  simp only [enc, List.flatMap_nil, List.append_nil] at this
  rw [hb.numLevels] at this ⊢
  rw [this]
  simp [queryOrder, hb.nodeSize, hb.numItems, hb.numLevels]

theorem Built.queryOrder_perm {N L : ℕ} {items : List (Box α)} {init : Box α} {e : Equiv.Perm ℕ}
    {s : SIndex α} (hN : 1 ≤ N) (hb : Built N L items init e s) (q : Box α) :
    (queryOrder s q).Perm (((List.range items.length).filter (ov s q)).map (idx s)) := by
  obtain ⟨h1, h2, h3, h4⟩ := hb.root hN
  unfold queryOrder
  rw [hb.nodeSize, hb.numItems, hb.numLevels, h2]
  refine (hb.collect_perm q (L - 1) (by have := hb.two_le; omega) 0 h3).trans ?_
  have : kids N (sz N items.length (L - 1)) 0 = List.range (sz N items.length (L - 1)) := by
    rw [hb.top]; unfold kids; simp [List.range_eq_range', show min N 1 = 1 by omega]
  rw [this, leaves_cover hN]

theorem runVisitor_push {β : Type} (l acc : List β) :
    runVisitor (fun (r : List β) i => (r ++ [i], true)) acc l = (acc ++ l, false) := by
  induction l generalizing acc with
  | nil => simp [runVisitor]
  | cons a l ih => simp [runVisitor, ih]

theorem Built.query_eq {N L : ℕ} {items : List (Box α)} {init : Box α} {e : Equiv.Perm ℕ}
    {s : SIndex α} (hN : 1 ≤ N) (hb : Built N L items init e s) (q : Box α) :
    s.query q = .ok (queryOrder s q) := by
  unfold SIndex.query
  rw [hb.visitQuery_eq hN, runVisitor_push]; simp

theorem Built.idx_eq {N L : ℕ} {items : List (Box α)} {init : Box α} {e : Equiv.Perm ℕ}
    {s : SIndex α} (hb : Built N L items init e s) {k : ℕ} (hk : k < items.length) :
    idx s k = e k := by
  unfold idx; rw [List.getD_eq_getElem?_getD, hb.leafIdx k hk]; rfl

theorem Built.e_lt {N L : ℕ} {items : List (Box α)} {init : Box α} {e : Equiv.Perm ℕ}
    {s : SIndex α} (hb : Built N L items init e s) {k : ℕ} (hk : k < items.length) :
    e k < items.length := by
  by_contra h
  have h1 := hb.fix (e k) (by omega)
  have := e.injective h1
  omega

theorem Built.mem_queryOrder {N L : ℕ} {items : List (Box α)} {init : Box α} {e : Equiv.Perm ℕ}
    {s : SIndex α} (hN : 1 ≤ N) (hb : Built N L items init e s) (q : Box α) (i : ℕ) :
    i ∈ queryOrder s q ↔ ∃ b, items[i]? = some b ∧ Overlap q b := by
  rw [(hb.queryOrder_perm hN q).mem_iff, List.mem_map]
  constructor
  · rintro ⟨k, hk, rfl⟩
    rw [List.mem_filter, List.mem_range] at hk
    rw [hb.idx_eq hk.1]
    have hbx := hb.leafBox k hk.1
    have ho := hk.2
    unfold ov at ho
    rw [hbx] at ho
    have := hb.e_lt hk.1
    rw [List.getElem?_eq_getElem this] at ho ⊢
    exact ⟨_, rfl, (noIntersect_false_iff _ _).mp (by simpa using ho)⟩
  · rintro ⟨b, hb1, hb2⟩
    have hi : i < items.length := by
      by_contra h
      rw [List.getElem?_eq_none (by omega)] at hb1; simp at hb1
    have hes : e.symm i < items.length := by
      by_contra h
      have h1 := hb.fix (e.symm i) (by omega)
      rw [e.apply_symm_apply] at h1
      omega
    refine ⟨e.symm i, ?_, by rw [hb.idx_eq hes, e.apply_symm_apply]⟩
    rw [List.mem_filter, List.mem_range]
    refine ⟨hes, ?_⟩
    unfold ov
    rw [hb.leafBox _ hes, e.apply_symm_apply, hb1]
    simp [(noIntersect_false_iff q b).mpr hb2]

theorem Built.nodup_queryOrder {N L : ℕ} {items : List (Box α)} {init : Box α} {e : Equiv.Perm ℕ}
    {s : SIndex α} (hN : 1 ≤ N) (hb : Built N L items init e s) (q : Box α) :
    (queryOrder s q).Nodup := by
  rw [(hb.queryOrder_perm hN q).nodup_iff]
  apply List.Nodup.map_on
  · intro x hx y hy hxy
    rw [List.mem_filter, List.mem_range] at hx hy
    rw [hb.idx_eq hx.1, hb.idx_eq hy.1] at hxy
    exact e.injective hxy
  · exact List.nodup_range.filter _

end Cavc

import Verif.Proofs.SIndexQuery

/-! visitItemBoxes and visitBoundingBoxes. -/
namespace Cavc
open Spec

variable {α : Type} {σ : Type}

/-- the (tag, box) pairs presented for a list of (tag, position) pairs -/
def present (s : SIndex α) (l : List (ℕ × ℕ)) : List (ℕ × Box α) :=
  l.filterMap fun x => (s.boxes[x.2]?).map fun b => (x.1, b)

theorem present_append (s : SIndex α) (l l' : List (ℕ × ℕ)) :
    present s (l ++ l') = present s l ++ present s l' := by simp [present]

theorem present_cons (s : SIndex α) (t p : ℕ) (l : List (ℕ × ℕ)) (h : p < s.boxes.length) :
    present s ((t, p) :: l) = (t, s.boxes[p]) :: present s l := by
  simp [present, List.getElem?_eq_getElem h]

/-- The visitor with its two arguments paired. -/
def paired (v : σ → ℕ → Box α → σ × Bool) : σ → ℕ × Box α → σ × Bool := fun st x => v st x.1 x.2

theorem runVisitor_paired (v : σ → ℕ → Box α → σ × Bool) (st : σ) (t : ℕ) (b : Box α)
    (l : List (ℕ × Box α)) : runVisitor (paired v) st ((t, b) :: l) =
      if (v st t b).2 then runVisitor (paired v) (v st t b).1 l else ((v st t b).1, true) := rfl

theorem itemBoxesLoop_spec (s : SIndex α) (v : σ → ℕ → Box α → σ × Bool) (k i : ℕ) (st : σ)
    (hlen : s.indices.length = s.boxes.length) (hk : i + k ≤ s.boxes.length) :
    itemBoxesLoop s v k i st =
      .ok (runVisitor (paired v) st
        (present s ((List.range' i k).map fun c => (idx s c, c)))).1 := by
  induction k generalizing i st with
  | zero => simp [itemBoxesLoop, present, runVisitor]
  | succ k ih =>
    unfold itemBoxesLoop
    have hidx : idx s i = s.indices[i]'(by omega) := by
      unfold idx; simp [show i < s.indices.length by omega]
    rw [getM_of_lt (by omega), ok_bind, getM_of_lt (by omega), ok_bind, List.range'_succ,
      List.map_cons, present_cons _ _ _ _ (by omega)]
    simp only [runVisitor, paired, hidx]
    rcases hv : v st (s.indices[i]'(by omega)) (s.boxes[i]'(by omega)) with ⟨st', b⟩
    cases b
    · simp
    · simpa [paired] using ih (i + 1) st' (by omega)

variable [LinearOrder α]

/-- Depth first enumeration of (level, position) pairs from a block. -/
def enumBlock (s : SIndex α) (N n : ℕ) : ℕ → ℕ → List (ℕ × ℕ)
  | 0, p => (blk N n 0 p).map fun c => (0, c)
  | l + 1, p => ((blk N n (l + 1) p).map fun c => (l + 1, c)) ++
      (blk N n (l + 1) p).reverse.flatMap fun c => enumBlock s N n l (idx s c)

omit [LinearOrder α] in
theorem scanNodeBoxes_leaf (s : SIndex α) (v : σ → ℕ → Box α → σ × Bool) (ni level : ℕ)
    (hni : ni < s.numItems) (hlen : s.indices.length = s.boxes.length) (k pos : ℕ) (st : σ)
    (stack : List ℕ) (hk : pos + k ≤ s.boxes.length) :
    scanNodeBoxes s v ni level k pos st stack =
      .ok ((runVisitor (paired v) st (present s ((List.range' pos k).map fun c => (level, c)))).1,
        stack,
        (runVisitor (paired v) st (present s ((List.range' pos k).map fun c => (level, c)))).2) := by
  induction k generalizing pos st with
  | zero => simp [scanNodeBoxes, present, runVisitor]
  | succ k ih =>
    unfold scanNodeBoxes
    rw [getM_of_lt (by omega), ok_bind, getM_of_lt (by omega), ok_bind, List.range'_succ,
      List.map_cons, present_cons _ _ _ _ (by omega)]
    rw [runVisitor_paired]
    rcases hv : v st level (s.boxes[pos]'(by omega)) with ⟨st', b⟩
    cases b
    · simp
    · simpa [show ¬ (s.numItems ≤ ni) by omega] using ih (pos + 1) st' (by omega)

theorem scanNodeBoxes_inner (s : SIndex α) (v : σ → ℕ → Box α → σ × Bool) (ni level : ℕ)
    (hni : s.numItems ≤ ni) (hlen : s.indices.length = s.boxes.length) (k pos : ℕ) (st : σ)
    (stack : List ℕ) (hk : pos + k ≤ s.boxes.length) :
    ∃ stack', scanNodeBoxes s v ni (level + 1) k pos st stack =
      .ok ((runVisitor (paired v) st (present s ((List.range' pos k).map fun c => (level + 1, c)))).1,
        stack',
        (runVisitor (paired v) st (present s ((List.range' pos k).map fun c => (level + 1, c)))).2) ∧
      ((runVisitor (paired v) st
        (present s ((List.range' pos k).map fun c => (level + 1, c)))).2 = false →
        stack' = ((List.range' pos k).reverse.flatMap fun c => [level, idx s c]) ++ stack) := by
  induction k generalizing pos st stack with
  | zero => exact ⟨stack, by simp [scanNodeBoxes, present, runVisitor]⟩
  | succ k ih =>
    unfold scanNodeBoxes
    have hidx : idx s pos = s.indices[pos]'(by omega) := by
      unfold idx; simp [show pos < s.indices.length by omega]
    rw [getM_of_lt (by omega), ok_bind, getM_of_lt (by omega), ok_bind, List.range'_succ,
      List.map_cons, present_cons _ _ _ _ (by omega)]
    rw [runVisitor_paired]
    rcases hv : v st (level + 1) (s.boxes[pos]'(by omega)) with ⟨st', b⟩
    cases b
    · exact ⟨stack, by simp⟩
    · obtain ⟨stack', h1, h2⟩ := ih (pos + 1) st'
        (level :: s.indices[pos]'(by omega) :: stack) (by omega)
      refine ⟨stack', ?_, ?_⟩
      · simpa [hni] using h1
      · intro h
        rw [h2 (by simpa using h)]
        simp [hidx, List.flatMap_append]

theorem boundingBoxesLoop_spec {N L : ℕ} {items : List (Box α)} {init : Box α} {e : Equiv.Perm ℕ}
    {s : SIndex α} (hN : 1 ≤ N) (hb : Built N L items init e s)
    (v : σ → ℕ → Box α → σ × Bool) (fuel : ℕ) (l p : ℕ) (st : σ) (es : List (ℕ × ℕ))
    (hv : ValidEntry N items.length L (l, p)) (hes : ∀ x ∈ es, ValidEntry N items.length L x)
    (hfuel : (N + 1) ^ l + wt N es ≤ fuel) :
    boundingBoxesLoop s v fuel p l st (enc es) =
      .ok (runVisitor (paired v) st (present s (enumBlock s N items.length l p ++
        es.flatMap fun x => enumBlock s N items.length x.1 x.2))).1 := by
  induction fuel generalizing l p st es with
  | zero =>
    have : 0 < (N + 1) ^ l := Nat.pow_pos (by omega)
    omega
  | succ f ih =>
    unfold boundingBoxesLoop
    have hlb : getM s.levelBounds l = .ok (base N items.length (l + 1)) := by
      rw [getM_eq_ok, hb.bounds]; simp [show l < L from hv.lvl]
    have hlen : s.indices.length = s.boxes.length := by rw [hb.indicesLen, hb.boxesLen]
    rw [hlb, ok_bind, hb.nodeSize]
    simp only
    cases l with
    | zero =>
      have hlt := (hb.leaf_lt hN hv).mpr rfl
      rw [scanNodeBoxes_leaf s v p 0 (by rw [hb.numItems]; exact hlt) hlen _ _ _ _
        (hb.entry_le hN hv), ok_bind]
      have hc : enumBlock s N items.length 0 p = (List.range' p (min (p + N)
        (base N items.length (0 + 1)) - p)).map fun c => (0, c) := rfl
      rw [← hc, present_append, runVisitor_append]
      rcases hr : runVisitor (paired v) st (present s (enumBlock s N items.length 0 p)) with ⟨st', stop⟩
      cases stop
      · cases es with
        | nil => simp [enc, runVisitor, present]
        | cons x es =>
          simp only [enc, List.flatMap_cons, List.cons_append, List.nil_append, Bool.false_eq_true,
            if_false]
          have := ih x.1 x.2 st' es (hes x (by simp)) (fun y hy => hes y (by simp [hy]))
            (by simp [wt] at hfuel ⊢; omega)
          simpa [enc] using this
      · simp
    | succ l =>
      have hge : items.length ≤ p := by
        by_contra h
        have := (hb.leaf_lt hN hv).mp (by omega)
        omega
      obtain ⟨stack', hs1, hs2⟩ := scanNodeBoxes_inner s v p l (by rw [hb.numItems]; exact hge) hlen
        _ _ st (enc es) (hb.entry_le hN hv)
      rw [hs1, ok_bind]
      set rng := List.range' p (min (p + N) (base N items.length (l + 1 + 1)) - p) with hrng
      have hrb : rng = blk N items.length (l + 1) p := rfl
      have hen : enumBlock s N items.length (l + 1) p = (rng.map fun c => (l + 1, c)) ++
        rng.reverse.flatMap fun c => enumBlock s N items.length l (idx s c) := rfl
      rw [hen, List.append_assoc, present_append, runVisitor_append]
      rcases hr : runVisitor (paired v) st (present s (rng.map fun c => (l + 1, c))) with ⟨st', stop⟩
      rw [hr] at hs2
      cases stop
      · rw [hs2 rfl]
        set new := rng.reverse.map (fun c => (l, idx s c)) with hnew
        have hstack : (rng.reverse.flatMap fun c => [l, idx s c]) ++ enc es = enc (new ++ es) := by
          unfold enc
          rw [List.flatMap_append, hnew, List.flatMap_map]
        rw [hstack]
        have hnewv : ∀ x ∈ new, ValidEntry N items.length L x := by
          intro x hx
          simp only [hnew, List.mem_map, List.mem_reverse] at hx
          obtain ⟨c, hc, rfl⟩ := hx
          exact hb.child_valid hv hc
        have hcol : (rng.reverse.flatMap fun c => enumBlock s N items.length l (idx s c)) =
            new.flatMap fun x => enumBlock s N items.length x.1 x.2 := by
          simp only [hnew, List.flatMap_map]
        have hwt : wt N new ≤ N * (N + 1) ^ l := by
          have h1 : wt N new = new.length * (N + 1) ^ l := by
            simp [wt, hnew, List.map_map, Function.comp_def]
          rw [h1]
          apply Nat.mul_le_mul_right
          simp [hnew, hrng]; omega
        have hpow : (N + 1) ^ (l + 1) = N * (N + 1) ^ l + (N + 1) ^ l := by rw [pow_succ]; ring
        have hposw : 0 < (N + 1) ^ l := Nat.pow_pos (by omega)
        have hwapp : wt N (new ++ es) = wt N new + wt N es := by simp [wt]
        rw [hcol, ← List.flatMap_append]
        simp only [Bool.false_eq_true, if_false]
        cases hall : new ++ es with
        | nil => simp [enc, runVisitor, present]
        | cons x xs =>
          simp only [enc, List.flatMap_cons, List.cons_append, List.nil_append]
          have hvx : ∀ y ∈ x :: xs, ValidEntry N items.length L y := by
            intro y hy
            rw [← hall] at hy
            rcases List.mem_append.mp hy with h | h
            · exact hnewv y h
            · exact hes y h
          have hw : (N + 1) ^ x.1 + wt N xs = wt N (new ++ es) := by rw [hall]; simp [wt]
          have := ih x.1 x.2 st' xs (hvx x (by simp)) (fun y hy => hvx y (by simp [hy])) (by omega)
          simpa [enc] using this
      · simp

/-- All nodes at and below a list of nodes of one level. -/
def below (N n : ℕ) : ℕ → List ℕ → List (ℕ × ℕ)
  | 0, ks => ks.map fun c => (0, base N n 0 + c)
  | l + 1, ks => (ks.map fun c => (l + 1, base N n (l + 1) + c)) ++
      below N n l (ks.flatMap (kids N (sz N n l)))

theorem below_append (N n l : ℕ) (ks ks' : List ℕ) :
    (below N n l (ks ++ ks')).Perm (below N n l ks ++ below N n l ks') := by
  induction l generalizing ks ks' with
  | zero => simp [below]
  | succ l ih =>
    simp only [below, List.map_append, List.flatMap_append]
    refine (List.Perm.append_left _ (ih _ _)).trans ?_
    simp only [List.append_assoc]
    refine List.Perm.append_left _ ?_
    rw [← List.append_assoc, ← List.append_assoc]
    exact List.Perm.append_right _ List.perm_append_comm

theorem below_flatMap (N n l : ℕ) (ks : List ℕ) (f : ℕ → List ℕ) :
    (ks.flatMap fun c => below N n l (f c)).Perm (below N n l (ks.flatMap f)) := by
  induction ks with
  | nil =>
    have : ∀ l, below N n l [] = [] := by
      intro l; induction l with
      | zero => rfl
      | succ l ih => simp [below, ih]
    simp [this]
  | cons c ks ih =>
    simp only [List.flatMap_cons]
    exact (List.Perm.append_left _ ih).trans (below_append _ _ _ _ _).symm

theorem below_range {N n : ℕ} (hN : 1 ≤ N) (l : ℕ) :
    (below N n l (List.range (sz N n l))).Perm
      ((List.range (l + 1)).flatMap fun j =>
        (List.range (sz N n j)).map fun c => (j, base N n j + c)) := by
  induction l with
  | zero => simp [below]
  | succ l ih =>
    rw [List.range_succ (n := l + 1), List.flatMap_append]
    simp only [below, List.flatMap_cons, List.flatMap_nil, List.append_nil]
    rw [kids_cover]
    have : min (sz N n (l + 1) * N) (sz N n l) = sz N n l := by
      apply min_eq_right
      show sz N n l ≤ (sz N n l + N - 1) / N * N
      have := Nat.lt_div_mul_add (a := sz N n l + N - 1) (b := N) (by omega)
      omega
    rw [this]
    exact List.perm_append_comm.trans (List.Perm.append_right _ ih)

theorem Built.enumBlock_perm {N L : ℕ} {items : List (Box α)} {init : Box α} {e : Equiv.Perm ℕ}
    {s : SIndex α} (hb : Built N L items init e s) (l : ℕ) (hl : l < L) (i : ℕ) :
    (enumBlock s N items.length l (base N items.length l + i * N)).Perm
      (below N items.length l (kids N (sz N items.length l) i)) := by
  induction l generalizing i with
  | zero =>
    simp only [enumBlock, below]
    rw [blk_eq_map, List.map_map]
    exact List.Perm.refl _
  | succ l ih =>
    simp only [enumBlock, below]
    rw [blk_eq_map, List.map_map]
    refine List.Perm.append_left _ ?_
    refine (List.Perm.flatMap_right _ (List.reverse_perm _)).trans ?_
    rw [List.flatMap_map]
    refine List.Perm.trans ?_ (below_flatMap _ _ _ _ _)
    apply List.Perm.flatMap_left
    intro c hc
    rw [mem_kids] at hc
    have hidx : idx s (base N items.length (l + 1) + c) = base N items.length l + c * N := by
      unfold idx
      rw [List.getD_eq_getElem?_getD, (hb.link l hl c (by omega)).1]; rfl
    rw [hidx]
    exact ih (by omega) c

/-- the order in which visitBoundingBoxes presents (level, position) -/
def boxOrder (s : SIndex α) : List (ℕ × ℕ) :=
  enumBlock s s.nodeSize s.numItems (s.numLevels - 1) (s.numNodes - 1)

theorem Built.boxOrder_perm {N L : ℕ} {items : List (Box α)} {init : Box α} {e : Equiv.Perm ℕ}
    {s : SIndex α} (hN : 1 ≤ N) (hb : Built N L items init e s) :
    (boxOrder s).Perm ((List.range L).flatMap fun j =>
      (List.range (sz N items.length j)).map fun c => (j, base N items.length j + c)) := by
  obtain ⟨h1, h2, h3, h4⟩ := hb.root hN
  have hL := hb.two_le
  unfold boxOrder
  rw [hb.nodeSize, hb.numItems, hb.numLevels, h2]
  refine (hb.enumBlock_perm (L - 1) (by omega) 0).trans ?_
  have : kids N (sz N items.length (L - 1)) 0 = List.range (sz N items.length (L - 1)) := by
    rw [hb.top]; unfold kids; simp [List.range_eq_range', show min N 1 = 1 by omega]
  rw [this]
  have := below_range (N := N) (n := items.length) hN (L - 1)
  rwa [show L - 1 + 1 = L by omega] at this

theorem Built.visitBoundingBoxes_eq {N L : ℕ} {items : List (Box α)} {init : Box α}
    {e : Equiv.Perm ℕ} {s : SIndex α} (hN : 1 ≤ N) (hb : Built N L items init e s)
    (v : σ → ℕ → Box α → σ × Bool) (st : σ) :
    s.visitBoundingBoxes v st = .ok (runVisitor (paired v) st (present s (boxOrder s))).1 := by
  obtain ⟨h1, h2, h3, h4⟩ := hb.root hN
  unfold SIndex.visitBoundingBoxes
  rw [if_neg (by
    have := hb.two_le
    rw [hb.numLevels]; omega)]
  have := boundingBoxesLoop_spec hN hb v ((s.nodeSize + 1) ^ s.numLevels) (L - 1) (s.numNodes - 1) st
    [] h1 (by simp) (by
      simp only [wt, List.map_nil, List.sum_nil, Nat.add_zero, hb.nodeSize, hb.numLevels]
      exact Nat.pow_le_pow_right (by omega) (by omega))
  simp only [enc, List.flatMap_nil, List.append_nil] at this
  rw [hb.numLevels] at this ⊢
  rw [this]
  simp [boxOrder, hb.nodeSize, hb.numItems, hb.numLevels]

theorem Built.visitItemBoxes_eq {N L : ℕ} {items : List (Box α)} {init : Box α}
    {e : Equiv.Perm ℕ} {s : SIndex α} (hb : Built N L items init e s)
    (v : σ → ℕ → Box α → σ × Bool) (st : σ) :
    s.visitItemBoxes v st = .ok (runVisitor (paired v) st
      (present s ((List.range items.length).map fun c => (idx s c, c)))).1 := by
  unfold SIndex.visitItemBoxes
  have hL := hb.two_le
  have hlb : getM s.levelBounds 0 = .ok items.length := by
    rw [getM_eq_ok, hb.bounds]; simp [show 0 < L by omega, base_one]
  have hle : items.length ≤ s.boxes.length := by
    rw [hb.boxesLen]
    have := base_mono N items.length (a := 1) (b := L) (by omega)
    rw [base_one] at this; exact this
  rw [hlb, ok_bind, itemBoxesLoop_spec s v _ _ _ (by rw [hb.indicesLen, hb.boxesLen]) (by omega),
    List.range_eq_range']

end Cavc

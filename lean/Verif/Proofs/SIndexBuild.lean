import Verif.Proofs.Float32
import Verif.Proofs.Sort
import Mathlib.Data.List.Perm.Basic
import Mathlib.Data.List.Range

/-! Construction of the spatial index: what the arrays hold after `finish`. -/
namespace Cavc

/-- Number of boxes of tree level `l` (level 0 = items). -/
def sz (N n : ℕ) : ℕ → ℕ
  | 0 => n
  | l + 1 => (sz N n l + N - 1) / N

/-- Position of the first box of tree level `l`. -/
def base (N n : ℕ) : ℕ → ℕ
  | 0 => 0
  | l + 1 => base N n l + sz N n l

theorem sz_le {N n : ℕ} (hN : 1 ≤ N) (l : ℕ) : sz N n l ≤ n := by
  induction l with
  | zero => exact le_refl _
  | succ l ih =>
    refine le_trans ?_ ih
    show (sz N n l + N - 1) / N ≤ sz N n l
    rcases Nat.eq_zero_or_pos (sz N n l) with h | h
    · rw [h, Nat.div_eq_of_lt (by omega)]
    · have h2 : sz N n l * 1 ≤ sz N n l * N := Nat.mul_le_mul_left _ hN
      have : sz N n l + N - 1 < (sz N n l + 1) * N := by rw [add_mul]; omega
      have := (Nat.div_lt_iff_lt_mul hN).mpr this
      omega

theorem sz_pos {N n : ℕ} (hN : 1 ≤ N) (hn : 1 ≤ n) (l : ℕ) : 1 ≤ sz N n l := by
  induction l with
  | zero => exact hn
  | succ l ih =>
    show 1 ≤ (sz N n l + N - 1) / N
    exact (Nat.le_div_iff_mul_le hN).mpr (by omega)

theorem sz_succ_lt {N n : ℕ} (hN : 2 ≤ N) (l : ℕ) (h : 2 ≤ sz N n l) :
    sz N n (l + 1) < sz N n l := by
  show (sz N n l + N - 1) / N < sz N n l
  rw [Nat.div_lt_iff_lt_mul (by omega)]
  have h1 : sz N n l + N ≤ sz N n l * N := by nlinarith
  omega

theorem sz_succ_one {N n : ℕ} (hN : 1 ≤ N) (l : ℕ) (h : sz N n l = 1) : sz N n (l + 1) = 1 := by
  show (sz N n l + N - 1) / N = 1
  rw [h]; exact Nat.div_eq_of_lt_le (by omega) (by omega)

theorem nextLevelSize_sz {N n : ℕ} (hN : 1 ≤ N) (hN' : N ≤ 2 ^ 24) (hn : n ≤ 2 ^ 24) (l : ℕ) :
    nextLevelSize N (sz N n l) = sz N n (l + 1) :=
  nextLevelSize_exact hN hN' ((sz_le hN l).trans hn)

/-- Both level loops of the constructor. -/
theorem levelLoops_spec {N n : ℕ} (hN : 2 ≤ N) (hN' : N ≤ 2 ^ 24) (hn1 : 1 ≤ n) (hn : n ≤ 2 ^ 24)
    (fuel l : ℕ) (hf : sz N n l < fuel + 1) (hfp : 0 < fuel) :
    ∃ L, l + 2 ≤ L ∧ sz N n (L - 1) = 1 ∧ (∀ m, l + 1 ≤ m → m < L - 1 → sz N n m ≠ 1) ∧
      computeNumLevelsLoop N fuel (sz N n l) (l + 1) = .ok L ∧
      ∀ NL, L ≤ NL →
        levelBoundsLoop N NL fuel (sz N n l) (base N n (l + 1))
          ((List.range (l + 1)).map fun i => base N n (i + 1)) =
        .ok ((List.range L).map fun i => base N n (i + 1), base N n L) := by
  induction fuel generalizing l with
  | zero => omega
  | succ f ih =>
    unfold computeNumLevelsLoop levelBoundsLoop
    simp only [nextLevelSize_sz (by omega : 1 ≤ N) hN' hn]
    have happ : ((List.range (l + 1)).map fun i => base N n (i + 1)) ++
        [base N n (l + 1) + sz N n (l + 1)] =
        (List.range (l + 1 + 1)).map fun i => base N n (i + 1) := by
      rw [List.range_succ (n := l + 1), List.map_append]; rfl
    by_cases h1 : sz N n (l + 1) = 1
    · refine ⟨l + 2, le_refl _, by simpa using h1, by intro m h2 h3; omega, by simp [h1], ?_⟩
      intro NL hNL
      rw [if_pos (by simp; omega), if_neg (by simp [h1])]
      rw [happ]; rfl
    · have h2 : 2 ≤ sz N n l := by
        rcases Nat.lt_or_ge (sz N n l) 2 with h | h
        · exact absurd (sz_succ_one (by omega) l (by have := sz_pos (N := N) (by omega) hn1 l; omega)) h1
        · exact h
      have hlt := sz_succ_lt hN l h2
      have hp := sz_pos (N := N) (by omega) hn1 (l + 1)
      obtain ⟨L, hL1, hL2, hLm, hL3, hL4⟩ := ih (l + 1) (by omega) (by omega)
      refine ⟨L, by omega, hL2, ?_, ?_, ?_⟩
      · intro m h3 h4
        by_cases hm : m = l + 1
        · subst hm; exact h1
        · exact hLm m (by omega) h4
      · rw [if_pos h1]; exact hL3
      · intro NL hNL
        rw [if_pos (by simp; omega), if_pos h1, happ]
        exact hL4 NL hNL

variable {α : Type _}

theorem create_spec {N n : ℕ} (inf ninf : α) (hN : 2 ≤ N) (hN' : N ≤ 2 ^ 24) (hn1 : 1 ≤ n)
    (hn : n ≤ 2 ^ 24) :
    ∃ L, 2 ≤ L ∧ sz N n (L - 1) = 1 ∧ (∀ m, 1 ≤ m → m < L - 1 → sz N n m ≠ 1) ∧
      SIndex.create N inf ninf n = .ok ⟨N, n, L, (List.range L).map fun i => base N n (i + 1),
        base N n L, [], [], ⟨inf, inf, ninf, ninf⟩⟩ := by
  obtain ⟨L, h1, h2, hm, h3, h4⟩ := levelLoops_spec hN hN' hn1 hn (n + 1) 0 (by simp [sz]; omega)
    (by omega)
  have h4' := h4 L (le_refl _)
  simp only [sz, base, Nat.zero_add] at h3 h4'
  refine ⟨L, by omega, h2, fun m a b => hm m (by omega) b, ?_⟩
  unfold SIndex.create computeNumLevels
  have : decide (0 < n) = true := by simp; omega
  rw [this, assertM_true, ok_bind, h3, ok_bind]
  have h5 : (List.map (fun i => base N n (i + 1)) (List.range 1)) = [n] := by
    simp [List.range_succ, base, sz]
  simp only [base] at h5
  rw [h5] at h4'
  rw [h4']; rfl

section order
variable [LinearOrder α]

/-- `P` encloses `C`. -/
structure Encl (P C : Box α) : Prop where
  minX : P.minX ≤ C.minX
  minY : P.minY ≤ C.minY
  maxX : C.maxX ≤ P.maxX
  maxY : C.maxY ≤ P.maxY

theorem Encl.refl (P : Box α) : Encl P P := ⟨le_refl _, le_refl _, le_refl _, le_refl _⟩

theorem Encl.trans {P Q R : Box α} (h : Encl P Q) (h' : Encl Q R) : Encl P R :=
  ⟨h.minX.trans h'.minX, h.minY.trans h'.minY, h'.maxX.trans h.maxX, h'.maxY.trans h.maxY⟩

theorem grow_encl_left (e b : Box α) : Encl (e.grow b) e := by
  constructor <;> simp only [Box.grow] <;> split_ifs <;> first | exact le_refl _ | exact le_of_lt ‹_›

theorem grow_encl_right (e b : Box α) : Encl (e.grow b) b := by
  constructor <;> simp only [Box.grow] <;> split_ifs with h <;>
    first | exact le_refl _ | exact not_lt.mp h

theorem grow_eq (e b : Box α) :
    e.grow b = ⟨min b.minX e.minX, min b.minY e.minY, max b.maxX e.maxX, max b.maxY e.maxY⟩ := by
  simp only [Box.grow, Box.mk.injEq]
  refine ⟨?_, ?_, ?_, ?_⟩
  · split_ifs with h
    · rw [min_eq_left h.le]
    · rw [min_eq_right (not_lt.mp h)]
  · split_ifs with h
    · rw [min_eq_left h.le]
    · rw [min_eq_right (not_lt.mp h)]
  · split_ifs with h
    · rw [max_eq_left h.le]
    · rw [max_eq_right (not_lt.mp h)]
  · split_ifs with h
    · rw [max_eq_left h.le]
    · rw [max_eq_right (not_lt.mp h)]

theorem foldl_grow_encl (l : List (Box α)) (e : Box α) :
    Encl (l.foldl Box.grow e) e ∧ ∀ b ∈ l, Encl (l.foldl Box.grow e) b := by
  induction l generalizing e with
  | nil => exact ⟨Encl.refl _, by simp⟩
  | cons a l ih =>
    obtain ⟨h1, h2⟩ := ih (e.grow a)
    refine ⟨h1.trans (grow_encl_left _ _), ?_⟩
    intro b hb
    rcases List.mem_cons.mp hb with rfl | hb
    · exact h1.trans (grow_encl_right _ _)
    · exact h2 b hb

/-- The `add` calls. -/
theorem adds_spec (items : List (Box α)) (s : SIndex α)
    (hcap : s.boxes.length + items.length ≤ s.numNodes)
    (hidx : s.indices = List.range s.boxes.length) :
    items.foldlM (fun s b => s.add b) s =
      (.ok { s with
        boxes := s.boxes ++ items
        indices := List.range (s.boxes.length + items.length)
        ext := items.foldl Box.grow s.ext } : M (SIndex α)) := by
  induction items generalizing s with
  | nil =>
    obtain ⟨_, _, _, _, _, _, _, _⟩ := s
    simp at hidx
    simp [hidx]
  | cons b l ih =>
    rw [List.foldlM_cons]
    simp only [List.length_cons] at hcap
    have : s.add b = .ok { s with
        boxes := s.boxes ++ [b]
        indices := List.range (s.boxes.length + 1)
        ext := s.ext.grow b } := by
      unfold SIndex.add SIndex.append
      rw [if_pos (by omega)]
      simp [hidx, List.range_succ]
    rw [this, ok_bind, ih]
    · simp only [List.length_append, List.length_cons, List.length_nil, List.append_assoc,
        List.cons_append, List.nil_append, List.foldl_cons]
      rw [show s.boxes.length + (0 + 1) + l.length = s.boxes.length + (l.length + 1) by omega]
    · simp; omega
    · simp

theorem nodeScan_spec (boxes : List (Box α)) (endPos : ℕ) (hend : endPos ≤ boxes.length)
    (j pos : ℕ) (e : Box α) (hpos : pos ≤ endPos) :
    ∃ e', nodeScan boxes endPos j pos e = .ok (e', min (pos + j) endPos) ∧ Encl e' e ∧
      ∀ c, pos ≤ c → c < min (pos + j) endPos → ∀ C, boxes[c]? = some C → Encl e' C := by
  induction j generalizing pos e with
  | zero =>
    refine ⟨e, ?_, Encl.refl _, ?_⟩
    · simp [nodeScan, hpos]
    · intro c h1 h2; omega
  | succ j ih =>
    unfold nodeScan
    by_cases h : pos < endPos
    · rw [if_pos h, getM_of_lt (by omega), ok_bind]
      obtain ⟨e', h1, h2, h3⟩ := ih (pos + 1) (e.grow boxes[pos]) h
      refine ⟨e', ?_, h2.trans (grow_encl_left _ _), ?_⟩
      · rw [h1, show pos + 1 + j = pos + (j + 1) by omega]
      · intro c hc1 hc2 C hC
        by_cases hcp : c = pos
        · subst hcp
          rw [List.getElem?_eq_getElem (by omega)] at hC
          injection hC with hC
          subst hC
          exact h2.trans (grow_encl_right _ _)
        · exact h3 c (by omega) (by omega) C hC
    · rw [if_neg h]
      refine ⟨e, ?_, Encl.refl _, ?_⟩
      · rw [show min (pos + (j + 1)) endPos = pos by omega]
      · intro c h1 h2; omega

/-- Links between a box and its block of children, for tree level `m + 1`, first `k` nodes. -/
def Linked (N n m k : ℕ) (boxes : List (Box α)) (indices : List ℕ) : Prop :=
  ∀ i < k, indices[base N n (m + 1) + i]? = some (base N n m + i * N) ∧
    ∀ c, base N n m + i * N ≤ c → c < min (base N n m + i * N + N) (base N n (m + 1)) →
      ∀ P C, boxes[base N n (m + 1) + i]? = some P → boxes[c]? = some C → Encl P C

theorem Linked.append {N n m k : ℕ} {boxes : List (Box α)} {indices : List ℕ}
    (h : Linked N n m k boxes indices) (hb : base N n (m + 1) + k ≤ boxes.length)
    (hi : base N n (m + 1) + k ≤ indices.length)
    (bs : List (Box α)) (is : List ℕ) : Linked N n m k (boxes ++ bs) (indices ++ is) := by
  intro i hik
  obtain ⟨h1, h2⟩ := h i hik
  refine ⟨?_, ?_⟩
  · rw [List.getElem?_append_left (by omega)]; exact h1
  · intro c hc1 hc2 P C hP hC
    rw [List.getElem?_append_left (by omega)] at hP
    rw [List.getElem?_append_left (by omega)] at hC
    exact h2 c hc1 hc2 P C hP hC

theorem levelLoop_spec {N n m : ℕ} (inf ninf : α) (hN : 1 ≤ N)
    (fuel : ℕ) (s : SIndex α) (hs : s.nodeSize = N) (k : ℕ)
    (hcap : base N n (m + 1) + sz N n (m + 1) ≤ s.numNodes)
    (hk : k ≤ sz N n (m + 1))
    (hb : s.boxes.length = base N n (m + 1) + k) (hi : s.indices.length = base N n (m + 1) + k)
    (hl : Linked N n m k s.boxes s.indices)
    (hfuel : sz N n (m + 1) - k < fuel) :
    ∃ bs is, levelLoop inf ninf (base N n (m + 1)) fuel s
        (min (base N n m + k * N) (base N n (m + 1))) =
        .ok ({ s with boxes := s.boxes ++ bs, indices := s.indices ++ is }, base N n (m + 1)) ∧
      bs.length = sz N n (m + 1) - k ∧ is.length = sz N n (m + 1) - k ∧
      Linked N n m (sz N n (m + 1)) (s.boxes ++ bs) (s.indices ++ is) := by
  induction fuel generalizing s k with
  | zero => omega
  | succ f ih =>
    have hszd : sz N n (m + 1) = (sz N n m + N - 1) / N := rfl
    have hbase : base N n (m + 1) = base N n m + sz N n m := rfl
    unfold levelLoop
    by_cases hlt : k < sz N n (m + 1)
    · have h1 : k * N < sz N n m := by
        have : k + 1 ≤ (sz N n m + N - 1) / N := by omega
        rw [Nat.le_div_iff_mul_le hN, add_mul] at this
        omega
      have hpos : min (base N n m + k * N) (base N n (m + 1)) = base N n m + k * N := by omega
      rw [hpos, if_pos (by omega), hs]
      obtain ⟨e', he1, he2, he3⟩ := nodeScan_spec s.boxes (base N n (m + 1)) (by omega) N
        (base N n m + k * N) ⟨inf, inf, ninf, ninf⟩ (by omega)
      simp only
      rw [he1, ok_bind]
      simp only [SIndex.append]
      rw [if_pos (by omega), ok_bind]
      have hnext : min (base N n m + k * N + N) (base N n (m + 1)) =
          min (base N n m + (k + 1) * N) (base N n (m + 1)) := by
        rw [show base N n m + k * N + N = base N n m + (k + 1) * N by ring]
      rw [hnext]
      have hl' : Linked N n m (k + 1) (s.boxes ++ [e']) (s.indices ++ [base N n m + k * N]) := by
        intro i hik
        by_cases hi' : i = k
        · subst hi'
          refine ⟨?_, ?_⟩
          · rw [List.getElem?_append_right (by omega), hi]; simp
          · intro c hc1 hc2 P C hP hC
            rw [List.getElem?_append_right (by omega), hb] at hP
            simp at hP
            subst hP
            rw [List.getElem?_append_left (by omega)] at hC
            exact he3 c hc1 hc2 C hC
        · exact (hl.append (by omega) (by omega) [e'] [base N n m + k * N]) i (by omega)
      obtain ⟨bs, is, g1, g2, g3, g4⟩ := ih
        { s with boxes := s.boxes ++ [e'], indices := s.indices ++ [base N n m + k * N] } hs
        (k + 1) hcap (by omega) (by simp; omega) (by simp; omega) hl' (by omega)
      refine ⟨e' :: bs, (base N n m + k * N) :: is, ?_, by simp; omega, by simp; omega, ?_⟩
      · rw [g1]; simp [hs]
      · simpa using g4
    · have hk' : k = sz N n (m + 1) := by omega
      have h2 : sz N n m ≤ k * N := by
        rw [hk', hszd]
        have := Nat.lt_div_mul_add (a := sz N n m + N - 1) (b := N) (by omega)
        omega
      have hpos : min (base N n m + k * N) (base N n (m + 1)) = base N n (m + 1) := by omega
      rw [hpos, if_neg (by omega)]
      exact ⟨[], [], by simp, by simp; omega, by simp; omega, by simpa [hk'] using hl⟩

theorem levelsLoop_spec {N n L : ℕ} (inf ninf : α) (hN : 1 ≤ N)
    (k i : ℕ) (s : SIndex α) (hs : s.nodeSize = N)
    (hbd : s.levelBounds = (List.range L).map fun i => base N n (i + 1))
    (hcap : s.numNodes = base N n L) (hkL : i + k + 1 = L)
    (hb : s.boxes.length = base N n (i + 1)) (hi : s.indices.length = base N n (i + 1))
    (hl : ∀ m < i, Linked N n m (sz N n (m + 1)) s.boxes s.indices) :
    ∃ bs is, levelsLoop inf ninf k i s (base N n i) =
        .ok { s with boxes := s.boxes ++ bs, indices := s.indices ++ is } ∧
      (s.boxes ++ bs).length = base N n L ∧ (s.indices ++ is).length = base N n L ∧
      ∀ m, m + 1 < L → Linked N n m (sz N n (m + 1)) (s.boxes ++ bs) (s.indices ++ is) := by
  induction k generalizing i s with
  | zero =>
    refine ⟨[], [], by simp [levelsLoop], ?_, ?_, ?_⟩
    · rw [← hkL]; simpa using hb
    · rw [← hkL]; simpa using hi
    · intro m hm; simpa using hl m (by omega)
  | succ k ih =>
    unfold levelsLoop
    have hg : getM s.levelBounds i = .ok (base N n (i + 1)) := by
      rw [getM_eq_ok, hbd]; simp [show i < L by omega]
    rw [hg, ok_bind]
    have hmono : ∀ a b, a ≤ b → base N n a ≤ base N n b := by
      intro a b hab
      induction hab with
      | refl => exact le_refl _
      | step _ ih => exact ih.trans (by simp [base])
    have hszle : sz N n (i + 1) ≤ sz N n i := sz_le (n := sz N n i) hN 1
    obtain ⟨bs, is, h1, h2, h3, h4⟩ := levelLoop_spec (m := i) inf ninf hN (base N n (i + 1) + 1) s hs 0
      (by rw [hcap]; exact hmono (i + 1 + 1) L (by omega)) (by omega) (by omega) (by omega)
      (by intro x hx; omega) (by have : base N n (i+1) = base N n i + sz N n i := rfl
                                 omega)
    have hpos : min (base N n i + 0 * N) (base N n (i + 1)) = base N n i := by
      have : base N n (i+1) = base N n i + sz N n i := rfl
      omega
    rw [hpos] at h1
    rw [h1, ok_bind]
    obtain ⟨bs', is', g1, g2, g3, g4⟩ := ih (i + 1)
      { s with boxes := s.boxes ++ bs, indices := s.indices ++ is } hs hbd hcap (by omega)
      (by simp [h2, hb]; rfl) (by simp [h3, hi]; rfl)
      (by
        intro m hm
        by_cases hmi : m = i
        · subst hmi; exact h4
        · refine (hl m (by omega)).append ?_ ?_ _ _
          · rw [hb]; exact hmono (m + 1 + 1) (i + 1) (by omega)
          · rw [hi]; exact hmono (m + 1 + 1) (i + 1) (by omega))
    refine ⟨bs ++ bs', is ++ is', ?_, ?_, ?_, ?_⟩
    · simp only; rw [g1]; simp
    · simpa using g2
    · simpa using g3
    · simpa using g4

/-- Everything that holds of an index after the documented construction. `e` maps a position of
the bottom level to the item stored there. -/
structure Built (N L : ℕ) (items : List (Box α)) (init : Box α) (e : Equiv.Perm ℕ)
    (s : SIndex α) : Prop where
  nodeSize : s.nodeSize = N
  numItems : s.numItems = items.length
  numLevels : s.numLevels = L
  two_le : 2 ≤ L
  top : sz N items.length (L - 1) = 1
  bounds : s.levelBounds = (List.range L).map fun i => base N items.length (i + 1)
  numNodes : s.numNodes = base N items.length L
  boxesLen : s.boxes.length = base N items.length L
  indicesLen : s.indices.length = base N items.length L
  leafIdx : ∀ k < items.length, s.indices[k]? = some (e k)
  leafBox : ∀ k < items.length, s.boxes[k]? = items[e k]?
  fix : ∀ k, items.length ≤ k → e k = k
  link : ∀ m, m + 1 < L → Linked N items.length m (sz N items.length (m + 1)) s.boxes s.indices
  ext : s.ext = items.foldl Box.grow init

theorem mapM_ok {β γ : Type _} (f : β → M γ) (l : List β) (h : ∀ x ∈ l, ∃ y, f x = .ok y) :
    ∃ l', l.mapM f = .ok l' ∧ l'.length = l.length := by
  induction l with
  | nil => exact ⟨[], rfl, rfl⟩
  | cons a l ih =>
    obtain ⟨y, hy⟩ := h a (by simp)
    obtain ⟨l', hl', hlen⟩ := ih (fun x hx => h x (by simp [hx]))
    exact ⟨y :: l', by simp [List.mapM_cons, hy, hl'], by simp [hlen]⟩

theorem mapM_at {β γ : Type _} {f : β → M γ} {l : List β} {l' : List γ} (h : l.mapM f = .ok l')
    (k : ℕ) (x : β) (hx : l[k]? = some x) (v : γ) (hv : f x = .ok v) : l'[k]? = some v := by
  induction l generalizing l' k with
  | nil => simp at hx
  | cons a l ih =>
    rw [List.mapM_cons] at h
    obtain ⟨y, hy, h⟩ := bind_eq_ok.1 h
    obtain ⟨r, hr, h⟩ := bind_eq_ok.1 h
    have h := Except.ok.inj h
    subst h
    cases k with
    | zero =>
      simp only [List.getElem?_cons_zero, Option.some.injEq] at hx ⊢
      subst hx
      rw [hy] at hv
      exact Except.ok.inj hv
    | succ k => exact ih hr k hx

theorem base_mono (N n : ℕ) {a b : ℕ} (hab : a ≤ b) : base N n a ≤ base N n b := by
  induction hab with
  | refl => exact le_refl _
  | step _ ih => exact ih.trans (by simp [base])

theorem base_one (N n : ℕ) : base N n 1 = n := by simp [base, sz]

theorem build_sorted {N : ℕ} (inf ninf : α) (hv : Box α → Box α → M ℕ) (items : List (Box α))
    (hN : 2 ≤ N) (hN' : N ≤ 2 ^ 24) (hn1 : 1 ≤ items.length) (hn : items.length ≤ 2 ^ 24)
    (hhv : N < items.length →
      ∀ b ∈ items, ∃ v, hv (items.foldl Box.grow ⟨inf, inf, ninf, ninf⟩) b = .ok v) :
    ∃ s L e, SIndex.build N inf ninf hv items = .ok s ∧
      Built N L items ⟨inf, inf, ninf, ninf⟩ e s ∧
      ∀ a b, a < items.length → b < items.length → a / N < b / N →
        ∀ ba bb va vb, items[e a]? = some ba → items[e b]? = some bb →
          hv (items.foldl Box.grow ⟨inf, inf, ninf, ninf⟩) ba = .ok va →
          hv (items.foldl Box.grow ⟨inf, inf, ninf, ninf⟩) bb = .ok vb → va ≤ vb := by
  obtain ⟨L, hL2, htop, hmin, h0⟩ := create_spec inf ninf hN hN' hn1 hn
  have hb1 := base_one N items.length
  have hnL : items.length ≤ base N items.length L := by
    have := base_mono N items.length (a := 1) (b := L) (by omega)
    omega
  unfold SIndex.build
  rw [h0, ok_bind, adds_spec items _ (by simpa using hnL) (by simp), ok_bind]
  simp only [List.nil_append, List.length_nil, Nat.zero_add]
  unfold SIndex.finish
  simp only [decide_true, assertM_true, ok_bind]
  by_cases hle : items.length ≤ N
  · -- single node
    rw [if_pos hle]
    have hs1 : sz N items.length 1 = 1 := by
      show (items.length + N - 1) / N = 1
      exact Nat.div_eq_of_lt_le (by omega) (by omega)
    have hL : L = 2 := by
      by_contra hne
      exact hmin 1 (le_refl _) (by omega) hs1
    have hbL : base N items.length L = items.length + 1 := by
      rw [hL]; show base N items.length 1 + sz N items.length 1 = _
      rw [hb1, hs1]
    unfold SIndex.append
    rw [if_pos (by simp only; omega)]
    refine ⟨_, L, Equiv.refl ℕ, rfl, ⟨rfl, rfl, rfl, hL2, htop,
      rfl, rfl, ?_, ?_, ?_, ?_, ?_, ?_, rfl⟩, ?_⟩
    · simp; omega
    · simp; omega
    · intro k hk
      show (List.range items.length ++ [0])[k]? = some k
      rw [List.getElem?_append_left (by simpa using hk)]; simp [hk]
    · intro k hk
      show (items ++ [_])[k]? = items[k]?
      rw [List.getElem?_append_left hk]
    · intro k _; rfl
    · intro m hm
      have : m = 0 := by omega
      subst this
      intro i hi
      simp only [Nat.zero_add] at hi ⊢
      rw [hs1] at hi
      have : i = 0 := by omega
      subst this
      rw [hb1]
      refine ⟨?_, ?_⟩
      · rw [List.getElem?_append_right (by simp)]; simp [base]
      · intro c hc1 hc2 P C hP hC
        rw [List.getElem?_append_right (by simp)] at hP
        simp at hP
        subst hP
        rw [List.getElem?_append_left (by omega)] at hC
        exact (foldl_grow_encl items _).2 C (List.mem_of_getElem? hC)
    · intro a b ha hb hab
      rw [Nat.div_eq_of_lt (by omega), Nat.div_eq_of_lt (show b < N by omega)] at hab
      omega
  · rw [if_neg hle]
    obtain ⟨values, hval, hvlen⟩ := mapM_ok (hv (items.foldl Box.grow ⟨inf, inf, ninf, ninf⟩))
      (items.take items.length) (fun x hx => hhv (by omega) x (List.mem_of_mem_take hx))
    rw [hval, ok_bind]
    obtain ⟨st, e, hst, hlen, hmv, hord⟩ := sortLoop_spec N items.length (items.length + 1)
      ⟨values, items, List.range items.length⟩ ⟨by simp [hvlen], rfl, by simp⟩ 0 (items.length - 1)
      (by omega) (by omega) (by omega)
    rw [hst, ok_bind]
    obtain ⟨bs, is, g1, g2, g3, g4⟩ := levelsLoop_spec (N := N) (n := items.length) (L := L) inf ninf
      (by omega) (L - 1) 0 ⟨N, items.length, L, (List.range L).map fun i => base N items.length (i + 1),
        base N items.length L, st.boxes, st.indices, items.foldl Box.grow ⟨inf, inf, ninf, ninf⟩⟩
      rfl rfl rfl (by omega)
      (by simp [hlen.boxes, hb1]) (by simp [hlen.indices, hb1]) (by intro m hm; omega)
    refine ⟨_, L, e, g1, ⟨rfl, rfl, rfl, hL2, htop, rfl,
      rfl, g2, g3, ?_, ?_, ?_, g4, rfl⟩, ?_⟩
    · intro k hk
      show (st.indices ++ is)[k]? = _
      rw [List.getElem?_append_left (by rw [hlen.indices]; exact hk), hmv.indices]
      have := hmv.mem (k := k) ⟨by omega, by omega⟩
      exact List.getElem?_range (by omega)
    · intro k hk
      show (st.boxes ++ bs)[k]? = _
      rw [List.getElem?_append_left (by rw [hlen.boxes]; exact hk), hmv.boxes]
    · intro k hk
      exact hmv.fix k (by omega)
    · intro a b ha hb hab ba bb va vb hba hbb hva hvb
      have ea := mapM_at hval (e a) ba (by rw [List.take_length]; exact hba) va hva
      have eb := mapM_at hval (e b) bb (by rw [List.take_length]; exact hbb) vb hvb
      have hle' : a ≤ b := by
        by_contra hc
        have := Nat.div_le_div_right (c := N) (show b ≤ a by omega)
        omega
      have := hord a b (by omega) hle' (by omega) hab
      rw [List.getD_eq_getElem?_getD, List.getD_eq_getElem?_getD, hmv.values, hmv.values] at this
      simp only at this
      rw [ea, eb] at this
      exact this

theorem build_spec {N : ℕ} (inf ninf : α) (hv : Box α → Box α → M ℕ) (items : List (Box α))
    (hN : 2 ≤ N) (hN' : N ≤ 2 ^ 24) (hn1 : 1 ≤ items.length) (hn : items.length ≤ 2 ^ 24)
    (hhv : N < items.length →
      ∀ b ∈ items, ∃ v, hv (items.foldl Box.grow ⟨inf, inf, ninf, ninf⟩) b = .ok v) :
    ∃ s L e, SIndex.build N inf ninf hv items = .ok s ∧
      Built N L items ⟨inf, inf, ninf, ninf⟩ e s := by
  obtain ⟨s, L, e, h1, h2, -⟩ := build_sorted inf ninf hv items hN hN' hn1 hn hhv
  exact ⟨s, L, e, h1, h2⟩

end order

end Cavc

import Verif.Model.SpatialIndex
import Mathlib.Logic.Equiv.Basic
import Mathlib.Tactic.Linarith

/-! The bucket quicksort of the spatial index: partial correctness, termination, no faults. -/
namespace Cavc

variable {α : Type _}

theorem getM_getD {β : Type _} {l : List β} {i : ℕ} (d : β) (h : i < l.length) :
    getM l i = .ok (l.getD i d) := by
  simp [h]

theorem swapM_spec {β : Type _} (l : List β) {i j : ℕ} (hi : i < l.length) (hj : j < l.length) :
    ∃ l', swapM l i j = .ok l' ∧ l'.length = l.length ∧
      ∀ k, l'[k]? = l[Equiv.swap i j k]? := by
  refine ⟨(l.set i l[j]).set j l[i], ?_, by simp, ?_⟩
  · simp [swapM, hi, hj, setM]
  · intro k
    by_cases h1 : k = j
    · subst h1
      simp [hi, hj]
    · rw [List.getElem?_set_ne (Ne.symm h1)]
      by_cases h2 : k = i
      · subst h2; simp [hi, hj]
      · rw [List.getElem?_set_ne (Ne.symm h2), Equiv.swap_apply_of_ne_of_ne h2 h1]

theorem scanUp_spec (l : List ℕ) (pivot : ℕ) (fuel i k : ℕ) (hik : i ≤ k) (hk : k < l.length)
    (hkp : pivot ≤ l.getD k 0) (hf : k - i < fuel) :
    ∃ r, scanUp l pivot fuel i = .ok r ∧ i ≤ r ∧ r ≤ k ∧ pivot ≤ l.getD r 0 ∧
      ∀ m, i ≤ m → m < r → l.getD m 0 < pivot := by
  induction fuel generalizing i with
  | zero => omega
  | succ f ih =>
    unfold scanUp
    rw [getM_getD 0 (by omega)]
    simp only [ok_bind]
    split_ifs with h
    · have hne : i ≠ k := by rintro rfl; omega
      obtain ⟨r, h1, h2, h3, h4, h5⟩ := ih (i + 1) (by omega) (by omega)
      refine ⟨r, h1, by omega, h3, h4, ?_⟩
      intro m hm1 hm2
      by_cases hmi : m = i
      · subst hmi; exact h
      · exact h5 m (by omega) hm2
    · exact ⟨i, rfl, le_refl _, hik, by omega, by intro m h1 h2; omega⟩

theorem scanDown_spec (l : List ℕ) (pivot : ℕ) (fuel j k : ℕ) (hkj : k < j) (hj : j ≤ l.length)
    (hkp : l.getD k 0 ≤ pivot) (hf : j - k ≤ fuel) :
    ∃ r, scanDown l pivot fuel j = .ok r ∧ r < j ∧ k ≤ r ∧ l.getD r 0 ≤ pivot ∧
      ∀ m, r < m → m < j → pivot < l.getD m 0 := by
  induction fuel generalizing j with
  | zero => omega
  | succ f ih =>
    unfold scanDown
    rw [if_neg (by omega), getM_getD 0 (by omega)]
    simp only [ok_bind]
    split_ifs with h
    · have hne : k ≠ j - 1 := by rintro rfl; omega
      obtain ⟨r, h1, h2, h3, h4, h5⟩ := ih (j - 1) (by omega) (by omega) (by omega)
      refine ⟨r, h1, by omega, h3, h4, ?_⟩
      intro m hm1 hm2
      by_cases hmi : m = j - 1
      · subst hmi; exact h
      · exact h5 m hm1 (by omega)
    · exact ⟨j - 1, rfl, by omega, by omega, by omega, by intro m h1 h2; omega⟩

/-- `st'` is `st` with all three arrays rearranged by the same permutation `e` that only moves
positions of `[left, right]`. -/
structure Moved (st st' : SortState α) (left right : ℕ) (e : Equiv.Perm ℕ) : Prop where
  fix : ∀ k, (k < left ∨ right < k) → e k = k
  values : ∀ k, st'.values[k]? = st.values[e k]?
  boxes : ∀ k, st'.boxes[k]? = st.boxes[e k]?
  indices : ∀ k, st'.indices[k]? = st.indices[e k]?

structure Len (st : SortState α) (n : ℕ) : Prop where
  values : st.values.length = n
  boxes : st.boxes.length = n
  indices : st.indices.length = n

theorem Moved.refl (st : SortState α) (l r : ℕ) : Moved st st l r (Equiv.refl ℕ) :=
  ⟨fun _ _ => rfl, fun _ => rfl, fun _ => rfl, fun _ => rfl⟩

theorem Moved.trans {st st' st'' : SortState α} {l r : ℕ} {e e' : Equiv.Perm ℕ}
    (h : Moved st st' l r e) (h' : Moved st' st'' l r e') : Moved st st'' l r (e'.trans e) := by
  refine ⟨?_, ?_, ?_, ?_⟩
  · intro k hk; simp [h'.fix k hk, h.fix k hk]
  · intro k; rw [h'.values, h.values]; rfl
  · intro k; rw [h'.boxes, h.boxes]; rfl
  · intro k; rw [h'.indices, h.indices]; rfl

theorem Moved.mono {st st' : SortState α} {l r l' r' : ℕ} {e : Equiv.Perm ℕ}
    (h : Moved st st' l r e) (hl : l' ≤ l) (hr : r ≤ r') : Moved st st' l' r' e :=
  ⟨fun k hk => h.fix k (by omega), h.values, h.boxes, h.indices⟩

/-- positions of the range stay in the range -/
theorem Moved.mem {st st' : SortState α} {l r : ℕ} {e : Equiv.Perm ℕ}
    (h : Moved st st' l r e) {k : ℕ} (hk : l ≤ k ∧ k ≤ r) : l ≤ e k ∧ e k ≤ r := by
  by_contra hc
  have h1 : e (e k) = e k := h.fix _ (by omega)
  have h2 : e k = k := e.injective h1
  rw [h2] at hc; exact hc hk

theorem Moved.getD {st st' : SortState α} {l r : ℕ} {e : Equiv.Perm ℕ}
    (h : Moved st st' l r e) (k : ℕ) : st'.values.getD k 0 = st.values.getD (e k) 0 := by
  rw [List.getD_eq_getElem?_getD, List.getD_eq_getElem?_getD, h.values]

theorem swap_spec (st : SortState α) {n i j : ℕ} (hlen : Len st n) (hi : i < n) (hj : j < n)
    {left right : ℕ} (h1 : left ≤ i ∧ i ≤ right) (h2 : left ≤ j ∧ j ≤ right) :
    ∃ st', st.swap i j = .ok st' ∧ Len st' n ∧ Moved st st' left right (Equiv.swap i j) := by
  obtain ⟨v, hv, hvl, hvk⟩ := swapM_spec st.values (i := i) (j := j)
    (by rw [hlen.values]; exact hi) (by rw [hlen.values]; exact hj)
  obtain ⟨b, hb, hbl, hbk⟩ := swapM_spec st.boxes (i := i) (j := j)
    (by rw [hlen.boxes]; exact hi) (by rw [hlen.boxes]; exact hj)
  obtain ⟨x, hx, hxl, hxk⟩ := swapM_spec st.indices (i := i) (j := j)
    (by rw [hlen.indices]; exact hi) (by rw [hlen.indices]; exact hj)
  refine ⟨⟨v, b, x⟩, ?_, ⟨?_, ?_, ?_⟩, ?_, hvk, hbk, hxk⟩
  · simp [SortState.swap, hv, hb, hx]
  · rw [hvl, hlen.values]
  · rw [hbl, hlen.boxes]
  · rw [hxl, hlen.indices]
  · intro k hk
    exact Equiv.swap_apply_of_ne_of_ne (by omega) (by omega)

/-- The loop of the partition from a state in which both scans are guarded by sentinels. -/
theorem partitionLoop_spec (pivot n left right : ℕ) (hright : right < n)
    (fuel : ℕ) (st : SortState α) (hlen : Len st n) (i j : ℕ)
    (hi : left ≤ i) (hj : j ≤ right + 1)
    (hlo : ∀ m, left ≤ m → m < i → st.values.getD m 0 ≤ pivot)
    (hhi : ∀ m, j ≤ m → m ≤ right → pivot ≤ st.values.getD m 0)
    (su : ℕ) (hsu : i ≤ su ∧ su ≤ right) (hsuv : pivot ≤ st.values.getD su 0)
    (sd : ℕ) (hsd : left ≤ sd ∧ sd < j) (hsdv : st.values.getD sd 0 ≤ pivot)
    (hprog : (i = left ∧ j = right + 1 ∧ su < right) ∨ (j ≤ right ∧ su ≤ j))
    (hsd' : i ≤ sd + 1)
    (hfuel : j - i < fuel) :
    ∃ st' r e, partitionLoop pivot fuel st i j = .ok (st', r) ∧ Len st' n ∧
      Moved st st' left right e ∧ left ≤ r ∧ r < right ∧
      (∀ m, left ≤ m → m ≤ r → st'.values.getD m 0 ≤ pivot) ∧
      (∀ m, r < m → m ≤ right → pivot ≤ st'.values.getD m 0) := by
  induction fuel generalizing st i j su sd with
  | zero => omega
  | succ f ih =>
    unfold partitionLoop
    obtain ⟨a, ha, ha1, ha2, ha3, ha4⟩ := scanUp_spec st.values pivot (st.values.length + 1) i su
      hsu.1 (by rw [hlen.values]; omega) hsuv (by rw [hlen.values]; omega)
    obtain ⟨b, hb, hb1, hb2, hb3, hb4⟩ := scanDown_spec st.values pivot (st.values.length + 1) j sd
      hsd.2 (by rw [hlen.values]; omega) hsdv (by rw [hlen.values]; omega)
    rw [ha, ok_bind, hb, ok_bind]
    by_cases hab : a ≥ b
    · rw [if_pos hab]
      refine ⟨st, b, Equiv.refl ℕ, rfl, hlen, Moved.refl _ _ _, by omega, ?_, ?_, ?_⟩
      · rcases hprog with ⟨h1, h2, h3⟩ | ⟨h1, h2⟩
        · omega
        · omega
      · intro m h1 h2
        by_cases hmb : m = b
        · subst hmb; exact hb3
        · by_cases hmi : m < i
          · exact hlo m h1 hmi
          · exact (ha4 m (by omega) (by omega)).le
      · intro m h1 h2
        by_cases hmj : m < j
        · exact (hb4 m h1 hmj).le
        · exact hhi m (by omega) h2
    · rw [if_neg hab]
      push Not at hab
      obtain ⟨st1, hst1, hlen1, hmv⟩ := swap_spec st hlen (i := a) (j := b) (by omega) (by omega)
        (left := left) (right := right) (by omega) (by omega)
      rw [hst1, ok_bind]
      have hva : st1.values.getD a 0 = st.values.getD b 0 := by
        rw [hmv.getD, Equiv.swap_apply_left]
      have hvb : st1.values.getD b 0 = st.values.getD a 0 := by
        rw [hmv.getD, Equiv.swap_apply_right]
      have hvo : ∀ m, m ≠ a → m ≠ b → st1.values.getD m 0 = st.values.getD m 0 := by
        intro m h1 h2
        rw [hmv.getD, Equiv.swap_apply_of_ne_of_ne h1 h2]
      obtain ⟨st', r, e, hr, hl', hm', hr1, hr2, hr3, hr4⟩ :=
        ih st1 hlen1 (a + 1) b (by omega) (by omega)
          (by
            intro m h1 h2
            by_cases hma : m = a
            · subst hma; rw [hva]; exact hb3
            · rw [hvo m hma (by omega)]
              by_cases hmi : m < i
              · exact hlo m h1 hmi
              · exact (ha4 m (by omega) (by omega)).le)
          (by
            intro m h1 h2
            by_cases hmb : m = b
            · subst hmb; rw [hvb]; exact ha3
            · rw [hvo m (by omega) hmb]
              by_cases hmj : m < j
              · exact (hb4 m (by omega) hmj).le
              · exact hhi m (by omega) h2)
          b (by omega) (by rw [hvb]; exact ha3)
          a (by omega) (by rw [hva]; exact hb3)
          (Or.inr ⟨by
            rcases hprog with ⟨h1, h2, h3⟩ | ⟨h1, h2⟩ <;> omega, le_refl _⟩)
          (by omega) (by omega)
      exact ⟨st', r, _, hr, hl', hmv.trans hm', hr1, hr2, hr3, hr4⟩

/-- `sort` on `[left, right]`: no fault, a common permutation of the three arrays, and afterwards
values of different `N`-blocks are ordered. -/
theorem sortLoop_spec (N n : ℕ) (fuel : ℕ) (st : SortState α) (hlen : Len st n)
    (left right : ℕ) (hlr : left ≤ right) (hright : right < n) (hfuel : right - left < fuel) :
    ∃ st' e, sortLoop N fuel st left right = .ok st' ∧ Len st' n ∧ Moved st st' left right e ∧
      ∀ a b, left ≤ a → a ≤ b → b ≤ right → a / N < b / N →
        st'.values.getD a 0 ≤ st'.values.getD b 0 := by
  induction fuel generalizing st left right with
  | zero => omega
  | succ f ih =>
    unfold sortLoop
    simp only [hlr, decide_true, assertM_true, ok_bind]
    by_cases hb : left / N ≥ right / N
    · rw [if_pos hb]
      refine ⟨st, Equiv.refl ℕ, rfl, hlen, Moved.refl _ _ _, ?_⟩
      intro a b h1 h2 h3 h4
      have h5 : left / N ≤ a / N := Nat.div_le_div_right h1
      have h6 : b / N ≤ right / N := Nat.div_le_div_right h3
      omega
    · rw [if_neg hb]
      have hlt : left < right := by
        rcases Nat.lt_or_ge left right with h | h
        · exact h
        · exact absurd (Nat.div_le_div_right h) hb
      set mid := (left + right) / 2 with hmid
      rw [getM_getD 0 (by rw [hlen.values]; omega), ok_bind]
      set pivot := st.values.getD mid 0 with hpiv
      obtain ⟨st1, j, e1, h1, hl1, hm1, hj1, hj2, hlo, hhi⟩ :=
        partitionLoop_spec pivot n left right hright (st.values.length + 1) st hlen left (right + 1)
          (le_refl _) (le_refl _) (by intro m _ _; omega) (by intro m _ _; omega)
          mid (by omega) (le_refl _) mid (by omega) (le_refl _)
          (Or.inl ⟨rfl, rfl, by omega⟩) (by omega) (by rw [hlen.values]; omega)
      rw [h1, ok_bind]
      obtain ⟨st2, e2, h2, hl2, hm2, hs2⟩ := ih st1 hl1 left j hj1 (by omega) (by omega)
      simp only
      rw [h2, ok_bind]
      obtain ⟨st3, e3, h3, hl3, hm3, hs3⟩ := ih st2 hl2 (j + 1) right (by omega) (by omega) (by omega)
      refine ⟨st3, _, h3, hl3,
        (hm1.trans (hm2.mono (le_refl _) (by omega))).trans (hm3.mono (by omega) (le_refl _)), ?_⟩
      -- values of the lower part stay ≤ pivot, of the upper part ≥ pivot
      have lo3 : ∀ m, left ≤ m → m ≤ j → st3.values.getD m 0 ≤ pivot := by
        intro m ha hb'
        rw [hm3.getD, hm3.fix m (by omega), hm2.getD]
        have := hm2.mem ⟨ha, hb'⟩
        exact hlo _ this.1 this.2
      have hi3 : ∀ m, j < m → m ≤ right → pivot ≤ st3.values.getD m 0 := by
        intro m ha hb'
        rw [hm3.getD]
        have := hm3.mem (k := m) ⟨by omega, hb'⟩
        rw [hm2.getD, hm2.fix _ (by omega)]
        exact hhi _ (by omega) this.2
      intro a b ha hab hb' hdiv
      by_cases hbj : b ≤ j
      · have := hs2 a b ha hab hbj hdiv
        rw [hm3.getD, hm3.getD, hm3.fix a (by omega), hm3.fix b (by omega)]
        exact this
      · by_cases haj : a ≤ j
        · exact (lo3 a ha haj).trans (hi3 b (by omega) hb')
        · exact hs3 a b (by omega) hab hb' hdiv

end Cavc

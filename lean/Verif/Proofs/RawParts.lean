import Verif.Proofs.RawPath

/-! The parts of the raw offset and the numbers of its segments. -/
namespace Cavc
open Spec
open scoped Classical
noncomputable section

section
variable {ls : List (List Vertex)}

/-- How many vertexes come before those of corner `i`. -/
def before (ls : List (List Vertex)) (i : ℕ) : ℕ := (ls.take i).flatten.length

theorem before_succ {i : ℕ} (hi : i < ls.length) : before ls (i + 1) = before ls i + (ls[i]?.getD []).length := by
  unfold before
  rw [List.take_add_one, List.flatten_append, List.length_append, List.getElem?_eq_getElem hi]
  simp

theorem before_all : before ls ls.length = ls.flatten.length := by
  unfold before; rw [List.take_length]

theorem before_lt (hne : ∀ l ∈ ls, l ≠ []) {i j : ℕ} (h : i < j) (hj : j ≤ ls.length) : before ls i < before ls j := by
  induction j with
  | zero => omega
  | succ j ih =>
    rw [before_succ (by omega)]
    have : 0 < (ls[j]?.getD []).length := by
      rw [List.getElem?_eq_getElem (by omega)]
      exact List.length_pos_iff.2 (hne _ (List.getElem_mem _))
    rcases Nat.lt_succ_iff_lt_or_eq.1 h with h | rfl
    · have := ih h (by omega); omega
    · omega

theorem before_inj (hne : ∀ l ∈ ls, l ≠ []) {i j : ℕ} (hi : i ≤ ls.length) (hj : j ≤ ls.length)
    (h : before ls i = before ls j) : i = j := by
  rcases Nat.lt_trichotomy i j with q | q | q
  · have := before_lt hne q hj; omega
  · exact q
  · have := before_lt hne q hi; omega

theorem flatten_get {i r : ℕ} (hr : r < (ls[i]?.getD []).length) :
    ls.flatten[before ls i + r]? = (ls[i]?.getD [])[r]? := by
  have hi : i < ls.length := by
    by_contra h
    rw [List.getElem?_eq_none (not_lt.1 h)] at hr
    simp at hr
  conv_lhs => rw [show ls = ls.take i ++ ls[i] :: ls.drop (i + 1) by
    rw [List.getElem_cons_drop, List.take_append_drop]]
  rw [List.getElem?_eq_getElem hi] at hr ⊢
  rw [List.flatten_append, List.flatten_cons]
  have hb : before (ls.take i ++ ls[i] :: ls.drop (i + 1)) i = (ls.take i).flatten.length := by
    rw [List.getElem_cons_drop, List.take_append_drop]; rfl
  rw [hb, List.getElem?_append_right (by omega), Nat.add_sub_cancel_left, List.getElem?_append_left (show r < ls[i].length from hr)]
  rfl

theorem raw_isSeg {raw : Polyline} {F : List Vertex} (hc : raw.isClosed = true) (h2 : 2 ≤ F.length)
    (hr : raw.vertexes = F.rotate (F.length - 1)) {m : ℕ} (hm : m < F.length) {v e : Vertex}
    (hv : F[m]? = some v) (he : F[(m + 1) % F.length]? = some e) : IsSeg raw ((m + 1) % F.length) v e := by
  have hN : raw.vertexes.length = F.length := by rw [hr, List.length_rotate]
  have hlt : (m + 1) % F.length < F.length := Nat.mod_lt _ (by omega)
  have hmm : ((m + 1) % F.length + (F.length - 1)) % F.length = m := by
    rcases Nat.lt_or_ge (m + 1) F.length with h | h
    · rw [Nat.mod_eq_of_lt h, show m + 1 + (F.length - 1) = m + F.length by omega, Nat.add_mod_right,
        Nat.mod_eq_of_lt hm]
    · have : m + 1 = F.length := by omega
      rw [this, Nat.mod_self, Nat.zero_add, Nat.mod_eq_of_lt (by omega)]; omega
  unfold IsSeg
  unfold segs
  rw [if_neg (by omega), if_pos hc, List.zip, List.getElem?_zipWith, hr, List.rotate_rotate,
    List.getElem?_rotate hlt, List.getElem?_rotate hlt, hmm, hv]
  have : ((m + 1) % F.length + (F.length - 1 + 1)) % F.length = (m + 1) % F.length := by
    rw [Nat.sub_add_cancel (by omega), Nat.add_mod_right, Nat.mod_mod]
  rw [this, he]

variable {raw : Polyline} {n : ℕ}

theorem raw_once (hc : raw.isClosed = true) (hlen : ls.length = n) (h2 : 2 ≤ n)
    (hk : ∀ l ∈ ls, (∃ v, l = [v]) ∨ ∃ w w', l = [w, w'])
    (hr : raw.vertexes = ls.flatten.rotate (ls.flatten.length - 1)) {x : V2} (hx : ¬ PassedTwice raw x) :
    Once n (fun i => ls[i]?.getD []) x := by
  subst hlen
  have hne : ∀ l ∈ ls, l ≠ [] := by
    intro l hl
    rcases hk l hl with ⟨v, rfl⟩ | ⟨w, w', rfl⟩ <;> simp
  set N := ls.flatten.length with hN
  have hkk : ∀ i < ls.length, (∃ v, ls[i]?.getD [] = [v]) ∨ ∃ w w', ls[i]?.getD [] = [w, w'] := by
    intro i hi
    rw [List.getElem?_eq_getElem hi]
    exact hk _ (List.getElem_mem _)
  have hN2 : 2 ≤ N := by
    have h0 := before_lt hne (show 0 < 1 by omega) (show 1 ≤ ls.length by omega)
    have h1 := before_lt hne (show 1 < ls.length by omega) le_rfl
    rw [before_all] at h1
    omega
  have hrl : raw.vertexes.length = N := by rw [hr, List.length_rotate]
  have hltN : ∀ i < ls.length, before ls i < N := fun i hi => by
    have := before_lt hne hi le_rfl
    rwa [before_all] at this
  -- the number of the segment that ends at the first vertex of corner `a`
  have next : ∀ i < ls.length, (i + 1) % ls.length < ls.length := fun i _ => Nat.mod_lt _ (by omega)
  have succ : ∀ i < ls.length, before ls (i + 1) % N = before ls ((i + 1) % ls.length) := by
    intro i hi
    rcases Nat.lt_or_ge (i + 1) ls.length with h | h
    · rw [Nat.mod_eq_of_lt h, Nat.mod_eq_of_lt (hltN _ h)]
    · have : i + 1 = ls.length := by omega
      rw [this, before_all, Nat.mod_self, Nat.mod_self]
      rfl
  have line : ∀ i < ls.length, ∀ x, OnLineEl ls.length (fun i => ls[i]?.getD []) i x → ∃ u v,
      (ls[(i + 1) % ls.length]?.getD []).head? = some v ∧
      IsSeg raw (before ls ((i + 1) % ls.length)) u v ∧ OnSeg u v x := by
    rintro i hi x ⟨u, v, hu, hv, hon⟩
    refine ⟨u, v, hv, ?_, hon⟩
    have hlast : ls.flatten[before ls (i + 1) - 1]? = some u := by
      rw [before_succ hi]
      have hp : 0 < (ls[i]?.getD []).length := by
        rcases hkk i hi with ⟨v, e⟩ | ⟨w, w', e⟩ <;> rw [e] <;> simp
      rw [Nat.add_sub_assoc hp, flatten_get (by omega), ← List.getLast?_eq_getElem?]
      exact hu
    have hp : 0 < before ls (i + 1) := by
      have := before_lt hne (show 0 < i + 1 by omega) (by omega); omega
    have hle : before ls (i + 1) ≤ N := by
      rcases Nat.lt_or_ge (i + 1) ls.length with h | h
      · exact (hltN _ h).le
      · have : i + 1 = ls.length := by omega
        rw [this, before_all]
    have hhead : ls.flatten[before ls ((i + 1) % ls.length)]? = some v := by
      have hp : 0 < (ls[(i + 1) % ls.length]?.getD []).length := by
        rcases hkk _ (next i hi) with ⟨v, e⟩ | ⟨w, w', e⟩ <;> rw [e] <;> simp
      have := flatten_get (ls := ls) (i := (i + 1) % ls.length) (r := 0) hp
      rw [Nat.add_zero] at this
      rw [this, ← List.head?_eq_getElem?]
      exact hv
    have := raw_isSeg hc hN2 hr (m := before ls (i + 1) - 1) (by omega) hlast
      (by rw [Nat.sub_add_cancel hp, ← hN, succ i hi]; exact hhead)
    rw [Nat.sub_add_cancel hp, ← hN, succ i hi] at this
    exact this
  have mid : ∀ i < ls.length, ∀ x, OnMid (fun i => ls[i]?.getD []) i x → ∃ w w', ls[i]?.getD [] = [w, w'] ∧
      before ls (i + 1) = before ls i + 2 ∧ IsSeg raw (before ls i + 1) w w' ∧ OnSeg w w' x := by
    rintro i hi x ⟨w, w', e, hon⟩
    have e : ls[i]?.getD [] = [w, w'] := e
    have hb : before ls (i + 1) = before ls i + 2 := by rw [before_succ hi, e]; rfl
    refine ⟨w, w', e, hb, ?_, hon⟩
    have hle : before ls (i + 1) ≤ N := by
      rcases Nat.lt_or_ge (i + 1) ls.length with h | h
      · exact (hltN _ h).le
      · have : i + 1 = ls.length := by omega
        rw [this, before_all]
    have g0 := flatten_get (ls := ls) (i := i) (r := 0) (by rw [e]; simp)
    have g1 := flatten_get (ls := ls) (i := i) (r := 1) (by rw [e]; simp)
    rw [e] at g0 g1
    have hm : (before ls i + 1) % N = before ls i + 1 := Nat.mod_eq_of_lt (by omega)
    have := raw_isSeg hc hN2 hr (m := before ls i) (by omega) g0 (by rw [← hN, hm]; exact g1)
    rw [← hN, hm] at this
    exact this
  have sep : ∀ i < ls.length, before ls (i + 1) = before ls i + 2 → ∀ a < ls.length, before ls a ≠ before ls i + 1 := by
    intro i hi hb a ha e
    rcases Nat.lt_or_ge i a with h | h
    · rcases Nat.lt_or_ge (i + 1) a with h' | h'
      · have := before_lt hne h' (by omega); omega
      · have : a = i + 1 := by omega
        rw [this] at e; omega
    · rcases Nat.lt_or_ge a i with h' | h'
      · have := before_lt hne h' (by omega); omega
      · have : a = i := by omega
        rw [this] at e; omega
  have step : ∀ i < ls.length, ∀ j < ls.length, (i + 1) % ls.length = (j + 1) % ls.length → i = j := by
    intro i hi j hj h
    rcases Nat.lt_or_ge (i + 1) ls.length with h1 | h1 <;> rcases Nat.lt_or_ge (j + 1) ls.length with h2 | h2
    · rw [Nat.mod_eq_of_lt h1, Nat.mod_eq_of_lt h2] at h; omega
    · rw [Nat.mod_eq_of_lt h1, show j + 1 = ls.length by omega, Nat.mod_self] at h; omega
    · rw [Nat.mod_eq_of_lt h2, show i + 1 = ls.length by omega, Nat.mod_self] at h; omega
    · omega
  -- a corner of one vertex between two lines
  have single : ∀ i < ls.length, ∀ j < ls.length, ∀ v, (ls[(i + 1) % ls.length]?.getD []).head? = some v →
      before ls ((j + 1) % ls.length) = (before ls ((i + 1) % ls.length) + 1) % N →
      j = (i + 1) % ls.length ∧ ∃ v', ls[j]?.getD [] = [v'] ∧ v' = v := by
    intro i hi j hj v hv h
    have ha := next i hi
    set a := (i + 1) % ls.length
    rcases hkk a ha with ⟨v', e⟩ | ⟨w, w', e⟩
    · have hb : before ls (a + 1) = before ls a + 1 := by rw [before_succ ha, e]; rfl
      rw [← hb, succ a ha] at h
      have := step _ hj _ ha (before_inj hne (next j hj).le (next a ha).le h)
      rw [e] at hv
      exact ⟨this, v', by rw [this]; exact e, by simpa using hv⟩
    · have hb : before ls (a + 1) = before ls a + 2 := by rw [before_succ ha, e]; rfl
      exfalso
      have hle : before ls (a + 1) ≤ N := by
        rcases Nat.lt_or_ge (a + 1) ls.length with h | h
        · exact (hltN _ h).le
        · have : a + 1 = ls.length := by omega
          rw [this, before_all]
      rw [Nat.mod_eq_of_lt (show before ls a + 1 < N by omega)] at h
      exact sep a ha hb _ (next j hj) h
  refine ⟨?_, ?_, ?_⟩
  · intro i hi j hj hij h1 h2
    obtain ⟨u, v, hv, hseg, hon⟩ := line i hi x h1
    obtain ⟨u', v', hv', hseg', hon'⟩ := line j hj x h2
    by_contra hcon
    refine hx ⟨_, _, _, _, _, _, hseg, hseg', ?_, hon, hon', ?_⟩
    · intro e
      exact hij (step _ hi _ hj (before_inj hne (next i hi).le (next j hj).le e))
    · rw [hrl]
      rintro (⟨e, hxe⟩ | ⟨e, hxe⟩)
      · obtain ⟨q1, v'', q2, rfl⟩ := single i hi j hj v hv e
        exact hcon (Or.inl ⟨q1, _, q2, hxe⟩)
      · obtain ⟨q1, v'', q2, rfl⟩ := single j hj i hi v' hv' e
        exact hcon (Or.inr ⟨q1, _, q2, hxe⟩)
  · intro i hi j hj hij h1 h2
    obtain ⟨w, w', e, hb, hseg, hon⟩ := mid i hi x h1
    obtain ⟨u, u', e', hb', hseg', hon'⟩ := mid j hj x h2
    refine hx ⟨_, _, _, _, _, _, hseg, hseg', ?_, hon, hon', ?_⟩
    · intro q
      exact hij (before_inj hne hi.le hj.le (by omega))
    · rw [hrl]
      rintro (⟨q, -⟩ | ⟨q, -⟩)
      · rw [show before ls i + 1 + 1 = before ls (i + 1) by omega, succ i hi] at q
        exact sep j hj hb' _ (next i hi) q.symm
      · rw [show before ls j + 1 + 1 = before ls (j + 1) by omega, succ j hj] at q
        exact sep i hi hb _ (next j hj) q.symm
  · intro i hi j hj h1 h2
    obtain ⟨u, v, hv, hseg, hon⟩ := line i hi x h1
    obtain ⟨w, w', e, hb, hseg', hon'⟩ := mid j hj x h2
    by_contra hcon
    refine hx ⟨_, _, _, _, _, _, hseg, hseg', sep j hj hb _ (next i hi), hon, hon', ?_⟩
    rw [hrl]
    rintro (⟨q, hxe⟩ | ⟨q, hxe⟩)
    · have hlt := hltN _ (next i hi)
      have : before ls ((i + 1) % ls.length) + 1 < N ∨ before ls ((i + 1) % ls.length) + 1 = N := by omega
      rcases this with h | h
      · rw [Nat.mod_eq_of_lt h] at q
        have ea : j = (i + 1) % ls.length := before_inj hne hj.le (next i hi).le (by omega)
        rw [← ea, e] at hv
        simp at hv
        exact hcon (Or.inl ⟨ea, w, w', e, by rw [hxe, hv]⟩)
      · rw [h, Nat.mod_self] at q; omega
    · rw [show before ls j + 1 + 1 = before ls (j + 1) by omega, succ j hj] at q
      have ea : i = j := step _ hi _ hj (before_inj hne (next i hi).le (next j hj).le q)
      exact hcon (Or.inr ⟨ea.symm, w, w', e, hxe⟩)

end
end
end Cavc

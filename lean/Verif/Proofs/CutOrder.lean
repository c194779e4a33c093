import Verif.Proofs.CutPath

/-! The order of exact cuts along a closed polyline. -/
namespace Cavc
open Spec
open scoped Classical
noncomputable section

/-- `g i` is the parameter of cut number `i` along the path; `g` of the number of cuts is the one of the first
cut after going around. -/
structure CutPos (p : Polyline) (cs : List Cut) (T : Cut → ℝ) (g : ℕ → ℝ) : Prop where
  param : ∀ c ∈ cs, c.seg < p.size ∧ 0 < T c ∧ T c < 1 ∧ c.pos = segPt (rv p c.seg) (rv p (c.seg + 1)) (T c)
  cut : ∀ i c, cs[i]? = some c → g i = c.seg + T c
  around : g cs.length = g 0 + p.size
  mono : ∀ i < cs.length, g i < g (i + 1)

section
variable {p : Polyline} {cs : List Cut} {T : Cut → ℝ} {g : ℕ → ℝ}

theorem cleanCuts_perm {p : Polyline} {cs cuts : List Cut} (h : cs.Perm cuts) (hex : CleanCuts p cuts) :
    CleanCuts p cs := by
  refine ⟨fun c hc => hex.inside c (h.mem_iff.1 hc), ?_, fun k v e t t' x x' h1 h2 h3 h4 => ?_⟩
  · exact (h.pairwise_iff (fun h1 h2 h3 => h1 h2.symm h3.symm)).2 hex.distinct
  · have hm : ∀ {t x}, Mark cs k v e t x → Mark cuts k v e t x := by
      rintro t x ⟨m1, m2, m3, m4 | m4 | ⟨c, hc, m4⟩⟩
      · exact ⟨m1, m2, m3, Or.inl m4⟩
      · exact ⟨m1, m2, m3, Or.inr (Or.inl m4)⟩
      · exact ⟨m1, m2, m3, Or.inr (Or.inr ⟨c, h.mem_iff.1 hc, m4⟩)⟩
    exact hex.separate k v e t t' x x' h1 (hm h2) (hm h3) h4

theorem exact_far (hc : p.isClosed = true) (h2 : 2 ≤ p.size) (hex : CleanCuts p cs) (k : ℕ) :
    ¬ Near (1 / 10 ^ 5) (rv p k).pos (rv p (k + 1)).pos := by
  have hs := rv_seg hc h2 k
  exact (hex.separate _ _ _ 0 1 _ _ hs ⟨le_refl _, zero_le_one, atParam_segPt.2 (segPt_zero _ _).symm, Or.inl rfl⟩
    ⟨zero_le_one, le_refl _, atParam_segPt.2 (segPt_one _ _).symm, Or.inr (Or.inl rfl)⟩ one_pos).1

theorem exact_ne (hc : p.isClosed = true) (h2 : 2 ≤ p.size) (hex : CleanCuts p cs) (k : ℕ) :
    (rv p k).pos ≠ (rv p (k + 1)).pos := ne_of_not_near (by norm_num) (exact_far hc h2 hex k)

theorem rv_ok (hc : p.isClosed = true) (h2 : 2 ≤ p.size) (hok : PlineOk p) (k : ℕ) :
    SegOk (rv p k) (rv p (k + 1)) := hok _ _ _ (rv_seg hc h2 k)

theorem exists_cutPos (hc : p.isClosed = true) (h2 : 2 ≤ p.size) (hok : PlineOk p) (hex : CleanCuts p cs)
    (hal : AlongPline p cs) (hne : cs ≠ []) : ∃ T g, CutPos p cs T g := by
  have hN : 0 < cs.length := List.length_pos_iff.2 hne
  choose! v e T h1 h3 h4 h5 using hex.inside
  have hpar : ∀ c ∈ cs, c.seg < p.size ∧ 0 < T c ∧ T c < 1 ∧
      c.pos = segPt (rv p c.seg) (rv p (c.seg + 1)) (T c) := by
    intro c hcs
    obtain ⟨a1, -, a2, a3⟩ := seg_rv hc (h1 c hcs)
    refine ⟨a1, h3 c hcs, h4 c hcs, ?_⟩
    rw [← a2, ← a3]
    exact atParam_segPt.1 (h5 c hcs)
  obtain ⟨d0, hd0⟩ := List.exists_mem_of_ne_nil _ hne
  refine ⟨T, fun i => if i < cs.length then ((cs.getD i d0).seg : ℝ) + T (cs.getD i d0) else
    (cs.getD 0 d0).seg + T (cs.getD 0 d0) + p.size, hpar, ?_, ?_, ?_⟩
  · intro i c hi
    obtain ⟨a1, a2⟩ := List.getElem?_eq_some_iff.1 hi
    rw [if_pos a1, List.getD_eq_getElem _ _ a1, a2]
  · rw [if_neg (lt_irrefl _), if_pos hN]
  · intro i hi
    rw [if_pos hi, List.getD_eq_getElem _ _ hi]
    obtain ⟨a1, a2, a3, a4⟩ := hpar _ (List.getElem_mem hi)
    by_cases hi' : i + 1 < cs.length
    · rw [if_pos hi', List.getD_eq_getElem _ _ hi']
      obtain ⟨b1, b2, b3, b4⟩ := hpar _ (List.getElem_mem hi')
      have r1 := (List.pairwise_iff_getElem.1 hal) _ _ hi hi' (by omega)
      have r2 := (List.pairwise_iff_getElem.1 hex.distinct) _ _ hi hi' (by omega)
      generalize cs[i] = c at *
      generalize cs[i + 1] = c' at *
      rcases r1 with r1 | ⟨r1, r3⟩
      · have : (c.seg : ℝ) + 1 ≤ c'.seg := by exact_mod_cast r1
        linarith
      · have r4 := r3 _ _ (by
          have := rv_seg hc h2 c.seg
          rwa [Nat.mod_eq_of_lt a1] at this)
        rw [← r1] at b4
        have hT : T c < T c' := by
          by_contra hn
          rw [not_lt] at hn
          rcases hn.lt_or_eq with hn | hn
          · have := dist2_segPt_lt (rv_ok hc h2 hok c.seg) (exact_ne hc h2 hex c.seg) b2.le hn a3.le
            rw [← a4, ← b4] at this
            linarith
          · exact r2 r1 (by rw [a4, b4, hn])
        rw [r1]
        linarith
    · rw [if_neg hi', List.getD_eq_getElem _ _ hN]
      obtain ⟨b1, b2, b3, b4⟩ := hpar _ (List.getElem_mem hN)
      have : ((cs[i].seg : ℝ)) + 1 ≤ p.size := by exact_mod_cast a1
      have : (0 : ℝ) ≤ cs[0].seg := Nat.cast_nonneg _
      linarith

theorem CutPos.lt (h : CutPos p cs T g) : ∀ {j i : ℕ}, i < j → j ≤ cs.length → g i < g j
  | 0, _, hij, _ => absurd hij (by omega)
  | j + 1, i, hij, hj => by
    have h1 := h.mono j (by omega)
    rcases Nat.lt_succ_iff_lt_or_eq.1 hij with h2 | rfl
    · exact (h.lt h2 (by omega)).trans h1
    · exact h1

theorem CutPos.le (h : CutPos p cs T g) {i j : ℕ} (hij : i ≤ j) (hj : j ≤ cs.length) : g i ≤ g j := by
  rcases hij.lt_or_eq with h1 | rfl
  · exact (h.lt h1 hj).le
  · exact le_refl _

theorem CutPos.nonneg (h : CutPos p cs T g) (hne : cs ≠ []) : 0 < g 0 := by
  have hN : 0 < cs.length := List.length_pos_iff.2 hne
  rw [h.cut 0 _ (List.getElem?_eq_getElem hN)]
  have := (h.param _ (List.getElem_mem hN)).2.1
  have : (0 : ℝ) ≤ cs[0].seg := Nat.cast_nonneg _
  linarith

theorem CutPos.lt_size (h : CutPos p cs T g) {i : ℕ} (hi : i < cs.length) : g i < p.size := by
  rw [h.cut i _ (List.getElem?_eq_getElem hi)]
  obtain ⟨a1, -, a2, -⟩ := h.param _ (List.getElem_mem hi)
  have : ((cs[i].seg : ℝ)) + 1 ≤ p.size := by exact_mod_cast a1
  linarith

theorem CutPos.trace (h : CutPos p cs T g) {i : ℕ} {c : Cut} (hi : cs[i]? = some c) :
    trace p (g i) = c.pos := by
  obtain ⟨a1, a2, a3, a4⟩ := h.param c (List.mem_of_getElem? hi)
  rw [h.cut i c hi, trace_on (k := c.seg) (by linarith) (by linarith), add_sub_cancel_left, a4]

theorem CutPos.trace_next (h : CutPos p cs T g) (hne : cs ≠ []) {i : ℕ} {c : Cut} (hi' : i < cs.length)
    (hi : cs[(i + 1) % cs.length]? = some c) : Cavc.trace p (g (i + 1)) = c.pos := by
  by_cases he : i + 1 = cs.length
  · rw [he, Nat.mod_self] at hi
    rw [he, h.around, trace_per p (h.nonneg hne).le, h.trace hi]
  · rw [Nat.mod_eq_of_lt (by omega)] at hi
    exact h.trace hi

/-- Between two cuts there are none of the points that are all cut. -/
theorem CutPos.none_between (h : CutPos p cs T g) (hc : p.isClosed = true) (h2 : 2 ≤ p.size) (hok : PlineOk p)
    (hex : CleanCuts p cs) {P : V2 → Prop}
    (hcomp : ∀ k v e x, IsSeg p k v e → OnSeg v e x → P x → ∃ c ∈ cs, c.seg = k ∧ c.pos = x)
    (hne : cs ≠ []) {i : ℕ} (hi : i < cs.length) {x : ℝ} (h0 : g i < x)
    (h1 : x < g (i + 1)) : ¬ P (Cavc.trace p x) := by
  intro ht
  have hx0 : 0 < x := ((h.nonneg hne).trans_le (h.le (Nat.zero_le i) hi.le)).trans h0
  obtain ⟨k, hk⟩ : ∃ k, k = ⌊x⌋₊ := ⟨_, rfl⟩
  have k0 : (k : ℝ) ≤ x := by rw [hk]; exact Nat.floor_le hx0.le
  have k1 : x < k + 1 := by rw [hk]; exact Nat.lt_floor_add_one x
  have htr : Cavc.trace p x = segPt (rv p k) (rv p (k + 1)) (x - k) := trace_on k0 k1.le
  obtain ⟨c, hcm, hcs, hcp⟩ := hcomp _ _ _ _ (rv_seg hc h2 k)
    (onSeg_segPt.2 ⟨x - k, by linarith, by linarith, htr⟩) ht
  obtain ⟨a1, a2, a3, a4⟩ := h.param c hcm
  rw [hcp, hcs, rv_mod, rv_mod_succ, htr] at a4
  have heq := segPt_inj (rv_ok hc h2 hok k) (exact_ne hc h2 hex k) (by linarith) (by linarith) a2.le a3.le a4
  obtain ⟨j, hj, hjc⟩ := List.getElem_of_mem hcm
  have hg := h.cut j c (by rw [List.getElem?_eq_getElem hj, hjc])
  rw [hcs] at hg
  have hdm : (k : ℝ) = ((k % p.size : ℕ) : ℝ) + p.size * ((k / p.size : ℕ) : ℝ) := by
    exact_mod_cast (Nat.mod_add_div k p.size).symm
  have hx : x = g j + p.size * ((k / p.size : ℕ) : ℝ) := by rw [hg]; linarith
  have hle : g (i + 1) ≤ g cs.length := h.le (by omega) (le_refl _)
  rw [h.around] at hle
  have hn0 : (0 : ℝ) < p.size := by exact_mod_cast (show 0 < p.size by omega)
  rcases Nat.eq_zero_or_pos (k / p.size) with hz | hz
  · rw [hz, Nat.cast_zero, mul_zero, add_zero] at hx
    rw [hx] at h0 h1
    have hij : i < j := by
      by_contra hn
      exact absurd (h.le (not_lt.1 hn) hi.le) (not_le.2 h0)
    exact absurd (h.le (show i + 1 ≤ j by omega) hj.le) (not_le.2 h1)
  · have : (1 : ℝ) ≤ ((k / p.size : ℕ) : ℝ) := by exact_mod_cast hz
    have := h.le (Nat.zero_le j) hj.le
    nlinarith

/-- Between two cuts there is no point of those at which the cuts are. -/
theorem CutPos.once (h : CutPos p cs T g) (hc : p.isClosed = true) (h2 : 2 ≤ p.size) (hok : PlineOk p)
    {Q : V2 → Prop} (hex : CutsAt p Q cs) (hne : cs ≠ []) {i : ℕ} (hi : i < cs.length) {x : ℝ} (h0 : g i < x)
    (h1 : x < g (i + 1)) : ¬ Q (Cavc.trace p x) :=
  h.none_between hc h2 hok hex.toCleanCuts hex.complete hne hi h0 h1

/-- Every point of the polyline is between two cuts that follow each other. -/
theorem CutPos.cover (h : CutPos p cs T g) (hne : cs ≠ []) {y : ℝ} (h0 : 0 ≤ y) (h1 : y < p.size) :
    ∃ i < cs.length, ∃ y', g i ≤ y' ∧ y' ≤ g (i + 1) ∧ Cavc.trace p y' = Cavc.trace p y := by
  have hN : 0 < cs.length := List.length_pos_iff.2 hne
  have hg0 := h.nonneg hne
  by_cases hy : y < g 0
  · refine ⟨cs.length - 1, by omega, y + p.size, ?_, ?_, trace_per p h0⟩
    · have := h.lt_size (i := cs.length - 1) (by omega)
      linarith
    · rw [Nat.sub_add_cancel hN, h.around]
      linarith
  · by_contra hn
    push Not at hn
    have : ∀ j ≤ cs.length, g j ≤ y := by
      intro j
      induction j with
      | zero => intro _; exact not_lt.1 hy
      | succ j ih =>
        intro hj
        by_contra hlt
        exact hn j (by omega) y (ih (by omega)) (not_le.1 hlt).le rfl
    have := this _ (le_refl _)
    rw [h.around] at this
    linarith

end

end
end Cavc

import Verif.Proofs.PathDiam
import Verif.Spec.OffsetExact

/-! The parts of a closed polyline between its exact cuts. -/
namespace Cavc
open Spec
open scoped Classical
noncomputable section

/-- The path comes back to a point that it does not pass twice only after a whole turn. -/
theorem trace_once {p : Polyline} (hc : p.isClosed = true) (h2 : 2 ≤ p.size) (hok : PlineOk p)
    (hne : ∀ k, (rv p k).pos ≠ (rv p (k + 1)).pos) {a b : ℝ} (ha : 0 ≤ a) (hab : a ≤ b) (hb : b ≤ a + p.size)
    (h : trace p a = trace p b) (ho : ¬ PassedTwice p (trace p a)) :
    a = b ∨ b = a + p.size := by
  have hb0 := ha.trans hab
  obtain ⟨k, hk⟩ : ∃ k, k = ⌊a⌋₊ := ⟨_, rfl⟩
  obtain ⟨m, hm⟩ : ∃ m, m = ⌊b⌋₊ := ⟨_, rfl⟩
  have k1 : (k : ℝ) ≤ a := hk ▸ Nat.floor_le ha
  have k2 : a < k + 1 := hk ▸ Nat.lt_floor_add_one a
  have m1 : (m : ℝ) ≤ b := hm ▸ Nat.floor_le hb0
  have m2 : b < m + 1 := hm ▸ Nat.lt_floor_add_one b
  have hta := trace_on (p := p) k1 k2.le
  have htb := trace_on (p := p) m1 m2.le
  have hkm : k ≤ m := by rw [hk, hm]; exact Nat.floor_le_floor hab
  by_cases hcm : k % p.size = m % p.size
  · have e1 : rv p k = rv p m := by unfold rv; rw [hcm]
    have e2 : rv p (k + 1) = rv p (m + 1) := by
      rw [← rv_mod_succ p k, hcm, rv_mod_succ]
    rw [hta, htb, ← e1, ← e2] at h
    have hp := segPt_inj (rv_ok hc h2 hok k) (hne k) (by linarith) (by linarith) (by linarith) (by linarith) h
    obtain ⟨q, hq⟩ := (Nat.modEq_iff_dvd' hkm).1 hcm
    have hmq : (m : ℝ) = k + p.size * q := by
      have : m = k + p.size * q := by omega
      rw [this]; push_cast; ring
    rcases Nat.eq_zero_or_pos q with rfl | hq0
    · left; rw [Nat.cast_zero, mul_zero, add_zero] at hmq; linarith
    · right
      have h3 : (p.size : ℝ) * 1 ≤ p.size * q := by
        apply mul_le_mul_of_nonneg_left _ (Nat.cast_nonneg _)
        exact_mod_cast hq0
      linarith
  · exfalso
    refine ho ⟨_, _, _, _, _, _, rv_seg hc h2 k, rv_seg hc h2 m, hcm, onSeg_segPt.2 ⟨a - k, by linarith, by linarith, hta⟩,
      onSeg_segPt.2 ⟨b - m, by linarith, by linarith, h.trans htb⟩, ?_⟩
    rintro (⟨-, q⟩ | ⟨-, q⟩)
    · rw [hta, ← segPt_one (rv p k) (rv p (k + 1))] at q
      have := segPt_inj (rv_ok hc h2 hok k) (hne k) (by linarith) (by linarith) zero_le_one le_rfl q
      linarith
    · rw [h, htb, ← segPt_one (rv p m) (rv p (m + 1))] at q
      have := segPt_inj (rv_ok hc h2 hok m) (hne m) (by linarith) (by linarith) zero_le_one le_rfl q
      linarith

/-- The points of a part of the path, with its ends, are a closed set. -/
theorem trace_closed (p : Polyline) {a b : ℝ} (ha : 0 ≤ a) : IsClosed (xy '' (trace p '' Set.Icc a b)) := by
  obtain ⟨N, hN⟩ := exists_nat_ge b
  rw [Set.image_image]
  exact (isCompact_Icc.image_of_continuousOn
    ((trace_cont p N).mono fun g hg => ⟨ha.trans hg.1, hg.2.trans hN⟩)).isClosed

theorem xy_mem {S : Set V2} {x : V2} : xy x ∈ xy '' S ↔ x ∈ S := by
  constructor
  · rintro ⟨y, hy, e⟩
    have h1 := congrArg Prod.fst e
    have h2 := congrArg Prod.snd e
    have : y = x := V2.ext h1 h2
    rwa [← this]
  · exact fun h => ⟨x, h, rfl⟩

section
variable {raw : Polyline} {cs : List Cut} {T : Cut → ℝ} {g : ℕ → ℝ} {Q : V2 → Prop}

/-- A stretch of points that are passed once, with a point of a part between two cuts, is on this part. -/
theorem whole_of (h : CutPos raw cs T g) (hc : raw.isClosed = true) (h2 : 2 ≤ raw.size) (hok : PlineOk raw)
    (hQ : ∀ x, PassedTwice raw x → Q x) (hex : CutsAt raw Q cs) (hne : cs ≠ []) {i : ℕ} (hi : i < cs.length) {K : Set V2} (hK : StretchOff raw Q K)
    (hx : ∃ x ∈ K, x ∈ trace raw '' Set.Icc (g i) (g (i + 1))) : ∀ x ∈ K, x ∈ trace raw '' Set.Icc (g i) (g (i + 1)) := by
  have hpne : ∀ k, (rv raw k).pos ≠ (rv raw (k + 1)).pos := exact_ne hc h2 hex.toCleanCuts
  have g0 : ∀ j, j ≤ cs.length → 0 ≤ g j := fun j hj => (h.nonneg hne).le.trans (h.le (Nat.zero_le j) hj)
  have hcut : ∀ j ≤ cs.length, Q (trace raw (g j)) := by
    intro j hj
    rcases hj.lt_or_eq with q | rfl
    · rw [h.trace (List.getElem?_eq_getElem q)]
      exact hex.only _ (List.getElem_mem _)
    · rw [h.around, trace_per raw (g0 0 (Nat.zero_le _)), h.trace (List.getElem?_eq_getElem (List.length_pos_iff.2 hne))]
      exact hex.only _ (List.getElem_mem _)
  intro x hxK
  by_contra hn
  obtain ⟨x0, hx0K, hx0⟩ := hx
  set F := xy '' (trace raw '' Set.Icc (g i) (g (i + 1))) with hF
  set F' := ⋃ j ∈ {j ∈ Finset.range cs.length | j ≠ i}, xy '' (trace raw '' Set.Icc (g j) (g (j + 1))) with hF'
  have hFc : IsClosed F := trace_closed raw (g0 i hi.le)
  have hFc' : IsClosed F' := by
    refine isClosed_biUnion_finset fun j hj => trace_closed raw (g0 j ?_)
    rw [Finset.mem_filter, Finset.mem_range] at hj
    exact hj.1.le
  have hpart : ∀ y ∈ K, ∃ j < cs.length, y ∈ trace raw '' Set.Icc (g j) (g (j + 1)) := by
    intro y hy
    obtain ⟨t, t0, t1, rfl⟩ := (onPline_trace hc h2).1 (hK.along y hy)
    obtain ⟨j, hj, t', q0, q1, e⟩ := h.cover hne t0 t1
    exact ⟨j, hj, t', ⟨q0, q1⟩, e⟩
  have hcov : xy '' K ⊆ F ∪ F' := by
    rintro _ ⟨y, hy, rfl⟩
    obtain ⟨j, hj, hyj⟩ := hpart y hy
    by_cases e : j = i
    · subst e
      exact Or.inl (xy_mem.2 hyj)
    · refine Or.inr (Set.mem_biUnion (x := j) ?_ (xy_mem.2 hyj))
      simp [hj, e]
  have hconn : IsPreconnected (xy '' K) := hK.connected
  obtain ⟨j, hj, hyj⟩ := hpart x hxK
  have hji : j ≠ i := by rintro rfl; exact hn hyj
  obtain ⟨_, ⟨z, hzK, rfl⟩, hz1, hz2⟩ := isPreconnected_closed_iff.1 hconn F F' hFc hFc' hcov
    ⟨_, ⟨x0, hx0K, rfl⟩, xy_mem.2 hx0⟩ ⟨_, ⟨x, hxK, rfl⟩, Set.mem_biUnion (x := j) (by simp [hj, hji]) (xy_mem.2 hyj)⟩
  rw [hF, xy_mem] at hz1
  rw [hF', Set.mem_iUnion₂] at hz2
  obtain ⟨m, hm, hz2⟩ := hz2
  rw [Finset.mem_filter, Finset.mem_range] at hm
  obtain ⟨hm, hmi⟩ := hm
  rw [xy_mem] at hz2
  obtain ⟨t, ht, rfl⟩ := hz1
  obtain ⟨t', ht', e⟩ := hz2
  have ho := hK.once _ hzK
  have inner : ∀ {k : ℕ} {u : ℝ}, k < cs.length → u ∈ Set.Icc (g k) (g (k + 1)) → ¬ Q (trace raw u) →
      g k < u ∧ u < g (k + 1) := by
    intro k u hk hu hp
    constructor
    · refine lt_of_le_of_ne hu.1 ?_
      rintro rfl
      exact hp (hcut k hk.le)
    · refine lt_of_le_of_ne hu.2 ?_
      rintro rfl
      exact hp (hcut (k + 1) hk)
  have i1 := inner hi ht ho
  have i2 := inner hm ht' (by rw [e]; exact ho)
  have b0 : ∀ {k}, k < cs.length → g 0 ≤ g k ∧ g (k + 1) ≤ g 0 + raw.size := fun {k} hk =>
    ⟨h.le (Nat.zero_le _) hk.le, by rw [← h.around]; exact h.le hk le_rfl⟩
  have bi := b0 hi
  have bm := b0 hm
  have gz := g0 0 (Nat.zero_le _)
  rcases lt_or_gt_of_ne hmi with q | q
  · have := h.le (show m + 1 ≤ i from q) hi.le
    rcases trace_once hc h2 hok hpne (by linarith) (by linarith) (by linarith) e (fun q => ho (by rw [← e]; exact hQ _ q)) with r | r <;> linarith
  · have := h.le (show i + 1 ≤ m from q) hm.le
    rcases trace_once hc h2 hok hpne (by linarith) (by linarith) (by linarith) e.symm (fun q => ho (hQ _ q)) with r | r <;> linarith

/-- The vertexes that a part of the path passes are vertexes of the part. -/
theorem along_vertex {p : Polyline} : ∀ {vs : List Vertex} {a b : ℝ}, Along p a vs b → ∀ k : ℕ, a ≤ k → (k : ℝ) ≤ b →
    ∃ v ∈ vs, v.pos = (rv p k).pos
  | [], _, _, h, _, _, _ => h.elim
  | [u], a, b, h, k, h0, h1 => by
    obtain ⟨rfl, hu⟩ := h
    obtain rfl := le_antisymm h0 h1
    refine ⟨u, List.mem_cons_self, ?_⟩
    rw [hu, trace_on (k := k) le_rfl (by linarith), sub_self, segPt_zero]
  | u :: w :: l, a, b, h, k, h0, h1 => by
    have hhead := Along.head h
    obtain ⟨j, s, t, rfl, s0, t1, hs, h2⟩ := h
    rcases le_or_gt ((j : ℝ) + t) k with q | q
    · obtain ⟨v, hv, e⟩ := along_vertex h2 k q h1
      exact ⟨v, List.mem_cons_of_mem _ hv, e⟩
    · have hkj : k = j := by
        have h3 : (k : ℝ) < j + 1 := by linarith
        have h4 : (j : ℝ) ≤ k := by linarith
        have h3' : k < j + 1 := by exact_mod_cast h3
        have h4' : j ≤ k := by exact_mod_cast h4
        omega
      subst hkj
      have : s = 0 := by linarith
      obtain ⟨u', hu', e⟩ := hhead
      cases hu'
      refine ⟨u, List.mem_cons_self, ?_⟩
      rw [e, this, add_zero, trace_on (k := k) le_rfl (by linarith), sub_self, segPt_zero]

/-- The part of a closed polyline from an exact cut to the next one. -/
theorem Shape.cutPiece (h : CutPos raw cs T g) (hc : raw.isClosed = true) (h2 : 2 ≤ raw.size) (hok : PlineOk raw)
    (hQ : ∀ x, PassedTwice raw x → Q x) (hex : CutsAt raw Q cs) (hne : cs ≠ []) {i : ℕ} (hi : i < cs.length) {s : Polyline} (hs : Shape raw cs g i s) :
    PieceOff raw Q cs s ∧ (∀ v ∈ raw.vertexes, OnPline s v.pos → ∃ w ∈ s.vertexes, w.pos = v.pos) ∧
    ∃ l, getPathLength s = .ok l ∧ ∀ x y, OnPline s x → OnPline s y → distance x y ≤ l := by
  have hopen : (⟨false, s.vertexes⟩ : Polyline) = s := by rw [← hs.isOpen]
  have hon := hs.along.onPline hs.two
  rw [hopen] at hon
  have hmono := h.mono i hi
  have hg0 : 0 ≤ g i := (h.nonneg hne).le.trans (h.le (Nat.zero_le i) hi.le)
  have hpne : ∀ k, (rv raw k).pos ≠ (rv raw (k + 1)).pos := exact_ne hc h2 hex.toCleanCuts
  obtain ⟨u, e1, e2⟩ := hs.along.head
  obtain ⟨w, e3, e4⟩ := hs.along.last
  have hlt : (i + 1) % cs.length < cs.length := Nat.mod_lt _ (by omega)
  have hset : ∀ x, OnPline s x ↔ x ∈ trace raw '' Set.Icc (g i) (g (i + 1)) := by
    intro x
    rw [hon x]
    exact ⟨fun ⟨t, a, b, e⟩ => ⟨t, ⟨a, b⟩, e.symm⟩, fun ⟨t, ⟨a, b⟩, e⟩ => ⟨t, a, b, e.symm⟩⟩
  refine ⟨⟨?_, ?_, ?_, ?_, ?_⟩, ?_, ?_⟩
  · rintro x ⟨v, hv | hv, rfl⟩
    · rw [e1] at hv
      cases hv
      exact ⟨cs[i], List.getElem_mem _, by rw [e2, h.trace (List.getElem?_eq_getElem hi)]⟩
    · rw [e3] at hv
      cases hv
      exact ⟨cs[(i + 1) % cs.length], List.getElem_mem _, by rw [e4, h.trace_next hne hi (List.getElem?_eq_getElem hlt)]⟩
  · intro x hx
    obtain ⟨y, y0, y1, rfl⟩ := (hon x).1 hx
    exact trace_onPline hc h2 (hg0.trans y0)
  · refine ⟨trace raw ((g i + g (i + 1)) / 2), (hon _).2 ⟨_, by linarith, by linarith, rfl⟩, ?_⟩
    exact h.once hc h2 hok hex hne hi (by linarith) (by linarith)
  · intro x hx hp
    obtain ⟨y, y0, y1, rfl⟩ := (hon x).1 hx
    rcases y0.lt_or_eq with y0 | rfl
    · rcases y1.lt_or_eq with y1 | rfl
      · exact absurd hp (h.once hc h2 hok hex hne hi y0 y1)
      · exact ⟨w, Or.inr e3, e4⟩
    · exact ⟨u, Or.inl e1, e2⟩
  · intro K hK hx x hxK
    simp only [hset] at hx ⊢
    exact whole_of h hc h2 hok hQ hex hne hi hK hx x hxK
  · intro v hv hx
    obtain ⟨k, hk, e⟩ := List.getElem_of_mem hv
    have hk : k < raw.size := hk
    have hkv : rv raw k = v := by
      unfold rv vtx
      rw [Nat.mod_eq_of_lt hk, List.getD_eq_getElem?_getD, List.getElem?_eq_getElem hk]
      exact e
    obtain ⟨y, y0, y1, ey⟩ := (hon _).1 hx
    by_cases hp : PassedTwice raw v.pos
    · rcases y0.lt_or_eq with y0 | rfl
      · rcases y1.lt_or_eq with y1 | rfl
        · rw [ey] at hp
          exact absurd (hQ _ hp) (h.once hc h2 hok hex hne hi y0 y1)
        · exact ⟨w, List.mem_of_getLast? e3, by rw [e4, ey]⟩
      · exact ⟨u, List.mem_of_head? e1, by rw [e2, ey]⟩
    · have htk : trace raw k = v.pos := by
        rw [trace_on (k := k) le_rfl (by linarith), sub_self, segPt_zero, hkv]
      have hks : (k : ℝ) + 1 ≤ raw.size := by exact_mod_cast hk
      have hk0 : (0 : ℝ) ≤ k := Nat.cast_nonneg _
      have hys : y ≤ g 0 + raw.size := by rw [← h.around]; exact y1.trans (h.le hi le_rfl)
      have hg0s := h.lt_size (i := 0) (List.length_pos_iff.2 hne)
      have : ∃ j : ℕ, (j : ℝ) = y ∧ rv raw j = v := by
        rcases le_total (k : ℝ) y with q | q
        · rcases le_total y (k + raw.size) with q' | q'
          · rcases trace_once hc h2 hok hpne hk0 q q' (by rw [htk, ey]) (by rw [htk]; exact hp) with r | r
            · exact ⟨k, r, hkv⟩
            · exact ⟨k + raw.size, by push_cast; linarith, by rw [rv_per]; exact hkv⟩
          · have htk' : trace raw ((k : ℝ) + raw.size) = v.pos := by rw [trace_per raw hk0, htk]
            rcases trace_once hc h2 hok hpne (by linarith) q' (by linarith) (by rw [htk', ey]) (by rw [htk']; exact hp) with r | r
            · exact ⟨k + raw.size, by push_cast; linarith, by rw [rv_per]; exact hkv⟩
            · exact ⟨k + raw.size + raw.size, by push_cast; linarith, by rw [rv_per, rv_per]; exact hkv⟩
        · rcases trace_once hc h2 hok hpne (hg0.trans y0) q (by linarith) (by rw [← ey, htk]) (by rw [← ey]; exact hp) with r | r
          · exact ⟨k, r.symm, hkv⟩
          · linarith
      obtain ⟨j, rfl, hj⟩ := this
      obtain ⟨w', hw', e'⟩ := along_vertex hs.along j y0 y1
      exact ⟨w', hw', by rw [e', hj]⟩
  · obtain ⟨l, h1, h3⟩ := along_short hs.along
    rw [hopen] at h1 h3
    exact ⟨l, h1, h3⟩

end
end
end Cavc

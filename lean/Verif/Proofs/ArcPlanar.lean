import Verif.Proofs.ArcPart
import Verif.Proofs.SimpleJordan

/-! The segments of the parts of a closed polyline with arcs that does not meet itself do not meet either; closed
polylines made of such segments do not meet themselves or each other. -/
namespace Cavc
open Spec
open scoped Classical Topology
noncomputable section

/-- Two segments have at most points in common in which one ends and the other one starts. -/
def PlanarE (e f : Vertex × V2) : Prop :=
  ∀ z, eOn z e → eOn z f → (z = e.2 ∧ z = f.1.pos) ∨ (z = e.1.pos ∧ z = f.2)

theorem PlanarE.symm {e f : Vertex × V2} (h : PlanarE e f) : PlanarE f e := by
  intro z h1 h2
  rcases h z h2 h1 with q | q
  · exact Or.inr ⟨q.2, q.1⟩
  · exact Or.inl ⟨q.2, q.1⟩

instance planarE_symm : Std.Symm PlanarE := ⟨fun _ _ => PlanarE.symm⟩

theorem PlanarE.flip {e f : Vertex × V2} (h : PlanarE e f) : PlanarE (eFlip e) (eFlip f) := by
  intro z h1 h2
  rcases h z (eOn_flip.1 h1) (eOn_flip.1 h2) with q | q
  · exact Or.inr ⟨q.1, q.2⟩
  · exact Or.inl ⟨q.1, q.2⟩

theorem eFlip_flip (e : Vertex × V2) : eFlip (eFlip e) = e := by
  obtain ⟨⟨p, b⟩, q⟩ := e
  simp [eFlip]

theorem eOn_start (e : Vertex × V2) : eOn e.1.pos e := onSeg_start _ _

/-! ### The path of a polyline that does not meet itself -/

/-- The path comes back to a point only after a whole turn. -/
theorem trace_inj {p : Polyline} (hs : SimpleCurve p) {a b : ℝ} (ha : 0 ≤ a) (hab : a ≤ b) (hb : b ≤ a + p.size)
    (h : trace p a = trace p b) : a = b ∨ b = a + p.size := by
  have h2 := hs.two'
  have hb0 := ha.trans hab
  obtain ⟨k, hk⟩ : ∃ k, k = ⌊a⌋₊ := ⟨_, rfl⟩
  obtain ⟨m, hm⟩ : ∃ m, m = ⌊b⌋₊ := ⟨_, rfl⟩
  have k1 : (k : ℝ) ≤ a := hk ▸ Nat.floor_le ha
  have k2 : a < k + 1 := hk ▸ Nat.lt_floor_add_one a
  have m1 : (m : ℝ) ≤ b := hm ▸ Nat.floor_le hb0
  have m2 : b < m + 1 := hm ▸ Nat.lt_floor_add_one b
  rw [trace_on k1 k2.le, trace_on m1 m2.le] at h
  have hkm : k ≤ m := by rw [hk, hm]; exact Nat.floor_le_floor hab
  by_cases hc : k % p.size = m % p.size
  · have e1 : rv p k = rv p m := by unfold rv; rw [hc]
    have e2 : rv p (k + 1) = rv p (m + 1) := by
      rw [← rv_mod_succ p k, hc, rv_mod_succ]
    rw [← e1, ← e2] at h
    have hp := segPt_inj (hs.segOk k) (hs.ne k) (by linarith) (by linarith) (by linarith) (by linarith) h
    obtain ⟨q, hq⟩ := (Nat.modEq_iff_dvd' hkm).1 hc
    have hmq : (m : ℝ) = k + p.size * q := by
      have : m = k + p.size * q := by omega
      rw [this]; push_cast; ring
    rcases Nat.eq_zero_or_pos q with rfl | hq0
    · left; rw [Nat.cast_zero, mul_zero, add_zero] at hmq; linarith
    · right
      have h3 : (p.size : ℝ) * 1 ≤ p.size * q := by
        apply mul_le_mul_of_nonneg_left _ (Nat.cast_nonneg _)
        exact_mod_cast hq0
      linarith
  · exfalso
    have h0 : 0 < p.size := by omega
    have o1 : OnSeg (rv p (k % p.size)) (rv p (k % p.size + 1)) (segPt (rv p k) (rv p (k + 1)) (a - k)) := by
      rw [rv_mod, rv_mod_succ]
      exact onSeg_segPt.2 ⟨a - k, by linarith, by linarith, rfl⟩
    have o2 : OnSeg (rv p (m % p.size)) (rv p (m % p.size + 1)) (segPt (rv p k) (rv p (k + 1)) (a - k)) := by
      rw [rv_mod, rv_mod_succ, h]
      exact onSeg_segPt.2 ⟨b - m, by linarith, by linarith, rfl⟩
    rcases hs.meet (Nat.mod_lt _ h0) (Nat.mod_lt _ h0) hc o1 o2 with ⟨-, q⟩ | ⟨-, q⟩
    · rw [rv_mod_succ, ← segPt_one (rv p k) (rv p (k + 1))] at q
      have := segPt_inj (hs.segOk k) (hs.ne k) (by linarith) (by linarith) zero_le_one le_rfl q
      linarith
    · rw [rv_mod_succ, h, ← segPt_one (rv p m) (rv p (m + 1))] at q
      have := segPt_inj (hs.segOk m) (hs.ne m) (by linarith) (by linarith) zero_le_one le_rfl q
      linarith

/-- A segment that is the part of the path from `a` to `b`. -/
structure Ranged (p : Polyline) (a b : ℝ) (e : Vertex × V2) : Prop where
  within : ∃ k : ℕ, (k : ℝ) ≤ a ∧ b ≤ k + 1
  lt : a < b
  on : ∀ z, eOn z e ↔ ∃ g, a ≤ g ∧ g ≤ b ∧ z = trace p g
  start : e.1.pos = trace p a
  stop : e.2 = trace p b
  ok : eOk e
  far : ¬ Near (1 / 10 ^ 5) e.1.pos e.2

theorem Sub.ranged {p : Polyline} {u w : Vertex} {k : ℕ} {s t : ℝ} (h : Sub u w (rv p k) (rv p (k + 1)) s t) (s0 : 0 ≤ s)
    (t1 : t ≤ 1) : Ranged p (k + s) (k + t) (u, w.pos) := by
  have hlt := h.lt
  have tr : ∀ x, s ≤ x → x ≤ t → trace p (k + x) = segPt (rv p k) (rv p (k + 1)) x := by
    intro x h0 h1
    rw [trace_on (k := k) (by linarith) (by linarith), add_sub_cancel_left]
  have e0 := h.pts 0
  have e1 := h.pts 1
  rw [mul_zero, add_zero, segPt_zero] at e0
  rw [mul_one, add_sub_cancel, segPt_one] at e1
  refine ⟨⟨k, by linarith, by linarith⟩, by linarith, fun z => ?_, ?_, ?_, eOk_eq.2 h.ok, h.far⟩
  · rw [eOn_eq, onSeg_segPt]
    constructor
    · rintro ⟨x, x0, x1, rfl⟩
      refine ⟨k + (s + (t - s) * x), by nlinarith, by nlinarith, ?_⟩
      rw [tr _ (by nlinarith) (by nlinarith), h.pts]
    · rintro ⟨g, g0, g1, rfl⟩
      have hd : t - s ≠ 0 := by linarith
      refine ⟨(g - k - s) / (t - s), div_nonneg (by linarith) (by linarith), ?_, ?_⟩
      · rw [div_le_one (by linarith)]; linarith
      · rw [h.pts, mul_div_cancel₀ _ hd, trace_on (k := k) (by linarith) (by linarith)]
        congr 1; ring
  · rw [tr s le_rfl hlt.le]; exact e0
  · rw [tr t hlt.le le_rfl]; exact e1

theorem along_ranged {p : Polyline} : ∀ {vs : List Vertex} {a b : ℝ}, Along p a vs b →
    (∀ e ∈ vEdges vs, ∃ c d, a ≤ c ∧ d ≤ b ∧ Ranged p c d e) ∧
    (vEdges vs).Pairwise fun e f => ∃ c d c' d', Ranged p c d e ∧ Ranged p c' d' f ∧ a ≤ c ∧ d ≤ c' ∧ d' ≤ b
  | [], _, _, h => h.elim
  | [_], _, _, _ => by simp
  | u :: w :: l, a, b, h => by
    obtain ⟨k, s, t, rfl, s0, t1, h1, h2⟩ := h
    obtain ⟨i1, i2⟩ := along_ranged h2
    have hle := h2.le
    have hlt := h1.lt
    have hr := h1.ranged s0 t1
    rw [vEdges_cons]
    constructor
    · intro e he
      rcases List.mem_cons.1 he with rfl | he
      · exact ⟨_, _, le_rfl, hle, hr⟩
      · obtain ⟨c, d, q1, q2, q3⟩ := i1 e he
        exact ⟨c, d, by linarith, q2, q3⟩
    · refine .cons (fun f hf => ?_) (i2.imp ?_)
      · obtain ⟨c, d, q1, q2, q3⟩ := i1 f hf
        exact ⟨_, _, c, d, hr, q3, le_rfl, q1, q2⟩
      · rintro e f ⟨c, d, c', d', q1, q2, q3, q4, q5⟩
        exact ⟨c, d, c', d', q1, q2, by linarith, q4, q5⟩

theorem Ranged.planar {p : Polyline} (hs : SimpleCurve p) {a b c d : ℝ} {e f : Vertex × V2} (h : Ranged p a b e)
    (h' : Ranged p c d f) (h0 : 0 ≤ a) (hbc : b ≤ c) (hd : d ≤ a + p.size) : PlanarE e f := by
  intro z h1 h2
  obtain ⟨g, g0, g1, rfl⟩ := (h.on z).1 h1
  obtain ⟨u, u0, u1, hu⟩ := (h'.on _).1 h2
  rcases trace_inj hs (by linarith) (by linarith) (by linarith) hu with q | q
  · left
    have e1 : g = b := by linarith
    have e2 : u = c := by linarith
    exact ⟨by rw [h.stop, e1], by rw [hu, h'.start, e2]⟩
  · right
    have e1 : g = a := by linarith
    have e2 : u = d := by linarith
    exact ⟨by rw [h.start, e1], by rw [hu, h'.stop, e2]⟩

/-! ### Closed polylines made of segments that do not meet -/

theorem PlanarE.not_same_start {e f : Vertex × V2} (h : PlanarE e f) (he : e.1.pos ≠ e.2) (hf : f.1.pos ≠ f.2) :
    e.1.pos ≠ f.1.pos := by
  intro h1
  rcases h e.1.pos (eOn_start e) (by rw [h1]; exact eOn_start f) with q | q
  · exact he q.1
  · exact hf (h1 ▸ q.2)

theorem curve_of_planar {q : Polyline} (hc : q.isClosed = true) (h2 : 2 ≤ q.size)
    (hok : ∀ e ∈ cEdges q, eOk e ∧ ¬ Near (1 / 10 ^ 8) e.1.pos e.2) (hp : (cEdges q).Pairwise PlanarE) : SimpleCurve q := by
  have hmem : ∀ {k}, k < q.size → (rv q k, (rv q (k + 1)).pos) ∈ cEdges q := fun hk =>
    List.mem_map.2 ⟨_, List.mem_range.2 hk, rfl⟩
  have hd : ∀ k < q.size, (rv q k).pos ≠ (rv q (k + 1)).pos := fun k hk =>
    ne_of_not_near (by norm_num) (hok _ (hmem hk)).2
  have hp' : ∀ j k, j < k → k < q.size → PlanarE (rv q j, (rv q (j + 1)).pos) (rv q k, (rv q (k + 1)).pos) := by
    intro j k hjk hk
    unfold cEdges at hp
    rw [List.pairwise_map] at hp
    have := List.pairwise_iff_getElem.1 hp j k (by simpa using hjk.trans hk) (by simpa using hk) hjk
    simpa using this
  have hst : ∀ j k, j < q.size → k < q.size → (rv q j).pos = (rv q k).pos → j = k := by
    intro j k hj hk he
    rcases lt_trichotomy j k with h | h | h
    · exact absurd he ((hp' j k h hk).not_same_start (hd j hj) (hd k hk))
    · exact h
    · exact absurd he.symm ((hp' k j h hj).not_same_start (hd k hk) (hd j hj))
  have key : ∀ j k z, j < k → k < q.size → OnSeg (rv q j) (rv q (j + 1)) z → OnSeg (rv q k) (rv q (k + 1)) z →
      (k = (j + 1) % q.size ∧ z = (rv q (j + 1)).pos) ∨ (j = (k + 1) % q.size ∧ z = (rv q (k + 1)).pos) := by
    intro j k z hjk hk h1 h3
    rcases hp' j k hjk hk z (eOn_eq.2 h1) (eOn_eq.2 h3) with ⟨q1, q2⟩ | ⟨q1, q2⟩
    · left
      simp only at q1 q2
      refine ⟨?_, q1⟩
      apply hst _ _ hk (Nat.mod_lt _ (by omega))
      rw [rv_mod, ← q1, ← q2]
    · right
      simp only at q1 q2
      refine ⟨?_, q2⟩
      apply hst _ _ (by omega) (Nat.mod_lt _ (by omega))
      rw [rv_mod, ← q1, ← q2]
  refine ⟨hc, plineOk_cEdges hc fun e he => (hok e he).1, h2, ?_, ?_⟩
  · intro i v1 v2 h
    obtain ⟨h1, -, rfl, rfl⟩ := seg_rv hc h
    exact (hok _ (hmem h1)).2
  · intro i j v1 v2 u1 u2 x a b hne o1 o2
    obtain ⟨h1, -, rfl, rfl⟩ := seg_rv hc a
    obtain ⟨h3, -, rfl, rfl⟩ := seg_rv hc b
    rcases Nat.lt_or_gt_of_ne hne with h | h
    · exact key i j x h h3 o1 o2
    · rcases key j i x h h1 o2 o1 with q | q
      · exact Or.inr q
      · exact Or.inl q

theorem curves_disjoint {p q : Polyline} (sp : SimpleCurve p) (sq : SimpleCurve q)
    (h : ∀ e ∈ cEdges p, ∀ f ∈ cEdges q, PlanarE e f) (z : V2) : ¬ (OnPline p z ∧ OnPline q z) := by
  rintro ⟨h1, h2⟩
  obtain ⟨j, hj, oj⟩ := sp.on.1 h1
  obtain ⟨k, hk, ok⟩ := sq.on.1 h2
  have hp2 := sp.two'
  have hq2 := sq.two'
  have mp : ∀ j, ∃ e ∈ cEdges p, e = (rv p j, (rv p (j + 1)).pos) := by
    intro j
    refine ⟨_, List.mem_map.2 ⟨j % p.size, List.mem_range.2 (Nat.mod_lt _ (by omega)), rfl⟩, ?_⟩
    rw [rv_mod, rv_mod_succ]
  have mq : ∀ j, ∃ e ∈ cEdges q, e = (rv q j, (rv q (j + 1)).pos) := by
    intro j
    refine ⟨_, List.mem_map.2 ⟨j % q.size, List.mem_range.2 (Nat.mod_lt _ (by omega)), rfl⟩, ?_⟩
    rw [rv_mod, rv_mod_succ]
  have hpl : ∀ j k, PlanarE (rv p j, (rv p (j + 1)).pos) (rv q k, (rv q (k + 1)).pos) := by
    intro j k
    obtain ⟨e, he, rfl⟩ := mp j
    obtain ⟨f, hf, rfl⟩ := mq k
    exact h _ he _ hf
  have hst : ∀ j k, (rv p j).pos ≠ (rv q k).pos := fun j k => (hpl j k).not_same_start (sp.ne j) (sq.ne k)
  rcases hpl j k z (eOn_eq.2 oj) (eOn_eq.2 ok) with ⟨q1, q2⟩ | ⟨q1, q2⟩
  · exact hst (j + 1) k (q1.symm.trans q2)
  · exact hst j (k + 1) (q1.symm.trans q2)

/-- All loops do not meet themselves or each other. -/
theorem loops_curves {res : List Polyline} (hsz : ∀ q ∈ res, q.isClosed = true ∧ 2 ≤ q.size)
    (hd : ∀ e ∈ (res.map fun q => cEdges q).flatten, eOk e ∧ ¬ Near (1 / 10 ^ 8) e.1.pos e.2)
    (hp : (res.map fun q => cEdges q).flatten.Pairwise PlanarE) :
    (∀ q ∈ res, SimpleCurve q) ∧ res.Pairwise fun q q' => ∀ z, ¬ (OnPline q z ∧ OnPline q' z) := by
  rw [List.pairwise_flatten] at hp
  obtain ⟨h1, h2⟩ := hp
  have hsim : ∀ q ∈ res, SimpleCurve q := by
    intro q hq
    exact curve_of_planar (hsz q hq).1 (hsz q hq).2
      (fun e he => hd e (List.mem_flatten.2 ⟨_, List.mem_map.2 ⟨q, hq, rfl⟩, he⟩)) (h1 _ (List.mem_map.2 ⟨q, hq, rfl⟩))
  refine ⟨hsim, ?_⟩
  rw [List.pairwise_map] at h2
  refine List.Pairwise.imp_of_mem ?_ h2
  intro q q' hq hq' h z
  exact curves_disjoint (hsim q hq) (hsim q' hq') h z

end
end Cavc

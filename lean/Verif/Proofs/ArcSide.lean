import Verif.Proofs.ArcMeet

/-! The parts of a closed polyline with arcs between the places where it crosses another one. -/
namespace Cavc
open Spec
open scoped Classical Topology
noncomputable section

variable {A B : Polyline} {intrs : List PlineIntersect}

/-- The winding number of the second polyline along the parts of the first one: `β i` on part number `i`. -/
structure ArcSides (A B : Polyline) (intrs : List PlineIntersect) (s : ℤ) (cs : List Cut) (T : Cut → ℝ) (g : ℕ → ℝ)
    (β : ℕ → ℤ) : Prop where
  pos : CutPos A cs T g
  off : ∀ i < cs.length, ∀ u, g i < u → u < g (i + 1) → ¬ OnPline B (trace A u) ∧
    turnAll B (trace A u) / (2 * Real.pi) = β i
  range : ∀ i < cs.length, β i = 0 ∨ β i = s
  jump : ∀ i < cs.length, ∃ y ∈ intrs, y.pos = trace A (g (i + 1)) ∧
    trace A (g (i + 1)) = trace A (g ((i + 1) % cs.length)) ∧ β ((i + 1) % cs.length) = β i + arcSign A B y

theorem arc_sides (h : ArcMeet A B intrs) {s : ℤ}
    (honce : ∀ x, ¬ OnPline B x → ∀ k, Winding B x k → k = 0 ∨ k = s)
    {cs : List Cut} (hne : cs ≠ []) (hperm : cs.Perm (intrs.map cut1)) (hal : AlongPline A cs) :
    ∃ T g β, ArcSides A B intrs s cs T g β := by
  have hcl := cleanCuts_perm hperm h.clean
  have hN : 0 < cs.length := List.length_pos_iff.2 hne
  obtain ⟨T, g, hg⟩ := exists_cutPos h.closed.1 h.size.1 h.ok.1 hcl hal hne
  have hcomp : ∀ k v e x, IsSeg A k v e → OnSeg v e x → OnPline B x → ∃ c ∈ cs, c.seg = k ∧ c.pos = x := by
    intro k v e x a b c
    obtain ⟨d, hd, hd'⟩ := h.complete k v e x a b c
    exact ⟨d, hperm.mem_iff.2 hd, hd'⟩
  have hoff : ∀ i < cs.length, ∀ u, g i < u → u < g (i + 1) → ¬ OnPline B (trace A u) := by
    intro i hi u h0 h1
    exact hg.none_between h.closed.1 h.size.1 h.ok.1 hcl hcomp hne hi h0 h1
  have g0 : ∀ i, i ≤ cs.length → 0 ≤ g i := fun i hi => ((hg.nonneg hne).trans_le (hg.le (Nat.zero_le i) hi)).le
  have hβ : ∀ i, ∃ b : ℤ, i < cs.length → (b = 0 ∨ b = s) ∧ ∀ u, g i < u → u < g (i + 1) →
      turnAll B (trace A u) / (2 * Real.pi) = b := by
    intro i
    by_cases hi : i < cs.length
    · have hm := hg.mono i hi
      have m1 : g i < (g i + g (i + 1)) / 2 := by linarith
      have m2 : (g i + g (i + 1)) / 2 < g (i + 1) := by linarith
      obtain ⟨b, hb⟩ := turnAll_int h.ok.2 h.closed.2 h.size.2 (hoff i hi _ m1 m2)
      refine ⟨b, fun _ => ⟨?_, fun u h0 h1 => ?_⟩⟩
      · exact honce _ (hoff i hi _ m1 m2) b ((winding_turnAll h.closed.2 h.size.2).2 hb.symm)
      · rw [← hb]
        congr 1
        have := turnAll_const h.ok.2 h.closed.2 h.size.2 (trace_conn A (b := g (i + 1)) (g0 i hi.le))
          (by
            rintro z ⟨x, ⟨v, hv, rfl⟩, rfl⟩
            rw [toV_xy]
            exact hoff i hi v hv.1 hv.2)
          (x := xy (trace A u)) (y := xy (trace A ((g i + g (i + 1)) / 2)))
          ⟨_, ⟨u, ⟨h0, h1⟩, rfl⟩, rfl⟩ ⟨_, ⟨_, ⟨m1, m2⟩, rfl⟩, rfl⟩
        simpa using this
    · exact ⟨0, fun hi' => absurd hi' hi⟩
  choose β hβ using hβ
  refine ⟨T, g, β, hg, fun i hi u h0 h1 => ⟨hoff i hi u h0 h1, (hβ i hi).2 u h0 h1⟩, fun i hi => (hβ i hi).1, ?_⟩
  intro i hi
  have hj : (i + 1) % cs.length < cs.length := Nat.mod_lt _ hN
  obtain ⟨j, hjd⟩ : ∃ j, j = (i + 1) % cs.length := ⟨_, rfl⟩
  rw [← hjd] at hj ⊢
  have hcj : cs[j]? = some cs[j] := List.getElem?_eq_getElem hj
  obtain ⟨y, hy, hyc⟩ := List.mem_map.1 (hperm.mem_iff.1 (List.getElem_mem hj))
  have t1 := hg.trace hcj
  have t2 := hg.trace_next hne hi (by rw [← hjd]; exact hcj)
  have hgj := hg.cut j _ hcj
  obtain ⟨p1, p2, p3, p4⟩ := hg.param _ (List.getElem_mem hj)
  rw [← hyc] at hgj p1 p2 p3 p4 t2
  simp only [cut1] at p1 p4 t2
  obtain ⟨a1, a2, a3, a4, a5, a6, a7⟩ := h.at hy
  have hT : T (cut1 y) = par A y.sIndex1 y.pos :=
    segPt_inj (rv_ok h.closed.1 h.size.1 h.ok.1 _) (exact_ne h.closed.1 h.size.1 hcl _) p2.le p3.le a3.1.le a3.2.le
      (p4.symm.trans a5)
  refine ⟨y, hy, t2.symm, ?_, ?_⟩
  · rw [t1, t2, ← hyc]; rfl
  have hgs : ∀ δ, 0 < δ → δ < T (cut1 y) → trace A (g (i + 1) - δ) = trace A (g j - δ) := by
    intro δ d0 d1
    by_cases he : i + 1 = cs.length
    · have : j = 0 := by rw [hjd, he, Nat.mod_self]
      rw [he, hg.around, ← this]
      rw [show g j + A.size - δ = g j - δ + A.size by ring, trace_per]
      rw [hgj]
      have : (0 : ℝ) ≤ ((cut1 y).seg : ℝ) := Nat.cast_nonneg _
      linarith
    · have : j = i + 1 := by rw [hjd, Nat.mod_eq_of_lt (by omega)]
      rw [this]
  have ev : ∀ c : ℝ, 0 < c → ∀ᶠ δ in 𝓝[>] (0 : ℝ), 0 < δ ∧ δ < c := fun c hc => by
    filter_upwards [Ioo_mem_nhdsGT hc] with δ hδ using hδ
  have m1 := hg.mono i hi
  have m2 := hg.mono j hj
  obtain ⟨δ, ⟨d0, d1⟩, ⟨-, d2⟩, ⟨-, d3⟩, ⟨-, d4⟩, hδ⟩ := ((ev _ p2).and ((ev _ (show 0 < 1 - T (cut1 y) by linarith)).and
    ((ev _ (show 0 < g (i + 1) - g i by linarith)).and ((ev _ (show 0 < g (j + 1) - g j by linarith)).and (h.jump hy))))).exists
  have e1 : trace A (g j + δ) = segPt (rv A y.sIndex1) (rv A (y.sIndex1 + 1)) (par A y.sIndex1 y.pos + δ) := by
    have hseg : (cut1 y).seg = y.sIndex1 := rfl
    rw [hgj, hseg, trace_on (k := y.sIndex1) (by linarith) (by linarith), ← hT]
    congr 1; ring
  have e2 : trace A (g (i + 1) - δ) = segPt (rv A y.sIndex1) (rv A (y.sIndex1 + 1)) (par A y.sIndex1 y.pos - δ) := by
    have hseg : (cut1 y).seg = y.sIndex1 := rfl
    rw [hgs δ d0 d1, hgj, hseg, trace_on (k := y.sIndex1) (by linarith) (by linarith), ← hT]
    congr 1; ring
  rw [← e1, ← e2] at hδ
  have := hδ (hoff j hj _ (by linarith) (by linarith)) (hoff i hi _ (by linarith) (by linarith))
  rw [(hβ j hj).2 _ (by linarith) (by linarith), (hβ i hi).2 _ (by linarith) (by linarith)] at this
  exact_mod_cast this

end
end Cavc

import Verif.Proofs.ArcLoops

/-! The slices of a closed polyline with arcs that is cut for a boolean operation. -/
namespace Cavc
open Spec
open scoped Classical
noncomputable section

theorem pieceWithin_det {p : Polyline} {before : List Cut} {c c' : Cut} {s s' : Polyline}
    (h : PieceWithin p before c c' s) (h' : PieceWithin p before c c' s') : s = s' := by
  obtain ⟨v, e, u, r, h1, h2, h3, rfl⟩ := h
  obtain ⟨v', e', u', r', h1', h2', h3', rfl⟩ := h'
  obtain ⟨rfl, rfl⟩ := isSeg_inj h1 h1'
  have := rest_inj h2 h2'
  subst this
  rw [h3] at h3'
  cases h3'
  rfl

theorem pieceAcross_det {p : Polyline} {c c' : Cut} {s s' : Polyline}
    (h : PieceAcross p c c' s) (h' : PieceAcross p c c' s') : s = s' := by
  obtain ⟨v, e, r, us, u, v1, e1, r1, h1, h2, h3, h4, h5, rfl⟩ := h
  obtain ⟨v', e', r', us', u', v1', e1', r1', h1', h2', h3', h4', h5', rfl⟩ := h'
  obtain ⟨rfl, rfl⟩ := isSeg_inj h1 h1'
  obtain ⟨rfl, rfl⟩ := isSeg_inj h4 h4'
  rw [h2] at h2'
  cases h2'
  rw [h3] at h3'
  obtain ⟨rfl, h6⟩ := List.append_inj' h3' rfl
  cases h6
  rw [h5] at h5'
  cases h5'
  rfl

section
variable {p : Polyline} {cs : List Cut} {T : Cut → ℝ} {g : ℕ → ℝ}

/-- Of each cut comes the part of the path to the next cut, if it is kept for the side that one of its points is on. -/
theorem slice_arc (h : CutPos p cs T g) (hc : p.isClosed = true) (h2 : 2 ≤ p.size) (hok : PlineOk p)
    (hex : CleanCuts p cs) (hov : ∀ c ∈ cs, c.overlap = false) {keep : V2 → Prop} {i : ℕ} {o : Option Polyline}
    (hs : SliceAt p keep cs i o) :
    ∃ (s : Polyline) (u : ℝ), s.isClosed = false ∧ 2 ≤ s.vertexes.length ∧ Along p (g i) s.vertexes (g (i + 1)) ∧
      g i < u ∧ u < g (i + 1) ∧ o = if keep (trace p u) then some s else none := by
  obtain ⟨c, c', hci, hci', hcase⟩ := hs
  have hi : i < cs.length := (List.getElem?_eq_some_iff.1 hci).1
  obtain ⟨s, hsh⟩ := h.shape hc h2 hok hex hi
  have hk := hsh.kept Polyline.empty 0 (fun _ => True) ⟨fun y _ _ => by
      rintro i v1 v2 q hq
      simp [IsSeg, segs, Polyline.empty] at hq, fun k s t u w _ _ _ _ _ => by
      rintro ⟨i, v1, v2, q, hq, -⟩
      simp [IsSeg, segs, Polyline.empty] at hq⟩ trivial
  -- the last part
  obtain ⟨l, u, w, hlast⟩ : ∃ l u w, s.vertexes = l ++ [u, w] := by
    have := hsh.two
    obtain ⟨l, w, e⟩ : ∃ l w, s.vertexes = l ++ [w] := by
      have hne : s.vertexes ≠ [] := by intro e; rw [e] at this; simp at this
      exact ⟨_, _, (List.dropLast_append_getLast hne).symm⟩
    obtain ⟨l', u, e'⟩ : ∃ l' u, l = l' ++ [u] := by
      have hne : l ≠ [] := by rintro rfl; rw [e] at this; simp at this
      exact ⟨_, _, (List.dropLast_append_getLast hne).symm⟩
    exact ⟨l', u, w, by rw [e, e']; simp⟩
  have hal := hsh.along
  rw [hlast] at hal
  obtain ⟨k, a, b, ka, kb, a0, b1, hsub⟩ := along_last hal
  obtain ⟨m, hm, hm'⟩ := C16_segMidpoint hsub.ok
  have hab := hsub.lt
  rw [atParam_segPt, hsub.pts] at hm'
  have hmt : m = trace p (k + (a + b) / 2) := by
    rw [hm', trace_on (k := k) (by linarith) (by linarith)]
    congr 1; ring
  have hkb : ∀ keep : V2 → Prop, KeptBy keep s ↔ keep (trace p (k + (a + b) / 2)) := by
    intro keep
    unfold KeptBy
    constructor
    · rintro ⟨l', u', w', m', e1, e2, e3⟩
      rw [hlast] at e1
      obtain ⟨-, e4⟩ := List.append_inj' e1 rfl
      simp only [List.cons.injEq, and_true] at e4
      obtain ⟨rfl, rfl⟩ := e4
      rw [hm] at e2
      cases e2
      rwa [← hmt]
    · intro hkm
      exact ⟨l, u, w, m, hlast, hm, by rwa [hmt]⟩
  have hbig : ¬ Tiny s := by
    intro ht
    exact hsub.far (ht u (by rw [hlast]; simp) w (by rw [hlast]; simp))
  refine ⟨s, k + (a + b) / 2, hsh.isOpen, hsh.two, hsh.along, by linarith, by linarith, ?_⟩
  obtain ⟨d, d', hd, hd', hkc⟩ := hk
  rw [hci] at hd
  cases hd
  rw [hci'] at hd'
  cases hd'
  rcases hcase with ⟨h3, -⟩ | ⟨-, h3, h4, s', h5, rfl⟩ | ⟨-, h3, s', h5, rfl⟩
  · rw [hov c (List.mem_of_getElem? hci)] at h3
    exact absurd h3 (by simp)
  · rcases hkc with ⟨-, -, h6⟩ | ⟨h6, -⟩ | ⟨h6, -⟩
    · obtain rfl := pieceWithin_det h5 h6.1
      simp only [hkb, hbig, not_false_eq_true, true_and]
    · exfalso
      rcases h6 with ⟨-, h6⟩ | ⟨h6, -⟩
      · exact h6 h4
      · omega
    · omega
  · rcases hkc with ⟨h6, h7, -⟩ | ⟨-, h6, -⟩ | ⟨-, h6, -⟩
    · exfalso
      rcases h3 with h3 | h3
      · omega
      · exact h3 h7
    · obtain ⟨v, e, r, us, u1, v', e', r', m', k1, k2, -, -, k3, -, k4, k5, -, -, k6⟩ := h6
      obtain rfl := pieceAcross_det h5 ⟨v, e, r, us, u1, v', e', r', k1, k2, k3, k4, k5, k6⟩
      simp only [hkb]
    · rw [hc] at h6
      exact absurd h6 (by simp)

end
end
end Cavc

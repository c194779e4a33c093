import Verif.Props.FindIntersects
import Verif.Props.SegCurve
import Verif.Props.PlineArea
import Verif.Spec.Coincident

/-!
C36: coincident intersects are sorted along the first polyline and joined into slices.
-/
namespace Cavc
open Spec
open scoped Classical
noncomputable section

theorem near5_iff {a b : V2} : fuzzyEqualV a b realPrecision ↔ Near (1 / 10 ^ 5) a b := Iff.rfl

theorem split_ok {v1 v2 : Vertex} (hok : SegOk v1 v2) (x : V2) : ∃ r, splitAtPoint v1 v2 x = .ok r := by
  unfold splitAtPoint
  by_cases hl : IsLine v1
  · rw [if_pos (show v1.bulgeIsZero from hl)]; exact ⟨_, rfl⟩
  · rw [if_neg (show ¬ v1.bulgeIsZero from hl)]
    split_ifs
    · exact ⟨_, rfl⟩
    · exact ⟨_, rfl⟩
    · rw [(hok.arcOk hl).run, ok_bind]; exact ⟨_, rfl⟩

/-- The vertex at the point `x` of segment `i`. -/
def cut (p : Polyline) (i : ℕ) (x : V2) : Vertex :=
  match (segs p)[i]? with
  | some (v1, v2) => match splitAtPoint v1 v2 x with
    | .ok r => r.splitVertex
    | .error _ => ⟨x, 0⟩
  | none => ⟨x, 0⟩

theorem cut_eq {p : Polyline} (hp : PlineOk p) {i : ℕ} {v1 v2 : Vertex} (h : IsSeg p i v1 v2) (x : V2) :
    ∃ r, splitAtPoint v1 v2 x = .ok r ∧ r.splitVertex = cut p i x := by
  obtain ⟨r, hr⟩ := split_ok (hp _ _ _ h) x
  refine ⟨r, hr, ?_⟩
  unfold cut
  rw [show (segs p)[i]? = _ from h]
  simp only
  rw [hr]

theorem cutVertex_iff {p : Polyline} (hp : PlineOk p) {i : ℕ} {v1 v2 : Vertex} (h : IsSeg p i v1 v2)
    (x : V2) (w : Vertex) : CutVertex p i x w ↔ w = cut p i x := by
  obtain ⟨r, hr, he⟩ := cut_eq hp h x
  constructor
  · rintro ⟨w1, w2, r', hs, hr', rfl⟩
    obtain ⟨rfl, rfl⟩ := isSeg_inj h hs
    rw [hr] at hr'
    cases hr'
    exact he
  · rintro rfl
    exact ⟨v1, v2, r, h, hr, he.symm⟩

/-- The intersect names segments of the two polylines. -/
def ValidCoin (p1 p2 : Polyline) (c : CoincidentIntersect) : Prop :=
  (∃ v1 v2, IsSeg p1 c.sIndex1 v1 v2) ∧ ∃ u1 u2, IsSeg p2 c.sIndex2 u1 u2

theorem connects_iff {p1 p2 : Polyline} (hp : PlineOk p1) {a b : CoincidentIntersect}
    (ha : ValidCoin p1 p2 a) : Connects p1 a b ↔
      Near (1 / 10 ^ 5) b.point1 (cut p1 a.sIndex1 a.point2).pos := by
  obtain ⟨⟨v1, v2, h⟩, -⟩ := ha
  unfold Connects
  simp only [cutVertex_iff hp h]
  constructor
  · rintro ⟨w, rfl, hn⟩; exact hn
  · intro hn; exact ⟨_, rfl, hn⟩

/-- The vertexes of the slice of a run. -/
def sliceV (p : Polyline) (g : List CoincidentIntersect) : List Vertex :=
  g.map (fun c => cut p c.sIndex1 c.point1) ++
    (g.getLast?.map fun c => cut p c.sIndex1 c.point2).toList

theorem sliceV_concat (p : Polyline) (g : List CoincidentIntersect) (c : CoincidentIntersect) :
    sliceV p (g ++ [c]) = g.map (fun c => cut p c.sIndex1 c.point1) ++
      [cut p c.sIndex1 c.point1, cut p c.sIndex1 c.point2] := by
  simp [sliceV]

theorem isSlice_sliceV {p1 p2 : Polyline} (hp : PlineOk p1) {g : List CoincidentIntersect}
    (hg : ∀ c ∈ g, ValidCoin p1 p2 c) (hne : g ≠ []) : IsSlice p1 g ⟨false, sliceV p1 g⟩ := by
  refine ⟨rfl, g.map (fun c => cut p1 c.sIndex1 c.point1),
    cut p1 (g.getLast hne).sIndex1 (g.getLast hne).point2, g.getLast hne, ?_, ?_, ?_, ?_⟩
  · simp [sliceV, List.getLast?_eq_some_getLast hne]
  · rw [List.forall₂_map_right_iff, List.forall₂_same]
    intro c hc
    obtain ⟨⟨v1, v2, h⟩, -⟩ := hg c hc
    exact (cutVertex_iff hp h _ _).2 rfl
  · rw [List.getLast?_eq_some_getLast hne]; rfl
  · obtain ⟨⟨v1, v2, h⟩, -⟩ := hg _ (List.getLast_mem hne)
    exact (cutVertex_iff hp h _ _).2 rfl

theorem prevWrap_isPrev {n i : ℕ} (h : i < n) : IsPrev n i (prevWrappingIndex i n) := by
  unfold prevWrappingIndex IsPrev
  split_ifs <;> omega

theorem startSlice_eq {p1 p2 : Polyline} (h1 : PlineOk p1) (h2 : PlineOk p2) {c : CoincidentIntersect}
    (hc : ValidCoin p1 p2 c) : ∃ o s, (∀ l, IsSliceStart p1 p2 (c :: l) s) ∧
      (∀ l, IsOpposing p1 p2 (c :: l) o) ∧ ∀ st : JoinState, startCoincidentSlice p1 p2 c st =
        .ok ⟨⟨st.curr.isClosed, st.curr.vertexes ++ [cut p1 c.sIndex1 c.point1,
            cut p1 c.sIndex1 c.point2]⟩, st.result.coincidentSlices,
          st.result.sliceStartPoints ++ [s], st.result.sliceEndPoints,
          st.result.coincidentIsOpposingDirection ++ [o]⟩ := by
  obtain ⟨⟨v1, v2, hv⟩, ⟨u1, u2, hu⟩⟩ := hc
  obtain ⟨a1, a2⟩ := seg_at hv
  obtain ⟨b1, b2⟩ := seg_at hu
  obtain ⟨r1, hr1, he1⟩ := cut_eq h1 hv c.point1
  obtain ⟨r2, hr2, he2⟩ := cut_eq h1 hv c.point2
  obtain ⟨γ, hγ⟩ := exists_path p1
  obtain ⟨δ, hδ⟩ := exists_path p2
  have pg := hγ _ _ _ hv
  have pd := hδ _ _ _ hu
  have start : ∀ {w1 w2 : Vertex} {η : ℝ → V2}, IsPath w1 w2 η → η 0 = w1.pos := by
    intro w1 w2 η h
    rcases h 0 with ⟨-, h⟩ | ⟨-, cc, -, h⟩
    · rw [h]; ext <;> simp [lerp]
    · rw [h, zero_mul, rot_zero]
  obtain ⟨T1, ht1, ⟨k1, hk1, e1⟩, -⟩ := C17_segTangentVector (h1 _ _ _ hv) pg 0
  obtain ⟨T2, ht2, ⟨k2, hk2, e2⟩, -⟩ := C17_segTangentVector (h2 _ _ _ hu) pd 0
  rw [start pg] at ht1
  rw [start pd] at ht2
  refine ⟨!decide (dot T1 T2 > 0), ⟨if fuzzyEqualV v1.pos c.point1 realPrecision
        then prevWrappingIndex c.sIndex1 p1.size else c.sIndex1,
      if fuzzyEqualV u1.pos r1.splitVertex.pos realPrecision
        then prevWrappingIndex c.sIndex2 p2.size else c.sIndex2, r1.splitVertex.pos⟩, ?_, ?_, ?_⟩
  · intro l
    refine ⟨c, _, v1, v2, u1, u2, rfl, (cutVertex_iff h1 hv _ _).2 rfl, hv, hu, by rw [he1], ?_, ?_,
      ?_, ?_⟩
    · intro hn
      try simp only at hn
      simp only
      rw [if_pos (near5_iff.2 hn)]
      exact prevWrap_isPrev (seg_lt hv).1
    · intro hn
      try simp only at hn
      simp only
      rw [if_neg (fun h => hn (near5_iff.1 h))]
    · intro hn
      simp only at hn ⊢
      rw [if_pos (near5_iff.2 hn)]
      exact prevWrap_isPrev (seg_lt hu).1
    · intro hn
      simp only at hn ⊢
      rw [if_neg (fun h => hn (near5_iff.1 h))]
  · intro l
    refine ⟨c, v1, v2, u1, u2, γ _, δ _, rfl, hv, hu, pg, pd, ?_⟩
    rw [e1, e2]
    have : (k1 • T1).x * (k2 • T2).x + (k1 • T1).y * (k2 • T2).y = k1 * k2 * dot T1 T2 := by
      simp [dot]; ring
    rw [this, mul_pos_iff_of_pos_left (mul_pos hk1 hk2)]
    simp
  · intro st
    unfold startCoincidentSlice
    rw [a1, a2, b1, b2, ok_bind, ok_bind, ok_bind, ok_bind, ht1, ht2, ok_bind, ok_bind, hr1, hr2,
      ok_bind, ok_bind, ← he1, ← he2]
    simp only [Polyline.addVertex, List.append_assoc, List.cons_append, List.nil_append]
    rfl

theorem endSlice_eq {p1 p2 : Polyline} {c : CoincidentIntersect}
    (hc : ValidCoin p1 p2 c) : ∃ e, (∀ g, g.getLast? = some c → IsSliceEnd p2 g e) ∧
      ∀ st : JoinState, endCoincidentSlice p2 c st = .ok ⟨Polyline.empty,
        st.result.coincidentSlices ++ [st.curr], st.result.sliceStartPoints,
        st.result.sliceEndPoints ++ [e], st.result.coincidentIsOpposingDirection⟩ := by
  obtain ⟨-, ⟨u1, u2, hu⟩⟩ := hc
  obtain ⟨b1, b2⟩ := seg_at hu
  refine ⟨⟨c.sIndex1, if fuzzyEqualV u1.pos c.point2 realPrecision
        then prevWrappingIndex c.sIndex2 p2.size else c.sIndex2, c.point2⟩, ?_, ?_⟩
  · intro g hg
    refine ⟨c, u1, u2, by rw [hg]; rfl, hu, rfl, rfl, ?_, ?_⟩
    · intro hn
      try simp only at hn
      simp only
      rw [if_pos (near5_iff.2 hn)]
      exact prevWrap_isPrev (seg_lt hu).1
    · intro hn
      try simp only at hn
      simp only
      rw [if_neg (fun h => hn (near5_iff.1 h))]
  · intro st
    unfold endCoincidentSlice
    rw [b1, ok_bind]
    rfl

/-- Where the joining loop is: the finished runs and the current one. -/
structure JInv (p1 p2 : Polyline) (gs : List (List CoincidentIntersect)) (g : List CoincidentIntersect)
    (st : JoinState) : Prop where
  valid : ∀ c ∈ g, ValidCoin p1 p2 c
  curr : st.curr = ⟨false, sliceV p1 g⟩
  slices : List.Forall₂ (IsSlice p1) gs st.result.coincidentSlices
  starts : List.Forall₂ (IsSliceStart p1 p2) (gs ++ [g]) st.result.sliceStartPoints
  ends : List.Forall₂ (IsSliceEnd p2) gs st.result.sliceEndPoints
  opposing : List.Forall₂ (IsOpposing p1 p2) (gs ++ [g]) st.result.coincidentIsOpposingDirection

theorem forall2_concat {α β : Type} {R : α → β → Prop} {l : List α} {l' : List β} {a : α} {b : β}
    (h : List.Forall₂ R l l') (hab : R a b) : List.Forall₂ R (l ++ [a]) (l' ++ [b]) :=
  List.rel_append h (List.Forall₂.cons hab List.Forall₂.nil)

theorem forall2_last {α β : Type} {R : α → β → Prop} {l : List α} {l' : List β} {a a' : α}
    (h : List.Forall₂ R (l ++ [a]) l') (hab : ∀ b, R a b → R a' b) :
    List.Forall₂ R (l ++ [a']) l' := by
  induction l generalizing l' with
  | nil =>
    rcases h with _ | ⟨h, hn⟩
    cases hn
    exact List.Forall₂.cons (hab _ h) List.Forall₂.nil
  | cons x l ih =>
    rcases h with _ | ⟨h, hn⟩
    exact List.Forall₂.cons h (ih hn)

theorem sliceStart_append {p1 p2 : Polyline} {g l : List CoincidentIntersect} (hne : g ≠ [])
    {x : PlineIntersect} (h : IsSliceStart p1 p2 g x) : IsSliceStart p1 p2 (g ++ l) x := by
  obtain ⟨c, g, rfl⟩ := List.exists_cons_of_ne_nil hne
  exact h

theorem opposing_append {p1 p2 : Polyline} {g l : List CoincidentIntersect} (hne : g ≠ [])
    {x : Bool} (h : IsOpposing p1 p2 g x) : IsOpposing p1 p2 (g ++ l) x := by
  obtain ⟨c, g, rfl⟩ := List.exists_cons_of_ne_nil hne
  exact h

/-- The runs so far, extended by an intersect that connects. -/
theorem runs_extend {p : Polyline} {gs : List (List CoincidentIntersect)} {g : List CoincidentIntersect}
    {prev c : CoincidentIntersect} (hg : g.getLast? = some prev) (hc : Connects p prev c)
    (h : Runs p (gs ++ [g]).flatten (gs ++ [g])) :
    Runs p (gs ++ [g ++ [c]]).flatten (gs ++ [g ++ [c]]) := by
  have hne : g ≠ [] := by rintro rfl; simp at hg
  refine ⟨rfl, ?_, ?_, ?_⟩
  · intro g' hg'
    rw [List.mem_append, List.mem_singleton] at hg'
    rcases hg' with hg' | rfl
    · exact h.nonempty _ (by simp [hg'])
    · simp
  · intro g' hg'
    rw [List.mem_append, List.mem_singleton] at hg'
    rcases hg' with hg' | rfl
    · exact h.connected _ (by simp [hg'])
    · rw [List.isChain_append]
      refine ⟨h.connected _ (by simp), List.isChain_singleton _, ?_⟩
      intro x hx y hy
      rw [hg] at hx
      cases hx
      cases hy
      exact hc
  · have := h.maximal
    rw [List.isChain_append] at this ⊢
    refine ⟨this.1, List.isChain_singleton _, ?_⟩
    intro x hx y hy
    cases hy
    intro a ha b hb
    refine this.2.2 x hx g rfl a ha b ?_
    obtain ⟨d, g, rfl⟩ := List.exists_cons_of_ne_nil hne
    exact hb

/-- The runs so far, followed by a new one. -/
theorem runs_new {p : Polyline} {gs : List (List CoincidentIntersect)} {g : List CoincidentIntersect}
    {prev c : CoincidentIntersect} (hg : g.getLast? = some prev) (hc : ¬ Connects p prev c)
    (h : Runs p (gs ++ [g]).flatten (gs ++ [g])) :
    Runs p (gs ++ [g] ++ [[c]]).flatten (gs ++ [g] ++ [[c]]) := by
  refine ⟨rfl, ?_, ?_, ?_⟩
  · intro g' hg'
    rw [List.mem_append, List.mem_singleton] at hg'
    rcases hg' with hg' | rfl
    · exact h.nonempty _ hg'
    · simp
  · intro g' hg'
    rw [List.mem_append, List.mem_singleton] at hg'
    rcases hg' with hg' | rfl
    · exact h.connected _ hg'
    · exact List.isChain_singleton _
  · rw [List.isChain_append]
    refine ⟨h.maximal, List.isChain_singleton _, ?_⟩
    intro x hx y hy
    cases hy
    intro a ha b hb
    rw [List.getLast?_concat] at hx
    cases hx
    rw [hg] at ha
    cases ha
    cases hb
    exact hc

theorem sliceV_last {p : Polyline} {g : List CoincidentIntersect} {c : CoincidentIntersect}
    (h : g.getLast? = some c) : (sliceV p g).getLast? = some (cut p c.sIndex1 c.point2) := by
  simp [sliceV, h]

theorem sliceV_dropLast {p : Polyline} {g : List CoincidentIntersect} (h : g ≠ []) :
    (sliceV p g).dropLast = g.map fun c => cut p c.sIndex1 c.point1 := by
  simp [sliceV, List.getLast?_eq_some_getLast h]

theorem joinLoop_eq {p1 p2 : Polyline} (h1 : PlineOk p1) (h2 : PlineOk p2)
    (rest : List CoincidentIntersect) (hrest : ∀ c ∈ rest, ValidCoin p1 p2 c) :
    ∀ gs g st prev, JInv p1 p2 gs g st → g.getLast? = some prev →
      Runs p1 (gs ++ [g]).flatten (gs ++ [g]) →
      ∃ gs' g' st' last, joinLoop p1 p2 prev rest st = .ok (last, st') ∧ JInv p1 p2 gs' g' st' ∧
        g'.getLast? = some last ∧ Runs p1 (gs' ++ [g']).flatten (gs' ++ [g']) ∧
        (gs' ++ [g']).flatten = (gs ++ [g]).flatten ++ rest := by
  induction rest with
  | nil =>
    intro gs g st prev hj hg hr
    exact ⟨gs, g, st, prev, rfl, hj, hg, hr, by simp⟩
  | cons c rest ih =>
    intro gs g st prev hj hg hr
    have hne : g ≠ [] := by rintro rfl; simp at hg
    have hvc := hrest c (by simp)
    have hvp := hj.valid prev (List.mem_of_getLast? hg)
    obtain ⟨v1, v2, hv⟩ := hvc.1
    obtain ⟨a1, a2⟩ := seg_at hv
    unfold joinLoop
    have hlast : st.curr.lastVertex = .ok (cut p1 prev.sIndex1 prev.point2) := by
      unfold Polyline.lastVertex
      rw [hj.curr]
      simp only
      rw [sliceV_last hg]
    rw [a1, a2, ok_bind, ok_bind, hlast, ok_bind]
    by_cases hc : Connects p1 prev c
    · rw [if_pos (near5_iff.2 ((connects_iff h1 hvp).1 hc))]
      obtain ⟨r1, hr1, he1⟩ := cut_eq h1 hv c.point1
      obtain ⟨r2, hr2, he2⟩ := cut_eq h1 hv c.point2
      have hpop : st.curr.popBack = .ok ⟨false, g.map fun c => cut p1 c.sIndex1 c.point1⟩ := by
        unfold Polyline.popBack
        rw [hj.curr]
        simp only
        rw [if_neg, sliceV_dropLast hne]
        intro h
        have := sliceV_last (p := p1) hg
        rw [h] at this
        simp at this
      rw [hpop, ok_bind, hr1, hr2, ok_bind, ok_bind, he1, he2]
      have hJ : JInv p1 p2 gs (g ++ [c]) ⟨Polyline.addVertex (Polyline.addVertex ⟨false, g.map
          fun c => cut p1 c.sIndex1 c.point1⟩ (cut p1 c.sIndex1 c.point1))
          (cut p1 c.sIndex1 c.point2), st.result⟩ := by
        refine ⟨?_, ?_, hj.slices, forall2_last hj.starts fun b hb => sliceStart_append hne hb, hj.ends,
          forall2_last hj.opposing fun b hb => opposing_append hne hb⟩
        · intro x hx
          rw [List.mem_append, List.mem_singleton] at hx
          rcases hx with hx | rfl
          · exact hj.valid x hx
          · exact hvc
        · simp [sliceV_concat, Polyline.addVertex]
      obtain ⟨gs', g', st', last, e, hj', hg', hr', hf⟩ := ih (fun x hx => hrest x (by simp [hx])) gs
        (g ++ [c]) _ c hJ (by simp) (runs_extend hg hc hr)
      exact ⟨gs', g', st', last, e, hj', hg', hr', by rw [hf]; simp⟩
    · rw [if_neg (fun h => hc ((connects_iff h1 hvp).2 (near5_iff.1 h)))]
      obtain ⟨e, he, hend⟩ := endSlice_eq (p1 := p1) (p2 := p2) hvp
      obtain ⟨o, s, hs, ho, hstart⟩ := startSlice_eq h1 h2 hvc
      rw [hend, ok_bind, hstart, ok_bind]
      have hJ : JInv p1 p2 (gs ++ [g]) [c] ⟨⟨Polyline.empty.isClosed, Polyline.empty.vertexes ++
            [cut p1 c.sIndex1 c.point1, cut p1 c.sIndex1 c.point2]⟩,
          st.result.coincidentSlices ++ [st.curr], st.result.sliceStartPoints ++ [s],
          st.result.sliceEndPoints ++ [e], st.result.coincidentIsOpposingDirection ++ [o]⟩ := by
        refine ⟨by simpa using hvc, ?_, ?_, forall2_concat hj.starts (hs _),
          forall2_concat hj.ends (he _ hg), forall2_concat hj.opposing (ho _)⟩
        · simp [sliceV, Polyline.empty]
        · simp only
          rw [hj.curr]
          exact forall2_concat hj.slices (isSlice_sliceV h1 hj.valid hne)
      obtain ⟨gs', g', st', last, e, hj', hg', hr', hf⟩ := ih (fun x hx => hrest x (by simp [hx]))
        (gs ++ [g]) [c] _ c hJ (by simp) (runs_new hg hc hr)
      exact ⟨gs', g', st', last, e, hj', hg', hr', by rw [hf]; simp⟩

/-! ### Sorting -/

theorem distSquared_eq (a b : V2) : distSquared a b = dist2 a b := by
  unfold distSquared dist2 dot; simp; ring

theorem coincidentLess_strictWeak (p : Polyline) : StrictWeak (coincidentLess p) := by
  constructor
  · intro a h
    unfold coincidentLess at h
    simp at h
  · intro a b c hab hbc
    unfold coincidentLess at *
    by_cases h1 : a.sIndex1 = b.sIndex1
    · rw [if_neg (not_not.2 h1)] at hab
      by_cases h2 : b.sIndex1 = c.sIndex1
      · rw [if_neg (not_not.2 h2)] at hbc
        rw [if_neg (not_not.2 (h1.trans h2))]
        rw [← h1] at hbc
        exact lt_trans hab hbc
      · rw [if_pos h2] at hbc
        rw [if_pos (by rw [h1]; exact h2), h1]; exact hbc
    · rw [if_pos h1] at hab
      by_cases h2 : b.sIndex1 = c.sIndex1
      · rw [if_pos (by rw [← h2]; exact h1), ← h2]; exact hab
      · rw [if_pos h2] at hbc
        rw [if_pos (by omega)]; omega
  · intro a b c h1 h2 h3 h4
    unfold coincidentLess at *
    have e1 : a.sIndex1 = b.sIndex1 := by
      by_contra hne
      rw [if_pos hne] at h1
      rw [if_pos (fun h => hne h.symm)] at h2
      omega
    have e2 : b.sIndex1 = c.sIndex1 := by
      by_contra hne
      rw [if_pos hne] at h3
      rw [if_pos (fun h => hne h.symm)] at h4
      omega
    rw [if_neg (not_not.2 e1)] at h1
    rw [if_neg (not_not.2 e1.symm)] at h2
    rw [if_neg (not_not.2 e2)] at h3
    rw [if_neg (not_not.2 e2.symm)] at h4
    rw [if_neg (not_not.2 (e1.trans e2)), if_neg (not_not.2 (e1.trans e2).symm)]
    simp only [not_lt] at *
    rw [← e2, ← e1] at h4
    rw [← e1] at h2 h3
    rw [← e2, ← e1]
    exact ⟨h3.trans h1, h2.trans h4⟩

/-- The intersect with its points in order. -/
def ordered (p : Polyline) (c : CoincidentIntersect) : CoincidentIntersect :=
  if distSquared (vtx p c.sIndex1).pos c.point1 > distSquared (vtx p c.sIndex1).pos c.point2
  then { c with point1 := c.point2, point2 := c.point1 } else c

theorem orderPoints_eq {p1 p2 : Polyline} {c : CoincidentIntersect} (h : ValidCoin p1 p2 c) :
    orderPoints p1 c = .ok (ordered p1 c) := by
  obtain ⟨⟨v1, v2, hv⟩, -⟩ := h
  unfold orderPoints ordered
  rw [at_eq (seg_lt hv).1, ok_bind]
  rfl

theorem ordered_index (p : Polyline) (c : CoincidentIntersect) :
    (ordered p c).sIndex1 = c.sIndex1 ∧ (ordered p c).sIndex2 = c.sIndex2 := by
  unfold ordered; split_ifs <;> exact ⟨rfl, rfl⟩

theorem fromStart_ordered (p : Polyline) (c : CoincidentIntersect) : FromStart p c (ordered p c) := by
  unfold ordered FromStart
  split_ifs with h
  · refine ⟨Or.inr rfl, fun v1 v2 hv => ?_⟩
    rw [(seg_lt hv).2.2.2.1, ← distSquared_eq, ← distSquared_eq]
    exact le_of_lt h
  · refine ⟨Or.inl rfl, fun v1 v2 hv => ?_⟩
    rw [(seg_lt hv).2.2.2.1, ← distSquared_eq, ← distSquared_eq]
    exact not_lt.1 h

theorem mapM_total {α β : Type} (f : α → M β) (g : α → β) (l : List α) (h : ∀ a ∈ l, f a = .ok (g a)) :
    l.mapM f = .ok (l.map g) := by
  induction l with
  | nil => rfl
  | cons a l ih =>
    rw [List.mapM_cons, h a (by simp), ok_bind, ih (fun b hb => h b (by simp [hb])), ok_bind]
    rfl

/-! ### The last slice and the first -/

theorem forall2_cons_concat {α β : Type} {R : α → β → Prop} {g0 : α} {mid : List α} {gl : α}
    {l : List β} (h : List.Forall₂ R (g0 :: (mid ++ [gl])) l) :
    ∃ b0 ml bl, l = b0 :: (ml ++ [bl]) ∧ R g0 b0 ∧ List.Forall₂ R mid ml ∧ R gl bl := by
  rcases h with _ | ⟨h0, h⟩
  rename_i b0 l
  rw [List.forall₂_iff_get] at h
  have hlen := h.1
  have hne : l ≠ [] := by
    intro h; rw [h] at hlen; simp at hlen
  obtain ⟨ml, bl, rfl⟩ := (List.eq_nil_or_concat l).resolve_left hne
  rw [List.concat_eq_append] at *
  have h' := List.forall₂_iff_get.2 h
  have := List.rel_reverse h'
  rw [List.reverse_append, List.reverse_append] at this
  simp only [List.reverse_cons, List.reverse_nil, List.nil_append, List.cons_append] at this
  rcases this with _ | ⟨hl, hm⟩
  have := List.rel_reverse hm
  rw [List.reverse_reverse, List.reverse_reverse] at this
  exact ⟨b0, ml, bl, rfl, h0, this, hl⟩

theorem isSlice_append {p1 : Polyline} {g g' : List CoincidentIntersect}
    {s s' : Polyline} (h : IsSlice p1 g s) (h' : IsSlice p1 g' s') :
    IsSlice p1 (g ++ g') ⟨s.isClosed, s.vertexes.dropLast ++ s'.vertexes⟩ := by
  obtain ⟨hc, ws, w, c, hv, hf, hl, hcut⟩ := h
  obtain ⟨hc', ws', w', c', hv', hf', hl', hcut'⟩ := h'
  refine ⟨hc, ws ++ ws', w', c', ?_, List.rel_append hf hf', ?_, hcut'⟩
  · rw [hv, hv']; simp
  · rw [List.getLast?_append, hl']; rfl

theorem sliceEnd_append {p2 : Polyline} {g g' : List CoincidentIntersect} {x : PlineIntersect}
    (h : IsSliceEnd p2 g' x) : IsSliceEnd p2 (g ++ g') x := by
  obtain ⟨c, u1, u2, hc, h⟩ := h
  exact ⟨c, u1, u2, by rw [List.getLast?_append, hc]; rfl, h⟩

theorem joinLastWithFirst_eq {p1 p2 : Polyline} (h1 : PlineOk p1) {gs : List (List CoincidentIntersect)}
    (hne : ∀ g ∈ gs, g ≠ []) (hval : ∀ g ∈ gs, ∀ c ∈ g, ValidCoin p1 p2 c) {r : CoincidentSlices}
    (h : SlicesOf p1 p2 gs r) : ∃ r', joinLastWithFirst r = .ok r' ∧
      (¬ ConnectsAround p1 gs → SlicesOf p1 p2 gs r') ∧
      (ConnectsAround p1 gs → ∃ g mid g', gs = g :: (mid ++ [g']) ∧
        SlicesOf p1 p2 (mid ++ [g' ++ g]) r') := by
  have hlen := h.slices.length_eq
  unfold joinLastWithFirst
  by_cases hl : 1 < gs.length
  · obtain ⟨g0, gs', rfl⟩ : ∃ g gs', gs = g :: gs' := by
      cases gs with
      | nil => simp at hl
      | cons g gs => exact ⟨g, gs, rfl⟩
    obtain ⟨mid, gl, rfl⟩ : ∃ mid gl, gs' = mid ++ [gl] := by
      rcases List.eq_nil_or_concat gs' with rfl | ⟨m, g, rfl⟩
      · simp at hl
      · exact ⟨m, g, by rw [List.concat_eq_append]⟩
    obtain ⟨s0, sm, sl, es, hs0, hsm, hsl⟩ := forall2_cons_concat h.slices
    obtain ⟨t0, tm, tl, et, ht0, htm, htl⟩ := forall2_cons_concat h.starts
    obtain ⟨e0, em, el, ee, he0, hem, hel⟩ := forall2_cons_concat h.ends
    obtain ⟨o0, om, ol, eo, ho0, hom, hol⟩ := forall2_cons_concat h.opposing
    have hlast : (s0 :: (sm ++ [sl])).getLast? = some sl := by
      rw [← List.cons_append, List.getLast?_concat]
    rw [es, hlast]
    simp only
    rw [if_pos (by simp)]
    have hs0' := hs0
    have hsl' := hsl
    obtain ⟨-, ws0, w0, c0, hv0, hf0, -, -⟩ := hs0'
    obtain ⟨-, wsl, wl, cl, hvl, -, hcl, hcutl⟩ := hsl'
    obtain ⟨d, g0', rfl⟩ := List.exists_cons_of_ne_nil (hne g0 (by simp))
    rcases hf0 with _ | ⟨hd, -⟩
    rename_i wd wst
    have hlv : sl.lastVertex = .ok wl := by
      unfold Polyline.lastVertex; rw [hvl]; simp
    have hfv : s0.at 0 = .ok wd := by
      unfold Polyline.at getM; rw [hv0]; rfl
    have hvd := hval (d :: g0') (by simp) d (by simp)
    have hvc := hval gl (by simp) cl (List.mem_of_getLast? hcl)
    obtain ⟨⟨a1, a2, ha⟩, -⟩ := hvd
    obtain ⟨⟨b1, b2, hb⟩, -⟩ := hvc
    have hiff : ConnectsAround p1 ((d :: g0') :: (mid ++ [gl])) ↔ Near (1 / 10 ^ 5) wl.pos wd.pos := by
      constructor
      · rintro ⟨-, g, hg, g', hg', a, haa, b, hbb, w, w', hw, hw', hn⟩
        cases hg
        rw [← List.cons_append, List.getLast?_concat] at hg'
        cases hg'
        rw [hcl] at haa
        cases haa
        cases hbb
        rw [cutVertex_iff h1 hb] at hw hcutl
        rw [cutVertex_iff h1 ha] at hw' hd
        rw [hcutl, hd, ← hw, ← hw']; exact hn
      · intro hn
        exact ⟨hl, _, rfl, gl, by rw [← List.cons_append, List.getLast?_concat]; rfl, cl, hcl, d, rfl,
          wl, wd, hcutl, hd, hn⟩
    rw [hlv, hfv, ok_bind, ok_bind]
    by_cases hca : Near (1 / 10 ^ 5) wl.pos wd.pos
    · rw [if_pos (near5_iff.2 hca)]
      have hpop : sl.popBack = .ok ⟨sl.isClosed, sl.vertexes.dropLast⟩ := by
        unfold Polyline.popBack; rw [if_neg]; rw [hvl]; simp
      have hget : getM r.sliceEndPoints 0 = .ok e0 := by rw [ee]; rfl
      rw [hpop, ok_bind, hget, ok_bind, pure_eq_ok]
      refine ⟨_, rfl, fun hn => absurd (hiff.2 hca) hn, fun _ => ⟨_, mid, gl, rfl, ?_⟩⟩
      refine ⟨?_, ?_, ?_, ?_⟩
      · simp only
        rw [← List.cons_append, List.dropLast_concat]
        exact forall2_concat hsm (isSlice_append hsl hs0)
      · simp only
        rw [et]
        exact forall2_concat htm (sliceStart_append (hne gl (by simp)) htl)
      · simp only
        rw [ee, ← List.cons_append, List.dropLast_concat]
        exact forall2_concat hem (sliceEnd_append he0)
      · simp only
        rw [eo]
        exact forall2_concat hom (opposing_append (hne gl (by simp)) hol)
    · rw [if_neg (fun c => hca (near5_iff.1 c))]
      exact ⟨r, rfl, fun _ => h, fun c => absurd (hiff.1 c) hca⟩
  · refine ⟨r, ?_, fun _ => h, fun hc => absurd hc.1 hl⟩
    split
    · rw [if_neg (by omega)]; rfl
    · rfl

/-- C36. For every sorting function that meets the requirements of `std::sort`, valid polylines and
any list of coincident intersects that name their segments, `sortAndjoinCoincidentSlices` does not
fault; the list is left sorted along the first polyline with every intersect going away from the
start of its segment; the slices are the maximal runs of intersects each of which begins where the
one before ends, the last run being put before the first if it ends where that begins. -/
theorem C36_sortAndjoinCoincidentSlices (std : StdSort) {p1 p2 : Polyline} (h1 : PlineOk p1)
    (h2 : PlineOk p2) (intrs : List CoincidentIntersect)
    (hv : ∀ c ∈ intrs, (∃ v1 v2, IsSeg p1 c.sIndex1 v1 v2) ∧ ∃ u1 u2, IsSeg p2 c.sIndex2 u1 u2) :
    ∃ r sorted gs, sortAndjoinCoincidentSlices std intrs p1 p2 = .ok (r, sorted) ∧
      (∃ l, List.Forall₂ (FromStart p1) intrs l ∧ sorted.Perm l) ∧
      sorted.Pairwise (NotAfter p1) ∧
      Runs p1 sorted gs ∧
      (¬ ConnectsAround p1 gs → SlicesOf p1 p2 gs r) ∧
      (ConnectsAround p1 gs → ∃ g mid g', gs = g :: (mid ++ [g']) ∧
        SlicesOf p1 p2 (mid ++ [g' ++ g]) r) := by
  unfold sortAndjoinCoincidentSlices
  by_cases h0 : intrs.length = 0
  · rw [if_pos h0]
    rw [List.length_eq_zero_iff] at h0
    subst h0
    refine ⟨_, _, [], rfl, ⟨[], List.Forall₂.nil, List.Perm.refl _⟩, List.Pairwise.nil,
      ⟨rfl, by simp, by simp, List.isChain_nil⟩, fun _ => ?_, fun h => absurd h.1 (by simp)⟩
    exact ⟨List.Forall₂.nil, List.Forall₂.nil, List.Forall₂.nil, List.Forall₂.nil⟩
  · rw [if_neg h0, mapM_total _ (ordered p1) intrs (fun a ha => orderPoints_eq (hv a ha)), ok_bind]
    simp only
    have hperm := std.perm (coincidentLess p1) (intrs.map (ordered p1)) (coincidentLess_strictWeak p1)
    have hsorted := std.sorted (coincidentLess p1) (intrs.map (ordered p1))
      (coincidentLess_strictWeak p1)
    have hvs : ∀ c ∈ std.sort (coincidentLess p1) (intrs.map (ordered p1)), ValidCoin p1 p2 c := by
      intro c hc
      rw [hperm.mem_iff, List.mem_map] at hc
      obtain ⟨d, hd, rfl⟩ := hc
      unfold ValidCoin
      rw [(ordered_index p1 d).1, (ordered_index p1 d).2]
      exact hv d hd
    have hlen := hperm.length_eq
    generalize std.sort (coincidentLess p1) (intrs.map (ordered p1)) = sorted at *
    have hlast : ∃ l, List.Forall₂ (FromStart p1) intrs l ∧ sorted.Perm l := by
      refine ⟨_, ?_, hperm⟩
      rw [List.forall₂_map_right_iff, List.forall₂_same]
      exact fun c _ => fromStart_ordered p1 c
    have hpair : sorted.Pairwise (NotAfter p1) := by
      refine hsorted.imp_of_mem ?_
      intro a b ha hb hab
      unfold coincidentLess at hab
      unfold NotAfter
      by_cases he : b.sIndex1 = a.sIndex1
      · rw [if_neg (not_not.2 he)] at hab
        right
        refine ⟨he.symm, fun v1 v2 hs => ?_⟩
        rw [← he] at hs
        rw [(seg_lt hs).2.2.2.1, ← distSquared_eq, ← distSquared_eq]
        exact not_lt.1 hab
      · rw [if_pos he] at hab
        left; omega
    cases sorted with
    | nil => rw [List.length_map] at hlen; simp at hlen; omega
    | cons first rest =>
      simp only
      obtain ⟨o, s, hs, ho, hstart⟩ := startSlice_eq h1 h2 (hvs first (by simp))
      rw [hstart, ok_bind]
      have hJ : JInv p1 p2 [] [first] ⟨⟨Polyline.empty.isClosed, Polyline.empty.vertexes ++
            [cut p1 first.sIndex1 first.point1, cut p1 first.sIndex1 first.point2]⟩,
          [], [] ++ [s], [], [] ++ [o]⟩ := by
        refine ⟨by simpa using hvs first (by simp), ?_, List.Forall₂.nil,
          List.Forall₂.cons (hs _) List.Forall₂.nil, List.Forall₂.nil,
          List.Forall₂.cons (ho _) List.Forall₂.nil⟩
        simp [sliceV, Polyline.empty]
      obtain ⟨gs, g, st, last, hrun, hj, hg, hr, hf⟩ := joinLoop_eq h1 h2 rest
        (fun c hc => hvs c (by simp [hc])) [] [first] _ first hJ rfl
        ⟨rfl, by simp, by simp, by simp⟩
      have hg' : g ≠ [] := by rintro rfl; simp at hg
      obtain ⟨e, he, hend⟩ := endSlice_eq (p1 := p1) (p2 := p2)
        (hj.valid last (List.mem_of_getLast? hg))
      have hso : SlicesOf p1 p2 (gs ++ [g]) ⟨st.result.coincidentSlices ++ [st.curr],
          st.result.sliceStartPoints, st.result.sliceEndPoints ++ [e],
          st.result.coincidentIsOpposingDirection⟩ := by
        refine ⟨?_, hj.starts, forall2_concat hj.ends (he _ hg), hj.opposing⟩
        simp only
        rw [hj.curr]
        exact forall2_concat hj.slices (isSlice_sliceV h1 hj.valid hg')
      have hfl : (gs ++ [g]).flatten = first :: rest := by rw [hf]; rfl
      obtain ⟨r', hjoin, c1, c2⟩ := joinLastWithFirst_eq h1 hr.nonempty (by
        intro g hg c hc
        apply hvs
        rw [← hfl]
        exact List.mem_flatten.2 ⟨g, hg, hc⟩) hso
      refine ⟨r', first :: rest, gs ++ [g], ?_, hlast, hpair, ?_, c1, c2⟩
      · simp only [List.nil_append] at hrun ⊢
        rw [hrun, ok_bind]
        simp only
        rw [hend, ok_bind]
        simp only
        rw [hjoin, ok_bind]
        rfl
      · rw [← hfl]; exact hr

/-- The upper unit half circle as an open polyline. -/
def halfCircle : Polyline := ⟨false, [⟨⟨1, 0⟩, 1⟩, ⟨⟨-1, 0⟩, 0⟩]⟩

/-- Its first half. -/
def quarterCircle : Polyline := ⟨false, [⟨⟨1, 0⟩, Real.tan (Real.pi / 8)⟩, ⟨⟨0, 1⟩, 0⟩]⟩

theorem tan_pi8 : 1 / 10 ≤ Real.tan (Real.pi / 8) ∧ Real.tan (Real.pi / 8) ≤ 1 := by
  have hp := Real.pi_gt_three
  constructor
  · have : Real.pi / 8 < Real.tan (Real.pi / 8) := Real.lt_tan (by linarith) (by linarith)
    linarith
  · rw [← Real.tan_pi_div_four]
    exact Real.strictMonoOn_tan.monotoneOn ⟨by linarith, by linarith⟩ ⟨by linarith, by linarith⟩
      (by linarith)

theorem halfCircle_ok : PlineOk halfCircle := by
  intro i v1 v2 h
  obtain ⟨-, rfl, rfl⟩ := one_seg h
  exact ⟨by norm_num, fun _ => Or.inl (by norm_num)⟩

theorem quarterCircle_ok : PlineOk quarterCircle := by
  intro i v1 v2 h
  obtain ⟨-, rfl, rfl⟩ := one_seg h
  have := tan_pi8
  exact ⟨by simp only; rw [abs_of_pos (by linarith)]; exact this.2, fun _ => Or.inl (by norm_num)⟩

theorem half_line {v : Vertex} (h : v.bulge = 1) : ¬ IsLine v := by
  unfold IsLine; rw [h]; norm_num

theorem quarter_subset {x : V2} (h : OnPline quarterCircle x) : OnPline halfCircle x := by
  obtain ⟨i, v1, v2, hs, t, h0, h1, hx⟩ := h
  obtain ⟨-, rfl, rfl⟩ := one_seg hs
  have ht := tan_pi8
  have hl : ¬ IsLine ⟨⟨1, 0⟩, Real.tan (Real.pi / 8)⟩ := by
    unfold IsLine; simp only; rw [abs_of_pos (by linarith)]; intro h
    have : (1 : ℝ) / 10 ^ 5 < 1 / 10 := by norm_num
    linarith
  have hsw : sweep ⟨⟨1, 0⟩, Real.tan (Real.pi / 8)⟩ = Real.pi / 2 := by
    unfold sweep; simp only
    rw [Real.arctan_tan (by linarith [Real.pi_pos]) (by linarith [Real.pi_pos])]; ring
  have hsw1 : sweep ⟨⟨1, 0⟩, 1⟩ = Real.pi := by
    unfold sweep; simp only; rw [Real.arctan_one]; ring
  refine ⟨0, _, _, rfl, t / 2, by linarith, by linarith, Or.inr ⟨half_line rfl, ⟨0, 0⟩, ?_, ?_⟩⟩
  · unfold IsCenter; rw [hsw1]; ext <;> simp [rot]
  · rcases hx with ⟨h, -⟩ | ⟨-, c, hc, rfl⟩
    · exact absurd h hl
    · have hc0 : IsCenter ⟨⟨1, 0⟩, Real.tan (Real.pi / 8)⟩ ⟨⟨0, 1⟩, 0⟩ ⟨0, 0⟩ := by
        unfold IsCenter; rw [hsw]; ext <;> simp [rot]
      have hb : (⟨⟨1, 0⟩, Real.tan (Real.pi / 8)⟩ : Vertex).bulge ≠ 0 := by
        simp only; intro h; linarith
      rw [isCenter_unique hb hc, ← isCenter_unique hb hc0, hsw, hsw1]
      congr 1; ring

/-- C36: the slice need not follow the first polyline. When two arcs overlap in a part that ends
before the end of the first polyline's arc, the vertex at its beginning keeps the bulge of the rest
of that arc, so that the slice is another arc. Here the first half of the half circle is a quarter
circle and the slice for it is a half circle that passes through (1, 1). -/
theorem C36_bulge_witness (std : StdSort) : (∀ x, OnPline quarterCircle x → OnPline halfCircle x) ∧
    ∃ r sorted s, sortAndjoinCoincidentSlices std [⟨0, 0, ⟨1, 0⟩, ⟨0, 1⟩⟩] halfCircle quarterCircle =
      .ok (r, sorted) ∧ r.coincidentSlices = [s] ∧ OnPline s ⟨1, 1⟩ ∧ ¬ OnPline halfCircle ⟨1, 1⟩ := by
  refine ⟨fun x => quarter_subset, ?_⟩
  obtain ⟨r, sorted, gs, hrun, ⟨l, hl, hperm⟩, -, hruns, hso, -⟩ := C36_sortAndjoinCoincidentSlices
    std halfCircle_ok quarterCircle_ok [⟨0, 0, ⟨1, 0⟩, ⟨0, 1⟩⟩] (by
      intro c hc
      rw [List.mem_singleton] at hc
      subst hc
      exact ⟨⟨_, _, rfl⟩, ⟨_, _, rfl⟩⟩)
  have hseg : IsSeg halfCircle 0 ⟨⟨1, 0⟩, 1⟩ ⟨⟨-1, 0⟩, 0⟩ := rfl
  obtain ⟨c, hc, rfl⟩ : ∃ c, FromStart halfCircle ⟨0, 0, ⟨1, 0⟩, ⟨0, 1⟩⟩ c ∧ l = [c] := by
    rcases hl with _ | ⟨h, hn⟩
    cases hn
    exact ⟨_, h, rfl⟩
  have hc' : c = ⟨0, 0, ⟨1, 0⟩, ⟨0, 1⟩⟩ := by
    rcases hc.1 with h | h
    · exact h
    · have := hc.2 _ _ hseg
      rw [h] at this
      norm_num [dist2] at this
  subst hc'
  rw [List.perm_singleton] at hperm
  subst hperm
  have hgs : gs = [[⟨0, 0, ⟨1, 0⟩, ⟨0, 1⟩⟩]] := by
    have hf := hruns.flatten
    have hn := hruns.nonempty
    rcases gs with _ | ⟨g, gs⟩
    · simp at hf
    · rcases g with _ | ⟨a, g⟩
      · exact absurd rfl (hn [] (by simp))
      · simp only [List.flatten_cons, List.cons_append, List.cons.injEq, List.append_eq_nil_iff] at hf
        obtain ⟨rfl, rfl, hf⟩ := hf
        rcases gs with _ | ⟨g', gs⟩
        · rfl
        · rw [List.flatten_cons, List.append_eq_nil_iff] at hf
          exact absurd hf.1 (hn g' (by simp))
  subst hgs
  have hso := (hso (fun h => absurd h.1 (by simp))).slices
  obtain ⟨s, hsl, hrs⟩ : ∃ s, IsSlice halfCircle [⟨0, 0, ⟨1, 0⟩, ⟨0, 1⟩⟩] s ∧
      r.coincidentSlices = [s] := by
    generalize r.coincidentSlices = rs at *
    rcases hso with _ | ⟨h, hn⟩
    cases hn
    exact ⟨_, h, rfl⟩
  refine ⟨r, _, s, hrun, hrs, ?_, ?_⟩
  · obtain ⟨hcl, ws, w, c, hv, hf, hlast, hcut⟩ := hsl
    cases hlast
    rcases hf with _ | ⟨hw, hn⟩
    cases hn
    rename_i w0
    obtain ⟨v1, v2, q, hs, hq, rfl⟩ := hw
    obtain ⟨-, rfl, rfl⟩ := one_seg hs
    obtain ⟨v1, v2, q', hs', hq', rfl⟩ := hcut
    obtain ⟨-, rfl, rfl⟩ := one_seg hs'
    have hz : ¬ (⟨⟨1, 0⟩, 1⟩ : Vertex).bulgeIsZero := by norm_num [Vertex.bulgeIsZero, realPrecision]
    have e1 : q.splitVertex = ⟨⟨1, 0⟩, 1⟩ := by
      unfold splitAtPoint at hq
      rw [if_neg hz, if_pos (Or.inr (by norm_num [fuzzyEqualV, fuzzyEqual, realPrecision]))] at hq
      cases hq
      rfl
    have e2 : q'.splitVertex.pos = ⟨0, 1⟩ := by
      unfold splitAtPoint at hq'
      rw [if_neg hz, if_neg (by norm_num [fuzzyEqualV, fuzzyEqual, realPrecision]),
        if_neg (by norm_num [fuzzyEqualV, fuzzyEqual, realPrecision]),
        ((halfCircle_ok _ _ _ hseg).arcOk (half_line rfl)).run, ok_bind, pure_eq_ok] at hq'
      cases hq'
      rfl
    rw [e1] at hv
    refine ⟨0, ⟨⟨1, 0⟩, 1⟩, q'.splitVertex, ?_, 1 / 2, by norm_num, by norm_num,
      Or.inr ⟨half_line rfl, ⟨1 / 2, 1 / 2⟩, ?_, ?_⟩⟩
    · unfold IsSeg segs
      rw [hv, hcl]
      rfl
    · unfold IsCenter sweep
      rw [e2]; simp only; rw [Real.arctan_one, show 4 * (Real.pi / 4) = Real.pi by ring]
      ext <;> simp [rot] <;> norm_num
    · unfold sweep
      simp only
      rw [Real.arctan_one, show 1 / 2 * (4 * (Real.pi / 4)) = Real.pi / 2 by ring]
      ext <;> simp [rot] <;> norm_num
  · rintro ⟨i, v1, v2, hs, t, h0, h1, hx⟩
    obtain ⟨-, rfl, rfl⟩ := one_seg hs
    rcases hx with ⟨h, -⟩ | ⟨-, c, hc, hx⟩
    · exact absurd h (half_line rfl)
    · have hc0 : IsCenter ⟨⟨1, 0⟩, 1⟩ ⟨⟨-1, 0⟩, 0⟩ ⟨0, 0⟩ := by
        unfold IsCenter sweep; simp only
        rw [Real.arctan_one, show 4 * (Real.pi / 4) = Real.pi by ring]
        ext <;> simp [rot]
      rw [isCenter_unique (by simp) hc, ← isCenter_unique (by simp) hc0] at hx
      have := dist2_rot ⟨0, 0⟩ ⟨1, 0⟩ (t * sweep ⟨⟨1, 0⟩, 1⟩)
      rw [← hx] at this
      norm_num [dist2] at this

/-- C36 applied to a non trivial case: the two intersects of a two segment polyline with itself are
valid; they connect at the common vertex. -/
example : let p : Polyline := ⟨false, [⟨⟨0, 0⟩, 0⟩, ⟨⟨1, 0⟩, 0⟩, ⟨⟨1, 1⟩, 0⟩]⟩
    PlineOk p ∧ (∃ v1 v2, IsSeg p 0 v1 v2) ∧ (∃ v1 v2, IsSeg p 1 v1 v2) ∧
    Connects p ⟨0, 0, ⟨0, 0⟩, ⟨1, 0⟩⟩ ⟨1, 1, ⟨1, 0⟩, ⟨1, 1⟩⟩ := by
  have hz : ∀ x : V2, (⟨x, 0⟩ : Vertex).bulgeIsZero := by
    intro x; norm_num [Vertex.bulgeIsZero, realPrecision]
  refine ⟨?_, ⟨_, _, rfl⟩, ⟨_, _, rfl⟩, ⟨⟨1, 0⟩, 0⟩, ⟨_, _, ⟨⟨⟨0, 0⟩, 0⟩, ⟨⟨1, 0⟩, 0⟩⟩, rfl, ?_, rfl⟩, ?_⟩
  · intro i v1 v2 h
    have hm := List.mem_of_getElem? h
    simp [segs] at hm
    rcases hm with ⟨rfl, -⟩ | ⟨rfl, -⟩ <;>
      exact ⟨by norm_num, fun h => absurd (show |(0 : ℝ)| < 1 / 10 ^ 5 by norm_num) h⟩
  · unfold splitAtPoint; rw [if_pos (hz _)]
  · norm_num [Near]

end
end Cavc

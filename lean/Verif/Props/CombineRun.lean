import Verif.Props.CombineSlices
import Verif.Props.Coincident
import Verif.Props.OffsetRect

/-! C43: a whole run of the boolean operations. -/
namespace Cavc
open Spec
open scoped Classical
noncomputable section

/-! ### The predicates -/

theorem arcWinding_total {v1 v2 : Vertex} (h : ArcOk v1 v2) (pt : V2) :
    ∃ k, arcWinding v1 v2 pt = .ok k := by
  unfold arcWinding
  simp only [dist_run h, ok_bind, pure_eq_ok]
  split_ifs <;> exact ⟨_, rfl⟩

theorem winding_total {p : Polyline} (hok : PlineOk p) (pt : V2) :
    ∃ k, getWindingNumber p pt = .ok k := by
  by_cases h2 : p.isClosed = false ∨ p.vertexes.length < 2
  · exact ⟨0, C26_trivial p pt h2⟩
  · have hseg : ∀ x : Vertex × Vertex × ℕ, ∃ k : ℤ, x ∈ visitList p →
        ∀ w, windingVisitor pt w x.1 x.2.1 x.2.2 = .ok (w + k) := by
      rintro ⟨v1, v2, i⟩
      by_cases hm : (v1, v2, i) ∈ visitList p
      · have hs := hok _ _ _ (mem_visitList.1 hm)
        unfold windingVisitor
        by_cases hl : v1.bulgeIsZero
        · exact ⟨lineWinding v1 v2 pt, fun _ w => by simp only [if_pos hl]⟩
        · obtain ⟨k, hk⟩ := arcWinding_total (hs.arcOk hl) pt
          exact ⟨k, fun _ w => by simp only [if_neg hl, hk, ok_bind]; rfl⟩
      · exact ⟨0, fun h => absurd h hm⟩
    choose K hK using hseg
    refine ⟨0 + ((visitList p).map K).sum, ?_⟩
    · unfold getWindingNumber
      rw [if_neg (by unfold Polyline.size; push Not at h2 ⊢; simpa using h2), visitAll_eq,
        foldlM_add _ K _ (fun x hx st => hK x hx st)]

theorem pointIn_total {p : Polyline} (hok : PlineOk p) (x : V2) : ∃ b, pointIn p x = .ok b := by
  obtain ⟨k, hk⟩ := winding_total hok x
  unfold pointIn
  rw [hk, ok_bind]
  exact ⟨_, rfl⟩

theorem pointNotIn_total {p : Polyline} (hok : PlineOk p) (x : V2) : ∃ b, pointNotIn p x = .ok b := by
  obtain ⟨b, hb⟩ := pointIn_total hok x
  unfold pointNotIn
  rw [hb, ok_bind]
  exact ⟨_, rfl⟩

/-! ### Counting -/

theorem length_eq_sum {α κ : Type} (f : α → κ) (s : Finset κ) : ∀ l : List α, (∀ x ∈ l, f x ∈ s) →
    l.length = ∑ k ∈ s, (l.filter fun x => f x = k).length
  | [], _ => by simp
  | a :: l, h => by
    have e : ∀ k, ((a :: l).filter fun x => f x = k).length =
        (if f a = k then 1 else 0) + (l.filter fun x => f x = k).length := by
      intro k
      by_cases hk : f a = k <;> simp [hk]; omega
    simp only [e]
    rw [Finset.sum_add_distrib, Finset.sum_ite_eq, if_pos (h a (by simp)),
      ← length_eq_sum f s l (fun x hx => h x (by simp [hx])), List.length_cons]
    omega

theorem length_le_pairs {α : Type} (f g : α → ℕ) (n m c : ℕ) (l : List α)
    (h : ∀ x ∈ l, f x < n ∧ g x < m)
    (hc : ∀ i j, (l.filter fun x => f x = i ∧ g x = j).length ≤ c) : l.length ≤ c * (n * m) := by
  rw [length_eq_sum (fun x => (f x, g x)) (Finset.range n ×ˢ Finset.range m) l (by
    intro x hx
    simp [h x hx])]
  refine (Finset.sum_le_card_nsmul _ _ c ?_).trans ?_
  · rintro ⟨i, j⟩ -
    simpa only [Prod.mk.injEq] using hc i j
  · simp [mul_comm]

/-! ### processForCombine -/

/-- What the slicing needs to know about the intersects. -/
structure InfoOk (A B : Polyline) (K : V2 → Prop) (arcs : Prop) (info : CombineInfo) : Prop where
  pts : ∀ x ∈ info.nonCoincidentIntersects ++ info.coincidentSliceStartPoints ++
    info.coincidentSliceEndPoints, x.sIndex1 < A.size ∧ x.sIndex2 < B.size ∧ K x.pos
  slices : ∀ s ∈ info.coincidentSlices, OpenOk K arcs s ∧ 2 ≤ s.vertexes.length
  len1 : info.coincidentSliceStartPoints.length = info.coincidentSlices.length
  len2 : info.coincidentSliceEndPoints.length = info.coincidentSlices.length
  len3 : info.coincidentIsOpposingDirection.length = info.coincidentSlices.length
  count1 : info.nonCoincidentIntersects.length ≤ 2 * (A.size * B.size)
  count2 : info.coincidentSlices.length ≤ A.size * B.size

theorem forall2_right {α β : Type} {R : α → β → Prop} {l : List α} {l' : List β}
    (h : List.Forall₂ R l l') {b : β} (hb : b ∈ l') : ∃ a ∈ l, R a b := by
  induction h with
  | nil => simp at hb
  | cons h1 _ ih =>
    rcases List.mem_cons.1 hb with rfl | hb
    · exact ⟨_, by simp, h1⟩
    · obtain ⟨a, ha, hr⟩ := ih hb
      exact ⟨a, by simp [ha], hr⟩

theorem forall2_left {α β : Type} {R : α → β → Prop} {l : List α} {l' : List β}
    (h : List.Forall₂ R l l') {a : α} (ha : a ∈ l) : ∃ b ∈ l', R a b := by
  induction h with
  | nil => simp at ha
  | cons h1 _ ih =>
    rcases List.mem_cons.1 ha with rfl | ha
    · exact ⟨_, by simp, h1⟩
    · obtain ⟨b, hb, hr⟩ := ih ha
      exact ⟨b, by simp [hb], hr⟩

theorem isPrev_lt {n i j : ℕ} (h : IsPrev n i j) (hi : i < n) : j < n := by
  rcases h with ⟨_, h⟩ | ⟨_, h⟩ <;> omega

theorem cutVertex_ok {K : V2 → Prop} {arcs : Prop} {p : Polyline} (hp : ∀ v ∈ p.vertexes, VOk K arcs v)
    {i : ℕ} {x : V2} {w : Vertex} (hx : K x) (h : CutVertex p i x w) : VOk K arcs w := by
  obtain ⟨v1, v2, r, h1, h2, rfl⟩ := h
  obtain ⟨a, b, c, rfl, rfl⟩ := seg_lt h1
  obtain ⟨r', h3, h4, h5⟩ := split_total (hp _ (vtx_mem a)) (hp _ (vtx_mem b)).pos hx
  rw [h2] at h3
  cases h3
  exact h5

theorem slicesOf_ok {A B : Polyline} {K : V2 → Prop} {arcs : Prop}
    (hA : ∀ v ∈ A.vertexes, VOk K arcs v)
    {gs : List (List CoincidentIntersect)} {r : CoincidentSlices}
    (h : SlicesOf A B gs r)
    (hg : ∀ g ∈ gs, ∀ c ∈ g, ValidCoin A B c ∧ K c.point1 ∧ K c.point2) :
    (∀ x ∈ r.sliceStartPoints ++ r.sliceEndPoints, x.sIndex1 < A.size ∧ x.sIndex2 < B.size ∧ K x.pos) ∧
    (∀ s ∈ r.coincidentSlices, OpenOk K arcs s ∧ 2 ≤ s.vertexes.length) ∧
    r.sliceStartPoints.length = gs.length ∧ r.sliceEndPoints.length = gs.length ∧
    r.coincidentIsOpposingDirection.length = gs.length ∧ r.coincidentSlices.length = gs.length := by
  refine ⟨?_, ?_, h.starts.length_eq.symm, h.ends.length_eq.symm, h.opposing.length_eq.symm,
    h.slices.length_eq.symm⟩
  · intro x hx
    rw [List.mem_append] at hx
    rcases hx with hx | hx
    · obtain ⟨g, hg', c, w, v1, v2, u1, u2, hc, hw, hs1, hs2, hpos, n1, n2, n3, n4⟩ :=
        forall2_right h.starts hx
      obtain ⟨-, k1, k2⟩ := hg g hg' c (List.mem_of_mem_head? hc)
      have l1 := (seg_lt hs1).1
      have l2 := (seg_lt hs2).1
      refine ⟨?_, ?_, ?_⟩
      · by_cases hn : Near (1 / 10 ^ 5) v1.pos c.point1
        · exact isPrev_lt (n1 hn) l1
        · rw [n2 hn]; exact l1
      · by_cases hn : Near (1 / 10 ^ 5) u1.pos x.pos
        · exact isPrev_lt (n3 hn) l2
        · rw [n4 hn]; exact l2
      · rw [hpos]
        exact (cutVertex_ok hA k1 hw).pos
    · obtain ⟨g, hg', c, u1, u2, hc, hs2, hpos, hi, n3, n4⟩ := forall2_right h.ends hx
      obtain ⟨⟨⟨v1, v2, hs1⟩, -⟩, k1, k2⟩ := hg g hg' c (List.mem_of_getLast? hc)
      have l1 := (seg_lt hs1).1
      have l2 := (seg_lt hs2).1
      refine ⟨?_, ?_, ?_⟩
      · rw [hi]; exact l1
      · by_cases hn : Near (1 / 10 ^ 5) u1.pos x.pos
        · exact isPrev_lt (n3 hn) l2
        · rw [n4 hn]; exact l2
      · rw [hpos]; exact k2
  · intro s hs
    obtain ⟨g, hg', ho, ws, w, c, hv, hf, hc, hw⟩ := forall2_right h.slices hs
    have hcg := List.mem_of_getLast? hc
    have hws : ws ≠ [] := by
      rintro rfl
      have := hf.length_eq
      simp only [List.length_nil, List.length_eq_zero_iff] at this
      rw [this] at hcg
      simp at hcg
    have hlen : 0 < ws.length := List.length_pos_of_ne_nil hws
    refine ⟨⟨ho, by rw [hv]; simp, ?_⟩, by rw [hv]; simp; omega⟩
    intro v hv'
    rw [hv, List.mem_append, List.mem_singleton] at hv'
    rcases hv' with hv' | rfl
    · obtain ⟨c', hc', hcut⟩ := forall2_right hf hv'
      exact cutVertex_ok hA (hg g hg' c' hc').2.1 hcut
    · exact cutVertex_ok hA (hg g hg' c hcg).2.2 hw

theorem runs_length {α : Type} : ∀ gs : List (List α), (∀ g ∈ gs, g ≠ []) →
    gs.length ≤ gs.flatten.length
  | [], _ => by simp
  | g :: gs, h => by
    have := runs_length gs (fun x hx => h x (by simp [hx]))
    have h0 : 0 < g.length := List.length_pos_of_ne_nil (h g (by simp))
    rw [List.flatten_cons, List.length_append, List.length_cons]
    omega

theorem known_vertexes {A B : Polyline} : (∀ v ∈ A.vertexes, VOk (Known A B) (HasArc A B) v) ∧
    ∀ v ∈ B.vertexes, VOk (Known A B) (HasArc A B) v := by
  constructor <;> intro v hv
  · refine ⟨Or.inl ⟨v, by simp [hv], rfl⟩, fun h => ?_⟩
    by_contra hl
    exact h ⟨v, by simp [hv], hl⟩
  · refine ⟨Or.inl ⟨v, by simp [hv], rfl⟩, fun h => ?_⟩
    by_contra hl
    exact h ⟨v, by simp [hv], hl⟩

theorem processForCombine_run {pf : Platform} {std : StdSort} {A B : Polyline} (hi : Indexable pf A)
    (hA : PlineOk A) (hB : PlineOk B) (cA : A.isClosed = true) (cB : B.isClosed = true) :
    ∃ s info, createApproxSpatialIndex pf A = .ok s ∧ processForCombine std A B s = .ok info ∧
      InfoOk A B (Known A B) (HasArc A B) info := by
  obtain ⟨s, out, hs, ho, hcoin, hint, hcount⟩ := C33_findIntersects hi hA hB
  obtain ⟨x1, hx1⟩ := getArea_total A
  obtain ⟨x2, hx2⟩ := getArea_total B
  have hpt : ∀ x ∈ out.intersects, x.sIndex1 < A.size ∧ x.sIndex2 < B.size ∧ Known A B x.pos := by
    rintro ⟨i, j, x⟩ hm
    obtain ⟨v1, v2, u1, u2, g1, g2, g3, g4, -⟩ := (hint _ _ _).1 hm
    exact ⟨(seg_lt g1).1, (seg_lt g2).1, Or.inr ⟨i, j, v1, v2, u1, u2, g1, g2, Or.inl g4⟩⟩
  have hcp : ∀ c ∈ out.coincidentIntersects, ValidCoin A B c ∧ Known A B c.point1 ∧
      Known A B c.point2 := by
    rintro ⟨i, j, x, y⟩ hm
    obtain ⟨v1, v2, u1, u2, g1, g2, g3, g4⟩ := (hcoin _ _ _ _).1 hm
    exact ⟨⟨⟨_, _, g1⟩, _, _, g2⟩, Or.inr ⟨i, j, v1, v2, u1, u2, g1, g2, Or.inr ⟨y, Or.inl g4⟩⟩,
      Or.inr ⟨i, j, v1, v2, u1, u2, g1, g2, Or.inr ⟨x, Or.inr g4⟩⟩⟩
  have hc1 : out.intersects.length ≤ 2 * (A.size * B.size) :=
    length_le_pairs PlineIntersect.sIndex1 PlineIntersect.sIndex2 _ _ _ _
      (fun x hx => ⟨(hpt x hx).1, (hpt x hx).2.1⟩) (fun i j => (hcount i j).2.1)
  have hc2 : out.coincidentIntersects.length ≤ A.size * B.size := by
    have := length_le_pairs CoincidentIntersect.sIndex1 CoincidentIntersect.sIndex2 A.size B.size 1
      out.coincidentIntersects (by
        intro c hc
        obtain ⟨⟨⟨v1, v2, g1⟩, u1, u2, g2⟩, -⟩ := hcp c hc
        exact ⟨(seg_lt g1).1, (seg_lt g2).1⟩) (fun i j => (hcount i j).1)
    omega
  unfold processForCombine
  by_cases h0 : out.coincidentIntersects.length = 0
  · refine ⟨s, ⟨[], out.intersects, [], [], [], decide (x1 < 0), decide (x2 < 0)⟩, hs, ?_, ?_⟩
    · rw [assertP_pos ⟨cA, cB⟩, ok_bind, ho, ok_bind, hx1, ok_bind, hx2, ok_bind, if_pos h0]
      rfl
    · exact ⟨by simpa using hpt, by simp, rfl, rfl, rfl, hc1, by simp⟩
  · obtain ⟨r, sorted, gs, hrun, ⟨l, hl, hperm⟩, -, hruns, hso, hsc⟩ :=
      C36_sortAndjoinCoincidentSlices std hA hB out.coincidentIntersects (fun c hc => (hcp c hc).1)
    have hsrt : ∀ c ∈ sorted, ValidCoin A B c ∧ Known A B c.point1 ∧ Known A B c.point2 := by
      intro c hc
      obtain ⟨c0, hc0, hf⟩ := forall2_right hl (hperm.mem_iff.1 hc)
      obtain ⟨h1, h2, h3⟩ := hcp c0 hc0
      rcases hf.1 with rfl | rfl
      · exact ⟨h1, h2, h3⟩
      · exact ⟨h1, h3, h2⟩
    have hgs : ∀ g ∈ gs, ∀ c ∈ g, ValidCoin A B c ∧ Known A B c.point1 ∧ Known A B c.point2 := by
      intro g hg c hc
      apply hsrt
      rw [← hruns.flatten, List.mem_flatten]
      exact ⟨g, hg, hc⟩
    have hlen : gs.length ≤ A.size * B.size := by
      have h1 := runs_length gs hruns.nonempty
      rw [hruns.flatten, hperm.length_eq, ← hl.length_eq] at h1
      omega
    obtain ⟨gs', hlen', hgs', hso'⟩ : ∃ gs' : List (List CoincidentIntersect),
        gs'.length ≤ A.size * B.size ∧
        (∀ g ∈ gs', ∀ c ∈ g, ValidCoin A B c ∧ Known A B c.point1 ∧ Known A B c.point2) ∧
        SlicesOf A B gs' r := by
      by_cases hca : ConnectsAround A gs
      · obtain ⟨g, mid, g', rfl, h⟩ := hsc hca
        refine ⟨_, ?_, ?_, h⟩
        · simp at hlen ⊢; omega
        · intro q hq c hc
          simp only [List.mem_append, List.mem_singleton] at hq
          rcases hq with hq | rfl
          · exact hgs q (by simp [hq]) c hc
          · rw [List.mem_append] at hc
            rcases hc with hc | hc
            · exact hgs g' (by simp) c hc
            · exact hgs g (by simp) c hc
      · exact ⟨gs, hlen, hgs, hso hca⟩
    obtain ⟨q1, q2, q3, q4, q5, q6⟩ := slicesOf_ok known_vertexes.1 hso' hgs'
    refine ⟨s, ⟨r.coincidentSlices, out.intersects, r.sliceStartPoints, r.sliceEndPoints,
      r.coincidentIsOpposingDirection, decide (x1 < 0), decide (x2 < 0)⟩, hs, ?_, ?_⟩
    · rw [assertP_pos ⟨cA, cB⟩, ok_bind, ho, ok_bind, hx1, ok_bind, hx2, ok_bind, if_neg h0, hrun,
        ok_bind]
      rfl
    · refine ⟨?_, q2, by simp [q3, q6], by simp [q4, q6], by simp [q5, q6], hc1, by simp [q6, hlen']⟩
      intro x hx
      simp only [List.append_assoc, List.mem_append] at hx
      rcases hx with hx | hx
      · exact hpt x hx
      · exact q1 x (by simpa using hx)

/-! ### sliceAtIntersects -/

theorem pushCoincident2_run {A B : Polyline} {K : V2 → Prop} {arcs : Prop} {info : CombineInfo}
    (h : InfoOk A B K arcs info) (is : List ℕ) :
    ∀ l : SliceLookup, (∀ i ∈ is, i < info.coincidentSlices.length) → LookupOk K B.size l →
      ∃ l', is.foldlM (pushCoincident2 info) l = .ok l' ∧ LookupOk K B.size l' ∧
        points l' = points l + 2 * is.length := by
  induction is with
  | nil => intro l _ hl; exact ⟨l, rfl, hl, by simp⟩
  | cons i is ih =>
    intro l hi hl
    have h0 := hi i (by simp)
    have l1 : i < info.coincidentSliceStartPoints.length := by rw [h.len1]; exact h0
    have l2 : i < info.coincidentSliceEndPoints.length := by rw [h.len2]; exact h0
    have l3 : i < info.coincidentIsOpposingDirection.length := by rw [h.len3]; exact h0
    have p1 := h.pts _ (show info.coincidentSliceStartPoints[i] ∈ _ by simp)
    have p2 := h.pts _ (show info.coincidentSliceEndPoints[i] ∈ _ by simp)
    have key : ∀ b : Bool, ∃ l', (LookupOk K B.size l' ∧ points l' = points l + 2) ∧
        l' = (l.push info.coincidentSliceStartPoints[i].sIndex2
          ⟨info.coincidentSliceStartPoints[i].pos, b⟩).push info.coincidentSliceEndPoints[i].sIndex2
          ⟨info.coincidentSliceEndPoints[i].pos, !b⟩ := by
      intro b
      obtain ⟨a1, a2⟩ := push_ok (p := ⟨info.coincidentSliceStartPoints[i].pos, b⟩) p1.2.1 p1.2.2 l hl
      obtain ⟨a3, a4⟩ := push_ok (p := ⟨info.coincidentSliceEndPoints[i].pos, !b⟩) p2.2.1 p2.2.2 _ a1
      exact ⟨_, ⟨a3, by omega⟩, rfl⟩
    have hstep : ∃ l', pushCoincident2 info l i = .ok l' ∧ LookupOk K B.size l' ∧
        points l' = points l + 2 := by
      unfold pushCoincident2
      rw [getM_of_lt l1, ok_bind, getM_of_lt l2, ok_bind, getM_of_lt l3, ok_bind]
      cases info.coincidentIsOpposingDirection[i] with
      | true =>
        obtain ⟨l', h1, rfl⟩ := key false
        exact ⟨_, rfl, h1⟩
      | false =>
        obtain ⟨l', h1, rfl⟩ := key true
        exact ⟨_, rfl, h1⟩
    obtain ⟨l', e1, e2, e3⟩ := hstep
    obtain ⟨l'', e4, e5, e6⟩ := ih l' (fun j hj => hi j (by simp [hj])) e2
    refine ⟨l'', ?_, e5, ?_⟩
    · rw [List.foldlM_cons, e1]; exact e4
    · rw [e6, e3, List.length_cons]; omega

theorem combineLookup_run {A B : Polyline} {K : V2 → Prop} {arcs : Prop} {info : CombineInfo}
    (h : InfoOk A B K arcs info) (second : Bool) :
    ∃ l, combineLookup info second = .ok l ∧
      LookupOk K (if second then B.size else A.size) l ∧ points l ≤ 4 * (A.size * B.size) := by
  have h0 : ∀ n, LookupOk K n [] := fun n kv hkv => by simp at hkv
  have e1 := h.count1
  have e2 := h.count2
  cases second with
  | true =>
    unfold combineLookup
    simp only [if_true]
    obtain ⟨a1, a2⟩ := pushes_ok (K := K) (n := B.size) PlineIntersect.sIndex2
      (fun intr => ⟨intr.pos, false⟩) info.nonCoincidentIntersects []
      (fun x hx => (h.pts x (by simp [hx])).2) (h0 _)
    obtain ⟨l, b1, b2, b3⟩ := pushCoincident2_run h
      (List.range info.coincidentSliceStartPoints.length) _ (by
        intro i hi
        rw [List.mem_range, h.len1] at hi
        exact hi) a1
    refine ⟨l, b1, b2, ?_⟩
    rw [b3, a2, List.length_range, h.len1]
    simp [points]
    omega
  | false =>
    unfold combineLookup
    simp only [Bool.false_eq_true, if_false]
    obtain ⟨a1, a2⟩ := pushes_ok (K := K) (n := A.size) PlineIntersect.sIndex1
      (fun intr => ⟨intr.pos, false⟩) info.nonCoincidentIntersects []
      (fun x hx => ⟨(h.pts x (by simp [hx])).1, (h.pts x (by simp [hx])).2.2⟩) (h0 _)
    obtain ⟨a3, a4⟩ := pushes_ok (K := K) (n := A.size) PlineIntersect.sIndex1
      (fun intr => ⟨intr.pos, true⟩) info.coincidentSliceStartPoints _
      (fun x hx => ⟨(h.pts x (by simp [hx])).1, (h.pts x (by simp [hx])).2.2⟩) a1
    obtain ⟨a5, a6⟩ := pushes_ok (K := K) (n := A.size) PlineIntersect.sIndex1
      (fun intr => ⟨intr.pos, false⟩) info.coincidentSliceEndPoints _
      (fun x hx => ⟨(h.pts x (by simp [hx])).1, (h.pts x (by simp [hx])).2.2⟩) a3
    refine ⟨_, rfl, a5, ?_⟩
    rw [a6, a4, a2, h.len1, h.len2]
    simp [points]
    omega

/-- There are no arcs, or their ends are apart and known positions are exactly at the end of an arc
or well apart from it. -/
def SafeAt (bad arcs : Prop) (K : V2 → Prop) (p : Polyline) : Prop :=
  ¬ bad → ¬ arcs ∨ (LongAt p ∧ ∀ x, K x → ∀ i < p.size, CleanAt p i x)

theorem sliceAtIntersects_run {std : StdSort} {hash : HashOrder} {A B : Polyline} {K : V2 → Prop}
    {arcs bad : Prop} {info : CombineInfo} (h : InfoOk A B K arcs info) {second : Bool}
    (hp : ∀ v ∈ (if second then B else A).vertexes, VOk K arcs v) {pred : V2 → M Bool}
    (hpred : ∀ x, ∃ b, pred x = .ok b) (hsafe : SafeAt bad arcs K (if second then B else A)) :
    Outcome bad (fun r => (∀ s ∈ r, SliceOk K arcs pred s) ∧ r.length ≤ 4 * (A.size * B.size))
      (sliceAtIntersects std hash (if second then B else A) info second pred) := by
  obtain ⟨l, h1, h2, h3⟩ := combineLookup_run h second
  have e : (if second then B.size else A.size) = (if second then B else A).size := by
    cases second <;> rfl
  rw [e] at h2
  obtain ⟨l', h4, h5, h6⟩ := sortSliceLookup_run (std := std) h2
  unfold sliceAtIntersects
  rw [h1, ok_bind, h4, ok_bind]
  refine (Outcome.foldlM (Inv := fun r => ∀ s ∈ r, SliceOk K arcs pred s)
    (w := fun kv : ℕ × List SlicePoint => kv.2.length) (hash.iter l') [] ?_ (by simp)).mono ?_
  · intro acc kv hkv hacc
    refine intersectsStep_run (fun _ h => h) hpred hp h5 ((hash.perm l').mem_iff.1 hkv) hacc fun hb => ?_
    refine (hsafe hb).imp_right fun ⟨g1, g2⟩ => ⟨g1, fun kv' hkv' sp hsp => ?_⟩
    obtain ⟨k1, -, k3⟩ := h5 kv' hkv'
    exact g2 _ (k3 sp hsp) _ k1
  · rintro r ⟨r1, r2⟩
    refine ⟨r1, r2.trans ?_⟩
    rw [List.Perm.sum_eq ((hash.perm l').map _), List.length_nil, zero_add]
    change points l' ≤ _
    omega

/-! ### collectSlices -/

/-- An open polyline of at least two vertexes, all of the kind. -/
def PieceOk (K : V2 → Prop) (arcs : Prop) (s : Polyline) : Prop :=
  OpenOk K arcs s ∧ 2 ≤ s.vertexes.length

theorem invert_ok {K : V2 → Prop} {arcs : Prop} {s : Polyline} (h : PieceOk K arcs s) :
    ∃ q, invertDirection s = .ok q ∧ PieceOk K arcs q := by
  obtain ⟨q, h1, h2, h3, h4⟩ := invertDirection_spec (p := s) h.2
  have hs : s.size = s.vertexes.length := rfl
  have hq : q.size = q.vertexes.length := rfl
  have h2' := h.2
  refine ⟨q, h1, ⟨by rw [h2, h.1.opened], ?_, ?_⟩, by omega⟩
  · intro h0
    rw [h0] at hq
    simp at hq
    omega
  · intro v hv
    obtain ⟨j, hj, rfl⟩ := List.mem_iff_getElem.1 hv
    have e : q.vertexes[j] = vtx q j := by
      unfold vtx
      rw [List.getD_eq_getElem _ _ hj]
    rw [e, h4 j (by omega)]
    refine ⟨(h.1.all _ (vtx_mem (by omega))).pos, fun ha => ?_⟩
    have := (h.1.all _ (vtx_mem (p := s)
      (i := if j + 1 = s.size then s.size - 1 else s.size - 2 - j) (by split_ifs <;> omega))).line ha
    unfold IsLine at this ⊢
    simpa using this

theorem invertIf_ok {K : V2 → Prop} {arcs : Prop} (flag : Bool) {s : Polyline} (h : PieceOk K arcs s) :
    ∃ q, invertIf flag s = .ok q ∧ PieceOk K arcs q := by
  cases flag with
  | true => exact invert_ok h
  | false => exact ⟨s, rfl, h⟩

theorem mapM_all {α β : Type} {P : α → Prop} {Q : β → Prop} (f : α → M β)
    (hf : ∀ a, P a → ∃ b, f a = .ok b ∧ Q b) : ∀ l : List α, (∀ a ∈ l, P a) →
    ∃ l', l.mapM f = .ok l' ∧ l'.length = l.length ∧ ∀ b ∈ l', Q b
  | [], _ => ⟨[], rfl, rfl, by simp⟩
  | a :: l, h => by
    obtain ⟨b, h1, h2⟩ := hf a (h a (by simp))
    obtain ⟨l', h3, h4, h5⟩ := mapM_all f hf l (fun x hx => h x (by simp [hx]))
    refine ⟨b :: l', ?_, by simp [h4], ?_⟩
    · rw [List.mapM_cons, h1, ok_bind, h3, ok_bind]; rfl
    · intro x hx
      rcases List.mem_cons.1 hx with rfl | hx
      · exact h2
      · exact h5 x hx

theorem collectSlices_run {std : StdSort} {hash : HashOrder} {A B : Polyline} {K : V2 → Prop}
    {arcs bad : Prop} {info : CombineInfo} (h : InfoOk A B K arcs info)
    (hA : ∀ v ∈ A.vertexes, VOk K arcs v) (hB : ∀ v ∈ B.vertexes, VOk K arcs v)
    {predA predB : V2 → M Bool} (hpA : ∀ x, ∃ b, predA x = .ok b)
    (hpB : ∀ x, ∃ b, predB x = .ok b) (op : Bool)
    (sA : SafeAt bad arcs K A) (sB : SafeAt bad arcs K B) :
    Outcome bad (fun c => (∀ s ∈ c.slicesRemaining, PieceOk K arcs s) ∧
      c.slicesRemaining.length ≤ 10 * (A.size * B.size) ∧
      c.startOfPlineBSlicesIdx ≤ c.startOfPlineACoincidentSlicesIdx ∧
      c.startOfPlineACoincidentSlicesIdx ≤ c.startOfPlineBCoincidentSlicesIdx)
      (collectSlices std hash A B info predA predB op) := by
  unfold collectSlices
  refine (sliceAtIntersects_run (std := std) (hash := hash) h (second := false) hA hpA sA).bind ?_
  rintro slA ⟨a1, a2⟩
  refine (sliceAtIntersects_run (std := std) (hash := hash) h (second := true) hB hpB sB).bind ?_
  rintro slB ⟨b1, b2⟩
  obtain ⟨cB, c1, c2, c3⟩ := mapM_all (P := fun pi : Polyline × ℕ => PieceOk K arcs pi.1 ∧
      pi.2 < info.coincidentSlices.length) (Q := PieceOk K arcs) (orientCoincident info) (by
      rintro ⟨p, i⟩ ⟨g1, g2⟩
      unfold orientCoincident
      simp only at g1 g2 ⊢
      rw [getM_of_lt (by rw [h.len3]; exact g2), ok_bind]
      exact invertIf_ok _ g1) info.coincidentSlices.zipIdx (by
      rintro ⟨p, i⟩ hm
      have := List.mem_zipIdx hm
      simp only [zero_add, Nat.sub_zero] at this
      refine ⟨?_, by omega⟩
      rw [this.2.2]
      exact h.slices _ (List.getElem_mem _))
  obtain ⟨sB', d1, d2, d3⟩ := mapM_all (P := PieceOk K arcs) (Q := PieceOk K arcs)
    (invertIf (op != info.plineOpposingDirections)) (fun s hs => invertIf_ok _ hs) slB
    (fun s hs => ⟨(b1 s hs).ok, (b1 s hs).two⟩)
  obtain ⟨cB', f1, f2, f3⟩ := mapM_all (P := PieceOk K arcs) (Q := PieceOk K arcs)
    (invertIf (op != info.plineOpposingDirections)) (fun s hs => invertIf_ok _ hs) cB c3
  rw [c1, ok_bind]
  simp only
  rw [d1, ok_bind, f1, ok_bind]
  refine Outcome.ok ⟨?_, ?_, ?_, ?_⟩
  · intro s hs
    simp only [List.mem_append] at hs
    rcases hs with ((hs | hs) | hs) | hs
    · exact ⟨(a1 s hs).ok, (a1 s hs).two⟩
    · exact d3 s hs
    · exact h.slices s hs
    · exact f3 s hs
  · simp only [List.length_append]
    rw [List.length_zipIdx] at c2
    have := h.count2
    omega
  · simp
  · simp

/-! ### Stitching -/

theorem mem_stitched : ∀ (l : List (List Vertex)) (v : Vertex), v ∈ stitched l → ∃ a ∈ l, v ∈ a
  | [], v, h => by simp [stitched] at h
  | [a], v, h => ⟨a, by simp, h⟩
  | a :: b :: rest, v, h => by
    rw [stitched, List.mem_append] at h
    rcases h with h | h
    · exact ⟨a, by simp, List.dropLast_subset _ h⟩
    · obtain ⟨c, h1, h2⟩ := mem_stitched (b :: rest) v h
      exact ⟨c, by simp only [List.mem_cons] at h1 ⊢; tauto, h2⟩

/-- A closed polyline of at least two vertexes, all of the kind. -/
def ResultOk (K : V2 → Prop) (arcs : Prop) (q : Polyline) : Prop :=
  q.isClosed = true ∧ 2 ≤ q.vertexes.length ∧ ∀ v ∈ q.vertexes, VOk K arcs v

theorem stitch_run {K : V2 → Prop} {arcs : Prop} {inf ninf : ℝ} {slices : List Polyline}
    (hs : ∀ s ∈ slices, PieceOk K arcs s) (hl : slices.length ≤ 2 ^ 24) {sel : StitchSelector}
    (hsel : ∀ i avail, avail ≠ [] → ∃ r, sel i avail = .ok r ∧ ∀ k, r = some k → k ∈ avail) :
    ∃ r, stitchOrderedSlicesIntoClosedPolylines (codePlatform inf ninf) slices sel = .ok r ∧
      ∀ q ∈ r, ResultOk K arcs q := by
  have hne : ∀ s ∈ slices, s.vertexes ≠ [] := fun s h => (hs s h).1.ne
  obtain ⟨chains, h1, h2, -⟩ := C44_stitchOrderedSlices (thr := sliceJoinThreshold)
    (pf := codePlatform inf ninf) hne hsel
    (fun h0 => C44_domain inf ninf (by norm_num [sliceJoinThreshold]) hne h0 hl)
  refine ⟨_, h1, ?_⟩
  intro q hq
  obtain ⟨⟨c, cl⟩, hc, hqc⟩ := List.mem_filterMap.1 hq
  unfold closedChain at hqc
  simp only at hqc
  split_ifs at hqc with hcond
  simp only [Option.some.injEq] at hqc
  subst hqc
  refine ⟨rfl, by rw [List.length_dropLast]; omega, ?_⟩
  intro v hv
  obtain ⟨a, ha, hva⟩ := mem_stitched _ v (List.dropLast_subset _ hv)
  obtain ⟨i, hi, rfl⟩ := List.mem_map.1 ha
  have hir : i < slices.length := by
    rw [← List.mem_range, ← h2.mem_iff, List.mem_flatten]
    exact ⟨c, List.mem_map.2 ⟨_, hc, rfl⟩, hi⟩
  rw [List.getD_eq_getElem _ _ hir] at hva
  exact (hs _ (List.getElem_mem hir)).1.all v hva

/-! ### The operations -/

/-- A result polyline: one of the two given, or a closed one made of known positions. -/
def OutOk (A B : Polyline) (q : Polyline) : Prop :=
  q = A ∨ q = B ∨ ResultOk (Known A B) (HasArc A B) q

theorem stitchUnion_run {e : CombineEnv} {bad : Prop} {inf ninf : ℝ} (hpf : e.pf = codePlatform inf ninf)
    (hinfo : InfoOk e.plineA e.plineB (Known e.plineA e.plineB) (HasArc e.plineA e.plineB) e.info)
    (hn : e.plineA.size * e.plineB.size ≤ 10 ^ 6)
    {predA predB : V2 → M Bool} (hpA : ∀ x, ∃ b, predA x = .ok b)
    (hpB : ∀ x, ∃ b, predB x = .ok b)
    (sA : SafeAt bad (HasArc e.plineA e.plineB) (Known e.plineA e.plineB) e.plineA)
    (sB : SafeAt bad (HasArc e.plineA e.plineB) (Known e.plineA e.plineB) e.plineB) :
    Outcome bad
      (fun r => ∀ q ∈ r, ResultOk (Known e.plineA e.plineB) (HasArc e.plineA e.plineB) q)
      (e.stitchUnion predA predB) := by
  unfold CombineEnv.stitchUnion
  refine (collectSlices_run hinfo known_vertexes.1 known_vertexes.2 hpA hpB false sA sB).bind ?_
  rintro c ⟨h1, h2, h3, h4⟩
  rw [hpf]
  obtain ⟨r, hr, hq⟩ := stitch_run (inf := inf) (ninf := ninf) h1 (by omega)
    (selectorOk_union c.startOfPlineACoincidentSlicesIdx)
  rw [hr]
  exact Outcome.ok hq

theorem stitchExclude_run {e : CombineEnv} {bad : Prop} {inf ninf : ℝ} (hpf : e.pf = codePlatform inf ninf)
    (hinfo : InfoOk e.plineA e.plineB (Known e.plineA e.plineB) (HasArc e.plineA e.plineB) e.info)
    (hn : e.plineA.size * e.plineB.size ≤ 10 ^ 6)
    {predA predB : V2 → M Bool} (hpA : ∀ x, ∃ b, predA x = .ok b)
    (hpB : ∀ x, ∃ b, predB x = .ok b)
    (sA : SafeAt bad (HasArc e.plineA e.plineB) (Known e.plineA e.plineB) e.plineA)
    (sB : SafeAt bad (HasArc e.plineA e.plineB) (Known e.plineA e.plineB) e.plineB) :
    Outcome bad
      (fun r => ∀ q ∈ r, ResultOk (Known e.plineA e.plineB) (HasArc e.plineA e.plineB) q)
      (e.stitchExclude predA predB) := by
  unfold CombineEnv.stitchExclude
  refine (collectSlices_run hinfo known_vertexes.1 known_vertexes.2 hpA hpB true sA sB).bind ?_
  rintro c ⟨h1, h2, h3, h4⟩
  rw [hpf]
  obtain ⟨r, hr, hq⟩ := stitch_run (inf := inf) (ninf := ninf) h1 (by omega)
    (selectorOk_exclude h3 h4)
  rw [hr]
  exact Outcome.ok hq

theorem withoutIntersects_run {e : CombineEnv} (hA : PlineOk e.plineA) (hB : PlineOk e.plineB)
    (nA : e.plineA.vertexes ≠ []) (nB : e.plineB.vertexes ≠ []) (r1 r2 r3 : CombineResult) :
    ∃ r, e.withoutIntersects r1 r2 r3 = .ok r ∧ (r = r1 ∨ r = r2 ∨ r = r3) := by
  unfold CombineEnv.withoutIntersects isInside
  rw [at_eq (show 0 < e.plineA.size from List.length_pos_of_ne_nil nA), ok_bind,
    at_eq (show 0 < e.plineB.size from List.length_pos_of_ne_nil nB)]
  obtain ⟨b, hb⟩ := pointIn_total hB (vtx e.plineA 0).pos
  obtain ⟨b', hb'⟩ := pointIn_total hA (vtx e.plineB 0).pos
  rw [hb, ok_bind]
  cases b with
  | true => exact ⟨_, rfl, Or.inl rfl⟩
  | false =>
    simp only [Bool.false_eq_true, if_false]
    rw [ok_bind, hb', ok_bind]
    cases b' with
    | true => exact ⟨_, rfl, Or.inr (Or.inl rfl)⟩
    | false => exact ⟨_, rfl, Or.inr (Or.inr rfl)⟩

theorem separate_run (info : CombineInfo) : ∀ (l : List Polyline) (r : CombineResult),
    ∃ r', l.foldlM (separateIsland info) r = .ok r' ∧
      ∀ q ∈ r'.remaining ++ r'.subtracted, q ∈ r.remaining ++ r.subtracted ∨ q ∈ l
  | [], r => ⟨r, rfl, fun q h => Or.inl h⟩
  | p :: l, r => by
    obtain ⟨a, ha⟩ := getArea_total p
    have hstep : ∃ r1, separateIsland info r p = .ok r1 ∧
        ∀ q ∈ r1.remaining ++ r1.subtracted, q ∈ r.remaining ++ r.subtracted ∨ q = p := by
      unfold separateIsland
      rw [ha, ok_bind]
      split_ifs
      · refine ⟨_, rfl, fun q hq => ?_⟩
        simp only [List.mem_append, List.mem_singleton] at hq ⊢
        tauto
      · refine ⟨_, rfl, fun q hq => ?_⟩
        simp only [List.mem_append, List.mem_singleton] at hq ⊢
        tauto
    obtain ⟨r1, h1, h2⟩ := hstep
    obtain ⟨r', h3, h4⟩ := separate_run info l r1
    refine ⟨r', ?_, ?_⟩
    · rw [List.foldlM_cons, h1]; exact h3
    · intro q hq
      rcases h4 q hq with h | h
      · rcases h2 q h with h | rfl
        · exact Or.inl h
        · right; simp
      · right; simp [h]

theorem perform_run {e : CombineEnv} {bad : Prop} {inf ninf : ℝ} (hpf : e.pf = codePlatform inf ninf)
    (hinfo : InfoOk e.plineA e.plineB (Known e.plineA e.plineB) (HasArc e.plineA e.plineB) e.info)
    (hA : PlineOk e.plineA) (hB : PlineOk e.plineB)
    (nA : e.plineA.vertexes ≠ []) (nB : e.plineB.vertexes ≠ [])
    (hn : e.plineA.size * e.plineB.size ≤ 10 ^ 6) (mode : CombineMode)
    (sA : SafeAt bad (HasArc e.plineA e.plineB) (Known e.plineA e.plineB) e.plineA)
    (sB : SafeAt bad (HasArc e.plineA e.plineB) (Known e.plineA e.plineB) e.plineB) :
    Outcome bad
      (fun r => ∀ q ∈ r.remaining ++ r.subtracted, OutOk e.plineA e.plineB q) (e.perform mode) := by
  have tA := fun x => pointIn_total hA x
  have tB := fun x => pointIn_total hB x
  have uA := fun x => pointNotIn_total hA x
  have uB := fun x => pointNotIn_total hB x
  have oA : OutOk e.plineA e.plineB e.plineA := Or.inl rfl
  have oB : OutOk e.plineA e.plineB e.plineB := Or.inr (Or.inl rfl)
  have hw : ∀ r1 r2 r3 : CombineResult,
      (∀ q ∈ r1.remaining ++ r1.subtracted, OutOk e.plineA e.plineB q) →
      (∀ q ∈ r2.remaining ++ r2.subtracted, OutOk e.plineA e.plineB q) →
      (∀ q ∈ r3.remaining ++ r3.subtracted, OutOk e.plineA e.plineB q) →
      Outcome bad
        (fun r => ∀ q ∈ r.remaining ++ r.subtracted, OutOk e.plineA e.plineB q)
        (e.withoutIntersects r1 r2 r3) := by
    intro r1 r2 r3 h1 h2 h3
    obtain ⟨r, hr, h⟩ := withoutIntersects_run hA hB nA nB r1 r2 r3
    rw [hr]
    rcases h with rfl | rfl | rfl
    · exact Outcome.ok h1
    · exact Outcome.ok h2
    · exact Outcome.ok h3
  cases mode
  · unfold CombineEnv.perform CombineEnv.performUnion
    simp only
    by_cases c1 : e.info.completelyCoincident
    · rw [if_pos c1]; exact Outcome.ok (by simpa using oA)
    · rw [if_neg c1]
      by_cases c2 : ¬ e.info.anyIntersects
      · rw [if_pos c2]
        exact hw _ _ _ (by simpa using oB) (by simpa using oA) (by simp [oA, oB])
      · rw [if_neg c2]
        refine (stitchUnion_run hpf hinfo hn uB uA sA sB).bind ?_
        intro l hl
        obtain ⟨r, hr, h⟩ := separate_run e.info l ⟨[], []⟩
        rw [hr]
        refine Outcome.ok fun q hq => ?_
        rcases h q hq with h | h
        · simp at h
        · exact Or.inr (Or.inr (hl q h))
  · unfold CombineEnv.perform CombineEnv.performExclude
    simp only
    by_cases c1 : e.info.completelyCoincident
    · rw [if_pos c1]; exact Outcome.ok (by simp)
    · rw [if_neg c1]
      by_cases c2 : ¬ e.info.anyIntersects
      · rw [if_pos c2]
        exact hw _ _ _ (by simp) (by simp [oA, oB]) (by simp [oA])
      · rw [if_neg c2]
        refine (stitchExclude_run hpf hinfo hn uB tA sA sB).bind ?_
        intro l hl
        exact Outcome.ok fun q hq => Or.inr (Or.inr (hl q (by simpa using hq)))
  · unfold CombineEnv.perform CombineEnv.performIntersect
    simp only
    by_cases c1 : e.info.completelyCoincident
    · rw [if_pos c1]; exact Outcome.ok (by simpa using oA)
    · rw [if_neg c1]
      by_cases c2 : ¬ e.info.anyIntersects
      · rw [if_pos c2]
        exact hw _ _ _ (by simp [oA]) (by simp [oB]) (by simp)
      · rw [if_neg c2]
        refine (stitchUnion_run hpf hinfo hn tB tA sA sB).bind ?_
        intro l hl
        exact Outcome.ok fun q hq => Or.inr (Or.inr (hl q (by simpa using hq)))
  · unfold CombineEnv.perform CombineEnv.performXOR
    simp only
    by_cases c1 : e.info.completelyCoincident
    · rw [if_pos c1]; exact Outcome.ok (by simp)
    · rw [if_neg c1]
      by_cases c2 : ¬ e.info.anyIntersects
      · rw [if_pos c2]
        exact hw _ _ _ (by simp [oA, oB]) (by simp [oA, oB]) (by simp [oA, oB])
      · rw [if_neg c2]
        refine (stitchExclude_run hpf hinfo hn uB tA sA sB).bind ?_
        intro l hl
        refine (stitchExclude_run hpf hinfo hn tB uA sA sB).bind ?_
        intro l' hl'
        refine Outcome.ok fun q hq => Or.inr (Or.inr ?_)
        simp only [List.append_nil, List.mem_append] at hq
        rcases hq with hq | hq
        · exact hl q hq
        · exact hl' q hq

theorem combine_run (inf ninf : ℝ) {std : StdSort} {hash : HashOrder} {bad : Prop} {A B : Polyline}
    (hi : Indexable (codePlatform inf ninf) A) (hA : PlineOk A) (hB : PlineOk B)
    (cA : A.isClosed = true) (cB : B.isClosed = true) (nB : B.vertexes ≠ [])
    (hn : A.vertexes.length * B.vertexes.length ≤ 10 ^ 6) (mode : CombineMode)
    (sA : SafeAt bad (HasArc A B) (Known A B) A) (sB : SafeAt bad (HasArc A B) (Known A B) B) :
    (∃ r, combinePolylines (codePlatform inf ninf) std hash A B mode = .ok r ∧
      ∀ q ∈ r.remaining ++ r.subtracted, q.isClosed = true ∧ (q = A ∨ q = B ∨
        (2 ≤ q.vertexes.length ∧ (∀ v ∈ q.vertexes, Known A B v.pos) ∧
          (HasArc A B ∨ ∀ v ∈ q.vertexes, IsLine v)))) ∨
    (bad ∧ combinePolylines (codePlatform inf ninf) std hash A B mode = .error .assertFailed) := by
  obtain ⟨s, info, h1, h2, h3⟩ := processForCombine_run (std := std) hi hA hB cA cB
  have nA : A.vertexes ≠ [] := by
    intro h
    have := hi.size
    rw [h] at this
    simp at this
  have hrun : combinePolylines (codePlatform inf ninf) std hash A B mode =
      CombineEnv.perform ⟨codePlatform inf ninf, std, hash, A, B, info⟩ mode := by
    unfold combinePolylines
    rw [assertP_pos ⟨cA, cB⟩, ok_bind, h1, ok_bind, h2, ok_bind]
  rw [hrun]
  rcases perform_run (e := ⟨codePlatform inf ninf, std, hash, A, B, info⟩) rfl h3 hA hB nA nB hn mode
    sA sB with ⟨r, hr, h⟩ | h
  · refine Or.inl ⟨r, hr, fun q hq => ?_⟩
    rcases h q hq with rfl | rfl | h
    · exact ⟨cA, Or.inl rfl⟩
    · exact ⟨cB, Or.inr (Or.inl rfl)⟩
    · refine ⟨h.1, Or.inr (Or.inr ⟨h.2.1, fun v hv => (h.2.2 v hv).pos, ?_⟩)⟩
      by_cases ha : HasArc A B
      · exact Or.inl ha
      · exact Or.inr fun v hv => (h.2.2 v hv).line ha
  · exact Or.inr h

/-- C43. Boolean operations on two closed polylines of lines and arcs of at most a half circle,
neither empty, do not fault except that, if there are arcs, an assertion on a degenerate arc may fail.
No loop goes on beyond its bound and nothing is accessed out of bounds. Every polyline of the result is
one of the two given ones, or it is closed, has at least two vertexes, and all of them are at
positions of vertexes of the two polylines or of their intersects; if there are no arcs in the given
polylines there are none in the result. -/
theorem C43_combinePolylines (inf ninf : ℝ) {std : StdSort} {hash : HashOrder} {A B : Polyline}
    (hi : Indexable (codePlatform inf ninf) A) (hA : PlineOk A) (hB : PlineOk B)
    (cA : A.isClosed = true) (cB : B.isClosed = true) (nB : B.vertexes ≠ [])
    (hn : A.vertexes.length * B.vertexes.length ≤ 10 ^ 6) (mode : CombineMode) :
    (∃ r, combinePolylines (codePlatform inf ninf) std hash A B mode = .ok r ∧
      ∀ q ∈ r.remaining ++ r.subtracted, q.isClosed = true ∧ (q = A ∨ q = B ∨
        (2 ≤ q.vertexes.length ∧ (∀ v ∈ q.vertexes, Known A B v.pos) ∧
          (HasArc A B ∨ ∀ v ∈ q.vertexes, IsLine v)))) ∨
    (HasArc A B ∧ combinePolylines (codePlatform inf ninf) std hash A B mode = .error .assertFailed) :=
  combine_run inf ninf hi hA hB cA cB nB hn mode (fun h => Or.inl h) (fun h => Or.inl h)

theorem safe_of_apart {A B p : Polyline} (hap : ArcEndsApart A B) (hp : p = A ∨ p = B) (hok : PlineOk p)
    (hc : p.isClosed = true) (h2 : 2 ≤ p.size) : SafeAt False (HasArc A B) (Known A B) p := by
  intro _
  right
  have hseg : ∀ i < p.size, IsSeg p i (vtx p i) (vtx p (nextWrappingIndex i p.size)) := by
    intro i hi
    rw [isSeg_iff, segs_length, if_neg (show ¬ p.size < 2 by omega), if_pos hc]
    refine ⟨hi, rfl, ?_⟩
    unfold nextWrappingIndex
    by_cases he : i + 1 = p.size
    · rw [if_pos he, if_pos (by omega)]
    · rw [if_neg he, if_neg (by omega)]
  have hclean : ∀ x, Known A B x → ∀ i < p.size, CleanAt p i x :=
    fun x hx i hi ha => hap p hp i _ _ (hseg i hi) ha x hx
  refine ⟨fun i hi ha hn => ?_, hclean⟩
  have hk : Known A B (vtx p i).pos := by
    refine Or.inl ⟨vtx p i, ?_, rfl⟩
    rcases hp with rfl | rfl
    · simp [vtx_mem hi]
    · simp [vtx_mem hi]
  rcases hclean _ hk i hi ha with h | h
  · have hd := (hok i _ _ (hseg i hi)).distinct ha
    rw [h] at hd
    simp at hd
    norm_num at hd
  · exact h hn

/-- C43 for polylines with arcs: boolean operations on closed polylines of lines and arcs of at most a
half circle never fault, if every vertex and every intersect of the two is exactly at the end of an
arc or at least 1e-4 from it in a coordinate. -/
theorem C43_arcs (inf ninf : ℝ) {std : StdSort} {hash : HashOrder} {A B : Polyline}
    (hi : Indexable (codePlatform inf ninf) A) (hA : PlineOk A) (hB : PlineOk B)
    (cA : A.isClosed = true) (cB : B.isClosed = true) (nB : 2 ≤ B.vertexes.length)
    (hn : A.vertexes.length * B.vertexes.length ≤ 10 ^ 6) (hap : ArcEndsApart A B) (mode : CombineMode) :
    ∃ r, combinePolylines (codePlatform inf ninf) std hash A B mode = .ok r ∧
      ∀ q ∈ r.remaining ++ r.subtracted, q.isClosed = true ∧ (q = A ∨ q = B ∨
        (2 ≤ q.vertexes.length ∧ ∀ v ∈ q.vertexes, Known A B v.pos)) := by
  rcases combine_run (bad := False) (std := std) (hash := hash) inf ninf hi hA hB cA cB
    (by intro h; rw [h] at nB; simp at nB) hn mode (safe_of_apart hap (Or.inl rfl) hA cA hi.size)
    (safe_of_apart hap (Or.inr rfl) hB cB nB) with ⟨r, hr, h⟩ | h
  · refine ⟨r, hr, fun q hq => ?_⟩
    obtain ⟨h1, h2⟩ := h q hq
    refine ⟨h1, ?_⟩
    rcases h2 with h2 | h2 | ⟨h3, h4, -⟩
    · exact Or.inl h2
    · exact Or.inr (Or.inl h2)
    · exact Or.inr (Or.inr ⟨h3, h4⟩)
  · exact h.1.elim

/-- C43 for polygons: boolean operations on closed polylines of straight segments never fault. -/
theorem C43_polygons (inf ninf : ℝ) {std : StdSort} {hash : HashOrder} {A B : Polyline}
    (hA : ∀ v ∈ A.vertexes, IsLine v) (hB : ∀ v ∈ B.vertexes, IsLine v)
    (hi : Indexable (codePlatform inf ninf) A)
    (cA : A.isClosed = true) (cB : B.isClosed = true) (nB : B.vertexes ≠ [])
    (hn : A.vertexes.length * B.vertexes.length ≤ 10 ^ 6) (mode : CombineMode) :
    ∃ r, combinePolylines (codePlatform inf ninf) std hash A B mode = .ok r ∧
      ∀ q ∈ r.remaining ++ r.subtracted, q.isClosed = true ∧ (q = A ∨ q = B ∨
        (2 ≤ q.vertexes.length ∧ ∀ v ∈ q.vertexes, Known A B v.pos ∧ IsLine v)) := by
  have hok : ∀ p : Polyline, (∀ v ∈ p.vertexes, IsLine v) → PlineOk p := by
    intro p h i v1 v2 hs
    obtain ⟨a, -, -, rfl, -⟩ := seg_lt hs
    have hl := h _ (vtx_mem a)
    refine ⟨le_trans (le_of_lt hl) (by norm_num), fun hn => absurd hl hn⟩
  have hno : ¬ HasArc A B := by
    rintro ⟨v, hv, hl⟩
    rw [List.mem_append] at hv
    rcases hv with hv | hv
    · exact hl (hA v hv)
    · exact hl (hB v hv)
  rcases C43_combinePolylines (std := std) (hash := hash) inf ninf hi (hok A hA) (hok B hB) cA cB nB hn
    mode with ⟨r, hr, h⟩ | h
  · refine ⟨r, hr, fun q hq => ?_⟩
    obtain ⟨h1, h2⟩ := h q hq
    refine ⟨h1, ?_⟩
    rcases h2 with h2 | h2 | ⟨h3, h4, h5⟩
    · exact Or.inl h2
    · exact Or.inr (Or.inl h2)
    · refine Or.inr (Or.inr ⟨h3, fun v hv => ⟨h4 v hv, ?_⟩⟩)
      rcases h5 with h5 | h5
      · exact absurd h5 hno
      · exact h5 v hv
  · exact absurd h.1 hno

/-- C43: if the first polyline has fewer than two vertexes, every operation fails an assertion. -/
theorem C43_too_small (pf : Platform) {std : StdSort} {hash : HashOrder} {A B : Polyline}
    (h : A.vertexes.length < 2) (mode : CombineMode) :
    combinePolylines pf std hash A B mode = .error .assertFailed := by
  unfold combinePolylines
  by_cases hc : A.isClosed = true ∧ B.isClosed = true
  · rw [assertP_pos hc, ok_bind, C32_too_small pf h]
    rfl
  · unfold assertP
    rw [if_neg hc]
    rfl

/-- Two overlapping rectangles. -/
example (inf ninf : ℝ) (std : StdSort) (hash : HashOrder) (mode : CombineMode) :
    ∃ r, combinePolylines (codePlatform inf ninf) std hash (rect 0 0 2 2) (rect 1 1 3 3) mode = .ok r :=
  (C43_polygons inf ninf (by simp [rect, isLine_zero]) (by simp [rect, isLine_zero])
    (rect_indexable inf ninf) rfl rfl (by simp [rect])
    (by simp [rect]) mode).imp fun _ h => h.1

/-- The circle of radius 5 about the origin: two half circles. -/
def disc5 : Polyline := ⟨true, [⟨⟨-5, 0⟩, 1⟩, ⟨⟨5, 0⟩, 1⟩]⟩

theorem disc5_seg {i : ℕ} {v1 v2 : Vertex} (h : IsSeg disc5 i v1 v2) :
    (v1 = ⟨⟨-5, 0⟩, 1⟩ ∧ v2 = ⟨⟨5, 0⟩, 1⟩) ∨ (v1 = ⟨⟨5, 0⟩, 1⟩ ∧ v2 = ⟨⟨-5, 0⟩, 1⟩) := by
  have h' : [((⟨⟨-5, 0⟩, 1⟩ : Vertex), (⟨⟨5, 0⟩, 1⟩ : Vertex)), (⟨⟨5, 0⟩, 1⟩, ⟨⟨-5, 0⟩, 1⟩)][i]? = some (v1, v2) := h
  match i, h' with
  | 0, h' => simp at h'; exact Or.inl ⟨h'.1.symm, h'.2.symm⟩
  | 1, h' => simp at h'; exact Or.inr ⟨h'.1.symm, h'.2.symm⟩
  | n + 2, h' => simp at h'

theorem disc5_ok : PlineOk disc5 := by
  intro i v1 v2 h
  rcases disc5_seg h with ⟨rfl, rfl⟩ | ⟨rfl, rfl⟩
  · exact ⟨by norm_num, fun _ => Or.inl (by norm_num)⟩
  · exact ⟨by norm_num, fun _ => Or.inl (by norm_num)⟩

theorem disc5_indexable (inf ninf : ℝ) : Indexable (codePlatform inf ninf) disc5 :=
  indexable_code (by simp [disc5]) (by simp [segs, disc5]) _ _ (Or.inl (by simp [segs, disc5]))
    fun i v1 v2 h => (disc5_ok i v1 v2 h).half

/-- What the test of an arc and a straight segment reports is on the line of the segment. -/
theorem known_on_line {v1 v2 u1 u2 : Vertex} (hv : ¬ IsLine v1) (hu : IsLine u1) (hok : SegOk v1 v2)
    {x : V2} (h : PointHit v1 v2 u1 u2 x ∨ ∃ y, OverlapHit v1 v2 u1 u2 x y ∨ OverlapHit v1 v2 u1 u2 y x) :
    ∃ t, x = lerp u1.pos u2.pos t := by
  obtain ⟨⟨res, h1, h2⟩, h3⟩ := C50_line_arc_sound (v2 := u2) hu hv hok
    (isCenter_centerOf (hok.arcOk hv).b_ne)
  rw [h1] at h3
  have hr : Reports res x := by
    unfold PointHit OverlapHit at h
    simp only [h3, Except.ok.injEq] at h
    rcases h with (h | ⟨y, h | h⟩) | ⟨y, (h | h) | (h | h)⟩ <;> subst h <;> simp [Reports]
  obtain ⟨⟨t, -, -, ht⟩, -⟩ := h2 x hr
  exact ⟨t, ht⟩

/-- The circle and a rectangle that it meets at (3, 4) and (3, -4). -/
theorem disc5_apart : ArcEndsApart disc5 (rect 3 (-8) 10 8) := by
  have key : ∀ x, Known disc5 (rect 3 (-8) 10 8) x → x = ⟨-5, 0⟩ ∨ x = ⟨5, 0⟩ ∨ x.x = 3 ∨ x.x = 10 ∨
      x.y = 8 ∨ x.y = -8 := by
    rintro x (⟨v, hv, rfl⟩ | ⟨i, j, v1, v2, u1, u2, h1, h2, h3⟩)
    · simp only [disc5, rect, List.cons_append, List.nil_append, List.mem_cons, List.not_mem_nil, or_false] at hv
      rcases hv with rfl | rfl | rfl | rfl | rfl | rfl <;> simp
    · have hok := disc5_ok i v1 v2 h1
      have ha : ¬ IsLine v1 := by
        rcases disc5_seg h1 with ⟨rfl, -⟩ | ⟨rfl, -⟩ <;> (unfold IsLine; norm_num)
      rcases rect_seg h2 with ⟨-, rfl, rfl⟩ | ⟨-, rfl, rfl⟩ | ⟨-, rfl, rfl⟩ | ⟨-, rfl, rfl⟩ <;>
        obtain ⟨t, rfl⟩ := known_on_line ha (isLine_zero _) hok h3 <;> simp [lerp]
  have hfar : ∀ x, Known disc5 (rect 3 (-8) 10 8) x → ∀ s : ℝ, s = 5 ∨ s = -5 →
      x = ⟨s, 0⟩ ∨ ¬ Near (1 / 10 ^ 4) x ⟨s, 0⟩ := by
    intro x hx s hs
    rcases key x hx with rfl | rfl | h | h | h | h
    · rcases hs with rfl | rfl
      · right; intro h; have := abs_lt.1 h.1; norm_num at this
      · left; rfl
    · rcases hs with rfl | rfl
      · left; rfl
      · right; intro h; have := abs_lt.1 h.1; norm_num at this
    all_goals
      right
      intro hn
      have h1 := abs_lt.1 hn.1
      have h2 := abs_lt.1 hn.2
      dsimp only at h1 h2
      rcases hs with rfl | rfl <;> norm_num at h1 h2 <;> linarith [h1.1, h1.2, h2.1, h2.2]
  intro p hp i v1 v2 hs ha x hx
  rcases hp with rfl | rfl
  · rcases disc5_seg hs with ⟨-, rfl⟩ | ⟨-, rfl⟩
    · exact hfar x hx 5 (Or.inl rfl)
    · exact hfar x hx (-5) (Or.inr rfl)
  · exfalso
    rcases rect_seg hs with ⟨-, rfl, -⟩ | ⟨-, rfl, -⟩ | ⟨-, rfl, -⟩ | ⟨-, rfl, -⟩ <;>
      exact ha (isLine_zero _)

/-- C43 applied to them. -/
example (inf ninf : ℝ) (std : StdSort) (hash : HashOrder) (mode : CombineMode) :
    ∃ r, combinePolylines (codePlatform inf ninf) std hash disc5 (rect 3 (-8) 10 8) mode = .ok r :=
  (C43_arcs inf ninf (disc5_indexable inf ninf) disc5_ok rect_ok rfl rfl (by simp [rect])
    (by simp [rect, disc5]) disc5_apart mode).imp fun _ h => h.1

end
end Cavc

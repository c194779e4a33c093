import Verif.Props.CombineCuts

/-! C57: which pieces of the polylines the result of a boolean operation is made of. -/
namespace Cavc
open Spec
open scoped Classical
noncomputable section

/-! ### The tests -/

theorem pointIn_winds {p : Polyline} {x : V2} {b : Bool} (h : pointIn p x = .ok b) :
    b = true ↔ (WindsAround p x ↔ (true : Bool) = true) := by
  unfold pointIn at h
  obtain ⟨w, hw, h⟩ := bind_eq_ok.1 h
  simp only [pure_eq_ok, Except.ok.injEq] at h
  subst h
  simp only [decide_eq_true_eq, iff_true]
  constructor
  · intro h; exact ⟨w, hw, h⟩
  · rintro ⟨w', hw', h⟩
    rw [hw] at hw'
    cases hw'
    exact h

theorem pointNotIn_winds {p : Polyline} {x : V2} {b : Bool} (h : pointNotIn p x = .ok b) :
    b = true ↔ (WindsAround p x ↔ (false : Bool) = true) := by
  unfold pointNotIn at h
  obtain ⟨b', hb', h⟩ := bind_eq_ok.1 h
  simp only [pure_eq_ok, Except.ok.injEq] at h
  subst h
  have := pointIn_winds hb'
  cases b' <;> simp_all

/-! ### Directions -/

theorem oriented_invertIf {flag : Bool} {p q : Polyline} (h : invertIf flag p = .ok q) :
    Oriented flag p q := by
  unfold invertIf at h
  unfold Oriented
  cases flag with
  | true => simpa using h
  | false => simpa using h.symm

theorem oriented_trans {a b : Bool} {p q r : Polyline} (h1 : Oriented a p q) (h2 : Oriented b q r) :
    Oriented (a != b) p r := by
  unfold Oriented at *
  cases a <;> cases b <;> simp at *
  · rw [h2, h1]
  · rw [← h1]; exact h2
  · rw [h2]; exact h1
  · have := C28_involution p
    rw [h1, ok_bind, h2] at this
    cases this
    rfl

theorem forall2_comp {α β γ : Type} {R : α → β → Prop} {S : β → γ → Prop} {T : α → γ → Prop}
    (ht : ∀ a b c, R a b → S b c → T a c) {l1 : List α} {l2 : List β} (h1 : List.Forall₂ R l1 l2) :
    ∀ {l3 : List γ}, List.Forall₂ S l2 l3 → List.Forall₂ T l1 l3 := by
  induction h1 with
  | nil => intro l3 h; cases h; exact .nil
  | cons h _ ih =>
    intro l3 h3
    cases h3 with
    | cons h' hrest => exact .cons (ht _ _ _ h h') (ih hrest)

/-- The coincident slices in the direction of the second polyline. -/
theorem orient_zip {info : CombineInfo} : ∀ (sl : List Polyline) (k : ℕ) (ops : List Bool)
    (r : List Polyline), sl.length = ops.length →
    (∀ i, i < ops.length → info.coincidentIsOpposingDirection[k + i]? = ops[i]?) →
    (sl.zipIdx k).mapM (orientCoincident info) = .ok r →
    List.Forall₂ (fun so q => Oriented so.2 so.1 q) (sl.zip ops) r
  | [], k, ops, r, _, _, h => by
    cases h
    simp
  | s :: sl, k, [], r, hl, _, h => by simp at hl
  | s :: sl, k, b :: ops, r, hl, ho, h => by
    rw [List.zipIdx_cons, List.mapM_cons] at h
    obtain ⟨q, hq, h⟩ := bind_eq_ok.1 h
    obtain ⟨qs, hqs, h⟩ := bind_eq_ok.1 h
    cases h
    refine .cons ?_ (orient_zip sl (k + 1) ops qs (by simpa using hl) ?_ hqs)
    · unfold orientCoincident at hq
      obtain ⟨flag, hf, hq⟩ := bind_eq_ok.1 hq
      rw [getM_eq_ok] at hf
      have := ho 0 (by simp)
      simp only [Nat.add_zero] at this
      rw [hf] at this
      simp only [List.getElem?_cons_zero, Option.some.injEq] at this
      subst this
      exact oriented_invertIf hq
    · intro i hi
      have := ho (i + 1) (by simp; omega)
      rw [List.getElem?_cons_succ] at this
      rw [← this]
      congr 1
      omega

/-! ### Parts -/

theorem sameTurn_iff {A B : Polyline} {a b : ℝ} (ha : getArea A = .ok a) (hb : getArea B = .ok b) :
    SameTurn A B ↔ (a < 0 ↔ b < 0) := by
  constructor
  · rintro ⟨a', b', ha', hb', h⟩
    rw [ha] at ha'
    rw [hb] at hb'
    cases ha'
    cases hb'
    exact h
  · intro h
    exact ⟨a, b, ha, hb, h⟩

/-- What is known about the intersects. -/
structure MeetOk (A B : Polyline) (info : CombineInfo) : Prop where
  ok : InfoOk A B (Known A B) (HasArc A B) info
  first : 2 ≤ A.size
  second : 2 ≤ B.size
  turn : SameTurn A B ↔ info.pline1IsCW = info.pline2IsCW

def ovOf (info : CombineInfo) : CoincidentSlices :=
  ⟨info.coincidentSlices, info.coincidentSliceStartPoints, info.coincidentSliceEndPoints,
    info.coincidentIsOpposingDirection⟩

theorem cutsFor_seg {A B : Polyline} {info : CombineInfo} (h : MeetOk A B info)
    (cA : A.isClosed = true) (cB : B.isClosed = true) (second : Bool) :
    ∀ c ∈ cutsFor info second, ∃ v1 v2, IsSeg (if second then B else A) c.seg v1 v2 := by
  intro c hc
  unfold cutsFor at hc
  cases second with
  | true =>
    simp only [if_true] at hc ⊢
    have key : c.seg < B.size := by
      unfold cutsOfSecond at hc
      rcases List.mem_append.1 hc with hc | hc
      · obtain ⟨x, hx, rfl⟩ := List.mem_map.1 hc
        exact (h.ok.pts x (by simp [hx])).2.1
      · obtain ⟨⟨x, y, b⟩, ho, hc⟩ := List.mem_flatMap.1 hc
        obtain ⟨h1, h2⟩ := List.of_mem_zip ho
        obtain ⟨h3, -⟩ := List.of_mem_zip h2
        simp only [List.mem_cons, List.not_mem_nil, or_false] at hc
        rcases hc with rfl | rfl
        · exact (h.ok.pts x (by simp [h1])).2.1
        · exact (h.ok.pts y (by simp [h3])).2.1
    exact ⟨_, _, closed_isSeg cB h.second key⟩
  | false =>
    simp only [Bool.false_eq_true, if_false] at hc ⊢
    have key : c.seg < A.size := by
      unfold cutsOfFirst at hc
      simp only [List.mem_append, List.mem_map] at hc
      rcases hc with (⟨x, hx, rfl⟩ | ⟨x, hx, rfl⟩) | ⟨x, hx, rfl⟩
      · exact (h.ok.pts x (by simp [hx])).1
      · exact (h.ok.pts x (by simp [hx])).1
      · exact (h.ok.pts x (by simp [hx])).1
    exact ⟨_, _, closed_isSeg cA h.first key⟩

/-- The slices that are collected. -/
theorem collectSlices_parts {std : StdSort} {hash : HashOrder} {A B : Polyline} {info : CombineInfo}
    (hm : MeetOk A B info) (cA : A.isClosed = true) (cB : B.isClosed = true)
    {predA predB : V2 → M Bool} {kA kB : V2 → Prop}
    (hkA : ∀ x b, predA x = .ok b → (b = true ↔ kA x))
    (hkB : ∀ x b, predB x = .ok b → (b = true ↔ kB x)) {op : Bool} {c : CollectedSlices}
    (h : collectSlices std hash A B info predA predB op = .ok c) :
    ∃ (flip : Bool) (sA sB sB' cB : List Polyline), (flip = true ↔ (op = true ↔ SameTurn A B)) ∧
      KeptSlices A (cutsFor info false) kA sA ∧ KeptSlices B (cutsFor info true) kB sB ∧
      List.Forall₂ (Oriented flip) sB sB' ∧
      List.Forall₂ (fun so q => Oriented (so.2 != flip) so.1 q)
        (info.coincidentSlices.zip info.coincidentIsOpposingDirection) cB ∧
      c = ⟨sA ++ sB' ++ info.coincidentSlices ++ cB, sA.length, sA.length + sB'.length,
        sA.length + sB'.length + info.coincidentSlices.length⟩ := by
  unfold collectSlices at h
  obtain ⟨sA, h1, h⟩ := bind_eq_ok.1 h
  obtain ⟨sB, h2, h⟩ := bind_eq_ok.1 h
  obtain ⟨cB0, h3, h⟩ := bind_eq_ok.1 h
  obtain ⟨sB', h4, h⟩ := bind_eq_ok.1 h
  obtain ⟨cB1, h5, h⟩ := bind_eq_ok.1 h
  cases h
  have l1 : info.coincidentSliceEndPoints.length = info.coincidentSliceStartPoints.length := by
    rw [hm.ok.len2, hm.ok.len1]
  have l2 : info.coincidentIsOpposingDirection.length = info.coincidentSliceStartPoints.length := by
    rw [hm.ok.len3, hm.ok.len1]
  refine ⟨op != info.plineOpposingDirections, sA, sB, sB', cB1, ?_,
    sliceAtIntersects_kept hkA l1 l2 cA (cutsFor_seg hm cA cB false) h1,
    sliceAtIntersects_kept hkB l1 l2 cB (cutsFor_seg hm cA cB true) h2,
    (mapM_forall h4).imp fun _ _ h => oriented_invertIf h, ?_, rfl⟩
  · rw [hm.turn]
    unfold CombineInfo.plineOpposingDirections
    cases op <;> cases info.pline1IsCW <;> cases info.pline2IsCW <;> simp
  · have a := orient_zip info.coincidentSlices 0 info.coincidentIsOpposingDirection cB0
      hm.ok.len3.symm (by simp) h3
    have b := (mapM_forall h5).imp fun _ _ h => oriented_invertIf h
    exact forall2_comp (R := fun (so : Polyline × Bool) q => Oriented so.2 so.1 q)
      (S := Oriented (op != info.plineOpposingDirections)) (fun so q r h1 h2 => oriented_trans h1 h2) a b

theorem stitch_parts {inf ninf : ℝ} {slices : List Polyline} {K : V2 → Prop} {arcs : Prop}
    (hs : ∀ s ∈ slices, PieceOk K arcs s) (hl : slices.length ≤ 2 ^ 24) {sel : StitchSelector}
    (hsel : ∀ i avail, avail ≠ [] → ∃ r, sel i avail = .ok r ∧ ∀ k, r = some k → k ∈ avail)
    {r : List Polyline}
    (h : stitchOrderedSlicesIntoClosedPolylines (codePlatform inf ninf) slices sel = .ok r) :
    ∃ chains : List (List ℕ × Bool),
      r = chains.filterMap (closedChain fun i => (slices.getD i Polyline.empty).vertexes) ∧
      (chains.map Prod.fst).flatten.Perm (List.range slices.length) ∧
      SelectedChains (fun i j => Follows (1 / 10 ^ 4) (slices.getD i Polyline.empty).vertexes
        (slices.getD j Polyline.empty).vertexes) sel chains := by
  have hne : ∀ s ∈ slices, s.vertexes ≠ [] := fun s h => (hs s h).1.ne
  obtain ⟨chains, h1, h2, h3⟩ := C44_stitchOrderedSlices (thr := sliceJoinThreshold)
    (pf := codePlatform inf ninf) hne hsel
    (fun h0 => C44_domain inf ninf (by norm_num [sliceJoinThreshold]) hne h0 hl)
  rw [h1] at h
  cases h
  exact ⟨chains, rfl, h2, h3⟩

theorem outcome_ok {α : Type} {arcs : Prop} {P : α → Prop} {m : M α} (h : Outcome arcs P m) {r : α}
    (hr : m = .ok r) : P r := by
  rcases h with ⟨r', h1, h2⟩ | ⟨-, h1⟩
  · rw [hr] at h1
    cases h1
    exact h2
  · rw [hr] at h1
    cases h1

/-- A test that always gives an answer and what it means. -/
def Decides (pred : V2 → M Bool) (keep : V2 → Prop) : Prop :=
  (∀ x, ∃ b, pred x = .ok b) ∧ ∀ x b, pred x = .ok b → (b = true ↔ keep x)

theorem stitchUnion_parts {e : CombineEnv} {inf ninf : ℝ} (hpf : e.pf = codePlatform inf ninf)
    (hm : MeetOk e.plineA e.plineB e.info) (cA : e.plineA.isClosed = true)
    (cB : e.plineB.isClosed = true) (hn : e.plineA.size * e.plineB.size ≤ 10 ^ 6)
    {part : Part} (hop : part.opposite = false) {predA predB : V2 → M Bool}
    (hA : Decides predA fun x => WindsAround e.plineB x ↔ part.insideB = true)
    (hB : Decides predB fun x => WindsAround e.plineA x ↔ part.insideA = true)
    {r : List Polyline} (h : e.stitchUnion predA predB = .ok r) :
    PartResult e.plineA e.plineB e.info.nonCoincidentIntersects (ovOf e.info) part r := by
  unfold CombineEnv.stitchUnion at h
  obtain ⟨c, hc, h⟩ := bind_eq_ok.1 h
  obtain ⟨q1, q2, -, -⟩ := outcome_ok (collectSlices_run hm.ok known_vertexes.1 known_vertexes.2
    hA.1 hB.1 false (fun h => Or.inl h) (fun h => Or.inl h)) hc
  obtain ⟨flip, sA, sB, sB', cB', p1, p2, p3, p4, p5, rfl⟩ :=
    collectSlices_parts hm cA cB hA.2 hB.2 hc
  rw [hpf] at h
  simp only at q1 q2 h
  obtain ⟨chains, s1, s2, s3⟩ := stitch_parts q1 (by omega) (selectorOk_union _) h
  refine ⟨flip, sA, sB, sB', cB', _, chains, ?_, p2, p3, p4, p5, ?_, s1, s2, s3⟩
  · rw [p1, hop]
  · intro i avail ha
    have := C45_unionSelector (sA.length + sB'.length) i avail ha
    unfold preferred
    rw [if_pos hop]
    exact this

theorem stitchExclude_parts {e : CombineEnv} {inf ninf : ℝ} (hpf : e.pf = codePlatform inf ninf)
    (hm : MeetOk e.plineA e.plineB e.info) (cA : e.plineA.isClosed = true)
    (cB : e.plineB.isClosed = true) (hn : e.plineA.size * e.plineB.size ≤ 10 ^ 6)
    {part : Part} (hop : part.opposite = true) {predA predB : V2 → M Bool}
    (hA : Decides predA fun x => WindsAround e.plineB x ↔ part.insideB = true)
    (hB : Decides predB fun x => WindsAround e.plineA x ↔ part.insideA = true)
    {r : List Polyline} (h : e.stitchExclude predA predB = .ok r) :
    PartResult e.plineA e.plineB e.info.nonCoincidentIntersects (ovOf e.info) part r := by
  unfold CombineEnv.stitchExclude at h
  obtain ⟨c, hc, h⟩ := bind_eq_ok.1 h
  obtain ⟨q1, q2, q3, q4⟩ := outcome_ok (collectSlices_run hm.ok known_vertexes.1 known_vertexes.2
    hA.1 hB.1 true (fun h => Or.inl h) (fun h => Or.inl h)) hc
  obtain ⟨flip, sA, sB, sB', cB', p1, p2, p3, p4, p5, rfl⟩ :=
    collectSlices_parts hm cA cB hA.2 hB.2 hc
  rw [hpf] at h
  simp only at q1 q2 q3 q4 h
  obtain ⟨chains, s1, s2, s3⟩ := stitch_parts q1 (by omega) (selectorOk_exclude q3 q4) h
  refine ⟨flip, sA, sB, sB', cB', _, chains, ?_, p2, p3, p4, p5, ?_, s1, s2, s3⟩
  · rw [p1, hop]
  · intro i avail ha
    obtain ⟨r, g1, g2, g3, g4, g5⟩ := C45_excludeSelector sA.length (sA.length + sB'.length)
      (sA.length + sB'.length + e.info.coincidentSlices.length) i q3 q4 avail ha
    refine ⟨r, g1, ?_⟩
    unfold preferred
    rw [if_neg (by simp [hop])]
    by_cases c1 : i < sA.length
    · rw [if_pos c1]; exact g2 c1
    · rw [if_neg c1]
      by_cases c2 : i < sA.length + sB'.length
      · rw [if_pos c2]; exact g3 ⟨by omega, c2⟩
      · rw [if_neg c2]
        by_cases c3 : i < sA.length + sB'.length + e.info.coincidentSlices.length
        · rw [if_pos (show i < sA.length + sB'.length + (ovOf e.info).coincidentSlices.length from c3)]
          exact g4 ⟨by omega, c3⟩
        · rw [if_neg (show ¬ i < sA.length + sB'.length + (ovOf e.info).coincidentSlices.length from c3)]
          exact g5 (by simp only; omega)

/-! ### The operations -/

theorem separate_parts {info : CombineInfo} {A : Polyline} {a : ℝ} (ha : getArea A = .ok a)
    (hc : info.pline1IsCW = decide (a < 0)) : ∀ (l : List Polyline) (r r' : CombineResult),
    l.foldlM (separateIsland info) r = .ok r' →
      r' = ⟨r.remaining ++ l.filter fun q => SameTurn A q, r.subtracted ++ l.filter fun q => ¬ SameTurn A q⟩
  | [], r, r', h => by
    cases h
    simp
  | p :: l, r, r', h => by
    rw [List.foldlM_cons] at h
    obtain ⟨r1, h1, h⟩ := bind_eq_ok.1 h
    have := separate_parts ha hc l r1 r' h
    unfold separateIsland at h1
    obtain ⟨b, hb, h1⟩ := bind_eq_ok.1 h1
    have hs := sameTurn_iff ha hb
    rw [this]
    by_cases c : decide (b < 0) ≠ info.pline1IsCW
    · rw [if_pos c] at h1
      cases h1
      have hn : ¬ SameTurn A p := by
        rw [hs]
        intro h
        apply c
        rw [hc, decide_eq_decide]
        exact h.symm
      rw [List.filter_cons_of_neg (by simpa using hn), List.filter_cons_of_pos (by simpa using hn)]
      simp
    · rw [if_neg c] at h1
      cases h1
      have hn : SameTurn A p := by
        rw [hs]
        push Not at c
        rw [hc, decide_eq_decide] at c
        exact c.symm
      rw [List.filter_cons_of_pos (by simpa using hn), List.filter_cons_of_neg (by simpa using hn)]
      simp

theorem withoutIntersects_parts {e : CombineEnv} {a b : Vertex} (ha : e.plineA.vertexes.head? = some a)
    (hb : e.plineB.vertexes.head? = some b) {r1 r2 r3 r : CombineResult}
    (h : e.withoutIntersects r1 r2 r3 = .ok r) :
    r = if WindsAround e.plineB a.pos then r1 else if WindsAround e.plineA b.pos then r2 else r3 := by
  have hat : ∀ (p : Polyline) (v : Vertex), p.vertexes.head? = some v → p.at 0 = .ok v := by
    intro p v hv
    unfold Polyline.at
    rw [getM_eq_ok, ← List.head?_eq_getElem?, hv]
  unfold CombineEnv.withoutIntersects isInside at h
  rw [hat _ _ ha, ok_bind] at h
  obtain ⟨b1, h1, h⟩ := bind_eq_ok.1 h
  have w1 := pointIn_winds h1
  simp only [iff_true] at w1
  cases b1 with
  | true =>
    rw [if_pos (w1.1 rfl)]
    cases h
    rfl
  | false =>
    rw [if_neg (fun hw => by simpa using w1.2 hw)]
    simp only [Bool.false_eq_true, if_false] at h
    rw [hat _ _ hb, ok_bind] at h
    obtain ⟨b2, h2, h⟩ := bind_eq_ok.1 h
    have w2 := pointIn_winds h2
    simp only [iff_true] at w2
    cases b2 with
    | true =>
      rw [if_pos (w2.1 rfl)]
      cases h
      rfl
    | false =>
      rw [if_neg (fun hw => by simpa using w2.2 hw)]
      cases h
      rfl

theorem perform_parts {e : CombineEnv} {inf ninf : ℝ} (hpf : e.pf = codePlatform inf ninf)
    (hm : ∀ _ : e.info.anyIntersects, MeetOk e.plineA e.plineB e.info)
    (hA : PlineOk e.plineA) (hB : PlineOk e.plineB)
    (cA : e.plineA.isClosed = true) (cB : e.plineB.isClosed = true)
    {a b : Vertex} (ha : e.plineA.vertexes.head? = some a) (hb : e.plineB.vertexes.head? = some b)
    {x : ℝ} (hx : getArea e.plineA = .ok x) (hcw : e.info.pline1IsCW = decide (x < 0))
    (hn : e.plineA.size * e.plineB.size ≤ 10 ^ 6) {mode : CombineMode} {r : CombineResult}
    (h : e.perform mode = .ok r) :
    (e.info.completelyCoincident → r = sameResult e.plineA mode) ∧
    (¬ e.info.completelyCoincident → ¬ e.info.anyIntersects →
      r = apartResult e.plineA e.plineB (WindsAround e.plineB a.pos) (WindsAround e.plineA b.pos) mode) ∧
    (¬ e.info.completelyCoincident → e.info.anyIntersects → ∃ res,
      List.Forall₂ (PartResult e.plineA e.plineB e.info.nonCoincidentIntersects (ovOf e.info))
        (partsOf mode) res ∧ r = metResult e.plineA mode res.flatten) := by
  have tA : Decides (pointIn e.plineA) fun x => WindsAround e.plineA x ↔ (true : Bool) = true :=
    ⟨fun x => pointIn_total hA x, fun x b h => pointIn_winds h⟩
  have tB : Decides (pointIn e.plineB) fun x => WindsAround e.plineB x ↔ (true : Bool) = true :=
    ⟨fun x => pointIn_total hB x, fun x b h => pointIn_winds h⟩
  have uA : Decides (pointNotIn e.plineA) fun x => WindsAround e.plineA x ↔ (false : Bool) = true :=
    ⟨fun x => pointNotIn_total hA x, fun x b h => pointNotIn_winds h⟩
  have uB : Decides (pointNotIn e.plineB) fun x => WindsAround e.plineB x ↔ (false : Bool) = true :=
    ⟨fun x => pointNotIn_total hB x, fun x b h => pointNotIn_winds h⟩
  refine ⟨fun c1 => ?_, fun c1 c2 => ?_, fun c1 c2 => ?_⟩
  · cases mode <;>
      simp only [CombineEnv.perform, CombineEnv.performUnion, CombineEnv.performExclude,
        CombineEnv.performIntersect, CombineEnv.performXOR, if_pos c1, Except.ok.injEq] at h <;>
      exact h.symm
  · cases mode <;>
      simp only [CombineEnv.perform, CombineEnv.performUnion, CombineEnv.performExclude,
        CombineEnv.performIntersect, CombineEnv.performXOR, if_neg c1, if_pos c2] at h <;>
      exact withoutIntersects_parts ha hb h
  · have hm := hm c2
    have c2' : ¬ ¬ e.info.anyIntersects := not_not.2 c2
    cases mode
    · simp only [CombineEnv.perform, CombineEnv.performUnion, if_neg c1, if_neg c2'] at h
      obtain ⟨l, h1, h⟩ := bind_eq_ok.1 h
      refine ⟨[l], .cons (stitchUnion_parts hpf hm cA cB hn rfl uB uA h1) .nil, ?_⟩
      rw [separate_parts hx hcw _ _ _ h]
      simp [metResult]
    · simp only [CombineEnv.perform, CombineEnv.performExclude, if_neg c1, if_neg c2'] at h
      obtain ⟨l, h1, h⟩ := bind_eq_ok.1 h
      cases h
      refine ⟨[l], .cons (stitchExclude_parts hpf hm cA cB hn rfl uB tA h1) .nil, ?_⟩
      simp [metResult]
    · simp only [CombineEnv.perform, CombineEnv.performIntersect, if_neg c1, if_neg c2'] at h
      obtain ⟨l, h1, h⟩ := bind_eq_ok.1 h
      cases h
      refine ⟨[l], .cons (stitchUnion_parts hpf hm cA cB hn rfl tB tA h1) .nil, ?_⟩
      simp [metResult]
    · simp only [CombineEnv.perform, CombineEnv.performXOR, if_neg c1, if_neg c2'] at h
      obtain ⟨l, h1, h⟩ := bind_eq_ok.1 h
      obtain ⟨l', h2, h⟩ := bind_eq_ok.1 h
      cases h
      refine ⟨[l, l'], .cons (stitchExclude_parts hpf hm cA cB hn rfl uB tA h1)
        (.cons (stitchExclude_parts hpf hm cA cB hn rfl tB uA h2) .nil), ?_⟩
      simp [metResult]

/-- C57. What a boolean operation on two closed polylines of lines and arcs of at most a half circle
gives, if it does not fail an assertion (property C43). With the isolated intersects the library finds
(property C33) and the overlaps it joins them to (property C36):
* if one overlap goes all the way around, union and intersection are A, the others are empty;
* if there are none, the result is by whether B winds around the first vertex of A, or A around that of
  B;
* otherwise, for every part of the operation, both polylines are cut at the intersects and the ends of
  the overlaps, the pieces on the right side of the other polyline are kept, the ones of B and the
  overlaps are brought to the right direction, and the pieces and overlaps are stitched; for the union
  the polylines that go around like A remain and the other ones are holes, otherwise all remain. -/
theorem C57_combinePolylines (inf ninf : ℝ) {std : StdSort} {hash : HashOrder} {A B : Polyline}
    (hi : Indexable (codePlatform inf ninf) A) (hA : PlineOk A) (hB : PlineOk B)
    (cA : A.isClosed = true) (cB : B.isClosed = true) {a b : Vertex} (ha : A.vertexes.head? = some a)
    (hb : B.vertexes.head? = some b) (hn : A.vertexes.length * B.vertexes.length ≤ 10 ^ 6)
    {mode : CombineMode} {r : CombineResult}
    (h : combinePolylines (codePlatform inf ninf) std hash A B mode = .ok r) :
    ∃ s found ov sorted, createApproxSpatialIndex (codePlatform inf ninf) A = .ok s ∧
      findIntersects A B s ⟨[], []⟩ = .ok found ∧
      sortAndjoinCoincidentSlices std found.coincidentIntersects A B = .ok (ov, sorted) ∧
      let around : Prop := ∃ x y, ov.sliceStartPoints = [x] ∧ ov.sliceEndPoints = [y] ∧
        Near (1 / 10 ^ 5) x.pos y.pos
      let meet : Prop := found.intersects ≠ [] ∨ ov.coincidentSlices ≠ []
      (around → r = sameResult A mode) ∧
      (¬ meet → r = apartResult A B (WindsAround B a.pos) (WindsAround A b.pos) mode) ∧
      (¬ around → meet → ∃ res,
        List.Forall₂ (PartResult A B found.intersects ov) (partsOf mode) res ∧
        r = metResult A mode res.flatten) := by
  obtain ⟨s, info, h1, h2, h3⟩ := processForCombine_run (std := std) hi hA hB cA cB
  obtain ⟨s', found, g1, g2, gc, gi, -⟩ := C33_findIntersects hi hA hB
  rw [h1] at g1
  cases g1
  have h2' := h2
  unfold processForCombine at h2'
  rw [assertP_pos ⟨cA, cB⟩, ok_bind, g2, ok_bind] at h2'
  obtain ⟨x1, hx1, h2'⟩ := bind_eq_ok.1 h2'
  obtain ⟨x2, hx2, h2'⟩ := bind_eq_ok.1 h2'
  obtain ⟨ov, sorted, hov, hinfo⟩ : ∃ ov sorted,
      sortAndjoinCoincidentSlices std found.coincidentIntersects A B = .ok (ov, sorted) ∧
      info = ⟨ov.coincidentSlices, found.intersects, ov.sliceStartPoints, ov.sliceEndPoints,
        ov.coincidentIsOpposingDirection, decide (x1 < 0), decide (x2 < 0)⟩ := by
    by_cases h0 : found.coincidentIntersects.length = 0
    · rw [if_pos h0] at h2'
      refine ⟨⟨[], [], [], []⟩, found.coincidentIntersects, ?_, ?_⟩
      · unfold sortAndjoinCoincidentSlices
        rw [if_pos h0]
      · cases h2'; rfl
    · rw [if_neg h0] at h2'
      obtain ⟨⟨ov, sorted⟩, hov, h2'⟩ := bind_eq_ok.1 h2'
      exact ⟨ov, sorted, hov, by cases h2'; rfl⟩
  have hrun : CombineEnv.perform ⟨codePlatform inf ninf, std, hash, A, B, info⟩ mode = .ok r := by
    unfold combinePolylines at h
    rw [assertP_pos ⟨cA, cB⟩, ok_bind, h1, ok_bind, h2, ok_bind] at h
    exact h
  have hmeet : info.anyIntersects → MeetOk A B info := by
    intro hany
    refine ⟨h3, hi.size, ?_, ?_⟩
    · have hex : ∃ j u1 u2, IsSeg B j u1 u2 := by
        by_cases hc : found.coincidentIntersects = []
        · have : ov = ⟨[], [], [], []⟩ := by
            unfold sortAndjoinCoincidentSlices at hov
            rw [hc] at hov
            simp only [List.length_nil, if_true, Except.ok.injEq, Prod.mk.injEq] at hov
            exact hov.1.symm
          rw [hinfo, this] at hany
          rcases hany with hany | hany
          · simp at hany
          · obtain ⟨⟨i, j, x⟩, hx⟩ := List.exists_mem_of_length_pos (Nat.pos_of_ne_zero hany)
            obtain ⟨v1, v2, u1, u2, -, q, -⟩ := (gi i j x).1 hx
            exact ⟨j, u1, u2, q⟩
        · obtain ⟨⟨i, j, x, y⟩, hx⟩ := List.exists_mem_of_ne_nil _ hc
          obtain ⟨v1, v2, u1, u2, -, q, -⟩ := (gc i j x y).1 hx
          exact ⟨j, u1, u2, q⟩
      obtain ⟨j, u1, u2, hs⟩ := hex
      exact (seg_lt hs).2.2.1
    · rw [sameTurn_iff hx1 hx2, hinfo]
      simp
  obtain ⟨p1, p2, p3⟩ := perform_parts (e := ⟨codePlatform inf ninf, std, hash, A, B, info⟩) rfl hmeet hA hB
    cA cB ha hb hx1 (by rw [hinfo]) hn hrun
  have hcc : info.completelyCoincident ↔ ∃ x y, ov.sliceStartPoints = [x] ∧ ov.sliceEndPoints = [y] ∧
        Near (1 / 10 ^ 5) x.pos y.pos := by
    rw [hinfo]
    unfold CombineInfo.completelyCoincident
    simp only
    constructor
    · intro h
      split at h
      · rename_i x y e1 e2
        exact ⟨x, y, e1, e2, near5_iff.1 h⟩
      · exact h.elim
    · rintro ⟨x, y, e1, e2, hxy⟩
      rw [e1, e2]
      exact near5_iff.2 hxy
  have hany : info.anyIntersects ↔ (found.intersects ≠ [] ∨ ov.coincidentSlices ≠ []) := by
    rw [hinfo]
    unfold CombineInfo.anyIntersects
    simp only [ne_eq, List.length_eq_zero_iff]
    tauto
  have hov' : ovOf info = ov := by rw [hinfo]; rfl
  refine ⟨s, found, ov, sorted, h1, g2, hov, fun hc => p1 (hcc.2 hc), fun hm => ?_, fun hc hm => ?_⟩
  · refine p2 (fun hc => ?_) (fun hh => hm (hany.1 hh))
    obtain ⟨x, y, e1, e2, -⟩ := hcc.1 hc
    have l1 := h3.len1
    rw [hinfo] at l1
    simp only at l1
    rw [e1] at l1
    apply hm
    right
    intro h0
    rw [h0] at l1
    simp at l1
  · obtain ⟨res, q1, q2⟩ := p3 (fun h => hc (hcc.1 h)) (hany.2 hm)
    refine ⟨res, ?_, q2⟩
    rw [hov'] at q1
    simpa only [hinfo] using q1

/-- C57, the sides: off a polyline, to wind around a point is to have it inside. -/
theorem C57_side {p : Polyline} (hok : PlineOk p) (hc : p.isClosed = true) {x : V2}
    (hoff : ¬ OnPline p x) : WindsAround p x ↔ Inside p x := by
  obtain ⟨k, hk, hi⟩ := inside_run hok hc hoff
  rw [hi]
  constructor
  · rintro ⟨w, hw, h⟩
    rw [hk] at hw
    cases hw
    exact h
  · intro h
    exact ⟨k, hk, h⟩

end
end Cavc

import Verif.Props.OffsetKept

/-! C59: the cuts of the raw offset polyline. -/
namespace Cavc
open Spec
open scoped Classical
noncomputable section

/-- An intersect with a circle as a cut. -/
def circCut (c : ℕ × V2) : Cut := ⟨c.1, c.2, false⟩

theorem lineCircle_add {i : ℕ} {v1 v2 : Vertex} {t : ℝ} {out : List (ℕ × V2)} :
    (addLineCircleIntr i v1 v2 t out).map circCut = out.map circCut ++
      (([t].filter fun t => 1 / 10 ^ 5 < t ∧ t ≤ 1).map fun t =>
        (⟨v1.pos.x + t * (v2.pos.x - v1.pos.x), v1.pos.y + t * (v2.pos.y - v1.pos.y)⟩ : V2)).map
        fun x => ⟨i, x, false⟩ := by
  have hiff : validLineSegIntersect t ↔ (1 / 10 ^ 5 < t ∧ t ≤ 1) := by
    unfold validLineSegIntersect falseIntersect realPrecision
    constructor
    · rintro ⟨h1, h2⟩
      push Not at h1
      rw [abs_of_nonneg h1.1] at h2
      exact ⟨h2, h1.2⟩
    · rintro ⟨h1, h2⟩
      have h0 : 0 < t := lt_trans (by norm_num) h1
      rw [abs_of_pos h0]
      refine ⟨?_, h1⟩
      push Not
      exact ⟨h0.le, h2⟩
  unfold addLineCircleIntr
  by_cases c : 1 / 10 ^ 5 < t ∧ t ≤ 1
  · rw [if_pos (hiff.2 c), List.filter_cons_of_pos (by simpa using c), List.map_append]
    rfl
  · rw [if_neg (fun h => c (hiff.1 h)), List.filter_cons_of_neg (by simpa using c)]
    simp

theorem arcCircle_add {i : ℕ} {arc : Arc} {v1 v2 : Vertex} {x : V2} {out out' : List (ℕ × V2)}
    (h : addArcCircleIntr i arc v1 v2 x out = .ok out') :
    out'.map circCut = out.map circCut ++
      ([x].filter fun x => ¬ Near (1 / 10 ^ 5) v1.pos x ∧
        pointWithinArcSweepAngle arc.center v1.pos v2.pos v1.bulge x = .ok true).map
        fun x => ⟨i, x, false⟩ := by
  unfold addArcCircleIntr at h
  obtain ⟨b, hb, h⟩ := bind_eq_ok.1 h
  simp only [pure_eq_ok, Except.ok.injEq] at h
  unfold validArcSegIntersect at hb
  have hbb : b = true ↔ ¬ Near (1 / 10 ^ 5) v1.pos x ∧
        pointWithinArcSweepAngle arc.center v1.pos v2.pos v1.bulge x = .ok true := by
    by_cases c : fuzzyEqualV v1.pos x realPrecision
    · rw [if_pos c] at hb
      cases hb
      refine ⟨(fun h => nomatch h), fun h => absurd c h.1⟩
    · rw [if_neg c] at hb
      rw [hb]
      constructor
      · intro h
        rw [h]
        exact ⟨c, rfl⟩
      · rintro ⟨-, h⟩
        cases h
        rfl
  subst h
  by_cases c : b = true
  · rw [if_pos c, List.filter_cons_of_pos (by simpa using hbb.1 c), List.map_append]
    rfl
  · rw [if_neg c, List.filter_cons_of_neg (by simpa using fun h1 h2 => c (hbb.2 ⟨h1, h2⟩))]
    simp

theorem circleStep_is {raw : Polyline} {R : ℝ} {c : V2} {i : ℕ} {v1 v2 : Vertex} (hs : IsSeg raw i v1 v2)
    (hop : raw.isClosed = false) {out out' : List (ℕ × V2)}
    (h : circleIntrStep raw R c out i = .ok out') :
    ∃ xs, CircleHits v1 v2 R c xs ∧ out'.map circCut = out.map circCut ++ xs.map fun x => ⟨i, x, false⟩ := by
  obtain ⟨a1, -, a3, a4⟩ := isSeg_mod hs
  have a5 := open_seg_lt hop hs
  rw [Nat.mod_eq_of_lt a5] at a4
  unfold circleIntrStep at h
  rw [at_eq a1, ok_bind, at_eq a5, ok_bind, ← a3, ← a4] at h
  by_cases hl : IsLine v1
  · rw [if_pos (show v1.bulgeIsZero from hl)] at h
    obtain ⟨r, hr, h⟩ := bind_eq_ok.1 h
    refine ⟨_, Or.inl ⟨hl, r, hr, rfl⟩, ?_⟩
    cases r with
    | none =>
      cases h
      simp [paramsOf]
    | one t =>
      cases h
      rw [lineCircle_add]
      rfl
    | two t u =>
      cases h
      rw [lineCircle_add, lineCircle_add, List.append_assoc, ← List.map_append, ← List.map_append,
        ← List.filter_append]
      rfl
  · rw [if_neg (show ¬ v1.bulgeIsZero from hl)] at h
    obtain ⟨a, ha, h⟩ := bind_eq_ok.1 h
    refine ⟨_, Or.inr ⟨hl, a, ha, rfl⟩, ?_⟩
    cases hr : intrCircle2Circle2 a.radius a.center R c with
    | noIntersect =>
      rw [hr] at h
      cases h
      simp [pointsOf]
    | coincident =>
      rw [hr] at h
      cases h
      simp [pointsOf]
    | one x =>
      rw [hr] at h
      rw [arcCircle_add h]
      rfl
    | two x y =>
      rw [hr] at h
      obtain ⟨o1, h1, h⟩ := bind_eq_ok.1 h
      rw [arcCircle_add h, arcCircle_add h1, List.append_assoc, ← List.map_append, ← List.filter_append]
      rfl

theorem circle_cuts {raw : Polyline} {s : SIndex ℝ} (hx : IndexOf (segBoxes raw) s)
    (hop : raw.isClosed = false) {offset : ℝ} {c : V2} {out out' : List (ℕ × V2)}
    (h : offsetCircleIntersectsWithPline raw offset c s out = .ok out') :
    ∃ cs, CircleCuts raw |offset| c cs ∧ out'.map circCut = out.map circCut ++ cs := by
  unfold offsetCircleIntersectsWithPline at h
  obtain ⟨is, h1, h2, h3, -⟩ := hx.queryM (squareAround |offset| c)
  simp only at h
  rw [show (⟨c.x - |offset|, c.y - |offset|, c.x + |offset|, c.y + |offset|⟩ : Box ℝ) =
    squareAround |offset| c from rfl, h3, ok_bind] at h
  have hm : ∀ i, i ∈ is ↔ ∃ v1 v2, IsSeg raw i v1 v2 ∧
      Overlap (squareAround |offset| c) (createFastApproxBoundingBox v1 v2).toBox := by
    intro i
    rw [h2]
    constructor
    · rintro ⟨b, hb, ho⟩
      obtain ⟨v1, v2, hs, rfl⟩ := segBoxes_get.1 hb
      exact ⟨v1, v2, hs, ho⟩
    · rintro ⟨v1, v2, hs, ho⟩
      exact ⟨_, segBoxes_get.2 ⟨v1, v2, hs, rfl⟩, ho⟩
  have key : ∀ (is : List ℕ) (out : List (ℕ × V2)), (∀ i ∈ is, ∃ v1 v2, IsSeg raw i v1 v2) →
      is.foldlM (circleIntrStep raw |offset| c) out = .ok out' →
      ∃ css, List.Forall₂ (fun i cs => ∃ v1 v2 xs, IsSeg raw i v1 v2 ∧ CircleHits v1 v2 |offset| c xs ∧
        cs = xs.map fun x => (⟨i, x, false⟩ : Cut)) is css ∧
        out'.map circCut = out.map circCut ++ css.flatten := by
    intro is
    induction is with
    | nil =>
      intro out _ h
      cases h
      exact ⟨[], .nil, by simp⟩
    | cons i is ih =>
      intro out hs h
      rw [List.foldlM_cons] at h
      obtain ⟨o1, h1, h⟩ := bind_eq_ok.1 h
      obtain ⟨v1, v2, hv⟩ := hs i (by simp)
      obtain ⟨xs, a1, a2⟩ := circleStep_is hv hop h1
      obtain ⟨css, b1, b2⟩ := ih o1 (fun j hj => hs j (by simp [hj])) h
      refine ⟨_ :: css, .cons ⟨v1, v2, xs, hv, a1, rfl⟩ b1, ?_⟩
      rw [b2, a2, List.flatten_cons, List.append_assoc]
  obtain ⟨css, b1, b2⟩ := key is out (fun i hi => by
    obtain ⟨v1, v2, hs, -⟩ := (hm i).1 hi
    exact ⟨v1, v2, hs⟩) h
  exact ⟨css.flatten, ⟨is, css, h1, hm, b1, rfl⟩, b2⟩

theorem end_cuts {p raw : Polyline} {s : SIndex ℝ} (hx : IndexOf (segBoxes raw) s)
    (hc : raw.isClosed = p.isClosed) {offset : ℝ} {out : List (ℕ × V2)}
    (h : dualCircles p raw offset s = .ok out) :
    EndCuts p raw offset (out.map circCut) := by
  unfold dualCircles at h
  unfold EndCuts
  by_cases c : p.isClosed = true
  · rw [if_pos c] at h
    cases h
    rw [if_pos c]
    rfl
  · rw [if_neg c] at h
    rw [if_neg c]
    have hop : raw.isClosed = false := by rw [hc]; simpa using c
    obtain ⟨a, ha, h⟩ := bind_eq_ok.1 h
    obtain ⟨b, hb, h⟩ := bind_eq_ok.1 h
    obtain ⟨o1, h1, h⟩ := bind_eq_ok.1 h
    obtain ⟨cs1, c1, c2⟩ := circle_cuts hx hop h1
    obtain ⟨cs2, d1, d2⟩ := circle_cuts hx hop h
    refine ⟨a, b, cs1, cs2, ?_, lastVertex_eq_ok hb, c1, d1, ?_⟩
    · rw [List.head?_eq_getElem?]
      exact getM_eq_ok.1 ha
    · rw [d2, c2]
      rfl

theorem endCuts_seg {p raw : Polyline} {offset : ℝ} {cs : List Cut} (h : EndCuts p raw offset cs) :
    ∀ c ∈ cs, ∃ v1 v2, IsSeg raw c.seg v1 v2 := by
  have key : ∀ {R : ℝ} {x : V2} {cs : List Cut}, CircleCuts raw R x cs →
      ∀ c ∈ cs, ∃ v1 v2, IsSeg raw c.seg v1 v2 := by
    rintro R x cs ⟨is, css, -, -, h, rfl⟩ c hc
    obtain ⟨l, hl, hc⟩ := List.mem_flatten.1 hc
    obtain ⟨i, -, v1, v2, xs, g1, -, rfl⟩ := forall2_right h hl
    obtain ⟨y, -, rfl⟩ := List.mem_map.1 hc
    exact ⟨v1, v2, g1⟩
  unfold EndCuts at h
  by_cases c : p.isClosed = true
  · rw [if_pos c] at h
    subst h
    simp
  · rw [if_neg c] at h
    obtain ⟨a, b, cs1, cs2, -, -, h1, h2, rfl⟩ := h
    intro c hc
    rcases List.mem_append.1 hc with hc | hc
    · exact key h1 c hc
    · exact key h2 c hc

end
end Cavc

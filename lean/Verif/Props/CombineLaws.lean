import Verif.Props.CombineCurves
import Verif.Props.CombineDisc
import Verif.Props.CombineSame
import Verif.Props.OffsetRect

/-! C79: the result of a combine, as a region, depends only on the points of the polylines and satisfies the laws of sets. -/
namespace Cavc
open Spec
open scoped Classical
noncomputable section
open MeasureTheory

/-- Two curves that do not meet themselves and have the same points have the same inside. -/
theorem same_inside_curves {p q : Polyline} (hp : SimpleCurve p) (hq : SimpleCurve q) (h : ∀ x, OnPline p x ↔ OnPline q x)
    {x : V2} (hx : ¬ OnPline p x) : Inside p x ↔ Inside q x := by
  have hfar : ∀ {p : Polyline}, SimpleCurve p → ∀ {y : V2}, (∀ z, OnPline p z → z.x < y.x) → ¬ OnPline p y ∧ ¬ Inside p y := by
    intro p hp y hy
    have hoff : ¬ OnPline p y := fun ho => lt_irrefl _ (hy y ho)
    refine ⟨hoff, fun hi => ?_⟩
    obtain ⟨k, h1, h2⟩ := inside_run hp.ok hp.closed hoff
    have h3 := (getWinding_turnAll hp.ok hp.closed hp.two' hoff).1 h1
    rw [turnAll_right hp.ok hp.closed hp.two' hy, zero_div] at h3
    exact h2.1 hi (by exact_mod_cast h3)
  obtain ⟨M, hM⟩ := onPline_bounded hp.closed hp.two'
  have far1 := hfar hp (y := ⟨M, 0⟩) fun z hz => (abs_lt.1 (hM z hz).1).2
  have far2 := hfar hq (y := ⟨M, 0⟩) fun z hz => (abs_lt.1 (hM z ((h z).2 hz)).1).2
  have hj : JoinedOff p x ⟨M, 0⟩ ↔ JoinedOff q x ⟨M, 0⟩ := by
    unfold JoinedOff
    have : Unmet p = Unmet q := by
      funext a b
      unfold Unmet
      simp only [h]
    rw [this]
  have h1 := (C72_jordan hp).1 x ⟨M, 0⟩ hx far1.1
  have h2 := (C72_jordan hq).1 x ⟨M, 0⟩ (fun ho => hx ((h x).2 ho)) far2.1
  have e1 := far1.2
  have e2 := far2.2
  tauto

theorem areas_inj {l : List Polyline} {as bs : List ℝ} (h : List.Forall₂ (fun q x => getArea q = .ok x) l as)
    (h' : List.Forall₂ (fun q x => getArea q = .ok x) l bs) : as = bs := by
  induction h generalizing bs with
  | nil => cases h'; rfl
  | cons a _ ih =>
    cases h' with
    | cons b h2 =>
      rw [a] at b
      rw [Except.ok.inj b, ih h2]

theorem areaOf_inj {r : CombineResult} {a b : ℝ} (h : AreaOf r a) (h' : AreaOf r b) : a = b := by
  obtain ⟨as, bs, h1, h2, rfl⟩ := h
  obtain ⟨as', bs', h3, h4, rfl⟩ := h'
  rw [areas_inj h1 h3, areas_inj h2 h4]

theorem linesClear_symm {a b p q : V2} (h : LinesClear a b p q) : LinesClear p q a b := by
  rcases h with h | h | h
  · left
    rw [← abs_neg]
    convert h using 2
    ring
  · exact Or.inr (Or.inr h)
  · exact Or.inr (Or.inl h)

theorem circlesClear_symm {c d : V2} {r s : ℝ} (h : CirclesClear c r d s) : CirclesClear d s c r := by
  have e : distance d c = distance c d := by unfold distance; rw [dist2_comm]
  unfold CirclesClear at h ⊢
  rw [e, abs_sub_comm s r, add_comm s r]
  rcases h with h | h | ⟨h0, x, y, h1, h2, h3⟩
  · exact Or.inl h
  · exact Or.inr (Or.inl h)
  · exact Or.inr (Or.inr ⟨h0, x, y, h1.symm, h2.symm, h3⟩)

theorem clearPair_symm {v1 v2 u1 u2 : Vertex} (h : ClearPair v1 v2 u1 u2) : ClearPair u1 u2 v1 v2 where
  lines := fun h1 h2 => linesClear_symm (h.lines h2 h1)
  lineArc := fun h1 h2 => h.arcLine h2 h1
  arcLine := fun h1 h2 => h.lineArc h2 h1
  arcs := fun h1 h2 c d hc hd => circlesClear_symm (h.arcs h2 h1 d c hd hc)
  exact := fun x h1 h2 => (h.exact x h2 h1).symm

theorem boxesClose_symm {ε : ℝ} {v1 v2 u1 u2 : Vertex} (h : BoxesClose ε v1 v2 u1 u2) : BoxesClose ε u1 u2 v1 v2 := by
  unfold BoxesClose at h ⊢
  obtain ⟨h1, h2, h3, h4⟩ := h
  refine ⟨?_, ?_, ?_, ?_⟩ <;> linarith

/-- Crossing clearly does not depend on the order. -/
theorem cleanMeet_symm {A B : Polyline} (h : CleanMeet A B) : CleanMeet B A where
  pairs := fun i j v1 v2 u1 u2 h1 h2 h3 => clearPair_symm (h.pairs j i u1 u2 v1 v2 h2 h1 (boxesClose_symm h3))
  vertexA := h.vertexB
  vertexB := h.vertexA
  alongA := h.alongB
  alongB := h.alongA
  apart := by
    rintro i j x i' j' x' ⟨v1, v2, u1, u2, a1, a2, a3, a4⟩ ⟨w1, w2, y1, y2, b1, b2, b3, b4⟩ hne
    refine h.apart j i x j' i' x' ⟨u1, u2, v1, v2, a2, a1, a4, a3⟩ ⟨y1, y2, w1, w2, b2, b1, b4, b3⟩ fun e => hne ?_
    simp only [Prod.mk.injEq] at e ⊢
    tauto

/-- The region and the area of one combine. -/
theorem combine_region {inf ninf : ℝ} {std : StdSort} {hash : HashOrder} {A B : Polyline} (ssA : SimpleCurve A)
    (ssB : SimpleCurve B) (hg : CleanMeet A B) (hap : ArcEndsApart A B)
    (hi : Indexable (codePlatform inf ninf) A) (hn : A.vertexes.length * B.vertexes.length ≤ 10 ^ 6) (mode : CombineMode) :
    ∃ r a, combinePolylines (codePlatform inf ninf) std hash A B mode = .ok r ∧ AreaOf r a ∧ 0 ≤ a ∧
      volume (Combined A B mode) = ENNReal.ofReal a ∧
      ∀ x, ¬ OnPline A x → ¬ OnPline B x → (InResult r x ↔ boolOp mode (Inside A x) (Inside B x)) := by
  obtain ⟨r, a, h1, h2, h3, h4⟩ := C73_area inf ninf (std := std) (hash := hash) ssA ssB hg hap hi hn mode
  obtain ⟨r', h1', -, h5, -⟩ := C73_combinePolylines inf ninf (std := std) (hash := hash) ssA ssB hg hap hi hn mode
  rw [h1] at h1'
  cases h1'
  exact ⟨r, a, h1, h2, h3, h4, fun x hA hB => (h5 x hA hB).1⟩

theorem ofReal_inj {a b : ℝ} (ha : 0 ≤ a) (hb : 0 ≤ b) (h : ENNReal.ofReal a = ENNReal.ofReal b) : a = b :=
  (ENNReal.ofReal_eq_ofReal_iff ha hb).1 h

/-- **C79.** What a combine gives depends only on the points of the two polylines: not on where they start, in which
direction they go and how many vertexes they have. -/
theorem C79_same_points {inf ninf inf' ninf' : ℝ} {std std' : StdSort} {hash hash' : HashOrder} {A B A' B' : Polyline}
    (ssA : SimpleCurve A) (ssB : SimpleCurve B) (ssA' : SimpleCurve A') (ssB' : SimpleCurve B')
    (eA : ∀ x, OnPline A x ↔ OnPline A' x) (eB : ∀ x, OnPline B x ↔ OnPline B' x)
    (hg : CleanMeet A B) (hap : ArcEndsApart A B) (hg' : CleanMeet A' B') (hap' : ArcEndsApart A' B')
    (hi : Indexable (codePlatform inf ninf) A) (hi' : Indexable (codePlatform inf' ninf') A')
    (hn : A.vertexes.length * B.vertexes.length ≤ 10 ^ 6) (hn' : A'.vertexes.length * B'.vertexes.length ≤ 10 ^ 6)
    (mode : CombineMode) :
    ∃ r r' a, combinePolylines (codePlatform inf ninf) std hash A B mode = .ok r ∧
      combinePolylines (codePlatform inf' ninf') std' hash' A' B' mode = .ok r' ∧
      (∀ x, ¬ OnPline A x → ¬ OnPline B x → (InResult r x ↔ InResult r' x)) ∧ AreaOf r a ∧ AreaOf r' a := by
  obtain ⟨r, a, h1, h2, h3, h4, h5⟩ := combine_region (std := std) (hash := hash) ssA ssB hg hap hi hn mode
  obtain ⟨r', a', h1', h2', h3', h4', h5'⟩ := combine_region (std := std') (hash := hash') ssA' ssB' hg' hap' hi' hn' mode
  have hreg : ∀ x, ¬ OnPline A x → ¬ OnPline B x →
      (boolOp mode (Inside A x) (Inside B x) ↔ boolOp mode (Inside A' x) (Inside B' x)) := by
    intro x hA hB
    rw [propext (same_inside_curves ssA ssA' eA hA), propext (same_inside_curves ssB ssB' eB hB)]
  have e : Combined A B mode = Combined A' B' mode := by
    ext z
    unfold Combined
    simp only [Set.mem_ofPred_eq]
    rw [← eA, ← eB]
    exact and_congr_right fun hA => and_congr_right fun hB => hreg _ hA hB
  have : a = a' := ofReal_inj h3 h3' (by rw [← h4, ← h4', e])
  subst this
  exact ⟨r, r', a, h1, h1', fun x hA hB => (h5 x hA hB).trans ((hreg x hA hB).trans
    (h5' x (fun c => hA ((eA x).2 c)) (fun c => hB ((eB x).2 c))).symm), h2, h2'⟩

/-- **C79.** Union, intersection and symmetric difference do not depend on the order of the two polylines; the differences in
the two orders and the intersection have no point in common, and together they are the union. -/
theorem C79_both_orders {inf ninf inf' ninf' : ℝ} {std std' : StdSort} {hash hash' : HashOrder} {A B : Polyline}
    (ssA : SimpleCurve A) (ssB : SimpleCurve B) (hg : CleanMeet A B) (hap : ArcEndsApart A B)
    (hap' : ArcEndsApart B A) (hi : Indexable (codePlatform inf ninf) A) (hi' : Indexable (codePlatform inf' ninf') B)
    (hn : A.vertexes.length * B.vertexes.length ≤ 10 ^ 6) :
    ∃ (r r' : CombineMode → CombineResult) (a a' : CombineMode → ℝ),
      (∀ mode, combinePolylines (codePlatform inf ninf) std hash A B mode = .ok (r mode) ∧ AreaOf (r mode) (a mode)) ∧
      (∀ mode, combinePolylines (codePlatform inf' ninf') std' hash' B A mode = .ok (r' mode) ∧ AreaOf (r' mode) (a' mode)) ∧
      (∀ mode, mode ≠ .exclude → a mode = a' mode ∧
        ∀ x, ¬ OnPline A x → ¬ OnPline B x → (InResult (r mode) x ↔ InResult (r' mode) x)) ∧
      (∀ x, ¬ OnPline A x → ¬ OnPline B x →
        (InResult (r .union) x ↔ InResult (r .exclude) x ∨ InResult (r .intersect) x ∨ InResult (r' .exclude) x) ∧
        (InResult (r .xor) x ↔ InResult (r .exclude) x ∨ InResult (r' .exclude) x) ∧
        ¬ (InResult (r .exclude) x ∧ InResult (r .intersect) x) ∧ ¬ (InResult (r .exclude) x ∧ InResult (r' .exclude) x) ∧
        ¬ (InResult (r .intersect) x ∧ InResult (r' .exclude) x)) ∧
      a .union = a .exclude + a .intersect + a' .exclude ∧ a .xor = a .exclude + a' .exclude := by
  have hg' := cleanMeet_symm hg
  choose r a h1 h2 h3 h4 h5 using combine_region (std := std) (hash := hash) ssA ssB hg hap hi hn
  choose r' a' h1' h2' h3' h4' h5' using combine_region (std := std') (hash := hash') ssB ssA hg' hap' hi' (by rwa [mul_comm])
  obtain ⟨r1, c1, x1, y1, ax, ay, k1, i1, i2, i3⟩ := C73_inclusion_exclusion inf ninf (std := std) (hash := hash) ssA ssB hg hap hi hn
  obtain ⟨r2, c2, x2, y2, ax', ay', k2, j1, j2, j3⟩ := C73_inclusion_exclusion inf' ninf' (std := std') (hash := hash') ssB ssA hg' hap' hi' (by rwa [mul_comm])
  have hu : ∀ mode, c1 mode = a mode := fun mode => by
    have e : r1 mode = r mode := Except.ok.inj ((k1 mode).1.symm.trans (h1 mode))
    exact areaOf_inj (e ▸ (k1 mode).2) (h2 mode)
  have hu' : ∀ mode, c2 mode = a' mode := fun mode => by
    have e : r2 mode = r' mode := Except.ok.inj ((k2 mode).1.symm.trans (h1' mode))
    exact areaOf_inj (e ▸ (k2 mode).2) (h2' mode)
  rw [ax] at ay'
  rw [ay] at ax'
  cases ax'
  cases ay'
  simp only [hu] at i1 i2 i3
  simp only [hu'] at j1 j2 j3
  have hsym : ∀ mode, mode ≠ .exclude → a mode = a' mode := by
    intro mode hm
    apply ofReal_inj (h3 mode) (h3' mode)
    rw [← h4, ← h4']
    congr 1
    ext z
    unfold Combined
    simp only [Set.mem_ofPred_eq]
    cases mode <;> simp only [boolOp] <;> first | tauto | exact absurd rfl hm
  have hI := hsym .intersect (by simp)
  refine ⟨r, r', a, a', fun mode => ⟨h1 mode, h2 mode⟩, fun mode => ⟨h1' mode, h2' mode⟩, fun mode hm => ⟨hsym mode hm, fun x hA hB => ?_⟩,
    fun x hA hB => ?_, by linarith, by linarith⟩
  · rw [h5 mode x hA hB, h5' mode x hB hA]
    cases mode <;> simp only [boolOp] <;> first | tauto | exact absurd rfl hm
  · simp only [h5 _ x hA hB, h5' _ x hB hA, boolOp]
    tauto

/-- What the test of two segments that cross clearly reports does not depend on the order. -/
theorem known_symm {A B : Polyline} (ha : ∀ i v1 v2, IsSeg A i v1 v2 → SegOk v1 v2) (hb : ∀ i v1 v2, IsSeg B i v1 v2 → SegOk v1 v2)
    (h : ∀ i j v1 v2 u1 u2, IsSeg A i v1 v2 → IsSeg B j u1 u2 → ClearPair v1 v2 u1 u2) {x : V2} (hx : Known B A x) : Known A B x := by
  rcases hx with ⟨v, hv, rfl⟩ | ⟨i, j, v1, v2, u1, u2, h1, h2, h3⟩
  · exact Or.inl ⟨v, by rw [List.mem_append] at hv ⊢; exact hv.symm, rfl⟩
  · have hc := h j i u1 u2 v1 v2 h2 h1
    obtain ⟨r, e, n, -, m⟩ := C50_exact (ha _ _ _ h2) (hb _ _ _ h1) hc
    obtain ⟨r', e', n', -, m'⟩ := C50_exact (hb _ _ _ h1) (ha _ _ _ h2) (clearPair_symm hc)
    have hin : x ∈ reported r' := by
      rcases h3 with (h3 | ⟨y, h3 | h3⟩) | ⟨y, (h3 | h3) | (h3 | h3)⟩ <;> rw [e'] at h3 <;> cases h3
      · simp [reported]
      · simp [reported]
      · simp [reported]
      · exact absurd rfl (n' x y).1
      · exact absurd rfl (n' x y).2
      · exact absurd rfl (n' y x).1
      · exact absurd rfl (n' y x).2
    have hin2 : x ∈ reported r := (m x).2 ((m' x).1 hin).symm
    refine Or.inr ⟨j, i, u1, u2, v1, v2, h2, h1, Or.inl ?_⟩
    unfold PointHit
    rw [e]
    cases r with
    | noIntersect => simp [reported] at hin2
    | oneIntersect y => simp [reported] at hin2; subst hin2; exact Or.inl rfl
    | twoIntersects y z =>
      simp [reported] at hin2
      rcases hin2 with rfl | rfl
      · exact Or.inr ⟨z, Or.inl rfl⟩
      · exact Or.inr ⟨y, Or.inr rfl⟩
    | segmentOverlap y z => exact absurd rfl (n y z).1
    | arcOverlap y z => exact absurd rfl (n y z).2

theorem disc5_apart' : ArcEndsApart (rect 3 (-8) 10 8) disc5 := fun p hp i v1 v2 hs ha x hx =>
  disc5_apart p hp.symm i v1 v2 hs ha x (known_symm disc5_ok rect_ok (fun _ _ _ _ _ _ h1 h2 => disc5_pair h1 h2) hx)

/-- C79 applied to a disc and a rectangle that cross at (3, 4) and (3, -4). -/
example (inf ninf : ℝ) (std : StdSort) (hash : HashOrder) : ∃ r r' a,
    combinePolylines (codePlatform inf ninf) std hash disc5 (rect 3 (-8) 10 8) .union = .ok r ∧
    combinePolylines (codePlatform inf ninf) std hash (rect 3 (-8) 10 8) disc5 .union = .ok r' ∧ AreaOf r a ∧ AreaOf r' a ∧
    ∀ x, ¬ OnPline disc5 x → ¬ OnPline (rect 3 (-8) 10 8) x → (InResult r x ↔ InResult r' x) := by
  have hr : SimpleCurve (rect 3 (-8) 10 8) := by
    refine simplePolygon_curve (rect_simple (by norm_num) (by norm_num)) fun i v1 v2 h hn => ?_
    rcases rect_seg h with ⟨-, rfl, rfl⟩ | ⟨-, rfl, rfl⟩ | ⟨-, rfl, rfl⟩ | ⟨-, rfl, rfl⟩ <;> norm_num [Near] at hn
  obtain ⟨r, r', a, a', h1, h2, h3, -⟩ := C79_both_orders (inf := inf) (ninf := ninf) (inf' := inf) (ninf' := ninf) (std := std)
    (std' := std) (hash := hash) (hash' := hash) disc5_simple hr disc5_clean disc5_apart disc5_apart' (disc5_indexable inf ninf)
    (rect_indexable inf ninf) (by simp [disc5, rect])
  have e := h3 .union (by simp)
  exact ⟨_, _, _, (h1 _).1, (h2 _).1, (h1 _).2, e.1 ▸ (h2 _).2, e.2⟩

/-- The segments of a closed polyline written down from another vertex. -/
theorem isSeg_rotated {A B : Polyline} (cA : A.isClosed = true) (cB : B.isClosed = true) (h : A.vertexes ~r B.vertexes) :
    ∃ k, ∀ j v e, IsSeg B j v e ↔ j < (segs A).length ∧ IsSeg A ((j + k) % (segs A).length) v e := by
  obtain ⟨k, hk⟩ := segs_rotated cA cB h
  refine ⟨k, fun j v e => ?_⟩
  unfold IsSeg
  by_cases hj : j < (segs A).length
  · rw [← hk, List.getElem?_rotate hj]
    simp [hj]
  · rw [List.getElem?_eq_none (by rw [← hk, List.length_rotate]; omega)]
    simp [hj]

theorem segs_len {A : Polyline} (h : SimpleCurve A) : (segs A).length = A.vertexes.length := by
  rw [segs_length, if_neg (show ¬ A.size < 2 by have := h.two; unfold Polyline.size; omega), if_pos h.closed]
  rfl

theorem mod_succ_inj {n i j k : ℕ} (hj : j < n) (h : (j + k) % n = ((i + k) % n + 1) % n) : j = (i + 1) % n := by
  have h1 : j + k ≡ i + 1 + k [MOD n] := by
    unfold Nat.ModEq
    rw [h, Nat.mod_add_mod]
    congr 1
    ring
  have h2 : j ≡ i + 1 [MOD n] := Nat.ModEq.add_right_cancel' k h1
  unfold Nat.ModEq at h2
  rwa [Nat.mod_eq_of_lt hj] at h2

theorem mod_inj {n i j k : ℕ} (hi : i < n) (hj : j < n) (h : (j + k) % n = (i + k) % n) : j = i := by
  have h2 : j ≡ i [MOD n] := Nat.ModEq.add_right_cancel' k h
  unfold Nat.ModEq at h2
  rwa [Nat.mod_eq_of_lt hj, Nat.mod_eq_of_lt hi] at h2

theorem onPline_rotated {A B : Polyline} (cA : A.isClosed = true) (cB : B.isClosed = true) (h : A.vertexes ~r B.vertexes) (x : V2) :
    OnPline A x ↔ OnPline B x := by
  have key : ∀ {A B : Polyline}, A.isClosed = true → B.isClosed = true → A.vertexes ~r B.vertexes → OnPline B x → OnPline A x := by
    rintro A B cA cB h ⟨j, v, e, hs, ho⟩
    obtain ⟨k, hk⟩ := isSeg_rotated cA cB h
    exact ⟨_, v, e, ((hk _ _ _).1 hs).2, ho⟩
  exact ⟨key cB cA h.symm, key cA cB h⟩

/-- A curve that does not meet itself does not do so when it is written down from another vertex. -/
theorem simpleCurve_rotated {A B : Polyline} (sA : SimpleCurve A) (cB : B.isClosed = true) (h : A.vertexes ~r B.vertexes) :
    SimpleCurve B := by
  have hl : A.vertexes.length = B.vertexes.length := h.perm.length_eq
  obtain ⟨k, hk⟩ := isSeg_rotated sA.closed cB h
  rw [segs_len sA] at hk
  refine ⟨cB, fun i v e hs => sA.ok _ _ _ ((hk _ _ _).1 hs).2, by rw [← hl]; exact sA.two,
    fun i v e hs => sA.distinct _ _ _ ((hk _ _ _).1 hs).2, ?_⟩
  intro i j v1 v2 u1 u2 x h1 h2 hne o1 o2
  rw [hk] at h1 h2
  rw [← hl]
  rcases sA.apart _ _ _ _ _ _ x h1.2 h2.2 (fun e => hne (mod_inj h2.1 h1.1 e)) o1 o2 with ⟨e, ex⟩ | ⟨e, ex⟩
  · exact Or.inl ⟨mod_succ_inj h2.1 e, ex⟩
  · exact Or.inr ⟨mod_succ_inj h1.1 e, ex⟩

theorem cleanMeet_rotated {A B A' : Polyline} (sA : SimpleCurve A) (cA : A'.isClosed = true) (h : A.vertexes ~r A'.vertexes)
    (hg : CleanMeet A B) : CleanMeet A' B := by
  obtain ⟨k, hk⟩ := isSeg_rotated sA.closed cA h
  have ho := onPline_rotated sA.closed cA h
  refine ⟨fun i j v1 v2 u1 u2 h1 h2 h3 => hg.pairs _ j v1 v2 u1 u2 ((hk _ _ _).1 h1).2 h2 h3,
    fun v hv => hg.vertexA v (h.perm.mem_iff.2 hv), fun v hv c => hg.vertexB v hv ((ho _).2 c),
    fun j v e t t' x x' hs h1 h2 => hg.alongA _ v e t t' x x' ((hk _ _ _).1 hs).2 h1 h2,
    fun j v e t t' x x' hs h1 h2 => hg.alongB j v e t t' x x' hs ?_ ?_, ?_⟩
  · exact ⟨h1.1, h1.2.1, h1.2.2.1, by rw [ho]; exact h1.2.2.2⟩
  · exact ⟨h2.1, h2.2.1, h2.2.2.1, by rw [ho]; exact h2.2.2.2⟩
  · rintro i j x i' j' x' ⟨v1, v2, u1, u2, a1, a2, a3, a4⟩ ⟨w1, w2, y1, y2, b1, b2, b3, b4⟩ hne
    rw [hk] at a1 b1
    refine hg.apart _ j x _ j' x' ⟨v1, v2, u1, u2, a1.2, a2, a3, a4⟩ ⟨w1, w2, y1, y2, b1.2, b2, b3, b4⟩ fun e => hne ?_
    simp only [Prod.mk.injEq] at e ⊢
    exact ⟨mod_inj b1.1 a1.1 e.1, e.2⟩

theorem known_rotated {A B A' B' : Polyline} (cA : A.isClosed = true) (cA' : A'.isClosed = true) (cB : B.isClosed = true)
    (cB' : B'.isClosed = true) (hA : A.vertexes ~r A'.vertexes) (hB : B.vertexes ~r B'.vertexes) {x : V2} (h : Known A' B' x) :
    Known A B x := by
  obtain ⟨k, hk⟩ := isSeg_rotated cA cA' hA
  obtain ⟨l, hl⟩ := isSeg_rotated cB cB' hB
  rcases h with ⟨v, hv, rfl⟩ | ⟨i, j, v1, v2, u1, u2, h1, h2, h3⟩
  · refine Or.inl ⟨v, ?_, rfl⟩
    rw [List.mem_append] at hv ⊢
    exact hv.imp (fun h => hA.perm.mem_iff.2 h) (fun h => hB.perm.mem_iff.2 h)
  · exact Or.inr ⟨_, _, v1, v2, u1, u2, ((hk _ _ _).1 h1).2, ((hl _ _ _).1 h2).2, h3⟩

theorem arcEndsApart_rotated {A B A' B' : Polyline} (cA : A.isClosed = true) (cA' : A'.isClosed = true) (cB : B.isClosed = true)
    (cB' : B'.isClosed = true) (hA : A.vertexes ~r A'.vertexes) (hB : B.vertexes ~r B'.vertexes) (h : ArcEndsApart A B) :
    ArcEndsApart A' B' := by
  obtain ⟨k, hk⟩ := isSeg_rotated cA cA' hA
  obtain ⟨l, hl⟩ := isSeg_rotated cB cB' hB
  intro p hp i v1 v2 hs ha x hx
  have hx' := known_rotated cA cA' cB cB' hA hB hx
  rcases hp with rfl | rfl
  · exact h A (Or.inl rfl) _ v1 v2 ((hk _ _ _).1 hs).2 ha x hx'
  · exact h B (Or.inr rfl) _ v1 v2 ((hl _ _ _).1 hs).2 ha x hx'

/-- **C79.** It does not matter from which vertexes the two polylines are written down. -/
theorem C79_rotated {inf ninf inf' ninf' : ℝ} {std std' : StdSort} {hash hash' : HashOrder} {A B A' B' : Polyline}
    (ssA : SimpleCurve A) (ssB : SimpleCurve B) (cA : A'.isClosed = true) (cB : B'.isClosed = true)
    (hA : A.vertexes ~r A'.vertexes) (hB : B.vertexes ~r B'.vertexes) (hg : CleanMeet A B) (hap : ArcEndsApart A B)
    (hi : Indexable (codePlatform inf ninf) A) (hi' : Indexable (codePlatform inf' ninf') A')
    (hn : A.vertexes.length * B.vertexes.length ≤ 10 ^ 6) (mode : CombineMode) :
    ∃ r r' a, combinePolylines (codePlatform inf ninf) std hash A B mode = .ok r ∧
      combinePolylines (codePlatform inf' ninf') std' hash' A' B' mode = .ok r' ∧
      (∀ x, ¬ OnPline A x → ¬ OnPline B x → (InResult r x ↔ InResult r' x)) ∧ AreaOf r a ∧ AreaOf r' a := by
  have hg1 := cleanMeet_rotated ssA cA hA hg
  have hg2 := cleanMeet_symm (cleanMeet_rotated ssB cB hB (cleanMeet_symm hg1))
  exact C79_same_points ssA ssB (simpleCurve_rotated ssA cA hA) (simpleCurve_rotated ssB cB hB) (onPline_rotated ssA.closed cA hA)
    (onPline_rotated ssB.closed cB hB) hg hap hg2 (arcEndsApart_rotated ssA.closed cA ssB.closed cB hA hB hap) hi hi' hn
    (by rw [← hA.perm.length_eq, ← hB.perm.length_eq]; exact hn) mode

/-- The disc and the rectangle, both written down from the next vertex. -/
example (inf ninf : ℝ) (std : StdSort) (hash : HashOrder) : ∃ r r' a,
    combinePolylines (codePlatform inf ninf) std hash disc5 (rect 3 (-8) 10 8) .exclude = .ok r ∧
    combinePolylines (codePlatform inf ninf) std hash ⟨true, [⟨⟨5, 0⟩, 1⟩, ⟨⟨-5, 0⟩, 1⟩]⟩
      ⟨true, [⟨⟨10, -8⟩, 0⟩, ⟨⟨10, 8⟩, 0⟩, ⟨⟨3, 8⟩, 0⟩, ⟨⟨3, -8⟩, 0⟩]⟩ .exclude = .ok r' ∧
    (∀ x, ¬ OnPline disc5 x → ¬ OnPline (rect 3 (-8) 10 8) x → (InResult r x ↔ InResult r' x)) ∧ AreaOf r a ∧ AreaOf r' a :=
  C79_rotated disc5_simple (rect_curve (by norm_num) (by norm_num)) rfl rfl ⟨1, rfl⟩ ⟨1, rfl⟩ disc5_clean disc5_apart
    (disc5_indexable inf ninf) (indexable_code (by simp) (by simp [segs]) _ _ (Or.inl (by simp [segs]))
      (fun i v1 v2 h => (simpleCurve_rotated disc5_simple rfl ⟨1, rfl⟩).ok i v1 v2 h |>.half)) (by simp [disc5, rect]) .exclude

end
end Cavc

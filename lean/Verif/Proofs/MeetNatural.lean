import Verif.Proofs.MeetLoops

/-! The polygons of a part of an operation: which of them a point is inside of. -/
namespace Cavc
open Spec
open scoped Classical
noncomputable section

/-- `x` is not where a part keeps points of the other polygon. -/
def OtherSide (A : Polyline) (i : Bool) (x : V2) : Prop :=
  OffP (ppos A) A.size x ∧ ¬ (polyW (ppos A) A.size x ≠ 0 ↔ i = true)

theorem lerp_lerp (a b : V2) (s t : ℝ) : lerp a (lerp a b s) t = lerp a b (s * t) := by
  ext <;> simp only [lerp] <;> ring

theorem other_segConst {A Q : Polyline} {i : Bool} (hQ : ∀ z, OtherSide A i z → OffP (ppos Q) Q.size z) :
    SegConst (ppos A) A.size fun y => if OtherSide A i y then polyW (ppos Q) Q.size y else 0 := by
  intro a b hab
  have hw : ∀ s, 0 ≤ s → s ≤ 1 → polyW (ppos A) A.size a = polyW (ppos A) A.size (lerp a b s) := by
    intro s s0 s1
    refine polyW_seg (ppos_closed A) _ _ fun t t0 t1 => ?_
    rw [lerp_lerp]
    exact hab _ (mul_nonneg s0 t0) (mul_le_one₀ s1 t0 t1)
  have ho : ∀ s, 0 ≤ s → s ≤ 1 → (OtherSide A i a ↔ OtherSide A i (lerp a b s)) := by
    intro s s0 s1
    have h0 := hab 0 le_rfl zero_le_one
    rw [lerp_zero] at h0
    unfold OtherSide
    rw [hw s s0 s1]
    exact ⟨fun h => ⟨hab s s0 s1, h.2⟩, fun h => ⟨h0, h.2⟩⟩
  have h1 := ho 1 zero_le_one le_rfl
  rw [lerp_one] at h1
  by_cases ha : OtherSide A i a
  · simp only [if_pos ha, if_pos (h1.1 ha)]
    exact polyW_seg (ppos_closed Q) _ _ fun t t0 t1 => hQ _ ((ho t t0 t1).1 ha)
  · simp only [if_neg ha, if_neg (fun h => ha (h1.2 h))]

theorem other_const {A Q : Polyline} {i : Bool} (hsA : SimpleP (ppos A) A.size)
    (hQ : ∀ z, OtherSide A i z → OffP (ppos Q) Q.size z) {x y : V2} (hx : OtherSide A i x) (hy : OtherSide A i y) :
    polyW (ppos Q) Q.size x = polyW (ppos Q) Q.size y := by
  have hW : polyW (ppos A) A.size x = polyW (ppos A) A.size y := by
    obtain ⟨s, hs, -, hval, -⟩ := hsA.once
    have hs0 : s ≠ 0 := by rcases hs with rfl | rfl <;> norm_num
    obtain ⟨x1, x2⟩ := hx
    obtain ⟨y1, y2⟩ := hy
    rcases hval x x1 with q | q <;> rcases hval y y1 with q' | q' <;> rw [q] at x2 ⊢ <;> rw [q'] at y2 ⊢ <;>
      cases i <;> simp [hs0] at x2 y2
  have := hsA.separates (other_segConst hQ) hx.1 hy.1 hW
  change (if OtherSide A i x then polyW (ppos Q) Q.size x else 0) = if OtherSide A i y then polyW (ppos Q) Q.size y else 0 at this
  rwa [if_pos hx, if_pos hy] at this

section
variable {A B : Polyline} {intrs : List PlineIntersect} {sA sB : ℤ} {part : Part} {res : List Polyline}
  {c d : CutPoly} {flip : Bool} {kA kB kB' : List Polyline}

variable (h : MeetSetup A B intrs sA sB part res c d flip kA kB kB') (hsA : SimpleP (ppos A) A.size)
  (hsB : SimpleP (ppos B) B.size)
  (hX : ∀ z ∈ intrs.map PlineIntersect.pos, ¬ OffP (ppos A) A.size z ∧ ¬ OffP (ppos B) B.size z)
include h hsA hsB hX

/-- Where nothing is kept each of the polygons winds the same number of times. -/
theorem MeetSetup.const {q : Polyline} (hq : q ∈ res) : ∃ k, ∀ x, OtherSide A part.insideA x ∨ OtherSide B part.insideB x →
    polyW (ppos q) q.size x = k := by
  obtain ⟨w, w1, w2, w3, w4⟩ := h.other_point hsA hsB
  have hA : ∀ z, OtherSide A part.insideA z → OffP (ppos q) q.size z := by
    intro z hz
    by_contra hn
    rcases (h.state hsA hsB hX hq hn).1 with g | g
    · exact g hz.1
    · exact hz.2 g
  have hB : ∀ z, OtherSide B part.insideB z → OffP (ppos q) q.size z := by
    intro z hz
    by_contra hn
    rcases (h.state hsA hsB hX hq hn).2.1 with g | g
    · exact g hz.1
    · exact hz.2 g
  refine ⟨polyW (ppos q) q.size w, fun x hx => ?_⟩
  rcases hx with hx | hx
  · exact other_const hsA hA hx ⟨w1, w3⟩
  · exact other_const hsB hB hx ⟨w2, w4⟩

/-- The directions of the polygons. -/
theorem MeetSetup.loop {T δ : ℤ} (hδ : δ = 1 ∨ δ = -1) (hT : ∀ x, OffP (ppos A) A.size x → OffP (ppos B) B.size x →
      (res.map fun q => polyW (ppos q) q.size x).sum = if (polyW (ppos A) A.size x ≠ 0 ↔ part.insideA = true) ∧
        (polyW (ppos B) B.size x ≠ 0 ↔ part.insideB = true) then T + δ else T)
    {q : Polyline} (hq : q ∈ res) : ∃ s k : ℤ, ((k = 0 ∧ s = δ) ∨ (k = s ∧ s = -δ)) ∧ 0 < s * shoelace (ppos q) q.size ∧
      (∀ x, OffP (ppos q) q.size x → polyW (ppos q) q.size x = 0 ∨ polyW (ppos q) q.size x = s) ∧
      ∀ x, OtherSide A part.insideA x ∨ OtherSide B part.insideB x → polyW (ppos q) q.size x = k := by
  obtain ⟨k, hk⟩ := h.const hsA hsB hX hq
  obtain ⟨s, hs, hpos, hval, -⟩ := ((h.simple hsA hsB).1 q hq).once
  refine ⟨s, k, ?_, hpos, hval, hk⟩
  obtain ⟨l1, l2, x, y, hres, ax, bx, ay, yb, hoth, hxy⟩ := h.beside hsA hsB hq
  have hoff : ∀ {z}, OffP (ppos A) A.size z → OffP (ppos B) B.size z → OffP (ppos q) q.size z := by
    intro z a b
    by_contra hn
    rcases (h.state hsA hsB hX hq hn).2.2 with g | g
    · exact g a
    · exact g b
  have hdiff : polyW (ppos q) q.size x - polyW (ppos q) q.size y =
      (res.map fun q => polyW (ppos q) q.size x).sum - (res.map fun q => polyW (ppos q) q.size y).sum := by
    have e : ∀ z, (res.map fun q => polyW (ppos q) q.size z).sum =
        polyW (ppos q) q.size z + ((l1 ++ l2).map fun q => polyW (ppos q) q.size z).sum := by
      intro z
      rw [hres]
      simp only [List.map_append, List.map_cons, List.sum_append, List.sum_cons]
      ring
    have e2 : ((l1 ++ l2).map fun q => polyW (ppos q) q.size x) = (l1 ++ l2).map fun q => polyW (ppos q) q.size y :=
      List.map_congr_left hoth
    rw [e x, e y, e2]
    ring
  rw [hT x ax bx, hT y ay yb] at hdiff
  have vx := hval x (hoff ax bx)
  have vy := hval y (hoff ay yb)
  -- one of the two points is where something is kept
  have key : (polyW (ppos q) q.size x - k = δ ∧ polyW (ppos q) q.size y = k) ∨
      (polyW (ppos q) q.size y - k = δ ∧ polyW (ppos q) q.size x = k) := by
    rcases hxy with ⟨a1, a2, a3, a4⟩ | ⟨a1, a2, a3, a4⟩
    · cases hi : part.insideA with
      | true =>
        left
        have hy' := hk y (Or.inl ⟨ay, by rw [hi]; simp [a2]⟩)
        rw [if_pos ⟨by rw [hi]; simp [a1], a3⟩, if_neg (fun g => by have := g.1; rw [hi] at this; simp [a2] at this)] at hdiff
        exact ⟨by linarith, hy'⟩
      | false =>
        right
        have hx' := hk x (Or.inl ⟨ax, by rw [hi]; simp [a1]⟩)
        rw [if_neg (fun g => by have := g.1; rw [hi] at this; simp [a1] at this), if_pos ⟨by rw [hi]; simp [a2], a4⟩] at hdiff
        exact ⟨by linarith, hx'⟩
    · cases hi : part.insideB with
      | true =>
        left
        have hy' := hk y (Or.inr ⟨yb, by rw [hi]; simp [a2]⟩)
        rw [if_pos ⟨a3, by rw [hi]; simp [a1]⟩, if_neg (fun g => by have := g.2; rw [hi] at this; simp [a2] at this)] at hdiff
        exact ⟨by linarith, hy'⟩
      | false =>
        right
        have hx' := hk x (Or.inr ⟨bx, by rw [hi]; simp [a1]⟩)
        rw [if_neg (fun g => by have := g.2; rw [hi] at this; simp [a1] at this), if_pos ⟨a4, by rw [hi]; simp [a2]⟩] at hdiff
        exact ⟨by linarith, hx'⟩
  rcases hδ with rfl | rfl <;> rcases hs with rfl | rfl <;> omega

/-- A far point. -/
theorem MeetSetup.far : ∃ x, OffP (ppos A) A.size x ∧ OffP (ppos B) B.size x ∧ polyW (ppos A) A.size x = 0 ∧
    polyW (ppos B) B.size x = 0 ∧ ∀ q ∈ res, polyW (ppos q) q.size x = 0 := by
  have hm : ∀ (Qs : List Polyline), ∃ m : ℝ, ∀ Q ∈ Qs, ∀ k ≤ Q.size, (ppos Q k).y < m := by
    intro Qs
    induction Qs with
    | nil => exact ⟨0, by simp⟩
    | cons Q Qs ih =>
      obtain ⟨m, hm⟩ := ih
      obtain ⟨k, -, hk⟩ := Finset.exists_max_image (Finset.range (Q.size + 1)) (fun k => (ppos Q k).y) ⟨0, by simp⟩
      refine ⟨max m ((ppos Q k).y + 1), fun R hR i hi => ?_⟩
      rcases List.mem_cons.1 hR with rfl | hR
      · refine lt_of_lt_of_le (lt_of_le_of_lt (hk i (Finset.mem_range.2 (by omega))) (lt_add_one _)) (le_max_right _ _)
      · exact lt_of_lt_of_le (hm R hR i hi) (le_max_left _ _)
  obtain ⟨m, hm⟩ := hm (A :: B :: res)
  have hfar : ∀ Q ∈ A :: B :: res, OffP (ppos Q) Q.size ⟨0, m⟩ ∧ polyW (ppos Q) Q.size ⟨0, m⟩ = 0 := fun Q hQ =>
    polyW_above (fun k hk => hm Q hQ _ hk) (hm Q hQ 0 (by omega))
  refine ⟨⟨0, m⟩, (hfar A (by simp)).1, (hfar B (by simp)).1, (hfar A (by simp)).2, (hfar B (by simp)).2, fun q hq => ?_⟩
  exact (hfar q (by simp [hq])).2

omit h hsA hsB hX in
theorem sum_count {α : Type} {w : α → ℤ} {δ : ℤ} (hδ : δ = 1 ∨ δ = -1) {l : List α} (hl : ∀ q ∈ l, w q = 0 ∨ w q = δ) :
    (l.map w).sum = δ * (l.filter fun q => w q ≠ 0).length := by
  have hδ0 : δ ≠ 0 := by rcases hδ with rfl | rfl <;> norm_num
  induction l with
  | nil => simp
  | cons a l ih =>
    have := ih fun q hq => hl q (List.mem_cons_of_mem _ hq)
    rcases hl a List.mem_cons_self with g | g
    · rw [List.map_cons, List.sum_cons, this, List.filter_cons, g]
      simp
    · rw [List.map_cons, List.sum_cons, this, List.filter_cons, g]
      simp only [ne_eq, hδ0, not_false_eq_true, decide_true, if_true, List.length_cons]
      push_cast
      ring

/-- A part that is not a union: the polygons go all in the same direction, and a point is inside of one
of them at most. -/
theorem MeetSetup.parts {δ : ℤ} (hδ : δ = 1 ∨ δ = -1) (hp : part.insideA = true ∨ part.insideB = true)
    (hT : ∀ x, OffP (ppos A) A.size x → OffP (ppos B) B.size x →
      (res.map fun q => polyW (ppos q) q.size x).sum = if (polyW (ppos A) A.size x ≠ 0 ↔ part.insideA = true) ∧
        (polyW (ppos B) B.size x ≠ 0 ↔ part.insideB = true) then δ else 0) :
    (∀ q ∈ res, 0 < δ * shoelace (ppos q) q.size) ∧
    ∀ x, OffP (ppos A) A.size x → OffP (ppos B) B.size x →
      (res.filter fun q => polyW (ppos q) q.size x ≠ 0).length = if (polyW (ppos A) A.size x ≠ 0 ↔ part.insideA = true) ∧
        (polyW (ppos B) B.size x ≠ 0 ↔ part.insideB = true) then 1 else 0 := by
  have hδ0 : δ ≠ 0 := by rcases hδ with rfl | rfl <;> norm_num
  obtain ⟨f, f1, f2, f3, f4, f5⟩ := h.far hsA hsB hX
  have hq : ∀ q ∈ res, 0 < δ * shoelace (ppos q) q.size ∧
      ∀ x, OffP (ppos q) q.size x → polyW (ppos q) q.size x = 0 ∨ polyW (ppos q) q.size x = δ := by
    intro q hq
    obtain ⟨s, k, hsk, hpos, hval, hk⟩ := h.loop hsA hsB hX hδ (T := 0) (by simpa only [zero_add] using hT) hq
    have := hk f (by
      rcases hp with g | g
      · exact Or.inl ⟨f1, by rw [g]; simp [f3]⟩
      · exact Or.inr ⟨f2, by rw [g]; simp [f4]⟩)
    rw [f5 q hq] at this
    obtain rfl : s = δ := by
      rcases hsk with g | g
      · exact g.2
      · omega
    exact ⟨by exact_mod_cast hpos, hval⟩
  refine ⟨fun q hq' => (hq q hq').1, fun x xA xB => ?_⟩
  have e := sum_count (w := fun q => polyW (ppos q) q.size x) hδ (l := res) (fun q hq' => (hq q hq').2 x (by
    by_contra hn
    rcases (h.state hsA hsB hX hq' hn).2.2 with g | g
    · exact g xA
    · exact g xB))
  rw [hT x xA xB] at e
  split_ifs at e ⊢
  · have : ((res.filter fun q => polyW (ppos q) q.size x ≠ 0).length : ℤ) = 1 := by
      have h1 : δ * (((res.filter fun q => polyW (ppos q) q.size x ≠ 0).length : ℤ) - 1) = 0 := by rw [mul_sub, ← e]; ring
      rcases mul_eq_zero.1 h1 with g | g
      · exact absurd g hδ0
      · omega
    exact_mod_cast this
  · rcases mul_eq_zero.1 e.symm with g | g
    · exact absurd g hδ0
    · exact_mod_cast g

/-- A union: one of the polygons goes around all, the other ones are holes in it. -/
theorem MeetSetup.union (hsA1 : sA = 1 ∨ sA = -1) (hp : part.insideA = false ∧ part.insideB = false)
    (hT : ∀ x, OffP (ppos A) A.size x → OffP (ppos B) B.size x →
      (res.map fun q => polyW (ppos q) q.size x).sum = if polyW (ppos A) A.size x ≠ 0 ∨
        polyW (ppos B) B.size x ≠ 0 then sA else 0) :
    ∃ l1 o l2, res = l1 ++ o :: l2 ∧ 0 < sA * shoelace (ppos o) o.size ∧ (∀ q ∈ l1 ++ l2, sA * shoelace (ppos q) q.size < 0) ∧
    ∀ x, OffP (ppos A) A.size x → OffP (ppos B) B.size x →
      ((polyW (ppos A) A.size x ≠ 0 ∨ polyW (ppos B) B.size x ≠ 0) ↔ polyW (ppos o) o.size x ≠ 0 ∧
        ∀ q ∈ l1 ++ l2, polyW (ppos q) q.size x = 0) ∧
      ((l1 ++ l2).filter fun q => polyW (ppos q) q.size x ≠ 0).length ≤ 1 ∧
      ∀ q ∈ l1 ++ l2, polyW (ppos q) q.size x ≠ 0 → polyW (ppos o) o.size x ≠ 0 := by
  obtain ⟨hpa, hpb⟩ := hp
  have hs0 : sA ≠ 0 := by rcases hsA1 with rfl | rfl <;> norm_num
  have hδ : -sA = 1 ∨ -sA = -1 := by rcases hsA1 with rfl | rfl <;> simp
  have hoff : ∀ q ∈ res, ∀ x, OffP (ppos A) A.size x → OffP (ppos B) B.size x → OffP (ppos q) q.size x := by
    intro q hq x xA xB
    by_contra hn
    rcases (h.state hsA hsB hX hq hn).2.2 with g | g
    · exact g xA
    · exact g xB
  have hloop : ∀ q ∈ res, ∃ s k : ℤ, ((k = 0 ∧ s = -sA) ∨ (k = sA ∧ s = sA)) ∧ 0 < s * shoelace (ppos q) q.size ∧
      (∀ x, OffP (ppos q) q.size x → polyW (ppos q) q.size x = 0 ∨ polyW (ppos q) q.size x = s) ∧
      ∀ x, OtherSide A part.insideA x ∨ OtherSide B part.insideB x → polyW (ppos q) q.size x = k := by
    intro q hq
    obtain ⟨s, k, hsk, h1, h2, h3⟩ := h.loop hsA hsB hX hδ (T := sA) (by
      intro x xA xB
      rw [hT x xA xB, hpa, hpb]
      by_cases ha : polyW (ppos A) A.size x = 0 <;> by_cases hb : polyW (ppos B) B.size x = 0 <;> simp [ha, hb]) hq
    exact ⟨s, k, by omega, h1, h2, h3⟩
  have hother : ∀ {x}, OffP (ppos A) A.size x → OffP (ppos B) B.size x → polyW (ppos A) A.size x ≠ 0 ∨
      polyW (ppos B) B.size x ≠ 0 → OtherSide A part.insideA x ∨ OtherSide B part.insideB x := by
    intro x xA xB hx
    rcases hx with hx | hx
    · exact Or.inl ⟨xA, by rw [hpa]; simp [hx]⟩
    · exact Or.inr ⟨xB, by rw [hpb]; simp [hx]⟩
  -- a point of the union
  obtain ⟨w, w1, w2, w3, -⟩ := h.other_point hsA hsB
  have ww : polyW (ppos A) A.size w ≠ 0 := by rw [hpa] at w3; simpa using w3
  have hwv : ∀ q ∈ res, polyW (ppos q) q.size w = 0 ∨ polyW (ppos q) q.size w = sA := by
    intro q hq
    obtain ⟨s, k, hsk, -, -, hk⟩ := hloop q hq
    rw [hk w (hother w1 w2 (Or.inl ww))]
    omega
  have hcount := sum_count (w := fun q => polyW (ppos q) q.size w) hsA1 hwv
  rw [hT w w1 w2, if_pos (Or.inl ww)] at hcount
  have hone : (res.filter fun q => polyW (ppos q) q.size w ≠ 0).length = 1 := by
    have h1 : sA * (((res.filter fun q => polyW (ppos q) q.size w ≠ 0).length : ℤ) - 1) = 0 := by rw [mul_sub, ← hcount]; ring
    rcases mul_eq_zero.1 h1 with g | g
    · exact absurd g hs0
    · have : ((res.filter fun q => polyW (ppos q) q.size w ≠ 0).length : ℤ) = 1 := by omega
      exact_mod_cast this
  obtain ⟨o, ho⟩ := List.length_eq_one_iff.1 hone
  have hom : o ∈ res.filter fun q => polyW (ppos q) q.size w ≠ 0 := by rw [ho]; simp
  obtain ⟨ho1, ho2⟩ := List.mem_filter.1 hom
  simp only [ne_eq, decide_not, Bool.not_eq_eq_eq_not, Bool.not_true, decide_eq_false_iff_not] at ho2
  obtain ⟨l1, l2, hres⟩ := List.append_of_mem ho1
  have hholes : ∀ q ∈ l1 ++ l2, q ∈ res ∧ polyW (ppos q) q.size w = 0 := by
    intro q hq
    have hqr : q ∈ res := by
      rw [hres]
      rcases List.mem_append.1 hq with g | g <;> simp [g]
    refine ⟨hqr, ?_⟩
    by_contra hn
    rw [hres, List.filter_append, List.filter_cons, if_pos (by simpa using ho2)] at hone
    simp only [List.length_append, List.length_cons] at hone
    rcases List.mem_append.1 hq with g | g
    · have : 0 < (l1.filter fun q => polyW (ppos q) q.size w ≠ 0).length :=
        List.length_pos_of_mem (List.mem_filter.2 ⟨g, by simpa using hn⟩)
      omega
    · have : 0 < (l2.filter fun q => polyW (ppos q) q.size w ≠ 0).length :=
        List.length_pos_of_mem (List.mem_filter.2 ⟨g, by simpa using hn⟩)
      omega
  -- the values
  obtain ⟨so, ko, hsk, hpos, hvalo, hko⟩ := hloop o ho1
  have hko' := hko w (hother w1 w2 (Or.inl ww))
  obtain ⟨eso, eko⟩ : so = sA ∧ ko = sA := by
    rw [hko'] at ho2
    rcases hsk with g | g
    · exact absurd g.1 ho2
    · exact ⟨g.2, g.1⟩
  rw [eko] at hko
  rw [eso] at hpos hvalo
  have hh : ∀ q ∈ l1 ++ l2, sA * shoelace (ppos q) q.size < 0 ∧
      (∀ x, OffP (ppos q) q.size x → polyW (ppos q) q.size x = 0 ∨ polyW (ppos q) q.size x = -sA) ∧
      ∀ x, OtherSide A part.insideA x ∨ OtherSide B part.insideB x → polyW (ppos q) q.size x = 0 := by
    intro q hq
    obtain ⟨hqr, hqw⟩ := hholes q hq
    obtain ⟨s, k, hsk, h1, h2, h3⟩ := hloop q hqr
    have := h3 w (hother w1 w2 (Or.inl ww))
    rw [hqw] at this
    obtain ⟨rfl, rfl⟩ : s = -sA ∧ k = 0 := by omega
    refine ⟨?_, h2, h3⟩
    push_cast at h1
    linarith
  refine ⟨l1, o, l2, hres, hpos, fun q hq => (hh q hq).1, fun x xA xB => ?_⟩
  have hsum : (res.map fun q => polyW (ppos q) q.size x).sum = polyW (ppos o) o.size x +
      -sA * ((l1 ++ l2).filter fun q => polyW (ppos q) q.size x ≠ 0).length := by
    rw [← sum_count (w := fun q => polyW (ppos q) q.size x) hδ (fun q hq => (hh q hq).2.1 x (hoff q (hholes q hq).1 x xA xB)),
      hres]
    simp only [List.map_append, List.map_cons, List.sum_append, List.sum_cons]
    ring
  rw [hT x xA xB] at hsum
  by_cases hin : polyW (ppos A) A.size x ≠ 0 ∨ polyW (ppos B) B.size x ≠ 0
  · have e1 := hko x (hother xA xB hin)
    have e2 : ∀ q ∈ l1 ++ l2, polyW (ppos q) q.size x = 0 := fun q hq => (hh q hq).2.2 x (hother xA xB hin)
    refine ⟨iff_of_true hin ⟨by rw [e1]; exact hs0, e2⟩, ?_, fun q hq hn => absurd (e2 q hq) hn⟩
    rw [List.filter_eq_nil_iff.2 (fun q hq => by simp [e2 q hq])]
    simp
  · rw [if_neg hin] at hsum
    have hlen : ((l1 ++ l2).filter fun q => polyW (ppos q) q.size x ≠ 0).length = if polyW (ppos o) o.size x ≠ 0 then 1 else 0 := by
      rcases hvalo x (hoff o ho1 x xA xB) with g | g
      · rw [g] at hsum ⊢
        rw [if_neg (by simp)]
        have : sA * ((l1 ++ l2).filter fun q => polyW (ppos q) q.size x ≠ 0).length = 0 := by linarith
        rcases mul_eq_zero.1 this with g | g
        · exact absurd g hs0
        · exact_mod_cast g
      · rw [g] at hsum ⊢
        rw [if_pos hs0]
        have : sA * ((((l1 ++ l2).filter fun q => polyW (ppos q) q.size x ≠ 0).length : ℤ) - 1) = 0 := by linarith
        rcases mul_eq_zero.1 this with g | g
        · exact absurd g hs0
        · have : (((l1 ++ l2).filter fun q => polyW (ppos q) q.size x ≠ 0).length : ℤ) = 1 := by omega
          exact_mod_cast this
    have hmem : ∀ q ∈ l1 ++ l2, polyW (ppos q) q.size x ≠ 0 → polyW (ppos o) o.size x ≠ 0 := by
      intro q hq hn
      have : 0 < ((l1 ++ l2).filter fun q => polyW (ppos q) q.size x ≠ 0).length :=
        List.length_pos_of_mem (List.mem_filter.2 ⟨hq, by simpa using hn⟩)
      by_contra hno
      rw [hlen, if_neg (not_not.2 hno)] at this
      exact lt_irrefl _ this
    refine ⟨iff_of_false hin ?_, by rw [hlen]; split_ifs <;> omega, hmem⟩
    rintro ⟨g1, g2⟩
    rw [if_pos g1, List.filter_eq_nil_iff.2 (fun q hq => by simp [g2 q hq])] at hlen
    simp at hlen

end
end
end Cavc

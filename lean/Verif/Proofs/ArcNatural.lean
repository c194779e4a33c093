import Verif.Proofs.ArcCurves
import Verif.Proofs.MeetNatural
import Verif.Props.SimpleCurve

/-! The polylines of a part of an operation on polylines with arcs: what is beside them, and which of them a point is
inside of. -/
namespace Cavc
open Spec
open scoped Classical
open Filter Topology
noncomputable section

/-- `x` is not on the polyline. -/
def OffC (p : Polyline) (x : V2) : Prop := ¬ OnPline p x

/-- What `getArea` gives. -/
def sArea (p : Polyline) : ℝ := match getArea p with
  | .ok a => a
  | .error _ => 0

theorem _root_.Cavc.Spec.SimpleCurve.once {p : Polyline} (h : SimpleCurve p) : ∃ s : ℤ, (s = 1 ∨ s = -1) ∧
    0 < s * sArea p ∧ ∀ x, OffC p x → arcW p x = 0 ∨ arcW p x = s := by
  obtain ⟨s, hs, ⟨a, ha, hpos, -⟩, hval, -⟩ := C72_simple h
  refine ⟨s, hs, ?_, fun x hx => ?_⟩
  · unfold sArea
    rw [ha]
    exact hpos
  · have := hval x hx
    rw [getWinding_arcW h.ok h.closed h.two' hx] at this
    simpa only [Except.ok.injEq] using this

/-- Two points beside a segment of a polyline that does not meet itself, one inside and one outside. -/
theorem _root_.Cavc.Spec.SimpleCurve.two_points {p : Polyline} (hs : SimpleCurve p) {k : ℕ} (hk : k < p.size) {t : ℝ}
    (t0 : 0 < t) (t1 : t < 1) {z : V2} (hz : z = segPt (rv p k) (rv p (k + 1)) t) {Qs : List Polyline}
    (hQ : ∀ Q ∈ Qs, SimpleCurve Q ∧ OffC Q z) :
    ∃ x y, OffC p x ∧ OffC p y ∧ arcW p x ≠ 0 ∧ arcW p y = 0 ∧ ∀ Q ∈ Qs,
      (OffC Q x ∧ arcW Q x = arcW Q z) ∧ (OffC Q y ∧ arcW Q y = arcW Q z) := by
  obtain ⟨s, hs1, K, K', hj, hsK, hside, hval⟩ := hs.values
  have hall : ∀ᶠ y in 𝓝 (xy z), ∀ Q ∈ Qs, OffC Q (toV y) ∧ arcW Q (toV y) = arcW Q z := by
    clear hside
    induction Qs with
    | nil => simp
    | cons Q Qs ih =>
      have h1 := ih fun R hR => hQ R (List.mem_cons_of_mem _ hR)
      obtain ⟨sQ, oQ⟩ := hQ Q List.mem_cons_self
      have h2 := arcW_near sQ.ok sQ.closed sQ.two' (z := xy z) (by rw [toV_xy]; exact oQ)
      rw [toV_xy] at h2
      filter_upwards [h1, h2] with y h1 h2 R hR
      rcases List.mem_cons.1 hR with rfl | hR
      · exact h2
      · exact h1 R hR
  rw [hz] at hall
  obtain ⟨⟨y, ⟨q, qa⟩, o, l⟩, y', ⟨q', qa'⟩, o', l'⟩ := hs.side_points hk t0 t1 ((hside k hk t t0 t1).and hall)
  rw [← hz] at qa qa'
  have v : arcW p (toV y) = K := by
    rcases q o with ⟨-, q⟩ | ⟨q, -⟩
    · exact q
    · exact absurd q (not_lt.2 l.le)
  have v' : arcW p (toV y') = K' := by
    rcases q' o' with ⟨q, -⟩ | ⟨-, q⟩
    · exact absurd q (not_lt.2 l'.le)
    · exact q
  rcases hsK with ⟨rfl, rfl⟩ | ⟨rfl, rfl⟩
  · exact ⟨toV y, toV y', o, o', by rw [v]; norm_num, by rw [v']; omega, fun Q h => ⟨qa Q h, qa' Q h⟩⟩
  · exact ⟨toV y', toV y, o', o, by rw [v']; omega, v, fun Q h => ⟨qa' Q h, qa Q h⟩⟩

section
variable {A B : Polyline} {intrs : List PlineIntersect} {sA sB : ℤ} {part : Part} {res : List Polyline}
  {csA : List Cut} {TA : Cut → ℝ} {gA : ℕ → ℝ} {βA : ℕ → ℤ} {csB : List Cut} {TB : Cut → ℝ} {gB : ℕ → ℝ} {βB : ℕ → ℤ}
  {flip : Bool} {kA kB kB' : List Polyline}

variable (h : ArcSetup A B intrs sA sB part res csA TA gA βA csB TB gB βB flip kA kB kB') (hsA : SimpleCurve A)
  (hsB : SimpleCurve B)
include h hsA hsB

/-- Beside each of the polylines there are two points between which there is only it and one of the two
given polylines. -/
theorem ArcSetup.beside {q : Polyline} (hq : q ∈ res) : ∃ l1 l2 x y, res = l1 ++ q :: l2 ∧
    OffC A x ∧ OffC B x ∧ OffC A y ∧ OffC B y ∧
    (∀ q' ∈ l1 ++ l2, arcW q' x = arcW q' y) ∧
    ((arcW A x ≠ 0 ∧ arcW A y = 0 ∧
      (arcW B x ≠ 0 ↔ part.insideB = true) ∧ (arcW B y ≠ 0 ↔ part.insideB = true)) ∨
     (arcW B x ≠ 0 ∧ arcW B y = 0 ∧
      (arcW A x ≠ 0 ↔ part.insideA = true) ∧ (arcW A y ≠ 0 ↔ part.insideA = true))) := by
  obtain ⟨l1, l2, hres⟩ := List.append_of_mem hq
  obtain ⟨hsim, hdis⟩ := h.simple hsA hsB
  have hmem : ∀ q' ∈ l1 ++ l2, q' ∈ res := by
    intro q' hq'
    rw [hres]
    rcases List.mem_append.1 hq' with g | g <;> simp [g]
  have hoth : ∀ z, OnPline q z → ∀ q' ∈ l1 ++ l2, OffC q' z := by
    intro z hz q' hq' hz'
    rw [hres, List.pairwise_append, List.pairwise_cons] at hdis
    rcases List.mem_append.1 hq' with g | g
    · exact hdis.2.2 q' g q List.mem_cons_self z ⟨hz', hz⟩
    · exact hdis.2.1.1 q' g z ⟨hz, hz'⟩
  obtain ⟨hqc, h2⟩ := h.shape q hq
  obtain ⟨e, he⟩ : ∃ e, e ∈ cEdges q := by
    obtain ⟨e, he, -⟩ := (onPline_cEdges hqc h2).1 (⟨_, _, _, rv_seg hqc h2 0, onSeg_start _ _⟩ : OnPline q (rv q 0).pos)
    exact ⟨e, he⟩
  rcases h.mem_edges hq he with g | g
  · obtain ⟨-, z, k, t, o, hk, t0, t1, ez, hoff, hst⟩ := h.first.inner hsA hsB g
    have hzq : OnPline q z := (onPline_cEdges hqc h2).2 ⟨e, he, o⟩
    obtain ⟨x, y, x1, y1, x2, y2, hQ⟩ := hsA.two_points hk t0 t1 ez (Qs := B :: (l1 ++ l2)) (by
      intro Q hQ
      rcases List.mem_cons.1 hQ with rfl | hQ
      · exact ⟨hsB, hoff⟩
      · exact ⟨hsim Q (hmem Q hQ), hoth z hzq Q hQ⟩)
    obtain ⟨⟨bx1, bx2⟩, by1, by2⟩ := hQ B List.mem_cons_self
    refine ⟨l1, l2, x, y, hres, x1, bx1, y1, by1, ?_, Or.inl ⟨x2, y2, by rw [bx2]; exact hst, by rw [by2]; exact hst⟩⟩
    intro q' hq'
    obtain ⟨⟨-, a⟩, -, b⟩ := hQ q' (List.mem_cons_of_mem _ hq')
    rw [a, b]
  · obtain ⟨-, z, k, t, o, hk, t0, t1, ez, hoff, hst⟩ := h.second.inner hsB hsA g
    have hzq : OnPline q z := (onPline_cEdges hqc h2).2 ⟨e, he, eOn_turned.1 o⟩
    obtain ⟨x, y, x1, y1, x2, y2, hQ⟩ := hsB.two_points hk t0 t1 ez (Qs := A :: (l1 ++ l2)) (by
      intro Q hQ
      rcases List.mem_cons.1 hQ with rfl | hQ
      · exact ⟨hsA, hoff⟩
      · exact ⟨hsim Q (hmem Q hQ), hoth z hzq Q hQ⟩)
    obtain ⟨⟨bx1, bx2⟩, by1, by2⟩ := hQ A List.mem_cons_self
    refine ⟨l1, l2, x, y, hres, bx1, x1, by1, y1, ?_, Or.inr ⟨x2, y2, by rw [bx2]; exact hst, by rw [by2]; exact hst⟩⟩
    intro q' hq'
    obtain ⟨⟨-, a⟩, -, b⟩ := hQ q' (List.mem_cons_of_mem _ hq')
    rw [a, b]

/-- There is a point on the other sides of both polylines. -/
theorem ArcSetup.other_point (hsB1 : sB = 1 ∨ sB = -1) : ∃ w, OffC A w ∧ OffC B w ∧
    ¬ (arcW A w ≠ 0 ↔ part.insideA = true) ∧ ¬ (arcW B w ≠ 0 ↔ part.insideB = true) := by
  obtain ⟨z, k, t, hk, t0, t1, ez, hoff, hst⟩ := h.first.not_kept hsB1 hsA hsB
  obtain ⟨x, y, x1, y1, x2, y2, hQ⟩ := hsA.two_points hk t0 t1 ez (Qs := [B]) (by
    intro Q hQ
    rw [List.mem_singleton] at hQ
    subst hQ
    exact ⟨hsB, hoff⟩)
  obtain ⟨⟨bx1, bx2⟩, by1, by2⟩ := hQ B (List.mem_singleton.2 rfl)
  cases hi : part.insideA with
  | true =>
    refine ⟨y, y1, by1, by simp [y2], ?_⟩
    rw [by2]; exact hst
  | false =>
    refine ⟨x, x1, bx1, by simp [x2], ?_⟩
    rw [bx2]; exact hst
end

/-- `x` is not where a part keeps points of the other polyline. -/
def OtherSideC (A : Polyline) (i : Bool) (x : V2) : Prop := OffC A x ∧ ¬ (arcW A x ≠ 0 ↔ i = true)

theorem otherC_connConst {A Q : Polyline} {i : Bool} (hsA : SimpleCurve A) (hsQ : SimpleCurve Q)
    (hQ : ∀ z, OtherSideC A i z → OffC Q z) :
    ConnConst A fun y => if OtherSideC A i (toV y) then arcW Q (toV y) else 0 := by
  intro S hS hoff z hz z' hz'
  have ho : ∀ y ∈ S, (OtherSideC A i (toV y) ↔ OtherSideC A i (toV z)) := by
    intro y hy
    have := hsA.arcW_conn S hS hoff y hy z hz
    have this : arcW A (toV y) = arcW A (toV z) := this
    unfold OtherSideC
    rw [this]
    exact ⟨fun h => ⟨hoff z hz, h.2⟩, fun h => ⟨hoff y hy, h.2⟩⟩
  by_cases ha : OtherSideC A i (toV z)
  · simp only [if_pos ha, if_pos ((ho z' hz').2 ha)]
    exact hsQ.arcW_conn S hS (fun y hy => hQ _ ((ho y hy).2 ha)) z hz z' hz'
  · simp only [if_neg ha, if_neg (fun h => ha ((ho z' hz').1 h))]

theorem otherC_const {A Q : Polyline} {i : Bool} (hsA : SimpleCurve A) (hsQ : SimpleCurve Q)
    (hQ : ∀ z, OtherSideC A i z → OffC Q z) {x y : V2} (hx : OtherSideC A i x) (hy : OtherSideC A i y) :
    arcW Q x = arcW Q y := by
  have hW : arcW A x = arcW A y := by
    obtain ⟨s, hs, -, hval⟩ := hsA.once
    have hs0 : s ≠ 0 := by rcases hs with rfl | rfl <;> norm_num
    obtain ⟨x1, x2⟩ := hx
    obtain ⟨y1, y2⟩ := hy
    rcases hval x x1 with q | q <;> rcases hval y y1 with q' | q' <;> rw [q] at x2 ⊢ <;> rw [q'] at y2 ⊢ <;>
      cases i <;> simp [hs0] at x2 y2
  have := hsA.separates (otherC_connConst hsA hsQ hQ) hx.1 hy.1 hW
  change (if OtherSideC A i x then arcW Q x else 0) = if OtherSideC A i y then arcW Q y else 0 at this
  rwa [if_pos hx, if_pos hy] at this

section
variable {A B : Polyline} {intrs : List PlineIntersect} {sA sB : ℤ} {part : Part} {res : List Polyline}
  {csA : List Cut} {TA : Cut → ℝ} {gA : ℕ → ℝ} {βA : ℕ → ℤ} {csB : List Cut} {TB : Cut → ℝ} {gB : ℕ → ℝ} {βB : ℕ → ℤ}
  {flip : Bool} {kA kB kB' : List Polyline}

variable (h : ArcSetup A B intrs sA sB part res csA TA gA βA csB TB gB βB flip kA kB kB') (hsA : SimpleCurve A)
  (hsB : SimpleCurve B) (hX : ∀ z ∈ intrs.map PlineIntersect.pos, OnPline A z ∧ OnPline B z)
include h hsA hsB hX

theorem ArcSetup.state' {q : Polyline} (hq : q ∈ res) {z : V2} (hz : ¬ OffC q z) :
    (¬ OffC A z ∨ (arcW A z ≠ 0 ↔ part.insideA = true)) ∧ (¬ OffC B z ∨ (arcW B z ≠ 0 ↔ part.insideB = true)) ∧
    (¬ OffC A z ∨ ¬ OffC B z) := by
  unfold OffC at *
  simp only [not_not] at *
  exact h.state hsA hsB hX hq hz

variable (hsB1 : sB = 1 ∨ sB = -1)
include hsB1

/-- Where nothing is kept each of the polylines winds the same number of times. -/
theorem ArcSetup.const {q : Polyline} (hq : q ∈ res) : ∃ k, ∀ x, OtherSideC A part.insideA x ∨ OtherSideC B part.insideB x →
    arcW q x = k := by
  obtain ⟨w, w1, w2, w3, w4⟩ := h.other_point hsA hsB hsB1
  have hsq := (h.simple hsA hsB).1 q hq
  have hA : ∀ z, OtherSideC A part.insideA z → OffC q z := by
    intro z hz
    by_contra hn
    rcases (h.state' hsA hsB hX hq hn).1 with g | g
    · exact g hz.1
    · exact hz.2 g
  have hB : ∀ z, OtherSideC B part.insideB z → OffC q z := by
    intro z hz
    by_contra hn
    rcases (h.state' hsA hsB hX hq hn).2.1 with g | g
    · exact g hz.1
    · exact hz.2 g
  refine ⟨arcW q w, fun x hx => ?_⟩
  rcases hx with hx | hx
  · exact otherC_const hsA hsq hA hx ⟨w1, w3⟩
  · exact otherC_const hsB hsq hB hx ⟨w2, w4⟩

/-- The directions of the polylines. -/
theorem ArcSetup.loop {T δ : ℤ} (hδ : δ = 1 ∨ δ = -1) (hT : ∀ x, OffC A x → OffC B x →
      (res.map fun q => arcW q x).sum = if (arcW A x ≠ 0 ↔ part.insideA = true) ∧
        (arcW B x ≠ 0 ↔ part.insideB = true) then T + δ else T)
    {q : Polyline} (hq : q ∈ res) : ∃ s k : ℤ, ((k = 0 ∧ s = δ) ∨ (k = s ∧ s = -δ)) ∧ 0 < s * sArea q ∧
      (∀ x, OffC q x → arcW q x = 0 ∨ arcW q x = s) ∧
      ∀ x, OtherSideC A part.insideA x ∨ OtherSideC B part.insideB x → arcW q x = k := by
  obtain ⟨k, hk⟩ := h.const hsA hsB hX hsB1 hq
  obtain ⟨s, hs, hpos, hval⟩ := ((h.simple hsA hsB).1 q hq).once
  refine ⟨s, k, ?_, hpos, hval, hk⟩
  obtain ⟨l1, l2, x, y, hres, ax, bx, ay, yb, hoth, hxy⟩ := h.beside hsA hsB hq
  have hoff : ∀ {z}, OffC A z → OffC B z → OffC q z := by
    intro z a b
    by_contra hn
    rcases (h.state' hsA hsB hX hq hn).2.2 with g | g
    · exact g a
    · exact g b
  have hdiff : arcW q x - arcW q y =
      (res.map fun q => arcW q x).sum - (res.map fun q => arcW q y).sum := by
    have e : ∀ z, (res.map fun q => arcW q z).sum =
        arcW q z + ((l1 ++ l2).map fun q => arcW q z).sum := by
      intro z
      rw [hres]
      simp only [List.map_append, List.map_cons, List.sum_append, List.sum_cons]
      ring
    have e2 : ((l1 ++ l2).map fun q => arcW q x) = (l1 ++ l2).map fun q => arcW q y :=
      List.map_congr_left hoth
    rw [e x, e y, e2]
    ring
  rw [hT x ax bx, hT y ay yb] at hdiff
  have vx := hval x (hoff ax bx)
  have vy := hval y (hoff ay yb)
  -- one of the two points is where something is kept
  have key : (arcW q x - k = δ ∧ arcW q y = k) ∨
      (arcW q y - k = δ ∧ arcW q x = k) := by
    rcases hxy with ⟨a1, a2, a3, a4⟩ | ⟨a1, a2, a3, a4⟩
    · cases hi : part.insideA with
      | true =>
        left
        have hy' := hk y (Or.inl ⟨ay, by rw [hi]; simp [a2]⟩)
        rw [if_pos ⟨by rw [hi]; simp [a1], a3⟩, if_neg (fun g => by have := g.1; rw [hi] at this; simp [a2] at this)] at hdiff
        exact ⟨by linarith, hy'⟩
      | false =>
        right
        have hx' := hk x (Or.inl ⟨ax, by rw [hi]; simp [a1]⟩)
        rw [if_neg (fun g => by have := g.1; rw [hi] at this; simp [a1] at this), if_pos ⟨by rw [hi]; simp [a2], a4⟩] at hdiff
        exact ⟨by linarith, hx'⟩
    · cases hi : part.insideB with
      | true =>
        left
        have hy' := hk y (Or.inr ⟨yb, by rw [hi]; simp [a2]⟩)
        rw [if_pos ⟨a3, by rw [hi]; simp [a1]⟩, if_neg (fun g => by have := g.2; rw [hi] at this; simp [a2] at this)] at hdiff
        exact ⟨by linarith, hy'⟩
      | false =>
        right
        have hx' := hk x (Or.inr ⟨bx, by rw [hi]; simp [a1]⟩)
        rw [if_neg (fun g => by have := g.2; rw [hi] at this; simp [a1] at this), if_pos ⟨a4, by rw [hi]; simp [a2]⟩] at hdiff
        exact ⟨by linarith, hx'⟩
  rcases hδ with rfl | rfl <;> rcases hs with rfl | rfl <;> omega

omit hsB1 in
/-- A far point. -/
theorem ArcSetup.far : ∃ x, OffC A x ∧ OffC B x ∧ arcW A x = 0 ∧ arcW B x = 0 ∧ ∀ q ∈ res, arcW q x = 0 := by
  have hsim := (h.simple hsA hsB).1
  have hm : ∀ (Qs : List Polyline), (∀ Q ∈ Qs, SimpleCurve Q) → ∃ m : ℝ, ∀ Q ∈ Qs, ∀ y, OnPline Q y → y.x < m := by
    intro Qs
    induction Qs with
    | nil => exact fun _ => ⟨0, by simp⟩
    | cons Q Qs ih =>
      intro hQ
      obtain ⟨m, hm⟩ := ih fun R hR => hQ R (List.mem_cons_of_mem _ hR)
      obtain ⟨m', hm'⟩ := beyond_off (hQ Q List.mem_cons_self).closed (hQ Q List.mem_cons_self).two
      refine ⟨max m m', fun R hR y hy => ?_⟩
      rcases List.mem_cons.1 hR with rfl | hR
      · exact lt_of_lt_of_le (hm' y hy) (le_max_right _ _)
      · exact lt_of_lt_of_le (hm R hR y hy) (le_max_left _ _)
  have hall : ∀ Q ∈ A :: B :: res, SimpleCurve Q := by
    intro Q hQ
    rcases List.mem_cons.1 hQ with rfl | hQ
    · exact hsA
    rcases List.mem_cons.1 hQ with rfl | hQ
    · exact hsB
    · exact hsim Q hQ
  obtain ⟨m, hm⟩ := hm (A :: B :: res) hall
  have hfar : ∀ Q ∈ A :: B :: res, OffC Q ⟨m, 0⟩ ∧ arcW Q ⟨m, 0⟩ = 0 := by
    intro Q hQ
    have hs := hall Q hQ
    have ho : OffC Q ⟨m, 0⟩ := fun ho => lt_irrefl _ (hm Q hQ _ ho)
    refine ⟨ho, ?_⟩
    have := arcW_eq hs.ok hs.closed hs.two' ho
    rw [turnAll_right hs.ok hs.closed hs.two' (x := ⟨m, 0⟩) (hm Q hQ), zero_div] at this
    exact_mod_cast this.symm
  refine ⟨⟨m, 0⟩, (hfar A (by simp)).1, (hfar B (by simp)).1, (hfar A (by simp)).2, (hfar B (by simp)).2, fun q hq => ?_⟩
  exact (hfar q (by simp [hq])).2

/-- A part that is not a union: the polylines go all in the same direction, and a point is inside of one
of them at most. -/
theorem ArcSetup.parts {δ : ℤ} (hδ : δ = 1 ∨ δ = -1) (hp : part.insideA = true ∨ part.insideB = true)
    (hT : ∀ x, OffC A x → OffC B x →
      (res.map fun q => arcW q x).sum = if (arcW A x ≠ 0 ↔ part.insideA = true) ∧
        (arcW B x ≠ 0 ↔ part.insideB = true) then δ else 0) :
    (∀ q ∈ res, 0 < δ * sArea q) ∧
    ∀ x, OffC A x → OffC B x →
      (res.filter fun q => arcW q x ≠ 0).length = if (arcW A x ≠ 0 ↔ part.insideA = true) ∧
        (arcW B x ≠ 0 ↔ part.insideB = true) then 1 else 0 := by
  have hδ0 : δ ≠ 0 := by rcases hδ with rfl | rfl <;> norm_num
  obtain ⟨f, f1, f2, f3, f4, f5⟩ := h.far hsA hsB hX
  have hq : ∀ q ∈ res, 0 < δ * sArea q ∧
      ∀ x, OffC q x → arcW q x = 0 ∨ arcW q x = δ := by
    intro q hq
    obtain ⟨s, k, hsk, hpos, hval, hk⟩ := h.loop hsA hsB hX hsB1 hδ (T := 0) (by simpa only [zero_add] using hT) hq
    have := hk f (by
      rcases hp with g | g
      · exact Or.inl ⟨f1, by rw [g]; simp [f3]⟩
      · exact Or.inr ⟨f2, by rw [g]; simp [f4]⟩)
    rw [f5 q hq] at this
    obtain rfl : s = δ := by
      rcases hsk with g | g
      · exact g.2
      · omega
    exact ⟨by exact_mod_cast hpos, hval⟩
  refine ⟨fun q hq' => (hq q hq').1, fun x xA xB => ?_⟩
  have e := sum_count (w := fun q => arcW q x) hδ (l := res) (fun q hq' => (hq q hq').2 x (by
    by_contra hn
    rcases (h.state' hsA hsB hX hq' hn).2.2 with g | g
    · exact g xA
    · exact g xB))
  rw [hT x xA xB] at e
  split_ifs at e ⊢
  · have : ((res.filter fun q => arcW q x ≠ 0).length : ℤ) = 1 := by
      have h1 : δ * (((res.filter fun q => arcW q x ≠ 0).length : ℤ) - 1) = 0 := by rw [mul_sub, ← e]; ring
      rcases mul_eq_zero.1 h1 with g | g
      · exact absurd g hδ0
      · omega
    exact_mod_cast this
  · rcases mul_eq_zero.1 e.symm with g | g
    · exact absurd g hδ0
    · exact_mod_cast g

/-- A union: one of the polylines goes around all, the other ones are holes in it. -/
theorem ArcSetup.union (hsA1 : sA = 1 ∨ sA = -1) (hp : part.insideA = false ∧ part.insideB = false)
    (hT : ∀ x, OffC A x → OffC B x →
      (res.map fun q => arcW q x).sum = if arcW A x ≠ 0 ∨
        arcW B x ≠ 0 then sA else 0) :
    ∃ l1 o l2, res = l1 ++ o :: l2 ∧ 0 < sA * sArea o ∧ (∀ q ∈ l1 ++ l2, sA * sArea q < 0) ∧
    ∀ x, OffC A x → OffC B x →
      ((arcW A x ≠ 0 ∨ arcW B x ≠ 0) ↔ arcW o x ≠ 0 ∧
        ∀ q ∈ l1 ++ l2, arcW q x = 0) ∧
      ((l1 ++ l2).filter fun q => arcW q x ≠ 0).length ≤ 1 ∧
      ∀ q ∈ l1 ++ l2, arcW q x ≠ 0 → arcW o x ≠ 0 := by
  obtain ⟨hpa, hpb⟩ := hp
  have hs0 : sA ≠ 0 := by rcases hsA1 with rfl | rfl <;> norm_num
  have hδ : -sA = 1 ∨ -sA = -1 := by rcases hsA1 with rfl | rfl <;> simp
  have hoff : ∀ q ∈ res, ∀ x, OffC A x → OffC B x → OffC q x := by
    intro q hq x xA xB
    by_contra hn
    rcases (h.state' hsA hsB hX hq hn).2.2 with g | g
    · exact g xA
    · exact g xB
  have hloop : ∀ q ∈ res, ∃ s k : ℤ, ((k = 0 ∧ s = -sA) ∨ (k = sA ∧ s = sA)) ∧ 0 < s * sArea q ∧
      (∀ x, OffC q x → arcW q x = 0 ∨ arcW q x = s) ∧
      ∀ x, OtherSideC A part.insideA x ∨ OtherSideC B part.insideB x → arcW q x = k := by
    intro q hq
    obtain ⟨s, k, hsk, h1, h2, h3⟩ := h.loop hsA hsB hX hsB1 hδ (T := sA) (by
      intro x xA xB
      rw [hT x xA xB, hpa, hpb]
      by_cases ha : arcW A x = 0 <;> by_cases hb : arcW B x = 0 <;> simp [ha, hb]) hq
    exact ⟨s, k, by omega, h1, h2, h3⟩
  have hother : ∀ {x}, OffC A x → OffC B x → arcW A x ≠ 0 ∨
      arcW B x ≠ 0 → OtherSideC A part.insideA x ∨ OtherSideC B part.insideB x := by
    intro x xA xB hx
    rcases hx with hx | hx
    · exact Or.inl ⟨xA, by rw [hpa]; simp [hx]⟩
    · exact Or.inr ⟨xB, by rw [hpb]; simp [hx]⟩
  -- a point of the union
  obtain ⟨w, w1, w2, w3, -⟩ := h.other_point hsA hsB hsB1
  have ww : arcW A w ≠ 0 := by rw [hpa] at w3; simpa using w3
  have hwv : ∀ q ∈ res, arcW q w = 0 ∨ arcW q w = sA := by
    intro q hq
    obtain ⟨s, k, hsk, -, -, hk⟩ := hloop q hq
    rw [hk w (hother w1 w2 (Or.inl ww))]
    omega
  have hcount := sum_count (w := fun q => arcW q w) hsA1 hwv
  rw [hT w w1 w2, if_pos (Or.inl ww)] at hcount
  have hone : (res.filter fun q => arcW q w ≠ 0).length = 1 := by
    have h1 : sA * (((res.filter fun q => arcW q w ≠ 0).length : ℤ) - 1) = 0 := by rw [mul_sub, ← hcount]; ring
    rcases mul_eq_zero.1 h1 with g | g
    · exact absurd g hs0
    · have : ((res.filter fun q => arcW q w ≠ 0).length : ℤ) = 1 := by omega
      exact_mod_cast this
  obtain ⟨o, ho⟩ := List.length_eq_one_iff.1 hone
  have hom : o ∈ res.filter fun q => arcW q w ≠ 0 := by rw [ho]; simp
  obtain ⟨ho1, ho2⟩ := List.mem_filter.1 hom
  simp only [ne_eq, decide_not, Bool.not_eq_eq_eq_not, Bool.not_true, decide_eq_false_iff_not] at ho2
  obtain ⟨l1, l2, hres⟩ := List.append_of_mem ho1
  have hholes : ∀ q ∈ l1 ++ l2, q ∈ res ∧ arcW q w = 0 := by
    intro q hq
    have hqr : q ∈ res := by
      rw [hres]
      rcases List.mem_append.1 hq with g | g <;> simp [g]
    refine ⟨hqr, ?_⟩
    by_contra hn
    rw [hres, List.filter_append, List.filter_cons, if_pos (by simpa using ho2)] at hone
    simp only [List.length_append, List.length_cons] at hone
    rcases List.mem_append.1 hq with g | g
    · have : 0 < (l1.filter fun q => arcW q w ≠ 0).length :=
        List.length_pos_of_mem (List.mem_filter.2 ⟨g, by simpa using hn⟩)
      omega
    · have : 0 < (l2.filter fun q => arcW q w ≠ 0).length :=
        List.length_pos_of_mem (List.mem_filter.2 ⟨g, by simpa using hn⟩)
      omega
  -- the values
  obtain ⟨so, ko, hsk, hpos, hvalo, hko⟩ := hloop o ho1
  have hko' := hko w (hother w1 w2 (Or.inl ww))
  obtain ⟨eso, eko⟩ : so = sA ∧ ko = sA := by
    rw [hko'] at ho2
    rcases hsk with g | g
    · exact absurd g.1 ho2
    · exact ⟨g.2, g.1⟩
  rw [eko] at hko
  rw [eso] at hpos hvalo
  have hh : ∀ q ∈ l1 ++ l2, sA * sArea q < 0 ∧
      (∀ x, OffC q x → arcW q x = 0 ∨ arcW q x = -sA) ∧
      ∀ x, OtherSideC A part.insideA x ∨ OtherSideC B part.insideB x → arcW q x = 0 := by
    intro q hq
    obtain ⟨hqr, hqw⟩ := hholes q hq
    obtain ⟨s, k, hsk, h1, h2, h3⟩ := hloop q hqr
    have := h3 w (hother w1 w2 (Or.inl ww))
    rw [hqw] at this
    obtain ⟨rfl, rfl⟩ : s = -sA ∧ k = 0 := by omega
    refine ⟨?_, h2, h3⟩
    push_cast at h1
    linarith
  refine ⟨l1, o, l2, hres, hpos, fun q hq => (hh q hq).1, fun x xA xB => ?_⟩
  have hsum : (res.map fun q => arcW q x).sum = arcW o x +
      -sA * ((l1 ++ l2).filter fun q => arcW q x ≠ 0).length := by
    rw [← sum_count (w := fun q => arcW q x) hδ (fun q hq => (hh q hq).2.1 x (hoff q (hholes q hq).1 x xA xB)),
      hres]
    simp only [List.map_append, List.map_cons, List.sum_append, List.sum_cons]
    ring
  rw [hT x xA xB] at hsum
  by_cases hin : arcW A x ≠ 0 ∨ arcW B x ≠ 0
  · have e1 := hko x (hother xA xB hin)
    have e2 : ∀ q ∈ l1 ++ l2, arcW q x = 0 := fun q hq => (hh q hq).2.2 x (hother xA xB hin)
    refine ⟨iff_of_true hin ⟨by rw [e1]; exact hs0, e2⟩, ?_, fun q hq hn => absurd (e2 q hq) hn⟩
    rw [List.filter_eq_nil_iff.2 (fun q hq => by simp [e2 q hq])]
    simp
  · rw [if_neg hin] at hsum
    have hlen : ((l1 ++ l2).filter fun q => arcW q x ≠ 0).length = if arcW o x ≠ 0 then 1 else 0 := by
      rcases hvalo x (hoff o ho1 x xA xB) with g | g
      · rw [g] at hsum ⊢
        rw [if_neg (by simp)]
        have : sA * ((l1 ++ l2).filter fun q => arcW q x ≠ 0).length = 0 := by linarith
        rcases mul_eq_zero.1 this with g | g
        · exact absurd g hs0
        · exact_mod_cast g
      · rw [g] at hsum ⊢
        rw [if_pos hs0]
        have : sA * ((((l1 ++ l2).filter fun q => arcW q x ≠ 0).length : ℤ) - 1) = 0 := by linarith
        rcases mul_eq_zero.1 this with g | g
        · exact absurd g hs0
        · have : (((l1 ++ l2).filter fun q => arcW q x ≠ 0).length : ℤ) = 1 := by omega
          exact_mod_cast this
    have hmem : ∀ q ∈ l1 ++ l2, arcW q x ≠ 0 → arcW o x ≠ 0 := by
      intro q hq hn
      have : 0 < ((l1 ++ l2).filter fun q => arcW q x ≠ 0).length :=
        List.length_pos_of_mem (List.mem_filter.2 ⟨hq, by simpa using hn⟩)
      by_contra hno
      rw [hlen, if_neg (not_not.2 hno)] at this
      exact lt_irrefl _ this
    refine ⟨iff_of_false hin ?_, by rw [hlen]; split_ifs <;> omega, hmem⟩
    rintro ⟨g1, g2⟩
    rw [if_pos g1, List.filter_eq_nil_iff.2 (fun q hq => by simp [g2 q hq])] at hlen
    simp at hlen

end
end
end Cavc

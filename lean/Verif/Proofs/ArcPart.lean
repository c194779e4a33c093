import Verif.Proofs.ArcSetup

/-! What the polylines of one part of an operation on polylines with arcs wind around a point. -/
namespace Cavc
open Spec
open scoped Classical Topology
noncomputable section

variable {A B : Polyline} {intrs : List PlineIntersect}

/-- The winding number of a closed polyline. -/
def arcW (p : Polyline) (x : V2) : ℤ := round (turnAll p x / (2 * Real.pi))

theorem arcW_eq {p : Polyline} (hok : PlineOk p) (hc : p.isClosed = true) (h2 : 2 ≤ p.size) {x : V2} (h : ¬ OnPline p x) :
    turnAll p x / (2 * Real.pi) = arcW p x := by
  obtain ⟨k, hk⟩ := turnAll_int hok hc h2 h
  unfold arcW
  rw [hk, round_intCast]

theorem ArcSides.cut_pos {s : ℤ} {cs : List Cut} {T : Cut → ℝ} {g : ℕ → ℝ} {β : ℕ → ℤ} (h : ArcSides A B intrs s cs T g β)
    (hne : cs ≠ []) {i : ℕ} (hi : i ≤ cs.length) : ∃ y ∈ intrs, y.pos = trace A (g i) := by
  have hN : 0 < cs.length := List.length_pos_iff.2 hne
  rcases Nat.eq_zero_or_pos i with rfl | h0
  · obtain ⟨y, hy, h1, h2, -⟩ := h.jump (cs.length - 1) (by omega)
    rw [Nat.sub_add_cancel hN, Nat.mod_self] at h2
    rw [Nat.sub_add_cancel hN] at h1
    exact ⟨y, hy, h1.trans h2⟩
  · obtain ⟨y, hy, h1, -⟩ := h.jump (i - 1) (by omega)
    rw [Nat.sub_add_cancel h0] at h1
    exact ⟨y, hy, h1⟩

/-- The parts as pieces of a curve. -/
def arcPiece (p : Polyline) (g : ℕ → ℝ) (i : ℕ) : Piece :=
  if h : 0 ≤ g i ∧ g i ≤ g (i + 1) then pathPiece p (g i) (g (i + 1)) h.1 h.2 else pathPiece p 0 0 le_rfl le_rfl

theorem arcPiece_eq {p : Polyline} {g : ℕ → ℝ} {i : ℕ} (h0 : 0 ≤ g i) (h1 : g i ≤ g (i + 1)) :
    (arcPiece p g i).on = pathSet p (g i) (g (i + 1)) ∧
    ∀ z, (arcPiece p g i).T z = turnPath p (toV z) (g i) (g (i + 1)) / (2 * Real.pi) := by
  unfold arcPiece
  rw [dif_pos ⟨h0, h1⟩]
  exact ⟨rfl, fun _ => rfl⟩

section
variable {s : ℤ} {cs : List Cut} {T : Cut → ℝ} {g : ℕ → ℝ} {β : ℕ → ℤ}

theorem CutPos.bounds {p : Polyline} (h : CutPos p cs T g) (hne : cs ≠ []) {i : ℕ} (hi : i < cs.length) :
    0 ≤ g i ∧ g i ≤ g (i + 1) :=
  ⟨((h.nonneg hne).trans_le (h.le (Nat.zero_le i) hi.le)).le, (h.mono i hi).le⟩

theorem off_pieces {p : Polyline} (h : CutPos p cs T g) (hc : p.isClosed = true) (h2 : 2 ≤ p.size) (hne : cs ≠ [])
    {z : ℝ × ℝ} : OffAll (Finset.range cs.length) (arcPiece p g) z ↔ ¬ OnPline p (toV z) := by
  unfold OffAll
  constructor
  · rintro hz ho
    obtain ⟨u, u0, u1, hu⟩ := (onPline_trace hc h2).1 ho
    obtain ⟨i, hi, u', h0, h1, he⟩ := h.cover hne u0 u1
    obtain ⟨b0, b1⟩ := h.bounds hne hi
    apply hz i (Finset.mem_range.2 hi)
    rw [(arcPiece_eq b0 b1).1]
    exact ⟨u', ⟨h0, h1⟩, by
      show xy (trace p u') = z
      rw [he, ← hu, xy_toV]⟩
  · intro ho i hi hz
    rw [Finset.mem_range] at hi
    obtain ⟨b0, b1⟩ := h.bounds hne hi
    rw [(arcPiece_eq b0 b1).1] at hz
    obtain ⟨u, ⟨u0, -⟩, rfl⟩ := hz
    apply ho
    show OnPline p (toV (xy (trace p u)))
    rw [toV_xy]
    exact trace_onPline hc h2 (b0.trans u0)

theorem sum_pieces_T {p : Polyline} (h : CutPos p cs T g) (hc : p.isClosed = true) (h2 : 2 ≤ p.size) (hne : cs ≠ [])
    {z : ℝ × ℝ} (hz : ¬ OnPline p (toV z)) :
    ∑ i ∈ Finset.range cs.length, (arcPiece p g i).T z = turnAll p (toV z) / (2 * Real.pi) := by
  rw [← sum_turnPath h hne (x := toV z) (fun u hu he => hz (he ▸ trace_onPline hc h2 hu)), Finset.sum_div]
  refine Finset.sum_congr rfl fun i hi => ?_
  obtain ⟨b0, b1⟩ := h.bounds hne (Finset.mem_range.1 hi)
  exact (arcPiece_eq b0 b1).2 z

theorem sum_pieces_β {p : Polyline} (h : CutPos p cs T g) (hne : cs ≠ []) (z : ℝ × ℝ) :
    ∑ i ∈ Finset.range cs.length, (β i : ℝ) * (arcPiece p g i).T z = arcSided p cs.length g β (toV z) / (2 * Real.pi) := by
  unfold arcSided
  rw [Finset.sum_div]
  refine Finset.sum_congr rfl fun i hi => ?_
  obtain ⟨b0, b1⟩ := h.bounds hne (Finset.mem_range.1 hi)
  rw [(arcPiece_eq b0 b1).2 z]
  ring

/-- On a part, except at the crossings, the winding number of the other polyline is the one of the part. -/
theorem piece_side (h : ArcSides A B intrs s cs T g β) (hne : cs ≠ []) {i : ℕ} (hi : i < cs.length) {z : ℝ × ℝ}
    (hz : z ∈ (arcPiece A g i).on) (hn : ∀ y ∈ intrs, z ≠ xy y.pos) :
    ¬ OnPline B (toV z) ∧ turnAll B (toV z) / (2 * Real.pi) = β i := by
  obtain ⟨b0, b1⟩ := h.pos.bounds hne hi
  rw [(arcPiece_eq b0 b1).1] at hz
  obtain ⟨u, ⟨u0, u1⟩, rfl⟩ := hz
  have key : ∀ j ≤ cs.length, u ≠ g j := by
    rintro j hj rfl
    obtain ⟨y, hy, he⟩ := h.cut_pos hne hj
    exact hn y hy (by rw [he])
  have := h.off i hi u (lt_of_le_of_ne u0 (key i hi.le).symm) (lt_of_le_of_ne u1 (key (i + 1) hi))
  show ¬ OnPline B (toV (xy (trace A u))) ∧ turnAll B (toV (xy (trace A u))) / (2 * Real.pi) = β i
  rwa [toV_xy]

end

/-- The parts of both polylines, each one with the side it is on, make the product of the winding numbers. -/
theorem arc_mul (hm : ArcMeet A B intrs) {sA sB : ℤ} {csA : List Cut} {TA : Cut → ℝ} {gA : ℕ → ℝ} {βA : ℕ → ℤ}
    {csB : List Cut} {TB : Cut → ℝ} {gB : ℕ → ℝ} {βB : ℕ → ℤ} (hc : ArcSides A B intrs sB csA TA gA βA) (hcn : csA ≠ [])
    (hd : ArcSides B A (intrs.map swapI) sA csB TB gB βB) (hdn : csB ≠ [])
    (hint : ∀ x, ¬ OnPline A x → ¬ OnPline B x → ∃ k : ℤ, arcSided A csA.length gA βA x / (2 * Real.pi) +
      arcSided B csB.length gB βB x / (2 * Real.pi) = k)
    {x : V2} (hxA : ¬ OnPline A x) (hxB : ¬ OnPline B x) :
    arcSided A csA.length gA βA x / (2 * Real.pi) + arcSided B csB.length gB βB x / (2 * Real.pi) =
      turnAll A x / (2 * Real.pi) * (turnAll B x / (2 * Real.pi)) := by
  have oA := fun z => off_pieces (z := z) hc.pos hm.closed.1 hm.size.1 hcn
  have oB := fun z => off_pieces (z := z) hd.pos hm.closed.2 hm.size.2 hdn
  have hcut : (xy '' {p | ∃ y ∈ intrs, p = y.pos}).Countable := by
    apply Set.Finite.countable
    apply Set.Finite.image
    refine (List.finite_toSet (intrs.map PlineIntersect.pos)).subset ?_
    rintro p ⟨y, hy, rfl⟩
    exact List.mem_map.2 ⟨y, hy, rfl⟩
  have := curves_mul (E := Finset.range csA.length) (F := Finset.range csB.length) (a := arcPiece A gA) (b := arcPiece B gB)
    (β := fun i => (βA i : ℝ)) (α := fun i => (βB i : ℝ)) hcut
    (by
      intro z hz
      rw [oA] at hz
      rw [sum_pieces_T hc.pos hm.closed.1 hm.size.1 hcn hz]
      exact turnAll_int hm.ok.1 hm.closed.1 hm.size.1 hz)
    (by
      intro z hz
      rw [oB] at hz
      rw [sum_pieces_T hd.pos hm.closed.2 hm.size.2 hdn hz]
      exact turnAll_int hm.ok.2 hm.closed.2 hm.size.2 hz)
    (by
      intro i hi z hz hn
      obtain ⟨h1, h2⟩ := piece_side hc hcn (Finset.mem_range.1 hi) hz
        (by rintro y hy rfl; exact hn ⟨y.pos, ⟨y, hy, rfl⟩, rfl⟩)
      refine ⟨(oB z).2 h1, ?_⟩
      rw [sum_pieces_T hd.pos hm.closed.2 hm.size.2 hdn h1, h2])
    (by
      intro i hi z hz hn
      obtain ⟨h1, h2⟩ := piece_side hd hdn (Finset.mem_range.1 hi) hz
        (by
          rintro y hy rfl
          obtain ⟨y', hy', rfl⟩ := List.mem_map.1 hy
          exact hn ⟨y'.pos, ⟨y', hy', rfl⟩, rfl⟩)
      refine ⟨(oA z).2 h1, ?_⟩
      rw [sum_pieces_T hc.pos hm.closed.1 hm.size.1 hcn h1, h2])
    (by
      intro z hz hz'
      rw [oA] at hz
      rw [oB] at hz'
      rw [sum_pieces_β hc.pos hcn, sum_pieces_β hd.pos hdn]
      exact hint _ hz hz')
    (z := xy x) ((oA _).2 (by rwa [toV_xy])) ((oB _).2 (by rwa [toV_xy]))
  rw [sum_pieces_β hc.pos hcn, sum_pieces_β hd.pos hdn, sum_pieces_T hc.pos hm.closed.1 hm.size.1 hcn (by rwa [toV_xy]),
    sum_pieces_T hd.pos hm.closed.2 hm.size.2 hdn (by rwa [toV_xy]), toV_xy] at this
  exact this

set_option maxHeartbeats 1000000 in
/-- A part of an operation on polylines that cross. -/
theorem arc_part (hm : ArcMeet A B intrs) (hne : intrs ≠ []) {sA sB : ℤ} (hsA : sA = 1 ∨ sA = -1) (hsB : sB = 1 ∨ sB = -1)
    (honceA : ∀ x, ¬ OnPline A x → ∀ k, Winding A x k → k = 0 ∨ k = sA)
    (honceB : ∀ x, ¬ OnPline B x → ∀ k, Winding B x k → k = 0 ∨ k = sB)
    (hturn : SameTurn A B ↔ sA = sB) {part : Part} (hpart : part.opposite = (part.insideA != part.insideB))
    {res : List Polyline} (h : PartResult A B intrs ⟨[], [], [], []⟩ part res) :
    (∀ q ∈ res, q.isClosed = true ∧ PlineOk q ∧ 2 ≤ q.size ∧ ∀ x, OnPline q x → OnPline A x ∨ OnPline B x) ∧
    ∀ x, ¬ OnPline A x → ¬ OnPline B x → ∃ P Q : ℤ, P + Q = arcW A x * arcW B x ∧
      (res.map fun q => arcW q x).sum =
        (if part.insideB = true then sB * P else arcW A x - sB * P) +
        (if part.opposite = true then -1 else 1) * (sA * sB) *
        (if part.insideA = true then sA * Q else arcW B x - sA * Q) := by
  obtain ⟨csA, TA, gA, βA, csB, TB, gB, βB, flip, kA, kB, kB', hs⟩ := arc_setup hm hne hsA hsB honceA honceB hturn hpart h
  have hc := hs.first
  have hd := hs.second
  have hflip' := hs.flip_iff
  -- the segments
  have eA : ∀ q ∈ kA, ∀ e ∈ vEdges q.vertexes, eOk e ∧ ∀ x, eOn x e → OnPline A x := by
    intro q hq e he
    obtain ⟨i, hi, hal⟩ := hc.along q hq
    refine ⟨along_edges hal e he, fun x hx => ?_⟩
    obtain ⟨u, u0, -, rfl⟩ := (hal.onPline (hc.two q hq) x).1 (onPline_vEdges.2 ⟨e, he, hx⟩)
    exact trace_onPline hm.closed.1 hm.size.1 ((hc.pos.bounds hc.some hi).1.trans u0)
  have eB : ∀ q ∈ kB, ∀ e ∈ vEdges q.vertexes, eOk e ∧ ∀ x, eOn x e → OnPline B x := by
    intro q hq e he
    obtain ⟨i, hi, hal⟩ := hd.along q hq
    refine ⟨along_edges hal e he, fun x hx => ?_⟩
    obtain ⟨u, u0, -, rfl⟩ := (hal.onPline (hd.two q hq) x).1 (onPline_vEdges.2 ⟨e, he, hx⟩)
    exact trace_onPline hm.closed.2 hm.size.2 ((hd.pos.bounds hd.some hi).1.trans u0)
  have eB' : ∀ q ∈ kB', ∀ e ∈ vEdges q.vertexes, eOk e ∧ ∀ x, eOn x e → OnPline B x := by
    intro q' hq' e he
    have h1 : vEdges q'.vertexes ∈ kB'.map fun q => vEdges q.vertexes := List.mem_map.2 ⟨q', hq', rfl⟩
    rw [hs.turned_edges] at h1
    obtain ⟨q, hq, e1⟩ := List.mem_map.1 h1
    rw [← e1] at he
    unfold turnedEdges at he
    by_cases hf : flip = true
    · rw [if_pos hf, List.mem_reverse, List.mem_map] at he
      obtain ⟨e', he', rfl⟩ := he
      obtain ⟨h2, h3⟩ := eB q hq e' he'
      exact ⟨eOk_flip h2, fun x hx => h3 x (eOn_flip.1 hx)⟩
    · rw [if_neg hf] at he
      exact eB q hq e he
  have eR : ∀ q ∈ res, ∀ e ∈ cEdges q, eOk e ∧ ∀ x, eOn x e → OnPline A x ∨ OnPline B x := by
    intro q hq e he
    have h1 : e ∈ (res.map fun q => cEdges q).flatten := List.mem_flatten.2 ⟨_, List.mem_map.2 ⟨q, hq, rfl⟩, he⟩
    obtain ⟨l, hl, he'⟩ := List.mem_flatten.1 (hs.loops.mem_iff.1 h1)
    obtain ⟨s, hs', rfl⟩ := List.mem_map.1 hl
    rcases List.mem_append.1 hs' with hs' | hs'
    · obtain ⟨h2, h3⟩ := eA s hs' e he'
      exact ⟨h2, fun x hx => Or.inl (h3 x hx)⟩
    · obtain ⟨h2, h3⟩ := eB' s hs' e he'
      exact ⟨h2, fun x hx => Or.inr (h3 x hx)⟩
  have shape : ∀ q ∈ res, q.isClosed = true ∧ PlineOk q ∧ 2 ≤ q.size ∧ ∀ x, OnPline q x → OnPline A x ∨ OnPline B x := by
    intro q hq
    obtain ⟨q1, q2⟩ := hs.shape q hq
    refine ⟨q1, plineOk_cEdges q1 fun e he => (eR q hq e he).1, q2, fun x hx => ?_⟩
    obtain ⟨e, he, ho⟩ := (onPline_cEdges q1 q2).1 hx
    exact (eR q hq e he).2 x ho
  refine ⟨shape, ?_⟩
  have hε : (if flip = true then (-1 : ℝ) else 1) = (if part.opposite = true then -1 else 1) * (sA * sB) := by
    simp only [hflip']
    rcases hsA with rfl | rfl <;> rcases hsB with rfl | rfl <;> cases part.opposite <;> simp
  have total : ∀ x, ¬ OnPline A x → ¬ OnPline B x → ((res.map fun q => arcW q x).sum : ℝ) =
      (if part.insideB = true then 0 else turnAll A x / (2 * Real.pi)) +
      (if part.opposite = true then -1 else 1) * (sA * sB) * (if part.insideA = true then 0 else turnAll B x / (2 * Real.pi)) +
      (if part.insideB = true then sB else -sB) * (arcSided A csA.length gA βA x / (2 * Real.pi) +
        arcSided B csB.length gB βB x / (2 * Real.pi)) := by
    intro x hxA hxB
    have h1 : ((res.map fun q => arcW q x).sum : ℝ) = (res.map fun q => turnAll q x / (2 * Real.pi)).sum := by
      rw [Int.cast_list_sum, List.map_map]
      congr 1
      apply List.map_congr_left
      intro q hq
      obtain ⟨q1, q2, q3, q4⟩ := shape q hq
      simp only [Function.comp_apply]
      rw [arcW_eq q2 q1 q3 fun ho => (q4 x ho).elim hxA hxB]
    have h2 : (res.map fun q => turnAll q x / (2 * Real.pi)).sum = eTurns (res.map fun q => cEdges q).flatten x / (2 * Real.pi) := by
      rw [eTurns_flatten]
      have : ∀ l : List Polyline, (l.map fun q => turnAll q x / (2 * Real.pi)).sum =
          (l.map fun q => eTurns (cEdges q) x).sum / (2 * Real.pi) := by
        intro l
        induction l with
        | nil => simp
        | cons q l ih =>
          rw [List.map_cons, List.map_cons, List.sum_cons, List.sum_cons, ih, add_div]
          rw [turnAll_cEdges]
      exact this res
    have h3 : (kB'.map fun q => eTurns (vEdges q.vertexes) x).sum =
        (if flip = true then -1 else 1) * (kB.map fun q => eTurns (vEdges q.vertexes) x).sum := by
      have h4 := congrArg (List.map fun es => eTurns es x) hs.turned_edges
      rw [List.map_map, List.map_map] at h4
      have h5 : (kB'.map fun q => eTurns (vEdges q.vertexes) x) =
          kB.map fun q => eTurns (turnedEdges flip (vEdges q.vertexes)) x := h4
      rw [h5]
      unfold turnedEdges
      by_cases hf : flip = true
      · simp only [if_pos hf, eTurns_flip]
        rw [← List.sum_map_mul_left]
        congr 1
        apply List.map_congr_left
        intro q _
        ring
      · simp only [if_neg hf, one_mul]
    rw [h1, h2, eTurns_perm hs.loops, eTurns_flatten, List.map_append, List.sum_append, h3, hc.sum x hxA, hd.sum x hxB, hε]
    generalize turnAll A x = a
    generalize turnAll B x = b
    generalize arcSided A csA.length gA βA x = P
    generalize arcSided B csB.length gB βB x = Q
    rw [hpart]
    rcases hsA with rfl | rfl <;> rcases hsB with rfl | rfl <;> cases part.insideA <;> cases part.insideB <;> simp <;> ring
  have hint : ∀ x, ¬ OnPline A x → ¬ OnPline B x → ∃ k : ℤ, arcSided A csA.length gA βA x / (2 * Real.pi) +
      arcSided B csB.length gB βB x / (2 * Real.pi) = k := by
    intro x hxA hxB
    have h1 := total x hxA hxB
    rw [arcW_eq hm.ok.1 hm.closed.1 hm.size.1 hxA, arcW_eq hm.ok.2 hm.closed.2 hm.size.2 hxB] at h1
    generalize arcSided A csA.length gA βA x / (2 * Real.pi) + arcSided B csB.length gB βB x / (2 * Real.pi) = S at h1 ⊢
    generalize arcW A x = a at h1
    generalize arcW B x = b at h1
    generalize (res.map fun q => arcW q x).sum = t at h1
    refine ⟨(if part.insideB = true then sB else -sB) * (t - (if part.insideB = true then 0 else a) -
      (if part.opposite = true then -1 else 1) * (sA * sB) * (if part.insideA = true then 0 else b)), ?_⟩
    push_cast
    rw [h1]
    have h4 : ((if part.insideB = true then (sB : ℝ) else -sB)) * (if part.insideB = true then (sB : ℝ) else -sB) = 1 := by
      rcases hsB with rfl | rfl <;> cases part.insideB <;> simp
    have h5 : (((if part.insideB = true then sB else -sB : ℤ)) : ℝ) = if part.insideB = true then (sB : ℝ) else -sB := by
      cases part.insideB <;> simp
    rw [h5]
    generalize (if part.insideB = true then (sB : ℝ) else -sB) = z at h4 ⊢
    linear_combination (-S) * h4
  intro x hxA hxB
  have hmul := arc_mul hm hc.toArcSides hc.some hd.toArcSides hd.some hint hxA hxB
  have h1 := total x hxA hxB
  rw [hmul, arcW_eq hm.ok.1 hm.closed.1 hm.size.1 hxA, arcW_eq hm.ok.2 hm.closed.2 hm.size.2 hxB] at h1
  refine ⟨0, arcW A x * arcW B x, by ring, ?_⟩
  have h2 : (((res.map fun q => arcW q x).sum : ℤ) : ℝ) = (((if part.insideB = true then 0 else arcW A x) +
      (if part.opposite = true then -1 else 1) * (sA * sB) * (if part.insideA = true then 0 else arcW B x) +
      (if part.insideB = true then sB else -sB) * (arcW A x * arcW B x) : ℤ) : ℝ) := by
    rw [h1]
    push_cast
    rfl
  have h3 := Int.cast_injective h2
  rw [h3, hpart]
  rcases hsA with rfl | rfl <;> rcases hsB with rfl | rfl <;> cases part.insideA <;> cases part.insideB <;> simp <;> ring

end
end Cavc

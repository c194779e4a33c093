import Verif.Proofs.ArcKept

/-! What a part of a boolean operation on closed polylines with arcs is made of. -/
namespace Cavc
open Spec
open scoped Classical Topology
noncomputable section

variable {A B : Polyline} {intrs : List PlineIntersect}

/-- The segments of a slice brought to the right direction. -/
def turnedEdges (flip : Bool) (es : List (Vertex × V2)) : List (Vertex × V2) :=
  if flip then (es.map eFlip).reverse else es

/-- The slices brought to the right direction. -/
theorem oriented_arcs {flip : Bool} : ∀ {r r' : List Polyline}, List.Forall₂ (Oriented flip) r r' →
    (∀ q ∈ r, 2 ≤ q.vertexes.length) →
    (∀ q' ∈ r', ∃ q ∈ r, pts q' = if flip then (pts q).reverse else pts q) ∧
    (r'.map pts = r.map fun q => if flip then (pts q).reverse else pts q) ∧
    (r'.map (fun q => vEdges q.vertexes) = r.map fun q => turnedEdges flip (vEdges q.vertexes))
  | _, _, .nil, _ => by simp
  | q :: r, q' :: r', .cons h hr, h2 => by
    obtain ⟨g1, g3, g4⟩ := oriented_arcs hr (fun p hp => h2 p (List.mem_cons_of_mem _ hp))
    have e : pts q' = if flip then (pts q).reverse else pts q := by
      unfold Oriented at h
      cases flip with
      | true => simp only [if_true] at h ⊢; exact pts_inverted h
      | false => simp only [Bool.false_eq_true, if_false] at h ⊢; rw [h]
    have e' : vEdges q'.vertexes = turnedEdges flip (vEdges q.vertexes) := by
      unfold Oriented at h
      unfold turnedEdges
      cases flip with
      | true => simp only [if_true] at h ⊢; exact vEdges_inverted h (h2 q (by simp))
      | false => simp only [Bool.false_eq_true, if_false] at h ⊢; rw [h]
    refine ⟨?_, ?_, ?_⟩
    · intro p hp
      rcases List.mem_cons.1 hp with rfl | hp
      · exact ⟨q, by simp, e⟩
      · obtain ⟨p', h3, h4⟩ := g1 p hp
        exact ⟨p', by simp [h3], h4⟩
    · rw [List.map_cons, List.map_cons, g3, e]
    · rw [List.map_cons, List.map_cons, g4, e']

/-- What a part of an operation on polylines that cross is made of. -/
structure ArcSetup (A B : Polyline) (intrs : List PlineIntersect) (sA sB : ℤ) (part : Part) (res : List Polyline)
    (csA : List Cut) (TA : Cut → ℝ) (gA : ℕ → ℝ) (βA : ℕ → ℤ) (csB : List Cut) (TB : Cut → ℝ) (gB : ℕ → ℝ) (βB : ℕ → ℤ)
    (flip : Bool) (kA kB kB' : List Polyline) : Prop where
  first : ArcKept A B intrs sB part.insideB csA TA gA βA kA
  second : ArcKept B A (intrs.map swapI) sA part.insideA csB TB gB βB kB
  flip_iff : flip = true ↔ (part.opposite = true ↔ sA = sB)
  turned : kB'.map pts = kB.map fun q => if flip then (pts q).reverse else pts q
  turned_edges : kB'.map (fun q => vEdges q.vertexes) = kB.map fun q => turnedEdges flip (vEdges q.vertexes)
  points : (intrs.map PlineIntersect.pos).Pairwise fun a b => ¬ Near (3 / 10 ^ 4) a b
  turned_ends : ∀ q ∈ kB', (pts q).head? = some (startOf q) ∧ (pts q).getLast? = some (endOf q) ∧
    startOf q ≠ endOf q ∧ 2 ≤ q.vertexes.length
  starts : ((kA ++ kB').map startOf).Perm (intrs.map PlineIntersect.pos)
  ends : ((kA ++ kB').map endOf).Perm (intrs.map PlineIntersect.pos)
  shape : ∀ q ∈ res, q.isClosed = true ∧ 2 ≤ q.size
  loops : (res.map fun q => cEdges q).flatten.Perm ((kA ++ kB').map fun s => vEdges s.vertexes).flatten

set_option maxHeartbeats 1000000 in
theorem arc_setup (hm : ArcMeet A B intrs) (hne : intrs ≠ []) {sA sB : ℤ} (hsA : sA = 1 ∨ sA = -1) (hsB : sB = 1 ∨ sB = -1)
    (honceA : ∀ x, ¬ OnPline A x → ∀ k, Winding A x k → k = 0 ∨ k = sA)
    (honceB : ∀ x, ¬ OnPline B x → ∀ k, Winding B x k → k = 0 ∨ k = sB)
    (hturn : SameTurn A B ↔ sA = sB) {part : Part} (hpart : part.opposite = (part.insideA != part.insideB))
    {res : List Polyline} (h : PartResult A B intrs ⟨[], [], [], []⟩ part res) :
    ∃ csA TA gA βA csB TB gB βB flip kA kB kB',
      ArcSetup A B intrs sA sB part res csA TA gA βA csB TB gB βB flip kA kB kB' := by
  have hnd := hm.nodup
  obtain ⟨flip, kA, kB, kB', cB, sel, chains, hflip, hkA, hkB, hor, hcB, hrest⟩ := h
  have hcB0 : cB = [] := by
    have : List.Forall₂ (fun so q => Oriented (so.2 != flip) so.1 q) ([] : List (Polyline × Bool)) cB := hcB
    cases this; rfl
  subst hcB0
  rw [cutsOfFirst_nil] at hkA
  change KeptSlices B (cutsOfSecond intrs []) _ kB at hkB
  rw [cutsOfSecond_nil] at hkB
  obtain ⟨csA, TA, gA, βA, hc⟩ := arc_kept hm hne hsB honceB hkA
  obtain ⟨csB, TB, gB, βB, hd⟩ := arc_kept hm.symm (by simpa using hne) hsA honceA hkB
  obtain ⟨o1, o3, o4⟩ := oriented_arcs hor hd.two
  simp only [List.append_nil] at hrest
  obtain ⟨hsel, hres, hperm, hch⟩ := hrest
  -- the points
  set X := intrs.map PlineIntersect.pos with hXdef
  have hX : X.Pairwise fun a b => ¬ Near (3 / 10 ^ 4) a b := by
    rw [hXdef, List.pairwise_map]
    refine List.Pairwise.imp_of_mem ?_ hnd
    intro y y' hy hy' hne h
    exact hm.apart _ hy _ hy' hne h
  have hX' : (intrs.map swapI).map PlineIntersect.pos = X := by
    rw [List.map_map]; rfl
  have huniq : ∀ {y y'}, y ∈ intrs → y' ∈ intrs → y.pos = y'.pos → y = y' := by
    intro y y' hy hy' he
    exact hm.pos_inj hy hy' he
  have hflip' : flip = true ↔ (part.opposite = true ↔ sA = sB) := by rw [hflip, hturn]
  have hstart : ∀ z ∈ X, (ArcStarts B A (intrs.map swapI) sA part.insideA z ↔
      (flip = true ↔ ArcStarts A B intrs sB part.insideB z)) := by
    intro z hz
    obtain ⟨y, hy, rfl⟩ := List.mem_map.1 hz
    have e1 : ArcStarts A B intrs sB part.insideB y.pos ↔ (arcSign A B y = sB ↔ part.insideB = true) := by
      constructor
      · rintro ⟨y', hy', h3, h4⟩
        rwa [huniq hy' hy h3] at h4
      · intro h; exact ⟨y, hy, rfl, h⟩
    have e2 : ArcStarts B A (intrs.map swapI) sA part.insideA y.pos ↔ (-arcSign A B y = sA ↔ part.insideA = true) := by
      rw [← arcSign_swap hm hy]
      constructor
      · rintro ⟨y', hy', h3, h4⟩
        obtain ⟨y'', hy'', rfl⟩ := List.mem_map.1 hy'
        rwa [huniq hy'' hy h3] at h4
      · intro h; exact ⟨swapI y, List.mem_map.2 ⟨y, hy, rfl⟩, rfl, h⟩
    have hG : arcSign A B y = 1 ∨ arcSign A B y = -1 := by
      unfold arcSign
      split_ifs <;> simp
    rw [e1, e2, hflip', hpart]
    rcases hsA with rfl | rfl <;> rcases hsB with rfl | rfl <;> rcases hG with hG | hG <;> rw [hG] <;>
      cases part.insideA <;> cases part.insideB <;> simp
  -- the slices of B brought to the right direction
  have hmapB : ∀ (g : List V2 → V2), kB'.map (fun q => g (pts q)) =
      kB.map (fun q => g (if flip then (pts q).reverse else pts q)) := by
    intro g
    have := congrArg (List.map g) o3
    rw [List.map_map, List.map_map] at this
    exact this
  have hheadB : ∀ q ∈ kB', (pts q).head? = some (startOf q) ∧ (pts q).getLast? = some (endOf q) ∧
      startOf q ≠ endOf q ∧ 2 ≤ q.vertexes.length := by
    intro q' hq'
    obtain ⟨q, hq, e⟩ := o1 q' hq'
    have h1 := hd.head q hq
    have h2 := hd.last q hq
    have h3 := hd.ne q hq
    have h4 := hd.two q hq
    have e4 : q'.vertexes.length = q.vertexes.length := by
      have := congrArg List.length e
      unfold pts at this
      rw [List.length_map] at this
      rw [this]
      split_ifs <;> simp
    unfold startOf endOf at *
    rw [e, e4]
    by_cases hf : flip = true
    · simp only [if_pos hf, List.head?_reverse, List.getLast?_reverse, List.headD_eq_head?_getD,
        List.getLastD_eq_getLast?] at *
      rw [h1, h2] at *
      simp only [Option.getD_some, true_and] at *
      exact ⟨h3.symm, h4⟩
    · simp only [if_neg hf]
      exact ⟨h1, h2, h3, h4⟩
  have hsB' : (kB'.map startOf).Perm (X.filter fun z => !decide (ArcStarts A B intrs sB part.insideB z)) := by
    have e := hmapB fun l => l.headD ⟨0, 0⟩
    change kB'.map startOf = _ at e
    rw [e]
    by_cases hf : flip = true
    · have e2 : (kB.map fun q => (if flip then (pts q).reverse else pts q).headD ⟨0, 0⟩) = kB.map endOf := by
        apply List.map_congr_left
        intro q _
        rw [if_pos hf, List.headD_eq_head?_getD, List.head?_reverse]
        unfold endOf
        rw [List.getLastD_eq_getLast?]
      rw [e2]
      refine hd.ends.trans (List.Perm.of_eq ?_)
      rw [hX']
      apply List.filter_congr
      intro z hz
      have := hstart z hz
      simp only [hf, true_iff] at this
      by_cases hz' : ArcStarts A B intrs sB part.insideB z <;> simp [this, hz']
    · have e2 : (kB.map fun q => (if flip then (pts q).reverse else pts q).headD ⟨0, 0⟩) = kB.map startOf := by
        apply List.map_congr_left
        intro q _
        rw [if_neg hf]
        rfl
      rw [e2]
      refine hd.starts.trans (List.Perm.of_eq ?_)
      rw [hX']
      apply List.filter_congr
      intro z hz
      have := hstart z hz
      simp only [hf, false_iff] at this
      by_cases hz' : ArcStarts A B intrs sB part.insideB z <;> simp [this, hz']
  have heB' : (kB'.map endOf).Perm (X.filter fun z => decide (ArcStarts A B intrs sB part.insideB z)) := by
    have e := hmapB fun l => l.getLastD ⟨0, 0⟩
    change kB'.map endOf = _ at e
    rw [e]
    by_cases hf : flip = true
    · have e2 : (kB.map fun q => (if flip then (pts q).reverse else pts q).getLastD ⟨0, 0⟩) = kB.map startOf := by
        apply List.map_congr_left
        intro q _
        rw [if_pos hf, List.getLastD_eq_getLast?, List.getLast?_reverse]
        unfold startOf
        rw [List.headD_eq_head?_getD]
      rw [e2]
      refine hd.starts.trans (List.Perm.of_eq ?_)
      rw [hX']
      apply List.filter_congr
      intro z hz
      have := hstart z hz
      simp only [hf, true_iff] at this
      by_cases hz' : ArcStarts A B intrs sB part.insideB z <;> simp [this, hz']
    · have e2 : (kB.map fun q => (if flip then (pts q).reverse else pts q).getLastD ⟨0, 0⟩) = kB.map endOf := by
        apply List.map_congr_left
        intro q _
        rw [if_neg hf]
        rfl
      rw [e2]
      refine hd.ends.trans (List.Perm.of_eq ?_)
      rw [hX']
      apply List.filter_congr
      intro z hz
      have := hstart z hz
      simp only [hf, false_iff] at this
      by_cases hz' : ArcStarts A B intrs sB part.insideB z <;> simp [this, hz']
  -- all slices
  have hfp : (X.filter (fun z => decide (ArcStarts A B intrs sB part.insideB z)) ++
      X.filter (fun z => !decide (ArcStarts A B intrs sB part.insideB z))).Perm X := List.filter_append_perm _ _
  have hst : ((kA ++ kB').map startOf).Perm X := by
    rw [List.map_append]
    exact (hc.starts.append hsB').trans hfp
  have hen : ((kA ++ kB').map endOf).Perm X := by
    rw [List.map_append]
    exact (hc.ends.append heB').trans (List.perm_append_comm.trans hfp)
  obtain ⟨l1, l2⟩ := loops_arcs (slices := kA ++ kB') (X := X) hX
    (by
      intro s hs
      rcases List.mem_append.1 hs with hs | hs
      · exact hc.two s hs
      · exact (hheadB s hs).2.2.2)
    (a := startOf) (b := endOf)
    (by
      intro s hs
      rcases List.mem_append.1 hs with hs | hs
      · exact hc.head s hs
      · exact (hheadB s hs).1)
    (by
      intro s hs
      rcases List.mem_append.1 hs with hs | hs
      · exact hc.last s hs
      · exact (hheadB s hs).2.1)
    (by
      intro s hs
      rcases List.mem_append.1 hs with hs | hs
      · exact hc.ne s hs
      · exact (hheadB s hs).2.2.1)
    hst hen
    hsel
    (by
      intro i hi
      rw [List.length_append] at hi
      unfold preferred
      by_cases ho : part.opposite = false
      · rw [if_pos ho, if_pos hi]
        exact ⟨fun _ => True, by simp, fun _ => trivial⟩
      · rw [if_neg ho]
        by_cases hi' : i < kA.length
        · rw [if_pos hi']
          exact ⟨fun _ => True, by simp, fun _ => trivial⟩
        · rw [if_neg hi', if_pos hi]
          exact ⟨fun _ => True, by simp, fun _ => trivial⟩)
    hperm hch
  rw [← hres] at l1 l2
  exact ⟨csA, TA, gA, βA, csB, TB, gB, βB, flip, kA, kB, kB', hc, hd, hflip', o3, o4, hX, hheadB, hst, hen, l1, l2⟩

end
end Cavc

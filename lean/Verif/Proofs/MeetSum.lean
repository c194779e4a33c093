import Verif.Proofs.MeetPart

/-! What the polygons of one part of an operation wind around a point. -/
namespace Cavc
open Spec
open scoped Classical
noncomputable section

theorem pts_inverted {p q : Polyline} (h : invertDirection p = .ok q) : pts q = (pts p).reverse := by
  obtain ⟨q', h1, -, h2, -⟩ := C28_invertDirection p
  rw [h] at h1
  cases h1
  exact h2

theorem lines_inverted {p q : Polyline} (h2 : 2 ≤ p.vertexes.length) (hl : ∀ v ∈ p.vertexes, IsLine v)
    (h : invertDirection p = .ok q) : ∀ v ∈ q.vertexes, IsLine v := by
  obtain ⟨q', h1, -, h3, h4⟩ := invertDirection_spec (p := p) h2
  rw [h] at h1
  cases h1
  intro v hv
  obtain ⟨j, hj, rfl⟩ := List.getElem_of_mem hv
  have hj' : j < p.size := by rw [← h3]; exact hj
  have e := h4 j hj'
  have e' : vtx q j = q.vertexes[j] := by unfold vtx; rw [List.getD_eq_getElem _ _ hj]
  rw [← e', e]
  have hm : (vtx p (if j + 1 = p.size then p.size - 1 else p.size - 2 - j)) ∈ p.vertexes :=
    vtx_mem (by split_ifs <;> omega)
  have := hl _ hm
  unfold IsLine at this ⊢
  simpa using this

/-- The slices brought to the right direction. -/
theorem oriented_slices {flip : Bool} : ∀ {r r' : List Polyline}, List.Forall₂ (Oriented flip) r r' →
    (∀ q ∈ r, 2 ≤ q.vertexes.length) → (∀ q ∈ r, ∀ v ∈ q.vertexes, IsLine v) →
    (∀ q' ∈ r', ∃ q ∈ r, pts q' = if flip then (pts q).reverse else pts q) ∧
    (∀ q' ∈ r', ∀ v ∈ q'.vertexes, IsLine v) ∧
    (r'.map pts = r.map fun q => if flip then (pts q).reverse else pts q)
  | _, _, .nil, _, _ => by simp
  | q :: r, q' :: r', .cons h hr, h2, hl => by
    obtain ⟨g1, g2, g3⟩ := oriented_slices hr (fun p hp => h2 p (List.mem_cons_of_mem _ hp))
      (fun p hp => hl p (List.mem_cons_of_mem _ hp))
    have e : pts q' = if flip then (pts q).reverse else pts q := by
      unfold Oriented at h
      cases flip with
      | true => simp only [if_true] at h ⊢; exact pts_inverted h
      | false => simp only [Bool.false_eq_true, if_false] at h ⊢; rw [h]
    refine ⟨?_, ?_, ?_⟩
    · intro p hp
      rcases List.mem_cons.1 hp with rfl | hp
      · exact ⟨q, by simp, e⟩
      · obtain ⟨p', h3, h4⟩ := g1 p hp
        exact ⟨p', by simp [h3], h4⟩
    · intro p hp
      rcases List.mem_cons.1 hp with rfl | hp
      · unfold Oriented at h
        cases flip with
        | true =>
          simp only [if_true] at h
          exact lines_inverted (h2 q (by simp)) (hl q (by simp)) h
        | false =>
          simp only [Bool.false_eq_true, if_false] at h
          rw [h]
          exact hl q (by simp)
      · exact g2 p hp
    · rw [List.map_cons, List.map_cons, g3, e]

theorem startOf_pts {p q : Polyline} (h : pts p = pts q) : startOf p = startOf q ∧ endOf p = endOf q := by
  unfold startOf endOf; rw [h]; exact ⟨rfl, rfl⟩

theorem swapI_inj : Function.Injective swapI := by
  intro a b h
  cases a; cases b
  simp only [swapI, PlineIntersect.mk.injEq] at h ⊢
  tauto

/-- What a part of an operation on polygons that cross is made of. -/
structure MeetSetup (A B : Polyline) (intrs : List PlineIntersect) (sA sB : ℤ) (part : Part) (res : List Polyline)
    (c d : CutPoly) (flip : Bool) (kA kB kB' : List Polyline) : Prop where
  first : KeptSide A B intrs sB part.insideB c kA
  second : KeptSide B A (intrs.map swapI) sA part.insideA d kB
  flip_iff : flip = true ↔ (part.opposite = true ↔ sA = sB)
  turned : kB'.map pts = kB.map fun q => if flip then (pts q).reverse else pts q
  points : (intrs.map PlineIntersect.pos).Pairwise fun a b => ¬ Near (3 / 10 ^ 4) a b
  turned_ends : ∀ q ∈ kB', (pts q).head? = some (startOf q) ∧ (pts q).getLast? = some (endOf q) ∧
    startOf q ≠ endOf q ∧ 2 ≤ q.vertexes.length
  starts : ((kA ++ kB').map startOf).Perm (intrs.map PlineIntersect.pos)
  ends : ((kA ++ kB').map endOf).Perm (intrs.map PlineIntersect.pos)
  shape : ∀ q ∈ res, q.isClosed = true ∧ (∀ v ∈ q.vertexes, IsLine v) ∧ 2 ≤ q.size
  loops : (res.map fun q => polyEdges (ppos q) q.size).flatten.Perm ((kA ++ kB').map fun s => pathEdges (pts s)).flatten

set_option maxHeartbeats 1000000 in
theorem meet_setup {A B : Polyline} {intrs : List PlineIntersect} (pA : Polygon A) (pB : Polygon B)
    (hg : GeneralPosition A B) (hnd : intrs.Nodup) (hmem : ∀ y, y ∈ intrs ↔ CrossAt A B y) (hne : intrs ≠ [])
    {sA sB : ℤ} (hsA : sA = 1 ∨ sA = -1) (hsB : sB = 1 ∨ sB = -1)
    (honceA : ∀ x, ¬ OnPline A x → ∀ k, Winding A x k → k = 0 ∨ k = sA)
    (honceB : ∀ x, ¬ OnPline B x → ∀ k, Winding B x k → k = 0 ∨ k = sB)
    (hturn : SameTurn A B ↔ sA = sB) {part : Part} (hpart : part.opposite = (part.insideA != part.insideB))
    {res : List Polyline} (h : PartResult A B intrs ⟨[], [], [], []⟩ part res) :
    ∃ c d flip kA kB kB', MeetSetup A B intrs sA sB part res c d flip kA kB kB' := by
  obtain ⟨hA2, hB2⟩ := general_sizes pA pB hmem hne
  obtain ⟨flip, kA, kB, kB', cB, sel, chains, hflip, hkA, hkB, hor, hcB, hrest⟩ := h
  have hcB0 : cB = [] := by
    have : List.Forall₂ (fun so q => Oriented (so.2 != flip) so.1 q) ([] : List (Polyline × Bool)) cB := hcB
    cases this; rfl
  subst hcB0
  rw [cutsOfFirst_nil] at hkA
  change KeptSlices B (cutsOfSecond intrs []) _ kB at hkB
  rw [cutsOfSecond_nil] at hkB
  obtain ⟨c, hc⟩ := kept_side pA pB hg hnd hmem hne hsB honceB hkA
  obtain ⟨d, hd⟩ := kept_side pB pA (general_symm hg) (hnd.map swapI_inj) (mem_swap hmem) (by simpa using hne)
    hsA honceA hkB
  obtain ⟨o1, o2, o3⟩ := oriented_slices hor hd.two hd.lines
  simp only [List.append_nil] at hrest
  obtain ⟨hsel, hres, hperm, hch⟩ := hrest
  -- the points
  set X := intrs.map PlineIntersect.pos with hXdef
  have hX : X.Pairwise fun a b => ¬ Near (3 / 10 ^ 4) a b := by
    rw [hXdef, List.pairwise_map]
    refine List.Pairwise.imp_of_mem ?_ hnd
    intro y y' hy hy' hne h
    exact crossing_separate hg ((hmem _).1 hy) ((hmem _).1 hy') hne h
  have hX' : (intrs.map swapI).map PlineIntersect.pos = X := by
    rw [List.map_map]; rfl
  have huniq : ∀ {y y'}, y ∈ intrs → y' ∈ intrs → y.pos = y'.pos → y = y' := by
    intro y y' hy hy' he
    exact crossing_pos_inj hg ((hmem y).1 hy) ((hmem y').1 hy') he
  have hflip' : flip = true ↔ (part.opposite = true ↔ sA = sB) := by rw [hflip, hturn]
  have hstart : ∀ z ∈ X, (StartsAt B A (intrs.map swapI) sA part.insideA z ↔
      (flip = true ↔ StartsAt A B intrs sB part.insideB z)) := by
    intro z hz
    obtain ⟨y, hy, rfl⟩ := List.mem_map.1 hz
    have e1 : StartsAt A B intrs sB part.insideB y.pos ↔ (crossSign A B y = sB ↔ part.insideB = true) := by
      constructor
      · rintro ⟨y', hy', h3, h4⟩
        rwa [huniq hy' hy h3] at h4
      · intro h; exact ⟨y, hy, rfl, h⟩
    have e2 : StartsAt B A (intrs.map swapI) sA part.insideA y.pos ↔ (-crossSign A B y = sA ↔ part.insideA = true) := by
      rw [← crossSign_swap pA pB ((hmem y).1 hy)]
      constructor
      · rintro ⟨y', hy', h3, h4⟩
        obtain ⟨y'', hy'', rfl⟩ := List.mem_map.1 hy'
        rwa [huniq hy'' hy h3] at h4
      · intro h; exact ⟨swapI y, List.mem_map.2 ⟨y, hy, rfl⟩, rfl, h⟩
    have hG : crossSign A B y = 1 ∨ crossSign A B y = -1 := by
      unfold crossSign
      split_ifs <;> simp
    rw [e1, e2, hflip', hpart]
    rcases hsA with rfl | rfl <;> rcases hsB with rfl | rfl <;> rcases hG with hG | hG <;> rw [hG] <;>
      cases part.insideA <;> cases part.insideB <;> simp
  -- the slices of B brought to the right direction
  have hmapB : ∀ (g : List V2 → V2), kB'.map (fun q => g (pts q)) =
      kB.map (fun q => g (if flip then (pts q).reverse else pts q)) := by
    intro g
    have := congrArg (List.map g) o3
    rw [List.map_map, List.map_map] at this
    exact this
  have hheadB : ∀ q ∈ kB', (pts q).head? = some (startOf q) ∧ (pts q).getLast? = some (endOf q) ∧
      startOf q ≠ endOf q ∧ 2 ≤ q.vertexes.length := by
    intro q' hq'
    obtain ⟨q, hq, e⟩ := o1 q' hq'
    have h1 := hd.head q hq
    have h2 := hd.last q hq
    have h3 := hd.ne q hq
    have h4 := hd.two q hq
    have e4 : q'.vertexes.length = q.vertexes.length := by
      have := congrArg List.length e
      unfold pts at this
      rw [List.length_map] at this
      rw [this]
      split_ifs <;> simp
    unfold startOf endOf at *
    rw [e, e4]
    by_cases hf : flip = true
    · simp only [if_pos hf, List.head?_reverse, List.getLast?_reverse, List.headD_eq_head?_getD,
        List.getLastD_eq_getLast?] at *
      rw [h1, h2] at *
      simp only [Option.getD_some, true_and] at *
      exact ⟨h3.symm, h4⟩
    · simp only [if_neg hf]
      exact ⟨h1, h2, h3, h4⟩
  have hsB' : (kB'.map startOf).Perm (X.filter fun z => !decide (StartsAt A B intrs sB part.insideB z)) := by
    have e := hmapB fun l => l.headD ⟨0, 0⟩
    change kB'.map startOf = _ at e
    rw [e]
    by_cases hf : flip = true
    · have e2 : (kB.map fun q => (if flip then (pts q).reverse else pts q).headD ⟨0, 0⟩) = kB.map endOf := by
        apply List.map_congr_left
        intro q _
        rw [if_pos hf, List.headD_eq_head?_getD, List.head?_reverse]
        unfold endOf
        rw [List.getLastD_eq_getLast?]
      rw [e2]
      refine hd.ends.trans (List.Perm.of_eq ?_)
      rw [hX']
      apply List.filter_congr
      intro z hz
      have := hstart z hz
      simp only [hf, true_iff] at this
      by_cases hz' : StartsAt A B intrs sB part.insideB z <;> simp [this, hz']
    · have e2 : (kB.map fun q => (if flip then (pts q).reverse else pts q).headD ⟨0, 0⟩) = kB.map startOf := by
        apply List.map_congr_left
        intro q _
        rw [if_neg hf]
        rfl
      rw [e2]
      refine hd.starts.trans (List.Perm.of_eq ?_)
      rw [hX']
      apply List.filter_congr
      intro z hz
      have := hstart z hz
      simp only [hf, false_iff] at this
      by_cases hz' : StartsAt A B intrs sB part.insideB z <;> simp [this, hz']
  have heB' : (kB'.map endOf).Perm (X.filter fun z => decide (StartsAt A B intrs sB part.insideB z)) := by
    have e := hmapB fun l => l.getLastD ⟨0, 0⟩
    change kB'.map endOf = _ at e
    rw [e]
    by_cases hf : flip = true
    · have e2 : (kB.map fun q => (if flip then (pts q).reverse else pts q).getLastD ⟨0, 0⟩) = kB.map startOf := by
        apply List.map_congr_left
        intro q _
        rw [if_pos hf, List.getLastD_eq_getLast?, List.getLast?_reverse]
        unfold startOf
        rw [List.headD_eq_head?_getD]
      rw [e2]
      refine hd.starts.trans (List.Perm.of_eq ?_)
      rw [hX']
      apply List.filter_congr
      intro z hz
      have := hstart z hz
      simp only [hf, true_iff] at this
      by_cases hz' : StartsAt A B intrs sB part.insideB z <;> simp [this, hz']
    · have e2 : (kB.map fun q => (if flip then (pts q).reverse else pts q).getLastD ⟨0, 0⟩) = kB.map endOf := by
        apply List.map_congr_left
        intro q _
        rw [if_neg hf]
        rfl
      rw [e2]
      refine hd.ends.trans (List.Perm.of_eq ?_)
      rw [hX']
      apply List.filter_congr
      intro z hz
      have := hstart z hz
      simp only [hf, false_iff] at this
      by_cases hz' : StartsAt A B intrs sB part.insideB z <;> simp [this, hz']
  -- all slices
  have hfp : (X.filter (fun z => decide (StartsAt A B intrs sB part.insideB z)) ++
      X.filter (fun z => !decide (StartsAt A B intrs sB part.insideB z))).Perm X := List.filter_append_perm _ _
  have hst : ((kA ++ kB').map startOf).Perm X := by
    rw [List.map_append]
    exact (hc.starts.append hsB').trans hfp
  have hen : ((kA ++ kB').map endOf).Perm X := by
    rw [List.map_append]
    exact (hc.ends.append heB').trans (List.perm_append_comm.trans hfp)
  obtain ⟨l1, l2⟩ := loops_sum (slices := kA ++ kB') (X := X) hX
    (by
      intro s hs
      rcases List.mem_append.1 hs with hs | hs
      · exact hc.two s hs
      · exact (hheadB s hs).2.2.2)
    (by
      intro s hs
      rcases List.mem_append.1 hs with hs | hs
      · exact hc.lines s hs
      · exact o2 s hs)
    (a := startOf) (b := endOf)
    (by
      intro s hs
      rcases List.mem_append.1 hs with hs | hs
      · exact hc.head s hs
      · exact (hheadB s hs).1)
    (by
      intro s hs
      rcases List.mem_append.1 hs with hs | hs
      · exact hc.last s hs
      · exact (hheadB s hs).2.1)
    (by
      intro s hs
      rcases List.mem_append.1 hs with hs | hs
      · exact hc.ne s hs
      · exact (hheadB s hs).2.2.1)
    hst hen
    hsel
    (by
      intro i hi
      rw [List.length_append] at hi
      unfold preferred
      by_cases ho : part.opposite = false
      · rw [if_pos ho, if_pos hi]
        exact ⟨fun _ => True, by simp, fun _ => trivial⟩
      · rw [if_neg ho]
        by_cases hi' : i < kA.length
        · rw [if_pos hi']
          exact ⟨fun _ => True, by simp, fun _ => trivial⟩
        · rw [if_neg hi', if_pos hi]
          exact ⟨fun _ => True, by simp, fun _ => trivial⟩)
    hperm hch
  rw [← hres] at l1 l2
  exact ⟨c, d, flip, kA, kB, kB', hc, hd, hflip', o3, hX, hheadB, hst, hen, l1, l2⟩

set_option maxHeartbeats 1000000 in
/-- A part of an operation on polygons that cross. -/
theorem meet_part {A B : Polyline} {intrs : List PlineIntersect} (pA : Polygon A) (pB : Polygon B)
    (hg : GeneralPosition A B) (hnd : intrs.Nodup) (hmem : ∀ y, y ∈ intrs ↔ CrossAt A B y) (hne : intrs ≠ [])
    {sA sB : ℤ} (hsA : sA = 1 ∨ sA = -1) (hsB : sB = 1 ∨ sB = -1)
    (honceA : ∀ x, ¬ OnPline A x → ∀ k, Winding A x k → k = 0 ∨ k = sA)
    (honceB : ∀ x, ¬ OnPline B x → ∀ k, Winding B x k → k = 0 ∨ k = sB)
    (hturn : SameTurn A B ↔ sA = sB) {part : Part} (hpart : part.opposite = (part.insideA != part.insideB))
    {res : List Polyline} (h : PartResult A B intrs ⟨[], [], [], []⟩ part res)
    {x : V2} (hxA : ¬ OnPline A x) (hxB : ¬ OnPline B x) :
    (∀ q ∈ res, q.isClosed = true ∧ (∀ v ∈ q.vertexes, IsLine v) ∧ 2 ≤ q.size ∧ ¬ OnPline q x) ∧
    ∃ P Q : ℤ, P + Q = edgesW (polyEdges (ppos A) A.size) x * edgesW (polyEdges (ppos B) B.size) x ∧
      (res.map fun q => edgesW (polyEdges (ppos q) q.size) x).sum =
        (if part.insideB = true then sB * P else edgesW (polyEdges (ppos A) A.size) x - sB * P) +
        (if part.opposite = true then -1 else 1) * (sA * sB) *
        (if part.insideA = true then sA * Q else edgesW (polyEdges (ppos B) B.size) x - sA * Q) := by
  obtain ⟨hA2, hB2⟩ := general_sizes pA pB hmem hne
  obtain ⟨c, d, flip, kA, kB, kB', hs⟩ := meet_setup pA pB hg hnd hmem hne hsA hsB honceA honceB hturn hpart h
  have hc := hs.first
  have hd := hs.second
  have hflip' := hs.flip_iff
  have o3 := hs.turned
  have l1 := hs.shape
  have o1 : ∀ q' ∈ kB', ∃ q ∈ kB, pts q' = if flip then (pts q).reverse else pts q := by
    intro q' hq'
    have : pts q' ∈ kB'.map pts := List.mem_map.2 ⟨q', hq', rfl⟩
    rw [o3] at this
    obtain ⟨q, hq, e⟩ := List.mem_map.1 this
    exact ⟨q, hq, e.symm⟩
  have hmapBZ : ∀ (g : List V2 → ℤ), kB'.map (fun q => g (pts q)) =
      kB.map (fun q => g (if flip then (pts q).reverse else pts q)) := by
    intro g
    have := congrArg (List.map g) o3
    rw [List.map_map, List.map_map] at this
    exact this
  have l2 : (res.map fun q => edgesW (polyEdges (ppos q) q.size) x).sum =
      ((kA ++ kB').map fun s => edgesW (pathEdges (pts s)) x).sum := by
    rw [← edgesW_flatten, ← edgesW_flatten]
    exact edgesW_perm hs.loops x
  have l4 : ∀ q ∈ res, ∀ e ∈ polyEdges (ppos q) q.size, ∃ s ∈ kA ++ kB', e ∈ pathEdges (pts s) := by
    intro q hq e he
    have h1 : e ∈ (res.map fun q => polyEdges (ppos q) q.size).flatten :=
      List.mem_flatten.2 ⟨_, List.mem_map.2 ⟨q, hq, rfl⟩, he⟩
    obtain ⟨l, hl, he'⟩ := List.mem_flatten.1 (hs.loops.mem_iff.1 h1)
    obtain ⟨s, hs', rfl⟩ := List.mem_map.1 hl
    exact ⟨s, hs', he'⟩
  -- the edges
  have hdn : 0 < d.n := by rw [hd.n_eq]; omega
  have hcn : 0 < c.n := by rw [hc.n_eq]; omega
  have offc : ∀ k < c.n, ¬ OnLine (c.P k) (c.P (k + 1)) x := by
    intro k hk ho
    rw [hc.P_eq] at ho
    rw [hc.n_eq] at hk
    exact hxA ((polygon_onPline pA.closed pA.lines).2 ⟨hA2, k, hk, ho⟩)
  have offd : ∀ k < d.n, ¬ OnLine (d.P k) (d.P (k + 1)) x := by
    intro k hk ho
    rw [hd.P_eq] at ho
    rw [hd.n_eq] at hk
    exact hxB ((polygon_onPline pB.closed pB.lines).2 ⟨hB2, k, hk, ho⟩)
  have offcE : ∀ e ∈ c.edges, ¬ OnLine e.1 e.2 x := by
    intro e he ho
    obtain ⟨k, hk, h⟩ := CutPoly.edge_on hcn he ho
    exact offc k hk h
  have offdE : ∀ e ∈ d.edges, ¬ OnLine e.1 e.2 x := by
    intro e he ho
    obtain ⟨k, hk, h⟩ := CutPoly.edge_on hdn he ho
    exact offd k hk h
  have onLine_swap : ∀ {a b z : V2}, OnLine a b z → OnLine b a z := by
    rintro a b z ⟨t, t0, t1, rfl⟩
    refine ⟨1 - t, by linarith, by linarith, ?_⟩
    ext <;> simp only [lerp] <;> ring
  have offB' : ∀ q ∈ kB', ∀ e ∈ pathEdges (pts q), ¬ OnLine e.1 e.2 x := by
    intro q' hq' e he
    obtain ⟨q, hq, e1⟩ := o1 q' hq'
    rw [e1] at he
    by_cases hf : flip = true
    · rw [if_pos hf, pathEdges_reverse, List.mem_reverse, List.mem_map] at he
      obtain ⟨e', he', rfl⟩ := he
      intro ho
      exact offdE e' (hd.edges q hq e' he') (onLine_swap ho)
    · rw [if_neg hf] at he
      exact offdE e (hd.edges q hq e he)
  refine ⟨?_, sided c B x, sided d A x, ?_, ?_⟩
  · intro q hq
    obtain ⟨q1, q2, q3⟩ := l1 q hq
    have q4 := l4 q hq
    refine ⟨q1, q2, q3, ?_⟩
    rw [polygon_onPline q1 q2]
    rintro ⟨-, k, hk, ho⟩
    obtain ⟨s, hs, he⟩ := q4 (ppos q k, ppos q (k + 1)) (by
      unfold polyEdges
      exact List.mem_map.2 ⟨k, List.mem_range.2 hk, rfl⟩)
    rcases List.mem_append.1 hs with hs | hs
    · exact offcE _ (hc.edges s hs _ he) ho
    · exact offB' s hs _ he ho
  · have := CutPoly.sides_mul hcn hdn (by rw [hd.P_eq, hd.n_eq]; exact hc.all)
      (by rw [hc.P_eq, hc.n_eq]; exact hd.all) offc offd
    unfold CutPoly.W at this
    rw [hc.P_eq, hc.n_eq, hd.P_eq, hd.n_eq] at this
    rw [this]
    rfl
  · rw [l2, List.map_append, List.sum_append, hc.sum]
    have hsumB : (kB'.map fun q => edgesW (pathEdges (pts q)) x).sum =
        (if flip = true then -1 else 1) * (kB.map fun q => edgesW (pathEdges (pts q)) x).sum := by
      rw [hmapBZ fun l => edgesW (pathEdges l) x]
      by_cases hf : flip = true
      · rw [if_pos hf, ← List.sum_map_mul_left]
        congr 1
        apply List.map_congr_left
        intro q hq
        rw [if_pos hf, edgesW_reverse fun e he => offdE e (hd.edges q hq e he)]
        ring
      · simp only [if_neg hf, one_mul]
    rw [hsumB, hd.sum]
    have hW : c.W x = edgesW (polyEdges (ppos A) A.size) x := by
      unfold CutPoly.W; rw [hc.P_eq, hc.n_eq]
    have hW' : d.W x = edgesW (polyEdges (ppos B) B.size) x := by
      unfold CutPoly.W; rw [hd.P_eq, hd.n_eq]
    rw [hW, hW']
    have hε : (if flip = true then (-1 : ℤ) else 1) = (if part.opposite = true then -1 else 1) * (sA * sB) := by
      simp only [hflip']
      rcases hsA with rfl | rfl <;> rcases hsB with rfl | rfl <;> cases part.opposite <;> simp
    rw [hε]

end
end Cavc

import Verif.Proofs.ArcEdges

/-! Chains of slices with arcs that follow each other one to one: the closed polylines they make consist of the
segments of the slices. -/
namespace Cavc
open Spec
open scoped Classical
noncomputable section

/-- The path along stitched slices consists of the edges of the slices. -/
theorem stitched_vEdges : ∀ {ls : List (List Vertex)}, (∀ l ∈ ls, 2 ≤ l.length) →
    List.IsChain (fun a b : List Vertex => (posns a).getLast? = (posns b).head?) ls →
    vEdges (stitched ls) = (ls.map vEdges).flatten
  | [], _, _ => by simp [stitched]
  | [l], _, _ => by simp [stitched]
  | l :: l' :: rest, hn, hc => by
    rw [List.isChain_cons_cons] at hc
    have ih := stitched_vEdges (fun x hx => hn x (List.mem_cons_of_mem _ hx)) hc.2
    rw [List.map_cons, List.flatten_cons, ← ih,
      show stitched (l :: l' :: rest) = l.dropLast ++ stitched (l' :: rest) from rfl]
    have hl := hn l (by simp)
    have hb : ∃ b, (l' :: rest).getLast? = some b := ⟨_, List.getLast?_eq_some_getLast (by simp)⟩
    obtain ⟨b, hb⟩ := hb
    obtain ⟨g1, -, g3⟩ := stitched_ends (fun x hx => hn x (List.mem_cons_of_mem _ hx)) rfl hb
    obtain ⟨l0, z, rfl⟩ : ∃ l0 z, l = l0 ++ [z] := by
      have hne : l ≠ [] := by rintro rfl; simp at hl
      exact ⟨l.dropLast, l.getLast hne, (List.dropLast_append_getLast hne).symm⟩
    rw [List.dropLast_concat]
    generalize stitched (l' :: rest) = st at g1 g3 ⊢
    obtain ⟨w, st', rfl⟩ : ∃ w st', st = w :: st' := by
      cases st with
      | nil => simp at g3
      | cons w st' => exact ⟨w, st', rfl⟩
    have hwz : w.pos = z.pos := by
      have h1 := hc.1
      simp only [posns, List.map_append, List.map_cons, List.map_nil, List.getLast?_concat, List.head?_map] at h1
      rw [← g1] at h1
      simp only [List.head?_cons, Option.map_some, Option.some.injEq] at h1
      exact h1.symm
    rw [vEdges_append hwz]

/-- The polyline made of a chain that closes. -/
theorem loop_arcs {verts : ℕ → List Vertex} {c : List ℕ × Bool} (hcl : c.2 = true)
    (h2 : ∀ i ∈ c.1, 2 ≤ (verts i).length)
    (hloop : ClosedLoop (fun i j => (posns (verts i)).getLast? = (posns (verts j)).head?) c.1)
    (hne : ∀ i ∈ c.1, (posns (verts i)).getLast? ≠ (posns (verts i)).head?) :
    ∃ q, closedChain verts c = some q ∧ q.isClosed = true ∧ 2 ≤ q.size ∧
      cEdges q = (c.1.map fun i => vEdges (verts i)).flatten := by
  obtain ⟨hch, a, b, ha, hb, hab⟩ := hloop
  have h2' : ∀ l ∈ c.1.map verts, 2 ≤ l.length := by
    intro l hl
    obtain ⟨i, hi, rfl⟩ := List.mem_map.1 hl
    exact h2 i hi
  have hlen : 2 ≤ c.1.length := by
    match hc1 : c.1 with
    | [] => rw [hc1] at ha; simp at ha
    | [i] =>
      rw [hc1] at ha hb
      simp only [List.head?_cons, Option.some.injEq, List.getLast?_singleton] at ha hb
      subst ha hb
      exact absurd hab (hne _ (by rw [hc1]; simp))
    | i :: j :: r => simp
  obtain ⟨g1, g2, g3⟩ := stitched_ends h2' (a := verts a) (b := verts b) (by rw [List.head?_map, ha]; rfl)
    (by rw [List.getLast?_map, hb]; rfl)
  have hed := stitched_vEdges h2' (by
    rw [List.isChain_map]
    exact hch)
  rw [List.length_map] at g3
  unfold closedChain
  rw [if_pos ⟨hcl, by omega⟩]
  refine ⟨_, rfl, rfl, ?_, ?_⟩
  · show 2 ≤ (stitched (c.1.map verts)).dropLast.length
    rw [List.length_dropLast]; omega
  · rw [List.map_map] at hed
    rw [show (c.1.map fun i => vEdges (verts i)) = c.1.map (vEdges ∘ verts) from rfl, ← hed]
    generalize stitched (c.1.map verts) = st at g1 g2 g3
    have hst : st ≠ [] := by rintro rfl; simp at g3
    obtain ⟨st', z, rfl⟩ : ∃ l0 z, st = l0 ++ [z] :=
      ⟨st.dropLast, st.getLast hst, (List.dropLast_append_getLast hst).symm⟩
    cases st' with
    | nil => simp only [List.nil_append, List.length_singleton] at g3; omega
    | cons w st' =>
      simp only [List.dropLast_concat]
      have h1 : some w = (verts a).head? := g1
      have h3 : some z = (verts b).getLast? := by
        rw [← g2, List.getLast?_concat]
      have hz : z.pos = w.pos := by
        simp only [posns, List.getLast?_map, List.head?_map, ← h1, ← h3, Option.map_some, Option.some.injEq] at hab
        exact hab
      exact cEdges_closed hz

set_option maxHeartbeats 1000000 in
theorem loops_arcs {slices : List Polyline} {X : List V2} (hX : X.Pairwise fun a b => ¬ Near (3 / 10 ^ 4) a b)
    (h2 : ∀ s ∈ slices, 2 ≤ s.vertexes.length)
    {a b : Polyline → V2} (ha : ∀ s ∈ slices, (pts s).head? = some (a s))
    (hb : ∀ s ∈ slices, (pts s).getLast? = some (b s)) (hab : ∀ s ∈ slices, a s ≠ b s)
    (pa : (slices.map a).Perm X) (pb : (slices.map b).Perm X)
    {sel : StitchSelector} {prefs : ℕ → List (ℕ → Prop)}
    (hsel : ∀ i avail, avail ≠ [] → ∃ r, sel i avail = .ok r ∧ Picks avail (prefs i) r)
    (hpref : ∀ i < slices.length, ∃ P ∈ prefs i, ∀ k, P k)
    {chains : List (List ℕ × Bool)}
    (hperm : (chains.map Prod.fst).flatten.Perm (List.range slices.length))
    (hch : SelectedChains (fun i j => Follows (1 / 10 ^ 4) ((slices.getD i Polyline.empty).vertexes)
      ((slices.getD j Polyline.empty).vertexes)) sel chains) :
    let res := chains.filterMap (closedChain fun i => (slices.getD i Polyline.empty).vertexes)
    (∀ q ∈ res, q.isClosed = true ∧ 2 ≤ q.size) ∧
    (res.map fun q => cEdges q).flatten.Perm (slices.map fun s => vEdges s.vertexes).flatten := by
  intro res
  have hXn := near_pairwise_nodup hX
  set verts : ℕ → List Vertex := fun i => (slices.getD i Polyline.empty).vertexes with hverts
  have vget : ∀ {i} (hi : i < slices.length), verts i = slices[i].vertexes := by
    intro i hi
    rw [hverts]; simp only; rw [List.getD_eq_getElem _ _ hi]
  have vpos : ∀ {i} (hi : i < slices.length), posns (verts i) = pts slices[i] := by
    intro i hi
    rw [vget hi]; rfl
  have vnil : ∀ {i}, ¬ i < slices.length → verts i = [] := by
    intro i hi
    rw [hverts]; simp only
    rw [List.getD_eq_default _ _ (not_lt.1 hi)]; rfl
  have pnil : ∀ {i}, ¬ i < slices.length → posns (verts i) = [] := by
    intro i hi; rw [vnil hi]; rfl
  have aX : ∀ s ∈ slices, a s ∈ X := fun s hs => pa.mem_iff.1 (List.mem_map.2 ⟨s, hs, rfl⟩)
  have bX : ∀ s ∈ slices, b s ∈ X := fun s hs => pb.mem_iff.1 (List.mem_map.2 ⟨s, hs, rfl⟩)
  -- following is having the same point
  have hfol : ∀ i j, Follows (1 / 10 ^ 4) (verts i) (verts j) ↔ i < slices.length ∧
      (posns (verts i)).getLast? = (posns (verts j)).head? := by
    intro i j
    constructor
    · rintro ⟨e, s, he, hs, h3, h4⟩
      by_cases hi : i < slices.length
      · by_cases hj : j < slices.length
        · refine ⟨hi, ?_⟩
          have e1 := hb _ (List.getElem_mem hi)
          have e2 := ha _ (List.getElem_mem hj)
          rw [vpos hi, vpos hj, e1, e2]
          rw [vget hi] at he
          rw [vget hj] at hs
          unfold pts at e1 e2
          rw [List.getLast?_map, he] at e1
          rw [List.head?_map, hs] at e2
          simp only [Option.map_some, Option.some.injEq] at e1 e2
          rw [e1, e2] at h3 h4
          rw [eq_of_close hX (bX _ (List.getElem_mem hi)) (aX _ (List.getElem_mem hj)) h3 h4]
        · rw [vnil hj] at hs; simp at hs
      · rw [vnil hi] at he; simp at he
    · rintro ⟨hi, h⟩
      have e1 := hb _ (List.getElem_mem hi)
      rw [← vpos hi] at e1
      rw [e1] at h
      unfold posns at e1 h
      rw [List.getLast?_map, Option.map_eq_some_iff] at e1
      symm at h
      rw [List.head?_map, Option.map_eq_some_iff] at h
      obtain ⟨e, he, he'⟩ := e1
      obtain ⟨s, hs, hs'⟩ := h
      refine ⟨e, s, he, hs, ?_, ?_⟩
      · rw [he', hs', sub_self, abs_zero]; norm_num
      · rw [he', hs', sub_self, abs_zero]; norm_num
  have hclose := chains_close (follows := fun i j => Follows (1 / 10 ^ 4) (verts i) (verts j)) (sel := sel)
    (total := slices.length)
    (by
      intro i hi
      have h1 : b slices[i] ∈ slices.map a := pa.mem_iff.2 (bX _ (List.getElem_mem hi))
      obtain ⟨s, hs, he⟩ := List.mem_map.1 h1
      obtain ⟨j, hj, rfl⟩ := List.getElem_of_mem hs
      refine ⟨j, hj, (hfol i j).2 ⟨hi, ?_⟩⟩
      rw [vpos hi, vpos hj, hb _ (List.getElem_mem hi), ha _ (List.getElem_mem hj), he])
    (by
      intro i hi i' hi' j h h'
      have e1 := ((hfol i j).1 h).2
      have e2 := ((hfol i' j).1 h').2
      rw [← e2, vpos hi, vpos hi', hb _ (List.getElem_mem hi), hb _ (List.getElem_mem hi'), Option.some.injEq] at e1
      have hnd : (slices.map b).Nodup := pb.nodup_iff.2 hXn
      have := (hnd.getElem_inj_iff (i := i) (j := i') (hi := by simpa using hi) (hj := by simpa using hi')).1
        (by simpa using e1)
      exact this)
    (by
      intro i hi avail hne
      obtain ⟨r, h1, h3⟩ := hsel i avail hne
      obtain ⟨P, hP, hall⟩ := hpref i hi
      obtain ⟨k, hk, rfl⟩ := picks_last hne ⟨P, hP, fun k _ => hall k⟩ h3
      exact ⟨k, hk, h1⟩)
    (by
      intro i avail r hne h
      obtain ⟨r', h1, h3⟩ := hsel i avail hne
      rw [h] at h1
      cases h1
      exact picks_mem h3 r rfl)
    chains [] (by simpa using hperm) (by simp) hch
  have hlt : ∀ c ∈ chains, ∀ i ∈ c.1, i < slices.length := by
    intro c hc i hi
    apply List.mem_range.1
    apply hperm.mem_iff.1
    rw [List.mem_flatten]
    exact ⟨c.1, List.mem_map.2 ⟨c, hc, rfl⟩, hi⟩
  have hq : ∀ c ∈ chains, ∃ q, closedChain verts c = some q ∧ q.isClosed = true ∧
      2 ≤ q.size ∧ cEdges q = (c.1.map fun i => vEdges (verts i)).flatten := by
    intro c hc
    obtain ⟨c1, c2, c3⟩ := hclose c hc
    refine loop_arcs c1 ?_ ?_ ?_
    · intro i hi
      rw [vget (hlt c hc i hi)]
      exact h2 _ (List.getElem_mem _)
    · refine ⟨c2.imp fun i j h => ((hfol i j).1 h).2, ?_⟩
      obtain ⟨a', b', d1, d2, d3⟩ := c3
      exact ⟨a', b', d1, d2, ((hfol _ _).1 d3).2⟩
    · intro i hi
      have hi' := hlt c hc i hi
      rw [vpos hi', ha _ (List.getElem_mem hi'), hb _ (List.getElem_mem hi')]
      intro e
      exact hab _ (List.getElem_mem hi') (by simpa using e.symm)
  constructor
  · intro q hqm
    obtain ⟨c, hc, hcq⟩ := List.mem_filterMap.1 hqm
    obtain ⟨q', g1, g2, g4, g5⟩ := hq c hc
    rw [g1] at hcq
    cases hcq
    exact ⟨g2, g4⟩
  · have e1 : ∀ l : List (List ℕ × Bool), (∀ c ∈ l, c ∈ chains) →
        ((l.filterMap (closedChain verts)).map fun q => cEdges q).flatten =
        (((l.map Prod.fst).flatten).map fun i => vEdges (verts i)).flatten := by
      intro l
      induction l with
      | nil => intro _; rfl
      | cons c l ih =>
        intro hm
        obtain ⟨q, g1, -, -, g5⟩ := hq c (hm c (by simp))
        rw [List.filterMap_cons_some g1, List.map_cons, List.flatten_cons,
          ih fun d hd => hm d (List.mem_cons_of_mem _ hd),
          List.map_cons, List.flatten_cons, List.map_append, List.flatten_append, g5]
    rw [e1 chains fun c hc => hc]
    refine ((hperm.map _).flatten).trans (List.Perm.of_eq ?_)
    congr 1
    apply List.ext_getElem
    · simp
    · intro i h3 h4
      simp only [List.length_map, List.length_range] at h3
      simp only [List.getElem_map, List.getElem_range]
      rw [vget h3]

end
end Cavc

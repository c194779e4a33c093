import Verif.Proofs.Meet
import Verif.Proofs.SidesMul

/-! Slices whose starts and whose ends are the same points far from each other: all chains close, and the
polygons wind around a point as often as the slices together. -/
namespace Cavc
open Spec
open scoped Classical
noncomputable section

theorem picks_last {avail : List ℕ} (hne : avail ≠ []) : ∀ {ps : List (ℕ → Prop)} {r : Option ℕ},
    (∃ P ∈ ps, ∀ k ∈ avail, P k) → Picks avail ps r → ∃ k ∈ avail, r = some k
  | [], _, h, _ => by obtain ⟨P, hP, -⟩ := h; simp at hP
  | P :: rest, r, h, hp => by
    unfold Picks at hp
    rcases hp with ⟨k, h1, h2, -⟩ | ⟨h1, h2⟩
    · exact ⟨k, h2, h1⟩
    · obtain ⟨Q, hQ, hall⟩ := h
      rcases List.mem_cons.1 hQ with rfl | hQ
      · obtain ⟨k, hk⟩ := List.exists_mem_of_ne_nil _ hne
        exact absurd (hall k hk) (h1 k hk)
      · exact picks_last hne ⟨Q, hQ, hall⟩ h2

/-- Points whose coordinates do not differ by much are the same if different ones are far. -/
theorem eq_of_close {X : List V2} (hX : X.Pairwise fun a b => ¬ Near (3 / 10 ^ 4) a b) {a b : V2} (ha : a ∈ X)
    (hb : b ∈ X) (h1 : |a.x - b.x| ≤ 2 * (1 / 10 ^ 4)) (h2 : |a.y - b.y| ≤ 2 * (1 / 10 ^ 4)) : a = b := by
  by_contra hne
  have : Std.Symm fun a b : V2 => ¬ Near (3 / 10 ^ 4) a b := ⟨fun u v h h' => h (near_symm h')⟩
  have := hX.forall ha hb hne
  apply this
  constructor
  · exact lt_of_le_of_lt h1 (by norm_num)
  · exact lt_of_le_of_lt h2 (by norm_num)

theorem near_pairwise_nodup {X : List V2} (hX : X.Pairwise fun a b => ¬ Near (3 / 10 ^ 4) a b) : X.Nodup :=
  hX.imp fun h => ne_of_not_near (by norm_num) h

set_option maxHeartbeats 1000000 in
theorem loops_sum {slices : List Polyline} {X : List V2} (hX : X.Pairwise fun a b => ¬ Near (3 / 10 ^ 4) a b)
    (h2 : ∀ s ∈ slices, 2 ≤ s.vertexes.length) (hl : ∀ s ∈ slices, ∀ v ∈ s.vertexes, IsLine v)
    {a b : Polyline → V2} (ha : ∀ s ∈ slices, (pts s).head? = some (a s))
    (hb : ∀ s ∈ slices, (pts s).getLast? = some (b s)) (hab : ∀ s ∈ slices, a s ≠ b s)
    (pa : (slices.map a).Perm X) (pb : (slices.map b).Perm X)
    {sel : StitchSelector} {prefs : ℕ → List (ℕ → Prop)}
    (hsel : ∀ i avail, avail ≠ [] → ∃ r, sel i avail = .ok r ∧ Picks avail (prefs i) r)
    (hpref : ∀ i < slices.length, ∃ P ∈ prefs i, ∀ k, P k)
    {chains : List (List ℕ × Bool)}
    (hperm : (chains.map Prod.fst).flatten.Perm (List.range slices.length))
    (hch : SelectedChains (fun i j => Follows (1 / 10 ^ 4) ((slices.getD i Polyline.empty).vertexes)
      ((slices.getD j Polyline.empty).vertexes)) sel chains) :
    let res := chains.filterMap (closedChain fun i => (slices.getD i Polyline.empty).vertexes)
    (∀ q ∈ res, q.isClosed = true ∧ (∀ v ∈ q.vertexes, IsLine v) ∧ 2 ≤ q.size) ∧
    (res.map fun q => polyEdges (ppos q) q.size).flatten.Perm (slices.map fun s => pathEdges (pts s)).flatten := by
  intro res
  have hXn := near_pairwise_nodup hX
  set verts : ℕ → List Vertex := fun i => (slices.getD i Polyline.empty).vertexes with hverts
  have vget : ∀ {i} (hi : i < slices.length), verts i = slices[i].vertexes := by
    intro i hi
    rw [hverts]; simp only; rw [List.getD_eq_getElem _ _ hi]
  have vpos : ∀ {i} (hi : i < slices.length), posns (verts i) = pts slices[i] := by
    intro i hi
    rw [vget hi]; rfl
  have vnil : ∀ {i}, ¬ i < slices.length → verts i = [] := by
    intro i hi
    rw [hverts]; simp only
    rw [List.getD_eq_default _ _ (not_lt.1 hi)]; rfl
  have pnil : ∀ {i}, ¬ i < slices.length → posns (verts i) = [] := by
    intro i hi; rw [vnil hi]; rfl
  have aX : ∀ s ∈ slices, a s ∈ X := fun s hs => pa.mem_iff.1 (List.mem_map.2 ⟨s, hs, rfl⟩)
  have bX : ∀ s ∈ slices, b s ∈ X := fun s hs => pb.mem_iff.1 (List.mem_map.2 ⟨s, hs, rfl⟩)
  -- following is having the same point
  have hfol : ∀ i j, Follows (1 / 10 ^ 4) (verts i) (verts j) ↔ i < slices.length ∧
      (posns (verts i)).getLast? = (posns (verts j)).head? := by
    intro i j
    constructor
    · rintro ⟨e, s, he, hs, h3, h4⟩
      by_cases hi : i < slices.length
      · by_cases hj : j < slices.length
        · refine ⟨hi, ?_⟩
          have e1 := hb _ (List.getElem_mem hi)
          have e2 := ha _ (List.getElem_mem hj)
          rw [vpos hi, vpos hj, e1, e2]
          rw [vget hi] at he
          rw [vget hj] at hs
          unfold pts at e1 e2
          rw [List.getLast?_map, he] at e1
          rw [List.head?_map, hs] at e2
          simp only [Option.map_some, Option.some.injEq] at e1 e2
          rw [e1, e2] at h3 h4
          rw [eq_of_close hX (bX _ (List.getElem_mem hi)) (aX _ (List.getElem_mem hj)) h3 h4]
        · rw [vnil hj] at hs; simp at hs
      · rw [vnil hi] at he; simp at he
    · rintro ⟨hi, h⟩
      have e1 := hb _ (List.getElem_mem hi)
      rw [← vpos hi] at e1
      rw [e1] at h
      unfold posns at e1 h
      rw [List.getLast?_map, Option.map_eq_some_iff] at e1
      symm at h
      rw [List.head?_map, Option.map_eq_some_iff] at h
      obtain ⟨e, he, he'⟩ := e1
      obtain ⟨s, hs, hs'⟩ := h
      refine ⟨e, s, he, hs, ?_, ?_⟩
      · rw [he', hs', sub_self, abs_zero]; norm_num
      · rw [he', hs', sub_self, abs_zero]; norm_num
  have hclose := chains_close (follows := fun i j => Follows (1 / 10 ^ 4) (verts i) (verts j)) (sel := sel)
    (total := slices.length)
    (by
      intro i hi
      have h1 : b slices[i] ∈ slices.map a := pa.mem_iff.2 (bX _ (List.getElem_mem hi))
      obtain ⟨s, hs, he⟩ := List.mem_map.1 h1
      obtain ⟨j, hj, rfl⟩ := List.getElem_of_mem hs
      refine ⟨j, hj, (hfol i j).2 ⟨hi, ?_⟩⟩
      rw [vpos hi, vpos hj, hb _ (List.getElem_mem hi), ha _ (List.getElem_mem hj), he])
    (by
      intro i hi i' hi' j h h'
      have e1 := ((hfol i j).1 h).2
      have e2 := ((hfol i' j).1 h').2
      rw [← e2, vpos hi, vpos hi', hb _ (List.getElem_mem hi), hb _ (List.getElem_mem hi'), Option.some.injEq] at e1
      have hnd : (slices.map b).Nodup := pb.nodup_iff.2 hXn
      have := (hnd.getElem_inj_iff (i := i) (j := i') (hi := by simpa using hi) (hj := by simpa using hi')).1
        (by simpa using e1)
      exact this)
    (by
      intro i hi avail hne
      obtain ⟨r, h1, h3⟩ := hsel i avail hne
      obtain ⟨P, hP, hall⟩ := hpref i hi
      obtain ⟨k, hk, rfl⟩ := picks_last hne ⟨P, hP, fun k _ => hall k⟩ h3
      exact ⟨k, hk, h1⟩)
    (by
      intro i avail r hne h
      obtain ⟨r', h1, h3⟩ := hsel i avail hne
      rw [h] at h1
      cases h1
      exact picks_mem h3 r rfl)
    chains [] (by simpa using hperm) (by simp) hch
  have hlt : ∀ c ∈ chains, ∀ i ∈ c.1, i < slices.length := by
    intro c hc i hi
    apply List.mem_range.1
    apply hperm.mem_iff.1
    rw [List.mem_flatten]
    exact ⟨c.1, List.mem_map.2 ⟨c, hc, rfl⟩, hi⟩
  have hq : ∀ c ∈ chains, ∃ q, closedChain verts c = some q ∧ q.isClosed = true ∧ (∀ v ∈ q.vertexes, IsLine v) ∧
      2 ≤ q.size ∧ polyEdges (ppos q) q.size = (c.1.map fun i => pathEdges (posns (verts i))).flatten := by
    intro c hc
    obtain ⟨c1, c2, c3⟩ := hclose c hc
    refine loop_polygon c1 ?_ ?_ ?_ ?_
    · intro i hi
      rw [vget (hlt c hc i hi)]
      exact h2 _ (List.getElem_mem _)
    · intro i hi v hv
      rw [vget (hlt c hc i hi)] at hv
      exact hl _ (List.getElem_mem _) v hv
    · refine ⟨c2.imp fun i j h => ((hfol i j).1 h).2, ?_⟩
      obtain ⟨a', b', d1, d2, d3⟩ := c3
      exact ⟨a', b', d1, d2, ((hfol _ _).1 d3).2⟩
    · intro i hi
      have hi' := hlt c hc i hi
      rw [vpos hi', ha _ (List.getElem_mem hi'), hb _ (List.getElem_mem hi')]
      intro e
      exact hab _ (List.getElem_mem hi') (by simpa using e.symm)
  constructor
  · intro q hqm
    obtain ⟨c, hc, hcq⟩ := List.mem_filterMap.1 hqm
    obtain ⟨q', g1, g2, g3, g4, g5⟩ := hq c hc
    rw [g1] at hcq
    cases hcq
    exact ⟨g2, g3, g4⟩
  · have e1 : ∀ l : List (List ℕ × Bool), (∀ c ∈ l, c ∈ chains) →
        ((l.filterMap (closedChain verts)).map fun q => polyEdges (ppos q) q.size).flatten =
        (((l.map Prod.fst).flatten).map fun i => pathEdges (posns (verts i))).flatten := by
      intro l
      induction l with
      | nil => intro _; rfl
      | cons c l ih =>
        intro hm
        obtain ⟨q, g1, -, -, -, g5⟩ := hq c (hm c (by simp))
        rw [List.filterMap_cons_some g1, List.map_cons, List.flatten_cons,
          ih fun d hd => hm d (List.mem_cons_of_mem _ hd),
          List.map_cons, List.flatten_cons, List.map_append, List.flatten_append, g5]
    rw [e1 chains fun c hc => hc]
    refine ((hperm.map _).flatten).trans (List.Perm.of_eq ?_)
    congr 1
    apply List.ext_getElem
    · simp
    · intro i h3 h4
      simp only [List.length_map, List.length_range] at h3
      simp only [List.getElem_map, List.getElem_range]
      rw [vpos h3]

theorem edgesW_perm {E F : List (V2 × V2)} (h : E.Perm F) (x : V2) : edgesW E x = edgesW F x := by
  unfold edgesW
  exact (h.map _).sum_eq

end
end Cavc

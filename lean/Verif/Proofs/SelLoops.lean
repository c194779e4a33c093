import Verif.Proofs.OffsetLoops

/-! Slices of which as many start as end in each point: the chains that take the first available slice close, and the
closed polylines they make consist of the segments of the slices. -/
namespace Cavc
open Spec
open scoped Classical
noncomputable section

section
variable {v : ℕ → List Vertex}

theorem chain_lists : ∀ {c : List ℕ} {s0 z : ℕ}, c.head? = some s0 → c.getLast? = some z →
    List.IsChain (fun a b => stopOf (v a) = beginOf (v b)) c →
    ∃ T, (c.map fun a => beginOf (v a)) = beginOf (v s0) :: T ∧ (c.map fun a => stopOf (v a)) = T ++ [stopOf (v z)]
  | [], _, _, h, _, _ => by simp at h
  | [a], s0, z, h, h', _ => by
    simp only [List.head?_cons, Option.some.injEq, List.getLast?_singleton] at h h'
    subst h h'
    exact ⟨[], rfl, rfl⟩
  | a :: b :: c, s0, z, h, h', hc => by
    rw [List.isChain_cons_cons] at hc
    simp only [List.head?_cons, Option.some.injEq] at h
    subst h
    obtain ⟨T, h1, h2⟩ := chain_lists (c := b :: c) (s0 := b) (z := z) rfl (by rw [List.getLast?_cons_cons] at h'; exact h') hc.2
    refine ⟨beginOf (v b) :: T, ?_, ?_⟩
    · rw [List.map_cons, h1]
    · rw [List.map_cons, h2, hc.1, List.cons_append]

theorem sel_close {fol : ℕ → ℕ → Prop} : ∀ {chains : List (List ℕ × Bool)},
    (∀ a ∈ (chains.map Prod.fst).flatten, ∀ b ∈ (chains.map Prod.fst).flatten, fol a b ↔ stopOf (v a) = beginOf (v b)) →
    ((chains.map Prod.fst).flatten.map fun a => beginOf (v a)).Perm
      ((chains.map Prod.fst).flatten.map fun a => stopOf (v a)) →
    SelectedChains fol (fun _ avail => .ok avail.head?) chains →
    ∀ c ∈ chains, c.2 = true ∧ ∃ s0 z, c.1.head? = some s0 ∧ c.1.getLast? = some z ∧ stopOf (v z) = beginOf (v s0) ∧
      List.IsChain (fun a b => stopOf (v a) = beginOf (v b)) c.1
  | [], _, _, _, c, hc => by simp at hc
  | (c0, closes) :: cs, hf, hb, hg, c, hc => by
    unfold SelectedChains at hg
    obtain ⟨⟨first, g0, -, g1⟩, g2⟩ := hg
    simp only [List.map_cons, List.flatten_cons] at hf hb
    have m1 : ∀ a ∈ c0, a ∈ c0 ++ (cs.map Prod.fst).flatten := fun a ha => List.mem_append_left _ ha
    have m2 : ∀ a ∈ (cs.map Prod.fst).flatten, a ∈ c0 ++ (cs.map Prod.fst).flatten := fun a ha => List.mem_append_right _ ha
    obtain ⟨h1, z, h2, avail, h3, h4⟩ := chain_spec (fun i avail r hne h => by
      obtain ⟨a, l, rfl⟩ := List.exists_cons_of_ne_nil hne
      have := Except.ok.inj h
      simp only [List.head?_cons, Option.some.injEq] at this
      rw [← this]; simp) g1
    have hz : z ∈ c0 := List.mem_of_getLast? h2
    have h0 : first ∈ c0 := List.mem_of_mem_head? g0
    have hchain : List.IsChain (fun a b => stopOf (v a) = beginOf (v b)) c0 := by
      rw [List.isChain_iff_getElem] at h1 ⊢
      intro i hi
      exact (hf _ (m1 _ (List.getElem_mem _)) _ (m1 _ (List.getElem_mem _))).1 (h1 i hi)
    obtain ⟨T, e1, e2⟩ := chain_lists g0 h2 hchain
    rw [List.map_append, List.map_append, e1, e2] at hb
    have hb2 : (beginOf (v first) :: (cs.map Prod.fst).flatten.map fun a => beginOf (v a)).Perm
        (stopOf (v z) :: (cs.map Prod.fst).flatten.map fun a => stopOf (v a)) := by
      rw [List.perm_iff_count] at hb ⊢
      intro x
      have := hb x
      simp only [List.cons_append, List.count_append, List.count_cons, List.count_nil] at this ⊢
      omega
    have hcl : closes = true ∧ stopOf (v z) = beginOf (v first) := by
      rcases h4 with ⟨k1, k2⟩ | ⟨-, k2⟩
      · exact ⟨k1, (hf z (m1 z hz) first (m1 first h0)).1 k2⟩
      · exfalso
        have hnil : avail = [] := by
          rcases k2 with q | q
          · exact q
          · have := Except.ok.inj q
            exact List.head?_eq_none_iff.1 this
        subst hnil
        have hno : ∀ k, ¬ (fol z k ∧ (k = first ∨ k ∈ (cs.map Prod.fst).flatten)) := fun k hk => by
          have := (h3.2 k).2 hk
          simp at this
        have : stopOf (v z) ∈ beginOf (v first) :: (cs.map Prod.fst).flatten.map fun a => beginOf (v a) :=
          hb2.mem_iff.2 (by simp)
        rcases List.mem_cons.1 this with q | q
        · exact hno first ⟨(hf z (m1 z hz) first (m1 first h0)).2 q, Or.inl rfl⟩
        · obtain ⟨j, hj, e⟩ := List.mem_map.1 q
          exact hno j ⟨(hf z (m1 z hz) j (m2 j hj)).2 e.symm, Or.inr hj⟩
    rcases List.mem_cons.1 hc with rfl | hc
    · exact ⟨hcl.1, first, z, g0, h2, hcl.2, hchain⟩
    · rw [hcl.2, List.perm_cons] at hb2
      exact sel_close (fun a ha b hb => hf a (m2 a ha) b (m2 b hb)) hb2 g2 c hc

end

/-- The result of stitching balanced slices: closed polylines with exactly the segments of the slices. -/
theorem sel_loops {slices : List Polyline} (htwo : ∀ s ∈ slices, 2 ≤ s.vertexes.length)
    (hshort : ∀ s ∈ slices, s.vertexes.length = 2 → beginOf s.vertexes ≠ stopOf s.vertexes)
    (hap : ∀ s ∈ slices, ∀ t ∈ slices, |(stopOf s.vertexes).x - (beginOf t.vertexes).x| ≤ 2 / 10 ^ 4 →
      |(stopOf s.vertexes).y - (beginOf t.vertexes).y| ≤ 2 / 10 ^ 4 → stopOf s.vertexes = beginOf t.vertexes)
    (hb : ((slices.map fun s => vEdges s.vertexes).flatten.map fun e => e.1.pos).Perm
      ((slices.map fun s => vEdges s.vertexes).flatten.map fun e => e.2))
    {chains : List (List ℕ × Bool)}
    (hperm : (chains.map Prod.fst).flatten.Perm (List.range slices.length))
    (hch : SelectedChains (fun i j => Follows (1 / 10 ^ 4) ((slices.getD i Polyline.empty).vertexes)
      ((slices.getD j Polyline.empty).vertexes)) (fun _ avail => .ok avail.head?) chains) :
    let res := chains.filterMap (closedChain fun i => (slices.getD i Polyline.empty).vertexes)
    (∀ q ∈ res, q.isClosed = true ∧ 2 ≤ q.size) ∧
    (res.map cEdges).flatten.Perm (slices.map fun s => vEdges s.vertexes).flatten := by
  intro res
  have hne : ∀ s ∈ slices, s.vertexes ≠ [] := by
    intro s hs h0
    have := htwo s hs
    rw [h0] at this
    simp at this
  have hbal := slices_balanced (fun s : Polyline => s.vertexes) hne hb
  set verts : ℕ → List Vertex := fun i => (slices.getD i Polyline.empty).vertexes with hverts
  have vmem : ∀ {i}, i ∈ (chains.map Prod.fst).flatten → ∃ s ∈ slices, verts i = s.vertexes := by
    intro i hi
    have hi := List.mem_range.1 (hperm.mem_iff.1 hi)
    exact ⟨slices[i], List.getElem_mem _, by rw [hverts]; simp only; rw [List.getD_eq_getElem _ _ hi]⟩
  have hmapr : ∀ {β : Type} (g : List Vertex → β), ((List.range slices.length).map fun i => g (verts i)) =
      slices.map fun s => g s.vertexes := by
    intro β g
    apply List.ext_getElem
    · simp
    · intro i h1 h2
      simp only [List.getElem_map, List.getElem_range]
      rw [hverts]
      simp only
      rw [List.getD_eq_getElem _ _ (by simpa using h2)]
  have hfol : ∀ a ∈ (chains.map Prod.fst).flatten, ∀ b ∈ (chains.map Prod.fst).flatten,
      Follows (1 / 10 ^ 4) (verts a) (verts b) ↔ stopOf (verts a) = beginOf (verts b) := by
    intro a ha b hb
    obtain ⟨s, hs, es⟩ := vmem ha
    obtain ⟨t, ht, et⟩ := vmem hb
    rw [es, et]
    have p1 := (posns_ends (hne s hs)).2
    have p2 := (posns_ends (hne t ht)).1
    unfold posns at p1 p2
    rw [List.getLast?_map, Option.map_eq_some_iff] at p1
    rw [List.head?_map, Option.map_eq_some_iff] at p2
    obtain ⟨e, e1, e2⟩ := p1
    obtain ⟨f, f1, f2⟩ := p2
    constructor
    · rintro ⟨e', f', g1, g2, g3, g4⟩
      rw [e1] at g1
      rw [f1] at g2
      cases g1
      cases g2
      rw [e2, f2] at g3 g4
      exact hap s hs t ht (by linarith [show 2 * ((1 : ℝ) / 10 ^ 4) = 2 / 10 ^ 4 by norm_num])
        (by linarith [show 2 * ((1 : ℝ) / 10 ^ 4) = 2 / 10 ^ 4 by norm_num])
    · intro he
      refine ⟨e, f, e1, f1, ?_, ?_⟩
      · rw [e2, f2, he, sub_self, abs_zero]; norm_num
      · rw [e2, f2, he, sub_self, abs_zero]; norm_num
  have hclose := sel_close (v := verts) hfol (by
    refine (hperm.map _).trans (List.Perm.trans ?_ (hperm.map _).symm)
    rw [hmapr, hmapr]
    exact hbal) hch
  have key : ∀ c ∈ chains, ∃ q, closedChain verts c = some q ∧ q.isClosed = true ∧ 2 ≤ q.size ∧
      cEdges q = (c.1.map fun i => vEdges (verts i)).flatten := by
    intro c hc
    obtain ⟨k1, s0, z, k2, k3, k4, k5⟩ := hclose c hc
    have hcm : ∀ i ∈ c.1, ∃ s ∈ slices, verts i = s.vertexes := fun i hi =>
      vmem (List.mem_flatten.2 ⟨c.1, List.mem_map.2 ⟨c, hc, rfl⟩, hi⟩)
    have h2' : ∀ l ∈ c.1.map verts, 2 ≤ l.length := by
      intro l hl
      obtain ⟨i, hi, rfl⟩ := List.mem_map.1 hl
      obtain ⟨s, hs, e⟩ := hcm i hi
      rw [e]; exact htwo s hs
    have hn : ∀ i ∈ c.1, verts i ≠ [] := by
      intro i hi
      obtain ⟨s, hs, e⟩ := hcm i hi
      rw [e]; exact hne s hs
    obtain ⟨g1, g2, g3⟩ := stitched_ends h2' (a := verts s0) (b := verts z) (by rw [List.head?_map, k2]; rfl)
      (by rw [List.getLast?_map, k3]; rfl)
    have hed := stitched_vEdges h2' (by
      rw [List.isChain_map]
      rw [List.isChain_iff_getElem] at k5 ⊢
      intro i hi
      rw [(posns_ends (hn _ (List.getElem_mem _))).2, (posns_ends (hn _ (List.getElem_mem _))).1]
      exact congrArg some (k5 i hi))
    rw [List.length_map] at g3
    have h3 : 3 ≤ (stitched (c.1.map verts)).length := by
      match hc1 : c.1 with
      | [] => rw [hc1] at k2; simp at k2
      | [i] =>
        rw [hc1] at k2 k3
        simp only [List.head?_cons, Option.some.injEq, List.getLast?_singleton] at k2 k3
        subst k2 k3
        obtain ⟨s, hs, e⟩ := hcm i (by rw [hc1]; simp)
        simp only [List.map_cons, List.map_nil, stitched]
        rw [e] at k4 ⊢
        have := htwo s hs
        by_contra hq
        exact hshort s hs (by omega) k4.symm
      | i :: j :: r =>
        rw [hc1] at g3
        simp only [List.length_cons] at g3
        omega
    unfold closedChain
    rw [if_pos ⟨k1, h3⟩]
    refine ⟨_, rfl, rfl, ?_, ?_⟩
    · show 2 ≤ (stitched (c.1.map verts)).dropLast.length
      rw [List.length_dropLast]; omega
    · rw [List.map_map] at hed
      rw [show (c.1.map fun i => vEdges (verts i)) = c.1.map (vEdges ∘ verts) from rfl, ← hed]
      have hbe : beginOf (stitched (c.1.map verts)) = beginOf (verts s0) := by
        unfold beginOf posns; rw [List.head?_map, List.head?_map, g1]
      have hse : stopOf (stitched (c.1.map verts)) = stopOf (verts z) := by
        unfold stopOf posns; rw [List.getLast?_map, List.getLast?_map, g2]
      have heq : stopOf (stitched (c.1.map verts)) = beginOf (stitched (c.1.map verts)) := by rw [hbe, hse, k4]
      generalize stitched (c.1.map verts) = st at h3 heq
      have hst : st ≠ [] := by rintro rfl; simp at h3
      obtain ⟨st', z', rfl⟩ : ∃ l0 z, st = l0 ++ [z] :=
        ⟨st.dropLast, st.getLast hst, (List.dropLast_append_getLast hst).symm⟩
      cases st' with
      | nil => simp at h3
      | cons w st' =>
        simp only [List.dropLast_concat]
        refine cEdges_closed ?_
        have e1 : stopOf (w :: st' ++ [z']) = z'.pos := by
          unfold stopOf posns
          rw [List.getLast?_map, List.getLast?_concat]
          rfl
        have e2 : beginOf (w :: st' ++ [z']) = w.pos := by simp [beginOf, posns]
        rw [← e1, ← e2, heq]
  constructor
  · intro q hq
    obtain ⟨c, hc, e⟩ := List.mem_filterMap.1 hq
    obtain ⟨q', e', k1, k2, -⟩ := key c hc
    rw [e] at e'
    cases e'
    exact ⟨k1, k2⟩
  · have e1 : ∀ cs : List (List ℕ × Bool), (∀ c ∈ cs, c ∈ chains) →
        ((cs.filterMap (closedChain verts)).map cEdges).flatten =
          ((cs.map Prod.fst).flatten.map fun i => vEdges (verts i)).flatten := by
      intro cs hm
      induction cs with
      | nil => rfl
      | cons c cs ih =>
        obtain ⟨q, e, -, -, k⟩ := key c (hm c (by simp))
        rw [List.filterMap_cons_some e, List.map_cons, List.flatten_cons, ih fun c hc => hm c (List.mem_cons_of_mem _ hc),
          List.map_cons, List.flatten_cons, List.map_append, List.flatten_append, k]
    rw [e1 chains fun c hc => hc]
    have := (hperm.map fun i => vEdges (verts i)).flatten
    rw [hmapr] at this
    exact this

end
end Cavc

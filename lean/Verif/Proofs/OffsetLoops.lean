import Verif.Proofs.ArcLoops
import Verif.Proofs.StitchPts

/-! Slices of which as many start as end in each point: the greedy chains of their stitching close, and the closed
polylines they make consist of the segments of the slices. -/
namespace Cavc
open Spec
open scoped Classical
noncomputable section

/-- Where vertexes start. -/
def beginOf (vs : List Vertex) : V2 := ((posns vs).head?).getD ⟨0, 0⟩

/-- Where vertexes end. -/
def stopOf (vs : List Vertex) : V2 := ((posns vs).getLast?).getD ⟨0, 0⟩

theorem ends_beginOf {vs : List Vertex} {a b : V2} (h : Ends vs a b) : beginOf vs = a ∧ stopOf vs = b := by
  obtain ⟨u, w, e1, e2, rfl, rfl⟩ := h
  unfold beginOf stopOf posns
  rw [List.head?_map, List.getLast?_map, e1, e2]
  exact ⟨rfl, rfl⟩

theorem posns_ends {vs : List Vertex} (h : vs ≠ []) :
    (posns vs).head? = some (beginOf vs) ∧ (posns vs).getLast? = some (stopOf vs) := by
  unfold beginOf stopOf posns
  rw [List.head?_map, List.getLast?_map]
  obtain ⟨l, z, rfl⟩ : ∃ l0 z, vs = l0 ++ [z] :=
    ⟨vs.dropLast, vs.getLast h, (List.dropLast_append_getLast h).symm⟩
  refine ⟨by cases l <;> simp, ?_⟩
  rw [List.getLast?_concat]
  rfl

theorem vEdges_balance : ∀ {vs : List Vertex}, vs ≠ [] →
    ((vEdges vs).map (fun e => e.1.pos) ++ [stopOf vs]).Perm ((vEdges vs).map (fun e => e.2) ++ [beginOf vs])
  | [], h => absurd rfl h
  | [u], _ => by simp [beginOf, stopOf, posns]
  | u :: w :: l, _ => by
    have ih := vEdges_balance (vs := w :: l) (by simp)
    have e1 : stopOf (u :: w :: l) = stopOf (w :: l) := by simp [stopOf, posns]
    have e2 : beginOf (u :: w :: l) = u.pos := by simp [beginOf, posns]
    have e3 : beginOf (w :: l) = w.pos := by simp [beginOf, posns]
    rw [e3] at ih
    rw [vEdges_cons, List.map_cons, List.map_cons, e1, e2, List.cons_append, List.cons_append]
    refine (List.Perm.cons _ ih).trans ?_
    rw [← List.cons_append, ← List.cons_append]
    refine (List.perm_append_comm).trans ?_
    refine List.Perm.trans ?_ (List.perm_append_comm (l₁ := [u.pos])) 
    simp only [List.singleton_append]
    exact List.Perm.swap _ _ _

theorem slices_balance {α : Type} (f : α → List Vertex) : ∀ {ls : List α}, (∀ a ∈ ls, f a ≠ []) →
    ((ls.map fun a => (vEdges (f a)).map fun e => e.1.pos).flatten ++ ls.map fun a => stopOf (f a)).Perm
      ((ls.map fun a => (vEdges (f a)).map fun e => e.2).flatten ++ ls.map fun a => beginOf (f a))
  | [], _ => by simp
  | a :: ls, h => by
    have ih := slices_balance f (ls := ls) fun b hb => h b (List.mem_cons_of_mem _ hb)
    have h1 := vEdges_balance (h a (by simp))
    rw [List.perm_iff_count] at ih h1 ⊢
    intro z
    have i1 := ih z
    have i2 := h1 z
    simp only [List.map_cons, List.flatten_cons, List.count_append, List.count_cons, List.count_nil] at i1 i2 ⊢
    omega

/-- As many slices start as end in each point. -/
theorem slices_balanced {α : Type} (f : α → List Vertex) {ls : List α} (h : ∀ a ∈ ls, f a ≠ [])
    (hb : ((ls.map fun a => vEdges (f a)).flatten.map fun e => e.1.pos).Perm
      ((ls.map fun a => vEdges (f a)).flatten.map fun e => e.2)) :
    (ls.map fun a => beginOf (f a)).Perm (ls.map fun a => stopOf (f a)) := by
  have h1 := slices_balance f h
  rw [List.map_flatten, List.map_flatten, List.map_map, List.map_map] at hb
  rw [List.perm_iff_count] at h1 hb ⊢
  intro z
  have i1 := h1 z
  have i2 := hb z
  simp only [List.count_append] at i1
  simp only [Function.comp_def] at i2
  omega

section
variable {α : Type} {f : α → α → Prop} {d : α → α → ℕ} {v : α → List Vertex}

theorem greedy_lists {later : List α} : ∀ {c : List α},
    (∀ a ∈ c, ∀ b ∈ c, f a b → stopOf (v a) = beginOf (v b)) → GreedyChain f d later c →
    ∃ s0 z T, c.head? = some s0 ∧ c.getLast? = some z ∧ (c.map fun a => beginOf (v a)) = beginOf (v s0) :: T ∧
      (c.map fun a => stopOf (v a)) = T ++ [stopOf (v z)] ∧ (∀ j ∈ later, ¬ f z j) ∧
      List.IsChain (fun a b => stopOf (v a) = beginOf (v b)) c
  | [], _, h => absurd h (by simp [GreedyChain])
  | [a], _, h => ⟨a, a, [], rfl, rfl, rfl, rfl, h, List.isChain_singleton _⟩
  | a :: b :: c, hf, h => by
    obtain ⟨s0, z, T, h1, h2, h3, h4, h5, h6⟩ := greedy_lists (c := b :: c)
      (fun a' ha b' hb => hf a' (List.mem_cons_of_mem _ ha) b' (List.mem_cons_of_mem _ hb)) h.2.2
    have hab := hf a (by simp) b (by simp) h.1
    refine ⟨a, z, beginOf (v b) :: T, rfl, ?_, ?_, ?_, h5, List.isChain_cons_cons.2 ⟨hab, h6⟩⟩
    · rw [List.getLast?_cons_cons]; exact h2
    · rw [List.map_cons, h3]
      cases h1
      rfl
    · rw [List.map_cons, h4, hab, List.cons_append]

/-- Balanced slices make closed chains. -/
theorem greedy_close : ∀ {cs : List (List α)},
    (∀ a ∈ cs.flatten, ∀ b ∈ cs.flatten, f a b ↔ stopOf (v a) = beginOf (v b)) →
    (cs.flatten.map fun a => beginOf (v a)).Perm (cs.flatten.map fun a => stopOf (v a)) → GreedyChains f d cs →
    ∀ c ∈ cs, ∃ s0 z, c.head? = some s0 ∧ c.getLast? = some z ∧ stopOf (v z) = beginOf (v s0) ∧
      List.IsChain (fun a b => stopOf (v a) = beginOf (v b)) c
  | [], _, _, _, c, hc => by simp at hc
  | c0 :: cs, hf, hb, hg, c, hc => by
    obtain ⟨g1, g2⟩ := hg
    have m1 : ∀ a ∈ c0, a ∈ (c0 :: cs).flatten := fun a ha => by
      rw [List.flatten_cons]; exact List.mem_append_left _ ha
    have m2 : ∀ a ∈ cs.flatten, a ∈ (c0 :: cs).flatten := fun a ha => by
      rw [List.flatten_cons]; exact List.mem_append_right _ ha
    obtain ⟨s0, z, T, h1, h2, h3, h4, h5, h6⟩ := greedy_lists (v := v)
      (fun a ha b hb => (hf a (m1 a ha) b (m1 b hb)).1) g1
    have hz : z ∈ c0 := List.mem_of_getLast? h2
    rw [List.flatten_cons, List.map_append, List.map_append, h3, h4] at hb
    have hb2 : (beginOf (v s0) :: cs.flatten.map fun a => beginOf (v a)).Perm
        (stopOf (v z) :: cs.flatten.map fun a => stopOf (v a)) := by
      rw [List.perm_iff_count] at hb ⊢
      intro x
      have := hb x
      simp only [List.cons_append, List.count_append, List.count_cons, List.count_nil] at this ⊢
      omega
    have heq : stopOf (v z) = beginOf (v s0) := by
      by_contra hn
      have : stopOf (v z) ∈ beginOf (v s0) :: cs.flatten.map fun a => beginOf (v a) :=
        hb2.mem_iff.2 (by simp)
      rcases List.mem_cons.1 this with q | q
      · exact hn q
      · obtain ⟨j, hj, e⟩ := List.mem_map.1 q
        exact h5 j hj ((hf z (m1 z hz) j (m2 j hj)).2 e.symm)
    rcases List.mem_cons.1 hc with rfl | hc
    · exact ⟨s0, z, h1, h2, heq, h6⟩
    · rw [heq, List.perm_cons] at hb2
      exact greedy_close (fun a ha b hb => hf a (m2 a ha) b (m2 b hb)) hb2 g2 c hc

end

/-- The closed polyline made of stitched slices whose ends are the same. -/
theorem closes_cEdges {ε : ℝ} (hε : 0 < ε) {vs : List Vertex} {q : Polyline} (h : ClosesTo true ε vs q) (h3 : 3 ≤ vs.length)
    (he : stopOf vs = beginOf vs) : q.isClosed = true ∧ 2 ≤ q.size ∧ cEdges q = vEdges vs := by
  have hne : vs ≠ [] := by rintro rfl; simp at h3
  obtain ⟨l, z, rfl⟩ : ∃ l0 z, vs = l0 ++ [z] :=
    ⟨vs.dropLast, vs.getLast hne, (List.dropLast_append_getLast hne).symm⟩
  cases l with
  | nil => simp at h3
  | cons w st =>
    have hz : z.pos = w.pos := by
      have e1 : stopOf (w :: st ++ [z]) = z.pos := by
        unfold stopOf posns
        rw [List.getLast?_map, List.getLast?_concat]
        rfl
      have e2 : beginOf (w :: st ++ [z]) = w.pos := by simp [beginOf, posns]
      rw [← e1, ← e2, he]
    have hm : EndsMeet ε (w :: st ++ [z]) := by
      refine ⟨w, z, rfl, List.getLast?_concat, ?_⟩
      rw [hz]
      exact near_self hε _
    rcases h with ⟨-, -, rfl⟩ | ⟨hn, -⟩
    · rw [List.dropLast_concat]
      refine ⟨rfl, ?_, cEdges_closed hz⟩
      show 2 ≤ (w :: st).length
      simp only [List.length_append, List.length_cons, List.length_nil] at h3 ⊢
      omega
    · exact absurd ⟨rfl, hm⟩ hn

/-- The result of stitching balanced slices: closed polylines with exactly the segments of the slices. -/
theorem offset_loops {m : ℕ} {slices : List OpenSlice} {r : List Polyline} (h : StitchResult true m slices r)
    (hok : StitchOk slices)
    (hb : ((slices.map fun s => vEdges s.pline.vertexes).flatten.map fun e => e.1.pos).Perm
      ((slices.map fun s => vEdges s.pline.vertexes).flatten.map fun e => e.2)) :
    (∀ q ∈ r, q.isClosed = true ∧ 2 ≤ q.size) ∧
    (r.map cEdges).flatten.Perm (slices.map fun s => vEdges s.pline.vertexes).flatten := by
  have hne : ∀ s ∈ slices, s.pline.vertexes ≠ [] := by
    intro s hs h0
    have := (hok.two s hs).2
    rw [h0] at this
    simp at this
  have hbal := slices_balanced (fun s : OpenSlice => s.pline.vertexes) hne hb
  have hends : ∀ s ∈ slices, Ends s.pline.vertexes (beginOf s.pline.vertexes) (stopOf s.pline.vertexes) ∧
      (s.pline.vertexes.length = 2 → beginOf s.pline.vertexes ≠ stopOf s.pline.vertexes) := by
    intro s hs
    obtain ⟨a, b, he, h2⟩ := hok.ends s hs
    obtain ⟨rfl, rfl⟩ := ends_beginOf he
    exact ⟨he, h2⟩
  rcases h with ⟨rfl, rfl⟩ | ⟨s, q, rfl, rfl, h⟩ | ⟨-, chains, hperm, hg, hf⟩
  · simp
  · simp only [List.map_cons, List.map_nil, List.perm_singleton, List.cons.injEq, and_true] at hbal
    have h3 : 3 ≤ s.pline.vertexes.length := by
      have h2 := (hok.two s (by simp)).2
      by_contra hn
      exact (hends s (by simp)).2 (by omega) hbal
    obtain ⟨q1, q2, q3⟩ := closes_cEdges (by norm_num) h h3 hbal.symm
    simp only [List.mem_singleton, forall_eq, List.map_cons, List.map_nil, List.flatten_cons, List.flatten_nil,
      List.append_nil, q3]
    exact ⟨⟨q1, q2⟩, List.Perm.refl _⟩
  · have hmem : ∀ s, s ∈ chains.flatten ↔ s ∈ slices := fun s => hperm.mem_iff
    have hfol : ∀ a ∈ chains.flatten, ∀ b ∈ chains.flatten,
        Follows (1 / 10 ^ 4) a.pline.vertexes b.pline.vertexes ↔ stopOf a.pline.vertexes = beginOf b.pline.vertexes := by
      intro a ha b hb
      rw [hmem] at ha hb
      obtain ⟨ea, -⟩ := hends a ha
      obtain ⟨eb, -⟩ := hends b hb
      constructor
      · rintro ⟨e, st, f1, f2, f3, f4⟩
        obtain ⟨u, w, e1, e2, e3, e4⟩ := ea
        obtain ⟨u', w', e1', e2', e3', e4'⟩ := eb
        rw [f1] at e2
        cases e2
        rw [f2] at e1'
        cases e1'
        refine hok.apart a ha b hb _ _ _ _ (hends a ha).1 (hends b hb).1 ?_ ?_
        · rw [← e4, ← e3']; linarith [show 2 * ((1 : ℝ) / 10 ^ 4) = 2 / 10 ^ 4 by norm_num]
        · rw [← e4, ← e3']; linarith [show 2 * ((1 : ℝ) / 10 ^ 4) = 2 / 10 ^ 4 by norm_num]
      · intro he
        obtain ⟨u, w, e1, e2, e3, e4⟩ := ea
        obtain ⟨u', w', e1', e2', e3', e4'⟩ := eb
        refine ⟨w, u', e2, e1', ?_, ?_⟩
        · rw [e4, e3', he, sub_self, abs_zero]; norm_num
        · rw [e4, e3', he, sub_self, abs_zero]; norm_num
    have hclose := greedy_close (v := fun s : OpenSlice => s.pline.vertexes) hfol
      (((hperm.map _).trans hbal).trans (hperm.map _).symm) hg
    have key : ∀ c ∈ chains, ∀ q, ClosesTo true (1 / 10 ^ 5) (stitched (c.map fun s => s.pline.vertexes)) q →
        q.isClosed = true ∧ 2 ≤ q.size ∧ cEdges q = (c.map fun s => vEdges s.pline.vertexes).flatten := by
      intro c hc q hq
      have hcm : ∀ s ∈ c, s ∈ slices := fun s hs => (hmem s).1 (List.mem_flatten.2 ⟨c, hc, hs⟩)
      obtain ⟨s0, z, h1, h2, h3, h4⟩ := hclose c hc
      have htwo : ∀ l ∈ c.map (fun s => s.pline.vertexes), 2 ≤ l.length := by
        intro l hl
        obtain ⟨s, hs, rfl⟩ := List.mem_map.1 hl
        exact (hok.two s (hcm s hs)).2
      have hst := stitched_vEdges htwo (by
        rw [List.isChain_map]
        rw [List.isChain_iff_getElem] at h4 ⊢
        intro i hi
        rw [(posns_ends (hne _ (hcm _ (List.getElem_mem _)))).2, (posns_ends (hne _ (hcm _ (List.getElem_mem _)))).1]
        exact congrArg some (h4 i hi))
      rw [List.map_map] at hst
      cases c with
      | nil => simp at h1
      | cons s1 c =>
        have e0 : s1 = s0 := by simpa using h1
        subst e0
        have hzm : z ∈ s1 :: c := List.mem_of_getLast? h2
        have hhead : beginOf (stitched ((s1 :: c).map fun s => s.pline.vertexes)) = beginOf s1.pline.vertexes := by
          unfold beginOf posns
          rw [List.map_cons] at htwo ⊢
          rw [List.head?_map, List.head?_map, stitched_head htwo]
        have hlast : stopOf (stitched ((s1 :: c).map fun s => s.pline.vertexes)) = stopOf z.pline.vertexes := by
          have := stitched_last (ls := c.map fun s : OpenSlice => s.pline.vertexes) (a := s1.pline.vertexes) htwo
            z.pline.vertexes (by rw [← List.map_cons (f := fun s : OpenSlice => s.pline.vertexes), List.getLast?_map, h2]; rfl)
          unfold stopOf posns
          rw [List.map_cons, List.getLast?_map, List.getLast?_map, this]
        have hlen := stitched_length (ls := c.map fun s : OpenSlice => s.pline.vertexes) (a := s1.pline.vertexes) htwo
        have h3' : 3 ≤ (stitched ((s1 :: c).map fun s => s.pline.vertexes)).length := by
          cases c with
          | nil =>
            have ez : z = s1 := by simpa using hzm
            rw [ez] at h3
            have h2 := (hok.two s1 (hcm s1 (by simp))).2
            show 3 ≤ s1.pline.vertexes.length
            by_contra hn
            exact (hends s1 (hcm s1 (by simp))).2 (by omega) h3.symm
          | cons s2 c => exact hlen.2 (by simp)
        obtain ⟨q1, q2, q3⟩ := closes_cEdges (by norm_num) hq h3' (by rw [hhead, hlast, h3])
        exact ⟨q1, q2, by rw [q3, hst]; rfl⟩
    constructor
    · intro q hq
      obtain ⟨i, hi, rfl⟩ := List.getElem_of_mem hq
      have hl := hf.length_eq
      have := List.forall₂_iff_get.1 hf
      obtain ⟨k1, k2, -⟩ := key _ (List.getElem_mem (by omega)) _ (this.2 i (by omega) hi)
      exact ⟨k1, k2⟩
    · have e1 : ∀ {cs : List (List OpenSlice)} {r : List Polyline}, (∀ c ∈ cs, c ∈ chains) →
          List.Forall₂ (fun c q => ClosesTo true (1 / 10 ^ 5) (stitched (c.map fun s => s.pline.vertexes)) q) cs r →
          (r.map cEdges).flatten = (cs.flatten.map fun s => vEdges s.pline.vertexes).flatten := by
        intro cs r hm hf
        induction hf with
        | nil => rfl
        | @cons c q cs r h _ ih =>
          rw [List.map_cons, List.flatten_cons, ih fun c hc => hm c (List.mem_cons_of_mem _ hc), List.flatten_cons,
            List.map_append, List.flatten_append, (key c (hm c (by simp)) q h).2.2]
      rw [e1 (fun c hc => hc) hf]
      exact (hperm.map _).flatten

end
end Cavc

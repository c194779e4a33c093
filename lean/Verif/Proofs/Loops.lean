import Verif.Proofs.PolyPieces

/-! Chains of slices that follow each other one to one close, and the polygons they make wind around a
point as often as their slices together. -/
namespace Cavc
open Spec
open scoped Classical
noncomputable section

/-! ### Chains close -/

/-- Each slice of the chain is followed by the next one, and the last one by the first. -/
def ClosedLoop (follows : ℕ → ℕ → Prop) (c : List ℕ) : Prop :=
  List.IsChain follows c ∧ ∃ a b, c.head? = some a ∧ c.getLast? = some b ∧ follows b a

theorem chain_spec {follows : ℕ → ℕ → Prop} {sel : StitchSelector}
    (hsel : ∀ i avail r, avail ≠ [] → sel i avail = .ok (some r) → r ∈ avail) {first : ℕ} {closes : Bool}
    {later : List ℕ} : ∀ {c : List ℕ}, SelectedChain follows sel first closes later c →
      List.IsChain follows c ∧ ∃ l, c.getLast? = some l ∧
        ∃ avail, Available follows first l later avail ∧
          ((closes = true ∧ follows l first) ∨ (closes = false ∧ (avail = [] ∨ sel l avail = .ok none)))
  | [], h => by unfold SelectedChain at h; exact h.elim
  | [i], h => by
    unfold SelectedChain at h
    obtain ⟨avail, h1, h2⟩ := h
    refine ⟨by simp, i, rfl, avail, h1, ?_⟩
    rcases h2 with ⟨a, b, c⟩ | h2
    · exact Or.inl ⟨a, ((h1.2 _).1 (hsel _ _ _ b c)).1⟩
    · exact Or.inr h2
  | i :: j :: c, h => by
    unfold SelectedChain at h
    obtain ⟨⟨avail, h1, hne, h2, h3⟩, h4⟩ := h
    obtain ⟨g1, l, g2, g3⟩ := chain_spec hsel h4
    refine ⟨List.isChain_cons_cons.2 ⟨?_, g1⟩, l, by rw [List.getLast?_cons_cons]; exact g2, g3⟩
    exact ((h1.2 _).1 (hsel _ _ _ hne h3)).1

/-- If every slice is followed by exactly one and follows exactly one, all chains close. -/
theorem chains_close {follows : ℕ → ℕ → Prop} {sel : StitchSelector} {total : ℕ}
    (hsucc : ∀ i < total, ∃ j < total, follows i j)
    (hpred : ∀ i < total, ∀ i' < total, ∀ j, follows i j → follows i' j → i = i')
    (hsel : ∀ i < total, ∀ avail, avail ≠ [] → ∃ k ∈ avail, sel i avail = .ok (some k))
    (hmem : ∀ i avail r, avail ≠ [] → sel i avail = .ok (some r) → r ∈ avail) :
    ∀ (chains : List (List ℕ × Bool)) (before : List ℕ),
      (before ++ (chains.map Prod.fst).flatten).Perm (List.range total) →
      (∀ i < total, ∀ j ∈ before, follows i j → i ∈ before) →
      SelectedChains follows sel chains → ∀ c ∈ chains, c.2 = true ∧ ClosedLoop follows c.1
  | [], _, _, _, _ => by simp
  | (c, closes) :: rest, before, hp, hb, hch => by
    unfold SelectedChains at hch
    obtain ⟨⟨first, hfirst, -, hc⟩, hrest⟩ := hch
    obtain ⟨hchain, l, hl, avail, hav, hcase⟩ := chain_spec hmem hc
    obtain ⟨c', rfl⟩ : ∃ c', c = first :: c' := by
      cases c with
      | nil => simp at hfirst
      | cons a c' => simp only [List.head?_cons, Option.some.injEq] at hfirst; exact ⟨c', by rw [hfirst]⟩
    rw [List.map_cons, List.flatten_cons] at hp
    change (before ++ (first :: c' ++ (rest.map Prod.fst).flatten)).Perm (List.range total) at hp
    have hnd := hp.nodup_iff.2 List.nodup_range
    have hlt : ∀ j, j ∈ before ++ ((first :: c') ++ (rest.map Prod.fst).flatten) → j < total :=
      fun j hj => List.mem_range.1 (hp.mem_iff.1 hj)
    have hlm : l ∈ first :: c' := List.mem_of_getLast? hl
    have hll : l < total := hlt l (by simp only [List.mem_append]; exact Or.inr (Or.inl hlm))
    have hclose : closes = true ∧ follows l first := by
      rcases hcase with h | ⟨-, h⟩
      · exact h
      · exfalso
        obtain ⟨k, hk, hf⟩ := hsucc l hll
        have hnil : avail = [] := by
          rcases h with h | h
          · exact h
          · by_contra hne
            obtain ⟨k, -, hk⟩ := hsel l hll avail hne
            rw [h] at hk
            simp at hk
        have hna : k ∉ avail := by rw [hnil]; simp
        rw [hav.2] at hna
        have hna' : k ≠ first ∧ k ∉ (rest.map Prod.fst).flatten := by
          constructor
          · exact fun h => hna ⟨hf, Or.inl h⟩
          · exact fun h => hna ⟨hf, Or.inr h⟩
        have hkm := hp.mem_iff.2 (List.mem_range.2 hk)
        rw [List.mem_append, List.mem_append] at hkm
        rcases hkm with hkm | hkm | hkm
        · have := hb l hll k hkm hf
          have hd := List.disjoint_of_nodup_append hnd
          exact hd this (by rw [List.mem_append]; exact Or.inl hlm)
        · obtain ⟨q, hq, hqk⟩ := List.getElem_of_mem hkm
          rcases q with _ | q
          · simp only [List.getElem_cons_zero] at hqk
            exact hna'.1 hqk.symm
          · have hfq := (List.isChain_iff_getElem.1 hchain) q hq
            have hq' : q < (first :: c').length := by omega
            rw [hqk] at hfq
            have hql : (first :: c')[q] < total :=
              hlt _ (by simp only [List.mem_append]; exact Or.inr (Or.inl (List.getElem_mem _)))
            have := hpred _ hql _ hll k hfq hf
            have hlast : (first :: c')[(first :: c').length - 1]'(by simp) = l := by
              rw [List.getLast?_eq_getElem?] at hl
              exact (List.getElem?_eq_some_iff.1 hl).2
            rw [← hlast] at this
            have hnd' : (first :: c').Nodup :=
              (List.nodup_append.1 (List.nodup_append.1 hnd).2.1).1
            have := (hnd'.getElem_inj_iff).1 this
            omega
        · exact hna'.2 hkm
    have hthis : ClosedLoop follows (first :: c') := ⟨hchain, first, l, rfl, hl, hclose.2⟩
    have hrec := chains_close hsucc hpred hsel hmem rest (before ++ (first :: c')) (by rw [List.append_assoc]; exact hp)
      (by
        intro i hi j hj hf
        rw [List.mem_append] at hj ⊢
        rcases hj with hj | hj
        · exact Or.inl (hb i hi j hj hf)
        · right
          obtain ⟨q, hq, hqj⟩ := List.getElem_of_mem hj
          rcases q with _ | q
          · simp only [List.getElem_cons_zero] at hqj
            rw [← hqj] at hf
            rw [hpred _ hi _ hll first hf hclose.2]
            exact hlm
          · have hfq := (List.isChain_iff_getElem.1 hchain) q hq
            have hq' : q < (first :: c').length := by omega
            rw [hqj] at hfq
            have hql : (first :: c')[q] < total :=
              hlt _ (by simp only [List.mem_append]; exact Or.inr (Or.inl (List.getElem_mem _)))
            rw [hpred _ hi _ hql j hf hfq]
            exact List.getElem_mem _) hrest
    intro d hd
    rcases List.mem_cons.1 hd with rfl | hd
    · exact ⟨hclose.1, hthis⟩
    · exact hrec d hd

/-! ### Stitched slices -/

/-- The positions. -/
def posns (vs : List Vertex) : List V2 := vs.map Vertex.pos

theorem stitched_mem : ∀ {ls : List (List Vertex)} {v : Vertex}, v ∈ stitched ls → ∃ l ∈ ls, v ∈ l
  | [], v, h => by simp [stitched] at h
  | [a], v, h => ⟨a, by simp, h⟩
  | a :: b :: rest, v, h => by
    unfold stitched at h
    rw [List.mem_append] at h
    rcases h with h | h
    · exact ⟨a, by simp, List.mem_of_mem_dropLast h⟩
    · obtain ⟨l, h1, h2⟩ := stitched_mem h
      exact ⟨l, by simp [h1], h2⟩

theorem stitched_ends : ∀ {ls : List (List Vertex)} {a b : List Vertex}, (∀ l ∈ ls, 2 ≤ l.length) →
    ls.head? = some a → ls.getLast? = some b →
    (stitched ls).head? = a.head? ∧ (stitched ls).getLast? = b.getLast? ∧ ls.length + 1 ≤ (stitched ls).length
  | [], a, b, _, h, _ => by simp at h
  | [l], a, b, hn, h1, h2 => by
    simp only [List.head?_cons, Option.some.injEq, List.getLast?_singleton] at h1 h2
    subst h1 h2
    exact ⟨rfl, rfl, hn l (by simp)⟩
  | l :: l' :: rest, a, b, hn, h1, h2 => by
    simp only [List.head?_cons, Option.some.injEq] at h1
    subst h1
    rw [List.getLast?_cons_cons] at h2
    obtain ⟨g1, g2, g3⟩ := stitched_ends (fun x hx => hn x (List.mem_cons_of_mem _ hx)) rfl h2
    have hl := hn l (by simp)
    unfold stitched
    have hne : stitched (l' :: rest) ≠ [] := by
      intro h
      rw [h] at g3
      simp at g3
    refine ⟨?_, ?_, ?_⟩
    · match l, hl with
      | x :: y :: l, _ => rfl
    · rw [List.getLast?_append_of_ne_nil _ hne]; exact g2
    · rw [List.length_append, List.length_dropLast]
      simp only [List.length_cons] at g3 ⊢
      omega

/-- The path along stitched slices consists of the edges of the slices. -/
theorem stitched_edges : ∀ {ls : List (List Vertex)}, (∀ l ∈ ls, 2 ≤ l.length) →
    List.IsChain (fun a b : List Vertex => (posns a).getLast? = (posns b).head?) ls →
    pathEdges (posns (stitched ls)) = (ls.map fun l => pathEdges (posns l)).flatten
  | [], _, _ => by simp [stitched, posns, pathEdges]
  | [l], _, _ => by simp [stitched]
  | l :: l' :: rest, hn, hc => by
    rw [List.isChain_cons_cons] at hc
    have ih := stitched_edges (fun x hx => hn x (List.mem_cons_of_mem _ hx)) hc.2
    rw [List.map_cons, List.flatten_cons, ← ih,
      show stitched (l :: l' :: rest) = l.dropLast ++ stitched (l' :: rest) from rfl]
    have hl := hn l (by simp)
    have hb : ∃ b, (l' :: rest).getLast? = some b := ⟨_, List.getLast?_eq_some_getLast (by simp)⟩
    obtain ⟨b, hb⟩ := hb
    obtain ⟨g1, -, g3⟩ := stitched_ends (fun x hx => hn x (List.mem_cons_of_mem _ hx)) rfl hb
    obtain ⟨l0, z, rfl⟩ : ∃ l0 z, l = l0 ++ [z] := by
      have hne : l ≠ [] := by rintro rfl; simp at hl
      exact ⟨l.dropLast, l.getLast hne, (List.dropLast_append_getLast hne).symm⟩
    rw [List.dropLast_concat]
    generalize stitched (l' :: rest) = st at g1 g3 ⊢
    obtain ⟨w, st', rfl⟩ : ∃ w st', st = w :: st' := by
      cases st with
      | nil => simp at g3
      | cons w st' => exact ⟨w, st', rfl⟩
    have hwz : w.pos = z.pos := by
      have h1 := hc.1
      simp only [posns, List.map_append, List.map_cons, List.map_nil, List.getLast?_concat, List.head?_map] at h1
      rw [← g1] at h1
      simp only [List.head?_cons, Option.map_some, Option.some.injEq] at h1
      exact h1.symm
    simp only [posns, List.map_append, List.map_cons, List.map_nil, hwz]
    rw [pathEdges_append]

theorem edgesW_flatten {α : Type} (ls : List α) (f : α → List (V2 × V2)) (x : V2) :
    edgesW (ls.map f).flatten x = (ls.map fun l => edgesW (f l) x).sum := by
  induction ls with
  | nil => rfl
  | cons a l ih => rw [List.map_cons, List.flatten_cons, edgesW_append, ih]; simp

/-- The polygon made of a chain that closes. -/
theorem loop_polygon {verts : ℕ → List Vertex} {c : List ℕ × Bool} (hcl : c.2 = true)
    (h2 : ∀ i ∈ c.1, 2 ≤ (verts i).length) (hl : ∀ i ∈ c.1, ∀ v ∈ verts i, IsLine v)
    (hloop : ClosedLoop (fun i j => (posns (verts i)).getLast? = (posns (verts j)).head?) c.1)
    (hne : ∀ i ∈ c.1, (posns (verts i)).getLast? ≠ (posns (verts i)).head?) :
    ∃ q, closedChain verts c = some q ∧ q.isClosed = true ∧ (∀ v ∈ q.vertexes, IsLine v) ∧ 2 ≤ q.size ∧
      polyEdges (ppos q) q.size = (c.1.map fun i => pathEdges (posns (verts i))).flatten := by
  obtain ⟨hch, a, b, ha, hb, hab⟩ := hloop
  have h2' : ∀ l ∈ c.1.map verts, 2 ≤ l.length := by
    intro l hl
    obtain ⟨i, hi, rfl⟩ := List.mem_map.1 hl
    exact h2 i hi
  have hlen : 2 ≤ c.1.length := by
    match hc1 : c.1 with
    | [] => rw [hc1] at ha; simp at ha
    | [i] =>
      rw [hc1] at ha hb
      simp only [List.head?_cons, Option.some.injEq, List.getLast?_singleton] at ha hb
      subst ha hb
      exact absurd hab (hne _ (by rw [hc1]; simp))
    | i :: j :: r => simp
  obtain ⟨g1, g2, g3⟩ := stitched_ends h2' (a := verts a) (b := verts b) (by rw [List.head?_map, ha]; rfl)
    (by rw [List.getLast?_map, hb]; rfl)
  have hed := stitched_edges h2' (by
    rw [List.isChain_map]
    exact hch)
  rw [List.length_map] at g3
  have hlv : ∀ v ∈ stitched (c.1.map verts), IsLine v := by
    intro v hv
    obtain ⟨l, h1, h3⟩ := stitched_mem hv
    obtain ⟨i, hi, rfl⟩ := List.mem_map.1 h1
    exact hl i hi v h3
  unfold closedChain
  rw [if_pos ⟨hcl, by omega⟩]
  refine ⟨_, rfl, rfl, fun v hv => hlv v (List.mem_of_mem_dropLast hv), ?_, ?_⟩
  · show 2 ≤ (stitched (c.1.map verts)).dropLast.length
    rw [List.length_dropLast]; omega
  · rw [List.map_map] at hed
    rw [show (c.1.map fun i => pathEdges (posns (verts i))) =
      c.1.map ((fun l => pathEdges (posns l)) ∘ verts) from rfl, ← hed, ← pts_path]
    congr 1
    generalize stitched (c.1.map verts) = st at g1 g2 g3
    have hst : st ≠ [] := by rintro rfl; simp at g3
    obtain ⟨st', z, rfl⟩ : ∃ l0 z, st = l0 ++ [z] :=
      ⟨st.dropLast, st.getLast hst, (List.dropLast_append_getLast hst).symm⟩
    cases st' with
    | nil => simp only [List.nil_append, List.length_singleton] at g3; omega
    | cons w st' =>
      simp only [List.dropLast_concat]
      have h1 : some w = (verts a).head? := g1
      have h3 : some z = (verts b).getLast? := by
        rw [← g2, List.getLast?_concat]
      have hz : z.pos = w.pos := by
        simp only [posns, List.getLast?_map, List.head?_map, ← h1, ← h3, Option.map_some, Option.some.injEq] at hab
        exact hab
      have : ppos ⟨true, w :: st'⟩ 0 = w.pos := by
        unfold ppos vtx
        simp
      rw [this]
      simp only [pts, posns, List.map_append, List.map_cons, List.map_nil, hz]

end
end Cavc

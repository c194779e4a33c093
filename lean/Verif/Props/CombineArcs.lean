import Verif.Proofs.ArcFound
import Verif.Props.CombineRun

/-!
C71: the region that the result of a boolean operation on polylines with arcs bounds.
-/
namespace Cavc
open Spec
open scoped Classical
noncomputable section

theorem head_onPline {p : Polyline} (hc : p.isClosed = true) (h2 : 2 ≤ p.size) {a : Vertex}
    (h : p.vertexes.head? = some a) : OnPline p a.pos := by
  refine ⟨_, _, _, rv_seg hc h2 0, ?_⟩
  have : rv p 0 = a := by
    unfold rv vtx
    rw [Nat.zero_mod]
    cases hv : p.vertexes with
    | nil => rw [hv] at h; simp at h
    | cons v vs => rw [hv] at h; simp at h; simp [h]
  rw [this]
  exact onSeg_start _ _

theorem apartResult_mem {A B : Polyline} {a b : Prop} {mode : CombineMode} {q : Polyline}
    (hq : q ∈ (apartResult A B a b mode).remaining ++ (apartResult A B a b mode).subtracted) : q = A ∨ q = B := by
  cases mode <;> simp only [apartResult] at hq <;> split_ifs at hq <;> simp at hq <;> tauto

set_option maxHeartbeats 1000000 in
/-- C71. For every choice of `std::sort` and of the hash table, every mode, and all closed polylines A and B of
lines and arcs of at most a half circle that cross clearly, each of which goes once around what is inside:
`combinePolylines` returns closed polylines whose points are all on A or on B, and by the even-odd rule they
bound exactly the union, intersection, difference or symmetric difference of what is inside A and what is
inside B. -/
theorem C71_combinePolylines (inf ninf : ℝ) {std : StdSort} {hash : HashOrder} {A B : Polyline}
    (oA : PlineOk A) (oB : PlineOk B) (cA : A.isClosed = true) (cB : B.isClosed = true) (hg : CleanMeet A B)
    {sA sB : ℤ} (gA : GoesOnce A sA) (gB : GoesOnce B sB) (hap : ArcEndsApart A B)
    (hi : Indexable (codePlatform inf ninf) A) (hn : A.vertexes.length * B.vertexes.length ≤ 10 ^ 6)
    (mode : CombineMode) :
    ∃ r, combinePolylines (codePlatform inf ninf) std hash A B mode = .ok r ∧
      (∀ q ∈ r.remaining ++ r.subtracted, q.isClosed = true ∧ PlineOk q ∧
        ∀ x, OnPline q x → OnPline A x ∨ OnPline B x) ∧
      ∀ x, ¬ OnPline A x → ¬ OnPline B x →
        (EvenOdd (r.remaining ++ r.subtracted) x ↔ boolOp mode (Inside A x) (Inside B x)) := by
  have hA2 := goesOnce_size gA
  have hB2 := goesOnce_size gB
  have hAne : A.vertexes ≠ [] := by
    rintro h
    have : A.vertexes.length = A.size := rfl
    rw [h] at this
    simp at this; omega
  have hBne : B.vertexes ≠ [] := by
    rintro h
    have : B.vertexes.length = B.size := rfl
    rw [h] at this
    simp at this; omega
  obtain ⟨r, hr, -⟩ := C43_arcs inf ninf (std := std) (hash := hash) hi oA oB cA cB hB2 hn hap mode
  refine ⟨r, hr, ?_⟩
  obtain ⟨a, ha⟩ : ∃ a, A.vertexes.head? = some a := ⟨_, List.head?_eq_some_head hAne⟩
  obtain ⟨b, hb⟩ : ∃ b, B.vertexes.head? = some b := ⟨_, List.head?_eq_some_head hBne⟩
  obtain ⟨s, found, ov, sorted, f1, f2, f3, -, hapart, hmeet⟩ :=
    C57_combinePolylines inf ninf hi oA oB cA cB ha hb hn hr
  obtain ⟨s', found', g1, g2, g3, hnd, hmem⟩ := found_arcs oA oB hg hi
  rw [f1] at g1
  cases g1
  rw [f2] at g2
  cases g2
  rw [g3] at f3
  have hov : ov = ⟨[], [], [], []⟩ := by
    unfold sortAndjoinCoincidentSlices at f3
    rw [if_pos (by simp)] at f3
    cases f3; rfl
  subst hov
  have hm := clean_meet oA oB cA cB hA2 hB2 hg hnd hmem
  have wA : ∀ {x}, ¬ OnPline A x → arcW A x = 0 ∨ arcW A x = sA := fun hx =>
    gA.2.2 _ hx _ ((winding_arcW oA cA hA2 hx).2 rfl)
  have wB : ∀ {x}, ¬ OnPline B x → arcW B x = 0 ∨ arcW B x = sB := fun hx =>
    gB.2.2 _ hx _ ((winding_arcW oB cB hB2 hx).2 rfl)
  by_cases hne : found.intersects = []
  · -- they do not meet
    have hoff : ∀ x, OnPline A x → ¬ OnPline B x := by
      rintro x ⟨i, v1, v2, q1, q2⟩ ⟨j, u1, u2, q3, q4⟩
      have : (⟨i, j, x⟩ : PlineIntersect) ∈ found.intersects := (hmem _).2 ⟨v1, v2, u1, u2, q1, q3, q2, q4⟩
      rw [hne] at this
      simp at this
    have onA := head_onPline cA hA2 ha
    have onB := head_onPline cB hB2 hb
    have offa := hoff _ onA
    have offb : ¬ OnPline A b.pos := fun h => hoff _ h onB
    have hr' := hapart (by simp [hne])
    have e1 : WindsAround B a.pos = (arcW B a.pos ≠ 0) := propext (windsAround_arcW oB cB hB2 offa)
    have e2 : WindsAround A b.pos = (arcW A b.pos ≠ 0) := propext (windsAround_arcW oA cA hA2 offb)
    rw [e1, e2] at hr'
    have hmq : ∀ q ∈ r.remaining ++ r.subtracted, q = A ∨ q = B := by
      intro q hq
      rw [hr'] at hq
      exact apartResult_mem hq
    refine ⟨?_, ?_⟩
    · intro q hq
      rcases hmq q hq with rfl | rfl
      · exact ⟨cA, oA, fun x hx => Or.inl hx⟩
      · exact ⟨cB, oB, fun x hx => Or.inr hx⟩
    · intro x hxA hxB
      rw [evenOdd_arcW, inside_arcW oA cA hA2 hxA, inside_arcW oB cB hB2 hxB, hr']
      · exact apart_table gA.1 gB.1 rfl rfl (wA hxA) (wB hxB) (wB offa) (wA offb)
          (arcs_mul oA oB cA cB hA2 hB2 hoff onA onB hxA hxB) mode
      · intro q hq
        rcases hmq q hq with rfl | rfl
        · exact ⟨oA, cA, hA2, hxA⟩
        · exact ⟨oB, cB, hB2, hxB⟩
  · -- they cross
    obtain ⟨res, hres, hr'⟩ := hmeet (by
      rintro ⟨y, z, h, -⟩
      simp at h) (Or.inl hne)
    have part := fun {part : Part} (hp : part ∈ partsOf mode) {l : List Polyline}
        (h : PartResult A B found.intersects ⟨[], [], [], []⟩ part l) =>
      arc_part hm hne gA.1 gB.1 (fun _ h => gA.2.2 _ h) (fun _ h => gB.2.2 _ h) (sameTurn_once cA cB gA gB)
        (partsOf_opposite hp) h
    have hq : ∀ q ∈ r.remaining ++ r.subtracted,
        q.isClosed = true ∧ PlineOk q ∧ 2 ≤ q.size ∧ ∀ x, OnPline q x → OnPline A x ∨ OnPline B x := by
      intro q hq
      rw [hr'] at hq
      have := (met_sum A mode res.flatten fun _ => 0).2 q hq
      obtain ⟨l, hl, hql⟩ := List.mem_flatten.1 this
      obtain ⟨i, hi, rfl⟩ := List.getElem_of_mem hl
      have hi' : i < (partsOf mode).length := by rw [hres.length_eq]; exact hi
      exact (part (List.getElem_mem hi') (hres.get hi' hi)).1 q hql
    refine ⟨fun q h => ?_, ?_⟩
    · obtain ⟨h1, h2, -, h4⟩ := hq q h
      exact ⟨h1, h2, h4⟩
    · intro x hxA hxB
      rw [evenOdd_arcW, inside_arcW oA cA hA2 hxA, inside_arcW oB cB hB2 hxB,
        hr', (met_sum A mode res.flatten fun q => arcW q x).1, sum_flatten_map]
      · refine (meet_table gA.1 gB.1 (wA hxA) (wB hxB) mode ?_).2
        have : ∀ {parts : List Part} {res : List (List Polyline)}, (∀ p ∈ parts, p ∈ partsOf mode) →
            List.Forall₂ (PartResult A B found.intersects ⟨[], [], [], []⟩) parts res →
            List.Forall₂ (fun (part : Part) T => ∃ P Q : ℤ, P + Q = arcW A x * arcW B x ∧
              T = (if part.insideB = true then sB * P else arcW A x - sB * P) +
              (if part.opposite = true then -1 else 1) * (sA * sB) *
              (if part.insideA = true then sA * Q else arcW B x - sA * Q)) parts
              (res.map fun l => (l.map fun q => arcW q x).sum) := by
          intro parts res hm h
          induction h with
          | nil => exact .nil
          | cons h1 _ ih =>
            exact .cons ((part (hm _ (by simp)) h1).2 x hxA hxB) (ih fun p hp => hm p (List.mem_cons_of_mem _ hp))
        exact this (fun p hp => hp) hres
      · intro q h
        obtain ⟨h1, h2, h3, h4⟩ := hq q h
        exact ⟨h2, h1, h3, fun ho => (h4 x ho).elim hxA hxB⟩

end
end Cavc

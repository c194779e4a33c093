import Verif.Proofs.MeetSimple
import Verif.Proofs.AreaWinding

/-! The polygons of a part of an operation: where they are, and what is beside them. -/
namespace Cavc
open Spec
open scoped Classical
noncomputable section

theorem ppos_closed (p : Polyline) : ppos p p.size = ppos p 0 := by
  have := ppos_per p 0
  rwa [zero_add] at this

/-- Around a point the polygons that it is not on are away. -/
theorem clear_list (Qs : List Polyline) {z : V2} (h : ∀ Q ∈ Qs, OffP (ppos Q) Q.size z) :
    ∃ ρ > 0, ∀ Q ∈ Qs, ∀ y, Near ρ y z → OffP (ppos Q) Q.size y ∧
      polyW (ppos Q) Q.size y = polyW (ppos Q) Q.size z := by
  induction Qs with
  | nil => exact ⟨1, one_pos, by simp⟩
  | cons Q Qs ih =>
    obtain ⟨ρ, hρ, h1⟩ := ih fun R hR => h R (List.mem_cons_of_mem _ hR)
    obtain ⟨ρ', hρ', h2⟩ := clear_near (P := ppos Q) (n := Q.size) (J := fun _ => False) (p := z)
      (fun k hk _ => h Q List.mem_cons_self k hk)
    refine ⟨min ρ ρ', lt_min hρ hρ', fun R hR y hy => ?_⟩
    rcases List.mem_cons.1 hR with rfl | hR
    · have hy' : Near ρ' y z := ⟨hy.1.trans_le (min_le_right _ _), hy.2.trans_le (min_le_right _ _)⟩
      refine ⟨fun k hk => h2 y hy' k hk id, ?_⟩
      exact polyW_seg (ppos_closed R) _ _ fun t t0 t1 k hk =>
        h2 _ (near_lerp hy' (near_self hρ' z) t0 t1) k hk id
    · exact h1 R hR y ⟨hy.1.trans_le (min_le_left _ _), hy.2.trans_le (min_le_left _ _)⟩

/-- Two points beside an edge of a polygon that does not meet itself, one inside and one outside. -/
theorem SimpleP.two_points {P : ℕ → V2} {n : ℕ} (hs : SimpleP P n) {k : ℕ} (hk : k < n) {t : ℝ} (t0 : 0 < t) (t1 : t < 1)
    {Qs : List Polyline} (hQ : ∀ Q ∈ Qs, OffP (ppos Q) Q.size (lerp (P k) (P (k + 1)) t)) :
    ∃ x y, OffP P n x ∧ OffP P n y ∧ polyW P n x ≠ 0 ∧ polyW P n y = 0 ∧ ∀ Q ∈ Qs,
      (OffP (ppos Q) Q.size x ∧ polyW (ppos Q) Q.size x = polyW (ppos Q) Q.size (lerp (P k) (P (k + 1)) t)) ∧
      (OffP (ppos Q) Q.size y ∧ polyW (ppos Q) Q.size y = polyW (ppos Q) Q.size (lerp (P k) (P (k + 1)) t)) := by
  set z := lerp (P k) (P (k + 1)) t with hz
  obtain ⟨ρ, hρ, h1⟩ := clear_list Qs hQ
  obtain ⟨σ, hσ, -, -, hside⟩ := hs.once
  obtain ⟨⟨r1, hr1, v1⟩, ⟨r2, hr2, v2⟩⟩ := hside k hk t t0 t1
  obtain ⟨r3, hr3, hcl⟩ := clear_near (P := P) (n := n) (J := fun i => i = k) (fun i hi hne => hs.inner hk t0 t1 hi hne)
  have hz0 : cross (P k) (P (k + 1)) z = 0 := cross_onLine ⟨t, t0.le, t1.le, rfl⟩
  have hσ' : (σ : ℝ) = 1 ∨ (σ : ℝ) = -1 := by
    rcases hσ with rfl | rfl <;> simp
  have hσ'' : (-(σ : ℝ)) = 1 ∨ (-(σ : ℝ)) = -1 := by
    rcases hσ with rfl | rfl <;> simp
  have hσ0 : σ ≠ 0 := by rcases hσ with rfl | rfl <;> norm_num
  have hr : 0 < min (min ρ r3) (min r1 r2) := by
    simp only [lt_min_iff]; exact ⟨⟨hρ, hr3⟩, hr1, hr2⟩
  obtain ⟨x, hx, hx1, -⟩ := exists_beside (hs.ne k) hz0 hσ' hr z z
  obtain ⟨y, hy, hy1, -⟩ := exists_beside (hs.ne k) hz0 hσ'' hr z z
  have hle : ∀ {w}, Near (min (min ρ r3) (min r1 r2)) w z → Near ρ w z ∧ Near r3 w z ∧ Near r1 w z ∧ Near r2 w z := by
    intro w hw
    obtain ⟨a, b⟩ := hw
    simp only [lt_min_iff] at a b
    exact ⟨⟨a.1.1, b.1.1⟩, ⟨a.1.2, b.1.2⟩, ⟨a.2.1, b.2.1⟩, ⟨a.2.2, b.2.2⟩⟩
  have hoff : ∀ {w} {τ : ℝ}, Near r3 w z → 0 < τ * cross (P k) (P (k + 1)) w → OffP P n w := by
    intro w τ hw hc i hi ho
    by_cases hik : i = k
    · subst hik
      rw [cross_onLine ho, mul_zero] at hc
      exact lt_irrefl _ hc
    · exact hcl w hw i hi hik ho
  obtain ⟨x2, x3, x4, x5⟩ := hle hx
  obtain ⟨y2, y3, y4, y5⟩ := hle hy
  refine ⟨x, y, hoff x3 hx1, hoff y3 hy1, ?_, ?_, fun Q hQ' => ⟨h1 Q hQ' x x2, h1 Q hQ' y y2⟩⟩
  · rw [v1 x x4 hx1]; exact hσ0
  · exact v2 y y5 hy1

section
variable {A B : Polyline} {intrs : List PlineIntersect} {sA sB : ℤ} {part : Part} {res : List Polyline}
  {c d : CutPoly} {flip : Bool} {kA kB kB' : List Polyline}

/-- The pieces of the second polygon in the direction they are used. -/
theorem MeetSetup.turned_mem (h : MeetSetup A B intrs sA sB part res c d flip kA kB kB') {q' : Polyline} (hq' : q' ∈ kB') :
    ∃ q ∈ kB, pts q' = (if flip then (pts q).reverse else pts q) ∧
      startOf q' = (if flip then endOf q else startOf q) ∧ endOf q' = (if flip then startOf q else endOf q) ∧
      ∀ e, e ∈ pathEdges (pts q') ↔ (if flip then e.swap else e) ∈ pathEdges (pts q) := by
  have hm : pts q' ∈ kB'.map pts := List.mem_map.2 ⟨q', hq', rfl⟩
  rw [h.turned] at hm
  obtain ⟨q, hq, e⟩ := List.mem_map.1 hm
  refine ⟨q, hq, e.symm, ?_, ?_, ?_⟩
  · unfold startOf endOf
    rw [← e]
    by_cases hf : flip = true
    · simp only [if_pos hf]
      rw [List.headD_eq_head?_getD, List.head?_reverse, List.getLastD_eq_getLast?]
    · simp only [if_neg hf]
  · unfold startOf endOf
    rw [← e]
    by_cases hf : flip = true
    · simp only [if_pos hf]
      rw [List.getLastD_eq_getLast?, List.getLast?_reverse, List.headD_eq_head?_getD]
    · simp only [if_neg hf]
  · intro f
    rw [← e]
    by_cases hf : flip = true
    · simp only [if_pos hf, pathEdges_reverse, List.mem_reverse, List.mem_map]
      constructor
      · rintro ⟨g, hg, rfl⟩
        rwa [Prod.swap_swap]
      · intro hg
        exact ⟨_, hg, Prod.swap_swap f⟩
    · simp only [if_neg hf]

theorem MeetSetup.turned_planar (h : MeetSetup A B intrs sA sB part res c d flip kA kB kB')
    (hp : (keptEdges kB).Pairwise Planar) : (keptEdges kB').Pairwise Planar := by
  have e : keptEdges kB' = ((kB.map fun q => pathEdges (if flip then (pts q).reverse else pts q))).flatten := by
    unfold keptEdges
    have := congrArg (List.map pathEdges) h.turned
    rw [List.map_map, List.map_map] at this
    exact congrArg List.flatten this
  rw [e]
  by_cases hf : flip = true
  · simp only [if_pos hf, pathEdges_reverse]
    unfold keptEdges at hp
    rw [List.pairwise_flatten] at hp ⊢
    obtain ⟨h1, h2⟩ := hp
    constructor
    · intro l hl
      obtain ⟨q, hq, rfl⟩ := List.mem_map.1 hl
      rw [List.pairwise_reverse, List.pairwise_map]
      exact (h1 _ (List.mem_map.2 ⟨q, hq, rfl⟩)).imp fun g => g.swap.symm
    · rw [List.pairwise_map] at h2 ⊢
      refine h2.imp ?_
      intro q q' g e he f hf
      rw [List.mem_reverse, List.mem_map] at he hf
      obtain ⟨e, he, rfl⟩ := he
      obtain ⟨f, hf, rfl⟩ := hf
      exact (g e he f hf).swap
  · simp only [if_neg hf]
    exact hp

variable (h : MeetSetup A B intrs sA sB part res c d flip kA kB kB') (hsA : SimpleP (ppos A) A.size)
  (hsB : SimpleP (ppos B) B.size)
include h

theorem MeetSetup.mem_swap_points {z : V2} : z ∈ (intrs.map swapI).map PlineIntersect.pos ↔
    z ∈ intrs.map PlineIntersect.pos := by
  rw [List.map_map]; rfl

include hsA hsB

theorem MeetSetup.turned_touch {q' : Polyline} (hq' : q' ∈ kB') {f : V2 × V2} (hf : f ∈ pathEdges (pts q')) {z : V2}
    (hz : OnLine f.1 f.2 z) (hX : ¬ OffP (ppos A) A.size z) :
    (z = f.1 ∧ z = startOf q') ∨ (z = f.2 ∧ z = endOf q') := by
  obtain ⟨q, hq, -, e1, e2, e3⟩ := h.turned_mem hq'
  rw [e3] at hf
  rw [e1, e2]
  by_cases hfl : flip = true
  · simp only [if_pos hfl] at hf ⊢
    rcases h.second.touch hsB hq hf (z := z) (onLine_swap hz) hX with q | q
    · exact Or.inr q
    · exact Or.inl q
  · simp only [if_neg hfl] at hf ⊢
    exact h.second.touch hsB hq hf hz hX

theorem MeetSetup.planar : (keptEdges (kA ++ kB')).Pairwise Planar := by
  have e : keptEdges (kA ++ kB') = keptEdges kA ++ keptEdges kB' := by
    unfold keptEdges
    rw [List.map_append, List.flatten_append]
  rw [e, List.pairwise_append]
  refine ⟨h.first.planar hsA, h.turned_planar (h.second.planar hsB), ?_⟩
  intro e he f hf z hze hzf
  obtain ⟨q, hq, he⟩ := mem_keptEdges.1 he
  obtain ⟨q', hq', hf⟩ := mem_keptEdges.1 hf
  have hnd := near_pairwise_nodup h.points
  have onA : ¬ OffP (ppos A) A.size z := by
    obtain ⟨k, t, ez, t0, t1⟩ := (h.first.point hq he hze).1
    intro ho
    refine ho (k % A.size) (Nat.mod_lt _ hsA.pos) ?_
    rw [← (hsA.mod k).1, ← (hsA.mod k).2]
    exact ⟨t, t0, t1, ez⟩
  have onB : ¬ OffP (ppos B) B.size z := by
    obtain ⟨p, hp, -, -, -, e3⟩ := h.turned_mem hq'
    have hf' := (e3 f).1 hf
    have hz' : OnLine (if flip then f.swap else f).1 (if flip then f.swap else f).2 z := by
      by_cases hfl : flip = true
      · simp only [if_pos hfl]; exact onLine_swap hzf
      · simp only [if_neg hfl]; exact hzf
    obtain ⟨k, t, ez, t0, t1⟩ := (h.second.point hp hf' hz').1
    intro ho
    refine ho (k % B.size) (Nat.mod_lt _ hsB.pos) ?_
    rw [← (hsB.mod k).1, ← (hsB.mod k).2]
    exact ⟨t, t0, t1, ez⟩
  have hs1 := h.starts.nodup_iff.2 hnd
  have he1 := h.ends.nodup_iff.2 hnd
  rw [List.map_append, List.nodup_append] at hs1 he1
  rcases h.first.touch hsA hq he hze onB with ⟨a1, a2⟩ | ⟨a1, a2⟩ <;>
    rcases h.turned_touch hsA hsB hq' hf hzf onA with ⟨b1, b2⟩ | ⟨b1, b2⟩
  · exact absurd (a2.symm.trans b2) (hs1.2.2 _ (List.mem_map.2 ⟨q, hq, rfl⟩) _ (List.mem_map.2 ⟨q', hq', rfl⟩))
  · exact Or.inr ⟨a1, b1⟩
  · exact Or.inl ⟨a1, b1⟩
  · exact absurd (a2.symm.trans b2) (he1.2.2 _ (List.mem_map.2 ⟨q, hq, rfl⟩) _ (List.mem_map.2 ⟨q', hq', rfl⟩))

theorem MeetSetup.mem_edges {q : Polyline} (hq : q ∈ res) {e : V2 × V2} (he : e ∈ polyEdges (ppos q) q.size) :
    e ∈ keptEdges kA ∨ (if flip then e.swap else e) ∈ keptEdges kB := by
  have h1 : e ∈ (res.map fun q => polyEdges (ppos q) q.size).flatten :=
    List.mem_flatten.2 ⟨_, List.mem_map.2 ⟨q, hq, rfl⟩, he⟩
  obtain ⟨p, hp, he'⟩ := mem_keptEdges.1 (h.loops.mem_iff.1 h1)
  rcases List.mem_append.1 hp with hp | hp
  · exact Or.inl (mem_keptEdges.2 ⟨p, hp, he'⟩)
  · obtain ⟨p', hp', -, -, -, e3⟩ := h.turned_mem hp
    exact Or.inr (mem_keptEdges.2 ⟨p', hp', (e3 e).1 he'⟩)

/-- The polygons do not meet themselves or each other. -/
theorem MeetSetup.simple : (∀ q ∈ res, SimpleP (ppos q) q.size) ∧
    res.Pairwise fun q q' => ∀ z, OffP (ppos q) q.size z ∨ OffP (ppos q') q'.size z := by
  refine loops_simple (fun q hq => (h.shape q hq).2.2) ?_ ?_
  · intro e he
    obtain ⟨l, hl, he⟩ := List.mem_flatten.1 he
    obtain ⟨q, hq, rfl⟩ := List.mem_map.1 hl
    rcases h.mem_edges hsA hsB hq he with g | g
    · exact (h.first.inner hsA g).1
    · have := (h.second.inner hsB g).1
      by_cases hfl : flip = true
      · simp only [if_pos hfl] at this; exact fun e => this e.symm
      · simp only [if_neg hfl] at this; exact this
  · exact (h.loops.pairwise_iff (fun g => Planar.symm g)).2 (h.planar hsA hsB)

/-- Where the polygons are. -/
theorem MeetSetup.state (hX : ∀ z ∈ intrs.map PlineIntersect.pos, ¬ OffP (ppos A) A.size z ∧ ¬ OffP (ppos B) B.size z)
    {q : Polyline} (hq : q ∈ res) {z : V2} (hz : ¬ OffP (ppos q) q.size z) :
    (¬ OffP (ppos A) A.size z ∨ (polyW (ppos A) A.size z ≠ 0 ↔ part.insideA = true)) ∧
    (¬ OffP (ppos B) B.size z ∨ (polyW (ppos B) B.size z ≠ 0 ↔ part.insideB = true)) ∧
    (¬ OffP (ppos A) A.size z ∨ ¬ OffP (ppos B) B.size z) := by
  unfold OffP at hz
  push Not at hz
  obtain ⟨k, hk, ho⟩ := hz
  rcases h.mem_edges hsA hsB hq (List.mem_map.2 ⟨k, List.mem_range.2 hk, rfl⟩) with g | g
  · obtain ⟨p, hp, he⟩ := mem_keptEdges.1 g
    obtain ⟨⟨i, t, ez, t0, t1⟩, hpt⟩ := h.first.point hp he ho
    have onA : ¬ OffP (ppos A) A.size z := by
      intro ho
      refine ho (i % A.size) (Nat.mod_lt _ hsA.pos) ?_
      rw [← (hsA.mod i).1, ← (hsA.mod i).2]
      exact ⟨t, t0, t1, ez⟩
    refine ⟨Or.inl onA, ?_, Or.inl onA⟩
    rcases hpt with q | q | q
    · exact Or.inl (hX z q.2).2
    · exact Or.inl (hX z q.2).2
    · exact Or.inr q.2
  · obtain ⟨p, hp, he⟩ := mem_keptEdges.1 g
    have ho' : OnLine (if flip then (ppos q k, ppos q (k + 1)).swap else (ppos q k, ppos q (k + 1))).1
        (if flip then (ppos q k, ppos q (k + 1)).swap else (ppos q k, ppos q (k + 1))).2 z := by
      by_cases hfl : flip = true
      · simp only [if_pos hfl]; exact onLine_swap ho
      · simp only [if_neg hfl]; exact ho
    obtain ⟨⟨i, t, ez, t0, t1⟩, hpt⟩ := h.second.point hp he ho'
    have onB : ¬ OffP (ppos B) B.size z := by
      intro ho
      refine ho (i % B.size) (Nat.mod_lt _ hsB.pos) ?_
      rw [← (hsB.mod i).1, ← (hsB.mod i).2]
      exact ⟨t, t0, t1, ez⟩
    refine ⟨?_, Or.inl onB, Or.inr onB⟩
    rcases hpt with q | q | q
    · exact Or.inl (hX z (h.mem_swap_points.1 q.2)).1
    · exact Or.inl (hX z (h.mem_swap_points.1 q.2)).1
    · exact Or.inr q.2

/-- Beside each of the polygons there are two points between which there is only it and one of the two
given polygons. -/
theorem MeetSetup.beside {q : Polyline} (hq : q ∈ res) : ∃ l1 l2 x y, res = l1 ++ q :: l2 ∧
    OffP (ppos A) A.size x ∧ OffP (ppos B) B.size x ∧ OffP (ppos A) A.size y ∧ OffP (ppos B) B.size y ∧
    (∀ q' ∈ l1 ++ l2, polyW (ppos q') q'.size x = polyW (ppos q') q'.size y) ∧
    ((polyW (ppos A) A.size x ≠ 0 ∧ polyW (ppos A) A.size y = 0 ∧
      (polyW (ppos B) B.size x ≠ 0 ↔ part.insideB = true) ∧ (polyW (ppos B) B.size y ≠ 0 ↔ part.insideB = true)) ∨
     (polyW (ppos B) B.size x ≠ 0 ∧ polyW (ppos B) B.size y = 0 ∧
      (polyW (ppos A) A.size x ≠ 0 ↔ part.insideA = true) ∧ (polyW (ppos A) A.size y ≠ 0 ↔ part.insideA = true))) := by
  obtain ⟨l1, l2, hres⟩ := List.append_of_mem hq
  obtain ⟨hsim, hdis⟩ := h.simple hsA hsB
  have hoth : ∀ z, ¬ OffP (ppos q) q.size z → ∀ q' ∈ l1 ++ l2, OffP (ppos q') q'.size z := by
    intro z hz q' hq'
    rw [hres, List.pairwise_append, List.pairwise_cons] at hdis
    rcases List.mem_append.1 hq' with g | g
    · exact (hdis.2.2 q' g q List.mem_cons_self z).resolve_right hz
    · exact (hdis.2.1.1 q' g z).resolve_left hz
  have h0 : 0 < q.size := by have := (h.shape q hq).2.2; omega
  have he : (ppos q 0, ppos q (0 + 1)) ∈ polyEdges (ppos q) q.size := List.mem_map.2 ⟨0, List.mem_range.2 h0, rfl⟩
  rcases h.mem_edges hsA hsB hq he with g | g
  · obtain ⟨-, z, k, t, o, -, -, hk, t0, t1, ez, hoff, hst⟩ := h.first.inner hsA g
    obtain ⟨x, y, x1, y1, x2, y2, hQ⟩ := hsA.two_points hk t0 t1 (Qs := B :: (l1 ++ l2)) (by
      intro Q hQ
      rw [← ez]
      rcases List.mem_cons.1 hQ with rfl | hQ
      · exact hoff
      · exact hoth z (fun ho => ho 0 h0 o) Q hQ)
    rw [← ez] at hQ
    obtain ⟨⟨bx1, bx2⟩, by1, by2⟩ := hQ B List.mem_cons_self
    refine ⟨l1, l2, x, y, hres, x1, bx1, y1, by1, ?_, Or.inl ⟨x2, y2, by rw [bx2]; exact hst, by rw [by2]; exact hst⟩⟩
    intro q' hq'
    obtain ⟨⟨-, a⟩, -, b⟩ := hQ q' (List.mem_cons_of_mem _ hq')
    rw [a, b]
  · obtain ⟨-, z, k, t, o, -, -, hk, t0, t1, ez, hoff, hst⟩ := h.second.inner hsB g
    have o' : OnLine (ppos q 0) (ppos q (0 + 1)) z := by
      by_cases hfl : flip = true
      · simp only [if_pos hfl] at o; exact onLine_swap o
      · simp only [if_neg hfl] at o; exact o
    obtain ⟨x, y, x1, y1, x2, y2, hQ⟩ := hsB.two_points hk t0 t1 (Qs := A :: (l1 ++ l2)) (by
      intro Q hQ
      rw [← ez]
      rcases List.mem_cons.1 hQ with rfl | hQ
      · exact hoff
      · exact hoth z (fun ho => ho 0 h0 o') Q hQ)
    rw [← ez] at hQ
    obtain ⟨⟨bx1, bx2⟩, by1, by2⟩ := hQ A List.mem_cons_self
    refine ⟨l1, l2, x, y, hres, bx1, x1, by1, y1, ?_, Or.inr ⟨x2, y2, by rw [bx2]; exact hst, by rw [by2]; exact hst⟩⟩
    intro q' hq'
    obtain ⟨⟨-, a⟩, -, b⟩ := hQ q' (List.mem_cons_of_mem _ hq')
    rw [a, b]

/-- There is a point on the other sides of both polygons. -/
theorem MeetSetup.other_point : ∃ w, OffP (ppos A) A.size w ∧ OffP (ppos B) B.size w ∧
    ¬ (polyW (ppos A) A.size w ≠ 0 ↔ part.insideA = true) ∧ ¬ (polyW (ppos B) B.size w ≠ 0 ↔ part.insideB = true) := by
  obtain ⟨k, t, hk, t0, t1, hoff, hst⟩ := h.first.not_kept hsA
  obtain ⟨x, y, x1, y1, x2, y2, hQ⟩ := hsA.two_points hk t0 t1 (Qs := [B]) (by
    intro Q hQ
    rw [List.mem_singleton] at hQ
    subst hQ
    exact hoff)
  obtain ⟨⟨bx1, bx2⟩, by1, by2⟩ := hQ B (List.mem_singleton.2 rfl)
  cases hi : part.insideA with
  | true =>
    refine ⟨y, y1, by1, by simp [y2], ?_⟩
    rw [by2]; exact hst
  | false =>
    refine ⟨x, x1, bx1, by simp [x2], ?_⟩
    rw [bx2]; exact hst

end
end
end Cavc

import Verif.Proofs.ArcPlanar

/-! The polylines of a part of an operation on closed polylines with arcs that do not meet themselves: where they
are, and that they do not meet themselves or each other. -/
namespace Cavc
open Spec
open scoped Classical Topology
noncomputable section

/-- The segments of the kept parts. -/
def keptE (r : List Polyline) : List (Vertex × V2) := (r.map fun q => vEdges q.vertexes).flatten

theorem mem_keptE {r : List Polyline} {e : Vertex × V2} : e ∈ keptE r ↔ ∃ q ∈ r, e ∈ vEdges q.vertexes := by
  unfold keptE
  rw [List.mem_flatten]
  constructor
  · rintro ⟨l, hl, he⟩
    obtain ⟨q, hq, rfl⟩ := List.mem_map.1 hl
    exact ⟨q, hq, he⟩
  · rintro ⟨q, hq, he⟩
    exact ⟨_, List.mem_map.2 ⟨q, hq, rfl⟩, he⟩

section
variable {A B : Polyline} {intrs : List PlineIntersect} {s : ℤ} {inside : Bool} {cs : List Cut} {T : Cut → ℝ} {g : ℕ → ℝ}
  {β : ℕ → ℤ} {r : List Polyline}

theorem ArcKept.planar (h : ArcKept A B intrs s inside cs T g β r) (hs : SimpleCurve A) : (keptE r).Pairwise PlanarE := by
  obtain ⟨js, f, h1, h2, h3⟩ := h.kept
  have hp : (keptE r).Perm (js.map fun j => vEdges (f j).vertexes).flatten := by
    unfold keptE
    have := (h2.map fun q => vEdges q.vertexes).flatten
    rw [List.map_map] at this
    exact this
  rw [hp.pairwise_iff (fun h => PlanarE.symm h), List.pairwise_flatten]
  have hlt : ∀ j ∈ js, j < cs.length := fun j hj => List.mem_range.1 (h1.subset hj)
  have h0 := h.pos.nonneg h.some
  have hlo : ∀ j ∈ js, g 0 ≤ g j := fun j hj => h.pos.le (Nat.zero_le _) (hlt j hj).le
  have hhi : ∀ j ∈ js, g (j + 1) ≤ g 0 + A.size := fun j hj => by
    rw [← h.pos.around]
    exact h.pos.le (by have := hlt j hj; omega) le_rfl
  constructor
  · intro l hl
    obtain ⟨j, hj, rfl⟩ := List.mem_map.1 hl
    refine (along_ranged (h3 j hj).1).2.imp ?_
    rintro e f ⟨c, d, c', d', q1, q2, q3, q4, q5⟩
    have a1 := hlo j hj
    have a2 := hhi j hj
    exact q1.planar hs q2 (by linarith) q4 (by linarith)
  · rw [List.pairwise_map]
    have hpw : js.Pairwise (· < ·) := List.pairwise_lt_range.sublist h1
    refine List.Pairwise.imp_of_mem ?_ hpw
    intro j j' hj hj' hjj e he f hf
    obtain ⟨c, d, q1, q2, q3⟩ := (along_ranged (h3 j hj).1).1 e he
    obtain ⟨c', d', q4, q5, q6⟩ := (along_ranged (h3 j' hj').1).1 f hf
    have a1 := hlo j hj
    have a2 := hhi j' hj'
    have a3 : g (j + 1) ≤ g j' := h.pos.le (by omega) (hlt j' hj').le
    exact q3.planar hs q6 (by linarith) (by linarith) (by linarith)

/-- What is known of a kept segment. -/
theorem ArcKept.edge (h : ArcKept A B intrs s inside cs T g β r) {q : Polyline} (hq : q ∈ r) {e : Vertex × V2}
    (he : e ∈ vEdges q.vertexes) : ∃ j c d, j < cs.length ∧ (β j ≠ 0 ↔ inside = true) ∧ 0 ≤ g j ∧ g j ≤ c ∧ d ≤ g (j + 1) ∧
      Ranged A c d e ∧ startOf q = trace A (g j) ∧ endOf q = trace A (g (j + 1)) := by
  obtain ⟨js, f, h1, h2, h3⟩ := h.kept
  obtain ⟨j, hj, rfl⟩ := List.mem_map.1 (h2.mem_iff.1 hq)
  have hlt : j < cs.length := List.mem_range.1 (h1.subset hj)
  obtain ⟨ha, hb⟩ := h3 j hj
  obtain ⟨c, d, q1, q2, q3⟩ := (along_ranged ha).1 e he
  refine ⟨j, c, d, hlt, hb, (h.pos.bounds h.some hlt).1, q1, q2, q3, ?_, ?_⟩
  · obtain ⟨u, hu, hu'⟩ := ha.head
    unfold startOf pts
    rw [List.headD_eq_head?_getD, List.head?_map, hu]
    exact hu'
  · obtain ⟨u, hu, hu'⟩ := ha.last
    unfold endOf pts
    rw [List.getLastD_eq_getLast?, List.getLast?_map, hu]
    exact hu'

theorem ArcKept.off_arcW (h : ArcKept A B intrs s inside cs T g β r) (hB : SimpleCurve B) {j : ℕ} (hj : j < cs.length) {u : ℝ}
    (h0 : g j < u) (h1 : u < g (j + 1)) : ¬ OnPline B (trace A u) ∧ arcW B (trace A u) = β j := by
  obtain ⟨a, b⟩ := h.off j hj u h0 h1
  refine ⟨a, ?_⟩
  rw [arcW_eq hB.ok hB.closed hB.two a] at b
  exact_mod_cast b

/-- What is known of a point of a kept segment. -/
theorem ArcKept.point (h : ArcKept A B intrs s inside cs T g β r) (hA : SimpleCurve A) (hB : SimpleCurve B) {q : Polyline}
    (hq : q ∈ r) {e : Vertex × V2} (he : e ∈ vEdges q.vertexes) {z : V2} (hz : eOn z e) :
    OnPline A z ∧ (z ∈ intrs.map PlineIntersect.pos ∨ (¬ OnPline B z ∧ (arcW B z ≠ 0 ↔ inside = true))) := by
  obtain ⟨j, c, d, hj, hb, g0, hc, hd, hr, hs, ht⟩ := h.edge hq he
  obtain ⟨u, u0, u1, rfl⟩ := (hr.on z).1 hz
  refine ⟨trace_onPline hA.closed hA.two (by linarith), ?_⟩
  rcases (hc.trans u0).eq_or_lt with q1 | q1
  · left
    have := List.mem_of_mem_filter (h.starts.mem_iff.1 (List.mem_map.2 ⟨q, hq, rfl⟩))
    rwa [hs, q1] at this
  rcases (u1.trans hd).eq_or_lt with q2 | q2
  · left
    have := List.mem_of_mem_filter (h.ends.mem_iff.1 (List.mem_map.2 ⟨q, hq, rfl⟩))
    rwa [ht, ← q2] at this
  · right
    obtain ⟨a, b⟩ := h.off_arcW hB hj q1 q2
    exact ⟨a, by rw [b]; exact hb⟩

/-- At a crossing a kept segment is at the end of its part. -/
theorem ArcKept.touch (h : ArcKept A B intrs s inside cs T g β r) (hB : SimpleCurve B) {q : Polyline} (hq : q ∈ r)
    {e : Vertex × V2} (he : e ∈ vEdges q.vertexes) {z : V2} (hz : eOn z e) (hX : OnPline B z) :
    (z = e.1.pos ∧ z = startOf q) ∨ (z = e.2 ∧ z = endOf q) := by
  obtain ⟨j, c, d, hj, hb, g0, hc, hd, hr, hs, ht⟩ := h.edge hq he
  obtain ⟨u, u0, u1, rfl⟩ := (hr.on z).1 hz
  rcases (hc.trans u0).eq_or_lt with q1 | q1
  · left
    exact ⟨by rw [hr.start]; congr 1; linarith, by rw [hs, q1]⟩
  rcases (u1.trans hd).eq_or_lt with q2 | q2
  · right
    exact ⟨by rw [hr.stop]; congr 1; linarith, by rw [ht, q2]⟩
  · exact absurd hX (h.off_arcW hB hj q1 q2).1

/-- A point inside of a segment of the polyline. -/
theorem inner_param (hA : SimpleCurve A) {k : ℕ} {u : ℝ} (h0 : (k : ℝ) < u) (h1 : u < k + 1) :
    ∃ i < A.size, ∃ t, 0 < t ∧ t < 1 ∧ trace A u = segPt (rv A i) (rv A (i + 1)) t := by
  have := hA.two'
  refine ⟨k % A.size, Nat.mod_lt _ (by omega), u - k, by linarith, by linarith, ?_⟩
  rw [rv_mod, rv_mod_succ, trace_on h0.le h1.le]

/-- Every kept segment has a point that is inside of a segment of the polyline and not on the other one. -/
theorem ArcKept.inner (h : ArcKept A B intrs s inside cs T g β r) (hA : SimpleCurve A) (hB : SimpleCurve B) {e : Vertex × V2}
    (he : e ∈ keptE r) : (eOk e ∧ ¬ Near (1 / 10 ^ 5) e.1.pos e.2) ∧ ∃ z k t, eOn z e ∧ k < A.size ∧ 0 < t ∧ t < 1 ∧
      z = segPt (rv A k) (rv A (k + 1)) t ∧ ¬ OnPline B z ∧ (arcW B z ≠ 0 ↔ inside = true) := by
  obtain ⟨q, hq, he⟩ := mem_keptE.1 he
  obtain ⟨j, c, d, hj, hb, g0, hc, hd, hr, -, -⟩ := h.edge hq he
  have hlt := hr.lt
  refine ⟨⟨hr.ok, hr.far⟩, ?_⟩
  obtain ⟨k, k1, k2⟩ := hr.within
  obtain ⟨i, hi, t, t0, t1, ht⟩ := inner_param hA (k := k) (u := (c + d) / 2) (by linarith) (by linarith)
  obtain ⟨a, b⟩ := h.off_arcW hB hj (u := (c + d) / 2) (by linarith) (by linarith)
  exact ⟨_, i, t, (hr.on _).2 ⟨_, by linarith, by linarith, rfl⟩, hi, t0, t1, ht, a, by rw [b]; exact hb⟩

/-- There are parts that are not kept. -/
theorem ArcKept.not_kept (h : ArcKept A B intrs s inside cs T g β r) (hs0 : s = 1 ∨ s = -1) (hA : SimpleCurve A)
    (hB : SimpleCurve B) : ∃ z k t, k < A.size ∧ 0 < t ∧ t < 1 ∧ z = segPt (rv A k) (rv A (k + 1)) t ∧ ¬ OnPline B z ∧
      ¬ (arcW B z ≠ 0 ↔ inside = true) := by
  have hN : 0 < cs.length := List.length_pos_iff.2 h.some
  obtain ⟨j, hj, hb⟩ : ∃ j < cs.length, ¬ (β j ≠ 0 ↔ inside = true) := by
    obtain ⟨y, -, -, -, hy⟩ := h.jump 0 hN
    have h1 := h.range 0 hN
    have hm := Nat.mod_lt (0 + 1) hN
    have h2 := h.range _ hm
    have hG : arcSign A B y = 1 ∨ arcSign A B y = -1 := by
      unfold arcSign
      split_ifs <;> simp
    by_contra hn
    push Not at hn
    have n1 := hn 0 hN
    have n2 := hn _ hm
    generalize β ((0 + 1) % cs.length) = b' at *
    generalize β 0 = b at *
    cases inside
    · simp at n1 n2; omega
    · simp at n1 n2; omega
  obtain ⟨g0, -⟩ := h.pos.bounds h.some hj
  have hm := h.pos.mono j hj
  have f1 := Nat.floor_le g0
  have f2 := Nat.lt_floor_add_one (g j)
  obtain ⟨u, u0, u1, u2⟩ : ∃ u, g j < u ∧ u < g (j + 1) ∧ u < ⌊g j⌋₊ + 1 := by
    obtain ⟨u, u0, u1⟩ := exists_between (lt_min hm f2)
    rw [lt_min_iff] at u1
    exact ⟨u, u0, u1⟩
  obtain ⟨i, hi, t, t0, t1, ht⟩ := inner_param hA (k := ⌊g j⌋₊) (u := u) (by linarith) u2
  obtain ⟨a, b⟩ := h.off_arcW hB hj u0 u1
  exact ⟨_, i, t, hi, t0, t1, ht, a, by rw [b]; exact hb⟩

end

section
variable {A B : Polyline} {intrs : List PlineIntersect} {sA sB : ℤ} {part : Part} {res : List Polyline}
  {csA : List Cut} {TA : Cut → ℝ} {gA : ℕ → ℝ} {βA : ℕ → ℤ} {csB : List Cut} {TB : Cut → ℝ} {gB : ℕ → ℝ} {βB : ℕ → ℤ}
  {flip : Bool} {kA kB kB' : List Polyline}

/-- A segment or the same in the other direction. -/
def eTurned (flip : Bool) (e : Vertex × V2) : Vertex × V2 := if flip then eFlip e else e

theorem eOn_turned {flip : Bool} {z : V2} {e : Vertex × V2} : eOn z (eTurned flip e) ↔ eOn z e := by
  unfold eTurned
  by_cases hf : flip = true
  · rw [if_pos hf, eOn_flip]
  · rw [if_neg hf]

variable (h : ArcSetup A B intrs sA sB part res csA TA gA βA csB TB gB βB flip kA kB kB')
include h

/-- The parts of the second polyline in the direction they are used. -/
theorem ArcSetup.turned_mem {q' : Polyline} (hq' : q' ∈ kB') :
    ∃ q ∈ kB, startOf q' = (if flip then endOf q else startOf q) ∧ endOf q' = (if flip then startOf q else endOf q) ∧
      ∀ e ∈ vEdges q'.vertexes, eTurned flip e ∈ vEdges q.vertexes := by
  obtain ⟨i, hi, rfl⟩ := List.getElem_of_mem hq'
  have hl : kB'.length = kB.length := by
    have := congrArg List.length h.turned
    simpa using this
  have hi' : i < kB.length := by omega
  have e : pts kB'[i] = if flip then (pts kB[i]).reverse else pts kB[i] := by
    have := congrArg (fun l => l[i]?) h.turned
    simpa [hi, hi'] using this
  have e' : vEdges kB'[i].vertexes = turnedEdges flip (vEdges kB[i].vertexes) := by
    have := congrArg (fun l => l[i]?) h.turned_edges
    simpa [hi, hi'] using this
  refine ⟨kB[i], List.getElem_mem hi', ?_, ?_, ?_⟩
  · unfold startOf endOf
    rw [e]
    by_cases hf : flip = true
    · simp only [if_pos hf]
      rw [List.headD_eq_head?_getD, List.head?_reverse, List.getLastD_eq_getLast?]
    · simp only [if_neg hf]
  · unfold startOf endOf
    rw [e]
    by_cases hf : flip = true
    · simp only [if_pos hf]
      rw [List.getLastD_eq_getLast?, List.getLast?_reverse, List.headD_eq_head?_getD]
    · simp only [if_neg hf]
  · intro f hf
    rw [e'] at hf
    unfold turnedEdges at hf
    unfold eTurned
    by_cases hfl : flip = true
    · rw [if_pos hfl, List.mem_reverse, List.mem_map] at hf
      obtain ⟨f', hf', rfl⟩ := hf
      rwa [if_pos hfl, eFlip_flip]
    · rw [if_neg hfl] at hf
      rwa [if_neg hfl]

theorem ArcSetup.turned_planar (hp : (keptE kB).Pairwise PlanarE) : (keptE kB').Pairwise PlanarE := by
  have e : keptE kB' = (kB.map fun q => turnedEdges flip (vEdges q.vertexes)).flatten := by
    unfold keptE
    exact congrArg List.flatten h.turned_edges
  rw [e]
  unfold turnedEdges
  by_cases hf : flip = true
  · simp only [if_pos hf]
    unfold keptE at hp
    rw [List.pairwise_flatten] at hp ⊢
    obtain ⟨h1, h2⟩ := hp
    constructor
    · intro l hl
      obtain ⟨q, hq, rfl⟩ := List.mem_map.1 hl
      rw [List.pairwise_reverse, List.pairwise_map]
      exact (h1 _ (List.mem_map.2 ⟨q, hq, rfl⟩)).imp fun g => g.flip.symm
    · rw [List.pairwise_map] at h2 ⊢
      refine h2.imp ?_
      intro q q' g e he f hf
      rw [List.mem_reverse, List.mem_map] at he hf
      obtain ⟨e, he, rfl⟩ := he
      obtain ⟨f, hf, rfl⟩ := hf
      exact (g e he f hf).flip
  · simp only [if_neg hf]
    exact hp

variable (hsA : SimpleCurve A) (hsB : SimpleCurve B)
include hsA hsB

theorem ArcSetup.turned_touch {q' : Polyline} (hq' : q' ∈ kB') {f : Vertex × V2} (hf : f ∈ vEdges q'.vertexes) {z : V2}
    (hz : eOn z f) (hX : OnPline A z) : (z = f.1.pos ∧ z = startOf q') ∨ (z = f.2 ∧ z = endOf q') := by
  obtain ⟨q, hq, e1, e2, e3⟩ := h.turned_mem hq'
  have := h.second.touch hsA hq (e3 f hf) (eOn_turned.2 hz) hX
  rw [e1, e2]
  unfold eTurned at this
  by_cases hfl : flip = true
  · simp only [if_pos hfl] at this ⊢
    rcases this with q | q
    · exact Or.inr q
    · exact Or.inl q
  · simp only [if_neg hfl] at this ⊢
    exact this

theorem ArcSetup.planar : (keptE (kA ++ kB')).Pairwise PlanarE := by
  have e : keptE (kA ++ kB') = keptE kA ++ keptE kB' := by
    unfold keptE
    rw [List.map_append, List.flatten_append]
  rw [e, List.pairwise_append]
  refine ⟨h.first.planar hsA, h.turned_planar (h.second.planar hsB), ?_⟩
  intro e he f hf z hze hzf
  obtain ⟨q, hq, he⟩ := mem_keptE.1 he
  obtain ⟨q', hq', hf⟩ := mem_keptE.1 hf
  have hnd := near_pairwise_nodup h.points
  have onA : OnPline A z := (h.first.point hsA hsB hq he hze).1
  have onB : OnPline B z := by
    obtain ⟨p, hp, -, -, e3⟩ := h.turned_mem hq'
    exact (h.second.point hsB hsA hp (e3 f hf) (eOn_turned.2 hzf)).1
  have hs1 := h.starts.nodup_iff.2 hnd
  have he1 := h.ends.nodup_iff.2 hnd
  rw [List.map_append, List.nodup_append] at hs1 he1
  rcases h.first.touch hsB hq he hze onB with ⟨a1, a2⟩ | ⟨a1, a2⟩ <;>
    rcases h.turned_touch hsA hsB hq' hf hzf onA with ⟨b1, b2⟩ | ⟨b1, b2⟩
  · exact absurd (a2.symm.trans b2) (hs1.2.2 _ (List.mem_map.2 ⟨q, hq, rfl⟩) _ (List.mem_map.2 ⟨q', hq', rfl⟩))
  · exact Or.inr ⟨a1, b1⟩
  · exact Or.inl ⟨a1, b1⟩
  · exact absurd (a2.symm.trans b2) (he1.2.2 _ (List.mem_map.2 ⟨q, hq, rfl⟩) _ (List.mem_map.2 ⟨q', hq', rfl⟩))

omit hsA hsB in
theorem ArcSetup.mem_edges {q : Polyline} (hq : q ∈ res) {e : Vertex × V2} (he : e ∈ cEdges q) :
    e ∈ keptE kA ∨ eTurned flip e ∈ keptE kB := by
  have h1 : e ∈ (res.map fun q => cEdges q).flatten :=
    List.mem_flatten.2 ⟨_, List.mem_map.2 ⟨q, hq, rfl⟩, he⟩
  obtain ⟨p, hp, he'⟩ := mem_keptE.1 (h.loops.mem_iff.1 h1)
  rcases List.mem_append.1 hp with hp | hp
  · exact Or.inl (mem_keptE.2 ⟨p, hp, he'⟩)
  · obtain ⟨p', hp', -, -, e3⟩ := h.turned_mem hp
    exact Or.inr (mem_keptE.2 ⟨p', hp', e3 e he'⟩)

/-- The polylines do not meet themselves or each other. -/
theorem ArcSetup.simple : (∀ q ∈ res, SimpleCurve q) ∧
    res.Pairwise fun q q' => ∀ z, ¬ (OnPline q z ∧ OnPline q' z) := by
  have hnear : ∀ {a b : V2}, ¬ Near (1 / 10 ^ 5) a b → ¬ Near (1 / 10 ^ 8) a b := fun h g =>
    h ⟨g.1.trans (by norm_num), g.2.trans (by norm_num)⟩
  refine loops_curves (fun q hq => h.shape q hq) ?_ ?_
  · intro e he
    obtain ⟨l, hl, he⟩ := List.mem_flatten.1 he
    obtain ⟨q, hq, rfl⟩ := List.mem_map.1 hl
    rcases h.mem_edges hq he with g | g
    · obtain ⟨⟨a, b⟩, -⟩ := h.first.inner hsA hsB g
      exact ⟨a, hnear b⟩
    · obtain ⟨⟨a, b⟩, -⟩ := h.second.inner hsB hsA g
      unfold eTurned at a b
      by_cases hfl : flip = true
      · rw [if_pos hfl] at a b
        refine ⟨by rw [← eFlip_flip e]; exact eOk_flip a, hnear fun g => b ?_⟩
        exact near_symm g
      · rw [if_neg hfl] at a b
        exact ⟨a, hnear b⟩
  · exact (h.loops.pairwise_iff (fun g => PlanarE.symm g)).2 (h.planar hsA hsB)

/-- Where the polylines are. -/
theorem ArcSetup.state (hX : ∀ z ∈ intrs.map PlineIntersect.pos, OnPline A z ∧ OnPline B z)
    {q : Polyline} (hq : q ∈ res) {z : V2} (hz : OnPline q z) :
    (OnPline A z ∨ (arcW A z ≠ 0 ↔ part.insideA = true)) ∧ (OnPline B z ∨ (arcW B z ≠ 0 ↔ part.insideB = true)) ∧
    (OnPline A z ∨ OnPline B z) := by
  have hX' : ∀ z ∈ (intrs.map swapI).map PlineIntersect.pos, OnPline A z ∧ OnPline B z := by
    intro z hz
    rw [List.map_map] at hz
    exact hX z hz
  obtain ⟨e, he, ho⟩ := (onPline_cEdges (h.shape q hq).1 (h.shape q hq).2).1 hz
  rcases h.mem_edges hq he with g | g
  · obtain ⟨p, hp, he⟩ := mem_keptE.1 g
    obtain ⟨onA, hpt⟩ := h.first.point hsA hsB hp he ho
    refine ⟨Or.inl onA, ?_, Or.inl onA⟩
    rcases hpt with q | q
    · exact Or.inl (hX z q).2
    · exact Or.inr q.2
  · obtain ⟨p, hp, he⟩ := mem_keptE.1 g
    obtain ⟨onB, hpt⟩ := h.second.point hsB hsA hp he (eOn_turned.2 ho)
    refine ⟨?_, Or.inl onB, Or.inr onB⟩
    rcases hpt with q | q
    · exact Or.inl (hX' z q).1
    · exact Or.inr q.2

end
end
end Cavc

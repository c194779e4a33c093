import Verif.Proofs.SIndexEnum
import Verif.Proofs.SIndexOverflow
import Verif.Model.Hilbert
import Mathlib.Order.Bounds.Basic
import Mathlib.Data.Fintype.EquivFin
import Mathlib.Tactic.Linarith
import Mathlib.Tactic.Positivity

/-! C01-C06: the static spatial index. -/
namespace Cavc
open Spec

variable {α : Type} [LinearOrder α]

/-- The documented domain of the index: 1 to 2^24 items, node size 2 to 2^24, and Hilbert values
that can be computed whenever they are needed (see C06 for the values of the code). -/
structure IndexDomain (N : ℕ) (inf ninf : α) (hv : Box α → Box α → M ℕ) (items : List (Box α)) :
    Prop where
  node : 2 ≤ N ∧ N ≤ 2 ^ 24
  count : 1 ≤ items.length ∧ items.length ≤ 2 ^ 24
  hilbert : N < items.length →
    ∀ b ∈ items, ∃ v, hv (items.foldl Box.grow ⟨inf, inf, ninf, ninf⟩) b = .ok v

/-- C01. Build an index from any list of boxes: the query result has no duplicates and consists of
exactly the positions (in order of `add` calls) of the boxes that overlap the query box. -/
theorem C01_query_exact {N : ℕ} {inf ninf : α} {hv : Box α → Box α → M ℕ} {items : List (Box α)}
    (h : IndexDomain N inf ninf hv items) :
    ∃ s, SIndex.build N inf ninf hv items = .ok s ∧
      ∀ q : Box α, ∃ r : List ℕ, s.query q = .ok r ∧ r.Nodup ∧
        ∀ i, i ∈ r ↔ ∃ b, items[i]? = some b ∧ Overlap q b := by
  obtain ⟨s, L, e, h1, h2⟩ := build_spec inf ninf hv items h.node.1 h.node.2 h.count.1 h.count.2
    h.hilbert
  have hN : 1 ≤ N := by have := h.node.1; omega
  exact ⟨s, h1, fun q => ⟨_, h2.query_eq hN q, h2.nodup_queryOrder hN q, h2.mem_queryOrder hN q⟩⟩

/-- Running a visitor is folding it over a prefix that ends at the first refusal. -/
theorem runVisitor_prefix {β σ : Type} (v : σ → β → σ × Bool) (st : σ) (l : List β) :
    ∃ k, k ≤ l.length ∧
      (runVisitor v st l).1 = (l.take k).foldl (fun s x => (v s x).1) st ∧
      (∀ j (hj : j < l.length), j + 1 < k →
        (v ((l.take j).foldl (fun s x => (v s x).1) st) l[j]).2 = true) ∧
      (k < l.length → ∃ j, ∃ hj : j < l.length, j + 1 = k ∧
        (v ((l.take j).foldl (fun s x => (v s x).1) st) l[j]).2 = false) := by
  induction l generalizing st with
  | nil => exact ⟨0, by simp, rfl, by simp, by simp⟩
  | cons a l ih =>
    by_cases hv : (v st a).2 = true
    · obtain ⟨k, h1, h2, h3, h4⟩ := ih (v st a).1
      cases k with
      | zero =>
        cases l with
        | nil => exact ⟨1, by simp, by simp [runVisitor, hv], by intro j _ h; omega, by simp⟩
        | cons b l =>
          obtain ⟨j, _, h5, _⟩ := h4 (by simp)
          omega
      | succ k =>
        refine ⟨k + 2, by simp; omega, ?_, ?_, ?_⟩
        · simp only [runVisitor, hv, if_true, h2]; rfl
        · intro j hj hjk
          cases j with
          | zero => simpa using hv
          | succ j => simpa using h3 j (by simpa using hj) (by omega)
        · intro hk
          obtain ⟨j, hj, h5, h6⟩ := h4 (by simp at hk; omega)
          exact ⟨j + 1, by simpa using hj, by omega, by simpa using h6⟩
    · refine ⟨1, by simp, ?_, ?_, ?_⟩
      · simp [runVisitor, hv]
      · intro j _ h; omega
      · intro _
        exact ⟨0, by simp, rfl, by simpa using hv⟩

/-- C02. A visiting query calls the visitor on a prefix of what the full query reports: on all of
it if the visitor never answers `false`, else up to and including the first `false`; the state the
visitor ends with is the one after exactly these calls. -/
theorem C02_visitQuery_prefix {N : ℕ} {inf ninf : α} {hv : Box α → Box α → M ℕ}
    {items : List (Box α)} (h : IndexDomain N inf ninf hv items) :
    ∃ s, SIndex.build N inf ninf hv items = .ok s ∧
      ∀ q : Box α, ∃ r : List ℕ, s.query q = .ok r ∧
        ∀ (σ : Type) (v : σ → ℕ → σ × Bool) (st : σ), ∃ k, k ≤ r.length ∧
          s.visitQuery q v st = .ok ((r.take k).foldl (fun s i => (v s i).1) st) ∧
          (∀ j (hj : j < r.length), j + 1 < k →
            (v ((r.take j).foldl (fun s i => (v s i).1) st) r[j]).2 = true) ∧
          (k < r.length → ∃ j, ∃ hj : j < r.length, j + 1 = k ∧
            (v ((r.take j).foldl (fun s i => (v s i).1) st) r[j]).2 = false) := by
  obtain ⟨s, L, e, h1, h2⟩ := build_spec inf ninf hv items h.node.1 h.node.2 h.count.1 h.count.2
    h.hilbert
  have hN : 1 ≤ N := by have := h.node.1; omega
  refine ⟨s, h1, fun q => ⟨_, h2.query_eq hN q, fun σ v st => ?_⟩⟩
  obtain ⟨k, a, b, c, d⟩ := runVisitor_prefix v st (queryOrder s q)
  exact ⟨k, a, by rw [h2.visitQuery_eq hN, b], c, d⟩

/-- C03. In the documented domain, construction, adding, finishing, and every query and
enumeration end without any fault (out of range access, failed assertion, endless loop), and the
arrays are filled exactly to the allocated size. -/
theorem C03_no_fault {N : ℕ} {inf ninf : α} {hv : Box α → Box α → M ℕ} {items : List (Box α)}
    (h : IndexDomain N inf ninf hv items) :
    ∃ s, SIndex.build N inf ninf hv items = .ok s ∧
      s.boxes.length = s.numNodes ∧ s.indices.length = s.numNodes ∧
      (∀ (σ : Type) (q : Box α) (v : σ → ℕ → σ × Bool) (st : σ), ∃ r, s.visitQuery q v st = .ok r) ∧
      (∀ (σ : Type) (v : σ → ℕ → Box α → σ × Bool) (st : σ),
        (∃ r, s.visitItemBoxes v st = .ok r) ∧ ∃ r, s.visitBoundingBoxes v st = .ok r) := by
  obtain ⟨s, L, e, h1, h2⟩ := build_spec inf ninf hv items h.node.1 h.node.2 h.count.1 h.count.2
    h.hilbert
  have hN : 1 ≤ N := by have := h.node.1; omega
  exact ⟨s, h1, h2.boxesLen.trans h2.numNodes.symm, h2.indicesLen.trans h2.numNodes.symm,
    fun σ q v st => ⟨_, h2.visitQuery_eq hN q v st⟩,
    fun σ v st => ⟨⟨_, h2.visitItemBoxes_eq v st⟩, ⟨_, h2.visitBoundingBoxes_eq hN v st⟩⟩⟩

/-- C03, the limit of the range: with 2^24 + 1 items and the default node size 16 the node count
computed in `float` is one too small, and `finish` writes outside the arrays, whatever the boxes. -/
theorem C03_overflow_above_range (inf ninf : α) (hv : Box α → Box α → M ℕ) (items : List (Box α))
    (hn : items.length = 2 ^ 24 + 1)
    (hhv : ∀ b ∈ items, ∃ v, hv (items.foldl Box.grow ⟨inf, inf, ninf, ninf⟩) b = .ok v) :
    SIndex.build 16 inf ninf hv items = .error .outOfBounds :=
  build_overflow inf ninf hv items hn hhv

/-- C03: constructing an index for zero items trips the assertion. -/
theorem C03_zero_items (N : ℕ) (inf ninf : α) (hv : Box α → Box α → M ℕ) :
    SIndex.build N inf ninf hv [] = .error .assertFailed := rfl

omit [LinearOrder α] in
/-- C04. `sort` on the full range ends without a fault; the value, box and index arrays undergo one
common permutation; values in an earlier `N`-aligned bucket are at most those in a later one. -/
theorem C04_sort (N : ℕ) (values : List ℕ) (boxes : List (Box α)) (indices : List ℕ)
    (hne : values ≠ []) (hb : boxes.length = values.length) (hi : indices.length = values.length) :
    ∃ (st : SortState α) (e : Equiv.Perm (Fin values.length)),
      sortLoop N (values.length + 1) ⟨values, boxes, indices⟩ 0 (values.length - 1) = .ok st ∧
      (∀ k : Fin values.length, st.values[k]? = values[e k]? ∧ st.boxes[k]? = boxes[e k]? ∧
        st.indices[k]? = indices[e k]?) ∧
      st.values.length = values.length ∧ st.boxes.length = values.length ∧
      st.indices.length = values.length ∧
      ∀ (a b : ℕ) (x y : ℕ), st.values[a]? = some x → st.values[b]? = some y → a / N < b / N →
        x ≤ y := by
  have hpos : 0 < values.length := List.length_pos_iff.mpr hne
  obtain ⟨st, e, h1, h2, h3, h4⟩ := sortLoop_spec N values.length (values.length + 1)
    ⟨values, boxes, indices⟩ ⟨rfl, hb, hi⟩ 0 (values.length - 1) (by omega) (by omega) (by omega)
  have hmem : ∀ k, k < values.length → e k < values.length := fun k hk => by
    have := h3.mem (k := k) ⟨by omega, by omega⟩; omega
  have hinj : Function.Injective fun k : Fin values.length => (⟨e k, hmem k k.2⟩ : Fin _) := by
    intro a b hab
    simp only [Fin.mk.injEq] at hab
    exact Fin.ext (e.injective hab)
  refine ⟨st, Equiv.ofBijective _ (Finite.injective_iff_bijective.mp hinj), h1, ?_, h2.values,
    h2.boxes, h2.indices, ?_⟩
  · intro k
    exact ⟨h3.values k, h3.boxes k, h3.indices k⟩
  · intro a b x y ha hb' hab
    have hbl : b < values.length := by
      by_contra hc
      rw [List.getElem?_eq_none (by rw [h2.values]; omega)] at hb'
      simp at hb'
    have hle : a ≤ b := by
      by_contra hc
      have := Nat.div_le_div_right (c := N) (show b ≤ a by omega)
      omega
    have := h4 a b (by omega) hle (by omega) hab
    simpa [List.getD_eq_getElem?_getD, ha, hb'] using this

/-- The extents of a fold of `grow` from an empty box. -/
theorem ext_exact (inf ninf : α) (items : List (Box α)) (hne : items ≠ [])
    (hle : ∀ b ∈ items, b.minX ≤ inf ∧ b.minY ≤ inf ∧ ninf ≤ b.maxX ∧ ninf ≤ b.maxY) :
    let e := items.foldl Box.grow ⟨inf, inf, ninf, ninf⟩
    IsLeast {x | ∃ b ∈ items, x = b.minX} e.minX ∧ IsLeast {x | ∃ b ∈ items, x = b.minY} e.minY ∧
    IsGreatest {x | ∃ b ∈ items, x = b.maxX} e.maxX ∧
    IsGreatest {x | ∃ b ∈ items, x = b.maxY} e.maxY := by
  intro e
  have hub := (foldl_grow_encl items (⟨inf, inf, ninf, ninf⟩ : Box α)).2
  have key : ∀ (l : List (Box α)) (e0 : Box α),
      let e := l.foldl Box.grow e0
      ((∃ b ∈ l, e.minX = b.minX) ∨ e.minX = e0.minX) ∧
      ((∃ b ∈ l, e.minY = b.minY) ∨ e.minY = e0.minY) ∧
      ((∃ b ∈ l, e.maxX = b.maxX) ∨ e.maxX = e0.maxX) ∧
      ((∃ b ∈ l, e.maxY = b.maxY) ∨ e.maxY = e0.maxY) := by
    intro l
    induction l with
    | nil => intro e0; simp
    | cons a l ih =>
      intro e0
      obtain ⟨i1, i2, i3, i4⟩ := ih (e0.grow a)
      simp only [List.foldl_cons]
      refine ⟨?_, ?_, ?_, ?_⟩
      · rcases i1 with ⟨b, hb, h⟩ | h
        · exact Or.inl ⟨b, by simp [hb], h⟩
        · rw [h]; simp only [Box.grow]; split_ifs
          · exact Or.inl ⟨a, by simp, rfl⟩
          · exact Or.inr rfl
      · rcases i2 with ⟨b, hb, h⟩ | h
        · exact Or.inl ⟨b, by simp [hb], h⟩
        · rw [h]; simp only [Box.grow]; split_ifs
          · exact Or.inl ⟨a, by simp, rfl⟩
          · exact Or.inr rfl
      · rcases i3 with ⟨b, hb, h⟩ | h
        · exact Or.inl ⟨b, by simp [hb], h⟩
        · rw [h]; simp only [Box.grow]; split_ifs
          · exact Or.inl ⟨a, by simp, rfl⟩
          · exact Or.inr rfl
      · rcases i4 with ⟨b, hb, h⟩ | h
        · exact Or.inl ⟨b, by simp [hb], h⟩
        · rw [h]; simp only [Box.grow]; split_ifs
          · exact Or.inl ⟨a, by simp, rfl⟩
          · exact Or.inr rfl
  obtain ⟨k1, k2, k3, k4⟩ := key items ⟨inf, inf, ninf, ninf⟩
  obtain ⟨b0, hb0⟩ := List.exists_mem_of_ne_nil items hne
  refine ⟨⟨?_, ?_⟩, ⟨?_, ?_⟩, ⟨?_, ?_⟩, ⟨?_, ?_⟩⟩
  · rcases k1 with h | h
    · exact h
    · exact ⟨b0, hb0, le_antisymm (hub b0 hb0).minX (by rw [show e.minX = inf from h]; exact (hle b0 hb0).1)⟩
  · rintro x ⟨b, hb, rfl⟩; exact (hub b hb).minX
  · rcases k2 with h | h
    · exact h
    · exact ⟨b0, hb0, le_antisymm (hub b0 hb0).minY (by rw [show e.minY = inf from h]; exact (hle b0 hb0).2.1)⟩
  · rintro x ⟨b, hb, rfl⟩; exact (hub b hb).minY
  · rcases k3 with h | h
    · exact h
    · exact ⟨b0, hb0, le_antisymm (by rw [show e.maxX = ninf from h]; exact (hle b0 hb0).2.2.1) (hub b0 hb0).maxX⟩
  · rintro x ⟨b, hb, rfl⟩; exact (hub b hb).maxX
  · rcases k4 with h | h
    · exact h
    · exact ⟨b0, hb0, le_antisymm (by rw [show e.maxY = ninf from h]; exact (hle b0 hb0).2.2.2) (hub b0 hb0).maxY⟩
  · rintro x ⟨b, hb, rfl⟩; exact (hub b hb).maxY

/-- C05, extents: the stored extents are the exact minima and maxima over the added boxes. -/
theorem C05_extents_exact {N : ℕ} {inf ninf : α} {hv : Box α → Box α → M ℕ} {items : List (Box α)}
    (h : IndexDomain N inf ninf hv items)
    (hle : ∀ b ∈ items, b.minX ≤ inf ∧ b.minY ≤ inf ∧ ninf ≤ b.maxX ∧ ninf ≤ b.maxY) :
    ∃ s, SIndex.build N inf ninf hv items = .ok s ∧
      IsLeast {x | ∃ b ∈ items, x = b.minX} s.ext.minX ∧
      IsLeast {x | ∃ b ∈ items, x = b.minY} s.ext.minY ∧
      IsGreatest {x | ∃ b ∈ items, x = b.maxX} s.ext.maxX ∧
      IsGreatest {x | ∃ b ∈ items, x = b.maxY} s.ext.maxY := by
  obtain ⟨s, L, e, h1, h2⟩ := build_spec inf ninf hv items h.node.1 h.node.2 h.count.1 h.count.2
    h.hilbert
  have hne : items ≠ [] := by
    intro hc; have := h.count.1; simp [hc] at this
  refine ⟨s, h1, ?_⟩
  rw [h2.ext]
  exact ext_exact inf ninf items hne hle

theorem zipIdx_swap {β : Type} (l : List β) : (l.zipIdx.map fun x => (x.2, x.1)) =
    (List.range l.length).filterMap fun i => (l[i]?).map fun b => (i, b) := by
  induction l using List.reverseRecOn with
  | nil => rfl
  | append_singleton l a ih =>
    rw [List.zipIdx_append, List.map_append, ih, List.length_append, List.length_singleton,
      List.range_succ, List.filterMap_append]
    congr 1
    · apply List.filterMap_congr
      intro i hi
      rw [List.getElem?_append_left (List.mem_range.mp hi)]
    · simp

theorem present_level0 {N L : ℕ} {items : List (Box α)} {init : Box α} {e : Equiv.Perm ℕ}
    {s : SIndex α} (hb : Built N L items init e s) :
    (present s ((List.range items.length).map fun c => (idx s c, c))).Perm
      (items.zipIdx.map fun x => (x.2, x.1)) := by
  have hle : items.length ≤ s.boxes.length := by
    rw [hb.boxesLen]
    have := base_mono N items.length (a := 1) (b := L) (by have := hb.two_le; omega)
    rw [base_one] at this; exact this
  have h1 : present s ((List.range items.length).map fun c => (idx s c, c)) =
      ((List.range items.length).map e).filterMap fun i => (items[i]?).map fun b => (i, b) := by
    unfold present
    rw [List.filterMap_map, List.filterMap_map]
    apply List.filterMap_congr
    intro c hc
    rw [List.mem_range] at hc
    simp only [Function.comp]
    rw [hb.idx_eq hc, hb.leafBox c hc]
  have h2 : (items.zipIdx.map fun x => (x.2, x.1)) =
      (List.range items.length).filterMap fun i => (items[i]?).map fun b => (i, b) := by
    exact zipIdx_swap items
  rw [h1, h2]
  apply List.Perm.filterMap
  rw [List.perm_ext_iff_of_nodup (List.nodup_range.map e.injective) List.nodup_range]
  intro a
  rw [List.mem_map, List.mem_range]
  constructor
  · rintro ⟨c, hc, rfl⟩
    exact hb.e_lt (List.mem_range.mp hc)
  · intro ha
    refine ⟨e.symm a, ?_, e.apply_symm_apply a⟩
    rw [List.mem_range]
    by_contra hc
    have h1 := hb.fix (e.symm a) (by omega)
    rw [e.apply_symm_apply] at h1
    omega

/-- C05, items: the item enumeration presents each added item exactly once, with its position in
the order of `add` calls and its own box; a visitor that answers `false` stops it. -/
theorem C05_visitItemBoxes {N : ℕ} {inf ninf : α} {hv : Box α → Box α → M ℕ} {items : List (Box α)}
    (h : IndexDomain N inf ninf hv items) :
    ∃ s, SIndex.build N inf ninf hv items = .ok s ∧
      ∃ order : List (ℕ × Box α), order.Perm (items.zipIdx.map fun x => (x.2, x.1)) ∧
        ∀ (σ : Type) (v : σ → ℕ → Box α → σ × Bool) (st : σ),
          s.visitItemBoxes v st =
            .ok (runVisitor (fun st (x : ℕ × Box α) => v st x.1 x.2) st order).1 := by
  obtain ⟨s, L, e, h1, h2⟩ := build_spec inf ninf hv items h.node.1 h.node.2 h.count.1 h.count.2
    h.hilbert
  exact ⟨s, h1, _, present_level0 h2, fun σ v st => h2.visitItemBoxes_eq v st⟩

omit [LinearOrder α] in
theorem present_length (s : SIndex α) (l : List (ℕ × ℕ)) (h : ∀ x ∈ l, x.2 < s.boxes.length) :
    (present s l).length = l.length := by
  induction l with
  | nil => rfl
  | cons a l ih =>
    obtain ⟨t, p⟩ := a
    rw [present_cons s t p l (h (t, p) (by simp))]
    simp [ih (fun x hx => h x (by simp [hx]))]

omit [LinearOrder α] in
theorem mem_present (s : SIndex α) (l : List (ℕ × ℕ)) (t : ℕ) (b : Box α) :
    (t, b) ∈ present s l ↔ ∃ p, (t, p) ∈ l ∧ s.boxes[p]? = some b := by
  unfold present
  rw [List.mem_filterMap]
  constructor
  · rintro ⟨⟨t', p⟩, hm, h⟩
    simp only [Option.map_eq_some_iff, Prod.mk.injEq] at h
    obtain ⟨b', h1, rfl, rfl⟩ := h
    exact ⟨p, hm, h1⟩
  · rintro ⟨p, hm, h⟩
    exact ⟨(t, p), hm, by simp [h]⟩

theorem length_levels (N n L : ℕ) : ((List.range L).flatMap fun j =>
    (List.range (sz N n j)).map fun c => (j, base N n j + c)).length = base N n L := by
  induction L with
  | zero => rfl
  | succ L ih =>
    rw [List.range_succ, List.flatMap_append, List.length_append, ih]
    simp [base]

theorem filter_level0 (N n L : ℕ) (hL : 1 ≤ L) : ((List.range L).flatMap fun j =>
    (List.range (sz N n j)).map fun c => (j, base N n j + c)).filter (fun x => x.1 = 0) =
    (List.range n).map fun c => (0, c) := by
  obtain ⟨k, rfl⟩ : ∃ k, L = k + 1 := ⟨L - 1, by omega⟩
  rw [List.range_succ_eq_map, List.flatMap_cons, List.filter_append, List.flatMap_map]
  have h1 : (((List.range k).flatMap fun a => (List.range (sz N n (Nat.succ a))).map
      fun c => (Nat.succ a, base N n (Nat.succ a) + c)).filter fun x => decide (x.1 = 0)) = [] := by
    rw [List.filter_eq_nil_iff]
    intro x hx
    simp only [List.mem_flatMap, List.mem_map] at hx
    obtain ⟨a, _, c, _, rfl⟩ := hx
    simp
  rw [h1, List.append_nil, List.filter_eq_self.mpr]
  · simp [sz, base]
  · intro x hx
    simp only [List.mem_map] at hx
    obtain ⟨c, _, rfl⟩ := hx
    simp

omit [LinearOrder α] in
theorem present_filter (s : SIndex α) (l : List (ℕ × ℕ)) (f : ℕ → Bool) :
    (present s l).filter (fun x => f x.1) = present s (l.filter fun x => f x.1) := by
  induction l with
  | nil => rfl
  | cons a l ih =>
    obtain ⟨t, p⟩ := a
    unfold present at *
    rcases hb : s.boxes[p]? with _ | b
    · by_cases hf : f t <;> simp [hb, hf, ih]
    · by_cases hf : f t <;> simp [hb, hf, ih]

/-- C05, bounding boxes: the enumeration presents every one of the stored boxes exactly once with
its level; the level 0 boxes are the added boxes, there is one box on the top level, and every box
below the top level is enclosed by one of the next level. -/
theorem C05_visitBoundingBoxes {N : ℕ} {inf ninf : α} {hv : Box α → Box α → M ℕ}
    {items : List (Box α)} (h : IndexDomain N inf ninf hv items) :
    ∃ s, SIndex.build N inf ninf hv items = .ok s ∧
      ∃ order : List (ℕ × Box α),
        (∀ (σ : Type) (v : σ → ℕ → Box α → σ × Bool) (st : σ),
          s.visitBoundingBoxes v st =
            .ok (runVisitor (fun st (x : ℕ × Box α) => v st x.1 x.2) st order).1) ∧
        (order.map Prod.snd).Perm s.boxes ∧
        ((order.filter fun x => x.1 = 0).map Prod.snd).Perm items ∧
        (∃! top : Box α, (s.numLevels - 1, top) ∈ order) ∧
        ∀ l b, (l, b) ∈ order → l < s.numLevels ∧ (l + 1 < s.numLevels →
          ∃ p, (l + 1, p) ∈ order ∧
            p.minX ≤ b.minX ∧ p.minY ≤ b.minY ∧ b.maxX ≤ p.maxX ∧ b.maxY ≤ p.maxY) := by
  obtain ⟨s, L, e, h1, h2⟩ := build_spec inf ninf hv items h.node.1 h.node.2 h.count.1 h.count.2
    h.hilbert
  have hN : 1 ≤ N := by have := h.node.1; omega
  have hperm := h2.boxOrder_perm hN
  have hp2 : (present s (boxOrder s)).Perm (present s ((List.range L).flatMap fun j =>
      (List.range (sz N items.length j)).map fun c => (j, base N items.length j + c))) :=
    List.Perm.filterMap _ hperm
  have hmem : ∀ l b, (l, b) ∈ present s (boxOrder s) ↔ l < L ∧ ∃ c, c < sz N items.length l ∧
      s.boxes[base N items.length l + c]? = some b := by
    intro l b
    rw [hp2.mem_iff, mem_present]
    constructor
    · rintro ⟨p, hp, hb⟩
      simp only [List.mem_flatMap, List.mem_map, List.mem_range, Prod.mk.injEq] at hp
      obtain ⟨j, hj, c, hc, rfl, rfl⟩ := hp
      exact ⟨hj, c, hc, hb⟩
    · rintro ⟨hl, c, hc, hb⟩
      refine ⟨_, ?_, hb⟩
      simp only [List.mem_flatMap, List.mem_map, List.mem_range, Prod.mk.injEq]
      exact ⟨l, hl, c, hc, rfl, rfl⟩
  refine ⟨s, h1, present s (boxOrder s), fun σ v st => h2.visitBoundingBoxes_eq hN v st, ?_, ?_, ?_,
    ?_⟩
  · refine (hp2.map Prod.snd).trans ?_
    have key : ∀ k, (present s ((List.range k).flatMap fun j =>
        (List.range (sz N items.length j)).map fun c => (j, base N items.length j + c))).map
          Prod.snd = s.boxes.take (base N items.length k) := by
      intro k
      induction k with
      | zero => simp [base, present]
      | succ k ih =>
        rw [List.range_succ, List.flatMap_append, present_append, List.map_append, ih]
        show _ = s.boxes.take (base N items.length k + sz N items.length k)
        rw [List.take_add]
        congr 1
        apply List.ext_getElem?
        intro i
        simp only [List.flatMap_cons, List.flatMap_nil, List.append_nil]
        have : ∀ (m : ℕ) (l : List (Box α)) (t o : ℕ), (present { s with boxes := l }
            ((List.range m).map fun c => (t, o + c))).map Prod.snd = (l.drop o).take m := by
          intro m l t o
          induction m with
          | zero => simp [present]
          | succ m ihm =>
            rw [List.range_succ, List.map_append, present_append, List.map_append, ihm]
            rw [List.take_add_one, List.getElem?_drop]
            congr 1
            simp only [present, List.map_cons, List.map_nil, List.filterMap_cons,
              List.filterMap_nil]
            rcases l[o + m]? with _ | b <;> simp
        have h' := this (sz N items.length k) s.boxes k (base N items.length k)
        exact congrArg (·[i]?) h'
    rw [key L, ← h2.boxesLen, List.take_length]
  · have hf := present_filter s (boxOrder s) (fun t => decide (t = 0))
    rw [show (present s (boxOrder s)).filter (fun x => decide (x.1 = 0)) = _ from hf]
    have hp3 : (present s ((boxOrder s).filter fun x => decide (x.1 = 0))).Perm
        (present s ((List.range items.length).map fun c => (0, c))) := by
      refine List.Perm.filterMap _ ?_
      rw [← filter_level0 N items.length L (by have := h2.two_le; omega)]
      exact hperm.filter _
    refine (hp3.map Prod.snd).trans ?_
    have hz := (present_level0 h2).map Prod.snd
    have e1 : (items.zipIdx.map fun x => (x.2, x.1)).map Prod.snd = items := by
      rw [List.map_map]
      exact List.zipIdx_map_fst 0 items
    rw [e1] at hz
    refine List.Perm.trans (List.Perm.of_eq ?_) hz
    unfold present
    rw [List.map_filterMap, List.map_filterMap, List.filterMap_map, List.filterMap_map]
    apply List.filterMap_congr
    intro c _
    simp only [Function.comp, Option.map_map]
    rfl
  · rw [h2.numLevels]
    have htop := h2.top
    have hL := h2.two_le
    have hlen : base N items.length (L - 1) < s.boxes.length := by
      rw [h2.boxesLen]
      have : base N items.length L = base N items.length (L - 1 + 1) := by
        rw [show L - 1 + 1 = L by omega]
      rw [this]; show _ < base N items.length (L - 1) + sz N items.length (L - 1)
      omega
    refine ⟨s.boxes[base N items.length (L - 1)], ?_, ?_⟩
    · show (_, _) ∈ _
      rw [hmem]
      exact ⟨by omega, 0, by omega, by simp [hlen]⟩
    · intro y hy
      have hy' := (hmem _ _).mp hy
      obtain ⟨-, c, hc, hb⟩ := hy'
      have : c = 0 := by omega
      subst this
      rw [Nat.add_zero, List.getElem?_eq_getElem hlen] at hb
      exact (Option.some.inj hb).symm
  · intro l b hlb
    obtain ⟨hl, c, hc, hb⟩ := (hmem l b).mp hlb
    rw [h2.numLevels]
    refine ⟨hl, fun hl1 => ?_⟩
    have hi : c / N < sz N items.length (l + 1) := by
      show c / N < (sz N items.length l + N - 1) / N
      have h1 : c / N * N ≤ c := Nat.div_mul_le_self c N
      rw [Nat.lt_div_iff_mul_lt (by omega)]
      have : N * (c / N) ≤ c := by rw [Nat.mul_comm]; exact h1
      omega
    have hlink := h2.link l hl1 (c / N) hi
    have hplen : base N items.length (l + 1) + c / N < s.boxes.length := by
      rw [h2.boxesLen]
      have := base_mono N items.length (a := l + 2) (b := L) (by omega)
      have h3 : base N items.length (l + 2) =
        base N items.length (l + 1) + sz N items.length (l + 1) := rfl
      omega
    refine ⟨s.boxes[base N items.length (l + 1) + c / N], ?_, ?_⟩
    · rw [hmem]
      exact ⟨hl1, c / N, hi, by simp [hplen]⟩
    · have := hlink.2 (base N items.length l + c) (by have := Nat.div_mul_le_self c N; omega) (by
        have := Nat.lt_div_mul_add (a := c) (b := N) (by omega)
        have h3 : base N items.length (l + 1) = base N items.length l + sz N items.length l := rfl
        omega) _ b (List.getElem?_eq_getElem hplen) hb
      exact ⟨this.minX, this.minY, this.maxX, this.maxY⟩

/-! ### C06: Hilbert coordinates -/

/-- C06. If the extents have positive size and enclose a well formed box, the two Hilbert
coordinates of the box are in 0..65535, the casts are defined and so is the value. -/
theorem C06_coord_range (mn mx lo hi : ℝ) (hsize : mn < mx) (h1 : mn ≤ lo) (h2 : lo ≤ hi)
    (h3 : hi ≤ mx) : ∃ x : ℕ, hilbertCoord mn (mx - mn) lo hi = .ok x ∧ x ≤ 65535 ∧
      (x : ℝ) ≤ 65535 * ((lo + hi) / 2 - mn) / (mx - mn) ∧
      65535 * ((lo + hi) / 2 - mn) / (mx - mn) < x + 1 := by
  unfold hilbertCoord
  have hw : 0 < mx - mn := by linarith
  rw [if_neg hw.ne']
  set r := 65535 * ((lo + hi) / 2 - mn) / (mx - mn) with hr
  have hr0 : 0 ≤ r := div_nonneg (by linarith) hw.le
  have hr1 : r ≤ 65535 := by
    rw [hr, div_le_iff₀ hw]
    linarith
  have f0 : 0 ≤ ⌊r⌋ := Int.floor_nonneg.mpr hr0
  have f1 : ⌊r⌋ ≤ 65535 := by
    have : ⌊r⌋ ≤ ⌊(65535 : ℝ)⌋ := Int.floor_le_floor hr1
    simpa using this
  refine ⟨⌊r⌋.toNat, ?_, ?_, ?_, ?_⟩
  · simp only
    rw [if_pos ⟨f0, by omega⟩]
  · omega
  · have : ((⌊r⌋.toNat : ℤ) : ℝ) ≤ r := by
      rw [Int.toNat_of_nonneg f0]; exact Int.floor_le r
    exact_mod_cast this
  · have : r < ((⌊r⌋.toNat : ℤ) : ℝ) + 1 := by
      rw [Int.toNat_of_nonneg f0]; exact Int.lt_floor_add_one r
    exact_mod_cast this

/-- C06, whole index: with the code's own Hilbert values, any list of 1..2^24 well formed boxes
whose total extents have positive width and height is indexed without a fault (and hence C01, C02,
C03, C05 apply). `inf`/`ninf` are reals beyond all coordinates. -/
theorem C06_hilbert_defined {N : ℕ} (hN : 2 ≤ N ∧ N ≤ 2 ^ 24) (inf ninf : ℝ) (items : List (Box ℝ))
    (hn : 1 ≤ items.length ∧ items.length ≤ 2 ^ 24)
    (hwf : ∀ b ∈ items, b.minX ≤ b.maxX ∧ b.minY ≤ b.maxY)
    (hw : ∃ b ∈ items, ∃ b' ∈ items, b.minX < b'.maxX)
    (hh : ∃ b ∈ items, ∃ b' ∈ items, b.minY < b'.maxY) :
    IndexDomain N inf ninf hilbertValue items := by
  refine ⟨hN, hn, fun _ b hb => ?_⟩
  have henc := (foldl_grow_encl items (⟨inf, inf, ninf, ninf⟩ : Box ℝ)).2
  set e := items.foldl Box.grow ⟨inf, inf, ninf, ninf⟩
  obtain ⟨b1, hb1, b2, hb2, hx⟩ := hw
  obtain ⟨b3, hb3, b4, hb4, hy⟩ := hh
  have hX : e.minX < e.maxX := by linarith [(henc b1 hb1).minX, (henc b2 hb2).maxX]
  have hY : e.minY < e.maxY := by linarith [(henc b3 hb3).minY, (henc b4 hb4).maxY]
  obtain ⟨x, hx1, -⟩ := C06_coord_range e.minX e.maxX b.minX b.maxX hX (henc b hb).minX
    (hwf b hb).1 (henc b hb).maxX
  obtain ⟨y, hy1, -⟩ := C06_coord_range e.minY e.maxY b.minY b.maxY hY (henc b hb).minY
    (hwf b hb).2 (henc b hb).maxY
  unfold hilbertValue
  simp only [hx1, hy1, ok_bind]
  exact ⟨_, rfl⟩

/-- C06, degenerate extents: if all boxes have the same single x coordinate and there are more
items than the node size, `finish` casts a NaN. -/
theorem C06_zero_width {N : ℕ} (hN : 2 ≤ N ∧ N ≤ 2 ^ 24) (inf ninf x0 : ℝ) (items : List (Box ℝ))
    (hn : N < items.length ∧ items.length ≤ 2 ^ 24) (hinf : ninf ≤ x0 ∧ x0 ≤ inf)
    (hx : ∀ b ∈ items, b.minX = x0 ∧ b.maxX = x0)
    (hy : ∀ b ∈ items, b.minY ≤ inf ∧ ninf ≤ b.maxY) :
    SIndex.build N inf ninf hilbertValue items = .error .badCast := by
  obtain ⟨L, hL2, htop, hmin, h0⟩ := create_spec inf ninf hN.1 hN.2
    (show 1 ≤ items.length by omega) hn.2
  have hb1 := base_one N items.length
  have hnL : items.length ≤ base N items.length L := by
    have := base_mono N items.length (a := 1) (b := L) (by omega)
    omega
  have hne : items ≠ [] := by rintro rfl; simp at hn
  obtain ⟨⟨⟨bm, hbm, e1⟩, -⟩, -, ⟨⟨bM, hbM, e2⟩, -⟩, -⟩ := ext_exact inf ninf items hne
    (fun b hb => ⟨by rw [(hx b hb).1]; exact hinf.2, (hy b hb).1,
      by rw [(hx b hb).2]; exact hinf.1, (hy b hb).2⟩)
  rw [(hx bm hbm).1] at e1
  rw [(hx bM hbM).2] at e2
  unfold SIndex.build
  rw [h0, ok_bind, adds_spec items _ (by simpa using hnL) (by simp), ok_bind]
  simp only [List.nil_append, List.length_nil, Nat.zero_add]
  unfold SIndex.finish
  simp only [decide_true, assertM_true, ok_bind, List.take_length]
  rw [if_neg (by omega)]
  have hv : ∀ b, hilbertValue (items.foldl Box.grow ⟨inf, inf, ninf, ninf⟩) b = .error .badCast := by
    intro b
    unfold hilbertValue hilbertCoord
    simp [e1, e2]
  have : items.mapM (hilbertValue (items.foldl Box.grow ⟨inf, inf, ninf, ninf⟩)) =
      .error .badCast := by
    obtain ⟨a, l, rfl⟩ := List.exists_cons_of_ne_nil hne
    rw [List.mapM_cons, hv, error_bind]
  rw [this, error_bind]

/-! ### Concrete instances of the hypotheses -/

/-- Five overlapping boxes, node size 2 (three levels above the leaves). -/
noncomputable def exampleBoxes : List (Box ℝ) :=
  [⟨0, 0, 1, 1⟩, ⟨2, 2, 5, 3⟩, ⟨-1, 4, 0, 4⟩, ⟨7, -3, 9, 8⟩, ⟨1, 1, 2, 2⟩]

example : IndexDomain 2 (1000 : ℝ) (-1000) hilbertValue exampleBoxes := by
  refine C06_hilbert_defined (by norm_num) _ _ _ (by simp [exampleBoxes]) ?_ ?_ ?_
  · intro b hb
    simp only [exampleBoxes, List.mem_cons, List.not_mem_nil, or_false] at hb
    rcases hb with rfl | rfl | rfl | rfl | rfl <;> norm_num
  · exact ⟨⟨0, 0, 1, 1⟩, by simp [exampleBoxes], ⟨0, 0, 1, 1⟩, by simp [exampleBoxes], by norm_num⟩
  · exact ⟨⟨0, 0, 1, 1⟩, by simp [exampleBoxes], ⟨0, 0, 1, 1⟩, by simp [exampleBoxes], by norm_num⟩

/-- The query of C01 returns something and leaves something out. -/
example : ∃ s, SIndex.build 2 (1000 : ℝ) (-1000) hilbertValue exampleBoxes = .ok s ∧
    ∃ r, s.query ⟨1, 1, 2, 2⟩ = .ok r ∧ 0 ∈ r ∧ 1 ∈ r ∧ 4 ∈ r ∧ 2 ∉ r ∧ 3 ∉ r := by
  have hd : IndexDomain 2 (1000 : ℝ) (-1000) hilbertValue exampleBoxes := by
    refine C06_hilbert_defined (by norm_num) _ _ _ (by simp [exampleBoxes]) ?_ ?_ ?_
    · intro b hb
      simp only [exampleBoxes, List.mem_cons, List.not_mem_nil, or_false] at hb
      rcases hb with rfl | rfl | rfl | rfl | rfl <;> norm_num
    · exact ⟨⟨0, 0, 1, 1⟩, by simp [exampleBoxes], ⟨0, 0, 1, 1⟩, by simp [exampleBoxes], by norm_num⟩
    · exact ⟨⟨0, 0, 1, 1⟩, by simp [exampleBoxes], ⟨0, 0, 1, 1⟩, by simp [exampleBoxes], by norm_num⟩
  obtain ⟨s, h1, h2⟩ := C01_query_exact hd
  obtain ⟨r, h3, -, h5⟩ := h2 ⟨1, 1, 2, 2⟩
  refine ⟨s, h1, r, h3, ?_⟩
  simp only [h5]
  norm_num [exampleBoxes, Overlap]

/-- C03 above the range: such lists exist (2^24 + 1 copies of one box, constant Hilbert value). -/
example : SIndex.build 16 (1000 : ℝ) (-1000) (fun _ _ => .ok 0)
    (List.replicate (2 ^ 24 + 1) ⟨0, 0, 1, 1⟩) = .error .outOfBounds :=
  C03_overflow_above_range _ _ _ _ (List.length_replicate ..) (fun _ _ => ⟨0, rfl⟩)

example : SIndex.build 2 (1000 : ℝ) (-1000) hilbertValue
    [⟨3, 0, 3, 1⟩, ⟨3, 4, 3, 5⟩, ⟨3, -1, 3, 9⟩] = .error .badCast := by
  refine C06_zero_width (by norm_num) _ _ 3 _ (by simp) (by norm_num) ?_ ?_ <;>
  · intro b hb
    simp only [List.mem_cons, List.not_mem_nil, or_false] at hb
    rcases hb with rfl | rfl | rfl <;> norm_num

end Cavc

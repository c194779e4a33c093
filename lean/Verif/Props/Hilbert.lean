import Verif.Props.SpatialIndex
import Verif.Proofs.HilbertCurve

/-! C69: the spatial index arranges its items along the Hilbert curve. -/
namespace Cavc
open Spec

/-- C69. The value that the index computes from two 16 bit coordinates is the position of that cell
along the Hilbert curve of the 65536 by 65536 grid. -/
theorem C69_curve (x y : ℕ) (hx : x < 2 ^ 16) (hy : y < 2 ^ 16) :
    (hilbertXYToIndex (UInt32.ofNat x) (UInt32.ofNat y)).toNat = hilbert 16 x y := by
  have ex : (UInt32.ofNat x).toNat = x := by
    rw [UInt32.toNat_ofNat']; exact Nat.mod_eq_of_lt (by omega)
  have ey : (UInt32.ofNat y).toNat = y := by
    rw [UInt32.toNat_ofNat']; exact Nat.mod_eq_of_lt (by omega)
  have := code_hilbert (x := UInt32.ofNat x) (y := UInt32.ofNat y) (by rwa [ex]) (by rwa [ey])
  rwa [ex, ey] at this

/-- C69, what makes it a space filling curve: every 32 bit value is taken by exactly one cell, cells
with consecutive values are neighbours in the grid, and for every `k` two cells lie in the same
square of the coarser grid of side `2^k` exactly if their values agree except for the last `2k`
bits. -/
theorem C69_space_filling (v : ℕ → ℕ → ℕ)
    (hv : ∀ x y, v x y = (hilbertXYToIndex (UInt32.ofNat x) (UInt32.ofNat y)).toNat) :
    (∀ k < 2 ^ 32, ∃! c : ℕ × ℕ, c.1 < 2 ^ 16 ∧ c.2 < 2 ^ 16 ∧ v c.1 c.2 = k) ∧
    (∀ x y x' y', x < 2 ^ 16 → y < 2 ^ 16 → x' < 2 ^ 16 → y' < 2 ^ 16 → v x' y' = v x y + 1 →
      x' = x ∧ (y' = y + 1 ∨ y = y' + 1) ∨ y' = y ∧ (x' = x + 1 ∨ x = x' + 1)) ∧
    (∀ k ≤ 16, ∀ x y x' y', x < 2 ^ 16 → y < 2 ^ 16 → x' < 2 ^ 16 → y' < 2 ^ 16 →
      (v x y / 4 ^ k = v x' y' / 4 ^ k ↔ x / 2 ^ k = x' / 2 ^ k ∧ y / 2 ^ k = y' / 2 ^ k)) ∧
    v 0 0 = 0 ∧ v 65535 0 = 2 ^ 32 - 1 := by
  have e (x y : ℕ) (hx : x < 2 ^ 16) (hy : y < 2 ^ 16) : v x y = hilbert 16 x y := by
    rw [hv, C69_curve x y hx hy]
  refine ⟨?_, ?_, ?_, ?_, ?_⟩
  · intro k hk
    obtain ⟨x, y, hx, hy, h⟩ := hilbert_surj 16 k hk
    refine ⟨(x, y), ⟨hx, hy, by rw [e x y hx hy, h]⟩, ?_⟩
    rintro ⟨x', y'⟩ ⟨hx', hy', h'⟩
    simp only at hx' hy' h'
    rw [e x' y' hx' hy', ← h] at h'
    obtain ⟨rfl, rfl⟩ := hilbert_inj 16 x' y' x y hx' hy' hx hy h'
    rfl
  · intro x y x' y' hx hy hx' hy' h
    rw [e x' y' hx' hy', e x y hx hy] at h
    exact hilbert_next 16 x y x' y' hx hy hx' hy' h
  · intro k hk x y x' y' hx hy hx' hy'
    obtain ⟨n, hn⟩ : ∃ n, n + k = 16 := ⟨16 - k, by omega⟩
    have hp : (2 : ℕ) ^ 16 = 2 ^ n * 2 ^ k := by rw [← pow_add, hn]
    have lt (z : ℕ) (hz : z < 2 ^ 16) : z / 2 ^ k < 2 ^ n := by
      rw [Nat.div_lt_iff_lt_mul (Nat.two_pow_pos k), ← hp]; exact hz
    rw [e x y hx hy, e x' y' hx' hy', ← hn, hilbert_coarse n k x y (by rwa [hn]) (by rwa [hn]),
      hilbert_coarse n k x' y' (by rwa [hn]) (by rwa [hn])]
    constructor
    · exact hilbert_inj n _ _ _ _ (lt x hx) (lt y hy) (lt x' hx') (lt y' hy')
    · rintro ⟨h1, h2⟩
      rw [h1, h2]
  · rw [e 0 0 (by norm_num) (by norm_num)]
    exact (hilbert_ends 16).1
  · rw [e 65535 0 (by norm_num) (by norm_num)]
    exact (hilbert_ends 16).2

theorem hilbertCoord_eq {mn mx lo hi : ℝ} {x : ℕ} (hs : mn < mx) (hle : (lo + hi) / 2 ≤ mx)
    (h1 : x * (mx - mn) ≤ 65535 * ((lo + hi) / 2 - mn))
    (h2 : 65535 * ((lo + hi) / 2 - mn) < (x + 1) * (mx - mn)) :
    hilbertCoord mn (mx - mn) lo hi = .ok x ∧ x < 2 ^ 16 := by
  have hw : 0 < mx - mn := by linarith
  have hx : x ≤ 65535 := by
    have : (x : ℝ) * (mx - mn) ≤ 65535 * (mx - mn) := h1.trans (by nlinarith)
    exact_mod_cast le_of_mul_le_mul_right this hw
  refine ⟨?_, by omega⟩
  unfold hilbertCoord
  rw [if_neg hw.ne']
  have hf : ⌊65535 * ((lo + hi) / 2 - mn) / (mx - mn)⌋ = (x : ℤ) := by
    rw [Int.floor_eq_iff]
    push_cast
    exact ⟨by rwa [le_div_iff₀ hw], by rwa [div_lt_iff₀ hw]⟩
  simp only [hf]
  rw [if_pos ⟨by omega, by omega⟩]
  simp

theorem hilbertValue_eq {ext b : Box ℝ} {x y : ℕ} (hw : ext.minX < ext.maxX)
    (hh : ext.minY < ext.maxY) (hx : (b.minX + b.maxX) / 2 ≤ ext.maxX)
    (hy : (b.minY + b.maxY) / 2 ≤ ext.maxY) (h : CentreCell ext b x y) :
    hilbertValue ext b = .ok (hilbert 16 x y) := by
  obtain ⟨⟨a1, a2⟩, b1, b2⟩ := h
  obtain ⟨e1, l1⟩ := hilbertCoord_eq hw hx a1 a2
  obtain ⟨e2, l2⟩ := hilbertCoord_eq hh hy b1 b2
  unfold hilbertValue
  simp only [e1, e2, ok_bind]
  rw [C69_curve x y l1 l2]
  rfl

theorem getElem?_filterMap_some {β γ : Type} (g : β → Option γ) (l : List β)
    (h : ∀ x ∈ l, (g x).isSome) (a : ℕ) : (l.filterMap g)[a]? = l[a]?.bind g := by
  induction l generalizing a with
  | nil => simp
  | cons x l ih =>
    obtain ⟨y, hy⟩ := Option.isSome_iff_exists.1 (h x (by simp))
    rw [List.filterMap_cons_some hy]
    cases a with
    | zero => simp [hy]
    | succ a => simpa using ih (fun x hx => h x (by simp [hx])) a

/-- C69, whole index. The item boxes are visited in an order in which the boxes come in runs of
`N` (the node size), and no box of an earlier run comes after a box of a later run along the Hilbert
curve through the cells of their centres. -/
theorem C69_order {N : ℕ} (hN : 2 ≤ N ∧ N ≤ 2 ^ 24) (inf ninf : ℝ) (items : List (Box ℝ))
    (hn : 1 ≤ items.length ∧ items.length ≤ 2 ^ 24)
    (hwf : ∀ b ∈ items, b.minX ≤ b.maxX ∧ b.minY ≤ b.maxY)
    (hle : ∀ b ∈ items, b.minX ≤ inf ∧ b.minY ≤ inf ∧ ninf ≤ b.maxX ∧ ninf ≤ b.maxY)
    (ext : Box ℝ) (hext : Extents items ext) (hw : ext.minX < ext.maxX) (hh : ext.minY < ext.maxY) :
    ∃ s, SIndex.build N inf ninf hilbertValue items = .ok s ∧
      ∃ order : List (ℕ × Box ℝ), order.Perm (items.zipIdx.map fun x => (x.2, x.1)) ∧
        (∀ (σ : Type) (v : σ → ℕ → Box ℝ → σ × Bool) (st : σ),
          s.visitItemBoxes v st =
            .ok (runVisitor (fun st (x : ℕ × Box ℝ) => v st x.1 x.2) st order).1) ∧
        ∀ (a b : ℕ) (p q : ℕ × Box ℝ), order[a]? = some p → order[b]? = some q → a / N < b / N →
          ∀ x y x' y', CentreCell ext p.2 x y → CentreCell ext q.2 x' y' →
            hilbert 16 x y ≤ hilbert 16 x' y' := by
  have hne : items ≠ [] := by rintro rfl; simp at hn
  obtain ⟨x1, x2, x3, x4⟩ := hext
  have he : items.foldl Box.grow ⟨inf, inf, ninf, ninf⟩ = ext := by
    obtain ⟨⟨⟨c1, d1, e1⟩, f1⟩, ⟨⟨c2, d2, e2⟩, f2⟩, ⟨⟨c3, d3, e3⟩, f3⟩, ⟨⟨c4, d4, e4⟩, f4⟩⟩ :=
      ext_exact inf ninf items hne hle
    generalize items.foldl Box.grow ⟨inf, inf, ninf, ninf⟩ = e at *
    obtain ⟨b1, g1, k1⟩ := x1.1
    obtain ⟨b2, g2, k2⟩ := x2.1
    obtain ⟨b3, g3, k3⟩ := x3.1
    obtain ⟨b4, g4, k4⟩ := x4.1
    have m1 : e.minX = ext.minX :=
      le_antisymm (by rw [← k1]; exact f1 ⟨b1, g1, rfl⟩) (by rw [e1]; exact x1.2 c1 d1)
    have m2 : e.minY = ext.minY :=
      le_antisymm (by rw [← k2]; exact f2 ⟨b2, g2, rfl⟩) (by rw [e2]; exact x2.2 c2 d2)
    have m3 : e.maxX = ext.maxX :=
      le_antisymm (by rw [e3]; exact x3.2 c3 d3) (by rw [← k3]; exact f3 ⟨b3, g3, rfl⟩)
    have m4 : e.maxY = ext.maxY :=
      le_antisymm (by rw [e4]; exact x4.2 c4 d4) (by rw [← k4]; exact f4 ⟨b4, g4, rfl⟩)
    cases e; cases ext
    simp only at m1 m2 m3 m4
    subst m1; subst m2; subst m3; subst m4
    rfl
  have hdom := C06_hilbert_defined hN inf ninf items hn hwf
    (by
      obtain ⟨b1, g1, k1⟩ := x1.1
      obtain ⟨b3, g3, k3⟩ := x3.1
      exact ⟨b1, g1, b3, g3, by rw [k1, k3]; exact hw⟩)
    (by
      obtain ⟨b1, g1, k1⟩ := x2.1
      obtain ⟨b3, g3, k3⟩ := x4.1
      exact ⟨b1, g1, b3, g3, by rw [k1, k3]; exact hh⟩)
  obtain ⟨s, L, e, h1, h2, h3⟩ := build_sorted inf ninf hilbertValue items hN.1 hN.2 hn.1 hn.2
    hdom.hilbert
  rw [he] at h3
  refine ⟨s, h1, _, present_level0 h2, fun σ v st => h2.visitItemBoxes_eq v st, ?_⟩
  have hlen : items.length ≤ s.boxes.length := by
    rw [h2.boxesLen]
    have := base_mono N items.length (a := 1) (b := L) (by have := h2.two_le; omega)
    rw [base_one] at this; exact this
  have key : ∀ (a : ℕ) (p : ℕ × Box ℝ),
      (present s ((List.range items.length).map fun c => (idx s c, c)))[a]? = some p →
      a < items.length ∧ items[e a]? = some p.2 := by
    intro a p hp
    unfold present at hp
    rw [getElem?_filterMap_some _ _ (by
      intro x hx
      obtain ⟨c, hc, rfl⟩ := List.mem_map.1 hx
      rw [List.mem_range] at hc
      simp only [Option.isSome_map]
      rw [List.getElem?_eq_getElem (by omega)]; rfl)] at hp
    rw [List.getElem?_map] at hp
    by_cases ha : a < items.length
    · refine ⟨ha, ?_⟩
      rw [List.getElem?_range ha] at hp
      simp only [Option.map_some, Option.bind_some] at hp
      rw [h2.leafBox a ha] at hp
      obtain ⟨b, hb, rfl⟩ := Option.map_eq_some_iff.1 hp
      exact hb
    · rw [List.getElem?_eq_none (by simpa using ha)] at hp
      simp at hp
  intro a b p q hp hq hab x y x' y' hc hc'
  obtain ⟨la, pa⟩ := key a p hp
  obtain ⟨lb, pb⟩ := key b q hq
  have up : ∀ r ∈ items, (r.minX + r.maxX) / 2 ≤ ext.maxX ∧ (r.minY + r.maxY) / 2 ≤ ext.maxY := by
    intro r hr
    have := hwf r hr
    have := x3.2 r hr
    have := x4.2 r hr
    constructor <;> linarith
  have ma := up _ (List.mem_of_getElem? pa)
  have mb := up _ (List.mem_of_getElem? pb)
  exact h3 a b la lb hab p.2 q.2 _ _ pa pb (hilbertValue_eq hw hh ma.1 ma.2 hc)
    (hilbertValue_eq hw hh mb.1 mb.2 hc')

/-- The five boxes of the example meet the conditions, and every box has a cell. -/
example : Extents exampleBoxes ⟨-1, -3, 9, 8⟩ := by
  refine ⟨⟨⟨⟨-1, 4, 0, 4⟩, by simp [exampleBoxes], rfl⟩, ?_⟩,
    ⟨⟨⟨7, -3, 9, 8⟩, by simp [exampleBoxes], rfl⟩, ?_⟩,
    ⟨⟨⟨7, -3, 9, 8⟩, by simp [exampleBoxes], rfl⟩, ?_⟩,
    ⟨⟨⟨7, -3, 9, 8⟩, by simp [exampleBoxes], rfl⟩, ?_⟩⟩ <;>
  · intro b hb
    simp only [exampleBoxes, List.mem_cons, List.not_mem_nil, or_false] at hb
    rcases hb with rfl | rfl | rfl | rfl | rfl <;> norm_num

/-- The centre of the first box, (0.5, 0.5), in a grid of 65535 columns over 10 units of width and
as many rows over 11 units of height. -/
example : CentreCell ⟨-1, -3, 9, 8⟩ ⟨0, 0, 1, 1⟩ 9830 20852 := by
  unfold CentreCell
  norm_num

example : hilbert 2 0 0 = 0 ∧ hilbert 2 1 0 = 1 ∧ hilbert 2 1 1 = 2 ∧ hilbert 2 0 1 = 3 ∧
    hilbert 2 0 2 = 4 ∧ hilbert 2 0 3 = 5 ∧ hilbert 2 3 0 = 15 := by
  refine ⟨?_, ?_, ?_, ?_, ?_, ?_, ?_⟩ <;> rfl

end Cavc

import Verif.Props.PlineWinding
import Mathlib.Topology.Order.LeftRightNhds
import Mathlib.Topology.Algebra.Order.Archimedean
import Mathlib.Topology.Instances.Real.Lemmas

/-! What an oriented straight segment adds to the winding number of a polygon: splitting, products,
small changes. -/
namespace Cavc
open Spec
open scoped Classical
noncomputable section

/-- `lineWinding` by positions. -/
def lw (a b x : V2) : ℤ := lineWinding ⟨a, 0⟩ ⟨b, 0⟩ x

theorem lineWinding_eq (v1 v2 : Vertex) (x : V2) : lineWinding v1 v2 x = lw v1.pos v2.pos x := rfl

/-- `z` is on the straight segment. -/
def OnLine (a b z : V2) : Prop := ∃ t, 0 ≤ t ∧ t ≤ 1 ∧ z = lerp a b t

theorem lw_eq (a b x : V2) : lw a b x = if a.y ≤ x.y then (if x.y < b.y ∧ 0 < cross a b x then 1 else 0)
    else if b.y ≤ x.y ∧ ¬ 0 < cross a b x then -1 else 0 := rfl

theorem lw_self (a x : V2) : lw a a x = 0 := by
  rw [lw_eq]
  split_ifs with h1 h2 h3
  · exact absurd h2.1 (not_lt.2 h1)
  · rfl
  · exact absurd h3.1 h1
  · rfl

/-- A segment that is cut adds the same. -/
theorem lw_split {a b : V2} {t : ℝ} (h0 : 0 < t) (h1 : t < 1) (x : V2) :
    lw a b x = lw a (lerp a b t) x + lw (lerp a b t) b x := by
  have hy : (lerp a b t).y = a.y + t * (b.y - a.y) := rfl
  have c1 : cross a (lerp a b t) x = t * cross a b x := by
    simp only [cross, lerp]; ring
  have c2 : cross (lerp a b t) b x = (1 - t) * cross a b x := by
    simp only [cross, lerp]; ring
  have e1 : 0 < t * cross a b x ↔ 0 < cross a b x := by
    constructor
    · intro h; by_contra hn; nlinarith
    · intro h; positivity
  have e2 : 0 < (1 - t) * cross a b x ↔ 0 < cross a b x := by
    have : 0 < 1 - t := by linarith
    constructor
    · intro h; by_contra hn; nlinarith
    · intro h; positivity
  rw [lw_eq, lw_eq, lw_eq, c1, c2]
  simp only [e1, e2]
  have l1 : a.y ≤ b.y → a.y ≤ (lerp a b t).y ∧ (lerp a b t).y ≤ b.y := by
    intro h; rw [hy]; constructor <;> nlinarith
  have l2 : b.y ≤ a.y → b.y ≤ (lerp a b t).y ∧ (lerp a b t).y ≤ a.y := by
    intro h; rw [hy]; constructor <;> nlinarith
  generalize (lerp a b t).y = m at l1 l2
  by_cases hc : 0 < cross a b x
  · simp only [hc, and_true, not_true, and_false, if_false]
    rcases le_total a.y b.y with h | h
    · obtain ⟨q1, q2⟩ := l1 h
      split_ifs <;> first | rfl | (exfalso; linarith)
    · obtain ⟨q1, q2⟩ := l2 h
      split_ifs <;> first | rfl | (exfalso; linarith)
  · simp only [hc, and_true, not_false_iff, and_false, if_false]
    rcases le_total a.y b.y with h | h
    · obtain ⟨q1, q2⟩ := l1 h
      split_ifs <;> first | rfl | (exfalso; linarith)
    · obtain ⟨q1, q2⟩ := l2 h
      split_ifs <;> first | rfl | (exfalso; linarith)

theorem lerp_lerp_left (a b : V2) (s t : ℝ) : lerp a (lerp a b t) s = lerp a b (t * s) := by
  ext <;> simp only [lerp] <;> ring

/-- The part between two cuts. -/
theorem lw_between {a b : V2} {s t : ℝ} (h0 : 0 < s) (hst : s < t) (x : V2) :
    lw (lerp a b s) (lerp a b t) x = lw a (lerp a b t) x - lw a (lerp a b s) x := by
  have ht : 0 < t := by linarith
  have := lw_split (a := a) (b := lerp a b t) (t := s / t) (by positivity) ((div_lt_one ht).2 hst) x
  rw [lerp_lerp_left, mul_div_cancel₀ _ ht.ne'] at this
  omega

/-! ### The crossing of a height -/

/-- The point of the line at a height. -/
def atHeight (a b : V2) (y : ℝ) : V2 := lerp a b ((y - a.y) / (b.y - a.y))

/-- The segment crosses the height: going up 1, going down -1. -/
def crosses (a b : V2) (y : ℝ) : ℤ :=
  if a.y ≤ y then (if y < b.y then 1 else 0) else if b.y ≤ y then -1 else 0

theorem atHeight_y {a b : V2} {y : ℝ} (h : a.y ≠ b.y) : (atHeight a b y).y = y := by
  have : b.y - a.y ≠ 0 := fun h' => h (by linarith)
  simp only [atHeight, lerp]
  rw [div_mul_cancel₀ _ this]; ring

theorem crosses_ne {a b : V2} {y : ℝ} (h : crosses a b y ≠ 0) : a.y ≠ b.y ∧ OnLine a b (atHeight a b y) := by
  unfold crosses at h
  have key : (a.y ≤ y ∧ y < b.y) ∨ (b.y ≤ y ∧ y < a.y) := by
    by_cases h1 : a.y ≤ y
    · rw [if_pos h1] at h
      by_cases h2 : y < b.y
      · exact Or.inl ⟨h1, h2⟩
      · rw [if_neg h2] at h; exact absurd rfl h
    · rw [if_neg h1] at h
      by_cases h2 : b.y ≤ y
      · exact Or.inr ⟨h2, not_le.1 h1⟩
      · rw [if_neg h2] at h; exact absurd rfl h
  rcases key with ⟨h1, h2⟩ | ⟨h1, h2⟩
  · refine ⟨by intro e; linarith, _, ?_, ?_, rfl⟩
    · exact div_nonneg (by linarith) (by linarith)
    · rw [div_le_one (by linarith)]; linarith
  · refine ⟨by intro e; linarith, _, ?_, ?_, rfl⟩
    · exact div_nonneg_of_nonpos (by linarith) (by linarith)
    · rw [div_le_one_of_neg (by linarith)]; linarith

theorem lw_crosses_zero {a b x : V2} (h : crosses a b x.y = 0) : lw a b x = 0 := by
  unfold crosses at h
  rw [lw_eq]
  by_cases h1 : a.y ≤ x.y
  · rw [if_pos h1] at h ⊢
    rw [if_neg]
    intro h2
    rw [if_pos h2.1] at h
    exact absurd h (by norm_num)
  · rw [if_neg h1] at h ⊢
    rw [if_neg]
    intro h2
    rw [if_pos h2.1] at h
    exact absurd h (by norm_num)

/-- Off the crossing, what the segment adds is its direction if the crossing is to the right. -/
theorem lw_crosses {a b x : V2} (h : x.x ≠ (atHeight a b x.y).x) :
    lw a b x = if x.x < (atHeight a b x.y).x then crosses a b x.y else 0 := by
  by_cases h0 : crosses a b x.y = 0
  · rw [lw_crosses_zero h0, h0]; simp
  · have hx : (atHeight a b x.y).x = a.x + (x.y - a.y) / (b.y - a.y) * (b.x - a.x) := rfl
    rw [hx] at h ⊢
    rw [lw_eq]
    unfold crosses at h0 ⊢
    by_cases h1 : a.y ≤ x.y
    · simp only [if_pos h1] at h0 ⊢
      by_cases h2 : x.y < b.y
      · simp only [h2, true_and]
        have hd : 0 < b.y - a.y := by linarith
        have : 0 < cross a b x ↔ x.x < a.x + (x.y - a.y) / (b.y - a.y) * (b.x - a.x) := by
          have e : cross a b x = (b.y - a.y) * (a.x + (x.y - a.y) / (b.y - a.y) * (b.x - a.x) - x.x) := by
            simp only [cross]
            field_simp
            ring
          rw [e]
          constructor
          · intro h; by_contra hn; nlinarith
          · intro h; exact mul_pos hd (by linarith)
        simp only [this, if_true]
      · rw [if_neg h2] at h0; exact absurd rfl h0
    · simp only [if_neg h1] at h0 ⊢
      by_cases h2 : b.y ≤ x.y
      · simp only [h2, true_and]
        have hd : b.y - a.y < 0 := by linarith
        have : ¬ 0 < cross a b x ↔ x.x < a.x + (x.y - a.y) / (b.y - a.y) * (b.x - a.x) := by
          have e : cross a b x = (b.y - a.y) * (a.x + (x.y - a.y) / (b.y - a.y) * (b.x - a.x) - x.x) := by
            have := hd.ne
            simp only [cross]
            field_simp
            ring
          rw [e]
          constructor
          · intro hn
            rcases lt_or_gt_of_ne h with h' | h'
            · exact h'
            · exfalso; apply hn; exact mul_pos_of_neg_of_neg hd (by linarith)
          · intro h hn; nlinarith
        simp only [this, if_true]
      · rw [if_neg h2] at h0; exact absurd rfl h0

/-- The product of what two segments add: each one counts with what the other one adds at its
crossing. -/
theorem lw_mul {a b p q x : V2} (hx : ¬ OnLine a b x) (hx' : ¬ OnLine p q x)
    (h : ∀ z, OnLine a b z → OnLine p q z → z.y ≠ x.y) :
    lw a b x * lw p q x =
      lw a b x * lw p q (atHeight a b x.y) + lw p q x * lw a b (atHeight p q x.y) := by
  by_cases h1 : crosses a b x.y = 0
  · rw [lw_crosses_zero h1, zero_mul, zero_mul, zero_add]
    by_cases h2 : crosses p q x.y = 0
    · rw [lw_crosses_zero h2, zero_mul]
    · have := (crosses_ne h2).1
      rw [lw_crosses_zero (a := a) (b := b) (by rw [atHeight_y this]; exact h1), mul_zero]
  · by_cases h2 : crosses p q x.y = 0
    · have := (crosses_ne h1).1
      rw [lw_crosses_zero h2, lw_crosses_zero (a := p) (b := q) (by rw [atHeight_y this]; exact h2)]
      ring
    · obtain ⟨n1, o1⟩ := crosses_ne h1
      obtain ⟨n2, o2⟩ := crosses_ne h2
      have y1 := atHeight_y (y := x.y) n1
      have y2 := atHeight_y (y := x.y) n2
      have d1 : x.x ≠ (atHeight a b x.y).x := by
        intro e; apply hx; convert o1 using 1; ext
        · exact e
        · exact y1.symm
      have d2 : x.x ≠ (atHeight p q x.y).x := by
        intro e; apply hx'; convert o2 using 1; ext
        · exact e
        · exact y2.symm
      have d3 : (atHeight a b x.y).x ≠ (atHeight p q x.y).x := by
        intro e
        refine h _ o1 ?_ y1
        convert o2 using 1
        ext
        · exact e
        · rw [y1, y2]
      have f1 := lw_crosses d1
      have f2 := lw_crosses d2
      have f3 : lw p q (atHeight a b x.y) =
          if (atHeight a b x.y).x < (atHeight p q x.y).x then crosses p q x.y else 0 := by
        have := lw_crosses (a := p) (b := q) (x := atHeight a b x.y) (by rw [y1]; exact d3)
        rwa [y1] at this
      have f4 : lw a b (atHeight p q x.y) =
          if (atHeight p q x.y).x < (atHeight a b x.y).x then crosses a b x.y else 0 := by
        have := lw_crosses (a := a) (b := b) (x := atHeight p q x.y) (by rw [y2]; exact d3.symm)
        rwa [y2] at this
      rw [f1, f2, f3, f4]
      generalize (atHeight a b x.y).x = X at *
      generalize (atHeight p q x.y).x = Y at *
      rcases lt_or_gt_of_ne d1 with e1 | e1 <;> rcases lt_or_gt_of_ne d2 with e2 | e2 <;>
        rcases lt_or_gt_of_ne d3 with e3 | e3 <;>
        simp only [if_pos, if_neg, e1, e2, e3, not_lt.2 e1.le, not_lt.2 e2.le, not_lt.2 e3.le,
          mul_zero, zero_mul, add_zero, zero_add, if_true, if_false] <;>
        first | rfl | ring1 | (exfalso; linarith)

/-! ### Small changes -/

theorem onLine_closed (a b : V2) : IsClosed {z : ℝ × ℝ | OnLine a b ⟨z.1, z.2⟩} := by
  have : {z : ℝ × ℝ | OnLine a b ⟨z.1, z.2⟩} =
      (fun t : ℝ => ((lerp a b t).x, (lerp a b t).y)) '' Set.Icc 0 1 := by
    ext ⟨u, v⟩
    constructor
    · rintro ⟨t, h0, h1, h⟩
      refine ⟨t, ⟨h0, h1⟩, ?_⟩
      have hx := congrArg V2.x h
      have hy := congrArg V2.y h
      simp only at hx hy
      simp [hx, hy]
    · rintro ⟨t, ⟨h0, h1⟩, h⟩
      simp only [Prod.mk.injEq] at h
      refine ⟨t, h0, h1, ?_⟩
      ext
      · exact h.1.symm
      · exact h.2.symm
  rw [this]
  apply IsCompact.isClosed
  apply isCompact_Icc.image
  simp only [lerp]
  fun_prop

open Filter Topology in
/-- A point off a segment that goes up a little: it stays off, and the segment adds the same. -/
theorem lw_up {a b x : V2} (hx : ¬ OnLine a b x) :
    ∀ᶠ h : ℝ in 𝓝[>] 0, ¬ OnLine a b ⟨x.x, x.y + h⟩ ∧ lw a b ⟨x.x, x.y + h⟩ = lw a b x := by
  have hoff : ∀ᶠ h : ℝ in 𝓝 0, ¬ OnLine a b ⟨x.x, x.y + h⟩ := by
    have hc : Continuous fun h : ℝ => (x.x, x.y + h) := by fun_prop
    have := (hc.tendsto 0).eventually ((onLine_closed a b).isOpen_compl.mem_nhds
      (show ((x.x, x.y + 0) : ℝ × ℝ) ∈ {z : ℝ × ℝ | OnLine a b ⟨z.1, z.2⟩}ᶜ by
        simpa using hx))
    exact this
  refine (hoff.filter_mono nhdsWithin_le_nhds).and ?_
  have hpos : ∀ᶠ h : ℝ in 𝓝[>] 0, 0 < h := eventually_mem_nhdsWithin
  have lt_stay : ∀ c : ℝ, ∀ᶠ h : ℝ in 𝓝[>] 0, (c ≤ x.y + h ↔ c ≤ x.y) := by
    intro c
    by_cases h : c ≤ x.y
    · filter_upwards [hpos] with h' hh
      simp only [h, iff_true]; linarith
    · have : ∀ᶠ h : ℝ in 𝓝 0, x.y + h < c := by
        have hc : Continuous fun h : ℝ => x.y + h := by fun_prop
        exact (hc.tendsto 0).eventually (gt_mem_nhds (by simpa using not_le.1 h))
      filter_upwards [this.filter_mono nhdsWithin_le_nhds] with h' hh
      simp only [h, iff_false, not_le]; exact hh
  have hcr : ∀ h : ℝ, cross a b ⟨x.x, x.y + h⟩ = cross a b x + h * (b.x - a.x) := by
    intro h; simp only [cross]; ring
  have hcc : Continuous fun h : ℝ => cross a b x + h * (b.x - a.x) := by fun_prop
  rcases lt_trichotomy (cross a b x) 0 with hs | hs | hs
  · have : ∀ᶠ h : ℝ in 𝓝 0, cross a b x + h * (b.x - a.x) < 0 :=
      (hcc.tendsto 0).eventually (gt_mem_nhds (by simpa using hs))
    filter_upwards [this.filter_mono nhdsWithin_le_nhds, lt_stay a.y, lt_stay b.y] with h e1 e2 e3
    rw [lw_eq, lw_eq, hcr]
    have e3' : x.y + h < b.y ↔ x.y < b.y := by rw [← not_le, ← not_le, e3]
    simp only [e2, e3, e3', not_lt.2 e1.le, not_lt.2 hs.le]
  · filter_upwards [lt_stay a.y, lt_stay b.y] with h e2 e3
    have e3' : x.y + h < b.y ↔ x.y < b.y := by rw [← not_le, ← not_le, e3]
    have hz : crosses a b x.y = 0 := by
      by_contra hn
      obtain ⟨n1, o1⟩ := crosses_ne hn
      apply hx
      convert o1 using 1
      have hd : b.y - a.y ≠ 0 := fun h' => n1 (by linarith)
      ext
      · show x.x = a.x + (x.y - a.y) / (b.y - a.y) * (b.x - a.x)
        simp only [cross] at hs
        field_simp
        linarith
      · rw [atHeight_y n1]
    rw [lw_crosses_zero hz, lw_crosses_zero]
    unfold crosses at hz ⊢
    simp only [e2, e3, e3']
    exact hz
  · have : ∀ᶠ h : ℝ in 𝓝 0, 0 < cross a b x + h * (b.x - a.x) :=
      (hcc.tendsto 0).eventually (lt_mem_nhds (by simpa using hs))
    filter_upwards [this.filter_mono nhdsWithin_le_nhds, lt_stay a.y, lt_stay b.y] with h e1 e2 e3
    rw [lw_eq, lw_eq, hcr]
    have e3' : x.y + h < b.y ↔ x.y < b.y := by rw [← not_le, ← not_le, e3]
    simp only [e2, e3, e3', e1, hs]

open Filter Topology in
theorem up_ne (x : V2) (c : ℝ) : ∀ᶠ h : ℝ in 𝓝[>] 0, x.y + h ≠ c := by
  have hpos : ∀ᶠ h : ℝ in 𝓝[>] 0, 0 < h := eventually_mem_nhdsWithin
  by_cases hc : c ≤ x.y
  · filter_upwards [hpos] with h hh e
    linarith
  · have : ∀ᶠ h : ℝ in 𝓝 0, x.y + h < c := by
      have hc' : Continuous fun h : ℝ => x.y + h := by fun_prop
      exact (hc'.tendsto 0).eventually (gt_mem_nhds (by simpa using not_le.1 hc))
    filter_upwards [this.filter_mono nhdsWithin_le_nhds] with h hh e
    linarith

/-! ### Families of segments -/

/-- What a list of segments adds. -/
def edgesW (E : List (V2 × V2)) (x : V2) : ℤ := (E.map fun e => lw e.1 e.2 x).sum

theorem edgesW_append (E F : List (V2 × V2)) (x : V2) : edgesW (E ++ F) x = edgesW E x + edgesW F x := by
  simp [edgesW]

theorem sum_mul_sum' {α β : Type} (E : List α) (F : List β) (g : α → ℤ) (k : β → ℤ) :
    (E.map g).sum * (F.map k).sum = (E.map fun e => (F.map fun f => g e * k f).sum).sum := by
  induction E with
  | nil => simp
  | cons a l ih =>
    simp only [List.map_cons, List.sum_cons, add_mul, ih, List.sum_map_mul_left]

theorem sum_comm' {α β : Type} (E : List α) (F : List β) (g : α → β → ℤ) :
    (E.map fun e => (F.map fun f => g e f).sum).sum = (F.map fun f => (E.map fun e => g e f).sum).sum := by
  induction E with
  | nil => simp
  | cons a l ih =>
    simp only [List.map_cons, List.sum_cons, ih, List.sum_map_add]

open Filter Topology in
/-- The product of what two families of segments add, if the side each one has at the crossings with
heights other than finitely many is known. -/
theorem edges_mul {E F : List (V2 × V2)} {x : V2} {β α : V2 × V2 → ℤ} (cuts : List ℝ)
    (hE : ∀ e ∈ E, ¬ OnLine e.1 e.2 x) (hF : ∀ f ∈ F, ¬ OnLine f.1 f.2 x)
    (hcut : ∀ e ∈ E, ∀ f ∈ F, ∀ z, OnLine e.1 e.2 z → OnLine f.1 f.2 z → z.y ∈ cuts)
    (hβ : ∀ e ∈ E, ∀ z, OnLine e.1 e.2 z → z.y ∉ cuts → edgesW F z = β e)
    (hα : ∀ f ∈ F, ∀ z, OnLine f.1 f.2 z → z.y ∉ cuts → edgesW E z = α f) :
    edgesW E x * edgesW F x =
      (E.map fun e => β e * lw e.1 e.2 x).sum + (F.map fun f => α f * lw f.1 f.2 x).sum := by
  have all : ∀ {γ : Type} (l : List γ) (Q : γ → ℝ → Prop), (∀ e ∈ l, ∀ᶠ h : ℝ in 𝓝[>] 0, Q e h) →
      ∀ᶠ h : ℝ in 𝓝[>] 0, ∀ e ∈ l, Q e h := by
    intro γ l Q hQ
    induction l with
    | nil => exact Eventually.of_forall fun h e he => absurd he (by simp)
    | cons a l ih =>
      filter_upwards [hQ a (by simp), ih fun e he => hQ e (by simp [he])] with h h1 h2 e he
      rcases List.mem_cons.1 he with rfl | he
      · exact h1
      · exact h2 e he
  have H1 := all E (fun e h => ¬ OnLine e.1 e.2 ⟨x.x, x.y + h⟩ ∧
      lw e.1 e.2 ⟨x.x, x.y + h⟩ = lw e.1 e.2 x) fun e he => lw_up (hE e he)
  have H2 := all F (fun e h => ¬ OnLine e.1 e.2 ⟨x.x, x.y + h⟩ ∧
      lw e.1 e.2 ⟨x.x, x.y + h⟩ = lw e.1 e.2 x) fun e he => lw_up (hF e he)
  have H3 := all cuts (fun c h => x.y + h ≠ c) fun c _ => up_ne x c
  obtain ⟨h, h1, h2, h3⟩ := (H1.and (H2.and H3)).exists
  set z : V2 := ⟨x.x, x.y + h⟩ with hz
  have hzc : z.y ∉ cuts := fun hm => h3 _ hm rfl
  have eE : edgesW E x = edgesW E z := by
    unfold edgesW; rw [List.map_congr_left fun e he => (h1 e he).2]
  have eF : edgesW F x = edgesW F z := by
    unfold edgesW; rw [List.map_congr_left fun e he => (h2 e he).2]
  have e1 : (E.map fun e => β e * lw e.1 e.2 x) = E.map fun e => β e * lw e.1 e.2 z :=
    List.map_congr_left fun e he => by rw [(h1 e he).2]
  have e2 : (F.map fun f => α f * lw f.1 f.2 x) = F.map fun f => α f * lw f.1 f.2 z :=
    List.map_congr_left fun e he => by rw [(h2 e he).2]
  rw [eE, eF, e1, e2]
  have hne : ∀ a b : V2, lw a b z ≠ 0 → OnLine a b (atHeight a b z.y) ∧ (atHeight a b z.y).y ∉ cuts := by
    intro a b hn
    have hc : crosses a b z.y ≠ 0 := fun h0 => hn (lw_crosses_zero h0)
    refine ⟨(crosses_ne hc).2, ?_⟩
    rw [atHeight_y (crosses_ne hc).1]
    exact hzc
  have q1 : (E.map fun e => β e * lw e.1 e.2 z) =
      E.map fun e => (F.map fun f => lw e.1 e.2 z * lw f.1 f.2 (atHeight e.1 e.2 z.y)).sum := by
    refine List.map_congr_left fun e he => ?_
    rw [List.sum_map_mul_left]
    by_cases hn : lw e.1 e.2 z = 0
    · rw [hn]; simp
    · obtain ⟨o1, o2⟩ := hne _ _ hn
      rw [← hβ e he _ o1 o2, mul_comm]; rfl
  have q2 : (F.map fun f => α f * lw f.1 f.2 z) =
      F.map fun f => (E.map fun e => lw f.1 f.2 z * lw e.1 e.2 (atHeight f.1 f.2 z.y)).sum := by
    refine List.map_congr_left fun e he => ?_
    rw [List.sum_map_mul_left]
    by_cases hn : lw e.1 e.2 z = 0
    · rw [hn]; simp
    · obtain ⟨o1, o2⟩ := hne _ _ hn
      rw [← hα e he _ o1 o2, mul_comm]; rfl
  rw [q1, q2, sum_comm' F E, ← List.sum_map_add]
  unfold edgesW
  rw [sum_mul_sum']
  congr 1
  refine List.map_congr_left fun e he => ?_
  rw [← List.sum_map_add]
  congr 1
  refine List.map_congr_left fun f hf => ?_
  exact lw_mul (h1 e he).1 (h2 f hf).1 fun w hw hw' hy => hzc (hy ▸ hcut e he f hf w hw hw')

end
end Cavc

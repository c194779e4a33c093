import Verif.Proofs.RawLocal
import Mathlib.Topology.Maps.Proper.Basic
import Mathlib.Topology.Connected.Basic
import Mathlib.Topology.Order.IntermediateValue

/-! Of a stretch of the raw offset that is passed only once, all points are far enough away or none is. -/
namespace Cavc
open Spec
open scoped Classical
noncomputable section

theorem closed_exists_unit {X : Type} [TopologicalSpace X] {Q : X → ℝ → Prop}
    (hQ : IsClosed {q : X × ℝ | Q q.1 q.2}) : IsClosed {t : X | ∃ u, 0 ≤ u ∧ u ≤ 1 ∧ Q t u} := by
  have h1 : IsClosed {q : X × Set.Icc (0 : ℝ) 1 | Q q.1 q.2} :=
    hQ.preimage (continuous_fst.prodMk (continuous_subtype_val.comp continuous_snd))
  have h2 := isClosedMap_fst_of_compactSpace (X := X) (Y := Set.Icc (0 : ℝ) 1) _ h1
  convert h2 using 1
  ext t
  simp only [Set.mem_ofPred_eq, Set.mem_image, Prod.exists, Subtype.exists, Set.mem_Icc]
  constructor
  · rintro ⟨u, h0, h1, h⟩
    exact ⟨t, u, ⟨h0, h1⟩, h, rfl⟩
  · rintro ⟨t', u, ⟨h0, h1⟩, h, rfl⟩
    exact ⟨u, h0, h1, h⟩

section
variable {P : ℕ → V2} {n : ℕ} {o : ℝ} {ls : ℕ → List Vertex} {X : Type} [TopologicalSpace X]
  {γ : X → V2}

theorem closed_near (hx : Continuous fun t => (γ t).x) (hy : Continuous fun t => (γ t).y) (a b : V2) (c : ℝ) :
    IsClosed {t | ∃ z, OnLine a b z ∧ dist2 (γ t) z ≤ c} := by
  have : {t | ∃ z, OnLine a b z ∧ dist2 (γ t) z ≤ c} =
      {t | ∃ u, 0 ≤ u ∧ u ≤ 1 ∧ dist2 (γ t) (lerp a b u) ≤ c} := by
    ext t
    constructor
    · rintro ⟨z, ⟨u, u0, u1, rfl⟩, h⟩; exact ⟨u, u0, u1, h⟩
    · rintro ⟨u, u0, u1, h⟩; exact ⟨_, ⟨u, u0, u1, rfl⟩, h⟩
  rw [this]
  apply closed_exists_unit
  refine isClosed_le ?_ continuous_const
  have hx' : Continuous fun q : X × ℝ => (γ q.1).x := hx.comp continuous_fst
  have hy' : Continuous fun q : X × ℝ => (γ q.1).y := hy.comp continuous_fst
  unfold dist2 lerp
  fun_prop

theorem closed_far (hx : Continuous fun t => (γ t).x) (hy : Continuous fun t => (γ t).y) :
    IsClosed {t | FarP P n o (γ t)} := by
  have : {t | FarP P n o (γ t)} = ⋂ k, ⋂ (_ : k < n), ⋂ z, ⋂ (_ : OnLine (P k) (P (k + 1)) z),
      {t | o ^ 2 ≤ dist2 (γ t) z} := by
    ext t
    simp [FarP]
  rw [this]
  refine isClosed_iInter fun k => isClosed_iInter fun _ => isClosed_iInter fun z => isClosed_iInter fun _ => ?_
  refine isClosed_le continuous_const ?_
  unfold dist2
  fun_prop

theorem closed_line (h : RawG P n o ls) {i : ℕ} (hi : i < n) (hx : Continuous fun t => (γ t).x)
    (hy : Continuous fun t => (γ t).y) : IsClosed {t | OnLineEl n ls i (γ t)} := by
  obtain ⟨tS, tE, -, -, -, -, -, -, -, -, -, -, hon⟩ := h.lineEl hi
  simp only [hon]
  apply closed_exists_unit
  have hx' : Continuous fun q : X × ℝ => (γ q.1).x := hx.comp continuous_fst
  have hy' : Continuous fun q : X × ℝ => (γ q.1).y := hy.comp continuous_fst
  have : {q : X × ℝ | γ q.1 = offE P o (i + 1) (tS + q.2 * (tE - tS))} =
      {q : X × ℝ | (γ q.1).x = (offE P o (i + 1) (tS + q.2 * (tE - tS))).x} ∩
      {q : X × ℝ | (γ q.1).y = (offE P o (i + 1) (tS + q.2 * (tE - tS))).y} := by
    ext q
    exact ⟨fun e => ⟨congrArg V2.x e, congrArg V2.y e⟩, fun e => V2.ext e.1 e.2⟩
  rw [this]
  refine (isClosed_eq hx' ?_).inter (isClosed_eq hy' ?_) <;> unfold offE normalAt lerp <;> dsimp only <;> fun_prop

theorem closed_mid (h : RawG P n o ls) {i : ℕ} (hi : i < n) (hb : o * bend P i < 0)
    (hx : Continuous fun t => (γ t).x) (hy : Continuous fun t => (γ t).y) : IsClosed {t | OnMid ls i (γ t)} := by
  simp only [h.mid hi hb, Wedge]
  have : {t | (0 ≤ ahead (P i) (P (i + 1)) (γ t) ∧ 0 ≤ ahead (P (i + 2)) (P (i + 1)) (γ t)) ∧
      dist2 (γ t) (P (i + 1)) = o ^ 2} = ({t | 0 ≤ ahead (P i) (P (i + 1)) (γ t)} ∩
      {t | 0 ≤ ahead (P (i + 2)) (P (i + 1)) (γ t)}) ∩ {t | dist2 (γ t) (P (i + 1)) = o ^ 2} := rfl
  rw [this]
  refine ((isClosed_le continuous_const ?_).inter (isClosed_le continuous_const ?_)).inter
    (isClosed_eq ?_ continuous_const) <;> simp only [ahead, dist2] <;> fun_prop

/-- The line between the ends at a corner that bends towards the offset. -/
theorem closed_chord (h : RawG P n o ls) {i : ℕ} (hi : i < n) (hb : ¬ o * bend P i < 0)
    (hx : Continuous fun t => (γ t).x) (hy : Continuous fun t => (γ t).y) : IsClosed {t | OnMid ls i (γ t)} := by
  rcases h.corner i hi with ⟨v, t0, t1, e, -⟩ | ⟨w, w', e, hl, e0, e1, hk⟩
  · have : {t | OnMid ls i (γ t)} = ∅ := by
      ext t
      simp [OnMid, e]
    rw [this]; exact isClosed_empty
  · rcases hk with ⟨hb', -⟩ | ⟨-, hlw⟩
    · exact absurd hb' hb
    · have : {t | OnMid ls i (γ t)} = {t | ∃ u, 0 ≤ u ∧ u ≤ 1 ∧ γ t = lerp w.pos w'.pos u} := by
        ext t
        constructor
        · rintro ⟨a, a', e', ho⟩
          rw [e] at e'
          simp only [List.cons.injEq, and_true] at e'
          obtain ⟨rfl, rfl⟩ := e'
          exact (onSeg_line hlw).1 ho
        · intro ho; exact ⟨w, w', e, (onSeg_line hlw).2 ho⟩
      rw [this]
      apply closed_exists_unit
      have hx' : Continuous fun q : X × ℝ => (γ q.1).x := hx.comp continuous_fst
      have hy' : Continuous fun q : X × ℝ => (γ q.1).y := hy.comp continuous_fst
      have : {q : X × ℝ | γ q.1 = lerp w.pos w'.pos q.2} = {q : X × ℝ | (γ q.1).x = (lerp w.pos w'.pos q.2).x} ∩
          {q : X × ℝ | (γ q.1).y = (lerp w.pos w'.pos q.2).y} := by
        ext q
        exact ⟨fun e => ⟨congrArg V2.x e, congrArg V2.y e⟩, fun e => V2.ext e.1 e.2⟩
      rw [this]
      refine (isClosed_eq hx' ?_).inter (isClosed_eq hy' ?_) <;> unfold lerp <;> dsimp only <;> fun_prop

/-- Part `e` of the raw offset: the line after a corner, or the arc or line of it. -/
def OnPart (n : ℕ) (ls : ℕ → List Vertex) (e : ℕ × Bool) (x : V2) : Prop :=
  if e.2 then OnLineEl n ls e.1 x else OnMid ls e.1 x

/-- All or nothing: of a connected set of points of the raw offset that are passed only once, either no
point is too close or all are. -/
theorem RawG.all_or_nothing (h : RawG P n o ls)
    (hx : Continuous fun t => (γ t).x) (hy : Continuous fun t => (γ t).y)
    {S : Set X} (hS : IsPreconnected S)
    (hlev : ∀ t ∈ S, FarP P n o (γ t) → LevelAt P n o (γ t))
    (hon : ∀ t ∈ S, OnRaw n ls (γ t)) (honce : ∀ t ∈ S, Once n ls (γ t)) :
    (∀ t ∈ S, FarP P n o (γ t)) ∨ ∀ t ∈ S, ¬ FarP P n o (γ t) := by
  -- the parts and edges of which some points are too close to each other
  let bad : Set ((ℕ × Bool) × ℕ) := {q | q.1.1 < n ∧ q.2 < n ∧
    ∃ x, OnPart n ls q.1 x ∧ ∃ z, OnLine (P q.2) (P (q.2 + 1)) z ∧ dist2 x z < o ^ 2}
  have hfin : bad.Finite := by
    refine Set.Finite.subset (s := ((Set.Iio n) ×ˢ Set.univ) ×ˢ Set.Iio n)
      (((Set.finite_Iio n).prod Set.finite_univ).prod (Set.finite_Iio n)) ?_
    rintro ⟨⟨i, b⟩, k⟩ ⟨h1, h2, -⟩
    exact ⟨⟨h1, trivial⟩, h2⟩
  let H : Set X := ⋃ q ∈ bad, ({t | OnPart n ls q.1 (γ t)} ∩
    {t | ∃ z, OnLine (P q.2) (P (q.2 + 1)) z ∧ dist2 (γ t) z ≤ o ^ 2})
  have hH : IsClosed H := by
    refine hfin.isClosed_biUnion ?_
    rintro ⟨⟨i, b⟩, k⟩ ⟨h1, h2, -⟩
    refine IsClosed.inter ?_ (closed_near hx hy _ _ _)
    cases b
    · by_cases hb : o * bend P i < 0
      · exact closed_mid h h1 hb hx hy
      · exact closed_chord h h1 hb hx hy
    · exact closed_line h h1 hx hy
  have hF : IsClosed {t | FarP P n o (γ t)} := closed_far hx hy
  have cover : ∀ t ∈ S, ¬ FarP P n o (γ t) → t ∈ H := by
    intro t ht hn
    simp only [FarP, not_forall, not_le] at hn
    obtain ⟨k, hk, z, hz, hlt⟩ := hn
    obtain ⟨i, hi, hp⟩ := hon t ht
    obtain ⟨b, hb⟩ : ∃ b, OnPart n ls (i, b) (γ t) := by
      rcases hp with hp | hp
      · exact ⟨false, hp⟩
      · exact ⟨true, hp⟩
    refine Set.mem_biUnion (x := ((i, b), k)) ⟨hi, hk, γ t, hb, z, hz, hlt⟩ ⟨hb, z, hz, hlt.le⟩
  have disj : ∀ t ∈ S, FarP P n o (γ t) → t ∉ H := by
    intro t ht hf hm
    obtain ⟨q, hq, hon', z, hz, hle⟩ := Set.mem_iUnion₂.1 hm
    obtain ⟨⟨i, b⟩, k⟩ := q
    obtain ⟨hi, hk, x, hxp, z', hz', hlt⟩ := hq
    have hd : dist2 (γ t) z = o ^ 2 := le_antisymm hle (hf k hk z hz)
    obtain ⟨o1, o2⟩ := h.own (hlev t ht hf) hf (honce t ht) hk hz hd
    cases b
    · exact absurd (o2 i hi hon' x hxp z' hz') (not_le.2 hlt)
    · exact absurd (o1 i hi hon' x hxp z' hz') (not_le.2 hlt)
  by_cases hex : ∃ t ∈ S, FarP P n o (γ t)
  · left
    obtain ⟨t0, ht0, hf0⟩ := hex
    intro t ht
    by_contra hn
    rw [isPreconnected_closed_iff] at hS
    obtain ⟨s, hs, hs1, hs2⟩ := hS _ H hF hH
      (fun s hs => by
        by_cases hfs : FarP P n o (γ s)
        · exact Or.inl hfs
        · exact Or.inr (cover s hs hfs))
      ⟨t0, ht0, hf0⟩ ⟨t, ht, cover t ht hn⟩
    exact disj s hs hs1 hs2
  · right
    intro t ht hf
    exact hex ⟨t, ht, hf⟩

theorem RawP.all_or_nothing (h : RawP P n o ls) {σ : ℝ} {V V' : ℤ} (hV : Sides P n σ V V') (hσ : 0 < σ * o)
    (hx : Continuous fun t => (γ t).x) (hy : Continuous fun t => (γ t).y)
    {S : Set X} (hS : IsPreconnected S)
    (hon : ∀ t ∈ S, OnRaw n ls (γ t)) (honce : ∀ t ∈ S, Once n ls (γ t)) :
    (∀ t ∈ S, FarP P n o (γ t)) ∨ ∀ t ∈ S, ¬ FarP P n o (γ t) :=
  h.toRawG.all_or_nothing hx hy hS (fun t ht hf => h.levelAt hV hσ (hon t ht) hf) hon honce

end
end
end Cavc

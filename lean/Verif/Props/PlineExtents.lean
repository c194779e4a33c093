import Verif.Props.PlineArea
import Verif.Props.MathUtils
import Verif.Proofs.ArcSector

/-! C24 (extents). -/
namespace Cavc
open Spec
open scoped Classical

theorem cos_quasi {a u b : ℝ} (ha : 0 ≤ a) (hau : a ≤ u) (hub : u ≤ b) (hb : b ≤ 2 * Real.pi) :
    Real.cos u ≤ max (Real.cos a) (Real.cos b) := by
  rcases le_total u Real.pi with h | h
  · exact le_max_of_le_left (Real.cos_le_cos_of_nonneg_of_le_pi ha h hau)
  · apply le_max_of_le_right
    have := Real.cos_le_cos_of_nonneg_of_le_pi (x := 2 * Real.pi - b) (y := 2 * Real.pi - u)
      (by linarith) (by linarith) (by linarith)
    rwa [Real.cos_two_pi_sub, Real.cos_two_pi_sub] at this

theorem cos_shift {a b : ℝ} (k : ℤ) (h : a = b + k * (2 * Real.pi)) : Real.cos a = Real.cos b := by
  rw [h, Real.cos_add_int_mul_two_pi]

theorem exists_turn (x : ℝ) : ∃ s, 0 ≤ s ∧ s < 2 * Real.pi ∧ ∃ k : ℤ, x = s + k * (2 * Real.pi) := by
  have hp : (0 : ℝ) < 2 * Real.pi := by positivity
  refine ⟨toIcoMod hp 0 x, (toIcoMod_mem_Ico' hp x).1, (toIcoMod_mem_Ico' hp x).2, toIcoDiv hp 0 x, ?_⟩
  have := toIcoMod_add_toIcoDiv_zsmul hp 0 x
  rw [← this]; simp

/-- What the sweep test decides: whether the direction `φ` is passed (up to 1e-8 past an end); if
not, the extent in that direction is at an end. -/
theorem within_extreme {α θ φ : ℝ} (h0 : θ ≠ 0) (h1 : |θ| ≤ Real.pi) :
    (angleIsWithinSweep α θ φ → ∃ t η : ℝ, 0 ≤ t ∧ t ≤ 1 ∧ |η| ≤ 1 / 10 ^ 8 ∧
      ∃ k : ℤ, φ = α + t * θ + η + k * (2 * Real.pi)) ∧
    (¬ angleIsWithinSweep α θ φ → ∀ t, 0 ≤ t → t ≤ 1 →
      Real.cos (α + t * θ - φ) ≤ max (Real.cos (α - φ)) (Real.cos (α + θ - φ))) := by
  have hpi := Real.pi_pos
  rw [abs_le] at h1
  have hε : realThreshold = 1 / 10 ^ 8 := rfl
  have hε0 := realThreshold_pos
  rcases lt_or_gt_of_ne h0 with hn | hp
  · by_cases hne : φ - (α + θ) = 2 * Real.pi
    · refine ⟨fun _ => ⟨1, 0, by norm_num, by norm_num, by norm_num, 1, ?_⟩, fun _ t _ _ => ?_⟩
      · push_cast; linarith
      · apply le_max_of_le_right
        rw [cos_shift (a := α + θ - φ) (b := 0) (-1) (by push_cast; linarith), Real.cos_zero]
        exact Real.cos_le_one _
    · rw [C08_sweep_cw α θ φ realThreshold hn (by linarith) hne]
      constructor
      · rintro ⟨s, s0, s1, s2, k, hk⟩
        by_cases hs : s ≤ -θ
        · refine ⟨(θ + s) / θ, 0, div_nonneg_of_nonpos (by linarith) hn.le, ?_, by norm_num, k, ?_⟩
          · rw [div_le_one_of_neg hn]; linarith
          · rw [div_mul_cancel₀ _ h0, hk]; ring
        · refine ⟨0, θ + s, le_refl _, by norm_num, ?_, k, ?_⟩
          · push Not at hs
            rw [hε] at s2
            rw [abs_le]; constructor <;> linarith
          · rw [hk]; ring
      · intro hno t t0 t1
        obtain ⟨s, s0, s1, k, hk⟩ := exists_turn (φ - (α + θ))
        have hs : -θ + realThreshold ≤ s := by
          by_contra hc
          exact hno ⟨s, s0, s1, not_le.mp hc, k, by linarith⟩
        have e1 := cos_shift (a := α + t * θ - φ) (b := (1 - t) * (-θ) + (2 * Real.pi - s)) (-k - 1)
          (by push_cast; linarith)
        have e2 := cos_shift (a := α - φ) (b := -θ + (2 * Real.pi - s)) (-k - 1)
          (by push_cast; linarith)
        have e3 := cos_shift (a := α + θ - φ) (b := 2 * Real.pi - s) (-k - 1)
          (by push_cast; linarith)
        rw [e1, e2, e3, max_comm]
        apply cos_quasi
        · linarith
        · nlinarith
        · nlinarith
        · linarith
  · by_cases hne : φ - α = 2 * Real.pi
    · refine ⟨fun _ => ⟨0, 0, by norm_num, by norm_num, by norm_num, 1, ?_⟩, fun _ t _ _ => ?_⟩
      · push_cast; linarith
      · apply le_max_of_le_left
        rw [cos_shift (a := α - φ) (b := 0) (-1) (by push_cast; linarith), Real.cos_zero]
        exact Real.cos_le_one _
    · rw [C08_sweep_ccw α θ φ realThreshold hp.le (by linarith) hne]
      constructor
      · rintro ⟨s, s0, s1, s2, k, hk⟩
        by_cases hs : s ≤ θ
        · refine ⟨s / θ, 0, by positivity, ?_, by norm_num, k, ?_⟩
          · rw [div_le_one hp]; linarith
          · rw [div_mul_cancel₀ _ h0, hk]; ring
        · refine ⟨1, s - θ, by norm_num, le_refl _, ?_, k, ?_⟩
          · push Not at hs
            rw [hε] at s2
            rw [abs_le]; constructor <;> linarith
          · rw [hk]; ring
      · intro hno t t0 t1
        obtain ⟨s, s0, s1, k, hk⟩ := exists_turn (φ - α)
        have hs : θ + realThreshold ≤ s := by
          by_contra hc
          exact hno ⟨s, s0, s1, not_le.mp hc, k, by linarith⟩
        have e1 := cos_shift (a := α + t * θ - φ) (b := t * θ + (2 * Real.pi - s)) (-k - 1)
          (by push_cast; linarith)
        have e2 := cos_shift (a := α - φ) (b := 2 * Real.pi - s) (-k - 1)
          (by push_cast; linarith)
        have e3 := cos_shift (a := α + θ - φ) (b := θ + (2 * Real.pi - s)) (-k - 1)
          (by push_cast; linarith)
        rw [e1, e2, e3]
        apply cos_quasi
        · linarith
        · nlinarith
        · nlinarith
        · linarith

theorem extentsSweep_eq {v1 v2 : Vertex} (ha : ArcOk v1 v2) (hb : |v1.bulge| ≤ 1) :
    extentsSweep (centerOf v1 v2) v1 v2 = sweep v1 := by
  have hsw := abs_sweep_le hb
  have hpi := Real.pi_pos
  have hk := angle_rot ha.start_ne (sweep v1)
  rw [ha.end_eq] at hk
  rw [abs_le] at hsw
  unfold extentsSweep
  simp only
  rcases lt_or_gt_of_ne ha.b_ne with h | h
  · have hneg := sweep_neg h
    rcases hsw.1.lt_or_eq with h1 | h1
    · rw [deltaAngle_eq h1 hsw.2 hk, if_neg (by intro hh; linarith [hh.1])]
    · rw [← h1] at hk
      rw [deltaAngle_neg_pi hk, if_pos ⟨hpi, h⟩, ← h1]; ring
  · have hpos := sweep_pos h
    rw [deltaAngle_eq (by linarith) hsw.2 hk, if_neg (by intro hh; linarith [hh.2])]

/-- The box that one segment adds to the extents. -/
noncomputable def segExtents (v1 v2 : Vertex) : AABB :=
  if IsLine v1 then ⟨v1.pos.x, v1.pos.y, v1.pos.x, v1.pos.y⟩
  else
    let c := centerOf v1 v2
    let r := distance v1.pos c
    let a := angle c v1.pos
    { xMin := if angleIsWithinSweep a (sweep v1) Real.pi then c.x - r else min v1.pos.x v2.pos.x
      yMin := if angleIsWithinSweep a (sweep v1) (3 / 2 * Real.pi) then c.y - r
        else min v1.pos.y v2.pos.y
      xMax := if angleIsWithinSweep a (sweep v1) (2 * Real.pi) then c.x + r
        else max v1.pos.x v2.pos.x
      yMax := if angleIsWithinSweep a (sweep v1) (1 / 2 * Real.pi) then c.y + r
        else max v1.pos.y v2.pos.y }

theorem extentsVisitor_eq {v1 v2 : Vertex} (hok : SegOk v1 v2) (b : AABB) (i : ℕ) :
    extentsVisitor b v1 v2 i = .ok (b.include (segExtents v1 v2).xMin (segExtents v1 v2).yMin
      (segExtents v1 v2).xMax (segExtents v1 v2).yMax) := by
  unfold extentsVisitor segExtents
  by_cases hl : IsLine v1
  · rw [if_pos (show v1.bulgeIsZero from hl), if_pos hl]
  · have ha := hok.arcOk hl
    rw [if_neg (show ¬ v1.bulgeIsZero from hl), if_neg hl, ha.run, ok_bind]
    simp only [ha.center, ha.radius_eq, extentsSweep_eq ha hok.half]
    rfl

/-- Every point of an arc is in its box. -/
theorem arc_in_extents {v1 v2 : Vertex} (hok : SegOk v1 v2) (hl : ¬ IsLine v1) {p : V2}
    (hp : OnSeg v1 v2 p) :
    (segExtents v1 v2).xMin ≤ p.x ∧ p.x ≤ (segExtents v1 v2).xMax ∧
    (segExtents v1 v2).yMin ≤ p.y ∧ p.y ≤ (segExtents v1 v2).yMax := by
  have ha := hok.arcOk hl
  obtain ⟨t, t0, t1, hp⟩ := hp
  rw [atParam_arc hl] at hp
  have hsw := abs_sweep_le hok.half
  have hs0 : sweep v1 ≠ 0 := by
    rcases lt_or_gt_of_ne ha.b_ne with h | h
    · exact (sweep_neg h).ne
    · exact (sweep_pos h).ne'
  set c := centerOf v1 v2 with hc
  set r := distance v1.pos c with hr
  set α := angle c v1.pos with hα
  set θ := sweep v1
  have hr0 : 0 ≤ r := distance_nonneg _ _
  have hp' : p = ⟨c.x + r * Real.cos (α + t * θ), c.y + r * Real.sin (α + t * θ)⟩ := by
    rw [hp, rot_polar]
  have h1 : v1.pos = ⟨c.x + r * Real.cos α, c.y + r * Real.sin α⟩ := polar c v1.pos
  have h2 : v2.pos = ⟨c.x + r * Real.cos (α + θ), c.y + r * Real.sin (α + θ)⟩ := by
    rw [← ha.end_eq, rot_polar]
  have h1x : v1.pos.x = c.x + r * Real.cos α := congrArg V2.x h1
  have h1y : v1.pos.y = c.y + r * Real.sin α := congrArg V2.y h1
  have h2x : v2.pos.x = c.x + r * Real.cos (α + θ) := congrArg V2.x h2
  have h2y : v2.pos.y = c.y + r * Real.sin (α + θ) := congrArg V2.y h2
  have hpx : p.x = c.x + r * Real.cos (α + t * θ) := congrArg V2.x hp'
  have hpy : p.y = c.y + r * Real.sin (α + t * θ) := congrArg V2.y hp'
  have key : ∀ φ, ¬ angleIsWithinSweep α θ φ →
      r * Real.cos (α + t * θ - φ) ≤ max (r * Real.cos (α - φ)) (r * Real.cos (α + θ - φ)) := by
    intro φ h
    have := (within_extreme (α := α) (φ := φ) hs0 hsw).2 h t t0 t1
    rcases le_max_iff.mp this with h | h
    · exact le_max_of_le_left (mul_le_mul_of_nonneg_left h hr0)
    · exact le_max_of_le_right (mul_le_mul_of_nonneg_left h hr0)
  have cpi : ∀ x, Real.cos (x - Real.pi) = -Real.cos x := Real.cos_sub_pi
  have c2pi : ∀ x, Real.cos (x - 2 * Real.pi) = Real.cos x := Real.cos_sub_two_pi
  have chalf : ∀ x, Real.cos (x - 1 / 2 * Real.pi) = Real.sin x := by
    intro x; rw [show 1 / 2 * Real.pi = Real.pi / 2 by ring, Real.cos_sub_pi_div_two]
  have c3half : ∀ x, Real.cos (x - 3 / 2 * Real.pi) = -Real.sin x := by
    intro x
    rw [show x - 3 / 2 * Real.pi = (x - Real.pi) - Real.pi / 2 by ring, Real.cos_sub_pi_div_two,
      Real.sin_sub_pi]
  have b1 := Real.cos_le_one (α + t * θ)
  have b2 := Real.neg_one_le_cos (α + t * θ)
  have b3 := Real.sin_le_one (α + t * θ)
  have b4 := Real.neg_one_le_sin (α + t * θ)
  unfold segExtents
  rw [if_neg hl]
  simp only
  refine ⟨?_, ?_, ?_, ?_⟩
  · split_ifs with h
    · rw [hpx]; nlinarith
    · have := key _ h
      simp only [cpi] at this
      rw [min_le_iff, h1x, h2x, hpx]
      rcases le_max_iff.mp this with h | h
      · left; linarith
      · right; linarith
  · split_ifs with h
    · rw [hpx]; nlinarith
    · have := key _ h
      simp only [c2pi] at this
      rw [le_max_iff, h1x, h2x, hpx]
      rcases le_max_iff.mp this with h | h
      · left; linarith
      · right; linarith
  · split_ifs with h
    · rw [hpy]; nlinarith
    · have := key _ h
      simp only [c3half] at this
      rw [min_le_iff, h1y, h2y, hpy]
      rcases le_max_iff.mp this with h | h
      · left; linarith
      · right; linarith
  · split_ifs with h
    · rw [hpy]; nlinarith
    · have := key _ h
      simp only [chalf] at this
      rw [le_max_iff, h1y, h2y, hpy]
      rcases le_max_iff.mp this with h | h
      · left; linarith
      · right; linarith

/-- Each side of the box of a segment is touched. -/
theorem segExtents_tight {v1 v2 : Vertex} (hok : SegOk v1 v2) :
    (∃ q, NearSeg v1 v2 q ∧ q.x = (segExtents v1 v2).xMin) ∧
    (∃ q, NearSeg v1 v2 q ∧ q.x = (segExtents v1 v2).xMax) ∧
    (∃ q, NearSeg v1 v2 q ∧ q.y = (segExtents v1 v2).yMin) ∧
    (∃ q, NearSeg v1 v2 q ∧ q.y = (segExtents v1 v2).yMax) := by
  by_cases hl : IsLine v1
  · unfold segExtents
    rw [if_pos hl]
    have := Or.inl (b := ¬ IsLine v1 ∧ ∃ c, IsCenter v1 v2 c ∧ NearArc v1 v2 c v1.pos)
      (onSeg_start v1 v2)
    exact ⟨⟨_, this, rfl⟩, ⟨_, this, rfl⟩, ⟨_, this, rfl⟩, ⟨_, this, rfl⟩⟩
  · have ha := hok.arcOk hl
    have hsw := abs_sweep_le hok.half
    have hs0 : sweep v1 ≠ 0 := by
      rcases lt_or_gt_of_ne ha.b_ne with h | h
      · exact (sweep_neg h).ne
      · exact (sweep_pos h).ne'
    set c := centerOf v1 v2 with hc
    set r := distance v1.pos c with hr
    set α := angle c v1.pos with hα
    set θ := sweep v1 with hθ
    have key : ∀ φ, angleIsWithinSweep α θ φ →
        NearSeg v1 v2 ⟨c.x + r * Real.cos φ, c.y + r * Real.sin φ⟩ := by
      intro φ h
      obtain ⟨t, η, t0, t1, hη, k, hk⟩ := (within_extreme (α := α) (φ := φ) hs0 hsw).1 h
      refine Or.inr ⟨hl, c, isCenter_centerOf ha.b_ne, rot c (t * θ) v1.pos, η, ?_, hη, ?_⟩
      · exact ⟨t, t0, t1, (atParam_arc hl).mpr rfl⟩
      · rw [rot_add, rot_polar, hk, Real.cos_add_int_mul_two_pi, Real.sin_add_int_mul_two_pi,
          show α + t * θ + η = α + (η + t * θ) by ring]
    have n1 : NearSeg v1 v2 v1.pos := Or.inl (onSeg_start v1 v2)
    have n2 : NearSeg v1 v2 v2.pos := Or.inl (onSeg_end v1 v2)
    have hs3 : Real.sin (3 / 2 * Real.pi) = -1 := by
      rw [show 3 / 2 * Real.pi = Real.pi / 2 + Real.pi by ring, Real.sin_add_pi,
        Real.sin_pi_div_two]
    have hs1 : Real.sin (1 / 2 * Real.pi) = 1 := by
      rw [show 1 / 2 * Real.pi = Real.pi / 2 by ring, Real.sin_pi_div_two]
    unfold segExtents
    rw [if_neg hl]
    simp only
    refine ⟨?_, ?_, ?_, ?_⟩
    · split_ifs with h
      · exact ⟨_, key _ h, by simp only [Real.cos_pi]; ring⟩
      · rcases min_choice v1.pos.x v2.pos.x with e | e
        · exact ⟨_, n1, e.symm⟩
        · exact ⟨_, n2, e.symm⟩
    · split_ifs with h
      · exact ⟨_, key _ h, by simp only [Real.cos_two_pi]; ring⟩
      · rcases max_choice v1.pos.x v2.pos.x with e | e
        · exact ⟨_, n1, e.symm⟩
        · exact ⟨_, n2, e.symm⟩
    · split_ifs with h
      · exact ⟨_, key _ h, by simp only [hs3]; ring⟩
      · rcases min_choice v1.pos.y v2.pos.y with e | e
        · exact ⟨_, n1, e.symm⟩
        · exact ⟨_, n2, e.symm⟩
    · split_ifs with h
      · exact ⟨_, key _ h, by simp only [hs1]; ring⟩
      · rcases max_choice v1.pos.y v2.pos.y with e | e
        · exact ⟨_, n1, e.symm⟩
        · exact ⟨_, n2, e.symm⟩

/-- Folding boxes into an initial one. -/
theorem fold_include {β : Type} (f : AABB → β → M AABB) (g : β → AABB) (l : List β)
    (h : ∀ x ∈ l, ∀ st, f st x = .ok (st.include (g x).xMin (g x).yMin (g x).xMax (g x).yMax))
    (b : AABB) : ∃ r, l.foldlM f b = .ok r ∧
      (r.xMin ≤ b.xMin ∧ b.xMax ≤ r.xMax ∧ r.yMin ≤ b.yMin ∧ b.yMax ≤ r.yMax) ∧
      (∀ x ∈ l, r.xMin ≤ (g x).xMin ∧ (g x).xMax ≤ r.xMax ∧ r.yMin ≤ (g x).yMin ∧
        (g x).yMax ≤ r.yMax) ∧
      (r.xMin = b.xMin ∨ ∃ x ∈ l, r.xMin = (g x).xMin) ∧
      (r.xMax = b.xMax ∨ ∃ x ∈ l, r.xMax = (g x).xMax) ∧
      (r.yMin = b.yMin ∨ ∃ x ∈ l, r.yMin = (g x).yMin) ∧
      (r.yMax = b.yMax ∨ ∃ x ∈ l, r.yMax = (g x).yMax) := by
  induction l generalizing b with
  | nil => exact ⟨b, rfl, by simp⟩
  | cons a l ih =>
    rw [List.foldlM_cons, h a (by simp) b, ok_bind]
    obtain ⟨r, h1, h2, h3, h4, h5, h6, h7⟩ := ih (fun x hx => h x (by simp [hx]))
      (b.include (g a).xMin (g a).yMin (g a).xMax (g a).yMax)
    have hx1 : (b.include (g a).xMin (g a).yMin (g a).xMax (g a).yMax).xMin =
        if (g a).xMin < b.xMin then (g a).xMin else b.xMin := rfl
    have hx2 : (b.include (g a).xMin (g a).yMin (g a).xMax (g a).yMax).xMax =
        if (g a).xMax > b.xMax then (g a).xMax else b.xMax := rfl
    have hx3 : (b.include (g a).xMin (g a).yMin (g a).xMax (g a).yMax).yMin =
        if (g a).yMin < b.yMin then (g a).yMin else b.yMin := rfl
    have hx4 : (b.include (g a).xMin (g a).yMin (g a).xMax (g a).yMax).yMax =
        if (g a).yMax > b.yMax then (g a).yMax else b.yMax := rfl
    rw [hx1, hx2, hx3, hx4] at h2
    rw [hx1] at h4
    rw [hx2] at h5
    rw [hx3] at h6
    rw [hx4] at h7
    have lmin : ∀ r x y : ℝ, r ≤ (if x < y then x else y) → r ≤ x ∧ r ≤ y := by
      intro r x y h; split_ifs at h <;> constructor <;> linarith
    have lmax : ∀ r x y : ℝ, (if x > y then x else y) ≤ r → x ≤ r ∧ y ≤ r := by
      intro r x y h; split_ifs at h <;> constructor <;> linarith
    obtain ⟨a1, a2, a3, a4⟩ := h2
    have a1 := lmin _ _ _ a1
    have a2 := lmax _ _ _ a2
    have a3 := lmin _ _ _ a3
    have a4 := lmax _ _ _ a4
    refine ⟨r, h1, ⟨a1.2, a2.2, a3.2, a4.2⟩, ?_, ?_, ?_, ?_, ?_⟩
    · intro x hx
      rcases List.mem_cons.mp hx with rfl | hx
      · exact ⟨a1.1, a2.1, a3.1, a4.1⟩
      · exact h3 x hx
    · rcases h4 with h | ⟨x, hx, h⟩
      · split_ifs at h
        · exact Or.inr ⟨a, by simp, h⟩
        · exact Or.inl h
      · exact Or.inr ⟨x, by simp [hx], h⟩
    · rcases h5 with h | ⟨x, hx, h⟩
      · split_ifs at h
        · exact Or.inr ⟨a, by simp, h⟩
        · exact Or.inl h
      · exact Or.inr ⟨x, by simp [hx], h⟩
    · rcases h6 with h | ⟨x, hx, h⟩
      · split_ifs at h
        · exact Or.inr ⟨a, by simp, h⟩
        · exact Or.inl h
      · exact Or.inr ⟨x, by simp [hx], h⟩
    · rcases h7 with h | ⟨x, hx, h⟩
      · split_ifs at h
        · exact Or.inr ⟨a, by simp, h⟩
        · exact Or.inl h
      · exact Or.inr ⟨x, by simp [hx], h⟩

/-- C24. For a closed polyline, or an open one whose last segment is an arc, the extents contain
every point of the polyline, and each of the four sides is touched by the polyline (by a point on a
segment or at most 1e-8 radians past the end of an arc). -/
theorem C24_getExtents (p : Polyline) (hok : PlineOk p) (h2 : 2 ≤ p.vertexes.length)
    (hc : p.isClosed = true ∨
      ∀ i v1 v2, IsSeg p i v1 v2 → i + 2 = p.vertexes.length → ¬ IsLine v1) :
    ∃ b : AABB, getExtents p = .ok (some b) ∧
      (∀ q, OnPline p q → b.xMin ≤ q.x ∧ q.x ≤ b.xMax ∧ b.yMin ≤ q.y ∧ q.y ≤ b.yMax) ∧
      (∃ i v1 v2 q, IsSeg p i v1 v2 ∧ NearSeg v1 v2 q ∧ q.x = b.xMin) ∧
      (∃ i v1 v2 q, IsSeg p i v1 v2 ∧ NearSeg v1 v2 q ∧ q.x = b.xMax) ∧
      (∃ i v1 v2 q, IsSeg p i v1 v2 ∧ NearSeg v1 v2 q ∧ q.y = b.yMin) ∧
      (∃ i v1 v2 q, IsSeg p i v1 v2 ∧ NearSeg v1 v2 q ∧ q.y = b.yMax) := by
  obtain ⟨v, l, hv⟩ : ∃ v l, p.vertexes = v :: l := by
    rcases hv : p.vertexes with _ | ⟨v, l⟩
    · rw [hv] at h2; simp at h2
    · exact ⟨v, l, rfl⟩
  have hsz : 2 ≤ p.size := h2
  have hv0 : vtx p 0 = v := by unfold vtx; rw [hv]; rfl
  have hseg0 : IsSeg p 0 v (vtx p 1) := by
    refine isSeg_iff.mpr ⟨?_, hv0.symm, by rw [if_neg (by omega)]⟩
    rw [segs_length, if_neg (by omega)]; split_ifs <;> omega
  unfold getExtents
  rw [hv]
  simp only
  rw [visitAll_eq]
  obtain ⟨r, h1, hb, hin, t1, t2, t3, t4⟩ := fold_include
    (fun st (x : Vertex × Vertex × ℕ) => extentsVisitor st x.1 x.2.1 x.2.2)
    (fun x => segExtents x.1 x.2.1) (visitList p)
    (fun x hx st => extentsVisitor_eq (hok x.2.2 _ _ (mem_visitList.mp hx)) st _)
    ⟨v.pos.x, v.pos.y, v.pos.x, v.pos.y⟩
  have hin' : ∀ i v1 v2, IsSeg p i v1 v2 → r.xMin ≤ (segExtents v1 v2).xMin ∧
      (segExtents v1 v2).xMax ≤ r.xMax ∧ r.yMin ≤ (segExtents v1 v2).yMin ∧
      (segExtents v1 v2).yMax ≤ r.yMax :=
    fun i v1 v2 hs => hin (v1, v2, i) (mem_visitList.mpr hs)
  -- starts of segments are inside
  have hstart : ∀ i v1 v2, IsSeg p i v1 v2 →
      r.xMin ≤ v1.pos.x ∧ v1.pos.x ≤ r.xMax ∧ r.yMin ≤ v1.pos.y ∧ v1.pos.y ≤ r.yMax := by
    intro i v1 v2 hs
    obtain ⟨a1, a2, a3, a4⟩ := hin' i v1 v2 hs
    by_cases hl : IsLine v1
    · unfold segExtents at a1 a2 a3 a4
      rw [if_pos hl] at a1 a2 a3 a4
      exact ⟨a1, a2, a3, a4⟩
    · obtain ⟨b1, b2, b3, b4⟩ := arc_in_extents (hok i v1 v2 hs) hl (onSeg_start v1 v2)
      exact ⟨by linarith, by linarith, by linarith, by linarith⟩
  -- ends of lines are starts
  have hend : ∀ i v1 v2, IsSeg p i v1 v2 → IsLine v1 →
      r.xMin ≤ v2.pos.x ∧ v2.pos.x ≤ r.xMax ∧ r.yMin ≤ v2.pos.y ∧ v2.pos.y ≤ r.yMax := by
    intro i v1 v2 hs hl
    obtain ⟨hi, e1, e2⟩ := isSeg_iff.mp hs
    have hi' := lt_size hi
    have : ∃ w, IsSeg p (if i + 1 = p.size then 0 else i + 1) v2 w := by
      refine ⟨_, isSeg_iff.mpr ⟨?_, e2, rfl⟩⟩
      rcases hc with hc | hc
      · rw [segs_length, if_neg (show ¬ p.size < 2 by omega), if_pos hc]; exact next_lt hi'
      · rw [segs_length, if_neg (show ¬ p.size < 2 by omega)] at hi ⊢
        by_cases hcl : p.isClosed = true
        · rw [if_pos hcl]; exact next_lt hi'
        · rw [if_neg hcl] at hi ⊢
          have : i + 2 ≠ p.vertexes.length := fun h => hc i v1 v2 hs h hl
          have hpl : p.vertexes.length = p.size := rfl
          split_ifs <;> omega
    obtain ⟨w, hw⟩ := this
    exact hstart _ _ _ hw
  refine ⟨r, by rw [h1]; rfl, ?_, ?_, ?_, ?_, ?_⟩
  · rintro q ⟨i, v1, v2, hs, hq⟩
    by_cases hl : IsLine v1
    · obtain ⟨a1, a2, a3, a4⟩ := hstart i v1 v2 hs
      obtain ⟨b1, b2, b3, b4⟩ := hend i v1 v2 hs hl
      obtain ⟨t, t0, t1, hq⟩ := hq
      rw [atParam_line hl] at hq
      rw [hq]
      simp only [lerp]
      refine ⟨?_, ?_, ?_, ?_⟩ <;> nlinarith
    · obtain ⟨a1, a2, a3, a4⟩ := hin' i v1 v2 hs
      obtain ⟨b1, b2, b3, b4⟩ := arc_in_extents (hok i v1 v2 hs) hl hq
      exact ⟨by linarith, by linarith, by linarith, by linarith⟩
  · rcases t1 with h | ⟨⟨v1, v2, i⟩, hx, h⟩
    · exact ⟨0, v, _, v.pos, hseg0, Or.inl (onSeg_start _ _), h.symm⟩
    · have hs := mem_visitList.mp hx
      obtain ⟨q, hq, e⟩ := (segExtents_tight (hok i v1 v2 hs)).1
      exact ⟨i, v1, v2, q, hs, hq, e.trans h.symm⟩
  · rcases t2 with h | ⟨⟨v1, v2, i⟩, hx, h⟩
    · exact ⟨0, v, _, v.pos, hseg0, Or.inl (onSeg_start _ _), h.symm⟩
    · have hs := mem_visitList.mp hx
      obtain ⟨q, hq, e⟩ := (segExtents_tight (hok i v1 v2 hs)).2.1
      exact ⟨i, v1, v2, q, hs, hq, e.trans h.symm⟩
  · rcases t3 with h | ⟨⟨v1, v2, i⟩, hx, h⟩
    · exact ⟨0, v, _, v.pos, hseg0, Or.inl (onSeg_start _ _), h.symm⟩
    · have hs := mem_visitList.mp hx
      obtain ⟨q, hq, e⟩ := (segExtents_tight (hok i v1 v2 hs)).2.2.1
      exact ⟨i, v1, v2, q, hs, hq, e.trans h.symm⟩
  · rcases t4 with h | ⟨⟨v1, v2, i⟩, hx, h⟩
    · exact ⟨0, v, _, v.pos, hseg0, Or.inl (onSeg_start _ _), h.symm⟩
    · have hs := mem_visitList.mp hx
      obtain ⟨q, hq, e⟩ := (segExtents_tight (hok i v1 v2 hs)).2.2.2
      exact ⟨i, v1, v2, q, hs, hq, e.trans h.symm⟩

/-- C24: the half disc meets the hypotheses, and its extents reach its apex. -/
example : ∃ b, getExtents ⟨true, [semiStart, semiEnd]⟩ = .ok (some b) ∧ 1 ≤ b.yMax := by
  have hs : ∀ i v1 v2, IsSeg ⟨true, [semiStart, semiEnd]⟩ i v1 v2 →
      (v1 = semiStart ∧ v2 = semiEnd) ∨ (v1 = semiEnd ∧ v2 = semiStart) := by
    intro i v1 v2 hs
    unfold IsSeg segs at hs
    rcases i with _ | _ | i
    · simp at hs; exact Or.inl ⟨hs.1.symm, hs.2.symm⟩
    · simp at hs; exact Or.inr ⟨hs.1.symm, hs.2.symm⟩
    · simp at hs
  obtain ⟨b, h1, h2, -⟩ := C24_getExtents ⟨true, [semiStart, semiEnd]⟩ (by
    intro i v1 v2 h
    rcases hs i v1 v2 h with ⟨rfl, rfl⟩ | ⟨rfl, rfl⟩
    · exact semi_ok.1
    · exact ⟨by norm_num [semiEnd], fun h => absurd (by norm_num [IsLine, semiEnd]) h⟩)
    (by simp) (Or.inl rfl)
  refine ⟨b, h1, (h2 ⟨0, 1⟩ ⟨0, semiStart, semiEnd, by simp [IsSeg, segs], ?_⟩).2.2.2⟩
  refine ⟨1 / 2, by norm_num, by norm_num, ?_⟩
  rw [semi_atParam, show 1 / 2 * Real.pi = Real.pi / 2 by ring, Real.cos_pi_div_two,
    Real.sin_pi_div_two]

/-- C24: the empty polyline has no extents (a box of infinities in the code), a single vertex its
own position. -/
theorem C24_small (closed : Bool) (v : Vertex) :
    getExtents ⟨closed, []⟩ = .ok none ∧
    getExtents ⟨closed, [v]⟩ = .ok (some ⟨v.pos.x, v.pos.y, v.pos.x, v.pos.y⟩) := by
  refine ⟨rfl, ?_⟩
  simp [getExtents, Polyline.visitSegIndices, Polyline.size]

/-- C24 fails for open polylines that end in a line: the last vertex is ignored. -/
theorem C24_open_witness :
    getExtents ⟨false, [⟨⟨0, 0⟩, 0⟩, ⟨⟨10, 10⟩, 0⟩]⟩ = .ok (some ⟨0, 0, 0, 0⟩) ∧
    OnPline ⟨false, [⟨⟨0, 0⟩, 0⟩, ⟨⟨10, 10⟩, 0⟩]⟩ ⟨10, 10⟩ := by
  constructor
  · have hz : (⟨⟨0, 0⟩, 0⟩ : Vertex).bulgeIsZero := by
      norm_num [Vertex.bulgeIsZero, realPrecision]
    simp only [getExtents, visitAll_eq, visitList, visitOrder, Polyline.size, vtx]
    norm_num [List.range_succ, extentsVisitor, hz, AABB.include]
  · exact ⟨0, _, _, by simp [IsSeg, segs]; exact ⟨rfl, rfl⟩, onSeg_end _ _⟩

end Cavc

import Verif.Proofs.WindingRule
import Verif.Props.PlineInvert

/-!
C25, C26: `getWindingNumber` is the topological winding number.
-/
namespace Cavc
open Spec
open scoped Classical
noncomputable section

/-- `q` seen from `p` -/
def from' (p q : V2) : ℂ := ⟨q.x - p.x, q.y - p.y⟩

theorem from_ne {p q : V2} (h : q ≠ p) : from' p q ≠ 0 := by
  intro h0
  apply h
  have h1 := congrArg Complex.re h0
  have h2 := congrArg Complex.im h0
  simp only [from', Complex.zero_re, Complex.zero_im] at h1 h2
  ext <;> linarith

theorem cross_from (a b p : V2) : (from' p a).re * (from' p b).im - (from' p a).im * (from' p b).re =
    cross a b p := by
  simp only [from', cross]; ring

theorem seg_turn_line {v1 v2 : Vertex} (hl : IsLine v1) {p : V2} (hp : ¬ OnSeg v1 v2 p)
    {γ : ℝ → V2} (hγ : IsPath v1 v2 γ) : turning p γ =
      polarAngle (from' p v2.pos) - polarAngle (from' p v1.pos) + 2 * Real.pi * (lineWinding v1 v2 p) := by
  rw [hγ.line hl]
  have h : ∀ t : ℝ, 0 ≤ t → t ≤ 1 → lerp v1.pos v2.pos t ≠ p := by
    intro t h0 h1 he
    exact hp ((onSeg_line hl).2 ⟨t, h0, h1, he.symm⟩)
  obtain ⟨h1, h2, h3⟩ := turning_line h
  have e0 : seen p (fun t => lerp v1.pos v2.pos t) 0 = from' p v1.pos := by
    simp [seen, from', lerp]
  have e1 : seen p (fun t => lerp v1.pos v2.pos t) 1 = from' p v2.pos := by
    simp [seen, from', lerp]
  rw [e0, e1] at h3
  have n1 : from' p v1.pos ≠ 0 := from_ne (fun h => hp (h ▸ onSeg_start v1 v2))
  have n2 : from' p v2.pos ≠ 0 := from_ne (fun h => hp (h ▸ onSeg_end v1 v2))
  have := line_rule n1 n2 h3 h1 h2
  rw [this]
  have hr : lineRule (from' p v1.pos) (from' p v2.pos) = lineWinding v1 v2 p := by
    unfold lineRule lineWinding isLeft
    rw [cross_from]
    simp only [from', sub_nonpos, sub_pos, gt_iff_lt]
  rw [hr]

theorem on_circle_side {v1 v2 : Vertex} (ha : ArcOk v1 v2) (hb : |v1.bulge| ≤ 1) {p : V2}
    (hp : ¬ OnSeg v1 v2 p) (hc : dist2 p (centerOf v1 v2) = dist2 v1.pos (centerOf v1 v2)) :
    (0 < v1.bulge → 0 < cross v1.pos v2.pos p) ∧ (v1.bulge < 0 → cross v1.pos v2.pos p < 0) := by
  obtain ⟨ψ, h1, h2, h⟩ := exists_offset (centerOf v1 v2) v1.pos p
  set c := centerOf v1 v2 with hcd
  have hd : distance p c = distance v1.pos c := by unfold distance; rw [hc]
  have hr := distance_pos ha.start_ne
  rw [hd] at h
  have hpψ : p = rot c ψ v1.pos := by
    have hx := congrArg V2.x h
    have hy := congrArg V2.y h
    simp only [V2.smul_x, V2.smul_y, V2.sub_x, V2.sub_y] at hx hy
    have hx' := mul_left_cancel₀ hr.ne' hx
    have hy' := mul_left_cancel₀ hr.ne' hy
    ext <;> linarith
  have hend := ha.end_eq
  rw [← hcd] at hend
  have hX : cross v1.pos v2.pos p = dist2 v1.pos c *
      (4 * Real.sin (sweep v1 / 2) * Real.sin (ψ / 2) * Real.sin (ψ / 2 - sweep v1 / 2)) := by
    rw [hpψ, ← hend]
    have eω : sweep v1 = 2 * (sweep v1 / 2) := by ring
    have eψ : ψ = 2 * (ψ / 2) := by ring
    generalize sweep v1 / 2 = h at eω ⊢
    generalize ψ / 2 = k at eψ ⊢
    rw [eω, eψ]
    simp only [cross, rot, dist2, Real.cos_two_mul, Real.sin_two_mul, Real.sin_sub]
    have s1 := Real.sin_sq_add_cos_sq h
    have s2 := Real.sin_sq_add_cos_sq k
    have c1 : Real.cos h ^ 2 = 1 - Real.sin h ^ 2 := by linarith
    have c2 : Real.cos k ^ 2 = 1 - Real.sin k ^ 2 := by linarith
    rw [c1, c2]
    linear_combination (-4*Real.sin h * Real.sin k*((v1.pos.x - c.x)^2 + (v1.pos.y-c.y)^2)*0) * s1
  have hr2 : 0 < dist2 v1.pos c := dist2_pos ha.start_ne
  have hsw := abs_sweep_le hb
  have hpi := Real.pi_pos
  constructor
  · intro hpos
    have hs := sweep_pos hpos
    rw [abs_of_pos hs] at hsw
    have q1 : 0 < Real.sin (sweep v1 / 2) :=
      Real.sin_pos_of_pos_of_lt_pi (by linarith) (by linarith)
    have q2 : 0 < Real.sin (ψ / 2) * Real.sin (ψ / 2 - sweep v1 / 2) := by
      rcases lt_or_ge ψ 0 with h0 | h0
      · exact mul_pos_of_neg_of_neg (Real.sin_neg_of_neg_of_neg_pi_lt (by linarith) (by linarith))
          (Real.sin_neg_of_neg_of_neg_pi_lt (by linarith) (by linarith))
      · rcases le_or_gt ψ (sweep v1) with h3 | h3
        · exfalso
          apply hp
          rw [hpψ]
          exact onSeg_of_offset ha (Or.inl ⟨h0, h3⟩)
        · exact mul_pos (Real.sin_pos_of_pos_of_lt_pi (by linarith) (by linarith))
            (Real.sin_pos_of_pos_of_lt_pi (by linarith) (by linarith))
    rw [hX]
    have := mul_pos q1 q2
    nlinarith [mul_pos hr2 this]
  · intro hneg
    have hs := sweep_neg hneg
    rw [abs_of_neg hs] at hsw
    have q1 : Real.sin (sweep v1 / 2) < 0 :=
      Real.sin_neg_of_neg_of_neg_pi_lt (by linarith) (by linarith)
    have q2 : 0 < Real.sin (ψ / 2) * Real.sin (ψ / 2 - sweep v1 / 2) := by
      rcases lt_or_ge 0 ψ with h0 | h0
      · refine mul_pos (Real.sin_pos_of_pos_of_lt_pi (by linarith) (by linarith))
          (Real.sin_pos_of_pos_of_lt_pi (by linarith) (lt_of_le_of_ne (by linarith) ?_))
        intro he
        apply hp
        have : p = v2.pos := by
          rw [hpψ, ← hend, show ψ = sweep v1 + 2 * Real.pi by linarith]
          simp [rot]
        rw [this]; exact onSeg_end v1 v2
      · rcases le_or_gt (sweep v1) ψ with h3 | h3
        · exfalso
          apply hp
          rw [hpψ]
          exact onSeg_of_offset ha (Or.inr ⟨h3, h0⟩)
        · exact mul_pos_of_neg_of_neg (Real.sin_neg_of_neg_of_neg_pi_lt (by linarith) (by linarith))
            (Real.sin_neg_of_neg_of_neg_pi_lt (by linarith) (by linarith))
    rw [hX]
    have := mul_neg_of_neg_of_pos q1 q2
    nlinarith [mul_neg_of_pos_of_neg hr2 this]

/-- power of the point -/
theorem dot_from {v1 v2 : Vertex} (hb : v1.bulge ≠ 0) (p : V2) :
    (v1.pos.x - p.x) * (v2.pos.x - p.x) + (v1.pos.y - p.y) * (v2.pos.y - p.y) =
    dist2 p (centerOf v1 v2) - dist2 v1.pos (centerOf v1 v2) +
      (1 - v1.bulge ^ 2) / (2 * v1.bulge) * cross v1.pos v2.pos p := by
  simp only [dist2, centerOf, cross]
  field_simp
  ring

theorem dist_run {v1 v2 : Vertex} (ha : ArcOk v1 v2) (p : V2) :
    distToArcCenterLessThanRadius v1 v2 p =
      .ok (decide (dist2 p (centerOf v1 v2) < dist2 v1.pos (centerOf v1 v2))) := by
  unfold distToArcCenterLessThanRadius
  rw [ha.run]
  simp only [ok_bind, pure_eq_ok]
  rw [ha.center, ← arcOf_radius_sq ha.b_ne, ← sq, distSquared, dot_sub_self, dist2_comm]

theorem arc_turn {v1 v2 : Vertex} (ha : ArcOk v1 v2) (hb : |v1.bulge| ≤ 1) {p : V2}
    (hp : ¬ OnSeg v1 v2 p) {γ : ℝ → V2} (hγ : IsPath v1 v2 γ) :
    let z := from' p v1.pos
    let w := from' p v2.pos
    TurnsTo z w (turning p γ) ∧
    (dist2 v1.pos (centerOf v1 v2) < dist2 p (centerOf v1 v2) →
      -Real.pi < turning p γ ∧ turning p γ < Real.pi) ∧
    (dist2 p (centerOf v1 v2) ≤ dist2 v1.pos (centerOf v1 v2) →
      (0 < v1.bulge → 0 < turning p γ ∧ turning p γ < 2 * Real.pi) ∧
      (v1.bulge < 0 → -(2 * Real.pi) < turning p γ ∧ turning p γ < 0)) := by
  intro z w
  rw [hγ.arc ha.arc]
  have h : ∀ t : ℝ, 0 ≤ t → t ≤ 1 → rot (centerOf v1 v2) (t * sweep v1) v1.pos ≠ p := by
    intro t h0 h1 he
    exact hp ((onSeg_arc ha.arc).2 ⟨t, h0, h1, he.symm⟩)
  have e0 : seen p (fun t => rot (centerOf v1 v2) (t * sweep v1) v1.pos) 0 = z := by
    show (⟨_, _⟩ : ℂ) = _
    simp only [zero_mul, rot_zero]
    rfl
  have e1 : seen p (fun t => rot (centerOf v1 v2) (t * sweep v1) v1.pos) 1 = w := by
    show (⟨_, _⟩ : ℂ) = _
    simp only [one_mul, ha.end_eq]
    rfl
  have hsw := abs_le.1 (abs_sweep_le hb)
  have hpi := Real.pi_pos
  rcases lt_or_ge (dist2 v1.pos (centerOf v1 v2)) (dist2 p (centerOf v1 v2)) with hc | hc
  · obtain ⟨a1, a2, a3⟩ := turning_rot_outside (ω := sweep v1) hc
    rw [e0, e1] at a3
    exact ⟨a3, fun _ => ⟨a1, a2⟩, fun h => absurd hc (not_lt.2 h)⟩
  · obtain ⟨a1, a2, a3, a4⟩ := turning_rot_inside ha.start_ne hc h
    rw [e0, e1] at a4
    rw [abs_lt] at a3
    refine ⟨a4, fun h => absurd h (not_lt.2 hc), fun _ => ⟨fun hb' => ?_, fun hb' => ?_⟩⟩
    · exact ⟨a1 (sweep_pos hb'), by linarith [a3.2, hsw.2]⟩
    · exact ⟨by linarith [a3.1, hsw.1], a2 (sweep_neg hb')⟩

set_option maxHeartbeats 2000000 in
theorem seg_turn_arc {v1 v2 : Vertex} (ha : ArcOk v1 v2) (hb : |v1.bulge| ≤ 1) {p : V2}
    (hp : ¬ OnSeg v1 v2 p) {γ : ℝ → V2} (hγ : IsPath v1 v2 γ) :
    ∃ k, arcWinding v1 v2 p = .ok k ∧ turning p γ =
      polarAngle (from' p v2.pos) - polarAngle (from' p v1.pos) + 2 * Real.pi * k := by
  obtain ⟨hT, hout, hin⟩ := arc_turn ha hb hp hγ
  have n1 : from' p v1.pos ≠ 0 := from_ne (fun h => hp (h ▸ onSeg_start v1 v2))
  have n2 : from' p v2.pos ≠ 0 := from_ne (fun h => hp (h ▸ onSeg_end v1 v2))
  have hX := cross_from v1.pos v2.pos p
  have hside := on_circle_side ha hb hp
  have hdot := dot_from (v2 := v2) ha.b_ne p
  have hupz := fun h => polarAngle_upper (z := from' p v1.pos) h
  have hloz := fun h => polarAngle_lower (z := from' p v1.pos) h
  have hupw := fun h => polarAngle_upper (z := from' p v2.pos) h
  have hlow := fun h => polarAngle_lower (z := from' p v2.pos) h
  have hcu := fun h h' => polar_cmp_upper (z := from' p v1.pos) (w := from' p v2.pos) h h'
  have hcl := fun h h' h'' => polar_cmp_lower (z := from' p v1.pos) (w := from' p v2.pos) h h' n1 n2 h''
  have hbb := abs_le.1 hb
  have hβ : 0 < v1.bulge → 0 ≤ (1 - v1.bulge ^ 2) / (2 * v1.bulge) := fun h =>
    div_nonneg (by nlinarith) (by linarith)
  have hβ' : v1.bulge < 0 → (1 - v1.bulge ^ 2) / (2 * v1.bulge) ≤ 0 := fun h =>
    div_nonpos_of_nonneg_of_nonpos (by nlinarith) (by linarith)
  generalize (1 - v1.bulge ^ 2) / (2 * v1.bulge) = β at *
  have hccw : v1.bulgeIsPos ↔ 0 < v1.bulge := by
    have h := ha.arc
    unfold IsLine at h
    unfold Vertex.bulgeIsPos
    constructor
    · intro h'; exact h'
    · intro h'; exact h'
  unfold arcWinding isLeft isLeftOrEqual
  simp only [dist_run ha, ok_bind, pure_eq_ok, decide_eq_true_eq, gt_iff_lt, ge_iff_le, hccw]
  have ex0 : (from' p v1.pos).re = v1.pos.x - p.x := rfl
  have ey0 : (from' p v1.pos).im = v1.pos.y - p.y := rfl
  have ex1 : (from' p v2.pos).re = v2.pos.x - p.x := rfl
  have ey1 : (from' p v2.pos).im = v2.pos.y - p.y := rfl
  have eX : cross v1.pos v2.pos p = (v1.pos.x - p.x) * (v2.pos.y - p.y) -
    (v1.pos.y - p.y) * (v2.pos.x - p.x) := by rw [← hX, ex0, ey0, ex1, ey1]
  rcases lt_or_ge (dist2 v1.pos (centerOf v1 v2)) (dist2 p (centerOf v1 v2)) with hc | hc
  · -- outside: the rule of the chord
    have hL := line_rule n1 n2 hT (hout hc).1 (hout hc).2
    refine ⟨lineRule (from' p v1.pos) (from' p v2.pos), ?_, hL⟩
    simp only [if_neg (not_lt.2 hc.le)]
    unfold lineRule
    rw [hX, ey0, ey1]
    simp only [sub_nonpos, sub_pos]
    have hne : cross v1.pos v2.pos p = 0 →
        ¬ (v1.pos.y ≤ p.y ∧ p.y < v2.pos.y) ∧ ¬ (p.y < v1.pos.y ∧ v2.pos.y ≤ p.y) := by
      intro h0
      rw [h0] at hdot
      rw [h0] at eX
      set x0 := v1.pos.x - p.x
      set x1 := v2.pos.x - p.x
      constructor
      · rintro ⟨h1, h2⟩
        have g1 : v1.pos.y - p.y ≤ 0 := by linarith
        have g2 : 0 < v2.pos.y - p.y := by linarith
        set y0 := v1.pos.y - p.y
        set y1 := v2.pos.y - p.y
        have : (x0 * x1 + y0 * y1) * y1 = y0 * (x1 ^ 2 + y1 ^ 2) := by linear_combination x1 * (-eX)
        have h3 : 0 < x0 * x1 + y0 * y1 := by rw [hdot]; linarith
        nlinarith [mul_pos h3 g2, sq_nonneg x1, sq_nonneg y1]
      · rintro ⟨h1, h2⟩
        have g1 : 0 < v1.pos.y - p.y := by linarith
        have g2 : v2.pos.y - p.y ≤ 0 := by linarith
        set y0 := v1.pos.y - p.y
        set y1 := v2.pos.y - p.y
        have : (x0 * x1 + y0 * y1) * y0 = y1 * (x0 ^ 2 + y0 ^ 2) := by linear_combination x0 * (eX)
        have h3 : 0 < x0 * x1 + y0 * y1 := by rw [hdot]; linarith
        nlinarith [mul_pos h3 g1, sq_nonneg x0, sq_nonneg y0]
    generalize cross v1.pos v2.pos p = X at *
    rcases lt_trichotomy X 0 with hx | hx | hx
    · simp only [not_lt.2 hx.le, not_le.2 hx, ite_self]
      split_ifs <;> first | rfl | (exfalso; simp_all)
    · obtain ⟨k1, k2⟩ := hne hx
      subst hx
      simp only [lt_irrefl, le_refl, ite_self]
      split_ifs <;> first | rfl | (exfalso; simp_all)
    · simp only [hx, hx.le, ite_self]
      split_ifs <;> first | rfl | (exfalso; simp_all)
  · -- inside: a turn in the direction of the arc, less than a full one
    have fBA : v1.pos.y ≤ p.y → p.y < v2.pos.y →
        polarAngle (from' p v2.pos) < polarAngle (from' p v1.pos) := fun h1 h2 => by
      have a := hloz (by rw [ey0]; linarith)
      have b := hupw (by rw [ey1]; linarith)
      linarith [a.1, b.2]
    have fAB : p.y < v1.pos.y → v2.pos.y ≤ p.y →
        polarAngle (from' p v1.pos) < polarAngle (from' p v2.pos) := fun h1 h2 => by
      have a := hupz (by rw [ey0]; linarith)
      have b := hlow (by rw [ey1]; linarith)
      linarith [a.2, b.1]
    have fAA : p.y < v1.pos.y → p.y < v2.pos.y →
        (polarAngle (from' p v2.pos) < polarAngle (from' p v1.pos) ↔ cross v1.pos v2.pos p < 0) ∧
        (polarAngle (from' p v1.pos) < polarAngle (from' p v2.pos) ↔ 0 < cross v1.pos v2.pos p) :=
      fun h1 h2 => by
        have := hcu (by rw [ey0]; linarith) (by rw [ey1]; linarith)
        rw [hX] at this; exact this
    have fBB : v1.pos.y ≤ p.y → v2.pos.y ≤ p.y →
        polarAngle (from' p v2.pos) ≠ polarAngle (from' p v1.pos) →
        (polarAngle (from' p v2.pos) < polarAngle (from' p v1.pos) ↔ cross v1.pos v2.pos p < 0 ∨
          (cross v1.pos v2.pos p = 0 ∧ v2.pos.x < p.x ∧ p.x < v1.pos.x)) ∧
        (polarAngle (from' p v1.pos) < polarAngle (from' p v2.pos) ↔ 0 < cross v1.pos v2.pos p ∨
          (cross v1.pos v2.pos p = 0 ∧ v1.pos.x < p.x ∧ p.x < v2.pos.x)) :=
      fun h1 h2 h3 => by
        have := hcl (by rw [ey0]; linarith) (by rw [ey1]; linarith) h3
        rw [hX, ex0, ex1] at this
        simpa only [sub_neg, sub_pos] using this
    -- a point in the segment cut off by the chord sees it at more than a right angle
    have hobt : dist2 p (centerOf v1 v2) < dist2 v1.pos (centerOf v1 v2) →
        (0 < v1.bulge ∧ cross v1.pos v2.pos p ≤ 0) ∨ (v1.bulge < 0 ∧ 0 ≤ cross v1.pos v2.pos p) →
        0 ≤ (v1.pos.y - p.y) * (v2.pos.y - p.y) →
        (v1.pos.x - p.x) * (v2.pos.x - p.x) < 0 := by
      rintro hD (⟨h1, h2⟩ | ⟨h1, h2⟩) h3
      · nlinarith [mul_nonneg (hβ h1) (neg_nonneg.2 h2)]
      · nlinarith [mul_nonneg (neg_nonneg.2 (hβ' h1)) h2]
    have hsign : ∀ a b : ℝ, a * b < 0 → (a < 0 ∧ 0 < b) ∨ (0 < a ∧ b < 0) := by
      intro a b h
      rcases mul_neg_iff.1 h with h | h
      · exact Or.inr h
      · exact Or.inl h
    rcases lt_or_gt_of_ne ha.b_ne with hneg | hpos
    · obtain ⟨hL, hne⟩ := cw_rule n1 n2 hT ((hin hc).2 hneg).1 ((hin hc).2 hneg).2
      refine ⟨_, ?_, hL⟩
      have hDX : 0 ≤ cross v1.pos v2.pos p → dist2 p (centerOf v1 v2) < dist2 v1.pos (centerOf v1 v2) := by
        intro h
        refine lt_of_le_of_ne hc fun he => ?_
        have := (hside he).2 hneg
        linarith
      simp only [not_lt.2 hneg.le, false_and, if_false, not_false_eq_true, true_and]
      rcases le_or_gt v1.pos.y p.y with y0 | y0
      · rw [if_pos y0]
        rcases le_or_gt v2.pos.y p.y with y1 | y1
        · rw [if_neg (not_lt.2 y1)]
          obtain ⟨-, k2⟩ := fBB y0 y1 hne
          by_cases hXs : 0 ≤ cross v1.pos v2.pos p
          · rw [if_pos hXs, if_pos (hDX hXs)]
            have hxx := hsign _ _ (hobt (hDX hXs) (Or.inr ⟨hneg, hXs⟩) (by nlinarith))
            by_cases hxo : v1.pos.x < p.x ∧ p.x < v2.pos.x
            · rw [if_pos hxo, if_pos]
              refine k2.2 ?_
              rcases lt_or_eq_of_le hXs with h | h
              · exact Or.inl h
              · exact Or.inr ⟨h.symm, hxo⟩
            · rw [if_neg hxo, if_neg]
              intro hlt
              rcases k2.1 hlt with h | ⟨-, h⟩
              · rcases hxx with h' | h'
                · exact hxo ⟨by linarith, by linarith⟩
                · rw [eX] at h; nlinarith
              · exact hxo h
          · rw [if_neg hXs, if_neg]
            push Not at hXs
            intro hlt
            rcases k2.1 hlt with h | ⟨h, -⟩ <;> linarith
        · rw [if_pos y1, if_neg (not_lt.2 (fBA y0 y1).le)]
          by_cases hXs : 0 ≤ cross v1.pos v2.pos p
          · rw [if_pos hXs, if_pos (hDX hXs)]
          · rw [if_neg hXs]
      · rw [if_neg (not_le.2 y0)]
        rcases le_or_gt v2.pos.y p.y with y1 | y1
        · rw [if_pos y1, if_pos (fAB y0 y1)]
          by_cases hXs : 0 ≤ cross v1.pos v2.pos p
          · rw [if_pos hXs, if_pos (hDX hXs)]
          · rw [if_neg hXs]
        · rw [if_neg (not_le.2 y1)]
          obtain ⟨k1, k2⟩ := fAA y0 y1
          by_cases hXs : 0 ≤ cross v1.pos v2.pos p
          · have hX0 : 0 < cross v1.pos v2.pos p := by
              refine lt_of_le_of_ne hXs fun he => ?_
              rcases lt_or_gt_of_ne hne with h | h
              · have := k1.1 h; linarith
              · have := k2.1 h; linarith
            rw [if_pos hXs, if_pos (hDX hXs), if_pos (k2.2 hX0)]
            have hxx := hsign _ _ (hobt (hDX hXs) (Or.inr ⟨hneg, hXs⟩) (by nlinarith))
            rw [if_pos]
            rcases hxx with h' | h'
            · rw [eX] at hX0; nlinarith
            · exact ⟨by linarith, by linarith⟩
          · rw [if_neg hXs, if_neg]
            push Not at hXs
            intro h
            have := k2.1 h
            linarith
    · obtain ⟨hL, hne⟩ := ccw_rule n1 n2 hT ((hin hc).1 hpos).1 ((hin hc).1 hpos).2
      refine ⟨_, ?_, hL⟩
      have hDX : ¬ 0 < cross v1.pos v2.pos p → dist2 p (centerOf v1 v2) < dist2 v1.pos (centerOf v1 v2) := by
        intro h
        refine lt_of_le_of_ne hc fun he => ?_
        exact h ((hside he).1 hpos)
      simp only [hpos, true_and, not_true_eq_false, false_and, if_false, if_true]
      rcases le_or_gt v1.pos.y p.y with y0 | y0
      · rw [if_pos y0]
        rcases le_or_gt v2.pos.y p.y with y1 | y1
        · rw [if_neg (not_lt.2 y1)]
          obtain ⟨k1, -⟩ := fBB y0 y1 hne
          by_cases hXs : 0 < cross v1.pos v2.pos p
          · rw [if_neg (not_not.2 hXs), if_neg]
            intro hlt
            rcases k1.1 hlt with h | ⟨h, -⟩ <;> linarith
          · rw [if_pos hXs, if_pos (hDX hXs)]
            have hXn : cross v1.pos v2.pos p ≤ 0 := not_lt.1 hXs
            have hxx := hsign _ _ (hobt (hDX hXs) (Or.inl ⟨hpos, hXn⟩) (by nlinarith))
            by_cases hxo : v2.pos.x < p.x ∧ p.x < v1.pos.x
            · rw [if_pos hxo, if_pos]
              refine k1.2 ?_
              rcases lt_or_eq_of_le hXn with h | h
              · exact Or.inl h
              · exact Or.inr ⟨h, hxo⟩
            · rw [if_neg hxo, if_neg]
              intro hlt
              rcases k1.1 hlt with h | ⟨-, h⟩
              · rcases hxx with h' | h'
                · rw [eX] at h; nlinarith
                · exact hxo ⟨by linarith, by linarith⟩
              · exact hxo h
        · rw [if_pos y1, if_pos (fBA y0 y1)]
          by_cases hXs : 0 < cross v1.pos v2.pos p
          · rw [if_pos hXs]
          · rw [if_neg hXs, if_pos (hDX hXs)]
      · rw [if_neg (not_le.2 y0)]
        rcases le_or_gt v2.pos.y p.y with y1 | y1
        · rw [if_pos y1, if_neg (not_lt.2 (fAB y0 y1).le)]
          by_cases hXs : 0 < cross v1.pos v2.pos p
          · rw [if_neg (not_not.2 hXs)]
          · rw [if_pos hXs, if_pos (hDX hXs)]
        · rw [if_neg (not_le.2 y1)]
          obtain ⟨k1, k2⟩ := fAA y0 y1
          by_cases hXs : 0 < cross v1.pos v2.pos p
          · rw [if_neg (not_not.2 hXs), if_neg]
            intro h
            have := k1.1 h
            linarith
          · have hXn : cross v1.pos v2.pos p ≤ 0 := not_lt.1 hXs
            have hX0 : cross v1.pos v2.pos p < 0 := by
              refine lt_of_le_of_ne hXn fun he => ?_
              rcases lt_or_gt_of_ne hne with h | h
              · have := k1.1 h; linarith
              · have := k2.1 h; linarith
            rw [if_pos hXs, if_pos (hDX hXs), if_pos (k1.2 hX0)]
            have hxx := hsign _ _ (hobt (hDX hXs) (Or.inl ⟨hpos, hXn⟩) (by nlinarith))
            rw [if_pos]
            rcases hxx with h' | h'
            · exact ⟨by linarith, by linarith⟩
            · rw [eX] at hX0; nlinarith


/-- the turn of a segment about a point, with the number the code adds -/
theorem seg_turn {v1 v2 : Vertex} (hok : SegOk v1 v2) {p : V2} (hp : ¬ OnSeg v1 v2 p)
    {γ : ℝ → V2} (hγ : IsPath v1 v2 γ) :
    ∃ k : ℤ, (∀ w i, windingVisitor p w v1 v2 i = .ok (w + k)) ∧ turning p γ =
      polarAngle (from' p v2.pos) - polarAngle (from' p v1.pos) + 2 * Real.pi * k := by
  by_cases hl : IsLine v1
  · refine ⟨lineWinding v1 v2 p, fun w i => ?_, seg_turn_line hl hp hγ⟩
    unfold windingVisitor
    rw [if_pos (show v1.bulgeIsZero from hl)]
  · obtain ⟨k, h1, h2⟩ := seg_turn_arc (hok.arcOk hl) hok.half hp hγ
    refine ⟨k, fun w i => ?_, h2⟩
    unfold windingVisitor
    rw [if_neg (show ¬ v1.bulgeIsZero from hl), h1]
    rfl

theorem sum_telescope (n : ℕ) (f : ℕ → ℝ) :
    ∑ i ∈ Finset.range n, (f (if i + 1 = n then 0 else i + 1) - f i) = 0 := by
  rw [Finset.sum_sub_distrib, sub_eq_zero]
  cases n with
  | zero => simp
  | succ m =>
    rw [Finset.sum_range_succ, if_pos rfl, Finset.sum_range_succ']
    congr 1
    apply Finset.sum_congr rfl
    intro i hi
    rw [Finset.mem_range] at hi
    rw [if_neg (by omega)]

/-- C25. For every closed polyline of lines and arcs of at most a half circle, and every point not on
it, `getWindingNumber` does not fault, and its result is the topological winding number: the total
turn of the path about the point, segment by segment, divided by a full turn. -/
theorem C25_getWindingNumber (p : Polyline) (hok : PlineOk p) (hc : p.isClosed = true) (pt : V2)
    (hoff : ¬ OnPline p pt) (γ : ℕ → ℝ → V2) (hγ : IsPathOf p γ) :
    ∃ k : ℤ, getWindingNumber p pt = .ok k ∧
      (k : ℝ) = (∑ i ∈ Finset.range (segs p).length, turning pt (γ i)) / (2 * Real.pi) := by
  by_cases h2 : p.size < 2
  · refine ⟨0, ?_, ?_⟩
    · unfold getWindingNumber
      rw [if_pos (Or.inr h2)]
    · rw [segs_length, if_pos h2]; simp
  · have hseg : ∀ x : Vertex × Vertex × ℕ, ∃ k : ℤ, x ∈ visitList p →
        (∀ w, windingVisitor pt w x.1 x.2.1 x.2.2 = .ok (w + k)) ∧
        turning pt (γ x.2.2) = polarAngle (from' pt x.2.1.pos) - polarAngle (from' pt x.1.pos) +
          2 * Real.pi * k := by
      rintro ⟨v1, v2, i⟩
      by_cases hm : (v1, v2, i) ∈ visitList p
      · have hs := mem_visitList.1 hm
        obtain ⟨k, h1, h2⟩ := seg_turn (hok i v1 v2 hs) (fun h => hoff ⟨i, v1, v2, hs, h⟩) (hγ i v1 v2 hs)
        exact ⟨k, fun _ => ⟨fun w => h1 w i, h2⟩⟩
      · exact ⟨0, fun h => absurd h hm⟩
    choose K hK using hseg
    refine ⟨((visitList p).map K).sum, ?_, ?_⟩
    · unfold getWindingNumber
      rw [if_neg (by simp [hc]; omega), visitAll_eq, foldlM_add _ K _ (fun x hx st => (hK x hx).1 st),
        zero_add]
    · have hmem : ∀ i ∈ Finset.range (segs p).length,
          (vtx p i, vtx p (if i + 1 = p.size then 0 else i + 1), i) ∈ visitList p := by
        intro i hi
        rw [Finset.mem_range] at hi
        exact mem_visitList.2 (isSeg_iff.2 ⟨hi, rfl, rfl⟩)
      have e : ∑ i ∈ Finset.range (segs p).length, turning pt (γ i) =
          2 * Real.pi * ∑ i ∈ Finset.range (segs p).length,
            (K (vtx p i, vtx p (if i + 1 = p.size then 0 else i + 1), i) : ℝ) := by
        rw [Finset.sum_congr rfl (fun i hi => (hK _ (hmem i hi)).2), Finset.sum_add_distrib,
          ← Finset.mul_sum]
        have hlen : (segs p).length = p.size := by
          rw [segs_length, if_neg h2, if_pos hc]
        have := sum_telescope p.size (fun i => polarAngle (from' pt (vtx p i).pos))
        rw [hlen]
        simp only [this, zero_add]
      rw [e, sum_visitList]
      have hpi := Real.pi_pos
      push_cast
      field_simp

/-- C26: open polylines and those with fewer than two vertexes. -/
theorem C26_trivial (p : Polyline) (pt : V2) (h : p.isClosed = false ∨ p.vertexes.length < 2) :
    getWindingNumber p pt = .ok 0 := by
  unfold getWindingNumber Polyline.size
  rw [if_pos]
  rcases h with h | h
  · left; simp [h]
  · exact Or.inr h

theorem turning_reverse (pt : V2) (γ : ℝ → V2) :
    turning pt (fun t => γ (1 - t)) = -turning pt γ := by
  unfold turning
  have hv : ∀ t, velocity (fun t => γ (1 - t)) t = ⟨-(velocity γ (1 - t)).x, -(velocity γ (1 - t)).y⟩ := by
    intro t
    ext
    · exact deriv_comp_const_sub (f := fun s => (γ s).x) 1 t
    · exact deriv_comp_const_sub (f := fun s => (γ s).y) 1 t
  have := intervalIntegral.integral_comp_sub_left (a := 0) (b := 1) (fun t =>
    (((γ t).x - pt.x) * (velocity γ t).y - ((γ t).y - pt.y) * (velocity γ t).x) / dist2 (γ t) pt) (1 : ℝ)
  rw [sub_self, sub_zero] at this
  rw [← this, ← intervalIntegral.integral_neg]
  congr 1
  funext t
  rw [hv]
  ring

/-- C26: inverting the direction negates the winding number about every point not on the polyline. -/
theorem C26_invert (p : Polyline) (hok : PlineOk p) (pt : V2) (hoff : ¬ OnPline p pt) :
    ∃ q k, invertDirection p = .ok q ∧ getWindingNumber p pt = .ok k ∧
      getWindingNumber q pt = .ok (-k) := by
  obtain ⟨q, hq, hc, hpos, hlen, hsegs⟩ := C28_invertDirection p
  by_cases hcl : p.isClosed = true
  swap
  · have hcl' : p.isClosed = false := by simpa using hcl
    exact ⟨q, 0, hq, C26_trivial p pt (Or.inl hcl'), by
      rw [neg_zero]; exact C26_trivial q pt (Or.inl (hc.trans hcl'))⟩
  have hokq : PlineOk q := by
    obtain ⟨p', hp', -, -, -, hs'⟩ := C28_invertDirection q
    have hinv := C28_involution p
    rw [hq] at hinv
    simp only [ok_bind] at hinv
    rw [hp'] at hinv
    obtain rfl : p' = p := by simpa using hinv
    intro i w1 w2 hw
    obtain ⟨v1, v2, hv, e1, e2, e3, -⟩ := hs' i w1 w2 hw
    have := hok _ _ _ hv
    have hb : |v1.bulge| = |w1.bulge| := by rw [e3, abs_neg]
    refine ⟨hb ▸ this.half, fun hl => ?_⟩
    have hl' : ¬ IsLine v1 := by unfold IsLine at hl ⊢; rwa [hb]
    have := this.distinct hl'
    rw [e1, e2, abs_sub_comm, abs_sub_comm w2.pos.y] at this
    exact this
  have hoffq : ¬ OnPline q pt := by rw [C28_same_points p q hq]; exact hoff
  let path : Vertex → Vertex → ℝ → V2 := fun v1 v2 t => (atParam_unique v1 v2 t).choose
  have hpath : ∀ v1 v2, IsPath v1 v2 (path v1 v2) := fun v1 v2 t => (atParam_unique v1 v2 t).choose_spec.1
  let γ : Polyline → ℕ → ℝ → V2 := fun p i => path (vtx p i) (vtx p (if i + 1 = p.size then 0 else i + 1))
  have hγ : ∀ p, IsPathOf p (γ p) := by
    intro p i v1 v2 h
    obtain ⟨-, rfl, rfl⟩ := isSeg_iff.1 h
    exact hpath _ _
  obtain ⟨k, hk, hk'⟩ := C25_getWindingNumber p hok hcl pt hoff (γ p) (hγ p)
  obtain ⟨l, hl, hl'⟩ := C25_getWindingNumber q hokq (hc.trans hcl) pt hoffq (γ q) (hγ q)
  have hsum := sum_invert hq (fun w1 w2 => turning pt (path w1 w2)) (fun v1 v2 => -turning pt (path v1 v2)) (by
    intro v1 v2 w1 w2 e1 e2 e3
    rw [← turning_reverse]
    congr 1
    funext t
    have h1 := hpath w1 w2 t
    have h2 := (atParam_reverse e1 e2 e3 t (path w1 w2 t)).1 h1
    exact (atParam_unique v1 v2 (1 - t)).unique h2 (hpath v1 v2 (1 - t)))
  refine ⟨q, k, hq, hk, ?_⟩
  rw [hl]
  congr 1
  have : (l : ℝ) = ((-k : ℤ) : ℝ) := by
    rw [hl', hsum, Finset.sum_neg_distrib]
    push_cast
    rw [hk', neg_div]
  exact_mod_cast this

/-- `v` moved by `o` -/
def moveV (o : V2) (v : Vertex) : Vertex := ⟨⟨o.x + v.pos.x, o.y + v.pos.y⟩, v.bulge⟩

theorem move_sub (o : V2) (v w : Vertex) : (moveV o v).pos - (moveV o w).pos = v.pos - w.pos := by
  ext <;> simp [moveV]

theorem cross_move (o : V2) (v w : Vertex) (p : V2) :
    cross (moveV o v).pos (moveV o w).pos ⟨o.x + p.x, o.y + p.y⟩ = cross v.pos w.pos p := by
  simp only [cross, moveV]; ring

theorem arc_move (o : V2) (v w : Vertex) : arcRadiusAndCenter (moveV o v) (moveV o w) =
    (arcRadiusAndCenter v w).map fun a => ⟨a.radius, ⟨o.x + a.center.x, o.y + a.center.y⟩⟩ := by
  unfold arcRadiusAndCenter
  have hf : fuzzyEqualV (moveV o v).pos (moveV o w).pos ↔ fuzzyEqualV v.pos w.pos := by
    unfold fuzzyEqualV fuzzyEqual moveV; simp
  by_cases h1 : v.bulgeIsZero
  · rw [assertP_neg (show ¬ ¬ v.bulgeIsZero from not_not.2 h1),
      assertP_neg (show ¬ ¬ (moveV o v).bulgeIsZero from not_not.2 h1)]
    rfl
  · rw [assertP_pos (show ¬ v.bulgeIsZero from h1), assertP_pos (show ¬ (moveV o v).bulgeIsZero from h1)]
    simp only [ok_bind]
    by_cases h2 : fuzzyEqualV v.pos w.pos
    · rw [assertP_neg (not_not.2 h2), assertP_neg (not_not.2 (hf.2 h2))]
      rfl
    · rw [assertP_pos h2, assertP_pos (show ¬ fuzzyEqualV (moveV o v).pos (moveV o w).pos from fun h => h2 (hf.1 h))]
      simp only [ok_bind]
      show Except.ok (arcOf _ _) = Except.ok _
      congr 1
      unfold arcOf
      simp only [move_sub]
      simp only [moveV, Vertex.bulgeIsNeg, add_assoc]
      split_ifs <;> rfl

theorem windingVisitor_move (o p : V2) (k : ℤ) (v w : Vertex) (i : ℕ) :
    windingVisitor ⟨o.x + p.x, o.y + p.y⟩ k (moveV o v) (moveV o w) i = windingVisitor p k v w i := by
  have hd : distToArcCenterLessThanRadius (moveV o v) (moveV o w) ⟨o.x + p.x, o.y + p.y⟩ =
      distToArcCenterLessThanRadius v w p := by
    unfold distToArcCenterLessThanRadius
    rw [arc_move]
    cases arcRadiusAndCenter v w with
    | error e => rfl
    | ok a =>
      show Except.ok _ = Except.ok _
      congr 2
      simp only [distSquared, dot, V2.sub_x, V2.sub_y]
      ring_nf
  unfold windingVisitor
  have hl : lineWinding (moveV o v) (moveV o w) ⟨o.x + p.x, o.y + p.y⟩ = lineWinding v w p := by
    unfold lineWinding isLeft
    rw [cross_move]
    simp only [moveV, add_le_add_iff_left, gt_iff_lt, add_lt_add_iff_left]
  have ha : arcWinding (moveV o v) (moveV o w) ⟨o.x + p.x, o.y + p.y⟩ = arcWinding v w p := by
    unfold arcWinding isLeft isLeftOrEqual
    rw [hd, cross_move]
    simp only [moveV, Vertex.bulgeIsPos, add_le_add_iff_left, gt_iff_lt, add_lt_add_iff_left]
  rw [hl, ha]
  have hz : (moveV o v).bulgeIsZero ↔ v.bulgeIsZero := Iff.rfl
  by_cases h : v.bulgeIsZero
  · rw [if_pos h, if_pos (hz.2 h)]
  · rw [if_neg h, if_neg (fun h' => h (hz.1 h'))]

/-- C26: moving polyline and point together changes nothing, for every polyline and point. -/
theorem C26_translate (p : Polyline) (o pt : V2) :
    getWindingNumber (translatePolyline p o) ⟨o.x + pt.x, o.y + pt.y⟩ = getWindingNumber p pt := by
  have hv : visitList (translatePolyline p o) =
      (visitList p).map fun x => (moveV o x.1, moveV o x.2.1, x.2.2) := by
    unfold visitList
    rw [size_translate, List.map_map]
    apply List.map_congr_left
    intro x hx
    obtain ⟨h1, h2⟩ := visitOrder_lt hx
    simp only [Function.comp]
    rw [vtx_translate h1, vtx_translate h2]
    rfl
  unfold getWindingNumber
  rw [visitAll_eq, visitAll_eq, hv, size_translate, List.foldlM_map]
  simp only [windingVisitor_move]
  rfl

/-- The closed polyline of two half circles about (1, 0) and its center meet the hypotheses of C25,
and the winding number there is 1. -/
example : let p : Polyline := ⟨true, [⟨⟨0, 0⟩, 1⟩, ⟨⟨2, 0⟩, 1⟩]⟩
    PlineOk p ∧ ¬ OnPline p ⟨1, 0⟩ ∧ getWindingNumber p ⟨1, 0⟩ = .ok 1 := by
  have hseg : ∀ i v1 v2, IsSeg ⟨true, [⟨⟨0, 0⟩, 1⟩, ⟨⟨2, 0⟩, 1⟩]⟩ i v1 v2 →
      (v1 = ⟨⟨0, 0⟩, 1⟩ ∧ v2 = ⟨⟨2, 0⟩, 1⟩) ∨ (v1 = ⟨⟨2, 0⟩, 1⟩ ∧ v2 = ⟨⟨0, 0⟩, 1⟩) := by
    intro i v1 v2 h
    have hm := List.mem_of_getElem? h
    simpa [segs] using hm
  have hl0 : ∀ a : V2, ¬ IsLine ⟨a, 1⟩ := by intro a; norm_num [IsLine]
  have ha1 : ArcOk ⟨⟨0, 0⟩, 1⟩ ⟨⟨2, 0⟩, 1⟩ := ⟨hl0 _, by norm_num⟩
  have ha2 : ArcOk ⟨⟨2, 0⟩, 1⟩ ⟨⟨0, 0⟩, 1⟩ := ⟨hl0 _, by norm_num⟩
  have c1 : centerOf ⟨⟨0, 0⟩, 1⟩ ⟨⟨2, 0⟩, 1⟩ = ⟨1, 0⟩ := by ext <;> norm_num [centerOf]
  have c2 : centerOf ⟨⟨2, 0⟩, 1⟩ ⟨⟨0, 0⟩, 1⟩ = ⟨1, 0⟩ := by ext <;> norm_num [centerOf]
  refine ⟨?_, ?_, ?_⟩
  · intro i v1 v2 h
    rcases hseg i v1 v2 h with ⟨rfl, rfl⟩ | ⟨rfl, rfl⟩
    · exact ⟨by norm_num, fun _ => ha1.far⟩
    · exact ⟨by norm_num, fun _ => ha2.far⟩
  · rintro ⟨i, v1, v2, h, hx⟩
    rcases hseg i v1 v2 h with ⟨rfl, rfl⟩ | ⟨rfl, rfl⟩
    · obtain ⟨t, -, -, ht⟩ := (onSeg_arc (hl0 _)).1 hx
      have := dist2_rot (centerOf ⟨⟨0, 0⟩, 1⟩ ⟨⟨2, 0⟩, 1⟩) ⟨0, 0⟩ (t * sweep ⟨⟨0, 0⟩, 1⟩)
      rw [← ht, c1] at this
      norm_num [dist2] at this
    · obtain ⟨t, -, -, ht⟩ := (onSeg_arc (hl0 _)).1 hx
      have := dist2_rot (centerOf ⟨⟨2, 0⟩, 1⟩ ⟨⟨0, 0⟩, 1⟩) ⟨2, 0⟩ (t * sweep ⟨⟨2, 0⟩, 1⟩)
      rw [← ht, c2] at this
      norm_num [dist2] at this
  · have d1 := dist_run ha1 ⟨1, 0⟩
    have d2 := dist_run ha2 ⟨1, 0⟩
    rw [c1] at d1
    rw [c2] at d2
    have e1 : arcWinding ⟨⟨0, 0⟩, 1⟩ ⟨⟨2, 0⟩, 1⟩ ⟨1, 0⟩ = .ok 0 := by
      unfold arcWinding isLeft
      norm_num [d1, Vertex.bulgeIsPos, cross]
    have e2 : arcWinding ⟨⟨2, 0⟩, 1⟩ ⟨⟨0, 0⟩, 1⟩ ⟨1, 0⟩ = .ok 1 := by
      unfold arcWinding isLeft
      norm_num [d2, Vertex.bulgeIsPos, cross, dist2]
    unfold getWindingNumber
    rw [if_neg (by simp [Polyline.size]), visitAll_eq]
    have hvl : visitList ⟨true, [⟨⟨0, 0⟩, 1⟩, ⟨⟨2, 0⟩, 1⟩]⟩ =
        [(⟨⟨2, 0⟩, 1⟩, ⟨⟨0, 0⟩, 1⟩, 1), (⟨⟨0, 0⟩, 1⟩, ⟨⟨2, 0⟩, 1⟩, 0)] := by
      simp [visitList, visitOrder, Polyline.size, vtx]
    rw [hvl]
    have hb0 : ∀ a : V2, ¬ (⟨a, 1⟩ : Vertex).bulgeIsZero := hl0
    simp only [List.foldlM_cons, List.foldlM_nil]
    unfold windingVisitor
    simp only [hb0, if_false, e1, e2]
    rfl

end
end Cavc

import Verif.Spec.OffsetJoin
import Verif.Props.OffsetRaw
import Verif.Props.SegIntr
import Verif.Props.OffsetRect

/-! C38: what the joins of raw offset segments are, for lines and arcs, and that the raw offset is made
of them. -/
namespace Cavc
open Spec
open scoped Classical

theorem arctan_tan_quarter {θ : ℝ} (h : |θ| ≤ Real.pi) : 4 * Real.arctan (Real.tan (θ / 4)) = θ := by
  have := Real.pi_pos
  rw [abs_le] at h
  rw [Real.arctan_tan (by linarith) (by linarith)]; ring

theorem arcConnects_of (s1 : OffsetSegment) (w' : Vertex) (ccw : Prop) :
    ArcConnects s1 w' ccw
      [⟨s1.v2.pos, bulgeForConnection s1.origV2Pos s1.v2.pos w'.pos ccw⟩, w'] := by
  obtain ⟨h1, h2, h3⟩ := C38_bulgeForConnection s1.origV2Pos s1.v2.pos w'.pos ccw
  refine ⟨_, rfl, rfl, h1, h2, h3, ?_⟩
  intro θ hθ hne he
  obtain ⟨k, hk⟩ := angle_rot hne θ
  have hd : |deltaAngle (angle s1.origV2Pos s1.v2.pos) (angle s1.origV2Pos w'.pos)| = |θ| := by
    rw [he]; exact abs_deltaAngle hθ ⟨k, hk⟩
  have ht : 4 * Real.arctan (Real.tan (|θ| / 4)) = |θ| :=
    arctan_tan_quarter (by rwa [abs_abs])
  unfold sweep bulgeForConnection
  simp only [hd]
  by_cases hc : ccw
  · rw [if_pos hc, ht, abs_abs]
  · rw [if_neg hc, Real.arctan_neg, mul_neg, abs_neg, ht, abs_abs]

theorem connectUsingArc_appends (s1 : OffsetSegment) (w' : Vertex) (ccw : Prop) (r : Polyline) :
    ∃ added, Appends r added (connectUsingArc s1 w' ccw r) ∧ ArcConnects s1 w' ccw added :=
  ⟨[⟨s1.v2.pos, bulgeForConnection s1.origV2Pos s1.v2.pos w'.pos ccw⟩, w'], rfl,
    arcConnects_of s1 w' ccw⟩

/-- Angles about the center of an arc of the point at parameter `s` and of the end. -/
theorem deltaAngle_rest {u1 u2 : Vertex} (ha : ArcOk u1 u2) (hb : |u1.bulge| ≤ 1) {s : ℝ}
    (h0 : 0 ≤ s) (h1 : s < 1) {x : V2} (hx : AtParam u1 u2 s x) :
    deltaAngle (angle (centerOf u1 u2) x) (angle (centerOf u1 u2) u2.pos) = (1 - s) * sweep u1 ∨
    (s = 0 ∧ sweep u1 = -Real.pi ∧
      deltaAngle (angle (centerOf u1 u2) x) (angle (centerOf u1 u2) u2.pos) = Real.pi) := by
  have hsw := abs_sweep_le hb
  have hpi := Real.pi_pos
  rw [abs_le] at hsw
  rw [atParam_arc ha.arc] at hx
  by_cases hs : s = 0 ∧ sweep u1 = -Real.pi
  · right
    refine ⟨hs.1, hs.2, ?_⟩
    obtain ⟨k, hk⟩ := angle_rot ha.start_ne (sweep u1)
    rw [ha.end_eq] at hk
    rw [hs.1, zero_mul, rot_zero] at hx
    apply deltaAngle_neg_pi
    exact ⟨k, by rw [hx, hk, hs.2]⟩
  · left
    have := deltaAngle_rot ha.start_ne (α := s * sweep u1) (β := sweep u1) (by
      rcases lt_or_eq_of_le hsw.1 with h | h
      · nlinarith
      · have : 0 < s := lt_of_le_of_ne h0 (fun e => hs ⟨e.symm, h.symm⟩)
        nlinarith) (by nlinarith)
    rw [← hx, ha.end_eq] at this
    rw [this]; ring

theorem startsAt_tan {u1 u2 : Vertex} (ha : ArcOk u1 u2) (hb : |u1.bulge| ≤ 1) {x : V2} {w : Vertex}
    (hp : w.pos = x)
    (hw : w.bulge = Real.tan (deltaAngle (angle (centerOf u1 u2) x) (angle (centerOf u1 u2) u2.pos) / 4) ∧
        (deltaAngle (angle (centerOf u1 u2) x) (angle (centerOf u1 u2) u2.pos) ≤ 0 ∨ 0 < u1.bulge) ∨
      w.bulge = u1.bulge ∧
        (deltaAngle (angle (centerOf u1 u2) x) (angle (centerOf u1 u2) u2.pos) ≤ 0 ∧ 0 < u1.bulge ∨
         0 < deltaAngle (angle (centerOf u1 u2) x) (angle (centerOf u1 u2) u2.pos) ∧ u1.bulge < 0)) :
    StartsAt u1 u2 x w := by
  have hpi := Real.pi_pos
  refine ⟨hp, ?_, ?_⟩
  · rcases hw with ⟨hw, -⟩ | ⟨hw, -⟩
    · rw [hw]; exact tan_delta_le _ _
    · rw [hw]; exact hb
  · intro s s0 s1 hx
    have hsw := abs_sweep_le hb
    rcases deltaAngle_rest ha hb s0 s1 hx with h | ⟨e0, e1, h⟩
    · rw [h] at hw
      rcases hw with ⟨hw, -⟩ | ⟨-, ⟨hw, hpos⟩ | ⟨hw, hneg⟩⟩
      · unfold sweep at hsw ⊢
        rw [hw]
        unfold sweep
        apply arctan_tan_quarter
        rw [abs_mul, abs_of_pos (by linarith : 0 < 1 - s)]
        nlinarith [abs_nonneg (4 * Real.arctan u1.bulge)]
      · exfalso
        have := mul_pos (by linarith : 0 < 1 - s) (sweep_pos hpos)
        linarith
      · exfalso
        have := mul_neg_of_pos_of_neg (by linarith : 0 < 1 - s) (sweep_neg hneg)
        linarith
    · rw [h] at hw
      have hneg : u1.bulge < 0 := by
        by_contra hc
        push Not at hc
        have : 0 ≤ sweep u1 := by
          unfold sweep
          have := Real.arctan_nonneg.2 hc
          linarith
        linarith
      rcases hw with ⟨-, hw⟩ | ⟨hw, -⟩
      · exfalso; rcases hw with hw | hw <;> linarith
      · rw [e0]; unfold sweep; rw [hw]; ring

theorem trimmedArcStart_startsAt {u1 u2 : Vertex} (ha : ArcOk u1 u2) (hb : |u1.bulge| ≤ 1) (x : V2) :
    StartsAt u1 u2 x (trimmedArcStart (arcOf u1 u2) u1 u2 x) := by
  unfold trimmedArcStart
  simp only [ha.center]
  set θ := deltaAngle (angle (centerOf u1 u2) x) (angle (centerOf u1 u2) u2.pos) with hθ
  have hb0 := ha.b_ne
  by_cases h : θ > 0 ↔ u1.bulgeIsPos
  · rw [if_pos h]
    refine startsAt_tan ha hb rfl (Or.inl ⟨rfl, ?_⟩)
    by_cases hp : u1.bulgeIsPos
    · exact Or.inr hp
    · exact Or.inl (not_lt.1 (fun h' => hp (h.1 h')))
  · rw [if_neg h]
    refine startsAt_tan ha hb rfl (Or.inr ⟨rfl, ?_⟩)
    by_cases hp : 0 < u1.bulge
    · left
      refine ⟨?_, hp⟩
      by_contra hc
      exact h ⟨fun _ => hp, fun _ => not_le.1 hc⟩
    · right
      have hn : u1.bulge < 0 := lt_of_le_of_ne (not_lt.1 hp) hb0
      refine ⟨?_, hn⟩
      by_contra hc
      exact h ⟨fun h' => absurd h' hc, fun h' => absurd h' hp⟩

theorem trimPrevArc_endsAt {arc : Arc} {v2 : Vertex} {x : V2} {r r' : Polyline} (hb : BulgesOk r)
    (h : trimPrevArc arc v2 x r = .ok r') : EndsAt arc.center v2 x r r' := by
  unfold trimPrevArc at h
  obtain ⟨u, hu, h⟩ := bind_eq_ok.1 h
  have hlast : r.vertexes.getLast? = some u := by
    unfold Polyline.lastVertex at hu
    cases hl : r.vertexes.getLast? with
    | none => rw [hl] at hu; cases hu
    | some v => rw [hl] at hu; cases hu; rfl
  have he := eq_dropLast_of_getLast? hlast
  have hne : r.vertexes ≠ [] := by rintro h0; rw [h0] at hlast; cases hlast
  have hub : |u.bulge| ≤ 1 := hb _ (List.mem_of_getLast? hlast)
  have same : r = ⟨r.isClosed, r.vertexes.dropLast ++ [u]⟩ := by rw [← he]
  by_cases hc : ¬ u.bulgeIsZero ∧ ¬ fuzzyEqualV u.pos v2.pos
  · rw [if_pos hc] at h
    simp only at h
    have ha : ArcOk u v2 := ⟨hc.1, by
      have := hc.2
      unfold fuzzyEqualV fuzzyEqual realThreshold at this
      rw [not_and_or, not_lt, not_lt] at this
      exact this⟩
    rw [ha.run, ok_bind] at h
    have hnl : ¬ (IsLine u ∨ Near (1 / 10 ^ 8) u.pos v2.pos) := by
      rintro (h' | h')
      · exact hc.1 h'
      · exact hc.2 h'
    -- the part of the sweep
    have key : ∀ s, 0 < s → s ≤ 1 → arc.center = centerOf u v2 → AtParam u v2 s x →
        deltaAngle (angle (arcOf u v2).center u.pos) (angle arc.center x) = s * sweep u ∨
        (s = 1 ∧ sweep u = -Real.pi ∧
          deltaAngle (angle (arcOf u v2).center u.pos) (angle arc.center x) = Real.pi) := by
      intro s s0 s1 hce hx
      have hsw := abs_sweep_le hub
      have hpi := Real.pi_pos
      rw [abs_le] at hsw
      rw [atParam_arc ha.arc] at hx
      rw [hce, ha.center]
      by_cases hs : s = 1 ∧ sweep u = -Real.pi
      · right
        refine ⟨hs.1, hs.2, ?_⟩
        obtain ⟨k, hk⟩ := angle_rot ha.start_ne (s * sweep u)
        rw [← hx] at hk
        apply deltaAngle_neg_pi
        exact ⟨k, by rw [hk, hs.1, hs.2]; ring⟩
      · left
        have := deltaAngle_rot ha.start_ne (α := 0) (β := s * sweep u) (by
          rcases lt_or_eq_of_le hsw.1 with h | h
          · nlinarith
          · have : s < 1 := lt_of_le_of_ne s1 (fun e => hs ⟨e, h.symm⟩)
            nlinarith) (by nlinarith)
        rwa [rot_zero, ← hx, sub_zero] at this
    generalize hθ : deltaAngle (angle (arcOf u v2).center u.pos) (angle arc.center x) = θ at h key
    have hub0 := ha.b_ne
    by_cases hd : θ > 0 ↔ u.bulgeIsPos
    · rw [if_pos hd] at h
      unfold Polyline.setLast at h
      rw [if_neg hne] at h
      cases h
      refine ⟨_, u, _, he, rfl, rfl, fun h => absurd h hnl, ?_⟩
      intro _ _ hcen s s0 s1 hx
      have hce := isCenter_unique hub0 hcen
      have hsw := abs_sweep_le hub
      rcases key s s0 s1 hce hx with hk | ⟨k1, k2, hk⟩
      · unfold sweep
        simp only [hk]
        apply arctan_tan_quarter
        rw [abs_mul, abs_of_pos s0]
        nlinarith [abs_nonneg (sweep u)]
      · exfalso
        have : 0 < u.bulge := hd.1 (by rw [hk]; exact Real.pi_pos)
        have := sweep_pos this
        have := Real.pi_pos
        linarith
    · rw [if_neg hd] at h
      cases h
      refine ⟨_, u, u, he, same, rfl, fun _ => rfl, ?_⟩
      intro _ _ hcen s s0 s1 hx
      have hce := isCenter_unique hub0 hcen
      rcases key s s0 s1 hce hx with hk | ⟨k1, k2, hk⟩
      · exfalso
        apply hd
        rw [hk]
        constructor
        · intro h
          by_contra hc
          have hn : u.bulge < 0 := lt_of_le_of_ne (not_lt.1 hc) hub0
          have := mul_neg_of_pos_of_neg s0 (sweep_neg hn)
          linarith
        · intro h
          exact mul_pos s0 (sweep_pos h)
      · rw [k1]; ring
  · rw [if_neg hc] at h
    cases h
    refine ⟨_, u, u, he, same, rfl, fun _ => rfl, ?_⟩
    intro h1 h2
    exact absurd ⟨h1, h2⟩ hc

theorem within_iff {v1 v2 : Vertex} (ha : ArcOk v1 v2) (hb : |v1.bulge| ≤ 1) (p : V2) :
    pointWithinArcSweepAngle (arcOf v1 v2).center v1.pos v2.pos v1.bulge p =
      .ok (decide (InSweep (1 / 10 ^ 8) v1 v2 (centerOf v1 v2) p)) := by
  rw [ha.center, within_eq ha.arc hb]
  congr 1
  exact decide_eq_decide.2 (nearSector_iff ha.b_ne p)

theorem arcOk_of_run {v1 v2 : Vertex} {a : Arc} (h : arcRadiusAndCenter v1 v2 = .ok a) :
    ArcOk v1 v2 ∧ a = arcOf v1 v2 := by
  unfold arcRadiusAndCenter at h
  by_cases h1 : v1.bulgeIsZero
  · rw [assertP_neg (by simpa using h1)] at h; cases h
  · rw [assertP_pos h1, ok_bind] at h
    by_cases h2 : fuzzyEqualV v1.pos v2.pos
    · rw [assertP_neg (by simpa using h2)] at h; cases h
    · rw [assertP_pos h2, ok_bind] at h
      cases h
      refine ⟨⟨h1, ?_⟩, rfl⟩
      unfold fuzzyEqualV fuzzyEqual realThreshold at h2
      rw [not_and_or, not_lt, not_lt] at h2
      exact h2

/-- What the intersection of a line and a circle, with the choice of the point nearer to `o`, gives. -/
theorem line_circle_choice (p q : V2) (r : ℝ) (c o : V2) :
    ∃ res, intrLineSeg2Circle2 p q r c = .ok res ∧
      match res with
      | .none => LineMisses p q r c
      | .one t => LineMeets p q r c o t (pointFromParametric p q t)
      | .two t0 t1 =>
        (distSquared (pointFromParametric p q t0) o < distSquared (pointFromParametric p q t1) o →
          LineMeets p q r c o t0 (pointFromParametric p q t0)) ∧
        (¬ distSquared (pointFromParametric p q t0) o < distSquared (pointFromParametric p q t1) o →
          LineMeets p q r c o t1 (pointFromParametric p q t1)) := by
  have hl : ∀ t, pointFromParametric p q t = lerp p q t := by
    intro t; ext <;> simp [pointFromParametric, lerp]
  have hd : ∀ a b, distSquared a b = dist2 a b := by
    intro a b; simp only [distSquared, dist2, dot, V2.sub_x, V2.sub_y]; ring
  obtain ⟨res, h0, h1, h2⟩ := C19_line_circle p q r c
  refine ⟨res, h0, ?_⟩
  by_cases hs : dist2 p q < 1 / 10 ^ 8
  · have := h1 hs
    by_cases hc : |dist2 p c - r ^ 2| < 1 / 10 ^ 8
    · rw [if_pos hc] at this
      subst this
      simp only [hl]
      exact ⟨rfl, Or.inl ⟨hs, hc, rfl⟩⟩
    · rw [if_neg hc] at this
      subst this
      exact Or.inl ⟨hs, not_lt.1 hc⟩
  · have hs' := not_lt.1 hs
    have := h2 hs'
    cases res with
    | none => exact Or.inr ⟨hs', this⟩
    | one t => simp only [hl]; exact ⟨rfl, Or.inr (Or.inl ⟨hs', this⟩)⟩
    | two t0 t1 =>
      obtain ⟨hne, hiff⟩ := this
      simp only [hl, hd]
      constructor
      · intro h
        refine ⟨rfl, Or.inr (Or.inr ⟨hs', (hiff t0).2 (Or.inl rfl), ?_⟩)⟩
        intro s hs
        rcases (hiff s).1 hs with rfl | rfl
        · exact le_refl _
        · exact h.le
      · intro h
        refine ⟨rfl, Or.inr (Or.inr ⟨hs', (hiff t1).2 (Or.inr rfl), ?_⟩)⟩
        intro s hs
        rcases (hiff s).1 hs with rfl | rfl
        · exact not_lt.1 h
        · exact le_refl _

/-- C38, line to arc. -/
theorem C38_line_to_arc {s1 s2 : OffsetSegment} {ccw : Prop} {r r' : Polyline}
    (b2 : |s2.v1.bulge| ≤ 1) (h : lineToArcJoin s1 s2 ccw r = .ok r') :
    ∃ added c, Appends r added r' ∧ IsCenter s2.v1 s2.v2 c ∧ JoinsLineArc ccw s1 s2 c added := by
  unfold lineToArcJoin at h
  simp only at h
  obtain ⟨-, -, h⟩ := bind_eq_ok.1 h
  obtain ⟨arc, harc, h⟩ := bind_eq_ok.1 h
  obtain ⟨ha, rfl⟩ := arcOk_of_run harc
  obtain ⟨res, hres, hcase⟩ := line_circle_choice s1.v1.pos s1.v2.pos (arcOf s2.v1 s2.v2).radius
    (arcOf s2.v1 s2.v2).center s1.origV2Pos
  rw [hres, ok_bind] at h
  rw [ha.radius_eq, ha.center] at hcase
  have hproc : ∀ t x, LineMeets s1.v1.pos s1.v2.pos (distance s2.v1.pos (centerOf s2.v1 s2.v2))
      (centerOf s2.v1 s2.v2) s1.origV2Pos t x →
      lineToArcProcess s1 s2 ccw (arcOf s2.v1 s2.v2) r t x = .ok r' →
      ∃ added c, Appends r added r' ∧ IsCenter s2.v1 s2.v2 c ∧ JoinsLineArc ccw s1 s2 c added := by
    intro t x hm h
    unfold lineToArcProcess at h
    simp only at h
    rw [within_iff ha b2, ok_bind] at h
    have hf : ¬ falseIntersect t ↔ 0 ≤ t ∧ t ≤ 1 := by
      unfold falseIntersect; rw [not_or, not_lt, not_lt]
    by_cases h1 : ¬ falseIntersect t ∧
        decide (InSweep (1 / 10 ^ 8) s2.v1 s2.v2 (centerOf s2.v1 s2.v2) x) = true
    · rw [if_pos h1] at h
      cases h
      have h1' := of_decide_eq_true h1.2
      have := hf.1 h1.1
      exact ⟨[_], _, rfl, isCenter_centerOf ha.b_ne, Or.inr ⟨t, x, hm, Or.inl ⟨this.1, this.2, h1', _,
        rfl, trimmedArcStart_startsAt ha b2 x⟩⟩⟩
    · rw [if_neg h1] at h
      have h1' : ¬ (0 ≤ t ∧ t ≤ 1 ∧ InSweep (1 / 10 ^ 8) s2.v1 s2.v2 (centerOf s2.v1 s2.v2) x) := by
        rintro ⟨a, b, d⟩
        exact h1 ⟨hf.2 ⟨a, b⟩, decide_eq_true d⟩
      by_cases h2 : t > 1 ∧ ¬ decide (InSweep (1 / 10 ^ 8) s2.v1 s2.v2 (centerOf s2.v1 s2.v2) x) = true
      · rw [if_pos h2] at h
        cases h
        obtain ⟨added, g1, g2⟩ := connectUsingArc_appends s1 s2.v1 ccw r
        exact ⟨added, _, g1, isCenter_centerOf ha.b_ne, Or.inr ⟨t, x, hm, Or.inr (Or.inl ⟨h1',
          Or.inl ⟨h2.1, fun hh => h2.2 (decide_eq_true hh)⟩, g2⟩)⟩⟩
      · rw [if_neg h2] at h
        by_cases h3 : s1.collapsedArc
        · rw [if_pos h3] at h
          cases h
          obtain ⟨added, g1, g2⟩ := connectUsingArc_appends s1 s2.v1 ccw r
          exact ⟨added, _, g1, isCenter_centerOf ha.b_ne, Or.inr ⟨t, x, hm, Or.inr (Or.inl ⟨h1',
            Or.inr h3, g2⟩)⟩⟩
        · rw [if_neg h3] at h
          cases h
          refine ⟨[_, _], _, rfl, isCenter_centerOf ha.b_ne, Or.inr ⟨t, x, hm, Or.inr (Or.inr ⟨h1',
            ?_, rfl⟩)⟩⟩
          rintro (⟨a, b⟩ | a)
          · exact h2 ⟨a, fun hh => b (of_decide_eq_true hh)⟩
          · exact h3 a
  cases res with
  | none =>
    cases h
    obtain ⟨added, g1, g2⟩ := connectUsingArc_appends s1 s2.v1 ccw r
    exact ⟨added, _, g1, isCenter_centerOf ha.b_ne, Or.inl ⟨hcase, g2⟩⟩
  | one t => exact hproc t _ hcase h
  | two t0 t1 =>
    simp only at h hcase
    by_cases hd : distSquared (pointFromParametric s1.v1.pos s1.v2.pos t0) s1.origV2Pos <
        distSquared (pointFromParametric s1.v1.pos s1.v2.pos t1) s1.origV2Pos
    · rw [if_pos hd] at h; exact hproc t0 _ (hcase.1 hd) h
    · rw [if_neg hd] at h; exact hproc t1 _ (hcase.2 hd) h

/-- The line from (0,0) to (2,0) meets the half circle from (1,-1) over (2,0) to (1,1) at both of its
ends; the join picks (2,0), the one nearer to the original corner (3,0), and the arc that is left is
the quarter circle from there. -/
example : ∃ r' w, lineToArcJoin ⟨⟨⟨0, 0⟩, 0⟩, ⟨⟨2, 0⟩, 1⟩, ⟨3, 0⟩, false⟩
      ⟨⟨⟨1, -1⟩, 1⟩, ⟨⟨1, 1⟩, 0⟩, ⟨0, 0⟩, false⟩ True ⟨false, [⟨⟨0, 0⟩, 0⟩]⟩ = .ok r' ∧
    Appends ⟨false, [⟨⟨0, 0⟩, 0⟩]⟩ [w] r' ∧ w.pos = ⟨2, 0⟩ ∧ sweep w = Real.pi / 2 := by
  have hz : (⟨⟨0, 0⟩, 0⟩ : Vertex).bulgeIsZero := by simp [Vertex.bulgeIsZero, realPrecision]
  have hl : ¬ IsLine ⟨⟨1, -1⟩, 1⟩ := by unfold IsLine; norm_num
  have hsw : sweep ⟨⟨1, -1⟩, 1⟩ = Real.pi := by unfold sweep; rw [Real.arctan_one]; ring
  have hcen : IsCenter ⟨⟨1, -1⟩, 1⟩ ⟨⟨1, 1⟩, 0⟩ ⟨1, 0⟩ := by
    unfold IsCenter; rw [hsw]; ext <;> norm_num [rot]
  obtain ⟨r', hr, -⟩ | ⟨h, -⟩ := lineToArc_joined (good := True)
    (s1 := ⟨⟨⟨0, 0⟩, 0⟩, ⟨⟨2, 0⟩, 1⟩, ⟨3, 0⟩, false⟩)
    (s2 := ⟨⟨⟨1, -1⟩, 1⟩, ⟨⟨1, 1⟩, 0⟩, ⟨0, 0⟩, false⟩) (ccw := True) (r := ⟨false, [⟨⟨0, 0⟩, 0⟩]⟩)
    hz hl (by norm_num) (fun _ _ => by rintro ⟨-, h⟩; norm_num at h) (by simp [BulgesOk])
    (by simp [Spread])
  swap
  · exact absurd trivial h
  obtain ⟨added, c, ha, hc, hj⟩ := C38_line_to_arc (by norm_num) hr
  have hce : c = ⟨1, 0⟩ := (isCenter_unique (bulge_ne_zero hl) hc).trans
    (isCenter_unique (bulge_ne_zero hl) hcen).symm
  subst hce
  have hd : distance (⟨1, -1⟩ : V2) ⟨1, 0⟩ = 1 := by unfold distance dist2; norm_num
  have hon : ∀ t, OnCircle 1 ⟨1, 0⟩ (lerp ⟨0, 0⟩ ⟨2, 0⟩ t) ↔ t = 0 ∨ t = 1 := by
    intro t
    unfold OnCircle dist2 lerp
    simp only
    constructor
    · intro h
      have : t * (t - 1) = 0 := by nlinarith
      rcases mul_eq_zero.1 this with h | h
      · exact Or.inl h
      · exact Or.inr (by linarith)
    · rintro (rfl | rfl) <;> norm_num
  have hlen : dist2 (⟨0, 0⟩ : V2) ⟨2, 0⟩ = 4 := by unfold dist2; norm_num
  unfold JoinsLineArc at hj
  simp only [hd] at hj
  rcases hj with ⟨⟨h, -⟩ | ⟨-, h⟩, -⟩ | ⟨t, x, ⟨hx, hm⟩, hj⟩
  · rw [hlen] at h; norm_num at h
  · exact absurd ((hon 1).2 (Or.inr rfl)) (h 1)
  have ht : t = 1 := by
    rcases hm with ⟨h, -⟩ | ⟨-, h1, h2⟩ | ⟨-, h1, h2⟩
    · rw [hlen] at h; norm_num at h
    · exfalso
      have h0 := h1 (1 / 2)
      have e : dist2 (lerp (⟨0, 0⟩ : V2) ⟨2, 0⟩ (1 / 2)) ⟨1, 0⟩ = 0 := by
        unfold dist2 lerp; norm_num
      rw [e] at h0
      have := le_antisymm h0 (dist2_nonneg _ _)
      rw [this, hlen] at h2
      norm_num at h2
    · rw [hx] at h1
      rcases (hon t).1 h1 with h | h
      · exfalso
        have := h2 1 ((hon 1).2 (Or.inr rfl))
        rw [hx, h] at this
        unfold dist2 lerp at this
        norm_num at this
      · exact h
  subst ht
  have hx' : x = ⟨2, 0⟩ := by rw [hx]; ext <;> norm_num [lerp]
  subst hx'
  have hin : InSweep (1 / 10 ^ 8) ⟨⟨1, -1⟩, 1⟩ ⟨⟨1, 1⟩, 0⟩ ⟨1, 0⟩ ⟨2, 0⟩ := by
    left; unfold side; norm_num
  rcases hj with ⟨-, -, -, w, rfl, hw, -, hs⟩ | ⟨h, -⟩ | ⟨h, -⟩
  · refine ⟨r', w, hr, ha, hw, ?_⟩
    rw [hs (1 / 2) (by norm_num) (by norm_num) (Or.inr ⟨hl, _, hcen, ?_⟩), hsw]
    · ring
    · rw [hsw, show 1 / 2 * Real.pi = Real.pi / 2 by ring]
      ext <;> norm_num [rot]
  · exact absurd ⟨by norm_num, by norm_num, hin⟩ h
  · exact absurd ⟨by norm_num, by norm_num, hin⟩ h

/-- C38, arc to line. -/
theorem C38_arc_to_line {s1 s2 : OffsetSegment} {ccw : Prop} {r r' : Polyline}
    (b1 : |s1.v1.bulge| ≤ 1) (hb : BulgesOk r) (h : arcToLineJoin s1 s2 ccw r = .ok r') :
    ∃ c, IsCenter s1.v1 s1.v2 c ∧ JoinsArcLine ccw s1 s2 c r r' := by
  unfold arcToLineJoin at h
  simp only at h
  obtain ⟨-, -, h⟩ := bind_eq_ok.1 h
  obtain ⟨arc, harc, h⟩ := bind_eq_ok.1 h
  obtain ⟨ha, rfl⟩ := arcOk_of_run harc
  refine ⟨_, isCenter_centerOf ha.b_ne, ?_⟩
  generalize ho : (if s2.collapsedArc = true then s2.v1.pos else s1.origV2Pos) = o at h
  obtain ⟨res, hres, hcase⟩ := line_circle_choice s2.v1.pos s2.v2.pos (arcOf s1.v1 s1.v2).radius
    (arcOf s1.v1 s1.v2).center o
  rw [hres, ok_bind] at h
  rw [ha.radius_eq, ha.center] at hcase
  have hproc : ∀ t x, LineMeets s2.v1.pos s2.v2.pos (distance s1.v1.pos (centerOf s1.v1 s1.v2))
      (centerOf s1.v1 s1.v2) o t x →
      arcToLineProcess s1 s2 ccw (arcOf s1.v1 s1.v2) r t x = .ok r' →
      JoinsArcLine ccw s1 s2 (centerOf s1.v1 s1.v2) r r' := by
    intro t x hm h
    refine Or.inr ⟨t, x, o, ho.symm, hm, ?_⟩
    unfold arcToLineProcess at h
    simp only at h
    rw [within_iff ha b1, ok_bind] at h
    have hf : ¬ falseIntersect t ↔ 0 ≤ t ∧ t ≤ 1 := by
      unfold falseIntersect; rw [not_or, not_lt, not_lt]
    by_cases h1 : ¬ falseIntersect t ∧
        decide (InSweep (1 / 10 ^ 8) s1.v1 s1.v2 (centerOf s1.v1 s1.v2) x) = true
    · rw [if_pos h1] at h
      obtain ⟨q, hq, h⟩ := bind_eq_ok.1 h
      cases h
      have := hf.1 h1.1
      have he := trimPrevArc_endsAt hb hq
      rw [ha.center] at he
      exact Or.inl ⟨this.1, this.2, of_decide_eq_true h1.2, q, he, rfl⟩
    · rw [if_neg h1] at h
      cases h
      refine Or.inr ⟨?_, connectUsingArc_appends s1 s2.v1 ccw r⟩
      rintro ⟨a, b, d⟩
      exact h1 ⟨hf.2 ⟨a, b⟩, decide_eq_true d⟩
  cases res with
  | none =>
    cases h
    exact Or.inl ⟨hcase, connectUsingArc_appends s1 s2.v1 ccw r⟩
  | one t => exact hproc t _ hcase h
  | two t0 t1 =>
    simp only at h hcase
    by_cases hd : distSquared (pointFromParametric s2.v1.pos s2.v2.pos t0) o <
        distSquared (pointFromParametric s2.v1.pos s2.v2.pos t1) o
    · rw [if_pos hd] at h; exact hproc t0 _ (hcase.1 hd) h
    · rw [if_neg hd] at h; exact hproc t1 _ (hcase.2 hd) h

/-- Circles that are the same up to the tolerance are reported so. -/
theorem sameCircles_coincident {r1 r2 : ℝ} {c1 c2 : V2} (h : SameCircles r1 c1 r2 c2) :
    intrCircle2Circle2 r1 c1 r2 c2 = .coincident := by
  obtain ⟨h1, h2⟩ := h
  unfold intrCircle2Circle2
  simp only
  rw [if_pos, if_pos]
  · exact h2
  · have : dot (c2 - c1) (c2 - c1) = dist2 c1 c2 := by simp only [dot, dist2, V2.sub_x, V2.sub_y]; ring
    rw [this]
    exact h1

/-- C38, arc to arc. -/
theorem C38_arc_to_arc {s1 s2 : OffsetSegment} {ccw : Prop} {r r' : Polyline}
    (b1 : |s1.v1.bulge| ≤ 1) (b2 : |s2.v1.bulge| ≤ 1) (hb : BulgesOk r)
    (h : arcToArcJoin s1 s2 ccw r = .ok r') :
    ∃ c1 c2, IsCenter s1.v1 s1.v2 c1 ∧ IsCenter s2.v1 s2.v2 c2 ∧ JoinsArcArc ccw s1 s2 c1 c2 r r' := by
  unfold arcToArcJoin at h
  obtain ⟨-, -, h⟩ := bind_eq_ok.1 h
  obtain ⟨arc, harc, h⟩ := bind_eq_ok.1 h
  obtain ⟨ha1, rfl⟩ := arcOk_of_run harc
  obtain ⟨arc, harc, h⟩ := bind_eq_ok.1 h
  obtain ⟨ha2, rfl⟩ := arcOk_of_run harc
  refine ⟨_, _, isCenter_centerOf ha1.b_ne, isCenter_centerOf ha2.b_ne, ?_⟩
  have hC := C20_circle_circle ha1.radius_pos.le ha2.radius_pos.le (arcOf s1.v1 s1.v2).center
    (arcOf s2.v1 s2.v2).center
  have hproc : ∀ x, intrCircle2Circle2 (arcOf s1.v1 s1.v2).radius (arcOf s1.v1 s1.v2).center
        (arcOf s2.v1 s2.v2).radius (arcOf s2.v1 s2.v2).center ≠ .coincident →
      CirclesMeet (distance s1.v1.pos (centerOf s1.v1 s1.v2)) (centerOf s1.v1 s1.v2)
      (distance s2.v1.pos (centerOf s2.v1 s2.v2)) (centerOf s2.v1 s2.v2) s1.origV2Pos x →
      arcToArcProcess s1 s2 ccw (arcOf s1.v1 s1.v2) (arcOf s2.v1 s2.v2) r x = .ok r' →
      JoinsArcArc ccw s1 s2 (centerOf s1.v1 s1.v2) (centerOf s2.v1 s2.v2) r r' := by
    intro x hnc hm h
    rw [ha1.radius_eq, ha2.radius_eq, ha1.center, ha2.center] at hnc
    refine Or.inr (Or.inr ⟨x, fun hs => hnc (sameCircles_coincident hs), hm, ?_⟩)
    unfold arcToArcProcess at h
    simp only at h
    rw [within_iff ha1 b1, ok_bind, within_iff ha2 b2, ok_bind] at h
    by_cases h1 : decide (InSweep (1 / 10 ^ 8) s1.v1 s1.v2 (centerOf s1.v1 s1.v2) x) = true ∧
        decide (InSweep (1 / 10 ^ 8) s2.v1 s2.v2 (centerOf s2.v1 s2.v2) x) = true
    · rw [if_pos h1] at h
      obtain ⟨q, hq, h⟩ := bind_eq_ok.1 h
      cases h
      have he := trimPrevArc_endsAt hb hq
      rw [ha1.center] at he
      exact Or.inl ⟨of_decide_eq_true h1.1, of_decide_eq_true h1.2, q, _, he,
        trimmedArcStart_startsAt ha2 b2 x, rfl⟩
    · rw [if_neg h1] at h
      cases h
      exact Or.inr ⟨fun hh => h1 ⟨decide_eq_true hh.1, decide_eq_true hh.2⟩,
        connectUsingArc_appends s1 s2.v1 ccw r⟩
  have hd : ∀ a b, distSquared a b = dist2 a b := by
    intro a b; simp only [distSquared, dist2, dot, V2.sub_x, V2.sub_y]; ring
  generalize hres : intrCircle2Circle2 (arcOf s1.v1 s1.v2).radius (arcOf s1.v1 s1.v2).center
    (arcOf s2.v1 s2.v2).radius (arcOf s2.v1 s2.v2).center = res at h hC
  cases res with
  | noIntersect =>
    simp only [ha1.radius_eq, ha2.radius_eq, ha1.center, ha2.center] at hC
    cases h
    exact Or.inr (Or.inl ⟨hC.1, hC.2, connectUsingArc_appends s1 s2.v1 ccw r⟩)
  | one p =>
    simp only [ha1.radius_eq, ha2.radius_eq, ha1.center, ha2.center] at hC
    refine hproc p (by rw [hres]; simp) ?_ h
    rcases hC with ⟨g1, g2, g3⟩ | g
    · exact Or.inl ⟨g1, g2, fun y y1 y2 => Or.inr (g3 y ⟨y1, y2⟩)⟩
    · exact Or.inr g
  | two p q =>
    simp only [ha1.radius_eq, ha2.radius_eq, ha1.center, ha2.center] at hC
    simp only [hd] at h
    obtain ⟨-, hiff⟩ := hC
    by_cases hlt : dist2 p s1.origV2Pos < dist2 q s1.origV2Pos
    · rw [if_pos hlt] at h
      refine hproc p (by rw [hres]; simp) (Or.inl ?_) h
      have := (hiff p).2 (Or.inl rfl)
      refine ⟨this.1, this.2, fun y y1 y2 => Or.inl ?_⟩
      rcases (hiff y).1 ⟨y1, y2⟩ with rfl | rfl
      · exact le_refl _
      · exact hlt.le
    · rw [if_neg hlt] at h
      refine hproc q (by rw [hres]; simp) (Or.inl ?_) h
      have := (hiff q).2 (Or.inr rfl)
      refine ⟨this.1, this.2, fun y y1 y2 => Or.inl ?_⟩
      rcases (hiff y).1 ⟨y1, y2⟩ with rfl | rfl
      · exact not_lt.1 hlt
      · exact le_refl _
  | coincident =>
    simp only [ha1.radius_eq, ha2.radius_eq, ha1.center, ha2.center] at hC
    cases h
    exact Or.inl ⟨hC, rfl⟩

/-- C38, line to line, in terms of the raw segments (a collapsed arc is a line here). -/
theorem C38_line_to_line_raw {s1 s2 : OffsetSegment} {ccw : Prop} {r r' : Polyline}
    (h : lineToLineJoin s1 s2 ccw r = .ok r') :
    ∃ added, Appends r added r' ∧ JoinsLineLine ccw s1 s2 added := by
  unfold lineToLineJoin at h
  obtain ⟨_, hz, h⟩ := bind_eq_ok.1 h
  have hz2 : IsLine s2.v1 := by
    by_contra hc
    rw [assertP_neg (fun hh => hc hh.2)] at hz
    cases hz
  have l0 : ∀ p : V2, IsLine ⟨p, 0⟩ := fun p => by simp [IsLine]
  by_cases hcol : s1.collapsedArc = true ∨ s2.collapsedArc = true
  · rw [if_pos hcol] at h
    cases h
    obtain ⟨added, g1, g2⟩ := connectUsingArc_appends s1 ⟨s2.v1.pos, 0⟩ ccw r
    exact ⟨added, g1, Or.inl ⟨hcol, g2⟩⟩
  rw [if_neg hcol] at h
  by_cases ht : 1 / 10 ^ 8 < |turn s1 s2|
  · obtain ⟨t0, t1, x, e0, e1, -, hres⟩ := C18_crossing s1.v1.pos s1.v2.pos s2.v1.pos s2.v2.pos ht
    rw [hres] at h
    by_cases hin : -(1 / 10 ^ 8) ≤ t0 ∧ t0 ≤ 1 + 1 / 10 ^ 8 ∧ -(1 / 10 ^ 8) ≤ t1 ∧ t1 ≤ 1 + 1 / 10 ^ 8
    · rw [if_pos hin] at h
      cases h
      exact ⟨[_], rfl, Or.inr (Or.inr ⟨hcol, ht, t0, t1, x, e0, e1,
        Or.inl ⟨hin.1, hin.2.1, hin.2.2.1, hin.2.2.2, rfl⟩⟩)⟩
    · rw [if_neg hin] at h
      simp only at h
      by_cases hf : t0 > 1 ∧ falseIntersect t1
      · rw [if_pos hf] at h
        cases h
        obtain ⟨added, g1, g2⟩ := connectUsingArc_appends s1 ⟨s2.v1.pos, 0⟩ ccw r
        exact ⟨added, g1, Or.inr (Or.inr ⟨hcol, ht, t0, t1, x, e0, e1, Or.inr (Or.inl ⟨hin, hf, g2⟩)⟩)⟩
      · rw [if_neg hf] at h
        cases h
        exact ⟨[_, _], rfl, Or.inr (Or.inr ⟨hcol, ht, t0, t1, x, e0, e1,
          Or.inr (Or.inr ⟨hin, hf, rfl⟩)⟩)⟩
  · have hd' : ¬ |perpDot (s1.v2.pos - s1.v1.pos) (s2.v2.pos - s2.v1.pos)| > realThreshold := ht
    have hnf := parallel_not_false hd'
    cases hr : intrLineSeg2LineSeg2 s1.v1.pos s1.v2.pos s2.v1.pos s2.v2.pos with
    | none =>
      rw [hr] at h
      cases h
      exact ⟨[⟨s1.v2.pos, 0⟩, s2.v1], rfl, Or.inr (Or.inl ⟨hcol, not_lt.1 ht, by
        intro w hw; simp at hw; rcases hw with rfl | rfl; exacts [l0 _, hz2]⟩)⟩
    | trueIntr p =>
      rw [hr] at h
      cases h
      exact ⟨[⟨p, 0⟩], rfl, Or.inr (Or.inl ⟨hcol, not_lt.1 ht, by
        intro w hw; simp at hw; rw [hw]; exact l0 _⟩)⟩
    | coincident a b =>
      rw [hr] at h
      cases h
      exact ⟨[⟨s1.v2.pos, 0⟩], rfl, Or.inr (Or.inl ⟨hcol, not_lt.1 ht, by
        intro w hw; simp at hw; rw [hw]; exact l0 _⟩)⟩
    | falseIntr a b p => exact absurd hr (hnf a b p)

theorem joinSegs_joins {s1 s2 : OffsetSegment} {ccw : Prop} {r r' : Polyline}
    (b1 : |s1.v1.bulge| ≤ 1) (b2 : |s2.v1.bulge| ≤ 1) (hb : BulgesOk r)
    (h : joinSegs ccw s1 s2 r = .ok r') : Joins ccw s1 s2 r r' := by
  unfold joinSegs at h
  by_cases h1 : s1.v1.bulgeIsZero <;> by_cases h2 : s2.v1.bulgeIsZero <;>
    simp only [h1, h2, and_self, and_true, and_false, if_true, if_false] at h
  · exact Or.inl ⟨h1, h2, C38_line_to_line_raw h⟩
  · exact Or.inr (Or.inl ⟨h1, h2, C38_line_to_arc b2 h⟩)
  · exact Or.inr (Or.inr (Or.inl ⟨h1, h2, C38_arc_to_line b1 hb h⟩))
  · exact Or.inr (Or.inr (Or.inr ⟨h1, h2, C38_arc_to_arc b1 b2 hb h⟩))

theorem joinSegs_grows {s1 s2 : OffsetSegment} {ccw : Prop} {r r' : Polyline}
    (b1 : |s1.v1.bulge| ≤ 1) (b2 : |s2.v1.bulge| ≤ 1) (hne : r.vertexes ≠ [])
    (hb : BulgesOk r) (hs : Spread r) (h : joinSegs ccw s1 s2 r = .ok r') : Grows r r' := by
  rcases joinSegs_joined (good := False) (ccw := ccw) b1 b2 hne (fun h => h.elim) (fun h => h.elim) hb hs with
    ⟨q, hq, g⟩ | ⟨-, hq⟩
  · rw [h] at hq; cases hq; exact g
  · rw [h] at hq; cases hq

theorem joinSegsLoop_joins {ccw : Prop} : ∀ (rest : List OffsetSegment)
    (s1 : OffsetSegment) (r r' : Polyline), (∀ s ∈ s1 :: rest, |s.v1.bulge| ≤ 1) →
    r.vertexes ≠ [] → BulgesOk r → Spread r → joinSegsLoop ccw s1 rest r = .ok r' →
    JoinsAll ccw (s1 :: rest) r r' ∧ Grows r r' := by
  intro rest
  induction rest with
  | nil =>
    intro s1 r r' _ _ hb hs h
    cases h
    exact ⟨.last _ _, grows_refl hb hs⟩
  | cons s2 rest ih =>
    intro s1 r r' h1 hne hb hs h
    unfold joinSegsLoop at h
    obtain ⟨q, hq, h⟩ := bind_eq_ok.1 h
    have g := joinSegs_grows (h1 s1 (by simp)) (h1 s2 (by simp)) hne hb hs hq
    have j := joinSegs_joins (h1 s1 (by simp)) (h1 s2 (by simp)) hb hq
    obtain ⟨i1, i2⟩ := ih s2 q r' (fun s hs => h1 s (List.mem_cons_of_mem _ hs)) (g.ne hne) g.bulges
      g.spread h
    exact ⟨.step _ _ _ _ _ _ j i1, g.trans i2⟩

theorem updateFirstVertex_moved {x : V2} {r r' : Polyline} (hb : BulgesOk r)
    (h : updateFirstVertex x r = .ok r') : FirstMoved x r r' := by
  unfold updateFirstVertex at h
  obtain ⟨v, hv, h⟩ := bind_eq_ok.1 h
  obtain ⟨rest, hrest⟩ : ∃ rest, r.vertexes = v :: rest := by
    unfold Polyline.at getM at hv
    cases hr : r.vertexes with
    | nil => rw [hr] at hv; cases hv
    | cons a l => rw [hr] at hv; cases hv; exact ⟨l, rfl⟩
  have hset : ∀ w, setM r.vertexes 0 w = .ok (w :: rest) := by intro w; rw [hrest]; rfl
  have hvb : |v.bulge| ≤ 1 := hb v (by rw [hrest]; simp)
  by_cases hz : v.bulgeIsZero
  · rw [if_pos hz] at h
    rw [hset] at h
    cases h
    exact ⟨v, rest, _, hrest, rfl, Or.inl ⟨hz, rfl⟩⟩
  · rw [if_neg hz] at h
    cases rest with
    | nil =>
      rw [if_neg (by unfold Polyline.size; rw [hrest]; simp)] at h
      cases h
      exact ⟨v, [], v, hrest, by rw [← hrest], Or.inr (Or.inl ⟨hz, rfl, rfl⟩)⟩
    | cons u rest =>
      rw [if_pos (by unfold Polyline.size; rw [hrest]; simp)] at h
      have hat : r.at 1 = .ok u := by unfold Polyline.at getM; rw [hrest]; rfl
      rw [hat, ok_bind] at h
      obtain ⟨arc, harc, h⟩ := bind_eq_ok.1 h
      obtain ⟨ha, rfl⟩ := arcOk_of_run harc
      simp only [ha.center] at h
      by_cases hc : deltaAngle (angle (centerOf v u) x) (angle (centerOf v u) u.pos) < 0 ∧ v.bulgeIsPos ∨
          deltaAngle (angle (centerOf v u) x) (angle (centerOf v u) u.pos) > 0 ∧ v.bulgeIsNeg
      · rw [if_pos hc, hset] at h
        cases h
        refine ⟨v, _, _, hrest, rfl, Or.inr (Or.inr ⟨hz, u, rest, rfl, startsAt_tan ha hvb rfl
          (Or.inr ⟨rfl, ?_⟩)⟩)⟩
        exact hc.imp (fun h => ⟨h.1.le, h.2⟩) id
      · rw [if_neg hc, hset] at h
        cases h
        refine ⟨v, _, _, hrest, rfl, Or.inr (Or.inr ⟨hz, u, rest, rfl, startsAt_tan ha hvb rfl
          (Or.inl ⟨rfl, ?_⟩)⟩)⟩
        rcases lt_or_gt_of_ne ha.b_ne with hn | hp
        · left
          by_contra hpos
          exact hc (Or.inr ⟨not_le.1 hpos, hn⟩)
        · exact Or.inr hp

theorem pruneFirstVertex_pruned {r r' : Polyline} (h : pruneFirstVertex r = .ok r') :
    FirstPruned r r' := by
  obtain ⟨cl, vs⟩ := r
  unfold pruneFirstVertex at h
  match vs with
  | [] =>
    rw [if_neg (by simp [Polyline.size])] at h; cases h
    exact Or.inr ⟨fun _ _ _ h => (nomatch h), rfl⟩
  | [v] =>
    rw [if_neg (by simp [Polyline.size])] at h; cases h
    exact Or.inr ⟨fun _ _ _ h => (nomatch h), rfl⟩
  | v :: u :: rest =>
    rw [if_pos (by simp [Polyline.size])] at h
    have e0 : Polyline.at ⟨cl, v :: u :: rest⟩ 0 = .ok v := rfl
    have e1 : Polyline.at ⟨cl, v :: u :: rest⟩ 1 = .ok u := rfl
    rw [e0, ok_bind, e1, ok_bind] at h
    by_cases hn : fuzzyEqualV v.pos u.pos realPrecision
    · rw [if_pos hn] at h; cases h
      exact Or.inl ⟨v, u, rest, rfl, hn, rfl⟩
    · rw [if_neg hn] at h; cases h
      refine Or.inr ⟨?_, rfl⟩
      intro v' u' rest' he
      cases he
      exact hn

theorem joinClosing_closes {ccw : Prop} {s1 s2 : OffsetSegment} {fr : Prop} {r r' : Polyline}
    (b1 : |s1.v1.bulge| ≤ 1) (b2 : |s2.v1.bulge| ≤ 1) (hb : BulgesOk r)
    (h : joinClosing ccw s1 s2 fr r = .ok r') : Closes ccw s1 s2 fr r r' := by
  unfold joinClosing at h
  obtain ⟨last, hlast, h⟩ := bind_eq_ok.1 h
  obtain ⟨cl, hcl, h⟩ := bind_eq_ok.1 h
  obtain ⟨c0, hc0, h⟩ := bind_eq_ok.1 h
  obtain ⟨q0, hq0, h⟩ := bind_eq_ok.1 h
  simp only at h
  obtain ⟨q1, hq1, h⟩ := bind_eq_ok.1 h
  obtain ⟨e, he, h⟩ := bind_eq_ok.1 h
  have hl : r.vertexes.getLast? = some last := by
    unfold Polyline.lastVertex at hlast
    cases hl : r.vertexes.getLast? with
    | none => rw [hl] at hlast; cases hlast
    | some v => rw [hl] at hlast; cases hlast; rfl
  have hel : cl.vertexes.getLast? = some e := by
    unfold Polyline.lastVertex at he
    cases hl : cl.vertexes.getLast? with
    | none => rw [hl] at he; cases he
    | some v => rw [hl] at he; cases he; rfl
  have hemp : Polyline.empty.addVertex last = ⟨false, [last]⟩ := rfl
  rw [hemp] at hcl
  have hbl : BulgesOk ⟨false, [last]⟩ := by
    intro w hw
    simp at hw
    rw [hw]; exact hb _ (List.mem_of_getLast? hl)
  have hsl : Spread ⟨false, [last]⟩ := by simp [Spread]
  have hg := joinSegs_grows b1 b2 (by simp) hbl hsl hcl
  have hj := joinSegs_joins b1 b2 hbl hcl
  obtain ⟨t, ht⟩ : ∃ t, cl.vertexes = c0 :: t := by
    unfold Polyline.at getM at hc0
    cases hr : cl.vertexes with
    | nil => rw [hr] at hc0; cases hc0
    | cons a l => rw [hr] at hc0; cases hc0; exact ⟨l, rfl⟩
  have hr := eq_dropLast_of_getLast? hl
  have hce := eq_dropLast_of_getLast? hel
  have hne : r.vertexes ≠ [] := by rintro h0; rw [h0] at hl; cases hl
  unfold Polyline.setLast at hq0
  rw [if_neg hne] at hq0
  cases hq0
  have happ : r.vertexes.dropLast ++ [c0] ++ t = r.vertexes.dropLast ++ cl.vertexes := by
    rw [ht]; simp
  rw [ht] at hq1
  simp only [List.tail_cons] at hq1
  rw [happ] at hq1
  have hcne : cl.vertexes ≠ [] := by rw [ht]; simp
  unfold Polyline.popBack at hq1
  rw [if_neg (by simp [hcne])] at hq1
  cases hq1
  rw [List.dropLast_append_of_ne_nil hcne] at h
  have hcleq : cl = ⟨false, cl.vertexes.dropLast ++ [e]⟩ := by
    rw [← hce]
    have := hg.closed
    simp only at this
    rw [← this]
  rw [hcleq] at hj
  have hbq : BulgesOk ⟨r.isClosed, r.vertexes.dropLast ++ cl.vertexes.dropLast⟩ := by
    intro w hw
    simp only [List.mem_append] at hw
    rcases hw with hw | hw
    · exact hb w (List.mem_of_mem_dropLast hw)
    · exact hg.bulges w (List.mem_of_mem_dropLast hw)
  refine ⟨r.vertexes.dropLast, last, cl.vertexes.dropLast, e,
    ⟨r.isClosed, r.vertexes.dropLast ++ cl.vertexes.dropLast⟩, ?_⟩
  by_cases hfr : fr
  · rw [if_neg (by simpa using hfr), ok_bind] at h
    exact ⟨_, hr, hj, rfl, fun _ => rfl, fun hh => absurd hfr hh, pruneFirstVertex_pruned h⟩
  · rw [if_pos hfr] at h
    obtain ⟨q2, hq2, h⟩ := bind_eq_ok.1 h
    exact ⟨q2, hr, hj, rfl, fun hh => absurd hh hfr, fun _ => updateFirstVertex_moved hbq hq2,
      pruneFirstVertex_pruned h⟩

theorem joinRawSegs_raw {p : Polyline} {offset : ℝ} {s0 : OffsetSegment}
    {rest : List OffsetSegment} {r : Polyline}
    (h1 : ∀ s ∈ s0 :: rest, |s.v1.bulge| ≤ 1)
    (hoff : List.Forall₂ (fun v s => Offsets offset v.1 v.2 s) (segs p) (s0 :: rest))
    (h : joinRawSegs p offset s0 rest = .ok r) : RawOffset p offset r := by
  refine ⟨s0, rest, hoff, ?_⟩
  unfold joinRawSegs at h
  by_cases hc : rest = [] ∧ s0.collapsedArc
  · rw [if_pos hc] at h
    cases h
    exact Or.inl ⟨hc.1, hc.2, rfl⟩
  right
  rw [if_neg hc] at h
  refine ⟨hc, ?_⟩
  simp only at h
  obtain ⟨r1, e1, h⟩ := bind_eq_ok.1 h
  obtain ⟨r2, e2, h⟩ := bind_eq_ok.1 h
  obtain ⟨r3, e3, h⟩ := bind_eq_ok.1 h
  have hb0 : BulgesOk ⟨p.isClosed, [s0.v1]⟩ := by
    intro w hw; simp at hw; rw [hw]; exact h1 s0 (by simp)
  have hs0 : Spread ⟨p.isClosed, [s0.v1]⟩ := by simp [Spread]
  have hback : (s0 :: rest).getLast? = some (rest.getLast?.getD s0) := by
    rw [List.getLast?_cons]
  have hbm : rest.getLast?.getD s0 ∈ s0 :: rest := List.mem_of_getLast? hback
  have g1 : Grows ⟨p.isClosed, [s0.v1]⟩ r1 ∧ (rest = [] → r1 = ⟨p.isClosed, [s0.v1]⟩) ∧
      (∀ s1 rest', rest = s1 :: rest' → Joins (offset < 0) s0 s1 ⟨p.isClosed, [s0.v1]⟩ r1) := by
    unfold joinFirst at e1
    cases rest with
    | nil => cases e1; exact ⟨grows_refl hb0 hs0, fun _ => rfl, fun _ _ h => (nomatch h)⟩
    | cons s rest =>
      refine ⟨joinSegs_grows (h1 s0 (by simp)) (h1 s (by simp)) (by simp) hb0 hs0 e1,
        fun h => (nomatch h), ?_⟩
      intro s1 rest' he
      cases he
      exact joinSegs_joins (h1 s0 (by simp)) (h1 s (by simp)) hb0 e1
  obtain ⟨g1, g1', g1''⟩ := g1
  have g2 : Grows r1 r2 ∧ (rest ≠ [] → JoinsAll (offset < 0) rest r1 r2) ∧ (rest = [] → r2 = r1) := by
    unfold joinOthers at e2
    cases rest with
    | nil => cases e2; exact ⟨grows_refl g1.bulges g1.spread, fun h => absurd rfl h, fun _ => rfl⟩
    | cons s rest =>
      obtain ⟨i1, i2⟩ := joinSegsLoop_joins rest s r1 r2
        (fun s hs => h1 s (List.mem_cons_of_mem _ hs)) (g1.ne (by simp)) g1.bulges g1.spread e2
      exact ⟨i2, fun _ => i1, fun h => (nomatch h)⟩
  obtain ⟨g2, g2', g2''⟩ := g2
  refine ⟨_, r1, r2, r3, hback, g1', g1'', g2', g2'', ?_, ?_⟩
  · unfold joinEnd at e3
    by_cases hcl : p.isClosed ∧ r2.size > 1
    · rw [if_pos hcl] at e3
      exact Or.inl ⟨hcl.1, hcl.2, joinClosing_closes (h1 _ hbm) (h1 s0 (by simp)) g2.bulges e3⟩
    · rw [if_neg hcl] at e3
      cases e3
      exact Or.inr ⟨hcl, rfl⟩
  · by_cases hsz : r3.vertexes.length = 1
    · rw [if_pos (show r3.size = 1 from hsz)] at h
      cases h
      rw [if_pos hsz]
    · rw [if_neg (show ¬ r3.size = 1 from hsz)] at h
      cases h
      rw [if_neg hsz]

/-- C38, the raw offset is what its description says: the offset segments, each the exact offset of a
segment of the polyline, joined in turn as described by `Joins`, and the last with the first if the
polyline is closed. -/
theorem C38_rawOffset (p : Polyline) (offset : ℝ) (hb : BulgesOk p) (hn : NoRepeats p)
    (h2 : 2 ≤ p.vertexes.length) {r : Polyline} (h : createRawOffsetPline p offset = .ok r) :
    RawOffset p offset r := by
  unfold createRawOffsetPline at h
  rw [if_neg (show ¬ p.size < 2 by have : p.size = p.vertexes.length := rfl; omega)] at h
  obtain ⟨l, hl, hoff⟩ := C37_createUntrimmedOffsetSegments p offset (by omega) hn
  rw [hl, ok_bind] at h
  have hbul : ∀ x ∈ segs p, |x.1.bulge| ≤ 1 := by
    intro x hx
    unfold segs at hx
    split_ifs at hx with ha hc
    · simp at hx
    · exact hb _ (List.of_mem_zip hx).1
    · exact hb _ (List.of_mem_zip hx).1
  have hall : ∀ s ∈ l, |s.v1.bulge| ≤ 1 := by
    intro s hs
    obtain ⟨k, hk, hke⟩ := List.mem_iff_getElem.1 hs
    have hlen := hoff.length_eq
    have hkseg : k < (segs p).length := by omega
    have ho := List.Forall₂.get hoff hkseg hk
    simp only [List.get_eq_getElem, hke] at ho
    have hbb := hbul (segs p)[k] (List.getElem_mem _)
    rw [ho.bulge1]; split_ifs
    · simp
    · exact hbb
  cases l with
  | nil =>
    exfalso
    have h3 := hoff.length_eq
    rw [segs_length, if_neg (show ¬ p.size < 2 by have : p.size = p.vertexes.length := rfl; omega)] at h3
    have : p.size = p.vertexes.length := rfl
    split_ifs at h3
    all_goals
      simp only [List.length_nil] at h3
      omega
  | cons s0 rest => exact joinRawSegs_raw hall hoff h

/-- The hypotheses hold for the rectangle of C52, and its raw offset is the smaller rectangle. -/
example : RawOffset (rect 0 0 4 3) 1 (rect 1 1 3 2) := by
  have h := rect_raw (x0 := 0) (y0 := 0) (x1 := 4) (y1 := 3) (d := 1) (by norm_num) (by norm_num)
    (by norm_num) (by norm_num) (by norm_num)
  norm_num at h
  refine C38_rawOffset (rect 0 0 4 3) 1 ?_ ?_ (by simp [rect]) h
  · intro v hv
    simp [rect] at hv
    rcases hv with rfl | rfl | rfl | rfl <;> norm_num
  · intro i v1 v2 h
    rcases rect_seg h with ⟨-, rfl, rfl⟩ | ⟨-, rfl, rfl⟩ | ⟨-, rfl, rfl⟩ | ⟨-, rfl, rfl⟩ <;>
      rintro ⟨h1, h2⟩ <;> first | (norm_num at h1; done) | (norm_num at h2; done)

end Cavc

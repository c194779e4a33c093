import Verif.Proofs.Semi
import Mathlib.Analysis.Real.Pi.Bounds
import Mathlib.Analysis.SpecialFunctions.Integrals.Basic
import Mathlib.Analysis.SpecialFunctions.Trigonometric.Deriv
import Mathlib.Analysis.Calculus.Deriv.Mul
import Mathlib.Analysis.Calculus.Deriv.Add

/-! C10-C13, C15-C17: single segments. -/
namespace Cavc
open Spec
open scoped Classical

/-- C10. For an arc segment (any bulge that is not treated as a line) whose end points are at least
1e-8 apart in a coordinate, the function returns the center of the arc (turning the start by
`4 arctan bulge` about it gives the end; there is exactly one such point) and its positive radius. -/
theorem C10_arcRadiusAndCenter {v1 v2 : Vertex} (hl : ¬ IsLine v1)
    (hd : 1 / 10 ^ 8 ≤ |v1.pos.x - v2.pos.x| ∨ 1 / 10 ^ 8 ≤ |v1.pos.y - v2.pos.y|) :
    ∃ a : Arc, arcRadiusAndCenter v1 v2 = .ok a ∧ IsCenter v1 v2 a.center ∧
      (∀ c, IsCenter v1 v2 c → c = a.center) ∧ 0 < a.radius ∧
      distance v1.pos a.center = a.radius ∧ distance v2.pos a.center = a.radius := by
  have h : ArcOk v1 v2 := ⟨hl, hd⟩
  refine ⟨_, h.run, ?_, ?_, h.radius_pos, ?_, ?_⟩
  · rw [h.center]; exact isCenter_centerOf h.b_ne
  · intro c hc; rw [h.center]; exact isCenter_unique h.b_ne hc
  · rw [h.center, h.radius_eq]
  · rw [h.center, h.radius_eq, ← h.end_eq]
    simp only [distance, dist2_rot]

/-- A quarter circle from (1,0) to (0,1) about the origin. -/
example : ∃ a : Arc, arcRadiusAndCenter ⟨⟨1, 0⟩, Real.tan (Real.pi / 8)⟩ ⟨⟨0, 1⟩, 0⟩ = .ok a ∧
    a.center = ⟨0, 0⟩ := by
  have hpos : Real.pi / 8 < Real.tan (Real.pi / 8) :=
    Real.lt_tan (by positivity) (by linarith [Real.pi_pos])
  have h3 : (1 : ℝ) < Real.pi := by linarith [Real.pi_gt_three]
  obtain ⟨a, h1, -, h2, -⟩ := C10_arcRadiusAndCenter
    (v1 := ⟨⟨1, 0⟩, Real.tan (Real.pi / 8)⟩) (v2 := ⟨⟨0, 1⟩, 0⟩)
    (by
      unfold IsLine
      rw [abs_of_pos (by linarith)]
      norm_num; linarith)
    (Or.inl (by norm_num))
  refine ⟨a, h1, (h2 ⟨0, 0⟩ ?_).symm⟩
  have hsw : 4 * Real.arctan (Real.tan (Real.pi / 8)) = Real.pi / 2 := by
    rw [Real.arctan_tan (by linarith) (by linarith)]; ring
  unfold IsCenter sweep
  ext
  · simp only [rot, hsw]; simp
  · simp only [rot, hsw]; simp

/-- C11, arcs: splitting at an interior point that is not within 1e-5 of an end point gives two
arcs about the same center whose sweeps are the two parts of the original sweep. -/
theorem C11_split_arc {v1 v2 : Vertex} (hok : SegOk v1 v2) (hl : ¬ IsLine v1) {t : ℝ} (h0 : 0 < t)
    (h1 : t < 1) {p : V2} (hp : AtParam v1 v2 t p)
    (hf0 : 1 / 10 ^ 5 ≤ |v1.pos.x - v2.pos.x| ∨ 1 / 10 ^ 5 ≤ |v1.pos.y - v2.pos.y|)
    (hf1 : 1 / 10 ^ 5 ≤ |v1.pos.x - p.x| ∨ 1 / 10 ^ 5 ≤ |v1.pos.y - p.y|)
    (hf2 : 1 / 10 ^ 5 ≤ |v2.pos.x - p.x| ∨ 1 / 10 ^ 5 ≤ |v2.pos.y - p.y|) :
    ∃ r, splitAtPoint v1 v2 p = .ok r ∧ r.updatedStart.pos = v1.pos ∧ r.splitVertex.pos = p ∧
      sweep r.updatedStart = t * sweep v1 ∧ sweep r.splitVertex = (1 - t) * sweep v1 ∧
      ∃ c, IsCenter v1 v2 c ∧ IsCenter r.updatedStart r.splitVertex c ∧
        IsCenter r.splitVertex v2 c := by
  have ha := hok.arcOk hl
  have hb := ha.b_ne
  rw [atParam_arc hl] at hp
  have hsw := abs_sweep_le hok.half
  have hpi := Real.pi_pos
  have hd1 : deltaAngle (angle (centerOf v1 v2) v1.pos) (angle (centerOf v1 v2) p) =
      t * sweep v1 := by
    have := deltaAngle_rot ha.start_ne (α := 0) (β := t * sweep v1)
      (by rw [abs_le] at hsw; nlinarith) (by rw [abs_le] at hsw; nlinarith)
    rwa [rot_zero, ← hp, sub_zero] at this
  have hd2 : deltaAngle (angle (centerOf v1 v2) p) (angle (centerOf v1 v2) v2.pos) =
      (1 - t) * sweep v1 := by
    have := deltaAngle_rot ha.start_ne (α := t * sweep v1) (β := sweep v1)
      (by rw [abs_le] at hsw; nlinarith) (by rw [abs_le] at hsw; nlinarith)
    rw [← hp, ha.end_eq] at this
    rw [this]; ring
  have at1 : ∀ u : ℝ, |u| ≤ 1 → 4 * Real.arctan (Real.tan (u * sweep v1 / 4)) = u * sweep v1 := by
    intro u hu
    rw [Real.arctan_tan]
    · ring
    · rw [abs_le] at hu hsw; nlinarith
    · rw [abs_le] at hu hsw; nlinarith
  unfold splitAtPoint
  rw [if_neg (show ¬ v1.bulgeIsZero from hl), if_neg (by
    rintro (h | h)
    · exact not_fuzzyEqualV hf0 h
    · exact not_fuzzyEqualV hf1 h), if_neg (show ¬ fuzzyEqualV v2.pos p realPrecision from fun h => not_fuzzyEqualV hf2 h), ha.run, ok_bind]
  simp only [ha.center, hd1, hd2]
  have s1 : sweep ⟨v1.pos, Real.tan (t * sweep v1 / 4)⟩ = t * sweep v1 :=
    at1 t (by rw [abs_le]; constructor <;> linarith)
  have s2 : sweep ⟨p, Real.tan ((1 - t) * sweep v1 / 4)⟩ = (1 - t) * sweep v1 :=
    at1 (1 - t) (by rw [abs_le]; constructor <;> linarith)
  refine ⟨_, rfl, rfl, rfl, s1, s2, centerOf v1 v2, ha.end_eq, ?_, ?_⟩
  · unfold IsCenter
    simp only [s1, hp]
  · unfold IsCenter
    simp only [s2]
    rw [hp, rot_add, ← ha.end_eq]
    congr 1; ring

/-- C11, paths: the two pieces trace the original segment, the first one up to the split parameter,
the second one from there on, in the same direction. For arcs the pieces must not be so flat that
the library treats them as lines (bulge below 1e-5). -/
theorem C11_split_path {v1 v2 : Vertex} (hok : SegOk v1 v2) {t : ℝ} (h0 : 0 < t) (h1 : t < 1)
    {p : V2} (hp : AtParam v1 v2 t p)
    (hf : IsLine v1 ∨
      ((1 / 10 ^ 5 ≤ |v1.pos.x - v2.pos.x| ∨ 1 / 10 ^ 5 ≤ |v1.pos.y - v2.pos.y|) ∧
       (1 / 10 ^ 5 ≤ |v1.pos.x - p.x| ∨ 1 / 10 ^ 5 ≤ |v1.pos.y - p.y|) ∧
       (1 / 10 ^ 5 ≤ |v2.pos.x - p.x| ∨ 1 / 10 ^ 5 ≤ |v2.pos.y - p.y|))) :
    ∃ r, splitAtPoint v1 v2 p = .ok r ∧
      (IsLine v1 ∨ (¬ IsLine r.updatedStart ∧ ¬ IsLine r.splitVertex) →
        (∀ s q, AtParam r.updatedStart r.splitVertex s q ↔ AtParam v1 v2 (t * s) q) ∧
        (∀ s q, AtParam r.splitVertex v2 s q ↔ AtParam v1 v2 (t + (1 - t) * s) q)) := by
  by_cases hl : IsLine v1
  · refine ⟨⟨v1, ⟨p, 0⟩⟩, ?_, fun _ => ⟨?_, ?_⟩⟩
    · unfold splitAtPoint; rw [if_pos (show v1.bulgeIsZero from hl)]
    · intro s q
      have hp' := (atParam_line hl).mp hp
      rw [atParam_line hl, atParam_line hl, hp']
      have : lerp v1.pos (lerp v1.pos v2.pos t) s = lerp v1.pos v2.pos (t * s) := by
        ext <;> simp only [lerp] <;> ring
      rw [this]
    · intro s q
      have hp' := (atParam_line hl).mp hp
      rw [atParam_line hl, atParam_line (show IsLine ⟨p, 0⟩ by simp [IsLine]), hp']
      have : lerp (lerp v1.pos v2.pos t) v2.pos s = lerp v1.pos v2.pos (t + (1 - t) * s) := by
        ext <;> simp only [lerp] <;> ring
      rw [this]
  · obtain ⟨f0, f1, f2⟩ := hf.resolve_left hl
    obtain ⟨r, hr, e1, e2, e3, e4, c, c0, c1, c2⟩ := C11_split_arc hok hl h0 h1 hp f0 f1 f2
    refine ⟨r, hr, fun hn => ?_⟩
    obtain ⟨n1, n2⟩ := hn.resolve_left hl
    have hb := bulge_ne_zero hl
    have k0 := isCenter_unique hb c0
    have k1 := isCenter_unique (bulge_ne_zero n1) c1
    have k2 := isCenter_unique (bulge_ne_zero n2) c2
    constructor
    · intro s q
      rw [atParam_arc n1, atParam_arc hl, ← k1, ← k0, e1, e3]
      rw [show s * (t * sweep v1) = t * s * sweep v1 by ring]
    · intro s q
      rw [atParam_arc n2, atParam_arc hl, ← k2, ← k0, e2, e4, (atParam_arc hl).mp hp, ← k0, rot_add]
      rw [show s * ((1 - t) * sweep v1) + t * sweep v1 = (t + (1 - t) * s) * sweep v1 by ring]

/-- Splitting the half circle at its apex: both pieces trace quarter circles. -/
example : ∃ r, splitAtPoint ⟨⟨1, 0⟩, 1⟩ ⟨⟨-1, 0⟩, 0⟩ ⟨0, 1⟩ = .ok r ∧
    sweep r.updatedStart = Real.pi / 2 ∧ sweep r.splitVertex = Real.pi / 2 ∧
    (∀ s q, AtParam r.splitVertex ⟨⟨-1, 0⟩, 0⟩ s q ↔
      AtParam ⟨⟨1, 0⟩, 1⟩ ⟨⟨-1, 0⟩, 0⟩ (1 / 2 + (1 - 1 / 2) * s) q) := by
  have hp : AtParam semiStart semiEnd (1 / 2) ⟨0, 1⟩ := by
    rw [semi_atParam, show 1 / 2 * Real.pi = Real.pi / 2 by ring, Real.cos_pi_div_two,
      Real.sin_pi_div_two]
  have f0 : 1 / 10 ^ 5 ≤ |semiStart.pos.x - semiEnd.pos.x| ∨
      1 / 10 ^ 5 ≤ |semiStart.pos.y - semiEnd.pos.y| := Or.inl (by norm_num [semiStart, semiEnd])
  have f1 : 1 / 10 ^ 5 ≤ |semiStart.pos.x - 0| ∨ 1 / 10 ^ 5 ≤ |semiStart.pos.y - 1| :=
    Or.inl (by norm_num [semiStart])
  have f2 : 1 / 10 ^ 5 ≤ |semiEnd.pos.x - 0| ∨ 1 / 10 ^ 5 ≤ |semiEnd.pos.y - 1| :=
    Or.inl (by norm_num [semiEnd])
  obtain ⟨r, h1, -, -, h2, h3, -⟩ := C11_split_arc semi_ok.1 semi_ok.2 (by norm_num) (by norm_num) hp
    f0 f1 f2
  obtain ⟨r', h1', h4⟩ := C11_split_path semi_ok.1 (by norm_num) (by norm_num) hp
    (Or.inr ⟨f0, f1, f2⟩)
  obtain rfl : r = r' := by rw [h1] at h1'; exact Except.ok.inj h1'
  rw [semi_sweep] at h2 h3
  have nl : ∀ v : Vertex, sweep v = Real.pi / 2 → ¬ IsLine v := by
    intro v hv hl
    have hb : v.bulge = Real.tan (Real.pi / 8) := by
      rw [← Real.tan_arctan v.bulge]; congr 1; unfold sweep at hv; linarith
    have hpos : Real.pi / 8 < Real.tan (Real.pi / 8) :=
      Real.lt_tan (by positivity) (by linarith [Real.pi_pos])
    unfold IsLine at hl
    rw [hb, abs_of_pos (by linarith [Real.pi_pos])] at hl
    have := Real.pi_gt_three
    norm_num at hl
    linarith
  refine ⟨r, h1, by linarith, by linarith, (h4 (Or.inr ⟨nl _ (by linarith), nl _ (by linarith)⟩)).2⟩

/-- C11, ends of an arc: splitting never fails, and a split at (or within 1e-5 of) an end of an arc
leaves one piece of zero length and the whole arc as the other. At the start the first piece is the
line from the split point to itself and the second one keeps the bulge; at the end the first piece
is the segment unchanged, and the second one is the line from the end to itself. -/
theorem C11_split_ends (v1 v2 : Vertex) (p : V2) :
    (∃ r, splitAtPoint v1 v2 p = .ok r) ∧
    (¬ IsLine v1 → |v1.pos.x - p.x| < 1 / 10 ^ 5 → |v1.pos.y - p.y| < 1 / 10 ^ 5 →
      ∃ r, splitAtPoint v1 v2 p = .ok r ∧ r.updatedStart.pos = p ∧ r.splitVertex.pos = p ∧
        (∀ q, OnSeg r.updatedStart r.splitVertex q ↔ q = p) ∧
        (p = v1.pos → ∀ s q, AtParam r.splitVertex v2 s q ↔ AtParam v1 v2 s q) ∧
        sweep r.splitVertex = sweep v1) ∧
    (¬ IsLine v1 → (1 / 10 ^ 5 ≤ |v1.pos.x - v2.pos.x| ∨ 1 / 10 ^ 5 ≤ |v1.pos.y - v2.pos.y|) →
      (1 / 10 ^ 5 ≤ |v1.pos.x - p.x| ∨ 1 / 10 ^ 5 ≤ |v1.pos.y - p.y|) →
      |v2.pos.x - p.x| < 1 / 10 ^ 5 → |v2.pos.y - p.y| < 1 / 10 ^ 5 →
      ∃ r, splitAtPoint v1 v2 p = .ok r ∧ r.updatedStart = v1 ∧ r.splitVertex.pos = v2.pos ∧
        (∀ s q, AtParam r.updatedStart r.splitVertex s q ↔ AtParam v1 v2 s q) ∧
        (∀ q, OnSeg r.splitVertex v2 q ↔ q = v2.pos)) := by
  have dot : ∀ (a b : Vertex) (x : V2), IsLine a → a.pos = x → b.pos = x →
      ∀ q, OnSeg a b q ↔ q = x := by
    intro a b x hl ha hb q
    have e : ∀ t, lerp x x t = x := fun t => by ext <;> simp [lerp]
    constructor
    · rintro ⟨t, -, -, h⟩
      rw [atParam_line hl, ha, hb, e] at h
      exact h
    · rintro rfl
      exact ⟨0, le_rfl, zero_le_one, by rw [atParam_line hl, ha, hb, e]⟩
  have hz : ∀ x : V2, IsLine ⟨x, 0⟩ := fun x => by simp [IsLine]
  have near : ∀ a b : V2, fuzzyEqualV a b realPrecision ↔
      |a.x - b.x| < 1 / 10 ^ 5 ∧ |a.y - b.y| < 1 / 10 ^ 5 := by
    intro a b
    unfold fuzzyEqualV fuzzyEqual realPrecision
    norm_num
  refine ⟨?_, ?_, ?_⟩
  · unfold splitAtPoint
    by_cases hl : v1.bulgeIsZero
    · rw [if_pos hl]; exact ⟨_, rfl⟩
    rw [if_neg hl]
    by_cases h3 : fuzzyEqualV v1.pos v2.pos realPrecision ∨ fuzzyEqualV v1.pos p realPrecision
    · rw [if_pos h3]; exact ⟨_, rfl⟩
    rw [if_neg h3]
    by_cases h4 : fuzzyEqualV v2.pos p realPrecision
    · rw [if_pos h4]; exact ⟨_, rfl⟩
    rw [if_neg h4]
    have hne : ¬ fuzzyEqualV v1.pos v2.pos := by
      intro h
      apply h3
      left
      rw [near]
      unfold fuzzyEqualV fuzzyEqual realThreshold at h
      exact ⟨lt_trans h.1 (by norm_num), lt_trans h.2 (by norm_num)⟩
    unfold arcRadiusAndCenter
    rw [assertP_pos (show ¬ v1.bulgeIsZero from hl), assertP_pos (show ¬ fuzzyEqualV v1.pos v2.pos from hne)]
    exact ⟨_, rfl⟩
  · intro hl hx hy
    have h3 : fuzzyEqualV v1.pos v2.pos realPrecision ∨ fuzzyEqualV v1.pos p realPrecision :=
      Or.inr ((near _ _).2 ⟨hx, hy⟩)
    refine ⟨⟨⟨p, 0⟩, ⟨p, v1.bulge⟩⟩, ?_, rfl, rfl, dot _ _ _ (hz p) rfl rfl, ?_, rfl⟩
    · unfold splitAtPoint
      rw [if_neg (show ¬ v1.bulgeIsZero from hl), if_pos h3]
    · rintro rfl s q
      exact Iff.rfl
  · intro hl h1 h2 hx hy
    have h3 : ¬ (fuzzyEqualV v1.pos v2.pos realPrecision ∨ fuzzyEqualV v1.pos p realPrecision) := by
      rw [near, near]
      rintro (⟨a, b⟩ | ⟨a, b⟩)
      · rcases h1 with h | h <;> linarith
      · rcases h2 with h | h <;> linarith
    refine ⟨⟨v1, ⟨v2.pos, 0⟩⟩, ?_, rfl, rfl, fun s q => Iff.rfl, dot _ _ _ (hz _) rfl rfl⟩
    unfold splitAtPoint
    rw [if_neg (show ¬ v1.bulgeIsZero from hl), if_neg h3, if_pos ((near _ _).2 ⟨hx, hy⟩)]

/-- Splitting the half circle from (1, 0) to (-1, 0) at its start keeps the half circle as the
second piece, splitting it at its end keeps it as the first piece. -/
example : (∃ r, splitAtPoint semiStart semiEnd semiStart.pos = .ok r ∧
      ∀ s q, AtParam r.splitVertex semiEnd s q ↔ AtParam semiStart semiEnd s q) ∧
    (∃ r, splitAtPoint semiStart semiEnd semiEnd.pos = .ok r ∧ r.updatedStart = semiStart) := by
  constructor
  · obtain ⟨r, h1, -, -, -, h2, -⟩ := (C11_split_ends semiStart semiEnd semiStart.pos).2.1 semi_ok.2
      (by norm_num) (by norm_num)
    exact ⟨r, h1, h2 rfl⟩
  · obtain ⟨r, h1, h2, -⟩ := (C11_split_ends semiStart semiEnd semiEnd.pos).2.2 semi_ok.2
      (Or.inl (by norm_num [semiStart, semiEnd])) (Or.inl (by norm_num [semiStart, semiEnd]))
      (by norm_num) (by norm_num)
    exact ⟨r, h1, h2⟩

/-- C12. The fast approximate bounding box contains every point of the segment. -/
theorem C12_bbox_contains {v1 v2 : Vertex} (hok : |v1.bulge| ≤ 1) {p : V2} (hp : OnSeg v1 v2 p) :
    let b := createFastApproxBoundingBox v1 v2
    b.xMin ≤ p.x ∧ p.x ≤ b.xMax ∧ b.yMin ≤ p.y ∧ p.y ≤ b.yMax := by
  obtain ⟨t, h0, h1, hp⟩ := hp
  have hmin : ∀ x y : ℝ, (if x < y then x else y) = min x y := by
    intro x y; rw [min_def]; split_ifs <;> first | rfl | linarith
  have hmax : ∀ x y : ℝ, (if x < y then y else x) = max x y := by
    intro x y; rw [max_def]; split_ifs <;> first | rfl | linarith
  have lin : ∀ x y s : ℝ, 0 ≤ s → s ≤ 1 → min x y ≤ x + s * (y - x) ∧ x + s * (y - x) ≤ max x y := by
    intro x y s s0 s1
    have a1 := min_le_left x y
    have a2 := min_le_right x y
    have a3 := le_max_left x y
    have a4 := le_max_right x y
    constructor <;> nlinarith
  intro b
  by_cases hl : IsLine v1
  · rw [atParam_line hl] at hp
    have hbb : b = ⟨min v1.pos.x v2.pos.x, min v1.pos.y v2.pos.y, max v1.pos.x v2.pos.x,
        max v1.pos.y v2.pos.y⟩ := by
      simp only [b, createFastApproxBoundingBox, if_pos (show v1.bulgeIsZero from hl), hmin, hmax]
    rw [hbb, hp]
    exact ⟨(lin _ _ t h0 h1).1, (lin _ _ t h0 h1).2, (lin _ _ t h0 h1).1, (lin _ _ t h0 h1).2⟩
  · obtain ⟨s, h, s0, s1, k0, k1, hx, hy⟩ := arc_point_bounds hl hok h0 h1 hp
    simp only [b, createFastApproxBoundingBox, if_neg (show ¬ v1.bulgeIsZero from hl), hmin, hmax]
    have lx := lin v1.pos.x v2.pos.x s s0 s1
    have ly := lin v1.pos.y v2.pos.y s s0 s1
    have gen : ∀ P Q o s h : ℝ, 0 ≤ s → s ≤ 1 → 0 ≤ h → h ≤ 1 →
        min (min P Q) (min (P + o) (Q + o)) ≤ P + s * (Q - P) + h * o ∧
        P + s * (Q - P) + h * o ≤ max (max P Q) (max (P + o) (Q + o)) := by
      intro P Q o s h s0 s1 k0 k1
      have l := lin P Q s s0 s1
      have e1 : min (P + o) (Q + o) = min P Q + o := (min_add_add_right P Q o)
      have e2 : max (P + o) (Q + o) = max P Q + o := (max_add_add_right P Q o)
      rw [e1, e2]
      constructor
      · rcases le_total 0 o with ho | ho
        · exact (min_le_left _ _).trans (by nlinarith)
        · exact (min_le_right _ _).trans (by nlinarith)
      · rcases le_total 0 o with ho | ho
        · exact le_trans (by nlinarith) (le_max_right _ _)
        · exact le_trans (by nlinarith) (le_max_left _ _)
    have gx := gen v1.pos.x v2.pos.x (v1.bulge * (v2.pos.y - v1.pos.y) / 2) s h s0 s1 k0 k1
    have gy := gen v1.pos.y v2.pos.y (-v1.bulge * (v2.pos.x - v1.pos.x) / 2) s h s0 s1 k0 k1
    have ex : p.x = v1.pos.x + s * (v2.pos.x - v1.pos.x) +
      h * (v1.bulge * (v2.pos.y - v1.pos.y) / 2) := by rw [hx]; ring
    have ey : p.y = v1.pos.y + s * (v2.pos.y - v1.pos.y) +
      h * (-v1.bulge * (v2.pos.x - v1.pos.x) / 2) := by rw [hy]; ring
    rw [ex, ey]
    exact ⟨gx.1, gx.2, gy.1, gy.2⟩

/-- The box of the half circle reaches up to its apex. -/
example : 1 ≤ (createFastApproxBoundingBox ⟨⟨1, 0⟩, 1⟩ ⟨⟨-1, 0⟩, 0⟩).yMax := by
  have hp : OnSeg semiStart semiEnd ⟨0, 1⟩ := by
    refine ⟨1 / 2, by norm_num, by norm_num, ?_⟩
    rw [semi_atParam, show 1 / 2 * Real.pi = Real.pi / 2 by ring, Real.cos_pi_div_two,
      Real.sin_pi_div_two]
  exact (C12_bbox_contains (by norm_num [semiStart]) hp).2.2.2

/-- C13. The point returned for a straight segment is on the segment, and no point of the segment is
closer by more than 2e-8 in squared distance; if the projection of the point is at least 1e-8 away
(as the code measures it) from both ends or beyond them, the result is exactly the closest point. -/
theorem C13_closestPointOnLineSeg (p0 p1 p : V2) :
    (∃ t, 0 ≤ t ∧ t ≤ 1 ∧ closestPointOnLineSeg p0 p1 p = lerp p0 p1 t) ∧
    (∀ t, 0 ≤ t → t ≤ 1 →
      dist2 p (closestPointOnLineSeg p0 p1 p) ≤ dist2 p (lerp p0 p1 t) + 2 / 10 ^ 8) ∧
    (let c := (p.x - p0.x) * (p1.x - p0.x) + (p.y - p0.y) * (p1.y - p0.y)
     (c ≤ 0 ∨ 1 / 10 ^ 8 ≤ c) → (dist2 p0 p1 ≤ c ∨ c + 1 / 10 ^ 8 ≤ dist2 p0 p1) →
      ∀ t, 0 ≤ t → t ≤ 1 → dist2 p (closestPointOnLineSeg p0 p1 p) ≤ dist2 p (lerp p0 p1 t)) := by
  set c := (p.x - p0.x) * (p1.x - p0.x) + (p.y - p0.y) * (p1.y - p0.y) with hc
  set L := dist2 p0 p1 with hL
  have hL0 : 0 ≤ L := dist2_nonneg _ _
  have hcc : dot (p - p0) (p1 - p0) = c := rfl
  have hll : dot (p1 - p0) (p1 - p0) = L := dot_sub_self p0 p1
  -- squared distance along the segment
  have hq : ∀ t, dist2 p (lerp p0 p1 t) = dist2 p p0 - 2 * t * c + t ^ 2 * L := by
    intro t; simp only [dist2, lerp, hc, hL]; ring
  have e0 : p0 = lerp p0 p1 0 := by ext <;> simp [lerp]
  have e1 : p1 = lerp p0 p1 1 := by ext <;> simp [lerp]
  unfold closestPointOnLineSeg
  simp only [hcc, hll]
  unfold realThreshold
  by_cases h1 : c < 1 / 10 ^ 8
  · rw [if_pos h1]
    refine ⟨⟨0, le_refl _, by norm_num, e0⟩, ?_, ?_⟩
    · intro t t0 t1
      rw [hq]
      norm_num at h1 ⊢
      nlinarith
    · intro g1 _ t t0 t1
      rw [hq]
      have : c ≤ 0 := by
        rcases g1 with g | g
        · exact g
        · linarith
      nlinarith
  · rw [if_neg h1]
    have h1' : 1 / 10 ^ 8 ≤ c := not_lt.mp h1
    have hcpos : (0 : ℝ) < c := lt_of_lt_of_le (by norm_num) h1'
    by_cases h2 : L < c + 1 / 10 ^ 8
    · rw [if_pos h2]
      have hd1 : dist2 p p1 = dist2 p p0 - 2 * c + L := by
        have := hq 1
        rw [← e1] at this
        rw [this]; ring
      refine ⟨⟨1, by norm_num, le_refl _, e1⟩, ?_, ?_⟩
      · intro t t0 t1
        rw [hq, hd1]
        have e : dist2 p p0 - 2 * t * c + t ^ 2 * L - (dist2 p p0 - 2 * c + L) =
          (1 - t) * (2 * (c - L) + (1 - t) * L) := by ring
        have : -(2 / 10 ^ 8) ≤ (1 - t) * (2 * (c - L) + (1 - t) * L) := by
          have a1 : 0 ≤ (1 - t) * ((1 - t) * L) :=
            mul_nonneg (by linarith) (mul_nonneg (by linarith) hL0)
          have a2 : (1 - t) * (2 * (c - L)) ≥ (1 - t) * (-(2 / 10 ^ 8)) :=
            mul_le_mul_of_nonneg_left (by linarith) (by linarith)
          have a3 : (1 - t) * (-(2 / 10 ^ 8 : ℝ)) ≥ -(2 / 10 ^ 8) := by norm_num; linarith
          linarith
        linarith
      · intro _ g2 t t0 t1
        rw [hq, hd1]
        have : L ≤ c := by
          rcases g2 with g | g
          · exact g
          · linarith
        have e : dist2 p p0 - 2 * t * c + t ^ 2 * L - (dist2 p p0 - 2 * c + L) =
          (1 - t) * (2 * (c - L) + (1 - t) * L) := by ring
        have : 0 ≤ (1 - t) * (2 * (c - L) + (1 - t) * L) :=
          mul_nonneg (by linarith)
            (add_nonneg (by linarith) (mul_nonneg (by linarith) hL0))
        linarith
    · rw [if_neg h2]
      have h2' : c + 1 / 10 ^ 8 ≤ L := not_lt.mp h2
      have hLpos : 0 < L := by linarith [show (0 : ℝ) < 1 / 10 ^ 8 by norm_num]
      have e2 : p0 + (c / L) • (p1 - p0) = lerp p0 p1 (c / L) := by
        ext <;> simp [lerp]
      have hmin : ∀ t, dist2 p (lerp p0 p1 (c / L)) ≤ dist2 p (lerp p0 p1 t) := by
        intro t
        rw [hq, hq]
        have : 0 ≤ (t * L - c) ^ 2 / L := by positivity
        have e : dist2 p p0 - 2 * t * c + t ^ 2 * L -
          (dist2 p p0 - 2 * (c / L) * c + (c / L) ^ 2 * L) = (t * L - c) ^ 2 / L := by
          field_simp; ring
        linarith
      refine ⟨⟨c / L, by positivity, ?_, e2⟩, ?_, ?_⟩
      · rw [div_le_one hLpos]; linarith [show (0 : ℝ) < 1 / 10 ^ 8 by norm_num]
      · intro t _ _
        rw [e2]
        have := hmin t
        linarith [show (0 : ℝ) < 2 / 10 ^ 8 by norm_num]
      · intro _ _ t _ _
        rw [e2]; exact hmin t

/-- The exact part of C13 applies to (1, 1) above the segment from (0, 0) to (2, 0). -/
example : dist2 ⟨1, 1⟩ (closestPointOnLineSeg ⟨0, 0⟩ ⟨2, 0⟩ ⟨1, 1⟩) ≤ 1 := by
  have := (C13_closestPointOnLineSeg ⟨0, 0⟩ ⟨2, 0⟩ ⟨1, 1⟩).2.2 (Or.inr (by norm_num))
    (Or.inr (by norm_num [dist2])) (1 / 2) (by norm_num) (by norm_num)
  norm_num [lerp, dist2] at this ⊢
  exact this

end Cavc

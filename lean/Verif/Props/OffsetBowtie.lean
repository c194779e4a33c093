import Verif.Props.OffsetBothCases
import Verif.Props.OffsetPlain

/-!
A concrete case of C76: a polygon of four vertexes that crosses itself, offset to both sides. Each of the two raw
offsets meets itself once and the other one twice.
-/
namespace Cavc
open Spec
open scoped Classical
noncomputable section

/-- Lines that are apart are not found to meet. -/
theorem lines_apart {v1 v2 u1 u2 : Vertex} (h1 : IsLine v1) (h2 : IsLine u1)
    (hf : 1 / 10 ^ 8 ≤ |v1.pos.x - v2.pos.x| ∨ 1 / 10 ^ 8 ≤ |v1.pos.y - v2.pos.y|)
    (h : ∀ r, -(1 / 10 ^ 8) ≤ r → r ≤ 1 + 1 / 10 ^ 8 → 3 / 10 ^ 8 < |side v1.pos v2.pos (lerp u1.pos u2.pos r)|) :
    intrPlineSegs v1 v2 u1 u2 = .ok .noIntersect := by
  have key : ∀ p, ¬ LineLineReports u1.pos u2.pos (intrLineSeg2LineSeg2 v1.pos v2.pos u1.pos u2.pos) p := by
    intro p hp
    obtain ⟨a, -, b⟩ := (C18_sound v1.pos v2.pos u1.pos u2.pos).1 p hp
    obtain ⟨r, r0, r1, rfl⟩ := b hf
    have := h r r0 r1
    rcases a with ⟨-, a⟩ | a
    · rw [a, abs_zero] at this
      norm_num at this
    · linarith
  unfold intrPlineSegs
  rw [if_pos ⟨show v1.bulgeIsZero from h1, show u1.bulgeIsZero from h2⟩]
  cases hr : intrLineSeg2LineSeg2 v1.pos v2.pos u1.pos u2.pos with
  | none => rfl
  | falseIntr s t x => rfl
  | trueIntr x => exact absurd (by rw [hr]; simp [LineLineReports]) (key x)
  | coincident s t => exact absurd (by rw [hr]; simp [LineLineReports]) (key (lerp u1.pos u2.pos s))

/-- Lines that cross outside of the first segment. -/
theorem lines_miss {v1 v2 u1 u2 : Vertex} (h1 : IsLine v1) (h2 : IsLine u1)
    (hd : 1 / 10 ^ 8 < |(v2.pos.x - v1.pos.x) * (u2.pos.y - u1.pos.y) - (v2.pos.y - v1.pos.y) * (u2.pos.x - u1.pos.x)|)
    (h : ∀ s r, lerp v1.pos v2.pos s = lerp u1.pos u2.pos r → -(1 / 10 ^ 8) ≤ s → s ≤ 1 + 1 / 10 ^ 8 → False) :
    intrPlineSegs v1 v2 u1 u2 = .ok .noIntersect := by
  obtain ⟨t0, t1, p, e0, e1, -, hres⟩ := C18_crossing v1.pos v2.pos u1.pos u2.pos hd
  unfold intrPlineSegs
  rw [if_pos ⟨show v1.bulgeIsZero from h1, show u1.bulgeIsZero from h2⟩, hres,
    if_neg (fun c => h t0 t1 (e0.trans e1.symm) c.1 c.2.1)]

/-- Lines that cross. -/
theorem lines_cross {v1 v2 u1 u2 : Vertex} (h1 : IsLine v1) (h2 : IsLine u1) {x : V2} {s r : ℝ}
    (h : 1 / 10 ^ 8 < |(v2.pos.x - v1.pos.x) * (u2.pos.y - u1.pos.y) - (v2.pos.y - v1.pos.y) * (u2.pos.x - u1.pos.x)|)
    (hs0 : 0 ≤ s) (hs1 : s ≤ 1) (hr0 : 0 ≤ r) (hr1 : r ≤ 1) (hu : lerp v1.pos v2.pos s = x)
    (hv : lerp u1.pos u2.pos r = x) : intrPlineSegs v1 v2 u1 u2 = .ok (.oneIntersect x) := by
  unfold intrPlineSegs
  rw [if_pos ⟨show v1.bulgeIsZero from h1, show u1.bulgeIsZero from h2⟩, intr_true h hs0 hs1 hr0 hr1 hu hv]

/-- A corner of two lines. -/
theorem lines_corner {v1 v2 v3 : Vertex} (hn : ¬ Near (1 / 10 ^ 5) v1.pos v2.pos) (h1 : IsLine v1) (h2 : IsLine v2)
    (h : 1 / 10 ^ 8 < |(v2.pos.x - v1.pos.x) * (v3.pos.y - v2.pos.y) - (v2.pos.y - v1.pos.y) * (v3.pos.x - v2.pos.x)|) :
    consecutivePoints v1 v2 v3 = [] := by
  refine touch_none hn fun res hres => ?_
  rw [lines_cross h1 h2 h zero_le_one le_rfl le_rfl zero_le_one (lerp_one _ _) (lerp_zero _ _)] at hres
  exact Or.inr (Except.ok.inj hres).symm

/-! ### The polygon and its raw offsets -/

/-- The polygon: it crosses itself at (0, 150). -/
def bow : Polyline :=
  ⟨true, [⟨⟨-200, 0⟩, 0⟩, ⟨⟨200, 300⟩, 0⟩, ⟨⟨200, 0⟩, 0⟩, ⟨⟨-200, 300⟩, 0⟩]⟩

theorem bow_polygon : LinePolygon bow := ⟨rfl, by simp [bow], by simp [bow, isLine_zero]⟩

theorem bow_seg {i : ℕ} {v w : Vertex} (h : IsSeg bow i v w) :
    (v = ⟨⟨-200, 0⟩, 0⟩ ∧ w = ⟨⟨200, 300⟩, 0⟩) ∨ (v = ⟨⟨200, 300⟩, 0⟩ ∧ w = ⟨⟨200, 0⟩, 0⟩) ∨
    (v = ⟨⟨200, 0⟩, 0⟩ ∧ w = ⟨⟨-200, 300⟩, 0⟩) ∨ (v = ⟨⟨-200, 300⟩, 0⟩ ∧ w = ⟨⟨-200, 0⟩, 0⟩) := by
  have hs : segs bow = [(⟨⟨-200, 0⟩, 0⟩, ⟨⟨200, 300⟩, 0⟩), (⟨⟨200, 300⟩, 0⟩, ⟨⟨200, 0⟩, 0⟩),
    (⟨⟨200, 0⟩, 0⟩, ⟨⟨-200, 300⟩, 0⟩), (⟨⟨-200, 300⟩, 0⟩, ⟨⟨-200, 0⟩, 0⟩)] := rfl
  unfold IsSeg at h
  rw [hs] at h
  have := List.mem_of_getElem? h
  simpa using this

theorem bow_corner {i : ℕ} {a b c : V2} (h : IsCorner bow i a b c) :
    (i = 0 ∧ a = ⟨-200, 0⟩ ∧ b = ⟨200, 300⟩ ∧ c = ⟨200, 0⟩) ∨ (i = 1 ∧ a = ⟨200, 300⟩ ∧ b = ⟨200, 0⟩ ∧ c = ⟨-200, 300⟩) ∨
    (i = 2 ∧ a = ⟨200, 0⟩ ∧ b = ⟨-200, 300⟩ ∧ c = ⟨-200, 0⟩) ∨ (i = 3 ∧ a = ⟨-200, 300⟩ ∧ b = ⟨-200, 0⟩ ∧ c = ⟨200, 300⟩) := by
  obtain ⟨hi, rfl, rfl, rfl⟩ := (isCorner_iff rfl (by decide)).1 h
  have : i < 4 := hi
  interval_cases i <;> simp [ppos, vtx, bow, Polyline.size]

theorem bow_dist : distance ⟨-200, 0⟩ ⟨200, 300⟩ = 500 ∧ distance ⟨200, 300⟩ ⟨200, 0⟩ = 300 ∧
    distance ⟨200, 0⟩ ⟨-200, 300⟩ = 500 ∧ distance ⟨-200, 300⟩ ⟨-200, 0⟩ = 300 := by
  have h : ∀ {a b : V2} {r : ℝ}, 0 ≤ r → dist2 a b = r ^ 2 → distance a b = r := by
    intro a b r hr h
    unfold distance
    rw [h, Real.sqrt_sq hr]
  refine ⟨h ?_ ?_, h ?_ ?_, h ?_ ?_, h ?_ ?_⟩ <;> norm_num [dist2]

theorem bow_plain (σ : ℝ) (hσ : σ = 1 ∨ σ = -1) : PlainSizes bow (σ * 5) := by
  obtain ⟨d1, d2, d3, d4⟩ := bow_dist
  have h9 : |σ * 5| = 5 := by rw [abs_sign hσ]; exact abs_of_pos (by norm_num)
  have key : ∀ i v w, IsSeg bow i v w → (1 / 10 ≤ distance v.pos w.pos ∧ distance v.pos w.pos ≤ 10 ^ 6 * 5) ∧
      (|w.pos.x - v.pos.x| < 1 / 10 ^ 8 ∨ 1 / 10 ^ 4 ≤ |w.pos.x - v.pos.x|) := by
    intro i v w h
    rcases bow_seg h with ⟨rfl, rfl⟩ | ⟨rfl, rfl⟩ | ⟨rfl, rfl⟩ | ⟨rfl, rfl⟩
    · rw [d1]; exact ⟨by norm_num, Or.inr (by norm_num)⟩
    · rw [d2]; exact ⟨by norm_num, Or.inl (by norm_num)⟩
    · rw [d3]; exact ⟨by norm_num, Or.inr (by norm_num)⟩
    · rw [d4]; exact ⟨by norm_num, Or.inl (by norm_num)⟩
  exact ⟨by rw [h9]; norm_num, fun i v w h => (key i v w h).1.1, fun i v w h => by rw [h9]; exact (key i v w h).1.2,
    fun i v w h => (key i v w h).2⟩

theorem bow_moved (σ : ℝ) (x : V2) :
    movedLeft (σ * 5) ⟨-200, 0⟩ ⟨200, 300⟩ x = ⟨x.x - σ * 3, x.y + σ * 4⟩ ∧
    movedLeft (σ * 5) ⟨200, 300⟩ ⟨200, 0⟩ x = ⟨x.x + σ * 5, x.y⟩ ∧
    movedLeft (σ * 5) ⟨200, 0⟩ ⟨-200, 300⟩ x = ⟨x.x - σ * 3, x.y - σ * 4⟩ ∧
    movedLeft (σ * 5) ⟨-200, 300⟩ ⟨-200, 0⟩ x = ⟨x.x + σ * 5, x.y⟩ := by
  obtain ⟨h1, h2, h3, h4⟩ := bow_dist
  unfold movedLeft
  rw [h1, h2, h3, h4]
  refine ⟨?_, ?_, ?_, ?_⟩ <;> ext <;> simp only <;> ring

/-- The points of the raw offset, starting with the one beside the vertex before the two rounded ones. -/
def bowPts (σ : ℝ) : List (List V2) :=
  [[⟨σ * 197, 304⟩, ⟨σ * 205, 300⟩], [⟨σ * 205, 0⟩, ⟨σ * 197, -4⟩], [⟨σ * (-195), 290⟩], [⟨σ * (-195), 10⟩]]

/-- The corner of the polygon where these points begin. -/
def bowShift (σ : ℝ) : ℕ := if σ = 1 then 0 else 2

theorem bow_points (σ : ℝ) (hσ : σ = 1 ∨ σ = -1) {i : ℕ} {a b c : V2} (h : IsCorner bow i a b c) : side a b c ≠ 0 ∧
    ∃ l, CornerPoints (σ * 5) a b c l ∧ l = (bowPts σ).getD ((i + bowShift σ) % 4) [] := by
  have hm := bow_moved σ
  rcases hσ with rfl | rfl
  · have e : bowShift 1 = 0 := by norm_num [bowShift]
    rw [e]
    rcases bow_corner h with ⟨rfl, rfl, rfl, rfl⟩ | ⟨rfl, rfl, rfl, rfl⟩ | ⟨rfl, rfl, rfl, rfl⟩ | ⟨rfl, rfl, rfl, rfl⟩
    · refine ⟨by norm_num [side], _, Or.inr ⟨?_, rfl⟩, ?_⟩
      · rintro ⟨t0, t1, x, a0, a1, b0, b1, e0, e1⟩
        simp only [(hm _).1, (hm _).2.1] at e0 e1
        have hx := congrArg V2.x (e0.trans e1.symm)
        simp only [lerp] at hx
        linarith
      · simp only [(hm _).1, (hm _).2.1, bowPts]; norm_num
    · refine ⟨by norm_num [side], _, Or.inr ⟨?_, rfl⟩, ?_⟩
      · rintro ⟨t0, t1, x, a0, a1, b0, b1, e0, e1⟩
        simp only [(hm _).2.1, (hm _).2.2.1] at e0 e1
        have hx := congrArg V2.x (e0.trans e1.symm)
        simp only [lerp] at hx
        linarith
      · simp only [(hm _).2.1, (hm _).2.2.1, bowPts]; norm_num
    · refine ⟨by norm_num [side], _, Or.inl ⟨49 / 50, 1 / 30, ⟨-195, 290⟩, ?_, ?_, ?_, ?_, ⟨?_, ?_⟩, rfl⟩, ?_⟩
      all_goals first | (norm_num; done) | skip
      all_goals simp only [(hm _).2.2.1, (hm _).2.2.2, bowPts]; try (ext <;> norm_num [lerp])
    · refine ⟨by norm_num [side], _, Or.inl ⟨29 / 30, 1 / 50, ⟨-195, 10⟩, ?_, ?_, ?_, ?_, ⟨?_, ?_⟩, rfl⟩, ?_⟩
      all_goals first | (norm_num; done) | skip
      all_goals simp only [(hm _).2.2.2, (hm _).1, bowPts]; try (ext <;> norm_num [lerp])
  · have e : bowShift (-1) = 2 := by norm_num [bowShift]
    rw [e]
    rcases bow_corner h with ⟨rfl, rfl, rfl, rfl⟩ | ⟨rfl, rfl, rfl, rfl⟩ | ⟨rfl, rfl, rfl, rfl⟩ | ⟨rfl, rfl, rfl, rfl⟩
    · refine ⟨by norm_num [side], _, Or.inl ⟨49 / 50, 1 / 30, ⟨195, 290⟩, ?_, ?_, ?_, ?_, ⟨?_, ?_⟩, rfl⟩, ?_⟩
      all_goals first | (norm_num; done) | skip
      all_goals simp only [(hm _).1, (hm _).2.1, bowPts]; try (ext <;> norm_num [lerp])
    · refine ⟨by norm_num [side], _, Or.inl ⟨29 / 30, 1 / 50, ⟨195, 10⟩, ?_, ?_, ?_, ?_, ⟨?_, ?_⟩, rfl⟩, ?_⟩
      all_goals first | (norm_num; done) | skip
      all_goals simp only [(hm _).2.1, (hm _).2.2.1, bowPts]; try (ext <;> norm_num [lerp])
    · refine ⟨by norm_num [side], _, Or.inr ⟨?_, rfl⟩, ?_⟩
      · rintro ⟨t0, t1, x, a0, a1, b0, b1, e0, e1⟩
        simp only [(hm _).2.2.1, (hm _).2.2.2] at e0 e1
        have hx := congrArg V2.x (e0.trans e1.symm)
        simp only [lerp] at hx
        linarith
      · simp only [(hm _).2.2.1, (hm _).2.2.2, bowPts]; norm_num
    · refine ⟨by norm_num [side], _, Or.inr ⟨?_, rfl⟩, ?_⟩
      · rintro ⟨t0, t1, x, a0, a1, b0, b1, e0, e1⟩
        simp only [(hm _).2.2.2, (hm _).1] at e0 e1
        have hx := congrArg V2.x (e0.trans e1.symm)
        simp only [lerp] at hx
        linarith
      · simp only [(hm _).2.2.2, (hm _).1, bowPts]; norm_num

theorem bow_clear (σ : ℝ) (hσ : σ = 1 ∨ σ = -1) : ClearOffset bow (σ * 5) := by
  have hm := bow_moved σ
  have hcor : ∀ i < 4, ∃ a b c, IsCorner bow i a b c := fun i hi =>
    ⟨_, _, _, (isCorner_iff rfl (by decide)).2 ⟨hi, rfl, rfl, rfl⟩⟩
  refine ⟨?_, ?_, ?_, ?_⟩
  · intro i v1 v2 h hn
    rcases bow_seg h with ⟨rfl, rfl⟩ | ⟨rfl, rfl⟩ | ⟨rfl, rfl⟩ | ⟨rfl, rfl⟩ <;>
      norm_num [Near, abs_of_neg] at hn
  · intro i a b c h
    obtain ⟨d1, d2, d3, d4⟩ := bow_dist
    refine ⟨?_, ?_, ?_⟩
    · rcases bow_corner h with ⟨rfl, rfl, rfl, rfl⟩ | ⟨rfl, rfl, rfl, rfl⟩ | ⟨rfl, rfl, rfl, rfl⟩ |
        ⟨rfl, rfl, rfl, rfl⟩ <;> norm_num [side, abs_of_neg]
    · rcases bow_corner h with ⟨rfl, rfl, rfl, rfl⟩ | ⟨rfl, rfl, rfl, rfl⟩ | ⟨rfl, rfl, rfl, rfl⟩ |
        ⟨rfl, rfl, rfl, rfl⟩ <;> simp only [d1, d2, d3, d4] <;> norm_num [side, abs_of_neg]
    · rcases hσ with rfl | rfl <;>
      rcases bow_corner h with ⟨rfl, rfl, rfl, rfl⟩ | ⟨rfl, rfl, rfl, rfl⟩ | ⟨rfl, rfl, rfl, rfl⟩ |
        ⟨rfl, rfl, rfl, rfl⟩
      all_goals
        rintro t0 t1 x ⟨e0, e1⟩ a0 a1 b0 b1
        simp only [(hm _).1, (hm _).2.1, (hm _).2.2.1, (hm _).2.2.2] at e0 e1
        have hx := congrArg V2.x (e0.trans e1.symm)
        have hy := congrArg V2.y (e0.trans e1.symm)
        simp only [lerp] at hx hy
        norm_num at a0 a1 b0 b1
        exact ⟨by linarith, by linarith, by linarith, by linarith⟩
  · rintro pts ⟨hlen, hpts⟩ x hx
    have hlen' : pts.length = 4 := hlen
    have e : pts = (bowPts σ).rotate (bowShift σ) := by
      apply List.ext_getElem?
      intro i
      have hl4 : (bowPts σ).length = 4 := rfl
      by_cases hi : i < 4
      · obtain ⟨a, b, c, h⟩ := hcor i hi
        obtain ⟨hS, l, hl, el⟩ := bow_points σ hσ h
        obtain ⟨l', hl', hr⟩ := hpts i a b c h
        rw [hl', cornerPoints_unique hS hr hl, el, List.getElem?_rotate (by omega), hl4, List.getD_eq_getElem?_getD,
          List.getElem?_eq_getElem (by rw [hl4]; exact Nat.mod_lt _ (by norm_num))]
        rfl
      · rw [List.getElem?_eq_none (by omega), List.getElem?_eq_none (by simp [bowPts]; omega)]
    subst e
    rcases hσ with rfl | rfl
    · have e : bowShift 1 = 0 := by norm_num [bowShift]
      rw [e] at hx
      simp only [bowPts, List.rotate_zero, List.flatten_cons, List.flatten_nil, List.append_nil, List.cons_append, List.nil_append,
        zip_rotate_one, pairsTo, List.mem_cons, List.not_mem_nil, or_false] at hx
      rcases hx with rfl | rfl | rfl | rfl | rfl | rfl <;> intro hn <;> norm_num [Near, abs_of_neg] at hn
    · have e : bowShift (-1) = 2 := by norm_num [bowShift]
      have e' : (bowPts (-1)).rotate 2 = [[⟨-1 * (-195), 290⟩], [⟨-1 * (-195), 10⟩], [⟨-1 * 197, 304⟩, ⟨-1 * 205, 300⟩],
        [⟨-1 * 205, 0⟩, ⟨-1 * 197, -4⟩]] := rfl
      rw [e, e'] at hx
      simp only [List.flatten_cons, List.flatten_nil, List.append_nil, List.cons_append, List.nil_append,
        zip_rotate_one, pairsTo, List.mem_cons, List.not_mem_nil, or_false] at hx
      rcases hx with rfl | rfl | rfl | rfl | rfl | rfl <;> intro hn <;> norm_num [Near, abs_of_neg] at hn
  · intro a b c l x h hl hx hn
    obtain ⟨hS, l', hl', el⟩ := bow_points σ hσ h
    rw [cornerPoints_unique hS hl hl', el] at hx
    rcases bow_corner h with ⟨-, rfl, rfl, rfl⟩ | ⟨h, -⟩ | ⟨h, -⟩ | ⟨h, -⟩
    · rw [(hm _).1] at hn
      rcases hσ with rfl | rfl
      · rw [show bowShift 1 = 0 by norm_num [bowShift]] at hx
        simp [bowPts] at hx
        subst hx
        norm_num [Near, abs_of_neg] at hn
      · rw [show bowShift (-1) = 2 by norm_num [bowShift]] at hx
        simp [bowPts] at hx
        subst hx
        norm_num [Near, abs_of_neg] at hn
    all_goals omega


/-! ### The raw offsets -/

/-- A line of the raw offset. -/
structure BowLine (σ lx hx ly hy : ℝ) (P Q : V2) (v w : Vertex) : Prop where
  start : v.pos = ⟨σ * P.x, P.y⟩
  stop : w.pos = ⟨σ * Q.x, Q.y⟩
  line : IsLine v
  inBox : SegIn σ lx hx ly hy v w

/-- An arc of the raw offset. -/
structure BowArc (σ lx hx ly hy : ℝ) (P Q C : V2) (v w : Vertex) : Prop where
  start : v.pos = ⟨σ * P.x, P.y⟩
  stop : w.pos = ⟨σ * Q.x, Q.y⟩
  arc : ¬ IsLine v
  half : |v.bulge| ≤ 1
  center : IsCenter v w ⟨σ * C.x, C.y⟩
  wide : 1 / 10 ^ 4 ≤ |sweep v|
  inBox : SegIn σ lx hx ly hy v w

/-- The segments of the raw offset to the side `σ`, `k` counts from the line that starts beside the vertex before the
two rounded ones. -/
def BowSeg (σ : ℝ) (k : ℕ) (v w : Vertex) : Prop :=
  (k = 0 ∧ BowLine σ (-195) 197 10 304 ⟨-195, 10⟩ ⟨197, 304⟩ v w) ∨
  (k = 1 ∧ BowArc σ 197 207 300 308 ⟨197, 304⟩ ⟨205, 300⟩ ⟨200, 300⟩ v w) ∨
  (k = 2 ∧ BowLine σ 205 205 0 300 ⟨205, 300⟩ ⟨205, 0⟩ v w) ∨
  (k = 3 ∧ BowArc σ 197 207 (-8) 0 ⟨205, 0⟩ ⟨197, -4⟩ ⟨200, 0⟩ v w) ∨
  (k = 4 ∧ BowLine σ (-195) 197 (-4) 290 ⟨197, -4⟩ ⟨-195, 290⟩ v w) ∨
  (k = 5 ∧ BowLine σ (-195) (-195) 10 290 ⟨-195, 290⟩ ⟨-195, 10⟩ v w)

/-- The raw offset to the side `σ`; its segment `k` has the number `(k + bowShift σ) % 6`. -/
structure IsBow (σ : ℝ) (q : Polyline) : Prop where
  sign : σ = 1 ∨ σ = -1
  closed : q.isClosed = true
  six : q.vertexes.length = 6
  six' : (segs q).length = 6
  seg : ∀ i v w, IsSeg q i v w → ∃ k < 6, i = (k + bowShift σ) % 6 ∧ BowSeg σ k v w

theorem bow_line {σ : ℝ} (hσ : σ = 1 ∨ σ = -1) {v w : Vertex} {P Q : V2} (hv : v.pos = ⟨σ * P.x, P.y⟩)
    (hw : w.pos = ⟨σ * Q.x, Q.y⟩) (hl : IsLine v) {lx hx ly hy : ℝ} (h1 : lx ≤ P.x ∧ P.x ≤ hx)
    (h2 : lx ≤ Q.x ∧ Q.x ≤ hx) (h3 : ly ≤ P.y ∧ P.y ≤ hy) (h4 : ly ≤ Q.y ∧ Q.y ≤ hy) : BowLine σ lx hx ly hy P Q v w :=
  ⟨hv, hw, hl, (side_in hσ hl (by rw [hv]) (by rw [hw]) (by rw [hv]) (by rw [hw]) h1 h2 h3 h4).inBox⟩

theorem bow_arc {σ : ℝ} (hσ : σ = 1 ∨ σ = -1) {v w : Vertex} {P Q C : V2} (hv : v.pos = ⟨σ * P.x, P.y⟩)
    (hw : w.pos = ⟨σ * Q.x, Q.y⟩) (hc : CircularAbout ⟨σ * C.x, C.y⟩ 5 v w) (hb : σ * v.bulge < 0)
    (hcr : 1 ≤ |(P.x - C.x) * (Q.y - C.y) - (P.y - C.y) * (Q.x - C.x)|) {lx hx ly hy : ℝ}
    (h1 : ∀ t, 0 ≤ t → t ≤ 1 → lx ≤ P.x - t * (Q.y - P.y) / 2 ∧ P.x - t * (Q.y - P.y) / 2 ≤ hx ∧
      lx ≤ Q.x - t * (Q.y - P.y) / 2 ∧ Q.x - t * (Q.y - P.y) / 2 ≤ hx)
    (h2 : ∀ t, 0 ≤ t → t ≤ 1 → ly ≤ P.y + t * (Q.x - P.x) / 2 ∧ P.y + t * (Q.x - P.x) / 2 ≤ hy ∧
      ly ≤ Q.y + t * (Q.x - P.x) / 2 ∧ Q.y + t * (Q.x - P.x) / 2 ≤ hy) : BowArc σ lx hx ly hy P Q C v w := by
  have hσ2 : σ * σ = 1 := by rcases hσ with e | e <;> rw [e] <;> norm_num
  have e4 : -(σ * v.bulge) ≤ 1 := by
    have := hc.2.2
    rw [← abs_sign hσ (z := v.bulge), abs_of_neg hb] at this
    exact this
  have z1 := h1 0 le_rfl zero_le_one
  have z2 := h2 0 le_rfl zero_le_one
  simp only [zero_mul, zero_div, add_zero, sub_zero] at z1 z2
  have k1 := h1 (-(σ * v.bulge)) (by linarith) e4
  have k2 := h2 (-(σ * v.bulge)) (by linarith) e4
  obtain ⟨a1, a2, a3, a4⟩ := box_ends (v := v) (w := w) (P := fun z => lx ≤ σ * z ∧ σ * z ≤ hx) (Q := fun z => ly ≤ z ∧ z ≤ hy)
    (by rw [hv, ← mul_assoc, hσ2, one_mul]; exact ⟨z1.1, z1.2.1⟩)
    (by rw [hw, ← mul_assoc, hσ2, one_mul]; exact z1.2.2)
    (by rw [hv]; exact ⟨z2.1, z2.2.1⟩) (by rw [hw]; exact z2.2.2) fun _ => by
      rw [hv, hw]
      simp only
      rw [show σ * (σ * P.x + v.bulge * (Q.y - P.y) / 2) = σ * σ * P.x - -(σ * v.bulge) * (Q.y - P.y) / 2 by ring,
        show σ * (σ * Q.x + v.bulge * (Q.y - P.y) / 2) = σ * σ * Q.x - -(σ * v.bulge) * (Q.y - P.y) / 2 by ring, hσ2, one_mul,
        one_mul,
        show P.y + -v.bulge * (σ * Q.x - σ * P.x) / 2 = P.y + -(σ * v.bulge) * (Q.x - P.x) / 2 by ring,
        show Q.y + -v.bulge * (σ * Q.x - σ * P.x) / 2 = Q.y + -(σ * v.bulge) * (Q.x - P.x) / 2 by ring]
      exact ⟨⟨k1.1, k1.2.1⟩, k1.2.2, ⟨k2.1, k2.2.1⟩, k2.2.2⟩
  have hx : 1 ≤ |cross ⟨σ * C.x, C.y⟩ v.pos w.pos| := by
    rw [hv, hw]
    simp only [cross]
    rw [show (σ * P.x - σ * C.x) * (Q.y - C.y) - (P.y - C.y) * (σ * Q.x - σ * C.x) =
      σ * ((P.x - C.x) * (Q.y - C.y) - (P.y - C.y) * (Q.x - C.x)) by ring, abs_sign hσ]
    exact hcr
  refine ⟨hv, hw, not_line_of_sweep (by norm_num) hc (le_trans (by norm_num) hx), hc.2.2, hc.1, ?_, a1, a2, a3, a4⟩
  have hd2 : dist2 v.pos ⟨σ * C.x, C.y⟩ = 5 ^ 2 := by rw [← distance_sq, hc.2.1]
  have hs : cross ⟨σ * C.x, C.y⟩ v.pos w.pos = 5 ^ 2 * Real.sin (sweep v) := by
    rw [← show rot _ (sweep v) v.pos = w.pos from hc.1, ← hd2]
    simp only [cross, rot, dist2]; ring
  rw [hs, abs_mul, abs_of_pos (by norm_num)] at hx
  have := Real.abs_sin_le_abs (x := sweep v)
  norm_num at hx ⊢
  linarith

theorem bow_raw (σ : ℝ) (hσ : σ = 1 ∨ σ = -1) : ∃ q, IsBow σ q ∧ createRawOffsetPline bow (σ * 5) = .ok q := by
  obtain ⟨raw, ls, hraw, hc, ⟨hlen, hall⟩, hv⟩ := C62_raw (p := bow) (offset := σ * 5) rfl
    bow_polygon.lines bow_polygon.two (bow_clear σ hσ)
  refine ⟨raw, ?_, hraw⟩
  have h5 : |σ * 5| = 5 := by rw [abs_sign hσ]; exact abs_of_pos (by norm_num)
  have hσ2 : σ * σ = 1 := by rcases hσ with e | e <;> rw [e] <;> norm_num
  have hcor : ∀ i < 4, IsCorner bow i _ _ _ := fun i hi =>
    (isCorner_iff rfl (by decide)).2 ⟨hi, rfl, rfl, rfl⟩
  have two : ∀ i < 4, ∀ {P Q : V2}, (bowPts σ).getD ((i + bowShift σ) % 4) [] = [P, Q] →
      σ * 5 * side (ppos bow i) (ppos bow (i + 1)) (ppos bow (i + 2)) < 0 →
      ∃ w w', ls[i]? = some [w, w'] ∧ w.pos = P ∧ w'.pos = Q ∧ IsLine w' ∧
        CircularAbout (ppos bow (i + 1)) 5 w w' ∧ σ * w.bulge < 0 := by
    intro i hi P Q hp hs
    obtain ⟨l, hl, hr⟩ := hall i _ _ _ (hcor i hi)
    obtain ⟨hS, l', hl', el⟩ := bow_points σ hσ (hcor i hi)
    have e := cornerPoints_unique hS hr.1 hl'
    rw [el, hp] at e
    rcases hr.2 with ⟨v, rfl, -⟩ | ⟨w, w', rfl, hw', hif⟩
    · simp at e
    · simp only [List.map_cons, List.map_nil, List.cons.injEq, and_true] at e
      rw [if_pos hs, h5] at hif
      exact ⟨w, w', hl, e.1, e.2, hw', hif.1, by linarith [hif.2]⟩
  have one : ∀ i < 4, ∀ {P : V2}, (bowPts σ).getD ((i + bowShift σ) % 4) [] = [P] →
      ∃ w, ls[i]? = some [w] ∧ w.pos = P ∧ IsLine w := by
    intro i hi P hp
    obtain ⟨l, hl, hr⟩ := hall i _ _ _ (hcor i hi)
    obtain ⟨hS, l', hl', el⟩ := bow_points σ hσ (hcor i hi)
    have e := cornerPoints_unique hS hr.1 hl'
    rw [el, hp] at e
    rcases hr.2 with ⟨v, rfl, hv⟩ | ⟨w, w', rfl, hw', hif⟩
    · simp only [List.map_cons, List.map_nil, List.cons.injEq, and_true] at e
      exact ⟨v, hl, e, hv⟩
    · simp at e
  have four : ∀ {a b c d : List Vertex}, ls[0]? = some a → ls[1]? = some b → ls[2]? = some c → ls[3]? = some d →
      ls = [a, b, c, d] := by
    intro a b c d h0 h1 h2 h3
    have hlen' : ls.length = 4 := hlen
    apply List.ext_getElem?
    intro i
    by_cases hi : i < 4
    · interval_cases i
      · exact h0
      · exact h1
      · exact h2
      · exact h3
    · rw [List.getElem?_eq_none (by omega), List.getElem?_eq_none (by simp; omega)]
  have hpp : ppos bow 0 = ⟨-200, 0⟩ ∧ ppos bow 1 = ⟨200, 300⟩ ∧ ppos bow 2 = ⟨200, 0⟩ ∧ ppos bow 3 = ⟨-200, 300⟩ ∧
      ppos bow 4 = ⟨-200, 0⟩ ∧ ppos bow 5 = ⟨200, 300⟩ := by
    simp [ppos, vtx, bow, Polyline.size]
  obtain ⟨p0, p1, p2, p3, p4, p5⟩ := hpp
  -- the six vertexes
  have fin : ∀ w0 w1 w2 w3 w4 w5 : Vertex, w0.pos = ⟨σ * (-195), 10⟩ → IsLine w0 → w1.pos = ⟨σ * 197, 304⟩ →
      CircularAbout ⟨σ * 200, 300⟩ 5 w1 w2 → σ * w1.bulge < 0 → w2.pos = ⟨σ * 205, 300⟩ → IsLine w2 →
      w3.pos = ⟨σ * 205, 0⟩ → CircularAbout ⟨σ * 200, 0⟩ 5 w3 w4 → σ * w3.bulge < 0 → w4.pos = ⟨σ * 197, -4⟩ → IsLine w4 →
      w5.pos = ⟨σ * (-195), 290⟩ → IsLine w5 →
      BowSeg σ 0 w0 w1 ∧ BowSeg σ 1 w1 w2 ∧ BowSeg σ 2 w2 w3 ∧ BowSeg σ 3 w3 w4 ∧ BowSeg σ 4 w4 w5 ∧ BowSeg σ 5 w5 w0 := by
    intro w0 w1 w2 w3 w4 w5 e0 l0 e1 c1 b1 e2 l2 e3 c3 b3 e4 l4 e5 l5
    refine ⟨Or.inl ⟨rfl, ?_⟩, Or.inr (Or.inl ⟨rfl, ?_⟩), Or.inr (Or.inr (Or.inl ⟨rfl, ?_⟩)),
      Or.inr (Or.inr (Or.inr (Or.inl ⟨rfl, ?_⟩))), Or.inr (Or.inr (Or.inr (Or.inr (Or.inl ⟨rfl, ?_⟩)))),
      Or.inr (Or.inr (Or.inr (Or.inr (Or.inr ⟨rfl, ?_⟩))))⟩
    · exact bow_line hσ e0 e1 l0 (by norm_num) (by norm_num) (by norm_num) (by norm_num)
    · refine bow_arc hσ e1 e2 c1 b1 (by norm_num [abs_of_neg]) (fun t t0 t1 => ?_) (fun t t0 t1 => ?_) <;>
        refine ⟨?_, ?_, ?_, ?_⟩ <;> simp only <;> linarith
    · exact bow_line hσ e2 e3 l2 (by norm_num) (by norm_num) (by norm_num) (by norm_num)
    · refine bow_arc hσ e3 e4 c3 b3 (by norm_num [abs_of_neg]) (fun t t0 t1 => ?_) (fun t t0 t1 => ?_) <;>
        refine ⟨?_, ?_, ?_, ?_⟩ <;> simp only <;> linarith
    · exact bow_line hσ e4 e5 l4 (by norm_num) (by norm_num) (by norm_num) (by norm_num)
    · exact bow_line hσ e5 e0 l5 (by norm_num) (by norm_num) (by norm_num) (by norm_num)
  rcases hσ with rfl | rfl
  · have e : bowShift 1 = 0 := by norm_num [bowShift]
    obtain ⟨w1, w2, g1, e1, e2, l2, c1, b1⟩ := two 0 (by norm_num) (P := ⟨1 * 197, 304⟩) (Q := ⟨1 * 205, 300⟩) (by rw [e]; rfl)
      (by simp only [zero_add, p0, p1, p2]; norm_num [side])
    obtain ⟨w3, w4, g2, e3, e4, l4, c3, b3⟩ := two 1 (by norm_num) (P := ⟨1 * 205, 0⟩) (Q := ⟨1 * 197, -4⟩) (by rw [e]; rfl)
      (by simp only [Nat.reduceAdd, p3, p1, p2]; norm_num [side])
    obtain ⟨w5, g3, e5, l5⟩ := one 2 (by norm_num) (P := ⟨1 * (-195), 290⟩) (by rw [e]; rfl)
    obtain ⟨w0, g4, e0, l0⟩ := one 3 (by norm_num) (P := ⟨1 * (-195), 10⟩) (by rw [e]; rfl)
    simp only [zero_add, Nat.reduceAdd, p1, p2] at c1 c3
    have hls := four g1 g2 g3 g4
    subst hls
    have hv' : raw.vertexes = [w0, w1, w2, w3, w4, w5] := hv
    obtain ⟨f0, f1, f2, f3, f4, f5⟩ := fin w0 w1 w2 w3 w4 w5 e0 l0 e1 (by rw [one_mul]; exact c1) b1 e2 l2 e3
      (by rw [one_mul]; exact c3) b3 e4 l4 e5 l5
    have hsg : segs raw = [(w0, w1), (w1, w2), (w2, w3), (w3, w4), (w4, w5), (w5, w0)] := by
      obtain ⟨cl, vs⟩ := raw
      simp only at hc hv'
      subst hc hv'
      rfl
    refine ⟨Or.inl rfl, hc, by rw [hv']; rfl, by rw [hsg]; rfl, ?_⟩
    intro i v w hs
    unfold IsSeg at hs
    rw [hsg] at hs
    rw [e]
    match i, hs with
    | 0, hs => cases hs; exact ⟨0, by norm_num, rfl, f0⟩
    | 1, hs => cases hs; exact ⟨1, by norm_num, rfl, f1⟩
    | 2, hs => cases hs; exact ⟨2, by norm_num, rfl, f2⟩
    | 3, hs => cases hs; exact ⟨3, by norm_num, rfl, f3⟩
    | 4, hs => cases hs; exact ⟨4, by norm_num, rfl, f4⟩
    | 5, hs => cases hs; exact ⟨5, by norm_num, rfl, f5⟩
    | n + 6, hs => simp at hs
  · have e : bowShift (-1) = 2 := by norm_num [bowShift]
    obtain ⟨w1, w2, g3, e1, e2, l2, c1, b1⟩ := two 2 (by norm_num) (P := ⟨-1 * 197, 304⟩) (Q := ⟨-1 * 205, 300⟩) (by rw [e]; rfl)
      (by simp only [Nat.reduceAdd, p2, p3, p4]; norm_num [side])
    obtain ⟨w3, w4, g4, e3, e4, l4, c3, b3⟩ := two 3 (by norm_num) (P := ⟨-1 * 205, 0⟩) (Q := ⟨-1 * 197, -4⟩) (by rw [e]; rfl)
      (by simp only [Nat.reduceAdd, p3, p4, p5]; norm_num [side])
    obtain ⟨w5, g1, e5, l5⟩ := one 0 (by norm_num) (P := ⟨-1 * (-195), 290⟩) (by rw [e]; rfl)
    obtain ⟨w0, g2, e0, l0⟩ := one 1 (by norm_num) (P := ⟨-1 * (-195), 10⟩) (by rw [e]; rfl)
    simp only [Nat.reduceAdd, p3, p4] at c1 c3
    have hls := four g1 g2 g3 g4
    subst hls
    have hv' : raw.vertexes = [w4, w5, w0, w1, w2, w3] := hv
    obtain ⟨f0, f1, f2, f3, f4, f5⟩ := fin w0 w1 w2 w3 w4 w5 e0 l0 e1 (by rw [neg_one_mul]; exact c1) b1 e2 l2 e3
      (by rw [neg_one_mul]; exact c3) b3 e4 l4 e5 l5
    have hsg : segs raw = [(w4, w5), (w5, w0), (w0, w1), (w1, w2), (w2, w3), (w3, w4)] := by
      obtain ⟨cl, vs⟩ := raw
      simp only at hc hv'
      subst hc hv'
      rfl
    refine ⟨Or.inr rfl, hc, by rw [hv']; rfl, by rw [hsg]; rfl, ?_⟩
    intro i v w hs
    unfold IsSeg at hs
    rw [hsg] at hs
    rw [e]
    match i, hs with
    | 0, hs => cases hs; exact ⟨4, by norm_num, rfl, f4⟩
    | 1, hs => cases hs; exact ⟨5, by norm_num, rfl, f5⟩
    | 2, hs => cases hs; exact ⟨0, by norm_num, rfl, f0⟩
    | 3, hs => cases hs; exact ⟨1, by norm_num, rfl, f1⟩
    | 4, hs => cases hs; exact ⟨2, by norm_num, rfl, f2⟩
    | 5, hs => cases hs; exact ⟨3, by norm_num, rfl, f3⟩
    | n + 6, hs => simp at hs


/-- The points of the segments of the raw offset, with the sign `σ` for the x coordinate. -/
def BowAt (k : ℕ) (X y : ℝ) : Prop :=
  (k = 0 ∧ -195 ≤ X ∧ X ≤ 197 ∧ y = 10 + 3 / 4 * (X + 195)) ∨
  (k = 1 ∧ 197 ≤ X ∧ X ≤ 207 ∧ 300 ≤ y ∧ y ≤ 308) ∨
  (k = 2 ∧ X = 205 ∧ 0 ≤ y ∧ y ≤ 300) ∨
  (k = 3 ∧ 197 ≤ X ∧ X ≤ 207 ∧ -8 ≤ y ∧ y ≤ 0) ∨
  (k = 4 ∧ -195 ≤ X ∧ X ≤ 197 ∧ y = -4 + 3 / 4 * (197 - X)) ∨
  (k = 5 ∧ X = -195 ∧ 10 ≤ y ∧ y ≤ 290)

theorem BowLine.on {σ lx hx ly hy : ℝ} (hσ : σ = 1 ∨ σ = -1) {P Q : V2} {v w : Vertex} (h : BowLine σ lx hx ly hy P Q v w) {x : V2}
    (ho : OnSeg v w x) : ∃ t, 0 ≤ t ∧ t ≤ 1 ∧ σ * x.x = P.x + t * (Q.x - P.x) ∧ x.y = P.y + t * (Q.y - P.y) := by
  obtain ⟨t, t0, t1, rfl⟩ := (onSeg_line h.line).1 ho
  have hσ2 : σ * σ = 1 := by rcases hσ with e | e <;> rw [e] <;> norm_num
  refine ⟨t, t0, t1, ?_, ?_⟩
  · simp only [lerp, h.start, h.stop]
    linear_combination (P.x + t * (Q.x - P.x)) * hσ2
  · simp only [lerp, h.start, h.stop]

theorem BowSeg.ok {σ : ℝ} {k : ℕ} {v w : Vertex} (h : BowSeg σ k v w) : SegOk v w := by
  have hl : ∀ {lx hx ly hy : ℝ} {P Q : V2}, BowLine σ lx hx ly hy P Q v w → SegOk v w := fun hv =>
    ⟨by have := hv.line; unfold IsLine at this; linarith [show (1 : ℝ) / 10 ^ 5 ≤ 1 by norm_num], fun hn => absurd hv.line hn⟩
  have ha : ∀ {lx hx ly hy : ℝ} {P Q C : V2}, BowArc σ lx hx ly hy P Q C v w → 1 ≤ |P.y - Q.y| → SegOk v w :=
    fun hv h1 => ⟨hv.half, fun _ => Or.inr (by rw [hv.start, hv.stop]; exact le_trans (by norm_num) h1)⟩
  rcases h with ⟨-, h⟩ | ⟨-, h⟩ | ⟨-, h⟩ | ⟨-, h⟩ | ⟨-, h⟩ | ⟨-, h⟩
  · exact hl h
  · exact ha h (by norm_num [abs_of_pos])
  · exact hl h
  · exact ha h (by norm_num [abs_of_pos])
  · exact hl h
  · exact hl h

theorem BowSeg.on {σ : ℝ} {k : ℕ} {v w : Vertex} (hσ : σ = 1 ∨ σ = -1) (h : BowSeg σ k v w) {x : V2} (ho : OnSeg v w x) :
    BowAt k (σ * x.x) x.y := by
  have hok := h.ok
  unfold BowAt
  rcases h with ⟨rfl, h⟩ | ⟨rfl, h⟩ | ⟨rfl, h⟩ | ⟨rfl, h⟩ | ⟨rfl, h⟩ | ⟨rfl, h⟩
  · obtain ⟨t, t0, t1, e1, e2⟩ := h.on hσ ho
    simp only at e1 e2
    exact Or.inl ⟨rfl, by linarith, by linarith, by linarith⟩
  · exact Or.inr (Or.inl ⟨rfl, h.inBox.point hσ hok ho⟩)
  · obtain ⟨t, t0, t1, e1, e2⟩ := h.on hσ ho
    simp only at e1 e2
    exact Or.inr (Or.inr (Or.inl ⟨rfl, by linarith, by linarith, by linarith⟩))
  · exact Or.inr (Or.inr (Or.inr (Or.inl ⟨rfl, h.inBox.point hσ hok ho⟩)))
  · obtain ⟨t, t0, t1, e1, e2⟩ := h.on hσ ho
    simp only at e1 e2
    exact Or.inr (Or.inr (Or.inr (Or.inr (Or.inl ⟨rfl, by linarith, by linarith, by linarith⟩))))
  · obtain ⟨t, t0, t1, e1, e2⟩ := h.on hσ ho
    simp only at e1 e2
    exact Or.inr (Or.inr (Or.inr (Or.inr (Or.inr ⟨rfl, by linarith, by linarith, by linarith⟩))))

theorem BowSeg.ends {σ : ℝ} {k : ℕ} {v w : Vertex} (h : BowSeg σ k v w) :
    (k = 0 ∧ v.pos = ⟨σ * (-195), 10⟩ ∧ w.pos = ⟨σ * 197, 304⟩) ∨ (k = 1 ∧ v.pos = ⟨σ * 197, 304⟩ ∧ w.pos = ⟨σ * 205, 300⟩) ∨
    (k = 2 ∧ v.pos = ⟨σ * 205, 300⟩ ∧ w.pos = ⟨σ * 205, 0⟩) ∨ (k = 3 ∧ v.pos = ⟨σ * 205, 0⟩ ∧ w.pos = ⟨σ * 197, -4⟩) ∨
    (k = 4 ∧ v.pos = ⟨σ * 197, -4⟩ ∧ w.pos = ⟨σ * (-195), 290⟩) ∨
    (k = 5 ∧ v.pos = ⟨σ * (-195), 290⟩ ∧ w.pos = ⟨σ * (-195), 10⟩) := by
  rcases h with ⟨rfl, h⟩ | ⟨rfl, h⟩ | ⟨rfl, h⟩ | ⟨rfl, h⟩ | ⟨rfl, h⟩ | ⟨rfl, h⟩ <;> simp [h.start, h.stop]

theorem BowSeg.far {σ : ℝ} {k : ℕ} {v w : Vertex} (h : BowSeg σ k v w) : 1 ≤ |v.pos.y - w.pos.y| := by
  rcases h.ends with ⟨-, h1, h2⟩ | ⟨-, h1, h2⟩ | ⟨-, h1, h2⟩ | ⟨-, h1, h2⟩ | ⟨-, h1, h2⟩ | ⟨-, h1, h2⟩ <;> rw [h1, h2] <;>
    norm_num [abs_of_neg]

theorem BowSeg.not_near {σ : ℝ} {k : ℕ} {v w : Vertex} (h : BowSeg σ k v w) {ε : ℝ} (hε : ε ≤ 1) : ¬ Near ε v.pos w.pos := by
  rintro ⟨-, n2⟩
  linarith [h.far]

theorem BowSeg.long {σ : ℝ} {k : ℕ} {v w : Vertex} (h : BowSeg σ k v w) : 1 / 10 ^ 8 ≤ dist2 v.pos w.pos := by
  have := pow_le_pow_left₀ (by norm_num) h.far 2
  rw [sq_abs] at this
  unfold dist2
  nlinarith [sq_nonneg (v.pos.x - w.pos.x)]

theorem bowShift_or {σ : ℝ} : bowShift σ = 0 ∨ bowShift σ = 2 := by
  unfold bowShift
  split_ifs <;> simp

section
variable {σ : ℝ} {q : Polyline}

theorem IsBow.ok (h : IsBow σ q) : PlineOk q := by
  intro i v w hs
  obtain ⟨k, -, -, hk⟩ := h.seg i v w hs
  exact hk.ok

theorem IsBow.arcs (h : IsBow σ q) : LongArcs q := by
  intro i v w hs _
  obtain ⟨k, -, -, hk⟩ := h.seg i v w hs
  exact hk.not_near (by norm_num)

theorem IsBow.indexable (h : IsBow σ q) (inf ninf : ℝ) : Indexable (codePlatform inf ninf) q :=
  indexable_code (by rw [h.six]; norm_num) (by rw [h.six']; norm_num) _ _
    (Or.inl (by rw [h.six']; norm_num)) fun i v1 v2 hs => (h.ok i v1 v2 hs).half

/-- The segment `k`. -/
theorem IsBow.get (h : IsBow σ q) {k : ℕ} (hk : k < 6) : ∃ v w, IsSeg q ((k + bowShift σ) % 6) v w ∧ BowSeg σ k v w := by
  have hsz : q.size = 6 := h.six
  have g1 := closed_isSeg h.closed (by omega) (k := (k + bowShift σ) % 6) (by omega)
  obtain ⟨k', h1, h2, h3⟩ := h.seg _ _ _ g1
  have : k' = k := by rcases bowShift_or (σ := σ) with e | e <;> rw [e] at h2 <;> omega
  subst this
  exact ⟨_, _, g1, h3⟩

theorem IsBow.consecutive (h : IsBow σ q) {i : ℕ} {v1 v2 v3 : Vertex} (h1 : IsSeg q i v1 v2) (h2 : IsSeg q ((i + 1) % 6) v2 v3) :
    consecutivePoints v1 v2 v3 = [] := by
  obtain ⟨k, hk, hi, s1⟩ := h.seg _ _ _ h1
  obtain ⟨k', hk', hi', s2⟩ := h.seg _ _ _ h2
  have e : k' = (k + 1) % 6 := by rcases bowShift_or (σ := σ) with e | e <;> rw [e] at hi hi' <;> omega
  have hn := s1.not_near (ε := 1 / 10 ^ 5) (by norm_num)
  have f1 : 1 / 10 ^ 8 ≤ |v1.pos.x - v2.pos.x| ∨ 1 / 10 ^ 8 ≤ |v1.pos.y - v2.pos.y| := Or.inr (le_trans (by norm_num) s1.far)
  have f2 : 1 / 10 ^ 8 ≤ |v2.pos.x - v3.pos.x| ∨ 1 / 10 ^ 8 ≤ |v2.pos.y - v3.pos.y| := Or.inr (le_trans (by norm_num) s2.far)
  have l1 := s1.long
  have l2 := s2.long
  have hσ := h.sign
  clear hi hi' h1 h2
  rcases s1 with ⟨rfl, s1⟩ | ⟨rfl, s1⟩ | ⟨rfl, s1⟩ | ⟨rfl, s1⟩ | ⟨rfl, s1⟩ | ⟨rfl, s1⟩ <;>
    rcases s2 with ⟨rfl, s2⟩ | ⟨rfl, s2⟩ | ⟨rfl, s2⟩ | ⟨rfl, s2⟩ | ⟨rfl, s2⟩ | ⟨rfl, s2⟩ <;>
    first
    | (exfalso; omega)
    | (refine touch_line_arc hn s1.line l1 s2.arc ?_ f2 s2.center ?_ <;> rw [s1.stop] <;> try rw [s1.start]
       all_goals rcases hσ with rfl | rfl <;> norm_num [dist2])
    | (refine touch_arc_line hn s2.line l2 s1.arc ?_ f1 s1.center ?_ <;> rw [s1.stop] <;> try rw [s2.stop]
       all_goals rcases hσ with rfl | rfl <;> norm_num [dist2])
    | (refine lines_corner hn s1.line s2.line ?_
       rw [s1.start, s1.stop, s2.stop]
       rcases hσ with rfl | rfl <;> norm_num [abs_of_neg])

theorem IsBow.consecutiveOf (h : IsBow σ q) : consecutiveOf q = [] := by
  have e : Spec.consecutiveOf q = (List.range (segs q).length).flatMap (consecutiveHits q) := by
    have := h.six
    unfold Spec.consecutiveOf
    split
    · simp at this
    · rfl
  rw [e, List.flatMap_eq_nil_iff]
  intro i hi
  rw [List.mem_range, h.six'] at hi
  unfold consecutiveHits
  have hj : (if q.isClosed = true ∧ i + 1 = q.vertexes.length then 0 else i + 1) = (i + 1) % 6 := by
    rw [h.six]
    split_ifs with c
    · rw [c.2]
    · have : i + 1 ≠ 6 := fun e => c ⟨h.closed, e⟩
      omega
  simp only
  rw [hj]
  have hsz : q.size = 6 := h.six
  have g1 := closed_isSeg h.closed (by omega) (k := i) (by omega)
  have g2 := closed_isSeg h.closed (by omega) (k := (i + 1) % 6) (by omega)
  rw [hsz] at g1 g2
  have g1' := g1
  have g2' := g2
  unfold IsSeg at g1' g2'
  rw [g1', g2']
  simp only
  rw [h.consecutive g1 g2, List.map_nil]


end

/-! ### Where the raw offsets meet -/

theorem BowSeg.box {σ : ℝ} {k : ℕ} {v w : Vertex} (h : BowSeg σ k v w) : ∃ lx hx ly hy : ℝ, SegIn σ lx hx ly hy v w ∧
    ((k = 0 ∧ lx = -195 ∧ hx = 197 ∧ ly = 10 ∧ hy = 304) ∨ (k = 1 ∧ lx = 197 ∧ hx = 207 ∧ ly = 300 ∧ hy = 308) ∨
     (k = 2 ∧ lx = 205 ∧ hx = 205 ∧ ly = 0 ∧ hy = 300) ∨ (k = 3 ∧ lx = 197 ∧ hx = 207 ∧ ly = -8 ∧ hy = 0) ∨
     (k = 4 ∧ lx = -195 ∧ hx = 197 ∧ ly = -4 ∧ hy = 290) ∨ (k = 5 ∧ lx = -195 ∧ hx = -195 ∧ ly = 10 ∧ hy = 290)) := by
  rcases h with ⟨rfl, h⟩ | ⟨rfl, h⟩ | ⟨rfl, h⟩ | ⟨rfl, h⟩ | ⟨rfl, h⟩ | ⟨rfl, h⟩ <;>
    exact ⟨_, _, _, _, h.inBox, by norm_num⟩

theorem SegIn.flip {σ lx hx ly hy : ℝ} {v w : Vertex} (h : SegIn (-σ) lx hx ly hy v w) : SegIn σ (-hx) (-lx) ly hy v w :=
  ⟨⟨by linarith [h.minX.2], by linarith [h.minX.1]⟩, ⟨by linarith [h.maxX.2], by linarith [h.maxX.1]⟩, h.minY, h.maxY⟩

theorem SegIn.not_close5 {σ lx hx ly hy lx' hx' ly' hy' : ℝ} {v w v' w' : Vertex} (hσ : σ = 1 ∨ σ = -1)
    (h : SegIn σ lx hx ly hy v w) (h' : SegIn σ lx' hx' ly' hy' v' w')
    (hs : hx + 1 ≤ lx' ∨ hx' + 1 ≤ lx ∨ hy + 1 ≤ ly' ∨ hy' + 1 ≤ ly) :
    ¬ BoxesClose (1 / 10 ^ 5) v w v' w' := by
  rintro ⟨b1, b2, b3, b4⟩
  have e8 : (1 / 10 ^ 5 : ℝ) < 1 := by norm_num
  have := h.minX
  have := h.maxX
  have := h.minY
  have := h.maxY
  have := h'.minX
  have := h'.maxX
  have := h'.minY
  have := h'.maxY
  rcases hσ with rfl | rfl <;> rcases hs with hs | hs | hs | hs <;> linarith

theorem boxes_common {v1 v2 u1 u2 : Vertex} (h1 : SegOk v1 v2) (h2 : SegOk u1 u2) {x : V2} (o1 : OnSeg v1 v2 x)
    (o2 : OnSeg u1 u2 x) {ε : ℝ} (hε : 0 ≤ ε) : BoxesClose ε v1 v2 u1 u2 := by
  obtain ⟨a1, a2, a3, a4⟩ := C12_bbox_contains h1.half o1
  obtain ⟨b1, b2, b3, b4⟩ := C12_bbox_contains h2.half o2
  exact ⟨by linarith, by linarith, by linarith, by linarith⟩

/-- Where the raw offset meets itself, and where it meets the other one. -/
def bowSelf (σ : ℝ) : V2 := ⟨σ * (-25 / 3), 150⟩

theorem BowSeg.at_self {σ : ℝ} {v w : Vertex} :
    (BowSeg σ 0 v w → lerp v.pos w.pos (10 / 21) = bowSelf σ) ∧ (BowSeg σ 4 v w → lerp v.pos w.pos (11 / 21) = bowSelf σ) := by
  constructor <;> intro h <;>
    rcases h.ends with ⟨e, h1, h2⟩ | ⟨e, h1, h2⟩ | ⟨e, h1, h2⟩ | ⟨e, h1, h2⟩ | ⟨e, h1, h2⟩ | ⟨e, h1, h2⟩ <;>
    first
    | omega
    | (rw [h1, h2]; unfold bowSelf; ext <;> simp only [lerp] <;> ring)

theorem BowSeg.at_other {σ : ℝ} {v w : Vertex} :
    (BowSeg σ 0 v w → lerp v.pos w.pos (195 / 392) = ⟨0, 625 / 4⟩) ∧
    (BowSeg σ 4 v w → lerp v.pos w.pos (197 / 392) = ⟨0, 575 / 4⟩) := by
  constructor <;> intro h <;>
    rcases h.ends with ⟨e, h1, h2⟩ | ⟨e, h1, h2⟩ | ⟨e, h1, h2⟩ | ⟨e, h1, h2⟩ | ⟨e, h1, h2⟩ | ⟨e, h1, h2⟩ <;>
    first
    | omega
    | (rw [h1, h2]; ext <;> simp only [lerp] <;> ring)

theorem BowSeg.line0 {σ : ℝ} {v w : Vertex} (h : BowSeg σ 0 v w ∨ BowSeg σ 4 v w) : IsLine v := by
  rcases h with h | h <;>
  rcases h with ⟨e, h⟩ | ⟨e, h⟩ | ⟨e, h⟩ | ⟨e, h⟩ | ⟨e, h⟩ | ⟨e, h⟩ <;> first | omega | exact h.line

theorem BowSeg.on_at {σ : ℝ} {v w : Vertex} (h : BowSeg σ 0 v w ∨ BowSeg σ 4 v w) {t : ℝ} {x : V2} (h0 : 0 ≤ t) (h1 : t ≤ 1)
    (e : lerp v.pos w.pos t = x) : OnSeg v w x := (onSeg_line (BowSeg.line0 h)).2 ⟨t, h0, h1, e.symm⟩

/-- The test of the two segments that cross. -/
theorem bow_self_hit {σ : ℝ} (hσ : σ = 1 ∨ σ = -1) {v w v' w' : Vertex} (h : BowSeg σ 0 v w) (h' : BowSeg σ 4 v' w') :
    intrPlineSegs v w v' w' = .ok (.oneIntersect (bowSelf σ)) ∧
    intrPlineSegs v' w' v w = .ok (.oneIntersect (bowSelf σ)) := by
  obtain ⟨e1, e2⟩ : v.pos = ⟨σ * (-195), 10⟩ ∧ w.pos = ⟨σ * 197, 304⟩ := by
    rcases h.ends with ⟨e, h⟩ | ⟨e, h⟩ | ⟨e, h⟩ | ⟨e, h⟩ | ⟨e, h⟩ | ⟨e, h⟩ <;> first | omega | exact h
  obtain ⟨e3, e4⟩ : v'.pos = ⟨σ * 197, -4⟩ ∧ w'.pos = ⟨σ * (-195), 290⟩ := by
    rcases h'.ends with ⟨e, h⟩ | ⟨e, h⟩ | ⟨e, h⟩ | ⟨e, h⟩ | ⟨e, h⟩ | ⟨e, h⟩ <;> first | omega | exact h
  constructor
  · refine lines_cross (BowSeg.line0 (Or.inl h)) (BowSeg.line0 (Or.inr h')) ?_ (by norm_num) (by norm_num) (by norm_num)
      (by norm_num) (BowSeg.at_self.1 h) (BowSeg.at_self.2 h')
    rw [e1, e2, e3, e4]
    rcases hσ with rfl | rfl <;> norm_num [abs_of_neg]
  · refine lines_cross (BowSeg.line0 (Or.inr h')) (BowSeg.line0 (Or.inl h)) ?_ (by norm_num) (by norm_num) (by norm_num)
      (by norm_num) (BowSeg.at_self.2 h') (BowSeg.at_self.1 h)
    rw [e1, e2, e3, e4]
    rcases hσ with rfl | rfl <;> norm_num [abs_of_neg]

/-- The tests of the segments of the two raw offsets. -/
theorem bow_other_hit {σ : ℝ} (hσ : σ = 1 ∨ σ = -1) {k k' : ℕ} {v w v' w' : Vertex} (h : BowSeg σ k v w)
    (h' : BowSeg (-σ) k' v' w') (hb : BoxesClose (1 / 10 ^ 5) v w v' w') :
    (k = 0 ∧ k' = 0 ∧ intrPlineSegs v w v' w' = .ok (.oneIntersect ⟨0, 625 / 4⟩)) ∨
    (k = 4 ∧ k' = 4 ∧ intrPlineSegs v w v' w' = .ok (.oneIntersect ⟨0, 575 / 4⟩)) ∨
    intrPlineSegs v w v' w' = .ok .noIntersect := by
  have hkk : (k = 0 ∨ k = 4 ∨ k = 5) ∧ (k' = 0 ∨ k' = 4 ∨ k' = 5) ∧ ¬ (k = 5 ∧ k' = 5) := by
    obtain ⟨lx, hx, ly, hy, s1, k1⟩ := h.box
    obtain ⟨lx', hx', ly', hy', s2, k2⟩ := h'.box
    have s2 := s2.flip
    by_contra hcon
    refine s1.not_close5 hσ s2 ?_ hb
    clear hb s1 s2 h h'
    rcases k1 with ⟨rfl, rfl, rfl, rfl, rfl⟩ | ⟨rfl, rfl, rfl, rfl, rfl⟩ | ⟨rfl, rfl, rfl, rfl, rfl⟩ | ⟨rfl, rfl, rfl, rfl, rfl⟩ |
      ⟨rfl, rfl, rfl, rfl, rfl⟩ | ⟨rfl, rfl, rfl, rfl, rfl⟩ <;>
    rcases k2 with ⟨rfl, rfl, rfl, rfl, rfl⟩ | ⟨rfl, rfl, rfl, rfl, rfl⟩ | ⟨rfl, rfl, rfl, rfl, rfl⟩ | ⟨rfl, rfl, rfl, rfl, rfl⟩ |
      ⟨rfl, rfl, rfl, rfl, rfl⟩ | ⟨rfl, rfl, rfl, rfl, rfl⟩ <;>
    first
    | (exfalso; omega)
    | norm_num
  have hf : 1 / 10 ^ 8 ≤ |v.pos.x - w.pos.x| ∨ 1 / 10 ^ 8 ≤ |v.pos.y - w.pos.y| := Or.inr (le_trans (by norm_num) h.far)
  have e8 : (1 / 10 ^ 8 : ℝ) < 1 / 100 := by norm_num
  have e38 : (3 / 10 ^ 8 : ℝ) < 1 := by norm_num
  obtain ⟨c1, c2, c3⟩ := hkk
  have hl : IsLine v := by
    rcases h with ⟨rfl, h⟩ | ⟨rfl, h⟩ | ⟨rfl, h⟩ | ⟨rfl, h⟩ | ⟨rfl, h⟩ | ⟨rfl, h⟩ <;> first | omega | exact h.line
  have hl' : IsLine v' := by
    rcases h' with ⟨rfl, h⟩ | ⟨rfl, h⟩ | ⟨rfl, h⟩ | ⟨rfl, h⟩ | ⟨rfl, h⟩ | ⟨rfl, h⟩ <;> first | omega | exact h.line
  have far : ∀ {z : ℝ}, 1 ≤ σ * z ∨ σ * z ≤ -1 → 3 / 10 ^ 8 < |z| := by
    intro z hz
    rw [← abs_sign hσ, lt_abs]
    rcases hz with hz | hz
    · left; linarith
    · right; linarith
  have hσ2 : σ * σ = 1 := by rcases hσ with e | e <;> rw [e] <;> norm_num
  rcases c1 with rfl | rfl | rfl <;> rcases c2 with rfl | rfl | rfl
  · left
    refine ⟨rfl, rfl, lines_cross hl hl' ?_ (by norm_num) (by norm_num) (by norm_num) (by norm_num) (BowSeg.at_other.1 h)
      (BowSeg.at_other.1 h')⟩
    obtain ⟨e1, e2⟩ : v.pos = ⟨σ * (-195), 10⟩ ∧ w.pos = ⟨σ * 197, 304⟩ := by
      rcases h.ends with ⟨e, h⟩ | ⟨e, h⟩ | ⟨e, h⟩ | ⟨e, h⟩ | ⟨e, h⟩ | ⟨e, h⟩ <;> first | omega | exact h
    obtain ⟨e3, e4⟩ : v'.pos = ⟨-σ * (-195), 10⟩ ∧ w'.pos = ⟨-σ * 197, 304⟩ := by
      rcases h'.ends with ⟨e, h⟩ | ⟨e, h⟩ | ⟨e, h⟩ | ⟨e, h⟩ | ⟨e, h⟩ | ⟨e, h⟩ <;> first | omega | exact h
    rw [e1, e2, e3, e4]
    rcases hσ with rfl | rfl <;> norm_num [abs_of_neg]
  rotate_left 3
  · right; left
    refine ⟨rfl, rfl, lines_cross hl hl' ?_ (by norm_num) (by norm_num) (by norm_num) (by norm_num) (BowSeg.at_other.2 h)
      (BowSeg.at_other.2 h')⟩
    obtain ⟨e1, e2⟩ : v.pos = ⟨σ * 197, -4⟩ ∧ w.pos = ⟨σ * (-195), 290⟩ := by
      rcases h.ends with ⟨e, h⟩ | ⟨e, h⟩ | ⟨e, h⟩ | ⟨e, h⟩ | ⟨e, h⟩ | ⟨e, h⟩ <;> first | omega | exact h
    obtain ⟨e3, e4⟩ : v'.pos = ⟨-σ * 197, -4⟩ ∧ w'.pos = ⟨-σ * (-195), 290⟩ := by
      rcases h'.ends with ⟨e, h⟩ | ⟨e, h⟩ | ⟨e, h⟩ | ⟨e, h⟩ | ⟨e, h⟩ | ⟨e, h⟩ <;> first | omega | exact h
    rw [e1, e2, e3, e4]
    rcases hσ with rfl | rfl <;> norm_num [abs_of_neg]
  all_goals
    first
    | (exfalso; omega)
    | skip
  rotate_left 1
  iterate 2
    right; right
    obtain ⟨e1, e2⟩ : v.pos = ⟨σ * (-195), 290⟩ ∧ w.pos = ⟨σ * (-195), 10⟩ := by
      rcases h.ends with ⟨e, h⟩ | ⟨e, h⟩ | ⟨e, h⟩ | ⟨e, h⟩ | ⟨e, h⟩ | ⟨e, h⟩ <;> first | omega | exact h
    rcases h'.ends with ⟨e, e3, e4⟩ | ⟨e, e3, e4⟩ | ⟨e, e3, e4⟩ | ⟨e, e3, e4⟩ | ⟨e, e3, e4⟩ | ⟨e, e3, e4⟩ <;>
      first | (exfalso; omega) | skip
    refine lines_miss hl hl' ?_ fun s r hsr s0 s1 => ?_
    · rw [e1, e2, e3, e4]
      rcases hσ with rfl | rfl <;> norm_num [abs_of_neg]
    · rw [e1, e2, e3, e4] at hsr
      have ex := congrArg V2.x hsr
      have ey := congrArg V2.y hsr
      simp only [lerp] at ex ey
      rcases hσ with rfl | rfl <;> linarith
  all_goals
    right; right
    refine lines_apart hl hl' hf fun r r0 r1 => far ?_
    have h8 : -(1 / 100) ≤ r ∧ r ≤ 1 + 1 / 100 := ⟨by linarith, by linarith⟩
    rcases h.ends with ⟨e, e1, e2⟩ | ⟨e, e1, e2⟩ | ⟨e, e1, e2⟩ | ⟨e, e1, e2⟩ | ⟨e, e1, e2⟩ | ⟨e, e1, e2⟩ <;>
      first | (exfalso; omega) | skip
    rcases h'.ends with ⟨e, e3, e4⟩ | ⟨e, e3, e4⟩ | ⟨e, e3, e4⟩ | ⟨e, e3, e4⟩ | ⟨e, e3, e4⟩ | ⟨e, e3, e4⟩ <;>
      first | (exfalso; omega) | skip
    rw [e1, e2, e3, e4]
    simp only [side, lerp]
    rcases hσ with rfl | rfl <;> first | (left; linarith) | (right; linarith)


/-- Segments without a common vertex whose boxes are close. -/
theorem bow_pairs {σ : ℝ} {q : Polyline} (h : IsBow σ q) {i j : ℕ} {v1 v2 u1 u2 : Vertex} (hna : NonAdjacent q i j)
    (h1 : IsSeg q i v1 v2) (h2 : IsSeg q j u1 u2) (hb : BoxesClose (1 / 10 ^ 8) v1 v2 u1 u2) :
    (i = (0 + bowShift σ) % 6 ∧ j = (4 + bowShift σ) % 6) ∨ (i = (4 + bowShift σ) % 6 ∧ j = (0 + bowShift σ) % 6) := by
  obtain ⟨n1, n2, n3⟩ := hna
  unfold IsPrev at n2 n3
  rw [h.six] at n2 n3
  obtain ⟨k, hk, rfl, s1⟩ := h.seg _ _ _ h1
  obtain ⟨k', hk', rfl, s2⟩ := h.seg _ _ _ h2
  have hn : k ≠ k' ∧ k' ≠ (k + 1) % 6 ∧ k ≠ (k' + 1) % 6 := by
    rcases bowShift_or (σ := σ) with e | e <;> rw [e] at n1 n2 n3 <;> refine ⟨?_, ?_, ?_⟩ <;> omega
  have hkk : (k = 0 ∧ k' = 4) ∨ (k = 4 ∧ k' = 0) := by
    clear n1 n2 n3 h1 h2
    by_contra hcon
    obtain ⟨lx, hx, ly, hy, b1, k1⟩ := s1.box
    obtain ⟨lx', hx', ly', hy', b2, k2⟩ := s2.box
    refine b1.not_close h.sign b2 ?_ hb
    clear hb s1 s2 b1 b2
    rcases k1 with ⟨rfl, rfl, rfl, rfl, rfl⟩ | ⟨rfl, rfl, rfl, rfl, rfl⟩ | ⟨rfl, rfl, rfl, rfl, rfl⟩ | ⟨rfl, rfl, rfl, rfl, rfl⟩ |
      ⟨rfl, rfl, rfl, rfl, rfl⟩ | ⟨rfl, rfl, rfl, rfl, rfl⟩ <;>
    rcases k2 with ⟨rfl, rfl, rfl, rfl, rfl⟩ | ⟨rfl, rfl, rfl, rfl, rfl⟩ | ⟨rfl, rfl, rfl, rfl, rfl⟩ | ⟨rfl, rfl, rfl, rfl, rfl⟩ |
      ⟨rfl, rfl, rfl, rfl, rfl⟩ | ⟨rfl, rfl, rfl, rfl, rfl⟩ <;>
    first
    | (exfalso; omega)
    | norm_num
  rcases hkk with ⟨rfl, rfl⟩ | ⟨rfl, rfl⟩
  · exact Or.inl ⟨rfl, rfl⟩
  · exact Or.inr ⟨rfl, rfl⟩

theorem bowSelf_apart {σ : ℝ} {k : ℕ} {v w : Vertex} (h : BowSeg σ k v w) : ¬ Near (1 / 10 ^ 8) v.pos (bowSelf σ) := by
  rintro ⟨-, n⟩
  rcases h.ends with ⟨-, h1, -⟩ | ⟨-, h1, -⟩ | ⟨-, h1, -⟩ | ⟨-, h1, -⟩ | ⟨-, h1, -⟩ | ⟨-, h1, -⟩ <;> rw [h1] at n <;>
    norm_num [bowSelf, abs_of_neg] at n

theorem bow_selfs {σ : ℝ} {q : Polyline} (h : IsBow σ q) {l : List PlineIntersect} (hl : SelfIntersectsOf q l) :
    (selfCuts l).Perm [⟨(0 + bowShift σ) % 6, bowSelf σ, false⟩, ⟨(4 + bowShift σ) % 6, bowSelf σ, false⟩] := by
  obtain ⟨pairs, hnd, has, hp, rfl⟩ := hl
  obtain ⟨v, w, g0, s0⟩ := h.get (k := 0) (by norm_num)
  obtain ⟨v', w', g4, s4⟩ := h.get (k := 4) (by norm_num)
  set a := (0 + bowShift σ) % 6 with ha
  set b := (4 + bowShift σ) % 6 with hb
  have hab : a ≠ b ∧ ¬ IsPrev 6 a b ∧ ¬ IsPrev 6 b a := by
    unfold IsPrev
    rcases bowShift_or (σ := σ) with e | e <;> rw [e] at ha hb <;> refine ⟨?_, ?_, ?_⟩ <;> omega
  have hsub : ∀ x ∈ pairs, x = (a, b) ∨ x = (b, a) := by
    rintro ⟨i, j⟩ hij
    obtain ⟨hna, v1, v2, u1, u2, h1, h2, hbx⟩ := (hp i j).1 (Or.inl hij)
    rcases bow_pairs h hna h1 h2 hbx with ⟨rfl, rfl⟩ | ⟨rfl, rfl⟩
    · exact Or.inl rfl
    · exact Or.inr rfl
  have hmem : (a, b) ∈ pairs ∨ (b, a) ∈ pairs := by
    refine (hp a b).2 ⟨⟨hab.1, by rw [h.six]; exact hab.2.1, by rw [h.six]; exact hab.2.2⟩, _, _, _, _, g0, g4, ?_⟩
    exact boxes_common s0.ok s4.ok (BowSeg.on_at (Or.inl s0) (by norm_num) (by norm_num) (BowSeg.at_self.1 s0))
      (BowSeg.on_at (Or.inr s4) (by norm_num) (by norm_num) (BowSeg.at_self.2 s4)) (by norm_num)
  have hone : pairs = [(a, b)] ∨ pairs = [(b, a)] := by
    match pairs, hsub, hmem, hnd, has with
    | [], _, hmem, _, _ => simp at hmem
    | [x], hsub, _, _, _ =>
      rcases hsub x (by simp) with rfl | rfl
      · exact Or.inl rfl
      · exact Or.inr rfl
    | x :: y :: r, hsub, _, hnd, has =>
      exfalso
      have hx := hsub x (by simp)
      have hy := hsub y (by simp)
      rcases hx with rfl | rfl <;> rcases hy with rfl | rfl
      · simp at hnd
      · exact has a b (by simp) (by simp)
      · exact has b a (by simp) (by simp)
      · simp at hnd
  obtain ⟨hit1, hit2⟩ := bow_self_hit h.sign s0 s4
  have n0 := bowSelf_apart s0
  have n4 := bowSelf_apart s4
  unfold IsSeg at g0 g4
  rw [h.consecutiveOf, List.nil_append]
  rcases hone with rfl | rfl
  · rw [List.flatMap_singleton]
    unfold selfHits
    simp only [g0, g4, hit1, reported]
    rw [List.filter_cons_of_pos (by rw [decide_eq_true_eq]; exact ⟨n0, n4⟩), List.filter_nil]
    exact List.Perm.refl _
  · rw [List.flatMap_singleton]
    unfold selfHits
    simp only [g0, g4, hit2, reported]
    rw [List.filter_cons_of_pos (by rw [decide_eq_true_eq]; exact ⟨n4, n0⟩), List.filter_nil]
    exact List.Perm.swap _ _ _

/-- A list with given members, none of them twice. -/
theorem perm_of_filter {l m : List PlineIntersect} (hm : m.Nodup) (h : ∀ x, x ∈ l ↔ x ∈ m)
    (h1 : ∀ i j, (l.filter fun c => c.sIndex1 = i ∧ c.sIndex2 = j).length ≤ 1) : l.Perm m := by
  refine (List.perm_ext_iff_of_nodup ?_ hm).2 h
  rw [List.nodup_iff_count_le_one]
  intro a
  refine le_trans ?_ (h1 a.sIndex1 a.sIndex2)
  rw [List.count_eq_length_filter]
  refine List.Sublist.length_le (List.monotone_filter_right l ?_)
  intro c hc
  have : c = a := by simpa using hc
  simp [this]

theorem bow_other_apart {σ : ℝ} {k : ℕ} {v w : Vertex} (h : BowSeg σ k v w) :
    ¬ Near (1 / 10 ^ 8) v.pos ⟨0, 625 / 4⟩ ∧ ¬ Near (1 / 10 ^ 8) v.pos ⟨0, 575 / 4⟩ := by
  constructor <;> rintro ⟨-, n⟩ <;>
  rcases h.ends with ⟨-, h1, -⟩ | ⟨-, h1, -⟩ | ⟨-, h1, -⟩ | ⟨-, h1, -⟩ | ⟨-, h1, -⟩ | ⟨-, h1, -⟩ <;> rw [h1] at n <;>
    norm_num [abs_of_neg] at n

theorem bow_others {σ : ℝ} {q q' : Polyline} (h : IsBow σ q) (h' : IsBow (-σ) q') {d : IntersectsResult}
    (hd : IntersectsOf q q' d) : (dualCuts d).Perm [⟨(0 + bowShift σ) % 6, ⟨0, 625 / 4⟩, false⟩,
      ⟨(4 + bowShift σ) % 6, ⟨0, 575 / 4⟩, false⟩] := by
  have hc : d.coincidentIntersects = [] := by
    rw [List.eq_nil_iff_forall_not_mem]
    rintro ⟨i, j, a, b⟩ hm
    obtain ⟨v1, v2, u1, u2, g1, g2, g3, g4⟩ := (hd.overlaps _ _ _ _).1 hm
    obtain ⟨k, -, -, s1⟩ := h.seg _ _ _ g1
    obtain ⟨k', -, -, s2⟩ := h'.seg _ _ _ g2
    unfold OverlapHit at g4
    rcases bow_other_hit h.sign s1 s2 g3 with ⟨-, -, e⟩ | ⟨-, -, e⟩ | e <;> rw [e] at g4 <;> simp at g4
  have hrep : ∀ i j, ¬ RepeatsOverlap q q' d.coincidentIntersects i j := by
    rintro i j ⟨c, hm, -⟩
    rw [hc] at hm
    simp at hm
  have hp : d.intersects.Perm [⟨(0 + bowShift σ) % 6, (0 + bowShift (-σ)) % 6, ⟨0, 625 / 4⟩⟩,
      ⟨(4 + bowShift σ) % 6, (4 + bowShift (-σ)) % 6, ⟨0, 575 / 4⟩⟩] := by
    refine perm_of_filter ?_ ?_ ?_
    · simp
    · rintro ⟨i, j, x⟩
      rw [hd.points]
      constructor
      · rintro ⟨v1, v2, u1, u2, g1, g2, g3, g4, -⟩
        obtain ⟨k, -, rfl, s1⟩ := h.seg _ _ _ g1
        obtain ⟨k', -, rfl, s2⟩ := h'.seg _ _ _ g2
        unfold PointHit at g4
        rcases bow_other_hit h.sign s1 s2 g3 with ⟨rfl, rfl, e⟩ | ⟨rfl, rfl, e⟩ | e <;> rw [e] at g4 <;> simp at g4
        · subst g4; simp
        · subst g4; simp
      · intro hm
        have get : ∀ k, k = 0 ∨ k = 4 → ∃ v w u u', IsSeg q ((k + bowShift σ) % 6) v w ∧
            IsSeg q' ((k + bowShift (-σ)) % 6) u u' ∧ BowSeg σ k v w ∧ BowSeg (-σ) k u u' := by
          intro k hk
          obtain ⟨v, w, a, b⟩ := h.get (k := k) (by omega)
          obtain ⟨u, u', a', b'⟩ := h'.get (k := k) (by omega)
          exact ⟨v, w, u, u', a, a', b, b'⟩
        simp only [List.mem_cons, List.not_mem_nil, or_false, PlineIntersect.mk.injEq] at hm
        rcases hm with ⟨rfl, rfl, rfl⟩ | ⟨rfl, rfl, rfl⟩
        · obtain ⟨v, w, u, u', a, a', b, b'⟩ := get 0 (Or.inl rfl)
          have hb : BoxesClose (1 / 10 ^ 5) v w u u' :=
            boxes_common b.ok b'.ok (BowSeg.on_at (Or.inl b) (by norm_num) (by norm_num) (BowSeg.at_other.1 b))
              (BowSeg.on_at (Or.inl b') (by norm_num) (by norm_num) (BowSeg.at_other.1 b')) (by norm_num)
          refine ⟨v, w, u, u', a, a', hb, ?_, (bow_other_apart b).1, (bow_other_apart b').1, fun hr => hrep _ _ hr.1⟩
          left
          refine lines_cross (BowSeg.line0 (Or.inl b)) (BowSeg.line0 (Or.inl b')) ?_ (by norm_num) (by norm_num) (by norm_num)
            (by norm_num) (BowSeg.at_other.1 b) (BowSeg.at_other.1 b')
          obtain ⟨e1, e2⟩ : v.pos = ⟨σ * (-195), 10⟩ ∧ w.pos = ⟨σ * 197, 304⟩ := by
            rcases b.ends with ⟨e, h⟩ | ⟨e, h⟩ | ⟨e, h⟩ | ⟨e, h⟩ | ⟨e, h⟩ | ⟨e, h⟩ <;> first | omega | exact h
          obtain ⟨e3, e4⟩ : u.pos = ⟨-σ * (-195), 10⟩ ∧ u'.pos = ⟨-σ * 197, 304⟩ := by
            rcases b'.ends with ⟨e, h⟩ | ⟨e, h⟩ | ⟨e, h⟩ | ⟨e, h⟩ | ⟨e, h⟩ | ⟨e, h⟩ <;> first | omega | exact h
          rw [e1, e2, e3, e4]
          rcases h.sign with rfl | rfl <;> norm_num [abs_of_neg]
        · obtain ⟨v, w, u, u', a, a', b, b'⟩ := get 4 (Or.inr rfl)
          have hb : BoxesClose (1 / 10 ^ 5) v w u u' :=
            boxes_common b.ok b'.ok (BowSeg.on_at (Or.inr b) (by norm_num) (by norm_num) (BowSeg.at_other.2 b))
              (BowSeg.on_at (Or.inr b') (by norm_num) (by norm_num) (BowSeg.at_other.2 b')) (by norm_num)
          refine ⟨v, w, u, u', a, a', hb, ?_, (bow_other_apart b).2, (bow_other_apart b').2, fun hr => hrep _ _ hr.1⟩
          left
          refine lines_cross (BowSeg.line0 (Or.inr b)) (BowSeg.line0 (Or.inr b')) ?_ (by norm_num) (by norm_num) (by norm_num)
            (by norm_num) (BowSeg.at_other.2 b) (BowSeg.at_other.2 b')
          obtain ⟨e1, e2⟩ : v.pos = ⟨σ * 197, -4⟩ ∧ w.pos = ⟨σ * (-195), 290⟩ := by
            rcases b.ends with ⟨e, h⟩ | ⟨e, h⟩ | ⟨e, h⟩ | ⟨e, h⟩ | ⟨e, h⟩ | ⟨e, h⟩ <;> first | omega | exact h
          obtain ⟨e3, e4⟩ : u.pos = ⟨-σ * 197, -4⟩ ∧ u'.pos = ⟨-σ * (-195), 290⟩ := by
            rcases b'.ends with ⟨e, h⟩ | ⟨e, h⟩ | ⟨e, h⟩ | ⟨e, h⟩ | ⟨e, h⟩ | ⟨e, h⟩ <;> first | omega | exact h
          rw [e1, e2, e3, e4]
          rcases h.sign with rfl | rfl <;> norm_num [abs_of_neg]
    · intro i j
      obtain ⟨-, -, h3⟩ := hd.once i j
      by_contra hcon
      push Not at hcon
      obtain ⟨c, hm⟩ := List.exists_mem_of_length_pos (show 0 < (d.intersects.filter fun c => c.sIndex1 = i ∧ c.sIndex2 = j).length by omega)
      rw [List.mem_filter] at hm
      obtain ⟨hm, hij⟩ := hm
      obtain ⟨rfl, rfl⟩ : c.sIndex1 = i ∧ c.sIndex2 = j := by simpa using hij
      obtain ⟨v1, v2, u1, u2, g1, g2, g3, g4, -⟩ := (hd.points c.sIndex1 c.sIndex2 c.pos).1 hm
      obtain ⟨k, -, -, s1⟩ := h.seg _ _ _ g1
      obtain ⟨k', -, -, s2⟩ := h'.seg _ _ _ g2
      rcases bow_other_hit h.sign s1 s2 g3 with ⟨-, -, e⟩ | ⟨-, -, e⟩ | e
      · have := h3 _ _ _ _ _ g1 g2 e
        simp only [reported, List.length_cons, List.length_nil] at this
        omega
      · have := h3 _ _ _ _ _ g1 g2 e
        simp only [reported, List.length_cons, List.length_nil] at this
        omega
      · have := h3 _ _ _ _ _ g1 g2 e
        simp only [reported, List.length_nil] at this
        omega
  unfold dualCuts
  rw [hc, List.flatMap_nil, List.append_nil]
  exact hp.map _

/-! ### The cuts -/

/-- Where the raw offset passes a point twice. -/
theorem bow_twice {σ : ℝ} {q : Polyline} (h : IsBow σ q) {x : V2} (hx : PassedTwice q x) :
    x = bowSelf σ := by
  obtain ⟨i, j, v1, v2, u1, u2, g1, g2, hij, o1, o2, hn⟩ := hx
  obtain ⟨k, hk, hi, s1⟩ := h.seg _ _ _ g1
  obtain ⟨k', hk', hj, s2⟩ := h.seg _ _ _ g2
  have a1 := s1.on h.sign o1
  have a2 := s2.on h.sign o2
  have e1 := s1.ends
  have e2 := s2.ends
  have hσ2 : σ * σ = 1 := by rcases h.sign with e | e <;> rw [e] <;> norm_num
  rw [h.six] at hn
  have hne : k ≠ k' := by rintro rfl; exact hij (hi.trans hj.symm)
  have hs1 : k' = (k + 1) % 6 → j = (i + 1) % 6 := by
    rcases bowShift_or (σ := σ) with e | e <;> rw [e] at hi hj <;> omega
  have hs2 : k = (k' + 1) % 6 → i = (j + 1) % 6 := by
    rcases bowShift_or (σ := σ) with e | e <;> rw [e] at hi hj <;> omega
  have hn1 : k' = (k + 1) % 6 → ¬ (σ * x.x = σ * v2.pos.x ∧ x.y = v2.pos.y) := by
    rintro e ⟨h1, h2⟩
    refine hn (Or.inl ⟨hs1 e, ?_⟩)
    ext
    · have := congrArg (σ * ·) h1
      simp only [← mul_assoc, hσ2, one_mul] at this
      exact this
    · exact h2
  have hn2 : k = (k' + 1) % 6 → ¬ (σ * x.x = σ * u2.pos.x ∧ x.y = u2.pos.y) := by
    rintro e ⟨h1, h2⟩
    refine hn (Or.inr ⟨hs2 e, ?_⟩)
    ext
    · have := congrArg (σ * ·) h1
      simp only [← mul_assoc, hσ2, one_mul] at this
      exact this
    · exact h2
  have key : σ * x.x = -25 / 3 ∧ x.y = 150 := by
    clear hn hs1 hs2 s1 s2 o1 o2 g1 g2 hi hj
    generalize hX : σ * x.x = X at *
    rcases a1 with ⟨rfl, a1⟩ | ⟨rfl, a1⟩ | ⟨rfl, a1⟩ | ⟨rfl, a1⟩ | ⟨rfl, a1⟩ | ⟨rfl, a1⟩ <;>
    rcases a2 with ⟨rfl, a2⟩ | ⟨rfl, a2⟩ | ⟨rfl, a2⟩ | ⟨rfl, a2⟩ | ⟨rfl, a2⟩ | ⟨rfl, a2⟩ <;>
    first
    | (exfalso; omega)
    | (constructor <;> linarith)
    | (exfalso; linarith)
    | (exfalso
       have hn := hn1 (by norm_num)
       simp only [OfNat.ofNat_ne_zero, OfNat.zero_ne_ofNat, OfNat.ofNat_eq_ofNat, Nat.reduceEqDiff, false_and, true_and, or_false, false_or,
         zero_ne_one, one_ne_zero, OfNat.ofNat_ne_one, OfNat.one_ne_ofNat] at e1
       rw [e1.2] at hn
       simp only [← mul_assoc, hσ2, one_mul] at hn
       exact hn ⟨by linarith, by linarith⟩)
    | (exfalso
       have hn := hn2 (by norm_num)
       simp only [OfNat.ofNat_ne_zero, OfNat.zero_ne_ofNat, OfNat.ofNat_eq_ofNat, Nat.reduceEqDiff, false_and, true_and, or_false, false_or,
         zero_ne_one, one_ne_zero, OfNat.ofNat_ne_one, OfNat.one_ne_ofNat] at e2
       rw [e2.2] at hn
       simp only [← mul_assoc, hσ2, one_mul] at hn
       exact hn ⟨by linarith, by linarith⟩)
  unfold bowSelf
  ext
  · simp only
    rw [← key.1, ← mul_assoc, hσ2, one_mul]
  · exact key.2

/-- The segments through the point where the raw offset passes twice. -/
theorem bow_self_on {σ : ℝ} (hσ : σ = 1 ∨ σ = -1) {k : ℕ} {v w : Vertex} (h : BowSeg σ k v w) (ho : OnSeg v w (bowSelf σ)) :
    k = 0 ∨ k = 4 := by
  have a := h.on hσ ho
  have e : σ * (bowSelf σ).x = -25 / 3 := by
    unfold bowSelf
    rcases hσ with rfl | rfl <;> norm_num
  have e' : (bowSelf σ).y = 150 := rfl
  rw [e, e'] at a
  rcases a with ⟨rfl, a⟩ | ⟨rfl, a⟩ | ⟨rfl, a⟩ | ⟨rfl, a⟩ | ⟨rfl, a⟩ | ⟨rfl, a⟩
  · exact Or.inl rfl
  · exfalso; linarith
  · exfalso; linarith
  · exfalso; linarith
  · exact Or.inr rfl
  · exfalso; linarith

/-- Where the raw offset meets the one to the other side. -/
theorem bow_common {σ : ℝ} (hσ : σ = 1 ∨ σ = -1) {k k' : ℕ} {v w v' w' : Vertex} (h : BowSeg σ k v w) (h' : BowSeg (-σ) k' v' w')
    {x : V2} (ho : OnSeg v w x) (ho' : OnSeg v' w' x) :
    (k = 0 ∧ x = ⟨0, 625 / 4⟩) ∨ (k = 4 ∧ x = ⟨0, 575 / 4⟩) := by
  have a1 := h.on hσ ho
  have a2 := h'.on (by rcases hσ with rfl | rfl <;> simp) ho'
  rw [neg_mul] at a2
  have hz : σ * x.x = 0 → x.x = 0 := by
    intro e
    rcases hσ with rfl | rfl <;> linarith
  clear h h' ho ho'
  generalize σ * x.x = X at *
  rcases a1 with ⟨rfl, a1⟩ | ⟨rfl, a1⟩ | ⟨rfl, a1⟩ | ⟨rfl, a1⟩ | ⟨rfl, a1⟩ | ⟨rfl, a1⟩ <;>
  rcases a2 with ⟨rfl, a2⟩ | ⟨rfl, a2⟩ | ⟨rfl, a2⟩ | ⟨rfl, a2⟩ | ⟨rfl, a2⟩ | ⟨rfl, a2⟩ <;>
  first
  | (exfalso; linarith)
  | (left; exact ⟨rfl, by ext; · exact hz (by linarith)
                          · simp only; linarith⟩)
  | (right; exact ⟨rfl, by ext; · exact hz (by linarith)
                           · simp only; linarith⟩)

/-- The cuts of the raw offset. -/
def bowCuts (σ : ℝ) : List Cut :=
  [⟨(0 + bowShift σ) % 6, bowSelf σ, false⟩, ⟨(4 + bowShift σ) % 6, bowSelf σ, false⟩,
    ⟨(0 + bowShift σ) % 6, ⟨0, 625 / 4⟩, false⟩, ⟨(4 + bowShift σ) % 6, ⟨0, 575 / 4⟩, false⟩]

theorem bow_mark {σ : ℝ} {k : ℕ} (hk : k < 6) {v w : Vertex} (hs : BowSeg σ k v w) {t : ℝ} {x : V2}
    (h : Mark (bowCuts σ) ((k + bowShift σ) % 6) v w t x) :
    t = 0 ∨ t = 1 ∨ (k = 0 ∧ (t = 10 / 21 ∨ t = 195 / 392)) ∨ (k = 4 ∧ (t = 11 / 21 ∨ t = 197 / 392)) := by
  obtain ⟨t0, t1, hx, h⟩ := h
  rcases h with h | h | ⟨c, hc, h1, h2⟩
  · exact Or.inl h
  · exact Or.inr (Or.inl h)
  · right; right
    have hy : k = 0 ∨ k = 4 → x.y = v.pos.y + t * (w.pos.y - v.pos.y) := by
      intro hk
      have hl : IsLine v := BowSeg.line0 (σ := σ) (v := v) (w := w) (by rcases hk with rfl | rfl; · exact Or.inl hs
                                                                        · exact Or.inr hs)
      rw [(atParam_line hl).1 hx]
      rfl
    have he := hs.ends
    unfold bowCuts at hc
    simp only [List.mem_cons, List.not_mem_nil, or_false] at hc
    have hidx : k = 0 ∨ k = 4 := by
      rcases bowShift_or (σ := σ) with e | e <;> rcases hc with rfl | rfl | rfl | rfl <;> simp only [e] at h1 <;> omega
    replace hy := hy hidx
    rcases hidx with rfl | rfl
    · left
      refine ⟨rfl, ?_⟩
      simp only [OfNat.zero_ne_ofNat, true_and, false_and, or_false, zero_ne_one] at he
      rw [he.1, he.2] at hy
      simp only at hy
      rcases hc with rfl | rfl | rfl | rfl
      · left
        rw [← h2] at hy
        simp only [bowSelf] at hy
        linarith
      · exfalso
        rcases bowShift_or (σ := σ) with e | e <;> simp only [e] at h1 <;> omega
      · right
        rw [← h2] at hy
        simp only at hy
        linarith
      · exfalso
        rcases bowShift_or (σ := σ) with e | e <;> simp only [e] at h1 <;> omega
    · right
      refine ⟨rfl, ?_⟩
      simp only [OfNat.ofNat_ne_zero, OfNat.ofNat_ne_one, Nat.reduceEqDiff, OfNat.ofNat_eq_ofNat, true_and, false_and, or_false, false_or] at he
      rw [he.1, he.2] at hy
      simp only at hy
      rcases hc with rfl | rfl | rfl | rfl
      · exfalso
        rcases bowShift_or (σ := σ) with e | e <;> simp only [e] at h1 <;> omega
      · left
        rw [← h2] at hy
        simp only [bowSelf] at hy
        linarith
      · exfalso
        rcases bowShift_or (σ := σ) with e | e <;> simp only [e] at h1 <;> omega
      · right
        rw [← h2] at hy
        simp only at hy
        linarith

theorem bow_param {σ : ℝ} {v w : Vertex} (h : BowSeg σ 0 v w ∨ BowSeg σ 4 v w) {t : ℝ} {x : V2} (e : lerp v.pos w.pos t = x) :
    AtParam v w t x := (atParam_line (BowSeg.line0 h)).2 e.symm

theorem bow_cuts {σ : ℝ} {q q' : Polyline} (h : IsBow σ q) (h' : IsBow (-σ) q') :
    CutsAt q (MeetsAt q q') (bowCuts σ) := by
  obtain ⟨v0, w0, g0, s0⟩ := h.get (k := 0) (by norm_num)
  obtain ⟨v4, w4, g4, s4⟩ := h.get (k := 4) (by norm_num)
  obtain ⟨v0', w0', g0', s0'⟩ := h'.get (k := 0) (by norm_num)
  obtain ⟨v4', w4', g4', s4'⟩ := h'.get (k := 4) (by norm_num)
  have on0 : OnSeg v0 w0 (bowSelf σ) := BowSeg.on_at (Or.inl s0) (by norm_num) (by norm_num) (BowSeg.at_self.1 s0)
  have on4 : OnSeg v4 w4 (bowSelf σ) := BowSeg.on_at (Or.inr s4) (by norm_num) (by norm_num) (BowSeg.at_self.2 s4)
  have x0 : OnSeg v0 w0 ⟨0, 625 / 4⟩ := BowSeg.on_at (Or.inl s0) (by norm_num) (by norm_num) (BowSeg.at_other.1 s0)
  have x4 : OnSeg v4 w4 ⟨0, 575 / 4⟩ := BowSeg.on_at (Or.inr s4) (by norm_num) (by norm_num) (BowSeg.at_other.2 s4)
  have x0' : OnSeg v0' w0' ⟨0, 625 / 4⟩ := BowSeg.on_at (Or.inl s0') (by norm_num) (by norm_num) (BowSeg.at_other.1 s0')
  have x4' : OnSeg v4' w4' ⟨0, 575 / 4⟩ := BowSeg.on_at (Or.inr s4') (by norm_num) (by norm_num) (BowSeg.at_other.2 s4')
  have htwice : PassedTwice q (bowSelf σ) := by
    refine ⟨_, _, _, _, _, _, g0, g4, ?_, on0, on4, ?_⟩
    · rcases bowShift_or (σ := σ) with e | e <;> rw [e] <;> norm_num
    · rw [h.six]
      rintro (⟨e, -⟩ | ⟨e, -⟩) <;> rcases bowShift_or (σ := σ) with c | c <;> rw [c] at e <;> omega
  suffices hh : _ ∧ _ ∧ _ ∧ _ ∧ _ from ⟨⟨hh.1, hh.2.2.2.1, hh.2.2.2.2⟩, hh.2.1, hh.2.2.1⟩
  refine ⟨?_, ?_, ?_, ?_, ?_⟩
  · intro c hc
    unfold bowCuts at hc
    simp only [List.mem_cons, List.not_mem_nil, or_false] at hc
    rcases hc with rfl | rfl | rfl | rfl
    · exact ⟨_, _, 10 / 21, g0, by norm_num, by norm_num, bow_param (Or.inl s0) (BowSeg.at_self.1 s0)⟩
    · exact ⟨_, _, 11 / 21, g4, by norm_num, by norm_num, bow_param (Or.inr s4) (BowSeg.at_self.2 s4)⟩
    · exact ⟨_, _, 195 / 392, g0, by norm_num, by norm_num, bow_param (Or.inl s0) (BowSeg.at_other.1 s0)⟩
    · exact ⟨_, _, 197 / 392, g4, by norm_num, by norm_num, bow_param (Or.inr s4) (BowSeg.at_other.2 s4)⟩
  · intro c hc
    unfold bowCuts at hc
    simp only [List.mem_cons, List.not_mem_nil, or_false] at hc
    rcases hc with rfl | rfl | rfl | rfl
    · exact Or.inl htwice
    · exact Or.inl htwice
    · exact Or.inr ⟨⟨_, _, _, g0, x0⟩, _, _, _, g0', x0'⟩
    · exact Or.inr ⟨⟨_, _, _, g4, x4⟩, _, _, _, g4', x4'⟩
  · intro i v e x hs ho hq
    obtain ⟨k, hk, rfl, s⟩ := h.seg _ _ _ hs
    unfold bowCuts
    rcases hq with hq | ⟨-, j, u, u', hj, ho'⟩
    · have := bow_twice h hq
      subst this
      rcases bow_self_on h.sign s ho with rfl | rfl
      · exact ⟨_, List.mem_cons_self .., rfl, rfl⟩
      · exact ⟨_, List.mem_cons_of_mem _ (List.mem_cons_self ..), rfl, rfl⟩
    · obtain ⟨k', -, -, s'⟩ := h'.seg _ _ _ hj
      rcases bow_common h.sign s s' ho ho' with ⟨rfl, rfl⟩ | ⟨rfl, rfl⟩
      · exact ⟨_, List.mem_cons_of_mem _ (List.mem_cons_of_mem _ (List.mem_cons_self ..)), rfl, rfl⟩
      · exact ⟨_, List.mem_cons_of_mem _ (List.mem_cons_of_mem _ (List.mem_cons_of_mem _ (List.mem_cons_self ..))), rfl, rfl⟩
  · unfold bowCuts bowSelf
    rcases bowShift_or (σ := σ) with e | e <;> rw [e] <;> norm_num
  · intro i v e t t' x x' hs m m' htt
    obtain ⟨k, hk, rfl, s⟩ := h.seg _ _ _ hs
    have q1 := bow_mark hk s m
    have q2 := bow_mark hk s m'
    obtain ⟨t0, t1, p1, -⟩ := m
    obtain ⟨t0', t1', p2, -⟩ := m'
    by_cases hk04 : k = 0 ∨ k = 4
    · have hl : IsLine v := BowSeg.line0 (σ := σ) (v := v) (w := e) (by rcases hk04 with rfl | rfl; · exact Or.inl s
                                                                        · exact Or.inr s)
      refine ⟨?_, fun hn => absurd hl hn⟩
      have hd : 1 / 1000 ≤ t' - t := by
        rcases hk04 with rfl | rfl
        · rcases q1 with rfl | rfl | ⟨-, rfl | rfl⟩ | ⟨hc, -⟩ <;> rcases q2 with rfl | rfl | ⟨-, rfl | rfl⟩ | ⟨hc, -⟩ <;>
            first | omega | (norm_num at htt; done) | norm_num
        · rcases q1 with rfl | rfl | ⟨hc, -⟩ | ⟨-, rfl | rfl⟩ <;> rcases q2 with rfl | rfl | ⟨hc, -⟩ | ⟨-, rfl | rfl⟩ <;>
            first | omega | (norm_num at htt; done) | norm_num
      rw [(atParam_line hl).1 p1, (atParam_line hl).1 p2]
      rintro ⟨-, n⟩
      have hb : 294 ≤ |e.pos.y - v.pos.y| := by
        rcases s.ends with ⟨hc, h1, h2⟩ | ⟨hc, h1, h2⟩ | ⟨hc, h1, h2⟩ | ⟨hc, h1, h2⟩ | ⟨hc, h1, h2⟩ | ⟨hc, h1, h2⟩ <;>
          first | omega | (rw [h1, h2]; norm_num)
      simp only [lerp] at n
      rw [show v.pos.y + t * (e.pos.y - v.pos.y) - (v.pos.y + t' * (e.pos.y - v.pos.y)) =
        -((t' - t) * (e.pos.y - v.pos.y)) by ring, abs_neg, abs_mul, abs_of_pos (by linarith)] at n
      have := mul_le_mul hd hb (by norm_num) (by linarith)
      norm_num at this n
      linarith
    · have ht : t = 0 := by
        rcases q1 with e | e | ⟨e, -⟩ | ⟨e, -⟩
        · exact e
        · linarith
        · exact absurd (Or.inl e) hk04
        · exact absurd (Or.inr e) hk04
      have ht' : t' = 1 := by
        rcases q2 with e | e | ⟨e, -⟩ | ⟨e, -⟩
        · linarith
        · exact e
        · exact absurd (Or.inl e) hk04
        · exact absurd (Or.inr e) hk04
      subst ht ht'
      have e1 : x = v.pos := (atParam_unique v e 0).unique p1 (atParam_segPt.2 (segPt_zero v e).symm)
      have e2 : x' = e.pos := (atParam_unique v e 1).unique p2 (atParam_segPt.2 (segPt_one v e).symm)
      rw [e1, e2]
      refine ⟨s.not_near (by norm_num), fun hn => ?_⟩
      rw [sub_zero, one_mul]
      rcases s with ⟨-, s⟩ | ⟨-, s⟩ | ⟨-, s⟩ | ⟨-, s⟩ | ⟨-, s⟩ | ⟨-, s⟩
      · exact absurd s.line hn
      · exact s.wide
      · exact absurd s.line hn
      · exact s.wide
      · exact absurd s.line hn
      · exact absurd s.line hn

theorem bow_apart {σ : ℝ} (hσ : σ = 1 ∨ σ = -1) : ApartCuts (bowCuts σ) := by
  intro a ha b hb
  unfold bowCuts bowSelf at ha hb
  simp only [List.mem_cons, List.not_mem_nil, or_false] at ha hb
  rcases ha with rfl | rfl | rfl | rfl <;> rcases hb with rfl | rfl | rfl | rfl <;> simp only <;>
    first
    | exact fun _ _ => trivial
    | exact fun _ _ => rfl
    | (intro _ n; norm_num [abs_of_neg] at n; done)

theorem bow_found {σ : ℝ} {q q' : Polyline} (h : IsBow σ q) (h' : IsBow (-σ) q') (selfs : List PlineIntersect)
    (d : IntersectsResult) (hs : SelfIntersectsOf q selfs) (hd : IntersectsOf q q' d) :
    selfCuts selfs ++ dualCuts d ≠ [] ∧ CutsAt q (MeetsAt q q') (selfCuts selfs ++ dualCuts d) ∧
      ApartCuts (selfCuts selfs ++ dualCuts d) ∧ (selfCuts selfs ++ dualCuts d).length < 2 ^ 24 := by
  have hp : (selfCuts selfs ++ dualCuts d).Perm (bowCuts σ) := (bow_selfs h hs).append (bow_others h h' hd)
  refine ⟨?_, cutsAt_perm hp (bow_cuts h h'), ?_, ?_⟩
  · intro e
    rw [e] at hp
    have := hp.length_eq
    simp [bowCuts] at this
  · intro a ha b hb
    exact bow_apart h.sign a (hp.mem_iff.1 ha) b (hp.mem_iff.1 hb)
  · rw [hp.length_eq]
    simp [bowCuts]

theorem bow_indexable (inf ninf : ℝ) : Indexable (codePlatform inf ninf) bow :=
  indexable_code (by simp [bow]) (by simp [bow, segs]) _ _
    (Or.inl (by simp [bow, segs])) fun i v1 v2 hs => by
      rcases bow_seg hs with ⟨rfl, -⟩ | ⟨rfl, -⟩ | ⟨rfl, -⟩ | ⟨rfl, -⟩ <;> norm_num

theorem bow_both (σ : ℝ) (hσ : σ = 1 ∨ σ = -1) (inf ninf : ℝ) : ∃ q q', IsBow σ q ∧ IsBow (-σ) q' ∧
    BothOffset (codePlatform inf ninf) bow q q' (σ * 5) ∧ BothOffset (codePlatform inf ninf) bow q' q (-(σ * 5)) := by
  have hσ' : -σ = 1 ∨ -σ = -1 := by rcases hσ with rfl | rfl <;> simp
  obtain ⟨q, hq, r⟩ := bow_raw σ hσ
  obtain ⟨q', hq', r'⟩ := bow_raw (-σ) hσ'
  have c := bow_clear σ hσ
  have c' := bow_clear (-σ) hσ'
  rw [neg_mul] at r' c'
  have hl : 1 / 10 ^ 4 ≤ |σ * 5| := by rcases hσ with rfl | rfl <;> norm_num
  exact ⟨q, q', hq, hq', ⟨bow_polygon, hl, c, c', bow_indexable _ _, r, r', hq.indexable _ _, hq.arcs, hq'.arcs⟩,
    ⟨bow_polygon, by rwa [abs_neg], c', by rwa [neg_neg], bow_indexable _ _, r', by rwa [neg_neg], hq'.indexable _ _, hq'.arcs, hq.arcs⟩⟩

/-- The hypotheses of C76 are met: the polygon crosses itself. -/
example (std : StdSort) (hash : HashOrder) (inf ninf : ℝ) : ∃ raw dual r selfs d,
    createRawOffsetPline bow 5 = .ok raw ∧ createRawOffsetPline bow (-5) = .ok dual ∧
    parallelOffset (codePlatform inf ninf) std hash bow 5 true = .ok r ∧ SelfIntersectsOf raw selfs ∧ IntersectsOf raw dual d ∧
    (∀ q ∈ r, ∀ x, OnPline q x → OnPline raw x ∧ AtDistance bow |5| x ∨
      ∃ s, ShallowPiece bow raw (MeetsAt raw dual) 5 (selfCuts selfs ++ dualCuts d) s ∧ OnPline s x) ∧
    ∀ x, OnPline raw x → AtDistance bow |5| x → ¬ MeetsAt raw dual x → ∃ q ∈ r, OnPline q x := by
  obtain ⟨q, q', hq, hq', hb, -⟩ := bow_both 1 (Or.inl rfl) inf ninf
  rw [one_mul] at hb
  have hz := bow_plain 1 (Or.inl rfl)
  rw [one_mul] at hz
  obtain ⟨r, selfs, d, h⟩ := C76_parallelOffset (std := std) (hash := hash) hb (bow_found hq hq')
    (C64_clear_meets bow_polygon hb.clear hb.run hz)
  exact ⟨q, q', r, selfs, d, hb.run, hb.dun, h⟩

/-- The hypotheses of C76 for both sides are met. -/
example (std : StdSort) (hash : HashOrder) (inf ninf : ℝ) : ∃ raw dual r r' cuts cuts',
    createRawOffsetPline bow 5 = .ok raw ∧ createRawOffsetPline bow (-5) = .ok dual ∧
    parallelOffset (codePlatform inf ninf) std hash bow 5 true = .ok r ∧
    parallelOffset (codePlatform inf ninf) std hash bow (-5) true = .ok r' ∧
    (∀ q ∈ r ++ r', ∀ x, OnPline q x → AtDistance bow |5| x ∨
      (∃ s, ShallowPiece bow raw (MeetsAt raw dual) 5 cuts s ∧ OnPline s x) ∨
      ∃ s, ShallowPiece bow dual (MeetsAt dual raw) (-5) cuts' s ∧ OnPline s x) ∧
    ∀ x, AtDistance bow |5| x → ¬ MeetsAt raw dual x → ¬ MeetsAt dual raw x → ∃ q ∈ r ++ r', OnPline q x := by
  obtain ⟨q, q', hq, hq', hb, hb'⟩ := bow_both 1 (Or.inl rfl) inf ninf
  have hz := bow_plain 1 (Or.inl rfl)
  have hz' := bow_plain (-1) (Or.inr rfl)
  rw [one_mul] at hb hb' hz
  rw [neg_one_mul] at hz'
  obtain ⟨r, r', cuts, cuts', h1, h2, h⟩ := C76_both (std := std) (hash := hash) hb hb' (bow_found hq hq')
    (bow_found hq' (by rwa [neg_neg])) (C64_clear_meets bow_polygon hb.clear hb.run hz)
    (C64_clear_meets bow_polygon hb'.clear hb'.run hz')
  exact ⟨q, q', r, r', cuts, cuts', hb.run, hb.dun, h1, h2, h⟩

end
end Cavc

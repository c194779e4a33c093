import Verif.Spec.ArcRegion
import Verif.Props.SegIntrSame
import Verif.Proofs.GeneralPos
import Verif.Proofs.CrossJump

/-!
C50: segments that cross clearly or not at all. The test reports exactly their common points.
-/
namespace Cavc
open Spec
open scoped Classical
noncomputable section

/-- What the test reports is exactly the common points, each once. -/
def FoundExactly (r : SegIntr) (v1 v2 u1 u2 : Vertex) : Prop :=
  (∀ a b, r ≠ .segmentOverlap a b ∧ r ≠ .arcOverlap a b) ∧ (reported r).Nodup ∧
    ∀ x, x ∈ reported r ↔ OnSeg v1 v2 x ∧ OnSeg u1 u2 x

theorem onSeg_longer {v1 v2 : Vertex} {x : V2} (hok : SegOk v1 v2) (h : OnSeg v1 v2 x) : OnLonger (1 / 10 ^ 8) v1 v2 x := by
  have e8 : (0 : ℝ) < 1 / 10 ^ 8 := by norm_num
  by_cases hl : IsLine v1
  · obtain ⟨t, t0, t1, rfl⟩ := (onSeg_line hl).1 h
    exact Or.inl ⟨hl, t, by linarith, by linarith, rfl⟩
  · have ha := hok.arcOk hl
    obtain ⟨h1, h2⟩ := (onSeg_iff_circle ha hok.half x).1 h
    exact Or.inr ⟨hl, _, isCenter_centerOf ha.b_ne, h1, inSweep_of_inSector h2⟩

theorem clear_lines {v1 v2 u1 u2 : Vertex} (l1 : IsLine v1) (l2 : IsLine u1) (h : ClearPair v1 v2 u1 u2) :
    ∃ r, intrPlineSegs v1 v2 u1 u2 = .ok r ∧ FoundExactly r v1 v2 u1 u2 := by
  have e8 : (0 : ℝ) < 1 / 10 ^ 8 := by norm_num
  unfold intrPlineSegs
  rw [if_pos ⟨show v1.bulgeIsZero from l1, show u1.bulgeIsZero from l2⟩]
  have none : (∀ x, ¬ (OnSeg v1 v2 x ∧ OnSeg u1 u2 x)) → FoundExactly .noIntersect v1 v2 u1 u2 := by
    intro hn
    refine ⟨by simp, by simp [reported], fun x => ?_⟩
    simp only [reported, List.not_mem_nil, false_iff]
    exact hn x
  rcases h.lines l1 l2 with hd | hs
  · obtain ⟨t0, t1, p, h0, h1, huniq, hres⟩ := C18_crossing v1.pos v2.pos u1.pos u2.pos hd
    have key : ∀ x, OnSeg v1 v2 x ∧ OnSeg u1 u2 x → x = p ∧ (0 ≤ t0 ∧ t0 ≤ 1) ∧ 0 ≤ t1 ∧ t1 ≤ 1 := by
      rintro x ⟨hx1, hx2⟩
      obtain ⟨s, s0, s1, rfl⟩ := (onSeg_line l1).1 hx1
      obtain ⟨t, t0', t1', ht⟩ := (onSeg_line l2).1 hx2
      obtain ⟨rfl, rfl⟩ := huniq s t ht
      exact ⟨h0, ⟨s0, s1⟩, t0', t1'⟩
    by_cases hin : -(1 / 10 ^ 8) ≤ t0 ∧ t0 ≤ 1 + 1 / 10 ^ 8 ∧ -(1 / 10 ^ 8) ≤ t1 ∧ t1 ≤ 1 + 1 / 10 ^ 8
    · rw [hres, if_pos hin]
      refine ⟨_, rfl, by simp, by simp [reported], fun x => ?_⟩
      simp only [reported, List.mem_singleton]
      constructor
      · rintro rfl
        exact h.exact x (Or.inl ⟨l1, t0, hin.1, hin.2.1, h0.symm⟩) (Or.inl ⟨l2, t1, hin.2.2.1, hin.2.2.2, h1.symm⟩)
      · exact fun hx => (key x hx).1
    · rw [hres, if_neg hin]
      refine ⟨_, rfl, none fun x hx => hin ?_⟩
      obtain ⟨-, ⟨a, b⟩, c, d⟩ := key x hx
      exact ⟨by linarith, by linarith, by linarith, by linarith⟩
  · have hn : ∀ x, ¬ (OnSeg v1 v2 x ∧ OnSeg u1 u2 x) := by
      rintro x ⟨hx1, hx2⟩
      obtain ⟨s, s0, s1, rfl⟩ := (onSeg_line l1).1 hx1
      obtain ⟨t, t0, t1, ht⟩ := (onSeg_line l2).1 hx2
      refine awayFrom_off (s := s) (t := t) ?_ s0 s1 t0 t1 ht
      rcases hs with hs | hs
      · exact Or.inl hs
      · exact Or.inr (Or.inl hs)
    rcases oneSide_none hs with e | ⟨t0, t1, x, e⟩ <;> rw [e] <;> exact ⟨_, rfl, none hn⟩

/-- The squared distance of the points of a line from a point. -/
theorem dist2_lerp_side (a b c : V2) (t : ℝ) : dist2 (lerp a b t) c * dist2 a b = side a b c ^ 2 +
    (dist2 a b * t + ((b.x - a.x) * (a.x - c.x) + (b.y - a.y) * (a.y - c.y))) ^ 2 := by
  simp only [dist2, lerp, side]; ring

theorem clear_line_arc {v1 v2 u1 u2 : Vertex} (l1 : IsLine v1) (l2 : ¬ IsLine u1) (hok : SegOk u1 u2)
    (hclear : ∀ c, IsCenter u1 u2 c → LineCircleClear v1.pos v2.pos c (distance u1.pos c))
    (hexact : ∀ x, OnLonger (1 / 10 ^ 8) v1 v2 x → OnLonger (1 / 10 ^ 8) u1 u2 x → OnSeg v1 v2 x ∧ OnSeg u1 u2 x) :
    ∃ r, processLineArcIntr v1.pos v2.pos u1 u2 = .ok r ∧ FoundExactly r v1 v2 u1 u2 := by
  have e8 : (0 : ℝ) < 1 / 10 ^ 8 := by norm_num
  have hua := hok.arcOk l2
  have hc := isCenter_centerOf (v2 := u2) hua.b_ne
  obtain ⟨hlen, htan⟩ := hclear _ hc
  unfold processLineArcIntr
  rw [hua.run, ok_bind]
  obtain ⟨res, h1, -, hlong⟩ := C19_line_circle v1.pos v2.pos (arcOf u1 u2).radius (arcOf u1 u2).center
  rw [h1, ok_bind]
  have hlong := hlong hlen
  simp only [hua.center, hua.radius_eq] at hlong
  have hA : 0 < dist2 v1.pos v2.pos := by linarith
  have com : ∀ x, OnSeg v1 v2 x ∧ OnSeg u1 u2 x → ∃ t, -(1 / 10 ^ 8) ≤ t ∧ t ≤ 1 + 1 / 10 ^ 8 ∧ x = lerp v1.pos v2.pos t ∧
      InSweep (1 / 10 ^ 8) u1 u2 (centerOf u1 u2) x ∧ OnCircle (distance u1.pos (centerOf u1 u2)) (centerOf u1 u2) x := by
    rintro x ⟨hx1, hx2⟩
    obtain ⟨t, t0, t1, rfl⟩ := (onSeg_line l1).1 hx1
    obtain ⟨a, b⟩ := (onSeg_iff_circle hua hok.half _).1 hx2
    exact ⟨t, by linarith, by linarith, rfl, inSweep_of_inSector b, a⟩
  have back : ∀ t, -(1 / 10 ^ 8) ≤ t ∧ t ≤ 1 + 1 / 10 ^ 8 ∧
      InSweep (1 / 10 ^ 8) u1 u2 (centerOf u1 u2) (lerp v1.pos v2.pos t) →
      OnCircle (distance u1.pos (centerOf u1 u2)) (centerOf u1 u2) (lerp v1.pos v2.pos t) →
      OnSeg v1 v2 (lerp v1.pos v2.pos t) ∧ OnSeg u1 u2 (lerp v1.pos v2.pos t) := by
    rintro t ⟨a, b, c⟩ d
    exact hexact _ (Or.inl ⟨l1, t, a, b, rfl⟩) (Or.inr ⟨l2, _, hc, d, c⟩)
  cases res with
  | none =>
    refine ⟨_, rfl, by simp, by simp [reported], fun x => ?_⟩
    simp only [reported, List.not_mem_nil, false_iff]
    intro hx
    obtain ⟨t, -, -, rfl, -, h⟩ := com x hx
    exact hlong t h
  | one t0 =>
    exfalso
    obtain ⟨hmin, hd⟩ := hlong
    obtain ⟨k, hk⟩ : ∃ k, k = (v2.pos.x - v1.pos.x) * (v1.pos.x - (centerOf u1 u2).x) +
      (v2.pos.y - v1.pos.y) * (v1.pos.y - (centerOf u1 u2).y) := ⟨_, rfl⟩
    have q := fun t => dist2_lerp_side v1.pos v2.pos (centerOf u1 u2) t
    rw [← hk] at q
    have h2 := mul_le_mul_of_nonneg_right (hmin (-k / dist2 v1.pos v2.pos)) hA.le
    rw [q, q, mul_div_cancel₀ _ hA.ne'] at h2
    have h3 : (dist2 v1.pos v2.pos * t0 + k) ^ 2 = 0 := by
      refine le_antisymm ?_ (sq_nonneg _)
      have : (-k + k) ^ 2 = 0 := by ring
      linarith
    have h4 := q t0
    rw [h3, add_zero] at h4
    have h5 : |dist2 (lerp v1.pos v2.pos t0) (centerOf u1 u2) - distance u1.pos (centerOf u1 u2) ^ 2| *
        (4 * dist2 v1.pos v2.pos) = 4 * |side v1.pos v2.pos (centerOf u1 u2) ^ 2 -
          distance u1.pos (centerOf u1 u2) ^ 2 * dist2 v1.pos v2.pos| := by
      rw [← h4, ← sub_mul, abs_mul, abs_of_pos hA]; ring
    rw [h5] at hd
    linarith
  | two t0 t1 =>
    obtain ⟨hne, hall⟩ := hlong
    have on0 := (hall t0).2 (Or.inl rfl)
    have on1 := (hall t1).2 (Or.inr rfl)
    have hinj : lerp v1.pos v2.pos t0 ≠ lerp v1.pos v2.pos t1 := by
      intro h
      have hx := congrArg V2.x h
      have hy := congrArg V2.y h
      simp only [lerp] at hx hy
      have : (t0 - t1) * dist2 v1.pos v2.pos = 0 := by
        simp only [dist2]
        linear_combination (v2.pos.x - v1.pos.x) * hx + (v2.pos.y - v1.pos.y) * hy
      rcases mul_eq_zero.1 this with h | h
      · exact hne (by linarith)
      · exact hA.ne' h
    simp only [pointInSweep_run hua hok.half, ok_bind]
    have fin : ∀ l : List V2, (∀ x, x ∈ l ↔ (x = lerp v1.pos v2.pos t0 ∧ (-(1 / 10 ^ 8) ≤ t0 ∧ t0 ≤ 1 + 1 / 10 ^ 8 ∧
        InSweep (1 / 10 ^ 8) u1 u2 (centerOf u1 u2) (lerp v1.pos v2.pos t0))) ∨
        (x = lerp v1.pos v2.pos t1 ∧ (-(1 / 10 ^ 8) ≤ t1 ∧ t1 ≤ 1 + 1 / 10 ^ 8 ∧
        InSweep (1 / 10 ^ 8) u1 u2 (centerOf u1 u2) (lerp v1.pos v2.pos t1)))) →
        ∀ x, x ∈ l ↔ OnSeg v1 v2 x ∧ OnSeg u1 u2 x := by
      intro l hl x
      rw [hl]
      constructor
      · rintro (⟨rfl, h⟩ | ⟨rfl, h⟩)
        · exact back _ h on0
        · exact back _ h on1
      · intro hx
        obtain ⟨t, a, b, rfl, c, d⟩ := com x hx
        rcases (hall t).1 d with rfl | rfl
        · exact Or.inl ⟨rfl, a, b, c⟩
        · exact Or.inr ⟨rfl, a, b, c⟩
    split_ifs with ht ht' ht'
    · exact ⟨_, rfl, by simp, by simp [reported, hinj], fin _ fun x => by
        simp only [reported, List.mem_cons, List.not_mem_nil, or_false]; tauto⟩
    · exact ⟨_, rfl, by simp, by simp [reported], fin _ fun x => by simp only [reported, List.mem_singleton]; tauto⟩
    · exact ⟨_, rfl, by simp, by simp [reported], fin _ fun x => by simp only [reported, List.mem_singleton]; tauto⟩
    · exact ⟨_, rfl, by simp, by simp [reported], fin _ fun x => by simp only [reported, List.not_mem_nil]; tauto⟩

theorem clear_arcs {v1 v2 u1 u2 : Vertex} (l1 : ¬ IsLine v1) (l2 : ¬ IsLine u1) (hv : SegOk v1 v2) (hu : SegOk u1 u2)
    (h : ClearPair v1 v2 u1 u2) : ∃ r, intrPlineSegs v1 v2 u1 u2 = .ok r ∧ FoundExactly r v1 v2 u1 u2 := by
  have e8 : (0 : ℝ) < 1 / 10 ^ 8 := by norm_num
  have hva := hv.arcOk l1
  have hua := hu.arcOk l2
  have hc := isCenter_centerOf (v2 := v2) hva.b_ne
  have hd := isCenter_centerOf (v2 := u2) hua.b_ne
  rw [arcArc_run hva hv.half hua hu.half]
  have hclear := h.arcs l1 l2 _ _ hc hd
  have com : ∀ x, OnSeg v1 v2 x ∧ OnSeg u1 u2 x ↔
      (OnCircle (distance v1.pos (centerOf v1 v2)) (centerOf v1 v2) x ∧
        OnCircle (distance u1.pos (centerOf u1 u2)) (centerOf u1 u2) x) ∧
      InSweep (1 / 10 ^ 8) v1 v2 (centerOf v1 v2) x ∧
        InSweep (1 / 10 ^ 8) u1 u2 (centerOf u1 u2) x := by
    intro x
    constructor
    · rintro ⟨hx, hx'⟩
      have a := (onSeg_iff_circle hva hv.half x).mp hx
      have b := (onSeg_iff_circle hua hu.half x).mp hx'
      exact ⟨⟨a.1, b.1⟩, inSweep_of_inSector a.2, inSweep_of_inSector b.2⟩
    · rintro ⟨⟨a, b⟩, c, d⟩
      exact h.exact x (Or.inr ⟨l1, _, hc, a, c⟩) (Or.inr ⟨l2, _, hd, b, d⟩)
  have hcc := C20_circle_circle (distance_nonneg v1.pos (centerOf v1 v2))
    (distance_nonneg u1.pos (centerOf u1 u2)) (centerOf v1 v2) (centerOf u1 u2)
  have hr : (distance (centerOf v1 v2) (centerOf u1 u2) < 1 / 10 ^ 8 → 1 / 10 ^ 8 ≤
      |distance v1.pos (centerOf v1 v2) - distance u1.pos (centerOf u1 u2)|) := by
    intro h0
    rcases hclear with h1 | h1 | ⟨h1, -⟩
    · linarith [distance_nonneg v1.pos (centerOf v1 v2), distance_nonneg u1.pos (centerOf u1 u2)]
    · linarith [distance_nonneg (centerOf v1 v2) (centerOf u1 u2)]
    · linarith
  have hone : ∀ p, intrCircle2Circle2 (distance v1.pos (centerOf v1 v2)) (centerOf v1 v2)
      (distance u1.pos (centerOf u1 u2)) (centerOf u1 u2) ≠ .one p := by
    intro p hp
    have hdd : Real.sqrt (dot (centerOf u1 u2 - centerOf v1 v2) (centerOf u1 u2 - centerOf v1 v2)) =
        distance (centerOf v1 v2) (centerOf u1 u2) := by
      rw [dot_sub_self]; rfl
    rcases hclear with h1 | h1 | ⟨h1, x, y, hx, hy, hxy⟩
    · unfold intrCircle2Circle2 at hp
      simp only [hdd] at hp
      rw [if_neg (by
        have := distance_nonneg v1.pos (centerOf v1 v2)
        have := distance_nonneg u1.pos (centerOf u1 u2)
        unfold realThreshold; linarith), if_pos (show distance (centerOf v1 v2) (centerOf u1 u2) > distance v1.pos (centerOf v1 v2) + distance u1.pos (centerOf u1 u2) + realThreshold ∨
          distance (centerOf v1 v2) (centerOf u1 u2) + realThreshold < |distance v1.pos (centerOf v1 v2) - distance u1.pos (centerOf u1 u2)| from Or.inl h1)] at hp
      cases hp
    · unfold intrCircle2Circle2 at hp
      simp only [hdd] at hp
      by_cases h0 : distance (centerOf v1 v2) (centerOf u1 u2) < realThreshold
      · rw [if_pos h0] at hp
        split_ifs at hp
      · rw [if_neg h0, if_pos (show distance (centerOf v1 v2) (centerOf u1 u2) > distance v1.pos (centerOf v1 v2) + distance u1.pos (centerOf u1 u2) + realThreshold ∨
          distance (centerOf v1 v2) (centerOf u1 u2) + realThreshold < |distance v1.pos (centerOf v1 v2) - distance u1.pos (centerOf u1 u2)| from Or.inr h1)] at hp
        cases hp
    · rw [hp] at hcc
      simp only at hcc
      rcases hcc with ⟨-, -, h2⟩ | ⟨h2, -⟩
      · have g1 := h2 x hx
        have g2 := h2 y hy
        rw [abs_lt, abs_lt] at g1 g2
        rw [le_abs, le_abs] at hxy
        rcases hxy with (h | h) | (h | h) <;> linarith [g1.1.1, g1.1.2, g1.2.1, g1.2.2, g2.1.1, g2.1.2, g2.2.1, g2.2.2]
      · exact h2 x hx
  generalize intrCircle2Circle2 (distance v1.pos (centerOf v1 v2)) (centerOf v1 v2)
        (distance u1.pos (centerOf u1 u2)) (centerOf u1 u2) = res at hcc hone ⊢
  cases res with
  | coincident =>
    simp only at hcc
    exfalso
    have := hr hcc.1
    linarith [hcc.2]
  | noIntersect =>
    simp only at hcc
    refine ⟨_, rfl, by simp, by simp [reported], fun x => ?_⟩
    simp only [reported, List.not_mem_nil, false_iff]
    exact fun hx => hcc.2 x ((com x).1 hx).1
  | one p => exact absurd rfl (hone p)
  | two p q =>
    simp only at hcc
    obtain ⟨hne, hall⟩ := hcc
    have fin : ∀ l : List V2, (∀ x, x ∈ l ↔ (x = p ∨ x = q) ∧ InSweep (1 / 10 ^ 8) v1 v2 (centerOf v1 v2) x ∧
        InSweep (1 / 10 ^ 8) u1 u2 (centerOf u1 u2) x) → ∀ x, x ∈ l ↔ OnSeg v1 v2 x ∧ OnSeg u1 u2 x := by
      intro l hl x
      rw [hl, com, hall]
    refine ⟨_, rfl, ?_⟩
    split_ifs with g1 g2 g2
    · refine ⟨by simp, by simp [reported, hne], fin _ fun x => ?_⟩
      simp only [reported, List.mem_cons, List.not_mem_nil, or_false]
      constructor
      · rintro (rfl | rfl)
        · exact ⟨Or.inl rfl, g1⟩
        · exact ⟨Or.inr rfl, g2⟩
      · exact fun h => h.1
    · refine ⟨by simp, by simp [reported], fin _ fun x => ?_⟩
      simp only [reported, List.mem_singleton]
      constructor
      · rintro rfl; exact ⟨Or.inl rfl, g1⟩
      · rintro ⟨rfl | rfl, h⟩
        · rfl
        · exact absurd h g2
    · refine ⟨by simp, by simp [reported], fin _ fun x => ?_⟩
      simp only [reported, List.mem_singleton]
      constructor
      · rintro rfl; exact ⟨Or.inr rfl, g2⟩
      · rintro ⟨rfl | rfl, h⟩
        · exact absurd h g1
        · rfl
    · refine ⟨by simp, by simp [reported], fin _ fun x => ?_⟩
      simp only [reported, List.not_mem_nil, false_iff]
      rintro ⟨rfl | rfl, h⟩
      · exact g1 h
      · exact g2 h

/-- C50, exactness. For all pairs of segments that cross clearly or not at all the test does not fault, reports no
overlap, and the points it reports are exactly the common points of the two segments, each once. -/
theorem C50_exact {v1 v2 u1 u2 : Vertex} (hv : SegOk v1 v2) (hu : SegOk u1 u2) (h : ClearPair v1 v2 u1 u2) :
    ∃ r, intrPlineSegs v1 v2 u1 u2 = .ok r ∧
      (∀ a b, r ≠ .segmentOverlap a b ∧ r ≠ .arcOverlap a b) ∧ (reported r).Nodup ∧
      ∀ x, x ∈ reported r ↔ OnSeg v1 v2 x ∧ OnSeg u1 u2 x := by
  by_cases l1 : IsLine v1
  · by_cases l2 : IsLine u1
    · exact clear_lines l1 l2 h
    · obtain ⟨r, h1, h2⟩ := clear_line_arc l1 l2 hu (h.lineArc l1 l2) h.exact
      refine ⟨r, ?_, h2⟩
      unfold intrPlineSegs
      rw [if_neg (fun h => l2 h.2), if_pos (show v1.bulgeIsZero from l1), h1]
  · by_cases l2 : IsLine u1
    · obtain ⟨r, h1, h2, h3, h4⟩ := clear_line_arc l2 l1 hv (h.arcLine l1 l2) fun x a b => (h.exact x b a).symm
      refine ⟨r, ?_, h2, h3, fun x => by rw [h4, and_comm]⟩
      unfold intrPlineSegs
      rw [if_neg (fun h => l1 h.1), if_neg (show ¬ v1.bulgeIsZero from l1), if_pos (show u1.bulgeIsZero from l2), h1]
    · exact clear_arcs l1 l2 hv hu h

/-! ### Segments that cross clearly are not tangent to each other -/

theorem sweep_ne {v : Vertex} (h : v.bulge ≠ 0) : sweep v ≠ 0 := by
  rcases lt_or_gt_of_ne h with h | h
  · exact (sweep_neg h).ne
  · exact (sweep_pos h).ne'

theorem cross_line_arc {v1 v2 u1 u2 : Vertex} (l1 : IsLine v1) (l2 : ¬ IsLine u1) (hok : SegOk u1 u2)
    (hclear : ∀ c, IsCenter u1 u2 c → LineCircleClear v1.pos v2.pos c (distance u1.pos c)) {t s : ℝ}
    (h : segPt v1 v2 t = segPt u1 u2 s) : velCross v1 v2 t u1 u2 s ≠ 0 := by
  have hua := hok.arcOk l2
  obtain ⟨hlen, htan⟩ := hclear _ (isCenter_centerOf (v2 := u2) hua.b_ne)
  have hx : dist2 (segPt u1 u2 s) (centerOf u1 u2) = dist2 u1.pos (centerOf u1 u2) := by
    unfold segPt; rw [if_neg l2, dist2_rot]
  have h1 : segPt v1 v2 t = lerp v1.pos v2.pos t := by unfold segPt; rw [if_pos l1]
  rw [← h, h1] at hx
  have q := dist2_lerp_side v1.pos v2.pos (centerOf u1 u2) t
  rw [hx] at q
  intro h0
  unfold velCross vel at h0
  rw [if_pos l1, if_neg l2, ← h, h1] at h0
  have hs := sweep_ne hua.b_ne
  have h2 : sweep u1 * (dist2 v1.pos v2.pos * t + ((v2.pos.x - v1.pos.x) * (v1.pos.x - (centerOf u1 u2).x) +
      (v2.pos.y - v1.pos.y) * (v1.pos.y - (centerOf u1 u2).y))) = 0 := by
    rw [← neg_eq_zero, ← h0]
    simp only [lerp, dist2, V2.sub_x, V2.sub_y]
    ring
  have h3 := (mul_eq_zero.1 h2).resolve_left hs
  rw [h3] at q
  rw [distance_sq, show side v1.pos v2.pos (centerOf u1 u2) ^ 2 - dist2 u1.pos (centerOf u1 u2) * dist2 v1.pos v2.pos = 0 by
    rw [q]; ring, abs_zero] at htan
  norm_num at htan

theorem cross_circles {c d x : V2} {r s : ℝ} (hr : 0 < r) (hs : 0 ≤ s) (h : CirclesClear c r d s) (h1 : OnCircle r c x)
    (h2 : OnCircle s d x) : (x.x - c.x) * (x.y - d.y) - (x.y - c.y) * (x.x - d.x) ≠ 0 := by
  intro h0
  unfold OnCircle at h1 h2
  have hd := distance_nonneg c d
  have hd2 := distance_sq c d
  obtain ⟨p, hp⟩ : ∃ p, p = (x.x - c.x) * (x.x - d.x) + (x.y - c.y) * (x.y - d.y) := ⟨_, rfl⟩
  have hp2 : p ^ 2 = (r * s) ^ 2 := by
    have : p ^ 2 + ((x.x - c.x) * (x.y - d.y) - (x.y - c.y) * (x.x - d.x)) ^ 2 = dist2 x c * dist2 x d := by
      rw [hp]; simp only [dist2]; ring
    rw [h0, h1, h2] at this
    linarith [this, (by ring : (r * s) ^ 2 = r ^ 2 * s ^ 2)]
  have hcd : distance c d ^ 2 = r ^ 2 + s ^ 2 - 2 * p := by
    rw [hd2, ← h1, ← h2, hp]; simp only [dist2]; ring
  have hrs : distance c d = |r - s| ∨ distance c d = r + s := by
    rcases sq_eq_sq_iff_eq_or_eq_neg.1 hp2 with e | e
    · left
      rw [← abs_of_nonneg hd]
      apply (sq_eq_sq_iff_abs_eq_abs _ _).1
      rw [hcd, e]; ring
    · right
      have : distance c d ^ 2 = (r + s) ^ 2 := by rw [hcd, e]; ring
      rwa [sq_eq_sq₀ hd (by linarith)] at this
  rcases h with h | h | ⟨h, y, y', hy, hy', hne⟩
  · rcases hrs with e | e
    · have : |r - s| ≤ r + s := abs_le.2 ⟨by linarith, by linarith⟩
      linarith
    · linarith
  · rcases hrs with e | e
    · linarith
    · have : |r - s| ≤ r + s := abs_le.2 ⟨by linarith, by linarith⟩
      linarith
  · -- every common point is this one
    have key : ∀ z, OnCircle r c z → OnCircle s d z → z = x := by
      intro z hz1 hz2
      unfold OnCircle at hz1 hz2
      have hr2 : 0 < dist2 x c := by rw [h1]; positivity
      obtain ⟨μ, m1, m2⟩ : ∃ μ : ℝ, x.x - d.x = μ * (x.x - c.x) ∧ x.y - d.y = μ * (x.y - c.y) := by
        refine ⟨p / dist2 x c, ?_, ?_⟩
        · rw [div_mul_eq_mul_div, eq_div_iff hr2.ne', hp]
          simp only [dist2]
          linear_combination -(x.y - c.y) * h0
        · rw [div_mul_eq_mul_div, eq_div_iff hr2.ne', hp]
          simp only [dist2]
          linear_combination (x.x - c.x) * h0
      have w1 : (z.x - x.x) ^ 2 + (z.y - x.y) ^ 2 + 2 * ((z.x - x.x) * (x.x - c.x) + (z.y - x.y) * (x.y - c.y)) = 0 := by
        rw [← h1] at hz1
        simp only [dist2] at hz1
        linear_combination hz1
      have w2 : (z.x - x.x) ^ 2 + (z.y - x.y) ^ 2 + 2 * μ * ((z.x - x.x) * (x.x - c.x) + (z.y - x.y) * (x.y - c.y)) = 0 := by
        rw [← h2] at hz2
        simp only [dist2] at hz2
        have : (z.x - x.x) ^ 2 + (z.y - x.y) ^ 2 + 2 * ((z.x - x.x) * (x.x - d.x) + (z.y - x.y) * (x.y - d.y)) = 0 := by
          linear_combination hz2
        rw [m1, m2] at this
        linear_combination this
      have hμ : 1 - μ ≠ 0 := by
        intro hμ
        have e1 : x.x - d.x = x.x - c.x := by rw [m1, show μ = 1 by linarith]; ring
        have e2 : x.y - d.y = x.y - c.y := by rw [m2, show μ = 1 by linarith]; ring
        have : dist2 c d = 0 := by
          simp only [dist2]
          rw [show c.x - d.x = 0 by linarith, show c.y - d.y = 0 by linarith]; ring
        rw [this] at hd2
        have := pow_eq_zero_iff (two_ne_zero) |>.mp hd2
        rw [this] at h
        norm_num at h
      have w3 : (1 - μ) * ((z.x - x.x) ^ 2 + (z.y - x.y) ^ 2) = 0 := by linear_combination w2 - μ * w1
      have w4 := (mul_eq_zero.1 w3).resolve_left hμ
      have a := sq_nonneg (z.x - x.x)
      have b := sq_nonneg (z.y - x.y)
      have a0 : (z.x - x.x) ^ 2 = 0 := by linarith
      have b0 : (z.y - x.y) ^ 2 = 0 := by linarith
      have a1 := pow_eq_zero_iff (two_ne_zero) |>.mp a0
      have b1 := pow_eq_zero_iff (two_ne_zero) |>.mp b0
      ext <;> linarith
    rw [key y hy.1 hy.2, key y' hy'.1 hy'.2, sub_self, sub_self, abs_zero] at hne
    norm_num at hne

/-- At a common point of segments that cross clearly they are not tangent to each other. -/
theorem clear_cross {v1 v2 u1 u2 : Vertex} (hv : SegOk v1 v2) (hu : SegOk u1 u2) (h : ClearPair v1 v2 u1 u2) {t s : ℝ}
    (t0 : 0 ≤ t) (t1 : t ≤ 1) (s0 : 0 ≤ s) (s1 : s ≤ 1) (he : segPt v1 v2 t = segPt u1 u2 s) :
    velCross v1 v2 t u1 u2 s ≠ 0 := by
  by_cases l1 : IsLine v1
  · by_cases l2 : IsLine u1
    · unfold segPt at he
      rw [if_pos l1, if_pos l2] at he
      unfold velCross vel
      rw [if_pos l1, if_pos l2]
      simp only [V2.sub_x, V2.sub_y]
      rcases h.lines l1 l2 with hd | hs
      · intro h0
        rw [show (v2.pos.x - v1.pos.x) * (u2.pos.y - u1.pos.y) - (v2.pos.y - v1.pos.y) * (u2.pos.x - u1.pos.x) = 0 by
          linear_combination -h0, abs_zero] at hd
        norm_num at hd
      · exfalso
        refine awayFrom_off ?_ t0 t1 s0 s1 he
        rcases hs with hs | hs
        · exact Or.inl hs
        · exact Or.inr (Or.inl hs)
    · exact cross_line_arc l1 l2 hu (h.lineArc l1 l2) he
  · by_cases l2 : IsLine u1
    · rw [velCross_swap, neg_ne_zero]
      exact cross_line_arc l2 l1 hv (h.arcLine l1 l2) he.symm
    · have hva := hv.arcOk l1
      have hua := hu.arcOk l2
      have hclear := h.arcs l1 l2 _ _ (isCenter_centerOf (v2 := v2) hva.b_ne) (isCenter_centerOf (v2 := u2) hua.b_ne)
      have e1 : OnCircle (distance v1.pos (centerOf v1 v2)) (centerOf v1 v2) (segPt v1 v2 t) := by
        unfold OnCircle segPt; rw [if_neg l1, dist2_rot, distance_sq]
      have e2 : OnCircle (distance u1.pos (centerOf u1 u2)) (centerOf u1 u2) (segPt v1 v2 t) := by
        rw [he]; unfold OnCircle segPt; rw [if_neg l2, dist2_rot, distance_sq]
      have hr : 0 < distance v1.pos (centerOf v1 v2) := by
        rw [← hva.radius_eq]; exact hva.radius_pos
      have := cross_circles hr (distance_nonneg _ _) hclear e1 e2
      unfold velCross vel
      rw [if_neg l1, if_neg l2, ← he]
      intro h0
      apply this
      have : sweep v1 * sweep u1 * (((segPt v1 v2 t).x - (centerOf v1 v2).x) * ((segPt v1 v2 t).y - (centerOf u1 u2).y) -
          ((segPt v1 v2 t).y - (centerOf v1 v2).y) * ((segPt v1 v2 t).x - (centerOf u1 u2).x)) = 0 := by
        linear_combination -h0
      exact (mul_eq_zero.1 this).resolve_left (mul_ne_zero (sweep_ne hva.b_ne) (sweep_ne hua.b_ne))

end
end Cavc

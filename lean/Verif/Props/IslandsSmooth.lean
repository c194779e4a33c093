import Verif.Props.RoundHoles
import Verif.Props.OffsetTwice

/-! C82 for curves without corners. -/
namespace Cavc
open Spec
open scoped Classical
noncomputable section

/-- A point that keeps its distance from the curve is far enough for the test of the code. -/
theorem farEnough_smooth {p : Polyline} (hok : PlineOk p) {offset : ℝ} (ho : 1 / 10 ^ 4 ≤ |offset|) {x : V2}
    (hn : NotCloser p |offset| x) (hd : ∀ i v1 v2, IsSeg p i v1 v2 → SectorDecided v1 v2 x) : FarEnough p offset x := by
  intro i v1 v2 z hseg _ hz
  have hon : OnSeg v1 v2 z := by
    by_cases hl : IsLine v1
    · unfold closestPointOnSeg at hz
      rw [if_pos (show v1.bulgeIsZero from hl)] at hz
      have hz := Except.ok.inj hz
      obtain ⟨t, t0, t1, e⟩ := (C13_closestPointOnLineSeg v1.pos v2.pos x).1
      rw [onSeg_line hl]
      exact ⟨t, t0, t1, by rw [← hz, e]⟩
    · obtain ⟨z', c, hz', hc, -, -, -, hsec⟩ := C14_closestPointOnSeg (hok _ _ _ hseg) hl x
      rw [hz] at hz'
      have hz' := Except.ok.inj hz'
      subst hz'
      apply hsec
      rcases hd _ _ _ hseg with h | h
      · exact absurd h hl
      · exact Or.inr (h c hc)
  have hge := hn z ⟨i, v1, v2, hseg, hon⟩
  have hsym : dist2 z x = distance x z ^ 2 := by rw [distance_sq]; unfold dist2; ring
  rw [hsym]
  have h0 : (0 : ℝ) < 1 / 10 ^ 4 := by norm_num
  apply pow_lt_pow_left₀ _ (by linarith) two_ne_zero
  linarith

/-- Segments whose boxes are apart or that clearly have no common point report nothing. -/
theorem nothing_of_clear {p q : Polyline} (hp : PlineOk p) (hq : PlineOk q) (h : NeverMeet p q) : NothingReported p q := by
  intro i j v1 v2 u1 u2 hv hu hb x
  obtain ⟨hc, hno⟩ := h i j v1 v2 u1 u2 hv hu hb
  obtain ⟨r, hr, hn, -, hrep⟩ := C50_exact (hp _ _ _ hv) (hq _ _ _ hu) hc
  have hnil : ∀ y, y ∉ reported r := fun y hy => hno y ((hrep y).1 hy)
  constructor
  · rintro (hh | ⟨y, hh | hh⟩) <;> rw [hr] at hh <;> have hh := Except.ok.inj hh <;> subst hh
    · exact hnil x (by simp [reported])
    · exact hnil x (by simp [reported])
    · exact hnil x (by simp [reported])
  · rintro y (hh | hh) <;> rw [hr] at hh <;> have hh := Except.ok.inj hh
    · exact (hn _ _).1 hh
    · exact (hn _ _).2 hh

/-- C82. Any number of counter clockwise and clockwise closed curves without corners, whose parallel curves keep apart from
themselves, from each other and from the other curves: the offset of the set are the parallel curves, each with the index of
its own curve. -/
theorem C82_smooth {std : StdSort} {hash : HashOrder} (inf ninf : ℝ) {input : OffsetLoopSet} {delta : ℝ}
    {ccw cw : List (Polyline × Polyline)}
    (hccw : input.ccwLoops.map OffsetLoop.polyline = ccw.map Prod.fst)
    (hcw : input.cwLoops.map OffsetLoop.polyline = cw.map Prod.fst)
    (hind : ∀ l ∈ loopsOf input, Indexed (codePlatform inf ninf) l) (hd : 1 / 10 ^ 4 ≤ |delta|)
    (h1 : ∀ k ∈ ccw, SmoothLoop |delta| 1 k.1 k.2) (h2 : ∀ k ∈ cw, SmoothLoop |delta| (-1) k.1 k.2)
    (hroom : ∀ (i j : ℕ) (k l : Polyline × Polyline), i ≠ j → (ccw ++ cw)[i]? = some k → (ccw ++ cw)[j]? = some l →
      NeverMeet k.2 l.2 ∧ ∀ first, k.2.vertexes.head? = some first → FarEnough l.1 delta first.pos)
    (hn : (ccw ++ cw).length ≤ 2 ^ 24) :
    ∃ r, computeIslands (codePlatform inf ninf) std hash input delta = .ok r ∧
      r.ccwLoops.map OffsetLoop.named = ccw.zipIdx.map (fun x => (x.2, x.1.2)) ∧
      r.cwLoops.map OffsetLoop.named = (cw.zipIdx ccw.length).map (fun x => (x.2, x.1.2)) := by
  have hab : |(|delta|)| = |delta| := abs_abs delta
  have hok : ∀ k ∈ ccw ++ cw, ∃ s : ℝ, s ≠ 0 ∧ SmoothLoop |delta| s k.1 k.2 := by
    intro k hk
    rcases List.mem_append.1 hk with h | h
    · exact ⟨1, by norm_num, h1 k h⟩
    · exact ⟨-1, by norm_num, h2 k h⟩
  have hokp : ∀ k ∈ ccw ++ cw, PlineOk k.1 := by
    intro k hk
    obtain ⟨s, -, h⟩ := hok k hk
    have g3 := h.three
    have hsym := C84_symm h.parallel h.tiny.apart h.arcs
    exact parallel_ok hsym (by rw [h.parallel.length]; omega) (parallel_bulges h.parallel (by omega) h.bulges) h.tiny
  have hokq : ∀ k ∈ ccw ++ cw, PlineOk k.2 := by
    intro k hk
    obtain ⟨s, -, h⟩ := hok k hk
    have g3 := h.three
    exact parallel_ok h.parallel (by omega) h.bulges h.roomy.tiny
  have hip : ∀ k ∈ ccw ++ cw, Indexable (codePlatform inf ninf) k.1 := by
    intro k hk
    obtain ⟨s, -, h⟩ := hok k hk
    obtain ⟨a, ha, h0⟩ := h.turns
    exact indexable_area inf ninf ha (by rintro rfl; simp at h0) h.few fun i v1 v2 hs => (hokp k hk i v1 v2 hs).half
  have hiq : ∀ k ∈ ccw ++ cw, Indexable (codePlatform inf ninf) k.2 := by
    intro k hk
    obtain ⟨s, -, h⟩ := hok k hk
    obtain ⟨a, ha, h0⟩ := h.turns'
    exact indexable_area inf ninf ha (by rintro rfl; simp at h0) (by rw [h.parallel.length]; exact h.few)
      fun i v1 v2 hs => (hokq k hk i v1 v2 hs).half
  have hloops : (loopsOf input).map OffsetLoop.polyline = (ccw ++ cw).map Prod.fst := by
    unfold loopsOf
    rw [List.map_append, List.map_append, hccw, hcw]
  have hin : ∀ l ∈ loopsOf input, LoopOk (codePlatform inf ninf) l := by
    intro l hl
    have : l.polyline ∈ (ccw ++ cw).map Prod.fst := by rw [← hloops]; exact List.mem_map.2 ⟨l, hl, rfl⟩
    obtain ⟨k, hk, e⟩ := List.mem_map.1 this
    exact ⟨by rw [← e]; exact hokp k hk, by rw [← e]; exact hip k hk, hind l hl⟩
  set offs := (ccw ++ cw).map fun k => [k.2] with hoffs
  have hfl : offs.flatten = (ccw ++ cw).map Prod.snd := flatten_single _ _
  have ho : List.Forall₂ (fun l o => parallelOffset (codePlatform inf ninf) std hash l.polyline |delta| = .ok o) (loopsOf input) offs := by
    have : List.Forall₂ (fun q o => parallelOffset (codePlatform inf ninf) std hash q |delta| = .ok o)
        ((loopsOf input).map OffsetLoop.polyline) offs := by
      rw [hloops, hoffs, List.forall₂_map_left_iff, List.forall₂_map_right_iff, List.forall₂_same]
      intro k hk
      obtain ⟨s, -, h⟩ := hok k hk
      obtain ⟨f, f1, f2, f3⟩ := h.roomy.first
      exact C80_parallel_simple inf ninf h.parallel h.three (by rw [hab]; exact hd) (hip k hk) (hiq k hk) h.bulges h.tiny.apart
        h.roomy.tiny h.arcs h.roomy.keeps f1 (by rw [hab]; exact f2) f3
    rw [List.forall₂_map_left_iff] at this
    exact this
  have hq : ∀ q ∈ offs.flatten, PlineOk q ∧ getArea q ≠ .ok 0 ∧ q.vertexes.length ≤ 2 ^ 24 := by
    intro q hq
    rw [hfl, List.mem_map] at hq
    obtain ⟨k, hk, rfl⟩ := hq
    obtain ⟨s, -, h⟩ := hok k hk
    obtain ⟨a, ha, h0⟩ := h.turns'
    refine ⟨hokq k hk, ?_, by rw [h.parallel.length]; exact h.few⟩
    rw [ha]
    intro e
    have e := Except.ok.inj e
    subst e
    simp at h0
  have hap : ∀ q q', [q, q'].Subperm offs.flatten → NothingReported q q' := by
    have hpw : offs.flatten.Pairwise (fun q q' => NothingReported q q' ∧ NothingReported q' q) := by
      rw [hfl, List.pairwise_map, List.pairwise_iff_getElem]
      intro i j hi hj hij
      have gi := List.getElem?_eq_getElem hi
      have gj := List.getElem?_eq_getElem hj
      have mi := hokq _ (List.getElem_mem hi)
      have mj := hokq _ (List.getElem_mem hj)
      exact ⟨nothing_of_clear mi mj (hroom i j _ _ hij.ne gi gj).1, nothing_of_clear mj mi (hroom j i _ _ hij.ne' gj gi).1⟩
    rintro q q' ⟨l, hl, hs⟩
    have h := (hl.pairwise_iff (fun h => h.symm)).1 (hpw.sublist hs)
    rw [List.pairwise_cons] at h
    exact (h.1 q' (by simp)).1
  obtain ⟨r, hr, e1, e2⟩ := C82_islands_apart (std := std) (hash := hash) inf ninf hin ho hq
    (by rw [hfl, List.length_map]; exact hn) hap
  have hnum : numbered offs = ccw.zipIdx.map (fun x => (x.2, x.1.2)) ++
      (cw.zipIdx ccw.length).map (fun x => (x.2, x.1.2)) := by
    unfold numbered
    rw [hoffs, numbered_map, List.zipIdx_append, List.map_append, zero_add]
  have far' : ∀ k i, (ccw ++ cw)[i]? = some k → ∃ v, k.2.vertexes.head? = some v ∧ FarFromOthers input delta i v.pos := by
    intro k i hi
    obtain ⟨s, -, h⟩ := hok k (List.mem_of_getElem? hi)
    obtain ⟨f, f1, -, -⟩ := h.roomy.first
    refine ⟨f, f1, fun j l hj hl => ?_⟩
    have hl' : ((loopsOf input).map OffsetLoop.polyline)[j]? = some l.polyline := by rw [List.getElem?_map, hl]; rfl
    rw [hloops, List.getElem?_map] at hl'
    cases hk : (ccw ++ cw)[j]? with
    | none => rw [hk] at hl'; simp at hl'
    | some k' =>
      rw [hk] at hl'
      have hl' : k'.1 = l.polyline := Option.some.inj hl'
      rw [← hl']
      exact (hroom i j k k' hj.symm hi hk).2 f f1
  have hlen : input.ccwLoops.length = ccw.length := by
    have := congrArg List.length hccw
    rwa [List.length_map, List.length_map] at this
  have m1 : ∀ x ∈ ccw.zipIdx, (ccw ++ cw)[x.2]? = some x.1 ∧ x.1 ∈ ccw ∧ x.2 < ccw.length := by
    rintro ⟨k, i⟩ hx
    have hx := List.mem_zipIdx_iff_getElem?.1 hx
    simp only at hx ⊢
    have hlt := (List.getElem?_eq_some_iff.1 hx).1
    exact ⟨by rw [List.getElem?_append_left hlt]; exact hx, List.mem_of_getElem? hx, hlt⟩
  have m2 : ∀ x ∈ cw.zipIdx ccw.length, (ccw ++ cw)[x.2]? = some x.1 ∧ x.1 ∈ cw ∧ ccw.length ≤ x.2 := by
    rintro ⟨k, i⟩ hx
    have hx := List.mem_zipIdx_iff_le_and_getElem?_sub.1 hx
    simp only at hx ⊢
    exact ⟨by rw [List.getElem?_append_right hx.1]; exact hx.2, List.mem_of_getElem? hx.2, hx.1⟩
  refine ⟨r, hr, ?_, ?_⟩
  · rw [e1, hnum, List.filter_append, List.filter_eq_self.2, List.filter_eq_nil_iff.2, List.append_nil]
    · intro y hy
      obtain ⟨x, hx, rfl⟩ := List.mem_map.1 hy
      obtain ⟨a2, a3, a4⟩ := m2 x hx
      simp only [decide_eq_true_eq]
      rintro ⟨⟨a, ha, hpos⟩, -⟩
      obtain ⟨b, hb, h0⟩ := (h2 _ a3).turns'
      rw [hb] at ha
      have ha := Except.ok.inj ha
      linarith
    · intro y hy
      obtain ⟨x, hx, rfl⟩ := List.mem_map.1 hy
      obtain ⟨a2, a3, a4⟩ := m1 x hx
      simp only [decide_eq_true_eq]
      obtain ⟨b, hb, h0⟩ := (h1 _ a3).turns'
      exact ⟨⟨b, hb, by linarith⟩, far' _ _ a2⟩
  · rw [e2, hnum, List.filter_append, List.filter_eq_nil_iff.2, List.filter_eq_self.2, List.nil_append]
    · intro y hy
      obtain ⟨x, hx, rfl⟩ := List.mem_map.1 hy
      obtain ⟨a2, a3, a4⟩ := m2 x hx
      simp only [decide_eq_true_eq]
      obtain ⟨b, hb, h0⟩ := (h2 _ a3).turns'
      exact ⟨⟨by rw [hlen]; exact a4, b, hb, by linarith⟩, far' _ _ a2⟩
    · intro y hy
      obtain ⟨x, hx, rfl⟩ := List.mem_map.1 hy
      obtain ⟨a2, a3, a4⟩ := m1 x hx
      simp only [decide_eq_true_eq]
      rintro ⟨⟨hle, -⟩, -⟩
      rw [hlen] at hle
      omega

section
variable {σ X0 y0 X1 y1 d : ℝ}

theorem side_area {lx hx ly hy : ℝ} {v w : Vertex} (g : IsSide σ lx hx ly hy v w) {γ : ℝ → V2} (h : IsPath v w γ) :
    curveArea γ = (v.pos.x * w.pos.y - v.pos.y * w.pos.x) / 2 := by
  rw [path_line g.line h, curveArea_line]

theorem rounding_area {lx hx ly hy : ℝ} {c : V2} {v w : Vertex} (hσ : σ = 1 ∨ σ = -1) (g : IsRounding σ lx hx ly hy d c v w)
    {γ : ℝ → V2} (h : IsPath v w γ) :
    curveArea γ = (dist2 v.pos c * (σ * (Real.pi / 2)) + c.x * (w.pos.y - v.pos.y) - c.y * (w.pos.x - v.pos.x)) / 2 := by
  obtain ⟨hl, -, -, -, hs⟩ := eighth_arc hσ g.bulge
  have hc := isCenter_unique (bulge_ne_zero hl) g.center
  have hw : rot c (sweep v) v.pos = w.pos := g.center
  rw [path_arc hl h, curveArea_rot, ← hc, hw, hs]

/-- C81. The area of a rectangle with rounded corners. -/
theorem C81_rounded_area (h : RoundOk σ X0 y0 X1 y1 d) : getArea (rounded σ X0 y0 X1 y1 d) =
    .ok (σ * ((X1 - X0) * (y1 - y0) + 2 * d * ((X1 - X0) + (y1 - y0)) + Real.pi * d ^ 2)) := by
  obtain ⟨γ, hγ⟩ := exists_path (rounded σ X0 y0 X1 y1 d)
  have hσ2 : σ ^ 2 = 1 := by rcases h.sign with e | e <;> rw [e] <;> norm_num
  have hcl : (rounded σ X0 y0 X1 y1 d).isClosed = true := rfl
  have hlen : (segs (rounded σ X0 y0 X1 y1 d)).length = 8 := rfl
  rw [C21_getArea _ hcl γ hγ, hlen]
  have get : ∀ i, i < 8 → ∃ v w, IsSeg (rounded σ X0 y0 X1 y1 d) i v w := fun i hi =>
    ⟨_, _, isSeg_closed hcl (show 2 ≤ 8 by norm_num) (show i < 8 from hi)⟩
  have a0 : curveArea (γ 0) = (σ * X0 * (y0 - d) - (y0 - d) * (σ * X1)) / 2 := by
    obtain ⟨v, w, hs⟩ := get 0 (by norm_num)
    have hp := hγ _ _ _ hs
    rcases round_seg (rounded_is h) hs with ⟨e, a, b, g⟩ | ⟨e, -⟩ | ⟨e, -⟩ | ⟨e, -⟩ | ⟨e, -⟩ | ⟨e, -⟩ | ⟨e, -⟩ | ⟨e, -⟩ <;>
      first | (rw [side_area g hp, a, b]) | (exfalso; omega)
  have a2 : curveArea (γ 2) = (σ * (X1 + d) * y1 - y0 * (σ * (X1 + d))) / 2 := by
    obtain ⟨v, w, hs⟩ := get 2 (by norm_num)
    have hp := hγ _ _ _ hs
    rcases round_seg (rounded_is h) hs with ⟨e, -⟩ | ⟨e, -⟩ | ⟨e, a, b, g⟩ | ⟨e, -⟩ | ⟨e, -⟩ | ⟨e, -⟩ | ⟨e, -⟩ | ⟨e, -⟩ <;>
      first | (rw [side_area g hp, a, b]) | (exfalso; omega)
  have a4 : curveArea (γ 4) = (σ * X1 * (y1 + d) - (y1 + d) * (σ * X0)) / 2 := by
    obtain ⟨v, w, hs⟩ := get 4 (by norm_num)
    have hp := hγ _ _ _ hs
    rcases round_seg (rounded_is h) hs with ⟨e, -⟩ | ⟨e, -⟩ | ⟨e, -⟩ | ⟨e, -⟩ | ⟨e, a, b, g⟩ | ⟨e, -⟩ | ⟨e, -⟩ | ⟨e, -⟩ <;>
      first | (rw [side_area g hp, a, b]) | (exfalso; omega)
  have a6 : curveArea (γ 6) = (σ * (X0 - d) * y0 - y1 * (σ * (X0 - d))) / 2 := by
    obtain ⟨v, w, hs⟩ := get 6 (by norm_num)
    have hp := hγ _ _ _ hs
    rcases round_seg (rounded_is h) hs with ⟨e, -⟩ | ⟨e, -⟩ | ⟨e, -⟩ | ⟨e, -⟩ | ⟨e, -⟩ | ⟨e, -⟩ | ⟨e, a, b, g⟩ | ⟨e, -⟩ <;>
      first | (rw [side_area g hp, a, b]) | (exfalso; omega)
  have a1 : curveArea (γ 1) = (d ^ 2 * (σ * (Real.pi / 2)) + σ * X1 * (y0 - (y0 - d)) - y0 * (σ * (X1 + d) - σ * X1)) / 2 := by
    obtain ⟨v, w, hs⟩ := get 1 (by norm_num)
    have hp := hγ _ _ _ hs
    rcases round_seg (rounded_is h) hs with ⟨e, -⟩ | ⟨e, a, b, g⟩ | ⟨e, -⟩ | ⟨e, -⟩ | ⟨e, -⟩ | ⟨e, -⟩ | ⟨e, -⟩ | ⟨e, -⟩ <;>
      first | (rw [rounding_area h.sign g hp, a, b]; simp only [dist2]; ring) | (exfalso; omega)
  have a3 : curveArea (γ 3) = (d ^ 2 * (σ * (Real.pi / 2)) + σ * X1 * (y1 + d - y1) - y1 * (σ * X1 - σ * (X1 + d))) / 2 := by
    obtain ⟨v, w, hs⟩ := get 3 (by norm_num)
    have hp := hγ _ _ _ hs
    rcases round_seg (rounded_is h) hs with ⟨e, -⟩ | ⟨e, -⟩ | ⟨e, -⟩ | ⟨e, a, b, g⟩ | ⟨e, -⟩ | ⟨e, -⟩ | ⟨e, -⟩ | ⟨e, -⟩ <;>
      first | (rw [rounding_area h.sign g hp, a, b]; simp only [dist2]; linear_combination (d ^ 2 * (σ * (Real.pi / 2)) / 2) * hσ2) | (exfalso; omega)
  have a5 : curveArea (γ 5) = (d ^ 2 * (σ * (Real.pi / 2)) + σ * X0 * (y1 - (y1 + d)) - y1 * (σ * (X0 - d) - σ * X0)) / 2 := by
    obtain ⟨v, w, hs⟩ := get 5 (by norm_num)
    have hp := hγ _ _ _ hs
    rcases round_seg (rounded_is h) hs with ⟨e, -⟩ | ⟨e, -⟩ | ⟨e, -⟩ | ⟨e, -⟩ | ⟨e, -⟩ | ⟨e, a, b, g⟩ | ⟨e, -⟩ | ⟨e, -⟩ <;>
      first | (rw [rounding_area h.sign g hp, a, b]; simp only [dist2]; ring) | (exfalso; omega)
  have a7 : curveArea (γ 7) = (d ^ 2 * (σ * (Real.pi / 2)) + σ * X0 * (y0 - d - y0) - y0 * (σ * X0 - σ * (X0 - d))) / 2 := by
    obtain ⟨v, w, hs⟩ := get 7 (by norm_num)
    have hp := hγ _ _ _ hs
    rcases round_seg (rounded_is h) hs with ⟨e, -⟩ | ⟨e, -⟩ | ⟨e, -⟩ | ⟨e, -⟩ | ⟨e, -⟩ | ⟨e, -⟩ | ⟨e, -⟩ | ⟨e, a, b, g⟩ <;>
      first | (rw [rounding_area h.sign g hp, a, b]; simp only [dist2]; linear_combination (d ^ 2 * (σ * (Real.pi / 2)) / 2) * hσ2) | (exfalso; omega)
  congr 1
  simp only [Finset.sum_range_succ, Finset.sum_range_zero, zero_add]
  rw [a0, a1, a2, a3, a4, a5, a6, a7]
  ring

theorem rounded_turns (h : RoundOk σ X0 y0 X1 y1 d) : ∃ a, getArea (rounded σ X0 y0 X1 y1 d) = .ok a ∧ 0 < σ * a := by
  refine ⟨_, C81_rounded_area h, ?_⟩
  have hσ2 : σ * σ = 1 := by rcases h.sign with e | e <;> rw [e] <;> norm_num
  have hd0 : 0 < d := lt_of_lt_of_le (by norm_num) h.offset
  have hw : 0 < X1 - X0 := by have := h.width; norm_num at this; linarith
  have hh : 0 < y1 - y0 := by have := h.height; norm_num at this; linarith
  rw [← mul_assoc, hσ2, one_mul]
  have := Real.pi_pos
  positivity

/-- The boxes of the segments. -/
theorem rounded_box (h : RoundOk σ X0 y0 X1 y1 d) {i : ℕ} {v w : Vertex} (hs : IsSeg (rounded σ X0 y0 X1 y1 d) i v w) :
    y0 - 2 * d ≤ (createFastApproxBoundingBox v w).yMin ∧ (createFastApproxBoundingBox v w).yMax ≤ y1 + 2 * d := by
  have hd0 : 0 < d := lt_of_lt_of_le (by norm_num) h.offset
  have hh : 0 < y1 - y0 := by have := h.height; norm_num at this; linarith
  rcases round_seg (rounded_is h) hs with ⟨-, -, -, g⟩ | ⟨-, -, -, g⟩ | ⟨-, -, -, g⟩ | ⟨-, -, -, g⟩ |
    ⟨-, -, -, g⟩ | ⟨-, -, -, g⟩ | ⟨-, -, -, g⟩ | ⟨-, -, -, g⟩ <;>
    exact ⟨by linarith [g.inBox.minY.1], by linarith [g.inBox.maxY.2]⟩

theorem rounded_smooth {d' δ : ℝ} (h : RoundOk σ X0 y0 X1 y1 d) (h' : RoundOk σ X0 y0 X1 y1 d') (hδ : -(σ * (d' - d)) = δ) (h0 : 0 ≤ δ) :
    SmoothLoop δ σ (rounded σ X0 y0 X1 y1 d) (rounded σ X0 y0 X1 y1 d') where
  parallel := by rw [← hδ]; exact rounded_parallel h h'
  three := show 3 ≤ 8 by norm_num
  few := show 8 ≤ 2 ^ 24 by norm_num
  bulges := rounded_bulges h
  tiny := rounded_tiny h
  arcs := by rw [← hδ]; exact rounded_collapses h h'
  roomy := by
    have := rounded_roomy h h'
    rwa [hδ, abs_of_nonneg h0] at this
  turns := rounded_turns h
  turns' := rounded_turns h'

end

/-- Two counter clockwise rectangles with rounded corners, one far above the other, and a clockwise one above both: the first two
are made smaller, the last one larger. -/
example (std : StdSort) (hash : HashOrder) : ∃ s0 s1 s2 r, computeIslands (codePlatform 0 0) std hash
      ⟨[⟨0, rounded 1 0 0 10 6 2, s0⟩, ⟨0, rounded 1 0 100 10 106 2, s1⟩], [⟨0, rounded (-1) 0 200 10 206 2, s2⟩]⟩ 1 = .ok r ∧
    r.ccwLoops.map OffsetLoop.named = [(0, rounded 1 0 0 10 6 1), (1, rounded 1 0 100 10 106 1)] ∧
    r.cwLoops.map OffsetLoop.named = [(2, rounded (-1) 0 200 10 206 3)] := by
  have ok : ∀ s a r : ℝ, (s = 1 ∨ s = -1) → 1 ≤ r → RoundOk s 0 a 10 (a + 6) r := fun s a r hs hr =>
    ⟨hs, by norm_num, by norm_num, by norm_num; linarith, Or.inl (by norm_num; linarith)⟩
  have o0 : ∀ r : ℝ, 1 ≤ r → RoundOk 1 0 0 10 6 r := fun r hr => by simpa using ok 1 0 r (Or.inl rfl) hr
  have o1 : ∀ r : ℝ, 1 ≤ r → RoundOk 1 0 100 10 106 r := fun r hr => by
    have := ok 1 100 r (Or.inl rfl) hr
    norm_num at this; exact this
  have o2 : ∀ r : ℝ, 1 ≤ r → RoundOk (-1) 0 200 10 206 r := fun r hr => by
    have := ok (-1) 200 r (Or.inr rfl) hr
    norm_num at this; exact this
  obtain ⟨s0, g0, -⟩ := ((rounded_is (o0 2 (by norm_num))).indexable 0 0).indexOf
  obtain ⟨s1, g1, -⟩ := ((rounded_is (o1 2 (by norm_num))).indexable 0 0).indexOf
  obtain ⟨s2, g2, -⟩ := ((rounded_is (o2 2 (by norm_num))).indexable 0 0).indexOf
  have apart : ∀ {s a b r s' a' b' r' : ℝ}, RoundOk s 0 a 10 b r → RoundOk s' 0 a' 10 b' r' →
      b + 2 * r + 1 < a' - 2 * r' ∨ b' + 2 * r' + 1 < a - 2 * r → NeverMeet (rounded s 0 a 10 b r) (rounded s' 0 a' 10 b' r') := by
    intro s a b r s' a' b' r' h h' hlt i j v1 v2 u1 u2 hv hu hb
    exfalso
    obtain ⟨b1, b2⟩ := rounded_box h hv
    obtain ⟨b3, b4⟩ := rounded_box h' hu
    obtain ⟨-, -, c1, c2⟩ := hb
    norm_num at c1 c2
    rcases hlt with e | e <;> linarith
  have far : ∀ {s a b r s' a' r' : ℝ}, RoundOk s 0 a 10 b r →
      b + 2 * r + 1 < a' - r' ∨ a' - r' + 1 < a - 2 * r → FarEnough (rounded s 0 a 10 b r) 1 ⟨s' * 0, a' - r'⟩ := by
    intro s a b r s' a' r' h hlt i v1 v2 q hs ho
    exfalso
    obtain ⟨b1, b2⟩ := rounded_box h hs
    obtain ⟨-, -, c1, c2⟩ := ho
    simp only [squareAround, abs_one] at c1 c2
    change _ ≤ (createFastApproxBoundingBox v1 v2).toBox.minY at b1
    change (createFastApproxBoundingBox v1 v2).toBox.maxY ≤ _ at b2
    norm_num at c1 c2
    rcases hlt with e | e <;> linarith
  obtain ⟨r, hr, e1, e2⟩ := C82_smooth (std := std) (hash := hash) 0 0
    (input := ⟨[⟨0, rounded 1 0 0 10 6 2, s0⟩, ⟨0, rounded 1 0 100 10 106 2, s1⟩], [⟨0, rounded (-1) 0 200 10 206 2, s2⟩]⟩)
    (delta := 1) (ccw := [(rounded 1 0 0 10 6 2, rounded 1 0 0 10 6 1), (rounded 1 0 100 10 106 2, rounded 1 0 100 10 106 1)])
    (cw := [(rounded (-1) 0 200 10 206 2, rounded (-1) 0 200 10 206 3)]) rfl rfl
    (by
      intro l hl
      simp only [loopsOf, List.cons_append, List.nil_append, List.mem_cons, List.not_mem_nil, or_false] at hl
      rcases hl with rfl | rfl | rfl
      · exact g0
      · exact g1
      · exact g2)
    (by norm_num)
    (by
      intro k hk
      simp only [List.mem_cons, List.not_mem_nil, or_false] at hk
      rcases hk with rfl | rfl
      · exact rounded_smooth (o0 2 (by norm_num)) (o0 1 (by norm_num)) (by norm_num) (by norm_num)
      · exact rounded_smooth (o1 2 (by norm_num)) (o1 1 (by norm_num)) (by norm_num) (by norm_num))
    (by
      intro k hk
      simp only [List.mem_cons, List.not_mem_nil, or_false] at hk
      subst hk
      exact rounded_smooth (o2 2 (by norm_num)) (o2 3 (by norm_num)) (by norm_num) (by norm_num))
    (by
      intro i j k l hij hi hj
      have hi3 : i < 3 := (List.getElem?_eq_some_iff.1 hi).1
      have hj3 : j < 3 := (List.getElem?_eq_some_iff.1 hj).1
      have p0 := o0 1 (by norm_num)
      have p1 := o1 1 (by norm_num)
      have p2 := o2 3 (by norm_num)
      have r0 := o0 2 (by norm_num)
      have r1 := o1 2 (by norm_num)
      have r2 := o2 2 (by norm_num)
      interval_cases i <;> interval_cases j <;> first | exact absurd rfl hij | skip
      all_goals
        cases hi
        cases hj
        refine ⟨apart (by assumption) (by assumption) (by norm_num), fun first hf => ?_⟩
        cases hf
        exact far (by assumption) (by norm_num))
    (by norm_num)
  exact ⟨s0, s1, s2, r, hr, e1, e2⟩

end
end Cavc

import Verif.Props.IslandRegion
import Verif.Props.IslandsRects
import Verif.Props.OffsetRegion

/-! The hypotheses of property C75 are met by two squares side by side. -/
namespace Cavc
open Spec
open scoped Classical
noncomputable section

/-- The square of side 10 with the lower left corner (c, 0). -/
abbrev sq10 (c : ℝ) : Polyline := rect c 0 (c + 10) 10

variable {c0 : ℝ}

theorem sq10_corner {i : ℕ} {a b c : V2} (h : IsCorner (sq10 c0) i a b c) :
    (i = 0 ∧ a = ⟨c0, 0⟩ ∧ b = ⟨c0 + 10, 0⟩ ∧ c = ⟨c0 + 10, 10⟩) ∨
    (i = 1 ∧ a = ⟨c0 + 10, 0⟩ ∧ b = ⟨c0 + 10, 10⟩ ∧ c = ⟨c0, 10⟩) ∨
    (i = 2 ∧ a = ⟨c0 + 10, 10⟩ ∧ b = ⟨c0, 10⟩ ∧ c = ⟨c0, 0⟩) ∨
    (i = 3 ∧ a = ⟨c0, 10⟩ ∧ b = ⟨c0, 0⟩ ∧ c = ⟨c0 + 10, 0⟩) := by
  obtain ⟨hi, rfl, rfl, rfl⟩ := (isCorner_iff rfl (by simp [sq10, rect, Polyline.size])).1 h
  have : i < 4 := hi
  interval_cases i <;> simp [ppos, vtx, rect, Polyline.size]

theorem sq10_moved (x : V2) :
    movedLeft 1 ⟨c0, 0⟩ ⟨c0 + 10, 0⟩ x = ⟨x.x, x.y + 1⟩ ∧ movedLeft 1 ⟨c0 + 10, 0⟩ ⟨c0 + 10, 10⟩ x = ⟨x.x - 1, x.y⟩ ∧
    movedLeft 1 ⟨c0 + 10, 10⟩ ⟨c0, 10⟩ x = ⟨x.x, x.y - 1⟩ ∧ movedLeft 1 ⟨c0, 10⟩ ⟨c0, 0⟩ x = ⟨x.x + 1, x.y⟩ := by
  have h : Real.sqrt (10 ^ 2) = 10 := Real.sqrt_sq (by norm_num)
  refine ⟨?_, ?_, ?_, ?_⟩ <;> ext <;> simp [movedLeft, distance, dist2, h] <;> ring

theorem sq10_points {i : ℕ} {a b c : V2} (h : IsCorner (sq10 c0) i a b c) : side a b c ≠ 0 ∧
    ∃ l, CornerPoints 1 a b c l ∧ l = [[⟨c0 + 9, 1⟩], [⟨c0 + 9, 9⟩], [⟨c0 + 1, 9⟩], [⟨c0 + 1, 1⟩]].getD i [] := by
  have hm := @sq10_moved c0
  rcases sq10_corner h with ⟨rfl, rfl, rfl, rfl⟩ | ⟨rfl, rfl, rfl, rfl⟩ | ⟨rfl, rfl, rfl, rfl⟩ | ⟨rfl, rfl, rfl, rfl⟩
  · refine ⟨by simp [side], _, Or.inl ⟨9 / 10, 1 / 10, ⟨c0 + 9, 1⟩, ?_, ?_, ?_, ?_, ⟨?_, ?_⟩, rfl⟩, rfl⟩
    all_goals first | norm_num | skip
    all_goals simp only [(hm _).1, (hm _).2.1]; ext <;> simp [lerp] <;> ring
  · refine ⟨by simp [side], _, Or.inl ⟨9 / 10, 1 / 10, ⟨c0 + 9, 9⟩, ?_, ?_, ?_, ?_, ⟨?_, ?_⟩, rfl⟩, rfl⟩
    all_goals first | norm_num | skip
    all_goals simp only [(hm _).2.1, (hm _).2.2.1]; ext <;> simp [lerp] <;> ring
  · refine ⟨by simp [side], _, Or.inl ⟨9 / 10, 1 / 10, ⟨c0 + 1, 9⟩, ?_, ?_, ?_, ?_, ⟨?_, ?_⟩, rfl⟩, rfl⟩
    all_goals first | norm_num | skip
    all_goals simp only [(hm _).2.2.1, (hm _).2.2.2]; ext <;> simp [lerp] <;> ring
  · refine ⟨by simp [side], _, Or.inl ⟨9 / 10, 1 / 10, ⟨c0 + 1, 1⟩, ?_, ?_, ?_, ?_, ⟨?_, ?_⟩, rfl⟩, rfl⟩
    all_goals first | norm_num | skip
    all_goals simp only [(hm _).1, (hm _).2.2.2]; ext <;> simp [lerp] <;> ring

theorem sq10_clear (c0 : ℝ) : ClearOffset (sq10 c0) 1 := by
  have hm := @sq10_moved c0
  have hcor : ∀ i < 4, ∃ a b c, IsCorner (sq10 c0) i a b c := fun i hi =>
    ⟨_, _, _, (isCorner_iff rfl (by simp [sq10, rect, Polyline.size])).2 ⟨hi, rfl, rfl, rfl⟩⟩
  refine ⟨?_, ?_, ?_, ?_⟩
  · intro i v1 v2 h hn
    rcases rect_seg h with ⟨-, rfl, rfl⟩ | ⟨-, rfl, rfl⟩ | ⟨-, rfl, rfl⟩ | ⟨-, rfl, rfl⟩ <;> norm_num [Near] at hn
  · intro i a b c h
    have h2 : Real.sqrt (10 ^ 2) = 10 := Real.sqrt_sq (by norm_num)
    refine ⟨?_, ?_, ?_⟩
    · rcases sq10_corner h with ⟨rfl, rfl, rfl, rfl⟩ | ⟨rfl, rfl, rfl, rfl⟩ | ⟨rfl, rfl, rfl, rfl⟩ |
        ⟨rfl, rfl, rfl, rfl⟩ <;> simp [side] <;> norm_num [abs_of_neg]
    · rcases sq10_corner h with ⟨rfl, rfl, rfl, rfl⟩ | ⟨rfl, rfl, rfl, rfl⟩ | ⟨rfl, rfl, rfl, rfl⟩ |
        ⟨rfl, rfl, rfl, rfl⟩ <;> simp [side, distance, dist2, h2] <;> norm_num [abs_of_neg]
    · rcases sq10_corner h with ⟨rfl, rfl, rfl, rfl⟩ | ⟨rfl, rfl, rfl, rfl⟩ | ⟨rfl, rfl, rfl, rfl⟩ |
        ⟨rfl, rfl, rfl, rfl⟩
      all_goals
        rintro t0 t1 x ⟨e0, e1⟩ a0 a1 b0 b1
        simp only [(hm _).1, (hm _).2.1, (hm _).2.2.1, (hm _).2.2.2] at e0 e1
        have hx := congrArg V2.x (e0.trans e1.symm)
        have hy := congrArg V2.y (e0.trans e1.symm)
        simp only [lerp] at hx hy
        norm_num at a0 a1 b0 b1
        exact ⟨by linarith, by linarith, by linarith, by linarith⟩
  · rintro pts ⟨hlen, hpts⟩ x hx
    have hlen' : pts.length = 4 := hlen
    have e : pts = [[⟨c0 + 9, 1⟩], [⟨c0 + 9, 9⟩], [⟨c0 + 1, 9⟩], [⟨c0 + 1, 1⟩]] := by
      apply List.ext_getElem?
      intro i
      by_cases hi : i < 4
      · obtain ⟨a, b, c, h⟩ := hcor i hi
        obtain ⟨hS, l, hl, el⟩ := sq10_points h
        obtain ⟨l', hl', hr⟩ := hpts i a b c h
        rw [hl', cornerPoints_unique hS hr hl, el]
        interval_cases i <;> rfl
      · rw [List.getElem?_eq_none (by omega), List.getElem?_eq_none (by simp; omega)]
    subst e
    simp only [List.flatten_cons, List.flatten_nil, List.append_nil, List.cons_append, List.nil_append,
      zip_rotate_one, pairsTo, List.mem_cons, List.not_mem_nil, or_false] at hx
    rcases hx with rfl | rfl | rfl | rfl <;> intro hn <;> norm_num [Near, abs_of_neg] at hn
  · intro a b c l x h hl hx hn
    obtain ⟨hS, l', hl', el⟩ := sq10_points h
    rw [cornerPoints_unique hS hl hl', el] at hx
    rcases sq10_corner h with ⟨-, rfl, rfl, rfl⟩ | ⟨h, -⟩ | ⟨h, -⟩ | ⟨h, -⟩
    · simp at hx
      subst hx
      rw [(hm _).1] at hn
      norm_num [Near, abs_of_neg] at hn
    all_goals omega

theorem sq10_good (inf ninf c0 : ℝ) : GoodOffset (codePlatform inf ninf) (sq10 c0) 1 := by
  have hraw := rect_raw (x0 := c0) (y0 := 0) (x1 := c0 + 10) (y1 := 10) (d := 1) (by norm_num) (by linarith)
    (by norm_num) (by rw [show c0 + 10 - c0 - 2 * 1 = 8 by ring]; norm_num [abs_of_pos]) (by norm_num)
  have hsr := rect_simple (x0 := c0 + 1) (y0 := 0 + 1) (x1 := c0 + 10 - 1) (y1 := 10 - 1) (by linarith) (by norm_num)
  refine ⟨sq10_clear c0, rect_indexable inf ninf, _, hraw, rect_indexable inf ninf, ?_, Or.inr ⟨once_of_simple hsr, ?_, ?_⟩⟩
  · intro i v w h hn
    exact absurd (show IsLine v by unfold IsLine; rw [rect_line h]; norm_num) hn
  · intro l hl
    refine rect_selfs ?_ (by norm_num [abs_of_pos]) hl
    rw [show c0 + 10 - 1 - (c0 + 1) = 8 by ring]
    norm_num [abs_of_pos]
  · intro v hv _ z hz
    cases hv
    rw [abs_one]
    obtain ⟨i, v1, v2, hs, ho⟩ := hz
    apply Real.le_sqrt_of_sq_le
    rcases rect_seg hs with ⟨-, rfl, rfl⟩ | ⟨-, rfl, rfl⟩ | ⟨-, rfl, rfl⟩ | ⟨-, rfl, rfl⟩ <;>
      obtain ⟨t, t0, t1, hx, hy⟩ := on_line ho <;> unfold dist2 <;> rw [hx, hy] <;> simp only <;> nlinarith


/-- What is offset in the example below. -/
def twoSquares (s1 s2 : SIndex ℝ) : OffsetLoopSet := ⟨[⟨0, sq10 0, s1⟩, ⟨0, sq10 11, s2⟩], []⟩

theorem two_outlines : Outlines [sq10 0, sq10 11] := by
  refine ⟨?_, ?_, ?_⟩
  · intro p hp
    simp only [List.mem_cons, List.not_mem_nil, or_false] at hp
    rcases hp with rfl | rfl <;> exact rect_simple (by norm_num) (by norm_num)
  · simp only [List.pairwise_cons, List.mem_singleton, forall_eq, List.not_mem_nil, false_imp_iff, implies_true,
      List.Pairwise.nil, and_true]
    intro x h1 h2
    have g1 := rect_onPline (by norm_num) (by norm_num) h1
    have g2 := rect_onPline (by norm_num) (by norm_num) h2
    rcases g1 with ⟨g | g, -⟩ | ⟨-, g, g'⟩ <;> rcases g2 with ⟨k | k, -⟩ | ⟨-, k, k'⟩ <;> linarith
  · rintro x k - ⟨ws, h, rfl⟩
    rw [List.forall₂_cons_left_iff] at h
    obtain ⟨w1, t, h1, h, rfl⟩ := h
    rw [List.forall₂_cons_left_iff] at h
    obtain ⟨w2, t, h2, h, rfl⟩ := h
    rw [List.forall₂_nil_left_iff] at h
    subst h
    rw [rect_winding (by norm_num) (by norm_num)] at h1 h2
    have h1 := Except.ok.inj h1
    have h2 := Except.ok.inj h2
    subst h1 h2
    split_ifs with c1 c2
    · linarith [c1.1.2, c2.1.1]
    all_goals simp

theorem two_clean {std : StdSort} {inf ninf : ℝ} {s1 s2 : SIndex ℝ} {loops : OffsetLoopSet}
    (n1 : loops.ccwLoops.map OffsetLoop.named =
      (numbered [[rect 1 1 9 9], [rect 12 1 20 9]]).filter fun x => CounterClockwise x.2)
    (n2 : loops.cwLoops.map OffsetLoop.named = (numbered [[rect 1 1 9 9], [rect 12 1 20 9]]).filter fun x =>
      (twoSquares s1 s2).ccwLoops.length ≤ x.1 ∧ Clockwise x.2)
    (hidx : ∀ l ∈ loopsOf loops, Indexed (codePlatform inf ninf) l) :
    loops.count ≤ 2 ^ 24 ∧
      ∀ xs, LoopCrossings std (loopsOf loops) xs → CleanLoops (twoSquares s1 s2) 1 (loopsOf loops) xs := by
  have hn : numbered [[rect 1 1 9 9], [rect 12 1 20 9]] = [(0, rect 1 1 9 9), (1, rect 12 1 20 9)] := rfl
  have c1 : CounterClockwise (rect 1 1 9 9) := ⟨_, rect_area _ _ _ _, by norm_num⟩
  have c2 : CounterClockwise (rect 12 1 20 9) := ⟨_, rect_area _ _ _ _, by norm_num⟩
  rw [hn] at n1 n2
  rw [List.filter_cons_of_pos (by simpa using c1), List.filter_cons_of_pos (by simpa using c2), List.filter_nil] at n1
  have n2' : loops.cwLoops = [] := by
    rw [List.filter_cons_of_neg (by simp [twoSquares]), List.filter_cons_of_neg (by simp [twoSquares])] at n2
    exact List.map_eq_nil_iff.1 n2
  obtain ⟨ccw, cw⟩ := loops
  subst n2'
  match ccw, n1 with
  | [⟨i1, p1, t1⟩, ⟨i2, p2, t2⟩], n1 =>
  simp only [List.map_cons, List.map_nil, OffsetLoop.named, List.cons.injEq, Prod.mk.injEq, and_true] at n1
  obtain ⟨⟨rfl, rfl⟩, rfl, rfl⟩ := n1
  refine ⟨by norm_num [OffsetLoopSet.count], fun xs hx => ?_⟩
  have j1 := hidx _ (List.mem_cons_self ..)
  have j2 := hidx _ (List.mem_cons_of_mem _ (List.mem_cons_self ..))
  have g : findIntersects (rect 1 1 9 9) (rect 12 1 20 9) t1 ⟨[], []⟩ = .ok ⟨[], []⟩ :=
    findIntersects_none (rect_indexable inf ninf) j1 rect_ok rect_ok
      (rects_apart (by norm_num) (by norm_num) (by norm_num) (by norm_num) (Or.inl (by norm_num)))
  have hx0 : xs = [] := by
    rw [List.eq_nil_iff_forall_not_mem]
    intro x hxm
    obtain ⟨hlt, l1, l2, h1, h2, -, x', hx', hne⟩ := (hx.2.1 x.first x.second).1 ⟨x, hxm, rfl, rfl⟩
    have hlt2 : x.second < 2 := (List.getElem?_eq_some_iff.1 h2).1
    rw [show x.first = 0 by omega] at h1
    rw [show x.second = 1 by omega] at h2
    cases h1
    cases h2
    rw [g] at hx'
    cases hx'
    simp at hne
  subst hx0
  have hfar : ∀ {a b : V2}, (a.x ≤ 9 ∧ 11 ≤ b.x) ∨ (12 ≤ a.x ∧ b.x ≤ 10) → 1 < distance a b := by
    intro a b h
    refine Real.lt_sqrt_of_sq_lt ?_
    unfold dist2
    rcases h with ⟨h1, h2⟩ | ⟨h1, h2⟩ <;> nlinarith [sq_nonneg (a.y - b.y), sq_nonneg (b.y - a.y)]
  have hpt : ∀ (i : ℕ) (l : OffsetLoop) (z : V2), (loopsOf ⟨[⟨0, rect 1 1 9 9, t1⟩, ⟨1, rect 12 1 20 9, t2⟩], []⟩)[i]? = some l →
      OnPline l.polyline z → ∀ (j : ℕ) (m : OffsetLoop) (w : V2), j ≠ l.parentLoopIndex →
      (loopsOf (twoSquares s1 s2))[j]? = some m → OnPline m.polyline w → 1 < distance z w := by
    intro i l z hl hz j m w hj hm hw
    apply hfar
    have hi : i < 2 := (List.getElem?_eq_some_iff.1 hl).1
    have hj2 : j < 2 := (List.getElem?_eq_some_iff.1 hm).1
    have k1 : i = 0 ∨ i = 1 := by omega
    have k2 : j = 0 ∨ j = 1 := by omega
    rcases k1 with rfl | rfl <;> rcases k2 with rfl | rfl <;> cases hl <;> cases hm
    · exact absurd rfl hj
    · left
      have q1 := rect_onPline (by norm_num) (by norm_num) hz
      have q2 := rect_onPline (by norm_num) (by norm_num) hw
      constructor
      · rcases q1 with ⟨e | e, -⟩ | ⟨-, -, e⟩ <;> linarith
      · rcases q2 with ⟨e | e, -⟩ | ⟨-, e, -⟩ <;> linarith
    · right
      have q1 := rect_onPline (by norm_num) (by norm_num) hz
      have q2 := rect_onPline (by norm_num) (by norm_num) hw
      constructor
      · rcases q1 with ⟨e | e, -⟩ | ⟨-, e, -⟩ <;> linarith
      · rcases q2 with ⟨e | e, -⟩ | ⟨-, -, e⟩ <;> linarith
    · exact absurd rfl hj
  have hun : ∀ i, Untouched [] i := fun i x hx => absurd hx (by simp)
  refine ⟨by simp, fun i l _ h => absurd (hun i) h, ?_, ?_, ?_, fun i l s _ h => absurd (hun i) h, ?_⟩
  · rintro i l k v e z hl hs hz - ⟨j, m, w, hj, hm, hw, hd⟩
    have := hpt i l z hl ⟨k, v, e, hs, hz⟩ j m w hj hm hw
    rw [hd, abs_one] at this
    exact absurd this (lt_irrefl _)
  · intro a ha
    simp [cutsOfLoop] at ha
  · simp [cutsOfLoop]
  · rintro i l v hl - hv - j m hj hm z hz
    rw [abs_one]
    refine (hpt i l v.pos hl ?_ j m z hj hm hz).le
    have hi : i < 2 := (List.getElem?_eq_some_iff.1 hl).1
    have k1 : i = 0 ∨ i = 1 := by omega
    rcases k1 with rfl | rfl <;> cases hl <;> cases hv
    · exact ⟨0, ⟨⟨1, 1⟩, 0⟩, ⟨⟨9, 1⟩, 0⟩, by simp [IsSeg, rect_segs], onSeg_start _ _⟩
    · exact ⟨0, ⟨⟨12, 1⟩, 0⟩, ⟨⟨20, 1⟩, 0⟩, by simp [IsSeg, rect_segs], onSeg_start _ _⟩

/-- The squares of side 10 at (0, 0) and (11, 0), offset by 1: the results are the two smaller squares, and they bound
the region that is left. -/
example (std : StdSort) (hash : HashOrder) (inf ninf : ℝ) {s1 s2 : SIndex ℝ}
    (h1 : createApproxSpatialIndex (codePlatform inf ninf) (sq10 0) = .ok s1)
    (h2 : createApproxSpatialIndex (codePlatform inf ninf) (sq10 11) = .ok s2) :
    ∃ r, computeIslands (codePlatform inf ninf) std hash (twoSquares s1 s2) 1 = .ok r ∧
    (loopsOf r).map OffsetLoop.polyline = [rect 1 1 9 9, rect 12 1 20 9] ∧
    ∃ small : List Polyline, (∀ q ∈ small, ∃ a, getArea q = .ok a ∧ |a| < 1 / 10 ^ 4) ∧
      BoundsInset [sq10 0, sq10 11] 1 ([rect 1 1 9 9, rect 12 1 20 9] ++ small) := by
  obtain ⟨t1, t2, hr⟩ := C53_two_rectangles (std := std) (hash := hash) (d := 1) inf ninf (by norm_num)
    (by norm_num) (by norm_num) (by norm_num) (by norm_num) (by norm_num) h1 h2
  have o1 := C52_rectangle (std := std) (hash := hash) (x0 := 0) (y0 := 0) (x1 := 0 + 10) (y1 := 10) (d := 1) inf
    ninf (by norm_num) (by norm_num) (by norm_num)
  have o2 := C52_rectangle (std := std) (hash := hash) (x0 := 11) (y0 := 0) (x1 := 11 + 10) (y1 := 10) (d := 1) inf
    ninf (by norm_num) (by norm_num) (by norm_num)
  rw [abs_one] at hr
  norm_num at hr o1 o2
  have e0 : sq10 0 = rect 0 0 10 10 := by norm_num [sq10]
  have e11 : sq10 11 = rect 11 0 21 10 := by norm_num [sq10]
  have hr' : computeIslands (codePlatform inf ninf) std hash (twoSquares s1 s2) 1 =
      .ok ⟨[⟨0, rect 1 1 9 9, t1⟩, ⟨1, rect 12 1 20 9, t2⟩], []⟩ := by
    unfold twoSquares
    rw [e0, e11]
    exact hr
  have o1 : parallelOffset (codePlatform inf ninf) std hash (sq10 0) 1 = .ok [rect 1 1 9 9] := by rw [e0]; exact o1
  have o2 : parallelOffset (codePlatform inf ninf) std hash (sq10 11) 1 = .ok [rect 12 1 20 9] := by rw [e11]; exact o2
  refine ⟨_, hr', rfl, ?_⟩
  have key := C75_islands (std := std) (hash := hash) (inf := inf) (ninf := ninf) (input := twoSquares s1 s2) (delta := 1)
    ?_ two_outlines (by norm_num) ?_ ?_ ?_ hr'
  · rw [abs_one] at key
    exact key
  · intro l hl
    simp only [twoSquares, loopsOf, List.append_nil, List.mem_cons, List.not_mem_nil, or_false] at hl
    rcases hl with rfl | rfl
    · exact ⟨rect_ok, rect_indexable inf ninf, h1⟩
    · exact ⟨rect_ok, rect_indexable inf ninf, h2⟩
  · intro l hl
    rw [abs_one]
    simp only [twoSquares, loopsOf, List.append_nil, List.mem_cons, List.not_mem_nil, or_false] at hl
    rcases hl with rfl | rfl <;> exact sq10_good _ _ _
  · intro l hl
    simp only [twoSquares, List.mem_cons, List.not_mem_nil, or_false] at hl
    rcases hl with rfl | rfl
    · exact ⟨_, rect_area _ _ _ _, by norm_num⟩
    · exact ⟨_, rect_area _ _ _ _, by norm_num⟩
  · rintro loops ⟨offs, hoffs, n1, n2, hidx⟩
    have : offs = [[rect 1 1 9 9], [rect 12 1 20 9]] := by
      rw [abs_one] at hoffs
      simp only [twoSquares, loopsOf, List.append_nil] at hoffs
      rw [List.forall₂_cons_left_iff] at hoffs
      obtain ⟨w1, t, h1, h, rfl⟩ := hoffs
      rw [List.forall₂_cons_left_iff] at h
      obtain ⟨w2, t, h2, h, rfl⟩ := h
      rw [List.forall₂_nil_left_iff] at h
      subst h
      rw [o1] at h1
      rw [o2] at h2
      cases h1
      cases h2
      rfl
    subst this
    exact two_clean (s1 := s1) (s2 := s2) n1 n2 hidx

/-- The hypotheses of `C74_inward` are met by the square of side 10, offset by 1. -/
example (std : StdSort) (hash : HashOrder) (inf ninf : ℝ) :
    ∃ r, parallelOffset (codePlatform inf ninf) std hash (sq10 0) 1 = .ok r ∧ r ≠ [] ∧
      SeparateParts (OffsetRegion (sq10 0) 1) 1 r := by
  have o1 := C52_rectangle (std := std) (hash := hash) (x0 := 0) (y0 := 0) (x1 := 0 + 10) (y1 := 10) (d := 1) inf
    ninf (by norm_num) (by norm_num) (by norm_num)
  refine ⟨_, o1, by simp, ?_⟩
  have := C74_inward (rect_simple (x0 := 0) (y0 := 0) (x1 := 0 + 10) (y1 := 10) (by norm_num) (by norm_num)) (by norm_num)
    (sq10_good inf ninf 0) o1 (rect_area _ _ _ _) (by norm_num)
  rwa [if_pos (by norm_num)] at this

end
end Cavc

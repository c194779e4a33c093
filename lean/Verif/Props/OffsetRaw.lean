import Verif.Props.OffsetJoin
import Verif.Props.SegClosest

/-! C38: every join and the whole raw offset keep all bulges at most 1, and run without a fault unless
an arc almost collapses. -/
namespace Cavc
open Spec
open scoped Classical

/-- What a join does to the result: the old positions stay, new ones are appended. -/
structure Grows (r r' : Polyline) : Prop where
  closed : r'.isClosed = r.isClosed
  pre : r.vertexes.map Vertex.pos <+: r'.vertexes.map Vertex.pos
  bulges : BulgesOk r'
  spread : Spread r'

theorem Grows.trans {a b c : Polyline} (h1 : Grows a b) (h2 : Grows b c) : Grows a c :=
  ⟨h2.closed.trans h1.closed, h1.pre.trans h2.pre, h2.bulges, h2.spread⟩

theorem Grows.ne {a b : Polyline} (h : Grows a b) (ha : a.vertexes ≠ []) : b.vertexes ≠ [] := by
  intro hb
  have := h.pre
  rw [hb] at this
  exact ha (by simpa using this)

theorem grows_refl {r : Polyline} (hb : BulgesOk r) (hs : Spread r) : Grows r r :=
  ⟨rfl, List.prefix_rfl, hb, hs⟩

theorem eq_dropLast_of_getLast? {α : Type} {l : List α} {a : α} (h : l.getLast? = some a) :
    l = l.dropLast ++ [a] := by
  have hne : l ≠ [] := by rintro rfl; simp at h
  rw [List.getLast?_eq_some_getLast hne, Option.some.injEq] at h
  rw [← h, List.dropLast_append_getLast]

theorem grows_setLast {r : Polyline} {last v : Vertex} (hb : BulgesOk r) (hs : Spread r)
    (hl : r.vertexes.getLast? = some last) (hp : v.pos = last.pos) (hv : |v.bulge| ≤ 1) :
    Grows r ⟨r.isClosed, r.vertexes.dropLast ++ [v]⟩ := by
  have he := eq_dropLast_of_getLast? hl
  have hpos : (r.vertexes.dropLast ++ [v]).map Vertex.pos = r.vertexes.map Vertex.pos := by
    conv_rhs => rw [he]
    simp [hp]
  refine ⟨rfl, by simp only; rw [hpos], ?_, ?_⟩
  · intro w hw
    simp only [List.mem_append, List.mem_singleton] at hw
    rcases hw with hw | rfl
    · exact hb w (List.mem_of_mem_dropLast hw)
    · exact hv
  · unfold Spread; simp only; rw [hpos]; exact hs

theorem grows_add {r : Polyline} {v : Vertex} (hb : BulgesOk r) (hs : Spread r)
    (hv : |v.bulge| ≤ 1) : Grows r (addOrReplaceIfSamePos r v) := by
  have hadd : (∀ last, r.vertexes.getLast? = some last → ¬ Near (1 / 10 ^ 5) last.pos v.pos) →
      Grows r (r.addVertex v) := by
    intro h
    refine ⟨rfl, by simp [Polyline.addVertex], ?_, ?_⟩
    · intro w hw
      simp only [Polyline.addVertex, List.mem_append, List.mem_singleton] at hw
      rcases hw with hw | rfl
      · exact hb w hw
      · exact hv
    · unfold Spread Polyline.addVertex
      simp only [List.map_append, List.map_cons, List.map_nil]
      rw [List.isChain_append]
      refine ⟨hs, List.isChain_singleton _, ?_⟩
      intro x hx y hy
      simp only [List.head?_cons, Option.mem_def, Option.some.injEq] at hy
      rw [List.getLast?_map, Option.mem_def, Option.map_eq_some_iff] at hx
      obtain ⟨last, hl, rfl⟩ := hx
      rw [← hy]; exact h last hl
  unfold addOrReplaceIfSamePos
  cases hl : r.vertexes.getLast? with
  | none => simp only; apply hadd; rw [hl]; simp
  | some last =>
    simp only
    by_cases hn : fuzzyEqualV last.pos v.pos realPrecision
    · rw [if_pos hn]; exact grows_setLast hb hs hl rfl hv
    · rw [if_neg hn]; apply hadd; rw [hl]; rintro x ⟨rfl⟩; exact hn

theorem Grows.add {r r' : Polyline} {v : Vertex} (h : Grows r r') (hv : |v.bulge| ≤ 1) :
    Grows r (addOrReplaceIfSamePos r' v) := h.trans (grows_add h.bulges h.spread hv)

theorem grows_arc {s1 : OffsetSegment} {w : Vertex} {ccw : Prop} {r r' : Polyline}
    (h : Grows r r') (hw : |w.bulge| ≤ 1) : Grows r (connectUsingArc s1 w ccw r') := by
  unfold connectUsingArc
  exact (h.add (C38_bulgeForConnection _ _ _ _).1).add hw

theorem grows_line {s1 s2 : OffsetSegment} {r r' : Polyline}
    (h : Grows r r') (hw : |s2.v1.bulge| ≤ 1) : Grows r (connectUsingLine s1 s2 r') := by
  unfold connectUsingLine
  exact (h.add (by simp)).add hw

/-- A raw segment on which the joins cannot fault. -/
def FarArc (s : OffsetSegment) : Prop :=
  ¬ IsLine s.v1 → ¬ Near (1 / 10 ^ 8) s.v1.pos s.v2.pos

/-- Outcome of a step: the result grew, or an assertion failed although `good` says it should not. -/
def Joined (good : Prop) (r : Polyline) (x : M Polyline) : Prop :=
  (∃ r', x = .ok r' ∧ Grows r r') ∨ (¬ good ∧ x = .error .assertFailed)

theorem joined_ok {good : Prop} {r r' : Polyline} (h : Grows r r') : Joined good r (.ok r') :=
  Or.inl ⟨r', rfl, h⟩

theorem joined_arc {good : Prop} {r : Polyline} {v1 v2 : Vertex} {f : Arc → M Polyline}
    (hl : ¬ IsLine v1) (hg : good → ¬ Near (1 / 10 ^ 8) v1.pos v2.pos)
    (h : Joined good r (f (arcOf v1 v2))) : Joined good r (arcRadiusAndCenter v1 v2 >>= f) := by
  unfold arcRadiusAndCenter
  rw [assertP_pos (show ¬ v1.bulgeIsZero from hl), ok_bind]
  by_cases hn : fuzzyEqualV v1.pos v2.pos
  · rw [assertP_neg (by simpa using hn)]
    exact Or.inr ⟨fun g => hg g hn, rfl⟩
  · rw [assertP_pos hn, ok_bind]; exact h

theorem joined_sweep {good : Prop} {r : Polyline} {c s e p : V2} {b : ℝ} {f : Bool → M Polyline}
    (h0 : realPrecision ≤ |b|) (h1 : |b| ≤ 1) (h : ∀ x, Joined good r (f x)) :
    Joined good r (pointWithinArcSweepAngle c s e b p >>= f) := by
  rw [pointWithinArcSweepAngle_run (lt_of_lt_of_le (by norm_num [realThreshold, realPrecision]) h0) h1,
    ok_bind]
  exact h _

theorem isLine_abs {v : Vertex} (h : ¬ v.bulgeIsZero) : realPrecision ≤ |v.bulge| := by
  simpa [Vertex.bulgeIsZero] using h

theorem lineToLine_joined {good : Prop} {s1 s2 : OffsetSegment} {ccw : Prop} {r : Polyline}
    (h1 : s1.v1.bulgeIsZero) (h2 : s2.v1.bulgeIsZero) (b2 : |s2.v1.bulge| ≤ 1)
    (hb : BulgesOk r) (hs : Spread r) : Joined good r (lineToLineJoin s1 s2 ccw r) := by
  have g0 := grows_refl hb hs
  unfold lineToLineJoin
  rw [assertP_pos ⟨h1, h2⟩, ok_bind]
  split_ifs
  · exact joined_ok (grows_arc g0 (by simp))
  · cases intrLineSeg2LineSeg2 s1.v1.pos s1.v2.pos s2.v1.pos s2.v2.pos with
    | none => exact joined_ok (grows_line g0 b2)
    | trueIntr p => exact joined_ok (g0.add (by simp))
    | coincident a b => exact joined_ok (g0.add (by simp))
    | falseIntr t0 t1 p =>
      simp only
      split_ifs
      · exact joined_ok (grows_arc g0 (by simp))
      · exact joined_ok (grows_line g0 b2)

theorem tan_delta_le (a b : ℝ) : |Real.tan (deltaAngle a b / 4)| ≤ 1 :=
  tan_quarter_le (abs_deltaAngle_le a b)

theorem trimmedArcStart_le {arc : Arc} {u1 u2 : Vertex} {x : V2} (h : |u1.bulge| ≤ 1) :
    |(trimmedArcStart arc u1 u2 x).bulge| ≤ 1 := by
  unfold trimmedArcStart
  simp only
  split_ifs
  · exact tan_delta_le _ _
  · exact h

theorem lineToArcProcess_joined {good : Prop} {s1 s2 : OffsetSegment} {ccw : Prop} {arc : Arc}
    {r : Polyline} {t : ℝ} {x : V2} (h2 : ¬ s2.v1.bulgeIsZero) (b2 : |s2.v1.bulge| ≤ 1)
    (hb : BulgesOk r) (hs : Spread r) : Joined good r (lineToArcProcess s1 s2 ccw arc r t x) := by
  have g0 := grows_refl hb hs
  unfold lineToArcProcess
  apply joined_sweep (isLine_abs h2) b2
  intro q
  split_ifs
  · exact joined_ok (g0.add (trimmedArcStart_le b2))
  · exact joined_ok (grows_arc g0 b2)
  · exact joined_ok (grows_arc g0 b2)
  · exact joined_ok (grows_line g0 b2)

theorem lineToArc_joined {good : Prop} {s1 s2 : OffsetSegment} {ccw : Prop} {r : Polyline}
    (h1 : s1.v1.bulgeIsZero) (h2 : ¬ s2.v1.bulgeIsZero) (b2 : |s2.v1.bulge| ≤ 1)
    (hg : good → FarArc s2) (hb : BulgesOk r) (hs : Spread r) :
    Joined good r (lineToArcJoin s1 s2 ccw r) := by
  have g0 := grows_refl hb hs
  unfold lineToArcJoin
  simp only
  rw [assertP_pos ⟨h1, h2⟩, ok_bind]
  apply joined_arc h2 (fun g => hg g h2)
  obtain ⟨res, hres, -⟩ := C19_line_circle s1.v1.pos s1.v2.pos (arcOf s2.v1 s2.v2).radius
    (arcOf s2.v1 s2.v2).center
  rw [hres, ok_bind]
  cases res with
  | none => exact joined_ok (grows_arc g0 b2)
  | one t0 => exact lineToArcProcess_joined h2 b2 hb hs
  | two t0 t1 =>
    simp only
    split_ifs
    · exact lineToArcProcess_joined h2 b2 hb hs
    · exact lineToArcProcess_joined h2 b2 hb hs

theorem lastVertex_ok {r : Polyline} (h : r.vertexes ≠ []) :
    ∃ v, r.vertexes.getLast? = some v ∧ r.lastVertex = .ok v := by
  refine ⟨r.vertexes.getLast h, List.getLast?_eq_some_getLast h, ?_⟩
  unfold Polyline.lastVertex
  rw [List.getLast?_eq_some_getLast h]

theorem trimPrevArc_ok {arc : Arc} {v2 : Vertex} {x : V2} {r : Polyline} (hne : r.vertexes ≠ [])
    (hb : BulgesOk r) (hs : Spread r) : ∃ r', trimPrevArc arc v2 x r = .ok r' ∧ Grows r r' := by
  obtain ⟨v, hv, hl⟩ := lastVertex_ok hne
  have g0 := grows_refl hb hs
  unfold trimPrevArc
  rw [hl, ok_bind]
  by_cases h : ¬ v.bulgeIsZero ∧ ¬ fuzzyEqualV v.pos v2.pos
  · rw [if_pos h]
    simp only
    unfold arcRadiusAndCenter
    rw [assertP_pos h.1, ok_bind, assertP_pos h.2, ok_bind, pure_eq_ok, ok_bind]
    split_ifs
    · refine ⟨_, ?_, grows_setLast (v := ⟨v.pos, Real.tan (deltaAngle
        (angle (arcOf v v2).center v.pos) (angle arc.center x) / 4)⟩) hb hs hv rfl (tan_delta_le _ _)⟩
      unfold Polyline.setLast
      rw [if_neg hne]
    · exact ⟨r, rfl, g0⟩
  · rw [if_neg h]; exact ⟨r, rfl, g0⟩

theorem arcToLineProcess_joined {good : Prop} {s1 s2 : OffsetSegment} {ccw : Prop} {arc : Arc}
    {r : Polyline} {t : ℝ} {x : V2} (h1 : ¬ s1.v1.bulgeIsZero) (b1 : |s1.v1.bulge| ≤ 1)
    (b2 : |s2.v1.bulge| ≤ 1) (hne : r.vertexes ≠ [])
    (hb : BulgesOk r) (hs : Spread r) : Joined good r (arcToLineProcess s1 s2 ccw arc r t x) := by
  have g0 := grows_refl hb hs
  unfold arcToLineProcess
  simp only
  apply joined_sweep (isLine_abs h1) b1
  intro q
  split_ifs
  · obtain ⟨r', h1, h2⟩ := trimPrevArc_ok (arc := arc) (v2 := s1.v2) (x := x) hne hb hs
    rw [h1, ok_bind]
    exact joined_ok (h2.add (by simp))
  · exact joined_ok (grows_arc g0 b2)

theorem arcToLine_joined {good : Prop} {s1 s2 : OffsetSegment} {ccw : Prop} {r : Polyline}
    (h1 : ¬ s1.v1.bulgeIsZero) (h2 : s2.v1.bulgeIsZero) (b1 : |s1.v1.bulge| ≤ 1)
    (b2 : |s2.v1.bulge| ≤ 1) (hne : r.vertexes ≠ [])
    (hg : good → FarArc s1) (hb : BulgesOk r) (hs : Spread r) :
    Joined good r (arcToLineJoin s1 s2 ccw r) := by
  have g0 := grows_refl hb hs
  unfold arcToLineJoin
  simp only
  rw [assertP_pos ⟨h1, h2⟩, ok_bind]
  apply joined_arc h1 (fun g => hg g h1)
  obtain ⟨res, hres, -⟩ := C19_line_circle s2.v1.pos s2.v2.pos (arcOf s1.v1 s1.v2).radius
    (arcOf s1.v1 s1.v2).center
  rw [hres, ok_bind]
  cases res with
  | none => exact joined_ok (grows_arc g0 b2)
  | one t0 => exact arcToLineProcess_joined h1 b1 b2 hne hb hs
  | two t0 t1 =>
    simp only
    split_ifs <;> exact arcToLineProcess_joined h1 b1 b2 hne hb hs

theorem arcToArcProcess_joined {good : Prop} {s1 s2 : OffsetSegment} {ccw : Prop} {arc1 arc2 : Arc}
    {r : Polyline} {x : V2} (h1 : ¬ s1.v1.bulgeIsZero) (h2 : ¬ s2.v1.bulgeIsZero)
    (b1 : |s1.v1.bulge| ≤ 1) (b2 : |s2.v1.bulge| ≤ 1) (hne : r.vertexes ≠ [])
    (hb : BulgesOk r) (hs : Spread r) :
    Joined good r (arcToArcProcess s1 s2 ccw arc1 arc2 r x) := by
  have g0 := grows_refl hb hs
  unfold arcToArcProcess
  simp only
  apply joined_sweep (isLine_abs h1) b1
  intro q
  apply joined_sweep (isLine_abs h2) b2
  intro q'
  split_ifs
  · obtain ⟨r', h1, h2⟩ := trimPrevArc_ok (arc := arc1) (v2 := s1.v2) (x := x) hne hb hs
    rw [h1, ok_bind]
    exact joined_ok (h2.add (trimmedArcStart_le b2))
  · exact joined_ok (grows_arc g0 b2)

theorem arcToArc_joined {good : Prop} {s1 s2 : OffsetSegment} {ccw : Prop} {r : Polyline}
    (h1 : ¬ s1.v1.bulgeIsZero) (h2 : ¬ s2.v1.bulgeIsZero) (b1 : |s1.v1.bulge| ≤ 1)
    (b2 : |s2.v1.bulge| ≤ 1) (hne : r.vertexes ≠ []) (hg : good → FarArc s1) (hg' : good → FarArc s2)
    (hb : BulgesOk r) (hs : Spread r) : Joined good r (arcToArcJoin s1 s2 ccw r) := by
  have g0 := grows_refl hb hs
  unfold arcToArcJoin
  simp only
  rw [assertP_pos ⟨h1, h2⟩, ok_bind]
  apply joined_arc h1 (fun g => hg g h1)
  apply joined_arc h2 (fun g => hg' g h2)
  cases intrCircle2Circle2 (arcOf s1.v1 s1.v2).radius (arcOf s1.v1 s1.v2).center
    (arcOf s2.v1 s2.v2).radius (arcOf s2.v1 s2.v2).center with
  | noIntersect => exact joined_ok (grows_arc g0 b2)
  | one p => exact arcToArcProcess_joined h1 h2 b1 b2 hne hb hs
  | two p q =>
    simp only
    split_ifs <;> exact arcToArcProcess_joined h1 h2 b1 b2 hne hb hs
  | coincident => exact joined_ok (g0.add b2)

theorem joinSegs_joined {good : Prop} {s1 s2 : OffsetSegment} {ccw : Prop} {r : Polyline}
    (b1 : |s1.v1.bulge| ≤ 1) (b2 : |s2.v1.bulge| ≤ 1) (hne : r.vertexes ≠ [])
    (hg : good → FarArc s1) (hg' : good → FarArc s2)
    (hb : BulgesOk r) (hs : Spread r) : Joined good r (joinSegs ccw s1 s2 r) := by
  unfold joinSegs
  by_cases h1 : s1.v1.bulgeIsZero <;> by_cases h2 : s2.v1.bulgeIsZero <;>
    simp only [h1, h2, and_self, and_true, and_false, if_true, if_false]
  · exact lineToLine_joined h1 h2 b2 hb hs
  · exact lineToArc_joined h1 h2 b2 hg' hb hs
  · exact arcToLine_joined h1 h2 b1 b2 hne hg hb hs
  · exact arcToArc_joined h1 h2 b1 b2 hne hg hg' hb hs

theorem joined_bind {good : Prop} {r : Polyline} {x : M Polyline} {f : Polyline → M Polyline}
    (h : Joined good r x) (hf : ∀ r', Grows r r' → Joined good r' (f r')) :
    Joined good r (x >>= f) := by
  rcases h with ⟨r', rfl, hr⟩ | ⟨hg, rfl⟩
  · rw [ok_bind]
    rcases hf r' hr with ⟨r'', h1, h2⟩ | h
    · exact Or.inl ⟨r'', h1, hr.trans h2⟩
    · exact Or.inr h
  · exact Or.inr ⟨hg, rfl⟩

theorem joinSegsLoop_joined {good : Prop} {ccw : Prop} : ∀ (rest : List OffsetSegment)
    (s1 : OffsetSegment) (r : Polyline), (∀ s ∈ s1 :: rest, |s.v1.bulge| ≤ 1) →
    (good → ∀ s ∈ s1 :: rest, FarArc s) → r.vertexes ≠ [] → BulgesOk r → Spread r →
    Joined good r (joinSegsLoop ccw s1 rest r) := by
  intro rest
  induction rest with
  | nil => intro s1 r _ _ _ hb hs; exact joined_ok (grows_refl hb hs)
  | cons s2 rest ih =>
    intro s1 r h1 h2 hne hb hs
    unfold joinSegsLoop
    refine joined_bind (joinSegs_joined (h1 _ (by simp)) (h1 _ (by simp)) hne
      (fun g => h2 g _ (by simp)) (fun g => h2 g _ (by simp)) hb hs) ?_
    intro r' hr
    exact ih s2 r' (fun s hs => h1 s (List.mem_cons_of_mem _ hs))
      (fun g s hs => h2 g s (List.mem_cons_of_mem _ hs)) (hr.ne hne) hr.bulges hr.spread

theorem ite_bindM {α β : Type} {c : Prop} [Decidable c] (x y : M α) (k : α → M β) :
    (if c then x >>= k else y >>= k) = (if c then x else y) >>= k := by
  split_ifs <;> rfl

theorem joinClosing_ok {good : Prop} {ccw : Prop} {s1 s2 : OffsetSegment} {fr : Prop} {r : Polyline}
    (b1 : |s1.v1.bulge| ≤ 1) (b2 : |s2.v1.bulge| ≤ 1) (hne : r.vertexes ≠ [])
    (hg : good → FarArc s1) (hg' : good → FarArc s2) (hb : BulgesOk r) (hs : Spread r)
    (h2 : 1 < r.vertexes.length) :
    (∃ r', joinClosing ccw s1 s2 fr r = .ok r' ∧ r'.isClosed = r.isClosed ∧ BulgesOk r' ∧ Spread r') ∨
      (¬ good ∧ joinClosing ccw s1 s2 fr r = .error .assertFailed) := by
  obtain ⟨last, hlast, hl⟩ := lastVertex_ok hne
  unfold joinClosing
  rw [hl, ok_bind]
  have hmem : last ∈ r.vertexes := List.mem_of_getLast? hlast
  have c0b : BulgesOk (Polyline.empty.addVertex last) := by
    intro w hw; simp [Polyline.addVertex, Polyline.empty] at hw; rw [hw]; exact hb _ hmem
  have c0s : Spread (Polyline.empty.addVertex last) := by
    simp [Spread, Polyline.addVertex, Polyline.empty]
  rcases joinSegs_joined (good := good) (ccw := ccw) (s1 := s1) (s2 := s2)
    (r := Polyline.empty.addVertex last) b1 b2 (by simp [Polyline.addVertex]) hg hg' c0b c0s with
    ⟨cl, h1, hgr⟩ | ⟨h1, h2⟩
  swap
  · right; refine ⟨h1, ?_⟩; rw [h2]; rfl
  rw [h1, ok_bind]
  have hpre := hgr.pre
  have hclb := hgr.bulges
  have hcls := hgr.spread
  have hclne : cl.vertexes ≠ [] := hgr.ne (by simp [Polyline.addVertex])
  obtain ⟨c0, ct, hct⟩ := List.exists_cons_of_ne_nil hclne
  have hc0 : c0.pos = last.pos := by
    rw [hct] at hpre
    simp [Polyline.addVertex, Polyline.empty] at hpre
    exact hpre.symm
  have hat : cl.at 0 = .ok c0 := by unfold Polyline.at getM; rw [hct]; rfl
  obtain ⟨cll, -, hcll⟩ := lastVertex_ok hclne
  rw [hat, ok_bind]
  unfold Polyline.setLast
  rw [if_neg hne, ok_bind]
  simp only
  have hclb : ∀ w ∈ c0 :: ct, |w.bulge| ≤ 1 := by rw [← hct]; exact hclb
  have hcls : ((c0 :: ct).map Vertex.pos).IsChain (fun a b => ¬ Near (1 / 10 ^ 5) a b) := by
    rw [← hct]; exact hcls
  rw [hct]
  have hg1 := grows_setLast (v := c0) hb hs hlast hc0 (hclb c0 (by simp))
  -- the joined list
  have hbig : Spread ⟨r.isClosed, r.vertexes.dropLast ++ [c0] ++ ct⟩ ∧
      BulgesOk ⟨r.isClosed, r.vertexes.dropLast ++ [c0] ++ ct⟩ := by
    constructor
    · have h1 := hg1.spread
      unfold Spread at h1 ⊢
      simp only [List.map_append, List.map_cons, List.map_nil] at h1 hcls ⊢
      exact List.IsChain.append_overlap h1 hcls (by simp)
    · intro w hw
      simp only [List.mem_append, List.mem_singleton] at hw
      rcases hw with (hw | hw) | hw
      · exact hb w (List.mem_of_mem_dropLast hw)
      · exact hclb w (by simp [hw])
      · exact hclb w (by simp [hw])
  rw [show (c0 :: ct).tail = ct from rfl]
  generalize hL : r.vertexes.dropLast ++ [c0] ++ ct = L at hbig
  have hLlen : 1 < L.length := by rw [← hL]; simp; omega
  unfold Polyline.popBack
  rw [if_neg (by simp only; intro h; rw [h] at hLlen; simp at hLlen), ok_bind, hcll, ok_bind]
  simp only
  have hD : Spread ⟨r.isClosed, L.dropLast⟩ ∧ BulgesOk ⟨r.isClosed, L.dropLast⟩ := by
    refine ⟨?_, fun w hw => hbig.2 w (List.mem_of_mem_dropLast hw)⟩
    have := hbig.1
    unfold Spread at this ⊢
    simp only at this ⊢
    rw [List.map_dropLast]
    exact this.dropLast
  have hDlen : 1 ≤ L.dropLast.length := by simp; omega
  generalize L.dropLast = D at hD hDlen
  obtain ⟨d0, dt, rfl⟩ : ∃ d0 dt, D = d0 :: dt := by
    cases D with
    | nil => simp at hDlen
    | cons a b => exact ⟨a, b, rfl⟩
  -- updating the first vertex changes only that vertex
  have hupd : ∃ d, |d.bulge| ≤ 1 ∧ (if ¬ fr then updateFirstVertex cll.pos ⟨r.isClosed, d0 :: dt⟩
      else .ok ⟨r.isClosed, d0 :: dt⟩) = .ok ⟨r.isClosed, d :: dt⟩ := by
    have hd0 : |d0.bulge| ≤ 1 := hD.2 d0 (by simp)
    by_cases hfr : fr
    · exact ⟨d0, hd0, by rw [if_neg (by simpa using hfr)]⟩
    · rw [if_pos hfr]
      unfold updateFirstVertex
      have e0 : Polyline.at ⟨r.isClosed, d0 :: dt⟩ 0 = .ok d0 := rfl
      rw [e0, ok_bind]
      have eset : ∀ v, setM (d0 :: dt) 0 v = .ok (v :: dt) := fun v => rfl
      by_cases hz : d0.bulgeIsZero
      · rw [if_pos hz]
        simp only
        exact ⟨⟨cll.pos, d0.bulge⟩, hd0, by rw [eset]; rfl⟩
      · rw [if_neg hz]
        cases dt with
        | nil => exact ⟨d0, hd0, by rw [if_neg (by simp [Polyline.size])]; rfl⟩
        | cons d1 dt =>
          rw [if_pos (by simp [Polyline.size])]
          have e1 : Polyline.at ⟨r.isClosed, d0 :: d1 :: dt⟩ 1 = .ok d1 := rfl
          have hfar : ¬ fuzzyEqualV d0.pos d1.pos := by
            have h := hD.1
            unfold Spread at h
            simp only [List.map_cons, List.isChain_cons_cons] at h
            intro hn
            apply h.1
            have : (1 : ℝ) / 10 ^ 8 ≤ 1 / 10 ^ 5 := by norm_num
            have hn : Near (1 / 10 ^ 8) d0.pos d1.pos := hn
            exact ⟨lt_of_lt_of_le hn.1 this, lt_of_lt_of_le hn.2 this⟩
          rw [e1, ok_bind]
          unfold arcRadiusAndCenter
          rw [assertP_pos hz, ok_bind, assertP_pos hfar, ok_bind, pure_eq_ok, ok_bind]
          simp only
          split_ifs
          · exact ⟨⟨cll.pos, d0.bulge⟩, hd0, by rw [eset]; rfl⟩
          · refine ⟨⟨cll.pos, _⟩, tan_delta_le _ _, by rw [eset]; rfl⟩
  obtain ⟨d, hd, hupd⟩ := hupd
  rw [ite_bindM, hupd, ok_bind]
  left
  have hb' : BulgesOk ⟨r.isClosed, d :: dt⟩ := by
    intro w hw
    simp only [List.mem_cons] at hw
    rcases hw with rfl | hw
    · exact hd
    · exact hD.2 w (by simp [hw])
  have hst : Spread ⟨r.isClosed, dt⟩ := by
    have h := hD.1
    unfold Spread at h ⊢
    simp only [List.map_cons] at h ⊢
    exact h.tail
  have hbt : BulgesOk ⟨r.isClosed, dt⟩ := fun w hw => hb' w (List.mem_cons_of_mem _ hw)
  unfold pruneFirstVertex
  cases dt with
  | nil =>
    rw [if_neg (by simp [Polyline.size])]
    exact ⟨_, rfl, rfl, hb', by simp [Spread]⟩
  | cons d1 dt =>
    rw [if_pos (by simp [Polyline.size])]
    have e0 : Polyline.at ⟨r.isClosed, d :: d1 :: dt⟩ 0 = .ok d := rfl
    have e1 : Polyline.at ⟨r.isClosed, d :: d1 :: dt⟩ 1 = .ok d1 := rfl
    rw [e0, ok_bind, e1, ok_bind]
    by_cases hn : fuzzyEqualV d.pos d1.pos realPrecision
    · rw [if_pos hn]
      exact ⟨_, rfl, rfl, hbt, hst⟩
    · rw [if_neg hn]
      refine ⟨_, rfl, rfl, hb', ?_⟩
      unfold Spread at hst ⊢
      simp only [List.map_cons, List.isChain_cons_cons] at hst ⊢
      exact ⟨hn, hst⟩

theorem joinRawSegs_ok {good : Prop} {p : Polyline} {offset : ℝ} {s0 : OffsetSegment}
    {rest : List OffsetSegment} (h1 : ∀ s ∈ s0 :: rest, |s.v1.bulge| ≤ 1 ∧ |s.v2.bulge| ≤ 1)
    (h2 : good → ∀ s ∈ s0 :: rest, FarArc s) :
    (∃ r, joinRawSegs p offset s0 rest = .ok r ∧ BulgesOk r ∧ Spread r ∧ r.vertexes.length ≠ 1 ∧
      (r.vertexes ≠ [] → r.isClosed = p.isClosed)) ∨
      (¬ good ∧ joinRawSegs p offset s0 rest = .error .assertFailed) := by
  unfold joinRawSegs
  by_cases hc : rest = [] ∧ s0.collapsedArc
  · left; rw [if_pos hc]
    exact ⟨_, rfl, by simp [BulgesOk, Polyline.empty], by simp [Spread, Polyline.empty],
      by simp [Polyline.empty], by simp [Polyline.empty]⟩
  rw [if_neg hc]
  simp only
  set r0 : Polyline := ⟨p.isClosed, [s0.v1]⟩ with hr0
  have hb0 : BulgesOk r0 := by
    intro w hw; simp [hr0] at hw; rw [hw]; exact (h1 s0 (by simp)).1
  have hs0 : Spread r0 := by simp [Spread, hr0]
  have j1 : Joined good r0 (joinFirst (offset < 0) s0 rest r0) := by
    unfold joinFirst
    cases rest with
    | nil => exact joined_ok (grows_refl hb0 hs0)
    | cons s rest =>
      exact joinSegs_joined (r := r0) (h1 s0 (by simp)).1 (h1 s (by simp)).1 (by simp [hr0])
        (fun g => h2 g _ (by simp)) (fun g => h2 g _ (by simp)) hb0 hs0
  rcases j1 with ⟨r1, e1, g1⟩ | ⟨hg, e1⟩
  swap
  · right; refine ⟨hg, ?_⟩; rw [e1]; rfl
  rw [e1, ok_bind]
  have j2 : Joined good r1 (joinOthers (offset < 0) rest r1) := by
    unfold joinOthers
    cases rest with
    | nil => exact joined_ok (grows_refl g1.bulges g1.spread)
    | cons s rest =>
      exact joinSegsLoop_joined rest s r1
        (fun s hs => (h1 s (List.mem_cons_of_mem _ hs)).1)
        (fun g s hs => h2 g s (List.mem_cons_of_mem _ hs)) (g1.ne (by simp [hr0])) g1.bulges g1.spread
  rcases j2 with ⟨r2, e2, g2⟩ | ⟨hg, e2⟩
  swap
  · right; refine ⟨hg, ?_⟩; rw [e2]; rfl
  rw [e2, ok_bind]
  have g02 := g1.trans g2
  have hne2 : r2.vertexes ≠ [] := g02.ne (by simp [hr0])
  have hback : rest.getLast?.getD s0 ∈ s0 :: rest := by
    cases h : rest.getLast? with
    | none => simp
    | some s => simp only [Option.getD_some]; exact List.mem_cons_of_mem _ (List.mem_of_getLast? h)
  have j3 : (∃ r', joinEnd p.isClosed (offset < 0) (rest.getLast?.getD s0) s0 (r1.size = 1) r2 = .ok r' ∧
        r'.isClosed = r2.isClosed ∧ BulgesOk r' ∧ Spread r') ∨
      (¬ good ∧ joinEnd p.isClosed (offset < 0) (rest.getLast?.getD s0) s0 (r1.size = 1) r2 =
          .error .assertFailed) := by
    unfold joinEnd
    by_cases h : p.isClosed ∧ r2.size > 1
    · rw [if_pos h]
      exact joinClosing_ok (h1 _ hback).1 (h1 _ (by simp)).1 hne2 (fun g => h2 g _ hback)
        (fun g => h2 g _ (by simp)) g02.bulges g02.spread h.2
    · rw [if_neg h]
      have := grows_add g02.bulges g02.spread (h1 _ hback).2
      exact Or.inl ⟨_, rfl, this.closed, this.bulges, this.spread⟩
  rcases j3 with ⟨r3, e3, hc3, hb3, hs3⟩ | ⟨hg, e3⟩
  swap
  · right; refine ⟨hg, ?_⟩; rw [e3]; rfl
  rw [e3, ok_bind]
  left
  by_cases h1 : r3.size = 1
  · rw [if_pos h1]
    exact ⟨_, rfl, by simp [BulgesOk], by simp [Spread], by simp, by simp⟩
  · rw [if_neg h1]
    exact ⟨_, rfl, hb3, hs3, h1, fun _ => hc3.trans g02.closed⟩

/-- C38, the whole raw offset: for a polyline without repeated vertexes and without arcs of more than
a half circle, the raw offset has no arc of more than a half circle and no repeated consecutive
vertexes, is not a single vertex and is closed if the polyline is; the only possible fault is the
assertion in `arcRadiusAndCenter`, when the offset leaves almost nothing of an arc. -/
theorem C38_createRawOffsetPline (p : Polyline) (offset : ℝ) (hb : BulgesOk p) (hn : NoRepeats p) :
    (∃ r, createRawOffsetPline p offset = .ok r ∧ BulgesOk r ∧ Spread r ∧ r.vertexes.length ≠ 1 ∧
      (r.vertexes ≠ [] → r.isClosed = p.isClosed)) ∨
    (createRawOffsetPline p offset = .error .assertFailed ∧
      ∃ i v1 v2, IsSeg p i v1 v2 ∧ NearlyCollapses offset v1 v2) := by
  unfold createRawOffsetPline
  by_cases h2 : p.size < 2
  · left; rw [if_pos h2]
    exact ⟨_, rfl, by simp [BulgesOk, Polyline.empty], by simp [Spread, Polyline.empty],
      by simp [Polyline.empty], by simp [Polyline.empty]⟩
  rw [if_neg h2]
  obtain ⟨l, hl, hoff⟩ := C37_createUntrimmedOffsetSegments p offset
    (by unfold Polyline.size at h2; omega) hn
  rw [hl, ok_bind]
  have hbul : ∀ i v1 v2, IsSeg p i v1 v2 → |v1.bulge| ≤ 1 ∧ |v2.bulge| ≤ 1 := by
    intro i v1 v2 h
    unfold IsSeg segs at h
    split_ifs at h with ha hc
    · simp at h
    · have := List.of_mem_zip (List.mem_of_getElem? h)
      exact ⟨hb _ this.1, hb _ (by simpa using this.2)⟩
    · have := List.of_mem_zip (List.mem_of_getElem? h)
      exact ⟨hb _ this.1, hb _ (List.mem_of_mem_tail this.2)⟩
  have hall : ∀ s ∈ l, (|s.v1.bulge| ≤ 1 ∧ |s.v2.bulge| ≤ 1) ∧
      ((¬ ∃ i v1 v2, IsSeg p i v1 v2 ∧ NearlyCollapses offset v1 v2) → FarArc s) := by
    intro s hs
    obtain ⟨k, hk⟩ := List.mem_iff_getElem?.1 hs
    have hk' := List.getElem?_eq_some_iff.1 hk
    obtain ⟨hkl, hke⟩ := hk'
    have hlen := hoff.length_eq
    have hkseg : k < (segs p).length := by omega
    have ho := List.Forall₂.get hoff hkseg hkl
    have hseg : IsSeg p k (segs p)[k].1 (segs p)[k].2 := List.getElem?_eq_getElem hkseg
    simp only [List.get_eq_getElem, hke] at ho
    have hbb := hbul k _ _ hseg
    refine ⟨⟨?_, by rw [ho.bulge2]; exact hbb.2⟩, ?_⟩
    · rw [ho.bulge1]; split_ifs
      · simp
      · exact hbb.1
    · intro hno hline hnear
      apply hno
      refine ⟨k, _, _, hseg, s, ho, ?_, hnear⟩
      by_contra hcol
      simp only [Bool.not_eq_false] at hcol
      have := ho.bulge1
      rw [if_pos hcol] at this
      exact hline (by unfold IsLine; rw [this]; norm_num)
  cases l with
  | nil =>
    left
    exact ⟨_, rfl, by simp [BulgesOk, Polyline.empty], by simp [Spread, Polyline.empty],
      by simp [Polyline.empty], by simp [Polyline.empty]⟩
  | cons s0 rest =>
    rcases joinRawSegs_ok (p := p) (offset := offset)
      (good := ¬ ∃ i v1 v2, IsSeg p i v1 v2 ∧ NearlyCollapses offset v1 v2)
      (fun s hs => (hall s hs).1) (fun g s hs => (hall s hs).2 g) with h | ⟨hg, h⟩
    · exact Or.inl h
    · exact Or.inr ⟨h, not_not.1 hg⟩

/-- The fault of C38 happens: a line followed by an arc of radius 1, offset by a little less than 1
towards the center of the arc. The remaining arc has a radius of 1.02e-8, which does not count as
collapsed, but its end points are closer than 1e-8. -/
theorem C38_near_collapse_witness :
    createRawOffsetPline ⟨false, [⟨⟨2, 0⟩, 0⟩, ⟨⟨1, 0⟩, 1 / 3⟩, ⟨⟨7 / 25, 24 / 25⟩, 0⟩]⟩
      (1 - 102 / 10 ^ 10) = .error .assertFailed := by
  set p : Polyline := ⟨false, [⟨⟨2, 0⟩, 0⟩, ⟨⟨1, 0⟩, 1 / 3⟩, ⟨⟨7 / 25, 24 / 25⟩, 0⟩]⟩ with hp
  set a : Vertex := ⟨⟨1, 0⟩, 1 / 3⟩ with ha
  set b : Vertex := ⟨⟨7 / 25, 24 / 25⟩, 0⟩ with hb
  set o : ℝ := 1 - 102 / 10 ^ 10 with ho
  have hla : ¬ IsLine a := by
    unfold IsLine; rw [ha]; simp only; rw [abs_of_pos (by norm_num)]; norm_num
  have hok : ArcOk a b := ⟨hla, by rw [ha, hb]; left; simp only; norm_num⟩
  have hc : centerOf a b = ⟨0, 0⟩ := by
    unfold centerOf; rw [ha, hb]; ext <;> norm_num
  have hr : (arcOf a b).radius = 1 := by
    rw [hok.radius_eq, hc, ha]; unfold distance dist2; norm_num
  have hs : offsetSeg o a b = .ok ⟨⟨⟨1 - o, 0⟩, 1 / 3⟩, ⟨⟨7 / 25 * (1 - o), 24 / 25 * (1 - o)⟩, 0⟩,
      ⟨7 / 25, 24 / 25⟩, false⟩ := by
    unfold offsetSeg
    rw [if_neg (show ¬ a.bulgeIsZero from hla)]
    unfold offsetArcSeg
    rw [hok.run, ok_bind]
    simp only
    rw [hok.center, hc, hr, normalizeV_ok (by
      rintro ⟨h, -⟩; rw [ha] at h; simp only [V2.sub_x, realThreshold] at h; norm_num at h), ok_bind,
      normalizeV_ok (by
      rintro ⟨h, -⟩; rw [hb] at h; simp only [V2.sub_x, realThreshold] at h; norm_num at h), ok_bind]
    rw [if_neg (show ¬ a.bulgeIsNeg by
      unfold Vertex.bulgeIsNeg; rw [ha]; simp only [realPrecision]; norm_num)]
    rw [if_neg (by rw [ho]; norm_num [realThreshold])]
    have l1 : (a.pos - ⟨0, 0⟩).length = 1 := by
      rw [length_sub, ha]; unfold distance dist2; norm_num
    have l2 : (b.pos - ⟨0, 0⟩).length = 1 := by
      rw [length_sub, hb]; unfold distance dist2; norm_num
    rw [l1, l2, ha, hb]
    simp only [pure_eq_ok, Except.ok.injEq, OffsetSegment.mk.injEq, Vertex.mk.injEq, and_true, true_and]
    constructor <;> ext <;>
      simp only [V2.add_x, V2.add_y, V2.smul_x, V2.smul_y, V2.sub_x, V2.sub_y] <;> ring
  have hn0 : ¬ Near (1 / 10 ^ 5) (⟨2, 0⟩ : V2) a.pos := by
    rintro ⟨h, -⟩; rw [ha] at h; norm_num at h
  have hl0 : IsLine ⟨⟨2, 0⟩, 0⟩ := by simp [IsLine]
  obtain ⟨s0, hs0, hoff⟩ := offsetSeg_spec (offset := o) (v1 := ⟨⟨2, 0⟩, 0⟩) (v2 := a) hn0
  obtain ⟨hcol, hbul, -, -⟩ := offsets_line hl0 hn0 hoff
  have hsegs : segs p = [(⟨⟨2, 0⟩, 0⟩, a), (a, b)] := by
    rw [hp]; simp [segs, ha, hb]
  unfold createRawOffsetPline
  rw [if_neg (by rw [hp]; simp [Polyline.size]), createUntrimmed_eq _ _ (by rw [hp]; simp [Polyline.size]),
    hsegs]
  simp only [List.mapM_cons, List.mapM_nil, hs0, hs, ok_bind, pure_eq_ok]
  unfold joinRawSegs
  rw [if_neg (by simp)]
  simp only [joinFirst]
  unfold joinSegs
  have z0 : s0.v1.bulgeIsZero := by
    unfold Vertex.bulgeIsZero; rw [hbul]; simp [realPrecision]
  have hz1 : ¬ (⟨⟨1 - o, 0⟩, 1 / 3⟩ : Vertex).bulgeIsZero := by
    unfold Vertex.bulgeIsZero; simp only [realPrecision]; rw [abs_of_pos (by norm_num)]; norm_num
  rw [if_neg (by simpa [z0] using hz1), if_pos z0]
  unfold lineToArcJoin
  simp only
  rw [assertP_pos ⟨z0, hz1⟩, ok_bind]
  unfold arcRadiusAndCenter
  rw [assertP_pos hz1, ok_bind, assertP_neg]
  · rfl
  · rw [not_not]
    constructor
    · unfold fuzzyEqual; simp only [realThreshold]; rw [ho, abs_of_pos (by norm_num)]; norm_num
    · unfold fuzzyEqual; simp only [realThreshold]; rw [ho, abs_of_neg (by norm_num)]; norm_num

/-- The hypotheses of C38 hold for the half circle closed by its diameter, whatever the offset. -/
example : BulgesOk ⟨true, [semiStart, semiEnd]⟩ ∧ NoRepeats ⟨true, [semiStart, semiEnd]⟩ := by
  constructor
  · intro v hv
    simp [semiStart, semiEnd] at hv
    rcases hv with rfl | rfl <;> norm_num
  · intro i v1 v2 h
    unfold IsSeg at h
    rcases i with _ | _ | i <;> simp [segs, semiStart, semiEnd] at h <;> obtain ⟨rfl, rfl⟩ := h <;>
      rintro ⟨h, -⟩ <;> norm_num at h

end Cavc

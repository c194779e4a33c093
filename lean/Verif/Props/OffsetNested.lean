import Verif.Props.OffsetLoopsOnce
import Verif.Props.OffsetRound

/-!
C77: what the offsets of one polygon have to do with each other. Offsets further to the same side are nested, also
their areas; the direction of the polygon only decides which side is which.
-/
namespace Cavc
open Spec MeasureTheory
open scoped Classical
noncomputable section

/-- C74 for any offset for which the tolerances do not matter. -/
theorem good_bounds {std : StdSort} {hash : HashOrder} {inf ninf : ℝ} {p : Polyline} {offset : ℝ} {r : List Polyline}
    (hp : SimplePolygon p) (ho : 1 / 10 ^ 4 ≤ |offset|) (hgood : GoodOffset (codePlatform inf ninf) p offset)
    (hr : parallelOffset (codePlatform inf ninf) std hash p offset = .ok r) : BoundsOffset p offset r := by
  obtain ⟨hclear, hi, raw, hraw, hri, ha, hcase⟩ := hgood
  rcases hcase with ⟨h1, h2, h3⟩ | ⟨h1, h2, h3⟩
  · obtain ⟨r', hr', hb⟩ := C74_parallelOffset (std := std) (hash := hash) inf ninf hp ho hclear hi hraw hri ha h1 h2 h3
    rw [hr] at hr'
    cases hr'
    exact hb
  · have hb : BulgesOk p := fun v hv => by
      have := hp.lines v hv; unfold IsLine at this; linarith [show (1 : ℝ) / 10 ^ 5 ≤ 1 by norm_num]
    refine C74_uncut inf ninf hp ho hclear hi hraw hri ?_ h1 h2 h3 hr
    rcases C38_createRawOffsetPline p offset hb hclear.repeats with ⟨r', g1, g2, -⟩ | ⟨g1, -⟩
    · rw [hraw] at g1
      cases g1
      exact plineOk_long g2 ha
    · rw [hraw] at g1
      cases g1

theorem turnAround_unique {r : List Polyline} {x : V2} {k k' : ℤ} (h : TurnAround r x k) (h' : TurnAround r x k') : k = k' := by
  obtain ⟨ws, h1, rfl⟩ := h
  obtain ⟨ws', h2, rfl⟩ := h'
  suffices ws = ws' by rw [this]
  induction h1 generalizing ws' with
  | nil => cases h2; rfl
  | cons a _ ih =>
    cases h2 with
    | cons b h2 =>
      rw [a] at b
      rw [Except.ok.inj b, ih _ h2]

theorem sumOfAreas_unique {r : List Polyline} {k k' : ℝ} (h : SumOfAreas r k) (h' : SumOfAreas r k') : k = k' := by
  obtain ⟨ws, h1, rfl⟩ := h
  obtain ⟨ws', h2, rfl⟩ := h'
  suffices ws = ws' by rw [this]
  induction h1 generalizing ws' with
  | nil => cases h2; rfl
  | cons a _ ih =>
    cases h2 with
    | cons b h2 =>
      rw [a] at b
      rw [Except.ok.inj b, ih _ h2]

theorem _root_.Cavc.Spec.BoundsOffset.around {p : Polyline} {offset : ℝ} {r : List Polyline} (h : BoundsOffset p offset r) {a : ℝ}
    (ha : getArea p = .ok a) {x : V2} (hx : ∀ q ∈ r, ¬ OnPline q x) {k : ℤ} (hk : TurnAround r x k) :
    OffsetRegion p offset x ↔ k ≠ 0 := by
  have := turnAround_unique hk (h.winds x a ha hx)
  rw [this]
  by_cases c : OffsetRegion p offset x
  · rw [if_pos c]; simp only [c, true_iff]; split_ifs <;> norm_num
  · rw [if_neg c]; simp [c]

theorem region_nested {p : Polyline} {o1 o2 : ℝ} (hs : 0 < o1 * o2) (hle : |o1| ≤ |o2|) {a : ℝ}
    (ha : getArea p = .ok a) :
    (0 < o1 * a → ∀ x, OffsetRegion p o2 x → OffsetRegion p o1 x ∧ Inside p x ∧ ¬ OnPline p x) ∧
    (o1 * a < 0 → ∀ x, OffsetRegion p o1 x ∨ Inside p x ∨ OnPline p x → OffsetRegion p o2 x) := by
  have sign1 : 0 < o1 * a → 0 < o2 * a := by
    intro h
    have := mul_pos hs h
    have h1 : o1 ≠ 0 := by rintro rfl; simp at h
    have : 0 < o1 ^ 2 * (o2 * a) := by nlinarith
    exact pos_of_mul_pos_right this (sq_nonneg _)
  have sign2 : o1 * a < 0 → o2 * a < 0 := by
    intro h
    have := mul_pos_of_neg_of_neg (neg_lt_zero.2 hs) h
    have : 0 < o1 ^ 2 * (-(o2 * a)) := by nlinarith
    have := pos_of_mul_pos_right this (sq_nonneg _)
    linarith
  constructor
  · rintro h x ⟨b, hb, hc⟩
    rw [ha] at hb
    cases hb
    rcases hc with ⟨h1, h2, h3⟩ | ⟨h1, -⟩
    · refine ⟨⟨a, ha, Or.inl ⟨h, h2, fun z hz => lt_of_le_of_lt hle (h3 z hz)⟩⟩, h2, fun ho => ?_⟩
      have := h3 x ho
      rw [show distance x x = 0 by simp [distance, dist2]] at this
      linarith [abs_nonneg o2]
    · linarith [sign1 h]
  · rintro h x hc
    refine ⟨a, ha, Or.inr ⟨sign2 h, ?_⟩⟩
    rcases hc with ⟨b, hb, hc⟩ | hc | hc
    · rw [ha] at hb
      cases hb
      rcases hc with ⟨h1, -⟩ | ⟨-, hc | ⟨z, hz, hd⟩⟩
      · linarith
      · exact Or.inl hc
      · exact Or.inr ⟨z, hz, hd.trans hle⟩
    · exact Or.inl hc
    · exact Or.inr ⟨x, hc, by rw [show distance x x = 0 by simp [distance, dist2]]; exact abs_nonneg _⟩

section
variable {std : StdSort} {hash : HashOrder} {inf ninf : ℝ} {p : Polyline} {o1 o2 : ℝ} {r1 r2 : List Polyline}

/-- **C77.** The offsets of a polygon to the same side by a smaller and by a larger distance: to the inside, whatever
the further offset goes around is inside of the nearer one, and of the polygon; to the outside it is the other way
round. -/
theorem C77_nested (hp : SimplePolygon p) (h1 : 1 / 10 ^ 4 ≤ |o1|) (hs : 0 < o1 * o2) (hle : |o1| ≤ |o2|)
    (hg1 : GoodOffset (codePlatform inf ninf) p o1) (hg2 : GoodOffset (codePlatform inf ninf) p o2)
    (hr1 : parallelOffset (codePlatform inf ninf) std hash p o1 = .ok r1)
    (hr2 : parallelOffset (codePlatform inf ninf) std hash p o2 = .ok r2) {a : ℝ} (ha : getArea p = .ok a)
    {x : V2} (hx1 : ∀ q ∈ r1, ¬ OnPline q x) (hx2 : ∀ q ∈ r2, ¬ OnPline q x) {k1 k2 : ℤ} (hk1 : TurnAround r1 x k1)
    (hk2 : TurnAround r2 x k2) :
    (0 < o1 * a → (k2 ≠ 0 → k1 ≠ 0) ∧ (k1 ≠ 0 → ¬ OnPline p x ∧ Inside p x)) ∧
    (o1 * a < 0 → (OnPline p x ∨ Inside p x → k1 ≠ 0) ∧ (k1 ≠ 0 → k2 ≠ 0)) := by
  have b1 := (good_bounds hp h1 hg1 hr1).around ha hx1 hk1
  have b2 := (good_bounds hp (h1.trans hle) hg2 hr2).around ha hx2 hk2
  have h0 : 0 < o1 * o1 := by
    have : o1 ≠ 0 := by rintro rfl; norm_num at h1
    exact mul_self_pos.2 this
  obtain ⟨n1, n2⟩ := region_nested hs hle ha
  obtain ⟨m1, m2⟩ := region_nested h0 le_rfl ha
  refine ⟨fun h => ⟨fun c => b1.1 (n1 h x (b2.2 c)).1, fun c => ?_⟩, fun h => ⟨fun c => ?_, fun c => b2.1 (n2 h x (Or.inl (b1.2 c)))⟩⟩
  · have := m1 h x (b1.2 c)
    exact ⟨this.2.2, this.2.1⟩
  · exact b1.1 (m2 h x (Or.inr c.symm))

/-- **C77.** The areas of these offsets: further inside it is smaller, further outside it is larger, than that of the
nearer offset and of the polygon; and they have the sign of the area of the polygon. -/
theorem C77_areas (hp : SimplePolygon p) (h1 : 1 / 10 ^ 4 ≤ |o1|) (hs : 0 < o1 * o2) (hle : |o1| ≤ |o2|)
    (hg1 : GoodOffset (codePlatform inf ninf) p o1) (hg2 : GoodOffset (codePlatform inf ninf) p o2)
    (hr1 : parallelOffset (codePlatform inf ninf) std hash p o1 = .ok r1)
    (hr2 : parallelOffset (codePlatform inf ninf) std hash p o2 = .ok r2) {a : ℝ} (ha : getArea p = .ok a) :
    ∃ b1 b2, SumOfAreas r1 b1 ∧ SumOfAreas r2 b2 ∧ 0 ≤ a * b1 ∧ 0 ≤ a * b2 ∧
      (0 < o1 * a → |b2| ≤ |b1| ∧ |b1| ≤ |a|) ∧ (o1 * a < 0 → |a| ≤ |b1| ∧ |b1| ≤ |b2|) := by
  obtain ⟨b1, s1, p1, v1⟩ := C74_area (good_bounds hp h1 hg1 hr1) ha
  obtain ⟨b2, s2, p2, v2⟩ := C74_area (good_bounds hp (h1.trans hle) hg2 hr2) ha
  obtain ⟨s, -, ⟨a', ha', hs', v⟩, -⟩ := C60_simple hp
  rw [ha] at ha'
  cases ha'
  have h0 : 0 < o1 * o1 := by
    have : o1 ≠ 0 := by rintro rfl; norm_num at h1
    exact mul_self_pos.2 this
  obtain ⟨n1, n2⟩ := region_nested hs hle ha
  obtain ⟨m1, m2⟩ := region_nested h0 le_rfl ha
  have hsgn : ∀ {b : ℝ}, 0 ≤ (if 0 < a then 1 else -1) * b → 0 ≤ a * b := by
    intro b h
    split_ifs at h with c
    · exact mul_nonneg c.le (by linarith)
    · exact mul_nonneg_of_nonpos_of_nonpos (not_lt.1 c) (by linarith)
  have mono : ∀ {S T : Set (ℝ × ℝ)} {u w : ℝ}, S ⊆ T → volume S = ENNReal.ofReal |u| → volume T = ENNReal.ofReal |w| →
      |u| ≤ |w| := by
    intro S T u w hST hu hw
    have := measure_mono (μ := volume) hST
    rw [hu, hw] at this
    exact (ENNReal.ofReal_le_ofReal_iff (abs_nonneg _)).1 this
  refine ⟨b1, b2, s1, s2, hsgn p1, hsgn p2, fun h => ⟨?_, ?_⟩, fun h => ⟨?_, ?_⟩⟩
  · exact mono (fun z hz => (n1 h _ hz).1) v2 v1
  · exact mono (T := {z : ℝ × ℝ | ¬ OnPline p ⟨z.1, z.2⟩ ∧ Inside p ⟨z.1, z.2⟩})
      (fun z hz => ⟨(m1 h _ hz).2.2, (m1 h _ hz).2.1⟩) v1 v
  · exact mono (fun z hz => m2 h _ (Or.inr (Or.inl hz.2))) v v1
  · exact mono (fun z hz => n2 h _ (Or.inl hz)) v1 v2

end

/-- Two polygons that do not meet themselves and have the same points have the same inside. -/
theorem same_inside {p q : Polyline} (hp : SimplePolygon p) (hq : SimplePolygon q) (h : ∀ x, OnPline p x ↔ OnPline q x)
    {x : V2} (hx : ¬ OnPline p x) : Inside p x ↔ Inside q x := by
  have hfar : ∀ {p : Polyline}, SimplePolygon p → ∀ {y : V2}, (∀ z, OnPline p z → z.x < y.x) → ¬ OnPline p y ∧ ¬ Inside p y := by
    intro p hp y hy
    have hoff : ¬ OnPline p y := fun ho => lt_irrefl _ (hy y ho)
    refine ⟨hoff, fun hi => ?_⟩
    obtain ⟨k, h1, h2⟩ := inside_run (lines_ok hp.lines) hp.closed hoff
    have h3 := (getWinding_turnAll (lines_ok hp.lines) hp.closed hp.two' hoff).1 h1
    rw [turnAll_right (lines_ok hp.lines) hp.closed hp.two' hy, zero_div] at h3
    exact h2.1 hi (by exact_mod_cast h3)
  obtain ⟨M, hM⟩ := onPline_bounded hp.closed hp.two'
  have far1 := hfar hp (y := ⟨M, 0⟩) fun z hz => (abs_lt.1 (hM z hz).1).2
  have far2 := hfar hq (y := ⟨M, 0⟩) fun z hz => (abs_lt.1 (hM z ((h z).2 hz)).1).2
  have hj : JoinedOff p x ⟨M, 0⟩ ↔ JoinedOff q x ⟨M, 0⟩ := by
    unfold JoinedOff
    have : Unmet p = Unmet q := by
      funext a b
      unfold Unmet
      simp only [h]
    rw [this]
  have h1 := (C60_jordan hp).1 x ⟨M, 0⟩ hx far1.1
  have h2 := (C60_jordan hq).1 x ⟨M, 0⟩ (fun ho => hx ((h x).2 ho)) far2.1
  have e1 := far1.2
  have e2 := far2.2
  tauto

/-- Their areas are the same up to the sign. -/
theorem same_area {p q : Polyline} (hp : SimplePolygon p) (hq : SimplePolygon q) (h : ∀ x, OnPline p x ↔ OnPline q x)
    {a b : ℝ} (ha : getArea p = .ok a) (hb : getArea q = .ok b) : a ≠ 0 ∧ (b = a ∨ b = -a) := by
  obtain ⟨s, -, ⟨a', ha', hs, v⟩, -⟩ := C60_simple hp
  obtain ⟨s', -, ⟨b', hb', hs', v'⟩, -⟩ := C60_simple hq
  rw [ha] at ha'
  cases ha'
  rw [hb] at hb'
  cases hb'
  have e : {z : ℝ × ℝ | ¬ OnPline p ⟨z.1, z.2⟩ ∧ Inside p ⟨z.1, z.2⟩} = {z : ℝ × ℝ | ¬ OnPline q ⟨z.1, z.2⟩ ∧ Inside q ⟨z.1, z.2⟩} := by
    ext z
    simp only [Set.mem_ofPred_eq]
    rw [h]
    exact and_congr_right fun hz => same_inside hp hq h (by rwa [h])
  rw [e, v', ENNReal.ofReal_eq_ofReal_iff (abs_nonneg _) (abs_nonneg _)] at v
  exact ⟨by rintro rfl; simp at hs, abs_eq_abs.1 v⟩

theorem same_region {p q : Polyline} (hp : SimplePolygon p) (hq : SimplePolygon q) (h : ∀ x, OnPline p x ↔ OnPline q x)
    {a b : ℝ} (ha : getArea p = .ok a) (hb : getArea q = .ok b) {o o' : ℝ} (hso : |o'| = |o|) (hs : 0 < (o * a) * (o' * b))
    (x : V2) : OffsetRegion p o x → OffsetRegion q o' x := by
  rintro ⟨a', ha', hc⟩
  rw [ha] at ha'
  cases ha'
  refine ⟨b, hb, ?_⟩
  rcases hc with ⟨h1, h2, h3⟩ | ⟨h1, h2⟩
  · left
    have hx : ¬ OnPline p x := fun ho => by
      have := h3 x ho
      rw [show distance x x = 0 by simp [distance, dist2]] at this
      linarith [abs_nonneg o]
    exact ⟨pos_of_mul_pos_right hs h1.le, (same_inside hp hq h hx).1 h2, fun z hz => by rw [hso]; exact h3 z ((h z).2 hz)⟩
  · right
    refine ⟨by by_contra hn; nlinarith [mul_nonneg (neg_nonneg.2 h1.le) (not_lt.1 hn)], ?_⟩
    by_cases hx : OnPline p x
    · exact Or.inr ⟨x, (h x).1 hx, by rw [show distance x x = 0 by simp [distance, dist2]]; exact abs_nonneg _⟩
    · rcases h2 with h2 | ⟨z, hz, hd⟩
      · exact Or.inl ((same_inside hp hq h hx).1 h2)
      · exact Or.inr ⟨z, (h z).1 hz, by rw [hso]; exact hd⟩

section
variable {std std' : StdSort} {hash hash' : HashOrder} {inf ninf inf' ninf' : ℝ} {p q : Polyline} {o o' : ℝ} {r r' : List Polyline}

/-- **C77.** The offset depends only on the points of the polygon: two polygons with the same points, which may start at
different vertexes, go in different directions and have a different number of vertexes, offset by the same distance to
the same side: the offsets go around the same points, as often, and in the directions of the two polygons, and their
areas are the same up to the sign. -/
theorem C77_same_points (hp : SimplePolygon p) (hq : SimplePolygon q) (h : ∀ x, OnPline p x ↔ OnPline q x)
    (ho : 1 / 10 ^ 4 ≤ |o|) {a b : ℝ} (ha : getArea p = .ok a) (hb : getArea q = .ok b)
    (hside : o' * b = o * a) (hg : GoodOffset (codePlatform inf ninf) p o) (hg' : GoodOffset (codePlatform inf' ninf') q o')
    (hr : parallelOffset (codePlatform inf ninf) std hash p o = .ok r)
    (hr' : parallelOffset (codePlatform inf' ninf') std' hash' q o' = .ok r') :
    (b = a ∨ b = -a) ∧
    (∀ x, (∀ s ∈ r ++ r', ¬ OnPline s x) → ∃ k : ℤ, TurnAround r x k ∧ TurnAround r' x (if b = a then k else -k)) ∧
    ∃ c : ℝ, SumOfAreas r c ∧ SumOfAreas r' (if b = a then c else -c) := by
  obtain ⟨ha0, hab⟩ := same_area hp hq h ha hb
  have hne : o ≠ 0 := by rintro rfl; norm_num at ho
  have hoo : |o'| = |o| := by
    have := congrArg abs hside
    rw [abs_mul, abs_mul] at this
    have hab' : |b| = |a| := abs_eq_abs.2 hab
    rw [hab'] at this
    exact mul_right_cancel₀ (abs_ne_zero.2 ha0) this
  have hpos : 0 < (o * a) * (o' * b) := by
    rw [hside]
    exact mul_self_pos.2 (mul_ne_zero hne ha0)
  have hpos' : 0 < (o' * b) * (o * a) := by rw [mul_comm]; exact hpos
  have hB := good_bounds hp ho hg hr
  have hB' := good_bounds hq (by rw [hoo]; exact ho) hg' hr'
  have hreg : ∀ x, OffsetRegion q o' x ↔ OffsetRegion p o x := fun x =>
    ⟨same_region hq hp (fun x => (h x).symm) hb ha hoo.symm hpos' x, same_region hp hq h ha hb hoo hpos x⟩
  have hsgn : (if 0 < b then (1 : ℤ) else -1) = if b = a then (if 0 < a then 1 else -1) else -(if 0 < a then 1 else -1) := by
    rcases hab with rfl | rfl
    · rw [if_pos rfl]
    · rw [if_neg (show ¬ -a = a from fun e => ha0 (by linarith))]
      rcases lt_or_gt_of_ne ha0 with c | c
      · rw [if_pos (show 0 < -a by linarith), if_neg (show ¬ 0 < a by linarith)]; norm_num
      · rw [if_neg (show ¬ 0 < -a by linarith), if_pos (show 0 < a from c)]
  refine ⟨hab, ?_, ?_⟩
  · intro x hx
    refine ⟨_, hB.winds x a ha fun s hs => hx s (List.mem_append_left _ hs), ?_⟩
    have := hB'.winds x b hb fun s hs => hx s (List.mem_append_right _ hs)
    convert this using 1
    rw [hsgn]
    by_cases c : OffsetRegion p o x
    · rw [if_pos c, if_pos ((hreg x).2 c)]
    · rw [if_neg c, if_neg (fun c' => c ((hreg x).1 c'))]; simp
  · obtain ⟨c, s1, p1, v1⟩ := C74_area hB ha
    obtain ⟨c', s2, p2, v2⟩ := C74_area hB' hb
    refine ⟨c, s1, ?_⟩
    suffices c' = if b = a then c else -c by rw [← this]; exact s2
    have e : {z : ℝ × ℝ | OffsetRegion q o' ⟨z.1, z.2⟩} = {z : ℝ × ℝ | OffsetRegion p o ⟨z.1, z.2⟩} := by
      ext z
      exact hreg _
    rw [e, v1, ENNReal.ofReal_eq_ofReal_iff (abs_nonneg _) (abs_nonneg _)] at v2
    have hcc := abs_eq_abs.1 v2
    rcases hab with rfl | rfl
    · rw [if_pos rfl]
      split_ifs at p1 p2 <;> rcases hcc with e | e <;> linarith
    · rw [if_neg (show ¬ -a = a from fun e => ha0 (by linarith))]
      rcases lt_or_gt_of_ne ha0 with g | g
      · rw [if_neg (show ¬ 0 < a by linarith)] at p1
        rw [if_pos (show 0 < -a by linarith)] at p2
        rcases hcc with e | e <;> linarith
      · rw [if_pos (show 0 < a from g)] at p1
        rw [if_neg (show ¬ 0 < -a by linarith)] at p2
        rcases hcc with e | e <;> linarith

end

/-! ### Examples -/

/-- The square, and the offsets of it to the outside. -/
theorem nested_round {d : ℝ} (h : d = 1 ∨ d = 2) : RoundOk 1 (-10) 0 0 10 d ∧ RoundOk (-1) 0 0 10 10 d := by
  rcases h with rfl | rfl <;> constructor <;> constructor <;> norm_num

/-- The hypotheses of C77 are met: a square offset by 1 and by 2. -/
example (std : StdSort) (hash : HashOrder) (inf ninf : ℝ) : ∃ q1 q2 b1 b2,
    parallelOffset (codePlatform inf ninf) std hash (rect (-10) 0 0 10) (-1) = .ok [q1] ∧
    parallelOffset (codePlatform inf ninf) std hash (rect (-10) 0 0 10) (-2) = .ok [q2] ∧
    SumOfAreas [q1] b1 ∧ SumOfAreas [q2] b2 ∧ 100 ≤ b1 ∧ b1 ≤ b2 ∧
    ∀ x, (∀ q ∈ [q1, q2], ¬ OnPline q x) → ∀ k1 k2, TurnAround [q1] x k1 → TurnAround [q2] x k2 → k1 ≠ 0 → k2 ≠ 0 := by
  obtain ⟨h1, -⟩ := nested_round (d := 1) (Or.inl rfl)
  obtain ⟨h2, -⟩ := nested_round (d := 2) (Or.inr rfl)
  obtain ⟨q1, -, r1⟩ := turned_offset (std := std) (hash := hash) inf ninf h1
  obtain ⟨q2, -, r2⟩ := turned_offset (std := std) (hash := hash) inf ninf h2
  have g1 := turned_good h1 inf ninf
  have g2 := turned_good h2 inf ninf
  have hp := turned_simple h1
  simp only [turned, one_mul] at r1 r2 g1 g2 hp
  have ha := rect_area (-10) 0 0 10
  norm_num at ha
  have n1 : (1 : ℝ) / 10 ^ 4 ≤ |-1| := by norm_num
  have n2 : (0 : ℝ) < -1 * -2 := by norm_num
  have n3 : |(-1 : ℝ)| ≤ |-2| := by norm_num
  obtain ⟨b1, b2, s1, s2, p1, p2, -, h⟩ := C77_areas hp n1 n2 n3 g1 g2 r1 r2 ha
  obtain ⟨h3, h4⟩ := h (by norm_num)
  rw [abs_of_nonneg (by linarith), abs_of_nonneg (by linarith)] at h3
  rw [abs_of_nonneg (by linarith), abs_of_nonneg (by linarith)] at h4
  refine ⟨q1, q2, b1, b2, r1, r2, s1, s2, h3, h4, fun x hx k1 k2 hk1 hk2 => ?_⟩
  exact ((C77_nested hp n1 n2 n3 g1 g2 r1 r2 ha (fun q hq => hx q (by rw [List.mem_singleton] at hq; subst hq; simp))
    (fun q hq => hx q (by rw [List.mem_singleton] at hq; subst hq; simp)) hk1 hk2).2 (by norm_num)).2

theorem nested_same (x : V2) : OnPline (rect (-10) 0 0 10) x ↔ OnPline (rect 0 0 (-10) 10) x := by
  have hz : ∀ {a b : V2} {t : ℝ}, AtParam ⟨a, 0⟩ ⟨b, 0⟩ t (lerp a b t) := fun {a b t} => (atParam_line (isLine_zero _)).2 rfl
  have back : ∀ {a b : V2}, OnSeg ⟨a, 0⟩ ⟨b, 0⟩ x → OnSeg ⟨b, 0⟩ ⟨a, 0⟩ x := by
    intro a b h
    obtain ⟨t, t0, t1, hx, hy⟩ := on_line h
    refine ⟨1 - t, by linarith, by linarith, (atParam_line (isLine_zero _)).2 ?_⟩
    ext
    · rw [hx]; simp only [lerp]; ring
    · rw [hy]; simp only [lerp]; ring
  constructor <;> rintro ⟨i, v, w, hs, ho⟩ <;>
    rcases rect_seg hs with ⟨-, rfl, rfl⟩ | ⟨-, rfl, rfl⟩ | ⟨-, rfl, rfl⟩ | ⟨-, rfl, rfl⟩
  · exact ⟨0, _, _, rfl, back ho⟩
  · exact ⟨3, _, _, rfl, back ho⟩
  · exact ⟨2, _, _, rfl, back ho⟩
  · exact ⟨1, _, _, rfl, back ho⟩
  · exact ⟨0, _, _, rfl, back ho⟩
  · exact ⟨3, _, _, rfl, back ho⟩
  · exact ⟨2, _, _, rfl, back ho⟩
  · exact ⟨1, _, _, rfl, back ho⟩

/-- The hypotheses of C77 for different polygons with the same points are met: the square starting at two different
vertexes, once counter clockwise and once clockwise. -/
example (std : StdSort) (hash : HashOrder) (inf ninf : ℝ) : ∃ q q' c,
    parallelOffset (codePlatform inf ninf) std hash (rect (-10) 0 0 10) (-1) = .ok [q] ∧
    parallelOffset (codePlatform inf ninf) std hash (rect 0 0 (-10) 10) 1 = .ok [q'] ∧
    SumOfAreas [q] c ∧ SumOfAreas [q'] (-c) ∧
    ∀ x, ¬ OnPline q x → ¬ OnPline q' x → ∃ k, TurnAround [q] x k ∧ TurnAround [q'] x (-k) := by
  obtain ⟨h1, h2⟩ := nested_round (d := 1) (Or.inl rfl)
  obtain ⟨q1, -, r1⟩ := turned_offset (std := std) (hash := hash) inf ninf h1
  obtain ⟨q2, -, r2⟩ := turned_offset (std := std) (hash := hash) inf ninf h2
  have g1 := turned_good h1 inf ninf
  have g2 := turned_good h2 inf ninf
  have hp := turned_simple h1
  have hp2 := turned_simple h2
  simp only [turned, one_mul, mul_zero, neg_one_mul, neg_neg] at r1 r2 g1 g2 hp hp2
  have ha := rect_area (-10) 0 0 10
  have hb := rect_area 0 0 (-10) 10
  norm_num at ha hb
  obtain ⟨-, h3, c, h4, h5⟩ := C77_same_points hp hp2 nested_same (by norm_num) ha hb (by norm_num) g1 g2 r1 r2
  rw [if_neg (by norm_num)] at h5
  refine ⟨q1, q2, c, r1, r2, h4, h5, fun x hx1 hx2 => ?_⟩
  obtain ⟨k, k1, k2⟩ := h3 x (by simp [hx1, hx2])
  rw [if_neg (by norm_num)] at k2
  exact ⟨k, k1, k2⟩

end
end Cavc

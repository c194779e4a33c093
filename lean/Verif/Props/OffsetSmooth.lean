import Verif.Spec.Smooth
import Verif.Props.OffsetJoins
import Verif.Props.OffsetWhole
import Verif.Props.OffsetTotal
import Verif.Props.OffsetRound
import Verif.Props.SegIntrExact

/-! C80: the parallel offset of a smooth closed curve is the parallel curve. -/
namespace Cavc
open Spec
open scoped Classical
noncomputable section

theorem bulge_of_sweep {v w : Vertex} (h : sweep v = sweep w) : v.bulge = w.bulge := by
  unfold sweep at h
  exact Real.arctan_injective (by linarith)

theorem atParam_zero (v1 v2 : Vertex) : AtParam v1 v2 0 v1.pos := by
  by_cases hl : IsLine v1
  · rw [atParam_line hl]; ext <;> simp [lerp]
  · rw [atParam_arc hl, zero_mul, rot_zero]

theorem atParam_one (v1 v2 : Vertex) : AtParam v1 v2 1 v2.pos := by
  by_cases hl : IsLine v1
  · rw [atParam_line hl]; ext <;> simp [lerp]
  · rw [atParam_arc hl, one_mul]
    exact (isCenter_centerOf (bulge_ne_zero hl)).symm

/-- The segment has the unit normal `n` at its point `J`. -/
structure TanAt (v1 v2 : Vertex) (J n : V2) : Prop where
  unit : n.x ^ 2 + n.y ^ 2 = 1
  line : IsLine v1 → ∃ k, k ≠ 0 ∧ v2.pos.x - v1.pos.x = k * n.y ∧ v2.pos.y - v1.pos.y = -(k * n.x)
  arc : ¬ IsLine v1 → ∀ c, IsCenter v1 v2 c → ∃ k, c.x = J.x + k * n.x ∧ c.y = J.y + k * n.y

/-- Two offset segments that follow each other without a corner. -/
structure SmoothJoin (s1 s2 : OffsetSegment) : Prop where
  meet : s1.v2.pos = s2.v1.pos
  tan : ∃ n, TanAt s1.v1 s1.v2 s2.v1.pos n ∧ TanAt s2.v1 s2.v2 s2.v1.pos n
  notBoth : ¬ (IsLine s1.v1 ∧ IsLine s2.v1)
  ok1 : SegOk s1.v1 s1.v2
  ok2 : SegOk s2.v1 s2.v2
  zero : IsLine s2.v1 → s2.v1.bulge = 0
  apart : ¬ Near (1 / 10 ^ 5) s1.v1.pos s1.v2.pos
  long1 : IsLine s1.v1 → 1 / 10 ^ 8 ≤ dist2 s1.v1.pos s1.v2.pos
  long2 : IsLine s2.v1 → 1 / 10 ^ 8 ≤ dist2 s2.v1.pos s2.v2.pos

/-- The squared distance of a point of the tangent from the center. -/
theorem tangent_dist {p q J n c : V2} {k κ tj t : ℝ} (hn : n.x ^ 2 + n.y ^ 2 = 1) (hx : q.x - p.x = k * n.y)
    (hy : q.y - p.y = -(k * n.x)) (hJ : J = lerp p q tj) (cx : c.x = J.x + κ * n.x) (cy : c.y = J.y + κ * n.y) :
    dist2 (lerp p q t) c = dist2 J c + (t - tj) ^ 2 * k ^ 2 := by
  have jx : J.x = p.x + tj * (q.x - p.x) := by rw [hJ]; simp only [lerp]
  have jy : J.y = p.y + tj * (q.y - p.y) := by rw [hJ]; simp only [lerp]
  simp only [lerp, dist2]
  rw [cx, cy, jx, jy, hx, hy]
  have e : n.y ^ 2 = 1 - n.x ^ 2 := by linarith
  ring_nf
  rw [e]
  ring

theorem tangent_param {p q J n c : V2} {k κ tj t : ℝ} (hn : n.x ^ 2 + n.y ^ 2 = 1) (hk : k ≠ 0) (hx : q.x - p.x = k * n.y)
    (hy : q.y - p.y = -(k * n.x)) (hJ : J = lerp p q tj) (cx : c.x = J.x + κ * n.x) (cy : c.y = J.y + κ * n.y)
    (h : dist2 (lerp p q t) c ≤ dist2 J c) : t = tj := by
  rw [tangent_dist hn hx hy hJ cx cy] at h
  have hk2 : 0 < k ^ 2 := by positivity
  have h0 : (t - tj) ^ 2 = 0 := by
    by_contra hc
    have : 0 < (t - tj) ^ 2 := lt_of_le_of_ne (sq_nonneg _) (Ne.symm hc)
    nlinarith [mul_pos this hk2]
  have := pow_eq_zero_iff (two_ne_zero) |>.1 h0
  linarith

theorem tangent_meets {p q J n c o x : V2} {k κ tj t r : ℝ} (hn : n.x ^ 2 + n.y ^ 2 = 1) (hk : k ≠ 0)
    (hx : q.x - p.x = k * n.y) (hy : q.y - p.y = -(k * n.x)) (hJ : J = lerp p q tj) (cx : c.x = J.x + κ * n.x)
    (cy : c.y = J.y + κ * n.y) (hr : dist2 J c = r ^ 2) (hl : 1 / 10 ^ 8 ≤ dist2 p q) (h : LineMeets p q r c o t x) :
    t = tj ∧ x = J := by
  obtain ⟨rfl, h⟩ := h
  have ht : t = tj := by
    rcases h with ⟨h, -⟩ | ⟨-, h, -⟩ | ⟨-, h, -⟩
    · linarith
    · exact tangent_param hn hk hx hy hJ cx cy (by rw [hJ]; exact h tj)
    · exact tangent_param hn hk hx hy hJ cx cy (by rw [hr]; exact le_of_eq h)
  exact ⟨ht, by rw [ht, hJ]⟩

theorem tangent_not_missed {p q J c : V2} {tj r : ℝ} (hJ : J = lerp p q tj) (hr : dist2 J c = r ^ 2)
    (hl : 1 / 10 ^ 8 ≤ dist2 p q) : ¬ LineMisses p q r c := by
  rintro (⟨h, -⟩ | ⟨-, h⟩)
  · linarith
  · exact h tj (by rw [← hJ]; exact hr)

theorem tangent_circles {c1 c2 J n x : V2} {k1 k2 : ℝ} (hn : n.x ^ 2 + n.y ^ 2 = 1) (x1 : c1.x = J.x + k1 * n.x)
    (y1 : c1.y = J.y + k1 * n.y) (x2 : c2.x = J.x + k2 * n.x) (y2 : c2.y = J.y + k2 * n.y) (hne : k1 ≠ k2)
    (h1 : dist2 x c1 = dist2 J c1) (h2 : dist2 x c2 = dist2 J c2) : x = J := by
  simp only [dist2, x1, y1, x2, y2] at h1 h2
  have e : (k1 - k2) * ((x.x - J.x) * n.x + (x.y - J.y) * n.y) = 0 := by linear_combination (h2 - h1) / 2
  have e' : (x.x - J.x) * n.x + (x.y - J.y) * n.y = 0 := by
    rcases mul_eq_zero.1 e with h | h
    · exact absurd (by linarith) hne
    · exact h
  have s : (x.x - J.x) ^ 2 + (x.y - J.y) ^ 2 = 0 := by linear_combination h1 + 2 * k1 * e'
  have a : x.x - J.x = 0 := by nlinarith [sq_nonneg (x.x - J.x), sq_nonneg (x.y - J.y)]
  have b : x.y - J.y = 0 := by nlinarith [sq_nonneg (x.x - J.x), sq_nonneg (x.y - J.y)]
  ext <;> linarith

theorem inSweep_end {v1 v2 : Vertex} (hok : SegOk v1 v2) (hl : ¬ IsLine v1) {c x : V2} (hc : IsCenter v1 v2 c)
    (hx : x = v1.pos ∨ x = v2.pos) : InSweep (1 / 10 ^ 8) v1 v2 c x := by
  have ha := hok.arcOk hl
  rw [isCenter_unique ha.b_ne hc]
  apply inSweep_of_inSector
  apply inSector_of_onSeg ha hok.half
  rcases hx with rfl | rfl
  · exact onSeg_start _ _
  · exact onSeg_end _ _

theorem startsAt_start {u1 u2 w : Vertex} (h : Spec.StartsAt u1 u2 u1.pos w) : w = u1 := by
  obtain ⟨h1, -, h3⟩ := h
  have := h3 0 le_rfl zero_lt_one (atParam_zero _ _)
  rw [sub_zero, one_mul] at this
  have hb := bulge_of_sweep this
  cases w; cases u1
  simp only at h1 hb
  rw [h1, hb]

theorem endsAt_end {c : V2} {v2 u : Vertex} {x : V2} {r q : Polyline} {pre : List Vertex} (hr : r.vertexes = pre ++ [u])
    (hc : IsCenter u v2 c) (hx : x = v2.pos) (h : EndsAt c v2 x r q) : q = r := by
  obtain ⟨pre', w, w', h1, rfl, h3, h4, h5⟩ := h
  rw [hr] at h1
  obtain ⟨rfl, e⟩ := List.append_inj' h1 rfl
  simp only [List.cons.injEq, and_true] at e
  subst e
  have hw : w' = u := by
    by_cases hn : IsLine u ∨ Near (1 / 10 ^ 8) u.pos v2.pos
    · exact h4 hn
    · rw [not_or] at hn
      have := h5 hn.1 hn.2 hc 1 one_pos le_rfl (hx ▸ atParam_one _ _)
      rw [one_mul] at this
      have hb := bulge_of_sweep this
      cases w'; cases u
      simp only at h3 hb
      rw [h3, hb]
  rw [hw, ← hr]

theorem appends_one {r r' : Polyline} {pre : List Vertex} {u w : Vertex} (hr : r.vertexes = pre ++ [u])
    (hn : ¬ Near (1 / 10 ^ 5) u.pos w.pos) (h : Appends r [w] r') : r' = ⟨r.isClosed, r.vertexes ++ [w]⟩ := by
  unfold Appends at h
  obtain ⟨c, vs⟩ := r
  simp only [List.foldl_cons, List.foldl_nil] at h
  simp only at hr
  rw [h, addOrReplace_joined, hr]
  unfold joined
  rw [List.getLast?_concat]
  simp only
  rw [if_neg hn]

theorem vertex_zero {w : Vertex} (h : w.bulge = 0) : w = ⟨w.pos, 0⟩ := by
  cases w
  simp only at h
  rw [h]

/-- Joining two offset segments without a corner adds the start of the second one. -/
theorem joins_smooth {ccw : Prop} {s1 s2 : OffsetSegment} (h : SmoothJoin s1 s2) {r r' : Polyline} {pre : List Vertex}
    (hr : r.vertexes = pre ++ [s1.v1]) (hj : Joins ccw s1 s2 r r') : r' = ⟨r.isClosed, r.vertexes ++ [s2.v1]⟩ := by
  obtain ⟨n, t1, t2⟩ := h.tan
  have hfar : ¬ Near (1 / 10 ^ 5) s1.v1.pos s2.v1.pos := h.meet ▸ h.apart
  rcases hj with ⟨l1, l2, -⟩ | ⟨l1, l2, added, c, ha, hc, hj⟩ | ⟨l1, l2, c, hc, hj⟩ | ⟨l1, l2, c1, c2, hc1, hc2, hj⟩
  · exact absurd ⟨l1, l2⟩ h.notBoth
  · obtain ⟨k, hk, hx, hy⟩ := t1.line l1
    obtain ⟨κ, cx, cy⟩ := t2.arc l2 c hc
    have hJ : s2.v1.pos = lerp s1.v1.pos s1.v2.pos 1 := by rw [← h.meet]; ext <;> simp [lerp]
    have hd : dist2 s2.v1.pos c = distance s2.v1.pos c ^ 2 := (distance_sq _ _).symm
    rcases hj with ⟨hm, -⟩ | ⟨t, x, hm, hcase⟩
    · exact absurd hm (tangent_not_missed hJ hd (h.long1 l1))
    · obtain ⟨rfl, rfl⟩ := tangent_meets t1.unit hk hx hy hJ cx cy hd (h.long1 l1) hm
      have hin := inSweep_end h.ok2 l2 hc (x := s2.v1.pos) (Or.inl rfl)
      have hall : (0 : ℝ) ≤ 1 ∧ (1 : ℝ) ≤ 1 ∧ InSweep (1 / 10 ^ 8) s2.v1 s2.v2 c s2.v1.pos := ⟨by norm_num, le_rfl, hin⟩
      rcases hcase with ⟨-, -, -, w, rfl, hw⟩ | ⟨hno, -⟩ | ⟨hno, -⟩
      · rw [startsAt_start hw] at ha
        exact appends_one hr hfar ha
      · exact absurd hall hno
      · exact absurd hall hno
  · obtain ⟨k, hk, hx, hy⟩ := t2.line l2
    obtain ⟨κ, cx, cy⟩ := t1.arc l1 c hc
    have hJ : s2.v1.pos = lerp s2.v1.pos s2.v2.pos 0 := by ext <;> simp [lerp]
    have hd : dist2 s2.v1.pos c = distance s1.v1.pos c ^ 2 := by
      rw [distance_sq, ← h.meet, ← hc, dist2_rot]
    rcases hj with ⟨hm, -⟩ | ⟨t, x, o, -, hm, hcase⟩
    · exact absurd hm (tangent_not_missed hJ hd (h.long2 l2))
    · obtain ⟨rfl, rfl⟩ := tangent_meets t1.unit hk hx hy hJ cx cy hd (h.long2 l2) hm
      have hin := inSweep_end h.ok1 l1 hc (x := s2.v1.pos) (Or.inr h.meet.symm)
      rcases hcase with ⟨-, -, -, q, he, ha⟩ | ⟨hno, -⟩
      · rw [endsAt_end hr hc h.meet.symm he, ← vertex_zero (h.zero l2)] at ha
        exact appends_one hr hfar ha
      · exact absurd ⟨le_rfl, zero_le_one, hin⟩ hno
  · obtain ⟨k1, x1, y1⟩ := t1.arc l1 c1 hc1
    obtain ⟨k2, x2, y2⟩ := t2.arc l2 c2 hc2
    have hd1 : dist2 s2.v1.pos c1 = distance s1.v1.pos c1 ^ 2 := by
      rw [distance_sq, ← h.meet, ← hc1, dist2_rot]
    have hd2 : dist2 s2.v1.pos c2 = distance s2.v1.pos c2 ^ 2 := (distance_sq _ _).symm
    rcases hj with ⟨-, ha⟩ | ⟨-, hno, -⟩ | ⟨x, hns, hm, hcase⟩
    · exact appends_one hr hfar ha
    · exact absurd ⟨hd1, hd2⟩ (hno s2.v1.pos)
    · have hxJ : x = s2.v1.pos := by
        rcases hm with ⟨m1, m2, -⟩ | ⟨hno, -⟩
        · refine tangent_circles t1.unit x1 y1 x2 y2 (fun e => hns ?_) (by rw [hd1]; exact m1) (by rw [hd2]; exact m2)
          have ec : c1 = c2 := by
            ext
            · rw [x1, x2, e]
            · rw [y1, y2, e]
          have er : distance s1.v1.pos c1 = distance s2.v1.pos c2 := by
            rw [← abs_of_nonneg (distance_nonneg s1.v1.pos c1), ← abs_of_nonneg (distance_nonneg s2.v1.pos c2), ← sq_eq_sq_iff_abs_eq_abs,
              ← hd1, ← hd2, ec]
          refine ⟨?_, ?_⟩
          · rw [ec]; simp [distance, dist2]
          · rw [er]; simp
        · exact absurd ⟨hd1, hd2⟩ (hno s2.v1.pos)
      subst hxJ
      have hin1 := inSweep_end h.ok1 l1 hc1 (x := s2.v1.pos) (Or.inr h.meet.symm)
      have hin2 := inSweep_end h.ok2 l2 hc2 (x := s2.v1.pos) (Or.inl rfl)
      rcases hcase with ⟨-, -, q, w, he, hw, ha⟩ | ⟨hno, -⟩
      · rw [endsAt_end hr hc1 h.meet.symm he, startsAt_start hw] at ha
        exact appends_one hr hfar ha
      · exact absurd ⟨hin1, hin2⟩ hno

theorem joinsAll_smooth {ccw : Prop} : ∀ {l : List OffsetSegment} {r r' : Polyline}, List.IsChain SmoothJoin l →
    (∃ pre s, l.head? = some s ∧ r.vertexes = pre ++ [s.v1]) → JoinsAll ccw l r r' →
    r' = ⟨r.isClosed, r.vertexes ++ l.tail.map OffsetSegment.v1⟩ := by
  intro l r r' hch hr hj
  induction hj with
  | last s r => simp
  | step s1 s2 rest r r1 r2 h1 h2 ih =>
    obtain ⟨pre, s, hs, hv⟩ := hr
    simp only [List.head?_cons, Option.some.injEq] at hs
    subst hs
    rw [List.isChain_cons_cons] at hch
    have e := joins_smooth hch.1 hv h1
    have := ih hch.2 ⟨r.vertexes, s2, rfl, by rw [e]⟩
    rw [this, e]
    simp

theorem path_line {v1 v2 : Vertex} (hl : IsLine v1) {γ : ℝ → V2} (h : IsPath v1 v2 γ) : γ = fun t => lerp v1.pos v2.pos t :=
  funext fun t => (atParam_line hl).1 (h t)

theorem path_arc {v1 v2 : Vertex} (hl : ¬ IsLine v1) {γ : ℝ → V2} (h : IsPath v1 v2 γ) :
    γ = fun t => rot (centerOf v1 v2) (t * sweep v1) v1.pos :=
  funext fun t => (atParam_arc hl).1 (h t)

theorem path_ends {v1 v2 : Vertex} {γ : ℝ → V2} (h : IsPath v1 v2 γ) : γ 0 = v1.pos ∧ γ 1 = v2.pos :=
  ⟨(atParam_unique v1 v2 0).unique (h 0) (atParam_zero _ _), (atParam_unique v1 v2 1).unique (h 1) (atParam_one _ _)⟩

theorem path_of (v1 v2 : Vertex) : ∃ γ, IsPath v1 v2 γ := by
  choose γ hγ using fun t => (atParam_unique v1 v2 t).exists
  exact ⟨γ, hγ⟩

theorem isLine_same {v w : Vertex} (h : w.bulge = v.bulge) : IsLine w ↔ IsLine v := by
  unfold IsLine
  rw [h]

/-- The normal of an arc points to or away from its center. -/
theorem arc_normal {v1 v2 : Vertex} (hl : ¬ IsLine v1) {γ : ℝ → V2} (hγ : IsPath v1 v2 γ) {t : ℝ} {n : V2} (hn : LeftNormal γ t n)
    (hne : v1.pos ≠ centerOf v1 v2) : ∃ κ : ℝ, κ = (SignType.sign (sweep v1) : ℝ) * distance v1.pos (centerOf v1 v2) ∧ κ ≠ 0 ∧
      (centerOf v1 v2).x = (γ t).x + κ * n.x ∧ (centerOf v1 v2).y = (γ t).y + κ * n.y := by
  rw [path_arc hl hγ] at hn
  obtain ⟨ex, ey⟩ := leftNormal_rot hn
  have hr := distance_pos hne
  have hs : (SignType.sign (sweep v1) : ℝ) ^ 2 = 1 ∧ (SignType.sign (sweep v1) : ℝ) ≠ 0 := by
    have hb := bulge_ne_zero hl
    have h0 : sweep v1 ≠ 0 := by
      unfold sweep
      intro h
      exact hb (Real.arctan_eq_zero_iff.1 (by linarith))
    rcases lt_or_gt_of_ne h0 with h | h
    · rw [sign_neg h]; simp
    · rw [sign_pos h]; simp
  set σ : ℝ := (SignType.sign (sweep v1) : ℝ)
  refine ⟨_, rfl, mul_ne_zero hs.2 hr.ne', ?_, ?_⟩
  · rw [ex, path_arc hl hγ]
    field_simp
    linear_combination ((rot (centerOf v1 v2) (t * sweep v1) v1.pos).x - (centerOf v1 v2).x) * hs.1
  · rw [ey, path_arc hl hγ]
    field_simp
    linear_combination ((rot (centerOf v1 v2) (t * sweep v1) v1.pos).y - (centerOf v1 v2).y) * hs.1

theorem center_ne {v1 v2 : Vertex} (hl : ¬ IsLine v1) (h : ¬ Near (1 / 10 ^ 5) v1.pos v2.pos) : v1.pos ≠ centerOf v1 v2 := by
  intro e
  have hc := isCenter_centerOf (v2 := v2) (bulge_ne_zero hl)
  unfold IsCenter at hc
  rw [← e] at hc
  apply h
  rw [← hc]
  have : rot v1.pos (sweep v1) v1.pos = v1.pos := by ext <;> simp [rot]
  rw [this]
  simp [Near]

/-- The ends of the parallel segment. -/
theorem parallel_ends {offset : ℝ} {v1 v2 w1 w2 : Vertex} (h : ParallelSeg offset v1 v2 w1 w2) {γ : ℝ → V2} (hγ : IsPath v1 v2 γ)
    {n : V2} : (LeftNormal γ 0 n → w1.pos = v1.pos + offset • n) ∧ (LeftNormal γ 1 n → w2.pos = v2.pos + offset • n) := by
  obtain ⟨γ', hγ'⟩ := path_of w1 w2
  obtain ⟨a, b⟩ := path_ends hγ
  obtain ⟨a', b'⟩ := path_ends hγ'
  refine ⟨fun hn => ?_, fun hn => ?_⟩
  · rw [← a', ← a]; exact h.2 γ γ' 0 n hγ hγ' hn
  · rw [← b', ← b]; exact h.2 γ γ' 1 n hγ hγ' hn

/-- The parallel arc has the same center. -/
theorem parallel_center {offset : ℝ} {v1 v2 w1 w2 : Vertex} (h : ParallelSeg offset v1 v2 w1 w2)
    (hne : ¬ Near (1 / 10 ^ 5) v1.pos v2.pos) (hl : ¬ IsLine v1) : centerOf w1 w2 = centerOf v1 v2 := by
  obtain ⟨γ, hγ⟩ := path_of v1 v2
  obtain ⟨n0, hn0⟩ := C37_normal_exists hne hγ 0
  obtain ⟨n1, hn1⟩ := C37_normal_exists hne hγ 1
  have e0 := (parallel_ends h hγ).1 hn0
  have e1 := (parallel_ends h hγ).2 hn1
  obtain ⟨κ, hκ, k0, x0, y0⟩ := arc_normal hl hγ hn0 (center_ne hl hne)
  obtain ⟨κ', hκ', -, x1, y1⟩ := arc_normal hl hγ hn1 (center_ne hl hne)
  rw [← hκ] at hκ'
  subst hκ'
  rw [(path_ends hγ).1] at x0 y0
  rw [(path_ends hγ).2] at x1 y1
  refine centerOf_scale (k := 1 - offset / κ') (bulge_ne_zero hl) (isCenter_centerOf (bulge_ne_zero hl)) h.1 ?_ ?_
  · rw [e0]
    ext
    · simp only [V2.add_x, V2.smul_x]; rw [x0]; field_simp; ring
    · simp only [V2.add_y, V2.smul_y]; rw [y0]; field_simp; ring
  · rw [e1]
    ext
    · simp only [V2.add_x, V2.smul_x]; rw [x1]; field_simp; ring
    · simp only [V2.add_y, V2.smul_y]; rw [y1]; field_simp; ring

/-- The parallel segment has the normals of the original one. -/
theorem parallel_tan {offset : ℝ} {v1 v2 w1 w2 : Vertex} (h : ParallelSeg offset v1 v2 w1 w2)
    (hne : ¬ Near (1 / 10 ^ 5) v1.pos v2.pos) {γ : ℝ → V2} (hγ : IsPath v1 v2 γ) {t : ℝ} {n : V2} (hn : LeftNormal γ t n) :
    TanAt w1 w2 (γ t + offset • n) n := by
  refine ⟨hn.1, fun hl => ?_, fun hl c hc => ?_⟩
  · rw [isLine_same h.1] at hl
    obtain ⟨n0, hn0⟩ := C37_normal_exists hne hγ 0
    obtain ⟨n1, hn1⟩ := C37_normal_exists hne hγ 1
    have e0 := (parallel_ends h hγ).1 hn0
    have e1 := (parallel_ends h hγ).2 hn1
    rw [path_line hl hγ] at hn hn0 hn1
    obtain ⟨a0, b0⟩ := leftNormal_line hn0
    obtain ⟨a1, b1⟩ := leftNormal_line hn1
    have en : n0 = n1 := by ext; rw [a0, a1]; rw [b0, b1]
    obtain ⟨-, k, hk, hv⟩ := hn
    rw [velocity_line] at hv
    have hx : v2.pos.x - v1.pos.x = k * n.y := congrArg V2.x hv
    have hy : v2.pos.y - v1.pos.y = -(k * n.x) := congrArg V2.y hv
    refine ⟨k, hk.ne', ?_, ?_⟩
    · rw [e0, e1, en]; simp only [V2.add_x, V2.smul_x]; linarith
    · rw [e0, e1, en]; simp only [V2.add_y, V2.smul_y]; linarith
  · have hl' : ¬ IsLine v1 := fun e => hl ((isLine_same h.1).2 e)
    rw [isCenter_unique (bulge_ne_zero hl) hc, parallel_center h hne hl']
    obtain ⟨κ, -, -, x0, y0⟩ := arc_normal hl' hγ hn (center_ne hl' hne)
    refine ⟨κ - offset, ?_, ?_⟩
    · simp only [V2.add_x, V2.smul_x]; rw [x0]; ring
    · simp only [V2.add_y, V2.smul_y]; rw [y0]; ring

/-- The offset segment of the code is the parallel segment. -/
theorem offsets_parallel {offset : ℝ} {v1 v2 w1 w2 : Vertex} {s : OffsetSegment} (hs : Offsets offset v1 v2 s)
    (h : ParallelSeg offset v1 v2 w1 w2) (hne : ¬ Near (1 / 10 ^ 5) v1.pos v2.pos) (hc : ¬ Collapses offset v1 v2) :
    s.v1 = w1 ∧ s.v2.pos = w2.pos ∧ s.collapsedArc = false := by
  have hcol : s.collapsedArc = false := by rw [← Bool.not_eq_true, hs.collapsed]; exact hc
  obtain ⟨γ, hγ⟩ := path_of v1 v2
  obtain ⟨n0, hn0⟩ := C37_normal_exists hne hγ 0
  obtain ⟨n1, hn1⟩ := C37_normal_exists hne hγ 1
  have e0 := (parallel_ends h hγ).1 hn0
  have e1 := (parallel_ends h hγ).2 hn1
  have p0 := hs.start γ n0 hγ hn0
  have p1 := hs.stop γ n1 hγ hn1
  rw [(path_ends hγ).1] at p0
  rw [(path_ends hγ).2] at p1
  have hb := hs.bulge1
  rw [hcol, if_neg (by simp), ← h.1] at hb
  refine ⟨?_, by rw [p1, e1], hcol⟩
  have hp : s.v1.pos = w1.pos := by rw [p0, e0]
  cases h1 : s.v1; cases w1
  rw [h1] at hb hp
  simp only at hb hp
  rw [hb, hp]

theorem isSeg_closed {p : Polyline} (hc : p.isClosed = true) (h2 : 2 ≤ p.vertexes.length) {i : ℕ} (hi : i < p.vertexes.length) :
    IsSeg p i (vtx p i) (vtx p (if i + 1 = p.vertexes.length then 0 else i + 1)) := by
  rw [isSeg_iff]
  refine ⟨?_, rfl, rfl⟩
  rw [segs_length, if_neg (show ¬ p.size < 2 by unfold Polyline.size; omega), if_pos hc]
  exact hi

theorem nextIdx_lt {n i : ℕ} (hi : i < n) : (if i + 1 = n then 0 else i + 1) < n := by split_ifs <;> omega

theorem next_mod {n i : ℕ} (hi : i < n) : (if i + 1 = n then 0 else i + 1) = (i + 1) % n := by
  split_ifs with h
  · rw [h, Nat.mod_self]
  · rw [Nat.mod_eq_of_lt (by omega)]

theorem add_smul_inj {a n m : V2} {k : ℝ} (hk : k ≠ 0) (h : a + k • n = a + k • m) : n = m := by
  have hx := congrArg V2.x h
  have hy := congrArg V2.y h
  simp only [V2.add_x, V2.add_y, V2.smul_x, V2.smul_y] at hx hy
  ext
  · exact mul_left_cancel₀ hk (by linarith)
  · exact mul_left_cancel₀ hk (by linarith)

section Raw
variable {p q : Polyline} {offset : ℝ}

theorem parallel_seg (h : ParallelTo offset p q) (h2 : 2 ≤ p.vertexes.length) {i : ℕ} (hi : i < p.vertexes.length) :
    ParallelSeg offset (vtx p i) (vtx p (if i + 1 = p.vertexes.length then 0 else i + 1)) (vtx q i)
      (vtx q (if i + 1 = p.vertexes.length then 0 else i + 1)) := by
  have hq := isSeg_closed h.closed' (by rw [h.length]; exact h2) (i := i) (by rw [h.length]; exact hi)
  rw [h.length] at hq
  exact h.segs i _ _ _ _ (isSeg_closed h.closed h2 hi) hq

theorem parallel_bulge (h : ParallelTo offset p q) (h2 : 2 ≤ p.vertexes.length) {i : ℕ} (hi : i < p.vertexes.length) :
    (vtx q i).bulge = (vtx p i).bulge := (parallel_seg h h2 hi).1

theorem parallel_ok (h : ParallelTo offset p q) (h2 : 2 ≤ p.vertexes.length) (hb : BulgesOk p) (ht : NotTiny q) : PlineOk q := by
  intro i w1 w2 hs
  have hi : i < p.vertexes.length := by
    have := (isSeg_iff.1 hs).1
    rw [segs_length, if_neg (show ¬ q.size < 2 by unfold Polyline.size; have := h.length; omega), if_pos h.closed'] at this
    rw [← h.length]; exact this
  refine ⟨?_, fun _ => ?_⟩
  · rw [(isSeg_iff.1 hs).2.1, parallel_bulge h h2 hi]
    exact hb _ (vtx_mem hi)
  · have := ht.apart i w1 w2 hs
    unfold Near at this
    rw [not_and_or, not_lt, not_lt] at this
    rcases this with h | h
    · left; exact le_trans (by norm_num) h
    · right; exact le_trans (by norm_num) h

theorem offsets_seg (h : ParallelTo offset p q) (h2 : 2 ≤ p.vertexes.length) (hr : NoRepeats p)
    (hc : ∀ i v1 v2, IsSeg p i v1 v2 → ¬ Collapses offset v1 v2) {i : ℕ} (hi : i < p.vertexes.length) {s : OffsetSegment}
    (hs : Offsets offset (vtx p i) (vtx p (if i + 1 = p.vertexes.length then 0 else i + 1)) s) :
    s.v1 = vtx q i ∧ s.v2 = vtx q (if i + 1 = p.vertexes.length then 0 else i + 1) ∧ s.collapsedArc = false := by
  have hseg := isSeg_closed h.closed h2 hi
  obtain ⟨a, b, c⟩ := offsets_parallel hs (parallel_seg h h2 hi) (hr _ _ _ hseg) (hc _ _ _ hseg)
  refine ⟨a, ?_, c⟩
  have hb : s.v2.bulge = (vtx q (if i + 1 = p.vertexes.length then 0 else i + 1)).bulge := by
    rw [hs.bulge2, parallel_bulge h h2 (nextIdx_lt hi)]
  cases h1 : s.v2
  cases h3 : vtx q (if i + 1 = p.vertexes.length then 0 else i + 1)
  rw [h1, h3] at b hb
  simp only at b hb
  rw [b, hb]

/-- Consecutive offset segments of a curve with a parallel curve follow each other without a corner. -/
theorem smooth_join (h : ParallelTo offset p q) (ho : offset ≠ 0) (h2 : 2 ≤ p.vertexes.length) (hb : BulgesOk p) (hr : NoRepeats p)
    (ht : NotTiny q) (hc : ∀ i v1 v2, IsSeg p i v1 v2 → ¬ Collapses offset v1 v2) {i : ℕ} (hi : i < p.vertexes.length)
    {s1 s2 : OffsetSegment} (hs1 : Offsets offset (vtx p i) (vtx p (if i + 1 = p.vertexes.length then 0 else i + 1)) s1)
    {j : ℕ} (hj : j = if i + 1 = p.vertexes.length then 0 else i + 1)
    (hs2 : Offsets offset (vtx p j) (vtx p (if j + 1 = p.vertexes.length then 0 else j + 1)) s2) : SmoothJoin s1 s2 := by
  have hjn : j < p.vertexes.length := hj ▸ nextIdx_lt hi
  obtain ⟨a1, b1, -⟩ := offsets_seg h h2 hr hc hi hs1
  obtain ⟨a2, b2, -⟩ := offsets_seg h h2 hr hc hjn hs2
  have h2q : 2 ≤ q.vertexes.length := by rw [h.length]; exact h2
  have q1 := isSeg_closed h.closed' h2q (i := i) (by rw [h.length]; exact hi)
  have q2 := isSeg_closed h.closed' h2q (i := j) (by rw [h.length]; exact hjn)
  have p1 := isSeg_closed h.closed h2 hi
  have p2 := isSeg_closed h.closed h2 hjn
  have pp1 := parallel_seg h h2 hi
  have pp2 := parallel_seg h h2 hjn
  rw [h.length] at q1 q2
  rw [← hj] at b1 q1 p1 pp1
  have hok := parallel_ok h h2 hb ht
  have hl : ∀ {k w1 w2}, IsSeg q k w1 w2 → IsLine w1 → (1 : ℝ) / 10 ^ 8 ≤ dist2 w1.pos w2.pos := by
    intro k w1 w2 hs hl
    have := ht.lines _ _ _ hs hl
    rw [← distance_sq]
    have h0 : (0 : ℝ) ≤ 1 / 10 ^ 4 := by norm_num
    have := pow_le_pow_left₀ h0 this 2
    refine le_trans (le_of_eq ?_) this
    norm_num
  refine ⟨by rw [b1, a2], ?_, ?_, ?_, ?_, ?_, ?_, ?_, ?_⟩
  · obtain ⟨γ1, hγ1⟩ := path_of (vtx p i) (vtx p j)
    obtain ⟨γ2, hγ2⟩ := path_of (vtx p j) (vtx p (if j + 1 = p.vertexes.length then 0 else j + 1))
    obtain ⟨n1, hn1⟩ := C37_normal_exists (hr _ _ _ p1) hγ1 1
    obtain ⟨n2, hn2⟩ := C37_normal_exists (hr _ _ _ p2) hγ2 0
    have e1 := (parallel_ends pp1 hγ1).2 hn1
    have e2 := (parallel_ends pp2 hγ2).1 hn2
    have en : n1 = n2 := add_smul_inj ho (e1.symm.trans e2)
    have t1 := parallel_tan pp1 (hr _ _ _ p1) hγ1 hn1
    have t2 := parallel_tan pp2 (hr _ _ _ p2) hγ2 hn2
    rw [(path_ends hγ1).2, ← e1] at t1
    rw [(path_ends hγ2).1, ← e2] at t2
    refine ⟨n1, ?_, ?_⟩
    · rw [a1, b1, a2]; exact t1
    · rw [a2, b2, en]; exact t2
  · rw [a1, a2]
    refine ht.notBoth i j _ _ _ q1 q2 ?_
    rw [h.length, hj, next_mod hi]
  · rw [a1, b1]; exact hok _ _ _ q1
  · rw [a2, b2]; exact hok _ _ _ q2
  · rw [a2]; exact ht.zero _ (vtx_mem (show j < q.vertexes.length by rw [h.length]; exact hjn))
  · rw [a1, b1]; exact ht.apart _ _ _ q1
  · rw [a1, b1]; exact hl q1
  · rw [a2, b2]; exact hl q2

/-- C80, the raw offset. -/
theorem raw_smooth (h : ParallelTo offset p q) (ho : offset ≠ 0) (h2 : 2 ≤ p.vertexes.length) (hb : BulgesOk p) (hr : NoRepeats p)
    (ht : NotTiny q) (hc : ∀ i v1 v2, IsSeg p i v1 v2 → ¬ Collapses offset v1 v2) : createRawOffsetPline p offset = .ok q := by
  have hlen : (segs p).length = p.vertexes.length := by
    rw [segs_length, if_neg (show ¬ p.size < 2 by unfold Polyline.size; omega), if_pos h.closed]; rfl
  have hq2 : 2 ≤ q.vertexes.length := by rw [h.length]; exact h2
  rcases C38_createRawOffsetPline p offset hb hr with ⟨r, hrun, -⟩ | ⟨-, i, v1, v2, hseg, s, hs, -, hnear⟩
  · rw [hrun]
    congr 1
    obtain ⟨s0, rest, hf, hraw⟩ := C38_rawOffset p offset hb hr h2 hrun
    set l := s0 :: rest with hl
    have hll : l.length = p.vertexes.length := by rw [← hf.length_eq, hlen]
    have hoff : ∀ i (hi : i < l.length), Offsets offset (vtx p i) (vtx p (if i + 1 = p.vertexes.length then 0 else i + 1)) l[i] := by
      intro i hi
      have hi' : i < (segs p).length := by rw [hf.length_eq]; exact hi
      have := hf.get hi' hi
      have hs := isSeg_closed h.closed h2 (i := i) (by omega)
      unfold IsSeg at hs
      rw [List.getElem?_eq_getElem hi'] at hs
      have hs := Option.some.inj hs
      simp only [List.get_eq_getElem] at this
      rw [hs] at this
      exact this
    have hchain : List.IsChain SmoothJoin l := by
      rw [List.isChain_iff_getElem]
      intro i hi
      exact smooth_join h ho h2 hb hr ht hc (by omega) (hoff i (by omega)) (by rw [if_neg (by omega)]) (hoff (i + 1) hi)
    have hv1 : l.map OffsetSegment.v1 = q.vertexes := by
      apply List.ext_getElem
      · rw [List.length_map, hll, h.length]
      · intro i h1 h3
        rw [List.getElem_map, (offsets_seg h h2 hr hc (by rw [← h.length]; exact h3) (hoff i (by simpa using h1))).1]
        unfold vtx
        rw [List.getD_eq_getElem _ _ h3]
    have hne : rest ≠ [] := by
      rintro rfl
      simp [hl] at hll
      omega
    obtain ⟨s1, rest', rfl⟩ := List.exists_cons_of_ne_nil hne
    rcases hraw with ⟨h0, -⟩ | ⟨-, back, r1, r2, r3, hback, -, hj1, hja, -, hcl, hres⟩
    · exact absurd h0 hne
    · have hch := List.isChain_cons_cons.1 hchain
      have e1 := joins_smooth hch.1 (r := ⟨p.isClosed, [s0.v1]⟩) (pre := []) rfl (hj1 s1 rest' rfl)
      have e2 := joinsAll_smooth hch.2 ⟨[s0.v1], s1, rfl, by rw [e1]⟩ (hja hne)
      have e2' : r2 = q := by
        rw [e2, e1]
        simp only [List.tail_cons]
        obtain ⟨qc, qv⟩ := q
        simp only at hv1
        rw [← hv1, hl, h.closed, show qc = true from h.closed']
        simp
      have hlast : ∃ pre, l = pre ++ [back] := by
        rw [List.getLast?_eq_some_iff] at hback
        exact hback
      obtain ⟨pre, hpre⟩ := hlast
      have hpl : pre.length + 1 = p.vertexes.length := by rw [← hll, hpre]; simp
      have hclose : SmoothJoin back s0 := by
        have hb' := hoff pre.length (by omega)
        have h0' := hoff 0 (by omega)
        have eb : l[pre.length]'(by omega) = back := by simp [hpre]
        rw [eb] at hb'
        exact smooth_join h ho h2 hb hr ht hc (by omega) hb' (by rw [if_pos hpl]) h0'
      have hqv : q.vertexes = pre.map OffsetSegment.v1 ++ [back.v1] := by rw [← hv1, hpre]; simp
      have hqv' : q.vertexes = s0.v1 :: s1.v1 :: rest'.map OffsetSegment.v1 := by rw [← hv1, hl]; simp
      rcases hcl with ⟨-, -, pre', last, qq, e, q1, q2, hr2, hjc, hq1, -, hmove, hprune⟩ | ⟨hno, -⟩
      · rw [e2', hqv] at hr2
        obtain ⟨rfl, elast⟩ := List.append_inj' hr2 rfl
        simp only [List.cons.injEq, and_true] at elast
        subst elast
        have ej := joins_smooth hclose (r := ⟨false, [back.v1]⟩) (pre := []) rfl hjc
        simp only [Polyline.mk.injEq, true_and] at ej
        obtain ⟨rfl, ee⟩ := List.append_inj' ej rfl
        simp only [List.cons.injEq, and_true] at ee
        subst ee
        have hq1' : q1 = q := by
          rw [hq1, ← hqv, e2']
        rw [hq1'] at hmove
        have hq2' : q2 = q := by
          obtain ⟨v, rs, w, hv, hw, hcase⟩ := hmove (by rw [e1]; simp)
          rw [hqv'] at hv
          simp only [List.cons.injEq] at hv
          obtain ⟨rfl, rfl⟩ := hv
          have hwv : w = s0.v1 := by
            rcases hcase with ⟨-, rfl⟩ | ⟨-, h0, -⟩ | ⟨-, u, rest2, hu, hst⟩
            · rfl
            · simp at h0
            · simp only [List.cons.injEq] at hu
              obtain ⟨rfl, rfl⟩ := hu
              exact startsAt_start hst
          rw [hw, hwv, ← hqv']
        have hr3 : r3 = q := by
          rw [hq2'] at hprune
          rcases hprune with ⟨v, u, rs, hv, hn, -⟩ | ⟨-, h3⟩
          · exfalso
            have hs := isSeg_closed h.closed' hq2 (i := 0) (by omega)
            rw [if_neg (by omega)] at hs
            refine ht.apart _ _ _ hs ?_
            have : vtx q 0 = v ∧ vtx q (0 + 1) = u := by
              unfold vtx
              rw [hv]
              simp
            rw [this.1, this.2]
            exact hn
          · exact h3
        rw [hres, hr3, if_neg (by omega)]
      · refine absurd ⟨h.closed, ?_⟩ hno
        rw [e2']; omega
  · exfalso
    have hi : i < p.vertexes.length := by rw [← hlen]; exact (isSeg_iff.1 hseg).1
    obtain ⟨-, rfl, rfl⟩ := isSeg_iff.1 hseg
    obtain ⟨a, b, -⟩ := offsets_seg h h2 hr hc hi hs
    have hs' := isSeg_closed h.closed' hq2 (i := i) (by rw [h.length]; exact hi)
    rw [h.length] at hs'
    refine ht.apart _ _ _ hs' ?_
    rw [← a, ← b]
    exact ⟨hnear.1.trans (by norm_num), hnear.2.trans (by norm_num)⟩

end Raw

/-- A point that keeps its distance from the curve passes the distance test. -/
theorem valid_of_notCloser {p : Polyline} {s : SIndex ℝ} (hs : IndexOf (segBoxes p) s) (hok : PlineOk p) {offset : ℝ}
    (ho : 1 / 10 ^ 4 ≤ |offset|) {x : V2} (hn : NotCloser p |offset| x) (hd : ∀ i v1 v2, IsSeg p i v1 v2 → SectorDecided v1 v2 x)
    {b : Bool} (hb : pointValidForOffset p offset s x = .ok b) : b = true := by
  obtain ⟨b', hb', hbi⟩ := pointValid_iff hs hok offset offsetThreshold x
  have : pointValidForOffset p offset s x = pointValidForOffset p offset s x offsetThreshold := rfl
  rw [this, hb'] at hb
  have hb := Except.ok.inj hb
  subst hb
  rw [hbi]
  intro i v1 v2 z hseg _ hz
  have hon : OnSeg v1 v2 z := by
    by_cases hl : IsLine v1
    · unfold closestPointOnSeg at hz
      rw [if_pos (show v1.bulgeIsZero from hl)] at hz
      have hz := Except.ok.inj hz
      obtain ⟨t, t0, t1, e⟩ := (C13_closestPointOnLineSeg v1.pos v2.pos x).1
      rw [onSeg_line hl]
      exact ⟨t, t0, t1, by rw [← hz, e]⟩
    · obtain ⟨z', c, hz', hc, -, -, -, hsec⟩ := C14_closestPointOnSeg (hok _ _ _ hseg) hl x
      rw [hz] at hz'
      have hz' := Except.ok.inj hz'
      subst hz'
      apply hsec
      rcases hd _ _ _ hseg with h | h
      · exact absurd h hl
      · exact Or.inr (h c hc)
  have hge := hn z ⟨i, v1, v2, hseg, hon⟩
  have hsym : dist2 z x = distance x z ^ 2 := by rw [distance_sq]; unfold dist2; ring
  rw [hsym]
  have h0 : (0 : ℝ) < 1 / 10 ^ 4 := by norm_num
  unfold offsetThreshold
  apply pow_lt_pow_left₀ _ (by linarith) two_ne_zero
  linarith

/-- C80. If the closed curve `q`, which does not intersect itself, is parallel to the curve `p`, the offset of `p` is `q`
or nothing: `q` if its first vertex keeps its distance from `p`, nothing if it does not. -/
theorem C80_parallel {std : StdSort} {hash : HashOrder} (inf ninf : ℝ) {p q : Polyline} {offset : ℝ} {first : Vertex}
    (h : ParallelTo offset p q) (h2 : 2 ≤ p.vertexes.length) (ho : 1 / 10 ^ 4 ≤ |offset|)
    (hi : Indexable (codePlatform inf ninf) p) (hj : Indexable (codePlatform inf ninf) q) (hb : BulgesOk p) (hr : NoRepeats p)
    (ht : NotTiny q) (hc : ∀ i v1 v2, IsSeg p i v1 v2 → ¬ Collapses offset v1 v2) (hself : ∀ l, SelfIntersectsOf q l → l = [])
    (hf : q.vertexes.head? = some first) :
    ∃ r, parallelOffset (codePlatform inf ninf) std hash p offset = .ok r ∧ (r = [q] ∨ r = []) ∧
      (NotCloser p |offset| first.pos → (∀ i v1 v2, IsSeg p i v1 v2 → SectorDecided v1 v2 first.pos) → r = [q]) ∧
      (¬ Clear p (|offset| - 1 / 10 ^ 4) first.pos → r = []) := by
  have ho' : offset ≠ 0 := by
    rintro rfl
    rw [abs_zero] at ho
    norm_num at ho
  have hraw := raw_smooth h ho' h2 hb hr ht hc
  have hokq := parallel_ok h h2 hb ht
  have hokp : PlineOk p := by
    intro i v1 v2 hs
    refine ⟨?_, fun _ => ?_⟩
    · rw [(isSeg_iff.1 hs).2.1]
      have hlt := (isSeg_iff.1 hs).1
      rw [segs_length, if_neg (show ¬ p.size < 2 by unfold Polyline.size; omega), if_pos h.closed] at hlt
      exact hb _ (vtx_mem hlt)
    · have := hr i v1 v2 hs
      unfold Near at this
      rw [not_and_or, not_lt, not_lt] at this
      rcases this with h | h
      · left; exact le_trans (by norm_num) h
      · right; exact le_trans (by norm_num) h
  obtain ⟨s, hs, hx⟩ := hi.indexOf
  obtain ⟨s', b, hs', hval, hval1, -⟩ := C39_pointValidForOffset hi hokp offset offsetThreshold (by exact ho) first.pos
  rw [hs] at hs'
  have hs' := Except.ok.inj hs'
  subst hs'
  obtain ⟨rs, hrs, -⟩ := hj.indexOf
  have hsi : allSelfIntersects q [] rs = .ok [] := by
    obtain ⟨l, hl⟩ := self_total hj hokq hrs
    rw [hl, hself l (self_is hj hokq hrs hl)]
  have hq2 : 2 ≤ q.size := by unfold Polyline.size; rw [h.length]; exact h2
  obtain ⟨v', rest, hqv⟩ : ∃ v rest, q.vertexes = v :: rest := by
    cases hq : q.vertexes with
    | nil => rw [hq] at hf; simp at hf
    | cons a t => exact ⟨a, t, rfl⟩
  rw [hqv] at hf
  have hf := Option.some.inj hf
  subst hf
  have hat : q.at 0 = .ok v' := by
    unfold Polyline.at
    rw [hqv]
    rfl
  have hsl := slices_none (pf := codePlatform inf ninf) (std := std) (hash := hash) (p := p) (raw := q) h.closed hq2 hs hrs hsi hat
    (show pointValidForOffset p offset s v'.pos = .ok b from hval)
  have hrun : parallelOffset (codePlatform inf ninf) std hash p offset = .ok (if b = true then [q] else []) := by
    unfold parallelOffset
    rw [if_neg (show ¬ p.size < 2 by unfold Polyline.size; omega), hraw, ok_bind]
    simp only
    rw [if_pos ⟨h.closed, by simp⟩, hsl, ok_bind]
    cases b with
    | false => rfl
    | true =>
      rw [if_pos rfl, if_pos rfl]
      obtain ⟨q', hq', -⟩ := (C40_small (codePlatform inf ninf) std true ((q.size + sizeMax) % 2 ^ 64) sliceJoinThreshold).2
        (wholeSlice q v' true) (by simp [wholeSlice]) rfl
      have e := stitch_whole hq2 hat hq'
      rw [h.closed]
      have hq'' : stitchOffsetSlicesTogether (codePlatform inf ninf) std [wholeSlice q v' true] true ((q.size + sizeMax) % 2 ^ 64) =
        .ok [q'] := hq'
      rw [hq'', e]
      congr 2
      obtain ⟨c, vs⟩ := q
      have : c = true := h.closed'
      rw [this]
  refine ⟨_, hrun, ?_, fun h1 h3 => ?_, fun h1 => ?_⟩
  · cases b <;> simp
  · rw [if_pos (valid_of_notCloser hx hokp ho h1 h3 hval)]
  · rw [if_neg (fun e => h1 (hval1 e))]

/-! ### No self intersects -/

/-- Two arcs that touch where the first one ends. -/
theorem touch_arc_arc {v1 v2 v3 : Vertex} {n : V2} (hn : ¬ Near (1 / 10 ^ 5) v1.pos v2.pos) (ok1 : SegOk v1 v2) (ok2 : SegOk v2 v3)
    (l1 : ¬ IsLine v1) (l2 : ¬ IsLine v2) (t1 : TanAt v1 v2 v2.pos n) (t2 : TanAt v2 v3 v2.pos n)
    (hs : ∀ c d, IsCenter v1 v2 c → IsCenter v2 v3 d → ¬ SameCircles (distance v1.pos c) c (distance v2.pos d) d) :
    consecutivePoints v1 v2 v3 = [] := by
  refine touch_none hn fun res h => ?_
  have a1 := ok1.arcOk l1
  have a2 := ok2.arcOk l2
  have c1 := isCenter_centerOf (v2 := v2) a1.b_ne
  have c2 := isCenter_centerOf (v2 := v3) a2.b_ne
  obtain ⟨k1, x1, y1⟩ := t1.arc l1 _ c1
  obtain ⟨k2, x2, y2⟩ := t2.arc l2 _ c2
  have hns := hs _ _ c1 c2
  have hd1 : dist2 v2.pos (centerOf v1 v2) = distance v1.pos (centerOf v1 v2) ^ 2 := by
    rw [distance_sq]
    conv_lhs => rw [← c1]
    rw [dist2_rot]
  have hd2 : dist2 v2.pos (centerOf v2 v3) = distance v2.pos (centerOf v2 v3) ^ 2 := (distance_sq _ _).symm
  have hne : k1 ≠ k2 := by
    rintro rfl
    have ec : centerOf v1 v2 = centerOf v2 v3 := by
      ext
      · rw [x1, x2]
      · rw [y1, y2]
    apply hns
    have er : distance v1.pos (centerOf v1 v2) = distance v2.pos (centerOf v2 v3) := by
      rw [← abs_of_nonneg (distance_nonneg v1.pos (centerOf v1 v2)), ← abs_of_nonneg (distance_nonneg v2.pos (centerOf v2 v3)),
        ← sq_eq_sq_iff_abs_eq_abs, ← hd1, ← hd2, ec]
    refine ⟨?_, ?_⟩
    · rw [ec]; simp [distance, dist2]
    · rw [er]; simp
  have huniq : ∀ x, OnCircle (distance v1.pos (centerOf v1 v2)) (centerOf v1 v2) x ∧
      OnCircle (distance v2.pos (centerOf v2 v3)) (centerOf v2 v3) x → x = v2.pos := by
    rintro x ⟨m1, m2⟩
    exact tangent_circles t1.unit x1 y1 x2 y2 hne (by rw [hd1]; exact m1) (by rw [hd2]; exact m2)
  rw [arcArc_run a1 ok1.half a2 ok2.half] at h
  have hcc := C20_circle_circle (distance_nonneg v1.pos (centerOf v1 v2)) (distance_nonneg v2.pos (centerOf v2 v3))
    (centerOf v1 v2) (centerOf v2 v3)
  generalize intrCircle2Circle2 (distance v1.pos (centerOf v1 v2)) (centerOf v1 v2)
        (distance v2.pos (centerOf v2 v3)) (centerOf v2 v3) = cr at hcc h
  cases cr with
  | coincident => exact absurd hcc hns
  | noIntersect => exact absurd ⟨hd1, hd2⟩ (hcc.2 v2.pos)
  | two a b =>
    simp only at hcc
    exact absurd ((huniq a ((hcc.2 a).2 (Or.inl rfl))).trans (huniq b ((hcc.2 b).2 (Or.inr rfl))).symm) hcc.1
  | one a =>
    simp only at hcc h
    have ha : a = v2.pos := by
      rcases hcc with ⟨m1, m2, -⟩ | ⟨hno, -⟩
      · exact huniq a ⟨m1, m2⟩
      · exact absurd ⟨hd1, hd2⟩ (hno v2.pos)
    have h := Except.ok.inj h
    rw [← h, ha]
    split_ifs <;> simp

theorem smooth_consecutive {v1 v2 v3 : Vertex} {n : V2} (hn : ¬ Near (1 / 10 ^ 5) v1.pos v2.pos) (ok1 : SegOk v1 v2) (ok2 : SegOk v2 v3)
    (hno : ¬ (IsLine v1 ∧ IsLine v2)) (t1 : TanAt v1 v2 v2.pos n) (t2 : TanAt v2 v3 v2.pos n)
    (g1 : IsLine v1 → 1 / 10 ^ 8 ≤ dist2 v1.pos v2.pos) (g2 : IsLine v2 → 1 / 10 ^ 8 ≤ dist2 v2.pos v3.pos)
    (hs : ¬ IsLine v1 → ¬ IsLine v2 → ∀ c d, IsCenter v1 v2 c → IsCenter v2 v3 d →
      ¬ SameCircles (distance v1.pos c) c (distance v2.pos d) d) : consecutivePoints v1 v2 v3 = [] := by
  by_cases l1 : IsLine v1
  · have l2 : ¬ IsLine v2 := fun h => hno ⟨l1, h⟩
    have a2 := ok2.arcOk l2
    have c2 := isCenter_centerOf (v2 := v3) a2.b_ne
    obtain ⟨k, hk, hx, hy⟩ := t1.line l1
    obtain ⟨κ, x2, y2⟩ := t2.arc l2 _ c2
    refine touch_line_arc hn l1 (g1 l1) l2 ?_ (ok2.distinct l2) c2 ?_
    · rw [← distance_sq]
      have := distance_pos a2.start_ne
      positivity
    · rw [hx, hy, x2, y2]; ring
  · by_cases l2 : IsLine v2
    · have a1 := ok1.arcOk l1
      have c1 := isCenter_centerOf (v2 := v2) a1.b_ne
      obtain ⟨k, hk, hx, hy⟩ := t2.line l2
      obtain ⟨κ, x1, y1⟩ := t1.arc l1 _ c1
      refine touch_arc_line hn l2 (g2 l2) l1 ?_ (ok1.distinct l1) c1 ?_
      · have : dist2 v2.pos (centerOf v1 v2) = dist2 v1.pos (centerOf v1 v2) := by
          conv_lhs => rw [← c1]
          rw [dist2_rot]
        rw [this, ← distance_sq]
        have := distance_pos a1.start_ne
        positivity
      · rw [hx, hy, x1, y1]; ring
    · exact touch_arc_arc hn ok1 ok2 l1 l2 t1 t2 (hs l1 l2)

theorem smooth_selfs {p q : Polyline} {offset : ℝ} (h : ParallelTo offset p q) (ho : offset ≠ 0) (h3 : 3 ≤ p.vertexes.length)
    (hb : BulgesOk p) (hr : NoRepeats p) (ht : NotTiny q) (hc : ∀ i v1 v2, IsSeg p i v1 v2 → ¬ Collapses offset v1 v2)
    (hk : KeepsApart q) {l : List PlineIntersect} (hl : SelfIntersectsOf q l) : l = [] := by
  have h2 : 2 ≤ p.vertexes.length := by omega
  have hokq := parallel_ok h h2 hb ht
  have hlen : (segs q).length = q.vertexes.length := by
    rw [segs_length, if_neg (show ¬ q.size < 2 by unfold Polyline.size; rw [h.length]; omega), if_pos h.closed']; rfl
  obtain ⟨pairs, -, -, hp, rfl⟩ := hl
  have e1 : pairs.flatMap (selfHits q) = [] := by
    rw [List.flatMap_eq_nil_iff]
    rintro ⟨i, j⟩ hij
    obtain ⟨hna, v1, v2, u1, u2, s1, s2, hbox⟩ := (hp i j).1 (Or.inl hij)
    rcases hk.pairs i j _ _ _ _ s1 s2 hna with hno | ⟨hcl, hno⟩
    · exact absurd hbox hno
    · obtain ⟨r, hr, -, -, hrep⟩ := C50_exact (hokq _ _ _ s1) (hokq _ _ _ s2) hcl
      have hemp : reported r = [] := by
        rw [List.eq_nil_iff_forall_not_mem]
        intro x hx
        exact hno x ((hrep x).1 hx)
      unfold IsSeg at s1 s2
      unfold selfHits
      simp only
      rw [s1, s2]
      simp only
      rw [hr]
      simp only
      rw [hemp]
      rfl
  have e2 : consecutiveOf q = (List.range (segs q).length).flatMap (consecutiveHits q) := by
    have hq3 : 3 ≤ q.vertexes.length := by rw [h.length]; exact h3
    obtain ⟨c, vs⟩ := q
    simp only at hq3
    match vs, hq3 with
    | a :: b :: d :: t, _ => cases c <;> rfl
  rw [e1, e2, List.append_nil, List.flatMap_eq_nil_iff]
  intro i hi
  rw [List.mem_range, hlen, h.length] at hi
  obtain ⟨ol, -, hoff⟩ := C37_createUntrimmedOffsetSegments p offset (by omega) hr
  have hlenp : (segs p).length = p.vertexes.length := by
    rw [segs_length, if_neg (show ¬ p.size < 2 by unfold Polyline.size; omega), if_pos h.closed]; rfl
  have hex : ∀ k, k < p.vertexes.length → ∃ s, Offsets offset (vtx p k) (vtx p (if k + 1 = p.vertexes.length then 0 else k + 1)) s := by
    intro k hkn
    have hk' : k < (segs p).length := by rw [hlenp]; exact hkn
    have := hoff.get hk' (by rw [← hoff.length_eq]; exact hk')
    have hs := isSeg_closed h.closed h2 hkn
    unfold IsSeg at hs
    rw [List.getElem?_eq_getElem hk'] at hs
    have hs := Option.some.inj hs
    simp only [List.get_eq_getElem] at this
    rw [hs] at this
    exact ⟨_, this⟩
  set j := if i + 1 = p.vertexes.length then 0 else i + 1 with hjdef
  have hjn : j < p.vertexes.length := nextIdx_lt hi
  obtain ⟨s1, hs1⟩ := hex i hi
  obtain ⟨s2, hs2⟩ := hex j hjn
  have hjoin := smooth_join h ho h2 hb hr ht hc hi hs1 hjdef hs2
  obtain ⟨a1, b1, -⟩ := offsets_seg h h2 hr hc hi hs1
  obtain ⟨a2, b2, -⟩ := offsets_seg h h2 hr hc hjn hs2
  rw [← hjdef] at b1
  have q1 := isSeg_closed h.closed' (by rw [h.length]; exact h2) (i := i) (by rw [h.length]; exact hi)
  have q2 := isSeg_closed h.closed' (by rw [h.length]; exact h2) (i := j) (by rw [h.length]; exact hjn)
  rw [h.length] at q1 q2
  rw [← hjdef] at q1
  obtain ⟨n, t1, t2⟩ := hjoin.tan
  rw [a1, b1, a2] at t1
  rw [a2, b2] at t2
  have hpts : consecutivePoints (vtx q i) (vtx q j) (vtx q (if j + 1 = p.vertexes.length then 0 else j + 1)) = [] := by
    refine smooth_consecutive (n := n) ?_ (hokq _ _ _ q1) (hokq _ _ _ q2) ?_ t1 t2 ?_ ?_ fun l1 l2 => hk.circles i j _ _ _ q1 q2 ?_ l1 l2
    · rw [← a1, ← b1]; exact hjoin.apart
    · rw [← a1, ← a2]; exact hjoin.notBoth
    · rw [← a1, ← b1]; exact hjoin.long1
    · rw [← a2, ← b2]; exact hjoin.long2
    · rw [h.length, hjdef, next_mod hi]
  unfold consecutiveHits
  simp only
  have hj : (if q.isClosed = true ∧ i + 1 = q.vertexes.length then 0 else i + 1) = j := by
    rw [h.length, h.closed', hjdef]
    simp
  rw [hj]
  unfold IsSeg at q1 q2
  rw [q1, q2]
  simp only
  rw [hpts, List.map_nil]

/-- C80 for curves of at least three segments that keep apart from themselves. -/
theorem C80_parallel_simple {std : StdSort} {hash : HashOrder} (inf ninf : ℝ) {p q : Polyline} {offset : ℝ} {first : Vertex}
    (h : ParallelTo offset p q) (h3 : 3 ≤ p.vertexes.length) (ho : 1 / 10 ^ 4 ≤ |offset|)
    (hi : Indexable (codePlatform inf ninf) p) (hj : Indexable (codePlatform inf ninf) q) (hb : BulgesOk p) (hr : NoRepeats p)
    (ht : NotTiny q) (hc : ∀ i v1 v2, IsSeg p i v1 v2 → ¬ Collapses offset v1 v2) (hk : KeepsApart q)
    (hf : q.vertexes.head? = some first) (hn : NotCloser p |offset| first.pos)
    (hd : ∀ i v1 v2, IsSeg p i v1 v2 → SectorDecided v1 v2 first.pos) :
    parallelOffset (codePlatform inf ninf) std hash p offset = .ok [q] := by
  have ho' : offset ≠ 0 := by
    rintro rfl
    rw [abs_zero] at ho
    norm_num at ho
  obtain ⟨r, hr', -, h1, -⟩ := C80_parallel (std := std) (hash := hash) inf ninf h (by omega) ho hi hj hb hr ht hc
    (fun l hl => smooth_selfs h ho' h3 hb hr ht hc hk hl) hf
  rw [hr', h1 hn hd]

end
end Cavc

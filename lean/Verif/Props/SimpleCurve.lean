import Verif.Proofs.SimpleJordan
import Verif.Props.CombineDisc
import Verif.Props.SimplePolygon

/-!
C72: closed polylines with arcs that do not meet themselves wind once around what is inside.
-/
namespace Cavc
open Spec
open scoped Classical
open MeasureTheory Filter Topology
noncomputable section

theorem pline_closed_set {p : Polyline} (hc : p.isClosed = true) (h2 : 2 ≤ p.size) :
    IsClosed {z : ℝ × ℝ | OnPline p (toV z)} := by
  have e : {z : ℝ × ℝ | OnPline p (toV z)} = pathSet p 0 p.size := by
    ext z
    rw [Set.mem_ofPred_eq, onPline_trace hc h2]
    constructor
    · rintro ⟨g, g0, g1, h⟩
      exact ⟨g, ⟨g0, g1.le⟩, by show xy (trace p g) = z; rw [← h, xy_toV]⟩
    · rintro ⟨g, ⟨g0, g1⟩, rfl⟩
      exact (onPline_trace hc h2).1 (trace_onPline hc h2 g0)
  rw [e]
  exact (pathSet_compact le_rfl).isClosed

/-- Near a point that is not on the polyline the winding number is the same. -/
theorem arcW_near {p : Polyline} (hok : PlineOk p) (hc : p.isClosed = true) (h2 : 2 ≤ p.size) {z : ℝ × ℝ}
    (h : ¬ OnPline p (toV z)) : ∀ᶠ y in 𝓝 z, ¬ OnPline p (toV y) ∧ arcW p (toV y) = arcW p (toV z) := by
  have := (pline_closed_set hc h2).isOpen_compl.mem_nhds h
  obtain ⟨ε, ε0, hb⟩ := Metric.mem_nhds_iff.1 this
  filter_upwards [Metric.ball_mem_nhds z ε0] with y hy
  have hoff : ∀ w ∈ Metric.ball z ε, ¬ OnPline p (toV w) := fun w hw => hb hw
  refine ⟨hoff y hy, ?_⟩
  have q := turnAll_const hok hc h2 (convex_ball z ε).isPreconnected hoff hy (Metric.mem_ball_self ε0)
  have e1 := arcW_eq hok hc h2 (hoff y hy)
  have e2 := arcW_eq hok hc h2 (hoff z (Metric.mem_ball_self ε0))
  rw [q, e2] at e1
  exact_mod_cast e1.symm

theorem inside_open {p : Polyline} (hok : PlineOk p) (hc : p.isClosed = true) (h2 : 2 ≤ p.size) :
    IsOpen {z : ℝ × ℝ | ¬ OnPline p ⟨z.1, z.2⟩ ∧ Inside p ⟨z.1, z.2⟩} := by
  rw [isOpen_iff_mem_nhds]
  rintro z ⟨h1, h3⟩
  filter_upwards [arcW_near hok hc h2 h1] with y ⟨hy, he⟩
  exact ⟨hy, (inside_arcW hok hc h2 hy).2 (by rw [he]; exact (inside_arcW hok hc h2 h1).1 h3)⟩

/-- The area is the measure of what is inside. -/
theorem area_inside {p : Polyline} (hok : PlineOk p) (hc : p.isClosed = true) (h2 : 2 ≤ p.size) {s : ℤ} (hs : s = 1 ∨ s = -1)
    (hval : ∀ x, ¬ OnPline p x → arcW p x = 0 ∨ arcW p x = s) :
    ∃ a, getArea p = .ok a ∧ volume {z : ℝ × ℝ | ¬ OnPline p ⟨z.1, z.2⟩ ∧ Inside p ⟨z.1, z.2⟩} ≠ ⊤ ∧
      (volume {z : ℝ × ℝ | ¬ OnPline p ⟨z.1, z.2⟩ ∧ Inside p ⟨z.1, z.2⟩}).toReal = s * a := by
  obtain ⟨a, ha, W, hW, hint, hI⟩ := C61_area_integral p hok hc
  refine ⟨a, ha, ?_⟩
  set T : Set (ℝ × ℝ) := {z : ℝ × ℝ | ¬ OnPline p ⟨z.1, z.2⟩ ∧ Inside p ⟨z.1, z.2⟩} with hT
  have hTm : MeasurableSet T := (inside_open hok hc h2).measurableSet
  have hσ1 : (s : ℝ) * s = 1 := by rcases hs with rfl | rfl <;> norm_num
  have hae : (fun z : ℝ × ℝ => (s : ℝ) * (W z : ℝ)) =ᵐ[volume] T.indicator (fun _ => (1 : ℝ)) := by
    filter_upwards [onPline_null p] with z hz
    have e : W z = arcW p ⟨z.1, z.2⟩ := by
      have := hW z
      rw [getWinding_arcW hok hc h2 hz] at this
      exact (Except.ok.inj this).symm
    rw [Set.indicator_apply, e]
    rcases hval _ hz with h | h
    · rw [if_neg (fun q => (inside_arcW hok hc h2 hz).1 q.2 h), h]; simp
    · rw [if_pos ⟨hz, (inside_arcW hok hc h2 hz).2 (by rw [h]; rcases hs with rfl | rfl <;> norm_num)⟩, h, hσ1]
  have hi1 := hint.const_mul (s : ℝ)
  have hi2 := hi1.congr hae
  rw [integrable_indicator_iff hTm] at hi2
  have hfin : volume T ≠ ⊤ := by
    have := integrableOn_const_iff (μ := volume) (s := T) (C := (1 : ℝ)) |>.1 hi2
    rcases this with h | h
    · norm_num at h
    · exact h.ne
  refine ⟨hfin, ?_⟩
  rw [← hI, ← integral_const_mul, integral_congr_ae hae, integral_indicator hTm, setIntegral_const]
  simp [Measure.real]

theorem leftSide_iff {v1 v2 : Vertex} (h : ¬ IsLine v1 → v1.bulge ≠ 0) {x : V2} :
    (LeftSide v1 v2 x ↔ 0 < leftOf v1 v2 x) ∧ (RightSide v1 v2 x ↔ leftOf v1 v2 x < 0) := by
  unfold LeftSide RightSide leftOf
  by_cases hl : IsLine v1
  · simp only [hl, true_and, not_true_eq_false, false_and, or_false, if_true]
    exact ⟨Iff.rfl, Iff.rfl⟩
  · have hb := h hl
    simp only [hl, false_and, not_false_eq_true, true_and, false_or, if_false, isCenter_iff hb, exists_eq_left]
    by_cases h0 : 0 < v1.bulge
    · simp only [h0, true_and, if_true, not_lt.2 h0.le, false_and, or_false, sub_pos, sub_neg]
    · have h1 : v1.bulge < 0 := lt_of_le_of_ne (not_lt.1 h0) hb
      simp only [h0, false_and, false_or, if_false, h1, true_and, sub_pos, sub_neg]

theorem near_nhds {P : ℝ × ℝ → Prop} {z : V2} (h : ∀ᶠ y in 𝓝 (xy z), P y) : ∃ ρ > 0, ∀ x, Near ρ x z → P (xy x) := by
  obtain ⟨ε, ε0, h⟩ := Metric.eventually_nhds_iff.1 h
  refine ⟨ε, ε0, fun x hx => h ?_⟩
  rw [Prod.dist_eq, max_lt_iff]
  exact ⟨hx.1, hx.2⟩

/-- C72. Every closed polyline of lines and arcs that does not meet itself goes once around what is inside: there
is a direction `s`, 1 for counterclockwise and -1 for clockwise, such that
- `getArea` has the sign of `s`, and its absolute value is the measure of what is inside;
- `getWindingNumber` is `s` or 0 at every point that is not on the polyline;
- beside every segment, away from its ends, the inside is on the left of a counterclockwise polyline and on the
  right of a clockwise one. -/
theorem C72_simple {p : Polyline} (h : SimpleCurve p) : ∃ s : ℤ, (s = 1 ∨ s = -1) ∧
    (∃ a, getArea p = .ok a ∧ 0 < s * a ∧
      volume {z : ℝ × ℝ | ¬ OnPline p ⟨z.1, z.2⟩ ∧ Inside p ⟨z.1, z.2⟩} = ENNReal.ofReal |a|) ∧
    (∀ x, ¬ OnPline p x → getWindingNumber p x = .ok 0 ∨ getWindingNumber p x = .ok s) ∧
    ∀ i v1 v2, IsSeg p i v1 v2 → ∀ t z, 0 < t → t < 1 → AtParam v1 v2 t z → ∃ ρ > 0, ∀ x, Near ρ x z → ¬ OnPline p x →
      (LeftSide v1 v2 x ∧ getWindingNumber p x = .ok (if s = 1 then 1 else 0)) ∨
      (RightSide v1 v2 x ∧ getWindingNumber p x = .ok (if s = 1 then 0 else -1)) := by
  have h2 := h.two'
  obtain ⟨s, hs, K, K', hj, hsK, hside, hval⟩ := h.values
  have hK : K = if s = 1 then 1 else 0 := by rcases hsK with ⟨rfl, rfl⟩ | ⟨rfl, rfl⟩ <;> rfl
  have hK' : K' = if s = 1 then 0 else -1 := by
    rcases hsK with ⟨rfl, rfl⟩ | ⟨rfl, rfl⟩ <;> norm_num <;> omega
  have hv : ∀ x, ¬ OnPline p x → arcW p x = 0 ∨ arcW p x = s := by
    intro x hx
    rcases hval x hx with q | q <;> rw [q] <;> rcases hsK with ⟨rfl, rfl⟩ | ⟨rfl, rfl⟩ <;> omega
  have hseg : ∀ i v1 v2, IsSeg p i v1 v2 → ∀ t z, 0 < t → t < 1 → AtParam v1 v2 t z → ∃ ρ > 0, ∀ x, Near ρ x z → ¬ OnPline p x →
      (LeftSide v1 v2 x ∧ arcW p x = K) ∨ (RightSide v1 v2 x ∧ arcW p x = K') := by
    intro i v1 v2 hseg t z t0 t1 hz
    obtain ⟨hi, -, rfl, rfl⟩ := seg_rv h.closed hseg
    have hok := h.segOk i
    rw [atParam_segPt] at hz
    obtain ⟨ρ, ρ0, hρ⟩ := near_nhds (hside i hi t t0 t1)
    rw [← hz] at hρ
    refine ⟨ρ, ρ0, fun x hx ho => ?_⟩
    obtain ⟨e1, e2⟩ := leftSide_iff (v1 := rv p i) (v2 := rv p (i + 1)) (x := x) (fun hl => bulge_ne_zero hl)
    rw [e1, e2]
    exact hρ x hx ho
  refine ⟨s, hs, ?_, ?_, ?_⟩
  · obtain ⟨a, ha, hfin, hvol⟩ := area_inside h.ok h.closed h2 hs hv
    have hpos : 0 < volume {z : ℝ × ℝ | ¬ OnPline p ⟨z.1, z.2⟩ ∧ Inside p ⟨z.1, z.2⟩} := by
      refine (inside_open h.ok h.closed h2).measure_pos volume ?_
      obtain ⟨⟨y, q, o, l⟩, z, q', o', l'⟩ := h.side_points (j := 0) (by omega) one_half_pos one_half_lt_one
        (hside 0 (by omega) _ one_half_pos one_half_lt_one)
      rcases hsK with ⟨rfl, rfl⟩ | ⟨rfl, rfl⟩
      · refine ⟨y, o, (inside_arcW h.ok h.closed h2 o).2 ?_⟩
        rcases q o with ⟨-, q⟩ | ⟨q, -⟩
        · have q : arcW p (toV y) = 1 := q
          show arcW p (toV y) ≠ 0
          rw [q]; norm_num
        · exact absurd q (not_lt.2 l.le)
      · refine ⟨z, o', (inside_arcW h.ok h.closed h2 o').2 ?_⟩
        rcases q' o' with ⟨q, -⟩ | ⟨-, q⟩
        · exact absurd q (not_lt.2 l'.le)
        · have q : arcW p (toV z) = K' := q
          show arcW p (toV z) ≠ 0
          rw [q]; omega
    have hp : 0 < (s : ℝ) * a := by
      rw [← hvol]
      exact ENNReal.toReal_pos hpos.ne' hfin
    refine ⟨a, ha, hp, ?_⟩
    have habs : |a| = (s : ℝ) * a := by
      rcases hs with rfl | rfl
      · rw [abs_of_pos]
        · simp
        · simpa using hp
      · rw [abs_of_neg]
        · simp
        · simp at hp; linarith
    rw [habs, ← hvol, ENNReal.ofReal_toReal hfin]
  · intro x hx
    rw [getWinding_arcW h.ok h.closed h2 hx]
    rcases hv x hx with q | q
    · exact Or.inl (by rw [q])
    · exact Or.inr (by rw [q])
  · intro i v1 v2 q t z t0 t1 hz
    obtain ⟨ρ, ρ0, hρ⟩ := hseg i v1 v2 q t z t0 t1 hz
    refine ⟨ρ, ρ0, fun x hx ho => ?_⟩
    rw [getWinding_arcW h.ok h.closed h2 ho]
    rcases hρ x hx ho with ⟨q1, q2⟩ | ⟨q1, q2⟩
    · exact Or.inl ⟨q1, by rw [q2, hK]⟩
    · exact Or.inr ⟨q1, by rw [q2, hK']⟩

/-- C72. In the words of C71. -/
theorem C72_goes_once {p : Polyline} (h : SimpleCurve p) : ∃ s, GoesOnce p s := by
  obtain ⟨s, hs, ⟨a, ha, hpos, -⟩, hval, -⟩ := C72_simple h
  refine ⟨s, hs, ?_, fun x hx k hk => ?_⟩
  · obtain ⟨γ, hγ⟩ := exists_path p
    refine ⟨γ, hγ, ?_⟩
    have := C21_getArea p h.closed γ hγ
    rw [ha] at this
    rw [← Except.ok.inj this]
    exact hpos
  · rw [winding_iff h.ok h.closed hx] at hk
    rcases hval x hx with q | q <;> rw [hk] at q <;> have := Except.ok.inj q
    · exact Or.inl this
    · exact Or.inr this

theorem joinedOff_conn {p : Polyline} (hc : p.isClosed = true) (h2 : 2 ≤ p.size) (x : V2) :
    ConnConst p fun z => JoinedOff p x (toV z) := by
  have hsym : ∀ {a b}, Unmet p a b → Unmet p b a := by
    intro a b hc t t0 t1
    have := hc (1 - t) (by linarith) (by linarith)
    rwa [show lerp a b (1 - t) = lerp b a t by ext <;> simp only [lerp] <;> ring] at this
  let _ : TopologicalSpace Prop := ⊥
  have : DiscreteTopology Prop := ⟨rfl⟩
  intro S hS hoff z hz z' hz'
  refine hS.constant (f := fun z => JoinedOff p x (toV z)) ?_ hz hz'
  intro w hw
  refine ContinuousWithinAt.congr_of_eventuallyEq (continuousWithinAt_const (b := JoinedOff p x (toV w))) ?_ rfl
  have := (pline_closed_set hc h2).isOpen_compl.mem_nhds (hoff w hw)
  obtain ⟨ε, ε0, hb⟩ := Metric.mem_nhds_iff.1 this
  filter_upwards [nhdsWithin_le_nhds (Metric.ball_mem_nhds w ε0)] with y hy
  have hun : Unmet p (toV w) (toV y) := by
    intro t t0 t1 ho
    have : xy (lerp (toV w) (toV y) t) ∈ Metric.ball w ε := by
      have := (convex_ball w ε) (Metric.mem_ball_self ε0) hy (a := 1 - t) (b := t) (by linarith) t0 (by ring)
      convert this using 1
      simp only [xy, lerp, toV]
      ext <;> simp <;> ring
    exact hb this ho
  exact propext ⟨fun q => q.tail (hsym hun), fun q => q.tail hun⟩

/-- C72. A closed polyline of lines and arcs that does not meet itself divides the rest of the plane into an inside
and an outside part: two points that are not on it can be joined by a path that does not meet it if and only if
both are inside or both are outside. There are points on both sides. -/
theorem C72_jordan {p : Polyline} (h : SimpleCurve p) :
    (∀ x y, ¬ OnPline p x → ¬ OnPline p y → (JoinedOff p x y ↔ (Inside p x ↔ Inside p y))) ∧
    (∃ x, ¬ OnPline p x ∧ Inside p x) ∧ ∃ x, ¬ OnPline p x ∧ ¬ Inside p x := by
  have h2 := h.two'
  obtain ⟨s, hs, ⟨a, ha, hpos, hvol⟩, hval, -⟩ := C72_simple h
  have hin : ∀ {x}, ¬ OnPline p x → (Inside p x ↔ arcW p x ≠ 0) := fun hx => inside_arcW h.ok h.closed h2 hx
  refine ⟨fun x y hx hy => ⟨fun hr => ?_, fun hxy => ?_⟩, ?_, ?_⟩
  · have : arcW p x = arcW p y := by
      clear hy
      induction hr with
      | refl => rfl
      | @tail b c _ hbc ih =>
        refine ih.trans ?_
        have := h.arcW_conn ((fun u => xy (lerp b c u)) '' Set.Icc 0 1)
          (isPreconnected_Icc.image _ (continuous_lerp b c).continuousOn) (by
            rintro _ ⟨u, hu, rfl⟩
            exact hbc u hu.1 hu.2) (xy b) ⟨0, by simp, by simp only [lerp_zero]⟩ (xy c) ⟨1, by simp, by simp only [lerp_one]⟩
        exact this
    rw [hin hx, hin hy, this]
  · have hW : arcW p x = arcW p y := by
      rw [hin hx, hin hy] at hxy
      have q1 := hval x hx
      have q2 := hval y hy
      rw [getWinding_arcW h.ok h.closed h2 hx] at q1
      rw [getWinding_arcW h.ok h.closed h2 hy] at q2
      simp only [Except.ok.injEq] at q1 q2
      rcases q1 with q | q <;> rcases q2 with q' | q' <;> rw [q, q'] at hxy ⊢ <;>
        rcases hs with rfl | rfl <;> simp at hxy
    have := h.separates (joinedOff_conn h.closed h2 x) hx hy hW
    simp only [toV_xy] at this
    rw [← this]
    exact .refl
  · have hp : 0 < volume {z : ℝ × ℝ | ¬ OnPline p ⟨z.1, z.2⟩ ∧ Inside p ⟨z.1, z.2⟩} := by
      rw [hvol, ENNReal.ofReal_pos]
      refine abs_pos.2 fun h0 => ?_
      rw [h0, mul_zero] at hpos
      exact lt_irrefl _ hpos
    obtain ⟨z, hz1, hz2⟩ := nonempty_of_measure_ne_zero hp.ne'
    exact ⟨_, hz1, hz2⟩
  · obtain ⟨m, hm⟩ := beyond_off h.closed h2
    have ho : ¬ OnPline p ⟨m, 0⟩ := fun ho => lt_irrefl _ (hm _ ho)
    refine ⟨_, ho, fun hi => (hin ho).1 hi ?_⟩
    have := arcW_eq h.ok h.closed h2 ho
    rw [turnAll_right h.ok h.closed h2 (x := ⟨m, 0⟩) hm, zero_div] at this
    exact_mod_cast this.symm

/-- C71. For closed polylines that do not meet themselves nothing else is needed. -/
theorem C71_simple (inf ninf : ℝ) {std : StdSort} {hash : HashOrder} {A B : Polyline}
    (sA : SimpleCurve A) (sB : SimpleCurve B) (hg : CleanMeet A B) (hap : ArcEndsApart A B)
    (hi : Indexable (codePlatform inf ninf) A) (hn : A.vertexes.length * B.vertexes.length ≤ 10 ^ 6)
    (mode : CombineMode) :
    ∃ r, combinePolylines (codePlatform inf ninf) std hash A B mode = .ok r ∧
      (∀ q ∈ r.remaining ++ r.subtracted, q.isClosed = true ∧ PlineOk q ∧
        ∀ x, OnPline q x → OnPline A x ∨ OnPline B x) ∧
      ∀ x, ¬ OnPline A x → ¬ OnPline B x →
        (EvenOdd (r.remaining ++ r.subtracted) x ↔ boolOp mode (Inside A x) (Inside B x)) := by
  obtain ⟨_, gA⟩ := C72_goes_once sA
  obtain ⟨_, gB⟩ := C72_goes_once sB
  exact C71_combinePolylines inf ninf sA.ok sB.ok sA.closed sB.closed hg gA gB hap hi hn mode

/-! ### A disc, and polygons -/

theorem disc5_simple : SimpleCurve disc5 := by
  refine ⟨rfl, disc5_ok, by simp [disc5], ?_, ?_⟩
  · intro i v1 v2 h hn
    rcases disc5_index h with ⟨-, rfl, rfl⟩ | ⟨-, rfl, rfl⟩ <;> norm_num [Near] at hn
  · intro i j v1 v2 u1 u2 x h1 h2 hne o1 o2
    have hlen : disc5.vertexes.length = 2 := rfl
    rw [hlen]
    have key : x.x ^ 2 + x.y ^ 2 = 25 → 0 ≤ x.y → x.y ≤ 0 → x = ⟨5, 0⟩ ∨ x = ⟨-5, 0⟩ := by
      intro h a b
      have hy : x.y = 0 := le_antisymm b a
      rw [hy] at h
      have : (x.x - 5) * (x.x + 5) = 0 := by nlinarith
      rcases mul_eq_zero.1 this with q | q
      · left; ext <;> simp <;> linarith
      · right; ext <;> simp <;> linarith
    rcases disc5_index h1 with ⟨rfl, rfl, rfl⟩ | ⟨rfl, rfl, rfl⟩ <;>
      rcases disc5_index h2 with ⟨rfl, rfl, rfl⟩ | ⟨rfl, rfl, rfl⟩ <;> try exact absurd rfl hne
    · obtain ⟨a, b⟩ := (half_on (Or.inr ⟨rfl, rfl⟩)).1 o1
      obtain ⟨c, d⟩ := (half_on (Or.inl ⟨rfl, rfl⟩)).1 o2
      rcases key a (by linarith) (by linarith) with rfl | rfl
      · exact Or.inl ⟨rfl, rfl⟩
      · exact Or.inr ⟨rfl, rfl⟩
    · obtain ⟨a, b⟩ := (half_on (Or.inr ⟨rfl, rfl⟩)).1 o2
      obtain ⟨c, d⟩ := (half_on (Or.inl ⟨rfl, rfl⟩)).1 o1
      rcases key a (by linarith) (by linarith) with rfl | rfl
      · exact Or.inr ⟨rfl, rfl⟩
      · exact Or.inl ⟨rfl, rfl⟩

/-- A disc: its points inside can all be joined without meeting the circle. -/
example : (∃ x, ¬ OnPline disc5 x ∧ Inside disc5 x) ∧ ∀ x y, ¬ OnPline disc5 x → ¬ OnPline disc5 y →
    Inside disc5 x → Inside disc5 y → JoinedOff disc5 x y := by
  obtain ⟨h1, h2, -⟩ := C72_jordan disc5_simple
  exact ⟨h2, fun x y hx hy ix iy => (h1 x y hx hy).2 (iff_of_true ix iy)⟩

/-- A polygon without very short segments. -/
theorem simplePolygon_curve {p : Polyline} (h : SimplePolygon p)
    (hd : ∀ i v1 v2, IsSeg p i v1 v2 → ¬ Near (1 / 10 ^ 8) v1.pos v2.pos) : SimpleCurve p :=
  ⟨h.closed, lines_ok h.lines, h.two, hd, h.apart⟩

/-- C71 for the disc and a rectangle, with what they are only known not to meet themselves. -/
example (inf ninf : ℝ) (std : StdSort) (hash : HashOrder) (mode : CombineMode) :
    ∃ r, combinePolylines (codePlatform inf ninf) std hash disc5 (rect 3 (-8) 10 8) mode = .ok r ∧
      ∀ x, ¬ OnPline disc5 x → ¬ OnPline (rect 3 (-8) 10 8) x →
        (EvenOdd (r.remaining ++ r.subtracted) x ↔
          boolOp mode (Inside disc5 x) (Inside (rect 3 (-8) 10 8) x)) := by
  have hr : SimpleCurve (rect 3 (-8) 10 8) := by
    refine simplePolygon_curve (rect_simple (by norm_num) (by norm_num)) fun i v1 v2 h hn => ?_
    rcases rect_seg h with ⟨-, rfl, rfl⟩ | ⟨-, rfl, rfl⟩ | ⟨-, rfl, rfl⟩ | ⟨-, rfl, rfl⟩ <;> norm_num [Near] at hn
  obtain ⟨r, h1, -, h3⟩ := C71_simple inf ninf (std := std) (hash := hash) disc5_simple hr disc5_clean
    disc5_apart (disc5_indexable inf ninf) (by simp [disc5, rect]) mode
  exact ⟨r, h1, h3⟩

end
end Cavc

import Verif.Proofs.ArcEdges
import Verif.Proofs.SimpleJordan
import Mathlib.Topology.Connected.Clopen
import Mathlib.Analysis.Convex.PathConnected

/-! Segments around a region: when the angle they turn about a point jumps, everywhere but at finitely many points,
just as the region is left or entered, as many of them start as end in each point. -/
namespace Cavc
open Spec
open scoped Classical
open Filter Topology MeasureTheory
noncomputable section

/-- The point is on none of the segments. -/
def eOff (es : List (Vertex × V2)) (x : V2) : Prop := ∀ e ∈ es, ¬ eOn x e

/-- How often the segments turn about a point, less `σ` in the region. -/
def eRest (es : List (Vertex × V2)) (D : V2 → Prop) (σ : ℝ) (x : V2) : ℝ :=
  eTurns es x / (2 * Real.pi) - σ * (if D x then 1 else 0)

/-- Around all points but those of `X` this does not jump. -/
def NoJumps (es : List (Vertex × V2)) (D : V2 → Prop) (σ : ℝ) (X : Set V2) : Prop :=
  ∀ z, z ∉ X → ∃ G : ℝ × ℝ → ℝ, ContinuousAt G (xy z) ∧
    ∀ᶠ x in 𝓝 (xy z), eOff es (toV x) → eRest es D σ (toV x) = G x

theorem eOff_dense (es : List (Vertex × V2)) : Dense {x : ℝ × ℝ | eOff es (toV x)} := by
  have h : ∀ e ∈ es.toFinset, ∀ᵐ z : ℝ × ℝ, ¬ eOn (toV z) e := fun e _ => onSeg_null _ _
  rw [← Finset.eventually_all] at h
  refine Measure.dense_of_ae (μ := volume) ?_
  filter_upwards [h] with x hx e he
  exact hx e (List.mem_toFinset.2 he)

/-- A function that is constant around each point of a connected set, off a set without inner points, is constant. -/
theorem glue_const {S : Set (ℝ × ℝ)} (hS : IsPreconnected S) {O : ℝ × ℝ → Prop} (hO : Dense {x | O x})
    {f : ℝ × ℝ → ℝ} (h : ∀ z ∈ S, ∃ c, ∀ᶠ x in 𝓝 z, O x → f x = c) : ∃ C, ∀ x ∈ S, O x → f x = C := by
  choose! g hg using h
  have key : ∀ x ∈ S, ∀ y ∈ S, g x = g y := by
    intro x hx y hy
    refine hS.induction₂ (fun a b => g a = g b) ?_ (fun a b c _ _ _ h1 h2 => h1.trans h2) (fun a b _ _ h => h.symm) hx hy
    intro z hz
    have h1 := eventually_eventually_nhds.2 (hg z hz)
    filter_upwards [mem_nhdsWithin_of_mem_nhds h1, self_mem_nhdsWithin] with y hy1 hyS
    have h2 : ∀ᶠ w in 𝓝 y, (O w → f w = g z) ∧ (O w → f w = g y) := Filter.Eventually.and hy1 (hg y hyS)
    obtain ⟨U, hU, hUo, hyU⟩ := eventually_nhds_iff.1 h2
    obtain ⟨w, hw, hwO⟩ := hO.inter_open_nonempty U hUo ⟨y, hyU⟩
    exact ((hU w hw).1 hwO).symm.trans ((hU w hw).2 hwO)
  by_cases hne : S.Nonempty
  · obtain ⟨x0, hx0⟩ := hne
    exact ⟨g x0, fun x hx ho => ((hg x hx).self_of_nhds ho).trans (key x hx x0 hx0)⟩
  · exact ⟨0, fun x hx => absurd ⟨x, hx⟩ hne⟩

/-! ### Angles -/

theorem coe_polarAngle (z : ℂ) : (polarAngle z : Real.Angle) = (Complex.arg z : Real.Angle) := by
  unfold polarAngle
  split_ifs
  · rw [Real.Angle.coe_add, Real.Angle.coe_two_pi, add_zero]
  · rfl

theorem eTurn_angle {e : Vertex × V2} (hok : eOk e) {x : V2} (h : ¬ eOn x e) :
    (eTurn x e : Real.Angle) = (Complex.arg (from' x e.2) : Real.Angle) - (Complex.arg (from' x e.1.pos) : Real.Angle) := by
  obtain ⟨k, -, hk⟩ := seg_turn hok h (isPath_segPt.2 rfl)
  rw [turning_segPt] at hk
  unfold eTurn
  rw [hk, ← coe_polarAngle, ← coe_polarAngle, ← Real.Angle.coe_sub, Real.Angle.angle_eq_iff_two_pi_dvd_sub]
  exact ⟨k, by ring⟩

theorem eOff_cons {e : Vertex × V2} {es : List (Vertex × V2)} {x : V2} : eOff (e :: es) x ↔ ¬ eOn x e ∧ eOff es x := by
  unfold eOff; simp

theorem eTurns_angle : ∀ {es : List (Vertex × V2)}, (∀ e ∈ es, eOk e) → ∀ {x : V2}, eOff es x →
    (eTurns es x : Real.Angle) = ((es.map fun e => e.2).map fun c => (Complex.arg (from' x c) : Real.Angle)).sum -
      ((es.map fun e => e.1.pos).map fun c => (Complex.arg (from' x c) : Real.Angle)).sum
  | [], _, x, _ => by simp [eTurns]
  | e :: es, hok, x, h => by
    rw [eOff_cons] at h
    rw [eTurns_cons, Real.Angle.coe_add, eTurn_angle (hok e (by simp)) h.1,
      eTurns_angle (fun f hf => hok f (by simp [hf])) h.2]
    simp only [List.map_cons, List.sum_cons]
    abel

/-- If as many segments start as end in each point, they turn by full turns. -/
theorem eTurns_int {es : List (Vertex × V2)} (hok : ∀ e ∈ es, eOk e)
    (hb : (es.map fun e => e.1.pos).Perm (es.map fun e => e.2)) {x : V2} (h : eOff es x) :
    ∃ k : ℤ, eTurns es x / (2 * Real.pi) = k := by
  have h1 := eTurns_angle hok h
  rw [(hb.map _).sum_eq, sub_self, ← Real.Angle.coe_zero, Real.Angle.angle_eq_iff_two_pi_dvd_sub] at h1
  obtain ⟨k, hk⟩ := h1
  refine ⟨k, ?_⟩
  rw [sub_zero] at hk
  rw [hk]
  field_simp

/-! ### Around a point -/

/-- The direction to another point changes continuously around a point. -/
theorem angle_other {c c' : V2} (hne : c' ≠ c) {ρ : ℝ} (hρ : ρ ≤ dist2 c' c) : ∃ (κ : ℝ) (A : ℝ × ℝ → ℝ),
    (∀ z : ℝ × ℝ, dist2 (toV z) c < ρ → ContinuousAt A z) ∧ ∀ z : ℝ × ℝ, dist2 (toV z) c < ρ →
      (Complex.arg (from' (toV z) c') : Real.Angle) = ((A z + κ : ℝ) : Real.Angle) := by
  have h0 : from' c c' ≠ 0 := from_ne hne
  refine ⟨Complex.arg (from' c c'), fun z => Complex.arg (from' (toV z) c' / from' c c'), ?_, ?_⟩
  · intro z hz
    have hc : Continuous fun z : ℝ × ℝ => from' (toV z) c' / from' c c' := by
      have : Continuous fun z : ℝ × ℝ => from' (toV z) c' := by
        have : (fun z : ℝ × ℝ => from' (toV z) c') = fun z => ((c'.x - z.1 : ℝ) : ℂ) + ((c'.y - z.2 : ℝ) : ℂ) * Complex.I := by
          funext z
          apply Complex.ext <;> simp [from', toV]
        rw [this]
        fun_prop
      exact this.div_const _
    refine ContinuousAt.comp (g := Complex.arg) (Complex.continuousAt_arg ?_) hc.continuousAt
    rw [Complex.mem_slitPlane_iff]
    left
    rw [Complex.div_re]
    have hn : 0 < Complex.normSq (from' c c') := Complex.normSq_pos.2 h0
    rw [← add_div]
    apply div_pos _ hn
    simp only [from', toV]
    simp only [dist2, toV] at hz hρ
    nlinarith [sq_nonneg (c'.x - c.x - (z.1 - c.x)), sq_nonneg (c'.y - c.y - (z.2 - c.y))]
  · intro z hz
    have h1 : from' (toV z) c' ≠ 0 := from_ne (by
      rintro rfl
      linarith)
    rw [Real.Angle.coe_add, Complex.arg_div_coe_angle h1 h0, sub_add_cancel]

/-- The direction to the point itself. -/
theorem angle_self {c x : V2} (h : x ≠ c) :
    (Complex.arg (from' x c) : Real.Angle) = ((Complex.arg (from' c x) + Real.pi : ℝ) : Real.Angle) := by
  have : from' x c = -from' c x := by apply Complex.ext <;> simp [from']
  rw [this, Complex.arg_neg_coe_angle (from_ne h), Real.Angle.coe_add]

/-- The directions to some points. -/
theorem angles_around {c : V2} {ρ : ℝ} : ∀ {cs : List V2}, (∀ c' ∈ cs, c' ≠ c → ρ ≤ dist2 c' c) →
    ∃ (κ : ℝ) (A : ℝ × ℝ → ℝ), (∀ z : ℝ × ℝ, dist2 (toV z) c < ρ → ContinuousAt A z) ∧
      ∀ z : ℝ × ℝ, dist2 (toV z) c < ρ → toV z ≠ c →
      (cs.map fun c' => (Complex.arg (from' (toV z) c') : Real.Angle)).sum =
        ((cs.count c * Complex.arg (from' c (toV z)) + A z + κ : ℝ) : Real.Angle)
  | [], _ => ⟨0, fun _ => 0, fun _ _ => continuousAt_const, fun z _ _ => by simp⟩
  | c' :: cs, h => by
    obtain ⟨κ, A, hA, hs⟩ := angles_around (cs := cs) fun d hd => h d (by simp [hd])
    by_cases hc : c' = c
    · refine ⟨κ + Real.pi, A, hA, fun z hz hne => ?_⟩
      rw [List.map_cons, List.sum_cons, hs z hz hne, hc, angle_self hne, List.count_cons_self, ← Real.Angle.coe_add]
      congr 1
      push_cast
      ring
    · obtain ⟨κ', A', hA', hs'⟩ := angle_other hc (h c' (by simp) hc)
      refine ⟨κ + κ', fun z => A z + A' z, fun z hz => (hA z hz).add (hA' z hz), fun z hz hne => ?_⟩
      rw [List.map_cons, List.sum_cons, hs z hz hne, hs' z hz, List.count_cons_of_ne hc, ← Real.Angle.coe_add]
      congr 1
      ring

theorem eTurns_around {es : List (Vertex × V2)} (hok : ∀ e ∈ es, eOk e) {c : V2} {ρ : ℝ}
    (hρ : ∀ e ∈ es, (e.2 ≠ c → ρ ≤ dist2 e.2 c) ∧ (e.1.pos ≠ c → ρ ≤ dist2 e.1.pos c)) :
    ∃ (κ : ℝ) (A : ℝ × ℝ → ℝ), (∀ z : ℝ × ℝ, dist2 (toV z) c < ρ → ContinuousAt A z) ∧
      ∀ z : ℝ × ℝ, dist2 (toV z) c < ρ → toV z ≠ c → eOff es (toV z) → ∃ k : ℤ,
        eTurns es (toV z) = (((es.map fun e => e.2).count c : ℝ) - (es.map fun e => e.1.pos).count c) *
          Complex.arg (from' c (toV z)) + A z + κ + 2 * Real.pi * k := by
  obtain ⟨κ1, A1, hA1, h1⟩ := angles_around (cs := es.map fun e => e.2) (c := c) (ρ := ρ) (by
    intro c' hc'
    obtain ⟨e, he, rfl⟩ := List.mem_map.1 hc'
    exact (hρ e he).1)
  obtain ⟨κ2, A2, hA2, h2⟩ := angles_around (cs := es.map fun e => e.1.pos) (c := c) (ρ := ρ) (by
    intro c' hc'
    obtain ⟨e, he, rfl⟩ := List.mem_map.1 hc'
    exact (hρ e he).2)
  refine ⟨κ1 - κ2, fun z => A1 z - A2 z, fun z hz => (hA1 z hz).sub (hA2 z hz), fun z hz hne ho => ?_⟩
  have h3 := eTurns_angle hok ho
  rw [h1 z hz hne, h2 z hz hne, ← Real.Angle.coe_sub, Real.Angle.angle_eq_iff_two_pi_dvd_sub] at h3
  obtain ⟨k, hk⟩ := h3
  refine ⟨k, ?_⟩
  linarith

/-! ### A disc without a ray -/

/-- The disc of squared radius `ρ` about `c` without the ray to the left. -/
def slitDisc (c : V2) (ρ : ℝ) : Set (ℝ × ℝ) :=
  {z | dist2 (toV z) c < ρ ∧ (c.x < z.1 ∨ z.2 ≠ c.y)}

theorem slitDisc_connected (c : V2) {ρ : ℝ} (hρ : 0 < ρ) : IsPreconnected (slitDisc c ρ) := by
  have hs := Real.sqrt_pos.2 hρ
  have hq := Real.sq_sqrt hρ.le
  set s := Real.sqrt ρ with hsd
  have h0 : (c.x + s / 2, c.y) ∈ slitDisc c ρ := by
    refine ⟨?_, Or.inl (by simp; linarith)⟩
    simp only [dist2, toV]
    nlinarith
  suffices hst : StarConvex ℝ (c.x + s / 2, c.y) (slitDisc c ρ) from (hst.isPathConnected h0).isConnected.isPreconnected
  intro z hz a b ha hb hab
  obtain ⟨h1, h2⟩ := hz
  have ea : a = 1 - b := by linarith
  subst ea
  refine ⟨?_, ?_⟩
  · simp only [dist2, toV, Prod.fst_add, Prod.smul_fst, smul_eq_mul, Prod.snd_add, Prod.smul_snd] at h1 ⊢
    set X := z.1 - c.x
    set Y := z.2 - c.y
    have e1 : (1 - b) * (c.x + s / 2) + b * z.1 - c.x = (1 - b) * (s / 2) + b * X := by simp only [X]; ring
    have e2 : (1 - b) * c.y + b * z.2 - c.y = b * Y := by simp only [Y]; ring
    rw [e1, e2]
    have h3 : ((1 - b) * (s / 2) + b * X) ^ 2 + (b * Y) ^ 2 ≤ (1 - b) * (s / 2) ^ 2 + b * (X ^ 2 + Y ^ 2) := by
      nlinarith [mul_nonneg (mul_nonneg ha hb) (sq_nonneg (s / 2 - X)), mul_nonneg (mul_nonneg ha hb) (sq_nonneg Y)]
    have h4 : (s / 2) ^ 2 < ρ := by nlinarith
    rcases hb.eq_or_lt with hb0 | hb0
    · rw [← hb0] at h3 ⊢
      linarith
    · nlinarith
  · simp only [Prod.fst_add, Prod.smul_fst, smul_eq_mul, Prod.snd_add, Prod.smul_snd]
    by_cases hb0 : b = 0
    · left; rw [hb0]; linarith
    · rcases h2 with h2 | h2
      · left
        have : 0 < b * (z.1 - c.x) := mul_pos (lt_of_le_of_ne hb (Ne.symm hb0)) (by linarith)
        nlinarith
      · right
        intro he
        apply h2
        have : b * (z.2 - c.y) = 0 := by linarith
        rcases mul_eq_zero.1 this with h | h
        · exact absurd h hb0
        · linarith

theorem arg_continuousAt {c : V2} {z : ℝ × ℝ} (h : c.x < z.1 ∨ z.2 ≠ c.y) :
    ContinuousAt (fun z : ℝ × ℝ => Complex.arg (from' c (toV z))) z := by
  have hc : Continuous fun z : ℝ × ℝ => from' c (toV z) := by
    have : (fun z : ℝ × ℝ => from' c (toV z)) = fun z => ((z.1 - c.x : ℝ) : ℂ) + ((z.2 - c.y : ℝ) : ℂ) * Complex.I := by
      funext z
      apply Complex.ext <;> simp [from', toV]
    rw [this]
    fun_prop
  refine ContinuousAt.comp (g := Complex.arg) (Complex.continuousAt_arg ?_) hc.continuousAt
  rw [Complex.mem_slitPlane_iff]
  simp only [from', toV]
  rcases h with h | h
  · left; linarith
  · right; intro he; apply h; linarith

theorem isOpen_slitDisc (c : V2) (ρ : ℝ) : IsOpen (slitDisc c ρ) := by
  have h1 : Continuous fun z : ℝ × ℝ => dist2 (toV z) c := by unfold dist2 toV; fun_prop
  have h2 : slitDisc c ρ = {z | dist2 (toV z) c < ρ} ∩ ({z | c.x < z.1} ∪ {z | z.2 ≠ c.y}) := rfl
  rw [h2]
  exact (isOpen_lt h1 continuous_const).inter ((isOpen_lt continuous_const continuous_fst).union
    (isOpen_ne_fun continuous_snd continuous_const))

theorem arg_above {c x : V2} (h1 : x.x < c.x) (h2 : c.y < x.y) : Real.pi / 2 < Complex.arg (from' c x) := by
  have h3 : ¬ |Complex.arg (from' c x)| ≤ Real.pi / 2 := by
    rw [Complex.abs_arg_le_pi_div_two_iff]
    simp only [from']
    linarith
  rwa [abs_of_nonneg (Complex.arg_nonneg_iff.2 (by simp only [from']; linarith)), not_le] at h3

theorem arg_below {c x : V2} (h1 : x.x < c.x) (h2 : x.y < c.y) : Complex.arg (from' c x) < -(Real.pi / 2) := by
  have h3 : ¬ |Complex.arg (from' c x)| ≤ Real.pi / 2 := by
    rw [Complex.abs_arg_le_pi_div_two_iff]
    simp only [from']
    linarith
  rw [abs_of_neg (Complex.arg_neg_iff.2 (by simp only [from']; linarith)), not_le] at h3
  linarith

/-- Some distance from a point to finitely many other ones. -/
theorem exists_gap (c : V2) {X : Set V2} (hX : X.Finite) : ∃ ρ > 0, ∀ x ∈ X, x ≠ c → ρ ≤ dist2 x c := by
  induction X, hX using Set.Finite.induction_on with
  | empty => exact ⟨1, one_pos, fun x hx => absurd hx (Set.notMem_empty x)⟩
  | @insert a S _ _ ih =>
    obtain ⟨ρ, hρ, h⟩ := ih
    by_cases ha : a = c
    · refine ⟨ρ, hρ, fun x hx hne => ?_⟩
      rcases Set.mem_insert_iff.1 hx with rfl | hx
      · exact absurd ha hne
      · exact h x hx hne
    · refine ⟨min ρ (dist2 a c), lt_min hρ (dist2_pos ha), fun x hx hne => ?_⟩
      rcases Set.mem_insert_iff.1 hx with rfl | hx
      · exact min_le_right _ _
      · exact (min_le_left _ _).trans (h x hx hne)

/-- As many segments start as end in each point. -/
theorem NoJumps.balanced {es : List (Vertex × V2)} {D : V2 → Prop} {σ : ℝ} {X : Set V2} (h : NoJumps es D σ X)
    (hX : X.Finite) (hσ : σ = 1 ∨ σ = -1) (hok : ∀ e ∈ es, eOk e) :
    (es.map fun e => e.1.pos).Perm (es.map fun e => e.2) := by
  rw [List.perm_iff_count]
  intro c
  have hpi := Real.pi_pos
  obtain ⟨ρ, hρ, hgap⟩ := exists_gap c (X := X ∪ ({x | x ∈ es.map fun e => e.2} ∪ {x | x ∈ es.map fun e => e.1.pos}))
    (hX.union ((List.finite_toSet _).union (List.finite_toSet _)))
  obtain ⟨κ, A, hA, hS⟩ := eTurns_around hok (c := c) (ρ := ρ) fun e he =>
    ⟨hgap _ (Or.inr (Or.inl (List.mem_map.2 ⟨e, he, rfl⟩))), hgap _ (Or.inr (Or.inr (List.mem_map.2 ⟨e, he, rfl⟩)))⟩
  set m : ℝ := ((es.map fun e => e.2).count c : ℝ) - (es.map fun e => e.1.pos).count c with hm
  have hXc : ∀ z : ℝ × ℝ, dist2 (toV z) c < ρ → toV z ≠ c → toV z ∉ X := fun z hz hne hx =>
    absurd (hgap _ (Or.inl hx) hne) (not_le.2 hz)
  have hdn := eOff_dense es
  -- the integer part
  set f : ℝ × ℝ → ℝ := fun z => eRest es D σ (toV z) - (m * Complex.arg (from' c (toV z)) + A z + κ) / (2 * Real.pi) with hf
  have hint : ∀ z : ℝ × ℝ, dist2 (toV z) c < ρ ∧ toV z ≠ c ∧ eOff es (toV z) → ∃ k : ℤ, f z = k := by
    rintro z ⟨h1, h2, h3⟩
    obtain ⟨k, hk⟩ := hS z h1 h2 h3
    simp only [hf, eRest]
    rw [hk]
    have e1 : ∀ d : ℝ, (m * Complex.arg (from' c (toV z)) + A z + κ + 2 * Real.pi * k) / (2 * Real.pi) - d -
        (m * Complex.arg (from' c (toV z)) + A z + κ) / (2 * Real.pi) = k - d := by
      intro d; field_simp; ring
    rw [e1]
    by_cases hD : D (toV z)
    · rw [if_pos hD, mul_one]
      rcases hσ with h | h <;> rw [h]
      · exact ⟨k - 1, by push_cast; ring⟩
      · exact ⟨k + 1, by push_cast; ring⟩
    · rw [if_neg hD, mul_zero, sub_zero]
      exact ⟨k, rfl⟩
  have hslit : ∀ z ∈ slitDisc c ρ, toV z ≠ c := by
    rintro z ⟨-, h | h⟩ he
    · rw [← he] at h; exact lt_irrefl _ h
    · rw [← he] at h; exact h rfl
  obtain ⟨C, hC⟩ : ∃ C, ∀ z ∈ slitDisc c ρ, eOff es (toV z) → f z = C := by
    refine glue_const (slitDisc_connected c hρ) hdn fun z hz => ?_
    obtain ⟨G, hG, hev⟩ := h (toV z) (hXc z hz.1 (hslit z hz))
    rw [xy_toV] at hG hev
    have hin := (isOpen_slitDisc c ρ).mem_nhds hz
    obtain ⟨d, hd⟩ := int_local (z := z) (D := f) (O := fun x => x ∈ slitDisc c ρ ∧ eOff es (toV x))
      (G := fun x => G x - (m * Complex.arg (from' c (toV x)) + A x + κ) / (2 * Real.pi))
      (hG.sub ((((arg_continuousAt hz.2).const_mul m).add (hA z hz.1)).add_const κ |>.div_const _))
      (by
        filter_upwards [hev] with x hx ho
        simp only [hf]
        rw [hx ho.2])
      (fun x ho => hint x ⟨ho.1.1, hslit x ho.1, ho.2⟩)
    refine ⟨d, ?_⟩
    filter_upwards [hd, hin] with x h1 h2 ho
    exact h1 ⟨h2, ho⟩
  -- the two sides of the ray
  have hs := Real.sqrt_pos.2 hρ
  have hq := Real.sq_sqrt hρ.le
  set s := Real.sqrt ρ with hsd
  set z0 : ℝ × ℝ := (c.x - s / 2, c.y) with hz0
  have hd0 : dist2 (toV z0) c < ρ := by
    simp only [dist2, toV, hz0]; nlinarith
  obtain ⟨G, hG, hev⟩ := h (toV z0) (hXc z0 hd0 (by
    intro he
    have := congrArg V2.x he
    simp only [toV, hz0] at this
    linarith))
  rw [xy_toV] at hG hev
  have hdist : Continuous fun z : ℝ × ℝ => dist2 (toV z) c := by unfold dist2 toV; fun_prop
  have n1 := hdist.continuousAt.eventually (gt_mem_nhds hd0)
  have n2 : ∀ᶠ z : ℝ × ℝ in 𝓝 z0, z.1 < c.x :=
    continuous_fst.continuousAt.eventually (gt_mem_nhds (by simp only [hz0]; linarith))
  have n3 : ∀ᶠ z in 𝓝 z0, |G z - G z0| < 1 / 8 := by
    have := Metric.continuousAt_iff'.1 hG (1 / 8) (by norm_num)
    simpa [Real.dist_eq] using this
  have n4 : ∀ᶠ z in 𝓝 z0, |A z - A z0| < 1 / 8 := by
    have := Metric.continuousAt_iff'.1 (hA z0 hd0) (1 / 8) (by norm_num)
    simpa [Real.dist_eq] using this
  obtain ⟨U, hU, hUo, hzU⟩ := eventually_nhds_iff.1 (n1.and (n2.and (n3.and (n4.and hev))))
  have hside : ∀ τ : ℝ, τ = 1 ∨ τ = -1 → ∃ z ∈ U, 0 < τ * (z.2 - c.y) ∧ eOff es (toV z) := by
    intro τ hτ
    have ho : IsOpen (U ∩ {z : ℝ × ℝ | 0 < τ * (z.2 - c.y)}) := hUo.inter (isOpen_lt continuous_const (by fun_prop))
    have hcl : ∃ z, z ∈ U ∩ {z : ℝ × ℝ | 0 < τ * (z.2 - c.y)} := by
      obtain ⟨ε, hε, hb⟩ := Metric.isOpen_iff.1 hUo z0 hzU
      refine ⟨(z0.1, z0.2 + τ * (ε / 2)), hb ?_, ?_⟩
      · rw [Metric.mem_ball, Prod.dist_eq]
        simp only [dist_self, Real.dist_eq, add_sub_cancel_left]
        rcases hτ with h | h <;> rw [h] <;> simp [abs_of_pos (half_pos hε)] <;> linarith
      · simp only [Set.mem_ofPred_eq, hz0]
        rcases hτ with h | h <;> rw [h] <;> nlinarith
    obtain ⟨z, hz, hzo⟩ := hdn.inter_open_nonempty _ ho hcl
    exact ⟨z, hz.1, hz.2, hzo⟩
  obtain ⟨z1, u1, p1, o1⟩ := hside 1 (Or.inl rfl)
  obtain ⟨z2, u2, p2, o2⟩ := hside (-1) (Or.inr rfl)
  obtain ⟨a1, a2, a3, a4, a5⟩ := hU z1 u1
  obtain ⟨b1, b2, b3, b4, b5⟩ := hU z2 u2
  have y1 : c.y < z1.2 := by linarith
  have y2 : z2.2 < c.y := by linarith
  have c1 := hC z1 ⟨a1, Or.inr y1.ne'⟩ o1
  have c2 := hC z2 ⟨b1, Or.inr y2.ne⟩ o2
  simp only [hf] at c1 c2
  rw [a5 o1] at c1
  rw [b5 o2] at c2
  have g1 := arg_above (c := c) (x := toV z1) a2 y1
  have g2 := arg_below (c := c) (x := toV z2) b2 y2
  set α1 := Complex.arg (from' c (toV z1))
  set α2 := Complex.arg (from' c (toV z2))
  have hmm : m * (α1 - α2) = 2 * Real.pi * (G z1 - G z2) - (A z1 - A z2) := by
    field_simp at c1 c2
    linarith
  rw [abs_lt] at a3 a4 b3 b4
  have hlt : |m| * Real.pi < Real.pi := by
    have h1 : |m| * Real.pi ≤ |m * (α1 - α2)| := by
      rw [abs_mul]
      apply mul_le_mul_of_nonneg_left _ (abs_nonneg m)
      rw [abs_of_pos (by linarith)]
      linarith
    have h2 : |m * (α1 - α2)| < Real.pi := by
      rw [hmm, abs_lt]
      have := Real.pi_gt_three
      constructor <;> nlinarith
    linarith
  have hm1 : |m| < 1 := by
    by_contra hge
    rw [not_lt] at hge
    nlinarith
  have hmi : m = (((es.map fun e => e.2).count c : ℤ) - ((es.map fun e => e.1.pos).count c : ℤ) : ℤ) := by
    rw [hm]; push_cast; ring
  rw [hmi, ← Int.cast_abs] at hm1
  have : |((es.map fun e => e.2).count c : ℤ) - ((es.map fun e => e.1.pos).count c : ℤ)| < 1 := by exact_mod_cast hm1
  rw [Int.abs_lt_one_iff] at this
  omega

/-- How often the segments turn, less `σ` in the region, is the same everywhere. -/
theorem NoJumps.const {es : List (Vertex × V2)} {D : V2 → Prop} {σ : ℝ} {X : Set V2} (h : NoJumps es D σ X)
    (hX : X.Finite) (hσ : σ = 1 ∨ σ = -1) (hok : ∀ e ∈ es, eOk e) :
    ∃ C, ∀ x, x ∉ X → eOff es x → eRest es D σ x = C := by
  have hb := h.balanced hX hσ hok
  have hfin : (xy '' X).Countable := (hX.image _).countable
  have hconn : IsPreconnected (xy '' X)ᶜ := by
    refine (hfin.isPathConnected_compl_of_one_lt_rank ?_).isConnected.isPreconnected
    rw [← Module.finrank_eq_rank]
    have : Module.finrank ℝ (ℝ × ℝ) = 2 := by simp
    rw [this]
    norm_num
  obtain ⟨C, hC⟩ := glue_const hconn (eOff_dense es) (f := fun z => eRest es D σ (toV z)) fun z hz => by
    obtain ⟨G, hG, hev⟩ := h (toV z) fun hx => hz ⟨_, hx, xy_toV z⟩
    rw [xy_toV] at hG hev
    refine int_local hG hev fun x ho => ?_
    obtain ⟨k, hk⟩ := eTurns_int hok hb ho
    unfold eRest
    rw [hk]
    by_cases hD : D (toV x)
    · rw [if_pos hD, mul_one]
      rcases hσ with h | h <;> rw [h]
      · exact ⟨k - 1, by push_cast; ring⟩
      · exact ⟨k + 1, by push_cast; ring⟩
    · rw [if_neg hD, mul_zero, sub_zero]
      exact ⟨k, rfl⟩
  refine ⟨C, fun x hx ho => ?_⟩
  have := hC (xy x) (by
    rintro ⟨y, hy, he⟩
    have : y = x := by
      have := congrArg toV he
      simpa using this
    exact hx (this ▸ hy)) (by rwa [toV_xy])
  rwa [toV_xy] at this

end
end Cavc

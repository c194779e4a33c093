import Verif.Spec.IslandRegion
import Verif.Proofs.OffsetWinds
import Verif.Props.SimplePolygon
import Verif.Props.SimpleCurve

/-! Outlines of a region: how often all of them wind around points whose closest outline is known. -/
namespace Cavc
open Spec
open scoped Classical
open Filter Topology
noncomputable section

/-- How often the polygons wind around a point all together. -/
def totW (ps : List Polyline) (x : V2) : ℤ := (ps.map fun p => polyW (ppos p) p.size x).sum

theorem totW_cons (p : Polyline) (ps : List Polyline) (x : V2) :
    totW (p :: ps) x = polyW (ppos p) p.size x + totW ps x := by simp [totW]

theorem totW_perm {ps qs : List Polyline} (h : ps.Perm qs) (x : V2) : totW ps x = totW qs x := (h.map _).sum_eq

theorem turnAround_iff : ∀ {ps : List Polyline}, (∀ p ∈ ps, SimplePolygon p) → ∀ {x : V2} {k : ℤ},
    TurnAround ps x k ↔ totW ps x = k
  | [], _, x, k => by
    constructor
    · rintro ⟨ws, h, rfl⟩
      cases h
      rfl
    · rintro rfl
      exact ⟨[], List.Forall₂.nil, rfl⟩
  | p :: ps, hs, x, k => by
    have ih := fun k => turnAround_iff (ps := ps) (fun q hq => hs q (List.mem_cons_of_mem _ hq)) (x := x) (k := k)
    have hr := simple_run (hs p List.mem_cons_self) x
    rw [totW_cons]
    constructor
    · rintro ⟨ws, h, rfl⟩
      cases h with
      | @cons _ w _ ws hw hws =>
        rw [hr] at hw
        have := Except.ok.inj hw
        rw [List.sum_cons, this, (ih _).1 ⟨ws, hws, rfl⟩]
    · intro h
      obtain ⟨ws, h1, h2⟩ := (ih (totW ps x)).2 rfl
      exact ⟨_ :: ws, List.Forall₂.cons hr h1, by rw [List.sum_cons, h2, h]⟩

/-- All but the outline number `i`. -/
def otherPs (ps : List Polyline) (i : ℕ) : List Polyline := ps.eraseIdx i

theorem totW_other {ps : List Polyline} {i : ℕ} {p : Polyline} (h : ps[i]? = some p) (x : V2) :
    totW ps x = polyW (ppos p) p.size x + totW (otherPs ps i) x := by
  obtain ⟨hi, rfl⟩ := List.getElem?_eq_some_iff.1 h
  rw [← totW_cons]
  exact totW_perm (List.getElem_cons_eraseIdx_perm hi).symm x

theorem mem_other {ps : List Polyline} {i : ℕ} {q : Polyline} : q ∈ otherPs ps i ↔ ∃ j ≠ i, ps[j]? = some q :=
  List.mem_eraseIdx_iff_getElem?

theorem totW_near : ∀ {ps : List Polyline}, (∀ p ∈ ps, SimplePolygon p) → ∀ {x : V2}, (∀ p ∈ ps, ¬ OnPline p x) →
    ∀ᶠ y in 𝓝 (xy x), totW ps (toV y) = totW ps x
  | [], _, x, _ => Filter.Eventually.of_forall fun _ => rfl
  | p :: ps, hs, x, hx => by
    filter_upwards [totW_near (ps := ps) (fun q hq => hs q (List.mem_cons_of_mem _ hq)) fun q hq => hx q (List.mem_cons_of_mem _ hq),
      (hs p List.mem_cons_self).simpleP.polyW_near ((simple_off (hs p List.mem_cons_self)).1 (hx p List.mem_cons_self))] with y h1 h2
    rw [totW_cons, totW_cons, h1, h2]

theorem totW_const : ∀ {ps : List Polyline}, (∀ p ∈ ps, SimplePolygon p) → ∀ {a b : V2},
    (∀ p ∈ ps, ∀ t, 0 ≤ t → t ≤ 1 → ¬ OnPline p (lerp a b t)) → totW ps a = totW ps b
  | [], _, _, _, _ => rfl
  | p :: ps, hs, a, b, h => by
    rw [totW_cons, totW_cons, totW_const (ps := ps) (fun q hq => hs q (List.mem_cons_of_mem _ hq))
      fun q hq => h q (List.mem_cons_of_mem _ hq)]
    have hp := hs p List.mem_cons_self
    rw [polyW_const hp.simpleP.closed fun t t0 t1 => (simple_off hp).1 (h p List.mem_cons_self t t0 t1)]

theorem off_list_near {ps : List Polyline} (hs : ∀ p ∈ ps, SimplePolygon p) {x : V2} (hx : ∀ p ∈ ps, ¬ OnPline p x) :
    ∀ᶠ y in 𝓝 (xy x), ∀ p ∈ ps, ¬ OnPline p (toV y) := by
  have : ∀ p ∈ ps.toFinset, ∀ᶠ y in 𝓝 (xy x), ¬ OnPline p (toV y) := fun p hp =>
    (pline_closed_set (hs p (List.mem_toFinset.1 hp)).closed (hs p (List.mem_toFinset.1 hp)).two').isOpen_compl.mem_nhds (hx p (List.mem_toFinset.1 hp))
  rw [← Filter.eventually_all_finset] at this
  filter_upwards [this] with y hy p hp
  exact hy p (List.mem_toFinset.2 hp)

/-- Outlines do not have points in common. -/
theorem _root_.Cavc.Spec.Outlines.off {ps : List Polyline} (h : Outlines ps) {i : ℕ} {p : Polyline} (hi : ps[i]? = some p)
    {x : V2} (hx : OnPline p x) : ∀ q ∈ otherPs ps i, ¬ OnPline q x := by
  intro q hq hqx
  obtain ⟨j, hj, e⟩ := mem_other.1 hq
  obtain ⟨hi', rfl⟩ := List.getElem?_eq_some_iff.1 hi
  obtain ⟨hj', rfl⟩ := List.getElem?_eq_some_iff.1 e
  rcases lt_or_gt_of_ne hj with q | q
  · exact List.pairwise_iff_getElem.1 h.apart j i hj' hi' q x hqx hx
  · exact List.pairwise_iff_getElem.1 h.apart i j hi' hj' q x hx hqx

theorem _root_.Cavc.Spec.Outlines.others {ps : List Polyline} (h : Outlines ps) (i : ℕ) : ∀ q ∈ otherPs ps i, SimplePolygon q :=
  fun q hq => h.simple q ((List.eraseIdx_sublist ps i).subset hq)

/-- A point of a polygon off which, close by, there are points to the left and to the right. -/
theorem side_points {p : Polyline} (hp : SimplePolygon p) {V V' : ℤ} (hV : Sides (ppos p) p.size 1 V V') {n : V2}
    (hn : OnPline p n) {U : ℝ × ℝ → Prop} (hU : ∀ᶠ y in 𝓝 (xy n), U y) :
    (∃ y, U y ∧ ¬ OnPline p (toV y) ∧ polyW (ppos p) p.size (toV y) = V) ∧
    ∃ y, U y ∧ ¬ OnPline p (toV y) ∧ polyW (ppos p) p.size (toV y) = V' := by
  obtain ⟨-, k, hk, t, t0, t1, rfl⟩ := (polygon_onPline hp.closed hp.lines).1 hn
  have hne := hp.simpleP.ne k
  generalize hA : ppos p k = A at *
  generalize hB : ppos p (k + 1) = B at *
  have hc : ContinuousAt (fun s : ℝ => xy (lerp A B s)) t := by
    have : Continuous fun s : ℝ => xy (lerp A B s) := by unfold xy lerp; fun_prop
    exact this.continuousAt
  have : (𝓝[Set.Ioo (0 : ℝ) 1] t).NeBot := by
    rw [← mem_closure_iff_nhdsWithin_neBot, closure_Ioo (by norm_num)]
    exact ⟨t0, t1⟩
  obtain ⟨s, hs1, hs⟩ := ((Filter.Eventually.filter_mono nhdsWithin_le_nhds (hc.eventually hU.eventually_nhds)).and
    (eventually_mem_nhdsWithin (a := t) (s := Set.Ioo (0 : ℝ) 1))).exists
  have key : ∀ (σ : ℝ) (K : ℤ), (σ = 1 ∨ σ = -1) → SideVal (ppos p) p.size σ k s K →
      ∃ y, U y ∧ ¬ OnPline p (toV y) ∧ polyW (ppos p) p.size (toV y) = K := by
    intro σ K hσ hsv
    obtain ⟨ρ, hρ, hv⟩ := hsv
    rw [hA, hB] at hv
    have hnear : ∀ᶠ y in 𝓝 (xy (lerp A B s)), Near ρ (toV y) (lerp A B s) := by
      filter_upwards [Metric.ball_mem_nhds (xy (lerp A B s)) hρ] with y hy
      rw [Metric.mem_ball, Prod.dist_eq, max_lt_iff] at hy
      exact ⟨hy.1, hy.2⟩
    obtain ⟨O, hO, hOo, hzO⟩ := eventually_nhds_iff.1 (hs1.and hnear)
    have hcr : Continuous fun y : ℝ × ℝ => σ * cross A B (toV y) := by unfold cross toV; fun_prop
    have hopen : IsOpen (O ∩ {y : ℝ × ℝ | 0 < σ * cross A B (toV y)}) := hOo.inter (isOpen_lt continuous_const hcr)
    have hex : ∃ y, y ∈ O ∩ {y : ℝ × ℝ | 0 < σ * cross A B (toV y)} := by
      have hc2 : ContinuousAt (fun ε : ℝ => ((lerp A B s).x - σ * ε * (B.y - A.y), (lerp A B s).y + σ * ε * (B.x - A.x))) 0 := by
        have : Continuous (fun ε : ℝ => ((lerp A B s).x - σ * ε * (B.y - A.y), (lerp A B s).y + σ * ε * (B.x - A.x))) := by
          fun_prop
        exact this.continuousAt
      have hin : ∀ᶠ ε : ℝ in 𝓝 0, ((lerp A B s).x - σ * ε * (B.y - A.y), (lerp A B s).y + σ * ε * (B.x - A.x)) ∈ O := by
        apply hc2.eventually
        apply hOo.mem_nhds
        simpa [xy] using hzO
      obtain ⟨ε, h1, h2⟩ := ((Filter.Eventually.filter_mono (nhdsWithin_le_nhds (s := Set.Ioi 0)) hin).and eventually_mem_nhdsWithin).exists
      refine ⟨_, h1, ?_⟩
      have h2' : (0 : ℝ) < ε := h2
      have hd : 0 < dist2 A B := dist2_pos hne
      have hss : σ * σ = 1 := by rcases hσ with h | h <;> rw [h] <;> norm_num
      have : σ * cross A B (toV ((lerp A B s).x - σ * ε * (B.y - A.y), (lerp A B s).y + σ * ε * (B.x - A.x))) =
          (σ * σ) * (ε * dist2 A B) := by
        simp only [cross, toV, lerp, dist2]; ring
      show 0 < σ * cross A B _
      rw [this, hss]
      positivity
    obtain ⟨y, ⟨y1, y2⟩, y3⟩ := (eOff_dense (cEdges p)).inter_open_nonempty _ hopen hex
    refine ⟨y, (hO y y1).1, ?_, hv _ (hO y y1).2 y2⟩
    intro ho
    obtain ⟨e, he, h⟩ := (onPline_cEdges hp.closed hp.two').1 ho
    exact y3 e he h
  have := hV.2.2 k hk s hs.1 hs.2
  exact ⟨key 1 V (Or.inl rfl) this.1, key (-1) V' (Or.inr rfl) this.2⟩

/-- How often the other outlines wind around a point of one of them. -/
theorem _root_.Cavc.Spec.Outlines.at_point {ps : List Polyline} (h : Outlines ps) {i : ℕ} {p : Polyline} (hi : ps[i]? = some p)
    {V V' : ℤ} (hV : Sides (ppos p) p.size 1 V V') (hVV : V = V' + 1) {n : V2} (hn : OnPline p n) :
    totW (otherPs ps i) n = 1 - V := by
  have hp := h.simple p (List.mem_of_getElem? hi)
  have hoff := h.off hi hn
  obtain ⟨⟨y, ⟨a1, a2⟩, a3, a4⟩, ⟨z, ⟨b1, b2⟩, b3, b4⟩⟩ := side_points hp hV hn
    ((totW_near (h.others i) hoff).and (off_list_near (h.others i) hoff))
  have off : ∀ x, ¬ OnPline p x → (∀ q ∈ otherPs ps i, ¬ OnPline q x) → ∀ q ∈ ps, ¬ OnPline q x := by
    intro x h1 h2 q hq
    obtain ⟨j, hj⟩ := List.mem_iff_getElem?.1 hq
    by_cases e : j = i
    · rw [e, hi] at hj
      cases hj
      exact h1
    · exact h2 q (mem_other.2 ⟨j, e, hj⟩)
  have c1 := h.once _ _ (off _ a3 a2) ((turnAround_iff h.simple).2 rfl)
  have c2 := h.once _ _ (off _ b3 b2) ((turnAround_iff h.simple).2 rfl)
  rw [totW_other hi, a4, a1] at c1
  rw [totW_other hi, b4, b1] at c2
  omega

theorem distance_lerp (x n : V2) {t : ℝ} (t0 : 0 ≤ t) : distance x (lerp x n t) = t * distance x n := by
  unfold distance
  rw [show dist2 x (lerp x n t) = t ^ 2 * dist2 x n by simp only [dist2, lerp]; ring,
    Real.sqrt_mul (sq_nonneg _), Real.sqrt_sq t0]

/-- How often the other outlines wind around a point that is not further away from one of them than from the others. -/
theorem _root_.Cavc.Spec.Outlines.at_closest {ps : List Polyline} (h : Outlines ps) {i : ℕ} {p : Polyline} (hi : ps[i]? = some p)
    {V V' : ℤ} (hV : Sides (ppos p) p.size 1 V V') (hVV : V = V' + 1) {x n : V2} (hn : OnPline p n)
    (hc : ∀ q ∈ otherPs ps i, NotCloser q (distance x n) x) : totW (otherPs ps i) x = 1 - V := by
  rw [← h.at_point hi hV hVV hn]
  refine totW_const (h.others i) fun q hq t t0 t1 ho => ?_
  have h1 := hc q hq _ ho
  rw [distance_lerp x n t0] at h1
  have h2 := distance_nonneg x n
  have hoff := h.off hi hn q hq
  rcases h2.eq_or_lt with h0 | h0
  · have hx : x = n := by
      by_contra hne
      have := dist2_pos hne
      have h3 : distance x n ^ 2 = dist2 x n := distance_sq x n
      rw [← h0] at h3
      norm_num at h3
      linarith
    rw [hx] at ho
    apply hoff
    have : lerp n n t = n := by ext <;> simp [lerp]
    rwa [this] at ho
  · have : t = 1 := by nlinarith
    rw [this, lerp_one] at ho
    exact hoff ho

theorem far_dist {p : Polyline} (hp : SimplePolygon p) {d : ℝ} (hd : 0 ≤ d) {x : V2} :
    (∀ z, OnPline p z → d < distance x z) ↔ ∀ k < p.size, ∀ z, OnLine (ppos p k) (ppos p (k + 1)) z → d ^ 2 < dist2 x z := by
  have key : ∀ z, d < distance x z ↔ d ^ 2 < dist2 x z := by
    intro z
    unfold distance
    rw [Real.lt_sqrt hd]
  simp only [polygon_onPline hp.closed hp.lines, key]
  exact ⟨fun h k hk z hz => h z ⟨hp.two', k, hk, hz⟩, fun h z ⟨_, k, hk, hz⟩ => h k hk z hz⟩

/-- Being further away from a polygon is an open condition. -/
theorem far_dist_near {p : Polyline} (hp : SimplePolygon p) {d : ℝ} (hd : 0 ≤ d) {x : V2}
    (h : ∀ z, OnPline p z → d < distance x z) : ∀ᶠ y in 𝓝 (xy x), ∀ z, OnPline p z → d < distance (toV y) z := by
  have h' := (far_dist hp hd).1 h
  have hev : ∀ᶠ y in 𝓝 (xy x), ∀ k ∈ Finset.range p.size, ∀ w, OnLine (ppos p k) (ppos p (k + 1)) w →
      d ^ 2 < dist2 (toV y) w := by
    rw [Filter.eventually_all_finset]
    exact fun k hk => far_near (h' k (Finset.mem_range.1 hk))
  filter_upwards [hev] with y hy
  exact (far_dist hp hd).2 fun k hk => hy k (Finset.mem_range.2 hk)

theorem far_list_near {ps : List Polyline} (hs : ∀ p ∈ ps, SimplePolygon p) {d : ℝ} (hd : 0 ≤ d) {x : V2}
    (h : ∀ p ∈ ps, ∀ z, OnPline p z → d < distance x z) :
    ∀ᶠ y in 𝓝 (xy x), ∀ p ∈ ps, ∀ z, OnPline p z → d < distance (toV y) z := by
  have : ∀ p ∈ ps.toFinset, ∀ᶠ y in 𝓝 (xy x), ∀ z, OnPline p z → d < distance (toV y) z := fun p hp =>
    far_dist_near (hs p (List.mem_toFinset.1 hp)) hd (h p (List.mem_toFinset.1 hp))
  rw [← Filter.eventually_all_finset] at this
  filter_upwards [this] with y hy p hp
  exact hy p (List.mem_toFinset.2 hp)

/-- In the region and further away than `d` from all outlines. -/
def DeepAll (ps : List Polyline) (d : ℝ) (x : V2) : Prop :=
  totW ps x = 1 ∧ ∀ p ∈ ps, ∀ z, OnPline p z → d < distance x z

theorem insetRegion_iff {ps : List Polyline} (h : Outlines ps) {d : ℝ} {x : V2} : InsetRegion ps d x ↔ DeepAll ps d x := by
  unfold InsetRegion DeepAll
  rw [turnAround_iff h.simple]

theorem all_iff_other {ps : List Polyline} {i : ℕ} {p : Polyline} (hi : ps[i]? = some p) {P : Polyline → Prop} :
    (∀ q ∈ ps, P q) ↔ P p ∧ ∀ q ∈ otherPs ps i, P q := by
  obtain ⟨hl, rfl⟩ := List.getElem?_eq_some_iff.1 hi
  constructor
  · exact fun h => ⟨h _ (List.getElem_mem _), fun q hq => h q ((List.eraseIdx_sublist ps i).subset hq)⟩
  · rintro ⟨h1, h2⟩ q hq
    rcases List.mem_cons.1 ((List.getElem_cons_eraseIdx_perm hl).symm.mem_iff.1 hq) with rfl | hq
    · exact h1
    · exact h2 q hq

/-- Close to a point at the distance `d` from one of the outlines, further away from all others, only that one matters. -/
theorem _root_.Cavc.Spec.Outlines.deep_one {ps : List Polyline} (h : Outlines ps) {i : ℕ} {p : Polyline} (hi : ps[i]? = some p)
    {V V' : ℤ} (hV : Sides (ppos p) p.size 1 V V') (hVV : V = V' + 1) {d : ℝ} (hd : 0 < d) {x n : V2} (hn : OnPline p n)
    (hxn : distance x n = d) (hfar : ∀ q ∈ otherPs ps i, ∀ z, OnPline q z → d < distance x z) :
    ∀ᶠ y in 𝓝 (xy x), DeepAll ps d (toV y) ↔ DeepP (ppos p) p.size d V (toV y) := by
  have hp := h.simple p (List.mem_of_getElem? hi)
  have hW := h.at_closest hi hV hVV (x := x) hn (fun q hq z hz => by rw [hxn]; exact (hfar q hq z hz).le)
  have hoff : ∀ q ∈ otherPs ps i, ¬ OnPline q x := by
    intro q hq ho
    have := hfar q hq x ho
    rw [show distance x x = 0 by simp [distance, dist2]] at this
    linarith
  filter_upwards [totW_near (h.others i) hoff, far_list_near (h.others i) hd.le hfar] with y h1 h2
  unfold DeepAll DeepP
  rw [totW_other hi, h1, hW, all_iff_other hi, far_dist hp hd.le]
  constructor
  · rintro ⟨a, b, -⟩
    exact ⟨by omega, b⟩
  · rintro ⟨a, b⟩
    exact ⟨by omega, b, h2⟩

/-- A point of the exact offset of one of the outlines that is not closer to the others. -/
def AtInset (ps : List Polyline) (d : ℝ) (z : V2) : Prop :=
  ∃ i p, ps[i]? = some p ∧ AtOffset p d z ∧ ∀ q ∈ otherPs ps i, NotCloser q d z

theorem not_closer_of_deep {ps : List Polyline} {d : ℝ} {x : V2} (h : DeepAll ps d x) {p : Polyline} (hp : p ∈ ps) :
    ¬ Closer p d x := by
  rintro ⟨z, hz, hlt⟩
  linarith [h.2 p hp z hz]

/-- The outlines, with the values of the sides of each. -/
def OutlineSides (ps : List Polyline) (d : ℝ) : Prop :=
  ∀ (i : ℕ) (p : Polyline), ps[i]? = some p → ∃ V V' : ℤ, Sides (ppos p) p.size 1 V V' ∧ V = V' + 1 ∧
    ∀ x, ¬ OnPline p x → (OnOffsetSide p d x ↔ polyW (ppos p) p.size x = V)

/-- Off the exact offsets, either all points around are in the region or none is. -/
theorem _root_.Cavc.Spec.Outlines.deep_near {ps : List Polyline} (h : Outlines ps) {d : ℝ} (hd : 0 < d) (hS : OutlineSides ps d)
    {z : V2} (hz : ¬ AtInset ps d z) : ∀ᶠ x in 𝓝 (xy z), DeepAll ps d (toV x) ↔ DeepAll ps d z := by
  by_cases hcl : ∃ p ∈ ps, Closer p d z
  · obtain ⟨p, hp, hc⟩ := hcl
    filter_upwards [closer_near hd.le hc] with x hx
    exact iff_of_false (fun q => not_closer_of_deep q hp hx) fun q => not_closer_of_deep q hp hc
  push Not at hcl
  have hnc : ∀ p ∈ ps, NotCloser p d z := fun p hp => not_not.1 fun q => hcl p hp (closer_iff.2 q)
  have hoff : ∀ p ∈ ps, ¬ OnPline p z := by
    intro p hp ho
    have := hnc p hp z ho
    rw [show distance z z = 0 by simp [distance, dist2]] at this
    linarith
  by_cases hfar : ∀ p ∈ ps, ∀ w, OnPline p w → d < distance z w
  · filter_upwards [far_list_near h.simple hd.le hfar, totW_near h.simple hoff] with x h1 h2
    unfold DeepAll
    rw [h2]
    exact ⟨fun q => ⟨q.1, hfar⟩, fun q => ⟨q.1, h1⟩⟩
  push Not at hfar
  obtain ⟨p, hp, w, hw, hle⟩ := hfar
  have hdw : distance z w = d := le_antisymm hle (hnc p hp w hw)
  obtain ⟨i, hi⟩ := List.mem_iff_getElem?.1 hp
  obtain ⟨V, V', hV, hVV, hside⟩ := hS i p hi
  have hoth : ∀ q ∈ otherPs ps i, NotCloser q d z := fun q hq => hnc q ((List.eraseIdx_sublist ps i).subset hq)
  have hW := h.at_closest hi hV hVV (x := z) hw (fun q hq => by rw [hdw]; exact hoth q hq)
  have hne : totW ps z ≠ 1 := by
    intro he
    rw [totW_other hi, hW] at he
    refine hz ⟨i, p, hi, ⟨(hside z (hoff p hp)).2 (by omega), ?_, w, hw, ?_⟩, hoth⟩
    · rw [abs_of_pos hd]; exact hnc p hp
    · rw [abs_of_pos hd]; exact hdw
  filter_upwards [totW_near h.simple hoff] with x h2
  unfold DeepAll
  rw [h2]
  exact iff_of_false (fun q => hne q.1) fun q => hne q.1

end
end Cavc

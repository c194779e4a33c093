import Verif.Props.IslandsApart

/-! C82: the offset of a disc with round holes. -/
namespace Cavc
open Spec
open scoped Classical
noncomputable section

variable {c c' e e' : V2} {r r' σ σ' : ℝ}

theorem halves_pline_ok (hσ : σ = 1 ∨ σ = -1) (he : e.x ^ 2 + e.y ^ 2 = 1) (hr : 1 / 10 ^ 4 ≤ r) : PlineOk (twoHalves c e r σ) := by
  intro i v1 v2 hs
  obtain ⟨s, hs1, -, rfl, rfl⟩ := halves_seg hs
  refine ⟨by rcases hσ with rfl | rfl <;> norm_num, fun _ => ?_⟩
  have := halves_apart (c := c) hs1 he hr
  unfold Near at this
  rw [not_and_or, not_lt, not_lt] at this
  rcases this with h | h
  · left; exact le_trans (by norm_num) h
  · right; exact le_trans (by norm_num) h

theorem halves_area (hσ : σ = 1 ∨ σ = -1) (he : e.x ^ 2 + e.y ^ 2 = 1) : getArea (twoHalves c e r σ) = .ok (σ * (Real.pi * r ^ 2)) := by
  rw [getArea_eq (p := twoHalves c e r σ) rfl (show 2 ≤ 2 by norm_num)]
  congr 1
  have hl : (segs (twoHalves c e r σ)).length = 2 := rfl
  have h0 : vtx (twoHalves c e r σ) 0 = ⟨⟨c.x + r * e.x, c.y + r * e.y⟩, σ⟩ := rfl
  have h1 : vtx (twoHalves c e r σ) 1 = ⟨⟨c.x - r * e.x, c.y - r * e.y⟩, σ⟩ := rfl
  have hz : (twoHalves c e r σ).size = 2 := rfl
  rw [hl, hz, Finset.sum_range_succ, Finset.sum_range_one]
  simp only [zero_add, if_false, Nat.reduceAdd, if_true, OfNat.one_ne_ofNat]
  rw [h0, h1]
  unfold areaTerm
  rw [if_neg (half_arc hσ _), if_neg (half_arc hσ _)]
  simp only [dist2]
  have e1 : (c.x + r * e.x - (c.x - r * e.x)) ^ 2 + (c.y + r * e.y - (c.y - r * e.y)) ^ 2 = 4 * r ^ 2 * (e.x ^ 2 + e.y ^ 2) := by ring
  have e2 : (c.x - r * e.x - (c.x + r * e.x)) ^ 2 + (c.y - r * e.y - (c.y + r * e.y)) ^ 2 = 4 * r ^ 2 * (e.x ^ 2 + e.y ^ 2) := by ring
  rw [e1, e2, he]
  rcases hσ with rfl | rfl
  · rw [Real.arctan_one]; ring
  · rw [Real.arctan_neg, Real.arctan_one]; ring

/-- A point that is by at least the offset nearer to or farther from the center than the circle passes the test. -/
theorem halves_far (hσ : σ = 1 ∨ σ = -1) (he : e.x ^ 2 + e.y ^ 2 = 1) (hr : 1 / 10 ^ 4 ≤ r) {d : ℝ} (hd : 1 / 10 ^ 4 ≤ |d|) {x : V2}
    (h : |d| ≤ |distance x c - r|) : FarEnough (twoHalves c e r σ) d x := by
  intro i v1 v2 q hseg _ hq
  have hok := halves_pline_ok (c := c) hσ he hr i v1 v2 hseg
  obtain ⟨s, hs, -, rfl, rfl⟩ := halves_seg hseg
  obtain ⟨q', c', hq', hc', hqc, -⟩ := C14_closestPointOnSeg hok (half_arc hσ _) x
  rw [hq] at hq'
  have hq' := Except.ok.inj hq'
  subst hq'
  have hcen := isCenter_unique (by rcases hσ with rfl | rfl <;> norm_num) hc'
  rw [half_centerOf hσ] at hcen
  subst hcen
  have hr0 : (0 : ℝ) ≤ r := le_trans (by norm_num) hr
  simp only at hqc
  rw [half_radius hs he hr0] at hqc
  have t1 := distance_tri x q c'
  have t2 := distance_tri q x c'
  rw [distance_symm q x] at t2
  have hle : |d| ≤ distance x q := by
    refine le_trans h ?_
    rw [abs_le]
    constructor <;> linarith
  have hsym : dist2 q x = distance x q ^ 2 := by rw [distance_sq]; unfold dist2; ring
  rw [hsym]
  have h4 : (0 : ℝ) < 1 / 10 ^ 4 := by norm_num
  apply pow_lt_pow_left₀ _ (by linarith) two_ne_zero
  linarith

/-- Circles of which one is clearly outside or clearly inside the other have no intersects. -/
theorem circles_apart (hσ : σ = 1 ∨ σ = -1) (hσ' : σ' = 1 ∨ σ' = -1) (he : e.x ^ 2 + e.y ^ 2 = 1) (he' : e'.x ^ 2 + e'.y ^ 2 = 1)
    (hr : 1 / 10 ^ 4 ≤ r) (hr' : 1 / 10 ^ 4 ≤ r')
    (h : r + r' + 1 / 10 ^ 4 ≤ distance c c' ∨ distance c c' + 1 / 10 ^ 4 ≤ |r - r'|) :
    NothingReported (twoHalves c e r σ) (twoHalves c' e' r' σ') := by
  intro i j v1 v2 u1 u2 hv hu _
  have ok1 := halves_pline_ok (c := c) hσ he hr i v1 v2 hv
  have ok2 := halves_pline_ok (c := c') hσ' he' hr' j u1 u2 hu
  obtain ⟨s, hs, -, rfl, rfl⟩ := halves_seg hv
  obtain ⟨t, ht, -, rfl, rfl⟩ := halves_seg hu
  have hr0 : (0 : ℝ) < r := lt_of_lt_of_le (by norm_num) hr
  have hr0' : (0 : ℝ) < r' := lt_of_lt_of_le (by norm_num) hr'
  have hno : intrPlineSegs ⟨⟨c.x + s * r * e.x, c.y + s * r * e.y⟩, σ⟩ ⟨⟨c.x - s * r * e.x, c.y - s * r * e.y⟩, σ⟩
      ⟨⟨c'.x + t * r' * e'.x, c'.y + t * r' * e'.y⟩, σ'⟩ ⟨⟨c'.x - t * r' * e'.x, c'.y - t * r' * e'.y⟩, σ'⟩ = .ok .noIntersect := by
    rw [arcArc_run (ok1.arcOk (half_arc hσ _)) ok1.half (ok2.arcOk (half_arc hσ' _)) ok2.half]
    simp only
    rw [half_centerOf hσ, half_centerOf hσ', half_radius hs he hr0.le, half_radius ht he' hr0'.le]
    have : intrCircle2Circle2 r c r' c' = .noIntersect := by
      unfold intrCircle2Circle2
      simp only
      have hd : Real.sqrt (dot (c' - c) (c' - c)) = distance c c' := by
        unfold distance; congr 1; simp only [dot, dist2, V2.sub_x, V2.sub_y]; ring
      rw [hd]
      have e8 : realThreshold = 1 / 10 ^ 8 := by norm_num [realThreshold]
      have e48 : (1 : ℝ) / 10 ^ 8 < 1 / 10 ^ 4 := by norm_num
      by_cases hc : distance c c' < realThreshold
      · rw [if_pos hc, if_neg]
        unfold fuzzyEqual
        rw [e8] at hc
        rcases h with h | h
        · linarith
        · have h0 : 0 ≤ distance c c' := Real.sqrt_nonneg _
          rw [not_lt]
          exact le_trans (by norm_num [realThreshold]) (le_trans (show (1 : ℝ) / 10 ^ 4 ≤ _ by linarith) h)
      · rw [if_neg hc, if_pos]
        rw [e8]
        rcases h with h | h
        · left; linarith
        · right; linarith
    rw [this]
  intro x
  unfold PointHit OverlapHit
  rw [hno]
  simp

theorem room_symm {d : ℝ} {k k' : RoundLoop} (h : Room d k k') : Room d k' k := by
  unfold Room at *
  rw [distance_symm k'.center, abs_sub_comm]
  rcases h with h | h
  · left; linarith
  · right; exact h

theorem room_apart {d : ℝ} (hd : 0 ≤ d) {k k' : RoundLoop} (hk : RoundLoopOk d k) (hk' : RoundLoopOk d k') (h : Room d k k') :
    NothingReported (k.offset d).polyline (k'.offset d).polyline := by
  refine circles_apart (r := k.radius - k.sign * d) (r' := k'.radius - k'.sign * d) hk.sign hk'.sign hk.unit hk'.unit hk.left hk'.left ?_
  change _ ≤ distance k.center k'.center ∨ distance k.center k'.center + _ ≤ _
  rcases h with h | h
  · left
    rcases hk.sign with e | e <;> rcases hk'.sign with e' | e' <;> rw [e, e'] <;> linarith
  · right
    refine le_trans (show _ ≤ |k.radius - k'.radius| - 2 * d by linarith) ?_
    rcases hk.sign with e | e <;> rcases hk'.sign with e' | e' <;> rw [e, e'] <;>
      rcases abs_cases (k.radius - k'.radius) with ⟨h1, h2⟩ | ⟨h1, h2⟩ <;> rw [h1, le_abs] <;>
      first
        | (left; linarith)
        | (right; linarith)

theorem room_far {d : ℝ} (hd : 1 / 10 ^ 4 ≤ |d|) {k k' : RoundLoop} (hk : RoundLoopOk |d| k) (hk' : RoundLoopOk |d| k') (h : Room |d| k k') :
    FarEnough k'.polyline d ⟨k.center.x + (k.offset |d|).radius * k.dir.x, k.center.y + (k.offset |d|).radius * k.dir.y⟩ := by
  refine halves_far hk'.sign hk'.unit hk'.radius hd ?_
  have h0 : (0 : ℝ) ≤ k.radius - k.sign * |d| := le_trans (by norm_num) hk.left
  have hx := half_radius (c := k.center) (Or.inl rfl) hk.unit h0
  simp only [one_mul] at hx
  change |d| ≤ |distance _ _ - k'.radius|
  simp only [RoundLoop.offset]
  generalize (⟨k.center.x + (k.radius - k.sign * |d|) * k.dir.x, k.center.y + (k.radius - k.sign * |d|) * k.dir.y⟩ : V2) = x at hx ⊢
  have t1 := distance_tri k.center x k'.center
  have t2 := distance_tri x k'.center k.center
  have t3 := distance_tri x k.center k'.center
  rw [distance_symm k.center x] at t1
  rw [distance_symm k'.center k.center] at t2
  rw [hx] at t1 t2 t3
  have hd0 : 0 < |d| := lt_of_lt_of_le (by norm_num) hd
  have hs1 : k.radius - |d| ≤ k.radius - k.sign * |d| := by rcases hk.sign with e | e <;> rw [e] <;> linarith
  have hs2 : k.radius - k.sign * |d| ≤ k.radius + |d| := by rcases hk.sign with e | e <;> rw [e] <;> linarith
  rw [le_abs]
  have h4 : (0 : ℝ) < 1 / 10 ^ 4 := by norm_num
  rcases h with h | h
  · left; linarith
  · rw [le_abs] at h
    rcases h with h | h
    · left; linarith
    · right; linarith

theorem numbered_map {α : Type} (f : α → Polyline) (l : List α) (k : ℕ) :
    ((l.map fun a => [f a]).zipIdx k).flatMap (fun x => x.1.map fun q => (x.2, q)) = (l.zipIdx k).map fun x => (x.2, f x.1) := by
  induction l generalizing k with
  | nil => rfl
  | cons a l ih => rw [List.map_cons, List.zipIdx_cons, List.flatMap_cons, ih, List.zipIdx_cons, List.map_cons]; rfl

theorem flatten_single {α : Type} (f : α → Polyline) (l : List α) : (l.map fun a => [f a]).flatten = l.map f := by
  induction l with
  | nil => rfl
  | cons a l ih => rw [List.map_cons, List.flatten_cons, ih, List.map_cons]; rfl

/-- C82. Any number of counter clockwise and clockwise circles, every two with room for the offset between them, for
example a disc with round holes: the offset of the set are the counter clockwise circles made smaller and the clockwise
circles made larger, each with the index of its own circle. -/
theorem C82_circles {std : StdSort} {hash : HashOrder} (inf ninf : ℝ) {input : OffsetLoopSet} {delta : ℝ} {ccw cw : List RoundLoop}
    (hccw : input.ccwLoops.map OffsetLoop.polyline = ccw.map RoundLoop.polyline)
    (hcw : input.cwLoops.map OffsetLoop.polyline = cw.map RoundLoop.polyline)
    (hind : ∀ l ∈ loopsOf input, Indexed (codePlatform inf ninf) l) (hd : 1 / 10 ^ 4 ≤ |delta|)
    (hok : ∀ k ∈ ccw ++ cw, RoundLoopOk |delta| k) (h1 : ∀ k ∈ ccw, k.sign = 1) (h2 : ∀ k ∈ cw, k.sign = -1)
    (hroom : (ccw ++ cw).Pairwise (Room |delta|)) (hn : (ccw ++ cw).length ≤ 2 ^ 24) :
    ∃ r, computeIslands (codePlatform inf ninf) std hash input delta = .ok r ∧
      r.ccwLoops.map OffsetLoop.named = ccw.zipIdx.map (fun x => (x.2, (x.1.offset |delta|).polyline)) ∧
      r.cwLoops.map OffsetLoop.named = (cw.zipIdx ccw.length).map (fun x => (x.2, (x.1.offset |delta|).polyline)) := by
  have hloops : (loopsOf input).map OffsetLoop.polyline = (ccw ++ cw).map RoundLoop.polyline := by
    unfold loopsOf
    rw [List.map_append, List.map_append, hccw, hcw]
  have hpl : ∀ l ∈ loopsOf input, ∃ k ∈ ccw ++ cw, k.polyline = l.polyline := by
    intro l hl
    have : l.polyline ∈ (ccw ++ cw).map RoundLoop.polyline := by rw [← hloops]; exact List.mem_map.2 ⟨l, hl, rfl⟩
    exact List.mem_map.1 this
  have hin : ∀ l ∈ loopsOf input, LoopOk (codePlatform inf ninf) l := by
    intro l hl
    obtain ⟨k, hk, e⟩ := hpl l hl
    have hk := hok k hk
    refine ⟨?_, ?_, hind l hl⟩
    · rw [← e]; exact halves_pline_ok hk.sign hk.unit hk.radius
    · rw [← e]; exact halves_indexable hk.sign inf ninf
  set offs := (ccw ++ cw).map fun k => [(k.offset |delta|).polyline] with hoffs
  have hab : |(|delta|)| = |delta| := abs_abs delta
  have hfl : offs.flatten = (ccw ++ cw).map fun k => (k.offset |delta|).polyline := flatten_single _ _
  have ho : List.Forall₂ (fun l o => parallelOffset (codePlatform inf ninf) std hash l.polyline |delta| = .ok o) (loopsOf input) offs := by
    have : List.Forall₂ (fun q o => parallelOffset (codePlatform inf ninf) std hash q |delta| = .ok o)
        ((loopsOf input).map OffsetLoop.polyline) offs := by
      rw [hloops, hoffs, List.forall₂_map_left_iff, List.forall₂_map_right_iff, List.forall₂_same]
      intro k hk
      have hk := hok k hk
      exact C80_circle inf ninf hk.sign hk.unit hk.radius (by rw [hab]; exact hd) hk.left
    rw [List.forall₂_map_left_iff] at this
    exact this
  have hq : ∀ q ∈ offs.flatten, PlineOk q ∧ getArea q ≠ .ok 0 ∧ q.vertexes.length ≤ 2 ^ 24 := by
    intro q hq
    rw [hfl, List.mem_map] at hq
    obtain ⟨k, hk, rfl⟩ := hq
    have hk := hok k hk
    refine ⟨halves_pline_ok (r := k.radius - k.sign * |delta|) hk.sign hk.unit hk.left, ?_, by change 2 ≤ 2 ^ 24; norm_num⟩
    have := halves_area (c := k.center) (r := k.radius - k.sign * |delta|) hk.sign hk.unit
    change getArea (twoHalves k.center k.dir (k.radius - k.sign * |delta|) k.sign) ≠ _
    rw [this]
    intro h
    have h := Except.ok.inj h
    have hp : 0 < k.radius - k.sign * |delta| := lt_of_lt_of_le (by norm_num) hk.left
    have := mul_pos Real.pi_pos (pow_pos hp 2)
    rcases hk.sign with e | e <;> rw [e] at h this <;> linarith
  have hap : ∀ q q', [q, q'].Subperm offs.flatten → NothingReported q q' := by
    have hpw : offs.flatten.Pairwise (fun q q' => NothingReported q q' ∧ NothingReported q' q) := by
      rw [hfl, List.pairwise_map]
      exact hroom.imp_of_mem fun ha hb h =>
        ⟨room_apart (abs_nonneg _) (hok _ ha) (hok _ hb) h, room_apart (abs_nonneg _) (hok _ hb) (hok _ ha) (room_symm h)⟩
    rintro q q' ⟨l, hl, hs⟩
    have h := (hl.pairwise_iff (fun h => h.symm)).1 (hpw.sublist hs)
    rw [List.pairwise_cons] at h
    exact (h.1 q' (by simp)).1
  obtain ⟨r, hr, e1, e2⟩ := C82_islands_apart (std := std) (hash := hash) inf ninf hin ho hq
    (by rw [hfl, List.length_map]; exact hn) hap
  have hnum : numbered offs = ccw.zipIdx.map (fun x => (x.2, (x.1.offset |delta|).polyline)) ++
      (cw.zipIdx ccw.length).map (fun x => (x.2, (x.1.offset |delta|).polyline)) := by
    unfold numbered
    rw [hoffs, numbered_map, List.zipIdx_append, List.map_append, zero_add]
  have hfar : ∀ k i, (ccw ++ cw)[i]? = some k → FarFromOthers input delta i
      ⟨k.center.x + (k.offset |delta|).radius * k.dir.x, k.center.y + (k.offset |delta|).radius * k.dir.y⟩ := by
    intro k i hi j l hj hl
    have hl' : ((loopsOf input).map OffsetLoop.polyline)[j]? = some l.polyline := by rw [List.getElem?_map, hl]; rfl
    rw [hloops, List.getElem?_map] at hl'
    cases hk : (ccw ++ cw)[j]? with
    | none => rw [hk] at hl'; simp at hl'
    | some k' =>
      rw [hk] at hl'
      have hl' : k'.polyline = l.polyline := Option.some.inj hl'
      rw [← hl']
      have m1 := List.mem_of_getElem? hi
      have m2 := List.mem_of_getElem? hk
      have hr : Room |delta| k k' := by
        obtain ⟨hi1, hi2⟩ := List.getElem?_eq_some_iff.1 hi
        obtain ⟨hj1, hj2⟩ := List.getElem?_eq_some_iff.1 hk
        rw [List.pairwise_iff_getElem] at hroom
        rcases lt_or_gt_of_ne hj with h | h
        · have := hroom _ _ hj1 hi1 h
          rw [hi2, hj2] at this
          exact room_symm this
        · have := hroom _ _ hi1 hj1 h
          rw [hi2, hj2] at this
          exact this
      exact room_far hd (hok _ m1) (hok _ m2) hr
  have hlen : input.ccwLoops.length = ccw.length := by
    have := congrArg List.length hccw
    rwa [List.length_map, List.length_map] at this
  have area : ∀ k ∈ ccw ++ cw, getArea (k.offset |delta|).polyline = .ok (k.sign * (Real.pi * (k.radius - k.sign * |delta|) ^ 2)) := by
    intro k hk
    exact halves_area (hok k hk).sign (hok k hk).unit
  have pos : ∀ k ∈ ccw ++ cw, 0 < Real.pi * (k.radius - k.sign * |delta|) ^ 2 := by
    intro k hk
    have := (hok k hk).left
    exact mul_pos Real.pi_pos (pow_pos (lt_of_lt_of_le (by norm_num) this) 2)
  have far' : ∀ k i, (ccw ++ cw)[i]? = some k → ∃ v, (k.offset |delta|).polyline.vertexes.head? = some v ∧ FarFromOthers input delta i v.pos :=
    fun k i h => ⟨_, rfl, hfar k i h⟩
  have m1 : ∀ x ∈ ccw.zipIdx, x.1 ∈ ccw ++ cw ∧ (ccw ++ cw)[x.2]? = some x.1 ∧ x.1 ∈ ccw ∧ x.2 < ccw.length := by
    rintro ⟨k, i⟩ hx
    have hx := List.mem_zipIdx_iff_getElem?.1 hx
    simp only at hx ⊢
    have hlt := (List.getElem?_eq_some_iff.1 hx).1
    have hm := List.mem_of_getElem? hx
    exact ⟨List.mem_append_left _ hm, by rw [List.getElem?_append_left hlt]; exact hx, hm, hlt⟩
  have m2 : ∀ x ∈ cw.zipIdx ccw.length, x.1 ∈ ccw ++ cw ∧ (ccw ++ cw)[x.2]? = some x.1 ∧ x.1 ∈ cw ∧ ccw.length ≤ x.2 := by
    rintro ⟨k, i⟩ hx
    have hx := List.mem_zipIdx_iff_le_and_getElem?_sub.1 hx
    simp only at hx ⊢
    have hm := List.mem_of_getElem? hx.2
    exact ⟨List.mem_append_right _ hm, by rw [List.getElem?_append_right hx.1]; exact hx.2, hm, hx.1⟩
  refine ⟨r, hr, ?_, ?_⟩
  · rw [e1, hnum, List.filter_append, List.filter_eq_self.2, List.filter_eq_nil_iff.2, List.append_nil]
    · intro y hy
      obtain ⟨x, hx, rfl⟩ := List.mem_map.1 hy
      obtain ⟨a1, a2, a3, a4⟩ := m2 x hx
      simp only [decide_eq_true_eq]
      rintro ⟨⟨a, ha, hpos⟩, -⟩
      rw [area _ a1] at ha
      have ha := Except.ok.inj ha
      have hp := pos _ a1
      rw [h2 _ a3] at ha hp
      linarith
    · intro y hy
      obtain ⟨x, hx, rfl⟩ := List.mem_map.1 hy
      obtain ⟨a1, a2, a3, a4⟩ := m1 x hx
      simp only [decide_eq_true_eq]
      refine ⟨⟨_, area _ a1, ?_⟩, far' _ _ a2⟩
      have hp := pos _ a1
      rw [h1 _ a3] at hp ⊢
      linarith
  · rw [e2, hnum, List.filter_append, List.filter_eq_nil_iff.2, List.filter_eq_self.2, List.nil_append]
    · intro y hy
      obtain ⟨x, hx, rfl⟩ := List.mem_map.1 hy
      obtain ⟨a1, a2, a3, a4⟩ := m2 x hx
      simp only [decide_eq_true_eq]
      refine ⟨⟨by rw [hlen]; exact a4, ⟨_, area _ a1, ?_⟩⟩, far' _ _ a2⟩
      have hp := pos _ a1
      rw [h2 _ a3] at hp ⊢
      linarith
    · intro y hy
      obtain ⟨x, hx, rfl⟩ := List.mem_map.1 hy
      obtain ⟨a1, a2, a3, a4⟩ := m1 x hx
      simp only [decide_eq_true_eq]
      rintro ⟨⟨hle, -⟩, -⟩
      rw [hlen] at hle
      omega

/-- A disc of radius 10 with two round holes of radius 2, and the offset 1: the disc of radius 9 with holes of radius 3. -/
example (std : StdSort) (hash : HashOrder) : ∃ s0 s1 s2 r, computeIslands (codePlatform 0 0) std hash
      ⟨[⟨0, twoHalves ⟨0, 0⟩ ⟨1, 0⟩ 10 1, s0⟩], [⟨0, twoHalves ⟨-5, 0⟩ ⟨1, 0⟩ 2 (-1), s1⟩, ⟨0, twoHalves ⟨5, 0⟩ ⟨0, 1⟩ 2 (-1), s2⟩]⟩ 1 = .ok r ∧
    r.ccwLoops.map OffsetLoop.named = [(0, twoHalves ⟨0, 0⟩ ⟨1, 0⟩ 9 1)] ∧
    r.cwLoops.map OffsetLoop.named = [(1, twoHalves ⟨-5, 0⟩ ⟨1, 0⟩ 3 (-1)), (2, twoHalves ⟨5, 0⟩ ⟨0, 1⟩ 3 (-1))] := by
  obtain ⟨s0, g0, -⟩ := (halves_indexable (c := ⟨0, 0⟩) (e := ⟨1, 0⟩) (r := 10) (σ := 1) (Or.inl rfl) 0 0).indexOf
  obtain ⟨s1, g1, -⟩ := (halves_indexable (c := ⟨-5, 0⟩) (e := ⟨1, 0⟩) (r := 2) (σ := -1) (Or.inr rfl) 0 0).indexOf
  obtain ⟨s2, g2, -⟩ := (halves_indexable (c := ⟨5, 0⟩) (e := ⟨0, 1⟩) (r := 2) (σ := -1) (Or.inr rfl) 0 0).indexOf
  have hd5 : distance ⟨0, 0⟩ ⟨-5, 0⟩ = 5 ∧ distance ⟨0, 0⟩ ⟨5, 0⟩ = 5 ∧ distance ⟨-5, 0⟩ ⟨5, 0⟩ = 10 := by
    refine ⟨?_, ?_, ?_⟩ <;> rw [distance, Real.sqrt_eq_iff_mul_self_eq_of_pos (by norm_num)] <;> norm_num [dist2]
  obtain ⟨r, hr, e1, e2⟩ := C82_circles (std := std) (hash := hash) 0 0
    (input := ⟨[⟨0, twoHalves ⟨0, 0⟩ ⟨1, 0⟩ 10 1, s0⟩], [⟨0, twoHalves ⟨-5, 0⟩ ⟨1, 0⟩ 2 (-1), s1⟩, ⟨0, twoHalves ⟨5, 0⟩ ⟨0, 1⟩ 2 (-1), s2⟩]⟩)
    (delta := 1) (ccw := [⟨⟨0, 0⟩, ⟨1, 0⟩, 10, 1⟩]) (cw := [⟨⟨-5, 0⟩, ⟨1, 0⟩, 2, -1⟩, ⟨⟨5, 0⟩, ⟨0, 1⟩, 2, -1⟩]) rfl rfl
    (by
      intro l hl
      simp only [loopsOf, List.cons_append, List.nil_append, List.mem_cons, List.not_mem_nil, or_false] at hl
      rcases hl with rfl | rfl | rfl
      · exact g0
      · exact g1
      · exact g2)
    (by norm_num)
    (by
      intro k hk
      simp only [List.cons_append, List.nil_append, List.mem_cons, List.not_mem_nil, or_false] at hk
      rcases hk with rfl | rfl | rfl <;> constructor <;> norm_num)
    (by simp) (by simp)
    (by
      simp only [List.cons_append, List.nil_append, List.pairwise_cons, List.mem_cons, List.not_mem_nil, or_false, Room]
      refine ⟨?_, ?_, by simp⟩
      · rintro k (rfl | rfl)
        · right; rw [hd5.1]; norm_num
        · right; rw [hd5.2.1]; norm_num
      · rintro k rfl
        left; rw [hd5.2.2]; norm_num)
    (by simp)
  refine ⟨s0, s1, s2, r, hr, ?_, ?_⟩
  · rw [e1]
    simp only [List.zipIdx_cons, List.zipIdx_nil, List.map_cons, List.map_nil, RoundLoop.polyline, RoundLoop.offset, abs_one]
    norm_num
  · rw [e2]
    simp only [List.zipIdx_cons, List.zipIdx_nil, List.map_cons, List.map_nil, RoundLoop.polyline, RoundLoop.offset, abs_one, List.length_cons, List.length_nil]
    norm_num
end
end Cavc

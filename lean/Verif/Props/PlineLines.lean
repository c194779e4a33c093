import Verif.Props.PlinePrune
import Verif.Proofs.ArcSector
import Verif.Props.SegCurve

/-! C30 (convertArcsToLines). -/
namespace Cavc
open Spec
open scoped Classical

/-- A point of an arc of half angle `β` about the middle direction `μ`, at angle `φ` from it, is at
most the sagitta away from the chord. -/
theorem sagitta {r β φ μ : ℝ} {c : V2} (hr : 0 ≤ r) (hβ0 : 0 < β) (hβ1 : β ≤ Real.pi / 2)
    (hφ : |φ| ≤ β) :
    ∃ s, 0 ≤ s ∧ s ≤ 1 ∧
      distance ⟨c.x + r * Real.cos (μ + φ), c.y + r * Real.sin (μ + φ)⟩
        (lerp ⟨c.x + r * Real.cos (μ - β), c.y + r * Real.sin (μ - β)⟩
          ⟨c.x + r * Real.cos (μ + β), c.y + r * Real.sin (μ + β)⟩ s) ≤ r * (1 - Real.cos β) := by
  rw [abs_le] at hφ
  have hpi := Real.pi_pos
  have hs : 0 < Real.sin β := Real.sin_pos_of_pos_of_lt_pi hβ0 (by linarith)
  have h1 : Real.sin φ ≤ Real.sin β :=
    Real.sin_le_sin_of_le_of_le_pi_div_two (by linarith) hβ1 hφ.2
  have h2 : -Real.sin β ≤ Real.sin φ := by
    rw [← Real.sin_neg]
    exact Real.sin_le_sin_of_le_of_le_pi_div_two (by linarith) (by linarith) hφ.1
  have h3 : Real.cos β ≤ Real.cos φ := by
    rw [← Real.cos_abs φ]
    exact Real.cos_le_cos_of_nonneg_of_le_pi (abs_nonneg _) (by linarith)
      (abs_le.mpr hφ)
  have h4 := Real.cos_le_one φ
  refine ⟨(Real.sin φ + Real.sin β) / (2 * Real.sin β), by apply div_nonneg <;> linarith, ?_, ?_⟩
  · rw [div_le_one (by linarith)]; linarith
  · have hd : dist2 ⟨c.x + r * Real.cos (μ + φ), c.y + r * Real.sin (μ + φ)⟩
        (lerp ⟨c.x + r * Real.cos (μ - β), c.y + r * Real.sin (μ - β)⟩
          ⟨c.x + r * Real.cos (μ + β), c.y + r * Real.sin (μ + β)⟩
          ((Real.sin φ + Real.sin β) / (2 * Real.sin β))) = (r * (Real.cos φ - Real.cos β)) ^ 2 := by
      simp only [dist2, lerp, Real.cos_add, Real.sin_add, Real.cos_sub, Real.sin_sub]
      have hμ := Real.sin_sq_add_cos_sq μ
      have e1 : c.x + r * (Real.cos μ * Real.cos φ - Real.sin μ * Real.sin φ) -
          (c.x + r * (Real.cos μ * Real.cos β + Real.sin μ * Real.sin β) +
            (Real.sin φ + Real.sin β) / (2 * Real.sin β) *
              (c.x + r * (Real.cos μ * Real.cos β - Real.sin μ * Real.sin β) -
                (c.x + r * (Real.cos μ * Real.cos β + Real.sin μ * Real.sin β)))) =
          r * Real.cos μ * (Real.cos φ - Real.cos β) := by
        field_simp; ring
      have e2 : c.y + r * (Real.sin μ * Real.cos φ + Real.cos μ * Real.sin φ) -
          (c.y + r * (Real.sin μ * Real.cos β - Real.cos μ * Real.sin β) +
            (Real.sin φ + Real.sin β) / (2 * Real.sin β) *
              (c.y + r * (Real.sin μ * Real.cos β + Real.cos μ * Real.sin β) -
                (c.y + r * (Real.sin μ * Real.cos β - Real.cos μ * Real.sin β)))) =
          r * Real.sin μ * (Real.cos φ - Real.cos β) := by
        field_simp; ring
      rw [e1, e2]
      linear_combination (r * (Real.cos φ - Real.cos β)) ^ 2 * hμ
    unfold distance
    rw [hd, Real.sqrt_sq (mul_nonneg hr (by linarith))]
    exact mul_le_mul_of_nonneg_left (by linarith) hr

/-- The same with the chord traversed either way: `θ` is the signed step. -/
theorem sagitta_signed {r α θ u : ℝ} {c : V2} (hr : 0 ≤ r) (h0 : θ ≠ 0) (h1 : |θ| ≤ Real.pi)
    (hu0 : 0 ≤ u) (hu1 : u ≤ 1) :
    ∃ s, 0 ≤ s ∧ s ≤ 1 ∧
      distance ⟨c.x + r * Real.cos (α + u * θ), c.y + r * Real.sin (α + u * θ)⟩
        (lerp ⟨c.x + r * Real.cos α, c.y + r * Real.sin α⟩
          ⟨c.x + r * Real.cos (α + θ), c.y + r * Real.sin (α + θ)⟩ s) ≤
        r * (1 - Real.cos (|θ| / 2)) := by
  have hpos : 0 < |θ| := abs_pos.mpr h0
  obtain ⟨s, s0, s1, hs⟩ := sagitta (r := r) (β := |θ| / 2) (φ := (u - 1 / 2) * θ)
    (μ := α + θ / 2) (c := c) hr (by linarith) (by linarith) (by
      rw [abs_mul]
      have : |u - 1 / 2| ≤ 1 / 2 := by rw [abs_le]; constructor <;> linarith
      nlinarith)
  have e0 : α + θ / 2 + (u - 1 / 2) * θ = α + u * θ := by ring
  rw [e0] at hs
  rcases lt_or_gt_of_ne h0 with h | h
  · rw [abs_of_neg h] at hs ⊢
    rw [show α + θ / 2 - -θ / 2 = α + θ by ring, show α + θ / 2 + -θ / 2 = α by ring] at hs
    refine ⟨1 - s, by linarith, by linarith, ?_⟩
    have : ∀ p q : V2, lerp p q (1 - s) = lerp q p s := by
      intro p q; ext <;> simp [lerp] <;> ring
    rw [this]; exact hs
  · rw [abs_of_pos h] at hs ⊢
    rw [show α + θ / 2 - θ / 2 = α by ring, show α + θ / 2 + θ / 2 = α + θ by ring] at hs
    exact ⟨s, s0, s1, hs⟩

theorem arcToLines_spec {v1 v2 : Vertex} (ha : ArcOk v1 v2) (hb : |v1.bulge| ≤ 1) {error : ℝ}
    (he : 0 < error) (hlt : error < (arcOf v1 v2).radius) :
    ∃ piece, arcToLines v1 v2 (arcOf v1 v2) error = .ok piece ∧
      Approximates error v1 v2 piece := by
  have hr := ha.radius_pos
  have hpi := Real.pi_pos
  have hsw := abs_sweep_le hb
  have hs0 : sweep v1 ≠ 0 := by
    rcases lt_or_gt_of_ne ha.b_ne with h | h
    · exact (sweep_neg h).ne
    · exact (sweep_pos h).ne'
  have hk := angle_rot ha.start_ne (sweep v1)
  rw [ha.end_eq] at hk
  have hdelta : |deltaAngle (angle (centerOf v1 v2) v1.pos) (angle (centerOf v1 v2) v2.pos)| =
      |sweep v1| := abs_deltaAngle hsw hk
  set r := (arcOf v1 v2).radius with hrdef
  have hrd : r = distance v1.pos (centerOf v1 v2) := ha.radius_eq
  set c := centerOf v1 v2 with hc
  set α := angle c v1.pos with hα
  set θ := sweep v1 with hθ
  have hq : 1 - error / r < 1 := by
    have : 0 < error / r := by positivity
    linarith
  have hq0 : 0 < 1 - error / r := by
    have : error / r < 1 := (div_lt_one hr).mpr hlt
    linarith
  have harc : 0 < Real.arccos (1 - error / r) := Real.arccos_pos.mpr hq
  set sub := |2 * Real.arccos (1 - error / r)| with hsub
  have hsubv : sub = 2 * Real.arccos (1 - error / r) := abs_of_pos (by linarith)
  have hsub0 : 0 < sub := by rw [hsubv]; linarith
  have hδ0 : 0 < |θ| := abs_pos.mpr hs0
  set n := ⌈|θ| / sub⌉₊ with hn
  have hn0 : 0 < n := Nat.ceil_pos.mpr (by positivity)
  have hnR : (0 : ℝ) < n := by exact_mod_cast hn0
  have hstep : |θ| / n ≤ sub := by
    have := Nat.le_ceil (|θ| / sub)
    rw [← hn] at this
    rw [div_le_iff₀ hsub0] at this
    rw [div_le_iff₀ hnR]; linarith
  have hsgn : (if v1.bulgeIsNeg then -(|θ| / n) else |θ| / n) = θ / n := by
    unfold Vertex.bulgeIsNeg
    rcases lt_or_gt_of_ne ha.b_ne with h | h
    · rw [if_pos h, abs_of_neg (sweep_neg h)]; ring
    · rw [if_neg (by linarith), abs_of_pos (sweep_pos h)]
  unfold arcToLines
  simp only [ha.center, ← hc, ← hα, hdelta, abs_of_pos he]
  rw [← hrdef, if_neg hr.ne', ← hsub, if_neg hsub0.ne', ← hn, if_neg (by omega), hsgn]
  refine ⟨_, rfl, n, fun k => rot c ((k : ℝ) / n * θ) v1.pos, hn0, ?_, ?_, ?_⟩
  · obtain ⟨m, hm⟩ : ∃ m, n = m + 1 := ⟨n - 1, by omega⟩
    rw [hm, Nat.add_sub_cancel, List.range_succ_eq_map, List.map_cons, List.map_map]
    congr 1
    · congr 1
      simp [rot_zero]
    · apply List.map_congr_left
      intro k hk
      simp only [Function.comp, rot_polar, ← hα, ← hrd]
      congr 1
      have : ((k + 1 : ℕ) : ℝ) * (θ / ((m + 1 : ℕ) : ℝ)) + α =
        α + ((k.succ : ℕ) : ℝ) / ((m + 1 : ℕ) : ℝ) * θ := by push_cast; ring
      rw [this]
      ext <;> simp only <;> ring
  · intro k hkn
    exact (atParam_arc ha.arc).mpr rfl
  · intro k hkn t y ht0 ht1 hy
    rw [atParam_arc ha.arc, ← hc, rot_polar, ← hα, ← hrd] at hy
    have hu0 : 0 ≤ t * n - k := by rw [div_le_iff₀ hnR] at ht0; linarith
    have hu1 : t * n - k ≤ 1 := by rw [le_div_iff₀ hnR] at ht1; linarith
    have habs : |θ / n| = |θ| / n := by rw [abs_div, abs_of_pos hnR]
    have hn1 : (1 : ℝ) ≤ n := by exact_mod_cast hn0
    obtain ⟨s, s0, s1, hs⟩ := sagitta_signed (r := r) (α := α + k / n * θ) (θ := θ / n)
      (u := t * n - k) (c := c) hr.le (div_ne_zero hs0 hnR.ne')
      (by rw [habs]; exact (div_le_self hδ0.le hn1).trans hsw) hu0 hu1
    refine ⟨s, s0, s1, ?_⟩
    have e1 : α + k / n * θ + (t * n - k) * (θ / n) = α + t * θ := by field_simp; ring
    have e2 : α + k / n * θ + θ / n = α + ((k : ℝ) + 1) / n * θ := by field_simp; ring
    rw [e1, e2, ← hy] at hs
    simp only
    rw [rot_polar, rot_polar, ← hα, ← hrd]
    push_cast
    refine hs.trans ?_
    rw [habs]
    have hcos : 1 - error / r ≤ Real.cos (|θ| / n / 2) := by
      have h1 : |θ| / n / 2 ≤ Real.arccos (1 - error / r) := by rw [hsubv] at hstep; linarith
      have h2 : Real.cos (Real.arccos (1 - error / r)) = 1 - error / r :=
        Real.cos_arccos (by linarith) (by linarith)
      rw [← h2]
      exact Real.cos_le_cos_of_nonneg_of_le_pi (by positivity) (Real.arccos_le_pi _) h1
    calc r * (1 - Real.cos (|θ| / n / 2)) ≤ r * (error / r) :=
          mul_le_mul_of_nonneg_left (by linarith) hr.le
      _ = error := by field_simp

/-- What `convertArcsToLines` does with one segment. -/
def LinePiece (error : ℝ) (x : Vertex × Vertex × ℕ) (piece : List Vertex) : Prop :=
  if IsLine x.1 then piece = [x.1]
  else if ∃ c, IsCenter x.1 x.2.1 c ∧ distance x.1.pos c < error + 1 / 10 ^ 8 then piece = [x.1]
  else Approximates error x.1 x.2.1 piece

theorem linesFold {error : ℝ} (he : 0 < error) (l : List (Vertex × Vertex × ℕ))
    (hl : ∀ x ∈ l, SegOk x.1 x.2.1) : ∀ (q : Polyline),
    ∃ pieces, l.foldlM (fun st (x : Vertex × Vertex × ℕ) => linesVisitor st x.1 x.2.1 x.2.2)
        (q, error) = .ok (⟨q.isClosed, q.vertexes ++ pieces.flatten⟩, error) ∧
      List.Forall₂ (LinePiece error) l pieces := by
  induction l with
  | nil => intro q; exact ⟨[], by simp [pure_eq_ok], List.Forall₂.nil⟩
  | cons a l ih =>
    intro q
    have hok := hl a (by simp)
    have hrest : ∀ x ∈ l, SegOk x.1 x.2.1 := fun x hx => hl x (by simp [hx])
    have step : ∃ piece, linesVisitor (q, error) a.1 a.2.1 a.2.2 =
        .ok (⟨q.isClosed, q.vertexes ++ piece⟩, error) ∧ LinePiece error a piece := by
      unfold linesVisitor LinePiece
      by_cases hline : IsLine a.1
      · simp only [if_pos (show a.1.bulgeIsZero from hline), if_pos hline]
        exact ⟨[a.1], rfl, rfl⟩
      · have ha := hok.arcOk hline
        simp only [if_neg (show ¬ a.1.bulgeIsZero from hline), if_neg hline, ha.run, ok_bind]
        have hiff : (∃ c, IsCenter a.1 a.2.1 c ∧ distance a.1.pos c < error + 1 / 10 ^ 8) ↔
            (arcOf a.1 a.2.1).radius < error + realThreshold := by
          rw [ha.radius_eq]
          constructor
          · rintro ⟨c, hc, h⟩
            rw [isCenter_unique ha.b_ne hc] at h
            exact h
          · intro h
            exact ⟨_, isCenter_centerOf ha.b_ne, h⟩
        by_cases hs : (arcOf a.1 a.2.1).radius < error + realThreshold
        · simp only [if_pos hs, if_pos (hiff.mpr hs)]
          exact ⟨[a.1], rfl, rfl⟩
        · simp only [if_neg hs, if_neg (fun h => hs (hiff.mp h))]
          have hlt : error < (arcOf a.1 a.2.1).radius := by
            have := realThreshold_pos
            linarith [not_lt.mp hs]
          obtain ⟨piece, h1, h2⟩ := arcToLines_spec ha hok.half he hlt
          refine ⟨piece, ?_, h2⟩
          rw [h1, ok_bind, abs_of_pos he]
          rfl
    obtain ⟨piece, h1, h2⟩ := step
    obtain ⟨pieces, h3, h4⟩ := ih hrest ⟨q.isClosed, q.vertexes ++ piece⟩
    refine ⟨piece :: pieces, ?_, List.Forall₂.cons h2 h4⟩
    rw [List.foldlM_cons, h1, ok_bind, h3]
    simp

/-- C30. For a positive error the result is the concatenation of one piece per segment: a straight
segment gives its start vertex; an arc of radius at least `error + 1e-8` is replaced by straight
segments whose end points divide the arc evenly and which are within `error` of it; a smaller arc is
kept as it is. The order is that of the segments, except that for closed polylines the closing
segment comes first; open polylines get their last vertex at the end. -/
theorem C30_convertArcsToLines (p : Polyline) (hok : PlineOk p) (h2 : 2 ≤ p.vertexes.length)
    {error : ℝ} (he : 0 < error) :
    ∃ (q : Polyline) (pieces : List (List Vertex)),
      convertArcsToLines p error = .ok q ∧ q.isClosed = p.isClosed ∧
      List.Forall₂ (fun (s : Vertex × Vertex) piece =>
          if IsLine s.1 then piece = [s.1]
          else if ∃ c, IsCenter s.1 s.2 c ∧ distance s.1.pos c < error + 1 / 10 ^ 8
            then piece = [s.1]
          else Approximates error s.1 s.2 piece)
        (if p.isClosed = true then (segs p).rotate ((segs p).length - 1) else segs p) pieces ∧
      q.vertexes = pieces.flatten ++
        (if p.isClosed = true then [] else p.vertexes.drop (p.vertexes.length - 1)) := by
  have hs : ¬ p.size < 2 := by unfold Polyline.size; omega
  have hsz : p.vertexes.length = p.size := rfl
  obtain ⟨pieces, h1, h3⟩ := linesFold he (visitList p)
    (fun x hx => hok x.2.2 _ _ (mem_visitList.mp hx)) ⟨p.isClosed, []⟩
  have hmap : (visitList p).map (fun x => (x.1, x.2.1)) =
      (if p.isClosed = true then (segs p).rotate ((segs p).length - 1) else segs p) := by
    have hlen := segs_length p
    unfold visitList visitOrder
    rw [if_neg hs]
    rw [if_neg hs] at hlen
    have hse := segs_eq p
    rw [if_neg hs] at hse
    by_cases hc : p.isClosed = true
    · rw [if_pos hc] at hlen hse ⊢
      rw [if_pos hc, hlen, hse]
      obtain ⟨m, hm⟩ : ∃ m, p.size = m + 1 := ⟨p.size - 1, by omega⟩
      rw [List.rotate_eq_drop_append_take (by simp)]
      rw [List.drop_eq_getElem_cons (by simp; omega)]
      simp only [List.map_append, List.map_cons, List.map_nil, List.map_map, hm,
        Nat.add_sub_cancel, List.range_succ]
      rw [List.take_append_of_le_length (by simp), List.drop_of_length_le (by simp)]
      simp only [List.length_map, List.length_range,
        List.singleton_append, List.take_of_length_le, le_refl, List.getElem_append]
      simp only [lt_irrefl, dif_neg, not_false_eq_true, Nat.sub_self, List.getElem_singleton,
        if_true]
      congr 1
      apply List.map_congr_left
      intro i hi
      rw [List.mem_range] at hi
      simp only [Function.comp]
      rw [if_neg (by omega)]
    · rw [if_neg hc] at hlen hse ⊢
      rw [if_neg hc, hse, List.nil_append, List.map_map, List.map_map]
      apply List.map_congr_left
      intro i hi
      rw [List.mem_range] at hi
      simp only [Function.comp]
      rw [if_neg (by omega)]
  have hf : List.Forall₂ (fun (s : Vertex × Vertex) piece =>
          if IsLine s.1 then piece = [s.1]
          else if ∃ c, IsCenter s.1 s.2 c ∧ distance s.1.pos c < error + 1 / 10 ^ 8
            then piece = [s.1]
          else Approximates error s.1 s.2 piece)
        (if p.isClosed = true then (segs p).rotate ((segs p).length - 1) else segs p) pieces := by
    rw [← hmap, List.forall₂_map_left_iff]
    exact h3
  unfold convertArcsToLines
  rw [visitAll_eq, h1, ok_bind]
  simp only [List.nil_append]
  by_cases hc : p.isClosed = true
  · rw [if_neg (by simp [hc])]
    refine ⟨_, pieces, rfl, rfl, hf, ?_⟩
    rw [if_pos hc, List.append_nil]
  · rw [if_pos hc]
    have hne : p.vertexes ≠ [] := by intro h; rw [h] at h2; simp at h2
    have : p.lastVertex = .ok (p.vertexes.getLast hne) := by
      simp [Polyline.lastVertex, List.getLast?_eq_some_getLast hne]
    rw [this, ok_bind]
    refine ⟨_, pieces, rfl, rfl, hf, ?_⟩
    rw [if_neg hc]
    simp only [Polyline.addVertex]
    congr 1
    rw [List.drop_length_sub_one hne]

/-- C30: a half circle of radius 1 with error 1/2 is split; the hypotheses hold. -/
example : ∃ q, convertArcsToLines ⟨false, [semiStart, semiEnd]⟩ (1 / 2) = .ok q ∧
    2 ≤ q.vertexes.length := by
  have hs : ∀ i v1 v2, IsSeg ⟨false, [semiStart, semiEnd]⟩ i v1 v2 →
      v1 = semiStart ∧ v2 = semiEnd := by
    intro i v1 v2 hs
    unfold IsSeg segs at hs
    rcases i with _ | i
    · simp at hs; exact ⟨hs.1.symm, hs.2.symm⟩
    · simp at hs
  obtain ⟨q, pieces, h1, -, h3, h4⟩ := C30_convertArcsToLines ⟨false, [semiStart, semiEnd]⟩ (by
    intro i v1 v2 h
    obtain ⟨rfl, rfl⟩ := hs i v1 v2 h
    exact semi_ok.1) (by simp) (error := 1 / 2) (by norm_num)
  refine ⟨q, h1, ?_⟩
  have hsegs : segs ⟨false, [semiStart, semiEnd]⟩ = [(semiStart, semiEnd)] := by simp [segs]
  rw [hsegs] at h3
  simp only [Bool.false_eq_true, if_false] at h3 h4
  obtain ⟨piece, l', hp, hl', rfl⟩ := List.forall₂_cons_left_iff.mp h3
  rw [List.forall₂_nil_left_iff] at hl'
  subst hl'
  simp only at hp
  rw [if_neg semi_ok.2, if_neg] at hp
  · obtain ⟨n, x, hn, rfl, -⟩ := hp
    rw [h4]
    simp
    omega
  · rintro ⟨c, hc, hd⟩
    rw [isCenter_unique (bulge_ne_zero semi_ok.2) hc, semi_center] at hd
    norm_num [distance, dist2, semiStart] at hd

/-- C30: an open polyline without vertexes reads the last vertex of an empty vector. -/
theorem C30_empty_witness (error : ℝ) :
    convertArcsToLines ⟨false, []⟩ error = .error .emptyVector := by
  simp [convertArcsToLines, Polyline.visitSegIndices, Polyline.size, Polyline.lastVertex]

end Cavc

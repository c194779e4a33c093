import Verif.Proofs.OffsetJump
import Verif.Proofs.EdgeBalance
import Verif.Proofs.Beside

/-! Segments that make up the exact offset of a polygon: how often they turn about a point only changes where the
points further away from the polygon are entered or left. -/
namespace Cavc
open Spec
open scoped Classical
open Filter Topology
noncomputable section

/-- The segments are parts of the raw offset that make up the exact offset, each part once, all apart from the
points of `X`. -/
structure LevelEdges (p raw : Polyline) (offset : ℝ) (X : Set V2) (es : List (Vertex × V2)) : Prop where
  fin : X.Finite
  sub : ∀ e ∈ es, ∃ (k : ℕ) (s t : ℝ), k < raw.size ∧ 0 ≤ s ∧ t ≤ 1 ∧
    Sub e.1 ⟨e.2, 0⟩ (rv raw k) (rv raw (k + 1)) s t
  ends : ∀ e ∈ es, e.1.pos ∈ X ∧ e.2 ∈ X
  level : ∀ e ∈ es, ∀ z, eOn z e → AtOffset p offset z
  cover : ∀ z, AtOffset p offset z → z ∉ X → ∃ e ∈ es, eOn z e
  once : es.Pairwise fun e f => ∀ z, z ∉ X → eOn z e → ¬ eOn z f
  passed : ∀ z, PassedTwice raw z → z ∈ X

theorem part_jump {v e : Vertex} (hok : SegOk v e)
    (hne : 1 / 10 ^ 8 ≤ |v.pos.x - e.pos.x| ∨ 1 / 10 ^ 8 ≤ |v.pos.y - e.pos.y|) (hpos : v.pos ≠ e.pos) {s t τ : ℝ}
    (s0 : 0 ≤ s) (t1 : t ≤ 1) (h1 : s < τ) (h2 : τ < t) :
    ∃ G : ℝ × ℝ → ℝ, ContinuousAt G (xy (segPt v e τ)) ∧ ∀ᶠ x in 𝓝 (xy (segPt v e τ)), leftOf v e (toV x) ≠ 0 →
      turn v e (toV x) s t = G x + 2 * Real.pi * (if 0 < leftOf v e (toV x) then 1 else 0) := by
  obtain ⟨G, hG, hev⟩ := seg_jump hok hne (t := τ) (by linarith) (by linarith)
  refine ⟨fun x => G x - turn v e (toV x) 0 s - turn v e (toV x) t 1, ?_, ?_⟩
  · refine (hG.sub (turn_continuousAt s0 fun r hr he => ?_)).sub (turn_continuousAt t1 fun r hr he => ?_)
    · rw [toV_xy] at he
      have := segPt_inj hok hpos hr.1 (by linarith [hr.2]) (by linarith) (by linarith) he
      linarith [hr.2]
    · rw [toV_xy] at he
      have := segPt_inj hok hpos (by linarith [hr.1]) hr.2 (by linarith) (by linarith) he
      linarith [hr.1]
  · filter_upwards [hev] with x hx hl
    have hoff : ∀ r, segPt v e r ≠ toV x := by
      intro r hr
      rw [← hr] at hl
      exact hl (leftOf_self v e r)
    have := hx hl
    rw [← turn_add (v := v) (e := e) (x := toV x) s0 (show s ≤ 1 by linarith) (fun r _ => hoff r),
      ← turn_add (v := v) (e := e) (x := toV x) (show s ≤ t by linarith) t1 (fun r _ => hoff r)] at this
    linarith

/-- Around an inner point of a part, the points neither to the left nor to the right are on the part. -/
theorem on_part {v e : Vertex} (hok : SegOk v e) (hpos : v.pos ≠ e.pos) {s t τ : ℝ} (h1 : s < τ) (h2 : τ < t) :
    ∀ᶠ x in 𝓝 (xy (segPt v e τ)), leftOf v e (toV x) = 0 → ∃ r, s < r ∧ r < t ∧ toV x = segPt v e r := by
  have hε : 0 < min (min (τ - s) (t - τ)) 1 := lt_min (lt_min (by linarith) (by linarith)) one_pos
  filter_upwards [beside hpos hok (t0 := τ) hε] with x ⟨r, u, hr, hu, hx⟩ hl
  have b1 := hr.trans_le ((min_le_left _ _).trans (min_le_left _ _))
  have b2 := hr.trans_le ((min_le_left _ _).trans (min_le_right _ _))
  have b3 := hu.trans_le (min_le_right _ _)
  rw [abs_lt] at b1 b2 b3
  obtain ⟨q1, q2⟩ := leftOf_sideP hpos (fun hl => (hok.arcOk hl).start_ne) (t := r) b3.1 b3.2
  rw [← hx, hl] at q1 q2
  have hu0 : u = 0 := le_antisymm (not_lt.1 fun h => lt_irrefl _ (q1.2 h)) (not_lt.1 fun h => lt_irrefl _ (q2.2 h))
  refine ⟨r, by linarith, by linarith, ?_⟩
  rw [hx, hu0, sideP_zero]

section
variable {p raw : Polyline} {offset : ℝ} {σ : ℝ} {V V' : ℤ}

theorem closer_near {x0 : V2} {d : ℝ} (hd : 0 ≤ d) (h : Closer p d x0) : ∀ᶠ x in 𝓝 (xy x0), Closer p d (toV x) := by
  obtain ⟨z, hz, hlt⟩ := h
  have hc : Continuous fun x : ℝ × ℝ => distance (toV x) z := by
    unfold distance dist2 toV
    fun_prop
  filter_upwards [(hc.tendsto (xy x0)).eventually (gt_mem_nhds (by rw [toV_xy]; exact hlt))] with x hx
  exact ⟨z, hz, hx⟩

theorem deep_not_closer (hp : SimplePolygon p) {x : V2} (h : DeepP (ppos p) p.size offset V x) : ¬ Closer p |offset| x := by
  rw [closer_iff, not_not, notCloser_iff hp]
  exact fun k hk z hz => (h.2 k hk z hz).le

/-- Off the exact offset, either all points around are further away from the polygon, on the side of the offset, or none is. -/
theorem deep_near (hp : SimplePolygon p) (hne : offset ≠ 0)
    (hside : ∀ x, ¬ OnPline p x → (OnOffsetSide p offset x ↔ polyW (ppos p) p.size x = V)) {z : V2}
    (hz : ¬ AtOffset p offset z) :
    ∀ᶠ x in 𝓝 (xy z), DeepP (ppos p) p.size offset V (toV x) ↔ DeepP (ppos p) p.size offset V z := by
  by_cases hcl : Closer p |offset| z
  · filter_upwards [closer_near (abs_nonneg _) hcl] with x hx
    exact ⟨fun h => absurd hx (deep_not_closer hp h), fun h => absurd hcl (deep_not_closer hp h)⟩
  rw [closer_iff, not_not] at hcl
  have hf := (notCloser_iff hp).1 hcl
  have hoff := farP_off hne hf
  have hon : ¬ OnPline p z := by
    rw [polygon_onPline hp.closed hp.lines]
    rintro ⟨-, k, hk, h⟩
    exact hoff k hk h
  by_cases hW : polyW (ppos p) p.size z = V
  · have hd : ∀ k < p.size, ∀ w, OnLine (ppos p k) (ppos p (k + 1)) w → offset ^ 2 < dist2 z w := by
      intro k hk w hw
      refine lt_of_le_of_ne (hf k hk w hw) fun hd => hz ⟨(hside z hon).2 hW, hcl, w, ?_, ?_⟩
      · rw [polygon_onPline hp.closed hp.lines]
        exact ⟨hp.two', k, hk, hw⟩
      · unfold distance
        rw [← hd, Real.sqrt_sq_eq_abs]
    have hev : ∀ᶠ x in 𝓝 (xy z), ∀ k ∈ Finset.range p.size, ∀ w, OnLine (ppos p k) (ppos p (k + 1)) w →
        offset ^ 2 < dist2 (toV x) w := by
      rw [Filter.eventually_all_finset]
      exact fun k hk => far_near (hd k (Finset.mem_range.1 hk))
    filter_upwards [hev, hp.simpleP.polyW_near hoff] with x h1 h2
    exact ⟨fun _ => ⟨hW, hd⟩, fun _ => ⟨h2.trans hW, fun k hk => h1 k (Finset.mem_range.2 hk)⟩⟩
  · filter_upwards [hp.simpleP.polyW_near hoff] with x h2
    exact ⟨fun h => absurd (h2.symm.trans h.1) hW, fun h => absurd h.1 hW⟩

theorem eTurns_continuousAt : ∀ {es : List (Vertex × V2)} {z : V2}, eOff es z →
    ContinuousAt (fun x : ℝ × ℝ => eTurns es (toV x)) (xy z)
  | [], z, _ => by simp [eTurns]; exact continuousAt_const
  | e :: es, z, h => by
    simp only [eTurns_cons]
    rw [eOff_cons] at h
    refine ContinuousAt.add (turn_continuousAt zero_le_one fun r hr he => h.1 ?_) (eTurns_continuousAt h.2)
    exact onSeg_segPt.2 ⟨r, hr.1, hr.2, he.symm⟩

theorem LevelEdges.noJumps {X : Set V2} {es : List (Vertex × V2)} (h : LevelEdges p raw offset X es)
    (hp : SimplePolygon p) (hne : offset ≠ 0) (hclear : ClearOffset p offset)
    (hraw : createRawOffsetPline p offset = .ok raw) (hrok : ∀ k, SegOk (rv raw k) (rv raw (k + 1)))
    (hfar : ∀ k, ¬ Near (1 / 10 ^ 5) (rv raw k).pos (rv raw (k + 1)).pos)
    (hV : Sides (ppos p) p.size σ V V') (hσ : 0 < σ * offset)
    (hside : ∀ x, ¬ OnPline p x → (OnOffsetSide p offset x ↔ polyW (ppos p) p.size x = V)) :
    NoJumps es (DeepP (ppos p) p.size offset V) σ X := by
  intro z hz
  by_cases hzo : eOff es z
  · have hat : ¬ AtOffset p offset z := by
      intro hat
      obtain ⟨e, he, ho⟩ := h.cover z hat hz
      exact hzo e he ho
    refine ⟨fun x => eTurns es (toV x) / (2 * Real.pi) - σ * (if DeepP (ppos p) p.size offset V z then 1 else 0),
      ((eTurns_continuousAt hzo).div_const _).sub continuousAt_const, ?_⟩
    filter_upwards [deep_near hp hne hside hat] with x hx _
    unfold eRest
    simp only [hx]
  · unfold eOff at hzo
    push Not at hzo
    obtain ⟨e, he, hon⟩ := hzo
    obtain ⟨l1, l2, rfl⟩ := List.append_of_mem he
    have hperm : (l1 ++ e :: l2).Perm (e :: (l1 ++ l2)) := List.perm_middle
    have hon1 := (hperm.pairwise_iff (fun {a b} hab z hz hb ha => hab z hz ha hb)).1 h.once
    obtain ⟨hrest, -⟩ := List.pairwise_cons.1 hon1
    have hroff : eOff (l1 ++ l2) z := fun f hf => hrest f hf z hz hon
    obtain ⟨k, s, t, hk, s0, t1, hsub⟩ := h.sub e he
    obtain ⟨τ, τ0, τ1, rfl⟩ := hsub.onSeg.1 hon
    have hs : s < τ := lt_of_le_of_ne τ0 (by rintro rfl; exact hz (hsub.start ▸ (h.ends e he).1))
    have ht : τ < t := lt_of_le_of_ne τ1 (by rintro rfl; exact hz (hsub.stop ▸ (h.ends e he).2))
    have hpos : (rv raw k).pos ≠ (rv raw (k + 1)).pos := ne_of_not_near (by norm_num) (hfar k)
    have hfar8 : 1 / 10 ^ 8 ≤ |(rv raw k).pos.x - (rv raw (k + 1)).pos.x| ∨
        1 / 10 ^ 8 ≤ |(rv raw k).pos.y - (rv raw (k + 1)).pos.y| := by
      rcases not_near_or (hfar k) with q | q
      · left; refine le_trans ?_ q; norm_num
      · right; refine le_trans ?_ q; norm_num
    obtain ⟨G, hG, hjump⟩ := part_jump (hrok k) hfar8 hpos s0 t1 hs ht
    have hcl := (h.level e he _ hon).2.1
    have hD := raw_side hp hne hclear hraw hV hσ hk hpos (by linarith) (by linarith) hcl (fun q => hz (h.passed _ q))
    have hpart := on_part (hrok k) hpos hs ht
    have hpi := Real.pi_pos
    refine ⟨fun x => (eTurns (l1 ++ l2) (toV x) + G x) / (2 * Real.pi) + (if σ = 1 then 0 else 1),
      (((eTurns_continuousAt hroff).add hG).div_const _).add continuousAt_const, ?_⟩
    filter_upwards [hjump, hD, hpart] with x h1 h2 h3 hoff
    have hl : leftOf (rv raw k) (rv raw (k + 1)) (toV x) ≠ 0 := by
      intro q
      obtain ⟨r, r0, r1, hr⟩ := h3 q
      exact hoff e (by simp) (hsub.onSeg.2 ⟨r, r0.le, r1.le, hr⟩)
    unfold eRest
    rw [eTurns_perm hperm, eTurns_cons, show eTurn (toV x) e = turn e.1 ⟨e.2, 0⟩ (toV x) 0 1 from rfl, turn_sub hsub,
      h1 hl]
    simp only [h2]
    clear h1 h2 h3 hD hjump hpart
    generalize leftOf (rv raw k) (rv raw (k + 1)) (toV x) = L at hl ⊢
    have hn1 : ¬ (-1 : ℝ) = 1 := by norm_num
    have hpi' : Real.pi ≠ 0 := hpi.ne'
    rcases lt_or_gt_of_ne hl with q | q
    · have q1 : ¬ 0 < L := by linarith
      have q2 : ¬ 0 < 1 * L := by linarith
      have q3 : 0 < -1 * L := by linarith
      rcases hV.1 with e1 | e1
      · simp only [e1, if_neg q1, if_neg q2, if_true]
        field_simp
        ring
      · simp only [e1, if_neg q1, if_pos q3, if_neg hn1]
        field_simp
        ring
    · have q2 : 0 < 1 * L := by linarith
      have q3 : ¬ 0 < -1 * L := by linarith
      rcases hV.1 with e1 | e1
      · simp only [e1, if_pos q, if_pos q2, if_true]
        field_simp
        ring
      · simp only [e1, if_pos q, if_neg q3, if_neg hn1]
        field_simp
        ring

end
end
end Cavc

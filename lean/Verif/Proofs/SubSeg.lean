import Verif.Proofs.PlineConn
import Verif.Props.Segment
import Verif.Props.SegCurve

/-! Parts of a segment: what splitting makes of it. -/
namespace Cavc
open Spec
open scoped Classical
noncomputable section

theorem atParam_segPt {v e : Vertex} {t : ℝ} {x : V2} : AtParam v e t x ↔ x = segPt v e t := by
  unfold segPt
  by_cases hl : IsLine v
  · rw [if_pos hl, atParam_line hl]
  · rw [if_neg hl, atParam_arc hl]

theorem segPt_congr {v e e' : Vertex} (h : e.pos = e'.pos) (t : ℝ) : segPt v e t = segPt v e' t := by
  have hc : ∀ q, AtParam v e t q ↔ AtParam v e' t q := by
    intro q
    unfold AtParam IsCenter
    rw [h]
  exact atParam_segPt.1 ((hc _).1 (atParam_segPt.2 rfl))

theorem segOk_congr {v e e' : Vertex} (h : e.pos = e'.pos) (hs : SegOk v e) : SegOk v e' :=
  ⟨hs.half, by rw [← h]; exact hs.distinct⟩

theorem rot_sq (c v : V2) (θ : ℝ) : dist2 v (rot c θ v) = 2 * dist2 v c * (1 - Real.cos θ) := by
  simp only [dist2, rot]
  linear_combination ((v.x - c.x) ^ 2 + (v.y - c.y) ^ 2) * Real.sin_sq_add_cos_sq θ

/-- Along a segment the distance from its start grows. -/
theorem dist2_segPt_lt {v e : Vertex} (hok : SegOk v e) (hne : v.pos ≠ e.pos) {t t' : ℝ} (h0 : 0 ≤ t)
    (h : t < t') (h1 : t' ≤ 1) : dist2 v.pos (segPt v e t) < dist2 v.pos (segPt v e t') := by
  unfold segPt
  by_cases hl : IsLine v
  · rw [if_pos hl, if_pos hl]
    have hd := dist2_pos hne
    have e1 : ∀ t, dist2 v.pos (lerp v.pos e.pos t) = t ^ 2 * dist2 v.pos e.pos := by
      intro t; simp only [dist2, lerp]; ring
    rw [e1, e1]
    have : t ^ 2 < t' ^ 2 := by nlinarith
    exact mul_lt_mul_of_pos_right this hd
  · rw [if_neg hl, if_neg hl, rot_sq, rot_sq]
    have ha := hok.arcOk hl
    have hR := dist2_pos ha.start_ne
    have hsw := abs_sweep_le hok.half
    have hs0 : 0 < |sweep v| := by
      rw [abs_pos]
      unfold sweep
      have := mt Real.arctan_eq_zero_iff.1 ha.b_ne
      exact mul_ne_zero (by norm_num) this
    have hc : Real.cos (t' * sweep v) < Real.cos (t * sweep v) := by
      rw [← Real.cos_abs (t' * sweep v), ← Real.cos_abs (t * sweep v), abs_mul, abs_mul, abs_of_nonneg h0,
        abs_of_nonneg (h0.trans h.le)]
      apply Real.cos_lt_cos_of_nonneg_of_le_pi
      · positivity
      · nlinarith
      · exact mul_lt_mul_of_pos_right h hs0
    have : 0 < 2 * dist2 v.pos (centerOf v e) := by linarith
    exact mul_lt_mul_of_pos_left (by linarith) this

theorem segPt_inj {v e : Vertex} (hok : SegOk v e) (hne : v.pos ≠ e.pos) {t t' : ℝ} (h0 : 0 ≤ t) (h1 : t ≤ 1)
    (h0' : 0 ≤ t') (h1' : t' ≤ 1) (h : segPt v e t = segPt v e t') : t = t' := by
  rcases lt_trichotomy t t' with hlt | heq | hlt
  · have := dist2_segPt_lt hok hne h0 hlt h1'
    rw [h] at this
    exact absurd this (lt_irrefl _)
  · exact heq
  · have := dist2_segPt_lt hok hne h0' hlt h1
    rw [h] at this
    exact absurd this (lt_irrefl _)

/-- The segment from `u` to `w` is the part of the one from `v` to `e` from parameter `a` to `b`. -/
structure Sub (u w v e : Vertex) (a b : ℝ) : Prop where
  lt : a < b
  pts : ∀ s, segPt u w s = segPt v e (a + (b - a) * s)
  kind : IsLine u ↔ IsLine v
  turn : ¬ IsLine v → sweep u = (b - a) * sweep v
  ok : SegOk u w
  far : ¬ Near (1 / 10 ^ 5) u.pos w.pos

theorem Sub.congr {u w w' v e : Vertex} {a b : ℝ} (h : Sub u w v e a b) (hp : w.pos = w'.pos) :
    Sub u w' v e a b :=
  ⟨h.lt, fun s => by rw [← segPt_congr hp, h.pts], h.kind, h.turn, segOk_congr hp h.ok, hp ▸ h.far⟩

theorem Sub.whole {v e : Vertex} (hok : SegOk v e) (hf : ¬ Near (1 / 10 ^ 5) v.pos e.pos) : Sub v e v e 0 1 :=
  ⟨one_pos, fun s => by rw [zero_add, sub_zero, one_mul], Iff.rfl, fun _ => by ring, hok, hf⟩

/-- The part of an arc has the same center. -/
theorem Sub.center {u w v e : Vertex} {a b : ℝ} (h : Sub u w v e a b) (hn : ¬ IsLine v) {c : V2} (hc : IsCenter v e c) :
    IsCenter u w c := by
  have hb := bulge_ne_zero hn
  have hce := isCenter_unique hb hc
  have e0 := h.pts 0
  have e1 := h.pts 1
  rw [segPt_zero] at e0
  rw [segPt_one] at e1
  unfold segPt at e0 e1
  rw [if_neg hn, mul_zero, add_zero] at e0
  rw [if_neg hn, mul_one, add_sub_cancel] at e1
  unfold IsCenter
  rw [e0, e1, h.turn hn, hce, rot_add]
  congr 1
  ring

theorem Sub.start {u w v e : Vertex} {a b : ℝ} (h : Sub u w v e a b) : u.pos = segPt v e a := by
  have := h.pts 0
  rwa [segPt_zero, mul_zero, add_zero] at this

theorem Sub.stop {u w v e : Vertex} {a b : ℝ} (h : Sub u w v e a b) : w.pos = segPt v e b := by
  have := h.pts 1
  rwa [segPt_one, mul_one, add_sub_cancel] at this

theorem Sub.onSeg {u w v e : Vertex} {a b : ℝ} (h : Sub u w v e a b) {x : V2} :
    OnSeg u w x ↔ ∃ t, a ≤ t ∧ t ≤ b ∧ x = segPt v e t := by
  rw [onSeg_segPt]
  have hl := h.lt
  constructor
  · rintro ⟨s, h0, h1, rfl⟩
    exact ⟨a + (b - a) * s, by nlinarith, by nlinarith, h.pts s⟩
  · rintro ⟨t, h0, h1, rfl⟩
    have hp : 0 < b - a := by linarith
    refine ⟨(t - a) / (b - a), div_nonneg (by linarith) hp.le, (div_le_one hp).2 (by linarith), ?_⟩
    rw [h.pts]
    congr 1
    field_simp
    ring

theorem not_near_or {ε : ℝ} {a b : V2} (h : ¬ Near ε a b) : ε ≤ |a.x - b.x| ∨ ε ≤ |a.y - b.y| := by
  unfold Near at h
  by_contra hc
  push Not at hc
  exact h hc

theorem arc_of_sweep {v : Vertex} (h : 1 / 10 ^ 4 ≤ |sweep v|) : ¬ IsLine v := by
  intro hl
  unfold IsLine at hl
  have h1 : |Real.arctan v.bulge| ≤ |v.bulge| := arctan_abs_le _
  unfold sweep at h
  rw [abs_mul, show |(4 : ℝ)| = 4 by norm_num] at h
  have : (1 : ℝ) / 10 ^ 5 = 1 / 10 ^ 4 / 10 := by norm_num
  have : (0 : ℝ) < 1 / 10 ^ 4 := by norm_num
  linarith

theorem half_of_sweep {v : Vertex} (h : |sweep v| ≤ Real.pi) : |v.bulge| ≤ 1 := by
  unfold sweep at h
  rw [abs_mul, show |(4 : ℝ)| = 4 by norm_num] at h
  have h1 : |Real.arctan v.bulge| ≤ Real.pi / 4 := by linarith
  rw [abs_le] at h1 ⊢
  rw [← Real.arctan_one] at h1
  constructor
  · rw [← Real.arctan_neg] at h1
    exact Real.arctan_strictMono.le_iff_le.1 h1.1
  · exact Real.arctan_strictMono.le_iff_le.1 h1.2

/-- Splitting a part of a segment makes two parts of it. -/
theorem Sub.split {u w v e : Vertex} {a b t : ℝ} (h : Sub u w v e a b) (hat : a < t) (htb : t < b) {x : V2}
    (hx : x = segPt v e t) (hf1 : ¬ Near (1 / 10 ^ 5) u.pos x) (hf2 : ¬ Near (1 / 10 ^ 5) x w.pos)
    (ha : ¬ IsLine v → 1 / 10 ^ 4 ≤ (t - a) * |sweep v|) (hb : ¬ IsLine v → 1 / 10 ^ 4 ≤ (b - t) * |sweep v|) :
    ∃ r, splitAtPoint u w x = .ok r ∧ Sub r.updatedStart r.splitVertex v e a t ∧ Sub r.splitVertex w v e t b ∧
      r.updatedStart.pos = u.pos ∧ r.splitVertex.pos = x := by
  have hp : 0 < b - a := by linarith [h.lt]
  obtain ⟨s, hs⟩ : ∃ s, s = (t - a) / (b - a) := ⟨_, rfl⟩
  have hs' : (b - a) * s = t - a := by rw [hs]; field_simp
  have h0 : 0 < s := by rw [hs]; exact div_pos (by linarith) hp
  have h1 : s < 1 := by rw [hs]; exact (div_lt_one hp).2 (by linarith)
  have hxs : AtParam u w s x := by
    rw [atParam_segPt, h.pts, hs', add_sub_cancel, hx]
  have e5 : (1 : ℝ) / 10 ^ 8 ≤ 1 / 10 ^ 5 := by norm_num
  have hok1 : ∀ {z : Vertex}, z.pos = u.pos → |z.bulge| ≤ 1 → ∀ {y : Vertex}, y.pos = x → SegOk z y := by
    intro z hz hzb y hy
    refine ⟨hzb, fun _ => ?_⟩
    rw [hz, hy]
    rcases not_near_or hf1 with h | h
    · left; linarith
    · right; linarith
  have hok2 : ∀ {z : Vertex}, z.pos = x → |z.bulge| ≤ 1 → SegOk z w := by
    intro z hz hzb
    refine ⟨hzb, fun _ => ?_⟩
    rw [hz]
    rcases not_near_or hf2 with h | h
    · left; linarith
    · right; linarith
  by_cases hl : IsLine v
  · have hlu := h.kind.2 hl
    refine ⟨⟨u, ⟨x, 0⟩⟩, ?_, ?_, ?_, rfl, rfl⟩
    · unfold splitAtPoint
      rw [if_pos (show u.bulgeIsZero from hlu)]
    · refine ⟨hat, fun q => ?_, h.kind, fun hn => absurd hl hn, hok1 rfl h.ok.half rfl, hf1⟩
      have e1 : segPt u ⟨x, 0⟩ q = segPt u w (s * q) := by
        have hx' := (atParam_line hlu).1 hxs
        unfold segPt
        rw [if_pos hlu, if_pos hlu]
        simp only
        rw [hx']
        ext <;> simp only [lerp] <;> ring
      rw [e1, h.pts]
      congr 1
      linear_combination q * hs'
    · have hz : IsLine ⟨x, 0⟩ := by simp [IsLine]
      refine ⟨htb, fun q => ?_, iff_of_true hz hl, fun hn => absurd hl hn, hok2 rfl (by simp), hf2⟩
      have e1 : segPt ⟨x, 0⟩ w q = segPt u w (s + (1 - s) * q) := by
        have hx' := (atParam_line hlu).1 hxs
        unfold segPt
        rw [if_pos hlu, if_pos hz]
        simp only
        rw [hx']
        ext <;> simp only [lerp] <;> ring
      rw [e1, h.pts]
      congr 1
      linear_combination (1 - q) * hs'
  · have hlu : ¬ IsLine u := fun hu => hl (h.kind.1 hu)
    have f1 := not_near_or h.far
    have f2 := not_near_or hf1
    have f3 := not_near_or hf2
    rw [abs_sub_comm x.x, abs_sub_comm x.y] at f3
    obtain ⟨r, hr, r1, r2, r3, r4, -⟩ := C11_split_arc h.ok hlu h0 h1 hxs f1 f2 f3
    obtain ⟨r', hr', rp⟩ := C11_split_path h.ok h0 h1 hxs (Or.inr ⟨f1, f2, f3⟩)
    rw [hr] at hr'
    cases hr'
    have htn := h.turn hl
    have t1 : sweep r.updatedStart = (t - a) * sweep v := by
      rw [r3, htn]; linear_combination sweep v * hs'
    have t2 : sweep r.splitVertex = (b - t) * sweep v := by
      rw [r4, htn]; linear_combination -(sweep v * hs')
    have n1 : ¬ IsLine r.updatedStart := arc_of_sweep (by
      rw [t1, abs_mul, abs_of_pos (show 0 < t - a by linarith)]; exact ha hl)
    have n2 : ¬ IsLine r.splitVertex := arc_of_sweep (by
      rw [t2, abs_mul, abs_of_pos (show 0 < b - t by linarith)]; exact hb hl)
    have hsu : |sweep u| ≤ Real.pi := abs_sweep_le h.ok.half
    have b1 : |r.updatedStart.bulge| ≤ 1 := half_of_sweep (by
      rw [r3, abs_mul, abs_of_pos h0]; nlinarith [abs_nonneg (sweep u)])
    have b2 : |r.splitVertex.bulge| ≤ 1 := half_of_sweep (by
      rw [r4, abs_mul, abs_of_pos (show 0 < 1 - s by linarith)]; nlinarith [abs_nonneg (sweep u)])
    obtain ⟨p1, p2⟩ := rp (Or.inr ⟨n1, n2⟩)
    refine ⟨r, hr, ?_, ?_, r1, r2⟩
    · refine ⟨hat, fun q => ?_, iff_of_false n1 hl, fun _ => t1, hok1 r1 b1 r2, by rw [r1, r2]; exact hf1⟩
      have := atParam_segPt.1 ((p1 q _).1 (atParam_segPt.2 rfl))
      rw [this, h.pts]
      congr 1
      linear_combination q * hs'
    · refine ⟨htb, fun q => ?_, iff_of_false n2 hl, fun _ => t2, hok2 r2 b2, by rw [r2]; exact hf2⟩
      have := atParam_segPt.1 ((p2 q _).1 (atParam_segPt.2 rfl))
      rw [this, h.pts]
      congr 1
      linear_combination (1 - q) * hs'

end
end Cavc

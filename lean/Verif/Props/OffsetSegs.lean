import Verif.Proofs.Curve
import Verif.Proofs.Pline
import Verif.Proofs.Semi
import Verif.Props.PlineArea
import Verif.Spec.Offset

/-! C37: the raw offset segments. -/
namespace Cavc
open Spec
open scoped Classical

theorem normalizeV_ok {v : V2} (h : ¬ fuzzyZeroV v) :
    normalizeV v = .ok ⟨v.x / v.length, v.y / v.length⟩ := by
  unfold normalizeV
  rw [assertP_pos h]; rfl

theorem leftNormal_line {p q n : V2} {t : ℝ} (h : LeftNormal (fun t => lerp p q t) t n) :
    n.x = -(q.y - p.y) / distance p q ∧ n.y = (q.x - p.x) / distance p q := by
  obtain ⟨h1, k, hk, hv⟩ := h
  rw [velocity_line] at hv
  have hx : q.x - p.x = k * n.y := congrArg V2.x hv
  have hy : q.y - p.y = -(k * n.x) := congrArg V2.y hv
  have hd : distance p q = k := by
    unfold distance dist2
    rw [show (p.x - q.x) ^ 2 + (p.y - q.y) ^ 2 = k ^ 2 by
      rw [show p.x - q.x = -(k * n.y) by linarith, show p.y - q.y = k * n.x by linarith]
      nlinarith [h1]]
    exact Real.sqrt_sq hk.le
  rw [hd, hx, hy]
  constructor <;> field_simp

theorem leftNormal_rot {c p n : V2} {θ t : ℝ}
    (h : LeftNormal (fun t => rot c (t * θ) p) t n) :
    n.x = -(SignType.sign θ : ℝ) * ((rot c (t * θ) p).x - c.x) / distance p c ∧
    n.y = -(SignType.sign θ : ℝ) * ((rot c (t * θ) p).y - c.y) / distance p c := by
  obtain ⟨h1, k, hk, hv⟩ := h
  rw [velocity_rot] at hv
  have hx : -θ * ((rot c (t * θ) p).y - c.y) = k * n.y := congrArg V2.x hv
  have hy : θ * ((rot c (t * θ) p).x - c.x) = -(k * n.x) := congrArg V2.y hv
  have hd := dist2_rot c p (t * θ)
  generalize rot c (t * θ) p = P at *
  have hr : distance p c = distance P c := by unfold distance; rw [hd]
  rw [hr]
  have hk2 : k ^ 2 = θ ^ 2 * dist2 P c := by
    have : k ^ 2 * (n.x ^ 2 + n.y ^ 2) = θ ^ 2 * dist2 P c := by
      unfold dist2
      have e1 : k * n.x = -(θ * (P.x - c.x)) := by linarith
      have e2 : k * n.y = -θ * (P.y - c.y) := by linarith
      calc k ^ 2 * (n.x ^ 2 + n.y ^ 2) = (k * n.x) ^ 2 + (k * n.y) ^ 2 := by ring
        _ = _ := by rw [e1, e2]; ring
    rwa [h1, mul_one] at this
  have hk' : k = |θ| * distance P c := by
    have h0 : 0 ≤ |θ| * distance P c := mul_nonneg (abs_nonneg _) (distance_nonneg _ _)
    have : k ^ 2 = (|θ| * distance P c) ^ 2 := by rw [mul_pow, sq_abs, distance_sq, hk2]
    exact (pow_left_inj₀ hk.le h0 two_ne_zero).mp this
  have hθ : θ ≠ 0 := by rintro rfl; rw [abs_zero, zero_mul] at hk'; linarith
  have hD : distance P c ≠ 0 := by intro h; rw [h, mul_zero] at hk'; linarith
  rcases lt_or_gt_of_ne hθ with hneg | hpos
  · rw [abs_of_neg hneg] at hk'
    rw [sign_neg hneg]
    simp only [SignType.coe_neg, SignType.coe_one]
    constructor
    · rw [eq_div_iff hD]
      have : -θ * (n.x * distance P c - (P.x - c.x)) = 0 := by rw [hk'] at hy; linarith
      rcases mul_eq_zero.mp this with h | h
      · linarith
      · linarith
    · rw [eq_div_iff hD]
      have : -θ * (n.y * distance P c - (P.y - c.y)) = 0 := by rw [hk'] at hx; linarith
      rcases mul_eq_zero.mp this with h | h
      · linarith
      · linarith
  · rw [abs_of_pos hpos] at hk'
    rw [sign_pos hpos]
    simp only [SignType.coe_one]
    constructor
    · rw [eq_div_iff hD]
      have : θ * (n.x * distance P c + (P.x - c.x)) = 0 := by rw [hk'] at hy; linarith
      rcases mul_eq_zero.mp this with h | h
      · linarith
      · linarith
    · rw [eq_div_iff hD]
      have : θ * (n.y * distance P c + (P.y - c.y)) = 0 := by rw [hk'] at hx; linarith
      rcases mul_eq_zero.mp this with h | h
      · linarith
      · linarith

/-- Scaling about the center commutes with turning about it. -/
theorem rot_scale (c p : V2) (k θ : ℝ) :
    rot c θ ⟨c.x + k * (p.x - c.x), c.y + k * (p.y - c.y)⟩ =
      ⟨c.x + k * ((rot c θ p).x - c.x), c.y + k * ((rot c θ p).y - c.y)⟩ := by
  ext <;> simp only [rot] <;> ring

theorem centerOf_scale {v1 v2 w1 w2 : Vertex} {c : V2} {k : ℝ} (hb : v1.bulge ≠ 0)
    (hc : IsCenter v1 v2 c) (h : w1.bulge = v1.bulge)
    (e1 : w1.pos = ⟨c.x + k * (v1.pos.x - c.x), c.y + k * (v1.pos.y - c.y)⟩)
    (e2 : w2.pos = ⟨c.x + k * (v2.pos.x - c.x), c.y + k * (v2.pos.y - c.y)⟩) :
    centerOf w1 w2 = c := by
  symm
  apply isCenter_unique (by rwa [h])
  unfold IsCenter
  rw [show sweep w1 = sweep v1 by unfold sweep; rw [h], e1, e2, rot_scale]
  have : rot c (sweep v1) v1.pos = v2.pos := hc
  rw [this]

theorem not_near_pos {p q : V2} (h : ¬ Near (1 / 10 ^ 5) p q) :
    1 / 10 ^ 5 ≤ |p.x - q.x| ∨ 1 / 10 ^ 5 ≤ |p.y - q.y| := by
  unfold Near at h
  by_contra hc
  push Not at hc
  exact h hc

/-- A chord that is not short has a radius that is not short. -/
theorem radius_far {v1 v2 : Vertex} {c : V2} (hc : IsCenter v1 v2 c)
    (h : ¬ Near (1 / 10 ^ 5) v1.pos v2.pos) : ¬ fuzzyZeroV (v1.pos - c) ∧ ¬ fuzzyZeroV (v2.pos - c) := by
  have hd : dist2 v2.pos c = dist2 v1.pos c := by rw [← hc, dist2_rot]
  have hfar := not_near_pos h
  have key : ∀ a : V2, dist2 a c = dist2 v1.pos c → ¬ fuzzyZeroV (a - c) := by
    rintro a ha ⟨hx, hy⟩
    simp only [V2.sub_x, V2.sub_y, realThreshold] at hx hy
    have e1 : dist2 a c < 2 / 10 ^ 16 := by
      unfold dist2
      rw [← sq_abs (a.x - c.x), ← sq_abs (a.y - c.y)]
      have := abs_nonneg (a.x - c.x)
      have := abs_nonneg (a.y - c.y)
      have : |a.x - c.x| ^ 2 < (1 / 10 ^ 8) ^ 2 := by gcongr
      have : |a.y - c.y| ^ 2 < (1 / 10 ^ 8) ^ 2 := by gcongr
      norm_num at *; linarith
    have b1 : dist2 v1.pos c < 2 / 10 ^ 16 := ha ▸ e1
    have b2 : dist2 v2.pos c < 2 / 10 ^ 16 := hd ▸ b1
    have e2 : ∀ a b : ℝ, 1 / 10 ^ 5 ≤ |a| → a ^ 2 ≤ b → 1 / 10 ^ 10 ≤ b := by
      intro a b h1 h2
      rw [← sq_abs] at h2
      have : (1 / 10 ^ 5 : ℝ) ^ 2 ≤ |a| ^ 2 := by gcongr
      norm_num at *; linarith
    unfold dist2 at b1 b2
    have e3 : (v1.pos.x - v2.pos.x) ^ 2 + (v1.pos.y - v2.pos.y) ^ 2 ≤ 8 / 10 ^ 16 := by
      nlinarith [sq_nonneg (v1.pos.x - c.x + (v2.pos.x - c.x)),
        sq_nonneg (v1.pos.y - c.y + (v2.pos.y - c.y))]
    rcases hfar with hf | hf
    · have := e2 _ (8 / 10 ^ 16) hf (by nlinarith [sq_nonneg (v1.pos.y - v2.pos.y)])
      norm_num at this
    · have := e2 _ (8 / 10 ^ 16) hf (by nlinarith [sq_nonneg (v1.pos.x - v2.pos.x)])
      norm_num at this
  exact ⟨key _ rfl, key _ hd⟩

theorem offsetLineSeg_spec {offset : ℝ} {v1 v2 : Vertex} (hl : IsLine v1)
    (hne : ¬ fuzzyEqualV v1.pos v2.pos) :
    ∃ s, offsetLineSeg offset v1 v2 = .ok s ∧ Offsets offset v1 v2 s := by
  have hz : ¬ fuzzyZeroV (⟨-(v2.pos - v1.pos).y, (v2.pos - v1.pos).x⟩ : V2) := by
    rintro ⟨hx, hy⟩
    apply hne
    simp only [V2.sub_x, V2.sub_y, abs_neg] at hx hy
    exact ⟨by unfold fuzzyEqual; rwa [abs_sub_comm], by unfold fuzzyEqual; rwa [abs_sub_comm]⟩
  unfold offsetLineSeg unitPerp
  simp only
  rw [normalizeV_ok hz]
  refine ⟨_, rfl, ?_⟩
  have hlen : (⟨-(v2.pos - v1.pos).y, (v2.pos - v1.pos).x⟩ : V2).length = distance v1.pos v2.pos := by
    unfold V2.length distance dist2 dot
    simp only [V2.sub_x, V2.sub_y]
    congr 1; ring
  have main : ∀ γ t n, IsPath v1 v2 γ → LeftNormal γ t n → offset • n =
      offset • (⟨-(v2.pos - v1.pos).y / distance v1.pos v2.pos,
        (v2.pos - v1.pos).x / distance v1.pos v2.pos⟩ : V2) := by
    intro γ t n hγ hn
    rw [hγ.line hl] at hn
    obtain ⟨h1, h2⟩ := leftNormal_line hn
    ext
    · simp only [V2.smul_x, V2.sub_y, h1]
    · simp only [V2.smul_y, V2.sub_x, h2]
  refine ⟨rfl, rfl, ?_, rfl, ?_, ?_, ?_⟩
  · simp only [Bool.false_eq_true, false_iff]
    exact fun h => h.1 hl
  · intro γ n hγ hn
    rw [main γ 0 n hγ hn, hγ.line hl]
    simp only [hlen]
    ext <;> simp [lerp]
  · intro γ n hγ hn
    rw [main γ 1 n hγ hn, hγ.line hl]
    simp only [hlen]
    ext <;> simp [lerp]
  · intro _ γ γ' t n hγ hγ' hn
    rw [main γ t n hγ hn, hγ.line hl, hγ'.line (by exact hl)]
    simp only [hlen]
    ext <;> simp [lerp] <;> ring

theorem offsetArcSeg_spec {offset : ℝ} {v1 v2 : Vertex} (hl : ¬ IsLine v1)
    (hne : ¬ Near (1 / 10 ^ 5) v1.pos v2.pos) :
    ∃ s, offsetArcSeg offset v1 v2 = .ok s ∧ Offsets offset v1 v2 s := by
  have ha : ArcOk v1 v2 := ⟨hl, by
    rcases not_near_pos hne with h | h
    · left; exact le_trans (by norm_num) h
    · right; exact le_trans (by norm_num) h⟩
  have hc : IsCenter v1 v2 (centerOf v1 v2) := isCenter_centerOf ha.b_ne
  obtain ⟨f1, f2⟩ := radius_far hc hne
  unfold offsetArcSeg
  rw [ha.run, ok_bind]
  simp only [ha.center, ha.radius_eq]
  rw [normalizeV_ok f1, ok_bind, normalizeV_ok f2, ok_bind]
  have hR : 0 < distance v1.pos (centerOf v1 v2) := distance_pos ha.start_ne
  have l1 : (v1.pos - centerOf v1 v2).length = distance v1.pos (centerOf v1 v2) := by
    rw [length_sub]; unfold distance; rw [dist2_comm]
  have l2 : (v2.pos - centerOf v1 v2).length = distance v1.pos (centerOf v1 v2) := by
    rw [length_sub]; unfold distance; rw [dist2_comm, ← hc, dist2_rot]
  rw [l1, l2]
  have huniq : ∀ r, OffsetRadius offset v1 v2 r ↔ r = distance v1.pos (centerOf v1 v2) +
      (if v1.bulge < 0 then offset else -offset) := by
    intro r
    constructor
    · rintro ⟨c, h1, h2⟩; rwa [isCenter_unique ha.b_ne h1] at h2
    · intro h; exact ⟨_, hc, h⟩
  have hcol : Collapses offset v1 v2 ↔ distance v1.pos (centerOf v1 v2) +
      (if v1.bulge < 0 then offset else -offset) < 1 / 10 ^ 8 := by
    unfold Collapses
    constructor
    · rintro ⟨-, r, h1, h2⟩; rwa [(huniq r).1 h1] at h2
    · intro h; exact ⟨hl, _, (huniq _).2 rfl, h⟩
  have hoffs : ∀ [Decidable v1.bulgeIsNeg], (if v1.bulgeIsNeg then offset else -offset) =
      -(SignType.sign (sweep v1) : ℝ) * offset := by
    intro inst
    rcases lt_or_gt_of_ne ha.b_ne with hb | hb
    · rw [if_pos (show v1.bulgeIsNeg from hb), sign_neg (sweep_neg hb)]; simp
    · rw [if_neg (show ¬ v1.bulgeIsNeg from not_lt.mpr hb.le), sign_pos (sweep_pos hb)]; simp
  have hoffs' : (if v1.bulge < 0 then offset else -offset) =
      -(SignType.sign (sweep v1) : ℝ) * offset := hoffs
  rw [hoffs'] at hcol
  rw [hoffs]
  generalize hσ : -(SignType.sign (sweep v1) : ℝ) = σ at *
  generalize hcc : centerOf v1 v2 = c at *
  generalize hRR : distance v1.pos c = R at *
  have hpos : ∀ (q : V2), (σ * offset) • (⟨(q - c).x / R, (q - c).y / R⟩ : V2) + q =
      ⟨c.x + (R + σ * offset) / R * (q.x - c.x), c.y + (R + σ * offset) / R * (q.y - c.y)⟩ := by
    intro q
    ext
    · simp only [V2.add_x, V2.smul_x, V2.sub_x]; field_simp; ring
    · simp only [V2.add_y, V2.smul_y, V2.sub_y]; field_simp; ring
  simp only [hpos]
  have main : ∀ γ t n, IsPath v1 v2 γ → LeftNormal γ t n → γ t + offset • n =
      ⟨c.x + (R + σ * offset) / R * ((γ t).x - c.x),
        c.y + (R + σ * offset) / R * ((γ t).y - c.y)⟩ := by
    intro γ t n hγ hn
    rw [hγ.arc hl, hcc] at hn ⊢
    obtain ⟨h1, h2⟩ := leftNormal_rot hn
    rw [hσ, hRR] at h1 h2
    ext
    · simp only [V2.add_x, V2.smul_x, h1]; field_simp; ring
    · simp only [V2.add_y, V2.smul_y, h2]; field_simp; ring
  have h00 : ∀ γ, IsPath v1 v2 γ → γ 0 = v1.pos := by
    intro γ hγ; rw [hγ.arc hl]; simp [rot_zero]
  have h11 : ∀ γ, IsPath v1 v2 γ → γ 1 = v2.pos := by
    intro γ hγ; rw [hγ.arc hl, hcc]; simp only [one_mul]; exact hc
  by_cases hlt : R + σ * offset < realThreshold
  · rw [if_pos hlt]
    refine ⟨_, rfl, rfl, rfl, ?_, rfl, ?_, ?_, ?_⟩
    · simp only [true_iff]; exact hcol.2 hlt
    · intro γ n hγ hn; rw [main γ 0 n hγ hn, h00 γ hγ]
    · intro γ n hγ hn; rw [main γ 1 n hγ hn, h11 γ hγ]
    · intro h; cases h
  · rw [if_neg hlt]
    refine ⟨_, rfl, rfl, rfl, ?_, rfl, ?_, ?_, ?_⟩
    · simp only [Bool.false_eq_true, false_iff]; exact fun h => hlt (hcol.1 h)
    · intro γ n hγ hn; rw [main γ 0 n hγ hn, h00 γ hγ]
    · intro γ n hγ hn; rw [main γ 1 n hγ hn, h11 γ hγ]
    · intro _ γ γ' t n hγ hγ' hn
      rw [main γ t n hγ hn, hγ.arc hl, hγ'.arc (by exact hl), hcc]
      have hcen := centerOf_scale (w1 := ⟨⟨c.x + (R + σ * offset) / R * (v1.pos.x - c.x),
          c.y + (R + σ * offset) / R * (v1.pos.y - c.y)⟩, v1.bulge⟩)
        (w2 := ⟨⟨c.x + (R + σ * offset) / R * (v2.pos.x - c.x),
          c.y + (R + σ * offset) / R * (v2.pos.y - c.y)⟩, v2.bulge⟩) ha.b_ne hc rfl rfl rfl
      simp only [hcen]
      exact rot_scale _ _ _ _

theorem offsetSeg_spec {offset : ℝ} {v1 v2 : Vertex}
    (hne : ¬ Near (1 / 10 ^ 5) v1.pos v2.pos) :
    ∃ s, offsetSeg offset v1 v2 = .ok s ∧ Offsets offset v1 v2 s := by
  unfold offsetSeg
  by_cases hl : IsLine v1
  · rw [if_pos (show v1.bulgeIsZero from hl)]
    exact offsetLineSeg_spec hl (fun h => hne ⟨h.1.trans (by norm_num [realThreshold]),
      h.2.trans (by norm_num [realThreshold])⟩)
  · rw [if_neg (show ¬ v1.bulgeIsZero from hl)]
    exact offsetArcSeg_spec hl hne

theorem mapM_append_M {α β : Type} (f : α → M β) (l1 l2 : List α) :
    (l1 ++ l2).mapM f = (do let a ← l1.mapM f; let b ← l2.mapM f; return a ++ b) := by
  rw [List.mapM_append]

theorem offsetSegsLoop_eq (p : Polyline) (offset : ℝ) : ∀ (k i : ℕ) (r : List OffsetSegment),
    1 ≤ i → i + k ≤ p.size → offsetSegsLoop p offset k i r = (do
      let l ← ((List.range k).map fun j => (vtx p (i + j - 1), vtx p (i + j))).mapM
        fun x => offsetSeg offset x.1 x.2
      return r ++ l) := by
  intro k
  induction k with
  | zero => intro i r _ _; simp [offsetSegsLoop]
  | succ k ih =>
    intro i r h1 h2
    unfold offsetSegsLoop
    rw [at_eq (show i - 1 < p.size by omega), at_eq (show i < p.size by omega), ok_bind, ok_bind]
    rw [List.range_succ_eq_map, List.map_cons, List.mapM_cons]
    simp only [Nat.add_zero, List.map_map, bind_assoc]
    congr 1; funext s
    rw [ih (i + 1) _ (by omega) (by omega)]
    simp only [pure_eq_ok, ok_bind]
    have : (fun j => (vtx p (i + 1 + j - 1), vtx p (i + 1 + j))) =
        ((fun j => (vtx p (i + j - 1), vtx p (i + j))) ∘ Nat.succ) := by
      funext j; simp only [Function.comp_apply, Nat.succ_eq_add_one]
      rw [show i + 1 + j = i + (j + 1) by ring]
    rw [this]
    congr 1; funext l; simp

theorem createUntrimmed_eq (p : Polyline) (offset : ℝ) (h : 2 ≤ p.size) :
    createUntrimmedOffsetSegments p offset =
      (segs p).mapM fun x => offsetSeg offset x.1 x.2 := by
  unfold createUntrimmedOffsetSegments
  rw [if_neg (by rintro ⟨-, h0⟩; omega), offsetSegsLoop_eq p offset _ _ _ le_rfl (by omega)]
  rw [segs_eq, if_neg (by omega)]
  have e : (List.map (fun j => (vtx p (1 + j - 1), vtx p (1 + j))) (List.range (p.size - 1))) =
      (List.range (p.size - 1)).map fun i => (vtx p i, vtx p (if i + 1 = p.size then 0 else i + 1)) := by
    apply List.map_congr_left
    intro j hj
    rw [List.mem_range] at hj
    rw [if_neg (by omega), show 1 + j - 1 = j by omega, Nat.add_comm 1 j]
  rw [e]
  cases hc : p.isClosed
  · simp only [Bool.false_eq_true, if_false, List.nil_append, bind_assoc, pure_eq_ok, ok_bind]
    generalize List.mapM (fun x : Vertex × Vertex => offsetSeg offset x.1 x.2) _ = m
    cases m <;> rfl
  · simp only [if_true]
    obtain ⟨n, hn⟩ : ∃ n, p.size = n + 1 := ⟨p.size - 1, by omega⟩
    have hl : p.lastVertex = .ok (vtx p n) := by
      unfold Polyline.lastVertex vtx
      have hn' : p.vertexes.length = n + 1 := hn
      rw [List.getLast?_eq_getElem?, hn', Nat.add_sub_cancel,
        List.getElem?_eq_getElem (by omega), List.getD_eq_getElem _ _ (by omega)]
    rw [hl, at_eq (show 0 < p.size by omega)]
    simp only [ok_bind]
    rw [hn, Nat.add_sub_cancel]
    conv_rhs => rw [List.range_succ, List.map_append, List.mapM_append]
    simp only [List.map_cons, List.map_nil, if_true, bind_assoc, pure_eq_ok, ok_bind,
      List.mapM_cons, List.mapM_nil, List.nil_append]

theorem mapM_forall₂ {α β : Type} {f : α → M β} {R : α → β → Prop} (l : List α)
    (h : ∀ a ∈ l, ∃ b, f a = .ok b ∧ R a b) : ∃ r, l.mapM f = .ok r ∧ List.Forall₂ R l r := by
  induction l with
  | nil => exact ⟨[], rfl, .nil⟩
  | cons a l ih =>
    obtain ⟨b, hb, hR⟩ := h a (by simp)
    obtain ⟨r, hr, hR'⟩ := ih fun x hx => h x (by simp [hx])
    exact ⟨b :: r, by rw [List.mapM_cons, hb, ok_bind, hr, ok_bind]; rfl, .cons hR hR'⟩

/-- C37. For a polyline of at least two vertexes without repeated vertexes, one raw offset segment is
made for each segment, in order, and it is the segment moved to its left by `offset` (to the right
if negative): every point of it is at the offset distance from the original point, along the
normal; an arc with nothing left of its radius is marked as collapsed and made a line. -/
theorem C37_createUntrimmedOffsetSegments (p : Polyline) (offset : ℝ) (h2 : 2 ≤ p.vertexes.length)
    (hp : NoRepeats p) : ∃ r, createUntrimmedOffsetSegments p offset = .ok r ∧
      List.Forall₂ (fun seg s => Offsets offset seg.1 seg.2 s) (segs p) r := by
  rw [createUntrimmed_eq p offset h2]
  apply mapM_forall₂
  intro x hx
  obtain ⟨i, hi⟩ := List.mem_iff_getElem?.1 hx
  exact offsetSeg_spec (hp i x.1 x.2 hi)

/-- The left normals C37 speaks of exist, for every path of a segment that is not a point. -/
theorem C37_normal_exists {v1 v2 : Vertex} (hne : ¬ Near (1 / 10 ^ 5) v1.pos v2.pos) {γ : ℝ → V2}
    (hγ : IsPath v1 v2 γ) (t : ℝ) : ∃ n, LeftNormal γ t n := by
  by_cases hl : IsLine v1
  · have hpq : v1.pos ≠ v2.pos := by
      intro h; apply hne; rw [h]; simp [Near]
    have hd := distance_pos hpq
    have hsq := distance_sq v1.pos v2.pos
    refine ⟨⟨-(v2.pos.y - v1.pos.y) / distance v1.pos v2.pos,
      (v2.pos.x - v1.pos.x) / distance v1.pos v2.pos⟩, ?_, distance v1.pos v2.pos, hd, ?_⟩
    · simp only [div_pow]
      rw [← add_div, div_eq_one_iff_eq (by positivity), hsq]; unfold dist2; ring
    · rw [hγ.line hl, velocity_line]
      ext
      · simp only [V2.sub_x]; field_simp
      · simp only [V2.sub_y]; field_simp
  · have ha : ArcOk v1 v2 := ⟨hl, by
      rcases not_near_pos hne with h | h
      · left; exact le_trans (by norm_num) h
      · right; exact le_trans (by norm_num) h⟩
    have hR : 0 < distance v1.pos (centerOf v1 v2) := distance_pos ha.start_ne
    have hs : sweep v1 ≠ 0 := by
      rcases lt_or_gt_of_ne ha.b_ne with hb | hb
      · exact (sweep_neg hb).ne
      · exact (sweep_pos hb).ne'
    rw [hγ.arc hl]
    generalize hP : rot (centerOf v1 v2) (t * sweep v1) v1.pos = P
    have hd2 : dist2 P (centerOf v1 v2) = distance v1.pos (centerOf v1 v2) ^ 2 := by
      rw [← hP, dist2_rot, distance_sq]
    refine ⟨⟨-(SignType.sign (sweep v1) : ℝ) * (P.x - (centerOf v1 v2).x) /
        distance v1.pos (centerOf v1 v2),
      -(SignType.sign (sweep v1) : ℝ) * (P.y - (centerOf v1 v2).y) /
        distance v1.pos (centerOf v1 v2)⟩, ?_, |sweep v1| * distance v1.pos (centerOf v1 v2),
      mul_pos (abs_pos.mpr hs) hR, ?_⟩
    · have hσ : (SignType.sign (sweep v1) : ℝ) ^ 2 = 1 := by
        rcases lt_or_gt_of_ne hs with hb | hb
        · rw [sign_neg hb]; simp
        · rw [sign_pos hb]; simp
      simp only [div_pow, mul_pow, neg_sq, hσ, one_mul]
      rw [← add_div, div_eq_one_iff_eq (by positivity), ← hd2]; unfold dist2; ring
    · rw [velocity_rot, hP]
      rcases lt_or_gt_of_ne hs with hb | hb
      · rw [sign_neg hb, abs_of_neg hb]
        ext <;> simp <;> field_simp
      · rw [sign_pos hb, abs_of_pos hb]
        ext <;> simp <;> field_simp <;> ring

/-- C37, distances: a point of a raw offset segment that did not collapse is exactly `|offset|` away
from the corresponding point of the original. -/
theorem C37_distance {offset : ℝ} {v1 v2 : Vertex} {s : OffsetSegment}
    (hne : ¬ Near (1 / 10 ^ 5) v1.pos v2.pos) (h : Offsets offset v1 v2 s)
    (hc : s.collapsedArc = false) {t : ℝ} {x y : V2} (hx : AtParam v1 v2 t x)
    (hy : AtParam s.v1 s.v2 t y) : distance x y = |offset| := by
  choose γ hγ using fun t => (atParam_unique v1 v2 t).exists
  choose γ' hγ' using fun t => (atParam_unique s.v1 s.v2 t).exists
  obtain ⟨n, hn⟩ := C37_normal_exists hne hγ t
  have e := h.path hc γ γ' t n hγ hγ' hn
  rw [(atParam_unique v1 v2 t).unique hx (hγ t), (atParam_unique s.v1 s.v2 t).unique hy (hγ' t), e]
  unfold distance dist2
  rw [show ((γ t).x - (γ t + offset • n).x) ^ 2 + ((γ t).y - (γ t + offset • n).y) ^ 2 =
    offset ^ 2 * (n.x ^ 2 + n.y ^ 2) by simp only [V2.add_x, V2.add_y, V2.smul_x, V2.smul_y]; ring,
    hn.1, mul_one, Real.sqrt_sq_eq_abs]

/-- C37 needs the vertexes to be distinct: a repeated vertex that starts a line makes the assertion
in `normalize` fail (the code would divide by zero). -/
theorem C37_repeat_witness (p : V2) (offset : ℝ) :
    createUntrimmedOffsetSegments ⟨false, [⟨p, 0⟩, ⟨p, 0⟩]⟩ offset = .error .assertFailed := by
  rw [createUntrimmed_eq _ _ (by simp [Polyline.size])]
  simp only [segs, List.length_cons, List.length_nil]
  norm_num
  rw [offsetSeg, if_pos (by simp [Vertex.bulgeIsZero, realPrecision]), offsetLineSeg, unitPerp,
    normalizeV, assertP_neg (by simp [fuzzyZeroV, realThreshold])]
  rfl

/-- A half circle followed by a line: the hypotheses of C37 hold. Offset by 1/4 to the left the half
circle of radius 1 is not collapsed, offset by 2 it is. -/
example : ∃ r, createUntrimmedOffsetSegments ⟨false, [semiStart, semiEnd, ⟨⟨-2, 0⟩, 0⟩]⟩ 2 = .ok r ∧
    ∃ s ∈ r, s.collapsedArc = true := by
  have hne : ¬ Near (1 / 10 ^ 5) semiStart.pos semiEnd.pos := by
    intro h; have := h.1; simp only [semiStart, semiEnd] at this; norm_num at this
  obtain ⟨r, h1, h2⟩ := C37_createUntrimmedOffsetSegments
    ⟨false, [semiStart, semiEnd, ⟨⟨-2, 0⟩, 0⟩]⟩ 2 (by simp) (by
      intro i v1 v2 h
      have h' : [(semiStart, semiEnd), (semiEnd, ⟨⟨-2, 0⟩, 0⟩)][i]? = some (v1, v2) := h
      match i, h' with
      | 0, h' => simp at h'; rw [← h'.1, ← h'.2]; exact hne
      | 1, h' =>
        simp at h'; rw [← h'.1, ← h'.2]
        intro h; have := h.1; simp only [semiEnd] at this; norm_num at this
      | n + 2, h' => simp at h')
  refine ⟨r, h1, ?_⟩
  have h2' : List.Forall₂ (fun (seg : Vertex × Vertex) s => Offsets 2 seg.1 seg.2 s)
    [(semiStart, semiEnd), (semiEnd, ⟨⟨-2, 0⟩, 0⟩)] r := h2
  cases h2' with
  | cons hs _ =>
    refine ⟨_, List.mem_cons_self, hs.collapsed.2 ⟨?_, 1 - 2, ⟨⟨0, 0⟩, ?_, ?_⟩, by norm_num⟩⟩
    · simp [IsLine, semiStart]; norm_num
    · unfold IsCenter sweep
      simp only [semiStart, semiEnd, Real.arctan_one]
      rw [show 4 * (Real.pi / 4) = Real.pi by ring]
      ext <;> simp [rot]
    · simp [semiStart, distance, dist2]; norm_num

end Cavc

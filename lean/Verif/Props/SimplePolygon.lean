import Verif.Spec.Simple
import Verif.Props.AreaIntegral
import Verif.Props.CombineRegion

/-!
C60: polygons that do not meet themselves wind once around what is inside.
-/
namespace Cavc
open Spec
open scoped Classical
open MeasureTheory
noncomputable section

theorem _root_.Cavc.Spec.SimplePolygon.two' {p : Polyline} (h : SimplePolygon p) : 2 ≤ p.size := h.two

theorem _root_.Cavc.Spec.SimplePolygon.simpleP {p : Polyline} (h : SimplePolygon p) : SimpleP (ppos p) p.size := by
  have h2 := h.two'
  have hseg : ∀ i < p.size, ∃ v e, IsSeg p i v e ∧ ppos p i = v.pos ∧ ppos p (i + 1) = e.pos ∧ IsLine v := by
    intro i hi
    have hs := closed_isSeg h.closed h2 hi
    obtain ⟨-, -, -, -, e1, e2⟩ := ppos_seg h.closed hs
    exact ⟨_, _, hs, e1, e2, h.lines _ (vtx_mem hi)⟩
  have hmod : ∀ k, ppos p k = ppos p (k % p.size) := by
    intro k; unfold ppos; rw [Nat.mod_mod]
  refine ⟨⟨by omega, ppos_per p, fun k => ?_⟩, fun j k z hj hk hne h1 h2' => ?_⟩
  · obtain ⟨v, e, hs, e1, e2, -⟩ := hseg (k % p.size) (Nat.mod_lt _ (by omega))
    have e3 : ppos p (k + 1) = ppos p (k % p.size + 1) := by
      rw [hmod (k + 1), ← Nat.mod_add_mod, ← hmod]
    rw [hmod k, e3, e1, e2]
    exact h.distinct _ _ _ hs
  · obtain ⟨v1, v2, hs, e1, e2, l1⟩ := hseg j hj
    obtain ⟨u1, u2, ht, e3, e4, l2⟩ := hseg k hk
    rw [e1, e2] at h1
    rw [e3, e4] at h2'
    rcases h.apart j k _ _ _ _ z hs ht hne ((onSeg_line l1).2 h1) ((onSeg_line l2).2 h2') with ⟨q1, q2⟩ | ⟨q1, q2⟩
    · left
      refine ⟨q1, ?_⟩
      rw [q2, ← e2, hmod (j + 1)]
      exact congrArg _ q1.symm
    · right
      refine ⟨q1, ?_⟩
      rw [q2, ← e4, hmod (k + 1)]
      exact congrArg _ q1.symm

theorem simple_off {p : Polyline} (h : SimplePolygon p) {x : V2} : ¬ OnPline p x ↔ OffP (ppos p) p.size x := by
  rw [polygon_onPline h.closed h.lines]
  have := h.two'
  unfold OffP
  push Not
  exact ⟨fun q => q this, fun q _ => q⟩

theorem simple_run {p : Polyline} (h : SimplePolygon p) (x : V2) :
    getWindingNumber p x = .ok (polyW (ppos p) p.size x) := by
  have := h.two'
  rw [polygon_getWinding h.closed h.lines, if_neg (by omega)]

theorem simple_area {p : Polyline} (h : SimplePolygon p) : getArea p = .ok (shoelace (ppos p) p.size / 2) := by
  have h2 := h.two'
  rw [getArea_eq h.closed h.two]
  congr 1
  congr 1
  unfold shoelace
  rw [segs_length, if_neg (by omega), if_pos h.closed]
  apply Finset.sum_congr rfl
  intro i hi
  rw [Finset.mem_range] at hi
  have hs := closed_isSeg h.closed h2 hi
  obtain ⟨-, -, -, -, e1, e2⟩ := ppos_seg h.closed hs
  rw [isSeg_iff] at hs
  unfold areaTerm
  rw [if_pos (h.lines _ (vtx_mem hi)), add_zero, e1, e2, ← hs.2.2]

/-- C60. Every polygon that does not meet itself goes once around what is inside: there is a direction
`s`, 1 for counterclockwise and -1 for clockwise, such that
- `getArea` has the sign of `s`, and its absolute value is the measure of what is inside;
- `getWindingNumber` is `s` or 0 at every point that is not on the polygon;
- beside every segment, away from its ends, it is `s` on one side and 0 on the other side: the inside is
  on the left of a counterclockwise polygon and on the right of a clockwise one. -/
theorem C60_simple {p : Polyline} (h : SimplePolygon p) : ∃ s : ℤ, (s = 1 ∨ s = -1) ∧
    (∃ a, getArea p = .ok a ∧ 0 < s * a ∧
      volume {z : ℝ × ℝ | ¬ OnPline p ⟨z.1, z.2⟩ ∧ Inside p ⟨z.1, z.2⟩} = ENNReal.ofReal |a|) ∧
    (∀ x, ¬ OnPline p x → getWindingNumber p x = .ok 0 ∨ getWindingNumber p x = .ok s) ∧
    ∀ i v1 v2, IsSeg p i v1 v2 → ∀ t, 0 < t → t < 1 → ∃ ρ > 0, ∀ x, Near ρ x (lerp v1.pos v2.pos t) →
      (0 < s * side v1.pos v2.pos x → getWindingNumber p x = .ok s) ∧
      (s * side v1.pos v2.pos x < 0 → getWindingNumber p x = .ok 0) := by
  have hs := h.simpleP
  obtain ⟨s, hs1, hpos, hval, hside⟩ := hs.once
  refine ⟨s, hs1, ⟨_, simple_area h, by linarith, ?_⟩, ?_, ?_⟩
  · rw [← hs.volume]
    congr 1
    ext z
    simp only [Set.mem_ofPred_eq, ← simple_off h]
    constructor
    · rintro ⟨q1, q2⟩
      exact ⟨q1, (inside_wnum h.closed h.lines h.two' q1).1 q2⟩
    · rintro ⟨q1, q2⟩
      exact ⟨q1, (inside_wnum h.closed h.lines h.two' q1).2 q2⟩
  · intro x hx
    rw [simple_run h]
    rcases hval x ((simple_off h).1 hx) with q | q
    · exact Or.inl (by rw [q])
    · exact Or.inr (by rw [q])
  · intro i v1 v2 hseg t t0 t1
    obtain ⟨a, -, -, -, e1, e2⟩ := ppos_seg h.closed hseg
    obtain ⟨⟨ρ1, r1, q1⟩, ⟨ρ2, r2, q2⟩⟩ := hside i a t t0 t1
    rw [e1, e2] at q1 q2
    refine ⟨min ρ1 ρ2, lt_min r1 r2, fun x hx => ⟨fun hp => ?_, fun hp => ?_⟩⟩
    · rw [simple_run h, q1 x ⟨hx.1.trans_le (min_le_left _ _), hx.2.trans_le (min_le_left _ _)⟩]
      exact hp
    · rw [simple_run h, q2 x ⟨hx.1.trans_le (min_le_right _ _), hx.2.trans_le (min_le_right _ _)⟩]
      have : side v1.pos v2.pos x = cross v1.pos v2.pos x := rfl
      rw [this] at hp
      push_cast at hp ⊢
      linarith

/-- C60. In the words of C58. -/
theorem C60_goes_once {p : Polyline} (h : SimplePolygon p) : ∃ s, GoesOnce p s := by
  obtain ⟨s, hs, ⟨a, ha, hpos, -⟩, hval, -⟩ := C60_simple h
  refine ⟨s, hs, ?_, fun x hx k hk => ?_⟩
  · obtain ⟨γ, hγ⟩ := exists_path p
    refine ⟨γ, hγ, ?_⟩
    have := C21_getArea p h.closed γ hγ
    rw [ha] at this
    rw [← Except.ok.inj this]
    exact hpos
  · rw [winding_iff (lines_ok h.lines) h.closed hx] at hk
    rcases hval x hx with q | q <;> rw [hk] at q <;> have := Except.ok.inj q
    · exact Or.inl this
    · exact Or.inr this

/-- C60. A polygon that does not meet itself divides the rest of the plane into an inside and an outside
part: two points that are not on it can be joined by a path that does not meet it if and only if both
are inside or both are outside. There are points on both sides. -/
theorem C60_jordan {p : Polyline} (h : SimplePolygon p) :
    (∀ x y, ¬ OnPline p x → ¬ OnPline p y → (JoinedOff p x y ↔ (Inside p x ↔ Inside p y))) ∧
    (∃ x, ¬ OnPline p x ∧ Inside p x) ∧ ∃ x, ¬ OnPline p x ∧ ¬ Inside p x := by
  have hs := h.simpleP
  obtain ⟨s, hs1, hpos, hval, hside⟩ := hs.once
  have hs0 : s ≠ 0 := by rcases hs1 with rfl | rfl <;> norm_num
  have hin : ∀ {x}, ¬ OnPline p x → (Inside p x ↔ polyW (ppos p) p.size x ≠ 0) := fun hx =>
    inside_wnum h.closed h.lines h.two' hx
  have hclear : ∀ {a b}, Unmet p a b ↔ ∀ t, 0 ≤ t → t ≤ 1 → OffP (ppos p) p.size (lerp a b t) := by
    intro a b
    unfold Unmet
    simp only [simple_off h]
  refine ⟨fun x y hx hy => ⟨fun hr => ?_, fun hxy => ?_⟩, ?_, ?_⟩
  · have : polyW (ppos p) p.size x = polyW (ppos p) p.size y := by
      clear hy
      induction hr with
      | refl => rfl
      | tail _ hbc ih => exact ih.trans (polyW_seg hs.closed _ _ (hclear.1 hbc))
    rw [hin hx, hin hy, this]
  · have hsym : ∀ {a b}, Unmet p a b → Unmet p b a := by
      intro a b hc t t0 t1
      have := hc (1 - t) (by linarith) (by linarith)
      rwa [show lerp a b (1 - t) = lerp b a t by ext <;> simp only [lerp] <;> ring] at this
    have hf : SegConst (ppos p) p.size fun z => (if JoinedOff p x z then 1 else 0 : ℤ) := by
      intro a b hab
      have hc := hclear.2 hab
      have : JoinedOff p x a ↔ JoinedOff p x b := ⟨fun q => q.tail hc, fun q => q.tail (hsym hc)⟩
      simp only [this]
    have hW : polyW (ppos p) p.size x = polyW (ppos p) p.size y := by
      rw [hin hx, hin hy] at hxy
      rcases hval x ((simple_off h).1 hx) with q | q <;> rcases hval y ((simple_off h).1 hy) with q' | q' <;>
        rw [q, q'] at hxy ⊢ <;> simp [hs0] at hxy
    have := hs.separates hf ((simple_off h).1 hx) ((simple_off h).1 hy) hW
    change (if JoinedOff p x x then 1 else 0 : ℤ) = if JoinedOff p x y then 1 else 0 at this
    rw [if_pos (show JoinedOff p x x from .refl)] at this
    by_contra hn
    rw [if_neg hn] at this
    exact one_ne_zero this
  · have hv := hs.volume
    have hne : shoelace (ppos p) p.size ≠ 0 := fun h0 => by rw [h0, mul_zero] at hpos; exact lt_irrefl _ hpos
    have hp : 0 < volume {z : ℝ × ℝ | OffP (ppos p) p.size ⟨z.1, z.2⟩ ∧ polyW (ppos p) p.size ⟨z.1, z.2⟩ ≠ 0} := by
      rw [hv, ENNReal.ofReal_pos]
      exact abs_pos.2 (div_ne_zero hne two_ne_zero)
    obtain ⟨z, hz1, hz2⟩ := nonempty_of_measure_ne_zero hp.ne'
    have hoff := (simple_off h).2 hz1
    exact ⟨_, hoff, (hin hoff).2 hz2⟩
  · obtain ⟨k, -, hk⟩ := Finset.exists_max_image (Finset.range (p.size + 1)) (fun k => (ppos p k).y) ⟨0, by simp⟩
    have hm : ∀ i ≤ p.size, (ppos p i).y < (ppos p k).y + 1 := fun i hi =>
      lt_of_le_of_lt (hk i (Finset.mem_range.2 (by omega))) (by linarith)
    obtain ⟨o, w⟩ := polyW_above (P := ppos p) (n := p.size) (x := ⟨0, (ppos p k).y + 1⟩) (fun k hk => hm _ hk) (hm 0 (by omega))
    have hoff := (simple_off h).2 o
    refine ⟨_, hoff, fun hi => ?_⟩
    exact (hin hoff).1 hi w

/-- C58. For polygons that do not meet themselves nothing else is needed. -/
theorem C58_simple_polygons (inf ninf : ℝ) {std : StdSort} {hash : HashOrder} {A B : Polyline}
    (sA : SimplePolygon A) (sB : SimplePolygon B) (pA : Polygon A) (pB : Polygon B) (hg : GeneralPosition A B)
    (hi : Indexable (codePlatform inf ninf) A) (hn : A.vertexes.length * B.vertexes.length ≤ 10 ^ 6)
    (mode : CombineMode) :
    ∃ r, combinePolylines (codePlatform inf ninf) std hash A B mode = .ok r ∧
      (∀ q ∈ r.remaining ++ r.subtracted, q.isClosed = true ∧ (∀ v ∈ q.vertexes, IsLine v) ∧
        ∀ x, OnPline q x → OnPline A x ∨ OnPline B x) ∧
      ∀ x, ¬ OnPline A x → ¬ OnPline B x →
        (EvenOdd (r.remaining ++ r.subtracted) x ↔ boolOp mode (Inside A x) (Inside B x)) := by
  obtain ⟨_, gA⟩ := C60_goes_once sA
  obtain ⟨_, gB⟩ := C60_goes_once sB
  exact C58_combinePolylines inf ninf pA pB hg gA gB hi hn mode

/-! ### Polygons that do not meet themselves -/

theorem rect_simple {x0 y0 x1 y1 : ℝ} (hx : x0 < x1) (hy : y0 < y1) : SimplePolygon (rect x0 y0 x1 y1) := by
  refine ⟨rfl, by simp [rect, isLine_zero], by simp [rect], ?_, ?_⟩
  · intro i v1 v2 h he
    have e1 := congrArg V2.x he
    have e2 := congrArg V2.y he
    rcases rect_seg h with ⟨-, rfl, rfl⟩ | ⟨-, rfl, rfl⟩ | ⟨-, rfl, rfl⟩ | ⟨-, rfl, rfl⟩ <;> simp only at e1 e2 <;> linarith
  · intro i j v1 v2 u1 u2 x h1 h2 hne o1 o2
    have hl : ∀ a b : V2, OnSeg ⟨a, 0⟩ ⟨b, 0⟩ x → ∃ t, 0 ≤ t ∧ t ≤ 1 ∧ x.x = a.x + t * (b.x - a.x) ∧ x.y = a.y + t * (b.y - a.y) := by
      intro a b h
      obtain ⟨t, t0, t1, h⟩ := (onSeg_line (v1 := ⟨a, 0⟩) (v2 := ⟨b, 0⟩) (isLine_zero _)).1 h
      exact ⟨t, t0, t1, by rw [h]; rfl, by rw [h]; rfl⟩
    have hlen : (rect x0 y0 x1 y1).vertexes.length = 4 := rfl
    rw [hlen]
    rcases rect_seg h1 with ⟨rfl, rfl, rfl⟩ | ⟨rfl, rfl, rfl⟩ | ⟨rfl, rfl, rfl⟩ | ⟨rfl, rfl, rfl⟩ <;>
      rcases rect_seg h2 with ⟨rfl, rfl, rfl⟩ | ⟨rfl, rfl, rfl⟩ | ⟨rfl, rfl, rfl⟩ | ⟨rfl, rfl, rfl⟩ <;>
      obtain ⟨t, t0, t1, hx1, hy1⟩ := hl _ _ o1 <;> obtain ⟨u, u0, u1, hx2, hy2⟩ := hl _ _ o2 <;>
      simp only [sub_self, mul_zero, add_zero] at hx1 hy1 hx2 hy2 <;>
      first
      | exact absurd rfl hne
      | (left; refine ⟨rfl, ?_⟩; ext <;> simp only <;> linarith)
      | (right; refine ⟨rfl, ?_⟩; ext <;> simp only <;> linarith)
      | (exfalso; linarith)

/-- A rectangle. -/
example : ∃ s, GoesOnce (rect 0 0 3 2) s := C60_goes_once (rect_simple (by norm_num) (by norm_num))

/-- The letter L. -/
def letterL : Polyline :=
  ⟨true, [⟨⟨0, 0⟩, 0⟩, ⟨⟨2, 0⟩, 0⟩, ⟨⟨2, 1⟩, 0⟩, ⟨⟨1, 1⟩, 0⟩, ⟨⟨1, 2⟩, 0⟩, ⟨⟨0, 2⟩, 0⟩]⟩

theorem letterL_seg {i : ℕ} {v1 v2 : Vertex} (h : IsSeg letterL i v1 v2) :
    (i = 0 ∧ v1 = ⟨⟨0, 0⟩, 0⟩ ∧ v2 = ⟨⟨2, 0⟩, 0⟩) ∨ (i = 1 ∧ v1 = ⟨⟨2, 0⟩, 0⟩ ∧ v2 = ⟨⟨2, 1⟩, 0⟩) ∨
    (i = 2 ∧ v1 = ⟨⟨2, 1⟩, 0⟩ ∧ v2 = ⟨⟨1, 1⟩, 0⟩) ∨ (i = 3 ∧ v1 = ⟨⟨1, 1⟩, 0⟩ ∧ v2 = ⟨⟨1, 2⟩, 0⟩) ∨
    (i = 4 ∧ v1 = ⟨⟨1, 2⟩, 0⟩ ∧ v2 = ⟨⟨0, 2⟩, 0⟩) ∨ (i = 5 ∧ v1 = ⟨⟨0, 2⟩, 0⟩ ∧ v2 = ⟨⟨0, 0⟩, 0⟩) := by
  obtain ⟨h1, -, h2, -, -⟩ := seg_lt h
  obtain ⟨rfl, rfl⟩ := isSeg_inj h (closed_isSeg rfl h2 h1)
  have : letterL.size = 6 := rfl
  rw [this] at h1
  interval_cases i <;> simp [vtx, letterL, Polyline.size]

theorem letterL_simple : SimplePolygon letterL := by
  refine ⟨rfl, by simp [letterL, isLine_zero], by simp [letterL], ?_, ?_⟩
  · intro i v1 v2 h he
    have e1 := congrArg V2.x he
    have e2 := congrArg V2.y he
    rcases letterL_seg h with ⟨-, rfl, rfl⟩ | ⟨-, rfl, rfl⟩ | ⟨-, rfl, rfl⟩ | ⟨-, rfl, rfl⟩ | ⟨-, rfl, rfl⟩ | ⟨-, rfl, rfl⟩ <;>
      simp only at e1 e2 <;> linarith
  · intro i j v1 v2 u1 u2 x h1 h2 hne o1 o2
    have hl : ∀ a b : V2, OnSeg ⟨a, 0⟩ ⟨b, 0⟩ x → ∃ t, 0 ≤ t ∧ t ≤ 1 ∧ x.x = a.x + t * (b.x - a.x) ∧ x.y = a.y + t * (b.y - a.y) := by
      intro a b h
      obtain ⟨t, t0, t1, h⟩ := (onSeg_line (v1 := ⟨a, 0⟩) (v2 := ⟨b, 0⟩) (isLine_zero _)).1 h
      exact ⟨t, t0, t1, by rw [h]; rfl, by rw [h]; rfl⟩
    have hlen : letterL.vertexes.length = 6 := rfl
    rw [hlen]
    rcases letterL_seg h1 with ⟨rfl, rfl, rfl⟩ | ⟨rfl, rfl, rfl⟩ | ⟨rfl, rfl, rfl⟩ | ⟨rfl, rfl, rfl⟩ | ⟨rfl, rfl, rfl⟩ | ⟨rfl, rfl, rfl⟩ <;>
      rcases letterL_seg h2 with ⟨rfl, rfl, rfl⟩ | ⟨rfl, rfl, rfl⟩ | ⟨rfl, rfl, rfl⟩ | ⟨rfl, rfl, rfl⟩ | ⟨rfl, rfl, rfl⟩ | ⟨rfl, rfl, rfl⟩ <;>
      obtain ⟨t, t0, t1, hx1, hy1⟩ := hl _ _ o1 <;> obtain ⟨u, u0, u1, hx2, hy2⟩ := hl _ _ o2 <;>
      simp only [sub_self, mul_zero, add_zero] at hx1 hy1 hx2 hy2 <;>
      first
      | exact absurd rfl hne
      | (left; refine ⟨rfl, ?_⟩; ext <;> simp only <;> linarith)
      | (right; refine ⟨rfl, ?_⟩; ext <;> simp only <;> linarith)
      | (exfalso; linarith)

/-- A polygon that is not convex. -/
example : ∃ s, GoesOnce letterL s := C60_goes_once letterL_simple

/-- It has points inside that can all be joined without meeting it. -/
example : (∃ x, ¬ OnPline letterL x ∧ Inside letterL x) ∧ ∀ x y, ¬ OnPline letterL x → ¬ OnPline letterL y →
    Inside letterL x → Inside letterL y → JoinedOff letterL x y := by
  obtain ⟨h1, h2, -⟩ := C60_jordan letterL_simple
  exact ⟨h2, fun x y hx hy ix iy => (h1 x y hx hy).2 (iff_of_true ix iy)⟩

end
end Cavc

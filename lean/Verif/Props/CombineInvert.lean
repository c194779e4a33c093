import Verif.Props.OffsetReverse
import Verif.Props.CombineLaws

/-! C79: combining polylines in the other direction. -/
namespace Cavc
open Spec
open scoped Classical
noncomputable section

section
variable {A B A' B' : Polyline}

theorem invert_vertex (h : invertDirection A = .ok A') {w : Vertex} (hw : w ∈ A'.vertexes) : ∃ v ∈ A.vertexes, w.pos = v.pos := by
  obtain ⟨r, er, -, hpos, -⟩ := C28_invertDirection A
  rw [h] at er
  cases er
  have : w.pos ∈ A'.vertexes.map Vertex.pos := List.mem_map_of_mem hw
  rw [hpos, List.mem_reverse, List.mem_map] at this
  obtain ⟨v, hv, e⟩ := this
  exact ⟨v, hv, e.symm⟩

/-- Crossing clearly does not depend on the direction. -/
theorem cleanMeet_invert (h : invertDirection A = .ok A') (hg : CleanMeet A B) : CleanMeet A' B := by
  obtain ⟨c, l, s⟩ := invert_basics h
  have ho := C28_same_points A A' h
  have self : ∀ u1 u2 : Vertex, ∀ {v1 v2 w1 w2 : Vertex}, Rev v1 v2 w1 w2 → ClearPair v1 v2 u1 u2 → ClearPair w1 w2 u1 u2 := by
    intro u1 u2 v1 v2 w1 w2 r hc
    constructor
    · intro a b
      rcases hc.lines (r.line.1 a) b with k | k | k
      · left
        rw [r.1, r.2.1]
        rw [← abs_neg]
        convert k using 2
        ring
      · right; left
        rw [r.1, r.2.1]
        have e : ∀ x, side v2.pos v1.pos x = -side v1.pos v2.pos x := fun x => by unfold side; ring
        unfold OneSide at k ⊢
        simp only at k ⊢
        rw [e, e, show -side v1.pos v2.pos u2.pos - -side v1.pos v2.pos u1.pos =
          -(side v1.pos v2.pos u2.pos - side v1.pos v2.pos u1.pos) by ring, abs_neg]
        rcases k with ⟨h1, h2⟩ | ⟨h1, h2⟩
        · right; constructor <;> linarith
        · left; constructor <;> linarith
      · right; right
        rw [r.1, r.2.1]
        unfold OneSide at k ⊢
        simp only at k ⊢
        rw [abs_sub_comm]
        exact k.imp And.symm And.symm
    · intro a b d hd
      obtain ⟨k1, k2⟩ := hc.lineArc (r.line.1 a) b d hd
      rw [r.1, r.2.1]
      refine ⟨by rwa [dist2_comm], ?_⟩
      rw [dist2_comm, show side v2.pos v1.pos d ^ 2 = side v1.pos v2.pos d ^ 2 by unfold side; ring]
      exact k2
    · intro a b d hd
      have hd' := (r.center d).1 hd
      rw [r.radius hd']
      exact hc.arcLine (fun e => a (r.line.2 e)) b d hd'
    · intro a b d e hd he
      have hd' := (r.center d).1 hd
      rw [r.radius hd']
      exact hc.arcs (fun e => a (r.line.2 e)) b d e hd' he
    · intro x a b
      obtain ⟨k1, k2⟩ := hc.exact x (r.longer a) b
      exact ⟨r.onSeg' k1, k2⟩
  constructor
  · intro i j w1 w2 u1 u2 a b hb
    obtain ⟨-, v1, v2, g, r⟩ := s _ _ _ a
    refine self u1 u2 r (hg.pairs _ _ _ _ _ _ g b ?_)
    unfold BoxesClose at hb ⊢
    rwa [r.box] at hb
  · intro w hw
    obtain ⟨v, hv, e⟩ := invert_vertex h hw
    rw [e]
    exact hg.vertexA v hv
  · exact fun v hv k => hg.vertexB v hv ((ho _).1 k)
  · intro k w e t t' x x' hs h1 h2 hlt
    obtain ⟨-, v1, v2, g, r⟩ := s _ _ _ hs
    have flip : ∀ {t x}, EndOrMeet B w e t x → EndOrMeet B v1 v2 (1 - t) x := by
      rintro t x ⟨a, b, c, d⟩
      refine ⟨by linarith, by linarith, (r.param _ _).1 c, ?_⟩
      rcases d with rfl | rfl | d
      · right; left; ring
      · left; ring
      · exact Or.inr (Or.inr d)
    obtain ⟨n, ha⟩ := hg.alongA _ _ _ _ _ _ _ g (flip h2) (flip h1) (by linarith)
    refine ⟨fun k => n (near_comm k), fun hl => ?_⟩
    have := ha (fun e => hl (r.line.2 e))
    rw [r.sweep, abs_neg]
    linarith
  · intro j v e t t' x x' hs h1 h2
    refine hg.alongB j v e t t' x x' hs ⟨h1.1, h1.2.1, h1.2.2.1, ?_⟩ ⟨h2.1, h2.2.1, h2.2.2.1, ?_⟩
    · rw [← ho]; exact h1.2.2.2
    · rw [← ho]; exact h2.2.2.2
  · rintro i j x i' j' x' ⟨v1, v2, u1, u2, a1, a2, a3, a4⟩ ⟨w1, w2, y1, y2, b1, b2, b3, b4⟩ hne
    obtain ⟨hi, c1, c2, g, r⟩ := s _ _ _ a1
    obtain ⟨hi', d1, d2, g', r'⟩ := s _ _ _ b1
    refine hg.apart _ j x _ j' x' ⟨c1, c2, u1, u2, g, a2, r.on a3, a4⟩ ⟨d1, d2, y1, y2, g', b2, r'.on b3, b4⟩ fun e => hne ?_
    simp only [Prod.mk.injEq] at e ⊢
    refine ⟨?_, e.2⟩
    have := e.1
    rw [invIndex_eq hi, invIndex_eq hi'] at this
    split_ifs at this <;> omega

/-- **C79.** It does not matter in which directions the two polylines are written down: `A'` and `B'` are `A` and `B` or these
inverted. -/
theorem C79_inverted {inf ninf inf' ninf' : ℝ} {std std' : StdSort} {hash hash' : HashOrder}
    (ssA : SimpleCurve A) (ssB : SimpleCurve B) (hA : A' = A ∨ invertDirection A = .ok A') (hB : B' = B ∨ invertDirection B = .ok B')
    (hg : CleanMeet A B) (hap : ArcEndsApart A B) (hap' : ArcEndsApart A' B')
    (hi : Indexable (codePlatform inf ninf) A) (hi' : Indexable (codePlatform inf' ninf') A')
    (hn : A.vertexes.length * B.vertexes.length ≤ 10 ^ 6) (mode : CombineMode) :
    ∃ r r' a, combinePolylines (codePlatform inf ninf) std hash A B mode = .ok r ∧
      combinePolylines (codePlatform inf' ninf') std' hash' A' B' mode = .ok r' ∧
      (∀ x, ¬ OnPline A x → ¬ OnPline B x → (InResult r x ↔ InResult r' x)) ∧ AreaOf r a ∧ AreaOf r' a := by
  have simple : ∀ {P P' : Polyline}, SimpleCurve P → P' = P ∨ invertDirection P = .ok P' → SimpleCurve P' ∧
      (∀ x, OnPline P x ↔ OnPline P' x) ∧ P'.vertexes.length = P.vertexes.length := by
    rintro P P' hs (rfl | h)
    · exact ⟨hs, fun x => Iff.rfl, rfl⟩
    · exact ⟨simpleCurve_invert hs h, fun x => (C28_same_points P P' h x).symm, (invert_basics h).2.1⟩
  have clean : ∀ {P P' Q : Polyline}, CleanMeet P Q → P' = P ∨ invertDirection P = .ok P' → CleanMeet P' Q := by
    rintro P P' Q hc (rfl | h)
    · exact hc
    · exact cleanMeet_invert h hc
  obtain ⟨a1, a2, a3⟩ := simple ssA hA
  obtain ⟨b1, b2, b3⟩ := simple ssB hB
  exact C79_same_points ssA ssB a1 b1 a2 b2 hg hap (cleanMeet_symm (clean (cleanMeet_symm (clean hg hA)) hB)) hap' hi hi' hn
    (by rw [a3, b3]; exact hn) mode

end

theorem disc5_apart_inverted {D R : Polyline} (hD : invertDirection disc5 = .ok D) (hR : invertDirection (rect 3 (-8) 10 8) = .ok R) :
    ArcEndsApart D R := by
  obtain ⟨-, -, sD⟩ := invert_basics hD
  obtain ⟨-, -, sR⟩ := invert_basics hR
  have key : ∀ x, Known D R x → x = ⟨-5, 0⟩ ∨ x = ⟨5, 0⟩ ∨ x.x = 3 ∨ x.x = 10 ∨ x.y = 8 ∨ x.y = -8 := by
    rintro x (⟨v, hv, rfl⟩ | ⟨i, j, v1, v2, u1, u2, h1, h2, h3⟩)
    · have : ∃ v' ∈ disc5.vertexes ++ (rect 3 (-8) 10 8).vertexes, v.pos = v'.pos := by
        rcases List.mem_append.1 hv with h | h
        · obtain ⟨v', h1, h2⟩ := invert_vertex hD h
          exact ⟨v', List.mem_append_left _ h1, h2⟩
        · obtain ⟨v', h1, h2⟩ := invert_vertex hR h
          exact ⟨v', List.mem_append_right _ h1, h2⟩
      obtain ⟨v', hv', e⟩ := this
      rw [e]
      simp only [disc5, rect, List.cons_append, List.nil_append, List.mem_cons, List.not_mem_nil, or_false] at hv'
      rcases hv' with rfl | rfl | rfl | rfl | rfl | rfl <;> simp
    · have hok := (simpleCurve_invert disc5_simple hD).ok i v1 v2 h1
      obtain ⟨-, a1, a2, g, r⟩ := sD _ _ _ h1
      obtain ⟨-, b1, b2, g', r'⟩ := sR _ _ _ h2
      have ha : ¬ IsLine v1 := by
        rw [r.line]
        rcases disc5_seg g with ⟨rfl, -⟩ | ⟨rfl, -⟩ <;> (unfold IsLine; norm_num)
      have hl : IsLine u1 := by
        rw [r'.line]
        rcases rect_seg g' with ⟨-, rfl, rfl⟩ | ⟨-, rfl, rfl⟩ | ⟨-, rfl, rfl⟩ | ⟨-, rfl, rfl⟩ <;> exact isLine_zero _
      obtain ⟨t, rfl⟩ := known_on_line ha hl hok h3
      rw [r'.1, r'.2.1]
      rcases rect_seg g' with ⟨-, rfl, rfl⟩ | ⟨-, rfl, rfl⟩ | ⟨-, rfl, rfl⟩ | ⟨-, rfl, rfl⟩ <;> simp [lerp]
  have hfar : ∀ x, Known D R x → ∀ s : ℝ, s = 5 ∨ s = -5 → x = ⟨s, 0⟩ ∨ ¬ Near (1 / 10 ^ 4) x ⟨s, 0⟩ := by
    intro x hx s hs
    rcases key x hx with rfl | rfl | h | h | h | h
    · rcases hs with rfl | rfl
      · right; intro h; have := abs_lt.1 h.1; norm_num at this
      · left; rfl
    · rcases hs with rfl | rfl
      · left; rfl
      · right; intro h; have := abs_lt.1 h.1; norm_num at this
    all_goals
      right
      intro hn
      have h1 := abs_lt.1 hn.1
      have h2 := abs_lt.1 hn.2
      dsimp only at h1 h2
      rcases hs with rfl | rfl <;> norm_num at h1 h2 <;> linarith [h1.1, h1.2, h2.1, h2.2]
  intro p hp i v1 v2 hs ha x hx
  rcases hp with rfl | rfl
  · obtain ⟨-, a1, a2, g, r⟩ := sD _ _ _ hs
    rw [r.2.1]
    rcases disc5_seg g with ⟨rfl, -⟩ | ⟨rfl, -⟩
    · exact hfar x hx (-5) (Or.inr rfl)
    · exact hfar x hx 5 (Or.inl rfl)
  · exfalso
    obtain ⟨-, b1, b2, g, r⟩ := sR _ _ _ hs
    rw [r.line] at ha
    rcases rect_seg g with ⟨-, rfl, -⟩ | ⟨-, rfl, -⟩ | ⟨-, rfl, -⟩ | ⟨-, rfl, -⟩ <;>
      exact ha (isLine_zero _)

/-- The disc and the rectangle that cross, and both inverted. -/
example (inf ninf : ℝ) (std : StdSort) (hash : HashOrder) : ∃ D R r r' a, invertDirection disc5 = .ok D ∧
    invertDirection (rect 3 (-8) 10 8) = .ok R ∧
    combinePolylines (codePlatform inf ninf) std hash disc5 (rect 3 (-8) 10 8) .exclude = .ok r ∧
    combinePolylines (codePlatform inf ninf) std hash D R .exclude = .ok r' ∧
    (∀ x, ¬ OnPline disc5 x → ¬ OnPline (rect 3 (-8) 10 8) x → (InResult r x ↔ InResult r' x)) ∧ AreaOf r a ∧ AreaOf r' a := by
  obtain ⟨D, eD, -⟩ := C28_invertDirection disc5
  obtain ⟨R, eR, -⟩ := C28_invertDirection (rect 3 (-8) 10 8)
  have hD := simpleCurve_invert disc5_simple eD
  have hl : D.vertexes.length = 2 := (invert_basics eD).2.1
  have hl' : (segs D).length = 2 := by rw [segs_len hD, hl]
  obtain ⟨r, r', a, h⟩ := C79_inverted (inf := inf) (ninf := ninf) (inf' := inf) (ninf' := ninf) (std := std) (std' := std)
    (hash := hash) (hash' := hash) disc5_simple (rect_curve (by norm_num) (by norm_num)) (Or.inr eD) (Or.inr eR) disc5_clean
    disc5_apart (disc5_apart_inverted eD eR) (disc5_indexable inf ninf)
    (indexable_code (by rw [hl]) (by rw [hl']; norm_num) _ _ (Or.inl (by rw [hl']; norm_num))
      (fun i v1 v2 h => (hD.ok i v1 v2 h).half)) (by simp [disc5, rect]) .exclude
  exact ⟨D, R, r, r', a, eD, eR, h⟩

end
end Cavc

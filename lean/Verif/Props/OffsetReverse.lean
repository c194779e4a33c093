import Verif.Props.OffsetStart

/-! C80: the parallel offset of a smooth closed curve in the other direction. -/
namespace Cavc
open Spec
open scoped Classical
noncomputable section

/-- The segment from `w1` to `w2` is the one from `v1` to `v2` traversed backwards. -/
def Rev (v1 v2 w1 w2 : Vertex) : Prop := w1.pos = v2.pos ∧ w2.pos = v1.pos ∧ w1.bulge = -v1.bulge

section
variable {v1 v2 w1 w2 u1 u2 x1 x2 : Vertex}

theorem Rev.line (h : Rev v1 v2 w1 w2) : IsLine w1 ↔ IsLine v1 := by
  unfold IsLine
  rw [h.2.2, abs_neg]

theorem Rev.sweep (h : Rev v1 v2 w1 w2) : sweep w1 = -sweep v1 := by
  unfold Spec.sweep
  rw [h.2.2, Real.arctan_neg]
  ring

theorem Rev.center (h : Rev v1 v2 w1 w2) (c : V2) : IsCenter w1 w2 c ↔ IsCenter v1 v2 c := by
  unfold IsCenter
  rw [h.sweep, h.1, h.2.1]
  constructor
  · intro hh; rw [← hh, rot_add, add_neg_cancel, rot_zero]
  · intro hh; rw [← hh, rot_add, neg_add_cancel, rot_zero]

theorem center_radius {c : V2} (h : IsCenter v1 v2 c) : distance v2.pos c = distance v1.pos c := by
  unfold IsCenter at h
  unfold distance
  rw [← h, dist2_rot]

theorem Rev.radius (h : Rev v1 v2 w1 w2) {c : V2} (hc : IsCenter v1 v2 c) : distance w1.pos c = distance v1.pos c := by
  rw [h.1]
  exact center_radius hc

theorem Rev.param (h : Rev v1 v2 w1 w2) (t : ℝ) (x : V2) : AtParam w1 w2 t x ↔ AtParam v1 v2 (1 - t) x :=
  atParam_reverse h.1 h.2.1 h.2.2 t x

theorem Rev.on (h : Rev v1 v2 w1 w2) {x : V2} (hx : OnSeg w1 w2 x) : OnSeg v1 v2 x := by
  obtain ⟨t, t0, t1, ht⟩ := hx
  exact ⟨1 - t, by linarith, by linarith, (h.param _ _).1 ht⟩

theorem Rev.inSweep (h : Rev v1 v2 w1 w2) {ε : ℝ} {c x : V2} (hs : InSweep ε w1 w2 c x) : InSweep ε v1 v2 c x := by
  unfold InSweep at hs ⊢
  rw [h.1, h.2.1, h.2.2] at hs
  rcases hs with ⟨a, b, d⟩ | ⟨a, b, d⟩
  · exact Or.inr ⟨by linarith, d, b⟩
  · exact Or.inl ⟨by linarith, d, b⟩

theorem Rev.decided (h : Rev v1 v2 w1 w2) {x : V2} (hd : SectorDecided v1 v2 x) : SectorDecided w1 w2 x := by
  rcases hd with hl | hd
  · exact Or.inl (h.line.2 hl)
  · refine Or.inr fun c hc => ?_
    rcases hd c ((h.center c).1 hc) with ⟨a, b, d⟩ | ⟨a, b, d⟩ | hn
    · exact Or.inr (Or.inl ⟨by rw [h.2.2]; linarith, by rw [h.1]; exact d, by rw [h.2.1]; exact b⟩)
    · exact Or.inl ⟨by rw [h.2.2]; linarith, by rw [h.1]; exact d, by rw [h.2.1]; exact b⟩
    · exact Or.inr (Or.inr fun hs => hn (h.inSweep hs))

theorem Rev.longer (h : Rev v1 v2 w1 w2) {ε : ℝ} {x : V2} (hx : OnLonger ε w1 w2 x) : OnLonger ε v1 v2 x := by
  rcases hx with ⟨hl, t, t0, t1, rfl⟩ | ⟨hl, c, hc, ho, hs⟩
  · refine Or.inl ⟨h.line.1 hl, 1 - t, by linarith, by linarith, ?_⟩
    rw [h.1, h.2.1]
    ext <;> simp only [lerp] <;> ring
  · have hc' := (h.center c).1 hc
    rw [h.radius hc'] at ho
    exact Or.inr ⟨fun e => hl (h.line.2 e), c, hc', ho, h.inSweep hs⟩

theorem Rev.onSeg' (h : Rev v1 v2 w1 w2) {x : V2} (hx : OnSeg v1 v2 x) : OnSeg w1 w2 x := by
  obtain ⟨t, t0, t1, ht⟩ := hx
  exact ⟨1 - t, by linarith, by linarith, (h.param _ _).2 (by simpa using ht)⟩

theorem Rev.box (h : Rev v1 v2 w1 w2) : createFastApproxBoundingBox w1 w2 = createFastApproxBoundingBox v1 v2 := by
  have f1 : ∀ a b : ℝ, (if a < b then a else b) = if b < a then b else a := by
    intro a b; split_ifs <;> linarith
  have f2 : ∀ a b : ℝ, (if a < b then b else a) = if b < a then a else b := by
    intro a b; split_ifs <;> linarith
  unfold createFastApproxBoundingBox
  by_cases hl : IsLine v1
  · rw [if_pos (show w1.bulgeIsZero from h.line.2 hl), if_pos (show v1.bulgeIsZero from hl), h.1, h.2.1]
    rw [f1 v2.pos.x, f1 v2.pos.y, f2 v2.pos.x, f2 v2.pos.y]
  · rw [if_neg (show ¬ w1.bulgeIsZero from fun e => hl (h.line.1 e)), if_neg (show ¬ v1.bulgeIsZero from hl), h.1, h.2.1, h.2.2]
    simp only
    rw [show -v1.bulge * (v1.pos.y - v2.pos.y) / 2 = v1.bulge * (v2.pos.y - v1.pos.y) / 2 by ring,
      show - -v1.bulge * (v1.pos.x - v2.pos.x) / 2 = -v1.bulge * (v2.pos.x - v1.pos.x) / 2 by ring,
      f1 v2.pos.x, f1 v2.pos.y, f2 v2.pos.x, f2 v2.pos.y]
    rw [f1 (v2.pos.x + _), f1 (v2.pos.y + _), f2 (v2.pos.x + _), f2 (v2.pos.y + _)]

theorem oneSide_rev {a b p q : V2} (h : OneSide a b p q) : OneSide b a q p := by
  have e : ∀ x, side b a x = -side a b x := fun x => by unfold side; ring
  unfold OneSide at h ⊢
  simp only at h ⊢
  rw [e, e, show -side a b p - -side a b q = side a b q - side a b p by ring]
  rcases h with ⟨h1, h2⟩ | ⟨h1, h2⟩
  · right; constructor <;> linarith
  · left; constructor <;> linarith

theorem Rev.clear (h : Rev v1 v2 w1 w2) (h' : Rev u1 u2 x1 x2) (hc : ClearPair v1 v2 u1 u2) : ClearPair w1 w2 x1 x2 where
  lines := fun a b => by
    have := hc.lines (h.line.1 a) (h'.line.1 b)
    rw [h.1, h.2.1, h'.1, h'.2.1]
    rcases this with k | k | k
    · left
      convert k using 2
      ring
    · exact Or.inr (Or.inl (oneSide_rev k))
    · exact Or.inr (Or.inr (oneSide_rev k))
  lineArc := fun a b c d => by
    have hd := (h'.center c).1 d
    obtain ⟨k1, k2⟩ := hc.lineArc (h.line.1 a) (fun e => b (h'.line.2 e)) c hd
    rw [h'.radius hd, h.1, h.2.1]
    refine ⟨by rwa [dist2_comm], ?_⟩
    rw [dist2_comm, show side v2.pos v1.pos c ^ 2 = side v1.pos v2.pos c ^ 2 by unfold side; ring]
    exact k2
  arcLine := fun a b c d => by
    have hd := (h.center c).1 d
    obtain ⟨k1, k2⟩ := hc.arcLine (fun e => a (h.line.2 e)) (h'.line.1 b) c hd
    rw [h.radius hd, h'.1, h'.2.1]
    refine ⟨by rwa [dist2_comm], ?_⟩
    rw [dist2_comm, show side u2.pos u1.pos c ^ 2 = side u1.pos u2.pos c ^ 2 by unfold side; ring]
    exact k2
  arcs := fun a b c d e f => by
    have he := (h.center c).1 e
    have hf := (h'.center d).1 f
    rw [h.radius he, h'.radius hf]
    exact hc.arcs (fun k => a (h.line.2 k)) (fun k => b (h'.line.2 k)) c d he hf
  exact := fun x a b => by
    obtain ⟨k1, k2⟩ := hc.exact x (h.longer a) (h'.longer b)
    exact ⟨h.onSeg' k1, h'.onSeg' k2⟩

theorem Rev.collapses {offset : ℝ} (h : Rev v1 v2 w1 w2) (hc : Collapses (-offset) w1 w2) : Collapses offset v1 v2 := by
  obtain ⟨hl, r, ⟨c, hc, hr⟩, hlt⟩ := hc
  have hl' : ¬ IsLine v1 := fun e => hl (h.line.2 e)
  have hd := (h.center c).1 hc
  refine ⟨hl', r, ⟨c, hd, ?_⟩, hlt⟩
  rw [hr, h.radius hd, h.2.2]
  have := bulge_ne_zero hl'
  rcases lt_or_gt_of_ne this with k | k
  · rw [if_neg (by linarith), if_pos k, neg_neg]
  · rw [if_pos (by linarith), if_neg (by linarith)]

theorem velocity_rev (γ : ℝ → V2) (t : ℝ) : velocity (fun s => γ (1 - s)) t = ⟨-(velocity γ (1 - t)).x, -(velocity γ (1 - t)).y⟩ := by
  unfold velocity
  simp only
  rw [deriv_comp_const_sub (f := fun s => (γ s).x) 1 t, deriv_comp_const_sub (f := fun s => (γ s).y) 1 t]

theorem Rev.parallel {offset : ℝ} (h : Rev v1 v2 w1 w2) (h' : Rev u1 u2 x1 x2) (hp : ParallelSeg offset v1 v2 u1 u2) :
    ParallelSeg (-offset) w1 w2 x1 x2 := by
  refine ⟨by rw [h.2.2, h'.2.2, hp.1], fun γ γ' t n hγ hγ' hn => ?_⟩
  have a : IsPath v1 v2 (fun s => γ (1 - s)) := fun s => by
    have := (h.param (1 - s) _).1 (hγ (1 - s))
    simpa using this
  have b : IsPath u1 u2 (fun s => γ' (1 - s)) := fun s => by
    have := (h'.param (1 - s) _).1 (hγ' (1 - s))
    simpa using this
  have hn' : LeftNormal (fun s => γ (1 - s)) (1 - t) ⟨-n.x, -n.y⟩ := by
    obtain ⟨n1, k, hk, e⟩ := hn
    refine ⟨by simp only; linarith, k, hk, ?_⟩
    rw [velocity_rev, sub_sub_cancel, e]
    ext <;> simp only <;> ring
  have := hp.2 _ _ _ _ a b hn'
  simp only [sub_sub_cancel] at this
  rw [this]
  ext
  · simp only [V2.add_x, V2.smul_x]; ring
  · simp only [V2.add_y, V2.smul_y]; ring

end

section
variable {p q p' q' : Polyline} {offset : ℝ}

/-- The index in the original of the segment `i` of the inverted polyline. -/
def invIndex (n i : ℕ) : ℕ := (2 * n - 2 - i) % n

theorem invIndex_lt {n i : ℕ} (hi : i < n) : invIndex n i < n := Nat.mod_lt _ (by omega)

theorem invIndex_eq {n i : ℕ} (hi : i < n) : invIndex n i = if i + 1 = n then n - 1 else n - 2 - i := inv_index hi

theorem mod_succ {n k : ℕ} (hk : k < n) : (k + 1) % n = if k + 1 = n then 0 else k + 1 := by
  split_ifs with c
  · rw [c, Nat.mod_self]
  · exact Nat.mod_eq_of_lt (by omega)

theorem invIndex_succ {n i j : ℕ} (hi : i < n) (hj : j < n) : j = (i + 1) % n ↔ invIndex n i = (invIndex n j + 1) % n := by
  rw [mod_succ hi, mod_succ (invIndex_lt hj), invIndex_eq hi, invIndex_eq hj]
  split_ifs <;> omega

theorem invert_basics (h : invertDirection p = .ok p') : p'.isClosed = p.isClosed ∧ p'.vertexes.length = p.vertexes.length ∧
    ∀ i w1 w2, IsSeg p' i w1 w2 → i < p.vertexes.length ∧ ∃ v1 v2, IsSeg p (invIndex p.vertexes.length i) v1 v2 ∧ Rev v1 v2 w1 w2 := by
  have hi := C28_involution p
  rw [h, ok_bind] at hi
  obtain ⟨r, hr, hcl, hpos, -⟩ := C28_invertDirection p
  rw [h] at hr
  cases hr
  have hlen : p'.vertexes.length = p.vertexes.length := by
    have := congrArg List.length hpos
    simpa using this
  obtain ⟨r', hr', -, -, -, hseg⟩ := C28_invertDirection p'
  rw [hi] at hr'
  cases hr'
  refine ⟨hcl, hlen, fun i w1 w2 hs => ?_⟩
  obtain ⟨v1, v2, g1, g2, g3, g4, -⟩ := hseg i w1 w2 hs
  have hlt : i < p'.vertexes.length := (seg_lt hs).1
  rw [hlen] at g1 hlt
  exact ⟨hlt, v1, v2, g1, g3.symm, g2.symm, by rw [g4, neg_neg]⟩

theorem parallelTo_invert (h : ParallelTo offset p q) (hp : invertDirection p = .ok p') (hq : invertDirection q = .ok q') :
    ParallelTo (-offset) p' q' := by
  obtain ⟨c1, l1, s1⟩ := invert_basics hp
  obtain ⟨c2, l2, s2⟩ := invert_basics hq
  refine ⟨c1.trans h.closed, c2.trans h.closed', by rw [l1, l2, h.length], fun i w1 w2 x1 x2 a b => ?_⟩
  obtain ⟨-, v1, v2, g, r⟩ := s1 _ _ _ a
  obtain ⟨-, u1, u2, g', r'⟩ := s2 _ _ _ b
  rw [h.length] at g'
  exact r.parallel r' (h.segs _ _ _ _ _ g g')

/-- Consecutive segments of the inverted polyline come from consecutive segments. -/
theorem invert_next (h : invertDirection p = .ok p') {i j : ℕ} {w1 w2 w3 : Vertex} (a : IsSeg p' i w1 w2) (b : IsSeg p' j w2 w3)
    (e : j = (i + 1) % p'.vertexes.length) : ∃ v1 v2 v3, IsSeg p (invIndex p.vertexes.length j) v1 v2 ∧
      IsSeg p (invIndex p.vertexes.length i) v2 v3 ∧ invIndex p.vertexes.length i = (invIndex p.vertexes.length j + 1) % p.vertexes.length ∧
      Rev v2 v3 w1 w2 ∧ Rev v1 v2 w2 w3 := by
  obtain ⟨-, l, s⟩ := invert_basics h
  obtain ⟨hi, v2, v3, g, r⟩ := s _ _ _ a
  obtain ⟨hj, v1, v2', g', r'⟩ := s _ _ _ b
  rw [l] at e
  have e' := (invIndex_succ hi hj).1 e
  have : v2' = v2 := by
    rw [(isSeg_mod g').2.2.2, (isSeg_mod g).2.2.1]
    rw [show p.size = p.vertexes.length from rfl, e']
  subst this
  exact ⟨v1, v2', v3, g', g, e', r, r'⟩

theorem closed_start_seg (hc : p.isClosed = true) (h2 : 2 ≤ p.vertexes.length) {v : Vertex} (hv : v ∈ p.vertexes) :
    ∃ i w, IsSeg p i v w := by
  obtain ⟨i, hi, rfl⟩ := List.getElem_of_mem hv
  have := isSeg_closed hc h2 hi
  have e : vtx p i = p.vertexes[i] := by unfold vtx; rw [List.getD_eq_getElem _ _ hi]
  rw [e] at this
  exact ⟨i, _, this⟩

theorem bulgesOk_invert (hc : p.isClosed = true) (h2 : 2 ≤ p.vertexes.length) (h : invertDirection p = .ok p') (hb : BulgesOk p) :
    BulgesOk p' := by
  obtain ⟨c, l, s⟩ := invert_basics h
  intro w hw
  obtain ⟨i, w2, a⟩ := closed_start_seg (c.trans hc) (by rw [l]; exact h2) hw
  obtain ⟨-, v1, v2, g, r⟩ := s _ _ _ a
  rw [r.2.2, abs_neg]
  exact hb _ (start_mem g)

theorem notTiny_invert (hc : q.isClosed = true) (h2 : 2 ≤ q.vertexes.length) (h : invertDirection q = .ok q') (ht : NotTiny q) :
    NotTiny q' := by
  obtain ⟨c, l, s⟩ := invert_basics h
  constructor
  · intro i j w1 w2 w3 a b e
    obtain ⟨v1, v2, v3, g1, g2, e', r1, r2⟩ := invert_next h a b e
    rintro ⟨k1, k2⟩
    exact ht.notBoth _ _ _ _ _ g1 g2 e' ⟨r2.line.1 k2, r1.line.1 k1⟩
  · intro w hw hl
    obtain ⟨i, w2, a⟩ := closed_start_seg (c.trans hc) (by rw [l]; exact h2) hw
    obtain ⟨-, v1, v2, g, r⟩ := s _ _ _ a
    rw [r.2.2, ht.zero _ (start_mem g) (r.line.1 hl), neg_zero]
  · intro i w1 w2 a hl
    obtain ⟨-, v1, v2, g, r⟩ := s _ _ _ a
    rw [r.1, r.2.1, distance_symm]
    exact ht.lines _ _ _ g (r.line.1 hl)
  · intro i w1 w2 a hn
    obtain ⟨-, v1, v2, g, r⟩ := s _ _ _ a
    rw [r.1, r.2.1] at hn
    exact ht.apart _ _ _ g (near_comm hn)

theorem keepsApart_invert (h : invertDirection q = .ok q') (hk : KeepsApart q) : KeepsApart q' := by
  obtain ⟨c, l, s⟩ := invert_basics h
  constructor
  · intro i j w1 w2 w3 a b e k1 k2 c1 c2 d1 d2 hs
    obtain ⟨v1, v2, v3, g1, g2, e', r1, r2⟩ := invert_next h a b e
    have f1 := (r1.center c1).1 d1
    have f2 := (r2.center c2).1 d2
    refine hk.circles _ _ _ _ _ g1 g2 e' (fun e => k2 (r2.line.2 e)) (fun e => k1 (r1.line.2 e)) _ _ f2 f1 ?_
    rw [r1.radius f1, r2.radius f2] at hs
    exact ⟨by rw [distance_symm]; exact hs.1, by rw [abs_sub_comm]; exact hs.2⟩
  · intro i j w1 w2 x1 x2 a b hn
    obtain ⟨hi, v1, v2, g, r⟩ := s _ _ _ a
    obtain ⟨hj, u1, u2, g', r'⟩ := s _ _ _ b
    obtain ⟨n1, n2, n3⟩ := hn
    rw [l, isPrev_iff hi hj] at n2
    rw [l, isPrev_iff hj hi] at n3
    have hna : NonAdjacent q (invIndex q.vertexes.length i) (invIndex q.vertexes.length j) := by
      refine ⟨?_, ?_, ?_⟩
      · intro e
        rw [invIndex_eq hi, invIndex_eq hj] at e
        split_ifs at e <;> omega
      · rw [isPrev_iff (invIndex_lt hi) (invIndex_lt hj)]
        exact fun e => n3 ((invIndex_succ hi hj).2 e)
      · rw [isPrev_iff (invIndex_lt hj) (invIndex_lt hi)]
        exact fun e => n2 ((invIndex_succ hj hi).2 e)
    rcases hk.pairs _ _ _ _ _ _ g g' hna with k | ⟨k1, k2⟩
    · left
      unfold BoxesClose at k ⊢
      rwa [r.box, r'.box]
    · exact Or.inr ⟨r.clear r' k1, fun x hx => k2 x ⟨r.on hx.1, r'.on hx.2⟩⟩

theorem indexable_invert (inf ninf : ℝ) {a : ℝ} (ha : getArea p = .ok a) (h0 : a ≠ 0)
    (hn : p.vertexes.length ≤ 2 ^ 24) (hb : BulgesOk p) (h : invertDirection p = .ok p') : Indexable (codePlatform inf ninf) p' := by
  obtain ⟨hc, h2⟩ := area_closed ha h0
  obtain ⟨c, l, s⟩ := invert_basics h
  have e := C28_same_points p p' h
  have hl : (segs p').length = p.vertexes.length := by
    rw [segs_length, if_neg (show ¬ p'.size < 2 by unfold Polyline.size; rw [l]; omega), if_pos (c.trans hc)]
    exact l
  refine indexable_code (by rw [l]; exact h2) (by rw [hl]; exact hn) inf ninf (Or.inr ⟨?_, ?_⟩) ?_
  · obtain ⟨x, y, h1, h2, h3⟩ := area_wide ha h0
    exact ⟨x, y, (e x).2 h1, (e y).2 h2, h3⟩
  · obtain ⟨x, y, h1, h2, h3⟩ := area_high ha h0
    exact ⟨x, y, (e x).2 h1, (e y).2 h2, h3⟩
  · intro i v1 v2 hs
    exact bulgesOk_invert hc h2 h hb v1 (start_mem hs)

/-- C80. The offset of the curve in the other direction by the same distance to the same side, which is the other sign, is the
parallel curve in the other direction. -/
theorem C80_inverted {std : StdSort} {hash : HashOrder} (inf ninf : ℝ) {w : Vertex}
    (h : ParallelTo offset p q) (h3 : 3 ≤ p.vertexes.length) (hn : p.vertexes.length ≤ 2 ^ 24) {a b : ℝ}
    (ha : getArea p = .ok a) (ha0 : a ≠ 0) (hq : getArea q = .ok b) (hq0 : b ≠ 0) (ho : 1 / 10 ^ 4 ≤ |offset|)
    (hb : BulgesOk p) (hr : NoRepeats p) (ht : NotTiny q) (hc : ∀ i v1 v2, IsSeg p i v1 v2 → ¬ Collapses offset v1 v2)
    (hk : KeepsApart q) (hw : q.vertexes.getLast? = some w) (hw' : NotCloser p |offset| w.pos)
    (hd : ∀ i v1 v2, IsSeg p i v1 v2 → SectorDecided v1 v2 w.pos) (hp' : invertDirection p = .ok p')
    (hq' : invertDirection q = .ok q') :
    parallelOffset (codePlatform inf ninf) std hash p' (-offset) = .ok [q'] := by
  have h2 : 2 ≤ p.vertexes.length := by omega
  have h2' : 2 ≤ q.vertexes.length := by rw [h.length]; exact h2
  have hbq := parallel_bulges h h2 hb
  obtain ⟨c, l, s⟩ := invert_basics hp'
  obtain ⟨-, l', -⟩ := invert_basics hq'
  obtain ⟨r, er, -, hpos, -⟩ := C28_invertDirection q
  rw [hq'] at er
  cases er
  obtain ⟨f, hf⟩ : ∃ f, q'.vertexes.head? = some f := by
    cases hv : q'.vertexes with
    | nil => rw [hv] at l'; simp at l'; omega
    | cons f t => exact ⟨f, rfl⟩
  have hfw : f.pos = w.pos := by
    have e := congrArg List.head? hpos
    rw [List.head?_map, hf, List.head?_reverse, List.getLast?_map, hw] at e
    simpa using e
  refine C80_parallel_simple inf ninf (parallelTo_invert h hp' hq') (by rw [l]; exact h3) (by rw [abs_neg]; exact ho)
    (indexable_invert inf ninf ha ha0 hn hb hp') (indexable_invert inf ninf hq hq0 (by rw [h.length]; exact hn) hbq hq')
    (bulgesOk_invert h.closed h2 hp' hb) ?_ (notTiny_invert h.closed' h2' hq' ht) ?_ (keepsApart_invert hq' hk) hf ?_ ?_
  · intro i w1 w2 g hn'
    obtain ⟨-, v1, v2, g', r⟩ := s _ _ _ g
    rw [r.1, r.2.1] at hn'
    exact hr _ _ _ g' (near_comm hn')
  · intro i w1 w2 g hn'
    obtain ⟨-, v1, v2, g', r⟩ := s _ _ _ g
    exact hc _ _ _ g' (r.collapses hn')
  · rw [abs_neg, hfw]
    exact fun z hz => hw' z ((C28_same_points p p' hp' z).1 hz)
  · intro i w1 w2 g
    obtain ⟨-, v1, v2, g', r⟩ := s _ _ _ g
    rw [hfw]
    exact r.decided (hd _ _ _ g')

end

section
variable {X0 y0 X1 y1 d d' : ℝ}

theorem rounded_left (h : RoundOk 1 X0 y0 X1 y1 d) {z : V2} (hz : OnPline (rounded 1 X0 y0 X1 y1 d) z) : X0 - d ≤ z.x := by
  obtain ⟨i, v, w, hseg, hon⟩ := hz
  have hd0 : 0 < d := lt_of_lt_of_le (by norm_num) h.offset
  have e3 : (0 : ℝ) < 1 / 10 ^ 3 := by norm_num
  have hh := h.height
  have hw := h.width
  have hok := (rounded_is h).ok _ _ _ hseg
  have onc : ∀ {lx hx ly hy : ℝ} {c : V2}, IsRounding 1 lx hx ly hy d c v w → (v.pos.x - c.x) ^ 2 + (v.pos.y - c.y) ^ 2 = d ^ 2 →
      (z.x - c.x) ^ 2 + (z.y - c.y) ^ 2 = d ^ 2 := by
    intro lx hx ly hy c g e
    have ha := (eighth_arc h.sign g.bulge).1
    obtain ⟨t, -, -, ht⟩ := hon
    rw [atParam_arc ha, ← isCenter_unique (bulge_ne_zero ha) g.center] at ht
    have := dist2_rot c v.pos (t * sweep v)
    rw [← ht] at this
    rw [show dist2 z c = (z.x - c.x) ^ 2 + (z.y - c.y) ^ 2 from rfl] at this
    rw [this]
    exact e
  rcases round_seg (rounded_is h) hseg with ⟨-, a, b, g⟩ | ⟨-, a, b, g⟩ | ⟨-, a, b, g⟩ | ⟨-, a, b, g⟩ |
    ⟨-, a, b, g⟩ | ⟨-, a, b, g⟩ | ⟨-, a, b, g⟩ | ⟨-, a, b, g⟩ <;> obtain ⟨p1, p2, p3, p4⟩ := g.inBox.point h.sign hok hon
  · linarith
  · linarith
  · linarith
  · linarith
  · linarith
  · have c := onc g (by rw [a]; simp only; ring)
    simp only at c
    have := abs_le_of_sq_le_sq' (show (z.x - 1 * X0) ^ 2 ≤ d ^ 2 by nlinarith [sq_nonneg (z.y - y1)]) hd0.le
    linarith [this.1]
  · linarith
  · have c := onc g (by rw [a]; simp only; ring)
    simp only at c
    have := abs_le_of_sq_le_sq' (show (z.x - 1 * X0) ^ 2 ≤ d ^ 2 by nlinarith [sq_nonneg (z.y - y0)]) hd0.le
    linarith [this.1]

theorem rounded_decided_left (h : RoundOk 1 X0 y0 X1 y1 d) (h' : RoundOk 1 X0 y0 X1 y1 d') {i : ℕ} {v w : Vertex}
    (hseg : IsSeg (rounded 1 X0 y0 X1 y1 d) i v w) : SectorDecided v w ⟨X0 - d', y0⟩ := by
  have hd0 : 0 < d := lt_of_lt_of_le (by norm_num) h.offset
  have hd0' : 0 < d' := lt_of_lt_of_le (by norm_num) h'.offset
  have hd4 := h.offset
  have hd4' := h'.offset
  have e3 : (0 : ℝ) < 1 / 10 ^ 3 := by norm_num
  have hw := h.width
  have hh := h.height
  have hdd : 1 / 10 ^ 8 ≤ d * d' := by
    have : (1 : ℝ) / 10 ^ 8 = 1 / 10 ^ 4 * (1 / 10 ^ 4) := by norm_num
    rw [this]; exact mul_le_mul hd4 hd4' (by norm_num) hd0.le
  have hdw : 1 / 10 ^ 8 ≤ d * (X1 - X0) := by
    have : (1 : ℝ) / 10 ^ 8 ≤ 1 / 10 ^ 4 * (1 / 10 ^ 3) := by norm_num
    exact this.trans (mul_le_mul hd4 (by linarith) (by norm_num) hd0.le)
  have hdh : 1 / 10 ^ 8 ≤ d * (y1 - y0) := by
    have : (1 : ℝ) / 10 ^ 8 ≤ 1 / 10 ^ 4 * (1 / 10 ^ 3) := by norm_num
    exact this.trans (mul_le_mul hd4 (by linarith) (by norm_num) hd0.le)
  have e8 : (0 : ℝ) < 1 / 10 ^ 8 := by norm_num
  obtain ⟨t1, -⟩ := tan_eighth
  have t0 : 0 < Real.tan (Real.pi / 8) := lt_of_lt_of_le (by norm_num) t1
  have out : ∀ {lx hx ly hy : ℝ} {c : V2}, IsRounding 1 lx hx ly hy d c v w → ¬ InSweep (1 / 10 ^ 8) v w c ⟨X0 - d', y0⟩ →
      SectorDecided v w ⟨X0 - d', y0⟩ := by
    intro lx hx ly hy c g hn
    refine Or.inr fun c' hc => Or.inr (Or.inr ?_)
    have ha := (eighth_arc h.sign g.bulge).1
    rwa [isCenter_unique (bulge_ne_zero ha) hc, ← isCenter_unique (bulge_ne_zero ha) g.center]
  rcases round_seg (rounded_is h) hseg with ⟨-, a, b, g⟩ | ⟨-, a, b, g⟩ | ⟨-, a, b, g⟩ | ⟨-, a, b, g⟩ |
    ⟨-, a, b, g⟩ | ⟨-, a, b, g⟩ | ⟨-, a, b, g⟩ | ⟨-, a, b, g⟩
  · exact Or.inl g.line
  · apply out g
    unfold InSweep
    rw [a, b, g.bulge]
    simp only [side]
    rintro (⟨-, q1, q2⟩ | ⟨q0, -⟩) <;> nlinarith
  · exact Or.inl g.line
  · apply out g
    unfold InSweep
    rw [a, b, g.bulge]
    simp only [side]
    rintro (⟨-, q1, q2⟩ | ⟨q0, -⟩) <;> nlinarith
  · exact Or.inl g.line
  · apply out g
    unfold InSweep
    rw [a, b, g.bulge]
    simp only [side]
    rintro (⟨-, q1, q2⟩ | ⟨q0, -⟩) <;> nlinarith
  · exact Or.inl g.line
  · refine Or.inr fun c hc => ?_
    have ha := (eighth_arc h.sign g.bulge).1
    rw [isCenter_unique (bulge_ne_zero ha) hc, ← isCenter_unique (bulge_ne_zero ha) g.center]
    rw [a, b, g.bulge]
    simp only [side]
    refine Or.inl ⟨by linarith, ?_, ?_⟩ <;> nlinarith

/-- A rectangle of 10 by 6 with corners of radius 2, inverted (so it is clockwise), offset by 1 to the outside, which is now the
left side. -/
example (std : StdSort) (hash : HashOrder) : ∃ p' q', invertDirection (rounded 1 0 0 10 6 2) = .ok p' ∧
    invertDirection (rounded 1 0 0 10 6 3) = .ok q' ∧ parallelOffset (codePlatform 0 0) std hash p' 1 = .ok [q'] := by
  have ok : ∀ r : ℝ, 1 ≤ r → RoundOk 1 0 0 10 6 r := fun r hr =>
    ⟨Or.inl rfl, by norm_num, by norm_num, by norm_num; linarith, Or.inl (by norm_num; linarith)⟩
  have h := ok 2 (by norm_num)
  have h' := ok 3 (by norm_num)
  obtain ⟨p', ep, -⟩ := C28_invertDirection (rounded 1 0 0 10 6 2)
  obtain ⟨q', eq, -⟩ := C28_invertDirection (rounded 1 0 0 10 6 3)
  have hp := rounded_parallel h h'
  have hc := rounded_collapses h h'
  rw [show -((1 : ℝ) * (3 - 2)) = -1 by norm_num] at hp hc
  obtain ⟨a, ha, a0⟩ := rounded_turns h
  obtain ⟨b, hb, b0⟩ := rounded_turns h'
  refine ⟨p', q', ep, eq, ?_⟩
  rw [show (1 : ℝ) = -(-1) by norm_num]
  refine C80_inverted 0 0 (w := ⟨⟨1 * 0 - 1 * 3, 0⟩, 1 * Real.tan (Real.pi / 8)⟩) hp (show 3 ≤ 8 by norm_num)
    (show 8 ≤ 2 ^ 24 by norm_num) ha
    (by rintro rfl; simp at a0) hb (by rintro rfl; simp at b0) (by norm_num) (rounded_bulges h) (rounded_tiny h).apart (rounded_tiny h')
    hc (rounded_apart h') rfl ?_ ?_ ep eq
  · intro z hz
    have := rounded_left h hz
    have e : |(-1 : ℝ)| = 1 := by norm_num
    rw [e]
    unfold distance dist2
    apply Real.le_sqrt_of_sq_le
    simp only
    nlinarith [sq_nonneg (0 - z.y)]
  · intro i v1 v2 hs
    have := rounded_decided_left h h' hs
    simpa using this

end

end
end Cavc

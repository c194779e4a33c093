import Verif.Proofs.ClearMeets
import Verif.Props.OffsetBoth
import Verif.Props.OffsetChamfer

/-! C64: when the sizes are plain, no part of the exact offset of a polygon is found to meet the polygon. -/
namespace Cavc
open Spec
open scoped Classical
noncomputable section

/-- The segments of the raw offset, from its corners. -/
theorem raw_segs {raw : Polyline} {ls : List (List Vertex)} {n : ℕ} (hc : raw.isClosed = true)
    (hlen : ls.length = n) (h2 : 2 ≤ n)
    (hk : ∀ l ∈ ls, (∃ v, l = [v]) ∨ ∃ w w', l = [w, w'])
    (hr : raw.vertexes = ls.flatten.rotate (ls.flatten.length - 1)) {k : ℕ} {v e : Vertex} (hs : IsSeg raw k v e) :
    ∃ i < n, ls[i]?.getD [] = [v, e] ∨
      (ls[i]?.getD []).getLast? = some v ∧ (ls[(i + 1) % n]?.getD []).head? = some e := by
  have hne : ∀ l ∈ ls, l ≠ [] := by
    intro l hl
    rcases hk l hl with ⟨v, rfl⟩ | ⟨w, w', rfl⟩ <;> simp
  have hL : 2 ≤ ls.flatten.length := by
    rw [List.length_flatten]
    have : ∀ m ∈ ls.map List.length, 1 ≤ m := by
      intro m hm
      obtain ⟨l, hl, rfl⟩ := List.mem_map.1 hm
      exact List.length_pos_iff.2 (hne l hl)
    have := List.card_nsmul_le_sum (ls.map List.length) 1 this
    simp at this
    omega
  have hsegs : segs raw = (ls.flatten.zip (ls.flatten.rotate 1)).rotate (ls.flatten.length - 1) := by
    unfold segs
    rw [if_neg (by rw [hr, List.length_rotate]; omega), if_pos hc, hr, List.rotate_rotate, Nat.add_comm,
      ← List.rotate_rotate]
    have := List.zipWith_rotate_distrib (fun (a b : Vertex) => (a, b)) ls.flatten (ls.flatten.rotate 1)
      (ls.flatten.length - 1) (by simp)
    simp only [List.zip]
    exact this.symm
  unfold IsSeg at hs
  rw [hsegs] at hs
  have hm := List.mem_rotate.1 (List.mem_of_getElem? hs)
  obtain ⟨a, t, hat⟩ : ∃ a t, ls.flatten = a :: t := by
    cases h : ls.flatten with
    | nil => rw [h] at hL; simp at hL
    | cons a t => exact ⟨a, t, rfl⟩
  have hhead : ls.flatten.head? = some a := by rw [hat]; rfl
  have hz : ls.flatten.zip (ls.flatten.rotate 1) = pairsTo ls.flatten a := by
    rw [hat, zip_rotate_one]
  rw [hz, mem_pairs_flatten ls a hne] at hm
  obtain ⟨A, l, B, h, hp⟩ := hm
  have q1 : A.length < n := by rw [← hlen, h]; simp
  have q2 : ls[A.length]?.getD [] = l := by rw [h, List.getElem?_append_right (by omega)]; simp
  have q3 : (ls[(A.length + 1) % n]?.getD []).head? = some (B.flatten.head?.getD a) := by
    rw [← hlen]; exact next_head h hne hhead
  refine ⟨A.length, q1, ?_⟩
  rw [q2]
  rcases hk l (by rw [h]; simp) with ⟨w, rfl⟩ | ⟨w, w', rfl⟩
  · simp only [pairsTo, List.mem_singleton, Prod.mk.injEq] at hp
    obtain ⟨rfl, rfl⟩ := hp
    exact Or.inr ⟨rfl, q3⟩
  · simp only [pairsTo, List.mem_cons, List.not_mem_nil, or_false, Prod.mk.injEq] at hp
    rcases hp with ⟨rfl, rfl⟩ | ⟨rfl, rfl⟩
    · exact Or.inl rfl
    · exact Or.inr ⟨rfl, q3⟩

/-- Lines of the raw offset are not longer than the edges or two offsets; the arcs are about corners. -/
theorem raw_sizes {p raw : Polyline} {offset : ℝ} (hp : LinePolygon p) (hne : offset ≠ 0) (hclear : ClearOffset p offset)
    (hraw : createRawOffsetPline p offset = .ok raw) {m : ℝ} (hm : 2 * |offset| ≤ m)
    (hlen : ∀ i v w, IsSeg p i v w → distance v.pos w.pos ≤ m) {k : ℕ} {v e : Vertex} (hs : IsSeg raw k v e) :
    (IsLine v ∧ distance v.pos e.pos ≤ m) ∨ (¬ IsLine v ∧ ∃ c, CircularAbout c |offset| v e) := by
  obtain ⟨raw', ls, h1, h2, h3, h4⟩ := C62_raw hp.closed hp.lines hp.two hclear
  rw [hraw] at h1
  cases h1
  have hG := poly_rawG hp.closed hp.two' hne hclear h3
  have hmod : ∀ k, ppos p k = ppos p (k % p.size) := by
    intro k; unfold ppos; rw [Nat.mod_mod]
  have h2' := hp.two'
  have hedge : ∀ j, distance (ppos p j) (ppos p (j + 1)) ≤ m := by
    intro j
    have hi : j % p.size < p.size := Nat.mod_lt _ (by omega)
    have hs := closed_isSeg hp.closed hp.two' hi
    obtain ⟨-, -, -, -, e1, e2⟩ := ppos_seg hp.closed hs
    have e3 : ppos p (j + 1) = ppos p (j % p.size + 1) := by
      rw [hmod (j + 1), ← Nat.mod_add_mod, ← hmod]
    rw [hmod j, e3, e1, e2]
    exact hlen _ _ _ hs
  have hown : ∀ j t, distance (offE (ppos p) offset j t) (lerp (ppos p j) (ppos p (j + 1)) t) = |offset| := by
    intro j t
    unfold distance
    rw [hG.poly.offE_own, sub_self, zero_pow (by norm_num), zero_mul, add_zero, Real.sqrt_sq_eq_abs]
  obtain ⟨i, hi, h | ⟨hv, he⟩⟩ := raw_segs h2 h3.1 hp.two' (RoundsAll.kinds hp.closed hp.two' h3) h4 hs
  · rcases hG.corner i hi with ⟨v', t0, t1, e, -⟩ | ⟨w, w', e, -, g1, g2, ⟨-, g3, g4, -⟩ | ⟨-, g3⟩⟩
    · rw [h] at e
      simp at e
    · rw [h] at e
      simp only [List.cons.injEq, and_true] at e
      obtain ⟨rfl, rfl⟩ := e
      exact Or.inr ⟨g3.arc, _, g4⟩
    · rw [h] at e
      simp only [List.cons.injEq, and_true] at e
      obtain ⟨rfl, rfl⟩ := e
      refine Or.inl ⟨g3, ?_⟩
      have k1 := hown i 1
      have k2 := hown (i + 1) 0
      rw [← g1, lerp_one] at k1
      rw [← g2, lerp_zero] at k2
      have := distance_tri v.pos (ppos p (i + 1)) e.pos
      rw [distance_symm (ppos p (i + 1)) e.pos] at this
      linarith
  · obtain ⟨u, t1, q1, q2, q3, q4, q5, -⟩ := (hG.corner i hi).start
    obtain ⟨u', t0, r1, r3, r4, r5, -⟩ := (hG.corner ((i + 1) % p.size) (Nat.mod_lt _ (by omega))).stop
    rw [hv] at q1
    cases q1
    have r1 := he.symm.trans r1
    cases r1
    refine Or.inl ⟨q2, ?_⟩
    have e3 : offE (ppos p) offset ((i + 1) % p.size) t0 = offE (ppos p) offset (i + 1) t0 := by
      apply offE_congr
      · exact (hmod _).symm
      · rw [hmod ((i + 1) % p.size + 1), Nat.mod_add_mod, ← hmod]
    rw [e3] at r5
    have e4 : distance (offE (ppos p) offset (i + 1) t1) (offE (ppos p) offset (i + 1) t0) ≤
        distance (ppos p (i + 1)) (ppos p (i + 2)) := by
      have z1 := lerp_offE (ppos p) offset (i + 1) 0 1 t1
      have z0 := lerp_offE (ppos p) offset (i + 1) 0 1 t0
      rw [show (0 : ℝ) + t1 * (1 - 0) = t1 by ring] at z1
      rw [show (0 : ℝ) + t0 * (1 - 0) = t0 by ring] at z0
      rw [← z1, ← z0, distance_lerps]
      have hd : distance (offE (ppos p) offset (i + 1) 0) (offE (ppos p) offset (i + 1) 1) =
          distance (ppos p (i + 1)) (ppos p (i + 2)) := by
        unfold distance
        congr 1
        simp only [offE, normalAt, lerp, dist2]
        ring
      rw [hd]
      refine mul_le_of_le_one_left (distance_nonneg _ _) ?_
      rw [abs_le]
      constructor <;> linarith
    rw [q5, r5]
    exact e4.trans (hedge (i + 1))

/-- **C64.** When the sizes are plain, no part of the raw offset that keeps the distance from the polygon is found to
meet the polygon: the polygon may meet itself. -/
theorem C64_clear_meets {p raw : Polyline} {offset : ℝ} (hp : LinePolygon p) (hclear : ClearOffset p offset)
    (hraw : createRawOffsetPline p offset = .ok raw) (hz : PlainSizes p offset) : ClearMeets p raw offset := by
  rintro k v e u w hs hpart hnc ⟨i, a, b, r, hi, -, hrun, hr⟩
  have hr100 := hz.large
  have hne : offset ≠ 0 := by
    rintro rfl
    norm_num at hr100
  have hal : IsLine a := by
    obtain ⟨h1, -, -, rfl, -⟩ := seg_lt hi
    exact hp.lines _ (vtx_mem h1)
  have hfit : EdgeFits |offset| a.pos b.pos := ⟨hz.long _ _ _ hi, hz.short _ _ _ hi, hz.steep _ _ _ hi⟩
  have hon : ∀ t, 0 ≤ t → t ≤ 1 → OnPline p (lerp a.pos b.pos t) := fun t t0 t1 =>
    ⟨i, a, b, hi, (onSeg_line hal).2 ⟨t, t0, t1, rfl⟩⟩
  have hm : 2 * |offset| ≤ 10 ^ 6 * |offset| := by
    have := abs_nonneg offset
    norm_num
    linarith
  have hsz := raw_sizes hp hne hclear hraw hm hz.short hs
  by_cases hul : IsLine u
  · -- a line
    have hvl := hpart.kind.1 hul
    have hlen : distance u.pos w.pos ≤ 10 ^ 6 * |offset| := by
      rcases hsz with ⟨-, h⟩ | ⟨h, -⟩
      · obtain ⟨s, s0, s1, es⟩ := (onSeg_line hvl).1 (hpart.points _ (onSeg_start u w))
        obtain ⟨t, t0, t1, et⟩ := (onSeg_line hvl).1 (hpart.points _ (onSeg_end u w))
        rw [es, et, distance_lerps]
        refine le_trans (mul_le_of_le_one_left (distance_nonneg _ _) ?_) h
        rw [abs_le]
        constructor <;> linarith
      · exact absurd hvl h
    have h1 : intrLineSeg2LineSeg2 u.pos w.pos a.pos b.pos ≠ .none := by
      intro h
      unfold intrPlineSegs at hrun
      rw [if_pos ⟨show u.bulgeIsZero from hul, show a.bulgeIsZero from hal⟩, h] at hrun
      exact hr (Except.ok.inj hrun).symm
    have h2 : ∀ s t x, intrLineSeg2LineSeg2 u.pos w.pos a.pos b.pos ≠ .falseIntr s t x := by
      intro s t x h
      unfold intrPlineSegs at hrun
      rw [if_pos ⟨show u.bulgeIsZero from hul, show a.bulgeIsZero from hal⟩, h] at hrun
      exact hr (Except.ok.inj hrun).symm
    obtain ⟨s, t, s0, s1, t0, t1, hd⟩ := line_line_close hr100 hlen
      (fun h => hpart.far ⟨lt_trans h.1 (by norm_num), lt_trans h.2 (by norm_num)⟩) hfit h1 h2
    have := hnc _ ((onSeg_line hul).2 ⟨s, s0, s1, rfl⟩) _ (hon t t0 t1)
    linarith
  · -- an arc
    have hvl : ¬ IsLine v := fun h => hul (hpart.kind.2 h)
    rcases hsz with ⟨h, -⟩ | ⟨-, c, hc, hrad, -⟩
    · exact hvl h
    have hcu := hpart.center hvl c hc
    obtain ⟨⟨res, hrun', hsound⟩, hsymm⟩ := C50_line_arc_sound hal hul hpart.ok hcu (v2 := b)
    rw [hsymm, hrun'] at hrun
    have hrun := Except.ok.inj hrun
    subst hrun
    have hd2 : dist2 u.pos c = |offset| ^ 2 := by
      have hv2 : dist2 v.pos c = |offset| ^ 2 := by rw [← distance_sq, hrad]
      obtain ⟨t, t0, t1, et⟩ := (onSeg_arc hvl).1 (hpart.points _ (onSeg_start u w))
      rw [← isCenter_unique (bulge_ne_zero hvl) hc] at et
      rw [et, dist2_rot, hv2]
    obtain ⟨x, hx⟩ : ∃ x, Reports res x := by
      cases res with
      | noIntersect => exact absurd rfl hr
      | oneIntersect q => exact ⟨q, rfl⟩
      | twoIntersects q q' => exact ⟨q, Or.inl rfl⟩
      | segmentOverlap q q' => exact ⟨q, Or.inl rfl⟩
      | arcOverlap q q' => exact ⟨q, Or.inl rfl⟩
    obtain ⟨⟨t, t0, t1, rfl⟩, hsw, hcir⟩ := hsound x hx
    rw [hd2] at hcir
    have hlong : (1 / 100 : ℝ) ≤ dist2 a.pos b.pos := by
      rw [← distance_sq]
      have := hfit.long
      nlinarith
    have hR : (1 / 10 ^ 4 : ℝ) ≤ |offset| ^ 2 := by
      have := pow_le_pow_left₀ (by norm_num : (0 : ℝ) ≤ 1 / 100) hr100 2
      rw [show (1 / 10 ^ 4 : ℝ) = (1 / 100) ^ 2 by norm_num]
      exact this
    have hcir' : |dist2 (lerp a.pos b.pos t) c - |offset| ^ 2| ≤ 1 / 400 * |offset| ^ 2 := by
      have h0 := abs_nonneg (dist2 (lerp a.pos b.pos t) c - |offset| ^ 2)
      generalize |dist2 (lerp a.pos b.pos t) c - |offset| ^ 2| = z at hcir h0 ⊢
      have : z * (4 * (1 / 100)) ≤ z * (4 * dist2 a.pos b.pos) := mul_le_mul_of_nonneg_left (by linarith) h0
      norm_num at hcir hR this ⊢
      linarith
    obtain ⟨q, hq, hqd⟩ := arc_close hr100 hul hpart.ok hcu hd2 hpart.far hsw hcir'
    obtain ⟨t', t0', t1', ht'⟩ := clamp_near a.pos b.pos (by norm_num) t0 t1
    have h1 := hnc q hq _ (hon t' t0' t1')
    have h2 := distance_tri q (lerp a.pos b.pos t) (lerp a.pos b.pos t')
    rw [distance_symm q (lerp a.pos b.pos t)] at h2
    have h3 := hfit.short
    have h4 := abs_pos.2 hne
    linarith


/-- The chamfered square of side 40 with the offset 9 has plain sizes. -/
theorem chamfer_plain : PlainSizes chamfer 9 := by
  obtain ⟨d1, d2, d3, d4, d5⟩ := chamfer_dist
  have h9 : |(9 : ℝ)| = 9 := abs_of_pos (by norm_num)
  have key : ∀ i v w, IsSeg chamfer i v w → (1 / 10 ≤ distance v.pos w.pos ∧ distance v.pos w.pos ≤ 10 ^ 6 * 9) ∧
      (|w.pos.x - v.pos.x| < 1 / 10 ^ 8 ∨ 1 / 10 ^ 4 ≤ |w.pos.x - v.pos.x|) := by
    intro i v w h
    rcases chamfer_seg h with ⟨rfl, rfl, rfl⟩ | ⟨rfl, rfl, rfl⟩ | ⟨rfl, rfl, rfl⟩ | ⟨rfl, rfl, rfl⟩ | ⟨rfl, rfl, rfl⟩
    · rw [d1]; exact ⟨by norm_num, Or.inr (by norm_num [abs_of_pos])⟩
    · rw [d2]; exact ⟨by norm_num, Or.inl (by norm_num)⟩
    · rw [d3]; exact ⟨by norm_num, Or.inr (by norm_num)⟩
    · rw [d4]; exact ⟨by norm_num, Or.inr (by norm_num)⟩
    · rw [d5]; exact ⟨by norm_num, Or.inl (by norm_num)⟩
  exact ⟨by rw [h9]; norm_num, fun i v w h => (key i v w h).1.1, fun i v w h => by rw [h9]; exact (key i v w h).1.2,
    fun i v w h => (key i v w h).2⟩

/-- **C64.** The parallel offset of a simple polygon with plain sizes whose raw offset is found to meet itself exactly
where it does: `C64_parallelOffset`, where the last hypothesis follows from the sizes. -/
theorem C64_plain {std : StdSort} {hash : HashOrder} (inf ninf : ℝ) {p raw : Polyline} {offset : ℝ}
    (hp : SimplePolygon p) (hz : PlainSizes p offset) (hclear : ClearOffset p offset)
    (hi : Indexable (codePlatform inf ninf) p) (hraw : createRawOffsetPline p offset = .ok raw)
    (hri : Indexable (codePlatform inf ninf) raw) (ha : LongArcs raw)
    (hself : ∀ l, SelfIntersectsOf raw l → l ≠ [] ∧ ExactCuts raw (selfCuts l) ∧ ApartCuts (selfCuts l) ∧
      (selfCuts l).length ≤ 2 ^ 24) :
    ∃ r selfs, parallelOffset (codePlatform inf ninf) std hash p offset = .ok r ∧ SelfIntersectsOf raw selfs ∧
      (∀ q ∈ r, ∀ x, OnPline q x →
        AtOffset p offset x ∨ ∃ s, Shallow p raw offset (selfCuts selfs) s ∧ OnPline s x) ∧
      ∀ x, AtOffset p offset x → ¬ PassedTwice raw x →
        (∃ q ∈ r, OnPline q x) ∨ ∃ s, ShortLoop p raw offset (selfCuts selfs) s ∧ OnPline s x :=
  C64_parallelOffset inf ninf hp (le_trans (by norm_num) hz.large) hclear hi hraw hri ha hself
    (C64_clear_meets ⟨hp.closed, hp.two', hp.lines⟩ hclear hraw hz)

/-- `C64_plain` applies to the chamfered square. -/
example (std : StdSort) (hash : HashOrder) (inf ninf : ℝ) :
    ∃ r selfs, parallelOffset (codePlatform inf ninf) std hash chamfer 9 = .ok r ∧ SelfIntersectsOf chamferRaw selfs ∧
      (∀ q ∈ r, ∀ x, OnPline q x →
        AtOffset chamfer 9 x ∨ ∃ s, Shallow chamfer chamferRaw 9 (selfCuts selfs) s ∧ OnPline s x) ∧
      ∀ x, AtOffset chamfer 9 x → ¬ PassedTwice chamferRaw x →
        (∃ q ∈ r, OnPline q x) ∨ ∃ s, ShortLoop chamfer chamferRaw 9 (selfCuts selfs) s ∧ OnPline s x :=
  C64_plain inf ninf chamfer_simple chamfer_plain chamfer_clear (chamfer_indexable inf ninf) chamfer_raw
    (chamferRaw_indexable inf ninf) chamferRaw_arcs chamferRaw_exact

end
end Cavc

import Verif.Proofs.OffsetOnce

/-!
C74: the single polylines of the offset of a simple polygon: which way they go, and how they lie to each other.
-/
namespace Cavc
open Spec MeasureTheory Filter
open scoped Classical Topology
noncomputable section

/-! ### Lists of winding numbers -/

theorem sum_zero {α : Type} {k : ℤ} (hk : k ≠ 0) {f : α → ℤ} : ∀ {l : List α}, (∀ a ∈ l, f a = 0 ∨ f a = k) →
    0 ≤ k * (l.map f).sum ∧ (0 < k * (l.map f).sum ∨ ∀ a ∈ l, f a = 0)
  | [], _ => by simp
  | a :: l, h => by
    obtain ⟨h1, h2⟩ := sum_zero hk (f := f) (l := l) fun b hb => h b (List.mem_cons_of_mem _ hb)
    rw [List.map_cons, List.sum_cons, mul_add]
    have hkk : 0 < k * k := mul_self_pos.2 hk
    rcases h a List.mem_cons_self with e | e
    · rw [e, mul_zero, zero_add]
      refine ⟨h1, h2.imp id fun h b hb => ?_⟩
      rcases List.mem_cons.1 hb with rfl | hb
      · exact e
      · exact h b hb
    · rw [e]
      exact ⟨by linarith, Or.inl (by linarith)⟩

theorem sum_one {α : Type} {k : ℤ} (hk : k ≠ 0) {f : α → ℤ} : ∀ {l : List α}, (∀ a ∈ l, f a = 0 ∨ f a = k) →
    (l.map f).sum = k → ∃ l1 a l2, l = l1 ++ a :: l2 ∧ f a = k ∧ ∀ b ∈ l1 ++ l2, f b = 0
  | [], _, h => absurd h.symm (by simpa using hk)
  | a :: l, h, hs => by
    have hl : ∀ b ∈ l, f b = 0 ∨ f b = k := fun b hb => h b (List.mem_cons_of_mem _ hb)
    rw [List.map_cons, List.sum_cons] at hs
    rcases h a List.mem_cons_self with e | e
    · rw [e, zero_add] at hs
      obtain ⟨l1, b, l2, rfl, hb, hz⟩ := sum_one hk hl hs
      refine ⟨a :: l1, b, l2, rfl, hb, fun c hc => ?_⟩
      rcases List.mem_cons.1 hc with rfl | hc
      · exact e
      · exact hz c hc
    · rw [e] at hs
      have h0 : (l.map f).sum = 0 := by omega
      refine ⟨[], a, l, rfl, e, ?_⟩
      rcases (sum_zero hk hl).2 with q | q
      · rw [h0] at q; simp at q
      · exact q

theorem sum_pairwise {α : Type} {k : ℤ} (hk : k ≠ 0) {f : α → ℤ} : ∀ {l : List α}, (∀ a ∈ l, f a = 0 ∨ f a = k) →
    (l.map f).sum = 0 ∨ (l.map f).sum = k → l.Pairwise fun a b => ¬ (f a ≠ 0 ∧ f b ≠ 0)
  | [], _, _ => List.Pairwise.nil
  | a :: l, h, hs => by
    have hl : ∀ b ∈ l, f b = 0 ∨ f b = k := fun b hb => h b (List.mem_cons_of_mem _ hb)
    rw [List.map_cons, List.sum_cons] at hs
    have hz := sum_zero hk hl
    have hkk : 0 < k * k := mul_self_pos.2 hk
    rcases h a List.mem_cons_self with e | e
    · rw [e, zero_add] at hs
      exact List.Pairwise.cons (fun b hb q => q.1 e) (sum_pairwise hk hl hs)
    · rw [e] at hs
      have : (l.map f).sum = 0 := by
        rcases hs with hs | hs
        · exfalso
          have : (l.map f).sum = -k := by omega
          rw [this] at hz
          have := hz.1
          linarith
        · omega
      refine List.Pairwise.cons (fun b hb q => q.2 ?_) (sum_pairwise hk hl (Or.inl this))
      rcases hz.2 with q | q
      · rw [this] at q; simp at q
      · exact q b hb

/-! ### The single polylines -/

section
variable {p raw : Polyline} {offset : ℝ} {X : Set V2} {r : List Polyline}

theorem LevelLoops.wind (h : LevelLoops p raw offset X r) (hp : SimplePolygon p) (hne : offset ≠ 0) {s : ℤ} {σ : ℝ} {V V' : ℤ}
    (hV : Sides (ppos p) p.size σ V V') (hσ : 0 < σ * offset) (hs : σ = s)
    (hside : ∀ x, ¬ OnPline p x → (OnOffsetSide p offset x ↔ polyW (ppos p) p.size x = V)) :
    OffsetWind p |offset| r X (DeepP (ppos p) p.size offset V) s (if V = 0 then 1 else 0) := by
  have hj := h.level.noJumps hp hne h.isRaw.clear h.isRaw.run h.isRaw.ok h.isRaw.far hV hσ hside
  refine ⟨abs_pos.2 hne, h.level.fin, h.closed, fun e he z hz => (h.level.level e he z hz).2, h.level.once,
    fun x hx => deep_not_closer hp hx, fun x hx => ?_⟩
  rw [h.level.winds hp hne hV.1 hj hside hx, hs]

/-- Beside each polyline there are points of the region. -/
theorem LevelLoops.beside (h : LevelLoops p raw offset X r) (hp : SimplePolygon p) (hne : offset ≠ 0) {σ : ℝ} {V V' : ℤ}
    (hV : Sides (ppos p) p.size σ V V') (hσ : 0 < σ * offset) {q : Polyline} (hq : q ∈ r) :
    ∃ z, z ∉ X ∧ OnPline q z ∧ ∀ P : ℝ × ℝ → Prop, (∀ᶠ y in 𝓝 (xy z), P y) →
      ∃ y, P y ∧ DeepP (ppos p) p.size offset V (toV y) := by
  obtain ⟨hc, h2, hok⟩ := h.closed q hq
  have he : (rv q 0, (rv q (0 + 1)).pos) ∈ cEdges q := cEdges_mem (by omega)
  have he' := h.mem hq he
  obtain ⟨k, s, t, hk, s0, t1, hsub⟩ := h.level.sub _ he'
  have hpos : (rv raw k).pos ≠ (rv raw (k + 1)).pos := ne_of_not_near (by norm_num) (h.isRaw.far k)
  have hrok := h.isRaw.ok k
  have hinf : ((segPt (rv raw k) (rv raw (k + 1))) '' Set.Ioo s t).Infinite := by
    refine (Set.Ioo_infinite hsub.lt).image ?_
    intro a ha b hb hab
    exact segPt_inj hrok hpos (by linarith [ha.1]) (by linarith [ha.2]) (by linarith [hb.1]) (by linarith [hb.2]) hab
  obtain ⟨z, ⟨τ, ⟨τ0, τ1⟩, rfl⟩, hz⟩ := hinf.exists_notMem_finite h.level.fin
  have hoe : eOn (segPt (rv raw k) (rv raw (k + 1)) τ) (rv q 0, (rv q (0 + 1)).pos) := hsub.onSeg.2 ⟨τ, τ0.le, τ1.le, rfl⟩
  refine ⟨_, hz, (onPline_cEdges hc h2).2 ⟨_, he, hoe⟩, fun P hP => ?_⟩
  have hat := h.level.level _ he' _ hoe
  have hdeep := raw_side hp hne h.isRaw.clear h.isRaw.run hV hσ hk hpos (t := τ) (by linarith) (by linarith) hat.2.1
    (fun w => hz (h.level.passed _ w))
  have hcont := (continuous_sideP (rv raw k) (rv raw (k + 1))).continuousAt (x := (τ, 0))
  have e0 : xy (sideP (rv raw k) (rv raw (k + 1)) τ 0) = xy (segPt (rv raw k) (rv raw (k + 1)) τ) := by rw [sideP_zero]
  have hbox := hcont.eventually (by simp only; rw [e0]; exact hP.and hdeep)
  obtain ⟨ε', hε', hb⟩ := Metric.eventually_nhds_iff.1 hbox
  set ε := min ε' 1 with hε
  have ε0 : 0 < ε := lt_min hε' one_pos
  have ε1 : ε ≤ 1 := min_le_right _ _
  have hσ1 : |σ| = 1 := by rcases hV.1 with e | e <;> rw [e] <;> simp
  obtain ⟨c1, c2⟩ := hb (y := (τ, σ * (ε / 2))) (by
    rw [Prod.dist_eq, max_lt_iff, Real.dist_eq, Real.dist_eq, sub_zero, sub_self, abs_zero, abs_mul, hσ1, one_mul,
      abs_of_pos (by linarith)]
    exact ⟨hε', by linarith [min_le_left ε' 1]⟩)
  refine ⟨_, c1, c2.2 ?_⟩
  have hu := abs_lt.1 (show |σ * (ε / 2)| < 1 by rw [abs_mul, hσ1, one_mul, abs_of_pos (by linarith)]; linarith)
  have hl := leftOf_sideP (t := τ) hpos (fun hl => (hrok.arcOk hl).start_ne) (u := σ * (ε / 2)) hu.1 hu.2
  simp only [toV_xy]
  rcases hV.1 with e | e
  · rw [e] at hl ⊢
    rw [one_mul]
    exact hl.1.2 (by linarith)
  · rw [e] at hl ⊢
    have := hl.2.2 (by linarith)
    linarith

/-- A polyline that winds `s` times or not at all around the points off it, and `s` times around some, goes around once. -/
theorem once_of_values {q : Polyline} (hok : PlineOk q) (hc : q.isClosed = true) (h2 : 2 ≤ q.size) {s : ℤ} (hs : s = 1 ∨ s = -1)
    (hval : ∀ x, ¬ OnPline q x → arcW q x = 0 ∨ arcW q x = s) (hex : ∃ x, ¬ OnPline q x ∧ arcW q x = s) : GoesOnce q s := by
  have hs0 : s ≠ 0 := by rcases hs with rfl | rfl <;> norm_num
  obtain ⟨a, ha, hfin, hvol⟩ := area_inside hok hc h2 hs hval
  have hpos : 0 < (s : ℝ) * a := by
    rw [← hvol]
    refine ENNReal.toReal_pos ?_ hfin
    obtain ⟨x, hx, hxs⟩ := hex
    refine ((inside_open hok hc h2).measure_pos volume ⟨xy x, ?_⟩).ne'
    exact ⟨hx, (inside_arcW hok hc h2 hx).2 (by rw [hxs]; exact hs0)⟩
  refine ⟨hs, ?_, fun x hx k hk => ?_⟩
  · obtain ⟨γ, hγ⟩ := exists_path q
    refine ⟨γ, hγ, ?_⟩
    have := C21_getArea q hc γ hγ
    rw [ha] at this
    rw [← Except.ok.inj this]
    exact hpos
  · rw [winding_arcW hok hc h2 hx] at hk
    rw [hk]
    exact hval x hx

theorem OffsetWind.sum {d : ℝ} {D : V2 → Prop} {s : ℤ} {c : ℝ} (h : OffsetWind p d r X D s c) {x : V2}
    (hx : ∀ q ∈ r, ¬ OnPline q x) : ((r.map fun q => arcW q x).sum : ℤ) = s * ((if D x then 1 else 0) - c) := by
  rw [← h.winds x ((eOff_flatten h.closed).2 hx), eTurns_flatten]
  have : ∀ l : List Polyline, (∀ q ∈ l, q ∈ r) → (((l.map fun q => arcW q x).sum : ℤ) : ℝ) =
      (l.map fun q => eTurns (cEdges q) x).sum / (2 * Real.pi) := by
    intro l
    induction l with
    | nil => simp
    | cons q l ih =>
      intro hl
      obtain ⟨hc, h2, hok⟩ := h.closed q (hl q List.mem_cons_self)
      rw [List.map_cons, List.sum_cons, List.map_cons, List.sum_cons, Int.cast_add, ih fun q hq => hl q (List.mem_cons_of_mem _ hq),
        ← arcW_eq hok hc h2 (hx q (hl q List.mem_cons_self)), turnAll_cEdges]
      ring
  exact this r fun q hq => hq

/-- A point beside `x` that is off all of the polylines. -/
theorem OffsetWind.beside {d : ℝ} {D : V2 → Prop} {s : ℤ} {c : ℝ} (h : OffsetWind p d r X D s c) (x : V2) :
    ∃ y, (∀ q ∈ r, ¬ OnPline q y) ∧ ∀ q ∈ r, ¬ OnPline q x → arcW q y = arcW q x := by
  have hev : ∀ᶠ y in 𝓝 (xy x), ∀ q ∈ r.toFinset, ¬ OnPline q x → arcW q (toV y) = arcW q x := by
    rw [Filter.eventually_all_finset]
    intro q hq
    obtain ⟨hc, h2, hok⟩ := h.closed q (List.mem_toFinset.1 hq)
    by_cases hx : OnPline q x
    · exact Filter.Eventually.of_forall fun y hn => absurd hx hn
    · filter_upwards [arcW_near hok hc h2 (z := xy x) (by rwa [toV_xy])] with y hy _
      rw [hy.2, toV_xy]
  obtain ⟨y, hy1, hy2⟩ := mem_closure_iff_nhds.1 (eOff_dense (r.map cEdges).flatten (xy x)) _ hev
  exact ⟨toV y, (eOff_flatten h.closed).1 hy2, fun q hq hx => hy1 q (List.mem_toFinset.2 hq) hx⟩

/-- How often the single polylines of the offset wind. -/
theorem LevelLoops.values (h : LevelLoops p raw offset X r) (hp : SimplePolygon p) (hne : offset ≠ 0) {s : ℤ} {σ : ℝ} {V V' : ℤ}
    (hV : Sides (ppos p) p.size σ V V') (hσ : 0 < σ * offset) (hs : σ = s)
    (hside : ∀ x, ¬ OnPline p x → (OnOffsetSide p offset x ↔ polyW (ppos p) p.size x = V)) :
    ∃ K : Polyline → ℤ, (∀ q ∈ r, ∀ x, OnPline p x → ¬ OnPline q x ∧ arcW q x = K q) ∧
      (∀ q ∈ r, ∀ x, ¬ OnPline q x → arcW q x = K q ∨ arcW q x = K q + s) ∧ (∀ q ∈ r, K q = 0 ∨ K q = -s) ∧
      (r.map K).sum = -s * (if V = 0 then 1 else 0) ∧ ∀ q ∈ r, ∃ x, ¬ OnPline q x ∧ arcW q x = K q + s := by
  have hw := h.wind hp hne hV hσ hs hside
  have hex : ∃ z, OnPline p z := by
    have hs := closed_isSeg hp.closed hp.two' (k := 0) (by have := hp.two'; omega)
    exact ⟨_, 0, _, _, hs, onSeg_start _ _⟩
  have hself : ∀ z, OnPline p z → Closer p |offset| z := fun z hz => ⟨z, hz, by
    rw [show distance z z = 0 by simp [distance, dist2]]; exact hw.pos⟩
  have hK' : ∀ q, ∃ K : ℤ, q ∈ r → ∀ x, Closer p |offset| x → arcW q x = K := fun q => by
    by_cases hq : q ∈ r
    · obtain ⟨K, hK⟩ := hw.near_const hq
      exact ⟨K, fun _ => hK⟩
    · exact ⟨0, fun h => absurd h hq⟩
  choose K hK using hK'
  refine ⟨K, fun q hq x hx => ⟨hw.off (hself x hx) hq, hK q hq x (hself x hx)⟩, fun q hq x hx => hw.two hex hq (hK q hq) hx,
    fun q hq => hw.near_value hex hq (hK q hq), ?_, fun q hq => ?_⟩
  · obtain ⟨z, hz⟩ := hex
    have h1 := hw.sum (x := z) fun q hq => hw.off (hself z hz) hq
    have e : r.map K = r.map fun q => arcW q z := List.map_congr_left fun q hq => (hK q hq z (hself z hz)).symm
    rw [← e, if_neg fun hD => hw.deep _ hD (hself z hz)] at h1
    have : ((r.map K).sum : ℝ) = ((-s * (if V = 0 then 1 else 0) : ℤ) : ℝ) := by
      rw [h1]
      by_cases c : V = 0
      · rw [if_pos c, if_pos c]; push_cast; ring
      · rw [if_neg c, if_neg c]; push_cast; ring
    exact_mod_cast this
  · obtain ⟨z, hz, hon, hb⟩ := h.beside hp hne hV hσ hq
    obtain ⟨y, hy, hD⟩ := hb _ (hw.around hq (hK q hq) hz hon)
    have hoff : eOff (r.map cEdges).flatten (toV y) := by
      intro e he hoe
      obtain ⟨w, ho, hd⟩ := (hw.far e he _ hoe).2
      rw [polygon_onPline hp.closed hp.lines] at ho
      obtain ⟨-, k, hk, hkw⟩ := ho
      have := hD.2 k hk w hkw
      rw [← distance_sq, hd, sq_abs] at this
      exact lt_irrefl _ this
    refine ⟨toV y, (eOff_flatten hw.closed).1 hoff q hq, ?_⟩
    rw [hy hoff, if_pos hD, mul_one]

end

section
variable {std : StdSort} {hash : HashOrder} {inf ninf : ℝ} {p : Polyline} {offset : ℝ} {r : List Polyline}

/-- **C74.** The offset of a simple polygon to the inside: each polyline of the result goes around one part of the
region, once and in the direction of the polygon, and no two go around the same points. -/
theorem C74_inward (hp : SimplePolygon p) (ho : 1 / 10 ^ 4 ≤ |offset|) (hgood : GoodOffset (codePlatform inf ninf) p offset)
    (hr : parallelOffset (codePlatform inf ninf) std hash p offset = .ok r) {a : ℝ} (ha : getArea p = .ok a)
    (hin : 0 < offset * a) : SeparateParts (OffsetRegion p offset) (if 0 < a then 1 else -1) r := by
  have hne : offset ≠ 0 := by rintro rfl; norm_num at ho
  obtain ⟨raw, X, hl⟩ := good_level hp ho hgood hr
  obtain ⟨s, σ, V, V', b, hb, b0, hs, hV, hσ, hside, hreg, hcase⟩ := offset_sides_signed hp hne
  rw [ha] at hb
  obtain rfl := Except.ok.inj hb
  rw [← hs]
  rcases hcase with ⟨-, hσs, hVs⟩ | ⟨hn, -⟩
  swap
  · linarith
  have hs1 : s = 1 ∨ s = -1 := by rw [hs]; split_ifs <;> simp
  have hs0 : s ≠ 0 := by rcases hs1 with e | e <;> rw [e] <;> norm_num
  have hw := hl.wind hp hne hV hσ hσs hside
  obtain ⟨K, -, k2, k3, k4, k5⟩ := hl.values hp hne hV hσ hσs hside
  rw [if_neg (by rw [hVs]; exact hs0), mul_zero] at k4
  have hK : ∀ q ∈ r, K q = 0 := by
    rcases (sum_zero (k := -s) (by simpa using hs0) k3).2 with e | e
    · rw [k4] at e; simp at e
    · exact e
  have hval : ∀ q ∈ r, ∀ x, ¬ OnPline q x → arcW q x = 0 ∨ arcW q x = s := fun q hq x hx => by
    have := k2 q hq x hx
    rwa [hK q hq, zero_add] at this
  have hsum : ∀ x, (∀ q ∈ r, ¬ OnPline q x) → (r.map fun q => arcW q x).sum = s * (if OffsetRegion p offset x then 1 else 0) := by
    intro x hx
    have h1 := hw.sum hx
    rw [← hσs, hreg x] at h1
    have : ((r.map fun q => arcW q x).sum : ℝ) = ((s * (if OffsetRegion p offset x then 1 else 0) : ℤ) : ℝ) := by
      rw [h1]; split_ifs <;> simp
    exact_mod_cast this
  have hsum' : ∀ x, (∀ q ∈ r, ¬ OnPline q x) → (r.map fun q => arcW q x).sum = 0 ∨ (r.map fun q => arcW q x).sum = s := by
    intro x hx
    rw [hsum x hx]
    split_ifs <;> simp
  refine ⟨fun q hq => ?_, ?_, fun x hx => ?_⟩
  · obtain ⟨hc, h2, hok⟩ := hl.closed q hq
    refine once_of_values hok hc h2 hs1 (hval q hq) ?_
    have := k5 q hq
    rwa [hK q hq, zero_add] at this
  · unfold DisjointInsides
    rw [List.pairwise_iff_getElem]
    rintro i j hi hj hij x h1 h2 ⟨g1, g2⟩
    obtain ⟨y, y1, y2⟩ := hw.beside x
    have hpw := sum_pairwise hs0 (fun q hq => hval q hq y (y1 q hq)) (hsum' y y1)
    rw [List.pairwise_iff_getElem] at hpw
    obtain ⟨c1, c2, c3⟩ := hl.closed _ (List.getElem_mem hi)
    obtain ⟨d1, d2, d3⟩ := hl.closed _ (List.getElem_mem hj)
    refine hpw i j hi hj hij ⟨?_, ?_⟩
    · rw [y2 _ (List.getElem_mem hi) h1]; exact (inside_arcW c3 c1 c2 h1).1 g1
    · rw [y2 _ (List.getElem_mem hj) h2]; exact (inside_arcW d3 d1 d2 h2).1 g2
  · have h1 := hsum x hx
    have h2 := sum_zero hs0 fun q hq => hval q hq x (hx q hq)
    constructor
    · intro hR
      rw [if_pos hR, mul_one] at h1
      by_contra hno
      have : ∀ q ∈ r, arcW q x = 0 := fun q hq => by
        by_contra hq0
        obtain ⟨c1, c2, c3⟩ := hl.closed q hq
        exact hno ⟨q, hq, (inside_arcW c3 c1 c2 (hx q hq)).2 hq0⟩
      rw [List.map_congr_left (g := fun _ => (0 : ℤ)) this] at h1
      simp at h1
      exact hs0 h1.symm
    · rintro ⟨q, hq, hi⟩
      by_contra hR
      rw [if_neg hR, mul_zero] at h1
      rw [h1, mul_zero] at h2
      obtain ⟨c1, c2, c3⟩ := hl.closed q hq
      exact (inside_arcW c3 c1 c2 (hx q hq)).1 hi (h2.2.resolve_left (lt_irrefl _) q hq)

/-- **C74.** The offset of a simple polygon to the outside: one polyline of the result goes around the polygon, once and
in its direction; the others go around separate holes in it, once and in the other direction. -/
theorem C74_outward (hp : SimplePolygon p) (ho : 1 / 10 ^ 4 ≤ |offset|) (hgood : GoodOffset (codePlatform inf ninf) p offset)
    (hr : parallelOffset (codePlatform inf ninf) std hash p offset = .ok r) {a : ℝ} (ha : getArea p = .ok a)
    (hout : offset * a < 0) : ∃ q0 holes, r.Perm (q0 :: holes) ∧
      OneWithHoles p (OffsetRegion p offset) (if 0 < a then 1 else -1) q0 holes := by
  have hne : offset ≠ 0 := by rintro rfl; norm_num at ho
  obtain ⟨raw, X, hl⟩ := good_level hp ho hgood hr
  obtain ⟨s, σ, V, V', b, hb, b0, hs, hV, hσ, hside, hreg, hcase⟩ := offset_sides_signed hp hne
  rw [ha] at hb
  obtain rfl := Except.ok.inj hb
  rw [← hs]
  rcases hcase with ⟨hn, -⟩ | ⟨-, hσs, hVs⟩
  · linarith
  have hs1 : s = 1 ∨ s = -1 := by rw [hs]; split_ifs <;> simp
  have hs0 : s ≠ 0 := by rcases hs1 with e | e <;> rw [e] <;> norm_num
  have hσs' : σ = ((-s : ℤ) : ℝ) := by rw [hσs]; push_cast; rfl
  have hw := hl.wind hp hne hV hσ hσs' hside
  obtain ⟨K, k1, k2, k3, k4, k5⟩ := hl.values hp hne hV hσ hσs' hside
  rw [if_pos hVs, mul_one, neg_neg] at k4
  simp only [neg_neg] at k3
  have hsum : ∀ x, (∀ q ∈ r, ¬ OnPline q x) → (r.map fun q => arcW q x).sum = s * (if OffsetRegion p offset x then 1 else 0) := by
    intro x hx
    have h1 := hw.sum hx
    rw [← hσs', hreg x] at h1
    have : ((r.map fun q => arcW q x).sum : ℝ) = ((s * (if OffsetRegion p offset x then 1 else 0) : ℤ) : ℝ) := by
      rw [h1]; split_ifs <;> simp
    exact_mod_cast this
  obtain ⟨l1, q0, l2, rfl, hq0, hrest⟩ := sum_one hs0 k3 k4
  have hperm : (l1 ++ q0 :: l2).Perm (q0 :: (l1 ++ l2)) := List.perm_middle
  have hm0 : q0 ∈ l1 ++ q0 :: l2 := hperm.mem_iff.2 List.mem_cons_self
  have hm : ∀ q ∈ l1 ++ l2, q ∈ l1 ++ q0 :: l2 := fun q hq => hperm.mem_iff.2 (List.mem_cons_of_mem _ hq)
  have hv0 : ∀ x, ¬ OnPline q0 x → arcW q0 x = 0 ∨ arcW q0 x = s := fun x hx => by
    have := k2 q0 hm0 x hx
    rw [hq0] at this
    omega
  have hv : ∀ q ∈ l1 ++ l2, ∀ x, ¬ OnPline q x → arcW q x = 0 ∨ arcW q x = -s := fun q hq x hx => by
    have := k2 q (hm q hq) x hx
    rwa [hrest q hq, zero_add] at this
  have hs' : ∀ x, (∀ q ∈ l1 ++ q0 :: l2, ¬ OnPline q x) →
      arcW q0 x + ((l1 ++ l2).map fun q => arcW q x).sum = s * (if OffsetRegion p offset x then 1 else 0) := by
    intro x hx
    rw [← hsum x hx, (hperm.map _).sum_eq, List.map_cons, List.sum_cons]
  -- off all polylines
  have hoff : ∀ x, (∀ q ∈ l1 ++ q0 :: l2, ¬ OnPline q x) →
      ((l1 ++ l2).Pairwise fun q q' => ¬ (arcW q x ≠ 0 ∧ arcW q' x ≠ 0)) ∧ (arcW q0 x = 0 → ∀ q ∈ l1 ++ l2, arcW q x = 0) := by
    intro x hx
    have h1 := hs' x hx
    have h2 := sum_zero (k := -s) (by simpa using hs0) fun q hq => hv q hq x (hx q (hm q hq))
    have hss : 0 < s * s := mul_self_pos.2 hs0
    constructor
    · refine sum_pairwise (k := -s) (by simpa using hs0) (fun q hq => hv q hq x (hx q (hm q hq))) ?_
      have h3 := h2.1
      rcases hv0 x (hx q0 hm0) with e | e <;> rw [e] at h1 <;> split_ifs at h1
      · rw [mul_one, zero_add] at h1
        rw [h1] at h3
        exfalso
        linarith
      · left; linarith
      · left; linarith
      · right; linarith
    · intro e
      rw [e, zero_add] at h1
      split_ifs at h1
      · rw [mul_one] at h1
        have h3 := h2.1
        rw [h1] at h3
        exfalso
        linarith
      · rw [mul_zero] at h1
        rw [h1, mul_zero] at h2
        exact h2.2.resolve_left (lt_irrefl _)
  obtain ⟨c1, c2, c3⟩ := hl.closed q0 hm0
  have hin0 : ∀ x, ¬ OnPline q0 x → (Inside q0 x ↔ arcW q0 x ≠ 0) := fun x hx => inside_arcW c3 c1 c2 hx
  have hin : ∀ q ∈ l1 ++ l2, ∀ x, ¬ OnPline q x → (Inside q x ↔ arcW q x ≠ 0) := fun q hq x hx => by
    obtain ⟨d1, d2, d3⟩ := hl.closed q (hm q hq)
    exact inside_arcW d3 d1 d2 hx
  have hcont : ∀ x, OnPline p x → ¬ OnPline q0 x ∧ Inside q0 x := fun x hx => by
    obtain ⟨g1, g2⟩ := k1 q0 hm0 x hx
    exact ⟨g1, (hin0 x g1).2 (by rw [g2, hq0]; exact hs0)⟩
  have hex : ∃ z, OnPline p z := by
    have hs := closed_isSeg hp.closed hp.two' (k := 0) (by have := hp.two'; omega)
    exact ⟨_, 0, _, _, hs, onSeg_start _ _⟩
  refine ⟨q0, l1 ++ l2, hperm, ?_, hcont, fun q hq => ?_, ?_, ?_, fun x hx => ?_⟩
  · refine once_of_values c3 c1 c2 hs1 hv0 ?_
    obtain ⟨z, hz⟩ := hex
    obtain ⟨g1, g2⟩ := k1 q0 hm0 z hz
    exact ⟨z, g1, by rw [g2, hq0]⟩
  · obtain ⟨d1, d2, d3⟩ := hl.closed q (hm q hq)
    refine once_of_values d3 d1 d2 (by rcases hs1 with e | e <;> rw [e] <;> simp) (hv q hq) ?_
    have := k5 q (hm q hq)
    rwa [hrest q hq, zero_add] at this
  · unfold DisjointInsides
    rw [List.pairwise_iff_getElem]
    rintro i j hi hj hij x h1 h2 ⟨g1, g2⟩
    obtain ⟨y, y1, y2⟩ := hw.beside x
    have hpw := (hoff y y1).1
    rw [List.pairwise_iff_getElem] at hpw
    have mi := List.getElem_mem hi
    have mj := List.getElem_mem hj
    refine hpw i j hi hj hij ⟨?_, ?_⟩
    · rw [y2 _ (hm _ mi) h1]; exact (hin _ mi x h1).1 g1
    · rw [y2 _ (hm _ mj) h2]; exact (hin _ mj x h2).1 g2
  · intro q hq x h1 h2 h3
    obtain ⟨y, y1, y2⟩ := hw.beside x
    rw [hin0 x h2]
    intro e
    rw [← y2 q0 hm0 h2] at e
    refine (hin q hq x h1).1 h3 ?_
    rw [← y2 q (hm q hq) h1]
    exact (hoff y y1).2 e q hq
  · have hx' : ∀ q ∈ l1 ++ q0 :: l2, ¬ OnPline q x := fun q hq => hx q (hperm.mem_iff.1 hq)
    have h1 := hs' x hx'
    have h2 := sum_zero (k := -s) (by simpa using hs0) fun q hq => hv q hq x (hx' q (hm q hq))
    have hss : 0 < s * s := mul_self_pos.2 hs0
    have h3 := (hoff x hx').2
    rw [hin0 x (hx' q0 hm0)]
    constructor
    · intro hR
      rw [if_pos hR, mul_one] at h1
      rcases hv0 x (hx' q0 hm0) with e | e
      · exfalso
        rw [e, List.map_congr_left (g := fun _ => (0 : ℤ)) (h3 e)] at h1
        simp at h1
        exact hs0 h1.symm
      · refine ⟨by rw [e]; exact hs0, fun q hq hi => ?_⟩
        rw [e] at h1
        have h4 : ((l1 ++ l2).map fun q => arcW q x).sum = 0 := by linarith
        rw [h4, mul_zero] at h2
        exact (hin q hq x (hx' q (hm q hq))).1 hi (h2.2.resolve_left (lt_irrefl _) q hq)
    · rintro ⟨e0, hno⟩
      have e := (hv0 x (hx' q0 hm0)).resolve_left e0
      by_contra hR
      have hz : ∀ q ∈ l1 ++ l2, arcW q x = 0 := fun q hq => by
        by_contra hq0
        exact hno q hq ((hin q hq x (hx' q (hm q hq))).2 hq0)
      rw [if_neg hR, e, List.map_congr_left (g := fun _ => (0 : ℤ)) hz] at h1
      simp at h1
      exact hs0 h1

end

end
end Cavc

import Verif.Spec.OffsetRegion
import Verif.Proofs.OffsetWinds
import Verif.Proofs.OffsetLoops
import Verif.Proofs.OffsetEdges
import Verif.Props.OffsetChamfer
import Verif.Props.AreaIntegral

/-!
C74: the result of `parallelOffset` for a simple polygon bounds the offset region.
-/
namespace Cavc
open Spec MeasureTheory
open scoped Classical Topology
noncomputable section

/-- The side of the offset, in terms of winding numbers, and the region. -/
theorem offset_sides_signed {p : Polyline} (hp : SimplePolygon p) {o : ℝ} (ho : o ≠ 0) :
    ∃ (s : ℤ) (σ : ℝ) (V V' : ℤ) (a : ℝ), getArea p = .ok a ∧ a ≠ 0 ∧ s = (if 0 < a then 1 else -1) ∧
      Sides (ppos p) p.size σ V V' ∧ 0 < σ * o ∧
      (∀ x, ¬ OnPline p x → (OnOffsetSide p o x ↔ polyW (ppos p) p.size x = V)) ∧
      (∀ x, σ * ((if DeepP (ppos p) p.size o V x then 1 else 0) - (if V = 0 then 1 else 0)) =
        (s : ℝ) * (if OffsetRegion p o x then 1 else 0)) ∧
      ((0 < o * a ∧ σ = s ∧ V = s) ∨ (o * a < 0 ∧ σ = -s ∧ V = 0)) := by
  obtain ⟨s, hs1, hpos, hval, hside⟩ := hp.simpleP.once
  have hs0 : s ≠ 0 := by rcases hs1 with rfl | rfl <;> norm_num
  have hsR : (s : ℝ) = 1 ∨ (s : ℝ) = -1 := by rcases hs1 with rfl | rfl <;> simp
  have h2 := hp.two'
  have hin : ∀ x, ¬ OnPline p x → (Inside p x ↔ polyW (ppos p) p.size x ≠ 0) := fun x hx =>
    inside_wnum hp.closed hp.lines hp.two' hx
  have harea := simple_area hp
  set a := shoelace (ppos p) p.size / 2 with ha
  have hsa : 0 < (s : ℝ) * a := by rw [ha]; linarith
  have hunf : ∀ x, ¬ OnPline p x → (OnOffsetSide p o x ↔ (polyW (ppos p) p.size x ≠ 0 ↔ 0 < o * a)) := by
    intro x hx
    unfold OnOffsetSide
    rw [harea, ← hin x hx]
    constructor
    · rintro ⟨-, h⟩; exact h _ rfl
    · intro h
      refine ⟨hx, fun a ha => ?_⟩
      have := Except.ok.inj ha
      rw [← this]; exact h
  have hS1 : Sides (ppos p) p.size s s 0 := ⟨hsR, hs0, fun j hj t t0 t1 => hside j hj t t0 t1⟩
  have hss : s = if 0 < a then 1 else -1 := by
    rcases hs1 with rfl | rfl
    · rw [if_pos (by simpa using hsa)]
    · rw [if_neg (by simp at hsa; linarith)]
  have hfar : ∀ x, (∀ k < p.size, ∀ z, OnLine (ppos p k) (ppos p (k + 1)) z → o ^ 2 < dist2 x z) ↔
      ∀ z, OnPline p z → |o| < distance x z := by
    intro x
    have key : ∀ z, |o| < distance x z ↔ o ^ 2 < dist2 x z := by
      intro z
      unfold distance
      rw [Real.lt_sqrt (abs_nonneg _), sq_abs]
    simp only [polygon_onPline hp.closed hp.lines, key]
    exact ⟨fun h z ⟨_, k, hk, hz⟩ => h k hk z hz, fun h k hk z hz => h z ⟨h2, k, hk, hz⟩⟩
  have hoff : ∀ x, (∀ z, OnPline p z → |o| < distance x z) → ¬ OnPline p x := by
    intro x h hx
    have h1 := h x hx
    have h2 : distance x x = 0 := by simp [distance, dist2]
    have := abs_pos.2 ho
    linarith
  have a0 : a ≠ 0 := by rintro e; rw [e] at hsa; simp at hsa
  by_cases h : 0 < (s : ℝ) * o
  · have hoa : 0 < o * a := by
      rcases hsR with e | e <;> rw [e] at h hsa <;> nlinarith
    refine ⟨s, s, s, 0, a, harea, a0, hss, hS1, h, fun x hx => ?_, fun x => ?_, Or.inl ⟨hoa, rfl, rfl⟩⟩
    · rw [hunf x hx, iff_true_right hoa]
      rcases hval x ((simple_off hp).1 hx) with q | q
      · rw [q]; simp [hs0.symm]
      · rw [q]; simp [hs0]
    · have : DeepP (ppos p) p.size o s x ↔ OffsetRegion p o x := by
        unfold DeepP OffsetRegion
        rw [hfar x, harea]
        constructor
        · rintro ⟨e, hf⟩
          exact ⟨a, rfl, Or.inl ⟨hoa, (hin x (hoff x hf)).2 (by rw [e]; exact hs0), hf⟩⟩
        · rintro ⟨a', e, ⟨-, hi, hf⟩ | ⟨hn, -⟩⟩
          · have := (hin x (hoff x hf)).1 hi
            exact ⟨(hval x ((simple_off hp).1 (hoff x hf))).resolve_left this, hf⟩
          · have := Except.ok.inj e
            subst this
            linarith
      by_cases q : OffsetRegion p o x
      · rw [if_pos (this.2 q), if_pos q, if_neg hs0]; ring
      · rw [if_neg (fun w => q (this.1 w)), if_neg q, if_neg hs0]; ring
  · have hlt : (s : ℝ) * o < 0 := lt_of_le_of_ne (not_lt.1 h)
      (mul_ne_zero (by rcases hsR with e | e <;> rw [e] <;> norm_num) ho)
    have hoa : o * a < 0 := by
      rcases hsR with e | e <;> rw [e] at hlt hsa <;> nlinarith
    refine ⟨s, -s, 0, s, a, harea, a0, hss, hS1.flip, by linarith, fun x hx => ?_, fun x => ?_, Or.inr ⟨hoa, rfl, rfl⟩⟩
    · rw [hunf x hx, iff_false_right (not_lt.2 hoa.le)]
      simp
    · have : DeepP (ppos p) p.size o 0 x ↔ ¬ OffsetRegion p o x := by
        unfold DeepP OffsetRegion
        rw [hfar x, harea]
        constructor
        · rintro ⟨e, hf⟩ ⟨a', e', ⟨hn, -⟩ | ⟨-, hi | ⟨z, hz, hd⟩⟩⟩
          · have := Except.ok.inj e'
            subst this
            linarith
          · exact (hin x (hoff x hf)).1 hi e
          · linarith [hf z hz]
        · intro hn
          have hf : ∀ z, OnPline p z → |o| < distance x z := by
            intro z hz
            by_contra q
            exact hn ⟨a, rfl, Or.inr ⟨hoa, Or.inr ⟨z, hz, not_lt.1 q⟩⟩⟩
          refine ⟨?_, hf⟩
          by_contra q
          exact hn ⟨a, rfl, Or.inr ⟨hoa, Or.inl ((hin x (hoff x hf)).2 q)⟩⟩
      by_cases q : OffsetRegion p o x
      · rw [if_neg (fun w => this.1 w q), if_pos q, if_pos rfl]; ring
      · rw [if_pos (this.2 q), if_neg q, if_pos rfl]; ring

theorem offset_sides {p : Polyline} (hp : SimplePolygon p) {o : ℝ} (ho : o ≠ 0) :
    ∃ (s : ℤ) (σ : ℝ) (V V' : ℤ) (a : ℝ), getArea p = .ok a ∧ a ≠ 0 ∧ s = (if 0 < a then 1 else -1) ∧
      Sides (ppos p) p.size σ V V' ∧ 0 < σ * o ∧
      (∀ x, ¬ OnPline p x → (OnOffsetSide p o x ↔ polyW (ppos p) p.size x = V)) ∧
      ∀ x, σ * ((if DeepP (ppos p) p.size o V x then 1 else 0) - (if V = 0 then 1 else 0)) =
        (s : ℝ) * (if OffsetRegion p o x then 1 else 0) := by
  obtain ⟨s, σ, V, V', a, h1, h2, h3, h4, h5, h6, h7, -⟩ := offset_sides_signed hp ho
  exact ⟨s, σ, V, V', a, h1, h2, h3, h4, h5, h6, h7⟩

/-- Closed polylines made of the segments of the exact offset bound the region. -/
theorem bounds_of_level {p raw : Polyline} {offset : ℝ} {X : Set V2} {es : List (Vertex × V2)}
    (h : LevelEdges p raw offset X es) (hp : SimplePolygon p) (hne : offset ≠ 0) (hclear : ClearOffset p offset)
    (hraw : createRawOffsetPline p offset = .ok raw) (hrok : ∀ k, SegOk (rv raw k) (rv raw (k + 1))) :
    ((es.map fun e => e.1.pos).Perm (es.map fun e => e.2)) ∧
    ∀ {r : List Polyline}, (∀ q ∈ r, q.isClosed = true ∧ 2 ≤ q.size) → (r.map cEdges).flatten.Perm es →
      BoundsOffset p offset r := by
  obtain ⟨s, σ, V, V', a, ha, a0, hs, hV, hσ, hside, hreg⟩ := offset_sides hp hne
  have hj := h.noJumps hp hne hclear hraw hrok (raw_far hp hclear hraw) hV hσ hside
  refine ⟨hj.balanced h.fin hV.1 h.ok, fun {r} hr hperm => ?_⟩
  have hmem : ∀ q ∈ r, ∀ e ∈ cEdges q, e ∈ es := fun q hq e he =>
    hperm.subset (List.mem_flatten.2 ⟨_, List.mem_map.2 ⟨q, hq, rfl⟩, he⟩)
  have hok : ∀ q ∈ r, PlineOk q := fun q hq => plineOk_cEdges (hr q hq).1 fun e he => h.ok e (hmem q hq e he)
  refine ⟨fun q hq => ⟨(hr q hq).1, (hr q hq).2, hok q hq⟩, fun x b hb hx => ?_⟩
  rw [ha] at hb
  obtain rfl := Except.ok.inj hb
  have hoff : eOff es x := by
    intro e he ho
    obtain ⟨l, hl, hel⟩ := List.mem_flatten.1 (hperm.symm.subset he)
    obtain ⟨q, hq, rfl⟩ := List.mem_map.1 hl
    exact hx q hq ((onPline_cEdges (hr q hq).1 (hr q hq).2).2 ⟨e, hel, ho⟩)
  have hw := h.winds hp hne hV.1 hj hside hoff
  rw [hreg x, ← eTurns_perm hperm, eTurns_flatten] at hw
  have hint : ∀ q ∈ r, ∃ k : ℤ, getWindingNumber q x = .ok k ∧ (k : ℝ) = eTurns (cEdges q) x / (2 * Real.pi) := by
    intro q hq
    obtain ⟨k, hk⟩ := turnAll_int (hok q hq) (hr q hq).1 (hr q hq).2 (hx q hq)
    refine ⟨k, (getWinding_turnAll (hok q hq) (hr q hq).1 (hr q hq).2 (hx q hq)).2 hk.symm, ?_⟩
    rw [← turnAll_cEdges]; exact hk.symm
  have hlist : ∀ l : List Polyline, (∀ q ∈ l, q ∈ r) → ∃ ws : List ℤ,
      List.Forall₂ (fun q w => getWindingNumber q x = .ok w) l ws ∧
        (ws.sum : ℝ) = (l.map fun q => eTurns (cEdges q) x).sum / (2 * Real.pi) := by
    intro l
    induction l with
    | nil => intro _; exact ⟨[], List.Forall₂.nil, by simp⟩
    | cons q l ih =>
      intro hl
      obtain ⟨ws, h1, h2⟩ := ih fun q hq => hl q (List.mem_cons_of_mem _ hq)
      obtain ⟨k, h3, h4⟩ := hint q (hl q List.mem_cons_self)
      refine ⟨k :: ws, List.Forall₂.cons h3 h1, ?_⟩
      rw [List.sum_cons, List.map_cons, List.sum_cons]
      rw [Int.cast_add, h2, h4]
      ring
  obtain ⟨ws, h1, h2⟩ := hlist r fun q hq => hq
  refine ⟨ws, h1, ?_⟩
  rw [hw] at h2
  by_cases q : OffsetRegion p offset x
  · rw [if_pos q] at h2 ⊢
    rw [← hs]
    rw [mul_one] at h2
    exact_mod_cast h2
  · rw [if_neg q] at h2 ⊢
    rw [mul_zero] at h2
    exact_mod_cast h2

/-- **C74.** The offset of a polygon that does not meet itself, when the tolerances of the library do not
matter: the offset exists, it is made of closed polylines, and they are the boundary of the offset region:
all together they wind once, in the direction of the polygon, around every point of the region, and not around
any other point. -/
theorem C74_parallelOffset {std : StdSort} {hash : HashOrder} (inf ninf : ℝ) {p raw : Polyline} {offset : ℝ}
    (hp : SimplePolygon p) (ho : 1 / 10 ^ 4 ≤ |offset|) (hclear : ClearOffset p offset)
    (hi : Indexable (codePlatform inf ninf) p) (hraw : createRawOffsetPline p offset = .ok raw)
    (hri : Indexable (codePlatform inf ninf) raw) (ha : LongArcs raw)
    (hself : ∀ l, SelfIntersectsOf raw l → l ≠ [] ∧ ExactCuts raw (selfCuts l) ∧ ApartCuts (selfCuts l) ∧
      (selfCuts l).length ≤ 2 ^ 24)
    (hm : ClearMeets p raw offset)
    (hdrop : ∀ l s, SelfIntersectsOf raw l →
      ¬ Shallow p raw offset (selfCuts l) s ∧ ¬ ShortLoop p raw offset (selfCuts l) s) :
    ∃ r, parallelOffset (codePlatform inf ninf) std hash p offset = .ok r ∧ BoundsOffset p offset r := by
  have hne : offset ≠ 0 := by rintro rfl; norm_num at ho
  have hok : PlineOk p := lines_ok hp.lines
  have hb : BulgesOk p := fun v hv => by
    have := hp.lines v hv; unfold IsLine at this; linarith [show (1 : ℝ) / 10 ^ 5 ≤ 1 by norm_num]
  have hro : PlineOk raw := by
    rcases C38_createRawOffsetPline p offset hb hclear.repeats with ⟨r', h1, h2, -⟩ | ⟨h1, -⟩
    · rw [hraw] at h1
      cases h1
      exact plineOk_long h2 ha
    · rw [hraw] at h1
      cases h1
  obtain ⟨r, hr⟩ := C65_parallelOffset (std := std) (hash := hash) inf ninf hi hok hb hclear.repeats hp.closed
    (line_not_collapses hp.lines hclear.repeats) (fun raw' h => by
      rw [hraw] at h
      cases h
      exact Or.inr ⟨hri, ha, fun l hl => (hself l hl).2.2.2⟩)
  obtain ⟨selfs, hs, -, h1⟩ := C59_parallelOffset inf ninf hi hok hb
    hclear.repeats hp.closed hraw hri hro hr
  obtain ⟨hl, hex, hap, hlen⟩ := hself selfs hs
  have hcne : selfCuts selfs ≠ [] := by
    obtain ⟨x, l, rfl⟩ := List.exists_cons_of_ne_nil hl
    simp [selfCuts]
  obtain ⟨slices, hk, hst⟩ := h1 hcne
  obtain ⟨raw', hrun', hrc, -, -⟩ := C62_level hp hne hclear
  rw [hraw] at hrun'
  cases hrun'
  obtain ⟨hsok, hsl⟩ := kept_stitchOk hrc hro hcne hex hap hk
  have hst' := hst (fun hf => by rw [hp.closed] at hf; cases hf) (hsl.trans hlen)
  obtain ⟨X, hX⟩ := kept_level hp ho hclear hraw hro hcne hex hm hk (fun s => (hdrop selfs s hs).1)
    (fun s => (hdrop selfs s hs).2)
  obtain ⟨hbal, hbd⟩ := bounds_of_level hX hp hne hclear hraw (rv_ok hrc hri.size hro)
  rw [hp.closed] at hst'
  obtain ⟨g1, g2⟩ := offset_loops hst' hsok hbal
  exact ⟨r, hr, hbd g1 g2⟩

/-- **C74.** The same for a polygon whose raw offset does not meet itself; if no point is at the distance of the
offset, on the side of the offset, the offset is empty, or the vertex of the raw offset that is looked at is
closer to the polygon than the offset by less than 1e-4. -/
theorem C74_uncut {std : StdSort} {hash : HashOrder} (inf ninf : ℝ) {p raw : Polyline} {offset : ℝ}
    (hp : SimplePolygon p) (ho : 1 / 10 ^ 4 ≤ |offset|) (hclear : ClearOffset p offset)
    (hi : Indexable (codePlatform inf ninf) p) (hraw : createRawOffsetPline p offset = .ok raw)
    (hri : Indexable (codePlatform inf ninf) raw) (hro : PlineOk raw) (honce : ∀ x, ¬ PassedTwice raw x)
    (hself : ∀ l, SelfIntersectsOf raw l → l = [])
    (hdrop : ∀ v, raw.vertexes.head? = some v → Clear p (|offset| - 1 / 10 ^ 4) v.pos → NotCloser p |offset| v.pos)
    {r : List Polyline} (hr : parallelOffset (codePlatform inf ninf) std hash p offset = .ok r) :
    BoundsOffset p offset r := by
  have hne : offset ≠ 0 := by rintro rfl; norm_num at ho
  obtain ⟨raw', hrun', hrc, -, hlev⟩ := C62_level hp hne hclear
  rw [hraw] at hrun'
  cases hrun'
  have h2 : 2 ≤ raw.size := hri.size
  have hrok := rv_ok hrc h2 hro
  rcases C63_uncut inf ninf hp ho hclear hi hraw hri hro honce hself hr with ⟨rfl, h⟩ | ⟨hno, h⟩
  · obtain ⟨X, hX⟩ := uncut_level (raw_far hp hclear hraw) hrc h2 hro honce h
    refine (bounds_of_level hX hp hne hclear hraw hrok).2 ?_ ?_
    · rintro q hq
      rw [List.mem_singleton] at hq
      subst hq
      exact ⟨hrc, h2⟩
    · simp
  · have hX : LevelEdges p raw offset ∅ [] :=
      ⟨Set.finite_empty, by simp, by simp, by simp, fun z hz => absurd hz (hno z), List.Pairwise.nil,
        fun z hz => absurd hz (honce z)⟩
    rcases h with rfl | ⟨rfl, v, hv, hc⟩
    · exact (bounds_of_level hX hp hne hclear hraw hrok).2 (by simp) (by simp)
    · exfalso
      refine hno v.pos ((hlev v.pos).2 ⟨?_, hdrop v hv hc⟩)
      have hs := closed_isSeg hrc h2 (k := 0) (by omega)
      have : vtx raw 0 = v := by
        unfold vtx
        rw [List.getD_eq_getElem?_getD, ← List.head?_eq_getElem?, hv]
        rfl
      rw [this] at hs
      exact ⟨0, _, _, hs, onSeg_start _ _⟩

/-- **C74.** The areas of the polylines that bound the offset of a polygon add up to the area of the region, with the
sign of the area of the polygon. -/
theorem C74_area {p : Polyline} {offset : ℝ} {r : List Polyline} (h : BoundsOffset p offset r) {a : ℝ}
    (ha : getArea p = .ok a) :
    ∃ b, SumOfAreas r b ∧ 0 ≤ (if 0 < a then 1 else -1) * b ∧
      volume {z : ℝ × ℝ | OffsetRegion p offset ⟨z.1, z.2⟩} = ENNReal.ofReal |b| := by
  have hlist : ∀ l : List Polyline, (∀ q ∈ l, q ∈ r) → ∃ (as : List ℝ) (W : ℝ × ℝ → ℤ),
      List.Forall₂ (fun q a => getArea q = .ok a) l as ∧ Integrable (fun z => (W z : ℝ)) ∧ ∫ z, (W z : ℝ) = as.sum ∧
      ∀ (z : ℝ × ℝ) (ws : List ℤ), List.Forall₂ (fun q w => getWindingNumber q ⟨z.1, z.2⟩ = .ok w) l ws → ws.sum = W z := by
    intro l
    induction l with
    | nil =>
      intro _
      refine ⟨[], fun _ => 0, List.Forall₂.nil, by simp, by simp, fun z ws hws => ?_⟩
      cases hws
      rfl
    | cons q l ih =>
      intro hl
      obtain ⟨as, W, h1, h2, h3, h4⟩ := ih fun q hq => hl q (List.mem_cons_of_mem _ hq)
      obtain ⟨g1, -, g2⟩ := h.closed q (hl q List.mem_cons_self)
      obtain ⟨b, k1, W', k2, k3, k4⟩ := C61_area_integral q g2 g1
      refine ⟨b :: as, fun z => W' z + W z, List.Forall₂.cons k1 h1, ?_, ?_, ?_⟩
      · simp only [Int.cast_add]
        exact k3.add h2
      · simp only [Int.cast_add]
        rw [integral_add k3 h2, k4, h3, List.sum_cons]
      · intro z ws hws
        cases hws with
        | cons hw hws =>
          rw [List.sum_cons, h4 z _ hws]
          rw [k2 z] at hw
          have := Except.ok.inj hw
          subst this
          rfl
  obtain ⟨as, W, h1, h2, h3, h4⟩ := hlist r fun q hq => hq
  set s : ℤ := if 0 < a then 1 else -1 with hs
  have hs1 : s = 1 ∨ s = -1 := by rw [hs]; split_ifs <;> simp
  have hoff : ∀ᵐ z : ℝ × ℝ, ∀ q ∈ r, ¬ OnPline q ⟨z.1, z.2⟩ := by
    have : ∀ l : List Polyline, ∀ᵐ z : ℝ × ℝ, ∀ q ∈ l, ¬ OnPline q ⟨z.1, z.2⟩ := by
      intro l
      induction l with
      | nil => simp
      | cons q l ih =>
        filter_upwards [ih, onPline_null q] with z z1 z2
        intro q' hq'
        rcases List.mem_cons.1 hq' with rfl | hq'
        · exact z2
        · exact z1 q' hq'
    exact this r
  have hW : ∀ᵐ z : ℝ × ℝ, W z = if OffsetRegion p offset ⟨z.1, z.2⟩ then s else 0 := by
    filter_upwards [hoff] with z hz
    obtain ⟨ws, k1, k2⟩ := h.winds _ a ha hz
    rw [← h4 z ws k1, k2]
  have hset : {z : ℝ × ℝ | OffsetRegion p offset ⟨z.1, z.2⟩} =ᵐ[volume] {z | (W z : ℝ) = s} := by
    filter_upwards [hW] with z hz
    apply propext
    show OffsetRegion p offset ⟨z.1, z.2⟩ ↔ (W z : ℝ) = s
    rw [hz]
    by_cases q : OffsetRegion p offset ⟨z.1, z.2⟩
    · simp [q]
    · simp only [q, if_false, false_iff]
      rcases hs1 with e | e <;> rw [e] <;> norm_num
  have hae : (fun z => (s : ℝ) * W z) =ᵐ[volume] Set.indicator {z : ℝ × ℝ | (W z : ℝ) = s} 1 := by
    filter_upwards [hW] with z hz
    by_cases q : OffsetRegion p offset ⟨z.1, z.2⟩
    · rw [if_pos q] at hz
      rw [Set.indicator_of_mem (by show (W z : ℝ) = s; rw [hz]), hz]
      rcases hs1 with e | e <;> rw [e] <;> norm_num
    · rw [if_neg q] at hz
      rw [Set.indicator_of_notMem, hz]
      · simp
      · show ¬ (W z : ℝ) = s
        rw [hz]
        rcases hs1 with e | e <;> rw [e] <;> norm_num
  have hnull : NullMeasurableSet {z : ℝ × ℝ | (W z : ℝ) = s} := h2.aestronglyMeasurable.nullMeasurableSet_eq_fun
    aestronglyMeasurable_const
  have hfin : volume {z : ℝ × ℝ | (W z : ℝ) = s} ≠ ⊤ := by
    refine ne_top_of_le_ne_top (h2.measure_norm_ge_lt_top one_pos).ne (measure_mono fun z hz => ?_)
    have hz : (W z : ℝ) = s := hz
    show 1 ≤ ‖(W z : ℝ)‖
    rw [hz]
    rcases hs1 with e | e <;> rw [e] <;> norm_num
  have hval : (s : ℝ) * as.sum = (volume {z : ℝ × ℝ | (W z : ℝ) = s}).toReal := by
    rw [← h3, ← integral_const_mul, integral_congr_ae hae, integral_indicator₀ hnull]
    simp [Measure.real]
  have hsR : (if 0 < a then 1 else -1 : ℝ) = s := by rw [hs]; split_ifs <;> simp
  refine ⟨as.sum, ⟨as, h1, rfl⟩, ?_, ?_⟩
  · rw [hsR, hval]
    exact ENNReal.toReal_nonneg
  · rw [measure_congr hset]
    have : |as.sum| = (volume {z : ℝ × ℝ | (W z : ℝ) = s}).toReal := by
      rw [← hval]
      have : 0 ≤ (s : ℝ) * as.sum := by rw [hval]; exact ENNReal.toReal_nonneg
      rw [← abs_of_nonneg this, abs_mul]
      rcases hs1 with e | e <;> rw [e] <;> simp
    rw [this, ENNReal.ofReal_toReal hfin]

/-! ### The hypotheses are met -/

/-- The square of side 10 offset inwards by 1: the raw offset is not cut. -/
example (std : StdSort) (hash : HashOrder) (inf ninf : ℝ) :
    parallelOffset (codePlatform inf ninf) std hash (rect 0 0 10 10) 1 = .ok [rect 1 1 9 9] ∧
    BoundsOffset (rect 0 0 10 10) 1 [rect 1 1 9 9] := by
  have hraw := rect_raw (x0 := 0) (y0 := 0) (x1 := 10) (y1 := 10) (d := 1) (by norm_num) (by norm_num)
    (by norm_num) (by norm_num) (by norm_num)
  have hr := C52_rectangle (std := std) (hash := hash) inf ninf (x0 := 0) (y0 := 0) (x1 := 10) (y1 := 10)
    (d := 1) (by norm_num) (by norm_num) (by norm_num)
  norm_num at hraw
  rw [show (0 : ℝ) + 1 = 1 by norm_num, show (10 : ℝ) - 1 = 9 by norm_num] at hr
  have hsq := rect_simple (x0 := 0) (y0 := 0) (x1 := 10) (y1 := 10) (by norm_num) (by norm_num)
  have hsr := rect_simple (x0 := 1) (y0 := 1) (x1 := 9) (y1 := 9) (by norm_num) (by norm_num)
  refine ⟨hr, ?_⟩
  refine C74_uncut inf ninf hsq (by norm_num) square_clear (rect_indexable inf ninf) hraw
    (rect_indexable inf ninf) rect_ok (once_of_simple hsr)
    (fun l hl => rect_selfs (by norm_num [abs_of_pos]) (by norm_num [abs_of_pos]) hl) ?_ hr
  intro v hv _ z hz
  cases hv
  rw [abs_one]
  obtain ⟨i, v1, v2, hs, ho⟩ := hz
  apply Real.le_sqrt_of_sq_le
  rcases rect_seg hs with ⟨-, rfl, rfl⟩ | ⟨-, rfl, rfl⟩ | ⟨-, rfl, rfl⟩ | ⟨-, rfl, rfl⟩ <;>
    obtain ⟨t, t0, t1, hx, hy⟩ := on_line ho <;> unfold dist2 <;> rw [hx, hy] <;> simp only <;> nlinarith

theorem chamfer_point {x : V2} (h : OnPline chamferRaw x) : x = ⟨31, 31⟩ ∨
    ((31 ≤ x.x ∧ 31 ≤ x.y ∧ (31 < x.x ∨ 31 < x.y)) ∨ (x.x ≤ 31 ∧ x.y ≤ 31 ∧ (x.x < 31 ∨ x.y < 31))) := by
  by_cases e : x = ⟨31, 31⟩
  · exact Or.inl e
  right
  have hne : x.x ≠ 31 ∨ x.y ≠ 31 := by
    by_contra q
    push Not at q
    exact e (V2.ext q.1 q.2)
  obtain ⟨i, v1, v2, hs, ho⟩ := h
  rcases chamferRaw_seg hs with ⟨-, rfl, rfl⟩ | ⟨-, rfl, rfl⟩ | ⟨-, rfl, rfl⟩ | ⟨-, rfl, rfl⟩ | ⟨-, rfl, rfl⟩ <;>
    obtain ⟨t, t0, t1, hx, hy⟩ := on_line ho <;> simp only at hx hy
  · right; exact ⟨by linarith, by linarith, Or.inr (by linarith)⟩
  · have h31 : x.x = 31 := by linarith
    rcases lt_or_gt_of_ne (hne.resolve_left (by simpa using h31)) with q | q
    · right; exact ⟨by linarith, by linarith, Or.inr q⟩
    · left; exact ⟨by linarith, by linarith, Or.inr q⟩
  · left
    refine ⟨by linarith, by linarith, ?_⟩
    rcases t0.lt_or_eq with q | q
    · left; linarith
    · right; rw [← q] at hy; linarith
  · have h31 : x.y = 31 := by linarith
    rcases lt_or_gt_of_ne (hne.resolve_right (by simpa using h31)) with q | q
    · right; exact ⟨by linarith, by linarith, Or.inl q⟩
    · left; exact ⟨by linarith, by linarith, Or.inl q⟩
  · right; exact ⟨by linarith, by linarith, Or.inl (by linarith)⟩

theorem chamfer_onRaw (x y : ℝ) : OnPline chamferRaw ⟨x, y⟩ ↔
    (9 ≤ x ∧ x ≤ 31 ∧ y = 9) ∨ (x = 31 ∧ 9 ≤ y ∧ y ≤ 33) ∨ (31 ≤ x ∧ x ≤ 65 / 2 ∧ 4 * x + 3 * y = 223) ∨
      (9 ≤ x ∧ x ≤ 65 / 2 ∧ y = 31) ∨ (x = 9 ∧ 9 ≤ y ∧ y ≤ 31) := by
  have hseg : ∀ k < 5, IsSeg chamferRaw k (vtx chamferRaw k) (vtx chamferRaw ((k + 1) % 5)) := fun k hk => by
    interval_cases k <;> rfl
  constructor
  · rintro ⟨i, v1, v2, hs, ho⟩
    rcases chamferRaw_seg hs with ⟨-, rfl, rfl⟩ | ⟨-, rfl, rfl⟩ | ⟨-, rfl, rfl⟩ | ⟨-, rfl, rfl⟩ | ⟨-, rfl, rfl⟩ <;>
      obtain ⟨t, t0, t1, hx, hy⟩ := on_line ho <;> simp only at hx hy
    · left; exact ⟨by linarith, by linarith, by linarith⟩
    · right; left; exact ⟨by linarith, by linarith, by linarith⟩
    · right; right; left; exact ⟨by linarith, by linarith, by linarith⟩
    · right; right; right; left; exact ⟨by linarith, by linarith, by linarith⟩
    · right; right; right; right; exact ⟨by linarith, by linarith, by linarith⟩
  · have mk : ∀ k < 5, ∀ t : ℝ, 0 ≤ t → t ≤ 1 → IsLine (vtx chamferRaw k) →
        (⟨x, y⟩ : V2) = lerp (vtx chamferRaw k).pos (vtx chamferRaw ((k + 1) % 5)).pos t → OnPline chamferRaw ⟨x, y⟩ :=
      fun k hk t t0 t1 hl e => ⟨k, _, _, hseg k hk, (onSeg_line hl).2 ⟨t, t0, t1, e⟩⟩
    rintro (⟨h1, h2, h3⟩ | ⟨h1, h2, h3⟩ | ⟨h1, h2, h3⟩ | ⟨h1, h2, h3⟩ | ⟨h1, h2, h3⟩)
    · refine mk 0 (by norm_num) ((x - 9) / 22) (by linarith) (by linarith) (isLine_zero _) ?_
      ext <;> simp [lerp, vtx, chamferRaw] <;> linarith
    · refine mk 1 (by norm_num) ((y - 9) / 24) (by linarith) (by linarith) (isLine_zero _) ?_
      ext <;> simp [lerp, vtx, chamferRaw] <;> linarith
    · refine mk 2 (by norm_num) ((x - 31) / (3 / 2)) (by linarith) (by linarith) (isLine_zero _) ?_
      ext <;> simp [lerp, vtx, chamferRaw] <;> linarith
    · refine mk 3 (by norm_num) ((65 / 2 - x) / (47 / 2)) (by linarith) (by linarith) (isLine_zero _) ?_
      ext <;> simp [lerp, vtx, chamferRaw] <;> linarith
    · refine mk 4 (by norm_num) ((31 - y) / 22) (by linarith) (by linarith) (isLine_zero _) ?_
      ext <;> simp [lerp, vtx, chamferRaw] <;> linarith

theorem chamfer_once {x : V2} (h : x ≠ ⟨31, 31⟩) : ¬ PassedTwice chamferRaw x := by
  rintro ⟨i, j, v1, v2, u1, u2, h1, h2, hij, o1, o2, hn⟩
  rcases chamferRaw_meet h1 h2 hij o1 o2 with q | q
  · exact hn q
  · exact h q

/-- The loop of the raw offset that is too close, without the point where it meets itself. -/
theorem chamfer_small : OnceStretch chamferRaw {x | OnPline chamferRaw x ∧ 31 ≤ x.x ∧ 31 ≤ x.y ∧ (31 < x.x ∨ 31 < x.y)} := by
  refine ⟨?_, fun x hx => hx.1, ?_⟩
  · have e : (fun x : V2 => (x.x, x.y)) '' {x | OnPline chamferRaw x ∧ 31 ≤ x.x ∧ 31 ≤ x.y ∧ (31 < x.x ∨ 31 < x.y)} =
        (fun y : ℝ => ((31 : ℝ), y)) '' Set.Ioc 31 33 ∪ ((fun x : ℝ => (x, (223 - 4 * x) / 3)) '' Set.Icc 31 (65 / 2) ∪
          (fun x : ℝ => (x, (31 : ℝ))) '' Set.Ioc 31 (65 / 2)) := by
      ext ⟨a, b⟩
      constructor
      · rintro ⟨⟨x, y⟩, ⟨h1, h2, h3, h4⟩, e⟩
        obtain ⟨rfl, rfl⟩ := Prod.mk.inj e
        simp only at h2 h3 h4
        rcases (chamfer_onRaw x y).1 h1 with ⟨q1, q2, q3⟩ | ⟨q1, q2, q3⟩ | ⟨q1, q2, q3⟩ | ⟨q1, q2, q3⟩ | ⟨q1, q2, q3⟩
        · exfalso; linarith
        · left; exact ⟨y, ⟨h4.resolve_left (by linarith), q3⟩, by simp [q1]⟩
        · right; left; exact ⟨x, ⟨q1, q2⟩, by simp only [Prod.mk.injEq, true_and]; linarith⟩
        · right; right; exact ⟨x, ⟨h4.resolve_right (by linarith), q2⟩, by simp [q3]⟩
        · exfalso; linarith
      · rintro (⟨y, ⟨q1, q2⟩, e⟩ | ⟨x, ⟨q1, q2⟩, e⟩ | ⟨x, ⟨q1, q2⟩, e⟩) <;> obtain ⟨rfl, rfl⟩ := Prod.mk.inj e
        · exact ⟨⟨31, y⟩, ⟨(chamfer_onRaw _ _).2 (Or.inr (Or.inl ⟨rfl, by linarith, q2⟩)), le_rfl, q1.le, Or.inr q1⟩, rfl⟩
        · refine ⟨⟨x, (223 - 4 * x) / 3⟩, ⟨(chamfer_onRaw _ _).2 (Or.inr (Or.inr (Or.inl ⟨q1, q2, by ring⟩))), q1, ?_, ?_⟩, rfl⟩
          · simp only; linarith
          · simp only
            rcases q1.lt_or_eq with q | q
            · exact Or.inl q
            · right; linarith
        · exact ⟨⟨x, 31⟩, ⟨(chamfer_onRaw _ _).2 (Or.inr (Or.inr (Or.inr (Or.inl ⟨by linarith, q2, rfl⟩)))), q1.le, le_rfl,
            Or.inl q1⟩, rfl⟩
    rw [e]
    refine IsPreconnected.union ((31 : ℝ), (33 : ℝ)) ⟨33, by norm_num, rfl⟩ (Or.inl ⟨31, by norm_num, by norm_num⟩) ?_ ?_
    · exact isPreconnected_Ioc.image _ (by fun_prop)
    · refine IsPreconnected.union ((65 / 2 : ℝ), (31 : ℝ)) ⟨65 / 2, by norm_num, by norm_num⟩ ⟨65 / 2, by norm_num, rfl⟩ ?_ ?_
      · exact isPreconnected_Icc.image _ (by fun_prop)
      · exact isPreconnected_Ioc.image _ (by fun_prop)
  · rintro x ⟨-, h2, h3, h4⟩
    refine chamfer_once ?_
    rintro rfl
    rcases h4 with q | q <;> exact absurd q (lt_irrefl _)

/-- The rest of the raw offset. -/
theorem chamfer_big : OnceStretch chamferRaw {x | OnPline chamferRaw x ∧ x.x ≤ 31 ∧ x.y ≤ 31 ∧ (x.x < 31 ∨ x.y < 31)} := by
  refine ⟨?_, fun x hx => hx.1, ?_⟩
  · have e : (fun x : V2 => (x.x, x.y)) '' {x | OnPline chamferRaw x ∧ x.x ≤ 31 ∧ x.y ≤ 31 ∧ (x.x < 31 ∨ x.y < 31)} =
        (fun y : ℝ => ((31 : ℝ), y)) '' Set.Ico 9 31 ∪ ((fun x : ℝ => (x, (9 : ℝ))) '' Set.Icc 9 31 ∪
          ((fun y : ℝ => ((9 : ℝ), y)) '' Set.Icc 9 31 ∪ (fun x : ℝ => (x, (31 : ℝ))) '' Set.Ico 9 31)) := by
      ext ⟨a, b⟩
      constructor
      · rintro ⟨⟨x, y⟩, ⟨h1, h2, h3, h4⟩, e⟩
        obtain ⟨rfl, rfl⟩ := Prod.mk.inj e
        simp only at h2 h3 h4
        rcases (chamfer_onRaw x y).1 h1 with ⟨q1, q2, q3⟩ | ⟨q1, q2, q3⟩ | ⟨q1, q2, q3⟩ | ⟨q1, q2, q3⟩ | ⟨q1, q2, q3⟩
        · right; left; exact ⟨x, ⟨q1, q2⟩, by simp [q3]⟩
        · left; exact ⟨y, ⟨q2, h4.resolve_left (by linarith)⟩, by simp [q1]⟩
        · exfalso; rcases h4 with q | q <;> linarith
        · right; right; right; exact ⟨x, ⟨q1, h4.resolve_right (by linarith)⟩, by simp [q3]⟩
        · right; right; left; exact ⟨y, ⟨q2, q3⟩, by simp [q1]⟩
      · rintro (⟨y, ⟨q1, q2⟩, e⟩ | ⟨x, ⟨q1, q2⟩, e⟩ | ⟨y, ⟨q1, q2⟩, e⟩ | ⟨x, ⟨q1, q2⟩, e⟩) <;> obtain ⟨rfl, rfl⟩ := Prod.mk.inj e
        · exact ⟨⟨31, y⟩, ⟨(chamfer_onRaw _ _).2 (Or.inr (Or.inl ⟨rfl, q1, by linarith⟩)), le_rfl, q2.le, Or.inr q2⟩, rfl⟩
        · exact ⟨⟨x, 9⟩, ⟨(chamfer_onRaw _ _).2 (Or.inl ⟨q1, q2, rfl⟩), q2, by norm_num, Or.inr (by norm_num)⟩, rfl⟩
        · exact ⟨⟨9, y⟩, ⟨(chamfer_onRaw _ _).2 (Or.inr (Or.inr (Or.inr (Or.inr ⟨rfl, q1, q2⟩)))), by norm_num, q2,
            Or.inl (by norm_num)⟩, rfl⟩
        · exact ⟨⟨x, 31⟩, ⟨(chamfer_onRaw _ _).2 (Or.inr (Or.inr (Or.inr (Or.inl ⟨q1, by linarith, rfl⟩)))), q2.le, le_rfl,
            Or.inl q2⟩, rfl⟩
    rw [e]
    refine IsPreconnected.union ((31 : ℝ), (9 : ℝ)) ⟨9, by norm_num, rfl⟩ (Or.inl ⟨31, by norm_num, by norm_num⟩) ?_ ?_
    · exact isPreconnected_Ico.image _ (by fun_prop)
    · refine IsPreconnected.union ((9 : ℝ), (9 : ℝ)) ⟨9, by norm_num, rfl⟩ (Or.inl ⟨9, by norm_num, rfl⟩) ?_ ?_
      · exact isPreconnected_Icc.image _ (by fun_prop)
      · refine IsPreconnected.union ((9 : ℝ), (31 : ℝ)) ⟨31, by norm_num, rfl⟩ ⟨9, by norm_num, rfl⟩ ?_ ?_
        · exact isPreconnected_Icc.image _ (by fun_prop)
        · exact isPreconnected_Ico.image _ (by fun_prop)
  · rintro x ⟨-, h2, h3, h4⟩
    refine chamfer_once ?_
    rintro rfl
    rcases h4 with q | q <;> exact absurd q (lt_irrefl _)

theorem chamfer_piece {s : Polyline} {cuts : List Cut} (hx : ∀ c ∈ cuts, c.pos = ⟨31, 31⟩) (h : CutPiece chamferRaw cuts s) :
    OnPline s ⟨31, 33⟩ ∨ (OnPline s ⟨9, 9⟩ ∧ OnPline s ⟨31, 9⟩) := by
  obtain ⟨x, h1, h2⟩ := h.proper
  rcases chamfer_point (h.along x h1) with rfl | q | q
  · exact absurd (chamfer_cuts.only _ (List.mem_cons_self)) h2
  · left
    refine h.whole _ chamfer_small ⟨x, ⟨h.along x h1, q⟩, h1⟩ _ ⟨?_, by norm_num, by norm_num, by norm_num⟩
    rw [chamfer_onRaw]; right; left; norm_num
  · right
    constructor <;> refine h.whole _ chamfer_big ⟨x, ⟨h.along x h1, q⟩, h1⟩ _ ⟨?_, by norm_num, by norm_num, by norm_num⟩
    · rw [chamfer_onRaw]; left; norm_num
    · rw [chamfer_onRaw]; left; norm_num

/-- The square with a corner cut off, offset to the inside by 9: the raw offset is cut, and a part of it dropped. -/
example (std : StdSort) (hash : HashOrder) (inf ninf : ℝ) :
    ∃ r, parallelOffset (codePlatform inf ninf) std hash chamfer 9 = .ok r ∧ BoundsOffset chamfer 9 r := by
  have hcuts : ∀ l, SelfIntersectsOf chamferRaw l → ∀ c ∈ selfCuts l, c.pos = ⟨31, 31⟩ := by
    intro l hl c hc
    rcases chamferRaw_selfs hl with rfl | rfl <;> simp [selfCuts] at hc <;> rcases hc with rfl | rfl <;> rfl
  have htop : OnPline chamfer ⟨31, 40⟩ :=
    ⟨3, ⟨⟨37, 40⟩, 0⟩, ⟨⟨0, 40⟩, 0⟩, rfl, (onSeg_line (isLine_zero _)).2 ⟨6 / 37, by norm_num, by norm_num, by
      ext <;> norm_num [lerp]⟩⟩
  have hd : distance ⟨31, 33⟩ ⟨31, 40⟩ = 7 := by
    unfold distance dist2
    rw [show ((31 : ℝ) - 31) ^ 2 + (33 - 40) ^ 2 = 7 ^ 2 by norm_num, Real.sqrt_sq (by norm_num)]
  refine C74_parallelOffset inf ninf chamfer_simple (by norm_num [abs_of_pos]) chamfer_clear
    (chamfer_indexable inf ninf) chamfer_raw (chamferRaw_indexable inf ninf) ?_ ?_ chamfer_meets ?_
  · intro i v w hs hl
    rcases chamferRaw_seg hs with ⟨-, rfl, -⟩ | ⟨-, rfl, -⟩ | ⟨-, rfl, -⟩ | ⟨-, rfl, -⟩ | ⟨-, rfl, -⟩ <;>
      exact absurd (isLine_zero _) hl
  · intro l hl
    have hap : ApartCuts [⟨1, ⟨31, 31⟩, false⟩, ⟨3, ⟨31, 31⟩, false⟩] := by
      intro a ha b hb
      simp only [List.mem_cons, List.not_mem_nil, or_false] at ha hb
      rcases ha with rfl | rfl <;> rcases hb with rfl | rfl <;> intros <;> rfl
    have hsw : ApartCuts [⟨3, ⟨31, 31⟩, false⟩, ⟨1, ⟨31, 31⟩, false⟩] := fun a ha b hb =>
      hap a ((List.Perm.swap _ _ _).mem_iff.1 ha) b ((List.Perm.swap _ _ _).mem_iff.1 hb)
    rcases chamferRaw_selfs hl with rfl | rfl
    · exact ⟨by simp, chamfer_cuts, hap, by norm_num [selfCuts]⟩
    · exact ⟨by simp, exactCuts_perm (List.Perm.swap _ _ _) chamfer_cuts, hsw, by norm_num [selfCuts]⟩
  · intro l s hl
    constructor
    · intro h
      rcases chamfer_piece (hcuts l hl) h.toPieceOff with q | ⟨q, -⟩
      · have := clear_of_valid (lines_ok chamfer_lines) (by norm_num [abs_of_pos])
          (h.tests ⟨⟨31, 33⟩, 0⟩ (List.mem_append_right _ (by simp [chamferRaw])) q) _ htop
        rw [hd] at this
        norm_num [abs_of_pos] at this
      · rcases h.closer _ q with ⟨z, ⟨i, v1, v2, hs, ho⟩, hz⟩ | he
        · have h81 : dist2 ⟨9, 9⟩ z < 81 := by
            rw [← distance_sq]
            have := distance_nonneg ⟨9, 9⟩ z
            rw [abs_of_pos (by norm_num)] at hz
            nlinarith
          unfold dist2 at h81
          rcases chamfer_seg hs with ⟨-, rfl, rfl⟩ | ⟨-, rfl, rfl⟩ | ⟨-, rfl, rfl⟩ | ⟨-, rfl, rfl⟩ | ⟨-, rfl, rfl⟩ <;>
            obtain ⟨t, t0, t1, hx, hy⟩ := on_line ho <;> rw [hx, hy] at h81 <;> simp only at h81 <;> nlinarith
        · obtain ⟨c, hc, e⟩ := h.ends _ he
          rw [hcuts l hl c hc] at e
          have := congrArg V2.x e
          norm_num at this
    · intro h
      rcases chamfer_piece (hcuts l hl) h.toPieceOff with q | ⟨q, q'⟩
      · have := (h.level _ q).2.1 _ htop
        rw [hd] at this
        norm_num [abs_of_pos] at this
      · have := h.small _ _ q q'
        unfold distance dist2 at this
        rw [show ((9 : ℝ) - 31) ^ 2 + (9 - 9) ^ 2 = 22 ^ 2 by norm_num, Real.sqrt_sq (by norm_num)] at this
        norm_num at this

end
end Cavc

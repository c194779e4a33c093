import Verif.Spec.OffsetBoth
import Verif.Props.OffsetExact

/-! C76: the parallel offset of a closed polygon that may meet itself (`hasSelfIntersects` is set). -/
namespace Cavc
open Spec
open scoped Classical
noncomputable section

theorem _root_.Cavc.Spec.LinePolygon.two' {p : Polyline} (hp : LinePolygon p) : 2 ≤ p.size := hp.two

/-- The two raw offsets of a polygon. -/
structure BothRaw (p : Polyline) (offset : ℝ) (raw dual : Polyline) (ls ls' : List (List Vertex)) : Prop where
  run : createRawOffsetPline p offset = .ok raw
  dun : createRawOffsetPline p (-offset) = .ok dual
  rawClosed : raw.isClosed = true
  dualClosed : dual.isClosed = true
  rawG : RawG (ppos p) p.size offset (fun i => ls[i]?.getD [])
  dualG : RawG (ppos p) p.size (-offset) (fun i => ls'[i]?.getD [])
  rawOn : ∀ x, OnPline raw x ↔ OnRaw p.size (fun i => ls[i]?.getD []) x
  dualOn : ∀ x, OnPline dual x ↔ OnRaw p.size (fun i => ls'[i]?.getD []) x
  rawOnce : ∀ x, ¬ PassedTwice raw x → Once p.size (fun i => ls[i]?.getD []) x

theorem bothRaw {p : Polyline} {offset : ℝ} (hp : LinePolygon p) (hne : offset ≠ 0) (hclear : ClearOffset p offset)
    (hclear' : ClearOffset p (-offset)) : ∃ raw dual ls ls', BothRaw p offset raw dual ls ls' := by
  obtain ⟨raw, ls, h1, h2, h3, h4⟩ := C62_raw hp.closed hp.lines hp.two hclear
  obtain ⟨dual, ls', d1, d2, d3, d4⟩ := C62_raw hp.closed hp.lines hp.two hclear'
  have hk := RoundsAll.kinds hp.closed hp.two' h3
  have hk' := RoundsAll.kinds hp.closed hp.two' d3
  exact ⟨raw, dual, ls, ls', h1, d1, h2, d2, poly_rawG hp.closed hp.two' hne hclear h3,
    poly_rawG hp.closed hp.two' (neg_ne_zero.2 hne) hclear' d3, fun x => raw_onRaw h2 h3.1 hp.two' hk h4,
    fun x => raw_onRaw d2 d3.1 hp.two' hk' d4, fun x hx => raw_once h2 h3.1 hp.two' hk h4 hx⟩

theorem bothRaw_of {p raw dual : Polyline} {offset : ℝ} (hp : LinePolygon p) (hne : offset ≠ 0)
    (hclear : ClearOffset p offset) (hclear' : ClearOffset p (-offset))
    (hraw : createRawOffsetPline p offset = .ok raw) (hdual : createRawOffsetPline p (-offset) = .ok dual) :
    ∃ ls ls', BothRaw p offset raw dual ls ls' := by
  obtain ⟨raw', dual', ls, ls', h⟩ := bothRaw hp hne hclear hclear'
  have h1 := h.run
  have h2 := h.dun
  rw [hraw] at h1
  rw [hdual] at h2
  cases h1
  cases h2
  exact ⟨ls, ls', h⟩

/-- **C76.** For every closed polygon of lines, also one that meets itself: the points at distance `|offset|` from it
are the points of its two raw offsets that are not closer to it. -/
theorem C76_raw {p : Polyline} {offset : ℝ} (hp : LinePolygon p) (hne : offset ≠ 0) (hclear : ClearOffset p offset)
    (hclear' : ClearOffset p (-offset)) :
    ∃ raw dual, createRawOffsetPline p offset = .ok raw ∧ createRawOffsetPline p (-offset) = .ok dual ∧
      raw.isClosed = true ∧ dual.isClosed = true ∧
      ∀ x, AtDistance p |offset| x ↔ (OnPline raw x ∨ OnPline dual x) ∧ NotCloser p |offset| x := by
  obtain ⟨raw, dual, ls, ls', hb⟩ := bothRaw hp hne hclear hclear'
  have hd : ∀ x z, (distance x z ≤ |offset| ↔ dist2 x z ≤ offset ^ 2) := by
    intro x z
    unfold distance
    rw [Real.sqrt_le_left (abs_nonneg _), sq_abs]
  have hd2 : ∀ x z, (distance x z = |offset| ↔ dist2 x z = offset ^ 2) := by
    intro x z
    unfold distance
    rw [Real.sqrt_eq_iff_mul_self_eq_of_pos (abs_pos.2 hne), abs_mul_abs_self, ← pow_two]
    exact eq_comm
  refine ⟨raw, dual, hb.run, hb.dun, hb.rawClosed, hb.dualClosed, fun x => ?_⟩
  unfold AtDistance
  rw [hb.rawOn, hb.dualOn]
  constructor
  · rintro ⟨hf, z, hz, hdz⟩
    obtain ⟨-, k, hk, hz⟩ := (polygon_onPline hp.closed hp.lines).1 hz
    exact ⟨hb.rawG.either hb.dualG ((notCloser_poly hp.closed hp.lines hp.two').1 hf) hk hz ((hd2 x z).1 hdz), hf⟩
  · rintro ⟨hx, hf⟩
    refine ⟨hf, ?_⟩
    have hf' := (notCloser_poly hp.closed hp.lines hp.two').1 hf
    have key : ∃ k < p.size, ∃ z, OnLine (ppos p k) (ppos p (k + 1)) z ∧ dist2 x z ≤ offset ^ 2 := by
      rcases hx with hx | hx
      · exact hb.rawG.close hx
      · have := hb.dualG.close hx
        rwa [neg_sq] at this
    obtain ⟨k, hk, z, hz, hdz⟩ := key
    exact ⟨z, (polygon_onPline hp.closed hp.lines).2 ⟨hp.two', k, hk, hz⟩, (hd2 x z).2 (le_antisymm hdz (hf' k hk z hz))⟩

/-- **C76.** Of a stretch of a raw offset between the points where it meets itself or the raw offset to the other side,
either all points are at distance `|offset|` from the polygon or all points are closer to it. -/
theorem C76_all_or_nothing {p raw dual : Polyline} {offset : ℝ} (hp : LinePolygon p) (hne : offset ≠ 0)
    (hclear : ClearOffset p offset) (hclear' : ClearOffset p (-offset))
    (hraw : createRawOffsetPline p offset = .ok raw) (hdual : createRawOffsetPline p (-offset) = .ok dual)
    {K : Set V2} (hK : StretchOff raw (MeetsAt raw dual) K) :
    (∀ x ∈ K, AtDistance p |offset| x) ∨ ∀ x ∈ K, Closer p |offset| x := by
  obtain ⟨raw', dual', hr', hd', -, -, hlev⟩ := C76_raw hp hne hclear hclear'
  rw [hraw] at hr'
  rw [hdual] at hd'
  cases hr'
  cases hd'
  obtain ⟨ls, ls', hb⟩ := bothRaw_of hp hne hclear hclear' hraw hdual
  have := hb.rawG.all_or_nothing (γ := fun q : ℝ × ℝ => (⟨q.1, q.2⟩ : V2)) continuous_fst continuous_snd
    hK.connected
    (by
      rintro q ⟨x, hx, rfl⟩ hf
      exact hb.rawG.levelAt hb.dualG hf fun ho =>
        hK.once x hx (Or.inr ⟨hK.along x hx, (hb.dualOn _).2 ho⟩))
    (by
      rintro q ⟨x, hx, rfl⟩
      exact (hb.rawOn _).1 (hK.along x hx))
    (by
      rintro q ⟨x, hx, rfl⟩
      exact hb.rawOnce _ fun h => hK.once x hx (Or.inl h))
  simp only [Set.forall_mem_image] at this
  rcases this with h | h
  · left
    intro x hx
    exact (hlev x).2 ⟨Or.inl (hK.along x hx), (notCloser_poly hp.closed hp.lines hp.two').2 (h hx)⟩
  · right
    intro x hx
    rw [closer_iff, notCloser_poly hp.closed hp.lines hp.two']
    exact h hx

/-- The found intersects of two polylines. -/
theorem intersectsOf {pf : Platform} {p1 p2 : Polyline} (hi : Indexable pf p1) (h1 : PlineOk p1) (h2 : PlineOk p2)
    {s : SIndex ℝ} {d : IntersectsResult} (hs : createApproxSpatialIndex pf p1 = .ok s)
    (hd : findIntersects p1 p2 s ⟨[], []⟩ = .ok d) : IntersectsOf p1 p2 d := by
  obtain ⟨s', d', a1, a2, a3, a4, a5⟩ := C33_findIntersects hi h1 h2
  rw [hs] at a1
  cases a1
  rw [hd] at a2
  cases a2
  exact ⟨a3, a4, a5⟩

/-- What is assumed of an offset of a polygon that may meet itself. -/
structure _root_.Cavc.Spec.BothOffset (pf : Platform) (p raw dual : Polyline) (offset : ℝ) : Prop where
  polygon : LinePolygon p
  large : 1 / 10 ^ 4 ≤ |offset|
  clear : ClearOffset p offset
  clear' : ClearOffset p (-offset)
  index : Indexable pf p
  run : createRawOffsetPline p offset = .ok raw
  dun : createRawOffsetPline p (-offset) = .ok dual
  rawIndex : Indexable pf raw
  rawArcs : LongArcs raw
  dualArcs : LongArcs dual

theorem raw_ok {p raw : Polyline} {offset : ℝ} (hb : BulgesOk p) (hn : NoRepeats p)
    (hraw : createRawOffsetPline p offset = .ok raw) (ha : LongArcs raw) : PlineOk raw := by
  rcases C38_createRawOffsetPline p offset hb hn with ⟨r', h1, h2, -⟩ | ⟨h1, -⟩
  · rw [hraw] at h1
    cases h1
    exact plineOk_long h2 ha
  · rw [hraw] at h1
    cases h1

section
variable {inf ninf : ℝ} {p raw dual : Polyline} {offset : ℝ}

theorem _root_.Cavc.Spec.BothOffset.ne {pf : Platform} (h : BothOffset pf p raw dual offset) : offset ≠ 0 := by
  rintro rfl
  have := h.large
  norm_num at this

theorem _root_.Cavc.Spec.BothOffset.bulges {pf : Platform} (h : BothOffset pf p raw dual offset) : BulgesOk p :=
  fun v hv => by
    have := h.polygon.lines v hv; unfold IsLine at this; linarith [show (1 : ℝ) / 10 ^ 5 ≤ 1 by norm_num]

theorem _root_.Cavc.Spec.BothOffset.rawOk {pf : Platform} (h : BothOffset pf p raw dual offset) : PlineOk raw :=
  raw_ok h.bulges h.clear.repeats h.run h.rawArcs

theorem _root_.Cavc.Spec.BothOffset.dualOk {pf : Platform} (h : BothOffset pf p raw dual offset) : PlineOk dual :=
  raw_ok h.bulges h.clear.repeats h.dun h.dualArcs

theorem _root_.Cavc.Spec.BothOffset.rawClosed {pf : Platform} (h : BothOffset pf p raw dual offset) :
    raw.isClosed = true := by
  obtain ⟨ls, ls', hb⟩ := bothRaw_of h.polygon h.ne h.clear h.clear' h.run h.dun
  exact hb.rawClosed

theorem _root_.Cavc.Spec.BothOffset.level {pf : Platform} (h : BothOffset pf p raw dual offset) (x : V2) :
    AtDistance p |offset| x ↔ (OnPline raw x ∨ OnPline dual x) ∧ NotCloser p |offset| x := by
  obtain ⟨raw', dual', hr', hd', -, -, hlev⟩ := C76_raw h.polygon h.ne h.clear h.clear'
  have e1 := h.run
  have e2 := h.dun
  rw [e1] at hr'
  rw [e2] at hd'
  cases hr'
  cases hd'
  exact hlev x

theorem endCuts_closed {ends : List Cut} (hc : p.isClosed = true) (h : EndCuts p raw offset ends) : ends = [] := by
  unfold EndCuts at h
  rwa [if_pos hc] at h

/-- The offset runs, and its result is made of what is kept between the found intersects. -/
theorem _root_.Cavc.Spec.BothOffset.result {std : StdSort} {hash : HashOrder}
    (h : BothOffset (codePlatform inf ninf) p raw dual offset)
    (hlen : ∀ selfs d, SelfIntersectsOf raw selfs → IntersectsOf raw dual d →
      (selfCuts selfs ++ dualCuts d).length < 2 ^ 24) :
    ∃ r selfs d, parallelOffset (codePlatform inf ninf) std hash p offset true = .ok r ∧ SelfIntersectsOf raw selfs ∧
      IntersectsOf raw dual d ∧
      OffsetResult p raw offset (fun _ => True) (selfCuts selfs ++ dualCuts d) r := by
  have hok : PlineOk p := lines_ok h.polygon.lines
  obtain ⟨r, hr⟩ := C65_parallelOffset_dual (std := std) (hash := hash) inf ninf h.index hok h.bulges h.clear.repeats
    (Or.inr rfl)
    (fun i v1 v2 hs => ⟨line_not_collapses h.polygon.lines h.clear.repeats i v1 v2 hs,
      line_not_collapses h.polygon.lines h.clear.repeats i v1 v2 hs⟩)
    (fun raw' dual' h1 h2 => by
      have e1 := h.run
      have e2 := h.dun
      rw [e1] at h1
      rw [e2] at h2
      cases h1
      cases h2
      refine Or.inr ⟨h.rawIndex, h.rawArcs, h.dualOk, fun selfs s d ends g1 g2 g3 g4 => ?_⟩
      have := endCuts_closed h.polygon.closed g4
      subst this
      exact ⟨hlen selfs d g1 (intersectsOf h.rawIndex h.rawOk h.dualOk g2 g3),
        fun hf => by rw [h.polygon.closed] at hf; cases hf⟩)
  obtain ⟨selfs, s, d, ends, g1, g2, g3, g4, g5⟩ := C59_parallelOffset_dual inf ninf h.index hok h.bulges h.clear.repeats
    (Or.inr rfl) h.run h.dun h.rawIndex h.rawOk h.dualOk hr
  have := endCuts_closed h.polygon.closed g4
  subst this
  exact ⟨r, selfs, d, hr, g1, intersectsOf h.rawIndex h.rawOk h.dualOk g2 g3, g5⟩

/-- **C76.** The parallel offset of a polygon that may meet itself, when its raw offset is found to meet itself and the
raw offset to the other side exactly where it does: the points of the result are at distance `|offset|` from the
polygon, or on parts between cuts that are too close by at most 1e-4 at their vertexes; and all points of the raw offset
that are at that distance are on the result, except for the points where it is cut. -/
theorem C76_parallelOffset {std : StdSort} {hash : HashOrder}
    (h : BothOffset (codePlatform inf ninf) p raw dual offset)
    (hcuts : ∀ selfs d, SelfIntersectsOf raw selfs → IntersectsOf raw dual d →
      selfCuts selfs ++ dualCuts d ≠ [] ∧ CutsAt raw (MeetsAt raw dual) (selfCuts selfs ++ dualCuts d) ∧
        ApartCuts (selfCuts selfs ++ dualCuts d) ∧ (selfCuts selfs ++ dualCuts d).length < 2 ^ 24)
    (hm : ClearMeets p raw offset) :
    ∃ r selfs d, parallelOffset (codePlatform inf ninf) std hash p offset true = .ok r ∧ SelfIntersectsOf raw selfs ∧
      IntersectsOf raw dual d ∧
      (∀ q ∈ r, ∀ x, OnPline q x → OnPline raw x ∧ AtDistance p |offset| x ∨
        ∃ s, ShallowPiece p raw (MeetsAt raw dual) offset (selfCuts selfs ++ dualCuts d) s ∧ OnPline s x) ∧
      ∀ x, OnPline raw x → AtDistance p |offset| x → ¬ MeetsAt raw dual x → ∃ q ∈ r, OnPline q x := by
  obtain ⟨r, selfs, d, hr, hs, hd, -, h1⟩ := h.result (std := std) (hash := hash) fun selfs d a b => (hcuts selfs d a b).2.2.2
  obtain ⟨hne, hex, hap, hlen⟩ := hcuts selfs d hs hd
  obtain ⟨slices, hk, hst⟩ := h1 hne
  obtain ⟨hsok, hsl⟩ := kept_stitchOk h.rawClosed h.rawOk hne hex hap hk
  have hst' := hst (fun hf => by rw [h.polygon.closed] at hf; cases hf) (hsl.trans hlen.le)
  obtain ⟨g1, g2⟩ := kept_pieces_off h.polygon.lines h.large h.rawClosed h.rawOk (fun x hx => Or.inl hx) (fun K hK => by
    rcases C76_all_or_nothing h.polygon h.ne h.clear h.clear' h.run h.dun hK with q | q
    · exact Or.inl fun x hx => (q x hx).1
    · exact Or.inr q) hne hex hm hk
  refine ⟨r, selfs, d, hr, hs, hd, ?_, ?_⟩
  · intro q hq x hx
    obtain ⟨s, hsm, hx⟩ := (stitch_points hst' hsok).1 ⟨q, hq, hx⟩
    rcases g1 s hsm with h' | h'
    · have := h' x hx
      exact Or.inl ⟨this.1, (h.level x).2 ⟨Or.inl this.1, this.2⟩⟩
    · exact Or.inr ⟨_, h', hx⟩
  · intro x hx hx1 hx2
    rcases g2 x hx hx1.1 hx2 with h' | ⟨s, l, -, hl, -⟩
    · exact (stitch_points hst' hsok).2 h'
    · exact absurd trivial hl

/-- **C76.** The offsets of a polygon that may meet itself to both sides, when the raw offsets are found to meet
themselves and each other exactly where they do: together they have all points at distance `|offset|` from the polygon,
except for the points where they are cut; and all their points are at that distance or on parts between cuts that are
too close by at most 1e-4 at their vertexes. -/
theorem C76_both {std : StdSort} {hash : HashOrder}
    (h : BothOffset (codePlatform inf ninf) p raw dual offset)
    (h' : BothOffset (codePlatform inf ninf) p dual raw (-offset))
    (hcuts : ∀ selfs d, SelfIntersectsOf raw selfs → IntersectsOf raw dual d →
      selfCuts selfs ++ dualCuts d ≠ [] ∧ CutsAt raw (MeetsAt raw dual) (selfCuts selfs ++ dualCuts d) ∧
        ApartCuts (selfCuts selfs ++ dualCuts d) ∧ (selfCuts selfs ++ dualCuts d).length < 2 ^ 24)
    (hcuts' : ∀ selfs d, SelfIntersectsOf dual selfs → IntersectsOf dual raw d →
      selfCuts selfs ++ dualCuts d ≠ [] ∧ CutsAt dual (MeetsAt dual raw) (selfCuts selfs ++ dualCuts d) ∧
        ApartCuts (selfCuts selfs ++ dualCuts d) ∧ (selfCuts selfs ++ dualCuts d).length < 2 ^ 24)
    (hm : ClearMeets p raw offset) (hm' : ClearMeets p dual (-offset)) :
    ∃ r r' cuts cuts', parallelOffset (codePlatform inf ninf) std hash p offset true = .ok r ∧
      parallelOffset (codePlatform inf ninf) std hash p (-offset) true = .ok r' ∧
      (∀ q ∈ r ++ r', ∀ x, OnPline q x → AtDistance p |offset| x ∨
        (∃ s, ShallowPiece p raw (MeetsAt raw dual) offset cuts s ∧ OnPline s x) ∨
        ∃ s, ShallowPiece p dual (MeetsAt dual raw) (-offset) cuts' s ∧ OnPline s x) ∧
      ∀ x, AtDistance p |offset| x → ¬ MeetsAt raw dual x → ¬ MeetsAt dual raw x → ∃ q ∈ r ++ r', OnPline q x := by
  obtain ⟨r, selfs, d, hr, -, -, h1, h2⟩ := C76_parallelOffset (std := std) (hash := hash) h hcuts hm
  obtain ⟨r', selfs', d', hr', -, -, h1', h2'⟩ := C76_parallelOffset (std := std) (hash := hash) h' hcuts' hm'
  rw [abs_neg] at h1' h2'
  refine ⟨r, r', selfCuts selfs ++ dualCuts d, selfCuts selfs' ++ dualCuts d', hr, hr', ?_, ?_⟩
  · intro q hq x hx
    rcases List.mem_append.1 hq with hq | hq
    · rcases h1 q hq x hx with g | g
      · exact Or.inl g.2
      · exact Or.inr (Or.inl g)
    · rcases h1' q hq x hx with g | g
      · exact Or.inl g.2
      · exact Or.inr (Or.inr g)
  · intro x hx g1 g2
    rcases ((h.level x).1 hx).1 with g | g
    · obtain ⟨q, hq, ho⟩ := h2 x g hx g1
      exact ⟨q, List.mem_append.2 (Or.inl hq), ho⟩
    · obtain ⟨q, hq, ho⟩ := h2' x g hx g2
      exact ⟨q, List.mem_append.2 (Or.inr hq), ho⟩

/-- **C76.** When a raw offset meets neither itself nor the raw offset to the other side, and no intersects are found,
the offset is the raw offset, and all of it is at distance `|offset|` from the polygon; or it is empty, and no point of
the raw offset is at that distance; except that then it is still taken if its first vertex is only 1e-4 too close. -/
theorem C76_uncut {std : StdSort} {hash : HashOrder}
    (h : BothOffset (codePlatform inf ninf) p raw dual offset) (honce : ∀ x, ¬ MeetsAt raw dual x)
    (hcuts : ∀ selfs d, SelfIntersectsOf raw selfs → IntersectsOf raw dual d → selfCuts selfs ++ dualCuts d = []) :
    ∃ r, parallelOffset (codePlatform inf ninf) std hash p offset true = .ok r ∧
      ((r = [raw] ∧ ∀ x, OnPline raw x → AtDistance p |offset| x) ∨
       ((∀ x, OnPline raw x → ¬ AtDistance p |offset| x) ∧
        (r = [] ∨ r = [raw] ∧ ∃ v, raw.vertexes.head? = some v ∧ Clear p (|offset| - 1 / 10 ^ 4) v.pos))) := by
  obtain ⟨r, selfs, d, hr, hs, hd, h1, -⟩ := h.result (std := std) (hash := hash) fun selfs d a b => by
    rw [hcuts selfs d a b]; norm_num
  obtain ⟨v, hv, hr'⟩ := h1 (hcuts selfs d hs hd)
  refine ⟨r, hr, ?_⟩
  have hrr : (⟨p.isClosed, raw.vertexes⟩ : Polyline) = raw := by rw [h.polygon.closed, ← h.rawClosed]
  rw [hrr] at hr'
  have hvon : OnPline raw v.pos := by
    have h2 : 2 ≤ raw.size := h.rawIndex.size
    have hs := closed_isSeg h.rawClosed h2 (k := 0) (by omega)
    have : vtx raw 0 = v := by
      unfold vtx
      rw [List.getD_eq_getElem?_getD, ← List.head?_eq_getElem?, hv]
      rfl
    rw [this] at hs
    exact ⟨0, _, _, hs, onSeg_start _ _⟩
  have hK : StretchOff raw (MeetsAt raw dual) {x | OnPline raw x} :=
    ⟨connected_pline raw, fun x hx => hx, fun x _ => honce x⟩
  rcases C76_all_or_nothing h.polygon h.ne h.clear h.clear' h.run h.dun hK with q | q
  · left
    refine ⟨?_, fun x hx => q x hx⟩
    rw [hr', if_pos (farEnough_of_notCloser h.polygon.lines h.large (q _ hvon).1)]
  · right
    refine ⟨fun x hx ha => closer_iff.1 (q x hx) ha.1, ?_⟩
    by_cases hf : FarEnough p offset v.pos
    · right
      rw [if_pos hf] at hr'
      exact ⟨hr', v, hv, clear_of_valid (lines_ok h.polygon.lines) (by linarith [h.large]) hf⟩
    · left
      rw [if_neg hf] at hr'
      exact hr'

end
end
end Cavc

import Verif.Proofs.CutPiece
import Verif.Proofs.StitchPts
import Verif.Props.OffsetPolygonKept
import Verif.Props.OffsetTotal

/-! C64: the parallel offset of a simple polygon when the raw offset meets itself. -/
namespace Cavc
open Spec
open scoped Classical
noncomputable section

theorem cutsAt_perm {p : Polyline} {Q : V2 → Prop} {cs cuts : List Cut} (h : cs.Perm cuts) (hex : CutsAt p Q cuts) :
    CutsAt p Q cs := by
  refine ⟨cleanCuts_perm h hex.toCleanCuts, fun c hc => hex.only c (h.mem_iff.1 hc), fun k v e x h1 h2 h3 => ?_⟩
  obtain ⟨c, hc, h4⟩ := hex.complete k v e x h1 h2 h3
  exact ⟨c, h.mem_iff.2 hc, h4⟩

theorem exactCuts_perm {p : Polyline} {cs cuts : List Cut} (h : cs.Perm cuts) (hex : ExactCuts p cuts) :
    ExactCuts p cs := cutsAt_perm h hex

theorem cutPiece_perm {p s : Polyline} {Q : V2 → Prop} {cs cuts : List Cut} (h : cs.Perm cuts) (hp : PieceOff p Q cs s) :
    PieceOff p Q cuts s :=
  ⟨fun x hx => by obtain ⟨c, hc, e⟩ := hp.ends x hx; exact ⟨c, h.mem_iff.1 hc, e⟩, hp.along, hp.proper, hp.once, hp.whole⟩

/-- Not to be closer than a distance carries over to the ends of a part of the path. -/
theorem notCloser_closure {p raw : Polyline} {d a b : ℝ} (ha : 0 ≤ a) (hab : a < b)
    (h : ∀ y, a < y → y < b → NotCloser p d (trace raw y)) {y : ℝ} (h0 : a ≤ y) (h1 : y ≤ b) :
    NotCloser p d (trace raw y) := by
  intro z hz
  obtain ⟨N, hN⟩ := exists_nat_ge b
  have hcont : ContinuousOn (fun y => distance (trace raw y) z) (Set.Icc 0 N) := by
    have h2 := trace_cont raw N
    have hx : ContinuousOn (fun y => (trace raw y).x) (Set.Icc 0 N) := continuous_fst.comp_continuousOn h2
    have hy : ContinuousOn (fun y => (trace raw y).y) (Set.Icc 0 N) := continuous_snd.comp_continuousOn h2
    unfold distance dist2
    fun_prop
  have hcl : y ∈ closure (Set.Ioo a b) := by
    rw [closure_Ioo hab.ne]
    exact ⟨h0, h1⟩
  have hw : ContinuousWithinAt (fun y => distance (trace raw y) z) (Set.Ioo a b) y :=
    (hcont y ⟨ha.trans h0, h1.trans hN⟩).mono fun g hg => ⟨ha.trans hg.1.le, hg.2.le.trans hN⟩
  exact ContinuousWithinAt.closure_le hcl continuousWithinAt_const hw
    fun g hg => h g hg.1 hg.2 z hz

section
variable {p raw : Polyline} {offset : ℝ} {Q : V2 → Prop} {cs : List Cut} {T : Cut → ℝ} {g : ℕ → ℝ}

theorem Along.two_far {a b : ℝ} {u w : Vertex} (h : Along raw a [u, w] b) : u.pos ≠ w.pos := by
  obtain ⟨k, s, t, -, -, -, h1, -⟩ := h
  exact ne_of_not_near (by norm_num) h1.far

/-- The ends of a piece are cuts. -/
theorem Shape.ends {i : ℕ} {s : Polyline} (hs : Shape raw cs g i s) (h : CutPos raw cs T g) (hne : cs ≠ [])
    (hi : i < cs.length) : ∃ a b, Ends s.vertexes a b ∧ a = trace raw (g i) ∧ b = trace raw (g (i + 1)) ∧
      (∃ c ∈ cs, c.pos = a) ∧ (∃ c ∈ cs, c.pos = b) ∧ (s.vertexes.length = 2 → a ≠ b) := by
  obtain ⟨u, e1, e2⟩ := hs.along.head
  obtain ⟨w, e3, e4⟩ := hs.along.last
  have hlt : (i + 1) % cs.length < cs.length := Nat.mod_lt _ (by omega)
  refine ⟨u.pos, w.pos, ⟨u, w, e1, e3, rfl, rfl⟩, e2, e4, ⟨cs[i], List.getElem_mem _, ?_⟩,
    ⟨cs[(i + 1) % cs.length], List.getElem_mem _, ?_⟩, ?_⟩
  · rw [e2, h.trace (List.getElem?_eq_getElem hi)]
  · rw [e4, h.trace_next hne hi (List.getElem?_eq_getElem hlt)]
  · intro h2
    obtain ⟨x, y, hxy⟩ := List.length_eq_two.1 h2
    have ha := hs.along
    rw [hxy] at e1 e3 ha
    cases e1
    cases e3
    exact ha.two_far

theorem isEnd_of {s : Polyline} {a b x : V2} (h : Ends s.vertexes a b) : IsEnd s x ↔ x = a ∨ x = b := by
  obtain ⟨u, w, e1, e2, rfl, rfl⟩ := h
  unfold IsEnd
  rw [e1, e2]
  constructor
  · rintro ⟨v, hv | hv, rfl⟩
    · cases hv; exact Or.inl rfl
    · cases hv; exact Or.inr rfl
  · rintro (rfl | rfl)
    · exact ⟨_, Or.inl rfl, rfl⟩
    · exact ⟨_, Or.inr rfl, rfl⟩

/-- Either a whole piece keeps the distance or all of it but its ends is too close. -/
theorem piece_all_or_nothing
    (hall : ∀ K, StretchOff raw Q K → (∀ x ∈ K, NotCloser p |offset| x) ∨ ∀ x ∈ K, Closer p |offset| x)
    (hc : raw.isClosed = true) (h2 : 2 ≤ raw.size)
    (hok : PlineOk raw) (hex : CutsAt raw Q cs) (hne : cs ≠ []) (h : CutPos raw cs T g) {i : ℕ}
    (hi : i < cs.length) :
    (∀ y, g i ≤ y → y ≤ g (i + 1) → NotCloser p |offset| (trace raw y)) ∨
      ∀ y, g i < y → y < g (i + 1) → Closer p |offset| (trace raw y) := by
  have hg0 : 0 ≤ g i := (h.nonneg hne).le.trans (h.le (Nat.zero_le i) hi.le)
  have hK : StretchOff raw Q (trace raw '' Set.Ioo (g i) (g (i + 1))) := by
    refine ⟨trace_conn raw hg0, ?_, ?_⟩
    · rintro x ⟨y, hy, rfl⟩
      exact trace_onPline hc h2 (hg0.trans hy.1.le)
    · rintro x ⟨y, hy, rfl⟩
      exact h.once hc h2 hok hex hne hi hy.1 hy.2
  rcases hall _ hK with hh | hh
  · left
    intro y y0 y1
    exact notCloser_closure hg0 (h.mono i hi) (fun z z0 z1 => hh _ ⟨z, ⟨z0, z1⟩, rfl⟩) y0 y1
  · right
    intro y y0 y1
    exact hh _ ⟨y, ⟨y0, y1⟩, rfl⟩

/-- A piece that keeps the distance passes the tests. -/
theorem passes_of (hl : ∀ v ∈ p.vertexes, IsLine v) (ho : 1 / 10 ^ 4 ≤ |offset|) (hm : ClearMeets p raw offset)
    (hc : raw.isClosed = true) (h2 : 2 ≤ raw.size) {a b : ℝ}
    (h : ∀ y, a ≤ y → y ≤ b → NotCloser p |offset| (trace raw y)) : Passes p raw offset a b := by
  refine ⟨fun y y0 y1 => farEnough_of_notCloser hl ho (h y y0 y1), ?_⟩
  intro k s t u w hs ht hka hkb hsub
  refine hm _ _ _ u w (rv_seg hc h2 k) ⟨hsub.kind, fun x hx => ?_, hsub.ok, hsub.far, fun hn c hcen => ?_⟩ fun x hx => ?_
  · obtain ⟨z, z0, z1, rfl⟩ := hsub.onSeg.1 hx
    exact onSeg_segPt.2 ⟨z, by linarith, by linarith, rfl⟩
  · exact hsub.center hn hcen
  obtain ⟨z, z0, z1, rfl⟩ := hsub.onSeg.1 hx
  have := h (k + z) (by linarith) (by linarith)
  rwa [trace_on (k := k) (by linarith) (by linarith), add_sub_cancel_left] at this

end

/-- What is kept of a raw offset that is cut at the points `Q`. -/
theorem kept_pieces_off {p raw : Polyline} {offset : ℝ} {Q : V2 → Prop} (hpl : ∀ v ∈ p.vertexes, IsLine v)
    (ho : 1 / 10 ^ 4 ≤ |offset|) (hrc : raw.isClosed = true) (hro : PlineOk raw)
    (hQ : ∀ x, PassedTwice raw x → Q x)
    (hall : ∀ K, StretchOff raw Q K → (∀ x ∈ K, NotCloser p |offset| x) ∨ ∀ x ∈ K, Closer p |offset| x)
    {cuts : List Cut} (hne : cuts ≠ []) (hex : CutsAt raw Q cuts) (hm : ClearMeets p raw offset)
    {long : Polyline → Prop} {slices : List OpenSlice} (hk : KeptPieces p raw offset long cuts slices) :
    (∀ s ∈ slices, (∀ x, OnPline s.pline x → OnPline raw x ∧ NotCloser p |offset| x) ∨
      ShallowPiece p raw Q offset cuts s.pline) ∧
    ∀ x, OnPline raw x → NotCloser p |offset| x → ¬ Q x →
      (∃ s ∈ slices, OnPline s.pline x) ∨ ∃ s l, PieceOff raw Q cuts s ∧ ¬ long s ∧
        (∀ x, OnPline s x → OnPline raw x ∧ NotCloser p |offset| x) ∧ getPathLength s = .ok l ∧
        (∀ x y, OnPline s x → OnPline s y → distance x y ≤ l) ∧ OnPline s x := by
  obtain ⟨cs, first, os, k1, k2, k3, k4, k5, k6⟩ := hk
  have hex' := cutsAt_perm k1 hex
  have hne' : cs ≠ [] := by rintro rfl; exact hne (List.nil_perm.1 k1)
  have h2 : 2 ≤ raw.size := by
    obtain ⟨c, hcm⟩ := List.exists_mem_of_ne_nil _ hne
    obtain ⟨v, e, t, hs, -⟩ := hex.inside c hcm
    exact (seg_rv hrc hs).2.1
  obtain ⟨T, g, hpos⟩ := exists_cutPos hrc h2 hro hex'.toCleanCuts k2 hne'
  have hfirst : first = none := by
    cases hf : first with
    | none => rfl
    | some s =>
      have := ((k5 s).1 hf).1
      rw [hrc] at this
      cases this
  have hpiece := fun {i : ℕ} (hi : i < cs.length) => piece_all_or_nothing hall hrc h2 hro hex' hne' hpos hi
  have hg0 : ∀ i y, i < cs.length → g i ≤ y → 0 ≤ y := fun i y hi h0 =>
    ((hpos.nonneg hne').le.trans (hpos.le (Nat.zero_le i) hi.le)).trans h0
  constructor
  · intro s hs
    rw [k6.mem_iff, hfirst] at hs
    simp only [Option.toList_none, List.map_nil, List.nil_append, List.mem_filterMap] at hs
    obtain ⟨⟨c, o⟩, hco, hs⟩ := hs
    obtain ⟨i, hi, hio⟩ := List.getElem_of_mem hco
    rw [List.getElem_zip] at hio
    rw [List.length_zip] at hi
    cases hio
    obtain ⟨q, hq, rfl⟩ := Option.map_eq_some_iff.1 hs
    have hkp := (k4 i _ (List.getElem?_eq_getElem (by omega)) q).1 hq
    have hi' : i < cs.length := by omega
    obtain ⟨q', hsh⟩ := hpos.shape hrc h2 hro hex'.toCleanCuts hi'
    obtain ⟨rfl, hfar⟩ := hsh.only _ _ _ _ hkp
    have hopen : (⟨false, q.vertexes⟩ : Polyline) = q := by rw [← hsh.isOpen]
    have hon := hsh.along.onPline hsh.two
    rw [hopen] at hon
    simp only
    rcases hpiece hi' with hh | hh
    · left
      intro x hx
      obtain ⟨y, y0, y1, rfl⟩ := (hon x).1 hx
      exact ⟨trace_onPline hrc h2 (hg0 i y hi' y0), hh y y0 y1⟩
    · right
      obtain ⟨a, b, he, ha, hb, hca, hcb, -⟩ := hsh.ends hpos hne' hi'
      obtain ⟨c1, c2, -⟩ := hsh.cutPiece hpos hrc h2 hro hQ hex' hne' hi'
      refine ⟨cutPiece_perm k1 c1, ?_, ?_⟩
      · intro v hv hon
        rcases List.mem_append.1 hv with hv | hv
        · exact hfar v hv
        · obtain ⟨w, hw, e⟩ := c2 v hv hon
          rw [← e]
          exact hfar w hw
      · intro x hx
        obtain ⟨y, y0, y1, rfl⟩ := (hon x).1 hx
        rcases y0.lt_or_eq with y0 | rfl
        · rcases y1.lt_or_eq with y1 | rfl
          · exact Or.inl (hh y y0 y1)
          · exact Or.inr ((isEnd_of he).2 (Or.inr hb.symm))
        · exact Or.inr ((isEnd_of he).2 (Or.inl ha.symm))
  · intro x hxr hx hx1
    obtain ⟨y, y0, y1, rfl⟩ := (onPline_trace hrc h2).1 hxr
    obtain ⟨i, hi, y', z0, z1, e⟩ := hpos.cover hne' y0 y1
    rw [← e] at hx hx1 ⊢
    clear e y0 y1 hxr
    have hlt : (i + 1) % cs.length < cs.length := Nat.mod_lt _ (by omega)
    have w0 : g i < y' := by
      rcases z0.lt_or_eq with h | rfl
      · exact h
      · rw [hpos.trace (List.getElem?_eq_getElem hi)] at hx1
        exact absurd (hex'.only _ (List.getElem_mem _)) hx1
    have w1 : y' < g (i + 1) := by
      rcases z1.lt_or_eq with h | rfl
      · exact h
      · rw [hpos.trace_next hne' hi (List.getElem?_eq_getElem hlt)] at hx1
        exact absurd (hex'.only _ (List.getElem_mem _)) hx1
    obtain ⟨s, hsh⟩ := hpos.shape hrc h2 hro hex'.toCleanCuts hi
    have hopen : (⟨false, s.vertexes⟩ : Polyline) = s := by rw [← hsh.isOpen]
    have hon := hsh.along.onPline hsh.two
    rw [hopen] at hon
    rcases hpiece hi with hh | hh
    · by_cases hl : long s
      · left
        have hkp := hsh.kept p offset long (passes_of hpl ho hm hrc h2 hh) hl
        have hio : i < os.length := by omega
        have hq := (k4 i _ (List.getElem?_eq_getElem hio) s).2 hkp
        refine ⟨⟨cs[i].seg, s⟩, ?_, (hon _).2 ⟨y', z0, z1, rfl⟩⟩
        rw [k6.mem_iff, hfirst]
        simp only [Option.toList_none, List.map_nil, List.nil_append, List.mem_filterMap]
        refine ⟨(cs[i], os[i]), ?_, by rw [hq]; rfl⟩
        rw [List.mem_iff_getElem]
        exact ⟨i, by rw [List.length_zip]; omega, List.getElem_zip⟩
      · right
        obtain ⟨c1, -, l, c3, c4⟩ := hsh.cutPiece hpos hrc h2 hro hQ hex' hne' hi
        refine ⟨s, l, cutPiece_perm k1 c1, hl, ?_, c3, c4, (hon _).2 ⟨y', z0, z1, rfl⟩⟩
        intro x hx
        obtain ⟨y, y0, y1, rfl⟩ := (hon x).1 hx
        exact ⟨trace_onPline hrc h2 (hg0 i y hi y0), hh y y0 y1⟩
    · exact absurd hx (closer_iff.1 (hh y' w0 w1))

/-- **C64.** When the raw offset of a simple polygon is cut exactly where it meets itself: each piece that is
kept is on the exact offset as a whole, unless it is nowhere on it (except at its ends) and still not too
close by more than 1e-4 at its vertexes; and of the exact offset everything is kept but loops of length up to
1/100 (points where the raw offset meets itself aside, they are ends of pieces). -/
theorem C64_kept_pieces {p raw : Polyline} {offset : ℝ} (hp : SimplePolygon p) (ho : 1 / 10 ^ 4 ≤ |offset|)
    (hclear : ClearOffset p offset) (hraw : createRawOffsetPline p offset = .ok raw) (hro : PlineOk raw)
    {cuts : List Cut} (hne : cuts ≠ []) (hex : ExactCuts raw cuts) (hm : ClearMeets p raw offset)
    {slices : List OpenSlice} (hk : KeptPieces p raw offset LongLoop cuts slices) :
    (∀ s ∈ slices, (∀ x, OnPline s.pline x → AtOffset p offset x) ∨ Shallow p raw offset cuts s.pline) ∧
    ∀ x, AtOffset p offset x → ¬ PassedTwice raw x →
      (∃ s ∈ slices, OnPline s.pline x) ∨ ∃ s, ShortLoop p raw offset cuts s ∧ OnPline s x := by
  have hne0 : offset ≠ 0 := by rintro rfl; norm_num at ho
  obtain ⟨raw', hrun', hrc, hr2, hlev⟩ := C62_level hp hne0 hclear
  rw [hraw] at hrun'
  cases hrun'
  obtain ⟨g1, g2⟩ := kept_pieces_off hp.lines ho hrc hro (fun x h => h) (fun K hK => by
    rcases C63_all_or_nothing hp hne0 hclear hraw hK with h | h
    · exact Or.inl fun x hx => (h x hx).2.1
    · exact Or.inr h) hne hex hm hk
  constructor
  · intro s hs
    rcases g1 s hs with h | h
    · exact Or.inl fun x hx => (hlev x).2 (h x hx)
    · exact Or.inr h
  · intro x hx hx1
    rcases g2 x ((hlev x).1 hx).1 ((hlev x).1 hx).2 hx1 with h | ⟨s, l, c1, hl, c2, c3, c4, c5⟩
    · exact Or.inl h
    · right
      unfold LongLoop at hl
      rw [Classical.not_imp] at hl
      have hle : l ≤ 1 / 10 ^ 2 := by
        by_contra q
        exact hl.2 ⟨l, c3, not_le.1 q⟩
      exact ⟨s, ⟨c1, fun x hx => (hlev x).2 (c2 x hx), ⟨hl.1, l, c3, hle⟩, fun x y hx hy => (c4 x y hx hy).trans hle⟩, c5⟩

/-- The ends of kept pieces are cuts. -/
theorem kept_stitchOk {p raw : Polyline} {offset : ℝ} {Q : V2 → Prop} (hrc : raw.isClosed = true) (hro : PlineOk raw)
    {cuts : List Cut} (hne : cuts ≠ []) (hex : CutsAt raw Q cuts) (hap : ApartCuts cuts)
    {long : Polyline → Prop} {slices : List OpenSlice} (hk : KeptPieces p raw offset long cuts slices) :
    StitchOk slices ∧ slices.length ≤ cuts.length := by
  obtain ⟨cs, first, os, k1, k2, k3, k4, k5, k6⟩ := hk
  have hex' := cutsAt_perm k1 hex
  have hne' : cs ≠ [] := by rintro rfl; exact hne (List.nil_perm.1 k1)
  have h2 : 2 ≤ raw.size := by
    obtain ⟨c, hcm⟩ := List.exists_mem_of_ne_nil _ hne
    obtain ⟨v, e, t, hs, -⟩ := hex.inside c hcm
    exact (seg_rv hrc hs).2.1
  obtain ⟨T, g, hpos⟩ := exists_cutPos hrc h2 hro hex'.toCleanCuts k2 hne'
  have hfirst : first = none := by
    cases hf : first with
    | none => rfl
    | some s =>
      have := ((k5 s).1 hf).1
      rw [hrc] at this
      cases this
  have key : ∀ s ∈ slices, s.pline.isClosed = false ∧ 2 ≤ s.pline.vertexes.length ∧
      ∃ a b, Ends s.pline.vertexes a b ∧ (s.pline.vertexes.length = 2 → a ≠ b) ∧ (∃ c ∈ cuts, c.pos = a) ∧
        ∃ c ∈ cuts, c.pos = b := by
    intro s hs
    rw [k6.mem_iff, hfirst] at hs
    simp only [Option.toList_none, List.map_nil, List.nil_append, List.mem_filterMap] at hs
    obtain ⟨⟨c, o⟩, hco, hs⟩ := hs
    obtain ⟨i, hi, hio⟩ := List.getElem_of_mem hco
    rw [List.getElem_zip] at hio
    rw [List.length_zip] at hi
    cases hio
    obtain ⟨q, hq, rfl⟩ := Option.map_eq_some_iff.1 hs
    have hkp := (k4 i _ (List.getElem?_eq_getElem (by omega)) q).1 hq
    have hi' : i < cs.length := by omega
    obtain ⟨q', hsh⟩ := hpos.shape hrc h2 hro hex'.toCleanCuts hi'
    obtain ⟨rfl, -⟩ := hsh.only _ _ _ _ hkp
    obtain ⟨a, b, he, -, -, ⟨c1, m1, e1⟩, ⟨c2, m2, e2⟩, h3⟩ := hsh.ends hpos hne' hi'
    exact ⟨hsh.isOpen, hsh.two, a, b, he, h3, ⟨c1, k1.mem_iff.1 m1, e1⟩, c2, k1.mem_iff.1 m2, e2⟩
  have huniq : ∀ {vs : List Vertex} {a b a' b' : V2}, Ends vs a b → Ends vs a' b' → a = a' ∧ b = b' := by
    rintro vs a b a' b' ⟨u, w, e1, e2, rfl, rfl⟩ ⟨u', w', e1', e2', rfl, rfl⟩
    rw [e1] at e1'; cases e1'
    rw [e2] at e2'; cases e2'
    exact ⟨rfl, rfl⟩
  refine ⟨⟨fun s hs => ⟨(key s hs).1, (key s hs).2.1⟩, fun s hs => ?_, ?_⟩, ?_⟩
  · obtain ⟨-, -, a, b, h1, h2, -⟩ := key s hs
    exact ⟨a, b, h1, h2⟩
  · intro s hs s' hs' a b a' b' he he' hx hy
    obtain ⟨-, -, a0, b0, h1, -, -, c2, m2, e2⟩ := key s hs
    obtain ⟨-, -, a0', b0', h1', -, ⟨c1, m1, e1⟩, -⟩ := key s' hs'
    obtain ⟨rfl, rfl⟩ := huniq he h1
    obtain ⟨rfl, rfl⟩ := huniq he' h1'
    rw [← e2, ← e1] at hx hy ⊢
    exact hap c2 m2 c1 m1 hx hy
  · rw [k6.length_eq, hfirst]
    simp only [Option.toList_none, List.map_nil, List.nil_append]
    refine (List.length_filterMap_le _ _).trans ?_
    rw [List.length_zip, ← k1.length_eq]
    omega

/-- **C64.** The parallel offset of a simple polygon whose raw offset is found to meet itself exactly where it
does: the points of the result are points of the exact offset, or of parts between cuts that are too close by at most 1e-4 at
their vertexes; and all points of the exact offset are on the result, except for loops of length up to 1/100 and
for points where the raw offset meets itself. -/
theorem C64_parallelOffset {std : StdSort} {hash : HashOrder} (inf ninf : ℝ) {p raw : Polyline} {offset : ℝ}
    (hp : SimplePolygon p) (ho : 1 / 10 ^ 4 ≤ |offset|) (hclear : ClearOffset p offset)
    (hi : Indexable (codePlatform inf ninf) p) (hraw : createRawOffsetPline p offset = .ok raw)
    (hri : Indexable (codePlatform inf ninf) raw) (ha : LongArcs raw)
    (hself : ∀ l, SelfIntersectsOf raw l → l ≠ [] ∧ ExactCuts raw (selfCuts l) ∧ ApartCuts (selfCuts l) ∧
      (selfCuts l).length ≤ 2 ^ 24)
    (hm : ClearMeets p raw offset) :
    ∃ r selfs, parallelOffset (codePlatform inf ninf) std hash p offset = .ok r ∧ SelfIntersectsOf raw selfs ∧
      (∀ q ∈ r, ∀ x, OnPline q x →
        AtOffset p offset x ∨ ∃ s, Shallow p raw offset (selfCuts selfs) s ∧ OnPline s x) ∧
      ∀ x, AtOffset p offset x → ¬ PassedTwice raw x →
        (∃ q ∈ r, OnPline q x) ∨ ∃ s, ShortLoop p raw offset (selfCuts selfs) s ∧ OnPline s x := by
  have hne : offset ≠ 0 := by rintro rfl; norm_num at ho
  have hok : PlineOk p := lines_ok hp.lines
  have hb : BulgesOk p := fun v hv => by
    have := hp.lines v hv; unfold IsLine at this; linarith [show (1 : ℝ) / 10 ^ 5 ≤ 1 by norm_num]
  have hro : PlineOk raw := by
    rcases C38_createRawOffsetPline p offset hb hclear.repeats with ⟨r', h1, h2, -⟩ | ⟨h1, -⟩
    · rw [hraw] at h1
      cases h1
      exact plineOk_long h2 ha
    · rw [hraw] at h1
      cases h1
  obtain ⟨r, hr⟩ := C65_parallelOffset (std := std) (hash := hash) inf ninf hi hok hb hclear.repeats hp.closed
    (line_not_collapses hp.lines hclear.repeats) (fun raw' h => by
      rw [hraw] at h
      cases h
      exact Or.inr ⟨hri, ha, fun l hl => (hself l hl).2.2.2⟩)
  obtain ⟨selfs, hs, -, h1⟩ := C59_parallelOffset inf ninf hi hok hb
    hclear.repeats hp.closed hraw hri hro hr
  obtain ⟨hl, hex, hap, hlen⟩ := hself selfs hs
  have hcne : selfCuts selfs ≠ [] := by
    obtain ⟨x, l, rfl⟩ := List.exists_cons_of_ne_nil hl
    simp [selfCuts]
  obtain ⟨slices, hk, hst⟩ := h1 hcne
  obtain ⟨raw', hrun', hrc, -, -⟩ := C62_level hp hne hclear
  rw [hraw] at hrun'
  cases hrun'
  obtain ⟨hsok, hsl⟩ := kept_stitchOk hrc hro hcne hex hap hk
  have hst' := hst (fun hf => by rw [hp.closed] at hf; cases hf) (hsl.trans hlen)
  obtain ⟨g1, g2⟩ := C64_kept_pieces hp ho hclear hraw hro hcne hex hm hk
  refine ⟨r, selfs, hr, hs, ?_, ?_⟩
  · intro q hq x hx
    obtain ⟨s, hsm, hx⟩ := (stitch_points hst' hsok).1 ⟨q, hq, hx⟩
    rcases g1 s hsm with h | h
    · exact Or.inl (h x hx)
    · exact Or.inr ⟨_, h, hx⟩
  · intro x hx hx1
    rcases g2 x hx hx1 with h | h
    · exact Or.inl ((stitch_points hst' hsok).2 h)
    · exact Or.inr h

end
end Cavc

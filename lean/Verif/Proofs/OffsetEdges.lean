import Verif.Proofs.OffsetRegion
import Verif.Proofs.ArcPlanar
import Verif.Props.OffsetExact

/-! The kept pieces of the raw offset of a polygon, or all of it, as segments that make up the exact offset. -/
namespace Cavc
open Spec
open scoped Classical
noncomputable section

/-- Consecutive vertexes of the raw offset are apart. -/
theorem raw_far {p raw : Polyline} {offset : ℝ} (hp : SimplePolygon p) (hclear : ClearOffset p offset)
    (hraw : createRawOffsetPline p offset = .ok raw) (k : ℕ) : ¬ Near (1 / 10 ^ 5) (rv raw k).pos (rv raw (k + 1)).pos := by
  obtain ⟨raw', ls, hrun', hc, hls, hr⟩ := C62_raw hp.closed hp.lines hp.two hclear
  rw [hraw] at hrun'
  cases hrun'
  have hap := hclear.apart (ls.map (List.map Vertex.pos)) ⟨by rw [List.length_map]; exact hls.1, by
    intro i a b c h
    obtain ⟨l, h1, h2⟩ := hls.2 i a b c h
    exact ⟨_, by rw [List.getElem?_map, h1]; rfl, h2.1⟩⟩
  rw [← List.map_flatten] at hap
  have hkinds := RoundsAll.kinds hp.closed hp.two' hls
  generalize hF : ls.flatten = F at hr hap
  have hN : 0 < F.length := by
    rw [← hF]
    have h2 := hp.two'
    have h0 : 0 < ls.length := by rw [hls.1]; exact (by omega : 0 < p.size)
    have hm : ls[0] ∈ ls := List.getElem_mem _
    rw [List.length_pos_iff]
    intro he
    have := List.flatten_eq_nil_iff.1 he _ hm
    rcases hkinds _ hm with ⟨v, e⟩ | ⟨w, w', e⟩ <;> rw [e] at this <;> simp at this
  obtain ⟨N, hNe⟩ : ∃ N, N = F.length := ⟨_, rfl⟩
  have hs : raw.size = N := by
    show raw.vertexes.length = N
    rw [hr, List.length_rotate, hNe]
  have hget : ∀ j (hj : (j % N + (N - 1)) % N < F.length), rv raw j = F[(j % N + (N - 1)) % N] := by
    intro j hj
    unfold rv vtx
    rw [hs, hr, List.getD_eq_getElem?_getD, List.getElem?_rotate (by rw [← hNe]; exact Nat.mod_lt _ (by omega))]
    rw [← hNe, List.getElem?_eq_getElem hj]
    rfl
  have hlt : ∀ j, (j % N + (N - 1)) % N < F.length := fun j => by rw [hNe]; exact Nat.mod_lt _ (by omega)
  have hkN : k % N < N := Nat.mod_lt _ (by omega)
  have e2 : ((k + 1) % N + (N - 1)) % N = k % N := by
    rw [Nat.mod_add_mod, show k + 1 + (N - 1) = k + N by omega, Nat.add_mod_right]
  have e1 : ((k % N + (N - 1)) % N + 1) % N = k % N := by
    rw [Nat.mod_add_mod, show k % N + (N - 1) + 1 = k % N + N by omega, Nat.add_mod_right, Nat.mod_mod]
  rw [hget k (hlt k), hget (k + 1) (hlt (k + 1))]
  refine hap (_, _) ?_
  rw [List.mem_iff_getElem]
  refine ⟨(k % N + (N - 1)) % N, by rw [List.length_zip, List.length_rotate, List.length_map, min_self]; exact hlt k, ?_⟩
  rw [List.getElem_zip, List.getElem_rotate]
  simp only [List.getElem_map, List.length_map, ← hNe, e1, e2]

theorem Ranged.once {p : Polyline} (hc : p.isClosed = true) (h2 : 2 ≤ p.size) (hok : PlineOk p)
    (hne : ∀ k, (rv p k).pos ≠ (rv p (k + 1)).pos) {a b c d : ℝ} {e f : Vertex × V2} (h : Ranged p a b e)
    (h' : Ranged p c d f) (h0 : 0 ≤ a) (hbc : b ≤ c) (hd : d ≤ a + p.size) {z : V2} (ho : ¬ PassedTwice p z)
    (hv : ∀ k, z ≠ (rv p k).pos) (h1 : z ≠ e.1.pos) (h3 : z ≠ e.2) (hz : eOn z e) : ¬ eOn z f := by
  intro hz'
  obtain ⟨g, g0, g1, rfl⟩ := (h.on z).1 hz
  obtain ⟨u, u0, u1, hu⟩ := (h'.on _).1 hz'
  rcases trace_once hc h2 hok hne (by linarith) (by linarith) (by linarith) hu ho with q | q
  · exact h3 (by rw [h.stop, show g = b by linarith])
  · exact h1 (by rw [h.start, show g = a by linarith])

theorem along_subs {p : Polyline} (h0 : 0 < p.size) : ∀ {vs : List Vertex} {a b : ℝ}, Along p a vs b → ∀ e ∈ vEdges vs,
    ∃ (k : ℕ) (s t : ℝ), k < p.size ∧ 0 ≤ s ∧ t ≤ 1 ∧ Sub e.1 ⟨e.2, 0⟩ (rv p k) (rv p (k + 1)) s t
  | [], _, _, h, _, _ => h.elim
  | [_], _, _, _, e, he => by simp at he
  | u :: w :: l, a, b, h, e, he => by
    obtain ⟨k, s, t, rfl, s0, t1, h1, h2⟩ := h
    rw [vEdges_cons, List.mem_cons] at he
    rcases he with rfl | he
    · refine ⟨k % p.size, s, t, Nat.mod_lt _ h0, s0, t1, ?_⟩
      rw [rv_mod, rv_mod_succ]
      exact h1.congr rfl
    · exact along_subs h0 h2 e he

theorem passedTwice_cut {p : Polyline} {cuts : List Cut} (hex : ExactCuts p cuts) {z : V2} (h : PassedTwice p z) :
    ∃ c ∈ cuts, c.pos = z := by
  obtain ⟨i, j, v1, v2, u1, u2, h1, h2, h3, h4, h5, h6⟩ := h
  obtain ⟨c, hc, -, e⟩ := hex.complete i v1 v2 z h1 h4 ⟨i, j, v1, v2, u1, u2, h1, h2, h3, h4, h5, h6⟩
  exact ⟨c, hc, e⟩

/-- The points where segments start or end. -/
def edgeEnds (es : List (Vertex × V2)) : Set V2 := {x | x ∈ es.map fun e => e.1.pos} ∪ {x | x ∈ es.map fun e => e.2}

theorem edgeEnds_finite (es : List (Vertex × V2)) : (edgeEnds es).Finite :=
  (List.finite_toSet _).union (List.finite_toSet _)

/-- The positions of the vertexes. -/
def cornerSet (p : Polyline) : Set V2 := Set.range fun k => (rv p k).pos

theorem cornerSet_finite {p : Polyline} (h : 0 < p.size) : (cornerSet p).Finite := by
  have : cornerSet p ⊆ (fun k => (rv p k).pos) '' (Finset.range p.size : Set ℕ) := by
    rintro x ⟨k, rfl⟩
    exact ⟨k % p.size, by simpa using Nat.mod_lt _ h, by show (rv p (k % p.size)).pos = (rv p k).pos; rw [rv_mod]⟩
  exact ((Finset.finite_toSet _).image _).subset this

/-- The kept pieces make up the exact offset, if none is shallow and no short loop of the exact offset is dropped. -/
theorem kept_level {p raw : Polyline} {offset : ℝ} (hp : SimplePolygon p) (ho : 1 / 10 ^ 4 ≤ |offset|)
    (hclear : ClearOffset p offset) (hraw : createRawOffsetPline p offset = .ok raw) (hro : PlineOk raw)
    {cuts : List Cut} (hne : cuts ≠ []) (hex : ExactCuts raw cuts) (hm : ClearMeets p raw offset)
    {slices : List OpenSlice} (hk : KeptPieces p raw offset LongLoop cuts slices)
    (hsh : ∀ s, ¬ Shallow p raw offset cuts s) (hsl : ∀ s, ¬ ShortLoop p raw offset cuts s) :
    ∃ X, LevelEdges p raw offset X (slices.map fun s => vEdges s.pline.vertexes).flatten := by
  obtain ⟨g1, g2⟩ := C64_kept_pieces hp ho hclear hraw hro hne hex hm hk
  have hne0 : offset ≠ 0 := by rintro rfl; norm_num at ho
  obtain ⟨raw', hrun', hrc, -, -⟩ := C62_level hp hne0 hclear
  rw [hraw] at hrun'
  cases hrun'
  obtain ⟨cs, first, os, k1, k2, k3, k4, k5, k6⟩ := hk
  have hex' := exactCuts_perm k1 hex
  have hne' : cs ≠ [] := by rintro rfl; exact hne (List.nil_perm.1 k1)
  have h2 : 2 ≤ raw.size := by
    obtain ⟨c, hcm⟩ := List.exists_mem_of_ne_nil _ hne
    obtain ⟨v, e, t, hs, -⟩ := hex.inside c hcm
    exact (seg_rv hrc hs).2.1
  have hpne : ∀ k, (rv raw k).pos ≠ (rv raw (k + 1)).pos := exact_ne hrc h2 hex.toCleanCuts
  obtain ⟨T, g, hpos⟩ := exists_cutPos hrc h2 hro hex'.toCleanCuts k2 hne'
  have hfirst : first = none := by
    cases hf : first with
    | none => rfl
    | some s =>
      have := ((k5 s).1 hf).1
      rw [hrc] at this
      cases this
  rw [hfirst] at k6
  simp only [Option.toList_none, List.map_nil, List.nil_append] at k6
  have hshape : ∀ {i : ℕ} (hi : i < cs.length) {q : Polyline}, os[i]? = some (some q) →
      q.isClosed = false ∧ Along raw (g i) q.vertexes (g (i + 1)) := by
    intro i hi q hq
    have hkp := (k4 i _ hq q).1 rfl
    obtain ⟨q', hs⟩ := hpos.shape hrc h2 hro hex'.toCleanCuts hi
    obtain ⟨rfl, -⟩ := hs.only _ _ _ _ hkp
    exact ⟨hs.isOpen, hs.along⟩
  have hslice : ∀ s ∈ slices, ∃ i < cs.length, s.pline.isClosed = false ∧
      Along raw (g i) s.pline.vertexes (g (i + 1)) := by
    intro s hs
    rw [k6.mem_iff, List.mem_filterMap] at hs
    obtain ⟨⟨c, o⟩, hco, hs⟩ := hs
    obtain ⟨i, hi, hio⟩ := List.getElem_of_mem hco
    rw [List.getElem_zip] at hio
    rw [List.length_zip] at hi
    cases hio
    obtain ⟨q, hq, rfl⟩ := Option.map_eq_some_iff.1 hs
    have hi' : i < cs.length := by omega
    have hio : i < os.length := by omega
    simp only at hq
    exact ⟨i, hi', hshape hi' (by rw [List.getElem?_eq_getElem hio, hq])⟩
  have hopen : ∀ s ∈ slices, (⟨false, s.pline.vertexes⟩ : Polyline) = s.pline := by
    intro s hs
    obtain ⟨i, -, h1, -⟩ := hslice s hs
    rw [← h1]
  set es := (slices.map fun s => vEdges s.pline.vertexes).flatten with hes
  have hmem : ∀ {e}, e ∈ es ↔ ∃ s ∈ slices, e ∈ vEdges s.pline.vertexes := by
    intro e
    rw [hes, List.mem_flatten]
    constructor
    · rintro ⟨l, hl, he⟩
      obtain ⟨s, hs, rfl⟩ := List.mem_map.1 hl
      exact ⟨s, hs, he⟩
    · rintro ⟨s, hs, he⟩
      exact ⟨_, List.mem_map.2 ⟨s, hs, rfl⟩, he⟩
  obtain ⟨X, hX⟩ : ∃ X : Set V2, X = {x | x ∈ cuts.map Cut.pos} ∪ cornerSet raw ∪ edgeEnds es := ⟨_, rfl⟩
  have xcut : ∀ {c}, c ∈ cuts → c.pos ∈ X := fun {c} hc => by
    rw [hX]; exact Or.inl (Or.inl (List.mem_map.2 ⟨c, hc, rfl⟩))
  have xcor : ∀ k, (rv raw k).pos ∈ X := fun k => by
    rw [hX]; exact Or.inl (Or.inr ⟨k, rfl⟩)
  have xend : ∀ e ∈ es, e.1.pos ∈ X ∧ e.2 ∈ X := fun e he => by
    rw [hX]
    exact ⟨Or.inr (Or.inl (List.mem_map.2 ⟨e, he, rfl⟩)), Or.inr (Or.inr (List.mem_map.2 ⟨e, he, rfl⟩))⟩
  have xpass : ∀ z, PassedTwice raw z → z ∈ X := by
    intro z hz
    obtain ⟨c, hc, rfl⟩ := passedTwice_cut hex hz
    exact xcut hc
  refine ⟨X, ?_, ?_, xend, ?_, ?_, ?_, xpass⟩
  · rw [hX]
    exact ((List.finite_toSet _).union (cornerSet_finite (by omega))).union (edgeEnds_finite _)
  · intro e he
    obtain ⟨s, hs, he⟩ := hmem.1 he
    obtain ⟨i, hi, -, ha⟩ := hslice s hs
    exact along_subs (by omega) ha e he
  · intro e he z hz
    obtain ⟨s, hs, he⟩ := hmem.1 he
    rcases g1 s hs with h | h
    · refine h z ?_
      rw [← hopen s hs]
      exact onPline_vEdges.2 ⟨e, he, hz⟩
    · exact absurd h (hsh _)
  · intro z hz hzX
    rcases g2 z hz (fun q => hzX (xpass z q)) with ⟨s, hs, ho⟩ | ⟨s, hs, -⟩
    · rw [← hopen s hs] at ho
      obtain ⟨e, he, hz⟩ := onPline_vEdges.1 ho
      exact ⟨e, hmem.2 ⟨s, hs, he⟩, hz⟩
    · exact absurd hs (hsl _)
  · -- each part once
    have hall : ∀ z, z ∉ X → es.Pairwise fun e f => eOn z e → ¬ eOn z f := by
      intro z hz
      have hzp : ¬ PassedTwice raw z := fun q => hz (xpass z q)
      have hzv : ∀ k, z ≠ (rv raw k).pos := fun k q => hz (q ▸ xcor k)
      have hsize : ∀ {i}, i < cs.length → g (i + 1) ≤ g 0 + raw.size := fun {i} hi => by
        rw [← hpos.around]; exact hpos.le hi le_rfl
      have hg0 := (hpos.nonneg hne').le
      have hp1 : es.Perm (((cs.zip os).filterMap fun co => co.2.map fun s => (⟨co.1.seg, s⟩ : OpenSlice)).map
          fun s => vEdges s.pline.vertexes).flatten := by
        rw [hes]; exact (k6.map _).flatten
      rw [hp1.pairwise_iff (fun {a b} hab hb ha => hab ha hb)]
      rw [List.pairwise_flatten]
      constructor
      · intro l hl
        obtain ⟨s, hs, rfl⟩ := List.mem_map.1 hl
        have hs' := k6.mem_iff.2 hs
        obtain ⟨i, hi, -, ha⟩ := hslice s hs'
        have hgi : g 0 ≤ g i := hpos.le (Nat.zero_le _) hi.le
        have hsz := hsize hi
        refine (List.pairwise_iff_forall_sublist.2 ?_)
        intro e f hef hz1
        obtain ⟨c, d, c', d', r1, r2, r3, r4, r5⟩ := List.pairwise_iff_forall_sublist.1 (along_ranged ha).2 hef
        have hem : e ∈ es := hmem.2 ⟨s, hs', hef.subset (by simp)⟩
        exact r1.once hrc h2 hro hpne r2 (by linarith) r4 (by linarith) hzp hzv
          (fun q => hz (q ▸ (xend e hem).1)) (fun q => hz (q ▸ (xend e hem).2)) hz1
      · rw [List.pairwise_map, List.pairwise_filterMap, List.pairwise_iff_getElem]
        intro i j hi hj hij s hs s' hs' e he f hf hz1
        simp only [List.getElem_zip] at hs hs'
        rw [List.length_zip] at hi hj
        obtain ⟨q, hq, rfl⟩ := Option.map_eq_some_iff.1 hs
        obtain ⟨q', hq', rfl⟩ := Option.map_eq_some_iff.1 hs'
        have hi' : i < cs.length := by omega
        have hj' : j < cs.length := by omega
        have a1 := (hshape hi' (q := q) (by rw [List.getElem?_eq_getElem (by omega), hq])).2
        have a2 := (hshape hj' (q := q') (by rw [List.getElem?_eq_getElem (by omega), hq'])).2
        obtain ⟨c, d, r1, r2, r3⟩ := (along_ranged a1).1 e he
        obtain ⟨c', d', r1', r2', r3'⟩ := (along_ranged a2).1 f hf
        have hsz := hsize hj'
        have hgi : g 0 ≤ g i := hpos.le (Nat.zero_le _) hi'.le
        have hgj : g (i + 1) ≤ g j := hpos.le hij hj'.le
        have hem : e ∈ es := by
          rw [hmem]
          refine ⟨⟨cs[i].seg, q⟩, k6.mem_iff.2 ?_, he⟩
          rw [List.mem_filterMap]
          exact ⟨(cs[i], os[i]), List.mem_iff_getElem.2 ⟨i, by rw [List.length_zip]; omega, by rw [List.getElem_zip]⟩,
            by simp only [hq, Option.map_some]⟩
        exact r3.once hrc h2 hro hpne r3' (by linarith) (by linarith) (by linarith) hzp hzv
          (fun q => hz (q ▸ (xend e hem).1)) (fun q => hz (q ▸ (xend e hem).2)) hz1
    rw [List.pairwise_iff_getElem]
    intro i j hi hj hij z hz
    exact List.pairwise_iff_getElem.1 (hall z hz) i j hi hj hij

/-- A raw offset that does not meet itself and is on the exact offset is all of it. -/
theorem uncut_level {p raw : Polyline} {offset : ℝ} (hfar : ∀ k, ¬ Near (1 / 10 ^ 5) (rv raw k).pos (rv raw (k + 1)).pos)
    (hrc : raw.isClosed = true) (h2 : 2 ≤ raw.size) (hro : PlineOk raw) (honce : ∀ x, ¬ PassedTwice raw x)
    (hlev : ∀ x, AtOffset p offset x ↔ OnPline raw x) : ∃ X, LevelEdges p raw offset X (cEdges raw) := by
  have hpne : ∀ k, (rv raw k).pos ≠ (rv raw (k + 1)).pos := fun k => ne_of_not_near (by norm_num) (hfar k)
  have hmem : ∀ {e}, e ∈ cEdges raw → ∃ k < raw.size, e = (rv raw k, (rv raw (k + 1)).pos) := by
    intro e he
    obtain ⟨k, hk, rfl⟩ := List.mem_map.1 he
    exact ⟨k, List.mem_range.1 hk, rfl⟩
  refine ⟨cornerSet raw, cornerSet_finite (by omega), ?_, ?_, ?_, ?_, ?_, fun z hz => absurd hz (honce z)⟩
  · intro e he
    obtain ⟨k, hk, rfl⟩ := hmem he
    exact ⟨k, 0, 1, hk, le_rfl, le_rfl, (Sub.whole (rv_ok hrc h2 hro k) (hfar k)).congr rfl⟩
  · intro e he
    obtain ⟨k, hk, rfl⟩ := hmem he
    exact ⟨⟨k, rfl⟩, ⟨k + 1, rfl⟩⟩
  · intro e he z hz
    exact (hlev z).2 ((onPline_cEdges hrc h2).2 ⟨e, he, hz⟩)
  · intro z hz _
    exact (onPline_cEdges hrc h2).1 ((hlev z).1 hz)
  · unfold cEdges
    rw [List.pairwise_map, List.pairwise_iff_getElem]
    intro i j hi hj hij z hz
    simp only [List.length_range] at hi hj
    simp only [List.getElem_range]
    have r1 := (Sub.whole (rv_ok hrc h2 hro i) (hfar i)).ranged le_rfl le_rfl
    have r2 := (Sub.whole (rv_ok hrc h2 hro j) (hfar j)).ranged le_rfl le_rfl
    have hij' : (i : ℝ) + 1 ≤ j := by exact_mod_cast hij
    have hj' : (j : ℝ) + 1 ≤ raw.size := by exact_mod_cast hj
    have hi0 : (0 : ℝ) ≤ i := Nat.cast_nonneg _
    exact r1.once hrc h2 hro hpne r2 (by linarith) (by linarith) (by linarith) (honce z) (fun k q => hz ⟨k, q.symm⟩)
      (fun q => hz ⟨i, q.symm⟩) (fun q => hz ⟨i + 1, q.symm⟩)

end
end Cavc

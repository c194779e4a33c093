import Verif.Proofs.IslandKept
import Verif.Props.OffsetRegion

/-! The offset of each outline on its own, as segments that make up its exact offset. -/
namespace Cavc
open Spec
open scoped Classical
noncomputable section

theorem Sub.trans {u w v e V E : Vertex} {a b c d : ℝ} (h : Sub u w v e a b) (h' : Sub v e V E c d) :
    Sub u w V E (c + (d - c) * a) (c + (d - c) * b) := by
  have h1 := h.lt
  have h2 := h'.lt
  refine ⟨?_, fun s => ?_, h.kind.trans h'.kind, fun hl => ?_, h.ok, h.far⟩
  · have := mul_pos (sub_pos.2 h2) (sub_pos.2 h1)
    nlinarith
  · rw [h.pts, h'.pts]
    congr 1
    ring
  · rw [h.turn fun q => hl (h'.kind.1 q), h'.turn hl]
    ring

theorem LevelEdges.perm {p raw : Polyline} {offset : ℝ} {X : Set V2} {es fs : List (Vertex × V2)}
    (h : LevelEdges p raw offset X es) (hp : fs.Perm es) : LevelEdges p raw offset X fs := by
  refine ⟨h.fin, fun e he => h.sub e (hp.mem_iff.1 he), fun e he => h.ends e (hp.mem_iff.1 he),
    fun e he => h.level e (hp.mem_iff.1 he), fun z hz hzX => ?_, ?_, h.passed⟩
  · obtain ⟨e, he, hz⟩ := h.cover z hz hzX
    exact ⟨e, hp.mem_iff.2 he, hz⟩
  · exact (hp.pairwise_iff (fun {a b} hab z hz hb ha => hab z hz ha hb)).2 h.once

/-- The offsets of an outline. -/
structure LevelLoops (p raw : Polyline) (d : ℝ) (X : Set V2) (r : List Polyline) : Prop where
  isRaw : RawOf p raw d
  closed : ∀ q ∈ r, q.isClosed = true ∧ 2 ≤ q.size ∧ PlineOk q
  level : LevelEdges p raw d X (r.map cEdges).flatten

theorem level_loops {p raw : Polyline} {offset : ℝ} {X : Set V2} {es : List (Vertex × V2)} {r : List Polyline}
    (hp : SimplePolygon p) (hclear : ClearOffset p offset)
    (hraw : createRawOffsetPline p offset = .ok raw) (hrok : ∀ k, SegOk (rv raw k) (rv raw (k + 1)))
    (h : LevelEdges p raw offset X es) (hr : ∀ q ∈ r, q.isClosed = true ∧ 2 ≤ q.size)
    (hperm : (r.map cEdges).flatten.Perm es) : LevelLoops p raw offset X r := by
  refine ⟨⟨hclear, hraw, hrok, raw_far hp hclear hraw⟩, fun q hq => ⟨(hr q hq).1, (hr q hq).2, ?_⟩, h.perm hperm⟩
  refine plineOk_cEdges (hr q hq).1 fun e he => h.ok e (hperm.subset ?_)
  exact List.mem_flatten.2 ⟨_, List.mem_map.2 ⟨q, hq, rfl⟩, he⟩

/-- The offset of an outline is all of its exact offset. -/
theorem good_level {std : StdSort} {hash : HashOrder} {inf ninf : ℝ} {p : Polyline} {offset : ℝ}
    (hp : SimplePolygon p) (ho : 1 / 10 ^ 4 ≤ |offset|) (hgood : GoodOffset (codePlatform inf ninf) p offset)
    {r : List Polyline} (hr : parallelOffset (codePlatform inf ninf) std hash p offset = .ok r) :
    ∃ raw X, LevelLoops p raw offset X r := by
  obtain ⟨hclear, hi, raw, hraw, hri, ha, hcase⟩ := hgood
  have hne : offset ≠ 0 := by rintro rfl; norm_num at ho
  have hok : PlineOk p := lines_ok hp.lines
  have hb : BulgesOk p := fun v hv => by
    have := hp.lines v hv; unfold IsLine at this; linarith [show (1 : ℝ) / 10 ^ 5 ≤ 1 by norm_num]
  have hro : PlineOk raw := by
    rcases C38_createRawOffsetPline p offset hb hclear.repeats with ⟨r', h1, h2, -⟩ | ⟨h1, -⟩
    · rw [hraw] at h1
      cases h1
      exact plineOk_long h2 ha
    · rw [hraw] at h1
      cases h1
  obtain ⟨raw', hrun', hrc, -, hlev⟩ := C62_level hp hne hclear
  rw [hraw] at hrun'
  cases hrun'
  have h2 : 2 ≤ raw.size := hri.size
  have hrok := rv_ok hrc h2 hro
  rcases hcase with ⟨hself, hm, hdrop⟩ | ⟨honce, hself, hdrop⟩
  · obtain ⟨selfs, hs, -, h1⟩ := C59_parallelOffset inf ninf hi hok hb hclear.repeats hp.closed hraw hri hro hr
    obtain ⟨hl, hex, hap, hlen⟩ := hself selfs hs
    have hcne : selfCuts selfs ≠ [] := by
      obtain ⟨x, l, rfl⟩ := List.exists_cons_of_ne_nil hl
      simp [selfCuts]
    obtain ⟨slices, hk, hst⟩ := h1 hcne
    obtain ⟨hsok, hsl⟩ := kept_stitchOk hrc hro hcne hex hap hk
    have hst' := hst (fun hf => by rw [hp.closed] at hf; cases hf) (hsl.trans hlen)
    obtain ⟨X, hX⟩ := kept_level hp ho hclear hraw hro hcne hex hm hk (fun s => (hdrop selfs s hs).1)
      (fun s => (hdrop selfs s hs).2)
    obtain ⟨hbal, -⟩ := bounds_of_level hX hp hne hclear hraw hrok
    rw [hp.closed] at hst'
    obtain ⟨g1, g2⟩ := offset_loops hst' hsok hbal
    exact ⟨raw, X, level_loops hp hclear hraw hrok hX g1 g2⟩
  · rcases C63_uncut inf ninf hp ho hclear hi hraw hri hro honce hself hr with ⟨rfl, h⟩ | ⟨hno, h⟩
    · obtain ⟨X, hX⟩ := uncut_level (raw_far hp hclear hraw) hrc h2 hro honce h
      refine ⟨raw, X, level_loops hp hclear hraw hrok hX ?_ (by simp)⟩
      rintro q hq
      rw [List.mem_singleton] at hq
      subst hq
      exact ⟨hrc, h2⟩
    · have hX : LevelEdges p raw offset ∅ [] :=
        ⟨Set.finite_empty, by simp, by simp, by simp, fun z hz => absurd hz (hno z), List.Pairwise.nil,
          fun z hz => absurd hz (honce z)⟩
      rcases h with rfl | ⟨rfl, v, hv, hc⟩
      · exact ⟨raw, ∅, level_loops hp hclear hraw hrok hX (by simp) (by simp)⟩
      · exfalso
        refine hno v.pos ((hlev v.pos).2 ⟨?_, hdrop v hv hc⟩)
        have hs := closed_isSeg hrc h2 (k := 0) (by omega)
        have : vtx raw 0 = v := by
          unfold vtx
          rw [List.getD_eq_getElem?_getD, ← List.head?_eq_getElem?, hv]
          rfl
        rw [this] at hs
        exact ⟨0, _, _, hs, onSeg_start _ _⟩

theorem outline_sides {ps : List Polyline} (hs : ∀ p ∈ ps, SimplePolygon p) {d : ℝ} (hd : 0 < d) : OutlineSides ps d := by
  intro i p hi
  obtain ⟨s, σ, V, V', a, -, -, -, hV, hσ, hside, -⟩ := offset_sides (hs p (List.mem_of_getElem? hi)) hd.ne'
  have h1 : σ = 1 := by
    rcases hV.1 with e | e
    · exact e
    · rw [e] at hσ; linarith
  subst h1
  refine ⟨V, V', hV, ?_, hside⟩
  have hp := hs p (List.mem_of_getElem? hi)
  have h0 : 0 < p.size := by have := hp.two'; omega
  obtain ⟨j1, j2⟩ := hV.2.2 0 h0 (1 / 2) (by norm_num) (by norm_num)
  exact hp.simpleP.jump h0 (by norm_num) (by norm_num) j1 j2

end
end Cavc

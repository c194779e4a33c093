import Verif.Proofs.IslandLevel

/-! The kept parts of all the offsets make up the boundary of the inset region. -/
namespace Cavc
open Spec
open scoped Classical
noncomputable section

theorem cEdges_mem {q : Polyline} {k : ℕ} (hk : k < q.size) : (rv q k, (rv q (k + 1)).pos) ∈ cEdges q :=
  List.mem_map.2 ⟨k, List.mem_range.2 hk, rfl⟩

theorem mem_cEdges {q : Polyline} {e : Vertex × V2} (h : e ∈ cEdges q) : ∃ k < q.size, e = (rv q k, (rv q (k + 1)).pos) := by
  obtain ⟨k, hk, rfl⟩ := List.mem_map.1 h
  exact ⟨k, List.mem_range.1 hk, rfl⟩

section
variable {p raw : Polyline} {d : ℝ} {X : Set V2} {r : List Polyline}

theorem LevelLoops.mem (_h : LevelLoops p raw d X r) {q : Polyline} (hq : q ∈ r) {e : Vertex × V2} (he : e ∈ cEdges q) :
    e ∈ (r.map cEdges).flatten := List.mem_flatten.2 ⟨_, List.mem_map.2 ⟨q, hq, rfl⟩, he⟩

theorem LevelLoops.corner (h : LevelLoops p raw d X r) {q : Polyline} (hq : q ∈ r) : cornerSet q ⊆ X := by
  rintro x ⟨k, rfl⟩
  have h2 := (h.closed q hq).2.1
  have := (h.level.ends _ (h.mem hq (cEdges_mem (Nat.mod_lt k (show 0 < q.size by omega))))).1
  simpa only [rv_mod] using this

theorem LevelLoops.at (h : LevelLoops p raw d X r) {q : Polyline} (hq : q ∈ r) {z : V2} (hz : OnPline q z) :
    AtOffset p d z := by
  obtain ⟨h1, h2, -⟩ := h.closed q hq
  obtain ⟨e, he, hz⟩ := (onPline_cEdges h1 h2).1 hz
  exact h.level.level e (h.mem hq he) z hz

theorem LevelLoops.far (h : LevelLoops p raw d X r) {q : Polyline} (hq : q ∈ r) (k : ℕ) :
    ¬ Near (1 / 10 ^ 5) (rv q k).pos (rv q (k + 1)).pos := by
  have h2 := (h.closed q hq).2.1
  obtain ⟨k', s, t, -, -, -, hs⟩ := h.level.sub _ (h.mem hq (cEdges_mem (Nat.mod_lt k (show 0 < q.size by omega))))
  simpa only [rv_mod, rv_mod_succ] using hs.far

theorem LevelLoops.passed (h : LevelLoops p raw d X r) {q : Polyline} (hq : q ∈ r) {z : V2} (hz : PassedTwice q z) :
    z ∈ X := by
  obtain ⟨h1, h2, -⟩ := h.closed q hq
  by_contra hX
  have hpw : (cEdges q).Pairwise fun e f => ∀ z, z ∉ X → eOn z e → ¬ eOn z f :=
    (List.pairwise_flatten.1 h.level.once).1 _ (List.mem_map.2 ⟨q, hq, rfl⟩)
  unfold cEdges at hpw
  rw [List.pairwise_map, List.pairwise_iff_getElem] at hpw
  obtain ⟨i, j, v1, v2, u1, u2, a1, a2, a3, a4, a5, -⟩ := hz
  obtain ⟨b1, -, rfl, rfl⟩ := seg_rv h1 a1
  obtain ⟨c1, -, rfl, rfl⟩ := seg_rv h1 a2
  have hon : ∀ {k}, OnSeg (rv q k) (rv q (k + 1)) z → eOn z (rv q k, (rv q (k + 1)).pos) := fun {k} hk => hk
  rcases lt_or_gt_of_ne a3 with hlt | hlt
  · have := hpw i j (by simpa using b1) (by simpa using c1) hlt z hX
    simp only [List.getElem_range] at this
    exact this (hon a4) (hon a5)
  · have := hpw j i (by simpa using c1) (by simpa using b1) hlt z hX
    simp only [List.getElem_range] at this
    exact this (hon a5) (hon a4)

theorem LevelLoops.apart (h : LevelLoops p raw d X r) : r.Pairwise fun q q' => ∀ z, z ∉ X → OnPline q z → ¬ OnPline q' z := by
  have h1 := (List.pairwise_flatten.1 h.level.once).2
  rw [List.pairwise_map] at h1
  refine List.Pairwise.imp_of_mem ?_ h1
  intro q q' hq hq' hh z hz ho ho'
  obtain ⟨e, he, hz1⟩ := (onPline_cEdges (h.closed q hq).1 (h.closed q hq).2.1).1 ho
  obtain ⟨f, hf, hz2⟩ := (onPline_cEdges (h.closed q' hq').1 (h.closed q' hq').2.1).1 ho'
  exact hh e he f hf z hz hz1 hz2

end

/-- The kept part of a loop. -/
structure LoopPart (q : Polyline) (F : List Polyline) (d : ℝ) (X : Set V2) (es : List (Vertex × V2)) : Prop where
  sub : ∀ e ∈ es, ∃ (k : ℕ) (s t : ℝ), k < q.size ∧ 0 ≤ s ∧ t ≤ 1 ∧ Sub e.1 ⟨e.2, 0⟩ (rv q k) (rv q (k + 1)) s t
  far : ∀ e ∈ es, ∀ z, eOn z e → ClearAll F d z ∧ (z ∉ X → FarAll F d z)
  cover : ∀ z, OnPline q z → ClearAll F d z → z ∉ X → ∃ e ∈ es, eOn z e
  once : es.Pairwise fun e f => ∀ z, z ∉ X → eOn z e → ¬ eOn z f
  ends : ∀ e ∈ es, e.1.pos ∈ X ∧ e.2 ∈ X

theorem LoopKept.part {q : Polyline} {F : List Polyline} {d : ℝ} {cuts : List Cut} {r : List Polyline}
    (h : LoopKept q F d cuts r) {X : Set V2} (hc : ∀ c ∈ cuts, c.pos ∈ X) (xpass : ∀ z, PassedTwice q z → z ∈ X)
    (xcor : cornerSet q ⊆ X) (xend : ∀ e ∈ (r.map fun s => vEdges s.vertexes).flatten, e.1.pos ∈ X ∧ e.2 ∈ X) :
    LoopPart q F d X (r.map fun s => vEdges s.vertexes).flatten :=
  ⟨h.sub, fun e he z hz => ⟨(h.far e he z hz).1, fun hX => (h.far e he z hz).2 fun c hm e => hX (e ▸ hc c hm)⟩,
    fun z h1 h2 h3 => h.cover z h1 h2 fun c hm e => h3 (e ▸ hc c hm), h.once X xpass xcor xend, xend⟩

/-- A loop that is kept as it is. -/
theorem LevelLoops.whole {p raw : Polyline} {d : ℝ} {X : Set V2} {r : List Polyline} (h : LevelLoops p raw d X r)
    {q : Polyline} (hq : q ∈ r) {F : List Polyline} (hfar : ∀ z, OnPline q z → FarAll F d z) {Y : Set V2} (hXY : X ⊆ Y) :
    LoopPart q F d Y (cEdges q) := by
  obtain ⟨h1, h2, h3⟩ := h.closed q hq
  refine ⟨?_, ?_, ?_, ?_, ?_⟩
  · intro e he
    obtain ⟨k, hk, rfl⟩ := mem_cEdges he
    exact ⟨k, 0, 1, hk, le_rfl, le_rfl, (Sub.whole (rv_ok h1 h2 h3 k) (h.far hq k)).congr rfl⟩
  · intro e he z hz
    have := hfar z ((onPline_cEdges h1 h2).2 ⟨e, he, hz⟩)
    exact ⟨this.clear, fun _ => this⟩
  · intro z hz _ _
    exact (onPline_cEdges h1 h2).1 hz
  · have := (List.pairwise_flatten.1 h.level.once).1 _ (List.mem_map.2 ⟨q, hq, rfl⟩)
    exact this.imp fun {a b} hab z hz => hab z fun q => hz (hXY q)
  · intro e he
    have := h.level.ends e (h.mem hq he)
    exact ⟨hXY this.1, hXY this.2⟩

/-- A loop that is dropped. -/
theorem part_nil {q : Polyline} {F : List Polyline} {d : ℝ} {X : Set V2} (h : ∀ z, OnPline q z → ¬ ClearAll F d z) :
    LoopPart q F d X [] :=
  ⟨by simp, by simp, fun z h1 h2 => absurd h2 (h z h1), List.Pairwise.nil, by simp⟩

/-- All kept parts. -/
theorem inset_edges {ps : List Polyline} {d : ℝ} (hd : 0 < d) {L : List (ℕ × Polyline)}
    {E : List (List (Vertex × V2))} {X : Set V2} (hX : X.Finite)
    (hlev : ∀ i p, ps[i]? = some p → ∃ raw Y, Y ⊆ X ∧
      LevelLoops p raw d Y ((L.filter fun a => decide (a.1 = i)).map Prod.snd))
    (hL : ∀ a ∈ L, ∃ p, ps[a.1]? = some p)
    (hE : List.Forall₂ (fun (a : ℕ × Polyline) es => LoopPart a.2 (otherPs ps a.1) d X es) L E) :
    InsetEdges ps d X E.flatten := by
  have hmem : ∀ {i : ℕ} {q : Polyline}, q ∈ (L.filter fun a => decide (a.1 = i)).map Prod.snd ↔ (i, q) ∈ L := by
    intro i q
    simp only [List.mem_map, List.mem_filter, decide_eq_true_eq]
    constructor
    · rintro ⟨⟨j, q'⟩, ⟨h1, rfl⟩, rfl⟩
      exact h1
    · intro h
      exact ⟨_, ⟨h, rfl⟩, rfl⟩
  have hlen := hE.length_eq
  have hpart : ∀ (n : ℕ) (a : ℕ × Polyline) (es : List (Vertex × V2)), L[n]? = some a → E[n]? = some es →
      LoopPart a.2 (otherPs ps a.1) d X es := by
    intro n a es h1 h2
    obtain ⟨g1, rfl⟩ := List.getElem?_eq_some_iff.1 h1
    obtain ⟨g2, rfl⟩ := List.getElem?_eq_some_iff.1 h2
    exact (List.forall₂_iff_get.1 hE).2 n g1 g2
  have hfind : ∀ {es : List (Vertex × V2)}, es ∈ E → ∃ a ∈ L, LoopPart a.2 (otherPs ps a.1) d X es := by
    intro es hes
    obtain ⟨n, hn, rfl⟩ := List.getElem_of_mem hes
    exact ⟨L[n]'(by omega), List.getElem_mem _,
      hpart n _ _ (List.getElem?_eq_getElem (by omega)) (List.getElem?_eq_getElem hn)⟩
  have hon : ∀ {q : Polyline} {F : List Polyline} {es : List (Vertex × V2)}, LoopPart q F d X es → q.isClosed = true →
      2 ≤ q.size → ∀ e ∈ es, ∀ z, eOn z e → OnPline q z := by
    intro q F es hp hc h2 e he z hz
    obtain ⟨k, s, t, hk, s0, t1, hs⟩ := hp.sub e he
    obtain ⟨τ, τ0, τ1, rfl⟩ := hs.onSeg.1 hz
    refine (onPline_cEdges hc h2).2 ⟨_, cEdges_mem hk, ?_⟩
    exact (onSeg_segPt).2 ⟨τ, by linarith, by linarith, rfl⟩
  have hat : ∀ {a : ℕ × Polyline} {es : List (Vertex × V2)}, a ∈ L → LoopPart a.2 (otherPs ps a.1) d X es →
      ∀ e ∈ es, ∀ z, eOn z e → OnPline a.2 z ∧ ∃ p, ps[a.1]? = some p ∧ AtOffset p d z := by
    intro a es ha hp e he z hz
    obtain ⟨p, hi⟩ := hL a ha
    obtain ⟨raw, Y, -, hl⟩ := hlev _ p hi
    have hq := hmem.2 (show (a.1, a.2) ∈ L from ha)
    have := hon hp (hl.closed _ hq).1 (hl.closed _ hq).2.1 e he z hz
    exact ⟨this, p, hi, hl.at hq this⟩
  refine ⟨hX, ?_, ?_, ?_, ?_⟩
  · intro e he
    obtain ⟨es, hes, he⟩ := List.mem_flatten.1 he
    obtain ⟨a, ha, hp⟩ := hfind hes
    obtain ⟨p, hi⟩ := hL a ha
    obtain ⟨raw, Y, hY, hl⟩ := hlev _ p hi
    have hq := hmem.2 (show (a.1, a.2) ∈ L from ha)
    obtain ⟨k, s, t, hk, s0, t1, hs⟩ := hp.sub e he
    obtain ⟨k', s', t', hk', s0', t1', hs'⟩ := hl.level.sub _ (hl.mem hq (cEdges_mem hk))
    have htr := hs.trans (hs'.congr (w' := rv a.2 (k + 1)) rfl)
    have h1 := hs.lt
    have h2 := hs'.lt
    refine ⟨a.1, p, raw, k', _, _, hi, hl.isRaw, hk', ?_, ?_, htr, fun z hz => hY (hl.level.passed z hz), fun z hz => ?_⟩
    · have := mul_nonneg (sub_nonneg.2 h2.le) s0
      linarith
    · have := mul_le_mul_of_nonneg_left t1 (sub_nonneg.2 h2.le)
      linarith
    · obtain ⟨-, p', hi', hA⟩ := hat ha hp e he z hz
      rw [hi] at hi'
      cases hi'
      obtain ⟨f1, f2⟩ := hp.far e he z hz
      exact ⟨hA, fun q hq => ⟨f1 q hq, fun hX => f2 hX q hq⟩⟩
  · intro e he
    obtain ⟨es, hes, he⟩ := List.mem_flatten.1 he
    obtain ⟨a, ha, hp⟩ := hfind hes
    exact hp.ends e he
  · rintro z ⟨i, p, hi, hA, hcl⟩ hz
    obtain ⟨raw, Y, hY, hl⟩ := hlev _ p hi
    obtain ⟨e, he, hz1⟩ := hl.level.cover z hA fun q => hz (hY q)
    obtain ⟨l, hl', he⟩ := List.mem_flatten.1 he
    obtain ⟨q, hq, rfl⟩ := List.mem_map.1 hl'
    have hq' := hmem.1 hq
    obtain ⟨n, hn, hnq⟩ := List.getElem_of_mem hq'
    have hp := hpart n (i, q) _ (by rw [List.getElem?_eq_getElem hn, hnq]) (List.getElem?_eq_getElem (by omega))
    obtain ⟨f, hf, hz2⟩ := hp.cover z ((onPline_cEdges (hl.closed q hq).1 (hl.closed q hq).2.1).2 ⟨e, he, hz1⟩) hcl hz
    exact ⟨f, List.mem_flatten.2 ⟨_, List.getElem_mem _, hf⟩, hz2⟩
  · rw [List.pairwise_flatten]
    constructor
    · intro es hes
      obtain ⟨a, ha, hp⟩ := hfind hes
      exact hp.once
    · have hapart : L.Pairwise fun a b => a.1 = b.1 → ∀ z, z ∉ X → OnPline a.2 z → ¬ OnPline b.2 z := by
        rw [List.pairwise_iff_forall_sublist]
        intro a b hab he z hz
        obtain ⟨p, hi⟩ := hL a (hab.subset (by simp))
        obtain ⟨raw, Y, hY, hl⟩ := hlev _ p hi
        have h1 := hl.apart
        rw [List.pairwise_map, List.pairwise_iff_forall_sublist] at h1
        have h2 := hab.filter fun c => decide (c.1 = a.1)
        rw [List.filter_cons_of_pos (by simp), List.filter_cons_of_pos (by simpa using he.symm), List.filter_nil] at h2
        exact h1 h2 z fun q => hz (hY q)
      rw [List.pairwise_iff_getElem]
      intro m n hm hn hmn e he f hf z hz hz1 hz2
      have p1 := hpart m _ _ (List.getElem?_eq_getElem (by omega)) (List.getElem?_eq_getElem hm)
      have p2 := hpart n _ _ (List.getElem?_eq_getElem (by omega)) (List.getElem?_eq_getElem hn)
      obtain ⟨o1, p, i1, a1⟩ := hat (List.getElem_mem (by omega)) p1 e he z hz1
      obtain ⟨o2, p', i2, a2⟩ := hat (List.getElem_mem (by omega)) p2 f hf z hz2
      by_cases hij : (L[m]'(by omega)).1 = (L[n]'(by omega)).1
      · exact (List.pairwise_iff_getElem.1 hapart) m n (by omega) (by omega) hmn hij z hz o1 o2
      · obtain ⟨-, -, w, hw, hdw⟩ := a2
        have := (p1.far e he z hz1).2 hz p' (mem_other.2 ⟨_, fun q => hij q.symm, i2⟩) w hw
        rw [abs_of_pos hd] at hdw
        linarith

end
end Cavc

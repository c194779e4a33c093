import Verif.Proofs.CutOrder
import Verif.Props.OffsetKept

/-! The pieces between exact cuts, and when they are kept. -/
namespace Cavc
open Spec
open scoped Classical
noncomputable section

/-! ### Vertexes that are far from each other -/

theorem passable_far {p : Polyline} {offset : ℝ} : ∀ {ws vs : List Vertex}, Passable p offset vs ws →
    ∀ w ∈ ws, FarEnough p offset w.pos
  | [], _, _, _, hw => by simp at hw
  | _ :: _, _, h, w, hw => by
    rcases List.mem_cons.1 hw with rfl | hw
    · exact h.1
    · exact passable_far h.2.2 w hw

theorem passable_run {p : Polyline} {offset : ℝ} : ∀ {ws vs : List Vertex} {u : Vertex},
    List.IsChain (fun a b : Vertex => ¬ Near (1 / 10 ^ 5) a.pos b.pos ∧ ¬ Meets p a b) (u :: ws) →
    (∀ w ∈ ws, FarEnough p offset w.pos) → Passable p offset (vs ++ [u]) ws
  | [], _, _, _, _ => trivial
  | w :: ws, vs, u, h, hf => by
    rw [List.isChain_cons_cons] at h
    refine ⟨hf w (by simp), fun z hz => ?_, ?_⟩
    · rw [List.getLast?_append_of_ne_nil _ (by simp), List.getLast?_singleton] at hz
      cases hz
      exact h.1.2
    · rw [joined_far h.1.1]
      exact passable_run h.2 fun z hz => hf z (by simp [hz])

/-! ### The rest of a segment after cuts -/

section
variable {p : Polyline} {cs : List Cut} {T : Cut → ℝ} {g : ℕ → ℝ}

theorem CutPos.mark (h : CutPos p cs T g) {c : Cut} (hc : c ∈ cs) :
    Mark cs c.seg (rv p c.seg) (rv p (c.seg + 1)) (T c) c.pos := by
  obtain ⟨-, a2, a3, a4⟩ := h.param c hc
  exact ⟨a2.le, a3.le, atParam_segPt.2 a4, Or.inr (Or.inr ⟨c, hc, rfl, rfl⟩)⟩

theorem mark_start (p : Polyline) (cs : List Cut) (j k : ℕ) :
    Mark cs j (rv p k) (rv p (k + 1)) 0 (rv p k).pos :=
  ⟨le_refl _, zero_le_one, atParam_segPt.2 (segPt_zero _ _).symm, Or.inl rfl⟩

theorem mark_end (p : Polyline) (cs : List Cut) (j k : ℕ) :
    Mark cs j (rv p k) (rv p (k + 1)) 1 (rv p (k + 1)).pos :=
  ⟨zero_le_one, le_refl _, atParam_segPt.2 (segPt_one _ _).symm, Or.inr (Or.inl rfl)⟩

theorem rv_seg_lt (hc : p.isClosed = true) (h2 : 2 ≤ p.size) {k : ℕ} (hk : k < p.size) :
    IsSeg p k (rv p k) (rv p (k + 1)) := by
  have := rv_seg hc h2 k
  rwa [Nat.mod_eq_of_lt hk] at this

/-- Splitting a part of a segment at a cut. -/
theorem CutPos.split (h : CutPos p cs T g) (hc : p.isClosed = true) (h2 : 2 ≤ p.size) (hex : CleanCuts p cs)
    {c : Cut} (hcm : c ∈ cs) {u w : Vertex} {a b : ℝ} (hs : Sub u w (rv p c.seg) (rv p (c.seg + 1)) a b)
    (ha : Mark cs c.seg (rv p c.seg) (rv p (c.seg + 1)) a u.pos)
    (hb : Mark cs c.seg (rv p c.seg) (rv p (c.seg + 1)) b w.pos) (h0 : a < T c) (h1 : T c < b) :
    ∃ r, splitAtPoint u w c.pos = .ok r ∧ Sub r.updatedStart r.splitVertex (rv p c.seg) (rv p (c.seg + 1)) a (T c) ∧
      Sub r.splitVertex w (rv p c.seg) (rv p (c.seg + 1)) (T c) b ∧ r.updatedStart.pos = u.pos ∧
      r.splitVertex.pos = c.pos := by
  obtain ⟨a1, a2, a3, a4⟩ := h.param c hcm
  have hseg := rv_seg_lt hc h2 a1
  have s1 := hex.separate _ _ _ _ _ _ _ hseg ha (h.mark hcm) h0
  have s2 := hex.separate _ _ _ _ _ _ _ hseg (h.mark hcm) hb h1
  exact hs.split h0 h1 a4 s1.1 s2.1 s1.2 s2.2

theorem CutPos.rest (h : CutPos p cs T g) (hc : p.isClosed = true) (h2 : 2 ≤ p.size) (hex : CleanCuts p cs)
    {k : ℕ} : ∀ {ds : List Cut} {u : Vertex} {a : ℝ}, (∀ d ∈ ds, d ∈ cs ∧ d.seg = k ∧ a < T d) →
    ds.Pairwise (fun d d' => T d < T d') →
    Mark cs k (rv p k) (rv p (k + 1)) a u.pos → Sub u (rv p (k + 1)) (rv p k) (rv p (k + 1)) a 1 →
    ∃ w b, Rest (rv p (k + 1)) u (ds.map Cut.pos) w ∧ Mark cs k (rv p k) (rv p (k + 1)) b w.pos ∧
      Sub w (rv p (k + 1)) (rv p k) (rv p (k + 1)) b 1 ∧ b = (ds.map T).getLastD a
  | [], u, a, _, _, hm, hs => ⟨u, a, rfl, hm, hs, rfl⟩
  | d :: ds, u, a, hd, hp, hm, hs => by
    obtain ⟨d1, rfl, d2⟩ := hd d (by simp)
    obtain ⟨r, r1, r2, r3, r4, r5⟩ := h.split hc h2 hex d1 hs hm (mark_end p cs _ _) d2 (h.param d d1).2.2.1
    obtain ⟨w, b, w1, w2, w3, w4⟩ := CutPos.rest h hc h2 hex (ds := ds) (u := r.splitVertex) (a := T d)
      (fun d' hd' => ⟨(hd d' (by simp [hd'])).1, (hd d' (by simp [hd'])).2.1,
        (List.pairwise_cons.1 hp).1 d' hd'⟩) (List.pairwise_cons.1 hp).2
      (by rw [r5]; exact h.mark d1) r3
    refine ⟨w, b, ⟨r, r1, w1⟩, w2, w3, ?_⟩
    rw [w4, List.map_cons]
    cases ds with
    | nil => rfl
    | cons d' ds =>
      rw [List.map_cons, List.getLastD_cons, List.getLastD_cons, List.getLastD_cons]

/-- Whole segments of the path, after which it ends inside a segment. -/
theorem along_run (hc : p.isClosed = true) (h2 : 2 ≤ p.size) (hok : PlineOk p) (hex : CleanCuts p cs) {u w : Vertex} {t : ℝ} (ht : t ≤ 1) :
    ∀ (m k : ℕ), Sub u w (rv p (k + m)) (rv p (k + m + 1)) 0 t → u.pos = (rv p (k + m)).pos →
    Along p k ((List.range m).map (fun j => rv p (k + j)) ++ [u, w]) ((k + m : ℕ) + t)
  | 0, k, hs, _ => by
    rw [Nat.add_zero] at hs ⊢
    refine ⟨k, 0, t, by ring, le_refl _, ht, hs, rfl, ?_⟩
    have := hs.lt
    rw [hs.stop, trace_on (k := k) (by linarith) (by linarith), add_sub_cancel_left]
  | m + 1, k, hs, hu => by
    have e1 : k + (m + 1) = k + 1 + m := by omega
    rw [e1] at hs hu ⊢
    have ih := along_run hc h2 hok hex ht m (k + 1) hs hu
    rw [List.range_succ_eq_map, List.map_cons, List.map_map, Nat.add_zero, List.cons_append]
    have e2 : (List.range m).map ((fun j => rv p (k + j)) ∘ Nat.succ) =
        (List.range m).map (fun j => rv p (k + 1 + j)) := by
      apply List.map_congr_left
      intro j _
      simp only [Function.comp]
      congr 1
      omega
    rw [e2]
    generalize hl : (List.range m).map (fun j => rv p (k + 1 + j)) ++ [u, w] = l at ih
    cases l with
    | nil => simp at hl
    | cons z l =>
      have hz : z.pos = (rv p (k + 1)).pos := by
        cases m with
        | zero =>
          rw [List.range_zero, List.map_nil, List.nil_append] at hl
          cases hl
          exact hu
        | succ m =>
          rw [List.range_succ_eq_map, List.map_cons, List.cons_append] at hl
          cases hl
          rfl
      refine ⟨k, 0, 1, by ring, le_refl _, le_refl _,
        (Sub.whole (rv_ok hc h2 hok k) (exact_far hc h2 hex k)).congr hz.symm, ?_⟩
      push_cast at ih ⊢
      exact ih


theorem CutPos.sorted (h : CutPos p cs T g) : cs.Pairwise fun a b => a.seg = b.seg → T a < T b := by
  rw [List.pairwise_iff_getElem]
  intro i j hi hj hij he
  have h1 := h.lt hij hj.le
  rw [h.cut i _ (List.getElem?_eq_getElem hi), h.cut j _ (List.getElem?_eq_getElem hj), he] at h1
  linarith

/-- The tests that keep a piece, for all of it. -/
structure Passes (q p : Polyline) (offset : ℝ) (a b : ℝ) : Prop where
  far : ∀ y, a ≤ y → y ≤ b → FarEnough q offset (trace p y)
  meets : ∀ (k : ℕ) (s t : ℝ) (u w : Vertex), 0 ≤ s → t ≤ 1 → a ≤ k + s → k + t ≤ b →
    Sub u w (rv p k) (rv p (k + 1)) s t → ¬ Meets q u w

/-- What the piece between a cut and the next one is and when it is kept. -/
structure Shape (p : Polyline) (cs : List Cut) (g : ℕ → ℝ) (i : ℕ) (s : Polyline) : Prop where
  isOpen : s.isClosed = false
  two : 2 ≤ s.vertexes.length
  along : Along p (g i) s.vertexes (g (i + 1))
  only : ∀ q offset long s', KeptPiece q p offset long cs i s' →
    s' = s ∧ ∀ v ∈ s.vertexes, FarEnough q offset v.pos
  kept : ∀ q offset long, Passes q p offset (g i) (g (i + 1)) → long s → KeptPiece q p offset long cs i s

theorem CutPos.shape_within (h : CutPos p cs T g) (hc : p.isClosed = true) (h2 : 2 ≤ p.size) (hok : PlineOk p)
    (hex : CleanCuts p cs) {i : ℕ} {c c' : Cut} (hci : cs[i]? = some c) (hi : i + 1 < cs.length)
    (hci' : cs[i + 1]? = some c') (hseg : c'.seg = c.seg) : ∃ s, Shape p cs g i s := by
  have hcm := List.mem_of_getElem? hci
  have hcm' := List.mem_of_getElem? hci'
  obtain ⟨a1, a2, a3, a4⟩ := h.param c hcm
  obtain ⟨-, b2, b3, b4⟩ := h.param c' hcm'
  have hg := h.cut i c hci
  have hg' := h.cut (i + 1) c' hci'
  have hT : T c < T c' := by
    have := h.mono i (by omega)
    rw [hg, hg', hseg] at this
    linarith
  have hsg := rv_seg_lt hc h2 a1
  have htake : cs.take i ++ [c] = cs.take (i + 1) := by
    rw [List.take_add_one, hci]; rfl
  have hsub : ((cs.take i ++ [c]).filter fun d => decide (d.seg = c.seg)).Sublist cs := by
    rw [htake]
    exact (List.filter_sublist).trans (List.take_sublist _ _)
  have hdm : ∀ d ∈ (cs.take i ++ [c]).filter fun d => decide (d.seg = c.seg),
      d ∈ cs ∧ d.seg = c.seg ∧ 0 < T d := by
    intro d hd
    have := hsub.mem hd
    exact ⟨this, by simpa using (List.mem_filter.1 hd).2, (h.param d this).2.1⟩
  obtain ⟨u, b, w1, w2, w3, w4⟩ := h.rest hc h2 hex hdm
    (List.Pairwise.imp_of_mem (fun ha hb hab => hab ((hdm _ ha).2.1.trans (hdm _ hb).2.1.symm))
      (h.sorted.sublist hsub))
    (mark_start p cs c.seg c.seg) (Sub.whole (rv_ok hc h2 hok _) (exact_far hc h2 hex _))
  have hb : b = T c := by
    rw [w4, List.filter_append, List.map_append]
    simp
  subst hb
  have hup : u.pos = c.pos := by rw [w3.start, a4]
  obtain ⟨r, r1, r2, r3, r4, r5⟩ := h.split hc h2 hex hcm' (u := u) (w := rv p (c.seg + 1)) (a := T c) (b := 1)
    (by rw [hseg]; exact w3) (by rw [hseg]; exact w2) (by rw [hseg]; exact mark_end p cs _ _) hT b3
  rw [hseg] at r2
  refine ⟨⟨false, [r.updatedStart, r.splitVertex]⟩, rfl, le_refl _, ?_, ?_, ?_⟩
  · refine ⟨c.seg, T c, T c', hg, a2.le, b3.le, r2, ?_, ?_⟩
    · rw [hg', hseg]
    · rw [r5, ← h.trace hci', hg', hseg]
  · rintro q offset long s' ⟨d, d', q1, q2, hk⟩
    rw [hci] at q1
    cases q1
    rw [Nat.mod_eq_of_lt hi, hci'] at q2
    cases q2
    rcases hk with ⟨-, -, ⟨v0, e0, u0, r0, g1, g2, g3, g4⟩, -, u1, w', m, k1, k2, k3, -⟩ | ⟨(⟨-, hk⟩ | ⟨hk, -⟩), -⟩ | ⟨hk, -⟩
    · obtain ⟨rfl, rfl⟩ := isSeg_inj hsg g1
      obtain rfl := rest_inj w1 g2
      rw [r1] at g3
      cases g3
      refine ⟨g4, ?_⟩
      rw [g4] at k1
      cases k1
      intro v hv
      simp only [List.mem_cons, List.not_mem_nil, or_false] at hv
      rcases hv with rfl | rfl
      · exact k2
      · exact k3
    · exact absurd hseg hk
    · omega
    · omega
  · intro q offset long ht hl
    obtain ⟨m, hm, hm'⟩ := C16_segMidpoint r2.ok
    have hmon := h.mono i (by omega)
    refine ⟨c, c', hci, by rw [Nat.mod_eq_of_lt hi]; exact hci', Or.inl ⟨hi, hseg,
      ⟨_, _, u, r, hsg, w1, r1, rfl⟩, ?_, _, _, m, rfl, ?_, ?_, hm, ?_, ?_⟩⟩
    · intro hty
      exact r2.far (hty r.updatedStart (by simp) r.splitVertex (by simp))
    · rw [r4, hup, ← h.trace hci]
      exact ht.far _ (le_refl _) hmon.le
    · rw [r5, ← h.trace hci']
      exact ht.far _ hmon.le (le_refl _)
    · rw [atParam_segPt, r2.pts] at hm'
      have := ht.far (c.seg + (T c + (T c' - T c) * (1 / 2))) (by rw [hg]; linarith) (by rw [hg', hseg]; linarith)
      rw [trace_on (k := c.seg) (by linarith) (by linarith), add_sub_cancel_left, ← hm'] at this
      exact this
    · exact ht.meets c.seg (T c) (T c') _ _ a2.le b3.le (by rw [hg]) (by rw [hg', hseg]) r2

theorem CutPos.shape_across (h : CutPos p cs T g) (hc : p.isClosed = true) (h2 : 2 ≤ p.size) (hok : PlineOk p)
    (hex : CleanCuts p cs) {i : ℕ} {c c' : Cut} (hci : cs[i]? = some c)
    (hci' : cs[(i + 1) % cs.length]? = some c')
    (hcase : i + 1 < cs.length ∧ c'.seg ≠ c.seg ∨ i + 1 = cs.length) : ∃ s, Shape p cs g i s := by
  have hcm := List.mem_of_getElem? hci
  have hcm' := List.mem_of_getElem? hci'
  obtain ⟨hi, -⟩ := List.getElem?_eq_some_iff.1 hci
  have hne : cs ≠ [] := by rintro rfl; simp at hi
  obtain ⟨a1, a2, a3, a4⟩ := h.param c hcm
  obtain ⟨b1, b2, b3, b4⟩ := h.param c' hcm'
  have hg := h.cut i c hci
  have hsg := rv_seg_lt hc h2 a1
  have hsg' := rv_seg_lt hc h2 b1
  have hmon := h.mono i hi
  obtain ⟨m, hm, hm1, hg'⟩ : ∃ m, m < p.size ∧ (c'.seg + p.size - (c.seg + 1)) % p.size = m ∧
      g (i + 1) = ((c.seg + 1 + m : ℕ) : ℝ) + T c' ∧ (c.seg + 1 + m) % p.size = c'.seg := by
    by_cases he : i + 1 = cs.length
    · rw [he, Nat.mod_self] at hci'
      have hg0 := h.cut 0 c' hci'
      have hle : c'.seg ≤ c.seg := by
        by_contra hn
        have : (c.seg : ℝ) + 1 ≤ c'.seg := by exact_mod_cast not_le.1 hn
        have := h.le (Nat.zero_le i) hi.le
        rw [hg, hg0] at this
        linarith
      refine ⟨c'.seg + p.size - (c.seg + 1), by omega, Nat.mod_eq_of_lt (by omega), ?_, ?_⟩
      · rw [he, h.around, hg0, show c.seg + 1 + (c'.seg + p.size - (c.seg + 1)) = c'.seg + p.size by omega]
        push_cast
        ring
      · rw [show c.seg + 1 + (c'.seg + p.size - (c.seg + 1)) = c'.seg + p.size by omega, Nat.add_mod_right,
          Nat.mod_eq_of_lt b1]
    · have hi1 : i + 1 < cs.length := by omega
      rw [Nat.mod_eq_of_lt hi1] at hci'
      have hg1 := h.cut (i + 1) c' hci'
      have hlt : c.seg < c'.seg := by
        rcases hcase with ⟨-, hcase⟩ | hcase
        · by_contra hn
          have : (c'.seg : ℝ) + 1 ≤ c.seg := by exact_mod_cast (show c'.seg + 1 ≤ c.seg by omega)
          rw [hg, hg1] at hmon
          linarith
        · omega
      refine ⟨c'.seg - (c.seg + 1), by omega, ?_, ?_, ?_⟩
      · rw [show c'.seg + p.size - (c.seg + 1) = c'.seg - (c.seg + 1) + p.size by omega, Nat.add_mod_right,
          Nat.mod_eq_of_lt (by omega)]
      · rw [hg1, show c.seg + 1 + (c'.seg - (c.seg + 1)) = c'.seg by omega]
      · rw [show c.seg + 1 + (c'.seg - (c.seg + 1)) = c'.seg by omega, Nat.mod_eq_of_lt b1]
  obtain ⟨hg', hmod⟩ := hg'
  obtain ⟨r, r1, -, r3, -, r5⟩ := h.split hc h2 hex hcm (u := rv p c.seg) (w := rv p (c.seg + 1)) (a := 0) (b := 1)
    (Sub.whole (rv_ok hc h2 hok _) (exact_far hc h2 hex _)) (mark_start p cs _ _) (mark_end p cs _ _) a2 a3
  obtain ⟨r', s1, s2, -, s4, s5⟩ := h.split hc h2 hex hcm' (u := rv p c'.seg) (w := rv p (c'.seg + 1)) (a := 0)
    (b := 1) (Sub.whole (rv_ok hc h2 hok _) (exact_far hc h2 hex _)) (mark_start p cs _ _) (mark_end p cs _ _) b2 b3
  have hrv : rv p (c.seg + 1 + m) = rv p c'.seg := by rw [← rv_mod, hmod]
  have hrv1 : rv p (c.seg + 1 + m + 1) = rv p (c'.seg + 1) := by rw [← rv_mod_succ, hmod]
  have hsub : Sub r'.updatedStart ⟨c'.pos, 0⟩ (rv p (c.seg + 1 + m)) (rv p (c.seg + 1 + m + 1)) 0 (T c') := by
    rw [hrv, hrv1]
    exact s2.congr s5
  have hrun := along_run hc h2 hok hex b3.le m (c.seg + 1) hsub (by rw [s4, hrv])
  have hws : (p.vertexes.rotate (c.seg + 1)).take ((c'.seg + p.vertexes.length - (c.seg + 1)) %
      p.vertexes.length + 1) = (List.range (m + 1)).map fun j => rv p (c.seg + 1 + j) := by
    have hsz : p.vertexes.length = p.size := rfl
    rw [hsz, hm1, rotate_take (by omega)]
    rfl
  have hchain : List.IsChain (fun a b : Vertex => ¬ Near (1 / 10 ^ 5) a.pos b.pos ∧
      ∃ (k : ℕ) (s : ℝ), c.seg + T c ≤ k + s ∧ 0 ≤ s ∧ k ≤ c.seg + m ∧ Sub a b (rv p k) (rv p (k + 1)) s 1)
      (r.splitVertex :: (List.range (m + 1)).map fun j => rv p (c.seg + 1 + j)) := by
    rw [List.range_succ_eq_map, List.map_cons, List.isChain_cons_cons]
    refine ⟨⟨r3.far, c.seg, T c, le_refl _, a2.le, by omega, r3⟩, ?_⟩
    rw [← List.map_cons (f := fun j => rv p (c.seg + 1 + j)), ← List.range_succ_eq_map, List.isChain_iff_getElem]
    intro j hj
    simp only [List.length_map, List.length_range] at hj
    simp only [List.getElem_map, List.getElem_range]
    refine ⟨exact_far hc h2 hex _, c.seg + 1 + j, 0, ?_, le_refl _, by omega,
      Sub.whole (rv_ok hc h2 hok _) (exact_far hc h2 hex _)⟩
    push_cast
    have : (0 : ℝ) ≤ j := Nat.cast_nonneg _
    linarith
  have hfold := foldl_joined (vs := []) (hchain.imp fun _ _ h => h.1)
  rw [List.nil_append, List.nil_append] at hfold
  have hsnoc : r.splitVertex :: (List.range (m + 1)).map (fun j => rv p (c.seg + 1 + j)) =
      (r.splitVertex :: (List.range m).map fun j => rv p (c.seg + 1 + j)) ++ [rv p c'.seg] := by
    rw [List.range_succ, List.map_append, ← List.cons_append, List.map_singleton, hrv]
  have hjoin : joined ((r.splitVertex :: (List.range m).map fun j => rv p (c.seg + 1 + j)) ++ [r'.updatedStart])
      ⟨c'.pos, 0⟩ = r.splitVertex :: ((List.range m).map (fun j => rv p (c.seg + 1 + j)) ++
        [r'.updatedStart, ⟨c'.pos, 0⟩]) := by
    rw [joined_far (by rw [← s5]; exact s2.far)]
    simp
  refine ⟨⟨false, r.splitVertex :: ((List.range m).map (fun j => rv p (c.seg + 1 + j)) ++
        [r'.updatedStart, ⟨c'.pos, 0⟩])⟩, rfl, by simp, ?_, ?_, ?_⟩
  · rw [hg, hg']
    generalize hl : (List.range m).map (fun j => rv p (c.seg + 1 + j)) ++ [r'.updatedStart, ⟨c'.pos, 0⟩] = l
      at hrun
    cases l with
    | nil => simp at hl
    | cons z l =>
      obtain ⟨z', hz', hzp⟩ := hrun.head
      cases hz'
      have hz : (rv p (c.seg + 1)).pos = z.pos := by
        rw [hzp, trace_on (k := c.seg + 1) (le_refl _) (by linarith), sub_self, segPt_zero]
      refine ⟨c.seg, T c, 1, rfl, a2.le, le_refl _, r3.congr hz, ?_⟩
      push_cast at hrun ⊢
      exact hrun
  · rintro q offset long s' ⟨d, d', q1, q2, hk⟩
    rw [hci] at q1
    cases q1
    rw [hci'] at q2
    cases q2
    rcases hk with ⟨k1, k2, -⟩ | ⟨-, ⟨v0, e0, r0, us, u0, v0', e0', r0', mm, g1, g2, g3, g4, g5, g6, g7, g8, g9, g10, g11⟩, -, -⟩ | ⟨-, hk, -⟩
    · rcases hcase with ⟨-, hcase⟩ | hcase
      · exact absurd k2 hcase
      · omega
    · obtain ⟨rfl, rfl⟩ := isSeg_inj hsg g1
      rw [r1] at g2
      cases g2
      rw [hws] at g4 g5
      obtain ⟨rfl, rfl⟩ := isSeg_inj hsg' g7
      rw [hfold, hsnoc] at g5
      obtain ⟨e1, e2⟩ := List.append_inj' g5 rfl
      cases e2
      subst e1
      rw [s1] at g8
      cases g8
      rw [hjoin] at g11
      refine ⟨g11, ?_⟩
      intro v hv
      have hpf := passable_far g4
      simp only [List.mem_cons, List.mem_append, List.not_mem_nil, or_false] at hv
      rcases hv with rfl | hv | rfl | rfl
      · rw [r5]; exact g3
      · obtain ⟨j, hj, rfl⟩ := List.mem_map.1 hv
        rw [List.mem_range] at hj
        exact hpf _ (List.mem_map.2 ⟨j, List.mem_range.2 (by omega), rfl⟩)
      · rw [s4, ← hrv]
        exact hpf _ (List.mem_map.2 ⟨m, List.mem_range.2 (by omega), rfl⟩)
      · exact g6
    · rw [hc] at hk
      cases hk
  · intro q offset long ht hl
    obtain ⟨mp, hmp, hmp'⟩ := C16_segMidpoint hsub.ok
    refine ⟨c, c', hci, hci', Or.inr (Or.inl ⟨?_, ⟨_, _, r,
      r.splitVertex :: (List.range m).map (fun j => rv p (c.seg + 1 + j)), rv p c'.seg, _, _, r', mp, hsg, r1, ?_, ?_,
      ?_, ?_, hsg', s1, hmp, ?_, by rw [hjoin]⟩, by simp, hl⟩)⟩
    · rcases hcase with hcase | hcase
      · exact Or.inl hcase
      · exact Or.inr ⟨hcase, hc⟩
    · rw [← h.trace hci]
      exact ht.far _ (le_refl _) hmon.le
    · rw [hws, show [r.splitVertex] = [] ++ [r.splitVertex] from rfl]
      apply passable_run
      · refine hchain.imp fun a b hab => ⟨hab.1, ?_⟩
        obtain ⟨-, k, s, k1, k2, k3, k4⟩ := hab
        refine ht.meets k s 1 _ _ k2 (le_refl _) (by rw [hg]; exact k1) ?_ k4
        rw [hg']
        have : (k : ℝ) ≤ ((c.seg + m : ℕ) : ℝ) := by exact_mod_cast k3
        push_cast at this ⊢
        linarith
      · intro w hw
        obtain ⟨j, hj, rfl⟩ := List.mem_map.1 hw
        rw [List.mem_range] at hj
        have htr : Cavc.trace p ((c.seg + 1 + j : ℕ) : ℝ) = (rv p (c.seg + 1 + j)).pos := by
          rw [trace_on (k := c.seg + 1 + j) (le_refl _) (by linarith), sub_self, segPt_zero]
        rw [← htr]
        have hjm : (j : ℝ) ≤ m := by exact_mod_cast (show j ≤ m by omega)
        have hj0 : (0 : ℝ) ≤ j := Nat.cast_nonneg _
        apply ht.far
        · rw [hg]; push_cast; linarith
        · rw [hg']; push_cast; linarith
    · rw [hws, hfold, hsnoc]
    · rw [← h.trace_next hne hi hci']
      exact ht.far _ hmon.le (le_refl _)
    · rw [atParam_segPt, hsub.pts] at hmp'
      have hm0 : (0 : ℝ) ≤ m := Nat.cast_nonneg _
      have := ht.far ((c.seg + 1 + m : ℕ) + (0 + (T c' - 0) * (1 / 2)))
        (by rw [hg]; push_cast; linarith) (by rw [hg']; linarith)
      rw [trace_on (k := c.seg + 1 + m) (by linarith) (by linarith), add_sub_cancel_left, ← hmp'] at this
      exact this

/-- The piece between a cut and the next one. -/
theorem CutPos.shape (h : CutPos p cs T g) (hc : p.isClosed = true) (h2 : 2 ≤ p.size) (hok : PlineOk p)
    (hex : CleanCuts p cs) {i : ℕ} (hi : i < cs.length) : ∃ s, Shape p cs g i s := by
  have hlt : (i + 1) % cs.length < cs.length := Nat.mod_lt _ (by omega)
  by_cases he : i + 1 = cs.length
  · exact h.shape_across hc h2 hok hex (List.getElem?_eq_getElem hi) (List.getElem?_eq_getElem hlt) (Or.inr he)
  · by_cases hs : cs[i + 1].seg = cs[i].seg
    · exact h.shape_within hc h2 hok hex (List.getElem?_eq_getElem hi) (by omega)
        (List.getElem?_eq_getElem (by omega)) hs
    · refine h.shape_across hc h2 hok hex (List.getElem?_eq_getElem hi) (c' := cs[i + 1]) ?_
        (Or.inl ⟨by omega, hs⟩)
      rw [Nat.mod_eq_of_lt (by omega)]
      exact List.getElem?_eq_getElem (by omega)

end

end
end Cavc

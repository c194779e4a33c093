import Verif.Proofs.GeneralPos

/-! Polygons that are cut at points of their edges: the pieces the code makes are the ones of `CutPoly`. -/
namespace Cavc
open Spec
open scoped Classical
noncomputable section

/-! ### Winding numbers of polygons -/

/-- The positions of the vertexes. -/
def pts (p : Polyline) : List V2 := p.vertexes.map Vertex.pos

/-- The positions of the vertexes of a closed polyline, over and over. -/
def ppos (p : Polyline) (k : ℕ) : V2 := (vtx p (k % p.size)).pos

theorem ppos_per (p : Polyline) (k : ℕ) : ppos p (k + p.size) = ppos p k := by
  unfold ppos; rw [Nat.add_mod_right]

theorem ppos_seg {p : Polyline} {i : ℕ} {v e : Vertex} (hc : p.isClosed = true) (h : IsSeg p i v e) :
    i < p.size ∧ 2 ≤ p.size ∧ v = vtx p i ∧ e = vtx p ((i + 1) % p.size) ∧ ppos p i = v.pos ∧
      ppos p (i + 1) = e.pos := by
  obtain ⟨h1, -, h2, -, -⟩ := seg_lt h
  have := closed_isSeg hc h2 h1
  obtain ⟨rfl, rfl⟩ := isSeg_inj h this
  refine ⟨h1, h2, rfl, rfl, ?_, rfl⟩
  unfold ppos
  rw [Nat.mod_eq_of_lt h1]

theorem polygon_getWinding {p : Polyline} (hc : p.isClosed = true) (hl : ∀ v ∈ p.vertexes, IsLine v)
    (x : V2) : getWindingNumber p x = .ok (if p.size < 2 then 0 else edgesW (polyEdges (ppos p) p.size) x) := by
  unfold getWindingNumber
  by_cases h2 : p.size < 2
  · rw [if_pos (Or.inr h2), if_pos h2]
  · rw [if_neg (by simp [hc]; omega), if_neg h2, visitAll_eq,
      foldlM_add _ (fun x' => lineWinding x'.1 x'.2.1 x), zero_add, sum_visitList, polyEdges_W, segs_length,
      if_neg h2, if_pos hc]
    · congr 1
      apply Finset.sum_congr rfl
      intro i hi
      rw [Finset.mem_range] at hi
      simp only
      rw [lineWinding_eq]
      have e := closed_isSeg hc (by omega) hi
      obtain ⟨-, -, -, -, e1, e2⟩ := ppos_seg hc e
      rw [isSeg_iff] at e
      rw [e1, e2, ← e.2.2]
    · rintro ⟨v1, v2, i⟩ hx st
      have hs := mem_visitList.1 hx
      obtain ⟨a, -, -, rfl, -⟩ := seg_lt hs
      unfold windingVisitor
      rw [if_pos (show (vtx p i).bulgeIsZero from hl _ (vtx_mem a))]

theorem pts_eq (p : Polyline) : pts p = (List.range p.size).map (ppos p) := by
  unfold pts
  apply List.ext_getElem
  · simp [Polyline.size]
  · intro i h1 h2
    simp only [List.length_map] at h1
    simp only [List.getElem_map, List.getElem_range]
    unfold ppos
    rw [Nat.mod_eq_of_lt (show i < p.size from h1)]
    unfold vtx
    rw [List.getD_eq_getElem _ _ h1]

theorem pts_path (p : Polyline) : pathEdges (pts p ++ [ppos p 0]) = polyEdges (ppos p) p.size := by
  have e : pts p ++ [ppos p 0] = (List.range (p.size + 1)).map (ppos p) := by
    rw [List.range_succ, List.map_append, ← pts_eq]
    congr 1
    simp only [List.map_cons, List.map_nil]
    have := ppos_per p 0
    rw [zero_add] at this
    rw [this]
  rw [e, pathEdges_map]
  rfl

theorem polygon_onPline {p : Polyline} (hc : p.isClosed = true) (hl : ∀ v ∈ p.vertexes, IsLine v) {x : V2} :
    OnPline p x ↔ 2 ≤ p.size ∧ ∃ k < p.size, OnLine (ppos p k) (ppos p (k + 1)) x := by
  constructor
  · rintro ⟨i, v, e, hs, t, h0, h1, h⟩
    obtain ⟨a, b, c, -, e1, e2⟩ := ppos_seg hc hs
    refine ⟨b, i, a, t, h0, h1, ?_⟩
    rw [e1, e2]
    rcases h with h | h
    · exact h.2
    · exact absurd (by rw [c]; exact hl _ (vtx_mem a)) h.1
  · rintro ⟨h2, k, hk, t, h0, h1, h⟩
    have hs := closed_isSeg hc h2 hk
    obtain ⟨a, b, c, -, e1, e2⟩ := ppos_seg hc hs
    refine ⟨k, _, _, hs, t, h0, h1, Or.inl ⟨hl _ (vtx_mem a), ?_⟩⟩
    rw [h, e1, e2]

theorem lines_ok {p : Polyline} (hl : ∀ v ∈ p.vertexes, IsLine v) : PlineOk p := by
  intro i v1 v2 hs
  obtain ⟨a, -, -, rfl, -⟩ := seg_lt hs
  have := hl _ (vtx_mem a)
  exact ⟨le_trans (le_of_lt this) (by norm_num), fun hn => absurd this hn⟩

/-- The winding number of the specification is the one the code computes. -/
theorem winding_iff {p : Polyline} (hok : PlineOk p) (hc : p.isClosed = true) {x : V2} (hoff : ¬ OnPline p x)
    {k : ℤ} : Winding p x k ↔ getWindingNumber p x = .ok k := by
  constructor
  · rintro ⟨γ, hγ, hk⟩
    obtain ⟨k', h1, h2⟩ := C25_getWindingNumber p hok hc x hoff γ hγ
    rw [h1]
    have : k = k' := by exact_mod_cast hk.trans h2.symm
    rw [this]
  · intro h
    obtain ⟨γ, hγ⟩ := exists_path p
    obtain ⟨k', h1, h2⟩ := C25_getWindingNumber p hok hc x hoff γ hγ
    rw [h] at h1
    cases h1
    exact ⟨γ, hγ, h2⟩

/-! ### Cuts -/

/-- A cut inside a segment, away from its ends. -/
def CutIn (p : Polyline) (d : Cut) : Prop :=
  ∃ v e t, IsSeg p d.seg v e ∧ 0 < t ∧ t < 1 ∧ d.pos = lerp v.pos e.pos t ∧
    ¬ Near (1 / 10 ^ 5) d.pos v.pos ∧ ¬ Near (1 / 10 ^ 5) d.pos e.pos ∧ d.overlap = false

theorem dist2_lerp (a b : V2) (t : ℝ) : dist2 a (lerp a b t) = t ^ 2 * dist2 a b := by
  simp only [dist2, lerp]; ring

/-- The cut polygon is the polyline with the cuts of the list. -/
structure CutOf (p : Polyline) (cs : List Cut) (c : CutPoly) : Prop where
  n_eq : c.n = p.size
  P_eq : c.P = ppos p
  N_eq : c.N = cs.length
  cut : ∀ j d, cs[j % cs.length]? = some d → c.K j = d.seg + p.size * (j / cs.length) ∧ c.pos j = d.pos

/-- The cut polygon for cuts in the order along it. -/
theorem exists_cutPoly {p : Polyline} (hc : p.isClosed = true) {cs : List Cut} (hN : cs ≠ [])
    (hal : AlongPline p cs) (hin : ∀ d ∈ cs, CutIn p d) (hsep : cs.Pairwise fun a b => a.pos ≠ b.pos) :
    ∃ c : CutPoly, CutOf p cs c := by
  have hN' : 0 < cs.length := List.length_pos_iff.2 hN
  have : Nonempty Vertex := ⟨⟨⟨0, 0⟩, 0⟩⟩
  choose! v e t h1 h2 h3 h4 h5 using hin
  obtain ⟨d0, hd0⟩ := List.exists_mem_of_ne_nil _ hN
  obtain ⟨D, hD⟩ : ∃ D : ℕ → Cut, ∀ j, cs[j % cs.length]? = some (D j) := by
    refine ⟨fun j => cs.getD (j % cs.length) d0, fun j => ?_⟩
    have := Nat.mod_lt j hN'
    simp only
    rw [List.getD_eq_getElem _ _ this, List.getElem?_eq_getElem this]
  have hDm : ∀ j, D j ∈ cs := fun j => List.mem_of_getElem? (hD j)
  have hDper : ∀ j, D (j + cs.length) = D j := by
    intro j
    have := hD (j + cs.length)
    rw [Nat.add_mod_right, hD j] at this
    exact (Option.some.inj this).symm
  have hsz : ∀ j, (D j).seg < p.size := fun j => (ppos_seg hc (h1 _ (hDm j))).1
  have hord : ∀ j, j % cs.length + 1 < cs.length → (D j).seg < (D (j + 1)).seg ∨
      ((D j).seg = (D (j + 1)).seg ∧ t (D j) < t (D (j + 1))) := by
    intro j hj
    have hmod : (j + 1) % cs.length = j % cs.length + 1 := by
      rw [Nat.add_mod, Nat.mod_eq_of_lt (show 1 < cs.length by omega), Nat.mod_eq_of_lt hj]
    have q1 := hD j
    have q2 := hD (j + 1)
    rw [hmod] at q2
    obtain ⟨b1, q1'⟩ := List.getElem?_eq_some_iff.1 q1
    obtain ⟨b2, q2'⟩ := List.getElem?_eq_some_iff.1 q2
    have r1 := (List.pairwise_iff_getElem.1 hal) _ _ b1 b2 (by omega)
    have r2 := (List.pairwise_iff_getElem.1 hsep) _ _ b1 b2 (by omega)
    rw [q1', q2'] at r1 r2
    rcases r1 with r1 | ⟨r1, r3⟩
    · exact Or.inl r1
    · refine Or.inr ⟨r1, ?_⟩
      have s1 := h1 _ (hDm j)
      have s2 := h1 _ (hDm (j + 1))
      rw [← r1] at s2
      obtain ⟨ev, ee⟩ := isSeg_inj s1 s2
      have r4 := r3 _ _ s1
      rw [h4 _ (hDm j)] at r4
      rw [show (D (j + 1)).pos = lerp (v (D j)).pos (e (D j)).pos (t (D (j + 1))) by
        rw [h4 _ (hDm (j + 1)), ev, ee]] at r4
      rw [dist2_lerp, dist2_lerp] at r4
      have p1 := h2 _ (hDm j)
      have p2 := h2 _ (hDm (j + 1))
      by_contra hlt
      rw [not_lt] at hlt
      rcases hlt.lt_or_eq with hlt | heq
      · have hd : dist2 (v (D j)).pos (e (D j)).pos ≤ 0 := by
          by_contra hd
          rw [not_le] at hd
          have : t (D (j + 1)) ^ 2 < t (D j) ^ 2 := by nlinarith
          nlinarith
        have hd0 : dist2 (v (D j)).pos (e (D j)).pos = 0 := le_antisymm hd (by unfold dist2; positivity)
        have hve : (v (D j)).pos = (e (D j)).pos := by
          unfold dist2 at hd0
          have a1 : (v (D j)).pos.x - (e (D j)).pos.x = 0 := by nlinarith [sq_nonneg ((v (D j)).pos.x - (e (D j)).pos.x), sq_nonneg ((v (D j)).pos.y - (e (D j)).pos.y)]
          have a2 : (v (D j)).pos.y - (e (D j)).pos.y = 0 := by nlinarith [sq_nonneg ((v (D j)).pos.x - (e (D j)).pos.x), sq_nonneg ((v (D j)).pos.y - (e (D j)).pos.y)]
          ext <;> linarith
        apply r2
        rw [h4 _ (hDm j), h4 _ (hDm (j + 1)), ← ev, ← ee, hve]
        ext <;> simp [lerp]
      · apply r2
        rw [h4 _ (hDm j), h4 _ (hDm (j + 1)), ← ev, ← ee, heq]
  have hfl : ∀ j, j % cs.length + 1 ≠ cs.length → (j + 1) / cs.length = j / cs.length := by
    intro j hj
    have := Nat.mod_lt j hN'
    rw [Nat.add_div hN', if_neg, Nat.add_zero]
    · by_cases h1 : cs.length = 1
      · omega
      · rw [Nat.div_eq_of_lt (show 1 < cs.length by omega), Nat.add_zero]
    · by_cases h1 : cs.length = 1
      · omega
      · rw [Nat.mod_eq_of_lt (show 1 < cs.length by omega)]
        omega
  have hfl' : ∀ j, j % cs.length + 1 = cs.length → (j + 1) / cs.length = j / cs.length + 1 := by
    intro j hj
    have e1 := Nat.div_add_mod j cs.length
    have : j + 1 = cs.length * (j / cs.length + 1) := by
      rw [Nat.mul_add, Nat.mul_one]
      omega
    rw [this, Nat.mul_div_cancel_left _ hN']
  refine ⟨⟨p.size, ppos p, cs.length, fun j => (D j).seg + p.size * (j / cs.length), fun j => t (D j), hN',
    ppos_per p, ?_, ?_, fun j => h2 _ (hDm j), fun j => h3 _ (hDm j), ?_⟩, rfl, rfl, rfl, ?_⟩
  · intro j
    rw [hDper, Nat.add_div_right _ hN', Nat.mul_add, Nat.mul_one]
    omega
  · intro j
    rw [hDper]
  · intro j
    by_cases hj : j % cs.length + 1 = cs.length
    · left
      rw [hfl' j hj, Nat.mul_add, Nat.mul_one]
      have := hsz j
      omega
    · rw [hfl j hj]
      have := Nat.mod_lt j hN'
      rcases hord j (by omega) with h | h
      · left; omega
      · right; exact ⟨by omega, h.2⟩
  · intro j d hd
    have : d = D j := by rw [hD j] at hd; exact (Option.some.inj hd).symm
    subst this
    obtain ⟨a1, a2, -, -, e1, e2⟩ := ppos_seg hc (h1 _ (hDm j))
    refine ⟨rfl, ?_⟩
    unfold CutPoly.pos
    simp only
    have m1 : ppos p ((D j).seg + p.size * (j / cs.length)) = ppos p (D j).seg := by
      unfold ppos; rw [Nat.add_mul_mod_self_left]
    have m2 : ppos p ((D j).seg + p.size * (j / cs.length) + 1) = ppos p ((D j).seg + 1) := by
      rw [show (D j).seg + p.size * (j / cs.length) + 1 = (D j).seg + 1 + p.size * (j / cs.length) by omega]
      unfold ppos; rw [Nat.add_mul_mod_self_left]
    rw [m1, m2, e1, e2, h4 _ (hDm j)]

/-! ### Pieces -/

/-- The midpoint of the last edge of a piece. -/
def CutPoly.mid (c : CutPoly) (j : ℕ) : V2 :=
  lerp (c.P (c.K (j + 1))) (c.P (c.K (j + 1) + 1))
    (if c.K (j + 1) = c.K j then c.T j + 1 / 2 * (c.T (j + 1) - c.T j) else 1 / 2 * c.T (j + 1))

theorem near_symm {ε : ℝ} {a b : V2} (h : Near ε a b) : Near ε b a := by
  unfold Near at h ⊢
  rwa [abs_sub_comm b.x, abs_sub_comm b.y]

theorem split_line {v e : Vertex} (h : IsLine v) (x : V2) : splitAtPoint v e x = .ok ⟨v, ⟨x, 0⟩⟩ := by
  unfold splitAtPoint
  rw [if_pos (show v.bulgeIsZero from h)]

theorem line0 (x : V2) : IsLine ⟨x, 0⟩ := by
  unfold IsLine
  norm_num

theorem rest_line {e : Vertex} {x : V2} : ∀ {xs : List V2} {v u : Vertex}, IsLine v → Rest e v (xs ++ [x]) u →
    u = ⟨x, 0⟩
  | [], v, u, hv, h => by
    obtain ⟨r, h1, h2⟩ := h
    rw [split_line hv] at h1
    cases h1
    exact h2
  | y :: ys, v, u, hv, h => by
    obtain ⟨r, h1, h2⟩ := h
    rw [split_line hv] at h1
    cases h1
    exact rest_line (line0 y) h2

theorem joined_far {vs : List Vertex} {u v : Vertex} (h : ¬ Near (1 / 10 ^ 5) u.pos v.pos) :
    joined (vs ++ [u]) v = vs ++ [u] ++ [v] := by
  unfold joined
  rw [List.getLast?_append_of_ne_nil _ (by simp)]
  simp only [List.getLast?_singleton]
  rw [if_neg h]

theorem foldl_joined : ∀ {ws vs : List Vertex} {u : Vertex},
    List.IsChain (fun a b : Vertex => ¬ Near (1 / 10 ^ 5) a.pos b.pos) (u :: ws) →
    ws.foldl joined (vs ++ [u]) = vs ++ u :: ws
  | [], vs, u, _ => rfl
  | w :: ws, vs, u, h => by
    rw [List.isChain_cons_cons] at h
    rw [List.foldl_cons, joined_far h.1, foldl_joined h.2]
    simp

theorem rotate_take {p : Polyline} {k m : ℕ} (hm : m ≤ p.size) : (p.vertexes.rotate k).take m =
    (List.range m).map fun i => vtx p ((k + i) % p.size) := by
  have hl : p.vertexes.length = p.size := rfl
  apply List.ext_getElem
  · simp only [List.length_take, List.length_rotate, List.length_map, List.length_range, hl]
    omega
  · intro i h1 h2
    simp only [List.length_map, List.length_range] at h2
    rw [List.getElem_take, List.getElem_rotate]
    simp only [List.getElem_map, List.getElem_range]
    unfold vtx
    have : (k + i) % p.size < p.vertexes.length := by rw [hl]; exact Nat.mod_lt _ (by omega)
    rw [List.getD_eq_getElem _ _ this]
    congr 1
    rw [hl, Nat.add_comm]

/-- What comes of a cut is the piece of the cut polygon, if it is kept. -/
theorem slice_piece {p : Polyline} (hp : Polygon p) {cs : List Cut} (hin : ∀ d ∈ cs, CutIn p d)
    (hsep : cs.Pairwise fun a b => ¬ Near (1 / 10 ^ 5) a.pos b.pos) {c : CutPoly} (hcut : CutOf p cs c)
    {keep : V2 → Prop} {i : ℕ} {o : Option Polyline} (h : SliceAt p keep cs i o) :
    ∃ s : Polyline, pts s = c.piece i ∧ (∀ v ∈ s.vertexes, IsLine v) ∧ s.isClosed = false ∧
      o = if keep (c.mid i) then some s else none := by
  obtain ⟨d, d', hd, hd', h⟩ := h
  obtain ⟨hi, -⟩ := List.getElem?_eq_some_iff.1 hd
  have hd0 : cs[i % cs.length]? = some d := by rw [Nat.mod_eq_of_lt hi]; exact hd
  obtain ⟨k1, k2⟩ := hcut.cut i d hd0
  obtain ⟨k3, k4⟩ := hcut.cut (i + 1) d' hd'
  rw [Nat.div_eq_of_lt hi, Nat.mul_zero, Nat.add_zero] at k1
  obtain ⟨v, e, t, hs, t0, t1, hpos, f1, f2, f3⟩ := hin d (List.mem_of_getElem? hd)
  obtain ⟨v', e', t', hs', t0', t1', hpos', f1', f2', -⟩ := hin d' (List.mem_of_getElem? hd')
  obtain ⟨b1, b2, b3, b4, b5, b6⟩ := ppos_seg hp.closed hs
  obtain ⟨b1', -, b3', b4', b5', b6'⟩ := ppos_seg hp.closed hs'
  have hK : c.K (i + 1) = d'.seg + (if i + 1 = cs.length then p.size else 0) := by
    rw [k3]
    by_cases he : i + 1 = cs.length
    · rw [if_pos he, he, Nat.div_self (by omega), Nat.mul_one]
    · rw [if_neg he, Nat.div_eq_of_lt (by omega), Nat.mul_zero]
  rcases h with ⟨h, -⟩ | ⟨-, h1, h2, s, h3, h4⟩ | ⟨-, h1, s, h3, h4⟩
  · rw [f3] at h; exact absurd h (by simp)
  · replace hK : c.K (i + 1) = c.K i := by rw [hK, if_neg (by omega), k1, h2]; rfl
    obtain ⟨v0, e0, u, r, g1, g2, g3, g4⟩ := h3
    obtain ⟨rfl, rfl⟩ := isSeg_inj hs g1
    have gl : ((cs.take i ++ [d]).filter fun d_1 => decide (d_1.seg = d.seg)).map Cut.pos =
        ((cs.take i).filter fun d_1 => decide (d_1.seg = d.seg)).map Cut.pos ++ [d.pos] := by
      rw [List.filter_append, List.map_append]
      simp
    rw [gl] at g2
    have hu := rest_line (hp.line hs) g2
    subst hu
    rw [split_line (line0 _)] at g3
    cases g3
    have hfar : ¬ Near (1 / 10 ^ 5) d.pos d'.pos := by
      rw [Nat.mod_eq_of_lt h1] at hd'
      obtain ⟨q1, q2⟩ := List.getElem?_eq_some_iff.1 hd
      obtain ⟨q3, q4⟩ := List.getElem?_eq_some_iff.1 hd'
      have := (List.pairwise_iff_getElem.1 hsep) _ _ q1 q3 (by omega)
      rwa [q2, q4] at this
    refine ⟨s, ?_, ?_, by rw [g4], ?_⟩
    · rw [g4]
      unfold pts CutPoly.piece
      rw [if_pos hK, k2, k4]
      rfl
    · rw [g4]
      intro w hw
      simp only [List.mem_cons, List.not_mem_nil, or_false] at hw
      rcases hw with rfl | rfl <;> exact line0 _
    · rw [h4]
      have hm : segMidpoint (⟨d.pos, 0⟩ : Vertex) ⟨d'.pos, 0⟩ = .ok (c.mid i) := by
        unfold segMidpoint
        rw [if_pos (show (⟨d.pos, 0⟩ : Vertex).bulgeIsZero from line0 _)]
        congr 1
        unfold CutPoly.mid
        rw [if_pos hK, ← k2, ← k4]
        unfold CutPoly.pos
        rw [hK]
        ext <;> simp only [midpoint, lerp] <;> ring
      have hk := keptBy_pair (keep := keep) (l := []) (c := false) hm
      have ht : ¬ Tiny s := by
        intro ht
        rw [g4] at ht
        exact hfar (ht ⟨d.pos, 0⟩ (by simp) ⟨d'.pos, 0⟩ (by simp))
      have hiff : (¬ Tiny s ∧ KeptBy keep s) = keep (c.mid i) := by
        apply propext
        rw [g4] at ht ⊢
        exact ⟨fun h => hk.1 h.2, fun h => ⟨ht, hk.2 h⟩⟩
      simp only [hiff]
  · have hle : i + 1 ≠ cs.length → d.seg < d'.seg := by
      intro he
      have h1' := h1.resolve_left he
      have := c.K_le i
      rw [hK, if_neg he, k1] at this
      omega
    have hd's : i + 1 = cs.length → d'.seg ≤ d.seg := by
      intro he
      rw [he, Nat.mod_self] at hd'
      have q := hcut.cut 0 d' (by rw [Nat.zero_mod]; exact hd')
      have := c.mono (Nat.zero_le i)
      rw [q.1, k1, Nat.zero_div, Nat.mul_zero] at this
      omega
    have hm0 : (d'.seg + p.size - (d.seg + 1)) % p.size + 1 = c.K (i + 1) - c.K i := by
      rw [hK, k1]
      by_cases he : i + 1 = cs.length
      · have := hd's he
        rw [if_pos he, Nat.mod_eq_of_lt (by omega)]
        omega
      · have := hle he
        rw [if_neg he, show d'.seg + p.size - (d.seg + 1) = d'.seg - (d.seg + 1) + p.size by omega,
          Nat.add_mod_right, Nat.mod_eq_of_lt (by omega)]
        omega
    have hne : c.K (i + 1) ≠ c.K i := by omega
    obtain ⟨m, hm⟩ : ∃ m, c.K (i + 1) = d.seg + (m + 1) :=
      ⟨c.K (i + 1) - c.K i - 1, by have := c.K_le i; omega⟩
    have hmn : m + 1 ≤ p.size := by
      rw [hK] at hm
      by_cases he : i + 1 = cs.length
      · have := hd's he
        rw [if_pos he] at hm; omega
      · rw [if_neg he] at hm; omega
    obtain ⟨v0, e0, r, us, u, v1, e1, r', g1, g2, g3, g4, g5, g6⟩ := h3
    obtain ⟨rfl, rfl⟩ := isSeg_inj hs g1
    obtain ⟨rfl, rfl⟩ := isSeg_inj hs' g4
    rw [split_line (hp.line hs)] at g2
    cases g2
    have hm1 : (d'.seg + p.vertexes.length - (d.seg + 1)) % p.vertexes.length + 1 = m + 1 := by
      have : p.vertexes.length = p.size := rfl
      rw [this, hm0, hm, k1]
      omega
    rw [hm1, rotate_take hmn] at g3
    simp only at g3
    have hchain : List.IsChain (fun a b : Vertex => ¬ Near (1 / 10 ^ 5) a.pos b.pos)
        (⟨d.pos, 0⟩ :: (List.range (m + 1)).map fun j => vtx p ((d.seg + 1 + j) % p.size)) := by
      rw [List.range_succ_eq_map, List.map_cons, List.isChain_cons_cons]
      refine ⟨?_, ?_⟩
      · rw [Nat.add_zero, ← b4]; exact f2
      · rw [← List.map_cons (f := fun j => vtx p ((d.seg + 1 + j) % p.size)), ← List.range_succ_eq_map,
          List.isChain_iff_getElem]
        intro j hj
        simp only [List.length_map, List.length_range] at hj
        simp only [List.getElem_map, List.getElem_range]
        have hlt : (d.seg + 1 + j) % p.size < p.size := Nat.mod_lt _ (by omega)
        have := hp.far _ _ _ (closed_isSeg hp.closed b2 hlt)
        rw [Nat.mod_add_mod] at this
        exact this
    have hfold := foldl_joined (vs := []) hchain
    rw [List.nil_append] at hfold
    rw [hfold, List.nil_append] at g3
    have hlast : u = vtx p d'.seg ∧ us = ⟨d.pos, 0⟩ :: (List.range m).map fun j => vtx p ((d.seg + 1 + j) % p.size) := by
      rw [List.range_succ, List.map_append, ← List.cons_append] at g3
      have := List.append_inj' g3 (by simp)
      refine ⟨?_, this.1.symm⟩
      have h2 := this.2
      simp only [List.map_cons, List.map_nil, List.cons.injEq, and_true] at h2
      rw [← h2]
      congr 1
      rw [show d.seg + 1 + m = c.K (i + 1) by omega, hK]
      split_ifs
      · rw [Nat.add_mod_right, Nat.mod_eq_of_lt b1']
      · rw [Nat.add_zero, Nat.mod_eq_of_lt b1']
    obtain ⟨hu, hus⟩ := hlast
    have hul : IsLine u := by rw [hu]; exact hp.lines _ (vtx_mem b1')
    rw [split_line hul] at g5
    cases g5
    simp only at g6
    rw [joined_far (by rw [hu, ← b3']; exact fun h => f1' (near_symm h))] at g6
    have hPe : c.P (c.K (i + 1)) = u.pos := by
      rw [hcut.P_eq, hu, hK]
      unfold ppos
      split_ifs
      · rw [Nat.add_mod_right, Nat.mod_eq_of_lt b1']
      · rw [Nat.add_zero, Nat.mod_eq_of_lt b1']
    refine ⟨s, ?_, ?_, by rw [g6], ?_⟩
    · rw [g6, ← g3]
      unfold pts CutPoly.piece
      rw [if_neg hne, k2, k4, hm, k1, show d.seg + (m + 1) - d.seg = m + 1 by omega, hcut.P_eq]
      simp only [List.map_append, List.map_cons, List.map_map, List.map_nil, List.cons_append]
      rfl
    · rw [g6, ← g3]
      intro w hw
      simp only [List.mem_append, List.mem_cons, List.mem_map, List.mem_range, List.not_mem_nil, or_false] at hw
      rcases hw with (rfl | ⟨j, -, rfl⟩) | rfl
      · exact line0 _
      · exact hp.lines _ (vtx_mem (Nat.mod_lt _ (by omega)))
      · exact line0 _
    · rw [h4]
      have hm : segMidpoint u ⟨d'.pos, 0⟩ = .ok (c.mid i) := by
        unfold segMidpoint
        rw [if_pos (show u.bulgeIsZero from hul)]
        congr 1
        unfold CutPoly.mid
        rw [if_neg hne, ← k4, ← hPe]
        unfold CutPoly.pos
        ext <;> simp only [midpoint, lerp] <;> ring
      have hk := keptBy_pair (keep := keep) (l := us) (c := false) hm
      have hiff : (KeptBy keep s) = keep (c.mid i) := by
        apply propext
        rw [g6, List.append_assoc]
        exact hk
      simp only [hiff]

theorem filterMap_ite {α β : Type} (P : α → Prop) (f : α → β) (l : List α) :
    (l.map fun a => if P a then some (f a) else none).filterMap id = (l.filter fun a => P a).map f := by
  induction l with
  | nil => rfl
  | cons a l ih =>
    rw [List.map_cons, List.filterMap_cons]
    by_cases h : P a
    · simp only [if_pos h, id]
      rw [List.filter_cons_of_pos (by simpa using h), List.map_cons, ← ih]
      rfl
    · simp only [if_neg h, id]
      rw [List.filter_cons_of_neg (by simpa using h), ← ih]
      rfl

theorem ne_of_not_near {ε : ℝ} (hε : 0 < ε) {a b : V2} (h : ¬ Near ε a b) : a ≠ b := by
  rintro rfl
  apply h
  unfold Near
  simpa using hε

/-- The kept pieces of a polygon. -/
theorem kept_pieces {p : Polyline} (hp : Polygon p) {cuts : List Cut} (hne : cuts ≠ [])
    (hin : ∀ d ∈ cuts, CutIn p d) (hsep : cuts.Pairwise fun a b => ¬ Near (1 / 10 ^ 5) a.pos b.pos)
    {keep : V2 → Prop} {r : List Polyline} (h : KeptSlices p cuts keep r) :
    ∃ (c : CutPoly) (cs : List Cut) (f : ℕ → Polyline), cs.Perm cuts ∧ CutOf p cs c ∧
      (∀ j < c.N, pts (f j) = c.piece j ∧ (∀ v ∈ (f j).vertexes, IsLine v) ∧ (f j).isClosed = false) ∧
      r.Perm (((List.range c.N).filter fun j => keep (c.mid j)).map f) := by
  obtain ⟨cs, os, h1, h2, h3, h4, h5⟩ := h
  have hin' : ∀ d ∈ cs, CutIn p d := fun d hd => hin d (h1.mem_iff.1 hd)
  have hsep' : cs.Pairwise fun a b => ¬ Near (1 / 10 ^ 5) a.pos b.pos :=
    (h1.pairwise_iff (fun h h' => h (near_symm h'))).2 hsep
  have hne' : cs ≠ [] := by
    rintro rfl
    exact hne (List.nil_perm.1 h1)
  obtain ⟨c, hc⟩ := exists_cutPoly hp.closed hne' h2 hin'
    (hsep'.imp fun h => ne_of_not_near (by norm_num) h)
  have key : ∀ j, ∃ s : Polyline, j < c.N → pts s = c.piece j ∧ (∀ v ∈ s.vertexes, IsLine v) ∧ s.isClosed = false ∧
      os[j]? = some (if keep (c.mid j) then some s else none) := by
    intro j
    by_cases hj : j < c.N
    · have hj' : j < os.length := by rw [h3, ← hc.N_eq]; exact hj
      obtain ⟨s, e1, e2, e3, e4⟩ := slice_piece hp hin' hsep' hc (h4 j _ (List.getElem?_eq_getElem hj'))
      exact ⟨s, fun _ => ⟨e1, e2, e3, by rw [← e4]; exact List.getElem?_eq_getElem hj'⟩⟩
    · exact ⟨⟨false, []⟩, fun h => absurd h hj⟩
  choose f hf using key
  refine ⟨c, cs, f, h1, hc, fun j hj => ⟨(hf j hj).1, (hf j hj).2.1, (hf j hj).2.2.1⟩, h5.trans ?_⟩
  rw [← filterMap_ite]
  have : os = (List.range c.N).map fun j => if keep (c.mid j) then some (f j) else none := by
    apply List.ext_getElem?
    intro j
    by_cases hj : j < c.N
    · rw [(hf j hj).2.2.2, List.getElem?_map, List.getElem?_range hj]
      rfl
    · rw [List.getElem?_eq_none (by rw [h3, ← hc.N_eq]; omega),
        List.getElem?_eq_none (by rw [List.length_map, List.length_range]; omega)]
  rw [this]

end
end Cavc

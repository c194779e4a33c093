import Verif.Spec.OffsetPolygon
import Verif.Props.OffsetJoins
import Verif.Props.SimplePolygon
import Verif.Proofs.OffsetLevel

/-! The raw offset of a polygon, unrolled (C62). -/
namespace Cavc
open Spec
open scoped Classical
noncomputable section

/-- Consecutive elements, the last one followed by `e`. -/
def pairsTo {α : Type} : List α → α → List (α × α)
  | [], _ => []
  | [a], e => [(a, e)]
  | a :: b :: t, e => (a, b) :: pairsTo (b :: t) e

theorem pairsTo_eq {α : Type} (l : List α) (e : α) : pairsTo l e = l.zip (l.tail ++ [e]) := by
  induction l with
  | nil => rfl
  | cons a t ih =>
    cases t with
    | nil => rfl
    | cons b t =>
      rw [pairsTo, ih]
      simp

theorem pairsTo_append {α : Type} (l : List α) (b : α) (m : List α) (e : α) :
    pairsTo (l ++ b :: m) e = pairsTo l b ++ pairsTo (b :: m) e := by
  induction l with
  | nil => rfl
  | cons a t ih =>
    cases t with
    | nil => rfl
    | cons c t =>
      simp only [List.cons_append, pairsTo] at ih ⊢
      rw [ih]

theorem zip_rotate_one {α : Type} (a : α) (t : List α) : (a :: t).zip ((a :: t).rotate 1) = pairsTo (a :: t) a := by
  rw [pairsTo_eq]
  simp

/-- The pairs of a cycle put together of parts. -/
theorem mem_pairs_flatten {α : Type} {x : α × α} : ∀ (ls : List (List α)) (e : α), (∀ l ∈ ls, l ≠ []) →
    (x ∈ pairsTo ls.flatten e ↔ ∃ A l B, ls = A ++ l :: B ∧ x ∈ pairsTo l (B.flatten.head?.getD e)) := by
  intro ls
  induction ls with
  | nil => intro e _; simp [pairsTo]
  | cons l ls ih =>
    intro e h
    have hl := h l (by simp)
    have hls : ∀ k ∈ ls, k ≠ [] := fun k hk => h k (List.mem_cons_of_mem _ hk)
    have key : x ∈ pairsTo (l :: ls).flatten e ↔
        x ∈ pairsTo l (ls.flatten.head?.getD e) ∨ x ∈ pairsTo ls.flatten e := by
      rw [List.flatten_cons]
      cases hf : ls.flatten with
      | nil =>
        simp [pairsTo]
      | cons b m => rw [pairsTo_append]; simp [List.mem_append]
    rw [key, ih e hls]
    constructor
    · rintro (h | ⟨A, k, B, he, hx⟩)
      · exact ⟨[], l, ls, rfl, h⟩
      · exact ⟨l :: A, k, B, by rw [he]; rfl, hx⟩
    · rintro ⟨A, k, B, he, hx⟩
      cases A with
      | nil =>
        simp only [List.nil_append, List.cons.injEq] at he
        obtain ⟨rfl, rfl⟩ := he
        exact Or.inl hx
      | cons a A =>
        simp only [List.cons_append, List.cons.injEq] at he
        exact Or.inr ⟨A, k, B, he.2, hx⟩

/-- Points of a closed polyline whose vertexes are given up to where the list starts. -/
theorem onPline_rotate {r : Polyline} (hc : r.isClosed = true) {L : List Vertex} {m : ℕ} (h2 : 2 ≤ L.length)
    (hr : r.vertexes = L.rotate m) {x : V2} :
    OnPline r x ↔ ∃ v e, (v, e) ∈ L.zip (L.rotate 1) ∧ OnSeg v e x := by
  have hs : segs r = (L.zip (L.rotate 1)).rotate m := by
    unfold segs
    rw [if_neg (by rw [hr, List.length_rotate]; omega), if_pos hc, hr, List.rotate_rotate, Nat.add_comm,
      ← List.rotate_rotate]
    have := List.zipWith_rotate_distrib (fun (a b : Vertex) => (a, b)) L (L.rotate 1) m (by simp)
    simp only [List.zip]
    exact this.symm
  unfold OnPline IsSeg
  rw [hs]
  constructor
  · rintro ⟨i, v, e, h, ho⟩
    exact ⟨v, e, List.mem_rotate.1 (List.mem_of_getElem? h), ho⟩
  · rintro ⟨v, e, h, ho⟩
    obtain ⟨i, hi⟩ := List.mem_iff_getElem?.1 (List.mem_rotate.2 h : (v, e) ∈ (L.zip (L.rotate 1)).rotate m)
    exact ⟨i, v, e, hi, ho⟩


/-! ### One corner -/

theorem moved_dir (offset : ℝ) (a b : V2) (t : ℝ) :
    lerp (movedLeft offset a b a) (movedLeft offset a b b) t = movedLeft offset a b (lerp a b t) := by
  ext <;> simp only [lerp, movedLeft] <;> ring

theorem movedMeet_unique {offset : ℝ} {a b c x x' : V2} (hS : side a b c ≠ 0) {t0 t1 t0' t1' : ℝ}
    (h : MovedMeet offset a b c t0 t1 x) (h' : MovedMeet offset a b c t0' t1' x') :
    t0 = t0' ∧ t1 = t1' ∧ x = x' := by
  obtain ⟨e0, e1⟩ := h
  obtain ⟨e0', e1'⟩ := h'
  have key : t0 = t0' ∧ t1 = t1' := by
    have hx := congrArg V2.x (e0.trans e1.symm)
    have hy := congrArg V2.y (e0.trans e1.symm)
    have hx' := congrArg V2.x (e0'.trans e1'.symm)
    have hy' := congrArg V2.y (e0'.trans e1'.symm)
    simp only [lerp, movedLeft] at hx hy hx' hy'
    have q1 : (t0 - t0') * side a b c = 0 := by
      unfold side
      linear_combination (c.y - b.y) * (hx - hx') - (c.x - b.x) * (hy - hy')
    have q2 : (t1 - t1') * side a b c = 0 := by
      unfold side
      linear_combination (b.y - a.y) * (hx - hx') - (b.x - a.x) * (hy - hy')
    rcases mul_eq_zero.1 q1 with q1 | q1
    · rcases mul_eq_zero.1 q2 with q2 | q2
      · exact ⟨by linarith, by linarith⟩
      · exact absurd q2 hS
    · exact absurd q1 hS
  refine ⟨key.1, key.2, ?_⟩
  rw [← e0, ← e0', key.1]

theorem cornerPoints_unique {offset : ℝ} {a b c : V2} (hS : side a b c ≠ 0) {l l' : List V2}
    (h : CornerPoints offset a b c l) (h' : CornerPoints offset a b c l') : l = l' := by
  rcases h with ⟨t0, t1, x, a1, a2, a3, a4, m, rfl⟩ | ⟨n, rfl⟩
  · rcases h' with ⟨t0', t1', x', b1, b2, b3, b4, m', rfl⟩ | ⟨n', rfl⟩
    · rw [(movedMeet_unique hS m m').2.2]
    · exact absurd ⟨t0, t1, x, a1, a2, a3, a4, m⟩ n'
  · rcases h' with ⟨t0', t1', x', b1, b2, b3, b4, m', rfl⟩ | ⟨n', rfl⟩
    · exact absurd ⟨t0', t1', x', b1, b2, b3, b4, m'⟩ n
    · rfl

theorem offsets_moved {offset : ℝ} {v1 v2 : Vertex} {s : OffsetSegment} (hl : IsLine v1)
    (hne : ¬ Near (1 / 10 ^ 5) v1.pos v2.pos) (h : Offsets offset v1 v2 s) :
    s.v1.bulge = v1.bulge ∧ s.v1.pos = movedLeft offset v1.pos v2.pos v1.pos ∧
      s.v2.pos = movedLeft offset v1.pos v2.pos v2.pos := by
  obtain ⟨-, h1, h2, h3⟩ := offsets_line hl hne h
  exact ⟨h1, h2, h3⟩

/-- The join of two lines at a corner that is clear of the tolerances. -/
theorem join_corner {offset : ℝ} {v1 v2 v3 : Vertex} {s1 s2 : OffsetSegment}
    (h1 : IsLine v1) (h2 : IsLine v2) (hn1 : ¬ Near (1 / 10 ^ 5) v1.pos v2.pos)
    (hn2 : ¬ Near (1 / 10 ^ 5) v2.pos v3.pos) (hs1 : Offsets offset v1 v2 s1)
    (hs2 : Offsets offset v2 v3 s2) (hc : ClearCorner offset v1.pos v2.pos v3.pos) (r : Polyline) :
    ∃ l, Rounds offset v1.pos v2.pos v3.pos l ∧
      joinSegs (offset < 0) s1 s2 r = .ok (l.foldl (fun r v => addOrReplaceIfSamePos r v) r) := by
  obtain ⟨b1, p11, p12⟩ := offsets_moved h1 hn1 hs1
  obtain ⟨b2, p21, p22⟩ := offsets_moved h2 hn2 hs2
  have hS : side v1.pos v2.pos v3.pos ≠ 0 := by
    intro h
    have := hc.turn
    rw [h, abs_zero] at this
    norm_num at this
  have z1 : s1.v1.bulgeIsZero := by unfold Vertex.bulgeIsZero; rw [b1]; exact h1
  have z2 : s2.v1.bulgeIsZero := by unfold Vertex.bulgeIsZero; rw [b2]; exact h2
  obtain ⟨added, r', hj, ha, hcase⟩ := C38_line_to_line h1 h2 hn1 hn2 hs1 hs2 r
  refine ⟨added, ?_, ?_⟩
  · rcases hcase with ⟨h, -⟩ | ⟨-, t0, t1, x, e0, e1, h⟩
    · exact absurd hc.turn (not_lt.2 h)
    · rw [p11, p12] at e0
      rw [p21, p22] at e1
      have hm : MovedMeet offset v1.pos v2.pos v3.pos t0 t1 x := ⟨e0, e1⟩
      by_cases ht : -(1 / 10 ^ 8) ≤ t0 ∧ t0 ≤ 1 + 1 / 10 ^ 8 ∧ -(1 / 10 ^ 8) ≤ t1 ∧ t1 ≤ 1 + 1 / 10 ^ 8
      · rw [if_pos ht] at h
        subst h
        obtain ⟨q1, q2, q3, q4⟩ := hc.exact t0 t1 x hm ht.1 ht.2.1 ht.2.2.1 ht.2.2.2
        exact ⟨Or.inl ⟨t0, t1, x, q1, q2, q3, q4, hm, rfl⟩, Or.inl ⟨_, rfl, isLine_zero _⟩⟩
      · rw [if_neg ht] at h
        have hno : ¬ ∃ t0 t1 x, 0 ≤ t0 ∧ t0 ≤ 1 ∧ 0 ≤ t1 ∧ t1 ≤ 1 ∧
            MovedMeet offset v1.pos v2.pos v3.pos t0 t1 x := by
          rintro ⟨t0', t1', x', q1, q2, q3, q4, m⟩
          obtain ⟨rfl, rfl, -⟩ := movedMeet_unique hS hm m
          exact ht ⟨by linarith, by linarith, by linarith, by linarith⟩
        by_cases hneg : offset * side v1.pos v2.pos v3.pos < 0
        · rw [if_pos hneg] at h
          obtain ⟨w, w', rfl, e1, e2, hl, hcirc, hsgn⟩ := h
          refine ⟨Or.inr ⟨hno, by simp only [List.map_cons, List.map_nil]; rw [e1, e2, p12, p21]⟩,
            Or.inr ⟨w, w', rfl, hl, by rw [if_pos hneg]; exact ⟨hcirc, hsgn⟩⟩⟩
        · rw [if_neg hneg] at h
          obtain ⟨-, rfl⟩ := h
          refine ⟨Or.inr ⟨hno, by simp only [List.map_cons, List.map_nil]; rw [p12, p21]⟩,
            Or.inr ⟨_, _, rfl, z2, by rw [if_neg hneg]; exact isLine_zero _⟩⟩
  · unfold joinSegs
    rw [if_pos ⟨z1, z2⟩, hj]
    exact congrArg _ ha

theorem foldl_add {r : Polyline} {u : Vertex} (hu : r.vertexes.getLast? = some u) {l : List Vertex}
    (h : (u.pos :: l.map Vertex.pos).IsChain (fun a b => ¬ Near (1 / 10 ^ 5) a b)) :
    l.foldl (fun r v => addOrReplaceIfSamePos r v) r = ⟨r.isClosed, r.vertexes ++ l⟩ := by
  induction l generalizing r u with
  | nil => simp
  | cons v l ih =>
    simp only [List.map_cons, List.isChain_cons_cons] at h
    rw [List.foldl_cons]
    have e : addOrReplaceIfSamePos r v = ⟨r.isClosed, r.vertexes ++ [v]⟩ := by
      unfold addOrReplaceIfSamePos
      rw [hu]
      simp only
      rw [if_neg (show ¬ fuzzyEqualV u.pos v.pos realPrecision from h.1)]
      rfl
    rw [e, ih (u := v) (by simp) h.2]
    simp


/-! ### All corners -/

/-- The points at corner `i`. -/
def PtsAt (p : Polyline) (offset : ℝ) (i : ℕ) (l : List V2) : Prop :=
  CornerPoints offset (ppos p i) (ppos p (i + 1)) (ppos p (i + 2)) l

/-- The vertexes at corner `i`. -/
def RoundAt (p : Polyline) (offset : ℝ) (i : ℕ) (l : List Vertex) : Prop :=
  Rounds offset (ppos p i) (ppos p (i + 1)) (ppos p (i + 2)) l

theorem RoundAt.ne {p : Polyline} {offset : ℝ} {i : ℕ} {l : List Vertex} (h : RoundAt p offset i l) : l ≠ [] := by
  rcases h.2 with ⟨v, rfl, -⟩ | ⟨w, w', rfl, -⟩ <;> simp

theorem isCorner_iff {p : Polyline} (hc : p.isClosed = true) (h2 : 2 ≤ p.size) {i : ℕ} {a b c : V2} :
    IsCorner p i a b c ↔ i < p.size ∧ a = ppos p i ∧ b = ppos p (i + 1) ∧ c = ppos p (i + 2) := by
  have hmod : (i + 1) % p.vertexes.length < p.size := Nat.mod_lt _ (by have : p.size = p.vertexes.length := rfl; omega)
  constructor
  · rintro ⟨v1, v2, v3, s1, s2, rfl, rfl, rfl⟩
    obtain ⟨l1, -, -, -, e1, e2⟩ := ppos_seg hc s1
    obtain ⟨-, -, -, -, -, e3⟩ := ppos_seg hc s2
    refine ⟨l1, e1.symm, e2.symm, ?_⟩
    rw [← e3]
    unfold ppos
    rw [show p.vertexes.length = p.size from rfl, Nat.mod_add_mod]
  · rintro ⟨hi, rfl, rfl, rfl⟩
    refine ⟨_, _, _, closed_isSeg hc h2 hi, closed_isSeg hc h2 hmod, ?_, rfl, ?_⟩
    · unfold ppos; rw [Nat.mod_eq_of_lt hi]
    · unfold ppos
      rw [show p.vertexes.length = p.size from rfl, Nat.mod_add_mod]

theorem side_eq_cross (a b c : V2) : side a b c = cross a b c := rfl

/-- What is used of the polygon and its raw offset segments. -/
structure RawCtx (p : Polyline) (offset : ℝ) (l : List OffsetSegment) : Prop where
  closed : p.isClosed = true
  lines : ∀ v ∈ p.vertexes, IsLine v
  two : 2 ≤ p.size
  clear : ClearOffset p offset
  len : l.length = p.size
  offs : ∀ i s, l[i]? = some s → Offsets offset (vtx p i) (vtx p ((i + 1) % p.size)) s

theorem RawCtx.bendne {p : Polyline} {offset : ℝ} {l : List OffsetSegment} (h : RawCtx p offset l) {i : ℕ}
    (hi : i < p.size) : side (ppos p i) (ppos p (i + 1)) (ppos p (i + 2)) ≠ 0 := by
  intro h0
  have := (h.clear.corner i _ _ _ ((isCorner_iff h.closed h.two).2 ⟨hi, rfl, rfl, rfl⟩)).turn
  rw [h0, abs_zero] at this
  norm_num at this

theorem RawCtx.joinAt {p : Polyline} {offset : ℝ} {l : List OffsetSegment} (h : RawCtx p offset l) {i : ℕ}
    {s1 s2 : OffsetSegment} (e1 : l[i]? = some s1) (e2 : l[(i + 1) % p.size]? = some s2) (r : Polyline) :
    ∃ lv, RoundAt p offset i lv ∧
      joinSegs (offset < 0) s1 s2 r = .ok (lv.foldl (fun r v => addOrReplaceIfSamePos r v) r) := by
  have hi : i < p.size := by rw [← h.len]; exact (List.getElem?_eq_some_iff.1 e1).1
  have hi' : (i + 1) % p.size < p.size := Nat.mod_lt _ (by omega)
  have o1 := h.offs _ _ e1
  have o2 := h.offs _ _ e2
  rw [Nat.mod_add_mod] at o2
  have g1 := closed_isSeg h.closed h.two hi
  have g2 := closed_isSeg h.closed h.two hi'
  rw [Nat.mod_add_mod] at g2
  have := join_corner (h.lines _ (vtx_mem hi)) (h.lines _ (vtx_mem hi')) (h.clear.repeats _ _ _ g1)
    (h.clear.repeats _ _ _ g2) o1 o2 (h.clear.corner i _ _ _
      ((isCorner_iff h.closed h.two).2 ⟨hi, by unfold ppos; rw [Nat.mod_eq_of_lt hi], rfl, rfl⟩)) r
  unfold RoundAt
  rw [show ppos p i = (vtx p i).pos by unfold ppos; rw [Nat.mod_eq_of_lt hi]]
  exact this

theorem chain_split {α : Type} {R : α → α → Prop} {u : α} {A B : List α} (hA : A ≠ [])
    (h : (u :: (A ++ B)).IsChain R) : (u :: A).IsChain R ∧ (A.getLast hA :: B).IsChain R := by
  constructor
  · have : u :: (A ++ B) = (u :: A) ++ B := rfl
    rw [this] at h
    exact h.left_of_append
  · have : u :: (A ++ B) = (u :: A.dropLast) ++ (A.getLast hA :: B) := by
      conv_lhs => rw [← List.dropLast_append_getLast hA]
      simp
    rw [this] at h
    exact h.right_of_append

theorem RawCtx.loop {p : Polyline} {offset : ℝ} {l : List OffsetSegment} (h : RawCtx p offset l)
    {pts : ℕ → List V2} (hp : ∀ i < p.size, PtsAt p offset i (pts i)) :
    ∀ (rest : List OffsetSegment) (s1 : OffsetSegment) (k : ℕ) (r : Polyline) (u : Vertex),
      l.drop k = s1 :: rest → r.vertexes.getLast? = some u →
      (u.pos :: (List.range' k rest.length).flatMap pts).IsChain (fun a b => ¬ Near (1 / 10 ^ 5) a b) →
      ∃ ls, List.Forall₂ (RoundAt p offset) (List.range' k rest.length) ls ∧
        joinSegsLoop (offset < 0) s1 rest r = .ok ⟨r.isClosed, r.vertexes ++ ls.flatten⟩ := by
  intro rest
  induction rest with
  | nil =>
    intro s1 k r u _ _ _
    exact ⟨[], by simp, by simp [joinSegsLoop]⟩
  | cons s2 rest ih =>
    intro s1 k r u hd hu hch
    have e1 : l[k]? = some s1 := by
      have := congrArg (fun l => l[0]?) hd
      simpa using this
    have e2' : l[k + 1]? = some s2 := by
      have := congrArg (fun l => l[1]?) hd
      simpa using this
    have hk1 : k + 1 < p.size := by rw [← h.len]; exact (List.getElem?_eq_some_iff.1 e2').1
    have e2 : l[(k + 1) % p.size]? = some s2 := by rw [Nat.mod_eq_of_lt hk1]; exact e2'
    obtain ⟨lv, hlv, hj⟩ := h.joinAt e1 e2 r
    have hpos : lv.map Vertex.pos = pts k := cornerPoints_unique (h.bendne (by omega)) hlv.1 (hp k (by omega))
    have hne := hlv.ne
    have hne' : pts k ≠ [] := by rw [← hpos]; simpa using hne
    rw [List.length_cons, List.range'_succ, List.flatMap_cons] at hch
    obtain ⟨c1, c2⟩ := chain_split hne' hch
    rw [← hpos] at c1
    rw [foldl_add hu c1] at hj
    have hd' : l.drop (k + 1) = s2 :: rest := by
      rw [← List.drop_drop, hd]; rfl
    have hlast : (pts k).getLast hne' = (lv.getLast hne).pos := by
      have : (pts k).getLast hne' = (lv.map Vertex.pos).getLast (by simpa using hne) := by
        congr 1; exact hpos.symm
      rw [this, List.getLast_map]
    rw [hlast] at c2
    obtain ⟨ls, hls, hrun⟩ := ih s2 (k + 1) ⟨r.isClosed, r.vertexes ++ lv⟩ (lv.getLast hne) hd'
      (by simp only; rw [List.getLast?_append, List.getLast?_eq_some_getLast hne]; rfl) c2
    refine ⟨lv :: ls, ?_, ?_⟩
    · rw [List.length_cons, List.range'_succ]
      exact List.Forall₂.cons hlv hls
    · rw [joinSegsLoop, hj, ok_bind, hrun]
      simp


/-! ### Closing -/

theorem chain_pairs {α : Type} {R : α → α → Prop} {e : α} : ∀ {l : List α}, (∀ x ∈ pairsTo l e, R x.1 x.2) →
    (l ++ [e]).IsChain R := by
  intro l
  induction l with
  | nil => intro _; simp
  | cons a t ih =>
    intro h
    cases t with
    | nil =>
      have := h (a, e) (by simp [pairsTo])
      simpa using this
    | cons b t =>
      rw [pairsTo] at h
      have h1 := h (a, b) (by simp)
      have h2 := ih (fun x hx => h x (List.mem_cons_of_mem _ hx))
      rw [List.cons_append, List.cons_append, List.isChain_cons_cons]
      exact ⟨h1, h2⟩

theorem cornerPoints_exist (offset : ℝ) (a b c : V2) : ∃ l, CornerPoints offset a b c l := by
  by_cases h : ∃ t0 t1 x, 0 ≤ t0 ∧ t0 ≤ 1 ∧ 0 ≤ t1 ∧ t1 ≤ 1 ∧ MovedMeet offset a b c t0 t1 x
  · obtain ⟨t0, t1, x, h0, h1, h2, h3, h4⟩ := h
    exact ⟨[x], Or.inl ⟨t0, t1, x, h0, h1, h2, h3, h4, rfl⟩⟩
  · exact ⟨_, Or.inr ⟨h, rfl⟩⟩

theorem cornerPoints_ne {offset : ℝ} {a b c : V2} {l : List V2} (h : CornerPoints offset a b c l) : l ≠ [] := by
  rcases h with ⟨_, _, _, _, _, _, _, _, rfl⟩ | ⟨_, rfl⟩ <;> simp

/-- The last vertex at a corner may be replaced by any other vertex of a line at the same place. -/
theorem Rounds.replaceLast {offset : ℝ} {a b c : V2} {l : List Vertex} (h : Rounds offset a b c l) (hne : l ≠ [])
    {w : Vertex} (hw : IsLine w) (hp : w.pos = (l.getLast hne).pos) :
    Rounds offset a b c (l.dropLast ++ [w]) := by
  obtain ⟨h1, h2⟩ := h
  constructor
  · have : (l.dropLast ++ [w]).map Vertex.pos = l.map Vertex.pos := by
      conv_rhs => rw [← List.dropLast_append_getLast hne]
      simp [hp]
    rw [this]; exact h1
  · rcases h2 with ⟨v, rfl, hv⟩ | ⟨w0, w1, rfl, hl, h⟩
    · exact Or.inl ⟨w, by simp, hw⟩
    · refine Or.inr ⟨w0, w, by simp, hw, ?_⟩
      simp only [List.getLast_cons_cons, List.getLast_singleton] at hp
      split_ifs at h ⊢ with hneg
      · obtain ⟨⟨hc, hd, hb⟩, hs⟩ := h
        refine ⟨⟨?_, hd, hb⟩, hs⟩
        unfold IsCenter at hc ⊢
        rw [hp]; exact hc
      · exact h

theorem forall₂_range {α : Type} {R : ℕ → α → Prop} {m : ℕ} {ls : List α}
    (h : List.Forall₂ R (List.range' 0 m) ls) {i : ℕ} (hi : i < m) : ∃ l, ls[i]? = some l ∧ R i l := by
  have hlen := h.length_eq
  rw [List.length_range'] at hlen
  have hi' : i < ls.length := by omega
  refine ⟨ls[i], List.getElem?_eq_getElem hi', ?_⟩
  have := List.Forall₂.get h (i := i) (by simpa using hi) hi'
  simpa using this

theorem flatten_pos {R : ℕ → List Vertex → Prop} {pts : ℕ → List V2} {ks : List ℕ} {ls : List (List Vertex)}
    (h : List.Forall₂ R ks ls) (hp : ∀ k ∈ ks, ∀ l, R k l → l.map Vertex.pos = pts k) :
    ls.flatten.map Vertex.pos = ks.flatMap pts := by
  induction h with
  | nil => rfl
  | cons h _ ih =>
    rw [List.flatten_cons, List.map_append, List.flatMap_cons, hp _ (by simp) _ h,
      ih (fun k hk => hp k (List.mem_cons_of_mem _ hk))]

theorem RawCtx.raw {p : Polyline} {offset : ℝ} {l : List OffsetSegment} (h : RawCtx p offset l)
    {s0 : OffsetSegment} {rest : List OffsetSegment} (hl : l = s0 :: rest) :
    ∃ (raw : Polyline) (ls : List (List Vertex)), joinRawSegs p offset s0 rest = .ok raw ∧ raw.isClosed = true ∧ ls.length = p.size ∧
      (∀ i < p.size, ∃ lv, ls[i]? = some lv ∧ RoundAt p offset i lv) ∧
      raw.vertexes = ls.flatten.rotate (ls.flatten.length - 1) := by
  have h2 := h.two
  have hlen : rest.length + 1 = p.size := by rw [← h.len, hl]; rfl
  obtain ⟨s, rest', rfl⟩ : ∃ s rest', rest = s :: rest' := by
    cases rest with
    | nil => simp at hlen; omega
    | cons a b => exact ⟨a, b, rfl⟩
  have hlen' : rest'.length + 2 = p.size := by simpa using hlen
  -- the points
  choose pts hpts using fun i => cornerPoints_exist offset (ppos p i) (ppos p (i + 1)) (ppos p (i + 2))
  have hp : ∀ i < p.size, PtsAt p offset i (pts i) := fun i _ => hpts i
  have hall : AllCornerPoints p offset ((List.range p.size).map pts) := by
    refine ⟨by simp [Polyline.size], fun i a b c hc => ?_⟩
    obtain ⟨hi, rfl, rfl, rfl⟩ := (isCorner_iff h.closed h2).1 hc
    exact ⟨pts i, by simp [hi], hpts i⟩
  have hap := h.clear.apart _ hall
  have hflat : ((List.range p.size).map pts).flatten = (List.range' 0 p.size).flatMap pts := by
    rw [← List.flatMap_def, List.range_eq_range']
  rw [hflat] at hap
  set n := p.size with hn
  have hsplit : List.range' 0 n = List.range' 0 (n - 1) ++ [n - 1] := by
    conv_lhs => rw [show n = n - 1 + 1 by omega, List.range'_concat]
    simp
  have hne : ∀ k, pts k ≠ [] := fun k => cornerPoints_ne (hpts k)
  obtain ⟨a, t, hat⟩ : ∃ a t, (List.range' 0 n).flatMap pts = a :: t := by
    rw [show n = n - 1 + 1 by omega, List.range'_succ, List.flatMap_cons]
    cases hp0 : pts 0 with
    | nil => exact absurd hp0 (hne 0)
    | cons a t => exact ⟨a, _, rfl⟩
  have hchain : (((List.range' 0 n).flatMap pts) ++ [a]).IsChain (fun a b => ¬ Near (1 / 10 ^ 5) a b) := by
    apply chain_pairs
    rw [hat, zip_rotate_one] at hap
    rw [hat]; exact hap
  have ha0 : (pts 0).head? = some a := by
    rw [show n = n - 1 + 1 by omega, List.range'_succ, List.flatMap_cons] at hat
    cases hp0 : pts 0 with
    | nil => exact absurd hp0 (hne 0)
    | cons b t => rw [hp0] at hat; simp at hat; rw [hat.1]; rfl
  have e0 : l[0]? = some s0 := by rw [hl]; rfl
  have e1 : l[1]? = some s := by rw [hl]; rfl
  have hv0 : s0.v1.pos = movedLeft offset (ppos p 0) (ppos p 1) (ppos p 0) ∧ s0.v1.bulge = (vtx p 0).bulge := by
    have g1 := closed_isSeg h.closed h2 (k := 0) (by omega)
    have := offsets_moved (h.lines _ (vtx_mem (by omega))) (h.clear.repeats _ _ _ g1) (h.offs 0 _ e0)
    refine ⟨?_, this.1⟩
    rw [this.2.1]
    unfold ppos
    rw [Nat.zero_mod]
  have hl0 : IsLine s0.v1 := by
    have := h.lines _ (vtx_mem (p := p) (i := 0) (by omega))
    unfold IsLine at this ⊢
    rw [hv0.2]; exact this
  have hfirst : ¬ Near (1 / 10 ^ 5) s0.v1.pos a := by
    rw [hv0.1]
    exact h.clear.first _ _ _ _ _ ((isCorner_iff h.closed h2).2 ⟨by omega, rfl, rfl, rfl⟩) (hpts 0) ha0
  have hchain1 : (s0.v1.pos :: ((List.range' 0 n).flatMap pts ++ [a])).IsChain
      (fun a b => ¬ Near (1 / 10 ^ 5) a b) := by
    rw [hat] at hchain ⊢
    rw [List.cons_append, List.isChain_cons_cons]
    exact ⟨hfirst, hchain⟩
  rw [hsplit, List.flatMap_append] at hchain1
  have hn1 : (List.range' 0 (n - 1)).flatMap pts ≠ [] := by
    rw [show n - 1 = n - 2 + 1 by omega, List.range'_succ, List.flatMap_cons]
    simp [hne 0]
  rw [List.append_assoc] at hchain1
  obtain ⟨cA, cB⟩ := chain_split hn1 hchain1
  simp only [List.flatMap_cons, List.flatMap_nil, List.append_nil] at cB
  obtain ⟨cB1, cB2⟩ := chain_split (hne (n - 1)) cB
  rw [show n - 1 = rest'.length + 1 by omega, List.range'_succ, List.flatMap_cons] at cA
  obtain ⟨cA1, cA2⟩ := chain_split (hne 0) cA
  -- the first corner
  obtain ⟨lv0, hlv0, hj0⟩ := h.joinAt (i := 0) e0 (s2 := s) (by rw [Nat.zero_add, Nat.mod_eq_of_lt (by omega)]; exact e1)
    ⟨p.isClosed, [s0.v1]⟩
  have hposk : ∀ k < n, ∀ lv, RoundAt p offset k lv → lv.map Vertex.pos = pts k := fun k hk lv hlv =>
    cornerPoints_unique (h.bendne hk) hlv.1 (hpts k)
  have hpos0 := hposk 0 (by omega) _ hlv0
  have hlast_of : ∀ k lv (h1 : pts k ≠ []) (h2 : lv ≠ []), lv.map Vertex.pos = pts k →
      (pts k).getLast h1 = (lv.getLast h2).pos := by
    intro k lv h1 h2 he
    have : (pts k).getLast h1 = (lv.map Vertex.pos).getLast (by simpa using h2) := by
      congr 1; exact he.symm
    rw [this, List.getLast_map]
  rw [← hpos0] at cA1
  rw [foldl_add (u := s0.v1) (by simp) cA1] at hj0
  -- the other corners
  rw [hlast_of 0 lv0 (hne 0) hlv0.ne hpos0] at cA2
  obtain ⟨ls, hls, hrun⟩ := h.loop hp rest' s 1 ⟨p.isClosed, [s0.v1] ++ lv0⟩ (lv0.getLast hlv0.ne)
    (by rw [hl]; rfl) (by simp only; rw [List.getLast?_append, List.getLast?_eq_some_getLast hlv0.ne]; rfl) cA2
  have hls' : List.Forall₂ (RoundAt p offset) (List.range' 0 (n - 1)) (lv0 :: ls) := by
    rw [show n - 1 = rest'.length + 1 by omega, List.range'_succ]
    exact List.Forall₂.cons hlv0 hls
  set A := (lv0 :: ls).flatten with hA
  have hApos : A.map Vertex.pos = (List.range' 0 (n - 1)).flatMap pts :=
    flatten_pos hls' fun k hk lv hlv => hposk k (by have := List.mem_range'_1.1 hk; omega) lv hlv
  have hAne : A ≠ [] := by
    intro h0; rw [h0] at hApos; exact hn1 hApos.symm
  -- the last corner
  have hback : l[n - 1]? = some (((s :: rest').getLast?).getD s0) := by
    rw [hl, List.getLast?_eq_getElem?]
    have : n - 1 = (s :: rest').length - 1 + 1 := by simp; omega
    rw [this, List.getElem?_cons_succ]
    rw [List.getElem?_eq_getElem (by simp)]
    rfl
  obtain ⟨lv, hlv, hj⟩ := h.joinAt (i := n - 1) hback (s2 := s0)
    (by rw [Nat.sub_add_cancel (by omega), Nat.mod_self]; exact e0) (Polyline.empty.addVertex (A.getLast hAne))
  have hposl := hposk (n - 1) (by omega) _ hlv
  have hlastA : ((List.range' 0 (n - 1)).flatMap pts).getLast hn1 = (A.getLast hAne).pos := by
    have : ((List.range' 0 (n - 1)).flatMap pts).getLast hn1 = (A.map Vertex.pos).getLast (by simpa using hAne) := by
      congr 1; exact hApos.symm
    rw [this, List.getLast_map]
  rw [hlastA, ← hposl] at cB1
  rw [foldl_add (u := A.getLast hAne) (by simp [Polyline.empty, Polyline.addVertex]) cB1] at hj
  have hlvne := hlv.ne
  rw [hlast_of _ lv (hne _) hlvne hposl] at cB2
  set w : Vertex := ⟨(lv.getLast hlvne).pos, s0.v1.bulge⟩ with hw
  have hwl : IsLine w := hl0
  refine ⟨⟨true, w :: (A ++ lv.dropLast)⟩, (lv0 :: ls) ++ [lv.dropLast ++ [w]], ?_, rfl, ?_, ?_, ?_⟩
  · unfold joinRawSegs
    rw [if_neg (by simp)]
    simp only [joinFirst, joinOthers]
    rw [hj0, ok_bind, hrun, ok_bind]
    have hr : (⟨p.isClosed, [s0.v1] ++ lv0 ++ ls.flatten⟩ : Polyline) = ⟨true, s0.v1 :: A⟩ := by
      rw [h.closed, hA]; simp
    rw [hr]
    have hsz : ¬ ((⟨p.isClosed, [s0.v1] ++ lv0⟩ : Polyline).size = 1) := by
      simp [Polyline.size, hlv0.ne]
    have hend : joinEnd p.isClosed (offset < 0) (((s :: rest').getLast?).getD s0) s0
        ((⟨p.isClosed, [s0.v1] ++ lv0⟩ : Polyline).size = 1) ⟨true, s0.v1 :: A⟩ =
        .ok ⟨true, w :: (A ++ lv.dropLast)⟩ := by
      unfold joinEnd
      rw [if_pos ⟨h.closed, by simp [Polyline.size]; exact List.length_pos_iff.2 hAne⟩]
      unfold joinClosing
      have q1 : (⟨true, s0.v1 :: A⟩ : Polyline).lastVertex = .ok (A.getLast hAne) := by
        unfold Polyline.lastVertex
        simp only
        rw [List.getLast?_cons_of_ne_nil hAne, List.getLast?_eq_some_getLast hAne]
      rw [q1, ok_bind, hj, ok_bind]
      have q2 : (⟨(Polyline.empty.addVertex (A.getLast hAne)).isClosed,
          (Polyline.empty.addVertex (A.getLast hAne)).vertexes ++ lv⟩ : Polyline) =
          ⟨false, A.getLast hAne :: lv⟩ := rfl
      rw [q2]
      have q3 : (⟨false, A.getLast hAne :: lv⟩ : Polyline).at 0 = .ok (A.getLast hAne) := rfl
      have q4 : (⟨true, s0.v1 :: A⟩ : Polyline).setLast (A.getLast hAne) = .ok ⟨true, s0.v1 :: A⟩ := by
        unfold Polyline.setLast
        rw [if_neg (by simp)]
        simp only
        rw [List.dropLast_cons_of_ne_nil hAne, List.cons_append, List.dropLast_append_getLast hAne]
      rw [q3, ok_bind, q4, ok_bind]
      have q5 : (⟨true, s0.v1 :: A ++ lv⟩ : Polyline).popBack = .ok ⟨true, s0.v1 :: (A ++ lv.dropLast)⟩ := by
        unfold Polyline.popBack
        rw [if_neg (by simp)]
        simp only
        rw [List.dropLast_append_of_ne_nil hlvne]
        rfl
      have q6 : (⟨false, A.getLast hAne :: lv⟩ : Polyline).lastVertex = .ok (lv.getLast hlvne) := by
        unfold Polyline.lastVertex
        simp only
        rw [List.getLast?_cons_of_ne_nil hlvne, List.getLast?_eq_some_getLast hlvne]
      simp only [List.tail_cons]
      rw [q5, ok_bind, q6, ok_bind, if_pos hsz]
      have q7 : updateFirstVertex (lv.getLast hlvne).pos ⟨true, s0.v1 :: (A ++ lv.dropLast)⟩ =
          .ok ⟨true, w :: (A ++ lv.dropLast)⟩ := by
        unfold updateFirstVertex
        have : (⟨true, s0.v1 :: (A ++ lv.dropLast)⟩ : Polyline).at 0 = .ok s0.v1 := rfl
        rw [this, ok_bind, if_pos (show s0.v1.bulgeIsZero from hl0), setM_of_lt (by simp), ok_bind]
        rfl
      rw [q7, ok_bind]
      obtain ⟨u, A', hu⟩ : ∃ u A', A = u :: A' := by
        cases hA' : A with
        | nil => exact absurd hA' hAne
        | cons u A' => exact ⟨u, A', rfl⟩
      have hua : u.pos = a := by
        rw [hsplit, List.flatMap_append, ← hApos, hu] at hat
        simp at hat
        exact hat.1
      unfold pruneFirstVertex
      have r0 : (⟨true, w :: (A ++ lv.dropLast)⟩ : Polyline).at 0 = .ok w := rfl
      have r1 : (⟨true, w :: (A ++ lv.dropLast)⟩ : Polyline).at 1 = .ok u := by rw [hu]; rfl
      rw [if_pos (by rw [hu]; simp [Polyline.size]), r0, ok_bind, r1, ok_bind, if_neg]
      · rfl
      · rw [hua]
        simp only [List.isChain_cons_cons] at cB2
        exact cB2.1
    rw [hend, ok_bind, if_neg]
    · rfl
    · have := List.length_pos_iff.2 hAne
      simp only [Polyline.size, List.length_cons, List.length_append]
      omega
  · have := hls'.length_eq
    rw [List.length_range'] at this
    rw [List.length_append, ← this]
    simp; omega
  · intro i hi
    by_cases hi1 : i < n - 1
    · obtain ⟨x, hx, hr⟩ := forall₂_range hls' hi1
      exact ⟨x, by rw [List.getElem?_append_left (List.getElem?_eq_some_iff.1 hx).1]; exact hx, hr⟩
    · have e : i = n - 1 := by omega
      have := hls'.length_eq
      rw [List.length_range'] at this
      refine ⟨lv.dropLast ++ [w], ?_, ?_⟩
      · rw [List.getElem?_append_right (by omega), e, ← this]; simp
      · rw [e]; exact Rounds.replaceLast hlv hlvne hwl rfl
  · have : ((lv0 :: ls) ++ [lv.dropLast ++ [w]]).flatten = (A ++ lv.dropLast) ++ [w] := by
      rw [List.flatten_append, ← hA]; simp
    rw [this, show ((A ++ lv.dropLast) ++ [w]).length - 1 = (A ++ lv.dropLast).length by simp,
      List.rotate_append_length_eq]
    rfl


/-- **C62.** The raw offset of a polygon, whatever the polygon looks like: corner by corner the common point
of the moved segments or their two ends, joined by an arc or a line. -/
theorem C62_raw {p : Polyline} {offset : ℝ} (hc : p.isClosed = true) (hl : ∀ v ∈ p.vertexes, IsLine v)
    (h2 : 2 ≤ p.vertexes.length) (hclear : ClearOffset p offset) :
    ∃ raw ls, createRawOffsetPline p offset = .ok raw ∧ raw.isClosed = true ∧ RoundsAll p offset ls ∧
      raw.vertexes = ls.flatten.rotate (ls.flatten.length - 1) := by
  obtain ⟨l, hr, hf⟩ := C37_createUntrimmedOffsetSegments p offset h2 hclear.repeats
  have hlen : l.length = p.size := by
    rw [← hf.length_eq, segs_length, if_neg (show ¬ p.size < 2 from not_lt.2 h2), if_pos hc]
  have ctx : RawCtx p offset l := by
    refine ⟨hc, hl, h2, hclear, hlen, fun i s hs => ?_⟩
    have hi : i < l.length := (List.getElem?_eq_some_iff.1 hs).1
    have hi' : i < (segs p).length := by rw [hf.length_eq]; exact hi
    have := List.Forall₂.get hf hi' hi
    have g := closed_isSeg hc h2 (k := i) (by omega)
    unfold IsSeg at g
    rw [List.getElem?_eq_getElem hi'] at g
    have g := Option.some.inj g
    have e : l[i] = s := by
      rw [List.getElem?_eq_getElem hi] at hs
      exact Option.some.inj hs
    simp only [List.get_eq_getElem] at this
    rw [g, e] at this
    exact this
  have h2' : 2 ≤ p.size := h2
  cases hlc : l with
  | nil => rw [hlc] at hlen; simp at hlen; omega
  | cons s0 rest =>
    obtain ⟨raw, ls, h1, h3, h4, h5, h6⟩ := ctx.raw hlc
    refine ⟨raw, ls, ?_, h3, ⟨h4, fun i a b c hc' => ?_⟩, h6⟩
    · unfold createRawOffsetPline
      rw [if_neg (not_lt.2 h2'), hr, ok_bind, hlc]
      exact h1
    · obtain ⟨hi, rfl, rfl, rfl⟩ := (isCorner_iff hc h2').1 hc'
      exact h5 i hi

end
end Cavc

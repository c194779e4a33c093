import Verif.Props.OffsetExact
import Verif.Props.OffsetSegment

/-!
A concrete case of C64 and C65: the square of side 40 with one corner cut off, offset to the inside by 9. The edge
that cuts the corner off is too short for the offset, so that the raw offset has a loop there and meets itself.
-/
namespace Cavc
open Spec
open scoped Classical
noncomputable section

/-- The square with a corner cut off. -/
def chamfer : Polyline :=
  ⟨true, [⟨⟨0, 0⟩, 0⟩, ⟨⟨40, 0⟩, 0⟩, ⟨⟨40, 36⟩, 0⟩, ⟨⟨37, 40⟩, 0⟩, ⟨⟨0, 40⟩, 0⟩]⟩

/-- Its raw offset. -/
def chamferRaw : Polyline :=
  ⟨true, [⟨⟨9, 9⟩, 0⟩, ⟨⟨31, 9⟩, 0⟩, ⟨⟨31, 33⟩, 0⟩, ⟨⟨65 / 2, 31⟩, 0⟩, ⟨⟨9, 31⟩, 0⟩]⟩

theorem chamfer_segs : segs chamfer =
    [(⟨⟨0, 0⟩, 0⟩, ⟨⟨40, 0⟩, 0⟩), (⟨⟨40, 0⟩, 0⟩, ⟨⟨40, 36⟩, 0⟩), (⟨⟨40, 36⟩, 0⟩, ⟨⟨37, 40⟩, 0⟩),
      (⟨⟨37, 40⟩, 0⟩, ⟨⟨0, 40⟩, 0⟩), (⟨⟨0, 40⟩, 0⟩, ⟨⟨0, 0⟩, 0⟩)] := rfl

theorem chamferRaw_segs : segs chamferRaw =
    [(⟨⟨9, 9⟩, 0⟩, ⟨⟨31, 9⟩, 0⟩), (⟨⟨31, 9⟩, 0⟩, ⟨⟨31, 33⟩, 0⟩), (⟨⟨31, 33⟩, 0⟩, ⟨⟨65 / 2, 31⟩, 0⟩),
      (⟨⟨65 / 2, 31⟩, 0⟩, ⟨⟨9, 31⟩, 0⟩), (⟨⟨9, 31⟩, 0⟩, ⟨⟨9, 9⟩, 0⟩)] := rfl

theorem chamfer_seg {i : ℕ} {v1 v2 : Vertex} (h : IsSeg chamfer i v1 v2) :
    (i = 0 ∧ v1 = ⟨⟨0, 0⟩, 0⟩ ∧ v2 = ⟨⟨40, 0⟩, 0⟩) ∨ (i = 1 ∧ v1 = ⟨⟨40, 0⟩, 0⟩ ∧ v2 = ⟨⟨40, 36⟩, 0⟩) ∨
    (i = 2 ∧ v1 = ⟨⟨40, 36⟩, 0⟩ ∧ v2 = ⟨⟨37, 40⟩, 0⟩) ∨ (i = 3 ∧ v1 = ⟨⟨37, 40⟩, 0⟩ ∧ v2 = ⟨⟨0, 40⟩, 0⟩) ∨
    (i = 4 ∧ v1 = ⟨⟨0, 40⟩, 0⟩ ∧ v2 = ⟨⟨0, 0⟩, 0⟩) := by
  obtain ⟨h1, -, h2, -, -⟩ := seg_lt h
  obtain ⟨rfl, rfl⟩ := isSeg_inj h (closed_isSeg rfl h2 h1)
  have : chamfer.size = 5 := rfl
  rw [this] at h1
  interval_cases i <;> simp [vtx, chamfer, Polyline.size]

theorem chamferRaw_seg {i : ℕ} {v1 v2 : Vertex} (h : IsSeg chamferRaw i v1 v2) :
    (i = 0 ∧ v1 = ⟨⟨9, 9⟩, 0⟩ ∧ v2 = ⟨⟨31, 9⟩, 0⟩) ∨ (i = 1 ∧ v1 = ⟨⟨31, 9⟩, 0⟩ ∧ v2 = ⟨⟨31, 33⟩, 0⟩) ∨
    (i = 2 ∧ v1 = ⟨⟨31, 33⟩, 0⟩ ∧ v2 = ⟨⟨65 / 2, 31⟩, 0⟩) ∨ (i = 3 ∧ v1 = ⟨⟨65 / 2, 31⟩, 0⟩ ∧ v2 = ⟨⟨9, 31⟩, 0⟩) ∨
    (i = 4 ∧ v1 = ⟨⟨9, 31⟩, 0⟩ ∧ v2 = ⟨⟨9, 9⟩, 0⟩) := by
  obtain ⟨h1, -, h2, -, -⟩ := seg_lt h
  obtain ⟨rfl, rfl⟩ := isSeg_inj h (closed_isSeg rfl h2 h1)
  have : chamferRaw.size = 5 := rfl
  rw [this] at h1
  interval_cases i <;> simp [vtx, chamferRaw, Polyline.size]

theorem chamfer_lines : ∀ v ∈ chamfer.vertexes, IsLine v := by simp [chamfer, isLine_zero]

theorem chamferRaw_lines : ∀ v ∈ chamferRaw.vertexes, IsLine v := by simp [chamferRaw, isLine_zero]

theorem chamfer_indexable (inf ninf : ℝ) : Indexable (codePlatform inf ninf) chamfer := by
  refine indexable_code (by simp [chamfer]) (by rw [chamfer_segs]; simp) _ _
    (Or.inl (by rw [chamfer_segs]; simp)) ?_
  intro i v1 v2 h
  exact (lines_ok chamfer_lines i v1 v2 h).half

theorem chamferRaw_indexable (inf ninf : ℝ) : Indexable (codePlatform inf ninf) chamferRaw := by
  refine indexable_code (by simp [chamferRaw]) (by rw [chamferRaw_segs]; simp) _ _
    (Or.inl (by rw [chamferRaw_segs]; simp)) ?_
  intro i v1 v2 h
  exact (lines_ok chamferRaw_lines i v1 v2 h).half

/-- The points of a straight segment. -/
theorem on_line {a b x : V2} (h : OnSeg ⟨a, 0⟩ ⟨b, 0⟩ x) :
    ∃ t, 0 ≤ t ∧ t ≤ 1 ∧ x.x = a.x + t * (b.x - a.x) ∧ x.y = a.y + t * (b.y - a.y) := by
  obtain ⟨t, t0, t1, h⟩ := (onSeg_line (v1 := ⟨a, 0⟩) (v2 := ⟨b, 0⟩) (isLine_zero _)).1 h
  exact ⟨t, t0, t1, by rw [h]; rfl, by rw [h]; rfl⟩

theorem chamfer_simple : SimplePolygon chamfer := by
  refine ⟨rfl, chamfer_lines, by simp [chamfer], ?_, ?_⟩
  · intro i v1 v2 h he
    have e1 := congrArg V2.x he
    have e2 := congrArg V2.y he
    rcases chamfer_seg h with ⟨-, rfl, rfl⟩ | ⟨-, rfl, rfl⟩ | ⟨-, rfl, rfl⟩ | ⟨-, rfl, rfl⟩ | ⟨-, rfl, rfl⟩ <;>
      simp only at e1 e2 <;> linarith
  · intro i j v1 v2 u1 u2 x h1 h2 hne o1 o2
    have hlen : chamfer.vertexes.length = 5 := rfl
    rw [hlen]
    rcases chamfer_seg h1 with ⟨rfl, rfl, rfl⟩ | ⟨rfl, rfl, rfl⟩ | ⟨rfl, rfl, rfl⟩ | ⟨rfl, rfl, rfl⟩ | ⟨rfl, rfl, rfl⟩ <;>
      rcases chamfer_seg h2 with ⟨rfl, rfl, rfl⟩ | ⟨rfl, rfl, rfl⟩ | ⟨rfl, rfl, rfl⟩ | ⟨rfl, rfl, rfl⟩ | ⟨rfl, rfl, rfl⟩ <;>
      obtain ⟨t, t0, t1, hx1, hy1⟩ := on_line o1 <;> obtain ⟨u, u0, u1, hx2, hy2⟩ := on_line o2 <;>
      simp only [sub_self, mul_zero, add_zero] at hx1 hy1 hx2 hy2 <;>
      first
      | exact absurd rfl hne
      | (left; refine ⟨rfl, ?_⟩; ext <;> simp only <;> linarith)
      | (right; refine ⟨rfl, ?_⟩; ext <;> simp only <;> linarith)
      | (exfalso; linarith)

/-- Where segments of the raw offset meet. -/
theorem chamferRaw_meet {i j : ℕ} {v1 v2 u1 u2 : Vertex} {x : V2} (h1 : IsSeg chamferRaw i v1 v2)
    (h2 : IsSeg chamferRaw j u1 u2) (hne : i ≠ j) (o1 : OnSeg v1 v2 x) (o2 : OnSeg u1 u2 x) :
    ((j = (i + 1) % 5 ∧ x = v2.pos) ∨ (i = (j + 1) % 5 ∧ x = u2.pos)) ∨
      x = ⟨31, 31⟩ := by
  rcases chamferRaw_seg h1 with ⟨rfl, rfl, rfl⟩ | ⟨rfl, rfl, rfl⟩ | ⟨rfl, rfl, rfl⟩ | ⟨rfl, rfl, rfl⟩ | ⟨rfl, rfl, rfl⟩ <;>
    rcases chamferRaw_seg h2 with ⟨rfl, rfl, rfl⟩ | ⟨rfl, rfl, rfl⟩ | ⟨rfl, rfl, rfl⟩ | ⟨rfl, rfl, rfl⟩ | ⟨rfl, rfl, rfl⟩ <;>
    obtain ⟨t, t0, t1, hx1, hy1⟩ := on_line o1 <;> obtain ⟨u, u0, u1, hx2, hy2⟩ := on_line o2 <;>
    simp only [sub_self, mul_zero, add_zero] at hx1 hy1 hx2 hy2 <;>
    first
    | exact absurd rfl hne
    | (left; left; refine ⟨rfl, ?_⟩; ext <;> simp only <;> linarith)
    | (left; right; refine ⟨rfl, ?_⟩; ext <;> simp only <;> linarith)
    | (right; ext <;> simp only <;> linarith)
    | (exfalso; linarith)

/-! ### The raw offset -/

/-- Five raw segments, each crossing the next. -/
theorem five_joins {p : Polyline} {d : ℝ} {s0 s1 s2 s3 s4 : OffsetSegment} {a b c e f : V2}
    (hc : p.isClosed = true) (h0 : s0.v1.bulge = 0 ∧ s0.collapsedArc = false)
    (h1 : s1.v1.bulge = 0 ∧ s1.collapsedArc = false) (h2 : s2.v1.bulge = 0 ∧ s2.collapsedArc = false)
    (h3 : s3.v1.bulge = 0 ∧ s3.collapsedArc = false) (h4 : s4.v1.bulge = 0 ∧ s4.collapsedArc = false)
    (i01 : intrLineSeg2LineSeg2 s0.v1.pos s0.v2.pos s1.v1.pos s1.v2.pos = .trueIntr b)
    (i12 : intrLineSeg2LineSeg2 s1.v1.pos s1.v2.pos s2.v1.pos s2.v2.pos = .trueIntr c)
    (i23 : intrLineSeg2LineSeg2 s2.v1.pos s2.v2.pos s3.v1.pos s3.v2.pos = .trueIntr e)
    (i34 : intrLineSeg2LineSeg2 s3.v1.pos s3.v2.pos s4.v1.pos s4.v2.pos = .trueIntr f)
    (i40 : intrLineSeg2LineSeg2 s4.v1.pos s4.v2.pos s0.v1.pos s0.v2.pos = .trueIntr a)
    (f0 : Far s0.v1.pos b) (f1 : Far b c) (f2 : Far c e) (f3 : Far e f) (f4 : Far f a) (f5 : Far a b) :
    joinRawSegs p d s0 [s1, s2, s3, s4] = .ok ⟨true, [⟨a, 0⟩, ⟨b, 0⟩, ⟨c, 0⟩, ⟨e, 0⟩, ⟨f, 0⟩]⟩ := by
  unfold joinRawSegs
  rw [if_neg (by simp)]
  simp only [joinFirst, joinOthers, joinSegsLoop]
  rw [join_true h0.1 h1.1 h0.2 h1.2 i01, ok_bind, add_far rfl f0]
  rw [join_true h1.1 h2.1 h1.2 h2.2 i12, ok_bind, add_far rfl f1]
  rw [join_true h2.1 h3.1 h2.2 h3.2 i23, ok_bind, add_far rfl f2]
  rw [join_true h3.1 h4.1 h3.2 h4.2 i34, ok_bind, add_far rfl f3, ok_bind]
  simp only [List.cons_append, List.nil_append]
  have hz : Vertex.bulgeIsZero s0.v1 := by
    unfold Vertex.bulgeIsZero; rw [h0.1]; norm_num [realPrecision]
  have hend : ∀ fr : Prop, ¬ fr → joinEnd p.isClosed (d < 0) s4 s0 fr
      ⟨p.isClosed, [s0.v1, ⟨b, 0⟩, ⟨c, 0⟩, ⟨e, 0⟩, ⟨f, 0⟩]⟩ =
      .ok ⟨true, [⟨a, 0⟩, ⟨b, 0⟩, ⟨c, 0⟩, ⟨e, 0⟩, ⟨f, 0⟩]⟩ := by
    intro fr hfr
    unfold joinEnd
    rw [if_pos ⟨hc, by simp [Polyline.size]⟩, hc]
    unfold joinClosing
    rw [show Polyline.lastVertex ⟨true, [s0.v1, ⟨b, 0⟩, ⟨c, 0⟩, ⟨e, 0⟩, ⟨f, 0⟩]⟩ = .ok (⟨f, 0⟩ : Vertex) from rfl,
      ok_bind, show Polyline.empty.addVertex (⟨f, 0⟩ : Vertex) = ⟨false, [⟨f, 0⟩]⟩ from rfl,
      join_true h4.1 h0.1 h4.2 h0.2 i40, ok_bind, add_far rfl f4]
    simp only [List.cons_append, List.nil_append]
    rw [show Polyline.at ⟨false, [⟨f, 0⟩, ⟨a, 0⟩]⟩ 0 = .ok (⟨f, 0⟩ : Vertex) from rfl, ok_bind,
      show Polyline.setLast ⟨true, [s0.v1, ⟨b, 0⟩, ⟨c, 0⟩, ⟨e, 0⟩, ⟨f, 0⟩]⟩ ⟨f, 0⟩ =
        .ok ⟨true, [s0.v1, ⟨b, 0⟩, ⟨c, 0⟩, ⟨e, 0⟩, ⟨f, 0⟩]⟩ by simp [Polyline.setLast], ok_bind]
    simp only [List.tail_cons, List.cons_append, List.nil_append]
    rw [show Polyline.popBack ⟨true, [s0.v1, ⟨b, 0⟩, ⟨c, 0⟩, ⟨e, 0⟩, ⟨f, 0⟩, ⟨a, 0⟩]⟩ =
        .ok ⟨true, [s0.v1, ⟨b, 0⟩, ⟨c, 0⟩, ⟨e, 0⟩, ⟨f, 0⟩]⟩ by simp [Polyline.popBack], ok_bind,
      show Polyline.lastVertex ⟨false, [⟨f, 0⟩, ⟨a, 0⟩]⟩ = .ok (⟨a, 0⟩ : Vertex) from rfl, ok_bind]
    simp only
    rw [if_pos hfr]
    unfold updateFirstVertex
    rw [show Polyline.at ⟨true, [s0.v1, ⟨b, 0⟩, ⟨c, 0⟩, ⟨e, 0⟩, ⟨f, 0⟩]⟩ 0 = .ok s0.v1 from rfl, ok_bind,
      if_pos hz]
    simp only [setM, List.length_cons, List.length_nil]
    rw [if_pos (by norm_num), ok_bind, pure_eq_ok, ok_bind, h0.1]
    simp only [List.set_cons_zero]
    unfold pruneFirstVertex
    rw [if_pos (by simp [Polyline.size]),
      show Polyline.at ⟨true, [⟨a, 0⟩, ⟨b, 0⟩, ⟨c, 0⟩, ⟨e, 0⟩, ⟨f, 0⟩]⟩ 0 = .ok (⟨a, 0⟩ : Vertex) from rfl,
      ok_bind,
      show Polyline.at ⟨true, [⟨a, 0⟩, ⟨b, 0⟩, ⟨c, 0⟩, ⟨e, 0⟩, ⟨f, 0⟩]⟩ 1 = .ok (⟨b, 0⟩ : Vertex) from rfl,
      ok_bind, if_neg]
    · rfl
    · rintro ⟨g1, g2⟩
      unfold fuzzyEqual realPrecision at g1 g2
      rcases f5 with h | h <;> simp only at g1 g2 <;> linarith
  simp only [List.getLast?_cons_cons, List.getLast?_singleton, Option.getD_some]
  rw [hend _ (by simp [Polyline.size]), ok_bind, if_neg (by simp [Polyline.size])]
  rfl

theorem chamfer_raw : createRawOffsetPline chamfer 9 = .ok chamferRaw := by
  have o0 := offset_dir (d := 9) (p := ⟨0, 0⟩) (q := ⟨40, 0⟩) (L := 40) (ux := 1) (uy := 0)
    (by norm_num) (by norm_num) (by norm_num) (by norm_num)
  have o1 := offset_dir (d := 9) (p := ⟨40, 0⟩) (q := ⟨40, 36⟩) (L := 36) (ux := 0) (uy := 1)
    (by norm_num) (by norm_num) (by norm_num) (by norm_num)
  have o2 := offset_dir (d := 9) (p := ⟨40, 36⟩) (q := ⟨37, 40⟩) (L := 5) (ux := -3 / 5) (uy := 4 / 5)
    (by norm_num) (by norm_num) (by norm_num) (by norm_num)
  have o3 := offset_dir (d := 9) (p := ⟨37, 40⟩) (q := ⟨0, 40⟩) (L := 37) (ux := -1) (uy := 0)
    (by norm_num) (by norm_num) (by norm_num) (by norm_num)
  have o4 := offset_dir (d := 9) (p := ⟨0, 40⟩) (q := ⟨0, 0⟩) (L := 40) (ux := 0) (uy := -1)
    (by norm_num) (by norm_num) (by norm_num) (by norm_num)
  unfold createRawOffsetPline
  rw [if_neg (by simp [chamfer, Polyline.size]), createUntrimmed_eq _ _ (by simp [chamfer, Polyline.size]),
    chamfer_segs]
  simp only [List.mapM_cons, List.mapM_nil, o0, o1, o2, o3, o4, ok_bind, pure_eq_ok]
  refine five_joins rfl ⟨rfl, rfl⟩ ⟨rfl, rfl⟩ ⟨rfl, rfl⟩ ⟨rfl, rfl⟩ ⟨rfl, rfl⟩
    (intr_true (s := 31 / 40) (r := 1 / 4) ?_ ?_ ?_ ?_ ?_ ?_ ?_)
    (intr_true (s := 33 / 36) (r := 3 / 5) ?_ ?_ ?_ ?_ ?_ ?_ ?_)
    (intr_true (s := 1 / 10) (r := 9 / 74) ?_ ?_ ?_ ?_ ?_ ?_ ?_)
    (intr_true (s := 28 / 37) (r := 9 / 40) ?_ ?_ ?_ ?_ ?_ ?_ ?_)
    (intr_true (s := 31 / 40) (r := 9 / 40) ?_ ?_ ?_ ?_ ?_ ?_ ?_) ?_ ?_ ?_ ?_ ?_ ?_
  all_goals first
    | (norm_num; done)
    | (ext <;> norm_num [lerp]; done)
    | (norm_num [Far, abs_of_neg]; done)
    | (norm_num [abs_of_neg]; done)
    | skip

/-! ### The tolerances do not matter -/

theorem chamfer_corner {i : ℕ} {a b c : V2} (h : IsCorner chamfer i a b c) :
    (i = 0 ∧ a = ⟨0, 0⟩ ∧ b = ⟨40, 0⟩ ∧ c = ⟨40, 36⟩) ∨ (i = 1 ∧ a = ⟨40, 0⟩ ∧ b = ⟨40, 36⟩ ∧ c = ⟨37, 40⟩) ∨
    (i = 2 ∧ a = ⟨40, 36⟩ ∧ b = ⟨37, 40⟩ ∧ c = ⟨0, 40⟩) ∨ (i = 3 ∧ a = ⟨37, 40⟩ ∧ b = ⟨0, 40⟩ ∧ c = ⟨0, 0⟩) ∨
    (i = 4 ∧ a = ⟨0, 40⟩ ∧ b = ⟨0, 0⟩ ∧ c = ⟨40, 0⟩) := by
  obtain ⟨hi, rfl, rfl, rfl⟩ := (isCorner_iff rfl (by decide)).1 h
  have : i < 5 := hi
  interval_cases i <;> simp [ppos, vtx, chamfer, Polyline.size]

theorem chamfer_dist : distance ⟨0, 0⟩ ⟨40, 0⟩ = 40 ∧ distance ⟨40, 0⟩ ⟨40, 36⟩ = 36 ∧
    distance ⟨40, 36⟩ ⟨37, 40⟩ = 5 ∧ distance ⟨37, 40⟩ ⟨0, 40⟩ = 37 ∧ distance ⟨0, 40⟩ ⟨0, 0⟩ = 40 := by
  have h : ∀ {a b : V2} {r : ℝ}, 0 ≤ r → dist2 a b = r ^ 2 → distance a b = r := by
    intro a b r hr h
    unfold distance
    rw [h, Real.sqrt_sq hr]
  refine ⟨h ?_ ?_, h ?_ ?_, h ?_ ?_, h ?_ ?_, h ?_ ?_⟩ <;> norm_num [dist2]

theorem chamfer_moved (x : V2) :
    movedLeft 9 ⟨0, 0⟩ ⟨40, 0⟩ x = ⟨x.x, x.y + 9⟩ ∧ movedLeft 9 ⟨40, 0⟩ ⟨40, 36⟩ x = ⟨x.x - 9, x.y⟩ ∧
    movedLeft 9 ⟨40, 36⟩ ⟨37, 40⟩ x = ⟨x.x - 36 / 5, x.y - 27 / 5⟩ ∧
    movedLeft 9 ⟨37, 40⟩ ⟨0, 40⟩ x = ⟨x.x, x.y - 9⟩ ∧ movedLeft 9 ⟨0, 40⟩ ⟨0, 0⟩ x = ⟨x.x + 9, x.y⟩ := by
  obtain ⟨h1, h2, h3, h4, h5⟩ := chamfer_dist
  unfold movedLeft
  rw [h1, h2, h3, h4, h5]
  refine ⟨?_, ?_, ?_, ?_, ?_⟩ <;> ext <;> simp only <;> ring

theorem chamfer_points {i : ℕ} {a b c : V2} (h : IsCorner chamfer i a b c) : side a b c ≠ 0 ∧
    ∃ l, CornerPoints 9 a b c l ∧
      l = [[⟨31, 9⟩], [⟨31, 33⟩], [⟨65 / 2, 31⟩], [⟨9, 31⟩], [⟨9, 9⟩]].getD i [] := by
  have hm := chamfer_moved
  rcases chamfer_corner h with ⟨rfl, rfl, rfl, rfl⟩ | ⟨rfl, rfl, rfl, rfl⟩ | ⟨rfl, rfl, rfl, rfl⟩ |
    ⟨rfl, rfl, rfl, rfl⟩ | ⟨rfl, rfl, rfl, rfl⟩
  · refine ⟨by norm_num [side], _, Or.inl ⟨31 / 40, 1 / 4, ⟨31, 9⟩, ?_, ?_, ?_, ?_, ⟨?_, ?_⟩, rfl⟩, rfl⟩
    all_goals first | (norm_num; done) | skip
    all_goals simp only [(hm _).1, (hm _).2.1]; ext <;> norm_num [lerp]
  · refine ⟨by norm_num [side], _, Or.inl ⟨33 / 36, 3 / 5, ⟨31, 33⟩, ?_, ?_, ?_, ?_, ⟨?_, ?_⟩, rfl⟩, rfl⟩
    all_goals first | (norm_num; done) | skip
    all_goals simp only [(hm _).2.1, (hm _).2.2.1]; ext <;> norm_num [lerp]
  · refine ⟨by norm_num [side], _, Or.inl ⟨1 / 10, 9 / 74, ⟨65 / 2, 31⟩, ?_, ?_, ?_, ?_, ⟨?_, ?_⟩, rfl⟩, rfl⟩
    all_goals first | (norm_num; done) | skip
    all_goals simp only [(hm _).2.2.1, (hm _).2.2.2.1]; ext <;> norm_num [lerp]
  · refine ⟨by norm_num [side], _, Or.inl ⟨28 / 37, 9 / 40, ⟨9, 31⟩, ?_, ?_, ?_, ?_, ⟨?_, ?_⟩, rfl⟩, rfl⟩
    all_goals first | (norm_num; done) | skip
    all_goals simp only [(hm _).2.2.2.1, (hm _).2.2.2.2]; ext <;> norm_num [lerp]
  · refine ⟨by norm_num [side], _, Or.inl ⟨31 / 40, 9 / 40, ⟨9, 9⟩, ?_, ?_, ?_, ?_, ⟨?_, ?_⟩, rfl⟩, rfl⟩
    all_goals first | (norm_num; done) | skip
    all_goals simp only [(hm _).1, (hm _).2.2.2.2]; ext <;> norm_num [lerp]

theorem chamfer_clear : ClearOffset chamfer 9 := by
  have hm := chamfer_moved
  have hcor : ∀ i < 5, ∃ a b c, IsCorner chamfer i a b c := fun i hi =>
    ⟨_, _, _, (isCorner_iff rfl (by decide)).2 ⟨hi, rfl, rfl, rfl⟩⟩
  refine ⟨?_, ?_, ?_, ?_⟩
  · intro i v1 v2 h hn
    rcases chamfer_seg h with ⟨-, rfl, rfl⟩ | ⟨-, rfl, rfl⟩ | ⟨-, rfl, rfl⟩ | ⟨-, rfl, rfl⟩ | ⟨-, rfl, rfl⟩ <;>
      norm_num [Near, abs_of_neg] at hn
  · intro i a b c h
    obtain ⟨d1, d2, d3, d4, d5⟩ := chamfer_dist
    refine ⟨?_, ?_, ?_⟩
    · rcases chamfer_corner h with ⟨rfl, rfl, rfl, rfl⟩ | ⟨rfl, rfl, rfl, rfl⟩ | ⟨rfl, rfl, rfl, rfl⟩ |
        ⟨rfl, rfl, rfl, rfl⟩ | ⟨rfl, rfl, rfl, rfl⟩ <;> norm_num [side, abs_of_neg]
    · rcases chamfer_corner h with ⟨rfl, rfl, rfl, rfl⟩ | ⟨rfl, rfl, rfl, rfl⟩ | ⟨rfl, rfl, rfl, rfl⟩ |
        ⟨rfl, rfl, rfl, rfl⟩ | ⟨rfl, rfl, rfl, rfl⟩ <;> simp only [d1, d2, d3, d4, d5] <;> norm_num [side, abs_of_neg]
    · rcases chamfer_corner h with ⟨rfl, rfl, rfl, rfl⟩ | ⟨rfl, rfl, rfl, rfl⟩ | ⟨rfl, rfl, rfl, rfl⟩ |
        ⟨rfl, rfl, rfl, rfl⟩ | ⟨rfl, rfl, rfl, rfl⟩
      all_goals
        rintro t0 t1 x ⟨e0, e1⟩ a0 a1 b0 b1
        simp only [(hm _).1, (hm _).2.1, (hm _).2.2.1, (hm _).2.2.2.1, (hm _).2.2.2.2] at e0 e1
        have hx := congrArg V2.x (e0.trans e1.symm)
        have hy := congrArg V2.y (e0.trans e1.symm)
        simp only [lerp] at hx hy
        norm_num at a0 a1 b0 b1
        exact ⟨by linarith, by linarith, by linarith, by linarith⟩
  · rintro pts ⟨hlen, hpts⟩ x hx
    have hlen' : pts.length = 5 := hlen
    have e : pts = [[⟨31, 9⟩], [⟨31, 33⟩], [⟨65 / 2, 31⟩], [⟨9, 31⟩], [⟨9, 9⟩]] := by
      apply List.ext_getElem?
      intro i
      by_cases hi : i < 5
      · obtain ⟨a, b, c, h⟩ := hcor i hi
        obtain ⟨hS, l, hl, el⟩ := chamfer_points h
        obtain ⟨l', hl', hr⟩ := hpts i a b c h
        rw [hl', cornerPoints_unique hS hr hl, el]
        interval_cases i <;> rfl
      · rw [List.getElem?_eq_none (by omega), List.getElem?_eq_none (by simp; omega)]
    subst e
    simp only [List.flatten_cons, List.flatten_nil, List.append_nil, List.cons_append, List.nil_append,
      zip_rotate_one, pairsTo, List.mem_cons, List.not_mem_nil, or_false] at hx
    rcases hx with rfl | rfl | rfl | rfl | rfl <;> intro hn <;> norm_num [Near, abs_of_neg] at hn
  · intro a b c l x h hl hx hn
    obtain ⟨hS, l', hl', el⟩ := chamfer_points h
    rw [cornerPoints_unique hS hl hl', el] at hx
    rcases chamfer_corner h with ⟨-, rfl, rfl, rfl⟩ | ⟨h, -⟩ | ⟨h, -⟩ | ⟨h, -⟩ | ⟨h, -⟩
    · simp at hx
      subst hx
      rw [(hm _).1] at hn
      norm_num [Near, abs_of_neg] at hn
    all_goals omega

/-! ### The cuts -/

theorem chamferRaw_consecutive :
    (List.range (segs chamferRaw).length).flatMap (consecutiveHits chamferRaw) = [] := by
  rw [List.flatMap_eq_nil_iff]
  intro i hi
  rw [List.mem_range, chamferRaw_segs] at hi
  simp only [List.length_cons, List.length_nil] at hi
  unfold consecutiveHits
  rw [chamferRaw_segs]
  simp only
  have hlen : chamferRaw.vertexes.length = 5 := rfl
  have hcl : chamferRaw.isClosed = true := rfl
  rw [hlen, hcl]
  interval_cases i <;>
    simp only [List.getElem?_cons_zero, List.getElem?_cons_succ, Nat.reduceAdd, Nat.reduceEqDiff,
      and_false, if_false, and_true, if_true] <;>
    rw [corner_none (by norm_num [Far, abs_of_neg]) (by norm_num [abs_of_neg])] <;> rfl

theorem chamferRaw_hit : intrPlineSegs ⟨⟨31, 9⟩, 0⟩ ⟨⟨31, 33⟩, 0⟩ ⟨⟨65 / 2, 31⟩, 0⟩ ⟨⟨9, 31⟩, 0⟩ =
      .ok (.oneIntersect ⟨31, 31⟩) ∧
    intrPlineSegs ⟨⟨65 / 2, 31⟩, 0⟩ ⟨⟨9, 31⟩, 0⟩ ⟨⟨31, 9⟩, 0⟩ ⟨⟨31, 33⟩, 0⟩ = .ok (.oneIntersect ⟨31, 31⟩) := by
  constructor
  · unfold intrPlineSegs
    rw [if_pos ⟨line_zero _, line_zero _⟩,
      intr_true (x := ⟨31, 31⟩) (s := 11 / 12) (r := 3 / 47) (by norm_num [abs_of_neg]) (by norm_num) (by norm_num)
        (by norm_num) (by norm_num) (by ext <;> norm_num [lerp]) (by ext <;> norm_num [lerp])]
  · unfold intrPlineSegs
    rw [if_pos ⟨line_zero _, line_zero _⟩,
      intr_true (x := ⟨31, 31⟩) (s := 3 / 47) (r := 11 / 12) (by norm_num [abs_of_neg]) (by norm_num) (by norm_num)
        (by norm_num) (by norm_num) (by ext <;> norm_num [lerp]) (by ext <;> norm_num [lerp])]

theorem chamferRaw_selfs {l : List PlineIntersect} (h : SelfIntersectsOf chamferRaw l) :
    l = [⟨1, 3, ⟨31, 31⟩⟩] ∨ l = [⟨3, 1, ⟨31, 31⟩⟩] := by
  obtain ⟨pairs, hnd, has, hp, rfl⟩ := h
  have hsub : ∀ x ∈ pairs, x = (1, 3) ∨ x = (3, 1) := by
    rintro ⟨i, j⟩ hij
    obtain ⟨⟨n1, n2, n3⟩, v1, v2, u1, u2, h1, h2, hb⟩ := (hp i j).1 (Or.inl hij)
    unfold IsPrev at n2 n3
    have hlen : chamferRaw.vertexes.length = 5 := rfl
    rw [hlen] at n2 n3
    unfold BoxesClose at hb
    rcases chamferRaw_seg h1 with ⟨rfl, rfl, rfl⟩ | ⟨rfl, rfl, rfl⟩ | ⟨rfl, rfl, rfl⟩ | ⟨rfl, rfl, rfl⟩ | ⟨rfl, rfl, rfl⟩ <;>
    rcases chamferRaw_seg h2 with ⟨rfl, rfl, rfl⟩ | ⟨rfl, rfl, rfl⟩ | ⟨rfl, rfl, rfl⟩ | ⟨rfl, rfl, rfl⟩ | ⟨rfl, rfl, rfl⟩ <;>
    first
    | omega
    | exact Or.inl rfl
    | exact Or.inr rfl
    | (exfalso
       simp only [createFastApproxBoundingBox, Vertex.bulgeIsZero, realPrecision] at hb
       norm_num at hb)
  have hmem : (1, 3) ∈ pairs ∨ (3, 1) ∈ pairs := by
    refine (hp 1 3).2 ⟨⟨by norm_num, ?_, ?_⟩, _, _, _, _, rfl, rfl, ?_⟩
    · have hlen : chamferRaw.vertexes.length = 5 := rfl
      rw [hlen]; unfold IsPrev; omega
    · have hlen : chamferRaw.vertexes.length = 5 := rfl
      rw [hlen]; unfold IsPrev; omega
    · simp only [BoxesClose, createFastApproxBoundingBox, Vertex.bulgeIsZero, realPrecision]
      norm_num
  have hone : pairs = [(1, 3)] ∨ pairs = [(3, 1)] := by
    match pairs, hsub, hmem, hnd, has with
    | [], _, hmem, _, _ => simp at hmem
    | [x], hsub, _, _, _ =>
      rcases hsub x (by simp) with rfl | rfl
      · exact Or.inl rfl
      · exact Or.inr rfl
    | x :: y :: r, hsub, _, hnd, has =>
      exfalso
      have hx := hsub x (by simp)
      have hy := hsub y (by simp)
      rcases hx with rfl | rfl <;> rcases hy with rfl | rfl
      · simp at hnd
      · exact has 1 3 (by simp) (by simp)
      · exact has 3 1 (by simp) (by simp)
      · simp at hnd
  have hcons : consecutiveOf chamferRaw = [] := chamferRaw_consecutive
  rw [hcons, List.nil_append]
  rcases hone with rfl | rfl
  · left
    rw [List.flatMap_singleton]
    unfold selfHits
    rw [chamferRaw_segs]
    simp only [List.getElem?_cons_zero, List.getElem?_cons_succ]
    rw [chamferRaw_hit.1]
    simp only [reported]
    norm_num [Near]
  · right
    rw [List.flatMap_singleton]
    unfold selfHits
    rw [chamferRaw_segs]
    simp only [List.getElem?_cons_zero, List.getElem?_cons_succ]
    rw [chamferRaw_hit.2]
    simp only [reported]
    norm_num [Near]

theorem chamfer_cuts : ExactCuts chamferRaw [⟨1, ⟨31, 31⟩, false⟩, ⟨3, ⟨31, 31⟩, false⟩] := by
  have hline : ∀ {a b : V2} {t : ℝ}, AtParam ⟨a, 0⟩ ⟨b, 0⟩ t (lerp a b t) := fun {a b t} =>
    (atParam_line (isLine_zero _)).2 rfl
  have h1 : AtParam ⟨⟨31, 9⟩, 0⟩ ⟨⟨31, 33⟩, 0⟩ (11 / 12) ⟨31, 31⟩ := by
    rw [show (⟨31, 31⟩ : V2) = lerp ⟨31, 9⟩ ⟨31, 33⟩ (11 / 12) by ext <;> norm_num [lerp]]
    exact hline
  have h3 : AtParam ⟨⟨65 / 2, 31⟩, 0⟩ ⟨⟨9, 31⟩, 0⟩ (3 / 47) ⟨31, 31⟩ := by
    rw [show (⟨31, 31⟩ : V2) = lerp ⟨65 / 2, 31⟩ ⟨9, 31⟩ (3 / 47) by ext <;> norm_num [lerp]]
    exact hline
  have htwice : PassedTwice chamferRaw ⟨31, 31⟩ :=
    ⟨1, 3, _, _, _, _, rfl, rfl, by norm_num, ⟨_, by norm_num, by norm_num, h1⟩, ⟨_, by norm_num, by norm_num, h3⟩, by
      have hlen : chamferRaw.vertexes.length = 5 := rfl
      rw [hlen]
      rintro (⟨h, -⟩ | ⟨h, -⟩) <;> omega⟩
  suffices h : _ ∧ _ ∧ _ ∧ _ ∧ _ from ⟨⟨h.1, h.2.2.2.1, h.2.2.2.2⟩, h.2.1, h.2.2.1⟩
  refine ⟨?_, ?_, ?_, ?_, ?_⟩
  · intro c hc
    simp only [List.mem_cons, List.not_mem_nil, or_false] at hc
    rcases hc with rfl | rfl
    · exact ⟨_, _, 11 / 12, rfl, by norm_num, by norm_num, h1⟩
    · exact ⟨_, _, 3 / 47, rfl, by norm_num, by norm_num, h3⟩
  · intro c hc
    simp only [List.mem_cons, List.not_mem_nil, or_false] at hc
    rcases hc with rfl | rfl <;> exact htwice
  · rintro k v e x hs ho ⟨i, j, v1, v2, u1, u2, g1, g2, hij, o1, o2, hn⟩
    have hx : x = ⟨31, 31⟩ := by
      rcases chamferRaw_meet g1 g2 hij o1 o2 with h | h
      · exact absurd h hn
      · exact h
    subst hx
    simp only [List.mem_cons, List.not_mem_nil, or_false, exists_eq_or_imp, exists_eq_left, and_true]
    rcases chamferRaw_seg hs with ⟨rfl, rfl, rfl⟩ | ⟨rfl, rfl, rfl⟩ | ⟨rfl, rfl, rfl⟩ | ⟨rfl, rfl, rfl⟩ | ⟨rfl, rfl, rfl⟩
    · obtain ⟨t, t0, t1, hx1, hy1⟩ := on_line ho; simp only at hx1 hy1; exfalso; linarith
    · exact Or.inl rfl
    · obtain ⟨t, t0, t1, hx1, hy1⟩ := on_line ho; simp only at hx1 hy1; exfalso; linarith
    · exact Or.inr rfl
    · obtain ⟨t, t0, t1, hx1, hy1⟩ := on_line ho; simp only at hx1 hy1; exfalso; linarith
  · simp
  · rintro k v e t t' x x' hs ⟨m0, m1, m2, m3⟩ ⟨m0', m1', m2', m3'⟩ htt
    have hlp : ∀ {a b : V2} {t : ℝ} {x : V2}, AtParam ⟨a, 0⟩ ⟨b, 0⟩ t x → x = lerp a b t := fun h =>
      (atParam_line (isLine_zero _)).1 h
    have hz : ∀ a : V2, IsLine ⟨a, 0⟩ := fun a => isLine_zero _
    simp only [List.mem_cons, List.not_mem_nil, or_false, exists_eq_or_imp, exists_eq_left] at m3 m3'
    rcases chamferRaw_seg hs with ⟨rfl, rfl, rfl⟩ | ⟨rfl, rfl, rfl⟩ | ⟨rfl, rfl, rfl⟩ | ⟨rfl, rfl, rfl⟩ | ⟨rfl, rfl, rfl⟩
    all_goals
      refine ⟨?_, fun h => absurd (hz _) h⟩
      have e := hlp m2
      have e' := hlp m2'
      have ex := congrArg V2.x e
      have ex' := congrArg V2.x e'
      have ey := congrArg V2.y e
      have ey' := congrArg V2.y e'
      norm_num [lerp] at ex ex' ey ey'
      rintro ⟨n1, n2⟩
      rw [abs_lt] at n1 n2
      rw [ex, ex'] at n1
      rw [ey, ey'] at n2
    · have : 1 ≤ t' - t := by
        rcases m3 with h | h | ⟨h, -⟩ | ⟨h, -⟩ <;> rcases m3' with h' | h' | ⟨h', -⟩ | ⟨h', -⟩ <;> first | omega | linarith
      norm_num at n1
      linarith
    · have : 1 / 12 ≤ t' - t := by
        have q : ∀ {s : ℝ} {y : V2}, y.y = 9 + s * 24 → (s = 0 ∨ s = 1 ∨ 1 = 1 ∧ (⟨31, 31⟩ : V2) = y ∨ (3 : ℕ) = 1 ∧ (⟨31, 31⟩ : V2) = y) →
            s = 0 ∨ s = 1 ∨ s = 11 / 12 := by
          rintro s y hy (h | h | ⟨-, rfl⟩ | ⟨h, -⟩)
          · exact Or.inl h
          · exact Or.inr (Or.inl h)
          · right; right; simp only at hy; linarith
          · omega
        rcases q ey m3 with h | h | h <;> rcases q ey' m3' with h' | h' | h' <;> linarith
      norm_num at n2
      linarith
    · have : 1 ≤ t' - t := by
        rcases m3 with h | h | ⟨h, -⟩ | ⟨h, -⟩ <;> rcases m3' with h' | h' | ⟨h', -⟩ | ⟨h', -⟩ <;> first | omega | linarith
      norm_num at n1
      linarith
    · have : 3 / 47 ≤ t' - t := by
        have q : ∀ {s : ℝ} {y : V2}, y.x = 65 / 2 + s * (-47 / 2) → (s = 0 ∨ s = 1 ∨ (1 : ℕ) = 3 ∧ (⟨31, 31⟩ : V2) = y ∨ 3 = 3 ∧ (⟨31, 31⟩ : V2) = y) →
            s = 0 ∨ s = 1 ∨ s = 3 / 47 := by
          rintro s y hy (h | h | ⟨h, -⟩ | ⟨-, rfl⟩)
          · exact Or.inl h
          · exact Or.inr (Or.inl h)
          · omega
          · right; right; simp only at hy; linarith
        rcases q (by linarith) m3 with h | h | h <;> rcases q (by linarith) m3' with h' | h' | h' <;> linarith
      norm_num at n1
      linarith
    · have : 1 ≤ t' - t := by
        rcases m3 with h | h | ⟨h, -⟩ | ⟨h, -⟩ <;> rcases m3' with h' | h' | ⟨h', -⟩ | ⟨h', -⟩ <;> first | omega | linarith
      norm_num at n2
      linarith

theorem chamfer_meets : ClearMeets chamfer chamferRaw 9 := by
  rintro k v e u w hs ⟨hl, hpt, -, -, -⟩ - ⟨i, u1, u2, r, hp, hov, -, -⟩
  have key : ∀ x, OnSeg v e x → 9 ≤ x.x ∧ x.x ≤ 65 / 2 ∧ 9 ≤ x.y ∧ x.y ≤ 33 := by
    intro x ho
    rcases chamferRaw_seg hs with ⟨rfl, rfl, rfl⟩ | ⟨rfl, rfl, rfl⟩ | ⟨rfl, rfl, rfl⟩ | ⟨rfl, rfl, rfl⟩ | ⟨rfl, rfl, rfl⟩ <;>
      obtain ⟨t, t0, t1, hx1, hy1⟩ := on_line ho <;> simp only at hx1 hy1 <;>
      refine ⟨?_, ?_, ?_, ?_⟩ <;> linarith
  have hu := key _ (hpt u.pos (onSeg_start u w))
  have hw := key _ (hpt w.pos (onSeg_end u w))
  have hul : u.bulgeIsZero := by
    have : IsLine v := by
      rcases chamferRaw_seg hs with ⟨-, rfl, -⟩ | ⟨-, rfl, -⟩ | ⟨-, rfl, -⟩ | ⟨-, rfl, -⟩ | ⟨-, rfl, -⟩ <;>
        exact isLine_zero _
    exact hl.2 this
  unfold Overlap createFastApproxBoundingBox at hov
  rw [if_pos hul] at hov
  rcases chamfer_seg hp with ⟨-, rfl, rfl⟩ | ⟨-, rfl, rfl⟩ | ⟨-, rfl, rfl⟩ | ⟨-, rfl, rfl⟩ | ⟨-, rfl, rfl⟩ <;>
    rw [if_pos (line_zero _)] at hov <;>
    simp only [AABB.toBox] at hov <;> norm_num at hov <;>
    split_ifs at hov <;> linarith [hov.1, hov.2.1, hov.2.2.1, hov.2.2.2]

/-- The hypotheses of C65 are met. -/
example (std : StdSort) (hash : HashOrder) (inf ninf : ℝ) :
    ∃ r, parallelOffset (codePlatform inf ninf) std hash chamfer 9 = .ok r := by
  refine C65_parallelOffset inf ninf (chamfer_indexable inf ninf) (lines_ok chamfer_lines) ?_ chamfer_clear.repeats rfl
    (line_not_collapses chamfer_lines chamfer_clear.repeats) ?_
  · simp [BulgesOk, chamfer]
  · intro raw h
    rw [chamfer_raw] at h
    cases h
    refine Or.inr ⟨chamferRaw_indexable inf ninf, ?_, ?_⟩
    · intro i v w hs hl
      rcases chamferRaw_seg hs with ⟨-, rfl, -⟩ | ⟨-, rfl, -⟩ | ⟨-, rfl, -⟩ | ⟨-, rfl, -⟩ | ⟨-, rfl, -⟩ <;>
        exact absurd (isLine_zero _) hl
    · intro l hl
      rcases chamferRaw_selfs hl with rfl | rfl <;> norm_num [selfCuts]

theorem chamferRaw_arcs : LongArcs chamferRaw := by
  intro i v w hs hl
  rcases chamferRaw_seg hs with ⟨-, rfl, -⟩ | ⟨-, rfl, -⟩ | ⟨-, rfl, -⟩ | ⟨-, rfl, -⟩ | ⟨-, rfl, -⟩ <;>
    exact absurd (isLine_zero _) hl

theorem chamferRaw_exact : ∀ l, SelfIntersectsOf chamferRaw l → l ≠ [] ∧ ExactCuts chamferRaw (selfCuts l) ∧
    ApartCuts (selfCuts l) ∧ (selfCuts l).length ≤ 2 ^ 24 := by
  intro l hl
  have hap : ApartCuts [⟨1, ⟨31, 31⟩, false⟩, ⟨3, ⟨31, 31⟩, false⟩] := by
    intro a ha b hb
    simp only [List.mem_cons, List.not_mem_nil, or_false] at ha hb
    rcases ha with rfl | rfl <;> rcases hb with rfl | rfl <;> intros <;> rfl
  have hsw : ApartCuts [⟨3, ⟨31, 31⟩, false⟩, ⟨1, ⟨31, 31⟩, false⟩] := fun a ha b hb =>
    hap a ((List.Perm.swap _ _ _).mem_iff.1 ha) b ((List.Perm.swap _ _ _).mem_iff.1 hb)
  rcases chamferRaw_selfs hl with rfl | rfl
  · exact ⟨by simp, chamfer_cuts, hap, by norm_num [selfCuts]⟩
  · exact ⟨by simp, exactCuts_perm (List.Perm.swap _ _ _) chamfer_cuts, hsw, by norm_num [selfCuts]⟩

/-- The hypotheses of C64 are met. -/
example (std : StdSort) (hash : HashOrder) (inf ninf : ℝ) :
    ∃ r selfs, parallelOffset (codePlatform inf ninf) std hash chamfer 9 = .ok r ∧ SelfIntersectsOf chamferRaw selfs ∧
      (∀ q ∈ r, ∀ x, OnPline q x →
        AtOffset chamfer 9 x ∨ ∃ s, Shallow chamfer chamferRaw 9 (selfCuts selfs) s ∧ OnPline s x) ∧
      ∀ x, AtOffset chamfer 9 x → ¬ PassedTwice chamferRaw x →
        (∃ q ∈ r, OnPline q x) ∨ ∃ s, ShortLoop chamfer chamferRaw 9 (selfCuts selfs) s ∧ OnPline s x :=
  C64_parallelOffset inf ninf chamfer_simple (by norm_num [abs_of_pos]) chamfer_clear
    (chamfer_indexable inf ninf) chamfer_raw (chamferRaw_indexable inf ninf) chamferRaw_arcs chamferRaw_exact chamfer_meets

theorem oneSeg_circleCuts {a b c : V2} {R t : ℝ} (h : intrLineSeg2Circle2 a b R c = .ok (.one t)) {cs : List Cut}
    (hc : CircleCuts (oneSeg a b) R c cs) :
    cs.length ≤ 1 ∧ ∀ x ∈ cs, x.pos = lerp a b t ∧ 1 / 10 ^ 5 < t := by
  obtain ⟨is, css, hn, hi, hf, rfl⟩ := hc
  have hall : ∀ i ∈ is, i = 0 := by
    intro i h
    obtain ⟨v1, v2, h, -⟩ := (hi i).1 h
    exact (one_seg h).1
  have hcut : ∀ i cs', (∃ v1 v2 xs, IsSeg (oneSeg a b) i v1 v2 ∧ CircleHits v1 v2 R c xs ∧
      cs' = xs.map fun x => (⟨i, x, false⟩ : Cut)) → cs'.length ≤ 1 ∧ ∀ x ∈ cs', x.pos = lerp a b t ∧ 1 / 10 ^ 5 < t := by
    rintro i cs' ⟨v1, v2, xs, hs, hh, rfl⟩
    obtain ⟨-, rfl, rfl⟩ := one_seg hs
    rcases hh with ⟨-, r, hr, rfl⟩ | ⟨hl, -⟩
    · rw [h] at hr
      cases hr
      simp only [paramsOf, List.length_map]
      by_cases ht : 1 / 10 ^ 5 < t ∧ t ≤ 1
      · rw [List.filter_cons_of_pos (by simpa using ht), List.filter_nil]
        refine ⟨le_refl _, fun x hx => ?_⟩
        simp only [List.map_cons, List.map_nil, List.mem_singleton] at hx
        subst hx
        exact ⟨rfl, ht.1⟩
      · rw [List.filter_cons_of_neg (by simpa using ht), List.filter_nil]
        simp
    · exact absurd (isLine_zero _) hl
  cases hf with
  | nil => simp
  | @cons i cs' is' css' h1 h2 =>
    cases h2 with
    | nil => simpa using hcut _ _ h1
    | @cons j _ _ _ _ _ =>
      have e1 := hall i (by simp)
      have e2 := hall j (by simp)
      subst e1 e2
      simp at hn

/-- The hypotheses of C65 for open polylines are met: a straight segment, which is cut by the circle around its end. -/
example (std : StdSort) (hash : HashOrder) (inf ninf : ℝ) :
    ∃ r, parallelOffset (codePlatform inf ninf) std hash (oneSeg ⟨0, 0⟩ ⟨10, 0⟩) 1 = .ok r := by
  have hno : NoRepeats (oneSeg ⟨0, 0⟩ ⟨10, 0⟩) := by
    intro i v1 v2 h hn
    obtain ⟨-, rfl, rfl⟩ := one_seg h
    norm_num [Near] at hn
  have hls : ∀ v ∈ (oneSeg ⟨0, 0⟩ ⟨10, 0⟩).vertexes, IsLine v := by simp [oneSeg, isLine_zero]
  refine C65_parallelOffset_dual inf ninf (one_seg_indexable inf ninf) one_seg_ok ?_ hno (Or.inl rfl)
    (fun i v1 v2 h => ⟨line_not_collapses hls hno i v1 v2 h, line_not_collapses hls hno i v1 v2 h⟩) ?_
  · simp [BulgesOk, oneSeg]
  · intro raw dual h1 h2
    have hraw := oneSeg_raw (d := 1) (L := 10) (ux := 1) (uy := 0) (p := ⟨0, 0⟩) (q := ⟨10, 0⟩) (by norm_num)
      (by norm_num) (by norm_num) (by norm_num)
    have hdual := oneSeg_raw (d := -1) (L := 10) (ux := 1) (uy := 0) (p := ⟨0, 0⟩) (q := ⟨10, 0⟩) (by norm_num)
      (by norm_num) (by norm_num) (by norm_num)
    norm_num at hraw hdual
    rw [hraw] at h1
    cases h1
    rw [hdual] at h2
    cases h2
    refine Or.inr ⟨one_seg_indexable inf ninf, ?_, one_seg_ok, ?_⟩
    · intro i v w hs hl
      obtain ⟨-, rfl, -⟩ := one_seg hs
      exact absurd (isLine_zero _) hl
    intro selfs s d ends hs hsi hd he
    have e1 : selfs = [] := by
      obtain ⟨pairs, -, -, hp, rfl⟩ := hs
      have : pairs = [] := by
        rw [List.eq_nil_iff_forall_not_mem]
        rintro ⟨i, j⟩ hij
        obtain ⟨⟨n1, -⟩, v1, v2, u1, u2, g1, g2, -⟩ := (hp i j).1 (Or.inl hij)
        exact n1 ((one_seg g1).1.trans (one_seg g2).1.symm)
      rw [this]
      rfl
    have hno : intrPlineSegs ⟨⟨0, 1⟩, 0⟩ ⟨⟨10, 1⟩, 0⟩ ⟨⟨0, -1⟩, 0⟩ ⟨⟨10, -1⟩, 0⟩ = .ok .noIntersect :=
      parallel_none (by norm_num) (by norm_num)
    have e2 : dualCuts d = [] := by
      obtain ⟨s', out, hs', ho, hB, hA, -⟩ := C33_findIntersects (one_seg_indexable inf ninf (a := ⟨0, 1⟩)
        (b := ⟨10, 1⟩)) one_seg_ok (one_seg_ok (a := ⟨0, -1⟩) (b := ⟨10, -1⟩))
      rw [show (⟨false, [⟨⟨0, 1⟩, 0⟩, ⟨⟨10, 1⟩, 0⟩]⟩ : Polyline) = oneSeg ⟨0, 1⟩ ⟨10, 1⟩ from rfl, hsi] at hs'
      cases hs'
      rw [show (⟨false, [⟨⟨0, 1⟩, 0⟩, ⟨⟨10, 1⟩, 0⟩]⟩ : Polyline) = oneSeg ⟨0, 1⟩ ⟨10, 1⟩ from rfl,
        show (⟨false, [⟨⟨0, -1⟩, 0⟩, ⟨⟨10, -1⟩, 0⟩]⟩ : Polyline) = oneSeg ⟨0, -1⟩ ⟨10, -1⟩ from rfl, hd] at ho
      cases ho
      have hc : d.coincidentIntersects = [] := by
        rw [List.eq_nil_iff_forall_not_mem]
        rintro ⟨i, j, a, b⟩ hm
        obtain ⟨v1, v2, u1, u2, g1, g2, -, g3⟩ := (hB _ _ _ _).1 hm
        obtain ⟨-, rfl, rfl⟩ := one_seg g1
        obtain ⟨-, rfl, rfl⟩ := one_seg g2
        unfold OverlapHit at g3
        rw [hno] at g3
        simp at g3
      have hi : d.intersects = [] := by
        rw [List.eq_nil_iff_forall_not_mem]
        rintro ⟨i, j, x⟩ hm
        obtain ⟨v1, v2, u1, u2, g1, g2, -, g3, -⟩ := (hA _ _ _).1 hm
        obtain ⟨-, rfl, rfl⟩ := one_seg g1
        obtain ⟨-, rfl, rfl⟩ := one_seg g2
        unfold PointHit at g3
        rw [hno] at g3
        simp at g3
      unfold dualCuts
      rw [hc, hi]
      rfl
    unfold EndCuts at he
    rw [if_neg (by simp [oneSeg])] at he
    obtain ⟨a, b, cs1, cs2, ha, hb, h1, h2, rfl⟩ := he
    cases ha
    cases hb
    obtain ⟨l1, p1⟩ := oneSeg_circleCuts (t := 0) (tangent_one (by norm_num [dist2]) (by norm_num [dist2])
      (by norm_num [dist2])) h1
    obtain ⟨l2, p2⟩ := oneSeg_circleCuts (t := 1) (tangent_one (by norm_num [dist2]) (by norm_num [dist2])
      (by norm_num [dist2])) h2
    rw [e1, e2]
    simp only [selfCuts, List.flatMap_nil, List.append_nil, List.length_append]
    refine ⟨by omega, fun _ c hc v hv hn => ?_⟩
    cases hv
    rcases List.mem_append.1 hc with hc | hc
    · have := (p1 c hc).2
      norm_num at this
    · rw [(p2 c hc).1] at hn
      norm_num [Near, lerp] at hn

end
end Cavc

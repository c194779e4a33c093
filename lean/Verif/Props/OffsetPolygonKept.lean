import Verif.Proofs.PlineConn
import Verif.Props.OffsetWhole

/-! Which stretches of the raw offset of a simple polygon are on the exact offset. -/
namespace Cavc
open Spec
open scoped Classical
noncomputable section

theorem closer_iff {p : Polyline} {d : ℝ} {x : V2} : Closer p d x ↔ ¬ NotCloser p d x := by
  unfold Closer NotCloser
  push Not
  rfl

/-- **C63.** Of a stretch of the raw offset of a simple polygon between the points where it meets itself,
either all points are on the exact offset or all points are too close to the polygon. -/
theorem C63_all_or_nothing {p raw : Polyline} {offset : ℝ} (hp : SimplePolygon p) (hne : offset ≠ 0)
    (hclear : ClearOffset p offset) (hraw : createRawOffsetPline p offset = .ok raw) {K : Set V2}
    (hK : OnceStretch raw K) :
    (∀ x ∈ K, AtOffset p offset x) ∨ ∀ x ∈ K, Closer p |offset| x := by
  obtain ⟨raw', hrun', -, -, hlev⟩ := C62_level hp hne hclear
  rw [hraw] at hrun'
  cases hrun'
  obtain ⟨raw', ls, hrun', hc, hls, hr⟩ := C62_raw hp.closed hp.lines hp.two hclear
  rw [hraw] at hrun'
  cases hrun'
  have h2 := hp.two'
  have hrw := simple_rawP hp hne hclear hls
  have hkinds := RoundsAll.kinds hp.closed h2 hls
  obtain ⟨σ, V, V', hV, hσ, -⟩ := offsetSide_sides hp hne
  have := hrw.all_or_nothing hV hσ (γ := fun q : ℝ × ℝ => (⟨q.1, q.2⟩ : V2)) continuous_fst continuous_snd
    hK.connected
    (by
      rintro q ⟨x, hx, rfl⟩
      exact (raw_onRaw hc hls.1 h2 hkinds hr).1 (hK.along x hx))
    (by
      rintro q ⟨x, hx, rfl⟩
      exact raw_once hc hls.1 h2 hkinds hr (hK.once x hx))
  simp only [Set.forall_mem_image] at this
  rcases this with h | h
  · left
    intro x hx
    exact (hlev x).2 ⟨hK.along x hx, (notCloser_iff hp).2 (h hx)⟩
  · right
    intro x hx
    rw [closer_iff, notCloser_iff hp]
    exact h hx

/-! ### When nothing has to be cut -/

theorem farEnough_of_notCloser {p : Polyline} {offset : ℝ} (hl : ∀ v ∈ p.vertexes, IsLine v)
    (ho : 1 / 10 ^ 4 ≤ |offset|) {x : V2} (h : NotCloser p |offset| x) : FarEnough p offset x := by
  intro i v1 v2 q hs _ hq
  have hv : IsLine v1 := by
    obtain ⟨a, -, -, rfl, -⟩ := seg_lt hs
    exact hl _ (vtx_mem a)
  obtain ⟨t, t0, t1, e⟩ := (C13_closestPointOnLineSeg v1.pos v2.pos x).1
  have hq' : q = lerp v1.pos v2.pos t := by
    rw [← e]
    unfold closestPointOnSeg at hq
    rw [if_pos (show v1.bulgeIsZero from hv)] at hq
    exact (Except.ok.inj hq).symm
  have := h q ⟨i, v1, v2, hs, (onSeg_line hv).2 ⟨t, t0, t1, hq'⟩⟩
  have hd : dist2 q x = distance x q ^ 2 := by rw [distance_sq]; unfold dist2; ring
  rw [hd]
  have h0 : (0 : ℝ) < 1 / 10 ^ 4 := by norm_num
  exact pow_lt_pow_left₀ (by linarith) (by linarith) two_ne_zero

/-- **C63.** When the raw offset of a simple polygon does not meet itself and the search for self
intersects finds none, the parallel offset is the raw offset, and this is the exact offset; or it is
empty, and so is the exact offset; except that when the raw offset has no point on the exact offset, it is
still taken if its first vertex is only 1e-4 (and the tolerances of the closest point) too close. -/
theorem C63_uncut {std : StdSort} {hash : HashOrder} (inf ninf : ℝ) {p raw : Polyline} {offset : ℝ}
    (hp : SimplePolygon p) (ho : 1 / 10 ^ 4 ≤ |offset|) (hclear : ClearOffset p offset)
    (hi : Indexable (codePlatform inf ninf) p) (hraw : createRawOffsetPline p offset = .ok raw)
    (hri : Indexable (codePlatform inf ninf) raw) (hro : PlineOk raw) (honce : ∀ x, ¬ PassedTwice raw x)
    (hself : ∀ l, SelfIntersectsOf raw l → l = []) {r : List Polyline}
    (hr : parallelOffset (codePlatform inf ninf) std hash p offset = .ok r) :
    (r = [raw] ∧ ∀ x, AtOffset p offset x ↔ OnPline raw x) ∨
    ((∀ x, ¬ AtOffset p offset x) ∧
      (r = [] ∨ r = [raw] ∧ ∃ v, raw.vertexes.head? = some v ∧ Clear p (|offset| - 1 / 10 ^ 4) v.pos)) := by
  have hne : offset ≠ 0 := by rintro rfl; norm_num at ho
  have hok : PlineOk p := lines_ok hp.lines
  obtain ⟨selfs, hs, h1, -⟩ := C59_parallelOffset inf ninf hi hok
    (fun v hv => by have := hp.lines v hv; unfold IsLine at this; linarith [show (1 : ℝ) / 10 ^ 5 ≤ 1 by norm_num])
    hclear.repeats hp.closed hraw hri hro hr
  obtain rfl := hself selfs hs
  obtain ⟨v, hv, hr'⟩ := h1 rfl
  obtain ⟨raw', hrun', hrc, -, hlev⟩ := C62_level hp hne hclear
  rw [hraw] at hrun'
  cases hrun'
  have hrr : (⟨p.isClosed, raw.vertexes⟩ : Polyline) = raw := by rw [hp.closed, ← hrc]
  rw [hrr] at hr'
  have hvon : OnPline raw v.pos := by
    have h2 : 2 ≤ raw.size := hri.size
    have hs := closed_isSeg hrc h2 (k := 0) (by omega)
    have : vtx raw 0 = v := by
      unfold vtx
      rw [List.getD_eq_getElem?_getD, ← List.head?_eq_getElem?, hv]
      rfl
    rw [this] at hs
    exact ⟨0, _, _, hs, onSeg_start _ _⟩
  have hK : OnceStretch raw {x | OnPline raw x} := ⟨connected_pline raw, fun x hx => hx, fun x _ => honce x⟩
  rcases C63_all_or_nothing hp hne hclear hraw hK with h | h
  · left
    refine ⟨?_, fun x => ⟨fun hx => ((hlev x).1 hx).1, fun hx => h x hx⟩⟩
    rw [hr', if_pos (farEnough_of_notCloser hp.lines ho (h _ hvon).2.1)]
  · right
    refine ⟨fun x hx => ?_, ?_⟩
    · have := (hlev x).1 hx
      exact closer_iff.1 (h x this.1) this.2
    · by_cases hf : FarEnough p offset v.pos
      · right
        rw [if_pos hf] at hr'
        exact ⟨hr', v, hv, clear_of_valid hok (by linarith) hf⟩
      · left
        rw [if_neg hf] at hr'
        exact hr'

/-! ### The hypotheses are met -/

theorem once_of_simple {p : Polyline} (hp : SimplePolygon p) (x : V2) : ¬ PassedTwice p x := by
  rintro ⟨i, j, v1, v2, u1, u2, h1, h2, hij, o1, o2, hn⟩
  exact hn (hp.apart i j v1 v2 u1 u2 x h1 h2 hij o1 o2)

theorem square_corner {i : ℕ} {a b c : V2} (h : IsCorner (rect 0 0 10 10) i a b c) :
    (i = 0 ∧ a = ⟨0, 0⟩ ∧ b = ⟨10, 0⟩ ∧ c = ⟨10, 10⟩) ∨ (i = 1 ∧ a = ⟨10, 0⟩ ∧ b = ⟨10, 10⟩ ∧ c = ⟨0, 10⟩) ∨
    (i = 2 ∧ a = ⟨10, 10⟩ ∧ b = ⟨0, 10⟩ ∧ c = ⟨0, 0⟩) ∨ (i = 3 ∧ a = ⟨0, 10⟩ ∧ b = ⟨0, 0⟩ ∧ c = ⟨10, 0⟩) := by
  obtain ⟨hi, rfl, rfl, rfl⟩ := (isCorner_iff rfl (by decide)).1 h
  have : i < 4 := hi
  interval_cases i <;> simp [ppos, vtx, rect, Polyline.size]

theorem square_moved (x : V2) :
    movedLeft 1 ⟨0, 0⟩ ⟨10, 0⟩ x = ⟨x.x, x.y + 1⟩ ∧ movedLeft 1 ⟨10, 0⟩ ⟨10, 10⟩ x = ⟨x.x - 1, x.y⟩ ∧
    movedLeft 1 ⟨10, 10⟩ ⟨0, 10⟩ x = ⟨x.x, x.y - 1⟩ ∧ movedLeft 1 ⟨0, 10⟩ ⟨0, 0⟩ x = ⟨x.x + 1, x.y⟩ := by
  have h : Real.sqrt (10 ^ 2) = 10 := Real.sqrt_sq (by norm_num)
  refine ⟨?_, ?_, ?_, ?_⟩ <;> ext <;> simp [movedLeft, distance, dist2, h] <;> ring

theorem square_points {i : ℕ} {a b c : V2} (h : IsCorner (rect 0 0 10 10) i a b c) : side a b c ≠ 0 ∧
    ∃ l, CornerPoints 1 a b c l ∧ l = [[⟨9, 1⟩], [⟨9, 9⟩], [⟨1, 9⟩], [⟨1, 1⟩]].getD i [] := by
  have hm := square_moved
  rcases square_corner h with ⟨rfl, rfl, rfl, rfl⟩ | ⟨rfl, rfl, rfl, rfl⟩ | ⟨rfl, rfl, rfl, rfl⟩ | ⟨rfl, rfl, rfl, rfl⟩
  · refine ⟨by norm_num [side], _, Or.inl ⟨9 / 10, 1 / 10, ⟨9, 1⟩, ?_, ?_, ?_, ?_, ⟨?_, ?_⟩, rfl⟩, rfl⟩
    all_goals first | norm_num | skip
    all_goals simp only [(hm _).1, (hm _).2.1]; ext <;> simp [lerp] <;> norm_num
  · refine ⟨by norm_num [side], _, Or.inl ⟨9 / 10, 1 / 10, ⟨9, 9⟩, ?_, ?_, ?_, ?_, ⟨?_, ?_⟩, rfl⟩, rfl⟩
    all_goals first | norm_num | skip
    all_goals simp only [(hm _).2.1, (hm _).2.2.1]; ext <;> simp [lerp] <;> norm_num
  · refine ⟨by norm_num [side], _, Or.inl ⟨9 / 10, 1 / 10, ⟨1, 9⟩, ?_, ?_, ?_, ?_, ⟨?_, ?_⟩, rfl⟩, rfl⟩
    all_goals first | norm_num | skip
    all_goals simp only [(hm _).2.2.1, (hm _).2.2.2]; ext <;> simp [lerp] <;> norm_num
  · refine ⟨by norm_num [side], _, Or.inl ⟨9 / 10, 1 / 10, ⟨1, 1⟩, ?_, ?_, ?_, ?_, ⟨?_, ?_⟩, rfl⟩, rfl⟩
    all_goals first | norm_num | skip
    all_goals simp only [(hm _).1, (hm _).2.2.2]; ext <;> simp [lerp] <;> norm_num

theorem square_clear : ClearOffset (rect 0 0 10 10) 1 := by
  have hm := square_moved
  have hcor : ∀ i < 4, ∃ a b c, IsCorner (rect 0 0 10 10) i a b c := fun i hi =>
    ⟨_, _, _, (isCorner_iff rfl (by decide)).2 ⟨hi, rfl, rfl, rfl⟩⟩
  refine ⟨?_, ?_, ?_, ?_⟩
  · intro i v1 v2 h hn
    rcases rect_seg h with ⟨-, rfl, rfl⟩ | ⟨-, rfl, rfl⟩ | ⟨-, rfl, rfl⟩ | ⟨-, rfl, rfl⟩ <;> norm_num [Near] at hn
  · intro i a b c h
    have h2 : Real.sqrt (10 ^ 2) = 10 := Real.sqrt_sq (by norm_num)
    refine ⟨?_, ?_, ?_⟩
    · rcases square_corner h with ⟨rfl, rfl, rfl, rfl⟩ | ⟨rfl, rfl, rfl, rfl⟩ | ⟨rfl, rfl, rfl, rfl⟩ |
        ⟨rfl, rfl, rfl, rfl⟩ <;> norm_num [side, abs_of_neg]
    · rcases square_corner h with ⟨rfl, rfl, rfl, rfl⟩ | ⟨rfl, rfl, rfl, rfl⟩ | ⟨rfl, rfl, rfl, rfl⟩ |
        ⟨rfl, rfl, rfl, rfl⟩ <;> simp [side, distance, dist2, h2] <;> norm_num [abs_of_neg]
    · rcases square_corner h with ⟨rfl, rfl, rfl, rfl⟩ | ⟨rfl, rfl, rfl, rfl⟩ | ⟨rfl, rfl, rfl, rfl⟩ |
        ⟨rfl, rfl, rfl, rfl⟩
      all_goals
        rintro t0 t1 x ⟨e0, e1⟩ a0 a1 b0 b1
        simp only [(hm _).1, (hm _).2.1, (hm _).2.2.1, (hm _).2.2.2] at e0 e1
        have hx := congrArg V2.x (e0.trans e1.symm)
        have hy := congrArg V2.y (e0.trans e1.symm)
        simp only [lerp] at hx hy
        norm_num at a0 a1 b0 b1
        exact ⟨by linarith, by linarith, by linarith, by linarith⟩
  · rintro pts ⟨hlen, hpts⟩ x hx
    have hlen' : pts.length = 4 := hlen
    have e : pts = [[⟨9, 1⟩], [⟨9, 9⟩], [⟨1, 9⟩], [⟨1, 1⟩]] := by
      apply List.ext_getElem?
      intro i
      by_cases hi : i < 4
      · obtain ⟨a, b, c, h⟩ := hcor i hi
        obtain ⟨hS, l, hl, el⟩ := square_points h
        obtain ⟨l', hl', hr⟩ := hpts i a b c h
        rw [hl', cornerPoints_unique hS hr hl, el]
        interval_cases i <;> rfl
      · rw [List.getElem?_eq_none (by omega), List.getElem?_eq_none (by simp; omega)]
    subst e
    simp only [List.flatten_cons, List.flatten_nil, List.append_nil, List.cons_append, List.nil_append,
      zip_rotate_one, pairsTo, List.mem_cons, List.not_mem_nil, or_false] at hx
    rcases hx with rfl | rfl | rfl | rfl <;> intro hn <;> norm_num [Near, abs_of_neg] at hn
  · intro a b c l x h hl hx hn
    obtain ⟨hS, l', hl', el⟩ := square_points h
    rw [cornerPoints_unique hS hl hl', el] at hx
    rcases square_corner h with ⟨-, rfl, rfl, rfl⟩ | ⟨h, -⟩ | ⟨h, -⟩ | ⟨h, -⟩
    · simp at hx
      subst hx
      rw [(hm _).1] at hn
      norm_num [Near, abs_of_neg] at hn
    all_goals omega

theorem rect_selfs {x0 y0 x1 y1 : ℝ} (hw : 1 / 10 ^ 3 ≤ |x1 - x0|) (hh : 1 / 10 ^ 3 ≤ |y1 - y0|)
    {l : List PlineIntersect} (h : SelfIntersectsOf (rect x0 y0 x1 y1) l) : l = [] := by
  obtain ⟨pairs, -, -, hp, rfl⟩ := h
  have : pairs = [] := by
    rw [List.eq_nil_iff_forall_not_mem]
    rintro ⟨i, j⟩ hij
    exact rect_far_pairs hw hh ((hp i j).1 (Or.inl hij))
  rw [this, List.flatMap_nil, List.append_nil]
  exact rect_consecutive hw hh

/-- A concrete case of both: the square of side 10 offset inwards by 1. -/
example (std : StdSort) (hash : HashOrder) (inf ninf : ℝ) :
    parallelOffset (codePlatform inf ninf) std hash (rect 0 0 10 10) 1 = .ok [rect 1 1 9 9] ∧
    ((∀ x, OnPline (rect 1 1 9 9) x → AtOffset (rect 0 0 10 10) 1 x) ∨
      ∀ x, OnPline (rect 1 1 9 9) x → Closer (rect 0 0 10 10) |1| x) ∧
    (([rect 1 1 9 9] = [rect 1 1 9 9] ∧ ∀ x, AtOffset (rect 0 0 10 10) 1 x ↔ OnPline (rect 1 1 9 9) x) ∨
     ((∀ x, ¬ AtOffset (rect 0 0 10 10) 1 x) ∧ ([rect 1 1 9 9] = [] ∨ [rect 1 1 9 9] = [rect 1 1 9 9] ∧
      ∃ v, (rect 1 1 9 9).vertexes.head? = some v ∧ Clear (rect 0 0 10 10) (|1| - 1 / 10 ^ 4) v.pos))) := by
  have hraw := rect_raw (x0 := 0) (y0 := 0) (x1 := 10) (y1 := 10) (d := 1) (by norm_num) (by norm_num)
    (by norm_num) (by norm_num) (by norm_num)
  have hr := C52_rectangle (std := std) (hash := hash) inf ninf (x0 := 0) (y0 := 0) (x1 := 10) (y1 := 10)
    (d := 1) (by norm_num) (by norm_num) (by norm_num)
  norm_num at hraw
  rw [show (0 : ℝ) + 1 = 1 by norm_num, show (10 : ℝ) - 1 = 9 by norm_num] at hr
  have hsq := rect_simple (x0 := 0) (y0 := 0) (x1 := 10) (y1 := 10) (by norm_num) (by norm_num)
  have hsr := rect_simple (x0 := 1) (y0 := 1) (x1 := 9) (y1 := 9) (by norm_num) (by norm_num)
  refine ⟨hr, ?_, ?_⟩
  · exact C63_all_or_nothing hsq (by norm_num) square_clear hraw (K := {x | OnPline (rect 1 1 9 9) x})
      ⟨connected_pline _, fun x hx => hx, fun x _ => once_of_simple hsr x⟩
  · exact C63_uncut inf ninf hsq (by norm_num) square_clear (rect_indexable inf ninf) hraw
      (rect_indexable inf ninf) rect_ok (once_of_simple hsr)
      (fun l hl => rect_selfs (by norm_num [abs_of_pos]) (by norm_num [abs_of_pos]) hl) hr

end
end Cavc

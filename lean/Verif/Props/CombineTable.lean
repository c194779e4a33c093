import Verif.Spec.Combine
import Verif.Props.FindIntersects
import Verif.Props.PlineWinding
import Verif.Props.PlineArea

/-! C42: boolean operations on polylines that do not intersect. -/
namespace Cavc
open Spec
open scoped Classical
noncomputable section

theorem getArea_total (p : Polyline) : ∃ a, getArea p = .ok a := by
  cases hc : p.isClosed with
  | false => exact ⟨0, C21_open p hc⟩
  | true =>
    obtain ⟨γ, hγ⟩ := exists_path p
    exact ⟨_, C21_getArea p hc γ hγ⟩

theorem inside_run {p : Polyline} (hok : PlineOk p) (hc : p.isClosed = true) {x : V2}
    (hoff : ¬ OnPline p x) : ∃ k : ℤ, getWindingNumber p x = .ok k ∧ (Inside p x ↔ k ≠ 0) := by
  obtain ⟨γ, hγ⟩ := exists_path p
  obtain ⟨k, hk, hs⟩ := C25_getWindingNumber p hok hc x hoff γ hγ
  have hpi := Real.pi_pos
  refine ⟨k, hk, ?_⟩
  constructor
  · rintro ⟨δ, hδ, hne⟩
    obtain ⟨k', hk', hs'⟩ := C25_getWindingNumber p hok hc x hoff δ hδ
    rw [hk] at hk'
    cases hk'
    rintro rfl
    rw [eq_div_iff (by positivity)] at hs'
    simp at hs'
    exact hne hs'.symm
  · intro h
    refine ⟨γ, hγ, fun h0 => h ?_⟩
    rw [h0, zero_div] at hs
    exact_mod_cast hs

theorem pointIn_run {p : Polyline} (hok : PlineOk p) (hc : p.isClosed = true) {x : V2}
    (hoff : ¬ OnPline p x) : pointIn p x = .ok (decide (Inside p x)) := by
  obtain ⟨k, hk, hi⟩ := inside_run hok hc hoff
  unfold pointIn
  rw [hk, ok_bind, pure_eq_ok]
  congr 1
  rw [decide_eq_decide]
  exact hi.symm

/-- C42. For two closed polylines of lines and arcs of at most a half circle for which the segment
tests report no intersect, the first vertex of each being off the other one, combining does not fault
and gives: A, B or both of them as remaining or subtracted polylines, as decided by whether the first
vertex of A is inside B and that of B inside A. -/
theorem C42_table {pf : Platform} {std : StdSort} {hash : HashOrder} {A B : Polyline}
    (hi : Indexable pf A) (hA : PlineOk A) (hB : PlineOk B) (cA : A.isClosed = true)
    (cB : B.isClosed = true) {a b : Vertex} (ha : A.vertexes.head? = some a)
    (hb : B.vertexes.head? = some b) (hno : NothingReported A B)
    (oA : ¬ OnPline B a.pos) (oB : ¬ OnPline A b.pos) (mode : CombineMode) :
    combinePolylines pf std hash A B mode = .ok (
      match mode with
      | .union => if Inside B a.pos then ⟨[B], []⟩ else if Inside A b.pos then ⟨[A], []⟩
          else ⟨[A, B], []⟩
      | .exclude => if Inside B a.pos then ⟨[], []⟩ else if Inside A b.pos then ⟨[A], [B]⟩
          else ⟨[A], []⟩
      | .intersect => if Inside B a.pos then ⟨[A], []⟩ else if Inside A b.pos then ⟨[B], []⟩
          else ⟨[], []⟩
      | .xor => if Inside B a.pos then ⟨[B], [A]⟩ else if Inside A b.pos then ⟨[A], [B]⟩
          else ⟨[A, B], []⟩) := by
  obtain ⟨s, out, hs, ho, hcoin, hint, -⟩ := C33_findIntersects hi hA hB
  have e1 : out.coincidentIntersects = [] := by
    rw [List.eq_nil_iff_forall_not_mem]
    rintro ⟨i, j, x, y⟩ hm
    obtain ⟨v1, v2, u1, u2, g1, g2, g3, g4⟩ := (hcoin _ _ _ _).1 hm
    exact (hno i j v1 v2 u1 u2 g1 g2 g3 x).2 y g4
  have e2 : out.intersects = [] := by
    rw [List.eq_nil_iff_forall_not_mem]
    rintro ⟨i, j, x⟩ hm
    obtain ⟨v1, v2, u1, u2, g1, g2, g3, g4, -⟩ := (hint _ _ _).1 hm
    exact (hno i j v1 v2 u1 u2 g1 g2 g3 x).1 g4
  obtain ⟨x1, hx1⟩ := getArea_total A
  obtain ⟨x2, hx2⟩ := getArea_total B
  have hproc : processForCombine std A B s =
      .ok ⟨[], [], [], [], [], decide (x1 < 0), decide (x2 < 0)⟩ := by
    unfold processForCombine
    rw [assertP_pos ⟨cA, cB⟩, ok_bind, ho, ok_bind, hx1, ok_bind, hx2, ok_bind]
    rw [if_pos (by rw [e1]; rfl), e2, pure_eq_ok]
  have atA : A.at 0 = .ok a := by
    unfold Polyline.at getM; rw [List.head?_eq_getElem?] at ha; rw [ha]
  have atB : B.at 0 = .ok b := by
    unfold Polyline.at getM; rw [List.head?_eq_getElem?] at hb; rw [hb]
  have hw : ∀ (e : CombineEnv) (r1 r2 r3 : CombineResult), e.plineA = A → e.plineB = B →
      e.withoutIntersects r1 r2 r3 = .ok (if Inside B a.pos then r1 else if Inside A b.pos then r2
        else r3) := by
    intro e r1 r2 r3 h1 h2
    unfold CombineEnv.withoutIntersects isInside
    rw [h1, h2, atA, ok_bind, pointIn_run hB cB oA, ok_bind, atB]
    by_cases hh : Inside B a.pos
    · rw [if_pos (by simpa using hh), if_pos hh, pure_eq_ok]
    · rw [if_neg (by simpa using hh), if_neg hh, ok_bind, pointIn_run hA cA oB, ok_bind, pure_eq_ok]
      by_cases hh2 : Inside A b.pos <;> simp [hh2]
  unfold combinePolylines
  rw [assertP_pos ⟨cA, cB⟩, ok_bind, hs, ok_bind, hproc, ok_bind]
  cases mode
  · simp only [CombineEnv.perform, CombineEnv.performUnion]
    rw [if_neg (by simp [CombineInfo.completelyCoincident]),
      if_pos (by simp [CombineInfo.anyIntersects]), hw _ _ _ _ rfl rfl]
  · simp only [CombineEnv.perform, CombineEnv.performExclude]
    rw [if_neg (by simp [CombineInfo.completelyCoincident]),
      if_pos (by simp [CombineInfo.anyIntersects]), hw _ _ _ _ rfl rfl]
  · simp only [CombineEnv.perform, CombineEnv.performIntersect]
    rw [if_neg (by simp [CombineInfo.completelyCoincident]),
      if_pos (by simp [CombineInfo.anyIntersects]), hw _ _ _ _ rfl rfl]
  · simp only [CombineEnv.perform, CombineEnv.performXOR]
    rw [if_neg (by simp [CombineInfo.completelyCoincident]),
      if_pos (by simp [CombineInfo.anyIntersects]), hw _ _ _ _ rfl rfl]

/-- C42, as a user sees it: if moreover the regions are nested when a first vertex is inside the other
polyline, and disjoint otherwise, the result stands for the boolean operation on the regions. -/
theorem C42_boolean {pf : Platform} {std : StdSort} {hash : HashOrder} {A B : Polyline}
    (hi : Indexable pf A) (hA : PlineOk A) (hB : PlineOk B) (cA : A.isClosed = true)
    (cB : B.isClosed = true) {a b : Vertex} (ha : A.vertexes.head? = some a)
    (hb : B.vertexes.head? = some b) (hno : NothingReported A B)
    (oA : ¬ OnPline B a.pos) (oB : ¬ OnPline A b.pos) (mode : CombineMode) (x : V2)
    (nAB : Inside B a.pos → Inside A x → Inside B x)
    (nBA : Inside A b.pos → Inside B x → Inside A x)
    (dis : ¬ Inside B a.pos → ¬ Inside A b.pos → ¬ (Inside A x ∧ Inside B x)) :
    ∃ r, combinePolylines pf std hash A B mode = .ok r ∧
      (InResult r x ↔ boolOp mode (Inside A x) (Inside B x)) := by
  refine ⟨_, C42_table hi hA hB cA cB ha hb hno oA oB mode, ?_⟩
  have e1 : ∀ (p : Polyline) (l l' : List Polyline), InResult ⟨p :: l, l'⟩ x ↔
      (Inside p x ∨ ∃ q ∈ l, Inside q x) ∧ ∀ q ∈ l', ¬ Inside q x := by
    intro p l l'; unfold InResult; simp
  have e0 : ∀ l' : List Polyline, ¬ InResult ⟨[], l'⟩ x := by
    intro l'; unfold InResult; simp
  generalize Inside B a.pos = P at *
  generalize Inside A b.pos = Q at *
  clear hno oA oB hi hA hB ha hb cA cB
  cases mode <;> by_cases h1 : P <;> by_cases h2 : Q <;> by_cases h3 : Inside A x <;>
    by_cases h4 : Inside B x <;> simp [h1, h2, h3, h4, e1, e0, boolOp] at * 

end
end Cavc

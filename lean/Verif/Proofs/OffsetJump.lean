import Verif.Proofs.OffsetNear
import Verif.Props.OffsetPolygonKept

/-! The segments of the raw offset of a polygon as its lines and arcs, and on which side of them the points further
away from the polygon are. -/
namespace Cavc
open Spec
open scoped Classical Topology
noncomputable section

section
variable {ls : List (List Vertex)}

theorem flat_index : ∀ {j m : ℕ}, j ≤ ls.length → m < before ls j →
    ∃ i < j, ∃ r < (ls[i]?.getD []).length, m = before ls i + r
  | 0, m, _, h => by simp [before] at h
  | j + 1, m, hj, h => by
    by_cases hm : m < before ls j
    · obtain ⟨i, hi, r, hr, e⟩ := flat_index (by omega) hm
      exact ⟨i, by omega, r, hr, e⟩
    · rw [before_succ (by omega)] at h
      exact ⟨j, by omega, m - before ls j, by omega, by omega⟩

/-- Every segment of the raw offset is the line after a corner or the arc or line of a corner. -/
theorem raw_part {raw : Polyline} {n : ℕ} (hc : raw.isClosed = true) (hlen : ls.length = n) (h2 : 2 ≤ n)
    (hk : ∀ l ∈ ls, (∃ v, l = [v]) ∨ ∃ w w', l = [w, w'])
    (hr : raw.vertexes = ls.flatten.rotate (ls.flatten.length - 1)) {k : ℕ} (hks : k < raw.size) :
    ∃ i < n, ((ls[i]?.getD []).getLast? = some (rv raw k) ∧
        (ls[(i + 1) % n]?.getD []).head? = some (rv raw (k + 1))) ∨
      ls[i]?.getD [] = [rv raw k, rv raw (k + 1)] := by
  subst hlen
  have hne : ∀ l ∈ ls, l ≠ [] := by
    intro l hl
    rcases hk l hl with ⟨v, rfl⟩ | ⟨w, w', rfl⟩ <;> simp
  have hkk : ∀ i < ls.length, (∃ v, ls[i]?.getD [] = [v]) ∨ ∃ w w', ls[i]?.getD [] = [w, w'] := by
    intro i hi
    rw [List.getElem?_eq_getElem hi]
    exact hk _ (List.getElem_mem _)
  obtain ⟨N, hN⟩ : ∃ N, N = ls.flatten.length := ⟨_, rfl⟩
  have hrl : raw.size = N := by
    show raw.vertexes.length = N
    rw [hr, List.length_rotate, hN]
  have hN2 : 2 ≤ N := by
    have h0 := before_lt hne (show 0 < 1 by omega) (show 1 ≤ ls.length by omega)
    have h1 := before_lt hne (show 1 < ls.length by omega) le_rfl
    rw [before_all] at h1
    omega
  rw [hrl] at hks
  obtain ⟨m, hm⟩ : ∃ m, m = (k + (N - 1)) % N := ⟨_, rfl⟩
  have hmN : m < N := by rw [hm]; exact Nat.mod_lt _ (by omega)
  have hmk : (m + 1) % N = k := by
    rw [hm, Nat.mod_add_mod, show k + (N - 1) + 1 = k + N by omega, Nat.add_mod_right, Nat.mod_eq_of_lt hks]
  have hltN : ∀ i < ls.length, before ls i < N := fun i hi => by
    have := before_lt hne hi le_rfl
    rwa [before_all, ← hN] at this
  have succ : ∀ i < ls.length, before ls (i + 1) % N = before ls ((i + 1) % ls.length) := by
    intro i hi
    rcases Nat.lt_or_ge (i + 1) ls.length with h | h
    · rw [Nat.mod_eq_of_lt h, Nat.mod_eq_of_lt (hltN _ h)]
    · have : i + 1 = ls.length := by omega
      rw [this, before_all, ← hN, Nat.mod_self, Nat.mod_self]
      rfl
  obtain ⟨i, hi, r, hrr, hmr⟩ := flat_index (ls := ls) (j := ls.length) le_rfl (m := m) (by rw [before_all, ← hN]; exact hmN)
  refine ⟨i, hi, ?_⟩
  have hg := flatten_get hrr
  rw [← hmr] at hg
  have hseg : ∀ {v e : Vertex}, ls.flatten[m]? = some v → ls.flatten[(m + 1) % N]? = some e →
      v = rv raw k ∧ e = rv raw (k + 1) := by
    intro v e hv he
    have := raw_isSeg hc (hN ▸ hN2) hr (m := m) (by rw [← hN]; exact hmN) hv (by rw [← hN]; exact he)
    rw [← hN, hmk] at this
    exact ⟨(seg_rv hc this).2.2.1, (seg_rv hc this).2.2.2⟩
  -- the last vertex of the corner
  have line : r + 1 = (ls[i]?.getD []).length → (ls[i]?.getD []).getLast? = some (rv raw k) ∧
        (ls[(i + 1) % ls.length]?.getD []).head? = some (rv raw (k + 1)) := by
    intro hlast
    have hv : (ls[i]?.getD []).getLast? = (ls[i]?.getD [])[r]? := by
      rw [List.getLast?_eq_getElem?, ← hlast, Nat.add_sub_cancel]
    have hmn : (m + 1) % N = before ls ((i + 1) % ls.length) := by
      rw [hmr, Nat.add_assoc, hlast, ← before_succ hi, succ i hi]
    have hnx : (i + 1) % ls.length < ls.length := Nat.mod_lt _ (by omega)
    have hp : 0 < (ls[(i + 1) % ls.length]?.getD []).length := by
      rcases hkk _ hnx with ⟨v, e⟩ | ⟨w, w', e⟩ <;> rw [e] <;> simp
    have hh := flatten_get (ls := ls) (i := (i + 1) % ls.length) (r := 0) hp
    rw [Nat.add_zero, ← List.head?_eq_getElem?] at hh
    rw [List.getElem?_eq_getElem hrr] at hg
    have hh1 : ∃ e, (ls[(i + 1) % ls.length]?.getD []).head? = some e := by
      rw [List.head?_eq_getElem?, List.getElem?_eq_getElem hp]
      exact ⟨_, rfl⟩
    obtain ⟨e, he⟩ := hh1
    obtain ⟨q1, q2⟩ := hseg hg (e := e) (by rw [hmn, hh, he])
    rw [hv, List.getElem?_eq_getElem hrr, q1, he, q2]
    exact ⟨rfl, rfl⟩
  rcases hkk i hi with ⟨v, e⟩ | ⟨w, w', e⟩
  · left
    apply line
    rw [e] at hrr ⊢
    simp at hrr ⊢
    exact hrr
  · by_cases h1 : r = 1
    · left
      apply line
      rw [e, h1]; rfl
    · right
      have hr0 : r = 0 := by
        rw [e] at hrr
        simp at hrr
        omega
      subst hr0
      rw [Nat.add_zero] at hmr
      have g1 := flatten_get (ls := ls) (i := i) (r := 1) (by rw [e]; simp)
      rw [e] at hg g1
      have hle : before ls (i + 1) ≤ N := by
        rcases Nat.lt_or_ge (i + 1) ls.length with h | h
        · exact (hltN _ h).le
        · have : i + 1 = ls.length := by omega
          rw [this, before_all, hN]
      have hb : before ls (i + 1) = before ls i + 2 := by rw [before_succ hi, e]; rfl
      obtain ⟨q1, q2⟩ := hseg hg (e := w') (by
        rw [Nat.mod_eq_of_lt (by omega), hmr]
        exact g1)
      rw [e, q1, q2]

end

/-- Around a point inside a segment of the raw offset that is on the exact offset and passed only once, the points
further away from the polygon are those on the side of the offset of the segment. -/
theorem raw_side {p raw : Polyline} {offset : ℝ} (hp : SimplePolygon p) (hne : offset ≠ 0)
    (hclear : ClearOffset p offset) (hraw : createRawOffsetPline p offset = .ok raw) {σ : ℝ} {V V' : ℤ}
    (hV : Sides (ppos p) p.size σ V V') (hσ : 0 < σ * offset) {k : ℕ} (hk : k < raw.size)
    (hkne : (rv raw k).pos ≠ (rv raw (k + 1)).pos) {t : ℝ} (t0 : 0 < t) (t1 : t < 1)
    (hf : NotCloser p |offset| (segPt (rv raw k) (rv raw (k + 1)) t))
    (ho : ¬ PassedTwice raw (segPt (rv raw k) (rv raw (k + 1)) t)) :
    ∀ᶠ x in 𝓝 (xy (segPt (rv raw k) (rv raw (k + 1)) t)), DeepP (ppos p) p.size offset V (toV x) ↔
      0 < σ * leftOf (rv raw k) (rv raw (k + 1)) (toV x) := by
  obtain ⟨raw', ls, hrun', hc, hls, hr⟩ := C62_raw hp.closed hp.lines hp.two hclear
  rw [hraw] at hrun'
  cases hrun'
  have h2 := hp.two'
  have hrw := simple_rawP hp hne hclear hls
  have hkinds := RoundsAll.kinds hp.closed h2 hls
  have honce := raw_once hc hls.1 h2 hkinds hr ho
  rw [notCloser_iff hp] at hf
  obtain ⟨i, hi, ⟨h1, h3⟩ | h1⟩ := raw_part hc hls.1 h2 hkinds hr hk
  · have hl : IsLine (rv raw k) := (hrw.lineEnds hi h1 h3).choose_spec.choose_spec.1
    obtain ⟨-, h4⟩ := hrw.line_side hV hσ hi h1 h3 hkne t0 t1 (x0 := segPt (rv raw k) (rv raw (k + 1)) t)
      (by unfold segPt; rw [if_pos hl]) hf honce
    filter_upwards [h4] with x hx
    rw [hx]
    unfold leftOf
    rw [if_pos hl]
  · exact hrw.arc_side hV hσ hi h1 t0 t1 rfl hf honce

end
end Cavc

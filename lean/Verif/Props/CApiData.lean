import Verif.Props.CApi
import Verif.Props.CombineRect

/-
C47: what the functions of the C API do to the data behind a handle; C48: `cavc_pline_remove_range`;
C49: the algorithm functions hand over exactly what the library computes, for the mode asked for.
-/
namespace Cavc
open Spec
open scoped Classical

theorem pline_ne {e : Env} {s : CState} {a : Addr} {p : CPline} (ha : a ≠ 0)
    (h : s.heap a = some (.pline p)) : e.pline s a = .ok p := by
  unfold Env.pline
  rw [check_pos ha, ok_bind]
  exact plineAt_ok.2 h

theorem list_ne {e : Env} {s : CState} {l : Addr} {es : List Addr} (hl : l ≠ 0)
    (h : s.heap l = some (.list es)) : e.list s l = .ok es := by
  unfold Env.list
  rw [check_pos hl, ok_bind]
  exact listAt_ok.2 h

theorem check_neg {e : Env} (he : e.asserts = true) {c : Prop} (h : ¬ c) :
    e.check c = .error .assertFailed := by
  unfold Env.check; rw [if_pos he, assertP_neg h]

theorem capacityAt_some {s : CState} {a : Addr} {c : ℕ} :
    capacityAt s a = some c ↔ ∃ p, s.heap a = some (.pline ⟨p, c⟩) := by
  unfold capacityAt
  constructor
  · intro h
    split at h
    · rename_i q hq
      obtain rfl := Option.some.inj h
      exact ⟨q.data, hq⟩
    · cases h
  · rintro ⟨p, h⟩; rw [h]

/-! ### C47 -/

/-- C47: `cavc_pline_new` makes a polyline with the first `vertex_count` vertexes of the array, in
order, each with its own x, y and bulge, closed iff `is_closed` is not 0, with room for them. -/
theorem C47_new {e : Env} {s s' : CState} {l : List CVertex} {n : ℕ} {cl : ℤ} {a : Addr}
    (h : cavcPlineNew e s (some l) n cl = .ok (s', a)) (hn : n ≤ l.length) :
    valueAt s' a = some ⟨decide (cl ≠ 0), (l.take n).map fun v => ⟨⟨v.x, v.y⟩, v.bulge⟩⟩ ∧
      ∃ c, capacityAt s' a = some c ∧ n ≤ c := by
  unfold cavcPlineNew initialPline at h
  simp only at h
  rw [copyToPline_run _ _ _ _ hn, ok_bind] at h
  obtain ⟨-, -, hs⟩ := new_ok h
  have ha : s'.heap a = some (.pline ⟨⟨decide (cl ≠ 0), (l.take n).map CVertex.toVertex⟩,
      e.growth.reserve 0 n⟩) := by rw [hs, Heap.set_self]
  exact ⟨valueAt_some.2 ⟨_, ha⟩, _, capacityAt_some.2 ⟨_, ha⟩, reserve_room ..⟩

/-- C47: with a null array the new polyline has no vertexes, but room for `vertex_count`. -/
theorem C47_new_null {e : Env} {s s' : CState} {n : ℕ} {cl : ℤ} {a : Addr}
    (h : cavcPlineNew e s none n cl = .ok (s', a)) :
    valueAt s' a = some ⟨decide (cl ≠ 0), []⟩ ∧ ∃ c, capacityAt s' a = some c ∧ n ≤ c := by
  unfold cavcPlineNew initialPline at h
  simp only at h
  rw [ok_bind] at h
  obtain ⟨-, -, hs⟩ := new_ok h
  have ha : s'.heap a = some (.pline ⟨⟨decide (cl ≠ 0), []⟩, e.growth.reserve 0 n⟩) := by
    rw [hs, Heap.set_self]; rfl
  exact ⟨valueAt_some.2 ⟨_, ha⟩, _, capacityAt_some.2 ⟨_, ha⟩, reserve_room ..⟩

/-- C47: reading. `cavc_pline_vertex_count` is the number of vertexes, `cavc_pline_vertex_data` writes
exactly these vertexes, in order, and leaves the rest of the array alone; `cavc_pline_is_closed`
is 1 or 0. -/
theorem C47_read {e : Env} {s : CState} {a : Addr} {p : Polyline} (ha : a ≠ 0)
    (hp : valueAt s a = some p) (hsz : p.size < 2 ^ 32) :
    cavcPlineVertexCount e s a = .ok p.size ∧
    (∀ out : List CVertex, p.size ≤ out.length → cavcPlineVertexData e s a out =
      .ok (p.vertexes.map (fun v => ⟨v.pos.x, v.pos.y, v.bulge⟩) ++ out.drop p.size)) ∧
    (∀ out : List CVertex, out.length < p.size → cavcPlineVertexData e s a out =
      .error .outOfBounds) ∧
    cavcPlineIsClosed e s a = .ok (if p.isClosed = true then 1 else 0) := by
  obtain ⟨c, hc⟩ := valueAt_some.1 hp
  have hpl := pline_ne (e := e) ha hc
  refine ⟨?_, ?_, ?_, ?_⟩
  · unfold cavcPlineVertexCount
    rw [hpl, ok_bind, pure_eq_ok, u32_of_lt hsz]
  · intro out hout
    unfold cavcPlineVertexData
    rw [hpl, ok_bind, copyToVertexData_run _ _ (by rw [u32_of_lt hsz]; exact hout)]
    simp only
    rw [u32_of_lt hsz, show p.vertexes.take p.size = p.vertexes from List.take_length ..]
    rfl
  · intro out hout
    unfold cavcPlineVertexData
    rw [hpl, ok_bind]
    unfold copyToVertexData
    simp only
    rw [u32_of_lt hsz]
    have key : ∀ (k i : ℕ) (o : List CVertex), i + k = p.size → o.length = out.length →
        i ≤ out.length → writeVertexes p k i o = .error .outOfBounds := by
      intro k
      induction k with
      | zero => intro i o h1 h2 h3; omega
      | succ k ih =>
        intro i o h1 h2 h3
        have hi : i < p.vertexes.length := by
          have : p.size = p.vertexes.length := rfl
          omega
        have hat : p.at i = .ok p.vertexes[i] := getM_of_lt hi
        simp only [writeVertexes, hat, ok_bind, setM]
        by_cases hio : i < o.length
        · rw [if_pos hio, ok_bind]
          exact ih (i + 1) _ (by omega) (by rw [List.length_set]; exact h2) (by omega)
        · rw [if_neg hio]; rfl
    exact key p.size 0 out (by omega) rfl (by omega)
  · unfold cavcPlineIsClosed
    rw [hpl]; rfl

/-- C47: `cavc_pline_set_vertex_data` replaces the vertexes by the first `vertex_count` of the array;
whether the polyline is closed stays. -/
theorem C47_set_vertex_data {e : Env} {s : CState} {a : Addr} {p : Polyline} (ha : a ≠ 0)
    (hp : valueAt s a = some p) {l : List CVertex} {n : ℕ} (hn : n ≤ l.length) :
    ∃ s', cavcPlineSetVertexData e s a (some l) n = .ok s' ∧
      valueAt s' a = some ⟨p.isClosed, (l.take n).map fun v => ⟨⟨v.x, v.y⟩, v.bulge⟩⟩ := by
  obtain ⟨c, hc⟩ := valueAt_some.1 hp
  refine ⟨s.set a (some (.pline ⟨⟨p.isClosed, (l.take n).map CVertex.toVertex⟩,
    e.growth.reserve c n⟩)), ?_, ?_⟩
  · unfold cavcPlineSetVertexData
    rw [pline_ne ha hc, ok_bind, copyToPline_run _ _ _ _ hn]; rfl
  · exact valueAt_some.2 ⟨_, CState.set_self ..⟩

/-- C47: round trip. What `cavc_pline_set_vertex_data` was given is what `cavc_pline_vertex_count` and
`cavc_pline_vertex_data` give back. -/
theorem C47_round_trip {e : Env} {s : CState} {a : Addr} {p : Polyline} (ha : a ≠ 0)
    (hp : valueAt s a = some p) {l out : List CVertex} {n : ℕ} (hn : n ≤ l.length)
    (h32 : n < 2 ^ 32) (ho : n ≤ out.length) :
    ∃ s', cavcPlineSetVertexData e s a (some l) n = .ok s' ∧
      cavcPlineVertexCount e s' a = .ok n ∧
      cavcPlineVertexData e s' a out = .ok (l.take n ++ out.drop n) := by
  obtain ⟨s', hs', hv⟩ := C47_set_vertex_data (e := e) ha hp hn
  have hsz : Polyline.size (⟨p.isClosed, (l.take n).map fun v => ⟨⟨v.x, v.y⟩, v.bulge⟩⟩ : Polyline)
      = n := by
    unfold Polyline.size; simp [hn]
  obtain ⟨h1, h2, -, -⟩ := C47_read (e := e) ha hv (by rw [hsz]; exact h32)
  rw [hsz] at h1 h2
  refine ⟨s', hs', h1, ?_⟩
  rw [h2 out ho, List.map_map]
  congr 2
  exact (List.map_congr_left fun v _ => rfl).trans (List.map_id _)

/-- C47: `cavc_pline_add_vertex` appends the vertex. -/
theorem C47_add_vertex {e : Env} {s : CState} {a : Addr} {p : Polyline} (ha : a ≠ 0)
    (hp : valueAt s a = some p) (v : CVertex) : ∃ s', cavcPlineAddVertex e s a v = .ok s' ∧
      valueAt s' a = some ⟨p.isClosed, p.vertexes ++ [⟨⟨v.x, v.y⟩, v.bulge⟩]⟩ := by
  obtain ⟨c, hc⟩ := valueAt_some.1 hp
  refine ⟨s.set a (some (.pline ⟨⟨p.isClosed, p.vertexes ++ [v.toVertex]⟩,
    e.growth.push c p.vertexes.length⟩)), ?_, valueAt_some.2 ⟨_, CState.set_self ..⟩⟩
  unfold cavcPlineAddVertex
  rw [pline_ne ha hc]; rfl

/-- C47: `cavc_pline_set_is_closed` sets whether the polyline is closed, nothing else. -/
theorem C47_set_is_closed {e : Env} {s : CState} {a : Addr} {p : Polyline} (ha : a ≠ 0)
    (hp : valueAt s a = some p) (cl : ℤ) : ∃ s', cavcPlineSetIsClosed e s a cl = .ok s' ∧
      valueAt s' a = some ⟨decide (cl ≠ 0), p.vertexes⟩ ∧
      cavcPlineIsClosed e s' a = .ok (if cl = 0 then 0 else 1) := by
  obtain ⟨c, hc⟩ := valueAt_some.1 hp
  have hs : (s.set a (some (.pline ⟨⟨decide (cl ≠ 0), p.vertexes⟩, c⟩))).heap a =
    some (.pline ⟨⟨decide (cl ≠ 0), p.vertexes⟩, c⟩) := CState.set_self ..
  refine ⟨_, ?_, valueAt_some.2 ⟨_, hs⟩, ?_⟩
  · unfold cavcPlineSetIsClosed
    rw [pline_ne ha hc]; rfl
  · unfold cavcPlineIsClosed
    rw [pline_ne ha hs, ok_bind]
    by_cases h0 : cl = 0 <;> simp [h0]

/-- C47: `cavc_pline_clear` removes all vertexes and keeps the capacity. -/
theorem C47_clear {e : Env} {s : CState} {a : Addr} {p : Polyline} (ha : a ≠ 0)
    (hp : valueAt s a = some p) : ∃ s', cavcPlineClear e s a = .ok s' ∧
      valueAt s' a = some ⟨p.isClosed, []⟩ ∧ capacityAt s' a = capacityAt s a := by
  obtain ⟨c, hc⟩ := valueAt_some.1 hp
  refine ⟨s.set a (some (.pline ⟨⟨p.isClosed, []⟩, c⟩)), ?_,
    valueAt_some.2 ⟨_, CState.set_self ..⟩, ?_⟩
  · unfold cavcPlineClear
    rw [pline_ne ha hc]; rfl
  · rw [capacityAt_some.2 ⟨_, hc⟩]
    exact capacityAt_some.2 ⟨_, CState.set_self ..⟩

/-- C47: `cavc_pline_capacity` reports the capacity. `cavc_pline_set_capacity` makes room for `size` vertexes if there
is not enough, otherwise it does nothing; the vertexes stay. Adding a vertex while there is room leaves the capacity
alone. -/
theorem C47_capacity {e : Env} {s : CState} {a : Addr} {p : Polyline} {c : ℕ} (ha : a ≠ 0)
    (hp : valueAt s a = some p) (hc : capacityAt s a = some c) :
    (c < 2 ^ 32 → cavcPlineCapacity e s a = .ok c) ∧
    (∀ size, ∃ s' c', cavcPlineSetCapacity e s a size = .ok s' ∧ valueAt s' a = some p ∧
      capacityAt s' a = some c' ∧ size ≤ c' ∧ (size ≤ c → c' = c)) ∧
    (∀ v s', p.size < c → cavcPlineAddVertex e s a v = .ok s' → capacityAt s' a = some c) := by
  obtain ⟨c0, hh⟩ := valueAt_some.1 hp
  have : c0 = c := by
    rw [capacityAt_some.2 ⟨_, hh⟩] at hc; exact Option.some.inj hc
  subst this
  refine ⟨?_, ?_, ?_⟩
  · intro h32
    unfold cavcPlineCapacity
    rw [pline_ne ha hh, ok_bind, pure_eq_ok, u32_of_lt h32]
  · intro size
    refine ⟨s.set a (some (.pline ⟨p, e.growth.reserve c0 size⟩)), e.growth.reserve c0 size, ?_,
      valueAt_some.2 ⟨_, CState.set_self ..⟩, capacityAt_some.2 ⟨_, CState.set_self ..⟩,
      reserve_room .., e.growth.reserve_keep _ _⟩
    unfold cavcPlineSetCapacity
    rw [pline_ne ha hh]; rfl
  · intro v s' hlt h
    unfold cavcPlineAddVertex at h
    rw [pline_ne ha hh, ok_bind, pure_eq_ok] at h
    injection h with h
    subst h
    refine capacityAt_some.2 ⟨⟨p.isClosed, p.vertexes ++ [v.toVertex]⟩, ?_⟩
    rw [CState.set_self]
    simp only
    rw [e.growth.push_keep c0 p.vertexes.length hlt]

/-- C47: list functions. `cavc_pline_list_count` is the number of elements, `cavc_pline_list_get` the
element at the index, `cavc_pline_list_release` returns it and takes it out of the list: the other
elements stay in order, and every polyline keeps its data. -/
theorem C47_list {e : Env} {s : CState} {l : Addr} {es : List Addr} (hl : l ≠ 0)
    (he : elemsAt s l = some es) (h32 : es.length < 2 ^ 32) :
    cavcPlineListCount e s l = .ok es.length ∧
    ∀ (i : ℕ) (hi : i < es.length), cavcPlineListGet e s l i = .ok es[i] ∧
      ∃ s', cavcPlineListRelease e s l i = .ok (s', es[i]) ∧
        elemsAt s' l = some (es.take i ++ es.drop (i + 1)) ∧
        ∀ a, valueAt s' a = valueAt s a := by
  have hh := elemsAt_some.1 he
  have hls := list_ne (e := e) hl hh
  refine ⟨?_, fun i hi => ⟨?_, s.set l (some (.list (es.eraseIdx i))), ?_, ?_, ?_⟩⟩
  · unfold cavcPlineListCount
    rw [hls, ok_bind, pure_eq_ok, u32_of_lt h32]
  · unfold cavcPlineListGet
    rw [hls, ok_bind, check_pos hi, ok_bind, getM_of_lt hi]
  · unfold cavcPlineListRelease
    rw [hls, ok_bind, check_pos hi, ok_bind, getM_of_lt hi]; rfl
  · rw [← List.eraseIdx_eq_take_drop_succ]
    exact elemsAt_some.2 (CState.set_self ..)
  · intro a
    by_cases h : a = l
    · subst h; unfold valueAt; rw [CState.set_self, hh]
    · exact valueAt_congr (CState.set_ne _ _ h)

/-- C47: the queries return what the library computes from the polyline behind the handle. -/
theorem C47_queries {e : Env} {s : CState} {a : Addr} {p : Polyline} (ha : a ≠ 0)
    (hp : valueAt s a = some p) (x y : ℝ) :
    cavcGetPathLength e s a = getPathLength p ∧ cavcGetArea e s a = getArea p ∧
    cavcGetWindingNumber e s a x y = getWindingNumber p ⟨x, y⟩ ∧
    (∀ r, getExtents p = .ok r → cavcGetExtents e s a =
      .ok (r.map fun b => (b.xMin, b.yMin, b.xMax, b.yMax))) ∧
    (∀ r, closestPoint p ⟨x, y⟩ = .ok r → p.size < 2 ^ 32 → p.vertexes ≠ [] → r.index < p.size →
      cavcGetClosestPoint e s a x y = .ok (r.index, r.point.x, r.point.y, r.distance)) := by
  obtain ⟨c, hc⟩ := valueAt_some.1 hp
  have hpl := pline_ne (e := e) ha hc
  refine ⟨?_, ?_, ?_, ?_, ?_⟩
  · unfold cavcGetPathLength; rw [hpl, ok_bind]
  · unfold cavcGetArea; rw [hpl, ok_bind]
  · unfold cavcGetWindingNumber; rw [hpl, ok_bind]
  · intro r hr
    unfold cavcGetExtents; rw [hpl, ok_bind, hr]; rfl
  · intro r hr hsz hne hi
    have h0 : p.size ≠ 0 := fun h => hne (List.length_eq_zero_iff.1 h)
    unfold cavcGetClosestPoint
    rw [hpl, ok_bind, check_pos h0, ok_bind, hr, ok_bind, pure_eq_ok, u32_of_lt (by omega)]

/-! ### C48 -/

/-- C48: `cavc_pline_remove_range` removes exactly the vertexes from `start_index` to before
`start_index + count`; the others keep their order, the capacity does not change. -/
theorem C48_remove_range {e : Env} {s : CState} {a : Addr} {p : Polyline} (ha : a ≠ 0)
    (hp : valueAt s a = some p) {start count : ℕ} (h1 : start < p.size)
    (h2 : start + count ≤ p.size) : ∃ s', cavcPlineRemoveRange e s a start count = .ok s' ∧
      valueAt s' a = some ⟨p.isClosed, p.vertexes.take start ++ p.vertexes.drop (start + count)⟩ ∧
      capacityAt s' a = capacityAt s a ∧ ∀ b, b ≠ a → s'.heap b = s.heap b := by
  obtain ⟨c, hc⟩ := valueAt_some.1 hp
  refine ⟨s.set a (some (.pline ⟨⟨p.isClosed, p.vertexes.take start ++
    p.vertexes.drop (start + count)⟩, c⟩)), ?_, valueAt_some.2 ⟨_, CState.set_self ..⟩, ?_,
    fun b hb => CState.set_ne _ _ hb⟩
  · have hsz : p.size = p.vertexes.length := rfl
    have := u32_le (start + count)
    unfold cavcPlineRemoveRange
    rw [pline_ne ha hc, ok_bind, check_pos h1, ok_bind, check_pos (show _ ≤ p.size by omega),
      ok_bind, eraseRange, if_pos (show _ ≤ p.vertexes.length by omega)]; rfl
  · rw [capacityAt_some.2 ⟨_, hc⟩]
    exact capacityAt_some.2 ⟨_, CState.set_self ..⟩

/-- C48: the other ranges, with assertions: rejected by an assertion, except when
`start_index + count` does not fit in 32 bits. Then the check passes and memory outside the vertexes
is accessed. -/
theorem C48_out_of_range {e : Env} (he : e.asserts = true) {s : CState} {a : Addr} {p : Polyline}
    (ha : a ≠ 0) (hp : valueAt s a = some p) {start count : ℕ} (hs : start < 2 ^ 32)
    (hc : count < 2 ^ 32) (hbad : ¬ (start < p.size ∧ start + count ≤ p.size)) :
    cavcPlineRemoveRange e s a start count =
      if start < p.size ∧ 2 ^ 32 ≤ start + count then .error .outOfBounds
      else .error .assertFailed := by
  obtain ⟨c, hh⟩ := valueAt_some.1 hp
  have hsz : p.size = p.vertexes.length := rfl
  unfold cavcPlineRemoveRange
  rw [pline_ne ha hh, ok_bind]
  simp only
  by_cases h1 : start < p.size
  · rw [check_pos h1, ok_bind]
    have h2 : ¬ start + count ≤ p.size := fun h => hbad ⟨h1, h⟩
    by_cases h3 : 2 ^ 32 ≤ start + count
    · have hu : u32 (start + count) = start + count - 2 ^ 32 := by
        unfold u32
        rw [Nat.mod_eq_sub_mod h3, Nat.mod_eq_of_lt (by omega)]
      rw [if_pos ⟨h1, h3⟩, check_pos (by omega), ok_bind, eraseRange, if_neg (by omega)]; rfl
    · have hu : u32 (start + count) = start + count := u32_of_lt (by omega)
      rw [if_neg (fun h => h3 h.2), hu, check_neg he h2]; rfl
  · rw [if_neg (fun h => h1 h.1), check_neg he h1]; rfl

/-- Defect: with two vertexes, removing 2^32 - 1 of them from index 1 passes the assertion and goes
out of bounds. Removing nothing at the end, which the documentation permits, fails the assertion. -/
theorem C48_wrap_witness {e : Env} (he : e.asserts = true) {s : CState} {a : Addr} {p : Polyline}
    (ha : a ≠ 0) (hp : valueAt s a = some p) (hsz : p.size = 2) :
    cavcPlineRemoveRange e s a 1 (2 ^ 32 - 1) = .error .outOfBounds ∧
    cavcPlineRemoveRange e s a 2 0 = .error .assertFailed := by
  constructor
  · rw [C48_out_of_range he ha hp (by norm_num) (by norm_num) (by rw [hsz]; norm_num), hsz,
      if_pos (by norm_num)]
  · rw [C48_out_of_range he ha hp (by norm_num) (by norm_num) (by rw [hsz]; norm_num), hsz,
      if_neg (by norm_num)]

/-! ### C49 -/

theorem values_eq {e : Env} {s : CState} {as : List Addr} {ps : List Polyline}
    (h : List.Forall₂ (fun a p => s.heap a = some (.pline ⟨p, e.growth.copy p.size⟩)) as ps) :
    as.map (valueAt s) = ps.map some := by
  induction h with
  | nil => rfl
  | cons h _ ih => rw [List.map_cons, List.map_cons, ih, valueAt_some.2 ⟨_, h⟩]

/-- C49: `cavc_parallel_offset` fills `output` with a new list of exactly the polylines that the
library's offset function returns, in order; self intersects are expected iff flag 0x1 is set; the
input is unchanged. -/
theorem C49_parallel_offset {e : Env} {s s' : CState} {a l : Addr} {as : List Addr} {p : Polyline}
    {d : ℝ} {fl : BitVec 32} (hp : valueAt s a = some p)
    (h : cavcParallelOffset e s a d fl = .ok (s', l, as)) :
    ∃ r, parallelOffset e.pf e.std e.hash p d (fl.getLsbD 0) = .ok r ∧
      elemsAt s' l = some as ∧ as.map (valueAt s') = r.map some ∧ valueAt s' a = some p := by
  obtain ⟨c, hc⟩ := valueAt_some.1 hp
  unfold cavcParallelOffset at h
  obtain ⟨p', hp', h⟩ := bind_eq_ok.1 h
  have := pline_ok hp'
  rw [hc] at this
  injection this with this; injection this with this; subst this
  simp only at h
  rw [flag_eq] at h
  obtain ⟨r, hr, h⟩ := bind_eq_ok.1 h
  obtain ⟨⟨s1, l1⟩, hn, h⟩ := bind_eq_ok.1 h
  obtain ⟨⟨s2, as1⟩, hf, h⟩ := bind_eq_ok.1 h
  simp only [pure_eq_ok] at h
  injection h with h; injection h with h1 h; injection h with h2 h3; subst h1 h2 h3
  have k := addList_ok hn hf
  refine ⟨r, hr, elemsAt_some.2 k.list, values_eq k.values, ?_⟩
  rw [valueAt_congr (k.same a ?_ ?_)]
  · exact hp
  · rintro rfl; rw [k.head.2.1] at hc; cases hc
  · intro hm; rw [(k.fresh a hm).2] at hc; cases hc

/-- C49: `cavc_combine_plines` with mode 0, 1, 2, 3 does union, exclude, intersect, XOR of `pline_a`
and `pline_b`, in this order, and fills `remaining` and `subtracted` with new lists of exactly the
polylines the library returns for it; the inputs are unchanged. -/
theorem C49_combine {e : Env} {s s' : CState} {a b l l' : Addr} {as as' : List Addr} {p q : Polyline}
    {m : ℤ} {op : CombineMode}
    (hm : (m, op) ∈ [((0 : ℤ), CombineMode.union), (1, .exclude), (2, .intersect), (3, .xor)])
    (hp : valueAt s a = some p) (hq : valueAt s b = some q)
    (h : cavcCombinePlines e s a b m = .ok (s', (l, as), (l', as'))) :
    ∃ r, combinePolylines e.pf e.std e.hash p q op = .ok r ∧ l ≠ l' ∧
      elemsAt s' l = some as ∧ as.map (valueAt s') = r.remaining.map some ∧
      elemsAt s' l' = some as' ∧ as'.map (valueAt s') = r.subtracted.map some ∧
      valueAt s' a = some p ∧ valueAt s' b = some q := by
  have hop : combineModeOf m = op := by
    simp only [List.mem_cons, Prod.mk.injEq, List.not_mem_nil, or_false] at hm
    rcases hm with ⟨rfl, rfl⟩ | ⟨rfl, rfl⟩ | ⟨rfl, rfl⟩ | ⟨rfl, rfl⟩ <;> simp [combineModeOf]
  obtain ⟨c, hc⟩ := valueAt_some.1 hp
  obtain ⟨c', hc'⟩ := valueAt_some.1 hq
  unfold cavcCombinePlines at h
  obtain ⟨_, -, h⟩ := bind_eq_ok.1 h
  obtain ⟨_, -, h⟩ := bind_eq_ok.1 h
  obtain ⟨_, -, h⟩ := bind_eq_ok.1 h
  rw [plineAt_ok.2 hc, ok_bind, plineAt_ok.2 hc', ok_bind, hop] at h
  obtain ⟨r, hr, h⟩ := bind_eq_ok.1 h
  obtain ⟨⟨s1, l1⟩, hn, h⟩ := bind_eq_ok.1 h
  obtain ⟨⟨s2, l2⟩, hn', h⟩ := bind_eq_ok.1 h
  obtain ⟨⟨s3, as1⟩, hf, h⟩ := bind_eq_ok.1 h
  obtain ⟨⟨s4, as2⟩, hf', h⟩ := bind_eq_ok.1 h
  simp only [pure_eq_ok] at h
  injection h with h; injection h with h1 h; injection h with h2 h3
  injection h2 with h2 h4; injection h3 with h3 h5; subst h1 h2 h3 h4 h5
  obtain ⟨t, k, k'⟩ := addTwo_ok hn hn' hf hf'
  have hll : l1 ≠ l2 := by
    rintro rfl
    have := k'.head.2.1
    rw [k.list] at this; cases this
  have hl2 : l1 ∉ as2 := fun hmem => by
    have := (k'.fresh l1 hmem).2
    rw [k.list] at this; cases this
  have hsame : ∀ x o, s.heap x = some o → s4.heap x = some o := by
    intro x o hx
    have e1 : t.heap x = s.heap x := k.same x (by rintro rfl; rw [k.head.2.1] at hx; cases hx)
      (fun hmem => by rw [(k.fresh x hmem).2] at hx; cases hx)
    rw [← e1] at hx
    rw [k'.same x (by rintro rfl; rw [k'.head.2.1] at hx; cases hx)
      (fun hmem => by rw [(k'.fresh x hmem).2] at hx; cases hx)]
    exact hx
  refine ⟨r, hr, hll, ?_, ?_, elemsAt_some.2 k'.list, values_eq k'.values,
    valueAt_some.2 ⟨_, hsame _ _ hc⟩, valueAt_some.2 ⟨_, hsame _ _ hc'⟩⟩
  · exact elemsAt_some.2 ((k'.same l1 hll hl2).trans k.list)
  · rw [← values_eq k.values]
    refine List.map_congr_left fun x hx => valueAt_congr ?_
    obtain ⟨y, -, hy⟩ := forall₂_left k.values x hx
    refine k'.same x ?_ ?_
    · rintro rfl; rw [k'.head.2.1] at hy; cases hy
    · intro hmem; rw [(k'.fresh x hmem).2] at hy; cases hy

/-- C49: any other mode is rejected if assertions are compiled in. -/
theorem C49_invalid_mode {e : Env} (he : e.asserts = true) {s : CState} {a b : Addr} {m : ℤ}
    (hm : m < 0 ∨ 3 < m) : cavcCombinePlines e s a b m = .error .assertFailed := by
  unfold cavcCombinePlines
  by_cases h1 : a ≠ 0
  · rw [check_pos h1, ok_bind]
    by_cases h2 : b ≠ 0
    · rw [check_pos h2, ok_bind, check_neg he (by omega)]; rfl
    · rw [check_neg he h2]; rfl
  · rw [check_neg he h1]; rfl

/-- Defect: without assertions any other mode does a union and fills the output parameters, although
the documentation says that none is filled. -/
theorem C49_invalid_mode_witness {e : Env} (he : e.asserts = false) (s : CState) (a b : Addr) {m : ℤ}
    (hm : m < 0 ∨ 3 < m) : cavcCombinePlines e s a b m = cavcCombinePlines e s a b 0 := by
  have chk : ∀ q : Prop, e.check q = .ok () := fun q => if_neg (by rw [he]; simp)
  unfold cavcCombinePlines
  rw [chk, chk, chk, chk]
  have : combineModeOf m = combineModeOf 0 := by
    unfold combineModeOf
    rw [if_neg (by omega), if_neg (by omega), if_neg (by omega), if_neg (by omega), if_pos rfl]
  rw [this]

/-! ### A history -/

/-- An allocator that never reuses an address. -/
def bumpAllocator : Allocator where
  pick n h := if h (n + 1) = none then some (n + 1) else none
  fresh n h a ha := by
    by_cases hh : h (n + 1) = none
    · rw [if_pos hh] at ha; obtain rfl := Option.some.inj ha; exact ⟨Nat.succ_ne_zero n, hh⟩
    · rw [if_neg hh] at ha; cases ha

/-- Vectors that grow by one element. -/
def exactGrowth : Growth where
  reserve c n := max c n
  reserve_keep _ _ h := max_eq_left h
  reserve_ge _ _ _ := le_max_right ..
  push c n := max c (n + 1)
  push_keep _ _ h := max_eq_left h
  push_ge _ n _ := lt_of_lt_of_le (Nat.lt_succ_self n) (le_max_right ..)
  copy n := n
  copy_ge n := le_refl n

/-- An environment with them. -/
noncomputable def exampleEnv (std : StdSort) (hash : HashOrder) : Env :=
  ⟨codePlatform 0 0, std, hash, bumpAllocator, exactGrowth, true⟩

theorem example_new (std : StdSort) (hash : HashOrder) {s : CState} {o : Obj}
    (h : s.heap (s.allocs + 1) = none) : (exampleEnv std hash).new s o =
      .ok (⟨s.heap.set (s.allocs + 1) (some o), s.allocs + 1⟩, s.allocs + 1) := by
  unfold Env.new
  have : (exampleEnv std hash).alloc.pick s.allocs s.heap = some (s.allocs + 1) := if_pos h
  rw [this]

/-- A history of permitted calls: make a 10 by 6 rectangle, offset it by 1, release the one polyline
of the result, delete the list, then both polylines. Nothing is left. -/
example (std : StdSort) (hash : HashOrder) :
    let e := exampleEnv std hash
    ∃ s1 s2 s3 s4 s5 s6 L1 L2 L3 L4 L5 L6, Reaches e s1 L1 ∧ Reaches e s2 L2 ∧ Reaches e s3 L3 ∧
      Reaches e s4 L4 ∧ Reaches e s5 L5 ∧ Reaches e s6 L6 ∧
      valueAt s1 1 = some (rect 0 0 10 6) ∧ elemsAt s2 2 = some [3] ∧
      valueAt s2 3 = some (rect 1 1 9 5) ∧ elemsAt s3 2 = some [] ∧
      valueAt s4 3 = some (rect 1 1 9 5) ∧ elemsAt s4 2 = none ∧ ∀ a, s6.heap a = none := by
  intro e
  let vs : List CVertex := [⟨0, 0, 0⟩, ⟨10, 0, 0⟩, ⟨10, 6, 0⟩, ⟨0, 6, 0⟩]
  -- cavc_pline_new
  have x1 : exec e CState.init (.plineNew (some vs) 4 1) =
      .ok (⟨CState.init.heap.set 1 (some (.pline ⟨rect 0 0 10 6, 4⟩)), 1⟩, .pline 1) := by
    simp only [exec, cavcPlineNew, initialPline]
    rw [copyToPline_run _ _ _ _ (by simp [vs]), ok_bind,
      example_new std hash (s := CState.init) rfl, ok_bind, pure_eq_ok]
    rfl
  have r1 := Reaches.call (c := .plineNew (some vs) 4 1) Reaches.start
    (Or.inr (by simp [ArrayOk, vs])) x1
  generalize hs1 : (⟨CState.init.heap.set 1 (some (.pline ⟨rect 0 0 10 6, 4⟩)), 1⟩ : CState) = s1
    at r1 x1
  have a1 := C46_ownership r1
  have h1 : s1.heap 1 = some (.pline ⟨rect 0 0 10 6, 4⟩) := by rw [← hs1]; rfl
  have f1 : ∀ b, 1 < b → s1.heap b = none := fun b hb => by
    rw [← hs1]; simp only; rw [Heap.set_ne _ _ (Nat.ne_of_gt hb)]; rfl
  have n1 : s1.allocs = 1 := by rw [← hs1]
  have u1 : (Ledger.empty.after (.plineNew (some vs) 4 1) (.pline 1)).Usable 1 :=
    (a1.plines 1).1 (valueAt_ne_none.2 ⟨_, h1⟩)
  -- cavc_parallel_offset
  have hoff : parallelOffset (codePlatform 0 0) std hash (rect 0 0 10 6) 1 false =
      .ok [rect 1 1 9 5] := by
    have := C52_rectangle (x0 := 0) (y0 := 0) (x1 := 10) (y1 := 6) (std := std) (hash := hash) 0 0
      (d := 1) (by norm_num) (by norm_num) (by norm_num)
    rw [show ((0 : ℝ) + 1) = 1 by norm_num, show ((10 : ℝ) - 1) = 9 by norm_num,
      show ((6 : ℝ) - 1) = 5 by norm_num] at this
    exact this
  have x2 : ∃ s2, exec e s1 (.parallelOffset 1 1 0#32) = .ok (s2, .list 2 [3]) ∧
      s2.heap 2 = some (.list [3]) ∧ s2.heap 3 = some (.pline ⟨rect 1 1 9 5, 4⟩) := by
    have hn := example_new std hash (s := s1) (o := .list []) (by rw [n1]; exact f1 2 (by decide))
    rw [n1] at hn
    have hm := example_new std hash (s := ⟨s1.heap.set 2 (some (.list [])), 2⟩)
      (o := .pline ⟨rect 1 1 9 5, 4⟩)
      (by simp only; rw [Heap.set_ne _ _ (by decide)]; exact f1 3 (by decide))
    have hf : fillList e 2 [rect 1 1 9 5] ⟨s1.heap.set 2 (some (.list [])), 2⟩ =
        .ok ((⟨(s1.heap.set 2 (some (.list []))).set 3 (some (.pline ⟨rect 1 1 9 5, 4⟩)), 3⟩ :
          CState).set 2 (some (.list [3])), [3]) := by
      simp only [fillList, moveToList]
      rw [show (⟨rect 1 1 9 5, e.growth.copy (rect 1 1 9 5).size⟩ : CPline) = ⟨rect 1 1 9 5, 4⟩
        from rfl, hm]
      rfl
    refine ⟨(⟨(s1.heap.set 2 (some (.list []))).set 3 (some (.pline ⟨rect 1 1 9 5, 4⟩)), 3⟩ :
        CState).set 2 (some (.list [3])), ?_, CState.set_self .., ?_⟩
    · simp only [exec, cavcParallelOffset]
      rw [pline_ne (by decide) h1, ok_bind, flag_eq]
      have : (0#32).getLsbD 0 = false := by simp
      have hoff' : parallelOffset e.pf e.std e.hash (rect 0 0 10 6) 1 false = .ok [rect 1 1 9 5] := hoff
      have hn' : e.new s1 (.list []) = .ok (⟨s1.heap.set 2 (some (.list [])), 2⟩, 2) := hn
      rw [this, hoff', ok_bind, hn', ok_bind]
      simp only
      rw [hf]
      rfl
    · rw [CState.set_ne _ _ (by decide)]; simp only; rw [Heap.set_self]
  obtain ⟨s2, x2, h22, h23⟩ := x2
  have r2 := Reaches.call (c := .parallelOffset 1 1 0#32) r1 u1 x2
  have a2 := C46_ownership r2
  -- cavc_pline_list_release
  have l2 := a2.entered h22
  have x3 : exec e s2 (.listRelease 2 0) = .ok (s2.set 2 (some (.list [])), .pline 3) := by
    simp only [exec, cavcPlineListRelease]
    rw [list_ne (by decide) h22, ok_bind, check_pos (by simp), ok_bind]; rfl
  have r3 := Reaches.call (c := .listRelease 2 0) r2 ⟨[3], l2, by simp⟩ x3
  have a3 := C46_ownership r3
  have h32 : (s2.set 2 (some (.list []))).heap 2 = some (.list []) := CState.set_self ..
  have h33 : (s2.set 2 (some (.list []))).heap 3 = some (.pline ⟨rect 1 1 9 5, 4⟩) := by
    rw [CState.set_ne _ _ (by decide)]; exact h23
  generalize s2.set 2 (some (.list [])) = s3 at *
  -- cavc_pline_list_delete
  have l3 := a3.entered h32
  have x4 : exec e s3 (.listDelete 2) = .ok (s3.set 2 none, .nothing) := by
    simp only [exec, cavcPlineListDelete]
    rw [if_neg (by decide), listAt_ok.2 h32]; rfl
  have r4 := Reaches.call (c := .listDelete 2) r3 (Or.inr (by rw [l3]; simp)) x4
  have h42 : (s3.set 2 none).heap 2 = none := CState.set_self ..
  have h43 : (s3.set 2 none).heap 3 = some (.pline ⟨rect 1 1 9 5, 4⟩) := by
    rw [CState.set_ne _ _ (by decide)]; exact h33
  generalize s3.set 2 none = s4 at *
  -- cavc_pline_delete, twice
  have x5 : exec e s4 (.plineDelete 3) = .ok (s4.set 3 none, .nothing) := by
    simp only [exec, cavcPlineDelete]
    rw [if_neg (by decide), plineAt_ok.2 h43]; rfl
  have r5 := Reaches.call (c := .plineDelete 3) r4 (Or.inr (by simp [Ledger.after, Ledger.setList])) x5
  have a5 := C46_ownership r5
  have o5 : (1 : Addr) ∈ (((((Ledger.empty.after (.plineNew (some vs) 4 1) (.pline 1)).after
      (.parallelOffset 1 1 0#32) (.list 2 [3])).after (.listRelease 2 0) (.pline 3)).after
      (.listDelete 2) .nothing).after (.plineDelete 3) .nothing).owned := by
    simp [Ledger.after, Ledger.setList]
  obtain ⟨p5, h51⟩ := a5.usable (Or.inl o5)
  have x6 : exec e (s4.set 3 none) (.plineDelete 1) = .ok ((s4.set 3 none).set 1 none, .nothing) := by
    simp only [exec, cavcPlineDelete]
    rw [if_neg (by decide), plineAt_ok.2 h51]; rfl
  have r6 := Reaches.call (c := .plineDelete 1) r5 (Or.inr o5) x6
  refine ⟨_, _, _, _, _, _, _, _, _, _, _, _, r1, r2, r3, r4, r5, r6, valueAt_some.2 ⟨_, h1⟩,
    elemsAt_some.2 h22, valueAt_some.2 ⟨_, h23⟩, elemsAt_some.2 h32, valueAt_some.2 ⟨_, h43⟩, ?_,
    C46_no_leak r6 ?_ ?_⟩
  · unfold elemsAt; rw [h42]
  · ext b
    simp only [Ledger.after, Ledger.setList, Ledger.empty, Set.mem_sdiff, Set.mem_insert_iff,
      Set.mem_singleton_iff, Set.mem_empty_iff_false, or_false, iff_false]
    tauto
  · intro l
    simp only [Ledger.after, Ledger.setList, Ledger.empty]
    by_cases hl : l = 2
    · subst hl; simp
    · simp [Function.update_of_ne hl]

end Cavc

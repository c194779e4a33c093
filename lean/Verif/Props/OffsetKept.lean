import Verif.Props.OffsetPieces

/-! C59: the kept pieces of the raw offset polyline. -/
namespace Cavc
open Spec
open scoped Classical
noncomputable section

theorem rest_inj {e : Vertex} : ∀ {xs : List V2} {v u u' : Vertex}, Rest e v xs u → Rest e v xs u' → u = u'
  | [], _, _, _, h, h' => h.trans h'.symm
  | x :: xs, v, u, u', ⟨r, h1, h2⟩, ⟨r', h1', h2'⟩ => by
    rw [h1] at h1'
    cases h1'
    exact rest_inj h2 h2'

theorem isSeg_mod {p : Polyline} {i : ℕ} {v1 v2 : Vertex} (h : IsSeg p i v1 v2) :
    i < p.size ∧ 2 ≤ p.size ∧ v1 = vtx p i ∧ v2 = vtx p ((i + 1) % p.size) := by
  obtain ⟨h1, h2, h3, h4, h5⟩ := seg_lt h
  rw [← seg_next h, next_eq_mod h1] at h5
  exact ⟨h1, h3, h4, h5⟩

theorem open_seg_lt {p : Polyline} {i : ℕ} {v1 v2 : Vertex} (ho : p.isClosed = false)
    (h : IsSeg p i v1 v2) : i + 1 < p.size := by
  have h2 := (isSeg_mod h).2.1
  rw [isSeg_iff, segs_length, if_neg (show ¬ p.size < 2 by omega), if_neg (by rw [ho]; simp)] at h
  omega

/-- What comes of every cut. -/
theorem pieces_is {p : Polyline} {offset : ℝ} {e : SliceEnv} (ht : Tests p offset e)
    {l : Lookup} (hk : Keyed (slOf l)) (hseg : ∀ kv ∈ l, ∃ v1 v2, IsSeg e.raw kv.1 v1 v2)
    (hal : AlongPline e.raw (cutsIn (slOf l))) {adv : ℕ → Option ℕ} {long : Polyline → Prop}
    (hac : e.raw.isClosed = true → ∀ j, j < e.raw.size → adv j = some ((j + 1) % e.raw.size))
    (hao : e.raw.isClosed = false → ∀ j, j + 1 < e.raw.size → adv j = some (j + 1))
    (haz : e.raw.isClosed = false → adv (e.raw.size - 1) = none)
    {oss : List (List (Option Polyline))}
    (h : List.Forall₂ (StepIs p offset e l adv long) l oss) :
    ∀ i o, oss.flatten[i]? = some o → ∀ s,
      o = some s ↔ KeptPiece p e.raw offset long (cutsIn (slOf l)) i s := by
  intro i o hio s
  obtain ⟨L1, kv, L2, O, t, e1, e2, e3, e4⟩ := (flat_at (fun _ _ h => h.len) h).2.1 i o hio
  have hkv : kv ∈ l := by rw [e1]; simp
  obtain ⟨w1, w2, hw⟩ := hseg kv hkv
  obtain ⟨hkn, hn2, hw1, hw2⟩ := isSeg_mod hw
  have hcs : cutsIn (slOf l) = cutsIn (slOf L1) ++
      (kv.2.map (fun x => cutOf kv.1 ⟨x, false⟩) ++ cutsIn (slOf L2)) := by
    unfold cutsIn slOf
    rw [e1, List.map_append, List.map_cons, List.flatMap_append, List.flatMap_cons, List.map_map]
    rfl
  have hL1 : ∀ a ∈ slOf L1, a.1 < kv.1 := by
    have hp := hk.1
    unfold slOf at hp ⊢
    rw [e1, List.map_append, List.map_cons, List.pairwise_append] at hp
    exact fun a ha => hp.2.2 a ha _ (List.mem_cons_self)
  have htO := (List.getElem?_eq_some_iff.1 e3).1
  rw [e2.len] at htO
  have hlen : (cutsIn (slOf l)).length =
      (cutsIn (slOf L1)).length + kv.2.length + (cutsIn (slOf L2)).length := by
    rw [hcs]
    simp only [List.length_append, List.length_map]
    omega
  have hat : ∀ s, s < kv.2.length → (cutsIn (slOf l))[(cutsIn (slOf L1)).length + s]? =
      kv.2[s]?.map (fun x => cutOf kv.1 ⟨x, false⟩) := by
    intro s hs
    rw [hcs, List.getElem?_append_right (by omega), List.getElem?_append_left (by
      rw [List.length_map]; omega), Nat.add_sub_cancel_left, List.getElem?_map]
  have hsp : kv.2[t]? = some kv.2[t] := List.getElem?_eq_getElem htO
  have hc1 : (cutsIn (slOf l))[i]? = some (cutOf kv.1 ⟨kv.2[t], false⟩) := by
    rw [e4, hat t htO, hsp]; rfl
  by_cases htl : t + 1 < kv.2.length
  · have hsp' : kv.2[t + 1]? = some kv.2[t + 1] := List.getElem?_eq_getElem htl
    have hc2 : (cutsIn (slOf l))[(i + 1) % (cutsIn (slOf l)).length]? =
        some (cutOf kv.1 ⟨kv.2[t + 1], false⟩) := by
      rw [Nat.mod_eq_of_lt (by omega), e4, Nat.add_assoc, hat _ htl, hsp']; rfl
    obtain ⟨u, r, g2, g3, g4⟩ := e2.inner t _ o hsp' e3
    have e5 : (((cutsIn (slOf l)).take i ++ [cutOf kv.1 ⟨kv.2[t], false⟩]).filter
        fun d => d.seg = kv.1).map Cut.pos = kv.2.take (t + 1) := by
      have : (cutsIn (slOf l)).take i ++ [cutOf kv.1 ⟨kv.2[t], false⟩] =
          cutsIn (slOf L1) ++ ((kv.2.take (t + 1)).map fun x => (⟨x, false⟩ : SlicePoint)).map
            (cutOf kv.1) := by
        rw [hcs, e4, List.take_length_add_append, List.take_append_of_le_length (by
          rw [List.length_map]; omega), List.append_assoc, List.map_map, List.map_take,
          List.take_add_one, List.getElem?_map, hsp]
        rfl
      rw [this]
      have hf := filter_cuts (kv := (kv.1, kv.2.map fun x => ⟨x, false⟩)) hL1
        ((kv.2.take (t + 1)).map fun x => (⟨x, false⟩ : SlicePoint))
      simp only at hf
      rw [hf, List.map_map]
      exact List.map_id _
    rw [g4]
    constructor
    · rintro ⟨rfl, k1, k2, k3, m, k4, k5, k6⟩
      refine ⟨_, _, hc1, hc2, Or.inl ⟨by omega, rfl, ⟨_, _, u, r, hw, ?_, ?_, rfl⟩, k1, _, _, m, rfl, k2, k3,
        k4, k5, k6⟩⟩
      · change Rest _ _ (((_ : List Cut).filter fun d => d.seg = kv.1).map Cut.pos) u
        rw [e5, hw1, hw2]
        exact g2
      · rw [hw2]
        exact g3
    · rintro ⟨c, c', q1, q2, hq⟩
      rw [hc1] at q1
      rw [hc2] at q2
      cases q1
      cases q2
      rcases hq with ⟨-, -, ⟨v, ev, u', r', q1, q2, q3, q4⟩, q5, a, b, m, q6, q7⟩ |
        ⟨⟨-, hq⟩ | ⟨hq, -⟩, -⟩ | ⟨hq, -⟩
      · obtain ⟨rfl, rfl⟩ := isSeg_inj hw q1
        change Rest _ _ (((_ : List Cut).filter fun d => d.seg = kv.1).map Cut.pos) u' at q2
        rw [e5, hw1, hw2] at q2
        have := rest_inj g2 q2
        subst this
        rw [hw2] at q3
        rw [show (cutOf kv.1 ⟨kv.2[t + 1], false⟩).pos = kv.2[t + 1] from rfl, g3] at q3
        cases q3
        rw [q4] at q6
        cases q6
        subst q4
        exact ⟨rfl, q5, q7.1, q7.2.1, m, q7.2.2⟩
      · exact absurd rfl hq
      · omega
      · omega
  · have ht' : t + 1 = kv.2.length := by omega
    have e1' : slOf l = slOf L1 ++ (kv.1, kv.2.map fun x => (⟨x, false⟩ : SlicePoint)) :: slOf L2 := by
      unfold slOf
      rw [e1, List.map_append, List.map_cons]
    have hlt : ∀ kv ∈ slOf l, kv.1 < e.raw.size := by
      intro a ha
      obtain ⟨b, hb, rfl⟩ := List.mem_map.1 ha
      obtain ⟨v1, v2, hv⟩ := hseg b hb
      exact (isSeg_mod hv).1
    obtain ⟨kvN, spN, restN, n1, n2, n3, n4, n5⟩ := next_entry (n := e.raw.size) hk hlt e1' e4
      (by simpa using ht')
    simp only at n4 n5
    obtain ⟨kvM, hkvM, rfl⟩ := List.mem_map.1 n1
    simp only at n2 n3 n4 n5
    obtain ⟨xN, xsN, hxN, hspN⟩ : ∃ x xs, kvM.2 = x :: xs ∧ spN = ⟨x, false⟩ := by
      cases hx : kvM.2 with
      | nil => rw [hx] at n2; cases n2
      | cons x xs =>
        rw [hx, List.map_cons] at n2
        cases n2
        exact ⟨x, xs, rfl, rfl⟩
    subst hspN
    obtain ⟨z1, z2, hz⟩ := hseg kvM hkvM
    obtain ⟨hNn, -, hz1, hz2⟩ := isSeg_mod hz
    obtain ⟨o', ho', hout⟩ := e2.outer t _ o ht' hsp e3
    have hil : i < (cutsIn (slOf l)).length := by omega
    by_cases hlast : i + 1 = (cutsIn (slOf l)).length ∧ e.raw.isClosed = false
    · -- the end of an open polyline
      obtain ⟨hl1, hop⟩ := hlast
      have hko := open_seg_lt hop hw
      have hmax : ∀ a ∈ l, a.1 ≤ kv.1 := by
        intro a ha
        obtain ⟨sp, rest, hsp2⟩ := List.exists_cons_of_ne_nil (hk.2 _ (List.mem_map.2 ⟨a, ha, rfl⟩))
        have hm : cutOf a.1 sp ∈ cutsIn (slOf l) :=
          List.mem_flatMap.2 ⟨_, List.mem_map.2 ⟨a, ha, rfl⟩, by rw [hsp2]; simp⟩
        obtain ⟨j, hj, hje⟩ := List.getElem_of_mem hm
        by_cases hji : j = i
        · subst hji
          rw [List.getElem?_eq_getElem hj, hje] at hc1
          have := Option.some_inj.1 hc1
          have := congrArg Cut.seg this
          exact le_of_eq this
        · have := List.pairwise_iff_getElem.1 hal j i hj hil (by omega)
          rw [hje] at this
          rw [List.getElem?_eq_getElem hil] at hc1
          rw [Option.some_inj.1 hc1] at this
          rcases this with h | ⟨h, -⟩
          · exact le_of_lt h
          · exact le_of_eq h
      have hmod : (kv.1 + 1) % e.raw.size = kv.1 + 1 := Nat.mod_eq_of_lt hko
      have hend : ∀ v, sliceLoop e l adv (e.raw.size + 1) (kv.1 + 1) ⟨false, [v]⟩ = .ok o' → ∀ s,
          o' = some s ↔ Passable p offset [v] (e.raw.vertexes.drop (kv.1 + 1)) ∧
            s = ⟨false, (e.raw.vertexes.drop (kv.1 + 1)).foldl joined [v]⟩ := by
        intro v hv
        refine toEnd_is ht (e.raw.size - (kv.1 + 1) - 1) _ _ _ _ (by omega) ?_ ?_ ?_ hv
        · intro t _
          apply find_none
          apply find_eq_none
          intro a ha
          obtain ⟨b, hb, rfl⟩ := List.mem_map.1 ha
          have := hmax b hb
          simp only
          omega
        · intro t ht
          exact hao hop _ (by omega)
        · rw [show kv.1 + 1 + (e.raw.size - (kv.1 + 1) - 1) = e.raw.size - 1 by omega]
          exact haz hop
      rw [hmod] at hout
      rw [ho']
      constructor
      · rintro ⟨hs, k1, k2⟩
        rcases hout with ⟨-, hno⟩ | ⟨g1, r, g2, g3⟩
        · rw [hno] at hs; cases hs
        · obtain ⟨k3, k4⟩ := (hend _ g3 s).1 hs
          refine ⟨_, _, hc1, n3, Or.inr (Or.inr ⟨hl1, hop, ⟨_, _, r, hw, ?_, g1, k3, k4⟩, k1, k2⟩)⟩
          rw [hw1, hw2, hmod]
          exact g2
      · rintro ⟨c, c', q1, q2, hq⟩
        rw [hc1] at q1
        cases q1
        rcases hq with ⟨hq, -⟩ | ⟨⟨hq, -⟩ | ⟨-, hq⟩, -⟩ | ⟨-, -, ⟨v, ev, r, q3, q4, q5, q6, q7⟩, q8, q9⟩
        · omega
        · omega
        · rw [hop] at hq; cases hq
        · refine ⟨?_, q8, q9⟩
          obtain ⟨rfl, rfl⟩ := isSeg_inj hw q3
          rcases hout with ⟨g1, -⟩ | ⟨g1, r', g2, g3⟩
          · exact absurd q5 g1
          · rw [hw1, hw2, hmod] at q4
            rw [show (cutOf kv.1 ⟨kv.2[t], false⟩).pos = kv.2[t] from rfl, g2] at q4
            cases q4
            exact (hend _ g3 s).2 ⟨q6, q7⟩
    · -- to the next cut
      have hopt : e.raw.isClosed = true ∨ (e.raw.isClosed = false ∧ i + 1 < (cutsIn (slOf l)).length) := by
        cases hc : e.raw.isClosed with
        | true => exact Or.inl rfl
        | false => exact Or.inr ⟨rfl, by rcases Nat.lt_or_ge (i + 1) (cutsIn (slOf l)).length with h | h
                                         · exact h
                                         · exact absurd ⟨by omega, hc⟩ hlast⟩
      have hcond : i + 1 < (cutsIn (slOf l)).length ∧ kvM.1 ≠ kv.1 ∨
          i + 1 = (cutsIn (slOf l)).length ∧ e.raw.isClosed = true := by
        rcases hopt with h | ⟨-, h⟩
        · rcases n4 with n4 | n4
          · exact Or.inr ⟨n4, h⟩
          · rcases Nat.lt_or_ge (i + 1) (cutsIn (slOf l)).length with h' | h'
            · exact Or.inl ⟨h', n4⟩
            · exact Or.inr ⟨by omega, h⟩
        · rcases n4 with n4 | n4
          · omega
          · exact Or.inl ⟨h, n4⟩
      have hd : (((kv.1 + 1) % e.raw.size + (kvM.1 + e.raw.size - (kv.1 + 1)) % e.raw.size) %
          e.raw.size) = kvM.1 := by
        rw [← Nat.add_mod, show kv.1 + 1 + (kvM.1 + e.raw.size - (kv.1 + 1)) = kvM.1 + e.raw.size by omega,
          Nat.add_mod_right, Nat.mod_eq_of_lt hNn]
      have hadv : ∀ t < (kvM.1 + e.raw.size - (kv.1 + 1)) % e.raw.size,
          adv (((kv.1 + 1) % e.raw.size + t) % e.raw.size) =
            some (((kv.1 + 1) % e.raw.size + t + 1) % e.raw.size) := by
        intro t htt
        rcases hopt with hcl | ⟨hop, hlt1⟩
        · rw [hac hcl _ (Nat.mod_lt _ (by omega)), Nat.mod_add_mod]
        · have hko := open_seg_lt hop hw
          have hzo := open_seg_lt hop hz
          have hle : kv.1 < kvM.1 := by
            have hlt2 : (i + 1) % (cutsIn (slOf l)).length = i + 1 := Nat.mod_eq_of_lt hlt1
            rw [hlt2] at n3
            have := List.pairwise_iff_getElem.1 hal i (i + 1) hil hlt1 (by omega)
            rw [List.getElem?_eq_getElem hil] at hc1
            rw [List.getElem?_eq_getElem hlt1] at n3
            rw [Option.some_inj.1 hc1, Option.some_inj.1 n3] at this
            rcases this with h | ⟨h, -⟩
            · exact h
            · rcases n4 with n4 | n4
              · omega
              · exact absurd h.symm n4
          rw [show kvM.1 + e.raw.size - (kv.1 + 1) = (kvM.1 - (kv.1 + 1)) + e.raw.size by omega,
            Nat.add_mod_right, Nat.mod_eq_of_lt (by omega)] at htt
          rw [Nat.mod_eq_of_lt hko, Nat.mod_eq_of_lt (by omega), Nat.mod_eq_of_lt (by omega)]
          exact hao hop _ (by omega)
      have hfind : l.find? kvM.1 = some (xN :: xsN) := by
        rw [find_some hk hkvM, hxN]
      have hloop : ∀ v, sliceLoop e l adv (e.raw.size + 1) ((kv.1 + 1) % e.raw.size) ⟨false, [v]⟩ = .ok o' →
          ∀ s, o' = some s ↔ Passable p offset [v]
            ((e.raw.vertexes.rotate (kv.1 + 1)).take ((kvM.1 + e.raw.size - (kv.1 + 1)) % e.raw.size + 1)) ∧
          FinishIs p e.raw offset kvM.1 xN (((e.raw.vertexes.rotate (kv.1 + 1)).take
            ((kvM.1 + e.raw.size - (kv.1 + 1)) % e.raw.size + 1)).foldl joined [v]) s := by
        intro v hv s
        have := loop_is ht ((kvM.1 + e.raw.size - (kv.1 + 1)) % e.raw.size) (e.raw.size + 1)
          ((kv.1 + 1) % e.raw.size) [v] o' (Nat.mod_lt _ (by omega)) (by simp)
          (fun s hs => find_none (by rw [Nat.mod_add_mod]; exact n5 s hs)) hadv
          (by rw [hd]; exact hfind) hv s
        rw [hd, vertsFrom_rotate (by
          have := Nat.mod_lt (kvM.1 + e.raw.size - (kv.1 + 1)) (show 0 < e.raw.size by omega)
          omega)] at this
        have hs : e.raw.size = e.raw.vertexes.length := rfl
        have hr : e.raw.vertexes.rotate ((kv.1 + 1) % e.raw.size) = e.raw.vertexes.rotate (kv.1 + 1) := by
          rw [hs, List.rotate_mod]
        rw [hr] at this
        exact this
      rw [ho']
      constructor
      · rintro ⟨hs, k1, k2⟩
        rcases hout with ⟨-, hno⟩ | ⟨g1, r, g2, g3⟩
        · rw [hno] at hs; cases hs
        · obtain ⟨k3, us, u, r', m, k4, k5, k6, k7, k8, k9⟩ := (hloop _ g3 s).1 hs
          refine ⟨_, _, hc1, n3, Or.inr (Or.inl ⟨hcond, ⟨_, _, r, us, u, _, _, r', m, hw, ?_, g1, k3, k4, k5, hz,
            ?_, k7, k8, k9⟩, k1, k2⟩)⟩
          · rw [hw1, hw2]
            exact g2
          · rw [hz2]
            exact k6
      · rintro ⟨c, c', q1, q2, hq⟩
        rw [hc1] at q1
        rw [n3] at q2
        cases q1
        cases q2
        rcases hq with ⟨hq1, hq2, -⟩ | ⟨-, ⟨v, ev, r, us, u, v', e', r', m, q3, q4, q5, q6, q7, q8, q9, q10, q11,
          q12, q13⟩, q14, q15⟩ | ⟨hq1, hq2, -⟩
        · rcases hcond with h | h
          · exact absurd hq2 h.2
          · omega
        · refine ⟨?_, q14, q15⟩
          obtain ⟨rfl, rfl⟩ := isSeg_inj hw q3
          obtain ⟨rfl, rfl⟩ := isSeg_inj hz q9
          rcases hout with ⟨g1, -⟩ | ⟨g1, r2, g2, g3⟩
          · exact absurd q5 g1
          · rw [hw1, hw2] at q4
            rw [show (cutOf kv.1 ⟨kv.2[t], false⟩).pos = kv.2[t] from rfl, g2] at q4
            cases q4
            refine (hloop _ g3 s).2 ⟨q6, us, u, r', m, q7, q8, ?_, q11, q12, q13⟩
            rw [hz2] at q10
            exact q10
        · exact absurd ⟨hq1, hq2⟩ hlast

end
end Cavc

import Verif.Proofs.SIndexCount
import Mathlib.Tactic.NormNum
import Mathlib.Data.Nat.Log
import Mathlib.Data.Int.Log
import Mathlib.Tactic.IntervalCases

/-! The level count computed in `float` is one node short for 2^24 + 1 items: `finish` writes past
the end of the arrays. -/
namespace Cavc
variable {α : Type} [LinearOrder α]

theorem f32_16777217 : f32 ((16777217 : ℕ) : ℚ) = 16777216 := by
  have hlog : Int.log 2 ((16777217 : ℕ) : ℚ) = 24 := by
    rw [Int.log_natCast]
    have : Nat.log 2 16777217 = 24 := by
      rw [Nat.log_eq_iff (by norm_num)]; norm_num
    rw [this]; rfl
  unfold f32
  rw [if_neg (by norm_num), hlog]
  have : roundEven (((16777217 : ℕ) : ℚ) / (2 : ℚ) ^ ((24 : ℤ) - 23)) = 8388608 := by
    have h1 : ((16777217 : ℕ) : ℚ) / (2 : ℚ) ^ ((24 : ℤ) - 23) = 8388608 + 1 / 2 := by norm_num
    have h2 : ⌊((8388608 : ℚ) + 1 / 2)⌋ = 8388608 := by
      rw [Int.floor_eq_iff]; norm_num
    rw [h1]
    unfold roundEven
    rw [h2]
    norm_num
  rw [this]
  norm_num

theorem nextLevelSize_16777217 : nextLevelSize 16 16777217 = 1048576 := by
  have h := nextLevelSize_exact (N := 16) (n := 16777216) (by norm_num) (by norm_num) (by norm_num)
  unfold nextLevelSize at h ⊢
  rw [f32_16777217]
  rw [f32_nat (n := 16777216) (by norm_num)] at h
  simpa using h

theorem next_small : nextLevelSize 16 1048576 = 65536 ∧ nextLevelSize 16 65536 = 4096 ∧
    nextLevelSize 16 4096 = 256 ∧ nextLevelSize 16 256 = 16 ∧ nextLevelSize 16 16 = 1 := by
  refine ⟨?_, ?_, ?_, ?_, ?_⟩ <;> rw [nextLevelSize_exact (by norm_num) (by norm_num) (by norm_num)]

theorem create_16777217 (inf ninf : α) : SIndex.create 16 inf ninf 16777217 =
    .ok ⟨16, 16777217, 7, [16777217, 17825793, 17891329, 17895425, 17895681, 17895697, 17895698],
      17895698, [], [], ⟨inf, inf, ninf, ninf⟩⟩ := by
  obtain ⟨h1, h2, h3, h4, h5⟩ := next_small
  have h0 := nextLevelSize_16777217
  have e1 : ∀ f, computeNumLevelsLoop 16 (f + 6) 16777217 1 = .ok 7 := by
    intro f
    simp [computeNumLevelsLoop, h0, h1, h2, h3, h4, h5]
  have e2 : ∀ f, levelBoundsLoop 16 7 (f + 6) 16777217 16777217 [16777217] =
      .ok ([16777217, 17825793, 17891329, 17895425, 17895681, 17895697, 17895698], 17895698) := by
    intro f
    simp [levelBoundsLoop, h0, h1, h2, h3, h4, h5]
  unfold SIndex.create computeNumLevels
  have h1' := e1 16777212
  have h2' := e2 16777212
  norm_num at h1' h2'
  norm_num [h1', h2']

/-- One step of `levelsLoop` on sizes only. -/
theorem levelsLoop_step (inf ninf : α) (k i : ℕ) (s : SIndex α) (pos endPos : ℕ)
    (hb : s.levelBounds[i]? = some endPos)
    (hN : 1 ≤ s.nodeSize) (hend : endPos ≤ s.boxes.length) (hp : pos ≤ endPos)
    (hle : s.boxes.length ≤ s.numNodes)
    (h : ∀ s', SameShape s s' →
      s'.boxes.length = s.boxes.length + (endPos - pos + s.nodeSize - 1) / s.nodeSize →
      s'.boxes.length ≤ s'.numNodes →
      levelsLoop inf ninf k (i + 1) s' endPos = .error .outOfBounds) :
    levelsLoop inf ninf (k + 1) i s pos = .error .outOfBounds := by
  rw [levelsLoop, getM_eq_ok.mpr hb, ok_bind]
  rcases levelLoop_count inf ninf endPos (endPos + 1) s pos hN hend hp (by omega) hle with
    h1 | ⟨s', h1, h2, h3, h4⟩
  · rw [h1]; rfl
  · rw [h1, ok_bind]
    exact h s' h2 h3 h4

theorem levelsLoop_overflow (inf ninf : α) (s : SIndex α) (hN : s.nodeSize = 16)
    (hb : s.levelBounds =
      [16777217, 17825793, 17891329, 17895425, 17895681, 17895697, 17895698])
    (hn : s.numNodes = 17895698) (hl : s.boxes.length = 16777217) :
    levelsLoop inf ninf 6 0 s 0 = .error .outOfBounds := by
  refine levelsLoop_step inf ninf 5 0 s 0 16777217 (by rw [hb]; rfl) (by omega) (by omega)
    (by omega) (by omega) ?_
  intro s1 a1 b1 c1
  obtain ⟨hN1, -, hb1, hn1⟩ := a1
  rw [hN] at hN1 b1
  rw [hb] at hb1
  norm_num [hl] at b1
  refine levelsLoop_step inf ninf 4 1 s1 _ 17825793 (by rw [hb1]; rfl) (by omega) (by omega)
    (by omega) (by omega) ?_
  intro s2 a2 b2 c2
  obtain ⟨hN2, -, hb2, hn2⟩ := a2
  rw [hN1] at hN2 b2
  rw [hb1] at hb2
  norm_num [b1] at b2
  refine levelsLoop_step inf ninf 3 2 s2 _ 17891329 (by rw [hb2]; rfl) (by omega) (by omega)
    (by omega) (by omega) ?_
  intro s3 a3 b3 c3
  obtain ⟨hN3, -, hb3, hn3⟩ := a3
  rw [hN2] at hN3 b3
  rw [hb2] at hb3
  norm_num [b2] at b3
  refine levelsLoop_step inf ninf 2 3 s3 _ 17895425 (by rw [hb3]; rfl) (by omega) (by omega)
    (by omega) (by omega) ?_
  intro s4 a4 b4 c4
  obtain ⟨hN4, -, hb4, hn4⟩ := a4
  rw [hN3] at hN4 b4
  rw [hb3] at hb4
  norm_num [b3] at b4
  refine levelsLoop_step inf ninf 1 4 s4 _ 17895681 (by rw [hb4]; rfl) (by omega) (by omega)
    (by omega) (by omega) ?_
  intro s5 a5 b5 c5
  obtain ⟨hN5, -, hb5, hn5⟩ := a5
  rw [hN4] at hN5 b5
  rw [hb4] at hb5
  norm_num [b4] at b5
  refine levelsLoop_step inf ninf 0 5 s5 _ 17895697 (by rw [hb5]; rfl) (by omega) (by omega)
    (by omega) (by omega) ?_
  intro s6 a6 b6 c6
  obtain ⟨hN6, -, hb6, hn6⟩ := a6
  rw [hN5] at b6
  norm_num [b5] at b6
  omega

/-- 2^24 + 1 items, node size 16 (the default): whatever the boxes are, `finish` overflows. -/
theorem build_overflow (inf ninf : α) (hv : Box α → Box α → M ℕ) (items : List (Box α))
    (hn : items.length = 2 ^ 24 + 1)
    (hhv : ∀ b ∈ items, ∃ v, hv (items.foldl Box.grow ⟨inf, inf, ninf, ninf⟩) b = .ok v) :
    SIndex.build 16 inf ninf hv items = .error .outOfBounds := by
  norm_num at hn
  unfold SIndex.build
  rw [hn, create_16777217, ok_bind, adds_spec items _ (by simp [hn]) (by simp), ok_bind]
  simp only [List.nil_append, List.length_nil, Nat.zero_add]
  unfold SIndex.finish
  obtain ⟨values, hval, hvlen⟩ := mapM_ok (hv (items.foldl Box.grow ⟨inf, inf, ninf, ninf⟩))
    (items.take 16777217) (fun x hx => hhv x (List.mem_of_mem_take hx))
  simp only [hn, decide_true, assertM_true, ok_bind]
  rw [if_neg (by norm_num), hval, ok_bind]
  obtain ⟨st, e, hst, hlen, hmv, -⟩ := sortLoop_spec 16 items.length (16777217 + 1)
    ⟨values, items, List.range 16777217⟩ ⟨by simp [hvlen, hn], rfl, by simp [hn]⟩ 0 (16777217 - 1)
    (by omega) (by omega) (by omega)
  rw [hst, ok_bind]
  exact levelsLoop_overflow inf ninf _ rfl rfl rfl (by simp [hlen.boxes, hn])

end Cavc

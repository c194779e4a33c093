import Verif.Model.Hilbert
import Verif.Spec.Hilbert
import Mathlib.Tactic.IntervalCases
import Mathlib.Tactic.Ring

/-! Proof support for the Hilbert values: the bit operations of `hilbertXYToIndex` compute a run of
a four state machine over the bits of the coordinates, and that run is the Hilbert curve. -/
namespace Cavc

/-- Bit `i`. -/
def bit (w : UInt32) (i : ℕ) : Bool := w.toBitVec.getLsbD i

theorem bit_xor (v w : UInt32) (i : ℕ) : bit (v ^^^ w) i = (bit v i ^^ bit w i) := by
  simp [bit]
theorem bit_or (v w : UInt32) (i : ℕ) : bit (v ||| w) i = (bit v i || bit w i) := by
  simp [bit]
theorem bit_and (v w : UInt32) (i : ℕ) : bit (v &&& w) i = (bit v i && bit w i) := by
  simp [bit]

theorem bit_shr (v : UInt32) (k : UInt32) (hk : k.toNat < 32) (i : ℕ) :
    bit (v >>> k) i = bit v (i + k.toNat) := by
  simp [bit, UInt32.toBitVec_shiftRight, BitVec.getLsbD_ushiftRight]
  rw [Nat.mod_eq_of_lt hk, add_comm]

theorem bit_shl (v : UInt32) (k : UInt32) (hk : k.toNat < 32) (i : ℕ) :
    bit (v <<< k) i = (decide (i < 32) && !decide (i < k.toNat) && bit v (i - k.toNat)) := by
  simp only [bit, UInt32.toBitVec_shiftLeft, BitVec.shiftLeft_eq', BitVec.getLsbD_shiftLeft]
  have : (k.toBitVec % 32).toNat = k.toNat := by
    rw [BitVec.toNat_umod]; exact Nat.mod_eq_of_lt hk
  rw [this]

theorem bit_ffff (i : ℕ) : bit 0xFFFF i = decide (i < 16) := by
  simp only [bit]
  by_cases h : i < 16
  · interval_cases i <;> decide
  · rw [decide_eq_false h]
    by_cases h2 : i < 32
    · interval_cases i <;> first | omega | decide
    · exact BitVec.getLsbD_of_ge _ _ (by omega)

theorem bit_testBit (w : UInt32) (i : ℕ) : w.toNat.testBit i = bit w i := rfl

/-- Bits spread apart, one of the two identical halves of the end of the function. -/
def spread (w : UInt32) : UInt32 :=
  let w := (w ||| (w <<< 8)) &&& 0x00FF00FF
  let w := (w ||| (w <<< 4)) &&& 0x0F0F0F0F
  let w := (w ||| (w <<< 2)) &&& 0x33333333
  (w ||| (w <<< 1)) &&& 0x55555555

theorem spread_bits (w : UInt32) (h : ∀ i, 16 ≤ i → bit w i = false) (i : ℕ) (hi : i < 16) :
    bit (spread w) (2 * i) = bit w i ∧ bit (spread w) (2 * i + 1) = false := by
  have c (k : UInt32) (j : ℕ) : bit k j = k.toBitVec.getLsbD j := rfl
  have s8 := bit_shl (k := 8) (hk := by decide)
  have s4 := bit_shl (k := 4) (hk := by decide)
  have s2 := bit_shl (k := 2) (hk := by decide)
  have s1 := bit_shl (k := 1) (hk := by decide)
  have e8 : (8 : UInt32).toNat = 8 := rfl
  have e4 : (4 : UInt32).toNat = 4 := rfl
  have e2 : (2 : UInt32).toNat = 2 := rfl
  have e1 : (1 : UInt32).toNat = 1 := rfl
  have k1 := c 0x00FF00FF
  have k2 := c 0x0F0F0F0F
  have k3 := c 0x33333333
  have k4 := c 0x55555555
  simp only [spread, bit_and, bit_or, s8, s4, s2, s1, k1, k2, k3, k4, e8, e4, e2, e1]
  interval_cases i <;> simp [h]

/-- One step of the machine from state `(p, q)` on the bits `x` and `y`. -/
def hstep (x y : Bool) (v : Bool × Bool) : Bool × Bool :=
  (!(x || y) ^^ v.1 ^^ (!(x ^^ y) && v.2), (x && !y) ^^ ((x ^^ y) && v.1) ^^ v.2)


theorem hstep_def (x y : Bool) (v : Bool × Bool) : hstep x y v =
    (!(x || y) ^^ v.1 ^^ (!(x ^^ y) && v.2), (x && !y) ^^ ((x ^^ y) && v.1) ^^ v.2) := rfl

/-- The step at bit `i`; above bit 15 nothing happens. -/
def hstepAt (x y : UInt32) (i : ℕ) (v : Bool × Bool) : Bool × Bool :=
  if i < 16 then hstep (bit x i) (bit y i) v else v

/-- `m` steps ending at bit `i`. -/
def hsteps (x y : UInt32) : ℕ → ℕ → Bool × Bool → Bool × Bool
  | 0, _, v => v
  | m + 1, i, v => hstepAt x y i (hsteps x y m (i + 1) v)

theorem hsteps_add (x y : UInt32) (m n i : ℕ) (v : Bool × Bool) :
    hsteps x y (m + n) i v = hsteps x y m i (hsteps x y n (i + m) v) := by
  induction m generalizing i with
  | zero => simp [hsteps]
  | succ m ih =>
    rw [show m + 1 + n = (m + n) + 1 by omega]
    simp only [hsteps]
    rw [ih, show i + 1 + m = i + (m + 1) by omega]

theorem hsteps_high (x y : UInt32) (m i : ℕ) (hi : 16 ≤ i) (v : Bool × Bool) :
    hsteps x y m i v = v := by
  induction m generalizing i with
  | zero => rfl
  | succ m ih => simp only [hsteps, hstepAt]; rw [if_neg (by omega), ih _ (by omega)]

/-- An affine map of the plane over the field with two elements, of the form the code keeps. -/
def haff (a b c d : Bool) (v : Bool × Bool) : Bool × Bool :=
  (c ^^ (a && v.1) ^^ (b && v.2), d ^^ (b && v.1) ^^ ((a ^^ b) && v.2))

/-- The words `a b c d` hold the effect of `m` steps at every bit. -/
def Holds (x y : UInt32) (m : ℕ) (a b c d : UInt32) : Prop :=
  ∀ i v, (i + m ≤ 16 ∨ v = (false, false)) →
    haff (bit a i) (bit b i) (bit c i) (bit d i) v = hsteps x y m i v

theorem Holds.zero {x y : UInt32} {m : ℕ} {a b c d : UInt32} (h : Holds x y m a b c d) (i : ℕ) :
    (bit c i, bit d i) = hsteps x y m i (false, false) := by
  rw [← h i _ (.inr rfl)]; simp [haff]

theorem Holds.high {x y : UInt32} {m : ℕ} {a b c d : UInt32} (h : Holds x y m a b c d) (i : ℕ)
    (hi : 16 ≤ i) : bit c i = false ∧ bit d i = false := by
  have := h.zero i
  rw [hsteps_high _ _ _ _ hi] at this
  exact Prod.mk.inj this

theorem Holds.double {x y : UInt32} {m : ℕ} {a b c d A B C D : UInt32} (h : Holds x y m a b c d)
    (hA : ∀ i, bit A i = ((bit a i && bit a (i + m)) ^^ (bit b i && bit b (i + m))))
    (hB : ∀ i, bit B i = ((bit a i && bit b (i + m)) ^^ (bit b i && (bit a (i + m) ^^ bit b (i + m)))))
    (hC : ∀ i, bit C i = (bit c i ^^ ((bit a i && bit c (i + m)) ^^ (bit b i && bit d (i + m)))))
    (hD : ∀ i, bit D i = (bit d i ^^ ((bit b i && bit c (i + m)) ^^
      ((bit a i ^^ bit b i) && bit d (i + m))))) :
    Holds x y (m + m) A B C D := by
  intro i v hv
  rw [hsteps_add]
  have e : haff (bit A i) (bit B i) (bit C i) (bit D i) v = haff (bit a i) (bit b i) (bit c i) (bit d i)
      (haff (bit a (i + m)) (bit b (i + m)) (bit c (i + m)) (bit d (i + m)) v) := by
    rw [hA, hB, hC, hD]
    clear hv
    generalize bit a i = a1, bit b i = b1, bit c i = c1, bit d i = d1, bit a (i + m) = a2,
      bit b (i + m) = b2, bit c (i + m) = c2, bit d (i + m) = d2
    obtain ⟨p, q⟩ := v
    revert a1 b1 c1 d1 a2 b2 c2 d2 p q
    decide
  rw [e]
  rcases hv with hv | rfl
  · rw [h _ _ (.inl (by omega)), h _ _ (.inl (by omega))]
  · rw [h _ _ (.inr rfl)]
    by_cases hi : i + m ≤ 16
    · rw [h _ _ (.inl hi)]
    · rw [hsteps_high _ _ _ _ (by omega), h _ _ (.inr rfl)]

theorem holds_two {x y a b c d A B C D : UInt32}
    (ha : ∀ i, bit a i = (decide (i < 16) && (bit x i ^^ bit y i)))
    (hb : ∀ i, bit b i = (decide (i < 16) && !(bit x i ^^ bit y i)))
    (hc : ∀ i, bit c i = (decide (i < 16) && !(bit x i || bit y i)))
    (hd : ∀ i, bit d i = (decide (i < 16) && (bit x i && !bit y i)))
    (hA : ∀ i, bit A i = (bit a i || bit b (i + 1)))
    (hB : ∀ i, bit B i = (bit a (i + 1) ^^ bit a i))
    (hC : ∀ i, bit C i = ((bit c (i + 1) ^^ (bit b i && bit d (i + 1))) ^^ bit c i))
    (hD : ∀ i, bit D i = (((bit a i && bit c (i + 1)) ^^ bit d (i + 1)) ^^ bit d i)) :
    Holds x y 2 A B C D := by
  intro i v hv
  simp only [hsteps, hstepAt, hA, hB, hC, hD, ha, hb, hc, hd]
  generalize bit x i = x1, bit y i = y1, bit x (i + 1) = x2, bit y (i + 1) = y2
  rcases hv with hv | rfl
  · rw [decide_eq_true (show i < 16 by omega), decide_eq_true (show i + 1 < 16 by omega),
      if_pos (by omega), if_pos (by omega)]
    obtain ⟨p, q⟩ := v
    revert x1 y1 x2 y2 p q
    decide
  · by_cases h1 : i + 1 < 16
    · rw [decide_eq_true (show i < 16 by omega), decide_eq_true (show i + 1 < 16 by omega),
        if_pos (by omega), if_pos (by omega)]
      revert x1 y1 x2 y2
      decide
    · rw [decide_eq_false h1, if_neg h1]
      by_cases h2 : i < 16
      · rw [decide_eq_true h2, if_pos h2]
        revert x1 y1 x2 y2
        decide
      · rw [decide_eq_false h2, if_neg h2]
        revert x1 y1 x2 y2
        decide

/-- The high bit of the digit at a bit, from the states before and after it. -/
def hdigit (x y : Bool) (v w : Bool × Bool) : Bool := (w.2 ^^ v.2) || !((x ^^ y) || (w.1 ^^ v.1))

theorem code_bits {x y : UInt32} (hx : x.toNat < 2 ^ 16) (hy : y.toNat < 2 ^ 16) (i : ℕ)
    (hi : i < 16) :
    bit (hilbertXYToIndex x y) (2 * i) = (bit x i ^^ bit y i) ∧
    bit (hilbertXYToIndex x y) (2 * i + 1) = hdigit (bit x i) (bit y i)
      (hsteps x y 16 (i + 1) (false, false)) (hsteps x y 16 i (false, false)) := by
  have lx : ∀ i, 16 ≤ i → bit x i = false := fun i hi =>
    Nat.testBit_lt_two_pow (hx.trans_le (Nat.pow_le_pow_right (by norm_num) hi))
  have ly : ∀ i, 16 ≤ i → bit y i = false := fun i hi =>
    Nat.testBit_lt_two_pow (hy.trans_le (Nat.pow_le_pow_right (by norm_num) hi))
  have r1 := bit_shr (k := 1) (hk := by decide)
  have r2 := bit_shr (k := 2) (hk := by decide)
  have r4 := bit_shr (k := 4) (hk := by decide)
  have r8 := bit_shr (k := 8) (hk := by decide)
  rw [show UInt32.toNat 1 = 1 from rfl] at r1
  rw [show UInt32.toNat 2 = 2 from rfl] at r2
  rw [show UInt32.toNat 4 = 4 from rfl] at r4
  rw [show UInt32.toNat 8 = 8 from rfl] at r8
  -- first stage
  let a := x ^^^ y
  let b := 0xFFFF ^^^ a
  let c := 0xFFFF ^^^ (x ||| y)
  let d := x &&& (y ^^^ 0xFFFF)
  let A := a ||| (b >>> 1)
  let B := (a >>> 1) ^^^ a
  let C := ((c >>> 1) ^^^ (b &&& (d >>> 1))) ^^^ c
  let D := ((a &&& (c >>> 1)) ^^^ (d >>> 1)) ^^^ d
  have h2 : Holds x y 2 A B C D := by
    refine holds_two (a := a) (b := b) (c := c) (d := d) ?_ ?_ ?_ ?_ ?_ ?_ ?_ ?_ <;> intro i
    · by_cases h : i < 16
      · simp [a, bit_xor, h]
      · simp [a, bit_xor, h, lx i (by omega), ly i (by omega)]
    · by_cases h : i < 16
      · simp [a, b, bit_xor, bit_ffff, h]
      · simp [a, b, bit_xor, bit_ffff, h, lx i (by omega), ly i (by omega)]
    · by_cases h : i < 16
      · simp [c, bit_xor, bit_or, bit_ffff, h]
      · simp [c, bit_xor, bit_or, bit_ffff, h, lx i (by omega), ly i (by omega)]
    · by_cases h : i < 16
      · simp [d, bit_xor, bit_and, bit_ffff, h]
      · simp [d, bit_xor, bit_and, bit_ffff, h, lx i (by omega), ly i (by omega)]
    · simp only [A, bit_or, r1]
    · simp only [B, bit_xor, r1]
    · simp only [C, bit_xor, bit_and, r1]
    · simp only [D, bit_xor, bit_and, r1]
  let A4 := (A &&& (A >>> 2)) ^^^ (B &&& (B >>> 2))
  let B4 := (A &&& (B >>> 2)) ^^^ (B &&& ((A ^^^ B) >>> 2))
  let C4 := C ^^^ ((A &&& (C >>> 2)) ^^^ (B &&& (D >>> 2)))
  let D4 := D ^^^ ((B &&& (C >>> 2)) ^^^ ((A ^^^ B) &&& (D >>> 2)))
  have h4 : Holds x y 4 A4 B4 C4 D4 := by
    refine h2.double ?_ ?_ ?_ ?_ <;> intro i
    · simp only [A4, bit_xor, bit_and, r2]
    · simp only [B4, bit_xor, bit_and, r2]
    · simp only [C4, bit_xor, bit_and, r2]
    · simp only [D4, bit_xor, bit_and, r2]
  let A8 := (A4 &&& (A4 >>> 4)) ^^^ (B4 &&& (B4 >>> 4))
  let B8 := (A4 &&& (B4 >>> 4)) ^^^ (B4 &&& ((A4 ^^^ B4) >>> 4))
  let C8 := C4 ^^^ ((A4 &&& (C4 >>> 4)) ^^^ (B4 &&& (D4 >>> 4)))
  let D8 := D4 ^^^ ((B4 &&& (C4 >>> 4)) ^^^ ((A4 ^^^ B4) &&& (D4 >>> 4)))
  have h8 : Holds x y 8 A8 B8 C8 D8 := by
    refine h4.double ?_ ?_ ?_ ?_ <;> intro i
    · simp only [A8, bit_xor, bit_and, r4]
    · simp only [B8, bit_xor, bit_and, r4]
    · simp only [C8, bit_xor, bit_and, r4]
    · simp only [D8, bit_xor, bit_and, r4]
  let C16 := C8 ^^^ ((A8 &&& (C8 >>> 8)) ^^^ (B8 &&& (D8 >>> 8)))
  let D16 := D8 ^^^ ((B8 &&& (C8 >>> 8)) ^^^ ((A8 ^^^ B8) &&& (D8 >>> 8)))
  have h16 : Holds x y 16 ((A8 &&& (A8 >>> 8)) ^^^ (B8 &&& (B8 >>> 8)))
      ((A8 &&& (B8 >>> 8)) ^^^ (B8 &&& ((A8 ^^^ B8) >>> 8))) C16 D16 := by
    refine h8.double ?_ ?_ ?_ ?_ <;> intro i
    · simp only [bit_xor, bit_and, r8]
    · simp only [bit_xor, bit_and, r8]
    · simp only [C16, bit_xor, bit_and, r8]
    · simp only [D16, bit_xor, bit_and, r8]
  let i0 := x ^^^ y
  let i1 : UInt32 := (D16 ^^^ (D16 >>> 1)) ||| ((0xFFFF : UInt32) ^^^ (i0 ||| (C16 ^^^ (C16 >>> 1))))
  have e : hilbertXYToIndex x y = (spread i1 <<< 1) ||| spread i0 := rfl
  have z0 : ∀ j, 16 ≤ j → bit i0 j = false := by
    intro j hj
    simp [i0, bit_xor, lx j hj, ly j hj]
  have z1 : ∀ j, 16 ≤ j → bit i1 j = false := by
    intro j hj
    obtain ⟨c1, d1⟩ := h16.high j hj
    obtain ⟨c2, d2⟩ := h16.high (j + 1) (by omega)
    simp only [i1, bit_or, bit_xor, bit_ffff, r1, z0 j hj, c1, c2, d1, d2]
    simp [hj]
  have b1 : bit i1 i = hdigit (bit x i) (bit y i)
      (hsteps x y 16 (i + 1) (false, false)) (hsteps x y 16 i (false, false)) := by
    rw [← h16.zero, ← h16.zero]
    simp only [i1, i0, bit_or, bit_xor, bit_ffff, r1, hdigit, hi, decide_true, Bool.true_xor]
  have b0 : bit i0 i = (bit x i ^^ bit y i) := by simp only [i0, bit_xor]
  have l1 := bit_shl (k := 1) (hk := by decide)
  rw [show UInt32.toNat 1 = 1 from rfl] at l1
  clear_value i0 i1
  rw [e, bit_or, bit_or, l1, l1, (spread_bits i0 z0 i hi).1, (spread_bits i0 z0 i hi).2,
    show 2 * i + 1 - 1 = 2 * i by omega, (spread_bits i1 z1 i hi).1, ← b1, ← b0]
  constructor
  · rcases Nat.eq_zero_or_pos i with rfl | h
    · simp
    · obtain ⟨j, rfl⟩ : ∃ j, i = j + 1 := ⟨i - 1, by omega⟩
      rw [show 2 * (j + 1) - 1 = 2 * j + 1 by omega, (spread_bits i1 z1 j (by omega)).2]
      simp
  · have : 2 * i + 1 < 32 := by omega
    simp [this]

/-- The rest of the value when the bits below `n` are still to come, from state `v`. -/
def hrest (x y : ℕ) : ℕ → Bool × Bool → ℕ
  | 0, _ => 0
  | n + 1, v =>
    let w := hstep (x.testBit n) (y.testBit n) v
    4 ^ n * (2 * (hdigit (x.testBit n) (y.testBit n) v w).toNat +
      (x.testBit n ^^ y.testBit n).toNat) + hrest x y n w

theorem code_rest {x y : UInt32} (hx : x.toNat < 2 ^ 16) (hy : y.toNat < 2 ^ 16) (n : ℕ)
    (hn : n ≤ 16) : (hilbertXYToIndex x y).toNat % 4 ^ n =
      hrest x.toNat y.toNat n (hsteps x y 16 n (false, false)) := by
  induction n with
  | zero => simp [hrest, Nat.mod_one]
  | succ n ih =>
    obtain ⟨h0, h1⟩ := code_bits hx hy n (by omega)
    have hs : hsteps x y 16 n (false, false) = hstep (bit x n) (bit y n)
        (hsteps x y 16 (n + 1) (false, false)) := by
      have e : hsteps x y 16 n (false, false) = hsteps x y 17 n (false, false) := by
        rw [show 17 = 16 + 1 from rfl, hsteps_add x y 16 1]
        have : hsteps x y 1 (n + 16) (false, false) = (false, false) :=
          hsteps_high _ _ _ _ (by omega) _
        rw [this]
      rw [e]
      rw [show 17 = 1 + 16 from rfl, hsteps_add x y 1 16]
      generalize hsteps x y 16 (n + 1) (false, false) = w
      simp only [hsteps, hstepAt]
      rw [if_pos (show n < 16 by omega)]
    generalize hsteps x y 16 n (false, false) = w at *
    generalize hsteps x y 16 (n + 1) (false, false) = w' at *
    rw [Nat.pow_succ, Nat.mod_mul, ih (by omega), hrest]
    simp only [bit_testBit, ← hs, ← h0, ← h1]
    rw [← bit_testBit, ← bit_testBit, Nat.toNat_testBit, Nat.toNat_testBit]
    have e1 : 2 ^ (2 * n) = 4 ^ n := by rw [pow_mul]; norm_num
    rw [pow_succ, ← Nat.div_div_eq_div_mul, e1]
    generalize (hilbertXYToIndex x y).toNat = N
    have : N / 4 ^ n % 4 = 2 * (N / 4 ^ n / 2 % 2) + N / 4 ^ n % 2 := by
      generalize N / 4 ^ n = k
      omega
    rw [this, add_comm]

/-- The symmetry of the square that a state of the machine stands for. -/
def hturn (n : ℕ) (v : Bool × Bool) (x y : ℕ) : ℕ × ℕ :=
  match v with
  | (false, false) => (x, y)
  | (true, false) => (y, x)
  | (false, true) => (2 ^ n - 1 - y, 2 ^ n - 1 - x)
  | (true, true) => (2 ^ n - 1 - x, 2 ^ n - 1 - y)

theorem rest_hilbert (x y n : ℕ) (v : Bool × Bool) :
    hrest x y n v = Spec.hilbert n (hturn n v (x % 2 ^ n) (y % 2 ^ n)).1
      (hturn n v (x % 2 ^ n) (y % 2 ^ n)).2 := by
  induction n generalizing v with
  | zero => rfl
  | succ n ih =>
    have key (z : ℕ) : z % 2 ^ (n + 1) = z % 2 ^ n + 2 ^ n * (z.testBit n).toNat := by
      rw [Nat.pow_succ, Nat.mod_mul, Nat.toNat_testBit]
    have hx := Nat.mod_lt x (Nat.two_pow_pos n)
    have hy := Nat.mod_lt y (Nat.two_pow_pos n)
    simp only [hrest, ih, key]
    have e4 : (4 : ℕ) ^ n = 2 ^ n * 2 ^ n := by rw [← mul_pow]; norm_num
    have e2 : (2 : ℕ) ^ (n + 1) = 2 * 2 ^ n := by rw [pow_succ]; ring
    generalize x.testBit n = xb, y.testBit n = yb
    generalize x % 2 ^ n = x' at *
    generalize y % 2 ^ n = y' at *
    obtain ⟨p, q⟩ := v
    cases xb <;> cases yb <;> cases p <;> cases q <;>
      (simp only [hstep, hdigit, hturn, Spec.hilbert, e2, e4, Bool.toNat_true, Bool.toNat_false,
        Bool.not_true, Bool.not_false, Bool.xor_true, Bool.xor_false, Bool.and_true, Bool.and_false, 
        Bool.or_false, Bool.or_true, mul_one, mul_zero, add_zero,
        zero_add]
       generalize 2 ^ n * 2 ^ n = S
       generalize 2 ^ n = s at *
       first
       | rw [if_pos (by omega), if_pos (by omega)]
       | rw [if_pos (by omega), if_neg (by omega)]
       | rw [if_neg (by omega), if_pos (by omega)]
       | rw [if_neg (by omega), if_neg (by omega)]
       first
       | done
       | (congr 1 <;> omega)
       | (congr 1 <;> first | omega | (congr 1 <;> omega)))

theorem four_pow (n : ℕ) : (4 : ℕ) ^ n = 2 ^ n * 2 ^ n := by rw [← mul_pow]; norm_num

/-- Which quadrant a cell is in, and where it lies in the smaller curve. -/
theorem hilbert_cases (n x y : ℕ) (hx : x < 2 ^ (n + 1)) (hy : y < 2 ^ (n + 1)) :
    ∃ q u v : ℕ, u < 2 ^ n ∧ v < 2 ^ n ∧
      Spec.hilbert (n + 1) x y = q * 4 ^ n + Spec.hilbert n u v ∧
      (q = 0 ∧ x = v ∧ y = u ∨ q = 1 ∧ x = u ∧ y = v + 2 ^ n ∨
        q = 2 ∧ x = u + 2 ^ n ∧ y = v + 2 ^ n ∨
        q = 3 ∧ x + v + 1 = 2 * 2 ^ n ∧ y + u + 1 = 2 ^ n) := by
  rw [pow_succ] at hx hy
  rw [four_pow]
  simp only [Spec.hilbert]
  split_ifs with h1 h2 h2
  · exact ⟨0, y, x, h2, h1, by omega, by omega⟩
  · exact ⟨1, x, y - 2 ^ n, h1, by omega, by omega, by omega⟩
  · exact ⟨3, 2 ^ n - 1 - y, 2 * 2 ^ n - 1 - x, by omega, by omega, by omega, by omega⟩
  · exact ⟨2, x - 2 ^ n, y - 2 ^ n, by omega, by omega, by omega, by omega⟩

theorem hilbert_lt (n x y : ℕ) (hx : x < 2 ^ n) (hy : y < 2 ^ n) : Spec.hilbert n x y < 4 ^ n := by
  induction n generalizing x y with
  | zero => simp [Spec.hilbert]
  | succ n ih =>
    obtain ⟨q, u, v, hu, hv, e, c⟩ := hilbert_cases n x y hx hy
    have := ih u v hu hv
    have h4 : (4 : ℕ) ^ (n + 1) = 4 * 4 ^ n := by rw [pow_succ]; ring
    rw [e, h4]
    have : q = 0 ∨ q = 1 ∨ q = 2 ∨ q = 3 := by omega
    rcases this with rfl | rfl | rfl | rfl <;> omega

theorem hilbert_inj (n x y x' y' : ℕ) (hx : x < 2 ^ n) (hy : y < 2 ^ n) (hx' : x' < 2 ^ n)
    (hy' : y' < 2 ^ n) (h : Spec.hilbert n x y = Spec.hilbert n x' y') : x = x' ∧ y = y' := by
  induction n generalizing x y x' y' with
  | zero => simp only [pow_zero] at *; omega
  | succ n ih =>
    obtain ⟨q, u, v, hu, hv, e, c⟩ := hilbert_cases n x y hx hy
    obtain ⟨q', u', v', hu', hv', e', c'⟩ := hilbert_cases n x' y' hx' hy'
    have l := hilbert_lt n u v hu hv
    have l' := hilbert_lt n u' v' hu' hv'
    have hq : q = 0 ∨ q = 1 ∨ q = 2 ∨ q = 3 := by omega
    have hq' : q' = 0 ∨ q' = 1 ∨ q' = 2 ∨ q' = 3 := by omega
    rw [e, e'] at h
    have hqq : q = q' := by
      rcases hq with rfl | rfl | rfl | rfl <;> rcases hq' with rfl | rfl | rfl | rfl <;> omega
    subst hqq
    obtain ⟨rfl, rfl⟩ := ih u v u' v' hu hv hu' hv' (by omega)
    omega

/-- The curve starts in the lower left and ends in the lower right cell. -/
theorem hilbert_ends (n : ℕ) : Spec.hilbert n 0 0 = 0 ∧
    Spec.hilbert n (2 ^ n - 1) 0 = 4 ^ n - 1 := by
  induction n with
  | zero => simp [Spec.hilbert]
  | succ n ih =>
    have hp := Nat.two_pow_pos n
    have h4 : (4 : ℕ) ^ (n + 1) = 4 * 4 ^ n := by rw [pow_succ]; ring
    have h2 : (2 : ℕ) ^ (n + 1) = 2 * 2 ^ n := by rw [pow_succ]; ring
    have hp4 : 0 < 4 ^ n := by positivity
    constructor
    · simp only [Spec.hilbert]
      rw [if_pos hp, if_pos hp]
      exact ih.1
    · simp only [Spec.hilbert]
      rw [if_neg (by omega), if_pos hp, ← four_pow, h4,
        show 2 * 2 ^ n - 1 - (2 ^ (n + 1) - 1) = 0 by omega, show 2 ^ n - 1 - 0 = 2 ^ n - 1 by omega,
        ih.2]
      omega

theorem hilbert_next (n x y x' y' : ℕ) (hx : x < 2 ^ n) (hy : y < 2 ^ n) (hx' : x' < 2 ^ n)
    (hy' : y' < 2 ^ n) (h : Spec.hilbert n x' y' = Spec.hilbert n x y + 1) :
    x' = x ∧ (y' = y + 1 ∨ y = y' + 1) ∨ y' = y ∧ (x' = x + 1 ∨ x = x' + 1) := by
  induction n generalizing x y x' y' with
  | zero => simp [Spec.hilbert] at h
  | succ n ih =>
    obtain ⟨q, u, v, hu, hv, e, c⟩ := hilbert_cases n x y hx hy
    obtain ⟨q', u', v', hu', hv', e', c'⟩ := hilbert_cases n x' y' hx' hy'
    have l := hilbert_lt n u v hu hv
    have l' := hilbert_lt n u' v' hu' hv'
    have hq : q = 0 ∨ q = 1 ∨ q = 2 ∨ q = 3 := by omega
    have hq' : q' = 0 ∨ q' = 1 ∨ q' = 2 ∨ q' = 3 := by omega
    rw [e, e'] at h
    have hp := Nat.two_pow_pos n
    have key : q' = q ∧ Spec.hilbert n u' v' = Spec.hilbert n u v + 1 ∨
        q' = q + 1 ∧ Spec.hilbert n u' v' = 0 ∧ Spec.hilbert n u v = 4 ^ n - 1 := by
      rcases hq with rfl | rfl | rfl | rfl <;> rcases hq' with rfl | rfl | rfl | rfl <;> omega
    rcases key with ⟨rfl, k⟩ | ⟨rfl, k1, k2⟩
    · have := ih u v u' v' hu hv hu' hv' k
      omega
    · obtain ⟨s1, s2⟩ := hilbert_ends n
      obtain ⟨rfl, rfl⟩ := hilbert_inj n u' v' 0 0 hu' hv' hp hp (by omega)
      obtain ⟨rfl, rfl⟩ := hilbert_inj n u v (2 ^ n - 1) 0 hu hv (by omega) hp (by omega)
      omega

theorem hilbert_surj (n k : ℕ) (hk : k < 4 ^ n) :
    ∃ x y, x < 2 ^ n ∧ y < 2 ^ n ∧ Spec.hilbert n x y = k := by
  induction n generalizing k with
  | zero => exact ⟨0, 0, by norm_num, by norm_num, by simp [Spec.hilbert] at *; omega⟩
  | succ n ih =>
    have h4 : (4 : ℕ) ^ (n + 1) = 4 * 4 ^ n := by rw [pow_succ]; ring
    have h2 : (2 : ℕ) ^ (n + 1) = 2 * 2 ^ n := by rw [pow_succ]; ring
    obtain ⟨u, v, hu, hv, e⟩ := ih (k % 4 ^ n) (Nat.mod_lt _ (by positivity))
    have hd := Nat.div_add_mod k (4 ^ n)
    have hq : k / 4 ^ n < 4 := by rw [Nat.div_lt_iff_lt_mul (by positivity)]; omega
    rw [h2]
    generalize k / 4 ^ n = q at *
    generalize k % 4 ^ n = r at *
    have hq' : q = 0 ∨ q = 1 ∨ q = 2 ∨ q = 3 := by omega
    rcases hq' with rfl | rfl | rfl | rfl
    · refine ⟨v, u, by omega, by omega, ?_⟩
      simp only [Spec.hilbert]
      rw [if_pos hv, if_pos hu, e]; omega
    · refine ⟨u, v + 2 ^ n, by omega, by omega, ?_⟩
      simp only [Spec.hilbert]
      rw [if_pos hu, if_neg (by omega), ← four_pow, Nat.add_sub_cancel, e]; omega
    · refine ⟨u + 2 ^ n, v + 2 ^ n, by omega, by omega, ?_⟩
      simp only [Spec.hilbert]
      rw [if_neg (by omega), if_neg (by omega), ← four_pow, Nat.add_sub_cancel,
        Nat.add_sub_cancel, e]; omega
    · refine ⟨2 * 2 ^ n - 1 - v, 2 ^ n - 1 - u, by omega, by omega, ?_⟩
      simp only [Spec.hilbert]
      rw [if_neg (by omega), if_pos (by omega), ← four_pow,
        show 2 ^ n - 1 - (2 ^ n - 1 - u) = u by omega,
        show 2 * 2 ^ n - 1 - (2 * 2 ^ n - 1 - v) = v by omega, e]; omega

/-- A coarser grid gives the leading digits. -/
theorem hilbert_coarse (n k x y : ℕ) (hx : x < 2 ^ (n + k)) (hy : y < 2 ^ (n + k)) :
    Spec.hilbert (n + k) x y / 4 ^ k = Spec.hilbert n (x / 2 ^ k) (y / 2 ^ k) := by
  induction n generalizing x y with
  | zero =>
    rw [zero_add] at *
    rw [Nat.div_eq_of_lt (hilbert_lt k x y hx hy)]
    rfl
  | succ n ih =>
    have e : n + 1 + k = n + k + 1 := by omega
    have pk := Nat.two_pow_pos k
    have hpow : (2 : ℕ) ^ (n + k) = 2 ^ n * 2 ^ k := pow_add _ _ _
    have h4pow : (2 : ℕ) ^ (n + k) * 2 ^ (n + k) = (2 ^ n * 2 ^ n) * 4 ^ k := by
      rw [four_pow, hpow]; ring
    have sub (a z : ℕ) (hz : z < a * 2 ^ k) :
        (a * 2 ^ k - 1 - z) / 2 ^ k = a - 1 - z / 2 ^ k := by
      rw [Nat.sub_sub, add_comm 1 z, Nat.mul_comm, Nat.mul_sub_div _ _ _ (by rwa [Nat.mul_comm]),
        Nat.sub_sub, add_comm]
    have p4 : 0 < 4 ^ k := by positivity
    rw [e] at hx hy
    rw [e]
    have iff (z : ℕ) : z < 2 ^ (n + k) ↔ z / 2 ^ k < 2 ^ n := by
      rw [hpow, Nat.div_lt_iff_lt_mul pk]
    have div_sub (z : ℕ) : (z - 2 ^ (n + k)) / 2 ^ k = z / 2 ^ k - 2 ^ n := by
      rw [hpow, mul_comm (2 ^ n), Nat.sub_mul_div]
    rw [pow_succ] at hx hy
    have add (q z : ℕ) : (q * (2 ^ n * 2 ^ n * 4 ^ k) + z) / 4 ^ k = q * (2 ^ n * 2 ^ n) + z / 4 ^ k := by
      rw [← mul_assoc, add_comm, Nat.add_mul_div_right _ _ p4, add_comm]
    have add1 (z : ℕ) : (2 ^ n * 2 ^ n * 4 ^ k + z) / 4 ^ k = (2 ^ n * 2 ^ n) + z / 4 ^ k := by
      rw [add_comm, Nat.add_mul_div_right _ _ p4, add_comm]
    simp only [Spec.hilbert]
    by_cases h1 : x < 2 ^ (n + k) <;> by_cases h2 : y < 2 ^ (n + k)
    · rw [if_pos h1, if_pos h2, if_pos ((iff _).1 h1), if_pos ((iff _).1 h2), ih _ _ h2 h1]
    · rw [if_pos h1, if_neg h2, if_pos ((iff _).1 h1), if_neg (mt (iff _).2 h2), h4pow, add1,
        ih _ _ h1 (by omega), div_sub]
    · rw [if_neg h1, if_pos h2, if_neg (mt (iff _).2 h1), if_pos ((iff _).1 h2), h4pow, add,
        ih _ _ (by omega) (by omega)]
      congr 2
      · rw [hpow]; exact sub _ _ (by rw [← hpow]; omega)
      · have := sub (2 * 2 ^ n) x (by rw [mul_assoc, ← hpow]; omega)
        rw [mul_assoc, ← hpow] at this
        exact this
    · rw [if_neg h1, if_neg h2, if_neg (mt (iff _).2 h1), if_neg (mt (iff _).2 h2), h4pow, add,
        ih _ _ (by omega) (by omega), div_sub, div_sub]

theorem code_hilbert {x y : UInt32} (hx : x.toNat < 2 ^ 16) (hy : y.toNat < 2 ^ 16) :
    (hilbertXYToIndex x y).toNat = Spec.hilbert 16 x.toNat y.toNat := by
  have h := code_rest hx hy 16 le_rfl
  rw [Nat.mod_eq_of_lt (show (hilbertXYToIndex x y).toNat < 4 ^ 16 from
    (hilbertXYToIndex x y).toNat_lt), hsteps_high _ _ _ _ le_rfl, rest_hilbert,
    Nat.mod_eq_of_lt hx, Nat.mod_eq_of_lt hy] at h
  exact h

end Cavc

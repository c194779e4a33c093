import Verif.Model.SpatialIndex
import Mathlib.Algebra.Order.Archimedean.Real.Basic

/-! The Hilbert values computed by `finish` (include/cavc/staticspatialindex.hpp). `Real` is ℝ. -/
namespace Cavc

/-- `hilbertXYToIndex` (staticspatialindex.hpp:281-334), line by line on `std::uint32_t`. -/
def hilbertXYToIndex (x y : UInt32) : UInt32 :=
  let a := x ^^^ y
  let b := 0xFFFF ^^^ a
  let c := 0xFFFF ^^^ (x ||| y)
  let d := x &&& (y ^^^ 0xFFFF)
  let A := a ||| (b >>> 1)
  let B := (a >>> 1) ^^^ a
  let C := ((c >>> 1) ^^^ (b &&& (d >>> 1))) ^^^ c
  let D := ((a &&& (c >>> 1)) ^^^ (d >>> 1)) ^^^ d
  let a := A
  let b := B
  let c := C
  let d := D
  let A := (a &&& (a >>> 2)) ^^^ (b &&& (b >>> 2))
  let B := (a &&& (b >>> 2)) ^^^ (b &&& ((a ^^^ b) >>> 2))
  let C := C ^^^ ((a &&& (c >>> 2)) ^^^ (b &&& (d >>> 2)))
  let D := D ^^^ ((b &&& (c >>> 2)) ^^^ ((a ^^^ b) &&& (d >>> 2)))
  let a := A
  let b := B
  let c := C
  let d := D
  let A := (a &&& (a >>> 4)) ^^^ (b &&& (b >>> 4))
  let B := (a &&& (b >>> 4)) ^^^ (b &&& ((a ^^^ b) >>> 4))
  let C := C ^^^ ((a &&& (c >>> 4)) ^^^ (b &&& (d >>> 4)))
  let D := D ^^^ ((b &&& (c >>> 4)) ^^^ ((a ^^^ b) &&& (d >>> 4)))
  let a := A
  let b := B
  let c := C
  let d := D
  let C := C ^^^ ((a &&& (c >>> 8)) ^^^ (b &&& (d >>> 8)))
  let D := D ^^^ ((b &&& (c >>> 8)) ^^^ ((a ^^^ b) &&& (d >>> 8)))
  let a := C ^^^ (C >>> 1)
  let b := D ^^^ (D >>> 1)
  let i0 := x ^^^ y
  let i1 := b ||| (0xFFFF ^^^ (i0 ||| a))
  let i0 := (i0 ||| (i0 <<< 8)) &&& 0x00FF00FF
  let i0 := (i0 ||| (i0 <<< 4)) &&& 0x0F0F0F0F
  let i0 := (i0 ||| (i0 <<< 2)) &&& 0x33333333
  let i0 := (i0 ||| (i0 <<< 1)) &&& 0x55555555
  let i1 := (i1 ||| (i1 <<< 8)) &&& 0x00FF00FF
  let i1 := (i1 ||| (i1 <<< 4)) &&& 0x0F0F0F0F
  let i1 := (i1 ||| (i1 <<< 2)) &&& 0x33333333
  let i1 := (i1 ||| (i1 <<< 1)) &&& 0x55555555
  (i1 <<< 1) ||| i0

/-- `static_cast<std::uint32_t>(std::floor(hilbertMax * ((lo + hi) / 2 - mn) / size))`
(staticspatialindex.hpp:101-104). A zero `size` makes the operand NaN or infinite, and an operand
outside `(-1, 2^32)` cannot be represented: both are undefined behaviour, `badCast`. -/
noncomputable def hilbertCoord (mn size lo hi : ℝ) : M ℕ :=
  if size = 0 then .error .badCast
  else
    let x : ℤ := ⌊65535 * ((lo + hi) / 2 - mn) / size⌋
    if 0 ≤ x ∧ x < 2 ^ 32 then .ok x.toNat else .error .badCast

/-- The Hilbert value of a box (staticspatialindex.hpp:83-106): width and height of the total
extents, the two coordinates, and their position on the curve. -/
noncomputable def hilbertValue (ext b : Box ℝ) : M ℕ := do
  let width := ext.maxX - ext.minX
  let height := ext.maxY - ext.minY
  let hx ← hilbertCoord ext.minX width b.minX b.maxX
  let hy ← hilbertCoord ext.minY height b.minY b.maxY
  return (hilbertXYToIndex (UInt32.ofNat hx) (UInt32.ofNat hy)).toNat

end Cavc

import Verif.Model.SpatialIndex
import Mathlib.Data.Real.Basic

/-! The Hilbert curve on the grid of `2^n` by `2^n` cells, independently of the code. -/
namespace Cavc.Spec

/-- The position of the cell `(x, y)` along the Hilbert curve of order `n`, which starts in the cell
`(0, 0)` and ends in the cell `(2^n - 1, 0)`: the curve passes through the four quadrants lower
left, upper left, upper right, lower right, and runs through each of them along a curve of order
`n - 1`, mirrored in the diagonal in the first and in the antidiagonal in the last quadrant. -/
def hilbert : ℕ → ℕ → ℕ → ℕ
  | 0, _, _ => 0
  | n + 1, x, y =>
    let s := 2 ^ n
    if x < s then
      if y < s then hilbert n y x else s * s + hilbert n x (y - s)
    else
      if y < s then 3 * (s * s) + hilbert n (s - 1 - y) (2 * s - 1 - x)
      else 2 * (s * s) + hilbert n (x - s) (y - s)

/-- The extents of a list of boxes are divided into columns numbered 0 to 65534 of the same width,
and rows of the same height (the right and upper border count as column and row 65535). The centre
of the box `b` lies in column `x` and row `y`. -/
def CentreCell (ext b : Box ℝ) (x y : ℕ) : Prop :=
  (x * (ext.maxX - ext.minX) ≤ 65535 * ((b.minX + b.maxX) / 2 - ext.minX) ∧
    65535 * ((b.minX + b.maxX) / 2 - ext.minX) < (x + 1) * (ext.maxX - ext.minX)) ∧
  (y * (ext.maxY - ext.minY) ≤ 65535 * ((b.minY + b.maxY) / 2 - ext.minY) ∧
    65535 * ((b.minY + b.maxY) / 2 - ext.minY) < (y + 1) * (ext.maxY - ext.minY))

/-- `ext` is the smallest box that contains all of `items`. -/
def Extents (items : List (Box ℝ)) (ext : Box ℝ) : Prop :=
  ((∃ b ∈ items, b.minX = ext.minX) ∧ ∀ b ∈ items, ext.minX ≤ b.minX) ∧
  ((∃ b ∈ items, b.minY = ext.minY) ∧ ∀ b ∈ items, ext.minY ≤ b.minY) ∧
  ((∃ b ∈ items, b.maxX = ext.maxX) ∧ ∀ b ∈ items, b.maxX ≤ ext.maxX) ∧
  ((∃ b ∈ items, b.maxY = ext.maxY) ∧ ∀ b ∈ items, b.maxY ≤ ext.maxY)

end Cavc.Spec

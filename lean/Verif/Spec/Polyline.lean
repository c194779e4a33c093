import Verif.Model.Polyline
import Verif.Spec.Geom

/-!
What a polyline is, independently of the code: a list of vertexes; the segments go from each vertex
to the next one and, if it is closed, from the last one to the first.
-/
namespace Cavc.Spec
noncomputable section

/-- The segments, in order: number `i` starts at vertex `i`. -/
def segs (p : Polyline) : List (Vertex × Vertex) :=
  if p.vertexes.length < 2 then []
  else p.vertexes.zip (if p.isClosed then p.vertexes.rotate 1 else p.vertexes.tail)

/-- Segment number `i` goes from `v1` to `v2`. -/
def IsSeg (p : Polyline) (i : ℕ) (v1 v2 : Vertex) : Prop := (segs p)[i]? = some (v1, v2)

/-- All segments are ones the library is meant for. -/
def PlineOk (p : Polyline) : Prop := ∀ i v1 v2, IsSeg p i v1 v2 → SegOk v1 v2

/-- `x` is on the polyline. -/
def OnPline (p : Polyline) (x : V2) : Prop := ∃ i v1 v2, IsSeg p i v1 v2 ∧ OnSeg v1 v2 x

/-- `γ` gives a path for every segment. -/
def IsPathOf (p : Polyline) (γ : ℕ → ℝ → V2) : Prop :=
  ∀ i v1 v2, IsSeg p i v1 v2 → IsPath v1 v2 (γ i)

/-- Both coordinates differ by less than `ε`. -/
def Near (ε : ℝ) (a b : V2) : Prop := |a.x - b.x| < ε ∧ |a.y - b.y| < ε

/-- `v` stands for the run `g` of vertexes that are all near the first of them: the position of the
first and the bulge of the last. -/
def Merged (ε : ℝ) (g : List Vertex) (v : Vertex) : Prop :=
  ∃ h t, g.head? = some h ∧ g.getLast? = some t ∧ (∀ w ∈ g.tail, Near ε h.pos w.pos) ∧
    v = ⟨h.pos, t.bulge⟩

/-- `piece` replaces the arc from `v1` to `v2` by straight segments: its vertexes divide the arc into
`n` equal parts, and every point of a part is within `error` of the chord of that part. -/
def Approximates (error : ℝ) (v1 v2 : Vertex) (piece : List Vertex) : Prop :=
  ∃ (n : ℕ) (x : ℕ → V2), 1 ≤ n ∧ piece = (List.range n).map (fun k => ⟨x k, 0⟩) ∧
    (∀ k, k ≤ n → AtParam v1 v2 (k / n) (x k)) ∧
    ∀ k < n, ∀ t y, (k : ℝ) / n ≤ t → t ≤ (k + 1) / n → AtParam v1 v2 t y →
      ∃ s, 0 ≤ s ∧ s ≤ 1 ∧ distance y (lerp (x k) (x (k + 1)) s) ≤ error

end
end Cavc.Spec

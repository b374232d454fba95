import Verif.Model.Plot

/-!
# Specification: what is on a picture
-/

namespace PiCF.Spec
open PiCF.Process PiCF.Hashtable

/-- What is drawn in one coordinate system: the points, and the vertices of the line. -/
structure Drawing where
  points : List (ℝ × ℝ) := []
  line : List (ℝ × ℝ) := []

/-- The effect of a call on the coordinate systems; the first argument is the current one. -/
def draw : ℕ × (ℕ → Drawing) → PltCall → ℕ × (ℕ → Drawing)
  | (_, d), .panel n => (n, d)
  | (k, d), .dots xs ys => (k, Function.update d k { d k with points := (d k).points ++ xs.zip ys })
  | (k, d), .line xs ys _ => (k, Function.update d k { d k with line := (d k).line ++ xs.zip ys })
  | s, _ => s

/-- The picture drawn by some calls on an empty one. -/
def picture (calls : List PltCall) : ℕ → Drawing := (calls.foldl draw (0, fun _ => {})).2

def isSave (path : Str) : PltCall → Bool
  | .saved p => p = path
  | _ => false

/-- The picture that is in the file `path` after the first time it is saved. -/
def savedPicture (path : Str) (calls : List PltCall) : Option (ℕ → Drawing) :=
  (calls.findIdx? (isSave path)).map fun i => picture (calls.take i)

/-- The point is on the line with this slope and intercept. -/
def OnLine (f : Fit) (p : ℝ × ℝ) : Prop := p.2 = f.slope * p.1 + f.intercept

end PiCF.Spec

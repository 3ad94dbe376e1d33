import Verif.Spec.Reified

/-!
# What Disjunctive2D means
-/

namespace Gcs

/-- A rectangle: the corner with the smallest coordinates, and the size. -/
structure Box where
  x : Int
  y : Int
  w : Int
  h : Int

/-- One is left of the other, or below it. -/
def Box.Clear (r s : Box) : Prop := r.x + r.w ≤ s.x ∨ s.x + s.w ≤ r.x ∨ r.y + r.h ≤ s.y ∨ s.y + s.h ≤ r.y

/-- It has no area. -/
def Box.Flat (r : Box) : Prop := r.w = 0 ∨ r.h = 0

/-- No two rectangles overlap. Unless `strict`, those with no area do not count (gcs/constraints/disjunctive_2d/disjunctive_2d.hh). -/
def Packed (strict : Bool) (rs : List Box) : Prop := rs.Pairwise fun r s => (strict = false ∧ (r.Flat ∨ s.Flat)) ∨ r.Clear s

end Gcs

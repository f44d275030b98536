import Verif.Leaf.Mapper

/-!
# Layouts of the transformed finite elements

The functions that assign each sub-entity its number of DOFs for the Hermite, Morley and Argyris bases.
-/

namespace Verif.FE

open Verif.Mapper

/-- `cubicHermiteMapperLayout`, cubichermitebasis.hh:733-745. -/
def hermiteLayout (dim : Nat) (reduced : Bool) : Layout := fun t =>
  if t.dim = 0 then 1 + dim else if dim = 1 then 0 else if t = ⟨2, 3⟩ ∧ reduced = false then 1 else 0

/-- `morleyMapperLayout`, morleybasis.hh:609-620. -/
def morleyLayout : Layout := fun t =>
  if t.dim = 0 then 1 else if t.dim = 1 then 1 else if t = ⟨2, 3⟩ then 0 else 0

/-- `ArgyrisMapperLayout`, argyrisbasis.hh:863-876. Geometry types for which the function throws get zero; the bases are for
simplex grids only. -/
def argyrisLayout : Layout := fun t =>
  if t.dim = 0 then 6 else if t.dim = 1 then 1 else 0

end Verif.FE

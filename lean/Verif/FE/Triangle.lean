import Verif.FE.Hermite
import Mathlib.Analysis.SpecialFunctions.Sqrt
import Mathlib.Tactic.LinearCombination
import Mathlib.Tactic.FieldSimp
import Mathlib.Tactic.Positivity

/-!
# Triangles with edge normals

The part of the geometry of an affine triangle which is used by the Morley and Argyris elements, over the real numbers.
Square roots are exact.
-/

namespace Verif.FE.Triangle

open Verif.FE

/-- Vectors of length 2. -/
abbrev Vec := Fin 2 → ℝ

/-- An affine geometry: `global(x) = origin + J x`. -/
structure Affine where
  origin : Vec
  J : Matrix (Fin 2) (Fin 2) ℝ

/-- `geometry.global(x)`. -/
def Affine.global (g : Affine) (x : Vec) : Vec := fun i => g.origin i + ∑ j, g.J i j * x j

/-- The triangle is not degenerate. -/
def Affine.Regular (g : Affine) : Prop := g.J 0 0 * g.J 1 1 - g.J 0 1 * g.J 1 0 ≠ 0

/-- `two_norm()` of a `FieldVector` of length two. -/
noncomputable def twoNorm (v : Vec) : ℝ := Real.sqrt (v 0 * v 0 + v 1 * v 1)

/-- morleybasis.hh:300, 463; argyrisbasis.hh:481, 643. -/
def lower (i : Nat) : Nat := if i = 2 then 1 else 0

/-- morleybasis.hh:301, 464; argyrisbasis.hh:482, 644. -/
def upper (i : Nat) : Nat := if i = 0 then 1 else 2

/-- `refElement.position(i, 2)`. -/
noncomputable def corner (i : Nat) : Vec := Hermite.vertexK ℝ 2 i

/-- `refElement.position(i, 1)`: the midpoint of edge `i`. -/
def midpoint (i : Nat) : Fin 2 → ℚ :=
  if i = 0 then ![1/2, 0] else if i = 1 then ![0, 1/2] else ![1/2, 1/2]

/-- A midpoint with real coordinates. -/
noncomputable def midpointR (i : Nat) : Vec := fun d => castQ ℝ (midpoint i d)

/-- The edge vectors of the reference triangle (morleybasis.hh:465, argyrisbasis.hh:645). -/
noncomputable def refEdge (i : Nat) : Vec := fun d => corner (upper i) d - corner (lower i) d

/-- `referenceTangents[i]` (morleybasis.hh:467, argyrisbasis.hh:648). -/
noncomputable def refTangent (i : Nat) : Vec := fun d => refEdge i d / twoNorm (refEdge i)

/-- `globalEdge` (morleybasis.hh:469-470, argyrisbasis.hh:650-651). -/
noncomputable def globalEdge (g : Affine) (i : Nat) : Vec := fun d => g.global (corner (upper i)) d - g.global (corner (lower i)) d

/-- Rotation by a right angle, `{-edge[1], edge[0]}` (morleybasis.hh:308, argyrisbasis.hh:489). -/
def rot (v : Vec) : Vec := ![-v 1, v 0]

/-! ## Facts -/

theorem refEdge_eq (i : Fin 3) : refEdge i = if i = 0 then ![1, 0] else if i = 1 then ![0, 1] else ![-1, 1] := by
  fin_cases i <;> funext d <;> fin_cases d <;>
    simp [refEdge, corner, Hermite.vertexK, Hermite.vertex, upper, lower, castQ]

theorem globalEdge_eq (g : Affine) (i : Nat) (d : Fin 2) : globalEdge g i d = g.J d 0 * refEdge i 0 + g.J d 1 * refEdge i 1 := by
  simp [globalEdge, Affine.global, refEdge, Fin.sum_univ_two]
  ring

theorem twoNorm_sq (v : Vec) : twoNorm v * twoNorm v = v 0 * v 0 + v 1 * v 1 :=
  Real.mul_self_sqrt (add_nonneg (mul_self_nonneg _) (mul_self_nonneg _))

theorem twoNorm_ne {v : Vec} (h : v 0 ≠ 0 ∨ v 1 ≠ 0) : twoNorm v ≠ 0 := by
  intro hc
  have h2 := twoNorm_sq v
  rw [hc] at h2
  have h0 := mul_self_nonneg (v 0)
  have h1 := mul_self_nonneg (v 1)
  rcases h with h | h
  · exact h (mul_self_eq_zero.1 (by linarith))
  · exact h (mul_self_eq_zero.1 (by linarith))

theorem refNorm_ne (i : Fin 3) : twoNorm (refEdge i) ≠ 0 := by
  apply twoNorm_ne
  rw [refEdge_eq]
  fin_cases i <;> simp

theorem globalNorm_ne {g : Affine} (hg : g.Regular) (i : Fin 3) : twoNorm (globalEdge g i) ≠ 0 := by
  apply twoNorm_ne
  rw [globalEdge_eq, globalEdge_eq, refEdge_eq]
  unfold Affine.Regular at hg
  by_contra hc
  push Not at hc
  obtain ⟨h0, h1⟩ := hc
  apply hg
  fin_cases i
  · simp at h0 h1
    rw [h0, h1]; ring
  · simp at h0 h1
    rw [h0, h1]; ring
  · simp at h0 h1
    rw [show g.J 0 1 = g.J 0 0 by linarith, show g.J 1 1 = g.J 1 0 by linarith]
    ring

/-- Unit tangent of a global edge. -/
noncomputable def tangent (g : Affine) (i : Nat) : Vec := fun d => globalEdge g i d / twoNorm (globalEdge g i)

theorem tangent_unit {g : Affine} (hg : g.Regular) (i : Fin 3) :
    tangent g i 0 * tangent g i 0 + tangent g i 1 * tangent g i 1 = 1 := by
  have h := globalNorm_ne hg i
  have h2 := twoNorm_sq (globalEdge g i)
  simp only [tangent]
  field_simp
  linear_combination -h2

theorem refTangent_unit (i : Fin 3) : refTangent i 0 * refTangent i 0 + refTangent i 1 * refTangent i 1 = 1 := by
  have h := refNorm_ne i
  have h2 := twoNorm_sq (refEdge i)
  simp only [refTangent]
  field_simp
  linear_combination -h2

/-- The Jacobian maps the tangent of a reference edge to a multiple of the tangent of the edge. -/
theorem J_tangent {g : Affine} (hg : g.Regular) (i : Fin 3) (d : Fin 2) :
    g.J d 0 * refTangent i 0 + g.J d 1 * refTangent i 1
      = twoNorm (globalEdge g i) / twoNorm (refEdge i) * tangent g i d := by
  have h := globalNorm_ne hg i
  have h' := refNorm_ne i
  simp only [tangent, refTangent, globalEdge_eq]
  field_simp

/-- Normal component of the image of the reference normal (`B_11`, `b[0][0]`). -/
noncomputable def bnn (g : Affine) (i : Nat) : ℝ :=
  rot (tangent g i) 0 * (g.J 0 0 * rot (refTangent i) 0 + g.J 0 1 * rot (refTangent i) 1)
    + rot (tangent g i) 1 * (g.J 1 0 * rot (refTangent i) 0 + g.J 1 1 * rot (refTangent i) 1)

/-- Tangential component of the image of the reference normal (`B_12`, `b[1][0]`). -/
noncomputable def btn (g : Affine) (i : Nat) : ℝ :=
  tangent g i 0 * (g.J 0 0 * rot (refTangent i) 0 + g.J 0 1 * rot (refTangent i) 1)
    + tangent g i 1 * (g.J 1 0 * rot (refTangent i) 0 + g.J 1 1 * rot (refTangent i) 1)

theorem bnn_ne {g : Affine} (hg : g.Regular) (i : Fin 3) : bnn g i ≠ 0 := by
  intro hc
  apply hg
  have hn := globalNorm_ne hg i
  have hn' := refNorm_ne i
  have ht := tangent_unit hg i
  have hr := refTangent_unit i
  have j0 := J_tangent hg i 0
  have j1 := J_tangent hg i 1
  simp only [bnn, rot, Matrix.cons_val_zero, Matrix.cons_val_one] at hc
  generalize twoNorm (globalEdge g i) / twoNorm (refEdge i) = β at j0 j1
  generalize tangent g i = t at *
  generalize refTangent i = r at *
  -- det J = β · bnn
  have : g.J 0 0 * g.J 1 1 - g.J 0 1 * g.J 1 0
      = (g.J 0 0 * g.J 1 1 - g.J 0 1 * g.J 1 0) * (r 0 * r 0 + r 1 * r 1) := by rw [hr, mul_one]
  rw [this]
  have e : (g.J 0 0 * g.J 1 1 - g.J 0 1 * g.J 1 0) * (r 0 * r 0 + r 1 * r 1)
      = (g.J 0 0 * r 0 + g.J 0 1 * r 1) * (g.J 1 0 * (-r 1) + g.J 1 1 * r 0)
        - (g.J 1 0 * r 0 + g.J 1 1 * r 1) * (g.J 0 0 * (-r 1) + g.J 0 1 * r 0) := by ring
  rw [e, j0, j1]
  linear_combination β * hc

/-- The normal derivative on an edge from the derivatives in reference coordinates: `df` is the global derivative, its
product with the Jacobian has normal component `α` and tangential component `γ`. -/
theorem normal_derivative {g : Affine} (hg : g.Regular) (i : Fin 3) (df : Vec) (α γ : ℝ)
    (h : ∀ j, df 0 * g.J 0 j + df 1 * g.J 1 j = α * rot (refTangent i) j + γ * refTangent i j) :
    rot (tangent g i) 0 * df 0 + rot (tangent g i) 1 * df 1
      = (α - btn g i * (twoNorm (refEdge i) / twoNorm (globalEdge g i)) * γ) / bnn g i := by
  have hb := bnn_ne hg i
  have hn := globalNorm_ne hg i
  have hn' := refNorm_ne i
  have ht := tangent_unit hg i
  have hr := refTangent_unit i
  have j0 := J_tangent hg i 0
  have j1 := J_tangent hg i 1
  rw [eq_div_iff hb]
  have h0 := h 0
  have h1 := h 1
  have hβ : twoNorm (refEdge i) / twoNorm (globalEdge g i) * (twoNorm (globalEdge g i) / twoNorm (refEdge i)) = 1 := by
    field_simp
  simp only [bnn, btn, rot, Matrix.cons_val_zero, Matrix.cons_val_one] at *
  generalize twoNorm (globalEdge g i) / twoNorm (refEdge i) = β at *
  generalize twoNorm (refEdge i) / twoNorm (globalEdge g i) = β' at *
  generalize tangent g i = t at *
  generalize refTangent i = r at *
  -- α = n̂ · Jᵀ df, γ = t̂ · Jᵀ df
  have hα : α = (df 0 * g.J 0 0 + df 1 * g.J 1 0) * (-r 1) + (df 0 * g.J 0 1 + df 1 * g.J 1 1) * r 0 := by
    rw [h0, h1]; linear_combination (-α) * hr
  have hγ : γ = (df 0 * g.J 0 0 + df 1 * g.J 1 0) * r 0 + (df 0 * g.J 0 1 + df 1 * g.J 1 1) * r 1 := by
    rw [h0, h1]; linear_combination (-γ) * hr
  have hγ' : β' * γ = t 0 * df 0 + t 1 * df 1 := by
    rw [hγ]
    linear_combination β' * df 0 * j0 + β' * df 1 * j1 + (t 0 * df 0 + t 1 * df 1) * hβ
  rw [hα, mul_assoc, hγ']
  linear_combination
    (df 0 * (g.J 0 0 * (-r 1) + g.J 0 1 * r 0) + df 1 * (g.J 1 0 * (-r 1) + g.J 1 1 * r 0)) * ht

end Verif.FE.Triangle

import Verif.FE.Morley

/-!
# The Argyris element

Model of `dune/functions/functionspacebases/argyrisbasis.hh`: coefficient matrix, binding, transformation of the shape
functions and interpolation.

Real numbers; the constant `sqrt2` of the coefficient matrix is a parameter.
-/

namespace Verif.FE.Argyris

open Verif.FE Verif.FE.Triangle
open MvPolynomial (pderiv eval)
open Verif.FE.Morley (normals dirL dirL_apply normalL normalL_apply normals_eq sgn)

/-! ## Model -/

/-- argyrisbasis.hh:144-309. Decimal numbers are the rational numbers they denote. -/
def rows : List Row :=
  [.rational [1, 0, 0, 0, 0, 0, -10, 0, 0, -10, 15, 0, -30, 0, 15, -6, 0, 30, 30, 0, -6],
   .rational [0, 1, 0, 0, 0, 0, -6, 0, -11, 0, 8, 0, 10, 18, 0, -3, 0, 1, -10, -8, 0],
   .rational [0, 0, 1, 0, 0, 0, 0, -11, 0, -6, 0, 18, 10, 0, 8, 0, -8, -10, 1, 0, -3],
   .rational [0, 0, 0, 1/2, 0, 0, -3/2, 0, 0, 0, 3/2, 0, -3/2, 0, 0, -1/2, 0, 3/2, 1, 0, 0],
   .rational [0, 0, 0, 0, 1, 0, 0, -4, -4, 0, 0, 5, 10, 5, 0, 0, -2, -6, -6, -2, 0],
   .rational [0, 0, 0, 0, 0, 1/2, 0, 0, 0, -3/2, 0, 0, -3/2, 0, 3/2, 0, 0, 1, 3/2, 0, -1/2],
   .rational [0, 0, 0, 0, 0, 0, 10, 0, 0, 0, -15, 0, 15, 0, 0, 6, 0, -15, -15, 0, 0],
   .rational [0, 0, 0, 0, 0, 0, -4, 0, 0, 0, 7, 0, -7/2, 0, 0, -3, 0, 7/2, 7/2, 0, 0],
   .rational [0, 0, 0, 0, 0, 0, 0, -5, 0, 0, 0, 14, 37/2, 0, 0, 0, -8, -37/2, -27/2, 0, 0],
   .rational [0, 0, 0, 0, 0, 0, 1/2, 0, 0, 0, -1, 0, 1/4, 0, 0, 1/2, 0, -1/4, -1/4, 0, 0],
   .rational [0, 0, 0, 0, 0, 0, 0, 1, 0, 0, 0, -3, -7/2, 0, 0, 0, 2, 7/2, 5/2, 0, 0],
   .rational [0, 0, 0, 0, 0, 0, 0, 0, 0, 0, 0, 0, 5/4, 0, 0, 0, 0, -3/4, -5/4, 0, 0],
   .rational [0, 0, 0, 0, 0, 0, 0, 0, 0, 10, 0, 0, 15, 0, -15, 0, 0, -15, -15, 0, 6],
   .rational [0, 0, 0, 0, 0, 0, 0, 0, -5, 0, 0, 0, 37/2, 14, 0, 0, 0, -27/2, -37/2, -8, 0],
   .rational [0, 0, 0, 0, 0, 0, 0, 0, 0, -4, 0, 0, -7/2, 0, 7, 0, 0, 7/2, 7/2, 0, -3],
   .rational [0, 0, 0, 0, 0, 0, 0, 0, 0, 0, 0, 0, 5/4, 0, 0, 0, 0, -5/4, -3/4, 0, 0],
   .rational [0, 0, 0, 0, 0, 0, 0, 0, 1, 0, 0, 0, -7/2, -3, 0, 0, 0, 5/2, 7/2, 2, 0],
   .rational [0, 0, 0, 0, 0, 0, 0, 0, 0, 1/2, 0, 0, 1/4, 0, -1, 0, 0, -1/4, -1/4, 0, 1/2],
   .rational [0, 0, 0, 0, 0, 0, 0, 16, 0, 0, 0, -32, -32, 0, 0, 0, 16, 32, 16, 0, 0],
   .rational [0, 0, 0, 0, 0, 0, 0, 0, -16, 0, 0, 0, 32, 32, 0, 0, 0, -16, -32, -16, 0],
   .scaled [0, 0, 0, 0, 0, 0, 0, 0, 0, 0, 0, 0, -1, 0, 0, 0, 0, 1, 1, 0, 0]]

/-- `ArgyrisReferenceLocalBasis` (argyrisbasis.hh:139-314); `sqrt2` is the constant of line 143. -/
noncomputable def refBasis (sqrt2 : ℝ) : RefBasis ℝ := rowsBasis sqrt2 5 rows

/-- The state of an `ArgyrisLocalFiniteElement` after `bind` (argyrisbasis.hh:751-764) and the normals of the
interpolation. The pointer `averageVertexMeshSize_` of the interpolation refers to the array of the same object. -/
structure Bound where
  J : Nat → Fin 2 → Fin 2 → ℝ
  theta : Nat → Fin 3 → Fin 3 → ℝ
  l : Nat → ℝ
  t : Nat → Vec
  tau : Nat → Fin 3 → ℝ
  b : Nat → Fin 2 → Fin 2 → ℝ
  h : Nat → ℝ
  o : Nat → Bool
  normals : Nat → Vec

/-- Product of two matrices. -/
def mul (A B : Fin 2 → Fin 2 → ℝ) : Fin 2 → Fin 2 → ℝ := fun i j => A i 0 * B 0 j + A i 1 * B 1 j

/-- argyrisbasis.hh:631-688: the geometric quantities. `h` are the mesh sizes of the vertices, `o` the orientations of the
edges. The Jacobian of an affine geometry does not depend on the position. -/
noncomputable def bindGeometry (g : Affine) (h : Nat → ℝ) (o : Nat → Bool) : Bound :=
  let l := fun i => twoNorm (globalEdge g i)
  let t : Nat → Vec := fun i d => globalEdge g i d / l i
  let J : Nat → Fin 2 → Fin 2 → ℝ := fun _ => g.J
  { J := J
    l := l
    t := t
    tau := fun i => ![t i 0 * t i 0, 2 * t i 0 * t i 1, t i 1 * t i 1]
    b := fun i =>
      let referenceG : Fin 2 → Fin 2 → ℝ := ![![-refTangent i 1, refTangent i 0], ![refTangent i 0, refTangent i 1]]
      let globalG : Fin 2 → Fin 2 → ℝ := ![![-t i 1, t i 0], ![t i 0, t i 1]]
      mul (mul globalG g.J) referenceG
    theta := fun i => ![
      ![J i 0 0 * J i 0 0, J i 0 0 * J i 0 1, J i 0 1 * J i 0 1],
      ![2 * J i 0 0 * J i 1 0, J i 0 0 * J i 1 1 + J i 0 1 * J i 1 0, 2 * J i 0 1 * J i 1 1],
      ![J i 1 0 * J i 1 0, J i 1 0 * J i 1 1, J i 1 1 * J i 1 1]]
    h := h
    o := o
    normals := normals g o }

/-- argyrisbasis.hh:615-689 `bind`. `meshSizes` is `globalAverageVertexMeshSize`, `sub i` the index of vertex `i`,
`orientations` are the orientations of all elements and `index` is the index of the element. Accesses out of range are
`none`. -/
noncomputable def bind (meshSizes : List ℝ) (sub : Nat → Nat) (orientations : List (Nat → Bool)) (index : Nat) (g : Affine) :
    Option Bound := do
  let h0 ← meshSizes[sub 0]?
  let h1 ← meshSizes[sub 1]?
  let h2 ← meshSizes[sub 2]?
  let o ← orientations[index]?
  pure (bindGeometry g (fun i => if i = 0 then h0 else if i = 1 then h1 else h2) o)

section Transform

variable {V : Type} [AddCommGroup V] [Module ℝ V]

/-- argyrisbasis.hh:719-739: the value assigned to `outValues[m]`. The scalar factors of each product are collected. -/
noncomputable def outF (fe : Bound) (x : Nat → V) : Nat → V
  | 0 => (-15/8 * fe.b 0 1 0 / fe.l 0) • x 18 - (15/8 * fe.b 1 1 0 / fe.l 1) • x 19 + x 0
  | 1 => (fe.h 0)⁻¹ • ((fe.J 0 0 0) • x 1 + (fe.J 0 0 1) • x 2 - (0.4375 * fe.b 0 1 0 * fe.t 0 0) • x 18 - (0.4375 * fe.b 1 1 0 * fe.t 1 0) • x 19)
  | 2 => (fe.h 0)⁻¹ • ((fe.J 0 1 0) • x 1 + (fe.J 0 1 1) • x 2 - (0.4375 * fe.b 0 1 0 * fe.t 0 1) • x 18 - (0.4375 * fe.b 1 1 0 * fe.t 1 1) • x 19)
  | 3 => (fe.h 0)⁻¹ • ((fe.h 0)⁻¹ • ((-1/32 * fe.b 0 1 0 * fe.l 0 * fe.tau 0 0) • x 18 - (1/32 * fe.b 1 1 0 * fe.l 1 * fe.tau 1 0) • x 19 + (fe.theta 0 0 0) • x 3 + (fe.theta 0 0 1) • x 4 + (fe.theta 0 0 2) • x 5))
  | 4 => (fe.h 0)⁻¹ • ((fe.h 0)⁻¹ • ((-1/32 * fe.b 0 1 0 * fe.l 0 * fe.tau 0 1) • x 18 - (1/32 * fe.b 1 1 0 * fe.l 1 * fe.tau 1 1) • x 19 + (fe.theta 0 1 0) • x 3 + (fe.theta 0 1 1) • x 4 + (fe.theta 0 1 2) • x 5))
  | 5 => (fe.h 0)⁻¹ • ((fe.h 0)⁻¹ • ((-1/32 * fe.b 0 1 0 * fe.l 0 * fe.tau 0 2) • x 18 - (1/32 * fe.b 1 1 0 * fe.l 1 * fe.tau 1 2) • x 19 + (fe.theta 0 2 0) • x 3 + (fe.theta 0 2 1) • x 4 + (fe.theta 0 2 2) • x 5))
  | 6 => (15/8 * fe.b 0 1 0 / fe.l 0) • x 18 - (15/8 * fe.b 2 1 0 / fe.l 2) • x 20 + x 6
  | 7 => (fe.h 1)⁻¹ • ((fe.J 1 0 0) • x 7 + (fe.J 1 0 1) • x 8 - (0.4375 * fe.b 0 1 0 * fe.t 0 0) • x 18 - (0.4375 * fe.b 2 1 0 * fe.t 2 0) • x 20)
  | 8 => (fe.h 1)⁻¹ • ((fe.J 1 1 0) • x 7 + (fe.J 1 1 1) • x 8 - (0.4375 * fe.b 0 1 0 * fe.t 0 1) • x 18 - (0.4375 * fe.b 2 1 0 * fe.t 2 1) • x 20)
  | 9 => (fe.h 1)⁻¹ • ((fe.h 1)⁻¹ • ((1/32 * fe.b 0 1 0 * fe.l 0 * fe.tau 0 0) • x 18 - (1/32 * fe.b 2 1 0 * fe.l 2 * fe.tau 2 0) • x 20 + (fe.theta 1 0 0) • x 9 + (fe.theta 1 0 1) • x 10 + (fe.theta 1 0 2) • x 11))
  | 10 => (fe.h 1)⁻¹ • ((fe.h 1)⁻¹ • ((1/32 * fe.b 0 1 0 * fe.l 0 * fe.tau 0 1) • x 18 - (1/32 * fe.b 2 1 0 * fe.l 2 * fe.tau 2 1) • x 20 + (fe.theta 1 1 0) • x 9 + (fe.theta 1 1 1) • x 10 + (fe.theta 1 1 2) • x 11))
  | 11 => (fe.h 1)⁻¹ • ((fe.h 1)⁻¹ • ((1/32 * fe.b 0 1 0 * fe.l 0 * fe.tau 0 2) • x 18 - (1/32 * fe.b 2 1 0 * fe.l 2 * fe.tau 2 2) • x 20 + (fe.theta 1 2 0) • x 9 + (fe.theta 1 2 1) • x 10 + (fe.theta 1 2 2) • x 11))
  | 12 => (15/8 * fe.b 1 1 0 / fe.l 1) • x 19 + (15/8 * fe.b 2 1 0 / fe.l 2) • x 20 + x 12
  | 13 => (fe.h 2)⁻¹ • ((fe.J 2 0 0) • x 13 + (fe.J 2 0 1) • x 14 - (0.4375 * fe.b 1 1 0 * fe.t 1 0) • x 19 - (0.4375 * fe.b 2 1 0 * fe.t 2 0) • x 20)
  | 14 => (fe.h 2)⁻¹ • ((fe.J 2 1 0) • x 13 + (fe.J 2 1 1) • x 14 - (0.4375 * fe.b 1 1 0 * fe.t 1 1) • x 19 - (0.4375 * fe.b 2 1 0 * fe.t 2 1) • x 20)
  | 15 => (fe.h 2)⁻¹ • ((fe.h 2)⁻¹ • ((1/32 * fe.b 1 1 0 * fe.l 1 * fe.tau 1 0) • x 19 + (1/32 * fe.b 2 1 0 * fe.l 2 * fe.tau 2 0) • x 20 + (fe.theta 2 0 0) • x 15 + (fe.theta 2 0 1) • x 16 + (fe.theta 2 0 2) • x 17))
  | 16 => (fe.h 2)⁻¹ • ((fe.h 2)⁻¹ • ((1/32 * fe.b 1 1 0 * fe.l 1 * fe.tau 1 1) • x 19 + (1/32 * fe.b 2 1 0 * fe.l 2 * fe.tau 2 1) • x 20 + (fe.theta 2 1 0) • x 15 + (fe.theta 2 1 1) • x 16 + (fe.theta 2 1 2) • x 17))
  | 17 => (fe.h 2)⁻¹ • ((fe.h 2)⁻¹ • ((1/32 * fe.b 1 1 0 * fe.l 1 * fe.tau 1 2) • x 19 + (1/32 * fe.b 2 1 0 * fe.l 2 * fe.tau 2 2) • x 20 + (fe.theta 2 2 0) • x 15 + (fe.theta 2 2 1) • x 16 + (fe.theta 2 2 2) • x 17))
  | 18 => (fe.b 0 0 0 * (if fe.o 0 then -1 else 1)) • x 18
  | 19 => (fe.b 1 0 0 * (if fe.o 1 then -1 else 1)) • x 19
  | 20 => (fe.b 2 0 0 * (if fe.o 2 then -1 else 1)) • x 20
  | m => x m

/-- argyrisbasis.hh:705-740 `transform`. -/
noncomputable def transform (fe : Bound) (inValues : List V) : Option (List V) :=
  if inValues.length = 21 then some ((List.range 21).map (outF fe fun j => inValues[j]?.getD 0)) else none

end Transform

/-- transformedfiniteelementmixin.hh:45-51. -/
noncomputable def evaluateFunction (sqrt2 : ℝ) (fe : Bound) (x : Vec) : Option (List ℝ) := do
  transform fe (← (refBasis sqrt2).evaluateFunction x)

/-- transformedfiniteelementmixin.hh:59-65. -/
noncomputable def evaluateJacobian (sqrt2 : ℝ) (fe : Bound) (x : Vec) : Option (List Vec) := do
  transform fe (← (refBasis sqrt2).evaluateJacobian x)

/-- transformedfiniteelementmixin.hh:79-85. -/
noncomputable def evaluateHessian (sqrt2 : ℝ) (fe : Bound) (x : Vec) : Option (List (Fin 2 → Fin 2 → ℝ)) := do
  transform fe (← (refBasis sqrt2).evaluateHessian x)

/-- transformedfiniteelementmixin.hh:94-101. -/
noncomputable def «partial» (sqrt2 : ℝ) (fe : Bound) (order : Fin 2 → Nat) (x : Vec) : Outcome (List ℝ) :=
  match (refBasis sqrt2).«partial» order x with
  | .ok v => Outcome.of (transform fe v)
  | .rangeError => .rangeError
  | .ub => .ub

/-- argyrisbasis.hh:504-532 `interpolate`. `df` and `Hf` are the derivatives with respect to global coordinates. -/
noncomputable def interpolate (fe : Bound) (f : Vec → ℝ) (df : Vec → Vec) (Hf : Vec → Fin 2 → Fin 2 → ℝ) : Option (List ℝ) :=
  writeAll (List.replicate 21 0)
    (([0, 1, 2].flatMap fun i =>
      let offset := 6 * i
      let x := corner i
      let h := fe.h i
      [(offset, f x), (offset + 1, df x 0 * h), (offset + 2, df x 1 * h),
       (offset + 3, Hf x 0 0 * h * h), (offset + 4, Hf x 0 1 * h * h), (offset + 5, Hf x 1 1 * h * h)]) ++
    ([0, 1, 2].map fun i => (18 + i, df (midpointR i) 0 * fe.normals i 0 + df (midpointR i) 1 * fe.normals i 1)))

/-! ## Tables of the reference element -/

/-- The exponents of the monomials of degree at most five. -/
def E5 : List (List Nat) := [[0, 0], [1, 0], [0, 1], [2, 0], [1, 1], [0, 2], [3, 0], [2, 1], [1, 2], [0, 3],
  [4, 0], [3, 1], [2, 2], [1, 3], [0, 4], [5, 0], [4, 1], [3, 2], [2, 3], [1, 4], [0, 5]]

theorem wf : (rationalBasis 5 rows).WF 2 E5 := ⟨by decide, by decide⟩

/-- Values of the reference shape functions at the vertices. -/
theorem values (i : Fin 3) : (rationalBasis 5 rows).evaluateFunction (Hermite.vertex 2 i)
    = some ((List.range 21).map fun m => if m = 6 * i.val then 1 else 0) := by
  revert i; decide +kernel

/-- Gradients of the reference shape functions at the vertices. -/
theorem gradients (i : Fin 3) : (rationalBasis 5 rows).evaluateJacobian (Hermite.vertex 2 i)
    = some ((List.range 21).map fun m => fun d : Fin 2 => if m = 6 * i.val + 1 + d.val then 1 else 0) := by
  revert i; decide +kernel

/-- Hessians of the reference shape functions at the vertices. -/
theorem hessians (i : Fin 3) : (rationalBasis 5 rows).evaluateHessian (Hermite.vertex 2 i)
    = some ((List.range 21).map fun m => fun d e : Fin 2 => if m = 6 * i.val + 3 + d.val + e.val then 1 else 0) := by
  revert i; decide +kernel

/-- Gradients of the reference shape functions at the midpoints of the edges. -/
def gradientTable : Nat → List (Fin 2 → ℚ)
  | 0 => [![-15/8, 0], ![-7/16, 0], ![0, 0], ![-1/32, 0], ![0, 0], ![0, 0], ![15/8, 0], ![-7/16, 0], ![0, 0], ![1/32, 0], ![0, 0],
      ![0, 0], ![0, 0], ![0, 0], ![0, 0], ![0, 0], ![0, 0], ![0, 0], ![0, 1], ![0, 0], ![0, 0]]
  | 1 => [![0, -15/8], ![0, 0], ![0, -7/16], ![0, 0], ![0, 0], ![0, -1/32], ![0, 0], ![0, 0], ![0, 0], ![0, 0], ![0, 0],
      ![0, 0], ![0, 15/8], ![0, 0], ![0, -7/16], ![0, 0], ![0, 0], ![0, 1/32], ![0, 0], ![-1, 0], ![0, 0]]
  | _ => [![0, 0], ![0, 0], ![0, 0], ![0, 0], ![0, 0], ![0, 0], ![15/16, -15/16], ![-7/32, 7/32], ![7/32, -7/32], ![1/64, -1/64],
      ![-1/32, 1/32], ![1/64, -1/64], ![-15/16, 15/16], ![-7/32, 7/32], ![7/32, -7/32], ![-1/64, 1/64], ![1/32, -1/32],
      ![-1/64, 1/64], ![0, 0], ![0, 0], ![1/16, 1/16]]

theorem midpoint_gradients (i : Fin 3) : (rationalBasis 5 rows).evaluateJacobian (midpoint i) = some (gradientTable i) := by
  revert i; decide +kernel

/-- Derivatives of the reference shape functions at the midpoints in direction of the edge. -/
def tangentialTable : Nat → List ℚ
  | 0 => [-15/8, -7/16, 0, -1/32, 0, 0, 15/8, -7/16, 0, 1/32, 0, 0, 0, 0, 0, 0, 0, 0, 0, 0, 0]
  | 1 => [-15/8, 0, -7/16, 0, 0, -1/32, 0, 0, 0, 0, 0, 0, 15/8, 0, -7/16, 0, 0, 1/32, 0, 0, 0]
  | _ => [0, 0, 0, 0, 0, 0, -15/8, 7/16, -7/16, -1/32, 1/16, -1/32, 15/8, 7/16, -7/16, 1/32, -1/16, 1/32, 0, 0, 0]

/-- The polynomials of the reference basis. -/
noncomputable def refPoly (sqrt2 : ℝ) (m : Nat) : MvPolynomial (Fin 2) ℝ := (refBasis sqrt2).poly 2 E5 m

/-- The factor of the normal derivatives. -/
noncomputable def kappa (sqrt2 : ℝ) (i : Nat) : ℝ := if i = 2 then -(sqrt2 * Real.sqrt 2) / 16 else 1

theorem ref_value (c : ℝ) (i : Fin 3) (m : Fin 21) : eval (corner i) (refPoly c m) = if m.val = 6 * i.val then 1 else 0 := by
  have h := rowsBasis_eval (K := ℝ) wf c (Hermite.vertex 2 i) (values i) m.val m.2
  refine h.trans ?_
  fin_cases i <;> fin_cases m <;> simp [rows, Row.factor, castQ]

theorem ref_gradient (c : ℝ) (i : Fin 3) (m : Fin 21) (d : Fin 2) :
    eval (corner i) (pderiv d (refPoly c m)) = if m.val = 6 * i.val + 1 + d.val then 1 else 0 := by
  have h := rowsBasis_grad (K := ℝ) wf c (Hermite.vertex 2 i) (gradients i) m.val m.2 d
  refine h.trans ?_
  fin_cases i <;> fin_cases m <;> fin_cases d <;> simp [rows, Row.factor, castQ]

theorem ref_hessian (c : ℝ) (i : Fin 3) (m : Fin 21) (d e : Fin 2) :
    eval (corner i) (pderiv d (pderiv e (refPoly c m))) = if m.val = 6 * i.val + 3 + d.val + e.val then 1 else 0 := by
  have h := rowsBasis_hess (K := ℝ) wf c (Hermite.vertex 2 i) (hessians i) m.val m.2 d e
  refine h.trans ?_
  fin_cases i <;> fin_cases m <;> fin_cases d <;> fin_cases e <;> simp [rows, Row.factor, castQ]

theorem ref_tangential (c : ℝ) (i : Fin 3) (m : Fin 21) : dirL i (refTangent i) (refPoly c m)
    = castQ ℝ ((tangentialTable i)[m.val]?.getD 0) / twoNorm (refEdge i) := by
  have h := fun d => rowsBasis_grad (K := ℝ) wf c (midpoint i) (midpoint_gradients i) m.val m.2 d
  have s0 := Morley.sqrt2_ne
  rw [dirL_apply, show midpointR i = fun d => castQ ℝ (midpoint i d) from rfl]
  unfold refPoly refBasis
  rw [h, h, Morley.refTangent_eq, Morley.refNorm]
  fin_cases i <;> fin_cases m <;> simp [rows, Row.factor, castQ, gradientTable, tangentialTable] <;> field_simp <;> norm_num

theorem ref_normal (c : ℝ) (i : Fin 3) (m : Fin 21) : dirL i (rot (refTangent i)) (refPoly c m)
    = if m.val = 18 + i.val then kappa c i else 0 := by
  have h := fun d => rowsBasis_grad (K := ℝ) wf c (midpoint i) (midpoint_gradients i) m.val m.2 d
  have s2 := Morley.sqrt2_sq
  have s0 := Morley.sqrt2_ne
  rw [dirL_apply, show midpointR i = fun d => castQ ℝ (midpoint i d) from rfl]
  unfold refPoly refBasis
  rw [h, h, Morley.refTangent_eq]
  fin_cases i <;> fin_cases m <;> simp [rows, Row.factor, castQ, gradientTable, rot, kappa] <;> field_simp <;>
    (try norm_num) <;> ring

/-! ## The transformation -/

section Transform

variable {V W : Type} [AddCommGroup V] [Module ℝ V] [AddCommGroup W] [Module ℝ W]

theorem outF_map (L : V →ₗ[ℝ] W) (fe : Bound) (x : Nat → V) (m : Nat) : L (outF fe x m) = outF fe (fun j => L (x j)) m := by
  unfold outF
  split <;> simp only [map_add, map_sub, map_smul]

theorem outF_congr (fe : Bound) (x y : Nat → V) (h : ∀ j : Fin 21, x j = y j) (m : Fin 21) : outF fe x m = outF fe y m := by
  have h0 := h 0; have h1 := h 1; have h2 := h 2; have h3 := h 3; have h4 := h 4; have h5 := h 5; have h6 := h 6
  have h7 := h 7; have h8 := h 8; have h9 := h 9; have h10 := h 10; have h11 := h 11; have h12 := h 12; have h13 := h 13
  have h14 := h 14; have h15 := h 15; have h16 := h 16; have h17 := h 17; have h18 := h 18; have h19 := h 19; have h20 := h 20
  simp only [Fin.coe_ofNat_eq_mod, Nat.reduceMod] at *
  fin_cases m <;> simp only [outF, *]

/-- The transformation as operator. -/
noncomputable def op (fe : Bound) : LinOp ℝ := ⟨fun x m => outF fe x m, fun L x m => outF_map L fe x m⟩

theorem transform_eq (fe : Bound) (g : Nat → V) :
    transform fe ((List.range 21).map g) = some ((List.range 21).map ((op fe).app g)) := by
  simp only [transform, List.length_map, List.length_range, if_true, op, Option.some.injEq]
  apply List.map_congr_left
  intro m hm
  rw [List.mem_range] at hm
  apply outF_congr fe _ _ _ ⟨m, hm⟩
  intro j
  simp

end Transform

/-- The shape functions of the bound element. -/
noncomputable def shape (c : ℝ) (fe : Bound) (m : Nat) : MvPolynomial (Fin 2) ℝ := (op fe).app (refPoly c) m

theorem evaluate_eq (c : ℝ) (fe : Bound) (x : Vec) :
    evaluateFunction c fe x = some ((List.range 21).map fun m => eval x (shape c fe m)) ∧
    evaluateJacobian c fe x = some ((List.range 21).map fun m => fun i => eval x (pderiv i (shape c fe m))) ∧
    evaluateHessian c fe x = some ((List.range 21).map fun m => fun i j => eval x (pderiv i (pderiv j (shape c fe m)))) ∧
    ∀ order : Fin 2 → Nat, «partial» c fe order x =
      if ∑ k, order k ≤ 2 then .ok ((List.range 21).map fun m => eval x (deriv order (shape c fe m))) else .rangeError := by
  have := RefBasis.transformed (rowsBasis_WF wf c) (op fe) (fun {V} _ _ l => transform fe l)
    (fun {V} _ _ g => transform_eq fe g) x
  rw [show (rowsBasis c 5 rows).coefficients.length = 21 by simp [rowsBasis, rows]] at this
  refine ⟨this.1, this.2.1, this.2.2.1, fun order => ?_⟩
  have h4 := this.2.2.2 order
  unfold «partial» refBasis
  cases hr : (rowsBasis c 5 rows).«partial» order x <;> rw [hr] at h4 <;> exact h4

/-- A linear functional applied to a shape function. -/
theorem apply_shape (c : ℝ) (fe : Bound) (L : MvPolynomial (Fin 2) ℝ →ₗ[ℝ] ℝ) (r : Nat → ℝ)
    (h : ∀ j : Fin 21, L (refPoly c j) = r j) (m : Fin 21) : L (shape c fe m) = outF fe r m := by
  rw [shape, (op fe).map]
  exact outF_congr fe (fun j => L (refPoly c j)) r h m

theorem shape_value (c : ℝ) (fe : Bound) (i : Fin 3) (m : Fin 21) :
    eval (corner i) (shape c fe m) = if m.val = 6 * i.val then 1 else 0 := by
  rw [← evalL_apply, apply_shape c fe _ (fun j => if j = 6 * i.val then 1 else 0) (fun j => by rw [evalL_apply, ref_value])]
  fin_cases i <;> fin_cases m <;> simp [outF]

set_option maxHeartbeats 4000000 in
theorem shape_gradient (c : ℝ) (g : Affine) (h : Nat → ℝ) (o : Nat → Bool) (i : Fin 3) (m : Fin 21) (d : Fin 2) :
    eval (corner i) (pderiv d (shape c (bindGeometry g h o) m))
      = (if m.val = 6 * i.val + 1 then g.J 0 d else if m.val = 6 * i.val + 2 then g.J 1 d else 0) / h i := by
  have := apply_shape c (bindGeometry g h o) (evalL (corner i) ∘ₗ (pderiv d).toLinearMap)
    (fun j => if j = 6 * i.val + 1 + d.val then 1 else 0)
    (fun j => by simp only [LinearMap.comp_apply, evalL_apply, Derivation.coeFn_coe, ref_gradient]) m
  simp only [LinearMap.comp_apply, evalL_apply, Derivation.coeFn_coe] at this
  rw [this]
  fin_cases i <;> fin_cases m <;> fin_cases d <;> simp [outF, bindGeometry, div_eq_inv_mul]

set_option maxHeartbeats 4000000 in
theorem shape_hessian (c : ℝ) (g : Affine) (h : Nat → ℝ) (o : Nat → Bool) (i : Fin 3) (m : Fin 21) (d e : Fin 2) :
    eval (corner i) (pderiv d (pderiv e (shape c (bindGeometry g h o) m)))
      = (if m.val = 6 * i.val + 3 then g.J 0 d * g.J 0 e
          else if m.val = 6 * i.val + 4 then g.J 0 d * g.J 1 e + g.J 1 d * g.J 0 e
          else if m.val = 6 * i.val + 5 then g.J 1 d * g.J 1 e else 0) / (h i * h i) := by
  have := apply_shape c (bindGeometry g h o) (evalL (corner i) ∘ₗ (pderiv d).toLinearMap ∘ₗ (pderiv e).toLinearMap)
    (fun j => if j = 6 * i.val + 3 + d.val + e.val then 1 else 0)
    (fun j => by simp only [LinearMap.comp_apply, evalL_apply, Derivation.coeFn_coe, ref_hessian]) m
  simp only [LinearMap.comp_apply, evalL_apply, Derivation.coeFn_coe] at this
  rw [this]
  fin_cases i <;> fin_cases m <;> fin_cases d <;> fin_cases e <;> simp [outF, bindGeometry, div_eq_inv_mul] <;> ring

end Verif.FE.Argyris

import Verif.FE.Triangle

/-!
# The Morley element

Model of `dune/functions/functionspacebases/morleybasis.hh`: coefficient matrix, transformation matrix, transformation of
the shape functions and interpolation.

Real numbers; the constant `sqrt2` of the coefficient matrix is a parameter.
-/

namespace Verif.FE.Morley

open Verif.FE Verif.FE.Triangle
open MvPolynomial (pderiv eval)

/-! ## Model -/

/-- morleybasis.hh:116-121. -/
def rows : List Row :=
  [.rational [1, -1, -1, 0, 2, 0],
   .rational [0, 1/2, 1/2, 1/2, -1, -1/2],
   .rational [0, 1/2, 1/2, -1/2, -1, 1/2],
   .rational [0, 0, 1, 0, 0, -1],
   .rational [0, -1, 0, 1, 0, 0],
   .scaled [0, 1, 1, -1, -2, -1]]

/-- `MorleyReferenceLocalBasis` (morleybasis.hh:110-125); `sqrt2` is the constant of line 114. -/
noncomputable def refBasis (sqrt2 : ℝ) : RefBasis ℝ := rowsBasis sqrt2 2 rows

/-- `FieldMatrix<R,6,6>`. -/
abbrev Mat := Nat → Nat → ℝ

/-- `mat_[r][c] = v`. -/
def Mat.set (M : Mat) (r c : Nat) (v : ℝ) : Mat := fun r' c' => if r' = r ∧ c' = c then v else M r' c'

/-- `jacobianTransposed[a][b]` of the geometry. -/
def jT (g : Affine) (a b : Fin 2) : ℝ := g.J b a

/-- `l_inv[i]` (morleybasis.hh:472). -/
noncomputable def lInv (g : Affine) (i : Nat) : ℝ := 1 / twoNorm (globalEdge g i)

/-- `globalTangents[i]` (morleybasis.hh:473). -/
noncomputable def globalTangent (g : Affine) (i : Nat) : Vec := fun d => globalEdge g i d * lInv g i

/-- morleybasis.hh:479-484. -/
noncomputable def B11 (g : Affine) (i : Nat) : ℝ :=
  -refTangent i 1 * (-globalTangent g i 1 * jT g 0 0 + globalTangent g i 0 * jT g 0 1)
    + refTangent i 0 * (-globalTangent g i 1 * jT g 1 0 + globalTangent g i 0 * jT g 1 1)

/-- morleybasis.hh:485-490. -/
noncomputable def B12 (g : Affine) (i : Nat) : ℝ :=
  -refTangent i 1 * (globalTangent g i 0 * jT g 0 0 + globalTangent g i 1 * jT g 0 1)
    + refTangent i 0 * (globalTangent g i 0 * jT g 1 0 + globalTangent g i 1 * jT g 1 1)

/-- One pass of the outer loop of morleybasis.hh:495-507. -/
noncomputable def fillStep (g : Affine) (o : Nat → Bool) (s : Mat × ℤ) (i : Nat) : Mat × ℤ :=
  let s := (s.1.set i i 1, s.2)
  let s := [0, 1, 2].foldl (fun (s : Mat × ℤ) j =>
    if j ≠ 2 - i then (Mat.set s.1 j (3 + i) ((s.2 : ℝ) * B12 g i * lInv g i), s.2 * -1) else s) s
  (s.1.set (3 + i) (3 + i) ((if o i then -1 else 1) * B11 g i), s.2)

/-- morleybasis.hh:446-508 `fillMatrix`: the previous matrix is overwritten. -/
noncomputable def fillMatrix (g : Affine) (o : Nat → Bool) (M : Mat) : Mat :=
  ([0, 1, 2].foldl (fillStep g o) (M, -1)).1

/-- The state of a `MorleyLocalFiniteElement`: `mat_` and `globalNormals_`. The vertices and midpoints stored by the
interpolation are those of the reference element. -/
structure Bound where
  mat : Mat
  normals : Nat → Vec

/-- morleybasis.hh:289-310 `bind` of the interpolation: the normals. -/
noncomputable def normals (g : Affine) (o : Nat → Bool) (i : Nat) : Vec :=
  let edge := globalEdge g i
  let s := twoNorm edge * (if o i then -1 else 1)
  let edge : Vec := fun d => edge d / s
  ![-edge 1, edge 0]

/-- morleybasis.hh:404-410 `bind`. -/
noncomputable def bind (fe : Bound) (g : Affine) (o : Nat → Bool) : Bound := ⟨fillMatrix g o fe.mat, normals g o⟩

/-- A default constructed finite element: the entries of the matrix are zero. -/
def fresh : Bound := ⟨fun _ _ => 0, fun _ => 0⟩

section Transform

variable {V : Type} [AddCommGroup V] [Module ℝ V]

/-- morleybasis.hh:427-435 `transform`: `mat_.mv(in, out)`. -/
def transform (fe : Bound) (inValues : List V) : Option (List V) :=
  if inValues.length = 6 then
    some ((List.range 6).map fun m =>
      (List.range 6).foldl (fun (acc : V) j => acc + fe.mat m j • inValues[j]?.getD 0) 0)
  else none

end Transform

/-- transformedfiniteelementmixin.hh:45-51. -/
noncomputable def evaluateFunction (sqrt2 : ℝ) (fe : Bound) (x : Vec) : Option (List ℝ) := do
  transform fe (← (refBasis sqrt2).evaluateFunction x)

/-- transformedfiniteelementmixin.hh:59-65. -/
noncomputable def evaluateJacobian (sqrt2 : ℝ) (fe : Bound) (x : Vec) : Option (List Vec) := do
  transform fe (← (refBasis sqrt2).evaluateJacobian x)

/-- transformedfiniteelementmixin.hh:79-85. -/
noncomputable def evaluateHessian (sqrt2 : ℝ) (fe : Bound) (x : Vec) : Option (List (Fin 2 → Fin 2 → ℝ)) := do
  transform fe (← (refBasis sqrt2).evaluateHessian x)

/-- transformedfiniteelementmixin.hh:94-101. -/
noncomputable def «partial» (sqrt2 : ℝ) (fe : Bound) (order : Fin 2 → Nat) (x : Vec) : Outcome (List ℝ) :=
  match (refBasis sqrt2).«partial» order x with
  | .ok v => Outcome.of (transform fe v)
  | .rangeError => .rangeError
  | .ub => .ub

/-- morleybasis.hh:320-329 `interpolate`. `df` is the derivative with respect to global coordinates. -/
noncomputable def interpolate (fe : Bound) (f : Vec → ℝ) (df : Vec → Vec) : Option (List ℝ) :=
  writeAll (List.replicate 6 0) ([0, 1, 2].flatMap fun i =>
    [(i, f (corner i)), (3 + i, df (midpointR i) 0 * fe.normals i 0 + df (midpointR i) 1 * fe.normals i 1)])

/-! ## Specification

Linear functionals on polynomials in local coordinates. -/

/-- The sign of an edge. -/
def sgn (b : Bool) : ℝ := if b then -1 else 1

/-- Derivative at the midpoint of reference edge `i` in direction `v`. -/
noncomputable def dirL (i : Nat) (v : Vec) : MvPolynomial (Fin 2) ℝ →ₗ[ℝ] ℝ :=
  v 0 • (evalL (midpointR i) ∘ₗ (pderiv 0).toLinearMap) + v 1 • (evalL (midpointR i) ∘ₗ (pderiv 1).toLinearMap)

theorem dirL_apply (i : Nat) (v : Vec) (p : MvPolynomial (Fin 2) ℝ) :
    dirL i v p = v 0 * eval (midpointR i) (pderiv 0 p) + v 1 * eval (midpointR i) (pderiv 1 p) := by
  simp [dirL, evalL_apply]

/-- The derivative in direction of the global normal of edge `i`, in local coordinates. -/
noncomputable def normalL (g : Affine) (i : Nat) : MvPolynomial (Fin 2) ℝ →ₗ[ℝ] ℝ :=
  (bnn g i)⁻¹ • (dirL i (rot (refTangent i)) - (btn g i * (twoNorm (refEdge i) / twoNorm (globalEdge g i))) • dirL i (refTangent i))

/-- The functionals of the element. -/
noncomputable def dof (g : Affine) (o : Nat → Bool) (n : Nat) : MvPolynomial (Fin 2) ℝ →ₗ[ℝ] ℝ :=
  if n < 3 then evalL (corner n) else sgn (o (n - 3)) • normalL g (n - 3)

theorem normals_eq (g : Affine) (o : Nat → Bool) (i : Nat) (d : Fin 2) : normals g o i d = sgn (o i) * rot (tangent g i) d := by
  unfold normals sgn
  fin_cases d <;> cases o i <;> simp [rot, tangent, div_neg]

theorem normalL_apply {g : Affine} (hg : g.Regular) (i : Fin 3) (p : MvPolynomial (Fin 2) ℝ) (df : Vec)
    (h : ∀ j, df 0 * g.J 0 j + df 1 * g.J 1 j = eval (midpointR i) (pderiv j p)) :
    rot (tangent g i) 0 * df 0 + rot (tangent g i) 1 * df 1 = normalL g i p := by
  rw [normal_derivative hg i df (dirL i (rot (refTangent i)) p) (dirL i (refTangent i) p)]
  · simp only [normalL, LinearMap.smul_apply, LinearMap.sub_apply, smul_eq_mul]
    rw [div_eq_inv_mul]
  · intro j
    have hr := refTangent_unit i
    rw [h, dirL_apply, dirL_apply]
    fin_cases j
    · simp [rot]
      linear_combination (-eval (midpointR i) (pderiv 0 p)) * hr
    · simp [rot]
      linear_combination (-eval (midpointR i) (pderiv 1 p)) * hr

/-- `interpolate` evaluates the functionals. -/
theorem interpolate_eq {g : Affine} (hg : g.Regular) (o : Nat → Bool) (fe : Bound) (hn : fe.normals = normals g o)
    (p : MvPolynomial (Fin 2) ℝ) (df : Vec → Vec)
    (h : ∀ (i : Fin 3) (j : Fin 2), ∑ d, df (midpointR i) d * g.J d j = eval (midpointR i) (pderiv j p)) :
    interpolate fe (fun x => eval x p) df = some ((List.range 6).map fun n => dof g o n p) := by
  have e : interpolate fe (fun x => eval x p) df = some
      [eval (corner 0) p, eval (corner 1) p, eval (corner 2) p,
       df (midpointR 0) 0 * fe.normals 0 0 + df (midpointR 0) 1 * fe.normals 0 1,
       df (midpointR 1) 0 * fe.normals 1 0 + df (midpointR 1) 1 * fe.normals 1 1,
       df (midpointR 2) 0 * fe.normals 2 0 + df (midpointR 2) 1 * fe.normals 2 1] := rfl
  have k : ∀ i : Fin 3, df (midpointR i) 0 * fe.normals i 0 + df (midpointR i) 1 * fe.normals i 1
      = sgn (o i) * normalL g i p := by
    intro i
    rw [← normalL_apply hg i p (df (midpointR i)) (by simpa [Fin.sum_univ_two] using h i), hn, normals_eq, normals_eq]
    ring
  have k0 := k 0
  have k1 := k 1
  have k2 := k 2
  simp only [Fin.val_zero, Fin.val_one, Fin.val_two] at k0 k1 k2
  rw [e, k0, k1, k2]
  simp [List.range_succ, dof, evalL_apply]

/-! ## The transformation -/

/-- The matrix after binding. -/
noncomputable def matrix (g : Affine) (o : Nat → Bool) : Mat := fun m n =>
  if n < 3 then (if m = n then 1 else 0)
  else if m < 3 then
    (if m = upper (n - 3) then 1 else if m = lower (n - 3) then -1 else 0) * (B12 g (n - 3) * lInv g (n - 3))
  else if m = n then sgn (o (n - 3)) * B11 g (n - 3) else 0

/-- Entries which are not written by `fillMatrix` are zero. -/
def Clean (M : Mat) : Prop :=
  ∀ m n : Fin 6, (m.val ≠ n.val ∧ (m.val < 3 → n.val < 3 ∨ m.val + n.val = 5)) → M m n = 0

theorem fill_eq (g : Affine) (o : Nat → Bool) (M : Mat) (hM : Clean M) (m n : Fin 6) : fillMatrix g o M m n = matrix g o m n := by
  have h := hM m n
  fin_cases m <;> fin_cases n <;>
    simp [fillMatrix, fillStep, Mat.set, matrix, upper, lower, sgn] at h ⊢ <;> exact h

theorem wf : (rationalBasis 2 rows).WF 2 [[0, 0], [1, 0], [0, 1], [2, 0], [1, 1], [0, 2]] :=
  ⟨by decide, by decide⟩

/-- Values of the reference shape functions at the vertices. -/
theorem values (i : Fin 3) : (rationalBasis 2 rows).evaluateFunction (Hermite.vertex 2 i)
    = some ((List.range 6).map fun m => if m = i.val then 1 else 0) := by
  revert i; decide +kernel

/-- Gradients of the reference shape functions at the midpoints of the edges. -/
def gradientTable : Nat → List (Fin 2 → ℚ)
  | 0 => [![-1, 0], ![1, 0], ![0, 0], ![0, 1], ![0, 0], ![0, 0]]
  | 1 => [![0, -1], ![0, 0], ![0, 1], ![0, 0], ![-1, 0], ![0, 0]]
  | _ => [![0, 0], ![1/2, -1/2], ![-1/2, 1/2], ![0, 0], ![0, 0], ![-1, -1]]

theorem gradients (i : Fin 3) : (rationalBasis 2 rows).evaluateJacobian (midpoint i) = some (gradientTable i) := by
  revert i; decide +kernel

theorem sqrt2_sq : Real.sqrt 2 * Real.sqrt 2 = 2 := Real.mul_self_sqrt (by norm_num)

theorem sqrt2_ne : Real.sqrt 2 ≠ 0 := by
  intro h
  have := sqrt2_sq
  rw [h] at this
  norm_num at this

theorem refNorm (i : Fin 3) : twoNorm (refEdge i) = if i = 2 then Real.sqrt 2 else 1 := by
  rw [refEdge_eq]
  fin_cases i <;> simp [twoNorm]
  norm_num

theorem refTangent_eq (i : Fin 3) :
    refTangent i = if i = 0 then ![1, 0] else if i = 1 then ![0, 1] else ![-1 / Real.sqrt 2, 1 / Real.sqrt 2] := by
  funext d
  rw [refTangent, refNorm, refEdge_eq]
  fin_cases i <;> fin_cases d <;> simp

/-- The polynomials of the reference basis. -/
noncomputable def refPoly (sqrt2 : ℝ) (m : Nat) : MvPolynomial (Fin 2) ℝ :=
  (refBasis sqrt2).poly 2 [[0, 0], [1, 0], [0, 1], [2, 0], [1, 1], [0, 2]] m

/-- The value of the constant times the square root of two, for the edge to which it belongs. -/
noncomputable def kappa (sqrt2 : ℝ) (i : Nat) : ℝ := if i = 2 then sqrt2 * Real.sqrt 2 else 1

theorem ref_value (c : ℝ) (i : Fin 3) (m : Fin 6) : eval (corner i) (refPoly c m) = if m.val = i.val then 1 else 0 := by
  have h := rowsBasis_eval (K := ℝ) wf c (Hermite.vertex 2 i) (values i) m.val m.2
  refine h.trans ?_
  fin_cases i <;> fin_cases m <;> simp [rows, Row.factor, castQ]

theorem ref_tangential (c : ℝ) (i : Fin 3) (m : Fin 6) : dirL i (refTangent i) (refPoly c m)
    = (if m.val = upper i then 1 else if m.val = lower i then -1 else 0) / twoNorm (refEdge i) := by
  have h := fun d => rowsBasis_grad (K := ℝ) wf c (midpoint i) (gradients i) m.val m.2 d
  have s2 := sqrt2_sq
  have s0 := sqrt2_ne
  rw [dirL_apply, show midpointR i = fun d => castQ ℝ (midpoint i d) from rfl]
  unfold refPoly refBasis
  rw [h, h, refTangent_eq, refNorm]
  fin_cases i <;> fin_cases m <;> simp [rows, Row.factor, castQ, gradientTable, upper, lower] <;> field_simp <;> norm_num

theorem ref_normal (c : ℝ) (i : Fin 3) (m : Fin 6) : dirL i (rot (refTangent i)) (refPoly c m)
    = if m.val = 3 + i.val then kappa c i else 0 := by
  have h := fun d => rowsBasis_grad (K := ℝ) wf c (midpoint i) (gradients i) m.val m.2 d
  have s2 := sqrt2_sq
  have s0 := sqrt2_ne
  rw [dirL_apply, show midpointR i = fun d => castQ ℝ (midpoint i d) from rfl]
  unfold refPoly refBasis
  rw [h, h, refTangent_eq]
  fin_cases i <;> fin_cases m <;> simp [rows, Row.factor, castQ, gradientTable, rot, kappa] <;> field_simp <;>
    (try norm_num) <;> ring

/-- The functionals applied to the reference shape functions. -/
theorem dof_ref {g : Affine} (o : Nat → Bool) (c : ℝ) (n m : Fin 6) : dof g o n (refPoly c m)
    = if n.val < 3 then (if m = n then 1 else 0)
      else sgn (o (n.val - 3)) * ((bnn g (n.val - 3))⁻¹ * ((if m = n then kappa c (n.val - 3) else 0)
        - btn g (n.val - 3) / twoNorm (globalEdge g (n.val - 3)) *
          (if m.val = upper (n.val - 3) then 1 else if m.val = lower (n.val - 3) then -1 else 0))) := by
  unfold dof
  split
  case isTrue h =>
    rw [evalL_apply]
    have := ref_value c ⟨n.val, h⟩ m
    simp only [Fin.ext_iff]
    exact this
  case isFalse h =>
    have hn : n.val - 3 < 3 := by omega
    have h1 := ref_tangential c ⟨n.val - 3, hn⟩ m
    have h2 := ref_normal c ⟨n.val - 3, hn⟩ m
    have h3 := refNorm_ne ⟨n.val - 3, hn⟩
    simp only at h1 h2 h3
    simp only [normalL, LinearMap.smul_apply, LinearMap.sub_apply, smul_eq_mul, h1, h2]
    congr 2
    have hmn : (m.val = 3 + (n.val - 3)) ↔ m = n := by rw [Fin.ext_iff]; omega
    simp only [hmn]
    congr 1
    field_simp

/-! ## Shape functions -/

/-- The shape functions of the bound element, as linear combinations. -/
def outF {V : Type} [AddCommGroup V] [Module ℝ V] (M : Mat) (g : Nat → V) (m : Nat) : V := ∑ j ∈ Finset.range 6, M m j • g j

/-- The transformation as operator. -/
def op (M : Mat) : LinOp ℝ := ⟨fun g m => outF M g m, fun L g m => by simp [outF]⟩

theorem transform_eq {V : Type} [AddCommGroup V] [Module ℝ V] (fe : Bound) (g : Nat → V) :
    transform fe ((List.range 6).map g) = some ((List.range 6).map ((op fe.mat).app g)) := by
  simp only [transform, List.length_map, List.length_range, if_true, op, outF, Finset.sum_range_succ, Finset.sum_range_zero]
  rfl

/-- The shape functions of the bound element. -/
noncomputable def shape (c : ℝ) (fe : Bound) (m : Nat) : MvPolynomial (Fin 2) ℝ := (op fe.mat).app (refPoly c) m

theorem evaluate_eq (c : ℝ) (fe : Bound) (x : Vec) :
    evaluateFunction c fe x = some ((List.range 6).map fun m => eval x (shape c fe m)) ∧
    evaluateJacobian c fe x = some ((List.range 6).map fun m => fun i => eval x (pderiv i (shape c fe m))) ∧
    evaluateHessian c fe x = some ((List.range 6).map fun m => fun i j => eval x (pderiv i (pderiv j (shape c fe m)))) ∧
    ∀ order : Fin 2 → Nat, «partial» c fe order x =
      if ∑ k, order k ≤ 2 then .ok ((List.range 6).map fun m => eval x (deriv order (shape c fe m))) else .rangeError := by
  have := RefBasis.transformed (rowsBasis_WF wf c) (op fe.mat) (fun {V} _ _ l => transform fe l)
    (fun {V} _ _ g => transform_eq fe g) x
  rw [show (rowsBasis c 2 rows).coefficients.length = 6 by simp [rowsBasis, rows]] at this
  refine ⟨this.1, this.2.1, this.2.2.1, fun order => ?_⟩
  have h4 := this.2.2.2 order
  unfold «partial» refBasis
  cases hr : (rowsBasis c 2 rows).«partial» order x <;> rw [hr] at h4 <;> exact h4

theorem B11_eq (g : Affine) (i : Nat) : B11 g i = bnn g i := by
  simp [B11, bnn, globalTangent, lInv, tangent, jT, rot]
  ring

theorem B12_eq (g : Affine) (i : Nat) : B12 g i = btn g i := by
  simp [B12, btn, globalTangent, lInv, tangent, jT, rot]
  ring

/-- The functionals applied to the shape functions, for any value of the constant. -/
theorem duality {g : Affine} (hg : g.Regular) (o : Nat → Bool) (c : ℝ) (fe : Bound)
    (hfe : ∀ m n : Fin 6, fe.mat m n = matrix g o m n) (m n : Fin 6) :
    dof g o n (shape c fe m) = (if m = n then 1 else 0)
      + if n = 5 then (c * Real.sqrt 2 - 1) * (sgn (o 2) * (bnn g 2)⁻¹ * matrix g o m n) else 0 := by
  have h := fun j : Fin 6 => dof_ref (g := g) o c n j
  have h0 := h 0
  have h1 := h 1
  have h2 := h 2
  have h3 := h 3
  have h4 := h 4
  have h5 := h 5
  have f := fun j : Fin 6 => hfe m j
  have f0 := f 0
  have f1 := f 1
  have f2 := f 2
  have f3 := f 3
  have f4 := f 4
  have f5 := f 5
  clear h f hfe
  have b0 := bnn_ne hg 0
  have b1 := bnn_ne hg 1
  have b2 := bnn_ne hg 2
  have n0 := globalNorm_ne hg 0
  have n1 := globalNorm_ne hg 1
  have n2 := globalNorm_ne hg 2
  have hs : ∀ b, sgn b = 1 ∨ sgn b = -1 := by intro b; cases b <;> norm_num [sgn]
  have e : dof g o n (shape c fe m) = fe.mat m 0 * dof g o n (refPoly c 0) + fe.mat m 1 * dof g o n (refPoly c 1)
      + fe.mat m 2 * dof g o n (refPoly c 2) + fe.mat m 3 * dof g o n (refPoly c 3) + fe.mat m 4 * dof g o n (refPoly c 4)
      + fe.mat m 5 * dof g o n (refPoly c 5) := by
    simp only [shape, op, outF, Finset.sum_range_succ, Finset.sum_range_zero, zero_add, map_add, map_smul, smul_eq_mul]
  rw [e]
  change fe.mat m 0 = _ at f0
  change fe.mat m 1 = _ at f1
  change fe.mat m 2 = _ at f2
  change fe.mat m 3 = _ at f3
  change fe.mat m 4 = _ at f4
  change fe.mat m 5 = _ at f5
  change dof g o n (refPoly c 0) = _ at h0
  change dof g o n (refPoly c 1) = _ at h1
  change dof g o n (refPoly c 2) = _ at h2
  change dof g o n (refPoly c 3) = _ at h3
  change dof g o n (refPoly c 4) = _ at h4
  change dof g o n (refPoly c 5) = _ at h5
  rw [f0, f1, f2, f3, f4, f5, h0, h1, h2, h3, h4, h5]
  clear f0 f1 f2 f3 f4 f5 h0 h1 h2 h3 h4 h5 e
  simp only [Fin.val_zero, Fin.val_one, Fin.val_two] at b0 b1 b2 n0 n1 n2
  fin_cases n <;> fin_cases m <;> simp [matrix, upper, lower, kappa, B11_eq, B12_eq, lInv]
  all_goals
    rcases hs (o 0) with h0 | h0 <;> rcases hs (o 1) with h1 | h1 <;> rcases hs (o 2) with h2 | h2 <;> simp only [h0, h1, h2] <;>
      field_simp <;> ring

/-! ## Theorems -/

/-- A default constructed finite element which has been bound any number of times. -/
noncomputable def bindAll (history : List (Affine × (Nat → Bool))) : Bound :=
  history.foldl (fun fe b => bind fe b.1 b.2) fresh

theorem fill_clean (g : Affine) (o : Nat → Bool) (M : Mat) (hM : Clean M) : Clean (fillMatrix g o M) := by
  intro m n h
  rw [fill_eq g o M hM]
  fin_cases m <;> fin_cases n <;> simp [matrix, upper, lower] at h ⊢

theorem bindAll_clean (history : List (Affine × (Nat → Bool))) : Clean (bindAll history).mat := by
  have : ∀ fe : Bound, Clean fe.mat → Clean (history.foldl (fun fe b => bind fe b.1 b.2) fe).mat := by
    induction history with
    | nil => exact fun fe h => h
    | cons b l ih => exact fun fe h => ih _ (fill_clean b.1 b.2 _ h)
  exact this fresh fun _ _ _ => rfl

/-- The matrix depends on the last bound element only. -/
theorem bindAll_mat (history : List (Affine × (Nat → Bool))) (g : Affine) (o : Nat → Bool) (m n : Fin 6) :
    (bindAll (history ++ [(g, o)])).mat m n = matrix g o m n := by
  simp only [bindAll, List.foldl_append, List.foldl_cons, List.foldl_nil, bind]
  exact fill_eq g o _ (bindAll_clean history) m n

theorem bindAll_normals (history : List (Affine × (Nat → Bool))) (g : Affine) (o : Nat → Bool) :
    (bindAll (history ++ [(g, o)])).normals = normals g o := by
  simp only [bindAll, List.foldl_append, List.foldl_cons, List.foldl_nil, bind]

/-- **C50, polynomials.** The values, Jacobians, Hessians and partial derivatives returned by the local basis of a Morley
element are those of fixed polynomials. Derivatives of order three and more are refused by an exception. -/
theorem C50_polynomials (c : ℝ) (fe : Bound) :
    ∃ P : Nat → MvPolynomial (Fin 2) ℝ, ∀ x : Fin 2 → ℝ,
      evaluateFunction c fe x = some ((List.range 6).map fun m => eval x (P m)) ∧
      evaluateJacobian c fe x = some ((List.range 6).map fun m => fun i => eval x (pderiv i (P m))) ∧
      evaluateHessian c fe x = some ((List.range 6).map fun m => fun i j => eval x (pderiv i (pderiv j (P m)))) ∧
      ∀ order : Fin 2 → Nat, «partial» c fe order x =
        if ∑ k, order k ≤ 2 then .ok ((List.range 6).map fun m => eval x (deriv order (P m))) else .rangeError :=
  ⟨shape c fe, evaluate_eq c fe⟩

/-- The functionals applied to a shape function. `f` are its values and `df` its derivative with respect to global
coordinates. -/
theorem interpolate_shape {g : Affine} (hg : g.Regular) (o : Nat → Bool) (history : List (Affine × (Nat → Bool))) (c : ℝ)
    {m : Nat} (hm : m < 6) {f : Vec → ℝ} {df : Vec → Vec}
    (hf : ∀ x, ∃ values, evaluateFunction c (bindAll (history ++ [(g, o)])) x = some values ∧ values[m]? = some (f x))
    (hdf : ∀ i : Fin 3, ∃ jacobians, evaluateJacobian c (bindAll (history ++ [(g, o)])) (midpointR i) = some jacobians ∧
      jacobians[m]? = some fun j => ∑ d, df (midpointR i) d * g.J d j) :
    interpolate (bindAll (history ++ [(g, o)])) f df = some ((List.range 6).map fun n => (if n = m then 1 else 0)
      + if n = 5 then (c * Real.sqrt 2 - 1) * (sgn (o 2) * (bnn g 2)⁻¹ * matrix g o m n) else 0) := by
  set fe := bindAll (history ++ [(g, o)]) with hfe
  have hf' : f = fun x => eval x (shape c fe m) := by
    funext x
    obtain ⟨vs, h1, h2⟩ := hf x
    rw [(evaluate_eq c fe x).1] at h1
    cases h1
    simpa [hm] using h2.symm
  have hd : ∀ (i : Fin 3) (j : Fin 2), ∑ d, df (midpointR i) d * g.J d j = eval (midpointR i) (pderiv j (shape c fe m)) := by
    intro i j
    obtain ⟨vs, h1, h2⟩ := hdf i
    rw [(evaluate_eq c fe _).2.1] at h1
    cases h1
    simp only [List.getElem?_map, List.getElem?_range hm, Option.map_some, Option.some.injEq] at h2
    exact (congrFun h2 j).symm
  rw [hf', interpolate_eq hg o fe (bindAll_normals history g o) _ df hd]
  congr 1
  apply List.map_congr_left
  intro n hn
  rw [List.mem_range] at hn
  have := duality hg o c fe (bindAll_mat history g o) ⟨m, hm⟩ ⟨n, hn⟩
  simp only [Fin.ext_iff] at this
  rw [this]
  simp only [eq_comm]
  rfl

/-- **C50.** Interpolation of a shape function of a bound Morley element returns the corresponding unit vector, for every
non-degenerate triangle and every combination of edge orientations, whatever the element was bound to before. -/
theorem C50 {g : Affine} (hg : g.Regular) (o : Nat → Bool) (history : List (Affine × (Nat → Bool)))
    {c : ℝ} (hc : c = 1 / 2 * Real.sqrt 2) {m : Nat} (hm : m < 6) {f : Vec → ℝ} {df : Vec → Vec}
    (hf : ∀ x, ∃ values, evaluateFunction c (bindAll (history ++ [(g, o)])) x = some values ∧ values[m]? = some (f x))
    (hdf : ∀ i : Fin 3, ∃ jacobians, evaluateJacobian c (bindAll (history ++ [(g, o)])) (midpointR i) = some jacobians ∧
      jacobians[m]? = some fun j => ∑ d, df (midpointR i) d * g.J d j) :
    interpolate (bindAll (history ++ [(g, o)])) f df = some ((List.range 6).map fun n => if n = m then 1 else 0) := by
  rw [interpolate_shape hg o history c hm hf hdf]
  have : c * Real.sqrt 2 - 1 = 0 := by rw [hc]; linear_combination (1 / 2) * sqrt2_sq
  simp [this]

/-- **C50, decimal constant.** With the constant of the code (morleybasis.hh:114), interpolation of shape function `m` returns
the unit vector, except for the last entry. This entry is wrong by the error of the constant, times the ratio of two
entries of the transformation. -/
theorem C50_constant {g : Affine} (hg : g.Regular) (o : Nat → Bool) (history : List (Affine × (Nat → Bool)))
    {c : ℝ} (hc : c = 0.5 * 1.414213562373095) {m : Nat} (hm : m < 6) {f : Vec → ℝ} {df : Vec → Vec}
    (hf : ∀ x, ∃ values, evaluateFunction c (bindAll (history ++ [(g, o)])) x = some values ∧ values[m]? = some (f x))
    (hdf : ∀ i : Fin 3, ∃ jacobians, evaluateJacobian c (bindAll (history ++ [(g, o)])) (midpointR i) = some jacobians ∧
      jacobians[m]? = some fun j => ∑ d, df (midpointR i) d * g.J d j) :
    ∃ last, interpolate (bindAll (history ++ [(g, o)])) f df
        = some ((List.range 6).map fun n => if n = 5 then last else if n = m then 1 else 0) ∧
      |last - if m = 5 then 1 else 0| ≤ 1e-16 *
        |(bindAll (history ++ [(g, o)])).mat m 5 / (bindAll (history ++ [(g, o)])).mat 5 5| := by
  refine ⟨(if m = 5 then 1 else 0) + (c * Real.sqrt 2 - 1) * (sgn (o 2) * (bnn g 2)⁻¹ * matrix g o m 5), ?_, ?_⟩
  · rw [interpolate_shape hg o history c hm hf hdf]
    congr 1
    apply List.map_congr_left
    intro n _
    by_cases h5 : n = 5
    · subst h5
      simp only [if_true, eq_comm]
    · simp [h5]
  · have e1 := bindAll_mat history g o ⟨m, hm⟩ 5
    have e2 := bindAll_mat history g o 5 5
    simp only at e1 e2
    change (bindAll (history ++ [(g, o)])).mat m 5 = matrix g o m 5 at e1
    change (bindAll (history ++ [(g, o)])).mat 5 5 = matrix g o 5 5 at e2
    rw [e1, e2, add_sub_cancel_left, abs_mul]
    have e3 : matrix g o 5 5 = sgn (o 2) * bnn g 2 := by simp [matrix, B11_eq]
    have e4 : sgn (o 2) * (bnn g 2)⁻¹ * matrix g o m 5 = matrix g o m 5 / matrix g o 5 5 := by
      rw [e3]
      have := bnn_ne hg 2
      simp only [Fin.val_two] at this
      unfold sgn
      cases o 2 <;> simp <;> field_simp
    rw [e4]
    apply mul_le_mul_of_nonneg_right _ (abs_nonneg _)
    have l1 : (1.414213562373095 : ℝ) ≤ Real.sqrt 2 := Real.le_sqrt_of_sq_le (by norm_num)
    have l2 : Real.sqrt 2 ≤ 1.4142135623730951 := Real.sqrt_le_iff.2 ⟨by norm_num, by norm_num⟩
    rw [hc, abs_le]
    constructor <;> nlinarith [sqrt2_sq]

/-- Every exponent of degree at most two belongs to the monomial set. -/
theorem mem_exponents (e : List Nat) (h : e.length = 2 ∧ e.sum ≤ 2) :
    e ∈ [[0, 0], [1, 0], [0, 1], [2, 0], [1, 1], [0, 2]] := by
  have h1 := (Verif.Analytic.all2 2).all e
  have h2 := Verif.Analytic.exponents2_eq 2
  have h3 : Verif.Analytic.exponents2 2 = some [[0, 0], [1, 0], [0, 1], [2, 0], [1, 1], [0, 2]] := by decide
  rw [h2, Option.some.injEq] at h3
  rw [← h3]
  exact h1.2 h

/-- **C50, reproduction.** If `p` is a polynomial of degree at most two and `df` its derivative with respect to global
coordinates, then the linear combination of the shape functions with the coefficients returned by `interpolate` is `p`. -/
theorem C50_reproduction {g : Affine} (hg : g.Regular) (o : Nat → Bool) (history : List (Affine × (Nat → Bool)))
    {c : ℝ} (hc : c = 1 / 2 * Real.sqrt 2) (p : MvPolynomial (Fin 2) ℝ) (hp : p.totalDegree ≤ 2) {df : Vec → Vec}
    (hdf : ∀ (i : Fin 3) (j : Fin 2), ∑ d, df (midpointR i) d * g.J d j = eval (midpointR i) (pderiv j p)) (x : Vec) :
    ∃ coefficients values, interpolate (bindAll (history ++ [(g, o)])) (fun x => eval x p) df = some coefficients ∧
      evaluateFunction c (bindAll (history ++ [(g, o)])) x = some values ∧ coefficients.length = values.length ∧
      (List.zipWith (· * ·) coefficients values).sum = eval x p := by
  set fe := bindAll (history ++ [(g, o)]) with hfe
  refine ⟨_, _, interpolate_eq hg o fe (bindAll_normals history g o) p df hdf, (evaluate_eq c fe x).1, by simp, ?_⟩
  have hc' : c * Real.sqrt 2 - 1 = 0 := by rw [hc]; linear_combination (1 / 2) * sqrt2_sq
  have key : (∑ n : Fin 6, eval x (shape c fe n) • dof g o n) p = evalL x p := by
    apply linear_ext _ _ 2 _ p hp
    intro e h1 h2
    obtain ⟨j, hj, rfl⟩ := List.getElem_of_mem (mem_exponents e ⟨h1, h2⟩)
    have := reproduction (dim := 2) (E := [[0, 0], [1, 0], [0, 1], [2, 0], [1, 1], [0, 2]]) (shape c fe)
      (fun m j => ∑ k ∈ Finset.range 6, fe.mat m k * ((refBasis c).coefficients[k]?.getD [])[j.val]?.getD 0)
      (by
        intro m
        simp only [Finset.sum_smul]
        rw [Finset.sum_comm]
        simp only [shape, op, outF]
        apply Finset.sum_congr rfl
        intro k hk
        rw [Finset.mem_range] at hk
        rw [refPoly, RefBasis.poly, poly_sum, Finset.smul_sum]
        · simp only [smul_smul]
        · have := (rowsBasis_WF wf c).2
          apply this
          rw [List.getElem?_eq_getElem (by simpa [refBasis, rowsBasis, rows] using hk)]
          exact List.getElem_mem _)
      (dof g o)
      (by
        intro m n
        have := duality hg o c fe (bindAll_mat history g o) m n
        rw [this, hc']
        simp [eq_comm]) ⟨j, hj⟩
    have h3 := congrArg (evalL x) this
    rw [map_sum] at h3
    simp only [LinearMap.sum_apply, LinearMap.smul_apply, smul_eq_mul]
    refine Eq.trans ?_ h3
    apply Finset.sum_congr rfl
    intro n _
    rw [map_smul, evalL_apply, smul_eq_mul, mul_comm]
    rfl
  rw [← evalL_apply, ← key]
  simp only [LinearMap.sum_apply, LinearMap.smul_apply, smul_eq_mul, List.zipWith_map, List.zipWith_self]
  rw [Fin.sum_univ_eq_sum_range (fun n => eval x (shape c fe n) * dof g o n p)]
  simp only [mul_comm]
  rfl

/-! ## Examples -/

/-- A triangle with edges of length 3, 4 and 5. -/
def exampleTriangle : Affine := ⟨![7, -1], !![3, 0; 0, 4]⟩

/-- Edges 0 and 2 are oriented against the default direction. -/
def exampleOrientation (i : Nat) : Bool := i ≠ 1

theorem exampleTriangle_regular : exampleTriangle.Regular := by
  norm_num [Affine.Regular, exampleTriangle]

/-- The hypotheses hold for the triangle, after binding to another element. -/
example {m : Nat} (hm : m < 6) {f : Vec → ℝ} {df : Vec → Vec}
    (hf : ∀ x, ∃ values, evaluateFunction (1 / 2 * Real.sqrt 2)
      (bindAll [(⟨![0, 0], !![1, 1; 0, 1]⟩, fun _ => true), (exampleTriangle, exampleOrientation)]) x = some values ∧
      values[m]? = some (f x))
    (hdf : ∀ i : Fin 3, ∃ jacobians, evaluateJacobian (1 / 2 * Real.sqrt 2)
      (bindAll [(⟨![0, 0], !![1, 1; 0, 1]⟩, fun _ => true), (exampleTriangle, exampleOrientation)]) (midpointR i) = some jacobians ∧
      jacobians[m]? = some fun j => ∑ d, df (midpointR i) d * exampleTriangle.J d j) :
    interpolate (bindAll [(⟨![0, 0], !![1, 1; 0, 1]⟩, fun _ => true), (exampleTriangle, exampleOrientation)]) f df
      = some ((List.range 6).map fun n => if n = m then 1 else 0) :=
  C50 exampleTriangle_regular exampleOrientation [(⟨![0, 0], !![1, 1; 0, 1]⟩, fun _ => true)] rfl hm hf hdf

/-- Shape functions which satisfy the hypotheses exist. -/
example : ∃ (f : Vec → ℝ) (df : Vec → Vec),
    (∀ x, ∃ values, evaluateFunction (1 / 2 * Real.sqrt 2) (bindAll [(exampleTriangle, exampleOrientation)]) x = some values ∧
      values[1]? = some (f x)) ∧
    (∀ i : Fin 3, ∃ jacobians, evaluateJacobian (1 / 2 * Real.sqrt 2) (bindAll [(exampleTriangle, exampleOrientation)])
      (midpointR i) = some jacobians ∧ jacobians[1]? = some fun j => ∑ d, df (midpointR i) d * exampleTriangle.J d j) := by
  have h := evaluate_eq (1 / 2 * Real.sqrt 2) (bindAll [(exampleTriangle, exampleOrientation)])
  generalize shape (1 / 2 * Real.sqrt 2) (bindAll [(exampleTriangle, exampleOrientation)]) = P at h
  refine ⟨fun x => eval x (P 1), fun x => ![eval x (pderiv 0 (P 1)) / 3, eval x (pderiv 1 (P 1)) / 4],
    fun x => ⟨_, (h x).1, rfl⟩, fun i => ⟨_, (h (midpointR i)).2.1, ?_⟩⟩
  simp only [List.getElem?_map, List.getElem?_range (show 1 < 6 by omega), Option.map_some, Option.some.injEq]
  funext j
  fin_cases j <;> simp [exampleTriangle, Fin.sum_univ_two]

/-- Two entries of the transformation of the triangle. -/
example : (bindAll [(exampleTriangle, exampleOrientation)]).mat 1 5 = 7 / (25 * Real.sqrt 2) ∧
    (bindAll [(exampleTriangle, exampleOrientation)]).mat 5 5 = -24 / (5 * Real.sqrt 2) := by
  have h := fun m n => bindAll_mat [] exampleTriangle exampleOrientation m n
  have h1 := h 1 5
  have h2 := h 5 5
  have e : globalEdge exampleTriangle 2 = ![-3, 4] := by
    funext d
    have := refEdge_eq 2
    simp only [Fin.val_two] at this
    rw [globalEdge_eq, this]
    fin_cases d <;> simp [exampleTriangle]
  have l : twoNorm ![-3, 4] = 5 := by
    rw [twoNorm, show (![-3, 4] : Vec) 0 * ![-3, 4] 0 + (![-3, 4] : Vec) 1 * ![-3, 4] 1 = 5 ^ 2 by simp; norm_num]
    exact Real.sqrt_sq (by norm_num)
  have t := refTangent_eq 2
  simp only [Fin.val_two] at t
  have s0 := sqrt2_ne
  constructor
  · refine h1.trans ?_
    simp [matrix, upper, lower, B12, globalTangent, lInv, e, l, t, jT]
    simp [exampleTriangle]
    field_simp
    norm_num
  · refine h2.trans ?_
    simp [matrix, B11, globalTangent, lInv, e, l, t, jT, sgn, exampleOrientation]
    simp [exampleTriangle]
    field_simp
    norm_num

end Verif.FE.Morley

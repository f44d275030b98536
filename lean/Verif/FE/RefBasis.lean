import Verif.Analytic.MonomialSet
import Mathlib.Data.Rat.Cast.CharZero
import Mathlib.Data.Real.Basic
import Mathlib.Algebra.Module.Basic
import Mathlib.Algebra.Module.Pi
import Mathlib.Algebra.Module.BigOperators
import Mathlib.LinearAlgebra.Pi
import Mathlib.LinearAlgebra.Matrix.NonsingularInverse
import Mathlib.Tactic.IntervalCases
import Mathlib.Tactic.FinCases

/-!
# Reference shape functions given by a coefficient matrix

The common part of the reference local bases of `cubichermitebasis.hh`, `morleybasis.hh` and `argyrisbasis.hh`: values,
Jacobians, Hessians and partial derivatives are the product of a coefficient matrix and the evaluation of a `MonomialSet`.
The three classes contain identical copies of this code.

Numbers are elements of a commutative ring `K`. A Jacobian of a shape function is `FieldMatrix<R,1,dim>` in the code and a
vector here (`squeezeTensor`).
-/

namespace Verif.FE

open Verif.Analytic
open MvPolynomial (pderiv eval)

section Model

variable {K : Type} [CommRing K] {V : Type} [AddCommGroup V] [Module K V]

/-- cubichermitebasis.hh:117-118: the inner loop of `multiplyWithCoefficentMatrix`. -/
def multiplyRow (acc : V) : List K → List V → Option V
  | [], _ => some acc
  | _ :: _, [] => none
  | c :: cs, v :: vs => multiplyRow (acc + c • v) cs vs

/-- cubichermitebasis.hh:109-120 `multiplyWithCoefficentMatrix`. -/
def multiply (coefficients : List (List K)) (monomialValues : List V) : Option (List V) :=
  coefficients.mapM fun row => multiplyRow 0 row monomialValues

/-- A list of numbers as `FieldVector`. -/
def toVec (dim : Nat) (l : List K) : Fin dim → K := fun i => l[i.val]?.getD 0

/-- `monomials.exponents()` for the dimensions which exist (monomialset.hh). -/
def exponents : Nat → Nat → Option (List (List Nat))
  | 1, D => exponents1 D
  | 2, D => exponents2 D
  | 3, D => exponents3 D
  | _, _ => none

/-- `monomials(in)`. -/
def monoValue (D : Nat) : (dim : Nat) → (Fin dim → K) → Option (List K)
  | 1, x => value1 D x
  | 2, x => value2 D x
  | 3, x => value3 D x
  | _, _ => none

/-- `derivative(monomials)(in)`, one row per monomial. -/
def monoJacobian (D : Nat) : (dim : Nat) → (Fin dim → K) → Option (List (Fin dim → K))
  | 1, x => (jacobian1 D x).map (List.map (toVec 1))
  | 2, x => (jacobian2 D x).map (List.map (toVec 2))
  | 3, x => (jacobian3 D x).map (List.map (toVec 3))
  | _, _ => none

/-- A list of rows as `FieldMatrix`. -/
def toMat (dim : Nat) (l : List (List K)) : Fin dim → Fin dim → K := fun i => toVec dim (l[i.val]?.getD [])

/-- `derivative(derivative(monomials))(in)`, one matrix per monomial. -/
def monoHessian (D : Nat) : (dim : Nat) → (Fin dim → K) → Option (List (Fin dim → Fin dim → K))
  | 1, x => (hessian1 D x).map (List.map (toMat 1))
  | 2, x => (hessian2 D x).map (List.map (toMat 2))
  | 3, x => (hessian3 D x).map (List.map (toMat 3))
  | _, _ => none

/-- The static data of a reference local basis: degree of the monomial set and `referenceBasisCoefficients`. -/
structure RefBasis (K : Type) where
  degree : Nat
  coefficients : List (List K)

variable {dim : Nat}

/-- cubichermitebasis.hh:303-309, morleybasis.hh:148-154, argyrisbasis.hh:337-343. -/
def RefBasis.evaluateFunction (b : RefBasis K) (x : Fin dim → K) : Option (List K) := do
  multiply b.coefficients (← monoValue b.degree dim x)

/-- cubichermitebasis.hh:316-322, morleybasis.hh:161-167, argyrisbasis.hh:350-356. -/
def RefBasis.evaluateJacobian (b : RefBasis K) (x : Fin dim → K) : Option (List (Fin dim → K)) := do
  multiply b.coefficients (← monoJacobian b.degree dim x)

/-- cubichermitebasis.hh:329-335, morleybasis.hh:174-180, argyrisbasis.hh:363-369. -/
def RefBasis.evaluateHessian (b : RefBasis K) (x : Fin dim → K) : Option (List (Fin dim → Fin dim → K)) := do
  multiply b.coefficients (← monoHessian b.degree dim x)

/-- `std::max_element(order.begin(), order.end()) - order.begin()`: position of the first maximum. -/
def maxElement (order : List Nat) : Nat :=
  (order.foldl (fun (s : Nat × Nat × Nat) v => if s.2.1 < v then (s.2.2, v, s.2.2 + 1) else (s.1, s.2.1, s.2.2 + 1))
    (0, order.headD 0, 0)).1

/-- Outcome of a call. `rangeError` is the exception of the code, `ub` an access out of range. -/
inductive Outcome (α : Type) where
  | ok (a : α)
  | rangeError
  | ub
deriving DecidableEq

/-- An optional value as outcome. -/
def Outcome.of {α : Type} : Option α → Outcome α
  | some a => .ok a
  | none => .ub

/-- cubichermitebasis.hh:343-376, morleybasis.hh:188-219, argyrisbasis.hh:377-408: `partial`. `order` is the array of
partial derivative orders. -/
def RefBasis.«partial» (b : RefBasis K) (order : Fin dim → Nat) (x : Fin dim → K) : Outcome (List K) :=
  let o := List.ofFn order
  let totalOrder := o.sum
  if totalOrder = 0 then Outcome.of (b.evaluateFunction x)
  else if totalOrder = 1 then Outcome.of do
    let jacobiansBuffer ← b.evaluateJacobian x
    let which := maxElement o
    jacobiansBuffer.mapM fun j => if h : which < dim then some (j ⟨which, h⟩) else none
  else if totalOrder = 2 then Outcome.of do
    let hessianBuffer ← b.evaluateHessian x
    let first := maxElement o
    let second := if o[first]? = some 2 then first else maxElement (o.set first 0)
    hessianBuffer.mapM fun j =>
      if h : first < dim ∧ second < dim then some (j ⟨first, h.1⟩ ⟨second, h.2⟩) else none
  else .rangeError

/-- A sequence of assignments `out[i] = v`. -/
def writeAll {α : Type} (out : List α) (ws : List (Nat × α)) : Option (List α) :=
  ws.foldlM (fun o w => write o w.1 w.2) out

end Model

/-! ## Specification: the shape functions are polynomials -/

/-- The polynomial with the given coefficients with respect to the monomials with exponents `E`. -/
noncomputable def poly {K : Type} [CommRing K] (dim : Nat) (E : List (List Nat)) (c : List K) : MvPolynomial (Fin dim) K :=
  (List.zipWith (fun a e => MvPolynomial.C a * mono K dim e) c E).sum

/-- Iterated partial derivative with the given orders. -/
noncomputable def deriv {K : Type} [CommRing K] {dim : Nat} (o : Fin dim → Nat) (p : MvPolynomial (Fin dim) K) :
    MvPolynomial (Fin dim) K :=
  (List.finRange dim).foldr (fun k q => (pderiv k)^[o k] q) p

/-- The coefficient matrix matches the monomial set. -/
def RefBasis.WF {K : Type} (b : RefBasis K) (dim : Nat) (E : List (List Nat)) : Prop :=
  exponents dim b.degree = some E ∧ ∀ c ∈ b.coefficients, c.length = E.length

section Lemmas

variable {K : Type} [CommRing K] {V : Type} [AddCommGroup V] [Module K V] {dim : Nat}

theorem multiplyRow_eq (cs : List K) : ∀ (vs : List V) (acc : V), cs.length = vs.length →
    multiplyRow acc cs vs = some (acc + (List.zipWith (fun c v => c • v) cs vs).sum) := by
  induction cs with
  | nil => intro vs acc h; simp [multiplyRow]
  | cons c cs ih =>
    intro vs acc h
    match vs, h with
    | v :: vs, h =>
      simp only [List.length_cons, Nat.add_right_cancel_iff] at h
      simp [multiplyRow, ih vs _ h, add_assoc]

theorem mapM_some {α β : Type} (l : List α) (f : α → Option β) (g : α → β) (h : ∀ a ∈ l, f a = some (g a)) :
    l.mapM f = some (l.map g) := by
  induction l with
  | nil => rfl
  | cons a l ih =>
    rw [List.mapM_cons, h a (by simp), ih fun b hb => h b (by simp [hb])]
    rfl

theorem multiply_eq (C : List (List K)) (vs : List V) (h : ∀ c ∈ C, c.length = vs.length) :
    multiply C vs = some (C.map fun c => (List.zipWith (fun a v => a • v) c vs).sum) := by
  apply mapM_some
  intro c hc
  rw [multiplyRow_eq c vs 0 (h c hc), zero_add]

theorem eval_poly (x : Fin dim → K) (E : List (List Nat)) (c : List K) :
    eval x (poly dim E c) = (List.zipWith (fun a v => a • v) c (E.map fun e => eval x (mono K dim e))).sum := by
  simp only [poly, map_list_sum, List.map_zipWith, List.zipWith_map_right]
  congr 2
  funext a e
  simp

theorem eval_pderiv_poly (x : Fin dim → K) (i : Fin dim) (E : List (List Nat)) (c : List K) :
    eval x (pderiv i (poly dim E c))
      = (List.zipWith (fun a v => a • v) c (E.map fun e => eval x (pderiv i (mono K dim e)))).sum := by
  simp only [poly, map_list_sum, List.map_zipWith, List.zipWith_map_right]
  congr 2
  funext a e
  simp

theorem eval_pderiv2_poly (x : Fin dim → K) (i j : Fin dim) (E : List (List Nat)) (c : List K) :
    eval x (pderiv i (pderiv j (poly dim E c)))
      = (List.zipWith (fun a v => a • v) c (E.map fun e => eval x (pderiv i (pderiv j (mono K dim e))))).sum := by
  simp only [poly, map_list_sum, List.map_zipWith, List.zipWith_map_right]
  congr 2
  funext a e
  simp

theorem zipSum_apply {ι : Type} (c : List K) (vs : List (ι → K)) (i : ι) :
    (List.zipWith (fun a v => a • v) c vs).sum i = (List.zipWith (fun a v => a • v) c (vs.map fun v => v i)).sum := by
  induction c generalizing vs with
  | nil => simp
  | cons a c ih =>
    cases vs with
    | nil => simp
    | cons v vs => simp [ih]

theorem zipSum_apply2 {ι : Type} (c : List K) (vs : List (ι → ι → K)) (i j : ι) :
    (List.zipWith (fun a v => a • v) c vs).sum i j = (List.zipWith (fun a v => a • v) c (vs.map fun v => v i j)).sum := by
  induction c generalizing vs with
  | nil => simp
  | cons a c ih =>
    cases vs with
    | nil => simp
    | cons v vs => simp [ih]

theorem toVec_gradSpec (x : Fin dim → K) (e : List Nat) :
    toVec dim (gradSpec dim x e) = fun i => eval x (pderiv i (mono K dim e)) := by
  funext i
  simp [toVec, gradSpec]

theorem toMat_hessSpec (x : Fin dim → K) (e : List Nat) :
    toMat dim (hessSpec dim x e) = fun i j => eval x (pderiv i (pderiv j (mono K dim e))) := by
  funext i j
  simp [toMat, toVec, hessSpec]

theorem monoValue_eq {D : Nat} {E : List (List Nat)} (h : exponents dim D = some E) (x : Fin dim → K) :
    monoValue D dim x = some (E.map fun e => eval x (mono K dim e)) := by
  match dim, h, x with
  | 1, h, x => simp only [exponents] at h; simp [monoValue, value1_spec, h]
  | 2, h, x => simp only [exponents] at h; simp [monoValue, value2_spec, h]
  | 3, h, x => simp only [exponents] at h; simp [monoValue, value3_spec, h]

theorem monoJacobian_eq {D : Nat} {E : List (List Nat)} (h : exponents dim D = some E) (x : Fin dim → K) :
    monoJacobian D dim x = some (E.map fun e => fun i => eval x (pderiv i (mono K dim e))) := by
  match dim, h, x with
  | 1, h, x => simp only [exponents] at h; simp [monoJacobian, jacobian1_spec, h, Function.comp_def, toVec_gradSpec]
  | 2, h, x => simp only [exponents] at h; simp [monoJacobian, jacobian2_spec, h, Function.comp_def, toVec_gradSpec]
  | 3, h, x => simp only [exponents] at h; simp [monoJacobian, jacobian3_spec, h, Function.comp_def, toVec_gradSpec]

theorem monoHessian_eq {D : Nat} {E : List (List Nat)} (h : exponents dim D = some E) (x : Fin dim → K) :
    monoHessian D dim x = some (E.map fun e => fun i j => eval x (pderiv i (pderiv j (mono K dim e)))) := by
  match dim, h, x with
  | 1, h, x => simp only [exponents] at h; simp [monoHessian, hessian1_spec, h, Function.comp_def, toMat_hessSpec]
  | 2, h, x => simp only [exponents] at h; simp [monoHessian, hessian2_spec, h, Function.comp_def, toMat_hessSpec]
  | 3, h, x => simp only [exponents] at h; simp [monoHessian, hessian3_spec, h, Function.comp_def, toMat_hessSpec]

theorem RefBasis.evaluateFunction_eq {b : RefBasis K} {E : List (List Nat)} (h : b.WF dim E) (x : Fin dim → K) :
    b.evaluateFunction x = some (b.coefficients.map fun c => eval x (poly dim E c)) := by
  simp only [evaluateFunction, monoValue_eq h.1, Option.bind_eq_bind, Option.bind_some]
  rw [multiply_eq _ _ (by simpa using h.2)]
  simp only [eval_poly]

theorem RefBasis.evaluateJacobian_eq {b : RefBasis K} {E : List (List Nat)} (h : b.WF dim E) (x : Fin dim → K) :
    b.evaluateJacobian x = some (b.coefficients.map fun c => fun i => eval x (pderiv i (poly dim E c))) := by
  simp only [evaluateJacobian, monoJacobian_eq h.1, Option.bind_eq_bind, Option.bind_some]
  rw [multiply_eq _ _ (by simpa using h.2)]
  congr 2
  funext c i
  rw [zipSum_apply, List.map_map, eval_pderiv_poly]
  rfl

theorem RefBasis.evaluateHessian_eq {b : RefBasis K} {E : List (List Nat)} (h : b.WF dim E) (x : Fin dim → K) :
    b.evaluateHessian x = some (b.coefficients.map fun c => fun i j => eval x (pderiv i (pderiv j (poly dim E c)))) := by
  simp only [evaluateHessian, monoHessian_eq h.1, Option.bind_eq_bind, Option.bind_some]
  rw [multiply_eq _ _ (by simpa using h.2)]
  congr 2
  funext c i j
  rw [zipSum_apply2, List.map_map, eval_pderiv2_poly]
  rfl

theorem deriv1 (o : Fin 1 → Nat) (p : MvPolynomial (Fin 1) K) : deriv o p = (pderiv 0)^[o 0] p := by
  simp [deriv, List.finRange_succ]

theorem deriv2 (o : Fin 2 → Nat) (p : MvPolynomial (Fin 2) K) : deriv o p = (pderiv 0)^[o 0] ((pderiv 1)^[o 1] p) := by
  simp [deriv, List.finRange_succ]

theorem deriv3 (o : Fin 3 → Nat) (p : MvPolynomial (Fin 3) K) :
    deriv o p = (pderiv 0)^[o 0] ((pderiv 1)^[o 1] ((pderiv 2)^[o 2] p)) := by
  simp [deriv, List.finRange_succ]

/-- `partial` returns the derivatives of the shape functions for every derivative order up to two and throws otherwise. -/
theorem RefBasis.partial_eq {b : RefBasis K} {E : List (List Nat)} (h : b.WF dim E) (order : Fin dim → Nat) (x : Fin dim → K) :
    b.«partial» order x = if ∑ k, order k ≤ 2 then .ok (b.coefficients.map fun c => eval x (deriv order (poly dim E c)))
      else .rangeError := by
  have hs : (List.ofFn order).sum = ∑ k, order k := List.sum_ofFn
  by_cases h2 : ∑ k, order k ≤ 2
  case neg =>
    rw [if_neg h2]
    simp only [RefBasis.«partial», hs]
    rw [if_neg (by omega), if_neg (by omega), if_neg (by omega)]
  rw [if_pos h2]
  simp only [RefBasis.«partial», evaluateFunction_eq h, evaluateJacobian_eq h, evaluateHessian_eq h, Option.bind_eq_bind, Option.bind_some]
  match dim, h, order, x, h2, hs with
  | 1, h, order, x, h2, hs =>
    obtain ⟨a, rfl⟩ : ∃ a, order = ![a] := ⟨order 0, by funext i; fin_cases i; rfl⟩
    simp at h2
    interval_cases a <;> simp [deriv1, maxElement, Outcome.of, mapM_some _ _ _ (fun _ _ => rfl)]
  | 2, h, order, x, h2, hs =>
    obtain ⟨a, b, rfl⟩ : ∃ a b, order = ![a, b] := ⟨order 0, order 1, by funext i; fin_cases i <;> rfl⟩
    simp [Fin.sum_univ_two] at h2
    have ha : a ≤ 2 := by omega
    have hb : b ≤ 2 := by omega
    interval_cases a <;> interval_cases b <;> first
      | omega
      | simp [deriv2, maxElement, Outcome.of, mapM_some _ _ _ (fun _ _ => rfl)]
  | 3, h, order, x, h2, hs =>
    obtain ⟨a, b, c, rfl⟩ : ∃ a b c, order = ![a, b, c] := ⟨order 0, order 1, order 2, by funext i; fin_cases i <;> rfl⟩
    simp [Fin.sum_univ_three] at h2
    have ha : a ≤ 2 := by omega
    have hb : b ≤ 2 := by omega
    have hc : c ≤ 2 := by omega
    interval_cases a <;> interval_cases b <;> interval_cases c <;> first
      | omega
      | simp [deriv3, maxElement, Outcome.of, mapM_some _ _ _ (fun _ _ => rfl)]

theorem writeAll_eq {α : Type} (ws : List (Nat × α)) (d : α) (h : ws.map Prod.fst = List.range ws.length) :
    writeAll (List.replicate ws.length d) ws = some (ws.map Prod.snd) := by
  have key : ∀ (ws pre : List (Nat × α)) (rest : List α), (pre ++ ws).map Prod.fst = List.range (pre ++ ws).length →
      rest.length = ws.length → writeAll (pre.map Prod.snd ++ rest) ws = some ((pre ++ ws).map Prod.snd) := by
    intro ws
    induction ws with
    | nil =>
      intro pre rest _ hl
      simp only [List.length_nil, List.length_eq_zero_iff] at hl
      simp [writeAll, hl]
    | cons w ws ih =>
      intro pre rest h hl
      match rest, hl with
      | r :: rest, hl =>
        have hw : w.1 = pre.length := by
          have := congrArg (fun l => l[pre.length]?) h
          simpa using this
        have := ih (pre ++ [w]) rest (by simpa using h) (by simpa using hl)
        simp only [List.append_assoc, List.singleton_append, List.map_append, List.map_cons, List.map_nil] at this
        have e : write (pre.map Prod.snd ++ r :: rest) w.1 w.2 = some (pre.map Prod.snd ++ w.2 :: rest) := by
          simpa [hw] using write_append (pre.map Prod.snd) r rest w.2
        simp only [writeAll, List.foldlM_cons, e, List.map_append, List.map_cons, Option.bind_eq_bind, Option.bind_some]
        exact this
  simpa using key ws [] (List.replicate ws.length d) (by simpa using h) (by simp)

theorem map_eq_range {α β : Type} (l : List α) (F : α → β) (d : α) :
    l.map F = (List.range l.length).map fun m => F (l[m]?.getD d) := by
  apply List.ext_getElem
  · simp
  · intro k h1 h2
    simp at h1
    simp [h1]

/-- Evaluation as linear map. -/
noncomputable def evalL (x : Fin dim → K) : MvPolynomial (Fin dim) K →ₗ[K] K :=
  (MvPolynomial.aeval x : MvPolynomial (Fin dim) K →ₐ[K] K).toLinearMap

theorem evalL_apply (x : Fin dim → K) (p : MvPolynomial (Fin dim) K) : evalL x p = eval x p := by
  rw [evalL, AlgHom.toLinearMap_apply, MvPolynomial.aeval_eq_eval]

/-- Evaluation of the gradient as linear map. -/
noncomputable def gradL (x : Fin dim → K) : MvPolynomial (Fin dim) K →ₗ[K] (Fin dim → K) :=
  LinearMap.pi fun i => evalL x ∘ₗ (pderiv i).toLinearMap

theorem gradL_apply (x : Fin dim → K) (p : MvPolynomial (Fin dim) K) : gradL x p = fun i => eval x (pderiv i p) := by
  funext i
  simp [gradL, evalL_apply]

/-- Evaluation of the Hessian as linear map. -/
noncomputable def hessL (x : Fin dim → K) : MvPolynomial (Fin dim) K →ₗ[K] (Fin dim → Fin dim → K) :=
  LinearMap.pi fun i => LinearMap.pi fun j => evalL x ∘ₗ (pderiv i).toLinearMap ∘ₗ (pderiv j).toLinearMap

theorem hessL_apply (x : Fin dim → K) (p : MvPolynomial (Fin dim) K) :
    hessL x p = fun i j => eval x (pderiv i (pderiv j p)) := by
  funext i j
  simp [hessL, evalL_apply]

theorem deriv_linear (o : Fin dim → Nat) :
    ∃ L : MvPolynomial (Fin dim) K →ₗ[K] MvPolynomial (Fin dim) K, ∀ p, L p = deriv o p := by
  unfold deriv
  generalize List.finRange dim = l
  induction l with
  | nil => exact ⟨LinearMap.id, fun p => rfl⟩
  | cons k l ih =>
    obtain ⟨L, hL⟩ := ih
    refine ⟨((pderiv k).toLinearMap ^ (o k)) ∘ₗ L, fun p => ?_⟩
    simp only [LinearMap.comp_apply, hL, List.foldr_cons]
    rw [Module.End.pow_apply]
    rfl

/-- A transformation of vectors with entries in an arbitrary vector space which commutes with linear maps. -/
structure LinOp (K : Type) [CommRing K] where
  app : ∀ {V : Type} [AddCommGroup V] [Module K V], (Nat → V) → Nat → V
  map : ∀ {V W : Type} [AddCommGroup V] [Module K V] [AddCommGroup W] [Module K W] (L : V →ₗ[K] W) (g : Nat → V) (m : Nat),
    L (app g m) = app (fun j => L (g j)) m

/-- The polynomials of the reference basis. -/
noncomputable def RefBasis.poly (b : RefBasis K) (dim : Nat) (E : List (List Nat)) (m : Nat) : MvPolynomial (Fin dim) K :=
  FE.poly dim E (b.coefficients[m]?.getD [])

theorem RefBasis.coefficients_map (b : RefBasis K) (E : List (List Nat)) {β : Type} (F : MvPolynomial (Fin dim) K → β) :
    b.coefficients.map (fun c => F (FE.poly dim E c))
      = (List.range b.coefficients.length).map fun m => F (b.poly dim E m) := by
  rw [map_eq_range _ _ []]
  rfl

/-- The transformed reference basis evaluates fixed polynomials and their derivatives. -/
theorem RefBasis.transformed {b : RefBasis K} {E : List (List Nat)} (h : b.WF dim E) (op : LinOp K)
    (tr : ∀ {V : Type} [AddCommGroup V] [Module K V], List V → Option (List V))
    (htr : ∀ {V : Type} [AddCommGroup V] [Module K V] (g : Nat → V),
      tr ((List.range b.coefficients.length).map g) = some ((List.range b.coefficients.length).map (op.app g)))
    (x : Fin dim → K) :
    (b.evaluateFunction x).bind tr
      = some ((List.range b.coefficients.length).map fun m => eval x (op.app (b.poly dim E) m)) ∧
    (b.evaluateJacobian x).bind tr
      = some ((List.range b.coefficients.length).map fun m => fun i => eval x (pderiv i (op.app (b.poly dim E) m))) ∧
    (b.evaluateHessian x).bind tr
      = some ((List.range b.coefficients.length).map fun m => fun i j => eval x (pderiv i (pderiv j (op.app (b.poly dim E) m)))) ∧
    ∀ order : Fin dim → Nat,
      (match b.«partial» order x with
        | .ok v => Outcome.of (tr v)
        | .rangeError => .rangeError
        | .ub => .ub)
      = if ∑ k, order k ≤ 2 then
          .ok ((List.range b.coefficients.length).map fun m => eval x (deriv order (op.app (b.poly dim E) m)))
        else .rangeError := by
  refine ⟨?_, ?_, ?_, ?_⟩
  · rw [evaluateFunction_eq h, Option.bind_some, b.coefficients_map E (fun p => eval x p), htr]
    simp only [← evalL_apply, op.map]
  · rw [evaluateJacobian_eq h, Option.bind_some, b.coefficients_map E (fun p => fun i => eval x (pderiv i p)), htr]
    congr 2
    funext m
    rw [← gradL_apply x (op.app _ m), op.map]
    simp only [gradL_apply]
  · rw [evaluateHessian_eq h, Option.bind_some, b.coefficients_map E (fun p => fun i j => eval x (pderiv i (pderiv j p))), htr]
    congr 2
    funext m
    rw [← hessL_apply x (op.app _ m), op.map]
    simp only [hessL_apply]
  · intro order
    rw [partial_eq h]
    by_cases h1 : ∑ k, order k ≤ 2
    case pos =>
      simp only [h1, if_true]
      rw [b.coefficients_map E (fun p => eval x (deriv order p))]
      simp only [htr, Outcome.of]
      obtain ⟨L, hL⟩ := deriv_linear (K := K) order
      simp only [← hL, ← evalL_apply, op.map]
    case neg => simp only [h1, if_false]

end Lemmas

/-! ## Coefficients and points given by rational numbers -/

section Cast

variable {K : Type} [Field K] [CharZero K] {dim : Nat}

/-- A rational number in `K`. -/
def castQ (K : Type) [DivisionRing K] : ℚ → K := fun q => (q : K)

/-- A reference basis with rational coefficients over the field `K`. -/
def RefBasis.cast (K : Type) [DivisionRing K] (b : RefBasis ℚ) : RefBasis K :=
  ⟨b.degree, b.coefficients.map (List.map (castQ K))⟩

theorem poly_cast (E : List (List Nat)) (c : List ℚ) :
    poly dim E (c.map (castQ K)) = MvPolynomial.map (Rat.castHom K) (poly dim E c) := by
  simp only [poly, map_list_sum, List.map_zipWith, List.zipWith_map_left]
  congr 2
  funext a e
  simp [mono_eq, castQ]

theorem eval_cast (x : Fin dim → ℚ) (p : MvPolynomial (Fin dim) ℚ) :
    eval (fun i => castQ K (x i)) (MvPolynomial.map (Rat.castHom K) p) = castQ K (eval x p) := by
  rw [MvPolynomial.eval_map]
  exact (MvPolynomial.eval₂_comp_left (Rat.castHom K) (RingHom.id ℚ) x p).symm.trans rfl |>.symm ▸ rfl

omit [CharZero K] in
theorem RefBasis.WF.cast {b : RefBasis ℚ} {E : List (List Nat)} (h : b.WF dim E) : (b.cast K).WF dim E := by
  refine ⟨h.1, ?_⟩
  intro c hc
  simp only [RefBasis.cast, List.mem_map] at hc
  obtain ⟨c', h', rfl⟩ := hc
  simpa using h.2 c' h'

theorem RefBasis.evaluateFunction_cast {b : RefBasis ℚ} {E : List (List Nat)} (h : b.WF dim E) (x : Fin dim → ℚ) :
    (b.cast K).evaluateFunction (fun i => castQ K (x i)) = (b.evaluateFunction x).map (List.map (castQ K)) := by
  rw [evaluateFunction_eq h.cast, evaluateFunction_eq h]
  simp [-MvPolynomial.eval_map, RefBasis.cast, Function.comp_def, poly_cast, eval_cast]

theorem RefBasis.evaluateJacobian_cast {b : RefBasis ℚ} {E : List (List Nat)} (h : b.WF dim E) (x : Fin dim → ℚ) :
    (b.cast K).evaluateJacobian (fun i => castQ K (x i))
      = (b.evaluateJacobian x).map (List.map fun v => fun i => castQ K (v i)) := by
  rw [evaluateJacobian_eq h.cast, evaluateJacobian_eq h]
  simp [-MvPolynomial.eval_map, RefBasis.cast, Function.comp_def, poly_cast, eval_cast, MvPolynomial.pderiv_map]

theorem RefBasis.evaluateHessian_cast {b : RefBasis ℚ} {E : List (List Nat)} (h : b.WF dim E) (x : Fin dim → ℚ) :
    (b.cast K).evaluateHessian (fun i => castQ K (x i))
      = (b.evaluateHessian x).map (List.map fun v => fun i j => castQ K (v i j)) := by
  rw [evaluateHessian_eq h.cast, evaluateHessian_eq h]
  simp [-MvPolynomial.eval_map, RefBasis.cast, Function.comp_def, poly_cast, eval_cast, MvPolynomial.pderiv_map]

theorem eval_mono_cast (x : Fin dim → ℚ) (e : List Nat) :
    eval (fun i => castQ K (x i)) (mono K dim e) = castQ K (eval x (mono ℚ dim e)) := by
  rw [← eval_cast]
  simp [mono_eq]

theorem eval_pderiv_mono_cast (x : Fin dim → ℚ) (i : Fin dim) (e : List Nat) :
    eval (fun i => castQ K (x i)) (pderiv i (mono K dim e)) = castQ K (eval x (pderiv i (mono ℚ dim e))) := by
  rw [← eval_cast, ← MvPolynomial.pderiv_map]
  simp [mono_eq]

end Cast

section Degree

variable {K : Type} [CommRing K] {dim : Nat}

/-- Two linear maps which agree on the monomials of degree at most `k` agree on the polynomials of degree at most `k`. -/
theorem linear_ext {V : Type} [AddCommGroup V] [Module K V] (L M : MvPolynomial (Fin dim) K →ₗ[K] V) (k : Nat)
    (h : ∀ e : List Nat, e.length = dim → e.sum ≤ k → L (mono K dim e) = M (mono K dim e))
    (p : MvPolynomial (Fin dim) K) (hp : p.totalDegree ≤ k) : L p = M p := by
  rw [p.as_sum, map_sum, map_sum]
  apply Finset.sum_congr rfl
  intro s hs
  have e1 : MvPolynomial.monomial s (p.coeff s) = p.coeff s • mono K dim (List.ofFn fun i => s i) := by
    rw [mono_eq, MvPolynomial.smul_monomial, smul_eq_mul, mul_one]
    congr 1
    ext i
    simp
  rw [e1, map_smul, map_smul, h _ (by simp)]
  rw [List.sum_ofFn]
  refine le_trans ?_ (le_trans (MvPolynomial.le_totalDegree hs) hp)
  rw [Finsupp.sum_fintype _ _ (by simp)]

theorem poly_sum (E : List (List Nat)) (c : List K) (h : c.length = E.length) :
    poly dim E c = ∑ j : Fin E.length, c[j.val]?.getD 0 • mono K dim E[j] := by
  induction E generalizing c with
  | nil => simp [poly]
  | cons e E ih =>
    match c, h with
    | a :: c, h =>
      simp only [List.length_cons, Nat.add_right_cancel_iff] at h
      simp only [List.length_cons, Fin.sum_univ_succ]
      have := ih c h
      simp only [poly] at this ⊢
      simp [this, MvPolynomial.smul_eq_C_mul]

end Degree

/-! ## Coefficients which are multiples of an irrational constant -/

/-- A row of a coefficient matrix: rational numbers, or rational multiples of a constant (`sqrt2` in morleybasis.hh:114 and
argyrisbasis.hh:142). -/
inductive Row where
  | rational (l : List ℚ)
  | scaled (l : List ℚ)

namespace Row

/-- The rational numbers of a row. -/
def numbers : Row → List ℚ
  | rational l => l
  | scaled l => l

/-- The factor of a row. -/
def factor {K : Type} [DivisionRing K] (c : K) : Row → K
  | rational _ => 1
  | scaled _ => c

/-- The row as it is written in the code. -/
def value {K : Type} [DivisionRing K] (c : K) : Row → List K
  | rational l => l.map (castQ K)
  | scaled l => l.map fun q => castQ K q * c

end Row

/-- The reference basis with coefficients `rows`, if the constant has the value `c`. -/
def rowsBasis {K : Type} [DivisionRing K] (c : K) (degree : Nat) (rows : List Row) : RefBasis K :=
  ⟨degree, rows.map (Row.value c)⟩

/-- The rational numbers of all rows. -/
def rationalBasis (degree : Nat) (rows : List Row) : RefBasis ℚ := ⟨degree, rows.map Row.numbers⟩

section Rows

variable {K : Type} [Field K] [CharZero K] {dim degree : Nat} {rows : List Row} {E : List (List Nat)}

theorem poly_row (c : K) (r : Row) :
    poly dim E (r.value c) = r.factor c • MvPolynomial.map (Rat.castHom K) (poly dim E r.numbers) := by
  cases r with
  | rational l => simp [Row.value, Row.factor, Row.numbers, poly_cast]
  | scaled l =>
    simp only [Row.value, Row.factor, Row.numbers, ← poly_cast]
    simp only [poly, List.zipWith_map_left]
    rw [List.smul_sum, List.map_zipWith]
    congr 2
    funext a e
    simp [castQ, MvPolynomial.smul_eq_C_mul]
    ring

omit [CharZero K] in
theorem rowsBasis_WF (h : (rationalBasis degree rows).WF dim E) (c : K) : (rowsBasis c degree rows).WF dim E := by
  refine ⟨h.1, ?_⟩
  intro l hl
  simp only [rowsBasis, List.mem_map] at hl
  obtain ⟨r, hr, rfl⟩ := hl
  have := h.2 r.numbers (by simp only [rationalBasis, List.mem_map]; exact ⟨r, hr, rfl⟩)
  cases r <;> simpa [Row.value, Row.numbers] using this

theorem rowsBasis_poly (c : K) (m : Nat) (hm : m < rows.length) :
    (rowsBasis c degree rows).poly dim E m
      = rows[m].factor c • MvPolynomial.map (Rat.castHom K) ((rationalBasis degree rows).poly dim E m) := by
  simp only [RefBasis.poly, rowsBasis, rationalBasis, List.getElem?_map, List.getElem?_eq_getElem hm, Option.map_some,
    Option.getD_some, poly_row]

/-- Values of a reference basis at a rational point. -/
theorem rowsBasis_eval (h : (rationalBasis degree rows).WF dim E) (c : K) (x : Fin dim → ℚ) {vs : List ℚ}
    (hv : (rationalBasis degree rows).evaluateFunction x = some vs) (m : Nat) (hm : m < rows.length) :
    eval (fun i => castQ K (x i)) ((rowsBasis c degree rows).poly dim E m) = rows[m].factor c * castQ K (vs[m]?.getD 0) := by
  rw [RefBasis.evaluateFunction_eq h, Option.some.injEq] at hv
  rw [rowsBasis_poly c m hm, MvPolynomial.smul_eval, eval_cast, ← hv]
  simp [RefBasis.poly, rationalBasis, hm]

theorem rowsBasis_grad (h : (rationalBasis degree rows).WF dim E) (c : K) (x : Fin dim → ℚ) {vs : List (Fin dim → ℚ)}
    (hv : (rationalBasis degree rows).evaluateJacobian x = some vs) (m : Nat) (hm : m < rows.length) (i : Fin dim) :
    eval (fun i => castQ K (x i)) (pderiv i ((rowsBasis c degree rows).poly dim E m))
      = rows[m].factor c * castQ K (vs[m]?.getD 0 i) := by
  rw [RefBasis.evaluateJacobian_eq h, Option.some.injEq] at hv
  rw [rowsBasis_poly c m hm, Derivation.map_smul, MvPolynomial.smul_eval, MvPolynomial.pderiv_map, eval_cast, ← hv]
  simp [RefBasis.poly, rationalBasis, hm]

theorem rowsBasis_hess (h : (rationalBasis degree rows).WF dim E) (c : K) (x : Fin dim → ℚ) {vs : List (Fin dim → Fin dim → ℚ)}
    (hv : (rationalBasis degree rows).evaluateHessian x = some vs) (m : Nat) (hm : m < rows.length) (i j : Fin dim) :
    eval (fun i => castQ K (x i)) (pderiv i (pderiv j ((rowsBasis c degree rows).poly dim E m)))
      = rows[m].factor c * castQ K (vs[m]?.getD 0 i j) := by
  rw [RefBasis.evaluateHessian_eq h, Option.some.injEq] at hv
  rw [rowsBasis_poly c m hm, Derivation.map_smul, Derivation.map_smul, MvPolynomial.smul_eval, MvPolynomial.pderiv_map, MvPolynomial.pderiv_map,
    eval_cast, ← hv]
  simp [RefBasis.poly, rationalBasis, hm]

end Rows

/-! ## Reproduction from duality -/

/-- If `n` linear functionals are dual to `n` linear combinations of `n` monomials, then every monomial is reproduced. -/
theorem reproduction {K : Type} [Field K] {dim : Nat} {E : List (List Nat)}
    (P : Nat → MvPolynomial (Fin dim) K) (C : Fin E.length → Fin E.length → K)
    (hP : ∀ m : Fin E.length, P m = ∑ j, C m j • mono K dim E[j])
    (N : Nat → MvPolynomial (Fin dim) K →ₗ[K] K)
    (hN : ∀ m n : Fin E.length, N n (P m) = if n = m then 1 else 0) (j : Fin E.length) :
    ∑ n : Fin E.length, N n (mono K dim E[j]) • P n = mono K dim E[j] := by
  have h1 : (Matrix.of C) * (Matrix.of fun j n : Fin E.length => N n (mono K dim E[j])) = 1 := by
    ext m n
    rw [Matrix.mul_apply, Matrix.one_apply]
    have := hN m n
    rw [hP, map_sum] at this
    simp only [map_smul, smul_eq_mul] at this
    simp only [Matrix.of_apply]
    rw [this]
    simp only [eq_comm]
  rw [mul_eq_one_comm] at h1
  simp only [hP, Finset.smul_sum, smul_smul]
  rw [Finset.sum_comm]
  have h2 : ∀ k : Fin E.length, ∑ n : Fin E.length, N n (mono K dim E[j]) * C n k = if j = k then 1 else 0 := by
    intro k
    have := congrFun (congrFun h1 j) k
    rw [Matrix.mul_apply, Matrix.one_apply] at this
    exact this
  simp only [← Finset.sum_smul, h2]
  simp

end Verif.FE

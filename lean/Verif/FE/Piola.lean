import Mathlib.LinearAlgebra.Matrix.NonsingularInverse
import Mathlib.Analysis.Calculus.Deriv.Add
import Mathlib.Analysis.Calculus.Deriv.Mul
import Mathlib.Analysis.Calculus.Deriv.Inv
import Mathlib.Data.Sign.Basic
import Mathlib.Algebra.Order.Field.Basic
import Mathlib.Tactic.FieldSimp
import Mathlib.Tactic.FinCases
import Mathlib.Tactic.NormNum
import Mathlib.Tactic.Linarith

/-!
# Piola transforms

Model of `globalvaluedlocalfiniteelement.hh`: values and Jacobians of shape functions are transformed to the element, and functions to
be interpolated are transformed back. Exact arithmetic in an ordered field.
-/

namespace Verif.Piola

open Matrix

variable {K : Type} [Field K] {n : Nat}

abbrev Vec (K : Type) (n : Nat) := Fin n → K
abbrev Mat (K : Type) (n : Nat) := Matrix (Fin n) (Fin n) K

/-! ## Model -/

/-- What is used of a geometry at a point: `jacobianTransposed`, `jacobianInverseTransposed`, each with the entries which `sparseRange`
visits in a row, and `integrationElement`. -/
structure Geometry (K : Type) (n : Nat) where
  jT : Vec K n → Mat K n
  jTRow : Vec K n → Fin n → List (K × Fin n)
  jinvT : Vec K n → Mat K n
  jinvTRow : Vec K n → Fin n → List (K × Fin n)
  ie : Vec K n → K

variable [LinearOrder K] in
/-- Contract of a geometry with Jacobian `J` at the point `x`. Entries of a row that are not visited are zero (`DiagonalMatrix`). -/
structure Geometry.OK (g : Geometry K n) (J : Mat K n) (x : Vec K n) : Prop where
  jT : g.jT x = Jᵀ
  jTRow : ∀ l j, (((g.jTRow x l).filter fun p => p.2 = j).map Prod.fst).sum = g.jT x l j
  jinvT : g.jinvT x = (J⁻¹)ᵀ
  jinvTRow : ∀ l j, (((g.jinvTRow x l).filter fun p => p.2 = j).map Prod.fst).sum = g.jinvT x l j
  ie : g.ie x = |J.det|
  nondeg : J.det ≠ 0

/-- `ContravariantPiolaTransformator::apply`, globalvaluedlocalfiniteelement.hh:48-66; `mtv` is multiplication with the transposed matrix. -/
def contraApply (g : Geometry K n) (values : List (Vec K n)) (xi : Vec K n) : List (Vec K n) :=
  values.map fun value =>
    let tmp := value
    let value := (g.jT xi)ᵀ *ᵥ tmp
    fun i => value i / g.ie xi

/-- `a[j][k] += v`. -/
def addEntry (a : Mat K n) (j k : Fin n) (v : K) : Mat K n := fun j' k' => if j' = j ∧ k' = k then a j' k' + v else a j' k'

/-- `ContravariantPiolaTransformator::applyJacobian`, globalvaluedlocalfiniteelement.hh:78-95. -/
def contraApplyJacobian (g : Geometry K n) (gradients : List (Mat K n)) (xi : Vec K n) : List (Mat K n) :=
  gradients.map fun gradient =>
    let tmp := gradient
    let gradient : Mat K n := (List.finRange n).foldl (fun a k =>
      (List.finRange n).foldl (fun a l =>
        (g.jTRow xi l).foldl (fun a p => addEntry a p.2 k (p.1 * tmp l k)) a) a) 0
    fun j k => gradient j k / g.ie xi

/-- `ContravariantPiolaTransformator::LocalValuedFunction`, globalvaluedlocalfiniteelement.hh:118-137. -/
def contraLocal (g : Geometry K n) (f : Vec K n → Vec K n) (xi : Vec K n) : Vec K n :=
  let globalValue := f xi
  let localValue := (g.jinvT xi)ᵀ *ᵥ globalValue
  fun i => localValue i * g.ie xi

/-- `CovariantPiolaTransformator::apply`, globalvaluedlocalfiniteelement.hh:161-177. -/
def coApply (g : Geometry K n) (values : List (Vec K n)) (xi : Vec K n) : List (Vec K n) :=
  values.map fun value => g.jinvT xi *ᵥ value

/-- `CovariantPiolaTransformator::applyJacobian`, globalvaluedlocalfiniteelement.hh:189-205. -/
def coApplyJacobian (g : Geometry K n) (gradients : List (Mat K n)) (xi : Vec K n) : List (Mat K n) :=
  gradients.map fun gradient =>
    let tmp := gradient
    (List.finRange n).foldl (fun a j =>
      (List.finRange n).foldl (fun a k =>
        (g.jinvTRow xi j).foldl (fun a p => addEntry a j k (p.1 * tmp p.2 k)) a) a) 0

/-- `CovariantPiolaTransformator::LocalValuedFunction`, globalvaluedlocalfiniteelement.hh:226-242. -/
def coLocal (g : Geometry K n) (f : Vec K n → Vec K n) (xi : Vec K n) : Vec K n :=
  let globalValue := f xi
  g.jT xi *ᵥ globalValue

/-- The two transformators. -/
inductive Kind where
  | contra
  | co

def apply : Kind → Geometry K n → List (Vec K n) → Vec K n → List (Vec K n)
  | .contra => contraApply
  | .co => coApply

def applyJacobian : Kind → Geometry K n → List (Mat K n) → Vec K n → List (Mat K n)
  | .contra => contraApplyJacobian
  | .co => coApplyJacobian

def localValued : Kind → Geometry K n → (Vec K n → Vec K n) → Vec K n → Vec K n
  | .contra => contraLocal
  | .co => coLocal

/-- A local finite element: values and Jacobians of the shape functions, and `localInterpolation().interpolate`. -/
structure LFE (K : Type) (n : Nat) where
  size : Nat
  eval : Vec K n → List (Vec K n)
  jac : Vec K n → List (Mat K n)
  interp : (Vec K n → Vec K n) → List K

/-- Shape function `m`. -/
def LFE.shape (F : LFE K n) (m : Nat) (x : Vec K n) : Vec K n := ((F.eval x)[m]?).getD 0

/-- `GlobalValuedLocalFiniteElement`, globalvaluedlocalfiniteelement.hh:273-293 and 359-365, bound to an element with geometry `g`. -/
def globalValued (κ : Kind) (g : Geometry K n) (F : LFE K n) : LFE K n where
  size := F.size
  eval := fun x => apply κ g (F.eval x) x
  jac := fun x => applyJacobian κ g (F.jac x) x
  interp := fun f => F.interp (localValued κ g f)

/-- Result of `partial`: values, an exception, or an access out of bounds. -/
inductive PartialResult (K : Type) (n : Nat) where
  | ok (out : List (Vec K n))
  | notImplemented
  | ub

/-- `GlobalValuedLocalBasis::partial`, globalvaluedlocalfiniteelement.hh:301-327. In the code, `order` has two entries. -/
def «partial» (κ : Kind) (g : Geometry K n) (F : LFE K n) (order : List Nat) (x : Vec K n) : PartialResult K n :=
  let totalOrder := order.sum
  if totalOrder = 0 then .ok ((globalValued κ g F).eval x)
  else if totalOrder = 1 then
    let direction := order.findIdx (· = 1)
    let fullJacobian := applyJacobian κ g (F.jac x) x
    if h : direction < n then
      match (List.range F.size).mapM fun i => (fullJacobian[i]?).map fun D => (fun j => D j ⟨direction, h⟩ : Vec K n) with
      | some out => .ok out
      | none => .ub
    else .ub
  else .notImplemented

/-! ## Loops -/

theorem foldl_addEntry {ι : Type} (L : List ι) (r c : ι → Fin n) (v : ι → K) (a : Mat K n) (j k : Fin n) :
    L.foldl (fun a p => addEntry a (r p) (c p) (v p)) a j k =
      a j k + ((L.filter fun p => j = r p ∧ k = c p).map v).sum := by
  induction L generalizing a with
  | nil => simp
  | cons p L ih =>
    rw [List.foldl_cons, ih, addEntry, List.filter_cons]
    by_cases h : j = r p ∧ k = c p
    · rw [if_pos h, if_pos (by simpa using h), List.map_cons, List.sum_cons, add_assoc]
    · rw [if_neg h, if_neg (by simpa using h)]

theorem foldl_foldl_flatMap {α ι κ : Type} (L : List ι) (M : ι → List κ) (f : α → κ → α) (a : α) :
    L.foldl (fun a i => (M i).foldl f a) a = (L.flatMap M).foldl f a := by
  induction L generalizing a with
  | nil => rfl
  | cons i L ih => rw [List.foldl_cons, ih, List.flatMap_cons, List.foldl_append]

theorem sum_filter_map {ι : Type} (L : List ι) (p : ι → Prop) [DecidablePred p] (v : ι → K) :
    ((L.filter fun i => decide (p i)).map v).sum = (L.map fun i => if p i then v i else 0).sum := by
  induction L with
  | nil => rfl
  | cons i L ih =>
    rw [List.filter_cons, List.map_cons, List.sum_cons, ← ih]
    by_cases h : p i <;> simp [h]

theorem sum_finRange (f : Fin n → K) : ((List.finRange n).map f).sum = ∑ i, f i := by
  rw [← List.ofFn_eq_map, List.sum_ofFn]

theorem sum_flatMap_map {ι κ : Type} (L : List ι) (M : ι → List κ) (v : κ → K) :
    ((L.flatMap M).map v).sum = (L.map fun i => ((M i).map v).sum).sum := by
  induction L with
  | nil => rfl
  | cons i L ih => rw [List.flatMap_cons, List.map_append, List.sum_append, ih, List.map_cons, List.sum_cons]

/-- The loops of the contravariant transform. -/
theorem contra_loop (rows : Fin n → List (K × Fin n)) (A tmp : Mat K n)
    (hr : ∀ l j, (((rows l).filter fun p => p.2 = j).map Prod.fst).sum = A l j) :
    (List.finRange n).foldl (fun a k => (List.finRange n).foldl (fun a l =>
      (rows l).foldl (fun a p => addEntry a p.2 k (p.1 * tmp l k)) a) a) 0 = Aᵀ * tmp := by
  funext j k
  have h1 : (List.finRange n).foldl (fun a k => (List.finRange n).foldl (fun a l =>
      (rows l).foldl (fun a p => addEntry a p.2 k (p.1 * tmp l k)) a) a) 0 =
      (((List.finRange n).flatMap fun k => (List.finRange n).flatMap fun l => (rows l).map fun p => (p, l, k)).foldl
        (fun a q => addEntry a q.1.2 q.2.2 (q.1.1 * tmp q.2.1 q.2.2)) (0 : Mat K n)) := by
    rw [← foldl_foldl_flatMap]
    congr 1
    funext a k
    rw [← foldl_foldl_flatMap]
    congr 1
    funext a l
    rw [List.foldl_map]
  rw [h1, foldl_addEntry, sum_filter_map, sum_flatMap_map, sum_finRange]
  simp only [sum_flatMap_map, sum_finRange, List.map_map, Matrix.zero_apply, zero_add]
  rw [Finset.sum_eq_single k]
  · rw [Matrix.mul_apply]
    refine Finset.sum_congr rfl fun l _ => ?_
    rw [Matrix.transpose_apply, ← hr l j, ← List.sum_map_mul_right]
    rw [sum_filter_map]
    congr 1
    refine List.map_congr_left fun p _ => ?_
    simp [eq_comm]
  · intro k' _ hk
    refine Finset.sum_eq_zero fun l _ => List.sum_eq_zero ?_
    intro x hx
    obtain ⟨p, _, rfl⟩ := List.mem_map.mp hx
    simp [Ne.symm hk]
  · intro h
    exact absurd (Finset.mem_univ _) h

/-- The loops of the covariant transform. -/
theorem co_loop (rows : Fin n → List (K × Fin n)) (A tmp : Mat K n)
    (hr : ∀ l j, (((rows l).filter fun p => p.2 = j).map Prod.fst).sum = A l j) :
    (List.finRange n).foldl (fun a j => (List.finRange n).foldl (fun a k =>
      (rows j).foldl (fun a p => addEntry a j k (p.1 * tmp p.2 k)) a) a) 0 = A * tmp := by
  funext j k
  have h1 : (List.finRange n).foldl (fun a j => (List.finRange n).foldl (fun a k =>
      (rows j).foldl (fun a p => addEntry a j k (p.1 * tmp p.2 k)) a) a) 0 =
      (((List.finRange n).flatMap fun j => (List.finRange n).flatMap fun k => (rows j).map fun p => (p, j, k)).foldl
        (fun a q => addEntry a q.2.1 q.2.2 (q.1.1 * tmp q.1.2 q.2.2)) (0 : Mat K n)) := by
    rw [← foldl_foldl_flatMap]
    congr 1
    funext a k
    rw [← foldl_foldl_flatMap]
    congr 1
    funext a l
    rw [List.foldl_map]
  rw [h1, foldl_addEntry, sum_filter_map, sum_flatMap_map, sum_finRange]
  simp only [sum_flatMap_map, sum_finRange, List.map_map, Matrix.zero_apply, zero_add]
  rw [Finset.sum_eq_single j]
  · rw [Finset.sum_eq_single k]
    · rw [Matrix.mul_apply]
      have h2 : ∀ L : List (K × Fin n), (L.map fun p => p.1 * tmp p.2 k).sum =
          ∑ l, ((L.filter fun p => p.2 = l).map Prod.fst).sum * tmp l k := by
        intro L
        induction L with
        | nil => simp
        | cons p L ih =>
          rw [List.map_cons, List.sum_cons, ih]
          have : ∀ l, (((p :: L).filter fun p => p.2 = l).map Prod.fst).sum =
              (if p.2 = l then p.1 else 0) + ((L.filter fun p => p.2 = l).map Prod.fst).sum := by
            intro l
            rw [List.filter_cons]
            by_cases h : p.2 = l <;> simp [h]
          simp only [this, add_mul, Finset.sum_add_distrib]
          congr 1
          simp
      simp only [← hr]
      rw [← h2]
      congr 1
      refine List.map_congr_left fun p _ => ?_
      simp
    · intro k' _ hk
      refine List.sum_eq_zero ?_
      intro x hx
      obtain ⟨p, _, rfl⟩ := List.mem_map.mp hx
      simp [Ne.symm hk]
    · intro h
      exact absurd (Finset.mem_univ _) h
  · intro j' _ hj
    refine Finset.sum_eq_zero fun l _ => List.sum_eq_zero ?_
    intro x hx
    obtain ⟨p, _, rfl⟩ := List.mem_map.mp hx
    simp [Ne.symm hj]
  · intro h
    exact absurd (Finset.mem_univ _) h

/-! ## Theorems -/

section Ordered

variable [LinearOrder K] [IsStrictOrderedRing K]

omit [IsStrictOrderedRing K] in
theorem contraApply_eq {g : Geometry K n} {J : Mat K n} {x : Vec K n} (h : g.OK J x) (vs : List (Vec K n)) :
    contraApply g vs x = vs.map fun v => (|J.det|)⁻¹ • (J *ᵥ v) := by
  refine List.map_congr_left fun v _ => ?_
  funext i
  simp only [h.jT, h.ie, Matrix.transpose_transpose, Pi.smul_apply, smul_eq_mul]
  rw [div_eq_inv_mul]

omit [IsStrictOrderedRing K] in
theorem contraApplyJacobian_eq {g : Geometry K n} {J : Mat K n} {x : Vec K n} (h : g.OK J x) (Ds : List (Mat K n)) :
    contraApplyJacobian g Ds x = Ds.map fun D => (|J.det|)⁻¹ • (J * D) := by
  refine List.map_congr_left fun D _ => ?_
  funext j k
  simp only [contra_loop _ _ _ h.jTRow, h.jT, h.ie, Matrix.transpose_transpose, Matrix.smul_apply, smul_eq_mul]
  rw [div_eq_inv_mul]

omit [IsStrictOrderedRing K] in
theorem coApply_eq {g : Geometry K n} {J : Mat K n} {x : Vec K n} (h : g.OK J x) (vs : List (Vec K n)) :
    coApply g vs x = vs.map fun v => (J⁻¹)ᵀ *ᵥ v := by
  simp only [coApply, h.jinvT]

omit [IsStrictOrderedRing K] in
theorem coApplyJacobian_eq {g : Geometry K n} {J : Mat K n} {x : Vec K n} (h : g.OK J x) (Ds : List (Mat K n)) :
    coApplyJacobian g Ds x = Ds.map fun D => (J⁻¹)ᵀ * D := by
  refine List.map_congr_left fun D _ => ?_
  simp only [co_loop _ _ _ h.jinvTRow, h.jinvT]

/-- C52, interpolation: at any point with invertible Jacobian, the transform of functions to be interpolated undoes the transform of
values of shape functions, and vice versa. -/
theorem C52_inverse (κ : Kind) {g : Geometry K n} {J : Mat K n} {x : Vec K n} (h : g.OK J x) (v : Vec K n) :
    (∀ f : Vec K n → Vec K n, apply κ g [v] x = [f x] → localValued κ g f x = v) ∧
    (∀ f : Vec K n → Vec K n, f x = v → apply κ g [localValued κ g f x] x = [v]) := by
  have hu : IsUnit J.det := isUnit_iff_ne_zero.mpr h.nondeg
  have ha : |J.det| ≠ 0 := abs_ne_zero.mpr h.nondeg
  cases κ with
  | contra =>
    have hl : ∀ f, contraLocal g f x = |J.det| • (J⁻¹ *ᵥ f x) := by
      intro f
      funext i
      simp only [contraLocal, h.jinvT, h.ie, Matrix.transpose_transpose, Pi.smul_apply, smul_eq_mul]
      rw [mul_comm]
    simp only [apply, localValued, contraApply_eq h, List.map_cons, List.map_nil, List.cons.injEq, and_true, hl]
    refine ⟨?_, ?_⟩
    · intro f hf
      rw [← hf, Matrix.mulVec_smul, Matrix.mulVec_mulVec, Matrix.nonsing_inv_mul _ hu, Matrix.one_mulVec, smul_smul,
        mul_inv_cancel₀ ha, one_smul]
    · intro f hf
      rw [hf, Matrix.mulVec_smul, Matrix.mulVec_mulVec, Matrix.mul_nonsing_inv _ hu, Matrix.one_mulVec, smul_smul,
        inv_mul_cancel₀ ha, one_smul]
  | co =>
    have hl : ∀ f, coLocal g f x = Jᵀ *ᵥ f x := by
      intro f
      simp only [coLocal, h.jT]
    simp only [apply, localValued, coApply_eq h, List.map_cons, List.map_nil, List.cons.injEq, and_true, hl]
    refine ⟨?_, ?_⟩
    · intro f hf
      rw [← hf, Matrix.mulVec_mulVec, ← Matrix.transpose_mul, Matrix.nonsing_inv_mul _ hu, Matrix.transpose_one, Matrix.one_mulVec]
    · intro f hf
      rw [hf, Matrix.mulVec_mulVec, ← Matrix.transpose_mul, Matrix.mul_nonsing_inv _ hu, Matrix.transpose_one, Matrix.one_mulVec]

/-- The same for a list of values. -/
theorem localValued_apply (κ : Kind) {g : Geometry K n} {J : Mat K n} {x : Vec K n} (h : g.OK J x) (vs : List (Vec K n)) (j : Nat)
    (hj : j < vs.length) (f : Vec K n → Vec K n) (hf : (apply κ g vs x)[j]? = some (f x)) : some (localValued κ g f x) = vs[j]? := by
  rw [List.getElem?_eq_getElem hj]
  congr 1
  refine (C52_inverse κ h vs[j]).1 f ?_
  cases κ with
  | contra =>
    simp only [apply, contraApply, List.getElem?_map, List.getElem?_eq_getElem hj, Option.map_some] at hf ⊢
    injection hf with hf
    simp only [List.map_cons, List.map_nil, hf]
  | co =>
    simp only [apply, coApply, List.getElem?_map, List.getElem?_eq_getElem hj, Option.map_some] at hf ⊢
    injection hf with hf
    simp only [List.map_cons, List.map_nil, hf]

/-- C52, degrees of freedom: the functionals of the global valued finite element applied to its shape functions give the same as the
functionals of the local valued finite element applied to its shape functions, if those only use values in a set `D` of points with
invertible Jacobian. In particular one of them is dual if and only if the other one is. The geometry may be curved. -/
theorem C52_dual (κ : Kind) {g : Geometry K n} (D : Vec K n → Prop) (h : ∀ x, D x → ∃ J, g.OK J x) (F : LFE K n)
    (hs : ∀ x, (F.eval x).length = F.size) (hD : ∀ f f' : Vec K n → Vec K n, (∀ x, D x → f x = f' x) → F.interp f = F.interp f')
    (j : Nat) (hj : j < F.size) :
    (globalValued κ g F).interp ((globalValued κ g F).shape j) = F.interp (F.shape j) := by
  refine hD _ _ fun x hx => ?_
  obtain ⟨J, hJ⟩ := h x hx
  have hl : j < (F.eval x).length := by rw [hs]; exact hj
  have hl' : j < (apply κ g (F.eval x) x).length := by
    cases κ
    · simpa [apply, contraApply] using hl
    · simpa [apply, coApply] using hl
  have := localValued_apply κ hJ (F.eval x) j hl ((globalValued κ g F).shape j) (by
    simp only [LFE.shape, globalValued, List.getElem?_eq_getElem hl', Option.getD_some])
  rw [LFE.shape, List.getElem?_eq_getElem hl, Option.getD_some]
  rw [List.getElem?_eq_getElem hl] at this
  injection this

/-- Flux of `v` through the parallelotope spanned by the tangent vectors `t`, in the direction to which `w` points. -/
def outerFlux (v : Vec K (n + 1)) (t : Fin n → Vec K (n + 1)) (w : Vec K (n + 1)) : K :=
  (Matrix.of (Fin.cons v t : Fin (n + 1) → Vec K (n + 1))).det * SignType.sign (Matrix.of (Fin.cons w t : Fin (n + 1) → Vec K (n + 1))).det

/-- C52, contravariant transform: the flux through a face in the direction that leaves the element does not change. `t` spans
the face of the reference element, `w` leaves the reference element; their images span the face of the element and leave the element.
This holds for both orientations of the element. -/
theorem C52_flux {g : Geometry K (n + 1)} {J : Mat K (n + 1)} {x : Vec K (n + 1)} (h : g.OK J x) (v w : Vec K (n + 1))
    (t : Fin n → Vec K (n + 1)) :
    ∃ v', contraApply g [v] x = [v'] ∧ outerFlux v' (fun i => J *ᵥ t i) (J *ᵥ w) = outerFlux v t w := by
  have hd : ∀ u : Vec K (n + 1), (Matrix.of (Fin.cons (J *ᵥ u) (fun i => J *ᵥ t i) : Fin (n + 1) → Vec K (n + 1))).det =
      J.det * (Matrix.of (Fin.cons u t : Fin (n + 1) → Vec K (n + 1))).det := by
    intro u
    have : (Matrix.of (Fin.cons (J *ᵥ u) (fun i => J *ᵥ t i) : Fin (n + 1) → Vec K (n + 1))) =
        Matrix.of (Fin.cons u t : Fin (n + 1) → Vec K (n + 1)) * Jᵀ := by
      funext i k
      refine Fin.cases ?_ (fun i => ?_) i
      · simp [Matrix.mul_apply, Matrix.mulVec, dotProduct, mul_comm]
      · simp [Matrix.mul_apply, Matrix.mulVec, dotProduct, mul_comm]
    rw [this, Matrix.det_mul, Matrix.det_transpose, mul_comm]
  refine ⟨(|J.det|)⁻¹ • (J *ᵥ v), by rw [contraApply_eq h]; rfl, ?_⟩
  have hv : (|J.det|)⁻¹ • (J *ᵥ v) = J *ᵥ ((|J.det|)⁻¹ • v) := by rw [Matrix.mulVec_smul]
  have hsm : (Matrix.of (Fin.cons ((|J.det|)⁻¹ • v) t : Fin (n + 1) → Vec K (n + 1))).det =
      (|J.det|)⁻¹ * (Matrix.of (Fin.cons v t : Fin (n + 1) → Vec K (n + 1))).det := by
    have := Matrix.det_updateRow_smul (Matrix.of (Fin.cons v t : Fin (n + 1) → Vec K (n + 1))) 0 (|J.det|)⁻¹ v
    have e1 : (Matrix.of (Fin.cons v t : Fin (n + 1) → Vec K (n + 1))).updateRow 0 ((|J.det|)⁻¹ • v) =
        Matrix.of (Fin.cons ((|J.det|)⁻¹ • v) t : Fin (n + 1) → Vec K (n + 1)) := by
      funext i k
      refine Fin.cases ?_ (fun i => ?_) i <;> simp [Matrix.updateRow_apply]
    have e2 : (Matrix.of (Fin.cons v t : Fin (n + 1) → Vec K (n + 1))).updateRow 0 v =
        Matrix.of (Fin.cons v t : Fin (n + 1) → Vec K (n + 1)) := by
      funext i k
      refine Fin.cases ?_ (fun i => ?_) i <;> simp [Matrix.updateRow_apply]
    rw [e1, e2] at this
    exact this
  rw [outerFlux, outerFlux, hv, hd, hd, hsm, sign_mul]
  have hs : J.det * (SignType.sign J.det : K) = |J.det| := by
    rw [mul_comm]
    exact sign_mul_self J.det
  have ha : |J.det| ≠ 0 := abs_ne_zero.mpr h.nondeg
  push_cast
  generalize (Matrix.of (Fin.cons v t : Fin (n + 1) → Vec K (n + 1))).det = a
  generalize (SignType.sign (Matrix.of (Fin.cons w t : Fin (n + 1) → Vec K (n + 1))).det : K) = b
  calc J.det * ((|J.det|)⁻¹ * a) * ((SignType.sign J.det : K) * b) = (J.det * (SignType.sign J.det : K)) * (|J.det|)⁻¹ * (a * b) := by ring
    _ = a * b := by rw [hs, mul_inv_cancel₀ ha, one_mul]

omit [IsStrictOrderedRing K] in
/-- C52, covariant transform: the tangential component along any direction does not change. -/
theorem C52_tangential {g : Geometry K n} {J : Mat K n} {x : Vec K n} (h : g.OK J x) (v t : Vec K n) :
    ∃ v', coApply g [v] x = [v'] ∧ v' ⬝ᵥ (J *ᵥ t) = v ⬝ᵥ t := by
  have hu : IsUnit J.det := isUnit_iff_ne_zero.mpr h.nondeg
  refine ⟨(J⁻¹)ᵀ *ᵥ v, by rw [coApply_eq h]; rfl, ?_⟩
  rw [Matrix.dotProduct_mulVec, Matrix.mulVec_transpose, Matrix.vecMul_vecMul, Matrix.nonsing_inv_mul _ hu, Matrix.vecMul_one]

end Ordered

/-! ### Derivatives -/

/-- A local finite element has the right number of values and Jacobians, and the Jacobians contain the partial derivatives of
the values with respect to local coordinates. -/
structure LFE.OK (F : LFE ℝ n) : Prop where
  eval : ∀ x, (F.eval x).length = F.size
  jac : ∀ x, (F.jac x).length = F.size
  deriv : ∀ x m i k, m < F.size →
    HasDerivAt (fun s => F.shape m (Function.update x k s) i) (((F.jac x)[m]?.getD (0 : Mat ℝ n)) i k) (x k)

theorem hasDerivAt_mulVec (A : Mat ℝ n) (f : ℝ → Vec ℝ n) (f' : Vec ℝ n) (s : ℝ) (h : ∀ i, HasDerivAt (fun s => f s i) (f' i) s) (i : Fin n) :
    HasDerivAt (fun s => (A *ᵥ f s) i) ((A *ᵥ f') i) s := by
  simp only [Matrix.mulVec, dotProduct]
  exact HasDerivAt.fun_sum fun l _ => (h l).const_mul (A i l)

/-- Both transforms are multiplication with a matrix. -/
theorem apply_linear (κ : Kind) (J : Mat ℝ n) : ∃ A : Mat ℝ n, ∀ (g : Geometry ℝ n) (x : Vec ℝ n), g.OK J x →
    (∀ vs, apply κ g vs x = vs.map fun v => A *ᵥ v) ∧ ∀ Ds, applyJacobian κ g Ds x = Ds.map fun D => A * D := by
  cases κ with
  | contra =>
    refine ⟨(|J.det|)⁻¹ • J, fun g x h => ⟨fun vs => ?_, fun Ds => ?_⟩⟩
    · rw [apply, contraApply_eq h]
      simp only [Matrix.smul_mulVec]
    · rw [applyJacobian, contraApplyJacobian_eq h]
      simp only [Matrix.smul_mul]
  | co => exact ⟨(J⁻¹)ᵀ, fun g x h => ⟨fun vs => by rw [apply, coApply_eq h], fun Ds => by rw [applyJacobian, coApplyJacobian_eq h]⟩⟩

/-- C52, Jacobians: on an affine element, the transformed Jacobians are the Jacobians of the transformed values. -/
theorem C52_jacobian (κ : Kind) (g : Geometry ℝ n) (J : Mat ℝ n) (hg : ∀ x, g.OK J x) (F : LFE ℝ n) (hF : F.OK) :
    (globalValued κ g F).OK := by
  obtain ⟨A, hA⟩ := apply_linear κ J
  refine ⟨fun x => ?_, fun x => ?_, fun x m i k hm => ?_⟩
  · simp only [globalValued, (hA g x (hg x)).1, List.length_map, hF.eval]
  · simp only [globalValued, (hA g x (hg x)).2, List.length_map, hF.jac]
  · have h1 : ∀ y, (globalValued κ g F).shape m y = A *ᵥ F.shape m y := by
      intro y
      have hl : m < (F.eval y).length := by rw [hF.eval]; exact hm
      simp only [LFE.shape, globalValued, (hA g y (hg y)).1, List.getElem?_map, List.getElem?_eq_getElem hl, Option.map_some, Option.getD_some]
    have h2 : (((globalValued κ g F).jac x)[m]?).getD 0 = A * ((F.jac x)[m]?).getD 0 := by
      have hl : m < (F.jac x).length := by rw [hF.jac]; exact hm
      simp only [globalValued, (hA g x (hg x)).2, List.getElem?_map, List.getElem?_eq_getElem hl, Option.map_some, Option.getD_some]
    simp only [h1, h2]
    have h3 := hasDerivAt_mulVec A (fun s => F.shape m (Function.update x k s)) (fun i => ((F.jac x)[m]?.getD (0 : Mat ℝ n)) i k) (x k)
      (fun i => hF.deriv x m i k hm) i
    exact h3

theorem mapM_some {α β : Type} (l : List α) (f : α → Option β) (g : α → β) (h : ∀ i ∈ l, f i = some (g i)) :
    l.mapM f = some (l.map g) := by
  induction l with
  | nil => rfl
  | cons i l ih =>
    rw [List.mapM_cons, h i (by simp), ih fun i hi => h i (by simp [hi])]
    rfl

/-- C52, partial derivatives: on an affine element, `partial` computes values for order zero, the partial derivatives of the transformed
values for order one, and throws an exception for higher orders. -/
theorem C52_partial_derivatives (κ : Kind) (g : Geometry ℝ n) (J : Mat ℝ n) (hg : ∀ x, g.OK J x) (F : LFE ℝ n) (hF : F.OK) (order : List Nat)
    (ho : order.length = n) (x : Vec ℝ n) :
    (order.sum = 0 → «partial» κ g F order x = .ok ((globalValued κ g F).eval x)) ∧
    (∀ k : Fin n, order = (List.finRange n).map (fun i => if i = k then 1 else 0) →
      ∃ out, «partial» κ g F order x = .ok out ∧ out.length = F.size ∧ ∀ m v, out[m]? = some v → ∀ i,
        HasDerivAt (fun s => (globalValued κ g F).shape m (Function.update x k s) i) (v i) (x k)) ∧
    (2 ≤ order.sum → «partial» κ g F order x = .notImplemented) := by
  refine ⟨?_, ?_, ?_⟩
  · intro h
    rw [«partial», if_pos h]
  · intro k hk
    have hsum : order.sum = 1 := by
      rw [hk, ← List.ofFn_eq_map, List.sum_ofFn]
      simp
    have hdir : order.findIdx (· = 1) = k := by
      rw [List.findIdx_eq (by rw [ho]; exact k.2)]
      subst hk
      refine ⟨by simp, ?_⟩
      intro j hj
      simp only [List.getElem_map, List.getElem_finRange, decide_eq_false_iff_not]
      rw [if_neg (by intro hc; simp [Fin.ext_iff] at hc; omega)]
      decide
    have hG := C52_jacobian κ g J hg F hF
    refine ⟨(List.range F.size).map fun m => fun j => (((globalValued κ g F).jac x)[m]?.getD (0 : Mat ℝ n)) j k, ?_, by simp, ?_⟩
    · have hlt : order.findIdx (· = 1) < n := by rw [hdir]; exact k.2
      simp only [«partial», hsum, if_neg one_ne_zero, if_true, dif_pos hlt]
      rw [mapM_some _ _ (fun m => fun j => (((globalValued κ g F).jac x)[m]?.getD (0 : Mat ℝ n)) j k)]
      intro m hm
      have hl : m < ((globalValued κ g F).jac x).length := by rw [hG.jac]; exact List.mem_range.mp hm
      have e : (⟨order.findIdx (· = 1), hlt⟩ : Fin n) = k := Fin.ext hdir
      rw [e]
      change (((globalValued κ g F).jac x)[m]?).map _ = _
      rw [List.getElem?_eq_getElem hl]
      rfl
    · intro m v hv i
      rw [List.getElem?_map] at hv
      rcases hm : (List.range F.size)[m]? with _ | m'
      · rw [hm] at hv
        simp at hv
      · obtain ⟨hlt, hm'⟩ := List.getElem?_eq_some_iff.mp hm
        rw [List.getElem_range] at hm'
        subst hm'
        rw [hm, Option.map_some] at hv
        injection hv with hv
        rw [← hv]
        exact hG.deriv x m i k (by simpa [globalValued] using hlt)
  · intro h
    rw [«partial», if_neg (by omega), if_neg (by omega)]

/-! ## Counterexamples and examples -/

/-- A geometry with a given Jacobian, stored as dense matrix. -/
noncomputable def ofJacobian {K : Type} [Field K] [LinearOrder K] (J : Vec K n → Mat K n) : Geometry K n where
  jT := fun x => (J x)ᵀ
  jTRow := fun x l => (List.finRange n).map fun j => ((J x)ᵀ l j, j)
  jinvT := fun x => ((J x)⁻¹)ᵀ
  jinvTRow := fun x l => (List.finRange n).map fun j => (((J x)⁻¹)ᵀ l j, j)
  ie := fun x => |(J x).det|

theorem ofJacobian_OK {K : Type} [Field K] [LinearOrder K] (J : Vec K n → Mat K n) (x : Vec K n) (h : (J x).det ≠ 0) : (ofJacobian J).OK (J x) x := by
  have hrow : ∀ (A : Mat K n) (l j : Fin n), ((((List.finRange n).map fun j => (A l j, j)).filter fun p => p.2 = j).map Prod.fst).sum = A l j := by
    intro A l j
    rw [sum_filter_map, List.map_map, sum_finRange]
    simp
  exact ⟨rfl, fun l j => hrow _ l j, rfl, fun l j => hrow _ l j, rfl, h⟩

/-- One constant shape function. -/
def constLFE (v : Vec ℝ n) : LFE ℝ n := ⟨1, fun _ => [v], fun _ => [0], fun _ => []⟩

theorem constLFE_OK (v : Vec ℝ n) : (constLFE v).OK := by
  refine ⟨fun _ => rfl, fun _ => rfl, ?_⟩
  intro x m i k hm
  have : m = 0 := by simp [constLFE] at hm; exact hm
  subst this
  simpa [constLFE, LFE.shape] using hasDerivAt_const (x k) (v i)

/-- Jacobian of the map `(a, b) ↦ (a + a b, b)` of the unit square to a trapezoid. -/
def trapezoid (x : Vec ℝ 2) : Mat ℝ 2 := !![1 + x 1, x 0; 0, 1]

/-- C52 is false for elements that are not affine, as the code documents: the Jacobians of the transformed shape functions are not the
transformed Jacobians. On a trapezoid, they even vanish for a constant shape function whose transformed value is not constant. -/
theorem C52_nonaffine_false : ∃ F : LFE ℝ 2, F.OK ∧
    (∀ x : Vec ℝ 2, 0 ≤ x 1 → (ofJacobian trapezoid).OK (trapezoid x) x) ∧
    (globalValued .contra (ofJacobian trapezoid) F).jac 0 = [0] ∧
    HasDerivAt (fun s => (globalValued .contra (ofJacobian trapezoid) F).shape 0 (Function.update 0 0 s) 0) 1 0 := by
  have hok : ∀ x : Vec ℝ 2, 0 ≤ x 1 → (ofJacobian trapezoid).OK (trapezoid x) x := by
    intro x hx
    refine ofJacobian_OK _ _ ?_
    simp only [trapezoid, Matrix.det_fin_two_of, mul_one, mul_zero, sub_zero]
    linarith
  refine ⟨constLFE ![0, 1], constLFE_OK _, hok, ?_, ?_⟩
  · simp only [globalValued, applyJacobian, constLFE]
    rw [contraApplyJacobian_eq (hok 0 (by simp))]
    simp
  · have : ∀ s : ℝ, (globalValued .contra (ofJacobian trapezoid) (constLFE ![0, 1])).shape 0 (Function.update 0 0 s) 0 = s := by
      intro s
      simp only [LFE.shape, globalValued, apply, constLFE]
      rw [contraApply_eq (hok _ (by simp [Function.update]))]
      simp [trapezoid, Matrix.det_fin_two_of, dotProduct, Fin.sum_univ_two, Function.update]
    simp only [this]
    exact hasDerivAt_id 0

/-- A reflected and sheared element. -/
def exJ : Mat ℝ 2 := !![0, 2; 3, 1]

theorem exJ_OK (x : Vec ℝ 2) : (ofJacobian fun _ => exJ).OK exJ x :=
  ofJacobian_OK _ x (by simp [exJ, Matrix.det_fin_two_of])

example := C52_inverse .contra (exJ_OK 0) ![1, 2]

example : contraApply (ofJacobian fun _ => exJ) [![1, 2]] 0 = [![2 / 3, 5 / 6]] := by
  rw [contraApply_eq (exJ_OK 0)]
  simp [exJ, Matrix.det_fin_two_of, dotProduct, Fin.sum_univ_two]
  norm_num

/-- Flux through the edge from (0,0) to (1,0) of the unit square: positive for a vector that points downwards. -/
example : outerFlux ![3, -2] (fun _ : Fin 1 => ![1, 0]) ![0, -1] = (2 : ℚ) := by
  have h1 : (Matrix.of (Fin.cons ![3, -2] (fun _ : Fin 1 => ![1, 0]) : Fin 2 → Vec ℚ 2)).det = 2 := by
    simp [Matrix.det_fin_two]
  have h2 : (Matrix.of (Fin.cons ![0, -1] (fun _ : Fin 1 => ![1, 0]) : Fin 2 → Vec ℚ 2)).det = 1 := by
    simp [Matrix.det_fin_two]
  rw [outerFlux, h1, h2]
  simp

example := C52_flux (exJ_OK 0) ![3, -2] ![0, -1] (fun _ : Fin 1 => ![1, 0])

example := C52_tangential (exJ_OK 0) ![3, -2] ![0, -1]

example := C52_jacobian .co (ofJacobian fun _ => exJ) exJ exJ_OK (constLFE ![0, 1]) (constLFE_OK _)

example := C52_partial_derivatives .contra (ofJacobian fun _ => exJ) exJ exJ_OK (constLFE ![0, 1]) (constLFE_OK _) [0, 1] rfl 0

example := C52_dual .contra (g := ofJacobian trapezoid) (fun x => 0 ≤ x 1)
  (fun x hx => ⟨trapezoid x, C52_nonaffine_false.choose_spec.2.1 x hx⟩)
  ⟨1, fun _ => [![0, 1]], fun _ => [0], fun f => [f 0 1]⟩ (fun _ => rfl) (fun f f' h => by simp only [h 0 (by simp)]) 0 (by decide)

end Verif.Piola

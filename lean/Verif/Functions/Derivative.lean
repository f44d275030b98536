import Verif.Functions.Discrete
import Verif.FE.Piola
import Verif.FE.Hermite
import Verif.FE.Morley
import Verif.FE.ArgyrisDof
import Mathlib.Analysis.Calculus.FDeriv.Add
import Mathlib.Analysis.Calculus.FDeriv.Mul
import Mathlib.Analysis.Calculus.FDeriv.Comp
import Mathlib.Analysis.Calculus.FDeriv.Pi
import Mathlib.Analysis.Calculus.FDeriv.Equiv
import Mathlib.Analysis.Calculus.Deriv.Comp
import Mathlib.Analysis.Calculus.Deriv.Pi
import Mathlib.Analysis.InnerProductSpace.Basic
import Mathlib.Topology.Algebra.Module.FiniteDimension
import Mathlib.Algebra.MvPolynomial.PDeriv

/-!
# Derivatives of discrete functions

`derivative(f)` of a discrete function (`Functions/Discrete`) computes linear combinations of the Jacobians of the shape functions and multiplies
them with the inverse Jacobian of the geometry. Here it is compared with the derivative of the function that `f` is. Real numbers in
exact arithmetic.
-/

namespace Verif.Derivative

open Verif.IndexTree Verif.Discrete Topology
open scoped Matrix

variable {E : Type} {n m : Nat}

/-! ## Specification -/

/-- The linear map `w ↦ Σ_k g_k w_k`. -/
noncomputable def row (g : Fin m → ℝ) : (Fin m → ℝ) →L[ℝ] ℝ := ∑ k, g k • ContinuousLinearMap.proj (R := ℝ) (φ := fun _ : Fin m => ℝ) k

theorem row_apply (g w : Fin m → ℝ) : row g w = ∑ k, g k * w k := by
  simp [row]

/-- Entry `(r, k)` of the value (`d = false`) or the Jacobian of shape function `i` of the leaf `p`. -/
def shapeEntry (P : Shapes E (Fin n → ℝ) ℝ) (d : Bool) (p : List Nat) (e : E) (x : Fin n → ℝ) (i r k : Nat) : ℝ :=
  ((((P.shape d p e (if P.uses p then some e else none) x)[i]?.getD [])[r]?.getD [])[k]?.getD 0)

/-- Contract of the finite elements on `e`: `evaluateJacobian` returns the derivatives of the functions evaluated by `evaluateFunction`. -/
def JacobiansOK (B : Basis E) (P : Shapes E (Fin n → ℝ) ℝ) (e : E) (x : Fin n → ℝ) : Prop :=
  ∀ s ∈ slotsOn B e, ∀ i < s.2.2, ∀ r < P.rows s.1,
    HasFDerivAt (fun z => shapeEntry P false s.1 e z i r 0) (row fun k : Fin n => shapeEntry P true s.1 e x i r k) x

/-- Contract of the geometry of `e`: `pos` maps local to global coordinates, `M` is its derivative, and `jacobianInverse` is a left inverse. -/
structure GeometryOK (P : Shapes E (Fin n → ℝ) ℝ) (e : E) (x : Fin n → ℝ) (pos : (Fin n → ℝ) → Fin m → ℝ)
    (M : (Fin n → ℝ) →L[ℝ] (Fin m → ℝ)) : Prop where
  dim : P.dim = n
  dimworld : P.dimworld = m
  deriv : HasFDerivAt pos M x
  inverse : ∀ (k : Fin n) (w : Fin n → ℝ), ∑ s : Fin m, (((P.jinv e x)[k.val]?.getD [])[s.val]?.getD 0) * M w s = w k

/-- `q` is the entry of the range of the function, and `q' s` the entries of the range of the derivative, that belong to component `r` of the
leaf `p` and to component `j` of its coefficients; no leaf that follows uses these entries. -/
structure RangeEntries (B : Basis E) (P : Shapes E (Fin n → ℝ) ℝ) (e : E) (p : List Nat) (j r : Nat) (q : Pos) (q' : Fin m → Pos) : Prop where
  leaf : ∃ S1 off N S2, slotsOn B e = S1 ++ (p, off, N) :: S2 ∧ N ≠ 0 ∧ ∀ s ∈ S2, s.2.2 ≠ 0 → q ∉ P.ntre false s.1 ∧ ∀ k, q' k ∉ P.ntre true s.1
  nodup : ∀ d, (P.ntre d p).Nodup
  component : j < P.dimC ∧ r < P.rows p
  value : (P.ntre false p)[j * P.rows p + r]? = some q
  jacobian : ∀ k : Fin m, (P.ntre true p)[(j * P.rows p + r) * m + k]? = some (q' k)

/-- Entry `q` of the result of local function `i` at `x`. -/
noncomputable def valueAt (B : Basis E) (P : Shapes E (Fin n → ℝ) ℝ) (s : St E ℝ) (i : Nat) (x : Fin n → ℝ) (q : Pos) : ℝ :=
  ((eval B P s i x).getD fun _ => 0) q

/-! ## Proofs -/

theorem comb_hasFDerivAt (B : Basis E) (P : Shapes E (Fin n → ℝ) ℝ) (e : E) (v : Vec ℝ) (x : Fin n → ℝ) (p : List Nat) (off N j r : Nat)
    (h : ∀ i < N, HasFDerivAt (fun z => shapeEntry P false p e z i r 0) (row fun k : Fin n => shapeEntry P true p e x i r k) x) :
    HasFDerivAt (fun z => comb B P false e v z p off N j r 0) (row fun k : Fin n => comb B P true e v x p off N j r k) x := by
  have h1 : (fun z => comb B P false e v z p off N j r 0) = fun z => ∑ i ∈ Finset.range N,
      ((v (indexOn B e (off + i))).getD [])[j]?.getD 0 * shapeEntry P false p e z i r 0 := rfl
  have h2 : (row fun k : Fin n => comb B P true e v x p off N j r k) = ∑ i ∈ Finset.range N,
      (((v (indexOn B e (off + i))).getD [])[j]?.getD 0) • row fun k : Fin n => shapeEntry P true p e x i r k := by
    ext w
    rw [row_apply, sum_apply]
    simp only [smul_apply, row_apply, smul_eq_mul, Finset.mul_sum]
    rw [Finset.sum_comm]
    refine Finset.sum_congr rfl fun k _ => ?_
    have h3 : comb B P true e v x p off N j r k = ∑ i ∈ Finset.range N,
      ((v (indexOn B e (off + i))).getD [])[j]?.getD 0 * shapeEntry P true p e x i r k := rfl
    rw [h3, Finset.sum_mul]
    exact Finset.sum_congr rfl fun i _ => by ring
  rw [h1, h2]
  exact HasFDerivAt.fun_sum fun i hi => (h i (Finset.mem_range.1 hi)).const_mul _

theorem entry_row (B : Basis E) (P : Shapes E (Fin n → ℝ) ℝ) (e : E) (v : Vec ℝ) (x : Fin n → ℝ) (p : List Nat) (off N j r : Nat)
    {pos : (Fin n → ℝ) → Fin m → ℝ} {M : (Fin n → ℝ) →L[ℝ] (Fin m → ℝ)} (hg : GeometryOK P e x pos M) :
    (row fun s : Fin m => entry B P true e v x p off N j r s).comp M = row fun k : Fin n => comb B P true e v x p off N j r k := by
  ext w
  rw [ContinuousLinearMap.comp_apply, row_apply, row_apply]
  have h1 : ∀ s : Fin m, entry B P true e v x p off N j r s = ∑ k : Fin n, comb B P true e v x p off N j r k *
      (((P.jinv e x)[k.val]?.getD [])[s.val]?.getD 0) := by
    intro s
    rw [entry, if_pos rfl, hg.dim]
    exact (Finset.sum_range fun k => comb B P true e v x p off N j r k * (((P.jinv e x)[k]?.getD [])[s.val]?.getD 0))
  simp only [h1, Finset.sum_mul]
  rw [Finset.sum_comm]
  refine Finset.sum_congr rfl fun k _ => ?_
  rw [← hg.inverse k w, Finset.mul_sum]
  exact Finset.sum_congr rfl fun s _ => by ring

/-- Local function `i` evaluates to linear combinations at `x`, the conclusion of C41. -/
def Evaluates (B : Basis E) (P : Shapes E (Fin n → ℝ) ℝ) (s : St E ℝ) (i : Nat) (d : Bool) (e : E) (v : Vec ℝ) (x : Fin n → ℝ) : Prop :=
  ∃ y, eval B P s i x = some y ∧
    (∀ S1 p off n S2, slotsOn B e = S1 ++ (p, off, n) :: S2 → n ≠ 0 →
      ∀ q, (∀ s ∈ S2, s.2.2 ≠ 0 → q ∉ P.ntre d s.1) → (P.ntre d p).Nodup →
      ∀ j < P.dimC, ∀ r < P.rows p, ∀ s < P.outCols d, (P.ntre d p)[(j * P.rows p + r) * P.outCols d + s]? = some q →
        y q = entry B P d e v x p off n j r s) ∧
    ∀ q, (∀ s ∈ slotsOn B e, s.2.2 ≠ 0 → q ∉ P.ntre d s.1) → y q = 0

/-- The entries of the results of both local functions as linear combinations. -/
theorem valueAt_eq {B : Basis E} (P : Shapes E (Fin n → ℝ) ℝ) {s : St E ℝ} {i i' : Nat} {e : E} {v : Vec ℝ} {x : Fin n → ℝ} {p : List Nat}
    {j r : Nat} {q : Pos} {q' : Fin m → Pos} (hr : RangeEntries B P e p j r q q') (hm : P.dimworld = m)
    (h : ∀ z, Evaluates B P s i false e v z) (h' : Evaluates B P s i' true e v x) :
    ∃ off N, (p, off, N) ∈ slotsOn B e ∧
      (fun z => valueAt B P s i z q) = (fun z => comb B P false e v z p off N j r 0) ∧
      ∀ k : Fin m, valueAt B P s i' x (q' k) = entry B P true e v x p off N j r k := by
  obtain ⟨S1, off, N, S2, hS, hN, hS2⟩ := hr.leaf
  refine ⟨off, N, by rw [hS]; simp, ?_, ?_⟩
  · funext z
    obtain ⟨y, hy, hy', -⟩ := h z
    rw [valueAt, hy, Option.getD_some]
    refine (hy' S1 p off N S2 hS hN q (fun s hs hn => (hS2 s hs hn).1) (hr.nodup false) j hr.component.1 r hr.component.2 0
      (by simp [Shapes.outCols]) ?_).trans ?_
    · simpa [Shapes.outCols] using hr.value
    · rw [entry]; rfl
  · intro k
    obtain ⟨y, hy, hy', -⟩ := h'
    rw [valueAt, hy, Option.getD_some]
    refine hy' S1 p off N S2 hS hN (q' k) (fun s hs hn => (hS2 s hs hn).2 k) (hr.nodup true) j hr.component.1 r hr.component.2 k
      (by simp [Shapes.outCols, hm]) ?_
    simpa [Shapes.outCols, hm] using hr.jacobian k

/-- **C105.** The derivative of a discrete function is its derivative. Take any history of operations on local functions (see C41). If local
function `i` of the function and local function `i'` of its derivative are bound to `e` with the same coefficients, then both can be evaluated
everywhere on the element, and the function `z ↦ f(z)` of local coordinates is differentiable in `x`; its derivative is the value of `i'` at `x` times the
derivative of the geometry. This holds for each component of each leaf. -/
theorem C105_local_partial {b : PB E} (hb : b.WF) {pre : List Nat} (hp : HasPath b pre) (P : Shapes E (Fin n → ℝ) ℝ) (hP : P.OK ⟨b.model, pre⟩)
    {v0 : Vec ℝ} (hv0 : VecOK ⟨b.model, pre⟩ P.dimC v0) (ops : List (Op E ℝ))
    (hvec : ∀ v, .setVec v ∈ ops → VecOK ⟨b.model, pre⟩ P.dimC v)
    (hA : (∃ p, P.uses p = true) → ∀ i j, .assign i j ∉ ops) {a : Abs E ℝ} (ha : absRun (v0, []) ops = some a) :
    ∃ s, run ⟨b.model, pre⟩ ⟨v0, []⟩ ops = some s ∧
      ∀ i i' e v, aget a i = some (false, some (e, v)) → aget a i' = some (true, some (e, v)) →
        (∀ z, (eval ⟨b.model, pre⟩ P s i z).isSome ∧ (eval ⟨b.model, pre⟩ P s i' z).isSome) ∧
        ∀ x (pos : (Fin n → ℝ) → Fin m → ℝ) M, GeometryOK P e x pos M → JacobiansOK ⟨b.model, pre⟩ P e x →
          ∀ p j r q q', RangeEntries ⟨b.model, pre⟩ P e p j r q q' →
            HasFDerivAt (fun z => valueAt ⟨b.model, pre⟩ P s i z q)
              ((row fun k : Fin m => valueAt ⟨b.model, pre⟩ P s i' x (q' k)).comp M) x := by
  obtain ⟨s, hs, h⟩ := C41_linearCombination_partial hb hp P hP hv0 ops hvec hA ha
  refine ⟨s, hs, fun i i' e v hi hi' => ⟨fun z => ?_, ?_⟩⟩
  · obtain ⟨y, hy, -⟩ := h i false e v hi z
    obtain ⟨y', hy', -⟩ := h i' true e v hi' z
    rw [hy, hy']
    exact ⟨rfl, rfl⟩
  · intro x pos M hg hj p j r q q' hr
    obtain ⟨off, N, hmem, hval, hder⟩ := valueAt_eq P hr hg.dimworld (h i false e v hi) (h i' true e v hi' x)
    rw [hval]
    simp only [hder]
    rw [entry_row _ P e v x p off N j r hg]
    exact comb_hasFDerivAt _ P e v x p off N j r fun i hi => hj (p, off, N) hmem i hi r hr.component.2

/-- From local to global coordinates. -/
theorem global_of_local {f : (Fin n → ℝ) → ℝ} {pos loc : (Fin n → ℝ) → Fin n → ℝ} {M : (Fin n → ℝ) →L[ℝ] (Fin n → ℝ)}
    {g : (Fin n → ℝ) →L[ℝ] ℝ} {x : Fin n → ℝ} (hf : HasFDerivAt f (g.comp M) x) (hpos : HasFDerivAt pos M x) (hM : Function.Injective M)
    (hl : loc (pos x) = x) (hc : ContinuousAt loc (pos x)) (hi : ∀ᶠ y in 𝓝 (pos x), pos (loc y) = y) :
    HasFDerivAt (fun y => f (loc y)) g (pos x) := by
  let L : (Fin n → ℝ) ≃L[ℝ] (Fin n → ℝ) := (LinearEquiv.ofInjectiveEndo M.toLinearMap hM).toContinuousLinearEquiv
  have hL : (L : (Fin n → ℝ) →L[ℝ] (Fin n → ℝ)) = M := by
    ext w; rfl
  have h1 : HasFDerivAt loc (L.symm : (Fin n → ℝ) →L[ℝ] (Fin n → ℝ)) (pos x) :=
    HasFDerivAt.of_local_left_inverse hc (by rw [hl, hL]; exact hpos) hi
  have h2 : HasFDerivAt f (g.comp M) (loc (pos x)) := by rw [hl]; exact hf
  have h3 := h2.comp (pos x) h1
  have h4 : (g.comp M).comp (L.symm : (Fin n → ℝ) →L[ℝ] (Fin n → ℝ)) = g := by
    rw [← hL]
    ext w
    simp
  rw [h4] at h3
  exact h3

/-- **C105.** In a grid of the dimension of the world, the derivative of a discrete function is its derivative with respect to global coordinates:
`loc` is the inverse of the geometry near the point with local coordinates `x`, hence `y ↦ f(loc y)` is the function in global
coordinates. Its gradient at `pos x` has the entries which the local function of the derivative returns at `x`. -/
theorem C105_global_partial {b : PB E} (hb : b.WF) {pre : List Nat} (hp : HasPath b pre) (P : Shapes E (Fin n → ℝ) ℝ) (hP : P.OK ⟨b.model, pre⟩)
    {v0 : Vec ℝ} (hv0 : VecOK ⟨b.model, pre⟩ P.dimC v0) (ops : List (Op E ℝ))
    (hvec : ∀ v, .setVec v ∈ ops → VecOK ⟨b.model, pre⟩ P.dimC v)
    (hA : (∃ p, P.uses p = true) → ∀ i j, .assign i j ∉ ops) {a : Abs E ℝ} (ha : absRun (v0, []) ops = some a) :
    ∃ s, run ⟨b.model, pre⟩ ⟨v0, []⟩ ops = some s ∧
      ∀ i i' e v, aget a i = some (false, some (e, v)) → aget a i' = some (true, some (e, v)) →
        ∀ x (pos loc : (Fin n → ℝ) → Fin n → ℝ) M, GeometryOK P e x pos M → JacobiansOK ⟨b.model, pre⟩ P e x →
          loc (pos x) = x → ContinuousAt loc (pos x) → (∀ᶠ y in 𝓝 (pos x), pos (loc y) = y) →
          ∀ p j r q q', RangeEntries ⟨b.model, pre⟩ P e p j r q q' →
            HasFDerivAt (fun y => valueAt ⟨b.model, pre⟩ P s i (loc y) q)
              (row fun k : Fin n => valueAt ⟨b.model, pre⟩ P s i' x (q' k)) (pos x) := by
  obtain ⟨s, hs, h⟩ := C105_local_partial (m := n) hb hp P hP hv0 ops hvec hA ha
  refine ⟨s, hs, fun i i' e v hi hi' x pos loc M hg hj hl hc hloc p j r q q' hr => ?_⟩
  refine global_of_local ((h i i' e v hi hi').2 x pos M hg hj p j r q q' hr) hg.deriv ?_ hl hc hloc
  intro w w' hw
  funext k
  rw [← hg.inverse k w, ← hg.inverse k w', hw]

/-! ## Finite elements -/

/-- Polynomials are differentiable, with the formal partial derivatives. -/
theorem eval_hasFDerivAt (p : MvPolynomial (Fin n) ℝ) (x : Fin n → ℝ) :
    HasFDerivAt (fun z => MvPolynomial.eval z p) (row fun k => MvPolynomial.eval x (MvPolynomial.pderiv k p)) x := by
  induction p using MvPolynomial.induction_on with
  | C c =>
    have : (row fun k : Fin n => MvPolynomial.eval x (MvPolynomial.pderiv k (MvPolynomial.C c))) = 0 := by
      ext w; simp [row_apply]
    rw [this]
    simpa using hasFDerivAt_const c x
  | add p q hp hq =>
    have : (row fun k => MvPolynomial.eval x (MvPolynomial.pderiv k (p + q))) =
        (row fun k => MvPolynomial.eval x (MvPolynomial.pderiv k p)) + row fun k => MvPolynomial.eval x (MvPolynomial.pderiv k q) := by
      ext w; simp [row_apply, add_mul, Finset.sum_add_distrib]
    rw [this]
    simpa using hp.fun_add hq
  | mul_X p i hp =>
    have h1 : HasFDerivAt (fun z : Fin n → ℝ => z i) (ContinuousLinearMap.proj (R := ℝ) (φ := fun _ : Fin n => ℝ) i) x :=
      (ContinuousLinearMap.proj (R := ℝ) (φ := fun _ : Fin n => ℝ) i).hasFDerivAt
    have h2 := hp.fun_mul h1
    have : (row fun k => MvPolynomial.eval x (MvPolynomial.pderiv k (p * MvPolynomial.X i))) =
        MvPolynomial.eval x p • ContinuousLinearMap.proj (R := ℝ) (φ := fun _ : Fin n => ℝ) i +
          x i • row fun k => MvPolynomial.eval x (MvPolynomial.pderiv k p) := by
      ext w
      simp only [row_apply, add_apply, smul_apply, ContinuousLinearMap.proj_apply, smul_eq_mul,
        Derivation.leibniz, MvPolynomial.pderiv_X, map_add, map_mul, MvPolynomial.eval_X, Finset.mul_sum]
      simp only [add_mul, Finset.sum_add_distrib]
      congr 1
      · rw [Finset.sum_eq_single i]
        · simp
        · intro k _ hk
          simp [hk.symm]
        · simp
      · exact Finset.sum_congr rfl fun k _ => by ring
    rw [this]
    simpa using h2

/-- The Jacobians `jac x` of the scalar shape functions are the derivatives of `val`. -/
def ScalarJacobians (val : (Fin n → ℝ) → Option (List ℝ)) (jac : (Fin n → ℝ) → Option (List (Fin n → ℝ))) : Prop :=
  ∀ x, ∃ vs Ds, val x = some vs ∧ jac x = some Ds ∧ vs.length = Ds.length ∧
    ∀ i < vs.length, HasFDerivAt (fun z => ((val z).getD [])[i]?.getD 0) (row (Ds[i]?.getD 0)) x

theorem scalar_of_polynomials {N : Nat} {val : (Fin n → ℝ) → Option (List ℝ)} {jac : (Fin n → ℝ) → Option (List (Fin n → ℝ))}
    (Q : Nat → MvPolynomial (Fin n) ℝ) (h1 : ∀ x, val x = some ((List.range N).map fun i => MvPolynomial.eval x (Q i)))
    (h2 : ∀ x, jac x = some ((List.range N).map fun i => fun k => MvPolynomial.eval x (MvPolynomial.pderiv k (Q i)))) :
    ScalarJacobians val jac := by
  intro x
  refine ⟨_, _, h1 x, h2 x, by simp, ?_⟩
  intro i hi
  simp only [List.length_map, List.length_range] at hi
  simp only [h1, Option.getD_some, List.getElem?_map, List.getElem?_range hi, Option.map_some]
  exact eval_hasFDerivAt (Q i) x

/-- **C105.** The finite elements implemented here fulfill the contract `JacobiansOK`: bound to an element, the Jacobians of the shape functions of
the Hermite, Morley and Argyris elements are the derivatives of the shape functions with respect to local coordinates. -/
theorem C105_elements {dim : Nat} {reduced : Bool} (h : FE.Hermite.Exists dim reduced) (fe : FE.Hermite.Bound ℝ dim) (c : ℝ)
    (fm : FE.Morley.Bound) (fa : FE.Argyris.Bound) :
    ScalarJacobians (FE.Hermite.evaluateFunction reduced fe) (FE.Hermite.evaluateJacobian reduced fe) ∧
    ScalarJacobians (FE.Morley.evaluateFunction c fm) (FE.Morley.evaluateJacobian c fm) ∧
    ScalarJacobians (FE.Argyris.evaluateFunction c fa) (FE.Argyris.evaluateJacobian c fa) := by
  obtain ⟨Q, hQ⟩ := FE.Hermite.C49_polynomials h fe
  obtain ⟨Q', hQ'⟩ := FE.Morley.C50_polynomials c fm
  obtain ⟨Q'', hQ''⟩ := FE.Argyris.C51_polynomials c fa
  exact ⟨scalar_of_polynomials Q (fun x => (hQ x).1) (fun x => (hQ x).2.1),
    scalar_of_polynomials Q' (fun x => (hQ' x).1) (fun x => (hQ' x).2.1),
    scalar_of_polynomials Q'' (fun x => (hQ'' x).1) (fun x => (hQ'' x).2.1)⟩

/-- Contract of a vector valued local finite element: `jac` are the derivatives of the shape functions. -/
structure VectorJacobians (F : Piola.LFE ℝ n) : Prop where
  eval : ∀ x, (F.eval x).length = F.size
  jac : ∀ x, (F.jac x).length = F.size
  deriv : ∀ x, ∀ i < F.size, ∀ r, HasFDerivAt (fun z => F.shape i z r) (row (((F.jac x)[i]?.getD (0 : Piola.Mat ℝ n)) r)) x

/-- **C105.** On an affine element, the transformed local finite elements of the Raviart–Thomas, Brezzi–Douglas–Marini and Nédélec bases fulfill the
contract if the local finite elements of dune-localfunctions do. -/
theorem C105_piola (κ : Piola.Kind) (g : Piola.Geometry ℝ n) (J : Piola.Mat ℝ n) (hg : ∀ x, g.OK J x) {F : Piola.LFE ℝ n}
    (hF : VectorJacobians F) : VectorJacobians (Piola.globalValued κ g F) := by
  obtain ⟨A, hA⟩ := Piola.apply_linear κ J
  refine ⟨fun x => ?_, fun x => ?_, fun x i hi r => ?_⟩
  · simp only [Piola.globalValued, (hA g x (hg x)).1, List.length_map, hF.eval]
  · simp only [Piola.globalValued, (hA g x (hg x)).2, List.length_map, hF.jac]
  · replace hi : i < F.size := hi
    have h1 : ∀ y, (Piola.globalValued κ g F).shape i y r = ∑ k, A r k * F.shape i y k := by
      intro y
      have hl : i < (F.eval y).length := by rw [hF.eval]; exact hi
      simp only [Piola.LFE.shape, Piola.globalValued, (hA g y (hg y)).1, List.getElem?_map, List.getElem?_eq_getElem hl, Option.map_some,
        Option.getD_some]
      rfl
    have h2 : (((Piola.globalValued κ g F).jac x)[i]?).getD 0 = A * ((F.jac x)[i]?).getD 0 := by
      have hl : i < (F.jac x).length := by rw [hF.jac]; exact hi
      simp only [Piola.globalValued, (hA g x (hg x)).2, List.getElem?_map, List.getElem?_eq_getElem hl, Option.map_some, Option.getD_some]
    have h3 : row ((A * ((F.jac x)[i]?).getD 0) r) = ∑ k, A r k • row (((F.jac x)[i]?.getD (0 : Piola.Mat ℝ n)) k) := by
      ext w
      rw [row_apply, sum_apply]
      simp only [smul_apply, row_apply, smul_eq_mul, Finset.mul_sum, Matrix.mul_apply, Finset.sum_mul]
      rw [Finset.sum_comm]
      exact Finset.sum_congr rfl fun _ _ => Finset.sum_congr rfl fun _ _ => by ring
    simp only [h1]
    rw [h2, h3]
    exact HasFDerivAt.fun_sum fun k _ => (hF.deriv x i hi k).const_mul _

/-- The values and Jacobians of the leaf `p` are those of a scalar finite element. -/
structure ScalarLeaf (P : Shapes E (Fin n → ℝ) ℝ) (p : List Nat) (e : E) (N : Nat) (val : (Fin n → ℝ) → Option (List ℝ))
    (jac : (Fin n → ℝ) → Option (List (Fin n → ℝ))) : Prop where
  rows : P.rows p = 1
  size : ∀ z, ((val z).getD []).length = N
  value : ∀ z, P.shape false p e (if P.uses p then some e else none) z = ((val z).getD []).map fun y => [[y]]
  jacobian : ∀ z, P.shape true p e (if P.uses p then some e else none) z = ((jac z).getD []).map fun D => [List.ofFn D]

/-- The values and Jacobians of the leaf `p` are those of a vector valued finite element. -/
structure VectorLeaf (P : Shapes E (Fin n → ℝ) ℝ) (p : List Nat) (e : E) (N : Nat) (F : Piola.LFE ℝ n) : Prop where
  rows : P.rows p = n
  size : F.size = N
  value : ∀ z, P.shape false p e (if P.uses p then some e else none) z = (F.eval z).map fun v => List.ofFn fun r => [v r]
  jacobian : ∀ z, P.shape true p e (if P.uses p then some e else none) z = (F.jac z).map fun D => List.ofFn fun r => List.ofFn (D r)

/-- **C105.** Trees whose leaves have finite elements with the contracts above fulfill the hypothesis of `C105_local_partial` and `C105_global_partial`. -/
theorem C105_contract (B : Basis E) (P : Shapes E (Fin n → ℝ) ℝ) (e : E) (x : Fin n → ℝ)
    (h : ∀ s ∈ slotsOn B e, (∃ val jac, ScalarJacobians val jac ∧ ScalarLeaf P s.1 e s.2.2 val jac) ∨
      ∃ F, VectorJacobians F ∧ VectorLeaf P s.1 e s.2.2 F) : JacobiansOK B P e x := by
  intro s hs i hi r hr
  rcases h s hs with ⟨val, jac, hc, hl⟩ | ⟨F, hc, hl⟩
  · obtain ⟨vs, Ds, h1, h2, h3, h4⟩ := hc x
    have hlen := hl.size x
    rw [h1, Option.getD_some] at hlen
    rw [hl.rows] at hr
    obtain rfl : r = 0 := by omega
    have h5 : (fun z => shapeEntry P false s.1 e z i 0 0) = fun z => ((val z).getD [])[i]?.getD 0 := by
      funext z
      have hz : i < ((val z).getD []).length := by rw [hl.size z]; exact hi
      simp [shapeEntry, hl.value z, List.getElem?_eq_getElem hz]
    have hd : i < Ds.length := by omega
    have h6 : (fun k : Fin n => shapeEntry P true s.1 e x i 0 k) = Ds[i]?.getD 0 := by
      funext k
      simp [shapeEntry, hl.jacobian x, h2, List.getElem?_eq_getElem hd]
    rw [h5, h6]
    exact h4 i (by omega)
  · have hi' : i < F.size := by rw [hl.size]; exact hi
    rw [hl.rows] at hr
    have h5 : (fun z => shapeEntry P false s.1 e z i r 0) = fun z => F.shape i z ⟨r, hr⟩ := by
      funext z
      have hz : i < (F.eval z).length := by rw [hc.eval z]; exact hi'
      simp [shapeEntry, hl.value z, Piola.LFE.shape, List.getElem?_eq_getElem hz, hr]
    have h6 : (fun k : Fin n => shapeEntry P true s.1 e x i r k) = ((F.jac x)[i]?.getD (0 : Piola.Mat ℝ n)) ⟨r, hr⟩ := by
      funext k
      have hz : i < (F.jac x).length := by rw [hc.jac x]; exact hi'
      simp [shapeEntry, hl.jacobian x, List.getElem?_eq_getElem hz, hr]
    rw [h5, h6]
    exact hc.deriv x i hi' ⟨r, hr⟩

/-! ## Examples and counterexamples -/

/-- One element with one basis function. -/
def oneBasis : PB Unit := .leaf ⟨1, 1, fun _ => [0]⟩

/-- A discrete function with values in `ℝ²` and one shape function, transformed by the contravariant Piola transformation; `J` is the
Jacobian of the geometry. -/
noncomputable def oneShapes (J : (Fin 2 → ℝ) → Piola.Mat ℝ 2) (F : Piola.LFE ℝ 2) : Shapes Unit (Fin 2 → ℝ) ℝ where
  dimC := 1
  uses _ := true
  shape d _ _ _ x :=
    if d then ((Piola.globalValued .contra (Piola.ofJacobian J) F).jac x).map fun D => List.ofFn fun r => List.ofFn (D r)
    else ((Piola.globalValued .contra (Piola.ofJacobian J) F).eval x).map fun v => List.ofFn fun r => [v r]
  rows _ := 2
  dim := 2
  dimworld := 2
  jinv _ x := List.ofFn fun k => List.ofFn ((J x)⁻¹ k)
  ntre d _ := if d then [[0, 0], [0, 1], [1, 0], [1, 1]] else [[0], [1]]

theorem oneSlots (e : Unit) : slotsOn ⟨oneBasis.model, []⟩ e = [([], 0, 1)] := by
  cases e
  decide +kernel

theorem oneShapes_OK (J : (Fin 2 → ℝ) → Piola.Mat ℝ 2) {F : Piola.LFE ℝ 2} (hF : VectorJacobians F) (h1 : F.size = 1) :
    (oneShapes J F).OK ⟨oneBasis.model, []⟩ := by
  refine ⟨?_, ?_, ?_⟩
  · intro d e x s hs
    rw [oneSlots, List.mem_singleton] at hs
    subst hs
    cases d
    · simp [oneShapes, Piola.globalValued, Piola.apply, Piola.contraApply, hF.eval, h1]
    · refine (List.length_map _).trans ((List.length_map _).trans ?_)
      rw [hF.jac, h1]
  · intro d e x s _ φ hφ
    cases d <;> simp only [oneShapes, List.mem_map, if_true, Bool.false_eq_true, if_false] at hφ <;> obtain ⟨z, _, rfl⟩ := hφ <;>
      simp [oneShapes, Shapes.cols]
  · intro d e s _
    cases d <;> simp [oneShapes, Shapes.outCols]

/-- The coefficient is one. -/
def oneVec : Vec ℝ := fun _ => some [1]

theorem oneVec_OK : VecOK ⟨oneBasis.model, []⟩ 1 oneVec := fun _ _ => ⟨_, rfl, rfl⟩

/-- Local functions `0` of the function and `1` of its derivative. -/
def oneOps : List (Op Unit ℝ) := [.new false, .bind 0 (), .derivativeOf 0]

theorem oneEntries (J : (Fin 2 → ℝ) → Piola.Mat ℝ 2) (F : Piola.LFE ℝ 2) (r : Fin 2) :
    RangeEntries (m := 2) ⟨oneBasis.model, []⟩ (oneShapes J F) () [] 0 r [r.val] fun k => [r.val, k.val] := by
  refine ⟨⟨[], 0, 1, [], oneSlots (), by decide, by simp⟩, ?_, ?_, ?_, ?_⟩
  · intro d
    cases d <;> simp [oneShapes]
  · exact ⟨Nat.one_pos, r.2⟩
  · fin_cases r <;> rfl
  · intro k
    fin_cases r <;> fin_cases k <;> rfl

theorem oneGeometry (J : (Fin 2 → ℝ) → Piola.Mat ℝ 2) (F : Piola.LFE ℝ 2) (pos : (Fin 2 → ℝ) → Fin 2 → ℝ) (x : Fin 2 → ℝ)
    (hd : (J x).det ≠ 0) (hp : HasFDerivAt pos (Matrix.toLin' (J x)).toContinuousLinearMap x) :
    GeometryOK (oneShapes J F) () x pos (Matrix.toLin' (J x)).toContinuousLinearMap := by
  refine ⟨rfl, rfl, hp, ?_⟩
  intro k w
  have h : ((J x)⁻¹ *ᵥ (J x *ᵥ w)) k = w k := by
    rw [Matrix.mulVec_mulVec, Matrix.nonsing_inv_mul _ (isUnit_iff_ne_zero.2 hd), Matrix.one_mulVec]
  rw [← h]
  fin_cases k <;> simp [oneShapes, Matrix.mulVec, dotProduct]

/-- The shape function `x ↦ x`. -/
def identityLFE : Piola.LFE ℝ 2 := ⟨1, fun x => [x], fun _ => [1], fun _ => []⟩

theorem identityLFE_OK : VectorJacobians identityLFE := by
  refine ⟨fun _ => rfl, fun _ => rfl, ?_⟩
  intro x i hi r
  obtain rfl : i = 0 := by simp [identityLFE] at hi; exact hi
  have h : (row (((identityLFE.jac x)[0]?.getD (0 : Piola.Mat ℝ 2)) r)) = ContinuousLinearMap.proj (R := ℝ) (φ := fun _ : Fin 2 => ℝ) r := by
    ext w
    simp [identityLFE, row_apply, Matrix.one_apply]
  rw [h]
  exact (ContinuousLinearMap.proj (R := ℝ) (φ := fun _ : Fin 2 => ℝ) r).hasFDerivAt

theorem constLFE_OK (v : Fin 2 → ℝ) : VectorJacobians (Piola.constLFE v) := by
  refine ⟨fun _ => rfl, fun _ => rfl, ?_⟩
  intro x i hi r
  obtain rfl : i = 0 := by simp [Piola.constLFE] at hi; exact hi
  have h : (row ((((Piola.constLFE v).jac x)[0]?.getD (0 : Piola.Mat ℝ 2)) r)) = 0 := by
    ext w
    simp [Piola.constLFE, row_apply]
  rw [h]
  simpa [Piola.constLFE, Piola.LFE.shape] using hasFDerivAt_const (v r) x

/-- The contract holds on the affine element with Jacobian `Piola.exJ`. -/
theorem oneJacobians {F : Piola.LFE ℝ 2} (hF : VectorJacobians F) (h1 : F.size = 1) (x : Fin 2 → ℝ) :
    JacobiansOK ⟨oneBasis.model, []⟩ (oneShapes (fun _ => Piola.exJ) F) () x := by
  refine C105_contract _ _ _ _ fun s hs => .inr ⟨_, C105_piola .contra _ _ Piola.exJ_OK hF, ?_⟩
  rw [oneSlots, List.mem_singleton] at hs
  subst hs
  exact ⟨rfl, h1, fun _ => rfl, fun _ => rfl⟩

/-- All hypotheses of `C105_global_partial` hold for the function with values `J x / |det J|` in local coordinates `x` on the element `y = J x`,
which is `y / |det J|`. -/
example : ∃ s, run ⟨oneBasis.model, []⟩ ⟨oneVec, []⟩ oneOps = some s ∧ ∀ (x : Fin 2 → ℝ) (r : Fin 2),
    HasFDerivAt (fun y => valueAt ⟨oneBasis.model, []⟩ (oneShapes (fun _ => Piola.exJ) identityLFE) s 0 (Piola.exJ⁻¹ *ᵥ y) [r.val])
      (row fun k : Fin 2 => valueAt ⟨oneBasis.model, []⟩ (oneShapes (fun _ => Piola.exJ) identityLFE) s 1 x [r.val, k.val])
      (Piola.exJ *ᵥ x) := by
  obtain ⟨s, hs, h⟩ := C105_global_partial (b := oneBasis) (by simp [oneBasis, PB.WF]) (.nil _) (oneShapes (fun _ => Piola.exJ) identityLFE)
    (oneShapes_OK _ identityLFE_OK rfl) oneVec_OK oneOps (by simp [oneOps]) (by simp [oneOps])
    (a := (oneVec, [some (false, some ((), oneVec)), some (true, some ((), oneVec))])) rfl
  have hd : Piola.exJ.det ≠ 0 := by simp [Piola.exJ, Matrix.det_fin_two_of]
  refine ⟨s, hs, fun x r => ?_⟩
  refine h 0 1 () oneVec rfl rfl x (fun x => Piola.exJ *ᵥ x) (fun y => Piola.exJ⁻¹ *ᵥ y) _
    (oneGeometry _ _ _ x hd ((Matrix.toLin' Piola.exJ).toContinuousLinearMap).hasFDerivAt) (oneJacobians identityLFE_OK rfl x) ?_ ?_ ?_
    [] 0 r [r.val] (fun k => [r.val, k.val]) (oneEntries _ _ r)
  · simp only [Matrix.mulVec_mulVec, Matrix.nonsing_inv_mul _ (isUnit_iff_ne_zero.2 hd), Matrix.one_mulVec]
  · exact ((Matrix.toLin' Piola.exJ⁻¹).toContinuousLinearMap).continuous.continuousAt
  · refine Filter.Eventually.of_forall fun y => ?_
    simp only [Matrix.mulVec_mulVec, Matrix.mul_nonsing_inv _ (isUnit_iff_ne_zero.2 hd), Matrix.one_mulVec]

/-- The map with Jacobian `Piola.trapezoid`. -/
def trapezoidMap (x : Fin 2 → ℝ) : Fin 2 → ℝ := ![x 0 + x 0 * x 1, x 1]

theorem trapezoidMap_deriv (x : Fin 2 → ℝ) :
    HasFDerivAt trapezoidMap (Matrix.toLin' (Piola.trapezoid x)).toContinuousLinearMap x := by
  have h0 : HasFDerivAt (fun z : Fin 2 → ℝ => z 0) (ContinuousLinearMap.proj (R := ℝ) (φ := fun _ : Fin 2 => ℝ) 0) x :=
    (ContinuousLinearMap.proj (R := ℝ) (φ := fun _ : Fin 2 => ℝ) 0).hasFDerivAt
  have h1 : HasFDerivAt (fun z : Fin 2 → ℝ => z 1) (ContinuousLinearMap.proj (R := ℝ) (φ := fun _ : Fin 2 => ℝ) 1) x :=
    (ContinuousLinearMap.proj (R := ℝ) (φ := fun _ : Fin 2 => ℝ) 1).hasFDerivAt
  rw [hasFDerivAt_pi']
  intro i
  fin_cases i
  · refine (h0.fun_add (h0.fun_mul h1)).congr_fderiv ?_
    ext w
    simp [Piola.trapezoid, dotProduct]
    ring
  · refine h1.congr_fderiv ?_
    ext w
    simp [Piola.trapezoid, dotProduct]

/-- **C105 fails on elements that are not affine** for the bases that use the Piola transformations, as the code documents: the derivative of a
discrete function is not its derivative. The local finite element and the geometry fulfill their contracts; on the trapezoid, the
constant shape function `(0, 1)` becomes `(x_0, 1) / (1 + x_1)`, but `derivative(f)` returns zero. -/
theorem C105_nonaffine_false : ∃ F : Piola.LFE ℝ 2, VectorJacobians F ∧
    GeometryOK (oneShapes Piola.trapezoid F) () 0 trapezoidMap (Matrix.toLin' (Piola.trapezoid 0)).toContinuousLinearMap ∧
    RangeEntries (m := 2) ⟨oneBasis.model, []⟩ (oneShapes Piola.trapezoid F) () [] 0 0 [0] (fun k => [0, k.val]) ∧
    ∃ s, run ⟨oneBasis.model, []⟩ ⟨oneVec, []⟩ oneOps = some s ∧
      ¬ HasFDerivAt (fun z => valueAt ⟨oneBasis.model, []⟩ (oneShapes Piola.trapezoid F) s 0 z [0])
        ((row fun k : Fin 2 => valueAt ⟨oneBasis.model, []⟩ (oneShapes Piola.trapezoid F) s 1 0 [0, k.val]).comp
          (Matrix.toLin' (Piola.trapezoid 0)).toContinuousLinearMap) 0 := by
  have hok : ∀ x : Fin 2 → ℝ, 0 ≤ x 1 → (Piola.ofJacobian Piola.trapezoid).OK (Piola.trapezoid x) x := by
    intro x hx
    refine Piola.ofJacobian_OK _ _ ?_
    simp only [Piola.trapezoid, Matrix.det_fin_two_of, mul_one, mul_zero, sub_zero]
    linarith
  have hg := oneGeometry Piola.trapezoid (Piola.constLFE ![0, 1]) trapezoidMap 0 (by simp [Piola.trapezoid, Matrix.det_fin_two_of])
    (trapezoidMap_deriv 0)
  have hr := oneEntries Piola.trapezoid (Piola.constLFE ![0, 1]) 0
  obtain ⟨s, hs, h⟩ := C41_linearCombination_partial (b := oneBasis) (by simp [oneBasis, PB.WF]) (.nil _)
    (oneShapes Piola.trapezoid (Piola.constLFE ![0, 1])) (oneShapes_OK _ (constLFE_OK _) rfl) oneVec_OK oneOps (by simp [oneOps]) (by simp [oneOps])
    (a := (oneVec, [some (false, some ((), oneVec)), some (true, some ((), oneVec))])) rfl
  refine ⟨_, constLFE_OK ![0, 1], hg, hr, s, hs, ?_⟩
  obtain ⟨off, N, hmem, hval, hder⟩ := valueAt_eq _ hr rfl (h 0 false () oneVec rfl) (h 1 true () oneVec rfl 0)
  rw [oneSlots, List.mem_singleton] at hmem
  simp only [Prod.mk.injEq, true_and] at hmem
  obtain ⟨rfl, rfl⟩ := hmem
  intro hf
  have hval' : ∀ z, valueAt ⟨oneBasis.model, []⟩ (oneShapes Piola.trapezoid (Piola.constLFE ![0, 1])) s 0 z [0] =
      (Piola.globalValued .contra (Piola.ofJacobian Piola.trapezoid) (Piola.constLFE ![0, 1])).shape 0 z 0 := by
    intro z
    refine (congrFun hval z).trans ?_
    simp [comb, oneVec, oneShapes, Piola.LFE.shape, Piola.globalValued, Piola.apply, Piola.contraApply, Piola.constLFE]
  have hder' : ∀ k : Fin 2, valueAt ⟨oneBasis.model, []⟩ (oneShapes Piola.trapezoid (Piola.constLFE ![0, 1])) s 1 0 [0, k.val] = 0 := by
    intro k
    refine (hder k).trans ?_
    have : ∀ k, comb ⟨oneBasis.model, []⟩ (oneShapes Piola.trapezoid (Piola.constLFE ![0, 1])) true () oneVec 0 [] 0 1 0 0 k = 0 := by
      intro k
      have hj : (Piola.globalValued .contra (Piola.ofJacobian Piola.trapezoid) (Piola.constLFE ![0, 1])).jac 0 = [0] := by
        simp only [Piola.globalValued, Piola.applyJacobian, Piola.constLFE]
        rw [Piola.contraApplyJacobian_eq (hok 0 (by simp))]
        simp
      rcases k with _ | _ | k <;> simp [comb, oneVec, oneShapes, hj]
    simp [entry, this]
  simp only [hval', hder'] at hf
  have hc : HasDerivAt (fun t : ℝ => (Function.update 0 0 t : Fin 2 → ℝ)) (Pi.single 0 1) 0 := hasDerivAt_update 0 0 0
  have h0 : (Function.update 0 0 0 : Fin 2 → ℝ) = 0 := by simp
  rw [← h0] at hf
  have h1 := HasFDerivAt.comp_hasDerivAt (0 : ℝ) hf hc
  have h2 : HasDerivAt (fun t : ℝ => (Piola.globalValued .contra (Piola.ofJacobian Piola.trapezoid) (Piola.constLFE ![0, 1])).shape 0
      (Function.update 0 0 t) 0) 1 0 := by
    have : ∀ s : ℝ, (Piola.globalValued .contra (Piola.ofJacobian Piola.trapezoid) (Piola.constLFE ![0, 1])).shape 0 (Function.update 0 0 s) 0
        = s := by
      intro s
      simp only [Piola.LFE.shape, Piola.globalValued, Piola.apply, Piola.constLFE]
      rw [Piola.contraApply_eq (hok _ (by simp [Function.update]))]
      simp [Piola.trapezoid, Matrix.det_fin_two_of, dotProduct, Fin.sum_univ_two, Function.update]
    exact (hasDerivAt_id (0 : ℝ)).congr_of_eventuallyEq (Filter.Eventually.of_forall fun s => this s)
  have h3 := h1.unique h2
  simp [row] at h3

end Verif.Derivative

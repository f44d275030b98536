import Mathlib.Algebra.MvPolynomial.PDeriv
import Mathlib.Algebra.MvPolynomial.Polynomial
import Mathlib.Algebra.MvPolynomial.Degrees
import Mathlib.Algebra.Polynomial.Derivation
import Mathlib.Algebra.Polynomial.BigOperators
import Mathlib.Algebra.Polynomial.Degree.Lemmas
import Mathlib.Algebra.CharZero.Infinite
import Mathlib.RingTheory.MvPolynomial.Basic
import Mathlib.RingTheory.Derivation.Lie
import Mathlib.Tactic.LinearCombination
import Mathlib.Tactic.FieldSimp

/-!
# Restriction of polynomials to lines

A polynomial on a line is a polynomial in one variable; Hermite interpolation in one variable is unique.
-/

namespace Verif.FE

open MvPolynomial (pderiv eval aeval)

section Chain

variable {K : Type} [CommRing K] {dim : Nat} {A : Type} [CommRing A] [Algebra K A]

/-- Chain rule. -/
theorem chain (φ : MvPolynomial (Fin dim) K →ₐ[K] A) (D : Derivation K A A) (p : MvPolynomial (Fin dim) K) :
    D (φ p) = ∑ j, φ (pderiv j p) * D (φ (MvPolynomial.X j)) := by
  induction p using MvPolynomial.induction_on with
  | C a =>
    have : φ (MvPolynomial.C a) = algebraMap K A a := φ.commutes a
    simp [this]
  | add p q hp hq => simp [hp, hq, add_mul, Finset.sum_add_distrib]
  | mul_X p i hp =>
    simp only [map_mul, Derivation.leibniz, smul_eq_mul, hp, MvPolynomial.pderiv_X, map_add, add_mul,
      Finset.sum_add_distrib, Finset.mul_sum]
    congr 1
    · rw [Finset.sum_eq_single i]
      · simp
      · intro j _ hj
        rw [Pi.single_eq_of_ne hj.symm]
        simp
      · simp
    · apply Finset.sum_congr rfl
      intro j _
      ring

/-- Partial derivatives commute. -/
theorem pderiv_comm (i j : Fin dim) (p : MvPolynomial (Fin dim) K) : pderiv i (pderiv j p) = pderiv j (pderiv i p) := by
  have h : ⁅(pderiv i : Derivation K (MvPolynomial (Fin dim) K) (MvPolynomial (Fin dim) K)),
      (pderiv j : Derivation K (MvPolynomial (Fin dim) K) (MvPolynomial (Fin dim) K))⁆ = 0 := by
    apply MvPolynomial.derivation_ext
    intro k
    rw [Derivation.commutator_apply, MvPolynomial.pderiv_X, MvPolynomial.pderiv_X]
    by_cases h1 : k = i <;> by_cases h2 : k = j
    · subst h1 h2; simp
    · subst h1; simp [Pi.single_eq_of_ne h2]
    · subst h2; simp [Pi.single_eq_of_ne h1]
    · simp [Pi.single_eq_of_ne h1, Pi.single_eq_of_ne h2]
  have := DFunLike.congr_fun h p
  rw [Derivation.commutator_apply] at this
  simpa [sub_eq_zero] using this

end Chain

section Line

variable {K : Type} [Field K] {dim : Nat}

/-- The restriction of a polynomial to the line through `a` in direction `v`. -/
noncomputable def line (a v : Fin dim → K) : MvPolynomial (Fin dim) K →ₐ[K] Polynomial K :=
  aeval fun d => Polynomial.C (a d) + Polynomial.C (v d) * Polynomial.X

theorem eval_line (a v : Fin dim → K) (p : MvPolynomial (Fin dim) K) (t : K) :
    (line a v p).eval t = eval (fun d => a d + t * v d) p := by
  have h : (Polynomial.aeval t).comp (line a v) = aeval fun d => a d + t * v d := by
    apply MvPolynomial.algHom_ext
    intro d
    simp only [line, AlgHom.comp_apply, MvPolynomial.aeval_X, map_add, map_mul, Polynomial.aeval_C, Polynomial.aeval_X,
      Algebra.algebraMap_self, RingHom.id_apply]
    ring
  have := DFunLike.congr_fun h p
  simpa [Polynomial.coe_aeval_eq_eval, MvPolynomial.coe_aeval_eq_eval] using this

theorem derivative_line (a v : Fin dim → K) (p : MvPolynomial (Fin dim) K) :
    Polynomial.derivative (line a v p) = ∑ j, line a v (pderiv j p) * Polynomial.C (v j) := by
  have := chain (line a v) Polynomial.derivative' p
  rw [show Polynomial.derivative' (line a v p) = Polynomial.derivative (line a v p) from rfl] at this
  rw [this]
  apply Finset.sum_congr rfl
  intro j _
  simp [line]

theorem natDegree_line (a v : Fin dim → K) (p : MvPolynomial (Fin dim) K) : (line a v p).natDegree ≤ p.totalDegree := by
  rw [line, MvPolynomial.aeval_def, MvPolynomial.eval₂_eq]
  apply Polynomial.natDegree_sum_le_of_forall_le
  intro m hm
  refine (Polynomial.natDegree_mul_le).trans ?_
  rw [show (algebraMap K (Polynomial K)) (p.coeff m) = Polynomial.C (p.coeff m) from rfl, Polynomial.natDegree_C, zero_add]
  refine (Polynomial.natDegree_prod_le _ _).trans ?_
  refine le_trans (Finset.sum_le_sum fun i _ => ?_) (MvPolynomial.le_totalDegree hm)
  refine Polynomial.natDegree_pow_le.trans ?_
  calc m i * _ ≤ m i * 1 := Nat.mul_le_mul_left _ ?_
    _ = m i := Nat.mul_one _
  refine (Polynomial.natDegree_add_le _ _).trans ?_
  simp only [Polynomial.natDegree_C, Nat.zero_le, max_eq_right]
  exact (Polynomial.natDegree_C_mul_le _ _).trans Polynomial.natDegree_X_le

theorem totalDegree_pderiv (i : Fin dim) (p : MvPolynomial (Fin dim) K) : (pderiv i p).totalDegree ≤ p.totalDegree - 1 := by
  conv_lhs => rw [p.as_sum, map_sum]
  apply MvPolynomial.totalDegree_finsetSum_le
  intro m hm
  rw [MvPolynomial.pderiv_monomial]
  by_cases h0 : m i = 0
  · simp [h0]
  · refine (MvPolynomial.totalDegree_monomial_le _ _).trans ?_
    have h1 := MvPolynomial.le_totalDegree hm
    have h2 : (m - Finsupp.single i 1).sum (fun _ => id) + 1 = m.sum fun _ e => e := by
      have : m = (m - Finsupp.single i 1) + Finsupp.single i 1 := by
        ext j
        by_cases hj : j = i
        · subst hj; simp; omega
        · simp [Finsupp.single_eq_of_ne hj]
      conv_rhs => rw [this]
      rw [Finsupp.sum_add_index' (by simp) (by simp)]
      simp
      rfl
    omega

/-- A polynomial of degree less than `n` in terms of its coefficients. -/
theorem sum_coeff {n : Nat} (p : Polynomial K) (h : p.natDegree < n) :
    p = ∑ i ∈ Finset.range n, Polynomial.C (p.coeff i) * Polynomial.X ^ i :=
  (p.as_sum_range_C_mul_X_pow' h)

/-- Cubic Hermite interpolation. -/
theorem hermite3 (p : Polynomial K) (hd : p.natDegree ≤ 3) (h0 : p.eval 0 = 0) (h0' : p.derivative.eval 0 = 0)
    (h1 : p.eval 1 = 0) (h1' : p.derivative.eval 1 = 0) : p = 0 := by
  have e := sum_coeff (n := 4) p (by omega)
  generalize p.coeff = c at e
  subst e
  simp [Finset.sum_range_succ] at h0 h0' h1 h1'
  have a2 : c 2 = 0 := by linear_combination 3 * h1 - h1' - 3 * h0 - 2 * h0'
  have a3 : c 3 = 0 := by linear_combination h1' - 2 * h1 + 2 * h0 + h0'
  simp [Finset.sum_range_succ, h0, h0', a2, a3]

variable [CharZero K]

/-- Interpolation of values and derivatives at the ends and of the value in the middle. -/
theorem hermite4 (p : Polynomial K) (hd : p.natDegree ≤ 4) (h0 : p.eval 0 = 0) (h0' : p.derivative.eval 0 = 0)
    (h1 : p.eval 1 = 0) (h1' : p.derivative.eval 1 = 0) (hm : p.eval (1 / 2) = 0) : p = 0 := by
  have e := sum_coeff (n := 5) p (by omega)
  generalize p.coeff = c at e
  subst e
  simp [Finset.sum_range_succ] at h0 h0' h1 h1' hm
  simp only [h0, h0', zero_mul, zero_add] at h1 h1' hm
  have hm' : c 2 * 4 + c 3 * 2 + c 4 = 0 := by
    field_simp at hm
    linear_combination hm
  have a2 : c 2 = 0 := by linear_combination hm' + h1' - 5 * h1
  have a4 : c 4 = 0 := by linear_combination h1' - 3 * h1 + a2
  have a3 : c 3 = 0 := by linear_combination h1 - a2 - a4
  simp [Finset.sum_range_succ, h0, h0', a2, a3, a4]

/-- Quintic Hermite interpolation. -/
theorem hermite5 (p : Polynomial K) (hd : p.natDegree ≤ 5) (h0 : p.eval 0 = 0) (h0' : p.derivative.eval 0 = 0)
    (h0'' : p.derivative.derivative.eval 0 = 0) (h1 : p.eval 1 = 0) (h1' : p.derivative.eval 1 = 0)
    (h1'' : p.derivative.derivative.eval 1 = 0) : p = 0 := by
  have e := sum_coeff (n := 6) p (by omega)
  generalize p.coeff = c at e
  subst e
  simp [Finset.sum_range_succ] at h0 h0' h0'' h1 h1' h1''
  simp only [h0, h0', h0'', zero_mul, zero_add] at h1 h1' h1''
  have a3 : c 3 = 0 := by linear_combination 10 * h1 - 4 * h1' + h1'' / 2
  have a4 : c 4 = 0 := by linear_combination -15 * h1 + 7 * h1' - h1''
  have a5 : c 5 = 0 := by linear_combination 6 * h1 - 3 * h1' + h1'' / 2
  simp [Finset.sum_range_succ, h0, h0', h0'', a3, a4, a5]

end Line

end Verif.FE

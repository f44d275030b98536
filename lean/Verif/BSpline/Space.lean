import Verif.BSpline.Basis
import Mathlib.Algebra.Polynomial.Taylor
import Mathlib.Algebra.Polynomial.Basis
import Mathlib.Algebra.MvPolynomial.PDeriv
import Mathlib.Algebra.MvPolynomial.Funext
import Mathlib.RingTheory.MvPolynomial.Basic

/-!
# The space of B-spline functions (C91)
-/

set_option linter.unusedSectionVars false

namespace Verif.BSpline

open Finset Polynomial

variable {K : Type} [Field K] [LinearOrder K] [IsStrictOrderedRing K]

/-! ## One direction: degree and smoothness -/

theorem polyN_natDegree (d : Dir K) (s r i : Nat) : (polyN d s r i).natDegree ≤ r := by
  induction r generalizing i with
  | zero => simp only [polyN]; split <;> simp
  | succ r ih =>
    rw [polyN]
    refine (natDegree_add_le _ _).trans (max_le ?_ ?_)
    · refine (natDegree_mul_le).trans ?_
      have h1 : ((X - C (d.t i)) * C (wt d (r + 1) i) : K[X]).natDegree ≤ 1 :=
        (natDegree_mul_C_le _ _).trans (natDegree_X_sub_C_le _)
      have := ih i
      omega
    · refine (natDegree_mul_le).trans ?_
      have h1 : ((C (d.t (i + 1 + (r + 1))) - X) * C (wt d (r + 1) (i + 1)) : K[X]).natDegree ≤ 1 := by
        refine (natDegree_mul_C_le _ _).trans ((natDegree_sub_le _ _).trans ?_)
        simp
      have := ih (i + 1)
      omega

/-- At a knot of multiplicity `m` the derivatives up to order `r - m` of the functions of degree `r` agree. -/
theorem polyN_smooth {d : Dir K} (h : KnotsOK d) {s s' : Nat} (hn : Neighbours d s s') (j r i : Nat) (hj : s' - s + j ≤ r)
    (hi : i < d.n - r - 1) :
    (derivative^[j] (polyN d s r i)).eval (d.t s') = (derivative^[j] (polyN d s' r i)).eval (d.t s') := by
  induction j generalizing r i with
  | zero =>
    simp only [Function.iterate_zero, id]
    rw [polyN_eval h s _ r i hi, polyN_eval h s' _ r i hi]
    exact tableN_left_right h hn.left hn.right hn.lt hn.same r i (by omega) hi
  | succ j ih =>
    obtain ⟨r, rfl⟩ : ∃ r', r = r' + 1 := ⟨r - 1, by have := hn.lt; omega⟩
    simp only [Function.iterate_succ, Function.comp]
    rw [polyN_derivative h s r i hi, polyN_derivative h s' r i hi]
    simp only [iterate_derivative_C_mul, iterate_derivative_sub, eval_mul, eval_sub, eval_C]
    rw [ih r i (by omega) (by omega), ih r (i + 1) (by omega) (by omega)]

/-! ## One direction: coefficients of polynomials -/

/-- Coefficient of function `i` for a polynomial. -/
noncomputable def lam1 (d : Dir K) (i : Nat) : K[X] →ₗ[K] K := (Polynomial.basisMonomials K).constr K fun k => monoCoeff d k i

theorem lam1_monomial (d : Dir K) (i k : Nat) (a : K) : lam1 d i (monomial k a) = a * monoCoeff d k i := by
  have e : (monomial k a : K[X]) = a • Polynomial.basisMonomials K k := by
    rw [coe_basisMonomials, smul_monomial, smul_eq_mul, mul_one]
  rw [e, map_smul, lam1, Module.Basis.constr_basis, smul_eq_mul]

theorem lam1_spec {d : Dir K} (h : KnotsOK d) {s : Nat} (hs : SpanOK d s) (h1 : d.order ≤ s) (h2 : s + d.order + 2 ≤ d.n)
    (q : K[X]) (hq : q.natDegree ≤ d.order) : ∑ i ∈ range (dirSize d), C (lam1 d i q) * polyN d s d.order i = q := by
  apply Polynomial.funext
  intro x
  have e : ∀ i ∈ range (dirSize d), eval x (C (lam1 d i q) * polyN d s d.order i)
      = ∑ k ∈ range (q.natDegree + 1), q.coeff k * (monoCoeff d k i * tableN d s x d.order i) := by
    intro i hi
    rw [mem_range] at hi
    conv_lhs => rw [q.as_sum_range]
    rw [map_sum, eval_mul, eval_C, polyN_eval h s x d.order i hi, sum_mul]
    exact sum_congr rfl fun k _ => by rw [lam1_monomial, mul_assoc]
  rw [eval_finsetSum, sum_congr rfl e, sum_comm]
  conv_rhs => rw [q.as_sum_range, eval_finsetSum]
  refine sum_congr rfl fun k hk => ?_
  rw [mem_range] at hk
  rw [← mul_sum, monomial_reproduced h hs x h1 h2 k (by omega), eval_monomial]

/-- Coefficients are unique. -/
theorem lam1_unique {d : Dir K} (h : KnotsOK d) {s : Nat} (hs : SpanOK d s) (h1 : d.order ≤ s) (h2 : s + d.order + 2 ≤ d.n)
    (b : Nat → K) (q : K[X]) (hb : ∑ i ∈ range (dirSize d), C (b i) * polyN d s d.order i = q) (i : Nat)
    (hi : i ≤ s) (hi' : s ≤ i + d.order) : lam1 d i q = b i := by
  have hsz := h.size
  have hq : q.natDegree ≤ d.order := by
    rw [← hb]
    refine natDegree_sum_le_of_forall_le _ _ fun i _ => (natDegree_C_mul_le _ _).trans (polyN_natDegree d s _ i)
  have h0 : ∑ i ∈ range (dirSize d), C (lam1 d i q - b i) * polyN d s d.order i = 0 := by
    simp only [C_sub, sub_mul, sum_sub_distrib]
    rw [lam1_spec h hs h1 h2 q hq, hb, sub_self]
  have := polyN_independent h hs d.order (dirSize d) (by simp only [dirSize]; omega) _ h0 i (by simp only [dirSize]; omega) hi hi'
  exact sub_eq_zero.mp this

/-- Marsden's identity for powers centred at `τ`. -/
theorem shifted_reproduced {d : Dir K} (h : KnotsOK d) {s : Nat} (hs : SpanOK d s) (h1 : d.order ≤ s) (h2 : s + d.order + 2 ≤ d.n)
    (τ : K) (k : Nat) (hk : k ≤ d.order) :
    ∑ i ∈ range (dirSize d), C ((-1) ^ (d.order - k) * (taylor τ (dual d d.order i)).coeff (d.order - k) / (d.order.choose k : K)) *
      polyN d s d.order i = (X - C τ) ^ k := by
  apply Polynomial.funext
  intro x
  have hm := marsden h hs x d.order (dirSize d) (by simp only [dirSize]; omega) h1 h2
  have hc := congrArg (fun p : K[X] => (taylor τ p).coeff (d.order - k)) hm
  simp only [map_sum, taylor_mul, taylor_C, finsetSum_coeff, coeff_mul_C, taylor_pow, map_sub, taylor_X] at hc
  rw [show (C x - (X + C τ) : K[X]) = C (x - τ) - X by rw [C_sub]; ring, coeff_C_sub_X_pow _ d.order k hk] at hc
  have hne : (d.order.choose k : K) ≠ 0 := Nat.cast_ne_zero.mpr (Nat.choose_pos hk).ne'
  have hsq : ((-1 : K) ^ (d.order - k)) * (-1) ^ (d.order - k) = 1 := by rw [← mul_pow]; simp
  have e : ∀ i ∈ range (dirSize d), eval x (C ((-1) ^ (d.order - k) * (taylor τ (dual d d.order i)).coeff (d.order - k) /
        (d.order.choose k : K)) * polyN d s d.order i)
      = ((-1) ^ (d.order - k) / (d.order.choose k : K)) * ((taylor τ (dual d d.order i)).coeff (d.order - k) * tableN d s x d.order i) := by
    intro i hi
    rw [mem_range] at hi
    rw [eval_mul, eval_C, polyN_eval h s x d.order i hi]; ring
  rw [eval_finsetSum, sum_congr rfl e, ← mul_sum, hc, eval_pow, eval_sub, eval_X, eval_C]
  field_simp
  linear_combination (x - τ) ^ k * hsq

theorem X_pow_dvd_taylor_dual (d : Dir K) (p i : Nat) (τ : K) (a m : Nat) (ha : a + m ≤ p)
    (hτ : ∀ j, j < m → d.t (i + 1 + (a + j)) = τ) : (X : K[X]) ^ m ∣ taylor τ (dual d p i) := by
  have e : taylor τ (dual d p i) = ∏ j ∈ range p, taylor τ (C (d.t (i + 1 + j)) - X) := by
    rw [dual]
    exact map_prod (taylorAlgHom τ) _ _
  rw [e]
  have hsub : image (fun j => a + j) (range m) ⊆ range p := by
    intro j hj
    obtain ⟨q, hq, rfl⟩ := mem_image.mp hj
    rw [mem_range] at hq ⊢
    omega
  refine Dvd.dvd.trans ?_ (prod_dvd_prod_of_subset _ _ _ hsub)
  rw [prod_image (by intro a _ b _ hab; simpa using hab)]
  have e2 : ∀ j ∈ range m, taylor τ (C (d.t (i + 1 + (a + j))) - X) = -X := by
    intro j hj
    rw [hτ j (mem_range.mp hj), map_sub, taylor_C, taylor_X]; ring
  rw [prod_congr rfl e2, prod_const, card_range, neg_pow]
  exact Dvd.intro_left _ rfl

/-- Coefficients of functions that do not start in a knot of multiplicity `m` vanish for polynomials with a zero of order `p - m + 1` in this knot. -/
theorem lam1_kill {d : Dir K} (h : KnotsOK d) {s s' : Nat} (hn : Neighbours d s s') (h1 : d.order ≤ s') (h2 : s' + d.order + 2 ≤ d.n)
    (q : K[X]) (hq : q.natDegree ≤ d.order) (h0 : ∀ j, s' - s + j ≤ d.order → (derivative^[j] q).eval (d.t s') = 0)
    (i : Nat) (hi : i ≤ s) (hi' : s' ≤ i + d.order) : lam1 d i q = 0 := by
  have hlt := hn.lt
  let μ : Nat → Nat → K := fun k i =>
    (-1) ^ (d.order - k) * (taylor (d.t s') (dual d d.order i)).coeff (d.order - k) / (d.order.choose k : K)
  let a : Nat → K := fun k => (taylor (d.t s') q).coeff k
  have hq' : q = ∑ k ∈ range (d.order + 1), C (a k) * (X - C (d.t s')) ^ k := by
    have := sum_taylor_eq q (d.t s')
    rw [sum_over_range' _ (by simp) (d.order + 1) (by rw [natDegree_taylor]; omega)] at this
    exact this.symm
  rw [lam1_unique h hn.right h1 h2 (fun i => ∑ k ∈ range (d.order + 1), a k * μ k i) q ?_ i (by omega) hi']
  · refine sum_eq_zero fun k hk => ?_
    rw [mem_range] at hk
    by_cases hc : s' - s + k ≤ d.order
    · have e : a k = 0 := by
        have := congrFun (factorial_smul_hasseDeriv (R := K) k) q
        have h3 := h0 k hc
        rw [← this] at h3
        rw [LinearMap.smul_apply, nsmul_eq_mul, eval_mul, eval_natCast] at h3
        simp only [a, taylor_coeff]
        exact (mul_eq_zero.mp h3).resolve_left (Nat.cast_ne_zero.mpr k.factorial_ne_zero)
      rw [e, zero_mul]
    · have e : μ k i = 0 := by
        obtain ⟨r, hr⟩ := X_pow_dvd_taylor_dual d d.order i (d.t s') (s - i) (s' - s) (by omega) (by
          intro j hj
          exact hn.same _ (by omega) (by omega))
        simp only [μ]
        rw [hr, coeff_X_pow_mul', if_neg (by omega)]; simp
      rw [e, mul_zero]
  · conv_rhs => rw [hq']
    simp only [map_sum, sum_mul, C_mul]
    rw [sum_comm]
    refine sum_congr rfl fun k hk => ?_
    rw [← shifted_reproduced h hn.right h1 h2 (d.t s') k (by rw [mem_range] at hk; omega), mul_sum]
    exact sum_congr rfl fun i _ => by simp only [μ]; ring

/-! ## Polynomials in several variables -/

section Slices

variable {D : Nat} (o : Fin D → Dir K)

/-- Coefficient of the function with digits `g` for a polynomial. -/
noncomputable def lam (g : Fin D → Nat) : MvPolynomial (Fin D) K →ₗ[K] K :=
  (MvPolynomial.basisMonomials (Fin D) K).constr K fun m => ∏ k, monoCoeff (o k) (m k) (g k)

theorem lam_monomial (g : Fin D → Nat) (m : Fin D →₀ Nat) (a : K) :
    lam o g (MvPolynomial.monomial m a) = a * ∏ k, monoCoeff (o k) (m k) (g k) := by
  have e : (MvPolynomial.monomial m a : MvPolynomial (Fin D) K) = a • MvPolynomial.basisMonomials (Fin D) K m := by
    rw [MvPolynomial.coe_basisMonomials, MvPolynomial.smul_monomial, smul_eq_mul, mul_one]
  rw [e, map_smul, lam, Module.Basis.constr_basis, smul_eq_mul]

theorem lam_sum (g : Fin D → Nat) (P : MvPolynomial (Fin D) K) :
    lam o g P = ∑ m ∈ P.support, P.coeff m * ∏ k, monoCoeff (o k) (m k) (g k) := by
  conv_lhs => rw [P.as_sum, map_sum]
  exact sum_congr rfl fun m _ => lam_monomial o g m _

/-- Coefficients in all directions but one. -/
noncomputable def slice (g : Fin D → Nat) (k : Fin D) : MvPolynomial (Fin D) K →ₗ[K] K[X] :=
  (MvPolynomial.basisMonomials (Fin D) K).constr K fun m => monomial (m k) (∏ l ∈ univ.erase k, monoCoeff (o l) (m l) (g l))

theorem slice_monomial (g : Fin D → Nat) (k : Fin D) (m : Fin D →₀ Nat) (a : K) :
    slice o g k (MvPolynomial.monomial m a) = monomial (m k) (a * ∏ l ∈ univ.erase k, monoCoeff (o l) (m l) (g l)) := by
  have e : (MvPolynomial.monomial m a : MvPolynomial (Fin D) K) = a • MvPolynomial.basisMonomials (Fin D) K m := by
    rw [MvPolynomial.coe_basisMonomials, MvPolynomial.smul_monomial, smul_eq_mul, mul_one]
  rw [e, map_smul, slice, Module.Basis.constr_basis, smul_monomial, smul_eq_mul]

theorem lam_slice (g : Fin D → Nat) (k : Fin D) (P : MvPolynomial (Fin D) K) : lam o g P = lam1 (o k) (g k) (slice o g k P) := by
  induction P using MvPolynomial.induction_on' with
  | monomial m a =>
    rw [lam_monomial, slice_monomial, lam1_monomial, ← mul_prod_erase univ _ (mem_univ k)]; ring
  | add p q hp hq => simp only [map_add, hp, hq]

theorem slice_pderiv (g : Fin D → Nat) (k : Fin D) (P : MvPolynomial (Fin D) K) :
    slice o g k (MvPolynomial.pderiv k P) = derivative (slice o g k P) := by
  induction P using MvPolynomial.induction_on' with
  | monomial m a =>
    rw [MvPolynomial.pderiv_monomial, slice_monomial, slice_monomial, derivative_monomial]
    have e : ∀ l ∈ univ.erase k, monoCoeff (o l) ((m - Finsupp.single k 1 : Fin D →₀ Nat) l) (g l) = monoCoeff (o l) (m l) (g l) := by
      intro l hl
      rw [Finsupp.tsub_apply, Finsupp.single_eq_of_ne (by simpa using hl), Nat.sub_zero]
    rw [prod_congr rfl e, Finsupp.tsub_apply, Finsupp.single_eq_same]
    congr 1
    ring
  | add p q hp hq => simp only [map_add, hp, hq]

theorem slice_pderiv_iterate (g : Fin D → Nat) (k : Fin D) (j : Nat) (P : MvPolynomial (Fin D) K) :
    slice o g k ((MvPolynomial.pderiv k)^[j] P) = derivative^[j] (slice o g k P) := by
  induction j generalizing P with
  | zero => rfl
  | succ j ih => simp only [Function.iterate_succ, Function.comp]; rw [ih, slice_pderiv]

theorem slice_natDegree (g : Fin D → Nat) (k : Fin D) (P : MvPolynomial (Fin D) K) : (slice o g k P).natDegree ≤ P.degreeOf k := by
  conv_lhs => rw [P.as_sum, map_sum]
  refine natDegree_sum_le_of_forall_le _ _ fun m hm => ?_
  rw [slice_monomial]
  exact (natDegree_monomial_le _).trans (MvPolynomial.monomial_le_degreeOf k hm)

/-- The value `τ` for variable `k`. -/
noncomputable def fixVar (k : Fin D) (τ : K) : MvPolynomial (Fin D) K →ₐ[K] MvPolynomial (Fin D) K :=
  MvPolynomial.aeval fun l => if l = k then MvPolynomial.C τ else MvPolynomial.X l

theorem fixVar_eval (k : Fin D) (τ : K) (x : Fin D → K) (P : MvPolynomial (Fin D) K) :
    MvPolynomial.eval x (fixVar k τ P) = MvPolynomial.eval (Function.update x k τ) P := by
  induction P using MvPolynomial.induction_on with
  | C a => simp [fixVar]
  | add p q hp hq => simp only [map_add, hp, hq]
  | mul_X p i hp =>
    simp only [map_mul, hp, MvPolynomial.eval_X]
    congr 1
    simp only [fixVar, MvPolynomial.aeval_X]
    by_cases hi : i = k
    · subst hi; simp
    · simp [hi]

theorem fixVar_monomial (k : Fin D) (τ : K) (m : Fin D →₀ Nat) (a : K) :
    fixVar k τ (MvPolynomial.monomial m a) = MvPolynomial.monomial (m.erase k) (a * τ ^ m k) := by
  have e1 : ∀ (m : Fin D →₀ Nat), MvPolynomial.monomial m (1 : K) = ∏ l, MvPolynomial.X l ^ m l := by
    intro m
    rw [MvPolynomial.monomial_eq, map_one, one_mul, Finsupp.prod_fintype _ _ (by simp)]
  rw [← mul_one a, ← MvPolynomial.C_mul_monomial, map_mul, mul_one, ← mul_one (a * τ ^ m k), ← MvPolynomial.C_mul_monomial, e1, e1, map_prod,
    ← mul_prod_erase univ _ (mem_univ k), ← mul_prod_erase univ (fun l => MvPolynomial.X l ^ (m.erase k) l) (mem_univ k)]
  have e2 : ∀ l ∈ univ.erase k, fixVar k τ (MvPolynomial.X l ^ m l) = MvPolynomial.X l ^ (m.erase k) l := by
    intro l hl
    have hl' : l ≠ k := by simpa using hl
    rw [map_pow, fixVar, MvPolynomial.aeval_X, if_neg hl', Finsupp.erase_ne hl']
  rw [prod_congr rfl e2, Finsupp.erase_same, pow_zero, one_mul, ← mul_assoc]
  congr 1
  rw [map_pow, fixVar, MvPolynomial.aeval_X, if_pos rfl, MvPolynomial.algHom_C, MvPolynomial.C_mul, MvPolynomial.C_pow]
  rfl

theorem slice_eval (g : Fin D → Nat) (k : Fin D) (τ : K) (P : MvPolynomial (Fin D) K) :
    (slice o g k P).eval τ = (slice o g k (fixVar k τ P)).eval τ := by
  induction P using MvPolynomial.induction_on' with
  | monomial m a =>
    rw [fixVar_monomial, slice_monomial, slice_monomial, Finsupp.erase_same, eval_monomial, eval_monomial]
    have e : ∀ l ∈ univ.erase k, monoCoeff (o l) (m.erase k l) (g l) = monoCoeff (o l) (m l) (g l) := by
      intro l hl
      rw [Finsupp.erase_ne (by simpa using hl)]
    rw [prod_congr rfl e]; ring
  | add p q hp hq => simp only [map_add, eval_add, hp, hq]

/-- The polynomial on a line in direction `k`. -/
noncomputable def line (x : Fin D → K) (k : Fin D) : MvPolynomial (Fin D) K →ₐ[K] K[X] :=
  MvPolynomial.aeval fun l => if l = k then X else C (x l)

theorem line_eval (x : Fin D → K) (k : Fin D) (y : K) (P : MvPolynomial (Fin D) K) :
    (line x k P).eval y = MvPolynomial.eval (Function.update x k y) P := by
  induction P using MvPolynomial.induction_on with
  | C a => simp [line]
  | add p q hp hq => simp only [map_add, eval_add, hp, hq]
  | mul_X p i hp =>
    simp only [map_mul, eval_mul, hp, MvPolynomial.eval_X]
    congr 1
    simp only [line, MvPolynomial.aeval_X]
    by_cases hi : i = k
    · subst hi; simp
    · simp [hi]

theorem line_pderiv (x : Fin D → K) (k : Fin D) (P : MvPolynomial (Fin D) K) :
    line x k (MvPolynomial.pderiv k P) = derivative (line x k P) := by
  induction P using MvPolynomial.induction_on with
  | C a => simp [line]
  | add p q hp hq => simp only [map_add, hp, hq]
  | mul_X p i hp =>
    rw [Derivation.leibniz, map_add, smul_eq_mul, smul_eq_mul, map_mul, map_mul, map_mul, derivative_mul, hp]
    simp only [line, MvPolynomial.aeval_X, MvPolynomial.pderiv_X]
    by_cases hi : i = k
    · subst hi; simp; ring
    · simp [hi]; ring

theorem line_pderiv_iterate (x : Fin D → K) (k : Fin D) (j : Nat) (P : MvPolynomial (Fin D) K) :
    line x k ((MvPolynomial.pderiv k)^[j] P) = derivative^[j] (line x k P) := by
  induction j generalizing P with
  | zero => rfl
  | succ j ih => simp only [Function.iterate_succ, Function.comp]; rw [ih, line_pderiv]

theorem degreeOf_le_of_pderiv (k : Fin D) (p : Nat) (P : MvPolynomial (Fin D) K) (h : (MvPolynomial.pderiv k)^[p + 1] P = 0) :
    P.degreeOf k ≤ p := by
  have key : ∀ (j : Nat) (P : MvPolynomial (Fin D) K), (MvPolynomial.pderiv k)^[j] P = 0 → ∀ m : Fin D →₀ Nat, j ≤ m k → P.coeff m = 0 := by
    intro j
    induction j with
    | zero => intro P h m _; simp only [Function.iterate_zero, id] at h; rw [h, MvPolynomial.coeff_zero]
    | succ j ih =>
      intro P h m hm
      simp only [Function.iterate_succ, Function.comp] at h
      have h1 := ih _ h (m - Finsupp.single k 1) (by rw [Finsupp.tsub_apply, Finsupp.single_eq_same]; omega)
      have h2 : m - Finsupp.single k 1 + Finsupp.single k 1 = m :=
        tsub_add_cancel_of_le (Finsupp.single_le_iff.mpr (by omega))
      rw [MvPolynomial.coeff_pderiv, h2] at h1
      refine (mul_eq_zero.mp h1).resolve_right ?_
      exact Nat.cast_add_one_ne_zero _
  rw [MvPolynomial.degreeOf_le_iff]
  intro m hm
  by_contra hc
  exact (MvPolynomial.mem_support_iff.mp hm) (key (p + 1) P h m (by omega))

end Slices

/-! ## Sums over one direction -/

theorem nest_split (args : List (Arg K)) (k : Nat) (hk : k < args.length) (F : List Nat → K) :
    nest args F = ∑ r ∈ range (localSize args[k].1 args[k].2.1), argValue args[k] r *
      nest (args.eraseIdx k) fun g => F (g.insertIdx k (firstIndex args[k].1 args[k].2.1 + r)) := by
  induction args generalizing k F with
  | nil => simp at hk
  | cons a args ih =>
    cases k with
    | zero => simp only [nest, List.getElem_cons_zero, List.eraseIdx_cons_zero, List.insertIdx_zero]
    | succ k =>
      simp only [List.length_cons] at hk
      simp only [nest, List.getElem_cons_succ, List.eraseIdx_cons_succ]
      have e : ∀ r ∈ range (localSize a.1 a.2.1), argValue a r * nest args (fun g => F ((firstIndex a.1 a.2.1 + r) :: g)) =
          ∑ q ∈ range (localSize args[k].1 args[k].2.1), argValue a r * (argValue args[k] q * nest (args.eraseIdx k) fun g =>
            F ((firstIndex a.1 a.2.1 + r) :: g.insertIdx k (firstIndex args[k].1 args[k].2.1 + q))) := by
        intro r _
        rw [ih k (by omega), mul_sum]
      rw [sum_congr rfl e, sum_comm]
      refine sum_congr rfl fun q _ => ?_
      rw [mul_sum]
      refine sum_congr rfl fun r _ => ?_
      simp only [List.insertIdx_succ_cons]
      ring

theorem nest_line (args : List (Arg K)) (k : Nat) (hk : k < args.length) (hok : ArgOK args[k]) (F : List Nat → K) :
    nest args F = ∑ i ∈ range (dirSize args[k].1), (nest (args.eraseIdx k) fun g => F (g.insertIdx k i)) *
      tableN args[k].1 args[k].2.1 (toGlobal args[k].1 args[k].2.1 args[k].2.2) args[k].1.order i := by
  rw [nest_split args k hk F]
  exact sum_local hok.knots hok.span _ fun i => nest (args.eraseIdx k) fun g => F (g.insertIdx k i)

/-- A polynomial as combination of the functions of an element. -/
theorem nest_reproduce {ds : List (Dir K)} {ss : List Nat} {xs : List K} (hl : ds.length = ss.length) (hxs : xs.length = ds.length)
    (hsp : ∀ k (h1 : k < ds.length) (h2 : k < ss.length), KnotsOK ds[k] ∧ SpanOK ds[k] ss[k] ∧ ds[k].order ≤ ss[k] ∧ ss[k] + ds[k].order + 2 ≤ ds[k].n)
    (P : MvPolynomial (Fin ds.length) K) (hP : ∀ k : Fin ds.length, P.degreeOf k ≤ (ds[k]).order) :
    nest (ds.zip (ss.zip xs)) (fun g => lam (fun k : Fin ds.length => ds[k]) (fun k => g.getD k 0) P) =
      MvPolynomial.eval (fun k : Fin ds.length => toGlobal ds[k] (ss.getD k 0) (xs.getD k 0)) P := by
  let γ : (Fin ds.length →₀ Nat) → Nat → Nat → K := fun m k i => if hk : k < ds.length then monoCoeff ds[k] (m ⟨k, hk⟩) i else 0
  have hlen : (ds.zip (ss.zip xs)).length = ds.length := by simp only [List.length_zip]; omega
  rw [nest_congr _ _ (fun g => ∑ m ∈ P.support, P.coeff m * (g.mapIdx fun k i => γ m k i).prod) (by
    intro g hg
    rw [lam_sum]
    refine sum_congr rfl fun m _ => ?_
    congr 1
    rw [← List.prod_ofFn]
    congr 1
    have hgl := hg.length_eq
    rw [hlen] at hgl
    apply List.ext_getElem
    · simp only [List.length_mapIdx, List.length_ofFn, hgl]
    · intro k hk1 hk2
      rw [List.length_ofFn] at hk1
      simp only [List.getElem_mapIdx, List.getElem_ofFn, γ, dif_pos hk1]
      congr 1
      rw [List.getD_eq_getElem?_getD, List.getElem?_eq_getElem (by omega)]; rfl)]
  rw [nest_sum, MvPolynomial.eval_eq']
  refine sum_congr rfl fun m hm => ?_
  rw [nest_smul]
  congr 1
  have hp := nest_prod (ds.zip (ss.zip xs)) (γ m) 0
  simp only [Nat.zero_add] at hp
  rw [hp, ← List.prod_ofFn]
  congr 1
  apply List.ext_getElem
  · simp only [List.length_mapIdx, List.length_ofFn, hlen]
  · intro k hk1 hk2
    rw [List.length_mapIdx, hlen] at hk1
    have hks : k < ss.length := by omega
    have hkx : k < xs.length := by omega
    obtain ⟨a1, a2, a3, a4⟩ := hsp k hk1 hks
    simp only [List.getElem_mapIdx, List.getElem_zip, List.getElem_ofFn, γ, dif_pos hk1, argValue]
    rw [sum_local a1 a2 (toGlobal ds[k] ss[k] xs[k]) (monoCoeff ds[k] (m ⟨k, hk1⟩))]
    rw [monomial_reproduced a1 a2 _ a3 a4 _ (le_trans (MvPolynomial.degreeOf_le_iff.mp (le_refl _) m hm) (hP ⟨k, hk1⟩))]
    congr 1
    simp [List.getD_eq_getElem?_getD, List.getElem?_eq_getElem hks, List.getElem?_eq_getElem hkx]

/-! ## Neighbouring elements -/

/-- Different neighbouring knots differ at least by the threshold for elements. -/
structure KnotsSep (d : Dir K) : Prop where
  size : d.order + 2 ≤ d.n
  sep : ∀ i, i + 1 < d.n → d.t (i + 1) = d.t i ∨ d.t i + 1 / 10 ^ 8 ≤ d.t (i + 1)

theorem KnotsSep.ok {d : Dir K} (h : KnotsSep d) : KnotsOK d := by
  have h8 := eps_pos (K := K) 8
  have h10 : (1 : K) / 10 ^ 10 < 1 / 10 ^ 8 := by
    apply one_div_lt_one_div_of_lt <;> norm_num
  refine ⟨h.size, fun i hi => ?_, fun i hi => ?_⟩
  · rcases h.sep i hi with e | e
    · rw [e]
    · linarith
  · rcases h.sep i hi with e | e
    · exact Or.inl e
    · right; linarith

theorem countP_between (n s s' : Nat) (h : s ≤ s') (hn : s' < n) : (List.range n).countP (fun q => decide (s < q ∧ q ≤ s')) = s' - s := by
  have : ∀ n, (List.range n).countP (fun q => decide (s < q ∧ q ≤ s')) = min (n - 1 - s) (s' - s) := by
    intro n
    induction n with
    | zero => simp
    | succ n ih =>
      rw [List.range_succ, List.countP_append, ih]
      by_cases hc : s < n ∧ n ≤ s'
      · simp [hc]; omega
      · simp [hc]; omega
  rw [this]; omega

/-- Consecutive elements are neighbours, and the multiplicity of the knot is the difference of the knot spans. -/
theorem neighbours_of {d : Dir K} (h : KnotsSep d) {i s s' : Nat} (hs : spanOf d i = some s) (hs' : spanOf d (i + 1) = some s') :
    Neighbours d s s' ∧ d.knots.count (d.t s') = s' - s := by
  obtain ⟨a1, a2, a3⟩ := (spanOf_some _ _ _).mp hs
  obtain ⟨b1, b2, b3⟩ := (spanOf_some _ _ _).mp hs'
  have h8 := eps_pos (K := K) 8
  unfold Dir.Elem at a2 b2
  have hlt : s < s' := by
    by_contra hc
    have := d.before_mono (show s' ≤ s by omega)
    omega
  have hb : d.before (s + 1) = i + 1 := by rw [d.before_succ, a3, if_pos (show d.Elem s from a2)]
  have heq : ∀ q, s < q → q < s' → d.t (q + 1) = d.t q := by
    intro q h1 h2
    rcases h.sep q (by omega) with e | e
    · exact e
    · have c1 := d.before_mono (show s + 1 ≤ q by omega)
      have c2 := d.before_mono (show q + 1 ≤ s' by omega)
      rw [d.before_succ, if_pos (show d.Elem q from e)] at c2
      omega
  have hsame : ∀ q, s < q → q ≤ s' → d.t q = d.t s' := by
    have key : ∀ u, u < s' - s → d.t (s' - u) = d.t s' := by
      intro u
      induction u with
      | zero => intro _; rfl
      | succ u ih =>
        intro hu
        have := heq (s' - (u + 1)) (by omega) (by omega)
        rw [show s' - (u + 1) + 1 = s' - u by omega, ih (by omega)] at this
        exact this.symm
    intro q h1 h2
    have := key (s' - q) (by omega)
    rwa [show s' - (s' - q) = q by omega] at this
  have hn : Neighbours d s s' := ⟨⟨a1, by linarith⟩, ⟨b1, by linarith⟩, hlt, hsame⟩
  refine ⟨hn, ?_⟩
  have hk : d.knots = (List.range d.n).map d.t := by
    apply List.ext_getElem
    · simp [Dir.n]
    · intro q h1 h2
      simp [Dir.t, List.getD_eq_getElem?_getD, h1]
  rw [hk, List.count, List.countP_map, ← countP_between d.n s s' (by omega) (by omega)]
  apply List.countP_congr
  intro q hq
  rw [List.mem_range] at hq
  simp only [Function.comp, beq_iff_eq, decide_eq_true_eq]
  constructor
  · intro e
    by_contra hc
    rcases Nat.lt_or_ge s q with c | c
    · have := h.ok.mono' (show s' + 1 ≤ q by omega) hq
      have := hn.right.pos
      linarith
    · have := h.ok.mono' c (by omega)
      have := hn.left.pos
      have := hsame (s + 1) (by omega) (by omega)
      linarith
  · rintro ⟨c1, c2⟩
    exact hsame q c1 c2

/-! ## Specification -/

/-- The point with coordinates `x` is part of element `e`, or of its boundary. -/
def InElement (ds : List (Dir K)) (elements : List Nat) (e : Nat) (x : Fin ds.length → K) : Prop :=
  ∃ xs : List K, xs.length = ds.length ∧ (∀ y ∈ xs, 0 ≤ y ∧ y ≤ 1) ∧ ∀ k : Fin ds.length, (pointAt ds elements e xs).getD k 0 = x k

/-- Element `e'` comes after element `e` in direction `k`. -/
def NextTo (elements : List Nat) (k e e' : Nat) : Prop := getIJK e' elements = (getIJK e elements).modify k (· + 1)

/-- Splines: on each element a polynomial, with degree at most `order[k]` in direction `k`. On the common points of two elements that are neighbours in direction `k`, all
derivatives in this direction up to order `order[k] - m` agree, where `m` is the number of times the coordinate of the points is found in the knot vector. -/
structure Spline (ds : List (Dir K)) (elements : List Nat) (f : Nat → MvPolynomial (Fin ds.length) K) : Prop where
  degree : ∀ e < elements.prod, ∀ k : Fin ds.length, (f e).degreeOf k ≤ ds[k].order
  smooth : ∀ e < elements.prod, ∀ e' < elements.prod, ∀ k : Fin ds.length, NextTo elements k e e' →
    ∀ x, InElement ds elements e x → InElement ds elements e' x → ∀ j, j + ds[k].knots.count (x k) ≤ ds[k].order →
      MvPolynomial.eval x ((MvPolynomial.pderiv k)^[j] (f e)) = MvPolynomial.eval x ((MvPolynomial.pderiv k)^[j] (f e'))

/-! ## Elements -/

section
variable {ds : List (Dir K)} {elements : List Nat}

/-- What is needed to know about an element. -/
structure ElementOK (ds : List (Dir K)) (elements : List Nat) (e : Nat) (ss : List Nat) : Prop where
  spans : elementSpans ds elements e = some ss
  length : ds.length = ss.length
  digits : (getIJK e elements).length = ds.length
  bound : Bound ds ss
  dir : ∀ k : Fin ds.length, KnotsOK ds[k] ∧ SpanOK ds[k] (ss.getD k 0) ∧ ds[k].order ≤ ss.getD k 0 ∧ ss.getD k 0 + ds[k].order + 2 ≤ ds[k].n ∧
    spanOf ds[k] ((getIJK e elements).getD k 0) = some (ss.getD k 0)

theorem elementOK (h : List.Forall₂ DirOK ds elements) (hk : ∀ d ∈ ds, KnotsSep d)
    (hin : ∀ d ∈ ds, ∀ i s, spanOf d i = some s → d.order ≤ s ∧ s + d.order + 2 ≤ d.n) (e : Nat) (he : e < elements.prod) :
    ∃ ss, ElementOK ds elements e ss := by
  obtain ⟨ss, hss, hb, hsp⟩ := elementSpans_eq h e he
  have hlg : (getIJK e elements).length = ds.length := by rw [getIJK_length, ← h.length_eq]
  refine ⟨ss, hss, hb.length_eq, hlg, hb, fun k => ?_⟩
  have h2 : k.1 < ss.length := by rw [← hb.length_eq]; exact k.2
  have q := hsp k ds[k] _ ss[k] (List.getElem?_eq_getElem k.2) (List.getElem?_eq_getElem (by omega)) (List.getElem?_eq_getElem h2)
  have e1 : ss.getD k 0 = ss[k] := by rw [List.getD_eq_getElem?_getD, List.getElem?_eq_getElem h2]; rfl
  have e2 : (getIJK e elements).getD k 0 = (getIJK e elements)[k.1]'(by omega) := by
    rw [List.getD_eq_getElem?_getD, List.getElem?_eq_getElem (by omega)]; rfl
  obtain ⟨a1, a2, -⟩ := (spanOf_some _ _ _).mp q
  have := eps_pos (K := K) 8
  have hd : ds[k] ∈ ds := List.getElem_mem _
  rw [e1, e2]
  have := hin _ hd _ _ q
  exact ⟨(hk _ hd).ok, ⟨a1, by unfold Dir.Elem at a2; linarith⟩, this.1, this.2, q⟩

variable {e : Nat} {ss : List Nat} (he : ElementOK ds elements e ss)
include he

theorem ElementOK.point (xs : List K) (hxs : xs.length = ds.length) (k : Fin ds.length) :
    (pointAt ds elements e xs).getD k 0 = toGlobal ds[k] (ss.getD k 0) (xs.getD k 0) := by
  have h1 := k.2
  have h2 : k.1 < ss.length := by rw [← he.length]; exact k.2
  have h3 : k.1 < xs.length := by omega
  rw [List.getD_eq_getElem?_getD, pointAt, he.spans, Option.getD_some, List.getElem?_zipWith]
  simp only [List.getElem?_eq_getElem h1, List.zip, List.getElem?_zipWith, List.getElem?_eq_getElem h2, List.getElem?_eq_getElem h3,
    List.getD_eq_getElem?_getD]
  rfl

/-- Direction `k` of an element, with a point given by its global coordinates. -/
def argAt (ds : List (Dir K)) (ss : List Nat) (x : Fin ds.length → K) (k : Fin ds.length) : Arg K :=
  (ds[k], ss.getD k 0, (x k - ds[k].t (ss.getD k 0)) / (ds[k].t (ss.getD k 0 + 1) - ds[k].t (ss.getD k 0)))

theorem ElementOK.toGlobal (k : Fin ds.length) (y : K) :
    toGlobal ds[k] (ss.getD k 0) ((y - ds[k].t (ss.getD k 0)) / (ds[k].t (ss.getD k 0 + 1) - ds[k].t (ss.getD k 0))) = y := by
  have := (he.dir k).2.1.pos
  have hgap : ds[k].t (ss.getD k 0 + 1) - ds[k].t (ss.getD k 0) ≠ 0 := by intro hc; linarith
  unfold BSpline.toGlobal
  field_simp
  ring

theorem ElementOK.zip (x : Fin ds.length → K) (xs : List K) (hxs : xs = (List.ofFn (argAt ds ss x)).map fun a => a.2.2) :
    ds.zip (ss.zip xs) = List.ofFn (argAt ds ss x) := by
  subst hxs
  have := he.length
  apply List.ext_getElem
  · simp; omega
  · intro k h1 h2
    simp only [List.length_ofFn] at h2
    simp only [List.getElem_zip, List.getElem_map, List.getElem_ofFn, argAt]
    rw [List.getD_eq_getElem?_getD, List.getElem?_eq_getElem (by omega)]
    rfl

theorem ElementOK.inElement (x : Fin ds.length → K) :
    InElement ds elements e x ↔ ∀ k : Fin ds.length, ds[k].t (ss.getD k 0) ≤ x k ∧ x k ≤ ds[k].t (ss.getD k 0 + 1) := by
  constructor
  · rintro ⟨xs, hl, hx, hp⟩ k
    have h3 : k.1 < xs.length := by rw [hl]; exact k.2
    rw [← hp k, he.point xs hl k]
    have e1 : xs.getD k 0 = xs[k] := by rw [List.getD_eq_getElem?_getD, List.getElem?_eq_getElem h3]; rfl
    have := hx xs[k] (List.getElem_mem _)
    rw [e1]
    exact toGlobal_mem (a := (ds[k], ss.getD k 0, xs[k])) ⟨(he.dir k).1, (he.dir k).2.1⟩ this.1 this.2
  · intro hx
    refine ⟨(List.ofFn (argAt ds ss x)).map fun a => a.2.2, by simp, ?_, ?_⟩
    · intro y hy
      obtain ⟨a, ha, rfl⟩ := List.mem_map.mp hy
      obtain ⟨k, rfl⟩ := List.mem_ofFn.mp ha
      have := (he.dir k).2.1.pos
      have h2 := hx k
      have hgap : 0 < ds[k].t (ss.getD k 0 + 1) - ds[k].t (ss.getD k 0) := by linarith
      simp only [argAt]
      exact ⟨div_nonneg (by linarith) hgap.le, (div_le_one hgap).mpr (by linarith)⟩
    · intro k
      rw [he.point _ (by simp) k, ← he.toGlobal k (x k)]
      congr 1
      rw [List.getD_eq_getElem?_getD, List.getElem?_map, List.getElem?_ofFn]
      simp [argAt]

theorem ElementOK.args (x : Fin ds.length → K) : ∀ a ∈ List.ofFn (argAt ds ss x), ArgOK a := by
  intro a ha
  obtain ⟨k, rfl⟩ := List.mem_ofFn.mp ha
  exact ⟨(he.dir k).1, (he.dir k).2.1⟩

/-- The discrete function in a point given by its global coordinates. -/
theorem ElementOK.spline (c : Nat → K) (x : Fin ds.length → K) :
    splineAt ds elements c e ((List.ofFn (argAt ds ss x)).map fun a => a.2.2) =
      some (nest (List.ofFn (argAt ds ss x)) fun g => c (flatIndex g (ds.map dirSize))) := by
  have hz := he.zip x _ rfl
  have := combine_eq _ (he.args x) c
  have e1 : (List.ofFn (argAt ds ss x)).map (·.1) = ds := by
    apply List.ext_getElem
    · simp
    · intro k h1 h2; simp [argAt]
  have e2 : (List.ofFn (argAt ds ss x)).map (·.2.1) = ss := by
    apply List.ext_getElem
    · simp [he.length]
    · intro k h1 h2
      simp only [List.getElem_map, List.getElem_ofFn, argAt]
      rw [List.getD_eq_getElem?_getD, List.getElem?_eq_getElem (by omega)]
      rfl
  rw [e1, e2] at this
  rw [splineAt, he.spans, Option.bind_some, hz, this]

end

theorem eraseIdx_congr {α : Type} (l l' : List α) (k : Nat) (h : ∀ j, j ≠ k → l[j]? = l'[j]?) : l.eraseIdx k = l'.eraseIdx k := by
  apply List.ext_getElem?
  intro j
  rw [List.getElem?_eraseIdx, List.getElem?_eraseIdx]
  split
  · exact h j (by omega)
  · exact h (j + 1) (by omega)

/-! ## Discrete functions are splines -/

section
variable {ds : List (Dir K)} {elements : List Nat}

/-- The discrete function with coefficients `c` is the polynomial `P` on element `e`. -/
def IsOn (ds : List (Dir K)) (elements : List Nat) (c : Nat → K) (e : Nat) (P : MvPolynomial (Fin ds.length) K) : Prop :=
  ∀ xs : List K, xs.length = ds.length → (∀ y ∈ xs, 0 ≤ y ∧ y ≤ 1) →
    splineAt ds elements c e xs = some (MvPolynomial.eval (fun k : Fin ds.length => (pointAt ds elements e xs).getD k 0) P)

theorem ElementOK.value {e : Nat} {ss : List Nat} (he : ElementOK ds elements e ss) {c : Nat → K} {P : MvPolynomial (Fin ds.length) K}
    (hc : IsOn ds elements c e P) (x : Fin ds.length → K) (hx : InElement ds elements e x) :
    nest (List.ofFn (argAt ds ss x)) (fun g => c (flatIndex g (ds.map dirSize))) = MvPolynomial.eval x P := by
  have h1 := (he.inElement x).mp hx
  have h2 := hc ((List.ofFn (argAt ds ss x)).map fun a => a.2.2) (by simp) (by
    intro y hy
    obtain ⟨a, ha, rfl⟩ := List.mem_map.mp hy
    obtain ⟨k, rfl⟩ := List.mem_ofFn.mp ha
    have := (he.dir k).2.1.pos
    have h2 := h1 k
    have hgap : 0 < ds[k].t (ss.getD k 0 + 1) - ds[k].t (ss.getD k 0) := by linarith
    simp only [argAt]
    exact ⟨div_nonneg (by linarith) hgap.le, (div_le_one hgap).mpr (by linarith)⟩)
  rw [he.spline c x, Option.some_inj] at h2
  rw [h2]
  refine congrArg (fun z => MvPolynomial.eval z P) (funext fun k => ?_)
  rw [he.point _ (by simp) k]
  conv_rhs => rw [← he.toGlobal k (x k)]
  congr 1
  rw [List.getD_eq_getElem?_getD, List.getElem?_map, List.getElem?_ofFn]
  simp [argAt]

/-- Coefficients on a line in direction `k`. -/
def lineCoeff (ds : List (Dir K)) (c : Nat → K) (ss : List Nat) (x : Fin ds.length → K) (k i : Nat) : K :=
  nest ((List.ofFn (argAt ds ss x)).eraseIdx k) fun g => c (flatIndex (g.insertIdx k i) (ds.map dirSize))

theorem lineCoeff_congr (c : Nat → K) (ss ss' : List Nat) (x x' : Fin ds.length → K) (k i : Nat)
    (h : ∀ l : Fin ds.length, l.1 ≠ k → ss.getD l 0 = ss'.getD l 0 ∧ x l = x' l) :
    lineCoeff ds c ss x k i = lineCoeff ds c ss' x' k i := by
  unfold lineCoeff
  rw [eraseIdx_congr _ (List.ofFn (argAt ds ss' x')) k]
  intro j hj
  rw [List.getElem?_ofFn, List.getElem?_ofFn]
  split
  · next hlt =>
    obtain ⟨a, b⟩ := h ⟨j, hlt⟩ hj
    simp only [argAt, a, b]
  · rfl

theorem ElementOK.line {e : Nat} {ss : List Nat} (he : ElementOK ds elements e ss) {c : Nat → K} {P : MvPolynomial (Fin ds.length) K}
    (hc : IsOn ds elements c e P) (x : Fin ds.length → K) (hx : InElement ds elements e x) (k : Fin ds.length) :
    line x k P = ∑ i ∈ range (dirSize ds[k]), C (lineCoeff ds c ss x k i) * polyN ds[k] (ss.getD k 0) ds[k].order i := by
  have hpos := (he.dir k).2.1.pos
  have hx' := (he.inElement x).mp hx
  rw [← sub_eq_zero]
  apply Polynomial.eq_zero_of_infinite_isRoot
  apply Set.Infinite.mono (s := Set.Ioo (ds[k].t (ss.getD k 0)) (ds[k].t (ss.getD k 0 + 1))) _ (Set.Ioo_infinite hpos)
  rintro y ⟨hy1, hy2⟩
  simp only [Set.mem_ofPred_eq, IsRoot, eval_sub, eval_finsetSum, eval_mul, eval_C]
  rw [sub_eq_zero, line_eval, ← he.value hc (Function.update x k y) ?_]
  · have hk : k.1 < (List.ofFn (argAt ds ss (Function.update x k y))).length := by simp
    rw [nest_line _ k.1 hk (he.args _ _ (List.getElem_mem _))]
    have e1 : (List.ofFn (argAt ds ss (Function.update x k y)))[k.1] = argAt ds ss (Function.update x k y) k := by simp
    rw [e1]
    refine sum_congr rfl fun i hi => ?_
    rw [mem_range] at hi
    have e2 : BSpline.toGlobal ds[k] (ss.getD k 0) (argAt ds ss (Function.update x k y) k).2.2 = y := by
      simp only [argAt, Function.update_self]
      exact he.toGlobal k y
    rw [polyN_eval (he.dir k).1 _ _ _ _ hi]
    congr 1
    · exact lineCoeff_congr c ss ss _ _ k i fun l hl => ⟨rfl, by rw [Function.update_of_ne (fun hc => hl (by rw [hc]))]⟩
    · exact congrArg (fun z => tableN ds[k] (ss.getD k 0) z ds[k].order i) e2
  · rw [he.inElement]
    intro l
    by_cases hl : l = k
    · subst hl; rw [Function.update_self]; exact ⟨hy1.le, hy2.le⟩
    · rw [Function.update_of_ne hl]; exact hx' l

/-- Knot spans of neighbouring elements. -/
theorem next_spans {e e' : Nat} {ss ss' : List Nat} (he : ElementOK ds elements e ss) (he' : ElementOK ds elements e' ss') (k : Fin ds.length)
    (hn : NextTo elements k e e') (hk : KnotsSep ds[k]) :
    Neighbours ds[k] (ss.getD k 0) (ss'.getD k 0) ∧ ds[k].knots.count (ds[k].t (ss'.getD k 0)) = ss'.getD k 0 - ss.getD k 0 ∧
      ∀ l : Fin ds.length, l ≠ k → ss.getD l 0 = ss'.getD l 0 := by
  have hd : ∀ l : Fin ds.length, (getIJK e' elements).getD l 0 = if l = k then (getIJK e elements).getD l 0 + 1 else (getIJK e elements).getD l 0 := by
    intro l
    have h1 : l.1 < (getIJK e elements).length := by rw [he.digits]; exact l.2
    rw [hn, List.getD_eq_getElem?_getD, List.getElem?_modify, List.getD_eq_getElem?_getD, List.getElem?_eq_getElem h1]
    by_cases hl : l = k
    · subst hl; simp
    · have : k.1 ≠ l.1 := fun hc => hl (Fin.ext hc.symm)
      simp [hl, this]
  have hs := (he.dir k).2.2.2.2
  have hs' := (he'.dir k).2.2.2.2
  rw [hd k, if_pos rfl] at hs'
  have := neighbours_of hk hs hs'
  refine ⟨this.1, this.2, fun l hl => ?_⟩
  have a := (he.dir l).2.2.2.2
  have b := (he'.dir l).2.2.2.2
  rw [hd l, if_neg hl, a] at b
  exact Option.some_inj.mp b

/-- Common points of neighbouring elements. -/
theorem next_point {e e' : Nat} {ss ss' : List Nat} (he : ElementOK ds elements e ss) (he' : ElementOK ds elements e' ss') (k : Fin ds.length)
    (hn : NextTo elements k e e') (hk : KnotsSep ds[k]) (x : Fin ds.length → K) :
    (InElement ds elements e x ∧ InElement ds elements e' x) ↔ (x k = ds[k].t (ss'.getD k 0) ∧
      ∀ l : Fin ds.length, l ≠ k → ds[l].t (ss.getD l 0) ≤ x l ∧ x l ≤ ds[l].t (ss.getD l 0 + 1)) := by
  obtain ⟨h1, -, h3⟩ := next_spans he he' k hn hk
  have hlt := h1.lt
  have e1 := h1.same (ss.getD k 0 + 1) (by omega) (by omega)
  have p1 := h1.left.pos
  have p2 := h1.right.pos
  rw [he.inElement, he'.inElement]
  constructor
  · rintro ⟨a, b⟩
    refine ⟨le_antisymm ?_ (b k).1, fun l _ => a l⟩
    rw [← e1]; exact (a k).2
  · rintro ⟨a, b⟩
    constructor
    · intro l
      by_cases hl : l = k
      · subst hl; rw [a, e1]; exact ⟨by rw [← e1]; exact p1.le, le_refl _⟩
      · exact b l hl
    · intro l
      by_cases hl : l = k
      · subst hl; rw [a]; exact ⟨le_refl _, p2.le⟩
      · rw [← h3 l hl]; exact b l hl

theorem box_funext {e : Nat} {ss : List Nat} (he : ElementOK ds elements e ss) (P : MvPolynomial (Fin ds.length) K)
    (h : ∀ x, InElement ds elements e x → MvPolynomial.eval x P = 0) : P = 0 := by
  apply MvPolynomial.funext_set (fun l : Fin ds.length => Set.Ioo (ds[l].t (ss.getD l 0)) (ds[l].t (ss.getD l 0 + 1)))
    (fun l => Set.Ioo_infinite (he.dir l).2.1.pos)
  intro x hx
  rw [map_zero]
  exact h x ((he.inElement x).mpr fun l => ⟨(hx l (Set.mem_univ _)).1.le, (hx l (Set.mem_univ _)).2.le⟩)

theorem spline_of_discrete (h : List.Forall₂ DirOK ds elements) (hk : ∀ d ∈ ds, KnotsSep d)
    (hin : ∀ d ∈ ds, ∀ i s, spanOf d i = some s → d.order ≤ s ∧ s + d.order + 2 ≤ d.n)
    (f : Nat → MvPolynomial (Fin ds.length) K) (c : Nat → K) (hc : ∀ e < elements.prod, IsOn ds elements c e (f e)) :
    Spline ds elements f := by
  constructor
  · intro e hep k
    obtain ⟨ss, he⟩ := elementOK h hk hin e hep
    apply degreeOf_le_of_pderiv
    apply box_funext he
    intro x hx
    have := line_eval x k (x k) ((MvPolynomial.pderiv k)^[ds[k].order + 1] (f e))
    rw [Function.update_eq_self] at this
    rw [← this, line_pderiv_iterate, he.line (hc e hep) x hx k, iterate_derivative_eq_zero, eval_zero]
    refine Nat.lt_succ_of_le (natDegree_sum_le_of_forall_le _ _ fun i _ => (natDegree_C_mul_le _ _).trans (polyN_natDegree _ _ _ i))
  · intro e hep e' hep' k hn x hx hx' j hj
    obtain ⟨ss, he⟩ := elementOK h hk hin e hep
    obtain ⟨ss', he'⟩ := elementOK h hk hin e' hep'
    have hks := hk ds[k] (List.getElem_mem _)
    obtain ⟨h1, h2, h3⟩ := next_spans he he' k hn hks
    have hxk := ((next_point he he' k hn hks x).mp ⟨hx, hx'⟩).1
    rw [hxk, h2] at hj
    have a := line_eval x k (x k) ((MvPolynomial.pderiv k)^[j] (f e))
    have b := line_eval x k (x k) ((MvPolynomial.pderiv k)^[j] (f e'))
    rw [Function.update_eq_self] at a b
    rw [← a, ← b, line_pderiv_iterate, line_pderiv_iterate, he.line (hc e hep) x hx k, he'.line (hc e' hep') x hx' k, hxk]
    simp only [iterate_derivative_sum, iterate_derivative_C_mul, eval_finsetSum, eval_mul, eval_C]
    refine sum_congr rfl fun i hi => ?_
    rw [mem_range] at hi
    rw [polyN_smooth (he.dir k).1 h1 j ds[k].order i (by omega) hi]
    rw [lineCoeff_congr c ss ss' x x k i fun l hl => ⟨h3 l (fun hc => hl (by rw [hc])), rfl⟩]

/-! ## Splines are discrete functions -/

theorem box_const {D : Nat} {α : Type} (F : (Fin D → Nat) → α) (I : Fin D → Nat → Prop)
    (hI : ∀ k a b c, a ≤ b → b ≤ c → I k a → I k c → I k b)
    (hstep : ∀ ε k, (∀ l, I l (ε l)) → I k (ε k + 1) → F (Function.update ε k (ε k + 1)) = F ε)
    (ε ε' : Fin D → Nat) (h : ∀ l, I l (ε l)) (h' : ∀ l, I l (ε' l)) : F ε = F ε' := by
  have one : ∀ (ε : Fin D → Nat) (k : Fin D) (n : Nat), (∀ l, I l (ε l)) → I k (ε k + n) → F (Function.update ε k (ε k + n)) = F ε := by
    intro ε k n h
    induction n with
    | zero => intro _; rw [Nat.add_zero, Function.update_eq_self]
    | succ n ih =>
      intro hn
      have hm := hI k (ε k) (ε k + n) (ε k + (n + 1)) (by omega) (by omega) (h k) hn
      rw [← ih hm]
      have := hstep (Function.update ε k (ε k + n)) k (by
        intro l
        by_cases hl : l = k
        · subst hl; rwa [Function.update_self]
        · rw [Function.update_of_ne hl]; exact h l) (by rwa [Function.update_self])
      rw [Function.update_self, Function.update_idem] at this
      exact this
  have any : ∀ (ε : Fin D → Nat) (k : Fin D) (b : Nat), (∀ l, I l (ε l)) → I k b → F (Function.update ε k b) = F ε := by
    intro ε k b h hb
    rcases Nat.le_total (ε k) b with hc | hc
    · obtain ⟨n, rfl⟩ := Nat.exists_eq_add_of_le hc
      exact one ε k n h hb
    · obtain ⟨n, hn⟩ := Nat.exists_eq_add_of_le hc
      have := one (Function.update ε k b) k n (by
        intro l
        by_cases hl : l = k
        · subst hl; rwa [Function.update_self]
        · rw [Function.update_of_ne hl]; exact h l) (by rw [Function.update_self, ← hn]; exact h k)
      rw [Function.update_self, Function.update_idem, ← hn, Function.update_eq_self] at this
      exact this.symm
  have key : ∀ s : Finset (Fin D), F (fun k => if k ∈ s then ε' k else ε k) = F ε := by
    intro s
    induction s using Finset.induction_on with
    | empty => simp
    | insert k s hk ih =>
      rw [← ih, ← any (fun k => if k ∈ s then ε' k else ε k) k (ε' k) (fun l => by split; exacts [h' l, h l]) (h' k)]
      congr 1
      funext l
      by_cases hl : l = k
      · subst hl; simp
      · rw [Function.update_of_ne hl]; simp [hl]
  have := key univ
  simpa using this.symm

/-- Coefficients of functions that are active on two neighbouring elements agree. -/
theorem lam_next {f : Nat → MvPolynomial (Fin ds.length) K} (hf : Spline ds elements f) {e e' : Nat} {ss ss' : List Nat}
    (hep : e < elements.prod) (hep' : e' < elements.prod)
    (he : ElementOK ds elements e ss) (he' : ElementOK ds elements e' ss') (k : Fin ds.length) (hn : NextTo elements k e e') (hk : KnotsSep ds[k])
    (g : Fin ds.length → Nat) (h1 : g k ≤ ss.getD k 0) (h2 : ss'.getD k 0 ≤ g k + ds[k].order) :
    lam (fun k : Fin ds.length => ds[k]) g (f e') = lam (fun k : Fin ds.length => ds[k]) g (f e) := by
  obtain ⟨n1, n2, n3⟩ := next_spans he he' k hn hk
  rw [← sub_eq_zero, ← map_sub, lam_slice _ g k]
  refine lam1_kill (he.dir k).1 n1 (he'.dir k).2.2.1 (he'.dir k).2.2.2.1 _ ?_ ?_ _ h1 h2
  · refine (slice_natDegree _ g k _).trans ?_
    refine (MvPolynomial.degreeOf_sub_le _ _ _).trans (max_le (hf.degree e' hep' k) (hf.degree e hep k))
  · intro j hj
    rw [← slice_pderiv_iterate, slice_eval]
    have : fixVar k (ds[k].t (ss'.getD k 0)) ((MvPolynomial.pderiv k)^[j] (f e' - f e)) = 0 := by
      apply box_funext he
      intro x hx
      rw [fixVar_eval]
      have hx2 := (he.inElement x).mp hx
      obtain ⟨c1, c2⟩ := (next_point he he' k hn hk (Function.update x k (ds[k].t (ss'.getD k 0)))).mpr
        ⟨by rw [Function.update_self], fun l hl => by rw [Function.update_of_ne hl]; exact hx2 l⟩
      have := hf.smooth e hep e' hep' k hn _ c1 c2 j (by rw [Function.update_self, n2]; omega)
      have e1 : (MvPolynomial.pderiv k)^[j] (f e' - f e) = (MvPolynomial.pderiv k)^[j] (f e') - (MvPolynomial.pderiv k)^[j] (f e) := by
        exact iterate_map_sub _ _ _ _
      rw [e1, map_sub, this, sub_self]
    simp only [this, map_zero, eval_zero]

theorem lam_const (h : List.Forall₂ DirOK ds elements) (hk : ∀ d ∈ ds, KnotsSep d)
    (hin : ∀ d ∈ ds, ∀ i s, spanOf d i = some s → d.order ≤ s ∧ s + d.order + 2 ≤ d.n)
    {f : Nat → MvPolynomial (Fin ds.length) K} (hf : Spline ds elements f) {e e' : Nat} {ss ss' : List Nat}
    (hep : e < elements.prod) (hep' : e' < elements.prod)
    (he : ElementOK ds elements e ss) (he' : ElementOK ds elements e' ss') (g : Fin ds.length → Nat)
    (h1 : ∀ k : Fin ds.length, g k ≤ ss.getD k 0 ∧ ss.getD k 0 ≤ g k + ds[k].order)
    (h2 : ∀ k : Fin ds.length, g k ≤ ss'.getD k 0 ∧ ss'.getD k 0 ≤ g k + ds[k].order) :
    lam (fun k : Fin ds.length => ds[k]) g (f e) = lam (fun k : Fin ds.length => ds[k]) g (f e') := by
  have hle := h.length_eq
  have hok : ∀ (k : Fin ds.length), DirOK ds[k] (elements[k.1]'(by omega)) := fun k => (List.forall₂_iff_get.mp h).2 k.1 k.2 (by omega)
  let I : Fin ds.length → Nat → Prop := fun k a => ∃ s, spanOf ds[k] a = some s ∧ g k ≤ s ∧ s ≤ g k + ds[k].order
  have hlt : ∀ (k : Fin ds.length) a, I k a → a < (elements[k.1]'(by omega)) := by
    rintro k a ⟨s, hs, -⟩
    obtain ⟨a1, a2, a3⟩ := (spanOf_some _ _ _).mp hs
    rw [(hok k).elems]
    have := ds[k].before_mono (show s + 1 ≤ ds[k].n - 1 by omega)
    rw [Dir.before_succ, if_pos a2] at this
    omega
  have hdig : ∀ ε : Fin ds.length → Nat, (∀ l, I l (ε l)) → List.Forall₂ (· < ·) (List.ofFn ε) elements := by
    intro ε hε
    rw [List.forall₂_iff_get]
    refine ⟨by simp [hle], fun i h1 h2 => ?_⟩
    simp only [List.length_ofFn] at h1
    simpa using hlt ⟨i, h1⟩ _ (hε ⟨i, h1⟩)
  have hgd : ∀ (ε : Fin ds.length → Nat) (l : Fin ds.length), (List.ofFn ε).getD l 0 = ε l := by
    intro ε l; simp [List.getD_eq_getElem?_getD]
  have key := box_const (fun ε => lam (fun k : Fin ds.length => ds[k]) g (f (flatIndex (List.ofFn ε) elements))) I ?_ ?_
    (fun k => (getIJK e elements).getD k 0) (fun k => (getIJK e' elements).getD k 0)
    (fun k => ⟨_, (he.dir k).2.2.2.2, h1 k⟩) (fun k => ⟨_, (he'.dir k).2.2.2.2, h2 k⟩)
  · have e1 : ∀ e, e < elements.prod → flatIndex (List.ofFn fun k : Fin ds.length => (getIJK e elements).getD k 0) elements = e := by
      intro e hep
      have : (List.ofFn fun k : Fin ds.length => (getIJK e elements).getD k 0) = getIJK e elements := by
        apply List.ext_getElem
        · simp [getIJK_length, hle]
        · intro i h1 h2
          simp [List.getD_eq_getElem?_getD, h2]
      rw [this, flatIndex_getIJK elements e hep]
    simp only [e1 e hep, e1 e' hep'] at key
    exact key
  · rintro k a b c hab hbc ⟨s, hs, hs1, hs2⟩ ⟨s', hs', hs1', hs2'⟩
    have hc := hlt k c ⟨s', hs', hs1', hs2'⟩
    rw [(hok k).elems] at hc
    obtain ⟨r, hr⟩ := spanOf_isSome ds[k] b (by omega)
    obtain ⟨a1, a2, a3⟩ := (spanOf_some _ _ _).mp hs
    obtain ⟨b1, b2, b3⟩ := (spanOf_some _ _ _).mp hr
    obtain ⟨c1, c2, c3⟩ := (spanOf_some _ _ _).mp hs'
    have mono : ∀ u v, ds[k].Elem u → ds[k].before u ≤ ds[k].before v → (ds[k].Elem v) → u ≤ v := by
      intro u v hu huv hv
      by_contra hc
      have := ds[k].before_mono (show v + 1 ≤ u by omega)
      rw [Dir.before_succ, if_pos hv] at this
      omega
    have m1 := mono s r a2 (by omega) b2
    have m2 := mono r s' b2 (by omega) c2
    exact ⟨r, hr, by omega, by omega⟩
  · intro ε k hε hk'
    have hε' : ∀ l, I l (Function.update ε k (ε k + 1) l) := by
      intro l
      by_cases hl : l = k
      · subst hl; rwa [Function.update_self]
      · rw [Function.update_of_ne hl]; exact hε l
    have f1 := hdig ε hε
    have f2 := hdig _ hε'
    have p1 := flatIndex_lt f1
    have p2 := flatIndex_lt f2
    obtain ⟨s1, o1⟩ := elementOK h hk hin _ p1
    obtain ⟨s2, o2⟩ := elementOK h hk hin _ p2
    have g1 := getIJK_flatIndex f1
    have g2 := getIJK_flatIndex f2
    have i1 := (o1.dir k).2.2.2.2
    have i2 := (o2.dir k).2.2.2.2
    rw [g1, hgd] at i1
    rw [g2, hgd, Function.update_self] at i2
    obtain ⟨r1, q1, q2, q3⟩ := hε k
    obtain ⟨r2, q4, q5, q6⟩ := hk'
    rw [i1, Option.some_inj] at q1
    rw [i2, Option.some_inj] at q4
    refine lam_next hf p1 p2 o1 o2 k ?_ (hk _ (List.getElem_mem _)) g (by omega) (by omega)
    rw [NextTo, g1, g2]
    apply List.ext_getElem
    · simp
    · intro i h1 h2
      simp only [List.length_ofFn] at h1
      rw [List.getElem_modify, List.getElem_ofFn, List.getElem_ofFn]
      by_cases hl : k.1 = i
      · subst hl; rw [if_pos rfl, Function.update_self]
      · rw [if_neg hl, Function.update_of_ne (fun hc => hl (by rw [← hc]))]

end

/-! ## Theorems -/

section
variable {ds : List (Dir K)} {elements : List Nat}

/-- **C91.** The discrete functions of a B-spline basis are exactly the splines. All orders, all dimensions, all multiplicities of knots, provided that each
element is inside of the support of `order+1` functions in each direction (as for open knot vectors). The coefficients of a spline are unique. -/
theorem C91_space (h : List.Forall₂ DirOK ds elements) (hk : ∀ d ∈ ds, KnotsSep d)
    (hin : ∀ d ∈ ds, ∀ i s, spanOf d i = some s → d.order ≤ s ∧ s + d.order + 2 ≤ d.n)
    (f : Nat → MvPolynomial (Fin ds.length) K) :
    ((∃ c : Nat → K, ∀ e < elements.prod, IsOn ds elements c e (f e)) ↔ Spline ds elements f) ∧
    ∀ c c' : Nat → K, (∀ e < elements.prod, IsOn ds elements c e (f e)) → (∀ e < elements.prod, IsOn ds elements c' e (f e)) →
      ∀ j < dimension ds, c j = c' j := by
  refine ⟨⟨?_, ?_⟩, ?_⟩
  · rintro ⟨c, hc⟩
    exact spline_of_discrete h hk hin f c hc
  · intro hf
    classical
    let E : Nat → Fin elements.prod → Prop := fun j e => j ∈ (leaf ds elements).loc e
    let c : Nat → K := fun j => if hj : ∃ e, E j e then
      lam (fun k : Fin ds.length => ds[k]) (fun k => (getIJK j (ds.map dirSize)).getD k 0) (f hj.choose) else 0
    have hact : ∀ e : Fin elements.prod, ∀ ss, ElementOK ds elements e ss → ∀ j, E j e → ∀ k : Fin ds.length,
        (getIJK j (ds.map dirSize)).getD k 0 ≤ ss.getD k 0 ∧ ss.getD k 0 ≤ (getIJK j (ds.map dirSize)).getD k 0 + ds[k].order := by
      intro e ss he j hj k
      simp only [E, leaf, he.spans, Option.elim] at hj
      have h2 : k.1 < ss.length := by rw [← he.length]; exact k.2
      have h3 : k.1 < (getIJK j (ds.map dirSize)).length := by rw [getIJK_length, List.length_map]; exact k.2
      have := ((C26_element ds ss he.bound).2.2.2 j |>.mp hj).2 k ds[k] ss[k] _ (List.getElem?_eq_getElem k.2)
        (List.getElem?_eq_getElem h2) (List.getElem?_eq_getElem h3)
      simpa [List.getD_eq_getElem?_getD, h2, h3] using this
    refine ⟨c, fun e hep xs hxs hx => ?_⟩
    obtain ⟨ss, he⟩ := elementOK h hk hin e hep
    have hsp : ∀ k (h1 : k < ds.length) (h2 : k < ss.length), KnotsOK ds[k] ∧ SpanOK ds[k] ss[k] ∧ ds[k].order ≤ ss[k] ∧
        ss[k] + ds[k].order + 2 ≤ ds[k].n := by
      intro k h1 h2
      have := he.dir ⟨k, h1⟩
      simp only [List.getD_eq_getElem?_getD, List.getElem?_eq_getElem h2, Option.getD_some] at this
      exact ⟨this.1, this.2.1, this.2.2.1, this.2.2.2.1⟩
    have hz := zip_facts (xs := xs) he.length hxs
    have hargs : ∀ a ∈ ds.zip (ss.zip xs), ArgOK a := by
      intro a ha
      obtain ⟨k, hk, rfl⟩ := List.mem_iff_getElem.mp ha
      simp only [List.length_zip] at hk
      simp only [List.getElem_zip]
      have := hsp k (by omega) (by omega)
      exact ⟨this.1, this.2.1⟩
    have := combine_eq (ds.zip (ss.zip xs)) hargs c
    rw [hz.1, hz.2] at this
    rw [splineAt, he.spans, Option.bind_some, this]
    congr 1
    rw [nest_congr _ _ (fun g => lam (fun k : Fin ds.length => ds[k]) (fun k => g.getD k 0) (f e)) (by
      intro g hg
      have hd := active_digits hargs hg
      rw [hz.1] at hd
      have hgi := getIJK_flatIndex hd
      have hmem : E (flatIndex g (ds.map dirSize)) ⟨e, hep⟩ := by
        simp only [E, leaf, he.spans, Option.elim]
        refine (C26_element ds ss he.bound).2.2.2 _ |>.mpr ⟨by rw [dimension_eq]; exact flatIndex_lt hd, ?_⟩
        intro k d s i a b c'
        rw [hgi] at c'
        obtain ⟨k1, rfl⟩ := List.getElem?_eq_some_iff.mp a
        obtain ⟨k2, rfl⟩ := List.getElem?_eq_some_iff.mp b
        obtain ⟨k3, rfl⟩ := List.getElem?_eq_some_iff.mp c'
        have := (List.forall₂_iff_get.mp hg).2 k (by simp only [List.length_zip]; omega) k3
        simp only [List.get_eq_getElem, List.getElem_zip] at this
        have := (localSize_range ds[k] (hsp k k1 k2).1.size ss[k] (hsp k k1 k2).2.1.lt g[k]).mp this
        exact ⟨this.1, this.2.1⟩
      have hex : ∃ e, E (flatIndex g (ds.map dirSize)) e := ⟨_, hmem⟩
      simp only [c, dif_pos hex, hgi]
      obtain ⟨ss0, he0⟩ := elementOK h hk hin hex.choose hex.choose.2
      have a1 := hact hex.choose ss0 he0 _ hex.choose_spec
      have a2 := hact ⟨e, hep⟩ ss he _ hmem
      rw [hgi] at a1 a2
      exact lam_const h hk hin hf hex.choose.2 hep he0 he _ a1 a2)]
    rw [nest_reproduce he.length hxs hsp (f e) (hf.degree e hep)]
    refine congrArg (fun z => MvPolynomial.eval z (f e)) (funext fun k => ?_)
    exact (he.point xs hxs k).symm
  · intro c c' hc hc'
    refine (C78_independent h (fun d hd => (hk d hd).ok) c c').2.2 ?_
    intro e hep xs hxs hx
    have hx' : ∀ x ∈ xs, 0 ≤ x ∧ x ≤ 1 := fun x hxm => ⟨(hx x hxm).1.le, (hx x hxm).2.le⟩
    rw [hc e hep xs hxs hx', hc' e hep xs hxs hx']

end

theorem openKnots_sep (p : Nat) (knots : List K) (hm : 2 ≤ knots.length)
    (hg : ∀ i, i + 1 < knots.length → knots.getD i 0 + 1 / 10 ^ 8 ≤ knots.getD (i + 1) 0) :
    KnotsSep (⟨p, openKnots p true knots⟩ : Dir K) := by
  have hne : knots ≠ [] := by rintro rfl; simp at hm
  have hn : (⟨p, openKnots p true knots⟩ : Dir K).n = p + knots.length + p := openKnots_length p knots
  refine ⟨by rw [hn]; simp only; omega, ?_⟩
  intro i hi
  rw [hn] at hi
  by_cases hE : p ≤ i ∧ i + 1 < p + knots.length
  · exact Or.inr ((openKnots_elem p knots hg i hi (by omega)).mpr hE)
  · left
    simp only [Dir.t, openKnots_getD p knots hne]
    rw [not_and_or] at hE
    rcases hE with hc | hc
    · rw [if_pos (show i < p by omega)]
      by_cases h1 : i + 1 < p
      · rw [if_pos h1]
      · rw [if_neg h1, if_pos (by omega), show i + 1 - p = 0 by omega]
    · rw [if_neg (show ¬ i + 1 < p by omega), if_neg hc, if_pos hi, if_neg (show ¬ i < p by omega)]
      by_cases h1 : i < p + knots.length
      · rw [if_pos h1, show i - p = knots.length - 1 by omega]
      · rw [if_neg h1, if_pos (show i < p + knots.length + p by omega)]

/-- Between two elements of an open knot vector there is one knot. -/
theorem openKnots_next (p : Nat) (knots : List K) (hm : 2 ≤ knots.length)
    (hg : ∀ i, i + 1 < knots.length → knots.getD i 0 + 1 / 10 ^ 8 ≤ knots.getD (i + 1) 0) (s s' : Nat)
    (hn : Neighbours (⟨p, openKnots p true knots⟩ : Dir K) s s') (h1 : p ≤ s) (h2 : s' + 1 < p + knots.length) : s' - s = 1 := by
  have hlt := hn.lt
  by_contra hc
  have hE := (openKnots_elem p knots hg (s + 1) (by omega) (by omega)).mpr ⟨by omega, by omega⟩
  unfold Dir.Elem at hE
  have e1 := hn.same (s + 1) (by omega) (by omega)
  have e2 := hn.same (s + 2) (by omega) (by omega)
  have := eps_pos (K := K) 8
  rw [e2, e1] at hE
  linarith

/-- **C91 for open knot vectors** with pairwise different knots (at distance at least `1e-8`), as made by the constructors of the basis: the discrete functions are exactly the functions
that are polynomials with degree at most `order[k]` in direction `k` on each element, and whose derivatives in direction `k` of order less than `order[k]` are continuous
across the faces orthogonal to this direction. -/
theorem C91_open (dirs : List (Nat × List K))
    (h : ∀ x ∈ dirs, 2 ≤ x.2.length ∧ ∀ i, i + 1 < x.2.length → x.2.getD i 0 + 1 / 10 ^ 8 ≤ x.2.getD (i + 1) 0)
    (ds : List (Dir K)) (hds : ds = dirs.map fun x => (⟨x.1, openKnots x.1 true x.2⟩ : Dir K))
    (elements : List Nat) (hel : elements = dirs.map fun x => x.2.length - 1) (f : Nat → MvPolynomial (Fin ds.length) K) :
    (∃ c : Nat → K, ∀ e < elements.prod, IsOn ds elements c e (f e)) ↔
      (∀ e < elements.prod, ∀ k : Fin ds.length, (f e).degreeOf k ≤ ds[k].order) ∧
      (∀ e < elements.prod, ∀ e' < elements.prod, ∀ k : Fin ds.length, NextTo elements k e e' →
        ∀ x, InElement ds elements e x → InElement ds elements e' x → ∀ j < ds[k].order,
          MvPolynomial.eval x ((MvPolynomial.pderiv k)^[j] (f e)) = MvPolynomial.eval x ((MvPolynomial.pderiv k)^[j] (f e'))) := by
  have hok : List.Forall₂ DirOK ds elements := by
    subst hds hel
    clear f
    induction dirs with
    | nil => exact .nil
    | cons x dirs ih =>
      exact .cons (C26_open x.1 x.2 (h x (by simp)).1 (h x (by simp)).2).1 (ih fun y hy => h y (by simp [hy]))
  have hk : ∀ d ∈ ds, KnotsSep d := by
    subst hds
    intro d hd
    obtain ⟨x, hx, rfl⟩ := List.mem_map.mp hd
    exact openKnots_sep x.1 x.2 (h x hx).1 (h x hx).2
  have hin : ∀ d ∈ ds, ∀ i s, spanOf d i = some s → d.order ≤ s ∧ s + d.order + 2 ≤ d.n := by
    subst hds
    intro d hd i s hs
    obtain ⟨x, hx, rfl⟩ := List.mem_map.mp hd
    exact (C26_open x.1 x.2 (h x hx).1 (h x hx).2).2.2 i s hs
  have hcount : ∀ e < elements.prod, ∀ e' < elements.prod, ∀ k : Fin ds.length, NextTo elements k e e' →
      ∀ x, InElement ds elements e x → InElement ds elements e' x → ds[k].knots.count (x k) = 1 := by
    intro e hep e' hep' k hn x hx hx'
    obtain ⟨ss, he⟩ := elementOK hok hk hin e hep
    obtain ⟨ss', he'⟩ := elementOK hok hk hin e' hep'
    have hks := hk ds[k] (List.getElem_mem _)
    obtain ⟨h1, h2, -⟩ := next_spans he he' k hn hks
    have hxk := ((next_point he he' k hn hks x).mp ⟨hx, hx'⟩).1
    rw [hxk, h2]
    have i1 := (he.dir k).2.2.1
    have i2 := (he'.dir k).2.2.2.1
    have hmem : ds[k] ∈ ds := List.getElem_mem _
    revert h1 i1 i2
    generalize ds[k] = d at hmem
    subst hds
    obtain ⟨y, hy, rfl⟩ := List.mem_map.mp hmem
    intro h1 i1 i2
    have hnn : (⟨y.1, openKnots y.1 true y.2⟩ : Dir K).n = y.1 + y.2.length + y.1 := openKnots_length y.1 y.2
    simp only [hnn] at i1 i2
    exact openKnots_next y.1 y.2 (h y hy).1 (h y hy).2 _ _ h1 i1 (by omega)
  rw [(C91_space hok hk hin f).1]
  constructor
  · intro hf
    refine ⟨hf.degree, fun e hep e' hep' k hn x hx hx' j hj => hf.smooth e hep e' hep' k hn x hx hx' j ?_⟩
    rw [hcount e hep e' hep' k hn x hx hx']; exact hj
  · rintro ⟨h1, h2⟩
    refine ⟨h1, fun e hep e' hep' k hn x hx hx' j hj => h2 e hep e' hep' k hn x hx hx' j ?_⟩
    rw [hcount e hep e' hep' k hn x hx hx'] at hj; exact hj

/-- Quadratic splines on `[0,1,3]`: the function `x²` for `x ≤ 1`, `2x-1` for `x ≥ 1` has continuous derivatives … -/
example : splineAt [exDir] [2] (fun j => [0, 0, 3, 5].getD j 0) 0 [1 / 4] = some ((1 / 4) ^ 2) ∧
    splineAt [exDir] [2] (fun j => [0, 0, 3, 5].getD j 0) 1 [1 / 4] = some (2 * (3 / 2) - 1) ∧
    splineAt [exDir] [2] (fun j => [0, 0, 3, 5].getD j 0) 1 [1] = some (2 * 3 - 1) := by decide +kernel

/-- … but with `x` instead of `2x-1` it has a kink, and there are no coefficients. -/
example : ¬ ∃ c : Nat → ℚ, ∀ e < 2, IsOn [exDir] [2] c e (if e = 0 then MvPolynomial.X 0 ^ 2 else MvPolynomial.X 0) := by
  intro hc
  have := (C91_open [(2, [0, 1, 3])] (by
    intro x hx
    rw [List.mem_singleton] at hx
    subst hx
    refine ⟨by decide, fun i hi => ?_⟩
    have : i = 0 ∨ i = 1 := by simp at hi; omega
    rcases this with rfl | rfl <;> norm_num) [exDir] (by simp [exDir, openKnots]) [2] rfl _).mp hc
  have := this.2 0 (by decide) 1 (by decide) 0 (by unfold NextTo; decide) (fun _ => 1)
    ⟨[1], rfl, by simp, fun k => by have : k = (0 : Fin 1) := Subsingleton.elim (α := Fin 1) _ _
                                    subst this; decide +kernel⟩
    ⟨[0], rfl, by simp, fun k => by have : k = (0 : Fin 1) := Subsingleton.elim (α := Fin 1) _ _
                                    subst this; decide +kernel⟩ 1 (by decide)
  simp [Derivation.leibniz_pow] at this

/-- A knot of multiplicity two: quadratic splines with a kink. -/
example : let d : Dir ℚ := ⟨2, [0, 0, 0, 1, 1, 3, 3, 3]⟩
    splineAt [d] [2] (fun j => [0, 0, 1, 2, 3].getD j 0) 0 [1 / 4] = some ((1 / 4) ^ 2) ∧
    splineAt [d] [2] (fun j => [0, 0, 1, 2, 3].getD j 0) 1 [1 / 4] = some (3 / 2) := by decide +kernel

/-- Not on outer knot spans: constants are splines there, but no discrete functions. -/
theorem C91_outer_false : let d : Dir ℚ := ⟨1, [0, 1, 2, 3]⟩
    DirOK d 3 ∧ KnotsSep d ∧ Spline [d] [3] (fun _ => 1) ∧ ¬ ∃ c : Nat → ℚ, ∀ e < 3, IsOn [d] [3] c e 1 := by
  obtain ⟨-, h2, h3⟩ := C78_outer_false
  refine ⟨h2, ⟨by decide, ?_⟩, ⟨?_, ?_⟩, ?_⟩
  · intro i hi
    have : i = 0 ∨ i = 1 ∨ i = 2 := by simp [Dir.n] at hi; omega
    rcases this with rfl | rfl | rfl <;> norm_num [Dir.t]
  · intro e _ k
    have : (MvPolynomial.degreeOf k (1 : MvPolynomial (Fin 1) ℚ)) = 0 := MvPolynomial.degreeOf_one k
    exact (le_of_eq this).trans (Nat.zero_le _)
  · intros; rfl
  · rintro ⟨c, hc⟩
    have h0 := hc 0 (by decide) [0] rfl (by simp)
    have e1 : elementSpans [(⟨1, [0, 1, 2, 3]⟩ : Dir ℚ)] [3] 0 = some [0] := by decide +kernel
    have e2 : indices [(⟨1, [0, 1, 2, 3]⟩ : Dir ℚ)] [0] = [0] := by decide +kernel
    have e3 : evalValues [((⟨1, [0, 1, 2, 3]⟩, 0, 0) : Arg ℚ)] = [some 0] := by decide +kernel
    simp [splineAt, e1, e2, e3, combine] at h0

end Verif.BSpline

import Verif.FE.Restrict
import Verif.FE.ArgyrisDof

/-!
# Functions on a triangle in global coordinates
-/

namespace Verif.FE.Argyris

open Verif.FE Verif.FE.Triangle
open MvPolynomial (pderiv eval aeval)
open Verif.FE.Morley (sgn normalL normalL_apply)

/-- A polynomial in local coordinates as polynomial in global coordinates. -/
noncomputable def push (g : Affine) : MvPolynomial (Fin 2) ℝ →ₐ[ℝ] MvPolynomial (Fin 2) ℝ :=
  aeval fun j => ∑ d, MvPolynomial.C (inv g j d) * (MvPolynomial.X d - MvPolynomial.C (g.origin d))

theorem inv_mul {g : Affine} (hg : g.Regular) (j k : Fin 2) :
    inv g j 0 * g.J 0 k + inv g j 1 * g.J 1 k = if j = k then 1 else 0 := by
  unfold Affine.Regular at hg
  obtain ⟨D, hD⟩ : ∃ D, g.J 0 0 * g.J 1 1 - g.J 0 1 * g.J 1 0 = D := ⟨_, rfl⟩
  rw [hD] at hg
  simp only [inv, hD]
  fin_cases j <;> fin_cases k <;> simp <;> field_simp <;> (try rw [← hD]) <;> ring

theorem mul_inv {g : Affine} (hg : g.Regular) (d e : Fin 2) :
    g.J d 0 * inv g 0 e + g.J d 1 * inv g 1 e = if d = e then 1 else 0 := by
  unfold Affine.Regular at hg
  obtain ⟨D, hD⟩ : ∃ D, g.J 0 0 * g.J 1 1 - g.J 0 1 * g.J 1 0 = D := ⟨_, rfl⟩
  rw [hD] at hg
  simp only [inv, hD]
  fin_cases d <;> fin_cases e <;> simp <;> field_simp <;> (try rw [← hD]) <;> ring

theorem eval_push {g : Affine} (hg : g.Regular) (x : Vec) (u : MvPolynomial (Fin 2) ℝ) :
    eval (g.global x) (push g u) = eval x u := by
  have h : (aeval (g.global x)).comp (push g) = aeval x := by
    apply MvPolynomial.algHom_ext
    intro j
    have h0 := inv_mul hg j 0
    have h1 := inv_mul hg j 1
    have e : ∀ d, g.global x d = g.origin d + (g.J d 0 * x 0 + g.J d 1 * x 1) := fun d => by simp [Affine.global]
    simp only [push, AlgHom.comp_apply, MvPolynomial.aeval_X, Fin.sum_univ_two]
    fin_cases j
    · simp [e] at h0 h1 ⊢
      linear_combination x 0 * h0 + x 1 * h1
    · simp [e] at h0 h1 ⊢
      linear_combination x 0 * h0 + x 1 * h1
  have := DFunLike.congr_fun h u
  simpa [MvPolynomial.coe_aeval_eq_eval] using this

theorem pderiv_push (g : Affine) (d : Fin 2) (u : MvPolynomial (Fin 2) ℝ) :
    pderiv d (push g u) = ∑ j, push g (pderiv j u) * MvPolynomial.C (inv g j d) := by
  rw [chain (push g) (pderiv d) u]
  apply Finset.sum_congr rfl
  intro j _
  congr 1
  simp only [push, MvPolynomial.aeval_X, Fin.sum_univ_two]
  fin_cases d <;> simp

/-- The line of the restriction, in local coordinates. -/
theorem line_push (g : Affine) (a v : Vec) : ∃ a' v' : Vec, ∀ u, line a v (push g u) = line a' v' u := by
  refine ⟨fun j => ∑ d, inv g j d * (a d - g.origin d), fun j => ∑ d, inv g j d * v d, ?_⟩
  intro u
  have h : (line a v).comp (push g) = line (fun j => ∑ d, inv g j d * (a d - g.origin d)) (fun j => ∑ d, inv g j d * v d) := by
    apply MvPolynomial.algHom_ext
    intro j
    simp only [push, AlgHom.comp_apply, MvPolynomial.aeval_X, map_mul, map_sub, line, MvPolynomial.aeval_C,
      Fin.sum_univ_two, map_add]
    simp only [show ∀ r : ℝ, (algebraMap ℝ (Polynomial ℝ)) r = Polynomial.C r from fun _ => rfl]
    ring
  exact DFunLike.congr_fun h u

theorem degree_push (g : Affine) (a v : Vec) (u : MvPolynomial (Fin 2) ℝ) :
    (line a v (push g u)).natDegree ≤ u.totalDegree := by
  obtain ⟨a', v', h⟩ := line_push g a v
  rw [h]
  exact natDegree_line _ _ _

theorem degree_pderiv_push (g : Affine) (a v : Vec) (d : Fin 2) (u : MvPolynomial (Fin 2) ℝ) :
    (line a v (pderiv d (push g u))).natDegree ≤ u.totalDegree - 1 := by
  rw [pderiv_push, map_sum]
  apply Polynomial.natDegree_sum_le_of_forall_le
  intro j _
  rw [map_mul]
  refine (Polynomial.natDegree_mul_le).trans ?_
  have h1 : (line a v (MvPolynomial.C (inv g j d))).natDegree = 0 := by
    rw [show line a v (MvPolynomial.C (inv g j d)) = Polynomial.C (inv g j d) from (line a v).commutes _]
    exact Polynomial.natDegree_C _
  rw [h1, add_zero]
  exact (degree_push g a v _).trans (totalDegree_pderiv j u)

/-- The gradient in global coordinates. -/
theorem grad_push {g : Affine} (hg : g.Regular) (x : Vec) (u : MvPolynomial (Fin 2) ℝ) (j : Fin 2) :
    ∑ d, eval (g.global x) (pderiv d (push g u)) * g.J d j = eval x (pderiv j u) := by
  have h0 := inv_mul hg 0 j
  have h1 := inv_mul hg 1 j
  simp only [pderiv_push, map_add, map_mul, eval_push hg, MvPolynomial.eval_C, Fin.sum_univ_two]
  fin_cases j
  · simp at h0 h1 ⊢
    linear_combination eval x (pderiv 0 u) * h0 + eval x (pderiv 1 u) * h1
  · simp at h0 h1 ⊢
    linear_combination eval x (pderiv 0 u) * h0 + eval x (pderiv 1 u) * h1

/-- The gradient is determined by its product with the Jacobian. -/
theorem grad_unique {g : Affine} (hg : g.Regular) {df df' : Vec} (h : ∀ j, ∑ d, df d * g.J d j = ∑ d, df' d * g.J d j) : df = df' := by
  funext d
  have h0 := h 0
  have h1 := h 1
  simp only [Fin.sum_univ_two] at h0 h1
  have i0 := mul_inv hg 0 d
  have i1 := mul_inv hg 1 d
  fin_cases d
  · simp at i0 i1 ⊢
    linear_combination inv g 0 0 * h0 + inv g 1 0 * h1 - (df 0 - df' 0) * i0 - (df 1 - df' 1) * i1
  · simp at i0 i1 ⊢
    linear_combination inv g 0 1 * h0 + inv g 1 1 * h1 - (df 0 - df' 0) * i0 - (df 1 - df' 1) * i1

theorem globalL_eq {g : Affine} (hg : g.Regular) (i : Nat) (d : Fin 2) (u : MvPolynomial (Fin 2) ℝ) :
    globalL g i d u = eval (g.global (corner i)) (pderiv d (push g u)) := by
  simp only [globalL, derivL, LinearMap.add_apply, LinearMap.smul_apply, LinearMap.comp_apply, evalL_apply, Derivation.coeFn_coe,
    smul_eq_mul, pderiv_push, map_add, map_mul, eval_push hg, MvPolynomial.eval_C, Fin.sum_univ_two]
  ring

theorem global2L_eq {g : Affine} (hg : g.Regular) (i : Nat) (d e : Fin 2) (u : MvPolynomial (Fin 2) ℝ) :
    global2L g i d e u = eval (g.global (corner i)) (pderiv d (pderiv e (push g u))) := by
  simp only [global2L, deriv2L, LinearMap.add_apply, LinearMap.smul_apply, LinearMap.comp_apply, evalL_apply, Derivation.coeFn_coe,
    smul_eq_mul, pderiv_push, map_mul, map_add, eval_push hg, MvPolynomial.eval_C, Fin.sum_univ_two, Derivation.leibniz,
    MvPolynomial.pderiv_C, mul_zero, zero_add]
  ring

theorem normalL_eq {g : Affine} (hg : g.Regular) (i : Fin 3) (u : MvPolynomial (Fin 2) ℝ) :
    normalL g i u = rot (tangent g i) 0 * eval (g.global (midpointR i)) (pderiv 0 (push g u))
      + rot (tangent g i) 1 * eval (g.global (midpointR i)) (pderiv 1 (push g u)) := by
  have := normalL_apply hg i u (fun d => eval (g.global (midpointR i)) (pderiv d (push g u)))
    (fun j => by have := grad_push hg (midpointR i) u j; rwa [Fin.sum_univ_two] at this)
  exact this.symm

/-- A polynomial of degree five with vanishing second order data at two points vanishes on the line through the points. -/
theorem c0_edge (W : MvPolynomial (Fin 2) ℝ) (A B : Vec) (d5 : (line A (fun d => B d - A d) W).natDegree ≤ 5)
    (hA : eval A W = 0) (hA1 : ∀ d, eval A (pderiv d W) = 0) (hA2 : ∀ d e, eval A (pderiv d (pderiv e W)) = 0)
    (hB : eval B W = 0) (hB1 : ∀ d, eval B (pderiv d W) = 0) (hB2 : ∀ d e, eval B (pderiv d (pderiv e W)) = 0) :
    line A (fun d => B d - A d) W = 0 := by
  have e0 : ∀ p, (line A (fun d => B d - A d) p).eval 0 = eval A p := fun p => by rw [eval_line]; simp
  have e1 : ∀ p, (line A (fun d => B d - A d) p).eval 1 = eval B p := fun p => by rw [eval_line]; simp
  have dL : ∀ p, Polynomial.derivative (line A (fun d => B d - A d) p)
      = ∑ j, line A (fun d => B d - A d) (pderiv j p) * Polynomial.C (B j - A j) := derivative_line _ _
  apply hermite5 _ d5 <;>
    simp [dL, e0, e1, hA, hB, hA1, hB1, hA2, hB2, Fin.sum_univ_two]

/-- A polynomial of degree five with vanishing second order data at two points and vanishing normal derivative at the midpoint
vanishes with its gradient on the line through the points. -/
theorem c1_edge (W : MvPolynomial (Fin 2) ℝ) (A B n : Vec) (hn : n 0 * (B 1 - A 1) - n 1 * (B 0 - A 0) ≠ 0)
    (d5 : (line A (fun d => B d - A d) W).natDegree ≤ 5) (d4 : ∀ d, (line A (fun d => B d - A d) (pderiv d W)).natDegree ≤ 4)
    (hA : eval A W = 0) (hA1 : ∀ d, eval A (pderiv d W) = 0) (hA2 : ∀ d e, eval A (pderiv d (pderiv e W)) = 0)
    (hB : eval B W = 0) (hB1 : ∀ d, eval B (pderiv d W) = 0) (hB2 : ∀ d e, eval B (pderiv d (pderiv e W)) = 0)
    (hM : n 0 * eval (fun d => A d + 1 / 2 * (B d - A d)) (pderiv 0 W)
      + n 1 * eval (fun d => A d + 1 / 2 * (B d - A d)) (pderiv 1 W) = 0) (t : ℝ) :
    eval (fun d => A d + t * (B d - A d)) W = 0 ∧ ∀ d, eval (fun d => A d + t * (B d - A d)) (pderiv d W) = 0 := by
  have e0 : ∀ p, (line A (fun d => B d - A d) p).eval 0 = eval A p := fun p => by rw [eval_line]; simp
  have e1 : ∀ p, (line A (fun d => B d - A d) p).eval 1 = eval B p := fun p => by rw [eval_line]; simp
  set L := line A (fun d => B d - A d) with hL
  have dL : ∀ p, Polynomial.derivative (L p) = ∑ j, L (pderiv j p) * Polynomial.C (B j - A j) := derivative_line _ _
  have z : L W = 0 := c0_edge W A B d5 hA hA1 hA2 hB hB1 hB2
  have dz : L (pderiv 0 W) * Polynomial.C (B 0 - A 0) + L (pderiv 1 W) * Polynomial.C (B 1 - A 1) = 0 := by
    have := dL W
    rw [z, Fin.sum_univ_two] at this
    simpa using this.symm
  have nz : L (pderiv 0 W) * Polynomial.C (n 0) + L (pderiv 1 W) * Polynomial.C (n 1) = 0 := by
    apply hermite4
    · refine (Polynomial.natDegree_add_le _ _).trans (max_le ?_ ?_) <;>
        exact (Polynomial.natDegree_mul_C_le _ _).trans (d4 _)
    · simp [e0, hA1]
    · simp [dL, e0, hA2, Fin.sum_univ_two]
    · simp [e1, hB1]
    · simp [dL, e1, hB2, Fin.sum_univ_two]
    · simp only [Polynomial.eval_add, Polynomial.eval_mul, Polynomial.eval_C]
      rw [hL, eval_line, eval_line]
      linear_combination hM
  refine ⟨by rw [← eval_line, ← hL, z]; simp, ?_⟩
  have a := congrArg (Polynomial.eval t) dz
  have b := congrArg (Polynomial.eval t) nz
  simp only [Polynomial.eval_add, Polynomial.eval_mul, Polynomial.eval_C, Polynomial.eval_zero, hL, eval_line] at a b
  intro d
  fin_cases d
  · apply mul_left_cancel₀ hn
    simp only [Fin.zero_eta]
    linear_combination (B 1 - A 1) * b - n 1 * a
  · apply mul_left_cancel₀ hn
    simp only [Fin.mk_one]
    linear_combination n 0 * a - (B 0 - A 0) * b

end Verif.FE.Argyris

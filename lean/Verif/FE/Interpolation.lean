import Verif.FE.HermiteConform

/-!
# Interpolation in the Hermite, Morley and Argyris spaces

`interpolate(basis, coeff, f)` for the three bases on conforming grids of affine simplices, for a function `f` of global coordinates with a
derivative. The coefficients written by neighbouring elements agree, the discrete function takes over the values and derivatives of
`f` in the nodes, and polynomials are reproduced everywhere.
-/

namespace Verif.FE.Interpolation

open Verif.FE Verif.Mapper Verif.Lagrange
open MvPolynomial (pderiv eval)

variable {E S : Type} {dim : Nat}

/-! ## Model -/

/-- interpolate.hh:166-171 for one leaf and a vector with flat indices, all coefficients marked. An access out of range is `none`. -/
def scatter (loc : List Nat) (coefficients : List ℝ) (vec : Nat → ℝ) : Option (Nat → ℝ) :=
  (List.range loc.length).foldlM (fun vec i => loc[i]?.bind fun n => coefficients[i]?.map fun x => Function.update vec n x) vec

/-- interpolate.hh:254-259. `coefs history e` are the coefficients computed by the finite element on element `e`, if the local view was bound to
the elements of `history` before. -/
def interpolateAll (loc : E → List Nat) (coefs : List E → E → Option (List ℝ)) (vec : Nat → ℝ) (es : List E) : Option (Nat → ℝ) :=
  (es.foldlM (fun s e => (coefs s.2 e).bind fun c => (scatter (loc e) c s.1).map fun vec => (vec, s.2 ++ [e])) (vec, [])).map Prod.fst

/-! ## The loop -/

theorem scatter_spec (loc : List Nat) (c : List ℝ) (hl : c.length = loc.length)
    (cons : ∀ (l l' n : Nat) (x x' : ℝ), loc[l]? = some n → loc[l']? = some n → c[l]? = some x → c[l']? = some x' → x = x') (vec : Nat → ℝ) :
    ∃ r, scatter loc c vec = some r ∧ (∀ (l n : Nat) (x : ℝ), loc[l]? = some n → c[l]? = some x → r n = x) ∧ ∀ n, n ∉ loc → r n = vec n := by
  have key : ∀ k, k ≤ loc.length → ∃ r, (List.range k).foldlM (fun vec i => loc[i]?.bind fun n => c[i]?.map fun x => Function.update vec n x) vec
      = some r ∧ (∀ (l n : Nat) (x : ℝ), l < k → loc[l]? = some n → c[l]? = some x → r n = x) ∧ ∀ n, n ∉ loc → r n = vec n := by
    intro k
    induction k with
    | zero => intro _; exact ⟨vec, rfl, by omega, fun _ _ => rfl⟩
    | succ k ih =>
      intro hk
      obtain ⟨r, h1, h2, h3⟩ := ih (by omega)
      have e1 : loc[k]? = some loc[k] := List.getElem?_eq_getElem hk
      have e2 : c[k]? = some (c[k]'(by omega)) := List.getElem?_eq_getElem _
      refine ⟨Function.update r loc[k] (c[k]'(by omega)), ?_, ?_, ?_⟩
      · rw [List.range_succ, List.foldlM_append, h1]
        simp [e1, e2]
      · intro l n x hlk hn hx
        by_cases hnk : n = loc[k]
        · subst hnk
          rw [Function.update_self]
          exact cons k l _ _ _ e1 hn e2 hx
        · rw [Function.update_of_ne hnk]
          have : l ≠ k := by
            rintro rfl
            rw [e1] at hn
            injection hn with hn
            exact hnk hn.symm
          exact h2 l n x (by omega) hn hx
      · intro n hn
        rw [Function.update_of_ne, h3 n hn]
        rintro rfl
        exact hn (List.getElem_mem _)
  obtain ⟨r, h1, h2, h3⟩ := key loc.length le_rfl
  exact ⟨r, h1, fun l n x hn hx => h2 l n x (List.getElem?_eq_some_iff.1 hn).1 hn hx, h3⟩

/-- If the elements agree in the values of shared coefficients, then all of them find their values in the result. -/
theorem interpolateAll_spec {loc : E → List Nat} {coefs : List E → E → Option (List ℝ)} {c : E → List ℝ} (hc : ∀ history e, coefs history e = some (c e))
    (hl : ∀ e, (c e).length = (loc e).length)
    (cons : ∀ (e e' : E) (l l' n : Nat) (x x' : ℝ), (loc e)[l]? = some n → (loc e')[l']? = some n → (c e)[l]? = some x →
      (c e')[l']? = some x' → x = x') (vec : Nat → ℝ) (es : List E) :
    ∃ r, interpolateAll loc coefs vec es = some r ∧
      (∀ e ∈ es, ∀ (l n : Nat) (x : ℝ), (loc e)[l]? = some n → (c e)[l]? = some x → r n = x) ∧
      ∀ n, (∀ e ∈ es, n ∉ loc e) → r n = vec n := by
  have key : ∀ (es hist : List E) (vec : Nat → ℝ), ∃ r, (es.foldlM (fun s e => (coefs s.2 e).bind fun c =>
        (scatter (loc e) c s.1).map fun vec => (vec, s.2 ++ [e])) (vec, hist)).map Prod.fst = some r ∧
      (∀ e (l n : Nat) (x : ℝ), (loc e)[l]? = some n → (c e)[l]? = some x → (e ∈ es ∨ vec n = x) → r n = x) ∧
      ∀ n, (∀ e ∈ es, n ∉ loc e) → r n = vec n := by
    intro es
    induction es with
    | nil => intro hist vec; exact ⟨vec, rfl, fun e l n x _ _ h => h.resolve_left (by simp), fun _ _ => rfl⟩
    | cons a es ih =>
      intro hist vec
      obtain ⟨r1, a1, a2, a3⟩ := scatter_spec (loc a) (c a) (hl a) (fun l l' n x x' => cons a a l l' n x x') vec
      obtain ⟨r, b1, b2, b3⟩ := ih (hist ++ [a]) r1
      refine ⟨r, ?_, ?_, ?_⟩
      · rw [List.foldlM_cons, hc]
        simp only [Option.bind_some, a1, Option.map_some]
        exact b1
      · intro e l n x hn hx h
        apply b2 e l n x hn hx
        by_cases hna : n ∈ loc a
        · right
          obtain ⟨k, hk, rfl⟩ := List.getElem_of_mem hna
          have hk' : (c a)[k]? = some ((c a)[k]'(by rw [hl]; exact hk)) := List.getElem?_eq_getElem _
          rw [a2 k _ _ (List.getElem?_eq_getElem hk) hk']
          exact cons a e k l _ _ _ (List.getElem?_eq_getElem hk) hn hk' hx
        · rcases h with h | h
          · left
            refine (List.mem_cons.1 h).resolve_left ?_
            rintro rfl
            exact hna (List.mem_of_getElem? hn)
          · right
            rw [a3 n hna, h]
      · intro n hn
        rw [b3 n fun e he => hn e (List.mem_cons_of_mem _ he), a3 n (hn a (by simp))]
  obtain ⟨r, h1, h2, h3⟩ := key es [] vec
  exact ⟨r, h1, fun e he l n x hn hx => h2 e l n x hn hx (Or.inl he), h3⟩

/-! ## Polynomials in local coordinates -/

/-- A polynomial in global coordinates as polynomial in local coordinates. -/
noncomputable def pull (origin : Fin dim → ℝ) (J : Matrix (Fin dim) (Fin dim) ℝ) : MvPolynomial (Fin dim) ℝ →ₐ[ℝ] MvPolynomial (Fin dim) ℝ :=
  MvPolynomial.aeval fun d => MvPolynomial.C (origin d) + ∑ j, MvPolynomial.C (J d j) * MvPolynomial.X j

theorem eval_pull (origin : Fin dim → ℝ) (J : Matrix (Fin dim) (Fin dim) ℝ) (x : Fin dim → ℝ) (q : MvPolynomial (Fin dim) ℝ) :
    eval x (pull origin J q) = eval (fun d => origin d + ∑ j, J d j * x j) q := by
  have h : (MvPolynomial.aeval x).comp (pull origin J) = MvPolynomial.aeval (R := ℝ) fun d => origin d + ∑ j, J d j * x j := by
    apply MvPolynomial.algHom_ext
    intro d
    simp [pull]
  have := DFunLike.congr_fun h q
  simpa [MvPolynomial.coe_aeval_eq_eval] using this

theorem pderiv_pull (origin : Fin dim → ℝ) (J : Matrix (Fin dim) (Fin dim) ℝ) (j : Fin dim) (q : MvPolynomial (Fin dim) ℝ) :
    pderiv j (pull origin J q) = ∑ d, pull origin J (pderiv d q) * MvPolynomial.C (J d j) := by
  rw [chain (pull origin J) (pderiv j) q]
  apply Finset.sum_congr rfl
  intro d _
  congr 1
  simp only [pull, MvPolynomial.aeval_X, map_sum, map_add, Derivation.leibniz, MvPolynomial.pderiv_C, MvPolynomial.pderiv_X, smul_eq_mul,
    mul_zero, add_zero, zero_add]
  rw [Finset.sum_eq_single j]
  · simp
  · intro b _ hb
    rw [Pi.single_eq_of_ne hb]
    simp
  · simp

theorem totalDegree_pull (origin : Fin dim → ℝ) (J : Matrix (Fin dim) (Fin dim) ℝ) (q : MvPolynomial (Fin dim) ℝ) :
    (pull origin J q).totalDegree ≤ q.totalDegree := by
  apply HermiteConform.totalDegree_subst
  intro d
  rw [pull, MvPolynomial.aeval_X]
  refine (MvPolynomial.totalDegree_add _ _).trans (max_le (by simp) ?_)
  refine MvPolynomial.totalDegree_finsetSum_le fun j _ => ?_
  refine (MvPolynomial.totalDegree_mul _ _).trans ?_
  rw [MvPolynomial.totalDegree_C, MvPolynomial.totalDegree_X]

end Verif.FE.Interpolation

import Verif.FE.Argyris

/-!
# The Argyris element: duality

The functionals evaluated by the interpolation are dual to the shape functions of the bound element.
-/

namespace Verif.FE.Argyris

open Verif.FE Verif.FE.Triangle
open Verif.Analytic (mono)
open MvPolynomial (pderiv eval)
open Verif.FE.Morley (sgn dirL dirL_apply normalL normalL_apply normals normals_eq)

/-! ## Specification -/

/-- Inverse of the Jacobian. -/
noncomputable def inv (g : Affine) : Fin 2 → Fin 2 → ℝ :=
  let det := g.J 0 0 * g.J 1 1 - g.J 0 1 * g.J 1 0
  ![![g.J 1 1 / det, -g.J 0 1 / det], ![-g.J 1 0 / det, g.J 0 0 / det]]

/-- Derivative at vertex `i` in local direction `a`. -/
noncomputable def derivL (i : Nat) (a : Fin 2) : MvPolynomial (Fin 2) ℝ →ₗ[ℝ] ℝ :=
  evalL (corner i) ∘ₗ (pderiv a).toLinearMap

/-- Second derivative at vertex `i` in local directions `a` and `b`. -/
noncomputable def deriv2L (i : Nat) (a b : Fin 2) : MvPolynomial (Fin 2) ℝ →ₗ[ℝ] ℝ :=
  evalL (corner i) ∘ₗ (pderiv a).toLinearMap ∘ₗ (pderiv b).toLinearMap

/-- Derivative at vertex `i` in global direction `d`, of a function given in local coordinates. -/
noncomputable def globalL (g : Affine) (i : Nat) (d : Fin 2) : MvPolynomial (Fin 2) ℝ →ₗ[ℝ] ℝ :=
  inv g 0 d • derivL i 0 + inv g 1 d • derivL i 1

/-- Second derivative at vertex `i` in global directions `d` and `e`, of a function given in local coordinates. -/
noncomputable def global2L (g : Affine) (i : Nat) (d e : Fin 2) : MvPolynomial (Fin 2) ℝ →ₗ[ℝ] ℝ :=
  (inv g 0 d * inv g 0 e) • deriv2L i 0 0 + (inv g 0 d * inv g 1 e) • deriv2L i 0 1
    + (inv g 1 d * inv g 0 e) • deriv2L i 1 0 + (inv g 1 d * inv g 1 e) • deriv2L i 1 1

/-- The functionals of vertex `i`. -/
noncomputable def vertexDof (g : Affine) (h : Nat → ℝ) (i k : Nat) : MvPolynomial (Fin 2) ℝ →ₗ[ℝ] ℝ :=
  if k = 0 then evalL (corner i)
  else if k = 1 then h i • globalL g i 0
  else if k = 2 then h i • globalL g i 1
  else if k = 3 then (h i * h i) • global2L g i 0 0
  else if k = 4 then (h i * h i) • global2L g i 0 1
  else (h i * h i) • global2L g i 1 1

/-- The functionals of the element. -/
noncomputable def dof (g : Affine) (h : Nat → ℝ) (o : Nat → Bool) (n : Nat) : MvPolynomial (Fin 2) ℝ →ₗ[ℝ] ℝ :=
  if n < 18 then vertexDof g h (n / 6) (n % 6) else sgn (o (n - 18)) • normalL g (n - 18)

theorem globalL_apply {g : Affine} (hg : g.Regular) (i : Fin 3) (p : MvPolynomial (Fin 2) ℝ) (df : Vec)
    (h : ∀ j, ∑ d, df d * g.J d j = eval (corner i) (pderiv j p)) (d : Fin 2) : df d = globalL g i d p := by
  unfold Affine.Regular at hg
  obtain ⟨D, hD⟩ : ∃ D, g.J 0 0 * g.J 1 1 - g.J 0 1 * g.J 1 0 = D := ⟨_, rfl⟩
  rw [hD] at hg
  have h0 := h 0
  have h1 := h 1
  simp only [Fin.sum_univ_two] at h0 h1
  simp only [globalL, derivL, inv, LinearMap.add_apply, LinearMap.smul_apply, LinearMap.comp_apply, evalL_apply,
    Derivation.coeFn_coe, smul_eq_mul, hD, ← h0, ← h1]
  fin_cases d <;> simp <;> field_simp <;> rw [← hD] <;> ring

theorem global2L_apply {g : Affine} (hg : g.Regular) (i : Fin 3) (p : MvPolynomial (Fin 2) ℝ) (Hf : Fin 2 → Fin 2 → ℝ)
    (h : ∀ a b, ∑ d, ∑ e, Hf d e * g.J d a * g.J e b = eval (corner i) (pderiv a (pderiv b p))) (d e : Fin 2) :
    Hf d e = global2L g i d e p := by
  unfold Affine.Regular at hg
  obtain ⟨D, hD⟩ : ∃ D, g.J 0 0 * g.J 1 1 - g.J 0 1 * g.J 1 0 = D := ⟨_, rfl⟩
  rw [hD] at hg
  have h00 := h 0 0
  have h01 := h 0 1
  have h10 := h 1 0
  have h11 := h 1 1
  simp only [Fin.sum_univ_two] at h00 h01 h10 h11
  simp only [global2L, deriv2L, inv, LinearMap.add_apply, LinearMap.smul_apply, LinearMap.comp_apply, evalL_apply,
    Derivation.coeFn_coe, smul_eq_mul, hD, ← h00, ← h01, ← h10, ← h11]
  fin_cases d <;> fin_cases e <;> simp <;> field_simp <;> rw [← hD] <;> ring

/-- `interpolate` evaluates the functionals. -/
theorem interpolate_eq {g : Affine} (hg : g.Regular) (h : Nat → ℝ) (o : Nat → Bool)
    (p : MvPolynomial (Fin 2) ℝ) (df : Vec → Vec) (Hf : Vec → Fin 2 → Fin 2 → ℝ)
    (hdf : ∀ (x : Vec) (j : Fin 2), ∑ d, df x d * g.J d j = eval x (pderiv j p))
    (hHf : ∀ (x : Vec) (a b : Fin 2), ∑ d, ∑ e, Hf x d e * g.J d a * g.J e b = eval x (pderiv a (pderiv b p))) :
    interpolate (bindGeometry g h o) (fun x => eval x p) df Hf = some ((List.range 21).map fun n => dof g h o n p) := by
  have k : ∀ i : Fin 3, df (midpointR i) 0 * (bindGeometry g h o).normals i 0 + df (midpointR i) 1 * (bindGeometry g h o).normals i 1
      = sgn (o i) * normalL g i p := by
    intro i
    rw [← normalL_apply hg i p (df (midpointR i)) (by simpa [Fin.sum_univ_two] using hdf (midpointR i)),
      show (bindGeometry g h o).normals = normals g o from rfl, normals_eq, normals_eq]
    ring
  have a : ∀ (i : Fin 3) d, df (corner i) d = globalL g i d p := fun i d => globalL_apply hg i p _ (hdf _) d
  have b : ∀ (i : Fin 3) d e, Hf (corner i) d e = global2L g i d e p := fun i d e => global2L_apply hg i p _ (hHf _) d e
  have k0 := k 0
  have k1 := k 1
  have k2 := k 2
  have a0 := a 0
  have a1 := a 1
  have a2 := a 2
  have b0 := b 0
  have b1 := b 1
  have b2 := b 2
  simp only [Fin.val_zero, Fin.val_one, Fin.val_two] at k0 k1 k2 a0 a1 a2 b0 b1 b2
  have e : interpolate (bindGeometry g h o) (fun x => eval x p) df Hf = some
      [eval (corner 0) p, df (corner 0) 0 * h 0, df (corner 0) 1 * h 0,
       Hf (corner 0) 0 0 * h 0 * h 0, Hf (corner 0) 0 1 * h 0 * h 0, Hf (corner 0) 1 1 * h 0 * h 0,
       eval (corner 1) p, df (corner 1) 0 * h 1, df (corner 1) 1 * h 1,
       Hf (corner 1) 0 0 * h 1 * h 1, Hf (corner 1) 0 1 * h 1 * h 1, Hf (corner 1) 1 1 * h 1 * h 1,
       eval (corner 2) p, df (corner 2) 0 * h 2, df (corner 2) 1 * h 2,
       Hf (corner 2) 0 0 * h 2 * h 2, Hf (corner 2) 0 1 * h 2 * h 2, Hf (corner 2) 1 1 * h 2 * h 2,
       df (midpointR 0) 0 * (bindGeometry g h o).normals 0 0 + df (midpointR 0) 1 * (bindGeometry g h o).normals 0 1,
       df (midpointR 1) 0 * (bindGeometry g h o).normals 1 0 + df (midpointR 1) 1 * (bindGeometry g h o).normals 1 1,
       df (midpointR 2) 0 * (bindGeometry g h o).normals 2 0 + df (midpointR 2) 1 * (bindGeometry g h o).normals 2 1] := by
    have key : ∀ ws : List (Nat × ℝ), ws.length = 21 → ws.map Prod.fst = List.range 21 →
        writeAll (List.replicate 21 0) ws = some (ws.map Prod.snd) := by
      intro ws h1 h2
      have := writeAll_eq ws 0 (by rw [h1, h2])
      rwa [h1] at this
    unfold interpolate
    rw [key _ (by simp) (by simp [List.range_succ])]
    simp [bindGeometry]
  rw [e, k0, k1, k2]
  simp [List.range_succ, dof, vertexDof, evalL_apply, a0, a1, a2, b0, b1, b2]
  constructorm* _ ∧ _ <;> ring

/-! ## Duality -/

theorem vertex_duality {g : Affine} (hg : g.Regular) (h : Nat → ℝ) (hh : ∀ i : Fin 3, h i ≠ 0) (o : Nat → Bool) (c : ℝ)
    (i : Fin 3) (k : Fin 6) (m : Fin 21) :
    vertexDof g h i k (shape c (bindGeometry g h o) m) = if m.val = 6 * i.val + k.val then 1 else 0 := by
  have hi := hh i
  unfold Affine.Regular at hg
  obtain ⟨D, hD⟩ : ∃ D, g.J 0 0 * g.J 1 1 - g.J 0 1 * g.J 1 0 = D := ⟨_, rfl⟩
  rw [hD] at hg
  have v := shape_value c (bindGeometry g h o) i m
  have d := fun d => shape_gradient c g h o i m d
  have s := fun d e => shape_hessian c g h o i m d e
  have h1 : m.val = 6 * i.val ∨ m.val = 6 * i.val + 1 ∨ m.val = 6 * i.val + 2 ∨ m.val = 6 * i.val + 3 ∨ m.val = 6 * i.val + 4
    ∨ m.val = 6 * i.val + 5 ∨ (m.val ≠ 6 * i.val ∧ m.val ≠ 6 * i.val + 1 ∧ m.val ≠ 6 * i.val + 2 ∧ m.val ≠ 6 * i.val + 3 ∧
      m.val ≠ 6 * i.val + 4 ∧ m.val ≠ 6 * i.val + 5) := by omega
  generalize shape c (bindGeometry g h o) m.val = q at *
  rcases h1 with h1 | h1 | h1 | h1 | h1 | h1 | h1
  case inr.inr.inr.inr.inr.inr =>
    obtain ⟨e0, e1, e2, e3, e4, e5⟩ := h1
    simp only [e0, e1, e2, e3, e4, e5, if_false, zero_div] at v d s
    rw [if_neg (by omega)]
    fin_cases k <;> simp [vertexDof, globalL, global2L, derivL, deriv2L, evalL_apply, v, d, s]
  all_goals
    simp [h1] at v d s ⊢
    fin_cases k <;> simp [vertexDof, globalL, global2L, derivL, deriv2L, inv, evalL_apply, v, d, s, hD] <;> field_simp <;>
      (try rw [← hD]) <;> ring

theorem b00 (g : Affine) (h : Nat → ℝ) (o : Nat → Bool) (i : Nat) : (bindGeometry g h o).b i 0 0 = bnn g i := by
  simp [bindGeometry, bnn, mul, tangent, rot]
  ring

theorem b10 (g : Affine) (h : Nat → ℝ) (o : Nat → Bool) (i : Nat) : (bindGeometry g h o).b i 1 0 = btn g i := by
  simp [bindGeometry, btn, mul, tangent, rot]
  ring

/-- The normal derivatives of the reference shape functions. -/
theorem normal_ref (g : Affine) (c : ℝ) (i : Fin 3) (m : Fin 21) : normalL g i (refPoly c m)
    = (bnn g i)⁻¹ * ((if m.val = 18 + i.val then kappa c i else 0)
      - btn g i / twoNorm (globalEdge g i) * castQ ℝ ((tangentialTable i)[m.val]?.getD 0)) := by
  have h1 := ref_tangential c i m
  have h2 := ref_normal c i m
  have h3 := refNorm_ne i
  simp only [normalL, LinearMap.smul_apply, LinearMap.sub_apply, smul_eq_mul, h1, h2]
  congr 2
  field_simp

/-- The share of the reference shape function number 20 in shape function `m`. -/
noncomputable def share (g : Affine) (h : Nat → ℝ) (o : Nat → Bool) (m : Nat) : ℝ :=
  outF (bindGeometry g h o) (fun j => if j = 20 then 1 else 0) m

set_option maxHeartbeats 4000000 in
theorem normal_duality {g : Affine} (hg : g.Regular) (h : Nat → ℝ) (hh : ∀ i : Fin 3, h i ≠ 0) (o : Nat → Bool) (c : ℝ)
    (i : Fin 3) (m : Fin 21) :
    normalL g i (shape c (bindGeometry g h o) m) = (if m.val = 18 + i.val then sgn (o i) else 0)
      + if i.val = 2 then (kappa c 2 - 1) * ((bnn g 2)⁻¹ * share g h o m) else 0 := by
  have n := globalNorm_ne hg i
  have b := bnn_ne hg i
  have h0 := hh 0
  have h1 := hh 1
  have h2 := hh 2
  simp only [Fin.val_zero, Fin.val_one, Fin.val_two] at h0 h1 h2
  rw [apply_shape c _ _ (fun m => (bnn g i)⁻¹ * ((if m = 18 + i.val then kappa c i else 0)
      - btn g i / twoNorm (globalEdge g i) * castQ ℝ ((tangentialTable i)[m]?.getD 0))) (normal_ref g c i)]
  have e := fun d => globalEdge_eq g i d
  have e0 := e 0
  have e1 := e 1
  rw [refEdge_eq] at e0 e1
  have bb0 := fun i => b00 g h o i
  have bb1 := fun i => b10 g h o i
  have fl : ∀ i, (bindGeometry g h o).l i = twoNorm (globalEdge g i) := fun _ => rfl
  have ft : ∀ i d, (bindGeometry g h o).t i d = globalEdge g i d / twoNorm (globalEdge g i) := fun _ _ => rfl
  have fJ : ∀ i, (bindGeometry g h o).J i = g.J := fun _ => rfl
  have fh : ∀ i, (bindGeometry g h o).h i = h i := fun _ => rfl
  have fo : ∀ i, (bindGeometry g h o).o i = o i := fun _ => rfl
  have ftau : ∀ i, (bindGeometry g h o).tau i = ![globalEdge g i 0 / twoNorm (globalEdge g i) * (globalEdge g i 0 / twoNorm (globalEdge g i)),
    2 * (globalEdge g i 0 / twoNorm (globalEdge g i)) * (globalEdge g i 1 / twoNorm (globalEdge g i)),
    globalEdge g i 1 / twoNorm (globalEdge g i) * (globalEdge g i 1 / twoNorm (globalEdge g i))] := fun _ => rfl
  have fth : ∀ i, (bindGeometry g h o).theta i = ![
      ![g.J 0 0 * g.J 0 0, g.J 0 0 * g.J 0 1, g.J 0 1 * g.J 0 1],
      ![2 * g.J 0 0 * g.J 1 0, g.J 0 0 * g.J 1 1 + g.J 0 1 * g.J 1 0, 2 * g.J 0 1 * g.J 1 1],
      ![g.J 1 0 * g.J 1 0, g.J 1 0 * g.J 1 1, g.J 1 1 * g.J 1 1]] := fun _ => rfl
  have hs : ∀ b, (if b = true then (-1 : ℝ) else 1) = sgn b := by intro b; rfl
  unfold share
  generalize bindGeometry g h o = fe at *
  fin_cases i
  · simp at e0 e1 n b
    obtain ⟨L, hL⟩ : ∃ L, twoNorm (globalEdge g 0) = L := ⟨_, rfl⟩
    rw [hL] at n
    fin_cases m <;> simp [outF, tangentialTable, kappa, castQ, bb0, bb1, fl, ft, fJ, fh, fo, ftau, fth, hs, e0, e1, hL, -mul_eq_zero, -mul_eq_mul_left_iff, -mul_eq_mul_right_iff, -inv_eq_zero] <;>
      field_simp <;> ring
  · simp at e0 e1 n b
    obtain ⟨L, hL⟩ : ∃ L, twoNorm (globalEdge g 1) = L := ⟨_, rfl⟩
    rw [hL] at n
    fin_cases m <;> simp [outF, tangentialTable, kappa, castQ, bb0, bb1, fl, ft, fJ, fh, fo, ftau, fth, hs, e0, e1, hL, -mul_eq_zero, -mul_eq_mul_left_iff, -mul_eq_mul_right_iff, -inv_eq_zero] <;>
      field_simp <;> ring
  · simp at e0 e1 n b
    obtain ⟨L, hL⟩ : ∃ L, twoNorm (globalEdge g 2) = L := ⟨_, rfl⟩
    rw [hL] at n
    generalize kappa c 2 = κ at *
    fin_cases m <;> simp [outF, tangentialTable, castQ, bb0, bb1, fl, ft, fJ, fh, fo, ftau, fth, hs, e0, e1, hL, -mul_eq_zero, -mul_eq_mul_left_iff, -mul_eq_mul_right_iff, -inv_eq_zero] <;>
      field_simp <;> ring

/-- The functionals applied to the shape functions, for any value of the constant. -/
theorem duality {g : Affine} (hg : g.Regular) (h : Nat → ℝ) (hh : ∀ i : Fin 3, h i ≠ 0) (o : Nat → Bool) (c : ℝ)
    (m n : Fin 21) :
    dof g h o n (shape c (bindGeometry g h o) m) = (if m = n then 1 else 0)
      + if n.val = 20 then (kappa c 2 - 1) * (sgn (o 2) * (bnn g 2)⁻¹ * share g h o m) else 0 := by
  unfold dof
  split
  case isTrue hn =>
    have := vertex_duality hg h hh o c ⟨n.val / 6, by omega⟩ ⟨n.val % 6, by omega⟩ m
    simp only [Nat.div_add_mod] at this
    rw [this, if_neg (show ¬ n.val = 20 by omega), add_zero]
    simp only [Fin.ext_iff]
  case isFalse hn =>
    have hi : n.val - 18 < 3 := by omega
    have := normal_duality hg h hh o c ⟨n.val - 18, hi⟩ m
    simp only [LinearMap.smul_apply, smul_eq_mul] at this ⊢
    rw [this]
    have hs : sgn (o (n.val - 18)) * sgn (o (n.val - 18)) = 1 := by cases o (n.val - 18) <;> norm_num [sgn]
    have h1 : (m.val = 18 + (n.val - 18)) ↔ m = n := by rw [Fin.ext_iff]; omega
    have h2 : (n.val - 18 = 2) ↔ n.val = 20 := by omega
    simp only [h1, h2]
    by_cases h3 : n.val = 20
    · simp only [h3, Nat.reduceSub, if_true] at hs ⊢
      split
      · linear_combination hs
      · ring
    · simp only [h3, if_false, add_zero]
      split <;> simp [hs]

/-! ## Theorems -/

theorem bind_eq {meshSizes : List ℝ} {sub : Nat → Nat} {orientations : List (Nat → Bool)} {index : Nat} {g : Affine} {fe : Bound}
    (hb : bind meshSizes sub orientations index g = some fe) (hpos : ∀ s ∈ meshSizes, s ≠ 0) :
    ∃ h o, fe = bindGeometry g h o ∧ (∀ i : Fin 3, h i ≠ 0) ∧ orientations[index]? = some o ∧
      ∀ i : Fin 3, meshSizes[sub i]? = some (h i) := by
  unfold bind at hb
  cases h0 : meshSizes[sub 0]? <;> simp only [h0, Option.bind_eq_bind, Option.bind_none, Option.bind_some, reduceCtorEq] at hb
  cases h1 : meshSizes[sub 1]? <;> simp only [h1, Option.bind_none, Option.bind_some, reduceCtorEq] at hb
  cases h2 : meshSizes[sub 2]? <;> simp only [h2, Option.bind_none, Option.bind_some, reduceCtorEq] at hb
  cases h3 : orientations[index]? <;> simp only [h3, Option.bind_none, Option.bind_some, reduceCtorEq, Option.pure_def,
    Option.some.injEq] at hb
  refine ⟨_, _, hb.symm, ?_, rfl, ?_⟩
  · intro i
    fin_cases i
    · exact hpos _ (List.mem_of_getElem? h0)
    · exact hpos _ (List.mem_of_getElem? h1)
    · exact hpos _ (List.mem_of_getElem? h2)
  · intro i
    fin_cases i
    · exact h0
    · exact h1
    · exact h2

/-- **C51, polynomials.** The values, Jacobians, Hessians and partial derivatives returned by the local basis of an Argyris
element are those of fixed polynomials. Derivatives of order three and more are refused by an exception. -/
theorem C51_polynomials (c : ℝ) (fe : Bound) :
    ∃ P : Nat → MvPolynomial (Fin 2) ℝ, ∀ x : Fin 2 → ℝ,
      evaluateFunction c fe x = some ((List.range 21).map fun m => eval x (P m)) ∧
      evaluateJacobian c fe x = some ((List.range 21).map fun m => fun i => eval x (pderiv i (P m))) ∧
      evaluateHessian c fe x = some ((List.range 21).map fun m => fun i j => eval x (pderiv i (pderiv j (P m)))) ∧
      ∀ order : Fin 2 → Nat, «partial» c fe order x =
        if ∑ k, order k ≤ 2 then .ok ((List.range 21).map fun m => eval x (deriv order (P m))) else .rangeError :=
  ⟨shape c fe, evaluate_eq c fe⟩

/-- `f` are the values, `df` and `Hf` the first and second derivatives with respect to global coordinates of shape function
`m` of the element. The derivatives returned by the local basis are those with respect to local coordinates. -/
structure IsShape (c : ℝ) (fe : Bound) (g : Affine) (m : Nat) (f : Vec → ℝ) (df : Vec → Vec) (Hf : Vec → Fin 2 → Fin 2 → ℝ) : Prop where
  value : ∀ x, ∃ values, evaluateFunction c fe x = some values ∧ values[m]? = some (f x)
  gradient : ∀ x, ∃ jacobians, evaluateJacobian c fe x = some jacobians ∧ jacobians[m]? = some fun j => ∑ d, df x d * g.J d j
  hessian : ∀ x, ∃ hessians, evaluateHessian c fe x = some hessians ∧
    hessians[m]? = some fun a b => ∑ d, ∑ e, Hf x d e * g.J d a * g.J e b

/-- The functionals applied to a shape function. -/
theorem interpolate_shape {g : Affine} (hg : g.Regular) (h : Nat → ℝ) (hh : ∀ i : Fin 3, h i ≠ 0) (o : Nat → Bool) (c : ℝ)
    {m : Nat} (hm : m < 21) {f : Vec → ℝ} {df : Vec → Vec} {Hf : Vec → Fin 2 → Fin 2 → ℝ}
    (hs : IsShape c (bindGeometry g h o) g m f df Hf) :
    interpolate (bindGeometry g h o) f df Hf = some ((List.range 21).map fun n => (if n = m then 1 else 0)
      + if n = 20 then (kappa c 2 - 1) * (sgn (o 2) * (bnn g 2)⁻¹ * share g h o m) else 0) := by
  set fe := bindGeometry g h o with hfe
  have hf' : f = fun x => eval x (shape c fe m) := by
    funext x
    obtain ⟨vs, h1, h2⟩ := hs.value x
    rw [(evaluate_eq c fe x).1] at h1
    cases h1
    simpa [hm] using h2.symm
  have hd : ∀ (x : Vec) (j : Fin 2), ∑ d, df x d * g.J d j = eval x (pderiv j (shape c fe m)) := by
    intro x j
    obtain ⟨vs, h1, h2⟩ := hs.gradient x
    rw [(evaluate_eq c fe _).2.1] at h1
    cases h1
    simp only [List.getElem?_map, List.getElem?_range hm, Option.map_some, Option.some.injEq] at h2
    exact (congrFun h2 j).symm
  have hd2 : ∀ (x : Vec) (a b : Fin 2), ∑ d, ∑ e, Hf x d e * g.J d a * g.J e b
      = eval x (pderiv a (pderiv b (shape c fe m))) := by
    intro x a b
    obtain ⟨vs, h1, h2⟩ := hs.hessian x
    rw [(evaluate_eq c fe _).2.2.1] at h1
    cases h1
    simp only [List.getElem?_map, List.getElem?_range hm, Option.map_some, Option.some.injEq] at h2
    exact (congrFun (congrFun h2 a) b).symm
  rw [hf', interpolate_eq hg h o _ df Hf hd hd2]
  congr 1
  apply List.map_congr_left
  intro n hn
  rw [List.mem_range] at hn
  have := duality hg h hh o c ⟨m, hm⟩ ⟨n, hn⟩
  simp only [Fin.ext_iff] at this
  rw [this]
  simp only [eq_comm]

/-- **C51.** Interpolation of a shape function of a bound Argyris element returns the corresponding unit vector, for every
non-degenerate triangle, every family of nonzero mesh sizes and every combination of edge orientations. -/
theorem C51 {meshSizes : List ℝ} {sub : Nat → Nat} {orientations : List (Nat → Bool)} {index : Nat} {g : Affine} {fe : Bound}
    (hb : bind meshSizes sub orientations index g = some fe) (hg : g.Regular) (hpos : ∀ s ∈ meshSizes, s ≠ 0)
    {c : ℝ} (hc : c = -8 * Real.sqrt 2) {m : Nat} (hm : m < 21)
    {f : Vec → ℝ} {df : Vec → Vec} {Hf : Vec → Fin 2 → Fin 2 → ℝ} (hs : IsShape c fe g m f df Hf) :
    interpolate fe f df Hf = some ((List.range 21).map fun n => if n = m then 1 else 0) := by
  obtain ⟨h, o, rfl, hh, -⟩ := bind_eq hb hpos
  rw [interpolate_shape hg h hh o c hm hs]
  have : kappa c 2 - 1 = 0 := by
    rw [kappa, if_pos rfl, hc]
    linear_combination (1 / 2) * Morley.sqrt2_sq
  simp [this]

/-- **C51, decimal constant.** With the constant of the code (argyrisbasis.hh:143), interpolation of shape function `m` returns
the unit vector, except for the last entry. This entry is wrong by the error of the constant, times the ratio of the
factors of the last reference shape function in shape functions `m` and 20. -/
theorem C51_constant {meshSizes : List ℝ} {sub : Nat → Nat} {orientations : List (Nat → Bool)} {index : Nat} {g : Affine}
    {fe : Bound} (hb : bind meshSizes sub orientations index g = some fe) (hg : g.Regular) (hpos : ∀ s ∈ meshSizes, s ≠ 0)
    {c : ℝ} (hc : c = -8 * 1.414213562373095) {m : Nat} (hm : m < 21)
    {f : Vec → ℝ} {df : Vec → Vec} {Hf : Vec → Fin 2 → Fin 2 → ℝ} (hs : IsShape c fe g m f df Hf) :
    ∃ last factors, interpolate fe f df Hf = some ((List.range 21).map fun n => if n = 20 then last else if n = m then 1 else 0) ∧
      transform fe (List.replicate 20 (0 : ℝ) ++ [1]) = some factors ∧
      |last - if m = 20 then 1 else 0| ≤ 1e-16 * |factors[m]?.getD 0 / factors[20]?.getD 0| := by
  obtain ⟨h, o, rfl, hh, -⟩ := bind_eq hb hpos
  refine ⟨(if m = 20 then 1 else 0) + (kappa c 2 - 1) * (sgn (o 2) * (bnn g 2)⁻¹ * share g h o m),
    (List.range 21).map (share g h o), ?_, ?_, ?_⟩
  · rw [interpolate_shape hg h hh o c hm hs]
    congr 1
    apply List.map_congr_left
    intro n _
    by_cases h5 : n = 20
    · subst h5
      simp only [if_true, eq_comm]
    · simp [h5]
  · have e : List.replicate 20 (0 : ℝ) ++ [1] = (List.range 21).map fun j => if j = 20 then 1 else 0 := by
      simp [List.range_succ, List.replicate]
    rw [e, transform_eq]
    rfl
  · rw [List.getElem?_map, List.getElem?_range hm, List.getElem?_map, List.getElem?_range (show 20 < 21 by omega),
      add_sub_cancel_left, abs_mul]
    simp only [Option.map_some, Option.getD_some]
    have e3 : share g h o 20 = bnn g 2 * sgn (o 2) := by
      simp [share, outF, b00, sgn, show (bindGeometry g h o).o = o from rfl]
    have e4 : sgn (o 2) * (bnn g 2)⁻¹ * share g h o m = share g h o m / share g h o 20 := by
      rw [e3]
      have := bnn_ne hg 2
      simp only [Fin.val_two] at this
      unfold sgn
      cases o 2 <;> simp <;> field_simp
    rw [e4]
    apply mul_le_mul_of_nonneg_right _ (abs_nonneg _)
    have l1 : (1.414213562373095 : ℝ) ≤ Real.sqrt 2 := Real.le_sqrt_of_sq_le (by norm_num)
    have l2 : Real.sqrt 2 ≤ 1.4142135623730951 := Real.sqrt_le_iff.2 ⟨by norm_num, by norm_num⟩
    rw [kappa, if_pos rfl, hc, abs_le]
    constructor <;> nlinarith [Morley.sqrt2_sq]

/-- Every exponent of degree at most five belongs to the monomial set. -/
theorem mem_exponents (e : List Nat) (h : e.length = 2 ∧ e.sum ≤ 5) : e ∈ E5 := by
  have h1 := (Verif.Analytic.all2 5).all e
  have h2 := Verif.Analytic.exponents2_eq 5
  have h3 : Verif.Analytic.exponents2 5 = some E5 := by decide
  rw [h2, Option.some.injEq] at h3
  rw [← h3]
  exact h1.2 h

/-- The shape functions in terms of monomials. -/
theorem shape_sum (c : ℝ) (fe : Bound) (m : Fin 21) : shape c fe m
    = ∑ j : Fin E5.length, outF fe (fun k => ((refBasis c).coefficients[k]?.getD [])[j.val]?.getD 0) m • mono ℝ 2 E5[j] := by
  let L : (Fin E5.length → ℝ) →ₗ[ℝ] MvPolynomial (Fin 2) ℝ :=
    ∑ j : Fin E5.length, (LinearMap.proj j : (Fin E5.length → ℝ) →ₗ[ℝ] ℝ).smulRight (mono ℝ 2 E5[j])
  have hL : ∀ v, L v = ∑ j, v j • mono ℝ 2 E5[j] := by
    intro v
    simp [L, LinearMap.sum_apply]
  let C : Nat → Fin E5.length → ℝ := fun k j => ((refBasis c).coefficients[k]?.getD [])[j.val]?.getD 0
  have h1 : ∀ k : Fin 21, L (C k) = refPoly c k := by
    intro k
    rw [hL, refPoly, RefBasis.poly, poly_sum]
    have := (rowsBasis_WF wf c).2
    apply this
    rw [List.getElem?_eq_getElem (by simp [refBasis, rowsBasis, rows])]
    exact List.getElem_mem _
  have h2 : shape c fe m = L (outF fe C m) := by
    rw [outF_map]
    exact outF_congr fe _ _ (fun j => (h1 j).symm) m
  rw [h2, hL]
  apply Finset.sum_congr rfl
  intro j _
  congr 1
  exact outF_map (LinearMap.proj j : (Fin E5.length → ℝ) →ₗ[ℝ] ℝ) fe C m

/-- **C51, reproduction.** If `p` is a polynomial of degree at most five and `df`, `Hf` are its derivatives with respect to
global coordinates, then the linear combination of the shape functions with the coefficients returned by `interpolate` is
`p`. -/
theorem C51_reproduction {meshSizes : List ℝ} {sub : Nat → Nat} {orientations : List (Nat → Bool)} {index : Nat} {g : Affine}
    {fe : Bound} (hb : bind meshSizes sub orientations index g = some fe) (hg : g.Regular) (hpos : ∀ s ∈ meshSizes, s ≠ 0)
    {c : ℝ} (hc : c = -8 * Real.sqrt 2) (p : MvPolynomial (Fin 2) ℝ) (hp : p.totalDegree ≤ 5)
    {df : Vec → Vec} {Hf : Vec → Fin 2 → Fin 2 → ℝ}
    (hdf : ∀ (x : Vec) (j : Fin 2), ∑ d, df x d * g.J d j = eval x (pderiv j p))
    (hHf : ∀ (x : Vec) (a b : Fin 2), ∑ d, ∑ e, Hf x d e * g.J d a * g.J e b = eval x (pderiv a (pderiv b p))) (x : Vec) :
    ∃ coefficients values, interpolate fe (fun x => eval x p) df Hf = some coefficients ∧
      evaluateFunction c fe x = some values ∧ coefficients.length = values.length ∧
      (List.zipWith (· * ·) coefficients values).sum = eval x p := by
  obtain ⟨h, o, rfl, hh, -⟩ := bind_eq hb hpos
  refine ⟨_, _, interpolate_eq hg h o p df Hf hdf hHf, (evaluate_eq c _ x).1, by simp, ?_⟩
  set fe := bindGeometry g h o with hfe
  have hc' : kappa c 2 - 1 = 0 := by
    rw [kappa, if_pos rfl, hc]
    linear_combination (1 / 2) * Morley.sqrt2_sq
  have key : (∑ n : Fin 21, eval x (shape c fe n) • dof g h o n) p = evalL x p := by
    apply linear_ext _ _ 5 _ p hp
    intro e h1 h2
    obtain ⟨j, hj, rfl⟩ := List.getElem_of_mem (mem_exponents e ⟨h1, h2⟩)
    have := reproduction (dim := 2) (E := E5) (shape c fe)
      (fun m j => outF fe (fun k => ((refBasis c).coefficients[k]?.getD [])[j.val]?.getD 0) m)
      (fun m => shape_sum c fe m) (dof g h o)
      (by
        intro m n
        have := duality hg h hh o c ⟨m.val, m.2⟩ ⟨n.val, n.2⟩
        simp only [hc', zero_mul, ite_self, add_zero, Fin.mk.injEq] at this
        rw [this]
        simp only [Fin.ext_iff, eq_comm]) ⟨j, hj⟩
    have h3 := congrArg (evalL x) this
    rw [map_sum] at h3
    simp only [LinearMap.sum_apply, LinearMap.smul_apply, smul_eq_mul]
    refine Eq.trans ?_ h3
    apply Finset.sum_congr rfl
    intro n _
    rw [map_smul, evalL_apply, smul_eq_mul, mul_comm]
    rfl
  rw [← evalL_apply, ← key]
  simp only [LinearMap.sum_apply, LinearMap.smul_apply, smul_eq_mul, List.zipWith_map, List.zipWith_self]
  rw [Fin.sum_univ_eq_sum_range (fun n => eval x (shape c fe n) * dof g h o n p)]
  simp only [mul_comm]
  rfl

/-! ## Examples -/

/-- A triangle with edges of length 3, 4 and 5. -/
def exampleTriangle : Affine := ⟨![7, -1], !![3, 0; 0, 4]⟩

theorem exampleTriangle_regular : exampleTriangle.Regular := by
  norm_num [Affine.Regular, exampleTriangle]

/-- Mesh sizes of four vertices, the vertices of the triangle are numbers 3, 0 and 2, edges 0 and 2 are oriented against the
default direction. -/
noncomputable def exampleBind : Option Bound :=
  bind [2, 5, 4, 3] (fun i => if i = 0 then 3 else if i = 1 then 0 else 2) [fun _ => false, fun i => i ≠ 1] 1 exampleTriangle

/-- The element can be bound, with the mesh sizes 3, 2 and 4. -/
example : ∃ fe, exampleBind = some fe ∧ fe.h 0 = 3 ∧ fe.h 1 = 2 ∧ fe.h 2 = 4 ∧ fe.o 0 = true ∧ fe.o 1 = false ∧ fe.o 2 = true :=
  ⟨_, rfl, rfl, rfl, rfl, rfl, rfl, rfl⟩

/-- Binding fails if a mesh size is missing. -/
example : bind [2, 5, 4] (fun i => if i = 0 then 3 else if i = 1 then 0 else 2) [fun _ => false, fun i => i ≠ 1] 1 exampleTriangle
    = none := rfl

/-- Shape functions exist, and their interpolation is the unit vector. -/
example {m : Nat} (hm : m < 21) : ∃ fe, exampleBind = some fe ∧ ∃ f df Hf, IsShape (-8 * Real.sqrt 2) fe exampleTriangle m f df Hf ∧
    interpolate fe f df Hf = some ((List.range 21).map fun n => if n = m then 1 else 0) := by
  obtain ⟨fe, hfe⟩ : ∃ fe, exampleBind = some fe := ⟨_, rfl⟩
  have h := evaluate_eq (-8 * Real.sqrt 2) fe
  have hs : IsShape (-8 * Real.sqrt 2) fe exampleTriangle m (fun x => eval x (shape (-8 * Real.sqrt 2) fe m))
      (fun x => ![eval x (pderiv 0 (shape (-8 * Real.sqrt 2) fe m)) / 3, eval x (pderiv 1 (shape (-8 * Real.sqrt 2) fe m)) / 4])
      (fun x => ![![eval x (pderiv 0 (pderiv 0 (shape (-8 * Real.sqrt 2) fe m))) / 9,
          eval x (pderiv 0 (pderiv 1 (shape (-8 * Real.sqrt 2) fe m))) / 12],
        ![eval x (pderiv 1 (pderiv 0 (shape (-8 * Real.sqrt 2) fe m))) / 12,
          eval x (pderiv 1 (pderiv 1 (shape (-8 * Real.sqrt 2) fe m))) / 16]]) := by
    refine ⟨fun x => ⟨_, (h x).1, by simp [hm]⟩, fun x => ⟨_, (h x).2.1, ?_⟩, fun x => ⟨_, (h x).2.2.1, ?_⟩⟩
    · simp only [List.getElem?_map, List.getElem?_range hm, Option.map_some, Option.some.injEq]
      funext j
      fin_cases j <;> simp [exampleTriangle, Fin.sum_univ_two]
    · simp only [List.getElem?_map, List.getElem?_range hm, Option.map_some, Option.some.injEq]
      funext a b
      fin_cases a <;> fin_cases b <;> simp [exampleTriangle, Fin.sum_univ_two] <;> ring
  exact ⟨fe, hfe, _, _, _, hs, C51 hfe exampleTriangle_regular (by intro s; simp; rintro (rfl | rfl | rfl | rfl) <;> norm_num)
    rfl hm hs⟩

/-- The theorem is not about the identity: shape function 7 of the triangle is not shape function 7 of the reference element,
its last coefficient does not vanish. -/
example : ∃ fe, exampleBind = some fe ∧ fe.J 1 0 0 = 3 ∧ fe.h 1 = 2 ∧ outF fe (fun j => if j = 7 then (1 : ℝ) else 0) 7 = 3 / 2 :=
  ⟨_, rfl, rfl, rfl, by
    simp [outF]
    norm_num [bindGeometry, exampleTriangle]⟩

end Verif.FE.Argyris

import Verif.FE.Conform

/-!
# Continuity of functions in the Hermite space

A coefficient vector of the global basis defines a function on each simplex. Two elements with a common vertex have the same value and
derivative there, two elements with a common facet have the same values on the facet.
-/

namespace Verif.FE.HermiteConform

open Verif.FE Verif.Mapper Verif.Lagrange Verif.FE.Hermite
open MvPolynomial (pderiv eval)

variable {E S : Type} {dim : Nat}

/-- An affine geometry. -/
structure Affine (dim : Nat) where
  origin : Fin dim → ℝ
  J : Matrix (Fin dim) (Fin dim) ℝ

/-- `geometry().global`. -/
def Affine.global (g : Affine dim) (x : Fin dim → ℝ) : Fin dim → ℝ := fun d => g.origin d + ∑ j, g.J d j * x j

/-! ## Model -/

/-- `geometry().volume()` of a simplex. -/
noncomputable def volume (g : Affine dim) : ℝ := |g.J.det| / (dim.factorial : ℝ)

/-- The member `averageVertexMeshSize_` of `CubicHermitePreBasis`, cubichermitebasis.hh:774, 780-783. -/
noncomputable def meshSizes (G : GridView E S) (geo : E → Affine dim) (elems : List E) : Option (List ℝ) :=
  MeshSize.averageMeshSize G MeshSize.vertexLayout (fun e => volume (geo e)) elems

/-- `CubicHermiteNode::bind`. -/
noncomputable def bindNode (G : GridView E S) (geo : E → Affine dim) (sizes : List ℝ) (e : E) : Option (Bound ℝ dim) :=
  Hermite.bind sizes (fun i => mapperIndex G MeshSize.vertexLayout (G.sub e dim i)) fun _ => (geo e).J

/-- discreteglobalbasisfunction.hh:619: the product with `jacobianInverse`. -/
noncomputable def timesInverse (g : Affine dim) (refJacobian : Fin dim → ℝ) : Fin dim → ℝ := fun d => ∑ j, refJacobian j * g.J⁻¹ j d

/-- The value at the local point `x` of element `e` of the discrete function with coefficients `vec`,
discreteglobalbasisfunction.hh:336-368. -/
noncomputable def value (reduced : Bool) (G : GridView E S) (geo : E → Affine dim) (elems : List E) (vec : Nat → ℝ) (e : E)
    (x : Fin dim → ℝ) : Option ℝ :=
  (meshSizes G geo elems).bind fun sizes => (bindNode G geo sizes e).bind fun fe => (hermiteKeys dim reduced).bind fun keys =>
    (evaluateFunction reduced fe x).map fun values => Conform.axpyAll (Conform.localDofs G (hermiteLayout dim reduced) keys vec e) values

/-- The derivative of the discrete function, discreteglobalbasisfunction.hh:583-627. -/
noncomputable def derivative (reduced : Bool) (G : GridView E S) (geo : E → Affine dim) (elems : List E) (vec : Nat → ℝ) (e : E)
    (x : Fin dim → ℝ) : Option (Fin dim → ℝ) :=
  (meshSizes G geo elems).bind fun sizes => (bindNode G geo sizes e).bind fun fe => (hermiteKeys dim reduced).bind fun keys =>
    (evaluateJacobian reduced fe x).map fun jacobians =>
      timesInverse (geo e) (Conform.axpyAll (Conform.localDofs G (hermiteLayout dim reduced) keys vec e) jacobians)

/-! ## Specification -/

/-- A conforming grid of non-degenerate simplices: equal vertex ids mean equal vertices, and equal vertices have equal positions. -/
structure AffineGrid (G : LGrid E S Nat) (geo : E → Affine dim) : Prop where
  ok : G.OK
  simplex : SimplexGrid G.toGridView
  dimEq : G.dim = dim
  idVertex : ∀ e e' (i i' : Fin (dim + 1)), G.ids e i = G.ids e' i' → G.sub e dim i = G.sub e' dim i'
  position : ∀ e e' (i i' : Fin (dim + 1)), G.sub e dim i = G.sub e' dim i' →
    (geo e).global (vertexK ℝ dim i) = (geo e').global (vertexK ℝ dim i')
  regular : ∀ e, (geo e).J.det ≠ 0

/-- The vertices of facet `i` of the reference simplex. -/
def facetVertex (dim i : Nat) (j : Fin dim) : Nat := ((subVerts (refOf (FE.simplex dim)) 1).getD i []).getD j 0

/-- `x` lies on facet `i` of the reference simplex (extended to a hyperplane): it is an affine combination of its vertices. -/
def OnFacet (dim i : Nat) (x : Fin dim → ℝ) : Prop :=
  ∃ t : Fin dim → ℝ, ∑ j, t j = 1 ∧ x = fun d => ∑ j, t j * vertexK ℝ dim (facetVertex dim i j) d

/-! ## Polynomials in global coordinates -/

/-- A polynomial in local coordinates as polynomial in global coordinates. -/
noncomputable def push (g : Affine dim) : MvPolynomial (Fin dim) ℝ →ₐ[ℝ] MvPolynomial (Fin dim) ℝ :=
  MvPolynomial.aeval fun j => ∑ d, MvPolynomial.C (g.J⁻¹ j d) * (MvPolynomial.X d - MvPolynomial.C (g.origin d))

theorem inv_mul {g : Affine dim} (hg : g.J.det ≠ 0) (j k : Fin dim) : ∑ d, g.J⁻¹ j d * g.J d k = if j = k then 1 else 0 := by
  have := Matrix.nonsing_inv_mul g.J (isUnit_iff_ne_zero.2 hg)
  have := congrFun (congrFun this j) k
  rwa [Matrix.mul_apply, Matrix.one_apply] at this

theorem mul_inv {g : Affine dim} (hg : g.J.det ≠ 0) (j k : Fin dim) : ∑ d, g.J j d * g.J⁻¹ d k = if j = k then 1 else 0 := by
  have := Matrix.mul_nonsing_inv g.J (isUnit_iff_ne_zero.2 hg)
  have := congrFun (congrFun this j) k
  rwa [Matrix.mul_apply, Matrix.one_apply] at this

theorem eval_push {g : Affine dim} (hg : g.J.det ≠ 0) (x : Fin dim → ℝ) (u : MvPolynomial (Fin dim) ℝ) :
    eval (g.global x) (push g u) = eval x u := by
  have h : (MvPolynomial.aeval (g.global x)).comp (push g) = MvPolynomial.aeval (R := ℝ) x := by
    apply MvPolynomial.algHom_ext
    intro j
    simp only [push, AlgHom.comp_apply, MvPolynomial.aeval_X, map_sum, map_mul, map_sub, MvPolynomial.aeval_C, Affine.global,
      Algebra.algebraMap_self, RingHom.id_apply, add_sub_cancel_left, Finset.mul_sum]
    rw [Finset.sum_comm]
    simp only [← mul_assoc, ← Finset.sum_mul, inv_mul hg]
    simp
  have := DFunLike.congr_fun h u
  simpa [MvPolynomial.coe_aeval_eq_eval] using this

theorem pderiv_push (g : Affine dim) (d : Fin dim) (u : MvPolynomial (Fin dim) ℝ) :
    pderiv d (push g u) = ∑ j, push g (pderiv j u) * MvPolynomial.C (g.J⁻¹ j d) := by
  rw [chain (push g) (pderiv d) u]
  apply Finset.sum_congr rfl
  intro j _
  congr 1
  simp only [push, MvPolynomial.aeval_X, map_sum, Derivation.leibniz, map_sub, MvPolynomial.pderiv_C, MvPolynomial.pderiv_X, smul_eq_mul,
    mul_zero, add_zero, sub_zero]
  rw [Finset.sum_eq_single d]
  · simp
  · intro b _ hb
    rw [Pi.single_eq_of_ne hb]
    simp
  · simp

theorem timesInverse_eq {g : Affine dim} (hg : g.J.det ≠ 0) (u : MvPolynomial (Fin dim) ℝ) (x : Fin dim → ℝ) :
    timesInverse g (fun i => eval x (pderiv i u)) = fun d => eval (g.global x) (pderiv d (push g u)) := by
  funext d
  simp only [timesInverse, pderiv_push, map_sum, map_mul, eval_push hg, MvPolynomial.eval_C]

/-- Substitution of affine polynomials does not increase the degree. -/
theorem totalDegree_subst {n m : Nat} (φ : MvPolynomial (Fin n) ℝ →ₐ[ℝ] MvPolynomial (Fin m) ℝ)
    (h : ∀ j, (φ (MvPolynomial.X j)).totalDegree ≤ 1) (u : MvPolynomial (Fin n) ℝ) : (φ u).totalDegree ≤ u.totalDegree := by
  rw [u.as_sum, map_sum]
  refine MvPolynomial.totalDegree_finsetSum_le fun e he => ?_
  rw [MvPolynomial.monomial_eq, map_mul, Finsupp.prod, map_prod]
  refine (MvPolynomial.totalDegree_mul _ _).trans ?_
  rw [show φ (MvPolynomial.C (MvPolynomial.coeff e u)) = MvPolynomial.C (MvPolynomial.coeff e u) from φ.commutes _,
    MvPolynomial.totalDegree_C, zero_add]
  refine (MvPolynomial.totalDegree_finsetProd _ _).trans ?_
  have : ∑ i ∈ e.support, (φ (MvPolynomial.X i ^ e i)).totalDegree ≤ ∑ i ∈ e.support, e i := by
    apply Finset.sum_le_sum
    intro i _
    rw [map_pow]
    refine (MvPolynomial.totalDegree_pow _ _).trans ?_
    have := Nat.mul_le_mul_left (e i) (h i)
    omega
  refine this.trans ?_
  have := MvPolynomial.le_totalDegree he
  rw [← u.as_sum]
  exact this

theorem totalDegree_affine {m : Nat} (c : Fin m → ℝ) (b : Fin m → ℝ) :
    (∑ d, MvPolynomial.C (c d) * (MvPolynomial.X d - MvPolynomial.C (b d)) : MvPolynomial (Fin m) ℝ).totalDegree ≤ 1 := by
  refine MvPolynomial.totalDegree_finsetSum_le fun d _ => ?_
  refine (MvPolynomial.totalDegree_mul _ _).trans ?_
  rw [MvPolynomial.totalDegree_C, zero_add]
  refine (MvPolynomial.totalDegree_sub _ _).trans ?_
  simp

theorem totalDegree_push (g : Affine dim) (u : MvPolynomial (Fin dim) ℝ) : (push g u).totalDegree ≤ u.totalDegree := by
  apply totalDegree_subst
  intro j
  rw [push, MvPolynomial.aeval_X]
  exact totalDegree_affine _ _

/-! ## Unisolvence on facets -/

/-- A cubic polynomial in one or two variables with vanishing degrees of freedom is zero. -/
theorem unisolvent {k : Nat} (hk : Exists k false) (q : MvPolynomial (Fin k) ℝ) (hq : q.totalDegree ≤ 3)
    (h0 : ∀ i : Fin (k + 1), eval (vertexK ℝ k i) q = 0) (h1 : ∀ (i : Fin (k + 1)) j, eval (vertexK ℝ k i) (pderiv j q) = 0)
    (h2 : ∀ t < nInner k false, eval (innerK ℝ k t) q = 0) (x : Fin k → ℝ) : eval x q = 0 := by
  have hb : ∃ fe : Bound ℝ k, Hermite.bind (List.replicate 1 (1 : ℝ)) (fun _ => 0) (fun _ => (1 : Matrix (Fin k) (Fin k) ℝ)) = some fe := by
    unfold Hermite.bind
    rw [dif_pos (by simp)]
    exact ⟨_, rfl⟩
  obtain ⟨fe, hb⟩ := hb
  obtain ⟨cs, vs, c1, c2, c3, c4⟩ := C49_reproduction hk hb (by simp) q hq (df := fun _ _ => 0) (by simp [h1]) x
  rw [← c4]
  rw [interpolate_eq hk] at c1
  injection c1 with c1
  have hz : ∀ c ∈ cs, c = 0 := by
    intro c hc
    rw [← c1] at hc
    simp only [List.mem_map] at hc
    obtain ⟨p, hp, rfl⟩ := hc
    simp only [writes, List.mem_append, List.mem_flatMap, List.mem_finRange, true_and, List.mem_cons, List.mem_map] at hp
    rcases hp with ⟨i, rfl | ⟨d, rfl⟩⟩ | hp
    · exact h0 i
    · simp
    · simp only [Bool.false_eq_true, if_false, List.mem_map, List.mem_range] at hp
      obtain ⟨t, ht, rfl⟩ := hp
      exact h2 t (by simpa [nInner] using ht)
  have : ∀ (cs vs : List ℝ), (∀ c ∈ cs, c = 0) → (List.zipWith (· * ·) cs vs).sum = 0 := by
    intro cs
    induction cs with
    | nil => simp
    | cons a cs ih =>
      intro vs hz
      cases vs with
      | nil => simp
      | cons v vs =>
        rw [List.zipWith_cons_cons, List.sum_cons, ih vs fun c hc => hz c (List.mem_cons_of_mem _ hc), hz a (by simp)]
        simp
  exact this cs vs hz

/-- The plane through `k + 1` points. -/
noncomputable def plane {k : Nat} (A : Fin (k + 1) → Fin dim → ℝ) : MvPolynomial (Fin dim) ℝ →ₐ[ℝ] MvPolynomial (Fin k) ℝ :=
  MvPolynomial.aeval fun d => MvPolynomial.C (A 0 d) + ∑ j, MvPolynomial.C (A j.succ d - A 0 d) * MvPolynomial.X j

theorem eval_plane {k : Nat} (A : Fin (k + 1) → Fin dim → ℝ) (y : Fin k → ℝ) (W : MvPolynomial (Fin dim) ℝ) :
    eval y (plane A W) = eval (fun d => A 0 d + ∑ j, (A j.succ d - A 0 d) * y j) W := by
  have h : (MvPolynomial.aeval y).comp (plane A) = MvPolynomial.aeval (R := ℝ) fun d => A 0 d + ∑ j, (A j.succ d - A 0 d) * y j := by
    apply MvPolynomial.algHom_ext
    intro d
    simp [plane]
  have := DFunLike.congr_fun h W
  simpa [MvPolynomial.coe_aeval_eq_eval] using this

theorem vertex_zero (k : Nat) : vertexK ℝ k 0 = 0 := by
  funext d
  simp [vertexK, vertex, castQ]

theorem vertex_succ (k : Nat) (i : Fin k) : vertexK ℝ k (i.val + 1) = fun d => if i = d then 1 else 0 := by
  funext d
  simp only [vertexK, vertex, castQ, Fin.ext_iff, Nat.add_right_cancel_iff]
  split <;> simp

theorem plane_vertex {k : Nat} (A : Fin (k + 1) → Fin dim → ℝ) (i : Fin (k + 1)) :
    (fun d => A 0 d + ∑ j, (A j.succ d - A 0 d) * vertexK ℝ k i j) = A i := by
  funext d
  refine Fin.cases ?_ (fun i => ?_) i
  · simp [vertex_zero]
  · simp [vertex_succ]

theorem plane_zero {k : Nat} (hk : Exists k false) (A : Fin (k + 1) → Fin dim → ℝ) (W : MvPolynomial (Fin dim) ℝ)
    (hW : W.totalDegree ≤ 3) (h0 : ∀ i, eval (A i) W = 0) (h1 : ∀ i d, eval (A i) (pderiv d W) = 0)
    (h2 : ∀ t < nInner k false, eval (fun d => A 0 d + ∑ j, (A j.succ d - A 0 d) * innerK ℝ k t j) W = 0) (y : Fin k → ℝ) :
    eval (fun d => A 0 d + ∑ j, (A j.succ d - A 0 d) * y j) W = 0 := by
  rw [← eval_plane]
  apply unisolvent hk
  · refine (totalDegree_subst _ ?_ W).trans hW
    intro d
    rw [plane, MvPolynomial.aeval_X]
    refine (MvPolynomial.totalDegree_add _ _).trans (max_le (by simp) ?_)
    refine MvPolynomial.totalDegree_finsetSum_le fun j _ => ?_
    refine (MvPolynomial.totalDegree_mul _ _).trans ?_
    rw [MvPolynomial.totalDegree_C, MvPolynomial.totalDegree_X]
  · intro i
    rw [eval_plane, plane_vertex, h0]
  · intro i j
    rw [chain (plane A) (pderiv j) W, map_sum]
    apply Finset.sum_eq_zero
    intro d _
    rw [map_mul, eval_plane, plane_vertex, h1, zero_mul]
  · intro t ht
    rw [eval_plane, h2 t ht]

theorem global_affine (g : Affine dim) {k : Nat} (v : Fin (k + 1) → Fin dim → ℝ) (t : Fin (k + 1) → ℝ) (ht : ∑ j, t j = 1) :
    g.global (fun d => ∑ j, t j * v j d) = fun d => g.global (v 0) d + ∑ j : Fin k, (g.global (v j.succ) d - g.global (v 0) d) * t j.succ := by
  funext d
  simp only [Affine.global, Finset.mul_sum]
  rw [Finset.sum_comm]
  rw [Fin.sum_univ_succ] at ht ⊢
  have ht0 : t 0 = 1 - ∑ j : Fin k, t j.succ := by linarith
  have e : ∀ j, ∑ x, g.J d x * (t j * v j x) = t j * ∑ x, g.J d x * v j x := by
    intro j
    rw [Finset.mul_sum]
    exact Finset.sum_congr rfl fun x _ => by ring
  simp only [e]
  rw [ht0]
  have e2 : ∀ j : Fin k, (g.origin d + ∑ x, g.J d x * v j.succ x - (g.origin d + ∑ x, g.J d x * v 0 x)) * t j.succ
      = t j.succ * ∑ x, g.J d x * v j.succ x - t j.succ * ∑ x, g.J d x * v 0 x := fun j => by ring
  simp only [e2, Finset.sum_sub_distrib, ← Finset.sum_mul]
  ring

/-! ## Shape functions -/

theorem totalDegree_mono (e : List Nat) (he : e.length = dim) : (Analytic.mono ℝ dim e).totalDegree ≤ e.sum := by
  unfold Analytic.mono
  refine (MvPolynomial.totalDegree_finsetProd _ _).trans ?_
  have h1 : ∀ j : Fin dim, (MvPolynomial.X j ^ (e[j.val]?.getD 0) : MvPolynomial (Fin dim) ℝ).totalDegree = e[j.val]?.getD 0 :=
    fun j => MvPolynomial.totalDegree_X_pow _ _
  simp only [h1]
  subst he
  have : (List.ofFn fun j : Fin e.length => e[j.val]?.getD 0) = e := by
    apply List.ext_getElem
    · simp
    · intro n h1 h2
      simp
  conv_rhs => rw [← this]
  rw [List.sum_ofFn]

theorem shapes {reduced : Bool} (h : Exists dim reduced) (fe : Bound ℝ dim) :
    ∃ P : Nat → MvPolynomial (Fin dim) ℝ, (∀ m, (P m).totalDegree ≤ 3) ∧ ∀ x : Fin dim → ℝ,
      evaluateFunction reduced fe x = some ((List.range (size dim reduced)).map fun m => eval x (P m)) ∧
      evaluateJacobian reduced fe x = some ((List.range (size dim reduced)).map fun m => fun i => eval x (pderiv i (P m))) := by
  obtain ⟨E, hE, hEx, hn, hall⟩ := h.all
  have hl : ((refBasis dim reduced).cast ℝ).coefficients.length = size dim reduced := by
    rw [← h.length]; simp [RefBasis.cast, refBasis]
  have hdeg : ∀ m, (((refBasis dim reduced).cast ℝ).poly dim E m).totalDegree ≤ 3 := by
    intro m
    unfold RefBasis.poly
    cases hm : ((refBasis dim reduced).cast ℝ).coefficients[m]? with
    | none => simp [FE.poly]
    | some c =>
      rw [Option.getD_some, poly_sum E c ((hE.cast (K := ℝ)).2 c (List.mem_of_getElem? hm))]
      refine MvPolynomial.totalDegree_finsetSum_le fun j _ => ?_
      refine (MvPolynomial.totalDegree_smul_le _ _).trans ?_
      obtain ⟨l1, l2⟩ := (hall E[j]).1 (List.getElem_mem _)
      exact (totalDegree_mono _ l1).trans l2
  refine ⟨(op fe).app (((refBasis dim reduced).cast ℝ).poly dim E), ?_, fun x => ?_⟩
  · intro m
    show MvPolynomial.totalDegree (R := ℝ) (σ := Fin dim) (outF fe.scaledJacobian _ m) ≤ 3
    unfold outF
    split
    · refine MvPolynomial.totalDegree_finsetSum_le fun j _ => ?_
      exact (MvPolynomial.totalDegree_smul_le _ _).trans (hdeg _)
    · exact hdeg _
  · have := RefBasis.transformed (hE.cast (K := ℝ)) (op fe) (fun {V} _ _ l => transform reduced fe l)
      (fun {V} _ _ g => by rw [hl]; exact transform_eq h fe g) x
    rw [hl] at this
    exact ⟨this.1, this.2.1⟩

/-- The function of an element in global coordinates: values and derivatives at the vertices, values at the inner points. -/
structure IsFunction (reduced : Bool) (g : Affine dim) (size : Nat → ℝ) (w : Nat → ℝ) (p : MvPolynomial (Fin dim) ℝ) : Prop where
  degree : p.totalDegree ≤ 3
  value : ∀ i : Fin (dim + 1), eval (g.global (vertexK ℝ dim i)) p = w ((dim + 1) * i)
  gradient : ∀ (i : Fin (dim + 1)) (d : Fin dim), eval (g.global (vertexK ℝ dim i)) (pderiv d p) = w ((dim + 1) * i + (d + 1)) / size i
  inner : ∀ t < nInner dim reduced, eval (g.global (innerK ℝ dim t)) p = w ((dim + 1) * (dim + 1) + t)

theorem isFunction {reduced : Bool} (h : Exists dim reduced) {g : Affine dim} (hg : g.J.det ≠ 0) (hs : Nat → ℝ) {fe : Bound ℝ dim}
    (hfe : ∀ i : Fin (dim + 1), ∀ a b, fe.scaledJacobian i a b = g.J a b / hs i) (w : Nat → ℝ) :
    ∃ p, IsFunction reduced g hs w p ∧ ∀ x,
      (evaluateFunction reduced fe x).map (Conform.axpyAll ((List.range (size dim reduced)).map w)) = some (eval (g.global x) p) ∧
      (evaluateJacobian reduced fe x).map (fun j => timesInverse g (Conform.axpyAll ((List.range (size dim reduced)).map w) j))
        = some fun d => eval (g.global x) (pderiv d p) := by
  obtain ⟨P, hdeg, hP⟩ := shapes h fe
  set u := Conform.combine (size dim reduced) w P with hu
  have hval : ∀ (i : Fin (dim + 1)) (m : Nat), m < size dim reduced → eval (vertexK ℝ dim i) (P m) = if m = i.val * (dim + 1) then 1 else 0 := by
    intro i m hm
    have := vertex_values h fe i
    rw [(hP _).1] at this
    injection this with this
    have := congrArg (fun l => l[m]?) this
    simpa [hm] using this
  have hgrad : ∀ (i : Fin (dim + 1)) (m : Nat), m < size dim reduced → ∀ d, eval (vertexK ℝ dim i) (pderiv d (P m))
      = ∑ k : Fin dim, (if m = i.val * (dim + 1) + 1 + k.val then (1 : ℝ) else 0) * fe.scaledJacobian i k d := by
    intro i m hm d
    have := vertex_gradients h fe i
    rw [(hP _).2] at this
    injection this with this
    have := congrArg (fun l => l[m]?) this
    simp only [List.getElem?_map, List.getElem?_range hm, Option.map_some, Option.some.injEq] at this
    exact congrFun this d
  have hinn : ∀ t < nInner dim reduced, ∀ m < size dim reduced, eval (innerK ℝ dim t) (P m) = if m = (dim + 1) * (dim + 1) + t then 1 else 0 := by
    intro t ht m hm
    have := inner_values h fe t ht
    rw [(hP _).1] at this
    injection this with this
    have := congrArg (fun l => l[m]?) this
    simpa [hm] using this
  have hsize : (dim + 1) * (dim + 1) + nInner dim reduced ≤ size dim reduced := by
    rcases h.cases with ⟨rfl, rfl⟩ | ⟨rfl, rfl⟩ | ⟨rfl, rfl⟩ | ⟨rfl, rfl⟩ <;> decide
  have hvert : ∀ (i : Fin (dim + 1)) (k : Nat), k < dim + 1 → (dim + 1) * i.val + k < size dim reduced := by
    intro i k hk
    have := Nat.mul_le_mul_left (dim + 1) (show i.val + 1 ≤ dim + 1 from i.2)
    rw [Nat.mul_add] at this
    omega
  refine ⟨push g u, ⟨?_, ?_, ?_, ?_⟩, ?_⟩
  · exact (totalDegree_push g u).trans (Conform.totalDegree_combine fun m _ => hdeg m)
  · intro i
    rw [eval_push hg]
    have := Conform.map_combine_dual (size dim reduced) w P (evalL (vertexK ℝ dim i)) ((dim + 1) * i) (by simpa using hvert i 0 (by omega))
      (fun m hm => by rw [evalL_apply, hval i m hm, Nat.mul_comm])
    rwa [evalL_apply] at this
  · intro i d
    have hloc : ∀ j, eval (vertexK ℝ dim i) (pderiv j u) = ∑ k : Fin dim, w ((dim + 1) * i + (k + 1)) * (g.J k j / hs i) := by
      intro j
      have := Conform.map_combine (size dim reduced) w P (evalL (vertexK ℝ dim i) ∘ₗ (pderiv j).toLinearMap)
      rw [LinearMap.comp_apply, evalL_apply] at this
      refine this.trans ?_
      simp only [LinearMap.comp_apply, evalL_apply, Derivation.coeFn_coe]
      rw [Finset.sum_congr rfl fun m hm => by rw [hgrad i m (Finset.mem_range.1 hm), Finset.mul_sum], Finset.sum_comm]
      refine Finset.sum_congr rfl fun k _ => ?_
      rw [Finset.sum_eq_single ((dim + 1) * i + (k + 1))]
      · rw [if_pos (by ring), one_mul, hfe]
      · intro m _ hm
        rw [if_neg (by intro hc; apply hm; rw [hc]; ring)]
        ring
      · intro hc
        exact absurd (Finset.mem_range.2 (hvert i (k + 1) (by omega))) hc
    rw [pderiv_push, map_sum]
    simp only [map_mul, eval_push hg, MvPolynomial.eval_C, hloc, Finset.sum_mul]
    rw [Finset.sum_comm]
    have e : ∀ k : Fin dim, ∑ j, w ((dim + 1) * i + (k + 1)) * (g.J k j / hs i) * g.J⁻¹ j d
        = w ((dim + 1) * i + (k + 1)) / hs i * if k = d then 1 else 0 := by
      intro k
      rw [← mul_inv hg k d, Finset.mul_sum]
      exact Finset.sum_congr rfl fun j _ => by ring
    simp only [e]
    simp
  · intro t ht
    rw [eval_push hg]
    have := Conform.map_combine_dual (size dim reduced) w P (evalL (innerK ℝ dim t)) ((dim + 1) * (dim + 1) + t) (by omega)
      (fun m hm => by rw [evalL_apply, hinn t ht m hm])
    rwa [evalL_apply] at this
  · intro x
    rw [(hP x).1, (hP x).2]
    refine ⟨?_, ?_⟩
    · rw [Option.map_some, Conform.eval_combine, eval_push hg]
    · rw [Option.map_some, Conform.jacobian_combine, timesInverse_eq hg]

/-! ## The grid -/

theorem facet_table (hd : dim = 1 ∨ dim = 2 ∨ dim = 3) (i : Fin (dim + 1)) :
    (subVerts (refOf (FE.simplex dim)) 1).getD i [] = List.ofFn (facetVertex dim i) ∧ i.val < (stdSubs (FE.simplex dim) 1).length ∧
    (stdSubs (FE.simplex dim) dim)[i.val]? = some ⟨0, 1⟩ ∧ (∀ j, facetVertex dim i j < dim + 1) ∧
    ∀ j j', facetVertex dim i j = facetVertex dim i j' → j = j' := by
  rcases hd with rfl | rfl | rfl <;> revert i <;> decide

/-- The vertices of a common facet. -/
theorem facet_vertices (hd : dim = 1 ∨ dim = 2 ∨ dim = 3) {G : LGrid E S Nat} {geo : E → Affine dim} (h : AffineGrid G geo) {e e' : E}
    {i i' : Fin (dim + 1)} (hs : G.sub e 1 i = G.sub e' 1 i') :
    ∃ σ : Fin dim → Fin dim, Function.Bijective σ ∧ ∀ j, G.ids e (facetVertex dim i j) = G.ids e' (facetVertex dim i' (σ j)) := by
  have geoE : ∀ e, G.elemGeo e = FE.simplex dim := fun e => by rw [h.simplex.simplices e, h.dimEq]
  have len : ∀ (e : E) (i : Fin (dim + 1)), i.val < (G.refSubs (G.elemGeo e) 1).length := by
    intro e i
    rw [h.ok.std, geoE]
    exact (facet_table hd i).2.1
  have vs : ∀ (e : E) (i : Fin (dim + 1)), G.verts e ⟨i, 1, 0⟩ = List.ofFn fun j => G.ids e (facetVertex dim i j) := by
    intro e i
    rw [LGrid.verts, geoE]
    simp only
    rw [(facet_table hd i).1, List.map_ofFn]
    rfl
  have hv := h.ok.vertsSame e ⟨i, 1, 0⟩ e' ⟨i', 1, 0⟩ (len e i) (len e' i') hs
  rw [vs, vs] at hv
  have : ∀ j, ∃ j', G.ids e (facetVertex dim i j) = G.ids e' (facetVertex dim i' j') := by
    intro j
    obtain ⟨j', hj'⟩ := (List.mem_ofFn' _ _).1 ((hv _).1 ((List.mem_ofFn' _ _).2 ⟨j, rfl⟩))
    exact ⟨j', hj'.symm⟩
  choose σ hσ using this
  refine ⟨σ, Finite.injective_iff_bijective.1 fun a b hab => ?_, hσ⟩
  have := (hσ a).trans ((congrArg (fun j => G.ids e' (facetVertex dim i' j)) hab).trans (hσ b).symm)
  obtain ⟨-, -, -, hlt, hinj⟩ := facet_table hd i
  exact hinj _ _ (h.ok.idsInj e _ _ (by rw [geoE]; exact hlt a) (by rw [geoE]; exact hlt b) this)

theorem keys_spec {reduced : Bool} (h : Exists dim reduced) :
    ∃ keys, hermiteKeys dim reduced = some keys ∧ (∀ i k : Fin (dim + 1), keys[(dim + 1) * i.val + k.val]? = some ⟨i, dim, k⟩) ∧
      (dim = 3 → ∀ i : Fin (dim + 1), keys[(dim + 1) * (dim + 1) + i.val]? = some ⟨i, 1, 0⟩) := by
  rcases h.cases with ⟨rfl, rfl⟩ | ⟨rfl, rfl⟩ | ⟨rfl, rfl⟩ | ⟨rfl, rfl⟩ <;>
    exact ⟨_, rfl, by decide +kernel, by decide +kernel⟩

theorem exists_dim {reduced : Bool} (h : Exists dim reduced) : dim = 1 ∨ dim = 2 ∨ dim = 3 := by
  rcases h.cases with ⟨rfl, rfl⟩ | ⟨rfl, rfl⟩ | ⟨rfl, rfl⟩ | ⟨rfl, rfl⟩ <;> simp

theorem setup {reduced : Bool} (hx : Exists dim reduced) {G : LGrid E S Nat} {geo : E → Affine dim} (h : AffineGrid G geo) (elems : List E)
    (hall : ∀ e, e ∈ elems) (hne : Nonempty E) (vec : Nat → ℝ) :
    ∃ (size : E → Nat → ℝ) (w : E → Nat → ℝ) (p : E → MvPolynomial (Fin dim) ℝ),
      (∀ e e' (a a' : Fin (dim + 1)), G.sub e dim a = G.sub e' dim a' → size e a = size e' a' ∧
        ∀ k : Fin (dim + 1), w e ((dim + 1) * a + k) = w e' ((dim + 1) * a' + k)) ∧
      (dim = 3 → ∀ e e' (i i' : Fin (dim + 1)), G.sub e 1 i = G.sub e' 1 i' →
        w e ((dim + 1) * (dim + 1) + i) = w e' ((dim + 1) * (dim + 1) + i')) ∧
      ∀ e, IsFunction reduced (geo e) (size e) (w e) (p e) ∧
        ∀ x, value reduced G.toGridView geo elems vec e x = some (eval ((geo e).global x) (p e)) ∧
          derivative reduced G.toGridView geo elems vec e x = some fun d => eval ((geo e).global x) (pderiv d (p e)) := by
  have hd := exists_dim hx
  have geoE : ∀ e, G.elemGeo e = FE.simplex dim := fun e => by rw [h.simplex.simplices e, h.dimEq]
  obtain ⟨r, m1, m2, -⟩ := MeshSize.C56 h.ok.base (by have := h.dimEq; omega) MeshSize.vertexLayout (fun e => volume (geo e)) elems hall
  obtain ⟨keys, k1, k2, k3⟩ := keys_spec hx
  obtain ⟨keys', k1', k4, num, -⟩ := C60_hermite h.simplex hne (by rw [h.dimEq]; exact hx)
  rw [h.dimEq, k1] at k1'
  injection k1' with k1'
  subst k1'
  rw [h.dimEq] at k4 num
  have hlt : ∀ e (i : Fin (dim + 1)), mapperIndex G.toGridView MeshSize.vertexLayout (G.sub e dim i) < r.length := by
    intro e i
    have := mapper_lt h.ok.base MeshSize.vertexLayout (G.sub e dim i) 0 (by
      rw [h.ok.base.subGeo e dim i ⟨0, 1⟩ (by rw [h.ok.std, geoE]; exact (facet_table hd i).2.2.1)]
      decide)
    omega
  set size : E → Nat → ℝ := fun e i => r.getD (mapperIndex G.toGridView MeshSize.vertexLayout (G.sub e dim i)) 0 with hsize
  have hb : ∀ e, ∃ fe, bindNode G.toGridView geo r e = some fe ∧
      ∀ (i : Fin (dim + 1)) (a b : Fin dim), fe.scaledJacobian i a b = (geo e).J a b / size e i := by
    intro e
    refine ⟨_, dif_pos (hlt e), fun i a b => ?_⟩
    simp only [hsize]
    rw [List.getD_eq_getElem?_getD, List.getElem?_eq_getElem (hlt e i), Option.getD_some]
  choose fe b1 b2 using hb
  have hp := fun e => isFunction hx (h.regular e) (size e) (b2 e) (Conform.coef G.toGridView (hermiteLayout dim reduced) keys vec e)
  choose p p1 p2 using hp
  refine ⟨size, Conform.coef G.toGridView (hermiteLayout dim reduced) keys vec, p, ?_, ?_, fun e => ⟨p1 e, fun x => ?_⟩⟩
  · intro e e' a a' hs
    exact ⟨by simp only [hsize]; rw [hs], fun k => Conform.coef_shared num vec (k2 a k) (k2 a' k) hs rfl⟩
  · intro h3 e e' i i' hs
    exact Conform.coef_shared num vec (k3 h3 i) (k3 h3 i') hs rfl
  · have hl : Conform.localDofs G.toGridView (hermiteLayout dim reduced) keys vec e
        = (List.range (Hermite.size dim reduced)).map (Conform.coef G.toGridView (hermiteLayout dim reduced) keys vec e) := by
      rw [Conform.localDofs_eq, k4]
      rfl
    have hm : meshSizes G.toGridView geo elems = some r := m1
    refine ⟨?_, ?_⟩
    · simp only [value, hm, b1, k1, Option.bind_some, hl]
      exact (p2 e x).1
    · simp only [derivative, hm, b1, k1, Option.bind_some, hl]
      exact (p2 e x).2

/-- **C62, vertices.** A discrete function with arbitrary coefficients in the Hermite space: all elements with a common vertex return the same
value and the same derivative there. -/
theorem C62_vertex {reduced : Bool} (hx : Exists dim reduced) {G : LGrid E S Nat} {geo : E → Affine dim} (h : AffineGrid G geo)
    (elems : List E) (hall : ∀ e, e ∈ elems) (vec : Nat → ℝ) {e e' : E} {a a' : Fin (dim + 1)} (hs : G.sub e dim a = G.sub e' dim a') :
    (∃ v, value reduced G.toGridView geo elems vec e (vertexK ℝ dim a) = some v ∧
      value reduced G.toGridView geo elems vec e' (vertexK ℝ dim a') = some v) ∧
    ∃ v, derivative reduced G.toGridView geo elems vec e (vertexK ℝ dim a) = some v ∧
      derivative reduced G.toGridView geo elems vec e' (vertexK ℝ dim a') = some v := by
  obtain ⟨size, w, p, s1, -, s3⟩ := setup hx h elems hall ⟨e⟩ vec
  obtain ⟨t1, t2⟩ := s1 e e' a a' hs
  refine ⟨⟨_, ((s3 e).2 _).1, ?_⟩, ⟨_, ((s3 e).2 _).2, ?_⟩⟩
  · rw [((s3 e').2 _).1, (s3 e).1.value, (s3 e').1.value]
    exact congrArg some (t2 0).symm
  · rw [((s3 e').2 _).2]
    refine congrArg some (funext fun d => ?_)
    rw [(s3 e).1.gradient, (s3 e').1.gradient, t1]
    have := t2 d.succ
    rw [Fin.val_succ] at this
    rw [this]

/-- The inner points of a tetrahedron are the centres of the facets. -/
theorem inner_centre (i : Fin 4) : innerK ℝ 3 i = fun d => ∑ j, (fun _ => 1 / 3) j * vertexK ℝ 3 (facetVertex 3 i j) d := by
  have key : ∀ (i : Fin 4) (d : Fin 3), innerPoint 3 i d = ∑ j, 1 / 3 * vertex 3 (facetVertex 3 i j) d := by decide +kernel
  funext d
  simp only [innerK, vertexK, key, castQ]
  push_cast
  rfl

/-- **C62, facets.** A discrete function with arbitrary coefficients in the Hermite space is continuous: at every common point of a
common facet the two elements return the same value. -/
theorem C62_facet {reduced : Bool} (hx : Exists dim reduced) {G : LGrid E S Nat} {geo : E → Affine dim} (h : AffineGrid G geo)
    (elems : List E) (hall : ∀ e, e ∈ elems) (vec : Nat → ℝ) {e e' : E} {i i' : Fin (dim + 1)} (hs : G.sub e 1 i = G.sub e' 1 i')
    {x x' : Fin dim → ℝ} (hon : OnFacet dim i x) (hxx : (geo e).global x = (geo e').global x') :
    ∃ v, value reduced G.toGridView geo elems vec e x = some v ∧ value reduced G.toGridView geo elems vec e' x' = some v := by
  obtain ⟨size, w, p, s1, s2, s3⟩ := setup hx h elems hall ⟨e⟩ vec
  have hd := exists_dim hx
  obtain ⟨σ, hσ, hids⟩ := facet_vertices hd h hs
  obtain ⟨-, -, -, hlt, -⟩ := facet_table hd i
  obtain ⟨-, -, -, hlt', -⟩ := facet_table hd i'
  have hsub : ∀ j, G.sub e dim (facetVertex dim i j) = G.sub e' dim (facetVertex dim i' (σ j)) := fun j =>
    h.idVertex e e' ⟨_, hlt j⟩ ⟨_, hlt' (σ j)⟩ (hids j)
  have hpos : ∀ j, (geo e).global (vertexK ℝ dim (facetVertex dim i j)) = (geo e').global (vertexK ℝ dim (facetVertex dim i' (σ j))) :=
    fun j => h.position e e' ⟨_, hlt j⟩ ⟨_, hlt' (σ j)⟩ (hsub j)
  refine ⟨_, ((s3 e).2 _).1, ?_⟩
  rw [((s3 e').2 _).1, ← hxx]
  congr 1
  have v0 : ∀ j, eval ((geo e).global (vertexK ℝ dim (facetVertex dim i j))) (p e - p e') = 0 := by
    intro j
    obtain ⟨t1, t2⟩ := s1 e e' ⟨_, hlt j⟩ ⟨_, hlt' (σ j)⟩ (hsub j)
    have a1 := (s3 e).1.value ⟨_, hlt j⟩
    have a2 := (s3 e').1.value ⟨_, hlt' (σ j)⟩
    simp only at a1 a2
    rw [map_sub, a1, hpos j, a2, sub_eq_zero]
    exact t2 0
  have v1 : ∀ j d, eval ((geo e).global (vertexK ℝ dim (facetVertex dim i j))) (pderiv d (p e - p e')) = 0 := by
    intro j d
    obtain ⟨t1, t2⟩ := s1 e e' ⟨_, hlt j⟩ ⟨_, hlt' (σ j)⟩ (hsub j)
    have a1 := (s3 e).1.gradient ⟨_, hlt j⟩ d
    have a2 := (s3 e').1.gradient ⟨_, hlt' (σ j)⟩ d
    simp only at a1 a2 t1 t2
    have := t2 d.succ
    rw [Fin.val_succ] at this
    rw [map_sub, map_sub, a1, hpos j, a2, sub_eq_zero, t1, this]
  have deg : (p e - p e').totalDegree ≤ 3 :=
    (MvPolynomial.totalDegree_sub _ _).trans (max_le (s3 e).1.degree (s3 e').1.degree)
  suffices hz : eval ((geo e).global x) (p e - p e') = 0 by
    rw [map_sub, sub_eq_zero] at hz
    exact hz.symm
  obtain ⟨t, ht, rfl⟩ := hon
  have step : ∀ (k : Nat) (hk : Exists k false) (hkd : k + 1 = dim),
      (∀ t < nInner k false, dim = 3 ∧ innerK ℝ k t = fun _ => 1 / 3) →
      eval ((geo e).global fun d => ∑ j, t j * vertexK ℝ dim (facetVertex dim i j) d) (p e - p e') = 0 := by
    intro k hk hkd hin
    subst hkd
    rw [global_affine (geo e) (fun j => vertexK ℝ (k + 1) (facetVertex (k + 1) i j)) t ht]
    refine plane_zero hk (fun j => (geo e).global (vertexK ℝ (k + 1) (facetVertex (k + 1) i j))) (p e - p e') deg v0 v1 ?_ fun j => t j.succ
    intro s hs'
    obtain ⟨h3, hc⟩ := hin s hs'
    obtain rfl : k = 2 := by omega
    rw [hc]
    have c1 := global_affine (geo e) (fun j => vertexK ℝ 3 (facetVertex 3 i j)) (fun _ => 1 / 3) (by simp)
    rw [← c1, ← inner_centre i, map_sub]
    have c2 : (geo e).global (innerK ℝ 3 i) = (geo e').global (innerK ℝ 3 i') := by
      have avg : ∀ (g : Affine 3) (v : Fin 3 → Fin 3 → ℝ), g.global (fun d => ∑ j, (fun _ => 1 / 3) j * v j d) = fun d => 1 / 3 * ∑ j, g.global (v j) d := by
        intro g v
        funext d
        simp only [Affine.global, Fin.sum_univ_three]
        ring
      rw [inner_centre, inner_centre, avg, avg]
      funext d
      congr 1
      refine Eq.trans (Finset.sum_congr rfl fun j _ => ?_)
        (hσ.sum_comp fun j => (geo e').global (vertexK ℝ 3 (facetVertex 3 i' j)) d)
      exact congrFun (hpos j) d
    have hr : nInner 3 reduced = 4 := by
      rcases hx.cases with ⟨h1, rfl⟩ | ⟨h1, rfl⟩ | ⟨h1, rfl⟩ | ⟨h1, rfl⟩ <;> first | rfl | omega
    have a1 := (s3 e).1.inner i (by rw [hr]; exact i.2)
    have a2 := (s3 e').1.inner i' (by rw [hr]; exact i'.2)
    rw [a1, c2, a2, s2 rfl e e' i i' hs, sub_self]
  rcases hd with rfl | rfl | rfl
  · have : (fun d => ∑ j, t j * vertexK ℝ 1 (facetVertex 1 i j) d) = vertexK ℝ 1 (facetVertex 1 i 0) := by
      funext d
      simp only [Finset.univ_unique, Finset.sum_singleton, Fin.default_eq_zero] at ht ⊢
      rw [ht, one_mul]
    rw [this]
    exact v0 0
  · exact step 1 (by decide) rfl (fun t ht => absurd ht (by simp [nInner]))
  · exact step 2 (by decide) rfl (fun t ht => ⟨rfl, by funext d; simp [innerK, innerPoint, castQ]⟩)

/-! ## Example -/

/-- The two triangles of `Conform.demoGeo`. -/
noncomputable def demoGeo (e : Fin 2) : Affine 2 := if e = 0 then ⟨![0, 0], !![1, 0; 0, 1]⟩ else ⟨![1, 1], !![-1, 0; 0, -1]⟩

theorem demo_affineGrid : AffineGrid demoGrid demoGeo where
  ok := demoGrid_OK
  simplex := demoGrid_simplex
  dimEq := rfl
  idVertex := by decide
  position := by
    have key : ∀ (e e' : Fin 2) (i i' : Fin 3), demoGrid.sub e 2 i = demoGrid.sub e' 2 i' →
        (e = e' ∧ i = i') ∨ (e = 0 ∧ e' = 1 ∧ i.val + i'.val = 3) ∨ (e = 1 ∧ e' = 0 ∧ i.val + i'.val = 3) := by decide
    intro e e' i i' hs
    rcases key e e' i i' hs with ⟨rfl, rfl⟩ | ⟨rfl, rfl, h⟩ | ⟨rfl, rfl, h⟩
    · rfl
    · fin_cases i <;> fin_cases i' <;> simp at h <;> funext d <;> fin_cases d <;>
        simp [demoGeo, Affine.global, Hermite.vertexK, Hermite.vertex, castQ]
    · fin_cases i <;> fin_cases i' <;> simp at h <;> funext d <;> fin_cases d <;>
        simp [demoGeo, Affine.global, Hermite.vertexK, Hermite.vertex, castQ]
  regular := by
    intro e
    fin_cases e <;> simp [demoGeo]

example (vec : Nat → ℝ) : ∃ v, value false demoGrid.toGridView demoGeo [0, 1] vec 0 ![1 / 4, 3 / 4] = some v ∧
    value false demoGrid.toGridView demoGeo [0, 1] vec 1 ![3 / 4, 1 / 4] = some v := by
  refine C62_facet (by decide) demo_affineGrid [0, 1] (by decide) vec (e := 0) (e' := 1) (i := 2) (i' := 2) (by decide) ?_ ?_
  · refine ⟨![1 / 4, 3 / 4], by simp [Fin.sum_univ_two]; norm_num, ?_⟩
    have f0 : facetVertex 2 2 0 = 1 := by decide
    have f1 : facetVertex 2 2 1 = 2 := by decide
    funext d
    fin_cases d <;> simp [Fin.sum_univ_two, f0, f1, Hermite.vertexK, Hermite.vertex, castQ]
  · funext d
    fin_cases d <;> simp [demoGeo, Affine.global, Fin.sum_univ_two] <;> norm_num

example (vec : Nat → ℝ) := C62_vertex (reduced := true) (by decide) demo_affineGrid [0, 1] (by decide) vec (e := 0) (e' := 1)
  (a := 1) (a' := 2) (by decide)

end Verif.FE.HermiteConform

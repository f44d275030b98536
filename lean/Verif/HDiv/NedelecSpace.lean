import Verif.HDiv.TangentialTrace
import Verif.HDiv.RTSpace
import Mathlib.LinearAlgebra.CrossProduct

/-!
# The space of Nédélec functions on simplices

The functions of the Nédélec basis (first kind, order 1) on a grid of triangles or tetrahedra are exactly the vector fields that have the form `p + A y` with an antisymmetric matrix
`A` on each element (`y` global coordinates) and whose tangential components are continuous. Gradients of continuous piecewise affine functions are Nédélec functions, and rotations of Nédélec
functions are Raviart–Thomas functions.
-/

namespace Verif.HDiv.Tangential

open Matrix Verif.Mapper Verif.Lagrange Verif.Piola
open Verif.HDiv.Trace (axpyAll foldl_axpy sum_single corner global)

variable {E S K : Type} [Field K] [LinearOrder K] [IsStrictOrderedRing K] {n : Nat}

/-! ## Specification -/

/-- A vector field, given in local coordinates, has the form `p + A y` in global coordinates `y`, with an antisymmetric matrix `A`. -/
def NedelecField (p0 : Vec K (n + 1)) (J : Mat K (n + 1)) (f : Vec K (n + 1) → Vec K (n + 1)) : Prop :=
  ∃ (p : Vec K (n + 1)) (A : Mat K (n + 1)), Aᵀ = -A ∧ ∀ x, f x = p + A *ᵥ global p0 J x

/-- The tangential components of the fields of two elements agree in all points and all directions of their common face. Points and directions are given by their weights at the
common vertices, see `C68_simplex`. -/
def TangentContinuous (G : GridView E S) (n : Nat) (pos : Nat → Vec K (n + 1)) (f : E → Vec K (n + 1) → Vec K (n + 1)) : Prop :=
  ∀ (e e' : E) (w τ : Nat → K), ∑ v ∈ Finset.range (n + 2), w (vertexIndex G e v) = 1 → ∑ v ∈ Finset.range (n + 2), w (vertexIndex G e' v) = 1 →
    ∑ v ∈ Finset.range (n + 2), τ (vertexIndex G e v) = 0 → ∑ v ∈ Finset.range (n + 2), τ (vertexIndex G e' v) = 0 →
    Supported G n e e' w → Supported G n e' e w → Supported G n e e' τ → Supported G n e' e τ →
    f e (localOf G n w e) ⬝ᵥ (∑ k ∈ Finset.range (n + 2), τ (vertexIndex G e k) • pos (vertexIndex G e k)) =
      f e' (localOf G n w e') ⬝ᵥ (∑ k ∈ Finset.range (n + 2), τ (vertexIndex G e' k) • pos (vertexIndex G e' k))

/-- A discrete function of the Nédélec basis with the elements of dune-localfunctions for triangles and tetrahedra. -/
abbrev nedelecValue (G : GridView E S) (fixed : Option Geo) (geo : E → Geometry K (n + 1)) (vec : Nat → K) (e : E) (x : Vec K (n + 1)) : Option (Vec K (n + 1)) :=
  value G fixed (fun _ bits => nedelecSimplex bits) (fun _ => simplexKeys (n + 1)) geo vec e x

/-- The index of the degree of freedom of edge `i` of the element `e`. -/
abbrev nedelecIndex (G : GridView E S) (e : E) (i : Nat) : Nat := mapperIndex G nedelecLayout (G.sub e (G.dim - 1) i)

/-- A grid of affine simplices for the Nédélec basis: `pos` are the positions of the vertices by their index. -/
structure Affine (G : GridView E S) (n : Nat) (pos : Nat → Vec K (n + 1)) (jac : E → Mat K (n + 1)) (geo : E → Geometry K (n + 1)) : Prop where
  columns : ∀ e (d j : Fin (n + 1)), jac e d j = pos (vertexIndex G e (j + 1)) d - pos (vertexIndex G e 0) d
  ok : ∀ e x, (geo e).OK (jac e) x

/-! ## Weights -/

omit [LinearOrder K] [IsStrictOrderedRing K] in
theorem simplices_n {G : GridView E S} {fixed : Option Geo} (h : Simplices G fixed n) : n = 1 ∨ n = 2 := by
  have := h.accepted.dim
  rw [h.dim] at this
  omega

theorem simplex_nv {G : GridView E S} {fixed : Option Geo} (h : Simplices G fixed n) (e : E) : (G.elemGeo e).nv = n + 2 := by
  rw [h.simplices]
  rfl

omit [LinearOrder K] [IsStrictOrderedRing K] in
/-- Weights with given values at the vertices of an element. -/
theorem exists_weights {G : GridView E S} {fixed : Option Geo} (h : Simplices G fixed n) (e : E) (g : Nat → K) :
    ∃ w : Nat → K, ∀ v < n + 2, w (vertexIndex G e v) = g v := by
  refine ⟨fun m => ∑ v ∈ Finset.range (n + 2), if vertexIndex G e v = m then g v else 0, fun v hv => ?_⟩
  simp only
  rw [Finset.sum_eq_single v]
  · simp
  · intro v' hv' hne
    rw [if_neg]
    intro hi
    exact hne (vertex_inj h.accepted e v' (by rw [simplex_nv h]; exact Finset.mem_range.1 hv') v (by rw [simplex_nv h]; exact hv) hi)
  · intro hv'
    exact absurd (Finset.mem_range.2 hv) hv'

omit [LinearOrder K] [IsStrictOrderedRing K] in
theorem sum_corners (g : Nat → K) : ∑ v ∈ Finset.range (n + 2), g v • corner K n v = fun j : Fin (n + 1) => g (j + 1) := by
  rw [Finset.sum_range_succ', Trace.corner_zero, smul_zero, add_zero, Finset.sum_range (n := n + 1)]
  exact Trace.sum_corner fun j : Fin (n + 1) => g (j + 1)

omit [LinearOrder K] [IsStrictOrderedRing K] in
/-- Every local point is given by weights. -/
theorem exists_point {G : GridView E S} {fixed : Option Geo} (h : Simplices G fixed n) (e : E) (s : K) (x : Vec K (n + 1)) :
    ∃ w : Nat → K, ∑ v ∈ Finset.range (n + 2), w (vertexIndex G e v) = s ∧ localOf G n w e = x := by
  obtain ⟨w, hw⟩ := exists_weights h e fun v => if hv : v - 1 < n + 1 then (if v = 0 then s - ∑ j, x j else x ⟨v - 1, hv⟩) else 0
  refine ⟨w, ?_, ?_⟩
  · rw [Finset.sum_congr rfl fun v hv => hw v (Finset.mem_range.1 hv), Finset.sum_range_succ', Finset.sum_range (n := n + 1)]
    simp [Nat.lt_succ_iff.1 (Fin.isLt _)]
  · rw [localOf, Finset.sum_congr rfl fun v hv => by rw [hw v (Finset.mem_range.1 hv)], sum_corners]
    funext j
    simp [Nat.lt_succ_iff.1 (Fin.isLt j)]

omit [LinearOrder K] [IsStrictOrderedRing K] in
/-- The position of a point given by weights. -/
theorem global_localOf {G : GridView E S} {jac : E → Mat K (n + 1)} {pos : Nat → Vec K (n + 1)}
    (hjac : ∀ e (d j : Fin (n + 1)), jac e d j = pos (vertexIndex G e (j + 1)) d - pos (vertexIndex G e 0) d) (e : E) (w : Nat → K)
    (hw : ∑ v ∈ Finset.range (n + 2), w (vertexIndex G e v) = 1) :
    global (pos (vertexIndex G e 0)) (jac e) (localOf G n w e) = ∑ v ∈ Finset.range (n + 2), w (vertexIndex G e v) • pos (vertexIndex G e v) := by
  have key : ∀ v, v < n + 2 → jac e *ᵥ corner K n v = pos (vertexIndex G e v) - pos (vertexIndex G e 0) := by
    intro v hv
    have := Trace.jac_corner (p := fun v => pos (vertexIndex G e v)) (hjac e) v 0 hv (by omega)
    rwa [Trace.corner_zero, sub_zero] at this
  rw [global, localOf, Matrix.mulVec_sum]
  rw [Finset.sum_congr rfl fun v hv => by
    rw [Matrix.mulVec_smul, key v (Finset.mem_range.1 hv), smul_sub]]
  rw [Finset.sum_sub_distrib, ← Finset.sum_smul, hw, one_smul]
  abel

/-- Component of the field `p + A y` in the point `P` along the vector to `Q`. -/
def moment (p : Vec K (n + 1)) (A : Mat K (n + 1)) (P Q : Vec K (n + 1)) : K := (p + A *ᵥ P) ⬝ᵥ (Q - P)

theorem moment_swap (p : Vec K (n + 1)) {A : Mat K (n + 1)} (hA : Aᵀ = -A) (P Q : Vec K (n + 1)) : moment p A Q P = -moment p A P Q := by
  have hz : ∀ z : Vec K (n + 1), (A *ᵥ z) ⬝ᵥ z = 0 := by
    intro z
    have : (A *ᵥ z) ⬝ᵥ z = -((A *ᵥ z) ⬝ᵥ z) := by
      conv_lhs => rw [dotProduct_comm, Matrix.dotProduct_mulVec, ← Matrix.mulVec_transpose, hA, Matrix.neg_mulVec, neg_dotProduct]
    linarith
  have := hz (Q - P)
  rw [Matrix.mulVec_sub, sub_dotProduct] at this
  rw [moment, moment, ← neg_sub Q P, dotProduct_neg, add_dotProduct, add_dotProduct]
  linear_combination -this

omit [LinearOrder K] [IsStrictOrderedRing K] in
/-- A field `p + A y` in terms of its components along the connections of vertices. -/
theorem field_sum (m : Nat) (p : Vec K (n + 1)) (A : Mat K (n + 1)) (P : Nat → Vec K (n + 1)) (w τ : Nat → K) (hw : ∑ v ∈ Finset.range m, w v = 1)
    (hτ : ∑ v ∈ Finset.range m, τ v = 0) :
    (p + A *ᵥ ∑ v ∈ Finset.range m, w v • P v) ⬝ᵥ (∑ v ∈ Finset.range m, τ v • P v) =
      ∑ a ∈ Finset.range m, ∑ b ∈ Finset.range m, w a * τ b * moment p A (P a) (P b) := by
  have h1 : p + A *ᵥ ∑ v ∈ Finset.range m, w v • P v = ∑ a ∈ Finset.range m, w a • (p + A *ᵥ P a) := by
    simp only [smul_add, Finset.sum_add_distrib, ← Finset.sum_smul, hw, one_smul, Matrix.mulVec_sum, Matrix.mulVec_smul]
  rw [h1, sum_dotProduct]
  refine Finset.sum_congr rfl fun a _ => ?_
  have h2 : ∑ v ∈ Finset.range m, τ v • P v = ∑ v ∈ Finset.range m, τ v • (P v - P a) := by
    simp only [smul_sub, Finset.sum_sub_distrib, ← Finset.sum_smul, hτ, zero_smul, sub_zero]
  rw [h2, dotProduct_sum]
  refine Finset.sum_congr rfl fun b _ => ?_
  rw [smul_dotProduct, dotProduct_smul, smul_eq_mul, smul_eq_mul, moment, mul_assoc]

omit [LinearOrder K] [IsStrictOrderedRing K] in
/-- A sum over all pairs of vertices as a sum over edges. -/
theorem pairs_edges {n : Nat} (hn : n = 1 ∨ n = 2) (W : Nat → Nat → K) (h0 : ∀ a, W a a = 0) (hs : ∀ a b, W b a = -W a b) (w τ : Nat → K) :
    ∑ a ∈ Finset.range (n + 2), ∑ b ∈ Finset.range (n + 2), w a * τ b * W a b =
      ∑ i : Fin (simplexEdges (n + 1)).length, W (simplexEdges (n + 1))[i].1 (simplexEdges (n + 1))[i].2 *
        (w (simplexEdges (n + 1))[i].1 * τ (simplexEdges (n + 1))[i].2 - w (simplexEdges (n + 1))[i].2 * τ (simplexEdges (n + 1))[i].1) := by
  rw [← List.sum_ofFn]
  rcases hn with rfl | rfl
  · rw [show (List.ofFn fun i : Fin (simplexEdges (1 + 1)).length => W (simplexEdges (1 + 1))[i].1 (simplexEdges (1 + 1))[i].2 *
        (w (simplexEdges (1 + 1))[i].1 * τ (simplexEdges (1 + 1))[i].2 - w (simplexEdges (1 + 1))[i].2 * τ (simplexEdges (1 + 1))[i].1)) =
        (simplexEdges (1 + 1)).map fun p => W p.1 p.2 * (w p.1 * τ p.2 - w p.2 * τ p.1) from by rw [← List.ofFn_getElem_eq_map]; rfl]
    simp only [simplexEdges, simplexOf, refOf, triangle, Finset.sum_range_succ, Finset.sum_range_zero]
    simp only [h0, hs 0 1, hs 0 2, hs 1 2]
    simp
    ring
  · rw [show (List.ofFn fun i : Fin (simplexEdges (2 + 1)).length => W (simplexEdges (2 + 1))[i].1 (simplexEdges (2 + 1))[i].2 *
        (w (simplexEdges (2 + 1))[i].1 * τ (simplexEdges (2 + 1))[i].2 - w (simplexEdges (2 + 1))[i].2 * τ (simplexEdges (2 + 1))[i].1)) =
        (simplexEdges (2 + 1)).map fun p => W p.1 p.2 * (w p.1 * τ p.2 - w p.2 * τ p.1) from by rw [← List.ofFn_getElem_eq_map]; rfl]
    simp only [simplexEdges, simplexOf, refOf, tetrahedron, Finset.sum_range_succ, Finset.sum_range_zero]
    simp only [h0, hs 0 1, hs 0 2, hs 1 2, hs 0 3, hs 1 3, hs 2 3]
    simp
    ring

omit [LinearOrder K] [IsStrictOrderedRing K] in
/-- Vectors with equal components in the directions `J t` are equal. -/
theorem eq_of_components {J : Mat K (n + 1)} (hJ : J.det ≠ 0) {u v : Vec K (n + 1)} (h : ∀ t, u ⬝ᵥ (J *ᵥ t) = v ⬝ᵥ (J *ᵥ t)) : u = v := by
  have hs : ∀ s, u ⬝ᵥ s = v ⬝ᵥ s := by
    intro s
    have := h (J⁻¹ *ᵥ s)
    rwa [Matrix.mulVec_mulVec, Matrix.mul_nonsing_inv _ (isUnit_iff_ne_zero.2 hJ), Matrix.one_mulVec] at this
  funext j
  simpa using hs (Pi.single j 1)

/-- The edges of an element with the indices of their vertices. -/
theorem edge_vertices {G : GridView E S} {fixed : Option Geo} (h : Simplices G fixed n) (e : E) (i : Fin (simplexEdges (n + 1)).length) :
    (simplexEdges (n + 1))[i].1 < n + 2 ∧ (simplexEdges (n + 1))[i].2 < n + 2 ∧
      vertexIndex G e (simplexEdges (n + 1))[i].1 ≠ vertexIndex G e (simplexEdges (n + 1))[i].2 ∧
      (refOf (G.elemGeo e)).edges[i.val]? = some ((simplexEdges (n + 1))[i].1, (simplexEdges (n + 1))[i].2) := by
  have he : (refOf (G.elemGeo e)).edges[i.val]? = some ((simplexEdges (n + 1))[i].1, (simplexEdges (n + 1))[i].2) := by
    rw [h.simplices]
    exact List.getElem?_eq_getElem i.2
  obtain ⟨ha, hb, hne⟩ := edge_lt h.accepted e he
  refine ⟨?_, ?_, fun hi => hne (vertex_inj h.accepted e _ ha _ hb hi), he⟩
  · rw [simplex_nv h] at ha
    exact ha
  · rw [simplex_nv h] at hb
    exact hb

/-- If the coefficients of the edges of an element are the components of a field `p + A y`, then the discrete function is this field. -/
theorem realizes {G : GridView E S} {fixed : Option Geo} (h : Simplices G fixed n) {pos : Nat → Vec K (n + 1)} {jac : E → Mat K (n + 1)} {geo : E → Geometry K (n + 1)}
    (hG : Affine G n pos jac geo) (e : E) (p : Vec K (n + 1)) {A : Mat K (n + 1)} (hA : Aᵀ = -A) (vec : Nat → K)
    (hvec : ∀ i : Fin (simplexEdges (n + 1)).length, vec (nedelecIndex G e i) =
      moment p A (pos (min (vertexIndex G e (simplexEdges (n + 1))[i].1) (vertexIndex G e (simplexEdges (n + 1))[i].2)))
        (pos (max (vertexIndex G e (simplexEdges (n + 1))[i].1) (vertexIndex G e (simplexEdges (n + 1))[i].2)))) (x : Vec K (n + 1)) :
    nedelecValue G fixed geo vec e x = some (p + A *ᵥ global (pos (vertexIndex G e 0)) (jac e) x) := by
  obtain ⟨w, hw, rfl⟩ := exists_point h e 1 x
  obtain ⟨bits, hbits, -, -⟩ := bits_spec h.accepted e
  have hval : ∃ v, nedelecValue G fixed geo vec e (localOf G n w e) = some v := ⟨_, by rw [nedelecValue, value, hbits]; rfl⟩
  obtain ⟨v, hv⟩ := hval
  rw [hv, Option.some.injEq]
  refine eq_of_components (hG.ok e (localOf G n w e)).nondeg fun t => ?_
  obtain ⟨τ, hτ, rfl⟩ := exists_point h e 0 t
  obtain ⟨v', h1, h2⟩ := simplex_value h e w τ vec (hG.ok e _) hw hτ
  obtain rfl : v = v' := Option.some.inj (hv.symm.trans h1)
  rw [h2, global_localOf hG.columns e w hw, localOf_transform hG.columns e τ hτ,
    field_sum (n + 2) p A (fun v => pos (vertexIndex G e v)) (fun v => w (vertexIndex G e v)) (fun v => τ (vertexIndex G e v)) hw hτ,
    pairs_edges (simplices_n h) (fun a b => moment p A (pos (vertexIndex G e a)) (pos (vertexIndex G e b))) (fun a => by simp [moment]) (fun a b => moment_swap p hA _ _)]
  refine Finset.sum_congr rfl fun i _ => ?_
  obtain ⟨-, -, hne, -⟩ := edge_vertices h e i
  rw [edgeTerm, hvec]
  rcases Nat.lt_or_gt_of_ne hne with hlt | hlt
  · rw [min_eq_left hlt.le, max_eq_right hlt.le]
  · rw [min_eq_right hlt.le, max_eq_left hlt.le, moment_swap p hA]
    ring

omit [LinearOrder K] [IsStrictOrderedRing K] in
theorem bary_affine (v : Nat) (x : Vec K (n + 1)) : bary v x = bary v (0 : Vec K (n + 1)) + gradBary K (n + 1) v ⬝ᵥ x := by
  rw [bary, bary, dotProduct]
  split
  · next h => simp [gradBary, h, sub_eq_add_neg]
  · next h => simp [gradBary, h]

omit [IsStrictOrderedRing K] in
/-- The function of an element has the form `p + A y`. -/
theorem nedelecField {G : GridView E S} {fixed : Option Geo} (h : Simplices G fixed n) {pos : Nat → Vec K (n + 1)} {jac : E → Mat K (n + 1)} {geo : E → Geometry K (n + 1)}
    (hG : Affine G n pos jac geo) (vec : Nat → K) (e : E) :
    ∃ f, NedelecField (pos (vertexIndex G e 0)) (jac e) f ∧ ∀ x, nedelecValue G fixed geo vec e x = some (f x) := by
  obtain ⟨bits, hbits, -, -⟩ := bits_spec h.accepted e
  refine ⟨fun x => axpyAll (((mapperLeaf G nedelecLayout fun _ => simplexKeys (n + 1)).loc e).map vec) ((globalValued .co (geo e) (nedelecSimplex bits)).eval x), ?_,
    fun x => by rw [nedelecValue, value, hbits]; rfl⟩
  have hdet : IsUnit (jac e).det := isUnit_iff_ne_zero.2 (hG.ok e 0).nondeg
  set g := gradBary K (n + 1)
  let k : Fin (simplexEdges (n + 1)).length → K := fun i => vec (nedelecIndex G e i) * if bits.testBit i then (-1 : K) else 1
  let a : Fin (simplexEdges (n + 1)).length → Nat := fun i => (simplexEdges (n + 1))[i].1
  let b : Fin (simplexEdges (n + 1)).length → Nat := fun i => (simplexEdges (n + 1))[i].2
  let c : Vec K (n + 1) := ∑ i, k i • (bary (a i) (0 : Vec K (n + 1)) • g (b i) - bary (b i) (0 : Vec K (n + 1)) • g (a i))
  let B : Mat K (n + 1) := ∑ i, k i • (Matrix.vecMulVec (g (b i)) (g (a i)) - Matrix.vecMulVec (g (a i)) (g (b i)))
  have hB : Bᵀ = -B := by
    simp only [B, Matrix.transpose_sum, Matrix.transpose_smul, Matrix.transpose_sub, Matrix.transpose_vecMulVec, ← Finset.sum_neg_distrib, ← smul_neg, neg_sub]
  have hval : ∀ x, axpyAll (((mapperLeaf G nedelecLayout fun _ => simplexKeys (n + 1)).loc e).map vec) ((globalValued .co (geo e) (nedelecSimplex bits)).eval x) =
      ((jac e)⁻¹)ᵀ *ᵥ (c + B *ᵥ x) := by
    intro x
    have h1 : c + B *ᵥ x = ∑ i, k i • (bary (a i) x • g (b i) - bary (b i) x • g (a i)) := by
      simp only [c, B, Matrix.sum_mulVec, Matrix.smul_mulVec, Matrix.sub_mulVec, ← Finset.sum_add_distrib, ← smul_add]
      refine Finset.sum_congr rfl fun i _ => ?_
      rw [Matrix.vecMulVec_mulVec, Matrix.vecMulVec_mulVec, bary_affine (a i) x, bary_affine (b i) x]
      congr 1
      funext j
      simp [g]
      ring
    rw [h1, axpyAll, foldl_axpy, zero_add, Matrix.mulVec_sum, ← List.sum_ofFn]
    congr 1
    apply List.ext_getElem
    · simp [mapperLeaf, globalValued, apply, coApply, nedelecSimplex, simplexKeys]
    · intro l g1 g2
      simp only [List.getElem_map, List.getElem_zip, List.getElem_ofFn, globalValued, apply, coApply_eq (hG.ok e x), mapperLeaf, nedelecSimplex, simplexKeys, List.getElem_range,
        add_zero, List.getElem_mapIdx]
      rw [Matrix.mulVec_smul, Matrix.mulVec_smul, smul_smul]
      simp only [k, nedelecIndex, h.dim]
      rfl
  let A : Mat K (n + 1) := ((jac e)⁻¹)ᵀ * B * (jac e)⁻¹
  refine ⟨((jac e)⁻¹)ᵀ *ᵥ c - A *ᵥ pos (vertexIndex G e 0), A, ?_, fun x => ?_⟩
  · simp only [A, Matrix.transpose_mul, Matrix.transpose_transpose, hB, Matrix.neg_mul, Matrix.mul_neg, Matrix.mul_assoc]
  · simp only
    rw [hval, global, Matrix.mulVec_add, Matrix.mulVec_add]
    have : A *ᵥ (jac e *ᵥ x) = ((jac e)⁻¹)ᵀ *ᵥ (B *ᵥ x) := by
      simp only [A, Matrix.mulVec_mulVec, Matrix.mul_assoc, Matrix.nonsing_inv_mul _ hdet, Matrix.mul_one]
    rw [this]
    abel

/-! ## Edges -/

omit [LinearOrder K] [IsStrictOrderedRing K] in
/-- A sum with one weight. -/
theorem delta_sum {M : Type} [AddCommMonoid M] [Module K M] {G : GridView E S} {fixed : Option Geo} (h : Simplices G fixed n) (e : E) {v0 : Nat} (hv : v0 < n + 2)
    (F : Nat → M) :
    ∑ v ∈ Finset.range (n + 2), (if vertexIndex G e v = vertexIndex G e v0 then (1 : K) else 0) • F (vertexIndex G e v) = F (vertexIndex G e v0) := by
  rw [Finset.sum_eq_single v0]
  · rw [if_pos rfl, one_smul]
  · intro v hv' hne
    rw [if_neg, zero_smul]
    intro hi
    exact hne (vertex_inj h.accepted e v (by rw [simplex_nv h]; exact Finset.mem_range.1 hv') v0 (by rw [simplex_nv h]; exact hv) hi)
  · intro hv'
    exact absurd (Finset.mem_range.2 hv) hv'

omit [LinearOrder K] [IsStrictOrderedRing K] in
theorem delta_one {G : GridView E S} {fixed : Option Geo} (h : Simplices G fixed n) (e : E) {v0 : Nat} (hv : v0 < n + 2) :
    ∑ v ∈ Finset.range (n + 2), (if vertexIndex G e v = vertexIndex G e v0 then (1 : K) else 0) = 1 := by
  have := delta_sum (K := K) h e hv fun _ => (1 : K)
  simpa only [smul_eq_mul, mul_one] using this

/-- The weights of a vertex. -/
def delta (K : Type) [Field K] (μ : Nat) : Nat → K := fun m => if m = μ then 1 else 0

omit [LinearOrder K] [IsStrictOrderedRing K] in
/-- The component of the field `p + A y` along the connection of two vertices of an element. -/
theorem moment_eq {G : GridView E S} {fixed : Option Geo} (h : Simplices G fixed n) {pos : Nat → Vec K (n + 1)} {jac : E → Mat K (n + 1)}
    (hjac : ∀ e (d j : Fin (n + 1)), jac e d j = pos (vertexIndex G e (j + 1)) d - pos (vertexIndex G e 0) d) (e : E) {a b : Nat} (ha : a < n + 2) (hb : b < n + 2)
    {f : Vec K (n + 1) → Vec K (n + 1)} {p : Vec K (n + 1)} {A : Mat K (n + 1)} (hf : ∀ x, f x = p + A *ᵥ global (pos (vertexIndex G e 0)) (jac e) x) :
    f (localOf G n (delta K (vertexIndex G e a)) e) ⬝ᵥ (∑ k ∈ Finset.range (n + 2),
        (delta K (vertexIndex G e b) - delta K (vertexIndex G e a)) (vertexIndex G e k) • pos (vertexIndex G e k)) =
      moment p A (pos (vertexIndex G e a)) (pos (vertexIndex G e b)) := by
  have h1 : ∑ v ∈ Finset.range (n + 2), delta K (vertexIndex G e a) (vertexIndex G e v) = 1 := delta_one h e ha
  have h2 : ∑ v ∈ Finset.range (n + 2), delta K (vertexIndex G e a) (vertexIndex G e v) • pos (vertexIndex G e v) = pos (vertexIndex G e a) := delta_sum h e ha pos
  have h3 : ∑ v ∈ Finset.range (n + 2), delta K (vertexIndex G e b) (vertexIndex G e v) • pos (vertexIndex G e v) = pos (vertexIndex G e b) := delta_sum h e hb pos
  rw [hf, global_localOf hjac e _ h1, h2]
  simp only [Pi.sub_apply, sub_smul, Finset.sum_sub_distrib]
  rw [h3, h2, moment]

omit [LinearOrder K] [IsStrictOrderedRing K] in
/-- The components along the connection of two common vertices agree. -/
theorem moment_shared {G : GridView E S} {fixed : Option Geo} (h : Simplices G fixed n) {pos : Nat → Vec K (n + 1)} {jac : E → Mat K (n + 1)}
    (hjac : ∀ e (d j : Fin (n + 1)), jac e d j = pos (vertexIndex G e (j + 1)) d - pos (vertexIndex G e 0) d) {f : E → Vec K (n + 1) → Vec K (n + 1)}
    (hcont : TangentContinuous G n pos f) {e e' : E} {a b a' b' : Nat} (ha : a < n + 2) (hb : b < n + 2) (ha' : a' < n + 2) (hb' : b' < n + 2)
    (haa : vertexIndex G e a = vertexIndex G e' a') (hbb : vertexIndex G e b = vertexIndex G e' b') {p p' : Vec K (n + 1)} {A A' : Mat K (n + 1)}
    (hf : ∀ x, f e x = p + A *ᵥ global (pos (vertexIndex G e 0)) (jac e) x) (hf' : ∀ x, f e' x = p' + A' *ᵥ global (pos (vertexIndex G e' 0)) (jac e') x) :
    moment p A (pos (vertexIndex G e a)) (pos (vertexIndex G e b)) = moment p' A' (pos (vertexIndex G e a)) (pos (vertexIndex G e b)) := by
  have hone : ∀ e v, v < n + 2 → ∑ k ∈ Finset.range (n + 2), delta K (vertexIndex G e v) (vertexIndex G e k) = 1 := fun e v hv => delta_one h e hv
  have supp : ∀ e e' v v', v < n + 2 → v' < n + 2 → vertexIndex G e v = vertexIndex G e' v' → Supported G n e e' (delta K (vertexIndex G e v)) := by
    intro e e' v v' hv hv' hvv k hk hno
    rw [delta, if_neg]
    intro hkv
    exact hno v' hv' ((vertex_same h.accepted (by rw [simplex_nv h]; exact hk) (by rw [simplex_nv h]; exact hv')).1 (hkv.trans hvv))
  have key := hcont e e' (delta K (vertexIndex G e a)) (delta K (vertexIndex G e b) - delta K (vertexIndex G e a)) (hone e a ha) (by rw [haa]; exact hone e' a' ha')
    (by simp only [Pi.sub_apply, Finset.sum_sub_distrib]; rw [hone e a ha, hone e b hb, sub_self])
    (by simp only [Pi.sub_apply, Finset.sum_sub_distrib]; rw [haa, hbb, hone e' a' ha', hone e' b' hb', sub_self])
    (supp e e' a a' ha ha' haa) (by rw [haa]; exact supp e' e a' a ha' ha haa.symm)
    (fun k hk hno => by rw [Pi.sub_apply, supp e e' a a' ha ha' haa k hk hno, supp e e' b b' hb hb' hbb k hk hno, sub_self])
    (fun k hk hno => by
      rw [Pi.sub_apply, haa, hbb, supp e' e a' a ha' ha haa.symm k hk hno, supp e' e b' b hb' hb hbb.symm k hk hno, sub_self])
  rw [moment_eq h hjac e ha hb hf] at key
  rw [haa, hbb] at key ⊢
  rw [key, moment_eq h hjac e' ha' hb' hf']

theorem edgeLayout {G : GridView E S} {fixed : Option Geo} (h : Simplices G fixed n) (e : E) (i : Fin (simplexEdges (n + 1)).length) :
    0 < nedelecLayout (G.geo (G.sub e (G.dim - 1) i)) := by
  have table : ∀ n : Fin 3, n.val = 1 ∨ n.val = 2 → ∀ i < (simplexEdges (n + 1)).length, ∃ u, (stdSubs (simplexOf (n + 1)) n)[i]? = some u ∧ u.dim = 1 := by
    intro n hn
    have : n = 1 ∨ n = 2 := by omega
    rcases this with rfl | rfl
    · have t : ∀ i < (simplexEdges 2).length, (stdSubs (simplexOf 2) 1)[i]? = some ⟨1, 2⟩ := by decide
      exact fun i hi => ⟨_, t i hi, rfl⟩
    · have t : ∀ i < (simplexEdges 3).length, (stdSubs (simplexOf 3) 2)[i]? = some ⟨1, 2⟩ := by decide
      exact fun i hi => ⟨_, t i hi, rfl⟩
  obtain ⟨u, hu, hd⟩ := table ⟨n, by have := simplices_n h; omega⟩ (simplices_n h) i i.2
  rw [h.accepted.std.base.subGeo e _ i u (by rw [h.accepted.std.std, h.simplices, h.dim]; exact hu), nedelecLayout, if_pos hd]
  exact Nat.one_pos

/-- Equal indices belong to the same edge, which has the same vertices in both elements. -/
theorem same_edge {G : GridView E S} {fixed : Option Geo} (h : Simplices G fixed n) (hc : Conforming G) {e e' : E} {i i' : Fin (simplexEdges (n + 1)).length}
    (hi : nedelecIndex G e i = nedelecIndex G e' i') :
    (vertexIndex G e (simplexEdges (n + 1))[i].1 = vertexIndex G e' (simplexEdges (n + 1))[i'].1 ∧
        vertexIndex G e (simplexEdges (n + 1))[i].2 = vertexIndex G e' (simplexEdges (n + 1))[i'].2) ∨
      (vertexIndex G e (simplexEdges (n + 1))[i].1 = vertexIndex G e' (simplexEdges (n + 1))[i'].2 ∧
        vertexIndex G e (simplexEdges (n + 1))[i].2 = vertexIndex G e' (simplexEdges (n + 1))[i'].1) := by
  have hs := ((mapper_inj h.accepted.std.base nedelecLayout _ _ 0 0 (edgeLayout h e i) (edgeLayout h e' i')).1 (by simpa using hi)).1
  obtain ⟨l1, l2, -, he⟩ := edge_vertices h e i
  obtain ⟨m1, m2, -, he'⟩ := edge_vertices h e' i'
  have hnv := simplex_nv h
  rw [vertex_same h.accepted (by rw [hnv]; exact l1) (by rw [hnv]; exact m1), vertex_same h.accepted (by rw [hnv]; exact l2) (by rw [hnv]; exact m2),
    vertex_same h.accepted (by rw [hnv]; exact l1) (by rw [hnv]; exact m2), vertex_same h.accepted (by rw [hnv]; exact l2) (by rw [hnv]; exact m1)]
  exact (hc e e' i i' _ _ _ _ he he').1 hs

omit [LinearOrder K] [IsStrictOrderedRing K] in
/-- Numbers that belong to edges, given by their two vertices, can be collected in a vector. -/
theorem exists_vec {G : GridView E S} {fixed : Option Geo} (h : Simplices G fixed n) (hc : Conforming G) (g : E → Nat → Nat → K)
    (hg : ∀ (e e' : E) (a b a' b' : Nat), a < n + 2 → b < n + 2 → a' < n + 2 → b' < n + 2 →
      vertexIndex G e a = vertexIndex G e' a' → vertexIndex G e b = vertexIndex G e' b' →
      g e (vertexIndex G e a) (vertexIndex G e b) = g e' (vertexIndex G e' a') (vertexIndex G e' b')) :
    ∃ vec : Nat → K, ∀ (e : E) (i : Fin (simplexEdges (n + 1)).length), vec (nedelecIndex G e i) =
      g e (min (vertexIndex G e (simplexEdges (n + 1))[i].1) (vertexIndex G e (simplexEdges (n + 1))[i].2))
        (max (vertexIndex G e (simplexEdges (n + 1))[i].1) (vertexIndex G e (simplexEdges (n + 1))[i].2)) := by
  classical
  let val : E → Fin (simplexEdges (n + 1)).length → K := fun e i =>
    g e (min (vertexIndex G e (simplexEdges (n + 1))[i].1) (vertexIndex G e (simplexEdges (n + 1))[i].2))
        (max (vertexIndex G e (simplexEdges (n + 1))[i].1) (vertexIndex G e (simplexEdges (n + 1))[i].2))
  have hval : ∀ (e e' : E) (i i' : Fin (simplexEdges (n + 1)).length), nedelecIndex G e i = nedelecIndex G e' i' → val e i = val e' i' := by
    intro e e' i i' hi
    obtain ⟨l1, l2, -, -⟩ := edge_vertices h e i
    obtain ⟨m1, m2, -, -⟩ := edge_vertices h e' i'
    simp only [val]
    have hse := same_edge h hc hi
    rcases le_total (vertexIndex G e (simplexEdges (n + 1))[i].1) (vertexIndex G e (simplexEdges (n + 1))[i].2) with hle | hle <;>
      rcases le_total (vertexIndex G e' (simplexEdges (n + 1))[i'].1) (vertexIndex G e' (simplexEdges (n + 1))[i'].2) with hle' | hle' <;>
      simp only [min_eq_left, min_eq_right, max_eq_left, max_eq_right, hle, hle'] <;> rcases hse with ⟨p, q⟩ | ⟨p, q⟩ <;>
      first
      | exact hg e e' _ _ _ _ l1 l2 m1 m2 p q
      | exact hg e e' _ _ _ _ l2 l1 m2 m1 q p
      | exact hg e e' _ _ _ _ l1 l2 m2 m1 p q
      | exact hg e e' _ _ _ _ l2 l1 m1 m2 q p
      | (refine hg e e' _ _ _ _ l1 l2 m1 m2 ?_ ?_ <;> omega)
      | (refine hg e e' _ _ _ _ l1 l2 m2 m1 ?_ ?_ <;> omega)
      | (refine hg e e' _ _ _ _ l2 l1 m1 m2 ?_ ?_ <;> omega)
      | (refine hg e e' _ _ _ _ l2 l1 m2 m1 ?_ ?_ <;> omega)
  refine ⟨fun m => if hm : ∃ q : E × Fin (simplexEdges (n + 1)).length, nedelecIndex G q.1 q.2 = m then val hm.choose.1 hm.choose.2 else 0, fun e i => ?_⟩
  have hm : ∃ q : E × Fin (simplexEdges (n + 1)).length, nedelecIndex G q.1 q.2 = nedelecIndex G e i := ⟨(e, i), rfl⟩
  simp only [dif_pos hm]
  exact hval _ _ _ _ hm.choose_spec

/-! ## Theorems -/

/-- **C88: space.** On every conforming grid of affine triangles or tetrahedra, a family of vector fields on the elements is a function of the Nédélec basis if and only if it has the form `p + A y`
with an antisymmetric matrix `A` on each element and its tangential components are continuous. -/
theorem C88_space {G : GridView E S} {fixed : Option Geo} (h : Simplices G fixed n) (hc : Conforming G) {pos : Nat → Vec K (n + 1)} {jac : E → Mat K (n + 1)}
    {geo : E → Geometry K (n + 1)} (hG : Affine G n pos jac geo) (f : E → Vec K (n + 1) → Vec K (n + 1)) :
    (∃ vec, ∀ e x, nedelecValue G fixed geo vec e x = some (f e x)) ↔
      (∀ e, NedelecField (pos (vertexIndex G e 0)) (jac e) (f e)) ∧ TangentContinuous G n pos f := by
  constructor
  · rintro ⟨vec, hv⟩
    refine ⟨fun e => ?_, ?_⟩
    · obtain ⟨f', h1, h2⟩ := nedelecField h hG vec e
      obtain rfl : f' = f e := funext fun x => Option.some.inj ((h2 x).symm.trans (hv e x))
      exact h1
    · intro e e' w τ hw hw' hτ hτ' sw sw' sτ sτ'
      obtain ⟨v, v', h1, h2, h3⟩ := C68_simplex h hc hG.columns hG.ok vec e e' w τ hw hw' hτ hτ' sw sw' sτ sτ'
      have g1 := Option.some.inj ((hv e _).symm.trans h1)
      have g2 := Option.some.inj ((hv e' _).symm.trans h2)
      rw [g1, g2, h3]
  · rintro ⟨hloc, hcont⟩
    choose p A hA hf using hloc
    obtain ⟨vec, hvec⟩ := exists_vec h hc (fun e μ ν => moment (p e) (A e) (pos μ) (pos ν)) (by
      intro e e' a b a' b' ha hb ha' hb' haa hbb
      rw [← haa, ← hbb]
      exact moment_shared h hG.columns hcont ha hb ha' hb' haa hbb (hf e) (hf e'))
    refine ⟨vec, fun e x => ?_⟩
    rw [hf e x]
    exact realizes h hG e (p e) (hA e) vec (hvec e) x

/-- The component along an edge in its vertices is the coefficient. -/
theorem coefficient {G : GridView E S} {fixed : Option Geo} (h : Simplices G fixed n) {pos : Nat → Vec K (n + 1)} {jac : E → Mat K (n + 1)} {geo : E → Geometry K (n + 1)}
    (hG : Affine G n pos jac geo) (vec : Nat → K) (e : E) (i : Fin (simplexEdges (n + 1)).length) {f : Vec K (n + 1) → Vec K (n + 1)} {p : Vec K (n + 1)} {A : Mat K (n + 1)}
    (hA : Aᵀ = -A) (hf : ∀ x, f x = p + A *ᵥ global (pos (vertexIndex G e 0)) (jac e) x) (hv : ∀ x, nedelecValue G fixed geo vec e x = some (f x)) :
    vec (nedelecIndex G e i) = moment p A (pos (min (vertexIndex G e (simplexEdges (n + 1))[i].1) (vertexIndex G e (simplexEdges (n + 1))[i].2)))
        (pos (max (vertexIndex G e (simplexEdges (n + 1))[i].1) (vertexIndex G e (simplexEdges (n + 1))[i].2))) := by
  obtain ⟨l1, l2, hne, he⟩ := edge_vertices h e i
  set a := (simplexEdges (n + 1))[i].1 with hadef
  set b := (simplexEdges (n + 1))[i].2 with hbdef
  have hlt : a < b := (edge_table (simplices_n h) _ (List.getElem_mem i.2)).1
  have hget : (simplexEdges (n + 1)).getD i.val (0, 0) = (a, b) := by
    rw [List.getD_eq_getElem?_getD, List.getElem?_eq_getElem i.2]
    rfl
  have hon : (simplexEdge K n i).On (corner K n a) := by
    refine ⟨0, ?_⟩
    rw [hget]
    simp
  have hdir : jac e *ᵥ (simplexEdge K n i).dir = pos (vertexIndex G e (max a b)) - pos (vertexIndex G e (min a b)) := by
    rw [max_eq_right hlt.le, min_eq_left hlt.le]
    have : (simplexEdge K n i).dir = corner K n b - corner K n a := by rw [simplexEdge, hget]
    rw [this]
    exact Trace.jac_corner (p := fun v => pos (vertexIndex G e v)) (hG.columns e) b a l2 l1
  obtain ⟨v, h1, h2⟩ := C68_edge h.accepted (table := fun _ bits => nedelecSimplex bits) (keys := fun _ => simplexKeys (n + 1)) (edge := fun _ => simplexEdge K n)
    (fun e => by rw [h.simplices]; exact simplex_tangents (simplices_n h)) geo pos vec e he hon (hG.ok e _) hdir
  have hv' := Option.some.inj ((hv _).symm.trans h1)
  have hpos : global (pos (vertexIndex G e 0)) (jac e) (corner K n a) = pos (vertexIndex G e a) := by
    have := Trace.jac_corner (p := fun v => pos (vertexIndex G e v)) (hG.columns e) a 0 l1 (by omega)
    rw [Trace.corner_zero, sub_zero] at this
    rw [global, this]
    abel
  rw [nedelecIndex, ← h2, ← hv', hf, hpos, globalTangent]
  rcases Nat.lt_or_gt_of_ne hne with hlt | hlt
  · rw [min_eq_left hlt.le, max_eq_right hlt.le]
    rfl
  · rw [min_eq_right hlt.le, max_eq_left hlt.le, moment_swap p hA, moment, ← dotProduct_neg, neg_sub]

/-- Every index belongs to an edge. -/
theorem nedelecIndex_surj {G : GridView E S} {fixed : Option Geo} (h : Simplices G fixed n) {m : Nat} (hm : m < mapperSize G nedelecLayout) :
    ∃ (e : E) (i : Fin (simplexEdges (n + 1)).length), m = nedelecIndex G e i := by
  obtain ⟨s, j, hj, rfl⟩ := mapper_surj h.accepted.std.base nedelecLayout m hm
  obtain ⟨e, c, i, hcd, hi, rfl⟩ := h.accepted.std.base.subSurj s
  rw [h.dim] at hcd
  rw [h.accepted.std.std, h.simplices] at hi
  obtain ⟨u, hu⟩ : ∃ u, (stdSubs (simplexOf (n + 1)) c)[i]? = some u := ⟨_, List.getElem?_eq_getElem hi⟩
  rw [h.accepted.std.base.subGeo e c i u (by rw [h.accepted.std.std, h.simplices]; exact hu)] at hj
  have hmem := List.mem_of_getElem? hu
  have t : ∀ n : Fin 3, n.val = 1 ∨ n.val = 2 → ∀ c < n.val + 2, ∀ u ∈ stdSubs (simplexOf (n + 1)) c, nedelecLayout u = if c = n.val then 1 else 0 := by decide
  have hn := simplices_n h
  rw [t ⟨n, by omega⟩ hn c (by simp only; omega) u hmem] at hj
  obtain rfl : c = n := by
    by_contra hne
    rw [if_neg hne] at hj
    omega
  rw [if_pos rfl] at hj
  obtain rfl : j = 0 := by omega
  have hlen : (stdSubs (simplexOf (c + 1)) c).length = (simplexEdges (c + 1)).length := by rcases hn with rfl | rfl <;> decide
  refine ⟨e, ⟨i, by rw [← hlen]; exact hi⟩, ?_⟩
  simp only [nedelecIndex, h.dim]
  rfl

/-- **C88: coefficients.** The coefficients of a function are unique. -/
theorem C88_unique {G : GridView E S} {fixed : Option Geo} (h : Simplices G fixed n) {pos : Nat → Vec K (n + 1)} {jac : E → Mat K (n + 1)}
    {geo : E → Geometry K (n + 1)} (hG : Affine G n pos jac geo) (vec vec' : Nat → K) (heq : ∀ e x, nedelecValue G fixed geo vec e x = nedelecValue G fixed geo vec' e x) :
    ∀ m < (mapperLeaf G nedelecLayout fun _ => simplexKeys (n + 1)).dim, vec m = vec' m := by
  intro m hm
  obtain ⟨e, i, rfl⟩ := nedelecIndex_surj h hm
  obtain ⟨f, ⟨p, A, hA, hf⟩, hv⟩ := nedelecField h hG vec e
  rw [coefficient h hG vec e i hA hf hv, coefficient h hG vec' e i hA hf fun x => by rw [← heq, hv]]

/-- **C88: faces.** Let `F` be a set of vertices of an element, i.e. a face, an edge or the element. Two functions have the same tangential components in all points of the face if and only if
their coefficients of all edges of the face agree. In particular, the coefficients of the edges of the boundary determine the tangential components on the boundary. -/
theorem C88_face {G : GridView E S} {fixed : Option Geo} (h : Simplices G fixed n) {pos : Nat → Vec K (n + 1)} {jac : E → Mat K (n + 1)}
    {geo : E → Geometry K (n + 1)} (hG : Affine G n pos jac geo) (vec vec' : Nat → K) (e : E) (F : Nat → Prop) :
    (∀ i : Fin (simplexEdges (n + 1)).length, F (simplexEdges (n + 1))[i].1 → F (simplexEdges (n + 1))[i].2 → vec (nedelecIndex G e i) = vec' (nedelecIndex G e i)) ↔
    ∀ w τ : Nat → K, ∑ v ∈ Finset.range (n + 2), w (vertexIndex G e v) = 1 → ∑ v ∈ Finset.range (n + 2), τ (vertexIndex G e v) = 0 →
      (∀ v < n + 2, ¬ F v → w (vertexIndex G e v) = 0 ∧ τ (vertexIndex G e v) = 0) →
      ∃ v v', nedelecValue G fixed geo vec e (localOf G n w e) = some v ∧ nedelecValue G fixed geo vec' e (localOf G n w e) = some v' ∧
        v ⬝ᵥ (∑ k ∈ Finset.range (n + 2), τ (vertexIndex G e k) • pos (vertexIndex G e k)) =
          v' ⬝ᵥ (∑ k ∈ Finset.range (n + 2), τ (vertexIndex G e k) • pos (vertexIndex G e k)) := by
  constructor
  · intro heq w τ hw hτ hF
    obtain ⟨v, h1, h2⟩ := simplex_value h e w τ vec (hG.ok e _) hw hτ
    obtain ⟨v', h1', h2'⟩ := simplex_value h e w τ vec' (hG.ok e _) hw hτ
    refine ⟨v, v', h1, h1', ?_⟩
    rw [← localOf_transform hG.columns e τ hτ, h2, h2']
    refine Finset.sum_congr rfl fun i _ => ?_
    obtain ⟨l1, l2, -, -⟩ := edge_vertices h e i
    rw [edgeTerm, edgeTerm]
    by_cases h3 : F (simplexEdges (n + 1))[i].1
    · by_cases h4 : F (simplexEdges (n + 1))[i].2
      · rw [show vec (mapperIndex G nedelecLayout (G.sub e (G.dim - 1) i)) = vec' (mapperIndex G nedelecLayout (G.sub e (G.dim - 1) i)) from heq i h3 h4]
      · obtain ⟨p, q⟩ := hF _ l2 h4
        rcases le_total (vertexIndex G e (simplexEdges (n + 1))[i].1) (vertexIndex G e (simplexEdges (n + 1))[i].2) with hle | hle <;>
          simp only [min_eq_left, min_eq_right, max_eq_left, max_eq_right, hle, p, q] <;> ring
    · obtain ⟨p, q⟩ := hF _ l1 h3
      rcases le_total (vertexIndex G e (simplexEdges (n + 1))[i].1) (vertexIndex G e (simplexEdges (n + 1))[i].2) with hle | hle <;>
        simp only [min_eq_left, min_eq_right, max_eq_left, max_eq_right, hle, p, q] <;> ring
  · intro hval i h1 h2
    obtain ⟨f, ⟨p, A, hA, hf⟩, hv⟩ := nedelecField h hG vec e
    obtain ⟨f', ⟨p', A', hA', hf'⟩, hv'⟩ := nedelecField h hG vec' e
    rw [coefficient h hG vec e i hA hf hv, coefficient h hG vec' e i hA' hf' hv']
    obtain ⟨l1, l2, hne, -⟩ := edge_vertices h e i
    have key : ∀ a b, a < n + 2 → b < n + 2 → F a → F b → moment p A (pos (vertexIndex G e a)) (pos (vertexIndex G e b)) =
        moment p' A' (pos (vertexIndex G e a)) (pos (vertexIndex G e b)) := by
      intro a b ha hb hFa hFb
      have hone : ∀ v, v < n + 2 → ∑ k ∈ Finset.range (n + 2), delta K (vertexIndex G e v) (vertexIndex G e k) = 1 := fun v hv => delta_one h e hv
      have hzero : ∀ v v', v < n + 2 → v' < n + 2 → v' ≠ v → delta K (vertexIndex G e v) (vertexIndex G e v') = 0 := by
        intro v v' hv hv' hne
        rw [delta, if_neg]
        intro hi
        exact hne (vertex_inj h.accepted e v' (by rw [simplex_nv h]; exact hv') v (by rw [simplex_nv h]; exact hv) hi)
      obtain ⟨v, v', g1, g2, g3⟩ := hval (delta K (vertexIndex G e a)) (delta K (vertexIndex G e b) - delta K (vertexIndex G e a)) (hone a ha)
        (by simp only [Pi.sub_apply, Finset.sum_sub_distrib]; rw [hone a ha, hone b hb, sub_self])
        (fun v hv hno => by
          have hva : v ≠ a := fun hva => hno (hva ▸ hFa)
          have hvb : v ≠ b := fun hvb => hno (hvb ▸ hFb)
          exact ⟨hzero a v ha hv hva, by rw [Pi.sub_apply, hzero a v ha hv hva, hzero b v hb hv hvb, sub_self]⟩)
      have e1 := Option.some.inj ((hv _).symm.trans g1)
      have e2 := Option.some.inj ((hv' _).symm.trans g2)
      rw [← e1, ← e2, moment_eq h hG.columns e ha hb hf, moment_eq h hG.columns e ha hb hf'] at g3
      exact g3
    rcases Nat.lt_or_gt_of_ne hne with hlt | hlt
    · rw [min_eq_left hlt.le, max_eq_right hlt.le]
      exact key _ _ l1 l2 h1 h2
    · rw [min_eq_right hlt.le, max_eq_left hlt.le]
      exact key _ _ l2 l1 h2 h1

/-- **C88: gradients.** Let `φ` be values at the vertices. The coefficients `φ(ν) - φ(μ)` for the edges with the vertices `μ < ν` belong to the gradient of the continuous, piecewise affine function with these
values: on each element, the value is a vector whose components along the connections of vertices are the differences of the values. -/
theorem C88_gradient {G : GridView E S} {fixed : Option Geo} (h : Simplices G fixed n) (hc : Conforming G) {pos : Nat → Vec K (n + 1)} {jac : E → Mat K (n + 1)}
    {geo : E → Geometry K (n + 1)} (hG : Affine G n pos jac geo) (φ : Nat → K) :
    ∃ vec : Nat → K, (∀ (e : E) (i : Fin (simplexEdges (n + 1)).length), vec (nedelecIndex G e i) =
        φ (max (vertexIndex G e (simplexEdges (n + 1))[i].1) (vertexIndex G e (simplexEdges (n + 1))[i].2)) -
          φ (min (vertexIndex G e (simplexEdges (n + 1))[i].1) (vertexIndex G e (simplexEdges (n + 1))[i].2))) ∧
      ∀ e, ∃ g, (∀ x, nedelecValue G fixed geo vec e x = some g) ∧
        ∀ a < n + 2, ∀ b < n + 2, g ⬝ᵥ (pos (vertexIndex G e b) - pos (vertexIndex G e a)) = φ (vertexIndex G e b) - φ (vertexIndex G e a) := by
  obtain ⟨vec, hvec⟩ := exists_vec h hc (fun _ μ ν => φ ν - φ μ) (by
    intro e e' a b a' b' _ _ _ _ haa hbb
    rw [haa, hbb])
  refine ⟨vec, hvec, fun e => ?_⟩
  have hdet : IsUnit (jac e).det := isUnit_iff_ne_zero.2 (hG.ok e 0).nondeg
  let g : Vec K (n + 1) := ((jac e)⁻¹)ᵀ *ᵥ fun j : Fin (n + 1) => φ (vertexIndex G e (j + 1)) - φ (vertexIndex G e 0)
  have hg0 : ∀ a < n + 2, g ⬝ᵥ (pos (vertexIndex G e a) - pos (vertexIndex G e 0)) = φ (vertexIndex G e a) - φ (vertexIndex G e 0) := by
    intro a ha
    have := Trace.jac_corner (p := fun v => pos (vertexIndex G e v)) (hG.columns e) a 0 ha (by omega)
    rw [Trace.corner_zero, sub_zero] at this
    simp only [g]
    rw [← this, Matrix.mulVec_transpose, ← Matrix.dotProduct_mulVec, Matrix.mulVec_mulVec, Matrix.nonsing_inv_mul _ hdet, Matrix.one_mulVec]
    cases a with
    | zero => simp [Trace.corner_zero]
    | succ a =>
      rw [dotProduct, Finset.sum_eq_single ⟨a, by omega⟩]
      · simp [corner]
      · intro j _ hj
        rw [corner, if_neg, mul_zero]
        intro hja
        exact hj (Fin.ext (by simp only; omega))
      · simp
  have hg : ∀ a < n + 2, ∀ b < n + 2, g ⬝ᵥ (pos (vertexIndex G e b) - pos (vertexIndex G e a)) = φ (vertexIndex G e b) - φ (vertexIndex G e a) := by
    intro a ha b hb
    have ha := hg0 a ha
    have hb := hg0 b hb
    rw [dotProduct_sub] at ha hb ⊢
    linear_combination hb - ha
  refine ⟨g, fun x => ?_, hg⟩
  have := realizes h hG e g (A := 0) (by simp) vec (fun i => ?_) x
  · rw [this, Matrix.zero_mulVec, add_zero]
  · obtain ⟨l1, l2, hne, -⟩ := edge_vertices h e i
    rw [hvec, moment, Matrix.zero_mulVec, add_zero]
    rcases Nat.lt_or_gt_of_ne hne with hlt | hlt
    · rw [min_eq_left hlt.le, max_eq_right hlt.le, hg _ l1 _ l2]
    · rw [min_eq_right hlt.le, max_eq_left hlt.le, hg _ l2 _ l1]

/-! ## Rotations -/

/-- The two descriptions of a grid, for the Raviart–Thomas basis (vertices by ids) and for the Nédélec basis (vertices by indices), belong together. -/
structure SameVertices (G : LGrid E S Nat) (n : Nat) (posI posN : Nat → Vec K (n + 1)) : Prop where
  ids : ∀ e e' v v', v < n + 2 → v' < n + 2 → G.ids e v = G.ids e' v' → vertexIndex G.toGridView e v = vertexIndex G.toGridView e' v'
  pos : ∀ e v, v < n + 2 → posI (G.ids e v) = posN (vertexIndex G.toGridView e v)

/-- Antisymmetric matrices are cross products. -/
theorem antisymmetric_cross {A : Mat K 3} (hA : Aᵀ = -A) (y : Vec K 3) : A *ᵥ y = ![A 2 1, A 0 2, A 1 0] ⨯₃ y := by
  have h : ∀ i j, A j i = -A i j := fun i j => congrFun (congrFun hA i) j
  have h0 : ∀ i, A i i = 0 := fun i => by linarith [h i i]
  funext d
  fin_cases d <;> simp [Matrix.mulVec, dotProduct, Fin.sum_univ_three, cross_apply, h0]
  · linear_combination y 1 * h 1 0
  · linear_combination y 2 * h 2 1
  · linear_combination y 0 * h 0 2

omit [LinearOrder K] [IsStrictOrderedRing K] in
theorem vol_three (u : Vec K 3) (t : Fin 2 → Vec K 3) : Trace.vol u t = u 0 * t 0 1 * t 1 2 - u 0 * t 0 2 * t 1 1 - u 1 * t 0 0 * t 1 2 + u 1 * t 0 2 * t 1 0 +
    u 2 * t 0 0 * t 1 1 - u 2 * t 0 1 * t 1 0 := Matrix.det_fin_three _

omit [LinearOrder K] [IsStrictOrderedRing K] in
/-- The sum of the components along the edges of a triangle is the flux of the rotation. -/
theorem circulation {p α : Vec K 3} {A : Mat K 3} (hα : ∀ y, A *ᵥ y = α ⨯₃ y) (y : Nat → Vec K 3) :
    moment p A (y 0) (y 1) + moment p A (y 1) (y 2) + moment p A (y 2) (y 0) = Trace.vol α fun k : Fin 2 => y (k + 1) - y 0 := by
  have hd : ∀ u v : Vec K 3, u ⬝ᵥ v = u 0 * v 0 + u 1 * v 1 + u 2 * v 2 := fun u v => by rw [dotProduct, Fin.sum_univ_three]
  have hm : ∀ a b : Vec K 3, moment p A a b = (p 0 + (α 1 * a 2 - α 2 * a 1)) * (b 0 - a 0) + (p 1 + (α 2 * a 0 - α 0 * a 2)) * (b 1 - a 1) +
      (p 2 + (α 0 * a 1 - α 1 * a 0)) * (b 2 - a 2) := by
    intro a b
    rw [moment, hα, cross_apply]
    exact hd _ _
  rw [hm, hm, hm, vol_three]
  simp only [Pi.sub_apply, Fin.val_zero, Fin.val_one, zero_add, Nat.reduceAdd]
  ring

/-- **C88: rotations.** On a tetrahedron, a function of the Nédélec basis has the form `p + α × y`; its rotation is `2 α`. These piecewise constant vector fields are functions of the Raviart–Thomas
basis of order 0 on the same grid view. -/
theorem C88_curl {G : LGrid E S Nat} {fixed : Option Geo} (h : Simplices G.toGridView fixed 2) (hc : Conforming G.toGridView) {posI posN : Nat → Vec K 3} {jac : E → Mat K 3}
    {geo : E → Geometry K 3} (hN : Affine G.toGridView 2 posN jac geo) (hR : Trace.SimplexGrid G 2 posI jac) (hsame : SameVertices G 2 posI posN)
    {isects : E → List (Isect E)} (hI : Trace.Neighbours G.toGridView isects) {a : K} (ha : a ≠ 0) (vec : Nat → K) :
    ∃ α : E → Vec K 3, (∀ e, ∃ p, ∀ x, nedelecValue G.toGridView fixed geo vec e x = some (p + α e ⨯₃ global (posN (vertexIndex G.toGridView e 0)) (jac e) x)) ∧
      ∃ vec', ∀ e x, Trace.rtValue G fixed isects geo a vec' e x = some ((2 : K) • α e) := by
  choose f hf hv using nedelecField h hN vec
  have hcont : TangentContinuous G.toGridView 2 posN f := ((C88_space h hc hN f).1 ⟨vec, hv⟩).2
  choose p A hA hpA using hf
  let α : E → Vec K 3 := fun e => ![A e 2 1, A e 0 2, A e 1 0]
  have hα : ∀ e y, A e *ᵥ y = α e ⨯₃ y := fun e => antisymmetric_cross (hA e)
  refine ⟨α, fun e => ⟨p e, fun x => by rw [← hα, ← hpA, hv]⟩, ?_⟩
  rcases isEmpty_or_nonempty E with hE | ⟨⟨e0⟩⟩
  · exact ⟨fun _ => 0, fun e => hE.elim e⟩
  have hfix : ∀ u, fixed = some u → u = simplexOf (2 + 1) := fun u hu => (h.accepted.fixed u hu e0).trans (h.simplices e0)
  refine (Trace.C87_space (Or.inr rfl) hR hI fixed hfix hN.ok ha fun e _ => (2 : K) • α e).2 ⟨fun e => ⟨(2 : K) • α e, 0, fun x => by rw [zero_smul, add_zero]⟩, ?_⟩
  intro e e' i i' hne hi hi' hs x x' _ _ _ N hNt
  have hlt := fun k hk => Trace.facetVertex_lt (Or.inr rfl) (n := 2) (i := i) (k := k) hi hk
  obtain ⟨s1, -⟩ := Trace.shared_ids (Or.inr rfl) hR.ok hR.simplices hi' hi hs.symm
  let y : Nat → Vec K 3 := fun k => posN (vertexIndex G.toGridView e (Trace.facetVertex 2 i k))
  have hmom : ∀ k < 3, ∀ l < 3, moment (p e) (A e) (y k) (y l) = moment (p e') (A e') (y k) (y l) := by
    intro k hk l hl
    obtain ⟨m, hm, hmk⟩ := s1 k hk
    obtain ⟨o, ho, hol⟩ := s1 l hl
    have hlm := Trace.facetVertex_lt (Or.inr rfl) (n := 2) hi' hm
    have hlo := Trace.facetVertex_lt (Or.inr rfl) (n := 2) hi' ho
    exact moment_shared h hN.columns hcont (hlt k hk) (hlt l hl) hlm hlo (hsame.ids _ _ _ _ (hlt k hk) hlm hmk) (hsame.ids _ _ _ _ (hlt l hl) hlo hol) (hpA e) (hpA e')
  have hvol : Trace.vol (α e - α e') (fun k : Fin 2 => y (k + 1) - y 0) = 0 := by
    have h1 := circulation (p := p e) (hα e) y
    have h2 := circulation (p := p e') (hα e') y
    rw [sub_eq_add_neg, ← neg_one_smul K (α e'), Trace.vol_add, Trace.vol_smul, ← h1, ← h2, hmom 0 (by omega) 1 (by omega), hmom 1 (by omega) 2 (by omega),
      hmom 2 (by omega) 0 (by omega)]
    ring
  have hside := hR.sides e e' i i' hne hi hi' hs
  have hy : ∀ k < 3, posI (G.ids e (Trace.facetVertex 2 i k)) = y k := fun k hk => hsame.pos _ _ (hlt k hk)
  have hfr : (fun k : Fin 2 => posI (G.ids e (Trace.facetVertex 2 i (k + 1))) - posI (G.ids e (Trace.facetVertex 2 i 0))) = fun k : Fin 2 => y (k + 1) - y 0 := by
    funext k
    rw [hy _ (by omega), hy _ (by omega)]
  rw [hfr] at hside
  have := Trace.normal_zero (left_ne_zero_of_mul hside.ne) hvol N fun k => by
    rw [dotProduct_sub, ← hy _ (by omega), ← hy _ (by omega), hNt _ (by omega), sub_self]
  rw [dotProduct_sub, sub_eq_zero] at this
  rw [dotProduct_smul, dotProduct_smul, this]

/-! ## Examples: two triangles -/

theorem demo_affine : Affine demoGrid.toGridView 1 demoPos Trace.demoJac fun e => ofJacobian fun _ => Trace.demoJac e where
  columns := by
    intro e d j
    fin_cases e <;> fin_cases d <;> fin_cases j <;> simp [Trace.demoJac, demoPos, vertexIndex, demoGrid]
  ok := fun e x => ofJacobian_OK _ x (by fin_cases e <;> simp [Trace.demoJac])

theorem demo_simplices : Simplices demoGrid.toGridView none 1 := ⟨demo_accepted, rfl, fun _ => rfl⟩

/-- The coefficients are unique. -/
example (vec vec' : Nat → ℝ) (h : ∀ e x, nedelecValue demoGrid.toGridView none (fun e => ofJacobian fun _ => Trace.demoJac e) vec e x =
    nedelecValue demoGrid.toGridView none (fun e => ofJacobian fun _ => Trace.demoJac e) vec' e x) : ∀ m < 5, vec m = vec' m :=
  C88_unique demo_simplices demo_affine vec vec' h

/-- The gradient of the hat function of vertex 2, i.e. of `y_0 + y_1 - 1` on the second triangle and of `0` on the first one. -/
example : ∃ vec : Nat → ℝ, vec 2 = 0 ∧ (∀ x, nedelecValue demoGrid.toGridView none (fun e => ofJacobian fun _ => Trace.demoJac e) vec 0 x = some 0) ∧
    ∀ x, nedelecValue demoGrid.toGridView none (fun e => ofJacobian fun _ => Trace.demoJac e) vec 1 x = some ![1, 1] := by
  obtain ⟨vec, h1, h2⟩ := C88_gradient demo_simplices demo_conforming demo_affine fun v => if v = 2 then 1 else 0
  have hm : nedelecIndex demoGrid.toGridView 0 2 = 2 := by decide
  have g := h1 0 ⟨2, by decide⟩
  obtain ⟨u, hu, hu'⟩ := h2 0
  obtain ⟨w, hw, hw'⟩ := h2 1
  have hu0 : u = 0 := by
    have a := hu' 0 (by omega) 1 (by omega)
    have b := hu' 0 (by omega) 2 (by omega)
    simp [vertexIndex, demoGrid, demoPos, dotProduct, Fin.sum_univ_two] at a b
    funext d
    fin_cases d <;> simp [a, b]
  have hw0 : w = ![1, 1] := by
    have a := hw' 0 (by omega) 1 (by omega)
    have b := hw' 0 (by omega) 2 (by omega)
    simp [vertexIndex, demoGrid, demoPos, dotProduct, Fin.sum_univ_two] at a b
    funext d
    fin_cases d <;> simp [a, b]
  refine ⟨vec, ?_, fun x => by rw [hu, hu0], fun x => by rw [hw, hw0]⟩
  simp only [hm] at g
  rw [g, if_neg (by decide), if_neg (by decide), sub_zero]

/-- The field that is `(1, 0)` on one triangle and zero on the other one is not a function of the basis: its component along the diagonal jumps. -/
example : ¬ ∃ vec, ∀ e x, nedelecValue demoGrid.toGridView none (fun e => ofJacobian fun _ => Trace.demoJac e) vec e x = some (if e = 0 then ![1, 0] else (0 : Vec ℝ 2)) := by
  intro h
  have hc := ((C88_space demo_simplices demo_conforming demo_affine _).1 h).2
  have := moment_shared demo_simplices demo_affine.columns hc (e := 0) (e' := 1) (a := 1) (b := 2) (a' := 2) (b' := 1) (by omega) (by omega) (by omega) (by omega) (by decide) (by decide)
    (p := ![1, 0]) (A := 0) (p' := 0) (A' := 0) (by simp) (by simp)
  simp [moment, vertexIndex, demoGrid, demoPos] at this

end Verif.HDiv.Tangential

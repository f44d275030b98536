import Verif.Lagrange.Hierarchical
import Mathlib.Analysis.SpecialFunctions.Integrals.Basic

/-!
# Functions of Rannacher–Turek and Crouzeix–Raviart bases

rannacherturekbasis.hh: one degree of freedom per facet. The functions need not be continuous; they are exactly the functions that are on simplices affine, on cubes affine plus a combination
of `x_d² - x_{d+1}²`, and whose values on both sides agree in the centers of the facets.
-/

namespace Verif.Lagrange.Nonconforming

open Mapper
open Verif.Lagrange.Continuity
open Verif.Piola (Vec)
open Verif.HDiv.Tangential (bary)

variable {E S α K : Type} [Field K] {n : Nat}

/-! ## Model -/

/-- `CrouzeixRaviartLocalFiniteElement` on simplices, `RannacherTurekLocalFiniteElement` on quadrilaterals and hexahedra (dune-localfunctions). The finite element is chosen by
`RannacherTurekNode`, rannacherturekbasis.hh:156-158, 184-186. -/
def facetShapes (t : Geo) (x : Vec K n) : List K :=
  let X := coordinate x
  if t = ⟨2, 4⟩ then
    let q := X 0 * X 0 - X 1 * X 1
    [3 / 4 - 2 * X 0 + X 1 + q, -1 / 4 + X 1 + q, 3 / 4 + X 0 - 2 * X 1 - q, -1 / 4 + X 0 - q]
  else if t = ⟨3, 8⟩ then
    let q0 := X 0 * X 0 - X 1 * X 1
    let q1 := X 1 * X 1 - X 2 * X 2
    [(2 - 7 * X 0 + 2 * X 1 + 2 * X 2 + 4 * q0 + 2 * q1) / 3, (-1 - X 0 + 2 * X 1 + 2 * X 2 + 4 * q0 + 2 * q1) / 3,
     (2 + 2 * X 0 - 7 * X 1 + 2 * X 2 - 2 * q0 + 2 * q1) / 3, (-1 + 2 * X 0 - X 1 + 2 * X 2 - 2 * q0 + 2 * q1) / 3,
     (2 + 2 * X 0 + 2 * X 1 - 7 * X 2 - 2 * q0 - 4 * q1) / 3, (-1 + 2 * X 0 + 2 * X 1 - X 2 - 2 * q0 - 4 * q1) / 3]
  else ((List.range t.dim).map fun i => 1 - (t.dim : K) * X (t.dim - i - 1)) ++ [1 - (t.dim : K) + ((List.range t.dim).map fun i => (t.dim : K) * X i).sum]

/-- The local keys of both finite elements: function `i` belongs to facet `i`. -/
def facetsOf (t : Geo) : List Nat := List.range (stdSubs t 1).length

/-- discreteglobalbasisfunction.hh:345-363 with the indices of `RannacherTurekPreBasis::indices`, rannacherturekbasis.hh:117-129. -/
def value (G : GridView E S) (vec : Nat → K) (e : E) (x : Vec K n) : K :=
  ((((rtLeaf G fun e => facetsOf (G.elemGeo e)).loc e).map vec).zip (facetShapes (G.elemGeo e) x)).foldl (fun y cv => y + cv.1 * cv.2) 0

/-! ## Specification -/

/-- Vertices of simplices and cubes. -/
def cornerCoord (K : Type) [Field K] (t : Geo) (v d : Nat) : K :=
  if t.nv = t.dim + 1 then (if v = d + 1 then 1 else 0) else if v.testBit d then 1 else 0

/-- The center of facet `i`: mean of its vertices. -/
def facetCenter (K : Type) [Field K] (n : Nat) (t : Geo) (i : Nat) : Vec K n := fun d =>
  ((keyVerts t ⟨i, 1, 0⟩).map fun v => cornerCoord K t v d).sum / (keyVerts t ⟨i, 1, 0⟩).length

/-- Functions on an element: affine on simplices; on cubes also multiples of `x_d² - x_{d+1}²`. -/
def LocalSpace (t : Geo) (f : Vec K n → K) : Prop :=
  ∃ (a : K) (b : Fin n → K) (c : Nat → K), (t.nv = t.dim + 1 → ∀ d, c d = 0) ∧
    ∀ x, f x = a + ∑ d, b d * x d + ∑ d ∈ Finset.range (n - 1), c d * (coordinate x d * coordinate x d - coordinate x (d + 1) * coordinate x (d + 1))

/-- The values on both sides of common facets agree in the centers. -/
def CenterContinuous (G : GridView E S) (f : E → Vec K n → K) : Prop :=
  ∀ e i e' i', i < (stdSubs (G.elemGeo e) 1).length → i' < (stdSubs (G.elemGeo e') 1).length → G.sub e 1 i = G.sub e' 1 i' →
    f e (facetCenter K n (G.elemGeo e) i) = f e' (facetCenter K n (G.elemGeo e') i')

/-- Simplices and cubes of dimension `n`. Lines are not included: they are cubes, for which there is no Rannacher–Turek element of dimension 1. -/
def Accepted (n : Nat) (t : Geo) : Prop := t ∈ ([⟨2, 3⟩, ⟨3, 4⟩, ⟨2, 4⟩, ⟨3, 8⟩] : List Geo) ∧ t.dim = n

/-! ## On an element -/

theorem Accepted.cases {t : Geo} (h : Accepted n t) : n = 2 ∧ t = ⟨2, 3⟩ ∨ n = 3 ∧ t = ⟨3, 4⟩ ∨ n = 2 ∧ t = ⟨2, 4⟩ ∨ n = 3 ∧ t = ⟨3, 8⟩ := by
  obtain ⟨h1, h2⟩ := h
  simp only [List.mem_cons, List.not_mem_nil, or_false] at h1
  rcases h1 with rfl | rfl | rfl | rfl <;> simp_all

theorem tri_centers : facetCenter K 2 ⟨2, 3⟩ 0 = ![1 / 2, 0] ∧ facetCenter K 2 ⟨2, 3⟩ 1 = ![0, 1 / 2] ∧ facetCenter K 2 ⟨2, 3⟩ 2 = ![1 / 2, 1 / 2] := by
  have h0 : keyVerts ⟨2, 3⟩ ⟨0, 1, 0⟩ = [0, 1] := by decide
  have h1 : keyVerts ⟨2, 3⟩ ⟨1, 1, 0⟩ = [0, 2] := by decide
  have h2 : keyVerts ⟨2, 3⟩ ⟨2, 1, 0⟩ = [1, 2] := by decide
  refine ⟨?_, ?_, ?_⟩ <;> funext d <;> fin_cases d <;> simp [facetCenter, h0, h1, h2, cornerCoord]

theorem tet_centers : facetCenter K 3 ⟨3, 4⟩ 0 = ![1 / 3, 1 / 3, 0] ∧ facetCenter K 3 ⟨3, 4⟩ 1 = ![1 / 3, 0, 1 / 3] ∧ facetCenter K 3 ⟨3, 4⟩ 2 = ![0, 1 / 3, 1 / 3] ∧
    facetCenter K 3 ⟨3, 4⟩ 3 = ![1 / 3, 1 / 3, 1 / 3] := by
  have h0 : keyVerts ⟨3, 4⟩ ⟨0, 1, 0⟩ = [0, 1, 2] := by decide
  have h1 : keyVerts ⟨3, 4⟩ ⟨1, 1, 0⟩ = [0, 1, 3] := by decide
  have h2 : keyVerts ⟨3, 4⟩ ⟨2, 1, 0⟩ = [0, 2, 3] := by decide
  have h3 : keyVerts ⟨3, 4⟩ ⟨3, 1, 0⟩ = [1, 2, 3] := by decide
  refine ⟨?_, ?_, ?_, ?_⟩ <;> funext d <;> fin_cases d <;> simp [facetCenter, h0, h1, h2, h3, cornerCoord]

theorem quad_centers [CharZero K] : facetCenter K 2 ⟨2, 4⟩ 0 = ![0, 1 / 2] ∧ facetCenter K 2 ⟨2, 4⟩ 1 = ![1, 1 / 2] ∧ facetCenter K 2 ⟨2, 4⟩ 2 = ![1 / 2, 0] ∧
    facetCenter K 2 ⟨2, 4⟩ 3 = ![1 / 2, 1] := by
  have h0 : keyVerts ⟨2, 4⟩ ⟨0, 1, 0⟩ = [0, 2] := by decide
  have h1 : keyVerts ⟨2, 4⟩ ⟨1, 1, 0⟩ = [1, 3] := by decide
  have h2 : keyVerts ⟨2, 4⟩ ⟨2, 1, 0⟩ = [0, 1] := by decide
  have h3 : keyVerts ⟨2, 4⟩ ⟨3, 1, 0⟩ = [2, 3] := by decide
  refine ⟨?_, ?_, ?_, ?_⟩ <;> funext d <;> fin_cases d <;> simp [facetCenter, h0, h1, h2, h3, cornerCoord, Nat.testBit]

theorem hex_centers [CharZero K] : facetCenter K 3 ⟨3, 8⟩ 0 = ![0, 1 / 2, 1 / 2] ∧ facetCenter K 3 ⟨3, 8⟩ 1 = ![1, 1 / 2, 1 / 2] ∧ facetCenter K 3 ⟨3, 8⟩ 2 = ![1 / 2, 0, 1 / 2] ∧
    facetCenter K 3 ⟨3, 8⟩ 3 = ![1 / 2, 1, 1 / 2] ∧ facetCenter K 3 ⟨3, 8⟩ 4 = ![1 / 2, 1 / 2, 0] ∧ facetCenter K 3 ⟨3, 8⟩ 5 = ![1 / 2, 1 / 2, 1] := by
  have h0 : keyVerts ⟨3, 8⟩ ⟨0, 1, 0⟩ = [0, 2, 4, 6] := by decide
  have h1 : keyVerts ⟨3, 8⟩ ⟨1, 1, 0⟩ = [1, 3, 5, 7] := by decide
  have h2 : keyVerts ⟨3, 8⟩ ⟨2, 1, 0⟩ = [0, 1, 4, 5] := by decide
  have h3 : keyVerts ⟨3, 8⟩ ⟨3, 1, 0⟩ = [2, 3, 6, 7] := by decide
  have h4 : keyVerts ⟨3, 8⟩ ⟨4, 1, 0⟩ = [0, 1, 2, 3] := by decide
  have h5 : keyVerts ⟨3, 8⟩ ⟨5, 1, 0⟩ = [4, 5, 6, 7] := by decide
  refine ⟨?_, ?_, ?_, ?_, ?_, ?_⟩ <;> funext d <;> fin_cases d <;> simp [facetCenter, h0, h1, h2, h3, h4, h5, cornerCoord, Nat.testBit] <;> norm_num

/-- Combination of the shape functions. -/
def combination (t : Geo) (c : Nat → K) (x : Vec K n) : K := ∑ i ∈ Finset.range (stdSubs t 1).length, c i * (facetShapes t x).getD i 0

theorem facets_length : (stdSubs ⟨2, 3⟩ 1).length = 3 ∧ (stdSubs ⟨3, 4⟩ 1).length = 4 ∧ (stdSubs ⟨2, 4⟩ 1).length = 4 ∧ (stdSubs ⟨3, 8⟩ 1).length = 6 := by
  decide

theorem shapes_length {t : Geo} (h : Accepted n t) (x : Vec K n) : (facetShapes t x).length = (stdSubs t 1).length := by
  obtain ⟨l2, l3, l4, l5⟩ := facets_length
  rcases h.cases with ⟨rfl, rfl⟩ | ⟨rfl, rfl⟩ | ⟨rfl, rfl⟩ | ⟨rfl, rfl⟩ <;> simp [facetShapes, l2, l3, l4, l5]

theorem tri_combination (c : Nat → K) (x : Vec K 2) : combination ⟨2, 3⟩ c x = c 0 * (1 - 2 * x 1) + c 1 * (1 - 2 * x 0) + c 2 * (1 - 2 + (2 * x 0 + 2 * x 1)) := by
  simp [combination, facets_length.1, Finset.sum_range_succ, facetShapes, coordinate, List.range_succ]

theorem tet_combination (c : Nat → K) (x : Vec K 3) :
    combination ⟨3, 4⟩ c x = c 0 * (1 - 3 * x 2) + c 1 * (1 - 3 * x 1) + c 2 * (1 - 3 * x 0) + c 3 * (1 - 3 + (3 * x 0 + 3 * x 1 + 3 * x 2)) := by
  simp [combination, facets_length.2.1, Finset.sum_range_succ, facetShapes, coordinate, List.range_succ, add_assoc]

theorem quad_combination (c : Nat → K) (x : Vec K 2) : combination ⟨2, 4⟩ c x = c 0 * (3 / 4 - 2 * x 0 + x 1 + (x 0 * x 0 - x 1 * x 1)) + c 1 * (-1 / 4 + x 1 + (x 0 * x 0 - x 1 * x 1)) +
    c 2 * (3 / 4 + x 0 - 2 * x 1 - (x 0 * x 0 - x 1 * x 1)) + c 3 * (-1 / 4 + x 0 - (x 0 * x 0 - x 1 * x 1)) := by
  simp [combination, facets_length.2.2.1, Finset.sum_range_succ, facetShapes, coordinate]

theorem hex_combination (c : Nat → K) (x : Vec K 3) : combination ⟨3, 8⟩ c x =
    c 0 * ((2 - 7 * x 0 + 2 * x 1 + 2 * x 2 + 4 * (x 0 * x 0 - x 1 * x 1) + 2 * (x 1 * x 1 - x 2 * x 2)) / 3) +
    c 1 * ((-1 - x 0 + 2 * x 1 + 2 * x 2 + 4 * (x 0 * x 0 - x 1 * x 1) + 2 * (x 1 * x 1 - x 2 * x 2)) / 3) +
    c 2 * ((2 + 2 * x 0 - 7 * x 1 + 2 * x 2 - 2 * (x 0 * x 0 - x 1 * x 1) + 2 * (x 1 * x 1 - x 2 * x 2)) / 3) +
    c 3 * ((-1 + 2 * x 0 - x 1 + 2 * x 2 - 2 * (x 0 * x 0 - x 1 * x 1) + 2 * (x 1 * x 1 - x 2 * x 2)) / 3) +
    c 4 * ((2 + 2 * x 0 + 2 * x 1 - 7 * x 2 - 2 * (x 0 * x 0 - x 1 * x 1) - 4 * (x 1 * x 1 - x 2 * x 2)) / 3) +
    c 5 * ((-1 + 2 * x 0 + 2 * x 1 - x 2 - 2 * (x 0 * x 0 - x 1 * x 1) - 4 * (x 1 * x 1 - x 2 * x 2)) / 3) := by
  simp [combination, facets_length.2.2.2, Finset.sum_range_succ, facetShapes, coordinate]

/-- The coefficients are the values in the centers of the facets. -/
theorem combination_center [CharZero K] {t : Geo} (h : Accepted n t) (c : Nat → K) {i : Nat} (hi : i < (stdSubs t 1).length) : combination t c (facetCenter K n t i) = c i := by
  obtain ⟨l2, l3, l4, l5⟩ := facets_length
  rcases h.cases with ⟨rfl, rfl⟩ | ⟨rfl, rfl⟩ | ⟨rfl, rfl⟩ | ⟨rfl, rfl⟩
  · rw [l2] at hi
    obtain ⟨c0, c1, c2⟩ := tri_centers (K := K)
    interval_cases i <;> simp only [c0, c1, c2, tri_combination, Matrix.cons_val_zero, Matrix.cons_val_one] <;> ring
  · rw [l3] at hi
    obtain ⟨c0, c1, c2, c3⟩ := tet_centers (K := K)
    interval_cases i <;> simp only [c0, c1, c2, c3, tet_combination, Matrix.cons_val_zero, Matrix.cons_val_one, Matrix.cons_val] <;> ring
  · rw [l4] at hi
    obtain ⟨c0, c1, c2, c3⟩ := quad_centers (K := K)
    interval_cases i <;> simp only [c0, c1, c2, c3, quad_combination, Matrix.cons_val_zero, Matrix.cons_val_one] <;> ring
  · rw [l5] at hi
    obtain ⟨c0, c1, c2, c3, c4, c5⟩ := hex_centers (K := K)
    interval_cases i <;> simp only [c0, c1, c2, c3, c4, c5, hex_combination, Matrix.cons_val_zero, Matrix.cons_val_one, Matrix.cons_val] <;> ring

theorem combination_space {t : Geo} (h : Accepted n t) (c : Nat → K) : LocalSpace t (combination (n := n) t c) := by
  rcases h.cases with ⟨rfl, rfl⟩ | ⟨rfl, rfl⟩ | ⟨rfl, rfl⟩ | ⟨rfl, rfl⟩
  · refine ⟨c 0 + c 1 - c 2, ![2 * (c 2 - c 1), 2 * (c 2 - c 0)], fun _ => 0, fun _ _ => rfl, fun x => ?_⟩
    simp only [tri_combination, Fin.sum_univ_two, Matrix.cons_val_zero, Matrix.cons_val_one, zero_mul, Finset.sum_const_zero]
    ring
  · refine ⟨c 0 + c 1 + c 2 - 2 * c 3, ![3 * (c 3 - c 2), 3 * (c 3 - c 1), 3 * (c 3 - c 0)], fun _ => 0, fun _ _ => rfl, fun x => ?_⟩
    simp only [tet_combination, Fin.sum_univ_three, Matrix.cons_val_zero, Matrix.cons_val_one, Matrix.cons_val, zero_mul, Finset.sum_const_zero]
    ring
  · refine ⟨3 / 4 * c 0 + -1 / 4 * c 1 + 3 / 4 * c 2 + -1 / 4 * c 3, ![-2 * c 0 + c 2 + c 3, c 0 + c 1 - 2 * c 2], fun _ => c 0 + c 1 - c 2 - c 3, fun h => absurd h (by decide), fun x => ?_⟩
    have e0 : coordinate x 0 = x 0 := rfl
    have e1 : coordinate x (0 + 1) = x 1 := rfl
    simp only [quad_combination, Fin.sum_univ_two, Matrix.cons_val_zero, Matrix.cons_val_one, Nat.reduceSub, Finset.sum_range_one, e0, e1]
    ring
  · refine ⟨(2 * c 0 - c 1 + 2 * c 2 - c 3 + 2 * c 4 - c 5) / 3,
      ![(-7 * c 0 - c 1 + 2 * c 2 + 2 * c 3 + 2 * c 4 + 2 * c 5) / 3, (2 * c 0 + 2 * c 1 - 7 * c 2 - c 3 + 2 * c 4 + 2 * c 5) / 3,
        (2 * c 0 + 2 * c 1 + 2 * c 2 + 2 * c 3 - 7 * c 4 - c 5) / 3],
      fun d => if d = 0 then (4 * c 0 + 4 * c 1 - 2 * c 2 - 2 * c 3 - 2 * c 4 - 2 * c 5) / 3 else (2 * c 0 + 2 * c 1 + 2 * c 2 + 2 * c 3 - 4 * c 4 - 4 * c 5) / 3,
      fun h => absurd h (by decide), fun x => ?_⟩
    have e0 : coordinate x 0 = x 0 := rfl
    have e1 : coordinate x (0 + 1) = x 1 := rfl
    have e2 : coordinate x (1 + 1) = x 2 := rfl
    simp only [hex_combination, Fin.sum_univ_three, Matrix.cons_val_zero, Matrix.cons_val_one, Matrix.cons_val, Nat.reduceSub, Finset.sum_range_succ, Finset.sum_range_zero, e0, e1, e2,
      if_true, one_ne_zero, if_false]
    ring

/-- Functions of the local space are determined by their values in the centers of the facets. -/
theorem represent [CharZero K] {t : Geo} (h : Accepted n t) {f : Vec K n → K} (hf : LocalSpace t f) (x : Vec K n) : f x = combination t (fun i => f (facetCenter K n t i)) x := by
  obtain ⟨a, b, c, hc, hf⟩ := hf
  rcases h.cases with ⟨rfl, rfl⟩ | ⟨rfl, rfl⟩ | ⟨rfl, rfl⟩ | ⟨rfl, rfl⟩
  · obtain ⟨c0, c1, c2⟩ := tri_centers (K := K)
    simp only [tri_combination, c0, c1, c2, hf, hc rfl, Fin.sum_univ_two, Matrix.cons_val_zero, Matrix.cons_val_one, zero_mul, Finset.sum_const_zero]
    ring
  · obtain ⟨c0, c1, c2, c3⟩ := tet_centers (K := K)
    simp only [tet_combination, c0, c1, c2, c3, hf, hc rfl, Fin.sum_univ_three, Matrix.cons_val_zero, Matrix.cons_val_one, Matrix.cons_val, zero_mul, Finset.sum_const_zero]
    ring
  · have e0 (x : Vec K 2) : coordinate x 0 = x 0 := rfl
    have e1 (x : Vec K 2) : coordinate x (0 + 1) = x 1 := rfl
    obtain ⟨c0, c1, c2, c3⟩ := quad_centers (K := K)
    simp only [quad_combination, c0, c1, c2, c3, hf, Fin.sum_univ_two, Matrix.cons_val_zero, Matrix.cons_val_one, Nat.reduceSub, Finset.sum_range_one, e0, e1]
    ring
  · have e0 (x : Vec K 3) : coordinate x 0 = x 0 := rfl
    have e1 (x : Vec K 3) : coordinate x (0 + 1) = x 1 := rfl
    have e2 (x : Vec K 3) : coordinate x (1 + 1) = x 2 := rfl
    obtain ⟨c0, c1, c2, c3, c4, c5⟩ := hex_centers (K := K)
    simp only [hex_combination, c0, c1, c2, c3, c4, c5, hf, Fin.sum_univ_three, Matrix.cons_val_zero, Matrix.cons_val_one, Matrix.cons_val, Nat.reduceSub, Finset.sum_range_succ,
      Finset.sum_range_zero, e0, e1, e2]
    ring


/-! ## On a grid -/

theorem accepted {G : GridView E S} (h : StdGrid G) (ha : rtAccept G = true) (hn : G.dim = n) (hd : 2 ≤ n) (e : E) : Accepted n (G.elemGeo e) := by
  have hm := h.base.elemMem e
  simp only [rtAccept, List.all_eq_true, List.mem_filter, decide_eq_true_eq, Bool.or_eq_true] at ha
  have h1 := ha _ ⟨hm.1, hm.2⟩
  have h2 : 2 ≤ (G.elemGeo e).dim := by rw [hm.2, hn]; exact hd
  refine ⟨?_, by rw [hm.2, hn]⟩
  have ht := h.type e
  revert h1 h2 ht
  generalize G.elemGeo e = t
  intro h1 h2 ht
  simp only [elemTypes, List.mem_cons, List.not_mem_nil, or_false] at ht
  rcases ht with rfl | rfl | rfl | rfl | rfl | rfl | rfl <;> revert h1 h2 <;> decide

theorem facet_geo {G : GridView E S} (h : StdGrid G) {e : E} {i : Nat} (hi : i < (stdSubs (G.elemGeo e) 1).length) :
    G.geo (G.sub e 1 i) = ⟨G.dim - 1, (keyVerts (G.elemGeo e) ⟨i, 1, 0⟩).length⟩ := by
  have hi' : i < (subVerts (refOf (G.elemGeo e)) 1).length := by simpa [stdSubs] using hi
  refine h.base.subGeo e 1 i _ ?_
  rw [h.std, stdSubs, List.getElem?_map, List.getElem?_eq_getElem hi', Option.map_some, (refOf_table _ (h.type e)).1, (h.base.elemMem e).2, keyVerts, List.getD_eq_getElem?_getD,
    List.getElem?_eq_getElem hi', Option.getD_some]

theorem value_combination {G : GridView E S} {e : E} (ha : Accepted n (G.elemGeo e)) (vec : Nat → K) (x : Vec K n) :
    value G vec e x = combination (G.elemGeo e) (fun i => vec (G.idx (G.sub e 1 i))) x := by
  have hfold : ∀ (L : List (K × K)) (y : K), L.foldl (fun y cv => y + cv.1 * cv.2) y = y + (L.map fun cv => cv.1 * cv.2).sum := by
    intro L
    induction L with
    | nil => simp
    | cons a L ih => intro y; rw [List.foldl_cons, ih, List.map_cons, List.sum_cons, add_assoc]
  rw [value, hfold, zero_add, combination, Finset.sum_range, Fin.sum_univ_def]
  have hl := shapes_length ha x
  congr 1
  apply List.ext_getElem
  · simp [rtLeaf, facetsOf, hl]
  · intro l h1 h2
    have hl' : l < (facetShapes (G.elemGeo e) x).length := by
      simp only [List.length_map, List.length_finRange] at h2
      omega
    simp [rtLeaf, facetsOf, hl']

/-- The grid has only one type of facets. -/
def OneFacetType (G : GridView E S) : Prop := ∀ t ∈ G.types, ∀ t' ∈ G.types, t.dim + 1 = G.dim → t'.dim + 1 = G.dim → t = t'

/-- **C94.** The functions of the basis are exactly the functions of the local spaces with equal values in the centers of common facets. The full statement has no assumption `OneFacetType`; it is false
(`C94_false`). -/
theorem C94_space_partial [CharZero K] {G : GridView E S} (h : StdGrid G) (ha : rtAccept G = true) (hn : G.dim = n) (hd : 2 ≤ n) (hone : OneFacetType G) (f : E → Vec K n → K) :
    ((∀ e, LocalSpace (G.elemGeo e) (f e)) ∧ CenterContinuous G f) ↔ ∃ vec : Nat → K, ∀ e x, f e x = value G vec e x := by
  have acc := accepted h ha hn hd
  have hG : 1 ≤ G.dim := by omega
  constructor
  · rintro ⟨hs, hc⟩
    have hex : ∀ j : Nat, ∃ y : K, ∀ e i, i < (stdSubs (G.elemGeo e) 1).length → G.idx (G.sub e 1 i) = j → f e (facetCenter K n (G.elemGeo e) i) = y := by
      intro j
      by_cases hj : ∃ e i, i < (stdSubs (G.elemGeo e) 1).length ∧ G.idx (G.sub e 1 i) = j
      · obtain ⟨e, i, hi, hj⟩ := hj
        refine ⟨_, fun e' i' hi' hj' => hc e' i' e i hi' hi (h.base.idxInj _ _ ?_ (by rw [hj, hj']))⟩
        exact hone _ (h.base.geoMem _) _ (h.base.geoMem _) (by rw [facet_geo h hi']; simp only; omega) (by rw [facet_geo h hi]; simp only; omega)
      · exact ⟨0, fun e i hi h => absurd ⟨e, i, hi, h⟩ hj⟩
    choose vec hvec using hex
    refine ⟨vec, fun e x => ?_⟩
    rw [value_combination (acc e), represent (acc e) (hs e) x]
    refine Finset.sum_congr rfl fun i hi => ?_
    simp only [hvec _ e i (Finset.mem_range.1 hi) rfl]
  · rintro ⟨vec, hvec⟩
    refine ⟨fun e => ?_, fun e i e' i' hi hi' hsub => ?_⟩
    · rw [show f e = combination (n := n) (G.elemGeo e) _ from funext fun x => by rw [hvec, value_combination (acc e)]]
      exact combination_space (acc e) _
    · rw [hvec, hvec, value_combination (acc e), value_combination (acc e'), combination_center (acc e) _ hi, combination_center (acc e') _ hi', hsub]

/-- **C94.** The coefficient of a facet is the value in its center, on every element (also for several types of facets). -/
theorem C94_center [CharZero K] {G : GridView E S} (h : StdGrid G) (ha : rtAccept G = true) (hn : G.dim = n) (hd : 2 ≤ n) (vec : Nat → K) {e : E} {i : Nat} (hi : i < (stdSubs (G.elemGeo e) 1).length) :
    value G vec e (facetCenter K n (G.elemGeo e) i) = vec (G.idx (G.sub e 1 i)) := by
  rw [value_combination (accepted h ha hn hd e), combination_center (accepted h ha hn hd e) _ hi]

/-- **C94.** The coefficients are determined by the function. -/
theorem C94_unique_partial [CharZero K] {G : GridView E S} (h : StdGrid G) (ha : rtAccept G = true) (hn : G.dim = n) (hd : 2 ≤ n) (hone : OneFacetType G) (vec vec' : Nat → K)
    (heq : ∀ e (x : Vec K n), value G vec e x = value G vec' e x) : ∀ j < (rtLeaf G fun e => facetsOf (G.elemGeo e)).dim, vec j = vec' j := by
  intro j hj
  rw [(C58_partial h (by omega) (fun e => facetsOf (G.elemGeo e)) (fun e i hi => List.mem_range.1 hi) hone).1] at hj
  obtain ⟨s, k, hk, rfl⟩ := mapper_surj h.base _ j hj
  obtain ⟨e, c, i, hc, hi, rfl⟩ := h.base.subSurj s
  rw [h.std] at hi
  have hg := h.base.subGeo e c i _ (by rw [h.std]; exact List.getElem?_eq_getElem hi)
  have hfl : (G.geo (G.sub e c i)).dim + 1 = G.dim := by
    by_contra hne
    rw [facetLayout, if_neg hne] at hk
    omega
  rw [facetLayout, if_pos hfl] at hk
  have hc1 : c = 1 := by
    rw [hg] at hfl
    simp only [stdSubs, List.getElem_map] at hfl
    rw [(refOf_table _ (h.type e)).1, (h.base.elemMem e).2] at hfl
    omega
  subst hc1
  have hl := (C58_partial h (by omega) (fun e => facetsOf (G.elemGeo e)) (fun e i hi => List.mem_range.1 hi) hone).2 e
  have hl := congrArg (fun l => l[i]?) hl
  simp only [rtLeaf, mapperLeaf, facetsOf, List.map_map, List.getElem?_map, List.getElem?_range hi, Option.map_some, Option.some.injEq, Function.comp] at hl
  rw [show k = 0 by omega, ← hl, ← C94_center h ha hn hd vec hi, ← C94_center h ha hn hd vec' hi, heq]

/-- **C94.** `interpolate` (nodal values in the facet centers) reproduces the values of `f` in the facet centers, and `f` if it belongs to the local spaces. Other entries are unchanged. -/
theorem C94_interpolate_partial {G : GridView E S} (h : StdGrid G) (ha : rtAccept G = true) (hn : G.dim = n) (hd : 2 ≤ n) (hone : OneFacetType G) {f : E → Vec ℝ n → ℝ} (hf : CenterContinuous G f)
    (vec : Nat → ℝ) (es : List E) :
    ∃ r, FE.Interpolation.interpolateAll ((rtLeaf G fun e => facetsOf (G.elemGeo e)).loc)
        (fun _ e => some ((facetsOf (G.elemGeo e)).map fun i => f e (facetCenter ℝ n (G.elemGeo e) i))) vec es = some r ∧
      (∀ e ∈ es, ∀ i < (stdSubs (G.elemGeo e) 1).length, value G r e (facetCenter ℝ n (G.elemGeo e) i) = f e (facetCenter ℝ n (G.elemGeo e) i)) ∧
      (∀ e ∈ es, LocalSpace (G.elemGeo e) (f e) → ∀ x, value G r e x = f e x) ∧
      ∀ j, (∀ e ∈ es, j ∉ (rtLeaf G fun e => facetsOf (G.elemGeo e)).loc e) → r j = vec j := by
  have acc := accepted h ha hn hd
  have get : ∀ (e : E) (l : Nat) (x : ℝ), ((facetsOf (G.elemGeo e)).map fun i => f e (facetCenter ℝ n (G.elemGeo e) i))[l]? = some x ↔
      l < (stdSubs (G.elemGeo e) 1).length ∧ f e (facetCenter ℝ n (G.elemGeo e) l) = x := by
    intro e l x
    rw [List.getElem?_map, Option.map_eq_some_iff]
    constructor
    · rintro ⟨i, hi, rfl⟩
      rw [facetsOf, List.getElem?_eq_some_iff] at hi
      obtain ⟨hi, rfl⟩ := hi
      rw [List.length_range] at hi
      exact ⟨hi, by rw [List.getElem_range]⟩
    · rintro ⟨hl, rfl⟩
      exact ⟨l, by rw [facetsOf, List.getElem?_range hl], rfl⟩
  have loc : ∀ (e : E) (l : Nat), l < (stdSubs (G.elemGeo e) 1).length → ((rtLeaf G fun e => facetsOf (G.elemGeo e)).loc e)[l]? = some (G.idx (G.sub e 1 l)) := by
    intro e l hl
    simp [rtLeaf, facetsOf, List.getElem?_range hl]
  obtain ⟨r, h1, h2, h3⟩ := FE.Interpolation.interpolateAll_spec (loc := (rtLeaf G fun e => facetsOf (G.elemGeo e)).loc)
    (coefs := fun _ e => some ((facetsOf (G.elemGeo e)).map fun i => f e (facetCenter ℝ n (G.elemGeo e) i)))
    (c := fun e => (facetsOf (G.elemGeo e)).map fun i => f e (facetCenter ℝ n (G.elemGeo e) i)) (fun _ _ => rfl) (fun e => by simp [rtLeaf]) (by
      intro e e' l l' j x x' hl hl' hx hx'
      rw [get] at hx hx'
      obtain ⟨i1, rfl⟩ := hx
      obtain ⟨i1', rfl⟩ := hx'
      rw [loc e l i1] at hl
      rw [loc e' l' i1', ← hl, Option.some.injEq] at hl'
      refine hf e l e' l' i1 i1' (h.base.idxInj _ _ ?_ hl'.symm)
      have hG : 1 ≤ G.dim := by omega
      exact hone _ (h.base.geoMem _) _ (h.base.geoMem _) (by rw [facet_geo h i1]; simp only; omega) (by rw [facet_geo h i1']; simp only; omega)) vec es
  have nodal : ∀ e ∈ es, ∀ i < (stdSubs (G.elemGeo e) 1).length, r (G.idx (G.sub e 1 i)) = f e (facetCenter ℝ n (G.elemGeo e) i) := fun e he i hi =>
    h2 e he i _ _ (loc e i hi) ((get e i _).2 ⟨hi, rfl⟩)
  refine ⟨r, h1, fun e he i hi => by rw [C94_center h ha hn hd r hi, nodal e he i hi], fun e he hs x => ?_, h3⟩
  rw [value_combination (acc e), represent (acc e) hs x]
  refine Finset.sum_congr rfl fun i hi => ?_
  simp only [nodal e he i (Finset.mem_range.1 hi)]

/-- **C94.** Interpolation of a discrete function restores its coefficients. -/
theorem C94_roundTrip_partial {G : GridView E S} (h : StdGrid G) (ha : rtAccept G = true) (hn : G.dim = n) (hd : 2 ≤ n) (hone : OneFacetType G) (coef vec : Nat → ℝ) (es : List E)
    (hall : ∀ e, e ∈ es) :
    ∃ r, FE.Interpolation.interpolateAll ((rtLeaf G fun e => facetsOf (G.elemGeo e)).loc)
        (fun _ e => some ((facetsOf (G.elemGeo e)).map fun i => value (n := n) G coef e (facetCenter ℝ n (G.elemGeo e) i))) vec es = some r ∧
      ∀ j < (rtLeaf G fun e => facetsOf (G.elemGeo e)).dim, r j = coef j := by
  obtain ⟨hs, hc⟩ := (C94_space_partial h ha hn hd hone (value (n := n) G coef)).2 ⟨coef, fun _ _ => rfl⟩
  obtain ⟨r, h1, -, h2, -⟩ := C94_interpolate_partial h ha hn hd hone hc vec es
  exact ⟨r, h1, C94_unique_partial h ha hn hd hone r coef fun e x => h2 e (hall e) (hs e) x⟩

/-! ## The centers are common points of the elements -/

theorem weight_center [CharZero K] {t : Geo} (h : Accepted n t) {i v : Nat} (hi : i < (stdSubs t 1).length) (hv : v < t.nv) :
    vertexWeight t v (facetCenter K n t i) = if v ∈ keyVerts t ⟨i, 1, 0⟩ then 1 / ((keyVerts t ⟨i, 1, 0⟩).length : K) else 0 := by
  obtain ⟨l2, l3, l4, l5⟩ := facets_length
  rcases h.cases with ⟨rfl, rfl⟩ | ⟨rfl, rfl⟩ | ⟨rfl, rfl⟩ | ⟨rfl, rfl⟩
  · rw [l2] at hi
    obtain ⟨c0, c1, c2⟩ := tri_centers (K := K)
    have h0 : keyVerts ⟨2, 3⟩ ⟨0, 1, 0⟩ = [0, 1] := by decide
    have h1 : keyVerts ⟨2, 3⟩ ⟨1, 1, 0⟩ = [0, 2] := by decide
    have h2 : keyVerts ⟨2, 3⟩ ⟨2, 1, 0⟩ = [1, 2] := by decide
    simp only at hv
    interval_cases i <;> interval_cases v <;> simp [c0, c1, c2, h0, h1, h2, vertexWeight, prismType, bary] <;> ring
  · rw [l3] at hi
    obtain ⟨c0, c1, c2, c3⟩ := tet_centers (K := K)
    have h0 : keyVerts ⟨3, 4⟩ ⟨0, 1, 0⟩ = [0, 1, 2] := by decide
    have h1 : keyVerts ⟨3, 4⟩ ⟨1, 1, 0⟩ = [0, 1, 3] := by decide
    have h2 : keyVerts ⟨3, 4⟩ ⟨2, 1, 0⟩ = [0, 2, 3] := by decide
    have h3 : keyVerts ⟨3, 4⟩ ⟨3, 1, 0⟩ = [1, 2, 3] := by decide
    simp only at hv
    interval_cases i <;> interval_cases v <;> simp [c0, c1, c2, c3, h0, h1, h2, h3, vertexWeight, prismType, bary, Fin.sum_univ_three] <;> ring
  · rw [l4] at hi
    obtain ⟨c0, c1, c2, c3⟩ := quad_centers (K := K)
    have h0 : keyVerts ⟨2, 4⟩ ⟨0, 1, 0⟩ = [0, 2] := by decide
    have h1 : keyVerts ⟨2, 4⟩ ⟨1, 1, 0⟩ = [1, 3] := by decide
    have h2 : keyVerts ⟨2, 4⟩ ⟨2, 1, 0⟩ = [0, 1] := by decide
    have h3 : keyVerts ⟨2, 4⟩ ⟨3, 1, 0⟩ = [2, 3] := by decide
    simp only at hv
    interval_cases i <;> interval_cases v <;> simp [c0, c1, c2, c3, h0, h1, h2, h3, vertexWeight, cubeBw, Nat.testBit] <;> norm_num
  · rw [l5] at hi
    obtain ⟨c0, c1, c2, c3, c4, c5⟩ := hex_centers (K := K)
    have h0 : keyVerts ⟨3, 8⟩ ⟨0, 1, 0⟩ = [0, 2, 4, 6] := by decide
    have h1 : keyVerts ⟨3, 8⟩ ⟨1, 1, 0⟩ = [1, 3, 5, 7] := by decide
    have h2 : keyVerts ⟨3, 8⟩ ⟨2, 1, 0⟩ = [0, 1, 4, 5] := by decide
    have h3 : keyVerts ⟨3, 8⟩ ⟨3, 1, 0⟩ = [2, 3, 6, 7] := by decide
    have h4 : keyVerts ⟨3, 8⟩ ⟨4, 1, 0⟩ = [0, 1, 2, 3] := by decide
    have h5 : keyVerts ⟨3, 8⟩ ⟨5, 1, 0⟩ = [4, 5, 6, 7] := by decide
    simp only at hv
    interval_cases i <;> interval_cases v <;> simp [c0, c1, c2, c3, c4, c5, h0, h1, h2, h3, h4, h5, vertexWeight, cubeBw, Nat.testBit, Fin.prod_univ_three] <;> norm_num

/-- **C94.** The centers of a facet seen from two elements are the same point: continuous functions agree there. -/
theorem C94_meets [CharZero K] {G : LGrid E S α} (h : G.OK) (ha : rtAccept G.toGridView = true) (hn : G.dim = n) (hd : 2 ≤ n) {e e' : E} {i i' : Nat} (hi : i < (stdSubs (G.elemGeo e) 1).length)
    (hi' : i' < (stdSubs (G.elemGeo e') 1).length) (hsub : G.sub e 1 i = G.sub e' 1 i') :
    Meets G e (facetCenter K n (G.elemGeo e) i) e' (facetCenter K n (G.elemGeo e') i') := by
  have hstd : StdGrid G.toGridView := ⟨h.base, h.std, h.type, h.elemInj⟩
  have acc := accepted hstd ha hn hd
  have hG : 1 ≤ G.dim := by omega
  have hdim : ∀ e, (G.elemGeo e).dim = G.dim := fun e => (h.base.elemMem e).2
  have hlen : (keyVerts (G.elemGeo e) ⟨i, 1, 0⟩).length = (keyVerts (G.elemGeo e') ⟨i', 1, 0⟩).length := by
    have g1 := facet_geo hstd hi
    have g2 := facet_geo hstd hi'
    rw [hsub, g2, Geo.mk.injEq] at g1
    exact g1.2.symm
  have hids := Hierarchical.verts_perm h (k := ⟨i, 1, 0⟩) (k' := ⟨i', 1, 0⟩) (e := e) (e' := e') hG hG hi hi' hsub
  obtain ⟨-, b1, -⟩ := keyVerts_table (h.type e) (k := ⟨i, 1, 0⟩) (by rw [hdim]; exact hG) hi
  obtain ⟨-, b1', -⟩ := keyVerts_table (h.type e') (k := ⟨i', 1, 0⟩) (by rw [hdim]; exact hG) hi'
  refine ⟨1, i, 1, i', le_refl _, hG, hG, hi, hi', hsub, ?_, ?_, ?_⟩
  · intro v hv hvk
    rw [weight_center (acc e) hi hv, if_neg hvk]
  · intro v hv hvk
    rw [weight_center (acc e') hi' hv, if_neg hvk]
  · intro v hv v' hv' hid
    rw [weight_center (acc e) hi hv, weight_center (acc e') hi' hv', hlen]
    refine if_congr ⟨fun hmem => ?_, fun hmem => ?_⟩ rfl rfl
    · obtain ⟨w, hw, hw'⟩ := List.mem_map.1 (hids.mem_iff.1 (List.mem_map_of_mem hmem))
      rw [← h.idsInj e' w v' (b1' w hw) hv' (by rw [hw', hid])]
      exact hw
    · obtain ⟨w, hw, hw'⟩ := List.mem_map.1 (hids.mem_iff.2 (List.mem_map_of_mem hmem))
      rw [← h.idsInj e w v (b1 w hw) hv (by rw [hw', hid])]
      exact hw

/-- **C94.** Continuous functions of the local spaces belong to the space. -/
theorem C94_conforming_partial [CharZero K] {G : LGrid E S α} (h : G.OK) (ha : rtAccept G.toGridView = true) (hn : G.dim = n) (hd : 2 ≤ n) (hone : OneFacetType G.toGridView) {f : E → Vec K n → K}
    (hf : Continuity.Continuous G f) (hs : ∀ e, LocalSpace (G.elemGeo e) (f e)) : ∃ vec : Nat → K, ∀ e x, f e x = value G.toGridView vec e x :=
  (C94_space_partial ⟨h.base, h.std, h.type, h.elemInj⟩ ha hn hd hone f).1 ⟨hs, fun _ _ _ _ hi hi' hsub => hf _ _ _ _ (C94_meets h ha hn hd hi hi' hsub)⟩

/-! ## Integrals over facets -/

/-- Integral over edge `i` of a two-dimensional element, divided by the length: parametrized by the unit interval. -/
noncomputable def edgeMean (t : Geo) (i : Nat) (f : Vec ℝ 2 → ℝ) : ℝ :=
  let V := keyVerts t ⟨i, 1, 0⟩
  ∫ s in (0 : ℝ)..1, f fun d => (1 - s) * cornerCoord ℝ t (V.getD 0 0) d + s * cornerCoord ℝ t (V.getD 1 0) d

/-- Mean over facet `i` of a tetrahedron, a triangle: parametrized by the reference triangle, which has the area 1/2. -/
noncomputable def triangleMean (t : Geo) (i : Nat) (f : Vec ℝ 3 → ℝ) : ℝ :=
  let V := keyVerts t ⟨i, 1, 0⟩
  2 * ∫ s in (0 : ℝ)..1, ∫ r in (0 : ℝ)..(1 - s), f fun d =>
    (1 - s - r) * cornerCoord ℝ t (V.getD 0 0) d + s * cornerCoord ℝ t (V.getD 1 0) d + r * cornerCoord ℝ t (V.getD 2 0) d

theorem integral_segment (p q : ℝ) : ∫ s in (0 : ℝ)..1, (1 - s) * p + s * q = (p + q) / 2 := by
  have h1 : (fun s : ℝ => (1 - s) * p + s * q) = fun s => p + (q - p) * s := by funext s; ring
  rw [h1, intervalIntegral.integral_add (by simp) ((by fun_prop : _root_.Continuous fun s : ℝ => (q - p) * s).intervalIntegrable _ _), intervalIntegral.integral_const_mul, integral_id,
    intervalIntegral.integral_const, smul_eq_mul]
  ring

theorem integral_triangle (p q r : ℝ) : ∫ s in (0 : ℝ)..1, ∫ t in (0 : ℝ)..(1 - s), (1 - s - t) * p + s * q + t * r = (p + q + r) / 6 := by
  have h1 (s : ℝ) : ∫ t in (0 : ℝ)..(1 - s), (1 - s - t) * p + s * q + t * r = (p + (r - p) / 2) + ((q - 2 * p - (r - p)) * s + (p - q + (r - p) / 2) * s ^ 2) := by
    have h2 : (fun t : ℝ => (1 - s - t) * p + s * q + t * r) = fun t => ((1 - s) * p + s * q) + (r - p) * t := by funext t; ring
    rw [h2, intervalIntegral.integral_add (by simp) ((by fun_prop : _root_.Continuous fun t : ℝ => (r - p) * t).intervalIntegrable _ _), intervalIntegral.integral_const_mul, integral_id,
      intervalIntegral.integral_const, smul_eq_mul]
    ring
  simp only [h1]
  rw [intervalIntegral.integral_add (by simp) ((by fun_prop : _root_.Continuous fun s : ℝ => (q - 2 * p - (r - p)) * s + (p - q + (r - p) / 2) * s ^ 2).intervalIntegrable _ _),
    intervalIntegral.integral_add ((by fun_prop : _root_.Continuous fun s : ℝ => (q - 2 * p - (r - p)) * s).intervalIntegrable _ _)
      ((by fun_prop : _root_.Continuous fun s : ℝ => (p - q + (r - p) / 2) * s ^ 2).intervalIntegrable _ _),
    intervalIntegral.integral_const_mul, intervalIntegral.integral_const_mul, integral_id, integral_pow, intervalIntegral.integral_const, smul_eq_mul]
  norm_num
  ring

theorem edgeMean_center {f : Vec ℝ 2 → ℝ} (hf : LocalSpace ⟨2, 3⟩ f) {i : Nat} (hi : i < (stdSubs ⟨2, 3⟩ 1).length) : edgeMean ⟨2, 3⟩ i f = f (facetCenter ℝ 2 ⟨2, 3⟩ i) := by
  obtain ⟨a, b, c, hc, hf⟩ := hf
  have tab : ∀ i < (stdSubs ⟨2, 3⟩ 1).length, (keyVerts ⟨2, 3⟩ ⟨i, 1, 0⟩) = [(keyVerts ⟨2, 3⟩ ⟨i, 1, 0⟩).getD 0 0, (keyVerts ⟨2, 3⟩ ⟨i, 1, 0⟩).getD 1 0] := by decide
  have ht := tab i hi
  simp only [edgeMean]
  generalize (keyVerts ⟨2, 3⟩ ⟨i, 1, 0⟩).getD 0 0 = v at ht ⊢
  generalize (keyVerts ⟨2, 3⟩ ⟨i, 1, 0⟩).getD 1 0 = w at ht ⊢
  have hfc : facetCenter ℝ 2 ⟨2, 3⟩ i = fun d : Fin 2 => (cornerCoord ℝ ⟨2, 3⟩ v d + cornerCoord ℝ ⟨2, 3⟩ w d) / 2 := by
    funext d
    rw [facetCenter, ht]
    simp
  simp only [hfc, hf, hc rfl, zero_mul, Finset.sum_const_zero, add_zero, Fin.sum_univ_two]
  generalize cornerCoord ℝ ⟨2, 3⟩ v ((0 : Fin 2) : Nat) = p0
  generalize cornerCoord ℝ ⟨2, 3⟩ v ((1 : Fin 2) : Nat) = p1
  generalize cornerCoord ℝ ⟨2, 3⟩ w ((0 : Fin 2) : Nat) = q0
  generalize cornerCoord ℝ ⟨2, 3⟩ w ((1 : Fin 2) : Nat) = q1
  have h1 : (fun s : ℝ => a + (b 0 * ((1 - s) * p0 + s * q0) + b 1 * ((1 - s) * p1 + s * q1))) = fun s => (1 - s) * (a + b 0 * p0 + b 1 * p1) + s * (a + b 0 * q0 + b 1 * q1) := by
    funext s; ring
  rw [h1, integral_segment]
  ring

theorem triangleMean_center {f : Vec ℝ 3 → ℝ} (hf : LocalSpace ⟨3, 4⟩ f) {i : Nat} (hi : i < (stdSubs ⟨3, 4⟩ 1).length) :
    triangleMean ⟨3, 4⟩ i f = f (facetCenter ℝ 3 ⟨3, 4⟩ i) := by
  obtain ⟨a, b, c, hc, hf⟩ := hf
  have tab : ∀ i < (stdSubs ⟨3, 4⟩ 1).length, (keyVerts ⟨3, 4⟩ ⟨i, 1, 0⟩) =
      [(keyVerts ⟨3, 4⟩ ⟨i, 1, 0⟩).getD 0 0, (keyVerts ⟨3, 4⟩ ⟨i, 1, 0⟩).getD 1 0, (keyVerts ⟨3, 4⟩ ⟨i, 1, 0⟩).getD 2 0] := by decide
  have ht := tab i hi
  simp only [triangleMean]
  generalize (keyVerts ⟨3, 4⟩ ⟨i, 1, 0⟩).getD 0 0 = u at ht ⊢
  generalize (keyVerts ⟨3, 4⟩ ⟨i, 1, 0⟩).getD 1 0 = v at ht ⊢
  generalize (keyVerts ⟨3, 4⟩ ⟨i, 1, 0⟩).getD 2 0 = w at ht ⊢
  have hfc : facetCenter ℝ 3 ⟨3, 4⟩ i = fun d : Fin 3 => (cornerCoord ℝ ⟨3, 4⟩ u d + cornerCoord ℝ ⟨3, 4⟩ v d + cornerCoord ℝ ⟨3, 4⟩ w d) / 3 := by
    funext d
    rw [facetCenter, ht]
    simp [add_assoc]
  simp only [hfc, hf, hc rfl, zero_mul, Finset.sum_const_zero, add_zero, Fin.sum_univ_three]
  generalize cornerCoord ℝ ⟨3, 4⟩ u = p
  generalize cornerCoord ℝ ⟨3, 4⟩ v = q
  generalize cornerCoord ℝ ⟨3, 4⟩ w = r
  have h1 : (fun s : ℝ => ∫ t in (0 : ℝ)..(1 - s), a + (b 0 * ((1 - s - t) * p (0 : Fin 3) + s * q (0 : Fin 3) + t * r (0 : Fin 3)) +
        b 1 * ((1 - s - t) * p (1 : Fin 3) + s * q (1 : Fin 3) + t * r (1 : Fin 3)) + b 2 * ((1 - s - t) * p (2 : Fin 3) + s * q (2 : Fin 3) + t * r (2 : Fin 3)))) =
      fun s => ∫ t in (0 : ℝ)..(1 - s), (1 - s - t) * (a + b 0 * p (0 : Fin 3) + b 1 * p (1 : Fin 3) + b 2 * p (2 : Fin 3)) +
        s * (a + b 0 * q (0 : Fin 3) + b 1 * q (1 : Fin 3) + b 2 * q (2 : Fin 3)) + t * (a + b 0 * r (0 : Fin 3) + b 1 * r (1 : Fin 3) + b 2 * r (2 : Fin 3)) := by
    funext s
    refine intervalIntegral.integral_congr fun t _ => ?_
    ring
  rw [h1, integral_triangle]
  ring

/-- **C94.** On triangles, the means of the functions of the basis over common edges agree. -/
theorem C94_mean_triangles {G : GridView E S} (h : StdGrid G) (ha : rtAccept G = true) (hn : G.dim = 2) (vec : Nat → ℝ) {e e' : E} {i i' : Nat} (ht : G.elemGeo e = ⟨2, 3⟩)
    (ht' : G.elemGeo e' = ⟨2, 3⟩) (hi : i < (stdSubs (G.elemGeo e) 1).length) (hi' : i' < (stdSubs (G.elemGeo e') 1).length) (hsub : G.sub e 1 i = G.sub e' 1 i') :
    edgeMean (G.elemGeo e) i (value G vec e) = edgeMean (G.elemGeo e') i' (value G vec e') := by
  have acc := accepted h ha hn (by decide)
  have hs : ∀ e, LocalSpace (G.elemGeo e) (value (n := 2) G vec e) := fun e => by
    rw [show value (n := 2) G vec e = combination (G.elemGeo e) _ from funext fun x => value_combination (acc e) vec x]
    exact combination_space (acc e) _
  have c1 := C94_center h ha hn (by decide) vec hi
  have c2 := C94_center h ha hn (by decide) vec hi'
  have s1 := hs e
  have s2 := hs e'
  rw [ht] at hi s1 c1 ⊢
  rw [ht'] at hi' s2 c2 ⊢
  rw [edgeMean_center s1 hi, edgeMean_center s2 hi', c1, c2, hsub]

/-- **C94.** On tetrahedra, the means of the functions of the basis over common facets agree. -/
theorem C94_mean_tetrahedra {G : GridView E S} (h : StdGrid G) (ha : rtAccept G = true) (hn : G.dim = 3) (vec : Nat → ℝ) {e e' : E} {i i' : Nat} (ht : G.elemGeo e = ⟨3, 4⟩)
    (ht' : G.elemGeo e' = ⟨3, 4⟩) (hi : i < (stdSubs (G.elemGeo e) 1).length) (hi' : i' < (stdSubs (G.elemGeo e') 1).length) (hsub : G.sub e 1 i = G.sub e' 1 i') :
    triangleMean (G.elemGeo e) i (value G vec e) = triangleMean (G.elemGeo e') i' (value G vec e') := by
  have acc := accepted h ha hn (by decide)
  have hs : ∀ e, LocalSpace (G.elemGeo e) (value (n := 3) G vec e) := fun e => by
    rw [show value (n := 3) G vec e = combination (G.elemGeo e) _ from funext fun x => value_combination (acc e) vec x]
    exact combination_space (acc e) _
  have c1 := C94_center h ha hn (by decide) vec hi
  have c2 := C94_center h ha hn (by decide) vec hi'
  have s1 := hs e
  have s2 := hs e'
  rw [ht] at hi s1 c1 ⊢
  rw [ht'] at hi' s2 c2 ⊢
  rw [triangleMean_center s1 hi, triangleMean_center s2 hi', c1, c2, hsub]

/-- **C94**, not for cubes: a quadrilateral and a triangle with a common edge; the function of this edge has the mean 11/12 on the side of the quadrilateral and 1 on the other side. -/
theorem C94_mean_false : rtAccept mixedGrid.toGridView = true ∧ OneFacetType mixedGrid.toGridView ∧ mixedGrid.sub 0 1 1 = mixedGrid.sub 1 1 0 ∧
    edgeMean (mixedGrid.elemGeo 0) 1 (value mixedGrid.toGridView (fun j => if j = 1 then 1 else 0) 0) = 11 / 12 ∧
    edgeMean (mixedGrid.elemGeo 1) 0 (value mixedGrid.toGridView (fun j => if j = 1 then 1 else 0) 1) = 1 := by
  have hstd : StdGrid mixedGrid.toGridView := ⟨mixedGrid_OK.base, mixedGrid_OK.std, mixedGrid_OK.type, mixedGrid_OK.elemInj⟩
  have ha : rtAccept mixedGrid.toGridView = true := by decide
  have acc := accepted (n := 2) hstd ha rfl (le_refl _)
  refine ⟨ha, by unfold OneFacetType; decide, by decide, ?_, ?_⟩
  · have hv : keyVerts ⟨2, 4⟩ ⟨1, 1, 0⟩ = [1, 3] := by decide
    have hidx : ∀ i < 4, mixedGrid.idx (mixedGrid.sub 0 1 i) = i := by decide
    have h1 : ∀ x : Vec ℝ 2, value mixedGrid.toGridView (fun j => if j = 1 then (1 : ℝ) else 0) 0 x = -1 / 4 + x 1 + (x 0 * x 0 - x 1 * x 1) := by
      intro x
      rw [value_combination (acc 0), show mixedGrid.elemGeo 0 = ⟨2, 4⟩ from rfl, quad_combination, hidx 0 (by decide), hidx 1 (by decide), hidx 2 (by decide), hidx 3 (by decide)]
      simp
    rw [show mixedGrid.elemGeo 0 = ⟨2, 4⟩ from rfl, edgeMean, hv]
    simp only [h1]
    have h2 : ∀ s : ℝ, (-1 / 4 + ((1 - s) * cornerCoord ℝ ⟨2, 4⟩ ([1, 3].getD 0 0) ((1 : Fin 2) : Nat) + s * cornerCoord ℝ ⟨2, 4⟩ ([1, 3].getD 1 0) ((1 : Fin 2) : Nat)) +
        (((1 - s) * cornerCoord ℝ ⟨2, 4⟩ ([1, 3].getD 0 0) ((0 : Fin 2) : Nat) + s * cornerCoord ℝ ⟨2, 4⟩ ([1, 3].getD 1 0) ((0 : Fin 2) : Nat)) *
          ((1 - s) * cornerCoord ℝ ⟨2, 4⟩ ([1, 3].getD 0 0) ((0 : Fin 2) : Nat) + s * cornerCoord ℝ ⟨2, 4⟩ ([1, 3].getD 1 0) ((0 : Fin 2) : Nat)) -
        ((1 - s) * cornerCoord ℝ ⟨2, 4⟩ ([1, 3].getD 0 0) ((1 : Fin 2) : Nat) + s * cornerCoord ℝ ⟨2, 4⟩ ([1, 3].getD 1 0) ((1 : Fin 2) : Nat)) *
          ((1 - s) * cornerCoord ℝ ⟨2, 4⟩ ([1, 3].getD 0 0) ((1 : Fin 2) : Nat) + s * cornerCoord ℝ ⟨2, 4⟩ ([1, 3].getD 1 0) ((1 : Fin 2) : Nat)))) =
        3 / 4 + (1 * s + (-1) * s ^ 2) := by
      intro s
      simp [cornerCoord, Nat.testBit]
      ring
    simp only [h2]
    rw [intervalIntegral.integral_add (by simp) ((by fun_prop : _root_.Continuous fun s : ℝ => 1 * s + (-1) * s ^ 2).intervalIntegrable _ _),
      intervalIntegral.integral_add ((by fun_prop : _root_.Continuous fun s : ℝ => 1 * s).intervalIntegrable _ _)
        ((by fun_prop : _root_.Continuous fun s : ℝ => (-1) * s ^ 2).intervalIntegrable _ _),
      intervalIntegral.integral_const_mul, intervalIntegral.integral_const_mul, integral_id, integral_pow, intervalIntegral.integral_const, smul_eq_mul]
    norm_num
  · have hs : LocalSpace (mixedGrid.elemGeo 1) (value (n := 2) mixedGrid.toGridView (fun j => if j = 1 then (1 : ℝ) else 0) 1) := by
      rw [show value (n := 2) mixedGrid.toGridView (fun j => if j = 1 then (1 : ℝ) else 0) 1 = combination (mixedGrid.elemGeo 1) _ from
        funext fun x => value_combination (acc 1) _ x]
      exact combination_space (acc 1) _
    have := edgeMean_center hs (i := 0) (by decide)
    rw [show mixedGrid.elemGeo 1 = ⟨2, 3⟩ from rfl, this]
    have c := C94_center (n := 2) hstd ha rfl (le_refl _) (fun j => if j = 1 then (1 : ℝ) else 0) (e := 1) (i := 0) (by decide)
    exact c.trans (by rw [show mixedGrid.idx (mixedGrid.sub 1 1 0) = 1 from by decide, if_pos rfl])

/-! ## Several types of facets -/

/-- **C94** without the assumption on the facets is false: a tetrahedron and a hexahedron without common facet. The function that is 1 on the tetrahedron and 0 on the hexahedron belongs to the
local spaces and there is no common facet, but it is not a function of the basis. -/
theorem C94_false : rtAccept tetHex = true ∧ StdGrid tetHex ∧
    ((∀ e, LocalSpace (tetHex.elemGeo e) (fun _ : Vec ℚ 3 => if e = 0 then 1 else 0)) ∧ CenterContinuous tetHex fun e (_ : Vec ℚ 3) => if e = 0 then 1 else 0) ∧
    ¬ ∃ vec : Nat → ℚ, ∀ e (x : Vec ℚ 3), (if e = 0 then 1 else 0) = value tetHex vec e x := by
  have ha : rtAccept tetHex = true := by decide
  refine ⟨ha, tetHex_std, ⟨fun e => ⟨if e = 0 then 1 else 0, fun _ => 0, fun _ => 0, fun _ _ => rfl, fun x => by simp⟩, ?_⟩, ?_⟩
  · intro e i e' i' hi hi' hsub
    have b := tetHex_bound e hi
    have b' := tetHex_bound e' hi'
    have tab : ∀ e e' : Fin 2, ∀ i i' : Fin 12, i.1 < (stdSubs (tetHex.elemGeo e) 1).length → i'.1 < (stdSubs (tetHex.elemGeo e') 1).length →
        tetHex.sub e 1 i = tetHex.sub e' 1 i' → e = e' := by decide +kernel
    rw [tab e e' ⟨i, b.2⟩ ⟨i', b'.2⟩ hi hi' hsub]
  · rintro ⟨vec, hvec⟩
    have h0 := C94_center (n := 3) tetHex_std ha rfl (by decide) vec (e := 0) (i := 0) (by decide)
    have h1 := C94_center (n := 3) tetHex_std ha rfl (by decide) vec (e := 1) (i := 0) (by decide)
    rw [← hvec, if_pos rfl] at h0
    rw [← hvec, if_neg (by decide)] at h1
    rw [show tetHex.idx (tetHex.sub 0 1 0) = 0 from by decide] at h0
    rw [show tetHex.idx (tetHex.sub 1 1 0) = 0 from by decide] at h1
    rw [← h1] at h0
    exact one_ne_zero h0

/-! ## Examples -/

/-- A quadrilateral and a triangle: the function of the common edge, continued by the other coefficients, in the center of the edge. -/
example (vec : Nat → ℚ) : value mixedGrid.toGridView vec 0 (![1, 1 / 2] : Vec ℚ 2) = value mixedGrid.toGridView vec 1 ![1 / 2, 0] := by
  have hstd : StdGrid mixedGrid.toGridView := ⟨mixedGrid_OK.base, mixedGrid_OK.std, mixedGrid_OK.type, mixedGrid_OK.elemInj⟩
  have h0 := C94_center (n := 2) hstd (by decide) rfl (le_refl _) vec (e := 0) (i := 1) (by decide)
  have h1 := C94_center (n := 2) hstd (by decide) rfl (le_refl _) vec (e := 1) (i := 0) (by decide)
  rw [show facetCenter ℚ 2 (mixedGrid.elemGeo 0) 1 = ![1, 1 / 2] from quad_centers.2.1] at h0
  rw [show facetCenter ℚ 2 (mixedGrid.elemGeo 1) 0 = ![1 / 2, 0] from tri_centers.1] at h1
  rw [h0, h1]
  rfl

/-- They differ in other points of the edge. -/
example : value mixedGrid.toGridView (fun j => (j : ℚ)) 0 (![1, 3 / 4] : Vec ℚ 2) = 3 / 2 ∧ value mixedGrid.toGridView (fun j => (j : ℚ)) 1 (![1 / 4, 0] : Vec ℚ 2) = 1 / 2 := by
  decide +kernel

end Verif.Lagrange.Nonconforming

import Verif.HDiv.NormalTrace
import Verif.Lagrange.PrismGrid

/-!
# Normal components of Raviart–Thomas functions on grids of simplices, cubes and prisms

The elements have affine or multilinear geometries, so that quadrilaterals need not be parallelograms and faces of hexahedra and prisms need not be plane.
-/

namespace Verif.HDiv.Trace

open Matrix Verif.Mapper Verif.Lagrange Verif.Piola
open Verif.Lagrange.Continuity (Supported vertexWeight globalPoint coordinate prismType)

variable {E S K : Type} [Field K] [LinearOrder K] [IsStrictOrderedRing K] {n : Nat}

/-! ## Facets and finite elements -/

/-- Facet `i` of the reference prism. -/
def prismFacet (K : Type) [Field K] (n i : Nat) : RefFacet K n where
  On := fun x => if i = 0 then coordinate x 1 = 0 else if i = 1 then coordinate x 0 = 0 else if i = 2 then coordinate x 0 + coordinate x 1 = 1
    else if i = 3 then coordinate x 2 = 0 else coordinate x 2 = 1
  frame := fun k => if k.val = 0 then (if i = 1 then unit K n 1 else if i = 2 then unit K n 1 - unit K n 0 else unit K n 0)
    else if i < 3 then unit K n 2 else unit K n 1
  out := if i = 0 then -unit K n 1 else if i = 1 then -unit K n 0 else if i = 2 then unit K n 0 else if i = 3 then -unit K n 2 else unit K n 2

/-- Field `i` of the prism, without orientation. -/
def prismField (i : Nat) (x : Vec K (n + 1)) : Vec K (n + 1) :=
  if i = 0 then coordinate x 0 • unit K n 0 + (coordinate x 1 - 1) • unit K n 1
  else if i = 1 then (coordinate x 0 - 1) • unit K n 0 + coordinate x 1 • unit K n 1
  else if i = 2 then coordinate x 0 • unit K n 0 + coordinate x 1 • unit K n 1
  else if i = 3 then (2 * (coordinate x 2 - 1)) • unit K n 2 else (2 * coordinate x 2) • unit K n 2

/-- The finite elements of order 0 of dune-localfunctions for prisms (`RT0PrismLocalBasis`). -/
def rt0Prism (bits : Nat) : LFE K (n + 1) where
  size := 5
  eval := fun x => (List.range 5).map fun i => (if bits.testBit i then (-1 : K) else 1) • prismField i x
  jac := fun _ => []
  interp := fun _ => []

/-- Facets of simplices, cubes and prisms. -/
def facetOf (K : Type) [Field K] (n : Nat) (t : Geo) (i : Nat) : RefFacet K n :=
  if t ∈ ([⟨2, 4⟩, ⟨3, 8⟩] : List Geo) then cubeFacet K n i else if t = prismType then prismFacet K n i else simplexFacet K n i

/-- The finite elements of order 0 of dune-localfunctions; those of pyramids are not used. -/
def rtTable : HDiv.Kind → Nat → LFE K (n + 1)
  | .simplex, bits => rt0 (n : K) bits
  | .cube, bits => rt0Cube bits
  | .prism, bits => rt0Prism bits
  | .pyramid, bits => rt0Cube bits

def rtKeys (t : Geo) : List Key := (List.range (numFacets t)).map fun i => ⟨i, 1, 0⟩

/-- Flux of the shape function of a facet: 2 for triangles. -/
def fluxOf (K : Type) [Field K] (u : Geo) : K := if u = ⟨2, 3⟩ then 2 else 1

theorem rt0Prism_fluxes : Fluxes (K := K) (n := 2) (fun _ bits => rt0Prism bits) rtKeys (fun _ => prismFacet K 2) (fluxOf K) prismType where
  size := by simp [rt0Prism, rtKeys, show numFacets prismType = 5 from by decide]
  nodup := List.nodup_range.map fun i j h => by simpa using h
  full := by
    intro i hi
    simpa [rtKeys] using hi
  flux := by
    intro bits _ l k hk i u hu x hx
    have h5 : numFacets prismType = 5 := by decide
    have hi : i < 5 := by rw [← h5]; exact (List.getElem?_eq_some_iff.1 hu).1
    have hl : l < 5 := by simpa [rtKeys, h5] using (List.getElem?_eq_some_iff.1 hk).1
    obtain rfl : k = ⟨l, 1, 0⟩ := by simpa [rtKeys, h5, hl, eq_comm] using hk
    have hs : stdSubs prismType 1 = [⟨2, 4⟩, ⟨2, 4⟩, ⟨2, 4⟩, ⟨2, 3⟩, ⟨2, 3⟩] := by decide
    rw [hs] at hu
    have h2 : ∀ (a : Vec K 3) (t : Fin 2 → Vec K 3), (Fin.cons a t : Fin 3 → Vec K 3) 2 = t 1 := fun _ _ => rfl
    have hbit : ∀ a : K, (if bits.testBit l then -a else a) = (if bits.testBit l then (-1 : K) else 1) * a := by intro a; split <;> ring
    have hshape : (rt0Prism (K := K) (n := 2) bits).shape l x = (if bits.testBit l then (-1 : K) else 1) • prismField l x := by
      simp [LFE.shape, rt0Prism, hl]
    have hflux : outerFlux (prismField l x) (prismFacet K 2 i).frame (prismFacet K 2 i).out = if l = i then fluxOf K u else 0 := by
      have hi' : i = 0 ∨ i = 1 ∨ i = 2 ∨ i = 3 ∨ i = 4 := by omega
      have hl' : l = 0 ∨ l = 1 ∨ l = 2 ∨ l = 3 ∨ l = 4 := by omega
      rcases hi' with rfl | rfl | rfl | rfl | rfl <;> simp only [List.getElem?_cons_zero, List.getElem?_cons_succ, Option.some.injEq] at hu <;> subst hu <;>
        simp [prismFacet, coordinate] at hx <;> rcases hl' with rfl | rfl | rfl | rfl | rfl <;>
        simp [prismField, outerFlux_eq, vol, Matrix.det_fin_three, h2, prismFacet, unit, coordinate, fluxOf, hx] <;> linear_combination hx
    rw [hshape, outerFlux_eq, vol_smul, mul_assoc, ← outerFlux_eq, hflux]
    by_cases h : l = i
    · subst h
      rw [if_pos (rfl : l = l), if_pos (rfl : (⟨l, 1, 0⟩ : Key) = ⟨l, 1, 0⟩)]
      exact (hbit _).symm
    · rw [if_neg h, if_neg (show ¬ (⟨l, 1, 0⟩ : Key) = ⟨i, 1, 0⟩ by simp [h]), mul_zero]

theorem kindOf_table : kindOf ⟨2, 3⟩ = .simplex ∧ kindOf ⟨3, 4⟩ = .simplex ∧ kindOf ⟨2, 4⟩ = .cube ∧ kindOf ⟨3, 8⟩ = .cube ∧ kindOf prismType = .prism := by decide

theorem supported_two {t : Geo} (h : Supported 2 t) : t = ⟨2, 3⟩ ∨ t = ⟨2, 4⟩ := by
  have : ∀ t ∈ elemTypes, t.dim = 2 → t ≠ ⟨3, 5⟩ → t = ⟨2, 3⟩ ∨ t = ⟨2, 4⟩ := by decide
  exact this t h.1 h.2.1 h.2.2

theorem supported_three {t : Geo} (h : Supported 3 t) : t = ⟨3, 4⟩ ∨ t = ⟨3, 8⟩ ∨ t = prismType := by
  have : ∀ t ∈ elemTypes, t.dim = 3 → t ≠ ⟨3, 5⟩ → t = ⟨3, 4⟩ ∨ t = ⟨3, 8⟩ ∨ t = prismType := by decide
  exact this t h.1 h.2.1 h.2.2

omit [IsStrictOrderedRing K] in
/-- Finite elements with the same contract. -/
theorem Fluxes.congr {table table' : HDiv.Kind → Nat → LFE K (n + 1)} {keys keys' : Geo → List Key} {facet facet' : Geo → Nat → RefFacet K n} {c c' : Geo → K} {t : Geo}
    (h : Fluxes table keys facet c t) (h1 : table' (kindOf t) = table (kindOf t)) (h2 : keys' t = keys t) (h3 : facet' t = facet t)
    (h4 : ∀ u ∈ stdSubs t 1, c' u = c u) : Fluxes table' keys' facet' c' t where
  size := by rw [h1, h2]; exact h.size
  nodup := by rw [h2]; exact h.nodup
  full := by rw [h2]; exact h.full
  flux := by
    intro bits hb l k hk i u hu x hx
    rw [h2] at hk
    rw [h3] at hx
    rw [h1, h3, h4 u (List.mem_of_getElem? hu)]
    exact h.flux bits hb l k hk i u hu x hx

/-- All these elements satisfy the contract. -/
theorem rt_fluxes (hn : n = 1 ∨ n = 2) {t : Geo} (ht : Supported (n + 1) t) : Fluxes (K := K) rtTable rtKeys (facetOf K n) (fluxOf K) t := by
  rcases hn with rfl | rfl
  · rcases supported_two ht with rfl | rfl
    · refine (rt0_fluxes (K := K) (Or.inl rfl) ((1 : Nat) : K)).congr rfl (by decide) rfl ?_
      have : ∀ u ∈ stdSubs ⟨2, 3⟩ 1, u ≠ ⟨2, 3⟩ := by decide
      intro u hu
      rw [fluxOf, if_neg (this u hu)]
      simp
    · refine (rt0Cube_fluxes (K := K) (Or.inl rfl)).congr rfl (by decide) rfl ?_
      have : ∀ u ∈ stdSubs ⟨2, 4⟩ 1, u ≠ ⟨2, 3⟩ := by decide
      intro u hu
      rw [fluxOf, if_neg (this u hu)]
  · rcases supported_three ht with rfl | rfl | rfl
    · refine (rt0_fluxes (K := K) (Or.inr rfl) ((2 : Nat) : K)).congr rfl (by decide) rfl ?_
      have : ∀ u ∈ stdSubs ⟨3, 4⟩ 1, u = ⟨2, 3⟩ := by decide
      intro u hu
      rw [fluxOf, if_pos (this u hu)]
      simp
    · refine (rt0Cube_fluxes (K := K) (Or.inr rfl)).congr rfl (by decide) rfl ?_
      have : ∀ u ∈ stdSubs ⟨3, 8⟩ 1, u ≠ ⟨2, 3⟩ := by decide
      intro u hu
      rw [fluxOf, if_neg (this u hu)]
    · exact rt0Prism_fluxes.congr rfl rfl rfl fun _ _ => rfl

/-! ## Geometries -/

/-- The point with the local coordinates `x` of an element of type `t` with the corners `p 0`, `p 1`, … -/
def position {m : Nat} (t : Geo) (p : Nat → Vec K m) (x : Vec K (n + 1)) : Vec K m := ∑ v : Fin t.nv, vertexWeight t v x • p v

/-- Its Jacobian; the position is affine in each coordinate (`position_add`), so that derivatives are differences. -/
def jacobian {m : Nat} (t : Geo) (p : Nat → Vec K m) (x : Vec K (n + 1)) : Matrix (Fin m) (Fin (n + 1)) K :=
  Matrix.of fun d j => position t p (x + unit K n j) d - position t p x d

/-- Local number of vertex `k` of facet `i`. -/
def facetVert (t : Geo) (i k : Nat) : Nat := ((subVerts (refOf t) 1).getD i []).getD k 0

omit [LinearOrder K] [IsStrictOrderedRing K] in
theorem edge_frame {m : Nat} {t : Geo} (ht : Supported 2 t) (p : Nat → Vec K m) {i : Nat} (hi : i < numFacets t) {x : Vec K 2} (hx : (facetOf K 1 t i).On x) :
    jacobian t p x *ᵥ (facetOf K 1 t i).frame 0 = p (facetVert t i 1) - p (facetVert t i 0) := by
  funext d
  rcases supported_two ht with rfl | rfl
  · have h3 : numFacets ⟨2, 3⟩ = 3 := by decide
    have : i = 0 ∨ i = 1 ∨ i = 2 := by omega
    rcases this with rfl | rfl | rfl <;>
      simp [facetOf, simplexFacet, Matrix.mulVec, dotProduct, jacobian, position, Fin.sum_univ_succ, vertexWeight, unit, corner, facetVertex, facetVert, simplexOf, subVerts, refOf, triangle,
        HDiv.Tangential.bary, prismType] <;> ring
  · have h3 : numFacets ⟨2, 4⟩ = 4 := by decide
    have : i = 0 ∨ i = 1 ∨ i = 2 ∨ i = 3 := by omega
    rcases this with rfl | rfl | rfl | rfl <;> simp [facetOf, cubeFacet] at hx <;>
      simp [facetOf, cubeFacet, Matrix.mulVec, dotProduct, jacobian, position, Fin.sum_univ_succ, vertexWeight, unit, facetVert, subVerts, refOf, quadrilateral,
        Continuity.cubeBw, Fin.prod_univ_succ, Nat.testBit, hx] <;> ring

omit [LinearOrder K] [IsStrictOrderedRing K] in
theorem triangle_frame {m : Nat} {t : Geo} (ht : Supported 3 t) (p : Nat → Vec K m) {i : Nat} (hi : (stdSubs t 1)[i]? = some ⟨2, 3⟩) {x : Vec K 3}
    (hx : (facetOf K 2 t i).On x) (k : Fin 2) : jacobian t p x *ᵥ (facetOf K 2 t i).frame k = p (facetVert t i (k + 1)) - p (facetVert t i 0) := by
  funext d
  have hl := (List.getElem?_eq_some_iff.1 hi).1
  rcases supported_three ht with rfl | rfl | rfl
  · have h3 : (stdSubs ⟨3, 4⟩ 1).length = 4 := by decide
    have : i = 0 ∨ i = 1 ∨ i = 2 ∨ i = 3 := by omega
    rcases this with rfl | rfl | rfl | rfl <;> fin_cases k <;>
      simp [facetOf, simplexFacet, Matrix.mulVec, dotProduct, jacobian, position, Fin.sum_univ_succ, vertexWeight, unit, corner, facetVertex, facetVert, simplexOf, subVerts, refOf, tetrahedron,
        HDiv.Tangential.bary, prismType] <;> ring
  · have h4 : ∀ u ∈ stdSubs ⟨3, 8⟩ 1, u ≠ ⟨2, 3⟩ := by decide
    exact absurd rfl (h4 _ (List.mem_of_getElem? hi))
  · have h4 : ∀ i < 5, (stdSubs ⟨3, 6⟩ 1)[i]? = some ⟨2, 3⟩ → i = 3 ∨ i = 4 := by decide
    have h5 : (stdSubs prismType 1).length = 5 := by decide
    rcases h4 i (by omega) hi with rfl | rfl <;> simp [facetOf, prismFacet, coordinate] at hx <;> fin_cases k <;>
      simp [facetOf, prismFacet, Matrix.mulVec, dotProduct, jacobian, position, Fin.sum_univ_succ, vertexWeight, unit, facetVert, subVerts, refOf, prism,
        Continuity.prismBw, Continuity.prismBary, coordinate, hx] <;> ring

/-- Derivatives of bilinear interpolation between the vertices of a quadrilateral. -/
def QuadFrame {m : Nat} (w : Nat → K) (p : Nat → Vec K m) (t0 t1 : Vec K m) : Prop :=
  w 0 + w 1 + w 2 + w 3 = 1 ∧ t0 = (w 0 + w 1) • (p 1 - p 0) + (w 2 + w 3) • (p 3 - p 2) ∧ t1 = (w 0 + w 2) • (p 2 - p 0) + (w 1 + w 3) • (p 3 - p 1)

omit [LinearOrder K] [IsStrictOrderedRing K] in
theorem hexahedron_column {m : Nat} (p : Nat → Vec K m) (x : Vec K 3) (d : Fin m) :
    jacobian ⟨3, 8⟩ p x d 0 = (1 - x 1) * (1 - x 2) * (p 1 d - p 0 d) + x 1 * (1 - x 2) * (p 3 d - p 2 d) + (1 - x 1) * x 2 * (p 5 d - p 4 d) + x 1 * x 2 * (p 7 d - p 6 d) ∧
    jacobian ⟨3, 8⟩ p x d 1 = (1 - x 0) * (1 - x 2) * (p 2 d - p 0 d) + x 0 * (1 - x 2) * (p 3 d - p 1 d) + (1 - x 0) * x 2 * (p 6 d - p 4 d) + x 0 * x 2 * (p 7 d - p 5 d) ∧
    jacobian ⟨3, 8⟩ p x d 2 = (1 - x 0) * (1 - x 1) * (p 4 d - p 0 d) + x 0 * (1 - x 1) * (p 5 d - p 1 d) + (1 - x 0) * x 1 * (p 6 d - p 2 d) + x 0 * x 1 * (p 7 d - p 3 d) := by
  refine ⟨?_, ?_, ?_⟩ <;>
    simp [jacobian, position, Fin.sum_univ_succ, vertexWeight, unit, Continuity.cubeBw, Fin.prod_univ_succ, Nat.testBit] <;> ring

omit [LinearOrder K] [IsStrictOrderedRing K] in
theorem hexahedron_weights (x : Vec K 3) :
    vertexWeight ⟨3, 8⟩ 0 x = (1 - x 0) * (1 - x 1) * (1 - x 2) ∧ vertexWeight ⟨3, 8⟩ 1 x = x 0 * (1 - x 1) * (1 - x 2) ∧
    vertexWeight ⟨3, 8⟩ 2 x = (1 - x 0) * x 1 * (1 - x 2) ∧ vertexWeight ⟨3, 8⟩ 3 x = x 0 * x 1 * (1 - x 2) ∧
    vertexWeight ⟨3, 8⟩ 4 x = (1 - x 0) * (1 - x 1) * x 2 ∧ vertexWeight ⟨3, 8⟩ 5 x = x 0 * (1 - x 1) * x 2 ∧
    vertexWeight ⟨3, 8⟩ 6 x = (1 - x 0) * x 1 * x 2 ∧ vertexWeight ⟨3, 8⟩ 7 x = x 0 * x 1 * x 2 := by
  refine ⟨?_, ?_, ?_, ?_, ?_, ?_, ?_, ?_⟩ <;> simp [vertexWeight, Continuity.cubeBw, Fin.prod_univ_succ, Nat.testBit] <;> ring

omit [LinearOrder K] [IsStrictOrderedRing K] in
theorem hexahedron_frame {m : Nat} (p : Nat → Vec K m) {i : Nat} (hi : i < 6) {x : Vec K 3} (hx : (cubeFacet K 2 i).On x) :
    QuadFrame (fun k => vertexWeight ⟨3, 8⟩ (facetVert ⟨3, 8⟩ i k) x) (fun k => p (facetVert ⟨3, 8⟩ i k)) (jacobian ⟨3, 8⟩ p x *ᵥ (cubeFacet K 2 i).frame 0)
      (jacobian ⟨3, 8⟩ p x *ᵥ (cubeFacet K 2 i).frame 1) := by
  obtain ⟨w0, w1, w2, w3, w4, w5, w6, w7⟩ := hexahedron_weights x
  have hv : ∀ i < 6, ∀ k < 4, facetVert ⟨3, 8⟩ i k = (([[0, 2, 4, 6], [1, 3, 5, 7], [0, 1, 4, 5], [2, 3, 6, 7], [0, 1, 2, 3], [4, 5, 6, 7]] : List (List Nat)).getD i []).getD k 0 := by decide
  have hcol := fun d => hexahedron_column p x d
  generalize jacobian ⟨3, 8⟩ p x = J at *
  have h01234 : i = 0 ∨ i = 1 ∨ i = 2 ∨ i = 3 ∨ i = 4 ∨ i = 5 := by omega
  simp only [QuadFrame]
  rw [hv i hi 0 (by omega), hv i hi 1 (by omega), hv i hi 2 (by omega), hv i hi 3 (by omega)]
  rcases h01234 with rfl | rfl | rfl | rfl | rfl | rfl <;> simp [cubeFacet] at hx <;> refine ⟨?_, funext fun d => ?_, funext fun d => ?_⟩ <;>
    simp [cubeFacet, Matrix.mulVec, dotProduct, Fin.sum_univ_succ, unit, w0, w1, w2, w3, w4, w5, w6, w7, hcol, hx] <;> ring

omit [LinearOrder K] [IsStrictOrderedRing K] in
theorem prism_column {m : Nat} (p : Nat → Vec K m) (x : Vec K 3) (d : Fin m) :
    jacobian prismType p x d 0 = (1 - x 2) * (p 1 d - p 0 d) + x 2 * (p 4 d - p 3 d) ∧ jacobian prismType p x d 1 = (1 - x 2) * (p 2 d - p 0 d) + x 2 * (p 5 d - p 3 d) ∧
    jacobian prismType p x d 2 = (1 - x 0 - x 1) * (p 3 d - p 0 d) + x 0 * (p 4 d - p 1 d) + x 1 * (p 5 d - p 2 d) := by
  refine ⟨?_, ?_, ?_⟩ <;>
    simp [jacobian, position, Fin.sum_univ_succ, vertexWeight, unit, Continuity.prismBw, Continuity.prismBary, coordinate] <;> ring

omit [LinearOrder K] [IsStrictOrderedRing K] in
theorem prism_weights (x : Vec K 3) :
    vertexWeight prismType 0 x = (1 - x 0 - x 1) * (1 - x 2) ∧ vertexWeight prismType 1 x = x 0 * (1 - x 2) ∧ vertexWeight prismType 2 x = x 1 * (1 - x 2) ∧
    vertexWeight prismType 3 x = (1 - x 0 - x 1) * x 2 ∧ vertexWeight prismType 4 x = x 0 * x 2 ∧ vertexWeight prismType 5 x = x 1 * x 2 := by
  refine ⟨?_, ?_, ?_, ?_, ?_, ?_⟩ <;> simp [vertexWeight, Continuity.prismBw, Continuity.prismBary, coordinate]

omit [LinearOrder K] [IsStrictOrderedRing K] in
/-- Positions are affine in each coordinate, with the columns of the Jacobian. -/
theorem position_add {m : Nat} (hn : n = 1 ∨ n = 2) {t : Geo} (ht : Supported (n + 1) t) (p : Nat → Vec K m) (x : Vec K (n + 1)) (j : Fin (n + 1)) (a : K) :
    position t p (x + a • unit K n j) = position t p x + a • fun d => jacobian t p x d j := by
  funext d
  rcases hn with rfl | rfl
  · rcases supported_two ht with rfl | rfl <;> fin_cases j <;>
      simp [jacobian, position, Fin.sum_univ_succ, vertexWeight, unit, HDiv.Tangential.bary, prismType, Continuity.cubeBw, Fin.prod_univ_succ, Nat.testBit] <;> ring
  · rcases supported_three ht with rfl | rfl | rfl
    · fin_cases j <;> simp [jacobian, position, Fin.sum_univ_succ, vertexWeight, unit, HDiv.Tangential.bary, prismType] <;> ring
    · fin_cases j <;> simp [jacobian, position, Fin.sum_univ_succ, vertexWeight, unit, Continuity.cubeBw, Fin.prod_univ_succ, Nat.testBit] <;> ring
    · have hp : ∀ x : Vec K 3, position prismType p x d = (1 - x 0 - x 1) * (1 - x 2) * p 0 d + x 0 * (1 - x 2) * p 1 d + x 1 * (1 - x 2) * p 2 d +
          (1 - x 0 - x 1) * x 2 * p 3 d + x 0 * x 2 * p 4 d + x 1 * x 2 * p 5 d := by
        intro x
        obtain ⟨w0, w1, w2, w3, w4, w5⟩ := prism_weights x
        rw [← w0, ← w1, ← w2, ← w3, ← w4, ← w5]
        have h6 : ∀ f : Fin 6 → K, ∑ v, f v = f 0 + f 1 + f 2 + f 3 + f 4 + f 5 := fun f => by simp [Fin.sum_univ_succ]; ring
        rw [position, Finset.sum_apply]
        exact h6 _
      obtain ⟨c0, c1, c2⟩ := prism_column p x d
      rw [Pi.add_apply, Pi.smul_apply, smul_eq_mul, hp, hp]
      fin_cases j
      · rw [show jacobian prismType p x d ⟨0, by omega⟩ = _ from c0]
        simp [unit]
        ring
      · rw [show jacobian prismType p x d ⟨1, by omega⟩ = _ from c1]
        simp [unit]
        ring
      · rw [show jacobian prismType p x d ⟨2, by omega⟩ = _ from c2]
        simp [unit]
        ring

omit [LinearOrder K] [IsStrictOrderedRing K] in
theorem prism_frame {m : Nat} (p : Nat → Vec K m) {i : Nat} (hi : i < 3) {x : Vec K 3} (hx : (prismFacet K 2 i).On x) :
    QuadFrame (fun k => vertexWeight prismType (facetVert prismType i k) x) (fun k => p (facetVert prismType i k)) (jacobian prismType p x *ᵥ (prismFacet K 2 i).frame 0)
      (jacobian prismType p x *ᵥ (prismFacet K 2 i).frame 1) := by
  obtain ⟨w0, w1, w2, w3, w4, w5⟩ := prism_weights x
  have hv : ∀ i < 3, ∀ k < 4, facetVert prismType i k = (([[0, 1, 3, 4], [0, 2, 3, 5], [1, 2, 4, 5]] : List (List Nat)).getD i []).getD k 0 := by decide
  have hcol := fun d => prism_column p x d
  generalize jacobian prismType p x = J at *
  have h012 : i = 0 ∨ i = 1 ∨ i = 2 := by omega
  simp only [QuadFrame]
  rw [hv i hi 0 (by omega), hv i hi 1 (by omega), hv i hi 2 (by omega), hv i hi 3 (by omega)]
  rcases h012 with rfl | rfl | rfl <;> simp [prismFacet, coordinate] at hx
  · refine ⟨?_, funext fun d => ?_, funext fun d => ?_⟩ <;> simp [prismFacet, Matrix.mulVec, dotProduct, Fin.sum_univ_succ, unit, w0, w1, w2, w3, w4, w5, hcol, hx] <;> ring
  · refine ⟨?_, funext fun d => ?_, funext fun d => ?_⟩ <;> simp [prismFacet, Matrix.mulVec, dotProduct, Fin.sum_univ_succ, unit, w0, w1, w2, w3, w4, w5, hcol, hx] <;> ring
  · have hx : x 0 = 1 - x 1 := by linear_combination hx
    refine ⟨?_, funext fun d => ?_, funext fun d => ?_⟩ <;> simp [prismFacet, Matrix.mulVec, dotProduct, Fin.sum_univ_succ, unit, w0, w1, w2, w3, w4, w5, hcol, hx] <;> ring

omit [LinearOrder K] [IsStrictOrderedRing K] in
theorem quad_frame {m : Nat} {t : Geo} (ht : Supported 3 t) (p : Nat → Vec K m) {i : Nat} (hi : (stdSubs t 1)[i]? = some ⟨2, 4⟩) {x : Vec K 3}
    (hx : (facetOf K 2 t i).On x) :
    QuadFrame (fun k => vertexWeight t (facetVert t i k) x) (fun k => p (facetVert t i k)) (jacobian t p x *ᵥ (facetOf K 2 t i).frame 0)
      (jacobian t p x *ᵥ (facetOf K 2 t i).frame 1) := by
  have hl := (List.getElem?_eq_some_iff.1 hi).1
  rcases supported_three ht with rfl | rfl | rfl
  · have h4 : ∀ u ∈ stdSubs ⟨3, 4⟩ 1, u ≠ ⟨2, 4⟩ := by decide
    exact absurd rfl (h4 _ (List.mem_of_getElem? hi))
  · have h3 : (stdSubs ⟨3, 8⟩ 1).length = 6 := by decide
    exact hexahedron_frame p (by omega) hx
  · have h4 : ∀ i < 5, (stdSubs ⟨3, 6⟩ 1)[i]? = some ⟨2, 4⟩ → i < 3 := by decide
    have h5 : (stdSubs prismType 1).length = 5 := by decide
    exact prism_frame p (h4 i (by omega) hi) hx

/-! ## Common facets -/

omit [LinearOrder K] [IsStrictOrderedRing K] in
/-- A quadrilateral with another first vertex or direction: the tangent vectors change by signs and exchange. -/
theorem quad_change [LinearOrder K] [IsStrictOrderedRing K] {m : Nat} {w w' : Nat → K} {p p' : Nat → Vec K m} {t0 t1 t0' t1' : Vec K m} (h : QuadFrame w p t0 t1) (h' : QuadFrame w' p' t0' t1')
    (σ : Nat → Nat) (hσ : [σ 0, σ 1, σ 2, σ 3] ∈ [[0, 1, 2, 3], [1, 0, 3, 2], [2, 3, 0, 1], [3, 2, 1, 0], [0, 2, 1, 3], [1, 3, 0, 2], [2, 0, 3, 1], [3, 1, 2, 0]])
    (hp : ∀ k < 4, p' k = p (σ k)) (hw : ∀ k < 4, w' k = w (σ k)) : ∃ U : Mat K 2, |U.det| = 1 ∧ t0' = U 0 0 • t0 + U 0 1 • t1 ∧ t1' = U 1 0 • t0 + U 1 1 • t1 := by
  obtain ⟨h1, rfl, rfl⟩ := h
  obtain ⟨h1', rfl, rfl⟩ := h'
  rw [hp 0 (by omega), hp 1 (by omega), hp 2 (by omega), hp 3 (by omega), hw 0 (by omega), hw 1 (by omega), hw 2 (by omega), hw 3 (by omega)]
  simp only [List.mem_cons, List.cons.injEq, and_true, List.not_mem_nil, or_false] at hσ
  rcases hσ with ⟨s0, s1, s2, s3⟩ | ⟨s0, s1, s2, s3⟩ | ⟨s0, s1, s2, s3⟩ | ⟨s0, s1, s2, s3⟩ | ⟨s0, s1, s2, s3⟩ | ⟨s0, s1, s2, s3⟩ | ⟨s0, s1, s2, s3⟩ | ⟨s0, s1, s2, s3⟩ <;>
    rw [s0, s1, s2, s3]
  · refine ⟨!![1, 0; 0, 1], by simp [Matrix.det_fin_two], ?_, ?_⟩ <;> simp
  · refine ⟨!![-1, 0; 0, 1], by simp [Matrix.det_fin_two], ?_, ?_⟩ <;> simp <;> module
  · refine ⟨!![1, 0; 0, -1], by simp [Matrix.det_fin_two], ?_, ?_⟩ <;> simp <;> module
  · refine ⟨!![-1, 0; 0, -1], by simp [Matrix.det_fin_two], ?_, ?_⟩ <;> simp <;> module
  · refine ⟨!![0, 1; 1, 0], by simp [Matrix.det_fin_two], ?_, ?_⟩ <;> simp
  · refine ⟨!![0, 1; -1, 0], by simp [Matrix.det_fin_two], ?_, ?_⟩ <;> simp <;> module
  · refine ⟨!![0, -1; 1, 0], by simp [Matrix.det_fin_two], ?_, ?_⟩ <;> simp <;> module
  · refine ⟨!![0, -1; -1, 0], by simp [Matrix.det_fin_two], ?_, ?_⟩ <;> simp <;> module

/-- The facets of both elements have the same type. -/
theorem facet_type {G : LGrid E S Nat} (ok : G.OK) {e e' : E} {i i' : Nat} (hi : i < numFacets (G.elemGeo e)) (hi' : i' < numFacets (G.elemGeo e'))
    (hs : G.sub e 1 i = G.sub e' 1 i') : ∃ u, (stdSubs (G.elemGeo e) 1)[i]? = some u ∧ (stdSubs (G.elemGeo e') 1)[i']? = some u ∧ G.geo (G.sub e 1 i) = u := by
  have h1 := ok.base.subGeo e 1 i _ (by rw [ok.std]; exact List.getElem?_eq_getElem hi)
  have h2 := ok.base.subGeo e' 1 i' _ (by rw [ok.std]; exact List.getElem?_eq_getElem hi')
  refine ⟨_, List.getElem?_eq_getElem hi, ?_, h1⟩
  rw [← h1, hs, h2]
  exact List.getElem?_eq_getElem hi'

theorem facet_verts {G : LGrid E S Nat} (ok : G.OK) {e : E} {i : Nat} {u : Geo} (hu : (stdSubs (G.elemGeo e) 1)[i]? = some u) :
    G.verts e ⟨i, 1, 0⟩ = (List.range u.nv).map fun k => G.ids e (facetVert (G.elemGeo e) i k) := by
  have h1 : ∀ t ∈ elemTypes, ∀ i < (stdSubs t 1).length, ∀ u ∈ (stdSubs t 1)[i]?, (subVerts (refOf t) 1).getD i [] = (List.range u.nv).map fun k => facetVert t i k := by decide
  rw [LGrid.verts, h1 _ (ok.type e) i (List.getElem?_eq_some_iff.1 hu).1 u hu, List.map_map]
  rfl

theorem facetVert_inj {t : Geo} (ht : t ∈ elemTypes) {i : Nat} {u : Geo} (hu : (stdSubs t 1)[i]? = some u) :
    (∀ k < u.nv, facetVert t i k < t.nv) ∧ ∀ k < u.nv, ∀ m < u.nv, facetVert t i k = facetVert t i m → k = m := by
  have h1 : ∀ t ∈ elemTypes, ∀ i < (stdSubs t 1).length, ∀ u ∈ (stdSubs t 1)[i]?, (∀ k < u.nv, facetVert t i k < t.nv) ∧ ∀ k < u.nv, ∀ m < u.nv, facetVert t i k = facetVert t i m → k = m := by
    decide
  exact h1 t ht i (List.getElem?_eq_some_iff.1 hu).1 u hu

/-- The vertices of a common facet have the same ids. -/
theorem facet_ids {G : LGrid E S Nat} (ok : G.OK) {e e' : E} {i i' : Nat} {u : Geo} (hu : (stdSubs (G.elemGeo e) 1)[i]? = some u)
    (hu' : (stdSubs (G.elemGeo e') 1)[i']? = some u) (hs : G.sub e 1 i = G.sub e' 1 i') :
    (∀ k < u.nv, ∃ m < u.nv, G.ids e' (facetVert (G.elemGeo e') i' k) = G.ids e (facetVert (G.elemGeo e) i m)) ∧
    ∀ k < u.nv, ∀ m < u.nv, G.ids e' (facetVert (G.elemGeo e') i' k) = G.ids e' (facetVert (G.elemGeo e') i' m) → k = m := by
  have hv := ok.vertsSame e ⟨i, 1, 0⟩ e' ⟨i', 1, 0⟩ (by rw [ok.std]; exact (List.getElem?_eq_some_iff.1 hu).1)
    (by rw [ok.std]; exact (List.getElem?_eq_some_iff.1 hu').1) hs
  rw [facet_verts ok hu, facet_verts ok hu'] at hv
  obtain ⟨h1, h2⟩ := facetVert_inj (ok.type e') hu'
  refine ⟨fun k hk => ?_, fun k hk m hm h => h2 k hk m hm (ok.idsInj e' _ _ (h1 k hk) (h1 m hm) h)⟩
  obtain ⟨m, hm, h⟩ := List.mem_map.1 ((hv _).2 (List.mem_map.2 ⟨k, List.mem_range.2 hk, rfl⟩))
  exact ⟨m, List.mem_range.1 hm, h.symm⟩

/-- Numberings of the vertices of a common quadrilateral. -/
theorem quad_ids {G : LGrid E S Nat} (ok : G.OK) {e e' : E} {i i' : Nat} (hu : (stdSubs (G.elemGeo e) 1)[i]? = some ⟨2, 4⟩)
    (hu' : (stdSubs (G.elemGeo e') 1)[i']? = some ⟨2, 4⟩) (hs : G.sub e 1 i = G.sub e' 1 i') (hg : G.geo (G.sub e 1 i) = ⟨2, 4⟩) :
    ∃ σ : Nat → Nat, [σ 0, σ 1, σ 2, σ 3] ∈ [[0, 1, 2, 3], [1, 0, 3, 2], [2, 3, 0, 1], [3, 2, 1, 0], [0, 2, 1, 3], [1, 3, 0, 2], [2, 0, 3, 1], [3, 1, 2, 0]] ∧
      ∀ k < 4, σ k < 4 ∧ G.ids e' (facetVert (G.elemGeo e') i' k) = G.ids e (facetVert (G.elemGeo e) i (σ k)) := by
  obtain ⟨h1, h2⟩ := facet_ids ok hu hu' hs
  have hd := ok.diagSame e ⟨i, 1, 0⟩ e' ⟨i', 1, 0⟩ (by rw [ok.std]; exact (List.getElem?_eq_some_iff.1 hu).1)
    (by rw [ok.std]; exact (List.getElem?_eq_some_iff.1 hu').1) hs hg
  rw [facet_verts ok hu, facet_verts ok hu'] at hd
  set q := fun k => G.ids e (facetVert (G.elemGeo e) i k)
  set q' := fun k => G.ids e' (facetVert (G.elemGeo e') i' k)
  have hdiag : ∀ k < 4, ∀ m < 4, q' k = q m → q' (3 - k) = q (3 - m) := by
    intro k hk m hm hkm
    obtain ⟨a, ha, e1, e2⟩ := (hd (q' k) (q' (3 - k))).2 ⟨k, hk, by simp [q', hk], by simp [q', show 3 - k < 4 by omega]⟩
    have e1 : q a = q' k := by simpa [q, ha] using e1
    have e2 : q (3 - a) = q' (3 - k) := by simpa [q, show 3 - a < 4 by omega] using e2
    obtain ⟨i1, i2⟩ := facetVert_inj (ok.type e) hu
    have : a = m := i2 a ha m hm (ok.idsInj e _ _ (i1 a ha) (i1 m hm) (e1.trans hkm))
    rw [← this, e2]
  obtain ⟨j, hj, ej⟩ := h1 0 (by decide)
  obtain ⟨l, hl, el⟩ := h1 1 (by decide)
  have hj : j < 4 := hj
  have hl : l < 4 := hl
  have e3 := hdiag 0 (by omega) j hj ej
  have e2 := hdiag 1 (by omega) l hl el
  have n1 : l ≠ j := by
    rintro rfl
    exact absurd (h2 1 (by decide) 0 (by decide) (el.trans ej.symm)) (by decide)
  have n2 : l ≠ 3 - j := by
    rintro rfl
    exact absurd (h2 1 (by decide) 3 (by decide) (el.trans e3.symm)) (by decide)
  refine ⟨fun k => if k = 0 then j else if k = 1 then l else if k = 2 then 3 - l else 3 - j, ?_, fun k hk => ?_⟩
  · have : ∀ j l : Fin 4, l.val ≠ j.val → l.val ≠ 3 - j.val → [j.val, l.val, 3 - l.val, 3 - j.val] ∈ [[0, 1, 2, 3], [1, 0, 3, 2], [2, 3, 0, 1], [3, 2, 1, 0], [0, 2, 1, 3], [1, 3, 0, 2], [2, 0, 3, 1], [3, 1, 2, 0]] := by decide
    exact this ⟨j, hj⟩ ⟨l, hl⟩ n1 n2
  · have : k = 0 ∨ k = 1 ∨ k = 2 ∨ k = 3 := by omega
    rcases this with rfl | rfl | rfl | rfl
    · exact ⟨hj, ej⟩
    · exact ⟨hl, el⟩
    · exact ⟨by simp; omega, e2⟩
    · exact ⟨by simp; omega, e3⟩

/-- **Frames of a common facet.** In the same point of a common facet, the tangent vectors of the two elements differ by a matrix of determinant 1 or -1. -/
theorem mixed_frames (hn : n = 1 ∨ n = 2) {G : LGrid E S Nat} (ok : G.OK) (types : ∀ e, Supported (n + 1) (G.elemGeo e)) (pos : Nat → Vec K (n + 1)) {e e' : E} {i i' : Nat}
    (hi : i < numFacets (G.elemGeo e)) (hi' : i' < numFacets (G.elemGeo e')) (hs : G.sub e 1 i = G.sub e' 1 i') {x x' : Vec K (n + 1)}
    (hx : (facetOf K n (G.elemGeo e) i).On x) (hx' : (facetOf K n (G.elemGeo e') i').On x')
    (hxx : ∀ v < (G.elemGeo e).nv, ∀ v' < (G.elemGeo e').nv, G.ids e v = G.ids e' v' → vertexWeight (G.elemGeo e) v x = vertexWeight (G.elemGeo e') v' x') :
    ∃ U : Mat K n, |U.det| = 1 ∧ ∀ l, jacobian (G.elemGeo e') (fun v => pos (G.ids e' v)) x' *ᵥ (facetOf K n (G.elemGeo e') i').frame l =
      ∑ k, U l k • (jacobian (G.elemGeo e) (fun v => pos (G.ids e v)) x *ᵥ (facetOf K n (G.elemGeo e) i).frame k) := by
  obtain ⟨u, hu, hu', hg⟩ := facet_type ok hi hi' hs
  obtain ⟨h1, h2⟩ := facet_ids ok hu hu' hs
  rcases hn with rfl | rfl
  · have hnv : u = ⟨1, 2⟩ := by
      have : ∀ t ∈ elemTypes, t.dim = 2 → ∀ u ∈ stdSubs t 1, u = ⟨1, 2⟩ := by decide
      exact this _ (ok.type e) (types e).2.1 u (List.mem_of_getElem? hu)
    subst hnv
    obtain ⟨a, ha, ea⟩ := h1 0 (by decide)
    obtain ⟨b, hb, eb⟩ := h1 1 (by decide)
    have ha : a < 2 := ha
    have hb : b < 2 := hb
    have hab : a ≠ b := by
      rintro rfl
      exact absurd (h2 0 (by decide) 1 (by decide) (ea.trans eb.symm)) (by decide)
    refine ⟨!![(b : K) - a], ?_, fun l => ?_⟩
    · have : a = 0 ∧ b = 1 ∨ a = 1 ∧ b = 0 := by omega
      rcases this with ⟨rfl, rfl⟩ | ⟨rfl, rfl⟩ <;> simp
    · rw [Subsingleton.elim l 0, Fin.sum_univ_one, edge_frame (types e') _ hi' hx', edge_frame (types e) _ hi hx, ea, eb]
      have : a = 0 ∧ b = 1 ∨ a = 1 ∧ b = 0 := by omega
      rcases this with ⟨rfl, rfl⟩ | ⟨rfl, rfl⟩ <;> simp
  · have hu2 : u = ⟨2, 3⟩ ∨ u = ⟨2, 4⟩ := by
      have : ∀ t ∈ elemTypes, t.dim = 3 → ∀ u ∈ stdSubs t 1, u = ⟨2, 3⟩ ∨ u = ⟨2, 4⟩ := by decide
      exact this _ (ok.type e) (types e).2.1 u (List.mem_of_getElem? hu)
    rcases hu2 with rfl | rfl
    · obtain ⟨U, hU, h⟩ := frame_change (Or.inr rfl) (fun k => G.ids e (facetVert (G.elemGeo e) i k)) (fun k => G.ids e' (facetVert (G.elemGeo e') i' k)) pos h1 h2
      refine ⟨U, hU, fun l => ?_⟩
      rw [triangle_frame (types e') _ hu' hx', h l]
      refine Finset.sum_congr rfl fun k _ => ?_
      rw [triangle_frame (types e) _ hu hx]
    · obtain ⟨σ, hσ, hp⟩ := quad_ids ok hu hu' hs hg
      obtain ⟨U, hU, e0, e1⟩ := quad_change (quad_frame (types e) (fun v => pos (G.ids e v)) hu hx) (quad_frame (types e') (fun v => pos (G.ids e' v)) hu' hx') σ hσ
        (fun k hk => by rw [(hp k hk).2]) (fun k hk => (hxx _ ((facetVert_inj (ok.type e) hu).1 _ (hp k hk).1) _ ((facetVert_inj (ok.type e') hu').1 k hk) (hp k hk).2.symm).symm)
      refine ⟨U, hU, fun l => ?_⟩
      rw [Fin.sum_univ_two]
      fin_cases l
      · exact e0
      · exact e1

/-- Jacobian of an element of a grid. -/
def gridJac (G : LGrid E S Nat) (pos : Nat → Vec K (n + 1)) (e : E) (x : Vec K (n + 1)) : Mat K (n + 1) := jacobian (G.elemGeo e) (fun v => pos (G.ids e v)) x

/-- **C67 on grids of simplices, cubes and prisms.** On every conforming grid of triangles and quadrilaterals or of tetrahedra, hexahedra and prisms with affine or multilinear geometries, and for
every coefficient vector, the values of a Raviart–Thomas function of order 0 on the two sides of a facet have the same component in every direction orthogonal to the facet. The facet need not be plane.
The points `x` and `x'` are the same point of the facet (equal weights of common vertices), and the elements lie on different sides of the facet there. -/
theorem C67_mixed (hn : n = 1 ∨ n = 2) {G : LGrid E S Nat} (ok : G.OK) (hdim : G.dim = n + 1) (types : ∀ e, Supported (n + 1) (G.elemGeo e)) (pos : Nat → Vec K (n + 1))
    {isects : E → List (Isect E)} (hI : Neighbours G.toGridView isects) (fixed : Option Geo)
    (hfix : ∀ u, fixed = some u → ∀ e, u = G.elemGeo e ∧ (G.elemGeo e = simplexOf G.dim ∨ G.elemGeo e = cubeOf G.dim)) (geo : E → Geometry K (n + 1)) (vec : Nat → K)
    {e e' : E} (hne : e ≠ e') {i i' : Nat} (hi : i < numFacets (G.elemGeo e)) (hi' : i' < numFacets (G.elemGeo e')) (hs : G.sub e 1 i = G.sub e' 1 i')
    {x x' : Vec K (n + 1)} (hx : (facetOf K n (G.elemGeo e) i).On x) (hx' : (facetOf K n (G.elemGeo e') i').On x')
    (hxx : ∀ v < (G.elemGeo e).nv, ∀ v' < (G.elemGeo e').nv, G.ids e v = G.ids e' v' → vertexWeight (G.elemGeo e) v x = vertexWeight (G.elemGeo e') v' x')
    (hJ : (geo e).OK (gridJac G pos e x) x) (hJ' : (geo e').OK (gridJac G pos e' x') x')
    (sides : vol (gridJac G pos e x *ᵥ (facetOf K n (G.elemGeo e) i).out) (fun k => gridJac G pos e x *ᵥ (facetOf K n (G.elemGeo e) i).frame k) *
      vol (gridJac G pos e' x' *ᵥ (facetOf K n (G.elemGeo e') i').out) (fun k => gridJac G pos e x *ᵥ (facetOf K n (G.elemGeo e) i).frame k) < 0) :
    ∃ v v', value G.toGridView fixed isects rtTable rtKeys geo vec e x = some v ∧ value G.toGridView fixed isects rtTable rtKeys geo vec e' x' = some v' ∧
      ∀ N : Vec K (n + 1), (∀ k, N ⬝ᵥ (gridJac G pos e x *ᵥ (facetOf K n (G.elemGeo e) i).frame k) = 0) → N ⬝ᵥ v = N ⬝ᵥ v' :=
  C67_raviartThomas ⟨ok.base, ok.std, ok.type, ok.elemInj⟩ (by rw [hdim]; omega) fixed hfix hI (fun e => rt_fluxes hn (types e)) geo vec hne hi hi' hs hx hx' hJ hJ'
    ⟨mixed_frames hn ok types pos hi hi' hs hx hx' hxx, sides⟩

/-! ## Example: a prism, a hexahedron and a tetrahedron -/

/-- Positions of the vertices; the common face of prism and hexahedron, with the vertices 1, 2, 4, 5, is not plane. -/
def prismPos (v : Nat) : Vec ℚ 3 :=
  ([![1, 0, 0], ![0, 1, 0], ![0, 0, 0], ![1, 0, 1], ![0, 2, 1], ![0, 0, 1], ![1, 3, 1], ![2, 1, 1], ![1, 2, 0], ![2, 1, 0], ![0, 0, 2]] : List (Vec ℚ 3)).getD (v - 1) 0

def prismIsects (e : Fin 3) : List (Isect (Fin 3)) :=
  if e = 0 then [⟨0, none, true⟩, ⟨1, none, true⟩, ⟨2, some 1, true⟩, ⟨3, none, true⟩, ⟨4, some 2, true⟩]
  else if e = 1 then [⟨0, some 0, true⟩, ⟨1, none, true⟩, ⟨2, none, true⟩, ⟨3, none, true⟩, ⟨4, none, true⟩, ⟨5, none, true⟩]
  else [⟨0, none, true⟩, ⟨1, none, true⟩, ⟨2, some 0, true⟩, ⟨3, none, true⟩]

theorem prism_neighbours : Neighbours Continuity.prismGrid.toGridView prismIsects where
  inside := by decide
  shared := by
    have : ∀ e e' : Fin 3, ∀ i ∈ List.range (numFacets (Continuity.prismGrid.elemGeo e)), ∀ i' ∈ List.range (numFacets (Continuity.prismGrid.elemGeo e')), e ≠ e' →
        Continuity.prismGrid.sub e 1 i = Continuity.prismGrid.sub e' 1 i' →
        (∃ s ∈ prismIsects e, s.inside = i ∧ s.contained = true ∧ s.outside = some e') ∧ ∀ s ∈ prismIsects e, s.inside = i → s.outside = some e' := by decide +kernel
    exact fun e e' i i' hne hi hi' hs => this e e' i (List.mem_range.2 hi) i' (List.mem_range.2 hi') hne hs

/-- In the middle of the curved face, the component in the direction (3, 2, -1) of prism and hexahedron agree. -/
example (vec : Nat → ℚ) :
    let geo := fun e : Fin 3 => ofJacobian fun x => gridJac Continuity.prismGrid prismPos e x
    ∃ v v', value Continuity.prismGrid.toGridView none prismIsects rtTable rtKeys geo vec 0 ![1 / 2, 1 / 2, 1 / 2] = some v ∧
      value Continuity.prismGrid.toGridView none prismIsects rtTable rtKeys geo vec 1 ![0, 1 / 2, 1 / 2] = some v' ∧ 3 * v 0 + 2 * v 1 - v 2 = 3 * v' 0 + 2 * v' 1 - v' 2 := by
  intro geo
  have hx : (prismFacet ℚ 2 2).On ![1 / 2, 1 / 2, 1 / 2] := by
    simp only [prismFacet, coordinate]
    norm_num
  have hx' : (cubeFacet ℚ 2 0).On ![0, 1 / 2, 1 / 2] := by simp [cubeFacet]
  obtain ⟨v, v', h1, h2, h3⟩ := C67_mixed (Or.inr rfl) Continuity.prismGrid_OK rfl Continuity.prism_elem prismPos prism_neighbours none (by simp) geo vec (e := 0) (e' := 1) (by decide)
    (i := 2) (i' := 0) (by decide) (by decide) (by decide) (x := ![1 / 2, 1 / 2, 1 / 2]) (x' := ![0, 1 / 2, 1 / 2]) hx hx'
    (by decide +kernel) (ofJacobian_OK _ _ (by decide +kernel)) (ofJacobian_OK _ _ (by decide +kernel)) (by decide +kernel)
  refine ⟨v, v', h1, h2, ?_⟩
  have := h3 ![3, 2, -1] (by decide +kernel)
  simp [dotProduct, Fin.sum_univ_succ] at this
  linarith

end Verif.HDiv.Trace

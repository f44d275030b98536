import Verif.HDiv.TangentialTrace
import Verif.HDiv.NormalMixed

/-!
# Tangential components of Nédélec functions on grids of simplices and cubes

The elements have affine or multilinear geometries, so that quadrilaterals need not be parallelograms and faces of hexahedra need not be plane.
-/

namespace Verif.HDiv.Tangential

open Matrix Verif.Mapper Verif.Lagrange Verif.Piola
open Verif.HDiv.Trace (facetOf facetVert gridJac jacobian unit quad_ids facet_type facet_ids facetVert_inj edge_frame triangle_frame)
open Verif.Lagrange.Continuity (vertexWeight)

variable {E S K : Type} [Field K] [LinearOrder K] [IsStrictOrderedRing K] {n : Nat}

/-! ## Finite elements -/

/-- The finite elements of order 1 of dune-localfunctions; there are none for prisms and pyramids (`nedelecbasis.hh:169-185` rejects such grids). -/
def nedTable : HDiv.Kind → Nat → LFE K n
  | .simplex, bits => nedelecSimplex bits
  | _, bits => nedelecCube bits

def nedKeys (t : Geo) : List Key := (List.range (refOf t).edges.length).map fun i => ⟨i, t.dim - 1, 0⟩

/-- Simplices and cubes. -/
def nedTypes : List Geo := [⟨2, 3⟩, ⟨2, 4⟩, ⟨3, 4⟩, ⟨3, 8⟩]

omit [LinearOrder K] [IsStrictOrderedRing K] in
/-- The variants differ by signs. -/
theorem shape_sign {t : Geo} (ht : t ∈ nedTypes) (hd : t.dim = n) (bits : Nat) {l : Nat} (hl : l < (refOf t).edges.length) (x : Vec K n) :
    (nedTable (kindOf t) bits).shape l x = (if bits.testBit l then (-1 : K) else 1) • (nedTable (kindOf t) 0).shape l x := by
  subst hd
  fin_cases ht
  · have h : l < (simplexEdges 2).length := hl
    simp [nedTable, show kindOf ⟨2, 3⟩ = .simplex from rfl, LFE.shape, nedelecSimplex, h]
  · have h : l < (cubeEdges 2).length := hl
    funext d
    simp [nedTable, show kindOf ⟨2, 4⟩ = .cube from rfl, LFE.shape, nedelecCube, h]
  · have h : l < (simplexEdges 3).length := hl
    simp [nedTable, show kindOf ⟨3, 4⟩ = .simplex from rfl, LFE.shape, nedelecSimplex, h]
  · have h : l < (cubeEdges 3).length := hl
    funext d
    simp [nedTable, show kindOf ⟨3, 8⟩ = .cube from rfl, LFE.shape, nedelecCube, h]

omit [LinearOrder K] [IsStrictOrderedRing K] in
theorem ned_size {t : Geo} (ht : t ∈ nedTypes) (hd : t.dim = n) (bits : Nat) (x : Vec K n) : ((nedTable (kindOf t) bits).eval x).length = (nedKeys t).length := by
  subst hd
  fin_cases ht
  · simp [nedTable, show kindOf ⟨2, 3⟩ = .simplex from rfl, nedKeys, nedelecSimplex, simplexEdges, simplexOf]
  · simp [nedTable, show kindOf ⟨2, 4⟩ = .cube from rfl, nedKeys, nedelecCube, cubeEdges, cubeOf]
  · simp [nedTable, show kindOf ⟨3, 4⟩ = .simplex from rfl, nedKeys, nedelecSimplex, simplexEdges, simplexOf]
  · simp [nedTable, show kindOf ⟨3, 8⟩ = .cube from rfl, nedKeys, nedelecCube, cubeEdges, cubeOf]

/-! ## Components of the values -/

/-- Number of the edge between two vertices. -/
def edgeNo (t : Geo) (a b : Nat) : Nat := (refOf t).edges.findIdx fun p => p = (a, b) || p = (b, a)

/-- The coefficient of the edge between two vertices, with the sign of the direction from the first to the second. -/
def edgeValue (G : GridView E S) (vec : Nat → K) (e : E) (a b : Nat) : K :=
  (if vertexIndex G e a < vertexIndex G e b then 1 else if vertexIndex G e b < vertexIndex G e a then -1 else 0) *
    vec (mapperIndex G nedelecLayout (G.sub e (G.dim - 1) (edgeNo (G.elemGeo e) a b)))

/-- Component in the direction `s` of the field with the values `D a b` on the edges. -/
def comp (t : Geo) (D : Nat → Nat → K) (x s : Vec K n) : K := ((refOf t).edges.mapIdx fun l p => D p.1 p.2 * ((nedTable (kindOf t) 0).shape l x ⬝ᵥ s)).sum

theorem edgeNo_comm (t : Geo) (a b : Nat) : edgeNo t b a = edgeNo t a b := by
  rw [edgeNo, edgeNo]
  congr 1
  funext p
  rw [Bool.or_comm]

omit [LinearOrder K] [IsStrictOrderedRing K] in
theorem edgeValue_swap (G : GridView E S) (vec : Nat → K) (e : E) (a b : Nat) : edgeValue G vec e b a = -edgeValue G vec e a b := by
  rw [edgeValue, edgeValue, edgeNo_comm]
  rcases lt_trichotomy (vertexIndex G e a) (vertexIndex G e b) with h | h | h
  · simp [h, not_lt.2 h.le]
  · simp [h]
  · simp [h, not_lt.2 h.le]

theorem accepted_type {G : GridView E S} {fixed : Option Geo} (h : Accepted G fixed) (e : E) : G.elemGeo e ∈ nedTypes := by
  rcases h.types e with ht | ht <;> rw [ht] <;> rcases h.dim with hd | hd <;> rw [hd] <;> decide

theorem edge_sorted {t : Geo} (ht : t ∈ nedTypes) : ∀ l < (refOf t).edges.length, ∀ p ∈ (refOf t).edges[l]?, p.1 < p.2 ∧ edgeNo t p.1 p.2 = l := by
  revert t
  decide

omit [IsStrictOrderedRing K] in
/-- The components of the value in the directions of the transformed vectors. -/
theorem ned_value {G : GridView E S} {fixed : Option Geo} (h : Accepted G fixed) (hdim : G.dim = n) (geo : E → Geometry K n) (vec : Nat → K) (e : E) {x : Vec K n} {J : Mat K n}
    (hJ : (geo e).OK J x) : ∃ v, value G fixed nedTable nedKeys geo vec e x = some v ∧ ∀ s, v ⬝ᵥ (J *ᵥ s) = comp (G.elemGeo e) (edgeValue G vec e) x s := by
  obtain ⟨bits, h1, h2, h3⟩ := bits_spec h e
  have ht := accepted_type h e
  have hd : (G.elemGeo e).dim = n := hdim ▸ (h.std.base.elemMem e).2
  refine ⟨_, by rw [value, h1]; rfl, fun s => ?_⟩
  have hv := value_dotProduct G nedKeys e (nedTable (kindOf (G.elemGeo e)) bits) hJ (ned_size ht hd bits x) vec s
  refine Eq.trans hv ?_
  rw [comp]
  congr 1
  apply List.ext_getElem
  · simp [nedKeys]
  intro l l1 l2
  have hl : l < (refOf (G.elemGeo e)).edges.length := by simpa using l2
  obtain ⟨a, b, hab⟩ : ∃ a b, (refOf (G.elemGeo e)).edges[l] = (a, b) := ⟨_, _, rfl⟩
  have he : (refOf (G.elemGeo e)).edges[l]? = some (a, b) := by rw [List.getElem?_eq_getElem hl, hab]
  obtain ⟨hlt, hno⟩ := edge_sorted ht l hl _ he
  simp only at hlt hno
  obtain ⟨ha, hb, hne⟩ := edge_lt h e he
  have hgne : vertexIndex G e a ≠ vertexIndex G e b := fun hi => hne (vertex_inj h e a ha b hb hi)
  have hbit := h3 l a b he
  rw [max_eq_right hlt.le, min_eq_left hlt.le] at hbit
  simp only [List.getElem_map, List.getElem_finRange, List.getElem_mapIdx, hab, Fin.cast_mk, shape_sign ht hd bits hl x, edgeValue, hno, hbit, smul_dotProduct, smul_eq_mul]
  have hk : (nedKeys (G.elemGeo e))[l]'(by simpa [nedKeys] using hl) = ⟨l, G.dim - 1, 0⟩ := by simp [nedKeys, hd, hdim]
  simp only [Fin.getElem_fin, hk, Nat.add_zero]
  rcases Nat.lt_or_gt_of_ne hgne with hg | hg
  · simp [hg, not_lt.2 hg.le]
  · simp [hg, not_lt.2 hg.le]

/-! ## Components on facets -/

omit [LinearOrder K] [IsStrictOrderedRing K] in
theorem triangle_comp (D : Nat → Nat → K) (x s : Vec K 2) :
    comp ⟨2, 3⟩ D x s = D 0 1 * ((1 - x 1) * s 0 + x 0 * s 1) + D 0 2 * (x 1 * s 0 + (1 - x 0) * s 1) + D 1 2 * (x 0 * s 1 - x 1 * s 0) := by
  simp [comp, refOf, triangle, nedTable, show kindOf ⟨2, 3⟩ = .simplex from rfl, LFE.shape, nedelecSimplex, simplexEdges, simplexOf, bary, gradBary, Fin.sum_univ_succ, dotProduct]
  ring

omit [LinearOrder K] [IsStrictOrderedRing K] in
theorem quadrilateral_comp (D : Nat → Nat → K) (x s : Vec K 2) :
    comp ⟨2, 4⟩ D x s = ((1 - x 1) * D 0 1 + x 1 * D 2 3) * s 0 + ((1 - x 0) * D 0 2 + x 0 * D 1 3) * s 1 := by
  simp [comp, refOf, quadrilateral, nedTable, show kindOf ⟨2, 4⟩ = .cube from rfl, LFE.shape, nedelecCube, cubeEdges, cubeOf, edgeDirection, Fin.sum_univ_succ, Fin.prod_univ_succ, dotProduct,
    show Nat.log2 2 = 1 by decide, show Nat.log2 1 = 0 by decide, Nat.testBit]
  ring

omit [LinearOrder K] [IsStrictOrderedRing K] in
theorem tetrahedron_comp (D : Nat → Nat → K) (x s : Vec K 3) :
    comp ⟨3, 4⟩ D x s = D 0 1 * ((1 - x 0 - x 1 - x 2) * s 0 + x 0 * (s 0 + s 1 + s 2)) + D 0 2 * ((1 - x 0 - x 1 - x 2) * s 1 + x 1 * (s 0 + s 1 + s 2)) +
      D 0 3 * ((1 - x 0 - x 1 - x 2) * s 2 + x 2 * (s 0 + s 1 + s 2)) + D 1 2 * (x 0 * s 1 - x 1 * s 0) + D 1 3 * (x 0 * s 2 - x 2 * s 0) + D 2 3 * (x 1 * s 2 - x 2 * s 1) := by
  simp [comp, refOf, tetrahedron, nedTable, show kindOf ⟨3, 4⟩ = .simplex from rfl, LFE.shape, nedelecSimplex, simplexEdges, simplexOf, bary, gradBary, Fin.sum_univ_succ, dotProduct]
  ring

omit [LinearOrder K] [IsStrictOrderedRing K] in
theorem hexahedron_comp (D : Nat → Nat → K) (x s : Vec K 3) :
    comp ⟨3, 8⟩ D x s = ((1 - x 1) * (1 - x 2) * D 0 1 + x 1 * (1 - x 2) * D 2 3 + (1 - x 1) * x 2 * D 4 5 + x 1 * x 2 * D 6 7) * s 0 +
      ((1 - x 0) * (1 - x 2) * D 0 2 + x 0 * (1 - x 2) * D 1 3 + (1 - x 0) * x 2 * D 4 6 + x 0 * x 2 * D 5 7) * s 1 +
      ((1 - x 0) * (1 - x 1) * D 0 4 + x 0 * (1 - x 1) * D 1 5 + (1 - x 0) * x 1 * D 2 6 + x 0 * x 1 * D 3 7) * s 2 := by
  simp [comp, refOf, hexahedron, nedTable, show kindOf ⟨3, 8⟩ = .cube from rfl, LFE.shape, nedelecCube, cubeEdges, cubeOf, edgeDirection, Fin.sum_univ_succ, Fin.prod_univ_succ, dotProduct,
    show Nat.log2 4 = 2 by decide, show Nat.log2 2 = 1 by decide, show Nat.log2 1 = 0 by decide, Nat.testBit]
  ring

omit [LinearOrder K] [IsStrictOrderedRing K] in
theorem edge_comp {t : Geo} (ht : t = ⟨2, 3⟩ ∨ t = ⟨2, 4⟩) (D : Nat → Nat → K) {i : Nat} (hi : i < numFacets t) {x : Vec K 2} (hx : (facetOf K 1 t i).On x) :
    comp t D x ((facetOf K 1 t i).frame 0) = D (facetVert t i 0) (facetVert t i 1) := by
  rcases ht with rfl | rfl
  · have h3 : numFacets ⟨2, 3⟩ = 3 := by decide
    have : i = 0 ∨ i = 1 ∨ i = 2 := by omega
    rw [triangle_comp]
    have hf : facetOf K 1 ⟨2, 3⟩ i = Trace.simplexFacet K 1 i := by simp [facetOf]
    rw [hf] at hx ⊢
    obtain ⟨w, hw, rfl⟩ := hx
    rw [Fin.sum_univ_two] at hw
    have hw : w 1 = 1 - w 0 := by linear_combination hw
    rcases this with rfl | rfl | rfl <;>
      simp [Trace.simplexFacet, Trace.corner, Trace.facetVertex, facetVert, simplexOf, subVerts, refOf, triangle, hw, Fin.sum_univ_two]
  · have h3 : numFacets ⟨2, 4⟩ = 4 := by decide
    have : i = 0 ∨ i = 1 ∨ i = 2 ∨ i = 3 := by omega
    rw [quadrilateral_comp]
    rcases this with rfl | rfl | rfl | rfl <;> simp [facetOf, Trace.cubeFacet] at hx <;>
      simp [facetOf, Trace.cubeFacet, unit, facetVert, subVerts, refOf, quadrilateral, hx]

omit [LinearOrder K] [IsStrictOrderedRing K] in
theorem face_comp {t : Geo} (ht : t = ⟨3, 4⟩) (D : Nat → Nat → K) (h0 : ∀ a, D a a = 0) (hD : ∀ a b, D b a = -D a b) {i : Nat} (hi : i < numFacets t) {x : Vec K 3}
    (hx : (facetOf K 2 t i).On x) (k : Fin 2) : comp t D x ((facetOf K 2 t i).frame k) =
      ∑ j : Fin 3, vertexWeight t (facetVert t i j) x * (D (facetVert t i j) (facetVert t i (k + 1)) - D (facetVert t i j) (facetVert t i 0)) := by
  subst ht
  replace hi : i < 4 := hi
  have h01234 : i = 0 ∨ i = 1 ∨ i = 2 ∨ i = 3 := by omega
  rw [tetrahedron_comp]
  have hf : facetOf K 2 ⟨3, 4⟩ i = Trace.simplexFacet K 2 i := by simp [facetOf]
  rw [hf] at hx ⊢
  obtain ⟨w, hw, rfl⟩ := hx
  rw [Fin.sum_univ_three] at hw
  have hw : w 2 = 1 - w 0 - w 1 := by linear_combination hw
  have h1 := hD 0 1
  have h2 := hD 0 2
  have h3 := hD 0 3
  have h4 := hD 1 2
  have h5 := hD 1 3
  have h6 := hD 2 3
  rcases h01234 with rfl | rfl | rfl | rfl <;> fin_cases k <;>
    simp [Trace.simplexFacet, Trace.corner, Trace.facetVertex, facetVert, simplexOf, subVerts, refOf, tetrahedron, hw, vertexWeight, bary, Fin.sum_univ_succ, h0, h1, h2, h3, h4,
      h5, h6, Continuity.prismType] <;> ring

/-- Components of bilinear interpolation between the edges of a quadrilateral, in the two directions. -/
def quadComp (w : Nat → K) (D : Nat → Nat → K) (k : Fin 2) : K := if k = 0 then (w 0 + w 1) * D 0 1 + (w 2 + w 3) * D 2 3 else (w 0 + w 2) * D 0 2 + (w 1 + w 3) * D 1 3

omit [LinearOrder K] [IsStrictOrderedRing K] in
theorem quad_comp {t : Geo} (ht : t = ⟨3, 8⟩) (D : Nat → Nat → K) {i : Nat} (hi : i < numFacets t) {x : Vec K 3} (hx : (facetOf K 2 t i).On x) (k : Fin 2) :
    comp t D x ((facetOf K 2 t i).frame k) = quadComp (fun j => vertexWeight t (facetVert t i j) x) (fun a b => D (facetVert t i a) (facetVert t i b)) k := by
  subst ht
  replace hi : i < 6 := hi
  obtain ⟨w0, w1, w2, w3, w4, w5, w6, w7⟩ := Trace.hexahedron_weights x
  have hv : ∀ i < 6, ∀ k < 4, facetVert ⟨3, 8⟩ i k = (([[0, 2, 4, 6], [1, 3, 5, 7], [0, 1, 4, 5], [2, 3, 6, 7], [0, 1, 2, 3], [4, 5, 6, 7]] : List (List Nat)).getD i []).getD k 0 := by decide
  have h01234 : i = 0 ∨ i = 1 ∨ i = 2 ∨ i = 3 ∨ i = 4 ∨ i = 5 := by omega
  have hf : facetOf K 2 ⟨3, 8⟩ i = Trace.cubeFacet K 2 i := by simp [facetOf]
  rw [hf] at hx ⊢
  simp only [quadComp]
  rw [hexahedron_comp, hv i hi 0 (by omega), hv i hi 1 (by omega), hv i hi 2 (by omega), hv i hi 3 (by omega)]
  rcases h01234 with rfl | rfl | rfl | rfl | rfl | rfl <;> simp [Trace.cubeFacet] at hx <;> fin_cases k <;>
    simp [Trace.cubeFacet, unit, w0, w1, w2, w3, w4, w5, w6, w7, hx] <;> ring

/-- Another first vertex or direction of the quadrilateral. -/
theorem quad_turn (σ : Nat → Nat) (hσ : [σ 0, σ 1, σ 2, σ 3] ∈ [[0, 1, 2, 3], [1, 0, 3, 2], [2, 3, 0, 1], [3, 2, 1, 0], [0, 2, 1, 3], [1, 3, 0, 2], [2, 0, 3, 1], [3, 1, 2, 0]]) :
    ∃ U : Mat K 2, U.det ≠ 0 ∧ ∀ (w : Nat → K) (D : Nat → Nat → K), (∀ a b, D b a = -D a b) →
      ∀ l, quadComp (fun k => w (σ k)) (fun a b => D (σ a) (σ b)) l = ∑ k, U l k * quadComp w D k := by
  simp only [List.mem_cons, List.cons.injEq, and_true, List.not_mem_nil, or_false] at hσ
  have key : ∀ U : Mat K 2, U.det ≠ 0 → (∀ (w : Nat → K) (D : Nat → Nat → K), (∀ a b, D b a = -D a b) →
      ∀ l, quadComp (fun k => w (σ k)) (fun a b => D (σ a) (σ b)) l = U l 0 * quadComp w D 0 + U l 1 * quadComp w D 1) → ∃ U : Mat K 2, U.det ≠ 0 ∧
      ∀ (w : Nat → K) (D : Nat → Nat → K), (∀ a b, D b a = -D a b) → ∀ l, quadComp (fun k => w (σ k)) (fun a b => D (σ a) (σ b)) l = ∑ k, U l k * quadComp w D k := by
    intro U h1 h2
    refine ⟨U, h1, fun w D hD l => ?_⟩
    rw [Fin.sum_univ_two, h2 w D hD l]
  rcases hσ with ⟨s0, s1, s2, s3⟩ | ⟨s0, s1, s2, s3⟩ | ⟨s0, s1, s2, s3⟩ | ⟨s0, s1, s2, s3⟩ | ⟨s0, s1, s2, s3⟩ | ⟨s0, s1, s2, s3⟩ | ⟨s0, s1, s2, s3⟩ | ⟨s0, s1, s2, s3⟩
  · refine key !![1, 0; 0, 1] (by simp [Matrix.det_fin_two]) fun w D hD l => ?_
    fin_cases l <;> simp [quadComp, s0, s1, s2, s3]
  · refine key !![-1, 0; 0, 1] (by simp [Matrix.det_fin_two]) fun w D hD l => ?_
    fin_cases l <;> simp [quadComp, s0, s1, s2, s3, hD 0 1, hD 2 3, hD 0 2, hD 1 3] <;> ring
  · refine key !![1, 0; 0, -1] (by simp [Matrix.det_fin_two]) fun w D hD l => ?_
    fin_cases l <;> simp [quadComp, s0, s1, s2, s3, hD 0 1, hD 2 3, hD 0 2, hD 1 3] <;> ring
  · refine key !![-1, 0; 0, -1] (by simp [Matrix.det_fin_two]) fun w D hD l => ?_
    fin_cases l <;> simp [quadComp, s0, s1, s2, s3, hD 0 1, hD 2 3, hD 0 2, hD 1 3] <;> ring
  · refine key !![0, 1; 1, 0] (by simp [Matrix.det_fin_two]) fun w D hD l => ?_
    fin_cases l <;> simp [quadComp, s0, s1, s2, s3]
  · refine key !![0, 1; -1, 0] (by simp [Matrix.det_fin_two]) fun w D hD l => ?_
    fin_cases l <;> simp [quadComp, s0, s1, s2, s3, hD 0 1, hD 2 3, hD 0 2, hD 1 3] <;> ring
  · refine key !![0, -1; 1, 0] (by simp [Matrix.det_fin_two]) fun w D hD l => ?_
    fin_cases l <;> simp [quadComp, s0, s1, s2, s3, hD 0 1, hD 2 3, hD 0 2, hD 1 3] <;> ring
  · refine key !![0, -1; -1, 0] (by simp [Matrix.det_fin_two]) fun w D hD l => ?_
    fin_cases l <;> simp [quadComp, s0, s1, s2, s3, hD 0 1, hD 2 3, hD 0 2, hD 1 3] <;> ring

/-! ## Common edges -/

/-- Contract of the names of the vertices: equal names belong to the same vertex. -/
def Labels (G : LGrid E S Nat) : Prop :=
  ∀ e e' v v', v < (G.elemGeo e).nv → v' < (G.elemGeo e').nv → G.ids e v = G.ids e' v' → G.sub e G.dim v = G.sub e' G.dim v'

theorem edgeNo_spec {t : Geo} {a b : Nat} (h : edgeNo t a b < (refOf t).edges.length) :
    (refOf t).edges[edgeNo t a b]? = some (a, b) ∨ (refOf t).edges[edgeNo t a b]? = some (b, a) := by
  have h1 := List.findIdx_getElem (w := h)
  rw [List.getElem?_eq_getElem h]
  rcases Bool.or_eq_true_iff.1 h1 with h2 | h2
  · exact Or.inl (congrArg some (of_decide_eq_true h2))
  · exact Or.inr (congrArg some (of_decide_eq_true h2))

omit [LinearOrder K] [IsStrictOrderedRing K] in
/-- The coefficients of a common edge are the same. -/
theorem edgeValue_same {G : LGrid E S Nat} (hl : Labels G) (hc : Conforming G.toGridView) (vec : Nat → K) {e e' : E} {a b a' b' : Nat}
    (hab : edgeNo (G.elemGeo e) a b < (refOf (G.elemGeo e)).edges.length) (hab' : edgeNo (G.elemGeo e') a' b' < (refOf (G.elemGeo e')).edges.length)
    (ha : a < (G.elemGeo e).nv) (hb : b < (G.elemGeo e).nv) (ha' : a' < (G.elemGeo e').nv) (hb' : b' < (G.elemGeo e').nv) (h1 : G.ids e a = G.ids e' a') (h2 : G.ids e b = G.ids e' b') :
    edgeValue G.toGridView vec e a b = edgeValue G.toGridView vec e' a' b' := by
  have s1 := hl e e' a a' ha ha' h1
  have s2 := hl e e' b b' hb hb' h2
  have hs : G.sub e (G.dim - 1) (edgeNo (G.elemGeo e) a b) = G.sub e' (G.dim - 1) (edgeNo (G.elemGeo e') a' b') := by
    rcases edgeNo_spec hab with p | p <;> rcases edgeNo_spec hab' with q | q
    · exact (hc e e' _ _ _ _ _ _ p q).2 (Or.inl ⟨s1, s2⟩)
    · exact (hc e e' _ _ _ _ _ _ p q).2 (Or.inr ⟨s1, s2⟩)
    · exact (hc e e' _ _ _ _ _ _ p q).2 (Or.inr ⟨s2, s1⟩)
    · exact (hc e e' _ _ _ _ _ _ p q).2 (Or.inl ⟨s2, s1⟩)
  rw [edgeValue, edgeValue, hs, vertexIndex, vertexIndex, vertexIndex, vertexIndex, s1, s2]

/-- Vertices of facets that are joined by edges. -/
theorem facet_edges {t : Geo} (ht : t ∈ nedTypes) : ∀ i < (stdSubs t 1).length, ∀ u ∈ (stdSubs t 1)[i]?, ∀ k < u.nv, ∀ m < u.nv, k ≠ m → (u = ⟨2, 4⟩ → k + m ≠ 3) →
    edgeNo t (facetVert t i k) (facetVert t i m) < (refOf t).edges.length := by
  revert t
  decide

theorem accepted_supported {G : GridView E S} {fixed : Option Geo} (h : Accepted G fixed) (hdim : G.dim = n + 1) (e : E) : Continuity.Supported (n + 1) (G.elemGeo e) := by
  have : ∀ t ∈ nedTypes, t ∈ elemTypes ∧ t ≠ ⟨3, 5⟩ := by decide
  obtain ⟨h1, h2⟩ := this _ (accepted_type h e)
  exact ⟨h1, (h.std.base.elemMem e).2.trans hdim, h2⟩

omit [LinearOrder K] [IsStrictOrderedRing K] in
theorem quad_position {w : Nat → K} {p : Nat → Vec K 3} {t0 t1 : Vec K 3} (h : Trace.QuadFrame w p t0 t1) (d : Fin 3) :
    t0 d = quadComp w (fun a b => p b d - p a d) 0 ∧ t1 d = quadComp w (fun a b => p b d - p a d) 1 := by
  obtain ⟨-, rfl, rfl⟩ := h
  simp [quadComp]

omit [LinearOrder K] [IsStrictOrderedRing K] in
/-- Components on a common triangle with two numberings of the vertices. -/
theorem triangle_match {w w' : Fin 3 → K} {D D' : Fin 3 → Fin 3 → K} {P P' : Fin 3 → Vec K 3} (σ : Equiv.Perm (Fin 3)) (hw : ∀ k, w' k = w (σ k)) (hD : ∀ j k, D' j k = D (σ j) (σ k))
    (hP : ∀ k, P' k = P (σ k)) {v v' : Vec K 3} (q : ∀ k : Fin 2, v ⬝ᵥ (P k.succ - P 0) = ∑ j, w j * (D j k.succ - D j 0))
    (q' : ∀ k : Fin 2, v' ⬝ᵥ (P' k.succ - P' 0) = ∑ j, w' j * (D' j k.succ - D' j 0)) (k : Fin 2) : v ⬝ᵥ (P k.succ - P 0) = v' ⬝ᵥ (P k.succ - P 0) := by
  set g := fun k => ∑ j, w j * D j k with hg
  have g' : ∀ k, ∑ j, w' j * D' j k = g (σ k) := by
    intro k
    simp only [hw, hD, hg]
    exact Equiv.sum_comp σ fun j => w j * D j (σ k)
  have r : ∀ a, v' ⬝ᵥ (P (σ a) - P (σ 0)) = g (σ a) - g (σ 0) := by
    intro a
    refine Fin.cases (by simp) (fun a => ?_) a
    rw [← hP, ← hP, q', ← g', ← g']
    simp only [mul_sub, Finset.sum_sub_distrib]
  have r' : ∀ a, v' ⬝ᵥ (P a - P 0) = g a - g 0 := by
    intro a
    have e1 := r (σ.symm a)
    have e2 := r (σ.symm 0)
    simp only [Equiv.apply_symm_apply] at e1 e2
    rw [dotProduct_sub] at e1 e2 ⊢
    linear_combination e1 - e2
  rw [r', q]
  simp only [hg, mul_sub, Finset.sum_sub_distrib]

/-! ## Theorem -/

/-- **C68 on grids of simplices and cubes.** On every conforming grid of triangles and quadrilaterals or of tetrahedra and hexahedra with affine or multilinear geometries, and for every coefficient
vector, the values of a Nédélec function on the two sides of a facet have the same component in every direction tangential to the facet. The facet need not be plane. The points `x` and `x'` are the
same point of the facet (equal weights of common vertices). -/
theorem C68_mixed (hn : n = 1 ∨ n = 2) {G : LGrid E S Nat} (ok : G.OK) {fixed : Option Geo} (h : Accepted G.toGridView fixed) (hdim : G.dim = n + 1) (hl : Labels G)
    (hc : Conforming G.toGridView) (pos : Nat → Vec K (n + 1)) (geo : E → Geometry K (n + 1)) (vec : Nat → K)
    {e e' : E} {i i' : Nat} (hi : i < numFacets (G.elemGeo e)) (hi' : i' < numFacets (G.elemGeo e')) (hs : G.sub e 1 i = G.sub e' 1 i')
    {x x' : Vec K (n + 1)} (hx : (facetOf K n (G.elemGeo e) i).On x) (hx' : (facetOf K n (G.elemGeo e') i').On x')
    (hxx : ∀ v < (G.elemGeo e).nv, ∀ v' < (G.elemGeo e').nv, G.ids e v = G.ids e' v' → vertexWeight (G.elemGeo e) v x = vertexWeight (G.elemGeo e') v' x')
    (hJ : (geo e).OK (gridJac G pos e x) x) (hJ' : (geo e').OK (gridJac G pos e' x') x') :
    ∃ v v', value G.toGridView fixed nedTable nedKeys geo vec e x = some v ∧ value G.toGridView fixed nedTable nedKeys geo vec e' x' = some v' ∧
      ∀ k, v ⬝ᵥ (gridJac G pos e x *ᵥ (facetOf K n (G.elemGeo e) i).frame k) = v' ⬝ᵥ (gridJac G pos e x *ᵥ (facetOf K n (G.elemGeo e) i).frame k) := by
  obtain ⟨v, hv, c⟩ := ned_value h hdim geo vec e hJ
  obtain ⟨v', hv', c'⟩ := ned_value h hdim geo vec e' hJ'
  refine ⟨v, v', hv, hv', ?_⟩
  obtain ⟨u, hu, hu', hg⟩ := facet_type ok hi hi' hs
  obtain ⟨h1, h2⟩ := facet_ids ok hu hu' hs
  have lt := (facetVert_inj (ok.type e) hu).1
  have lt' := (facetVert_inj (ok.type e') hu').1
  have hcoef : ∀ k < u.nv, ∀ m < u.nv, ∀ k' < u.nv, ∀ m' < u.nv, k ≠ m → (u = ⟨2, 4⟩ → k + m ≠ 3) → k' ≠ m' → (u = ⟨2, 4⟩ → k' + m' ≠ 3) →
      G.ids e (facetVert (G.elemGeo e) i k) = G.ids e' (facetVert (G.elemGeo e') i' k') → G.ids e (facetVert (G.elemGeo e) i m) = G.ids e' (facetVert (G.elemGeo e') i' m') →
      edgeValue G.toGridView vec e (facetVert (G.elemGeo e) i k) (facetVert (G.elemGeo e) i m) = edgeValue G.toGridView vec e' (facetVert (G.elemGeo e') i' k') (facetVert (G.elemGeo e') i' m') := by
    intro k hk m hm k' hk' m' hm' n1 n2 n1' n2' e1 e2
    exact edgeValue_same hl hc vec (facet_edges (accepted_type h e) i hi u hu k hk m hm n1 n2) (facet_edges (accepted_type h e') i' hi' u hu' k' hk' m' hm' n1' n2')
      (lt k hk) (lt m hm) (lt' k' hk') (lt' m' hm') e1 e2
  have types : ∀ e, Continuity.Supported (n + 1) (G.elemGeo e) := accepted_supported h hdim
  rcases hn with rfl | rfl
  · have hnv : u = ⟨1, 2⟩ := by
      have : ∀ t ∈ elemTypes, t.dim = 2 → ∀ u ∈ stdSubs t 1, u = ⟨1, 2⟩ := by decide
      exact this _ (ok.type e) (types e).2.1 u (List.mem_of_getElem? hu)
    subst hnv
    obtain ⟨a, ha, ea⟩ := h1 0 (by decide)
    obtain ⟨b, hb, eb⟩ := h1 1 (by decide)
    have ha : a < 2 := ha
    have hb : b < 2 := hb
    have hab : a ≠ b := by
      rintro rfl
      exact absurd (h2 0 (by decide) 1 (by decide) (ea.trans eb.symm)) (by decide)
    have q := hcoef a ha b hb 0 (by decide) 1 (by decide) hab (fun hc => absurd hc (by decide)) (by decide) (by decide) ea.symm eb.symm
    have f := edge_frame (types e) (fun v => pos (G.ids e v)) hi hx
    have f' := edge_frame (types e') (fun v => pos (G.ids e' v)) hi' hx'
    have g := c ((facetOf K 1 (G.elemGeo e) i).frame 0)
    have g' := c' ((facetOf K 1 (G.elemGeo e') i').frame 0)
    rw [edge_comp (Trace.supported_two (types e)) _ hi hx, gridJac, f] at g
    rw [edge_comp (Trace.supported_two (types e')) _ hi' hx', gridJac, f', ← q, ea, eb] at g'
    intro k
    rw [Subsingleton.elim k 0, gridJac, f, g]
    have : a = 0 ∧ b = 1 ∨ a = 1 ∧ b = 0 := by omega
    rcases this with ⟨rfl, rfl⟩ | ⟨rfl, rfl⟩
    · exact g'.symm
    · rw [edgeValue_swap, ← neg_sub, dotProduct_neg] at g'
      exact neg_injective g'.symm
  · have hu2 : u = ⟨2, 3⟩ ∨ u = ⟨2, 4⟩ := by
      have : ∀ t ∈ elemTypes, t.dim = 3 → ∀ u ∈ stdSubs t 1, u = ⟨2, 3⟩ ∨ u = ⟨2, 4⟩ := by decide
      exact this _ (ok.type e) (types e).2.1 u (List.mem_of_getElem? hu)
    rcases hu2 with rfl | rfl
    · have tet : ∀ t ∈ nedTypes, t.dim = 3 → ⟨2, 3⟩ ∈ stdSubs t 1 → t = ⟨3, 4⟩ := by decide
      have t1 := tet _ (accepted_type h e) (types e).2.1 (List.mem_of_getElem? hu)
      have t2 := tet _ (accepted_type h e') (types e').2.1 (List.mem_of_getElem? hu')
      choose τ hτ eτ using h1
      have inj : Function.Injective fun k : Fin 3 => (⟨τ k k.2, hτ k k.2⟩ : Fin 3) := by
        intro k m hkm
        have : τ k k.2 = τ m m.2 := congrArg Fin.val hkm
        refine Fin.ext (h2 k k.2 m m.2 ?_)
        rw [eτ k k.2, eτ m m.2, this]
      have d0 : ∀ (e : E) a, edgeValue G.toGridView vec e a a = 0 := fun e a => by simp [edgeValue]
      have q := triangle_match (w := fun k => vertexWeight (G.elemGeo e) (facetVert (G.elemGeo e) i k) x) (w' := fun k => vertexWeight (G.elemGeo e') (facetVert (G.elemGeo e') i' k) x')
        (D := fun a b => edgeValue G.toGridView vec e (facetVert (G.elemGeo e) i a) (facetVert (G.elemGeo e) i b))
        (D' := fun a b => edgeValue G.toGridView vec e' (facetVert (G.elemGeo e') i' a) (facetVert (G.elemGeo e') i' b))
        (P := fun k => pos (G.ids e (facetVert (G.elemGeo e) i k))) (P' := fun k => pos (G.ids e' (facetVert (G.elemGeo e') i' k)))
        (Equiv.ofBijective _ (Finite.injective_iff_bijective.1 inj))
        (fun k => (hxx _ (lt _ (hτ k k.2)) _ (lt' k k.2) (eτ k k.2).symm).symm)
        (fun j k => by
          by_cases hjk : j = k
          · subst hjk
            rw [d0, d0]
          · exact (hcoef _ (hτ j j.2) _ (hτ k k.2) j j.2 k k.2 (fun hh => hjk (inj (Fin.ext hh))) (fun hh => absurd hh (by decide)) (fun hh => hjk (Fin.ext hh))
              (fun hh => absurd hh (by decide)) (eτ j j.2).symm (eτ k k.2).symm).symm)
        (fun k => congrArg pos (eτ k k.2)) (v := v) (v' := v')
        (fun k => by
          have f := triangle_frame (types e) (fun v => pos (G.ids e v)) hu hx k
          refine Eq.trans (congrArg (fun z => v ⬝ᵥ z) f.symm) ((c _).trans ?_)
          exact face_comp t1 _ (d0 e) (fun a b => edgeValue_swap _ _ _ _ _) hi hx k)
        (fun k => by
          have f := triangle_frame (types e') (fun v => pos (G.ids e' v)) hu' hx' k
          refine Eq.trans (congrArg (fun z => v' ⬝ᵥ z) f.symm) ((c' _).trans ?_)
          exact face_comp t2 _ (d0 e') (fun a b => edgeValue_swap _ _ _ _ _) hi' hx' k)
      intro k
      have f := triangle_frame (types e) (fun v => pos (G.ids e v)) hu hx k
      rw [gridJac, f]
      exact q k
    · have hex : ∀ t ∈ nedTypes, t.dim = 3 → ⟨2, 4⟩ ∈ stdSubs t 1 → t = ⟨3, 8⟩ := by decide
      have t1 := hex _ (accepted_type h e) (types e).2.1 (List.mem_of_getElem? hu)
      have t2 := hex _ (accepted_type h e') (types e').2.1 (List.mem_of_getElem? hu')
      obtain ⟨σ, hσ, hp⟩ := quad_ids ok hu hu' hs hg
      obtain ⟨U, hU, hturn⟩ := quad_turn (K := K) σ hσ
      set w := fun k => vertexWeight (G.elemGeo e) (facetVert (G.elemGeo e) i k) x with hw
      set w' := fun k => vertexWeight (G.elemGeo e') (facetVert (G.elemGeo e') i' k) x' with hw'
      have ww : ∀ k < 4, w' k = w (σ k) := fun k hk => (hxx _ (lt _ (hp k hk).1) _ (lt' k hk) (hp k hk).2.symm).symm
      have congr4 : ∀ D D' : Nat → Nat → K, (∀ a < 4, ∀ b < 4, a ≠ b → a + b ≠ 3 → D' a b = D (σ a) (σ b)) → ∀ l, quadComp w' D' l = quadComp (fun k => w (σ k)) (fun a b => D (σ a) (σ b)) l := by
        intro D D' hD l
        rw [quadComp, quadComp, ww 0 (by omega), ww 1 (by omega), ww 2 (by omega), ww 3 (by omega), hD 0 (by omega) 1 (by omega) (by omega) (by omega),
          hD 2 (by omega) 3 (by omega) (by omega) (by omega), hD 0 (by omega) 2 (by omega) (by omega) (by omega), hD 1 (by omega) 3 (by omega) (by omega) (by omega)]
      set D := fun a b => edgeValue G.toGridView vec e (facetVert (G.elemGeo e) i a) (facetVert (G.elemGeo e) i b) with hD
      set D' := fun a b => edgeValue G.toGridView vec e' (facetVert (G.elemGeo e') i' a) (facetVert (G.elemGeo e') i' b) with hD'
      set T := fun k => gridJac G pos e x *ᵥ (facetOf K 2 (G.elemGeo e) i).frame k with hT
      set T' := fun k => gridJac G pos e' x' *ᵥ (facetOf K 2 (G.elemGeo e') i').frame k with hT'
      have hσne : ∀ a < 4, ∀ b < 4, a ≠ b → a + b ≠ 3 → σ a ≠ σ b ∧ σ a + σ b ≠ 3 := by
        have key : ∀ L ∈ ([[0, 1, 2, 3], [1, 0, 3, 2], [2, 3, 0, 1], [3, 2, 1, 0], [0, 2, 1, 3], [1, 3, 0, 2], [2, 0, 3, 1], [3, 1, 2, 0]] : List (List Nat)), ∀ a b : Fin 4, a ≠ b →
            a.val + b.val ≠ 3 → L.getD a 0 ≠ L.getD b 0 ∧ L.getD a 0 + L.getD b 0 ≠ 3 := by decide
        have hσL : ∀ a < 4, [σ 0, σ 1, σ 2, σ 3].getD a 0 = σ a := by
          intro a ha
          interval_cases a <;> rfl
        intro a ha b hb n1 n2
        have := key _ hσ ⟨a, ha⟩ ⟨b, hb⟩ (fun hh => n1 (congrArg Fin.val hh)) n2
        rwa [hσL a ha, hσL b hb] at this
      -- values
      have q1 : ∀ k, v ⬝ᵥ T k = quadComp w D k := by
        intro k
        rw [hT, c]
        exact quad_comp t1 _ hi hx k
      have q2 : ∀ k, v' ⬝ᵥ T' k = quadComp w' D' k := by
        intro k
        rw [hT', c']
        exact quad_comp t2 _ hi' hx' k
      -- positions
      have p1 : ∀ k d, T k d = quadComp w (fun a b => pos (G.ids e (facetVert (G.elemGeo e) i b)) d - pos (G.ids e (facetVert (G.elemGeo e) i a)) d) k := by
        intro k d
        have := quad_position (Trace.quad_frame (types e) (fun v => pos (G.ids e v)) hu hx) d
        fin_cases k
        · exact this.1
        · exact this.2
      have p2 : ∀ k d, T' k d = quadComp w' (fun a b => pos (G.ids e' (facetVert (G.elemGeo e') i' b)) d - pos (G.ids e' (facetVert (G.elemGeo e') i' a)) d) k := by
        intro k d
        have := quad_position (Trace.quad_frame (types e') (fun v => pos (G.ids e' v)) hu' hx') d
        fin_cases k
        · exact this.1
        · exact this.2
      have r1 : ∀ l, v' ⬝ᵥ T' l = ∑ k, U l k * (v ⬝ᵥ T k) := by
        intro l
        rw [q2, congr4 D D', hturn w D (fun a b => edgeValue_swap _ _ _ _ _)]
        · simp only [q1]
        · intro a ha b hb n1 n2
          obtain ⟨m1, m2⟩ := hσne a ha b hb n1 n2
          exact (hcoef _ (hp a ha).1 _ (hp b hb).1 a ha b hb m1 (fun _ => m2) n1 (fun _ => n2) (hp a ha).2.symm (hp b hb).2.symm).symm
      have r2 : ∀ l, T' l = ∑ k, U l k • T k := by
        intro l
        funext d
        rw [p2, congr4 (fun a b => pos (G.ids e (facetVert (G.elemGeo e) i b)) d - pos (G.ids e (facetVert (G.elemGeo e) i a)) d), hturn w (fun a b => pos (G.ids e (facetVert (G.elemGeo e) i b)) d - pos (G.ids e (facetVert (G.elemGeo e) i a)) d)
          (fun a b => by ring)]
        · simp only [Finset.sum_apply, Pi.smul_apply, smul_eq_mul, p1]
        · intro a ha b hb _ _
          rw [(hp a ha).2, (hp b hb).2]
      have hz : U *ᵥ (fun k => v ⬝ᵥ T k - v' ⬝ᵥ T k) = 0 := by
        funext l
        have e1 := r1 l
        rw [r2 l] at e1
        simp only [Matrix.mulVec, dotProduct, Fin.sum_univ_two, Pi.zero_apply]
        simp only [Fin.sum_univ_two, dotProduct_add, dotProduct_smul, smul_eq_mul] at e1
        simp only [dotProduct] at e1
        linear_combination -e1
      intro k
      have hz' := congrArg (fun z => U⁻¹ *ᵥ z) hz
      simp only [Matrix.mulVec_mulVec, Matrix.nonsing_inv_mul U (isUnit_iff_ne_zero.2 hU), Matrix.one_mulVec, Matrix.mulVec_zero] at hz'
      have := congrFun hz' k
      exact sub_eq_zero.1 this

/-! ## Example: two hexahedra -/

/-- Two hexahedra; the common facet is number 1 of the first and number 4 of the second, where its vertices are numbered differently. The indices of the vertices are neither the names nor in
the order of the local numbers. -/
def hexGrid : LGrid (Fin 2) (Fin 45) Nat where
  dim := 3
  types := [⟨0, 1⟩, ⟨1, 2⟩, ⟨2, 4⟩, ⟨3, 8⟩]
  gsize := fun t => if t = ⟨0, 1⟩ then 12 else if t = ⟨1, 2⟩ then 20 else if t = ⟨2, 4⟩ then 11 else if t = ⟨3, 8⟩ then 2 else 0
  geo := fun s => if s.1 < 2 then ⟨3, 8⟩ else if s.1 < 13 then ⟨2, 4⟩ else if s.1 < 33 then ⟨1, 2⟩ else ⟨0, 1⟩
  idx := fun s => if s.1 < 2 then s.1 else if s.1 < 13 then s.1 - 2 else if s.1 < 33 then s.1 - 13 else (s.1 - 33) * 5 % 12
  refSubs := stdSubs
  elemGeo := fun _ => ⟨3, 8⟩
  sub := fun e c i =>
    (((([[[0], [2, 3, 4, 5, 6, 7], [13, 14, 15, 16, 17, 18, 19, 20, 21, 22, 23, 24], [33, 34, 35, 36, 37, 38, 39, 40]],
      [[1], [8, 9, 10, 11, 3, 12], [25, 26, 27, 28, 22, 18, 16, 14, 29, 30, 31, 32], [40, 36, 38, 34, 41, 42, 43, 44]]] : List (List (List (Fin 45)))).getD e.1 []).getD c []).getD i 0)
  ids := fun e v => (([[0, 1, 2, 3, 4, 5, 6, 7], [7, 3, 5, 1, 8, 9, 10, 11]] : List (List Nat)).getD e.1 []).getD v 0

theorem hex_sub_bound {c i : Nat} (h : i < (stdSubs ⟨3, 8⟩ c).length) : c < 4 := by
  by_contra hc
  have h2 : subVerts (refOf ⟨3, 8⟩) c = [] := by
    have hd : (refOf ⟨3, 8⟩).dim = 3 := by decide
    rw [subVerts, if_neg (by omega), if_neg (by rw [hd]; omega), if_neg (by rw [hd]; omega), if_neg (by rw [hd]; omega)]
  simp [stdSubs, h2] at h

/-- Codimensions and numbers of the sub-entities of a hexahedron. -/
def hexSubs : List (Nat × Nat) := (List.range 4).flatMap fun c => (List.range (stdSubs ⟨3, 8⟩ c).length).map fun i => (c, i)

theorem mem_hexSubs {c i : Nat} (h : i < (stdSubs ⟨3, 8⟩ c).length) : (c, i) ∈ hexSubs :=
  List.mem_flatMap.2 ⟨c, List.mem_range.2 (hex_sub_bound h), List.mem_map.2 ⟨i, List.mem_range.2 h, rfl⟩⟩

theorem hexGrid_OK : hexGrid.OK where
  base := {
    typesNodup := by decide
    geoMem := by decide +kernel
    idxLt := by decide +kernel
    idxInj := by decide +kernel
    idxSurj := by decide +kernel
    subGeo := by
      intro e c i t h
      have : ∀ e : Fin 2, ∀ p ∈ hexSubs, ∀ t ∈ (stdSubs ⟨3, 8⟩ p.1)[p.2]?, hexGrid.geo (hexGrid.sub e p.1 p.2) = t := by decide +kernel
      exact this e _ (mem_hexSubs (List.getElem?_eq_some_iff.mp h).1) t h
    subInj := by
      intro e c i c' i' h h' hs
      have : ∀ e : Fin 2, ∀ p ∈ hexSubs, ∀ q ∈ hexSubs, hexGrid.sub e p.1 p.2 = hexGrid.sub e q.1 q.2 → p = q := by decide +kernel
      exact Prod.mk.injEq _ _ _ _ ▸ (this e _ (mem_hexSubs h) _ (mem_hexSubs h') hs)
    subSurj := by
      have : ∀ s : Fin 45, ∃ e : Fin 2, ∃ c : Fin 4, ∃ i : Fin 12, i.1 < (stdSubs (hexGrid.elemGeo e) c).length ∧ hexGrid.sub e c i = s := by decide +kernel
      intro s
      obtain ⟨e, c, i, hi, hs⟩ := this s
      exact ⟨e, c, i, Nat.lt_succ_iff.mp c.2, hi, hs⟩
    elemMem := by decide }
  std := fun _ _ => rfl
  type := by decide
  elemInj := by decide
  idsInj := by
    have h1 : ∀ e : Fin 2, ∀ v < 8, ∀ v' < 8, hexGrid.ids e v = hexGrid.ids e v' → v = v' := by decide +kernel
    exact fun e v v' hv hv' => h1 e v hv v' hv'
  vertsSame := by
    intro e k e' k' h h' hs x
    have : ∀ e e' : Fin 2, ∀ p ∈ hexSubs, ∀ q ∈ hexSubs, hexGrid.sub e p.1 p.2 = hexGrid.sub e' q.1 q.2 →
      (hexGrid.verts e ⟨p.2, p.1, 0⟩).Perm (hexGrid.verts e' ⟨q.2, q.1, 0⟩) := by decide +kernel
    exact (this e e' _ (mem_hexSubs h) _ (mem_hexSubs h') hs).mem_iff
  diagSame := by
    intro e k e' k' h h' hs hg x y
    have : ∀ e e' : Fin 2, ∀ p ∈ hexSubs, ∀ q ∈ hexSubs, hexGrid.sub e p.1 p.2 = hexGrid.sub e' q.1 q.2 → hexGrid.geo (hexGrid.sub e p.1 p.2) = ⟨2, 4⟩ →
      ∀ a < 4, ∃ b < 4, (hexGrid.verts e ⟨p.2, p.1, 0⟩)[a]? = (hexGrid.verts e' ⟨q.2, q.1, 0⟩)[b]? ∧
        (hexGrid.verts e ⟨p.2, p.1, 0⟩)[3 - a]? = (hexGrid.verts e' ⟨q.2, q.1, 0⟩)[3 - b]? := by decide +kernel
    constructor
    · rintro ⟨a, ha, h1, h2⟩
      obtain ⟨b, hb, h3, h4⟩ := this e e' _ (mem_hexSubs h) _ (mem_hexSubs h') hs hg a ha
      exact ⟨b, hb, h3.symm.trans h1, h4.symm.trans h2⟩
    · rintro ⟨a, ha, h1, h2⟩
      obtain ⟨b, hb, h3, h4⟩ := this e' e _ (mem_hexSubs h') _ (mem_hexSubs h) hs.symm (hs ▸ hg) a ha
      exact ⟨b, hb, h3.symm.trans h1, h4.symm.trans h2⟩

theorem hex_accepted : Accepted hexGrid.toGridView none := ⟨⟨hexGrid_OK.base, hexGrid_OK.std, hexGrid_OK.type, hexGrid_OK.elemInj⟩, Or.inr rfl, fun _ => Or.inr rfl, by simp⟩

theorem hex_labels : Labels hexGrid := by
  have h1 : ∀ e e' : Fin 2, ∀ v < 8, ∀ v' < 8, hexGrid.ids e v = hexGrid.ids e' v' → hexGrid.sub e 3 v = hexGrid.sub e' 3 v' := by decide +kernel
  exact fun e e' v v' hv hv' => h1 e e' v hv v' hv'

theorem hex_conforming : Conforming hexGrid.toGridView := by
  have h1 : ∀ e e' : Fin 2, ∀ i < 12, ∀ i' < 12, ∀ p ∈ hexahedron.edges[i]?, ∀ q ∈ hexahedron.edges[i']?, (hexGrid.sub e 2 i = hexGrid.sub e' 2 i' ↔
      (hexGrid.sub e 3 p.1 = hexGrid.sub e' 3 q.1 ∧ hexGrid.sub e 3 p.2 = hexGrid.sub e' 3 q.2) ∨
      (hexGrid.sub e 3 p.1 = hexGrid.sub e' 3 q.2 ∧ hexGrid.sub e 3 p.2 = hexGrid.sub e' 3 q.1)) := by decide +kernel
  intro e e' i i' a b a' b' h h'
  exact h1 e e' i (List.getElem?_eq_some_iff.1 h).1 i' (List.getElem?_eq_some_iff.1 h').1 (a, b) h (a', b') h'

/-- Positions of the vertices; the common face, with the vertices 1, 3, 5, 7, is not plane. -/
def hexPos (v : Nat) : Vec ℚ 3 :=
  ([![0, 0, 0], ![1, 0, 0], ![0, 1, 0], ![1, 1, 0], ![0, 0, 1], ![1, 0, 1], ![0, 1, 1], ![3 / 2, 1, 1], ![5 / 2, 1, 1], ![2, 1, 0], ![2, 0, 1], ![2, 0, 0]] : List (Vec ℚ 3)).getD v 0

/-- In the middle of the curved face, where (1/4, 1, 0) and (1/4, 0, 1) are tangential. -/
example (vec : Nat → ℚ) :
    let geo := fun e : Fin 2 => ofJacobian fun x => gridJac hexGrid hexPos e x
    ∃ v v', value hexGrid.toGridView none nedTable nedKeys geo vec 0 ![1, 1 / 2, 1 / 2] = some v ∧ value hexGrid.toGridView none nedTable nedKeys geo vec 1 ![1 / 2, 1 / 2, 0] = some v' ∧
      v 0 / 4 + v 1 = v' 0 / 4 + v' 1 ∧ v 0 / 4 + v 2 = v' 0 / 4 + v' 2 := by
  intro geo
  have hx : (Trace.cubeFacet ℚ 2 1).On ![1, 1 / 2, 1 / 2] := by simp [Trace.cubeFacet]
  have hx' : (Trace.cubeFacet ℚ 2 4).On ![1 / 2, 1 / 2, 0] := by
    intro j hj
    obtain rfl : j = 2 := Fin.ext hj
    simp
  obtain ⟨v, v', h1, h2, h3⟩ := C68_mixed (Or.inr rfl) hexGrid_OK hex_accepted rfl hex_labels hex_conforming hexPos geo vec (e := 0) (e' := 1)
    (i := 1) (i' := 4) (by decide) (by decide) (by decide) (x := ![1, 1 / 2, 1 / 2]) (x' := ![1 / 2, 1 / 2, 0]) hx hx'
    (by decide +kernel) (ofJacobian_OK _ _ (by decide +kernel)) (ofJacobian_OK _ _ (by decide +kernel))
  refine ⟨v, v', h1, h2, ?_⟩
  have e0 : gridJac hexGrid hexPos 0 ![1, 1 / 2, 1 / 2] *ᵥ (facetOf ℚ 2 (hexGrid.elemGeo 0) 1).frame 0 = ![1 / 4, 1, 0] := by decide +kernel
  have e1 : gridJac hexGrid hexPos 0 ![1, 1 / 2, 1 / 2] *ᵥ (facetOf ℚ 2 (hexGrid.elemGeo 0) 1).frame 1 = ![1 / 4, 0, 1] := by decide +kernel
  have a := h3 0
  have b := h3 1
  rw [e0] at a
  rw [e1] at b
  simp [dotProduct, Fin.sum_univ_succ] at a b
  exact ⟨by linarith, by linarith⟩

end Verif.HDiv.Tangential

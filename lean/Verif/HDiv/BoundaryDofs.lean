import Verif.HDiv.NedelecSpace
import Verif.HDiv.Tetrahedra
import Verif.Dofs.BoundaryLeaf

/-!
# Boundary DOFs of the Raviart–Thomas and Nédélec bases

What the degrees of freedom visited by `forEachBoundaryDOF` say about the normal and tangential components on the boundary.
-/

namespace Verif.HDiv.BoundaryDofs

open Verif.Mapper Verif.Lagrange Verif.HDiv Verif.HDiv.Trace Verif.HDiv.Tangential Verif.Piola
open Verif.Dofs (BIsect Visit leafCalls leafCalls_spec BoundaryOK Agree stdInc)
open Matrix

variable {E S K : Type} [Field K] [LinearOrder K] [IsStrictOrderedRing K] {n : Nat}

theorem inc_facet (hn : n = 1 ∨ n = 2) {i j : Nat} (hi : i < n + 2) (hj : j < n + 2) : stdInc (simplexOf (n + 1)) i 1 1 j = true ↔ j = i := by
  have t : ∀ n : Fin 3, n.val = 1 ∨ n.val = 2 → ∀ i < n.val + 2, ∀ j < n.val + 2, stdInc (simplexOf (n.val + 1)) i 1 1 j = true ↔ j = i := by decide
  exact t ⟨n, by omega⟩ hn i hi j hj

theorem inc_edge2 : ∀ i < 3, ∀ j : Fin (simplexEdges 2).length, stdInc (simplexOf 2) i 1 1 j = true ↔
    (∃ k < 2, (simplexEdges 2)[j].1 = Trace.facetVertex 1 i k) ∧ ∃ k < 2, (simplexEdges 2)[j].2 = Trace.facetVertex 1 i k := by decide

theorem inc_edge3 : ∀ i < 4, ∀ j : Fin (simplexEdges 3).length, stdInc (simplexOf 3) i 1 2 j = true ↔
    (∃ k < 3, (simplexEdges 3)[j].1 = Trace.facetVertex 2 i k) ∧ ∃ k < 3, (simplexEdges 3)[j].2 = Trace.facetVertex 2 i k := by decide

theorem inc_edge (hn : n = 1 ∨ n = 2) {i : Nat} (hi : i < n + 2) (j : Fin (simplexEdges (n + 1)).length) :
    stdInc (simplexOf (n + 1)) i 1 n j = true ↔ (∃ k < n + 1, (simplexEdges (n + 1))[j].1 = Trace.facetVertex n i k) ∧ ∃ k < n + 1, (simplexEdges (n + 1))[j].2 = Trace.facetVertex n i k := by
  rcases hn with rfl | rfl
  · exact inc_edge2 i hi j
  · exact inc_edge3 i hi j

/-- **C90, Raviart–Thomas basis of order 0 on simplices.** Two coefficient vectors agree in the degrees of freedom visited by `forEachBoundaryDOF` if and only if the normal components of
the discrete functions agree on all boundary facets. -/
theorem C90_raviartThomas (hn : n = 1 ∨ n = 2) {G : LGrid E S Nat} {pos : Nat → Vec K (n + 1)} {jac : E → Mat K (n + 1)} (hG : SimplexGrid G n pos jac)
    {isects : E → List (Isect E)} (hI : Neighbours G.toGridView isects) (fixed : Option Geo) (hfix : ∀ u, fixed = some u → u = simplexOf (n + 1))
    {geo : E → Geometry K (n + 1)} (hgeo : ∀ e x, (geo e).OK (jac e) x) {a : K} (ha : a ≠ 0) {hasBoundary : E → Bool} {bisects : E → List BIsect}
    (hB : BoundaryOK (n + 2) hasBoundary bisects) (els : List E) :
    ∃ calls, leafCalls G.toGridView (rtLayout 0 G.dim) (rt0Keys n) hasBoundary bisects els = some calls ∧ ∀ vec vec' : Nat → K, Agree calls vec vec' ↔
      ∀ e ∈ els, ∀ is ∈ bisects e, is.boundary = true → ∀ x, (simplexFacet K n is.indexInInside).On x →
        ∃ v v', rtValue G fixed isects geo a vec e x = some v ∧ rtValue G fixed isects geo a vec' e x = some v' ∧
          ∀ N : Vec K (n + 1), (∀ k < n + 1, N ⬝ᵥ pos (G.ids e (Trace.facetVertex n is.indexInInside k)) = N ⬝ᵥ pos (G.ids e (Trace.facetVertex n is.indexInInside 0))) →
            N ⬝ᵥ v = N ⬝ᵥ v' := by
  have hk : KeysOK G.toGridView (rtLayout 0 G.dim) fun _ => rt0Keys n := by
    have t : ∀ n : Fin 3, n.val = 1 ∨ n.val = 2 → (rt0Keys n).Nodup ∧ ∀ k ∈ rt0Keys n, k.codim ≤ n.val + 1 ∧
        ∃ t, (stdSubs (simplexOf (n.val + 1)) k.codim)[k.sub]? = some t ∧ k.index < rtLayout 0 (n.val + 1) t := by
      intro n hn
      fin_cases n
      · simp at hn
      · decide +kernel
      · decide +kernel
    obtain ⟨t1, t2⟩ := t ⟨n, by omega⟩ hn
    refine ⟨fun _ => t1, fun e k hk => ?_⟩
    rw [hG.ok.std, hG.simplices, hG.dim]
    exact t2 k hk
  obtain ⟨calls, h1, h2⟩ := leafCalls_spec hG.ok.base hk hasBoundary bisects hB.reported els
  have hkey : ∀ {l : Nat} {k : Key}, (rt0Keys n)[l]? = some k → l < n + 2 ∧ k = ⟨l, 1, 0⟩ := by
    intro l k hl
    have hlt := (List.getElem?_eq_some_iff.1 hl).1
    simp only [rt0Keys, List.length_map, List.length_range] at hlt
    rw [rt0Keys, List.getElem?_map, List.getElem?_range hlt] at hl
    exact ⟨hlt, (Option.some.inj hl).symm⟩
  refine ⟨calls, h1, fun vec vec' => (h2 K vec vec').trans ⟨?_, ?_⟩⟩
  · intro ha' e he is his hb x hx
    have hi := hB.facet e is his
    obtain ⟨v, v', r1, r2, r3⟩ := C87_facet hn hG hI fixed hfix hgeo ha vec vec' e hi hx
    refine ⟨v, v', r1, r2, r3.1 ?_⟩
    have := ha' e he is his hb is.indexInInside ⟨is.indexInInside, 1, 0⟩ (by rw [rt0Keys, List.getElem?_map, List.getElem?_range hi]; rfl)
      (by rw [hG.simplices]; exact (inc_facet hn hi hi).2 rfl)
    exact this
  · intro ha' e he is his hb l k hl hinc
    have hi := hB.facet e is his
    obtain ⟨hlt, rfl⟩ := hkey hl
    rw [hG.simplices] at hinc
    obtain rfl := (inc_facet hn hi hlt).1 hinc
    obtain ⟨v, v', r1, r2, r3⟩ := C87_facet hn hG hI fixed hfix hgeo ha vec vec' e hi (on_vertex n is.indexInInside)
    obtain ⟨w, w', s1, s2, s3⟩ := ha' e he is his hb _ (on_vertex n is.indexInInside)
    rw [r1, Option.some.injEq] at s1
    rw [r2, Option.some.injEq] at s2
    subst s1
    subst s2
    exact r3.2 s3

/-- **C90, Nédélec basis of order 1 on simplices.** Two coefficient vectors agree in the degrees of freedom visited by `forEachBoundaryDOF` if and only if the tangential components of the
discrete functions agree on all boundary facets: in all points with the barycentric coordinates `w` and all directions with the barycentric coordinates `τ`. -/
theorem C90_nedelec {G : GridView E S} {fixed : Option Geo} (h : Simplices G fixed n) {pos : Nat → Vec K (n + 1)} {jac : E → Mat K (n + 1)}
    {geo : E → Geometry K (n + 1)} (hG : Affine G n pos jac geo) {hasBoundary : E → Bool} {bisects : E → List BIsect} (hB : BoundaryOK (n + 2) hasBoundary bisects) (els : List E) :
    ∃ calls, leafCalls G nedelecLayout (simplexKeys (n + 1)) hasBoundary bisects els = some calls ∧ ∀ vec vec' : Nat → K, Agree calls vec vec' ↔
      ∀ e ∈ els, ∀ is ∈ bisects e, is.boundary = true → ∀ w τ : Nat → K,
        ∑ v ∈ Finset.range (n + 2), w (vertexIndex G e v) = 1 → ∑ v ∈ Finset.range (n + 2), τ (vertexIndex G e v) = 0 →
        (∀ v < n + 2, (¬ ∃ k < n + 1, v = Trace.facetVertex n is.indexInInside k) → w (vertexIndex G e v) = 0 ∧ τ (vertexIndex G e v) = 0) →
        ∃ v v', nedelecValue G fixed geo vec e (localOf G n w e) = some v ∧ nedelecValue G fixed geo vec' e (localOf G n w e) = some v' ∧
          v ⬝ᵥ (∑ k ∈ Finset.range (n + 2), τ (vertexIndex G e k) • pos (vertexIndex G e k)) =
            v' ⬝ᵥ (∑ k ∈ Finset.range (n + 2), τ (vertexIndex G e k) • pos (vertexIndex G e k)) := by
  have hn := simplices_n h
  have hk : KeysOK G nedelecLayout fun _ => simplexKeys (n + 1) := by
    have t : ∀ n : Fin 3, n.val = 1 ∨ n.val = 2 → (simplexKeys (n.val + 1)).Nodup ∧ ∀ k ∈ simplexKeys (n.val + 1), k.codim ≤ n.val + 1 ∧
        ∃ t, (stdSubs (simplexOf (n.val + 1)) k.codim)[k.sub]? = some t ∧ k.index < nedelecLayout t := by
      intro n hn
      fin_cases n
      · simp at hn
      · decide +kernel
      · decide +kernel
    obtain ⟨t1, t2⟩ := t ⟨n, by omega⟩ hn
    refine ⟨fun _ => t1, fun e k hk => ?_⟩
    rw [h.accepted.std.std, h.simplices, h.dim]
    exact t2 k hk
  obtain ⟨calls, h1, h2⟩ := leafCalls_spec h.accepted.std.base hk hasBoundary bisects hB.reported els
  refine ⟨calls, h1, fun vec vec' => (h2 K vec vec').trans ?_⟩
  have hidx : ∀ (e : E) (j : Fin (simplexEdges (n + 1)).length), mapperIndex G nedelecLayout (G.sub e (n + 1 - 1) j) + 0 = nedelecIndex G e j := by
    intro e j
    simp only [nedelecIndex, h.dim]
    rfl
  have key : ∀ e ∈ els, ∀ is ∈ bisects e,
      ((∀ (l : Nat) (k : Key), (simplexKeys (n + 1))[l]? = some k → stdInc (G.elemGeo e) is.indexInInside 1 k.codim k.sub = true →
        vec (mapperIndex G nedelecLayout (G.sub e k.codim k.sub) + k.index) = vec' (mapperIndex G nedelecLayout (G.sub e k.codim k.sub) + k.index)) ↔
      ∀ i : Fin (simplexEdges (n + 1)).length, (∃ k < n + 1, (simplexEdges (n + 1))[i].1 = Trace.facetVertex n is.indexInInside k) →
        (∃ k < n + 1, (simplexEdges (n + 1))[i].2 = Trace.facetVertex n is.indexInInside k) → vec (nedelecIndex G e i) = vec' (nedelecIndex G e i)) := by
    intro e _ is his
    have hi := hB.facet e is his
    constructor
    · intro ha i c1 c2
      have := ha i ⟨i, n + 1 - 1, 0⟩ (by rw [simplexKeys, List.getElem?_map, List.getElem?_range i.2]; rfl) (by rw [h.simplices]; exact (inc_edge hn hi i).2 ⟨c1, c2⟩)
      rwa [hidx] at this
    · intro ha l k hl hinc
      have hlt := (List.getElem?_eq_some_iff.1 hl).1
      simp only [simplexKeys, List.length_map, List.length_range] at hlt
      rw [simplexKeys, List.getElem?_map, List.getElem?_range hlt] at hl
      obtain rfl := (Option.some.inj hl)
      rw [h.simplices] at hinc
      obtain ⟨c1, c2⟩ := (inc_edge hn hi ⟨l, hlt⟩).1 hinc
      have := ha ⟨l, hlt⟩ c1 c2
      rw [← hidx] at this
      exact this
  constructor
  · intro ha e he is his hb
    exact (C88_face h hG vec vec' e fun v => ∃ k < n + 1, v = Trace.facetVertex n is.indexInInside k).1 ((key e he is his).1 (ha e he is his hb))
  · intro ha e he is his hb
    exact (key e he is his).2 ((C88_face h hG vec vec' e fun v => ∃ k < n + 1, v = Trace.facetVertex n is.indexInInside k).2 (ha e he is his hb))

/-! ## Examples: two triangles and two tetrahedra -/

/-- The boundary edges of two triangles with the common edge 2, and the boundary faces of two tetrahedra with the common face 3. -/
def demoBoundary (inner : Nat) : Fin 2 → List BIsect := fun _ => (List.range (inner + 1)).map fun i => ⟨decide (i < inner), i⟩

theorem demo_boundary (inner : Nat) : BoundaryOK (inner + 1) (fun _ => true) (demoBoundary inner) where
  reported _ _ _ _ := rfl
  facet e is his := by
    obtain ⟨i, hi, rfl⟩ := List.mem_map.1 his
    exact List.mem_range.1 hi

/-- All edges but the common one, whose index is 2, are visited. -/
example : (leafCalls demoGrid.toGridView (rtLayout 0 2) (rt0Keys 1) (fun _ => true) (demoBoundary 2) [0, 1]).map (fun calls => calls.map Visit.index)
    = some [[0], [1], [3], [4]] := by decide +kernel

/-- The normal component on the edge from `(0, 0)` to `(0, 1)` is determined by the visited coefficients. -/
example : ∃ calls, leafCalls demoGrid.toGridView (rtLayout 0 2) (rt0Keys 1) (fun _ => true) (demoBoundary 2) [0, 1] = some calls ∧ ∀ vec vec' : Nat → ℝ, Agree calls vec vec' →
    ∃ v v', rtValue demoGrid none demoIsects (fun e => ofJacobian fun _ => demoJac e) 1 vec 0 (corner ℝ 1 (Trace.facetVertex 1 1 0)) = some v ∧
      rtValue demoGrid none demoIsects (fun e => ofJacobian fun _ => demoJac e) 1 vec' 0 (corner ℝ 1 (Trace.facetVertex 1 1 0)) = some v' ∧ v 0 = v' 0 := by
  obtain ⟨calls, h1, h2⟩ := C90_raviartThomas (Or.inl rfl) demo_simplexGrid demo_neighbours none (by simp) demo_geo one_ne_zero (demo_boundary 2) [0, 1]
  refine ⟨calls, h1, fun vec vec' ha => ?_⟩
  obtain ⟨v, v', r1, r2, r3⟩ := (h2 vec vec').1 ha 0 (by simp) ⟨true, 1⟩ (by simp [demoBoundary, List.range_succ]) rfl _ (on_vertex 1 1)
  refine ⟨v, v', r1, r2, ?_⟩
  have := r3 ![1, 0] (by
    intro k hk
    have : k = 0 ∨ k = 1 := by omega
    rcases this with rfl | rfl <;> simp [Trace.facetVertex, simplexOf, refOf, subVerts, triangle, demoGrid, Trace.demoPos])
  simpa [dotProduct, Fin.sum_univ_two] using this

/-- On two tetrahedra all edges are visited, because all of them lie on the boundary: the visited coefficients, i.e. the tangential components on the boundary, determine the function. -/
example : ∃ calls, leafCalls tets.toGridView nedelecLayout (simplexKeys 3) (fun _ => true) (demoBoundary 3) [0, 1] = some calls ∧ ∀ vec vec' : Nat → ℝ, Agree calls vec vec' →
    ∀ m < 9, vec m = vec' m := by
  obtain ⟨calls, h1, -⟩ := C90_nedelec tets_simplices tets_affine (demo_boundary 3) [0, 1]
  refine ⟨calls, h1, fun vec vec' ha m hm => ?_⟩
  have key : ∀ m < 9, ∃ v ∈ (leafCalls tets.toGridView nedelecLayout (simplexKeys 3) (fun _ => true) (demoBoundary 3) [0, 1]).getD [], v.index = [m] := by decide +kernel
  rw [h1] at key
  obtain ⟨v, hv, hvm⟩ := key m hm
  exact ha v hv m hvm

end Verif.HDiv.BoundaryDofs

import Verif.Dofs.SubEntity

/-!
# Boundary DOFs of bases with indices from a mapper

The indices visited by `forEachBoundaryDOF`, as needed for the theorems about boundary values.
-/

namespace Verif.Dofs

open Verif.Mapper Verif.IndexTree

variable {E S : Type}

/-- `forEachBoundaryDOF(basis, f)`, boundarydofs.hh:38-54, 75-91, 111-127, for a basis with indices from a mapper. `keys` are the local keys of the finite elements. Sub-entities contained
in an intersection: those of the reference element (`stdInc`), subentitydofs.hh:69-93, 110-114. -/
def elementCalls (G : GridView E S) (lay : Layout) (keys : E → List Key) (hasBoundary : E → Bool) (isects : E → List BIsect) (els : List E) : Option (List (Visit E)) :=
  forEachBoundaryDOF (PB.leaf (mapperLeaf G lay keys)).model (fun _ => keys) (fun e i c k => stdInc (G.elemGeo e) i c k.codim k.sub) hasBoundary isects els

/-- `forEachBoundaryDOF(basis, f)`, boundarydofs.hh:38-54, 75-91, 111-127, if all elements have the same local keys. -/
def leafCalls (G : GridView E S) (lay : Layout) (keys : List Key) (hasBoundary : E → Bool) (isects : E → List BIsect) (els : List E) : Option (List (Visit E)) :=
  elementCalls G lay (fun _ => keys) hasBoundary isects els

/-- The intersections of a grid view: an element with a boundary intersection reports it, and the numbers of facets are smaller than `facets`. -/
structure BoundaryOK (facets : Nat) (hasBoundary : E → Bool) (isects : E → List BIsect) : Prop where
  reported : ∀ e, ∀ is ∈ isects e, is.boundary = true → hasBoundary e = true
  facet : ∀ e, ∀ is ∈ isects e, is.indexInInside < facets

/-- Two coefficient vectors agree in the visited degrees of freedom. -/
def Agree {K : Type} (calls : List (Visit E)) (vec vec' : Nat → K) : Prop := ∀ v ∈ calls, ∀ n, v.index = [n] → vec n = vec' n

/-- The visited indices are those of the keys contained in boundary intersections. -/
theorem elementCalls_spec {G : GridView E S} (hG : G.OK) {lay : Layout} {keys : E → List Key} (hk : KeysOK G lay keys) (hasBoundary : E → Bool)
    (isects : E → List BIsect) (hB : ∀ e, ∀ is ∈ isects e, is.boundary = true → hasBoundary e = true) (els : List E) :
    ∃ calls, elementCalls G lay keys hasBoundary isects els = some calls ∧ ∀ (K : Type) (vec vec' : Nat → K), Agree calls vec vec' ↔
      ∀ e ∈ els, ∀ is ∈ isects e, is.boundary = true → ∀ (l : Nat) (k : Key), (keys e)[l]? = some k → stdInc (G.elemGeo e) is.indexInInside 1 k.codim k.sub = true →
        vec (mapperIndex G lay (G.sub e k.codim k.sub) + k.index) = vec' (mapperIndex G lay (G.sub e k.codim k.sub) + k.index) := by
  have hWF := mapperLeaf_WF hG hk
  have R := (PB.leaf (mapperLeaf G lay keys)).refines hWF
  have hlen : ∀ e, ((mapperLeaf G lay keys).loc e).length = (keys e).length := by intro e; simp [mapperLeaf]
  have hkm : KeysMatch (fun _ => keys) (LocalView.fresh (PB.leaf (mapperLeaf G lay keys)).model).tree := by
    intro p hp e
    have : leafInfo (LocalView.fresh (PB.leaf (mapperLeaf G lay keys)).model).tree
      = [(0, fun e => ((mapperLeaf G lay keys).loc e).length)] := rfl
    rw [this, List.mem_singleton] at hp
    subst hp
    exact hlen e
  have hloc : ∀ e, localIndices (PB.leaf (mapperLeaf G lay keys)).model e
      = some (((mapperLeaf G lay keys).loc e).map fun i => [i]) := by
    intro e
    rw [localIndices_eq R]
    simp [PB.spec, specLeaf]
  have hget : ∀ (e : E) (l : Nat) (k : Key), (keys e)[l]? = some k →
      (((mapperLeaf G lay keys).loc e).map fun i => [i])[l]? = some [mapperIndex G lay (G.sub e k.codim k.sub) + k.index] := by
    intro e l k hl
    simp [mapperLeaf, hl]
  obtain ⟨calls, h1, h2⟩ := C32_boundary _ hWF (fun _ => keys) (fun e i c k => stdInc (G.elemGeo e) i c k.codim k.sub) hkm hasBoundary isects hB els
  refine ⟨calls, h1, fun K vec vec' => ⟨?_, ?_⟩⟩
  · intro ha e he is his hb l k hl hinc
    refine ha ⟨e, is, l, _⟩ ((h2 _).mpr ⟨he, his, hb, ⟨k, (hasKey_leaf _ _ hlen e l k).mpr hl, hinc⟩, _, hloc e, hget e l k hl⟩) _ rfl
  · intro ha v hv n hn
    obtain ⟨q1, q2, q3, ⟨k, q4, q5⟩, L, q6, q7⟩ := (h2 v).mp hv
    rw [hasKey_leaf _ _ hlen] at q4
    rw [hloc] at q6
    cases q6
    rw [hget _ _ _ q4, Option.some.injEq, hn] at q7
    simp only [List.cons.injEq, and_true] at q7
    rw [← q7]
    exact ha _ q1 _ q2 q3 _ _ q4 q5

/-- The same if all elements have the same local keys. -/
theorem leafCalls_spec {G : GridView E S} (hG : G.OK) {lay : Layout} {keys : List Key} (hk : KeysOK G lay fun _ => keys) (hasBoundary : E → Bool)
    (isects : E → List BIsect) (hB : ∀ e, ∀ is ∈ isects e, is.boundary = true → hasBoundary e = true) (els : List E) :
    ∃ calls, leafCalls G lay keys hasBoundary isects els = some calls ∧ ∀ (K : Type) (vec vec' : Nat → K), Agree calls vec vec' ↔
      ∀ e ∈ els, ∀ is ∈ isects e, is.boundary = true → ∀ (l : Nat) (k : Key), keys[l]? = some k → stdInc (G.elemGeo e) is.indexInInside 1 k.codim k.sub = true →
        vec (mapperIndex G lay (G.sub e k.codim k.sub) + k.index) = vec' (mapperIndex G lay (G.sub e k.codim k.sub) + k.index) :=
  elementCalls_spec hG hk hasBoundary isects hB els

end Verif.Dofs

import Verif.Lagrange.Nodal
import Verif.Dofs.SubEntity

/-!
# Boundary DOFs of Lagrange bases

The degrees of freedom visited by `forEachBoundaryDOF` are exactly those that determine the values of the discrete function on the boundary.
-/

namespace Verif.Lagrange.Continuity

open Mapper
open Verif.IndexTree
open Verif.Piola (Vec)
open Verif.HDiv (simplexOf cubeOf)
open Verif.Dofs (BIsect Visit OnBoundary forEachBoundaryDOF stdInc)

variable {E S α K : Type} [LinearOrder α] [Field K] {n : Nat}

/-- `forEachBoundaryDOF(basis, f)`, boundarydofs.hh:38-54, 75-91, 111-127, for a Lagrange basis, lagrangebasis.hh:740-889. Sub-entities contained in an intersection: those of the reference
element (`stdInc`), subentitydofs.hh:69-93, 110-114. -/
def boundaryCalls (G : LGrid E S α) (order : Nat) (keys : Geo → List Key) (hasBoundary : E → Bool) (isects : E → List BIsect) (els : List E) : Option (List (Visit E)) :=
  forEachBoundaryDOF (PB.leaf (lagrangeLeaf G order fun e => keys (G.elemGeo e))).model (fun _ e => keys (G.elemGeo e))
    (fun e i c k => stdInc (G.elemGeo e) i c k.codim k.sub) hasBoundary isects els

/-- Points of the closed boundary, seen from any element: the point lies in a proper sub-entity of the element, and this is contained in a boundary intersection of
some element. -/
def BoundaryPoint (G : LGrid E S α) (isects : E → List BIsect) (els : List E) (e : E) (x : Vec K n) : Prop :=
  ∃ c s, 1 ≤ c ∧ c ≤ G.dim ∧ s < (stdSubs (G.elemGeo e) c).length ∧
    OnBoundary G.toGridView (fun e => stdInc (G.elemGeo e)) isects els (G.sub e c s) ∧
    ∀ v < (G.elemGeo e).nv, v ∉ keyVerts (G.elemGeo e) ⟨s, c, 0⟩ → vertexWeight (G.elemGeo e) v x = 0

/-- Containment of sub-entities is containment of vertices. -/
theorem stdInc_iff {t : Geo} (ht : t ∈ elemTypes) {i c cc k : Nat} (hcc : cc ≤ t.dim) (hk : k < (stdSubs t cc).length) :
    stdInc t i c cc k = true ↔ c ≤ cc ∧ ∀ v ∈ keyVerts t ⟨k, cc, 0⟩, v ∈ keyVerts t ⟨i, c, 0⟩ := by
  obtain ⟨-, -, -, -, h5⟩ := keyVerts_table ht (k := ⟨k, cc, 0⟩) hcc hk
  have h6 : (subVerts (refOf t) cc).getD k [0] = keyVerts t ⟨k, cc, 0⟩ := by
    rw [List.getD_eq_getElem?_getD, h5, Option.getD_some]
  simp only [stdInc, h6, Bool.and_eq_true, decide_eq_true_eq, List.all_eq_true, List.contains_iff_mem, keyVerts]

/-- **C80.** The index of a local basis function of any element is visited by `forEachBoundaryDOF` if and only if its Lagrange point lies on the boundary. -/
theorem C80_visited {G : LGrid E S α} (h : G.OK) {order : Nat} (ha : lagrangeAccept G.toGridView order = true) {keys : Geo → List Key}
    (hk : LagrangeKeys G order fun e => keys (G.elemGeo e)) (hasBoundary : E → Bool) (isects : E → List BIsect)
    (hB : ∀ e, ∀ is ∈ isects e, is.boundary = true → hasBoundary e = true) (els : List E) :
    ∃ calls, boundaryCalls G order keys hasBoundary isects els = some calls ∧
      (∀ v ∈ calls, ∃ k i, (keys (G.elemGeo v.element))[v.localIndex]? = some k ∧
        ((lagrangeLeaf G order fun e => keys (G.elemGeo e)).loc v.element)[v.localIndex]? = some i ∧ v.index = [i] ∧
        OnBoundary G.toGridView (fun e => stdInc (G.elemGeo e)) isects els (G.sub v.element k.codim k.sub)) ∧
      ∀ (e : E) (l i : Nat) (k : Key), (keys (G.elemGeo e))[l]? = some k → ((lagrangeLeaf G order fun e => keys (G.elemGeo e)).loc e)[l]? = some i →
        ((∃ v ∈ calls, v.index = [i]) ↔ OnBoundary G.toGridView (fun e => stdInc (G.elemGeo e)) isects els (G.sub e k.codim k.sub)) := by
  obtain ⟨h17, -⟩ := accept_bounds h ha
  have hWF := lagrangeLeaf_WF h ha hk
  have R := (PB.leaf (lagrangeLeaf G order fun e => keys (G.elemGeo e))).refines hWF
  have hlen : ∀ e, ((lagrangeLeaf G order fun e => keys (G.elemGeo e)).loc e).length = (keys (G.elemGeo e)).length := by intro e; simp [lagrangeLeaf]
  have hkm : Dofs.KeysMatch (fun _ e => keys (G.elemGeo e)) (LocalView.fresh (PB.leaf (lagrangeLeaf G order fun e => keys (G.elemGeo e))).model).tree := by
    intro p hp e
    have : Dofs.leafInfo (LocalView.fresh (PB.leaf (lagrangeLeaf G order fun e => keys (G.elemGeo e))).model).tree
      = [(0, fun e => ((lagrangeLeaf G order fun e => keys (G.elemGeo e)).loc e).length)] := rfl
    rw [this, List.mem_singleton] at hp
    subst hp
    exact hlen e
  have hloc : ∀ e, localIndices (PB.leaf (lagrangeLeaf G order fun e => keys (G.elemGeo e))).model e
      = some (((lagrangeLeaf G order fun e => keys (G.elemGeo e)).loc e).map fun i => [i]) := by
    intro e
    rw [localIndices_eq R]
    simp [PB.spec, specLeaf]
  have hget : ∀ (e : E) (l i : Nat) (k : Key), (keys (G.elemGeo e))[l]? = some k → ((lagrangeLeaf G order fun e => keys (G.elemGeo e)).loc e)[l]? = some i →
      ValidKey G order e k ∧ lagrangeIndex G order e k = some i := by
    intro e l i k hl hi
    have hv := (hk.mem e k).1 (List.mem_of_getElem? hl)
    obtain ⟨a, b, h1, -⟩ := C20_C22_conformity h order h17 e k e k hv hv
    simp only [lagrangeLeaf, List.getElem?_map, hl, Option.map_some, h1, Option.getD_some] at hi
    exact ⟨hv, by rw [h1]; exact hi⟩
  obtain ⟨calls, h1, h2⟩ := Dofs.C32_boundary _ hWF (fun _ e => keys (G.elemGeo e)) (fun e i c k => stdInc (G.elemGeo e) i c k.codim k.sub) hkm hasBoundary isects hB els
  -- the data of a visit
  have hvisit : ∀ v ∈ calls, ∃ k i, (keys (G.elemGeo v.element))[v.localIndex]? = some k ∧
        ((lagrangeLeaf G order fun e => keys (G.elemGeo e)).loc v.element)[v.localIndex]? = some i ∧ v.index = [i] ∧
        OnBoundary G.toGridView (fun e => stdInc (G.elemGeo e)) isects els (G.sub v.element k.codim k.sub) := by
    intro v hv
    obtain ⟨ha, hb, hc, ⟨k, hk1, hk2⟩, L, hL1, hL2⟩ := (h2 v).mp hv
    rw [Dofs.hasKey_leaf _ _ hlen] at hk1
    rw [hloc] at hL1
    cases hL1
    rw [List.getElem?_map] at hL2
    obtain ⟨i, hi, hvi⟩ := Option.map_eq_some_iff.1 hL2
    obtain ⟨hcd, u, hu, -⟩ := (hget _ _ _ _ hk1 hi).1
    exact ⟨k, i, hk1, hi, hvi.symm, v.element, ha, v.isect, hb, hc, k.codim, k.sub, hcd, by rw [h.std]; exact (List.getElem?_eq_some_iff.1 hu).1, hk2, rfl⟩
  refine ⟨calls, h1, hvisit, ?_⟩
  intro e l i k hl hi
  obtain ⟨hv, hx⟩ := hget e l i k hl hi
  constructor
  · rintro ⟨v, hvc, hvi⟩
    obtain ⟨k', i', hk', hi', hvi', hon⟩ := hvisit v hvc
    rw [hvi] at hvi'
    simp only [List.cons.injEq, and_true] at hvi'
    subst hvi'
    obtain ⟨hv', hx'⟩ := hget _ _ _ _ hk' hi'
    obtain ⟨a, b, g1, g2, -, hiff⟩ := C20_C22_conformity h order h17 e k v.element k' hv hv'
    rw [hx, Option.some.injEq] at g1
    rw [hx', Option.some.injEq] at g2
    rw [(hiff.1 (by rw [← g1, ← g2])).1]
    exact hon
  · rintro ⟨e', he', is, his, hbd, c, kk, hc, hkk, hinc, hs⟩
    rw [h.std] at hkk
    obtain ⟨p, hp, hblock⟩ := lagrangeIndex_block h order h17 hv
    obtain ⟨a, hva, hxa⟩ := block_covered h order h17 e' hc hkk (j := p) (by rw [hs]; exact hp)
    rw [hs, ← hblock, hx] at hxa
    obtain ⟨l', hl'⟩ := List.mem_iff_getElem?.1 ((hk.mem e' _).2 hva)
    have hi' : ((lagrangeLeaf G order fun e => keys (G.elemGeo e)).loc e')[l']? = some i := by
      simp [lagrangeLeaf, hl', hxa]
    refine ⟨⟨e', is, l', [i]⟩, (h2 _).mpr ⟨he', his, hbd, ⟨_, (Dofs.hasKey_leaf _ _ hlen e' l' _).mpr hl', hinc⟩, _, hloc e', by simp [hi']⟩, rfl⟩

/-- **C80.** Coefficient vectors agree in all degrees of freedom visited by `forEachBoundaryDOF` if and only if the discrete functions agree in all points of the boundary. -/
theorem C80_boundary [CharZero K] {G : LGrid E S α} (h : G.OK) (closed : Closed G) (hdim : G.dim = n + 1) (helem : ∀ e, Supported (n + 1) (G.elemGeo e)) {order : Nat}
    (ho : 1 ≤ order) (ha : lagrangeAccept G.toGridView order = true) {keys : Geo → List Key} (hk : LagrangeKeys G order fun e => keys (G.elemGeo e))
    (hasBoundary : E → Bool) (isects : E → List BIsect) (hB : ∀ e, ∀ is ∈ isects e, is.boundary = true → hasBoundary e = true) (els : List E) :
    ∃ calls, boundaryCalls G order keys hasBoundary isects els = some calls ∧ ∀ vec vec' : Nat → K,
      (∀ v ∈ calls, ∀ i, v.index = [i] → vec i = vec' i) ↔ ∀ e (x : Vec K (n + 1)), BoundaryPoint G isects els e x →
        value G order (fun e => keys (G.elemGeo e)) (lagrangeValues order keys) vec e x = value G order (fun e => keys (G.elemGeo e)) (lagrangeValues order keys) vec' e x := by
  obtain ⟨calls, h1, h2, h3⟩ := C80_visited h ha hk hasBoundary isects hB els
  obtain ⟨h17, -⟩ := accept_bounds h ha
  refine ⟨calls, h1, fun vec vec' => ⟨?_, ?_⟩⟩
  · rintro hagree e x ⟨c, s, hc1, hc, hs, hon, hx⟩
    have hlen : (lagrangeValues order keys (G.elemGeo e) x).length = (keys (G.elemGeo e)).length := by simp [lagrangeValues]
    rw [value_sum G order _ _ vec e _ hlen, value_sum G order _ _ vec' e _ hlen]
    apply Finset.sum_congr rfl
    intro l _
    have hl : (keys (G.elemGeo e))[l.val]? = some (keys (G.elemGeo e))[l] := List.getElem?_eq_getElem l.2
    have hv := (hk.mem e _).1 (List.mem_of_getElem? hl)
    generalize hkey : (keys (G.elemGeo e))[l] = k at *
    have hval : ∀ hl' : l.val < (lagrangeValues order keys (G.elemGeo e) x).length, (lagrangeValues order keys (G.elemGeo e) x)[l.val] = lagrangeShape order (G.elemGeo e) k x := by
      intro hl'
      rw [← hkey]
      simp only [lagrangeValues, List.getElem_map, Fin.getElem_fin]
    rw [hval]
    have hdimE : (G.elemGeo e).dim = G.dim := (h.base.elemMem e).2
    have hlt : k.sub < (stdSubs (G.elemGeo e) k.codim).length := by obtain ⟨-, u, hu, -⟩ := hv; exact (List.getElem?_eq_some_iff.1 hu).1
    obtain ⟨-, -, -, -, f5⟩ := keyVerts_table (h.type e) (k := ⟨s, c, 0⟩) (by rw [hdimE]; exact hc) hs
    by_cases hall : ∀ v ∈ keyVerts (G.elemGeo e) k, v ∈ keyVerts (G.elemGeo e) ⟨s, c, 0⟩
    · -- the Lagrange point lies on the boundary
      have hc0 := codim_of_subset (h.type e) hlt (by rw [hdimE]; exact hc) hc1 f5 hall
      obtain ⟨a, b, g1, -⟩ := C20_C22_conformity h order h17 e k e k hv hv
      rw [g1, Option.getD_some]
      congr 1
      have hi : ((lagrangeLeaf G order fun e => keys (G.elemGeo e)).loc e)[l.val]? = some a := by
        simp only [lagrangeLeaf, List.getElem?_map, hl, Option.map_some, g1, Option.getD_some]
      obtain ⟨v, hvc, hvi⟩ := (h3 e l.val a k hl hi).2 (by
        obtain ⟨e0, he0, is, his, hbd, c0, k0, hc0', hk0, hinc, hsub⟩ := hon
        rw [h.std] at hk0
        have hdim0 : (G.elemGeo e0).dim = G.dim := (h.base.elemMem e0).2
        obtain ⟨s2, hs2, hsub2⟩ := closed e e0 c s c0 k0 hs hk0 hsub.symm k.codim k.sub hlt hall
        refine ⟨e0, he0, is, his, hbd, k.codim, s2, hv.1, by rw [h.std]; exact hs2, ?_, hsub2.symm⟩
        rw [stdInc_iff (h.type e0) (by rw [hdim0]; exact hc0') hk0] at hinc
        rw [stdInc_iff (h.type e0) (by rw [hdim0]; exact hv.1) hs2]
        refine ⟨by omega, ?_⟩
        intro v hv2
        apply hinc.2
        have q1 := h.vertsSame e k e0 ⟨s2, k.codim, 0⟩ (by rw [h.std]; exact hlt) (by rw [h.std]; exact hs2) hsub2
        have q2 := h.vertsSame e ⟨s, c, 0⟩ e0 ⟨k0, c0, 0⟩ (by rw [h.std]; exact hs) (by rw [h.std]; exact hk0) hsub.symm
        have m1 : G.ids e0 v ∈ G.verts e0 ⟨s2, k.codim, 0⟩ := List.mem_map.2 ⟨v, hv2, rfl⟩
        rw [← q1] at m1
        obtain ⟨v', hv', hid⟩ := List.mem_map.1 m1
        have m2 : G.ids e v' ∈ G.verts e ⟨s, c, 0⟩ := List.mem_map.2 ⟨v', hall v' hv', rfl⟩
        rw [q2] at m2
        obtain ⟨v'', hv'', hid'⟩ := List.mem_map.1 m2
        obtain ⟨-, b1, -⟩ := keyVerts_table (h.type e0) (k := ⟨k0, c0, 0⟩) (by rw [hdim0]; exact hc0') hk0
        obtain ⟨-, b2, -⟩ := keyVerts_table (h.type e0) (k := ⟨s2, k.codim, 0⟩) (by rw [hdim0]; exact hv.1) hs2
        rw [← h.idsInj e0 v'' v (b1 v'' hv'') (b2 v hv2) (hid'.trans hid)]
        exact hv'')
      exact hagree v hvc a hvi
    · -- the shape function vanishes
      push Not at hall
      have hzero : lagrangeShape order (G.elemGeo e) k x = 0 := by
        exact (lagrange_traces (K := K) ho (helem e) k (validLocal h hv) c s _ hc1 (by rw [hdimE]; exact hc) f5 x hx).2 hall
      rw [hzero, mul_zero, mul_zero]
  · intro hagree v hvc i hvi
    obtain ⟨k, i', hk', hi', hvi', hon⟩ := h2 v hvc
    rw [hvi] at hvi'
    simp only [List.cons.injEq, and_true] at hvi'
    subst hvi'
    have hv := (hk.mem v.element k).1 (List.mem_of_getElem? hk')
    have hlt : k.sub < (stdSubs (G.elemGeo v.element) k.codim).length := by obtain ⟨-, u, hu, -⟩ := hv; exact (List.getElem?_eq_some_iff.1 hu).1
    have hc1 : 1 ≤ k.codim := by
      obtain ⟨e0, he0, is, his, hbd, c0, k0, hc0', hk0, hinc, hsub⟩ := hon
      rw [h.std] at hk0
      have d1 := subGeo_dim h hk0
      have d2 := subGeo_dim h hlt
      rw [hsub] at d1
      have := ((stdInc_iff (h.type e0) (by rw [(h.base.elemMem e0).2]; exact hc0') hk0).1 hinc).1
      have := hv.1
      omega
    rw [← C79_value h helem ho hk vec v.element hk' hi', ← C79_value h helem ho hk vec' v.element hk' hi']
    refine hagree _ _ ⟨k.codim, k.sub, hc1, hv.1, hlt, hon, ?_⟩
    intro w hw hwF
    have h0 : (order : K) ≠ 0 := by exact_mod_cast (by omega : order ≠ 0)
    have := lagrangeNode_weight (K := K) ho (helem v.element) (validLocal h hv) (by omega) hw
    rw [weight_outside order (G.elemGeo v.element) k hwF, Nat.cast_zero, mul_eq_zero] at this
    rcases this with h' | h'
    · exact absurd h' (mul_ne_zero h0 h0)
    · exact h'

/-! ## Example -/

/-- The intersections of `mixedGrid`: the quadrilateral and the triangle share facet 1 of the quadrilateral and facet 0 of the triangle. -/
def mixedIsects : Fin 2 → List BIsect := fun e => if e = 0 then [⟨true, 0⟩, ⟨false, 1⟩, ⟨true, 2⟩, ⟨true, 3⟩] else [⟨false, 0⟩, ⟨true, 1⟩, ⟨true, 2⟩]

/-- Order 3: of the 22 degrees of freedom, the five inner ones and the two on the shared edge are not visited. -/
example : (boundaryCalls mixedGrid 3 (gridKeys mixedGrid 3) (fun _ => true) mixedIsects [0, 1]).map (fun l => (List.range 22).filter fun i => !(l.any fun v => v.index == [i]))
    = some [7, 8, 17, 18, 19, 20, 21] := by decide +kernel

/-- The vectors may differ in all other degrees of freedom; the left edge of the quadrilateral. -/
example (y : ℚ) : ∃ calls, boundaryCalls mixedGrid 3 (gridKeys mixedGrid 3) (fun _ => true) mixedIsects [0, 1] = some calls ∧
    ∀ vec vec' : Nat → ℚ, (∀ v ∈ calls, ∀ i, v.index = [i] → vec i = vec' i) →
      value mixedGrid 3 (fun e => gridKeys mixedGrid 3 (mixedGrid.elemGeo e)) (lagrangeValues 3 (gridKeys mixedGrid 3)) vec 0 ![0, y] =
        value mixedGrid 3 (fun e => gridKeys mixedGrid 3 (mixedGrid.elemGeo e)) (lagrangeValues 3 (gridKeys mixedGrid 3)) vec' 0 ![0, y] := by
  obtain ⟨calls, h1, h2⟩ := C80_boundary (K := ℚ) (n := 1) mixedGrid_OK mixedGrid_closed rfl mixed_elem (order := 3) (by decide) (by decide +kernel)
    (gridKeys_keys mixedGrid_OK 3) (fun _ => true) mixedIsects (fun _ _ _ _ => rfl) [0, 1]
  refine ⟨calls, h1, fun vec vec' h => (h2 vec vec').1 h 0 _ ⟨1, 0, by decide, by decide, by decide, ?_, ?_⟩⟩
  · exact ⟨0, by decide, ⟨true, 0⟩, by decide, rfl, 1, 0, by decide, by decide, by decide +kernel, rfl⟩
  · intro v hv hvF
    have hv : v < 4 := hv
    have : v = 1 ∨ v = 3 := by
      have : ∀ v < 4, v ∉ keyVerts (mixedGrid.elemGeo 0) ⟨0, 1, 0⟩ → v = 1 ∨ v = 3 := by decide +kernel
      exact this v hv hvF
    rcases this with rfl | rfl <;> simp [vertexWeight, mixedGrid, cubeBw, Fin.prod_univ_two, Nat.testBit]

end Verif.Lagrange.Continuity

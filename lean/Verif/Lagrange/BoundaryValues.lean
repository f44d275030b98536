import Verif.Lagrange.Boundary
import Verif.Lagrange.Refined
import Verif.Lagrange.Nonconforming
import Verif.Dofs.BoundaryLeaf
import Verif.HDiv.BDMSpace

/-!
# Boundary degrees of freedom of further bases

The degrees of freedom visited by `forEachBoundaryDOF` for hierarchical and refined Lagrange bases, Rannacher–Turek (Crouzeix–Raviart) bases and Brezzi–Douglas–Marini bases, and what they say
about the values on the boundary.
-/

namespace Verif.Dofs

open Verif.Mapper Verif.IndexTree

variable {E S : Type}

/-- The indices visited by `forEachBoundaryDOF` for a basis without subtrees, with the local keys `keys`. -/
theorem leaf_spec {L : Leaf E} (hL : (PB.leaf L).WF) (keys : E → List Key) (hlen : ∀ e, (L.loc e).length = (keys e).length) (inc : E → Nat → Nat → Key → Bool) (hasBoundary : E → Bool)
    (isects : E → List BIsect) (hB : ∀ e, ∀ is ∈ isects e, is.boundary = true → hasBoundary e = true) (els : List E) :
    ∃ calls, forEachBoundaryDOF (PB.leaf L).model (fun _ => keys) inc hasBoundary isects els = some calls ∧ ∀ (K : Type) (vec vec' : Nat → K), Agree calls vec vec' ↔
      ∀ e ∈ els, ∀ is ∈ isects e, is.boundary = true → ∀ (l : Nat) (k : Key) (i : Nat), (keys e)[l]? = some k → inc e is.indexInInside 1 k = true → (L.loc e)[l]? = some i →
        vec i = vec' i := by
  have R := (PB.leaf L).refines hL
  have hkm : KeysMatch (fun _ => keys) (LocalView.fresh (PB.leaf L).model).tree := by
    intro p hp e
    have : leafInfo (LocalView.fresh (PB.leaf L).model).tree = [(0, fun e => (L.loc e).length)] := rfl
    rw [this, List.mem_singleton] at hp
    subst hp
    exact hlen e
  have hloc : ∀ e, localIndices (PB.leaf L).model e = some ((L.loc e).map fun i => [i]) := by
    intro e
    rw [localIndices_eq R]
    simp [PB.spec, specLeaf]
  obtain ⟨calls, h1, h2⟩ := C32_boundary _ hL (fun _ => keys) inc hkm hasBoundary isects hB els
  refine ⟨calls, h1, fun K vec vec' => ⟨?_, ?_⟩⟩
  · intro ha e he is his hb l k i hl hinc hi
    refine ha ⟨e, is, l, [i]⟩ ((h2 _).mpr ⟨he, his, hb, ⟨k, (hasKey_leaf _ _ hlen e l k).mpr hl, hinc⟩, _, hloc e, ?_⟩) _ rfl
    simp [hi]
  · intro ha v hv n hn
    obtain ⟨q1, q2, q3, ⟨k, q4, q5⟩, L', q6, q7⟩ := (h2 v).mp hv
    rw [hasKey_leaf _ _ hlen] at q4
    rw [hloc] at q6
    cases q6
    rw [List.getElem?_map, Option.map_eq_some_iff] at q7
    obtain ⟨i, q7, q8⟩ := q7
    rw [hn] at q8
    simp only [List.cons.injEq, and_true] at q8
    rw [← q8]
    exact ha _ q1 _ q2 q3 _ _ _ q4 q5 q7

end Verif.Dofs

namespace Verif.Lagrange.BoundaryValues

open Mapper
open Verif.Lagrange.Continuity
open Verif.Piola (Vec)
open Verif.HDiv.Tangential (bary)
open Verif.FE (Matches simplex)
open Verif.Dofs (BIsect Visit stdInc leafCalls leafCalls_spec leaf_spec BoundaryOK Agree forEachBoundaryDOF)
open Verif.Lagrange.Hierarchical (Simplex SubKey subKey_table center vertexKey vertexKey_sub bary_center)

variable {E S α K : Type} [LinearOrder α] [Field K] {n : Nat}

/-! ## Specification -/

/-- Points of the facet `i` of a simplex: the barycentric coordinate of the opposite vertex is zero. -/
def OnFacet (n i : Nat) (x : Vec K n) : Prop := ∀ v < n + 1, v ∉ keyVerts (simplex n) ⟨i, 1, 0⟩ → bary v x = 0

/-! ## Bases with one function per entity -/

theorem facets (h : Simplex n) : (stdSubs (simplex n) 1).length = n + 1 := by
  rcases h.cases with rfl | rfl | rfl <;> decide

/-- Contained in a facet: the vertices are vertices of the facet. -/
theorem inc_iff (h : Simplex n) {i : Nat} {k : Key} (hk : SubKey n k) :
    stdInc (simplex n) i 1 k.codim k.sub = true ↔ 1 ≤ k.codim ∧ ∀ v ∈ keyVerts (simplex n) k, v ∈ keyVerts (simplex n) ⟨i, 1, 0⟩ := stdInc_iff h.elem hk.1 hk.2

omit [LinearOrder α] in
/-- The values on a facet are determined by the coefficients of the entities in the facet. -/
theorem facet_values {G : LGrid E S α} (hn : G.dim = n) (hs : Simplex n) {lay : Layout} {keys : List Key} (hkeys : ∀ k ∈ keys, SubKey n k)
    {shape : Key → Vec K n → K} {τ : List K → K} {inside : Vec K n → Prop} (tr : Hierarchical.EntityTraces (simplex n) keys shape τ inside) {vec vec' : Nat → K} {e : E} {i : Nat}
    (hi : i < n + 1) (hag : ∀ (l : Nat) (k : Key), keys[l]? = some k → stdInc (simplex n) i 1 k.codim k.sub = true →
      vec (mapperIndex G.toGridView lay (G.sub e k.codim k.sub) + k.index) = vec' (mapperIndex G.toGridView lay (G.sub e k.codim k.sub) + k.index))
    {x : Vec K n} (hin : inside x) (hx : OnFacet n i x) :
    Hierarchical.value G.toGridView lay keys (fun x => keys.map fun k => shape k x) vec e x = Hierarchical.value G.toGridView lay keys (fun x => keys.map fun k => shape k x) vec' e x := by
  have hd : 1 ≤ n := by rcases hs.cases with rfl | rfl | rfl <;> omega
  have hF := (keyVerts_table hs.elem (k := ⟨i, 1, 0⟩) hd (by rw [facets hs]; exact hi)).2.2.2.2
  rw [Hierarchical.value_sum, Hierarchical.value_sum]
  refine Finset.sum_congr rfl fun l _ => ?_
  have hmem : keys[l] ∈ keys := List.getElem_mem l.2
  obtain ⟨t1, t2⟩ := tr _ hmem 1 i _ le_rfl hd hF x hin hx
  by_cases hc : ∀ v ∈ keyVerts (simplex n) keys[l], v ∈ keyVerts (simplex n) ⟨i, 1, 0⟩
  · have hcod : 1 ≤ keys[l].codim := by
      by_contra hlt
      have h1 := subKey_table hs (hkeys _ hmem)
      have h2 := subKey_table hs (k := ⟨i, 1, 0⟩) ⟨hd, by rw [facets hs]; exact hi⟩
      have hle := (h1.1.subperm fun v hv => hc v hv).length_le
      rw [h1.2.2, h2.2.2] at hle
      simp only at hle
      omega
    exact congrArg (· * shape keys[l] x) (hag l _ (List.getElem?_eq_getElem l.2) ((inc_iff hs (hkeys _ hmem)).2 ⟨hcod, hc⟩))
  · push Not at hc
    rw [t2 hc, mul_zero, mul_zero]

/-- The barycentre of an entity in a facet lies on the facet. -/
theorem center_facet [CharZero K] (hs : Simplex n) {i : Nat} {k : Key} (hk : SubKey n k) (hc : ∀ v ∈ keyVerts (simplex n) k, v ∈ keyVerts (simplex n) ⟨i, 1, 0⟩) :
    OnFacet n i (center K n (simplex n) k) := fun v hv hvF => by
  rw [bary_center hs hk hv, if_neg fun hv' => hvF (hc v hv')]

/-! ## Theorems -/

omit [LinearOrder α] in
/-- **C98, hierarchical Lagrange bases, with and without element bubbles.** Two coefficient vectors agree in the degrees of freedom visited by `forEachBoundaryDOF` if and only if the discrete
functions agree on all boundary facets. -/
theorem C98_hierarchical [CharZero K] {G : LGrid E S α} (h : G.OK) (hn : G.dim = n) (helem : ∀ e, G.elemGeo e = simplex G.dim) {bubble : Bool} {k : Nat} (hk : k = 1 ∨ k = 2)
    (hbu : bubble = true → k ≤ n) {keys : List Key} (hm : Matches G.dim (Hierarchical.layout bubble k G.dim) keys) {hasBoundary : E → Bool} {isects : E → List BIsect}
    (hB : BoundaryOK (n + 1) hasBoundary isects) (els : List E) :
    ∃ calls, leafCalls G.toGridView (Hierarchical.layout bubble k G.dim) keys hasBoundary isects els = some calls ∧ ∀ vec vec' : Nat → K, Agree calls vec vec' ↔
      ∀ e ∈ els, ∀ is ∈ isects e, is.boundary = true → ∀ x : Vec K n, OnFacet n is.indexInInside x →
        Hierarchical.hierValue G.toGridView bubble k keys vec e x = Hierarchical.hierValue G.toGridView bubble k keys vec' e x := by
  obtain ⟨calls, h1, h2⟩ := leafCalls_spec h.base (Hierarchical.keysOK h helem hm) hasBoundary isects hB.reported els
  have hm' : Matches n (Hierarchical.layout bubble k n) keys := by rw [← hn]; exact hm
  refine ⟨calls, h1, fun vec vec' => (h2 K vec vec').trans ⟨?_, ?_⟩⟩
  · intro hag e he is his hb x hx
    have hs := Hierarchical.simplex_of h hn helem e
    have hkeys := fun key hkey => (Hierarchical.keys_sub hs hk hm' key hkey).1
    have hg : G.elemGeo e = simplex n := by rw [helem, hn]
    have := facet_values (G := G) (vec := vec) (vec' := vec') (e := e) (lay := Hierarchical.layout bubble k G.dim) hn hs hkeys
      (Hierarchical.shape_traces (K := K) (n := n) (simplex n) keys fun key hkey => (subKey_table hs (hkeys key hkey)).2.1) (hB.facet e is his)
      (by rw [← hg]; exact hag e he is his hb) trivial hx
    rw [Hierarchical.hierValue, Hierarchical.hierValue, hn]
    rw [hn] at this
    exact this
  · intro hval e he is his hb l key hl hinc
    have hs := Hierarchical.simplex_of h hn helem e
    have hmem := List.mem_of_getElem? hl
    obtain ⟨s1, s2, s3⟩ := (Hierarchical.mem_keys hs hk hm' key).1 hmem
    rw [helem, hn, inc_iff hs s1] at hinc
    have hlen : (keyVerts (simplex n) key).length ≤ k := s3.resolve_right fun hh => by omega
    have d1 := Hierarchical.dual hs hk hbu hm' (fun key => vec (mapperIndex G.toGridView (Hierarchical.layout bubble k G.dim) (G.sub e key.codim key.sub) + key.index)) hmem
    have d2 := Hierarchical.dual hs hk hbu hm' (fun key => vec' (mapperIndex G.toGridView (Hierarchical.layout bubble k G.dim) (G.sub e key.codim key.sub) + key.index)) hmem
    rw [Hierarchical.functional, if_pos hlen] at d1 d2
    have same : ∀ x, OnFacet n is.indexInInside x →
        Hierarchical.combination (simplex n) keys (fun key => vec (mapperIndex G.toGridView (Hierarchical.layout bubble k G.dim) (G.sub e key.codim key.sub) + key.index)) x =
        Hierarchical.combination (simplex n) keys (fun key => vec' (mapperIndex G.toGridView (Hierarchical.layout bubble k G.dim) (G.sub e key.codim key.sub) + key.index)) x := by
      intro x hx
      have := hval e he is his hb x hx
      rwa [Hierarchical.hierValue_combination, Hierarchical.hierValue_combination, show simplex G.dim = simplex n by rw [hn]] at this
    rw [← d1, ← d2, Hierarchical.lowFunctional, Hierarchical.lowFunctional, same _ (center_facet hs s1 hinc.2)]
    congr 1
    refine if_congr Iff.rfl ?_ rfl
    congr 2
    refine List.map_congr_left fun v hv => same _ ?_
    obtain ⟨v1, v2⟩ := vertexKey_sub hs ((subKey_table hs s1).2.1 v hv)
    refine center_facet hs v1 ?_
    rw [v2]
    intro w hw
    rw [List.mem_singleton.1 hw]
    exact hinc.2 v hv

omit [LinearOrder α] in
/-- **C98, refined Lagrange bases.** Two coefficient vectors agree in the degrees of freedom visited by `forEachBoundaryDOF` if and only if the discrete functions agree on all boundary
facets. -/
theorem C98_refined [LinearOrder K] [IsStrictOrderedRing K] {G : LGrid E S α} (h : G.OK) (hn : G.dim = n) (helem : ∀ e, G.elemGeo e = simplex G.dim) {keys : List Key}
    (hm : Matches G.dim (refinedLayout 1 G.dim) keys) {hasBoundary : E → Bool} {isects : E → List BIsect} (hB : BoundaryOK (n + 1) hasBoundary isects) (els : List E) :
    ∃ calls, leafCalls G.toGridView (refinedLayout 1 G.dim) keys hasBoundary isects els = some calls ∧ ∀ vec vec' : Nat → K, Agree calls vec vec' ↔
      ∀ e ∈ els, ∀ is ∈ isects e, is.boundary = true → ∀ x : Vec K n, Refined.Inside x → OnFacet n is.indexInInside x →
        Refined.refinedValue G.toGridView keys vec e x = Refined.refinedValue G.toGridView keys vec' e x := by
  obtain ⟨calls, h1, h2⟩ := leafCalls_spec h.base (Hierarchical.keysOK h helem hm) hasBoundary isects hB.reported els
  have hm' : Matches n (refinedLayout 1 n) keys := by rw [← hn]; exact hm
  refine ⟨calls, h1, fun vec vec' => (h2 K vec vec').trans ⟨?_, ?_⟩⟩
  · intro hag e he is his hb x hin hx
    have hs := Hierarchical.simplex_of h hn helem e
    have hkeys := fun key hkey => (Refined.keys_node hs hm' (key := key) hkey).2.1
    have hg : G.elemGeo e = simplex n := by rw [helem, hn]
    exact facet_values (G := G) (vec := vec) (vec' := vec') (e := e) (lay := refinedLayout 1 G.dim) hn hs hkeys (Refined.traces hs hm') (hB.facet e is his)
      (by rw [← hg]; exact hag e he is his hb) hin hx
  · intro hval e he is his hb l key hl hinc
    have hs := Hierarchical.simplex_of h hn helem e
    have hmem := List.mem_of_getElem? hl
    obtain ⟨-, s1, s2⟩ := Refined.keys_node hs hm' hmem
    rw [helem, hn, inc_iff hs s1] at hinc
    have d1 := Refined.dual hs hm' (fun key => vec (mapperIndex G.toGridView (refinedLayout 1 G.dim) (G.sub e key.codim key.sub) + key.index)) hmem
    have d2 := Refined.dual hs hm' (fun key => vec' (mapperIndex G.toGridView (refinedLayout 1 G.dim) (G.sub e key.codim key.sub) + key.index)) hmem
    have := hval e he is his hb _ (Refined.center_inside hs s1) (center_facet hs s1 hinc.2)
    rw [Refined.refinedValue_combination, Refined.refinedValue_combination, d1, d2] at this
    exact this

/-- Local keys of the finite elements, as read by rannacherturekbasis.hh:117-129 and subentitydofs.hh: function `i` belongs to facet `i`. -/
def facetKeys (t : Geo) : List Key := (Nonconforming.facetsOf t).map fun i => ⟨i, 1, 0⟩

/-- **C98, Rannacher–Turek and Crouzeix–Raviart bases.** Two coefficient vectors agree in the degrees of freedom visited by `forEachBoundaryDOF` if and only if
the discrete functions agree in the centers of all boundary facets. -/
theorem C98_nonconforming [CharZero K] {G : GridView E S} (h : StdGrid G) (ha : rtAccept G = true) (hn : G.dim = n) (hd : 2 ≤ n) {hasBoundary : E → Bool}
    {isects : E → List BIsect} (hB : ∀ e, ∀ is ∈ isects e, is.boundary = true → hasBoundary e = true) (hF : ∀ e, ∀ is ∈ isects e, is.indexInInside < (stdSubs (G.elemGeo e) 1).length)
    (els : List E) :
    ∃ calls, forEachBoundaryDOF (IndexTree.PB.leaf (rtLeaf G fun e => Nonconforming.facetsOf (G.elemGeo e))).model (fun _ e => facetKeys (G.elemGeo e))
        (fun e i c k => stdInc (G.elemGeo e) i c k.codim k.sub) hasBoundary isects els = some calls ∧ ∀ vec vec' : Nat → K, Agree calls vec vec' ↔
      ∀ e ∈ els, ∀ is ∈ isects e, is.boundary = true → Nonconforming.value (n := n) G vec e (Nonconforming.facetCenter K n (G.elemGeo e) is.indexInInside) =
        Nonconforming.value G vec' e (Nonconforming.facetCenter K n (G.elemGeo e) is.indexInInside) := by
  have acc := Nonconforming.accepted h ha hn hd
  have hWF : (IndexTree.PB.leaf (rtLeaf G fun e => Nonconforming.facetsOf (G.elemGeo e))).WF := by
    rw [IndexTree.PB.WF]
    constructor
    · intro e j hj
      simp only [rtLeaf, List.mem_map, Nonconforming.facetsOf, List.mem_range] at hj ⊢
      obtain ⟨i, hi, rfl⟩ := hj
      have hg := Nonconforming.facet_geo h hi
      refine lt_of_lt_of_le (h.base.idxLt _) (List.single_le_sum (by simp) _ (List.mem_map.2 ⟨_, List.mem_filter.2 ⟨h.base.geoMem _, ?_⟩, rfl⟩))
      rw [hg]
      simp only [decide_eq_true_eq]
      omega
    · intro e
      simp only [rtLeaf, List.length_map, Nonconforming.facetsOf, List.length_range, hn]
      rcases (acc e).cases with ⟨rfl, ht⟩ | ⟨rfl, ht⟩ | ⟨rfl, ht⟩ | ⟨rfl, ht⟩ <;> rw [ht] <;> decide
  have hinc : ∀ e, ∀ i < (stdSubs (G.elemGeo e) 1).length, ∀ j < (stdSubs (G.elemGeo e) 1).length, stdInc (G.elemGeo e) i 1 1 j = true ↔ i = j := by
    intro e
    have t : ∀ t ∈ ([⟨2, 3⟩, ⟨3, 4⟩, ⟨2, 4⟩, ⟨3, 8⟩] : List Geo), ∀ i < (stdSubs t 1).length, ∀ j < (stdSubs t 1).length, stdInc t i 1 1 j = true ↔ i = j := by decide +kernel
    exact t _ (acc e).1
  obtain ⟨calls, h1, h2⟩ := leaf_spec hWF (fun e => facetKeys (G.elemGeo e)) (fun e => by simp [rtLeaf, facetKeys]) (fun e i c k => stdInc (G.elemGeo e) i c k.codim k.sub) hasBoundary isects hB els
  refine ⟨calls, h1, fun vec vec' => (h2 K vec vec').trans ?_⟩
  refine forall_congr' fun e => forall_congr' fun he => forall_congr' fun is => forall_congr' fun his => forall_congr' fun hb => ?_
  have hi := hF e is his
  rw [Nonconforming.C94_center h ha hn hd vec hi, Nonconforming.C94_center h ha hn hd vec' hi]
  constructor
  · intro hag
    refine hag is.indexInInside ⟨is.indexInInside, 1, 0⟩ _ ?_ ((hinc e _ hi _ hi).2 rfl) ?_
    · simp [facetKeys, Nonconforming.facetsOf, hi]
    · simp [rtLeaf, Nonconforming.facetsOf, hi]
  · intro hag l k j hl hk hj
    simp only [facetKeys, Nonconforming.facetsOf, List.getElem?_map, Option.map_eq_some_iff, List.getElem?_eq_some_iff, List.getElem_range, List.length_range] at hl
    obtain ⟨i, ⟨hl, rfl⟩, rfl⟩ := hl
    obtain rfl := (hinc e _ hi _ hl).1 hk
    simp only [rtLeaf, Nonconforming.facetsOf, List.getElem?_map, List.getElem?_range hl, Option.map_some, Option.some.injEq] at hj
    rw [← hj]
    exact hag

/-! ## Examples: two triangles with the interior edge 2 -/

def demoBoundary : Fin 2 → List BIsect := fun _ => [⟨true, 0⟩, ⟨true, 1⟩, ⟨false, 2⟩]

theorem demo_boundary : BoundaryOK 3 (fun _ => true) demoBoundary where
  reported _ _ _ _ := rfl
  facet := by decide

/-- The visited indices: those of the vertices 0 to 3 and of the outer edges 4, 5, 7, 8, but not those of the common edge 6 and of the bubbles. A refined basis of order 0 has none. -/
example : (leafCalls demoGrid.toGridView (Hierarchical.layout true 2 2) Hierarchical.p2BubbleKeys (fun _ => true) demoBoundary [0, 1]).map (·.map (·.index)) =
      some [[0], [4], [1], [0], [5], [3], [2], [7], [3], [2], [8], [1]] ∧
    (leafCalls demoGrid.toGridView (refinedLayout 1 2) Refined.triangleKeys (fun _ => true) demoBoundary [0, 1]).map (·.map (·.index)) =
      some [[0], [4], [1], [0], [5], [3], [2], [7], [3], [2], [8], [1]] ∧
    (leafCalls demoGrid.toGridView (refinedLayout 0 2) (Refined.constantKeys 2) (fun _ => true) demoBoundary [0, 1]).map (·.length) = some 0 := by decide +kernel

/-- Functions with the coefficient 1 for the common edge only, with zero boundary values. -/
example (y : ℚ) : Hierarchical.hierValue demoGrid.toGridView true 2 Hierarchical.p2BubbleKeys (fun i => if i = 6 then (1 : ℚ) else 0) 0 (![y, 0] : Vec ℚ 2) = 0 := by
  obtain ⟨calls, h1, h2⟩ := C98_hierarchical (K := ℚ) (n := 2) demoGrid_OK rfl (fun _ => rfl) (Or.inr rfl) (fun _ => le_rfl) Hierarchical.p2BubbleKeys_matches demo_boundary [0, 1]
  have hv : calls.map (·.index) = [[0], [4], [1], [0], [5], [3], [2], [7], [3], [2], [8], [1]] := by
    have : (leafCalls demoGrid.toGridView (Hierarchical.layout true 2 2) Hierarchical.p2BubbleKeys (fun _ => true) demoBoundary [0, 1]).map (·.map (·.index)) =
      some [[0], [4], [1], [0], [5], [3], [2], [7], [3], [2], [8], [1]] := by decide +kernel
    rw [show leafCalls demoGrid.toGridView (Hierarchical.layout true 2 2) Hierarchical.p2BubbleKeys (fun _ => true) demoBoundary [0, 1] = some calls from h1] at this
    simpa using this
  have hag : Agree calls (fun i => if i = 6 then (1 : ℚ) else 0) fun _ => 0 := by
    intro v hv' i hi
    have hm : [i] ∈ calls.map (·.index) := List.mem_map.2 ⟨v, hv', hi⟩
    rw [hv] at hm
    simp only [List.mem_cons, List.cons.injEq, and_true, List.not_mem_nil, or_false] at hm
    exact if_neg (by omega)
  have := (h2 _ _).1 hag 0 (by simp) ⟨true, 0⟩ (by simp [demoBoundary]) rfl ![y, 0] (by
    have : ∀ v < 3, v ∉ keyVerts ⟨2, 3⟩ ⟨0, 1, 0⟩ → v = 2 := by decide
    intro v hv hvF
    obtain rfl := this v hv hvF
    simp [bary])
  rw [this]
  simp [Hierarchical.hierValue, Hierarchical.value_sum]

/-- The coefficients of a Crouzeix–Raviart basis visited by `forEachBoundaryDOF` do not determine the values on the boundary: the function of the interior edge has the value 1 in
the end points of the edge, which are vertices of the boundary. -/
theorem C98_nonconforming_ends : ∃ calls, forEachBoundaryDOF (IndexTree.PB.leaf (rtLeaf demoGrid.toGridView fun e => Nonconforming.facetsOf (demoGrid.elemGeo e))).model
      (fun _ e => facetKeys (demoGrid.elemGeo e)) (fun e i c k => stdInc (demoGrid.elemGeo e) i c k.codim k.sub) (fun _ => true) demoBoundary [0, 1] = some calls ∧
    ∃ vec vec' : Nat → ℚ, Agree calls vec vec' ∧ ∃ x : Vec ℚ 2, OnFacet 2 0 x ∧ Nonconforming.value demoGrid.toGridView vec 0 x ≠ Nonconforming.value demoGrid.toGridView vec' 0 x := by
  have hstd : StdGrid demoGrid.toGridView := ⟨demoGrid_OK.base, demoGrid_OK.std, demoGrid_OK.type, demoGrid_OK.elemInj⟩
  obtain ⟨calls, h1, h2⟩ := C98_nonconforming (K := ℚ) (n := 2) hstd (by decide) rfl le_rfl (hasBoundary := fun _ => true) (isects := demoBoundary) (fun _ _ _ _ => rfl) (by decide) [0, 1]
  refine ⟨calls, h1, fun j => if j = 2 then 1 else 0, fun _ => 0, (h2 _ _).2 (by decide +kernel), ![1, 0], ?_, by decide +kernel⟩
  have : ∀ v < 3, v ∉ keyVerts ⟨2, 3⟩ ⟨0, 1, 0⟩ → v = 2 := by decide
  intro v hv hvF
  obtain rfl := this v hv hvF
  simp [bary]

end Verif.Lagrange.BoundaryValues

namespace Verif.HDiv.BDM

open Matrix Verif.Mapper Verif.Lagrange Verif.Piola Verif.HDiv.Trace
open Verif.Dofs (BIsect stdInc leafCalls leafCalls_spec BoundaryOK Agree)

variable {E S K : Type} [Field K] [LinearOrder K] [IsStrictOrderedRing K]
variable {G : LGrid E S Nat} {pos : Nat → Vec K 2} {jac : E → Mat K 2} {idx : E → Nat} {isects : E → List (Isect E)} {geo : E → Geometry K 2}

/-- **C98, Brezzi–Douglas–Marini bases of order 1 on triangles.** Two coefficient vectors agree in the degrees of freedom visited by `forEachBoundaryDOF` if and only if the normal components of
the discrete functions agree on all boundary edges. -/
theorem C98_bdm (h : Setting G pos jac idx isects geo) {hasBoundary : E → Bool} {bisects : E → List BIsect} (hB : BoundaryOK 3 hasBoundary bisects) (els : List E) :
    ∃ calls, leafCalls G.toGridView (bdmLayout 1 G.dim) (bdmKeys ⟨2, 3⟩) hasBoundary bisects els = some calls ∧ ∀ vec vec' : Nat → K, Agree calls vec vec' ↔
      ∀ e ∈ els, ∀ is ∈ bisects e, is.boundary = true → ∀ x, (simplexFacet K 1 is.indexInInside).On x → ∀ v v', bdmValue G idx isects geo vec e x = some v →
        bdmValue G idx isects geo vec' e x = some v' →
          ∀ N : Vec K 2, (∀ k < 2, N ⬝ᵥ pos (G.ids e (facetVertex 1 is.indexInInside k)) = N ⬝ᵥ pos (G.ids e (facetVertex 1 is.indexInInside 0))) → N ⬝ᵥ v = N ⬝ᵥ v' := by
  have hG := h.grid
  have ht : ∀ e, G.elemGeo e = ⟨2, 3⟩ := fun e => hG.simplices e
  have hk : KeysOK G.toGridView (bdmLayout 1 G.dim) fun _ => bdmKeys ⟨2, 3⟩ := by
    have t : (bdmKeys ⟨2, 3⟩).Nodup ∧ ∀ k ∈ bdmKeys ⟨2, 3⟩, k.codim ≤ 2 ∧ ∃ t ∈ (stdSubs ⟨2, 3⟩ k.codim)[k.sub]?, k.index < bdmLayout 1 2 t := by decide +kernel
    refine ⟨fun _ => t.1, fun e k hk => ?_⟩
    obtain ⟨h1, t, h2, h3⟩ := t.2 k hk
    rw [hG.ok.std, ht, hG.dim]
    exact ⟨h1, t, h2, h3⟩
  obtain ⟨calls, h1, h2⟩ := leafCalls_spec hG.ok.base hk hasBoundary bisects hB.reported els
  refine ⟨calls, h1, fun vec vec' => (h2 K vec vec').trans ?_⟩
  refine forall_congr' fun e => forall_congr' fun he => forall_congr' fun is => forall_congr' fun his => forall_congr' fun hb => ?_
  have hi := hB.facet e is his
  rw [← C97_edge h vec vec' e hi, ht]
  have tab : ∀ i < 3, (∀ k ∈ bdmKeys ⟨2, 3⟩, stdInc ⟨2, 3⟩ i 1 k.codim k.sub = true → k.codim = 1 ∧ k.sub = i ∧ k.index < 2) ∧
      ∀ m < 2, (⟨i, 1, m⟩ : Key) ∈ bdmKeys ⟨2, 3⟩ ∧ stdInc ⟨2, 3⟩ i 1 1 i = true := by decide +kernel
  obtain ⟨t1, t2⟩ := tab _ hi
  constructor
  · intro hag m hm
    obtain ⟨h3, h4⟩ := t2 m hm
    obtain ⟨l, hl⟩ := List.getElem?_of_mem h3
    exact hag l _ hl h4
  · intro hag l k hl hk
    obtain ⟨c1, c2, c3⟩ := t1 k (List.mem_of_getElem? hl) hk
    rw [c1, c2]
    exact hag _ c3

/-- Two triangles: the visited indices are the two of each of the four outer edges. -/
example : (leafCalls demoGrid.toGridView (bdmLayout 1 2) (bdmKeys ⟨2, 3⟩) (fun _ => true) BoundaryValues.demoBoundary [0, 1]).map (·.map (·.index)) =
      some [[0], [1], [2], [3], [6], [7], [8], [9]] ∧
    ∃ calls, leafCalls demoGrid.toGridView (bdmLayout 1 demoGrid.dim) (bdmKeys ⟨2, 3⟩) (fun _ => true) BoundaryValues.demoBoundary [0, 1] = some calls :=
  ⟨by decide +kernel, (C98_bdm demo_setting BoundaryValues.demo_boundary [0, 1]).imp fun _ h => h.1⟩

end Verif.HDiv.BDM

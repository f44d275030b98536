import Verif.HDiv.NormalTrace

/-!
# Tangential components of Nédélec functions

A coefficient vector of the Nédélec basis (first kind, order 1) defines a vector field on each element. The component along an edge is the coefficient of the edge, and
the tangential components of two elements agree on their common faces.
-/

namespace Verif.HDiv.Tangential

open Matrix Verif.Mapper Verif.Lagrange Verif.Piola
open Verif.HDiv.Trace (axpyAll foldl_axpy sum_single corner)

variable {E S K : Type} [Field K] [LinearOrder K] [IsStrictOrderedRing K] {n : Nat}

/-! ## Model -/

/-- `indexSet.subIndex(element, v, dim)`, nedelecbasis.hh:104-105. -/
def vertexIndex (G : GridView E S) (e : E) (v : Nat) : Nat := G.idx (G.sub e G.dim v)

/-- The value at the local point `x` of the element `e` of the discrete function with coefficients `vec`. `table` are the local finite elements (of
dune-localfunctions) by kind and number of the variant, `keys` their local keys. The node selects the variant (nedelecbasis.hh:118-121, 246-251), the finite
element applies the covariant transform (globalvaluedlocalfiniteelement.hh:274-280). `none` if the access to the table is out of range. -/
def value (G : GridView E S) (fixed : Option Geo) (table : HDiv.Kind → Nat → LFE K n)
    (keys : Geo → List Key) (geo : E → Geometry K n) (vec : Nat → K) (e : E) (x : Vec K n) : Option (Vec K n) :=
  (nedelecFind G.dim fixed (vertexIndex G e) (G.elemGeo e)).map fun v =>
    axpyAll (((mapperLeaf G nedelecLayout fun e => keys (G.elemGeo e)).loc e).map vec) ((globalValued .co (geo e) (table v.1 v.2)).eval x)

/-! ## Specification -/

/-- An edge of a reference element: the points on it and the vector from the vertex with smaller to the vertex with larger local number. -/
structure RefEdge (K : Type) (n : Nat) where
  On : Vec K n → Prop
  dir : Vec K n

/-- Contract of the local finite elements for the element type `t`: along edge `i`, the shape function of the edge has the component 1, reversed if the bit of the
edge is set in the number of the variant, and all others have none. -/
structure Tangents (table : HDiv.Kind → Nat → LFE K n) (keys : Geo → List Key) (edge : Geo → Nat → RefEdge K n) (t : Geo) : Prop where
  size : ∀ bits x, ((table (kindOf t) bits).eval x).length = (keys t).length
  nodup : (keys t).Nodup
  full : ∀ i < (refOf t).edges.length, (⟨i, t.dim - 1, 0⟩ : Key) ∈ keys t
  tangent : ∀ bits < numEdgeVariants t, ∀ (l : Nat) (k : Key), (keys t)[l]? = some k → ∀ i < (refOf t).edges.length,
    ∀ x, (edge t i).On x → (table (kindOf t) bits).shape l x ⬝ᵥ (edge t i).dir =
      if k = ⟨i, t.dim - 1, 0⟩ then (if bits.testBit i then -1 else 1) else 0

/-- The grids the constructor accepts (nedelecbasis.hh:169-185). `fixed` is the type of the elements of a grid with a single element type. -/
structure Accepted (G : GridView E S) (fixed : Option Geo) : Prop where
  std : StdGrid G
  dim : G.dim = 2 ∨ G.dim = 3
  types : ∀ e, G.elemGeo e = simplexOf G.dim ∨ G.elemGeo e = cubeOf G.dim
  fixed : ∀ u, fixed = some u → ∀ e, u = G.elemGeo e

/-- Conforming grid: edges are determined by their vertices. -/
def Conforming (G : GridView E S) : Prop :=
  ∀ e e' i i' a b a' b', (refOf (G.elemGeo e)).edges[i]? = some (a, b) → (refOf (G.elemGeo e')).edges[i']? = some (a', b') →
    (G.sub e (G.dim - 1) i = G.sub e' (G.dim - 1) i' ↔
      (G.sub e G.dim a = G.sub e' G.dim a' ∧ G.sub e G.dim b = G.sub e' G.dim b') ∨ (G.sub e G.dim a = G.sub e' G.dim b' ∧ G.sub e G.dim b = G.sub e' G.dim a'))

/-! ## Orientation -/

theorem vertex_geo {G : GridView E S} {fixed : Option Geo} (h : Accepted G fixed) (e : E) {v : Nat} (hv : v < (G.elemGeo e).nv) :
    G.geo (G.sub e G.dim v) = ⟨0, 1⟩ ∧ v < (G.refSubs (G.elemGeo e) G.dim).length := by
  have key : ∀ t, (t = simplexOf G.dim ∨ t = cubeOf G.dim) → ∀ v < t.nv, (stdSubs t G.dim)[v]? = some ⟨0, 1⟩ := by
    intro t ht
    rcases h.dim with hd | hd <;> rw [hd] at ht ⊢ <;> rcases ht with rfl | rfl <;> decide
  have hs := key _ (h.types e) v hv
  rw [← h.std.std] at hs
  exact ⟨h.std.base.subGeo e _ v _ hs, (List.getElem?_eq_some_iff.1 hs).1⟩

/-- Equal vertex indices belong to equal vertices. -/
theorem vertex_same {G : GridView E S} {fixed : Option Geo} (h : Accepted G fixed) {e e' : E} {v v' : Nat} (hv : v < (G.elemGeo e).nv)
    (hv' : v' < (G.elemGeo e').nv) : vertexIndex G e v = vertexIndex G e' v' ↔ G.sub e G.dim v = G.sub e' G.dim v' := by
  refine ⟨fun hi => h.std.base.idxInj _ _ ?_ hi, fun hs => congrArg G.idx hs⟩
  rw [(vertex_geo h e hv).1, (vertex_geo h e' hv').1]

theorem vertex_inj {G : GridView E S} {fixed : Option Geo} (h : Accepted G fixed) (e : E) :
    ∀ v < (G.elemGeo e).nv, ∀ v' < (G.elemGeo e).nv, vertexIndex G e v = vertexIndex G e v' → v = v' := by
  intro v hv v' hv' hi
  exact (h.std.base.subInj e _ _ _ _ (vertex_geo h e hv).2 (vertex_geo h e hv').2 ((vertex_same h hv hv').1 hi)).2

theorem edge_lt {G : GridView E S} {fixed : Option Geo} (h : Accepted G fixed) (e : E) {i a b : Nat} (he : (refOf (G.elemGeo e)).edges[i]? = some (a, b)) :
    a < (G.elemGeo e).nv ∧ b < (G.elemGeo e).nv ∧ a ≠ b :=
  (refOf_table _ (h.std.type e)).2.2.2.2.2.1 _ (List.mem_of_getElem? he)

/-- The selected variant: a bit is set iff the local and the global numbers of the vertices of the edge have different orders. -/
theorem bits_spec {G : GridView E S} {fixed : Option Geo} (h : Accepted G fixed) (e : E) :
    ∃ bits, nedelecFind G.dim fixed (vertexIndex G e) (G.elemGeo e) = some (kindOf (G.elemGeo e), bits) ∧ bits < numEdgeVariants (G.elemGeo e) ∧
      ∀ i a b, (refOf (G.elemGeo e)).edges[i]? = some (a, b) → bits.testBit i = decide (vertexIndex G e (max a b) < vertexIndex G e (min a b)) := by
  obtain ⟨bits, h1, h2, h3⟩ := C47_nedelec (V := ℤ) (fun v => (v : ℤ)) G.dim h.dim (G.elemGeo e) (h.types e) fixed (fun u hu => h.fixed u hu e) (vertexIndex G e)
    (vertex_inj h e)
  refine ⟨bits, h1, h2, fun i a b he => ?_⟩
  obtain ⟨ha, hb, hab⟩ := edge_lt h e he
  have hne : vertexIndex G e a ≠ vertexIndex G e b := fun hi => hab (vertex_inj h e a ha b hb hi)
  have := h3 i a b he
  rw [orientedTangent, globalTangent] at this
  rcases Nat.lt_or_gt_of_ne hab with hlt | hlt
  · rw [max_eq_right hlt.le, min_eq_left hlt.le] at this ⊢
    cases hbit : bits.testBit i <;> simp only [hbit, if_true, Bool.false_eq_true, if_false] at this
    · symm
      rw [decide_eq_false_iff_not]
      omega
    · symm
      rw [decide_eq_true_iff]
      omega
  · rw [max_eq_left hlt.le, min_eq_right hlt.le] at this ⊢
    cases hbit : bits.testBit i <;> simp only [hbit, if_true, Bool.false_eq_true, if_false] at this
    · symm
      rw [decide_eq_false_iff_not]
      omega
    · symm
      rw [decide_eq_true_iff]
      omega

/-! ## Evaluation -/

omit [LinearOrder K] [IsStrictOrderedRing K] in
theorem list_dotProduct (L : List (Vec K n)) (t : Vec K n) : L.sum ⬝ᵥ t = (L.map fun u => u ⬝ᵥ t).sum := by
  induction L with
  | nil => simp
  | cons a L ih => rw [List.sum_cons, add_dotProduct, ih, List.map_cons, List.sum_cons]

omit [IsStrictOrderedRing K] in
/-- Components of the values in the directions of the transformed vectors. -/
theorem value_dotProduct (G : GridView E S) (keys : Geo → List Key) (e : E) (F : LFE K n) {g : Geometry K n} {J : Mat K n} {x : Vec K n} (hg : g.OK J x)
    (hlen : (F.eval x).length = (keys (G.elemGeo e)).length) (vec : Nat → K) (t : Vec K n) :
    axpyAll (((mapperLeaf G nedelecLayout fun e => keys (G.elemGeo e)).loc e).map vec) ((globalValued .co g F).eval x) ⬝ᵥ (J *ᵥ t) =
      ((List.finRange (keys (G.elemGeo e)).length).map fun l : Fin (keys (G.elemGeo e)).length =>
        vec (mapperIndex G nedelecLayout (G.sub e (keys (G.elemGeo e))[l].codim (keys (G.elemGeo e))[l].sub) + (keys (G.elemGeo e))[l].index) *
          (F.shape l x ⬝ᵥ t)).sum := by
  set ks := keys (G.elemGeo e) with hks
  have hshape : ∀ v : Vec K n, ((J⁻¹)ᵀ *ᵥ v) ⬝ᵥ (J *ᵥ t) = v ⬝ᵥ t := by
    intro v
    obtain ⟨v', h1, h2⟩ := C52_tangential hg v t
    rw [coApply_eq hg] at h1
    simp only [List.map_cons, List.map_nil, List.cons.injEq, and_true] at h1
    rw [h1, h2]
  have hval : axpyAll (((mapperLeaf G nedelecLayout fun e => keys (G.elemGeo e)).loc e).map vec) ((globalValued .co g F).eval x) =
      ((List.finRange ks.length).map fun l : Fin ks.length =>
        vec (mapperIndex G nedelecLayout (G.sub e ks[l].codim ks[l].sub) + ks[l].index) • ((J⁻¹)ᵀ *ᵥ F.shape l x)).sum := by
    rw [axpyAll, foldl_axpy, zero_add]
    congr 1
    apply List.ext_getElem
    · simp [mapperLeaf, globalValued, apply, coApply, hlen, ← hks]
    · intro l h1 h2
      have hl : l < ks.length := by simpa using h2
      have hl' : l < (F.eval x).length := by omega
      simp only [List.getElem_map, List.getElem_zip, List.getElem_finRange, globalValued, apply, coApply_eq hg, mapperLeaf, LFE.shape]
      simp [hl', ← hks]
  rw [hval, list_dotProduct, List.map_map]
  congr 1
  refine List.map_congr_left fun l _ => ?_
  simp only [Function.comp_apply, smul_dotProduct, hshape, smul_eq_mul]
  rfl

/-! ## Edges -/

/-- **C68 on edges.** For every coefficient vector, the component of a Nédélec function along an edge, directed from the vertex with the smaller index to the vertex with the
larger index, is the coefficient of the edge, seen from any element. The geometry has to map the reference edge to the edge. -/
theorem C68_edge {G : GridView E S} {fixed : Option Geo} (h : Accepted G fixed) {table : HDiv.Kind → Nat → LFE K n} {keys : Geo → List Key}
    {edge : Geo → Nat → RefEdge K n} (hT : ∀ e, Tangents table keys edge (G.elemGeo e)) (geo : E → Geometry K n) (pos : Nat → Vec K n) (vec : Nat → K)
    (e : E) {i a b : Nat} (hi : (refOf (G.elemGeo e)).edges[i]? = some (a, b)) {x : Vec K n} (hx : (edge (G.elemGeo e) i).On x) {J : Mat K n} (hJ : (geo e).OK J x)
    (hd : J *ᵥ (edge (G.elemGeo e) i).dir = pos (vertexIndex G e (max a b)) - pos (vertexIndex G e (min a b))) :
    ∃ v, value G fixed table keys geo vec e x = some v ∧
      v ⬝ᵥ globalTangent pos (vertexIndex G e a) (vertexIndex G e b) = vec (mapperIndex G nedelecLayout (G.sub e (G.dim - 1) i)) := by
  obtain ⟨bits, h1, h2, h3⟩ := bits_spec h e
  have hil : i < (refOf (G.elemGeo e)).edges.length := (List.getElem?_eq_some_iff.1 hi).1
  have hdim : (G.elemGeo e).dim = G.dim := (h.std.base.elemMem e).2
  have hF := hT e
  refine ⟨_, by rw [value, h1]; rfl, ?_⟩
  have hv := value_dotProduct G keys e (table (kindOf (G.elemGeo e)) bits) hJ (hF.size bits x) vec (edge (G.elemGeo e) i).dir
  set v := axpyAll (((mapperLeaf G nedelecLayout fun e => keys (G.elemGeo e)).loc e).map vec)
    ((globalValued .co (geo e) (table (kindOf (G.elemGeo e)) bits)).eval x) with hvdef
  obtain ⟨l0, hl0, hk0⟩ := List.mem_iff_getElem.1 (hF.full i hil)
  rw [sum_single (List.finRange _) (List.nodup_finRange _) ⟨l0, hl0⟩ (List.mem_finRange _)] at hv
  · simp only [Fin.getElem_fin, hk0, Nat.add_zero] at hv
    rw [hF.tangent bits h2 l0 _ (by rw [List.getElem?_eq_getElem hl0, hk0]) i hil x hx, if_pos rfl, hd, hdim, h3 i a b hi] at hv
    obtain ⟨ha, hb, hab⟩ := edge_lt h e hi
    have hne : vertexIndex G e a ≠ vertexIndex G e b := fun hi => hab (vertex_inj h e a ha b hb hi)
    rw [dotProduct_sub] at hv
    rw [globalTangent, dotProduct_sub]
    rcases Nat.lt_or_gt_of_ne hab with hlt | hlt <;> rcases Nat.lt_or_gt_of_ne hne with hg | hg <;>
      simp only [max_eq_right hlt.le, min_eq_left hlt.le, max_eq_left hlt.le, min_eq_right hlt.le, hg, hg.le, max_eq_right, max_eq_left, min_eq_left, min_eq_right,
        not_lt.2 hg.le, decide_true, decide_false, if_true, Bool.false_eq_true, if_false] at hv ⊢ <;>
      first | linear_combination hv | linear_combination -hv
  · intro l _ hne
    have hk : (keys (G.elemGeo e))[l.val] ≠ ⟨i, (G.elemGeo e).dim - 1, 0⟩ := by
      intro hk
      apply hne
      ext
      exact (hF.nodup.getElem_inj_iff).1 (show (keys (G.elemGeo e))[l.val] = (keys (G.elemGeo e))[l0] by rw [hk0]; exact hk)
    rw [hF.tangent bits h2 l _ (by rw [List.getElem?_eq_getElem l.2]) i hil x hx, if_neg hk, mul_zero]

/-- The components along a common edge agree. -/
theorem C68_shared {G : GridView E S} {fixed : Option Geo} (h : Accepted G fixed) (hc : Conforming G) {table : HDiv.Kind → Nat → LFE K n} {keys : Geo → List Key}
    {edge : Geo → Nat → RefEdge K n} (hT : ∀ e, Tangents table keys edge (G.elemGeo e)) (geo : E → Geometry K n) (pos : Nat → Vec K n) (vec : Nat → K)
    {e e' : E} {i i' a b a' b' : Nat} (hi : (refOf (G.elemGeo e)).edges[i]? = some (a, b)) (hi' : (refOf (G.elemGeo e')).edges[i']? = some (a', b'))
    (hs : G.sub e (G.dim - 1) i = G.sub e' (G.dim - 1) i') {x x' : Vec K n} (hx : (edge (G.elemGeo e) i).On x) (hx' : (edge (G.elemGeo e') i').On x')
    {J J' : Mat K n} (hJ : (geo e).OK J x) (hJ' : (geo e').OK J' x')
    (hd : J *ᵥ (edge (G.elemGeo e) i).dir = pos (vertexIndex G e (max a b)) - pos (vertexIndex G e (min a b)))
    (hd' : J' *ᵥ (edge (G.elemGeo e') i').dir = pos (vertexIndex G e' (max a' b')) - pos (vertexIndex G e' (min a' b'))) :
    ∃ v v', value G fixed table keys geo vec e x = some v ∧ value G fixed table keys geo vec e' x' = some v' ∧
      v ⬝ᵥ (pos (vertexIndex G e b) - pos (vertexIndex G e a)) = v' ⬝ᵥ (pos (vertexIndex G e b) - pos (vertexIndex G e a)) := by
  obtain ⟨v, h1, h2⟩ := C68_edge h hT geo pos vec e hi hx hJ hd
  obtain ⟨v', h1', h2'⟩ := C68_edge h hT geo pos vec e' hi' hx' hJ' hd'
  refine ⟨v, v', h1, h1', ?_⟩
  have hg : globalTangent pos (vertexIndex G e' a') (vertexIndex G e' b') = globalTangent pos (vertexIndex G e a) (vertexIndex G e b) := by
    rcases (hc e e' i i' a b a' b' hi hi').1 hs with ⟨p, q⟩ | ⟨p, q⟩
    · rw [globalTangent, globalTangent, vertexIndex, vertexIndex, vertexIndex, vertexIndex, p, q]
    · rw [globalTangent, globalTangent, vertexIndex, vertexIndex, vertexIndex, vertexIndex, p, q, max_comm, min_comm]
  rw [hg, ← hs, ← h2] at h2'
  rw [globalTangent] at h2'
  rcases le_total (vertexIndex G e a) (vertexIndex G e b) with hle | hle
  · rw [max_eq_right hle, min_eq_left hle] at h2'
    exact h2'.symm
  · rw [max_eq_left hle, min_eq_right hle] at h2'
    rw [← neg_sub, dotProduct_neg, dotProduct_neg, h2']

/-! ## Simplices -/

/-- Barycentric coordinate of vertex `v` of the reference simplex. -/
def bary (v : Nat) (x : Vec K n) : K := if v = 0 then 1 - ∑ j, x j else ∑ j : Fin n, if j.val + 1 = v then x j else 0

/-- Its gradient. -/
def gradBary (K : Type) [Field K] (n v : Nat) : Vec K n := fun j => if v = 0 then -1 else if j.val + 1 = v then 1 else 0

/-- Edges of the reference simplex. -/
def simplexEdges (n : Nat) : List (Nat × Nat) := (refOf (simplexOf n)).edges

/-- The finite elements of order 1 of dune-localfunctions for triangles and tetrahedra (`Nedelec1stKindSimplexLocalBasis`): the shape function of the edge from `a` to `b` is
`λ_a ∇λ_b - λ_b ∇λ_a`, with the sign given by the variant. -/
def nedelecSimplex (bits : Nat) : LFE K n where
  size := (simplexEdges n).length
  eval := fun x => (simplexEdges n).mapIdx fun i e =>
    (if bits.testBit i then (-1 : K) else 1) • (bary e.1 x • gradBary K n e.2 - bary e.2 x • gradBary K n e.1)
  jac := fun _ => []
  interp := fun _ => []

/-- Its local keys. -/
def simplexKeys (n : Nat) : List Key := (List.range (simplexEdges n).length).map fun i => ⟨i, n - 1, 0⟩

/-- For instance the shape functions of the triangle. -/
example (x : Vec ℚ 2) : (nedelecSimplex 0).eval x = [![1 - x 1, x 0], ![x 1, 1 - x 0], ![-x 1, x 0]] := by
  simp only [nedelecSimplex, simplexEdges, show refOf (simplexOf 2) = triangle from rfl, triangle, List.mapIdx_cons, List.mapIdx_nil, List.cons.injEq, and_true]
  refine ⟨?_, ?_, ?_⟩ <;> funext j <;> fin_cases j <;> simp [bary, gradBary, Fin.sum_univ_two] <;> ring

omit [LinearOrder K] [IsStrictOrderedRing K] in
/-- The barycentric coordinates of a combination of vertices are the weights. -/
theorem bary_combination (w : Nat → K) (hw : ∑ v ∈ Finset.range (n + 2), w v = 1) {v : Nat} (hv : v < n + 2) :
    bary v (∑ k ∈ Finset.range (n + 2), w k • corner K n k) = w v := by
  have hj : ∀ j : Fin (n + 1), (∑ k ∈ Finset.range (n + 2), w k • corner K n k) j = w (j + 1) := by
    intro j
    rw [Finset.sum_apply, Finset.sum_eq_single (j.val + 1)]
    · simp [corner]
    · intro k _ hk
      simp [corner, hk]
    · intro h
      exact absurd (Finset.mem_range.2 (by omega)) h
  cases v with
  | zero =>
    rw [bary, if_pos rfl, ← hw, Finset.sum_range_succ', Finset.sum_range (n := n + 1)]
    simp only [hj]
    ring
  | succ v =>
    rw [bary, if_neg (by omega), Finset.sum_eq_single ⟨v, by omega⟩]
    · rw [if_pos rfl, hj]
    · intro j _ hne
      rw [if_neg]
      intro h
      apply hne
      ext
      simpa using h
    · simp

omit [LinearOrder K] [IsStrictOrderedRing K] in
/-- The derivatives of the barycentric coordinates in the direction of a combination of vertices are the weights. -/
theorem gradBary_combination (w : Nat → K) (hw : ∑ v ∈ Finset.range (n + 2), w v = 0) {v : Nat} (hv : v < n + 2) :
    gradBary K (n + 1) v ⬝ᵥ (∑ k ∈ Finset.range (n + 2), w k • corner K n k) = w v := by
  have hj : ∀ j : Fin (n + 1), (∑ k ∈ Finset.range (n + 2), w k • corner K n k) j = w (j + 1) := by
    intro j
    rw [Finset.sum_apply, Finset.sum_eq_single (j.val + 1)]
    · simp [corner]
    · intro k _ hk
      simp [corner, hk]
    · intro h
      exact absurd (Finset.mem_range.2 (by omega)) h
  rw [dotProduct]
  simp only [hj]
  cases v with
  | zero =>
    rw [Finset.sum_range_succ', Finset.sum_range (n := n + 1)] at hw
    simp only [gradBary, if_true, neg_one_mul, Finset.sum_neg_distrib]
    linear_combination -hw
  | succ v =>
    rw [Finset.sum_eq_single ⟨v, by omega⟩]
    · simp [gradBary]
    · intro j _ hne
      have : j.val ≠ v := fun h => hne (Fin.ext h)
      simp [gradBary, this]
    · simp

omit [LinearOrder K] [IsStrictOrderedRing K] in
/-- A sum over two families of objects, in which common objects have the same terms and others have no term. -/
theorem sum_match {ι ι' : Type} [Fintype ι] [Fintype ι'] (s : ι → S) (s' : ι' → S) (hs : Function.Injective s) (hs' : Function.Injective s') (T : ι → K) (T' : ι' → K)
    (h : ∀ i j, s i = s' j → T i = T' j) (h0 : ∀ i, (∀ j, s i ≠ s' j) → T i = 0) (h0' : ∀ j, (∀ i, s i ≠ s' j) → T' j = 0) : ∑ i, T i = ∑ j, T' j := by
  classical
  have h1 : ∀ i, T i = ∑ j, if s i = s' j then T i else 0 := by
    intro i
    by_cases he : ∃ j, s i = s' j
    · obtain ⟨j, hj⟩ := he
      rw [Finset.sum_eq_single j]
      · rw [if_pos hj]
      · intro k _ hk
        rw [if_neg]
        intro h
        exact hk (hs' (h.symm.trans hj))
      · simp
    · have : ∀ j, s i ≠ s' j := fun j hj => he ⟨j, hj⟩
      simp [this, h0 i this]
  have h2 : ∀ j, T' j = ∑ i, if s i = s' j then T' j else 0 := by
    intro j
    by_cases he : ∃ i, s i = s' j
    · obtain ⟨i, hi⟩ := he
      rw [Finset.sum_eq_single i]
      · rw [if_pos hi]
      · intro k _ hk
        rw [if_neg]
        intro h
        exact hk (hs (h.trans hi.symm))
      · simp
    · have : ∀ i, s i ≠ s' j := fun i hi => he ⟨i, hi⟩
      simp [this, h0' j this]
  rw [Finset.sum_congr rfl fun i _ => h1 i, Finset.sum_comm, Finset.sum_congr rfl fun j _ => h2 j]
  refine Finset.sum_congr rfl fun j _ => Finset.sum_congr rfl fun i _ => ?_
  split
  · next he => exact h i j he
  · rfl

/-- The point or vector of the element `e` with the weights `w` at the vertices, in local coordinates. -/
def localOf (G : GridView E S) (n : Nat) (w : Nat → K) (e : E) : Vec K (n + 1) := ∑ v ∈ Finset.range (n + 2), w (vertexIndex G e v) • corner K n v

/-- The weights vanish at the vertices of `e` that are not vertices of `e'`. -/
def Supported (G : GridView E S) (n : Nat) (e e' : E) (w : Nat → K) : Prop :=
  ∀ v < n + 2, (∀ v' < n + 2, G.sub e G.dim v ≠ G.sub e' G.dim v') → w (vertexIndex G e v) = 0

/-- Term of the edge `i` with vertices `a`, `b`. -/
def edgeTerm (G : GridView E S) (vec w τ : Nat → K) (e : E) (i a b : Nat) : K :=
  vec (mapperIndex G nedelecLayout (G.sub e (G.dim - 1) i)) *
    (w (min (vertexIndex G e a) (vertexIndex G e b)) * τ (max (vertexIndex G e a) (vertexIndex G e b)) -
      w (max (vertexIndex G e a) (vertexIndex G e b)) * τ (min (vertexIndex G e a) (vertexIndex G e b)))

/-- A grid of triangles or tetrahedra. -/
structure Simplices (G : GridView E S) (fixed : Option Geo) (n : Nat) : Prop where
  accepted : Accepted G fixed
  dim : G.dim = n + 1
  simplices : ∀ e, G.elemGeo e = simplexOf (n + 1)

omit [IsStrictOrderedRing K] in
/-- The tangential component of the value as a sum over edges. -/
theorem simplex_value {G : GridView E S} {fixed : Option Geo} (h : Simplices G fixed n) {geo : E → Geometry K (n + 1)} {jac : E → Mat K (n + 1)}
    (e : E) (w τ vec : Nat → K) (hg : (geo e).OK (jac e) (localOf G n w e)) (hw : ∑ v ∈ Finset.range (n + 2), w (vertexIndex G e v) = 1)
    (hτ : ∑ v ∈ Finset.range (n + 2), τ (vertexIndex G e v) = 0) :
    ∃ v, value G fixed (fun _ bits => nedelecSimplex bits) (fun _ => simplexKeys (n + 1)) geo vec e (localOf G n w e) = some v ∧
      v ⬝ᵥ (jac e *ᵥ localOf G n τ e) =
        ∑ i : Fin (simplexEdges (n + 1)).length, edgeTerm G vec w τ e i (simplexEdges (n + 1))[i].1 (simplexEdges (n + 1))[i].2 := by
  obtain ⟨bits, h1, h2, h3⟩ := bits_spec h.accepted e
  refine ⟨_, by rw [value, h1]; rfl, ?_⟩
  have hlen : ((nedelecSimplex (K := K) (n := n + 1) bits).eval (localOf G n w e)).length = (simplexKeys (n + 1)).length := by
    simp [nedelecSimplex, simplexKeys]
  have hv := value_dotProduct G (fun _ => simplexKeys (n + 1)) e (nedelecSimplex (K := K) bits) hg hlen vec (localOf G n τ e)
  rw [hv]
  have hlen2 : (simplexKeys (n + 1)).length = (simplexEdges (n + 1)).length := by simp [simplexKeys]
  rw [show ((List.finRange (simplexKeys (n + 1)).length).map fun l : Fin (simplexKeys (n + 1)).length =>
      vec (mapperIndex G nedelecLayout (G.sub e (simplexKeys (n + 1))[l].codim (simplexKeys (n + 1))[l].sub) + (simplexKeys (n + 1))[l].index) *
        ((nedelecSimplex (K := K) bits).shape l (localOf G n w e) ⬝ᵥ localOf G n τ e)).sum =
      ∑ l : Fin (simplexKeys (n + 1)).length,
        vec (mapperIndex G nedelecLayout (G.sub e (simplexKeys (n + 1))[l].codim (simplexKeys (n + 1))[l].sub) + (simplexKeys (n + 1))[l].index) *
        ((nedelecSimplex (K := K) bits).shape l (localOf G n w e) ⬝ᵥ localOf G n τ e) from (Fin.sum_univ_def _).symm]
  refine Fintype.sum_equiv (finCongr hlen2) _ _ fun l => ?_
  have hl : l.val < (simplexEdges (n + 1)).length := by omega
  obtain ⟨a, b, hab⟩ : ∃ a b, (simplexEdges (n + 1))[l.val] = (a, b) := ⟨_, _, rfl⟩
  have he : (refOf (G.elemGeo e)).edges[l.val]? = some (a, b) := by
    rw [h.simplices, ← hab]
    exact List.getElem?_eq_getElem hl
  obtain ⟨ha, hb, hne⟩ := edge_lt h.accepted e he
  have hgne : vertexIndex G e a ≠ vertexIndex G e b := fun hi => hne (vertex_inj h.accepted e a ha b hb hi)
  rw [h.simplices] at ha hb
  replace ha : a < n + 2 := ha
  replace hb : b < n + 2 := hb
  have hlt : a < b := by
    have key : ∀ p ∈ simplexEdges (n + 1), p.1 < p.2 := by
      rcases h.accepted.dim with hd | hd <;> rw [h.dim] at hd <;> rw [hd] <;> decide
    have := key _ (List.getElem_mem hl)
    rwa [hab] at this
  have hshape : (nedelecSimplex (K := K) (n := n + 1) bits).shape l (localOf G n w e) ⬝ᵥ localOf G n τ e =
      (if bits.testBit l then (-1 : K) else 1) *
        (w (vertexIndex G e a) * τ (vertexIndex G e b) - w (vertexIndex G e b) * τ (vertexIndex G e a)) := by
    have : (nedelecSimplex (K := K) (n := n + 1) bits).shape l (localOf G n w e) =
        (if bits.testBit l then (-1 : K) else 1) • (bary a (localOf G n w e) • gradBary K (n + 1) b - bary b (localOf G n w e) • gradBary K (n + 1) a) := by
      simp [LFE.shape, nedelecSimplex, hl, hab]
    rw [this, smul_dotProduct, sub_dotProduct, smul_dotProduct, smul_dotProduct, localOf, localOf,
      bary_combination (fun v => w (vertexIndex G e v)) hw ha, bary_combination (fun v => w (vertexIndex G e v)) hw hb,
      gradBary_combination (fun v => τ (vertexIndex G e v)) hτ ha, gradBary_combination (fun v => τ (vertexIndex G e v)) hτ hb]
    simp only [smul_eq_mul]
  rw [hshape, h3 _ a b he, max_eq_right hlt.le, min_eq_left hlt.le]
  have hkey : (simplexKeys (n + 1))[l.val] = ⟨l, n + 1 - 1, 0⟩ := by simp [simplexKeys]
  simp only [finCongr_apply, Fin.getElem_fin, Fin.val_cast, hkey, hab, edgeTerm, h.dim, Nat.add_zero]
  rcases Nat.lt_or_gt_of_ne hgne with hg | hg
  · rw [max_eq_right hg.le, min_eq_left hg.le]
    simp [not_lt.2 hg.le]
  · rw [max_eq_left hg.le, min_eq_right hg.le]
    simp [hg]

omit [LinearOrder K] [IsStrictOrderedRing K] in
theorem localOf_transform {G : GridView E S} {jac : E → Mat K (n + 1)} {pos : Nat → Vec K (n + 1)}
    (hjac : ∀ e (d j : Fin (n + 1)), jac e d j = pos (vertexIndex G e (j + 1)) d - pos (vertexIndex G e 0) d) (e : E) (τ : Nat → K)
    (hτ : ∑ v ∈ Finset.range (n + 2), τ (vertexIndex G e v) = 0) :
    jac e *ᵥ localOf G n τ e = ∑ v ∈ Finset.range (n + 2), τ (vertexIndex G e v) • pos (vertexIndex G e v) := by
  have h0 : corner K n 0 = 0 := by
    funext j
    simp [corner]
  have key : ∀ v, v < n + 2 → jac e *ᵥ corner K n v = pos (vertexIndex G e v) - pos (vertexIndex G e 0) := by
    intro v hv
    have := Trace.jac_corner (p := fun v => pos (vertexIndex G e v)) (hjac e) v 0 hv (by omega)
    rwa [h0, sub_zero] at this
  rw [localOf, Matrix.mulVec_sum]
  rw [Finset.sum_congr rfl fun v hv => by
    rw [Matrix.mulVec_smul, key v (Finset.mem_range.1 hv), smul_sub]]
  rw [Finset.sum_sub_distrib, ← Finset.sum_smul, hτ, zero_smul, sub_zero]

omit [LinearOrder K] [IsStrictOrderedRing K] in
theorem edgeTerm_swap (G : GridView E S) (vec w τ : Nat → K) (e e' : E) (i i' a b a' b' : Nat) (hs : G.sub e (G.dim - 1) i = G.sub e' (G.dim - 1) i')
    (h : (vertexIndex G e a = vertexIndex G e' a' ∧ vertexIndex G e b = vertexIndex G e' b') ∨ (vertexIndex G e a = vertexIndex G e' b' ∧ vertexIndex G e b = vertexIndex G e' a')) :
    edgeTerm G vec w τ e i a b = edgeTerm G vec w τ e' i' a' b' := by
  rw [edgeTerm, edgeTerm, hs]
  rcases h with ⟨p, q⟩ | ⟨p, q⟩
  · rw [p, q]
  · rw [p, q, max_comm, min_comm]

omit [LinearOrder K] [IsStrictOrderedRing K] in
theorem edgeTerm_zero {G : GridView E S} {fixed : Option Geo} (h : Simplices G fixed n) (hc : Conforming G) {e e' : E} (vec w τ : Nat → K)
    (hw : Supported G n e e' w) (hτ : Supported G n e e' τ) (i : Fin (simplexEdges (n + 1)).length)
    (hno : ∀ j : Fin (simplexEdges (n + 1)).length, G.sub e (G.dim - 1) i ≠ G.sub e' (G.dim - 1) j) :
    edgeTerm G vec w τ e i (simplexEdges (n + 1))[i].1 (simplexEdges (n + 1))[i].2 = 0 := by
  obtain ⟨a, b, hab⟩ : ∃ a b, (simplexEdges (n + 1))[i.val] = (a, b) := ⟨_, _, rfl⟩
  have he : ∀ e, (refOf (G.elemGeo e)).edges[i.val]? = some (a, b) := by
    intro e
    rw [h.simplices, ← hab]
    exact List.getElem?_eq_getElem i.2
  obtain ⟨ha, hb, hne⟩ := edge_lt h.accepted e (he e)
  rw [h.simplices] at ha hb
  replace ha : a < n + 2 := ha
  replace hb : b < n + 2 := hb
  have hnv : ∀ e, (G.elemGeo e).nv = n + 2 := fun e => by rw [h.simplices]; rfl
  -- two different vertices are connected by an edge
  have table : ∀ a < n + 2, ∀ b < n + 2, a ≠ b → ∃ j < (simplexEdges (n + 1)).length, (simplexEdges (n + 1))[j]? = some (a, b) ∨ (simplexEdges (n + 1))[j]? = some (b, a) := by
    have key : ∀ a ∈ List.range (n + 2), ∀ b ∈ List.range (n + 2), a ≠ b → (a, b) ∈ simplexEdges (n + 1) ∨ (b, a) ∈ simplexEdges (n + 1) := by
      rcases h.accepted.dim with hd | hd <;> rw [h.dim] at hd
      · obtain rfl : n = 1 := by omega
        decide
      · obtain rfl : n = 2 := by omega
        decide
    intro a ha b hb hab
    rcases key a (List.mem_range.2 ha) b (List.mem_range.2 hb) hab with hm | hm <;> obtain ⟨j, hj, he⟩ := List.mem_iff_getElem.1 hm
    · exact ⟨j, hj, Or.inl (by rw [List.getElem?_eq_getElem hj, he])⟩
    · exact ⟨j, hj, Or.inr (by rw [List.getElem?_eq_getElem hj, he])⟩
  simp only [Fin.getElem_fin, hab]
  have hzero : (w (vertexIndex G e a) = 0 ∧ τ (vertexIndex G e a) = 0) ∨ (w (vertexIndex G e b) = 0 ∧ τ (vertexIndex G e b) = 0) := by
    by_cases hca : ∀ v' < n + 2, G.sub e G.dim a ≠ G.sub e' G.dim v'
    · exact Or.inl ⟨hw a ha hca, hτ a ha hca⟩
    by_cases hcb : ∀ v' < n + 2, G.sub e G.dim b ≠ G.sub e' G.dim v'
    · exact Or.inr ⟨hw b hb hcb, hτ b hb hcb⟩
    push Not at hca hcb
    obtain ⟨a', ha', ea⟩ := hca
    obtain ⟨b', hb', eb⟩ := hcb
    have hne' : a' ≠ b' := by
      rintro rfl
      exact hne (h.accepted.std.base.subInj e _ _ _ _ (vertex_geo h.accepted e (by rw [hnv]; exact ha)).2 (vertex_geo h.accepted e (by rw [hnv]; exact hb)).2
        (ea.trans eb.symm)).2
    obtain ⟨j, hj, hj'⟩ := table a' ha' b' hb' hne'
    refine absurd ?_ (hno ⟨j, hj⟩)
    rcases hj' with hj' | hj'
    · exact (hc e e' i j a b a' b' (he e) (by rw [h.simplices]; exact hj')).2 (Or.inl ⟨ea, eb⟩)
    · exact (hc e e' i j a b b' a' (he e) (by rw [h.simplices]; exact hj')).2 (Or.inr ⟨ea, eb⟩)
  rw [edgeTerm]
  rcases hzero with ⟨p, q⟩ | ⟨p, q⟩ <;> rcases le_total (vertexIndex G e a) (vertexIndex G e b) with hle | hle <;>
    simp [hle, p, q]

omit [IsStrictOrderedRing K] in
/-- **C68 on triangles and tetrahedra.** On every conforming grid of affine simplices, and for every coefficient vector, the values of a Nédélec function on two elements
have the same component in every direction of their common face, in every point of it. The face may be a facet, an edge or a vertex (with no direction);
the point and the direction are given by their weights `w` (with sum 1) and `τ` (with sum 0) at the common vertices. -/
theorem C68_simplex {G : GridView E S} {fixed : Option Geo} (h : Simplices G fixed n) (hc : Conforming G) {pos : Nat → Vec K (n + 1)} {jac : E → Mat K (n + 1)}
    (hjac : ∀ e (d j : Fin (n + 1)), jac e d j = pos (vertexIndex G e (j + 1)) d - pos (vertexIndex G e 0) d) {geo : E → Geometry K (n + 1)}
    (hgeo : ∀ e x, (geo e).OK (jac e) x) (vec : Nat → K) (e e' : E) (w τ : Nat → K)
    (hw : ∑ v ∈ Finset.range (n + 2), w (vertexIndex G e v) = 1) (hw' : ∑ v ∈ Finset.range (n + 2), w (vertexIndex G e' v) = 1)
    (hτ : ∑ v ∈ Finset.range (n + 2), τ (vertexIndex G e v) = 0) (hτ' : ∑ v ∈ Finset.range (n + 2), τ (vertexIndex G e' v) = 0)
    (sw : Supported G n e e' w) (sw' : Supported G n e' e w) (sτ : Supported G n e e' τ) (sτ' : Supported G n e' e τ) :
    ∃ v v', value G fixed (fun _ bits => nedelecSimplex bits) (fun _ => simplexKeys (n + 1)) geo vec e (localOf G n w e) = some v ∧
      value G fixed (fun _ bits => nedelecSimplex bits) (fun _ => simplexKeys (n + 1)) geo vec e' (localOf G n w e') = some v' ∧
      v ⬝ᵥ (∑ k ∈ Finset.range (n + 2), τ (vertexIndex G e k) • pos (vertexIndex G e k)) =
        v' ⬝ᵥ (∑ k ∈ Finset.range (n + 2), τ (vertexIndex G e' k) • pos (vertexIndex G e' k)) := by
  obtain ⟨v, h1, h2⟩ := simplex_value h e w τ vec (hgeo e _) hw hτ
  obtain ⟨v', h1', h2'⟩ := simplex_value h e' w τ vec (hgeo e' _) hw' hτ'
  refine ⟨v, v', h1, h1', ?_⟩
  rw [← localOf_transform hjac e τ hτ, ← localOf_transform hjac e' τ hτ', h2, h2']
  have hsub : ∀ e, ∀ i : Fin (simplexEdges (n + 1)).length, i.val < (G.refSubs (G.elemGeo e) (G.dim - 1)).length := by
    intro e i
    rw [h.accepted.std.std, h.simplices, h.dim]
    have : (stdSubs (simplexOf (n + 1)) (n + 1 - 1)).length = (simplexEdges (n + 1)).length := by
      rcases h.accepted.dim with hd | hd <;> rw [h.dim] at hd
      · obtain rfl : n = 1 := by omega
        decide
      · obtain rfl : n = 2 := by omega
        decide
    rw [this]
    exact i.2
  have hinj : ∀ e, Function.Injective fun i : Fin (simplexEdges (n + 1)).length => G.sub e (G.dim - 1) i := by
    intro e i j hij
    exact Fin.ext (h.accepted.std.base.subInj e _ _ _ _ (hsub e i) (hsub e j) hij).2
  have hedge : ∀ e, ∀ i : Fin (simplexEdges (n + 1)).length,
      (refOf (G.elemGeo e)).edges[i.val]? = some ((simplexEdges (n + 1))[i].1, (simplexEdges (n + 1))[i].2) := by
    intro e i
    rw [h.simplices]
    exact List.getElem?_eq_getElem i.2
  refine sum_match (fun i : Fin (simplexEdges (n + 1)).length => G.sub e (G.dim - 1) i) (fun i : Fin (simplexEdges (n + 1)).length => G.sub e' (G.dim - 1) i) (hinj e) (hinj e') _ _ ?_ ?_ ?_
  · intro i j hs
    obtain ⟨l1, l2, -⟩ := edge_lt h.accepted e (hedge e i)
    obtain ⟨m1, m2, -⟩ := edge_lt h.accepted e' (hedge e' j)
    refine edgeTerm_swap G vec w τ e e' i j _ _ _ _ hs ?_
    rw [vertex_same h.accepted l1 m1, vertex_same h.accepted l2 m2, vertex_same h.accepted l1 m2, vertex_same h.accepted l2 m1]
    exact (hc e e' i j _ _ _ _ (hedge e i) (hedge e' j)).1 hs
  · exact fun i hno => edgeTerm_zero h hc vec w τ sw sτ i hno
  · exact fun j hno => edgeTerm_zero h hc vec w τ sw' sτ' j fun i hs => hno i hs.symm

/-! ## The contract of edges -/

/-- Edge `i` of the reference simplex. -/
def simplexEdge (K : Type) [Field K] (n i : Nat) : RefEdge K (n + 1) :=
  let e := (simplexEdges (n + 1)).getD i (0, 0)
  { On := fun x => ∃ s : K, x = (1 - s) • corner K n e.1 + s • corner K n e.2, dir := corner K n e.2 - corner K n e.1 }

theorem edge_table {n : Nat} (hn : n = 1 ∨ n = 2) : ∀ p ∈ simplexEdges (n + 1), p.1 < p.2 ∧ p.2 < n + 2 := by rcases hn with rfl | rfl <;> decide

theorem edges_nodup {n : Nat} (hn : n = 1 ∨ n = 2) : (simplexEdges (n + 1)).Nodup := by rcases hn with rfl | rfl <;> decide

omit [LinearOrder K] [IsStrictOrderedRing K] in
theorem corner_sum {a b : Nat} (hab : a ≠ b) (ha : a < n + 2) (hb : b < n + 2) (r s : K) :
    r • corner K n a + s • corner K n b = ∑ k ∈ Finset.range (n + 2), (if k = a then r else if k = b then s else 0) • corner K n k := by
  rw [← Finset.add_sum_erase _ _ (Finset.mem_range.2 ha), if_pos rfl,
    ← Finset.add_sum_erase _ _ (Finset.mem_erase.2 ⟨hab.symm, Finset.mem_range.2 hb⟩), if_neg hab.symm, if_pos rfl, Finset.sum_eq_zero, add_zero]
  intro k hk
  rw [Finset.mem_erase, Finset.mem_erase] at hk
  rw [if_neg hk.2.1, if_neg hk.1, zero_smul]

omit [LinearOrder K] [IsStrictOrderedRing K] in
theorem weight_sum {a b : Nat} (hab : a ≠ b) (ha : a < n + 2) (hb : b < n + 2) (r s : K) :
    ∑ k ∈ Finset.range (n + 2), (if k = a then r else if k = b then s else 0) = r + s := by
  rw [← Finset.add_sum_erase _ _ (Finset.mem_range.2 ha), if_pos rfl,
    ← Finset.add_sum_erase _ _ (Finset.mem_erase.2 ⟨hab.symm, Finset.mem_range.2 hb⟩), if_neg hab.symm, if_pos rfl, Finset.sum_eq_zero, add_zero]
  intro k hk
  rw [Finset.mem_erase, Finset.mem_erase] at hk
  rw [if_neg hk.2.1, if_neg hk.1]

omit [LinearOrder K] [IsStrictOrderedRing K] in
/-- The elements for simplices satisfy the contract. -/
theorem simplex_tangents {n : Nat} (hn : n = 1 ∨ n = 2) :
    Tangents (K := K) (fun _ bits => nedelecSimplex bits) (fun _ => simplexKeys (n + 1)) (fun _ => simplexEdge K n) (simplexOf (n + 1)) where
  size := by simp [nedelecSimplex, simplexKeys]
  nodup := List.nodup_range.map fun i j h => by simpa using h
  full := by
    intro i hi
    exact List.mem_map.2 ⟨i, List.mem_range.2 hi, rfl⟩
  tangent := by
    intro bits _ l k hk i hi x hx
    replace hi : i < (simplexEdges (n + 1)).length := hi
    have hl : l < (simplexEdges (n + 1)).length := by simpa [simplexKeys] using (List.getElem?_eq_some_iff.1 hk).1
    obtain rfl : k = ⟨l, n, 0⟩ := by simpa [simplexKeys, hl, eq_comm] using hk
    obtain ⟨a, b, hab⟩ : ∃ a b, (simplexEdges (n + 1))[i] = (a, b) := ⟨_, _, rfl⟩
    obtain ⟨p, q, hpq⟩ : ∃ p q, (simplexEdges (n + 1))[l] = (p, q) := ⟨_, _, rfl⟩
    obtain ⟨h1, h2⟩ := edge_table hn _ (List.getElem_mem hi)
    obtain ⟨h3, h4⟩ := edge_table hn _ (List.getElem_mem hl)
    rw [hab] at h1 h2
    rw [hpq] at h3 h4
    simp only at h1 h2 h3 h4
    obtain ⟨s, hx⟩ := hx
    have hdir : (simplexEdge K n i).dir = (-1 : K) • corner K n a + (1 : K) • corner K n b := by
      simp only [simplexEdge, List.getD_eq_getElem?_getD, List.getElem?_eq_getElem hi, hab, Option.getD_some, one_smul, neg_smul]
      abel
    simp only [List.getD_eq_getElem?_getD, List.getElem?_eq_getElem hi, hab, Option.getD_some] at hx
    have hshape : (nedelecSimplex (K := K) (n := n + 1) bits).shape l x =
        (if bits.testBit l then (-1 : K) else 1) • (bary p x • gradBary K (n + 1) q - bary q x • gradBary K (n + 1) p) := by
      simp [LFE.shape, nedelecSimplex, hl, hpq]
    have hw := weight_sum (K := K) (n := n) (show a ≠ b by omega) (by omega) (by omega) (1 - s) s
    rw [sub_add_cancel] at hw
    have ht := weight_sum (K := K) (n := n) (show a ≠ b by omega) (by omega) (by omega) (-1) 1
    rw [neg_add_cancel] at ht
    rw [hshape, hx, hdir, corner_sum (show a ≠ b by omega) (by omega) (by omega), corner_sum (show a ≠ b by omega) (by omega) (by omega),
      smul_dotProduct, sub_dotProduct, smul_dotProduct, smul_dotProduct, bary_combination (fun k => if k = a then 1 - s else if k = b then s else 0) hw (by omega),
      bary_combination (fun k => if k = a then 1 - s else if k = b then s else 0) hw (by omega),
      gradBary_combination (fun k => if k = a then (-1 : K) else if k = b then 1 else 0) ht (by omega),
      gradBary_combination (fun k => if k = a then (-1 : K) else if k = b then 1 else 0) ht (by omega)]
    simp only [smul_eq_mul]
    by_cases hli : l = i
    · subst hli
      obtain ⟨rfl, rfl⟩ : a = p ∧ b = q := by simpa [hab] using hpq
      have : (⟨l, n, 0⟩ : Key) = ⟨l, (simplexOf (n + 1)).dim - 1, 0⟩ := rfl
      rw [if_pos this]
      have hba : b ≠ a := by omega
      simp [hba]
    · rw [if_neg (show ¬(⟨l, n, 0⟩ : Key) = ⟨i, (simplexOf (n + 1)).dim - 1, 0⟩ from fun h => hli (congrArg Key.sub h))]
      have hne : ¬(p = a ∧ q = b) := by
        rintro ⟨rfl, rfl⟩
        exact hli (((edges_nodup hn).getElem_inj_iff).1 (hpq.trans hab.symm))
      by_cases hp : p = a
      · have hqb : q ≠ b := fun h => hne ⟨hp, h⟩
        have hqa : q ≠ a := by omega
        simp [hqb, hqa]
      · by_cases hpb : p = b
        · have hqb : q ≠ b := by omega
          have hqa : q ≠ a := by omega
          simp [hqb, hqa]
        · simp [hp, hpb]

/-- Edges of the reference cube, with their direction. -/
def cubeEdges (n : Nat) : List (Nat × Nat) := (refOf (cubeOf n)).edges

def edgeDirection (e : Nat × Nat) : Nat := Nat.log2 (e.2 - e.1)

/-- Edge `i` of the reference cube: all coordinates but one are those of the first vertex. -/
def cubeEdge (K : Type) [Field K] (n i : Nat) : RefEdge K n :=
  let e := (cubeEdges n).getD i (0, 0)
  { On := fun x => ∀ j : Fin n, j.val ≠ edgeDirection e → x j = if e.1.testBit j then 1 else 0,
    dir := fun j => if j.val = edgeDirection e then 1 else 0 }

/-- The finite elements of order 1 of dune-localfunctions for quadrilaterals and hexahedra (`Nedelec1stKindCubeLocalBasis`): in the direction of the edge, multilinear in the other
coordinates. -/
def nedelecCube (bits : Nat) : LFE K n where
  size := (cubeEdges n).length
  eval := fun x => (cubeEdges n).mapIdx fun i e => fun d =>
    if d.val = edgeDirection e then
      (if bits.testBit i then (-1 : K) else 1) * ∏ j : Fin n, if j.val = edgeDirection e then 1 else if e.1.testBit j then x j else 1 - x j
    else 0
  jac := fun _ => []
  interp := fun _ => []

def cubeKeys (n : Nat) : List Key := (List.range (cubeEdges n).length).map fun i => ⟨i, n - 1, 0⟩

theorem cube_table {n : Nat} (hn : n = 2 ∨ n = 3) : ∀ i : Fin (cubeEdges n).length, ∀ l : Fin (cubeEdges n).length, edgeDirection (cubeEdges n)[i] < n ∧
    (i ≠ l → edgeDirection (cubeEdges n)[i] = edgeDirection (cubeEdges n)[l] →
      ∃ j : Fin n, j.val ≠ edgeDirection (cubeEdges n)[i] ∧ (cubeEdges n)[i].1.testBit j ≠ (cubeEdges n)[l].1.testBit j) := by
  rcases hn with rfl | rfl <;> decide +kernel

omit [LinearOrder K] [IsStrictOrderedRing K] in
/-- The elements for cubes satisfy the contract. -/
theorem cube_tangents (hn : n = 2 ∨ n = 3) :
    Tangents (K := K) (fun _ bits => nedelecCube bits) (fun _ => cubeKeys n) (fun _ => cubeEdge K n) (cubeOf n) where
  size := by simp [nedelecCube, cubeKeys]
  nodup := List.nodup_range.map fun i j h => by simpa using h
  full := by
    intro i hi
    exact List.mem_map.2 ⟨i, List.mem_range.2 hi, rfl⟩
  tangent := by
    intro bits _ l k hk i hi x hx
    replace hi : i < (cubeEdges n).length := hi
    have hl : l < (cubeEdges n).length := by simpa [cubeKeys] using (List.getElem?_eq_some_iff.1 hk).1
    obtain rfl : k = ⟨l, n - 1, 0⟩ := by simpa [cubeKeys, hl, eq_comm] using hk
    obtain ⟨hd, hbit⟩ := cube_table hn ⟨i, hi⟩ ⟨l, hl⟩
    simp only [Fin.getElem_fin] at hd hbit
    set ei := (cubeEdges n)[i] with hei
    set el := (cubeEdges n)[l] with hel
    have hget : (cubeEdges n).getD i (0, 0) = ei := by rw [List.getD_eq_getElem?_getD, List.getElem?_eq_getElem hi]; rfl
    have hdir : (cubeEdge K n i).dir = fun j : Fin n => if j.val = edgeDirection ei then 1 else 0 := by rw [cubeEdge, hget]
    have hon : ∀ j : Fin n, j.val ≠ edgeDirection ei → x j = if ei.1.testBit j then 1 else 0 := by
      rw [cubeEdge, hget] at hx
      exact hx
    have hshape : (nedelecCube (K := K) (n := n) bits).shape l x = fun d : Fin n => if d.val = edgeDirection el then
        (if bits.testBit l then (-1 : K) else 1) * ∏ j : Fin n, if j.val = edgeDirection el then 1 else if el.1.testBit j then x j else 1 - x j else 0 := by
      simp [LFE.shape, nedelecCube, hl, hel]
    rw [hshape, hdir, dotProduct, Finset.sum_eq_single ⟨edgeDirection ei, hd⟩]
    · simp only [if_true, mul_one]
      by_cases hli : l = i
      · subst hli
        have hel' : el = ei := rfl
        rw [hel', if_pos rfl, if_pos (show (⟨l, n - 1, 0⟩ : Key) = ⟨l, (cubeOf n).dim - 1, 0⟩ from rfl), Finset.prod_eq_one, mul_one]
        intro j _
        split
        · rfl
        · next hj =>
          rw [hon j hj]
          cases ei.1.testBit j <;> simp
      · rw [if_neg (show ¬(⟨l, n - 1, 0⟩ : Key) = ⟨i, (cubeOf n).dim - 1, 0⟩ from fun h => hli (congrArg Key.sub h))]
        split
        · next hdd =>
          obtain ⟨j, hj, hjb⟩ := hbit (fun h => hli (congrArg Fin.val h).symm) hdd
          rw [Finset.prod_eq_zero (Finset.mem_univ j), mul_zero]
          rw [if_neg (by rw [← hdd]; exact hj), hon j hj]
          revert hjb
          cases ei.1.testBit j <;> cases el.1.testBit j <;> simp
        · rfl
    · intro d _ hne
      have : d.val ≠ edgeDirection ei := fun h => hne (Fin.ext h)
      simp [this]
    · simp

/-! ## Example: two triangles -/

theorem demo_accepted : Accepted demoGrid.toGridView none := ⟨demoGrid_std, Or.inl rfl, fun _ => Or.inl rfl, by simp⟩

theorem demo_conforming : Conforming demoGrid.toGridView := by
  have key : ∀ (e e' : Fin 2) (i i' : Fin 3), ∀ p ∈ (triangle.edges[i.val]?).toList, ∀ q ∈ (triangle.edges[i'.val]?).toList,
      (demoGrid.sub e 1 i = demoGrid.sub e' 1 i' ↔ (demoGrid.sub e 2 p.1 = demoGrid.sub e' 2 q.1 ∧ demoGrid.sub e 2 p.2 = demoGrid.sub e' 2 q.2) ∨
        (demoGrid.sub e 2 p.1 = demoGrid.sub e' 2 q.2 ∧ demoGrid.sub e 2 p.2 = demoGrid.sub e' 2 q.1)) := by decide +kernel
  intro e e' i i' a b a' b' hi hi'
  replace hi : triangle.edges[i]? = some (a, b) := hi
  replace hi' : triangle.edges[i']? = some (a', b') := hi'
  have hl : i < 3 := (List.getElem?_eq_some_iff.1 hi).1
  have hl' : i' < 3 := (List.getElem?_eq_some_iff.1 hi').1
  exact key e e' ⟨i, hl⟩ ⟨i', hl'⟩ (a, b) (by simp [hi]) (a', b') (by simp [hi'])

/-- Positions by vertex index: vertices 0, 1, 2, 3 are (0,0), (1,0), (1,1), (0,1). -/
def demoPos (v : Nat) : Vec ℝ 2 := if v = 0 then ![0, 0] else if v = 1 then ![1, 0] else if v = 2 then ![1, 1] else ![0, 1]

/-- In all points of the diagonal, the component along the diagonal is continuous. -/
example (vec : Nat → ℝ) (s : ℝ) : ∃ v v', value demoGrid.toGridView none (fun _ bits => nedelecSimplex bits) (fun _ => simplexKeys 2)
      (fun e => ofJacobian fun _ => Trace.demoJac e) vec 0 ![1 - s, s] = some v ∧
    value demoGrid.toGridView none (fun _ bits => nedelecSimplex bits) (fun _ => simplexKeys 2)
      (fun e => ofJacobian fun _ => Trace.demoJac e) vec 1 ![s, 1 - s] = some v' ∧ v 1 - v 0 = v' 1 - v' 0 := by
  have hjac : ∀ (e : Fin 2) (d j : Fin 2), Trace.demoJac e d j =
      demoPos (vertexIndex demoGrid.toGridView e (j + 1)) d - demoPos (vertexIndex demoGrid.toGridView e 0) d := by
    intro e d j
    fin_cases e <;> fin_cases d <;> fin_cases j <;> simp [Trace.demoJac, demoPos, vertexIndex, demoGrid]
  have supp : ∀ (f : Nat → ℝ), (∀ k, k ≠ 1 → k ≠ 3 → f k = 0) → ∀ e e' : Fin 2, e ≠ e' → Supported demoGrid.toGridView 1 e e' f := by
    intro f hf e e' hne v hv hno
    have table : ∀ (e e' : Fin 2) (v : Fin 3), e ≠ e' → (∀ v' : Fin 3, demoGrid.sub e 2 v ≠ demoGrid.sub e' 2 v') →
        demoGrid.idx (demoGrid.sub e 2 v) ≠ 1 ∧ demoGrid.idx (demoGrid.sub e 2 v) ≠ 3 := by decide
    obtain ⟨p, q⟩ := table e e' ⟨v, hv⟩ hne fun v' => hno v' v'.2
    exact hf _ p q
  obtain ⟨v, v', h1, h2, h3⟩ := C68_simplex (n := 1) ⟨demo_accepted, rfl, fun _ => rfl⟩ demo_conforming (pos := demoPos) (jac := Trace.demoJac) hjac
    (geo := fun e => ofJacobian fun _ => Trace.demoJac e) (fun e x => ofJacobian_OK _ x (by fin_cases e <;> simp [Trace.demoJac])) vec 0 1
    (fun k => if k = 1 then 1 - s else if k = 3 then s else 0) (fun k => if k = 1 then -1 else if k = 3 then 1 else 0)
    (by simp [Finset.sum_range_succ, vertexIndex, demoGrid]) (by simp [Finset.sum_range_succ, vertexIndex, demoGrid])
    (by simp [Finset.sum_range_succ, vertexIndex, demoGrid]) (by simp [Finset.sum_range_succ, vertexIndex, demoGrid])
    (supp _ (by intro k h1 h3; simp [h1, h3]) 0 1 (by decide)) (supp _ (by intro k h1 h3; simp [h1, h3]) 1 0 (by decide))
    (supp _ (by intro k h1 h3; simp [h1, h3]) 0 1 (by decide)) (supp _ (by intro k h1 h3; simp [h1, h3]) 1 0 (by decide))
  refine ⟨v, v', ?_, ?_, ?_⟩
  · rw [← h1]
    congr 1
    funext d
    fin_cases d <;> simp [localOf, Finset.sum_range_succ, vertexIndex, demoGrid, corner]
  · rw [← h2]
    congr 1
    funext d
    fin_cases d <;> simp [localOf, Finset.sum_range_succ, vertexIndex, demoGrid, corner]
  · simp [Finset.sum_range_succ, vertexIndex, demoGrid, demoPos, dotProduct, Fin.sum_univ_two] at h3
    linarith

/-- The lower edge of the square: the first component is the coefficient of the edge, in all points. -/
example (vec : Nat → ℝ) (s : ℝ) : ∃ v, value demoGrid.toGridView none (fun _ bits => nedelecSimplex bits) (fun _ => simplexKeys 2)
      (fun e => ofJacobian fun _ => Trace.demoJac e) vec 0 ![s, 0] = some v ∧ v 0 = vec 0 := by
  obtain ⟨v, h1, h2⟩ := C68_edge demo_accepted (fun _ => simplex_tangents (Or.inl rfl)) (fun e => ofJacobian fun _ => Trace.demoJac e) demoPos vec 0
    (i := 0) (a := 0) (b := 1) rfl (x := ![s, 0]) (by
      refine ⟨s, ?_⟩
      funext d
      fin_cases d <;> simp [simplexEdges, simplexOf, refOf, triangle, corner]) (J := Trace.demoJac 0) (ofJacobian_OK _ _ (by simp [Trace.demoJac])) (by
      funext d
      have : (simplexEdge ℝ 1 0).dir = corner ℝ 1 1 - corner ℝ 1 0 := rfl
      fin_cases d <;> simp [this, Matrix.mulVec, dotProduct, Fin.sum_univ_two, corner, Trace.demoJac, demoPos, vertexIndex, demoGrid])
  refine ⟨v, h1, ?_⟩
  have hm : mapperIndex demoGrid.toGridView nedelecLayout (demoGrid.sub 0 (demoGrid.dim - 1) 0) = 0 := by decide
  rw [hm] at h2
  simpa [globalTangent, vertexIndex, demoGrid, demoPos, dotProduct, Fin.sum_univ_two] using h2

end Verif.HDiv.Tangential

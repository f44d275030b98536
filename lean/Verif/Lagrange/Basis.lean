import Verif.Lagrange.Props
import Verif.Leaf.Mapper
import Mathlib.Data.Nat.Choose.Vandermonde
import Mathlib.Data.Nat.Choose.Sum

/-!
# The global Lagrange basis

Model of `LagrangePreBasis` (lagrangebasis.hh:740-889) with dynamic or static order: layout, sizes and
indices, on top of the mapper model and the face permutation model.
-/

namespace Verif.Lagrange

open Mapper

variable {E S α : Type} [LinearOrder α]

/-- The reference element of a geometry type of dimension 1, 2, 3. -/
def refOf (t : Geo) : RefElem :=
  if t = ⟨2, 3⟩ then triangle else if t = ⟨2, 4⟩ then quadrilateral
  else if t = ⟨3, 4⟩ then tetrahedron else if t = ⟨3, 5⟩ then pyramid
  else if t = ⟨3, 6⟩ then prism else if t = ⟨3, 8⟩ then hexahedron
  else ⟨1, 2, [(0, 1)], []⟩

/-- The geometry types of elements. -/
def elemTypes : List Geo := [⟨1, 2⟩, ⟨2, 3⟩, ⟨2, 4⟩, ⟨3, 4⟩, ⟨3, 5⟩, ⟨3, 6⟩, ⟨3, 8⟩]

/-- Vertices of the sub-entities of codim `c` of a reference element. -/
def subVerts (re : RefElem) (c : Nat) : List (List Nat) :=
  if c = 0 then [List.range re.vertices]
  else if c = re.dim then (List.range re.vertices).map fun v => [v]
  else if c = re.dim - 1 then re.edges.map fun e => [e.1, e.2]
  else if re.dim = 3 ∧ c = 1 then re.facets
  else []

/-- Types of the sub-entities of codim `c`. -/
def stdSubs (t : Geo) (c : Nat) : List Geo := (subVerts (refOf t) c).map fun v => ⟨(refOf t).dim - c, v.length⟩

/-- `dofLayout`, lagrangebasis.hh:747-762, for grid dimension `dim`. -/
def lagrangeLayout (order dim : Nat) : Layout := fun t =>
  if order = 0 then (if t.dim = dim then 1 else 0)
  else if t.nv = t.dim + 1 then (order - 1).choose t.dim
  else if t.nv = 2 ^ t.dim then (order - 1) ^ t.dim
  else if t = ⟨3, 5⟩ then 0
  else if t = ⟨3, 6⟩ ∧ order > 1 then (order - 1) * (order - 1) * (order - 2) / 2
  else 0

/-! ## C24: counts -/

/-- Dimension of the local Lagrange space of order `k` on an element. -/
def localDim (k : Nat) (t : Geo) : Nat :=
  if k = 0 then 1
  else if t = ⟨1, 2⟩ then k + 1
  else if t = ⟨2, 3⟩ then (k + 1) * (k + 2) / 2
  else if t = ⟨2, 4⟩ then (k + 1) ^ 2
  else if t = ⟨3, 4⟩ then (k + 1) * (k + 2) * (k + 3) / 6
  else if t = ⟨3, 5⟩ then (k + 1) * (k + 2) * (2 * k + 3) / 6
  else if t = ⟨3, 6⟩ then (k + 1) ^ 2 * (k + 2) / 2
  else (k + 1) ^ 3

/-- Number of DOFs the layout distributes over an element and all its sub-entities. -/
def layoutSum (lay : Layout) (t : Geo) : Nat :=
  ((List.range (t.dim + 1)).map fun c => ((stdSubs t c).map lay).sum).sum

theorem two_dvd_mul_succ (n : Nat) : 2 ∣ n * (n + 1) := (Nat.even_mul_succ_self n).two_dvd

theorem choose_two_eq (n : Nat) : 2 * n.choose 2 = n * (n - 1) := by
  rw [Nat.choose_two_right]
  apply Nat.mul_div_cancel'
  cases n with
  | zero => simp
  | succ n => simpa [Nat.mul_comm] using two_dvd_mul_succ n

theorem choose_three_eq (n : Nat) : 6 * n.choose 3 = n * (n - 1) * (n - 2) := by
  induction n with
  | zero => simp
  | succ n ih =>
    rw [Nat.choose_succ_succ' n 2, Nat.mul_add, ih]
    have h2 := choose_two_eq n
    match n with
    | 0 => simp
    | 1 => simp
    | n + 2 =>
      simp only [Nat.add_sub_cancel, show n + 2 - 1 = n + 1 by omega, show n + 2 + 1 - 2 = n + 1 by omega] at h2 ⊢
      have : 6 * (n + 2).choose 2 = 3 * ((n + 2) * (n + 1)) := by omega
      rw [this]; ring

/-- C24, types up to dimension 3. For every order (for pyramids: the supported orders ≤ 2) and every element type the
DOFs distributed by the layout over the sub-entities add up to the dimension of the local space. -/
theorem C24_counts (k : Nat) (t : Geo) (ht : t ∈ elemTypes) (hp : t = ⟨3, 5⟩ → k ≤ 2) :
    layoutSum (lagrangeLayout k t.dim) t = localDim k t := by
  by_cases h0 : k = 0
  · subst h0
    simp only [elemTypes, List.mem_cons, List.not_mem_nil, or_false] at ht
    rcases ht with rfl | rfl | rfl | rfl | rfl | rfl | rfl <;> decide
  obtain ⟨n, rfl⟩ : ∃ n, k = n + 1 := ⟨k - 1, by omega⟩
  have c2 := choose_two_eq n
  have c3 := choose_three_eq n
  simp only [elemTypes, List.mem_cons, List.not_mem_nil, or_false] at ht
  rcases ht with rfl | rfl | rfl | rfl | rfl | rfl | rfl
  · simp [layoutSum, stdSubs, subVerts, refOf, lagrangeLayout, localDim, List.range_succ]
  · have : (n + 2) * (n + 3) = 2 * (n.choose 2 + 3 * n + 3) := by
      match n with
      | 0 => simp
      | n + 1 => simp only [Nat.add_sub_cancel] at c2; nlinarith
    simp [layoutSum, stdSubs, subVerts, refOf, lagrangeLayout, localDim, List.range_succ, triangle]
    rw [show n + 1 + 1 = n + 2 by ring, show n + 1 + 2 = n + 3 by ring, this]; omega
  · simp [layoutSum, stdSubs, subVerts, refOf, lagrangeLayout, localDim, List.range_succ, quadrilateral]
    ring
  · have : (n + 2) * (n + 3) * (n + 4) = 6 * (n.choose 3 + 4 * n.choose 2 + 6 * n + 4) := by
      match n with
      | 0 => simp
      | 1 => decide
      | n + 2 =>
        simp only [show n + 2 - 1 = n + 1 by omega, show n + 2 - 2 = n by omega] at c2 c3
        nlinarith
    simp [layoutSum, stdSubs, subVerts, refOf, lagrangeLayout, localDim, List.range_succ, tetrahedron]
    rw [show n + 1 + 1 = n + 2 by ring, show n + 1 + 2 = n + 3 by ring, show n + 1 + 3 = n + 4 by ring, this]; omega
  · have : n = 0 ∨ n = 1 := by have := hp rfl; omega
    rcases this with rfl | rfl <;> decide
  · have h1 : 2 * (n * n * (n - 1) / 2) = n * n * (n - 1) := by
      apply Nat.mul_div_cancel'
      cases n with
      | zero => simp
      | succ n =>
        have := two_dvd_mul_succ n
        rw [show (n + 1) * (n + 1) * (n + 1 - 1) = (n * (n + 1)) * (n + 1) by simp; ring]
        exact Dvd.dvd.mul_right this _
    have h2 : (n + 2) ^ 2 * (n + 3) = 2 * (n * n * (n - 1) / 2 + 3 * n ^ 2 + 2 * n.choose 2 + 9 * n + 6) := by
      match n with
      | 0 => simp
      | n + 1 => simp only [Nat.add_sub_cancel] at c2 h1 ⊢; nlinarith
    simp [layoutSum, stdSubs, subVerts, refOf, lagrangeLayout, localDim, List.range_succ, prism]
    rw [show n + 1 + 1 = n + 2 by ring, show n + 1 + 2 = n + 3 by ring, h2]
    split
    · omega
    · have : n = 0 := by omega
      subst this; simp
  · simp [layoutSum, stdSubs, subVerts, refOf, lagrangeLayout, localDim, List.range_succ, hexahedron]
    ring

/-- C24. The local space is not larger than `maxNodeSize()`. -/
theorem C24_maxNodeSize (k : Nat) (t : Geo) (ht : t ∈ elemTypes) (hp : t = ⟨3, 5⟩ → k ≤ 2) :
    localDim k t ≤ (k + 1) ^ t.dim := by
  simp only [elemTypes, List.mem_cons, List.not_mem_nil, or_false] at ht
  rcases ht with rfl | rfl | rfl | rfl | rfl | rfl | rfl
  · simp [localDim]; split <;> omega
  · simp [localDim]; split
    · exact Nat.one_le_pow _ _ (by omega)
    · apply Nat.div_le_of_le_mul; nlinarith
  · simp [localDim]; split
    · exact Nat.one_le_pow _ _ (by omega)
    · exact le_refl _
  · simp [localDim]; split
    · exact Nat.one_le_pow _ _ (by omega)
    · apply Nat.div_le_of_le_mul
      have : k * k ≤ k * k * k * 5 + k := by
        cases k with
        | zero => simp
        | succ k => nlinarith [Nat.zero_le (k * k * k), Nat.zero_le (k*k)]
      nlinarith [Nat.zero_le (k * k * k), Nat.zero_le (k*k)]
  · have := hp rfl
    interval_cases k <;> decide
  · simp [localDim]; split
    · exact Nat.one_le_pow _ _ (by omega)
    · apply Nat.div_le_of_le_mul
      nlinarith [Nat.zero_le (k * k * k), Nat.zero_le (k*k)]
  · simp [localDim]; split
    · exact Nat.one_le_pow _ _ (by omega)
    · exact le_refl _

/-- C24, simplices of any dimension: a `d`-simplex has `C(d+1,j+1)` faces of dimension `j`; their `C(k-1,j)` DOFs add
up to `dim P_k = C(k+d,d)`. -/
theorem C24_simplex (k d : Nat) (hk : 1 ≤ k) :
    ∑ j ∈ Finset.range (d + 1), (d + 1).choose (j + 1) * lagrangeLayout k d ⟨j, j + 1⟩ = (k + d).choose d := by
  have h : ∀ j, lagrangeLayout k d ⟨j, j + 1⟩ = (k - 1).choose j := by
    intro j; simp [lagrangeLayout, show k ≠ 0 by omega]
  simp only [h]
  rw [show k + d = (k - 1) + (d + 1) by omega, Nat.add_choose_eq, Finset.Nat.sum_antidiagonal_eq_sum_range_succ_mk]
  refine Finset.sum_congr rfl ?_
  intro j hj
  rw [Finset.mem_range] at hj
  rw [Nat.mul_comm, ← Nat.choose_symm (show j + 1 ≤ d + 1 by omega), show d + 1 - (j + 1) = d - j by omega]

/-- C24, cubes of any dimension: a `d`-cube has `C(d,j) 2^(d-j)` faces of dimension `j`. -/
theorem C24_cube (k d : Nat) (hk : 1 ≤ k) :
    ∑ j ∈ Finset.range (d + 1), d.choose j * 2 ^ (d - j) * lagrangeLayout k d ⟨j, 2 ^ j⟩ = (k + 1) ^ d := by
  have h : ∀ j, lagrangeLayout k d ⟨j, 2 ^ j⟩ = (k - 1) ^ j := by
    intro j
    simp only [lagrangeLayout, show k ≠ 0 by omega, if_false, if_true]
    split
    · rename_i hj
      have : j = 0 ∨ j = 1 := by
        match j with
        | 0 => left; rfl
        | 1 => right; rfl
        | j + 2 =>
          exfalso
          have : j + 2 + 1 < 2 ^ (j + 2) := by
            clear hj
            induction j with
            | zero => decide
            | succ j ih => rw [Nat.pow_succ]; omega
          omega
      rcases this with rfl | rfl <;> simp
    · rfl
  simp only [h]
  rw [show k + 1 = (k - 1) + 2 by omega, add_pow]
  refine Finset.sum_congr rfl ?_
  intro j _
  push_cast
  ring

example : layoutSum (lagrangeLayout 3 3) ⟨3, 6⟩ = 40 ∧ layoutSum (lagrangeLayout 2 3) ⟨3, 5⟩ = 14 := by decide

/-- For pyramids the layout is only right for the supported orders. -/
theorem C24_pyramid_order3 : layoutSum (lagrangeLayout 3 3) ⟨3, 5⟩ ≠ localDim 3 ⟨3, 5⟩ := by decide

/-! ## The basis -/

/-- Grid views with vertex ids: `ids e v` is the global id of local vertex `v`. -/
structure LGrid (E S α : Type) extends GridView E S where
  ids : E → Nat → α

/-- Global ids of the vertices of a sub-entity in its local order. -/
def LGrid.verts (G : LGrid E S α) (e : E) (k : Key) : List α :=
  ((subVerts (refOf (G.elemGeo e)) k.codim).getD k.sub []).map (G.ids e)

/-- Contract of the grid: sub-entities are those of the standard reference elements, vertices of an element have different
ids, equal entities have the same vertices (quadrilaterals: with the same diagonals), different elements are different entities. -/
structure LGrid.OK (G : LGrid E S α) : Prop where
  base : G.toGridView.OK
  std : ∀ e c, G.refSubs (G.elemGeo e) c = stdSubs (G.elemGeo e) c
  type : ∀ e, G.elemGeo e ∈ elemTypes
  elemInj : ∀ e e', G.sub e 0 0 = G.sub e' 0 0 → e = e'
  idsInj : ∀ e v v', v < (G.elemGeo e).nv → v' < (G.elemGeo e).nv → G.ids e v = G.ids e v' → v = v'
  vertsSame : ∀ e k e' k', k.sub < (G.refSubs (G.elemGeo e) k.codim).length →
    k'.sub < (G.refSubs (G.elemGeo e') k'.codim).length → G.sub e k.codim k.sub = G.sub e' k'.codim k'.sub →
    ∀ x, x ∈ G.verts e k ↔ x ∈ G.verts e' k'
  diagSame : ∀ e k e' k', k.sub < (G.refSubs (G.elemGeo e) k.codim).length →
    k'.sub < (G.refSubs (G.elemGeo e') k'.codim).length → G.sub e k.codim k.sub = G.sub e' k'.codim k'.sub →
    G.geo (G.sub e k.codim k.sub) = ⟨2, 4⟩ → ∀ x y, Diagonal (G.verts e k) x y ↔ Diagonal (G.verts e' k') x y

/-- `LagrangePreBasis::indices`, lagrangebasis.hh:843-873, for one local key. -/
def lagrangeIndex (G : LGrid E S α) (order : Nat) (e : E) (k : Key) : Option Nat :=
  if order = 1 then some (G.idx (G.sub e k.codim k.sub))
  else (computeFaceOrientations (refOf (G.elemGeo e)) (G.ids e) order).bind fun d =>
    (permuteFaceDOF G.dim order k.sub k.codim k.index d).bind fun p =>
      some (mapperIndex G.toGridView (lagrangeLayout order G.dim) (G.sub e k.codim k.sub) + p)

/-- A local key of the Lagrange element of order `order`. -/
def ValidKey (G : LGrid E S α) (order : Nat) (e : E) (k : Key) : Prop :=
  k.codim ≤ G.dim ∧ ∃ t, (stdSubs (G.elemGeo e) k.codim)[k.sub]? = some t ∧ k.index < lagrangeLayout order G.dim t

/-- Interior Lagrange points of sub-entities of dimension 0, 1, 2, as weights of the vertices. -/
def points (order : Nat) (t : Geo) : List (List Nat) :=
  if t = ⟨0, 1⟩ then [[order]]
  else if t = ⟨1, 2⟩ then (List.range (order - 1)).map (edgePoint order)
  else if t = ⟨2, 3⟩ then triPoints order
  else quadPoints order

/-- Two local DOFs are the same global one: same grid entity and same point on it (for the interior of an
element: same number). -/
def SameNode (G : LGrid E S α) (order : Nat) (e : E) (k : Key) (e' : E) (k' : Key) : Prop :=
  G.sub e k.codim k.sub = G.sub e' k'.codim k'.sub ∧
  if k.codim = 0 then k.index = k'.index
  else ∃ w w', (points order (G.geo (G.sub e k.codim k.sub)))[k.index]? = some w ∧
    (points order (G.geo (G.sub e' k'.codim k'.sub)))[k'.index]? = some w' ∧
    SamePoint ((G.verts e k).zip w) ((G.verts e' k').zip w')

theorem refOf_table : ∀ t ∈ elemTypes, (refOf t).dim = t.dim ∧ (refOf t).vertices = t.nv ∧ 1 ≤ t.dim ∧ t.dim ≤ 3 ∧
    (2 ≤ t.dim → refOf t ∈ refElems) ∧ (∀ ab ∈ (refOf t).edges, ab.1 < t.nv ∧ ab.2 < t.nv ∧ ab.1 ≠ ab.2) ∧
    (∀ fv ∈ (refOf t).facets, (fv.length = 3 ∨ fv.length = 4) ∧ fv.Nodup ∧ ∀ v ∈ fv, v < t.nv) := by
  simp only [elemTypes, List.forall_mem_cons]
  refine ⟨?_, ?_, ?_, ?_, ?_, ?_, ?_, by simp⟩ <;> refine ⟨rfl, rfl, by decide, by decide, ?_, ?_, ?_⟩ <;>
    first | decide | (intro h; exact absurd h (by decide)) | (intro _; simp [refOf, refElems])

/-- Same entity: the permuted numbers agree iff the points agree. -/
theorem perm_same {G : LGrid E S α} (h : G.OK) (order : Nat) (h17 : G.dim = 3 → order ≤ 17) (e : E) (k : Key) (e' : E) (k' : Key)
    (hk : ValidKey G order e k) (hk' : ValidKey G order e' k')
    (hs : G.sub e k.codim k.sub = G.sub e' k'.codim k'.sub) :
    ∃ d d' p p', computeFaceOrientations (refOf (G.elemGeo e)) (G.ids e) order = some d ∧
      computeFaceOrientations (refOf (G.elemGeo e')) (G.ids e') order = some d' ∧
      permuteFaceDOF G.dim order k.sub k.codim k.index d = some p ∧
      permuteFaceDOF G.dim order k'.sub k'.codim k'.index d' = some p' ∧
      p < lagrangeLayout order G.dim (G.geo (G.sub e k.codim k.sub)) ∧
      (p = p' ↔ SameNode G order e k e' k') := by
  obtain ⟨hc, t, ht, hi⟩ := hk
  obtain ⟨hc', t', ht', hi'⟩ := hk'
  have hg := h.base.subGeo e k.codim k.sub t (by rw [h.std]; exact ht)
  have hg' := h.base.subGeo e' k'.codim k'.sub t' (by rw [h.std]; exact ht')
  have htt : t' = t := by rw [← hg, ← hg', hs]
  subst htt
  obtain ⟨r1, r2, r3, r4, r5, r6, r7⟩ := refOf_table _ (h.type e)
  obtain ⟨q1, q2, q3, q4, q5, q6, q7⟩ := refOf_table _ (h.type e')
  have hdim := (h.base.elemMem e).2
  have hdim' := (h.base.elemMem e').2
  have hl : k.sub < (G.refSubs (G.elemGeo e) k.codim).length := by
    rw [h.std]; exact (List.getElem?_eq_some_iff.mp ht).1
  have hl' : k'.sub < (G.refSubs (G.elemGeo e') k'.codim).length := by
    rw [h.std]; exact (List.getElem?_eq_some_iff.mp ht').1
  have hV := h.vertsSame e k e' k' hl hl' hs
  simp only [stdSubs, List.getElem?_map, Option.map_eq_some_iff] at ht ht'
  obtain ⟨v, hv, rfl⟩ := ht
  obtain ⟨v', hv', hvv⟩ := ht'
  simp only [Geo.mk.injEq] at hvv
  have hcc : k'.codim = k.codim := by omega
  have hverts : G.verts e k = v.map (G.ids e) := by
    simp [LGrid.verts, List.getD_eq_getElem?_getD, hv]
  have hverts' : G.verts e' k' = v'.map (G.ids e') := by
    simp [LGrid.verts, List.getD_eq_getElem?_getD, hv']
  rw [hverts, hverts'] at hV
  have hex : ∀ (re : RefElem) (ids : Nat → α), (2 ≤ re.dim → re ∈ refElems) → ∃ d, computeFaceOrientations re ids order = some d := by
    intro re ids hre
    by_cases h2 : 2 ≤ re.dim
    · obtain ⟨d, hd, -⟩ := faceOrientations_spec (hre h2) ids (requestedCodims re order)
      exact ⟨d, hd⟩
    · rw [computeFaceOrientations, faceOrientations, if_neg (by omega)]
      exact ⟨_, rfl⟩
  rw [hg]
  by_cases hc0 : k.codim = 0
  · -- interior
    obtain ⟨d, hd⟩ := hex _ (G.ids e) (by rw [r1]; exact r5)
    obtain ⟨d', hd'⟩ := hex _ (G.ids e') (by rw [q1]; exact q5)
    have hp : ∀ (s i : Nat) (d : Bits), permuteFaceDOF G.dim order s 0 i d = some i := by
      intro s i d; simp [permuteFaceDOF]
    refine ⟨d, d', k.index, k'.index, hd, hd', by rw [hc0, hp], by rw [hcc, hc0, hp], hi, ?_⟩
    rw [SameNode, if_pos hc0]
    exact ⟨fun h => ⟨hs, h⟩, fun h => h.2⟩
  by_cases hcd : k.codim = G.dim
  · -- vertices
    obtain ⟨d, hd⟩ := hex _ (G.ids e) (by rw [r1]; exact r5)
    obtain ⟨d', hd'⟩ := hex _ (G.ids e') (by rw [q1]; exact q5)
    have hp : ∀ (s i : Nat) (d : Bits), permuteFaceDOF G.dim order s G.dim i d = some i := by
      intro s i d
      have : G.dim = 1 ∨ G.dim = 2 ∨ G.dim = 3 := by omega
      rcases this with h | h | h <;> simp [permuteFaceDOF, h]
    have hsv : ∀ (re : RefElem) (v : List Nat) (s : Nat), re.dim = G.dim → (subVerts re k.codim)[s]? = some v → ∃ a, v = [a] := by
      intro re v s hd h
      rw [subVerts, if_neg hc0, if_pos (by omega)] at h
      simp only [List.getElem?_map, Option.map_eq_some_iff] at h
      obtain ⟨a, -, rfl⟩ := h
      exact ⟨a, rfl⟩
    obtain ⟨a, rfl⟩ := hsv (refOf (G.elemGeo e)) v k.sub (by omega) hv
    obtain ⟨a', rfl⟩ := hsv (refOf (G.elemGeo e')) v' k'.sub (by omega) (by rw [← hcc]; exact hv')
    have hgeo : (⟨(refOf (G.elemGeo e)).dim - k.codim, [a].length⟩ : Geo) = ⟨0, 1⟩ := by
      rw [Geo.mk.injEq]; exact ⟨by omega, rfl⟩
    rw [hgeo] at hi hi' hg hg' ⊢
    have hord : order ≠ 0 := by
      rintro rfl
      simp only [lagrangeLayout, if_true] at hi
      rw [if_neg (by omega)] at hi; omega
    have hlay : lagrangeLayout order G.dim ⟨0, 1⟩ = 1 := by simp [lagrangeLayout, hord]
    rw [hlay] at hi hi'
    refine ⟨d, d', k.index, k'.index, hd, hd', by rw [hcd, hp], by rw [hcc, hcd, hp], by rw [hlay]; exact hi, ?_⟩
    refine iff_of_true (by omega) ⟨hs, ?_⟩
    rw [if_neg hc0]
    refine ⟨[order], [order], ?_, ?_, ?_⟩
    · rw [hg, show k.index = 0 by omega]; rfl
    · rw [hg', show k'.index = 0 by omega]; rfl
    · rw [hverts, hverts']
      intro x w w' hw hw'
      simp at hw hw'
      rw [hw.2, hw'.2]
  by_cases hce : k.codim = G.dim - 1
  · -- edges
    have hd2 : 2 ≤ G.dim := by omega
    have hre := r5 (by omega)
    have hre' := q5 (by omega)
    have hsv : ∀ (re : RefElem) (v : List Nat) (s : Nat), re.dim = G.dim → (subVerts re k.codim)[s]? = some v →
        ∃ ab, re.edges[s]? = some ab ∧ v = [ab.1, ab.2] := by
      intro re v s hd h
      rw [subVerts, if_neg hc0, if_neg (by omega), if_pos (by omega)] at h
      simp only [List.getElem?_map, Option.map_eq_some_iff] at h
      obtain ⟨ab, h, rfl⟩ := h
      exact ⟨ab, h, rfl⟩
    obtain ⟨⟨a, b⟩, hab, rfl⟩ := hsv (refOf (G.elemGeo e)) v k.sub (by omega) hv
    obtain ⟨⟨a', b'⟩, hab', rfl⟩ := hsv (refOf (G.elemGeo e')) v' k'.sub (by omega) (by rw [← hcc]; exact hv')
    have hgeo : (⟨(refOf (G.elemGeo e)).dim - k.codim, [a, b].length⟩ : Geo) = ⟨1, 2⟩ := by
      rw [Geo.mk.injEq]; exact ⟨by omega, rfl⟩
    simp only at hgeo hi hi' hg hg' hV hverts hverts' ⊢
    rw [hgeo] at hi hi' hg hg' ⊢
    have hord : order ≠ 0 := by
      rintro rfl
      simp only [lagrangeLayout, if_true] at hi
      rw [if_neg (by omega)] at hi; omega
    have hlay : lagrangeLayout order G.dim ⟨1, 2⟩ = order - 1 := by simp [lagrangeLayout, hord]
    rw [hlay] at hi hi' ⊢
    obtain ⟨m1, m2, m3⟩ := r6 _ (List.mem_of_getElem? hab)
    obtain ⟨d, d', hd, hd', hP⟩ := C20_edge order hre hre' (G.ids e) (G.ids e') hab hab'
      (fun heq => m3 (h.idsInj e a b m1 m2 heq)) (by simpa using hV)
    obtain ⟨x, x', hx, hx', hlt, hiff⟩ := hP k.index k'.index hi hi'
    refine ⟨d, d', x, x', hd, hd', ?_, ?_, hlt, ?_⟩
    · rw [← hx, r1, hdim, hce]
    · rw [← hx', q1, hdim', hcc, hce]
    · rw [hiff, SameNode, if_neg hc0]
      constructor
      · intro hsp
        refine ⟨hs, edgePoint order k.index, edgePoint order k'.index, ?_, ?_, by rw [hverts, hverts']; exact hsp⟩
        · rw [hg]; simp [points, hi]
        · rw [hg']; simp [points, hi']
      · rintro ⟨-, w, w', hw, hw', hsp⟩
        rw [hg] at hw
        rw [hg'] at hw'
        simp [points, hi] at hw
        simp [points, hi'] at hw'
        subst hw hw'
        rw [hverts, hverts'] at hsp
        exact hsp
  · -- facets
    have h3 : G.dim = 3 := by omega
    have hc1 : k.codim = 1 := by omega
    have hre := r5 (by omega)
    have hre' := q5 (by omega)
    have hsv : ∀ (re : RefElem) (v : List Nat) (s : Nat), re.dim = G.dim → (subVerts re k.codim)[s]? = some v →
        re.facets[s]? = some v := by
      intro re v s hd h
      rwa [subVerts, if_neg hc0, if_neg (by omega), if_neg (by omega), if_pos (by omega)] at h
    have hf := hsv (refOf (G.elemGeo e)) v k.sub (by omega) hv
    have hf' := hsv (refOf (G.elemGeo e')) v' k'.sub (by omega) (by rw [← hcc]; exact hv')
    obtain ⟨hlen, hndv, hvlt⟩ := r7 _ (List.mem_of_getElem? hf)
    obtain ⟨hlen', hndv', hvlt'⟩ := q7 _ (List.mem_of_getElem? hf')
    have hnd : (v.map (G.ids e)).Nodup := List.Nodup.map_on
      (fun x hx y hy hxy => h.idsInj e x y (hvlt x hx) (hvlt y hy) hxy) hndv
    have hnd' : (v'.map (G.ids e')).Nodup := List.Nodup.map_on
      (fun x hx y hy hxy => h.idsInj e' x y (hvlt' x hx) (hvlt' y hy) hxy) hndv'
    have hord : order ≠ 0 := by
      rintro rfl
      simp only [lagrangeLayout, if_true] at hi
      rw [if_neg (by omega)] at hi; omega
    have h17 := h17 h3
    rcases hlen with hlen | hlen
    · have hgeo : (⟨(refOf (G.elemGeo e)).dim - k.codim, v.length⟩ : Geo) = ⟨2, 3⟩ := by
        rw [Geo.mk.injEq]; exact ⟨by omega, hlen⟩
      rw [hgeo] at hi hi' hg hg' ⊢
      have hlay : lagrangeLayout order G.dim ⟨2, 3⟩ = (order - 1).choose 2 := by simp [lagrangeLayout, hord]
      rw [hlay] at hi hi' ⊢
      have ho3 : 3 ≤ order := by
        by_contra hlt
        rw [Nat.choose_eq_zero_of_lt (by omega)] at hi
        omega
      obtain ⟨d, d', hd, hd', hP⟩ := C21_triangle order ho3 h17 hre hre' (G.ids e) (G.ids e') hf hf' hlen (by omega) hnd hnd' hV
      have hpl : (triPoints order).length = (order - 1).choose 2 := by
        rw [triPoints_eq, List.length_map, baryList_length, Nat.choose_two_right, show order - 1 - 1 = order - 2 by omega,
          show order - 2 + 1 = order - 1 by omega, Nat.mul_comm]
      have hw := List.getElem?_eq_getElem (show k.index < (triPoints order).length by omega)
      have hw' := List.getElem?_eq_getElem (show k'.index < (triPoints order).length by omega)
      obtain ⟨x, x', hx, hx', hlt, hiff⟩ := hP _ _ _ _ hw hw'
      refine ⟨d, d', x, x', hd, hd', ?_, ?_, hlt, ?_⟩
      · rw [← hx, r1, hdim, h3, hc1]
      · rw [← hx', q1, hdim', hcc, h3, hc1]
      · rw [hiff, SameNode, if_neg hc0, hg, hg']
        have hpt : points order ⟨2, 3⟩ = triPoints order := rfl
        rw [hpt, hverts, hverts']
        constructor
        · intro hsp; exact ⟨hs, _, _, hw, hw', hsp⟩
        · rintro ⟨-, w, w', h1, h2, hsp⟩
          rw [hw, Option.some.injEq] at h1
          rw [hw', Option.some.injEq] at h2
          subst h1 h2; exact hsp
    · have hgeo : (⟨(refOf (G.elemGeo e)).dim - k.codim, v.length⟩ : Geo) = ⟨2, 4⟩ := by
        rw [Geo.mk.injEq]; exact ⟨by omega, hlen⟩
      rw [hgeo] at hi hi' hg hg' ⊢
      have hlay : lagrangeLayout order G.dim ⟨2, 4⟩ = (order - 1) ^ 2 := by simp [lagrangeLayout, hord]
      rw [hlay] at hi hi' ⊢
      have ho2 : 2 ≤ order := by
        by_contra hlt
        rw [show order - 1 = 0 by omega] at hi
        simp at hi
      have hD := h.diagSame e k e' k' hl hl' hs hg
      rw [hverts, hverts'] at hD
      obtain ⟨d, d', hd, hd', hP⟩ := C22_quadrilateral order ho2 h17 hre hre' (G.ids e) (G.ids e') hf hf' hlen (by omega) hnd hnd' hV hD
      have hpl : (quadPoints order).length = (order - 1) ^ 2 := by rw [quadPoints_length, Nat.pow_two]
      have hw := List.getElem?_eq_getElem (show k.index < (quadPoints order).length by omega)
      have hw' := List.getElem?_eq_getElem (show k'.index < (quadPoints order).length by omega)
      obtain ⟨x, x', hx, hx', hlt, hiff⟩ := hP _ _ _ _ hw hw'
      refine ⟨d, d', x, x', hd, hd', ?_, ?_, hlt, ?_⟩
      · rw [← hx, r1, hdim, h3, hc1]
      · rw [← hx', q1, hdim', hcc, h3, hc1]
      · rw [hiff, SameNode, if_neg hc0, hg, hg']
        have hpt : points order ⟨2, 4⟩ = quadPoints order := rfl
        rw [hpt, hverts, hverts']
        constructor
        · intro hsp; exact ⟨hs, _, _, hw, hw', hsp⟩
        · rintro ⟨-, w, w', h1, h2, hsp⟩
          rw [hw, Option.some.injEq] at h1
          rw [hw', Option.some.injEq] at h2
          subst h1 h2; exact hsp

theorem offset_zero (gsize : Geo → Nat) (lay : Layout) (t : Geo) : ∀ ts : List Geo,
    (∀ u ∈ ts, u ≠ t → gsize u * lay u = 0) → offset gsize lay ts t = 0
  | [], _ => rfl
  | u :: us, h => by
    rw [offset]
    split
    · rfl
    · rename_i hu
      rw [h u (by simp) hu, offset_zero gsize lay t us fun u hu => h u (by simp [hu])]

theorem stdSubs_types : ∀ t ∈ elemTypes, ∀ c ≤ 3, ∀ u ∈ stdSubs t c,
    u ∈ ([⟨0, 1⟩, ⟨1, 2⟩, ⟨2, 3⟩, ⟨2, 4⟩, ⟨3, 4⟩, ⟨3, 5⟩, ⟨3, 6⟩, ⟨3, 8⟩] : List Geo) := by decide

omit [LinearOrder α] in
/-- The short-cut for order 1 (lagrangebasis.hh:849-860) computes what the general code would compute. -/
theorem order1_shortcut {G : LGrid E S α} (h : G.OK) (e : E) (k : Key) (hk : ValidKey G 1 e k) :
    k.index = 0 ∧ mapperIndex G.toGridView (lagrangeLayout 1 G.dim) (G.sub e k.codim k.sub) = G.idx (G.sub e k.codim k.sub) := by
  have hlay : ∀ u ∈ ([⟨1, 2⟩, ⟨2, 3⟩, ⟨2, 4⟩, ⟨3, 4⟩, ⟨3, 5⟩, ⟨3, 6⟩, ⟨3, 8⟩] : List Geo), lagrangeLayout 1 G.dim u = 0 := by
    intro u hu
    simp only [List.mem_cons, List.not_mem_nil, or_false] at hu
    rcases hu with rfl | rfl | rfl | rfl | rfl | rfl | rfl <;> simp [lagrangeLayout]
  obtain ⟨hc, t, ht, hi⟩ := hk
  have hg := h.base.subGeo e k.codim k.sub t (by rw [h.std]; exact ht)
  have hd := (h.base.elemMem e).2
  have hd3 := (refOf_table _ (h.type e)).2.2.2.1
  have hmem := stdSubs_types _ (h.type e) k.codim (by omega) t (List.mem_of_getElem? ht)
  rw [List.mem_cons] at hmem
  have ht0 : t = ⟨0, 1⟩ := by
    rcases hmem with h | h
    · exact h
    · rw [hlay t h] at hi; omega
  subst ht0
  have h1 : lagrangeLayout 1 G.dim ⟨0, 1⟩ = 1 := by simp [lagrangeLayout]
  refine ⟨by omega, ?_⟩
  rw [mapperIndex, hg, h1, offset_zero, Nat.zero_add, Nat.mul_one]
  intro u hu hne
  rcases Nat.eq_zero_or_pos (G.gsize u) with h0 | h0
  · rw [h0, Nat.zero_mul]
  · obtain ⟨s, hs, -⟩ := h.base.idxSurj u hu 0 h0
    obtain ⟨e', c', i', hc', hi', rfl⟩ := h.base.subSurj s
    rw [h.std] at hi'
    have hgg := h.base.subGeo e' c' i' _ (by rw [h.std]; exact List.getElem?_eq_getElem hi')
    rw [hs] at hgg
    have hd' := (h.base.elemMem e').2
    have hd3' := (refOf_table _ (h.type e')).2.2.2.1
    have hm := stdSubs_types _ (h.type e') c' (by omega) u (by rw [hgg]; exact List.getElem_mem hi')
    rw [List.mem_cons] at hm
    rcases hm with h | h
    · exact absurd h hne
    · rw [hlay u h, Nat.mul_zero]

/-- Conformity of the Lagrange basis (C20–C22 for the whole basis): on any grid of any mix of element types of
dimension 1, 2, 3 and for any accepted order, every local DOF gets a global index below `dimension()`, and two local DOFs
of the same or of different elements get the same global index iff they are the same Lagrange node. -/
theorem C20_C22_conformity {G : LGrid E S α} (h : G.OK) (order : Nat) (h17 : G.dim = 3 → order ≤ 17)
    (e : E) (k : Key) (e' : E) (k' : Key) (hk : ValidKey G order e k) (hk' : ValidKey G order e' k') :
    ∃ n n', lagrangeIndex G order e k = some n ∧ lagrangeIndex G order e' k' = some n' ∧
      n < mapperSize G.toGridView (lagrangeLayout order G.dim) ∧ (n = n' ↔ SameNode G order e k e' k') := by
  -- shape of the index
  have hix : ∀ e k, ValidKey G order e k → ∃ d p, computeFaceOrientations (refOf (G.elemGeo e)) (G.ids e) order = some d ∧
      permuteFaceDOF G.dim order k.sub k.codim k.index d = some p ∧
      p < lagrangeLayout order G.dim (G.geo (G.sub e k.codim k.sub)) ∧
      lagrangeIndex G order e k =
        some (mapperIndex G.toGridView (lagrangeLayout order G.dim) (G.sub e k.codim k.sub) + p) := by
    intro e k hk
    obtain ⟨d, d', p, p', hd, -, hp, -, hlt, -⟩ := perm_same h order h17 e k e k hk hk rfl
    refine ⟨d, p, hd, hp, hlt, ?_⟩
    by_cases h1 : order = 1
    · subst h1
      obtain ⟨hi, hm⟩ := order1_shortcut h e k hk
      rw [lagrangeIndex, if_pos rfl, hm]
      have hp0 : p = 0 := by
        have : permuteFaceDOF G.dim 1 k.sub k.codim k.index d = some k.index := by
          simp [permuteFaceDOF]
        rw [this] at hp
        simp at hp
        omega
      rw [hp0, Nat.add_zero]
    · rw [lagrangeIndex, if_neg h1, hd, Option.bind_some, hp, Option.bind_some]
  obtain ⟨d, p, hd, hp, hlt, hn⟩ := hix e k hk
  obtain ⟨d', p', hd', hp', hlt', hn'⟩ := hix e' k' hk'
  refine ⟨_, _, hn, hn', mapper_lt h.base _ _ _ hlt, ?_⟩
  rw [mapper_inj h.base _ _ _ _ _ hlt hlt']
  constructor
  · rintro ⟨hs, hpp⟩
    obtain ⟨d2, d2', q, q', g1, g2, g3, g4, -, g5⟩ := perm_same h order h17 e k e' k' hk hk' hs
    rw [hd, Option.some.injEq] at g1
    rw [hd', Option.some.injEq] at g2
    subst g1 g2
    rw [hp, Option.some.injEq] at g3
    rw [hp', Option.some.injEq] at g4
    subst g3 g4
    exact g5.mp hpp
  · intro hsn
    refine ⟨hsn.1, ?_⟩
    obtain ⟨d2, d2', q, q', g1, g2, g3, g4, -, g5⟩ := perm_same h order h17 e k e' k' hk hk' hsn.1
    rw [hd, Option.some.injEq] at g1
    rw [hd', Option.some.injEq] at g2
    subst g1 g2
    rw [hp, Option.some.injEq] at g3
    rw [hp', Option.some.injEq] at g4
    subst g3 g4
    exact g5.mpr hsn

omit [LinearOrder α] in
theorem samePoint_zip {l : List α} {w w' : List Nat} (hw : w.length = l.length) (hw' : w'.length = l.length)
    (h : SamePoint (l.zip w) (l.zip w')) : w = w' := by
  apply List.ext_getElem (by omega)
  intro i h1 h2
  have hi : i < l.length := by omega
  refine h l[i] w[i] w'[i] ?_ ?_ <;> rw [List.mem_iff_getElem] <;> exact ⟨i, by simp; omega, by simp⟩

theorem points_nodup (order : Nat) (t : Geo) : (points order t).Nodup := by
  rw [points]
  split
  · simp
  split
  · refine List.Nodup.map_on ?_ List.nodup_range
    intro x hx y hy hxy
    simp [edgePoint] at hxy
    omega
  split
  · rw [triPoints_eq]
    refine List.Nodup.map_on ?_ (baryList_nodup _)
    rintro ⟨a, b, c⟩ _ ⟨a', b', c'⟩ _ hxy
    simp at hxy
    simp [hxy]
  · rw [quadPoints, List.nodup_flatMap]
    refine ⟨?_, ?_⟩
    · intro y hy
      refine List.Nodup.map_on ?_ List.nodup_range
      intro x hx x' hx' heq
      simp only [List.cons.injEq, and_true] at heq
      have := Nat.eq_of_mul_eq_mul_right (Nat.succ_pos y) heq.2.2.2
      omega
    · refine List.Nodup.pairwise_of_forall_ne List.nodup_range ?_
      intro y hy y' hy' hne
      simp only [Function.onFun, List.disjoint_left, List.mem_map, List.mem_range] at *
      rintro _ ⟨x, hx, rfl⟩ ⟨x', hx', heq⟩
      simp only [List.cons.injEq, and_true] at heq
      obtain ⟨-, -, h3, h4⟩ := heq
      have e1 : (order - (x + 1)) * (y + 1) + (x + 1) * (y + 1) = order * (y + 1) := by
        rw [← Nat.add_mul]; congr 1; omega
      have e2 : (order - (x' + 1)) * (y' + 1) + (x' + 1) * (y' + 1) = order * (y' + 1) := by
        rw [← Nat.add_mul]; congr 1; omega
      have := Nat.eq_of_mul_eq_mul_left (show 0 < order by omega) (show order * (y' + 1) = order * (y + 1) by omega)
      omega

theorem points_length (order : Nat) (t : Geo) (ht : t ∈ ([⟨0, 1⟩, ⟨1, 2⟩, ⟨2, 3⟩, ⟨2, 4⟩] : List Geo)) :
    ∀ w ∈ points order t, w.length = t.nv := by
  simp only [List.mem_cons, List.not_mem_nil, or_false] at ht
  rcases ht with rfl | rfl | rfl | rfl
  · simp [points]
  · simp [points, edgePoint]
  · intro w hw
    simp [points, triPoints] at hw
    obtain ⟨a, -, b, -, rfl⟩ := hw
    rfl
  · intro w hw
    simp [points, quadPoints] at hw
    obtain ⟨a, -, b, -, rfl⟩ := hw
    rfl

theorem stdSubs_lower : ∀ t ∈ elemTypes, ∀ c ≤ t.dim, c ≠ 0 → ∀ i < (stdSubs t c).length,
    ∃ u v, (stdSubs t c)[i]? = some u ∧ (subVerts (refOf t) c)[i]? = some v ∧ v.length = u.nv ∧ v.Nodup ∧ (∀ x ∈ v, x < t.nv) ∧
      u ∈ ([⟨0, 1⟩, ⟨1, 2⟩, ⟨2, 3⟩, ⟨2, 4⟩] : List Geo) := by
  have h : ∀ t ∈ elemTypes, ∀ c ≤ t.dim, c ≠ 0 → ∀ i < (stdSubs t c).length,
      (stdSubs t c).getD i ⟨0, 0⟩ ∈ ([⟨0, 1⟩, ⟨1, 2⟩, ⟨2, 3⟩, ⟨2, 4⟩] : List Geo) ∧
      ((subVerts (refOf t) c).getD i []).length = ((stdSubs t c).getD i ⟨0, 0⟩).nv ∧
      ((subVerts (refOf t) c).getD i []).Nodup ∧ ∀ x ∈ (subVerts (refOf t) c).getD i [], x < t.nv := by
    decide +kernel
  intro t ht c hc h0 i hi
  obtain ⟨h1, h2, h3, h4⟩ := h t ht c hc h0 i hi
  have hi' : i < (subVerts (refOf t) c).length := by simpa [stdSubs] using hi
  simp only [List.getD_eq_getElem?_getD, List.getElem?_eq_getElem hi, List.getElem?_eq_getElem hi', Option.getD_some] at h1 h2 h3 h4
  exact ⟨_, _, List.getElem?_eq_getElem hi, List.getElem?_eq_getElem hi', h2, h3, h4, h1⟩

omit [LinearOrder α] in
/-- On one element different local keys are different nodes. -/
theorem sameNode_self {G : LGrid E S α} (h : G.OK) (order : Nat) (e : E) (k k' : Key) (hk : ValidKey G order e k)
    (hk' : ValidKey G order e k') : SameNode G order e k e k' → k = k' := by
  rintro ⟨hs, hp⟩
  obtain ⟨hc, t, ht, hi⟩ := hk
  obtain ⟨hc', t', ht', hi'⟩ := hk'
  obtain ⟨g1, g2⟩ := h.base.subInj e k.codim k.sub k'.codim k'.sub
    (by rw [h.std]; exact (List.getElem?_eq_some_iff.mp ht).1) (by rw [h.std]; exact (List.getElem?_eq_some_iff.mp ht').1) hs
  have hidx : k.index = k'.index := by
    by_cases h0 : k.codim = 0
    · rwa [if_pos h0] at hp
    · rw [if_neg h0] at hp
      obtain ⟨w, w', hw, hw', hsp⟩ := hp
      obtain ⟨u, v, hu, hv, hlen, hnd, hlt, hm⟩ := stdSubs_lower _ (h.type e) k.codim
        (by rw [(h.base.elemMem e).2]; exact hc) h0 k.sub (List.getElem?_eq_some_iff.mp ht).1
      have hg := h.base.subGeo e k.codim k.sub u (by rw [h.std]; exact hu)
      rw [← hs, hg] at hw'
      rw [hg] at hw
      have hverts : ∀ j, G.verts e ⟨k.sub, k.codim, j⟩ = v.map (G.ids e) := by
        intro j
        simp [LGrid.verts, List.getD_eq_getElem?_getD, hv]
      have e1 : G.verts e k = v.map (G.ids e) := hverts k.index
      have e2 : G.verts e k' = v.map (G.ids e) := by
        have := hverts k'.index
        rw [g1, g2] at this
        exact this
      rw [e1, e2] at hsp
      have hww := samePoint_zip (by rw [List.length_map, hlen]; exact points_length order u hm w (List.mem_of_getElem? hw))
        (by rw [List.length_map, hlen]; exact points_length order u hm w' (List.mem_of_getElem? hw')) hsp
      subst hww
      obtain ⟨a1, a2⟩ := List.getElem?_eq_some_iff.mp hw
      obtain ⟨b1, b2⟩ := List.getElem?_eq_some_iff.mp hw'
      exact (points_nodup order u).getElem_inj_iff.mp (a2.trans b2.symm)
  cases k; cases k'; simp_all

/-- Each index below `dimension()` is used: on every element the DOFs of a sub-entity fill its whole block. -/
theorem lagrange_covered {G : LGrid E S α} (h : G.OK) (order : Nat) (h17 : G.dim = 3 → order ≤ 17) (n : Nat)
    (hn : n < mapperSize G.toGridView (lagrangeLayout order G.dim)) :
    ∃ e k, ValidKey G order e k ∧ lagrangeIndex G order e k = some n := by
  obtain ⟨s, j, hj, rfl⟩ := mapper_surj h.base _ n hn
  obtain ⟨e, c, i, hc, hi, rfl⟩ := h.base.subSurj s
  rw [h.std] at hi
  have hg := h.base.subGeo e c i _ (by rw [h.std]; exact List.getElem?_eq_getElem hi)
  -- the map index ↦ permuted index is injective on `0..lay-1`, hence onto
  have hvalid : ∀ i' : Fin (lagrangeLayout order G.dim (G.geo (G.sub e c i))), ValidKey G order e ⟨i, c, i'⟩ := by
    intro i'
    exact ⟨hc, _, List.getElem?_eq_getElem hi, lt_of_lt_of_eq i'.2 (by rw [hg])⟩
  have hf : ∀ i' : Fin (lagrangeLayout order G.dim (G.geo (G.sub e c i))),
      ∃ p : Fin (lagrangeLayout order G.dim (G.geo (G.sub e c i))), lagrangeIndex G order e ⟨i, c, i'⟩ =
        some (mapperIndex G.toGridView (lagrangeLayout order G.dim) (G.sub e c i) + p) := by
    intro i'
    obtain ⟨d, d', p, p', hd, -, hp, -, hlt, -⟩ := perm_same h order h17 e _ e _ (hvalid i') (hvalid i') rfl
    refine ⟨⟨p, hlt⟩, ?_⟩
    by_cases h1 : order = 1
    · subst h1
      obtain ⟨hi, hm⟩ := order1_shortcut h e _ (hvalid i')
      rw [lagrangeIndex, if_pos rfl, hm]
      have hp0 : p = 0 := by
        have : permuteFaceDOF G.dim 1 i c i' d = some i'.1 := by
          simp [permuteFaceDOF]
        simp only at hp hi
        rw [this] at hp
        simp at hp
        omega
      simp [hp0]
    · rw [lagrangeIndex, if_neg h1, hd, Option.bind_some, hp, Option.bind_some]
  choose f hf using hf
  have hinj : Function.Injective f := by
    intro a b hab
    obtain ⟨n, n', h1, h2, -, hiff⟩ := C20_C22_conformity h order h17 e _ e _ (hvalid a) (hvalid b)
    rw [hf a, Option.some.injEq] at h1
    rw [hf b, Option.some.injEq] at h2
    have hsn := hiff.mp (by rw [← h1, ← h2, hab])
    have := sameNode_self h order e _ _ (hvalid a) (hvalid b) hsn
    rw [Key.mk.injEq] at this
    exact Fin.ext this.2.2
  obtain ⟨a, ha⟩ := (Finite.injective_iff_surjective.mp hinj) ⟨j, hj⟩
  exact ⟨e, _, hvalid a, by rw [hf a, ha]⟩

end Verif.Lagrange

import Verif.Lagrange.Discontinuous

/-!
# Lagrange functions on a grid with a prism

A prism, a hexahedron and a tetrahedron: the theorems about Lagrange functions on a grid with three types of elements in which common faces are numbered differently.
-/

namespace Verif.Lagrange.Continuity

open Mapper
open Verif.HDiv (simplexOf cubeOf)
open Verif.Piola (Vec)
open Verif.HDiv.Tangential (bary)

/-- A prism with the vertices 3, 1, 2, 6, 4, 5, a hexahedron at one of its quadrilaterals and a tetrahedron at one of its triangles. -/
def prismGrid : LGrid (Fin 3) (Fin 47) Nat where
  dim := 3
  types := [⟨0, 1⟩, ⟨1, 2⟩, ⟨2, 3⟩, ⟨2, 4⟩, ⟨3, 4⟩, ⟨3, 6⟩, ⟨3, 8⟩]
  gsize := fun t => if t = ⟨0, 1⟩ then 11 else if t = ⟨1, 2⟩ then 20 else if t = ⟨2, 3⟩ then 5 else if t = ⟨2, 4⟩ then 8
    else if t = ⟨3, 4⟩ then 1 else if t = ⟨3, 6⟩ then 1 else if t = ⟨3, 8⟩ then 1 else 0
  geo := fun s => if s.1 = 0 then ⟨3, 6⟩ else if s.1 = 1 then ⟨3, 8⟩ else if s.1 = 2 then ⟨3, 4⟩ else if s.1 < 16 then
    (if s.1 ∈ [6, 7, 13, 14, 15] then ⟨2, 3⟩ else ⟨2, 4⟩) else if s.1 < 36 then ⟨1, 2⟩ else ⟨0, 1⟩
  idx := fun s => if s.1 < 3 then 0 else if s.1 < 16 then [0, 1, 2, 0, 1, 3, 4, 5, 6, 7, 2, 3, 4].getD (s.1 - 3) 0 else if s.1 < 36 then s.1 - 16 else s.1 - 36
  refSubs := stdSubs
  elemGeo := fun e => if e = 0 then ⟨3, 6⟩ else if e = 1 then ⟨3, 8⟩ else ⟨3, 4⟩
  sub := fun e c i =>
    (((([[[0], [3, 4, 5, 6, 7], [16, 17, 18, 19, 20, 21, 22, 23, 24], [36, 37, 38, 39, 40, 41]],
      [[1], [5, 8, 9, 10, 11, 12], [18, 25, 17, 26, 24, 27, 28, 29, 21, 30, 31, 32], [41, 42, 40, 43, 38, 44, 37, 45]],
      [[2], [13, 14, 7, 15], [33, 23, 34, 24, 35, 22], [41, 46, 39, 40]]] : List (List (List (Fin 47)))).getD e.1 []).getD c []).getD i 0)
  ids := fun e v => (([[3, 1, 2, 6, 4, 5], [5, 7, 4, 8, 2, 9, 1, 10], [5, 11, 6, 4]] : List (List Nat)).getD e.1 []).getD v 0

theorem prism_sub_bound {e : Fin 3} {c i : Nat} (h : i < (stdSubs (prismGrid.elemGeo e) c).length) : c < 4 := by
  by_contra hc
  have h2 : subVerts (refOf (prismGrid.elemGeo e)) c = [] := by
    have hd : ∀ e, (refOf (prismGrid.elemGeo e)).dim = 3 := by decide
    rw [subVerts, if_neg (by omega), if_neg (by rw [hd]; omega), if_neg (by rw [hd]; omega), if_neg (by rw [hd]; omega)]
  simp [stdSubs, h2] at h

/-- Codimensions and numbers of the sub-entities of an element. -/
def prismSubs (e : Fin 3) : List (Nat × Nat) := (List.range 4).flatMap fun c => (List.range (stdSubs (prismGrid.elemGeo e) c).length).map fun i => (c, i)

theorem mem_prismSubs {e : Fin 3} {c i : Nat} (h : i < (stdSubs (prismGrid.elemGeo e) c).length) : (c, i) ∈ prismSubs e :=
  List.mem_flatMap.2 ⟨c, List.mem_range.2 (prism_sub_bound h), List.mem_map.2 ⟨i, List.mem_range.2 h, rfl⟩⟩

theorem prismGrid_OK : prismGrid.OK where
  base := {
    typesNodup := by decide
    geoMem := by decide +kernel
    idxLt := by decide +kernel
    idxInj := by decide +kernel
    idxSurj := by decide +kernel
    subGeo := by
      intro e c i t h
      have : ∀ e : Fin 3, ∀ p ∈ prismSubs e, ∀ t ∈ (stdSubs (prismGrid.elemGeo e) p.1)[p.2]?, prismGrid.geo (prismGrid.sub e p.1 p.2) = t := by decide +kernel
      exact this e _ (mem_prismSubs (List.getElem?_eq_some_iff.mp h).1) t h
    subInj := by
      intro e c i c' i' h h' hs
      have : ∀ e : Fin 3, ∀ p ∈ prismSubs e, ∀ q ∈ prismSubs e, prismGrid.sub e p.1 p.2 = prismGrid.sub e q.1 q.2 → p = q := by decide +kernel
      exact Prod.mk.injEq _ _ _ _ ▸ (this e _ (mem_prismSubs h) _ (mem_prismSubs h') hs)
    subSurj := by
      have : ∀ s : Fin 47, ∃ e : Fin 3, ∃ c : Fin 4, ∃ i : Fin 12, i.1 < (stdSubs (prismGrid.elemGeo e) c).length ∧ prismGrid.sub e c i = s := by decide +kernel
      intro s
      obtain ⟨e, c, i, hi, hs⟩ := this s
      exact ⟨e, c, i, Nat.lt_succ_iff.mp c.2, hi, hs⟩
    elemMem := by decide }
  std := fun _ _ => rfl
  type := by decide
  elemInj := by decide
  idsInj := by
    have h1 : ∀ e : Fin 3, ∀ v < (prismGrid.elemGeo e).nv, ∀ v' < (prismGrid.elemGeo e).nv, prismGrid.ids e v = prismGrid.ids e v' → v = v' := by decide +kernel
    exact fun e v v' hv hv' => h1 e v hv v' hv'
  vertsSame := by
    intro e k e' k' h h' hs x
    have : ∀ e e' : Fin 3, ∀ p ∈ prismSubs e, ∀ q ∈ prismSubs e', prismGrid.sub e p.1 p.2 = prismGrid.sub e' q.1 q.2 →
      (prismGrid.verts e ⟨p.2, p.1, 0⟩).Perm (prismGrid.verts e' ⟨q.2, q.1, 0⟩) := by decide +kernel
    exact (this e e' _ (mem_prismSubs h) _ (mem_prismSubs h') hs).mem_iff
  diagSame := by
    intro e k e' k' h h' hs hg x y
    have : ∀ e e' : Fin 3, ∀ p ∈ prismSubs e, ∀ q ∈ prismSubs e', prismGrid.sub e p.1 p.2 = prismGrid.sub e' q.1 q.2 → prismGrid.geo (prismGrid.sub e p.1 p.2) = ⟨2, 4⟩ →
      ∀ a < 4, ∃ b < 4, (prismGrid.verts e ⟨p.2, p.1, 0⟩)[a]? = (prismGrid.verts e' ⟨q.2, q.1, 0⟩)[b]? ∧
        (prismGrid.verts e ⟨p.2, p.1, 0⟩)[3 - a]? = (prismGrid.verts e' ⟨q.2, q.1, 0⟩)[3 - b]? := by decide +kernel
    constructor
    · rintro ⟨a, ha, h1, h2⟩
      obtain ⟨b, hb, h3, h4⟩ := this e e' _ (mem_prismSubs h) _ (mem_prismSubs h') hs hg a ha
      exact ⟨b, hb, h3.symm.trans h1, h4.symm.trans h2⟩
    · rintro ⟨a, ha, h1, h2⟩
      obtain ⟨b, hb, h3, h4⟩ := this e' e _ (mem_prismSubs h') _ (mem_prismSubs h) hs.symm (hs ▸ hg) a ha
      exact ⟨b, hb, h3.symm.trans h1, h4.symm.trans h2⟩

theorem prismGrid_closed : Closed prismGrid := by
  intro e e' c s c' s' h h' hs c2 s2 h2 hv
  have : ∀ e e' : Fin 3, ∀ p ∈ prismSubs e, ∀ q ∈ prismSubs e', prismGrid.sub e p.1 p.2 = prismGrid.sub e' q.1 q.2 → ∀ r ∈ prismSubs e,
      (∀ v ∈ keyVerts (prismGrid.elemGeo e) ⟨r.2, r.1, 0⟩, v ∈ keyVerts (prismGrid.elemGeo e) ⟨p.2, p.1, 0⟩) →
      ∃ s2' : Fin 12, s2'.1 < (stdSubs (prismGrid.elemGeo e') r.1).length ∧ prismGrid.sub e r.1 r.2 = prismGrid.sub e' r.1 s2' := by decide +kernel
  obtain ⟨s2', h1, h3⟩ := this e e' _ (mem_prismSubs h) _ (mem_prismSubs h') hs _ (mem_prismSubs h2) hv
  exact ⟨s2', h1, h3⟩

theorem prism_elem : ∀ e, Supported 3 (prismGrid.elemGeo e) := by decide

/-- The common quadrilateral of the prism and the hexahedron (C69). -/
example (order : Nat) (ho : 1 ≤ order) (h17 : order ≤ 17) (vec : Nat → ℚ) (y z : ℚ) :
    value prismGrid order (fun e => gridKeys prismGrid order (prismGrid.elemGeo e)) (lagrangeValues order (gridKeys prismGrid order)) vec 0 (![1 - y, y, z] : Vec ℚ 3) =
      value prismGrid order (fun e => gridKeys prismGrid order (prismGrid.elemGeo e)) (lagrangeValues order (gridKeys prismGrid order)) vec 1 ![0, 1 - y, 1 - z] := by
  refine C69_continuous (n := 3) prismGrid_OK prismGrid_closed prism_elem ho (fun _ => h17) (gridKeys_keys prismGrid_OK order) vec (c := 1) (s := 2) (c' := 1) (s' := 0)
    (by decide) (by decide) (by decide) (by decide) (by decide) (by decide) ?_ ?_ ?_
  · have : ∀ v < 6, v ∉ keyVerts ⟨3, 6⟩ ⟨2, 1, 0⟩ → v = 0 ∨ v = 3 := by decide
    intro v hv hvF
    rcases this v hv hvF with rfl | rfl <;> simp [vertexWeight, prismGrid, prismBw, prismBary, coordinate]
  · have : ∀ v < 8, v ∉ keyVerts ⟨3, 8⟩ ⟨0, 1, 0⟩ → v = 1 ∨ v = 3 ∨ v = 5 ∨ v = 7 := by decide
    intro v hv hvF
    rcases this v hv hvF with rfl | rfl | rfl | rfl <;> simp [vertexWeight, prismGrid, cubeBw, Fin.prod_univ_three, Nat.testBit]
  · have : ∀ v < 6, ∀ v' < 8, prismGrid.ids 0 v = prismGrid.ids 1 v' → v = 1 ∧ v' = 6 ∨ v = 2 ∧ v' = 4 ∨ v = 4 ∧ v' = 2 ∨ v = 5 ∧ v' = 0 := by
      have t : ∀ v : Fin 6, ∀ v' : Fin 8, prismGrid.ids 0 v = prismGrid.ids 1 v' → (v.1, v'.1) ∈ [(1, 6), (2, 4), (4, 2), (5, 0)] := by decide +kernel
      exact fun v hv v' hv' h => by simpa using t ⟨v, hv⟩ ⟨v', hv'⟩ h
    intro v hv v' hv' hid
    rcases this v hv v' hv' hid with ⟨rfl, rfl⟩ | ⟨rfl, rfl⟩ | ⟨rfl, rfl⟩ | ⟨rfl, rfl⟩ <;>
      simp [vertexWeight, prismGrid, prismBw, prismBary, coordinate, cubeBw, Fin.prod_univ_three, Nat.testBit]

/-- The common triangle of the prism and the tetrahedron (C69). -/
example (order : Nat) (ho : 1 ≤ order) (h17 : order ≤ 17) (vec : Nat → ℚ) (y z : ℚ) :
    value prismGrid order (fun e => gridKeys prismGrid order (prismGrid.elemGeo e)) (lagrangeValues order (gridKeys prismGrid order)) vec 0 (![y, z, 1] : Vec ℚ 3) =
      value prismGrid order (fun e => gridKeys prismGrid order (prismGrid.elemGeo e)) (lagrangeValues order (gridKeys prismGrid order)) vec 2 ![0, 1 - y - z, y] := by
  refine C69_continuous (n := 3) prismGrid_OK prismGrid_closed prism_elem ho (fun _ => h17) (gridKeys_keys prismGrid_OK order) vec (c := 1) (s := 4) (c' := 1) (s' := 2)
    (by decide) (by decide) (by decide) (by decide) (by decide) (by decide) ?_ ?_ ?_
  · have : ∀ v < 6, v ∉ keyVerts ⟨3, 6⟩ ⟨4, 1, 0⟩ → v = 0 ∨ v = 1 ∨ v = 2 := by decide
    intro v hv hvF
    rcases this v hv hvF with rfl | rfl | rfl <;> simp [vertexWeight, prismGrid, prismBw, prismBary, coordinate]
  · have : ∀ v < 4, v ∉ keyVerts ⟨3, 4⟩ ⟨2, 1, 0⟩ → v = 1 := by decide
    intro v hv hvF
    obtain rfl := this v hv hvF
    simp [vertexWeight, prismGrid, bary]
  · have : ∀ v < 6, ∀ v' < 4, prismGrid.ids 0 v = prismGrid.ids 2 v' → v = 3 ∧ v' = 2 ∨ v = 4 ∧ v' = 3 ∨ v = 5 ∧ v' = 0 := by
      have t : ∀ v : Fin 6, ∀ v' : Fin 4, prismGrid.ids 0 v = prismGrid.ids 2 v' → (v.1, v'.1) ∈ [(3, 2), (4, 3), (5, 0)] := by decide +kernel
      exact fun v hv v' hv' h => by simpa using t ⟨v, hv⟩ ⟨v', hv'⟩ h
    intro v hv v' hv' hid
    rcases this v hv v' hv' hid with ⟨rfl, rfl⟩ | ⟨rfl, rfl⟩ | ⟨rfl, rfl⟩ <;>
      simp [vertexWeight, prismGrid, prismBw, prismBary, coordinate, bary, Fin.sum_univ_three]
    ring

/-- The value for order 2 and one coefficient vector in one point of the common quadrilateral, seen from the prism and from the hexahedron. -/
example : value prismGrid 2 (fun e => gridKeys prismGrid 2 (prismGrid.elemGeo e)) (lagrangeValues 2 (gridKeys prismGrid 2)) (fun i => (i : ℚ) ^ 2) 0
    (![4 / 5, 1 / 5, 1 / 3] : Vec ℚ 3) = 151459 / 225 ∧
    value prismGrid 2 (fun e => gridKeys prismGrid 2 (prismGrid.elemGeo e)) (lagrangeValues 2 (gridKeys prismGrid 2)) (fun i => (i : ℚ) ^ 2) 1
    (![0, 4 / 5, 2 / 3] : Vec ℚ 3) = 151459 / 225 := by decide +kernel

/-- Interpolation of a polynomial of degree 2 in global coordinates for any positions of the vertices (C84): exact also on the prism. -/
example (pos : Nat → Vec ℝ 3) (vec : Nat → ℝ) : ∃ r, lagrangeInterpolate prismGrid 2 (gridKeys prismGrid 2)
      (fun e (x : Vec ℝ 3) => MvPolynomial.eval (globalPoint prismGrid pos e x) (MvPolynomial.X 0 * MvPolynomial.X 1)) vec [2, 1, 0] = some r ∧
    ∀ e (x : Vec ℝ 3), value prismGrid 2 (fun e => gridKeys prismGrid 2 (prismGrid.elemGeo e)) (lagrangeValues 2 (gridKeys prismGrid 2)) r e x =
      globalPoint prismGrid pos e x 0 * globalPoint prismGrid pos e x 1 := by
  obtain ⟨r, h1, h2⟩ := C84_reproduce (n := 3) prismGrid_OK prism_elem (order := 2) (by decide) (fun _ => by decide) (gridKeys_keys prismGrid_OK 2) pos
    (MvPolynomial.X 0 * MvPolynomial.X 1) ((MvPolynomial.totalDegree_mul _ _).trans (by simp)) vec [2, 1, 0] (by decide)
  exact ⟨r, h1, fun e x => by rw [h2]; simp⟩

end Verif.Lagrange.Continuity

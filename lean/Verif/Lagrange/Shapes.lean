import Verif.Lagrange.Prism

/-!
# Continuity of Lagrange functions of arbitrary order

Lagrange functions on grids of simplices, cubes and prisms are continuous.
-/

namespace Verif.Lagrange.Continuity

open Mapper
open Verif.Piola (Vec)
open Verif.HDiv (simplexOf cubeOf)
open Verif.HDiv.Trace (corner)
open Verif.HDiv.Tangential (bary bary_combination)

variable {E S α K : Type} [LinearOrder α] [Field K] {n : Nat}

/-! ## Continuity -/

/-- Weights of the vertices at a point of the reference element. -/
def vertexWeight (t : Geo) (v : Nat) (x : Vec K n) : K :=
  if t ∈ ([⟨2, 4⟩, ⟨3, 8⟩] : List Geo) then cubeBw v x else if t = prismType then prismBw v x else bary v x

/-- Shape functions of the Lagrange elements of simplices, cubes and prisms. -/
def lagrangeShape (order : Nat) (t : Geo) (k : Key) (x : Vec K n) : K :=
  if t ∈ ([⟨2, 4⟩, ⟨3, 8⟩] : List Geo) then cubeShape order t k x else if t = prismType then prismShape order k x else simplexShape order t k x

/-- Simplices, cubes and prisms of dimension `m`. -/
def Supported (m : Nat) (t : Geo) : Prop := t ∈ elemTypes ∧ t.dim = m ∧ t ≠ ⟨3, 5⟩

instance (m : Nat) (t : Geo) : Decidable (Supported m t) := by unfold Supported; infer_instance

theorem Supported.cases {t : Geo} (h : Supported n t) : t.dim = n ∧ (t ∈ ([⟨2, 4⟩, ⟨3, 8⟩] : List Geo) ∨ t = prismType ∨ t ∈ ([⟨1, 2⟩, ⟨2, 3⟩, ⟨3, 4⟩] : List Geo)) := by
  obtain ⟨h1, h2, h3⟩ := h
  have : ∀ t ∈ elemTypes, t ≠ ⟨3, 5⟩ → t ∈ ([⟨2, 4⟩, ⟨3, 8⟩] : List Geo) ∨ t = prismType ∨ t ∈ ([⟨1, 2⟩, ⟨2, 3⟩, ⟨3, 4⟩] : List Geo) := by decide +kernel
  exact ⟨h2, this t h1 h3⟩

theorem supported_simplex {m : Nat} (hm : m ≤ 2) : Supported (m + 1) (simplexOf (m + 1)) := by
  have : m = 0 ∨ m = 1 ∨ m = 2 := by omega
  rcases this with rfl | rfl | rfl <;> decide

theorem not_cube_of_simplex : ∀ t ∈ ([⟨1, 2⟩, ⟨2, 3⟩, ⟨3, 4⟩] : List Geo), t ∉ ([⟨2, 4⟩, ⟨3, 8⟩] : List Geo) ∧ t ≠ prismType := by decide

theorem not_cube_prism : prismType ∉ ([⟨2, 4⟩, ⟨3, 8⟩] : List Geo) := by decide

theorem vertexWeight_cube {t : Geo} (h : t ∈ ([⟨2, 4⟩, ⟨3, 8⟩] : List Geo)) : vertexWeight (K := K) (n := n) t = cubeBw := by
  funext v x; rw [vertexWeight, if_pos h]

theorem vertexWeight_prism : vertexWeight (K := K) (n := n) prismType = prismBw := by
  funext v x; rw [vertexWeight, if_neg not_cube_prism, if_pos rfl]

theorem vertexWeight_simplex {t : Geo} (h : t ∈ ([⟨1, 2⟩, ⟨2, 3⟩, ⟨3, 4⟩] : List Geo)) : vertexWeight (K := K) (n := n) t = bary := by
  funext v x; rw [vertexWeight, if_neg (not_cube_of_simplex t h).1, if_neg (not_cube_of_simplex t h).2]

theorem lagrangeShape_cube (order : Nat) {t : Geo} (h : t ∈ ([⟨2, 4⟩, ⟨3, 8⟩] : List Geo)) : lagrangeShape (K := K) (n := n) order t = cubeShape order t := by
  funext k x; rw [lagrangeShape, if_pos h]

theorem lagrangeShape_prism (order : Nat) : lagrangeShape (K := K) (n := n) order prismType = prismShape order := by
  funext k x; rw [lagrangeShape, if_neg not_cube_prism, if_pos rfl]

theorem lagrangeShape_simplex (order : Nat) {t : Geo} (h : t ∈ ([⟨1, 2⟩, ⟨2, 3⟩, ⟨3, 4⟩] : List Geo)) : lagrangeShape (K := K) (n := n) order t = simplexShape order t := by
  funext k x; rw [lagrangeShape, if_neg (not_cube_of_simplex t h).1, if_neg (not_cube_of_simplex t h).2]

/-- The shape functions satisfy the contract. -/
theorem lagrange_traces [CharZero K] {order : Nat} (ho : 1 ≤ order) {t : Geo} (ht : Supported n t) : Traces (X := Vec K n) order t (vertexWeight t) (lagrangeShape order t) := by
  obtain ⟨hn, hq | rfl | hs⟩ := ht.cases
  · rw [vertexWeight_cube hq, lagrangeShape_cube order hq]
    exact cube_traces ho hq hn
  · rw [vertexWeight_prism, lagrangeShape_prism]
    exact prism_traces ho
  · rw [vertexWeight_simplex hs, lagrangeShape_simplex order hs]
    exact simplex_traces ho hs

/-- `evaluateFunction` of the element of type `t`, whose local keys are `keys`. -/
def lagrangeValues (order : Nat) (keys : Geo → List Key) (t : Geo) (x : Vec K n) : List K := (keys t).map fun k => lagrangeShape order t k x

/-- Lagrange functions of any order on grids of simplices, cubes and prisms are continuous: the values on two elements agree in the points of a common face. -/
theorem C69_continuous [CharZero K] {G : LGrid E S α} (h : G.OK) (closed : Closed G) (helem : ∀ e, Supported n (G.elemGeo e)) {order : Nat} (ho : 1 ≤ order) (h17 : G.dim = 3 → order ≤ 17) {keys : Geo → List Key}
    (hk : LagrangeKeys G order fun e => keys (G.elemGeo e)) (vec : Nat → K) {e e' : E} {c s c' s' : Nat} (hc1 : 1 ≤ c)
    (hs : s < (stdSubs (G.elemGeo e) c).length) (hs' : s' < (stdSubs (G.elemGeo e') c').length) (hc : c ≤ G.dim) (hc' : c' ≤ G.dim)
    (hsub : G.sub e c s = G.sub e' c' s') {x x' : Vec K n}
    (hx : ∀ v < (G.elemGeo e).nv, v ∉ keyVerts (G.elemGeo e) ⟨s, c, 0⟩ → vertexWeight (G.elemGeo e) v x = 0)
    (hx' : ∀ v < (G.elemGeo e').nv, v ∉ keyVerts (G.elemGeo e') ⟨s', c', 0⟩ → vertexWeight (G.elemGeo e') v x' = 0)
    (hxx : ∀ v < (G.elemGeo e).nv, ∀ v' < (G.elemGeo e').nv, G.ids e v = G.ids e' v' → vertexWeight (G.elemGeo e) v x = vertexWeight (G.elemGeo e') v' x') :
    value G order (fun e => keys (G.elemGeo e)) (lagrangeValues order keys) vec e x =
      value G order (fun e => keys (G.elemGeo e)) (lagrangeValues order keys) vec e' x' := by
  exact C69_face h closed h17 hk (lagrangeValues order keys) vertexWeight (lagrangeShape order) (fun _ _ => rfl) (fun e => lagrange_traces ho (helem e)) vec hc1 hs hs' hc hc' hsub
    hx hx' hxx

/-- Simplices: continuity in the convex combinations of the vertices of a common face. -/
theorem C69_simplex [CharZero K] {G : LGrid E S α} (h : G.OK) (closed : Closed G) (hdim : G.dim = n + 1) (helem : ∀ e, G.elemGeo e = simplexOf (n + 1))
    {order : Nat} (ho : 1 ≤ order) (h17 : G.dim = 3 → order ≤ 17) {keys : Geo → List Key} (hk : LagrangeKeys G order fun e => keys (G.elemGeo e)) (vec : Nat → K) {e e' : E}
    {c s c' s' : Nat} (hc1 : 1 ≤ c) (hs : s < (stdSubs (simplexOf (n + 1)) c).length) (hs' : s' < (stdSubs (simplexOf (n + 1)) c').length) (hc : c ≤ n + 1)
    (hc' : c' ≤ n + 1) (hsub : G.sub e c s = G.sub e' c' s') (lam : α → K)
    (hlam : ∀ v < n + 2, v ∉ keyVerts (simplexOf (n + 1)) ⟨s, c, 0⟩ → lam (G.ids e v) = 0)
    (hlam' : ∀ v < n + 2, v ∉ keyVerts (simplexOf (n + 1)) ⟨s', c', 0⟩ → lam (G.ids e' v) = 0)
    (hsum : ∑ v ∈ Finset.range (n + 2), lam (G.ids e v) = 1) (hsum' : ∑ v ∈ Finset.range (n + 2), lam (G.ids e' v) = 1) :
    value G order (fun e => keys (G.elemGeo e)) (lagrangeValues order keys) vec e (∑ v ∈ Finset.range (n + 2), lam (G.ids e v) • corner K n v) =
      value G order (fun e => keys (G.elemGeo e)) (lagrangeValues order keys) vec e' (∑ v ∈ Finset.range (n + 2), lam (G.ids e' v) • corner K n v) := by
  have hn : n ≤ 2 := by
    have := (refOf_table _ (h.type e)).2.2.2.1
    rw [(h.base.elemMem e).2] at this
    omega
  have hq : ∀ e, G.elemGeo e ∈ ([⟨1, 2⟩, ⟨2, 3⟩, ⟨3, 4⟩] : List Geo) := by
    intro e
    rw [helem]
    exact simplexOf_mem hn
  have hw : ∀ e, ∑ v ∈ Finset.range (n + 2), lam (G.ids e v) = 1 → ∀ v < n + 2,
      vertexWeight (G.elemGeo e) v (∑ v ∈ Finset.range (n + 2), lam (G.ids e v) • corner K n v) = lam (G.ids e v) := by
    intro e he v hv
    rw [vertexWeight_simplex (hq e), bary_combination (fun v => lam (G.ids e v)) he hv]
  have hnv : ∀ e, (G.elemGeo e).nv = n + 2 := by intro e; rw [helem]; rfl
  refine C69_continuous h closed (fun e => by rw [helem]; exact supported_simplex hn) ho h17 hk vec hc1 (by rw [helem]; exact hs) (by rw [helem]; exact hs') (by omega) (by omega) hsub ?_ ?_ ?_
  · intro v hv hvF
    rw [hnv] at hv
    rw [helem] at hvF
    rw [hw e hsum v hv, hlam v hv hvF]
  · intro v hv hvF
    rw [hnv] at hv
    rw [helem] at hvF
    rw [hw e' hsum' v hv, hlam' v hv hvF]
  · intro v hv v' hv' hid
    rw [hnv] at hv hv'
    rw [hw e hsum v hv, hw e' hsum' v' hv', hid]

/-! ## Nodal values -/

/-- The Lagrange polynomials of the interval. -/
theorem linePoly_nodal [CharZero K] {order X Y : Nat} (ho : 1 ≤ order) (hX : X ≤ order) (hY : Y ≤ order) :
    linePoly order X ((Y : K) / order) = if X = Y then 1 else 0 := by
  have h0 : (order : K) ≠ 0 := by exact_mod_cast (by omega : order ≠ 0)
  rw [linePoly, factor_choose order X (b := Y) (by field_simp), factor_choose order (order - X) (b := order - Y) (by rw [Nat.cast_sub hY]; field_simp)]
  split
  · rename_i h
    subst h
    simp
  · rename_i h
    rcases Nat.lt_or_gt_of_ne h with hlt | hlt
    · rw [Nat.choose_eq_zero_of_lt (by omega : order - Y < order - X)]
      simp
    · rw [Nat.choose_eq_zero_of_lt (by omega : Y < X)]
      simp

/-! ## Example -/

/-- A quadrilateral with the vertices 10, 20, 30, 40 and a triangle with the vertices 40, 20, 50. -/
def mixedGrid : LGrid (Fin 2) (Fin 13) Nat where
  dim := 2
  types := [⟨0, 1⟩, ⟨1, 2⟩, ⟨2, 3⟩, ⟨2, 4⟩]
  gsize := fun t => if t = ⟨0, 1⟩ then 5 else if t = ⟨1, 2⟩ then 6 else if t = ⟨2, 3⟩ then 1 else if t = ⟨2, 4⟩ then 1 else 0
  geo := fun s => if s.1 = 0 then ⟨2, 4⟩ else if s.1 = 1 then ⟨2, 3⟩ else if s.1 < 8 then ⟨1, 2⟩ else ⟨0, 1⟩
  idx := fun s => if s.1 < 2 then 0 else if s.1 < 8 then s.1 - 2 else s.1 - 8
  refSubs := stdSubs
  elemGeo := fun e => if e = 0 then ⟨2, 4⟩ else ⟨2, 3⟩
  sub := fun e c i =>
    if e = 0 then (if c = 0 then 0 else if c = 1 then (if i = 0 then 2 else if i = 1 then 3 else if i = 2 then 4 else 5)
       else (if i = 0 then 8 else if i = 1 then 9 else if i = 2 then 10 else 11))
    else (if c = 0 then 1 else if c = 1 then (if i = 0 then 3 else if i = 1 then 6 else 7) else (if i = 0 then 11 else if i = 1 then 9 else 12))
  ids := fun e v => if e = 0 then (if v = 0 then 10 else if v = 1 then 20 else if v = 2 then 30 else 40) else (if v = 0 then 40 else if v = 1 then 20 else 50)

theorem mixed_sub_bound {e : Fin 2} {c i : Nat} (h : i < (stdSubs (mixedGrid.elemGeo e) c).length) : c < 3 ∧ i < 4 := by
  by_cases hc : 3 ≤ c
  · have h2 : subVerts (refOf (mixedGrid.elemGeo e)) c = [] := by
      have hd : ∀ e, (refOf (mixedGrid.elemGeo e)).dim = 2 := by decide
      rw [subVerts, if_neg (by omega), if_neg (by rw [hd]; omega), if_neg (by rw [hd]; omega), if_neg (by rw [hd]; omega)]
    simp [stdSubs, h2] at h
  · have h3 : ∀ e, ∀ c < 3, (stdSubs (mixedGrid.elemGeo e) c).length ≤ 4 := by decide
    have := h3 e c (by omega)
    omega

theorem mixedGrid_OK : mixedGrid.OK where
  base := {
    typesNodup := by decide
    geoMem := by decide
    idxLt := by decide
    idxInj := by decide
    idxSurj := by decide
    subGeo := by
      intro e c i t h
      have hb := mixed_sub_bound (List.getElem?_eq_some_iff.mp h).1
      have : ∀ e : Fin 2, ∀ c < 3, ∀ i < 4, ∀ t ∈ (stdSubs (mixedGrid.elemGeo e) c)[i]?, mixedGrid.geo (mixedGrid.sub e c i) = t := by decide
      exact this e c hb.1 i hb.2 t h
    subInj := by
      intro e c i c' i' h h'
      have hb := mixed_sub_bound h
      have hb' := mixed_sub_bound h'
      have : ∀ e : Fin 2, ∀ c : Fin 3, ∀ i : Fin 4, ∀ c' : Fin 3, ∀ i' : Fin 4, i.1 < (stdSubs (mixedGrid.elemGeo e) c).length →
        i'.1 < (stdSubs (mixedGrid.elemGeo e) c').length → mixedGrid.sub e c i = mixedGrid.sub e c' i' → c.1 = c'.1 ∧ i.1 = i'.1 := by decide +kernel
      exact this e ⟨c, hb.1⟩ ⟨i, hb.2⟩ ⟨c', hb'.1⟩ ⟨i', hb'.2⟩ h h'
    subSurj := by
      have : ∀ s : Fin 13, ∃ e : Fin 2, ∃ c : Fin 3, ∃ i : Fin 4, i.1 < (stdSubs (mixedGrid.elemGeo e) c).length ∧ mixedGrid.sub e c i = s := by decide +kernel
      intro s
      obtain ⟨e, c, i, hi, hs⟩ := this s
      exact ⟨e, c, i, Nat.lt_succ_iff.mp c.2, hi, hs⟩
    elemMem := by decide }
  std := fun _ _ => rfl
  type := by decide
  elemInj := by decide
  idsInj := by
    have h1 : ∀ e : Fin 2, ∀ v < (mixedGrid.elemGeo e).nv, ∀ v' < (mixedGrid.elemGeo e).nv, mixedGrid.ids e v = mixedGrid.ids e v' → v = v' := by decide
    exact fun e v v' hv hv' => h1 e v hv v' hv'
  vertsSame := by
    intro e k e' k' h h' hs
    have hb := mixed_sub_bound h
    have hb' := mixed_sub_bound h'
    have : ∀ e e' : Fin 2, ∀ c : Fin 3, ∀ i : Fin 4, ∀ c' : Fin 3, ∀ i' : Fin 4, i.1 < (stdSubs (mixedGrid.elemGeo e) c).length →
        i'.1 < (stdSubs (mixedGrid.elemGeo e') c').length → mixedGrid.sub e c i = mixedGrid.sub e' c' i' →
        (mixedGrid.verts e ⟨i, c, 0⟩).Perm (mixedGrid.verts e' ⟨i', c', 0⟩) := by decide +kernel
    intro x
    exact (this e e' ⟨k.codim, hb.1⟩ ⟨k.sub, hb.2⟩ ⟨k'.codim, hb'.1⟩ ⟨k'.sub, hb'.2⟩ h h' hs).mem_iff
  diagSame := by
    intro e k e' k' h h' hs hg
    have hb := mixed_sub_bound h
    have hb' := mixed_sub_bound h'
    have : ∀ e e' : Fin 2, ∀ c : Fin 3, ∀ i : Fin 4, ∀ c' : Fin 3, ∀ i' : Fin 4, i.1 < (stdSubs (mixedGrid.elemGeo e) c).length →
        i'.1 < (stdSubs (mixedGrid.elemGeo e') c').length → mixedGrid.sub e c i = mixedGrid.sub e' c' i' → mixedGrid.geo (mixedGrid.sub e c i) = ⟨2, 4⟩ →
        mixedGrid.verts e ⟨i, c, 0⟩ = mixedGrid.verts e' ⟨i', c', 0⟩ := by decide +kernel
    have := this e e' ⟨k.codim, hb.1⟩ ⟨k.sub, hb.2⟩ ⟨k'.codim, hb'.1⟩ ⟨k'.sub, hb'.2⟩ h h' hs hg
    intro x y
    change Diagonal (mixedGrid.verts e ⟨k.sub, k.codim, 0⟩) x y ↔ Diagonal (mixedGrid.verts e' ⟨k'.sub, k'.codim, 0⟩) x y
    rw [show mixedGrid.verts e ⟨k.sub, k.codim, 0⟩ = mixedGrid.verts e' ⟨k'.sub, k'.codim, 0⟩ from this]

theorem mixedGrid_closed : Closed mixedGrid := by
  intro e e' c s c' s' h h' hs c2 s2 h2 hv
  have hb := mixed_sub_bound h
  have hb' := mixed_sub_bound h'
  have hb2 := mixed_sub_bound h2
  have : ∀ e e' : Fin 2, ∀ c : Fin 3, ∀ i : Fin 4, ∀ c' : Fin 3, ∀ i' : Fin 4, ∀ c2 : Fin 3, ∀ i2 : Fin 4, i.1 < (stdSubs (mixedGrid.elemGeo e) c).length →
      i'.1 < (stdSubs (mixedGrid.elemGeo e') c').length → mixedGrid.sub e c i = mixedGrid.sub e' c' i' → i2.1 < (stdSubs (mixedGrid.elemGeo e) c2).length →
      (∀ v ∈ keyVerts (mixedGrid.elemGeo e) ⟨i2, c2, 0⟩, v ∈ keyVerts (mixedGrid.elemGeo e) ⟨i, c, 0⟩) →
      ∃ s2' : Fin 4, s2'.1 < (stdSubs (mixedGrid.elemGeo e') c2).length ∧ mixedGrid.sub e c2 i2 = mixedGrid.sub e' c2 s2' := by decide +kernel
  obtain ⟨s2', h1, h3⟩ := this e e' ⟨c, hb.1⟩ ⟨s, hb.2⟩ ⟨c', hb'.1⟩ ⟨s', hb'.2⟩ ⟨c2, hb2.1⟩ ⟨s2, hb2.2⟩ h h' hs h2 hv
  exact ⟨s2', h1, h3⟩

/-- The keys allowed by the layout. -/
def gridKeys (G : LGrid E S α) (order : Nat) (t : Geo) : List Key := allKeys G.toGridView (lagrangeLayout order G.dim) t

omit [LinearOrder α] in
theorem gridKeys_keys {G : LGrid E S α} (h : G.OK) (order : Nat) : LagrangeKeys G order fun e => gridKeys G order (G.elemGeo e) where
  nodup e := allKeys_nodup _ _ _
  mem e k := by
    rw [gridKeys, mem_allKeys, ValidKey, h.std]

/-- The common edge of the quadrilateral and the triangle: for any order and coefficients, the values agree. -/
example (order : Nat) (ho : 1 ≤ order) (vec : Nat → ℚ) (y : ℚ) :
    value mixedGrid order (fun e => gridKeys mixedGrid order (mixedGrid.elemGeo e)) (lagrangeValues order (gridKeys mixedGrid order)) vec 0 (![1, y] : Vec ℚ 2) =
      value mixedGrid order (fun e => gridKeys mixedGrid order (mixedGrid.elemGeo e)) (lagrangeValues order (gridKeys mixedGrid order)) vec 1 ![1 - y, 0] := by
  refine C69_continuous (n := 2) mixedGrid_OK mixedGrid_closed (by decide) ho (fun h => absurd h (by decide)) (gridKeys_keys mixedGrid_OK order) vec (c := 1) (s := 1) (c' := 1) (s' := 0)
    (by decide) (by decide) (by decide) (by decide) (by decide) (by decide) ?_ ?_ ?_
  · have : ∀ v < 4, v ∉ keyVerts ⟨2, 4⟩ ⟨1, 1, 0⟩ → v = 0 ∨ v = 2 := by decide
    intro v hv hvF
    rcases this v hv hvF with rfl | rfl <;> simp [vertexWeight, mixedGrid, cubeBw, Fin.prod_univ_two, Nat.testBit]
  · have : ∀ v < 3, v ∉ keyVerts ⟨2, 3⟩ ⟨0, 1, 0⟩ → v = 2 := by decide
    intro v hv hvF
    obtain rfl := this v hv hvF
    simp [vertexWeight, mixedGrid, bary]
  · have : ∀ v < 4, ∀ v' < 3, mixedGrid.ids 0 v = mixedGrid.ids 1 v' → v = 1 ∧ v' = 1 ∨ v = 3 ∧ v' = 0 := by decide
    intro v hv v' hv' hid
    rcases this v hv v' hv' hid with ⟨rfl, rfl⟩ | ⟨rfl, rfl⟩ <;> simp [vertexWeight, mixedGrid, cubeBw, bary, Fin.prod_univ_two, Nat.testBit]

/-- Its value for order 3 and one coefficient vector in one point. -/
example : value mixedGrid 3 (fun e => gridKeys mixedGrid 3 (mixedGrid.elemGeo e)) (lagrangeValues 3 (gridKeys mixedGrid 3)) (fun i => (i : ℚ) ^ 2) 0
    (![1, 1 / 5] : Vec ℚ 2) = 3961 / 125 := by decide +kernel

end Verif.Lagrange.Continuity

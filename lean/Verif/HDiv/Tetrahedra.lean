import Verif.HDiv.NedelecSpace

/-!
# Two tetrahedra

A grid of two tetrahedra with a common facet whose vertices have different local numbers in the two elements. It shows that the assumptions of the theorems about Raviart–Thomas and Nédélec functions
on tetrahedra can be satisfied.
-/

namespace Verif.HDiv.Tangential

open Matrix Verif.Mapper Verif.Lagrange Verif.Piola

/-- Entities: 0, 1 elements; 2–8 facets; 9–17 edges; 18–22 vertices. The vertices are (0, 1, 2, 3) and (4, 2, 1, 3); their ids are their indices plus 100. -/
def tets : LGrid (Fin 2) (Fin 23) Nat where
  dim := 3
  types := [⟨0, 1⟩, ⟨1, 2⟩, ⟨2, 3⟩, ⟨3, 4⟩]
  gsize := fun t => if t = ⟨0, 1⟩ then 5 else if t = ⟨1, 2⟩ then 9 else if t = ⟨2, 3⟩ then 7 else if t = ⟨3, 4⟩ then 2 else 0
  geo := fun s => if s.1 < 2 then ⟨3, 4⟩ else if s.1 < 9 then ⟨2, 3⟩ else if s.1 < 18 then ⟨1, 2⟩ else ⟨0, 1⟩
  idx := fun s => if s.1 < 2 then s.1 else if s.1 < 9 then s.1 - 2 else if s.1 < 18 then s.1 - 9 else s.1 - 18
  refSubs := stdSubs
  elemGeo := fun _ => ⟨3, 4⟩
  sub := fun e c i => if e = 0 then (if c = 0 then 0 else if c = 1 then [2, 3, 4, 5].getD i 0 else if c = 2 then [9, 10, 11, 12, 13, 14].getD i 0 else [18, 19, 20, 21].getD i 0)
    else (if c = 0 then 1 else if c = 1 then [6, 7, 8, 5].getD i 0 else if c = 2 then [15, 16, 11, 17, 14, 13].getD i 0 else [22, 20, 19, 21].getD i 0)
  ids := fun e v => if e = 0 then [100, 101, 102, 103].getD v 0 else [104, 102, 101, 103].getD v 0

theorem tets_bound {c i : Nat} (h : i < (stdSubs ⟨3, 4⟩ c).length) : c < 4 ∧ i < 6 := by
  by_cases hc : c < 4
  · refine ⟨hc, lt_of_lt_of_le h ?_⟩
    have : ∀ c < 4, (stdSubs ⟨3, 4⟩ c).length ≤ 6 := by decide
    exact this c hc
  · have : subVerts (refOf ⟨3, 4⟩) c = [] := by
      have h3 : (refOf ⟨3, 4⟩).dim = 3 := by decide
      rw [subVerts, h3, if_neg (by omega), if_neg (by omega), if_neg (by omega), if_neg (by omega)]
    simp [stdSubs, this] at h

theorem tets_OK : tets.OK where
  base := {
    typesNodup := by decide
    geoMem := by decide +kernel
    idxLt := by decide +kernel
    idxInj := by decide +kernel
    idxSurj := by decide +kernel
    subGeo := by
      intro e c i t h
      have hb := tets_bound (List.getElem?_eq_some_iff.mp h).1
      have : ∀ e : Fin 2, ∀ c < 4, ∀ i < 6, ∀ t ∈ (stdSubs ⟨3, 4⟩ c)[i]?, tets.geo (tets.sub e c i) = t := by decide +kernel
      exact this e c hb.1 i hb.2 t h
    subInj := by
      intro e c i c' i' h h'
      have hb := tets_bound h
      have hb' := tets_bound h'
      have : ∀ e : Fin 2, ∀ c c' : Fin 4, ∀ i i' : Fin 6, i.1 < (stdSubs ⟨3, 4⟩ c).length → i'.1 < (stdSubs ⟨3, 4⟩ c').length →
          tets.sub e c i = tets.sub e c' i' → c.1 = c'.1 ∧ i.1 = i'.1 := by decide +kernel
      exact this e ⟨c, hb.1⟩ ⟨c', hb'.1⟩ ⟨i, hb.2⟩ ⟨i', hb'.2⟩ h h'
    subSurj := by
      have : ∀ s : Fin 23, ∃ e : Fin 2, ∃ c : Fin 4, ∃ i : Fin 6, i.1 < (stdSubs ⟨3, 4⟩ c).length ∧ tets.sub e c i = s := by decide +kernel
      intro s
      obtain ⟨e, c, i, hi, hs⟩ := this s
      exact ⟨e, c, i, Nat.lt_succ_iff.mp c.2, hi, hs⟩
    elemMem := by decide }
  std := fun _ _ => rfl
  type := by decide
  elemInj := by decide
  idsInj := by
    have : ∀ e : Fin 2, ∀ v < 4, ∀ v' < 4, tets.ids e v = tets.ids e v' → v = v' := by decide
    exact fun e v v' hv hv' => this e v hv v' hv'
  vertsSame := by
    intro e k e' k' h h' hs
    have hb := tets_bound h
    have hb' := tets_bound h'
    have : ∀ e e' : Fin 2, ∀ c c' : Fin 4, ∀ i i' : Fin 6, i.1 < (stdSubs ⟨3, 4⟩ c).length → i'.1 < (stdSubs ⟨3, 4⟩ c').length →
        tets.sub e c i = tets.sub e' c' i' → (tets.verts e ⟨i, c, 0⟩).Perm (tets.verts e' ⟨i', c', 0⟩) := by decide +kernel
    intro x
    exact (this e e' ⟨k.codim, hb.1⟩ ⟨k'.codim, hb'.1⟩ ⟨k.sub, hb.2⟩ ⟨k'.sub, hb'.2⟩ h h' hs).mem_iff
  diagSame := by
    intro e k e' k' h h' hs hg
    have : ∀ s, tets.geo s ≠ ⟨2, 4⟩ := by decide
    exact absurd hg (this _)

/-- Positions by vertex index. -/
def tetsPos (v : Nat) : Vec ℝ 3 := if v = 0 then ![0, 0, 0] else if v = 1 then ![1, 0, 0] else if v = 2 then ![0, 1, 0] else if v = 3 then ![0, 0, 1] else ![1, 1, 1]

def tetsJac (e : Fin 2) : Mat ℝ 3 := if e = 0 then 1 else !![-1, 0, -1; 0, -1, -1; -1, -1, 0]

def tetsIsects (e : Fin 2) : List (Isect (Fin 2)) := [⟨0, none, true⟩, ⟨1, none, true⟩, ⟨2, none, true⟩, ⟨3, some (if e = 0 then 1 else 0), true⟩]

theorem tets_std : StdGrid tets.toGridView := ⟨tets_OK.base, tets_OK.std, tets_OK.type, tets_OK.elemInj⟩

theorem tets_simplices : Simplices tets.toGridView none 2 := ⟨⟨tets_std, Or.inr rfl, fun _ => Or.inl rfl, by simp⟩, rfl, fun _ => rfl⟩

theorem tets_conforming : Conforming tets.toGridView := by
  have key : ∀ (e e' : Fin 2) (i i' : Fin 6), ∀ p ∈ (tetrahedron.edges[i.val]?).toList, ∀ q ∈ (tetrahedron.edges[i'.val]?).toList,
      (tets.sub e 2 i = tets.sub e' 2 i' ↔ (tets.sub e 3 p.1 = tets.sub e' 3 q.1 ∧ tets.sub e 3 p.2 = tets.sub e' 3 q.2) ∨
        (tets.sub e 3 p.1 = tets.sub e' 3 q.2 ∧ tets.sub e 3 p.2 = tets.sub e' 3 q.1)) := by decide +kernel
  intro e e' i i' a b a' b' hi hi'
  replace hi : tetrahedron.edges[i]? = some (a, b) := hi
  replace hi' : tetrahedron.edges[i']? = some (a', b') := hi'
  have hl : i < 6 := (List.getElem?_eq_some_iff.1 hi).1
  have hl' : i' < 6 := (List.getElem?_eq_some_iff.1 hi').1
  exact key e e' ⟨i, hl⟩ ⟨i', hl'⟩ (a, b) (by simp [hi]) (a', b') (by simp [hi'])

theorem tets_affine : Affine tets.toGridView 2 tetsPos tetsJac fun e => ofJacobian fun _ => tetsJac e where
  columns := by
    intro e d j
    fin_cases e <;> fin_cases d <;> fin_cases j <;> simp [tetsJac, tetsPos, vertexIndex, tets]
  ok := fun e x => ofJacobian_OK _ x (by fin_cases e <;> simp [tetsJac, Matrix.det_fin_three])

theorem tets_shared {e e' : Fin 2} {i i' : Nat} (hne : e ≠ e') (hi : i < 4) (hi' : i' < 4) (hs : tets.sub e 1 i = tets.sub e' 1 i') :
    i = 3 ∧ i' = 3 ∧ ((e = 0 ∧ e' = 1) ∨ (e = 1 ∧ e' = 0)) := by
  have : ∀ (e e' : Fin 2) (i i' : Fin 4), e ≠ e' → tets.sub e 1 i = tets.sub e' 1 i' →
      i.val = 3 ∧ i'.val = 3 ∧ ((e = 0 ∧ e' = 1) ∨ (e = 1 ∧ e' = 0)) := by decide
  exact this e e' ⟨i, hi⟩ ⟨i', hi'⟩ hne hs

theorem tets_simplexGrid : Trace.SimplexGrid tets 2 (fun m => tetsPos (m - 100)) tetsJac where
  ok := tets_OK
  dim := rfl
  simplices := fun _ => rfl
  jac := by
    intro e d j
    fin_cases e <;> fin_cases d <;> fin_cases j <;> simp [tetsPos, tetsJac, tets]
  sides := by
    intro e e' i i' hne hi hi' hs
    obtain ⟨rfl, rfl, h⟩ := tets_shared hne hi hi' hs
    rw [vol_three, vol_three]
    have c : ∀ p q r : ℝ, (![p, q, r] : Vec ℝ (2 + 1)) 2 = r := fun _ _ _ => rfl
    rcases h with ⟨rfl, rfl⟩ | ⟨rfl, rfl⟩ <;>
      norm_num [Trace.facetVertex, simplexOf, refOf, subVerts, tetrahedron, tets, tetsPos, c]

theorem tets_neighbours : Trace.Neighbours tets.toGridView tetsIsects where
  inside := by decide
  shared := by
    intro e e' i i' hne hi hi' hs
    obtain ⟨rfl, rfl, h⟩ := tets_shared hne hi hi' hs
    rcases h with ⟨rfl, rfl⟩ | ⟨rfl, rfl⟩ <;> decide

theorem tets_same : SameVertices tets 2 (fun m => tetsPos (m - 100)) tetsPos where
  ids := by
    have : ∀ (e e' : Fin 2) (v v' : Fin 4), tets.ids e v = tets.ids e' v' → vertexIndex tets.toGridView e v = vertexIndex tets.toGridView e' v' := by decide
    exact fun e e' v v' hv hv' => this e e' ⟨v, hv⟩ ⟨v', hv'⟩
  pos := by
    have : ∀ (e : Fin 2) (v : Fin 4), tets.ids e v - 100 = vertexIndex tets.toGridView e v := by decide
    intro e v hv
    show tetsPos (tets.ids e v - 100) = _
    rw [this e ⟨v, hv⟩]

/-- The rotation of every Nédélec function on the two tetrahedra is a Raviart–Thomas function. -/
example (vec : Nat → ℝ) : ∃ α : Fin 2 → Vec ℝ 3, (∀ e, ∃ p, ∀ x, nedelecValue tets.toGridView none (fun e => ofJacobian fun _ => tetsJac e) vec e x =
      some (p + α e ⨯₃ Trace.global (tetsPos (vertexIndex tets.toGridView e 0)) (tetsJac e) x)) ∧
    ∃ vec', ∀ e x, Trace.rtValue tets none tetsIsects (fun e => ofJacobian fun _ => tetsJac e) 2 vec' e x = some ((2 : ℝ) • α e) :=
  C88_curl tets_simplices tets_conforming tets_affine tets_simplexGrid tets_same tets_neighbours two_ne_zero vec

/-- The coefficients of the edges of the common facet determine the tangential components on it, from both sides. -/
example (vec vec' : Nat → ℝ) (h : vec 2 = vec' 2) (h4 : vec 4 = vec' 4) (h5 : vec 5 = vec' 5) (e : Fin 2) (w τ : Nat → ℝ) (hw : w 1 + w 2 + w 3 = 1) (hτ : τ 1 + τ 2 + τ 3 = 0)
    (h0 : w 0 = 0 ∧ τ 0 = 0 ∧ w 4 = 0 ∧ τ 4 = 0) :
    ∃ v v', nedelecValue tets.toGridView none (fun e => ofJacobian fun _ => tetsJac e) vec e (localOf tets.toGridView 2 w e) = some v ∧
      nedelecValue tets.toGridView none (fun e => ofJacobian fun _ => tetsJac e) vec' e (localOf tets.toGridView 2 w e) = some v' ∧
      v ⬝ᵥ (∑ k ∈ Finset.range 4, τ (vertexIndex tets.toGridView e k) • tetsPos (vertexIndex tets.toGridView e k)) =
        v' ⬝ᵥ (∑ k ∈ Finset.range 4, τ (vertexIndex tets.toGridView e k) • tetsPos (vertexIndex tets.toGridView e k)) := by
  refine (C88_face tets_simplices tets_affine vec vec' e fun v => v ≠ 0).1 ?_ w τ ?_ ?_ ?_
  · have key : ∀ (e : Fin 2) (i : Fin 6), (simplexEdges 3)[i].1 ≠ 0 → nedelecIndex tets.toGridView e i = 2 ∨ nedelecIndex tets.toGridView e i = 4 ∨ nedelecIndex tets.toGridView e i = 5 := by
      decide +kernel
    intro i hi _
    rcases key e i hi with h' | h' | h' <;> rw [h'] <;> assumption
  · fin_cases e <;> simp [Finset.sum_range_succ, vertexIndex, tets] <;> linarith
  · fin_cases e <;> simp [Finset.sum_range_succ, vertexIndex, tets] <;> linarith
  · intro v hv hF
    obtain rfl : v = 0 := by simpa using hF
    fin_cases e <;> simp [vertexIndex, tets, h0]

end Verif.HDiv.Tangential

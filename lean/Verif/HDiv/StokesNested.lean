import Verif.HDiv.StokesTrees
import Verif.Functions.BlockMatrix

/-!
# The Stokes problem with nested matrices and vectors

The whole program of examples/stokes-taylorhood.cc, with its nested containers.
-/

namespace Verif.HDiv.Trees

open Verif.Mapper Verif.Lagrange Verif.IndexTree Verif.RoundTrip Verif.Product Verif.Dofs Verif.Container Verif.Dirichlet Verif.Galerkin
open Verif.Interpolate (Interp interpolate visits)
open Verif.Assign (Lib)
open Verif.Piola (Vec)
open Verif.Discrete (Shapes VecOK slotsOn)
open Verif.HDiv.BoundaryMixed (BoundaryFacets)

variable {E S K : Type} [Field K] [LinearOrder K] [IsStrictOrderedRing K] {n : Nat}

/-! ## Specification -/

/-- The coefficient vector of a discrete function that reads a nested vector with multi-indices. -/
def nestedVec (blocked : Bool) (X : Nat → Nat → Nat → K) : Discrete.Vec K := fun m => some [coefs blocked X m]

/-! ## Theorem -/

/-- **C117.** The program of examples/stokes-taylorhood.cc with its nested matrix, in both variants: a nested vector solves the nested system whose right hand side is the vector of boundary values if and only
if it has the coefficients of a solution of the Stokes problem in the discrete spaces. -/
theorem C117_stokes (blocked : Bool) {A : Setting E S K n} (hA : A.OK) {P : Shapes E (Vec K (n + 1)) K} (hD : 0 < P.dimworld) {L L1 : Leaf E} (hL : (PB.leaf L).WF) (hL1 : (PB.leaf L1).WF)
    {b : PB E} (hbt : b = thTree blocked P.dimworld L L1) {kind : List Nat → LeafKind} (hT : Tree A b kind P)
    (hP : P.OK ⟨b.model, []⟩) (hd : P.dimC = 1) (hsep : Separate ⟨b.model, []⟩ P) {keys : Nat → E → List Key} (hk : KeysMatch keys (LocalView.fresh b.model).tree)
    (hkeys : TreeKeys b keys fun p => (kind p).keys A) {hasBoundary : E → Bool} {bisects : E → List BIsect} (hB : BoundaryFacets A.G hasBoundary bisects) {els : List E} (hels : ∀ e, e ∈ els)
    (hne : ∀ e, L.loc e ≠ []) (hne1 : ∀ e, L1.loc e ≠ []) (hrow : ∀ k < P.dimworld, P.rows [0, k] = 1) (hrow1 : P.rows [1] = 1)
    (hsame : ∀ k < P.dimworld, ∀ e x i, shapeOf P true [0, k] e x i = shapeOf P true [0, 0] e x i)
    (htr : ∀ k < P.dimworld, (kind [0, k]).HasTrace A)
    {lib : Lib Bool Bool} (hlib : lib.Numbers) {rsB : CT → List (Ct Bool) → Nat → List (Ct Bool)} (hrsB : ResizeOK rsB) {rs : CT → List (Ct K) → Nat → List (Ct K)} (hrs : ResizeOK rs)
    (tyB : CT) (bits bits1 : Ct Bool) (hcB : HasType tyB bits) (hrB : Container.resize rsB b.model.size tyB bits = .ok bits1)
    (htyB : ∀ m ∈ IndexSet b.model, ∀ t, CT.at m tyB = some t → t.Padded)
    (ty : CT) (c c1 : Ct K) (hc : HasType ty c) (hr : Container.resize rs b.model.size ty c = .ok c1) (hc1 : ∀ m ∈ IndexSet b.model, coef (asVec c1) m = 0)
    (hty : ∀ m ∈ IndexSet b.model, ∀ t, CT.at m ty = some t → t.Padded)
    (I : Interp E K) (hI : ∀ w ∈ visits b.model [0] els, w.i < (I.coefs w.element w.path).length) (Q : Quadrature E (Vec K (n + 1)) K) :
    ∃ B mk full c' B', assembleBlocks blocked P.dimworld b.model (stokesMatrix P Q) els = some B ∧
      boundaryMarker lib rsB b.model [0] keys (fun e i c k => stdInc (A.G.elemGeo e) i c k.codim k.sub) hasBoundary bisects els tyB bits = some mk ∧
      interpolate rs b.model [0] ty I .allTrue els c = .ok full ∧
      setBoundary lib rsB rs b.model [0] keys (fun e i c k => stdInc (A.G.elemGeo e) i c k.codim k.sub) hasBoundary bisects els tyB bits ty I c = some c' ∧
      blockRows blocked b.model (bit mk) els B = some B' ∧
      ∀ X, (∀ m ∈ IndexSet b.model, ∃ i n k, place blocked m = some (i, n, k) ∧ B'.row X i n k = coef (asVec c') m) ↔
        Stokes A b kind P bisects els Q (asVec full) (nestedVec blocked X) := by
  subst hbt
  have hb := thTree_WF (hi := blocked) hD hL hL1
  have H := th_fits hb
  obtain ⟨s0, s1⟩ := th_sizes blocked P.dimworld L L1
  have h0 : ∀ k < P.dimworld, Part (thTree blocked P.dimworld L L1) [0, k] _ _ := fun k hk => .composite (k := 0) rfl (.power hk (.leaf _))
  have h1 : Part (thTree blocked P.dimworld L L1) [1] _ _ := .composite (k := 1) rfl (.leaf _)
  have ht : ∀ q L' f, Part (thTree blocked P.dimworld L L1) q L' f → [0] <+: q → (kind q).HasTrace A := by
    intro q L' f hq hpre
    cases hq with
    | @composite _ _ j b q _ _ hj h =>
      obtain rfl : 0 = j := (List.cons_prefix_cons.1 hpre).1
      simp only [List.getElem?_cons_zero, Option.some.injEq] at hj
      subst hj
      cases h with
      | power hk h => cases h; exact htr _ hk
  have hrows := rows_of hb hels
  obtain ⟨M, mk, full, c', M', m1, m2, m3, m4, m5, m6⟩ := C115_trees hA hb ⟨trivial, trivial, trivial⟩ hT hP hd hsep hk hkeys hB hels hD h0 h1 (fun _ => rfl) (fun _ => rfl) hne hne1 hrow hrow1 hsame
    (.composite (k := 0) rfl (.nil _)) ht hlib hrsB hrs tyB bits bits1 hcB hrB htyB ty c c1 hc hr hc1 hty I hI Q hrows
  obtain ⟨B, b1, b2⟩ := blocks_spec hb rfl H s0 s1 m1
  obtain ⟨B', c1, c2⟩ := blockRows_spec H b2 m5
  refine ⟨B, mk, full, c', B', b1, m2, m3, m4, c1, fun X => ?_⟩
  rw [← m6 (nestedVec blocked X) fun m _ => ⟨_, rfl, rfl⟩]
  refine forall_congr' fun r => ?_
  rw [hrows.mem r]
  refine forall_congr' fun hr => ?_
  obtain ⟨i, n, k, d1, d2⟩ := row_both H c2 X hr
  rw [show coef (nestedVec blocked X) = coefs blocked X from rfl, ← d2]
  simp only [d1, Option.some.injEq, Prod.mk.injEq]
  constructor
  · rintro ⟨_, _, _, ⟨rfl, rfl, rfl⟩, h⟩
    exact h
  · exact fun h => ⟨i, n, k, ⟨rfl, rfl, rfl⟩, h⟩

/-! ## Example -/

/-- The Taylor–Hood basis on the trapezoid and the triangle, with any Jacobians, rules and boundary function: the variant with `BLOCKEDBASIS`. -/
example (I : Interp (Fin 2) ℝ) (hI : ∀ w ∈ visits taylorHood.model [0] [0, 1], w.i < (I.coefs w.element w.path).length) (Q : Quadrature (Fin 2) (Vec ℝ 2) ℝ)
    (D : LeafKind → Fin 2 → Vec ℝ 2 → Nat → Nat → Nat → ℝ) (J : Fin 2 → Vec ℝ 2 → List (List ℝ)) :
    ∃ B mk full c' B', assembleBlocks true 2 taylorHood.model (stokesMatrix (taylorHoodShapes D J) Q) [0, 1] = some B ∧
      boundaryMarker bitLib (stdResize true) taylorHood.model [0] taylorHoodKeys (fun e i c k => stdInc (demo.G.elemGeo e) i c k.codim k.sub) (fun _ => true)
        BoundaryMixed.demoBoundary [0, 1] taylorHoodTy (taylorHoodEmpty Bool) = some mk ∧
      interpolate (stdResize 0) taylorHood.model [0] taylorHoodTy I .allTrue [0, 1] (taylorHoodEmpty ℝ) = .ok full ∧
      setBoundary bitLib (stdResize true) (stdResize 0) taylorHood.model [0] taylorHoodKeys (fun e i c k => stdInc (demo.G.elemGeo e) i c k.codim k.sub) (fun _ => true)
        BoundaryMixed.demoBoundary [0, 1] taylorHoodTy (taylorHoodEmpty Bool) taylorHoodTy I (taylorHoodEmpty ℝ) = some c' ∧
      blockRows true taylorHood.model (bit mk) [0, 1] B = some B' ∧
      ∀ X, (∀ m ∈ IndexSet taylorHood.model, ∃ i n k, place true m = some (i, n, k) ∧ B'.row X i n k = coef (asVec c') m) ↔
        Stokes demo taylorHood taylorHoodKind (taylorHoodShapes D J) BoundaryMixed.demoBoundary [0, 1] Q (asVec full) (nestedVec true X) := by
  have hels : ∀ e : Fin 2, e ∈ [0, 1] := by decide
  have hs : ∀ k < 2, taylorHoodKind [0, k] = .lagrange 2 := fun k _ => by simp [taylorHoodKind]
  have hwf := taylorHood_WF
  simp only [taylorHood, PB.WF, PB.WFs] at hwf
  exact C117_stokes (b := taylorHood) (P := taylorHoodShapes D J) true demo_OK Nat.two_pos hwf.2.1.2 hwf.2.2.1 rfl (taylorHood_tree D J) (taylorHood_shapes D J) rfl (taylorHood_separate D J) taylorHood_keysMatch
    taylorHood_treeKeys BoundaryMixed.demo_boundary hels (by decide +kernel) (by decide +kernel)
    (fun k hk => by simp [taylorHoodShapes, treeShapes, hs k hk, LeafKind.rows]) rfl (fun k hk e x i => by simp [shapeOf, taylorHoodShapes, treeShapes, hs k hk, hs 0 (by decide)])
    (fun k _ => taylorHood_hasTrace _) bitLib_numbers (stdResize_OK true) (stdResize_OK 0)
    taylorHoodTy _ _ (taylorHoodEmpty_type _) (taylorHood_resized true) taylorHood_padded taylorHoodTy _ _ (taylorHoodEmpty_type _) (taylorHood_resized 0) taylorHood_zero taylorHood_padded I hI Q

end Verif.HDiv.Trees

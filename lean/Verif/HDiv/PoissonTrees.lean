import Verif.HDiv.GalerkinTrees
import Verif.Functions.LocalMatrix

/-!
# The mixed Poisson problem

The whole program of examples/poisson-mfem.cc, with the element matrices computed by quadrature rules.
-/

namespace Verif.HDiv.Trees

open Verif.Mapper Verif.Lagrange Verif.IndexTree Verif.RoundTrip Verif.Product Verif.Dofs Verif.Container Verif.Dirichlet Verif.Galerkin
open Verif.Interpolate (Interp interpolate visits)
open Verif.Assign (Lib)
open Verif.Piola (Vec)
open Verif.Discrete (Shapes VecOK)
open Verif.HDiv.BoundaryMixed (BoundaryFacets)
open Finset (range)

variable {E S K : Type} [Field K] [LinearOrder K] [IsStrictOrderedRing K] {n : Nat}

/-! ## Specification -/

/-- The mixed Poisson problem: the flux of `x` has the normal components of `g` at the boundary, and `∫ σ·τ + div τ u + div σ v = -∫ f v` for all fluxes `τ` without normal components at the boundary and
all pressures `v`. -/
def MixedPoisson (A : Setting E S K n) (b : PB E) (kind : List Nat → LeafKind) (P : Shapes E (Vec K (n + 1)) K) (bisects : E → List BIsect) (els : List E)
    (Q : Quadrature E (Vec K (n + 1)) K) (f : E → Vec K (n + 1) → K) (g x : Discrete.Vec K) : Prop :=
  SameBoundary A b kind P bisects els [0] x g ∧
    ∀ w, VecOK ⟨b.model, []⟩ 1 w → SameBoundary A b kind P bisects els [0] w zeroVec →
      integral Q els (fun e y =>
        ∑ k ∈ range P.dimworld, valueOf b P x false [0] e y k 0 * valueOf b P w false [0] e y k 0 +
        ((∑ k ∈ range P.dimworld, valueOf b P w true [0] e y k k) * valueOf b P x false [1] e y 0 0 +
        (∑ k ∈ range P.dimworld, valueOf b P x true [0] e y k k) * valueOf b P w false [1] e y 0 0)) =
      integral Q els fun e y => -valueOf b P w false [1] e y 0 0 * f e y

/-! ## Theorem -/

/-- **C114.** The program of examples/poisson-mfem.cc: the solutions of the linear system are the coefficients of the solutions of the mixed Poisson problem in the discrete spaces. -/
theorem C114_trees_mixed {A : Setting E S K n} (hA : A.OK) {b : PB E} (hb : b.WF) (hpl : Plain b) {kind : List Nat → LeafKind} {P : Shapes E (Vec K (n + 1)) K} (hT : Tree A b kind P)
    (hP : P.OK ⟨b.model, []⟩) (hd : P.dimC = 1) (hsep : Separate ⟨b.model, []⟩ P) {keys : Nat → E → List Key} (hk : KeysMatch keys (LocalView.fresh b.model).tree)
    (hkeys : TreeKeys b keys fun p => (kind p).keys A) {hasBoundary : E → Bool} {bisects : E → List BIsect} (hB : BoundaryFacets A.G hasBoundary bisects) {els : List E} (hels : ∀ e, e ∈ els)
    {L0 L1 : Leaf E} {f0 f1 : E → Bool} (hp0 : Part b [0] L0 f0) (hp1 : Part b [1] L1 f1) (he0 : ∀ e, f0 e = true) (he1 : ∀ e, f1 e = true)
    (hne0 : ∀ e, L0.loc e ≠ []) (hne1 : ∀ e, L1.loc e ≠ []) (hrow0 : P.rows [0] = P.dimworld) (hrow1 : P.rows [1] = 1)
    (htr : ∀ q L f, Part b q L f → [0] <+: q → (kind q).HasTrace A)
    {lib : Lib Bool Bool} (hlib : lib.Numbers) {rsB : CT → List (Ct Bool) → Nat → List (Ct Bool)} (hrsB : ResizeOK rsB) {rs : CT → List (Ct K) → Nat → List (Ct K)} (hrs : ResizeOK rs)
    (tyB : CT) (bits bits1 : Ct Bool) (hcB : HasType tyB bits) (hrB : Container.resize rsB b.model.size tyB bits = .ok bits1)
    (htyB : ∀ m ∈ IndexSet b.model, ∀ t, CT.at m tyB = some t → t.Padded)
    (ty : CT) (hty : ∀ m ∈ IndexSet b.model, ∀ t, CT.at m ty = some t → t.Padded)
    (I : Interp E K) (hI : ∀ w ∈ visits b.model [0] els, w.i < (I.coefs w.element w.path).length)
    (Q : Quadrature E (Vec K (n + 1)) K) (f : E → Vec K (n + 1) → K) {rows : List MI} (hrows : Rows b.model rows) :
    ∃ M rhs, assembleMatrixWith b.model (mixedMatrix P Q) els = some M ∧ assembleRhsWith b.model (mixedVolumeTerm P Q f) els = some rhs ∧
      ∀ c c1, HasType ty c → Container.resize rs b.model.size ty c = .ok c1 → (∀ m ∈ IndexSet b.model, coef (asVec c1) m = rhs m) →
        ∃ mk full c', boundaryMarker lib rsB b.model [0] keys (fun e i c k => stdInc (A.G.elemGeo e) i c k.codim k.sub) hasBoundary bisects els tyB bits = some mk ∧
          interpolate rs b.model [0] ty I .allTrue els c = .ok full ∧
          setBoundary lib rsB rs b.model [0] keys (fun e i c k => stdInc (A.G.elemGeo e) i c k.codim k.sub) hasBoundary bisects els tyB bits ty I c = some c' ∧
          ∀ x, VecOK ⟨b.model, []⟩ 1 x →
            (Solves rows (identityRows (bit mk) rows M) (coef (asVec c')) (coef x) ↔ MixedPoisson A b kind P bisects els Q f (asVec full) x) := by
  obtain ⟨a, l, a1, a2, a3⟩ := C114_mixed hb hp0 hp1 he0 he1 hP hd hsep hne0 hne1 hrow0 hrow1 Q f
  obtain ⟨M, rhs, h1, h2, h3⟩ := C113_trees_rows hA hb hpl hT hP hd hsep hk hkeys hB hels hp0.path htr hlib hrsB hrs tyB bits bits1 hcB hrB htyB ty hty I hI a l hrows
  refine ⟨M, rhs, (a1 els).trans h1, (a2 els).trans h2, fun c c1 hc hr hc1 => ?_⟩
  obtain ⟨mk, full, c', k1, k2, k3, k4⟩ := h3 c c1 hc hr hc1
  refine ⟨mk, full, c', k1, k2, k3, fun x hx => (k4 x hx).trans ?_⟩
  rw [Weak, MixedPoisson]
  refine and_congr_right fun _ => forall_congr' fun w => forall_congr' fun hw => forall_congr' fun _ => ?_
  rw [(a3 els x w hx hw).1, (a3 els x w hx hw).2]

/-! ## Example -/

/-- The Raviart–Thomas basis and piecewise constants of the tree of `Verif/HDiv/Trees.lean` (the other leaves do not appear in the equation), with any rules, source and boundary function. -/
example (I : Interp (Fin 2) ℝ) (hI : ∀ w ∈ visits demoTree.model [0] [0, 1], w.i < (I.coefs w.element w.path).length) (Q : Quadrature (Fin 2) (Vec ℝ 2) ℝ) (f : Fin 2 → Vec ℝ 2 → ℝ) :
    ∃ rows M rhs, assembleMatrixWith demoTree.model (mixedMatrix (treeShapes demo demoKind) Q) [0, 1] = some M ∧
      assembleRhsWith demoTree.model (mixedVolumeTerm (treeShapes demo demoKind) Q f) [0, 1] = some rhs ∧
      ∀ c c1, HasType demoTy c → Container.resize (stdResize 0) demoTree.model.size demoTy c = .ok c1 → (∀ m ∈ IndexSet demoTree.model, coef (asVec c1) m = rhs m) →
        ∃ mk full c', boundaryMarker bitLib (stdResize true) demoTree.model [0] demoKeys (fun e i c k => stdInc (demo.G.elemGeo e) i c k.codim k.sub) (fun _ => true)
            BoundaryMixed.demoBoundary [0, 1] demoTy (demoEmpty Bool) = some mk ∧
          interpolate (stdResize 0) demoTree.model [0] demoTy I .allTrue [0, 1] c = .ok full ∧
          setBoundary bitLib (stdResize true) (stdResize 0) demoTree.model [0] demoKeys (fun e i c k => stdInc (demo.G.elemGeo e) i c k.codim k.sub) (fun _ => true)
            BoundaryMixed.demoBoundary [0, 1] demoTy (demoEmpty Bool) demoTy I c = some c' ∧
          ∀ x, VecOK ⟨demoTree.model, []⟩ 1 x → (Solves rows (identityRows (bit mk) rows M) (coef (asVec c')) (coef x) ↔
            MixedPoisson demo demoTree demoKind (treeShapes demo demoKind) BoundaryMixed.demoBoundary [0, 1] Q f (asVec full) x) := by
  have h0 : Part demoTree [0] _ _ := .composite (k := 0) rfl (.leaf _)
  have h1 : Part demoTree [1] _ _ := .composite (k := 1) rfl (.leaf _)
  have hu : ∀ q L f, Part demoTree q L f → [0] <+: q → q = [0] := by
    intro q L f hq hpq
    have : ∀ q ∈ [[0], [1], [2, 0], [2, 1]], [0] <+: q → q = [0] := by decide
    exact this q (demo_part hq).2.2 hpq
  have hels : ∀ e : Fin 2, e ∈ [0, 1] := by decide
  exact ⟨_, C114_trees_mixed demo_OK demo_WF ⟨trivial, trivial, ⟨trivial, trivial, trivial⟩, trivial⟩ demo_tree demo_shapes rfl demo_separate demo_keysMatch
    demo_treeKeys BoundaryMixed.demo_boundary hels h0 h1 (fun _ => rfl) (fun _ => rfl) (by decide +kernel) (by decide +kernel) rfl rfl
    (fun q L f hq hpq => demo_hasTrace q (by rw [hu q L f hq hpq]; decide)) bitLib_numbers (stdResize_OK true) (stdResize_OK 0)
    demoTy _ _ (demoEmpty_type _) (demo_resized true) demo_padded demoTy demo_padded I hI Q f (rows_of demo_WF hels)⟩

end Verif.HDiv.Trees

import Verif.Dofs.Components
import Verif.HDiv.Trees
import Verif.HDiv.BoundaryMixed
import Verif.Lagrange.Boundary

/-!
# Boundary values of components of basis trees

The degrees of freedom visited by `forEachBoundaryDOF` of a subspace basis of a tree of Raviart–Thomas, Nédélec and Lagrange bases determine the boundary values of the components of that
subspace, and are determined by them: normal components for Raviart–Thomas, tangential components for Nédélec and values for Lagrange components.
-/

namespace Verif.HDiv.Trees

open Matrix Verif.Mapper Verif.Lagrange Verif.IndexTree Verif.RoundTrip Verif.Product Verif.Dofs
open Verif.Piola (Vec)
open Verif.Discrete (Shapes VecOK)
open Verif.Lagrange.Continuity (BoundaryPoint boundaryCalls)
open Verif.HDiv.Trace (Inside gridJac rtKeys facetOf)
open Verif.HDiv.Tangential (nedKeys)
open Verif.HDiv.BoundaryMixed (BoundaryFacets C109_raviartThomas C109_nedelec)

variable {E S K : Type} [Field K] [LinearOrder K] [IsStrictOrderedRing K] {n : Nat}

/-! ## Specification -/

/-- The local keys of the finite elements of a leaf basis. -/
def LeafKind.keys (A : Setting E S K n) : LeafKind → E → List Key
  | raviartThomas => fun e => rtKeys (A.G.elemGeo e)
  | nedelec => fun e => nedKeys (A.G.elemGeo e)
  | lagrange order => fun e => A.keys order (A.G.elemGeo e)
  | discontinuous order => fun e => A.keys order (A.G.elemGeo e)

/-- Leaf bases whose functions have boundary values: all but the discontinuous ones. -/
def LeafKind.HasTrace (A : Setting E S K n) : LeafKind → Prop
  | raviartThomas => True
  | nedelec => True
  | lagrange order => 1 ≤ order ∧ lagrangeAccept A.G.toGridView order = true
  | discontinuous _ => False

/-- Two functions have the same boundary values: normal components, tangential components, or values. -/
def LeafKind.SameTrace (A : Setting E S K n) (bisects : E → List BIsect) (els : List E) (F F' : E → Vec K (n + 1) → Option (List K)) : LeafKind → Prop
  | raviartThomas => ∀ e ∈ els, ∀ is ∈ bisects e, is.boundary = true → ∀ x, Inside (A.G.elemGeo e) x → (facetOf K n (A.G.elemGeo e) is.indexInInside).On x →
      ∃ v v', F e x = some (List.ofFn v) ∧ F' e x = some (List.ofFn v') ∧
        ∀ N : Vec K (n + 1), (∀ k, N ⬝ᵥ (gridJac A.G A.pos e x *ᵥ (facetOf K n (A.G.elemGeo e) is.indexInInside).frame k) = 0) → N ⬝ᵥ v = N ⬝ᵥ v'
  | nedelec => ∀ e ∈ els, ∀ is ∈ bisects e, is.boundary = true → ∀ x, Inside (A.G.elemGeo e) x → (facetOf K n (A.G.elemGeo e) is.indexInInside).On x →
      ∃ v v', F e x = some (List.ofFn v) ∧ F' e x = some (List.ofFn v') ∧
        ∀ k, v ⬝ᵥ (gridJac A.G A.pos e x *ᵥ (facetOf K n (A.G.elemGeo e) is.indexInInside).frame k) =
          v' ⬝ᵥ (gridJac A.G A.pos e x *ᵥ (facetOf K n (A.G.elemGeo e) is.indexInInside).frame k)
  | lagrange _ => ∀ e x, BoundaryPoint A.G bisects els e x → F e x = F' e x
  | discontinuous _ => False

/-! ## Proofs -/

/-- Boundary values of one leaf basis. -/
theorem leaf_trace {A : Setting E S K n} (hA : A.OK) {kind : LeafKind} (hacc : kind.Accepts A) (ht : kind.HasTrace A) {P : Shapes E (Vec K (n + 1)) K} {p : List Nat} (hv : kind.Values A P p)
    {hasBoundary : E → Bool} {bisects : E → List BIsect} (hB : BoundaryFacets A.G hasBoundary bisects) (els : List E) :
    ∃ calls, forEachBoundaryDOF (PB.leaf (kind.leaf A)).model (fun _ => kind.keys A) (fun e i c k => stdInc (A.G.elemGeo e) i c k.codim k.sub) hasBoundary bisects els = some calls ∧
      ∀ u u' : Nat → K, Agree calls u u' ↔ kind.SameTrace A bisects els (fun e x => some (combination P false p e (((kind.leaf A).loc e).map u) x))
        (fun e x => some (combination P false p e (((kind.leaf A).loc e).map u') x)) := by
  cases kind with
  | raviartThomas =>
    obtain ⟨calls, h1, h2⟩ := C109_raviartThomas hA.dim hA.grid hA.neighbours A.rtType hA.rtType hA.geo hB els
    refine ⟨calls, h1, fun u u' => (h2 u u').trans ?_⟩
    choose w hw hc using rt_combination hA hv u
    choose w' hw' hc' using rt_combination hA hv u'
    simp only [LeafKind.SameTrace, hw, hw', hc, hc', Option.some.injEq, ofFn_inj]
  | nedelec =>
    obtain ⟨calls, h1, h2⟩ := C109_nedelec hA.dim hacc hA.geo hB els
    refine ⟨calls, h1, fun u u' => (h2 u u').trans ?_⟩
    choose w hw hc using ned_combination hacc hv u
    choose w' hw' hc' using ned_combination hacc hv u'
    simp only [LeafKind.SameTrace, hw, hw', hc, hc', Option.some.injEq, ofFn_inj]
  | lagrange order =>
    obtain ⟨calls, h1, h2⟩ := Continuity.C80_boundary (K := K) (n := n) hA.grid.ok hA.closed hA.grid.dim hA.grid.types ht.1 ht.2 (hA.keys order) hasBoundary bisects hB.reported els
    refine ⟨calls, h1, fun u u' => (h2 u u').trans ?_⟩
    have ho : order ≠ 0 := by have := ht.1; omega
    simp only [LeafKind.SameTrace, lagrange_combination ho hv, Option.some.injEq, List.cons.injEq, and_true]
  | discontinuous order => exact ht.elim

/-- **C110.** Boundary values of components: two coefficient vectors of a basis tree agree in the degrees of freedom visited by `forEachBoundaryDOF(subspaceBasis(basis, p), ...)` if and only if
all components below the node `p` have the same boundary values. Setting the visited coefficients sets the boundary values of these components and of no others. -/
theorem C110_trees {A : Setting E S K n} (hA : A.OK) {b : PB E} (hb : b.WF) (hpl : Plain b) {kind : List Nat → LeafKind} {P : Shapes E (Vec K (n + 1)) K} (hT : Tree A b kind P)
    (hP : P.OK ⟨b.model, []⟩) (hd : P.dimC = 1) (hsep : Separate ⟨b.model, []⟩ P) {keys : Nat → E → List Key} (hk : KeysMatch keys (LocalView.fresh b.model).tree)
    (hkeys : TreeKeys b keys fun p => (kind p).keys A) {hasBoundary : E → Bool} {bisects : E → List BIsect} (hB : BoundaryFacets A.G hasBoundary bisects) (els : List E) {p : List Nat}
    (hp : HasPath b p) (htr : ∀ q L f, Part b q L f → p <+: q → (kind q).HasTrace A) :
    ∃ calls, subForEachBoundaryDOF (subspaceBasis b.model p) keys (fun e i c k => stdInc (A.G.elemGeo e) i c k.codim k.sub) hasBoundary bisects els = some calls ∧
      ∀ v v', VecOK ⟨b.model, []⟩ 1 v → VecOK ⟨b.model, []⟩ 1 v' → (AgreeMI calls (coef v) (coef v') ↔ ∀ q L f, Part b q L f → p <+: q →
        (kind q).SameTrace A bisects els (fun e x => component ⟨b.model, []⟩ P v false (some e) q x) (fun e x => component ⟨b.model, []⟩ P v' false (some e) q x)) := by
  obtain ⟨calls, h1, h2⟩ := C110_agree b hb hpl keys (fun p => (kind p).keys A) (fun e i c k => stdInc (A.G.elemGeo e) i c k.codim k.sub) hk hkeys hasBoundary bisects hB.reported els hp
  refine ⟨calls, h1, fun v v' hv hv' => (h2 K (coef v) (coef v')).trans ?_⟩
  refine forall_congr' fun q => forall_congr' fun L => forall_congr' fun f => forall_congr' fun hq => forall_congr' fun hpq => ?_
  have hc := tree_component hA hb hT hP hd hsep hv hq
  have hc' := tree_component hA hb hT hP hd hsep hv' hq
  obtain ⟨rfl, hf, hacc, hval⟩ := hT q L f hq
  obtain ⟨lc, g1, g2⟩ := leaf_trace hA hacc (htr q _ f hq hpq) hval hB els
  have hfil : lc.filter (fun v => f v.element) = lc := List.filter_eq_self.2 fun v _ => hf _
  simp only [g1, Option.some.injEq, exists_eq_left', hfil, hc, hc']
  exact g2 _ _

/-- A loop over the boundary DOFs that copies coefficients, for example `forEachBoundaryDOF(subspaceBasis(basis, p), [&](auto&& index) { w[index] = v[index]; })`, beginning with `w = v'`. -/
def copyBoundary (calls : List (Visit E)) (v v' : Discrete.Vec K) : Discrete.Vec K := calls.foldl (fun w x m => if m = x.index then v m else w m) v'

omit [Field K] [LinearOrder K] [IsStrictOrderedRing K] in
theorem copyBoundary_get (calls : List (Visit E)) (v v' : Discrete.Vec K) (m : MI) : copyBoundary calls v v' m = if m ∈ calls.map Visit.index then v m else v' m := by
  unfold copyBoundary
  induction calls generalizing v' with
  | nil => simp
  | cons x calls ih =>
    rw [List.foldl_cons, ih]
    simp only [List.map_cons, List.mem_cons]
    by_cases h1 : m ∈ calls.map Visit.index
    · simp [h1]
    · by_cases h2 : m = x.index <;> simp [h1, h2]

/-- **C110.** Setting boundary values of components: copying the coefficients of `v` in the degrees of freedom visited by `forEachBoundaryDOF(subspaceBasis(basis, p), ...)` into `v'` gives a
function whose components below the node `p` have the boundary values of `v`, while all other components are unchanged. -/
theorem C110_set {A : Setting E S K n} (hA : A.OK) {b : PB E} (hb : b.WF) (hpl : Plain b) {kind : List Nat → LeafKind} {P : Shapes E (Vec K (n + 1)) K} (hT : Tree A b kind P)
    (hP : P.OK ⟨b.model, []⟩) (hd : P.dimC = 1) (hsep : Separate ⟨b.model, []⟩ P) {keys : Nat → E → List Key} (hk : KeysMatch keys (LocalView.fresh b.model).tree)
    (hkeys : TreeKeys b keys fun p => (kind p).keys A) {hasBoundary : E → Bool} {bisects : E → List BIsect} (hB : BoundaryFacets A.G hasBoundary bisects) (els : List E) {p : List Nat}
    (hp : HasPath b p) (htr : ∀ q L f, Part b q L f → p <+: q → (kind q).HasTrace A) {v v' : Discrete.Vec K} (hv : VecOK ⟨b.model, []⟩ 1 v) (hv' : VecOK ⟨b.model, []⟩ 1 v') :
    ∃ calls, subForEachBoundaryDOF (subspaceBasis b.model p) keys (fun e i c k => stdInc (A.G.elemGeo e) i c k.codim k.sub) hasBoundary bisects els = some calls ∧
      VecOK ⟨b.model, []⟩ 1 (copyBoundary calls v v') ∧
      (∀ q L f, Part b q L f → p <+: q → (kind q).SameTrace A bisects els (fun e x => component ⟨b.model, []⟩ P (copyBoundary calls v v') false (some e) q x)
        (fun e x => component ⟨b.model, []⟩ P v false (some e) q x)) ∧
      ∀ q L f, Part b q L f → ¬ p <+: q → ∀ e x, component ⟨b.model, []⟩ P (copyBoundary calls v v') false (some e) q x = component ⟨b.model, []⟩ P v' false (some e) q x := by
  have R := b.refines hb
  obtain ⟨calls, h1, h2⟩ := C110_trees hA hb hpl hT hP hd hsep hk hkeys hB els hp htr
  have hw : VecOK ⟨b.model, []⟩ 1 (copyBoundary calls v v') := by
    intro m hm
    rw [copyBoundary_get]
    split
    · exact hv m hm
    · exact hv' m hm
  refine ⟨calls, h1, hw, (h2 _ _ hw hv).1 fun x hx => ?_, fun q L f hq hpq e x => ?_⟩
  · rw [coef, copyBoundary_get, if_pos (List.mem_map_of_mem hx), coef]
  · rw [tree_component hA hb hT hP hd hsep hw hq, tree_component hA hb hT hP hd hsep hv' hq]
    obtain ⟨rfl, hf, -, -⟩ := hT q L f hq
    congr 2
    refine List.map_congr_left fun i hi => ?_
    rw [coef, copyBoundary_get, if_neg, coef]
    intro hm
    obtain ⟨y, hy, hyi⟩ := List.mem_map.1 hm
    obtain ⟨d, hd1, hd2, hd3⟩ := sub_index b hb keys _ hk hasBoundary bisects hB.reported els hp h1 y hy
    have heq : d = q ++ [i] := R.prefixFree _ (R.locMem _ _ hd1) _ (R.locMem _ _ (hq.mem (hf e) hi)) (by rw [← hd3, hyi])
    subst heq
    rcases List.prefix_concat_iff.1 hd2 with rfl | h
    · exact part_not_path hq i hp
    · exact hpq h

/-! ## Examples -/

/-- Local keys of the leaves of the tree of `Verif/HDiv/Trees.lean`. -/
def demoKeys (ti : Nat) (e : Fin 2) : List Key :=
  if ti = 1 then rtKeys (Continuity.mixedGrid.elemGeo e) else if ti = 2 then Continuity.gridKeys Continuity.mixedGrid 0 (Continuity.mixedGrid.elemGeo e)
  else if ti = 4 then nedKeys (Continuity.mixedGrid.elemGeo e) else Continuity.gridKeys Continuity.mixedGrid 1 (Continuity.mixedGrid.elemGeo e)

/-- The tree without the data of the geometries. -/
def demoPlain : PB (Fin 2) :=
  .composite true [.leaf (mapperLeaf Continuity.mixedGrid.toGridView (rtLayout 0 2) fun e => rtKeys (Continuity.mixedGrid.elemGeo e)),
    .leaf (lagrangeLeaf Continuity.mixedGrid 0 fun e => Continuity.gridKeys Continuity.mixedGrid 0 (Continuity.mixedGrid.elemGeo e)),
    .composite false [.leaf (mapperLeaf Continuity.mixedGrid.toGridView nedelecLayout fun e => nedKeys (Continuity.mixedGrid.elemGeo e)),
      .leaf (lagrangeLeaf Continuity.mixedGrid 1 fun e => Continuity.gridKeys Continuity.mixedGrid 1 (Continuity.mixedGrid.elemGeo e))]]

theorem demoPlain_eq : demoTree = demoPlain := rfl

theorem demo_keysMatch : KeysMatch demoKeys (LocalView.fresh demoTree.model).tree := by
  rw [demoPlain_eq]
  have h : ∀ e : Fin 2, (leafInfo (LocalView.fresh demoPlain.model).tree).map (fun q : Nat × (Fin 2 → Nat) => q.2 e - (demoKeys q.1 e).length + ((demoKeys q.1 e).length - q.2 e)) = [0, 0, 0, 0] := by
    decide +kernel
  intro q hq e
  have h' := h e ▸ List.mem_map_of_mem (f := fun q : Nat × (Fin 2 → Nat) => q.2 e - (demoKeys q.1 e).length + ((demoKeys q.1 e).length - q.2 e)) hq
  simp only [List.mem_cons, List.not_mem_nil, or_false, or_self] at h'
  omega

theorem demo_treeKeys : TreeKeys demoTree demoKeys fun p => (demoKind p).keys demo := by
  intro p L f hp
  obtain ⟨rfl, -, hm⟩ := demo_part hp
  have hti : ∀ q ∈ [([0], 1), ([1], 2), ([2, 0], 4), ([2, 1], 5)], (Node.child q.1 (LocalView.fresh demoPlain.model).tree).map Node.treeIndex = some q.2 := by decide +kernel
  rw [demoPlain_eq]
  simp only [List.mem_cons, List.not_mem_nil, or_false, forall_eq_or_imp, forall_eq] at hm hti
  obtain ⟨t1, t2, t3, t4⟩ := hti
  rcases hm with rfl | rfl | rfl | rfl
  · refine ⟨fun e => by simp [demoKind, LeafKind.leaf, mapperLeaf, LeafKind.keys], fun t ht => ?_⟩
    rw [ht, Option.map_some, Option.some.injEq] at t1
    rw [t1]; rfl
  · refine ⟨fun e => by simp [demoKind, LeafKind.leaf, lagrangeLeaf, LeafKind.keys], fun t ht => ?_⟩
    rw [ht, Option.map_some, Option.some.injEq] at t2
    rw [t2]; rfl
  · refine ⟨fun e => by simp [demoKind, LeafKind.leaf, mapperLeaf, LeafKind.keys], fun t ht => ?_⟩
    rw [ht, Option.map_some, Option.some.injEq] at t3
    rw [t3]; rfl
  · refine ⟨fun e => by simp [demoKind, LeafKind.leaf, lagrangeLeaf, LeafKind.keys], fun t ht => ?_⟩
    rw [ht, Option.map_some, Option.some.injEq] at t4
    rw [t4]; rfl

/-- The visited indices of the Raviart–Thomas component: all edges but the common one, whose index is `[0, 1]`. -/
theorem demo_calls : (subForEachBoundaryDOF (subspaceBasis demoTree.model [0]) demoKeys (fun e i c k => stdInc (demo.G.elemGeo e) i c k.codim k.sub) (fun _ => true)
    BoundaryMixed.demoBoundary [0, 1]).map (fun calls => calls.map Visit.index) = some [[0, 0], [0, 2], [0, 3], [0, 4], [0, 5]] := by
  have h : (subForEachBoundaryDOF (subspaceBasis demoPlain.model [0]) demoKeys (fun e i c k => stdInc (Continuity.mixedGrid.elemGeo e) i c k.codim k.sub) (fun _ => true)
    BoundaryMixed.demoBoundary [0, 1]).map (fun calls => calls.map Visit.index) = some [[0, 0], [0, 2], [0, 3], [0, 4], [0, 5]] := by decide +kernel
  exact h

theorem demo_hasTrace (q : List Nat) (hq : q ≠ [1]) : (demoKind q).HasTrace demo := by
  have ha : lagrangeAccept Continuity.mixedGrid.toGridView 1 = true := by decide
  unfold demoKind
  split_ifs with h1 h2
  · trivial
  · trivial
  · exact ⟨le_rfl, ha⟩

/-- The normal components of the first component are determined by the coefficients of the outer edges. -/
example {v v' : Discrete.Vec ℝ} (hv : VecOK ⟨demoTree.model, []⟩ 1 v) (hv' : VecOK ⟨demoTree.model, []⟩ 1 v') : (∀ m ∈ [0, 2, 3, 4, 5], coef v [0, m] = coef v' [0, m]) ↔
    LeafKind.raviartThomas.SameTrace demo BoundaryMixed.demoBoundary [0, 1] (fun e x => component ⟨demoTree.model, []⟩ (treeShapes demo demoKind) v false (some e) [0] x)
      (fun e x => component ⟨demoTree.model, []⟩ (treeShapes demo demoKind) v' false (some e) [0] x) := by
  have h0 : Part demoTree [0] _ _ := .composite (k := 0) rfl (.leaf _)
  have hu : ∀ q L f, Part demoTree q L f → [0] <+: q → q = [0] := by
    intro q L f hq hpq
    have hm := (demo_part hq).2.2
    have : ∀ q ∈ [[0], [1], [2, 0], [2, 1]], [0] <+: q → q = [0] := by decide
    exact this q hm hpq
  obtain ⟨calls, h1, h2⟩ := C110_trees demo_OK demo_WF ⟨trivial, trivial, ⟨trivial, trivial, trivial⟩, trivial⟩ demo_tree demo_shapes rfl demo_separate demo_keysMatch demo_treeKeys
    BoundaryMixed.demo_boundary [0, 1] h0.path (fun q L f hq hpq => demo_hasTrace q (by rw [hu q L f hq hpq]; decide))
  have hc := demo_calls
  rw [h1, Option.map_some, Option.some.injEq] at hc
  have ha : AgreeMI calls (coef v) (coef v') ↔ ∀ m ∈ [0, 2, 3, 4, 5], coef v [0, m] = coef v' [0, m] := by
    have key : (∀ x ∈ calls, coef v x.index = coef v' x.index) ↔ ∀ i ∈ calls.map Visit.index, coef v i = coef v' i := by simp
    rw [AgreeMI, key, hc]
    simp
  rw [← ha, h2 v v' hv hv']
  constructor
  · intro h
    exact h [0] _ _ h0 (by simp)
  · intro h q L f hq hpq
    have := hu q L f hq hpq
    subst this
    exact h

end Verif.HDiv.Trees

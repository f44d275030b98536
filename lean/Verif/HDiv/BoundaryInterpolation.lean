import Verif.HDiv.BoundaryTrees
import Verif.Functions.Dirichlet

/-!
# Boundary values by interpolation, for basis trees

Marking the boundary DOFs of a subspace basis and interpolating into the marked entries (`Verif/Functions/Dirichlet.lean`), for trees of Raviart–Thomas, Nédélec and Lagrange bases: the
effect on the functions.
-/

namespace Verif.HDiv.Trees

open Verif.Mapper Verif.Lagrange Verif.IndexTree Verif.RoundTrip Verif.Product Verif.Dofs Verif.Container Verif.Dirichlet
open Verif.Interpolate (Interp interpolate visits)
open Verif.Assign (Lib)
open Verif.Piola (Vec)
open Verif.Discrete (Shapes VecOK)
open Verif.HDiv.BoundaryMixed (BoundaryFacets)

variable {E S K : Type} [Field K] [LinearOrder K] [IsStrictOrderedRing K] {n : Nat}

/-- A nested container as coefficient vector of a discrete function: `dofs[localView_.index(localIndex)]`, discreteglobalbasisfunction.hh:146, with `dofs` an ISTL backend. -/
def asVec (c : Ct K) : Discrete.Vec K := fun m => match access isScalar c m with
  | some (.scalar x) => some [x]
  | _ => none

omit [Field K] [LinearOrder K] [IsStrictOrderedRing K] in
theorem asVec_get {c : Ct K} {m : MI} {x : K} (h : access isScalar c m = some (.scalar x)) : asVec c m = some [x] := by rw [asVec, h]

omit [IsStrictOrderedRing K] in
/-- Components that do not belong to the node keep their values if only entries of visited multi-indices change. -/
theorem other_component {A : Setting E S K n} (hA : A.OK) {b : PB E} (hb : b.WF) {kind : List Nat → LeafKind} {P : Shapes E (Vec K (n + 1)) K} (hT : Tree A b kind P)
    (hP : P.OK ⟨b.model, []⟩) (hd : P.dimC = 1) (hsep : Separate ⟨b.model, []⟩ P) {p : List Nat} (hp : HasPath b p) {calls : List (Dofs.Visit E)}
    (hidx : ∀ v ∈ calls, ∃ d ∈ b.spec.loc v.element, p <+: d ∧ v.index = b.spec.mi d) {v v' : Discrete.Vec K} (hv : VecOK ⟨b.model, []⟩ 1 v) (hv' : VecOK ⟨b.model, []⟩ 1 v')
    (hkeep : ∀ m ∈ IndexSet b.model, m ∉ calls.map Dofs.Visit.index → v m = v' m) {q : List Nat} {L : Leaf E} {f : E → Bool} (hq : Part b q L f) (hpq : ¬ p <+: q) (e : E) (x : Vec K (n + 1)) :
    component ⟨b.model, []⟩ P v false (some e) q x = component ⟨b.model, []⟩ P v' false (some e) q x := by
  have R := b.refines hb
  rw [tree_component hA hb hT hP hd hsep hv hq, tree_component hA hb hT hP hd hsep hv' hq]
  obtain ⟨rfl, hf, -, -⟩ := hT q L f hq
  congr 2
  refine List.map_congr_left fun i hi => ?_
  rw [coef, coef, hkeep]
  · rw [indexSet_eq hb]
    exact ⟨e, _, hq.mem (hf e) hi, rfl⟩
  · intro hm
    obtain ⟨y, hy, hyi⟩ := List.mem_map.1 hm
    obtain ⟨d, hd1, hd2, hd3⟩ := hidx y hy
    have heq : d = q ++ [i] := R.prefixFree _ (R.locMem _ _ hd1) _ (R.locMem _ _ (hq.mem (hf e) hi)) (by rw [← hd3, hyi])
    subst heq
    rcases List.prefix_concat_iff.1 hd2 with rfl | h
    · exact part_not_path hq i hp
    · exact hpq h

/-- **C111.** Setting boundary values by interpolation, for any function: after marking the boundary DOFs of a subspace basis and interpolating into the marked entries of a coefficient vector,
the components below the node have the boundary values of the function that interpolation without bit vector would give, and all other components of the discrete function are unchanged. -/
theorem C111_trees {A : Setting E S K n} (hA : A.OK) {b : PB E} (hb : b.WF) (hpl : Plain b) {kind : List Nat → LeafKind} {P : Shapes E (Vec K (n + 1)) K} (hT : Tree A b kind P)
    (hP : P.OK ⟨b.model, []⟩) (hd : P.dimC = 1) (hsep : Separate ⟨b.model, []⟩ P) {keys : Nat → E → List Key} (hk : KeysMatch keys (LocalView.fresh b.model).tree)
    (hkeys : TreeKeys b keys fun p => (kind p).keys A) {hasBoundary : E → Bool} {bisects : E → List BIsect} (hB : BoundaryFacets A.G hasBoundary bisects) (els : List E) {p : List Nat}
    (hp : HasPath b p) (htr : ∀ q L f, Part b q L f → p <+: q → (kind q).HasTrace A)
    {lib : Lib Bool Bool} (hlib : lib.Numbers) {rsB : CT → List (Ct Bool) → Nat → List (Ct Bool)} (hrsB : ResizeOK rsB) {rs : CT → List (Ct K) → Nat → List (Ct K)} (hrs : ResizeOK rs)
    (tyB : CT) (bits bits1 : Ct Bool) (hcB : HasType tyB bits) (hrB : Container.resize rsB b.model.size tyB bits = .ok bits1)
    (htyB : ∀ m ∈ IndexSet b.model, ∀ t, CT.at m tyB = some t → t.Padded)
    (ty : CT) (c c1 : Ct K) (hc : HasType ty c) (hr : Container.resize rs b.model.size ty c = .ok c1) (hty : ∀ m ∈ IndexSet b.model, ∀ t, CT.at m ty = some t → t.Padded)
    (I : Interp E K) (hI : ∀ w ∈ visits b.model p els, w.i < (I.coefs w.element w.path).length) :
    ∃ full c', interpolate rs b.model p ty I .allTrue els c = .ok full ∧
      setBoundary lib rsB rs b.model p keys (fun e i c k => stdInc (A.G.elemGeo e) i c k.codim k.sub) hasBoundary bisects els tyB bits ty I c = some c' ∧
      VecOK ⟨b.model, []⟩ 1 (asVec c') ∧
      (∀ q L f, Part b q L f → p <+: q → (kind q).SameTrace A bisects els (fun e x => component ⟨b.model, []⟩ P (asVec c') false (some e) q x)
        (fun e x => component ⟨b.model, []⟩ P (asVec full) false (some e) q x)) ∧
      ∀ q L f, Part b q L f → ¬ p <+: q → ∀ e x, component ⟨b.model, []⟩ P (asVec c') false (some e) q x = component ⟨b.model, []⟩ P (asVec c1) false (some e) q x := by
  obtain ⟨calls, full, c', h1, h2, h3, h4⟩ := C111_interpolate hlib hrsB hrs b hb hp keys (fun e i c k => stdInc (A.G.elemGeo e) i c k.codim k.sub) hk hasBoundary bisects hB.reported els
    tyB bits bits1 hcB hrB htyB ty c c1 hc hr hty ty c c1 hc hr hty I hI
  obtain ⟨calls', g1, g2⟩ := C110_trees hA hb hpl hT hP hd hsep hk hkeys hB els hp htr
  rw [h1, Option.some.injEq] at g1
  subst g1
  have hfull : VecOK ⟨b.model, []⟩ 1 (asVec full) := by
    intro m hm
    rcases Interpolate.C39_basis hrs b hb p hp ty I .allTrue els c hc hty (.inl rfl) hI with ⟨e, he, -⟩ | ⟨d1, d', -, k2, k3⟩
    · rw [hr] at he
      simp at he
    · rw [h2] at k2
      injection k2 with k2
      subst k2
      obtain ⟨_, new, -, hnew, -⟩ := k3 m hm
      exact ⟨[new], asVec_get hnew, rfl⟩
  have hc' : VecOK ⟨b.model, []⟩ 1 (asVec c') := fun m hm => by
    obtain ⟨x, hx, -⟩ := h4 m hm
    exact ⟨[x], asVec_get hx, rfl⟩
  have hc1 : VecOK ⟨b.model, []⟩ 1 (asVec c1) := fun m hm => by
    obtain ⟨x, hx⟩ := C33_entry hrs b hb ty c c1 hc hr m hm (hty m hm)
    exact ⟨[x], asVec_get (C35_access _ _ _ hx), rfl⟩
  have hidx := sub_index b hb keys _ hk hasBoundary bisects hB.reported els hp h1
  refine ⟨full, c', h2, h3, hc', (g2 _ _ hc' hfull).1 fun v hv => ?_, fun q L f hq hpq e x => other_component hA hb hT hP hd hsep hp hidx hc' hc1 (fun m hm hmc => ?_) hq hpq e x⟩
  · obtain ⟨d, hd1, -, hd3⟩ := hidx v hv
    obtain ⟨x, k1, k2, -⟩ := h4 v.index (by rw [hd3, indexSet_eq hb]; exact ⟨_, d, hd1, rfl⟩)
    rw [coef, coef, asVec_get k1, asVec_get (k2 (List.mem_map_of_mem hv))]
  · obtain ⟨x, k1, -, k3⟩ := h4 m hm
    rw [asVec_get k1, asVec_get (k3 hmc)]

/-- **C111.** If the interpolated function is a discrete function of the basis with coefficients `v` (finite elements with dual functionals, as in C63), the components below the node get its
boundary values. -/
theorem C111_discrete {A : Setting E S K n} (hA : A.OK) {b : PB E} (hb : b.WF) (hpl : Plain b) {kind : List Nat → LeafKind} {P : Shapes E (Vec K (n + 1)) K} (hT : Tree A b kind P)
    (hP : P.OK ⟨b.model, []⟩) (hd : P.dimC = 1) (hsep : Separate ⟨b.model, []⟩ P) {keys : Nat → E → List Key} (hk : KeysMatch keys (LocalView.fresh b.model).tree)
    (hkeys : TreeKeys b keys fun p => (kind p).keys A) {hasBoundary : E → Bool} {bisects : E → List BIsect} (hB : BoundaryFacets A.G hasBoundary bisects) (els : List E) {p : List Nat}
    (hp : HasPath b p) (htr : ∀ q L f, Part b q L f → p <+: q → (kind q).HasTrace A)
    {lib : Lib Bool Bool} (hlib : lib.Numbers) {rsB : CT → List (Ct Bool) → Nat → List (Ct Bool)} (hrsB : ResizeOK rsB) {rs : CT → List (Ct K) → Nat → List (Ct K)} (hrs : ResizeOK rs)
    (tyB : CT) (bits bits1 : Ct Bool) (hcB : HasType tyB bits) (hrB : Container.resize rsB b.model.size tyB bits = .ok bits1)
    (htyB : ∀ m ∈ IndexSet b.model, ∀ t, CT.at m tyB = some t → t.Padded)
    (ty : CT) (c c1 : Ct K) (hc : HasType ty c) (hr : Container.resize rs b.model.size ty c = .ok c1) (hty : ∀ m ∈ IndexSet b.model, ∀ t, CT.at m ty = some t → t.Padded)
    (Q : Shapes E (Vec K (n + 1)) K) (hQ : Q.OK ⟨b.model, p⟩) (hQd : Q.dimC = 1) (hQsep : Separate ⟨b.model, p⟩ Q) {N : Functionals E (Vec K (n + 1)) K} {needs : List Nat → E → Bool}
    (hN : Dual ⟨b.model, p⟩ Q N needs) (init : Option E → Option E) {v : Discrete.Vec K} (hv : VecOK ⟨b.model, []⟩ 1 v) :
    ∃ c', setBoundary lib rsB rs b.model p keys (fun e i c k => stdInc (A.G.elemGeo e) i c k.codim k.sub) hasBoundary bisects els tyB bits ty
        (discreteInterp ⟨b.model, p⟩ Q N needs init v) c = some c' ∧
      VecOK ⟨b.model, []⟩ 1 (asVec c') ∧
      (∀ q L f, Part b q L f → p <+: q → (kind q).SameTrace A bisects els (fun e x => component ⟨b.model, []⟩ P (asVec c') false (some e) q x)
        (fun e x => component ⟨b.model, []⟩ P v false (some e) q x)) ∧
      ∀ q L f, Part b q L f → ¬ p <+: q → ∀ e x, component ⟨b.model, []⟩ P (asVec c') false (some e) q x = component ⟨b.model, []⟩ P (asVec c1) false (some e) q x := by
  have hI : ∀ w ∈ visits b.model p els, w.i < ((discreteInterp ⟨b.model, p⟩ Q N needs init v).coefs w.element w.path).length := by
    intro w hw
    obtain ⟨x, -, hx⟩ := coefs_eq hb hp Q hQ hQd hQsep hN init hv hw
    exact (List.getElem?_eq_some_iff.1 hx).1
  obtain ⟨calls, full, c', h1, h2, h3, h4⟩ := C111_interpolate hlib hrsB hrs b hb hp keys (fun e i c k => stdInc (A.G.elemGeo e) i c k.codim k.sub) hk hasBoundary bisects hB.reported els
    tyB bits bits1 hcB hrB htyB ty c c1 hc hr hty ty c c1 hc hr hty (discreteInterp ⟨b.model, p⟩ Q N needs init v) hI
  obtain ⟨_, c'', -, k2, k3, -, k5⟩ := C111_trees hA hb hpl hT hP hd hsep hk hkeys hB els hp htr hlib hrsB hrs tyB bits bits1 hcB hrB htyB ty c c1 hc hr hty _ hI
  rw [h3, Option.some.injEq] at k2
  subst k2
  obtain ⟨full', f1, f2⟩ := C63 hrs hb hp Q hQ hQd hQsep hN init hv ty .allTrue els c c1 hc hr hty (.inl rfl)
  rw [h2] at f1
  injection f1 with f1
  subst f1
  obtain ⟨calls', g1, g2⟩ := C110_trees hA hb hpl hT hP hd hsep hk hkeys hB els hp htr
  rw [h1, Option.some.injEq] at g1
  subst g1
  have hidx := call_index b hb keys _ hk hasBoundary bisects hB.reported els hp h1
  refine ⟨c', h3, k3, (g2 _ _ k3 hv).1 fun w hw => ?_, k5⟩
  obtain ⟨he, d, hd1, hd2, hd3⟩ := hidx w hw
  have hm : w.index ∈ IndexSet b.model := by rw [hd3, indexSet_eq hb]; exact ⟨_, d, hd1, rfl⟩
  obtain ⟨x, m1, m2, -⟩ := h4 w.index hm
  obtain ⟨y, y1, y2⟩ := (f2 w.index hm).1 rfl ⟨_, he, d, hd1, hd2, hd3.symm⟩
  have hxy := m2 (List.mem_map_of_mem hw)
  rw [y2] at hxy
  simp only [Option.some.injEq, Ct.scalar.injEq] at hxy
  rw [coef, coef, asVec_get m1, y1, hxy]

/-! ## Example -/

/-- Nested vectors for the tree of `Verif/HDiv/Trees.lean`: an array of three vectors of numbers. -/
def demoTy : CT := .arr 3 (.vec .scalar)

/-- Three empty vectors. -/
def demoEmpty (T : Type) : Ct T := .arr [.vec [], .vec [], .vec []]

theorem demoEmpty_type (T : Type) : HasType demoTy (demoEmpty T) := by
  refine ⟨rfl, fun c hc => ?_⟩
  simp only [List.mem_cons, List.not_mem_nil, or_false, or_self] at hc
  subst hc
  simp [HasType]

/-- `resize` does not throw. -/
def resizes {T : Type} (t0 : T) : Bool :=
  match Container.resize (stdResize t0) demoPlain.model.size demoTy (demoEmpty T) with
  | .ok _ => true
  | .error _ => false

theorem demo_resize {T : Type} (t0 : T) (h : resizes t0 = true) : ∃ c1, Container.resize (stdResize t0) demoTree.model.size demoTy (demoEmpty T) = .ok c1 := by
  rw [demoPlain_eq]
  unfold resizes at h
  split at h
  · rename_i c1 h1; exact ⟨c1, h1⟩
  · cases h

theorem demo_padded : ∀ m ∈ IndexSet demoTree.model, ∀ t, CT.at m demoTy = some t → t.Padded := by
  intro m hm
  rw [indexSet_eq demo_WF] at hm
  obtain ⟨e, d, hd, rfl⟩ := hm
  rw [demoPlain_eq] at hd ⊢
  have h : ∀ e : Fin 2, ∀ d ∈ demoPlain.spec.loc e, (CT.at (demoPlain.spec.mi d) demoTy).any (fun t => match t with | .scalar => true | _ => false) = true := by decide +kernel
  intro t ht
  have := h e d hd
  rw [ht, Option.any_some] at this
  cases t with
  | scalar => exact .inl trivial
  | vec => cases this
  | arr => cases this
  | tup => cases this

/-- The program for the Raviart–Thomas component, with empty vectors at the beginning and any function: the normal components at the boundary are those of the interpolated function, and all
other components are those of the vector after resizing. -/
example (I : Interp (Fin 2) ℝ) (hI : ∀ w ∈ visits demoTree.model [0] [0, 1], w.i < (I.coefs w.element w.path).length) :
    ∃ c1 full c', Container.resize (stdResize 0) demoTree.model.size demoTy (demoEmpty ℝ) = .ok c1 ∧
      interpolate (stdResize 0) demoTree.model [0] demoTy I .allTrue [0, 1] (demoEmpty ℝ) = .ok full ∧
      setBoundary bitLib (stdResize true) (stdResize 0) demoTree.model [0] demoKeys (fun e i c k => stdInc (demo.G.elemGeo e) i c k.codim k.sub) (fun _ => true)
        BoundaryMixed.demoBoundary [0, 1] demoTy (demoEmpty Bool) demoTy I (demoEmpty ℝ) = some c' ∧
      LeafKind.raviartThomas.SameTrace demo BoundaryMixed.demoBoundary [0, 1]
        (fun e x => component ⟨demoTree.model, []⟩ (treeShapes demo demoKind) (asVec c') false (some e) [0] x)
        (fun e x => component ⟨demoTree.model, []⟩ (treeShapes demo demoKind) (asVec full) false (some e) [0] x) ∧
      ∀ q ∈ [[1], [2, 0], [2, 1]], ∀ e x, component ⟨demoTree.model, []⟩ (treeShapes demo demoKind) (asVec c') false (some e) q x
        = component ⟨demoTree.model, []⟩ (treeShapes demo demoKind) (asVec c1) false (some e) q x := by
  have h0 : Part demoTree [0] _ _ := .composite (k := 0) rfl (.leaf _)
  have h1 : Part demoTree [1] _ _ := .composite (k := 1) rfl (.leaf _)
  have h2 : Part demoTree [2, 0] _ _ := .composite (k := 2) rfl (.composite (k := 0) rfl (.leaf _))
  have h3 : Part demoTree [2, 1] _ _ := .composite (k := 2) rfl (.composite (k := 1) rfl (.leaf _))
  have hu : ∀ q L f, Part demoTree q L f → [0] <+: q → q = [0] := by
    intro q L f hq hpq
    have : ∀ q ∈ [[0], [1], [2, 0], [2, 1]], [0] <+: q → q = [0] := by decide
    exact this q (demo_part hq).2.2 hpq
  obtain ⟨bits1, hb⟩ := demo_resize true (by decide +kernel)
  obtain ⟨c1, hc⟩ := demo_resize (0 : ℝ) (by decide +kernel)
  obtain ⟨full, c', k1, k2, -, k4, k5⟩ := C111_trees demo_OK demo_WF ⟨trivial, trivial, ⟨trivial, trivial, trivial⟩, trivial⟩ demo_tree demo_shapes rfl demo_separate demo_keysMatch
    demo_treeKeys BoundaryMixed.demo_boundary [0, 1] h0.path (fun q L f hq hpq => demo_hasTrace q (by rw [hu q L f hq hpq]; decide)) bitLib_numbers (stdResize_OK true) (stdResize_OK 0)
    demoTy _ bits1 (demoEmpty_type _) hb demo_padded demoTy _ c1 (demoEmpty_type _) hc demo_padded I hI
  refine ⟨c1, full, c', hc, k1, k2, k4 [0] _ _ h0 (by simp), fun q hq e x => ?_⟩
  simp only [List.mem_cons, List.not_mem_nil, or_false] at hq
  rcases hq with rfl | rfl | rfl
  · exact k5 _ _ _ h1 (by decide) e x
  · exact k5 _ _ _ h2 (by decide) e x
  · exact k5 _ _ _ h3 (by decide) e x

end Verif.HDiv.Trees

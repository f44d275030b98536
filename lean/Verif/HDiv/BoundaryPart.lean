import Verif.HDiv.BoundaryInterpolation
import Verif.Dofs.Selected

/-!
# Boundary values on a part of the boundary, for basis trees

The program of `Verif/Dofs/Selected.lean` for trees of Raviart–Thomas, Nédélec and Lagrange bases: the effect on the functions.
-/

namespace Verif.HDiv.Trees

open Matrix Verif.Mapper Verif.Lagrange Verif.IndexTree Verif.RoundTrip Verif.Product Verif.Dofs Verif.Container Verif.Dirichlet
open Verif.Interpolate (Interp interpolate visits)
open Verif.Assign (Lib)
open Verif.Piola (Vec)
open Verif.Discrete (Shapes VecOK)
open Verif.HDiv.Trace (Inside gridJac rtKeys facetOf facetIndex facetIndex_inj)
open Verif.HDiv.BoundaryMixed (BoundaryFacets)

variable {E S K : Type} [Field K] [LinearOrder K] [IsStrictOrderedRing K] {n : Nat}

theorem selected_facets {G : LGrid E S Nat} {hasBoundary : E → Bool} {bisects : E → List BIsect} (hB : BoundaryFacets G hasBoundary bisects) (sel : E → BIsect → Bool) :
    BoundaryFacets G hasBoundary (selected sel bisects) where
  reported := selected_reported hB.reported sel
  facet e is his := by
    obtain ⟨is', h, rfl⟩ := List.mem_map.1 his
    exact hB.facet e is' h

/-- **C112.** Setting boundary values on a part of the boundary: the components below the node have the boundary values of the function that interpolation without bit vector would give at all
selected intersections, and all other components are unchanged. -/
theorem C112_trees {A : Setting E S K n} (hA : A.OK) {b : PB E} (hb : b.WF) (hpl : Plain b) {kind : List Nat → LeafKind} {P : Shapes E (Vec K (n + 1)) K} (hT : Tree A b kind P)
    (hP : P.OK ⟨b.model, []⟩) (hd : P.dimC = 1) (hsep : Separate ⟨b.model, []⟩ P) {keys : Nat → E → List Key} (hk : KeysMatch keys (LocalView.fresh b.model).tree)
    (hkeys : TreeKeys b keys fun p => (kind p).keys A) {hasBoundary : E → Bool} {bisects : E → List BIsect} (hB : BoundaryFacets A.G hasBoundary bisects) (sel : E → BIsect → Bool) (els : List E)
    {p : List Nat} (hp : HasPath b p) (htr : ∀ q L f, Part b q L f → p <+: q → (kind q).HasTrace A)
    {lib : Lib Bool Bool} (hlib : lib.Numbers) {rsB : CT → List (Ct Bool) → Nat → List (Ct Bool)} (hrsB : ResizeOK rsB) {rs : CT → List (Ct K) → Nat → List (Ct K)} (hrs : ResizeOK rs)
    (tyB : CT) (bits bits1 : Ct Bool) (hcB : HasType tyB bits) (hrB : Container.resize rsB b.model.size tyB bits = .ok bits1)
    (htyB : ∀ m ∈ IndexSet b.model, ∀ t, CT.at m tyB = some t → t.Padded)
    (ty : CT) (c c1 : Ct K) (hc : HasType ty c) (hr : Container.resize rs b.model.size ty c = .ok c1) (hty : ∀ m ∈ IndexSet b.model, ∀ t, CT.at m ty = some t → t.Padded)
    (I : Interp E K) (hI : ∀ w ∈ visits b.model p els, w.i < (I.coefs w.element w.path).length) :
    ∃ full c', interpolate rs b.model p ty I .allTrue els c = .ok full ∧
      setBoundaryWhere lib rsB rs b.model p keys (fun e i c k => stdInc (A.G.elemGeo e) i c k.codim k.sub) hasBoundary bisects sel els tyB bits ty I c = some c' ∧
      VecOK ⟨b.model, []⟩ 1 (asVec c') ∧
      (∀ q L f, Part b q L f → p <+: q → (kind q).SameTrace A (selected sel bisects) els (fun e x => component ⟨b.model, []⟩ P (asVec c') false (some e) q x)
        (fun e x => component ⟨b.model, []⟩ P (asVec full) false (some e) q x)) ∧
      ∀ q L f, Part b q L f → ¬ p <+: q → ∀ e x, component ⟨b.model, []⟩ P (asVec c') false (some e) q x = component ⟨b.model, []⟩ P (asVec c1) false (some e) q x := by
  rw [C112_program b hb hp keys _ hk hasBoundary bisects hB.reported sel]
  exact C111_trees hA hb hpl hT hP hd hsep hk hkeys (selected_facets hB sel) els hp htr hlib hrsB hrs tyB bits bits1 hcB hrB htyB ty c c1 hc hr hty I hI

/-! ## Raviart–Thomas components -/

theorem part_end {b : PB E} {p r : List Nat} {L L' : Leaf E} {f f' : E → Bool} (h : Part b p L f) (h' : Part b (p ++ r) L' f') : r = [] := by
  induction h generalizing L' f' with
  | leaf L => cases h'; rfl
  | power hk _ ih => cases h' with | power _ h => exact ih h
  | composite hk _ ih =>
    cases h' with
    | composite hk' h =>
      rw [hk, Option.some.injEq] at hk'
      subst hk'
      exact ih h
  | restricted _ ih => cases h' with | restricted h => exact ih h

omit [IsStrictOrderedRing K] in
/-- The degrees of freedom of a Raviart–Thomas component that are visited: one for each facet. -/
theorem rt_calls {A : Setting E S K n} (hA : A.OK) {b : PB E} (hb : b.WF) (hpl : Plain b) {kind : List Nat → LeafKind} {P : Shapes E (Vec K (n + 1)) K} (hT : Tree A b kind P)
    {keys : Nat → E → List Key} (hk : KeysMatch keys (LocalView.fresh b.model).tree) (hkeys : TreeKeys b keys fun p => (kind p).keys A) {hasBoundary : E → Bool} {bisects : E → List BIsect}
    (hB : BoundaryFacets A.G hasBoundary bisects) (els : List E) {p : List Nat} {L : Leaf E} {f : E → Bool} (hp : Part b p L f) (hkind : kind p = .raviartThomas) :
    ∃ calls, subForEachBoundaryDOF (subspaceBasis b.model p) keys (fun e i c k => stdInc (A.G.elemGeo e) i c k.codim k.sub) hasBoundary bisects els = some calls ∧
      ∀ (T : Type) (c c' : MI → T), AgreeMI calls c c' ↔ ∀ e ∈ els, ∀ is ∈ bisects e, is.boundary = true →
        c (b.spec.mi (p ++ [facetIndex A.G e is.indexInInside])) = c' (b.spec.mi (p ++ [facetIndex A.G e is.indexInInside])) := by
  obtain ⟨calls, h1, h2⟩ := C110_agree b hb hpl keys (fun p => (kind p).keys A) (fun e i c k => stdInc (A.G.elemGeo e) i c k.codim k.sub) hk hkeys hasBoundary bisects hB.reported els hp.path
  refine ⟨calls, h1, fun T c c' => (h2 T c c').trans ?_⟩
  obtain ⟨rfl, hf, -, -⟩ := hT p L f hp
  have hG := hA.grid
  have hkk : KeysOK A.G.toGridView (rtLayout 0 A.G.dim) fun e => rtKeys (A.G.elemGeo e) := by
    refine ⟨fun e => (BoundaryMixed.rt_keys hA.dim (hG.types e)).1, fun e k hk => ?_⟩
    rw [hG.ok.std, hG.dim]
    exact (BoundaryMixed.rt_keys hA.dim (hG.types e)).2 k hk
  obtain ⟨lc, g1, g2⟩ := elementCalls_spec hG.ok.base hkk hasBoundary bisects hB.reported els
  have hleaf : (kind p).leaf A = mapperLeaf A.G.toGridView (rtLayout 0 A.G.dim) fun e => rtKeys (A.G.elemGeo e) := by rw [hkind]; rfl
  have hkeys' : (kind p).keys A = fun e => rtKeys (A.G.elemGeo e) := by rw [hkind]; rfl
  have hfil : lc.filter (fun v => f v.element) = lc := List.filter_eq_self.2 fun v _ => hf _
  have hspec := g2 T (fun i => c (b.spec.mi (p ++ [i]))) (fun i => c' (b.spec.mi (p ++ [i])))
  constructor
  · intro h e he is his hbd
    obtain ⟨lc', k1, k2⟩ := h p _ f hp (List.prefix_refl p)
    rw [hleaf, hkeys'] at k1
    rw [elementCalls, k1, Option.some.injEq] at g1
    subst g1
    rw [hfil] at k2
    have hi := hB.facet e is his
    exact hspec.1 k2 e he is his hbd is.indexInInside ⟨is.indexInInside, 1, 0⟩ (by rw [rtKeys, List.getElem?_map, List.getElem?_range hi]; rfl)
      ((BoundaryMixed.inc_facet (hG.types e).1 _ hi _ hi).2 rfl)
  · intro h q L' f' hq hpq
    obtain ⟨r, rfl⟩ := hpq
    obtain rfl := part_end hp hq
    rw [List.append_nil] at hq ⊢
    obtain ⟨rfl, rfl⟩ := hp.functional hq
    refine ⟨lc, by rw [hleaf, hkeys']; exact g1, ?_⟩
    rw [hfil]
    refine hspec.2 fun e he is his hbd l k hl hinc => ?_
    have hi := hB.facet e is his
    have hlt := (List.getElem?_eq_some_iff.1 hl).1
    simp only [rtKeys, List.length_map, List.length_range] at hlt
    rw [rtKeys, List.getElem?_map, List.getElem?_range hlt] at hl
    obtain rfl := Option.some.inj hl
    obtain rfl := (BoundaryMixed.inc_facet (hG.types e).1 _ hi _ hlt).1 hinc
    exact h e he is his hbd

omit [IsStrictOrderedRing K] in
/-- Traversals over different facets do not visit the same degree of freedom of a Raviart–Thomas component. -/
theorem rt_disjoint {A : Setting E S K n} (hA : A.OK) {b : PB E} (hb : b.WF) (hpl : Plain b) {kind : List Nat → LeafKind} {P : Shapes E (Vec K (n + 1)) K} (hT : Tree A b kind P)
    {keys : Nat → E → List Key} (hk : KeysMatch keys (LocalView.fresh b.model).tree) (hkeys : TreeKeys b keys fun p => (kind p).keys A) {hasBoundary hasBoundary' : E → Bool}
    {bisects bisects' : E → List BIsect} (hB : BoundaryFacets A.G hasBoundary bisects) (hB' : BoundaryFacets A.G hasBoundary' bisects') (els els' : List E) {p : List Nat} {L : Leaf E} {f : E → Bool}
    (hp : Part b p L f) (hkind : kind p = .raviartThomas)
    (hne : ∀ e ∈ els, ∀ is ∈ bisects e, is.boundary = true → ∀ e' ∈ els', ∀ is' ∈ bisects' e', is'.boundary = true → A.G.sub e 1 is.indexInInside ≠ A.G.sub e' 1 is'.indexInInside)
    {calls calls' : List (Dofs.Visit E)} (h : subForEachBoundaryDOF (subspaceBasis b.model p) keys (fun e i c k => stdInc (A.G.elemGeo e) i c k.codim k.sub) hasBoundary bisects els = some calls)
    (h' : subForEachBoundaryDOF (subspaceBasis b.model p) keys (fun e i c k => stdInc (A.G.elemGeo e) i c k.codim k.sub) hasBoundary' bisects' els' = some calls') :
    ∀ v' ∈ calls', v'.index ∉ calls.map Dofs.Visit.index := by
  have R := b.refines hb
  obtain ⟨_, g1, g2⟩ := rt_calls hA hb hpl hT hk hkeys hB els hp hkind
  rw [h, Option.some.injEq] at g1
  subst g1
  obtain ⟨_, k1, k2⟩ := rt_calls hA hb hpl hT hk hkeys hB' els' hp hkind
  rw [h', Option.some.injEq] at k1
  subst k1
  have hmem : ∀ e i, i < numFacets (A.G.elemGeo e) → p ++ [facetIndex A.G e i] ∈ b.spec.loc e := by
    intro e i hi
    obtain ⟨rfl, hf, -, -⟩ := hT p L f hp
    refine hp.mem (hf e) ?_
    rw [hkind]
    exact List.mem_map.2 ⟨⟨i, 1, 0⟩, List.mem_map.2 ⟨i, List.mem_range.2 hi, rfl⟩, rfl⟩
  have key : AgreeMI calls' (fun m => m ∈ calls.map Dofs.Visit.index) (fun _ => False) := by
    refine (k2 Prop _ _).2 fun e' he' is' his' hb' => eq_false fun hm => ?_
    obtain ⟨v, hv, hvi⟩ := List.mem_map.1 hm
    have key2 : AgreeMI calls (fun m => m = b.spec.mi (p ++ [facetIndex A.G e' is'.indexInInside])) (fun _ => False) := by
      refine (g2 Prop _ _).2 fun e he is his hbd => eq_false fun hm => ?_
      have hi := hB.facet e is his
      have hi' := hB'.facet e' is' his'
      have := R.prefixFree _ (R.locMem _ _ (hmem e _ hi)) _ (R.locMem _ _ (hmem e' _ hi')) (by rw [hm])
      simp only [List.append_cancel_left_eq, List.cons.injEq, and_true] at this
      exact hne e he is his hbd e' he' is' his' hb' (facetIndex_inj hA.dim hA.grid hi hi' this)
    exact (key2 v hv).mp hvi
  exact fun v' hv' hm => (key v' hv').mp hm

/-- **C112.** For a Raviart–Thomas component, the program does not change the normal components at all other facets: neither at the rest of the boundary nor in the interior. -/
theorem C112_raviartThomas {A : Setting E S K n} (hA : A.OK) {b : PB E} (hb : b.WF) (hpl : Plain b) {kind : List Nat → LeafKind} {P : Shapes E (Vec K (n + 1)) K} (hT : Tree A b kind P)
    (hP : P.OK ⟨b.model, []⟩) (hd : P.dimC = 1) (hsep : Separate ⟨b.model, []⟩ P) {keys : Nat → E → List Key} (hk : KeysMatch keys (LocalView.fresh b.model).tree)
    (hkeys : TreeKeys b keys fun p => (kind p).keys A) {hasBoundary : E → Bool} {bisects : E → List BIsect} (hB : BoundaryFacets A.G hasBoundary bisects) (sel : E → BIsect → Bool) (els : List E)
    {p : List Nat} {L : Leaf E} {f : E → Bool} (hp : Part b p L f) (hkind : kind p = .raviartThomas)
    {lib : Lib Bool Bool} (hlib : lib.Numbers) {rsB : CT → List (Ct Bool) → Nat → List (Ct Bool)} (hrsB : ResizeOK rsB) {rs : CT → List (Ct K) → Nat → List (Ct K)} (hrs : ResizeOK rs)
    (tyB : CT) (bits bits1 : Ct Bool) (hcB : HasType tyB bits) (hrB : Container.resize rsB b.model.size tyB bits = .ok bits1)
    (htyB : ∀ m ∈ IndexSet b.model, ∀ t, CT.at m tyB = some t → t.Padded)
    (ty : CT) (c c1 : Ct K) (hc : HasType ty c) (hr : Container.resize rs b.model.size ty c = .ok c1) (hty : ∀ m ∈ IndexSet b.model, ∀ t, CT.at m ty = some t → t.Padded)
    (I : Interp E K) (hI : ∀ w ∈ visits b.model p els, w.i < (I.coefs w.element w.path).length) :
    ∃ c', setBoundaryWhere lib rsB rs b.model p keys (fun e i c k => stdInc (A.G.elemGeo e) i c k.codim k.sub) hasBoundary bisects sel els tyB bits ty I c = some c' ∧
      ∀ e, ∀ i < numFacets (A.G.elemGeo e), (∀ e' ∈ els, ∀ is ∈ bisects e', is.boundary = true → sel e' is = true → A.G.sub e' 1 is.indexInInside ≠ A.G.sub e 1 i) →
        ∀ x, Inside (A.G.elemGeo e) x → (facetOf K n (A.G.elemGeo e) i).On x →
          ∃ v v', component ⟨b.model, []⟩ P (asVec c') false (some e) p x = some (List.ofFn v) ∧ component ⟨b.model, []⟩ P (asVec c1) false (some e) p x = some (List.ofFn v') ∧
            ∀ N : Vec K (n + 1), (∀ k, N ⬝ᵥ (gridJac A.G A.pos e x *ᵥ (facetOf K n (A.G.elemGeo e) i).frame k) = 0) → N ⬝ᵥ v = N ⬝ᵥ v' := by
  have hBs := selected_facets hB sel
  have hend : ∀ q L' f', Part b q L' f' → p <+: q → q = p := by
    rintro q L' f' hq ⟨r, rfl⟩
    rw [part_end hp hq, List.append_nil]
  rw [C112_program b hb hp.path keys _ hk hasBoundary bisects hB.reported sel]
  obtain ⟨calls, full, c', h1, h2, h3, h4⟩ := C111_interpolate hlib hrsB hrs b hb hp.path keys (fun e i c k => stdInc (A.G.elemGeo e) i c k.codim k.sub) hk hasBoundary (selected sel bisects)
    hBs.reported els tyB bits bits1 hcB hrB htyB ty c c1 hc hr hty ty c c1 hc hr hty I hI
  refine ⟨c', h3, fun e i hi hne => ?_⟩
  have hB2 : BoundaryFacets A.G (fun _ => true) fun e' => if i < numFacets (A.G.elemGeo e') then [⟨true, i⟩] else [] := by
    refine ⟨fun _ _ _ _ => rfl, fun e' is his => ?_⟩
    split at his
    · rename_i h; rw [List.mem_singleton.1 his]; exact h
    · simp at his
  obtain ⟨calls', g1, g2⟩ := C110_trees hA hb hpl hT hP hd hsep hk hkeys hB2 [e] hp.path (fun q L' f' hq hpq => by rw [hend q L' f' hq hpq, hkind]; trivial)
  have hc' : VecOK ⟨b.model, []⟩ 1 (asVec c') := fun m hm => by
    obtain ⟨x, hx, -⟩ := h4 m hm
    exact ⟨[x], asVec_get hx, rfl⟩
  have hc1 : VecOK ⟨b.model, []⟩ 1 (asVec c1) := fun m hm => by
    obtain ⟨x, hx⟩ := C33_entry hrs b hb ty c c1 hc hr m hm (hty m hm)
    exact ⟨[x], asVec_get (C35_access _ _ _ hx), rfl⟩
  have hdis := rt_disjoint hA hb hpl hT hk hkeys hBs hB2 els [e] hp hkind (by
    intro e1 he1 is1 his1 hb1 e2 he2 is2 his2 hb2
    obtain rfl := List.mem_singleton.1 he2
    rw [if_pos hi] at his2
    obtain rfl := List.mem_singleton.1 his2
    obtain ⟨m1, m2⟩ := mem_selected his1 hb1
    exact hne e1 he1 is1 m1 hb1 m2) h1 g1
  have hidx := sub_index b hb keys _ hk (fun _ => true) _ hB2.reported [e] hp.path g1
  have hs := (g2 _ _ hc' hc1).1 (fun v hv => by
    obtain ⟨d, hd1, -, hd3⟩ := hidx v hv
    obtain ⟨x, k1, -, k3⟩ := h4 v.index (by rw [hd3, indexSet_eq hb]; exact ⟨_, d, hd1, rfl⟩)
    rw [coef, coef, asVec_get k1, asVec_get (k3 (hdis v hv))]) p L f hp (List.prefix_refl p)
  rw [hkind] at hs
  exact hs e (List.mem_singleton_self e) ⟨true, i⟩ (by simp only [if_pos hi]; exact List.mem_singleton_self _) rfl

/-! ## Example -/

/-- The left edge of the grid of `Verif/HDiv/Trees.lean`. -/
def demoLeft (e : Fin 2) (is : BIsect) : Bool := e == 0 && is.indexInInside == 0

/-- The program for the left edge and the Raviart–Thomas component: the normal components at the left edge are those of the interpolated function, those at the other edges of the first element
(two boundary edges and the common edge) are those of the vector after resizing. -/
example (I : Interp (Fin 2) ℝ) (hI : ∀ w ∈ visits demoTree.model [0] [0, 1], w.i < (I.coefs w.element w.path).length) :
    ∃ c1 full c', Container.resize (stdResize 0) demoTree.model.size demoTy (demoEmpty ℝ) = .ok c1 ∧
      interpolate (stdResize 0) demoTree.model [0] demoTy I .allTrue [0, 1] (demoEmpty ℝ) = .ok full ∧
      setBoundaryWhere bitLib (stdResize true) (stdResize 0) demoTree.model [0] demoKeys (fun e i c k => stdInc (demo.G.elemGeo e) i c k.codim k.sub) (fun _ => true)
        BoundaryMixed.demoBoundary demoLeft [0, 1] demoTy (demoEmpty Bool) demoTy I (demoEmpty ℝ) = some c' ∧
      (∀ x, Inside (demo.G.elemGeo 0) x → (facetOf ℝ 1 (demo.G.elemGeo 0) 0).On x →
        ∃ v v', component ⟨demoTree.model, []⟩ (treeShapes demo demoKind) (asVec c') false (some 0) [0] x = some (List.ofFn v) ∧
          component ⟨demoTree.model, []⟩ (treeShapes demo demoKind) (asVec full) false (some 0) [0] x = some (List.ofFn v') ∧
          ∀ N : Vec ℝ 2, (∀ k, N ⬝ᵥ (gridJac demo.G demo.pos 0 x *ᵥ (facetOf ℝ 1 (demo.G.elemGeo 0) 0).frame k) = 0) → N ⬝ᵥ v = N ⬝ᵥ v') ∧
      ∀ i ∈ [1, 2, 3], ∀ x, Inside (demo.G.elemGeo 0) x → (facetOf ℝ 1 (demo.G.elemGeo 0) i).On x →
        ∃ v v', component ⟨demoTree.model, []⟩ (treeShapes demo demoKind) (asVec c') false (some 0) [0] x = some (List.ofFn v) ∧
          component ⟨demoTree.model, []⟩ (treeShapes demo demoKind) (asVec c1) false (some 0) [0] x = some (List.ofFn v') ∧
          ∀ N : Vec ℝ 2, (∀ k, N ⬝ᵥ (gridJac demo.G demo.pos 0 x *ᵥ (facetOf ℝ 1 (demo.G.elemGeo 0) i).frame k) = 0) → N ⬝ᵥ v = N ⬝ᵥ v' := by
  have h0 : Part demoTree [0] _ _ := .composite (k := 0) rfl (.leaf _)
  have hu : ∀ q L f, Part demoTree q L f → [0] <+: q → q = [0] := by
    rintro q L f hq ⟨r, rfl⟩
    rw [part_end h0 hq]
    rfl
  obtain ⟨bits1, hb⟩ := demo_resize true (by decide +kernel)
  obtain ⟨c1, hc⟩ := demo_resize (0 : ℝ) (by decide +kernel)
  obtain ⟨full, c', k1, k2, -, k4, -⟩ := C112_trees demo_OK demo_WF ⟨trivial, trivial, ⟨trivial, trivial, trivial⟩, trivial⟩ demo_tree demo_shapes rfl demo_separate demo_keysMatch
    demo_treeKeys BoundaryMixed.demo_boundary demoLeft [0, 1] h0.path (fun q L f hq hpq => demo_hasTrace q (by rw [hu q L f hq hpq]; decide)) bitLib_numbers (stdResize_OK true) (stdResize_OK 0)
    demoTy _ bits1 (demoEmpty_type _) hb demo_padded demoTy _ c1 (demoEmpty_type _) hc demo_padded I hI
  obtain ⟨c'', k5, k6⟩ := C112_raviartThomas demo_OK demo_WF ⟨trivial, trivial, ⟨trivial, trivial, trivial⟩, trivial⟩ demo_tree demo_shapes rfl demo_separate demo_keysMatch
    demo_treeKeys BoundaryMixed.demo_boundary demoLeft [0, 1] h0 rfl bitLib_numbers (stdResize_OK true) (stdResize_OK 0)
    demoTy _ bits1 (demoEmpty_type _) hb demo_padded demoTy _ c1 (demoEmpty_type _) hc demo_padded I hI
  rw [k2, Option.some.injEq] at k5
  subst k5
  refine ⟨c1, full, c', hc, k1, k2, ?_, fun i hi => k6 0 i ?_ ?_⟩
  · exact k4 [0] _ _ h0 (by simp) 0 (by simp) ⟨true, 0⟩ (by decide) rfl
  · revert i
    show ∀ i ∈ [1, 2, 3], i < numFacets (Continuity.mixedGrid.elemGeo 0)
    decide +kernel
  · revert i
    show ∀ i ∈ [1, 2, 3], ∀ e' ∈ [0, 1], ∀ is ∈ BoundaryMixed.demoBoundary e', is.boundary = true → demoLeft e' is = true →
      Continuity.mixedGrid.sub e' 1 is.indexInInside ≠ Continuity.mixedGrid.sub 0 1 i
    decide +kernel

end Verif.HDiv.Trees

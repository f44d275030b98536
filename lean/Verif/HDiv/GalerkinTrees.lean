import Verif.HDiv.BoundaryInterpolation
import Verif.Functions.Galerkin
import Mathlib.Tactic.IntervalCases

/-!
# Linear systems with boundary values, for basis trees

The programs of examples/poisson-pq2.cc and examples/poisson-mfem.cc as a whole: assembling a linear system, marking the boundary DOFs of a component, interpolating boundary values and modifying
the system. Which functions the solutions are, for trees of Raviart–Thomas, Nédélec and Lagrange bases.
-/

namespace Verif.HDiv.Trees

open Verif.Mapper Verif.Lagrange Verif.IndexTree Verif.RoundTrip Verif.Product Verif.Dofs Verif.Container Verif.Dirichlet Verif.Galerkin
open Verif.Interpolate (Interp interpolate visits)
open Verif.Assign (Lib)
open Verif.Piola (Vec)
open Verif.Discrete (Shapes VecOK)
open Verif.HDiv.BoundaryMixed (BoundaryFacets)

variable {E S K : Type} [Field K] [LinearOrder K] [IsStrictOrderedRing K] {n : Nat}

/-! ## Model -/

/-- `if (isDirichlet[i])`, poisson-pq2.cc:377, 386, poisson-mfem.cc:450: reading an entry of the bit vector. -/
def bit (mk : Ct Bool) (m : MI) : Bool := match access isScalar mk m with
  | some (.scalar t) => t
  | _ => false

/-! ## Specification -/

/-- All components below the node `p` of two discrete functions have the same boundary values. -/
def SameBoundary (A : Setting E S K n) (b : PB E) (kind : List Nat → LeafKind) (P : Shapes E (Vec K (n + 1)) K) (bisects : E → List BIsect) (els : List E) (p : List Nat) (v v' : Discrete.Vec K) : Prop :=
  ∀ q L f, Part b q L f → p <+: q →
    (kind q).SameTrace A bisects els (fun e x => component ⟨b.model, []⟩ P v false (some e) q x) (fun e x => component ⟨b.model, []⟩ P v' false (some e) q x)

/-- The function with all coefficients zero. -/
def zeroVec : Discrete.Vec K := fun _ => some [0]

/-- The discrete problem: `x` has the boundary values of `g` below the node `p`, and satisfies the equation for all test functions without boundary values there. -/
def Weak (A : Setting E S K n) (b : PB E) (kind : List Nat → LeafKind) (P : Shapes E (Vec K (n + 1)) K) (bisects : E → List BIsect) (els : List E) (p : List Nat)
    (a : E → Nat → Nat → K) (f : E → Nat → K) (g x : Discrete.Vec K) : Prop :=
  SameBoundary A b kind P bisects els p x g ∧
    ∀ v, VecOK ⟨b.model, []⟩ 1 v → SameBoundary A b kind P bisects els p v zeroVec → bilinear b.model a els (coef x) (coef v) = linear b.model f els (coef v)

/-! ## Proofs -/

omit [LinearOrder K] [IsStrictOrderedRing K] in
theorem coef_some (v : MI → K) : coef (fun m => some [v m]) = v := by
  funext m
  rfl

/-- Facts about the marked entries and the interpolated values. -/
theorem boundary_system {A : Setting E S K n} (hA : A.OK) {b : PB E} (hb : b.WF) (hpl : Plain b) {kind : List Nat → LeafKind} {P : Shapes E (Vec K (n + 1)) K} (hT : Tree A b kind P)
    (hP : P.OK ⟨b.model, []⟩) (hd : P.dimC = 1) (hsep : Separate ⟨b.model, []⟩ P) {keys : Nat → E → List Key} (hk : KeysMatch keys (LocalView.fresh b.model).tree)
    (hkeys : TreeKeys b keys fun p => (kind p).keys A) {hasBoundary : E → Bool} {bisects : E → List BIsect} (hB : BoundaryFacets A.G hasBoundary bisects) (els : List E) {p : List Nat}
    (hp : HasPath b p) (htr : ∀ q L f, Part b q L f → p <+: q → (kind q).HasTrace A)
    {lib : Lib Bool Bool} (hlib : lib.Numbers) {rsB : CT → List (Ct Bool) → Nat → List (Ct Bool)} (hrsB : ResizeOK rsB) {rs : CT → List (Ct K) → Nat → List (Ct K)} (hrs : ResizeOK rs)
    (tyB : CT) (bits bits1 : Ct Bool) (hcB : HasType tyB bits) (hrB : Container.resize rsB b.model.size tyB bits = .ok bits1)
    (htyB : ∀ m ∈ IndexSet b.model, ∀ t, CT.at m tyB = some t → t.Padded)
    (ty : CT) (c c1 : Ct K) (hc : HasType ty c) (hr : Container.resize rs b.model.size ty c = .ok c1) (hty : ∀ m ∈ IndexSet b.model, ∀ t, CT.at m ty = some t → t.Padded)
    (I : Interp E K) (hI : ∀ w ∈ visits b.model p els, w.i < (I.coefs w.element w.path).length) :
    ∃ mk full c', boundaryMarker lib rsB b.model p keys (fun e i c k => stdInc (A.G.elemGeo e) i c k.codim k.sub) hasBoundary bisects els tyB bits = some mk ∧
      interpolate rs b.model p ty I .allTrue els c = .ok full ∧
      setBoundary lib rsB rs b.model p keys (fun e i c k => stdInc (A.G.elemGeo e) i c k.codim k.sub) hasBoundary bisects els tyB bits ty I c = some c' ∧
      (∀ m ∈ IndexSet b.model, bit mk m = false → coef (asVec c') m = coef (asVec c1) m) ∧
      (∀ x, VecOK ⟨b.model, []⟩ 1 x → ((∀ m ∈ IndexSet b.model, bit mk m = true → coef x m = coef (asVec c') m) ↔ SameBoundary A b kind P bisects els p x (asVec full))) ∧
      ∀ x, VecOK ⟨b.model, []⟩ 1 x → ((∀ m ∈ IndexSet b.model, bit mk m = true → coef x m = 0) ↔ SameBoundary A b kind P bisects els p x zeroVec) := by
  obtain ⟨calls, full, c', h1, h2, h3, h4⟩ := C111_interpolate hlib hrsB hrs b hb hp keys (fun e i c k => stdInc (A.G.elemGeo e) i c k.codim k.sub) hk hasBoundary bisects hB.reported els
    tyB bits bits1 hcB hrB htyB ty c c1 hc hr hty ty c c1 hc hr hty I hI
  obtain ⟨calls', g1, g2⟩ := C110_trees hA hb hpl hT hP hd hsep hk hkeys hB els hp htr
  obtain ⟨calls'', mk, m1, m2, m3⟩ := C111_marker hlib hrsB b hb hp keys (fun e i c k => stdInc (A.G.elemGeo e) i c k.codim k.sub) hk hasBoundary bisects hB.reported els tyB bits bits1 hcB hrB htyB
  rw [h1, Option.some.injEq] at g1 m1
  subst g1
  subst m1
  have hfull : VecOK ⟨b.model, []⟩ 1 (asVec full) := by
    intro m hm
    rcases Interpolate.C39_basis hrs b hb p hp ty I .allTrue els c hc hty (.inl rfl) hI with ⟨e, he, -⟩ | ⟨d1, d', -, k2, k3⟩
    · rw [hr] at he
      simp at he
    · rw [h2] at k2
      injection k2 with k2
      subst k2
      obtain ⟨_, new, -, hnew, -⟩ := k3 m hm
      exact ⟨[new], asVec_get hnew, rfl⟩
  have hbit : ∀ m ∈ IndexSet b.model, (bit mk m = true ↔ m ∈ calls.map Dofs.Visit.index) := fun m hm => by
    rw [bit, C35_access _ _ _ (m3 m hm)]
    simp
  have hidx : ∀ v ∈ calls, v.index ∈ IndexSet b.model := fun v hv => by
    obtain ⟨d, hd1, -, hd3⟩ := sub_index b hb keys _ hk hasBoundary bisects hB.reported els hp h1 v hv
    rw [hd3, indexSet_eq hb]
    exact ⟨_, d, hd1, rfl⟩
  have hagree : ∀ u w : MI → K, (∀ m ∈ IndexSet b.model, bit mk m = true → u m = w m) ↔ AgreeMI calls u w := fun u w =>
    ⟨fun h v hv => h _ (hidx v hv) ((hbit _ (hidx v hv)).2 (List.mem_map_of_mem hv)), fun h m hm hbm => by
      obtain ⟨v, hv, rfl⟩ := List.mem_map.1 ((hbit m hm).1 hbm)
      exact h v hv⟩
  have hval : AgreeMI calls (coef (asVec c')) (coef (asVec full)) := fun v hv => by
    obtain ⟨x, k1, k2, -⟩ := h4 v.index (hidx v hv)
    rw [coef, coef, asVec_get k1, asVec_get (k2 (List.mem_map_of_mem hv))]
  refine ⟨mk, full, c', m2, h2, h3, fun m hm hbm => ?_, fun x hx => ?_, fun x hx => ?_⟩
  · obtain ⟨x, k1, -, k3⟩ := h4 m hm
    have hn : m ∉ calls.map Dofs.Visit.index := fun h => by rw [(hbit m hm).2 h] at hbm; cases hbm
    rw [coef, coef, asVec_get k1, asVec_get (k3 hn)]
  · rw [hagree, SameBoundary, ← g2 _ _ hx hfull]
    exact ⟨fun h v hv => (h v hv).trans (hval v hv), fun h v hv => (h v hv).trans (hval v hv).symm⟩
  · rw [SameBoundary, ← g2 _ zeroVec hx fun m _ => ⟨[0], rfl, rfl⟩, ← hagree]
    rfl

omit [IsStrictOrderedRing K] in
/-- The equations of the marked coefficients and the test vectors, as functions. -/
theorem weak_iff {A : Setting E S K n} {b : PB E} {kind : List Nat → LeafKind} {P : Shapes E (Vec K (n + 1)) K} {bisects : E → List BIsect} {els : List E} {p : List Nat}
    {a : E → Nat → Nat → K} {f : E → Nat → K} {g x : Discrete.Vec K} {marked : MI → Bool} {c : MI → K}
    (h1 : (∀ m ∈ IndexSet b.model, marked m = true → coef x m = c m) ↔ SameBoundary A b kind P bisects els p x g)
    (h2 : ∀ v, VecOK ⟨b.model, []⟩ 1 v → ((∀ m ∈ IndexSet b.model, marked m = true → coef v m = 0) ↔ SameBoundary A b kind P bisects els p v zeroVec)) :
    ((∀ m ∈ IndexSet b.model, marked m = true → coef x m = c m) ∧
      ∀ v : MI → K, (∀ m ∈ IndexSet b.model, marked m = true → v m = 0) → bilinear b.model a els (coef x) v = linear b.model f els v) ↔ Weak A b kind P bisects els p a f g x := by
  rw [Weak, h1]
  refine and_congr_right fun _ => ⟨fun h v hv hs => h _ ((h2 v hv).2 hs), fun h v hv => ?_⟩
  have hv' : VecOK ⟨b.model, []⟩ 1 (fun m => some [v m]) := fun m _ => ⟨_, rfl, rfl⟩
  have := h _ hv' ((h2 _ hv').1 (by rwa [coef_some]))
  rwa [coef_some] at this

/-! ## Theorems -/

/-- **C113.** The program of examples/poisson-mfem.cc: if the boundary values are interpolated into the assembled right hand side and the marked rows of the matrix are those of the identity, the
solutions of the linear system are the coefficients of the solutions of the discrete problem: their components below the node have the boundary values of the interpolated function, and they
satisfy the variational equation for all test functions without boundary values there. -/
theorem C113_trees_rows {A : Setting E S K n} (hA : A.OK) {b : PB E} (hb : b.WF) (hpl : Plain b) {kind : List Nat → LeafKind} {P : Shapes E (Vec K (n + 1)) K} (hT : Tree A b kind P)
    (hP : P.OK ⟨b.model, []⟩) (hd : P.dimC = 1) (hsep : Separate ⟨b.model, []⟩ P) {keys : Nat → E → List Key} (hk : KeysMatch keys (LocalView.fresh b.model).tree)
    (hkeys : TreeKeys b keys fun p => (kind p).keys A) {hasBoundary : E → Bool} {bisects : E → List BIsect} (hB : BoundaryFacets A.G hasBoundary bisects) {els : List E} (hels : ∀ e, e ∈ els)
    {p : List Nat} (hp : HasPath b p) (htr : ∀ q L f, Part b q L f → p <+: q → (kind q).HasTrace A)
    {lib : Lib Bool Bool} (hlib : lib.Numbers) {rsB : CT → List (Ct Bool) → Nat → List (Ct Bool)} (hrsB : ResizeOK rsB) {rs : CT → List (Ct K) → Nat → List (Ct K)} (hrs : ResizeOK rs)
    (tyB : CT) (bits bits1 : Ct Bool) (hcB : HasType tyB bits) (hrB : Container.resize rsB b.model.size tyB bits = .ok bits1)
    (htyB : ∀ m ∈ IndexSet b.model, ∀ t, CT.at m tyB = some t → t.Padded)
    (ty : CT) (hty : ∀ m ∈ IndexSet b.model, ∀ t, CT.at m ty = some t → t.Padded)
    (I : Interp E K) (hI : ∀ w ∈ visits b.model p els, w.i < (I.coefs w.element w.path).length)
    (a : E → Nat → Nat → K) (f : E → Nat → K) {rows : List MI} (hrows : Rows b.model rows) :
    ∃ M rhs, assembleMatrix b.model a els = some M ∧ assembleRhs b.model f els = some rhs ∧
      ∀ c c1, HasType ty c → Container.resize rs b.model.size ty c = .ok c1 → (∀ m ∈ IndexSet b.model, coef (asVec c1) m = rhs m) →
        ∃ mk full c', boundaryMarker lib rsB b.model p keys (fun e i c k => stdInc (A.G.elemGeo e) i c k.codim k.sub) hasBoundary bisects els tyB bits = some mk ∧
          interpolate rs b.model p ty I .allTrue els c = .ok full ∧
          setBoundary lib rsB rs b.model p keys (fun e i c k => stdInc (A.G.elemGeo e) i c k.codim k.sub) hasBoundary bisects els tyB bits ty I c = some c' ∧
          ∀ x, VecOK ⟨b.model, []⟩ 1 x → (Solves rows (identityRows (bit mk) rows M) (coef (asVec c')) (coef x) ↔ Weak A b kind P bisects els p a f (asVec full) x) := by
  obtain ⟨M, rhs, j1, j2, -⟩ := C113_rows b hb a f hels hrows (fun _ => false) fun _ => 0
  refine ⟨M, rhs, j1, j2, fun c c1 hc hr hc1 => ?_⟩
  obtain ⟨mk, full, c', h1, h2, h3, h4, h5, h6⟩ := boundary_system hA hb hpl hT hP hd hsep hk hkeys hB els hp htr hlib hrsB hrs tyB bits bits1 hcB hrB htyB ty c c1 hc hr hty I hI
  refine ⟨mk, full, c', h1, h2, h3, fun x hx => ?_⟩
  obtain ⟨M', rhs', k1, k2, k3⟩ := C113_rows b hb a f hels hrows (bit mk) (coef (asVec c'))
  rw [j1, Option.some.injEq] at k1
  rw [j2, Option.some.injEq] at k2
  subst k1
  subst k2
  rw [← weak_iff (h5 x hx) h6, ← k3]
  refine forall_congr' fun r => forall_congr' fun hr => ?_
  have hm := (hrows.mem r).1 hr
  cases hbm : bit mk r with
  | true => simp only [hbm, if_true]
  | false => simp only [hbm, h4 r hm hbm, hc1 r hm, Bool.false_eq_true, if_false]

/-- **C113.** The program of examples/poisson-pq2.cc: the boundary values are interpolated into a zero vector, and the marked coefficients are eliminated symmetrically. The solutions of the linear
system are the coefficients of the solutions of the discrete problem. -/
theorem C113_trees_eliminate {A : Setting E S K n} (hA : A.OK) {b : PB E} (hb : b.WF) (hpl : Plain b) {kind : List Nat → LeafKind} {P : Shapes E (Vec K (n + 1)) K} (hT : Tree A b kind P)
    (hP : P.OK ⟨b.model, []⟩) (hd : P.dimC = 1) (hsep : Separate ⟨b.model, []⟩ P) {keys : Nat → E → List Key} (hk : KeysMatch keys (LocalView.fresh b.model).tree)
    (hkeys : TreeKeys b keys fun p => (kind p).keys A) {hasBoundary : E → Bool} {bisects : E → List BIsect} (hB : BoundaryFacets A.G hasBoundary bisects) {els : List E} (hels : ∀ e, e ∈ els)
    {p : List Nat} (hp : HasPath b p) (htr : ∀ q L f, Part b q L f → p <+: q → (kind q).HasTrace A)
    {lib : Lib Bool Bool} (hlib : lib.Numbers) {rsB : CT → List (Ct Bool) → Nat → List (Ct Bool)} (hrsB : ResizeOK rsB) {rs : CT → List (Ct K) → Nat → List (Ct K)} (hrs : ResizeOK rs)
    (tyB : CT) (bits bits1 : Ct Bool) (hcB : HasType tyB bits) (hrB : Container.resize rsB b.model.size tyB bits = .ok bits1)
    (htyB : ∀ m ∈ IndexSet b.model, ∀ t, CT.at m tyB = some t → t.Padded)
    (ty : CT) (c c1 : Ct K) (hc : HasType ty c) (hr : Container.resize rs b.model.size ty c = .ok c1) (hc1 : ∀ m ∈ IndexSet b.model, coef (asVec c1) m = 0)
    (hty : ∀ m ∈ IndexSet b.model, ∀ t, CT.at m ty = some t → t.Padded)
    (I : Interp E K) (hI : ∀ w ∈ visits b.model p els, w.i < (I.coefs w.element w.path).length)
    (a : E → Nat → Nat → K) (f : E → Nat → K) {rows : List MI} (hrows : Rows b.model rows) :
    ∃ M rhs mk full c', assembleMatrix b.model a els = some M ∧ assembleRhs b.model f els = some rhs ∧
      boundaryMarker lib rsB b.model p keys (fun e i c k => stdInc (A.G.elemGeo e) i c k.codim k.sub) hasBoundary bisects els tyB bits = some mk ∧
      interpolate rs b.model p ty I .allTrue els c = .ok full ∧
      setBoundary lib rsB rs b.model p keys (fun e i c k => stdInc (A.G.elemGeo e) i c k.codim k.sub) hasBoundary bisects els tyB bits ty I c = some c' ∧
      ∀ x, VecOK ⟨b.model, []⟩ 1 x → (Solves rows (eliminate (bit mk) (coef (asVec c')) rows M rhs).1 (eliminate (bit mk) (coef (asVec c')) rows M rhs).2 (coef x) ↔
        Weak A b kind P bisects els p a f (asVec full) x) := by
  obtain ⟨mk, full, c', h1, h2, h3, h4, h5, h6⟩ := boundary_system hA hb hpl hT hP hd hsep hk hkeys hB els hp htr hlib hrsB hrs tyB bits bits1 hcB hrB htyB ty c c1 hc hr hty I hI
  obtain ⟨M, rhs, k1, k2, k3⟩ := C113_eliminate b hb a f hels hrows (bit mk) (coef (asVec c')) fun m hm hbm => (h4 m hm hbm).trans (hc1 m hm)
  exact ⟨M, rhs, mk, full, c', k1, k2, h1, h2, h3, fun x hx => by rw [k3, weak_iff (h5 x hx) h6]⟩

/-! ## Example -/

/-- The vector after resizing. -/
def demoZero {T : Type} (t0 : T) : Ct T := .arr [.vec (List.replicate 6 (.scalar t0)), .vec (List.replicate 2 (.scalar t0)), .vec (List.replicate 11 (.scalar t0))]

theorem demo_resized {T : Type} (t0 : T) : Container.resize (stdResize t0) demoTree.model.size demoTy (demoEmpty T) = .ok (demoZero t0) := by
  rw [demoPlain_eq]
  cbv

theorem demo_zero : ∀ m ∈ IndexSet demoTree.model, coef (asVec (demoZero (0 : ℝ))) m = 0 := by
  intro m hm
  rw [indexSet_eq demo_WF] at hm
  obtain ⟨e, d, hd, rfl⟩ := hm
  rw [demoPlain_eq] at hd ⊢
  have h : ∀ e : Fin 2, ∀ d ∈ demoPlain.spec.loc e, demoPlain.spec.mi d ∈ (List.range 6).map (fun i => [0, i]) ++ (List.range 2).map (fun i => [1, i]) ++ (List.range 11).map (fun i => [2, i]) := by
    decide +kernel
  have h' := h e d hd
  generalize demoPlain.spec.mi d = m at h'
  have h'' : ∀ m ∈ (List.range 6).map (fun i => [0, i]) ++ (List.range 2).map (fun i => [1, i]) ++ (List.range 11).map (fun i => [2, i]),
      (asVec (demoZero (0 : ℝ))) m = some [0] := by
    simp only [List.mem_append, List.mem_map, List.mem_range]
    rintro m ((⟨i, hi, rfl⟩ | ⟨i, hi, rfl⟩) | ⟨i, hi, rfl⟩) <;> interval_cases i <;> rfl
  rw [coef, h'' m h']
  rfl

/-- Normal components given at the whole boundary: the program of poisson-pq2.cc for the Raviart–Thomas component of the tree of `Verif/HDiv/Trees.lean`, with any element matrices, local right hand
sides and boundary function. -/
example (I : Interp (Fin 2) ℝ) (hI : ∀ w ∈ visits demoTree.model [0] [0, 1], w.i < (I.coefs w.element w.path).length) (a : Fin 2 → Nat → Nat → ℝ) (f : Fin 2 → Nat → ℝ) :
    ∃ rows M rhs mk full c', assembleMatrix demoTree.model a [0, 1] = some M ∧ assembleRhs demoTree.model f [0, 1] = some rhs ∧
      boundaryMarker bitLib (stdResize true) demoTree.model [0] demoKeys (fun e i c k => stdInc (demo.G.elemGeo e) i c k.codim k.sub) (fun _ => true)
        BoundaryMixed.demoBoundary [0, 1] demoTy (demoEmpty Bool) = some mk ∧
      interpolate (stdResize 0) demoTree.model [0] demoTy I .allTrue [0, 1] (demoEmpty ℝ) = .ok full ∧
      setBoundary bitLib (stdResize true) (stdResize 0) demoTree.model [0] demoKeys (fun e i c k => stdInc (demo.G.elemGeo e) i c k.codim k.sub) (fun _ => true)
        BoundaryMixed.demoBoundary [0, 1] demoTy (demoEmpty Bool) demoTy I (demoEmpty ℝ) = some c' ∧
      ∀ x, VecOK ⟨demoTree.model, []⟩ 1 x → (Solves rows (eliminate (bit mk) (coef (asVec c')) rows M rhs).1 (eliminate (bit mk) (coef (asVec c')) rows M rhs).2 (coef x) ↔
        Weak demo demoTree demoKind (treeShapes demo demoKind) BoundaryMixed.demoBoundary [0, 1] [0] a f (asVec full) x) := by
  have h0 : Part demoTree [0] _ _ := .composite (k := 0) rfl (.leaf _)
  have hu : ∀ q L f, Part demoTree q L f → [0] <+: q → q = [0] := by
    intro q L f hq hpq
    have : ∀ q ∈ [[0], [1], [2, 0], [2, 1]], [0] <+: q → q = [0] := by decide
    exact this q (demo_part hq).2.2 hpq
  have hels : ∀ e : Fin 2, e ∈ [0, 1] := by decide
  exact ⟨_, C113_trees_eliminate demo_OK demo_WF ⟨trivial, trivial, ⟨trivial, trivial, trivial⟩, trivial⟩ demo_tree demo_shapes rfl demo_separate demo_keysMatch
    demo_treeKeys BoundaryMixed.demo_boundary hels h0.path (fun q L f hq hpq => demo_hasTrace q (by rw [hu q L f hq hpq]; decide)) bitLib_numbers (stdResize_OK true) (stdResize_OK 0)
    demoTy _ _ (demoEmpty_type _) (demo_resized true) demo_padded demoTy _ _ (demoEmpty_type _) (demo_resized 0) demo_zero demo_padded I hI a f (rows_of demo_WF hels)⟩

end Verif.HDiv.Trees

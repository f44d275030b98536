import Verif.HDiv.GalerkinTrees
import Verif.Functions.Stokes

/-!
# The Stokes problem

The whole program of examples/stokes-taylorhood.cc.
-/

namespace Verif.HDiv.Trees

open Verif.Mapper Verif.Lagrange Verif.IndexTree Verif.RoundTrip Verif.Product Verif.Dofs Verif.Container Verif.Dirichlet Verif.Galerkin
open Verif.Interpolate (Interp interpolate visits)
open Verif.Assign (Lib)
open Verif.Piola (Vec)
open Verif.Discrete (Shapes VecOK slotsOn)
open Verif.HDiv.BoundaryMixed (BoundaryFacets)
open Finset (range)

variable {E S K : Type} [Field K] [LinearOrder K] [IsStrictOrderedRing K] {n : Nat}

/-! ## Specification -/

/-- The Stokes problem: the velocity of `x` has the boundary values of `g`, and `∫ ∇u:∇w - div w p - div u q = 0` for all velocities `w` without boundary values and all pressures `q`. -/
def Stokes (A : Setting E S K n) (b : PB E) (kind : List Nat → LeafKind) (P : Shapes E (Vec K (n + 1)) K) (bisects : E → List BIsect) (els : List E)
    (Q : Quadrature E (Vec K (n + 1)) K) (g x : Discrete.Vec K) : Prop :=
  SameBoundary A b kind P bisects els [0] x g ∧
    ∀ w, VecOK ⟨b.model, []⟩ 1 w → SameBoundary A b kind P bisects els [0] w zeroVec →
      integral Q els (fun e y =>
        ∑ k ∈ range P.dimworld, ∑ l ∈ range P.dimworld, valueOf b P x true [0, k] e y 0 l * valueOf b P w true [0, k] e y 0 l -
        (∑ k ∈ range P.dimworld, valueOf b P w true [0, k] e y 0 k) * valueOf b P x false [1] e y 0 0 -
        (∑ k ∈ range P.dimworld, valueOf b P x true [0, k] e y 0 k) * valueOf b P w false [1] e y 0 0) = 0

/-! ## Theorem -/

omit [LinearOrder K] [IsStrictOrderedRing K] in
theorem rhs_zero {b : PB E} (hb : b.WF) {els : List E} {rows : List MI} (hr : Rows b.model rows) {rhs : MI → K} (h : assembleRhs b.model (fun _ _ => 0) els = some rhs) :
    ∀ m ∈ IndexSet b.model, rhs m = 0 := by
  intro m hm
  obtain ⟨rhs', h1, h2⟩ := rhs_spec b hb (fun _ _ => (0 : K)) els
  rw [h, Option.some.injEq] at h1
  subst h1
  have h3 := h2 rows hr.nodup (fun m hm => (hr.mem m).2 hm) fun r => if r = m then 1 else 0
  have h4 : linear b.model (fun _ _ => (0 : K)) els (fun r => if r = m then 1 else 0) = 0 := by simp [linear]
  rw [h4] at h3
  have h5 : (rows.map fun r => (if r = m then (1 : K) else 0) * rhs r) = rows.map fun r => if r = m then rhs r else 0 := List.map_congr_left fun r _ => by split <;> simp
  rw [h5] at h3
  obtain ⟨l1, l2, hl⟩ := List.append_of_mem ((hr.mem m).2 hm)
  have hnd := hr.nodup
  rw [hl] at h3 hnd
  have hz : ∀ l : List MI, m ∉ l → (l.map fun r => if r = m then rhs r else 0).sum = 0 := fun l hml =>
    List.sum_eq_zero fun y hy => by
      obtain ⟨r, hr, rfl⟩ := List.mem_map.1 hy
      exact if_neg fun (h : r = m) => hml (h ▸ hr)
  rw [List.nodup_append, List.nodup_cons] at hnd
  rw [List.map_append, List.sum_append, List.map_cons, List.sum_cons, hz l1 fun h => hnd.2.2 m h m List.mem_cons_self rfl, hz l2 hnd.2.1.1, if_pos rfl, zero_add, add_zero] at h3
  exact h3

/-- **C115.** The program of examples/stokes-taylorhood.cc: the solutions of the linear system are the coefficients of the solutions of the Stokes problem in the discrete spaces. -/
theorem C115_trees {A : Setting E S K n} (hA : A.OK) {b : PB E} (hb : b.WF) (hpl : Plain b) {kind : List Nat → LeafKind} {P : Shapes E (Vec K (n + 1)) K} (hT : Tree A b kind P)
    (hP : P.OK ⟨b.model, []⟩) (hd : P.dimC = 1) (hsep : Separate ⟨b.model, []⟩ P) {keys : Nat → E → List Key} (hk : KeysMatch keys (LocalView.fresh b.model).tree)
    (hkeys : TreeKeys b keys fun p => (kind p).keys A) {hasBoundary : E → Bool} {bisects : E → List BIsect} (hB : BoundaryFacets A.G hasBoundary bisects) {els : List E} (hels : ∀ e, e ∈ els)
    (hD : 0 < P.dimworld) {L L1 : Leaf E} {f f1 : E → Bool} (hp : ∀ k < P.dimworld, Part b [0, k] L f) (hp1 : Part b [1] L1 f1) (he : ∀ e, f e = true) (he1 : ∀ e, f1 e = true)
    (hne : ∀ e, L.loc e ≠ []) (hne1 : ∀ e, L1.loc e ≠ []) (hrow : ∀ k < P.dimworld, P.rows [0, k] = 1) (hrow1 : P.rows [1] = 1)
    (hsame : ∀ k < P.dimworld, ∀ e x i, shapeOf P true [0, k] e x i = shapeOf P true [0, 0] e x i)
    (hp0 : HasPath b [0]) (htr : ∀ q L f, Part b q L f → [0] <+: q → (kind q).HasTrace A)
    {lib : Lib Bool Bool} (hlib : lib.Numbers) {rsB : CT → List (Ct Bool) → Nat → List (Ct Bool)} (hrsB : ResizeOK rsB) {rs : CT → List (Ct K) → Nat → List (Ct K)} (hrs : ResizeOK rs)
    (tyB : CT) (bits bits1 : Ct Bool) (hcB : HasType tyB bits) (hrB : Container.resize rsB b.model.size tyB bits = .ok bits1)
    (htyB : ∀ m ∈ IndexSet b.model, ∀ t, CT.at m tyB = some t → t.Padded)
    (ty : CT) (c c1 : Ct K) (hc : HasType ty c) (hr : Container.resize rs b.model.size ty c = .ok c1) (hc1 : ∀ m ∈ IndexSet b.model, coef (asVec c1) m = 0)
    (hty : ∀ m ∈ IndexSet b.model, ∀ t, CT.at m ty = some t → t.Padded)
    (I : Interp E K) (hI : ∀ w ∈ visits b.model [0] els, w.i < (I.coefs w.element w.path).length)
    (Q : Quadrature E (Vec K (n + 1)) K) {rows : List MI} (hrows : Rows b.model rows) :
    ∃ M mk full c' M', assembleMatrixWith b.model (stokesMatrix P Q) els = some M ∧
      boundaryMarker lib rsB b.model [0] keys (fun e i c k => stdInc (A.G.elemGeo e) i c k.codim k.sub) hasBoundary bisects els tyB bits = some mk ∧
      interpolate rs b.model [0] ty I .allTrue els c = .ok full ∧
      setBoundary lib rsB rs b.model [0] keys (fun e i c k => stdInc (A.G.elemGeo e) i c k.codim k.sub) hasBoundary bisects els tyB bits ty I c = some c' ∧
      elementRows b.model (bit mk) els M = some M' ∧
      ∀ x, VecOK ⟨b.model, []⟩ 1 x → (Solves rows M' (coef (asVec c')) (coef x) ↔ Stokes A b kind P bisects els Q (asVec full) x) := by
  obtain ⟨a, a1, a2⟩ := C115_stokes hb hD hp hp1 he he1 hP hd hsep hne hne1 hrow hrow1 hsame Q
  obtain ⟨M, rhs, h1, h2, h3⟩ := C113_trees_rows hA hb hpl hT hP hd hsep hk hkeys hB hels hp0 htr hlib hrsB hrs tyB bits bits1 hcB hrB htyB ty hty I hI a (fun _ _ => 0) hrows
  obtain ⟨mk, full, c', k1, k2, k3, k4⟩ := h3 c c1 hc hr fun m hm => by rw [hc1 m hm, rhs_zero hb hrows h2 m hm]
  obtain ⟨M0, M', m1, m2, m3⟩ := C115_rows hb a els hrows (bit mk)
  rw [h1, Option.some.injEq] at m1
  subst m1
  refine ⟨M, mk, full, c', M', (a1 els).trans h1, k1, k2, k3, m2, fun x hx => (m3 _ _).trans ((k4 x hx).trans ?_)⟩
  rw [Weak, Stokes]
  refine and_congr_right fun _ => forall_congr' fun w => forall_congr' fun hw => forall_congr' fun _ => ?_
  rw [a2 els x w hx hw, show linear b.model (fun _ _ => (0 : K)) els (coef w) = 0 by simp [linear]]

/-! ## Example -/

/-- `composite(power<2>(lagrange<2>(), blockedInterleaved()), lagrange<1>(), blockedLexicographic())` on the trapezoid and the triangle of `Verif/HDiv/Trees.lean` -/
noncomputable def taylorHood : PB (Fin 2) := .composite true [.power .blockedInt 2 (.leaf ((LeafKind.lagrange 2).leaf demo)), .leaf ((LeafKind.lagrange 1).leaf demo)]

def taylorHoodKind (p : List Nat) : LeafKind := if p = [1] then .lagrange 1 else .lagrange 2

def taylorHoodKeys (ti : Nat) (e : Fin 2) : List Key := Continuity.gridKeys Continuity.mixedGrid (if ti = 4 then 1 else 2) (Continuity.mixedGrid.elemGeo e)

/-- The tree without the data of the geometries. -/
def taylorHoodPlain : PB (Fin 2) :=
  .composite true [.power .blockedInt 2 (.leaf (lagrangeLeaf Continuity.mixedGrid 2 fun e => Continuity.gridKeys Continuity.mixedGrid 2 (Continuity.mixedGrid.elemGeo e))),
    .leaf (lagrangeLeaf Continuity.mixedGrid 1 fun e => Continuity.gridKeys Continuity.mixedGrid 1 (Continuity.mixedGrid.elemGeo e))]

theorem taylorHood_eq : taylorHood = taylorHoodPlain := rfl

theorem taylorHood_part {p : List Nat} {L : Leaf (Fin 2)} {f : Fin 2 → Bool} (h : Part taylorHood p L f) :
    L = (taylorHoodKind p).leaf demo ∧ (∀ e, f e = true) ∧ p ∈ [[0, 0], [0, 1], [1]] := by
  cases h with
  | @composite _ _ j b q _ _ hk h =>
    match j with
    | 0 =>
      simp only [List.getElem?_cons_zero, Option.some.injEq] at hk
      subst hk
      cases h with
      | @power _ _ k _ q _ _ hk h =>
        cases h
        refine ⟨by simp [taylorHoodKind], fun _ => rfl, ?_⟩
        interval_cases k <;> simp
    | 1 =>
      simp only [List.getElem?_cons_succ, List.getElem?_cons_zero, Option.some.injEq] at hk
      subst hk
      cases h
      exact ⟨rfl, fun _ => rfl, by simp⟩
    | j + 2 => simp at hk

theorem taylorHood_accepts (p : List Nat) : (taylorHoodKind p).Accepts demo := by
  unfold taylorHoodKind
  split_ifs
  · exact fun _ => by omega
  · exact fun _ => by omega

/-- The values of the shape functions with any table of Jacobians on the reference elements and of Jacobians of the geometries. -/
noncomputable def taylorHoodShapes (D : LeafKind → Fin 2 → Vec ℝ 2 → Nat → Nat → Nat → ℝ) (J : Fin 2 → Vec ℝ 2 → List (List ℝ)) : Shapes (Fin 2) (Vec ℝ 2) ℝ :=
  { treeShapes demo taylorHoodKind with
    shape := fun d p e o x => if d then ((treeShapes demo taylorHoodKind).shape false p e o x).mapIdx fun i _ => (List.range ((taylorHoodKind p).rows 1)).map fun r =>
      (List.range 2).map fun s => D (taylorHoodKind p) e x i r s else (treeShapes demo taylorHoodKind).shape false p e o x
    jinv := J }

theorem taylorHood_tree (D : LeafKind → Fin 2 → Vec ℝ 2 → Nat → Nat → Nat → ℝ) (J : Fin 2 → Vec ℝ 2 → List (List ℝ)) : Tree demo taylorHood taylorHoodKind (taylorHoodShapes D J) := fun p _ _ h =>
  ⟨(taylorHood_part h).1, (taylorHood_part h).2.1, taylorHood_accepts p, treeShapes_values demo taylorHoodKind p⟩

theorem taylorHood_slots (e : Fin 2) : slotsOn ⟨taylorHood.model, []⟩ e = if e = 0 then [([0, 0], 0, 9), ([0, 1], 9, 9), ([1], 18, 4)] else [([0, 0], 0, 6), ([0, 1], 6, 6), ([1], 12, 3)] := by
  revert e
  have h : ∀ e : Fin 2, slotsOn ⟨taylorHoodPlain.model, []⟩ e = if e = 0 then [([0, 0], 0, 9), ([0, 1], 9, 9), ([1], 18, 4)] else [([0, 0], 0, 6), ([0, 1], 6, 6), ([1], 12, 3)] := by decide +kernel
  exact h

theorem taylorHood_sizes : ∀ e : Fin 2, ∀ s ∈ slotsOn ⟨taylorHood.model, []⟩ e, s.2.2 = (((taylorHoodKind s.1).leaf demo).loc e).length := by
  intro e s hs
  rw [taylorHood_slots] at hs
  have h : ∀ e : Fin 2, (Continuity.gridKeys Continuity.mixedGrid 2 (Continuity.mixedGrid.elemGeo e)).length = (if e = 0 then 9 else 6) ∧
      (Continuity.gridKeys Continuity.mixedGrid 1 (Continuity.mixedGrid.elemGeo e)).length = (if e = 0 then 4 else 3) := by decide +kernel
  obtain ⟨h1, h2⟩ := h e
  by_cases he : e = 0
  · simp only [he, if_true, List.mem_cons, List.not_mem_nil, or_false] at hs h1 h2
    rcases hs with rfl | rfl | rfl <;> simp [taylorHoodKind, LeafKind.leaf, demo, lagrangeLeaf, he, h1, h2]
  · simp only [if_neg he, List.mem_cons, List.not_mem_nil, or_false] at hs h1 h2
    rcases hs with rfl | rfl | rfl <;> simp [taylorHoodKind, LeafKind.leaf, demo, lagrangeLeaf, h1, h2]

theorem taylorHood_shapes (D : LeafKind → Fin 2 → Vec ℝ 2 → Nat → Nat → Nat → ℝ) (J : Fin 2 → Vec ℝ 2 → List (List ℝ)) : (taylorHoodShapes D J).OK ⟨taylorHood.model, []⟩ where
  number d e x s hs := by
    have h := treeShapes_number demo_OK taylorHoodKind (taylorHood_accepts s.1) false e (some e) x
    rw [← taylorHood_sizes e s hs] at h
    cases d
    · exact h
    · exact List.length_mapIdx.trans h
  rows d e x s hs φ hφ := by
    cases d
    · obtain ⟨ψ, hψ, rfl⟩ := List.mem_map.1 hφ
      obtain ⟨h1, h2⟩ := leafValues_rows demo e x (taylorHoodKind s.1) ψ hψ
      refine ⟨by rw [List.length_map, h1]; rfl, fun r hr => ?_⟩
      obtain ⟨r', hr', rfl⟩ := List.mem_map.1 hr
      simp [Shapes.cols, h2 r' hr']
    · obtain ⟨i, hi, rfl⟩ := List.mem_mapIdx.1 hφ
      refine ⟨by simp [taylorHoodShapes, treeShapes], fun r hr => ?_⟩
      obtain ⟨r', -, rfl⟩ := List.mem_map.1 hr
      simp [Shapes.cols, taylorHoodShapes, treeShapes]
  range d e s hs := by cases d <;> simp [taylorHoodShapes, treeShapes, Shapes.outCols, List.length_flatMap]

theorem taylorHood_separate (D : LeafKind → Fin 2 → Vec ℝ 2 → Nat → Nat → Nat → ℝ) (J : Fin 2 → Vec ℝ 2 → List (List ℝ)) : Separate ⟨taylorHood.model, []⟩ (taylorHoodShapes D J) := by
  intro d e
  rw [taylorHood_slots]
  cases d <;> fin_cases e <;> simp [taylorHoodShapes, treeShapes, taylorHoodKind, LeafKind.rows, List.range_succ]

theorem taylorHood_WF : taylorHood.WF := by
  have h : ∀ k, k ≤ 2 → (PB.leaf (lagrangeLeaf Continuity.mixedGrid k fun e => Continuity.gridKeys Continuity.mixedGrid k (Continuity.mixedGrid.elemGeo e))).WF := fun k hk =>
    lagrangeLeaf_WF Continuity.mixedGrid_OK (by simp [lagrangeAccept, Continuity.mixedGrid]) (Continuity.gridKeys_keys Continuity.mixedGrid_OK k)
  simp only [taylorHood, PB.WF, PB.WFs]
  exact ⟨by simp, ⟨by decide, h 2 le_rfl⟩, h 1 (by decide), trivial⟩

theorem taylorHood_keysMatch : KeysMatch taylorHoodKeys (LocalView.fresh taylorHood.model).tree := by
  rw [taylorHood_eq]
  have h : ∀ e : Fin 2, (leafInfo (LocalView.fresh taylorHoodPlain.model).tree).map (fun q : Nat × (Fin 2 → Nat) => q.2 e - (taylorHoodKeys q.1 e).length + ((taylorHoodKeys q.1 e).length - q.2 e)) = [0, 0, 0] := by
    decide +kernel
  intro q hq e
  have h' := h e ▸ List.mem_map_of_mem (f := fun q : Nat × (Fin 2 → Nat) => q.2 e - (taylorHoodKeys q.1 e).length + ((taylorHoodKeys q.1 e).length - q.2 e)) hq
  simp only [List.mem_cons, List.not_mem_nil, or_false, or_self] at h'
  omega

theorem taylorHood_treeKeys : TreeKeys taylorHood taylorHoodKeys fun p => (taylorHoodKind p).keys demo := by
  intro p L f hp
  obtain ⟨rfl, -, hm⟩ := taylorHood_part hp
  have hti : ∀ q ∈ [([0, 0], 2), ([0, 1], 3), ([1], 4)], (Node.child q.1 (LocalView.fresh taylorHoodPlain.model).tree).map Node.treeIndex = some q.2 := by decide +kernel
  rw [taylorHood_eq]
  simp only [List.mem_cons, List.not_mem_nil, or_false, forall_eq_or_imp, forall_eq] at hm hti
  obtain ⟨t1, t2, t3⟩ := hti
  rcases hm with rfl | rfl | rfl
  · refine ⟨fun e => by simp [taylorHoodKind, LeafKind.leaf, lagrangeLeaf, LeafKind.keys], fun t ht => ?_⟩
    rw [ht, Option.map_some, Option.some.injEq] at t1
    rw [t1]; rfl
  · refine ⟨fun e => by simp [taylorHoodKind, LeafKind.leaf, lagrangeLeaf, LeafKind.keys], fun t ht => ?_⟩
    rw [ht, Option.map_some, Option.some.injEq] at t2
    rw [t2]; rfl
  · refine ⟨fun e => by simp [taylorHoodKind, LeafKind.leaf, lagrangeLeaf, LeafKind.keys], fun t ht => ?_⟩
    rw [ht, Option.map_some, Option.some.injEq] at t3
    rw [t3]; rfl

theorem taylorHood_hasTrace (q : List Nat) : (taylorHoodKind q).HasTrace demo := by
  have ha : ∀ k ≤ 2, lagrangeAccept Continuity.mixedGrid.toGridView k = true := by decide
  unfold taylorHoodKind
  split_ifs
  · exact ⟨le_rfl, ha 1 (by decide)⟩
  · exact ⟨by decide, ha 2 le_rfl⟩

/-- `MultiTypeBlockVector<BlockVector<FieldVector<double,2>>, BlockVector<double>>`, stokes-taylorhood.cc:363-365. -/
def taylorHoodTy : CT := .tup [.vec (.arr 2 .scalar), .vec .scalar]

def taylorHoodEmpty (T : Type) : Ct T := .tup [.vec [], .vec []]

theorem taylorHoodEmpty_type (T : Type) : HasType taylorHoodTy (taylorHoodEmpty T) := by
  simp [taylorHoodTy, taylorHoodEmpty, HasType, HasTypes]

/-- Twelve pairs of velocities and five pressures. -/
def taylorHoodZero {T : Type} (t0 : T) : Ct T := .tup [.vec (List.replicate 12 (.arr [.scalar t0, .scalar t0])), .vec (List.replicate 5 (.scalar t0))]

theorem taylorHood_resized {T : Type} (t0 : T) : Container.resize (stdResize t0) taylorHood.model.size taylorHoodTy (taylorHoodEmpty T) = .ok (taylorHoodZero t0) := by
  rw [taylorHood_eq]
  cbv

def taylorHoodIndices : List MI := (List.range 12).flatMap (fun i => [[0, i, 0], [0, i, 1]]) ++ (List.range 5).map (fun i => [1, i])

theorem taylorHood_indices : ∀ m ∈ IndexSet taylorHood.model, m ∈ taylorHoodIndices := by
  intro m hm
  rw [indexSet_eq taylorHood_WF] at hm
  obtain ⟨e, d, hd, rfl⟩ := hm
  rw [taylorHood_eq] at hd ⊢
  have h : ∀ e : Fin 2, ∀ d ∈ taylorHoodPlain.spec.loc e, taylorHoodPlain.spec.mi d ∈ taylorHoodIndices := by decide +kernel
  exact h e d hd

theorem taylorHood_zero : ∀ m ∈ IndexSet taylorHood.model, coef (asVec (taylorHoodZero (0 : ℝ))) m = 0 := by
  intro m hm
  have h := taylorHood_indices m hm
  have h' : ∀ m ∈ taylorHoodIndices, (asVec (taylorHoodZero (0 : ℝ))) m = some [0] := by
    simp only [taylorHoodIndices, List.mem_append, List.mem_map, List.mem_flatMap, List.mem_range, List.mem_cons, List.not_mem_nil, or_false]
    rintro m (⟨i, hi, rfl | rfl⟩ | ⟨i, hi, rfl⟩) <;> interval_cases i <;> rfl
  rw [coef, h' m h]
  rfl

theorem taylorHood_padded : ∀ m ∈ IndexSet taylorHood.model, ∀ t, CT.at m taylorHoodTy = some t → t.Padded := by
  intro m hm t ht
  have h : ∀ m ∈ taylorHoodIndices, (CT.at m taylorHoodTy).any (fun t => match t with | .scalar => true | _ => false) = true := by decide +kernel
  have := h m (taylorHood_indices m hm)
  rw [ht, Option.any_some] at this
  cases t with
  | scalar => exact .inl trivial
  | vec => cases this
  | arr => cases this
  | tup => cases this

/-- The Taylor–Hood basis on the trapezoid and the triangle, with any Jacobians, rules and boundary function. -/
example (I : Interp (Fin 2) ℝ) (hI : ∀ w ∈ visits taylorHood.model [0] [0, 1], w.i < (I.coefs w.element w.path).length) (Q : Quadrature (Fin 2) (Vec ℝ 2) ℝ)
    (D : LeafKind → Fin 2 → Vec ℝ 2 → Nat → Nat → Nat → ℝ) (J : Fin 2 → Vec ℝ 2 → List (List ℝ)) :
    ∃ rows M mk full c' M', assembleMatrixWith taylorHood.model (stokesMatrix (taylorHoodShapes D J) Q) [0, 1] = some M ∧
      boundaryMarker bitLib (stdResize true) taylorHood.model [0] taylorHoodKeys (fun e i c k => stdInc (demo.G.elemGeo e) i c k.codim k.sub) (fun _ => true)
        BoundaryMixed.demoBoundary [0, 1] taylorHoodTy (taylorHoodEmpty Bool) = some mk ∧
      interpolate (stdResize 0) taylorHood.model [0] taylorHoodTy I .allTrue [0, 1] (taylorHoodEmpty ℝ) = .ok full ∧
      setBoundary bitLib (stdResize true) (stdResize 0) taylorHood.model [0] taylorHoodKeys (fun e i c k => stdInc (demo.G.elemGeo e) i c k.codim k.sub) (fun _ => true)
        BoundaryMixed.demoBoundary [0, 1] taylorHoodTy (taylorHoodEmpty Bool) taylorHoodTy I (taylorHoodEmpty ℝ) = some c' ∧
      elementRows taylorHood.model (bit mk) [0, 1] M = some M' ∧
      ∀ x, VecOK ⟨taylorHood.model, []⟩ 1 x → (Solves rows M' (coef (asVec c')) (coef x) ↔
        Stokes demo taylorHood taylorHoodKind (taylorHoodShapes D J) BoundaryMixed.demoBoundary [0, 1] Q (asVec full) x) := by
  have h0 : ∀ k < 2, Part taylorHood [0, k] _ _ := fun k hk => .composite (k := 0) rfl (.power hk (.leaf _))
  have h1 : Part taylorHood [1] _ _ := .composite (k := 1) rfl (.leaf _)
  have hels : ∀ e : Fin 2, e ∈ [0, 1] := by decide
  have hs : ∀ k < 2, taylorHoodKind [0, k] = .lagrange 2 := fun k _ => by simp [taylorHoodKind]
  exact ⟨_, C115_trees demo_OK taylorHood_WF ⟨trivial, trivial, trivial⟩ (taylorHood_tree D J) (taylorHood_shapes D J) rfl (taylorHood_separate D J) taylorHood_keysMatch
    taylorHood_treeKeys BoundaryMixed.demo_boundary hels Nat.two_pos h0 h1 (fun _ => rfl) (fun _ => rfl) (by decide +kernel) (by decide +kernel)
    (fun k hk => by simp [taylorHoodShapes, treeShapes, hs k hk, LeafKind.rows]) rfl (fun k hk e x i => by simp [shapeOf, taylorHoodShapes, treeShapes, hs k hk, hs 0 (by decide)])
    (.composite (k := 0) rfl (.nil _)) (fun q _ _ _ _ => taylorHood_hasTrace q) bitLib_numbers (stdResize_OK true) (stdResize_OK 0)
    taylorHoodTy _ _ (taylorHoodEmpty_type _) (taylorHood_resized true) taylorHood_padded taylorHoodTy _ _ (taylorHoodEmpty_type _) (taylorHood_resized 0) taylorHood_zero taylorHood_padded
    I hI Q (rows_of taylorHood_WF hels)⟩

end Verif.HDiv.Trees

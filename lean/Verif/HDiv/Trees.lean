import Verif.HDiv.NedelecMixed
import Verif.Lagrange.Constant

/-!
# Bases that combine Raviart–Thomas, Nédélec and Lagrange bases

Functions of trees whose leaves are Raviart–Thomas bases of order 0, Nédélec bases and continuous or discontinuous Lagrange bases of any order: the components are arbitrary functions of the leaf spaces. The
divergence of a Raviart–Thomas component is an admissible value of a component of order 0, the gradient of a Lagrange component of order 1 one of a Nédélec component.
-/

namespace Verif.HDiv.Trees

open Matrix Verif.Mapper Verif.Lagrange Verif.IndexTree Verif.RoundTrip Verif.Product
open Verif.Piola (Vec Mat Geometry globalValued)
open Verif.Discrete (Shapes VecOK slotsOn)
open Verif.Lagrange.Continuity (Supported lagrangeValues lagrangeNode vertexWeight Closed PolyOn Continuous ElementKeys dgValue dgLoc elementKeys_of prismType)
open Verif.HDiv.Trace (Inside SamePoint MixedGrid Neighbours PiolaField NormalMatching gridJac mixedValue rtTable rtKeys elementIndex axpyAll)
open Verif.HDiv.Tangential (EdgeGrid CovariantField EdgeMatching edgeFunction nedTable nedKeys vertexIndex)

variable {E S K : Type} [Field K] [LinearOrder K] [IsStrictOrderedRing K] {n : Nat}

/-! ## Specification -/

/-- The leaf bases: `raviartThomas<0>` (raviartthomasbasis.hh:385-391), `nedelec<1,1>` (nedelecbasis.hh:273-279), `lagrange` (lagrangebasis.hh:1006-1027) and `lagrangeDG` (lagrangedgbasis.hh:155-177). -/
inductive LeafKind
  | raviartThomas
  | nedelec
  | lagrange (order : Nat)
  | discontinuous (order : Nat)

/-- A grid with the data that determine the finite elements of the leaf bases: `rtType`, `nedType` the type of all elements if it is known at compile time (raviartthomasbasis.hh:129, nedelecbasis.hh:33), the
intersections, the geometries of the elements and the local keys of the Lagrange elements. -/
structure Setting (E S K : Type) (n : Nat) where
  G : LGrid E S Nat
  pos : Nat → Vec K (n + 1)
  rtType : Option Geo
  nedType : Option Geo
  isects : E → List (Isect E)
  geo : E → Geometry K (n + 1)
  keys : Nat → Geo → List Key

/-- The leaf basis: the layout of the mapper (raviartthomasbasis.hh:267-278, nedelecbasis.hh:166, C48) and the indices of the Lagrange bases (lagrangebasis.hh:843-873, lagrangedgbasis.hh:120-130, C20–C25) with the local keys of the finite elements. -/
def LeafKind.leaf (A : Setting E S K n) : LeafKind → Leaf E
  | raviartThomas => mapperLeaf A.G.toGridView (rtLayout 0 A.G.dim) fun e => rtKeys (A.G.elemGeo e)
  | nedelec => mapperLeaf A.G.toGridView nedelecLayout fun e => nedKeys (A.G.elemGeo e)
  | lagrange order => lagrangeLeaf A.G order fun e => A.keys order (A.G.elemGeo e)
  | discontinuous order => dgLeaf A.G.toGridView order fun e => (A.keys order (A.G.elemGeo e)).length

/-- Contract of the grid: conforming, simplices, cubes and prisms, regular geometries. -/
structure Setting.OK (A : Setting E S K n) : Prop where
  dim : n = 1 ∨ n = 2
  grid : MixedGrid A.G n A.pos
  closed : Closed A.G
  neighbours : Neighbours A.G.toGridView A.isects
  rtType : ∀ u, A.rtType = some u → ∀ e, u = A.G.elemGeo e ∧ (A.G.elemGeo e = simplexOf A.G.dim ∨ A.G.elemGeo e = cubeOf A.G.dim)
  geo : ∀ e x, Inside (A.G.elemGeo e) x → (A.geo e).OK (gridJac A.G A.pos e x) x
  keys : ∀ order, LagrangeKeys A.G order fun e => A.keys order (A.G.elemGeo e)

/-- What the constructors of the leaf bases accept: Nédélec bases need simplices or cubes, Lagrange bases in 3d have at most the order 17. -/
def LeafKind.Accepts (A : Setting E S K n) : LeafKind → Prop
  | raviartThomas => True
  | nedelec => EdgeGrid A.G A.nedType n
  | lagrange order => A.G.dim = 3 → order ≤ 17
  | discontinuous _ => True

/-- Values of vector valued shape functions as columns. -/
def columns (vals : List (Vec K (n + 1))) : List (Discrete.Mat K) := vals.map fun w => (List.ofFn w).map fun y => [y]

/-- Values of the Lagrange elements. Those of order 0 have the value 1. -/
def scalarValues (A : Setting E S K n) (order : Nat) (t : Geo) (x : Vec K (n + 1)) : List K := if order = 0 then [1] else lagrangeValues order (A.keys order) t x

/-- The finite elements of the leaf with tree path `p` are those of the leaf basis. -/
def LeafKind.Values (A : Setting E S K n) (P : Shapes E (Vec K (n + 1)) K) (p : List Nat) : LeafKind → Prop
  | raviartThomas => P.rows p = n + 1 ∧ ∀ e x v, find A.G.dim A.rtType (elementIndex A.G.toGridView) e (A.G.elemGeo e) (A.isects e) = some v →
      P.shape false p e (if P.uses p then some e else none) x = columns ((globalValued .contra (A.geo e) (rtTable v.1 v.2)).eval x)
  | nedelec => P.rows p = n + 1 ∧ ∀ e x v, nedelecFind A.G.dim A.nedType (vertexIndex A.G.toGridView e) (A.G.elemGeo e) = some v →
      P.shape false p e (if P.uses p then some e else none) x = columns ((globalValued .co (A.geo e) (nedTable v.1 v.2)).eval x)
  | lagrange order => P.rows p = 1 ∧ ∀ e x, P.shape false p e (if P.uses p then some e else none) x = (scalarValues A order (A.G.elemGeo e) x).map fun y => [[y]]
  | discontinuous order => P.rows p = 1 ∧ ∀ e x, P.shape false p e (if P.uses p then some e else none) x = (scalarValues A order (A.G.elemGeo e) x).map fun y => [[y]]

/-- The spaces of the leaf bases. -/
def LeafKind.Space (A : Setting E S K n) (F : E → Vec K (n + 1) → List K) : LeafKind → Prop
  | raviartThomas => ∃ f : E → Vec K (n + 1) → Vec K (n + 1), (∀ e x, Inside (A.G.elemGeo e) x → F e x = List.ofFn (f e x)) ∧
      (∀ e, PiolaField (A.G.elemGeo e) (gridJac A.G A.pos e) (f e)) ∧ NormalMatching A.G n A.pos f
  | nedelec => ∃ f : E → Vec K (n + 1) → Vec K (n + 1), (∀ e x, Inside (A.G.elemGeo e) x → F e x = List.ofFn (f e x)) ∧
      (∀ e, CovariantField (A.G.elemGeo e) (gridJac A.G A.pos e) (f e)) ∧ EdgeMatching A.G n A.pos f
  | lagrange order => ∃ q : E → Vec K (n + 1) → K, (∀ e x, Inside (A.G.elemGeo e) x → F e x = [q e x]) ∧ if order = 0 then ∀ e x y, q e x = q e y else
      Continuous A.G q ∧ ∀ e, PolyOn order (A.G.elemGeo e) (q e)
  | discontinuous order => ∃ q : E → Vec K (n + 1) → K, (∀ e x, Inside (A.G.elemGeo e) x → F e x = [q e x]) ∧ if order = 0 then ∀ e x y, q e x = q e y else
      ∀ e, PolyOn order (A.G.elemGeo e) (q e)

/-- A tree of leaf bases on the whole grid view: the leaf with tree path `p` has the kind `kind p`. -/
def Tree (A : Setting E S K n) (b : PB E) (kind : List Nat → LeafKind) (P : Shapes E (Vec K (n + 1)) K) : Prop :=
  ∀ p L f, Part b p L f → L = (kind p).leaf A ∧ (∀ e, f e = true) ∧ (kind p).Accepts A ∧ (kind p).Values A P p

/-! ## Linear combinations -/

omit [LinearOrder K] [IsStrictOrderedRing K] in
theorem axpy_get (c : List K) (vals : List (Vec K (n + 1))) (r : Fin (n + 1)) :
    axpyAll c vals r = ((List.range c.length).map fun i => c[i]?.getD 0 * ((vals[i]?.map fun w => w r).getD 0)).sum := by
  rw [axpyAll, Trace.foldl_axpy, zero_add]
  induction c generalizing vals with
  | nil => simp
  | cons a c ih =>
    cases vals with
    | nil => simp
    | cons v vals =>
      rw [List.zip_cons_cons, List.map_cons, List.sum_cons, Pi.add_apply, ih vals, List.length_cons, List.range_succ_eq_map, List.map_cons, List.sum_cons, List.map_map]
      simp [Function.comp_def]

omit [LinearOrder K] [IsStrictOrderedRing K] in
/-- A linear combination of vector valued shape functions. -/
theorem combination_columns {P : Shapes E (Vec K (n + 1)) K} {p : List Nat} (hr : P.rows p = n + 1) {e : E} {x : Vec K (n + 1)} {vals : List (Vec K (n + 1))}
    (hs : P.shape false p e (if P.uses p then some e else none) x = columns vals) (c : List K) : combination P false p e c x = List.ofFn (axpyAll c vals) := by
  have h1 : combination P false p e c x = (List.range (n + 1)).map fun r =>
      ((List.range c.length).map fun i => c[i]?.getD 0 * ((((columns vals)[i]?.getD [])[r]?.getD [])[0]?.getD 0)).sum := by
    simp only [combination, hr, hs, Shapes.outCols, Bool.false_eq_true, if_false, List.range_one, List.map_cons, List.map_nil]
    exact (List.map_eq_flatMap).symm
  rw [h1]
  apply List.ext_getElem (by simp)
  intro r g1 g2
  have hrn : r < n + 1 := by simpa using g2
  simp only [List.getElem_map, List.getElem_range, List.getElem_ofFn]
  rw [axpy_get]
  congr 1
  refine List.map_congr_left fun i _ => ?_
  congr 1
  rw [columns, List.getElem?_map]
  cases vals[i]? with
  | none => simp
  | some w =>
    rw [Option.map_some, Option.getD_some, List.getElem?_map, List.getElem?_ofFn]
    simp [hrn]

omit [LinearOrder K] [IsStrictOrderedRing K] in
/-- A linear combination of scalar shape functions. -/
theorem combination_scalar {P : Shapes E (Vec K (n + 1)) K} {p : List Nat} (hr : P.rows p = 1) {e : E} {x : Vec K (n + 1)} {vals : List K}
    (hs : P.shape false p e (if P.uses p then some e else none) x = vals.map fun y => [[y]]) (c : List K) (hl : c.length = vals.length) :
    combination P false p e c x = [(c.zip vals).foldl (fun y cv => y + cv.1 * cv.2) 0] := by
  rw [Lagrange.Product.fold_sum _ _ hl]
  simp only [combination, hr, hs, Shapes.outCols, Bool.false_eq_true, if_false, List.range_one, List.flatMap_cons, List.flatMap_nil, List.map_cons, List.map_nil, List.append_nil]
  congr 2
  refine List.map_congr_left fun i _ => ?_
  congr 1
  rw [List.getElem?_map]
  cases vals[i]? <;> simp

/-! ## Leaves -/

omit [Field K] [LinearOrder K] [IsStrictOrderedRing K] in
theorem ofFn_inj {f g : Vec K (n + 1)} : List.ofFn f = List.ofFn g ↔ f = g := ⟨fun h => List.ofFn_injective h, fun h => by rw [h]⟩

/-- The nodes of the Lagrange elements are points of the reference element. -/
theorem node_inside {order : Nat} (ho : 1 ≤ order) {t : Geo} (ht : Supported (n + 1) t) {k : Key} (hk : Continuity.ValidLocal order t k) :
    Inside t (lagrangeNode K (n + 1) order t k) := by
  intro v hv
  have hpos : (0 : K) < order := by exact_mod_cast ho
  obtain ⟨hn, hq | rfl | hs⟩ := ht.cases
  · rw [Continuity.vertexWeight_cube hq, lagrangeNode, if_pos hq, Continuity.cubeBw]
    refine Finset.prod_nonneg fun d _ => ?_
    have hle : (Continuity.cubeCoord order t k d : K) ≤ order := by exact_mod_cast Continuity.cubeCoord_le ho hq hk (lt_of_lt_of_eq d.2 hn.symm)
    have h1 : Continuity.cubeNode K (n + 1) order t k d ≤ 1 := (div_le_one hpos).2 hle
    have h0 : 0 ≤ Continuity.cubeNode K (n + 1) order t k d := div_nonneg (Nat.cast_nonneg _) hpos.le
    split <;> linarith
  · obtain rfl : n = 2 := by have : prismType.dim = 3 := rfl; omega
    rw [Continuity.vertexWeight_prism, lagrangeNode, if_neg Continuity.not_cube_prism, if_pos rfl, Continuity.prismBw]
    have hv6 : v < 6 := hv
    refine mul_nonneg ?_ ?_
    · rw [Continuity.prismBary_node ho hk (by omega)]; positivity
    · rw [Continuity.prismBary_node ho hk (by omega)]; positivity
  · rw [Continuity.vertexWeight_simplex hs, lagrangeNode, if_neg (Continuity.not_cube_of_simplex t hs).1, if_neg (Continuity.not_cube_of_simplex t hs).2]
    have h := Continuity.bary_simplexNode (K := K) ho hs hn hk hv
    exact nonneg_of_mul_nonneg_right (h.symm ▸ Nat.cast_nonneg _) hpos

omit [IsStrictOrderedRing K] in
theorem Setting.OK.std {A : Setting E S K n} (h : A.OK) : StdGrid A.G.toGridView := ⟨h.grid.ok.base, h.grid.ok.std, h.grid.ok.type, h.grid.ok.elemInj⟩

omit [IsStrictOrderedRing K] in
/-- Linear combinations of the Raviart–Thomas functions. -/
theorem rt_combination {A : Setting E S K n} (hA : A.OK) {P : Shapes E (Vec K (n + 1)) K} {p : List Nat} (hv : LeafKind.raviartThomas.Values A P p) (u : Nat → K) (e : E)
    (x : Vec K (n + 1)) : ∃ w, mixedValue A.G A.rtType A.isects A.geo u e x = some w ∧ combination P false p e ((((LeafKind.raviartThomas.leaf A).loc e)).map u) x = List.ofFn w := by
  obtain ⟨bits, -, -, h3, -⟩ := Trace.mixed_sum hA.dim hA.grid hA.neighbours A.rtType hA.rtType A.geo e
  have h4 := h3 u x
  rw [mixedValue, Trace.value, Option.map_eq_some_iff] at h4
  obtain ⟨v, hf, h5⟩ := h4
  refine ⟨_, by rw [mixedValue, Trace.value, hf, Option.map_some], ?_⟩
  exact combination_columns hv.1 (hv.2 e x v hf) _

omit [LinearOrder K] [IsStrictOrderedRing K] in
/-- Linear combinations of the Nédélec functions. -/
theorem ned_combination {A : Setting E S K n} (hE : EdgeGrid A.G A.nedType n) {P : Shapes E (Vec K (n + 1)) K} {p : List Nat} (hv : LeafKind.nedelec.Values A P p) (u : Nat → K)
    (e : E) (x : Vec K (n + 1)) : ∃ w, edgeFunction A.G A.nedType A.geo u e x = some w ∧ combination P false p e ((((LeafKind.nedelec.leaf A).loc e)).map u) x = List.ofFn w := by
  obtain ⟨bits, hf, -, -⟩ := Tangential.bits_spec hE.accepted e
  refine ⟨_, by rw [edgeFunction, Tangential.value, hf, Option.map_some], ?_⟩
  exact combination_columns hv.1 (hv.2 e x _ hf) _

omit [LinearOrder K] [IsStrictOrderedRing K] in
/-- Linear combinations of the Lagrange functions. -/
theorem lagrange_combination {A : Setting E S K n} {order : Nat} (ho : order ≠ 0) {P : Shapes E (Vec K (n + 1)) K} {p : List Nat} (hv : (LeafKind.lagrange order).Values A P p) (u : Nat → K)
    (e : E) (x : Vec K (n + 1)) : combination P false p e (((((LeafKind.lagrange order).leaf A).loc e)).map u) x =
      [Continuity.value A.G order (fun e => A.keys order (A.G.elemGeo e)) (lagrangeValues order (A.keys order)) u e x] := by
  have h := hv.2 e x
  rw [scalarValues, if_neg ho] at h
  exact combination_scalar hv.1 h _ (by simp [LeafKind.leaf, lagrangeLeaf, lagrangeValues])

omit [LinearOrder K] [IsStrictOrderedRing K] in
theorem dg_combination {A : Setting E S K n} {order : Nat} (ho : order ≠ 0) {P : Shapes E (Vec K (n + 1)) K} {p : List Nat} (hv : (LeafKind.discontinuous order).Values A P p) (u : Nat → K)
    (e : E) (x : Vec K (n + 1)) : combination P false p e (((((LeafKind.discontinuous order).leaf A).loc e)).map u) x = [dgValue A.G.toGridView order (A.keys order) u e x] := by
  have h := hv.2 e x
  rw [scalarValues, if_neg ho] at h
  exact combination_scalar hv.1 h _ (by simp [LeafKind.leaf, dgLeaf, lagrangeValues])

omit [IsStrictOrderedRing K] in
theorem const_combination {A : Setting E S K n} (hA : A.OK) {P : Shapes E (Vec K (n + 1)) K} {p : List Nat} (hr : P.rows p = 1)
    (hs : ∀ e x, P.shape false p e (if P.uses p then some e else none) x = (scalarValues A 0 (A.G.elemGeo e) x).map fun y => [[y]]) {L : Leaf E}
    (hL : Constant.ConstLeaf A.G (fun e => A.keys 0 (A.G.elemGeo e)) L) (u : Nat → K) (e : E) (x : Vec K (n + 1)) :
    combination P false p e ((L.loc e).map u) x = [Constant.constValue L u e] := by
  have h := hs e x
  rw [scalarValues, if_pos rfl] at h
  obtain ⟨ix, h1, -, -⟩ := Constant.C107_index hA.grid.ok (hA.keys 0) hL
  exact combination_scalar hr h _ (by simp [h1])

omit [IsStrictOrderedRing K] in
theorem const_space {A : Setting E S K n} (hA : A.OK) {P : Shapes E (Vec K (n + 1)) K} {p : List Nat} (hr : P.rows p = 1)
    (hs : ∀ e x, P.shape false p e (if P.uses p then some e else none) x = (scalarValues A 0 (A.G.elemGeo e) x).map fun y => [[y]]) {L : Leaf E}
    (hL : Constant.ConstLeaf A.G (fun e => A.keys 0 (A.G.elemGeo e)) L) (F : E → Vec K (n + 1) → List K) :
    (∃ q : E → Vec K (n + 1) → K, (∀ e x, Inside (A.G.elemGeo e) x → F e x = [q e x]) ∧ ∀ e x y, q e x = q e y) ↔
      ∃ u : Nat → K, ∀ e x, Inside (A.G.elemGeo e) x → F e x = combination P false p e ((L.loc e).map u) x := by
  constructor
  · rintro ⟨q, h1, h2⟩
    have : Inhabited (Vec K (n + 1)) := ⟨0⟩
    obtain ⟨u, hu⟩ := (Constant.C107_space hA.grid.ok (hA.keys 0) hL q).2 h2
    exact ⟨u, fun e x hx => by rw [h1 e x hx, const_combination hA hr hs hL, hu e x]⟩
  · rintro ⟨u, hu⟩
    exact ⟨fun e _ => Constant.constValue L u e, fun e x hx => by rw [hu e x hx, const_combination hA hr hs hL], fun _ _ _ => rfl⟩

/-- The functions of a leaf are the linear combinations of its basis functions. -/
theorem leaf_space {A : Setting E S K n} (hA : A.OK) {kind : LeafKind} (hacc : kind.Accepts A) {P : Shapes E (Vec K (n + 1)) K} {p : List Nat} (hv : kind.Values A P p)
    (F : E → Vec K (n + 1) → List K) :
    kind.Space A F ↔ ∃ u : Nat → K, ∀ e x, Inside (A.G.elemGeo e) x → F e x = combination P false p e (((kind.leaf A).loc e).map u) x := by
  cases kind with
  | raviartThomas =>
    constructor
    · rintro ⟨f, h1, h2⟩
      obtain ⟨u, hu⟩ := (Trace.C102_space hA.dim hA.grid hA.neighbours A.rtType hA.rtType hA.geo f).2 h2
      refine ⟨u, fun e x hx => ?_⟩
      obtain ⟨w, hw, hc⟩ := rt_combination hA hv u e x
      rw [hu e x hx, Option.some.injEq] at hw
      rw [h1 e x hx, hc, hw]
    · rintro ⟨u, hu⟩
      choose w hw hc using rt_combination hA hv u
      exact ⟨w, fun e x hx => by rw [hu e x hx, hc], (Trace.C102_space hA.dim hA.grid hA.neighbours A.rtType hA.rtType hA.geo w).1 ⟨u, fun e x _ => hw e x⟩⟩
  | nedelec =>
    constructor
    · rintro ⟨f, h1, h2⟩
      obtain ⟨u, hu⟩ := (Tangential.C103_space hA.dim hacc hA.geo f).2 h2
      refine ⟨u, fun e x hx => ?_⟩
      obtain ⟨w, hw, hc⟩ := ned_combination hacc hv u e x
      rw [hu e x hx, Option.some.injEq] at hw
      rw [h1 e x hx, hc, hw]
    · rintro ⟨u, hu⟩
      choose w hw hc using ned_combination hacc hv u
      exact ⟨w, fun e x hx => by rw [hu e x hx, hc], (Tangential.C103_space hA.dim hacc hA.geo w).1 ⟨u, fun e x _ => hw e x⟩⟩
  | lagrange order =>
    rcases Nat.eq_zero_or_pos order with rfl | ho
    · simp only [LeafKind.Space, if_true]
      exact const_space hA hv.1 hv.2 .lagrange F
    · have ho' : order ≠ 0 := by omega
      simp only [LeafKind.Space, if_neg ho']
      constructor
      · rintro ⟨q, h1, h2⟩
        obtain ⟨u, hu⟩ := (Continuity.C84_space hA.grid.ok hA.closed hA.grid.types ho hacc (hA.keys order) q).1 h2
        exact ⟨u, fun e x hx => by rw [h1 e x hx, lagrange_combination ho' hv, hu]⟩
      · rintro ⟨u, hu⟩
        exact ⟨_, fun e x hx => by rw [hu e x hx, lagrange_combination ho' hv], (Continuity.C84_space hA.grid.ok hA.closed hA.grid.types ho hacc (hA.keys order) _).2 ⟨u, fun _ _ => rfl⟩⟩
  | discontinuous order =>
    rcases Nat.eq_zero_or_pos order with rfl | ho
    · simp only [LeafKind.Space, if_true]
      exact const_space hA hv.1 hv.2 .dg F
    · have ho' : order ≠ 0 := by omega
      have key := fun q => (Continuity.C85_space (K := K) hA.std hA.grid.types ho (elementKeys_of hA.grid.ok (hA.keys order)) q).1
      simp only [LeafKind.Space, if_neg ho']
      constructor
      · rintro ⟨q, h1, h2⟩
        obtain ⟨u, hu⟩ := (key q).1 h2
        exact ⟨u, fun e x hx => by rw [h1 e x hx, dg_combination ho' hv, hu]⟩
      · rintro ⟨u, hu⟩
        exact ⟨_, fun e x hx => by rw [hu e x hx, dg_combination ho' hv], (key _).2 ⟨u, fun _ _ => rfl⟩⟩

omit [IsStrictOrderedRing K] in
theorem const_unique {A : Setting E S K n} (hA : A.OK) {P : Shapes E (Vec K (n + 1)) K} {p : List Nat} (hr : P.rows p = 1)
    (hs : ∀ e x, P.shape false p e (if P.uses p then some e else none) x = (scalarValues A 0 (A.G.elemGeo e) x).map fun y => [[y]]) {L : Leaf E}
    (hL : Constant.ConstLeaf A.G (fun e => A.keys 0 (A.G.elemGeo e)) L) {u u' : Nat → K}
    (h : ∀ e, ∃ x : Vec K (n + 1), combination P false p e ((L.loc e).map u) x = combination P false p e ((L.loc e).map u') x) : ∀ i < L.dim, u i = u' i := by
  refine (Constant.C107_unique hA.grid.ok (hA.keys 0) hL).2 u u' fun e => ?_
  obtain ⟨x, hx⟩ := h e
  rw [const_combination hA hr hs hL, const_combination hA hr hs hL] at hx
  simpa using hx

omit [LinearOrder K] [IsStrictOrderedRing K] in
theorem vertex_key {t : Geo} (ht : t ∈ elemTypes) : Continuity.ValidLocal 1 t ⟨0, t.dim, 0⟩ := by
  revert t
  simp only [elemTypes, List.forall_mem_cons]
  refine ⟨?_, ?_, ?_, ?_, ?_, ?_, ?_, by simp⟩ <;> exact ⟨le_rfl, ⟨0, 1⟩, by decide, by decide⟩

/-- Each reference element has points. -/
theorem exists_inside {t : Geo} (ht : Supported (n + 1) t) : ∃ x : Vec K (n + 1), Inside t x := ⟨_, node_inside le_rfl ht (vertex_key ht.1)⟩

/-- The coefficients of the functions of a leaf are unique. -/
theorem leaf_unique {A : Setting E S K n} (hA : A.OK) {kind : LeafKind} (hacc : kind.Accepts A) {P : Shapes E (Vec K (n + 1)) K} {p : List Nat} (hv : kind.Values A P p) {u u' : Nat → K}
    (h : ∀ e x, Inside (A.G.elemGeo e) x → combination P false p e (((kind.leaf A).loc e).map u) x = combination P false p e (((kind.leaf A).loc e).map u') x) :
    ∀ i < (kind.leaf A).dim, u i = u' i := by
  have hpt : ∀ e, ∃ x : Vec K (n + 1), combination P false p e (((kind.leaf A).loc e).map u) x = combination P false p e (((kind.leaf A).loc e).map u') x := fun e => by
    obtain ⟨x, hx⟩ := exists_inside (K := K) (hA.grid.types e)
    exact ⟨x, h e x hx⟩
  cases kind with
  | raviartThomas =>
    refine Trace.C102_unique hA.dim hA.grid hA.neighbours A.rtType hA.rtType hA.geo u u' fun e x hx => ?_
    obtain ⟨w, hw, hc⟩ := rt_combination hA hv u e x
    obtain ⟨w', hw', hc'⟩ := rt_combination hA hv u' e x
    have := h e x hx
    rw [hc, hc', ofFn_inj] at this
    rw [hw, hw', this]
  | nedelec =>
    refine Tangential.C103_unique hA.dim hacc hA.geo u u' fun e x hx => ?_
    obtain ⟨w, hw, hc⟩ := ned_combination hacc hv u e x
    obtain ⟨w', hw', hc'⟩ := ned_combination hacc hv u' e x
    have := h e x hx
    rw [hc, hc', ofFn_inj] at this
    rw [hw, hw', this]
  | lagrange order =>
    rcases Nat.eq_zero_or_pos order with rfl | ho
    · exact const_unique hA hv.1 hv.2 .lagrange hpt
    · intro i hi
      obtain ⟨e, k, hk, hx⟩ := lagrange_covered hA.grid.ok order hacc i hi
      obtain ⟨l, hl⟩ := List.mem_iff_getElem?.1 (((hA.keys order).mem e k).2 hk)
      have hloc : ((lagrangeLeaf A.G order fun e => A.keys order (A.G.elemGeo e)).loc e)[l]? = some i := by simp [lagrangeLeaf, hl, hx]
      have hin := node_inside (K := K) ho (hA.grid.types e) (Continuity.validLocal hA.grid.ok hk)
      have := h e _ hin
      rw [lagrange_combination (by omega) hv, lagrange_combination (by omega) hv, List.cons.injEq, Continuity.C79_value hA.grid.ok hA.grid.types ho (hA.keys order) u e hl hloc,
        Continuity.C79_value hA.grid.ok hA.grid.types ho (hA.keys order) u' e hl hloc] at this
      exact this.1
  | discontinuous order =>
    rcases Nat.eq_zero_or_pos order with rfl | ho
    · exact const_unique hA hv.1 hv.2 .dg hpt
    · intro i hi
      have hek := elementKeys_of hA.grid.ok (hA.keys order)
      obtain ⟨c1, c2, -⟩ := C25_dg hA.std order (fun e => (A.keys order (A.G.elemGeo e)).length) (Continuity.keys_length hA.grid.types hek)
      obtain ⟨e, hm, -⟩ := c2 i hi
      obtain ⟨l, hl⟩ := List.mem_iff_getElem?.1 hm
      have hlt : l < (A.keys order (A.G.elemGeo e)).length := by
        have := (List.getElem?_eq_some_iff.1 hl).1
        simpa [dgLeaf] using this
      have hkl := List.getElem?_eq_getElem hlt
      have hin := node_inside (K := K) ho (hA.grid.types e) ((hek.mem e _).1 (List.getElem_mem hlt))
      have := h e _ hin
      rw [dg_combination (by omega) hv, dg_combination (by omega) hv, List.cons.injEq, Continuity.C85_value hA.grid.types ho hek u e hkl hl,
        Continuity.C85_value hA.grid.types ho hek u' e hkl hl] at this
      exact this.1

omit [IsStrictOrderedRing K] in
/-- All elements have basis functions of the leaf. -/
theorem leaf_ne {A : Setting E S K n} (hA : A.OK) {kind : LeafKind} (hacc : kind.Accepts A) (e : E) : (kind.leaf A).loc e ≠ [] := by
  cases kind with
  | raviartThomas =>
    have : ∀ t ∈ elemTypes, 0 < numFacets t := by decide
    have := this _ (hA.grid.types e).1
    simp only [LeafKind.leaf, mapperLeaf, rtKeys, ne_eq, List.map_eq_nil_iff, List.range_eq_nil]
    omega
  | nedelec =>
    have : ∀ t ∈ Tangential.nedTypes, (refOf t).edges.length ≠ 0 := by decide
    simpa only [LeafKind.leaf, mapperLeaf, nedKeys, ne_eq, List.map_eq_nil_iff, List.range_eq_nil] using this _ (Tangential.accepted_type hacc.accepted e)
  | lagrange order =>
    rcases Nat.eq_zero_or_pos order with rfl | ho
    · obtain ⟨ix, h1, -, -⟩ := Constant.C107_index hA.grid.ok (hA.keys 0) .lagrange
      have h2 := h1 e
      simp [LeafKind.leaf, h2]
    · exact Product.loc_ne_nil hA.grid.ok hA.grid.types ho (hA.keys order) e
  | discontinuous order =>
    rcases Nat.eq_zero_or_pos order with rfl | ho
    · obtain ⟨ix, h1, -, -⟩ := Constant.C107_index hA.grid.ok (hA.keys 0) .dg
      have h2 := h1 e
      simp [LeafKind.leaf, h2]
    · have h := Product.loc_ne_nil hA.grid.ok hA.grid.types ho (hA.keys order) e
      simp only [lagrangeLeaf, ne_eq, List.map_eq_nil_iff] at h
      simpa [LeafKind.leaf, dgLeaf] using h

/-! ## Trees -/

omit [IsStrictOrderedRing K] in
/-- A component of a function of the tree. -/
theorem tree_component {A : Setting E S K n} (hA : A.OK) {b : PB E} (hb : b.WF) {kind : List Nat → LeafKind} {P : Shapes E (Vec K (n + 1)) K} (hT : Tree A b kind P)
    (hP : P.OK ⟨b.model, []⟩) (hd : P.dimC = 1) (hsep : Separate ⟨b.model, []⟩ P) {v : Discrete.Vec K} (hv : VecOK ⟨b.model, []⟩ 1 v) {p : List Nat} {L : Leaf E} {f : E → Bool}
    (hp : Part b p L f) (e : E) (x : Vec K (n + 1)) :
    component ⟨b.model, []⟩ P v false (some e) p x = some (combination P false p e ((((kind p).leaf A).loc e).map fun i => coef v (b.spec.mi (p ++ [i]))) x) := by
  obtain ⟨rfl, hf, hacc, -⟩ := hT p L f hp
  exact C99_components hb hP hd hsep hv false hp (hf e) (leaf_ne hA hacc e) x

/-- **C108: space.** The functions of a tree of Raviart–Thomas, Nédélec and Lagrange bases are exactly the tuples of functions of the leaf spaces: there is no coupling between the components. -/
theorem C108_space {A : Setting E S K n} (hA : A.OK) {b : PB E} (hb : b.WF) {kind : List Nat → LeafKind} {P : Shapes E (Vec K (n + 1)) K} (hT : Tree A b kind P)
    (hP : P.OK ⟨b.model, []⟩) (hd : P.dimC = 1) (hsep : Separate ⟨b.model, []⟩ P) (F : List Nat → E → Vec K (n + 1) → List K) :
    (∃ v, VecOK ⟨b.model, []⟩ 1 v ∧ ∀ p L f, Part b p L f → ∀ e x, Inside (A.G.elemGeo e) x → component ⟨b.model, []⟩ P v false (some e) p x = some (F p e x)) ↔
      ∀ p L f, Part b p L f → (kind p).Space A (F p) := by
  constructor
  · rintro ⟨v, hv, hc⟩ p L f hp
    obtain ⟨-, -, hacc, hval⟩ := hT p L f hp
    refine (leaf_space hA hacc hval _).2 ⟨fun i => coef v (b.spec.mi (p ++ [i])), fun e x hx => ?_⟩
    have := hc p L f hp e x hx
    rw [tree_component hA hb hT hP hd hsep hv hp, Option.some.injEq] at this
    exact this.symm
  · intro hF
    have hex : ∀ p, ∃ u : Nat → K, ∀ L f, Part b p L f → ∀ e x, Inside (A.G.elemGeo e) x → F p e x = combination P false p e ((L.loc e).map u) x := by
      intro p
      by_cases hp : ∃ L f, Part b p L f
      · obtain ⟨L, f, hp⟩ := hp
        obtain ⟨hL, -, hacc, hval⟩ := hT p L f hp
        obtain ⟨u, hu⟩ := (leaf_space hA hacc hval _).1 (hF p L f hp)
        refine ⟨u, fun L' f' hp' e x hx => ?_⟩
        obtain ⟨rfl, rfl⟩ := hp.functional hp'
        rw [hL]
        exact hu e x hx
      · exact ⟨fun _ => 0, fun L f h => absurd ⟨L, f, h⟩ hp⟩
    choose u hu using hex
    obtain ⟨v, hv, hc⟩ := (C99_space hb hP hd hsep fun p e x => combination P false p e ((((kind p).leaf A).loc e).map (u p)) x).2 fun p L f hp =>
      ⟨u p, fun e _ _ x => by rw [(hT p L f hp).1]⟩
    refine ⟨v, hv, fun p L f hp e x hx => ?_⟩
    obtain ⟨hL, hf, hacc, -⟩ := hT p L f hp
    rw [hc p L f hp e (hf e) (by rw [hL]; exact leaf_ne hA hacc e), hu p L f hp e x hx, hL]

/-- **C108: coefficients.** Two coefficient vectors that give the same components in all points of the elements agree. -/
theorem C108_unique {A : Setting E S K n} (hA : A.OK) {b : PB E} (hb : b.WF) (hpl : Plain b) {kind : List Nat → LeafKind} {P : Shapes E (Vec K (n + 1)) K} (hT : Tree A b kind P)
    (hP : P.OK ⟨b.model, []⟩) (hd : P.dimC = 1) (hsep : Separate ⟨b.model, []⟩ P) {v v' : Discrete.Vec K} (hv : VecOK ⟨b.model, []⟩ 1 v) (hv' : VecOK ⟨b.model, []⟩ 1 v')
    (heq : ∀ p L f, Part b p L f → ∀ e x, Inside (A.G.elemGeo e) x →
      component ⟨b.model, []⟩ P v false (some e) p x = component ⟨b.model, []⟩ P v' false (some e) p x)
    {m : MI} (hm : m ∈ IndexSet b.model) : v m = v' m := by
  have huniq : ∀ p L f, Part b p L f → ∀ u u' : Nat → K, (∀ e x, Inside (A.G.elemGeo e) x → combination P false p e ((L.loc e).map u) x = combination P false p e ((L.loc e).map u') x) →
      ∀ e, ∀ i ∈ L.loc e, u i = u' i := by
    intro p L f hp u u' hu e i hi
    have hw := (hp.wf hb).1 e i hi
    obtain ⟨rfl, -, hacc, hval⟩ := hT p L f hp
    exact leaf_unique hA hacc hval hu i hw
  refine C99_unique hb hpl hP hd hsep (fun p L f hp u u' hu e _ i hi => huniq p L f hp u u' (fun e x _ => ?_) e i hi) hv hv' (fun p L f hp e _ _ x => ?_) hm
  · obtain ⟨rfl, hf, hacc, -⟩ := hT p L f hp
    exact hu e (hf e) (leaf_ne hA hacc e) x
  · have hL := (hT p L f hp).1
    have := huniq p L f hp (fun i => coef v (b.spec.mi (p ++ [i]))) (fun i => coef v' (b.spec.mi (p ++ [i]))) (fun e x hx => by
      have := heq p L f hp e x hx
      rw [tree_component hA hb hT hP hd hsep hv hp, tree_component hA hb hT hP hd hsep hv' hp, Option.some.injEq, ← hL] at this
      exact this) e
    rw [tree_component hA hb hT hP hd hsep hv hp, tree_component hA hb hT hP hd hsep hv' hp, ← hL, List.map_congr_left this]

/-- One component can be replaced by any function of its leaf. -/
theorem replace {A : Setting E S K n} (hA : A.OK) {b : PB E} (hb : b.WF) {kind : List Nat → LeafKind} {P : Shapes E (Vec K (n + 1)) K} (hT : Tree A b kind P)
    (hP : P.OK ⟨b.model, []⟩) (hd : P.dimC = 1) (hsep : Separate ⟨b.model, []⟩ P) {v : Discrete.Vec K} (hv : VecOK ⟨b.model, []⟩ 1 v) (q : List Nat) (g : E → Vec K (n + 1) → List K)
    (hg : (kind q).Space A g) :
    ∃ v', VecOK ⟨b.model, []⟩ 1 v' ∧ (∀ p L f, Part b p L f → p ≠ q → ∀ e x, Inside (A.G.elemGeo e) x →
        component ⟨b.model, []⟩ P v' false (some e) p x = component ⟨b.model, []⟩ P v false (some e) p x) ∧
      ∀ L f, Part b q L f → ∀ e x, Inside (A.G.elemGeo e) x → component ⟨b.model, []⟩ P v' false (some e) q x = some (g e x) := by
  let F : List Nat → E → Vec K (n + 1) → List K := fun p e x => (component ⟨b.model, []⟩ P v false (some e) p x).getD []
  have hF : ∀ p L f, Part b p L f → ∀ e x, component ⟨b.model, []⟩ P v false (some e) p x = some (F p e x) := by
    intro p L f hp e x
    simp only [F, tree_component hA hb hT hP hd hsep hv hp, Option.getD_some]
  have h1 := (C108_space hA hb hT hP hd hsep F).1 ⟨v, hv, fun p L f hp e x _ => hF p L f hp e x⟩
  obtain ⟨v', hv', hc⟩ := (C108_space hA hb hT hP hd hsep fun p => if p = q then g else F p).2 fun p L f hp => by
    by_cases h : p = q
    · subst h
      simpa only [if_true] using hg
    · simpa only [if_neg h] using h1 p L f hp
  refine ⟨v', hv', fun p L f hp hne e x hx => ?_, fun L f hp e x hx => ?_⟩
  · rw [hc p L f hp e x hx, if_neg hne, hF p L f hp]
  · rw [hc q L f hp e x hx, if_pos rfl]

/-- Leaves with piecewise constants. -/
def LeafKind.Constants : LeafKind → Prop
  | lagrange order => order = 0
  | discontinuous order => order = 0
  | _ => False

/-- **C108: divergence.** The total flux of a Raviart–Thomas component out of each element is the integral of some function of a component of order 0, whatever the other components are. -/
theorem C108_divergence {A : Setting E S K n} (hA : A.OK) {b : PB E} (hb : b.WF) {kind : List Nat → LeafKind} {P : Shapes E (Vec K (n + 1)) K} (hT : Tree A b kind P)
    (hP : P.OK ⟨b.model, []⟩) (hd : P.dimC = 1) (hsep : Separate ⟨b.model, []⟩ P) {v : Discrete.Vec K} (hv : VecOK ⟨b.model, []⟩ 1 v) {p q : List Nat} {L M : Leaf E} {f g : E → Bool}
    (hp : Part b p L f) (hq : Part b q M g) (hkp : kind p = .raviartThomas) (hkq : (kind q).Constants) :
    ∃ v', VecOK ⟨b.model, []⟩ 1 v' ∧ (∀ r N h, Part b r N h → r ≠ q → ∀ e x, Inside (A.G.elemGeo e) x →
        component ⟨b.model, []⟩ P v' false (some e) r x = component ⟨b.model, []⟩ P v false (some e) r x) ∧
      ∃ (w : E → Vec K (n + 1) → Vec K (n + 1)) (d : E → K), (∀ e x, Inside (A.G.elemGeo e) x →
        component ⟨b.model, []⟩ P v' false (some e) p x = some (List.ofFn (w e x)) ∧ component ⟨b.model, []⟩ P v' false (some e) q x = some [d e]) ∧
        ∀ e, ∀ x : Nat → Vec K (n + 1), (∀ i < numFacets (A.G.elemGeo e), Inside (A.G.elemGeo e) (x i) ∧ (Trace.facetOf K n (A.G.elemGeo e) i).On (x i)) →
          Trace.refVolume K (A.G.elemGeo e) * d e = ∑ i ∈ Finset.range (numFacets (A.G.elemGeo e)), Trace.refArea K ((stdSubs (A.G.elemGeo e) 1).getD i ⟨0, 1⟩) *
            Piola.outerFlux (w e (x i)) (fun k => gridJac A.G A.pos e (x i) *ᵥ (Trace.facetOf K n (A.G.elemGeo e) i).frame k)
              (gridJac A.G A.pos e (x i) *ᵥ (Trace.facetOf K n (A.G.elemGeo e) i).out) := by
  have hne : p ≠ q := by
    rintro rfl
    rw [hkp] at hkq
    exact hkq
  obtain ⟨-, -, -, hval⟩ := hT p L f hp
  rw [hkp] at hval
  choose w hw hc using rt_combination hA hval fun i => coef v (b.spec.mi (p ++ [i]))
  have hdiv := fun e => Trace.C102_divergence hA.dim hA.grid hA.neighbours A.rtType hA.rtType hA.geo _ e (w e) fun x _ => hw e x
  choose c s h1 h2 using hdiv
  have hg : (kind q).Space A fun e _ => [∑ j, s e j] := by
    cases hk : kind q with
    | raviartThomas => rw [hk] at hkq; exact hkq.elim
    | nedelec => rw [hk] at hkq; exact hkq.elim
    | lagrange order => rw [hk] at hkq; exact ⟨fun e _ => ∑ j, s e j, fun _ _ _ => rfl, by rw [if_pos (show order = 0 from hkq)]; exact fun _ _ _ => rfl⟩
    | discontinuous order => rw [hk] at hkq; exact ⟨fun e _ => ∑ j, s e j, fun _ _ _ => rfl, by rw [if_pos (show order = 0 from hkq)]; exact fun _ _ _ => rfl⟩
  obtain ⟨v', hv', hother, hthis⟩ := replace hA hb hT hP hd hsep hv q _ hg
  refine ⟨v', hv', hother, w, fun e => ∑ j, s e j, fun e x hx => ⟨?_, hthis M g hq e x hx⟩, h2⟩
  rw [hother p L f hp hne e x hx, tree_component hA hb hT hP hd hsep hv hp, hkp, hc]

/-! ## Gradients -/

omit [Field K] [LinearOrder K] [IsStrictOrderedRing K] in
/-- Local keys of order 1. -/
theorem vertex_keys {t : Geo} (ht : t ∈ elemTypes) {k : Key} (hk : Continuity.ValidLocal 1 t k) : k.codim = t.dim ∧ k.index = 0 ∧ k.sub < t.nv := by
  have tab : ∀ t ∈ elemTypes, ∀ c ≤ t.dim, ∀ u ∈ stdSubs t c, lagrangeLayout 1 t.dim u = if c = t.dim then 1 else 0 := by decide +kernel
  have len : ∀ t ∈ elemTypes, (stdSubs t t.dim).length = t.nv := by decide +kernel
  obtain ⟨h1, u, h2, h3⟩ := hk
  rw [tab t ht _ h1 u (List.mem_of_getElem? h2)] at h3
  by_cases hc : k.codim = t.dim
  · rw [if_pos hc] at h3
    rw [hc] at h2
    exact ⟨hc, by omega, by rw [← len t ht]; exact (List.getElem?_eq_some_iff.1 h2).1⟩
  · rw [if_neg hc] at h3
    omega

/-- Weights of the vertices in a vertex. -/
theorem vertex_weight {t : Geo} (ht : Supported (n + 1) t) {v : Nat} (hk : Continuity.ValidLocal 1 t ⟨v, t.dim, 0⟩) {w : Nat} (hw : w < t.nv) :
    vertexWeight t w (lagrangeNode K (n + 1) 1 t ⟨v, t.dim, 0⟩) = if w = v then 1 else 0 := by
  have tab : ∀ t ∈ elemTypes, ∀ v < t.nv, ∀ w < t.nv, Continuity.weight 1 t ⟨v, t.dim, 0⟩ w = if w = v then 1 else 0 := by decide +kernel
  have hd : t.dim ≠ 0 := by have := ht.2.1; omega
  have h := Continuity.lagrangeNode_weight (K := K) le_rfl ht hk hd hw
  rw [tab t ht.1 v (vertex_keys ht.1 hk).2.2 w hw] at h
  simpa using h

/-- Functions of order 1 are given by their values at the vertices. -/
theorem vertex_values {A : Setting E S K n} (hA : A.OK) (hl : Tangential.Labels A.G) (u : Nat → K) :
    ∃ φ : Nat → K, ∀ e (x : Vec K (n + 1)), Continuity.value A.G 1 (fun e => A.keys 1 (A.G.elemGeo e)) (lagrangeValues 1 (A.keys 1)) u e x =
      Trace.position (A.G.elemGeo e) (fun v (_ : Fin 1) => φ (A.G.ids e v)) x 0 := by
  classical
  let φ : Nat → K := fun i => if h : ∃ e v, v < (A.G.elemGeo e).nv ∧ A.G.ids e v = i then u (A.G.idx (A.G.sub h.choose A.G.dim h.choose_spec.choose)) else 0
  have hφ : ∀ e v, v < (A.G.elemGeo e).nv → φ (A.G.ids e v) = u (A.G.idx (A.G.sub e A.G.dim v)) := by
    intro e v hv
    have h : ∃ e' v', v' < (A.G.elemGeo e').nv ∧ A.G.ids e' v' = A.G.ids e v := ⟨e, v, hv, rfl⟩
    simp only [φ, dif_pos h]
    rw [hl _ _ _ _ h.choose_spec.choose_spec.1 hv h.choose_spec.choose_spec.2]
  refine ⟨φ, fun e x => ?_⟩
  have hpoly : PolyOn 1 (A.G.elemGeo e) fun x : Vec K (n + 1) => Trace.position (A.G.elemGeo e) (fun v (_ : Fin 1) => φ (A.G.ids e v)) x 0 := by
    have h := Continuity.polyOn_global (G := A.G) (fun i (_ : Fin 1) => φ i) e (hA.grid.types e) (order := 1) (F := MvPolynomial.X 0) (by simp)
    simp only [MvPolynomial.eval_X] at h
    exact h
  refine Continuity.unisolvent le_rfl (hA.grid.types e) (Continuity.polyOn_value hA.grid.ok hA.grid.types le_rfl (hA.keys 1) u e) hpoly (fun k hk => ?_) x
  obtain ⟨c, s, i⟩ := k
  have hdim := (hA.grid.ok.base.elemMem e).2
  have hv : ValidKey A.G 1 e ⟨c, s, i⟩ := by
    obtain ⟨h1, t, h2, h3⟩ := hk
    exact ⟨by omega, t, h2, by rw [← hdim]; exact h3⟩
  obtain ⟨l, hlk⟩ := List.mem_iff_getElem?.1 (((hA.keys 1).mem e _).2 hv)
  obtain ⟨k1, k2, k3⟩ := vertex_keys (hA.grid.types e).1 hk
  simp only at k1 k2 k3
  subst k2
  rw [Continuity.C79_value hA.grid.ok hA.grid.types le_rfl (hA.keys 1) u e hlk (i := A.G.idx (A.G.sub e s c)) (by simp [lagrangeLeaf, hlk, lagrangeIndex])]
  subst k1
  rw [Trace.position, Finset.sum_apply, Finset.sum_eq_single (⟨c, k3⟩ : Fin _)]
  · simp only [Pi.smul_apply, smul_eq_mul]
    rw [vertex_weight (hA.grid.types e) hk k3, if_pos rfl, one_mul, hφ e c k3, ← hdim]
  · intro w _ hne
    simp only [Pi.smul_apply, smul_eq_mul]
    rw [vertex_weight (hA.grid.types e) hk w.2, if_neg (fun h => hne (Fin.ext h)), zero_mul]
  · simp

/-- **C108: gradient.** The gradient of a Lagrange component of order 1 is an admissible Nédélec component, whatever the other components are. -/
theorem C108_gradient {A : Setting E S K n} (hA : A.OK) {b : PB E} (hb : b.WF) {kind : List Nat → LeafKind} {P : Shapes E (Vec K (n + 1)) K} (hT : Tree A b kind P)
    (hP : P.OK ⟨b.model, []⟩) (hd : P.dimC = 1) (hsep : Separate ⟨b.model, []⟩ P) {v : Discrete.Vec K} (hv : VecOK ⟨b.model, []⟩ 1 v) {p q : List Nat} {L M : Leaf E} {f g : E → Bool}
    (hp : Part b p L f) (hq : Part b q M g) (hkp : kind p = .lagrange 1) (hkq : kind q = .nedelec) :
    ∃ v', VecOK ⟨b.model, []⟩ 1 v' ∧ (∀ r N h, Part b r N h → r ≠ q → ∀ e x, Inside (A.G.elemGeo e) x →
        component ⟨b.model, []⟩ P v' false (some e) r x = component ⟨b.model, []⟩ P v false (some e) r x) ∧
      ∃ φ : Nat → K, ∀ e x, Inside (A.G.elemGeo e) x →
        component ⟨b.model, []⟩ P v' false (some e) p x = some [Trace.position (A.G.elemGeo e) (fun v (_ : Fin 1) => φ (A.G.ids e v)) x 0] ∧
        ∃ w : Vec K (n + 1), component ⟨b.model, []⟩ P v' false (some e) q x = some (List.ofFn w) ∧
          ∀ s, w ⬝ᵥ (gridJac A.G A.pos e x *ᵥ s) = (Trace.jacobian (A.G.elemGeo e) (fun v (_ : Fin 1) => φ (A.G.ids e v)) x *ᵥ s) 0 := by
  have hne : p ≠ q := by
    rintro rfl
    rw [hkp] at hkq
    cases hkq
  obtain ⟨-, -, -, hval⟩ := hT p L f hp
  obtain ⟨-, -, hacc, hvalq⟩ := hT q M g hq
  rw [hkp] at hval
  rw [hkq] at hacc hvalq
  obtain ⟨φ, hφ⟩ := vertex_values hA hacc.labels fun i => coef v (b.spec.mi (p ++ [i]))
  obtain ⟨vec, -, hvec⟩ := Tangential.C103_gradient hA.dim hacc hA.geo φ
  choose w hw hc using ned_combination hacc hvalq vec
  obtain ⟨v', hv', hother, hthis⟩ := replace hA hb hT hP hd hsep hv q (fun e x => List.ofFn (w e x)) (by
    rw [hkq]
    exact ⟨w, fun _ _ _ => rfl, (Tangential.C103_space hA.dim hacc hA.geo w).1 ⟨vec, fun e x _ => hw e x⟩⟩)
  refine ⟨v', hv', hother, φ, fun e x hx => ⟨?_, w e x, hthis M g hq e x hx, ?_⟩⟩
  · rw [hother p L f hp hne e x hx, tree_component hA hb hT hP hd hsep hv hp, hkp, lagrange_combination one_ne_zero hval, hφ]
  · obtain ⟨w', h1, h2⟩ := hvec e x hx
    rw [hw e x, Option.some.injEq] at h1
    rw [h1]
    exact h2

/-! ## Examples -/

/-- Values of the shape functions of a leaf. -/
def leafValues (A : Setting E S K n) (e : E) (x : Vec K (n + 1)) : LeafKind → List (Discrete.Mat K)
  | .raviartThomas => match find A.G.dim A.rtType (elementIndex A.G.toGridView) e (A.G.elemGeo e) (A.isects e) with
    | some v => columns ((globalValued .contra (A.geo e) (rtTable v.1 v.2)).eval x)
    | none => []
  | .nedelec => match nedelecFind A.G.dim A.nedType (vertexIndex A.G.toGridView e) (A.G.elemGeo e) with
    | some v => columns ((globalValued .co (A.geo e) (nedTable v.1 v.2)).eval x)
    | none => []
  | .lagrange order => (scalarValues A order (A.G.elemGeo e) x).map fun y => [[y]]
  | .discontinuous order => (scalarValues A order (A.G.elemGeo e) x).map fun y => [[y]]

/-- Number of components of the leaf. -/
def LeafKind.rows (n : Nat) : LeafKind → Nat
  | .raviartThomas => n + 1
  | .nedelec => n + 1
  | .lagrange _ => 1
  | .discontinuous _ => 1

/-- Shape functions that satisfy the contracts, for all settings; derivatives are not used. -/
def treeShapes (A : Setting E S K n) (kind : List Nat → LeafKind) : Shapes E (Vec K (n + 1)) K where
  dimC := 1
  uses _ := true
  shape d p e _ x := (leafValues A e x (kind p)).map fun φ => φ.map fun r => if d then List.replicate (n + 1) 0 else r
  rows p := (kind p).rows n
  dim := n + 1
  dimworld := n + 1
  jinv _ _ := []
  ntre d p := (List.range ((kind p).rows n)).flatMap fun r => if d then (List.range (n + 1)).map fun s => p ++ [r, s] else [p ++ [r]]

omit [LinearOrder K] [IsStrictOrderedRing K] in
theorem treeShapes_values [LinearOrder K] (A : Setting E S K n) (kind : List Nat → LeafKind) (p : List Nat) : (kind p).Values A (treeShapes A kind) p := by
  cases h : kind p <;> refine ⟨by simp [treeShapes, h, LeafKind.rows], ?_⟩
  · intro e x v hv
    simp [treeShapes, leafValues, h, hv]
  · intro e x v hv
    simp [treeShapes, leafValues, h, hv]
  · intro e x
    simp [treeShapes, leafValues, h]
  · intro e x
    simp [treeShapes, leafValues, h]

/-- The number of shape functions is the number of indices. -/
theorem treeShapes_number {A : Setting E S K n} (hA : A.OK) (kind : List Nat → LeafKind) {p : List Nat} (hacc : (kind p).Accepts A) (d : Bool) (e : E) (o : Option E) (x : Vec K (n + 1)) :
    ((treeShapes A kind).shape d p e o x).length = (((kind p).leaf A).loc e).length := by
  cases h : kind p with
  | raviartThomas =>
    obtain ⟨bits, h1, -, -⟩ := C47_raviartThomas A.G.dim (by rw [hA.grid.dim]; have := hA.dim; omega) A.rtType (elementIndex A.G.toGridView) e (A.G.elemGeo e) (hA.grid.ok.type e)
      (hA.grid.ok.base.elemMem e).2 (fun u hu => hA.rtType u hu e) (A.isects e) (hA.neighbours.inside e)
    simp only [treeShapes, leafValues, h, h1, List.length_map, columns]
    have := (Trace.rt_fluxes (K := K) hA.dim (hA.grid.types e)).size bits x
    simpa [globalValued, Piola.apply, Piola.contraApply, Piola.coApply, LeafKind.leaf, mapperLeaf] using this
  | nedelec =>
    rw [h] at hacc
    obtain ⟨bits, h1, -, -⟩ := Tangential.bits_spec hacc.accepted e
    simp only [treeShapes, leafValues, h, h1, List.length_map, columns]
    have := Tangential.ned_size (K := K) (Tangential.accepted_type hacc.accepted e) (show _ = n + 1 from (hA.grid.types e).2.1) bits x
    simpa [globalValued, Piola.apply, Piola.contraApply, Piola.coApply, LeafKind.leaf, mapperLeaf] using this
  | lagrange order =>
    by_cases ho : order = 0
    · subst ho
      obtain ⟨ix, h1, -, -⟩ := Constant.C107_index hA.grid.ok (hA.keys 0) .lagrange
      have h2 := congrArg List.length (h1 e)
      simpa [treeShapes, leafValues, h, scalarValues, LeafKind.leaf] using h2.symm
    · simp [treeShapes, leafValues, h, scalarValues, ho, LeafKind.leaf, lagrangeLeaf, lagrangeValues]
  | discontinuous order =>
    by_cases ho : order = 0
    · subst ho
      obtain ⟨ix, h1, -, -⟩ := Constant.C107_index hA.grid.ok (hA.keys 0) .dg
      have h2 := congrArg List.length (h1 e)
      simpa [treeShapes, leafValues, h, scalarValues, LeafKind.leaf] using h2.symm
    · simp [treeShapes, leafValues, h, scalarValues, ho, LeafKind.leaf, dgLeaf, lagrangeValues]

/-- The trapezoid and the triangle of `Verif/HDiv/RTMixed.lean`. -/
noncomputable def demo : Setting (Fin 2) (Fin 13) ℝ 1 where
  G := Continuity.mixedGrid
  pos := Trace.trapezoidPos
  rtType := none
  nedType := none
  isects := Trace.trapezoidIsects
  geo := Trace.trapezoidGeo
  keys order := Continuity.gridKeys Continuity.mixedGrid order

theorem demo_OK : demo.OK where
  dim := Or.inl rfl
  grid := Trace.trapezoid_grid
  closed := Continuity.mixedGrid_closed
  neighbours := Trace.trapezoid_neighbours
  rtType := by simp [demo]
  geo := Trace.trapezoid_geo
  keys := Continuity.gridKeys_keys Continuity.mixedGrid_OK

/-- `composite(raviartThomas<0>(), lagrange<0>(), composite(nedelec<1,1>(), lagrange<1>()))` -/
noncomputable def demoTree : PB (Fin 2) :=
  .composite true [.leaf (LeafKind.raviartThomas.leaf demo), .leaf ((LeafKind.lagrange 0).leaf demo), .composite false [.leaf (LeafKind.nedelec.leaf demo), .leaf ((LeafKind.lagrange 1).leaf demo)]]

def demoKind (p : List Nat) : LeafKind := if p = [0] then .raviartThomas else if p = [1] then .lagrange 0 else if p = [2, 0] then .nedelec else .lagrange 1

theorem demo_part {p : List Nat} {L : Leaf (Fin 2)} {f : Fin 2 → Bool} (h : Part demoTree p L f) :
    L = (demoKind p).leaf demo ∧ (∀ e, f e = true) ∧ p ∈ [[0], [1], [2, 0], [2, 1]] := by
  cases h with
  | @composite _ _ j b q _ _ hk h =>
    match j with
    | 0 =>
      simp only [List.getElem?_cons_zero, Option.some.injEq] at hk
      subst hk
      cases h
      exact ⟨rfl, fun _ => rfl, by simp⟩
    | 1 =>
      simp only [List.getElem?_cons_succ, List.getElem?_cons_zero, Option.some.injEq] at hk
      subst hk
      cases h
      exact ⟨rfl, fun _ => rfl, by simp⟩
    | 2 =>
      simp only [List.getElem?_cons_succ, List.getElem?_cons_zero, Option.some.injEq] at hk
      subst hk
      cases h with
      | @composite _ _ j b q _ _ hk h =>
        match j with
        | 0 =>
          simp only [List.getElem?_cons_zero, Option.some.injEq] at hk
          subst hk
          cases h
          exact ⟨rfl, fun _ => rfl, by simp⟩
        | 1 =>
          simp only [List.getElem?_cons_succ, List.getElem?_cons_zero, Option.some.injEq] at hk
          subst hk
          cases h
          exact ⟨rfl, fun _ => rfl, by simp⟩
        | j + 2 => simp at hk
    | j + 3 => simp at hk

theorem demo_accepts (p : List Nat) : (demoKind p).Accepts demo := by
  unfold demoKind
  split_ifs
  · trivial
  · exact fun _ => by omega
  · exact Tangential.trapezoid_edges
  · exact fun _ => by omega

theorem demo_tree : Tree demo demoTree demoKind (treeShapes demo demoKind) := fun p _ _ h =>
  ⟨(demo_part h).1, (demo_part h).2.1, demo_accepts p, treeShapes_values demo demoKind p⟩

theorem demo_slots (e : Fin 2) : slotsOn ⟨demoTree.model, []⟩ e = if e = 0 then [([0], 0, 4), ([1], 4, 1), ([2, 0], 5, 4), ([2, 1], 9, 4)] else [([0], 0, 3), ([1], 3, 1), ([2, 0], 4, 3), ([2, 1], 7, 3)] := by
  revert e
  have h : ∀ e : Fin 2, slotsOn ⟨(PB.composite true [.leaf (mapperLeaf Continuity.mixedGrid.toGridView (rtLayout 0 2) fun e => rtKeys (Continuity.mixedGrid.elemGeo e)),
      .leaf (lagrangeLeaf Continuity.mixedGrid 0 fun e => Continuity.gridKeys Continuity.mixedGrid 0 (Continuity.mixedGrid.elemGeo e)),
      .composite false [.leaf (mapperLeaf Continuity.mixedGrid.toGridView nedelecLayout fun e => nedKeys (Continuity.mixedGrid.elemGeo e)),
        .leaf (lagrangeLeaf Continuity.mixedGrid 1 fun e => Continuity.gridKeys Continuity.mixedGrid 1 (Continuity.mixedGrid.elemGeo e))]] : PB (Fin 2)).model, []⟩ e =
      if e = 0 then [([0], 0, 4), ([1], 4, 1), ([2, 0], 5, 4), ([2, 1], 9, 4)] else [([0], 0, 3), ([1], 3, 1), ([2, 0], 4, 3), ([2, 1], 7, 3)] := by decide +kernel
  exact h

theorem demo_sizes : ∀ e : Fin 2, ∀ s ∈ slotsOn ⟨demoTree.model, []⟩ e, s.2.2 = (((demoKind s.1).leaf demo).loc e).length := by
  intro e s hs
  rw [demo_slots] at hs
  have h : ∀ e : Fin 2, (rtKeys (Continuity.mixedGrid.elemGeo e)).length = (if e = 0 then 4 else 3) ∧ (nedKeys (Continuity.mixedGrid.elemGeo e)).length = (if e = 0 then 4 else 3) ∧
      (Continuity.gridKeys Continuity.mixedGrid 0 (Continuity.mixedGrid.elemGeo e)).length = 1 ∧
      (Continuity.gridKeys Continuity.mixedGrid 1 (Continuity.mixedGrid.elemGeo e)).length = (if e = 0 then 4 else 3) := by decide +kernel
  obtain ⟨h1, h2, h3, h4⟩ := h e
  by_cases he : e = 0
  · simp only [he, if_true, List.mem_cons, List.not_mem_nil, or_false] at hs h1 h2 h3 h4
    rcases hs with rfl | rfl | rfl | rfl <;> simp [demoKind, LeafKind.leaf, demo, mapperLeaf, lagrangeLeaf, he, h1, h2, h3, h4]
  · simp only [if_neg he, List.mem_cons, List.not_mem_nil, or_false] at hs h1 h2 h3 h4
    rcases hs with rfl | rfl | rfl | rfl <;> simp [demoKind, LeafKind.leaf, demo, mapperLeaf, lagrangeLeaf, h1, h2, h3, h4]

theorem demo_kind {e : Fin 2} {s : List Nat × Nat × Nat} (hs : s ∈ slotsOn ⟨demoTree.model, []⟩ e) : s.1 ∈ [[0], [1], [2, 0], [2, 1]] := by
  rw [demo_slots] at hs
  have : ∀ e : Fin 2, ∀ s ∈ (if e = 0 then [([0], 0, 4), ([1], 4, 1), ([2, 0], 5, 4), ([2, 1], 9, 4)] else [([0], 0, 3), ([1], 3, 1), ([2, 0], 4, 3), ([2, 1], 7, 3)] : List (List Nat × Nat × Nat)),
      s.1 ∈ [[0], [1], [2, 0], [2, 1]] := by decide
  exact this e s hs

omit [LinearOrder K] [IsStrictOrderedRing K] in
theorem leafValues_rows [LinearOrder K] (A : Setting E S K n) (e : E) (x : Vec K (n + 1)) (kind : LeafKind) : ∀ φ ∈ leafValues A e x kind, φ.length = kind.rows n ∧ ∀ r ∈ φ, r.length = 1 := by
  intro φ hφ
  have hcol : ∀ vals : List (Vec K (n + 1)), φ ∈ columns vals → φ.length = n + 1 ∧ ∀ r ∈ φ, r.length = 1 := by
    intro vals h
    obtain ⟨w, -, rfl⟩ := List.mem_map.1 h
    refine ⟨by simp, fun r hr => ?_⟩
    obtain ⟨y, -, rfl⟩ := List.mem_map.1 hr
    rfl
  have hscal : ∀ vals : List K, φ ∈ (vals.map fun y => [[y]]) → φ.length = 1 ∧ ∀ r ∈ φ, r.length = 1 := by
    intro vals h
    obtain ⟨y, -, rfl⟩ := List.mem_map.1 h
    simp
  cases kind with
  | raviartThomas =>
    simp only [leafValues] at hφ
    split at hφ
    · exact hcol _ hφ
    · simp at hφ
  | nedelec =>
    simp only [leafValues] at hφ
    split at hφ
    · exact hcol _ hφ
    · simp at hφ
  | lagrange order => exact hscal _ hφ
  | discontinuous order => exact hscal _ hφ

theorem demo_shapes : (treeShapes demo demoKind).OK ⟨demoTree.model, []⟩ where
  number d e x s hs := by rw [treeShapes_number demo_OK demoKind (demo_accepts s.1), demo_sizes e s hs]
  rows d e x s hs φ hφ := by
    obtain ⟨ψ, hψ, rfl⟩ := List.mem_map.1 hφ
    obtain ⟨h1, h2⟩ := leafValues_rows demo e x (demoKind s.1) ψ hψ
    refine ⟨by rw [List.length_map, h1]; rfl, fun r hr => ?_⟩
    obtain ⟨r', hr', rfl⟩ := List.mem_map.1 hr
    cases d
    · simp [Shapes.cols, h2 r' hr']
    · simp [Shapes.cols, treeShapes]
  range d e s hs := by cases d <;> simp [treeShapes, Shapes.outCols, List.length_flatMap]

theorem demo_separate : Separate ⟨demoTree.model, []⟩ (treeShapes demo demoKind) := by
  intro d e
  rw [demo_slots]
  cases d <;> fin_cases e <;> simp [treeShapes, demoKind, LeafKind.rows, List.range_succ]

theorem demo_WF : demoTree.WF := by
  have hstd : StdGrid Continuity.mixedGrid.toGridView := demo_OK.std
  have h : ∀ k, k ≤ 2 → (PB.leaf (lagrangeLeaf Continuity.mixedGrid k fun e => Continuity.gridKeys Continuity.mixedGrid k (Continuity.mixedGrid.elemGeo e))).WF := fun k hk =>
    lagrangeLeaf_WF Continuity.mixedGrid_OK (by simp [lagrangeAccept, Continuity.mixedGrid]) (Continuity.gridKeys_keys Continuity.mixedGrid_OK k)
  have hrt : (PB.leaf (mapperLeaf Continuity.mixedGrid.toGridView (rtLayout 0 2) fun e => rtKeys (Continuity.mixedGrid.elemGeo e))).WF :=
    ⟨by decide +kernel, by decide +kernel⟩
  have hned : (PB.leaf (mapperLeaf Continuity.mixedGrid.toGridView nedelecLayout fun e => nedKeys (Continuity.mixedGrid.elemGeo e))).WF :=
    ⟨by decide +kernel, by decide +kernel⟩
  simp only [demoTree, PB.WF, PB.WFs]
  exact ⟨by simp, hrt, h 0 (by decide), ⟨by simp, hned, h 1 (by decide), trivial⟩, trivial⟩

/-- The coefficients are unique. -/
example {v v' : Discrete.Vec ℝ} (hv : VecOK ⟨demoTree.model, []⟩ 1 v) (hv' : VecOK ⟨demoTree.model, []⟩ 1 v')
    (heq : ∀ p L f, Part demoTree p L f → ∀ e x, Inside (demo.G.elemGeo e) x → component ⟨demoTree.model, []⟩ (treeShapes demo demoKind) v false (some e) p x =
      component ⟨demoTree.model, []⟩ (treeShapes demo demoKind) v' false (some e) p x) : ∀ m ∈ IndexSet demoTree.model, v m = v' m :=
  fun _ => C108_unique demo_OK demo_WF ⟨trivial, trivial, ⟨trivial, trivial, trivial⟩, trivial⟩ demo_tree demo_shapes rfl demo_separate hv hv' heq

/-- A component of order 0 may jump between the trapezoid and the triangle, a component of order 1 may not. -/
example (a : Fin 2 → ℝ) : (∃ v, VecOK ⟨demoTree.model, []⟩ 1 v ∧ ∀ p L f, Part demoTree p L f → ∀ e x, Inside (demo.G.elemGeo e) x →
      component ⟨demoTree.model, []⟩ (treeShapes demo demoKind) v false (some e) p x = some (if p = [1] then [a e] else List.replicate ((demoKind p).rows 1) 0)) ∧
    ((∃ v, VecOK ⟨demoTree.model, []⟩ 1 v ∧ ∀ p L f, Part demoTree p L f → ∀ e x, Inside (demo.G.elemGeo e) x →
      component ⟨demoTree.model, []⟩ (treeShapes demo demoKind) v false (some e) p x = some (if p = [2, 1] then [a e] else List.replicate ((demoKind p).rows 1) 0)) → a 0 = a 1) := by
  constructor
  · refine (C108_space demo_OK demo_WF demo_tree demo_shapes rfl demo_separate fun p e _ => if p = [1] then [a e] else List.replicate ((demoKind p).rows 1) 0).2 fun p L f hp => ?_
    have hm := (demo_part hp).2.2
    simp only [List.mem_cons, List.not_mem_nil, or_false] at hm
    rcases hm with rfl | rfl | rfl | rfl
    · refine ⟨fun _ _ => 0, fun e x _ => by simp [demoKind, LeafKind.rows], fun e => ⟨fun _ => 0, Trace.RefField.zero _, fun x _ => by simp⟩, ?_⟩
      intro _ _ _ _ _ _ _ _ _ _ _ _ _ _ _ _ _
      rfl
    · exact ⟨fun e _ => a e, fun _ _ _ => rfl, fun _ _ _ => rfl⟩
    · exact ⟨fun _ _ => 0, fun e x _ => by simp [demoKind, LeafKind.rows], fun e => ⟨fun _ => 0, ⟨fun _ => ⟨0, 0, by simp, fun x => by simp⟩, fun _ => ⟨0, 0, 0, 0, fun _ => ⟨rfl, rfl⟩, fun x j => by simp⟩⟩, fun x _ => by simp⟩, fun _ _ _ _ _ _ _ _ _ _ _ _ _ => rfl⟩
    · exact ⟨fun _ _ => 0, fun _ _ _ => rfl, fun _ _ _ _ _ => rfl, fun e => Product.polyOn_const _ _ 0⟩
  · intro h
    obtain ⟨q, hq, hc, -⟩ := (C108_space demo_OK demo_WF demo_tree demo_shapes rfl demo_separate fun p e _ => if p = [2, 1] then [a e] else List.replicate ((demoKind p).rows 1) 0).1 h [2, 1] _ _
      (.composite (k := 2) rfl (.composite (k := 1) rfl (.leaf _)))
    have hnv : ∀ e : Fin 2, 1 < (Continuity.mixedGrid.elemGeo e).nv := by decide
    have hs : ∀ e : Fin 2, Supported 2 (demo.G.elemGeo e) := Continuity.mixed_elem
    have hw : ∀ (e : Fin 2) (w : Nat), w < (demo.G.elemGeo e).nv → vertexWeight (demo.G.elemGeo e) w (Trace.refCorner ℝ 1 (demo.G.elemGeo e) 1) = if w = 1 then 1 else 0 := fun e w hw =>
      Trace.refCorner_weight (Or.inl rfl) (hs e) (hnv e) hw
    have hx : ∀ e : Fin 2, Inside (demo.G.elemGeo e) (Trace.refCorner ℝ 1 (demo.G.elemGeo e) 1) := fun e w h => by
      rw [hw e w h]
      split <;> norm_num
    have hm : Continuity.Meets demo.G 0 (Trace.refCorner ℝ 1 (demo.G.elemGeo 0) 1) 1 (Trace.refCorner ℝ 1 (demo.G.elemGeo 1) 1) := by
      refine ⟨2, 1, 2, 1, by decide, by decide, by decide, by decide +kernel, by decide +kernel, by decide +kernel, fun v hv hk => ?_, fun v hv hk => ?_, fun v hv v' hv' he => ?_⟩
      · rw [hw 0 v hv, if_neg]
        rintro rfl
        exact hk (by decide +kernel)
      · rw [hw 1 v hv, if_neg]
        rintro rfl
        exact hk (by decide +kernel)
      · rw [hw 0 v hv, hw 1 v' hv']
        have : ∀ v < 4, ∀ v' < 3, Continuity.mixedGrid.ids 0 v = Continuity.mixedGrid.ids 1 v' → (v = 1 ↔ v' = 1) := by decide
        simp only [this v hv v' hv' he]
    have h0 := hq 0 _ (hx 0)
    have h1 := hq 1 _ (hx 1)
    rw [hc _ _ _ _ hm] at h0
    simp only [↓reduceIte, List.cons.injEq, and_true] at h0 h1
    exact h0.trans h1.symm

/-- The flux of the first component out of the trapezoid and out of the triangle is the integral of some piecewise constant function. -/
example {v : Discrete.Vec ℝ} (hv : VecOK ⟨demoTree.model, []⟩ 1 v) : ∃ (v' : Discrete.Vec ℝ) (w : Fin 2 → Vec ℝ 2 → Vec ℝ 2) (d : Fin 2 → ℝ), VecOK ⟨demoTree.model, []⟩ 1 v' ∧
    (∀ e x, Inside (demo.G.elemGeo e) x → component ⟨demoTree.model, []⟩ (treeShapes demo demoKind) v false (some e) [0] x = some (List.ofFn (w e x)) ∧
      component ⟨demoTree.model, []⟩ (treeShapes demo demoKind) v' false (some e) [1] x = some [d e]) ∧
    ∀ x : Nat → Vec ℝ 2, (∀ i < 4, Inside ⟨2, 4⟩ (x i) ∧ (Trace.facetOf ℝ 1 ⟨2, 4⟩ i).On (x i)) → Trace.refVolume ℝ ⟨2, 4⟩ * d 0 = ∑ i ∈ Finset.range 4,
      Trace.refArea ℝ ((stdSubs ⟨2, 4⟩ 1).getD i ⟨0, 1⟩) * Piola.outerFlux (w 0 (x i)) (fun k => gridJac demo.G demo.pos 0 (x i) *ᵥ (Trace.facetOf ℝ 1 ⟨2, 4⟩ i).frame k)
        (gridJac demo.G demo.pos 0 (x i) *ᵥ (Trace.facetOf ℝ 1 ⟨2, 4⟩ i).out) := by
  have h0 : Part demoTree [0] _ _ := .composite (k := 0) rfl (.leaf _)
  obtain ⟨v', hv', hr, w, d, hc, hf⟩ := C108_divergence demo_OK demo_WF demo_tree demo_shapes rfl demo_separate hv h0 (.composite (k := 1) (p := []) rfl (.leaf _)) rfl
    (show (LeafKind.lagrange 0).Constants from rfl)
  exact ⟨v', w, d, hv', fun e x hx => ⟨(hr _ _ _ h0 (by decide) e x hx).symm.trans (hc e x hx).1, (hc e x hx).2⟩, fun x hx => hf 0 x hx⟩

/-- The gradient of the last component is a function of the Nédélec component. -/
example {v : Discrete.Vec ℝ} (hv : VecOK ⟨demoTree.model, []⟩ 1 v) : ∃ (v' : Discrete.Vec ℝ) (φ : Nat → ℝ), VecOK ⟨demoTree.model, []⟩ 1 v' ∧ ∀ e x, Inside (demo.G.elemGeo e) x →
    component ⟨demoTree.model, []⟩ (treeShapes demo demoKind) v false (some e) [2, 1] x = some [Trace.position (demo.G.elemGeo e) (fun v (_ : Fin 1) => φ (demo.G.ids e v)) x 0] ∧
    ∃ w : Vec ℝ 2, component ⟨demoTree.model, []⟩ (treeShapes demo demoKind) v' false (some e) [2, 0] x = some (List.ofFn w) ∧
      ∀ s, w ⬝ᵥ (gridJac demo.G demo.pos e x *ᵥ s) = (Trace.jacobian (demo.G.elemGeo e) (fun v (_ : Fin 1) => φ (demo.G.ids e v)) x *ᵥ s) 0 := by
  have h1 : Part demoTree [2, 1] _ _ := .composite (k := 2) rfl (.composite (k := 1) rfl (.leaf _))
  obtain ⟨v', hv', hr, φ, hc⟩ := C108_gradient demo_OK demo_WF demo_tree demo_shapes rfl demo_separate hv h1 (.composite (k := 2) (p := [0]) rfl (.composite (k := 0) rfl (.leaf _))) rfl rfl
  exact ⟨v', φ, hv', fun e x hx => ⟨(hr _ _ _ h1 (by decide) e x hx).symm.trans (hc e x hx).1, (hc e x hx).2⟩⟩

end Verif.HDiv.Trees

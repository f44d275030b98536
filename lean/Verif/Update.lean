import Verif.FE.Layouts
import Verif.HDiv.Orientation
import Verif.IndexTree.Periodic
import Verif.Leaf.MeshSize

/-!
# `update(gridView)` and fresh construction

Model of the constructors, `update` and `initializeIndices` of all pre-bases and of `DefaultGlobalBasis`. The model keeps the data
members that depend on the grid view. A grid view object is a *handle*: the grid behind it may change (`World`), hence a mapper
has a snapshot of the sizes but asks the index set of today.
-/

namespace Verif.Update

open Verif.Mapper Verif.HDiv Verif.Lagrange

/-! ## Grids -/

/-- What can be seen through a grid view: index set, elements in the order of traversal, intersections, volumes of elements and
global ids of the entities. -/
structure Content (E S : Type) where
  grid : GridView E S
  elems : List E
  isects : E → List (Isect E)
  vol : E → ℝ
  id : S → Nat

/-- State of all grids: what is behind each grid view (`H`), and the grid view of each sub-domain object (`D`). -/
structure World (H D E S : Type) where
  view : H → Content E S
  subDomain : D → H

variable {H D E S : Type}

/-- The entity of codimension zero. -/
def Content.entity (C : Content E S) (e : E) : S := C.grid.sub e 0 0

/-- `gridView.size(0)`. -/
def Content.size0 (C : Content E S) : Nat := (C.grid.types.map fun t => C.grid.gsize t * if t.dim = C.grid.dim then 1 else 0).sum

/-- `indexSet.types(0)`. -/
def Content.types0 (C : Content E S) : List Geo := C.grid.types.filter fun t => t.dim = C.grid.dim

/-- Contract of a grid view, as far as it is needed here: the elements of each type are numbered consecutively. -/
structure Content.OK (C : Content E S) : Prop where
  typesNodup : C.grid.types.Nodup
  elemsNodup : C.elems.Nodup
  elemType : ∀ e ∈ C.elems, C.grid.geo (C.entity e) = C.grid.elemGeo e ∧ C.grid.elemGeo e ∈ C.grid.types ∧
    (C.grid.elemGeo e).dim = C.grid.dim
  idxLt : ∀ e ∈ C.elems, C.grid.idx (C.entity e) < C.grid.gsize (C.grid.elemGeo e)
  idxInj : ∀ e ∈ C.elems, ∀ e' ∈ C.elems, C.grid.elemGeo e = C.grid.elemGeo e' →
    C.grid.idx (C.entity e) = C.grid.idx (C.entity e') → e = e'
  idxSurj : ∀ t ∈ C.grid.types, t.dim = C.grid.dim → ∀ n < C.grid.gsize t,
    ∃ e ∈ C.elems, C.grid.elemGeo e = t ∧ C.grid.idx (C.entity e) = n

/-- All grid views satisfy the contract and have dimension `dim` (`GV::dimension` is static). -/
def World.OK (dim : Nat) (w : World H D E S) : Prop := ∀ h, (w.view h).OK ∧ (w.view h).grid.dim = dim

/-! ## Mappers -/

/-- `MultipleCodimMultipleGeomTypeMapper`: grid view, layout, first index per geometry type and total size. -/
structure MapperState (H : Type) where
  view : H
  lay : Layout
  off : Geo → Nat
  n : Nat

/-- Constructor of the mapper. -/
def setup (w : World H D E S) (h : H) (lay : Layout) : MapperState H :=
  ⟨h, lay, offset (w.view h).grid.gsize lay (w.view h).grid.types, mapperSize (w.view h).grid lay⟩

/-- `mapper.update(gridView)`. -/
def MapperState.update (w : World H D E S) (h : H) (m : MapperState H) : MapperState H := setup w h m.lay

/-- `mapper.index(entity)`: the stored offset plus the index from the index set. -/
def MapperState.index (w : World H D E S) (m : MapperState H) (s : S) : Nat :=
  m.off ((w.view m.view).grid.geo s) + (w.view m.view).grid.idx s * m.lay ((w.view m.view).grid.geo s)

/-- `mcmgElementLayout()`. -/
def elementLayout (dim : Nat) : Layout := fun t => if t.dim = dim then 1 else 0

/-! ## Arrays -/

/-- `std::vector::resize`. -/
def resize {α : Type} (l : List α) (n : Nat) (d : α) : List α := l.take n ++ List.replicate (n - l.length) d

/-- Assignments `v[i] = a`, one after the other. `none`: index out of bounds or undefined value. -/
def writes {α : Type} : List (Nat × Option α) → List α → Option (List α)
  | [], l => some l
  | (i, v) :: ws, l => if i < l.length then v.bind fun a => writes ws (l.set i a) else none

/-! ## Tables of the finite element maps -/

/-- The number stored by `Nedelec1stKindLocalFiniteElementMap::update` for an element, nedelecbasis.hh:92-113. -/
def nedelecOrient (dim : Nat) (fixed : Option Geo) (g : Nat → Nat) (t : Geo) : Nat :=
  let o := edgeOrientLoop g 0 (refOf t).edges 0
  if fixed.isNone ∧ t = cubeOf dim then (o + numEdgeVariants (simplexOf dim)) % 65536 else o

theorem nedelecFind_eq (dim : Nat) (fixed : Option Geo) (g : Nat → Nat) (t : Geo) :
    nedelecFind dim fixed g t = (edgeVariants dim fixed)[nedelecOrient dim fixed g t]? := rfl

/-- `elementMapper_` and `orientation_`/`orient_` of the finite element maps of the Nédélec and Raviart–Thomas bases. The tables
`variants_` are the same for all grids and not part of the model. -/
structure ElemMap (H : Type) where
  mapper : MapperState H
  orient : List Nat

/-- `Nedelec1stKindLocalFiniteElementMap::update`, nedelecbasis.hh:65-115. -/
def nedelecUpdate (dim : Nat) (fixed : Option Geo) (w : World H D E S) (h : H) (m : ElemMap H) : Option (ElemMap H) :=
  let em := m.mapper.update w h
  let C := w.view h
  (writes (C.elems.map fun e => (em.index w (C.entity e),
      some (nedelecOrient dim fixed (fun v => C.grid.idx (C.grid.sub e dim v)) (C.grid.elemGeo e))))
    (resize m.orient C.size0 0)).map fun o => ⟨em, o⟩

/-- Constructor, nedelecbasis.hh:58-63. -/
def nedelecMap (dim : Nat) (fixed : Option Geo) (w : World H D E S) (h : H) : Option (ElemMap H) :=
  nedelecUpdate dim fixed w h ⟨setup w h (elementLayout dim), List.replicate (w.view h).size0 0⟩

/-- `RaviartThomasLocalFiniteElementMap::update`, raviartthomasbasis.hh:163-228. -/
def rtUpdate (dim : Nat) (fixed : Option Geo) (w : World H D E S) (h : H) (m : ElemMap H) : Option (ElemMap H) :=
  let em := m.mapper.update w h
  let C := w.view h
  (writes (C.elems.map fun e => (em.index w (C.entity e),
      some (orient dim fixed (fun f => em.index w (C.entity f)) e (C.grid.elemGeo e) (C.isects e))))
    (resize m.orient C.size0 0)).map fun o => ⟨em, o⟩

/-- Constructor, raviartthomasbasis.hh:157-161. -/
def rtMap (dim : Nat) (fixed : Option Geo) (w : World H D E S) (h : H) : Option (ElemMap H) :=
  rtUpdate dim fixed w h ⟨setup w h (elementLayout dim), []⟩

/-- `BDMLocalFiniteElementMap::update`, brezzidouglasmarinibasis.hh:99-127: the index set is used directly. -/
def bdmUpdate (w : World H D E S) (h : H) (orient : List Nat) : Option (List Nat) :=
  let C := w.view h
  let index := fun e => C.grid.idx (C.entity e)
  writes (C.elems.map fun e => (index e, bdmLoop index (index e) (C.isects e) 0)) (resize orient C.size0 0)

/-- `computeEdgeOrientations`, mapperutilities.hh:129-163. The mapper may be out of date. -/
def computeEdgeOrientations (w : World H D E S) (m : MapperState H) : Option (List (List Bool)) :=
  let C := w.view m.view
  writes (C.elems.map fun e => (m.index w (C.entity e), some (edgeOrientations fun v => C.id (C.grid.sub e 2 v))))
    (List.replicate C.size0 [false, false, false])

/-- `computeAverageSubEntityMeshSize` (mapperutilities.hh:96-115, modelled in `Leaf/MeshSize`) for a mapper that is up to date. It is
called for no other mappers: each call comes right after the constructor or the update of the mapper. -/
noncomputable def meshSizes (w : World H D E S) (m : MapperState H) : Option (List ℝ) :=
  MeshSize.averageMeshSize (w.view m.view).grid m.lay (w.view m.view).vol (w.view m.view).elems

/-! ## Pre-bases -/

/-- Exceptions. -/
inductive Err | notImplemented | rangeError | assertion
  deriving DecidableEq, Repr

/-- Data members of `LeafPreBasisMapperMixin`, leafprebasismappermixin.hh:131-134. `maxNodeSize_` is uninitialised at first. -/
structure Mixin (H : Type) where
  gridView : H
  mapper : MapperState H
  maxNodeSize : Option Nat

/-- leafprebasismappermixin.hh:74-77. -/
def Mixin.construct (w : World H D E S) (h : H) (lay : Layout) : Mixin H := ⟨h, setup w h lay, none⟩

/-- leafprebasismappermixin.hh:101-105. -/
def Mixin.update (w : World H D E S) (h : H) (s : Mixin H) : Mixin H := ⟨h, s.mapper.update w h, s.maxNodeSize⟩

/-- leafprebasismappermixin.hh:80-92. -/
def Mixin.init (w : World H D E S) (s : Mixin H) : Mixin H :=
  ⟨s.gridView, s.mapper, some (Mapper.maxNodeSize (w.view s.gridView).grid s.mapper.lay)⟩

/-- Data of a B-spline pre-basis that come from the arguments of the constructor: elements per direction, number of knots, orders. -/
structure Spline where
  elements : List Nat
  knots : List Nat
  order : List Nat

/-- What the user asks for, i.e. the factory. A composite basis is `compCons` of its children. -/
inductive Desc (D : Type)
  /-- bases that add nothing to the mixin (LagrangeDG, refined and hierarchical Lagrange, `LFEPreBasisMixin`) -/
  | mixin (lay : Layout)
  | lagrange (order : Nat)
  | rannacherTurek
  | nedelec (fixed : Option Geo)
  | raviartThomas (k : Nat) (fixed : Option Geo)
  | bdm (k : Nat)
  | hermite (reduced : Bool)
  | argyris
  | morley
  | bspline (c : Spline)
  | taylorHood
  | power (n : Nat) (d : Desc D)
  | compNil
  | compCons (d ds : Desc D)
  | transformed (τ : Nat) (d : Desc D)
  | periodic (pairs : List (Nat × Nat)) (d : Desc D)
  | restricted (dom : D) (d : Desc D)

/-- States of the pre-bases. -/
inductive State (H D : Type)
  | mixin (s : Mixin H)
  | lagrange (order : Nat) (gridView : H) (mapper : MapperState H) (perm : H × Nat)
  | rannacherTurek (gridView : H)
  | nedelec (fixed : Option Geo) (base : Mixin H) (map : ElemMap H)
  | raviartThomas (k : Nat) (fixed : Option Geo) (base : Mixin H) (map : ElemMap H)
  | bdm (k : Nat) (base : Mixin H) (is : H) (orient : List Nat)
  | hermite (reduced : Bool) (base : Mixin H) (vertexMapper : MapperState H) (meshSize : List ℝ)
  | argyris (base : Mixin H) (vertexMapper elementMapper : MapperState H) (meshSize : List ℝ) (edges : List (List Bool))
  | morley (base : Mixin H) (mapper : MapperState H) (data : List (List Bool))
  | bspline (c : Spline) (gridView : H)
  | taylorHood (gridView : H) (pq1 pq2 : State H D)
  | power (n : Nat) (s : State H D)
  | compNil
  | compCons (s ss : State H D)
  | transformed (τ : Nat) (s : State H D)
  | periodic (pairs : List (Nat × Nat)) (s : State H D) (mappedIdx : List (Option Nat)) (numIndices : Nat)
  | restricted (gridView : H) (s : State H D) (dom : D)

/-- `isSimplex() || isCube()`. -/
def simplexOrCube (t : Geo) : Bool := t = simplexOf t.dim || t = cubeOf t.dim

/-- The checks of the Lagrange pre-basis that depend on the grid, lagrangebasis.hh:791-794 and 812-815. -/
def lagrangeAccepts (C : Content E S) (order : Nat) : Bool :=
  !(decide (order > 2) && decide (C.grid.gsize pyramidT > 0)) && !(decide (order > 2) && decide (C.grid.gsize prismT > 0))

/-- `initializeIndices` of all pre-bases: leafprebasismappermixin.hh:80-92, compositebasis.hh:128-133, dynamicpowerbasis.hh:90-93,
taylorhoodbasis.hh:96-100, transformedindexbasis.hh:85-88, restrictedbasis.hh:114-117; empty for the others. -/
def init (w : World H D E S) : State H D → State H D
  | .mixin s => .mixin (s.init w)
  | .nedelec f b m => .nedelec f (b.init w) m
  | .raviartThomas k f b m => .raviartThomas k f (b.init w) m
  | .bdm k b i o => .bdm k (b.init w) i o
  | .hermite r b v s => .hermite r (b.init w) v s
  | .argyris b v e s o => .argyris (b.init w) v e s o
  | .morley b m d => .morley (b.init w) m d
  | .taylorHood g p q => .taylorHood g (init w p) (init w q)
  | .power n s => .power n (init w s)
  | .compCons s t => .compCons (init w s) (init w t)
  | .transformed τ s => .transformed τ (init w s)
  | .periodic p s m n => .periodic p (init w s) m n
  | .restricted g s d => .restricted g (init w s) d
  | s => s

/-- `size()` of the pre-bases with flat indices (power and composite bases with flat index merging). -/
def flatSize (w : World H D E S) : State H D → Option Nat
  | .mixin s => some s.mapper.n
  | .lagrange _ _ m _ => some m.n
  | .rannacherTurek g => some (((w.view g).grid.types.filter fun t => t.dim + 1 = (w.view g).grid.dim).map (w.view g).grid.gsize).sum
  | .nedelec _ b _ => some b.mapper.n
  | .raviartThomas _ _ b _ => some b.mapper.n
  | .bdm _ b _ _ => some b.mapper.n
  | .hermite _ b _ _ => some b.mapper.n
  | .argyris b _ _ _ _ => some b.mapper.n
  | .morley b _ _ => some b.mapper.n
  | .bspline c _ => some ((c.knots.zip c.order).map fun ko => ko.1 - ko.2 - 1).prod
  | .power n s => (flatSize w s).map (n * ·)
  | .compNil => some 0
  | .compCons s t => (flatSize w s).bind fun a => (flatSize w t).map (a + ·)
  | _ => none

/-- The constructor of `LagrangePreBasis`, lagrangebasis.hh:783-797; `FaceDOFPermutation` is represented by the grid view that provides
the id set and the order. -/
def lagrangeConstruct (dim : Nat) (w : World H D E S) (order : Nat) (h : H) : Except Err (State H D) :=
  if lagrangeAccepts (w.view h) order = false then .error .rangeError
  else if dim = 3 ∧ order > 17 then .error .rangeError
  else .ok (.lagrange order h (setup w h (lagrangeLayout order dim)) (h, order))

/-- The constructors (called by the factories) of all pre-bases. `none`: undefined behaviour. -/
noncomputable def construct (dim : Nat) (w : World H D E S) : Desc D → H → Option (Except Err (State H D))
  | .mixin lay, h => some (.ok (.mixin (Mixin.construct w h lay)))
  | .lagrange order, h => some (lagrangeConstruct dim w order h)
  -- rannacherturekbasis.hh:73-79
  | .rannacherTurek, h => some (if (w.view h).types0.all simplexOrCube then .ok (.rannacherTurek h) else .error .notImplemented)
  -- nedelecbasis.hh:165-186
  | .nedelec fixed, h => (nedelecMap dim fixed w h).map fun m =>
    if (w.view h).types0.length > 2 then .error .notImplemented
    else if (w.view h).types0.all simplexOrCube = false then .error .notImplemented
    else .ok (.nedelec fixed (Mixin.construct w h nedelecLayout) m)
  -- raviartthomasbasis.hh:292-303
  | .raviartThomas k fixed, h => (rtMap dim fixed w h).map fun m =>
    if (w.view h).types0.length > 1 ∧ k > 0 then .error .notImplemented
    else if ((w.view h).types0.all fun t => simplexOrCube t || t = pyramidT || t = prismT) = false then .error .notImplemented
    else .ok (.raviartThomas k fixed (Mixin.construct w h (rtLayout k dim)) m)
  -- brezzidouglasmarinibasis.hh:93-97, 194-202
  | .bdm k, h => (bdmUpdate w h (List.replicate (w.view h).size0 0)).map fun o =>
    if (w.view h).types0.length > 1 then .error .notImplemented
    else .ok (.bdm k (Mixin.construct w h (bdmLayout k dim)) h o)
  -- cubichermitebasis.hh:760-767
  | .hermite r, h => let v := setup w h MeshSize.vertexLayout
    (meshSizes w v).map fun s => .ok (.hermite r (Mixin.construct w h (FE.hermiteLayout dim r)) v s)
  -- argyrisbasis.hh:891-898
  | .argyris, h =>
    let v := setup w h MeshSize.vertexLayout
    let e := setup w h (elementLayout dim)
    (meshSizes w v).bind fun s => (computeEdgeOrientations w e).map fun o =>
      .ok (.argyris (Mixin.construct w h FE.argyrisLayout) v e s o)
  -- morleybasis.hh:633-638
  | .morley, h => let m := setup w h (elementLayout dim)
    (computeEdgeOrientations w m).map fun o => .ok (.morley (Mixin.construct w h FE.morleyLayout) m o)
  -- bsplinebasis.hh:597-626, 649-680
  | .bspline c, h => some (if c.elements.prod = (w.view h).size0 then .ok (.bspline c h) else .error .assertion)
  -- taylorhoodbasis.hh:89-93
  | .taylorHood, h => some ((lagrangeConstruct dim w 1 h).bind fun p => (lagrangeConstruct dim w 2 h).map fun q => .taylorHood h p q)
  -- dynamicpowerbasis.hh:79-87
  | .power n d, h => (construct dim w d h).map fun r => r.map fun s => .power n s
  -- compositebasis.hh:96-125
  | .compNil, _ => some (.ok .compNil)
  | .compCons d ds, h => (construct dim w d h).bind fun r => match r with
    | .error e => some (.error e)
    | .ok s => (construct dim w ds h).map fun r => r.map fun t => .compCons s t
  -- transformedindexbasis.hh:79-82
  | .transformed τ d, h => (construct dim w d h).map fun r => r.map fun s => .transformed τ s
  -- periodicbasis.hh:163-171 (factory for a raw factory)
  | .periodic pairs d, h => (construct dim w d h).bind fun r => match r with
    | .error e => some (.error e)
    | .ok s => (flatSize w (init w s)).bind fun n => (IndexTree.periodicMap n pairs).map fun mn =>
      .ok (.periodic pairs (init w s) mn.1 mn.2)
  -- restrictedbasis.hh:107-111, 224-233
  | .restricted dom d, h => (construct dim w d (w.subDomain dom)).map fun r => r.map fun s => .restricted h s dom

/-- Result of `update`: the new state, which may be a mixture of old and new if there was an exception. -/
structure Out (H D : Type) where
  state : State H D
  error : Option Err

def Out.map (f : State H D → State H D) (o : Out H D) : Out H D := ⟨f o.state, o.error⟩

/-- `LagrangePreBasis::update`, lagrangebasis.hh:810-819. -/
def lagrangeUpdate (w : World H D E S) (h : H) (order : Nat) (g : H) (m : MapperState H) (p : H × Nat) : Out H D :=
  if lagrangeAccepts (w.view h) order = false then ⟨.lagrange order g m p, some .rangeError⟩
  else ⟨.lagrange order h (m.update w h) (h, order), none⟩

/-- `update(gridView)` of all pre-bases. `none`: undefined behaviour. -/
noncomputable def update (dim : Nat) (w : World H D E S) : H → State H D → Option (Out H D)
  | h, .mixin s => some ⟨.mixin (s.update w h), none⟩
  | h, .lagrange order g m p => some (lagrangeUpdate w h order g m p)
  -- rannacherturekbasis.hh:92-95
  | h, .rannacherTurek _ => some ⟨.rannacherTurek h, none⟩
  -- nedelecbasis.hh:189-193
  | h, .nedelec f b m => (nedelecUpdate dim f w h m).map fun m => ⟨.nedelec f (b.update w h) m, none⟩
  -- raviartthomasbasis.hh:306-310
  | h, .raviartThomas k f b m => (rtUpdate dim f w h m).map fun m => ⟨.raviartThomas k f (b.update w h) m, none⟩
  -- brezzidouglasmarinibasis.hh:205-209
  | h, .bdm k b _ o => (bdmUpdate w h o).map fun o => ⟨.bdm k (b.update w h) h o, none⟩
  -- cubichermitebasis.hh:770-775
  | h, .hermite r b v _ =>
    let v := v.update w h
    (meshSizes w v).map fun s => ⟨.hermite r (b.update w h) v s, none⟩
  -- argyrisbasis.hh:901-908
  | h, .argyris b v e _ _ =>
    let v := v.update w h
    let e := e.update w h
    (meshSizes w v).bind fun s => (computeEdgeOrientations w e).map fun o => ⟨.argyris (b.update w h) v e s o, none⟩
  -- morleybasis.hh:641-645, `mapper_` is not updated
  | h, .morley b m _ => (computeEdgeOrientations w m).map fun o => ⟨.morley (b.update w h) m o, none⟩
  -- bsplinebasis.hh:693-696
  | h, .bspline c _ => some ⟨.bspline c h, none⟩
  -- taylorhoodbasis.hh:109-113, `gridView_` is not updated
  | h, .taylorHood g p q => (update dim w h p).bind fun o => match o.error with
    | some e => some ⟨.taylorHood g o.state q, some e⟩
    | none => (update dim w h q).map fun o' => o'.map (.taylorHood g o.state)
  -- dynamicpowerbasis.hh:102-105
  | h, .power n s => (update dim w h s).map fun o => o.map (.power n)
  -- compositebasis.hh:142-147
  | _, .compNil => some ⟨.compNil, none⟩
  | h, .compCons s t => (update dim w h s).bind fun o => match o.error with
    | some e => some ⟨.compCons o.state t, some e⟩
    | none => (update dim w h t).map fun o' => o'.map (.compCons o.state)
  -- transformedindexbasis.hh:97-100
  | h, .transformed τ s => (update dim w h s).map fun o => o.map (.transformed τ)
  | h, .periodic p s m n => (update dim w h s).map fun o => o.map fun s => .periodic p s m n
  -- restrictedbasis.hh:133-137
  | h, .restricted _ s dom => (update dim w (w.subDomain dom) s).map fun o => o.map fun s => .restricted h s dom

/-! ## The global basis -/

/-- Constructor of `DefaultGlobalBasis` from a factory, defaultglobalbasis.hh:103-111. -/
noncomputable def basisConstruct (dim : Nat) (w : World H D E S) (d : Desc D) (h : H) : Option (Except Err (State H D)) :=
  (construct dim w d h).map fun r => r.map (init w)

/-- `DefaultGlobalBasis::update`, defaultglobalbasis.hh:137-141. -/
noncomputable def basisUpdate (dim : Nat) (w : World H D E S) (h : H) (s : State H D) : Option (Out H D) :=
  (update dim w h s).map fun o => match o.error with
    | none => ⟨init w o.state, none⟩
    | some e => ⟨o.state, some e⟩

/-- A history of updates: the grids change between the calls, exceptions are caught by the user. `none`: undefined behaviour in
one of the calls. -/
noncomputable def run (dim : Nat) : State H D → List (World H D E S × H) → Option (State H D)
  | s, [] => some s
  | s, (w, h) :: t => (basisUpdate dim w h s).bind fun o => run dim o.state t

/-- `gridView()` of the pre-bases; compositebasis.hh:136-139: that of the first child. -/
def State.gridView : State H D → Option H
  | .mixin s => some s.gridView
  | .lagrange _ g _ _ => some g
  | .rannacherTurek g => some g
  | .nedelec _ b _ => some b.gridView
  | .raviartThomas _ _ b _ => some b.gridView
  | .bdm _ b _ _ => some b.gridView
  | .hermite _ b _ _ => some b.gridView
  | .argyris b _ _ _ _ => some b.gridView
  | .morley b _ _ => some b.gridView
  | .bspline _ g => some g
  | .taylorHood g _ _ => some g
  | .power _ s => s.gridView
  | .compNil => none
  | .compCons s _ => s.gridView
  | .transformed _ s => s.gridView
  | .periodic _ s _ _ => s.gridView
  | .restricted g _ _ => some g

/-! ## Proofs: tables -/

theorem resize_length {α : Type} (l : List α) (n : Nat) (d : α) : (resize l n d).length = n := by
  simp only [resize, List.length_append, List.length_take, List.length_replicate]
  omega

/-- If every entry that differs is overwritten then the result does not depend on the old table. -/
theorem writes_congr {α : Type} : ∀ (ws : List (Nat × Option α)) (l l' : List α), l.length = l'.length →
    (∀ k < l.length, k ∈ ws.map Prod.fst ∨ l[k]? = l'[k]?) → writes ws l = writes ws l'
  | [], l, l', hl, h => by
    have : l = l' := List.ext_getElem? fun k => by
      by_cases hk : k < l.length
      · simpa using h k hk
      · rw [List.getElem?_eq_none (by omega), List.getElem?_eq_none (by omega)]
    rw [this]
  | (i, v) :: ws, l, l', hl, h => by
    rw [writes, writes, hl]
    by_cases hi : i < l'.length
    · rw [if_pos hi, if_pos hi]
      cases v with
      | none => rfl
      | some a =>
        refine writes_congr ws _ _ (by simp [hl]) fun k hk => ?_
        rw [List.length_set] at hk
        by_cases hik : i = k
        · subst hik
          right
          rw [List.getElem?_set_self hk, List.getElem?_set_self hi]
        · rw [List.getElem?_set_ne hik, List.getElem?_set_ne hik]
          rcases h k hk with hm | hm
          · rw [List.map_cons, List.mem_cons] at hm
            rcases hm with rfl | hm
            · exact absurd rfl hik
            · exact Or.inl hm
          · exact Or.inr hm
    · rw [if_neg hi, if_neg hi]

/-- Contents of the table if no index is written twice. -/
theorem writes_get {α : Type} : ∀ (ws : List (Nat × Option α)) (l r : List α), (ws.map Prod.fst).Nodup → writes ws l = some r →
    r.length = l.length ∧ (∀ i v, (i, v) ∈ ws → r[i]? = v) ∧ ∀ k, k ∉ ws.map Prod.fst → r[k]? = l[k]?
  | [], l, r, _, h => by
    rw [writes, Option.some_inj] at h
    subst h
    simp
  | (i, v) :: ws, l, r, hn, h => by
    rw [List.map_cons, List.nodup_cons] at hn
    rw [writes] at h
    by_cases hi : i < l.length
    · rw [if_pos hi] at h
      cases v with
      | none => cases h
      | some a =>
        obtain ⟨h1, h2, h3⟩ := writes_get ws _ r hn.2 h
        rw [List.length_set] at h1
        refine ⟨h1, ?_, fun k hk => ?_⟩
        · intro j b hjb
          rcases List.mem_cons.mp hjb with hjb | hjb
          · cases hjb
            rw [h3 i hn.1, List.getElem?_set_self hi]
          · exact h2 j b hjb
        · rw [List.map_cons, List.mem_cons, not_or] at hk
          rw [h3 k hk.2, List.getElem?_set_ne (Ne.symm hk.1)]
    · rw [if_neg hi] at h
      cases h

theorem size0_eq {C : Content E S} : C.size0 = (C.grid.types.map fun t => C.grid.gsize t * elementLayout C.grid.dim t).sum := rfl

theorem index_setup (w : World H D E S) (h : H) (lay : Layout) (s : S) :
    (setup w h lay).index w s = mapperIndex (w.view h).grid lay s := rfl

theorem update_setup (w w' : World H D E S) (h h' : H) (lay : Layout) : (setup w h lay).update w' h' = setup w' h' lay := rfl

theorem update_lay (w : World H D E S) (h : H) (m : MapperState H) (lay : Layout) (hm : m.lay = lay) :
    m.update w h = setup w h lay := by rw [MapperState.update, hm]

/-- The element mapper numbers the elements of a grid view consecutively: below `size(0)`, ... -/
theorem elemIndex_lt {C : Content E S} (h : C.OK) (e : E) (he : e ∈ C.elems) :
    mapperIndex C.grid (elementLayout C.grid.dim) (C.entity e) < C.size0 := by
  obtain ⟨h1, h2, h3⟩ := h.elemType e he
  have hb := (offset_block C.grid.gsize (elementLayout C.grid.dim) C.grid.types h.typesNodup _ h2).1
  have hl : elementLayout C.grid.dim (C.grid.elemGeo e) = 1 := by simp [elementLayout, h3]
  have := h.idxLt e he
  rw [size0_eq, mapperIndex, h1, hl]
  rw [hl] at hb
  omega

/-- ... injective ... -/
theorem elemIndex_inj {C : Content E S} (h : C.OK) (e : E) (he : e ∈ C.elems) (f : E) (hf : f ∈ C.elems)
    (heq : mapperIndex C.grid (elementLayout C.grid.dim) (C.entity e) = mapperIndex C.grid (elementLayout C.grid.dim) (C.entity f)) :
    e = f := by
  obtain ⟨h1, h2, h3⟩ := h.elemType e he
  obtain ⟨g1, g2, g3⟩ := h.elemType f hf
  have hl : elementLayout C.grid.dim (C.grid.elemGeo e) = 1 := by simp [elementLayout, h3]
  have gl : elementLayout C.grid.dim (C.grid.elemGeo f) = 1 := by simp [elementLayout, g3]
  have hb := (offset_block C.grid.gsize (elementLayout C.grid.dim) C.grid.types h.typesNodup _ h2).2
  have := h.idxLt e he
  have := h.idxLt f hf
  rw [mapperIndex, mapperIndex, h1, g1, hl, gl] at heq
  by_cases ht : C.grid.elemGeo f = C.grid.elemGeo e
  · refine h.idxInj e he f hf ht.symm ?_
    rw [ht] at heq
    omega
  · have := hb _ g2 ht
    rw [hl, gl] at this
    omega

/-- ... and every number is used. -/
theorem elemIndex_surj {C : Content E S} (h : C.OK) (k : Nat) (hk : k < C.size0) :
    ∃ e ∈ C.elems, mapperIndex C.grid (elementLayout C.grid.dim) (C.entity e) = k := by
  obtain ⟨t, ht, h1, h2⟩ := offset_cover C.grid.gsize (elementLayout C.grid.dim) C.grid.types h.typesNodup k hk
  have htd : t.dim = C.grid.dim := by
    by_contra hne
    simp only [elementLayout, if_neg hne] at h1 h2
    omega
  have hl : elementLayout C.grid.dim t = 1 := by simp [elementLayout, htd]
  rw [hl] at h2
  obtain ⟨e, he, het, hei⟩ := h.idxSurj t ht htd (k - offset C.grid.gsize (elementLayout C.grid.dim) C.grid.types t) (by omega)
  refine ⟨e, he, ?_⟩
  rw [mapperIndex, (h.elemType e he).1, het, hl, hei]
  omega

theorem nedelecUpdate_eq {dim : Nat} {w : World H D E S} (hw : w.OK dim) (fixed : Option Geo) (h : H) (m : ElemMap H)
    (hm : m.mapper.lay = elementLayout dim) : nedelecUpdate dim fixed w h m = nedelecMap dim fixed w h := by
  obtain ⟨hC, hd⟩ := hw h
  simp only [nedelecMap, nedelecUpdate, update_setup, update_lay w h _ _ hm, index_setup]
  congr 1
  refine writes_congr _ _ _ (by rw [resize_length, resize_length]) fun k hk => Or.inl ?_
  rw [resize_length] at hk
  obtain ⟨e, he, rfl⟩ := elemIndex_surj hC k hk
  rw [List.map_map, List.mem_map]
  exact ⟨e, he, by rw [hd]; rfl⟩

theorem rtUpdate_eq {dim : Nat} {w : World H D E S} (hw : w.OK dim) (fixed : Option Geo) (h : H) (m : ElemMap H)
    (hm : m.mapper.lay = elementLayout dim) : rtUpdate dim fixed w h m = rtMap dim fixed w h := by
  obtain ⟨hC, hd⟩ := hw h
  simp only [rtMap, rtUpdate, update_setup, update_lay w h _ _ hm, index_setup]
  congr 1
  refine writes_congr _ _ _ (by rw [resize_length, resize_length]) fun k hk => Or.inl ?_
  rw [resize_length] at hk
  obtain ⟨e, he, rfl⟩ := elemIndex_surj hC k hk
  rw [List.map_map, List.mem_map]
  exact ⟨e, he, by rw [hd]; rfl⟩

/-- With a single element type the index set itself numbers the elements. -/
theorem single_size0 {C : Content E S} (h : C.OK) (h1 : C.types0.length ≤ 1) (k : Nat) (hk : k < C.size0) :
    ∃ e ∈ C.elems, C.grid.idx (C.entity e) = k := by
  have key : ∀ ts : List Geo, (ts.map fun t => C.grid.gsize t * if t.dim = C.grid.dim then 1 else 0).sum =
      ((ts.filter fun t => t.dim = C.grid.dim).map C.grid.gsize).sum := by
    intro ts
    induction ts with
    | nil => rfl
    | cons t ts ih =>
      rw [List.map_cons, List.sum_cons, ih, List.filter_cons]
      by_cases ht : t.dim = C.grid.dim <;> simp [ht]
  rw [Content.size0, key] at hk
  unfold Content.types0 at h1
  match hts : C.grid.types.filter fun t => t.dim = C.grid.dim with
  | [] => simp [hts] at hk
  | [t] =>
    rw [hts] at hk
    have ht : t ∈ C.grid.types.filter fun t => t.dim = C.grid.dim := by rw [hts]; simp
    rw [List.mem_filter] at ht
    obtain ⟨e, he, -, hei⟩ := h.idxSurj t ht.1 (by simpa using ht.2) k (by simpa using hk)
    exact ⟨e, he, hei⟩
  | t :: u :: ts => rw [hts] at h1; simp at h1

theorem bdmUpdate_eq {dim : Nat} {w : World H D E S} (hw : w.OK dim) (h : H) (h1 : (w.view h).types0.length ≤ 1) (o o' : List Nat) :
    bdmUpdate w h o = bdmUpdate w h o' := by
  simp only [bdmUpdate]
  refine writes_congr _ _ _ (by rw [resize_length, resize_length]) fun k hk => Or.inl ?_
  rw [resize_length] at hk
  obtain ⟨e, he, rfl⟩ := single_size0 (hw h).1 h1 k hk
  rw [List.map_map, List.mem_map]
  exact ⟨e, he, rfl⟩

/-! ## Proofs: configuration -/

/-- The state belongs to a basis described by `d`: everything that `update` leaves alone. -/
def Conf (dim : Nat) : State H D → Desc D → Prop
  | .mixin s, .mixin lay => s.mapper.lay = lay
  | .lagrange o _ m _, .lagrange o' => o = o' ∧ m.lay = lagrangeLayout o' dim
  | .rannacherTurek _, .rannacherTurek => True
  | .nedelec f b m, .nedelec f' => f = f' ∧ b.mapper.lay = nedelecLayout ∧ m.mapper.lay = elementLayout dim
  | .raviartThomas k f b m, .raviartThomas k' f' =>
    k = k' ∧ f = f' ∧ b.mapper.lay = rtLayout k' dim ∧ m.mapper.lay = elementLayout dim
  | .bdm k b _ _, .bdm k' => k = k' ∧ b.mapper.lay = bdmLayout k' dim
  | .hermite r b v _, .hermite r' => r = r' ∧ b.mapper.lay = FE.hermiteLayout dim r' ∧ v.lay = MeshSize.vertexLayout
  | .argyris b v e _ _, .argyris => b.mapper.lay = FE.argyrisLayout ∧ v.lay = MeshSize.vertexLayout ∧ e.lay = elementLayout dim
  | .morley b m _, .morley => b.mapper.lay = FE.morleyLayout ∧ m.lay = elementLayout dim
  | .bspline c _, .bspline c' => c = c'
  | .taylorHood _ p q, .taylorHood => Conf dim p (.lagrange 1) ∧ Conf dim q (.lagrange 2)
  | .power n s, .power n' d => n = n' ∧ Conf dim s d
  | .compNil, .compNil => True
  | .compCons s t, .compCons d ds => Conf dim s d ∧ Conf dim t ds
  | .transformed τ s, .transformed τ' d => τ = τ' ∧ Conf dim s d
  | .periodic p s _ _, .periodic p' d => p = p' ∧ Conf dim s d
  | .restricted _ s dom, .restricted dom' d => dom = dom' ∧ Conf dim s d
  | _, _ => False

theorem conf_init (dim : Nat) (w : World H D E S) : ∀ (s : State H D) (d : Desc D), Conf dim s d → Conf dim (init w s) d := by
  intro s
  induction s with
  | taylorHood g p q ihp ihq =>
    intro d h
    cases d <;> simp only [Conf] at h
    exact ⟨ihp _ h.1, ihq _ h.2⟩
  | compCons p q ihp ihq =>
    intro d h
    cases d <;> simp only [Conf] at h
    exact ⟨ihp _ h.1, ihq _ h.2⟩
  | power n s ih | transformed n s ih | periodic n s _ _ ih | restricted n s _ ih =>
    intro d h
    cases d <;> simp only [Conf] at h
    exact ⟨h.1, ih _ h.2⟩
  | _ =>
    intro d h
    cases d <;> simp only [Conf, init, Mixin.init] at h ⊢ <;> exact h

theorem conf_lagrange (dim : Nat) (w : World H D E S) (order : Nat) (h : H) (s : State H D)
    (hs : lagrangeConstruct dim w order h = .ok s) : Conf dim s (.lagrange order) := by
  unfold lagrangeConstruct at hs
  split at hs
  · cases hs
  · split at hs
    · cases hs
    · cases hs
      exact ⟨rfl, rfl⟩

/-- A constructed pre-basis is what was asked for. -/
theorem conf_construct (dim : Nat) (w : World H D E S) : ∀ (d : Desc D) (h : H) (s : State H D),
    construct dim w d h = some (.ok s) → Conf dim s d := by
  intro d
  induction d with
  | mixin lay =>
    intro h s hs
    cases hs
    rfl
  | lagrange order =>
    intro h s hs
    exact conf_lagrange dim w order h s (by simpa [construct] using hs)
  | rannacherTurek =>
    intro h s hs
    simp only [construct, Option.some_inj] at hs
    split at hs <;> cases hs
    trivial
  | nedelec f =>
    intro h s hs
    simp only [construct, Option.map_eq_some_iff] at hs
    obtain ⟨m, hm, hs⟩ := hs
    split at hs
    · cases hs
    · split at hs
      · cases hs
      · cases hs
        simp only [nedelecMap, nedelecUpdate, Option.map_eq_some_iff] at hm
        obtain ⟨o, -, rfl⟩ := hm
        exact ⟨rfl, rfl, rfl⟩
  | raviartThomas k f =>
    intro h s hs
    simp only [construct, Option.map_eq_some_iff] at hs
    obtain ⟨m, hm, hs⟩ := hs
    split at hs
    · cases hs
    · split at hs
      · cases hs
      · cases hs
        simp only [rtMap, rtUpdate, Option.map_eq_some_iff] at hm
        obtain ⟨o, -, rfl⟩ := hm
        exact ⟨rfl, rfl, rfl, rfl⟩
  | bdm k =>
    intro h s hs
    simp only [construct, Option.map_eq_some_iff] at hs
    obtain ⟨m, hm, hs⟩ := hs
    split at hs
    · cases hs
    · cases hs
      exact ⟨rfl, rfl⟩
  | hermite r =>
    intro h s hs
    simp only [construct, Option.map_eq_some_iff] at hs
    obtain ⟨m, hm, hs⟩ := hs
    cases hs
    exact ⟨rfl, rfl, rfl⟩
  | argyris =>
    intro h s hs
    simp only [construct, Option.map_eq_some_iff, Option.bind_eq_some_iff] at hs
    obtain ⟨m, hm, o, ho, hs⟩ := hs
    cases hs
    exact ⟨rfl, rfl, rfl⟩
  | morley =>
    intro h s hs
    simp only [construct, Option.map_eq_some_iff] at hs
    obtain ⟨m, hm, hs⟩ := hs
    cases hs
    exact ⟨rfl, rfl⟩
  | bspline c =>
    intro h s hs
    simp only [construct, Option.some_inj] at hs
    split at hs <;> cases hs
    rfl
  | taylorHood =>
    intro h s hs
    simp only [construct, Option.some_inj] at hs
    cases hp : lagrangeConstruct dim w 1 h with
    | error e => rw [hp] at hs; cases hs
    | ok p =>
      rw [hp] at hs
      cases hq : lagrangeConstruct dim w 2 h with
      | error e => rw [hq] at hs; cases hs
      | ok q =>
        rw [hq] at hs
        cases hs
        exact ⟨conf_lagrange dim w 1 h p hp, conf_lagrange dim w 2 h q hq⟩
  | power n d ih | transformed n d ih =>
    intro h s hs
    simp only [construct, Option.map_eq_some_iff] at hs
    obtain ⟨r, hr, hs⟩ := hs
    cases r with
    | error e => cases hs
    | ok t =>
      cases hs
      exact ⟨rfl, ih _ _ hr⟩
  | restricted n d ih =>
    intro h s hs
    simp only [construct, Option.map_eq_some_iff] at hs
    obtain ⟨r, hr, hs⟩ := hs
    cases r with
    | error e => cases hs
    | ok t =>
      cases hs
      exact ⟨rfl, ih _ _ hr⟩
  | compNil =>
    intro h s hs
    cases hs
    trivial
  | compCons d ds ih ihs =>
    intro h s hs
    simp only [construct, Option.bind_eq_some_iff] at hs
    obtain ⟨r, hr, hs⟩ := hs
    cases r with
    | error e => cases hs
    | ok t =>
      simp only [Option.map_eq_some_iff] at hs
      obtain ⟨r', hr', hs⟩ := hs
      cases r' with
      | error e => cases hs
      | ok t' =>
        cases hs
        exact ⟨ih _ _ hr, ihs _ _ hr'⟩
  | periodic p d ih =>
    intro h s hs
    simp only [construct, Option.bind_eq_some_iff] at hs
    obtain ⟨r, hr, hs⟩ := hs
    cases r with
    | error e => cases hs
    | ok t =>
      simp only [Option.map_eq_some_iff, Option.bind_eq_some_iff] at hs
      obtain ⟨n, -, mn, -, hs⟩ := hs
      cases hs
      exact ⟨rfl, conf_init dim w _ _ (ih _ _ hr)⟩

/-- `update` does not change what the basis is, even if it throws. -/
theorem conf_update (dim : Nat) (w : World H D E S) : ∀ (s : State H D) (d : Desc D) (h : H) (o : Out H D),
    Conf dim s d → update dim w h s = some o → Conf dim o.state d := by
  intro s
  induction s with
  | mixin s =>
    intro d h o hc ho
    cases d <;> simp only [Conf] at hc
    cases ho
    exact hc
  | lagrange order g m p =>
    intro d h o hc ho
    cases d <;> simp only [Conf] at hc
    simp only [update, lagrangeUpdate, Option.some_inj] at ho
    split at ho <;> subst ho <;> exact hc
  | rannacherTurek g =>
    intro d h o hc ho
    cases d <;> simp only [Conf] at hc
    cases ho
    trivial
  | bspline c g =>
    intro d h o hc ho
    cases d <;> simp only [Conf] at hc
    cases ho
    exact hc
  | nedelec f b m =>
    intro d h o hc ho
    cases d <;> simp only [Conf] at hc
    simp only [update, nedelecUpdate, Option.map_eq_some_iff] at ho
    obtain ⟨-, ⟨o', -, rfl⟩, rfl⟩ := ho
    exact hc
  | raviartThomas k f b m =>
    intro d h o hc ho
    cases d <;> simp only [Conf] at hc
    simp only [update, rtUpdate, Option.map_eq_some_iff] at ho
    obtain ⟨-, ⟨o', -, rfl⟩, rfl⟩ := ho
    exact hc
  | bdm k b i or =>
    intro d h o hc ho
    cases d <;> simp only [Conf] at hc
    simp only [update, Option.map_eq_some_iff] at ho
    obtain ⟨o', -, rfl⟩ := ho
    exact hc
  | hermite r b v _ =>
    intro d h o hc ho
    cases d <;> simp only [Conf] at hc
    simp only [update, Option.map_eq_some_iff] at ho
    obtain ⟨o', -, rfl⟩ := ho
    exact hc
  | argyris b v e _ _ =>
    intro d h o hc ho
    cases d <;> simp only [Conf] at hc
    simp only [update, Option.map_eq_some_iff, Option.bind_eq_some_iff] at ho
    obtain ⟨s', -, o', -, rfl⟩ := ho
    exact hc
  | morley b m _ =>
    intro d h o hc ho
    cases d <;> simp only [Conf] at hc
    simp only [update, Option.map_eq_some_iff] at ho
    obtain ⟨o', -, rfl⟩ := ho
    exact hc
  | compNil =>
    intro d h o hc ho
    cases d <;> simp only [Conf] at hc
    cases ho
    trivial
  | taylorHood g p q ihp ihq | compCons p q ihp ihq =>
    intro d h o hc ho
    cases d <;> simp only [Conf] at hc
    simp only [update, Option.bind_eq_some_iff] at ho
    obtain ⟨o1, h1, ho⟩ := ho
    have c1 := ihp _ _ _ hc.1 h1
    split at ho
    · cases ho
      exact ⟨c1, hc.2⟩
    · simp only [Option.map_eq_some_iff] at ho
      obtain ⟨o2, h2, rfl⟩ := ho
      exact ⟨c1, ihq _ _ _ hc.2 h2⟩
  | power n s ih | transformed n s ih | periodic n s _ _ ih | restricted n s _ ih =>
    intro d h o hc ho
    cases d <;> simp only [Conf] at hc
    simp only [update, Option.map_eq_some_iff] at ho
    obtain ⟨o1, h1, rfl⟩ := ho
    exact ⟨hc.1, ih _ _ _ hc.2 h1⟩

theorem conf_basisUpdate (dim : Nat) (w : World H D E S) (s : State H D) (d : Desc D) (h : H) (o : Out H D)
    (hc : Conf dim s d) (ho : basisUpdate dim w h s = some o) : Conf dim o.state d := by
  simp only [basisUpdate, Option.map_eq_some_iff] at ho
  obtain ⟨o', h', rfl⟩ := ho
  have := conf_update dim w s d h o' hc h'
  cases o'.error with
  | none => exact conf_init dim w _ _ this
  | some e => exact this

theorem conf_run (dim : Nat) (d : Desc D) : ∀ (hist : List (World H D E S × H)) (s t : State H D),
    Conf dim s d → run dim s hist = some t → Conf dim t d
  | [], s, t, hc, ht => by
    cases ht
    exact hc
  | (w, h) :: hist, s, t, hc, ht => by
    simp only [run, Option.bind_eq_some_iff] at ht
    obtain ⟨o, ho, ht⟩ := ht
    exact conf_run dim d hist _ t (conf_basisUpdate dim w s d h o hc ho) ht

/-! ## C53 -/

/-- Bases without Morley, Taylor–Hood and periodic parts. -/
def Desc.Regular : Desc D → Prop
  | .morley => False
  | .taylorHood => False
  | .periodic _ _ => False
  | .power _ d => d.Regular
  | .compCons d ds => d.Regular ∧ ds.Regular
  | .transformed _ d => d.Regular
  | .restricted _ d => d.Regular
  | _ => True

theorem mixin_init (w : World H D E S) (h : H) (s : Mixin H) (lay : Layout) (hs : s.mapper.lay = lay) :
    (s.update w h).init w = (Mixin.construct w h lay).init w := by
  simp [Mixin.init, Mixin.update, Mixin.construct, MapperState.update, hs, setup]

theorem lagrange_update_eq (dim : Nat) (w : World H D E S) (s s' : State H D) (order : Nat) (h : H) (hc : Conf dim s (.lagrange order))
    (hs : lagrangeConstruct dim w order h = .ok s') : update dim w h s = some ⟨s', none⟩ := by
  cases s <;> simp only [Conf] at hc
  obtain ⟨rfl, hl⟩ := hc
  unfold lagrangeConstruct at hs
  split at hs
  · cases hs
  · rename_i ha
    split at hs
    · cases hs
    · cases hs
      simp [update, lagrangeUpdate, ha, MapperState.update, hl]

/-- `update` leads to the members of a fresh object, up to what `initializeIndices` computes. -/
theorem update_eq {dim : Nat} {w : World H D E S} (hw : w.OK dim) : ∀ (d : Desc D) (h : H) (s s' : State H D), d.Regular →
    Conf dim s d → construct dim w d h = some (.ok s') →
    ∃ t, update dim w h s = some ⟨t, none⟩ ∧ init w t = init w s' := by
  intro d
  induction d with
  | mixin lay =>
    intro h s s' _ hc hs
    cases s <;> simp only [Conf] at hc
    cases hs
    exact ⟨_, rfl, by simp only [init, mixin_init w h _ _ hc]⟩
  | lagrange order =>
    intro h s s' _ hc hs
    exact ⟨s', lagrange_update_eq dim w s s' order h hc (by simpa [construct] using hs), rfl⟩
  | rannacherTurek =>
    intro h s s' _ hc hs
    cases s <;> simp only [Conf] at hc
    simp only [construct, Option.some_inj] at hs
    split at hs <;> cases hs
    exact ⟨_, rfl, rfl⟩
  | nedelec f =>
    intro h s s' _ hc hs
    cases s <;> simp only [Conf] at hc
    obtain ⟨rfl, hb, hm⟩ := hc
    simp only [construct, Option.map_eq_some_iff] at hs
    obtain ⟨m, hm', hs⟩ := hs
    split at hs
    · cases hs
    · split at hs
      · cases hs
      · cases hs
        refine ⟨_, by rw [update, nedelecUpdate_eq hw _ _ _ hm, hm']; rfl, ?_⟩
        simp only [init, mixin_init w h _ _ hb]
  | raviartThomas k f =>
    intro h s s' _ hc hs
    cases s <;> simp only [Conf] at hc
    obtain ⟨rfl, rfl, hb, hm⟩ := hc
    simp only [construct, Option.map_eq_some_iff] at hs
    obtain ⟨m, hm', hs⟩ := hs
    split at hs
    · cases hs
    · split at hs
      · cases hs
      · cases hs
        refine ⟨_, by rw [update, rtUpdate_eq hw _ _ _ hm, hm']; rfl, ?_⟩
        simp only [init, mixin_init w h _ _ hb]
  | bdm k =>
    intro h s s' _ hc hs
    cases s <;> simp only [Conf] at hc
    obtain ⟨rfl, hb⟩ := hc
    simp only [construct, Option.map_eq_some_iff] at hs
    obtain ⟨o, ho, hs⟩ := hs
    split at hs
    · cases hs
    · rename_i hlen
      cases hs
      refine ⟨_, by rw [update, bdmUpdate_eq hw h (by omega) _ (List.replicate (w.view h).size0 0), ho]; rfl, ?_⟩
      simp only [init, mixin_init w h _ _ hb]
  | hermite r =>
    intro h s s' _ hc hs
    cases s <;> simp only [Conf] at hc
    obtain ⟨rfl, hb, hv⟩ := hc
    simp only [construct, Option.map_eq_some_iff] at hs
    obtain ⟨m, hm, hs⟩ := hs
    cases hs
    refine ⟨_, by simp only [update, update_lay w h _ _ hv, hm]; rfl, ?_⟩
    simp only [init, mixin_init w h _ _ hb]
  | argyris =>
    intro h s s' _ hc hs
    cases s <;> simp only [Conf] at hc
    obtain ⟨hb, hv, he⟩ := hc
    simp only [construct, Option.map_eq_some_iff, Option.bind_eq_some_iff] at hs
    obtain ⟨m, hm, o, ho, hs⟩ := hs
    cases hs
    refine ⟨_, by simp only [update, update_lay w h _ _ hv, update_lay w h _ _ he, hm, ho]; rfl, ?_⟩
    simp only [init, mixin_init w h _ _ hb]
  | morley => intro h s s' hr; exact hr.elim
  | taylorHood => intro h s s' hr; exact hr.elim
  | periodic p d ih => intro h s s' hr; exact hr.elim
  | bspline c =>
    intro h s s' _ hc hs
    cases s <;> simp only [Conf] at hc
    simp only [construct, Option.some_inj] at hs
    split at hs <;> cases hs
    subst hc
    exact ⟨_, rfl, rfl⟩
  | power n d ih =>
    intro h s s' hr hc hs
    cases s <;> simp only [Conf] at hc
    obtain ⟨rfl, hc⟩ := hc
    simp only [construct, Option.map_eq_some_iff] at hs
    obtain ⟨r, hr', hs⟩ := hs
    cases r with
    | error e => cases hs
    | ok t =>
      cases hs
      obtain ⟨t', ht, hi⟩ := ih h _ _ hr hc hr'
      exact ⟨_, by rw [update, ht]; rfl, by simp only [init, hi]⟩
  | transformed n d ih =>
    intro h s s' hr hc hs
    cases s <;> simp only [Conf] at hc
    obtain ⟨rfl, hc⟩ := hc
    simp only [construct, Option.map_eq_some_iff] at hs
    obtain ⟨r, hr', hs⟩ := hs
    cases r with
    | error e => cases hs
    | ok t =>
      cases hs
      obtain ⟨t', ht, hi⟩ := ih h _ _ hr hc hr'
      exact ⟨_, by rw [update, ht]; rfl, by simp only [init, hi]⟩
  | restricted n d ih =>
    intro h s s' hr hc hs
    cases s <;> simp only [Conf] at hc
    obtain ⟨rfl, hc⟩ := hc
    simp only [construct, Option.map_eq_some_iff] at hs
    obtain ⟨r, hr', hs⟩ := hs
    cases r with
    | error e => cases hs
    | ok t =>
      cases hs
      obtain ⟨t', ht, hi⟩ := ih _ _ _ hr hc hr'
      exact ⟨_, by rw [update, ht]; rfl, by simp only [init, hi]⟩
  | compNil =>
    intro h s s' _ hc hs
    cases s <;> simp only [Conf] at hc
    cases hs
    exact ⟨_, rfl, rfl⟩
  | compCons d ds ih ihs =>
    intro h s s' hr hc hs
    cases s <;> simp only [Conf] at hc
    simp only [construct, Option.bind_eq_some_iff] at hs
    obtain ⟨r, hr1, hs⟩ := hs
    cases r with
    | error e => cases hs
    | ok t =>
      simp only [Option.map_eq_some_iff] at hs
      obtain ⟨r', hr2, hs⟩ := hs
      cases r' with
      | error e => cases hs
      | ok t' =>
        cases hs
        obtain ⟨u, hu, hi⟩ := ih _ _ _ hr.1 hc.1 hr1
        obtain ⟨u', hu', hi'⟩ := ihs _ _ _ hr.2 hc.2 hr2
        exact ⟨_, by simp only [update, hu, hu', Option.bind_some]; rfl, by simp only [init, hi, hi']⟩

/-- C53: take a basis, constructed on some grid view, update it as often as you like with any grid views while the grids change
(updates may fail). If a new basis can be constructed on a grid view now, then `update` with this grid view succeeds and gives the
state of the new basis. For all bases without Morley, Taylor–Hood and periodic parts (which are missing here; C53 is false for them, see below). -/
theorem C53_partial (dim : Nat) (d : Desc D) (hd : d.Regular) (w₀ : World H D E S) (h₀ : H) (s₀ : State H D)
    (h0 : basisConstruct dim w₀ d h₀ = some (.ok s₀)) (hist : List (World H D E S × H)) (s : State H D)
    (hrun : run dim s₀ hist = some s) (w : World H D E S) (hw : w.OK dim) (h : H) (fresh : State H D)
    (hf : basisConstruct dim w d h = some (.ok fresh)) : basisUpdate dim w h s = some ⟨fresh, none⟩ := by
  have ok : ∀ (w : World H D E S) (h : H) (s : State H D), basisConstruct dim w d h = some (.ok s) →
      ∃ t, construct dim w d h = some (.ok t) ∧ init w t = s := by
    intro w h s hs
    simp only [basisConstruct, Option.map_eq_some_iff] at hs
    obtain ⟨r, hr, hs⟩ := hs
    cases r with
    | error e => cases hs
    | ok t =>
      cases hs
      exact ⟨t, hr, rfl⟩
  obtain ⟨t₀, ht₀, rfl⟩ := ok w₀ h₀ s₀ h0
  obtain ⟨t, ht, rfl⟩ := ok w h fresh hf
  have hc := conf_run dim d hist _ s (conf_init dim w₀ _ _ (conf_construct dim w₀ d h₀ t₀ ht₀)) hrun
  obtain ⟨u, hu, hi⟩ := update_eq hw d h s t hd hc ht
  rw [basisUpdate, hu]
  simp only [Option.map_some, hi]

/-! ### The tables after an update -/

theorem construct_of_basis {dim : Nat} {w : World H D E S} {d : Desc D} {h : H} {s : State H D}
    (hs : basisConstruct dim w d h = some (.ok s)) : ∃ t, construct dim w d h = some (.ok t) ∧ init w t = s := by
  simp only [basisConstruct, Option.map_eq_some_iff] at hs
  obtain ⟨r, hr, hs⟩ := hs
  cases r with
  | error e => cases hs
  | ok t =>
    cases hs
    exact ⟨t, hr, rfl⟩

/-- Contents of a table with one entry per element. -/
theorem table_get {α : Type} {C : Content E S} (hC : C.OK) (val : E → Option α) (l r : List α)
    (hr : writes (C.elems.map fun e => (mapperIndex C.grid (elementLayout C.grid.dim) (C.entity e), val e)) l = some r)
    (e : E) (he : e ∈ C.elems) : r[mapperIndex C.grid (elementLayout C.grid.dim) (C.entity e)]? = val e := by
  refine (writes_get _ _ _ ?_ hr).2.1 _ _ (List.mem_map.mpr ⟨e, he, rfl⟩)
  rw [List.map_map]
  exact hC.elemsNodup.map_on fun a ha b hb hab => elemIndex_inj hC a ha b hb hab

/-- C53, Raviart–Thomas: in the state of a new basis, hence (`C53_partial`) after any history that ends with an update, the look-up
`variants_[orient_[elementMapper_.index(e)]]` (raviartthomasbasis.hh:230-234) gives the finite element to which `C47_raviartThomas` applies. -/
theorem C53_raviartThomas_find (dim k : Nat) (fixed : Option Geo) (w : World H D E S) (hw : w.OK dim) (h : H) (b : Mixin H) (m : ElemMap H)
    (hf : basisConstruct dim w (.raviartThomas k fixed) h = some (.ok (.raviartThomas k fixed b m))) (e : E)
    (he : e ∈ (w.view h).elems) :
    (m.orient[m.mapper.index w ((w.view h).entity e)]?).bind (fun o => (variants dim fixed)[o]?) =
      find dim fixed (fun f => m.mapper.index w ((w.view h).entity f)) e ((w.view h).grid.elemGeo e) ((w.view h).isects e) := by
  obtain ⟨t, ht, hi⟩ := construct_of_basis hf
  obtain ⟨hC, hd⟩ := hw h
  simp only [construct, Option.map_eq_some_iff] at ht
  obtain ⟨m', hm', ht⟩ := ht
  split at ht
  · cases ht
  · split at ht
    · cases ht
    · cases ht
      simp only [init, State.raviartThomas.injEq] at hi
      obtain ⟨-, -, -, rfl⟩ := hi
      simp only [rtMap, rtUpdate, update_setup, index_setup, Option.map_eq_some_iff] at hm'
      obtain ⟨o, ho, rfl⟩ := hm'
      subst hd
      simp only [index_setup, table_get hC _ _ _ ho e he]
      rfl

/-- C53, Nédélec: the same for the look-up in nedelecbasis.hh:117-121 and `C47_nedelec`. -/
theorem C53_nedelec_find (dim : Nat) (fixed : Option Geo) (w : World H D E S) (hw : w.OK dim) (h : H) (b : Mixin H) (m : ElemMap H)
    (hf : basisConstruct dim w (.nedelec fixed) h = some (.ok (.nedelec fixed b m))) (e : E) (he : e ∈ (w.view h).elems) :
    (m.orient[m.mapper.index w ((w.view h).entity e)]?).bind (fun o => (edgeVariants dim fixed)[o]?) =
      nedelecFind dim fixed (fun v => (w.view h).grid.idx ((w.view h).grid.sub e dim v)) ((w.view h).grid.elemGeo e) := by
  obtain ⟨t, ht, hi⟩ := construct_of_basis hf
  obtain ⟨hC, hd⟩ := hw h
  simp only [construct, Option.map_eq_some_iff] at ht
  obtain ⟨m', hm', ht⟩ := ht
  split at ht
  · cases ht
  · split at ht
    · cases ht
    · cases ht
      simp only [init, State.nedelec.injEq] at hi
      obtain ⟨-, -, rfl⟩ := hi
      simp only [nedelecMap, nedelecUpdate, update_setup, index_setup, Option.map_eq_some_iff] at hm'
      obtain ⟨o, ho, rfl⟩ := hm'
      subst hd
      simp only [index_setup, table_get hC _ _ _ ho e he]
      rfl

/-- C53, Argyris: the orientations stored for an element are those of its edges (`C47_edgeOrientations`). -/
theorem C53_argyris_edges (dim : Nat) (w : World H D E S) (hw : w.OK dim) (h : H) (b : Mixin H) (v em : MapperState H) (sz : List ℝ)
    (o : List (List Bool)) (hf : basisConstruct dim w .argyris h = some (.ok (.argyris b v em sz o))) (e : E)
    (he : e ∈ (w.view h).elems) :
    o[em.index w ((w.view h).entity e)]? = some (edgeOrientations fun v => (w.view h).id ((w.view h).grid.sub e 2 v)) := by
  obtain ⟨t, ht, hi⟩ := construct_of_basis hf
  obtain ⟨hC, hd⟩ := hw h
  simp only [construct, Option.map_eq_some_iff, Option.bind_eq_some_iff] at ht
  obtain ⟨sz', -, o', ho', ht⟩ := ht
  cases ht
  simp only [init, State.argyris.injEq] at hi
  obtain ⟨-, -, rfl, -, rfl⟩ := hi
  subst hd
  exact table_get hC _ _ _ ho' e he

/-! ### Taylor–Hood -/

theorem init_lagrange (dim : Nat) (w : World H D E S) (s : State H D) (order : Nat) (hc : Conf dim s (.lagrange order)) :
    init w s = s := by
  cases s <;> simp only [Conf] at hc
  rfl

theorem run_taylorHood (dim : Nat) (g : H) : ∀ (hist : List (World H D E S × H)) (p q s : State H D),
    run dim (.taylorHood g p q) hist = some s → ∃ p' q', s = .taylorHood g p' q'
  | [], p, q, s, h => by
    cases h
    exact ⟨p, q, rfl⟩
  | (w, h) :: hist, p, q, s, hs => by
    simp only [run, basisUpdate, update, Option.bind_eq_some_iff, Option.map_eq_some_iff] at hs
    obtain ⟨o, ⟨o', ⟨o1, h1, h2⟩, rfl⟩, hs⟩ := hs
    cases he : o1.error with
    | some e =>
      rw [he] at h2
      cases h2
      exact run_taylorHood dim g hist _ _ s hs
    | none =>
      rw [he] at h2
      simp only [Option.map_eq_some_iff] at h2
      obtain ⟨o2, -, rfl⟩ := h2
      cases he2 : o2.error with
      | some e =>
        simp only [Out.map, he2] at hs
        exact run_taylorHood dim g hist _ _ s hs
      | none =>
        simp only [Out.map, he2] at hs
        exact run_taylorHood dim g hist _ _ s hs

/-- C53 for the Taylor–Hood basis: after any history both Lagrange parts, and with them all indices and sizes, are those of a new
basis, but `gridView()` is the grid view of the construction. What is missing: the grid view. -/
theorem C53_taylorHood_partial (dim : Nat) (w₀ : World H D E S) (h₀ : H) (s₀ : State H D)
    (h0 : basisConstruct dim w₀ .taylorHood h₀ = some (.ok s₀)) (hist : List (World H D E S × H)) (s : State H D)
    (hrun : run dim s₀ hist = some s) (w : World H D E S) (h : H) (fresh : State H D)
    (hf : basisConstruct dim w .taylorHood h = some (.ok fresh)) :
    ∃ p q, fresh = .taylorHood h p q ∧ basisUpdate dim w h s = some ⟨.taylorHood h₀ p q, none⟩ := by
  have ok : ∀ (w : World H D E S) (h : H) (t : State H D), construct dim w .taylorHood h = some (.ok t) →
      ∃ p q, lagrangeConstruct dim w 1 h = .ok p ∧ lagrangeConstruct dim w 2 h = .ok q ∧ t = .taylorHood h p q := by
    intro w h t ht
    simp only [construct, Option.some_inj] at ht
    cases hp : lagrangeConstruct (D := D) dim w 1 h with
    | error e => rw [hp] at ht; cases ht
    | ok p =>
      rw [hp] at ht
      cases hq : lagrangeConstruct (D := D) dim w 2 h with
      | error e => rw [hq] at ht; cases ht
      | ok q =>
        rw [hq] at ht
        cases ht
        exact ⟨p, q, rfl, rfl, rfl⟩
  obtain ⟨t₀, ht₀, rfl⟩ := construct_of_basis h0
  obtain ⟨t, ht, rfl⟩ := construct_of_basis hf
  have hc := conf_run dim .taylorHood hist _ s (conf_init dim w₀ _ _ (conf_construct dim w₀ _ h₀ t₀ ht₀)) hrun
  obtain ⟨p₀, q₀, -, -, rfl⟩ := ok w₀ h₀ t₀ ht₀
  obtain ⟨p, q, hp, hq, rfl⟩ := ok w h t ht
  obtain ⟨p', q', rfl⟩ := run_taylorHood dim h₀ hist _ _ s hrun
  have ip := init_lagrange dim w p 1 (conf_lagrange dim w 1 h p hp)
  have iq := init_lagrange dim w q 2 (conf_lagrange dim w 2 h q hq)
  refine ⟨p, q, by simp only [init, ip, iq], ?_⟩
  simp only [basisUpdate, update, lagrange_update_eq dim w p' p 1 h hc.1 hp, lagrange_update_eq dim w q' q 2 h hc.2 hq,
    Option.bind_some, Option.map_some, Out.map, init, ip, iq]

/-- C53 is false for the Taylor–Hood basis: after `update` with another grid view, `gridView()` is still the old one. -/
theorem C53_taylorHood_false (dim : Nat) (w₀ : World H D E S) (h₀ : H) (s₀ : State H D)
    (h0 : basisConstruct dim w₀ .taylorHood h₀ = some (.ok s₀)) (w : World H D E S) (h : H) (hne : h ≠ h₀) (fresh : State H D)
    (hf : basisConstruct dim w .taylorHood h = some (.ok fresh)) :
    ∃ s, basisUpdate dim w h s₀ = some ⟨s, none⟩ ∧ s.gridView = some h₀ ∧ fresh.gridView = some h ∧ s ≠ fresh := by
  obtain ⟨p, q, rfl, hu⟩ := C53_taylorHood_partial dim w₀ h₀ s₀ h0 [] s₀ rfl w h fresh hf
  refine ⟨_, hu, rfl, rfl, fun h' => ?_⟩
  cases h'
  exact hne rfl

/-! ### Morley -/

theorem run_morley (dim : Nat) (m : MapperState H) : ∀ (hist : List (World H D E S × H)) (b : Mixin H) (o : List (List Bool)) (s : State H D),
    run dim (.morley b m o) hist = some s → ∃ b' o', s = .morley b' m o'
  | [], b, o, s, h => by
    cases h
    exact ⟨b, o, rfl⟩
  | (w, h) :: hist, b, o, s, hs => by
    simp only [run, basisUpdate, update, Option.bind_eq_some_iff, Option.map_eq_some_iff] at hs
    obtain ⟨o1, ⟨o', ⟨o2, h1, rfl⟩, rfl⟩, hs⟩ := hs
    exact run_morley dim m hist _ _ s hs

/-- All elements are triangles. -/
def Simplicial (C : Content E S) : Prop := ∀ t ∈ C.types0, t = ⟨2, 3⟩

theorem offset_zero (gsize : Geo → Nat) (lay : Layout) (t : Geo) : ∀ ts : List Geo, (∀ u ∈ ts, u ≠ t → lay u = 0) →
    offset gsize lay ts t = 0
  | [], _ => rfl
  | u :: us, h => by
    rw [offset]
    by_cases hu : u = t
    · rw [if_pos hu]
    · rw [if_neg hu, h u (by simp) hu, offset_zero gsize lay t us fun v hv => h v (by simp [hv])]
      rfl

theorem simplicial_offset {w : World H D E S} (hw : w.OK 2) (h : H) (hs : Simplicial (w.view h)) :
    (setup w h (elementLayout 2)).off ⟨2, 3⟩ = 0 := by
  refine offset_zero _ _ _ _ fun u hu hne => ?_
  by_contra hl
  have hd : u.dim = 2 := by
    by_contra hd
    exact hl (if_neg hd)
  exact hne (hs u (List.mem_filter.mpr ⟨hu, by simp [(hw h).2, hd]⟩))

/-- C53 for the Morley basis on triangles, if `update` is called with the grid view of the construction (e.g. the leaf grid view of
a grid that was refined): the stored orientations, the inherited members, and the index the element mapper gives for each element
are those of a new basis. What is missing: the element mapper itself is never updated, see `C53_morley_false`. -/
theorem C53_morley_partial (w₀ : World H D E S) (hw₀ : w₀.OK 2) (h : H) (hs₀ : Simplicial (w₀.view h)) (s₀ : State H D)
    (h0 : basisConstruct 2 w₀ .morley h = some (.ok s₀)) (hist : List (World H D E S × H)) (s : State H D)
    (hrun : run 2 s₀ hist = some s) (w : World H D E S) (hw : w.OK 2) (hs : Simplicial (w.view h)) (fresh : State H D)
    (hf : basisConstruct 2 w .morley h = some (.ok fresh)) :
    ∃ b m m' o, fresh = .morley b m o ∧ basisUpdate 2 w h s = some ⟨.morley b m' o, none⟩ ∧
      ∀ e ∈ (w.view h).elems, m'.index w ((w.view h).entity e) = m.index w ((w.view h).entity e) := by
  obtain ⟨t₀, ht₀, rfl⟩ := construct_of_basis h0
  obtain ⟨t, ht, rfl⟩ := construct_of_basis hf
  have hc := conf_run 2 .morley hist _ s (conf_init 2 w₀ _ _ (conf_construct 2 w₀ _ h t₀ ht₀)) hrun
  simp only [construct, Option.map_eq_some_iff] at ht ht₀
  obtain ⟨o₀, -, ht₀⟩ := ht₀
  obtain ⟨o, ho, ht⟩ := ht
  cases ht₀
  cases ht
  obtain ⟨b', o', rfl⟩ := run_morley 2 _ hist _ _ s hrun
  have hidx : ∀ e ∈ (w.view h).elems, (setup w₀ h (elementLayout 2)).index w ((w.view h).entity e) =
      (setup w h (elementLayout 2)).index w ((w.view h).entity e) := by
    intro e he
    obtain ⟨g1, g2, g3⟩ := (hw h).1.elemType e he
    have hg : (w.view h).grid.elemGeo e = ⟨2, 3⟩ := hs _ (List.mem_filter.mpr ⟨g2, by simpa using g3⟩)
    simp only [MapperState.index]
    have e1 : (setup w₀ h (elementLayout 2)).view = h := rfl
    have e2 : (setup w h (elementLayout 2)).view = h := rfl
    have e3 : (setup w₀ h (elementLayout 2)).lay = (setup w h (elementLayout 2)).lay := rfl
    rw [e1, e2, e3, g1, hg, simplicial_offset hw₀ h hs₀, simplicial_offset hw h hs]
  have hedge : computeEdgeOrientations w (setup w₀ h (elementLayout 2)) = some o := by
    rw [← ho]
    simp only [computeEdgeOrientations]
    congr 1
    refine List.map_congr_left fun e he => ?_
    rw [Prod.mk.injEq]
    exact ⟨hidx e he, rfl⟩
  refine ⟨_, _, _, o, rfl, ?_, hidx⟩
  simp only [basisUpdate, update, hedge, Option.map_some, init, mixin_init w h _ _ hc.1]

/-! ### Periodic bases -/

theorem mixin_init_init (w : World H D E S) (s : Mixin H) : (s.init w).init w = s.init w := rfl

theorem init_init (w : World H D E S) (s : State H D) : init w (init w s) = init w s := by
  induction s with
  | taylorHood g p q ihp ihq | compCons p q ihp ihq => simp only [init, ihp, ihq]
  | power n s ih | transformed n s ih | periodic n s _ _ ih | restricted n s _ ih => simp only [init, ih]
  | _ => rfl

theorem run_periodic (dim : Nat) (p : List (Nat × Nat)) (f : List (Option Nat)) (n : Nat) :
    ∀ (hist : List (World H D E S × H)) (r s : State H D),
    run dim (.periodic p r f n) hist = some s → ∃ r', s = .periodic p r' f n
  | [], r, s, h => by
    cases h
    exact ⟨r, rfl⟩
  | (w, h) :: hist, r, s, hs => by
    simp only [run, basisUpdate, update, Option.bind_eq_some_iff, Option.map_eq_some_iff] at hs
    obtain ⟨o, ⟨o', ⟨o1, h1, rfl⟩, rfl⟩, hs⟩ := hs
    cases he : o1.error with
    | some e =>
      simp only [Out.map, he] at hs
      exact run_periodic dim p f n hist _ s hs
    | none =>
      simp only [Out.map, he] at hs
      exact run_periodic dim p f n hist _ s hs

/-- C53 for periodic bases: the raw basis is updated, the table of the transformation is that of the construction. So the basis
agrees with a new one if the size of the raw basis has not changed. What is missing: changed sizes, see `C53_periodic_false`. -/
theorem C53_periodic_partial (dim : Nat) (pairs : List (Nat × Nat)) (d : Desc D) (hd : d.Regular) (w₀ : World H D E S) (h₀ : H)
    (r₀ : State H D) (f₀ : List (Option Nat)) (n₀ : Nat)
    (h0 : basisConstruct dim w₀ (.periodic pairs d) h₀ = some (.ok (.periodic pairs r₀ f₀ n₀)))
    (hist : List (World H D E S × H)) (s : State H D) (hrun : run dim (.periodic pairs r₀ f₀ n₀) hist = some s)
    (w : World H D E S) (hw : w.OK dim) (h : H) (r : State H D) (f : List (Option Nat)) (n : Nat)
    (hf : basisConstruct dim w (.periodic pairs d) h = some (.ok (.periodic pairs r f n))) :
    basisUpdate dim w h s = some ⟨.periodic pairs r f₀ n₀, none⟩ ∧
    (flatSize w r = flatSize w₀ r₀ → basisUpdate dim w h s = some ⟨.periodic pairs r f n, none⟩) := by
  have ok : ∀ (w : World H D E S) (h : H) (r : State H D) (f : List (Option Nat)) (n : Nat),
      basisConstruct dim w (.periodic pairs d) h = some (.ok (.periodic pairs r f n)) →
      ∃ t, construct dim w d h = some (.ok t) ∧ r = init w t ∧
        (flatSize w (init w t)).bind (fun N => IndexTree.periodicMap N pairs) = some (f, n) := by
    intro w h r f n hs
    obtain ⟨t, ht, hi⟩ := construct_of_basis hs
    simp only [construct, Option.bind_eq_some_iff] at ht
    obtain ⟨x, hx, ht⟩ := ht
    cases x with
    | error e => cases ht
    | ok u =>
      simp only [Option.bind_eq_some_iff, Option.map_eq_some_iff] at ht
      obtain ⟨N, hN, mn, hmn, ht⟩ := ht
      cases ht
      simp only [init, init_init, State.periodic.injEq] at hi
      obtain ⟨-, rfl, rfl, rfl⟩ := hi
      exact ⟨u, hx, rfl, by rw [hN]; exact hmn⟩
  have hc := conf_run dim (.periodic pairs d) hist _ s (by
    obtain ⟨t, ht, hi⟩ := construct_of_basis h0
    rw [← hi]
    exact conf_init dim w₀ _ _ (conf_construct dim w₀ _ h₀ t ht)) hrun
  obtain ⟨r', rfl⟩ := run_periodic dim pairs f₀ n₀ hist _ s hrun
  obtain ⟨t₀, ht₀, rfl, hm₀⟩ := ok w₀ h₀ r₀ f₀ n₀ h0
  obtain ⟨t, ht, rfl, hm⟩ := ok w h r f n hf
  obtain ⟨u, hu, hi⟩ := update_eq hw d h r' t hd hc.2 ht
  have key : basisUpdate dim w h (.periodic pairs r' f₀ n₀) = some ⟨.periodic pairs (init w t) f₀ n₀, none⟩ := by
    simp only [basisUpdate, update, hu, Option.map_some, Out.map, init, hi]
  refine ⟨key, fun hsz => ?_⟩
  rw [hsz, hm₀, Option.some_inj, Prod.mk.injEq] at hm
  rw [key, hm.1, hm.2]

/-! ## Examples and wrong cases -/

/-- A grid of `n` triangles without common vertices. -/
def triangles (n : Nat) : Content Nat (Nat × Nat × Nat) where
  grid := {
    dim := 2
    types := [⟨0, 1⟩, ⟨1, 2⟩, ⟨2, 3⟩]
    gsize := fun t => if t = ⟨2, 3⟩ then n else if t = ⟨1, 2⟩ ∨ t = ⟨0, 1⟩ then 3 * n else 0
    geo := fun s => if s.2.1 = 0 then ⟨2, 3⟩ else if s.2.1 = 1 then ⟨1, 2⟩ else ⟨0, 1⟩
    idx := fun s => if s.2.1 = 0 then s.1 else 3 * s.1 + s.2.2
    refSubs := stdSubs
    elemGeo := fun _ => ⟨2, 3⟩
    sub := fun e c i => (e, c, i) }
  elems := List.range n
  isects := fun _ => []
  vol := fun _ => 1
  id := fun s => if s.1 % 2 = 0 then s.2.2 else 10 - s.2.2

theorem triangles_ok (n : Nat) : (triangles n).OK where
  typesNodup := by simp [triangles]
  elemsNodup := List.nodup_range
  elemType := by intro e _; simp [triangles, Content.entity]
  idxLt := by intro e he; simpa [triangles, Content.entity] using he
  idxInj := by intro e _ e' _ _ h; simpa [triangles, Content.entity] using h
  idxSurj := by
    intro t ht hd k hk
    have : t = ⟨2, 3⟩ := by
      simp only [triangles, List.mem_cons, List.not_mem_nil, or_false] at ht
      rcases ht with rfl | rfl | rfl <;> simp_all [triangles]
    subst this
    exact ⟨k, by simpa [triangles] using hk, rfl, rfl⟩

/-- A world whose grid view number `k` is a grid with `size k` triangles; sub-domain `k` has the grid view `k`. -/
def trianglesWorld (size : Nat → Nat) : World Nat Nat Nat (Nat × Nat × Nat) where
  view := fun k => triangles (size k)
  subDomain := fun k => k

theorem trianglesWorld_ok (size : Nat → Nat) : (trianglesWorld size).OK 2 := fun _ => ⟨triangles_ok _, rfl⟩

/-- C53 is false for the Morley basis: constructed on the first grid view (one triangle) and updated with the second one (two triangles)
the table of orientations has a single entry and the element mapper belongs to the first grid view. A new basis has two entries. -/
theorem C53_morley_false : ∃ s t b b' m m' o o',
    basisConstruct 2 (trianglesWorld fun k => k) .morley 1 = some (.ok s) ∧
    basisUpdate 2 (trianglesWorld fun k => k) 2 s = some ⟨t, none⟩ ∧ t = .morley b m o ∧
    basisConstruct 2 (trianglesWorld fun k => k) .morley 2 = some (.ok (.morley b' m' o')) ∧
    m.view = 1 ∧ m'.view = 2 ∧ o.length = 1 ∧ o'.length = 2 ∧ t.gridView = some 2 :=
  ⟨_, _, _, _, _, _, _, _, rfl, rfl, rfl, rfl, rfl, rfl, rfl, rfl, rfl⟩

/-- With the same grid view the result is right: here the grid is refined from one to two triangles. -/
example : ∃ s t b b' m m' o,
    basisConstruct 2 (trianglesWorld fun _ => 1) .morley 0 = some (.ok s) ∧
    basisUpdate 2 (trianglesWorld fun _ => 2) 0 s = some ⟨t, none⟩ ∧ t = .morley b m o ∧
    basisConstruct 2 (trianglesWorld fun _ => 2) .morley 0 = some (.ok (.morley b' m' o)) ∧
    o = [[false, false, false], [true, true, true]] ∧ m.n = 1 ∧ m'.n = 2 :=
  ⟨_, _, _, _, _, _, _, rfl, rfl, rfl, rfl, rfl, rfl, rfl⟩

/-- C53 is false for periodic bases: Lagrange elements of first order, the grid is refined from one to two triangles. The table of the
transformation has still three entries, so the index of the last vertex is looked up out of bounds, and `size()` is 2 instead of 5. -/
theorem C53_periodic_false : ∃ s r f n r' f' n',
    basisConstruct 2 (trianglesWorld fun _ => 1) (.periodic [(0, 1)] (.lagrange 1)) 0 = some (.ok s) ∧
    basisUpdate 2 (trianglesWorld fun _ => 2) 0 s = some ⟨.periodic [(0, 1)] r f n, none⟩ ∧
    basisConstruct 2 (trianglesWorld fun _ => 2) (.periodic [(0, 1)] (.lagrange 1)) 0 = some (.ok (.periodic [(0, 1)] r' f' n')) ∧
    flatSize (trianglesWorld fun _ => 2) r = some 6 ∧ f[5]? = none ∧ n = 2 ∧ f'[5]? = some (some 4) ∧ n' = 5 :=
  ⟨_, _, _, _, _, _, _, rfl, rfl, rfl, rfl, rfl, rfl, rfl, rfl⟩

/-- A failed and two successful updates of a composite basis. -/
example : ∃ s, basisConstruct 2 (trianglesWorld fun k => k)
      (.compCons (.power 2 (.lagrange 2)) (.compCons (.raviartThomas 0 none) (.compCons (.restricted 1 (.nedelec none)) .compNil))) 3 = some (.ok s) ∧
    ∃ t, run 2 s [(trianglesWorld fun k => k, 5), (trianglesWorld fun k => 2 * k, 1), (trianglesWorld fun k => k, 3)] = some t ∧ t = s :=
  ⟨_, rfl, _, rfl, rfl⟩

/-- One prism. -/
def onePrism : Content Nat (Nat × Nat × Nat) where
  grid := {
    dim := 3
    types := [⟨3, 6⟩]
    gsize := fun t => if t = ⟨3, 6⟩ then 1 else 0
    geo := fun _ => ⟨3, 6⟩
    idx := fun _ => 0
    refSubs := stdSubs
    elemGeo := fun _ => ⟨3, 6⟩
    sub := fun e c i => (e, c, i) }
  elems := [0]
  isects := fun _ => []
  vol := fun _ => 1
  id := fun s => s.2.2

/-- No grid at all and one prism. -/
def prismWorld : World Nat Nat Nat (Nat × Nat × Nat) where
  view := fun k => if k = 0 then ⟨{ onePrism.grid with types := [], gsize := fun _ => 0 }, [], fun _ => [], fun _ => 0, fun _ => 0⟩ else onePrism
  subDomain := fun k => k

/-- The checks of the constructors of Rannacher–Turek, Nédélec and B-spline bases are missing in `update`: it accepts grids (here: a prism
resp. a grid with too many elements) that the constructor refuses. -/
theorem C53_checks_false :
    basisConstruct 3 prismWorld .rannacherTurek 1 = some (.error .notImplemented) ∧
    (∃ s t, basisConstruct 3 prismWorld .rannacherTurek 0 = some (.ok s) ∧ basisUpdate 3 prismWorld 1 s = some ⟨t, none⟩) ∧
    basisConstruct 3 prismWorld (.nedelec none) 1 = some (.error .notImplemented) ∧
    (∃ s t, basisConstruct 3 prismWorld (.nedelec none) 0 = some (.ok s) ∧ basisUpdate 3 prismWorld 1 s = some ⟨t, none⟩) ∧
    basisConstruct 3 prismWorld (.bspline ⟨[0], [5], [2]⟩) 1 = some (.error .assertion) ∧
    (∃ s t, basisConstruct 3 prismWorld (.bspline ⟨[0], [5], [2]⟩) 0 = some (.ok s) ∧ basisUpdate 3 prismWorld 1 s = some ⟨t, none⟩) ∧
    basisConstruct 3 prismWorld (.lagrange 3) 1 = some (.error .rangeError) ∧
    (∃ s, basisConstruct 3 prismWorld (.lagrange 3) 0 = some (.ok s) ∧ basisUpdate 3 prismWorld 1 s = some ⟨s, some .rangeError⟩) :=
  ⟨rfl, ⟨_, _, rfl, rfl⟩, rfl, ⟨_, _, rfl, rfl⟩, rfl, ⟨_, _, rfl, rfl⟩, rfl, ⟨_, rfl, rfl⟩⟩

end Verif.Update

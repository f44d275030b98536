import Verif.GridFunctions.Ancestor
import Verif.GridFunctions.Distance

/-!
# Local functions of grid functions

Model of the local functions in `dune/functions/gridfunctions`: `AnalyticGridViewFunction`, `ComposedGridFunction`,
`FaceNormalGridFunction`, `CoarseFunctionOnFineGridView`, `FineFunctionOnCoarseGridView`, in arbitrary combinations.
-/

namespace Verif.GridFunctions

variable {E X G V K : Type}

/-- What is used of the grid: the hierarchy, children (in the order of iteration), the maximal level, geometries, and the distance
of a point to the reference element of an element. `far` is the largest number. -/
structure Grid (E X G K : Type) where
  H : Hierarchy E X
  children : E → List E
  maxLevel : Nat
  geo : E → X → G
  dist : E → X → K
  far : K

/-- Contract of the grid: levels of fathers and children. -/
structure Grid.OK (g : Grid E X G K) : Prop where
  father : g.H.OK
  child : ∀ e, ∀ c ∈ g.children e, g.H.level c = g.H.level e + 1 ∧ g.H.level c ≤ g.maxLevel

/-- Grid functions. `analytic f`: `f k` is the `k`-th derivative. `other m F`: a local function which stores the bound
element and has derivatives up to order `m`, e.g. discrete functions (C41). `coarse s g` and `fine s g`: the wrappers for `g`
with entity set `s`. -/
inductive GF (E X G V : Type) where
  | analytic (f : Nat → G → V)
  | faceNormal (normal : E → X → V)
  | other (maxOrder : Nat) (F : Nat → E → X → V)
  | composed (outer : List V → V) (inner : List (GF E X G V))
  | coarse (contains : E → Bool) (g : GF E X G V)
  | fine (contains : E → Bool) (g : GF E X G V)

/-! ## Model -/

/-- State of local functions; `k` is the order of the derivative. For analytic functions and face normals: `element_` and the
element of `geometry_` (analyticgridviewfunction.hh:134-135, facenormalgridfunction.hh:156-157). For composed functions:
`innerLocalFunctions_` (composedgridfunction.hh:154). For coarse functions: `element_`, `localFunction_`, and the elements in
`geometryInAncestor_` (coarsefunctiononfinegridview.hh:144-147). For fine functions: `element_`, `localFunction_`,
`forwardToFineFunction_` (finefunctiononcoarsegridview.hh:240-243).

The references to the global function and to entity sets are not modelled; it is assumed that these live longer. -/
inductive LF (E : Type) where
  | geometric (k : Nat) (element geometry : Option E)
  | other (k : Nat) (bound : Option E)
  | composed (inner : List (LF E))
  | coarse (element : Option E) (inner : LF E) (geos : List E)
  | fine (element : Option E) (inner : LF E) (forward : Bool)

inductive LErr where
  | ub
  | notImplemented
  deriving DecidableEq

mutual
/-- `localFunction(f)`: analyticgridviewfunction.hh:55-58, 196-199, composedgridfunction.hh:78-81,
coarsefunctiononfinegridview.hh:78-83, finefunctiononcoarsegridview.hh:141-146. -/
def GF.new : GF E X G V → LF E
  | .analytic _ => .geometric 0 none none
  | .faceNormal _ => .geometric 0 none none
  | .other _ _ => .other 0 none
  | .composed _ gs => .composed (GF.news gs)
  | .coarse _ g => .coarse none g.new []
  | .fine _ g => .fine none g.new false
def GF.news : List (GF E X G V) → List (LF E)
  | [] => []
  | g :: gs => g.new :: GF.news gs
end

/-- The ancestor found by `GeometryInAncestor::bind` and the visited elements (geometryinancestor.hh:119-131), see
`GIA.bind`. The pointers of this object are used in `bind` only, hence they are not part of the state. -/
def ascend (H : Hierarchy E X) (e : E) (c : E → Bool) : Option (E × List E) :=
  (GIA.new.bind H (fun _ => some e) 0 c).bind fun g => (g.coarseElement fun _ => some e).map fun a => (a, g.geos)

mutual
/-- `bind`: analyticgridviewfunction.hh:77-81, facenormalgridfunction.hh:101-105, composedgridfunction.hh:92-97,
coarsefunctiononfinegridview.hh:103-108, finefunctiononcoarsegridview.hh:166-172. -/
def GF.bind (gr : Grid E X G K) : GF E X G V → LF E → E → Except LErr (LF E)
  | .analytic _, .geometric k _ _, e => .ok (.geometric k (some e) (some e))
  | .faceNormal _, .geometric k _ _, e => .ok (.geometric k (some e) (some e))
  | .other _ _, .other k _, e => .ok (.other k (some e))
  | .composed _ gs, .composed ls, e => match GF.binds gr gs ls e with
    | .error r => .error r
    | .ok ls' => .ok (.composed ls')
  | .coarse s g, .coarse _ l _, e => match ascend gr.H e fun e => !s e with
    | none => .error .ub
    | some (a, geos) => match g.bind gr l a with
      | .error r => .error r
      | .ok l' => .ok (.coarse (some e) l' geos)
  | .fine s g, .fine _ l _, e =>
    if s e then match g.bind gr l e with
      | .error r => .error r
      | .ok l' => .ok (.fine (some e) l' true)
    else .ok (.fine (some e) l false)
  | _, _, _ => .error .ub
def GF.binds (gr : Grid E X G K) : List (GF E X G V) → List (LF E) → E → Except LErr (List (LF E))
  | [], [], _ => .ok []
  | g :: gs, l :: ls, e => match g.bind gr l e with
    | .error r => .error r
    | .ok l' => match GF.binds gr gs ls e with
      | .error r => .error r
      | .ok ls' => .ok (l' :: ls')
  | _, _, _ => .error .ub
end

mutual
/-- `unbind`: analyticgridviewfunction.hh:84-87, facenormalgridfunction.hh:107-110, composedgridfunction.hh:100-105,
coarsefunctiononfinegridview.hh:111-114, finefunctiononcoarsegridview.hh:175-178. -/
def LF.unbind : LF E → LF E
  | .geometric k el _ => .geometric k el none
  | .other k _ => .other k none
  | .composed ls => .composed (LF.unbinds ls)
  | .coarse _ l geos => .coarse none l geos
  | .fine _ l fwd => .fine none l fwd
def LF.unbinds : List (LF E) → List (LF E)
  | [] => []
  | l :: ls => l.unbind :: LF.unbinds ls
end

mutual
/-- `bound`: analyticgridviewfunction.hh:91-94, facenormalgridfunction.hh:114-117, composedgridfunction.hh:109-114,
coarsefunctiononfinegridview.hh:117-120, finefunctiononcoarsegridview.hh:181-184. -/
def LF.bound : LF E → Bool
  | .geometric _ _ geometry => geometry.isSome
  | .other _ b => b.isSome
  | .composed ls => LF.bounds ls
  | .coarse el _ _ => el.isSome
  | .fine el _ _ => el.isSome
def LF.bounds : List (LF E) → Bool
  | [] => true
  | l :: ls => l.bound && LF.bounds ls
end

/-- `localContext`: analyticgridviewfunction.hh:112-116, facenormalgridfunction.hh:144-147, composedgridfunction.hh:141-144,
coarsefunctiononfinegridview.hh:123-126, finefunctiononcoarsegridview.hh:187-190. The assertion of analytic functions is not
present for face normals. -/
def LF.localContext : LF E → Option E
  | .geometric _ el geometry => if geometry.isSome then el else none
  | .other _ b => b
  | .composed [] => none
  | .composed (l :: _) => l.localContext
  | .coarse el _ _ => el
  | .fine el _ _ => el

/-- `derivative`: analyticgridviewfunction.hh:126-129 (the state of element and geometry is copied),
composedgridfunction.hh:147-150 and facenormalgridfunction.hh:150-153 (not implemented), coarsefunctiononfinegridview.hh:129-135
with 90-100 (dereferences `element_`), finefunctiononcoarsegridview.hh:193-199 with 153-163; for discrete functions
discreteglobalbasisfunction.hh:374-380 and 630-633. -/
def GF.derivative : GF E X G V → LF E → Except LErr (LF E)
  | .analytic _, .geometric k el geometry => .ok (.geometric (k + 1) el geometry)
  | .faceNormal _, _ => .error .notImplemented
  | .other m _, .other k b => if k < m then .ok (.other (k + 1) b) else .error .notImplemented
  | .composed _ _, _ => .error .notImplemented
  | .coarse _ g, .coarse el l geos => match g.derivative l with
    | .error r => .error r
    | .ok l' => match el with
      | none => .error .ub
      | some e => .ok (.coarse (some e) l' geos)
  | .fine _ g, .fine el l fwd => match g.derivative l with
    | .error r => .error r
    | .ok l' => .ok (.fine el l' fwd)
  | _, _ => .error .ub

section Eval

variable [Zero K] [LT K] [DecidableLT K] [DecidableEq K]

/-- The loop over the children, finefunctiononcoarsegridview.hh:214-230: the closest child so far, the coordinates in this
child, and the distance. -/
def pick (gr : Grid E X G K) (x : X) : List E → Option (E × X) × K → Option (E × X) × K
  | [], acc => acc
  | c :: cs, acc =>
    let xc := gr.H.fromFather c x
    let d := gr.dist c xc
    if d < acc.2 then
      if d = 0 then (some (c, xc), d) else pick gr x cs (some (c, xc), d)
    else pick gr x cs acc

/-- The recursion of `evaluateInDescendent`, finefunctiononcoarsegridview.hh:212-238: the element to which the fine function is
bound, and the point at which it is evaluated. `none` if there is no child: `closestChild` is default constructed. -/
def descend (gr : Grid E X G K) (s : E → Bool) : Nat → E → X → Option (E × X)
  | 0, _, _ => none
  | fuel + 1, e, x => (pick gr x (gr.children e) (none, gr.far)).1.bind fun p =>
      if s p.1 then some p else descend gr s fuel p.1 p.2

mutual
/-- `operator()`: analyticgridviewfunction.hh:105-109, composedgridfunction.hh:125-130, facenormalgridfunction.hh:128-141,
coarsefunctiononfinegridview.hh:138-141, finefunctiononcoarsegridview.hh:202-207. The state is returned, as the local function
stored in fine functions is mutable. -/
def GF.eval (gr : Grid E X G K) : GF E X G V → LF E → X → Except LErr (V × LF E)
  | .analytic f, .geometric k el (some e), x => .ok (f k (gr.geo e x), .geometric k el (some e))
  | .faceNormal N, .geometric k el (some e), x => .ok (N e x, .geometric k el (some e))
  | .other _ F, .other k (some e), x => .ok (F k e x, .other k (some e))
  | .composed o gs, .composed ls, x => match GF.evals gr gs ls x with
    | .error r => .error r
    | .ok (vs, ls') => .ok (o vs, .composed ls')
  | .coarse _ g, .coarse el l geos, x => match g.eval gr l (geos.foldl (fun x e => gr.H.toFather e x) x) with
    | .error r => .error r
    | .ok (v, l') => .ok (v, .coarse el l' geos)
  | .fine s g, .fine el l fwd, x =>
    if fwd then match g.eval gr l x with
      | .error r => .error r
      | .ok (v, l') => .ok (v, .fine el l' fwd)
    else match el.bind fun e => descend gr s (gr.maxLevel + 1 - gr.H.level e) e x with
      | none => .error .ub
      | some (c, xc) => match g.bind gr l c with
        | .error r => .error r
        | .ok l' => match g.eval gr l' xc with
          | .error r => .error r
          | .ok (v, l'') => .ok (v, .fine el l'' fwd)
  | _, _, _ => .error .ub
def GF.evals (gr : Grid E X G K) : List (GF E X G V) → List (LF E) → X → Except LErr (List V × List (LF E))
  | [], [], _ => .ok ([], [])
  | g :: gs, l :: ls, x => match g.eval gr l x with
    | .error r => .error r
    | .ok (v, l') => match GF.evals gr gs ls x with
      | .error r => .error r
      | .ok (vs, ls') => .ok (v :: vs, l' :: ls')
  | _, _, _ => .error .ub
end

/-- Operations on a local function. Local functions do not share data, hence the history of one object consists of the
operations on it and on the objects it is a copy or derivative of. -/
inductive LOp (E X : Type) where
  | bind (e : E)
  | unbind
  /-- continue with a copy -/
  | copy
  /-- continue with the derivative -/
  | derivative
  | eval (x : X)

/-- Run a history; returns the results of all evaluations. -/
def GF.run (gr : Grid E X G K) (g : GF E X G V) : LF E → List (LOp E X) → Except LErr (List V × LF E)
  | l, [] => .ok ([], l)
  | l, .bind e :: ops => match g.bind gr l e with
    | .error r => .error r
    | .ok l' => g.run gr l' ops
  | l, .unbind :: ops => g.run gr l.unbind ops
  | l, .copy :: ops => g.run gr l ops
  | l, .derivative :: ops => match g.derivative l with
    | .error r => .error r
    | .ok l' => g.run gr l' ops
  | l, .eval x :: ops => match g.eval gr l x with
    | .error r => .error r
    | .ok (v, l') => match g.run gr l' ops with
      | .error r => .error r
      | .ok (vs, l'') => .ok (v :: vs, l'')

end Eval

/-! ## Specification -/

section Spec

variable [LinearOrder K]

/-- The element of the fine set `s` that is reached from `e` and `x`, if in each step the first child of minimal
distance is chosen, and the coordinates of the point in this element. -/
inductive Descend (gr : Grid E X G K) (s : E → Bool) : E → X → E → X → Prop
  | here {e : E} {x : X} : s e = true → Descend gr s e x e x
  | down {e c e' : E} {x x' : X} {C1 C2 : List E} : s e = false → gr.children e = C1 ++ c :: C2 →
      gr.dist c (gr.H.fromFather c x) < gr.far →
      (∀ c' ∈ C1, gr.dist c (gr.H.fromFather c x) < gr.dist c' (gr.H.fromFather c' x)) →
      (∀ c' ∈ C2, gr.dist c (gr.H.fromFather c x) ≤ gr.dist c' (gr.H.fromFather c' x)) →
      Descend gr s c (gr.H.fromFather c x) e' x' → Descend gr s e x e' x'

mutual
/-- `v` is the value of the `k`-th derivative of the grid function at the point `x` of the element `e`. -/
def GF.Val (gr : Grid E X G K) : GF E X G V → Nat → E → X → V → Prop
  | .analytic f, k, e, x, v => v = f k (gr.geo e x)
  | .faceNormal N, k, e, x, v => k = 0 ∧ v = N e x
  | .other _ F, k, e, x, v => v = F k e x
  | .composed o gs, k, e, x, v => k = 0 ∧ ∃ vs, GF.Vals gr gs e x vs ∧ v = o vs
  | .coarse s g, k, e, x, v => ∃ a φ ψ, Ancestor gr.H (fun e => !s e) e a φ ψ ∧ g.Val gr k a (φ x) v
  | .fine s g, k, e, x, v => ∃ e' x', Descend gr s e x e' x' ∧ g.Val gr k e' x' v
def GF.Vals (gr : Grid E X G K) : List (GF E X G V) → E → X → List V → Prop
  | [], _, _, vs => vs = []
  | g :: gs, e, x, vs => ∃ v vs', vs = v :: vs' ∧ g.Val gr 0 e x v ∧ GF.Vals gr gs e x vs'
end

mutual
/-- The function is defined on `e`: ancestors and descendants in the entity sets exist. -/
def GF.Dom (gr : Grid E X G K) : GF E X G V → E → Prop
  | .analytic _, _ => True
  | .faceNormal _, _ => True
  | .other _ _, _ => True
  | .composed _ gs, e => GF.Doms gr gs e
  | .coarse s g, e => ∃ a φ ψ, Ancestor gr.H (fun e => !s e) e a φ ψ ∧ g.Dom gr a
  | .fine s g, e => ∀ x, ∃ e' x', Descend gr s e x e' x' ∧ g.Dom gr e'
def GF.Doms (gr : Grid E X G K) : List (GF E X G V) → E → Prop
  | [], _ => True
  | g :: gs, e => g.Dom gr e ∧ GF.Doms gr gs e
end

/-- The next derivative exists: the function is not composed and not a face normal, and the order is admissible. Moreover,
coarse functions must be bound, and coarse functions inside of fine functions are excluded, see
`C54_coarse_derivative_false`. -/
def GF.Derivable : GF E X G V → Nat → Bool → Prop
  | .analytic _, _, _ => True
  | .faceNormal _, _, _ => False
  | .other m _, k, _ => k < m
  | .composed _ _, _, _ => False
  | .coarse _ g, k, b => b = true ∧ g.Derivable k b
  | .fine _ g, k, _ => g.Derivable k false

mutual
/-- Composed functions have at least one inner function. -/
def GF.WF : GF E X G V → Prop
  | .composed _ gs => gs ≠ [] ∧ GF.WFs gs
  | .coarse _ g => g.WF
  | .fine _ g => g.WF
  | _ => True
def GF.WFs : List (GF E X G V) → Prop
  | [] => True
  | g :: gs => g.WF ∧ GF.WFs gs
end

/-- Expected behaviour: order of the derivative and bound element before, operations, results of the evaluations, order and
bound element afterwards. Functions are bound to elements of their domain, and evaluated if they are bound. -/
inductive Expected (gr : Grid E X G K) (g : GF E X G V) : Nat × Option E → List (LOp E X) → List V → Nat × Option E → Prop
  | nil {s : Nat × Option E} : Expected gr g s [] [] s
  | bind {k : Nat} {b : Option E} {e : E} {ops : List (LOp E X)} {vs : List V} {s' : Nat × Option E} : g.Dom gr e →
      Expected gr g (k, some e) ops vs s' → Expected gr g (k, b) (.bind e :: ops) vs s'
  | unbind {k : Nat} {b : Option E} {ops : List (LOp E X)} {vs : List V} {s' : Nat × Option E} :
      Expected gr g (k, none) ops vs s' → Expected gr g (k, b) (.unbind :: ops) vs s'
  | copy {s : Nat × Option E} {ops : List (LOp E X)} {vs : List V} {s' : Nat × Option E} :
      Expected gr g s ops vs s' → Expected gr g s (.copy :: ops) vs s'
  | derivative {k : Nat} {b : Option E} {ops : List (LOp E X)} {vs : List V} {s' : Nat × Option E} : g.Derivable k b.isSome →
      Expected gr g (k + 1, b) ops vs s' → Expected gr g (k, b) (.derivative :: ops) vs s'
  | eval {k : Nat} {e : E} {x : X} {v : V} {ops : List (LOp E X)} {vs : List V} {s' : Nat × Option E} : g.Val gr k e x v →
      Expected gr g (k, some e) ops vs s' → Expected gr g (k, some e) (.eval x :: ops) (v :: vs) s'

end Spec

/-! ## Proof -/

section Proof

variable [Zero K] [LinearOrder K]

theorem pick_spec (gr : Grid E X G K) (h0 : ∀ e x, 0 ≤ gr.dist e x) (x : X) : ∀ (cs : List E) (o : Option (E × X)) (d0 : K),
    ((∀ c ∈ cs, ¬ gr.dist c (gr.H.fromFather c x) < d0) ∧ pick gr x cs (o, d0) = (o, d0)) ∨
    ∃ C1 c C2, cs = C1 ++ c :: C2 ∧ gr.dist c (gr.H.fromFather c x) < d0 ∧
      (∀ c' ∈ C1, gr.dist c (gr.H.fromFather c x) < gr.dist c' (gr.H.fromFather c' x)) ∧
      (∀ c' ∈ C2, gr.dist c (gr.H.fromFather c x) ≤ gr.dist c' (gr.H.fromFather c' x)) ∧
      pick gr x cs (o, d0) = (some (c, gr.H.fromFather c x), gr.dist c (gr.H.fromFather c x)) := by
  intro cs
  induction cs with
  | nil => intro o d0; left; exact ⟨by simp, rfl⟩
  | cons c cs ih =>
    intro o d0
    rw [pick]
    simp only
    by_cases hlt : gr.dist c (gr.H.fromFather c x) < d0
    · right
      rw [if_pos hlt]
      by_cases hz : gr.dist c (gr.H.fromFather c x) = 0
      · rw [if_pos hz]
        exact ⟨[], c, cs, rfl, hlt, by simp, fun c' _ => by rw [hz]; exact h0 _ _, rfl⟩
      · rw [if_neg hz]
        rcases ih (some (c, gr.H.fromFather c x)) (gr.dist c (gr.H.fromFather c x)) with ⟨h1, h2⟩ | ⟨C1, c2, C2, h1, h2, h3, h4, h5⟩
        · exact ⟨[], c, cs, rfl, hlt, by simp, fun c' hc' => not_lt.mp (h1 c' hc'), h2⟩
        · refine ⟨c :: C1, c2, C2, by rw [h1]; rfl, h2.trans hlt, ?_, h4, h5⟩
          intro c' hc'
          rcases List.mem_cons.mp hc' with rfl | hc'
          · exact h2
          · exact h3 c' hc'
    · rw [if_neg hlt]
      rcases ih o d0 with ⟨h1, h2⟩ | ⟨C1, c2, C2, h1, h2, h3, h4, h5⟩
      · left
        refine ⟨?_, h2⟩
        intro c' hc'
        rcases List.mem_cons.mp hc' with rfl | hc'
        · exact hlt
        · exact h1 c' hc'
      · right
        refine ⟨c :: C1, c2, C2, by rw [h1]; rfl, h2, ?_, h4, h5⟩
        intro c' hc'
        rcases List.mem_cons.mp hc' with rfl | hc'
        · exact lt_of_lt_of_le h2 (not_lt.mp hlt)
        · exact h3 c' hc'

omit [Zero K] in
/-- The first element with minimal value is unique. -/
theorem first_unique {α : Type} (f : α → K) {C1 C2 D1 D2 : List α} {c d : α} (h : C1 ++ c :: C2 = D1 ++ d :: D2)
    (hc1 : ∀ a ∈ C1, f c < f a) (hc2 : ∀ a ∈ C2, f c ≤ f a) (hd1 : ∀ a ∈ D1, f d < f a) (hd2 : ∀ a ∈ D2, f d ≤ f a) :
    C1 = D1 ∧ c = d ∧ C2 = D2 := by
  rcases List.append_eq_append_iff.mp h with ⟨a', h1, h2⟩ | ⟨a', h1, h2⟩
  · cases a' with
    | nil => simp at h1 h2; exact ⟨h1.symm, h2.1, h2.2⟩
    | cons b a' =>
      simp at h2
      exfalso
      have h3 : c ∈ D1 := by rw [h1, h2.1]; simp
      have h4 : d ∈ C2 := by rw [h2.2]; simp
      exact absurd (hd1 c h3) (not_lt.mpr (hc2 d h4))
  · cases a' with
    | nil => simp at h1 h2; exact ⟨h1, h2.1.symm, h2.2.symm⟩
    | cons b a' =>
      simp at h2
      exfalso
      have h3 : d ∈ C1 := by rw [h1, h2.1]; simp
      have h4 : c ∈ D2 := by rw [h2.2]; simp
      exact absurd (hc1 d h3) (not_lt.mpr (hd2 c h4))

omit [Zero K] in
theorem Descend.unique {gr : Grid E X G K} {s : E → Bool} {e e1 e2 : E} {x x1 x2 : X} (h : Descend gr s e x e1 x1)
    (h' : Descend gr s e x e2 x2) : e1 = e2 ∧ x1 = x2 := by
  induction h generalizing e2 x2 with
  | here hs =>
    cases h' with
    | here _ => exact ⟨rfl, rfl⟩
    | down hs' _ _ _ _ _ => rw [hs] at hs'; simp at hs'
  | @down e c e' x x' C1 C2 hs hc hf h1 h2 hd ih =>
    cases h' with
    | here hs' => rw [hs] at hs'; simp at hs'
    | @down _ d _ _ _ D1 D2 _ hc' hf' h1' h2' hd' =>
      obtain ⟨_, rfl, _⟩ := first_unique (fun c => gr.dist c (gr.H.fromFather c x)) (hc.symm.trans hc') h1 h2 h1' h2'
      exact ih hd'

theorem descend_eq {gr : Grid E X G K} (hg : gr.OK) (h0 : ∀ e x, 0 ≤ gr.dist e x) {s : E → Bool} {e e' : E} {x x' : X}
    (h : Descend gr s e x e' x') (hs : s e = false) : ∀ fuel, gr.maxLevel < gr.H.level e + fuel →
    descend gr s fuel e x = some (e', x') := by
  induction h with
  | here hs' => rw [hs] at hs'; simp at hs'
  | @down e c e' x x' C1 C2 _ hc hf h1 h2 hd ih =>
    intro fuel hfuel
    obtain ⟨hl1, hl2⟩ := hg.child e c (by rw [hc]; simp)
    obtain ⟨n, rfl⟩ : ∃ n, fuel = n + 1 := ⟨fuel - 1, by omega⟩
    rw [descend]
    rcases pick_spec gr h0 x (gr.children e) none gr.far with ⟨g1, _⟩ | ⟨D1, d, D2, g1, g2, g3, g4, g5⟩
    · exact absurd hf (g1 c (by rw [hc]; simp))
    · obtain ⟨_, rfl, _⟩ := first_unique (fun c => gr.dist c (gr.H.fromFather c x)) (hc.symm.trans g1) h1 h2 g3 g4
      rw [g5]
      simp only [Option.bind_some]
      by_cases hsc : s c = true
      · rw [if_pos hsc]
        obtain ⟨h3, h4⟩ := hd.unique (Descend.here hsc)
        rw [h3, h4]
      · rw [if_neg hsc]
        exact ih (by simpa using hsc) n (by omega)

/-- Existence of the ancestor and the result of `bind`. -/
theorem ascend_eq {H : Hierarchy E X} (hH : H.OK) {c : E → Bool} {e a : E} {φ ψ : X → X} (h : Ancestor H c e a φ ψ) :
    ∃ geos, ascend H e c = some (a, geos) ∧ ∀ x, geos.foldl (fun x e => H.toFather e x) x = φ x := by
  obtain ⟨l, h1, h2, _⟩ := h.chain
  obtain ⟨g, g1, b, l', g2, g3, g4, g5, g6⟩ := gbind_inv hH (fun _ => some e) GIA.new 0 c rfl h1
  have hb := g2.ancestor
  obtain ⟨hab, hφ, _⟩ := hb.unique h
  refine ⟨l', ?_, fun x => by rw [← hφ]⟩
  rw [ascend, g1]
  simp only [Option.bind_some]
  have : g.coarseElement (fun _ => some e) = some a := by
    by_cases hl : l' = []
    · subst hl
      cases g2
      rw [GIA.coarseElement, g5 rfl, ← hab]
      rfl
    · obtain ⟨g7, g8⟩ := g6 hl rfl
      rw [GIA.coarseElement, g7, ← hab, ← g8]
      rfl
  rw [this, g3]
  rfl

mutual
/-- Invariant: `l` is a local function of `g` for the `k`-th derivative, bound as told by `b`. -/
def Rel (gr : Grid E X G K) : GF E X G V → Nat → Option E → LF E → Prop
  | .analytic _, k, b, l => ∃ el, l = .geometric k el b ∧ ∀ e, b = some e → el = some e
  | .faceNormal _, k, b, l => k = 0 ∧ ∃ el, l = .geometric 0 el b ∧ ∀ e, b = some e → el = some e
  | .other _ _, k, b, l => l = .other k b
  | .composed _ gs, k, b, l => k = 0 ∧ ∃ ls, l = .composed ls ∧ Rels gr gs b ls
  | .coarse s g, k, b, l => ∃ l' geos b', l = .coarse b l' geos ∧ Rel gr g k b' l' ∧ ∀ e, b = some e →
      ∃ a φ ψ, b' = some a ∧ Ancestor gr.H (fun e => !s e) e a φ ψ ∧ g.Dom gr a ∧
        ∀ x, geos.foldl (fun x e => gr.H.toFather e x) x = φ x
  | .fine s g, k, b, l => ∃ l' fwd b', l = .fine b l' fwd ∧ Rel gr g k b' l' ∧ ∀ e, b = some e →
      fwd = s e ∧ (s e = true → b' = some e)
def Rels (gr : Grid E X G K) : List (GF E X G V) → Option E → List (LF E) → Prop
  | [], _, ls => ls = []
  | g :: gs, b, ls => ∃ l ls', ls = l :: ls' ∧ Rel gr g 0 b l ∧ Rels gr gs b ls'
end

omit [Zero K] in
mutual
theorem new_rel (gr : Grid E X G K) : ∀ g : GF E X G V, Rel gr g 0 none g.new
  | .analytic _ => ⟨none, rfl, by simp⟩
  | .faceNormal _ => ⟨rfl, none, rfl, by simp⟩
  | .other _ _ => rfl
  | .composed _ gs => ⟨rfl, _, rfl, news_rel gr gs⟩
  | .coarse _ g => ⟨_, _, _, rfl, new_rel gr g, by simp⟩
  | .fine _ g => ⟨_, _, _, rfl, new_rel gr g, by simp⟩
theorem news_rel (gr : Grid E X G K) : ∀ gs : List (GF E X G V), Rels gr gs none (GF.news gs)
  | [] => rfl
  | g :: gs => ⟨_, _, rfl, new_rel gr g, news_rel gr gs⟩
end

omit [Zero K] in
mutual
theorem bind_rel [Nonempty X] {gr : Grid E X G K} (hg : gr.OK) : ∀ (g : GF E X G V) (k : Nat) (b : Option E) (l : LF E) (e : E),
    Rel gr g k b l → g.Dom gr e → ∃ l', g.bind gr l e = .ok l' ∧ Rel gr g k (some e) l'
  | .analytic f, k, b, l, e, h, _ => by
    obtain ⟨el, rfl, _⟩ := h
    exact ⟨_, rfl, _, rfl, by simp⟩
  | .faceNormal f, k, b, l, e, h, _ => by
    obtain ⟨rfl, el, rfl, _⟩ := h
    exact ⟨_, rfl, rfl, _, rfl, by simp⟩
  | .other m F, k, b, l, e, h, _ => by
    obtain rfl := h
    exact ⟨_, rfl, rfl⟩
  | .composed o gs, k, b, l, e, h, hd => by
    obtain ⟨rfl, ls, rfl, h⟩ := h
    obtain ⟨ls', h1, h2⟩ := binds_rel hg gs b ls e h hd
    exact ⟨_, by simp only [GF.bind, h1], rfl, ls', rfl, h2⟩
  | .coarse s g, k, b, l, e, h, hd => by
    obtain ⟨l1, geos, b', rfl, h1, _⟩ := h
    obtain ⟨a, φ, ψ, h2, h3⟩ := hd
    obtain ⟨geos', h4, h5⟩ := ascend_eq hg.father h2
    obtain ⟨l2, h6, h7⟩ := bind_rel hg g k b' l1 a h1 h3
    refine ⟨_, by simp only [GF.bind, h4, h6], l2, geos', some a, rfl, h7, ?_⟩
    rintro e' he
    injection he with he
    subst he
    exact ⟨a, φ, ψ, rfl, h2, h3, h5⟩
  | .fine s g, k, b, l, e, h, hd => by
    obtain ⟨l1, fwd, b', rfl, h1, _⟩ := h
    by_cases hs : s e = true
    · have hde : g.Dom gr e := by
        obtain ⟨e', x', h2, h3⟩ := hd (Classical.arbitrary X)
        obtain ⟨h4, _⟩ := h2.unique (Descend.here hs)
        rw [h4] at h3
        exact h3
      obtain ⟨l2, h2, h3⟩ := bind_rel hg g k b' l1 e h1 hde
      refine ⟨_, by simp only [GF.bind, hs, if_true, h2], l2, true, some e, rfl, h3, ?_⟩
      rintro e' he
      injection he with he
      subst he
      exact ⟨hs.symm, fun _ => rfl⟩
    · refine ⟨_, by simp only [GF.bind, hs]; rfl, l1, false, b', rfl, h1, ?_⟩
      rintro e' he
      injection he with he
      subst he
      exact ⟨by simpa using hs, fun h => absurd h hs⟩
theorem binds_rel [Nonempty X] {gr : Grid E X G K} (hg : gr.OK) : ∀ (gs : List (GF E X G V)) (b : Option E) (ls : List (LF E)) (e : E),
    Rels gr gs b ls → GF.Doms gr gs e → ∃ ls', GF.binds gr gs ls e = .ok ls' ∧ Rels gr gs (some e) ls'
  | [], b, ls, e, h, _ => by
    obtain rfl := h
    exact ⟨_, rfl, rfl⟩
  | g :: gs, b, ls, e, h, hd => by
    obtain ⟨l, ls', rfl, h1, h2⟩ := h
    obtain ⟨l1, h3, h4⟩ := bind_rel hg g 0 b l e h1 hd.1
    obtain ⟨l2, h5, h6⟩ := binds_rel hg gs b ls' e h2 hd.2
    exact ⟨_, by simp only [GF.binds, h3, h5], l1, l2, rfl, h4, h6⟩
end

mutual
theorem eval_rel [Nonempty X] {gr : Grid E X G K} (hg : gr.OK) (h0 : ∀ e x, 0 ≤ gr.dist e x) : ∀ (g : GF E X G V) (k : Nat)
    (e : E) (l : LF E) (x : X) (v : V), Rel gr g k (some e) l → g.Dom gr e → g.Val gr k e x v →
    ∃ l', g.eval gr l x = .ok (v, l') ∧ Rel gr g k (some e) l'
  | .analytic f, k, e, l, x, v, h, _, hv => by
    obtain ⟨el, rfl, h⟩ := h
    obtain rfl := hv
    exact ⟨_, rfl, el, rfl, h⟩
  | .faceNormal f, k, e, l, x, v, h, _, hv => by
    obtain ⟨rfl, el, rfl, h⟩ := h
    obtain ⟨_, rfl⟩ := hv
    exact ⟨_, rfl, rfl, el, rfl, h⟩
  | .other m F, k, e, l, x, v, h, _, hv => by
    obtain rfl := h
    obtain rfl := hv
    exact ⟨_, rfl, rfl⟩
  | .composed o gs, k, e, l, x, v, h, hd, hv => by
    obtain ⟨rfl, ls, rfl, h⟩ := h
    obtain ⟨_, vs, h1, rfl⟩ := hv
    obtain ⟨ls', h2, h3⟩ := evals_rel hg h0 gs e ls x vs h hd h1
    exact ⟨_, by simp only [GF.eval, h2], rfl, ls', rfl, h3⟩
  | .coarse s g, k, e, l, x, v, h, hd, hv => by
    obtain ⟨l1, geos, b', rfl, h1, h2⟩ := h
    obtain ⟨a, φ, ψ, rfl, h3, h4, h5⟩ := h2 e rfl
    obtain ⟨a', φ', ψ', h6, h7⟩ := hv
    obtain ⟨rfl, rfl, _⟩ := h6.unique h3
    obtain ⟨l2, h8, h9⟩ := eval_rel hg h0 g k a' l1 (φ' x) v h1 h4 h7
    exact ⟨_, by simp only [GF.eval, h5, h8], l2, geos, _, rfl, h9, h2⟩
  | .fine s g, k, e, l, x, v, h, hd, hv => by
    obtain ⟨l1, fwd, b', rfl, h1, h2⟩ := h
    obtain ⟨rfl, h3⟩ := h2 e rfl
    obtain ⟨e', x', h4, h5⟩ := hd x
    obtain ⟨e2, x2, h6, h7⟩ := hv
    obtain ⟨rfl, rfl⟩ := h6.unique h4
    by_cases hs : s e = true
    · obtain rfl := h3 hs
      obtain ⟨rfl, rfl⟩ := h6.unique (Descend.here hs)
      obtain ⟨l2, h8, h9⟩ := eval_rel hg h0 g k e2 l1 x2 v h1 h5 h7
      exact ⟨.fine (some e2) l2 true, by simp only [GF.eval, hs, if_true, h8], l2, true, _, rfl, h9, by
        rintro e' he
        injection he with he
        subst he
        exact ⟨hs.symm, fun _ => rfl⟩⟩
    · have hs' : s e = false := by simpa using hs
      have h8 := descend_eq hg h0 h6 hs' (gr.maxLevel + 1 - gr.H.level e) (by omega)
      obtain ⟨l2, h9, h10⟩ := bind_rel hg g k b' l1 e2 h1 h5
      obtain ⟨l3, h11, h12⟩ := eval_rel hg h0 g k e2 l2 x2 v h10 h5 h7
      refine ⟨_, by simp only [GF.eval, hs', Option.bind_some, h8, h9, h11]; rfl, l3, false, some e2, rfl, h12, ?_⟩
      rintro e' he
      injection he with he
      subst he
      exact ⟨hs'.symm, fun h => absurd h hs⟩
theorem evals_rel [Nonempty X] {gr : Grid E X G K} (hg : gr.OK) (h0 : ∀ e x, 0 ≤ gr.dist e x) : ∀ (gs : List (GF E X G V))
    (e : E) (ls : List (LF E)) (x : X) (vs : List V), Rels gr gs (some e) ls → GF.Doms gr gs e → GF.Vals gr gs e x vs →
    ∃ ls', GF.evals gr gs ls x = .ok (vs, ls') ∧ Rels gr gs (some e) ls'
  | [], e, ls, x, vs, h, _, hv => by
    obtain rfl := h
    obtain rfl := hv
    exact ⟨_, rfl, rfl⟩
  | g :: gs, e, ls, x, vs, h, hd, hv => by
    obtain ⟨l, ls', rfl, h1, h2⟩ := h
    obtain ⟨v, vs', rfl, h3, h4⟩ := hv
    obtain ⟨l1, h5, h6⟩ := eval_rel hg h0 g 0 e l x v h1 hd.1 h3
    obtain ⟨l2, h7, h8⟩ := evals_rel hg h0 gs e ls' x vs' h2 hd.2 h4
    exact ⟨_, by simp only [GF.evals, h5, h7], l1, l2, rfl, h6, h8⟩
end

omit [Zero K] in
mutual
theorem unbind_rel (gr : Grid E X G K) : ∀ (g : GF E X G V) (k : Nat) (b : Option E) (l : LF E), Rel gr g k b l →
    Rel gr g k none l.unbind
  | .analytic f, k, b, l, h => by
    obtain ⟨el, rfl, _⟩ := h
    exact ⟨el, by rw [LF.unbind], by simp⟩
  | .faceNormal f, k, b, l, h => by
    obtain ⟨rfl, el, rfl, _⟩ := h
    exact ⟨rfl, el, by rw [LF.unbind], by simp⟩
  | .other m F, k, b, l, h => by
    obtain rfl := h
    show LF.unbind _ = _
    rw [LF.unbind]
  | .composed o gs, k, b, l, h => by
    obtain ⟨rfl, ls, rfl, h⟩ := h
    exact ⟨rfl, _, by rw [LF.unbind], unbinds_rel gr gs b ls h⟩
  | .coarse s g, k, b, l, h => by
    obtain ⟨l1, geos, b', rfl, h1, _⟩ := h
    exact ⟨l1, geos, b', by rw [LF.unbind], h1, by simp⟩
  | .fine s g, k, b, l, h => by
    obtain ⟨l1, fwd, b', rfl, h1, _⟩ := h
    exact ⟨l1, fwd, b', by rw [LF.unbind], h1, by simp⟩
theorem unbinds_rel (gr : Grid E X G K) : ∀ (gs : List (GF E X G V)) (b : Option E) (ls : List (LF E)), Rels gr gs b ls →
    Rels gr gs none (LF.unbinds ls)
  | [], b, ls, h => by
    obtain rfl := h
    show LF.unbinds _ = _
    rw [LF.unbinds]
  | g :: gs, b, ls, h => by
    obtain ⟨l, ls', rfl, h1, h2⟩ := h
    exact ⟨_, _, by rw [LF.unbinds], unbind_rel gr g 0 b l h1, unbinds_rel gr gs b ls' h2⟩
end

omit [Zero K] in
theorem derivative_rel (gr : Grid E X G K) : ∀ (g : GF E X G V) (k : Nat) (b : Option E) (c : Bool) (l : LF E), Rel gr g k b l →
    g.Derivable k c → (c = true → b.isSome = true) → ∃ l', g.derivative l = .ok l' ∧ Rel gr g (k + 1) b l'
  | .analytic f, k, b, c, l, h, _, _ => by
    obtain ⟨el, rfl, h⟩ := h
    exact ⟨_, rfl, el, rfl, h⟩
  | .faceNormal _, k, b, c, l, _, hd, _ => hd.elim
  | .other m F, k, b, c, l, h, hd, _ => by
    obtain rfl := h
    exact ⟨.other (k + 1) b, if_pos hd, rfl⟩
  | .composed _ _, k, b, c, l, _, hd, _ => hd.elim
  | .coarse s g, k, b, c, l, h, hd, hc => by
    obtain ⟨l1, geos, b', rfl, h1, h2⟩ := h
    obtain ⟨rfl, hd⟩ := hd
    obtain ⟨e, rfl⟩ := Option.isSome_iff_exists.mp (hc rfl)
    obtain ⟨a, φ, ψ, rfl, h3⟩ := h2 e rfl
    obtain ⟨l2, h4, h5⟩ := derivative_rel gr g k (some a) true l1 h1 hd (fun _ => rfl)
    exact ⟨_, by simp only [GF.derivative, h4], l2, geos, _, rfl, h5, h2⟩
  | .fine s g, k, b, c, l, h, hd, hc => by
    obtain ⟨l1, fwd, b', rfl, h1, h2⟩ := h
    obtain ⟨l2, h4, h5⟩ := derivative_rel gr g k b' false l1 h1 hd (by simp)
    exact ⟨_, by simp only [GF.derivative, h4], l2, fwd, b', rfl, h5, h2⟩

omit [Zero K] in
mutual
theorem bound_rel (gr : Grid E X G K) : ∀ (g : GF E X G V) (k : Nat) (b : Option E) (l : LF E), Rel gr g k b l → g.WF →
    l.bound = b.isSome ∧ l.localContext = b
  | .analytic f, k, b, l, h, _ => by
    obtain ⟨el, rfl, h⟩ := h
    refine ⟨by rw [LF.bound], ?_⟩
    rw [LF.localContext]
    cases b with
    | none => rfl
    | some e => exact h e rfl
  | .faceNormal f, k, b, l, h, _ => by
    obtain ⟨rfl, el, rfl, h⟩ := h
    refine ⟨by rw [LF.bound], ?_⟩
    rw [LF.localContext]
    cases b with
    | none => rfl
    | some e => exact h e rfl
  | .other m F, k, b, l, h, _ => by
    obtain rfl := h
    exact ⟨by rw [LF.bound], by rw [LF.localContext]⟩
  | .composed o [], k, b, l, h, hw => absurd rfl hw.1
  | .composed o (g :: gs), k, b, l, h, hw => by
    obtain ⟨rfl, ls, rfl, l1, ls', rfl, h1, h2⟩ := h
    obtain ⟨h3, h4⟩ := bound_rel gr g 0 b l1 h1 hw.2.1
    have h5 := bounds_rel gr gs b ls' h2 hw.2.2
    refine ⟨?_, by rw [LF.localContext, h4]⟩
    rw [LF.bound, LF.bounds, h3]
    cases b with
    | none => rfl
    | some e => simpa using h5 rfl
  | .coarse s g, k, b, l, h, _ => by
    obtain ⟨l1, geos, b', rfl, h1, _⟩ := h
    exact ⟨by rw [LF.bound], by rw [LF.localContext]⟩
  | .fine s g, k, b, l, h, _ => by
    obtain ⟨l1, fwd, b', rfl, h1, _⟩ := h
    exact ⟨by rw [LF.bound], by rw [LF.localContext]⟩
theorem bounds_rel (gr : Grid E X G K) : ∀ (gs : List (GF E X G V)) (b : Option E) (ls : List (LF E)), Rels gr gs b ls →
    GF.WFs gs → b.isSome = true → LF.bounds ls = true
  | [], b, ls, h, _, _ => by
    obtain rfl := h
    rw [LF.bounds]
  | g :: gs, b, ls, h, hw, hb => by
    obtain ⟨l, ls', rfl, h1, h2⟩ := h
    rw [LF.bounds, (bound_rel gr g 0 b l h1 hw.1).1, bounds_rel gr gs b ls' h2 hw.2 hb, hb]
    rfl
end

theorem run_rel [Nonempty X] {gr : Grid E X G K} (hg : gr.OK) (h0 : ∀ e x, 0 ≤ gr.dist e x) (g : GF E X G V)
    {s s' : Nat × Option E} {ops : List (LOp E X)} {vs : List V} (h : Expected gr g s ops vs s') :
    ∀ l, Rel gr g s.1 s.2 l → (∀ e, s.2 = some e → g.Dom gr e) →
    ∃ l', g.run gr l ops = .ok (vs, l') ∧ Rel gr g s'.1 s'.2 l' := by
  induction h with
  | nil => intro l hl _; exact ⟨l, rfl, hl⟩
  | bind hd _ ih =>
    intro l hl _
    obtain ⟨l1, h1, h2⟩ := bind_rel hg g _ _ l _ hl hd
    obtain ⟨l2, h3, h4⟩ := ih l1 h2 (by rintro e he; injection he with he; subst he; exact hd)
    exact ⟨l2, by simp only [GF.run, h1, h3], h4⟩
  | unbind _ ih =>
    intro l hl _
    obtain ⟨l2, h3, h4⟩ := ih _ (unbind_rel gr g _ _ l hl) (by simp)
    exact ⟨l2, by simp only [GF.run, h3], h4⟩
  | copy _ ih =>
    intro l hl hd
    obtain ⟨l2, h3, h4⟩ := ih l hl hd
    exact ⟨l2, by simp only [GF.run, h3], h4⟩
  | derivative hd _ ih =>
    intro l hl hdom
    obtain ⟨l1, h1, h2⟩ := derivative_rel gr g _ _ _ l hl hd id
    obtain ⟨l2, h3, h4⟩ := ih l1 h2 hdom
    exact ⟨l2, by simp only [GF.run, h1, h3], h4⟩
  | eval hv _ ih =>
    intro l hl hdom
    obtain ⟨l1, h1, h2⟩ := eval_rel hg h0 g _ _ l _ _ hl (hdom _ rfl) hv
    obtain ⟨l2, h3, h4⟩ := ih l1 h2 hdom
    exact ⟨l2, by simp only [GF.run, h1, h3], h4⟩

/-! ## Theorems -/

/-- C54: for arbitrary combinations of grid functions and arbitrary histories of a local function (binding, unbinding, copying,
taking derivatives, evaluation): every evaluation gives the value, or derivative, of the function at the given point of the
element to which the local function is bound at that time, whatever it has been bound to before, and afterwards `bound` and
`localContext` give this element. -/
theorem C54 [Nonempty X] {gr : Grid E X G K} (hg : gr.OK) (h0 : ∀ e x, 0 ≤ gr.dist e x) (g : GF E X G V) (hw : g.WF)
    {ops : List (LOp E X)} {vs : List V} {k : Nat} {b : Option E} (h : Expected gr g (0, none) ops vs (k, b)) :
    ∃ l, g.run gr g.new ops = .ok (vs, l) ∧ l.bound = b.isSome ∧ l.localContext = b := by
  obtain ⟨l, h1, h2⟩ := run_rel hg h0 g h g.new (new_rel gr g) (by simp)
  exact ⟨l, h1, bound_rel gr g k b l h2 hw⟩

omit [Zero K] in
theorem Descend.mem {gr : Grid E X G K} {s : E → Bool} {e e' : E} {x x' : X} (h : Descend gr s e x e' x') : s e' = true := by
  induction h with
  | here h => exact h
  | down _ _ _ _ _ _ ih => exact ih

omit [Zero K] in
theorem Descend.ancestor {gr : Grid E X G K} (hg : gr.OK) (hf : ∀ e, ∀ c ∈ gr.children e, gr.H.father c = some e) {s : E → Bool}
    {e e' : E} {x x' : X} (h : Descend gr s e x e' x') {m : Nat} (hm : m ≤ gr.H.level e) {a : E} {φ ψ : X → X}
    (ha : Ancestor gr.H (fun b => decide (m < gr.H.level b)) e a φ ψ) :
    ∃ φ' ψ', Ancestor gr.H (fun b => decide (m < gr.H.level b)) e' a φ' ψ' ∧ ∀ y, ψ y = x → ψ' y = x' := by
  induction h generalizing φ ψ with
  | here _ => exact ⟨φ, ψ, ha, fun _ h => h⟩
  | @down e c e' x x' C1 C2 _ hc _ _ _ _ ih =>
    have hmem : c ∈ gr.children e := by rw [hc]; simp
    have hl := (hg.child e c hmem).1
    obtain ⟨φ', ψ', h1, h2⟩ := ih (by omega) (Ancestor.up (by simp; omega) (hf e c hmem) ha)
    refine ⟨φ', ψ', h1, fun y hy => h2 y ?_⟩
    rw [Function.comp_apply, hy]

/-- C45: let `P` be a set of elements and points which contains all that can occur: every element outside of the fine set has a
child, and `P` is preserved by going to a child of minimal distance. Then evaluation at a point `x` of `e` takes place in an
element of the fine set, which is reached by choosing the first child of minimal distance in each step; `e` is an ancestor of this
element, the point of evaluation consists of the local coordinates of `x` in this element, and `x` is recovered from it. -/
theorem C45 {gr : Grid E X G K} (hg : gr.OK) (h0 : ∀ e x, 0 ≤ gr.dist e x) (hf : ∀ e, ∀ c ∈ gr.children e, gr.H.father c = some e)
    (hI : gr.H.Inverse) {s : E → Bool} {P : E → X → Prop}
    (hP : ∀ e x, P e x → s e = false → ∃ c ∈ gr.children e, gr.dist c (gr.H.fromFather c x) < gr.far)
    (hP' : ∀ e x c, P e x → s e = false → c ∈ gr.children e →
      (∀ c' ∈ gr.children e, gr.dist c (gr.H.fromFather c x) ≤ gr.dist c' (gr.H.fromFather c' x)) → P c (gr.H.fromFather c x))
    (e : E) (x : X) (hx : P e x) (hs : s e = false) :
    ∃ e' x', descend gr s (gr.maxLevel + 1 - gr.H.level e) e x = some (e', x') ∧ Descend gr s e x e' x' ∧ s e' = true ∧ P e' x' ∧
      ∃ φ ψ, Ancestor gr.H (fun a => decide (gr.H.level e < gr.H.level a)) e' e φ ψ ∧ ψ x = x' ∧ φ x' = x := by
  have key : ∀ (n : Nat) (e : E) (x : X), gr.maxLevel < gr.H.level e + n → P e x → (s e = true ∨ gr.H.level e ≤ gr.maxLevel ∨ 0 < n) →
      ∃ e' x', Descend gr s e x e' x' ∧ P e' x' := by
    intro n
    induction n with
    | zero =>
      intro e x h1 hx h2
      by_cases hs : s e = true
      · exact ⟨e, x, .here hs, hx⟩
      · rcases h2 with h2 | h2 | h2
        · exact absurd h2 hs
        · omega
        · omega
    | succ n ih =>
      intro e x h1 hx _
      by_cases hs : s e = true
      · exact ⟨e, x, .here hs, hx⟩
      · have hs' : s e = false := by simpa using hs
        rcases pick_spec gr h0 x (gr.children e) none gr.far with ⟨h2, _⟩ | ⟨C1, c, C2, h2, h3, h4, h5, _⟩
        · obtain ⟨c, hc, hc'⟩ := hP e x hx hs'
          exact absurd hc' (h2 c hc)
        · have hmem : c ∈ gr.children e := by rw [h2]; simp
          obtain ⟨hl1, hl2⟩ := hg.child e c hmem
          have hPc := hP' e x c hx hs' hmem (by
            intro c' hc'
            rw [h2] at hc'
            rcases List.mem_append.mp hc' with hc' | hc'
            · exact (h4 c' hc').le
            · rcases List.mem_cons.mp hc' with rfl | hc'
              · exact le_rfl
              · exact h5 c' hc')
          obtain ⟨e', x', h6, h7⟩ := ih c _ (by omega) hPc (Or.inr (Or.inl hl2))
          exact ⟨e', x', .down hs' h2 h3 h4 h5 h6, h7⟩
  obtain ⟨e', x', h1, h2⟩ := key (gr.maxLevel + 1) e x (by omega) hx (Or.inr (Or.inr (by omega)))
  obtain ⟨φ, ψ, h3, h4⟩ := h1.ancestor hg hf le_rfl (Ancestor.here (by simp))
  have h5 : ψ x = x' := h4 x rfl
  refine ⟨e', x', descend_eq hg h0 h1 hs _ (by omega), h1, h1.mem, h2, φ, ψ, h3, h5, ?_⟩
  rw [← h5]
  exact (h3.inverse hI x).2

end Proof

section Cover

variable [Field K] [LinearOrder K] [IsStrictOrderedRing K]

/-- C45, covered fathers: if the children cover the father, i.e. each point of the reference element of an element outside of the
fine set lies in the reference element of some child, then the point of evaluation is inside of the element which is reached.
The distance is the one of C44. -/
theorem C45_inside {gr : Grid E (Nat → K) G K} (hg : gr.OK) (hf : ∀ e, ∀ c ∈ gr.children e, gr.H.father c = some e)
    (hI : gr.H.Inverse) (dim : Nat) (hdim : 0 < dim) (type : E → Nat)
    (hd : ∀ e x, Distance.distance (type e) dim x 1 = some (gr.dist e x)) (hfar : 0 < gr.far) {s : E → Bool}
    (hcover : ∀ e x, s e = false → Distance.Inside (type e) dim 1 x →
      ∃ c ∈ gr.children e, Distance.Inside (type c) dim 1 (gr.H.fromFather c x))
    (e : E) (x : Nat → K) (hx : Distance.Inside (type e) dim 1 x) (hs : s e = false) :
    ∃ e' x', descend gr s (gr.maxLevel + 1 - gr.H.level e) e x = some (e', x') ∧ s e' = true ∧
      Distance.Inside (type e') dim 1 x' ∧
      ∃ φ ψ, Ancestor gr.H (fun a => decide (gr.H.level e < gr.H.level a)) e' e φ ψ ∧ ψ x = x' ∧ φ x' = x := by
  have hdist : ∀ e x, 0 ≤ gr.dist e x ∧ (gr.dist e x = 0 ↔ Distance.Inside (type e) dim 1 x) := by
    intro e x
    obtain ⟨d, h1, h2, h3⟩ := Distance.C44_inside (type e) dim hdim x 1 zero_le_one
    rw [hd e x] at h1
    injection h1 with h1
    rw [h1]
    exact ⟨h2, h3⟩
  obtain ⟨e', x', h1, _, h2, h3, h4⟩ := C45 hg (fun e x => (hdist e x).1) hf hI (s := s)
    (P := fun e x => Distance.Inside (type e) dim 1 x)
    (by
      intro e x hx hs
      obtain ⟨c, h1, h2⟩ := hcover e x hs hx
      exact ⟨c, h1, by rw [(hdist c _).2.mpr h2]; exact hfar⟩)
    (by
      intro e x c hx hs _ hmin
      obtain ⟨c', h1, h2⟩ := hcover e x hs hx
      have h3 := hmin c' h1
      rw [(hdist c' _).2.mpr h2] at h3
      exact (hdist c _).2.mp (le_antisymm h3 (hdist c _).1))
    e x hx hs
  exact ⟨e', x', h1, h2, h3, h4⟩

end Cover

/-- C54 without the exceptions of `GF.Derivable` is false: the derivative of a coarse function that is not bound dereferences an
empty optional. This also happens in the derivative of a fine function of a coarse function, although the former is bound, as the
inner function is bound in the evaluation only. Derivatives of analytic functions that are not bound are fine. Derivatives of
composed functions throw. -/
theorem C54_coarse_derivative_false (gr : Grid E X Int Int) (s t : E → Bool) (f : GF E X Int V) (φ : Nat → Int → V)
    (hf : f = .analytic φ) (e : E) (he : t e = false) (o : List V → V) (gs : List (GF E X Int V)) :
    (GF.coarse s f).run gr (GF.coarse s f).new [.derivative] = .error .ub ∧
    (GF.fine t (.coarse s f)).run gr (GF.fine t (.coarse s f)).new [.bind e, .derivative] = .error .ub ∧
    f.run gr f.new [.derivative] = .ok ([], .geometric 1 none none) ∧
    (GF.composed o gs).run gr (GF.composed o gs).new [.derivative] = .error .notImplemented := by
  subst hf
  refine ⟨rfl, ?_, rfl, rfl⟩
  rw [GF.run]
  simp only [GF.new, GF.bind, he]
  rfl

/-! ## Examples -/

/-- A hierarchy with one child per element, see `exH`. -/
def exGrid : Grid Nat Int Int Int where
  H := exH
  children n := if n < 3 then [n + 1] else []
  maxLevel := 3
  geo e x := x + 100 * e
  dist _ x := min (max x (-x)) 500
  far := 1000

theorem exGrid_OK : exGrid.OK := by
  refine ⟨exH_OK, ?_⟩
  intro e c hc
  simp only [exGrid] at hc ⊢
  split at hc
  · simp only [List.mem_singleton] at hc
    subst hc
    simp only [exH]
    refine ⟨trivial, ?_⟩
    omega
  · simp at hc

theorem exGrid_descend (x : Int) : Descend exGrid (fun e => decide (e = 3)) 1 x 3 (x - (2 : Nat) - (3 : Nat)) := by
  refine Descend.down (c := 2) (C1 := []) (C2 := []) rfl rfl ?_ (by simp) (by simp)
    (Descend.down (c := 3) (C1 := []) (C2 := []) rfl rfl ?_ (by simp) (by simp) (Descend.here rfl)) <;>
  · show min _ _ < (1000 : Int)
    exact lt_of_le_of_lt (min_le_right _ _) (by omega)

/-- A function which lives on element `3`, wrapped such that it can be used on element `1`. -/
def exFine : GF Nat Int Int Int := .fine (fun e => decide (e = 3)) (.other 1 fun k e x => 7 * k + 10 * e + x)

theorem exFine_val (k : Nat) (x : Int) : exFine.Val exGrid k 1 x (7 * k + 25 + x) :=
  ⟨3, _, exGrid_descend x, by simp only [GF.Val]; push_cast; ring⟩

theorem exFine_expected : Expected exGrid exFine (0, none)
    [.bind 1, .eval 9, .derivative, .copy, .bind 3, .eval 5, .bind 1, .eval 6, .unbind] [34, 42, 38] (1, none) :=
  .bind (fun x => ⟨3, _, exGrid_descend x, trivial⟩) (.eval (exFine_val 0 9) (.derivative (by simp [exFine, GF.Derivable])
    (.copy (.bind (fun x => ⟨3, x, .here rfl, trivial⟩) (.eval ⟨3, 5, .here rfl, by simp [GF.Val]⟩
      (.bind (fun x => ⟨3, _, exGrid_descend x, trivial⟩) (.eval (exFine_val 1 6) (.unbind .nil))))))))

/-- The sum of an analytic function and of this function. -/
def exGF : GF Nat Int Int Int := .composed List.sum [.analytic fun k y => (k + 1) * y, exFine]

theorem exGF_expected : Expected exGrid exGF (0, none) [.bind 3, .eval 1, .unbind, .copy, .bind 1, .eval 2] [332, 129]
    (0, some 1) := by
  have hv : ∀ x : Int, exGF.Val exGrid 0 3 x (330 + 2 * x) := fun x =>
    ⟨rfl, [x + 300, 30 + x], ⟨_, _, rfl, by simp [GF.Val, exGrid], _, _, rfl, ⟨3, x, .here rfl, by simp [GF.Val]⟩, rfl⟩, by simp; ring⟩
  have hv' : ∀ x : Int, exGF.Val exGrid 0 1 x (125 + 2 * x) := fun x =>
    ⟨rfl, [x + 100, 7 * (0 : Nat) + 25 + x], ⟨_, _, rfl, by simp [GF.Val, exGrid], _, _, rfl, exFine_val 0 x, rfl⟩, by simp; ring⟩
  exact .bind ⟨trivial, fun x => ⟨3, x, .here rfl, trivial⟩, trivial⟩ (.eval (hv 1) (.unbind (.copy
    (.bind ⟨trivial, fun x => ⟨3, _, exGrid_descend x, trivial⟩, trivial⟩ (.eval (hv' 2) .nil)))))

theorem exGrid_dist (e : Nat) (x : Int) : 0 ≤ exGrid.dist e x := by simp only [exGrid]; omega

example := C54 exGrid_OK exGrid_dist exGF ⟨by simp, trivial, trivial, trivial⟩ exGF_expected
example := C54 exGrid_OK exGrid_dist exFine trivial exFine_expected

example : (exFine.run exGrid exFine.new [.bind 1, .eval 9, .derivative, .copy, .bind 3, .eval 5, .bind 1, .eval 6, .unbind]).toOption.map
    Prod.fst = some [34, 42, 38] := by decide

/-- Bisection of an interval: element `1` is the interval, the children of `n` are `2 n` and `2 n + 1`. -/
def exBisect : Grid Nat (Nat → ℚ) Unit ℚ where
  H := {
    father n := if n ≤ 1 then none else some (n / 2)
    level n := Nat.log2 n
    toFather n x i := (x i + (n % 2 : Nat)) / 2
    fromFather n x i := 2 * x i - (n % 2 : Nat) }
  children n := if n = 0 then [] else if Nat.log2 n < 5 then [2 * n, 2 * n + 1] else []
  maxLevel := 5
  geo _ _ := ()
  dist _ x := (Distance.distance 0 1 x 1).getD 0
  far := 1000

theorem log2_child (n : Nat) (h : 0 < n) (b : Nat) (hb : b < 2) : Nat.log2 (2 * n + b) = Nat.log2 n + 1 := by
  rw [Nat.log2_def, if_pos (by omega), show (2 * n + b) / 2 = n by omega]

theorem exBisect_OK : exBisect.OK := by
  constructor
  · intro e p h
    simp only [exBisect] at h ⊢
    split at h
    · simp at h
    · injection h with h
      have := log2_child p (by omega) (e % 2) (by omega)
      rw [show 2 * p + e % 2 = e by omega] at this
      omega
  · intro e c hc
    simp only [exBisect] at hc ⊢
    split at hc
    · simp at hc
    split at hc
    · have h1 := log2_child e (by omega) 0 (by omega)
      have h2 := log2_child e (by omega) 1 (by omega)
      simp only [List.mem_cons, List.not_mem_nil, or_false, Nat.add_zero] at hc h1
      rcases hc with rfl | rfl <;> omega
    · simp at hc

/-- Every point of the interval is evaluated in some element of level `5`. -/
example (x : Nat → ℚ) (h0 : 0 ≤ x 0) (h1 : x 0 ≤ 1) := C45_inside (gr := exBisect) exBisect_OK
  (by
    intro e c hc
    simp only [exBisect] at hc ⊢
    split at hc
    · simp at hc
    split at hc
    · simp only [List.mem_cons, List.not_mem_nil, or_false] at hc
      rcases hc with rfl | rfl
      · rw [if_neg (by omega)]; congr 1; omega
      · rw [if_neg (by omega)]; congr 1; omega
    · simp at hc)
  (by
    intro e x
    constructor <;> funext i <;> simp only [exBisect] <;> ring)
  1 Nat.one_pos (fun _ => 0) (by intro e x; rw [Distance.distance_one]; simp [exBisect, Distance.distance_one])
  (by simp [exBisect]) (s := fun e => decide (e = 0 ∨ 5 ≤ Nat.log2 e))
  (by
    intro e x hs hx
    have hs : ¬ (e = 0 ∨ 5 ≤ Nat.log2 e) := by simpa using hs
    simp only [Distance.Inside] at hx
    simp only [exBisect, Distance.Inside]
    rw [if_neg (by omega), if_pos (by omega)]
    rcases le_total (x 0) (1 / 2) with h | h
    · refine ⟨2 * e, by simp, ?_⟩
      simp
      constructor <;> linarith [hx.1, hx.2.1]
    · refine ⟨2 * e + 1, by simp, ?_⟩
      rw [show (2 * e + 1) % 2 = 1 by omega]
      simp
      constructor <;> linarith [hx.1, hx.2.1])
  1 x ⟨h0, h1, trivial⟩ (by decide)

end Verif.GridFunctions

import Verif.BSpline.Model
import Mathlib.Algebra.Field.Rat

/-!
# Pre-basis factories: what they keep, and how long it has to live

`BasisFactory::lagrange()`, `power(...)`, `composite(...)`, `bSpline(...)`, `restrict(...)`, ... return function objects that create a
pre-basis when called with a grid view (`makeBasis`, defaultglobalbasis.hh:103-111, 205-209). Almost all of them copy their arguments. The one of
`bSpline` keeps a reference to the knot vector (bsplinebasis.hh:1289-1296), the one of `restrict` a reference to the subdomain
(restrictedbasis.hh:224-233). The model follows programs that create, store, copy, nest and call factories.
-/

namespace Verif.Factories

open BSpline (Dir openKnots)

/-- What factories copy: `L` names of leaf bases with their template and run-time parameters, `S` index merging strategies, `T` index
transformations, `K` the type of knots. -/
structure Sig where
  K : Type
  L : Type
  S : Type
  T : Type

/-- Grid views: of a grid, or of the subdomain stored at an address (subdomain.hh:610-613: the view has a pointer into the subdomain). -/
inductive GV where
  | grid (g : Nat)
  | sub (a : Nat)
  deriving DecidableEq

/-- Pre-bases with what their constructors store. `spline` has `elements_`, `order_` and `knotVectors_` of one direction (all directions are
alike for this constructor). -/
inductive Pre (Q : Sig) where
  | leaf (l : Q.L) (gv : GV)
  | spline (elements : Nat) (d : Dir Q.K) (gv : GV)
  | power (k : Nat) (s : Q.S) (c : Pre Q)
  | composite (s : Q.S) (cs : List (Pre Q))
  | transformed (c : Pre Q) (t : Q.T)
  | periodic (c : Pre Q) (pairs : List (Nat × Nat))
  | restricted (gv : GV) (c : Pre Q) (a : Nat)

/-- Factories. `V` stands for factories used by name, `R` for knot vectors, `D` for subdomains, `B` for bases given to `periodic`.

* `leaf`: lagrangebasis.hh:1006-1028, lagrangedgbasis.hh:155-178, argyrisbasis.hh:935-941, morleybasis.hh:671-677,
  cubichermitebasis.hh:802-824, brezzidouglasmarinibasis.hh:284-290, nedelecbasis.hh:272-279, raviartthomasbasis.hh:385-391,
  rannacherturekbasis.hh:205-211, refinedlagrangebasis.hh:201-207, taylorhoodbasis.hh:329-335, hierarchicallagrangebasis.hh:92-98,
  hierarchicallagrangewithelementbubblebasis.hh:90-96: capture nothing, or numbers by value
* `spline`: bsplinebasis.hh:1289-1296
* `power`: powerbasis.hh:140-171, dynamicpowerbasis.hh:409-440, capture the child by value
* `composite`: compositebasis.hh:349-380, 396-445, a `std::tuple` of copies
* `transform`: transformedindexbasis.hh:196-207, captures by value; `std::move` of a member of a constant lambda copies
* `periodic`, `periodicOf`: periodicbasis.hh:139-184, 202-211, members are copies; a basis or pre-basis is copied when the factory is made
* `restrict`: restrictedbasis.hh:224-233 -/
inductive Fac (Q : Sig) (V R D B : Type) where
  | stored (v : V)
  | leaf (l : Q.L)
  | spline (r : R) (order : Nat) (makeOpen : Bool)
  | power (k : Nat) (s : Q.S) (c : Fac Q V R D B)
  | composite (s : Q.S) (cs : List (Fac Q V R D B))
  | transform (c : Fac Q V R D B) (t : Q.T)
  | periodic (c : Fac Q V R D B) (pairs : List (Nat × Nat))
  | periodicOf (b : B) (pairs : List (Nat × Nat))
  | restrict (c : Fac Q V R D B) (d : D)

/-- Arguments bound to a `const&` parameter: a variable, given by its address, or a temporary. -/
inductive Arg (A : Type) where
  | var (x : Nat)
  | temp (a : A)

/-- Function objects: references are addresses. -/
abbrev Clo (Q : Sig) := Fac Q Empty Nat Nat (Pre Q)

/-- Expressions of a program: stored factories and bases are given by their numbers. -/
abbrev Expr (Q : Sig) := Fac Q Nat (Arg (List Q.K)) (Arg Unit) Nat

/-- Descriptions: knots are written out. -/
abbrev Val (Q : Sig) := Fac Q Empty (List Q.K) Nat (Pre Q)

/-- Objects factories may refer to. -/
inductive Obj (Q : Sig) where
  | knots (v : List Q.K)
  | subDomain

/-- Objects by address, `none` after the end of their lifetime. Addresses are never used twice. -/
abbrev Mem (Q : Sig) := List (Option (Obj Q))

section
variable {Q : Sig}

/-- Reading a vector through a reference. -/
def readK (m : Mem Q) (a : Nat) : Option (List Q.K) :=
  match m[a]? with
  | some (some (.knots v)) => some v
  | _ => none

/-- There is a subdomain. -/
def isSub (m : Mem Q) (a : Nat) : Bool :=
  match m[a]? with
  | some (some .subDomain) => true
  | _ => false

/-- Constructor of `BSplinePreBasis` from a vector, bsplinebasis.hh:597-625. It reads the first and last knot, and `size() - 1`: `none` for
an empty vector. -/
def splinePre [Field Q.K] (v : List Q.K) (order : Nat) (makeOpen : Bool) (gv : GV) : Option (Pre Q) :=
  if v = [] then none else some (.spline (v.length - 1) ⟨order, openKnots order makeOpen v⟩ gv)

variable {V R D B : Type}

mutual

/-- Calling a factory with a grid view. `rd` reads knots, `al` says where the subdomain is, if there is one. -/
def callWith [Field Q.K] (rd : R → Option (List Q.K)) (al : D → Option Nat) : Fac Q Empty R D (Pre Q) → GV → Option (Pre Q)
  | .stored v, _ => v.elim
  | .leaf l, gv => some (.leaf l gv)
  | .spline r p o, gv => (rd r).bind fun v => splinePre v p o gv
  | .power k s c, gv => (callWith rd al c gv).map (.power k s)
  | .composite s cs, gv => (callAllWith rd al cs gv).map (.composite s)
  | .transform c t, gv => (callWith rd al c gv).map (.transformed · t)
  | .periodic c p, gv => (callWith rd al c gv).map (.periodic · p)
  | .periodicOf b p, _ => some (.periodic b p)
  | .restrict c d, gv => (al d).bind fun a => (callWith rd al c (.sub a)).map (.restricted gv · a)

/-- The children of `composite`. -/
def callAllWith [Field Q.K] (rd : R → Option (List Q.K)) (al : D → Option Nat) :
    List (Fac Q Empty R D (Pre Q)) → GV → Option (List (Pre Q))
  | [], _ => some []
  | c :: cs, gv => (callWith rd al c gv).bind fun p => (callAllWith rd al cs gv).map (p :: ·)

end

/-- Subdomains of a memory. -/
def subAt (m : Mem Q) (a : Nat) : Option Nat := if isSub m a then some a else none

/-- Calling a function object: `none` if it uses an object that does not exist any more. -/
def call [Field Q.K] (m : Mem Q) (f : Clo Q) (gv : GV) : Option (Pre Q) := callWith (readK m) (subAt m) f gv

/-- The pre-basis a description stands for. Knots are part of it; subdomains have to exist. -/
def described [Field Q.K] (m : Mem Q) (v : Val Q) (gv : GV) : Option (Pre Q) := callWith some (subAt m) v gv

/-- Addresses in a grid view. -/
def GV.subs : GV → List Nat
  | .grid _ => []
  | .sub a => [a]

mutual

/-- Subdomains a pre-basis refers to: by grid views and by `subDomainPtr_`, restrictedbasis.hh:107-111, 200. -/
def Pre.subs : Pre Q → List Nat
  | .leaf _ gv => gv.subs
  | .spline _ _ gv => gv.subs
  | .power _ _ c => c.subs
  | .composite _ cs => Pre.allSubs cs
  | .transformed c _ => c.subs
  | .periodic c _ => c.subs
  | .restricted gv c a => a :: (gv.subs ++ c.subs)

def Pre.allSubs : List (Pre Q) → List Nat
  | [] => []
  | c :: cs => c.subs ++ Pre.allSubs cs

end

/-! ## Programs -/

/-- What a program has made. -/
structure State (Q : Sig) where
  mem : Mem Q := []
  facs : List (Option (Clo Q)) := []
  bases : List (Pre Q) := []

mutual

/-- Evaluation of a factory expression: the function object, and the memory with all temporaries of the expression. Naming an object
that does not exist is not a program (`none`). -/
def build (facs : List (Option (Clo Q))) (bases : List (Pre Q)) : Expr Q → Mem Q → Option (Clo Q × Mem Q)
  | .stored f, m => (facs[f]?.join).map (·, m)
  | .leaf l, m => some (.leaf l, m)
  | .spline (.var x) p o, m => if (readK m x).isSome then some (.spline x p o, m) else none
  | .spline (.temp v) p o, m => some (.spline m.length p o, m ++ [some (.knots v)])
  | .power k s c, m => (build facs bases c m).map fun r => (.power k s r.1, r.2)
  | .composite s cs, m => (buildAll facs bases cs m).map fun r => (.composite s r.1, r.2)
  | .transform c t, m => (build facs bases c m).map fun r => (.transform r.1 t, r.2)
  | .periodic c p, m => (build facs bases c m).map fun r => (.periodic r.1 p, r.2)
  | .periodicOf b p, m => bases[b]?.map fun q => (.periodicOf q p, m)
  | .restrict c (.var x), m => if isSub m x then (build facs bases c m).map fun r => (.restrict r.1 x, r.2) else none
  | .restrict c (.temp _), m => (build facs bases c m).map fun r => (.restrict r.1 r.2.length, r.2 ++ [some .subDomain])

def buildAll (facs : List (Option (Clo Q))) (bases : List (Pre Q)) : List (Expr Q) → Mem Q → Option (List (Clo Q) × Mem Q)
  | [], m => some ([], m)
  | c :: cs, m => (build facs bases c m).bind fun r => (buildAll facs bases cs r.2).map fun rs => (r.1 :: rs.1, rs.2)

end

/-- Statements. -/
inductive Op (Q : Sig) where
  /-- `std::vector<double> x = v;` -/
  | vec (v : List Q.K)
  /-- `SubDomain x(gridView);` -/
  | sub
  /-- `x = v;`, also `x[i] = ...` and `x.push_back(...)` -/
  | set (x : Nat) (v : List Q.K)
  /-- the scope of `x` ends -/
  | destroy (x : Nat)
  /-- `auto f = e;` -/
  | keep (e : Expr Q)
  /-- the scope of `f` ends -/
  | drop (f : Nat)
  /-- `auto basis = makeBasis(gridView, e);` -/
  | make (e : Expr Q) (g : Nat)
  /-- any use of a basis -/
  | use (b : Nat)

/-- End of a full expression: temporaries are destroyed. `m` is the memory before. -/
def endTemps (m m' : Mem Q) : Mem Q := m ++ List.replicate (m'.length - m.length) none

/-- One statement; `none` is undefined behaviour (or not a program). -/
def step [Field Q.K] (σ : State Q) : Op Q → Option (State Q)
  | .vec v => some { σ with mem := σ.mem ++ [some (.knots v)] }
  | .sub => some { σ with mem := σ.mem ++ [some .subDomain] }
  | .set x v => if (readK σ.mem x).isSome then some { σ with mem := σ.mem.set x (some (.knots v)) } else none
  | .destroy x => if (readK σ.mem x).isSome || isSub σ.mem x then some { σ with mem := σ.mem.set x none } else none
  | .keep e => (build σ.facs σ.bases e σ.mem).map fun r =>
      { σ with mem := endTemps σ.mem r.2, facs := σ.facs ++ [some r.1] }
  | .drop f => if (σ.facs[f]?.join).isSome then some { σ with facs := σ.facs.set f none } else none
  | .make e g => (build σ.facs σ.bases e σ.mem).bind fun r => (call r.2 r.1 (.grid g)).map fun p =>
      { σ with mem := endTemps σ.mem r.2, bases := σ.bases ++ [p] }
  | .use b => σ.bases[b]?.bind fun p => if p.subs.all (isSub σ.mem) then some σ else none

/-- A whole program. -/
def run [Field Q.K] : State Q → List (Op Q) → Option (State Q)
  | σ, [] => some σ
  | σ, op :: ops => (step σ op).bind fun σ' => run σ' ops

/-! ## Specification: factories are values -/

/-- What a program has made, with factories as descriptions. `deps` are the vectors the description was read from. -/
structure Ideal (Q : Sig) where
  mem : Mem Q := []
  facs : List (Option (Val Q × List Nat)) := []
  bases : List (Pre Q) := []

mutual

/-- Number of temporaries. -/
def temps : Expr Q → Nat
  | .stored _ => 0
  | .leaf _ => 0
  | .spline (.var _) _ _ => 0
  | .spline (.temp _) _ _ => 1
  | .power _ _ c => temps c
  | .composite _ cs => tempsAll cs
  | .transform c _ => temps c
  | .periodic c _ => temps c
  | .periodicOf _ _ => 0
  | .restrict c (.var _) => temps c
  | .restrict c (.temp _) => temps c + 1

def tempsAll : List (Expr Q) → Nat
  | [] => 0
  | c :: cs => temps c + tempsAll cs

end

mutual

/-- The description an expression stands for at the time of its evaluation: names are replaced by contents. Temporary subdomains have no
description. -/
def describe (m : Mem Q) (facs : List (Option (Val Q × List Nat))) (bases : List (Pre Q)) : Expr Q → Option (Val Q × List Nat)
  | .stored f => facs[f]?.join
  | .leaf l => some (.leaf l, [])
  | .spline (.var x) p o => (readK m x).map fun v => (.spline v p o, [x])
  | .spline (.temp v) p o => some (.spline v p o, [])
  | .power k s c => (describe m facs bases c).map fun r => (.power k s r.1, r.2)
  | .composite s cs => (describeAll m facs bases cs).map fun r => (.composite s r.1, r.2)
  | .transform c t => (describe m facs bases c).map fun r => (.transform r.1 t, r.2)
  | .periodic c p => (describe m facs bases c).map fun r => (.periodic r.1 p, r.2)
  | .periodicOf b p => bases[b]?.map fun q => (.periodicOf q p, [])
  | .restrict c (.var x) => if isSub m x then (describe m facs bases c).map fun r => (.restrict r.1 x, r.2) else none
  | .restrict _ (.temp _) => none

def describeAll (m : Mem Q) (facs : List (Option (Val Q × List Nat))) (bases : List (Pre Q)) :
    List (Expr Q) → Option (List (Val Q) × List Nat)
  | [] => some ([], [])
  | c :: cs => (describe m facs bases c).bind fun r => (describeAll m facs bases cs).map fun rs => (r.1 :: rs.1, r.2 ++ rs.2)

end

/-- After a vector has been changed or destroyed, factories that refer to it may not be called any more. -/
def invalidate (x : Nat) (facs : List (Option (Val Q × List Nat))) : List (Option (Val Q × List Nat)) :=
  facs.map fun o => o.bind fun f => if x ∈ f.2 then none else some f

/-- One statement if factories are descriptions. Temporaries may be used in `makeBasis(...)`, but not in stored factories; the basis is
what the description says. -/
def idealStep [Field Q.K] (ρ : Ideal Q) : Op Q → Option (Ideal Q)
  | .vec v => some { ρ with mem := ρ.mem ++ [some (.knots v)] }
  | .sub => some { ρ with mem := ρ.mem ++ [some .subDomain] }
  | .set x v => if (readK ρ.mem x).isSome then
      some { ρ with mem := ρ.mem.set x (some (.knots v)), facs := invalidate x ρ.facs } else none
  | .destroy x => if (readK ρ.mem x).isSome || isSub ρ.mem x then
      some { ρ with mem := ρ.mem.set x none, facs := invalidate x ρ.facs } else none
  | .keep e => if temps e = 0 then (describe ρ.mem ρ.facs ρ.bases e).map fun r => { ρ with facs := ρ.facs ++ [some r] } else none
  | .drop f => if (ρ.facs[f]?.join).isSome then some { ρ with facs := ρ.facs.set f none } else none
  | .make e g => (describe ρ.mem ρ.facs ρ.bases e).bind fun r => (described ρ.mem r.1 (.grid g)).map fun p =>
      { ρ with mem := ρ.mem ++ List.replicate (temps e) none, bases := ρ.bases ++ [p] }
  | .use b => ρ.bases[b]?.bind fun p => if p.subs.all (isSub ρ.mem) then some ρ else none

def idealRun [Field Q.K] : Ideal Q → List (Op Q) → Option (Ideal Q)
  | ρ, [] => some ρ
  | ρ, op :: ops => (idealStep ρ op).bind fun ρ' => idealRun ρ' ops

/-! ## Lemmas -/

mutual

/-- Reading all knots of a function object. -/
def resolve (m : Mem Q) : Clo Q → Option (Val Q)
  | .stored v => v.elim
  | .leaf l => some (.leaf l)
  | .spline a p o => (readK m a).map (.spline · p o)
  | .power k s c => (resolve m c).map (.power k s)
  | .composite s cs => (resolveAll m cs).map (.composite s)
  | .transform c t => (resolve m c).map (.transform · t)
  | .periodic c p => (resolve m c).map (.periodic · p)
  | .periodicOf b p => some (.periodicOf b p)
  | .restrict c a => (resolve m c).map (.restrict · a)

def resolveAll (m : Mem Q) : List (Clo Q) → Option (List (Val Q))
  | [] => some []
  | c :: cs => (resolve m c).bind fun v => (resolveAll m cs).map (v :: ·)

end

mutual

/-- Addresses of vectors in a function object. -/
def vecs : Clo Q → List Nat
  | .stored v => v.elim
  | .leaf _ => []
  | .spline a _ _ => [a]
  | .power _ _ c => vecs c
  | .composite _ cs => vecsAll cs
  | .transform c _ => vecs c
  | .periodic c _ => vecs c
  | .periodicOf _ _ => []
  | .restrict c _ => vecs c

def vecsAll : List (Clo Q) → List Nat
  | [] => []
  | c :: cs => vecs c ++ vecsAll cs

end

mutual

/-- Addresses of subdomains in a function object. -/
def domains : Clo Q → List Nat
  | .stored v => v.elim
  | .leaf _ => []
  | .spline _ _ _ => []
  | .power _ _ c => domains c
  | .composite _ cs => domainsAll cs
  | .transform c _ => domains c
  | .periodic c _ => domains c
  | .periodicOf _ _ => []
  | .restrict c a => a :: domains c

def domainsAll : List (Clo Q) → List Nat
  | [] => []
  | c :: cs => domains c ++ domainsAll cs

end

mutual

theorem resolve_congr {m m' : Mem Q} : ∀ f : Clo Q, (∀ a ∈ vecs f, readK m' a = readK m a) → resolve m' f = resolve m f
  | .stored v, _ => v.elim
  | .leaf l, _ => rfl
  | .spline a p o, h => by simp [resolve, h a (by simp [vecs])]
  | .power k s c, h => by simp [resolve, resolve_congr c (by simpa [vecs] using h)]
  | .composite s cs, h => by simp [resolve, resolveAll_congr cs (by simpa [vecs] using h)]
  | .transform c t, h => by simp [resolve, resolve_congr c (by simpa [vecs] using h)]
  | .periodic c p, h => by simp [resolve, resolve_congr c (by simpa [vecs] using h)]
  | .periodicOf b p, _ => rfl
  | .restrict c a, h => by simp [resolve, resolve_congr c (by simpa [vecs] using h)]

theorem resolveAll_congr {m m' : Mem Q} : ∀ fs : List (Clo Q), (∀ a ∈ vecsAll fs, readK m' a = readK m a) →
    resolveAll m' fs = resolveAll m fs
  | [], _ => rfl
  | c :: cs, h => by
    simp only [vecsAll, List.mem_append] at h
    simp [resolveAll, resolve_congr c (fun a ha => h a (Or.inl ha)), resolveAll_congr cs (fun a ha => h a (Or.inr ha))]

end

mutual

theorem resolve_alive {m : Mem Q} : ∀ (f : Clo Q) {v : Val Q}, resolve m f = some v → ∀ a ∈ vecs f, (readK m a).isSome
  | .stored v, _, _ => v.elim
  | .leaf l, _, _ => by simp [vecs]
  | .spline a p o, v, h => by
    simp only [resolve, Option.map_eq_some_iff] at h
    obtain ⟨w, hw, -⟩ := h
    simp [vecs, hw]
  | .power k s c, v, h => by
    simp only [resolve, Option.map_eq_some_iff] at h
    obtain ⟨w, hw, -⟩ := h
    exact resolve_alive c hw
  | .composite s cs, v, h => by
    simp only [resolve, Option.map_eq_some_iff] at h
    obtain ⟨w, hw, -⟩ := h
    exact resolveAll_alive cs hw
  | .transform c t, v, h => by
    simp only [resolve, Option.map_eq_some_iff] at h
    obtain ⟨w, hw, -⟩ := h
    exact resolve_alive c hw
  | .periodic c p, v, h => by
    simp only [resolve, Option.map_eq_some_iff] at h
    obtain ⟨w, hw, -⟩ := h
    exact resolve_alive c hw
  | .periodicOf b p, _, _ => by simp [vecs]
  | .restrict c a, v, h => by
    simp only [resolve, Option.map_eq_some_iff] at h
    obtain ⟨w, hw, -⟩ := h
    exact resolve_alive c hw

theorem resolveAll_alive {m : Mem Q} : ∀ (fs : List (Clo Q)) {vs : List (Val Q)}, resolveAll m fs = some vs →
    ∀ a ∈ vecsAll fs, (readK m a).isSome
  | [], _, _ => by simp [vecsAll]
  | c :: cs, vs, h => by
    simp only [resolveAll, Option.bind_eq_some_iff, Option.map_eq_some_iff] at h
    obtain ⟨w, hw, ws, hws, -⟩ := h
    intro a ha
    rcases List.mem_append.1 ha with ha | ha
    · exact resolve_alive c hw a ha
    · exact resolveAll_alive cs hws a ha

end

theorem readK_append {m : Mem Q} (l : Mem Q) {a : Nat} (h : (readK m a).isSome) : readK (m ++ l) a = readK m a := by
  rcases Nat.lt_or_ge a m.length with ha | ha
  · simp [readK, List.getElem?_append_left ha]
  · simp [readK, List.getElem?_eq_none ha] at h

theorem isSub_append {m : Mem Q} (l : Mem Q) {a : Nat} (h : isSub m a) : isSub (m ++ l) a := by
  rcases Nat.lt_or_ge a m.length with ha | ha
  · simpa [isSub, List.getElem?_append_left ha] using h
  · simp [isSub, List.getElem?_eq_none ha] at h

theorem resolve_append {m : Mem Q} (l : Mem Q) {f : Clo Q} {v : Val Q} (h : resolve m f = some v) : resolve (m ++ l) f = some v := by
  rw [resolve_congr f fun a ha => readK_append l (resolve_alive f h a ha), h]

theorem resolveAll_append {m : Mem Q} (l : Mem Q) {f : List (Clo Q)} {v : List (Val Q)} (h : resolveAll m f = some v) :
    resolveAll (m ++ l) f = some v := by
  rw [resolveAll_congr f fun a ha => readK_append l (resolveAll_alive f h a ha), h]

theorem readK_set {m : Mem Q} {x a : Nat} (o : Option (Obj Q)) (h : a ≠ x) : readK (m.set x o) a = readK m a := by
  simp [readK, List.getElem?_set_ne (Ne.symm h)]

/-- Function objects and descriptions belong together. -/
structure Rel (m : Mem Q) (facs : List (Option (Clo Q))) (vals : List (Option (Val Q × List Nat))) : Prop where
  length : facs.length = vals.length
  fac : ∀ (i : Nat) (v : Val Q) (deps : List Nat), vals[i]? = some (some (v, deps)) →
    ∃ f, facs[i]? = some (some f) ∧ resolve m f = some v ∧ ∀ a ∈ vecs f, a ∈ deps

theorem Rel.append {m : Mem Q} {facs : List (Option (Clo Q))} {vals : List (Option (Val Q × List Nat))} (h : Rel m facs vals) (l : Mem Q) :
    Rel (m ++ l) facs vals :=
  ⟨h.length, fun i v deps hi => by
    obtain ⟨f, h1, h2, h3⟩ := h.fac i v deps hi
    exact ⟨f, h1, resolve_append l h2, h3⟩⟩

section
variable {m : Mem Q} {facs : List (Option (Clo Q))} {vals : List (Option (Val Q × List Nat))} {bases : List (Pre Q)}

mutual

theorem build_spec (hr : Rel m facs vals) : ∀ (e : Expr Q) (l : Mem Q) {v : Val Q} {deps : List Nat}, describe m vals bases e = some (v, deps) →
    ∃ f l', build facs bases e (m ++ l) = some (f, m ++ l ++ l') ∧ l'.length = temps e ∧ resolve (m ++ l ++ l') f = some v ∧
      (temps e = 0 → ∀ a ∈ vecs f, a ∈ deps)
  | .stored i, l, v, deps, h => by
    rw [describe] at h
    have h' : vals[i]? = some (some (v, deps)) := by
      cases hv : vals[i]? with
      | none => simp [hv] at h
      | some o => rw [hv] at h; simpa using h
    obtain ⟨f, h1, h2, h3⟩ := hr.fac i v deps h'
    exact ⟨f, [], by simp [build, h1], rfl, by simpa using resolve_append l h2, fun _ => h3⟩
  | .leaf k, l, v, deps, h => by
    cases h
    exact ⟨.leaf k, [], by simp [build], rfl, rfl, fun _ => by simp [vecs]⟩
  | .spline (.var x) p o, l, v, deps, h => by
    simp only [describe, Option.map_eq_some_iff, Prod.mk.injEq] at h
    obtain ⟨w, hw, rfl, rfl⟩ := h
    have hx := readK_append l (m := m) (a := x) (by simp [hw])
    exact ⟨.spline x p o, [], by simp [build, hx, hw], rfl, by simp [resolve, hx, hw], fun _ => by simp [vecs]⟩
  | .spline (.temp w) p o, l, v, deps, h => by
    cases h
    exact ⟨.spline (m ++ l).length p o, [some (.knots w)], rfl, rfl, by simp [resolve, readK], fun h0 => by simp [temps] at h0⟩
  | .power k s c, l, v, deps, h => by
    simp only [describe, Option.map_eq_some_iff, Prod.mk.injEq] at h
    obtain ⟨⟨w, d⟩, hw, rfl, rfl⟩ := h
    obtain ⟨f, l', h1, h2, h3, h4⟩ := build_spec hr c l hw
    exact ⟨.power k s f, l', by simp [build, h1], h2, by rw [resolve, h3]; rfl, h4⟩
  | .composite s cs, l, v, deps, h => by
    simp only [describe, Option.map_eq_some_iff, Prod.mk.injEq] at h
    obtain ⟨⟨w, d⟩, hw, rfl, rfl⟩ := h
    obtain ⟨f, l', h1, h2, h3, h4⟩ := buildAll_spec hr cs l hw
    exact ⟨.composite s f, l', by simp [build, h1], h2, by rw [resolve, h3]; rfl, h4⟩
  | .transform c t, l, v, deps, h => by
    simp only [describe, Option.map_eq_some_iff, Prod.mk.injEq] at h
    obtain ⟨⟨w, d⟩, hw, rfl, rfl⟩ := h
    obtain ⟨f, l', h1, h2, h3, h4⟩ := build_spec hr c l hw
    exact ⟨.transform f t, l', by simp [build, h1], h2, by rw [resolve, h3]; rfl, h4⟩
  | .periodic c p, l, v, deps, h => by
    simp only [describe, Option.map_eq_some_iff, Prod.mk.injEq] at h
    obtain ⟨⟨w, d⟩, hw, rfl, rfl⟩ := h
    obtain ⟨f, l', h1, h2, h3, h4⟩ := build_spec hr c l hw
    exact ⟨.periodic f p, l', by simp [build, h1], h2, by rw [resolve, h3]; rfl, h4⟩
  | .periodicOf b p, l, v, deps, h => by
    simp only [describe, Option.map_eq_some_iff, Prod.mk.injEq] at h
    obtain ⟨w, hw, rfl, rfl⟩ := h
    exact ⟨.periodicOf w p, [], by simp [build, hw], rfl, rfl, fun _ => by simp [vecs]⟩
  | .restrict c (.var x), l, v, deps, h => by
    rw [describe] at h
    split at h
    · rename_i hx
      simp only [Option.map_eq_some_iff, Prod.mk.injEq] at h
      obtain ⟨⟨w, d⟩, hw, rfl, rfl⟩ := h
      obtain ⟨f, l', h1, h2, h3, h4⟩ := build_spec hr c l hw
      exact ⟨.restrict f x, l', by simp [build, h1, isSub_append l hx], h2, by rw [resolve, h3]; rfl, h4⟩
    · simp at h
  | .restrict c (.temp u), l, v, deps, h => by simp [describe] at h

theorem buildAll_spec (hr : Rel m facs vals) : ∀ (es : List (Expr Q)) (l : Mem Q) {vs : List (Val Q)} {deps : List Nat},
    describeAll m vals bases es = some (vs, deps) →
    ∃ fs l', buildAll facs bases es (m ++ l) = some (fs, m ++ l ++ l') ∧ l'.length = tempsAll es ∧ resolveAll (m ++ l ++ l') fs = some vs ∧
      (tempsAll es = 0 → ∀ a ∈ vecsAll fs, a ∈ deps)
  | [], l, vs, deps, h => by
    cases h
    exact ⟨[], [], by simp [buildAll], rfl, rfl, fun _ => by simp [vecsAll]⟩
  | c :: cs, l, vs, deps, h => by
    simp only [describeAll, Option.bind_eq_some_iff, Option.map_eq_some_iff, Prod.mk.injEq] at h
    obtain ⟨⟨w, d⟩, hw, ⟨ws, ds⟩, hws, rfl, rfl⟩ := h
    obtain ⟨f, l', h1, h2, h3, h4⟩ := build_spec hr c l hw
    obtain ⟨fs, l'', g1, g2, g3, g4⟩ := buildAll_spec hr cs (l ++ l') hws
    have e1 : m ++ (l ++ l') = m ++ l ++ l' := by simp
    rw [e1] at g1 g3
    refine ⟨f :: fs, l' ++ l'', ?_, ?_, ?_, ?_⟩
    · simp only [buildAll, h1, Option.bind_some, g1, Option.map_some]
      simp
    · simp [h2, g2, tempsAll]
    · have e2 : m ++ l ++ (l' ++ l'') = m ++ l ++ l' ++ l'' := by simp
      rw [e2]
      rw [resolveAll, resolve_append l'' h3, Option.bind_some, g3]
      rfl
    · intro h0 a ha
      rw [tempsAll] at h0
      rcases List.mem_append.1 ha with ha | ha
      · exact List.mem_append_left _ (h4 (by omega) a ha)
      · exact List.mem_append_right _ (g4 (by omega) a ha)

end

theorem Rel.invalidate (hr : Rel m facs vals) (x : Nat) (o : Option (Obj Q)) : Rel (m.set x o) facs (invalidate x vals) := by
  refine ⟨by simp [Factories.invalidate, hr.length], fun i v deps hi => ?_⟩
  have h1 : vals[i]? = some (some (v, deps)) ∧ x ∉ deps := by
    rw [Factories.invalidate, List.getElem?_map] at hi
    cases hv : vals[i]? with
    | none => simp [hv] at hi
    | some q =>
      cases q with
      | none => simp [hv] at hi
      | some q =>
        rw [hv] at hi
        by_cases hx : x ∈ q.2
        · simp [hx] at hi
        · simp only [Option.map_some, Option.bind_some, hx, if_false, Option.some.injEq] at hi
          subst hi
          exact ⟨rfl, hx⟩
  obtain ⟨f, e1, e2, e3⟩ := hr.fac i v deps h1.1
  refine ⟨f, e1, ?_, e3⟩
  have hne : ∀ a ∈ vecs f, a ≠ x := by
    rintro a ha rfl
    exact h1.2 (e3 a ha)
  rw [resolve_congr f fun a ha => readK_set o (hne a ha), e2]

end

/-- Everything the function object needs is there. -/
def Safe (m : Mem Q) (f : Clo Q) : Prop :=
  (∀ a ∈ vecs f, ∃ v, v ≠ [] ∧ readK m a = some v) ∧ ∀ a ∈ domains f, isSub m a = true

/-- The children of `composite`. -/
def SafeAll (m : Mem Q) (fs : List (Clo Q)) : Prop :=
  (∀ a ∈ vecsAll fs, ∃ v, v ≠ [] ∧ readK m a = some v) ∧ ∀ a ∈ domainsAll fs, isSub m a = true

mutual

/-- No temporary vector of the expression is empty. -/
def Filled : Expr Q → Prop
  | .stored _ => True
  | .leaf _ => True
  | .spline (.var _) _ _ => True
  | .spline (.temp v) _ _ => v ≠ []
  | .power _ _ c => Filled c
  | .composite _ cs => FilledAll cs
  | .transform c _ => Filled c
  | .periodic c _ => Filled c
  | .periodicOf _ _ => True
  | .restrict c _ => Filled c

def FilledAll : List (Expr Q) → Prop
  | [] => True
  | c :: cs => Filled c ∧ FilledAll cs

end


theorem Safe.append {m : Mem Q} {f : Clo Q} (h : Safe m f) (l : Mem Q) : Safe (m ++ l) f :=
  ⟨fun a ha => by
    obtain ⟨v, h1, h2⟩ := h.1 a ha
    exact ⟨v, h1, by rw [readK_append l (by simp [h2]), h2]⟩, fun a ha => isSub_append l (h.2 a ha)⟩

/-- All vectors have entries. -/
def AllFilled (m : Mem Q) : Prop := ∀ a v, readK m a = some v → v ≠ []

theorem AllFilled.snoc {m : Mem Q} (h : AllFilled m) (o : Option (Obj Q)) (ho : ∀ v, o = some (.knots v) → v ≠ []) : AllFilled (m ++ [o]) := by
  intro a v hv
  rcases Nat.lt_or_ge a m.length with ha | ha
  · exact h a v (by simpa [readK, List.getElem?_append_left ha] using hv)
  · rw [readK, List.getElem?_append_right ha] at hv
    cases hk : a - m.length with
    | zero =>
      rw [hk, List.getElem?_cons_zero] at hv
      split at hv
      · rename_i w hw
        cases hv
        exact ho v (Option.some.inj hw)
      · simp at hv
    | succ n => simp [hk] at hv

section
variable {facs : List (Option (Clo Q))} {bases : List (Pre Q)}

/-- All stored function objects have what they need. -/
def FacsSafe (m : Mem Q) (facs : List (Option (Clo Q))) : Prop := ∀ (i : Nat) (f : Clo Q), facs[i]? = some (some f) → Safe m f

theorem FacsSafe.append {m : Mem Q} (h : FacsSafe m facs) (l : Mem Q) : FacsSafe (m ++ l) facs := fun i f hf => (h i f hf).append l

mutual

theorem build_safe : ∀ (e : Expr Q) (m : Mem Q) {f : Clo Q} {m' : Mem Q}, FacsSafe m facs → AllFilled m → Filled e →
    build facs bases e m = some (f, m') → (∃ l, m' = m ++ l ∧ l.length = temps e) ∧ AllFilled m' ∧ Safe m' f
  | .stored i, m, f, m', hf, ha, _, h => by
    simp only [build, Option.map_eq_some_iff, Prod.mk.injEq] at h
    obtain ⟨w, hw, rfl, rfl⟩ := h
    refine ⟨⟨[], by simp, rfl⟩, ha, hf i w ?_⟩
    cases hv : facs[i]? with
    | none => simp [hv] at hw
    | some o => rw [hv] at hw; simpa using hw
  | .leaf k, m, f, m', hf, ha, _, h => by
    cases h
    exact ⟨⟨[], by simp, rfl⟩, ha, by simp [Safe, vecs, domains]⟩
  | .spline (.var x) p o, m, f, m', hf, ha, _, h => by
    rw [build] at h
    split at h
    · rename_i hx
      cases h
      obtain ⟨v, hv⟩ := Option.isSome_iff_exists.1 hx
      exact ⟨⟨[], by simp, rfl⟩, ha, by simpa [Safe, vecs, domains, hv] using ha x v hv⟩
    · simp at h
  | .spline (.temp v) p o, m, f, m', hf, ha, hv, h => by
    cases h
    refine ⟨⟨_, rfl, rfl⟩, ha.snoc _ fun w hw => by cases hw; exact hv, ?_⟩
    rw [Filled] at hv
    simpa [Safe, vecs, domains, readK] using hv
  | .power k s c, m, f, m', hf, ha, hv, h => by
    simp only [build, Option.map_eq_some_iff, Prod.mk.injEq] at h
    obtain ⟨⟨w, m1⟩, hw, rfl, rfl⟩ := h
    exact build_safe (f := w) c m hf ha hv hw
  | .composite s cs, m, f, m', hf, ha, hv, h => by
    simp only [build, Option.map_eq_some_iff, Prod.mk.injEq] at h
    obtain ⟨⟨w, m1⟩, hw, rfl, rfl⟩ := h
    exact buildAll_safe cs m hf ha hv hw
  | .transform c t, m, f, m', hf, ha, hv, h => by
    simp only [build, Option.map_eq_some_iff, Prod.mk.injEq] at h
    obtain ⟨⟨w, m1⟩, hw, rfl, rfl⟩ := h
    exact build_safe (f := w) c m hf ha hv hw
  | .periodic c p, m, f, m', hf, ha, hv, h => by
    simp only [build, Option.map_eq_some_iff, Prod.mk.injEq] at h
    obtain ⟨⟨w, m1⟩, hw, rfl, rfl⟩ := h
    exact build_safe (f := w) c m hf ha hv hw
  | .periodicOf b p, m, f, m', hf, ha, _, h => by
    simp only [build, Option.map_eq_some_iff, Prod.mk.injEq] at h
    obtain ⟨w, hw, rfl, rfl⟩ := h
    exact ⟨⟨[], by simp, rfl⟩, ha, by simp [Safe, vecs, domains]⟩
  | .restrict c (.var x), m, f, m', hf, ha, hv, h => by
    rw [build] at h
    split at h
    · rename_i hx
      simp only [Option.map_eq_some_iff, Prod.mk.injEq] at h
      obtain ⟨⟨w, m1⟩, hw, rfl, rfl⟩ := h
      obtain ⟨⟨l, rfl, hl⟩, h2, h3⟩ := build_safe c m hf ha hv hw
      refine ⟨⟨l, rfl, hl⟩, h2, h3.1, fun a ha => ?_⟩
      rcases List.mem_cons.1 ha with rfl | ha
      · exact isSub_append l hx
      · exact h3.2 a ha
    · simp at h
  | .restrict c (.temp u), m, f, m', hf, ha, hv, h => by
    simp only [build, Option.map_eq_some_iff, Prod.mk.injEq] at h
    obtain ⟨⟨w, m1⟩, hw, rfl, rfl⟩ := h
    obtain ⟨⟨l, rfl, hl⟩, h2, h3⟩ := build_safe c m hf ha hv hw
    refine ⟨⟨l ++ [some .subDomain], by simp, by simp [hl, temps]⟩, h2.snoc _ fun v hv => by simp at hv, (h3.append _).1, fun a ha => ?_⟩
    rcases List.mem_cons.1 ha with rfl | ha
    · simp [isSub]
    · exact (h3.append _).2 a ha

theorem buildAll_safe : ∀ (es : List (Expr Q)) (m : Mem Q) {fs : List (Clo Q)} {m' : Mem Q}, FacsSafe m facs → AllFilled m → FilledAll es →
    buildAll facs bases es m = some (fs, m') → (∃ l, m' = m ++ l ∧ l.length = tempsAll es) ∧ AllFilled m' ∧ SafeAll m' fs
  | [], m, fs, m', hf, ha, _, h => by
    cases h
    exact ⟨⟨[], by simp, rfl⟩, ha, by simp [SafeAll, vecsAll, domainsAll]⟩
  | c :: cs, m, fs, m', hf, ha, hv, h => by
    simp only [buildAll, Option.bind_eq_some_iff, Option.map_eq_some_iff, Prod.mk.injEq] at h
    obtain ⟨⟨w, m1⟩, hw, ⟨ws, m2⟩, hws, rfl, rfl⟩ := h
    obtain ⟨⟨l, rfl, hl⟩, h2, h3⟩ := build_safe c m hf ha hv.1 hw
    obtain ⟨⟨l', rfl, hl'⟩, g2, g3⟩ := buildAll_safe cs _ (hf.append l) h2 hv.2 hws
    refine ⟨⟨l ++ l', by simp, by simp [hl, hl', tempsAll]⟩, g2, fun a ha => ?_, fun a ha => ?_⟩
    · rcases List.mem_append.1 ha with ha | ha
      · exact (h3.append l').1 a ha
      · exact g3.1 a ha
    · rcases List.mem_append.1 ha with ha | ha
      · exact (h3.append l').2 a ha
      · exact g3.2 a ha

end

end

variable [Field Q.K]

mutual

theorem callWith_resolve {m m' : Mem Q} {v : Val Q} : ∀ (f : Clo Q) (gv : GV), resolve m f = some v →
    callWith (readK m) (subAt m') f gv = callWith some (subAt m') v gv
  | .stored v, _, _ => v.elim
  | .leaf l, gv, h => by cases h; rfl
  | .spline a p o, gv, h => by
    simp only [resolve, Option.map_eq_some_iff] at h
    obtain ⟨w, hw, rfl⟩ := h
    simp [callWith, hw]
  | .power k s c, gv, h => by
    simp only [resolve, Option.map_eq_some_iff] at h
    obtain ⟨w, hw, rfl⟩ := h
    simp [callWith, callWith_resolve c gv hw]
  | .composite s cs, gv, h => by
    simp only [resolve, Option.map_eq_some_iff] at h
    obtain ⟨w, hw, rfl⟩ := h
    simp [callWith, callAllWith_resolve cs gv hw]
  | .transform c t, gv, h => by
    simp only [resolve, Option.map_eq_some_iff] at h
    obtain ⟨w, hw, rfl⟩ := h
    simp [callWith, callWith_resolve c gv hw]
  | .periodic c p, gv, h => by
    simp only [resolve, Option.map_eq_some_iff] at h
    obtain ⟨w, hw, rfl⟩ := h
    simp [callWith, callWith_resolve c gv hw]
  | .periodicOf b p, gv, h => by cases h; rfl
  | .restrict c a, gv, h => by
    simp only [resolve, Option.map_eq_some_iff] at h
    obtain ⟨w, hw, rfl⟩ := h
    simp [callWith, callWith_resolve c _ hw]

theorem callAllWith_resolve {m m' : Mem Q} {vs : List (Val Q)} : ∀ (fs : List (Clo Q)) (gv : GV), resolveAll m fs = some vs →
    callAllWith (readK m) (subAt m') fs gv = callAllWith some (subAt m') vs gv
  | [], gv, h => by cases h; rfl
  | c :: cs, gv, h => by
    simp only [resolveAll, Option.bind_eq_some_iff, Option.map_eq_some_iff] at h
    obtain ⟨w, hw, ws, hws, rfl⟩ := h
    simp [callAllWith, callWith_resolve c gv hw, callAllWith_resolve cs gv hws]

end

mutual

theorem callWith_subs {d : R → Option (List Q.K)} {al al' : Nat → Option Nat} (h : ∀ a b, al a = some b → al' a = some b) :
    ∀ (v : Fac Q Empty R Nat (Pre Q)) (gv : GV) {p : Pre Q}, callWith d al v gv = some p → callWith d al' v gv = some p
  | .stored v, _, _, _ => v.elim
  | .leaf l, gv, _, hp => hp
  | .spline r p o, gv, _, hp => hp
  | .power k s c, gv, _, hp => by
    simp only [callWith, Option.map_eq_some_iff] at hp ⊢
    obtain ⟨w, hw, rfl⟩ := hp
    exact ⟨w, callWith_subs h c gv hw, rfl⟩
  | .composite s cs, gv, _, hp => by
    simp only [callWith, Option.map_eq_some_iff] at hp ⊢
    obtain ⟨w, hw, rfl⟩ := hp
    exact ⟨w, callAllWith_subs h cs gv hw, rfl⟩
  | .transform c t, gv, _, hp => by
    simp only [callWith, Option.map_eq_some_iff] at hp ⊢
    obtain ⟨w, hw, rfl⟩ := hp
    exact ⟨w, callWith_subs h c gv hw, rfl⟩
  | .periodic c p, gv, _, hp => by
    simp only [callWith, Option.map_eq_some_iff] at hp ⊢
    obtain ⟨w, hw, rfl⟩ := hp
    exact ⟨w, callWith_subs h c gv hw, rfl⟩
  | .periodicOf b p, gv, _, hp => hp
  | .restrict c a, gv, _, hp => by
    simp only [callWith, Option.bind_eq_some_iff, Option.map_eq_some_iff] at hp ⊢
    obtain ⟨b, hb, w, hw, rfl⟩ := hp
    exact ⟨b, h a b hb, w, callWith_subs h c _ hw, rfl⟩

theorem callAllWith_subs {d : R → Option (List Q.K)} {al al' : Nat → Option Nat} (h : ∀ a b, al a = some b → al' a = some b) :
    ∀ (vs : List (Fac Q Empty R Nat (Pre Q))) (gv : GV) {ps : List (Pre Q)}, callAllWith d al vs gv = some ps → callAllWith d al' vs gv = some ps
  | [], gv, _, hp => hp
  | c :: cs, gv, _, hp => by
    simp only [callAllWith, Option.bind_eq_some_iff, Option.map_eq_some_iff] at hp ⊢
    obtain ⟨w, hw, ws, hws, rfl⟩ := hp
    exact ⟨w, callWith_subs h c gv hw, ws, callAllWith_subs h cs gv hws, rfl⟩

end

/-- One statement keeps function objects and descriptions together. -/
theorem step_spec {σ : State Q} {ρ ρ' : Ideal Q} (hm : σ.mem = ρ.mem) (hb : σ.bases = ρ.bases) (hr : Rel σ.mem σ.facs ρ.facs) (op : Op Q)
    (h : idealStep ρ op = some ρ') :
    ∃ σ', step σ op = some σ' ∧ σ'.mem = ρ'.mem ∧ σ'.bases = ρ'.bases ∧ Rel σ'.mem σ'.facs ρ'.facs := by
  obtain ⟨m, facs, bases⟩ := σ
  obtain ⟨m', vals, bases'⟩ := ρ
  dsimp only at hm hb hr
  subst hm hb
  cases op with
  | vec v => cases h; exact ⟨_, rfl, rfl, rfl, hr.append _⟩
  | sub => cases h; exact ⟨_, rfl, rfl, rfl, hr.append _⟩
  | set x v =>
    rw [idealStep] at h
    split at h
    · rename_i hx
      cases h
      exact ⟨_, by rw [step, if_pos hx], rfl, rfl, hr.invalidate x _⟩
    · simp at h
  | destroy x =>
    rw [idealStep] at h
    split at h
    · rename_i hx
      cases h
      exact ⟨_, by rw [step, if_pos hx], rfl, rfl, hr.invalidate x _⟩
    · simp at h
  | keep e =>
    rw [idealStep] at h
    split at h
    · rename_i h0
      simp only [Option.map_eq_some_iff] at h
      obtain ⟨⟨v, deps⟩, hv, rfl⟩ := h
      obtain ⟨f, l', h1, h2, h3, h4⟩ := build_spec hr e [] hv
      have hl : l' = [] := List.length_eq_zero_iff.1 (h2.trans h0)
      subst hl
      simp only [List.append_nil] at h1 h3
      refine ⟨{ mem := m, facs := facs ++ [some f], bases := bases }, by simp [step, h1, endTemps], rfl, rfl, ?_⟩
      dsimp only
      refine ⟨by simp [hr.length], fun i w d hi => ?_⟩
      rcases Nat.lt_or_ge i vals.length with hlt | hge
      · rw [List.getElem?_append_left hlt] at hi
        rw [List.getElem?_append_left (hr.length ▸ hlt)]
        exact hr.fac i w d hi
      · rw [List.getElem?_append_right hge] at hi
        rw [List.getElem?_append_right (hr.length ▸ hge), hr.length]
        cases hk : i - vals.length with
        | zero =>
          rw [hk] at hi
          simp only [List.getElem?_cons_zero, Option.some.injEq, Prod.mk.injEq] at hi
          obtain ⟨rfl, rfl⟩ := hi
          exact ⟨f, rfl, h3, h4 h0⟩
        | succ n => rw [hk] at hi; simp at hi
    · simp at h
  | drop j =>
    rw [idealStep] at h
    split at h
    · rename_i hx
      cases h
      have h1 : (facs[j]?.join).isSome := by
        cases hv : vals[j]? with
        | none => simp [hv] at hx
        | some q =>
          cases q with
          | none => simp [hv] at hx
          | some q =>
            obtain ⟨f, e1, -, -⟩ := hr.fac j q.1 q.2 hv
            simp [e1]
      refine ⟨_, by rw [step, if_pos h1], rfl, rfl, by simp [hr.length], fun i w d hi => ?_⟩
      dsimp only at hi ⊢
      rcases eq_or_ne j i with rfl | hne
      · rw [List.getElem?_set_self'] at hi
        cases hv : vals[j]? <;> simp [hv] at hi
      · rw [List.getElem?_set_ne hne] at hi ⊢
        exact hr.fac i w d hi
    · simp at h
  | make e g =>
    simp only [idealStep, Option.bind_eq_some_iff, Option.map_eq_some_iff] at h
    obtain ⟨⟨v, deps⟩, hv, p, hp, rfl⟩ := h
    obtain ⟨f, l', h1, h2, h3, -⟩ := build_spec hr e [] hv
    simp only [List.append_nil] at h1 h3
    have hc : call (m ++ l') f (.grid g) = some p := by
      rw [call, callWith_resolve f _ h3]
      refine callWith_subs (fun a b hab => ?_) v _ hp
      rw [subAt] at hab ⊢
      split at hab
      · rename_i ha
        rw [if_pos (isSub_append l' ha), hab]
      · simp at hab
    have ht : endTemps m (m ++ l') = m ++ List.replicate (temps e) none := by simp [endTemps, h2]
    exact ⟨{ mem := m ++ List.replicate (temps e) none, facs := facs, bases := bases ++ [p] },
      by simp only [step, h1, Option.bind_some, hc, Option.map_some, ht], rfl, rfl, hr.append _⟩
  | use b =>
    rw [idealStep] at h
    obtain ⟨p, hp, hs⟩ := Option.bind_eq_some_iff.1 h
    split at hs
    · rename_i ha
      cases hs
      exact ⟨{ mem := m, facs := facs, bases := bases }, by rw [step, hp, Option.bind_some, if_pos ha], rfl, rfl, hr⟩
    · simp at hs

theorem run_spec : ∀ (ops : List (Op Q)) {σ : State Q} {ρ ρ' : Ideal Q}, σ.mem = ρ.mem → σ.bases = ρ.bases → Rel σ.mem σ.facs ρ.facs →
    idealRun ρ ops = some ρ' → ∃ σ', run σ ops = some σ' ∧ σ'.mem = ρ'.mem ∧ σ'.bases = ρ'.bases
  | [], σ, ρ, ρ', hm, hb, _, h => by cases h; exact ⟨σ, rfl, hm, hb⟩
  | op :: ops, σ, ρ, ρ', hm, hb, hr, h => by
    simp only [idealRun, Option.bind_eq_some_iff] at h
    obtain ⟨ρ1, h1, h2⟩ := h
    obtain ⟨σ1, e1, e2, e3, e4⟩ := step_spec hm hb hr op h1
    obtain ⟨σ', e5, e6⟩ := run_spec ops e2 e3 e4 h2
    exact ⟨σ', by rw [run, e1, Option.bind_some, e5], e6⟩

/-- **C92**. In every program that keeps no factory with temporaries, calls no factory after the vectors it was made from have been changed
or destroyed, and uses no basis after its subdomains have been destroyed, nothing dangles, and every basis is the one that the
factory expressions described when they were evaluated: it does not matter how often factories are copied, nested or called, when they are
called, whether the variables that hold factories still exist, and what happens to the vectors after the call. Not all programs are
like this, see `C92_temporary_false`, `C92_changed_false`, `C92_subdomain_false`. -/
theorem C92_program_partial (ops : List (Op Q)) (ρ : Ideal Q) (h : idealRun {} ops = some ρ) :
    ∃ σ, run {} ops = some σ ∧ σ.bases = ρ.bases := by
  obtain ⟨σ, h1, -, h2⟩ := run_spec ops (σ := {}) (ρ := {}) rfl rfl ⟨rfl, fun i v d hi => by simp at hi⟩ h
  exact ⟨σ, h1, h2⟩

mutual

theorem callWith_isSome (m : Mem Q) : ∀ (f : Clo Q) (gv : GV), (callWith (readK m) (subAt m) f gv).isSome ↔
    (∀ a ∈ vecs f, ∃ v, v ≠ [] ∧ readK m a = some v) ∧ ∀ a ∈ domains f, isSub m a = true
  | .stored v, _ => v.elim
  | .leaf l, gv => by simp [callWith, vecs, domains]
  | .spline a p o, gv => by
    cases h : readK m a with
    | none => simp [callWith, vecs, domains, h]
    | some v => by_cases hv : v = [] <;> simp [callWith, vecs, domains, h, splinePre, hv]
  | .power k s c, gv => by simpa [callWith, vecs, domains] using callWith_isSome m c gv
  | .composite s cs, gv => by simpa [callWith, vecs, domains] using callAllWith_isSome m cs gv
  | .transform c t, gv => by simpa [callWith, vecs, domains] using callWith_isSome m c gv
  | .periodic c p, gv => by simpa [callWith, vecs, domains] using callWith_isSome m c gv
  | .periodicOf b p, gv => by simp [callWith, vecs, domains]
  | .restrict c a, gv => by
    have hc := callWith_isSome m c (.sub a)
    by_cases ha : isSub m a = true
    · simp only [callWith, subAt, ha, if_true, Option.bind_some, Option.isSome_map, hc, vecs, domains, List.mem_cons, forall_eq_or_imp, true_and]
    · simp [callWith, subAt, ha, domains]

theorem callAllWith_isSome (m : Mem Q) : ∀ (fs : List (Clo Q)) (gv : GV), (callAllWith (readK m) (subAt m) fs gv).isSome ↔
    (∀ a ∈ vecsAll fs, ∃ v, v ≠ [] ∧ readK m a = some v) ∧ ∀ a ∈ domainsAll fs, isSub m a = true
  | [], gv => by simp [callAllWith, vecsAll, domainsAll]
  | c :: cs, gv => by
    have h1 := callWith_isSome m c gv
    have h2 := callAllWith_isSome m cs gv
    have h3 : (callAllWith (readK m) (subAt m) (c :: cs) gv).isSome ↔
        (callWith (readK m) (subAt m) c gv).isSome ∧ (callAllWith (readK m) (subAt m) cs gv).isSome := by
      rw [callAllWith]
      cases callWith (readK m) (subAt m) c gv <;> simp
    rw [h3, h1, h2]
    simp only [vecsAll, domainsAll, List.mem_append, or_imp, forall_and]
    tauto

end

/-- **C92**. Calling a function object is defined exactly if all vectors and subdomains that occur in it exist and no vector is empty. -/
theorem C92_defined (m : Mem Q) (f : Clo Q) (gv : GV) : (call m f gv).isSome ↔
    (∀ a ∈ vecs f, ∃ v, v ≠ [] ∧ readK m a = some v) ∧ ∀ a ∈ domains f, isSub m a = true := callWith_isSome m f gv

mutual

theorem callWith_congr {m m' : Mem Q} : ∀ (f : Clo Q) (gv : GV), (∀ a ∈ vecs f, readK m' a = readK m a) →
    (∀ a ∈ domains f, isSub m' a = isSub m a) → callWith (readK m') (subAt m') f gv = callWith (readK m) (subAt m) f gv
  | .stored v, _, _, _ => v.elim
  | .leaf l, gv, _, _ => rfl
  | .spline a p o, gv, h, _ => by simp [callWith, h a (by simp [vecs])]
  | .power k s c, gv, h, h' => by simp [callWith, callWith_congr c gv (by simpa [vecs] using h) (by simpa [domains] using h')]
  | .composite s cs, gv, h, h' => by simp [callWith, callAllWith_congr cs gv (by simpa [vecs] using h) (by simpa [domains] using h')]
  | .transform c t, gv, h, h' => by simp [callWith, callWith_congr c gv (by simpa [vecs] using h) (by simpa [domains] using h')]
  | .periodic c p, gv, h, h' => by simp [callWith, callWith_congr c gv (by simpa [vecs] using h) (by simpa [domains] using h')]
  | .periodicOf b p, gv, _, _ => rfl
  | .restrict c a, gv, h, h' => by
    simp only [domains, List.mem_cons, forall_eq_or_imp] at h'
    have hc := callWith_congr c (.sub a) (by simpa [vecs] using h) h'.2
    by_cases ha : isSub m a = true
    · simp [callWith, subAt, h'.1, ha] at hc ⊢
      rw [hc]
    · simp [callWith, subAt, h'.1, ha]

theorem callAllWith_congr {m m' : Mem Q} : ∀ (fs : List (Clo Q)) (gv : GV), (∀ a ∈ vecsAll fs, readK m' a = readK m a) →
    (∀ a ∈ domainsAll fs, isSub m' a = isSub m a) → callAllWith (readK m') (subAt m') fs gv = callAllWith (readK m) (subAt m) fs gv
  | [], gv, _, _ => rfl
  | c :: cs, gv, h, h' => by
    simp only [vecsAll, domainsAll, List.mem_append, or_imp, forall_and] at h h'
    simp [callAllWith, callWith_congr c gv h.1 h'.1, callAllWith_congr cs gv h.2 h'.2]

end

/-- **C92**. What a function object creates depends on the vectors and subdomains that occur in it and on nothing else. -/
theorem C92_depends (m m' : Mem Q) (f : Clo Q) (gv : GV) (hv : ∀ a ∈ vecs f, readK m' a = readK m a)
    (hd : ∀ a ∈ domains f, isSub m' a = isSub m a) : call m' f gv = call m f gv := callWith_congr f gv hv hd

/-- **C92**. All other factories own what they need: a function object without `bSpline` and `restrict` creates the same pre-basis whenever it
is called, whatever happened to all other objects. -/
theorem C92_owned (m m' : Mem Q) (f : Clo Q) (hv : vecs f = []) (hd : domains f = []) (gv : GV) :
    call m' f gv = call m f gv ∧ (call m f gv).isSome :=
  ⟨C92_depends m m' f gv (by simp [hv]) (by simp [hd]), (C92_defined m f gv).2 (by simp [hv, hd])⟩

mutual

theorem callWith_refers {m : Mem Q} : ∀ (f : Clo Q) (gv : GV) {p : Pre Q}, callWith (readK m) (subAt m) f gv = some p → ∀ a ∈ domains f, a ∈ p.subs
  | .stored v, _, _, _ => v.elim
  | .leaf l, gv, _, _ => by simp [domains]
  | .spline b p o, gv, _, _ => by simp [domains]
  | .power k s c, gv, _, h => by
    simp only [callWith, Option.map_eq_some_iff] at h
    obtain ⟨w, hw, rfl⟩ := h
    exact callWith_refers (p := w) c gv hw
  | .composite s cs, gv, _, h => by
    simp only [callWith, Option.map_eq_some_iff] at h
    obtain ⟨w, hw, rfl⟩ := h
    exact callAllWith_refers cs gv hw
  | .transform c t, gv, _, h => by
    simp only [callWith, Option.map_eq_some_iff] at h
    obtain ⟨w, hw, rfl⟩ := h
    exact callWith_refers (p := w) c gv hw
  | .periodic c p, gv, _, h => by
    simp only [callWith, Option.map_eq_some_iff] at h
    obtain ⟨w, hw, rfl⟩ := h
    exact callWith_refers (p := w) c gv hw
  | .periodicOf b p, gv, _, _ => by simp [domains]
  | .restrict c b, gv, _, h => by
    simp only [callWith, subAt, Option.bind_eq_some_iff, Option.map_eq_some_iff] at h
    obtain ⟨b', hb, w, hw, rfl⟩ := h
    have hb' : b = b' := by
      split at hb
      · exact Option.some.inj hb
      · simp at hb
    subst hb'
    intro a ha
    rcases List.mem_cons.1 ha with rfl | ha
    · simp [Pre.subs]
    · simp [Pre.subs, callWith_refers c _ hw a ha]

theorem callAllWith_refers {m : Mem Q} : ∀ (fs : List (Clo Q)) (gv : GV) {ps : List (Pre Q)}, callAllWith (readK m) (subAt m) fs gv = some ps →
    ∀ a ∈ domainsAll fs, a ∈ Pre.allSubs ps
  | [], gv, _, _ => by simp [domainsAll]
  | c :: cs, gv, _, h => by
    simp only [callAllWith, Option.bind_eq_some_iff, Option.map_eq_some_iff] at h
    obtain ⟨w, hw, ws, hws, rfl⟩ := h
    intro a ha
    rcases List.mem_append.1 ha with ha | ha
    · exact List.mem_append_left _ (callWith_refers c gv hw a ha)
    · exact List.mem_append_right _ (callAllWith_refers cs gv hws a ha)

end

/-- **C92**. The basis created by a factory needs all subdomains that occur in the factory, as long as it is used. -/
theorem C92_refers (m : Mem Q) (f : Clo Q) (gv : GV) (p : Pre Q) (h : call m f gv = some p) : ∀ a ∈ domains f, a ∈ p.subs :=
  callWith_refers f gv h

/-! ## Programs without changes -/

/-- Statements that change and destroy nothing factories refer to, and keep no factories with temporaries. -/
def Plain : Op Q → Prop
  | .vec v => v ≠ []
  | .set _ _ => False
  | .destroy _ => False
  | .keep e => temps e = 0 ∧ Filled e
  | .make e _ => Filled e
  | _ => True

theorem plain_safe : ∀ (ops : List (Op Q)) {σ σ' : State Q}, (∀ op ∈ ops, Plain op) → FacsSafe σ.mem σ.facs → AllFilled σ.mem →
    run σ ops = some σ' → FacsSafe σ'.mem σ'.facs ∧ AllFilled σ'.mem
  | [], σ, σ', _, hf, ha, h => by cases h; exact ⟨hf, ha⟩
  | op :: ops, σ, σ', hp, hf, ha, h => by
    simp only [run, Option.bind_eq_some_iff] at h
    obtain ⟨σ1, h1, h2⟩ := h
    have key : FacsSafe σ1.mem σ1.facs ∧ AllFilled σ1.mem := by
      have hop := hp op (by simp)
      cases op with
      | vec v => cases h1; exact ⟨hf.append _, ha.snoc _ fun w hw => by cases hw; exact hop⟩
      | sub => cases h1; exact ⟨hf.append _, ha.snoc _ fun w hw => by cases hw⟩
      | set x v => exact hop.elim
      | destroy x => exact hop.elim
      | keep e =>
        simp only [step, Option.map_eq_some_iff] at h1
        obtain ⟨⟨f, m'⟩, hb, rfl⟩ := h1
        obtain ⟨⟨l, rfl, hl⟩, e2, e3⟩ := build_safe e _ hf ha hop.2 hb
        have hl : l = [] := List.length_eq_zero_iff.1 (hl.trans hop.1)
        subst hl
        simp only [List.append_nil] at e2 e3
        simp only [endTemps, List.append_nil, Nat.sub_self, List.replicate_zero]
        refine ⟨fun i g hg => ?_, e2⟩
        rcases Nat.lt_or_ge i σ.facs.length with hi | hi
        · exact hf i g (by rwa [List.getElem?_append_left hi] at hg)
        · rw [List.getElem?_append_right hi] at hg
          cases hk : i - σ.facs.length with
          | zero =>
            rw [hk] at hg
            cases hg
            exact e3
          | succ n => simp [hk] at hg
      | drop j =>
        rw [step] at h1
        split at h1
        · cases h1
          refine ⟨fun i g hg => hf i g ?_, ha⟩
          dsimp only at hg
          rcases eq_or_ne j i with rfl | hne
          · rw [List.getElem?_set_self'] at hg
            cases hv : σ.facs[j]? <;> simp [hv] at hg
          · rwa [List.getElem?_set_ne hne] at hg
        · simp at h1
      | make e g =>
        simp only [step, Option.bind_eq_some_iff, Option.map_eq_some_iff] at h1
        obtain ⟨⟨f, m'⟩, hb, p, hp, rfl⟩ := h1
        refine ⟨hf.append _, fun a v hv => ?_⟩
        dsimp only [endTemps] at hv
        rcases Nat.lt_or_ge a σ.mem.length with hlt | hge
        · exact ha a v (by simpa [readK, List.getElem?_append_left hlt] using hv)
        · rw [readK, List.getElem?_append_right hge, List.getElem?_replicate] at hv
          split at hv
          · rename_i w hw
            split at hw <;> simp at hw
          · simp at hv
      | use b =>
        rw [step] at h1
        obtain ⟨p, hp, hs⟩ := Option.bind_eq_some_iff.1 h1
        split at hs
        · cases hs; exact ⟨hf, ha⟩
        · simp at hs
    exact plain_safe ops (fun o ho => hp o (by simp [ho])) key.1 key.2 h2

/-- **C92**. After a program that never changes or destroys a vector or subdomain, and keeps no factories with temporaries, every expression
that names existing things can be used in `makeBasis(...)`, with or without temporaries. -/
theorem C92_plain (ops : List (Op Q)) (hp : ∀ op ∈ ops, Plain op) (σ : State Q) (h : run {} ops = some σ) (e : Expr Q) (he : Filled e)
    (r : Clo Q × Mem Q) (hr : build σ.facs σ.bases e σ.mem = some r) (g : Nat) : ∃ σ', step σ (.make e g) = some σ' := by
  obtain ⟨hf, ha⟩ := plain_safe ops hp (σ := {}) (fun i f hi => by simp at hi) (fun a v hv => by simp [readK] at hv) h
  obtain ⟨f, m'⟩ := r
  have hs := (build_safe e _ hf ha he hr).2.2
  obtain ⟨p, hp⟩ := Option.isSome_iff_exists.1 ((C92_defined m' f (.grid g)).2 hs)
  exact ⟨_, by simp only [step, hr, Option.bind_some, hp, Option.map_some]; rfl⟩

/-! ## What goes wrong -/

/-- **C92**, the full statement is false. `auto f = bSpline({0.0, 0.5, 1.0}, 2);` keeps a reference to a temporary: calling `f` is
undefined for all knots, while `makeBasis(gridView, bSpline({0.0, 0.5, 1.0}, 2))` creates the basis. -/
theorem C92_temporary_false (v : List Q.K) (hv : v ≠ []) (p : Nat) (o : Bool) (g : Nat) :
    run {} [.keep (.spline (.temp v) p o), .make (.stored 0) g] = none ∧
    (run {} [.make (.spline (.temp v) p o) g]).map State.bases = some [.spline (v.length - 1) ⟨p, openKnots p o v⟩ (.grid g)] := by
  constructor
  · simp [run, step, build, endTemps, call, callWith, readK]
  · simp [run, step, build, call, callWith, readK, splinePre, hv]

/-- **C92**, the full statement is false. A factory made from a variable creates a basis for the knots the variable has later. -/
theorem C92_changed_false (v w : List Q.K) (hw : w ≠ []) (p : Nat) (o : Bool) (g : Nat) :
    (run {} [.vec v, .keep (.spline (.var 0) p o), .set 0 w, .make (.stored 0) g]).map State.bases =
      some [.spline (w.length - 1) ⟨p, openKnots p o w⟩ (.grid g)] ∧
    run {} [.vec v, .keep (.spline (.var 0) p o), .destroy 0, .make (.stored 0) g] = none := by
  constructor
  · simp [run, step, build, endTemps, call, callWith, readK, splinePre, hw]
  · simp [run, step, build, endTemps, call, callWith, readK]

/-- **C92**, the full statement is false. A basis restricted to a temporary subdomain can be created, but not used. -/
theorem C92_subdomain_false (l : Q.L) (g : Nat) :
    (run {} [.make (.restrict (.leaf l) (.temp ())) g]).map State.bases = some [.restricted (.grid g) (.leaf l (.sub 0)) 0] ∧
    run {} [.make (.restrict (.leaf l) (.temp ())) g, .use 0] = none ∧
    (run {} [.sub, .make (.restrict (.leaf l) (.var 0)) g, .use 0]).isSome ∧
    run {} [.sub, .make (.restrict (.leaf l) (.var 0)) g, .destroy 0, .use 0] = none := by
  refine ⟨?_, ?_, ?_, ?_⟩
  · simp [run, step, build, call, callWith, isSub, subAt]
  all_goals simp [run, step, build, endTemps, call, callWith, isSub, subAt, Pre.subs, GV.subs]


/-! ## Examples -/

/-- Knots are rational numbers, leaf bases are given by their order, there are two strategies. -/
abbrev demo : Sig := ⟨ℚ, Nat, Bool, Unit⟩

instance : Field demo.K := inferInstanceAs (Field ℚ)

/-- A vector, a subdomain, a nested factory that is used twice, once after the first variable is gone, and a basis that is used after the
vector has been destroyed. -/
def demoProgram : List (Op demo) :=
  [.vec [0, 1, 2], .sub, .keep (.spline (.var 0) 2 true), .keep (.composite true [.stored 0, .power 2 false (.leaf 1), .restrict (.leaf 2) (.var 1)]),
   .drop 0, .make (.stored 1) 7, .make (.power 3 true (.stored 1)) 8, .make (.spline (.temp [0, 3]) 1 true) 9, .destroy 0, .use 1, .use 2]

example : (idealRun {} demoProgram).map (fun ρ => ρ.bases.length) = some 3 := by decide +kernel

example : ∃ σ, run {} demoProgram = some σ ∧ σ.bases.length = 3 := by
  have h : ((idealRun {} demoProgram).map fun ρ => ρ.bases.length) = some 3 := by decide +kernel
  simp only [Option.map_eq_some_iff] at h
  obtain ⟨ρ, h1, h2⟩ := h
  obtain ⟨σ, h3, h4⟩ := C92_program_partial demoProgram ρ h1
  exact ⟨σ, h3, by rw [h4, h2]⟩

example : ∃ σ', step ({ mem := [some (.knots [0, 1])], facs := [some (.spline 0 1 true)] } : State demo) (.make (.power 2 true (.stored 0)) 1) = some σ' :=
  C92_plain (Q := demo) [.vec [0, 1], .keep (.spline (.var 0) 1 true)] (by simp [Plain, temps, Filled]) _ rfl (.power 2 true (.stored 0)) trivial _ rfl 1

end

end Verif.Factories

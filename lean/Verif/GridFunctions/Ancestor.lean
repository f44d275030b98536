import Mathlib.Logic.Basic
import Mathlib.Data.List.Basic

/-!
# Geometry in an ancestor

Model of `GeometryInAncestor` in `dune/functions/common/geometryinancestor.hh`.
-/

namespace Verif.GridFunctions

/-- The grid hierarchy: the father of an element (`none` on the coarsest level), its level, and the coordinate maps of
`geometryInFather()`. -/
structure Hierarchy (E X : Type) where
  father : E → Option E
  level : E → Nat
  toFather : E → X → X
  fromFather : E → X → X

/-- Contract of the grid: fathers have a smaller level. -/
def Hierarchy.OK {E X : Type} (H : Hierarchy E X) : Prop := ∀ e p, H.father e = some p → H.level p < H.level e

/-- Contract of the grid: `local` and `global` of `geometryInFather()` are inverse. -/
def Hierarchy.Inverse {E X : Type} (H : Hierarchy E X) : Prop :=
  ∀ e x, H.fromFather e (H.toFather e x) = x ∧ H.toFather e (H.fromFather e x) = x

variable {E X : Type}

/-! ## Model -/

/-- Pointers to elements: null, a variable of the user, or the members `storedFineElement_`, `storedCoarseElement_` of
the same object. -/
inductive Ptr where
  | null
  | var (a : Nat)
  | ownFine
  | ownCoarse
  deriving DecidableEq

/-- The members, geometryinancestor.hh:188-192. `none` is a default constructed element. A `geometryInFather` is represented
by its element. -/
structure GIA (E : Type) where
  storedFine : Option E
  storedCoarse : Option E
  finePtr : Ptr
  coarsePtr : Ptr
  geos : List E

/-- Variables of the user. -/
abbrev Vars (E : Type) := Nat → Option E

def GIA.deref (vars : Vars E) (g : GIA E) : Ptr → Option E
  | .null => none
  | .var a => vars a
  | .ownFine => g.storedFine
  | .ownCoarse => g.storedCoarse

/-- Default constructor, geometryinancestor.hh:56 with 188-192. -/
def GIA.new : GIA E := ⟨none, none, .null, .null, []⟩

/-- The loop of `bind`, geometryinancestor.hh:124-129. The number of iterations is bounded by `fuel`. -/
def GIA.loop (H : Hierarchy E X) (vars : Vars E) (includeFather : E → Bool) : Nat → GIA E → Option (GIA E)
  | 0, _ => none
  | fuel + 1, g => (g.deref vars g.coarsePtr).bind fun e =>
      if includeFather e then
        (H.father e).bind fun p =>
          GIA.loop H vars includeFather fuel { g with geos := g.geos ++ [e], storedCoarse := some p, coarsePtr := .ownCoarse }
      else some g

/-- `bind` for variables, geometryinancestor.hh:119-131. -/
def GIA.bind (H : Hierarchy E X) (vars : Vars E) (g : GIA E) (a : Nat) (includeFather : E → Bool) : Option (GIA E) :=
  (vars a).bind fun e =>
    GIA.loop H vars includeFather (H.level e + 1) { g with finePtr := .var a, geos := [], coarsePtr := .var a }

/-- `bind` for temporaries, geometryinancestor.hh:150-154. There is no return statement, hence this is undefined. -/
def GIA.bindTemporary (_ : Hierarchy E X) (_ : Vars E) (_ : GIA E) (_ : E) (_ : E → Bool) : Option (GIA E) := none

/-- Copy constructor, geometryinancestor.hh:66-81. -/
def GIA.copy (o : GIA E) : GIA E :=
  let finePtr := if o.finePtr ≠ .ownFine then o.finePtr else .ownFine
  { storedFine := o.storedFine, storedCoarse := o.storedCoarse, finePtr := finePtr,
    coarsePtr := if o.coarsePtr ≠ .ownCoarse then finePtr else .ownFine, geos := o.geos }

/-- Copy constructor with a new fine element, geometryinancestor.hh:89-100. -/
def GIA.copyWith (o : GIA E) (a : Nat) : GIA E :=
  { storedFine := o.storedFine, storedCoarse := o.storedCoarse, finePtr := .var a,
    coarsePtr := if o.coarsePtr ≠ .ownCoarse then .var a else .ownFine, geos := o.geos }

/-- `fineElement`, geometryinancestor.hh:157-160. -/
def GIA.fineElement (vars : Vars E) (g : GIA E) : Option E := g.deref vars g.finePtr

/-- `coarseElement`, geometryinancestor.hh:163-166. -/
def GIA.coarseElement (vars : Vars E) (g : GIA E) : Option E := g.deref vars g.coarsePtr

/-- `global`, geometryinancestor.hh:169-174. -/
def GIA.global (H : Hierarchy E X) (g : GIA E) (x : X) : X := g.geos.foldl (fun x e => H.toFather e x) x

/-- `local`, geometryinancestor.hh:177-184. -/
def GIA.local (H : Hierarchy E X) (g : GIA E) (x : X) : X := g.geos.reverse.foldl (fun x e => H.fromFather e x) x

/-- Operations on one object. Objects do not share data, hence the history of an object consists of those of the objects it
is a copy of. -/
inductive GOp (E : Type) where
  | bind (a : Nat) (includeFather : E → Bool)
  /-- continue with a copy -/
  | copy
  | copyWith (a : Nat)
  /-- the user changes a variable -/
  | setVar (a : Nat) (e : Option E)

def gstep (H : Hierarchy E X) (s : Vars E × GIA E) : GOp E → Option (Vars E × GIA E)
  | .bind a f => (s.2.bind H s.1 a f).map fun g => (s.1, g)
  | .copy => some (s.1, s.2.copy)
  | .copyWith a => some (s.1, s.2.copyWith a)
  | .setVar a e => some (fun b => if b = a then e else s.1 b, s.2)

def grun (H : Hierarchy E X) : Vars E × GIA E → List (GOp E) → Option (Vars E × GIA E)
  | s, [] => some s
  | s, op :: ops => (gstep H s op).bind fun s' => grun H s' ops

/-! ## Specification -/

/-- `a` is the first element on the way from `e` through the fathers for which `c` does not hold; `φ` maps coordinates in `e` to
coordinates in `a`, `ψ` maps them back. -/
inductive Ancestor (H : Hierarchy E X) (c : E → Bool) : E → E → (X → X) → (X → X) → Prop
  | here {e : E} : c e = false → Ancestor H c e e id id
  | up {e p a : E} {φ ψ : X → X} : c e = true → H.father e = some p → Ancestor H c p a φ ψ →
      Ancestor H c e a (φ ∘ H.toFather e) (H.fromFather e ∘ ψ)

/-- What the user knows: the variable bound last, the element it had, the predicate, and whether the object is a copy. -/
abbrev GAbs (E : Type) := Option (Nat × E × (E → Bool) × Bool)

def gspec (s : Vars E × GAbs E) : GOp E → Option (Vars E × GAbs E)
  | .bind a f => (s.1 a).map fun e => (s.1, some (a, e, f, false))
  | .copy => some (s.1, s.2.map fun b => (b.1, b.2.1, b.2.2.1, true))
  | .copyWith a => some (s.1, s.2.map fun b => (a, b.2.1, b.2.2.1, true))
  | .setVar a e => some (fun b => if b = a then e else s.1 b, s.2)

def gspecRun : Vars E × GAbs E → List (GOp E) → Option (Vars E × GAbs E)
  | s, [] => some s
  | s, op :: ops => (gspec s op).bind fun s' => gspecRun s' ops

/-- All binds of the history reach an ancestor. -/
def Reaches (H : Hierarchy E X) : Vars E → List (GOp E) → Prop
  | _, [] => True
  | v, .bind a f :: ops => (∀ e, v a = some e → ∃ b φ ψ, Ancestor H f e b φ ψ) ∧ Reaches H v ops
  | v, .setVar a e :: ops => Reaches H (fun b => if b = a then e else v b) ops
  | v, .copy :: ops => Reaches H v ops
  | v, .copyWith _ :: ops => Reaches H v ops

/-! ## Proof -/

/-- The elements whose `geometryInFather` are on the way. -/
inductive Chain (H : Hierarchy E X) (c : E → Bool) : E → E → List E → Prop
  | here {e : E} : c e = false → Chain H c e e []
  | up {e p a : E} {l : List E} : c e = true → H.father e = some p → Chain H c p a l → Chain H c e a (e :: l)

theorem Ancestor.unique {H : Hierarchy E X} {c : E → Bool} {e a b : E} {φ ψ φ' ψ' : X → X} (h : Ancestor H c e a φ ψ)
    (h' : Ancestor H c e b φ' ψ') : a = b ∧ φ = φ' ∧ ψ = ψ' := by
  induction h generalizing b φ' ψ' with
  | here hc =>
    cases h' with
    | here _ => exact ⟨rfl, rfl, rfl⟩
    | up hc' _ _ => rw [hc] at hc'; simp at hc'
  | up hc hf h ih =>
    cases h' with
    | here hc' => rw [hc] at hc'; simp at hc'
    | up _ hf' h' =>
      rw [hf] at hf'
      injection hf' with hf'
      subst hf'
      obtain ⟨h1, h2, h3⟩ := ih h'
      exact ⟨h1, by rw [h2], by rw [h3]⟩

theorem Ancestor.chain {H : Hierarchy E X} {c : E → Bool} {e a : E} {φ ψ : X → X} (h : Ancestor H c e a φ ψ) :
    ∃ l, Chain H c e a l ∧ (∀ x, l.foldl (fun x e => H.toFather e x) x = φ x) ∧
      ∀ x, l.reverse.foldl (fun x e => H.fromFather e x) x = ψ x := by
  induction h with
  | here hc => exact ⟨[], .here hc, fun _ => rfl, fun _ => rfl⟩
  | @up e p a φ ψ hc hf h ih =>
    obtain ⟨l, h1, h2, h3⟩ := ih
    refine ⟨e :: l, .up hc hf h1, ?_, ?_⟩
    · intro x; simp [h2]
    · intro x; simp [h3]

theorem Chain.ancestor {H : Hierarchy E X} {c : E → Bool} {e a : E} {l : List E} (h : Chain H c e a l) :
    Ancestor H c e a (fun x => l.foldl (fun x e => H.toFather e x) x) (fun x => l.reverse.foldl (fun x e => H.fromFather e x) x) := by
  induction h with
  | here hc => exact .here hc
  | @up e p a l hc hf h ih =>
    have := Ancestor.up hc hf ih
    convert this using 1 <;> funext x <;> simp

theorem Chain.length {H : Hierarchy E X} (hH : H.OK) {c : E → Bool} {e a : E} {l : List E} (h : Chain H c e a l) :
    l.length ≤ H.level e := by
  induction h with
  | here _ => simp
  | @up e p a l hc hf h ih =>
    have := hH e p hf
    simp; omega

/-- The loop follows the chain. -/
theorem loop_eq {H : Hierarchy E X} {vars : Vars E} {c : E → Bool} {e a : E} {l : List E} (h : Chain H c e a l) :
    ∀ (g : GIA E) (fuel : Nat), g.deref vars g.coarsePtr = some e → l.length < fuel →
    ∃ sc, GIA.loop H vars c fuel g = some ⟨g.storedFine, sc, g.finePtr,
        if l = [] then g.coarsePtr else .ownCoarse, g.geos ++ l⟩ ∧ (l ≠ [] → sc = some a) ∧ (l = [] → sc = g.storedCoarse) := by
  induction h with
  | here hc =>
    intro g fuel hg hf
    obtain ⟨n, rfl⟩ : ∃ n, fuel = n + 1 := ⟨fuel - 1, by omega⟩
    refine ⟨g.storedCoarse, ?_, by simp, by simp⟩
    rw [GIA.loop, hg]
    simp [hc]
  | @up e p a l hc hf h ih =>
    intro g fuel hg hfu
    obtain ⟨n, rfl⟩ : ∃ n, fuel = n + 1 := ⟨fuel - 1, by omega⟩
    obtain ⟨sc, h1, h2, h3⟩ := ih { g with geos := g.geos ++ [e], storedCoarse := some p, coarsePtr := .ownCoarse } n rfl
      (by simp at hfu; omega)
    refine ⟨sc, ?_, ?_, by simp⟩
    · rw [GIA.loop, hg]
      simp only [Option.bind_some, hc, if_true, hf, h1]
      simp
    · intro _
      by_cases hl : l = []
      · rw [h3 hl]
        subst hl
        cases h
        rfl
      · exact h2 hl

/-- Invariant of an object. -/
def GInv (H : Hierarchy E X) (g : GIA E) : GAbs E → Prop
  | none => True
  | some (a, e, c, copied) => ∃ b l, Chain H c e b l ∧ g.geos = l ∧ g.finePtr = .var a ∧
      (l = [] → g.coarsePtr = .var a) ∧
      (l ≠ [] → copied = false → g.coarsePtr = .ownCoarse ∧ g.storedCoarse = some b)

theorem gbind_inv {H : Hierarchy E X} (hH : H.OK) (vars : Vars E) (g : GIA E) (a : Nat) (c : E → Bool) {e b : E} {l : List E}
    (he : vars a = some e) (hc : Chain H c e b l) :
    ∃ g', g.bind H vars a c = some g' ∧ GInv H g' (some (a, e, c, false)) := by
  obtain ⟨sc, h1, h2, h3⟩ := loop_eq (vars := vars) hc { g with finePtr := .var a, geos := [], coarsePtr := .var a }
    (H.level e + 1) he (by have := hc.length hH; omega)
  refine ⟨_, by rw [GIA.bind, he]; exact h1, b, l, hc, by simp, rfl, ?_, ?_⟩
  · intro hl; simp [hl]
  · intro hl _; simp [hl, h2 hl]

theorem gstep_inv {H : Hierarchy E X} (hH : H.OK) {vars : Vars E} {g : GIA E} {A : GAbs E} (h : GInv H g A) (op : GOp E)
    {s' : Vars E × GAbs E} (hs : gspec (vars, A) op = some s')
    (hr : ∀ a f, op = .bind a f → ∀ e, vars a = some e → ∃ b φ ψ, Ancestor H f e b φ ψ) :
    ∃ g', gstep H (vars, g) op = some (s'.1, g') ∧ GInv H g' s'.2 := by
  cases op with
  | bind a f =>
    simp only [gspec, Option.map_eq_some_iff] at hs
    obtain ⟨e, he, rfl⟩ := hs
    obtain ⟨b, φ, ψ, hanc⟩ := hr a f rfl e he
    obtain ⟨l, hl, _⟩ := hanc.chain
    obtain ⟨g', h1, h2⟩ := gbind_inv hH vars g a f he hl
    exact ⟨g', by simp [gstep, h1], h2⟩
  | copy =>
    simp only [gspec, Option.some.injEq] at hs
    subst hs
    refine ⟨g.copy, rfl, ?_⟩
    match A with
    | none => trivial
    | some (a, e, c, copied) =>
      obtain ⟨b, l, h1, h2, h3, h4, h5⟩ := h
      refine ⟨b, l, h1, h2, by simp [GIA.copy, h3], ?_, by simp⟩
      intro hl
      simp [GIA.copy, h3, h4 hl]
  | copyWith a =>
    simp only [gspec, Option.some.injEq] at hs
    subst hs
    refine ⟨g.copyWith a, rfl, ?_⟩
    match A with
    | none => trivial
    | some (_, e, c, copied) =>
      obtain ⟨b, l, h1, h2, h3, h4, h5⟩ := h
      refine ⟨b, l, h1, h2, by simp [GIA.copyWith], ?_, by simp⟩
      intro hl
      simp [GIA.copyWith, h4 hl]
  | setVar a e =>
    simp only [gspec, Option.some.injEq] at hs
    subst hs
    exact ⟨g, rfl, h⟩

theorem grun_inv {H : Hierarchy E X} (hH : H.OK) (ops : List (GOp E)) : ∀ {vars : Vars E} {g : GIA E} {A : GAbs E} {s' : Vars E × GAbs E},
    GInv H g A → gspecRun (vars, A) ops = some s' → Reaches H vars ops →
    ∃ g', grun H (vars, g) ops = some (s'.1, g') ∧ GInv H g' s'.2 := by
  induction ops with
  | nil =>
    intro vars g A s' h hs _
    simp only [gspecRun, Option.some.injEq] at hs
    subst hs
    exact ⟨g, rfl, h⟩
  | cons op ops ih =>
    intro vars g A s' h hs hr
    simp only [gspecRun, Option.bind_eq_some_iff] at hs
    obtain ⟨s1, h1, h2⟩ := hs
    obtain ⟨g1, h3, h4⟩ := gstep_inv hH h op h1 (by
      rintro a f rfl e he
      exact hr.1 e he)
    have hr' : Reaches H s1.1 ops := by
      cases op with
      | bind a f =>
        simp only [gspec, Option.map_eq_some_iff] at h1
        obtain ⟨_, _, rfl⟩ := h1
        exact hr.2
      | copy => simp only [gspec, Option.some.injEq] at h1; subst h1; exact hr
      | copyWith a => simp only [gspec, Option.some.injEq] at h1; subst h1; exact hr
      | setVar a e => simp only [gspec, Option.some.injEq] at h1; subst h1; exact hr
    obtain ⟨g', h5, h6⟩ := ih h4 h2 hr'
    exact ⟨g', by simp [grun, h3, h5], h6⟩

/-- The maps are inverse. -/
theorem Ancestor.inverse {H : Hierarchy E X} (hI : H.Inverse) {c : E → Bool} {e a : E} {φ ψ : X → X} (h : Ancestor H c e a φ ψ) :
    ∀ x, ψ (φ x) = x ∧ φ (ψ x) = x := by
  induction h with
  | here _ => intro x; exact ⟨rfl, rfl⟩
  | @up e p a φ ψ _ _ _ ih =>
    intro x
    simp only [Function.comp]
    rw [(ih _).1, (hI e _).1, (hI e _).2, (ih _).2]
    exact ⟨rfl, rfl⟩

/-- **C43 (partial).** After any history of binds, copies (with and without a new fine element) and changes of the variables:
if the user's bookkeeping says that the object was bound to an element `e` with predicate `c`, then the maps are those of the
ancestor, they are inverse to each other, and while the variable still has the value `e` the fine element is `e`; the coarse
element is the ancestor, if the object is not a copy or if no father was visited.

Missing: the coarse element of copies, see `C43_copy_false`, and `bind` for temporaries, see `C43_temporary_false`. -/
theorem C43_partial {H : Hierarchy E X} (hH : H.OK) (hI : H.Inverse) (vars : Vars E) (ops : List (GOp E)) (hr : Reaches H vars ops)
    {vars' : Vars E} {A : GAbs E} (hs : gspecRun (vars, none) ops = some (vars', A)) :
    ∃ g, grun H (vars, GIA.new) ops = some (vars', g) ∧ ∀ a e c copied, A = some (a, e, c, copied) →
      ∃ b φ ψ, Ancestor H c e b φ ψ ∧ (∀ x, g.global H x = φ x ∧ g.local H x = ψ x) ∧
        (∀ x, g.local H (g.global H x) = x ∧ g.global H (g.local H x) = x) ∧
        (vars' a = some e → g.fineElement vars' = some e ∧
          (copied = false ∨ c e = false → g.coarseElement vars' = some b)) := by
  obtain ⟨g, h1, h2⟩ := grun_inv hH ops (g := GIA.new) (A := none) trivial hs hr
  refine ⟨g, h1, ?_⟩
  rintro a e c copied rfl
  obtain ⟨b, l, h3, h4, h5, h6, h7⟩ := h2
  refine ⟨b, _, _, h3.ancestor, ?_, ?_, ?_⟩
  · intro x
    simp only [GIA.global, GIA.local, h4, and_self]
  · intro x
    have := h3.ancestor.inverse hI x
    simpa only [GIA.global, GIA.local, h4] using this
  · intro hv
    refine ⟨by simp [GIA.fineElement, h5, GIA.deref, hv], ?_⟩
    intro hcop
    by_cases hl : l = []
    · subst hl
      cases h3
      simp [GIA.coarseElement, h6 rfl, GIA.deref, hv]
    · have hc : c e = true := by
        cases h3 with
        | here _ => exact absurd rfl hl
        | up hc _ _ => exact hc
      obtain ⟨h8, h9⟩ := h7 hl (by rcases hcop with h | h; exact h; rw [hc] at h; simp at h)
      simp [GIA.coarseElement, h8, GIA.deref, h9]

/-! ## Example and counterexamples -/

/-- A hierarchy of intervals: the left children of `[0,1]`, coordinates are numbers, element `n` has level `n`. -/
def exH : Hierarchy Nat Int where
  father n := if n = 0 then none else some (n - 1)
  level n := n
  toFather n x := x + n
  fromFather n x := x - n

theorem exH_OK : exH.OK := by
  intro e p h
  simp only [exH] at h ⊢
  split at h
  · simp at h
  · simp at h; omega

theorem exH_Inverse : exH.Inverse := by
  intro e x; simp [exH]

theorem exH_ancestor : Ancestor exH (fun e => decide (e ≠ 1)) 3 1 ((id ∘ exH.toFather 2) ∘ exH.toFather 3)
    (exH.fromFather 3 ∘ exH.fromFather 2 ∘ id) :=
  .up rfl rfl (.up rfl rfl (.here rfl))

def exVars : Vars Nat := fun a => if a = 0 then some 3 else none

example := C43_partial exH_OK exH_Inverse exVars [.bind 0 fun e => decide (e ≠ 1)]
  ⟨by
    intro e he
    simp [exVars] at he
    subst he
    exact ⟨_, _, _, exH_ancestor⟩, trivial⟩ rfl

example : (grun exH (exVars, GIA.new) [.bind 0 fun e => decide (e ≠ 1)]).map (fun s =>
    (s.2.fineElement s.1, s.2.coarseElement s.1, s.2.global exH 10, s.2.local exH 15)) = some (some 3, some 1, 15, 10) := by
  decide

/-- The coarse element of a copy is not the ancestor, if fathers were visited: it is the default constructed
`storedFineElement_`. The copy with a new fine element has the same problem, and the copy of a copy reports the fine element as
coarse element. -/
theorem C43_copy_false :
    ((grun exH (exVars, GIA.new) [.bind 0 fun e => decide (e ≠ 1)]).map fun s => s.2.coarseElement s.1) = some (some 1) ∧
    ((grun exH (exVars, GIA.new) [.bind 0 fun e => decide (e ≠ 1), .copy]).map fun s => s.2.coarseElement s.1) = some none ∧
    ((grun exH (exVars, GIA.new) [.bind 0 fun e => decide (e ≠ 1), .copyWith 0]).map fun s => s.2.coarseElement s.1)
      = some none ∧
    ((grun exH (exVars, GIA.new) [.bind 0 fun e => decide (e ≠ 1), .copy, .copy]).map fun s => s.2.coarseElement s.1)
      = some (some 3) := by decide

/-- Binding to a temporary is undefined. -/
theorem C43_temporary_false : GIA.bindTemporary exH exVars GIA.new 3 (fun e => decide (e ≠ 1)) = none := rfl

end Verif.GridFunctions

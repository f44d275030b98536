import Verif.Functions.Leaves
import Verif.Container.Resize

/-!
# Interpolation

Model of `dune/functions/functionspacebases/interpolate.hh`.
-/

namespace Verif.Interpolate

open Verif.IndexTree Verif.Container

variable {E T : Type}

/-! ## Model -/

/-- State of a `CachedDerivativeLocalFunction` (interpolate.hh:107-147): the element the local function `f_` is bound to,
and the optional cached derivative with the element this is bound to. -/
structure LF (E : Type) where
  f : Option E
  deriv : Option (Option E)
  deriving DecidableEq

/-- Constructor, interpolate.hh:114-116. The passed local function may be bound already. -/
def LF.new (f : Option E) : LF E := ⟨f, none⟩

/-- `bind(element)`, interpolate.hh:118-124. -/
def LF.bind (lf : LF E) (e : E) : LF E := ⟨some e, lf.deriv.map fun _ => some e⟩

/-- `derivative(lf)`, interpolate.hh:132-142: the updated cache and the element the returned derivative is bound to.
`init` is the binding of the object returned by the `derivative` of the wrapped function, for each binding of the
latter. -/
def LF.derivative (init : Option E → Option E) (lf : LF E) : LF E × Option E :=
  match lf.deriv with
  | some d => (lf, d)
  | none =>
    let d := match lf.f with
      | some e => some e
      | none => init none
    (⟨lf.f, some d⟩, d)

/-- The marker argument: `AllTrueBitSetVector` (interpolate.hh:32-54) or a nested container. -/
inductive Marker where
  | allTrue
  | bits (c : Ct Bool)

/-- `bitVector[multiIndex]`, interpolate.hh:169. -/
def Marker.test : Marker → MI → Option Bool
  | .allTrue, _ => some true
  | .bits c, m => match access isScalar c m with
    | some (.scalar b) => some b
    | _ => none

/-- The parts of interpolation that are not modelled. `needsDerivative`: whether `localInterpolation().interpolate` of the
leaf with the given tree path requests the derivative of the function. `interp`: the computed coefficients; arguments are
the tree path of the leaf, the element of its finite element, the element the function is bound to, and the element its
derivative is bound to (if requested). The function itself, `nodeToRangeEntry` and `ComponentFunction` are part of
`interp`. -/
structure Interp (E T : Type) where
  needsDerivative : List Nat → E → Bool
  interp : List Nat → E → Option E → Option E → List T
  derivInit : Option E → Option E

/-- The loop body for one function of a leaf, interpolate.hh:166-171. -/
def writeOne (mk : Marker) (index : Nat → Option MI) (node : Node E) (coefs : List T) (c : Ct T) (i : Nat) : Option (Ct T) :=
  ((node.localIndex i).bind index).bind fun m =>
    (mk.test m).bind fun b =>
      if b then (coefs[i]?).bind fun x => assign x c ⟨m, 0⟩ else some c

/-- The callback for one leaf, interpolate.hh:154-172. -/
def interpolateLeaf (I : Interp E T) (mk : Marker) (index : Nat → Option MI) (s : LF E × Ct T) (leaf : List Nat × Node E) :
    Option (LF E × Ct T) :=
  if leaf.2.size = 0 then some s
  else
    leaf.2.data.element.bind fun e =>
      leaf.2.data.feSize.bind fun sz =>
        let r := if I.needsDerivative leaf.1 e then s.1.derivative I.derivInit else (s.1, none)
        let coefs := I.interp leaf.1 e s.1.f r.2
        ((List.range (sz e)).foldlM (writeOne mk index leaf.2 coefs) s.2).map fun c => (r.1, c)

/-- `interpolateLocal`, interpolate.hh:151-173. -/
def interpolateLocal (I : Interp E T) (mk : Marker) (v : SubLocalView E) (s : LF E × Ct T) : Option (LF E × Ct T) :=
  v.tree.bind fun t => t.leaves.foldlM (interpolateLeaf I mk v.index) s

/-- The loop over the elements, interpolate.hh:254-259. -/
def interpolateLoop (I : Interp E T) (mk : Marker) : SubLocalView E → LF E × Ct T → List E → Option (Ct T)
  | _, s, [] => some s.2
  | v, s, e :: es => (v.bind e).bind fun v' =>
      (interpolateLocal I mk v' (s.1.bind e, s.2)).bind fun s' => interpolateLoop I mk v' s' es

/-- `interpolate(basis, coeff, f, bv, nodeToRangeEntry)`, interpolate.hh:204-260, for the subspace basis of `pb` with prefix
path `pre`; `pre = []` is the basis itself. `es` are the elements of the grid view in the order of iteration. -/
def interpolate (rs : CT → List (Ct T) → Nat → List (Ct T)) (pb : PreBasis E) (pre : List Nat) (ty : CT) (I : Interp E T)
    (mk : Marker) (es : List E) (c : Ct T) : Except Err (Ct T) :=
  match resize rs (subspaceBasis pb pre).size ty c with
  | .error e => .error e
  | .ok c1 => match interpolateLoop I mk (subspaceBasis pb pre).localView (LF.new none, c1) es with
    | none => .error .ub
    | some c' => .ok c'

/-! ## Specification -/

/-- One degree of freedom met on the way: element, tree path of the leaf, number of the function and multi-index. -/
structure Visit (E : Type) where
  element : E
  path : List Nat
  i : Nat
  index : MI

/-- All leaf functions of a new local view bound to `e`, leaf by leaf. -/
def visitsOn (pb : PreBasis E) (pre : List Nat) (e : E) : List (Visit E) :=
  match (subspaceBasis pb pre).localView.bind e with
  | none => []
  | some v => match v.tree with
    | none => []
    | some t => t.slots.flatMap fun s => (List.range s.2.2).filterMap fun i =>
        (v.index (s.2.1 + i)).map fun m => ⟨e, s.1, i, m⟩

/-- All leaf functions on all elements. -/
def visits (pb : PreBasis E) (pre : List Nat) (es : List E) : List (Visit E) := es.flatMap (visitsOn pb pre)

/-- The coefficients of a leaf on `e` when both the function and its derivative are bound to `e`. -/
def Interp.coefs (I : Interp E T) (e : E) (path : List Nat) : List T :=
  I.interp path e (some e) (if I.needsDerivative path e then some e else none)

/-! ## C40 -/

inductive LFOp (E : Type) where
  | bind (e : E)
  | derivative
  /-- continue with a copy -/
  | copy

/-- Run a history; the trace records for each request of the derivative the bindings of function and derivative. -/
def LF.run (init : Option E → Option E) : LF E → List (LFOp E) → LF E × List (Option E × Option E)
  | lf, [] => (lf, [])
  | lf, .bind e :: ops => LF.run init (lf.bind e) ops
  | lf, .copy :: ops => LF.run init lf ops
  | lf, .derivative :: ops =>
    let r := lf.derivative init
    let s := LF.run init r.1 ops
    (s.1, (r.1.f, r.2) :: s.2)

/-- The element bound last. -/
def lastBound : Option E → List (LFOp E) → Option E
  | s, [] => s
  | _, .bind e :: ops => lastBound (some e) ops
  | s, .derivative :: ops => lastBound s ops
  | s, .copy :: ops => lastBound s ops

def LF.Inv (lf : LF E) : Prop := ∀ e d, lf.f = some e → lf.deriv = some d → d = some e

theorem LF.Inv.bind (lf : LF E) (e : E) : (lf.bind e).Inv := by
  intro e' d h1 h2
  simp only [LF.bind, Option.some.injEq, Option.map_eq_some_iff] at h1 h2
  obtain ⟨_, _, rfl⟩ := h2
  rw [h1]

theorem LF.derivative_spec (init : Option E → Option E) (lf : LF E) (h : lf.Inv) :
    (lf.derivative init).1.f = lf.f ∧ (lf.derivative init).1.Inv ∧ ∀ e, lf.f = some e → (lf.derivative init).2 = some e := by
  rw [LF.derivative]
  cases hd : lf.deriv with
  | some d => exact ⟨rfl, h, fun e he => h e d he hd⟩
  | none =>
    refine ⟨rfl, ?_, ?_⟩
    · intro e d h1 h2
      simp only at h1 h2
      rw [h1] at h2
      simpa using h2.symm
    · intro e he
      simp [he]

/-- **C40.** After any history of binds, derivative requests and copies, starting with a bound or unbound function: whenever
the derivative is requested while the function is bound to `e`, the returned derivative is bound to `e`; the function itself
is bound to the element bound last. Nothing is assumed about the binding of newly created derivatives. -/
theorem C40 (init : Option E → Option E) (s0 : Option E) (ops : List (LFOp E)) :
    ((LF.new s0).run init ops).1.f = lastBound s0 ops ∧
    ∀ r ∈ ((LF.new s0).run init ops).2, ∀ e, r.1 = some e → r.2 = some e := by
  have key : ∀ (ops : List (LFOp E)) (lf : LF E), lf.Inv →
      (lf.run init ops).1.f = lastBound lf.f ops ∧ ∀ r ∈ (lf.run init ops).2, ∀ e, r.1 = some e → r.2 = some e := by
    intro ops
    induction ops with
    | nil => intro lf _; simp [LF.run, lastBound]
    | cons op ops ih =>
      intro lf h
      cases op with
      | bind e => exact ih (lf.bind e) (LF.Inv.bind lf e)
      | copy => exact ih lf h
      | derivative =>
        obtain ⟨h1, h2, h3⟩ := LF.derivative_spec init lf h
        obtain ⟨h4, h5⟩ := ih _ h2
        refine ⟨by simp only [LF.run, lastBound, h4, h1], ?_⟩
        intro r hr
        simp only [LF.run, List.mem_cons] at hr
        rcases hr with rfl | hr
        · intro e he
          exact h3 e (by rw [← h1]; exact he)
        · exact h5 r hr
  exact key ops _ (by intro e d _ h; simp [LF.new] at h)

/-- The requests of a history are bound to the elements bound last. -/
example : ((LF.new (none : Option Nat)).run id [.derivative, .bind 3, .derivative, .copy, .bind 4, .derivative]).2
    = [(none, none), (some 3, some 3), (some 4, some 4)] := by decide

/-! ## C39 -/

/-- The effect of one visit. -/
def applyVisit (I : Interp E T) (mk : Marker) (c : Ct T) (w : Visit E) : Option (Ct T) :=
  (mk.test w.index).bind fun b =>
    if b then ((I.coefs w.element w.path)[w.i]?).bind fun x => assign x c ⟨w.index, 0⟩ else some c

theorem foldlM_filterMap {α β γ : Type} (g : α → Option β) (f : γ → β → Option γ) (h : γ → α → Option γ) (l : List α)
    (hh : ∀ c, ∀ a ∈ l, h c a = (g a).bind (f c)) (hg : ∀ a ∈ l, (g a).isSome) (c : γ) :
    l.foldlM h c = (l.filterMap g).foldlM f c := by
  induction l generalizing c with
  | nil => rfl
  | cons a l ih =>
    obtain ⟨b, hb⟩ := Option.isSome_iff_exists.mp (hg a (by simp))
    rw [List.foldlM_cons, hh c a (by simp), hb, List.filterMap_cons_some hb, List.foldlM_cons]
    simp only [Option.bind_some]
    congr 1
    funext c'
    exact ih (fun c a ha => hh c a (by simp [ha])) (fun a ha => hg a (by simp [ha])) c'

theorem leaf_eq (I : Interp E T) (mk : Marker) (index : Nat → Option MI) (e : E) (lf : LF E) (c : Ct T)
    (leaf : List Nat × Node E) (hl : Node.LeafOK e leaf.2) (hlf : lf.f = some e) (hinv : lf.Inv)
    (hidx : ∀ i < leaf.2.size, (index (leaf.2.offset + i)).isSome) :
    ∃ lf', lf'.f = some e ∧ lf'.Inv ∧ interpolateLeaf I mk index (lf, c) leaf =
      (((List.range leaf.2.size).filterMap fun i => (index (leaf.2.offset + i)).map fun m => (⟨e, leaf.1, i, m⟩ : Visit E)).foldlM
        (applyVisit I mk) c).map fun c' => (lf', c') := by
  rw [interpolateLeaf]
  by_cases h0 : leaf.2.size = 0
  · refine ⟨lf, hlf, hinv, ?_⟩
    rw [if_pos h0, h0]
    rfl
  · rw [if_neg h0]
    rcases hl with hl | ⟨h1, sz, h2, h3⟩
    · exact absurd hl h0
    · simp only [h1, h2, Option.bind_some, h3]
      obtain ⟨d1, d2, d3⟩ := LF.derivative_spec I.derivInit lf hinv
      refine ⟨(if I.needsDerivative leaf.1 e then lf.derivative I.derivInit else (lf, none)).1, ?_, ?_, ?_⟩
      · split
        · rw [d1, hlf]
        · exact hlf
      · split
        · exact d2
        · exact hinv
      · congr 1
        apply foldlM_filterMap
        · intro c' i hi
          rw [List.mem_range] at hi
          have hc : I.interp leaf.1 e lf.f (if I.needsDerivative leaf.1 e then lf.derivative I.derivInit else (lf, none)).2
              = I.coefs e leaf.1 := by
            rw [Interp.coefs, hlf]
            by_cases hn : I.needsDerivative leaf.1 e = true
            · simp [hn, d3 e hlf]
            · simp [hn]
          rw [writeOne, Node.localIndex, if_pos hi, hc, Option.bind_some]
          cases index (leaf.2.offset + i) with
          | none => rfl
          | some m => rfl
        · intro i hi
          rw [List.mem_range] at hi
          simpa using hidx i hi

theorem leaves_eq (I : Interp E T) (mk : Marker) (index : Nat → Option MI) (e : E) (ls : List (List Nat × Node E)) :
    ∀ (lf : LF E) (c : Ct T), (∀ l ∈ ls, Node.LeafOK e l.2) → lf.f = some e → lf.Inv →
    (∀ l ∈ ls, ∀ i < l.2.size, (index (l.2.offset + i)).isSome) →
    (((ls.flatMap fun l => (List.range l.2.size).filterMap fun i =>
        (index (l.2.offset + i)).map fun m => (⟨e, l.1, i, m⟩ : Visit E)).foldlM (applyVisit I mk) c = none ∧
      ls.foldlM (interpolateLeaf I mk index) (lf, c) = none) ∨
    ∃ lf' c', lf'.f = some e ∧ lf'.Inv ∧ ls.foldlM (interpolateLeaf I mk index) (lf, c) = some (lf', c') ∧
      (ls.flatMap fun l => (List.range l.2.size).filterMap fun i =>
        (index (l.2.offset + i)).map fun m => (⟨e, l.1, i, m⟩ : Visit E)).foldlM (applyVisit I mk) c = some c') := by
  induction ls with
  | nil => intro lf c _ h1 h2 _; exact Or.inr ⟨lf, c, h1, h2, rfl, rfl⟩
  | cons l ls ih =>
    intro lf c hl h1 h2 hidx
    obtain ⟨lf1, h3, h4, h5⟩ := leaf_eq I mk index e lf c l (hl l (by simp)) h1 h2 (hidx l (by simp))
    rw [List.foldlM_cons, h5, List.flatMap_cons, List.foldlM_append]
    cases hf : ((List.range l.2.size).filterMap fun i =>
        (index (l.2.offset + i)).map fun m => (⟨e, l.1, i, m⟩ : Visit E)).foldlM (applyVisit I mk) c with
    | none => exact Or.inl ⟨rfl, rfl⟩
    | some c1 => exact ih lf1 c1 (fun l' hl' => hl l' (by simp [hl'])) h3 h4 (fun l' hl' => hidx l' (by simp [hl']))

theorem filterMap_map {α β : Type} (g : α → Option β) (f : α → β) (l : List α) (h : ∀ a ∈ l, g a = some (f a)) :
    l.filterMap g = l.map f := by
  induction l with
  | nil => rfl
  | cons a l ih =>
    rw [List.filterMap_cons_some (h a (by simp)), List.map_cons, ih (fun a ha => h a (by simp [ha]))]

/-- What is visited on one element, for a view with any history. -/
theorem element_eq {b : PB E} (hb : b.WF) {pre : List Nat} (hp : HasPath b pre) (I : Interp E T) (mk : Marker)
    (v : SubLocalView E) (hv : v.basis = subspaceBasis b.model pre) (hi : LVInv b.model b.spec v.rootLocalView) (e : E) :
    ∃ v', v.bind e = some v' ∧ v'.basis = subspaceBasis b.model pre ∧ LVInv b.model b.spec v'.rootLocalView ∧
      ((visitsOn b.model pre e).map fun w => some w.index)
        = ((b.spec.loc e).filter fun d => pre.isPrefixOf d).map (fun d => some (b.spec.mi d)) ∧
      ∀ (lf : LF E) (c : Ct T),
        ((visitsOn b.model pre e).foldlM (applyVisit I mk) c = none ∧ interpolateLocal I mk v' (lf.bind e, c) = none) ∨
        ∃ lf' c', interpolateLocal I mk v' (lf.bind e, c) = some (lf', c') ∧
          (visitsOn b.model pre e).foldlM (applyVisit I mk) c = some c' := by
  have R := b.refines hb
  have hbl := hi.2.1
  have hbind := LocalView.bind_eq R v.rootLocalView hbl e
  have hbind0 := LocalView.bind_eq R _ (LocalView.fresh_blank b.model) e
  obtain ⟨lv', hb1, hb2, hb3⟩ := hi.bind R e
  have hlv : lv' = ⟨Node.bindTree e 0 v.rootLocalView.tree, some e, (b.spec.loc e).map b.spec.mi⟩ := by
    rw [hbind] at hb1; injection hb1 with h; exact h.symm
  -- the two trees
  have ho := Node.obs_bindTree e 0 v.rootLocalView.tree (LocalView.fresh b.model).tree
    (Node.leafy_of_blank _ _ hbl R.leafy) (Node.leafy_of_blank _ _ (LocalView.fresh_blank _) R.leafy) hi.1
  have hs : (Node.bindTree e 0 v.rootLocalView.tree).skel = (Node.bindTree e 0 (LocalView.fresh b.model).tree).skel := by
    rw [Node.skel_bindTree, Node.skel_bindTree, hi.1]
  obtain ⟨t, ht, L0, L, L1, hloc, hoff, hsz, f1, f2, f3⟩ := path_slot hp hb e 0 _ hbl
  obtain ⟨t0, ht0, hto, hts⟩ := Node.child_congr pre _ _ t ho hs ht
  have hslots := Node.slots_congr t t0 hto hts
  have hleafy : (Node.bindTree e 0 v.rootLocalView.tree).Leafy := by
    refine Node.leafy_of_blank _ _ ?_ R.leafy
    rw [Node.blank_bindTree]; exact hbl
  obtain ⟨g1, g2⟩ := Node.slots_child e 0 _ hleafy pre t ht
  have hvis : visitsOn b.model pre e = t.leaves.flatMap fun l => (List.range l.2.size).filterMap fun i =>
      ((((b.spec.loc e).map b.spec.mi)[l.2.offset + i]?)).map fun m => (⟨e, l.1, i, m⟩ : Visit E) := by
    rw [visitsOn]
    simp only [SubBasis.localView, subspaceBasis, SubLocalView.bind, hbind0, Option.map_some, SubLocalView.tree, ht0,
      SubLocalView.index, LocalView.index]
    rw [← hslots, Node.slots, List.flatMap_map]
  have hlen : ∀ l ∈ t.leaves, ∀ i < l.2.size, l.2.offset + i < (b.spec.loc e).length := by
    intro l hl i hi'
    have hm : l.2.offset + i ∈ List.range' t.offset t.size := by
      rw [← g1, List.mem_flatMap]
      refine ⟨(l.1, l.2.offset, l.2.size), List.mem_map.mpr ⟨l, hl, rfl⟩, List.mem_map.mpr ⟨i, by simpa using hi', rfl⟩⟩
    rw [List.mem_range'_1] at hm
    have := congrArg List.length hloc
    simp only [List.length_append] at this
    omega
  refine ⟨⟨v.basis, lv'⟩, by simp [SubLocalView.bind, hv, subspaceBasis, hb1], hv, hb2, ?_, ?_⟩
  · rw [hvis, filter_slot hloc f1 f2 f3, List.map_flatMap]
    have h1 : (t.leaves.flatMap fun l => ((List.range l.2.size).filterMap fun i =>
        (((b.spec.loc e).map b.spec.mi)[l.2.offset + i]?).map fun m => (⟨e, l.1, i, m⟩ : Visit E)).map fun w => some w.index)
        = (t.slots.flatMap (fun s => (List.range s.2.2).map fun i => s.2.1 + i)).map
          fun j => ((b.spec.loc e).map b.spec.mi)[j]? := by
      rw [List.map_flatMap, Node.slots, List.flatMap_map]
      apply List.flatMap_congr
      intro l hl
      rw [List.map_map, List.map_filterMap]
      apply filterMap_map
      intro i hi'
      rw [List.mem_range] at hi'
      have := hlen l hl i hi'
      simp [List.getElem?_eq_getElem this]
    rw [h1, g1]
    apply List.ext_getElem?
    intro j
    simp only [List.getElem?_map]
    by_cases hj : j < L.length
    · rw [List.getElem?_range' (by omega), List.getElem?_eq_getElem hj]
      simp only [Option.map_some, hloc, hoff, List.append_assoc]
      rw [List.getElem?_append_right (by omega), List.getElem?_append_left (by omega)]
      simp [hj]
    · rw [List.getElem?_eq_none (by simp; omega), List.getElem?_eq_none (by omega)]
      rfl
  · intro lf c
    have := leaves_eq I mk (fun i => ((b.spec.loc e).map b.spec.mi)[i]?) e t.leaves (lf.bind e) c g2 rfl (LF.Inv.bind lf e)
      (by
        intro l hl i hi'
        have := hlen l hl i hi'
        simp [List.getElem?_eq_getElem this])
    have hloc' : interpolateLocal I mk ⟨v.basis, lv'⟩ (lf.bind e, c)
        = t.leaves.foldlM (interpolateLeaf I mk (fun i => ((b.spec.loc e).map b.spec.mi)[i]?)) (lf.bind e, c) := by
      simp only [interpolateLocal, SubLocalView.tree, hv, subspaceBasis, hlv, ht, Option.bind_some]
      rfl
    rw [hvis, hloc']
    rcases this with h | ⟨lf', c', _, _, h1, h2⟩
    · exact Or.inl h
    · exact Or.inr ⟨lf', c', h1, h2⟩

theorem loop_eq {b : PB E} (hb : b.WF) {pre : List Nat} (hp : HasPath b pre) (I : Interp E T) (mk : Marker) (es : List E) :
    ∀ (v : SubLocalView E), v.basis = subspaceBasis b.model pre → LVInv b.model b.spec v.rootLocalView →
    ∀ (lf : LF E) (c : Ct T), interpolateLoop I mk v (lf, c) es = (visits b.model pre es).foldlM (applyVisit I mk) c := by
  induction es with
  | nil => intro v _ _ lf c; rfl
  | cons e es ih =>
    intro v hv hi lf c
    obtain ⟨v', h1, h2, h3, _, h5⟩ := element_eq hb hp I mk v hv hi e
    rw [interpolateLoop, h1, visits, List.flatMap_cons, List.foldlM_append]
    rcases h5 lf c with ⟨h6, h7⟩ | ⟨lf', c', h6, h7⟩
    · simp [h6, h7]
    · simp only [Option.bind_some, h6, h7]
      exact ih v' h2 h3 lf' c'

/-- All visited multi-indices belong to the basis. -/
theorem visits_mem {b : PB E} (hb : b.WF) {pre : List Nat} (hp : HasPath b pre) (es : List E) :
    ∀ w ∈ visits b.model pre es, w.index ∈ IndexSet b.model := by
  intro w hw
  obtain ⟨e, he, hw⟩ := List.mem_flatMap.mp hw
  obtain ⟨_, _, _, _, h, _⟩ := element_eq (T := Nat) hb hp ⟨fun _ _ => false, fun _ _ _ _ => [], id⟩ .allTrue
    (subspaceBasis b.model pre).localView rfl (LVInv.fresh _ _) e
  have h1 : some w.index ∈ (visitsOn b.model pre e).map fun w => some w.index := List.mem_map.mpr ⟨w, hw, rfl⟩
  rw [h] at h1
  obtain ⟨d, hd, hd'⟩ := List.mem_map.mp h1
  have hd := (List.mem_filter.mp hd).1
  injection hd' with hd'
  refine ⟨e, (b.spec.loc e).map b.spec.mi, localIndices_eq (b.refines hb) e, ?_⟩
  rw [← hd']
  exact List.mem_map_of_mem hd

/-- The effect of a list of writes. -/
theorem writes_spec (I : Interp E T) (mk : Marker) (W : List (Visit E)) :
    ∀ c : Ct T, (∀ w ∈ W, (mk.test w.index).isSome) → (∀ w ∈ W, w.i < (I.coefs w.element w.path).length) →
    (∀ w ∈ W, ∃ x, Entry c w.index x) →
    ∃ c', W.foldlM (applyVisit I mk) c = some c' ∧
      (∀ q x, Ct.at q c = some (.scalar x) → ∃ y, Ct.at q c' = some (.scalar y)) ∧
      ∀ q x, Ct.at q c = some (.scalar x) → (∀ w ∈ W, mk.test w.index = some true → ¬ Pads w.index q) →
        Ct.at q c' = some (.scalar x) := by
  induction W with
  | nil => intro c _ _ _; exact ⟨c, rfl, fun q x h => ⟨x, h⟩, fun q x h _ => h⟩
  | cons w W ih =>
    intro c h1 h2 h3
    obtain ⟨m, hm⟩ := Option.isSome_iff_exists.mp (h1 w (by simp))
    rw [List.foldlM_cons]
    cases m with
    | false =>
      have : applyVisit I mk c w = some c := by simp [applyVisit, hm]
      rw [this]
      obtain ⟨c', g1, g2, g3⟩ := ih c (fun w hw => h1 w (by simp [hw])) (fun w hw => h2 w (by simp [hw]))
        (fun w hw => h3 w (by simp [hw]))
      exact ⟨c', g1, g2, fun q x hq hn => g3 q x hq (fun w hw => hn w (by simp [hw]))⟩
    | true =>
      obtain ⟨x0, k, hk⟩ := h3 w (by simp)
      have hi := h2 w (by simp)
      obtain ⟨c1, a1, a2, a3⟩ := assign_path (I.coefs w.element w.path)[w.i] _ c x0 ⟨w.index, 0⟩ ⟨k, rfl⟩ hk
      have : applyVisit I mk c w = some c1 := by
        simp [applyVisit, hm, List.getElem?_eq_getElem hi, a1]
      rw [this]
      have hkeep : ∀ q x, Ct.at q c = some (.scalar x) → ∃ y, Ct.at q c1 = some (.scalar y) := by
        intro q x hq
        by_cases he : q = w.index ++ List.replicate k 0
        · exact ⟨_, he ▸ a2⟩
        · exact ⟨x, a3 q x hq he⟩
      obtain ⟨c', g1, g2, g3⟩ := ih c1 (fun w hw => h1 w (by simp [hw])) (fun w hw => h2 w (by simp [hw]))
        (fun w' hw' => by
          obtain ⟨x, k', hk'⟩ := h3 w' (by simp [hw'])
          obtain ⟨y, hy⟩ := hkeep _ _ hk'
          exact ⟨y, k', hy⟩)
      refine ⟨c', g1, ?_, ?_⟩
      · intro q x hq
        obtain ⟨y, hy⟩ := hkeep q x hq
        exact g2 q y hy
      · intro q x hq hn
        refine g3 q x (a3 q x hq ?_) (fun w hw => hn w (by simp [hw]))
        rintro rfl
        exact hn w (by simp) hm ⟨k, rfl⟩

/-- **C39.** For every basis tree, every (subspace) basis of it, every list of elements, every container type, marker and
local interpolation: if the resize succeeds with container `c1` in which all multi-indices of the basis address a coefficient,
the marker can be read for all indices and the local interpolations return enough coefficients, then `interpolate` succeeds and
 * a marked coefficient has the value computed for its last visit, by a leaf on an element `e` to which the local view, the
   function, and its derivative are bound;
 * every scalar entry of the container that is not addressed by a marked visited multi-index is unchanged, in particular
   all unmarked coefficients and all coefficients outside of the subspace. -/
theorem C39 (rs : CT → List (Ct T) → Nat → List (Ct T)) (b : PB E) (hb : b.WF) (pre : List Nat) (hp : HasPath b pre) (ty : CT)
    (I : Interp E T) (mk : Marker) (es : List E) (c c1 : Ct T) (hc1 : resize rs b.model.size ty c = .ok c1)
    (hent : ∀ m ∈ IndexSet b.model, ∃ x, Entry c1 m x)
    (hmk : ∀ w ∈ visits b.model pre es, (mk.test w.index).isSome)
    (hI : ∀ w ∈ visits b.model pre es, w.i < (I.coefs w.element w.path).length) :
    ∃ c', interpolate rs b.model pre ty I mk es c = .ok c' ∧
      (∀ V1 w V2, visits b.model pre es = V1 ++ w :: V2 → mk.test w.index = some true → (∀ w' ∈ V2, w'.index ≠ w.index) →
        ∃ x, (I.coefs w.element w.path)[w.i]? = some x ∧ access isScalar c' w.index = some (.scalar x)) ∧
      (∀ q x, Ct.at q c1 = some (.scalar x) →
        (∀ w ∈ visits b.model pre es, mk.test w.index = some true → ¬ Pads w.index q) → Ct.at q c' = some (.scalar x)) ∧
      (∀ m ∈ IndexSet b.model, (∀ w ∈ visits b.model pre es, w.index = m → mk.test m = some false) →
        access isScalar c' m = access isScalar c1 m) := by
  have hmem := visits_mem hb hp es
  have hpf := C04_prefixFree b hb
  have hloop := loop_eq hb hp I mk es (subspaceBasis b.model pre).localView rfl (LVInv.fresh _ _) (LF.new none) c1
  obtain ⟨c', g1, g2, g3⟩ := writes_spec I mk _ c1 hmk hI (fun w hw => hent _ (hmem w hw))
  refine ⟨c', ?_, ?_, g3, ?_⟩
  · have : resize rs (subspaceBasis b.model pre).size ty c = .ok c1 := hc1
    rw [interpolate, this]
    simp only [hloop, g1]
  · intro V1 w V2 hV hw hlast
    rw [hV] at hmk hI hmem g1
    obtain ⟨ca, a1, a2, a3⟩ := writes_spec I mk V1 c1 (fun w hw => hmk w (by simp [hw])) (fun w hw => hI w (by simp [hw]))
      (fun w' hw' => hent _ (hmem w' (by simp [hw'])))
    obtain ⟨x0, k, hk⟩ := hent w.index (hmem w (by simp))
    obtain ⟨x1, hk1⟩ := a2 _ _ hk
    have hi := hI w (by simp)
    obtain ⟨cb, b1, b2, b3⟩ := assign_path (I.coefs w.element w.path)[w.i] _ ca x1 ⟨w.index, 0⟩ ⟨k, rfl⟩ hk1
    have hav : applyVisit I mk ca w = some cb := by
      simp [applyVisit, hw, List.getElem?_eq_getElem hi, b1]
    have hkeep : ∀ q x, Ct.at q c1 = some (.scalar x) → ∃ y, Ct.at q cb = some (.scalar y) := by
      intro q x hq
      obtain ⟨y, hy⟩ := a2 q x hq
      by_cases he : q = w.index ++ List.replicate k 0
      · exact ⟨_, he ▸ b2⟩
      · exact ⟨y, b3 q y hy he⟩
    obtain ⟨cc, d1, d2, d3⟩ := writes_spec I mk V2 cb (fun w hw => hmk w (by simp [hw])) (fun w hw => hI w (by simp [hw]))
      (fun w' hw' => by
        obtain ⟨x, k', hk'⟩ := hent w'.index (hmem w' (by simp [hw']))
        obtain ⟨y, hy⟩ := hkeep _ _ hk'
        exact ⟨y, k', hy⟩)
    have hcc : cc = c' := by
      rw [List.foldlM_append, a1] at g1
      simp only [Option.bind_eq_bind, Option.bind_some] at g1
      rw [List.foldlM_cons, hav] at g1
      simp only [Option.bind_eq_bind, Option.bind_some] at g1
      rw [d1] at g1
      injection g1
    subst hcc
    refine ⟨_, List.getElem?_eq_getElem hi, C35_access _ _ _ ⟨k, d3 _ _ b2 ?_⟩⟩
    rintro w' hw' _ ⟨k', hk'⟩
    rcases pads_prefix hk' with h | h
    · exact hlast w' hw' (hpf _ (hmem w (by simp)) _ (hmem w' (by simp [hw'])) h).symm
    · exact hlast w' hw' (hpf _ (hmem w' (by simp [hw'])) _ (hmem w (by simp)) h)
  · intro m hm hun
    obtain ⟨x, k, hk⟩ := hent m hm
    rw [C35_access _ _ _ ⟨k, hk⟩, C35_access _ _ _ ⟨k, g3 _ _ hk ?_⟩]
    rintro w hw hmt ⟨k', hk'⟩
    have : w.index = m := by
      rcases pads_prefix hk' with h | h
      · exact (hpf _ hm _ (hmem w hw) h).symm
      · exact hpf _ (hmem w hw) _ hm h
    have h2 := hun w hw this
    rw [this, h2] at hmt
    simp at hmt

/-- **C39, visits.** On each element exactly the degrees of freedom of the (sub)tree are visited, in the order of the local
indices. -/
theorem C39_visits (b : PB E) (hb : b.WF) (pre : List Nat) (hp : HasPath b pre) (e : E) :
    (visitsOn b.model pre e).map (fun w => w.index) = ((b.spec.loc e).filter fun d => pre.isPrefixOf d).map b.spec.mi ∧
    ∀ w ∈ visitsOn b.model pre e, w.element = e := by
  obtain ⟨_, _, _, _, h, _⟩ := element_eq (T := Nat) hb hp ⟨fun _ _ => false, fun _ _ _ _ => [], id⟩ .allTrue
    (subspaceBasis b.model pre).localView rfl (LVInv.fresh _ _) e
  constructor
  · have h' : ((visitsOn b.model pre e).map fun w => w.index).map some
        = (((b.spec.loc e).filter fun d => pre.isPrefixOf d).map b.spec.mi).map some := by
      simpa [Function.comp_def] using h
    exact (List.map_injective_iff.mpr (Option.some_injective _)) h'
  · intro w hw
    rw [visitsOn] at hw
    split at hw
    · simp at hw
    · split at hw
      · simp at hw
      · simp only [List.mem_flatMap, List.mem_filterMap, Option.map_eq_some_iff] at hw
        obtain ⟨_, _, _, _, _, _, rfl⟩ := hw
        rfl

/-- **C39 for containers resized by the ISTL backend.** The conditions on the containers follow from their types: if the
container type has single coefficients at the multi-indices of the basis, and the markers are a container resized to the same
basis (or everything is marked), then `interpolate` either throws since `resize` does, or it succeeds; afterwards each marked
coefficient that was visited has a value computed on some visited element, and the unmarked ones are those after `resize`. -/
theorem C39_basis {rs : CT → List (Ct T) → Nat → List (Ct T)} (hrs : ResizeOK rs) (b : PB E) (hb : b.WF) (pre : List Nat)
    (hp : HasPath b pre) (ty : CT) (I : Interp E T) (mk : Marker) (es : List E) (c : Ct T) (hc : HasType ty c)
    (hty : ∀ m ∈ IndexSet b.model, ∀ t, CT.at m ty = some t → t.Padded)
    (hmk : mk = .allTrue ∨ ∃ bits, mk = .bits bits ∧ ∀ m ∈ IndexSet b.model, ∃ x, Entry bits m x)
    (hI : ∀ w ∈ visits b.model pre es, w.i < (I.coefs w.element w.path).length) :
    (∃ e, resize rs b.model.size ty c = .error e ∧ interpolate rs b.model pre ty I mk es c = .error e) ∨
    ∃ c1 c', resize rs b.model.size ty c = .ok c1 ∧ interpolate rs b.model pre ty I mk es c = .ok c' ∧
      ∀ m ∈ IndexSet b.model, ∃ old new, Entry c1 m old ∧ access isScalar c' m = some (.scalar new) ∧
        (mk.test m = some false → new = old) ∧
        ((∀ w ∈ visits b.model pre es, w.index ≠ m) → new = old) ∧
        (mk.test m = some true → (∃ w ∈ visits b.model pre es, w.index = m) →
          ∃ w ∈ visits b.model pre es, w.index = m ∧ (I.coefs w.element w.path)[w.i]? = some new) := by
  cases hr : resize rs b.model.size ty c with
  | error e =>
    have : resize rs (subspaceBasis b.model pre).size ty c = .error e := hr
    exact Or.inl ⟨e, rfl, by rw [interpolate, this]⟩
  | ok c1 =>
    have hent : ∀ m ∈ IndexSet b.model, ∃ x, Entry c1 m x := fun m hm => C33_entry hrs b hb ty c c1 hc hr m hm (hty m hm)
    have hmem := visits_mem hb hp es
    have htest : ∀ m ∈ IndexSet b.model, (mk.test m).isSome := by
      intro m hm
      rcases hmk with rfl | ⟨bits, rfl, hbits⟩
      · rfl
      · obtain ⟨x, hx⟩ := hbits m hm
        simp [Marker.test, C35_access _ _ _ hx]
    obtain ⟨c', h1, h2, h3, h4⟩ := C39 rs b hb pre hp ty I mk es c c1 hr hent (fun w hw => htest _ (hmem w hw)) hI
    refine Or.inr ⟨c1, c', rfl, h1, ?_⟩
    intro m hm
    obtain ⟨old, hold⟩ := hent m hm
    have hacc := C35_access _ _ _ hold
    by_cases hv : ∃ w ∈ visits b.model pre es, w.index = m
    · obtain ⟨bm, hbm⟩ := Option.isSome_iff_exists.mp (htest m hm)
      cases bm with
      | false =>
        have := h4 m hm (fun w _ _ => hbm)
        rw [hacc] at this
        refine ⟨old, old, hold, this, fun _ => rfl, fun _ => rfl, ?_⟩
        rw [hbm]; intro h; simp at h
      | true =>
        obtain ⟨w, hw, hwm⟩ := hv
        have hsplit : ∀ (l : List (Visit E)), (∃ w ∈ l, w.index = m) → ∃ V1 w V2, l = V1 ++ w :: V2 ∧ w.index = m ∧
            ∀ w' ∈ V2, w'.index ≠ w.index := by
          intro l
          induction l with
          | nil => rintro ⟨w, hw, _⟩; simp at hw
          | cons a l ih =>
            rintro ⟨w, hw, hwm⟩
            by_cases hl : ∃ w ∈ l, w.index = m
            · obtain ⟨V1, w, V2, rfl, h2, h3⟩ := ih hl
              exact ⟨a :: V1, w, V2, rfl, h2, h3⟩
            · have ha : a.index = m := by
                rcases List.mem_cons.mp hw with rfl | hw
                · exact hwm
                · exact absurd ⟨w, hw, hwm⟩ hl
              exact ⟨[], a, l, rfl, ha, fun w' hw' he => hl ⟨w', hw', he.trans ha⟩⟩
        obtain ⟨V1, w1, V2, hV, hw1, hlast⟩ := hsplit _ ⟨w, hw, hwm⟩
        obtain ⟨x, hx, hx'⟩ := h2 V1 w1 V2 hV (by rw [hw1]; exact hbm) hlast
        rw [hw1] at hx'
        refine ⟨old, x, hold, hx', ?_, ?_, ?_⟩
        · rw [hbm]; intro h; simp at h
        · intro h; exact absurd hwm (h w hw)
        · intro _ _
          exact ⟨w1, by rw [hV]; simp, hw1, hx⟩
    · have := h4 m hm (fun w hw hwm => absurd ⟨w, hw, hwm⟩ hv)
      rw [hacc] at this
      exact ⟨old, old, hold, this, fun _ => rfl, fun _ => rfl, fun _ h => absurd h hv⟩

/-- **C39 without markers** (interpolate.hh:298-302): after `interpolate(basis, coeff, f)` each coefficient has the value
computed on the last visited element that contains it. -/
theorem C39_all {rs : CT → List (Ct T) → Nat → List (Ct T)} (hrs : ResizeOK rs) (b : PB E) (hb : b.WF) (pre : List Nat)
    (hp : HasPath b pre) (ty : CT) (I : Interp E T) (es : List E) (c c1 : Ct T) (hc : HasType ty c)
    (hr : resize rs b.model.size ty c = .ok c1)
    (hty : ∀ m ∈ IndexSet b.model, ∀ t, CT.at m ty = some t → t.Padded)
    (hI : ∀ w ∈ visits b.model pre es, w.i < (I.coefs w.element w.path).length) :
    ∃ c', interpolate rs b.model pre ty I .allTrue es c = .ok c' ∧
      ∀ V1 w V2, visits b.model pre es = V1 ++ w :: V2 → (∀ w' ∈ V2, w'.index ≠ w.index) →
        ∃ x, (I.coefs w.element w.path)[w.i]? = some x ∧ access isScalar c' w.index = some (.scalar x) := by
  obtain ⟨c', h1, h2, _⟩ := C39 rs b hb pre hp ty I .allTrue es c c1 hr
    (fun m hm => C33_entry hrs b hb ty c c1 hc hr m hm (hty m hm)) (fun _ _ => rfl) hI
  exact ⟨c', h1, fun V1 w V2 hV hlast => h2 V1 w V2 hV rfl hlast⟩

/-! Example: two elements sharing one vertex, one component of a power basis, some entries marked. -/

def exBasis : PB Bool := .power .blockedInt 2 (.leaf exLeaf)
/-- Coefficients: ten times the element plus one hundred times the binding of the derivative plus the local number. -/
def exInterp : Interp Bool Nat where
  needsDerivative p _ := p.length == 0
  interp _ e f d := [0, 1].map fun i => (if e then 10 else 20) + (if f = some e then 0 else 1000)
    + (match d with | some true => 100 | some false => 200 | none => 0) + i
  derivInit _ := none
def exCoef : Ct Nat := .vec [.arr [.scalar 1, .scalar 2], .arr [.scalar 3, .scalar 4], .arr [.scalar 5, .scalar 6]]
def exBits : Ct Bool := .vec [.arr [.scalar true, .scalar true], .arr [.scalar false, .scalar true], .arr [.scalar true, .scalar true]]


/-- Values at the six multi-indices after interpolation. -/
def exValues (pre : List Nat) (es : List Bool) : List (Option Nat) :=
  match interpolate (stdResize 0) exBasis.model pre (.vec (.arr 2 .scalar)) exInterp (.bits exBits) es exCoef with
  | .error _ => []
  | .ok c => [[0, 0], [0, 1], [1, 0], [1, 1], [2, 0], [2, 1]].map fun m => match access isScalar c m with
    | some (.scalar x) => some x
    | _ => none

example : exValues [1] [true, false] = [some 1, some 110, some 3, some 221, some 5, some 220] := by decide +kernel
example : exValues [] [false, true] = [some 10, some 10, some 3, some 11, some 20, some 20] := by decide +kernel

end Verif.Interpolate

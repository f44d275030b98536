import Verif.Functions.Leaves

/-!
# Nodes of local views

Local views and their nodes as C++ objects: the leaf nodes of a bound tree keep pointers to the element stored in the
local view and to a finite element stored in a node of the local view. Copy construction and the implicit copy
assignment of `DefaultLocalView` treat these pointers differently. The Python interface hands out references to
the root node and copies of all other nodes.

Source: defaultlocalview.hh, nodes.hh, lagrangebasis.hh, lfeprebasismixin.hh, globalvaluedlocalfiniteelement.hh,
dune/python/functions/globalbasis.hh, dune/python/functions/tree.hh.
-/

namespace Verif.Nodes

open Verif.IndexTree

variable {E : Type}

/-! ## Model -/

/-- A `const Element&` or `const Element*`: the value of the element when the reference was formed, and the local view
(by number) whose member `element_` (defaultlocalview.hh:175) it refers to. `DefaultLocalView::bind` forms it by `*element_`
(defaultlocalview.hh:98). -/
structure Ref (E : Type) where
  val : E
  view : Nat

/-- A tree object of Python: either a `std::shared_ptr` without ownership to the member `tree_` of a local view
(dune/python/functions/globalbasis.hh:189, `stackobject_to_shared_ptr`), or an object that owns a copy of a node: `pybind11::cast`
of an lvalue copies (dune/python/functions/tree.hh:60-66), and nodes hold their children by value (nodes.hh:299, 354, 408). -/
inductive PyNode (E : Type) where
  | root (view : Nat)
  | owned (n : Node (Ref E))

/-- All local views of one basis, `none` for destroyed ones, and the tree objects of Python. -/
structure World (E : Type) where
  views : List (Option (LocalView (Ref E)))
  nodes : List (PyNode E)

def World.empty : World E := ⟨[], []⟩

/-- A local view that exists. -/
def World.view (W : World E) (i : Nat) : Option (LocalView (Ref E)) := (W.views[i]?).join

/-- The node a tree object refers to. -/
def World.node (W : World E) (h : Nat) : Option (Node (Ref E)) :=
  (W.nodes[h]?).bind fun x => match x with
    | .root i => (W.view i).map (·.tree)
    | .owned n => some n

inductive Op (E : Type) where
  /-- `basis.localView()` -/
  | new
  /-- copy construction -/
  | copy (i : Nat)
  /-- copy assignment `view_i = view_j` -/
  | assign (i j : Nat)
  | bind (i : Nat) (e : E)
  | unbind (i : Nat)
  | destroy (i : Nat)
  /-- Python: `view_i.tree()` -/
  | tree (i : Nat)
  /-- Python: `node_h.child(k)` -/
  | child (h k : Nat)

/-- One operation; `none`: undefined behaviour, or an exception for a child that does not exist.

* `copy`: defaultlocalview.hh:81-88, the new view has a new tree and binds it to its own copy of the element.
* `assign`: the class declares no assignment operator, all members are assigned (defaultlocalview.hh:174-177); the nodes
  keep the pointers of the nodes they are assigned from.
* `bind`: defaultlocalview.hh:95-101. `element_ = e` first, so that `*element_` is the element stored in this view.
* `unbind`: defaultlocalview.hh:123-126.
* `child`: `accessors.at(i)` (tree.hh:76-84) throws for `i` out of range. -/
def step (pb : PreBasis (Ref E)) (W : World E) : Op E → Option (World E)
  | .new => some { W with views := W.views ++ [some (LocalView.fresh pb)] }
  | .copy i => (W.view i).bind fun lv =>
      (match lv.element with
        | none => some (LocalView.fresh pb)
        | some r => (LocalView.fresh pb).bind pb ⟨r.val, W.views.length⟩).bind fun lv' =>
      some { W with views := W.views ++ [some lv'] }
  | .assign i j => (W.view i).bind fun _ => (W.view j).bind fun lv =>
      some { W with views := W.views.set i (some
        { tree := lv.tree, element := lv.element.map fun r => ⟨r.val, i⟩, indices := lv.indices }) }
  | .bind i e => (W.view i).bind fun lv => (lv.bind pb ⟨e, i⟩).bind fun lv' =>
      some { W with views := W.views.set i (some lv') }
  | .unbind i => (W.view i).bind fun lv => some { W with views := W.views.set i (some lv.unbind) }
  | .destroy i => (W.view i).bind fun _ => some { W with views := W.views.set i none }
  | .tree i => (W.view i).bind fun _ => some { W with nodes := W.nodes ++ [.root i] }
  | .child h k => (W.node h).bind fun n => (n.children[k]?).bind fun c => some { W with nodes := W.nodes ++ [.owned c] }

def run (pb : PreBasis (Ref E)) : World E → List (Op E) → Option (World E)
  | W, [] => some W
  | W, op :: ops => (step pb W op).bind fun W' => run pb W' ops

/-- Reading through an element pointer: the local view must exist and must be bound. -/
def World.deref (W : World E) (r : Ref E) : Option E := (W.view r.view).bind fun lv => lv.element.map (·.val)

/-- `leaf.element()` (lagrangebasis.hh:965-968, lfeprebasismixin.hh:135-139, raviartthomasbasis.hh:347-350). -/
def World.element (W : World E) (n : Node (Ref E)) : Option E := n.data.element.bind W.deref

/-- How a leaf node stores its finite element.

* `cached`: pointer into the member `cache_` of the node that was bound (lagrangebasis.hh:983, 989-990).
* `own`: member of the node (refinedlagrangebasis.hh:186, rannacherturekbasis.hh:192), or pointer into the pre-basis (lfeprebasismixin.hh:160).
* `global`: member of the node that keeps the element pointer for the Piola transformation
  (raviartthomasbasis.hh:362-367, globalvaluedlocalfiniteelement.hh:261-264, 336). -/
inductive Kind where
  | cached | own | global

/-- What determines a finite element: the element it was chosen for (geometry type, orientation) and the element whose
geometry is used in its evaluation. -/
structure FE (E : Type) where
  chosenFor : E
  geometry : Option E

/-- `leaf.finiteElement()`; dangling pointers are undefined. The caches of all nodes of one leaf basis
have the same content. -/
def World.finiteElement (W : World E) (k : Kind) (n : Node (Ref E)) : Option (FE E) :=
  n.data.element.bind fun r => match k with
    | .cached => (W.view r.view).map fun _ => ⟨r.val, none⟩
    | .own => some ⟨r.val, none⟩
    | .global => (W.deref r).map fun e => ⟨r.val, some e⟩

/-- The finite element of a leaf of kind `k` on element `e`. -/
def expectedFE (k : Kind) (e : E) : FE E := match k with
  | .cached => ⟨e, none⟩
  | .own => ⟨e, none⟩
  | .global => ⟨e, some e⟩

/-! ## Specification

What each object describes, without pointers. -/

/-- A local view: the element it is bound to, and the element and the view of the last `bind` its data comes from. -/
structure SView (E : Type) where
  bound : Option E
  data : Option (Ref E)

/-- A tree object: root of a view, or the node with path `path` as left by the given `bind`. -/
inductive SNode (E : Type) where
  | root (view : Nat)
  | snapshot (path : List Nat) (data : Option (Ref E))

structure Spec (E : Type) where
  views : List (Option (SView E))
  nodes : List (SNode E)

def Spec.empty : Spec E := ⟨[], []⟩

def Spec.view (S : Spec E) (i : Nat) : Option (SView E) := (S.views[i]?).join

/-- `hasNode p`: the ansatz tree has a node with path `p`. -/
def Spec.step (hasNode : List Nat → Bool) (S : Spec E) : Op E → Option (Spec E)
  | .new => some { S with views := S.views ++ [some ⟨none, none⟩] }
  | .copy i => (S.view i).bind fun v =>
      some { S with views := S.views ++ [some ⟨v.bound, v.bound.map fun e => ⟨e, S.views.length⟩⟩] }
  | .assign i j => (S.view i).bind fun _ => (S.view j).bind fun v => some { S with views := S.views.set i (some v) }
  | .bind i e => (S.view i).bind fun _ => some { S with views := S.views.set i (some ⟨some e, some ⟨e, i⟩⟩) }
  | .unbind i => (S.view i).bind fun v => some { S with views := S.views.set i (some { v with bound := none }) }
  | .destroy i => (S.view i).bind fun _ => some { S with views := S.views.set i none }
  | .tree i => (S.view i).bind fun _ => some { S with nodes := S.nodes ++ [.root i] }
  | .child h k => (S.nodes[h]?).bind fun x => match x with
      | .root i => (S.view i).bind fun v =>
          if hasNode [k] then some { S with nodes := S.nodes ++ [.snapshot [k] v.data] } else none
      | .snapshot p d => if hasNode (p ++ [k]) then some { S with nodes := S.nodes ++ [.snapshot (p ++ [k]) d] } else none

def Spec.run (hasNode : List Nat → Bool) : Spec E → List (Op E) → Option (Spec E)
  | S, [] => some S
  | S, op :: ops => (S.step hasNode op).bind fun S' => Spec.run hasNode S' ops

/-- The tree of a new view after one `bind` (or none). -/
def referenceTree (pb : PreBasis (Ref E)) (d : Option (Ref E)) : Option (Node (Ref E)) := match d with
  | none => some (LocalView.fresh pb).tree
  | some r => ((LocalView.fresh pb).bind pb r).map (·.tree)

/-- The ansatz tree has a node with this path. -/
def hasNode (pb : PreBasis (Ref E)) (p : List Nat) : Bool := (Node.child p pb.makeNode).isSome

/-! ## Proof -/

section
variable {pb : PreBasis (Ref E)} {sp : IndexTree.Spec (Ref E)}

/-- A tree that looks like the tree of a new view after the given `bind`. -/
structure Looks (pb : PreBasis (Ref E)) (d : Option (Ref E)) (t : Node (Ref E)) : Prop where
  skel : t.skel = (LocalView.fresh pb).tree.skel
  blank : t.blank = pb.makeNode.blank
  unbound : d = none → t = (LocalView.fresh pb).tree
  bound : ∀ r, d = some r → ∃ n : Node (Ref E), n.skel = (LocalView.fresh pb).tree.skel ∧ n.blank = pb.makeNode.blank ∧
    t = Node.bindTree r 0 n

theorem Looks.fresh (pb : PreBasis (Ref E)) : Looks pb none (LocalView.fresh pb).tree :=
  ⟨rfl, LocalView.fresh_blank pb, fun _ => rfl, by simp⟩

theorem Looks.bind {d : Option (Ref E)} {t : Node (Ref E)} (h : Looks pb d t) (r : Ref E) :
    Looks pb (some r) (Node.bindTree r 0 t) := by
  refine ⟨?_, ?_, by simp, ?_⟩
  · rw [Node.skel_bindTree]; exact h.skel
  · rw [Node.blank_bindTree]; exact h.blank
  · rintro r' ⟨⟩
    exact ⟨t, h.skel, h.blank, rfl⟩

theorem Looks.leafy {d : Option (Ref E)} {t : Node (Ref E)} (R : Refines pb sp) (h : Looks pb d t) : t.Leafy :=
  Node.leafy_of_blank _ _ h.blank R.leafy

/-- Looking like the reference tree includes all observable state. -/
theorem Looks.obs {d : Option (Ref E)} {t : Node (Ref E)} (R : Refines pb sp) (h : Looks pb d t) :
    ∃ t0, referenceTree pb d = some t0 ∧ t.obs = t0.obs ∧ t.skel = t0.skel := by
  cases d with
  | none => exact ⟨_, rfl, by rw [h.unbound rfl], by rw [h.unbound rfl]⟩
  | some r =>
    obtain ⟨n, h1, h2, rfl⟩ := h.bound r rfl
    refine ⟨Node.bindTree r 0 (LocalView.fresh pb).tree, ?_, ?_, ?_⟩
    · simp [referenceTree, LocalView.bind_eq R _ (LocalView.fresh_blank pb)]
    · exact Node.obs_bindTree r 0 _ _ (Node.leafy_of_blank _ _ h2 R.leafy)
        (Node.leafy_of_blank _ _ (LocalView.fresh_blank _) R.leafy) h1
    · rw [Node.skel_bindTree, Node.skel_bindTree]; exact h1

theorem Looks.hasNode {d : Option (Ref E)} {t : Node (Ref E)} (h : Looks pb d t) (p : List Nat) :
    (Node.child p t).isSome = Nodes.hasNode pb p := by
  rw [Nodes.hasNode, ← child_isSome_blank p t, h.blank, child_isSome_blank]

/-- A view of the model and a view of the specification. -/
structure ViewRel (pb : PreBasis (Ref E)) (sp : IndexTree.Spec (Ref E)) (i : Nat) (lv : LocalView (Ref E)) (v : SView E) : Prop where
  looks : Looks pb v.data lv.tree
  element : lv.element = v.bound.map fun e => ⟨e, i⟩
  val : ∀ e, v.bound = some e → ∃ r, v.data = some r ∧ r.val = e ∧ lv.indices = (sp.loc r).map sp.mi

def NodeRel (pb : PreBasis (Ref E)) : PyNode E → SNode E → Prop
  | .root i, .root j => i = j
  | .owned n, .snapshot p d => ∃ t, Looks pb d t ∧ Node.child p t = some n
  | _, _ => False

structure Rel (pb : PreBasis (Ref E)) (sp : IndexTree.Spec (Ref E)) (W : World E) (S : Spec E) : Prop where
  len : W.views.length = S.views.length
  views : ∀ i : Nat, (W.view i = none ↔ S.view i = none) ∧
    ∀ lv v, W.view i = some lv → S.view i = some v → ViewRel pb sp i lv v
  nlen : W.nodes.length = S.nodes.length
  nodes : ∀ (h : Nat) x y, W.nodes[h]? = some x → S.nodes[h]? = some y → NodeRel pb x y

theorem Rel.empty (pb : PreBasis (Ref E)) (sp : IndexTree.Spec (Ref E)) : Rel pb sp World.empty Spec.empty := by
  constructor <;> simp [World.empty, Spec.empty, World.view, Spec.view]

theorem Rel.get {W : World E} {S : Spec E} (H : Rel pb sp W S) {i : Nat} {v : SView E} (h : S.view i = some v) :
    ∃ lv, W.view i = some lv ∧ ViewRel pb sp i lv v := by
  cases hw : W.view i with
  | none => rw [(H.views i).1.mp hw] at h; cases h
  | some lv => exact ⟨lv, rfl, (H.views i).2 lv v hw h⟩

theorem view_append_lt {α : Type} (l : List (Option α)) (x : Option α) (i : Nat) :
    ((l ++ [x])[i]?).join = if i = l.length then x else (l[i]?).join := by
  rcases lt_trichotomy i l.length with h | h | h
  · rw [List.getElem?_append_left h, if_neg (by omega)]
  · subst h; simp
  · rw [if_neg (by omega), List.getElem?_append_right (by omega), List.getElem?_eq_none (by simp; omega),
      List.getElem?_eq_none (by omega)]

theorem view_set {α : Type} (l : List (Option α)) (x : Option α) (i j : Nat) (h : (l[i]?).join.isSome) :
    ((l.set i x)[j]?).join = if j = i then x else (l[j]?).join := by
  by_cases hj : j = i
  · subst hj
    have : j < l.length := by
      by_contra hc
      rw [List.getElem?_eq_none (by omega)] at h
      simp at h
    simp [this]
  · simp [hj, Ne.symm hj]

/-- Appending related views. -/
theorem Rel.append {W : World E} {S : Spec E} (H : Rel pb sp W S) {lv : LocalView (Ref E)} {v : SView E}
    (h : ViewRel pb sp W.views.length lv v) :
    Rel pb sp { W with views := W.views ++ [some lv] } { S with views := S.views ++ [some v] } where
  len := by simp [H.len]
  views := by
    intro i
    simp only [World.view, Spec.view, view_append_lt, ← H.len]
    split
    · next hi => subst hi; simpa using h
    · exact H.views i
  nlen := H.nlen
  nodes := H.nodes

/-- Replacing related views. -/
theorem Rel.set {W : World E} {S : Spec E} (H : Rel pb sp W S) {i : Nat} {lv0 : LocalView (Ref E)} {v0 : SView E}
    (h1 : W.view i = some lv0) (h2 : S.view i = some v0) {lv : LocalView (Ref E)} {v : SView E}
    (h : ViewRel pb sp i lv v) :
    Rel pb sp { W with views := W.views.set i (some lv) } { S with views := S.views.set i (some v) } where
  len := by simp [H.len]
  views := by
    intro j
    simp only [World.view, Spec.view] at h1 h2 ⊢
    rw [view_set _ _ _ _ (by rw [h1]; rfl), view_set _ _ _ _ (by rw [h2]; rfl)]
    split
    · next hi => subst hi; simpa using h
    · exact H.views j
  nlen := H.nlen
  nodes := H.nodes

theorem Rel.addNode {W : World E} {S : Spec E} (H : Rel pb sp W S) {x : PyNode E} {y : SNode E} (h : NodeRel pb x y) :
    Rel pb sp { W with nodes := W.nodes ++ [x] } { S with nodes := S.nodes ++ [y] } where
  len := H.len
  views := H.views
  nlen := by simp [H.nlen]
  nodes := by
    intro j x' y' hx hy
    simp only at hx hy
    rcases lt_trichotomy j W.nodes.length with hj | hj | hj
    · rw [List.getElem?_append_left hj] at hx
      rw [List.getElem?_append_left (H.nlen ▸ hj)] at hy
      exact H.nodes j x' y' hx hy
    · subst hj
      have hy' : (S.nodes ++ [y])[S.nodes.length]? = some y' := H.nlen ▸ hy
      simp at hx hy'
      subst hx hy'
      exact h
    · rw [List.getElem?_eq_none (by simp; omega)] at hx
      cases hx

theorem child_snoc (p : List Nat) (k : Nat) (t n : Node (Ref E)) (h : Node.child p t = some n) :
    Node.child (p ++ [k]) t = n.children[k]? := by
  rw [Node.child_append, h]
  simp [Node.child]

theorem step_rel (R : Refines pb sp) {W : World E} {S S' : Spec E} (H : Rel pb sp W S) (op : Op E)
    (hs : S.step (hasNode pb) op = some S') : ∃ W', step pb W op = some W' ∧ Rel pb sp W' S' := by
  cases op with
  | new =>
    simp only [Spec.step, Option.some.injEq] at hs
    subst hs
    exact ⟨_, rfl, H.append ⟨Looks.fresh pb, rfl, by simp⟩⟩
  | copy i =>
    simp only [Spec.step, Option.bind_eq_some_iff, Option.some.injEq] at hs
    obtain ⟨v, hv, rfl⟩ := hs
    obtain ⟨lv, hl, hr⟩ := H.get hv
    rw [← H.len]
    cases hb : v.bound with
    | none =>
      refine ⟨_, by simp only [step, hl, Option.bind_some, hr.element, hb, Option.map_none]; rfl, H.append ⟨?_, ?_, ?_⟩⟩
      · exact Looks.fresh pb
      · rfl
      · simp
    | some e =>
      have hbind := LocalView.bind_eq R _ (LocalView.fresh_blank pb) (⟨e, W.views.length⟩ : Ref E)
      refine ⟨_, by simp only [step, hl, Option.bind_some, hr.element, hb, Option.map_some, hbind]; rfl, H.append ⟨?_, ?_, ?_⟩⟩
      · exact (Looks.fresh pb).bind _
      · rfl
      · rintro e' ⟨⟩
        exact ⟨_, rfl, rfl, rfl⟩
  | assign i j =>
    simp only [Spec.step, Option.bind_eq_some_iff, Option.some.injEq] at hs
    obtain ⟨v0, hv0, v, hv, rfl⟩ := hs
    obtain ⟨lv0, hl0, hr0⟩ := H.get hv0
    obtain ⟨lv, hl, hr⟩ := H.get hv
    refine ⟨{ W with views := W.views.set i (some
        { tree := lv.tree, element := lv.element.map fun r => ⟨r.val, i⟩, indices := lv.indices }) },
      by simp only [step, hl, hl0, Option.bind_some], H.set hl0 hv0 ⟨hr.looks, ?_, hr.val⟩⟩
    rw [hr.element]
    cases v.bound <;> rfl
  | bind i e =>
    simp only [Spec.step, Option.bind_eq_some_iff, Option.some.injEq] at hs
    obtain ⟨v, hv, rfl⟩ := hs
    obtain ⟨lv, hl, hr⟩ := H.get hv
    have hbind := LocalView.bind_eq R lv hr.looks.blank (⟨e, i⟩ : Ref E)
    refine ⟨{ W with views := W.views.set i (some
        { tree := Node.bindTree ⟨e, i⟩ 0 lv.tree, element := some ⟨e, i⟩, indices := (sp.loc ⟨e, i⟩).map sp.mi }) },
      by simp only [step, hl, Option.bind_some, hbind], H.set hl hv ⟨hr.looks.bind _, rfl, ?_⟩⟩
    rintro e' ⟨⟩
    exact ⟨_, rfl, rfl, rfl⟩
  | unbind i =>
    simp only [Spec.step, Option.bind_eq_some_iff, Option.some.injEq] at hs
    obtain ⟨v, hv, rfl⟩ := hs
    obtain ⟨lv, hl, hr⟩ := H.get hv
    exact ⟨{ W with views := W.views.set i (some lv.unbind) }, by simp only [step, hl, Option.bind_some],
      H.set hl hv ⟨hr.looks, rfl, by simp⟩⟩
  | destroy i =>
    simp only [Spec.step, Option.bind_eq_some_iff, Option.some.injEq] at hs
    obtain ⟨v, hv, rfl⟩ := hs
    obtain ⟨lv, hl, hr⟩ := H.get hv
    refine ⟨{ W with views := W.views.set i none }, by simp only [step, hl, Option.bind_some],
      ⟨by simp [H.len], ?_, H.nlen, H.nodes⟩⟩
    intro j
    simp only [World.view, Spec.view] at hl hv ⊢
    rw [view_set _ _ _ _ (by rw [hl]; rfl), view_set _ _ _ _ (by rw [hv]; rfl)]
    split
    · simp
    · exact H.views j
  | tree i =>
    simp only [Spec.step, Option.bind_eq_some_iff, Option.some.injEq] at hs
    obtain ⟨v, hv, rfl⟩ := hs
    obtain ⟨lv, hl, hr⟩ := H.get hv
    exact ⟨{ W with nodes := W.nodes ++ [.root i] }, by simp only [step, hl, Option.bind_some],
      H.addNode (x := .root i) (y := .root i) rfl⟩
  | child h k =>
    simp only [Spec.step, Option.bind_eq_some_iff] at hs
    obtain ⟨y, hy, hs⟩ := hs
    have hlt : h < W.nodes.length := by
      rw [H.nlen]
      exact (List.getElem?_eq_some_iff.mp hy).1
    obtain ⟨x, hx⟩ : ∃ x, W.nodes[h]? = some x := ⟨_, List.getElem?_eq_getElem hlt⟩
    have hn := H.nodes h x y hx hy
    -- both kinds of tree objects are nodes with a path in a tree that looks like a reference tree
    have key : ∃ p d t n, Looks pb d t ∧ Node.child p t = some n ∧ W.node h = some n ∧ hasNode pb (p ++ [k]) = true ∧
        S' = { S with nodes := S.nodes ++ [.snapshot (p ++ [k]) d] } := by
      cases y with
      | root i =>
        cases x with
        | owned n => exact hn.elim
        | root i' =>
          cases hn
          simp only [Option.bind_eq_some_iff] at hs
          obtain ⟨v, hv, hs⟩ := hs
          obtain ⟨lv, hl, hr⟩ := H.get hv
          split at hs
          · next hk =>
            cases hs
            exact ⟨[], _, lv.tree, lv.tree, hr.looks, rfl, by simp [World.node, hx, hl], hk, rfl⟩
          · cases hs
      | snapshot p d =>
        cases x with
        | root i => exact hn.elim
        | owned n =>
          obtain ⟨t, ht, hc⟩ := hn
          simp only at hs
          split at hs
          · next hk =>
            cases hs
            exact ⟨p, d, t, n, ht, hc, by simp [World.node, hx], hk, rfl⟩
          · cases hs
    obtain ⟨p, d, t, n, ht, hc, hnode, hk, rfl⟩ := key
    have h1 := ht.hasNode (p ++ [k])
    rw [hk, child_snoc p k t n hc] at h1
    obtain ⟨c, hcc⟩ := Option.isSome_iff_exists.mp h1
    refine ⟨{ W with nodes := W.nodes ++ [.owned c] }, by simp only [step, hnode, Option.bind_some, hcc],
      H.addNode (x := .owned c) (y := .snapshot (p ++ [k]) d) ⟨t, ht, ?_⟩⟩
    rw [child_snoc p k t n hc, hcc]

theorem run_rel (R : Refines pb sp) : ∀ (ops : List (Op E)) (W : World E) (S S' : Spec E), Rel pb sp W S →
    S.run (hasNode pb) ops = some S' → ∃ W', run pb W ops = some W' ∧ Rel pb sp W' S'
  | [], W, S, S', H, h => by
    simp only [Spec.run, Option.some.injEq] at h
    exact ⟨W, rfl, h ▸ H⟩
  | op :: ops, W, S, S', H, h => by
    simp only [Spec.run, Option.bind_eq_some_iff] at h
    obtain ⟨S1, h1, h2⟩ := h
    obtain ⟨W1, h3, H1⟩ := step_rel R H op h1
    obtain ⟨W', h4, H'⟩ := run_rel R ops W1 S1 S' H1 h2
    exact ⟨W', by simp only [run, h3, Option.bind_some, h4], H'⟩

end

/-! ## C73 -/

/-- A leaf node shows element `e`, and its finite element is the one for `e`. -/
def LeafShows (W : World E) (e : E) (n : Node (Ref E)) : Prop :=
  W.element n = some e ∧ ∀ k, W.finiteElement k n = some (expectedFE k e)

/-- Offset, size, tree index of the node and of all its descendants are those of the node with path `p` of a new view
after the given `bind`. -/
def ShowsNode (pb : PreBasis (Ref E)) (d : Option (Ref E)) (p : List Nat) (n : Node (Ref E)) : Prop :=
  ∃ t0 n0, referenceTree pb d = some t0 ∧ Node.child p t0 = some n0 ∧ n.obs = n0.obs

section
variable {pb : PreBasis (Ref E)} {sp : IndexTree.Spec (Ref E)}

theorem Rel.deref {W : World E} {S : Spec E} (H : Rel pb sp W S) (r : Ref E) :
    W.deref r = (S.view r.view).bind (·.bound) := by
  rw [World.deref]
  cases hs : S.view r.view with
  | none => rw [(H.views _).1.mpr hs]; rfl
  | some v =>
    obtain ⟨lv, hl, hr⟩ := H.get hs
    rw [hl]
    simp only [Option.bind_some, hr.element]
    cases v.bound <;> rfl

theorem leafShows_of {W : World E} {S : Spec E} (H : Rel pb sp W S) {i : Nat} {v : SView E} {e : E}
    (hv : S.view i = some v) (hb : v.bound = some e) {n : Node (Ref E)} (hn : n.data.element = some ⟨e, i⟩) :
    LeafShows W e n := by
  have hd : W.deref ⟨e, i⟩ = some e := by rw [H.deref]; simp [hv, hb]
  obtain ⟨lv, hl, -⟩ := H.get hv
  refine ⟨by simp [World.element, hn, hd], ?_⟩
  intro k
  cases k <;> simp [World.finiteElement, hn, hd, hl, expectedFE]

theorem leaf_ref {r : Ref E} {n : Node (Ref E)} (h : Node.LeafOK r n) (h0 : n.size ≠ 0) : n.data.element = some r := by
  rcases h with h | h
  · exact absurd h h0
  · exact h.1

end

/-- C73, values: in every program, each view is bound to the element the specification says, and then size, multi-indices, and
offset, size and tree index of all nodes are those of a new view bound to this element; this includes views that were
assigned. All non-empty leaves return as `element()` the element to which the view `r.view` is bound now,
whose `bind` the data comes from. -/
theorem C73_views (b : PB (Ref E)) (hb : b.WF) (ops : List (Op E)) (S : Spec E)
    (hS : Spec.empty.run (hasNode b.model) ops = some S) :
    ∃ W, run b.model World.empty ops = some W ∧ ∀ (i : Nat) v, S.view i = some v → ∃ lv, W.view i = some lv ∧
      lv.element.map (·.val) = v.bound ∧
      ∀ e, v.bound = some e → ∃ r, v.data = some r ∧ r.val = e ∧ LooksLikeFresh b.model r lv ∧
        ∀ l ∈ lv.tree.leaves, l.2.size ≠ 0 → W.element l.2 = (S.view r.view).bind (·.bound) := by
  have R := b.refines hb
  obtain ⟨W, h1, H⟩ := run_rel R ops _ _ _ (Rel.empty b.model b.spec) hS
  refine ⟨W, h1, ?_⟩
  intro i v hv
  obtain ⟨lv, hl, hr⟩ := H.get hv
  refine ⟨lv, hl, by rw [hr.element]; cases v.bound <;> rfl, ?_⟩
  intro e he
  obtain ⟨r, hd, hre, hi⟩ := hr.val e he
  obtain ⟨n, hn1, hn2, hn3⟩ := hr.looks.bound r hd
  refine ⟨r, hd, hre, ⟨_, LocalView.bind_eq R _ (LocalView.fresh_blank _) r, hi, ?_, ?_⟩, ?_⟩
  · simp only [LocalView.size, hn3]
    rw [R.nodeSize r 0 n hn2, R.nodeSize r 0 _ (LocalView.fresh_blank _)]
  · rw [hn3]
    exact Node.obs_bindTree r 0 _ _ (Node.leafy_of_blank _ _ hn2 R.leafy)
      (Node.leafy_of_blank _ _ (LocalView.fresh_blank _) R.leafy) hn1
  · intro l hlm h0
    rw [hn3] at hlm
    rw [World.element, leaf_ref (Node.leaves_bindTree r 0 n l hlm) h0, Option.bind_some, H.deref]

/-- The program contains no copy assignment of local views. -/
def NoAssign (ops : List (Op E)) : Prop := ∀ op ∈ ops, ∀ i j, op ≠ .assign i j

theorem own_data (hn : List Nat → Bool) : ∀ (ops : List (Op E)) (S S' : Spec E), NoAssign ops →
    (∀ (i : Nat) v, S.view i = some v → ∀ r, v.data = some r → r.view = i) → S.run hn ops = some S' →
    ∀ (i : Nat) v, S'.view i = some v → ∀ r, v.data = some r → r.view = i
  | [], S, S', _, h, hr => by
    simp only [Spec.run, Option.some.injEq] at hr
    exact hr ▸ h
  | op :: ops, S, S', ha, h, hr => by
    simp only [Spec.run, Option.bind_eq_some_iff] at hr
    obtain ⟨S1, h1, h2⟩ := hr
    refine own_data hn ops S1 S' (fun o ho => ha o (List.mem_cons_of_mem _ ho)) ?_ h2
    have hset : ∀ (i : Nat) (v0 x : SView E), S.view i = some v0 → (∀ r, x.data = some r → r.view = i) →
        ∀ (j : Nat) v, Spec.view { S with views := S.views.set i (some x) } j = some v → ∀ r, v.data = some r → r.view = j := by
      intro i v0 x h0 hx j v hv r hd
      simp only [Spec.view] at h0 hv
      rw [view_set _ _ _ _ (by rw [h0]; rfl)] at hv
      split at hv
      · next hj => subst hj; cases hv; exact hx r hd
      · exact h j v hv r hd
    have happ : ∀ (x : SView E), (∀ r, x.data = some r → r.view = S.views.length) →
        ∀ (j : Nat) v, Spec.view { S with views := S.views ++ [some x] } j = some v → ∀ r, v.data = some r → r.view = j := by
      intro x hx j v hv r hd
      simp only [Spec.view] at hv
      rw [view_append_lt] at hv
      split at hv
      · next hj => subst hj; cases hv; exact hx r hd
      · exact h j v hv r hd
    cases op with
    | new =>
      simp only [Spec.step, Option.some.injEq] at h1
      subst h1
      exact happ _ (by simp)
    | copy i =>
      simp only [Spec.step, Option.bind_eq_some_iff, Option.some.injEq] at h1
      obtain ⟨v, hv, rfl⟩ := h1
      refine happ _ ?_
      intro r hr
      simp only [Option.map_eq_some_iff] at hr
      obtain ⟨e, -, rfl⟩ := hr
      rfl
    | assign i j => exact absurd rfl (ha _ List.mem_cons_self i j)
    | bind i e =>
      simp only [Spec.step, Option.bind_eq_some_iff, Option.some.injEq] at h1
      obtain ⟨v, hv, rfl⟩ := h1
      exact hset i v _ hv (by rintro r ⟨⟩; rfl)
    | unbind i =>
      simp only [Spec.step, Option.bind_eq_some_iff, Option.some.injEq] at h1
      obtain ⟨v, hv, rfl⟩ := h1
      exact hset i v _ hv (h i v hv)
    | destroy i =>
      simp only [Spec.step, Option.bind_eq_some_iff, Option.some.injEq] at h1
      obtain ⟨v, hv, rfl⟩ := h1
      intro j w hw r hd
      simp only [Spec.view] at hv hw
      rw [view_set _ _ _ _ (by rw [hv]; rfl)] at hw
      split at hw
      · cases hw
      · exact h j w hw r hd
    | tree i =>
      simp only [Spec.step, Option.bind_eq_some_iff, Option.some.injEq] at h1
      obtain ⟨v, hv, rfl⟩ := h1
      exact h
    | child k c =>
      simp only [Spec.step, Option.bind_eq_some_iff] at h1
      obtain ⟨x, hx, h1⟩ := h1
      cases x with
      | root i =>
        simp only [Option.bind_eq_some_iff] at h1
        obtain ⟨v, hv, h1⟩ := h1
        split at h1
        · cases h1; exact h
        · cases h1
      | snapshot p d =>
        simp only at h1
        split at h1
        · cases h1; exact h
        · cases h1

/-- C73, references: as long as no local view is assigned, every non-empty leaf of a view bound to `e` returns `e` as its
element and has the finite element for `e`, whatever was created, copied, bound, unbound and destroyed before. With assignments the
statement holds for views that were bound after their last assignment (`r.view = i`). The full statement is false (`C73_assign_false`). -/
theorem C73_references_partial (b : PB (Ref E)) (hb : b.WF) (ops : List (Op E)) (S : Spec E)
    (hS : Spec.empty.run (hasNode b.model) ops = some S) :
    ∃ W, run b.model World.empty ops = some W ∧ ∀ (i : Nat) v e, S.view i = some v → v.bound = some e →
      (NoAssign ops ∨ ∃ r, v.data = some r ∧ r.view = i) →
      ∃ lv, W.view i = some lv ∧ ∀ l ∈ lv.tree.leaves, l.2.size ≠ 0 → LeafShows W e l.2 := by
  have R := b.refines hb
  obtain ⟨W, h1, H⟩ := run_rel R ops _ _ _ (Rel.empty b.model b.spec) hS
  refine ⟨W, h1, ?_⟩
  intro i v e hv he hown
  obtain ⟨lv, hl, hr⟩ := H.get hv
  refine ⟨lv, hl, ?_⟩
  obtain ⟨r, hd, hre, hi⟩ := hr.val e he
  have hri : r = ⟨e, i⟩ := by
    have : r.view = i := by
      rcases hown with h | ⟨r', h1', h2'⟩
      · exact own_data _ ops _ _ h (by simp [Spec.empty, Spec.view]) hS i v hv r hd
      · rw [hd] at h1'; cases h1'; exact h2'
    cases r; simp only at hre this; rw [hre, this]
  obtain ⟨n, hn1, hn2, hn3⟩ := hr.looks.bound r hd
  intro l hlm h0
  rw [hn3] at hlm
  have h2 := leaf_ref (Node.leaves_bindTree r 0 n l hlm) h0
  exact leafShows_of H hv he (by rw [h2, hri])

/-- C73, Python: the tree object of a local view that exists is the current tree of the view. All other
tree objects keep the state of the node at the time when its copy was separated from the tree of the view. -/
theorem C73_python (b : PB (Ref E)) (hb : b.WF) (ops : List (Op E)) (S : Spec E)
    (hS : Spec.empty.run (hasNode b.model) ops = some S) :
    ∃ W, run b.model World.empty ops = some W ∧
      (∀ (h i : Nat) v, S.nodes[h]? = some (.root i) → S.view i = some v → ∃ lv, W.view i = some lv ∧ W.node h = some lv.tree) ∧
      ∀ (h : Nat) p d, S.nodes[h]? = some (.snapshot p d) → ∃ n, W.node h = some n ∧ ShowsNode b.model d p n := by
  have R := b.refines hb
  obtain ⟨W, h1, H⟩ := run_rel R ops _ _ _ (Rel.empty b.model b.spec) hS
  have get : ∀ (h : Nat) y, S.nodes[h]? = some y → ∃ x, W.nodes[h]? = some x ∧ NodeRel b.model x y := by
    intro h y hy
    have hlt : h < W.nodes.length := by
      rw [H.nlen]
      exact (List.getElem?_eq_some_iff.mp hy).1
    exact ⟨_, List.getElem?_eq_getElem hlt, H.nodes h _ _ (List.getElem?_eq_getElem hlt) hy⟩
  refine ⟨W, h1, ?_, ?_⟩
  · intro h i v hy hv
    obtain ⟨lv, hl, hr⟩ := H.get hv
    obtain ⟨x, hx, hn⟩ := get h _ hy
    cases x with
    | owned n => exact hn.elim
    | root j => cases hn; exact ⟨lv, hl, by simp [World.node, hx, hl]⟩
  · intro h p d hy
    obtain ⟨x, hx, hn⟩ := get h _ hy
    cases x with
    | root j => exact hn.elim
    | owned n =>
      obtain ⟨t, ht, hc⟩ := hn
      obtain ⟨t0, h2, h3, h4⟩ := ht.obs R
      obtain ⟨n0, h5, h6, -⟩ := Node.child_congr p t t0 n h3 h4 hc
      exact ⟨n, by simp [World.node, hx], t0, n0, h2, h5, h6⟩

/-- C73, Python: a node fetched since the last `bind` of the view (the view was not assigned) agrees with the
node in the current tree of the view, and its non-empty leaves show the element the view is bound to. Missing: nodes that were
fetched before the last `bind`, for which this is false (`C73_child_false`). -/
theorem C73_child_partial (b : PB (Ref E)) (hb : b.WF) (ops : List (Op E)) (S : Spec E)
    (hS : Spec.empty.run (hasNode b.model) ops = some S) :
    ∃ W, run b.model World.empty ops = some W ∧
      ∀ (h i : Nat) p v e, S.nodes[h]? = some (.snapshot p (some ⟨e, i⟩)) → S.view i = some v → v.bound = some e →
        v.data = some ⟨e, i⟩ →
        ∃ n lv m, W.node h = some n ∧ W.view i = some lv ∧ Node.child p lv.tree = some m ∧ n.obs = m.obs ∧
          ∀ l ∈ n.leaves, l.2.size ≠ 0 → LeafShows W e l.2 := by
  have R := b.refines hb
  obtain ⟨W, h1, H⟩ := run_rel R ops _ _ _ (Rel.empty b.model b.spec) hS
  refine ⟨W, h1, ?_⟩
  intro h i p v e hy hv he hd
  obtain ⟨lv, hl, hr⟩ := H.get hv
  have hlt : h < W.nodes.length := by
    rw [H.nlen]
    exact (List.getElem?_eq_some_iff.mp hy).1
  have hx := List.getElem?_eq_getElem hlt
  have hn := H.nodes h _ _ hx hy
  cases hxx : W.nodes[h] with
  | root j => rw [hxx] at hn; exact hn.elim
  | owned n =>
    rw [hxx] at hn hx
    obtain ⟨t, ht, hc⟩ := hn
    obtain ⟨t0, h2, h3, h4⟩ := ht.obs R
    have hlk := hr.looks
    rw [hd] at hlk
    obtain ⟨t1, h2', h3', h4'⟩ := hlk.obs R
    rw [h2] at h2'
    cases h2'
    obtain ⟨m, h5, h6, -⟩ := Node.child_congr p t lv.tree n (by rw [h3, h3']) (by rw [h4, h4']) hc
    refine ⟨n, lv, m, by simp [World.node, hx], hl, h5, h6, ?_⟩
    intro l hlm h0
    obtain ⟨n0, hn1, hn2, rfl⟩ := ht.bound _ rfl
    have hlf := ht.leafy R
    have hok := (Node.slots_child _ 0 n0 hlf p n hc).2 l hlm
    exact leafShows_of H hv he (leaf_ref hok h0)

/-! ### Examples and counterexamples -/

/-- A scalar leaf basis with one function on the element `false` and two on `true`. -/
def exLeaf : Leaf (Ref Bool) := ⟨2, 2, fun r => if r.val then [0, 1] else [0]⟩

def exBasis : PB (Ref Bool) := .power .flatLex 2 (.leaf exLeaf)

theorem exBasis_WF : exBasis.WF := by
  simp only [exBasis, PB.WF, exLeaf]
  refine ⟨by omega, ?_, ?_⟩ <;> intro r <;> cases r.val <;> simp

/-- A history with two views; the nodes 1, 3 are copies. -/
def exOps : List (Op Bool) := [.new, .tree 0, .bind 0 true, .copy 0, .child 0 1, .bind 0 false, .child 0 1, .destroy 1]

def exWorld (ops : List (Op Bool)) : Option (World Bool) := run exBasis.model World.empty ops

example := C73_views exBasis exBasis_WF exOps _ rfl
example := C73_references_partial exBasis exBasis_WF exOps _ rfl
example := C73_python exBasis exBasis_WF exOps _ rfl
example := C73_child_partial exBasis exBasis_WF exOps _ rfl

/-- The first leaf of a view. -/
def firstLeaf (W : World Bool) (i : Nat) : Option (Node (Ref Bool)) :=
  (W.view i).bind fun lv => (lv.tree.leaves.head?).map (·.2)

/-- False: after the assignment `view_0 = view_1`, binding `view_1` to another element changes the element of the nodes of `view_0`
(and the geometry used by its Piola transformed shape functions), although `view_0` is still bound to the first one; destroying
`view_1` leaves dangling pointers, also to the Lagrange finite element. -/
theorem C73_assign_false :
    ((exWorld [.new, .new, .bind 1 true, .assign 0 1, .bind 1 false]).map fun W =>
        ((W.view 0).bind fun lv => lv.element.map (·.val), (firstLeaf W 0).bind W.element)) = some (some true, some false) ∧
    ((exWorld [.new, .new, .bind 1 true, .assign 0 1, .bind 1 false]).bind fun W =>
        (firstLeaf W 0).bind fun n => (W.finiteElement .global n).map fun f => (f.chosenFor, f.geometry))
      = some (true, some false) ∧
    ((exWorld [.new, .new, .bind 1 true, .assign 0 1, .destroy 1]).map fun W =>
        ((W.view 0).bind fun lv => lv.element.map (·.val), ((firstLeaf W 0).bind W.element).isSome,
          ((firstLeaf W 0).bind (W.finiteElement .cached)).isSome)) = some (some true, false, false) := by
  refine ⟨?_, ?_, ?_⟩ <;> rfl

/-- False for Python: a child fetched before `bind` keeps size and local indices of the old element. -/
theorem C73_child_false :
    ((exWorld [.new, .tree 0, .bind 0 true, .child 0 1, .bind 0 false]).map fun W =>
      ((W.node 1).map fun n => (n.size, n.localIndex 0),
       (W.view 0).bind fun lv => (Node.child [1] lv.tree).map fun n => (n.size, n.localIndex 0)))
      = some (some (2, some 2), some (1, some 1)) := rfl

/-- False for Python: the tree of a local view that was collected (for example `basis.localView().tree()`) is a dangling
reference, and so is the finite element of a Lagrange node that was fetched from it. -/
theorem C73_tree_false :
    ((exWorld [.new, .tree 0, .bind 0 true, .child 0 1, .destroy 0]).map fun W =>
      ((W.node 0).isSome, ((W.node 1).map (·.size)), ((W.node 1).bind (W.finiteElement .cached)).isSome))
      = some (false, some 2, false) := rfl

end Verif.Nodes

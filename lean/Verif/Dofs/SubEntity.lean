import Verif.IndexTree.Subspace
import Verif.Lagrange.DG

/-!
# DOFs of sub-entities and boundary DOFs

Model of `SubEntityDOFs` (`subentitydofs.hh`) and `forEachBoundaryDOF` (`boundarydofs.hh`), for arbitrary basis trees.
-/

namespace Verif.Dofs

open Verif.IndexTree Verif.Mapper

variable {E S : Type}

/-! ## Model -/

mutual
/-- Leaf nodes in the order of `TypeTree::forEachLeafNode`. -/
def leaves : Node E → List (Node E)
  | .mk d c => match d.feSize with
    | some _ => [.mk d c]
    | none => leavesList c
def leavesList : List (Node E) → List (Node E)
  | [] => []
  | n :: ns => leaves n ++ leavesList ns
end

/-- Members of `SubEntityDOFs`, subentitydofs.hh:148-149. -/
structure SubDofs where
  containedDOFs : List Nat := []
  dofIsContained : List Bool := []
  deriving DecidableEq, Repr

/-- Body of the loop over the local keys, subentitydofs.hh:84-89. `inside` is the test
`re.subEntities(...).contains(...)` for the fixed sub-entity. `none`: access out of range. -/
def keyStep (inside : Key → Bool) (node : Node E) (s : SubDofs) (p : Key × Nat) : Option SubDofs :=
  if inside p.1 then
    (node.localIndex p.2).bind fun l =>
      if l < s.dofIsContained.length then
        some { containedDOFs := s.containedDOFs ++ [l], dofIsContained := s.dofIsContained.set l true }
      else none
  else some s

/-- Body of the loop over the leaf nodes, subentitydofs.hh:77-91. `keys ti e`: the local keys of the finite element of the leaf with tree
index `ti` bound to `e`. Accessing the finite element of a leaf that was never bound is undefined. -/
def leafStep (keys : Nat → E → List Key) (inside : Key → Bool) (s : SubDofs) (node : Node E) : Option SubDofs :=
  if node.size = 0 then some s
  else match node.data.element with
    | none => none
    | some e => (keys node.treeIndex e).zipIdx.foldlM (keyStep inside node) s

/-- `bind(localView, subEntityIndex, subEntityCodim)`, subentitydofs.hh:69-93, for a view with the given size, element and tree.
`inc e i c k`: the sub-entity of the key `k` is one of `re.subEntities(i, c, k.codim)` for the
reference element `re` of `e`. -/
def SubDofs.bind (_s : SubDofs) (keys : Nat → E → List Key) (inc : E → Nat → Nat → Key → Bool)
    (size : Nat) (element : Option E) (tree : Node E) (i c : Nat) : Option SubDofs :=
  element.bind fun e =>
    (leaves tree).foldlM (leafStep keys (inc e i c)) ⟨[], List.replicate size false⟩

/-- `contains(localIndex)`, subentitydofs.hh:141-144; out of range: undefined. -/
def SubDofs.contains (s : SubDofs) (l : Nat) : Option Bool := s.dofIsContained[l]?

/-- The methods of an intersection used by `forEachBoundaryDOF`. -/
structure BIsect where
  boundary : Bool
  indexInInside : Nat
  deriving DecidableEq, Repr

/-- One call of the callback: element of the local view, intersection, local index and `localView.index(localIndex)`.
The three overloads of `forEachBoundaryDOF` pass parts of it. -/
structure Visit (E : Type) where
  element : E
  isect : BIsect
  localIndex : Nat
  index : MI
  deriving DecidableEq, Repr

/-- Local view, `SubEntityDOFs` object and the calls so far. -/
structure BState (E : Type) where
  view : LocalView E
  dofs : SubDofs
  calls : List (Visit E)

/-- Body of the loop over the intersections, boundarydofs.hh:50-52, 87-89, 123-125. `bind(localView, intersection)` is
`bind(localView, intersection.indexInInside(), 1)`, subentitydofs.hh:110-114. -/
def isectStep (keys : Nat → E → List Key) (inc : E → Nat → Nat → Key → Bool) (e : E) (s : BState E) (is : BIsect) :
    Option (BState E) :=
  if is.boundary then
    (s.dofs.bind keys inc s.view.size s.view.element s.view.tree is.indexInInside 1).bind fun d =>
      (d.containedDOFs.mapM fun l => (s.view.index l).map fun m => Visit.mk e is l m).map fun vs =>
        { s with dofs := d, calls := s.calls ++ vs }
  else some s

/-- Body of the loop over the elements, boundarydofs.hh:46-53. -/
def elemStep (pb : PreBasis E) (keys : Nat → E → List Key) (inc : E → Nat → Nat → Key → Bool) (hasBoundary : E → Bool)
    (isects : E → List BIsect) (s : BState E) (e : E) : Option (BState E) :=
  if hasBoundary e then
    (s.view.bind pb e).bind fun v => (isects e).foldlM (isectStep keys inc e) { s with view := v }
  else some s

/-- `forEachBoundaryDOF(basis, f)`, boundarydofs.hh:38-54, 75-91, 111-127: the calls of `f`. -/
def forEachBoundaryDOF (pb : PreBasis E) (keys : Nat → E → List Key) (inc : E → Nat → Nat → Key → Bool)
    (hasBoundary : E → Bool) (isects : E → List BIsect) (els : List E) : Option (List (Visit E)) :=
  (els.foldlM (elemStep pb keys inc hasBoundary isects) ⟨LocalView.fresh pb, {}, []⟩).map (·.calls)

/-! ## Specification -/

mutual
/-- Tree index and size function of all leaves. -/
def leafInfo : Node E → List (Nat × (E → Nat))
  | .mk d c => match d.feSize with
    | some f => [(d.treeIndex, f)]
    | none => leafInfoList c
def leafInfoList : List (Node E) → List (Nat × (E → Nat))
  | [] => []
  | n :: ns => leafInfo n ++ leafInfoList ns
end

/-- The number of local keys of a leaf is the size of its finite element. -/
def KeysMatch (keys : Nat → E → List Key) (n : Node E) : Prop :=
  ∀ p ∈ leafInfo n, ∀ e, p.2 e = (keys p.1 e).length

/-- `k` is the local key of the local basis function with local index `l`: the `j`-th function of a leaf of the tree. -/
def HasKey (keys : Nat → E → List Key) (e : E) (tree : Node E) (l : Nat) (k : Key) : Prop :=
  ∃ leaf ∈ leaves tree, ∃ j, leaf.localIndex j = some l ∧ (keys leaf.treeIndex e)[j]? = some k

/-! ## Proof -/

mutual
theorem leafInfo_skel : (n : Node E) → leafInfo n.skel = leafInfo n
  | .mk d c => by
    simp only [Node.skel, leafInfo]
    cases d.feSize with
    | none => exact leafInfoList_skel c
    | some f => rfl
theorem leafInfoList_skel : (l : List (Node E)) → leafInfoList (Node.skelList l) = leafInfoList l
  | [] => rfl
  | n :: ns => by simp [Node.skelList, leafInfoList, leafInfo_skel n, leafInfoList_skel ns]
end

theorem leafInfo_bindTree (e : E) (off : Nat) (n : Node E) : leafInfo (Node.bindTree e off n) = leafInfo n := by
  rw [← leafInfo_skel, Node.skel_bindTree, leafInfo_skel]

mutual
theorem leafIndices_eq : (n : Node E) → n.leafIndices = (leaves n).flatMap Node.ownIndices
  | .mk d c => by
    simp only [Node.leafIndices, leaves]
    cases d.feSize with
    | none => exact leafIndicesList_eq c
    | some f => simp
theorem leafIndicesList_eq : (l : List (Node E)) → Node.leafIndicesList l = (leavesList l).flatMap Node.ownIndices
  | [] => rfl
  | n :: ns => by simp [Node.leafIndicesList, leavesList, leafIndices_eq n, leafIndicesList_eq ns]
end

/-- A leaf of a tree bound to `e`. -/
def LeafOK (keys : Nat → E → List Key) (e : E) (m : Node E) : Prop :=
  m.size = 0 ∨ (m.data.element = some e ∧ m.size = (keys m.treeIndex e).length)

mutual
theorem leaves_emptyAll (keys : Nat → E → List Key) (e : E) (off : Nat) : (n : Node E) →
    ∀ m ∈ leaves (Node.emptyAll off n), LeafOK keys e m
  | .mk d c => by
    intro m hm
    simp only [Node.emptyAll, leaves] at hm
    cases hd : d.feSize with
    | none => rw [hd] at hm; exact leavesList_emptyAll keys e off c m hm
    | some f =>
      rw [hd] at hm
      simp only [List.mem_singleton] at hm
      subst hm
      exact Or.inl rfl
theorem leavesList_emptyAll (keys : Nat → E → List Key) (e : E) (off : Nat) : (l : List (Node E)) →
    ∀ m ∈ leavesList (Node.emptyAllList off l), LeafOK keys e m
  | [] => by simp [Node.emptyAllList, leavesList]
  | n :: ns => by
    intro m hm
    simp only [Node.emptyAllList, leavesList, List.mem_append] at hm
    rcases hm with hm | hm
    · exact leaves_emptyAll keys e off n m hm
    · exact leavesList_emptyAll keys e off ns m hm
end

mutual
theorem leaves_bindTree (keys : Nat → E → List Key) (e : E) (off : Nat) : (n : Node E) →
    (∀ p ∈ leafInfo n, ∀ e, p.2 e = (keys p.1 e).length) →
    ∀ m ∈ leaves (Node.bindTree e off n), LeafOK keys e m
  | .mk d c, hk => by
    intro m hm
    rw [Node.bindTree] at hm
    split at hm
    · cases hd : d.feSize with
      | none =>
        simp only [hd, leaves] at hm
        simp only [leafInfo, hd] at hk
        exact leavesList_bindChildren keys e off c hk m hm
      | some f =>
        simp only [hd, leaves, List.mem_singleton] at hm
        simp only [leafInfo, hd, List.mem_singleton, forall_eq] at hk
        subst hm
        exact Or.inr ⟨rfl, hk e⟩
    · exact leaves_emptyAll keys e off _ m hm
theorem leavesList_bindChildren (keys : Nat → E → List Key) (e : E) (off : Nat) : (l : List (Node E)) →
    (∀ p ∈ leafInfoList l, ∀ e, p.2 e = (keys p.1 e).length) →
    ∀ m ∈ leavesList (Node.bindChildren e off l).1, LeafOK keys e m
  | [], _ => by simp [Node.bindChildren, leavesList]
  | n :: ns, hk => by
    intro m hm
    simp only [leafInfoList, List.mem_append] at hk
    simp only [Node.bindChildren, leavesList, List.mem_append] at hm
    rcases hm with hm | hm
    · exact leaves_bindTree keys e off n (fun p hp => hk p (Or.inl hp)) m hm
    · exact leavesList_bindChildren keys e _ ns (fun p hp => hk p (Or.inr hp)) m hm
end

/-- Selected local indices of one leaf. -/
def leafSel (keys : Nat → E → List Key) (inside : Key → Bool) (e : E) (m : Node E) : List Nat :=
  if m.size = 0 then [] else
    (((keys m.treeIndex e).zipIdx.filter fun p => inside p.1).map fun p => m.offset + p.2)

/-- The state after `l` was found. -/
def marked (size : Nat) (l : List Nat) : SubDofs :=
  ⟨l, (List.range size).map fun i => decide (i ∈ l)⟩

theorem marked_nil (size : Nat) : marked size [] = ⟨[], List.replicate size false⟩ := by
  simp [marked]

theorem marked_push (size : Nat) (l : List Nat) (x : Nat) :
    (⟨l ++ [x], ((List.range size).map fun i => decide (i ∈ l)).set x true⟩ : SubDofs) = marked size (l ++ [x]) := by
  simp only [marked, SubDofs.mk.injEq, true_and]
  apply List.ext_getElem
  · simp
  · intro i h1 h2
    simp only [List.getElem_set, List.getElem_map, List.getElem_range, List.mem_append, List.mem_singleton]
    split
    · rename_i h; subst h; simp
    · rename_i h; simp [Ne.symm h]

theorem keyFold (inside : Key → Bool) (m : Node E) (size : Nat) (ps : List (Key × Nat))
    (hps : ∀ p ∈ ps, p.2 < m.size) (hsz : m.offset + m.size ≤ size) (l : List Nat) :
    ps.foldlM (keyStep inside m) (marked size l)
      = some (marked size (l ++ (ps.filter fun p => inside p.1).map fun p => m.offset + p.2)) := by
  induction ps generalizing l with
  | nil => simp
  | cons p ps ih =>
    have hp := hps p (by simp)
    have ih' := ih (fun q hq => hps q (by simp [hq]))
    rw [List.foldlM_cons]
    by_cases h : inside p.1 = true
    · have : keyStep inside m (marked size l) p = some (marked size (l ++ [m.offset + p.2])) := by
        simp only [keyStep, h, if_true, Node.localIndex, hp, Option.bind_some]
        rw [if_pos (by simp [marked]; omega)]
        simp only [Option.some.injEq]
        exact marked_push size l _
      rw [this]
      show ps.foldlM (keyStep inside m) (marked size (l ++ [m.offset + p.2])) = _
      rw [ih']
      simp [h]
    · have : keyStep inside m (marked size l) p = some (marked size l) := by simp [keyStep, h]
      rw [this]
      show ps.foldlM (keyStep inside m) (marked size l) = _
      rw [ih']
      simp [h]

theorem leafFold (keys : Nat → E → List Key) (inside : Key → Bool) (e : E) (size : Nat) (ms : List (Node E))
    (hms : ∀ m ∈ ms, LeafOK keys e m ∧ (m.size = 0 ∨ m.offset + m.size ≤ size)) (l : List Nat) :
    ms.foldlM (leafStep keys inside) (marked size l)
      = some (marked size (l ++ ms.flatMap (leafSel keys inside e))) := by
  induction ms generalizing l with
  | nil => simp
  | cons m ms ih =>
    obtain ⟨h1, h2⟩ := hms m (by simp)
    have : leafStep keys inside (marked size l) m = some (marked size (l ++ leafSel keys inside e m)) := by
      simp only [leafStep, leafSel]
      by_cases h0 : m.size = 0
      · simp [h0]
      · rw [if_neg h0, if_neg h0]
        rcases h1 with h1 | ⟨h1, h3⟩
        · exact absurd h1 h0
        · rw [h1]
          refine keyFold inside m size _ ?_ (h2.resolve_left h0) l
          intro p hp
          have := List.snd_lt_of_mem_zipIdx hp
          omega
    rw [List.foldlM_cons, this]
    show ms.foldlM (leafStep keys inside) (marked size (l ++ leafSel keys inside e m)) = _
    rw [ih (fun q hq => hms q (by simp [hq]))]
    simp

theorem leafSel_sublist {keys : Nat → E → List Key} (inside : Key → Bool) {e : E} {m : Node E} (h : LeafOK keys e m) :
    (leafSel keys inside e m).Sublist (List.range' m.offset m.size) := by
  simp only [leafSel]
  by_cases h0 : m.size = 0
  · simp [h0]
  · rw [if_neg h0]
    rcases h with h | ⟨-, h⟩
    · exact absurd h h0
    · have e1 : List.range' m.offset m.size = (keys m.treeIndex e).zipIdx.map fun p => m.offset + p.2 := by
        apply List.ext_getElem
        · simp [h]
        · intro i _ _; simp
      rw [e1]
      exact List.Sublist.map _ List.filter_sublist

theorem mem_leafSel {keys : Nat → E → List Key} {inside : Key → Bool} {e : E} {m : Node E} (h : LeafOK keys e m) (l : Nat) :
    l ∈ leafSel keys inside e m ↔ ∃ k j, m.localIndex j = some l ∧ (keys m.treeIndex e)[j]? = some k ∧ inside k = true := by
  simp only [leafSel]
  by_cases h0 : m.size = 0
  · simp [h0, Node.localIndex]
  · rw [if_neg h0]
    rcases h with h | ⟨-, h⟩
    · exact absurd h h0
    · simp only [List.mem_map, List.mem_filter, List.mem_zipIdx_iff_getElem?, Prod.exists]
      constructor
      · rintro ⟨k, j, ⟨h1, h2⟩, rfl⟩
        refine ⟨k, j, ?_, h1, h2⟩
        have := (List.getElem?_eq_some_iff.mp h1).1
        simp [Node.localIndex, h, this]
      · rintro ⟨k, j, h1, h2, h3⟩
        refine ⟨k, j, ⟨h2, h3⟩, ?_⟩
        have := (List.getElem?_eq_some_iff.mp h2).1
        simpa [Node.localIndex, h, this] using h1

/-- A tree (or a node of a tree) bound to `e`, within the local indices `lo .. hi-1`. -/
structure Bound (keys : Nat → E → List Key) (e : E) (lo hi : Nat) (t : Node E) : Prop where
  leaf : ∀ m ∈ leaves t, LeafOK keys e m
  ind : t.leafIndices = (List.range' t.offset t.size).map some
  lo : lo ≤ t.offset
  hi : t.offset + t.size ≤ hi

theorem Bound.flat {keys : Nat → E → List Key} {e : E} {lo hi : Nat} {t : Node E} (h : Bound keys e lo hi t) :
    (leaves t).flatMap (fun m => List.range' m.offset m.size) = List.range' t.offset t.size := by
  have h1 := h.ind
  rw [leafIndices_eq] at h1
  have h2 : (leaves t).flatMap Node.ownIndices
      = ((leaves t).flatMap fun m => List.range' m.offset m.size).map some := by
    rw [List.map_flatMap]
    congr 1
    funext m
    exact Node.ownIndices_eq m
  rw [h2] at h1
  exact List.map_injective_iff.mpr (Option.some_injective _) h1

theorem sublist_flatMap {α β : Type} (l : List α) (f g : α → List β) (h : ∀ x ∈ l, (f x).Sublist (g x)) :
    (l.flatMap f).Sublist (l.flatMap g) := by
  induction l with
  | nil => simp
  | cons a l ih =>
    simp only [List.flatMap_cons]
    exact (h a (by simp)).append (ih fun x hx => h x (by simp [hx]))

theorem bind_spec {keys : Nat → E → List Key} {inc : E → Nat → Nat → Key → Bool} {e : E} {lo size : Nat} {t : Node E}
    (h : Bound keys e lo size t) (s : SubDofs) (i c : Nat) :
    ∃ l, s.bind keys inc size (some e) t i c = some (marked size l) ∧ l.Sublist (List.range' t.offset t.size) ∧
      ∀ x, x ∈ l ↔ ∃ k, HasKey keys e t x k ∧ inc e i c k = true := by
  have hms : ∀ m ∈ leaves t, LeafOK keys e m ∧ (m.size = 0 ∨ m.offset + m.size ≤ size) := by
    intro m hm
    refine ⟨h.leaf m hm, ?_⟩
    rcases Nat.eq_zero_or_pos m.size with h0 | h0
    · exact Or.inl h0
    · right
      have : m.offset + m.size - 1 ∈ List.range' t.offset t.size := by
        rw [← h.flat, List.mem_flatMap]
        exact ⟨m, hm, by rw [List.mem_range'_1]; omega⟩
      rw [List.mem_range'_1] at this
      have := h.hi
      omega
  refine ⟨(leaves t).flatMap (leafSel keys (inc e i c) e), ?_, ?_, ?_⟩
  · simp only [SubDofs.bind, Option.bind_some, ← marked_nil]
    rw [leafFold keys (inc e i c) e size _ hms []]
    simp
  · rw [← h.flat]
    exact sublist_flatMap _ _ _ fun m hm => leafSel_sublist _ (h.leaf m hm)
  · intro x
    simp only [List.mem_flatMap, HasKey]
    constructor
    · rintro ⟨m, hm, hx⟩
      obtain ⟨k, j, h1, h2, h3⟩ := (mem_leafSel (h.leaf m hm) x).mp hx
      exact ⟨k, ⟨m, hm, j, h1, h2⟩, h3⟩
    · rintro ⟨k, ⟨m, hm, j, h1, h2⟩, h3⟩
      exact ⟨m, hm, (mem_leafSel (h.leaf m hm) x).mpr ⟨k, j, h1, h2, h3⟩⟩

/-! Nodes of a bound tree -/

theorem bound_bindTree {keys : Nat → E → List Key} {n : Node E} (hk : KeysMatch keys n) (e : E) (off : Nat) :
    Bound keys e off (off + (Node.bindTree e off n).size) (Node.bindTree e off n) where
  leaf := leaves_bindTree keys e off n hk
  ind := by rw [Node.leafIndices_bindTree, Node.bindTree_offset]
  lo := by rw [Node.bindTree_offset]
  hi := by rw [Node.bindTree_offset]

theorem bound_emptyAll (keys : Nat → E → List Key) (n : Node E) (e : E) (off : Nat) :
    Bound keys e off off (Node.emptyAll off n) := by
  have hs : (Node.emptyAll off n).size = 0 := by cases n; rfl
  have ho : (Node.emptyAll off n).offset = off := by cases n; rfl
  exact ⟨leaves_emptyAll keys e off n, by rw [Node.leafIndices_emptyAll, hs]; rfl, by rw [ho], by rw [ho, hs]; rfl⟩

theorem Bound.mono {keys : Nat → E → List Key} {e : E} {lo hi lo' hi' : Nat} {t : Node E} (h : Bound keys e lo hi t)
    (h1 : lo' ≤ lo) (h2 : hi ≤ hi') : Bound keys e lo' hi' t :=
  ⟨h.leaf, h.ind, le_trans h1 h.lo, le_trans h.hi h2⟩

theorem bindChildren_nth (e : E) (off : Nat) (c : List (Node E)) (k : Nat) (m : Node E)
    (h : (Node.bindChildren e off c).1[k]? = some m) :
    ∃ n off', c[k]? = some n ∧ m = Node.bindTree e off' n ∧ off ≤ off' ∧ off' + m.size ≤ (Node.bindChildren e off c).2 := by
  induction c generalizing off k with
  | nil => simp [Node.bindChildren] at h
  | cons n ns ih =>
    have hle := (Node.leafIndicesList_bindChildren e (off + (Node.bindTree e off n).size) ns).2
    cases k with
    | zero =>
      simp only [Node.bindChildren, List.getElem?_cons_zero, Option.some.injEq] at h
      subst h
      exact ⟨n, off, rfl, rfl, le_rfl, hle⟩
    | succ k =>
      simp only [Node.bindChildren, List.getElem?_cons_succ] at h
      obtain ⟨n', off', h1, h2, h3, h4⟩ := ih _ k h
      exact ⟨n', off', by simpa using h1, h2, by omega, h4⟩

theorem leafInfo_get {c : List (Node E)} {k : Nat} {n : Node E} (h : c[k]? = some n) :
    ∀ p ∈ leafInfo n, p ∈ leafInfoList c := by
  induction c generalizing k with
  | nil => simp at h
  | cons n' ns ih =>
    intro p hp
    simp only [leafInfoList, List.mem_append]
    cases k with
    | zero => simp at h; subst h; exact Or.inl hp
    | succ k => exact Or.inr (ih (by simpa using h) p hp)

theorem leafyList_get {c : List (Node E)} (hc : Node.LeafyList c) {k : Nat} {n : Node E} (h : c[k]? = some n) : n.Leafy := by
  induction c generalizing k with
  | nil => simp at h
  | cons n' ns ih =>
    cases k with
    | zero => simp at h; subst h; exact hc.1
    | succ k => exact ih hc.2 (by simpa using h)

/-- All nodes of a bound tree. -/
theorem bound_child {keys : Nat → E → List Key} (e : E) (p : List Nat) (n : Node E) (hl : n.Leafy) (hk : KeysMatch keys n)
    (off : Nat) (m : Node E) (h : Node.child p (Node.bindTree e off n) = some m) :
    Bound keys e off (off + (Node.bindTree e off n).size) m := by
  induction p generalizing n off with
  | nil =>
    simp only [Node.child, Option.some.injEq] at h
    subst h
    exact bound_bindTree hk e off
  | cons k p ih =>
    cases n with
    | mk d c =>
      by_cases hf : (d.filters.all fun f => f e) = true
      · cases hfe : d.feSize with
        | some f =>
          have hc : c = [] := hl.1 (by simp [hfe])
          simp [Node.bindTree, hf, hfe, Node.child, Node.children, hc] at h
        | none =>
          simp only [Node.bindTree, hf, if_true, hfe, Node.child, Node.children] at h
          obtain ⟨x, hx, hxm⟩ := Option.bind_eq_some_iff.mp h
          obtain ⟨n', off', h1, rfl, h3, h4⟩ := bindChildren_nth e off c k x hx
          have hk' : KeysMatch keys n' := fun q hq => hk q (by simp only [leafInfo, hfe]; exact leafInfo_get h1 q hq)
          refine (ih n' (leafyList_get hl.2 h1) hk' off' hxm).mono h3 ?_
          have hle := (Node.leafIndicesList_bindChildren e off c).2
          have : (Node.bindTree e off (.mk d c)).size = (Node.bindChildren e off c).2 - off := by
            simp only [Node.bindTree, hf, if_true, hfe]; rfl
          omega
      · have e1 : Node.bindTree e off (.mk d c) = Node.emptyAll off (.mk d c) := by
          rw [Node.bindTree, if_neg hf]
        rw [e1, child_emptyAll] at h
        obtain ⟨x, -, rfl⟩ := Option.map_eq_some_iff.mp h
        exact (bound_emptyAll keys x e off).mono le_rfl (by omega)

theorem flatMap_nodup_unique {α β : Type} (l : List α) (f : α → List β) (h : (l.flatMap f).Nodup) (a b : α) (ha : a ∈ l) (hb : b ∈ l)
    (x : β) (hxa : x ∈ f a) (hxb : x ∈ f b) : a = b := by
  induction l with
  | nil => simp at ha
  | cons c l ih =>
    simp only [List.flatMap_cons, List.nodup_append] at h
    rcases List.mem_cons.mp ha with ha' | ha' <;> rcases List.mem_cons.mp hb with hb' | hb'
    · rw [ha', hb']
    · exact absurd rfl (h.2.2 x (ha' ▸ hxa) x (List.mem_flatMap.mpr ⟨b, hb', hxb⟩))
    · exact absurd rfl (h.2.2 x (hb' ▸ hxb) x (List.mem_flatMap.mpr ⟨a, ha', hxa⟩))
    · exact ih h.2.1 ha' hb'

theorem localIndex_mem {m : Node E} {j l : Nat} (h : m.localIndex j = some l) :
    l ∈ List.range' m.offset m.size ∧ l = m.offset + j := by
  simp only [Node.localIndex] at h
  split at h
  · simp only [Option.some.injEq] at h
    rw [List.mem_range'_1]; omega
  · cases h

/-- A local index belongs to at most one key; to exactly one if it lies in the range of the node. -/
theorem hasKey_unique {keys : Nat → E → List Key} {e : E} {lo hi : Nat} {t : Node E} (h : Bound keys e lo hi t) (l : Nat) :
    (∀ k k', HasKey keys e t l k → HasKey keys e t l k' → k = k') ∧
    (t.offset ≤ l → l < t.offset + t.size → ∃ k, HasKey keys e t l k) := by
  constructor
  · rintro k k' ⟨m, hm, j, h1, h2⟩ ⟨m', hm', j', h1', h2'⟩
    obtain ⟨a1, a2⟩ := localIndex_mem h1
    obtain ⟨b1, b2⟩ := localIndex_mem h1'
    have := flatMap_nodup_unique (leaves t) (fun m => List.range' m.offset m.size)
      (by rw [h.flat]; exact List.nodup_range' (step := 1)) m m' hm hm' l a1 b1
    subst this
    have : j = j' := by omega
    subst this
    rw [h2] at h2'
    exact Option.some.inj h2'
  · intro h1 h2
    have : l ∈ List.range' t.offset t.size := by rw [List.mem_range'_1]; exact ⟨h1, h2⟩
    rw [← h.flat, List.mem_flatMap] at this
    obtain ⟨m, hm, hl⟩ := this
    rw [List.mem_range'_1] at hl
    rcases h.leaf m hm with h0 | ⟨-, h3⟩
    · omega
    · have hj : l - m.offset < (keys m.treeIndex e).length := by omega
      refine ⟨(keys m.treeIndex e)[l - m.offset], m, hm, l - m.offset, ?_, List.getElem?_eq_getElem hj⟩
      simp only [Node.localIndex]
      rw [if_pos (by omega)]
      congr 1; omega

/-! ## C32 -/

/-- **C32.** Binding to a sub-entity, for an arbitrary tree `n` (in any state) that was bound to the element `e`, and for the view
of the whole tree (`p = []`) as well as for views of subspace bases: whatever was stored in the object before, the result is the
strictly increasing list of exactly the local indices whose key lies in the sub-entity; `contains` agrees for all local
indices of the view. Every local index of the view's tree has exactly one key. -/
theorem C32_bind (keys : Nat → E → List Key) (inc : E → Nat → Nat → Key → Bool) (n : Node E) (hl : n.Leafy)
    (hk : KeysMatch keys n) (e : E) (p : List Nat) (t : Node E) (ht : Node.child p (Node.bindTree e 0 n) = some t) (i c : Nat) :
    (∃ s', (∀ s : SubDofs, s.bind keys inc (Node.bindTree e 0 n).size (some e) t i c = some s') ∧
      s'.containedDOFs.Pairwise (· < ·) ∧
      (∀ x, x ∈ s'.containedDOFs ↔ ∃ k, HasKey keys e t x k ∧ inc e i c k = true) ∧
      (∀ x, x < (Node.bindTree e 0 n).size → s'.contains x = some (decide (x ∈ s'.containedDOFs)))) ∧
    (∀ l, (∀ k k', HasKey keys e t l k → HasKey keys e t l k' → k = k') ∧
      (t.offset ≤ l → l < t.offset + t.size → ∃ k, HasKey keys e t l k)) := by
  have hB := bound_child e p n hl hk 0 t ht
  rw [Nat.zero_add] at hB
  obtain ⟨l, h1, h2, h3⟩ := bind_spec (inc := inc) hB {} i c
  refine ⟨⟨marked _ l, fun _ => h1, (List.pairwise_lt_range' (step := 1)).sublist h2, h3, ?_⟩, hasKey_unique hB⟩
  intro x hx
  simp only [SubDofs.contains, marked, List.getElem?_map, List.getElem?_range hx, Option.map_some]
  exact congrArg some (decide_eq_decide.mpr Iff.rfl)

/-- **C32.** The same for the local views of a basis after any history of creating, copying, binding and unbinding views. -/
theorem C32_view (b : PB E) (hb : b.WF) (keys : Nat → E → List Key) (inc : E → Nat → Nat → Key → Bool)
    (hk : KeysMatch keys (LocalView.fresh b.model).tree) (ops : List (LVOp E)) (a : List (Option E)) (ha : absRun [] ops = some a) :
    ∃ vs, runLV b.model [] ops = some vs ∧ vs.map (·.element) = a ∧
      ∀ v ∈ vs, ∀ e, v.element = some e → ∀ p t, Node.child p v.tree = some t → ∀ i c,
        ∃ s', (∀ s : SubDofs, s.bind keys inc v.size v.element t i c = some s') ∧ s'.containedDOFs.Pairwise (· < ·) ∧
          (∀ x, x ∈ s'.containedDOFs ↔ ∃ k, HasKey keys e t x k ∧ inc e i c k = true) ∧
          (∀ x, x < v.size → s'.contains x = some (decide (x ∈ s'.containedDOFs))) := by
  have R := b.refines hb
  obtain ⟨vs, h1, h2, h3⟩ := runLV_inv R ops [] a (by simp) ha
  refine ⟨vs, h1, h2, ?_⟩
  intro v hv e he p t ht i c
  obtain ⟨-, n, hn1, hn2, hn3⟩ := (h3 v hv).2.2 e he
  have hk' : KeysMatch keys n := by
    intro q hq
    rw [← leafInfo_skel, hn1, leafInfo_skel] at hq
    exact hk q hq
  rw [hn3] at ht
  have := (C32_bind keys inc n (Node.leafy_of_blank _ _ hn2 R.leafy) hk' e p t ht i c).1
  rw [he, LocalView.size, hn3]
  exact this

/-! ## Boundary DOFs -/

mutual
/-- Offset, size and tree index of all leaves. -/
def leafPos : Node E → List (Nat × Nat × Nat)
  | .mk d c => match d.feSize with
    | some _ => [(d.offset, d.size, d.treeIndex)]
    | none => leafPosList c
def leafPosList : List (Node E) → List (Nat × Nat × Nat)
  | [] => []
  | n :: ns => leafPos n ++ leafPosList ns
end

mutual
theorem leafPos_eq : (n : Node E) → leafPos n = (leaves n).map fun m => (m.offset, m.size, m.treeIndex)
  | .mk d c => by
    simp only [leafPos, leaves]
    cases d.feSize with
    | none => exact leafPosList_eq c
    | some f => rfl
theorem leafPosList_eq : (l : List (Node E)) → leafPosList l = (leavesList l).map fun m => (m.offset, m.size, m.treeIndex)
  | [] => rfl
  | n :: ns => by simp [leafPosList, leavesList, leafPos_eq n, leafPosList_eq ns]
end

mutual
theorem leafPos_emptyAll (off : Nat) : (n m : Node E) → n.skel = m.skel → leafPos (Node.emptyAll off n) = leafPos (Node.emptyAll off m)
  | .mk d c, .mk d' c', h => by
    simp only [Node.skel, Node.mk.injEq, NodeData.mk.injEq, true_and] at h
    obtain ⟨⟨h1, h2, h3⟩, h4⟩ := h
    simp only [Node.emptyAll, leafPos, h1, h2]
    rw [leafPosList_emptyAll off c c' h4]
theorem leafPosList_emptyAll (off : Nat) : (l l' : List (Node E)) → Node.skelList l = Node.skelList l' →
    leafPosList (Node.emptyAllList off l) = leafPosList (Node.emptyAllList off l')
  | [], [], _ => rfl
  | [], _ :: _, h => by simp [Node.skelList] at h
  | _ :: _, [], h => by simp [Node.skelList] at h
  | n :: ns, m :: ms, h => by
    simp only [Node.skelList, List.cons.injEq] at h
    simp [Node.emptyAllList, leafPosList, leafPos_emptyAll off n m h.1, leafPosList_emptyAll off ns ms h.2]
end

mutual
theorem leafPos_bindTree (e : E) (off : Nat) : (n m : Node E) → n.Leafy → m.Leafy → n.skel = m.skel →
    leafPos (Node.bindTree e off n) = leafPos (Node.bindTree e off m)
  | .mk d c, .mk d' c', hn, hm, h => by
    have h' := h
    simp only [Node.skel, Node.mk.injEq, NodeData.mk.injEq, true_and] at h
    obtain ⟨⟨h1, h2, h3⟩, h4⟩ := h
    rw [Node.bindTree, Node.bindTree, h3]
    split
    · cases hfe : d.feSize with
      | none =>
        have hfe' : d'.feSize = none := by rw [← h2, hfe]
        simp only [hfe', leafPos]
        exact leafPosList_bindChildren e off c c' hn.2 hm.2 h4
      | some sz =>
        have hfe' : d'.feSize = some sz := by rw [← h2, hfe]
        simp only [hfe', leafPos, h1]
    · exact leafPos_emptyAll off _ _ h'
theorem leafPosList_bindChildren (e : E) (off : Nat) : (l l' : List (Node E)) → Node.LeafyList l →
    Node.LeafyList l' → Node.skelList l = Node.skelList l' →
    leafPosList (Node.bindChildren e off l).1 = leafPosList (Node.bindChildren e off l').1
  | [], [], _, _, _ => rfl
  | [], _ :: _, _, _, h => by simp [Node.skelList] at h
  | _ :: _, [], _, _, h => by simp [Node.skelList] at h
  | n :: ns, m :: ms, hn, hm, h => by
    simp only [Node.skelList, List.cons.injEq] at h
    have h1 := leafPos_bindTree e off n m hn.1 hm.1 h.1
    have h2 := Node.size_obs _ _ (Node.obs_bindTree e off n m hn.1 hm.1 h.1)
    have h3 := leafPosList_bindChildren e (off + (Node.bindTree e off n).size) ns ms hn.2 hm.2 h.2
    simp only [Node.bindChildren, leafPosList, h1]
    rw [h3, h2]
end

theorem hasKey_iff (keys : Nat → E → List Key) (e : E) (t : Node E) (l : Nat) (k : Key) :
    HasKey keys e t l k ↔ ∃ q ∈ leafPos t, ∃ j, j < q.2.1 ∧ l = q.1 + j ∧ (keys q.2.2 e)[j]? = some k := by
  simp only [HasKey, leafPos_eq, List.mem_map]
  constructor
  · rintro ⟨m, hm, j, h1, h2⟩
    refine ⟨_, ⟨m, hm, rfl⟩, j, ?_, (localIndex_mem h1).2, h2⟩
    have := localIndex_mem h1
    rw [List.mem_range'_1] at this
    simp only; omega
  · rintro ⟨q, ⟨m, hm, rfl⟩, j, h1, rfl, h2⟩
    simp only at h1
    exact ⟨m, hm, j, by simp [Node.localIndex, h1], h2⟩

/-- The tree of a view bound to an element, in any state. -/
theorem hasKey_bindTree (keys : Nat → E → List Key) (e : E) (n m : Node E) (hn : n.Leafy) (hm : m.Leafy) (h : n.skel = m.skel)
    (l : Nat) (k : Key) : HasKey keys e (Node.bindTree e 0 n) l k ↔ HasKey keys e (Node.bindTree e 0 m) l k := by
  rw [hasKey_iff, hasKey_iff, leafPos_bindTree e 0 n m hn hm h]

/-- What one element and one of its boundary intersections contribute. -/
def ShouldVisit (pb : PreBasis E) (keys : Nat → E → List Key) (inc : E → Nat → Nat → Key → Bool) (v : Visit E) : Prop :=
  v.isect.boundary = true ∧
  (∃ k, HasKey keys v.element (Node.bindTree v.element 0 (LocalView.fresh pb).tree) v.localIndex k ∧
    inc v.element v.isect.indexInInside 1 k = true) ∧
  ∃ l, localIndices pb v.element = some l ∧ l[v.localIndex]? = some v.index

theorem mapM_some {α β : Type} (f : α → Option β) (l : List α) (h : ∀ a ∈ l, ∃ b, f a = some b) :
    ∃ r, l.mapM f = some r ∧ ∀ b, b ∈ r ↔ ∃ a ∈ l, f a = some b := by
  induction l with
  | nil => exact ⟨[], rfl, by simp⟩
  | cons a l ih =>
    obtain ⟨r, h1, h2⟩ := ih fun x hx => h x (by simp [hx])
    obtain ⟨b, hb⟩ := h a (by simp)
    refine ⟨b :: r, by simp [List.mapM_cons, hb, h1], ?_⟩
    intro x
    simp only [List.mem_cons, h2, exists_eq_or_imp, hb, Option.some.injEq]
    constructor
    · rintro (rfl | h)
      · exact Or.inl rfl
      · exact Or.inr h
    · rintro (rfl | h)
      · exact Or.inl rfl
      · exact Or.inr h

theorem isectFold {b : PB E} (hb : b.WF) {keys : Nat → E → List Key} (inc : E → Nat → Nat → Key → Bool)
    (hk : KeysMatch keys (LocalView.fresh b.model).tree) (e : E) (n : Node E) (hn1 : n.skel = (LocalView.fresh b.model).tree.skel)
    (hn2 : n.blank = b.model.makeNode.blank) (v : LocalView E) (hv1 : v.tree = Node.bindTree e 0 n) (hv2 : v.element = some e)
    (hv3 : v.indices = (b.spec.loc e).map b.spec.mi) (iss : List BIsect) (d : SubDofs) (calls : List (Visit E)) :
    ∃ s', iss.foldlM (isectStep keys inc e) ⟨v, d, calls⟩ = some s' ∧ s'.view = v ∧
      ∀ x, x ∈ s'.calls ↔ x ∈ calls ∨ (x.element = e ∧ x.isect ∈ iss ∧ ShouldVisit b.model keys inc x) := by
  have R := b.refines hb
  have hn3 := Node.leafy_of_blank _ _ hn2 R.leafy
  have hk' : KeysMatch keys n := by
    intro q hq
    rw [← leafInfo_skel, hn1, leafInfo_skel] at hq
    exact hk q hq
  have hloc : localIndices b.model e = some v.indices := by
    rw [localIndices, LocalView.bind_eq R _ (LocalView.fresh_blank _) e, hv3]; rfl
  induction iss generalizing d calls with
  | nil => exact ⟨_, rfl, rfl, by simp⟩
  | cons is iss ih =>
    rw [List.foldlM_cons]
    by_cases hbd : is.boundary = true
    · obtain ⟨s1, h1, -, h3, -⟩ := (C32_bind keys inc n hn3 hk' e [] _ rfl is.indexInInside 1).1
      have hmap : ∀ l ∈ s1.containedDOFs, ∃ x, (v.index l).map (fun m => Visit.mk e is l m) = some x := by
        intro l hl
        obtain ⟨k, ⟨m, hm, j, hj, -⟩, -⟩ := (h3 l).mp hl
        have hB := bound_bindTree hk' e 0
        have : l < (Node.bindTree e 0 n).size := by
          have hlt : l ∈ List.range' (Node.bindTree e 0 n).offset (Node.bindTree e 0 n).size := by
            rw [← hB.flat, List.mem_flatMap]
            exact ⟨m, hm, (localIndex_mem hj).1⟩
          rw [List.mem_range'_1, Node.bindTree_offset] at hlt
          omega
        rw [R.nodeSize e 0 n hn2] at this
        have hlt : l < v.indices.length := by rw [hv3]; simpa using this
        exact ⟨_, by rw [LocalView.index, List.getElem?_eq_getElem hlt]; rfl⟩
      obtain ⟨r, hr1, hr2⟩ := mapM_some _ _ hmap
      have hstep : isectStep keys inc e ⟨v, d, calls⟩ is = some ⟨v, s1, calls ++ r⟩ := by
        simp only [isectStep, hbd, if_true, hv2, LocalView.size, hv1, h1, Option.bind_some, hr1, Option.map_some]
      rw [hstep]
      obtain ⟨s', g1, g2, g3⟩ := ih s1 (calls ++ r)
      refine ⟨s', g1, g2, ?_⟩
      intro x
      rw [g3, List.mem_append, hr2]
      have key : (∃ a ∈ s1.containedDOFs, Option.map (fun m => Visit.mk e is a m) (v.index a) = some x) ↔
          (x.element = e ∧ x.isect = is ∧ ShouldVisit b.model keys inc x) := by
        constructor
        · rintro ⟨a, ha, hx⟩
          obtain ⟨m, hm, rfl⟩ := Option.map_eq_some_iff.mp hx
          obtain ⟨k, hk1, hk2⟩ := (h3 a).mp ha
          refine ⟨rfl, rfl, hbd, ⟨k, ?_, hk2⟩, v.indices, hloc, hm⟩
          exact (hasKey_bindTree keys e n _ hn3 (Node.leafy_of_blank _ _ (LocalView.fresh_blank _) R.leafy) hn1 a k).mp hk1
        · obtain ⟨xe, xi, xl, xm⟩ := x
          rintro ⟨he, hi, -, ⟨k, hk1, hk2⟩, l, hl1, hl2⟩
          simp only at he hi hk1 hk2 hl1 hl2
          subst he hi
          rw [hloc] at hl1
          cases hl1
          refine ⟨xl, (h3 xl).mpr ⟨k, ?_, hk2⟩, by rw [LocalView.index, hl2]; rfl⟩
          exact (hasKey_bindTree keys xe n _ hn3 (Node.leafy_of_blank _ _ (LocalView.fresh_blank _) R.leafy) hn1 xl k).mpr hk1
      rw [key]
      simp only [List.mem_cons]
      tauto
    · have hstep : isectStep keys inc e ⟨v, d, calls⟩ is = some ⟨v, d, calls⟩ := by simp [isectStep, hbd]
      rw [hstep]
      obtain ⟨s', g1, g2, g3⟩ := ih d calls
      refine ⟨s', g1, g2, ?_⟩
      intro x
      rw [g3]
      constructor
      · rintro (h | ⟨h1, h2, h3⟩)
        · exact Or.inl h
        · exact Or.inr ⟨h1, by simp [h2], h3⟩
      · rintro (h | ⟨h1, h2, h3⟩)
        · exact Or.inl h
        · rcases List.mem_cons.mp h2 with h2 | h2
          · have := h3.1
            rw [h2] at this
            exact absurd this hbd
          · exact Or.inr ⟨h1, h2, h3⟩

/-- **C32.** `forEachBoundaryDOF`: for every basis tree the traversal is defined, and the callback is called exactly for the local
indices with a key inside of a boundary intersection of an element, with the element's local view (hence the
multi-index a new view would return) and that intersection. -/
theorem C32_boundary (b : PB E) (hb : b.WF) (keys : Nat → E → List Key) (inc : E → Nat → Nat → Key → Bool)
    (hk : KeysMatch keys (LocalView.fresh b.model).tree) (hasBoundary : E → Bool) (isects : E → List BIsect)
    (hB : ∀ e, ∀ is ∈ isects e, is.boundary = true → hasBoundary e = true) (els : List E) :
    ∃ calls, forEachBoundaryDOF b.model keys inc hasBoundary isects els = some calls ∧
      ∀ x, x ∈ calls ↔ x.element ∈ els ∧ x.isect ∈ isects x.element ∧ ShouldVisit b.model keys inc x := by
  have R := b.refines hb
  have key : ∀ (els : List E) (s : BState E), s.view.tree.skel = (LocalView.fresh b.model).tree.skel →
      s.view.tree.blank = b.model.makeNode.blank →
      ∃ s', els.foldlM (elemStep b.model keys inc hasBoundary isects) s = some s' ∧
        ∀ x, x ∈ s'.calls ↔ x ∈ s.calls ∨ (x.element ∈ els ∧ x.isect ∈ isects x.element ∧ ShouldVisit b.model keys inc x) := by
    intro els
    induction els with
    | nil => intro s _ _; exact ⟨s, rfl, by simp⟩
    | cons e els ih =>
      intro s hs1 hs2
      rw [List.foldlM_cons]
      by_cases hbd : hasBoundary e = true
      · obtain ⟨s1, h1, h2, h3⟩ := isectFold hb inc hk e s.view.tree hs1 hs2
          ⟨Node.bindTree e 0 s.view.tree, some e, (b.spec.loc e).map b.spec.mi⟩ rfl rfl rfl (isects e) s.dofs s.calls
        have hstep : elemStep b.model keys inc hasBoundary isects s e = some s1 := by
          simp only [elemStep, hbd, if_true, LocalView.bind_eq R _ hs2 e, Option.bind_some]
          exact h1
        rw [hstep]
        obtain ⟨s', g1, g2⟩ := ih s1 (by rw [h2, Node.skel_bindTree]; exact hs1) (by rw [h2, Node.blank_bindTree]; exact hs2)
        refine ⟨s', g1, ?_⟩
        intro x
        rw [g2, h3]
        simp only [List.mem_cons]
        constructor
        · rintro ((h | ⟨rfl, h1, h2⟩) | ⟨h1, h2⟩)
          · exact Or.inl h
          · exact Or.inr ⟨Or.inl rfl, h1, h2⟩
          · exact Or.inr ⟨Or.inr h1, h2⟩
        · rintro (h | ⟨h0 | h0, h1, h2⟩)
          · exact Or.inl (Or.inl h)
          · exact Or.inl (Or.inr ⟨h0, by rw [← h0]; exact h1, h2⟩)
          · exact Or.inr ⟨h0, h1, h2⟩
      · have hstep : elemStep b.model keys inc hasBoundary isects s e = some s := by simp [elemStep, hbd]
        rw [hstep]
        obtain ⟨s', g1, g2⟩ := ih s hs1 hs2
        refine ⟨s', g1, ?_⟩
        intro x
        rw [g2]
        simp only [List.mem_cons]
        constructor
        · rintro (h | ⟨h1, h2⟩)
          · exact Or.inl h
          · exact Or.inr ⟨Or.inr h1, h2⟩
        · rintro (h | ⟨h0 | h0, h1, h2⟩)
          · exact Or.inl h
          · exact absurd (hB e x.isect (by rw [← h0]; exact h1) h2.1) hbd
          · exact Or.inr ⟨h0, h1, h2⟩
  obtain ⟨s', h1, h2⟩ := key els ⟨LocalView.fresh b.model, {}, []⟩ rfl (LocalView.fresh_blank _)
  refine ⟨s'.calls, by rw [forEachBoundaryDOF, h1]; rfl, ?_⟩
  intro x
  rw [h2]; simp

/-! ## Global boundary DOFs of mapper based bases -/

/-- The entity `x` lies in the closure of a boundary intersection. `incS e i c cc k`: sub-entity `(cc, k)` of `e` is contained in
sub-entity `(c, i)`. -/
def OnBoundary (G : GridView E S) (incS : E → Nat → Nat → Nat → Nat → Bool) (isects : E → List BIsect) (els : List E) (x : S) : Prop :=
  ∃ e ∈ els, ∃ is ∈ isects e, is.boundary = true ∧ ∃ c k, c ≤ G.dim ∧ k < (G.refSubs (G.elemGeo e) c).length ∧
    incS e is.indexInInside 1 c k = true ∧ G.sub e c k = x

theorem hasKey_leaf (L : Leaf E) (keys0 : E → List Key) (hlen : ∀ e, (L.loc e).length = (keys0 e).length) (e : E) (l : Nat) (k : Key) :
    HasKey (fun _ => keys0) e (Node.bindTree e 0 (LocalView.fresh (PB.leaf L).model).tree) l k ↔ (keys0 e)[l]? = some k := by
  rw [hasKey_iff]
  have e1 : leafPos (Node.bindTree e 0 (LocalView.fresh (PB.leaf L).model).tree) = [(0, (L.loc e).length, 0)] := rfl
  rw [e1]
  simp only [List.mem_singleton, exists_eq_left, Nat.zero_add]
  constructor
  · rintro ⟨j, -, rfl, h⟩; exact h
  · intro h
    exact ⟨l, by rw [hlen]; exact (List.getElem?_eq_some_iff.mp h).1, rfl, h⟩

/-- **C32.** For a basis with indices from a mapper (Lagrange, Raviart–Thomas, ...): the multi-index of any local basis function of any
element — also of elements without a boundary intersection — is visited by `forEachBoundaryDOF` if and only if the grid entity the
function is attached to lies on the boundary. -/
theorem C32_global {G : GridView E S} (hG : G.OK) {lay : Layout} {keys0 : E → List Key} (hk : KeysOK G lay keys0)
    (hf : KeysFull G lay keys0) (incS : E → Nat → Nat → Nat → Nat → Bool) (hasBoundary : E → Bool) (isects : E → List BIsect)
    (hB : ∀ e, ∀ is ∈ isects e, is.boundary = true → hasBoundary e = true) (els : List E) :
    ∃ calls, forEachBoundaryDOF (PB.leaf (mapperLeaf G lay keys0)).model (fun _ => keys0) (fun e i c k => incS e i c k.codim k.sub)
        hasBoundary isects els = some calls ∧
      ∀ (e : E) (l : Nat) (k : Key), (keys0 e)[l]? = some k → ∃ m, (localIndices (PB.leaf (mapperLeaf G lay keys0)).model e).bind (·[l]?) = some m ∧
        ((∃ v ∈ calls, v.index = m) ↔ OnBoundary G incS isects els (G.sub e k.codim k.sub)) := by
  have hWF := mapperLeaf_WF hG hk
  have R := (PB.leaf (mapperLeaf G lay keys0)).refines hWF
  have hlen : ∀ e, ((mapperLeaf G lay keys0).loc e).length = (keys0 e).length := by intro e; simp [mapperLeaf]
  have hkm : KeysMatch (fun _ => keys0) (LocalView.fresh (PB.leaf (mapperLeaf G lay keys0)).model).tree := by
    intro p hp e
    have : leafInfo (LocalView.fresh (PB.leaf (mapperLeaf G lay keys0)).model).tree
      = [(0, fun e => ((mapperLeaf G lay keys0).loc e).length)] := rfl
    rw [this, List.mem_singleton] at hp
    subst hp
    exact hlen e
  have hloc : ∀ e, localIndices (PB.leaf (mapperLeaf G lay keys0)).model e
      = some (((mapperLeaf G lay keys0).loc e).map fun i => [i]) := by
    intro e
    rw [localIndices_eq R]
    simp [PB.spec, specLeaf]
  obtain ⟨calls, h1, h2⟩ := C32_boundary _ hWF (fun _ => keys0) (fun e i c k => incS e i c k.codim k.sub) hkm hasBoundary isects hB els
  refine ⟨calls, h1, ?_⟩
  intro e l k hl
  have hget : ∀ (e : E) (l : Nat) (k : Key), (keys0 e)[l]? = some k →
      (((mapperLeaf G lay keys0).loc e).map fun i => [i])[l]? = some [mapperIndex G lay (G.sub e k.codim k.sub) + k.index] := by
    intro e l k hl
    simp [mapperLeaf, hl]
  refine ⟨_, by rw [hloc, Option.bind_some, hget e l k hl], ?_⟩
  obtain ⟨-, t, ht, hj⟩ := hk.ok e k (List.mem_of_getElem? hl)
  have hgeo := hG.subGeo e _ _ t ht
  constructor
  · rintro ⟨v, hv, hvi⟩
    obtain ⟨ha, hb, hc, ⟨k', hk1, hk2⟩, L, hL1, hL2⟩ := (h2 v).mp hv
    rw [hasKey_leaf _ _ hlen] at hk1
    rw [hloc] at hL1
    cases hL1
    rw [hget _ _ _ hk1, Option.some.injEq, hvi] at hL2
    simp only [List.cons.injEq, and_true] at hL2
    obtain ⟨hcd, t', ht', hj'⟩ := hk.ok v.element k' (List.mem_of_getElem? hk1)
    have hgeo' := hG.subGeo v.element _ _ t' ht'
    obtain ⟨hs, -⟩ := (mapper_inj hG lay _ _ _ _ (by rw [hgeo']; exact hj') (by rw [hgeo]; exact hj)).mp hL2
    exact ⟨v.element, ha, v.isect, hb, hc, k'.codim, k'.sub, hcd, (List.getElem?_eq_some_iff.mp ht').1, hk2, hs⟩
  · rintro ⟨e', he', is, his, hbd, c, kk, hc, hkk, hinc, hx⟩
    have hgt : (G.refSubs (G.elemGeo e') c)[kk]? = some t := by
      have := hG.subGeo e' c kk _ (List.getElem?_eq_getElem hkk)
      rw [hx, hgeo] at this
      rw [List.getElem?_eq_getElem hkk, ← this]
    have hmem := hf e' c kk t k.index hc hgt hj
    obtain ⟨l', hl'⟩ := List.mem_iff_getElem?.mp hmem
    refine ⟨⟨e', is, l', _⟩, (h2 _).mpr ⟨he', his, hbd, ⟨_, (hasKey_leaf _ _ hlen e' l' _).mpr hl', hinc⟩, _, hloc e', hget e' l' _ hl'⟩, ?_⟩
    simp [hx]

/-! ## Example: two components of a linear Lagrange basis on the mesh of two triangles -/

/-- Containment of sub-entities of the standard reference elements: (cc, k) in (c, i). -/
def stdInc (t : Geo) (i c cc k : Nat) : Bool :=
  decide (c ≤ cc) && ((Lagrange.subVerts (Lagrange.refOf t) cc).getD k [0]).all
    fun v => ((Lagrange.subVerts (Lagrange.refOf t) c).getD i []).contains v

def exKeys : Fin 2 → List Key := fun _ => [⟨0, 2, 0⟩, ⟨1, 2, 0⟩, ⟨2, 2, 0⟩]

def exBasis : PB (Fin 2) :=
  .power .blockedLex 2 (.leaf (mapperLeaf Lagrange.demoGrid.toGridView (fun t => if t.dim = 0 then 1 else 0) exKeys))

/-- The first element has two boundary edges 0 and 1 and the inner edge 2. -/
def exIsects : Fin 2 → List BIsect := fun e => if e = 0 then [⟨true, 0⟩, ⟨true, 1⟩, ⟨false, 2⟩] else [⟨false, 2⟩]

/-- Edge 1 of the first triangle (vertices 0 and 2): local indices 0, 2 of the first component and 3, 5 of the second. -/
example : (SubDofs.bind ⟨[7], [true]⟩ (fun _ => exKeys) (fun _ i c k => stdInc ⟨2, 3⟩ i c k.codim k.sub) 6 (some 0)
    (Node.bindTree 0 0 (LocalView.fresh exBasis.model).tree) 1 1) = some ⟨[0, 2, 3, 5], [true, false, true, true, false, true]⟩ := by
  decide +kernel

example : (forEachBoundaryDOF exBasis.model (fun _ => exKeys) (fun _ i c k => stdInc ⟨2, 3⟩ i c k.codim k.sub)
    (fun e => e = 0) exIsects [0, 1]).map (fun l => l.map (·.index))
    = some [[0, 0], [0, 1], [1, 0], [1, 1], [0, 0], [0, 3], [1, 0], [1, 3]] := by decide +kernel

end Verif.Dofs

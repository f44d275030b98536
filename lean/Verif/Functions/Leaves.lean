import Verif.IndexTree.Subspace

/-!
# Leaves of a bound local tree

`TypeTree::forEachLeafNode` on the local trees, and what it visits in a bound tree.
-/

namespace Verif.IndexTree.Node

variable {E : Type}

mutual
/-- `TypeTree::forEachLeafNode(tree, f)`: leaves with their tree path in pre-order (dune-typetree, traversal.hh). -/
def leaves : Node E → List (List Nat × Node E)
  | mk d c => match d.feSize with
    | some _ => [([], mk d c)]
    | none => leavesList 0 c
def leavesList (k : Nat) : List (Node E) → List (List Nat × Node E)
  | [] => []
  | n :: ns => (leaves n).map (fun l => (k :: l.1, l.2)) ++ leavesList (k + 1) ns
end

/-- Path, offset and size of the leaves. -/
def slots (n : Node E) : List (List Nat × Nat × Nat) := n.leaves.map fun l => (l.1, l.2.offset, l.2.size)

mutual
theorem slots_congr : (n m : Node E) → n.obs = m.obs → n.skel = m.skel → n.slots = m.slots
  | mk d c, mk d' c', ho, hs => by
    simp only [skel, Node.mk.injEq, NodeData.mk.injEq, true_and] at hs
    simp only [obs, ObsTree.mk.injEq, Obs.mk.injEq] at ho
    obtain ⟨⟨h1, h2, h3⟩, h4⟩ := hs
    simp only [slots, leaves]
    rw [← h2]
    cases d.feSize with
    | some sz => simp [offset, size, data, ho.1.1, ho.1.2.1]
    | none => exact slotsList_congr 0 c c' ho.2 h4
theorem slotsList_congr (k : Nat) : (l l' : List (Node E)) → obsList l = obsList l' → skelList l = skelList l' →
    (leavesList k l).map (fun l => (l.1, l.2.offset, l.2.size)) = (leavesList k l').map (fun l => (l.1, l.2.offset, l.2.size))
  | [], [], _, _ => rfl
  | [], _ :: _, _, h => by simp [skelList] at h
  | _ :: _, [], _, h => by simp [skelList] at h
  | n :: ns, m :: ms, ho, hs => by
    simp only [obsList, List.cons.injEq] at ho
    simp only [skelList, List.cons.injEq] at hs
    have h1 := slots_congr n m ho.1 hs.1
    have h2 := slotsList_congr (k + 1) ns ms ho.2 hs.2
    simp only [leavesList, List.map_append, List.map_map, h2]
    congr 1
    have : ∀ x : Node E, (leaves x).map ((fun l => (l.1, l.2.offset, l.2.size)) ∘ fun l => (k :: l.1, l.2))
        = x.slots.map fun s => (k :: s.1, s.2) := by
      intro x; simp [slots, Function.comp_def]
    rw [this, this, h1]
end

theorem obsList_get (l : List (Node E)) (k : Nat) : (obsList l)[k]? = l[k]?.map obs := by
  induction l generalizing k with
  | nil => simp [obsList]
  | cons n ns ih => cases k <;> simp [obsList, ih]

theorem skelList_get (l : List (Node E)) (k : Nat) : (skelList l)[k]? = l[k]?.map skel := by
  induction l generalizing k with
  | nil => simp [skelList]
  | cons n ns ih => cases k <;> simp [skelList, ih]

/-- Equality of the observable state is inherited by subtrees. -/
theorem child_congr (p : List Nat) (n m t : Node E) (ho : n.obs = m.obs) (hs : n.skel = m.skel)
    (ht : Node.child p n = some t) : ∃ t', Node.child p m = some t' ∧ t.obs = t'.obs ∧ t.skel = t'.skel := by
  induction p generalizing n m with
  | nil =>
    simp only [Node.child, Option.some.injEq] at ht
    subst ht
    exact ⟨m, rfl, ho, hs⟩
  | cons k p ih =>
    cases n with
    | mk d c =>
      cases m with
      | mk d' c' =>
        simp only [obs, ObsTree.mk.injEq] at ho
        simp only [skel, Node.mk.injEq] at hs
        simp only [Node.child, children, Option.bind_eq_some_iff] at ht ⊢
        obtain ⟨n1, hn1, ht⟩ := ht
        have e1 := obsList_get c k
        have e2 := obsList_get c' k
        have e3 := skelList_get c k
        have e4 := skelList_get c' k
        rw [hn1, ho.2] at e1
        rw [hn1, hs.2] at e3
        rw [e1] at e2
        rw [e3] at e4
        cases hm1 : c'[k]? with
        | none => rw [hm1] at e2; simp at e2
        | some m1 =>
          rw [hm1] at e2 e4
          simp only [Option.map_some, Option.some.injEq] at e2 e4
          obtain ⟨t', h1, h2, h3⟩ := ih n1 m1 e2 e4 ht
          exact ⟨t', ⟨m1, rfl, h1⟩, h2, h3⟩

/-- A non-empty leaf of a tree bound to `e` is bound to `e` and has the size of its finite element. -/
def LeafOK (e : E) (n : Node E) : Prop :=
  n.size = 0 ∨ n.data.element = some e ∧ ∃ sz, n.data.feSize = some sz ∧ sz e = n.size

mutual
theorem leaves_emptyAll (e : E) (off : Nat) : (n : Node E) → ∀ l ∈ (emptyAll off n).leaves, LeafOK e l.2
  | mk d c => by
    intro l hl
    rw [emptyAll, leaves] at hl
    cases hfe : d.feSize with
    | none => simp only [hfe] at hl; exact leavesList_emptyAll e off 0 c l hl
    | some sz =>
      simp only [hfe, List.mem_singleton] at hl
      subst hl
      exact Or.inl rfl
theorem leavesList_emptyAll (e : E) (off : Nat) : (k : Nat) → (ns : List (Node E)) →
    ∀ l ∈ leavesList k (emptyAllList off ns), LeafOK e l.2
  | _, [] => by simp [emptyAllList, leavesList]
  | k, n :: ns => by
    intro l hl
    simp only [emptyAllList, leavesList, List.mem_append, List.mem_map] at hl
    rcases hl with ⟨l', hl', rfl⟩ | hl
    · exact leaves_emptyAll e off n l' hl'
    · exact leavesList_emptyAll e off (k + 1) ns l hl
end

mutual
theorem leaves_bindTree (e : E) (off : Nat) : (n : Node E) → ∀ l ∈ (bindTree e off n).leaves, LeafOK e l.2
  | mk d c => by
    intro l hl
    rw [bindTree] at hl
    split at hl
    · cases hfe : d.feSize with
      | none =>
        simp only [hfe, leaves] at hl
        exact leavesList_bindChildren e off 0 c l hl
      | some sz =>
        simp only [hfe, leaves, List.mem_singleton] at hl
        subst hl
        exact Or.inr ⟨rfl, sz, rfl, rfl⟩
    · exact leaves_emptyAll e off _ l hl
theorem leavesList_bindChildren (e : E) (off : Nat) : (k : Nat) → (ns : List (Node E)) →
    ∀ l ∈ leavesList k (bindChildren e off ns).1, LeafOK e l.2
  | _, [] => by simp [bindChildren, leavesList]
  | k, n :: ns => by
    intro l hl
    simp only [bindChildren, leavesList, List.mem_append, List.mem_map] at hl
    rcases hl with ⟨l', hl', rfl⟩ | hl
    · exact leaves_bindTree e off n l' hl'
    · exact leavesList_bindChildren e _ (k + 1) ns l hl
end

/-- Leaves of a list of nodes are those of its entries. -/
theorem leavesList_get (c : List (Node E)) (k i : Nat) (n : Node E) (h : c[i]? = some n) (l : List Nat × Node E)
    (hl : l ∈ n.leaves) : (k + i) :: l.1 = (k + i) :: l.1 ∧ ((k + i) :: l.1, l.2) ∈ leavesList k c := by
  refine ⟨rfl, ?_⟩
  induction c generalizing k i with
  | nil => simp at h
  | cons a c ih =>
    simp only [leavesList, List.mem_append, List.mem_map]
    cases i with
    | zero =>
      simp at h; subst h
      exact Or.inl ⟨l, hl, by simp⟩
    | succ i =>
      right
      have := ih (k + 1) i (by simpa using h)
      rwa [show k + 1 + i = k + (i + 1) by omega] at this

/-- Leaves of a subtree are leaves of the tree (leaf nodes have no children). -/
theorem leaves_child (p : List Nat) (n t : Node E) (hn : n.Leafy) (ht : Node.child p n = some t) :
    t.Leafy ∧ ∀ l ∈ t.leaves, (p ++ l.1, l.2) ∈ n.leaves := by
  induction p generalizing n with
  | nil =>
    simp only [Node.child, Option.some.injEq] at ht
    subst ht
    exact ⟨hn, fun l hl => hl⟩
  | cons k p ih =>
    cases n with
    | mk d c =>
      simp only [Node.child, children, Option.bind_eq_some_iff] at ht
      obtain ⟨n1, hn1, ht⟩ := ht
      obtain ⟨h1, h2⟩ := hn
      have hleafy : ∀ (c : List (Node E)) (k : Nat), LeafyList c → c[k]? = some n1 → n1.Leafy := by
        intro c
        induction c with
        | nil => intro k _ h; simp at h
        | cons a c ih =>
          intro k hc h
          cases k with
          | zero => simp at h; subst h; exact hc.1
          | succ k => exact ih k hc.2 (by simpa using h)
      obtain ⟨h3, h4⟩ := ih n1 (hleafy c k h2 hn1) ht
      refine ⟨h3, ?_⟩
      intro l hl
      have hfe : d.feSize = none := by
        cases hd : d.feSize with
        | none => rfl
        | some sz => rw [h1 (by simp [hd])] at hn1; simp at hn1
      simp only [leaves, hfe]
      have := (leavesList_get c 0 k n1 hn1 _ (h4 l hl)).2
      simpa using this

mutual
theorem leafIndices_tiled : (n : Node E) → n.Tiled → n.leafIndices = (List.range' n.offset n.size).map some
  | mk d c, h => by
    rw [leafIndices]
    cases hfe : d.feSize with
    | none =>
      have := leafIndicesList_tiled c d.offset (d.offset + d.size) (h hfe)
      simp only [this.1, offset, size, data]
      congr 2
      omega
    | some _ => exact ownIndices_eq _
theorem leafIndicesList_tiled : (l : List (Node E)) → (a b : Nat) → TiledList a b l →
    leafIndicesList l = (List.range' a (b - a)).map some ∧ a ≤ b
  | [], a, b, h => by
    simp only [TiledList] at h; subst h; simp [leafIndicesList]
  | n :: ns, a, b, h => by
    obtain ⟨h1, h2, h3⟩ := h
    obtain ⟨h4, h5⟩ := leafIndicesList_tiled ns _ _ h3
    refine ⟨?_, by omega⟩
    simp only [leafIndicesList, leafIndices_tiled n h2, h4, h1]
    rw [← List.map_append, List.range'_append_1]
    congr 2
    omega
end

theorem tiled_child (p : List Nat) (n t : Node E) (hl : n.Leafy) (hn : n.Tiled) (ht : Node.child p n = some t) : t.Tiled := by
  induction p generalizing n with
  | nil =>
    simp only [Node.child, Option.some.injEq] at ht
    subst ht; exact hn
  | cons k p ih =>
    cases n with
    | mk d c =>
      simp only [Node.child, children, Option.bind_eq_some_iff] at ht
      obtain ⟨n1, hn1, ht⟩ := ht
      obtain ⟨h1, h2⟩ := hl
      have hfe : d.feSize = none := by
        cases hd : d.feSize with
        | none => rfl
        | some sz => rw [h1 (by simp [hd])] at hn1; simp at hn1
      have key : ∀ (c : List (Node E)) (a b k : Nat), LeafyList c → TiledList a b c → c[k]? = some n1 → n1.Leafy ∧ n1.Tiled := by
        intro c
        induction c with
        | nil => intro a b k _ _ h; simp at h
        | cons x c ih =>
          intro a b k hc hd h
          cases k with
          | zero => simp at h; subst h; exact ⟨hc.1, hd.2.1⟩
          | succ k => exact ih _ _ k hc.2 hd.2.2 (by simpa using h)
      obtain ⟨h3, h4⟩ := key c _ _ k h2 (hn hfe) hn1
      exact ih n1 h3 h4 ht

mutual
/-- Visiting all leaves and all their functions runs through the local indices of all leaves. -/
theorem slots_leafIndices : (n : Node E) →
    n.leafIndices = n.slots.flatMap fun s => (List.range s.2.2).map fun i => some (s.2.1 + i)
  | mk d c => by
    rw [leafIndices, slots, leaves]
    cases hfe : d.feSize with
    | none => exact slotsList_leafIndices 0 c
    | some sz =>
      simp only [List.map_cons, List.map_nil, List.flatMap_cons, List.flatMap_nil, List.append_nil, ownIndices]
      apply List.map_congr_left
      intro i hi
      simp only [List.mem_range] at hi
      simp [localIndex, hi]
theorem slotsList_leafIndices : (k : Nat) → (l : List (Node E)) →
    leafIndicesList l = ((leavesList k l).map fun l => (l.1, l.2.offset, l.2.size)).flatMap
      fun s => (List.range s.2.2).map fun i => some (s.2.1 + i)
  | _, [] => rfl
  | k, n :: ns => by
    rw [leafIndicesList, leavesList, slotsList_leafIndices (k + 1) ns, slots_leafIndices n, List.map_append,
      List.flatMap_append]
    congr 1
    simp [slots, List.map_map, List.flatMap_map, Function.comp_def]
end

/-- In a bound tree every node visits the consecutive range of its own local indices. -/
theorem slots_child (e : E) (off : Nat) (n : Node E) (hn' : (bindTree e off n).Leafy) (p : List Nat) (t : Node E)
    (ht : Node.child p (bindTree e off n) = some t) :
    t.slots.flatMap (fun s => (List.range s.2.2).map fun i => s.2.1 + i) = List.range' t.offset t.size ∧
    ∀ l ∈ t.leaves, LeafOK e l.2 := by
  constructor
  · have h1 := leafIndices_tiled t (tiled_child p _ t hn' (tiled_bindTree e off n) ht)
    rw [slots_leafIndices] at h1
    have h2 : (t.slots.flatMap fun s => (List.range s.2.2).map fun i => s.2.1 + i).map some
        = (List.range' t.offset t.size).map some := by
      rw [← h1, List.map_flatMap]
      simp [Function.comp_def]
    exact (List.map_injective_iff.mpr (Option.some_injective _)) h2
  · intro l hl
    exact leaves_bindTree e off n (p ++ l.1, l.2) ((leaves_child p _ t hn' ht).2 l hl)

end Verif.IndexTree.Node

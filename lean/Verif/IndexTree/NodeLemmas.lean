import Verif.IndexTree.LocalView
import Verif.IndexTree.RefineComposite

namespace Verif.IndexTree.Node

variable {E : Type}

/-! ## blank -/

mutual
theorem blank_emptyAll (off : Nat) : (n : Node E) → (emptyAll off n).blank = n.blank
  | mk d c => by simp [emptyAll, blank, blankList_emptyAllList off c]
theorem blankList_emptyAllList (off : Nat) : (l : List (Node E)) →
    blankList (emptyAllList off l) = blankList l
  | [] => rfl
  | n :: ns => by simp [emptyAllList, blankList, blank_emptyAll off n, blankList_emptyAllList off ns]
end

mutual
theorem blank_bindTree (e : E) (off : Nat) : (n : Node E) → (bindTree e off n).blank = n.blank
  | mk d c => by
    rw [bindTree]
    split
    · split
      · rfl
      · simp [blank, blankList_bindChildren e off c]
    · exact blank_emptyAll off _
theorem blankList_bindChildren (e : E) (off : Nat) : (l : List (Node E)) →
    blankList (bindChildren e off l).1 = blankList l
  | [] => rfl
  | n :: ns => by
    simp [bindChildren, blankList, blank_bindTree e off n, blankList_bindChildren e _ ns]
end

mutual
theorem blank_initializeTree (k : Nat) : (n : Node E) → (initializeTree k n).1.blank = n.blank
  | mk d c => by simp [initializeTree, blank, blankList_initializeTreeList _ c]
theorem blankList_initializeTreeList (k : Nat) : (l : List (Node E)) →
    blankList (initializeTreeList k l).1 = blankList l
  | [] => rfl
  | n :: ns => by
    simp [initializeTreeList, blankList, blank_initializeTree k n, blankList_initializeTreeList _ ns]
end

/-! ## tree indices -/

mutual
/-- Tree indices of all nodes in pre-order. -/
def treeIndices : Node E → List Nat
  | mk d c => d.treeIndex :: treeIndicesList c
def treeIndicesList : List (Node E) → List Nat
  | [] => []
  | n :: ns => treeIndices n ++ treeIndicesList ns
end

mutual
/-- Number of nodes. -/
def count : Node E → Nat
  | mk _ c => 1 + countList c
def countList : List (Node E) → Nat
  | [] => 0
  | n :: ns => count n + countList ns
end

mutual
theorem treeIndices_initializeTree (k : Nat) : (n : Node E) →
    (initializeTree k n).1.treeIndices = List.range' k n.count ∧ (initializeTree k n).2 = k + n.count
  | mk d c => by
    obtain ⟨h1, h2⟩ := treeIndices_initializeTreeList (k+1) c
    refine ⟨?_, ?_⟩
    · simp only [initializeTree, treeIndices, h1, count]
      rw [Nat.add_comm 1, List.range'_succ]
    · simp only [initializeTree, h2, count]; omega
theorem treeIndices_initializeTreeList (k : Nat) : (l : List (Node E)) →
    treeIndicesList (initializeTreeList k l).1 = List.range' k (countList l) ∧
      (initializeTreeList k l).2 = k + countList l
  | [] => by simp [initializeTreeList, treeIndicesList, countList]
  | n :: ns => by
    obtain ⟨h1, h2⟩ := treeIndices_initializeTree k n
    obtain ⟨h3, h4⟩ := treeIndices_initializeTreeList (initializeTree k n).2 ns
    rw [h2] at h3 h4
    refine ⟨?_, ?_⟩
    · simp only [initializeTreeList, treeIndicesList, h1, h3, countList, h2]
      rw [List.range'_append_1]
    · simp only [initializeTreeList, h4, countList, h2]; omega
end

mutual
theorem treeIndices_emptyAll (off : Nat) : (n : Node E) → (emptyAll off n).treeIndices = n.treeIndices
  | mk d c => by simp [emptyAll, treeIndices, treeIndicesList_emptyAllList off c]
theorem treeIndicesList_emptyAllList (off : Nat) : (l : List (Node E)) →
    treeIndicesList (emptyAllList off l) = treeIndicesList l
  | [] => rfl
  | n :: ns => by
    simp [emptyAllList, treeIndicesList, treeIndices_emptyAll off n, treeIndicesList_emptyAllList off ns]
end

mutual
theorem treeIndices_bindTree (e : E) (off : Nat) : (n : Node E) →
    (bindTree e off n).treeIndices = n.treeIndices
  | mk d c => by
    rw [bindTree]
    split
    · split
      · rfl
      · simp [treeIndices, treeIndicesList_bindChildren e off c]
    · exact treeIndices_emptyAll off _
theorem treeIndicesList_bindChildren (e : E) (off : Nat) : (l : List (Node E)) →
    treeIndicesList (bindChildren e off l).1 = treeIndicesList l
  | [] => rfl
  | n :: ns => by
    simp [bindChildren, treeIndicesList, treeIndices_bindTree e off n, treeIndicesList_bindChildren e _ ns]
end

/-! ## observable state of a bound tree -/

/-- What a user can observe of a node: offset (through `localIndex`), size, tree index, and
the element if the node is non-empty (nodes.hh:151-157: accessing `element()` of an empty
node is undefined). -/
structure Obs (E : Type) where
  offset : Nat
  size : Nat
  treeIndex : Nat
  element : Option E

inductive ObsTree (E : Type) where
  | mk (o : Obs E) (children : List (ObsTree E))

mutual
def obs : Node E → ObsTree E
  | mk d c => .mk ⟨d.offset, d.size, d.treeIndex,
      match d.feSize with
      | some _ => if d.size = 0 then none else d.element
      | none => none⟩ (obsList c)
def obsList : List (Node E) → List (ObsTree E)
  | [] => []
  | n :: ns => obs n :: obsList ns
end

mutual
/-- Structure of the tree together with tree indices. Children of leaves are dropped: leaf
nodes have none (nodes.hh:219-222). -/
def skel : Node E → Node E
  | mk d c => mk { feSize := d.feSize, filters := d.filters, treeIndex := d.treeIndex } (skelList c)
def skelList : List (Node E) → List (Node E)
  | [] => []
  | n :: ns => skel n :: skelList ns
end

mutual
theorem skel_emptyAll (off : Nat) : (n : Node E) → (emptyAll off n).skel = n.skel
  | mk d c => by simp [emptyAll, skel, skelList_emptyAllList off c]
theorem skelList_emptyAllList (off : Nat) : (l : List (Node E)) →
    skelList (emptyAllList off l) = skelList l
  | [] => rfl
  | n :: ns => by simp [emptyAllList, skelList, skel_emptyAll off n, skelList_emptyAllList off ns]
end

mutual
theorem skel_bindTree (e : E) (off : Nat) : (n : Node E) → (bindTree e off n).skel = n.skel
  | mk d c => by
    rw [bindTree]
    split
    · split
      · rfl
      · simp [skel, skelList_bindChildren e off c]
    · exact skel_emptyAll off _
theorem skelList_bindChildren (e : E) (off : Nat) : (l : List (Node E)) →
    skelList (bindChildren e off l).1 = skelList l
  | [] => rfl
  | n :: ns => by
    simp [bindChildren, skelList, skel_bindTree e off n, skelList_bindChildren e _ ns]
end

mutual
theorem obs_emptyAll (off : Nat) : (n m : Node E) → n.skel = m.skel →
    (emptyAll off n).obs = (emptyAll off m).obs
  | mk d c, mk d' c', h => by
    simp only [skel, Node.mk.injEq, NodeData.mk.injEq, true_and] at h
    obtain ⟨⟨h1, h2, h3⟩, h4⟩ := h
    simp only [emptyAll, obs, h1, h2, if_true, obsList_emptyAll off c c' h4]
theorem obsList_emptyAll (off : Nat) : (l l' : List (Node E)) → skelList l = skelList l' →
    obsList (emptyAllList off l) = obsList (emptyAllList off l')
  | [], [], _ => rfl
  | [], _ :: _, h => by simp [skelList] at h
  | _ :: _, [], h => by simp [skelList] at h
  | n :: ns, m :: ms, h => by
    simp only [skelList, List.cons.injEq] at h
    simp [emptyAllList, obsList, obs_emptyAll off n m h.1, obsList_emptyAll off ns ms h.2]
end

theorem size_obs (n m : Node E) (h : n.obs = m.obs) : n.size = m.size := by
  cases n with
  | mk d c =>
    cases m with
    | mk d' c' =>
      simp only [obs, ObsTree.mk.injEq, Obs.mk.injEq] at h
      exact h.1.2.1

mutual
theorem obs_bindTree (e : E) (off : Nat) : (n m : Node E) → n.Leafy → m.Leafy → n.skel = m.skel →
    (bindTree e off n).obs = (bindTree e off m).obs
  | mk d c, mk d' c', hn, hm, h => by
    have h' := h
    simp only [skel, Node.mk.injEq, NodeData.mk.injEq, true_and] at h
    obtain ⟨⟨h1, h2, h3⟩, h4⟩ := h
    rw [bindTree, bindTree, h3]
    split
    · cases hfe : d.feSize with
      | none =>
        have hfe' : d'.feSize = none := by rw [← h2, hfe]
        obtain ⟨h5, h6⟩ := obsList_bindChildren e off c c' hn.2 hm.2 h4
        simp only [hfe', obs, h1, h5, h6]
      | some sz =>
        have hfe' : d'.feSize = some sz := by rw [← h2, hfe]
        have e1 : c = [] := hn.1 (by simp [hfe])
        have e2 : c' = [] := hm.1 (by simp [hfe'])
        simp only [hfe', obs, h1, e1, e2]
    · exact obs_emptyAll off _ _ h'
theorem obsList_bindChildren (e : E) (off : Nat) : (l l' : List (Node E)) → LeafyList l →
    LeafyList l' → skelList l = skelList l' →
    obsList (bindChildren e off l).1 = obsList (bindChildren e off l').1 ∧
      (bindChildren e off l).2 = (bindChildren e off l').2
  | [], [], _, _, _ => ⟨rfl, rfl⟩
  | [], _ :: _, _, _, h => by simp [skelList] at h
  | _ :: _, [], _, _, h => by simp [skelList] at h
  | n :: ns, m :: ms, hn, hm, h => by
    simp only [skelList, List.cons.injEq] at h
    have h1 := obs_bindTree e off n m hn.1 hm.1 h.1
    have h2 := size_obs _ _ h1
    obtain ⟨h3, h4⟩ := obsList_bindChildren e (off + (bindTree e off n).size) ns ms hn.2 hm.2 h.2
    simp only [bindChildren, obsList, h1]
    rw [h3, h4, h2]
    exact ⟨rfl, rfl⟩
end

mutual
theorem leafy_of_blank : (n m : Node E) → n.blank = m.blank → m.Leafy → n.Leafy
  | mk d c, mk d' c', h, hm => by
    simp only [blank, Node.mk.injEq, NodeData.mk.injEq, true_and] at h
    obtain ⟨⟨h2, h3⟩, h4⟩ := h
    refine ⟨?_, leafyList_of_blank c c' h4 hm.2⟩
    intro hfe
    have := hm.1 (by rw [← h2]; exact hfe)
    subst this
    cases c with
    | nil => rfl
    | cons => simp [blankList] at h4
theorem leafyList_of_blank : (l l' : List (Node E)) → blankList l = blankList l' →
    LeafyList l' → LeafyList l
  | [], [], _, _ => trivial
  | [], _ :: _, h, _ => by simp [blankList] at h
  | _ :: _, [], h, _ => by simp [blankList] at h
  | n :: ns, m :: ms, h, hm => by
    simp only [blankList, List.cons.injEq] at h
    exact ⟨leafy_of_blank n m h.1 hm.1, leafyList_of_blank ns ms h.2 hm.2⟩
end

/-! ## Offsets and sizes of a bound tree -/

/-- Local indices of one node, `localIndex(0), ..., localIndex(size()-1)`. -/
def ownIndices (n : Node E) : List (Option Nat) := (List.range n.size).map n.localIndex

mutual
/-- Local indices of all leaves in tree order. -/
def leafIndices : Node E → List (Option Nat)
  | mk d c => match d.feSize with
    | some _ => ownIndices (mk d c)
    | none => leafIndicesList c
def leafIndicesList : List (Node E) → List (Option Nat)
  | [] => []
  | n :: ns => leafIndices n ++ leafIndicesList ns
end

theorem ownIndices_eq (n : Node E) : ownIndices n = (List.range' n.offset n.size).map some := by
  rw [ownIndices, List.range'_eq_map_range, List.map_map]
  refine List.map_congr_left fun i hi => ?_
  simp only [List.mem_range] at hi
  simp [localIndex, hi]

mutual
theorem leafIndices_emptyAll (off : Nat) : (n : Node E) → leafIndices (emptyAll off n) = []
  | mk d c => by
    rw [emptyAll, leafIndices]
    cases d.feSize with
    | none => exact leafIndicesList_emptyAll off c
    | some _ => simp [ownIndices, size, data]
theorem leafIndicesList_emptyAll (off : Nat) : (l : List (Node E)) →
    leafIndicesList (emptyAllList off l) = []
  | [] => rfl
  | n :: ns => by
    simp [emptyAllList, leafIndicesList, leafIndices_emptyAll off n, leafIndicesList_emptyAll off ns]
end

@[simp] theorem bindTree_offset (e : E) (off : Nat) (n : Node E) : (bindTree e off n).offset = off := by
  cases n with
  | mk d c =>
    rw [bindTree]
    split
    · split <;> rfl
    · rfl

mutual
theorem leafIndices_bindTree (e : E) (off : Nat) : (n : Node E) →
    leafIndices (bindTree e off n) = (List.range' off (bindTree e off n).size).map some
  | mk d c => by
    rw [bindTree]
    split
    · cases hfe : d.feSize with
      | none =>
        obtain ⟨h1, h2⟩ := leafIndicesList_bindChildren e off c
        simp only [leafIndices, h1, size, data]
      | some sz =>
        simp only [leafIndices, ownIndices_eq]
        simp [offset, size, data]
    · rw [leafIndices_emptyAll]; simp
theorem leafIndicesList_bindChildren (e : E) (off : Nat) : (l : List (Node E)) →
    leafIndicesList (bindChildren e off l).1
      = (List.range' off ((bindChildren e off l).2 - off)).map some ∧
    off ≤ (bindChildren e off l).2
  | [] => by simp [bindChildren, leafIndicesList]
  | n :: ns => by
    obtain ⟨h1, h2⟩ := leafIndicesList_bindChildren e (off + (bindTree e off n).size) ns
    simp only [bindChildren, leafIndicesList, leafIndices_bindTree e off n, h1]
    refine ⟨?_, by omega⟩
    rw [← List.map_append, List.range'_append_1]
    congr 2
    omega
end

mutual
/-- Every inner node covers exactly the consecutive ranges of its children. -/
def Tiled : Node E → Prop
  | mk d c => (d.feSize = none → TiledList d.offset (d.offset + d.size) c)
def TiledList : Nat → Nat → List (Node E) → Prop
  | a, b, [] => a = b
  | a, b, n :: ns => n.offset = a ∧ Tiled n ∧ TiledList (a + n.size) b ns
end

mutual
theorem tiled_emptyAll (off : Nat) : (n : Node E) → Tiled (emptyAll off n)
  | mk d c => by
    rw [emptyAll, Tiled]
    intro _
    simpa using tiledList_emptyAll off c
theorem tiledList_emptyAll (off : Nat) : (l : List (Node E)) → TiledList off off (emptyAllList off l)
  | [] => by simp [emptyAllList, TiledList]
  | n :: ns => by
    simp only [emptyAllList, TiledList, emptyAll_size, Nat.add_zero]
    refine ⟨?_, tiled_emptyAll off n, tiledList_emptyAll off ns⟩
    cases n; rfl
end

mutual
theorem tiled_bindTree (e : E) (off : Nat) : (n : Node E) → Tiled (bindTree e off n)
  | mk d c => by
    rw [bindTree]
    split
    · cases hfe : d.feSize with
      | none =>
        simp only [Tiled]
        intro _
        have h := (leafIndicesList_bindChildren e off c).2
        rw [show off + ((bindChildren e off c).2 - off) = (bindChildren e off c).2 by omega]
        exact tiledList_bindChildren e off c
      | some sz => simp [Tiled]
    · exact tiled_emptyAll off _
theorem tiledList_bindChildren (e : E) (off : Nat) : (l : List (Node E)) →
    TiledList off (bindChildren e off l).2 (bindChildren e off l).1
  | [] => by simp [bindChildren, TiledList]
  | n :: ns => by
    simp only [bindChildren, TiledList, bindTree_offset, true_and]
    exact ⟨tiled_bindTree e off n, tiledList_bindChildren e _ ns⟩
end

end Verif.IndexTree.Node

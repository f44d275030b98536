import Verif.IndexTree.Props

/-!
# Subspace bases

Model of `subspacebasis.hh` and `subspacelocalview.hh`.
-/

namespace Verif.IndexTree

variable {E : Type}

/-! ## Model -/

/-- `TypeTree::child(tree, path)`. -/
def Node.child : List Nat → Node E → Option (Node E)
  | [], n => some n
  | k :: p, n => (n.children[k]?).bind (Node.child p)

/-- `SubspaceBasis`: reference to the root basis and `prefixPath_`, subspacebasis.hh:27-123. -/
structure SubBasis (E : Type) where
  rootBasis : PreBasis E
  prefixPath : List Nat

/-- Constructor from a root basis, subspacebasis.hh:52-56. -/
def subspaceBasis (b : PreBasis E) (p : List Nat) : SubBasis E := ⟨b, p⟩

/-- Constructor from another subspace basis, subspacebasis.hh:63-66. -/
def SubBasis.subspaceBasis (b : SubBasis E) (p : List Nat) : SubBasis E :=
  ⟨b.rootBasis, b.prefixPath ++ p⟩

/-- `dimension()` and `size(prefix)`, subspacebasis.hh:79-94. -/
def SubBasis.dimension (b : SubBasis E) : Nat := b.rootBasis.dimension
def SubBasis.size (b : SubBasis E) (p : MI) : Option Nat := b.rootBasis.size p

/-- `SubspaceLocalView`: basis and root local view, subspacelocalview.hh:32-153. -/
structure SubLocalView (E : Type) where
  basis : SubBasis E
  rootLocalView : LocalView E

/-- `localView()`, subspacebasis.hh:99-102, subspacelocalview.hh:62-68. -/
def SubBasis.localView (b : SubBasis E) : SubLocalView E := ⟨b, LocalView.fresh b.rootBasis⟩

/-- `bind`, subspacelocalview.hh:75-78. -/
def SubLocalView.bind (v : SubLocalView E) (e : E) : Option (SubLocalView E) :=
  (v.rootLocalView.bind v.basis.rootBasis e).map fun lv => { v with rootLocalView := lv }

/-- `tree()`, subspacelocalview.hh:109-112. -/
def SubLocalView.tree (v : SubLocalView E) : Option (Node E) :=
  Node.child v.basis.prefixPath v.rootLocalView.tree

/-- `size()`, subspacelocalview.hh:116-119, `index(i)`, 133-136. -/
def SubLocalView.size (v : SubLocalView E) : Nat := v.rootLocalView.size
def SubLocalView.index (v : SubLocalView E) (i : Nat) : Option MI := v.rootLocalView.index i

/-- Creating nested subspace bases with the given paths, from the outside to the inside. -/
def nested (b : PreBasis E) (p : List Nat) (ps : List (List Nat)) : SubBasis E :=
  ps.foldl SubBasis.subspaceBasis (subspaceBasis b p)

/-! ## Specification -/

/-- Paths to nodes of the ansatz tree of a basis tree. Restricted bases do not add a level. -/
inductive HasPath : PB E → List Nat → Prop
  | nil (b : PB E) : HasPath b []
  | power {s : IMS} {c k : Nat} {sub : PB E} {p : List Nat} : k < c → HasPath sub p →
      HasPath (.power s c sub) (k :: p)
  | composite {blocked : Bool} {subs : List (PB E)} {k : Nat} {b : PB E} {p : List Nat} :
      subs[k]? = some b → HasPath b p → HasPath (.composite blocked subs) (k :: p)
  | restricted {f : E → Bool} {sub : PB E} {p : List Nat} : HasPath sub p → HasPath (.restricted f sub) p

/-- The multi-indices of a node of a bound tree: `view.index(node.localIndex(i))` for
`i < node.size()`. -/
def nodeIndices (index : Nat → Option MI) (n : Node E) : List (Option MI) :=
  (List.range n.size).map fun i => (n.localIndex i).bind index

/-! ## Proof -/

theorem Node.child_append (p q : List Nat) (n : Node E) :
    Node.child (p ++ q) n = (Node.child p n).bind (Node.child q) := by
  induction p generalizing n with
  | nil => rfl
  | cons k p ih =>
    simp only [List.cons_append, Node.child]
    cases n.children[k]? with
    | none => rfl
    | some m => simp [ih]

/-- The node found with offset `off` and size `sz` holds the consecutive functions of the list `l`
(starting at local index `base`) that begin with `p`, and these are all such functions. -/
def Slot (l : List (List Nat)) (p : List Nat) (base off sz : Nat) : Prop :=
  ∃ pre L post, l = pre ++ L ++ post ∧ off = base + pre.length ∧ sz = L.length ∧
    (∀ d ∈ L, p <+: d) ∧ (∀ d ∈ pre, ¬ p <+: d) ∧ ∀ d ∈ post, ¬ p <+: d

theorem bindChildren_get (e : E) (cs : List (Node E)) (ss : List Nat) (off : Nat)
    (h : List.Forall₂ (fun c s => ∀ off, (Node.bindTree e off c).size = s) cs ss) (k : Nat) :
    (Node.bindChildren e off cs).1[k]? = (cs[k]?).map (Node.bindTree e (off + (ss.take k).sum)) := by
  induction h generalizing off k with
  | nil => simp [Node.bindChildren]
  | cons h _ ih =>
    cases k with
    | zero => simp [Node.bindChildren]
    | succ k =>
      simp only [Node.bindChildren, List.getElem?_cons_succ, h, ih, List.take_succ_cons, List.sum_cons]
      congr 2; omega

theorem tagged_split (i k : Nat) (ls : List (List (List Nat))) (l : List (List Nat)) (h : ls[k]? = some l) :
    ∃ A B, tagged i ls = A ++ l.map ((i+k) :: ·) ++ B ∧ A.length = ((ls.take k).map List.length).sum ∧
      (∀ d ∈ A ++ B, d.head? ≠ some (i+k)) := by
  have aux : ∀ (ls : List (List (List Nat))) (i j : Nat), j < i → ∀ d ∈ tagged i ls, d.head? ≠ some j := by
    intro ls
    induction ls with
    | nil => intro i j _ d hd; simp [tagged] at hd
    | cons l ls ih =>
      intro i j hj d hd
      simp only [tagged, List.mem_append, List.mem_map] at hd
      rcases hd with ⟨d', _, rfl⟩ | hd
      · simp; omega
      · exact ih (i+1) j (by omega) d hd
  induction ls generalizing i k with
  | nil => simp at h
  | cons l' ls ih =>
    cases k with
    | zero =>
      simp only [List.getElem?_cons_zero, Option.some.injEq] at h
      subst h
      refine ⟨[], tagged (i+1) ls, by simp [tagged], by simp, ?_⟩
      intro d hd
      exact aux ls (i+1) _ (by omega) d (by simpa using hd)
    | succ k =>
      obtain ⟨A, B, h1, h2, h3⟩ := ih (i+1) k (by simpa using h)
      refine ⟨l'.map (i :: ·) ++ A, B, ?_, ?_, ?_⟩
      · simp only [tagged, h1, List.append_assoc]
        rw [show i + 1 + k = i + (k + 1) by omega]
      · simp [h2]
      · intro d hd
        simp only [List.append_assoc, List.mem_append, List.mem_map] at hd
        rcases hd with ⟨d', _, rfl⟩ | hd
        · simp
        · rw [show i + (k + 1) = i + 1 + k by omega]
          exact h3 d (by simpa using hd)

theorem tagged_replicate (i c : Nat) (l : List (List Nat)) :
    tagged i (List.replicate c l) = (List.range' i c).flatMap fun k => l.map (k :: ·) := by
  induction c generalizing i with
  | zero => rfl
  | succ c ih => simp [List.replicate_succ, tagged, ih, List.range'_succ]

theorem Slot.cons {ls : List (List (List Nat))} {k : Nat} {l : List (List Nat)} (h : ls[k]? = some l)
    {p : List Nat} {base off sz : Nat} (S : Slot l p (base + ((ls.take k).map List.length).sum) off sz) :
    Slot (tagged 0 ls) (k :: p) base off sz := by
  obtain ⟨A, B, h1, h2, h3⟩ := tagged_split 0 k ls l h
  obtain ⟨pre, L, post, rfl, rfl, rfl, h4, h5, h6⟩ := S
  simp only [Nat.zero_add] at h1 h3
  have hAB : ∀ d ∈ A ++ B, ¬ (k :: p <+: d) := by
    rintro d hd ⟨t, rfl⟩
    exact h3 _ hd rfl
  refine ⟨A ++ pre.map (k :: ·), L.map (k :: ·), post.map (k :: ·) ++ B, by simp [h1], by simp [h2]; omega,
    by simp, ?_, ?_, ?_⟩
  · intro d hd
    obtain ⟨d, hd', rfl⟩ := List.mem_map.mp hd
    exact List.cons_prefix_cons.mpr ⟨rfl, h4 d hd'⟩
  · intro d hd
    rcases List.mem_append.mp hd with hd | hd
    · exact hAB d (List.mem_append_left _ hd)
    · obtain ⟨d, hd', rfl⟩ := List.mem_map.mp hd
      exact fun hp => h5 d hd' (List.cons_prefix_cons.mp hp).2
  · intro d hd
    rcases List.mem_append.mp hd with hd | hd
    · obtain ⟨d, hd', rfl⟩ := List.mem_map.mp hd
      exact fun hp => h6 d hd' (List.cons_prefix_cons.mp hp).2
    · exact hAB d (List.mem_append_right _ hd)

theorem Node.offset_bindTree (e : E) (off : Nat) (n : Node E) : (Node.bindTree e off n).offset = off := by
  cases n with
  | mk d c =>
    rw [Node.bindTree]
    split
    · split <;> rfl
    · rfl

theorem emptyAllList_get (off : Nat) (ns : List (Node E)) (k : Nat) :
    (Node.emptyAllList off ns)[k]? = (ns[k]?).map (Node.emptyAll off) := by
  induction ns generalizing k with
  | nil => rfl
  | cons n ns ih => cases k <;> simp [Node.emptyAllList, ih]

theorem child_emptyAll (off : Nat) (p : List Nat) (n : Node E) :
    Node.child p (Node.emptyAll off n) = (Node.child p n).map (Node.emptyAll off) := by
  induction p generalizing n with
  | nil => rfl
  | cons k p ih =>
    cases n with
    | mk d c =>
      simp only [Node.emptyAll, Node.child, Node.children, emptyAllList_get]
      cases c[k]? with
      | none => rfl
      | some m => simp [ih]

theorem child_addFilter (f : E → Bool) (p : List Nat) (n : Node E) :
    (Node.child p (addFilter f n)).isSome = (Node.child p n).isSome ∧
    ∀ x, Node.child p (addFilter f n) = some x → ∃ y, Node.child p n = some y ∧ x.size = y.size ∧ x.offset = y.offset := by
  cases n with
  | mk d c =>
    cases p with
    | nil => exact ⟨rfl, fun x hx => ⟨_, rfl, by cases hx; exact ⟨rfl, rfl⟩⟩⟩
    | cons k p => exact ⟨rfl, fun x hx => ⟨x, hx, rfl, rfl⟩⟩

/-- Existence of the node does not depend on the values stored in the tree. -/
theorem child_isSome_blank (p : List Nat) (n : Node E) : (Node.child p n.blank).isSome = (Node.child p n).isSome := by
  induction p generalizing n with
  | nil => rfl
  | cons k p ih =>
    cases n with
    | mk d c =>
      simp only [Node.blank, Node.child, Node.children, Node.blankList_eq_map, List.getElem?_map]
      cases c[k]? with
      | none => rfl
      | some m => simpa using ih m

theorem models_get {bs : List (PB E)} {k : Nat} {b : PB E} (h : bs[k]? = some b) :
    (PB.models bs)[k]? = some b.model ∧ (PB.specs bs)[k]? = some b.spec := by
  induction bs generalizing k with
  | nil => simp at h
  | cons b' bs ih =>
    cases k with
    | zero => simp at h; subst h; simp [PB.models, PB.specs]
    | succ k => simpa [PB.models, PB.specs] using ih (by simpa using h)

theorem WFs_get {bs : List (PB E)} {k : Nat} {b : PB E} (hw : PB.WFs bs) (h : bs[k]? = some b) : b.WF := by
  induction bs generalizing k with
  | nil => simp at h
  | cons b' bs ih =>
    cases k with
    | zero => simp at h; subst h; exact hw.1
    | succ k => exact ih hw.2 (by simpa using h)

theorem path_slot {b : PB E} {p : List Nat} (hp : HasPath b p) (hb : b.WF) (e : E) (off : Nat) (m : Node E)
    (hm : m.blank = b.model.makeNode.blank) :
    ∃ n, Node.child p (Node.bindTree e off m) = some n ∧ Slot (b.spec.loc e) p off n.offset n.size := by
  induction hp generalizing off m with
  | nil b =>
    have R := b.refines hb
    refine ⟨_, rfl, [], b.spec.loc e, [], by simp, by simp, R.nodeSize e off m hm, ?_⟩
    simp
  | @power s c k sub p hk hp ih =>
    have hb' : 0 < c ∧ sub.WF := by rwa [PB.WF] at hb
    have R := sub.refines hb'.2
    obtain ⟨d, cs, rfl, hfi, hfe, hlen, hcs⟩ := power_node_inv hm
    have hk' : k < cs.length := by omega
    have hF : List.Forall₂ (fun c s => ∀ off, (Node.bindTree e off c).size = s) cs
        ((List.replicate c (sub.spec.loc e)).map List.length) := by
      rw [List.map_replicate, ← hlen]
      clear hlen hk' hm
      induction cs with
      | nil => exact .nil
      | cons n ns ihn =>
        simp only [List.length_cons, List.replicate_succ]
        exact .cons (fun off => R.nodeSize e off n (hcs n List.mem_cons_self))
          (ihn (fun n hn => hcs n (List.mem_cons_of_mem _ hn)))
    obtain ⟨n, hn, hs⟩ := ih hb'.2 (off + (((List.replicate c (sub.spec.loc e)).map List.length).take k).sum)
      cs[k] (hcs _ (List.getElem_mem hk'))
    refine ⟨n, ?_, ?_⟩
    · simp only [Node.bindTree, hfi, hfe, List.all_nil, if_true, Node.child, Node.children]
      rw [bindChildren_get e cs _ off hF, List.getElem?_eq_getElem hk']
      exact hn
    · have hl : (PB.power s c sub).spec.loc e = tagged 0 (List.replicate c (sub.spec.loc e)) := by
        rw [tagged_replicate, ← List.range_eq_range']; rfl
      rw [hl]
      exact Slot.cons (l := sub.spec.loc e) (by simp [hk]) (by rw [← List.map_take] at hs; exact hs)
  | @composite blocked subs k b p hk hp ih =>
    have hb' : subs ≠ [] ∧ PB.WFs subs := by rwa [PB.WF] at hb
    have hbw := WFs_get hb'.2 hk
    obtain ⟨d, cs, rfl, hfi, hfe, hcs⟩ := composite_node_inv (ns := (PB.models subs).map (·.makeNode)) hm
    have hF : List.Forall₂ (fun c s => ∀ off, (Node.bindTree e off c).size = s) cs
        (((PB.specs subs).map (·.loc e)).map List.length) := by
      have RL := PB.refinesL subs hb'.2
      clear hm hb ih hk hb'
      generalize PB.models subs = ms at RL hcs
      generalize PB.specs subs = ss at RL
      induction RL generalizing cs with
      | nil => cases hcs; exact .nil
      | cons R _ ih =>
        cases hcs with
        | cons h1 h2 => exact .cons (fun off => R.nodeSize e off _ h1) (ih _ h2)
    have hkl : k < cs.length := by
      have h1 := hcs.length_eq
      have h2 := (models_get hk).1
      have := (List.getElem?_eq_some_iff.mp h2).1
      simp at h1; omega
    have hck : cs[k].blank = b.model.makeNode.blank := by
      have h2 := (models_get hk).1
      have h3 : ((PB.models subs).map (·.makeNode))[k]? = some b.model.makeNode := by simp [h2]
      obtain ⟨h4, h5⟩ := List.getElem?_eq_some_iff.mp h3
      rw [← h5]
      exact hcs.get hkl h4
    obtain ⟨n, hn, hs⟩ := ih hbw (off + ((((PB.specs subs).map (·.loc e)).map List.length).take k).sum) cs[k] hck
    refine ⟨n, ?_, ?_⟩
    · simp only [Node.bindTree, hfi, hfe, List.all_nil, if_true, Node.child, Node.children]
      rw [bindChildren_get e cs _ off hF, List.getElem?_eq_getElem hkl]
      exact hn
    · have hl : (PB.composite blocked subs).spec.loc e = tagged 0 ((PB.specs subs).map (·.loc e)) := rfl
      rw [hl]
      exact Slot.cons (l := b.spec.loc e) (by simp [(models_get hk).2]) (by rw [← List.map_take] at hs; exact hs)
  | @restricted f sub p hp ih =>
    have hb' : sub.WF := by rwa [PB.WF] at hb
    obtain ⟨m', rfl, hm'⟩ := Node.blank_addFilter_inv f m _ hm
    obtain ⟨n, hn, hs⟩ := ih hb' off m' hm'
    cases h : f e with
    | true =>
      rw [Node.bindTree_addFilter_true _ _ _ _ h]
      obtain ⟨h1, h2⟩ := child_addFilter f p (Node.bindTree e off m')
      rw [hn, Option.isSome_some, Option.isSome_iff_exists] at h1
      obtain ⟨x, hx⟩ := h1
      obtain ⟨y, hy, hxs, hxo⟩ := h2 x hx
      rw [hn] at hy
      simp only [Option.some.injEq] at hy
      subst hy
      refine ⟨x, hx, ?_⟩
      rw [hxs, hxo]
      simpa [PB.spec, specRestricted, h] using hs
    | false =>
      rw [Node.bindTree_addFilter_false _ _ _ _ h, child_emptyAll]
      have h1 : (Node.child p (addFilter f m')).isSome := by
        rw [(child_addFilter f p m').1, ← child_isSome_blank, ← Node.blank_bindTree e off m', child_isSome_blank, hn]
        rfl
      obtain ⟨x, hx⟩ := Option.isSome_iff_exists.mp h1
      refine ⟨_, by rw [hx]; rfl, ?_⟩
      have hl : (PB.restricted f sub).spec.loc e = [] := by simp [PB.spec, specRestricted, h]
      rw [hl]
      cases x
      exact ⟨[], [], [], rfl, rfl, rfl, by simp, by simp, by simp⟩

theorem nested_eq (b : PreBasis E) (p : List Nat) (ps : List (List Nat)) :
    nested b p ps = ⟨b, p ++ ps.flatten⟩ := by
  unfold nested
  generalize hq : subspaceBasis b p = s
  have : s.rootBasis = b ∧ s.prefixPath = p := by subst hq; exact ⟨rfl, rfl⟩
  clear hq
  induction ps generalizing s p with
  | nil => simp [← this.1, ← this.2]
  | cons q ps ih =>
    rw [List.foldl_cons, ih (p ++ q) (s.subspaceBasis q) ⟨this.1, by simp [SubBasis.subspaceBasis, this.2]⟩]
    simp

theorem filter_slot {l pre L post : List (List Nat)} {p : List Nat} (h : l = pre ++ L ++ post)
    (h1 : ∀ d ∈ L, p <+: d) (h2 : ∀ d ∈ pre, ¬ p <+: d) (h3 : ∀ d ∈ post, ¬ p <+: d) :
    l.filter (fun d => p.isPrefixOf d) = L := by
  subst h
  have e1 : L.filter (fun d => p.isPrefixOf d) = L := List.filter_eq_self.mpr (fun d hd => by simpa using h1 d hd)
  have e2 : pre.filter (fun d => p.isPrefixOf d) = [] := List.filter_eq_nil_iff.mpr (fun d hd => by simpa using h2 d hd)
  have e3 : post.filter (fun d => p.isPrefixOf d) = [] := List.filter_eq_nil_iff.mpr (fun d hd => by simpa using h3 d hd)
  rw [List.filter_append, List.filter_append, e1, e2, e3]
  simp

theorem foldl_child (ps : List (List Nat)) (t : Node E) :
    ps.foldl (fun t p => t.bind (Node.child p)) (some t) = Node.child ps.flatten t := by
  have hnone : ∀ ps : List (List Nat), ps.foldl (fun t p => t.bind (Node.child p)) (none : Option (Node E)) = none := by
    intro ps
    induction ps with
    | nil => rfl
    | cons q ps ih => exact ih
  induction ps generalizing t with
  | nil => rfl
  | cons q ps ih =>
    rw [List.flatten_cons, Node.child_append, List.foldl_cons, Option.bind_some]
    cases Node.child q t with
    | none => rw [hnone]; rfl
    | some t1 => rw [ih]; rfl

/-! ## C13 -/

/-- For a subspace basis, also one created by nesting any number of subspace bases: size and
dimension are those of the root basis; the tree of its bound local view is the node of the bound root
tree found by following the paths one after the other; size and indices of the view are those of the
root view; and the multi-indices of any node of this tree, found by following a further path `q`, are
exactly, in local order, those of the basis functions whose tree path starts with the concatenation
of all paths. -/
theorem C13_subspace (b : PB E) (hb : b.WF) (p : List Nat) (ps : List (List Nat)) (q : List Nat)
    (hp : HasPath b (p ++ ps.flatten ++ q)) (e : E) :
    (nested b.model p ps).dimension = b.model.dimension ∧
    (∀ s, (nested b.model p ps).size s = b.model.size s) ∧
    ∃ v root t n, (nested b.model p ps).localView.bind e = some v ∧
      (LocalView.fresh b.model).bind b.model e = some root ∧
      v.tree = some t ∧ (ps.foldl (fun t p => t.bind (Node.child p)) (Node.child p root.tree)) = some t ∧
      v.size = root.size ∧ (∀ i, v.index i = root.index i) ∧
      Node.child q t = some n ∧
      nodeIndices v.index n
        = ((b.spec.loc e).filter fun d => (p ++ ps.flatten ++ q).isPrefixOf d).map fun d => some (b.spec.mi d) := by
  have R := b.refines hb
  rw [nested_eq]
  refine ⟨rfl, fun _ => rfl, ?_⟩
  have hbind := LocalView.bind_eq R _ (LocalView.fresh_blank b.model) e
  obtain ⟨n, hn, pre, L, post, hl, hoff, hsz, h1, h2, h3⟩ :=
    path_slot hp hb e 0 _ (LocalView.fresh_blank b.model)
  rw [Node.child_append] at hn
  obtain ⟨t, ht, hn⟩ := Option.bind_eq_some_iff.mp hn
  refine ⟨⟨⟨b.model, p ++ ps.flatten⟩, ⟨Node.bindTree e 0 (LocalView.fresh b.model).tree, some e,
      (b.spec.loc e).map b.spec.mi⟩⟩, _, t, n, by rw [SubLocalView.bind, SubBasis.localView, hbind]; rfl, hbind, ht,
    ?_, rfl, fun _ => rfl, hn, ?_⟩
  · simp only
    rw [Node.child_append] at ht
    obtain ⟨t0, ht0, ht⟩ := Option.bind_eq_some_iff.mp ht
    rw [ht0, foldl_child, ht]
  · rw [filter_slot hl h1 h2 h3]
    apply List.ext_getElem?
    intro i
    simp only [nodeIndices, List.getElem?_map]
    by_cases hi : i < L.length
    · rw [List.getElem?_range (by omega), List.getElem?_eq_getElem hi]
      simp only [Option.map_some, Node.localIndex, hsz, hi, if_true, Option.bind_some, SubLocalView.index,
        LocalView.index]
      rw [hl, hoff]
      simp only [List.map_append, List.append_assoc]
      rw [List.getElem?_append_right (by simp), List.getElem?_append_left (by simp; omega)]
      simp [hi]
    · rw [List.getElem?_eq_none (by simp; omega), List.getElem?_eq_none (by omega)]
      rfl

/-- Example: the components of the power basis inside the composite, nested subspaces. -/
example : HasPath exTree ([0] ++ [[1]].flatten ++ []) :=
  .composite (by rfl) (.power (by decide) (.nil _))
example : ((nested exTree.model [0] [[1]]).localView.bind true).bind (fun v =>
    v.tree.map (nodeIndices v.index)) = some [some [0,0,1], some [0,1,1]] := by decide +kernel

end Verif.IndexTree

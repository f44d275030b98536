import Verif.IndexTree.Tree

/-!
# Taylor-Hood basis

Model of `taylorhoodbasis.hh` and comparison with the composite basis of its documentation.
-/

namespace Verif.IndexTree

variable {E : Type}

/-! ## Model -/

/-- Loop body of `indicesImp<false>`, taylorhoodbasis.hh:240-243. -/
def thModify (dim cap child : Nat) (_ : Nat) (m : MI) : Option MI :=
  (multiIndexPushFront cap 0 m).bind fun m1 => (m1[1]?).bind fun x => setDigit m1 1 (x * dim + child)

/-- Loop body of `indicesImp<true>`, taylorhoodbasis.hh:264-267: appends the loop counter `i`. -/
def thModifyHI (cap : Nat) (i : Nat) (m : MI) : Option MI :=
  (multiIndexPushFront cap 0 m).bind fun m1 => pushBack cap i m1

/-- One block: compute the indices of the sub-basis, modify them in place, advance the iterator. -/
def thBlock (sub : PreBasis E) (cap : Nat) (modify : Nat → MI → Option MI) (nd : Node E)
    (st : Buf × Nat) : Option (Buf × Nat) :=
  (sub.indices cap nd st.1 st.2).bind fun st1 =>
  (forLoop nd.size (fun i buf => update buf (st.2 + i) (modify i)) st1.1).bind fun buf =>
    some (buf, st.2 + nd.size)

/-- `indicesImp`, taylorhoodbasis.hh:229-275; always uses `node.child(_0, 0)`. -/
def thIndices (hi : Bool) (dim : Nat) (pq2 pq1 : PreBasis E) (cap : Nat) (node : Node E)
    (buf : Buf) (pos : Nat) : Option (Buf × Nat) :=
  (forLoop dim (fun child st =>
    (node.children[0]?).bind fun v => (v.children[0]?).bind fun c0 =>
      thBlock pq2 cap (if hi then thModifyHI cap else thModify dim cap child) c0 st) (buf, pos)).bind fun st =>
  (node.children[1]?).bind fun c1 =>
    thBlock pq1 cap (fun _ => multiIndexPushFront cap 1) c1 st

/-- `sizeImp`, taylorhoodbasis.hh:138-177. -/
def thSize (hi : Bool) (dim s2 s1 : Nat) (p : MI) : Option Nat :=
  match hi, p with
  | _, [] => some 2
  | false, [x] => if x = 0 then some (dim * s2) else if x = 1 then some s1 else none
  | false, [_, _] => some 0
  | true, [x] => if x = 0 then some s2 else if x = 1 then some s1 else none
  | true, [x, _] => if x = 0 then some dim else if x = 1 then some 0 else none
  | true, [_, _, _] => some 0
  | _, _ => none

/-- `TaylorHoodPreBasis`, taylorhoodbasis.hh:60-281 over the second and first order Lagrange
pre-bases (any leaf bases here); `makeNode` (118-121, tree 285-326) makes a composite node of a
power node and a leaf. -/
def thPB (hi : Bool) (dim : Nat) (L2 L1 : Leaf E) : PreBasis E where
  minLen := 2
  maxLen := if hi then 3 else 2
  bufLen := if hi then 3 else 2
  dimension := dim * L2.dim + L1.dim
  maxNodeSize := dim * L2.maxN + L1.maxN
  size := thSize hi dim L2.dim L1.dim
  makeNode := .mk {} [.mk {} (List.replicate dim (leafPB L2).makeNode), (leafPB L1).makeNode]
  indices := thIndices hi dim (leafPB L2) (leafPB L1)

/-- The documented definition, taylorhoodbasis.hh:46-58. -/
def thTree (hi : Bool) (dim : Nat) (L2 L1 : Leaf E) : PB E :=
  .composite true [.power (if hi then .blockedInt else .flatInt) dim (.leaf L2), .leaf L1]

/-! ## Proof -/

theorem blockLoopIdx (pre mid post : Buf) (f : Nat → MI → Option MI) (g : Nat → MI → MI)
    (h : ∀ i m, m ∈ mid → f i m = some (g i m)) :
    forLoop mid.length (fun i buf => update buf (pre.length + i) (f i)) (pre ++ mid ++ post)
      = some (pre ++ mid.mapIdx g ++ post) := by
  have := forLoop_eq (S := Buf) mid.length (fun i buf => update buf (pre.length + i) (f i))
    (fun i => (pre ++ (mid.take i).mapIdx g) ++ (mid.drop i ++ post)) (by
      intro i hi
      have hd : mid.drop i = mid[i] :: mid.drop (i+1) := by
        rw [List.drop_eq_getElem_cons]
      have hl : pre.length + i = (pre ++ (mid.take i).mapIdx g).length := by
        simp; omega
      simp only [hd, List.cons_append]
      rw [hl, update_append _ _ _ _ (g i mid[i]) (h _ _ (List.getElem_mem hi))]
      simp only [take_succ_lt _ _ hi, List.mapIdx_append, List.mapIdx_cons, List.mapIdx_nil, List.append_assoc,
        List.cons_append, List.nil_append, List.length_take, Nat.min_eq_left (Nat.le_of_lt hi), Nat.zero_add])
  simpa using this

theorem thBlock_eq {sub : PreBasis E} {sp : Spec E} (R : Refines sub sp) (cap : Nat) (hcap : sub.bufLen ≤ cap)
    (e : E) (off : Nat) (m : Node E) (hm : m.blank = sub.makeNode.blank)
    (modify : Nat → MI → Option MI) (g : Nat → MI → MI)
    (h : ∀ i, ∀ d ∈ sp.dofs, modify i (sp.mi d) = some (g i (sp.mi d)))
    (pre mid post : Buf) (hmid : mid.length = (sp.loc e).length) :
    thBlock sub cap modify (Node.bindTree e off m) (pre ++ mid ++ post, pre.length)
      = some (pre ++ ((sp.loc e).map sp.mi).mapIdx g ++ post, pre.length + (sp.loc e).length) := by
  have hf := R.fill cap hcap e off m hm pre mid post hmid
  have hsz := R.nodeSize e off m hm
  have hb := blockLoopIdx pre ((sp.loc e).map sp.mi) post modify g (by
    intro i mi hmi
    obtain ⟨d, hd, rfl⟩ := List.mem_map.mp hmi
    exact h i d (R.locMem e d hd))
  rw [List.length_map] at hb
  simp only [thBlock, hf, Option.bind_some, hsz, hb]

/-- What `indices` writes: `g child i m` is the effect of the loop body. -/
theorem thIndices_eq (hi : Bool) (dim : Nat) (hdim : 0 < dim) (L2 L1 : Leaf E)
    (R2 : Refines (leafPB L2) (specLeaf L2)) (R1 : Refines (leafPB L1) (specLeaf L1))
    (cap : Nat) (hcap : 2 ≤ cap) (g : Nat → Nat → MI → MI)
    (hg : ∀ child i x, (if hi then thModifyHI cap else thModify dim cap child) i [x] = some (g child i [x]))
    (e : E) (off : Nat) (m : Node E) (hm : m.blank = (thPB hi dim L2 L1).makeNode.blank)
    (pre mid post : Buf) (hmid : mid.length = dim * (L2.loc e).length + (L1.loc e).length) :
    thIndices hi dim (leafPB L2) (leafPB L1) cap (Node.bindTree e off m) (pre ++ mid ++ post) pre.length
      = some (pre ++ (((List.range dim).flatMap fun child => ((L2.loc e).map fun x => [x]).mapIdx (g child))
            ++ (L1.loc e).map fun x => [1, x]) ++ post,
          pre.length + (dim * (L2.loc e).length + (L1.loc e).length)) := by
  obtain ⟨d, cs, rfl, hfi, hfe, hcs⟩ := composite_node_inv hm
  obtain _ | ⟨hv, hcs⟩ := hcs
  obtain _ | ⟨hp, hcs⟩ := hcs
  cases hcs
  rename_i v p
  obtain ⟨d', vs, rfl, hfi', hfe', hlen, hvs⟩ := power_node_inv hv
  cases vs with
  | nil => simp at hlen; omega
  | cons n0 ns =>
    have hn0 := hvs n0 List.mem_cons_self
    -- children of the bound node
    obtain ⟨off2, hch1⟩ : ∃ off2, (Node.bindTree e off (Node.mk d [Node.mk d' (n0 :: ns), p])).children[1]?
        = some (Node.bindTree e off2 p) := by
      refine ⟨off + (Node.bindTree e off (Node.mk d' (n0 :: ns))).size, ?_⟩
      simp [Node.bindTree, hfi, hfe, hfi', hfe', Node.children, Node.bindChildren]
    have hch0 : ((Node.bindTree e off (Node.mk d [Node.mk d' (n0 :: ns), p])).children[0]?).bind
        (fun v => v.children[0]?) = some (Node.bindTree e off n0) := by
      simp [Node.bindTree, hfi, hfe, hfi', hfe', Node.children, Node.bindChildren]
    have hch0' : ∀ (f : Node E → Option (Buf × Nat)),
        ((Node.bindTree e off (Node.mk d [Node.mk d' (n0 :: ns), p])).children[0]?).bind
        (fun v => (v.children[0]?).bind f) = f (Node.bindTree e off n0) := by
      intro f
      rw [← Option.bind_assoc, hch0, Option.bind_some]
    have hl2 : (specLeaf L2).loc e = (L2.loc e).map fun x => [x] := rfl
    have hl1 : (specLeaf L1).loc e = (L1.loc e).map fun x => [x] := rfl
    have hmi2 : ((specLeaf L2).loc e).map (specLeaf L2).mi = (L2.loc e).map fun x => [x] := by
      simp [specLeaf]
    have hmi1 : ((specLeaf L1).loc e).map (specLeaf L1).mi = (L1.loc e).map fun x => [x] := by
      simp [specLeaf]
    generalize hD : (fun child => ((L2.loc e).map fun x => [x]).mapIdx (g child)) = D
    have hDlen : ∀ c, (D c).length = (L2.loc e).length := by intro c; rw [← hD]; simp
    have hFlen : ∀ k, ((List.range k).flatMap D).length = k * (L2.loc e).length := by
      intro k
      rw [length_flatMap_const _ _ (L2.loc e).length (fun a _ => hDlen a)]; simp
    -- velocity loop
    have hloop := forLoop_eq (S := Buf × Nat) dim (fun child st =>
      ((Node.bindTree e off (Node.mk d [Node.mk d' (n0 :: ns), p])).children[0]?).bind fun v =>
        (v.children[0]?).bind fun c0 =>
        thBlock (leafPB L2) cap (if hi then thModifyHI cap else thModify dim cap child) c0 st)
      (fun k => (pre ++ (List.range k).flatMap D ++ (mid.drop (k * (L2.loc e).length) ++ post),
        pre.length + k * (L2.loc e).length)) (by
        intro k hk
        simp only [hch0']
        have hle : (k + 1) * (L2.loc e).length ≤ dim * (L2.loc e).length := Nat.mul_le_mul_right _ hk
        have hsum : (k + 1) * (L2.loc e).length = k * (L2.loc e).length + (L2.loc e).length := by
          rw [Nat.add_mul]; simp
        have hb := thBlock_eq R2 cap (by simp [leafPB]; omega) e off n0 hn0
          (if hi then thModifyHI cap else thModify dim cap k) (g k)
          (by
            intro i dd hdd
            obtain ⟨x, _, rfl⟩ := List.mem_map.mp hdd
            exact hg k i x)
          (pre ++ (List.range k).flatMap D)
          ((mid.drop (k * (L2.loc e).length)).take (L2.loc e).length)
          (mid.drop ((k+1) * (L2.loc e).length) ++ post)
          (by rw [hl2]; simp; omega)
        have hsplit : mid.drop (k * (L2.loc e).length) = (mid.drop (k * (L2.loc e).length)).take (L2.loc e).length
            ++ mid.drop ((k+1) * (L2.loc e).length) := by
          rw [hsum, ← List.drop_drop, List.take_append_drop]
        have hlen' : (pre ++ (List.range k).flatMap D).length = pre.length + k * (L2.loc e).length := by
          rw [List.length_append, hFlen]
        rw [hmi2] at hb
        have hDk : ((L2.loc e).map fun x => [x]).mapIdx (g k) = D k := by rw [← hD]
        rw [hDk, hl2, List.length_map, hlen'] at hb
        rw [← hlen', hsplit, List.append_assoc (List.take _ _), ← List.append_assoc (pre ++ _)]
        rw [hlen', hb]
        simp only [List.range_succ, List.flatMap_append, List.flatMap_singleton, hsum, List.append_assoc,
          Nat.add_assoc])
    simp only [List.range_zero, List.flatMap_nil, List.append_nil, Nat.zero_mul, List.drop_zero,
      Nat.add_zero] at hloop
    rw [← List.append_assoc] at hloop
    rw [thIndices, hloop, Option.bind_some, hch1, Option.bind_some]
    have hb := thBlock_eq R1 cap (by simp [leafPB]; omega) e off2 p hp
      (fun _ => multiIndexPushFront cap 1) (fun _ m => 1 :: m)
      (by
        intro i dd hdd
        obtain ⟨x, _, rfl⟩ := List.mem_map.mp hdd
        exact multiIndexPushFront_eq (by simp [specLeaf]; omega))
      (pre ++ (List.range dim).flatMap D) (mid.drop (dim * (L2.loc e).length)) post
      (by rw [hl1]; simp; omega)
    have hlen' : (pre ++ (List.range dim).flatMap D).length = pre.length + dim * (L2.loc e).length := by
      rw [List.length_append, hFlen]
    rw [hmi1, hl1, List.length_map, hlen'] at hb
    rw [← List.append_assoc, hb]
    have : ∀ (l : List MI), l.mapIdx (fun _ m => 1 :: m) = l.map (1 :: ·) := by
      intro l
      rw [List.mapIdx_eq_zipIdx_map]
      conv => rhs; rw [← List.zipIdx_map_fst 0 l]
      rw [List.map_map]; rfl
    rw [this]
    simp [List.append_assoc, Nat.add_assoc, Function.comp_def]

theorem leafRefines {L : Leaf E} (h : (PB.leaf L).WF) : Refines (leafPB L) (specLeaf L) :=
  leaf_refines L h.1 h.2

/-- Valid prefixes: the two definitions of `size` agree. -/
theorem th_size_eq (hi : Bool) (dim : Nat) (hdim : 0 < dim) (L2 L1 : Leaf E)
    (d : List Nat) (hd : d ∈ (thTree hi dim L2 L1).spec.dofs) (p : MI)
    (hp : p <+: (thTree hi dim L2 L1).spec.mi d) :
    (thPB hi dim L2 L1).size p = (thTree hi dim L2 L1).model.size p := by
  simp only [thTree, PB.spec, PB.specs, specComposite, tagged, List.map_cons, List.map_nil,
    List.append_nil, List.mem_append, List.mem_map, specPower, List.mem_flatMap, List.mem_range, specLeaf] at hd
  have hmodel : ∀ q, (thTree hi dim L2 L1).model.size q = compositeSize true
      [powerPB (if hi then .blockedInt else .flatInt) dim (leafPB L2), leafPB L1] q := fun _ => rfl
  rw [hmodel]
  show thSize hi dim L2.dim L1.dim p = _
  have hdim' : dim ≠ 0 := by omega
  rcases hd with ⟨_, ⟨k, hk, y, ⟨x, hx, rfl⟩, rfl⟩, rfl⟩ | ⟨_, ⟨x, hx, rfl⟩, rfl⟩
  · have hL2 : L2.dim ≠ 0 := by omega
    cases hi with
    | false =>
      have hmi : (thTree false dim L2 L1).spec.mi [0, k, x] = [0, x * dim + k] := by
        simp [thTree, PB.spec, PB.specs, specComposite, specPower, specLeaf, IMS.merge, onFirst]
      rw [hmi] at hp
      rcases p with _ | ⟨a, _ | ⟨b, _ | ⟨c, p⟩⟩⟩
      · simp [thSize, compositeSize]
      · obtain rfl : a = 0 := by simpa using hp
        simp [thSize, compositeSize, multiIndexPopFront_cons, powerPB, powerSize, leafPB]
      · obtain ⟨rfl, rfl⟩ : a = 0 ∧ b = x * dim + k := by simpa using hp
        simp [thSize, compositeSize, multiIndexPopFront_cons, powerPB, powerSize, leafPB, hdim', updFirst, setDigit]
      · exact absurd hp.length_le (by simp)
    | true =>
      have hmi : (thTree true dim L2 L1).spec.mi [0, k, x] = [0, x, k] := by
        simp [thTree, PB.spec, PB.specs, specComposite, specPower, specLeaf, IMS.merge]
      rw [hmi] at hp
      rcases p with _ | ⟨a, _ | ⟨b, _ | ⟨c, _ | ⟨f, p⟩⟩⟩⟩
      · simp [thSize, compositeSize]
      · obtain rfl : a = 0 := by simpa using hp
        simp [thSize, compositeSize, multiIndexPopFront_cons, powerPB, powerSize, leafPB]
      · obtain ⟨rfl, rfl⟩ : a = 0 ∧ b = x := by simpa using hp
        simp [thSize, compositeSize, multiIndexPopFront_cons, powerPB, powerSize, leafPB, hL2]
      · obtain ⟨rfl, rfl, rfl⟩ : a = 0 ∧ b = x ∧ c = k := by simpa using hp
        simp [thSize, compositeSize, multiIndexPopFront_cons, powerPB, powerSize, leafPB]
      · exact absurd hp.length_le (by simp)
  · have hmi : (thTree hi dim L2 L1).spec.mi [1, x] = [1, x] := by
      simp [thTree, PB.spec, PB.specs, specComposite, specLeaf]
    rw [hmi] at hp
    rcases p with _ | ⟨a, _ | ⟨b, _ | ⟨c, p⟩⟩⟩
    · cases hi <;> simp [thSize, compositeSize]
    · obtain rfl : a = 1 := by simpa using hp
      cases hi <;> simp [thSize, compositeSize, multiIndexPopFront_cons, leafPB]
    · obtain ⟨rfl, rfl⟩ : a = 1 ∧ b = x := by simpa using hp
      cases hi <;> simp [thSize, compositeSize, multiIndexPopFront_cons, leafPB]
    · exact absurd hp.length_le (by simp)

theorem th_modify_eq (dim cap child i x : Nat) (hcap : 2 ≤ cap) :
    thModify dim cap child i [x] = some [0, x * dim + child] := by
  simp [thModify, multiIndexPushFront_eq (cap := cap) (M0 := 0) (m := [x]) (by simp; omega), setDigit]

theorem th_modifyHI_eq (cap i x : Nat) (hcap : 3 ≤ cap) :
    thModifyHI cap i [x] = some [0, x, i] := by
  rw [thModifyHI, multiIndexPushFront_eq (cap := cap) (M0 := 0) (m := [x]) (by simp; omega), Option.bind_some,
    pushBack_ok (by simp; omega)]
  rfl

theorem th_spec_loc (hi : Bool) (dim : Nat) (L2 L1 : Leaf E) (e : E) :
    (thTree hi dim L2 L1).spec.loc e
      = (List.range dim).flatMap (fun k => (L2.loc e).map fun x => [0, k, x]) ++ (L1.loc e).map fun x => [1, x] := by
  simp [thTree, PB.spec, PB.specs, specComposite, specPower, specLeaf, tagged, List.map_flatMap, Function.comp_def]

theorem thTree_WF {hi : Bool} {dim : Nat} {L2 L1 : Leaf E} (hdim : 0 < dim) (h2 : (PB.leaf L2).WF)
    (h1 : (PB.leaf L1).WF) : (thTree hi dim L2 L1).WF := by
  refine ⟨by simp, ⟨hdim, h2⟩, h1, trivial⟩

/-- The non-hybrid Taylor-Hood basis satisfies the contract of the composite tree. -/
theorem th_refines (dim : Nat) (hdim : 0 < dim) (L2 L1 : Leaf E) (h2 : (PB.leaf L2).WF) (h1 : (PB.leaf L1).WF) :
    Refines (thPB false dim L2 L1) (thTree false dim L2 L1).spec := by
  have hC := PB.refines _ (thTree_WF (hi := false) hdim h2 h1)
  have hsz := th_size_eq false dim hdim L2 L1
  have hmodel : (thTree false dim L2 L1).model = compositePB true [powerPB .flatInt dim (leafPB L2), leafPB L1] := rfl
  refine
    { minPos := by simp [thPB], minMax := by simp [thPB], maxBuf := by simp [thPB],
      nodup := hC.nodup, locMem := hC.locMem, dim := ?_, maxN := ?_, lenMin := hC.lenMin, lenMax := hC.lenMax,
      prefixFree := hC.prefixFree, root := ?_, sizeLt := ?_, sizeFull := ?_, leafy := hC.leafy,
      nodeSize := hC.nodeSize, filterIrrel := ?_, fill := ?_ }
  · rw [← hC.dim, hmodel]
    simp [thPB, compositePB, powerPB, leafPB, Nat.mul_comm]
  · intro e
    refine Nat.le_trans (hC.maxN e) ?_
    rw [hmodel]
    simp [thPB, compositePB, powerPB, leafPB, Nat.mul_comm]
  · simp [thPB, thSize, thTree, PB.spec, PB.specs, specComposite]
  · intro d hd p x hp
    rw [hsz d hd p ((List.prefix_append _ _).trans hp)]
    exact hC.sizeLt d hd p x hp
  · intro d hd
    rw [hsz d hd _ (List.prefix_refl _)]
    exact hC.sizeFull d hd
  · intro cap f n buf pos
    cases n; rfl
  · intro cap hcap e off m hm pre mid post hmid
    have hcap' : 2 ≤ cap := hcap
    have hlen : ((thTree false dim L2 L1).spec.loc e).length = dim * (L2.loc e).length + (L1.loc e).length := by
      rw [th_spec_loc, List.length_append, length_flatMap_const _ _ (L2.loc e).length (by simp)]; simp
    have h := thIndices_eq false dim hdim L2 L1 (leafRefines h2) (leafRefines h1) cap hcap'
      (fun child _ m => [0, (m.headD 0) * dim + child]) (by intro c i x; exact th_modify_eq dim cap c i x hcap')
      e off m hm pre mid post (by rw [hmid, hlen])
    show thIndices false dim _ _ cap _ _ _ = _
    rw [h, hlen]
    congr 2
    rw [th_spec_loc, List.map_append, List.map_flatMap]
    congr 1
    · refine congrArg (pre ++ ·) ?_
      congr 1
      · refine congrArg (fun f => List.flatMap f (List.range dim)) ?_
        funext k
        rw [List.map_map]
        have : ∀ (l : List Nat), (l.map fun x => [x]).mapIdx (fun _ m => [0, (m.headD 0) * dim + k])
            = l.map fun x => [0, x * dim + k] := by
          intro l
          rw [List.mapIdx_eq_zipIdx_map]
          conv => rhs; rw [← List.zipIdx_map_fst 0 l]
          rw [List.map_map, List.zipIdx_map, List.map_map]; rfl
        rw [this]
        refine List.map_congr_left fun x _ => ?_
        simp [thTree, PB.spec, PB.specs, specComposite, specPower, specLeaf, IMS.merge, onFirst]
      · rw [List.map_map]
        refine List.map_congr_left fun x _ => ?_
        simp [thTree, PB.spec, PB.specs, specComposite, specLeaf]

/-! ## C17 -/

/-- Without hybrid indices: same multi-indices on every element, same sizes for all valid prefixes, same
dimension, maximal local size and index lengths as the documented composite basis. -/
theorem C17_flat_partial (dim : Nat) (hdim : 0 < dim) (L2 L1 : Leaf E) (h2 : (PB.leaf L2).WF) (h1 : (PB.leaf L1).WF) :
    let th := thPB false dim L2 L1
    let co := compositePB true [powerPB .flatInt dim (leafPB L2), leafPB L1]
    (∀ e, ∃ I, localIndices th e = some I ∧ localIndices co e = some I) ∧
    (∀ e I m p, localIndices co e = some I → m ∈ I → p <+: m → th.size p = co.size p) ∧
    th.size [] = co.size [] ∧
    th.dimension = co.dimension ∧ th.maxNodeSize = co.maxNodeSize ∧
    th.minLen = co.minLen ∧ th.maxLen = co.maxLen ∧ th.bufLen = co.bufLen := by
  have hC : Refines (compositePB true [powerPB .flatInt dim (leafPB L2), leafPB L1]) (thTree false dim L2 L1).spec :=
    PB.refines _ (thTree_WF (hi := false) hdim h2 h1)
  have hT := th_refines dim hdim L2 L1 h2 h1
  refine ⟨fun e => ⟨_, localIndices_eq hT e, localIndices_eq hC e⟩, ?_, ?_, ?_, ?_, ?_, ?_, ?_⟩
  · intro e I m p hI hm hp
    rw [localIndices_eq hC e] at hI
    injection hI with hI
    subst hI
    obtain ⟨d, hd, rfl⟩ := List.mem_map.mp hm
    exact th_size_eq false dim hdim L2 L1 d (hC.locMem e d hd) p hp
  · simp [thPB, thSize, compositePB, compositeSize]
  · simp [thPB, compositePB, powerPB, leafPB, Nat.mul_comm]
  · simp [thPB, compositePB, powerPB, leafPB, Nat.mul_comm]
  · simp [thPB, compositePB, powerPB, leafPB, listMin, IMS.isBlocked]
  · simp [thPB, compositePB, powerPB, leafPB, listMax, IMS.isBlocked]
  · simp [thPB, compositePB, powerPB, leafPB, listMax, IMS.isBlocked]

/-- With hybrid indices sizes, dimension and index lengths agree with the documented composite basis.
Missing: the multi-indices, which are wrong (`C17_hybrid_false`). -/
theorem C17_hybrid_sizes_partial (dim : Nat) (hdim : 0 < dim) (L2 L1 : Leaf E) (h2 : (PB.leaf L2).WF)
    (h1 : (PB.leaf L1).WF) :
    let th := thPB true dim L2 L1
    let co := compositePB true [powerPB .blockedInt dim (leafPB L2), leafPB L1]
    (∀ e I m p, localIndices co e = some I → m ∈ I → p <+: m → th.size p = co.size p) ∧
    th.size [] = co.size [] ∧
    th.dimension = co.dimension ∧ th.maxNodeSize = co.maxNodeSize ∧
    th.minLen = co.minLen ∧ th.maxLen = co.maxLen ∧ th.bufLen = co.bufLen := by
  have hC : Refines (compositePB true [powerPB .blockedInt dim (leafPB L2), leafPB L1]) (thTree true dim L2 L1).spec :=
    PB.refines _ (thTree_WF (hi := true) hdim h2 h1)
  refine ⟨?_, ?_, ?_, ?_, ?_, ?_, ?_⟩
  · intro e I m p hI hm hp
    rw [localIndices_eq hC e] at hI
    injection hI with hI
    subst hI
    obtain ⟨d, hd, rfl⟩ := List.mem_map.mp hm
    exact th_size_eq true dim hdim L2 L1 d (hC.locMem e d hd) p hp
  · simp [thPB, thSize, compositePB, compositeSize]
  · simp [thPB, compositePB, powerPB, leafPB, Nat.mul_comm]
  · simp [thPB, compositePB, powerPB, leafPB, Nat.mul_comm]
  · simp [thPB, compositePB, powerPB, leafPB, listMin, IMS.isBlocked]
  · simp [thPB, compositePB, powerPB, leafPB, listMax, IMS.isBlocked]
  · simp [thPB, compositePB, powerPB, leafPB, listMax, IMS.isBlocked]

/-- With hybrid indices the velocity indices end with the number of the local function instead of the
number of the component: on an element the index of function `i` of component `k` is
`(0, g_i, i)`. -/
theorem C17_hybrid_indices (dim : Nat) (hdim : 0 < dim) (L2 L1 : Leaf E) (h2 : (PB.leaf L2).WF)
    (h1 : (PB.leaf L1).WF) (e : E) :
    localIndices (thPB true dim L2 L1) e
      = some (((List.range dim).flatMap fun _ => (L2.loc e).mapIdx fun i g => [0, g, i])
          ++ (L1.loc e).map fun x => [1, x]) := by
  have hC : Refines (compositePB true [powerPB .blockedInt dim (leafPB L2), leafPB L1]) (thTree true dim L2 L1).spec :=
    PB.refines _ (thTree_WF (hi := true) hdim h2 h1)
  have hlen : ((thTree true dim L2 L1).spec.loc e).length = dim * (L2.loc e).length + (L1.loc e).length := by
    rw [th_spec_loc, List.length_append, length_flatMap_const _ _ (L2.loc e).length (by simp)]; simp
  have hb : (LocalView.fresh (thPB true dim L2 L1)).tree.blank = (thPB true dim L2 L1).makeNode.blank :=
    LocalView.fresh_blank _
  have hns := hC.nodeSize e 0 _ hb
  have h := thIndices_eq true dim hdim L2 L1 (leafRefines h2) (leafRefines h1) 3 (by omega)
      (fun _ i m => [0, m.headD 0, i]) (by intro c i x; exact th_modifyHI_eq 3 i x (by omega))
      e 0 _ hb [] (LocalView.resizeBuf (LocalView.fresh (thPB true dim L2 L1)).indices
        (dim * (L2.loc e).length + (L1.loc e).length)) [] (LocalView.resizeBuf_length _ _)
  simp only [List.nil_append, List.append_nil, List.length_nil, Nat.zero_add] at h
  have : (thPB true dim L2 L1).indices (thPB true dim L2 L1).bufLen
      = thIndices true dim (leafPB L2) (leafPB L1) 3 := rfl
  simp only [localIndices, LocalView.bind, this, hns, hlen, h, Option.bind_some]
  congr 4
  funext _
  rw [List.mapIdx_eq_zipIdx_map, List.mapIdx_eq_zipIdx_map, List.zipIdx_map, List.map_map]
  rfl

/-- Consequences: on an element with at least one velocity function two components share their indices,
and with more velocity functions than space dimensions a digit exceeds `size(prefix)`. -/
theorem C17_hybrid_false (dim : Nat) (hdim : 2 ≤ dim) (L2 L1 : Leaf E) (h2 : (PB.leaf L2).WF)
    (h1 : (PB.leaf L1).WF) (e : E) (hne : L2.loc e ≠ []) :
    ∃ I, localIndices (thPB true dim L2 L1) e = some I ∧ ¬ I.Nodup ∧
      localIndices (thPB true dim L2 L1) e ≠
        localIndices (compositePB true [powerPB .blockedInt dim (leafPB L2), leafPB L1]) e ∧
      (dim < (L2.loc e).length → ∃ m ∈ I, ∃ p x n, m = p ++ [x] ∧ (thPB true dim L2 L1).size p = some n ∧ n ≤ x) := by
  refine ⟨_, C17_hybrid_indices dim (by omega) L2 L1 h2 h1 e, ?_⟩
  have hnd : ¬ (((List.range dim).flatMap fun _ => (L2.loc e).mapIdx fun i g => [0, g, i])
      ++ (L1.loc e).map fun x => [1, x]).Nodup := by
    intro hnd
    obtain ⟨g, gs, hg⟩ := List.exists_cons_of_ne_nil hne
    obtain ⟨k, rfl⟩ : ∃ k, dim = k + 2 := ⟨dim - 2, by omega⟩
    have h3 := (List.nodup_append.mp hnd).1
    rw [List.range_succ, List.flatMap_append, List.range_succ, List.flatMap_append] at h3
    have h4 := (List.nodup_append.mp h3).2.2 [0, g, 0] (by simp [hg, List.mapIdx_cons]) [0, g, 0]
      (by simp [hg, List.mapIdx_cons])
    exact h4 rfl
  refine ⟨hnd, ?_, ?_⟩
  · have hC : Refines (compositePB true [powerPB .blockedInt dim (leafPB L2), leafPB L1]) (thTree true dim L2 L1).spec :=
      PB.refines _ (thTree_WF (hi := true) (by omega) h2 h1)
    rw [C17_hybrid_indices dim (by omega) L2 L1 h2 h1 e, localIndices_eq hC e]
    intro heq
    injection heq with heq
    -- second component, first function: (0,g,0) versus (0,g,1)
    obtain ⟨g, gs, hg⟩ := List.exists_cons_of_ne_nil hne
    obtain ⟨k, rfl⟩ : ∃ k, dim = k + 2 := ⟨dim - 2, by omega⟩
    have hr : List.range (k+2) = 0 :: 1 :: (List.range k).map (· + 2) := by
      rw [List.range_succ_eq_map, List.range_succ_eq_map]; simp [Function.comp_def]
    have hL : (((List.range (k+2)).flatMap fun _ => (L2.loc e).mapIdx fun i g => [0, g, i])
        ++ (L1.loc e).map fun x => [1, x])[(L2.loc e).length]? = some [0, g, 0] := by
      rw [hr]
      simp only [List.flatMap_cons, List.append_assoc]
      rw [List.getElem?_append_right (by simp), List.length_mapIdx, Nat.sub_self, hg, List.mapIdx_cons]
      rfl
    have hR : (((thTree true (k+2) L2 L1).spec.loc e).map (thTree true (k+2) L2 L1).spec.mi)[(L2.loc e).length]?
        = some [0, g, 1] := by
      rw [th_spec_loc, List.map_append, List.map_flatMap, hr]
      simp only [List.flatMap_cons, List.append_assoc]
      rw [List.getElem?_append_right (by simp), List.length_map, List.length_map, Nat.sub_self, hg]
      simp [thTree, PB.spec, PB.specs, specComposite, specPower, specLeaf, IMS.merge]
    rw [heq, hR] at hL
    simp at hL
  · intro hlt
    have hi : dim < (L2.loc e).length := hlt
    refine ⟨[0, (L2.loc e)[dim], dim], ?_, [0, (L2.loc e)[dim]], dim, dim, rfl, by simp [thPB, thSize], Nat.le_refl _⟩
    refine List.mem_append_left _ (List.mem_flatMap.mpr ⟨0, by simp; omega, ?_⟩)
    rw [List.mem_iff_getElem]
    exact ⟨dim, by simpa using hi, by simp⟩

/-! Examples: a mesh of two intervals in 2 "dimensions". -/

def thEx2 : Leaf Bool := ⟨5, 3, fun e => if e then [0, 1, 3] else [1, 2, 4]⟩
def thEx1 : Leaf Bool := ⟨3, 2, fun e => if e then [0, 1] else [1, 2]⟩

example : (PB.leaf thEx2).WF ∧ (PB.leaf thEx1).WF := by simp [PB.WF, thEx1, thEx2]
example : localIndices (thPB false 2 thEx2 thEx1) true
    = some [[0,0],[0,2],[0,6],[0,1],[0,3],[0,7],[1,0],[1,1]] := by decide
example : localIndices (thPB true 2 thEx2 thEx1) true
    = some [[0,0,0],[0,1,1],[0,3,2],[0,0,0],[0,1,1],[0,3,2],[1,0],[1,1]] := by decide

end Verif.IndexTree

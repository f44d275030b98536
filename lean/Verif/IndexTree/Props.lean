import Verif.IndexTree.Tree
import Mathlib.Data.Set.Card

/-!
# Properties of global indices of basis trees (C01-C11, C14)

`localIndices b.model e` are the multi-indices a user reads from a new local view bound to
`e`, in local order; `b.model.size p` is `basis.size(p)`; `none` is undefined behaviour.
`b.spec.loc e` lists, in local order, the global basis functions on `e`: the path of the leaf
in the ansatz tree followed by the index in the leaf basis.
-/

namespace Verif.IndexTree

variable {E : Type}

/-! A non-trivial example: `composite(power<2>(lagrange, blockedInterleaved), restricted(dg))` on a
mesh of two elements. -/

def exLeaf : Leaf Bool := ⟨3, 2, fun e => if e then [0, 1] else [2, 1]⟩
def exLeaf2 : Leaf Bool := ⟨2, 2, fun e => if e then [0, 1] else []⟩
def exTree : PB Bool :=
  .composite true [.power .blockedInt 2 (.leaf exLeaf), .power .flatLex 3 (.restricted id (.leaf exLeaf2))]

theorem exTree_WF : exTree.WF := by
  simp [exTree, PB.WF, PB.WFs, exLeaf, exLeaf2]
theorem exTree_Pos : exTree.Pos := by
  simp [exTree, PB.Pos, PB.Poss, exLeaf, exLeaf2]
theorem exTree_Covered : exTree.Covered (fun _ => True) := by
  simp only [exTree, PB.Covered, PB.Covereds, exLeaf, exLeaf2]
  refine ⟨?_, ?_, trivial⟩
  · intro i hi
    rcases (by omega : i = 0 ∨ i = 1 ∨ i = 2) with rfl | rfl | rfl
    · exact ⟨true, by simp⟩
    · exact ⟨true, by simp⟩
    · exact ⟨false, by simp⟩
  · intro i hi
    rcases (by omega : i = 0 ∨ i = 1) with rfl | rfl
    · exact ⟨true, by simp⟩
    · exact ⟨true, by simp⟩

example : localIndices exTree.model true = some
    [[0,0,0],[0,1,0],[0,0,1],[0,1,1],[1,0],[1,1],[1,2],[1,3],[1,4],[1,5]] := by decide +kernel
example : localIndices exTree.model false = some [[0,2,0],[0,1,0],[0,2,1],[0,1,1]] := by decide +kernel

/-! ## C01 -/

/-- Each digit is smaller than `size` of the preceding digits, the size of the full index is 0,
and none of these calls (nor the index computation) is undefined. -/
theorem C01_digits_lt_size (b : PB E) (hb : b.WF) (e : E) :
    ∃ I, localIndices b.model e = some I ∧ ∀ m ∈ I,
      (∀ p x, p ++ [x] <+: m → ∃ n, b.model.size p = some n ∧ x < n) ∧ b.model.size m = some 0 := by
  have R := b.refines hb
  refine ⟨_, localIndices_eq R e, ?_⟩
  intro m hm
  obtain ⟨d, hd, rfl⟩ := List.mem_map.mp hm
  exact ⟨R.sizeLt d (R.locMem e d hd), R.sizeFull d (R.locMem e d hd)⟩

example : ∃ I, localIndices exTree.model true = some I ∧ ∀ m ∈ I,
    (∀ p x, p ++ [x] <+: m → ∃ n, exTree.model.size p = some n ∧ x < n) ∧ exTree.model.size m = some 0 :=
  C01_digits_lt_size _ exTree_WF _

/-! ## C02 -/

/-- Local function number `i` on `e` and number `j` on `e'` have the same multi-index iff they
are the same global basis function. -/
theorem C02_unique (b : PB E) (hb : b.WF) (e e' : E) :
    ∃ I J, localIndices b.model e = some I ∧ localIndices b.model e' = some J ∧
      I.length = (b.spec.loc e).length ∧ J.length = (b.spec.loc e').length ∧
      ∀ (i j : Nat) (m m' : MI), I[i]? = some m → J[j]? = some m' →
        (m = m' ↔ (b.spec.loc e)[i]? = (b.spec.loc e')[j]?) := by
  have R := b.refines hb
  refine ⟨_, _, localIndices_eq R e, localIndices_eq R e', by simp, by simp, ?_⟩
  intro i j m m' hi hj
  simp only [List.getElem?_map, Option.map_eq_some_iff] at hi hj
  obtain ⟨d, hd, rfl⟩ := hi
  obtain ⟨d', hd', rfl⟩ := hj
  rw [hd, hd']
  constructor
  · intro h
    have hm := R.locMem e d (List.mem_of_getElem? hd)
    have hm' := R.locMem e' d' (List.mem_of_getElem? hd')
    rw [R.prefixFree d hm d' hm' (by rw [h])]
  · intro h
    simp at h; rw [h]

example := C02_unique exTree exTree_WF true false

/-! ## C03 -/

/-- The set of multi-indices of the basis: those that occur on some element. -/
def IndexSet (pb : PreBasis E) : Set MI := {m | ∃ e I, localIndices pb e = some I ∧ m ∈ I}

theorem indexSet_eq {b : PB E} (hb : b.WF) :
    IndexSet b.model = {m | ∃ e, ∃ d ∈ b.spec.loc e, m = b.spec.mi d} := by
  have R := b.refines hb
  ext m
  constructor
  · rintro ⟨e, I, hI, hm⟩
    rw [localIndices_eq R e] at hI
    simp at hI; subst hI
    obtain ⟨d, hd, rfl⟩ := List.mem_map.mp hm
    exact ⟨e, d, hd, rfl⟩
  · rintro ⟨e, d, hd, rfl⟩
    exact ⟨e, _, localIndices_eq R e, List.mem_map_of_mem hd⟩

theorem indexSet_covered {b : PB E} (hb : b.WF) (hc : b.Covered (fun _ => True)) :
    IndexSet b.model = {m | ∃ d ∈ b.spec.dofs, m = b.spec.mi d} := by
  have R := b.refines hb
  rw [indexSet_eq hb]
  ext m
  constructor
  · rintro ⟨e, d, hd, rfl⟩; exact ⟨d, R.locMem e d hd, rfl⟩
  · rintro ⟨d, hd, rfl⟩
    obtain ⟨e, _, he⟩ := b.covered _ hc d hd
    exact ⟨e, d, he, rfl⟩

/-- The digits following a proper prefix `p` of some multi-index are exactly
`0, ..., size(p)-1`. (For the empty prefix existence of an index follows from non-emptiness.) -/
theorem C03_complete (b : PB E) (hb : b.WF) (hpos : b.Pos) (hcov : b.Covered (fun _ => True)) :
    (IndexSet b.model).Nonempty ∧
    ∀ p, (∃ m ∈ IndexSet b.model, p <+: m) →
      ∃ n, b.model.size p = some n ∧ ∀ x, x < n ↔ ∃ m ∈ IndexSet b.model, p ++ [x] <+: m := by
  have R := b.refines hb
  have C := b.complete hb hpos
  rw [indexSet_covered hb hcov]
  refine ⟨?_, ?_⟩
  · obtain ⟨d, hd⟩ := List.exists_mem_of_ne_nil _ C.nonempty
    exact ⟨_, d, hd, rfl⟩
  · rintro p ⟨m, ⟨d, hd, rfl⟩, hp⟩
    have hex : ∃ n, b.model.size p = some n := by
      obtain ⟨t, ht⟩ := hp
      cases t with
      | nil =>
        simp at ht
        exact ⟨0, by rw [ht]; exact R.sizeFull d hd⟩
      | cons x t =>
        obtain ⟨n, hn, _⟩ := R.sizeLt d hd p x ⟨t, by simp [← ht]⟩
        exact ⟨n, hn⟩
    obtain ⟨n, hn⟩ := hex
    refine ⟨n, hn, fun x => ⟨?_, ?_⟩⟩
    · intro hx
      obtain ⟨d', hd', h'⟩ := C.digits d hd p hp n hn x hx
      exact ⟨_, ⟨d', hd', rfl⟩, h'⟩
    · rintro ⟨m, ⟨d', hd', rfl⟩, h'⟩
      obtain ⟨n', hn', hx⟩ := R.sizeLt d' hd' p x h'
      rw [hn] at hn'; simp at hn'; omega

example := C03_complete exTree exTree_WF exTree_Pos exTree_Covered

/-! ## C04 -/

/-- No multi-index is a strict prefix of another one. -/
theorem C04_prefixFree (b : PB E) (hb : b.WF) :
    ∀ m ∈ IndexSet b.model, ∀ m' ∈ IndexSet b.model, m <+: m' → m = m' := by
  have R := b.refines hb
  rw [indexSet_eq hb]
  rintro m ⟨e, d, hd, rfl⟩ m' ⟨e', d', hd', rfl⟩ h
  rw [R.prefixFree d (R.locMem e d hd) d' (R.locMem e' d' hd') h]

example := C04_prefixFree exTree exTree_WF

/-! ## C05 -/

/-- `dimension()` is the number of multi-indices. -/
theorem C05_dimension (b : PB E) (hb : b.WF) (hcov : b.Covered (fun _ => True)) :
    b.model.dimension = (IndexSet b.model).ncard := by
  have R := b.refines hb
  rw [indexSet_covered hb hcov, R.dim]
  have : {m | ∃ d ∈ b.spec.dofs, m = b.spec.mi d} = b.spec.mi '' {d | d ∈ b.spec.dofs} := by
    ext m; simp [eq_comm]
  have hinj : Set.InjOn b.spec.mi {d | d ∈ b.spec.dofs} := fun d hd d' hd' h =>
    R.prefixFree d hd d' hd' (by rw [h])
  rw [this, hinj.ncard_image, ← List.toFinset_card_of_nodup R.nodup, ← Set.ncard_coe_finset]
  congr 1
  ext d; simp

example : exTree.model.dimension = 12 ∧ (IndexSet exTree.model).ncard = 12 :=
  ⟨by decide, by rw [← C05_dimension exTree exTree_WF exTree_Covered]; decide⟩

/-! ## C06 -/

/-- Lengths are within the static bounds. Capacity: `localIndices` runs the in-place assembly with
index type capacity `multiIndexBufferSize`; any push beyond it would give `none`. -/
theorem C06_length (b : PB E) (hb : b.WF) (e : E) :
    ∃ I, localIndices b.model e = some I ∧ ∀ m ∈ I,
      b.model.minLen ≤ m.length ∧ m.length ≤ b.model.maxLen ∧ b.model.maxLen ≤ b.model.bufLen := by
  have R := b.refines hb
  refine ⟨_, localIndices_eq R e, ?_⟩
  intro m hm
  obtain ⟨d, hd, rfl⟩ := List.mem_map.mp hm
  have hd' := R.locMem e d hd
  exact ⟨R.lenMin d hd', R.lenMax d hd', R.maxBuf⟩

/-- The buffer bound is needed: with a capacity below `multiIndexBufferSize` the assembly of the
example overflows. -/
example : exTree.model.bufLen = 3 ∧
    exTree.model.indices 2 (Node.bindTree true 0 exTree.model.makeNode) (List.replicate 10 []) 0 = none := by
  decide +kernel

/-! ## C07 -/

/-- Filling the indices of a tree bound to `e` (with any offset and any previous state of the
nodes) writes exactly the `node.size()` entries from the iterator position on, leaves all others
unchanged, returns the position behind them, and the written values are those of a new view. -/
theorem C07_fill (b : PB E) (hb : b.WF) (e : E) (off : Nat) (node : Node E)
    (hnode : node.blank = b.model.makeNode.blank) (pre mid post : Buf)
    (hmid : mid.length = (Node.bindTree e off node).size) :
    ∃ I, localIndices b.model e = some I ∧ I.length = (Node.bindTree e off node).size ∧
      b.model.indices b.model.bufLen (Node.bindTree e off node) (pre ++ mid ++ post) pre.length
        = some (pre ++ I ++ post, pre.length + (Node.bindTree e off node).size) := by
  have R := b.refines hb
  have hs := R.nodeSize e off node hnode
  refine ⟨_, localIndices_eq R e, by simp [hs], ?_⟩
  rw [R.fill _ (Nat.le_refl _) e off node hnode pre mid post (by rw [hmid, hs]), hs]

example := C07_fill exTree exTree_WF false 5 (Node.bindTree true 7 exTree.model.makeNode)
  (Node.blank_bindTree _ _ _) [[9],[8,8]] [[1],[2],[3,3,3],[4]] [[7]] (by decide)

/-! ## C08 -/

/-- Power bases: the indices of a power basis are those of the sub-basis, once per child, changed
as documented for the merging strategy. -/
theorem C08_power (s : IMS) (c : Nat) (sub : PB E) (hb : (PB.power s c sub).WF) (e : E) :
    ∃ I n, localIndices sub.model e = some I ∧ sub.model.size [] = some n ∧
      localIndices (PB.power s c sub).model e
        = some ((List.range c).flatMap fun k => I.map (s.merge c n k)) := by
  have hsub : sub.WF := by rw [PB.WF] at hb; exact hb.2
  have R := sub.refines hsub
  have R' := (PB.power s c sub).refines hb
  refine ⟨_, _, localIndices_eq R e, R.root, ?_⟩
  rw [localIndices_eq R' e]
  simp only [PB.spec]
  have hloc : (specPower s c sub.spec).loc e
      = (List.range c).flatMap fun k => (sub.spec.loc e).map (k :: ·) := rfl
  rw [hloc, List.map_flatMap]
  congr 2
  funext k
  simp only [List.map_map]
  rfl

/-- Documented merging for composite bases with children indices `Is` and root sizes `ns`. -/
def compositeMerge (blocked : Bool) : Nat → List (List MI × Nat) → List MI
  | _, [] => []
  | k, (I, n) :: rest =>
    if blocked then I.map (k :: ·) ++ compositeMerge blocked (k+1) rest
    else I.map (onFirst (· + k)) ++ compositeMerge blocked (k+n) rest

theorem compositeMerge_eq (blocked : Bool) (e : E) (k : Nat) (sps : List (Spec E)) :
    compositeMerge blocked k (sps.map fun sp => ((sp.loc e).map sp.mi, sp.root))
      = compList blocked e k sps := by
  induction sps generalizing k with
  | nil => rfl
  | cons sp sps ih =>
    cases blocked with
    | true =>
      simp only [List.map_cons, compositeMerge, if_true, compList, ih, List.map_map]; rfl
    | false =>
      simp only [List.map_cons, compositeMerge, Bool.false_eq_true, if_false, compList, ih, List.map_map]
      rfl

/-- Composite bases: child `k`'s indices get `k` prepended (blocked), or the sum of the sizes of the
preceding children added to the first digit (flat). -/
theorem C08_composite (blocked : Bool) (subs : List (PB E)) (hb : (PB.composite blocked subs).WF)
    (e : E) :
    ∃ cs : List (List MI × Nat),
      List.Forall₂ (fun (b : PB E) (c : List MI × Nat) =>
        localIndices b.model e = some c.1 ∧ b.model.size [] = some c.2) subs cs ∧
      localIndices (PB.composite blocked subs).model e = some (compositeMerge blocked 0 cs) := by
  have R' := (PB.composite blocked subs).refines hb
  rw [PB.WF] at hb
  have R := PB.refinesL subs hb.2
  refine ⟨(PB.specs subs).map fun sp => ((sp.loc e).map sp.mi, sp.root), ?_, ?_⟩
  · have hw := hb.2
    clear hb R' R
    induction subs with
    | nil => exact .nil
    | cons b bs ih =>
      rw [PB.WFs] at hw
      have Rb := b.refines hw.1
      exact .cons ⟨localIndices_eq Rb e, Rb.root⟩ (ih hw.2)
  · rw [localIndices_eq R' e, compositeMerge_eq]
    have hc := compList_eq blocked e (PB.specs subs) (PB.specs subs) 0 (by simp)
    simp only [offs, List.take_zero, List.map_nil, List.sum_nil, ite_self] at hc
    rw [hc]; rfl

example := C08_power .flatInt 3 (.leaf exLeaf) (by simp [PB.WF, exLeaf]) true
example : localIndices (PB.power .flatInt 3 (.leaf exLeaf)).model true
    = some [[0],[3],[1],[4],[2],[5]] := by decide +kernel
example := C08_composite false [.leaf exLeaf, .leaf exLeaf2] (by simp [PB.WF, PB.WFs, exLeaf, exLeaf2]) true

/-! ## C09 -/

/-- A view that is bound to `e` looks like a fresh view bound to `e`: same size, same multi-indices,
same offsets, sizes, tree indices and elements of all nodes. -/
def LooksLikeFresh (pb : PreBasis E) (e : E) (lv : LocalView E) : Prop :=
  ∃ lv0, (LocalView.fresh pb).bind pb e = some lv0 ∧ lv.indices = lv0.indices ∧
    lv.size = lv0.size ∧ lv.tree.obs = lv0.tree.obs

/-- Invariant of all views of a basis. -/
def LVInv (pb : PreBasis E) (sp : Spec E) (lv : LocalView E) : Prop :=
  lv.tree.skel = (LocalView.fresh pb).tree.skel ∧ lv.tree.blank = pb.makeNode.blank ∧
  ∀ e, lv.element = some e → lv.indices = (sp.loc e).map sp.mi ∧
    ∃ n, n.skel = (LocalView.fresh pb).tree.skel ∧ n.blank = pb.makeNode.blank ∧
      lv.tree = Node.bindTree e 0 n

theorem LVInv.fresh (pb : PreBasis E) (sp : Spec E) : LVInv pb sp (LocalView.fresh pb) :=
  ⟨rfl, LocalView.fresh_blank pb, fun e h => by simp [LocalView.fresh] at h⟩

theorem LVInv.bind {pb : PreBasis E} {sp : Spec E} (R : Refines pb sp) {lv : LocalView E}
    (h : LVInv pb sp lv) (e : E) : ∃ lv', lv.bind pb e = some lv' ∧ LVInv pb sp lv' ∧
      lv'.element = some e := by
  refine ⟨_, LocalView.bind_eq R lv h.2.1 e, ⟨?_, ?_, ?_⟩, rfl⟩
  · rw [Node.skel_bindTree]; exact h.1
  · rw [Node.blank_bindTree]; exact h.2.1
  · intro e' he'
    simp at he'; subst he'
    exact ⟨rfl, lv.tree, h.1, h.2.1, rfl⟩

/-- The abstract effect of the operations: which view is bound to which element. -/
def absStep (s : List (Option E)) : LVOp E → Option (List (Option E))
  | .new => some (s ++ [none])
  | .copy i => (s[i]?).bind fun x => some (s ++ [x])
  | .bind i e => (s[i]?).bind fun _ => some (s.set i (some e))
  | .unbind i => (s[i]?).bind fun _ => some (s.set i none)

def absRun : List (Option E) → List (LVOp E) → Option (List (Option E))
  | s, [] => some s
  | s, op :: ops => (absStep s op).bind fun s' => absRun s' ops

theorem stepLV_refines {pb : PreBasis E} {sp : Spec E} (R : Refines pb sp)
    (s : List (LocalView E)) (hs : ∀ lv ∈ s, LVInv pb sp lv) (op : LVOp E) (a : List (Option E))
    (ha : absStep (s.map (·.element)) op = some a) :
    ∃ s', stepLV pb s op = some s' ∧ (∀ lv ∈ s', LVInv pb sp lv) ∧ s'.map (·.element) = a := by
  cases op with
  | new =>
    simp [absStep] at ha
    refine ⟨_, rfl, ?_, ?_⟩
    · intro lv hlv
      rcases List.mem_append.mp hlv with h | h
      · exact hs lv h
      · simp at h; subst h; exact LVInv.fresh pb sp
    · simp [← ha, LocalView.fresh]
  | copy i =>
    simp only [absStep, List.getElem?_map, Option.bind_eq_some_iff, Option.map_eq_some_iff] at ha
    obtain ⟨x, ⟨lv, hlv, rfl⟩, ha⟩ := ha
    simp at ha
    have hinv := hs lv (List.mem_of_getElem? hlv)
    have : ∃ lv', lv.copy pb = some lv' ∧ LVInv pb sp lv' ∧ lv'.element = lv.element := by
      cases he : lv.element with
      | none =>
        exact ⟨_, by simp [LocalView.copy, he], LVInv.fresh pb sp, rfl⟩
      | some e =>
        obtain ⟨lv', h1, h2, h3⟩ := (LVInv.fresh pb sp).bind R e
        exact ⟨lv', by simp [LocalView.copy, he, h1], h2, h3⟩
    obtain ⟨lv', h1, h2, h3⟩ := this
    refine ⟨s ++ [lv'], by simp [stepLV, hlv, h1], ?_, by simp [← ha, h3]⟩
    intro l hl
    rcases List.mem_append.mp hl with h | h
    · exact hs l h
    · simp at h; subst h; exact h2
  | bind i e =>
    simp only [absStep, List.getElem?_map, Option.bind_eq_some_iff, Option.map_eq_some_iff] at ha
    obtain ⟨x, ⟨lv, hlv, rfl⟩, ha⟩ := ha
    simp at ha
    obtain ⟨lv', h1, h2, h3⟩ := (hs lv (List.mem_of_getElem? hlv)).bind R e
    refine ⟨s.set i lv', by simp [stepLV, hlv, h1], ?_, by simp [← ha, List.map_set, h3]⟩
    intro l hl
    rcases List.mem_or_eq_of_mem_set hl with h | h
    · exact hs l h
    · subst h; exact h2
  | unbind i =>
    simp only [absStep, List.getElem?_map, Option.bind_eq_some_iff, Option.map_eq_some_iff] at ha
    obtain ⟨x, ⟨lv, hlv, rfl⟩, ha⟩ := ha
    simp at ha
    refine ⟨s.set i lv.unbind, by simp [stepLV, hlv], ?_, by simp [← ha, List.map_set, LocalView.unbind]⟩
    intro l hl
    rcases List.mem_or_eq_of_mem_set hl with h | h
    · exact hs l h
    · subst h
      have hinv := hs lv (List.mem_of_getElem? hlv)
      exact ⟨hinv.1, hinv.2.1, fun e he => by simp [LocalView.unbind] at he⟩

/-- The invariant holds for all views after any history. -/
theorem runLV_inv {pb : PreBasis E} {sp : Spec E} (R : Refines pb sp) :
    ∀ (ops : List (LVOp E)) (s : List (LocalView E)) (a : List (Option E)),
      (∀ lv ∈ s, LVInv pb sp lv) → absRun (s.map (·.element)) ops = some a →
      ∃ s', runLV pb s ops = some s' ∧ s'.map (·.element) = a ∧ ∀ lv ∈ s', LVInv pb sp lv := by
  intro ops
  induction ops with
  | nil =>
    intro s a hs ha
    simp [absRun] at ha
    exact ⟨s, rfl, ha, hs⟩
  | cons op ops ih =>
    intro s a hs ha
    simp only [absRun, Option.bind_eq_some_iff] at ha
    obtain ⟨a1, ha1, ha⟩ := ha
    obtain ⟨s1, h1, h2, h3⟩ := stepLV_refines R s hs op a1 ha1
    obtain ⟨s', h4, h5, h6⟩ := ih s1 a h2 (by rw [h3]; exact ha)
    exact ⟨s', by simp [runLV, h1, h4], h5, h6⟩

/-- Histories: for every sequence of creating, copying, binding and unbinding local views that refers
to existing views, no operation is undefined, the views are bound to the elements the history says
(in particular a copy does not affect the original), and each bound view looks like a fresh view
bound to that element. -/
theorem C09_history (b : PB E) (hb : b.WF) (ops : List (LVOp E)) (a : List (Option E))
    (ha : absRun [] ops = some a) :
    ∃ s, runLV b.model [] ops = some s ∧ s.map (·.element) = a ∧
      ∀ lv ∈ s, ∀ e, lv.element = some e → LooksLikeFresh b.model e lv := by
  have R := b.refines hb
  obtain ⟨s, h1, h2, h3⟩ := runLV_inv R ops [] a (by simp) ha
  refine ⟨s, h1, h2, ?_⟩
  intro lv hlv e he
  obtain ⟨hi, n, hn1, hn2, hn3⟩ := (h3 lv hlv).2.2 e he
  refine ⟨_, LocalView.bind_eq R _ (LocalView.fresh_blank _) e, hi, ?_, ?_⟩
  · simp only [LocalView.size, hn3]
    rw [R.nodeSize e 0 n hn2, R.nodeSize e 0 _ (LocalView.fresh_blank _)]
  · rw [hn3]
    refine Node.obs_bindTree e 0 _ _ ?_ ?_ hn1
    · exact Node.leafy_of_blank _ _ hn2 R.leafy
    · exact Node.leafy_of_blank _ _ (LocalView.fresh_blank _) R.leafy

example := C09_history exTree exTree_WF
  [.new, .bind 0 true, .copy 0, .bind 0 false, .unbind 1, .bind 1 true, .copy 1] _ rfl

/-! ## C10 -/

/-- On any tree bound to an element, the local indices of the leaves in tree order are exactly
`off, off+1, ..., off+size-1` (`off = 0` for the root), and each inner node covers exactly the
consecutive ranges of its children. -/
theorem C10_localIndices (e : E) (off : Nat) (n : Node E) :
    (Node.bindTree e off n).leafIndices
      = (List.range' off (Node.bindTree e off n).size).map some ∧
    (Node.bindTree e off n).Tiled :=
  ⟨Node.leafIndices_bindTree e off n, Node.tiled_bindTree e off n⟩

/-- Tree indices are consecutive in pre-order and not changed by binding. -/
theorem C10_treeIndices (n : Node E) (es : List E) :
    (es.foldl (fun n e => Node.bindTree e 0 n) (Node.initializeTree 0 n).1).treeIndices
      = List.range n.count := by
  have : ∀ (es : List E) (m : Node E),
      (es.foldl (fun n e => Node.bindTree e 0 n) m).treeIndices = m.treeIndices := by
    intro es
    induction es with
    | nil => intro m; rfl
    | cons e es ih => intro m; simp [ih, Node.treeIndices_bindTree]
  rw [this, (Node.treeIndices_initializeTree 0 n).1, List.range_eq_range']

example : (Node.bindTree true 0 exTree.model.makeNode).size = 10 ∧
    (LocalView.fresh exTree.model).tree.treeIndices = [0,1,2,3,4,5,6,7] := by decide +kernel

/-! ## C11 -/

/-- The local size never exceeds `maxSize()`; it is the number of multi-indices. -/
theorem C11_maxSize (b : PB E) (hb : b.WF) (e : E) :
    ∃ lv, (LocalView.fresh b.model).bind b.model e = some lv ∧ lv.size = lv.indices.length ∧
      lv.size ≤ b.model.maxNodeSize := by
  have R := b.refines hb
  refine ⟨_, LocalView.bind_eq R _ (LocalView.fresh_blank _) e, ?_, ?_⟩
  · simp [LocalView.size, R.nodeSize e 0 _ (LocalView.fresh_blank _)]
  · simp only [LocalView.size, R.nodeSize e 0 _ (LocalView.fresh_blank _)]
    exact R.maxN e

example := C11_maxSize exTree exTree_WF true

/-! ## C14 -/

mutual
/-- All nodes of a tree have size 0. -/
def Node.AllEmpty : Node E → Prop
  | .mk d c => d.size = 0 ∧ Node.AllEmptyList c
def Node.AllEmptyList : List (Node E) → Prop
  | [] => True
  | n :: ns => n.AllEmpty ∧ Node.AllEmptyList ns
end

mutual
theorem Node.allEmpty_emptyAll (off : Nat) : (n : Node E) → (Node.emptyAll off n).AllEmpty
  | .mk d c => by
    rw [Node.emptyAll, Node.AllEmpty]
    exact ⟨rfl, Node.allEmptyList_emptyAllList off c⟩
theorem Node.allEmptyList_emptyAllList (off : Nat) : (l : List (Node E)) →
    Node.AllEmptyList (Node.emptyAllList off l)
  | [] => trivial
  | n :: ns => by
    rw [Node.emptyAllList, Node.AllEmptyList]
    exact ⟨Node.allEmpty_emptyAll off n, Node.allEmptyList_emptyAllList off ns⟩
end

/-- A restricted basis has no functions outside the subdomain, and the indices and sizes of the
sub-domain basis inside. -/
theorem C14_restricted (contains : E → Bool) (b : PB E) (hb : b.WF) (e : E) :
    localIndices (PB.restricted contains b).model e
      = (if contains e then localIndices b.model e else some []) ∧
    (∀ p, (PB.restricted contains b).model.size p = b.model.size p) ∧
    (PB.restricted contains b).model.dimension = b.model.dimension := by
  have R := b.refines hb
  have R' := (PB.restricted contains b).refines (by rw [PB.WF]; exact hb)
  refine ⟨?_, fun p => by simp [PB.model, restrictedPB], by simp [PB.model, restrictedPB]⟩
  rw [localIndices_eq R e, localIndices_eq R' e]
  simp only [PB.spec, specRestricted]
  split <;> simp

/-- The tree of a restricted basis bound outside the subdomain is empty in all its nodes, wherever it
is placed (any offset) and whatever it was bound to before; inside it is bound like the tree of the
sub-domain basis. -/
theorem C14_restricted_tree (contains : E → Bool) (n : Node E) (e : E) (off : Nat) :
    (contains e = false → (Node.bindTree e off (addFilter contains n)).AllEmpty) ∧
    (contains e = true →
      (Node.bindTree e off (addFilter contains n)).obs = (Node.bindTree e off n).obs) := by
  constructor
  · intro h
    rw [Node.bindTree_addFilter_false _ _ _ _ h]
    exact Node.allEmpty_emptyAll off _
  · intro h
    rw [Node.bindTree_addFilter_true _ _ _ _ h]
    cases Node.bindTree e off n
    rfl

example : localIndices (PB.restricted id (PB.leaf exLeaf)).model false = some [] := by decide +kernel

end Verif.IndexTree

import Verif.IndexTree.Periodic
import Verif.IndexTree.Props

/-!
# Bases with transformed indices

Model of `TransformedIndexPreBasis` with `GenericIndexingTransformation` (dune/functions/functionspacebases/transformedindexbasis.hh).
-/

namespace Verif.Transformed

open Verif.IndexTree

variable {E : Type}

/-! ## Model -/

/-- `GenericIndexingTransformation`, transformedindexbasis.hh:229-272: the lengths are template parameters, the callbacks are passed by the user. `transform cap`
changes a multi-index with capacity `cap` in place; `none` for undefined behaviour. The second argument of the callbacks, the wrapped pre-basis, is fixed. -/
structure Transformation where
  minLen : Nat
  maxLen : Nat
  transform : Nat → MI → Option MI
  size : MI → Option Nat

/-- `TransformedIndexPreBasis`, transformedindexbasis.hh:50-173. `indices` (157-167): the wrapped basis writes its multi-indices, then they are transformed in place, one for each
function of the node. `dimension()` (132-135, 256-260) and `maxNodeSize()` (138-141) are those of the wrapped basis. -/
def transformedPB (raw : PreBasis E) (τ : Transformation) : PreBasis E where
  minLen := τ.minLen
  maxLen := τ.maxLen
  bufLen := max raw.bufLen τ.maxLen
  dimension := raw.dimension
  maxNodeSize := raw.maxNodeSize
  size := τ.size
  makeNode := raw.makeNode
  indices := fun cap node buf pos =>
    (raw.indices cap node buf pos).bind fun st =>
    (forLoop node.size (fun i buf => update buf (pos + i) (τ.transform cap)) st.1).bind
      fun buf => some (buf, pos + node.size)

/-! ## Specification -/

/-- What the user has to provide: `T m` is the wanted multi-index for each multi-index `m` of the wrapped basis; the first callback computes it, in multi-indices that can store
both, and the second one describes the resulting index tree. Different multi-indices are transformed to different ones, neither of which is a prefix of the other. -/
structure Consistent (raw : PreBasis E) (D : MI → Prop) (τ : Transformation) (T : MI → MI) (root : Nat) : Prop where
  minPos : 1 ≤ τ.minLen
  minMax : τ.minLen ≤ τ.maxLen
  transform : ∀ cap, raw.bufLen ≤ cap → τ.maxLen ≤ cap → ∀ m, D m → τ.transform cap m = some (T m)
  len : ∀ m, D m → τ.minLen ≤ (T m).length ∧ (T m).length ≤ τ.maxLen
  prefixFree : ∀ m m', D m → D m' → T m <+: T m' → m = m'
  root : τ.size [] = some root
  sizeLt : ∀ m, D m → ∀ p x, p ++ [x] <+: T m → ∃ n, τ.size p = some n ∧ x < n
  sizeFull : ∀ m, D m → τ.size (T m) = some 0

/-- The functions of the wrapped basis with new multi-indices. -/
def specTransformed (sp : Spec E) (T : MI → MI) (root : Nat) : Spec E where
  dofs := sp.dofs
  loc := sp.loc
  mi := fun d => T (sp.mi d)
  root := root

/-- The multi-indices of all functions of a basis. -/
def Dofs (sp : Spec E) (m : MI) : Prop := ∃ d ∈ sp.dofs, sp.mi d = m

/-! ## Proof -/

theorem transformed_refines {raw : PreBasis E} {sp : Spec E} (R : Refines raw sp) {τ : Transformation} {T : MI → MI} {root : Nat}
    (C : Consistent raw (Dofs sp) τ T root) : Refines (transformedPB raw τ) (specTransformed sp T root) := by
  refine
    { minPos := C.minPos, minMax := C.minMax, maxBuf := Nat.le_max_right _ _,
      nodup := R.nodup, locMem := R.locMem, dim := R.dim, maxN := R.maxN,
      lenMin := fun d hd => (C.len _ ⟨d, hd, rfl⟩).1, lenMax := fun d hd => (C.len _ ⟨d, hd, rfl⟩).2, prefixFree := ?_, root := C.root,
      sizeLt := fun d hd => C.sizeLt _ ⟨d, hd, rfl⟩, sizeFull := fun d hd => C.sizeFull _ ⟨d, hd, rfl⟩, leafy := R.leafy, nodeSize := R.nodeSize,
      filterIrrel := ?_, fill := ?_ }
  · intro d hd d' hd' hp
    have := C.prefixFree _ _ ⟨d, hd, rfl⟩ ⟨d', hd', rfl⟩ hp
    exact R.prefixFree d hd d' hd' (by rw [this])
  · intro cap g nd buf pos
    simp only [transformedPB, R.filterIrrel, Node.addFilter_size]
  · intro cap hcap e off m hm pre mid post hmid
    have hcap' : max raw.bufLen τ.maxLen ≤ cap := hcap
    have hraw := R.fill cap (by omega) e off m hm pre mid post hmid
    have hsz := R.nodeSize e off m hm
    simp only [transformedPB, hraw, Option.bind_some]
    have hb := blockLoop pre ((sp.loc e).map sp.mi) post (τ.transform cap) T (by
        intro mi hmi
        obtain ⟨d, hd, rfl⟩ := List.mem_map.mp hmi
        exact C.transform cap (by omega) (by omega) _ ⟨d, R.locMem e d hd, rfl⟩)
    rw [List.length_map] at hb
    rw [hsz, hb]
    simp [specTransformed, Function.comp_def]

/-- A transformed basis as part of a basis tree. -/
def transformed (b : PB E) (τ : Transformation) (T : MI → MI) (root : Nat) : PB E := .ext (transformedPB b.model τ) (specTransformed b.spec T root)

/-! ## Theorems -/

/-- **C75.** For a consistent transformation of any basis (also of one with transformed indices), the transformed basis has on each element the transformed multi-indices in the same order,
the sizes given by the callback, and the dimension of the wrapped basis; it satisfies the contract of all index properties, so these hold for it and for all bases it is a part of.
The template parameter for the maximal length need not be as large as the untransformed multi-indices. -/
theorem C75 (b : PB E) (hb : b.WF) (τ : Transformation) (T : MI → MI) (root : Nat) (C : Consistent b.model (Dofs b.spec) τ T root) :
    (transformed b τ T root).WF ∧
    (∀ e, ∃ I, localIndices b.model e = some I ∧ localIndices (transformed b τ T root).model e = some (I.map T)) ∧
    (transformed b τ T root).model.dimension = b.model.dimension ∧ (transformed b τ T root).model.size = τ.size := by
  have R := transformed_refines (b.refines hb) C
  refine ⟨R, fun e => ⟨_, localIndices_eq (b.refines hb) e, ?_⟩, rfl, rfl⟩
  rw [show (transformed b τ T root).model = transformedPB b.model τ from rfl, localIndices_eq R e]
  simp [specTransformed]

/-- **C75, index sets.** The multi-indices of the transformed basis are the transformed ones; if all functions of the wrapped basis belong to an element, there are as many as
`dimension()` says. -/
theorem C75_indexSet (b : PB E) (hb : b.WF) (τ : Transformation) (T : MI → MI) (root : Nat) (C : Consistent b.model (Dofs b.spec) τ T root) :
    IndexSet (transformed b τ T root).model = T '' IndexSet b.model ∧
    (b.Covered (fun _ => True) → (transformed b τ T root).model.dimension = (IndexSet (transformed b τ T root).model).ncard) := by
  obtain ⟨hwf, _, hdim, _⟩ := C75 b hb τ T root C
  have h1 : IndexSet (transformed b τ T root).model = T '' IndexSet b.model := by
    rw [indexSet_eq hwf, indexSet_eq hb]
    ext m
    constructor
    · rintro ⟨e, d, hd, rfl⟩
      exact ⟨_, ⟨e, d, hd, rfl⟩, rfl⟩
    · rintro ⟨_, ⟨e, d, hd, rfl⟩, rfl⟩
      exact ⟨e, d, hd, rfl⟩
  refine ⟨h1, fun hcov => ?_⟩
  rw [hdim, C05_dimension b hb hcov, h1]
  refine (Set.InjOn.ncard_image ?_).symm
  rw [indexSet_eq hb]
  rintro _ ⟨e, d, hd, rfl⟩ _ ⟨e', d', hd', rfl⟩ h
  exact C.prefixFree _ _ ⟨d, (b.refines hb).locMem e d hd, rfl⟩ ⟨d', (b.refines hb).locMem e' d' hd', rfl⟩ (by rw [h])

/-- The callback `std::rotate(mi.begin(), mi.begin()+1, mi.end())`: the first digit becomes the last one. -/
def rotate (_ : Nat) : MI → Option MI
  | [] => none
  | k :: m => some (m ++ [k])

/-- The blockwise lexicographic numbering rearranged to the blockwise interleaved one. -/
def rotateBlocks (c : Nat) (sub : PB E) : Transformation where
  minLen := sub.model.minLen + 1
  maxLen := sub.model.maxLen + 1
  transform := rotate
  size := (PB.power .blockedInt c sub).model.size

theorem rotate_consistent (c : Nat) (hc : 0 < c) (sub : PB E) (hs : sub.WF) :
    Consistent (PB.power .blockedLex c sub).model (Dofs (PB.power .blockedLex c sub).spec) (rotateBlocks c sub) (fun m => m.tail ++ m.take 1)
      sub.spec.root := by
  have R := sub.refines hs
  have RB := (PB.power .blockedInt c sub).refines ⟨hc, hs⟩
  have hD : ∀ m, Dofs (PB.power .blockedLex c sub).spec m → ∃ k d, d ∈ sub.spec.dofs ∧ m = k :: sub.spec.mi d ∧
      (k :: d) ∈ (PB.power .blockedInt c sub).spec.dofs := by
    rintro m ⟨d, hd, rfl⟩
    simp only [PB.spec, specPower, List.mem_flatMap, List.mem_map, List.mem_range] at hd
    obtain ⟨k, hk, d', hd', rfl⟩ := hd
    refine ⟨k, d', hd', rfl, ?_⟩
    simp only [PB.spec, specPower, List.mem_flatMap, List.mem_map, List.mem_range]
    exact ⟨k, hk, d', hd', rfl⟩
  have hmi : ∀ k d, (PB.power .blockedInt c sub).spec.mi (k :: d) = sub.spec.mi d ++ [k] := fun _ _ => rfl
  refine { minPos := Nat.le_add_left _ _, minMax := Nat.add_le_add_right R.minMax 1, transform := ?_, len := ?_, prefixFree := ?_,
           root := RB.root, sizeLt := ?_, sizeFull := ?_ }
  · intro cap _ _ m hm
    obtain ⟨k, d, hd, rfl, _⟩ := hD m hm
    rfl
  · intro m hm
    obtain ⟨k, d, hd, rfl, _⟩ := hD m hm
    have h1 := R.lenMin d hd
    have h2 := R.lenMax d hd
    simp [rotateBlocks]
    omega
  · intro m m' hm hm' hp
    obtain ⟨k, d, hd, rfl, hkd⟩ := hD m hm
    obtain ⟨k', d', hd', rfl, hkd'⟩ := hD m' hm'
    have := RB.prefixFree _ hkd _ hkd' (by rw [hmi, hmi]; exact hp)
    injection this with h1 h2
    rw [h1, h2]
  · intro m hm p x hp
    obtain ⟨k, d, hd, rfl, hkd⟩ := hD m hm
    exact RB.sizeLt _ hkd p x (by rw [hmi]; exact hp)
  · intro m hm
    obtain ⟨k, d, hd, rfl, hkd⟩ := hD m hm
    have := RB.sizeFull _ hkd
    rw [hmi] at this
    exact this

/-- **C75, rearranging blocks.** Moving the first digit to the end turns the blockwise lexicographic power basis into the blockwise interleaved one, for all wrapped bases. -/
theorem C75_rotate (c : Nat) (hc : 0 < c) (sub : PB E) (hs : sub.WF) :
    let t := transformed (.power .blockedLex c sub) (rotateBlocks c sub) (fun m => m.tail ++ m.take 1) sub.spec.root
    let i := PB.power .blockedInt c sub
    t.WF ∧ (∀ e, localIndices t.model e = localIndices i.model e) ∧ t.model.size = i.model.size ∧ t.model.dimension = i.model.dimension := by
  intro t i
  have hl : (PB.power .blockedLex c sub).WF := ⟨hc, hs⟩
  have hi : i.WF := ⟨hc, hs⟩
  obtain ⟨h1, h2, h3, h4⟩ := C75 _ hl _ _ _ (rotate_consistent c hc sub hs)
  refine ⟨h1, fun e => ?_, h4, ?_⟩
  · rw [show t.model = transformedPB (PB.power .blockedLex c sub).model (rotateBlocks c sub) from rfl,
      localIndices_eq (transformed_refines (PB.refines _ hl) (rotate_consistent c hc sub hs)) e, localIndices_eq (i.refines hi) e]
    congr 1
    apply List.map_congr_left
    intro d hd
    simp only [specTransformed, PB.spec, specPower, List.mem_flatMap, List.mem_map] at hd
    obtain ⟨k, _, d', _, rfl⟩ := hd
    rfl
  · exact h3

/-- The callback `mi[0] = permutation[mi[0]]`. -/
def renumber (π : Nat → Nat) (_ : Nat) : MI → Option MI
  | [] => none
  | x :: m => some (π x :: m)

/-- Renumbering of the first digit; `size(prefix)` asks the wrapped basis with the original digit. -/
def renumberFirst (raw : PreBasis E) (π πi : Nat → Nat) : Transformation where
  minLen := raw.minLen
  maxLen := raw.maxLen
  transform := renumber π
  size := fun p => raw.size (onFirst πi p)

/-- **C75, renumbering.** A permutation of the first digits of any basis is consistent. -/
theorem C75_renumber (b : PB E) (hb : b.WF) (π πi : Nat → Nat) (h1 : ∀ x < b.spec.root, π x < b.spec.root) (h2 : ∀ x, πi (π x) = x) :
    Consistent b.model (Dofs b.spec) (renumberFirst b.model π πi) (onFirst π) b.spec.root := by
  have R := b.refines hb
  have hD : ∀ m, Dofs b.spec m → ∃ x r, m = x :: r ∧ x < b.spec.root := by
    rintro m ⟨d, hd, rfl⟩
    have hl := R.lenMin d hd
    have hp := R.minPos
    cases hm : b.spec.mi d with
    | nil => rw [hm] at hl; simp at hl; omega
    | cons x r =>
      obtain ⟨n, hn, hx⟩ := R.sizeLt d hd [] x (by rw [hm]; exact ⟨r, rfl⟩)
      rw [R.root] at hn; injection hn with hn
      exact ⟨x, r, rfl, by omega⟩
  refine { minPos := R.minPos, minMax := R.minMax, transform := ?_, len := ?_, prefixFree := ?_,
           root := R.root, sizeLt := ?_, sizeFull := ?_ }
  · intro cap _ _ m hm
    obtain ⟨x, r, rfl, _⟩ := hD m hm
    rfl
  · intro m hm
    obtain ⟨d, hd, rfl⟩ := hm
    have : (onFirst π (b.spec.mi d)).length = (b.spec.mi d).length := by cases b.spec.mi d <;> simp [onFirst]
    rw [this]
    exact ⟨R.lenMin d hd, R.lenMax d hd⟩
  · intro m m' hm hm' hp
    obtain ⟨x, r, rfl, _⟩ := hD m hm
    obtain ⟨x', r', rfl, _⟩ := hD m' hm'
    simp only [onFirst, List.cons_prefix_cons] at hp
    have hx : x = x' := by rw [← h2 x, hp.1, h2]
    obtain ⟨d, hd, hdm⟩ := hm
    obtain ⟨d', hd', hdm'⟩ := hm'
    have := R.prefixFree d hd d' hd' (by rw [hdm, hdm', List.cons_prefix_cons]; exact ⟨hx, hp.2⟩)
    rw [← hdm, ← hdm', this]
  · intro m hm p y hp
    obtain ⟨x, r, rfl, hx⟩ := hD m hm
    obtain ⟨d, hd, hdm⟩ := hm
    simp only [onFirst] at hp
    cases p with
    | nil =>
      simp only [List.nil_append, List.cons_prefix_cons] at hp
      exact ⟨_, R.root, by rw [hp.1]; exact h1 x hx⟩
    | cons z p =>
      simp only [List.cons_append, List.cons_prefix_cons] at hp
      obtain ⟨n, hn, hy⟩ := R.sizeLt d hd (x :: p) y (by rw [hdm, List.cons_append, List.cons_prefix_cons]; exact ⟨rfl, hp.2⟩)
      exact ⟨n, by simp only [renumberFirst, onFirst, hp.1, h2, hn], hy⟩
  · intro m hm
    obtain ⟨x, r, rfl, hx⟩ := hD m hm
    obtain ⟨d, hd, hdm⟩ := hm
    have := R.sizeFull d hd
    rw [hdm] at this
    simp only [renumberFirst, onFirst, h2, this]

/-! ## Examples -/

def exSwap (x : Nat) : Nat := if x = 0 then 2 else if x = 2 then 0 else x
/-- Three blocks of two, the first and the last block are exchanged. -/
def exBlocks : PB Bool := .power .blockedInt 2 (.leaf exLeaf)
def exRenumbered : PB Bool := transformed exBlocks (renumberFirst exBlocks.model exSwap exSwap) (onFirst exSwap) 3
theorem exBlocks_WF : exBlocks.WF := by simp [exBlocks, PB.WF, exLeaf]
theorem exSwap_inv (x : Nat) : exSwap (exSwap x) = x := by
  by_cases h0 : x = 0
  · subst h0; rfl
  · by_cases h2 : x = 2
    · subst h2; rfl
    · simp [exSwap, h0, h2]
theorem exRenumbered_consistent : Consistent exBlocks.model (Dofs exBlocks.spec) (renumberFirst exBlocks.model exSwap exSwap) (onFirst exSwap) 3 :=
  C75_renumber exBlocks exBlocks_WF exSwap exSwap (by intro x hx; have hx : x < 3 := hx; show _ < 3; simp only [exSwap]; split_ifs <;> omega) exSwap_inv

example : exRenumbered.WF ∧
    (∀ e, ∃ I, localIndices exBlocks.model e = some I ∧ localIndices exRenumbered.model e = some (I.map (onFirst exSwap))) ∧
    exRenumbered.model.dimension = exBlocks.model.dimension ∧ exRenumbered.model.size = (renumberFirst exBlocks.model exSwap exSwap).size :=
  C75 exBlocks exBlocks_WF _ _ _ exRenumbered_consistent
example : IndexSet exRenumbered.model = onFirst exSwap '' IndexSet exBlocks.model ∧
    (exBlocks.Covered (fun _ => True) → exRenumbered.model.dimension = (IndexSet exRenumbered.model).ncard) :=
  C75_indexSet exBlocks exBlocks_WF _ _ _ exRenumbered_consistent
example : localIndices exRenumbered.model true = some [[2, 0], [1, 0], [2, 1], [1, 1]] := by decide +kernel
example : localIndices exRenumbered.model false = some [[0, 0], [1, 0], [0, 1], [1, 1]] := by decide +kernel

/-- The power basis of a renumbered basis, rearranged: all index properties hold. -/
def exNested : PB Bool := transformed (.power .blockedLex 2 exRenumbered) (rotateBlocks 2 exRenumbered) (fun m => m.tail ++ m.take 1) 3
example : exNested.WF ∧ (∀ e, localIndices exNested.model e = localIndices (PB.power .blockedInt 2 exRenumbered).model e) ∧
    exNested.model.size = (PB.power .blockedInt 2 exRenumbered).model.size ∧
    exNested.model.dimension = (PB.power .blockedInt 2 exRenumbered).model.dimension :=
  C75_rotate 2 (by omega) exRenumbered (C75 exBlocks exBlocks_WF _ _ _ exRenumbered_consistent).1
example : localIndices exNested.model true =
    some [[2, 0, 0], [1, 0, 0], [2, 1, 0], [1, 1, 0], [2, 0, 1], [1, 0, 1], [2, 1, 1], [1, 1, 1]] := by decide +kernel

/-- Transformations that identify multi-indices are not consistent: `dimension()` is still the one of the wrapped basis. -/
def exMerge : Transformation := ⟨1, 1, fun _ _ => some [0], fun p => if p.length = 0 then some 1 else some 0⟩
theorem C75_merge_false : localIndices (transformedPB (PB.leaf exLeaf).model exMerge) true = some [[0], [0]] ∧
    localIndices (transformedPB (PB.leaf exLeaf).model exMerge) false = some [[0], [0]] ∧
    (transformedPB (PB.leaf exLeaf).model exMerge).dimension = 3 := by decide +kernel

end Verif.Transformed

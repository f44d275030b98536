import Verif.Functions.RoundTrip
import Verif.Functions.NodeToRange

/-!
# Functions of composed bases

A discrete function of a basis that is built from leaf bases by `power`, `composite` and `restrict` (with any merging strategies) is a tuple
of functions of the leaf bases, and all tuples occur.
-/

namespace Verif.Product

open Verif.IndexTree Verif.Discrete Verif.RoundTrip

variable {E X K : Type} [CommRing K]

/-! ## Specification -/

/-- `L` is the leaf basis with tree path `p`, and `f` selects the elements that belong to all subdomains on the way: power bases have `c`
equal children (powerbasis.hh:110-116), composite bases their own (compositebasis.hh:152-159), restricted bases do not add to the path
(restrictedbasis.hh:142-145). -/
inductive Part : PB E → List Nat → Leaf E → (E → Bool) → Prop
  | leaf (L : Leaf E) : Part (.leaf L) [] L fun _ => true
  | power {s : IMS} {c k : Nat} {sub : PB E} {p : List Nat} {L : Leaf E} {f : E → Bool} : k < c → Part sub p L f →
      Part (.power s c sub) (k :: p) L f
  | composite {blocked : Bool} {subs : List (PB E)} {k : Nat} {b : PB E} {p : List Nat} {L : Leaf E} {f : E → Bool} :
      subs[k]? = some b → Part b p L f → Part (.composite blocked subs) (k :: p) L f
  | restricted {g : E → Bool} {sub : PB E} {p : List Nat} {L : Leaf E} {f : E → Bool} : Part sub p L f →
      Part (.restricted g sub) p L fun e => g e && f e

mutual
/-- All leaves are leaf bases with a flat index set. -/
def Plain : PB E → Prop
  | .leaf _ => True
  | .power _ _ sub => Plain sub
  | .composite _ subs => Plains subs
  | .restricted _ sub => Plain sub
  | .ext _ _ => False
def Plains : List (PB E) → Prop
  | [] => True
  | b :: bs => Plain b ∧ Plains bs
end

/-- The entry of the coefficient vector. -/
def coef (v : Vec K) (m : MI) : K := ((v m).getD [])[0]?.getD 0

/-! ## Proofs -/

theorem Part.path {b : PB E} {p : List Nat} {L : Leaf E} {f : E → Bool} (h : Part b p L f) : HasPath b p := by
  induction h with
  | leaf L => exact .nil _
  | power hk _ ih => exact .power hk ih
  | composite hk _ ih => exact .composite hk ih
  | restricted _ ih => exact .restricted ih

theorem Part.functional {b : PB E} {p : List Nat} {L L' : Leaf E} {f f' : E → Bool} (h : Part b p L f) (h' : Part b p L' f') :
    L = L' ∧ f = f' := by
  induction h generalizing L' f' with
  | leaf L => cases h'; exact ⟨rfl, rfl⟩
  | power hk _ ih => cases h' with | power _ h => exact ih h
  | composite hk _ ih =>
    cases h' with
    | composite hk' h =>
      rw [hk, Option.some.injEq] at hk'
      subst hk'
      exact ih h
  | restricted _ ih =>
    cases h' with
    | restricted h => obtain ⟨rfl, rfl⟩ := ih h; exact ⟨rfl, rfl⟩

theorem Part.wf {b : PB E} {p : List Nat} {L : Leaf E} {f : E → Bool} (h : Part b p L f) (hb : b.WF) : (PB.leaf L).WF := by
  induction h with
  | leaf L => exact hb
  | power hk _ ih => rw [PB.WF] at hb; exact ih hb.2
  | composite hk _ ih => rw [PB.WF] at hb; exact ih (WFs_get hb.2 hk)
  | restricted _ ih => rw [PB.WF] at hb; exact ih hb

theorem filter_tagged {k : Nat} {p : List Nat} {ls : List (List (List Nat))} {l : List (List Nat)} (h : ls[k]? = some l) :
    (tagged 0 ls).filter (fun d => (k :: p).isPrefixOf d) = (l.filter fun d => p.isPrefixOf d).map (k :: ·) := by
  obtain ⟨A, B, h1, -, h3⟩ := tagged_split 0 k ls l h
  simp only [Nat.zero_add] at h1 h3
  have hAB : ∀ d ∈ A ++ B, ¬ ((k :: p).isPrefixOf d = true) := by
    intro d hd hp
    rw [List.isPrefixOf_iff_prefix] at hp
    obtain ⟨t, rfl⟩ := hp
    exact h3 _ hd rfl
  have hA : A.filter (fun d => (k :: p).isPrefixOf d) = [] := List.filter_eq_nil_iff.2 fun d hd => hAB d (by simp [hd])
  have hB : B.filter (fun d => (k :: p).isPrefixOf d) = [] := List.filter_eq_nil_iff.2 fun d hd => hAB d (by simp [hd])
  rw [h1, List.filter_append, List.filter_append, hA, hB, List.nil_append, List.append_nil, List.filter_map]
  congr 1
  apply List.filter_congr
  intro d _
  simp [List.isPrefixOf]

theorem power_loc (s : IMS) (c : Nat) (sub : PB E) (e : E) :
    (PB.power s c sub).spec.loc e = tagged 0 (List.replicate c (sub.spec.loc e)) := by
  rw [tagged_replicate, ← List.range_eq_range']; rfl

/-- The shape functions of the leaf are those of the leaf basis. -/
theorem Part.loc {b : PB E} {p : List Nat} {L : Leaf E} {f : E → Bool} (h : Part b p L f) (e : E) :
    (b.spec.loc e).filter (fun d => p.isPrefixOf d) = if f e then (L.loc e).map fun i => p ++ [i] else [] := by
  induction h with
  | leaf L =>
    simp only [PB.spec, specLeaf, List.isPrefixOf, List.nil_append, if_true]
    exact List.filter_eq_self.2 (fun _ _ => rfl)
  | @power s c k sub p L f hk _ ih =>
    rw [power_loc, filter_tagged (l := sub.spec.loc e) (by simp [hk]), ih]
    split <;> simp
  | @composite blocked subs k b p L f hk _ ih =>
    rw [show (PB.composite blocked subs).spec.loc e = tagged 0 ((PB.specs subs).map (·.loc e)) from rfl,
      filter_tagged (l := b.spec.loc e) (by simp [(models_get hk).2]), ih]
    split <;> simp
  | @restricted g sub p L f _ ih =>
    simp only [PB.spec, specRestricted]
    by_cases hg : g e = true
    · simpa [hg] using ih
    · simp [hg]

theorem Part.node {b : PB E} {p : List Nat} {L : Leaf E} {f : E → Bool} (h : Part b p L f) :
    ∃ t, Node.child p b.model.makeNode = some t ∧ t.data.feSize.isSome := by
  induction h with
  | leaf L => exact ⟨_, rfl, rfl⟩
  | @power s c k sub p L f hk _ ih =>
    obtain ⟨t, h1, h2⟩ := ih
    refine ⟨t, ?_, h2⟩
    simp only [PB.model, powerPB, Node.child, Node.children]
    rw [List.getElem?_replicate_of_lt hk]
    exact h1
  | @composite blocked subs k b p L f hk _ ih =>
    obtain ⟨t, h1, h2⟩ := ih
    refine ⟨t, ?_, h2⟩
    simp only [PB.model, compositePB, Node.child, Node.children, List.getElem?_map, (models_get hk).1, Option.map_some, Option.bind_some]
    exact h1
  | @restricted g sub p L f _ ih =>
    obtain ⟨t, h1, h2⟩ := ih
    simp only [PB.model, restrictedPB]
    generalize sub.model.makeNode = n at h1
    cases n with
    | mk d c =>
      cases p with
      | nil => simp only [Node.child, Option.some.injEq] at h1; subst h1; exact ⟨_, rfl, h2⟩
      | cons k p => exact ⟨t, h1, h2⟩

theorem leaves_self {t : Node E} (h : t.data.feSize.isSome) : ([], t) ∈ t.leaves := by
  cases t with
  | mk d c =>
    obtain ⟨sz, hsz⟩ := Option.isSome_iff_exists.1 h
    simp only [Node.data] at hsz
    simp [Node.leaves, hsz]

theorem blank_feSize {t t' : Node E} (h : t.blank = t'.blank) : t.data.feSize = t'.data.feSize := by
  cases t; cases t'
  simp only [Node.blank, Node.mk.injEq, NodeData.mk.injEq] at h
  exact h.1.2.2.2.2.1

/-- Position of the leaf in the bound tree, and the multi-indices of its shape functions. -/
theorem Part.slot {b : PB E} (hb : b.WF) {p : List Nat} {L : Leaf E} {f : E → Bool} (h : Part b p L f) {e : E} (he : f e = true) :
    ∃ off, (p, off, (L.loc e).length) ∈ slotsOn ⟨b.model, []⟩ e ∧
      ∀ i (hi : i < (L.loc e).length), indexOn ⟨b.model, []⟩ e (off + i) = b.spec.mi (p ++ [(L.loc e)[i]]) := by
  have R := b.refines hb
  have hbl := LocalView.fresh_blank b.model
  have hbind := LocalView.bind_eq R (LocalView.fresh b.model) hbl e
  obtain ⟨t, ht, pre, M, post, hl, hoff, hsz, h1, h2, h3⟩ := path_slot h.path hb e 0 _ hbl
  have hM : M = (L.loc e).map fun i => p ++ [i] := by
    rw [← filter_slot hl h1 h2 h3, h.loc e, if_pos he]
  have hleafy : (Node.bindTree e 0 (LocalView.fresh b.model).tree).Leafy :=
    Node.leafy_of_blank _ _ ((Node.blank_bindTree e 0 _).trans hbl) R.leafy
  have hfe : t.data.feSize.isSome := by
    obtain ⟨t', ht', hs⟩ := h.node
    have hc : Option.map Node.blank (some t) = Option.map Node.blank (some t') := by
      rw [← ht, ← ht', ← NodeToRange.child_blank, ← NodeToRange.child_blank, Node.blank_bindTree, hbl]
    simp only [Option.map_some, Option.some.injEq] at hc
    rw [blank_feSize hc]; exact hs
  have hmem := (Node.leaves_child p _ t hleafy ht).2 ([], t) (leaves_self hfe)
  rw [List.append_nil] at hmem
  refine ⟨t.offset, ?_, ?_⟩
  · rw [slotsOn]
    simp only [hbind, Node.child]
    rw [Node.slots]
    refine List.mem_map.2 ⟨_, hmem, ?_⟩
    simp [hsz, hM]
  · intro i hi
    rw [indexOn]
    simp only [hbind, Option.bind_some, LocalView.index]
    have hML : M.length = (L.loc e).length := by simp [hM]
    rw [hl, hoff, List.getElem?_map, List.append_assoc, List.getElem?_append_right (by omega), List.getElem?_append_left (by omega)]
    simp only [Nat.zero_add, Nat.add_sub_cancel_left]
    simp [hM, hi]

theorem Part.mem {b : PB E} {p : List Nat} {L : Leaf E} {f : E → Bool} (h : Part b p L f) {e : E} (he : f e = true) {i : Nat} (hi : i ∈ L.loc e) :
    p ++ [i] ∈ b.spec.loc e := by
  have h1 : p ++ [i] ∈ (b.spec.loc e).filter (fun d => p.isPrefixOf d) := by
    rw [h.loc e, if_pos he]
    exact List.mem_map_of_mem hi
  exact (List.mem_filter.1 h1).1

theorem plains_get {bs : List (PB E)} {k : Nat} {b : PB E} (hw : Plains bs) (h : bs[k]? = some b) : Plain b := by
  induction bs generalizing k with
  | nil => simp at h
  | cons b' bs ih =>
    cases k with
    | zero => simp at h; subst h; exact hw.1
    | succ k => exact ih hw.2 (by simpa using h)

mutual
/-- Every basis function belongs to a leaf basis. -/
theorem cover : (b : PB E) → Plain b → ∀ e, ∀ d ∈ b.spec.loc e, ∃ p L f, Part b p L f ∧ f e = true ∧ ∃ i ∈ L.loc e, d = p ++ [i]
  | .leaf L, _ => by
    intro e d hd
    simp only [PB.spec, specLeaf, List.mem_map] at hd
    obtain ⟨i, hi, rfl⟩ := hd
    exact ⟨[], L, _, .leaf L, rfl, i, hi, rfl⟩
  | .power s c sub, hp => by
    intro e d hd
    rw [power_loc, mem_tagged] at hd
    obtain ⟨k, l, d, hk, hd, rfl⟩ := hd
    rw [List.getElem?_replicate] at hk
    split at hk
    · rename_i hkc
      simp only [Option.some.injEq] at hk
      subst hk
      rw [Plain] at hp
      obtain ⟨p, L, f, h1, h2, i, hi, rfl⟩ := cover sub hp e d hd
      exact ⟨k :: p, L, f, .power hkc h1, h2, i, hi, by simp⟩
    · simp at hk
  | .composite blocked subs, hp => by
    intro e d hd
    rw [Plain] at hp
    exact covers subs hp e d blocked hd
  | .restricted g sub, hp => by
    intro e d hd
    rw [Plain] at hp
    simp only [PB.spec, specRestricted] at hd
    split at hd
    · rename_i hg
      obtain ⟨p, L, f, h1, h2, i, hi, rfl⟩ := cover sub hp e d hd
      exact ⟨p, L, _, .restricted h1, by simp [hg, h2], i, hi, rfl⟩
    · simp at hd
  | .ext _ _, hp => by rw [Plain] at hp; exact hp.elim
theorem covers : (subs : List (PB E)) → Plains subs → ∀ e d, ∀ blocked, d ∈ (PB.composite blocked subs).spec.loc e →
    ∃ p L f, Part (.composite blocked subs) p L f ∧ f e = true ∧ ∃ i ∈ L.loc e, d = p ++ [i]
  | [], _ => by
    intro e d blocked hd
    simp [PB.spec, PB.specs, specComposite, tagged] at hd
  | b :: bs, hp => by
    intro e d blocked hd
    rw [Plains] at hp
    simp only [PB.spec, PB.specs, mem_composite_loc] at hd
    obtain ⟨k, sp, d, hk, hd, rfl⟩ := hd
    cases k with
    | zero =>
      simp only [List.getElem?_cons_zero, Option.some.injEq] at hk
      subst hk
      obtain ⟨p, L, f, h1, h2, i, hi, rfl⟩ := cover b hp.1 e d hd
      exact ⟨0 :: p, L, f, .composite rfl h1, h2, i, hi, by simp⟩
    | succ k =>
      have hd' : k :: d ∈ (PB.composite blocked bs).spec.loc e := by
        simp only [PB.spec, mem_composite_loc]
        exact ⟨k, sp, d, by simpa using hk, hd, rfl⟩
      obtain ⟨p, L, f, h1, h2, i, hi, h3⟩ := covers bs hp.2 e (k :: d) blocked hd'
      cases h1 with
      | @composite _ _ k' b' p' _ _ hk' h1 =>
        simp only [List.cons_append, List.cons.injEq] at h3
        obtain ⟨rfl, rfl⟩ := h3
        exact ⟨(k + 1) :: p', L, f, .composite (by simpa using hk') h1, h2, i, hi, by simp⟩
end

mutual
theorem leaves_get : (n : Node E) → ∀ l ∈ n.leaves, Node.child l.1 n = some l.2
  | .mk d c => by
    intro l hl
    rw [Node.leaves] at hl
    cases hfe : d.feSize with
    | some sz =>
      simp only [hfe, List.mem_singleton] at hl
      subst hl
      rfl
    | none =>
      simp only [hfe] at hl
      obtain ⟨i, q, h1, h2⟩ := leavesList_get 0 c l hl
      rw [h1, Nat.zero_add]
      exact h2
theorem leavesList_get (k : Nat) : (c : List (Node E)) → ∀ l ∈ Node.leavesList k c, ∃ i q, l.1 = (k + i) :: q ∧ c[i]?.bind (Node.child q) = some l.2
  | [] => by simp [Node.leavesList]
  | n :: ns => by
    intro l hl
    simp only [Node.leavesList, List.mem_append, List.mem_map] at hl
    rcases hl with ⟨l', hl', rfl⟩ | hl
    · exact ⟨0, l'.1, rfl, leaves_get n l' hl'⟩
    · obtain ⟨i, q, h1, h2⟩ := leavesList_get (k + 1) ns l hl
      exact ⟨i + 1, q, by rw [h1]; congr 1; omega, h2⟩
end

/-- Outside of the subdomain the leaf is empty. -/
theorem Part.slot_outside {b : PB E} (hb : b.WF) {p : List Nat} {L : Leaf E} {f : E → Bool} (h : Part b p L f) {e : E} (he : f e = false)
    {s : List Nat × Nat × Nat} (hs : s ∈ slotsOn ⟨b.model, []⟩ e) (hsp : s.1 = p) : s.2.2 = 0 := by
  have R := b.refines hb
  have hbl := LocalView.fresh_blank b.model
  have hbind := LocalView.bind_eq R (LocalView.fresh b.model) hbl e
  obtain ⟨t, ht, pre, M, post, hl, hoff, hsz, h1, h2, h3⟩ := path_slot h.path hb e 0 _ hbl
  have hM : M = [] := by
    rw [← filter_slot hl h1 h2 h3, h.loc e, he]; rfl
  rw [slotsOn] at hs
  simp only [hbind, Node.child, Node.slots] at hs
  obtain ⟨l, hl', rfl⟩ := List.mem_map.1 hs
  have h4 := leaves_get _ l hl'
  simp only at hsp
  rw [hsp, ht, Option.some.injEq] at h4
  simp [← h4, hsz, hM]

/-- The vector with prescribed coefficients for all leaves. -/
noncomputable def assemble (b : PB E) (u : List Nat → Nat → K) : Vec K := fun m => some [open Classical in
  if h : ∃ d ∈ b.spec.dofs, b.spec.mi d = m then u h.choose.dropLast (h.choose.getLast?.getD 0) else 0]

theorem assemble_coef {b : PB E} (hb : b.WF) (u : List Nat → Nat → K) {p : List Nat} {i : Nat} (h : p ++ [i] ∈ b.spec.dofs) :
    coef (assemble b u) (b.spec.mi (p ++ [i])) = u p i := by
  have R := b.refines hb
  have hex : ∃ d ∈ b.spec.dofs, b.spec.mi d = b.spec.mi (p ++ [i]) := ⟨_, h, rfl⟩
  have heq : hex.choose = p ++ [i] := by
    obtain ⟨h1, h2⟩ := hex.choose_spec
    exact R.prefixFree _ h1 _ h (by rw [h2])
  simp only [coef, assemble]
  rw [dif_pos hex, heq]
  simp

/-- **C99.** The components of a discrete function and of its derivative that belong to a leaf of the basis tree are those of a function of
the leaf basis: the coefficient of its basis function `i` is the entry of the coefficient vector at the multi-index of the basis function
with tree path `p` and number `i`. -/
theorem C99_components {b : PB E} (hb : b.WF) {P : Shapes E X K} (hP : P.OK ⟨b.model, []⟩) (hd : P.dimC = 1) (hsep : Separate ⟨b.model, []⟩ P)
    {v : Vec K} (hv : VecOK ⟨b.model, []⟩ 1 v) (d : Bool) {p : List Nat} {L : Leaf E} {f : E → Bool} (h : Part b p L f) {e : E}
    (he : f e = true) (hn : L.loc e ≠ []) (x : X) :
    component ⟨b.model, []⟩ P v d (some e) p x = some (combination P d p e ((L.loc e).map fun i => coef v (b.spec.mi (p ++ [i]))) x) := by
  obtain ⟨off, hs, hi⟩ := h.slot hb he
  have hlen : (L.loc e).length ≠ 0 := by simpa using hn
  rw [component_eq hb (.nil b) P hP hd hsep hv d e _ hs hlen x]
  congr 2
  apply List.ext_getElem (by simp [leafCoefs])
  intro k h1 h2
  simp only [leafCoefs, List.length_map, List.length_range] at h1
  simp [leafCoefs, coef, hi k h1]

/-- **C99.** The functions of a composed basis are exactly the tuples of functions of its leaf bases, for all nestings and all merging strategies: any choice
of one function for each leaf is a function of the composed basis. -/
theorem C99_space {b : PB E} (hb : b.WF) {P : Shapes E X K} (hP : P.OK ⟨b.model, []⟩) (hd : P.dimC = 1) (hsep : Separate ⟨b.model, []⟩ P)
    (F : List Nat → E → X → List K) :
    (∃ v, VecOK ⟨b.model, []⟩ 1 v ∧ ∀ p L f, Part b p L f → ∀ e, f e = true → L.loc e ≠ [] → ∀ x,
        component ⟨b.model, []⟩ P v false (some e) p x = some (F p e x)) ↔
      ∀ p L f, Part b p L f → ∃ u : Nat → K, ∀ e, f e = true → L.loc e ≠ [] → ∀ x,
        F p e x = combination P false p e ((L.loc e).map u) x := by
  constructor
  · rintro ⟨v, hv, h⟩ p L f hp
    refine ⟨fun i => coef v (b.spec.mi (p ++ [i])), fun e he hn x => ?_⟩
    have h1 := h p L f hp e he hn x
    rw [C99_components hb hP hd hsep hv false hp he hn x, Option.some.injEq] at h1
    exact h1.symm
  · intro h
    have h' : ∀ p, ∃ u : Nat → K, ∀ L f, Part b p L f → ∀ e, f e = true → L.loc e ≠ [] → ∀ x,
        F p e x = combination P false p e ((L.loc e).map u) x := by
      intro p
      by_cases hp : ∃ L f, Part b p L f
      · obtain ⟨L, f, hp⟩ := hp
        obtain ⟨u, hu⟩ := h p L f hp
        refine ⟨u, fun L' f' hp' => ?_⟩
        obtain ⟨rfl, rfl⟩ := hp.functional hp'
        exact hu
      · exact ⟨fun _ => 0, fun L f h1 => absurd ⟨L, f, h1⟩ hp⟩
    choose u hu using h'
    have hv : VecOK ⟨b.model, []⟩ 1 (assemble b u) := fun m _ => ⟨_, rfl, rfl⟩
    refine ⟨assemble b u, hv, fun p L f hp e he hn x => ?_⟩
    rw [C99_components hb hP hd hsep hv false hp he hn x, hu p L f hp e he hn x]
    congr 2
    apply List.map_congr_left
    intro i hi
    exact assemble_coef hb u ((b.refines hb).locMem e _ (hp.mem he hi))

/-- **C99.** If the coefficients of the functions of each leaf basis are unique, then those of the functions of the composed basis are unique. -/
theorem C99_unique {b : PB E} (hb : b.WF) (hpl : Plain b) {P : Shapes E X K} (hP : P.OK ⟨b.model, []⟩) (hd : P.dimC = 1)
    (hsep : Separate ⟨b.model, []⟩ P)
    (hu : ∀ p L f, Part b p L f → ∀ u u' : Nat → K, (∀ e, f e = true → L.loc e ≠ [] → ∀ x,
      combination P false p e ((L.loc e).map u) x = combination P false p e ((L.loc e).map u') x) → ∀ e, f e = true → ∀ i ∈ L.loc e, u i = u' i)
    {v v' : Vec K} (hv : VecOK ⟨b.model, []⟩ 1 v) (hv' : VecOK ⟨b.model, []⟩ 1 v')
    (heq : ∀ p L f, Part b p L f → ∀ e, f e = true → L.loc e ≠ [] → ∀ x,
      component ⟨b.model, []⟩ P v false (some e) p x = component ⟨b.model, []⟩ P v' false (some e) p x)
    {m : MI} (hm : m ∈ IndexSet b.model) : v m = v' m := by
  have hm0 := hm
  rw [indexSet_eq hb] at hm
  obtain ⟨e, d, hd', rfl⟩ := hm
  obtain ⟨p, L, f, hp, he, i, hi, rfl⟩ := cover b hpl e d hd'
  have key := hu p L f hp (fun i => coef v (b.spec.mi (p ++ [i]))) (fun i => coef v' (b.spec.mi (p ++ [i]))) (fun e he hn x => by
    have h1 := heq p L f hp e he hn x
    rw [C99_components hb hP hd hsep hv false hp he hn x, C99_components hb hP hd hsep hv' false hp he hn x, Option.some.injEq] at h1
    exact h1) e he i hi
  obtain ⟨c, hc, hcl⟩ := hv _ hm0
  obtain ⟨c', hc', hcl'⟩ := hv' _ hm0
  obtain ⟨a, rfl⟩ := List.length_eq_one_iff.1 hcl
  obtain ⟨a', rfl⟩ := List.length_eq_one_iff.1 hcl'
  simp only [coef, hc, hc', Option.getD_some, List.getElem?_cons_zero] at key
  rw [hc, hc', key]

/-- **C99.** On elements outside of the subdomain of a restricted basis, its components are zero. -/
theorem C99_outside {b : PB E} (hb : b.WF) {P : Shapes E X K} (hP : P.OK ⟨b.model, []⟩) (hd : P.dimC = 1)
    {v : Vec K} (hv : VecOK ⟨b.model, []⟩ 1 v) (d : Bool) {p : List Nat} {L : Leaf E} {f : E → Bool} (hp : Part b p L f) {e : E}
    (he : f e = false) (hdis : ∀ s ∈ slotsOn ⟨b.model, []⟩ e, s.1 ≠ p → List.Disjoint (P.ntre d p) (P.ntre d s.1)) (x : X) :
    component ⟨b.model, []⟩ P v d (some e) p x = some (List.replicate (P.ntre d p).length 0) := by
  obtain ⟨st, hst, h⟩ := aget_eval hb (.nil b) P hP (by rw [hd]; exact hv) [.new d, .bind 0 e] (by simp) (by simp)
    (a := (v, [some (d, some (e, v))])) (by simp [Discrete.absRun, Discrete.absStep])
  have hev := h 0 d e v rfl x
  simp only [component, localEval, Option.bind_some, hst, hev, Option.map_some, Option.some.injEq]
  refine List.eq_replicate_iff.2 ⟨by simp, ?_⟩
  intro y hy
  obtain ⟨q, hq, rfl⟩ := List.mem_map.1 hy
  rw [slots_out _ _ _ _ _ _ _ _ _ (fun t ht htn hqt => hdis t ht (fun h1 => htn (hp.slot_outside hb he ht h1)) hq hqt)]

/-! ## Examples -/

/-- A scalar function on the whole grid view and a second one on the subdomain that consists of element `true`. -/
def mixed (blocked : Bool) : PB Bool := .composite blocked [.leaf exLeaf, .restricted id (.leaf exLeaf)]

def mixedShapes : Shapes Bool Int Int where
  dimC := 1
  uses _ := true
  shape d p e _ x := if p = [1] ∧ e = false then [] else (if d then [-1, 1] else [1 - x, x]).map fun z => [[z]]
  rows _ := 1
  dim := 1
  dimworld := 1
  jinv e _ := [[if e then 2 else 3]]
  ntre _ p := [p]

theorem mixed_slots : ∀ blocked e, slotsOn ⟨(mixed blocked).model, []⟩ e = [([0], 0, 2), ([1], 2, if e then 2 else 0)] := by decide +kernel

theorem mixedShapes_OK (blocked : Bool) : mixedShapes.OK ⟨(mixed blocked).model, []⟩ where
  number d e x s hs := by
    rw [mixed_slots] at hs
    simp only [List.mem_cons, List.not_mem_nil, or_false] at hs
    rcases hs with rfl | rfl <;> cases d <;> cases e <;> rfl
  rows d e x s hs φ hφ := by
    simp only [mixedShapes] at hφ
    split at hφ
    · simp at hφ
    · cases d <;> simp at hφ <;> rcases hφ with rfl | rfl <;> simp [mixedShapes, Shapes.cols]
  range d e s hs := by cases d <;> simp [mixedShapes, Shapes.outCols]

theorem mixedShapes_separate (blocked : Bool) : Separate ⟨(mixed blocked).model, []⟩ mixedShapes := by
  intro d e
  rw [mixed_slots]
  cases e <;> simp [mixedShapes]

theorem mixed_WF (blocked : Bool) : (mixed blocked).WF := by simp [mixed, PB.WF, PB.WFs, exLeaf]

theorem mixed_part {blocked : Bool} {p : List Nat} {L : Leaf Bool} {f : Bool → Bool} (h : Part (mixed blocked) p L f) :
    L = exLeaf ∧ (p = [0] ∧ f = (fun _ => true) ∨ p = [1] ∧ f = fun e => e) := by
  cases h with
  | @composite _ _ k b q _ _ hk h =>
    match k with
    | 0 =>
      simp only [List.getElem?_cons_zero, Option.some.injEq] at hk
      subst hk; cases h; exact ⟨rfl, .inl ⟨rfl, rfl⟩⟩
    | 1 =>
      simp only [List.getElem?_cons_succ, List.getElem?_cons_zero, Option.some.injEq] at hk
      subst hk
      cases h with
      | restricted h => cases h; exact ⟨rfl, .inr ⟨rfl, by simp⟩⟩
    | k + 2 => simp at hk

/-- The function with coefficients `a 0, a 1, a 2` on the grid view and `c 0, c 1` on the subdomain exists for blocked and flat indices. -/
example (blocked : Bool) (a c : Nat → Int) : ∃ v, VecOK ⟨(mixed blocked).model, []⟩ 1 v ∧ ∀ x,
    component ⟨(mixed blocked).model, []⟩ mixedShapes v false (some true) [0] x = some [a 0 * (1 - x) + a 1 * x] ∧
    component ⟨(mixed blocked).model, []⟩ mixedShapes v false (some false) [0] x = some [a 2 * (1 - x) + a 1 * x] ∧
    component ⟨(mixed blocked).model, []⟩ mixedShapes v false (some true) [1] x = some [c 0 * (1 - x) + c 1 * x] ∧
    component ⟨(mixed blocked).model, []⟩ mixedShapes v false (some false) [1] x = some [0] := by
  obtain ⟨v, hv, h⟩ := (C99_space (mixed_WF blocked) (mixedShapes_OK blocked) rfl (mixedShapes_separate blocked)
    (fun p e x => combination mixedShapes false p e ((exLeaf.loc e).map (if p = [0] then a else c)) x)).2 (fun p L f hp => by
      obtain ⟨rfl, -⟩ := mixed_part hp
      exact ⟨_, fun e _ _ x => rfl⟩)
  have h0 : Part (mixed blocked) [0] exLeaf fun _ => true := .composite (k := 0) rfl (.leaf _)
  have h1 : Part (mixed blocked) [1] exLeaf fun e => id e && true := .composite (k := 1) rfl (.restricted (.leaf _))
  refine ⟨v, hv, fun x => ⟨?_, ?_, ?_, ?_⟩⟩
  · rw [h [0] _ _ h0 true rfl (by decide) x]; simp [combination, mixedShapes, exLeaf, Shapes.outCols, List.range_succ]
  · rw [h [0] _ _ h0 false rfl (by decide) x]; simp [combination, mixedShapes, exLeaf, Shapes.outCols, List.range_succ]
  · rw [h [1] _ _ h1 true rfl (by decide) x]; simp [combination, mixedShapes, exLeaf, Shapes.outCols, List.range_succ]
  · rw [C99_outside (mixed_WF blocked) (mixedShapes_OK blocked) rfl hv false h1 (e := false) rfl (fun s hs hne => by
      rw [mixed_slots] at hs
      simp only [List.mem_cons, List.not_mem_nil, or_false] at hs
      rcases hs with rfl | rfl
      · simp [mixedShapes]
      · simp at hne) x]
    rfl

/-- A function that is not piecewise linear does not belong to the space. -/
example (blocked : Bool) : ¬ ∃ v, VecOK ⟨(mixed blocked).model, []⟩ 1 v ∧ ∀ p L f, Part (mixed blocked) p L f → ∀ e, f e = true → L.loc e ≠ [] → ∀ x,
    component ⟨(mixed blocked).model, []⟩ mixedShapes v false (some e) p x = some [x * x] := by
  intro h
  have h0 : Part (mixed blocked) [0] exLeaf fun _ => true := .composite (k := 0) rfl (.leaf _)
  obtain ⟨u, hu⟩ := (C99_space (mixed_WF blocked) (mixedShapes_OK blocked) rfl (mixedShapes_separate blocked) (fun _ _ x => [x * x])).1 h [0] _ _ h0
  have e0 := hu true rfl (by decide) 0
  have e1 := hu true rfl (by decide) 1
  have e2 := hu true rfl (by decide) 2
  simp [combination, mixedShapes, exLeaf, Shapes.outCols, List.range_succ] at e0 e1 e2
  omega

/-- The coefficients are determined by the function. -/
example (blocked : Bool) {v v' : Vec Int} (hv : VecOK ⟨(mixed blocked).model, []⟩ 1 v) (hv' : VecOK ⟨(mixed blocked).model, []⟩ 1 v')
    (h : ∀ e p x, component ⟨(mixed blocked).model, []⟩ mixedShapes v false (some e) p x = component ⟨(mixed blocked).model, []⟩ mixedShapes v' false (some e) p x)
    {m : MI} (hm : m ∈ IndexSet (mixed blocked).model) : v m = v' m := by
  refine C99_unique (mixed_WF blocked) (by simp [mixed, Plain, Plains]) (mixedShapes_OK blocked) rfl (mixedShapes_separate blocked) (fun p L f hp u u' hu e he i hi => ?_) hv hv'
    (fun p _ _ _ e _ _ x => h e p x) hm
  obtain ⟨rfl, hq⟩ := mixed_part hp
  have e0 := hu e he (by cases e <;> decide) 0
  have e1 := hu e he (by cases e <;> decide) 1
  rcases hq with ⟨rfl, rfl⟩ | ⟨rfl, rfl⟩ <;> cases e <;> simp [combination, mixedShapes, exLeaf, Shapes.outCols, List.range_succ] at e0 e1 hi he <;>
    rcases hi with rfl | rfl <;> assumption

end Verif.Product

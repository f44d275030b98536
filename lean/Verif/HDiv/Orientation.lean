import Verif.Lagrange.DG
import Mathlib.Algebra.Group.Basic

/-!
# Orientations and layouts of H(div) and H(curl) bases

Model of raviartthomasbasis.hh, brezzidouglasmarinibasis.hh, nedelecbasis.hh and of `computeEdgeOrientations` in
mapperutilities.hh: orientation flags, tables of variants, DOF layouts.
-/

namespace Verif.HDiv

open Mapper Lagrange

variable {E : Type}

/-! ## Model -/

/-- What is read from an intersection: `indexInInside()`, `outside()` if `neighbor()`, and whether the grid view
contains the outside element. -/
structure Isect (E : Type) where
  inside : Nat
  outside : Option E
  contained : Bool

/-- Kinds of local finite elements. -/
inductive Kind | simplex | cube | pyramid | prism
  deriving DecidableEq, Repr

/-- Number of facets of the reference element. -/
def numFacets (t : Geo) : Nat := (stdSubs t 1).length

/-- `numVariants`, raviartthomasbasis.hh:151-155. -/
def numVariants (t : Geo) : Nat := 2 ^ numFacets t

def simplexOf (dim : Nat) : Geo := ⟨dim, dim + 1⟩
def cubeOf (dim : Nat) : Geo := ⟨dim, 2 ^ dim⟩
def pyramidT : Geo := ⟨3, 5⟩
def prismT : Geo := ⟨3, 6⟩

/-- Loop over the intersections, raviartthomasbasis.hh:203-207; `orient_` has type `unsigned char`. -/
def orientLoop (idx : E → Nat) (myId : Nat) : List (Isect E) → Nat → Nat
  | [], o => o
  | s :: ss, o =>
    let set := match s.outside with
      | some f => s.contained && decide (idx f > myId)
      | none => false
    orientLoop idx myId ss (if set then (o ||| 1 <<< s.inside) % 256 else o)

/-- `variants_`: table of local finite elements (kind and orientation number), raviartthomasbasis.hh:166-195. `fixed` is
the type of the elements of a grid with a single element type, `none` for mixed grids. -/
def variants (dim : Nat) (fixed : Option Geo) : List (Kind × Nat) :=
  match fixed with
  | some t => (List.range (numVariants t)).map fun i => (if t = cubeOf dim then Kind.cube else Kind.simplex, i)
  | none =>
    let v := ((List.range (numVariants (simplexOf dim))).map fun i => (Kind.simplex, i)) ++
      (List.range (numVariants (cubeOf dim))).map fun i => (Kind.cube, i)
    if dim = 3 then v ++ (List.range (numVariants pyramidT)).map (fun i => (Kind.pyramid, i)) ++
      (List.range (numVariants prismT)).map (fun i => (Kind.prism, i))
    else v

/-- The entry of `orient_` for a cell of type `t`, raviartthomasbasis.hh:198-227. -/
def orient (dim : Nat) (fixed : Option Geo) (idx : E → Nat) (e : E) (t : Geo) (isects : List (Isect E)) : Nat :=
  let o := orientLoop idx (idx e) isects 0
  match fixed with
  | some _ => o
  | none =>
    let o := if t = cubeOf dim then (o + numVariants (simplexOf dim)) % 256 else o
    if dim = 3 then
      let o := if t = pyramidT then (o + (numVariants (simplexOf dim) + numVariants (cubeOf dim))) % 256 else o
      if t = prismT then (o + (numVariants (simplexOf dim) + numVariants (cubeOf dim) + numVariants pyramidT)) % 256 else o
    else o

/-- `find`, raviartthomasbasis.hh:230-234. -/
def find (dim : Nat) (fixed : Option Geo) (idx : E → Nat) (e : E) (t : Geo) (isects : List (Isect E)) : Option (Kind × Nat) :=
  (variants dim fixed)[orient dim fixed idx e t isects]?

/-- The kind of finite element an element of type `t` needs. -/
def kindOf (t : Geo) : Kind :=
  if t = pyramidT then .pyramid else if t = prismT then .prism else if t.nv = t.dim + 1 then .simplex else .cube

/-! ## Facets -/

/-- The facet flag: the facet is flipped iff it is shared with an element of larger index. -/
def Flipped (idx : E → Nat) (e : E) (isects : List (Isect E)) (i : Nat) : Prop :=
  ∃ s ∈ isects, s.inside = i ∧ s.contained = true ∧ ∃ f, s.outside = some f ∧ idx f > idx e

theorem orientLoop_spec (idx : E → Nat) (myId n : Nat) (hn : n ≤ 8) : ∀ (ss : List (Isect E)) (o : Nat), o < 2 ^ n →
    (∀ s ∈ ss, s.inside < n) → orientLoop idx myId ss o < 2 ^ n ∧ ∀ i, (orientLoop idx myId ss o).testBit i = true ↔
      o.testBit i = true ∨ ∃ s ∈ ss, s.inside = i ∧ s.contained = true ∧ ∃ f, s.outside = some f ∧ idx f > myId
  | [], o, ho, _ => ⟨ho, fun i => by simp [orientLoop]⟩
  | s :: ss, o, ho, hs => by
    rw [orientLoop]
    have hsn := hs s (by simp)
    have hpow : (1 <<< s.inside : Nat) < 2 ^ n := by
      rw [Nat.shiftLeft_eq, Nat.one_mul]; exact Nat.pow_lt_pow_right (by omega) hsn
    have hor := Nat.or_lt_two_pow ho hpow
    have h256 : 2 ^ n ≤ 256 := Nat.pow_le_pow_right (by omega) hn
    by_cases hset : (match s.outside with | some f => s.contained && decide (idx f > myId) | none => false) = true
    · rw [if_pos hset, Nat.mod_eq_of_lt (lt_of_lt_of_le hor h256)]
      obtain ⟨h1, h2⟩ := orientLoop_spec idx myId n hn ss _ hor fun s hs' => hs s (by simp [hs'])
      refine ⟨h1, fun i => ?_⟩
      rw [h2, Nat.testBit_or, Nat.shiftLeft_eq, Nat.one_mul, Nat.testBit_two_pow, Bool.or_eq_true, decide_eq_true_eq]
      have hC : s.contained = true ∧ ∃ f, s.outside = some f ∧ idx f > myId := by
        cases hso : s.outside with
        | none => simp [hso] at hset
        | some f => simp [hso] at hset; exact ⟨hset.1, f, rfl, hset.2⟩
      simp only [List.exists_mem_cons_iff]
      constructor
      · rintro ((h | h) | h)
        · exact Or.inl h
        · exact Or.inr (Or.inl ⟨h, hC⟩)
        · exact Or.inr (Or.inr h)
      · rintro (h | h | h)
        · exact Or.inl (Or.inl h)
        · exact Or.inl (Or.inr h.1)
        · exact Or.inr h
    · rw [if_neg hset]
      obtain ⟨h1, h2⟩ := orientLoop_spec idx myId n hn ss o ho fun s hs' => hs s (by simp [hs'])
      refine ⟨h1, fun i => ?_⟩
      rw [h2]
      simp only [List.exists_mem_cons_iff]
      constructor
      · rintro (h | h)
        · exact Or.inl h
        · exact Or.inr (Or.inr h)
      · rintro (h | ⟨-, hc, f, hf, hlt⟩ | h)
        · exact Or.inl h
        · exact absurd (by simp [hf, hc, hlt]) hset
        · exact Or.inr h

theorem getElem?_range_map {β : Type} (n : Nat) (f : Nat → β) (i : Nat) (h : i < n) : ((List.range n).map f)[i]? = some (f i) := by
  simp [h]

/-- C47, Raviart–Thomas: the stored number selects in the table a finite element of the kind of the cell, whose
orientation bit `i` is set iff facet `i` is shared with an element of larger index. In particular the table access is valid and
nothing is lost in the 8 bit storage. `fixed`: grids with a single element type must consist of simplices or cubes. -/
theorem C47_raviartThomas (dim : Nat) (hdim : dim = 2 ∨ dim = 3) (fixed : Option Geo) (idx : E → Nat) (e : E) (t : Geo)
    (ht : t ∈ elemTypes) (htd : t.dim = dim) (hfix : ∀ u, fixed = some u → u = t ∧ (t = simplexOf dim ∨ t = cubeOf dim))
    (isects : List (Isect E)) (hin : ∀ s ∈ isects, s.inside < numFacets t) :
    ∃ bits, find dim fixed idx e t isects = some (kindOf t, bits) ∧ bits < numVariants t ∧
      ∀ i, bits.testBit i = true ↔ Flipped idx e isects i := by
  have hn : numFacets t ≤ 6 := by
    have : ∀ t ∈ elemTypes, numFacets t ≤ 6 := by decide
    exact this t ht
  obtain ⟨hlt, hbits⟩ := orientLoop_spec idx (idx e) (numFacets t) (by omega) isects 0 (by positivity) hin
  refine ⟨orientLoop idx (idx e) isects 0, ?_, hlt, fun i => by rw [hbits]; simp [Flipped]⟩
  revert hlt
  unfold find orient
  generalize orientLoop idx (idx e) isects 0 = o
  intro hlt
  cases fixed with
  | some u =>
    obtain ⟨rfl, hk⟩ := hfix u rfl
    simp only [variants]
    rw [getElem?_range_map _ _ _ (show o < numVariants u from hlt)]
    congr 2
    subst htd
    simp only [elemTypes, List.mem_cons, List.not_mem_nil, or_false] at ht
    rcases ht with rfl | rfl | rfl | rfl | rfl | rfl | rfl <;> revert hdim hk <;> decide
  | none =>
    simp only [elemTypes, List.mem_cons, List.not_mem_nil, or_false] at ht
    have v23 : numVariants ⟨2, 3⟩ = 8 := by decide
    have v24 : numVariants ⟨2, 4⟩ = 16 := by decide
    have v34 : numVariants ⟨3, 4⟩ = 16 := by decide
    have v35 : numVariants ⟨3, 5⟩ = 32 := by decide
    have v36 : numVariants ⟨3, 6⟩ = 32 := by decide
    have v38 : numVariants ⟨3, 8⟩ = 64 := by decide
    clear hfix hbits hin hn
    replace hlt : o < numVariants t := hlt
    rcases ht with rfl | rfl | rfl | rfl | rfl | rfl | rfl
    · simp only at htd; omega
    · subst htd; revert o; rw [v23]; decide
    · subst htd; revert o; rw [v24]; decide
    · subst htd; revert o; rw [v34]; decide
    · subst htd; revert o; rw [v35]; decide
    · subst htd; revert o; rw [v36]; decide
    · subst htd; revert o; rw [v38]; decide

/-- A prism grid with a single element type passes the constructor checks but gets finite elements for simplices. -/
theorem C47_fixed_prism_false :
    find 3 (some prismT) (fun e : Nat => e) 0 prismT [] = some (Kind.simplex, 0) ∧ kindOf prismT = Kind.prism := by decide

/-- C47, facets: in a grid where facet `i` of `e` and facet `i'` of `e'` are matched by one intersection each, exactly
one of the two elements flips the facet. So the facet normals, each flipped according to the flag, agree
(`n` and `-n` are the outer normals). -/
theorem C47_facet {V : Type} [AddGroup V] (idx : E → Nat) (hinj : Function.Injective idx) (e e' : E) (hne : e ≠ e')
    (is is' : List (Isect E)) (i i' : Nat)
    (h : ∃ s ∈ is, s.inside = i ∧ s.contained = true ∧ s.outside = some e')
    (h' : ∃ s ∈ is', s.inside = i' ∧ s.contained = true ∧ s.outside = some e)
    (hu : ∀ s ∈ is, s.inside = i → s.outside = some e') (hu' : ∀ s ∈ is', s.inside = i' → s.outside = some e)
    (b b' : Nat) (hb : ∀ i, b.testBit i = true ↔ Flipped idx e is i) (hb' : ∀ i, b'.testBit i = true ↔ Flipped idx e' is' i)
    (n : V) :
    (if b.testBit i then -n else n) = (if b'.testBit i' then -(-n) else -n) ∧ (b.testBit i = !b'.testBit i') := by
  have h1 : b.testBit i = true ↔ idx e' > idx e := by
    rw [hb, Flipped]
    constructor
    · rintro ⟨s, hs, hi, -, f, hf, hlt⟩
      rw [hu s hs hi, Option.some.injEq] at hf
      rw [hf]; exact hlt
    · intro hlt
      obtain ⟨s, hs, hi, hc, ho⟩ := h
      exact ⟨s, hs, hi, hc, e', ho, hlt⟩
  have h2 : b'.testBit i' = true ↔ idx e > idx e' := by
    rw [hb', Flipped]
    constructor
    · rintro ⟨s, hs, hi, -, f, hf, hlt⟩
      rw [hu' s hs hi, Option.some.injEq] at hf
      rw [hf]; exact hlt
    · intro hlt
      obtain ⟨s, hs, hi, hc, ho⟩ := h'
      exact ⟨s, hs, hi, hc, e, ho, hlt⟩
  have hid : idx e ≠ idx e' := fun h => hne (hinj h)
  by_cases hlt : idx e' > idx e
  · have e1 : b.testBit i = true := h1.mpr hlt
    have e2 : b'.testBit i' = false := by
      rw [← Bool.not_eq_true, h2]; omega
    simp [e1, e2]
  · have e1 : b.testBit i = false := by rw [← Bool.not_eq_true, h1]; exact hlt
    have e2 : b'.testBit i' = true := h2.mpr (by omega)
    simp [e1, e2]

/-- Boundary facets are not flipped. -/
theorem C47_boundary (idx : E → Nat) (e : E) (is : List (Isect E)) (i : Nat) (h : ∀ s ∈ is, s.inside = i → s.outside = none)
    (b : Nat) (hb : ∀ i, b.testBit i = true ↔ Flipped idx e is i) : b.testBit i = false := by
  rw [← Bool.not_eq_true, hb]
  rintro ⟨s, hs, hi, -, f, hf, -⟩
  rw [h s hs hi] at hf
  cases hf

/-- Mixed 3d grid: pyramid 1 with neighbours 0 (facet 0), 2 (facet 3) and boundary facets. -/
example : find 3 none (fun e : Nat => e) 1 pyramidT
    [⟨0, some 0, true⟩, ⟨1, none, true⟩, ⟨3, some 2, true⟩, ⟨4, some 7, false⟩] = some (Kind.pyramid, 8) := by decide

/-! ### Brezzi–Douglas–Marini -/

/-- Loop over the intersections, brezzidouglasmarinibasis.hh:114-126. Unlike Raviart–Thomas the code does not check that the
grid view contains the neighbour before asking the index set for its index. -/
def bdmLoop (idx : E → Nat) (myId : Nat) : List (Isect E) → Nat → Option Nat
  | [], o => some o
  | s :: ss, o =>
    match s.outside with
    | some f => if s.contained = false then none
      else bdmLoop idx myId ss (if idx f > myId then (o ||| 1 <<< s.inside) % 256 else o)
    | none => bdmLoop idx myId ss o

/-- `find`, brezzidouglasmarinibasis.hh:129-137, with the numbers of variants 46-75. -/
def bdmFind (dim : Nat) (idx : E → Nat) (e : E) (t : Geo) (isects : List (Isect E)) : Option (Kind × Nat) :=
  (bdmLoop idx (idx e) isects 0).bind fun o =>
    if t = cubeOf dim then (if o < (if dim = 2 then 16 else 64) then some (Kind.cube, o) else none)
    else if o < 8 then some (Kind.simplex, o) else none

theorem bdmLoop_eq (idx : E → Nat) (myId : Nat) : ∀ (ss : List (Isect E)) (o : Nat),
    (∀ s ∈ ss, s.outside ≠ none → s.contained = true) → bdmLoop idx myId ss o = some (orientLoop idx myId ss o)
  | [], _, _ => rfl
  | s :: ss, o, h => by
    have ih := fun o => bdmLoop_eq idx myId ss o fun s hs => h s (by simp [hs])
    rw [bdmLoop, orientLoop]
    cases hs : s.outside with
    | none => simp [ih]
    | some f =>
      have hc := h s (by simp) (by simp [hs])
      simp [hc, ih]

/-- C47, BDM, for grid views that contain all neighbours of their elements: same statement as for Raviart–Thomas, for the
supported combinations (triangles, quadrilaterals, hexahedra). -/
theorem C47_bdm (dim : Nat) (idx : E → Nat) (e : E) (t : Geo) (ht : t = ⟨2, 3⟩ ∨ t = ⟨2, 4⟩ ∨ t = ⟨3, 8⟩) (htd : t.dim = dim)
    (isects : List (Isect E)) (hin : ∀ s ∈ isects, s.inside < numFacets t)
    (hc : ∀ s ∈ isects, s.outside ≠ none → s.contained = true) :
    ∃ bits, bdmFind dim idx e t isects = some (kindOf t, bits) ∧ ∀ i, bits.testBit i = true ↔ Flipped idx e isects i := by
  have hn : numFacets t ≤ 6 := by rcases ht with rfl | rfl | rfl <;> decide
  obtain ⟨hlt, hbits⟩ := orientLoop_spec idx (idx e) (numFacets t) (by omega) isects 0 (by positivity) hin
  refine ⟨orientLoop idx (idx e) isects 0, ?_, fun i => by rw [hbits]; simp [Flipped]⟩
  rw [bdmFind, bdmLoop_eq _ _ _ _ hc, Option.bind_some]
  revert hlt
  generalize orientLoop idx (idx e) isects 0 = o
  intro hlt
  subst htd
  have v23 : numFacets ⟨2, 3⟩ = 3 := by decide
  have v24 : numFacets ⟨2, 4⟩ = 4 := by decide
  have v38 : numFacets ⟨3, 8⟩ = 6 := by decide
  rcases ht with rfl | rfl | rfl
  · rw [v23] at hlt; simp [cubeOf, kindOf, pyramidT, prismT] at *; omega
  · rw [v24] at hlt; simp [cubeOf, kindOf, pyramidT, prismT] at *; omega
  · rw [v38] at hlt; simp [cubeOf, kindOf, pyramidT, prismT] at *; omega

/-- A neighbour outside of the grid view makes the BDM basis ask the index set for an index it does not have. -/
theorem C47_bdm_not_contained_false :
    bdmFind 2 (fun e : Nat => e) 0 ⟨2, 3⟩ [⟨0, some 5, false⟩] = none ∧
    find 2 (some ⟨2, 3⟩) (fun e : Nat => e) 0 ⟨2, 3⟩ [⟨0, some 5, false⟩] = some (Kind.simplex, 0) := by decide

/-! ## Edges: Nédélec and `computeEdgeOrientations` -/

/-- Loop over the edges, nedelecbasis.hh:97-109 (`unsigned short`); `g v` is the global index of local vertex `v`. -/
def edgeOrientLoop (g : Nat → Nat) : Nat → List (Nat × Nat) → Nat → Nat
  | _, [], o => o
  | i, (v0, v1) :: es, o =>
    edgeOrientLoop g (i + 1) es
      (if (v0 < v1 ∧ g v0 > g v1) ∨ (v0 > v1 ∧ g v0 < g v1) then (o ||| 1 <<< i) % 65536 else o)

/-- Number of edges; `numVariants`, nedelecbasis.hh:49-56. -/
def numEdgeVariants (t : Geo) : Nat := 2 ^ (refOf t).edges.length

/-- `variants_`, nedelecbasis.hh:70-85. -/
def edgeVariants (dim : Nat) (fixed : Option Geo) : List (Kind × Nat) :=
  match fixed with
  | some t => (List.range (numEdgeVariants t)).map fun i => (if t = cubeOf dim then Kind.cube else Kind.simplex, i)
  | none => ((List.range (numEdgeVariants (simplexOf dim))).map fun i => (Kind.simplex, i)) ++
      (List.range (numEdgeVariants (cubeOf dim))).map fun i => (Kind.cube, i)

/-- The orientation number with offset and `find`, nedelecbasis.hh:92-121. -/
def nedelecFind (dim : Nat) (fixed : Option Geo) (g : Nat → Nat) (t : Geo) : Option (Kind × Nat) :=
  let o := edgeOrientLoop g 0 (refOf t).edges 0
  let o := if fixed.isNone ∧ t = cubeOf dim then (o + numEdgeVariants (simplexOf dim)) % 65536 else o
  (edgeVariants dim fixed)[o]?

theorem edgeOrientLoop_spec (g : Nat → Nat) : ∀ (es : List (Nat × Nat)) (i o : Nat), o < 2 ^ i → i + es.length ≤ 16 →
    edgeOrientLoop g i es o < 2 ^ (i + es.length) ∧ ∀ j, (edgeOrientLoop g i es o).testBit j = true ↔
      o.testBit j = true ∨ ∃ v, i ≤ j ∧ es[j - i]? = some v ∧ ((v.1 < v.2 ∧ g v.1 > g v.2) ∨ (v.1 > v.2 ∧ g v.1 < g v.2))
  | [], i, o, ho, _ => ⟨by simpa [edgeOrientLoop] using ho, fun j => by simp [edgeOrientLoop]⟩
  | (v0, v1) :: es, i, o, ho, hl => by
    rw [edgeOrientLoop]
    simp only [List.length_cons] at hl
    have hpow : (1 <<< i : Nat) < 2 ^ (i + 1) := by
      rw [Nat.shiftLeft_eq, Nat.one_mul]; exact Nat.pow_lt_pow_right (by omega) (by omega)
    have ho' : o < 2 ^ (i + 1) := lt_of_lt_of_le ho (Nat.pow_le_pow_right (by omega) (by omega))
    have hor := Nat.or_lt_two_pow ho' hpow
    have h16 : 2 ^ (i + 1) ≤ 65536 := le_trans (Nat.pow_le_pow_right (by omega) (show i + 1 ≤ 16 by omega)) (by decide)
    have key : ∀ o', o' < 2 ^ (i + 1) →
        (∀ j, o'.testBit j = true ↔ o.testBit j = true ∨ (j = i ∧ ((v0 < v1 ∧ g v0 > g v1) ∨ (v0 > v1 ∧ g v0 < g v1)))) →
        edgeOrientLoop g (i + 1) es o' < 2 ^ (i + ((v0, v1) :: es).length) ∧
        ∀ j, (edgeOrientLoop g (i + 1) es o').testBit j = true ↔ o.testBit j = true ∨ ∃ v, i ≤ j ∧
          ((v0, v1) :: es)[j - i]? = some v ∧ ((v.1 < v.2 ∧ g v.1 > g v.2) ∨ (v.1 > v.2 ∧ g v.1 < g v.2)) := by
      intro o' hlt hbit
      obtain ⟨h1, h2⟩ := edgeOrientLoop_spec g es (i + 1) o' hlt (by omega)
      refine ⟨by rw [List.length_cons, show i + (es.length + 1) = i + 1 + es.length by omega]; exact h1, fun j => ?_⟩
      rw [h2, hbit]
      constructor
      · rintro ((h | ⟨rfl, h⟩) | ⟨v, hij, hv, h⟩)
        · exact Or.inl h
        · exact Or.inr ⟨(v0, v1), le_refl _, by simp, h⟩
        · refine Or.inr ⟨v, by omega, ?_, h⟩
          rw [show j - i = (j - (i + 1)) + 1 by omega, List.getElem?_cons_succ]; exact hv
      · rintro (h | ⟨v, hij, hv, h⟩)
        · exact Or.inl (Or.inl h)
        · rcases Nat.eq_or_lt_of_le hij with rfl | hij
          · rw [Nat.sub_self, List.getElem?_cons_zero, Option.some.injEq] at hv
            subst hv
            exact Or.inl (Or.inr ⟨rfl, h⟩)
          · refine Or.inr ⟨v, by omega, ?_, h⟩
            rw [show j - i = (j - (i + 1)) + 1 by omega, List.getElem?_cons_succ] at hv; exact hv
    split
    · rename_i hc
      rw [Nat.mod_eq_of_lt (lt_of_lt_of_le hor h16)]
      refine key _ hor fun j => ?_
      rw [Nat.testBit_or, Nat.shiftLeft_eq, Nat.one_mul, Nat.testBit_two_pow, Bool.or_eq_true, decide_eq_true_eq]
      constructor
      · rintro (h | h)
        · exact Or.inl h
        · exact Or.inr ⟨h.symm, hc⟩
      · rintro (h | h)
        · exact Or.inl h
        · exact Or.inr h.1.symm
    · rename_i hc
      exact key _ ho' fun j => ⟨Or.inl, fun h => h.elim id fun h => absurd h.2 hc⟩

/-- Tangent of an edge with local vertices `v0`, `v1` at positions `x`: it points from the vertex with the smaller local number to the
one with the larger local number (convention of the Nédélec elements in dune-localfunctions); reversed if the flag is set. -/
def orientedTangent {V : Type} [AddGroup V] (x : Nat → V) (v0 v1 : Nat) (flip : Bool) : V :=
  let t := x (max v0 v1) - x (min v0 v1)
  if flip then -t else t

/-- The global direction of an edge: from the vertex with smaller global index to the one with larger index. -/
def globalTangent {V : Type} [AddGroup V] (pos : Nat → V) (a b : Nat) : V := pos (max a b) - pos (min a b)

theorem oriented_eq {V : Type} [AddGroup V] (pos : Nat → V) (g : Nat → Nat) (v0 v1 : Nat) (hv : v0 ≠ v1) (hg : g v0 ≠ g v1) (b : Bool)
    (hb : b = true ↔ (v0 < v1 ∧ g v0 > g v1) ∨ (v0 > v1 ∧ g v0 < g v1)) :
    orientedTangent (fun v => pos (g v)) v0 v1 b = globalTangent pos (g v0) (g v1) := by
  unfold orientedTangent globalTangent
  rcases Nat.lt_or_gt_of_ne hv with h | h <;> rcases Nat.lt_or_gt_of_ne hg with h' | h'
  · have : b = false := by rw [← Bool.not_eq_true, hb]; omega
    subst this
    simp [Nat.max_eq_right h.le, Nat.min_eq_left h.le, Nat.max_eq_right h'.le, Nat.min_eq_left h'.le]
  · have : b = true := by rw [hb]; omega
    subst this
    simp [Nat.max_eq_right h.le, Nat.min_eq_left h.le, Nat.max_eq_left h'.le, Nat.min_eq_right h'.le]
  · have : b = true := by rw [hb]; omega
    subst this
    simp [Nat.max_eq_left h.le, Nat.min_eq_right h.le, Nat.max_eq_right h'.le, Nat.min_eq_left h'.le]
  · have : b = false := by rw [← Bool.not_eq_true, hb]; omega
    subst this
    simp [Nat.max_eq_left h.le, Nat.min_eq_right h.le, Nat.max_eq_left h'.le, Nat.min_eq_right h'.le]

/-- C47, Nédélec: the stored number selects a finite element of the kind of the cell (nothing lost in 16 bits), and its
orientation bits make the tangent of each edge point in the global direction. As the global direction only depends on the two global
vertices, all elements sharing the edge agree. -/
theorem C47_nedelec {V : Type} [AddGroup V] (pos : Nat → V) (dim : Nat) (hdim : dim = 2 ∨ dim = 3) (t : Geo)
    (ht : t = simplexOf dim ∨ t = cubeOf dim) (fixed : Option Geo) (hfix : ∀ u, fixed = some u → u = t)
    (g : Nat → Nat) (hg : ∀ v < t.nv, ∀ v' < t.nv, g v = g v' → v = v') :
    ∃ bits, nedelecFind dim fixed g t = some (kindOf t, bits) ∧ bits < numEdgeVariants t ∧
      ∀ i v0 v1, (refOf t).edges[i]? = some (v0, v1) →
        orientedTangent (fun v => pos (g v)) v0 v1 (bits.testBit i) = globalTangent pos (g v0) (g v1) := by
  have hmem : t ∈ elemTypes := by rcases hdim with rfl | rfl <;> rcases ht with rfl | rfl <;> decide
  have hlen : (refOf t).edges.length ≤ 12 := by
    rcases hdim with rfl | rfl <;> rcases ht with rfl | rfl <;> decide
  obtain ⟨hlt, hbits⟩ := edgeOrientLoop_spec g (refOf t).edges 0 0 (by decide) (by omega)
  rw [Nat.zero_add] at hlt
  refine ⟨edgeOrientLoop g 0 (refOf t).edges 0, ?_, hlt, ?_⟩
  · rw [nedelecFind]
    revert hlt
    generalize edgeOrientLoop g 0 (refOf t).edges 0 = o
    intro hlt
    cases fixed with
    | some u =>
      obtain rfl := hfix u rfl
      simp only [edgeVariants, Option.isNone_some, Bool.false_eq_true, false_and, if_false]
      rw [getElem?_range_map _ _ _ (show o < numEdgeVariants u from hlt)]
      congr 2
      rcases hdim with rfl | rfl <;> rcases ht with rfl | rfl <;> decide
    | none =>
      replace hlt : o < numEdgeVariants t := hlt
      have v23 : numEdgeVariants (simplexOf 2) = 8 := by decide
      have v24 : numEdgeVariants (cubeOf 2) = 16 := by decide
      have v34 : numEdgeVariants (simplexOf 3) = 64 := by decide
      have v38 : numEdgeVariants (cubeOf 3) = 4096 := by decide
      have n2 : simplexOf 2 ≠ cubeOf 2 := by decide
      have n3 : simplexOf 3 ≠ cubeOf 3 := by decide
      have k2 : kindOf (simplexOf 2) = .simplex ∧ kindOf (cubeOf 2) = .cube := by decide
      have k3 : kindOf (simplexOf 3) = .simplex ∧ kindOf (cubeOf 3) = .cube := by decide
      simp only [edgeVariants, Option.isNone_none, true_and]
      rcases hdim with rfl | rfl <;> rcases ht with rfl | rfl
      · rw [if_neg n2, List.getElem?_append_left (by simpa using hlt), getElem?_range_map _ _ _ hlt, k2.1]
      · rw [if_pos rfl, Nat.mod_eq_of_lt (by rw [v23]; rw [v24] at hlt; omega),
          List.getElem?_append_right (by simp), List.length_map, List.length_range, Nat.add_sub_cancel,
          getElem?_range_map _ _ _ hlt, k2.2]
      · rw [if_neg n3, List.getElem?_append_left (by simpa using hlt), getElem?_range_map _ _ _ hlt, k3.1]
      · rw [if_pos rfl, Nat.mod_eq_of_lt (by rw [v34]; rw [v38] at hlt; omega),
          List.getElem?_append_right (by simp), List.length_map, List.length_range, Nat.add_sub_cancel,
          getElem?_range_map _ _ _ hlt, k3.2]
  · intro i v0 v1 hi
    obtain ⟨m1, m2, m3⟩ := (refOf_table t hmem).2.2.2.2.2.1 _ (List.mem_of_getElem? hi)
    refine oriented_eq pos g v0 v1 m3 (fun h => m3 (hg _ m1 _ m2 h)) _ ?_
    rw [hbits]
    simp [hi]

example : nedelecFind 2 none (fun v => [7, 3, 5].getD v 0) ⟨2, 3⟩ = some (Kind.simplex, 3) ∧
    nedelecFind 2 none (fun v => [7, 3, 5, 1].getD v 0) ⟨2, 4⟩ = some (Kind.cube, 15) := by decide

/-- `computeEdgeOrientations` for one triangle, mapperutilities.hh:140-161: bit of edge `i`; used by Morley and Argyris. -/
def edgeOrientations (ids : Nat → Nat) : List Bool := triangle.edges.map fun v => decide (ids v.1 > ids v.2)

/-- C47, Morley/Argyris: the edge flags make the tangent of every edge point from the vertex with the smaller id to the one
with the larger id. -/
theorem C47_edgeOrientations {V : Type} [AddGroup V] (pos : Nat → V) (ids : Nat → Nat) (hids : ∀ v < 3, ∀ v' < 3, ids v = ids v' → v = v')
    (i v0 v1 : Nat) (h : triangle.edges[i]? = some (v0, v1)) :
    ∃ b, (edgeOrientations ids)[i]? = some b ∧
      orientedTangent (fun v => pos (ids v)) v0 v1 b = globalTangent pos (ids v0) (ids v1) := by
  refine ⟨decide (ids v0 > ids v1), by simp [edgeOrientations, h], ?_⟩
  have hv : v0 < v1 ∧ v1 < 3 := by
    have : ∀ p ∈ triangle.edges, p.1 < p.2 ∧ p.2 < 3 := by decide
    exact this _ (List.mem_of_getElem? h)
  refine oriented_eq pos ids v0 v1 (by omega) (fun he => ?_) _ ?_
  · have := hids _ (by omega) _ (by omega) he; omega
  · rw [decide_eq_true_eq]; omega

example : edgeOrientations (fun v => [7, 3, 5].getD v 0) = [true, true, false] := by decide

/-! ## C48: layouts -/

/-- `dofLayout`, raviartthomasbasis.hh:267-278. -/
def rtLayout (k dim : Nat) : Layout := fun t =>
  if t = pyramidT ∧ k = 0 then 1
  else if t.dim = dim then (if t.nv = 2 ^ t.dim then (if dim = 2 then k * (k + 1) * dim else k * (k + 1) * (k + 1) * dim) else k * dim)
  else if t.dim + 1 = dim then (if t.nv = 2 ^ t.dim then (dim - 2) * 2 * k + k + 1 else (dim - 1) * k + 1)
  else 0

/-- `dofLayout`, brezzidouglasmarinibasis.hh:172-181. -/
def bdmLayout (k dim : Nat) : Layout := fun t =>
  if t.dim = dim then dim * (k - 1) * 3 else if t.dim + 1 = dim then dim + (k - 1) else 0

/-- Layout `mcmgLayout(Dim<1>{})` of the Nédélec basis, nedelecbasis.hh:166. -/
def nedelecLayout : Layout := fun t => if t.dim = 1 then 1 else 0

/-- Dimension of the Raviart–Thomas space of index `k`: `P_k^d + x P_k` on simplices, `Q_{k+1,k} × …` on cubes; lowest order on
pyramids (macro element of two tetrahedra: five facets and one interior function) and prisms. -/
def rtDim (k : Nat) (t : Geo) : Nat :=
  if t = ⟨2, 3⟩ then (k + 1) * (k + 3) else if t = ⟨3, 4⟩ then (k + 1) * (k + 2) * (k + 4) / 2
  else if t = ⟨2, 4⟩ then 2 * (k + 1) * (k + 2) else if t = ⟨3, 8⟩ then 3 * (k + 1) ^ 2 * (k + 2)
  else if t = pyramidT then 6 else 5

/-- Dimension of the BDM space: `P_k^2` on triangles, `P_k^2` plus two (2d) resp. `3(k+1)` (3d) curls on cubes. -/
def bdmDim (k : Nat) (t : Geo) : Nat :=
  if t = ⟨2, 3⟩ then (k + 1) * (k + 2) else if t = ⟨2, 4⟩ then (k + 1) * (k + 2) + 2
  else (k + 1) * (k + 2) * (k + 3) / 2 + 3 * (k + 1)

/-- The available Raviart–Thomas elements, raviartthomasbasis.hh:37-123. -/
def rtAvailable (k : Nat) (t : Geo) : Bool :=
  (t = ⟨2, 3⟩ && k ≤ 1) || (t = ⟨3, 4⟩ && k = 0) || (t = ⟨2, 4⟩ && k ≤ 2) || (t = ⟨3, 8⟩ && k ≤ 1) ||
  (t = ⟨3, 5⟩ && k = 0) || (t = ⟨3, 6⟩ && k = 0)

/-- C48, Raviart–Thomas: for each available element the layout adds up to the dimension of the local space. -/
theorem C48_raviartThomas (k : Nat) (t : Geo) (h : rtAvailable k t = true) : layoutSum (rtLayout k t.dim) t = rtDim k t := by
  have hk : k ≤ 2 := by
    by_contra hk
    simp [rtAvailable] at h
    omega
  have ht : t ∈ elemTypes := by
    simp only [rtAvailable, Bool.or_eq_true, Bool.and_eq_true, decide_eq_true_eq] at h
    simp only [elemTypes, List.mem_cons, List.not_mem_nil, or_false]
    tauto
  have : ∀ k < 3, ∀ t ∈ elemTypes, rtAvailable k t = true → layoutSum (rtLayout k t.dim) t = rtDim k t := by decide
  exact this k (by omega) t ht h

/-- For quadrilaterals the formula is right for every `k`. -/
theorem C48_rt_quadrilateral (k : Nat) : layoutSum (rtLayout k 2) ⟨2, 4⟩ = rtDim k ⟨2, 4⟩ := by
  simp [layoutSum, stdSubs, subVerts, refOf, rtLayout, rtDim, pyramidT, quadrilateral, List.range_succ]
  ring

/-- C48, BDM, lowest order: right for triangles, quadrilaterals and hexahedra. -/
theorem C48_bdm1 : ∀ t ∈ [(⟨2, 3⟩ : Geo), ⟨2, 4⟩, ⟨3, 8⟩], layoutSum (bdmLayout 1 t.dim) t = bdmDim 1 t := by decide

/-- C48 is false for BDM of order 2 (available for triangles and quadrilaterals): the layout reserves 6 interior DOFs per element,
the local spaces have only 3 resp. 2, so `dimension()` counts 3 resp. 4 indices per element that are never used. -/
theorem C48_bdm2_false : layoutSum (bdmLayout 2 2) ⟨2, 3⟩ = bdmDim 2 ⟨2, 3⟩ + 3 ∧
    layoutSum (bdmLayout 2 2) ⟨2, 4⟩ = bdmDim 2 ⟨2, 4⟩ + 4 := by decide

/-- Consequence for any grid: with at most `n` used interior numbers per element some index is never assigned. -/
theorem C48_bdm2_unused {S : Type} {G : GridView E S} (h : StdGrid G) (hd : G.dim = 2) {keys : E → List Key}
    (hk : KeysOK G (bdmLayout 2 2) keys) (hint : ∀ e, ∀ k ∈ keys e, k.codim = 0 → k.index < 3) (e : E) :
    ∃ n < (mapperLeaf G (bdmLayout 2 2) keys).dim, ∀ e', n ∉ (mapperLeaf G (bdmLayout 2 2) keys).loc e' := by
  have hg : G.geo (G.sub e 0 0) = G.elemGeo e := elem_geo h e
  have hlay : bdmLayout 2 2 (G.geo (G.sub e 0 0)) = 6 := by
    simp [bdmLayout, hg, (h.base.elemMem e).2, hd]
  refine ⟨mapperIndex G (bdmLayout 2 2) (G.sub e 0 0) + 5, mapper_lt h.base _ _ _ (by omega), ?_⟩
  intro e' hmem
  simp only [mapperLeaf, List.mem_map] at hmem
  obtain ⟨k, hke, heq⟩ := hmem
  obtain ⟨hc, t, ht, hi⟩ := hk.ok e' k hke
  have hgt := h.base.subGeo e' _ _ t ht
  obtain ⟨h1, h2⟩ := (mapper_inj h.base _ _ _ _ _ (by rw [hgt]; exact hi) (by omega)).mp heq
  have hc0 : k.codim = 0 := by
    rw [h.std] at ht
    simp only [stdSubs, List.getElem?_map, Option.map_eq_some_iff] at ht
    obtain ⟨v, -, rfl⟩ := ht
    have e1 : (G.geo (G.sub e' k.codim k.sub)).dim = 2 - k.codim := by
      rw [hgt]; simp only; rw [(refOf_table _ (h.type e')).1, (h.base.elemMem e').2, hd]
    rw [h1, hg, (h.base.elemMem e).2, hd] at e1
    omega
  have := hint e' k hke hc0
  omega

/-- Nédélec of lowest order: one DOF per edge. -/
theorem C48_nedelec : ∀ t ∈ elemTypes, layoutSum nedelecLayout t = (refOf t).edges.length := by decide

end Verif.HDiv

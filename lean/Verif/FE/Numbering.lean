import Verif.FE.Layouts
import Verif.FE.Hermite
import Verif.Lagrange.DG

/-!
# Numbering of the degrees of freedom of the Hermite, Morley and Argyris bases

The local coefficients of the three finite elements and the indices of the three leaf bases on simplex grids.
-/

namespace Verif.FE

open Verif.Mapper Verif.Lagrange

variable {E S : Type}

/-! ## Model -/

/-- The default constructed `LocalKey`. -/
def defaultKey : Key := ⟨0, 0, 0⟩

/-- cubichermitebasis.hh:133-150: the constructor of `CubicHermiteLocalCoefficients`. An access out of range is `none`. -/
def hermiteKeys (dim : Nat) (reduced : Bool) : Option (List Key) :=
  writeAll (List.replicate (Hermite.size dim reduced) defaultKey)
    (((List.range (dim + 1)).flatMap fun i => (List.range (dim + 1)).map fun k => ((dim + 1) * i + k, (⟨i, dim, k⟩ : Key))) ++
      if reduced then [] else (List.range ((dim - 1) * (dim - 1))).map fun i =>
        ((dim + 1) * (dim + 1) + i, (⟨i, if dim = 2 then 0 else 1, 0⟩ : Key)))

/-- morleybasis.hh:235-242: the constructor of `MorleyLocalCoefficients`. -/
def morleyKeys : Option (List Key) :=
  writeAll (List.replicate 6 defaultKey) ((List.range 3).flatMap fun i => [(i, (⟨i, 2, 0⟩ : Key)), (3 + i, ⟨i, 1, 0⟩)])

/-- argyrisbasis.hh:82-90: the constructor of `ArgyrisLocalCoefficients`. -/
def argyrisKeys : Option (List Key) :=
  writeAll (List.replicate 21 defaultKey)
    (((List.range 3).flatMap fun i => (List.range 6).map fun k => (6 * i + k, (⟨i, 2, k⟩ : Key))) ++
      (List.range 3).map fun i => (18 + i, (⟨i, 2 - 1, 0⟩ : Key)))

/-! ## Specification -/

/-- A simplex. -/
def simplex (dim : Nat) : Geo := ⟨dim, dim + 1⟩

/-- A grid of simplices. -/
structure SimplexGrid (G : GridView E S) : Prop extends StdGrid G where
  simplices : ∀ e, G.elemGeo e = simplex G.dim
  types : G.types.Perm ((List.range (G.dim + 1)).map simplex)

/-- The leaf basis on `G` for a finite element with local keys `keys` and layout `lay`: the indices are consecutive
(`bounded`, `used`), an element gets as many different indices as the finite element has functions, and two
functions share an index if and only if they belong to the same grid entity and have the same number there. -/
structure Numbering (G : GridView E S) (lay : Layout) (keys : List Key) : Prop where
  bounded : ∀ e, ∀ n ∈ (mapperLeaf G lay fun _ => keys).loc e, n < (mapperLeaf G lay fun _ => keys).dim
  used : ∀ n < (mapperLeaf G lay fun _ => keys).dim, ∃ e, n ∈ (mapperLeaf G lay fun _ => keys).loc e
  nodup : ∀ e, ((mapperLeaf G lay fun _ => keys).loc e).Nodup
  length : ∀ e, ((mapperLeaf G lay fun _ => keys).loc e).length = keys.length
  maxN : (mapperLeaf G lay fun _ => keys).maxN = keys.length
  shared : ∀ (e e' : E) (l l' : Nat) (k k' : Key), keys[l]? = some k → keys[l']? = some k' →
    (((mapperLeaf G lay fun _ => keys).loc e)[l]? = ((mapperLeaf G lay fun _ => keys).loc e')[l']? ↔
      G.sub e k.codim k.sub = G.sub e' k'.codim k'.sub ∧ k.index = k'.index)

/-! ## Proofs -/

/-- The keys are exactly those of the layout. -/
def Matches (dim : Nat) (lay : Layout) (keys : List Key) : Prop :=
  keys.Nodup ∧ (∀ k ∈ keys, k.codim ≤ dim ∧ ∃ t, (stdSubs (simplex dim) k.codim)[k.sub]? = some t ∧ k.index < lay t) ∧
  ∀ c < dim + 1, ∀ i < (stdSubs (simplex dim) c).length, ∀ j < lay ((stdSubs (simplex dim) c).getD i ⟨0, 0⟩), (⟨i, c, j⟩ : Key) ∈ keys

theorem keysOK {G : GridView E S} (h : SimplexGrid G) {lay : Layout} {keys : List Key} (hm : Matches G.dim lay keys) :
    KeysOK G lay fun _ => keys where
  nodup _ := hm.1
  ok e k hk := by
    rw [h.std, h.simplices]
    exact hm.2.1 k hk

theorem keysFull {G : GridView E S} (h : SimplexGrid G) {lay : Layout} {keys : List Key} (hm : Matches G.dim lay keys) :
    KeysFull G lay fun _ => keys := by
  intro e c i t j hc hi hj
  rw [h.std, h.simplices] at hi
  have hlt := (List.getElem?_eq_some_iff.mp hi).1
  refine hm.2.2 c (by omega) i hlt j ?_
  rw [List.getD_eq_getElem?_getD, hi]
  exact hj

theorem numbering_of {G : GridView E S} (h : SimplexGrid G) (hne : Nonempty E) {lay : Layout} {keys : List Key}
    (hm : Matches G.dim lay keys) : Numbering G lay keys := by
  have hk := keysOK h hm
  have hf := keysFull h hm
  have wf := mapperLeaf_WF h.base hk
  have cov := mapperLeaf_Covered h.base hf
  rw [IndexTree.PB.WF] at wf
  rw [IndexTree.PB.Covered] at cov
  refine ⟨fun e n hn => wf.1 e n hn, fun n hn => ?_, mapperLeaf_nodup h.base hk, fun e => by simp [mapperLeaf], ?_, ?_⟩
  · obtain ⟨e, -, he⟩ := cov n hn
    exact ⟨e, he⟩
  · obtain ⟨e⟩ := hne
    have hperm : keys.Perm (allKeys G lay (G.elemGeo e)) := by
      rw [List.perm_ext_iff_of_nodup hm.1 (allKeys_nodup G lay _)]
      intro k
      rw [mem_allKeys]
      constructor
      · exact hk.ok e k
      · rintro ⟨h1, t, h2, h3⟩
        exact hf e _ _ t _ h1 h2 h3
    rw [hperm.length_eq, allKeys_length]
    simp only [mapperLeaf, maxNodeSize]
    have hfil : (G.types.filter fun t => t.dim = G.dim) = [simplex G.dim] := by
      have hp : (G.types.filter fun t => t.dim = G.dim).Perm [simplex G.dim] := by
        refine (h.types.filter _).trans ?_
        have h0 : (((List.range G.dim).map simplex).filter fun t => t.dim = G.dim) = [] := by
          rw [List.filter_eq_nil_iff]
          intro t ht
          rw [List.mem_map] at ht
          obtain ⟨d, hd, rfl⟩ := ht
          rw [List.mem_range] at hd
          exact fun hc => hd.ne (of_decide_eq_true hc)
        rw [List.range_succ, List.map_append, List.filter_append, h0]
        simp [simplex]
      exact List.perm_singleton.mp hp
    rw [hfil, h.simplices]
    simp
  · intro e e' l l' k k' h1 h2
    exact mapperLeaf_same h.base hk e e' l l' k k' h1 h2

theorem matches_iff (dim : Nat) (lay : Layout) (keys : List Key) : Matches dim lay keys ↔
    keys.Nodup ∧ (keys.all fun k => decide (k.codim ≤ dim) &&
      ((stdSubs (simplex dim) k.codim)[k.sub]?.any fun t => decide (k.index < lay t))) = true ∧
    ∀ c < dim + 1, ∀ i < (stdSubs (simplex dim) c).length, ∀ j < lay ((stdSubs (simplex dim) c).getD i ⟨0, 0⟩), (⟨i, c, j⟩ : Key) ∈ keys := by
  simp [Matches, List.all_eq_true, Option.any_eq_true]

instance (dim : Nat) (lay : Layout) (keys : List Key) : Decidable (Matches dim lay keys) :=
  decidable_of_iff _ (matches_iff dim lay keys).symm

/-! ## Theorems -/

/-- **C60, cubic Hermite basis**, in all dimensions and variants that exist. -/
theorem C60_hermite {G : GridView E S} (h : SimplexGrid G) (hne : Nonempty E) {reduced : Bool}
    (hx : Hermite.Exists G.dim reduced) :
    ∃ keys, hermiteKeys G.dim reduced = some keys ∧ keys.length = Hermite.size G.dim reduced ∧
      Numbering G (hermiteLayout G.dim reduced) keys ∧
      (mapperLeaf G (hermiteLayout G.dim reduced) fun _ => keys).dim = (G.dim + 1) * G.gsize (simplex 0) +
        if G.dim = 1 ∨ reduced = true then 0 else G.gsize (simplex 2) := by
  have key : ∃ keys, hermiteKeys G.dim reduced = some keys ∧ keys.length = Hermite.size G.dim reduced ∧
      Matches G.dim (hermiteLayout G.dim reduced) keys := by
    rcases hx.cases with ⟨h1, h2⟩ | ⟨h1, h2⟩ | ⟨h1, h2⟩ | ⟨h1, h2⟩ <;> rw [h1, h2] <;>
      exact ⟨_, rfl, by decide +kernel, by decide +kernel⟩
  obtain ⟨keys, h1, h2, h3⟩ := key
  refine ⟨keys, h1, h2, numbering_of h hne h3, ?_⟩
  have hp := (h.types.map fun t => G.gsize t * hermiteLayout G.dim reduced t).sum_eq
  simp only [mapperLeaf, mapperSize, hp]
  rcases hx.cases with ⟨h1, h2⟩ | ⟨h1, h2⟩ | ⟨h1, h2⟩ | ⟨h1, h2⟩ <;> rw [h1, h2] <;>
    simp [List.range_succ, hermiteLayout, simplex, Nat.mul_comm]

/-- **C60, Morley basis**: one degree of freedom per vertex and per edge. -/
theorem C60_morley {G : GridView E S} (h : SimplexGrid G) (hne : Nonempty E) (hd : G.dim = 2) :
    ∃ keys, morleyKeys = some keys ∧ keys.length = 6 ∧ Numbering G morleyLayout keys ∧
      (mapperLeaf G morleyLayout fun _ => keys).dim = G.gsize (simplex 0) + G.gsize (simplex 1) := by
  have key : ∃ keys, morleyKeys = some keys ∧ keys.length = 6 ∧ Matches 2 morleyLayout keys :=
    ⟨_, rfl, by decide +kernel, by decide +kernel⟩
  obtain ⟨keys, h1, h2, h3⟩ := key
  refine ⟨keys, h1, h2, numbering_of h hne (by rw [hd]; exact h3), ?_⟩
  have hp := (h.types.map fun t => G.gsize t * morleyLayout t).sum_eq
  simp only [mapperLeaf, mapperSize, hp, hd]
  simp [List.range_succ, morleyLayout, simplex]

/-- **C60, Argyris basis**: six degrees of freedom per vertex and one per edge. -/
theorem C60_argyris {G : GridView E S} (h : SimplexGrid G) (hne : Nonempty E) (hd : G.dim = 2) :
    ∃ keys, argyrisKeys = some keys ∧ keys.length = 21 ∧ Numbering G argyrisLayout keys ∧
      (mapperLeaf G argyrisLayout fun _ => keys).dim = 6 * G.gsize (simplex 0) + G.gsize (simplex 1) := by
  have key : ∃ keys, argyrisKeys = some keys ∧ keys.length = 21 ∧ Matches 2 argyrisLayout keys :=
    ⟨_, rfl, by decide +kernel, by decide +kernel⟩
  obtain ⟨keys, h1, h2, h3⟩ := key
  refine ⟨keys, h1, h2, numbering_of h hne (by rw [hd]; exact h3), ?_⟩
  have hp := (h.types.map fun t => G.gsize t * argyrisLayout t).sum_eq
  simp only [mapperLeaf, mapperSize, hp, hd]
  simp [List.range_succ, argyrisLayout, simplex, Nat.mul_comm]

/-- Two triangles with a common edge. -/
theorem demoGrid_simplex : SimplexGrid demoGrid.toGridView where
  toStdGrid := demoGrid_std
  simplices := by decide
  types := by decide

example : ∃ keys, argyrisKeys = some keys ∧
    (mapperLeaf demoGrid.toGridView argyrisLayout fun _ => keys).dim = 6 * 4 + 5 := by
  obtain ⟨keys, h1, -, -, h4⟩ := C60_argyris demoGrid_simplex ⟨0⟩ rfl
  exact ⟨keys, h1, h4.trans rfl⟩

end Verif.FE

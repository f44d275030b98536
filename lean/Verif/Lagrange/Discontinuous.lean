import Verif.Lagrange.Reproduction
import Verif.Lagrange.DG

/-!
# The space of discontinuous Lagrange functions

The basis `LagrangeDGBasis` of order `k` spans all functions that are polynomials of degree `k` on each element.
-/

namespace Verif.Lagrange.Continuity

open Mapper
open Verif.Piola (Vec)
open MvPolynomial (eval)

variable {E S K : Type} [Field K] {n : Nat}

/-! ## Model -/

/-- The local finite elements of `LagrangeDGBasis` are those of `LagrangeBasis` (lagrangedgbasis.hh:42, 102): `keys t` are the local keys of the element type `t`. -/
structure ElementKeys (order : Nat) (G : GridView E S) (keys : Geo → List Key) : Prop where
  nodup : ∀ e, (keys (G.elemGeo e)).Nodup
  mem : ∀ e k, k ∈ keys (G.elemGeo e) ↔ ValidLocal order (G.elemGeo e) k

/-- Indices of the functions of an element. -/
def dgLoc (G : GridView E S) (order : Nat) (keys : Geo → List Key) (e : E) : List Nat := (dgLeaf G order fun e => (keys (G.elemGeo e)).length).loc e

/-- discreteglobalbasisfunction.hh:345-363 for the discontinuous basis. -/
def dgValue (G : GridView E S) (order : Nat) (keys : Geo → List Key) (vec : Nat → K) (e : E) (x : Vec K n) : K :=
  (((dgLoc G order keys e).map vec).zip (lagrangeValues order keys (G.elemGeo e) x)).foldl (fun y cv => y + cv.1 * cv.2) 0

/-- interpolate.hh:151-173, 254-259 for the discontinuous basis. -/
noncomputable def dgInterpolate (G : GridView E S) (order : Nat) (keys : Geo → List Key) (f : E → Vec ℝ n → ℝ) (vec : Nat → ℝ) (es : List E) : Option (Nat → ℝ) :=
  Verif.FE.Interpolation.interpolateAll (dgLoc G order keys)
    (fun _ e => some ((keys (G.elemGeo e)).map fun k => f e (lagrangeNode ℝ n order (G.elemGeo e) k))) vec es

/-! ## Lemmas -/

theorem mem_localKeys_iff {order : Nat} {t : Geo} {k : Key} : k ∈ localKeys order t ↔ ValidLocal order t k := by
  refine ⟨mem_localKeys, fun ⟨h1, u, h2, h3⟩ => ?_⟩
  simp only [localKeys, List.mem_flatMap, List.mem_range, List.mem_map]
  obtain ⟨hi, rfl⟩ := List.getElem?_eq_some_iff.1 h2
  exact ⟨k.codim, by omega, k.sub, hi, k.index, by simpa [List.getD_eq_getElem?_getD, hi] using h3, rfl⟩

theorem keys_length {G : GridView E S} (helem : ∀ e, Supported n (G.elemGeo e)) {order : Nat} {keys : Geo → List Key} (hk : ElementKeys order G keys) (e : E) :
    (keys (G.elemGeo e)).length = localDim order (G.elemGeo e) := by
  have hp : (keys (G.elemGeo e)).Perm (localKeys order (G.elemGeo e)) :=
    (List.perm_ext_iff_of_nodup (hk.nodup e) (localKeys_nodup _ _)).2 fun k => by rw [hk.mem, mem_localKeys_iff]
  rw [hp.length_eq, localKeys_length, C24_counts order _ (helem e).1]
  intro h5
  have := (helem e).cases
  rw [h5] at this
  exact absurd this.2 (by decide)

theorem dgLoc_get (G : GridView E S) (order : Nat) (keys : Geo → List Key) (e : E) {l : Nat} (hl : l < (keys (G.elemGeo e)).length) :
    (dgLoc G order keys e)[l]? = some (mapperIndex G (dgLayout order G.dim) (G.sub e 0 0) + l) := by
  simp [dgLoc, dgLeaf, hl]

theorem dgValue_sum (G : GridView E S) (order : Nat) (keys : Geo → List Key) (vec : Nat → K) (e : E) (x : Vec K n) :
    dgValue G order keys vec e x = ∑ l : Fin (keys (G.elemGeo e)).length,
      vec (mapperIndex G (dgLayout order G.dim) (G.sub e 0 0) + l) * lagrangeShape order (G.elemGeo e) (keys (G.elemGeo e))[l] x := by
  have hfold : ∀ (L : List (K × K)) (y : K), L.foldl (fun y cv => y + cv.1 * cv.2) y = y + (L.map fun cv => cv.1 * cv.2).sum := by
    intro L
    induction L with
    | nil => simp
    | cons a L ih => intro y; rw [List.foldl_cons, ih, List.map_cons, List.sum_cons, add_assoc]
  rw [dgValue, hfold, zero_add, Fin.sum_univ_def]
  congr 1
  apply List.ext_getElem
  · simp [dgLoc, dgLeaf, lagrangeValues]
  · intro l h1 h2
    simp [dgLoc, dgLeaf, lagrangeValues]

theorem polyOn_dg {G : GridView E S} (helem : ∀ e, Supported n (G.elemGeo e)) {order : Nat} (ho : 1 ≤ order) {keys : Geo → List Key} (hk : ElementKeys order G keys)
    (vec : Nat → K) (e : E) : PolyOn order (G.elemGeo e) (dgValue G order keys vec e : Vec K n → K) := by
  obtain ⟨P, h1, h2⟩ := polyOn_combination (K := K) (n := n) (order := order) (t := G.elemGeo e) (Finset.univ : Finset (Fin (keys (G.elemGeo e)).length))
    (fun l => vec (mapperIndex G (dgLayout order G.dim) (G.sub e 0 0) + l)) (fun l => lagrangeShape order (G.elemGeo e) (keys (G.elemGeo e))[l])
    (fun l _ => polyOn_shape ho (helem e) ((hk.mem e _).1 (List.getElem_mem _)))
  exact ⟨P, h1, fun x => by rw [dgValue_sum, ← h2]⟩

/-- **C85.** Every coefficient is the value in a Lagrange point of its element. -/
theorem C85_value [CharZero K] {G : GridView E S} (helem : ∀ e, Supported n (G.elemGeo e)) {order : Nat} (ho : 1 ≤ order) {keys : Geo → List Key}
    (hk : ElementKeys order G keys) (vec : Nat → K) (e : E) {l i : Nat} {k : Key} (hl : (keys (G.elemGeo e))[l]? = some k) (hi : (dgLoc G order keys e)[l]? = some i) :
    dgValue G order keys vec e (lagrangeNode K n order (G.elemGeo e) k) = vec i := by
  obtain ⟨hlt, rfl⟩ := List.getElem?_eq_some_iff.1 hl
  rw [dgLoc_get G order keys e hlt, Option.some.injEq] at hi
  have valid : ∀ l : Fin (keys (G.elemGeo e)).length, ValidLocal order (G.elemGeo e) (keys (G.elemGeo e))[l] := fun l => (hk.mem e _).1 (List.getElem_mem _)
  rw [dgValue_sum, Finset.sum_eq_single (⟨l, hlt⟩ : Fin (keys (G.elemGeo e)).length)]
  · have := lagrange_nodal (K := K) ho (helem e) (valid ⟨l, hlt⟩) (valid ⟨l, hlt⟩)
    simp only [Fin.getElem_fin] at this ⊢
    rw [this, if_pos trivial, mul_one, hi]
  · intro l' _ hne
    have := lagrange_nodal (K := K) ho (helem e) (valid ⟨l, hlt⟩) (valid l')
    simp only [Fin.getElem_fin] at this ⊢
    rw [this, if_neg, mul_zero]
    intro h
    exact hne (Fin.ext (((hk.nodup e).getElem_inj_iff).1 h))
  · intro h; exact absurd (Finset.mem_univ _) h

/-- **C85.** The discontinuous Lagrange basis of order `k` spans exactly the functions that are a polynomial of degree `k` on every element, and the coefficients are unique. -/
theorem C85_space [CharZero K] {G : GridView E S} (h : StdGrid G) (helem : ∀ e, Supported n (G.elemGeo e)) {order : Nat} (ho : 1 ≤ order) {keys : Geo → List Key}
    (hk : ElementKeys order G keys) (f : E → Vec K n → K) :
    ((∀ e, PolyOn order (G.elemGeo e) (f e)) ↔ ∃ vec : Nat → K, ∀ e x, f e x = dgValue G order keys vec e x) ∧
      ∀ vec vec' : Nat → K, (∀ e (x : Vec K n), dgValue G order keys vec e x = dgValue G order keys vec' e x) →
        ∀ i < (dgLeaf G order fun e => (keys (G.elemGeo e)).length).dim, vec i = vec' i := by
  obtain ⟨c1, c2, -⟩ := C25_dg h order (fun e => (keys (G.elemGeo e)).length) (keys_length helem hk)
  refine ⟨⟨fun hp => ?_, fun ⟨vec, hv⟩ e => ?_⟩, fun vec vec' heq i hi => ?_⟩
  · have hex : ∀ i, ∃ y : K, ∀ (e : E) (l : Nat) (k : Key), (keys (G.elemGeo e))[l]? = some k → (dgLoc G order keys e)[l]? = some i → f e (lagrangeNode K n order (G.elemGeo e) k) = y := by
      intro i
      by_cases hi : ∃ (e : E) (l : Nat) (k : Key), (keys (G.elemGeo e))[l]? = some k ∧ (dgLoc G order keys e)[l]? = some i
      · obtain ⟨e, l, k, hl, hi⟩ := hi
        refine ⟨f e (lagrangeNode K n order (G.elemGeo e) k), fun e' l' k' hl' hi' => ?_⟩
        have hm := List.mem_of_getElem? hi
        have hm' := List.mem_of_getElem? hi'
        obtain ⟨o, ho, hle⟩ := c1 e
        have hlt : i < (dgLeaf G order fun e => (keys (G.elemGeo e)).length).dim := by
          have : i ∈ List.range' o (localDim order (G.elemGeo e)) := by rw [← ho]; exact hm
          rw [List.mem_range'_1] at this
          omega
        obtain ⟨e0, -, hu⟩ := c2 i hlt
        obtain rfl : e' = e := (hu e' hm').trans (hu e hm).symm
        have h1 := (List.getElem?_eq_some_iff.1 hl).1
        have h2 := (List.getElem?_eq_some_iff.1 hl').1
        rw [dgLoc_get G order keys e' h1, Option.some.injEq] at hi
        rw [dgLoc_get G order keys e' h2, Option.some.injEq] at hi'
        obtain rfl : l' = l := by omega
        rw [hl] at hl'
        rw [Option.some.inj hl']
      · exact ⟨0, fun e l k h1 h2 => absurd ⟨e, l, k, h1, h2⟩ hi⟩
    choose vec hvec using hex
    refine ⟨vec, fun e x => unisolvent ho (helem e) (hp e) (polyOn_dg helem ho hk vec e) (fun k hkl => ?_) x⟩
    obtain ⟨l, hl⟩ := List.mem_iff_getElem?.1 ((hk.mem e k).2 hkl)
    have hi := dgLoc_get G order keys e (List.getElem?_eq_some_iff.1 hl).1
    rw [C85_value helem ho hk vec e hl hi]
    exact hvec _ e l k hl hi
  · obtain ⟨P, h1, h2⟩ := polyOn_dg helem ho hk vec e
    exact ⟨P, h1, fun x => by rw [hv, h2]⟩
  · obtain ⟨e, hm, -⟩ := c2 i hi
    obtain ⟨l, hl⟩ := List.mem_iff_getElem?.1 hm
    have hlt : l < (keys (G.elemGeo e)).length := by
      have := (List.getElem?_eq_some_iff.1 hl).1
      simpa [dgLeaf] using this
    have hkl := List.getElem?_eq_getElem hlt
    rw [← C85_value helem ho hk vec e hkl hl, ← C85_value helem ho hk vec' e hkl hl, heq]

/-- **C85.** Interpolation maps every function that is a polynomial of degree `k` on each element to itself, in particular continuous Lagrange functions; for all orders of traversal. -/
theorem C85_interpolate {G : GridView E S} (h : StdGrid G) (helem : ∀ e, Supported n (G.elemGeo e)) {order : Nat} (ho : 1 ≤ order) {keys : Geo → List Key}
    (hk : ElementKeys order G keys) (f : E → Vec ℝ n → ℝ) (hp : ∀ e, PolyOn order (G.elemGeo e) (f e)) (vec : Nat → ℝ) (es : List E) (hes : ∀ e, e ∈ es) :
    ∃ r, dgInterpolate G order keys f vec es = some r ∧ ∀ e x, dgValue G order keys r e x = f e x := by
  obtain ⟨w, hw⟩ := (C85_space h helem ho hk f).1.1 hp
  have hget : ∀ (e : E) (l i : Nat), (dgLoc G order keys e)[l]? = some i → ∃ k, (keys (G.elemGeo e))[l]? = some k ∧ f e (lagrangeNode ℝ n order (G.elemGeo e) k) = w i := by
    intro e l i hi
    have hlt : l < (keys (G.elemGeo e)).length := by
      have := (List.getElem?_eq_some_iff.1 hi).1
      simpa [dgLoc, dgLeaf] using this
    exact ⟨_, List.getElem?_eq_getElem hlt, by rw [hw, C85_value helem ho hk w e (List.getElem?_eq_getElem hlt) hi]⟩
  obtain ⟨r, r1, r2, -⟩ := Verif.FE.Interpolation.interpolateAll_spec (loc := dgLoc G order keys)
    (c := fun e => (keys (G.elemGeo e)).map fun k => f e (lagrangeNode ℝ n order (G.elemGeo e) k)) (fun _ _ => rfl) (by intro e; simp [dgLoc, dgLeaf]) (by
      intro e e' l l' i x x' hl hl' hx hx'
      obtain ⟨k, hkl, hv⟩ := hget e l i hl
      obtain ⟨k', hkl', hv'⟩ := hget e' l' i hl'
      simp only [List.getElem?_map, hkl, hkl', Option.map_some, Option.some.injEq] at hx hx'
      rw [← hx, ← hx', hv, hv']) vec es
  refine ⟨r, r1, fun e x => unisolvent ho (helem e) (polyOn_dg helem ho hk r e) (hp e) (fun k hkl => ?_) x⟩
  obtain ⟨l, hl⟩ := List.mem_iff_getElem?.1 ((hk.mem e k).2 hkl)
  have hi := dgLoc_get G order keys e (List.getElem?_eq_some_iff.1 hl).1
  rw [C85_value helem ho hk r e hl hi]
  exact r2 e (hes e) l _ _ hi (by simp [hl])

/-- **C85.** Interpolation is local: the coefficients of an element depend on the function on this element only, and are its values in the Lagrange points of the element. -/
theorem C85_local {G : GridView E S} (h : StdGrid G) (helem : ∀ e, Supported n (G.elemGeo e)) {order : Nat} {keys : Geo → List Key}
    (hk : ElementKeys order G keys) (f : E → Vec ℝ n → ℝ) (vec : Nat → ℝ) (es : List E) :
    ∃ r, dgInterpolate G order keys f vec es = some r ∧
      (∀ e ∈ es, ∀ (l : Nat) (k : Key), (keys (G.elemGeo e))[l]? = some k → ∀ i, (dgLoc G order keys e)[l]? = some i → r i = f e (lagrangeNode ℝ n order (G.elemGeo e) k)) ∧
      ∀ e, e ∉ es → ∀ i ∈ dgLoc G order keys e, r i = vec i := by
  obtain ⟨c1, c2, -⟩ := C25_dg h order (fun e => (keys (G.elemGeo e)).length) (keys_length helem hk)
  have hsame : ∀ (e e' : E) (l l' i : Nat), (dgLoc G order keys e)[l]? = some i → (dgLoc G order keys e')[l']? = some i → e' = e ∧ l' = l := by
    intro e e' l l' i hi hi'
    have hm := List.mem_of_getElem? hi
    have hm' := List.mem_of_getElem? hi'
    obtain ⟨o, ho, hle⟩ := c1 e
    have hlt : i < (dgLeaf G order fun e => (keys (G.elemGeo e)).length).dim := by
      have : i ∈ List.range' o (localDim order (G.elemGeo e)) := by rw [← ho]; exact hm
      rw [List.mem_range'_1] at this
      omega
    obtain ⟨e0, -, hu⟩ := c2 i hlt
    obtain rfl : e' = e := (hu e' hm').trans (hu e hm).symm
    refine ⟨rfl, ?_⟩
    have h1 : l < (keys (G.elemGeo e')).length := by
      have := (List.getElem?_eq_some_iff.1 hi).1
      simpa [dgLoc, dgLeaf] using this
    have h2 : l' < (keys (G.elemGeo e')).length := by
      have := (List.getElem?_eq_some_iff.1 hi').1
      simpa [dgLoc, dgLeaf] using this
    rw [dgLoc_get G order keys e' h1, Option.some.injEq] at hi
    rw [dgLoc_get G order keys e' h2, Option.some.injEq] at hi'
    omega
  obtain ⟨r, r1, r2, r3⟩ := Verif.FE.Interpolation.interpolateAll_spec (loc := dgLoc G order keys)
    (c := fun e => (keys (G.elemGeo e)).map fun k => f e (lagrangeNode ℝ n order (G.elemGeo e) k)) (fun _ _ => rfl) (by intro e; simp [dgLoc, dgLeaf]) (by
      intro e e' l l' i x x' hl hl' hx hx'
      obtain ⟨rfl, rfl⟩ := hsame e e' l l' i hl hl'
      rw [hx] at hx'
      exact Option.some.inj hx') vec es
  refine ⟨r, r1, fun e he l k hl i hi => r2 e he l i _ hi (by simp [hl]), fun e he i hi => r3 i fun e' he' hm => ?_⟩
  obtain ⟨l, hl⟩ := List.mem_iff_getElem?.1 hi
  obtain ⟨l', hl'⟩ := List.mem_iff_getElem?.1 hm
  obtain ⟨rfl, -⟩ := hsame e e' l l' i hl hl'
  exact he he'

theorem elementKeys_of {α : Type} {G : LGrid E S α} (h : G.OK) {order : Nat} {keys : Geo → List Key} (hk : LagrangeKeys G order fun e => keys (G.elemGeo e)) :
    ElementKeys order G.toGridView keys where
  nodup := hk.nodup
  mem e k := by simp only [hk.mem, ValidLocal, ValidKey, (h.base.elemMem e).2]

/-- **C85.** Every function of `LagrangeBasis` is a function of `LagrangeDGBasis` of the same order. The inclusion in the other direction holds exactly for the continuous ones. -/
theorem C85_continuous [CharZero K] {α : Type} [LinearOrder α] {G : LGrid E S α} (h : G.OK) (closed : Closed G) (helem : ∀ e, Supported n (G.elemGeo e)) {order : Nat}
    (ho : 1 ≤ order) (h17 : G.dim = 3 → order ≤ 17) {keys : Geo → List Key} (hk : LagrangeKeys G order fun e => keys (G.elemGeo e)) :
    (∀ vec : Nat → K, ∃ vec' : Nat → K, ∀ e (x : Vec K n),
      dgValue G.toGridView order keys vec' e x = value G order (fun e => keys (G.elemGeo e)) (lagrangeValues order keys) vec e x) ∧
    ∀ vec' : Nat → K, (Continuous G fun e (x : Vec K n) => dgValue G.toGridView order keys vec' e x) ↔
      ∃ vec : Nat → K, ∀ e (x : Vec K n), dgValue G.toGridView order keys vec' e x = value G order (fun e => keys (G.elemGeo e)) (lagrangeValues order keys) vec e x := by
  have hs : StdGrid G.toGridView := ⟨h.base, h.std, h.type, h.elemInj⟩
  have hk' := elementKeys_of h hk
  refine ⟨fun vec => ?_, fun vec' => ⟨fun hc => ?_, fun hv => ?_⟩⟩
  · obtain ⟨w, hw⟩ := (C85_space hs helem ho hk' _).1.1 (polyOn_value (n := n) h helem ho hk vec)
    exact ⟨w, fun e x => (hw e x).symm⟩
  · exact (C84_space h closed helem ho h17 hk _).1 ⟨hc, polyOn_dg helem ho hk' vec'⟩
  · exact ((C84_space h closed helem ho h17 hk _).2 hv).1

/-! ## Examples -/

theorem mixedGrid_std : StdGrid mixedGrid.toGridView := ⟨mixedGrid_OK.base, mixedGrid_OK.std, mixedGrid_OK.type, mixedGrid_OK.elemInj⟩

/-- A function that is `x₀² x₁²` on the quadrilateral and 5 on the triangle. -/
example (vec : Nat → ℝ) : ∃ r, dgInterpolate mixedGrid.toGridView 2 (gridKeys mixedGrid 2) (fun e (x : Vec ℝ 2) => if e = 0 then x 0 ^ 2 * x 1 ^ 2 else 5) vec [1, 0] = some r ∧
    ∀ e (x : Vec ℝ 2), dgValue mixedGrid.toGridView 2 (gridKeys mixedGrid 2) r e x = if e = 0 then x 0 ^ 2 * x 1 ^ 2 else 5 := by
  refine C85_interpolate mixedGrid_std mixed_elem (by decide) (elementKeys_of mixedGrid_OK (gridKeys_keys mixedGrid_OK 2)) _ (fun e => ?_) vec [1, 0] (by decide)
  have he : e = 0 ∨ e = 1 := by omega
  rcases he with rfl | rfl
  · refine ⟨MvPolynomial.X 0 ^ 2 * MvPolynomial.X 1 ^ 2, ?_, fun x => by simp⟩
    rw [polyDegree_cube (by decide)]
    intro d
    refine (MvPolynomial.degreeOf_mul_le _ _ _).trans ?_
    have h1 := MvPolynomial.degreeOf_pow_le d (MvPolynomial.X 0 : MvPolynomial (Fin 2) ℝ) 2
    have h2 := MvPolynomial.degreeOf_pow_le d (MvPolynomial.X 1 : MvPolynomial (Fin 2) ℝ) 2
    rw [MvPolynomial.degreeOf_X] at h1 h2
    fin_cases d <;> simp at h1 h2 ⊢ <;> omega
  · exact ⟨MvPolynomial.C 5, by rw [polyDegree_simplex (by decide), MvPolynomial.totalDegree_C]; omega, fun x => by simp⟩

end Verif.Lagrange.Continuity

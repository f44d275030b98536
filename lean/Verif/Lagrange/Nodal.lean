import Verif.Lagrange.Shapes
import Verif.FE.Interpolation

/-!
# Lagrange points

Coefficients of a Lagrange function are its values in the Lagrange points.
-/

namespace Verif.Lagrange.Continuity

open Mapper
open Verif.Piola (Vec)
open Verif.HDiv (simplexOf cubeOf)
open Verif.HDiv.Trace (corner)
open Verif.HDiv.Tangential (bary bary_combination sum_match)

variable {E S α K : Type} [LinearOrder α] [Field K] {n : Nat}

/-! ## Simplices -/

/-- Weight of the local vertex `v` in the Lagrange point of a key of a simplex, with sum `order`. -/
def simplexWeight (order : Nat) (t : Geo) (k : Key) (v : Nat) : Nat :=
  (((keyVerts t k).zip ((simplexPoints order (keyType t k)).getD k.index [])).map fun p => if p.1 = v then p.2 else 0).sum

theorem tetPoints_nodup (order : Nat) : (tetPoints order).Nodup := by
  rw [tetPoints, List.nodup_flatMap]
  refine ⟨?_, ?_⟩
  · intro z hz
    rw [List.nodup_flatMap]
    refine ⟨?_, ?_⟩
    · intro y hy
      refine List.Nodup.map_on ?_ List.nodup_range
      intro x hx x' hx' heq
      simp only [List.cons.injEq, and_true] at heq
      omega
    · refine List.Nodup.pairwise_of_forall_ne List.nodup_range ?_
      intro y hy y' hy' hne
      simp only [Function.onFun, List.disjoint_left, List.mem_map, List.mem_range] at *
      rintro _ ⟨x, hx, rfl⟩ ⟨x', hx', heq⟩
      simp only [List.cons.injEq, and_true] at heq
      omega
  · refine List.Nodup.pairwise_of_forall_ne List.nodup_range ?_
    intro z hz z' hz' hne
    simp only [Function.onFun, List.disjoint_left, List.mem_flatMap, List.mem_map, List.mem_range] at *
    rintro _ ⟨y, hy, x, hx, rfl⟩ ⟨y', hy', x', hx', heq⟩
    simp only [List.cons.injEq, and_true] at heq
    omega

/-- The points of a face of a simplex: number, length, sum, positivity. -/
theorem simplexPoints_table {order : Nat} (ho : 1 ≤ order) (dim : Nat) {u : Geo} (hu : u ∈ ([⟨0, 1⟩, ⟨1, 2⟩, ⟨2, 3⟩, ⟨3, 4⟩] : List Geo)) :
    (simplexPoints order u).length = lagrangeLayout order dim u ∧ (simplexPoints order u).Nodup ∧
      ∀ w ∈ simplexPoints order u, w.length = u.nv ∧ w.sum = order ∧ ∀ a ∈ w, 0 < a := by
  refine ⟨?_, ?_, fun w hw => ⟨?_, ?_, simplexPoints_pos ho u w hw⟩⟩
  · rw [simplexPoints]
    split
    · rename_i h34
      rw [h34, tetPoints_length]
      simp [lagrangeLayout, show order ≠ 0 by omega]
    · refine points_count ho _ _ ?_
      simp only [List.mem_cons, List.not_mem_nil, or_false] at hu ⊢
      tauto
  · rw [simplexPoints]
    split
    · exact tetPoints_nodup order
    · exact points_nodup order u
  · rw [simplexPoints] at hw
    split at hw
    · rename_i h34
      simp only [tetPoints, List.mem_flatMap, List.mem_map, List.mem_range] at hw
      obtain ⟨z, hz, y, hy, x, hx, rfl⟩ := hw
      rw [h34]; rfl
    · refine points_length order _ ?_ w hw
      simp only [List.mem_cons, List.not_mem_nil, or_false] at hu ⊢
      tauto
  · simp only [List.mem_cons, List.not_mem_nil, or_false] at hu
    rcases hu with rfl | rfl | rfl | rfl
    · simp [simplexPoints, points] at hw
      subst hw; simp
    · simp only [simplexPoints, points, show ¬ (⟨1, 2⟩ : Geo) = ⟨3, 4⟩ by decide, show ¬ (⟨1, 2⟩ : Geo) = ⟨0, 1⟩ by decide, if_false, if_true, List.mem_map, List.mem_range, edgePoint] at hw
      obtain ⟨i, hi, rfl⟩ := hw
      simp; omega
    · simp only [simplexPoints, points, show ¬ (⟨2, 3⟩ : Geo) = ⟨3, 4⟩ by decide, show ¬ (⟨2, 3⟩ : Geo) = ⟨0, 1⟩ by decide, show ¬ (⟨2, 3⟩ : Geo) = ⟨1, 2⟩ by decide, if_false, if_true,
        triPoints, List.mem_flatMap, List.mem_map, List.mem_range] at hw
      obtain ⟨y, hy, x, hx, rfl⟩ := hw
      simp; omega
    · simp only [simplexPoints, if_true, tetPoints, List.mem_flatMap, List.mem_map, List.mem_range] at hw
      obtain ⟨z, hz, y, hy, x, hx, rfl⟩ := hw
      simp; omega

/-- What is needed of a key of a simplex. -/
theorem simplexKey {order : Nat} (ho : 1 ≤ order) {t : Geo} (ht : t ∈ ([⟨1, 2⟩, ⟨2, 3⟩, ⟨3, 4⟩] : List Geo)) {k : Key} (hk : ValidLocal order t k) :
    ∃ w, (simplexPoints order (keyType t k))[k.index]? = some w ∧ w.length = (keyVerts t k).length ∧ w.sum = order ∧ (∀ a ∈ w, 0 < a) ∧
      (keyVerts t k).Nodup ∧ (∀ v ∈ keyVerts t k, v < t.nv) ∧ (simplexPoints order (keyType t k)).Nodup ∧ k.sub < (stdSubs t k.codim).length := by
  obtain ⟨hkc, u, hu, hi⟩ := hk
  have hlt := (List.getElem?_eq_some_iff.1 hu).1
  obtain ⟨t1, t2, t3, t4, -⟩ := keyVerts_table (simplex_elem t ht) hkc hlt
  obtain rfl : keyType t k = u := by rw [t4] at hu; exact Option.some.inj hu
  have hmem := (simplex_faces t ht _ hkc _ hlt).1
  change keyType t k ∈ _ at hmem
  obtain ⟨h1, h2, h3⟩ := simplexPoints_table ho t.dim hmem
  have hw := List.getElem?_eq_getElem (show k.index < (simplexPoints order (keyType t k)).length by rw [h1]; exact hi)
  obtain ⟨a, b, c⟩ := h3 _ (List.mem_of_getElem? hw)
  exact ⟨_, hw, by rw [a, t3], b, c, t1, t2, h2, hlt⟩

theorem lookup_total (N : Nat) (L : List (Nat × Nat)) (hL : ∀ p ∈ L, p.1 < N) :
    ∑ v ∈ Finset.range N, (L.map fun p => if p.1 = v then p.2 else 0).sum = (L.map Prod.snd).sum := by
  induction L with
  | nil => simp
  | cons p L ih =>
    have ih := ih fun q hq => hL q (List.mem_cons_of_mem _ hq)
    simp only [List.map_cons, List.sum_cons, Finset.sum_add_distrib, ih]
    congr 1
    rw [Finset.sum_eq_single p.1]
    · simp
    · intro v _ hv
      rw [if_neg (Ne.symm hv)]
    · intro h
      exact absurd (Finset.mem_range.2 (hL p List.mem_cons_self)) h

/-- Weights of a point: sum, support. -/
theorem simplexWeight_table {order : Nat} (ho : 1 ≤ order) {t : Geo} (ht : t ∈ ([⟨1, 2⟩, ⟨2, 3⟩, ⟨3, 4⟩] : List Geo)) {k : Key} (hk : ValidLocal order t k) :
    ∑ v ∈ Finset.range t.nv, simplexWeight order t k v = order ∧ ∀ v, 0 < simplexWeight order t k v ↔ v ∈ keyVerts t k := by
  obtain ⟨w, hw, hwl, hws, hpos, t1, t2, -, -⟩ := simplexKey ho ht hk
  simp only [simplexWeight, List.getD_eq_getElem?_getD, hw, Option.getD_some]
  refine ⟨?_, ?_⟩
  · rw [lookup_total _ _ (fun p hp => t2 _ (List.of_mem_zip hp).1), List.map_snd_zip (by omega), hws]
  · intro v
    constructor
    · intro h
      by_contra hv
      rw [(sum_lookup _ w t1 hwl v).2 hv] at h
      omega
    · intro h
      obtain ⟨i, hi, hv⟩ := List.mem_iff_getElem.1 h
      rw [(sum_lookup _ w t1 hwl v).1 i hi hv]
      exact hpos _ (List.getElem_mem _)

/-- The weights determine the key. -/
theorem simplexWeight_inj {order : Nat} (ho : 1 ≤ order) {t : Geo} (ht : t ∈ ([⟨1, 2⟩, ⟨2, 3⟩, ⟨3, 4⟩] : List Geo)) {k k' : Key} (hk : ValidLocal order t k)
    (hk' : ValidLocal order t k') (h : ∀ v < t.nv, simplexWeight order t k v = simplexWeight order t k' v) : k = k' := by
  obtain ⟨w, hw, hwl, hws, hpos, t1, t2, hnd, hlt⟩ := simplexKey ho ht hk
  obtain ⟨w', hw', hwl', hws', hpos', t1', t2', hnd', hlt'⟩ := simplexKey ho ht hk'
  obtain ⟨hc, hs⟩ := subVerts_inj t (simplex_elem t ht) _ hk.1 _ hk'.1 _ hlt _ hlt' (by
    intro v hv
    change v ∈ keyVerts t k ↔ v ∈ keyVerts t k'
    rw [← (simplexWeight_table ho ht hk).2, ← (simplexWeight_table ho ht hk').2, h v hv])
  have hV : keyVerts t k = keyVerts t k' := by rw [keyVerts, keyVerts, hc, hs]
  have hT : keyType t k = keyType t k' := by rw [keyType, keyType, hc, hs]
  have hww : w = w' := by
    apply List.ext_getElem (by rw [hwl, hwl', hV])
    intro i h1 h2
    have hi : i < (keyVerts t k).length := by omega
    have := h _ (t2 _ (List.getElem_mem hi))
    simp only [simplexWeight, List.getD_eq_getElem?_getD, hw, hw', Option.getD_some] at this
    rw [(sum_lookup _ w t1 hwl _).1 i hi rfl, (sum_lookup _ w' t1' hwl' _).1 i (by rw [← hV]; exact hi) (by simp only [hV])] at this
    exact this
  have hidx : k.index = k'.index := by
    rw [hT] at hw
    obtain ⟨a1, a2⟩ := List.getElem?_eq_some_iff.1 hw
    obtain ⟨b1, b2⟩ := List.getElem?_eq_some_iff.1 hw'
    exact hnd'.getElem_inj_iff.1 (a2.trans (hww.trans b2.symm))
  cases k; cases k'; simp_all

/-- Lagrange point of a key of a simplex. -/
def simplexNode (K : Type) [Field K] (n order : Nat) (t : Geo) (k : Key) : Vec K n := fun d => (simplexWeight order t k (d + 1) : K) / order

theorem bary_simplexNode [CharZero K] {order : Nat} (ho : 1 ≤ order) {t : Geo} (ht : t ∈ ([⟨1, 2⟩, ⟨2, 3⟩, ⟨3, 4⟩] : List Geo)) (hn : t.dim = n) {k : Key}
    (hk : ValidLocal order t k) {v : Nat} (hv : v < t.nv) : (order : K) * bary v (simplexNode K n order t k) = (simplexWeight order t k v : Nat) := by
  have h0 : (order : K) ≠ 0 := by exact_mod_cast (by omega : order ≠ 0)
  have hnv : t.nv = n + 1 := by
    have : ∀ t ∈ ([⟨1, 2⟩, ⟨2, 3⟩, ⟨3, 4⟩] : List Geo), t.nv = t.dim + 1 := by decide
    rw [this t ht, hn]
  cases v with
  | zero =>
    have hs := (simplexWeight_table ho ht hk).1
    rw [hnv, Finset.sum_range_succ'] at hs
    have hs : (∑ j : Fin n, (simplexWeight order t k (j + 1) : K)) + (simplexWeight order t k 0 : K) = order := by
      rw [Fin.sum_univ_eq_sum_range fun j => (simplexWeight order t k (j + 1) : K)]
      exact_mod_cast hs
    have hdiv : ∀ j : Fin n, (order : K) * (simplexNode K n order t k j) = simplexWeight order t k (j + 1) := by
      intro j
      rw [simplexNode, mul_div_cancel₀ _ h0]
    simp only [bary, if_true]
    rw [mul_sub, Finset.mul_sum, Finset.sum_congr rfl fun j _ => hdiv j]
    linear_combination -hs
  | succ v =>
    simp only [bary, Nat.succ_ne_zero, if_false, simplexNode]
    rw [Finset.sum_eq_single (⟨v, by omega⟩ : Fin n)]
    · simp only [if_true]
      rw [mul_div_cancel₀ _ h0]
    · intro j _ hj
      rw [if_neg]
      intro h
      exact hj (Fin.ext (by simpa using h))
    · simp

/-- Nodal property of the shape functions of simplices. -/
theorem simplex_nodal [CharZero K] {order : Nat} (ho : 1 ≤ order) {t : Geo} (ht : t ∈ ([⟨1, 2⟩, ⟨2, 3⟩, ⟨3, 4⟩] : List Geo)) (hn : t.dim = n) {k k' : Key}
    (hk : ValidLocal order t k) (hk' : ValidLocal order t k') : simplexShape order t k' (simplexNode K n order t k) = if k' = k then 1 else 0 := by
  obtain ⟨w, hw, hwl, hws, hpos, t1, t2, hnd, hlt⟩ := simplexKey ho ht hk'
  have hnodup := t1
  have hshape : simplexShape order t k' (simplexNode K n order t k) = (((keyVerts t k').zip w).map fun p => ((simplexWeight order t k p.1).choose p.2 : K)).prod := by
    rw [simplexShape, List.getD_eq_getElem?_getD, hw, Option.getD_some]
    congr 1
    apply List.map_congr_left
    intro p hp
    exact factor_choose order p.2 (bary_simplexNode ho ht hn hk (t2 _ (List.of_mem_zip hp).1))
  rw [hshape]
  have hzw : ∀ p ∈ (keyVerts t k').zip w, p.2 = simplexWeight order t k' p.1 := by
    intro p hp
    obtain ⟨i, hi, rfl⟩ := List.mem_iff_getElem.1 hp
    simp only [List.length_zip] at hi
    simp only [List.getElem_zip]
    rw [simplexWeight, List.getD_eq_getElem?_getD, hw, Option.getD_some, (sum_lookup _ w hnodup hwl _).1 i (by omega) rfl]
  split
  · rename_i h
    subst h
    apply List.prod_eq_one
    intro x hx
    obtain ⟨p, hp, rfl⟩ := List.mem_map.1 hx
    rw [hzw p hp, Nat.choose_self, Nat.cast_one]
  · rename_i hne
    by_contra hprod
    apply hne
    have hle : ∀ v ∈ Finset.range t.nv, simplexWeight order t k' v ≤ simplexWeight order t k v := by
      intro v _
      by_cases hv : v ∈ keyVerts t k'
      · obtain ⟨i, hi, rfl⟩ := List.mem_iff_getElem.1 hv
        have hmem : ((keyVerts t k')[i], w[i]) ∈ (keyVerts t k').zip w := by
          rw [List.mem_iff_getElem]
          exact ⟨i, by simp; omega, by simp⟩
        rw [← hzw _ hmem]
        by_contra hlt
        apply hprod
        apply List.prod_eq_zero
        rw [List.mem_map]
        exact ⟨_, hmem, by rw [Nat.choose_eq_zero_of_lt (by simpa using hlt), Nat.cast_zero]⟩
      · have := (simplexWeight_table ho ht hk').2 v
        rw [← this] at hv
        omega
    have heq := (Finset.sum_eq_sum_iff_of_le hle).1 (by rw [(simplexWeight_table ho ht hk').1, (simplexWeight_table ho ht hk).1])
    exact simplexWeight_inj ho ht hk' hk fun v hv => heq v (Finset.mem_range.2 hv)

/-! ## Cubes -/

/-- Lagrange point of a key of a cube. -/
def cubeNode (K : Type) [Field K] (n order : Nat) (t : Geo) (k : Key) : Vec K n := fun d => (cubeCoord order t k d : K) / order

theorem cube_fixed : ∀ t ∈ ([⟨2, 4⟩, ⟨3, 8⟩] : List Geo), ∀ c ≤ t.dim, 1 ≤ c → ∀ F ∈ subVerts (refOf t) c, ∃ d < t.dim, Fixed F d := by decide +kernel

def SameSides (m : Nat) (F F' : List Nat) : Prop :=
  ∀ d < m, ((∀ v ∈ F, Nat.testBit v d = false) ↔ ∀ v ∈ F', Nat.testBit v d = false) ∧ ((∀ v ∈ F, Nat.testBit v d = true) ↔ ∀ v ∈ F', Nat.testBit v d = true)

instance (m : Nat) (F F' : List Nat) : Decidable (SameSides m F F') := by unfold SameSides; infer_instance

theorem cube_sides : ∀ t ∈ ([⟨2, 4⟩, ⟨3, 8⟩] : List Geo), ∀ c < t.dim, ∀ c' < t.dim, ∀ i < (stdSubs t (c + 1)).length, ∀ i' < (stdSubs t (c' + 1)).length,
    SameSides t.dim ((subVerts (refOf t) (c + 1)).getD i []) ((subVerts (refOf t) (c' + 1)).getD i' []) → c = c' ∧ i = i' := by decide +kernel

/-- Digits determine a number. -/
theorem digits_inj {b m : Nat} (hm : m = 2 ∨ m = 3) {x y : Nat} (hx : x < b ^ m) (hy : y < b ^ m) (h : ∀ d < m, x / b ^ d % b = y / b ^ d % b) : x = y := by
  have step : ∀ z, z = b * (z / b) + z % b := fun z => (Nat.div_add_mod z b).symm
  have lift : ∀ x y : Nat, x / b = y / b → x % b = y % b → x = y := by
    intro x y h1 h2
    rw [step x, step y, h1, h2]
  have h0 := h 0 (by omega)
  have h1 := h 1 (by omega)
  rw [pow_zero, Nat.div_one, Nat.div_one] at h0
  rw [pow_one] at h1
  refine lift _ _ (lift _ _ ?_ h1) h0
  rw [Nat.div_div_eq_div_mul, Nat.div_div_eq_div_mul]
  rcases hm with rfl | rfl
  · rw [← pow_two, Nat.div_eq_of_lt hx, Nat.div_eq_of_lt hy]
  · have h2 := h 2 (by omega)
    rw [← pow_two]
    refine lift _ _ ?_ h2
    rw [Nat.div_div_eq_div_mul, Nat.div_div_eq_div_mul, ← pow_succ, Nat.div_eq_of_lt hx, Nat.div_eq_of_lt hy]

theorem cube_interior : ∀ t ∈ ([⟨2, 4⟩, ⟨3, 8⟩] : List Geo), stdSubs t 0 = [t] := by decide

/-- Coordinates of an interior node. -/
theorem cubeCoord_interior {order : Nat} (ho : 1 ≤ order) {t : Geo} (ht : t ∈ ([⟨2, 4⟩, ⟨3, 8⟩] : List Geo)) {k : Key} (hk : ValidLocal order t k) (hc : k.codim = 0) :
    k.sub = 0 ∧ k.index < (order - 1) ^ t.dim ∧ ∀ d, 0 < cubeCoord order t k d ∧ cubeCoord order t k d < order := by
  obtain ⟨-, u, hu, hi⟩ := hk
  rw [hc, cube_interior t ht] at hu
  obtain ⟨h1, h2⟩ := List.getElem?_eq_some_iff.1 hu
  simp only [List.length_singleton, Nat.lt_one_iff] at h1
  have hu : t = u := by simpa [h1] using h2
  subst hu
  have hi : k.index < (order - 1) ^ t.dim := by
    simp only [List.mem_cons, List.not_mem_nil, or_false] at ht
    rcases ht with rfl | rfl
    · simpa [lagrangeLayout, show order ≠ 0 by omega] using hi
    · simpa [lagrangeLayout, show order ≠ 0 by omega] using hi
  refine ⟨h1, hi, ?_⟩
  intro d
  have hb : 0 < order - 1 := by
    by_contra h
    have : order - 1 = 0 := by omega
    rw [this, zero_pow] at hi
    · omega
    · have := (cube_elem t ht).2.2; omega
  have := Nat.mod_lt (k.index / (order - 1) ^ d) hb
  rw [cubeCoord, if_pos hc]
  omega

/-- The coordinates of a node of a face in terms of the point of the face. -/
theorem cubeCoord_face {order : Nat} (ho : 1 ≤ order) {t : Geo} (ht : t ∈ ([⟨2, 4⟩, ⟨3, 8⟩] : List Geo)) {k : Key} (hk : ValidLocal order t k) (hc0 : k.codim ≠ 0) :
    ∃ w, (points order (keyType t k))[k.index]? = some w ∧ w.length = (keyVerts t k).length ∧ (keyType t k).nv = (keyVerts t k).length ∧
      keyType t k ∈ ([⟨0, 1⟩, ⟨1, 2⟩, ⟨2, 3⟩, ⟨2, 4⟩] : List Geo) ∧ ∀ d < t.dim, order * cubeCoord order t k d =
        (if keyType t k = ⟨2, 4⟩ then 1 else order) * (((keyVerts t k).zip w).map fun p => (if p.1.testBit d then 1 else 0) * p.2).sum := by
  have hnode := (cubeCoord_node ho ht hk hc0).2
  obtain ⟨hkc, u, hu, hi⟩ := hk
  have hte := (cube_elem t ht).1
  have hlt := (List.getElem?_eq_some_iff.1 hu).1
  obtain ⟨t1, t2, t3, t4, t5⟩ := keyVerts_table hte hkc hlt
  obtain rfl : keyType t k = u := by rw [t4] at hu; exact Option.some.inj hu
  obtain ⟨u0, v0, a1, -, -, -, -, a6⟩ := stdSubs_lower _ hte _ hkc hc0 _ hlt
  rw [t4, Option.some.injEq] at a1
  rw [← a1] at a6
  have hw := List.getElem?_eq_getElem (show k.index < (points order (keyType t k)).length by rw [points_count ho t.dim _ a6]; exact hi)
  refine ⟨_, hw, by rw [points_length order _ a6 _ (List.mem_of_getElem? hw), t3], t3.symm, a6, ?_⟩
  intro d hd
  rw [← (hnode d hd).1, ← weight_sum order t k (fun v => if v.testBit d then 1 else 0) hw t2]
  apply Finset.sum_congr rfl
  intro v _
  split <;> simp

/-- The coordinates determine the key. -/
theorem cubeCoord_inj {order : Nat} (ho : 1 ≤ order) {t : Geo} (ht : t ∈ ([⟨2, 4⟩, ⟨3, 8⟩] : List Geo)) {k k' : Key} (hk : ValidLocal order t k)
    (hk' : ValidLocal order t k') (h : ∀ d < t.dim, cubeCoord order t k d = cubeCoord order t k' d) : k = k' := by
  -- nodes of faces have a coordinate 0 or `order`
  have mixed : ∀ {k k' : Key}, ValidLocal order t k → ValidLocal order t k' → k.codim = 0 → k'.codim ≠ 0 →
      (∀ d < t.dim, cubeCoord order t k d = cubeCoord order t k' d) → False := by
    intro k k' hk hk' h0 h1 h
    obtain ⟨-, -, hin⟩ := cubeCoord_interior ho ht hk h0
    have hlt' : k'.sub < (stdSubs t k'.codim).length := by obtain ⟨-, u, hu, -⟩ := hk'; exact (List.getElem?_eq_some_iff.1 hu).1
    obtain ⟨-, -, -, -, t5⟩ := keyVerts_table (cube_elem t ht).1 hk'.1 hlt'
    obtain ⟨d, hd, hf⟩ := cube_fixed t ht _ hk'.1 (by omega) _ (List.mem_of_getElem? t5)
    obtain ⟨-, -, n3, n4⟩ := (cubeCoord_node ho ht hk' h1).2 d hd
    have := h d hd
    have := hin d
    rcases hf with hf | hf
    · have := n3.2 hf; omega
    · have := n4.2 hf; omega
  by_cases h0 : k.codim = 0 <;> by_cases h1 : k'.codim = 0
  · obtain ⟨s1, i1, -⟩ := cubeCoord_interior ho ht hk h0
    obtain ⟨s2, i2, -⟩ := cubeCoord_interior ho ht hk' h1
    have : k.index = k'.index := by
      refine digits_inj (cube_elem t ht).2.2 i1 i2 ?_
      intro d hd
      have := h d hd
      rw [cubeCoord, cubeCoord, if_pos h0, if_pos h1] at this
      omega
    cases k; cases k'; simp_all
  · exact (mixed hk hk' h0 h1 h).elim
  · exact (mixed hk' hk h1 h0 fun d hd => (h d hd).symm).elim
  · have hlt : k.sub < (stdSubs t k.codim).length := by obtain ⟨-, u, hu, -⟩ := hk; exact (List.getElem?_eq_some_iff.1 hu).1
    have hlt' : k'.sub < (stdSubs t k'.codim).length := by obtain ⟨-, u, hu, -⟩ := hk'; exact (List.getElem?_eq_some_iff.1 hu).1
    have hck := hk.1
    have hck' := hk'.1
    have e1 : k.codim - 1 + 1 = k.codim := by omega
    have e2 : k'.codim - 1 + 1 = k'.codim := by omega
    obtain ⟨hc, hs⟩ := cube_sides t ht (k.codim - 1) (by omega) (k'.codim - 1) (by omega) k.sub (by rw [e1]; exact hlt) k'.sub (by rw [e2]; exact hlt') (by
      rw [e1, e2]
      intro d hd
      obtain ⟨-, -, n3, n4⟩ := (cubeCoord_node ho ht hk h0).2 d hd
      obtain ⟨-, -, n3', n4'⟩ := (cubeCoord_node ho ht hk' h1).2 d hd
      exact ⟨(n3.symm.trans (by rw [h d hd])).trans n3', (n4.symm.trans (by rw [h d hd])).trans n4'⟩)
    have hc : k.codim = k'.codim := by omega
    have hV : keyVerts t k = keyVerts t k' := by rw [keyVerts, keyVerts, hc, hs]
    have hT : keyType t k = keyType t k' := by rw [keyType, keyType, hc, hs]
    obtain ⟨w, hw, hwl, hnv, hty, hco⟩ := cubeCoord_face ho ht hk h0
    obtain ⟨w', hw', hwl', hnv', hty', hco'⟩ := cubeCoord_face ho ht hk' h1
    have hww : w = w' := by
      obtain ⟨-, -, -, -, t5⟩ := keyVerts_table (cube_elem t ht).1 hk.1 hlt
      have hsums : ∀ d < t.dim, (((keyVerts t k).zip w).map fun p => (if p.1.testBit d then 1 else 0) * p.2).sum =
          (((keyVerts t k).zip w').map fun p => (if p.1.testBit d then 1 else 0) * p.2).sum := by
        intro d hd
        have e1 := hco d hd
        have e2 := hco' d hd
        rw [h d hd, e2, ← hT, ← hV] at e1
        exact (Nat.eq_of_mul_eq_mul_left (by split <;> omega) e1).symm
      have hwm := List.mem_of_getElem? hw
      have hwm' := List.mem_of_getElem? hw'
      rw [← hT] at hwm'
      rw [← hV] at hwl'
      obtain ⟨-, hF⟩ := cube_faces t ht _ hk.1 (by omega) _ (List.mem_of_getElem? t5)
      simp only [List.mem_cons, List.not_mem_nil, or_false] at hty
      rcases hF with ⟨hl, -⟩ | ⟨hl, d0, hd0, -⟩ | ⟨hl, d1, d2, hd, hq1, hq2, -⟩
      · have h01 : keyType t k = ⟨0, 1⟩ := by
          rcases hty with g | g | g | g
          · exact g
          all_goals rw [g] at hnv; simp at hnv; omega
        rw [h01] at hwm hwm'
        simp only [points, if_true, List.mem_singleton] at hwm hwm'
        rw [hwm, hwm']
      · have h12 : keyType t k = ⟨1, 2⟩ := by
          rcases hty with g | g | g | g
          · rw [g] at hnv; simp at hnv; omega
          · exact g
          all_goals rw [g] at hnv; simp at hnv; omega
        rw [h12] at hwm hwm'
        rw [show points order ⟨1, 2⟩ = (List.range (order - 1)).map (edgePoint order) from rfl, List.mem_map] at hwm hwm'
        obtain ⟨i, hi, rfl⟩ := hwm
        obtain ⟨i', hi', rfl⟩ := hwm'
        obtain ⟨a, b, hab⟩ := List.length_eq_two.1 hl
        have hs := hsums d0 d0.2
        rw [hab] at hs hd0
        simp only [List.map_cons, List.map_nil, List.cons.injEq, and_true] at hd0
        simp [edgePoint, hd0.1, hd0.2] at hs
        rw [hs]
      · have h24 : keyType t k = ⟨2, 4⟩ := by
          rcases hty with g | g | g | g
          · rw [g] at hnv; simp at hnv; omega
          · rw [g] at hnv; simp at hnv; omega
          · rw [g] at hnv; simp at hnv; omega
          · exact g
        rw [h24] at hwm hwm'
        simp only [points, quadPoints, show ¬ (⟨2, 4⟩ : Geo) = ⟨0, 1⟩ by decide, show ¬ (⟨2, 4⟩ : Geo) = ⟨1, 2⟩ by decide, show ¬ (⟨2, 4⟩ : Geo) = ⟨2, 3⟩ by decide,
          if_false, List.mem_flatMap, List.mem_map, List.mem_range] at hwm hwm'
        obtain ⟨Y, hY, X, hX, hwi⟩ := hwm
        obtain ⟨Y', hY', X', hX', hwi'⟩ := hwm'
        obtain ⟨a, b, c, e, habce⟩ := length_four hl
        have hs1 := hsums d1 d1.2
        have hs2 := hsums d2 d2.2
        rw [habce] at hs1 hs2 hq1 hq2
        simp only [List.map_cons, List.map_nil, List.cons.injEq, and_true] at hq1 hq2
        rw [← hwi, ← hwi'] at hs1 hs2
        simp [hq1] at hs1
        simp [hq2] at hs2
        have o1 : (order - (Y + 1)) + (Y + 1) = order := by omega
        have o2 : (order - (Y' + 1)) + (Y' + 1) = order := by omega
        have o3 : (order - (X + 1)) + (X + 1) = order := by omega
        have o4 : (order - (X' + 1)) + (X' + 1) = order := by omega
        have eX : order * (X + 1) = order * (X' + 1) := by
          have l1 : (X + 1) * (order - (Y + 1)) + (X + 1) * (Y + 1) = order * (X + 1) := by rw [← Nat.mul_add, o1, Nat.mul_comm]
          have l2 : (X' + 1) * (order - (Y' + 1)) + (X' + 1) * (Y' + 1) = order * (X' + 1) := by rw [← Nat.mul_add, o2, Nat.mul_comm]
          omega
        have eY : order * (Y + 1) = order * (Y' + 1) := by
          have l1 : (order - (X + 1)) * (Y + 1) + (X + 1) * (Y + 1) = order * (Y + 1) := by rw [← Nat.add_mul, o3]
          have l2 : (order - (X' + 1)) * (Y' + 1) + (X' + 1) * (Y' + 1) = order * (Y' + 1) := by rw [← Nat.add_mul, o4]
          omega
        have eX := Nat.eq_of_mul_eq_mul_left (by omega) eX
        have eY := Nat.eq_of_mul_eq_mul_left (by omega) eY
        rw [← hwi, ← hwi', eX, eY]
    have hidx : k.index = k'.index := by
      rw [hT] at hw
      obtain ⟨a1, a2⟩ := List.getElem?_eq_some_iff.1 hw
      obtain ⟨b1, b2⟩ := List.getElem?_eq_some_iff.1 hw'
      exact (points_nodup order _).getElem_inj_iff.1 (a2.trans (hww.trans b2.symm))
    cases k; cases k'; simp_all

theorem cubeCoord_le {order : Nat} (ho : 1 ≤ order) {t : Geo} (ht : t ∈ ([⟨2, 4⟩, ⟨3, 8⟩] : List Geo)) {k : Key} (hk : ValidLocal order t k) {d : Nat} (hd : d < t.dim) :
    cubeCoord order t k d ≤ order := by
  by_cases h0 : k.codim = 0
  · exact ((cubeCoord_interior ho ht hk h0).2.2 d).2.le
  · exact ((cubeCoord_node ho ht hk h0).2 d hd).2.1

/-- Nodal property of the shape functions of cubes. -/
theorem cube_nodal [CharZero K] {order : Nat} (ho : 1 ≤ order) {t : Geo} (ht : t ∈ ([⟨2, 4⟩, ⟨3, 8⟩] : List Geo)) (hn : t.dim = n) {k k' : Key}
    (hk : ValidLocal order t k) (hk' : ValidLocal order t k') : cubeShape order t k' (cubeNode K n order t k) = if k' = k then 1 else 0 := by
  subst hn
  have hval : ∀ d : Fin t.dim, linePoly order (cubeCoord order t k' d) (cubeNode K t.dim order t k d) = if cubeCoord order t k' d = cubeCoord order t k d then 1 else 0 :=
    fun d => linePoly_nodal ho (cubeCoord_le ho ht hk' d.2) (cubeCoord_le ho ht hk d.2)
  rw [cubeShape]
  simp only [hval]
  split
  · rename_i h
    subst h
    simp
  · rename_i h
    have : ∃ d : Fin t.dim, cubeCoord order t k' d ≠ cubeCoord order t k d := by
      by_contra hall
      push Not at hall
      exact h (cubeCoord_inj ho ht hk' hk fun d hd => hall ⟨d, hd⟩)
    obtain ⟨d, hd⟩ := this
    exact Finset.prod_eq_zero (Finset.mem_univ d) (if_neg hd)

/-! ## Weights of the nodes -/

theorem weight_outside (order : Nat) (t : Geo) (k : Key) {v : Nat} (hv : v ∉ keyVerts t k) : weight order t k v = 0 := by
  rw [weight, List.sum_eq_zero, mul_zero]
  intro y hy
  rw [List.mem_map] at hy
  obtain ⟨p, hp, rfl⟩ := hy
  rw [if_neg]
  rintro rfl
  exact hv (List.of_mem_zip hp).1

theorem simplexNode_weight [CharZero K] {order : Nat} (ho : 1 ≤ order) {t : Geo} (ht : t ∈ ([⟨1, 2⟩, ⟨2, 3⟩, ⟨3, 4⟩] : List Geo)) (hn : t.dim = n) {k : Key}
    (hk : ValidLocal order t k) (hc0 : k.codim ≠ 0) {v : Nat} (hv : v < t.nv) :
    (order * order : K) * bary v (simplexNode K n order t k) = (weight order t k v : Nat) := by
  obtain ⟨-, u, hu, -⟩ := id hk
  have hlt := (List.getElem?_eq_some_iff.1 hu).1
  obtain ⟨hmem, hlow⟩ := simplex_faces t ht _ hk.1 _ hlt
  change keyType t k ∈ _ at hmem
  have hlow := hlow hc0
  change keyType t k ≠ _ at hlow
  have h24 : keyType t k ≠ ⟨2, 4⟩ := by
    intro h
    rw [h] at hmem
    exact absurd hmem (by decide)
  have hw : weight order t k v = order * simplexWeight order t k v := by
    rw [weight, simplexWeight, simplexPoints, if_neg hlow, if_neg h24]
  rw [mul_assoc, bary_simplexNode ho ht hn hk hv, hw]
  push_cast
  rfl

theorem cubeNode_weight [CharZero K] {order : Nat} (ho : 1 ≤ order) {t : Geo} (ht : t ∈ ([⟨2, 4⟩, ⟨3, 8⟩] : List Geo)) (hn : t.dim = n) {k : Key}
    (hk : ValidLocal order t k) (hc0 : k.codim ≠ 0) {v : Nat} (hv : v < t.nv) :
    (order * order : K) * cubeBw v (cubeNode K n order t k) = (weight order t k v : Nat) := by
  subst hn
  have h0 : (order : K) ≠ 0 := by exact_mod_cast (by omega : order ≠ 0)
  obtain ⟨hte, hnv, hdim⟩ := cube_elem t ht
  have hlt : k.sub < (stdSubs t k.codim).length := by obtain ⟨-, u, hu, -⟩ := hk; exact (List.getElem?_eq_some_iff.1 hu).1
  obtain ⟨t1, t2, t3, t4, t5⟩ := keyVerts_table hte hk.1 hlt
  obtain ⟨hsep, hfree⟩ := cube_faces t ht _ hk.1 (by omega) _ (List.mem_of_getElem? t5)
  obtain ⟨htot, hco⟩ := cubeCoord_node ho ht hk hc0
  by_cases hvF : v ∈ keyVerts t k
  · rw [sum_face t.nv _ t1 t2 _ fun v _ h => weight_outside order t k h] at htot
    have hWd : ∀ d : Fin t.dim, ((keyVerts t k).map fun v => if v.testBit d then weight order t k v else 0).sum = order * cubeCoord order t k d := by
      intro d
      rw [← (hco d d.2).1, sum_face t.nv _ t1 t2 _ (fun v _ h => by rw [weight_outside order t k h]; simp)]
    have hfix : ∀ d : Fin t.dim, Fixed (keyVerts t k) d → (if v.testBit d then cubeNode K t.dim order t k d else 1 - cubeNode K t.dim order t k d) = 1 := by
      intro d hd
      obtain ⟨-, -, z0, z1⟩ := hco d d.2
      rcases hd with hd | hd
      · rw [hd v hvF, cubeNode, z0.2 hd]
        simp
      · rw [hd v hvF, cubeNode, z1.2 hd]
        simp [h0]
    -- both factors of a free direction
    have hx : ∀ d : Fin t.dim, ∀ a b : Nat, b = order * cubeCoord order t k d → a + b = order * order →
        (order * order : K) * cubeNode K t.dim order t k d = b ∧ (order * order : K) * (1 - cubeNode K t.dim order t k d) = a := by
      intro d a b hb hab
      have hb' : (b : K) = order * cubeCoord order t k d := by rw [hb]; push_cast; rfl
      have hab' : (a : K) + b = order * order := by exact_mod_cast hab
      have e : (order * order : K) * cubeNode K t.dim order t k d = b := by
        rw [cubeNode, hb']
        field_simp
      exact ⟨e, by rw [mul_sub, e]; linear_combination -hab'⟩
    rcases hfree with ⟨hl, hfree⟩ | ⟨hl, ⟨d0, hd0⟩, hpat, hfree⟩ | ⟨hl, ⟨d1, hd1⟩, ⟨d2, hd2⟩, hne, hp1, hp2, hfree⟩
    · obtain ⟨a, ha⟩ := List.length_eq_one_iff.1 hl
      rw [cubeBw, Finset.prod_eq_one fun d _ => hfix d (hfree d d.2)]
      rw [ha] at htot hvF
      rw [List.mem_singleton] at hvF
      subst hvF
      simp only [List.map_cons, List.map_nil, List.sum_cons, List.sum_nil, add_zero] at htot
      rw [htot]
      push_cast
      ring
    · obtain ⟨a, b, hab⟩ := List.length_eq_two.1 hl
      rw [cubeBw, Finset.prod_eq_single (⟨d0, hd0⟩ : Fin t.dim) (fun d _ hd => hfix d (hfree d d.2 fun h => hd (Fin.ext h))) (fun h => absurd (Finset.mem_univ _) h)]
      have hw := hWd ⟨d0, hd0⟩
      rw [hab] at hpat hw htot hvF
      simp only [List.map_cons, List.map_nil, List.cons.injEq, and_true] at hpat
      obtain ⟨pa, pb⟩ := hpat
      simp only [List.map_cons, List.map_nil, List.sum_cons, List.sum_nil, add_zero, pa, pb, Bool.false_eq_true, if_false, if_true, zero_add] at hw htot
      obtain ⟨g1, g2⟩ := hx ⟨d0, hd0⟩ _ _ hw htot
      simp only [List.mem_cons, List.not_mem_nil, or_false] at hvF
      rcases hvF with rfl | rfl
      · simp only [pa, Bool.false_eq_true, if_false]
        exact g2
      · simp only [pb, if_true]
        exact g1
    · obtain ⟨a, b, c, e, habce⟩ := length_four hl
      have hprod : cubeBw v (cubeNode K t.dim order t k) =
          (if v.testBit d1 then cubeNode K t.dim order t k ⟨d1, hd1⟩ else 1 - cubeNode K t.dim order t k ⟨d1, hd1⟩) *
          (if v.testBit d2 then cubeNode K t.dim order t k ⟨d2, hd2⟩ else 1 - cubeNode K t.dim order t k ⟨d2, hd2⟩) := by
        rw [cubeBw, ← Finset.prod_subset (Finset.subset_univ {(⟨d1, hd1⟩ : Fin t.dim), ⟨d2, hd2⟩}) (fun d _ hd => hfix d (hfree d d.2
          ⟨(fun h => hd (by rw [show d = ⟨d1, hd1⟩ from Fin.ext h]; simp)), (fun h => hd (by rw [show d = ⟨d2, hd2⟩ from Fin.ext h]; simp))⟩)), Finset.prod_pair hne]
      -- the weights of an inner point of a quadrilateral are products
      obtain ⟨w, hw, hwl, hnv', hty, -⟩ := cubeCoord_face ho ht hk hc0
      have h24 : keyType t k = ⟨2, 4⟩ := by
        simp only [List.mem_cons, List.not_mem_nil, or_false] at hty
        rcases hty with g | g | g | g
        · rw [g] at hnv'; simp at hnv'; omega
        · rw [g] at hnv'; simp at hnv'; omega
        · rw [g] at hnv'; simp at hnv'; omega
        · exact g
      have hwm := List.mem_of_getElem? hw
      rw [h24] at hwm
      simp only [points, quadPoints, show ¬ (⟨2, 4⟩ : Geo) = ⟨0, 1⟩ by decide, show ¬ (⟨2, 4⟩ : Geo) = ⟨1, 2⟩ by decide, show ¬ (⟨2, 4⟩ : Geo) = ⟨2, 3⟩ by decide,
        if_false, List.mem_flatMap, List.mem_map, List.mem_range] at hwm
      obtain ⟨Y, hY, X, hX, hwi⟩ := hwm
      have hwt : ∀ i (hi : i < 4), weight order t k ((keyVerts t k)[i]) = w[i] := by
        intro i hi
        rw [weight, if_pos h24, one_mul, List.getD_eq_getElem?_getD, hw, Option.getD_some, (sum_lookup _ w t1 hwl _).1 i (by omega) rfl]
      have w0 := hwt 0 (by omega)
      have w1 := hwt 1 (by omega)
      have w2 := hwt 2 (by omega)
      have w3 := hwt 3 (by omega)
      simp only [habce, ← hwi, List.getElem_cons_zero, List.getElem_cons_succ] at w0 w1 w2 w3
      have c1 := hWd ⟨d1, hd1⟩
      have c2 := hWd ⟨d2, hd2⟩
      rw [habce] at hp1 hp2 hvF c1 c2
      simp only [List.map_cons, List.map_nil, List.cons.injEq, and_true] at hp1 hp2
      obtain ⟨pa, pb, pc, pe⟩ := hp1
      obtain ⟨qa, qb, qc, qe⟩ := hp2
      simp only [List.map_cons, List.map_nil, List.sum_cons, List.sum_nil, add_zero, pa, pb, pc, pe, qa, qb, qc, qe, Bool.false_eq_true, if_false, if_true, zero_add,
        w1, w2, w3] at c1 c2
      obtain ⟨X', hX'⟩ : ∃ X', X' = order - (X + 1) := ⟨_, rfl⟩
      obtain ⟨Y', hY'⟩ : ∃ Y', Y' = order - (Y + 1) := ⟨_, rfl⟩
      rw [← hX', ← hY'] at w0
      rw [← hY'] at w1 c1
      rw [← hX'] at w2 c2
      have oX : X' + (X + 1) = order := by omega
      have oY : Y' + (Y + 1) = order := by omega
      have eX : cubeCoord order t k d1 = X + 1 := by
        refine Nat.eq_of_mul_eq_mul_left (show 0 < order by omega) ?_
        rw [← c1, ← Nat.mul_add, oY, Nat.mul_comm]
      have eY : cubeCoord order t k d2 = Y + 1 := by
        refine Nat.eq_of_mul_eq_mul_left (show 0 < order by omega) ?_
        rw [← c2, ← Nat.add_mul, oX]
      have xX : (order : K) * cubeNode K t.dim order t k ⟨d1, hd1⟩ = X + 1 := by
        rw [cubeNode, mul_div_cancel₀ _ h0, eX]; push_cast; rfl
      have xY : (order : K) * cubeNode K t.dim order t k ⟨d2, hd2⟩ = Y + 1 := by
        rw [cubeNode, mul_div_cancel₀ _ h0, eY]; push_cast; rfl
      have oX' : (X' : K) + (X + 1) = order := by exact_mod_cast oX
      have oY' : (Y' : K) + (Y + 1) = order := by exact_mod_cast oY
      have xX' : (order : K) * (1 - cubeNode K t.dim order t k ⟨d1, hd1⟩) = X' := by linear_combination -xX - oX'
      have xY' : (order : K) * (1 - cubeNode K t.dim order t k ⟨d2, hd2⟩) = Y' := by linear_combination -xY - oY'
      rw [hprod, mul_mul_mul_comm]
      simp only [List.mem_cons, List.not_mem_nil, or_false] at hvF
      rcases hvF with rfl | rfl | rfl | rfl
      · simp only [pa, qa, Bool.false_eq_true, if_false, xX', xY', w0]; push_cast; rfl
      · simp only [pb, qb, Bool.false_eq_true, if_false, if_true, xX, xY', w1]; push_cast; rfl
      · simp only [pc, qc, Bool.false_eq_true, if_false, if_true, xX', xY, w2]; push_cast; rfl
      · simp only [pe, qe, if_true, xX, xY, w3]; push_cast; rfl
  · obtain ⟨⟨d, hd⟩, hsepd⟩ := hsep v hv hvF
    obtain ⟨-, -, z0, z1⟩ := hco d hd
    rw [weight_outside order t k hvF, cubeBw, Finset.prod_eq_zero (Finset.mem_univ (⟨d, hd⟩ : Fin t.dim)), mul_zero, Nat.cast_zero]
    rcases hsepd with ⟨hb, h⟩ | ⟨hb, h⟩
    · rw [if_pos hb, cubeNode, z0.2 h]
      simp
    · rw [if_neg (by simp [hb]), cubeNode, z1.2 h]
      simp [h0]

/-! ## Interpolation -/

/-- Lagrange points of simplices, cubes and prisms, in the order of the local keys these are the points in which `LagrangeLocalInterpolation` (dune-localfunctions) evaluates. -/
def lagrangeNode (K : Type) [Field K] (n order : Nat) (t : Geo) (k : Key) : Vec K n :=
  if t ∈ ([⟨2, 4⟩, ⟨3, 8⟩] : List Geo) then cubeNode K n order t k else if t = prismType then prismNode K n order k else simplexNode K n order t k

/-- Nodal property of the shape functions. -/
theorem lagrange_nodal [CharZero K] {order : Nat} (ho : 1 ≤ order) {t : Geo} (ht : Supported n t) {k k' : Key} (hk : ValidLocal order t k)
    (hk' : ValidLocal order t k') : lagrangeShape order t k' (lagrangeNode K n order t k) = if k' = k then 1 else 0 := by
  obtain ⟨hn, hq | rfl | hs⟩ := ht.cases
  · rw [lagrangeShape_cube order hq, lagrangeNode, if_pos hq, cube_nodal ho hq hn hk hk']
  · obtain rfl : n = 3 := hn.symm
    rw [lagrangeShape_prism, lagrangeNode, if_neg not_cube_prism, if_pos rfl, prism_nodal ho hk hk']
  · rw [lagrangeShape_simplex order hs, lagrangeNode, if_neg (not_cube_of_simplex t hs).1, if_neg (not_cube_of_simplex t hs).2, simplex_nodal ho hs hn hk hk']

theorem lagrangeNode_weight [CharZero K] {order : Nat} (ho : 1 ≤ order) {t : Geo} (ht : Supported n t) {k : Key} (hk : ValidLocal order t k) (hc0 : k.codim ≠ 0)
    {v : Nat} (hv : v < t.nv) : (order * order : K) * vertexWeight t v (lagrangeNode K n order t k) = (weight order t k v : Nat) := by
  obtain ⟨hn, hq | rfl | hs⟩ := ht.cases
  · rw [vertexWeight_cube hq, lagrangeNode, if_pos hq, cubeNode_weight ho hq hn hk hc0 hv]
  · obtain rfl : n = 3 := hn.symm
    rw [vertexWeight_prism, lagrangeNode, if_neg not_cube_prism, if_pos rfl, prismNode_weight ho hk hc0 hv]
  · rw [vertexWeight_simplex hs, lagrangeNode, if_neg (not_cube_of_simplex t hs).1, if_neg (not_cube_of_simplex t hs).2, simplexNode_weight ho hs hn hk hc0 hv]

omit [LinearOrder α] in
theorem validLocal {G : LGrid E S α} (h : G.OK) {order : Nat} {e : E} {k : Key} (hk : ValidKey G order e k) : ValidLocal order (G.elemGeo e) k := by
  obtain ⟨h1, u, h2, h3⟩ := hk
  have := (h.base.elemMem e).2
  exact ⟨by omega, u, h2, by rw [this]; exact h3⟩

/-- **C79.** The coefficient of a local basis function is the value of the discrete function in the Lagrange point of this basis function. -/
theorem C79_value [CharZero K] {G : LGrid E S α} (h : G.OK) (helem : ∀ e, Supported n (G.elemGeo e)) {order : Nat} (ho : 1 ≤ order) {keys : Geo → List Key}
    (hk : LagrangeKeys G order fun e => keys (G.elemGeo e)) (vec : Nat → K) (e : E) {l i : Nat} {k : Key} (hl : (keys (G.elemGeo e))[l]? = some k)
    (hi : ((lagrangeLeaf G order fun e => keys (G.elemGeo e)).loc e)[l]? = some i) :
    value G order (fun e => keys (G.elemGeo e)) (lagrangeValues order keys) vec e (lagrangeNode K n order (G.elemGeo e) k) = vec i := by
  obtain ⟨hlt, rfl⟩ := List.getElem?_eq_some_iff.1 hl
  have valid : ∀ l : Fin (keys (G.elemGeo e)).length, ValidLocal order (G.elemGeo e) (keys (G.elemGeo e))[l] :=
    fun l => validLocal h ((hk.mem e _).1 (List.getElem_mem _))
  have hlen : ∀ x : Vec K n, (lagrangeValues order keys (G.elemGeo e) x).length = (keys (G.elemGeo e)).length := by intro x; simp [lagrangeValues]
  have hget : ∀ (l' : Fin (keys (G.elemGeo e)).length) (hl' : l'.val < (lagrangeValues order keys (G.elemGeo e) (lagrangeNode K n order (G.elemGeo e) (keys (G.elemGeo e))[l])).length),
      (lagrangeValues order keys (G.elemGeo e) (lagrangeNode K n order (G.elemGeo e) (keys (G.elemGeo e))[l]))[l'.val] = if l' = ⟨l, hlt⟩ then 1 else 0 := by
    intro l' hl'
    have hn := lagrange_nodal (K := K) ho (helem e) (valid ⟨l, hlt⟩) (valid l')
    simp only [Fin.getElem_fin] at hn
    simp only [lagrangeValues, List.getElem_map]
    rw [hn]
    by_cases heq : l' = ⟨l, hlt⟩
    · subst heq
      simp
    · rw [if_neg heq, if_neg]
      intro h
      exact heq (Fin.ext (((hk.nodup e).getElem_inj_iff).1 h))
  rw [value_sum G order _ _ vec e _ (hlen _), Finset.sum_eq_single (⟨l, hlt⟩ : Fin (keys (G.elemGeo e)).length)]
  · rw [hget, if_pos rfl, mul_one]
    simp only [lagrangeLeaf, List.getElem?_map, List.getElem?_eq_getElem hlt, Option.map_some, Option.some.injEq] at hi
    rw [← hi]
    rfl
  · intro l' _ hne
    rw [hget, if_neg hne, mul_zero]
  · intro h
    exact absurd (Finset.mem_univ _) h

/-- **C79.** The basis functions are linearly independent: coefficient vectors of the same function are equal. -/
theorem C79_unique [CharZero K] {G : LGrid E S α} (h : G.OK) (helem : ∀ e, Supported n (G.elemGeo e)) {order : Nat} (ho : 1 ≤ order) (h17 : G.dim = 3 → order ≤ 17)
    {keys : Geo → List Key} (hk : LagrangeKeys G order fun e => keys (G.elemGeo e)) (vec vec' : Nat → K)
    (heq : ∀ e (x : Vec K n), value G order (fun e => keys (G.elemGeo e)) (lagrangeValues order keys) vec e x =
      value G order (fun e => keys (G.elemGeo e)) (lagrangeValues order keys) vec' e x) :
    ∀ i < (lagrangeLeaf G order fun e => keys (G.elemGeo e)).dim, vec i = vec' i := by
  intro i hi
  obtain ⟨e, k, hv, hx⟩ := lagrange_covered h order h17 i hi
  obtain ⟨l, hl⟩ := List.mem_iff_getElem?.1 ((hk.mem e k).2 hv)
  have hloc : ((lagrangeLeaf G order fun e => keys (G.elemGeo e)).loc e)[l]? = some i := by simp [lagrangeLeaf, hl, hx]
  rw [← C79_value h helem ho hk vec e hl hloc, ← C79_value h helem ho hk vec' e hl hloc, heq]

/-- Global coordinates: affine or multilinear geometry of an element with vertices at `pos`. -/
def globalPoint {m : Nat} (G : LGrid E S α) (pos : α → Vec K m) (e : E) (x : Vec K n) : Vec K m :=
  ∑ v : Fin (G.elemGeo e).nv, vertexWeight (G.elemGeo e) v x • pos (G.ids e v)

omit [LinearOrder α] in
/-- The point of a global DOF does not depend on the element. -/
theorem node_position [CharZero K] {m : Nat} {G : LGrid E S α} (h : G.OK) (helem : ∀ e, Supported n (G.elemGeo e)) {order : Nat} (ho : 1 ≤ order)
    (pos : α → Vec K m) {e e' : E} {k k' : Key} (hk : ValidKey G order e k) (hk' : ValidKey G order e' k') (hs : SameNode G order e k e' k') :
    globalPoint G pos e (lagrangeNode K n order (G.elemGeo e) k) = globalPoint G pos e' (lagrangeNode K n order (G.elemGeo e') k') := by
  have hlt : k.sub < (stdSubs (G.elemGeo e) k.codim).length := by obtain ⟨-, u, hu, -⟩ := hk; exact (List.getElem?_eq_some_iff.1 hu).1
  have hlt' : k'.sub < (stdSubs (G.elemGeo e') k'.codim).length := by obtain ⟨-, u, hu, -⟩ := hk'; exact (List.getElem?_eq_some_iff.1 hu).1
  have hcod : k.codim = k'.codim := by
    have := subGeo_dim h hlt
    have := subGeo_dim h hlt'
    have := hk.1
    have := hk'.1
    rw [hs.1] at *
    omega
  by_cases h0 : k.codim = 0
  · have hz : ∀ t ∈ elemTypes, (stdSubs t 0).length = 1 := by decide
    have s0 : k.sub = 0 := by rw [h0, hz _ (h.type e)] at hlt; omega
    have s0' : k'.sub = 0 := by rw [← hcod, h0, hz _ (h.type e')] at hlt'; omega
    have hee : e = e' := h.elemInj _ _ (by have := hs.1; rwa [h0, ← hcod, h0, s0, s0'] at this)
    have hi : k.index = k'.index := by have := hs.2; rwa [if_pos h0] at this
    subst hee
    rw [show k = k' by cases k; cases k'; simp_all]
  · have h0' : k'.codim ≠ 0 := by omega
    have hV := h.vertsSame e k e' k' (by rw [h.std]; exact hlt) (by rw [h.std]; exact hlt') hs.1
    have h2 : ((order : K) * order) ≠ 0 := by
      have : (order : K) ≠ 0 := by exact_mod_cast (by omega : order ≠ 0)
      exact mul_ne_zero this this
    have hw : ∀ v : Fin (G.elemGeo e).nv, vertexWeight (G.elemGeo e) v (lagrangeNode K n order (G.elemGeo e) k) = (weight order (G.elemGeo e) k v : K) / (order * order) := by
      intro v
      rw [eq_div_iff h2, mul_comm, lagrangeNode_weight ho (helem e) (validLocal h hk) h0 v.2]
    have hw' : ∀ v : Fin (G.elemGeo e').nv, vertexWeight (G.elemGeo e') v (lagrangeNode K n order (G.elemGeo e') k') = (weight order (G.elemGeo e') k' v : K) / (order * order) := by
      intro v
      rw [eq_div_iff h2, mul_comm, lagrangeNode_weight ho (helem e') (validLocal h hk') h0' v.2]
    funext j
    rw [globalPoint, globalPoint, Finset.sum_apply, Finset.sum_apply]
    refine sum_match (fun v : Fin (G.elemGeo e).nv => G.ids e v) (fun v : Fin (G.elemGeo e').nv => G.ids e' v)
      (fun a b hab => Fin.ext (h.idsInj e a b a.2 b.2 hab)) (fun a b hab => Fin.ext (h.idsInj e' a b a.2 b.2 hab)) _ _ ?_ ?_ ?_
    · intro v v' hid
      simp only [Pi.smul_apply, hw, hw']
      rw [weight_same h hk hk' hs h0 v.2 v'.2 hid, hid]
    · intro v hv
      simp only [Pi.smul_apply, hw]
      rw [weight_outside, Nat.cast_zero, zero_div, zero_smul]
      intro hm
      have : G.ids e v ∈ G.verts e k := List.mem_map.2 ⟨v, hm, rfl⟩
      rw [hV] at this
      obtain ⟨v', hm', hid⟩ := List.mem_map.1 this
      exact hv ⟨v', (keyVerts_table (h.type e') (by have := (h.base.elemMem e').2; have := hk'.1; omega) hlt').2.1 v' hm'⟩ hid.symm
    · intro v' hv'
      simp only [Pi.smul_apply, hw']
      rw [weight_outside, Nat.cast_zero, zero_div, zero_smul]
      intro hm
      have : G.ids e' v' ∈ G.verts e' k' := List.mem_map.2 ⟨v', hm, rfl⟩
      rw [← hV] at this
      obtain ⟨v, hm, hid⟩ := List.mem_map.1 this
      exact hv' ⟨v, (keyVerts_table (h.type e) (by have := (h.base.elemMem e).2; have := hk.1; omega) hlt).2.1 v hm⟩ hid

/-- interpolate.hh:151-173, 254-259 with a scalar Lagrange basis: the finite element evaluates the function in its Lagrange points. -/
noncomputable def lagrangeInterpolate (G : LGrid E S α) (order : Nat) (keys : Geo → List Key) (f : E → Vec ℝ n → ℝ) (vec : Nat → ℝ) (es : List E) : Option (Nat → ℝ) :=
  Verif.FE.Interpolation.interpolateAll (lagrangeLeaf G order fun e => keys (G.elemGeo e)).loc
    (fun _ e => some ((keys (G.elemGeo e)).map fun k => f e (lagrangeNode ℝ n order (G.elemGeo e) k))) vec es

/-- **C79.** `interpolate(basis, coeff, F)` for a function `F` of global coordinates: for all orders of traversal and previous contents of the vector, each coefficient is the value
of `F` in its Lagrange point, and the discrete function has the values of `F` in all Lagrange points of all elements. -/
theorem C79_interpolate {m : Nat} {G : LGrid E S α} (h : G.OK) (helem : ∀ e, Supported n (G.elemGeo e)) {order : Nat} (ho : 1 ≤ order) (h17 : G.dim = 3 → order ≤ 17)
    {keys : Geo → List Key} (hk : LagrangeKeys G order fun e => keys (G.elemGeo e)) (pos : α → Vec ℝ m) (F : Vec ℝ m → ℝ) (vec : Nat → ℝ) (es : List E) (hes : ∀ e, e ∈ es) :
    ∃ r, lagrangeInterpolate G order keys (fun e (x : Vec ℝ n) => F (globalPoint G pos e x)) vec es = some r ∧
      (∀ e (l i : Nat) (k : Key), (keys (G.elemGeo e))[l]? = some k → ((lagrangeLeaf G order fun e => keys (G.elemGeo e)).loc e)[l]? = some i →
        r i = F (globalPoint G pos e (lagrangeNode ℝ n order (G.elemGeo e) k))) ∧
      (∀ e, ∀ k ∈ keys (G.elemGeo e), value G order (fun e => keys (G.elemGeo e)) (lagrangeValues order keys) r e (lagrangeNode ℝ n order (G.elemGeo e) k) =
        F (globalPoint G pos e (lagrangeNode ℝ n order (G.elemGeo e) k))) ∧
      ∀ i, (lagrangeLeaf G order fun e => keys (G.elemGeo e)).dim ≤ i → r i = vec i := by
  have hget : ∀ (e : E) (l i : Nat), ((lagrangeLeaf G order fun e => keys (G.elemGeo e)).loc e)[l]? = some i →
      ∃ k, (keys (G.elemGeo e))[l]? = some k ∧ ValidKey G order e k ∧ lagrangeIndex G order e k = some i := by
    intro e l i hi
    simp only [lagrangeLeaf, List.getElem?_map] at hi
    obtain ⟨k, hl, hi⟩ := Option.map_eq_some_iff.1 hi
    have hv := (hk.mem e k).1 (List.mem_of_getElem? hl)
    obtain ⟨a, b, h1, -⟩ := C20_C22_conformity h order h17 e k e k hv hv
    exact ⟨k, hl, hv, by rw [h1] at hi ⊢; simpa using hi⟩
  obtain ⟨r, r1, r2, r3⟩ := Verif.FE.Interpolation.interpolateAll_spec (loc := (lagrangeLeaf G order fun e => keys (G.elemGeo e)).loc)
    (c := fun e => (keys (G.elemGeo e)).map fun k => F (globalPoint G pos e (lagrangeNode ℝ n order (G.elemGeo e) k))) (fun _ _ => rfl) (by intro e; simp [lagrangeLeaf]) (by
      intro e e' l l' i x x' hl hl' hx hx'
      obtain ⟨k, hkl, hv, hki⟩ := hget e l i hl
      obtain ⟨k', hkl', hv', hki'⟩ := hget e' l' i hl'
      simp only [List.getElem?_map, hkl, hkl', Option.map_some, Option.some.injEq] at hx hx'
      rw [← hx, ← hx']
      obtain ⟨a, b, h1, h2, -, hiff⟩ := C20_C22_conformity h order h17 e k e' k' hv hv'
      rw [hki, Option.some.injEq] at h1
      rw [hki', Option.some.injEq] at h2
      rw [node_position h helem ho pos hv hv' (hiff.1 (by rw [← h1, ← h2]))]) vec es
  refine ⟨r, r1, ?_, ?_, ?_⟩
  · intro e l i k hl hi
    exact r2 e (hes e) l i _ hi (by simp [hl])
  · intro e k hke
    obtain ⟨l, hl⟩ := List.mem_iff_getElem?.1 hke
    have hlt : l < ((lagrangeLeaf G order fun e => keys (G.elemGeo e)).loc e).length := by
      simp only [lagrangeLeaf, List.length_map]
      exact (List.getElem?_eq_some_iff.1 hl).1
    rw [C79_value h helem ho hk r e hl (List.getElem?_eq_getElem hlt)]
    exact r2 e (hes e) l _ _ (List.getElem?_eq_getElem hlt) (by simp [hl])
  · intro i hi
    refine r3 i fun e _ hm => ?_
    obtain ⟨l, hl⟩ := List.mem_iff_getElem?.1 hm
    obtain ⟨k, -, hv, hki⟩ := hget e l i hl
    obtain ⟨a, b, h1, -, hlt, -⟩ := C20_C22_conformity h order h17 e k e k hv hv
    rw [hki, Option.some.injEq] at h1
    have hi : mapperSize G.toGridView (lagrangeLayout order G.dim) ≤ i := hi
    omega

/-! ## Example -/

theorem mixed_elem : ∀ e, Supported 2 (mixedGrid.elemGeo e) := by
  decide

/-- Order 3: the second point of the edge from vertex 0 to vertex 2 of the quadrilateral, an inner point of the quadrilateral, the inner point of the triangle. -/
example : lagrangeNode ℚ 2 3 ⟨2, 4⟩ ⟨0, 1, 1⟩ = ![0, 2 / 3] ∧ lagrangeNode ℚ 2 3 ⟨2, 4⟩ ⟨0, 0, 1⟩ = ![2 / 3, 1 / 3] ∧
    lagrangeNode ℚ 2 3 ⟨2, 3⟩ ⟨0, 0, 0⟩ = ![1 / 3, 1 / 3] := by decide +kernel

/-- The coefficient 20 of order 3 belongs to the third inner point of the quadrilateral. -/
example (vec : Nat → ℚ) : value mixedGrid 3 (fun e => gridKeys mixedGrid 3 (mixedGrid.elemGeo e)) (lagrangeValues 3 (gridKeys mixedGrid 3)) vec 0
    (lagrangeNode ℚ 2 3 ⟨2, 4⟩ ⟨0, 0, 2⟩) = vec 20 :=
  C79_value mixedGrid_OK mixed_elem (by decide) (gridKeys_keys mixedGrid_OK 3) vec 0 (l := 2) (by decide +kernel) (by decide +kernel)

example (order : Nat) (ho : 1 ≤ order) (pos : Nat → Vec ℝ 3) (F : Vec ℝ 3 → ℝ) (vec : Nat → ℝ) :
    ∃ r, lagrangeInterpolate mixedGrid order (gridKeys mixedGrid order) (fun e (x : Vec ℝ 2) => F (globalPoint mixedGrid pos e x)) vec [1, 0, 1] = some r ∧
      ∀ e, ∀ k ∈ gridKeys mixedGrid order (mixedGrid.elemGeo e),
        value mixedGrid order (fun e => gridKeys mixedGrid order (mixedGrid.elemGeo e)) (lagrangeValues order (gridKeys mixedGrid order)) r e
          (lagrangeNode ℝ 2 order (mixedGrid.elemGeo e) k) = F (globalPoint mixedGrid pos e (lagrangeNode ℝ 2 order (mixedGrid.elemGeo e) k)) := by
  obtain ⟨r, h1, -, h2, -⟩ := C79_interpolate mixedGrid_OK mixed_elem ho (fun h => absurd h (by decide)) (gridKeys_keys mixedGrid_OK order) pos F vec [1, 0, 1]
    (by decide)
  exact ⟨r, h1, h2⟩

end Verif.Lagrange.Continuity

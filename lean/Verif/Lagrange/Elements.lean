import Verif.Lagrange.Continuity
import Mathlib.Data.Nat.Choose.Cast
import Mathlib.Algebra.CharZero.Defs
import Mathlib.Tactic.LinearCombination

/-!
# Shape functions of Lagrange simplices and cubes of arbitrary order

Lagrange shape functions of simplices and cubes with equidistant nodes satisfy the contract `Traces`.
-/

namespace Verif.Lagrange.Continuity

open Mapper
open Verif.Piola (Vec)
open Verif.HDiv (simplexOf cubeOf)
open Verif.HDiv.Trace (corner)
open Verif.HDiv.Tangential (bary bary_combination)

variable {E S α K : Type} [LinearOrder α] [Field K] {n : Nat}

/-! ## Nodes -/

theorem factor_zero (order : Nat) (l : K) : factor order 0 l = 1 := by simp [factor]

theorem factor_at_zero (order : Nat) {a : Nat} (ha : a ≠ 0) : factor order a (0 : K) = 0 := by
  rw [factor, Finset.prod_eq_zero (i := 0) (Finset.mem_range.2 (by omega)) (by simp)]

/-- Values at the nodes. -/
theorem factor_choose [CharZero K] (order a : Nat) {b : Nat} {l : K} (hl : (order : K) * l = b) : factor order a l = (b.choose a : K) := by
  induction a with
  | zero => simp [factor]
  | succ a ih =>
    rw [factor] at ih ⊢
    rw [Finset.prod_range_succ, ih, hl]
    have h1 : ((a : K) + 1) ≠ 0 := by exact_mod_cast Nat.succ_ne_zero a
    have h2 : (b.choose (a + 1) : K) * ((a : K) + 1) = b.choose a * ((b : K) - a) := by
      have := Nat.choose_succ_right_eq b a
      by_cases hab : a ≤ b
      · rw [← Nat.cast_sub hab]
        exact_mod_cast this
      · rw [Nat.choose_eq_zero_of_lt (by omega : b < a), Nat.choose_eq_zero_of_lt (by omega : b < a + 1)]
        simp
    field_simp
    linear_combination -h2

/-- Interior points of the tetrahedron. -/
def tetPoints (order : Nat) : List (List Nat) :=
  (List.range (order - 3)).flatMap fun z => (List.range (order - 3 - z)).flatMap fun y => (List.range (order - 3 - z - y)).map fun x =>
    [order - (x + 1) - (y + 1) - (z + 1), x + 1, y + 1, z + 1]

def simplexPoints (order : Nat) (t : Geo) : List (List Nat) := if t = ⟨3, 4⟩ then tetPoints order else points order t

theorem sum_down (f : Nat → Nat) (m : Nat) : ((List.range (m + 1)).map fun i => f (m + 1 - i)).sum = f (m + 1) + ((List.range m).map fun i => f (m - i)).sum := by
  rw [List.range_succ_eq_map, List.map_cons, List.sum_cons, List.map_map]
  congr 2
  apply List.map_congr_left
  intro i _
  simp

theorem tetPoints_length (order : Nat) : (tetPoints order).length = (order - 1).choose 3 := by
  have h1 : ∀ m, ((List.range m).map fun i => m - i).sum = (m + 1).choose 2 := by
    intro m
    induction m with
    | zero => rfl
    | succ m ih =>
      rw [sum_down (fun j => j) m, ih, Nat.choose_succ_succ' (m + 1) 1]
      simp
  have h2 : ∀ m, ((List.range m).map fun i => (m - i + 1).choose 2).sum = (m + 2).choose 3 := by
    intro m
    induction m with
    | zero => rfl
    | succ m ih => rw [sum_down (fun j => (j + 1).choose 2) m, ih, Nat.choose_succ_succ' (m + 2) 2]
  have h3 : (tetPoints order).length = ((List.range (order - 3)).map fun z => (order - 3 - z + 1).choose 2).sum := by
    rw [tetPoints, List.length_flatMap]
    congr 1
    apply List.map_congr_left
    intro z _
    rw [List.length_flatMap, ← h1]
    simp
  rw [h3, h2]
  by_cases h : 3 ≤ order
  · congr 1
    omega
  · rw [show order - 3 = 0 by omega, Nat.choose_eq_zero_of_lt (by omega : order - 1 < 3)]
    rfl

theorem points_count {order : Nat} (ho : 1 ≤ order) (dim : Nat) :
    ∀ u ∈ ([⟨0, 1⟩, ⟨1, 2⟩, ⟨2, 3⟩, ⟨2, 4⟩] : List Geo), (points order u).length = lagrangeLayout order dim u := by
  have h0 : order ≠ 0 := by omega
  have hpl : (triPoints order).length = (order - 1).choose 2 := by
    rw [triPoints_eq, List.length_map, baryList_length, Nat.choose_two_right, show order - 1 - 1 = order - 2 by omega]
    by_cases h2 : 2 ≤ order
    · rw [show order - 2 + 1 = order - 1 by omega, Nat.mul_comm]
    · simp [show order - 2 = 0 by omega]
  simp only [List.forall_mem_cons, List.not_mem_nil, false_imp_iff, implies_true, and_true]
  refine ⟨?_, ?_, ?_, ?_⟩
  · simp [points, lagrangeLayout, h0]
  · simp [points, lagrangeLayout, h0]
  · simpa [points, lagrangeLayout, h0] using hpl
  · simp [points, lagrangeLayout, h0, quadPoints_length, Nat.pow_two]

theorem points_pos {order : Nat} (ho : 1 ≤ order) (t : Geo) : ∀ w ∈ points order t, ∀ a ∈ w, 0 < a := by
  intro w hw a ha
  rw [points] at hw
  split at hw
  · simp at hw
    subst hw
    simp at ha
    omega
  split at hw
  · simp only [List.mem_map, List.mem_range, edgePoint] at hw
    obtain ⟨i, hi, rfl⟩ := hw
    simp at ha
    omega
  split at hw
  · simp only [triPoints, List.mem_flatMap, List.mem_map, List.mem_range] at hw
    obtain ⟨y, hy, x, hx, rfl⟩ := hw
    simp at ha
    omega
  · simp only [quadPoints, List.mem_flatMap, List.mem_map, List.mem_range] at hw
    obtain ⟨y, hy, x, hx, rfl⟩ := hw
    simp only [List.mem_cons, List.not_mem_nil, or_false] at ha
    have h1 : 0 < order - (x + 1) := by omega
    have h2 : 0 < order - (y + 1) := by omega
    rcases ha with rfl | rfl | rfl | rfl <;> positivity

theorem simplexPoints_pos {order : Nat} (ho : 1 ≤ order) (t : Geo) : ∀ w ∈ simplexPoints order t, ∀ a ∈ w, 0 < a := by
  intro w hw a ha
  rw [simplexPoints] at hw
  split at hw
  · simp only [tetPoints, List.mem_flatMap, List.mem_map, List.mem_range] at hw
    obtain ⟨z, hz, y, hy, x, hx, rfl⟩ := hw
    simp at ha
    omega
  · exact points_pos ho t w hw a ha

/-! ## Simplices -/

/-- `LagrangeSimplexLocalBasis` (dune-localfunctions): the shape function of a point is the product of the factors for the barycentric coordinates. -/
def simplexShape (order : Nat) (t : Geo) (k : Key) (x : Vec K n) : K :=
  (((keyVerts t k).zip ((simplexPoints order (keyType t k)).getD k.index [])).map fun p => factor order p.2 (bary p.1 x)).prod

/-- Factors of vertices outside the support are 1. -/
theorem prod_support (g : Nat → Nat → K) (h0 : ∀ v, g v 0 = 1) (F l w : List Nat) (hF : F.Nodup) (hl : l.Nodup) (hw : w.length = l.length) (hlF : ∀ v ∈ l, v ∈ F) :
    (F.map fun v => g v ((l.zip w).map fun p => if p.1 = v then p.2 else 0).sum).prod = ((l.zip w).map fun p => g p.1 p.2).prod := by
  have e1 : (F.map fun v => g v ((l.zip w).map fun p => if p.1 = v then p.2 else 0).sum).prod =
      (l.map fun v => g v ((l.zip w).map fun p => if p.1 = v then p.2 else 0).sum).prod := by
    rw [← List.prod_toFinset _ hF, ← List.prod_toFinset _ hl]
    symm
    apply Finset.prod_subset
    · intro v hv
      rw [List.mem_toFinset] at hv ⊢
      exact hlF v hv
    · intro v _ hv
      rw [List.mem_toFinset] at hv
      rw [(sum_lookup l w hl hw v).2 hv, h0]
  rw [e1]
  congr 1
  apply List.ext_getElem
  · simp [hw]
  · intro i h1 h2
    simp only [List.length_map] at h1
    simp only [List.getElem_map, List.getElem_zip]
    rw [(sum_lookup l w hl hw _).1 i h1 rfl]

theorem simplex_faces : ∀ t ∈ ([⟨1, 2⟩, ⟨2, 3⟩, ⟨3, 4⟩] : List Geo), ∀ c ≤ t.dim, ∀ i < (stdSubs t c).length,
    (stdSubs t c).getD i ⟨0, 0⟩ ∈ ([⟨0, 1⟩, ⟨1, 2⟩, ⟨2, 3⟩, ⟨3, 4⟩] : List Geo) ∧ (c ≠ 0 → (stdSubs t c).getD i ⟨0, 0⟩ ≠ ⟨3, 4⟩) := by decide +kernel

theorem simplexOf_mem {n : Nat} (hn : n ≤ 2) : simplexOf (n + 1) ∈ ([⟨1, 2⟩, ⟨2, 3⟩, ⟨3, 4⟩] : List Geo) := by
  have : n = 0 ∨ n = 1 ∨ n = 2 := by omega
  rcases this with rfl | rfl | rfl <;> decide

theorem simplex_elem : ∀ t ∈ ([⟨1, 2⟩, ⟨2, 3⟩, ⟨3, 4⟩] : List Geo), t ∈ elemTypes := by decide

theorem codim_of_subset {t : Geo} (ht : t ∈ elemTypes) {k : Key} (hs : k.sub < (stdSubs t k.codim).length) {c s : Nat} (hc : c ≤ t.dim) (hc1 : 1 ≤ c) {F : List Nat}
    (hF : (subVerts (refOf t) c)[s]? = some F) (hall : ∀ v ∈ keyVerts t k, v ∈ F) : k.codim ≠ 0 := by
  intro h0
  obtain ⟨v, hv, hvF⟩ := face_proper _ ht c hc hc1 _ (List.mem_of_getElem? hF)
  rw [h0] at hs
  have h00 : k.sub = 0 := by
    simp [stdSubs, subVerts] at hs
    exact hs
  refine hvF (hall v ?_)
  simp only [keyVerts, h0, h00, subVerts, if_true]
  simp [(refOf_table _ ht).2.1, hv]

theorem faceValue_of_length (order : Nat) (l : List (Nat × K)) (h : l.length ≠ 4) : faceValue order l = (l.map fun p => factor order (p.1 / order) p.2).prod := by
  match l, h with
  | [], _ => rfl
  | [_], _ => rfl
  | [_, _], _ => rfl
  | [_, _, _], _ => rfl
  | [_, _, _, _], h => exact absurd rfl h
  | _ :: _ :: _ :: _ :: _ :: _, _ => rfl

/-- The shape functions of simplices satisfy the contract. -/
theorem simplex_traces {order : Nat} (ho : 1 ≤ order) {t : Geo} (ht : t ∈ ([⟨1, 2⟩, ⟨2, 3⟩, ⟨3, 4⟩] : List Geo)) :
    Traces (X := Vec K n) order t bary (simplexShape order t) := by
  intro k hk c s F hc1 hc hF x hx
  have hte := simplex_elem t ht
  obtain ⟨hkc, u, hu, hi⟩ := hk
  have hlt := (List.getElem?_eq_some_iff.1 hu).1
  obtain ⟨t1, t2, t3, t4, -⟩ := keyVerts_table hte hkc hlt
  obtain rfl : keyType t k = u := by rw [t4] at hu; exact Option.some.inj hu
  obtain ⟨hmem, hlow⟩ := simplex_faces t ht _ hkc _ hlt
  change keyType t k ∈ _ at hmem
  change _ → keyType t k ≠ _ at hlow
  have hcount : (simplexPoints order (keyType t k)).length = lagrangeLayout order t.dim (keyType t k) ∧ ∀ w ∈ simplexPoints order (keyType t k), w.length = (keyType t k).nv := by
    rw [simplexPoints]
    split
    · rename_i h34
      rw [h34, tetPoints_length]
      refine ⟨by simp [lagrangeLayout, show order ≠ 0 by omega], ?_⟩
      intro w hw
      simp only [tetPoints, List.mem_flatMap, List.mem_map, List.mem_range] at hw
      obtain ⟨z, hz, y, hy, x, hx, rfl⟩ := hw
      rfl
    · rename_i h34
      have : keyType t k ∈ ([⟨0, 1⟩, ⟨1, 2⟩, ⟨2, 3⟩, ⟨2, 4⟩] : List Geo) := by
        simp only [List.mem_cons, List.not_mem_nil, or_false] at hmem ⊢
        tauto
      exact ⟨points_count ho _ _ this, points_length order _ this⟩
  have hw := List.getElem?_eq_getElem (show k.index < (simplexPoints order (keyType t k)).length by rw [hcount.1]; exact hi)
  set w := (simplexPoints order (keyType t k))[k.index]'(by rw [hcount.1]; exact hi) with hwdef
  have hwm : w ∈ simplexPoints order (keyType t k) := List.mem_of_getElem? hw
  have hwl : w.length = (keyVerts t k).length := by rw [hcount.2 w hwm, t3]
  have hsh : simplexShape order t k x = (((keyVerts t k).zip w).map fun p => factor order p.2 (bary p.1 x)).prod := by
    rw [simplexShape, List.getD_eq_getElem?_getD, hw, Option.getD_some]
  constructor
  · intro hall
    have hc0 := codim_of_subset hte hlt hc hc1 hF hall
    have hsF : s < (stdSubs t c).length := by
      have := (List.getElem?_eq_some_iff.1 hF).1
      simpa [stdSubs] using this
    obtain ⟨f1, f2, f3, f4, f5⟩ := keyVerts_table hte (k := ⟨s, c, 0⟩) hc hsF
    have hFe : keyVerts t ⟨s, c, 0⟩ = F := by rw [hF] at f5; exact (Option.some.inj f5).symm
    rw [hFe] at f1 f3
    have hF4 : F.length ≠ 4 := by
      obtain ⟨g1, g2⟩ := simplex_faces t ht _ hc _ hsF
      change keyType t ⟨s, c, 0⟩ ∈ _ at g1
      have g2 := g2 (by omega)
      change keyType t ⟨s, c, 0⟩ ≠ _ at g2
      rw [f3]
      simp only [List.mem_cons, List.not_mem_nil, or_false] at g1
      rcases g1 with g | g | g | g
      · rw [g]; decide
      · rw [g]; decide
      · rw [g]; decide
      · exact absurd g g2
    rw [faceValue_of_length _ _ (by simpa using hF4), List.map_map, hsh]
    rw [← prod_support (fun v a => factor order a (bary v x)) (fun v => factor_zero order _) F _ w f1 t1 hwl hall]
    congr 1
    apply List.map_congr_left
    intro v hv
    have h24 : keyType t k ≠ ⟨2, 4⟩ := by
      intro h
      rw [h] at hmem
      exact absurd hmem (by decide)
    have hsp : points order (keyType t k) = simplexPoints order (keyType t k) := by rw [simplexPoints, if_neg (hlow hc0)]
    simp only [Function.comp_apply]
    rw [weight, if_neg h24, Nat.mul_div_cancel_left _ (by omega), hsp, List.getD_eq_getElem?_getD, hw, Option.getD_some]
  · rintro ⟨v, hv, hvF⟩
    rw [hsh]
    obtain ⟨i, hi, rfl⟩ := List.mem_iff_getElem.1 hv
    apply List.prod_eq_zero
    rw [List.mem_map]
    refine ⟨((keyVerts t k)[i], w[i]), ?_, ?_⟩
    · rw [List.mem_iff_getElem]
      exact ⟨i, by simp; omega, by simp⟩
    · simp only
      rw [hx _ (t2 _ hv) hvF]
      exact factor_at_zero order (simplexPoints_pos ho _ w hwm _ (List.getElem_mem _)).ne'

/-! ## Cubes -/

/-- Weight of a vertex of the unit cube: its multilinear shape function. -/
def cubeBw {m : Nat} (v : Nat) (x : Vec K m) : K := ∏ d : Fin m, if v.testBit d then x d else 1 - x d

/-- Coordinates of the node of a key, times the order: lexicographic numbering in the interior, combination of vertices otherwise. -/
def cubeCoord (order : Nat) (t : Geo) (k : Key) (d : Nat) : Nat :=
  if k.codim = 0 then k.index / (order - 1) ^ d % (order - 1) + 1
  else (∑ v ∈ Finset.range t.nv, if v.testBit d then weight order t k v else 0) / order

/-- Lagrange polynomial of node `X` of the unit interval. -/
def linePoly (order X : Nat) (y : K) : K := factor order (order - X) (1 - y) * factor order X y

/-- `LagrangeCubeLocalBasis` (dune-localfunctions): tensor products. -/
def cubeShape {m : Nat} (order : Nat) (t : Geo) (k : Key) (x : Vec K m) : K := ∏ d : Fin m, linePoly order (cubeCoord order t k d) (x d)

theorem linePoly_zero [CharZero K] (order X : Nat) (hX : X ≤ order) : linePoly order X (0 : K) = if X = 0 then 1 else 0 := by
  rw [linePoly]
  split
  · rename_i h
    subst h
    rw [factor_choose order _ (b := order) (by simp), factor_zero]
    simp
  · rename_i h
    rw [factor_at_zero order h, mul_zero]

theorem linePoly_one [CharZero K] (order X : Nat) (hX : X ≤ order) : linePoly order X (1 : K) = if X = order then 1 else 0 := by
  rw [linePoly, sub_self]
  split
  · rename_i h
    subst h
    rw [factor_choose X X (b := X) (by simp), Nat.sub_self, factor_zero]
    simp
  · rename_i h
    rw [factor_at_zero order (by omega), zero_mul]

/-- The coordinates are the sums of the weights of vertices. -/
theorem cubeBw_sum {m : Nat} (hm : m = 2 ∨ m = 3) (x : Vec K m) (d : Fin m) :
    (∑ v ∈ Finset.range (2 ^ m), if v.testBit d then cubeBw v x else 0) = x d ∧
    (∑ v ∈ Finset.range (2 ^ m), if v.testBit d then 0 else cubeBw v x) = 1 - x d := by
  rcases hm with rfl | rfl
  · fin_cases d <;> simp [Finset.sum_range_succ, cubeBw, Fin.prod_univ_two, Nat.testBit, Nat.shiftRight_eq_div_pow] <;> constructor <;> ring
  · fin_cases d <;> simp [Finset.sum_range_succ, cubeBw, Fin.prod_univ_three, Nat.testBit, Nat.shiftRight_eq_div_pow] <;> constructor <;> ring

/-- Combination of the weights of a node. -/
theorem weight_sum (order : Nat) (t : Geo) (k : Key) (g : Nat → Nat) {w : List Nat} (hw : (points order (keyType t k))[k.index]? = some w)
    (hlt : ∀ v ∈ keyVerts t k, v < t.nv) :
    ∑ v ∈ Finset.range t.nv, g v * weight order t k v = (if keyType t k = ⟨2, 4⟩ then 1 else order) * (((keyVerts t k).zip w).map fun p => g p.1 * p.2).sum := by
  have key : ∀ L : List (Nat × Nat), (∀ p ∈ L, p.1 < t.nv) →
      ∑ v ∈ Finset.range t.nv, g v * (L.map fun p => if p.1 = v then p.2 else 0).sum = (L.map fun p => g p.1 * p.2).sum := by
    intro L
    induction L with
    | nil => simp
    | cons p L ih =>
      intro hL
      have ih := ih fun q hq => hL q (List.mem_cons_of_mem _ hq)
      simp only [List.map_cons, List.sum_cons, mul_add, Finset.sum_add_distrib, ih]
      congr 1
      rw [Finset.sum_eq_single p.1]
      · simp
      · intro v _ hv
        rw [if_neg (Ne.symm hv), mul_zero]
      · intro h
        exact absurd (Finset.mem_range.2 (hL p List.mem_cons_self)) h
  rw [← key _ (fun p hp => hlt _ (List.of_mem_zip hp).1), Finset.mul_sum]
  apply Finset.sum_congr rfl
  intro v _
  rw [weight, List.getD_eq_getElem?_getD, hw, Option.getD_some]
  ring

/-- Sub-entities of cubes: bits of their vertices. -/
theorem cube_table : ∀ t ∈ ([⟨2, 4⟩, ⟨3, 8⟩] : List Geo), ∀ c ≤ t.dim, 1 ≤ c → ∀ i < (subVerts (refOf t) c).length, ∀ d < t.dim,
    ((subVerts (refOf t) c).getD i []).map (fun v => Nat.testBit v d) ∈
      ([[false], [true], [false, false], [true, true], [false, true], [false, false, false, false], [true, true, true, true], [false, true, false, true],
        [false, false, true, true]] : List (List Bool)) := by decide +kernel

theorem cube_elem : ∀ t ∈ ([⟨2, 4⟩, ⟨3, 8⟩] : List Geo), t ∈ elemTypes ∧ t.nv = 2 ^ t.dim ∧ (t.dim = 2 ∨ t.dim = 3) := by decide

/-- Coordinates of a node on the boundary. -/
theorem cubeCoord_node {order : Nat} (ho : 1 ≤ order) {t : Geo} (ht : t ∈ ([⟨2, 4⟩, ⟨3, 8⟩] : List Geo)) {k : Key} (hk : ValidLocal order t k) (hc0 : k.codim ≠ 0) :
    (∑ v ∈ Finset.range t.nv, weight order t k v = order * order) ∧ ∀ d < t.dim,
      (∑ v ∈ Finset.range t.nv, if v.testBit d then weight order t k v else 0) = order * cubeCoord order t k d ∧
      cubeCoord order t k d ≤ order ∧ (cubeCoord order t k d = 0 ↔ ∀ v ∈ keyVerts t k, v.testBit d = false) ∧
      (cubeCoord order t k d = order ↔ ∀ v ∈ keyVerts t k, v.testBit d = true) := by
  obtain ⟨hkc, u, hu, hi⟩ := hk
  have hte := (cube_elem t ht).1
  have hlt := (List.getElem?_eq_some_iff.1 hu).1
  obtain ⟨t1, t2, t3, t4, t5⟩ := keyVerts_table hte hkc hlt
  obtain rfl : keyType t k = u := by rw [t4] at hu; exact Option.some.inj hu
  obtain ⟨u0, v0, a1, -, -, -, -, a6⟩ := stdSubs_lower _ hte _ hkc hc0 _ hlt
  rw [t4, Option.some.injEq] at a1
  rw [← a1] at a6
  have hw := List.getElem?_eq_getElem (show k.index < (points order (keyType t k)).length by rw [points_count ho t.dim _ a6]; exact hi)
  set w := (points order (keyType t k))[k.index]'(by rw [points_count ho t.dim _ a6]; exact hi) with hwdef
  have hwm : w ∈ points order (keyType t k) := List.mem_of_getElem? hw
  have hsum := fun g => weight_sum order t k g hw t2
  have hlen : (keyVerts t k).length = 1 ∨ (keyVerts t k).length = 2 ∨ (keyVerts t k).length = 4 := by
    have := cube_table t ht _ hkc (by omega) k.sub (by simpa [stdSubs] using hlt) 0 (by have := (cube_elem t ht).2.2; omega)
    have := congrArg List.length (rfl : (keyVerts t k).map (fun v => Nat.testBit v 0) = _)
    rename_i h
    change (keyVerts t k).map (fun v => Nat.testBit v 0) ∈ _ at h
    have h2 : ∀ l ∈ ([[false], [true], [false, false], [true, true], [false, true], [false, false, false, false], [true, true, true, true], [false, true, false, true],
        [false, false, true, true]] : List (List Bool)), l.length = 1 ∨ l.length = 2 ∨ l.length = 4 := by decide
    simpa using h2 _ h
  have hpat := fun d hd => cube_table t ht _ hkc (by omega) k.sub (by simpa [stdSubs] using hlt) d hd
  change ∀ d, d < t.dim → (keyVerts t k).map (fun v => Nat.testBit v d) ∈ _ at hpat
  have hS : ∀ d, (∑ v ∈ Finset.range t.nv, if v.testBit d then weight order t k v else 0) =
      (if keyType t k = ⟨2, 4⟩ then 1 else order) * (((keyVerts t k).zip w).map fun p => (if p.1.testBit d then 1 else 0) * p.2).sum := by
    intro d
    rw [← hsum fun v => if v.testBit d then 1 else 0]
    apply Finset.sum_congr rfl
    intro v _
    split <;> simp
  have hT : ∑ v ∈ Finset.range t.nv, weight order t k v = (if keyType t k = ⟨2, 4⟩ then 1 else order) * (((keyVerts t k).zip w).map fun p => 1 * p.2).sum := by
    rw [← hsum fun _ => 1]
    simp
  have hco : ∀ d, cubeCoord order t k d = (∑ v ∈ Finset.range t.nv, if v.testBit d then weight order t k v else 0) / order := by
    intro d
    rw [cubeCoord, if_neg hc0]
  simp only [List.mem_cons, List.not_mem_nil, or_false] at a6
  -- the coordinate is determined by the sum
  have finish : ∀ d, ∀ y, (∑ v ∈ Finset.range t.nv, if v.testBit d then weight order t k v else 0) = order * y → y ≤ order →
      (y = 0 ↔ ∀ v ∈ keyVerts t k, v.testBit d = false) → (y = order ↔ ∀ v ∈ keyVerts t k, v.testBit d = true) →
      (∑ v ∈ Finset.range t.nv, if v.testBit d then weight order t k v else 0) = order * cubeCoord order t k d ∧
      cubeCoord order t k d ≤ order ∧ (cubeCoord order t k d = 0 ↔ ∀ v ∈ keyVerts t k, v.testBit d = false) ∧
      (cubeCoord order t k d = order ↔ ∀ v ∈ keyVerts t k, v.testBit d = true) := by
    intro d y h1 h2 h3 h4
    have : cubeCoord order t k d = y := by rw [hco, h1, Nat.mul_div_cancel_left _ (by omega)]
    rw [this]
    exact ⟨h1, h2, h3, h4⟩
  rcases hlen with hl | hl | hl
  · have h01 : keyType t k = ⟨0, 1⟩ := by
      rcases a6 with h | h | h | h
      · exact h
      all_goals rw [h] at t3; simp at t3; omega
    rw [h01] at hwm hS hT
    obtain ⟨a, ha⟩ := List.length_eq_one_iff.1 hl
    simp only [points, if_true, List.mem_singleton] at hwm
    rw [hwm, ha, if_neg (by decide)] at hT
    refine ⟨by rw [hT]; simp, ?_⟩
    intro d hd
    have hS := hS d
    rw [hwm, ha, if_neg (by decide)] at hS
    refine finish d (if a.testBit d then order else 0) (by rw [hS]; rcases Bool.eq_false_or_eq_true (a.testBit d) with h | h <;> simp [h]) (by split <;> omega) ?_ ?_
    · rw [ha]; rcases Bool.eq_false_or_eq_true (a.testBit d) with h | h <;> simp [h]; omega
    · rw [ha]; rcases Bool.eq_false_or_eq_true (a.testBit d) with h | h <;> simp [h]; omega
  · have h12 : keyType t k = ⟨1, 2⟩ := by
      rcases a6 with h | h | h | h
      · rw [h] at t3; simp at t3; omega
      · exact h
      all_goals rw [h] at t3; simp at t3; omega
    rw [h12] at hwm hS hT
    obtain ⟨a, b, ha⟩ := List.length_eq_two.1 hl
    rw [show points order ⟨1, 2⟩ = (List.range (order - 1)).map (edgePoint order) from rfl, List.mem_map] at hwm
    obtain ⟨i, hi, hwi⟩ := hwm
    rw [List.mem_range] at hi
    rw [← hwi, ha, if_neg (by decide)] at hT
    simp only [edgePoint, List.zip_cons_cons, List.zip_nil_right, List.map_cons, List.map_nil, List.sum_cons, List.sum_nil] at hT
    refine ⟨by rw [hT]; congr 1; omega, ?_⟩
    intro d hd
    have hS := hS d
    rw [← hwi, ha, if_neg (by decide)] at hS
    simp only [edgePoint, List.zip_cons_cons, List.zip_nil_right, List.map_cons, List.map_nil, List.sum_cons, List.sum_nil] at hS
    refine finish d _ hS ?_ ?_ ?_
    · rcases Bool.eq_false_or_eq_true (a.testBit d) with h | h <;> rcases Bool.eq_false_or_eq_true (b.testBit d) with h' | h' <;> simp [h, h'] <;> omega
    · rw [ha]; rcases Bool.eq_false_or_eq_true (a.testBit d) with h | h <;> rcases Bool.eq_false_or_eq_true (b.testBit d) with h' | h' <;> simp [h, h']; omega
    · rw [ha]; rcases Bool.eq_false_or_eq_true (a.testBit d) with h | h <;> rcases Bool.eq_false_or_eq_true (b.testBit d) with h' | h' <;> simp [h, h'] <;> omega
  · have h24 : keyType t k = ⟨2, 4⟩ := by
      rcases a6 with h | h | h | h
      · rw [h] at t3; simp at t3; omega
      · rw [h] at t3; simp at t3; omega
      · rw [h] at t3; simp at t3; omega
      · exact h
    rw [h24] at hwm hS hT
    match hVk : keyVerts t k, hl with
    | [a, b, c, e], _ =>
      simp only [points, quadPoints, show ¬ (⟨2, 4⟩ : Geo) = ⟨0, 1⟩ by decide, show ¬ (⟨2, 4⟩ : Geo) = ⟨1, 2⟩ by decide, show ¬ (⟨2, 4⟩ : Geo) = ⟨2, 3⟩ by decide,
        if_false, List.mem_flatMap, List.mem_map, List.mem_range] at hwm
      obtain ⟨Y, hY, X, hX, hwi⟩ := hwm
      obtain ⟨X', hX'⟩ : ∃ X', X' = order - (X + 1) := ⟨_, rfl⟩
      obtain ⟨Y', hY'⟩ : ∃ Y', Y' = order - (Y + 1) := ⟨_, rfl⟩
      rw [← hX', ← hY'] at hwi
      have oX : order = X' + (X + 1) := by omega
      have oY : order = Y' + (Y + 1) := by omega
      rw [← hwi, hVk, if_pos rfl] at hT
      simp only [List.zip_cons_cons, List.zip_nil_right, List.map_cons, List.map_nil, List.sum_cons, List.sum_nil] at hT
      refine ⟨?_, ?_⟩
      · rw [hT]
        calc _ = (X' + (X + 1)) * (Y' + (Y + 1)) := by ring
          _ = _ := by rw [← oX, ← oY]
      · intro d hd
        have hS := hS d
        have hpat := hpat d hd
        rw [← hwi, hVk, if_pos rfl] at hS
        rw [hVk] at hpat finish
        simp only [List.zip_cons_cons, List.zip_nil_right, List.map_cons, List.map_nil, List.sum_cons, List.sum_nil] at hS
        simp only [List.map_cons, List.map_nil, List.mem_cons, List.not_mem_nil, or_false, List.cons.injEq, reduceCtorEq, and_false, and_true, false_or] at hpat
        rcases hpat with ⟨p1, p2, p3, p4⟩ | ⟨p1, p2, p3, p4⟩ | ⟨p1, p2, p3, p4⟩ | ⟨p1, p2, p3, p4⟩ <;> simp only [p1, p2, p3, p4] at hS
        · refine finish d 0 (by rw [hS]; simp) (by omega) (by simp [p1, p2, p3, p4]) (by simp [p1, p2, p3, p4]; omega)
        · refine finish d order ?_ (by omega) (by simp [p1, p2, p3, p4]; omega) (by simp [p1, p2, p3, p4])
          rw [hS]
          calc _ = (X' + (X + 1)) * (Y' + (Y + 1)) := by simp; ring
            _ = _ := by rw [← oX, ← oY]
        · refine finish d (X + 1) ?_ (by omega) (by simp [p1, p2, p3, p4]) (by simp [p1, p2, p3, p4]; omega)
          rw [hS]
          calc _ = (Y' + (Y + 1)) * (X + 1) := by simp; ring
            _ = _ := by rw [← oY]
        · refine finish d (Y + 1) ?_ (by omega) (by simp [p1, p2, p3, p4]) (by simp [p1, p2, p3, p4]; omega)
          rw [hS]
          calc _ = (X' + (X + 1)) * (Y + 1) := by simp; ring
            _ = _ := by rw [← oX]

/-- All points of a face have the same coordinate `d`. -/
def Fixed (F : List Nat) (d : Nat) : Prop := (∀ z ∈ F, Nat.testBit z d = false) ∨ ∀ z ∈ F, Nat.testBit z d = true

instance (F : List Nat) (d : Nat) : Decidable (Fixed F d) := by unfold Fixed; infer_instance

/-- Coordinate `d` separates a vertex from a face. -/
def Separates (F : List Nat) (v d : Nat) : Prop := (v.testBit d = true ∧ ∀ z ∈ F, Nat.testBit z d = false) ∨ (v.testBit d = false ∧ ∀ z ∈ F, Nat.testBit z d = true)

instance (F : List Nat) (v d : Nat) : Decidable (Separates F v d) := by unfold Separates; infer_instance

/-- An edge in direction `d0`. -/
def EdgeDir (F : List Nat) (m d0 : Nat) : Prop := F.map (fun v => Nat.testBit v d0) = [false, true] ∧ ∀ d < m, d ≠ d0 → Fixed F d

instance (F : List Nat) (m d0 : Nat) : Decidable (EdgeDir F m d0) := by unfold EdgeDir; infer_instance

/-- A quadrilateral with directions `d1`, `d2`. -/
def QuadDir (F : List Nat) (m d1 d2 : Nat) : Prop :=
  F.map (fun v => Nat.testBit v d1) = [false, true, false, true] ∧ F.map (fun v => Nat.testBit v d2) = [false, false, true, true] ∧ ∀ d < m, d ≠ d1 ∧ d ≠ d2 → Fixed F d

instance (F : List Nat) (m d1 d2 : Nat) : Decidable (QuadDir F m d1 d2) := by unfold QuadDir; infer_instance

/-- Faces of cubes. -/
theorem cube_faces : ∀ t ∈ ([⟨2, 4⟩, ⟨3, 8⟩] : List Geo), ∀ c ≤ t.dim, 1 ≤ c → ∀ F ∈ subVerts (refOf t) c,
    (∀ v < t.nv, v ∉ F → ∃ d : Fin t.dim, Separates F v d) ∧
    ((F.length = 1 ∧ ∀ d < t.dim, Fixed F d) ∨ (F.length = 2 ∧ ∃ d0 : Fin t.dim, EdgeDir F t.dim d0) ∨
     (F.length = 4 ∧ ∃ d1 d2 : Fin t.dim, d1 ≠ d2 ∧ QuadDir F t.dim d1 d2)) := by decide +kernel

theorem sum_face {M : Type} [AddCommMonoid M] (N : Nat) (F : List Nat) (hF : F.Nodup) (hN : ∀ v ∈ F, v < N) (f : Nat → M) (h0 : ∀ v < N, v ∉ F → f v = 0) :
    ∑ v ∈ Finset.range N, f v = (F.map f).sum := by
  rw [← List.sum_toFinset f hF]
  symm
  apply Finset.sum_subset
  · intro v hv
    exact Finset.mem_range.2 (hN v (List.mem_toFinset.1 hv))
  · intro v hv hvF
    exact h0 v (Finset.mem_range.1 hv) fun h => hvF (List.mem_toFinset.2 h)

theorem length_four {β : Type} {l : List β} (h : l.length = 4) : ∃ a b c d, l = [a, b, c, d] := by
  match l, h with
  | [a, b, c, d], _ => exact ⟨a, b, c, d, rfl⟩

/-- The shape functions of cubes satisfy the contract. -/
theorem cube_traces [CharZero K] {order m : Nat} (ho : 1 ≤ order) {t : Geo} (ht : t ∈ ([⟨2, 4⟩, ⟨3, 8⟩] : List Geo)) (hm : t.dim = m) :
    Traces (X := Vec K m) order t cubeBw (cubeShape order t) := by
  intro k hk c s F hc1 hc hF x hx
  obtain ⟨hte, hnv, hdim⟩ := cube_elem t ht
  have hkc := hk.1
  have hlt : k.sub < (stdSubs t k.codim).length := by obtain ⟨-, u, hu, -⟩ := hk; exact (List.getElem?_eq_some_iff.1 hu).1
  obtain ⟨t1, t2, t3, t4, t5⟩ := keyVerts_table hte hkc hlt
  have hsF : s < (stdSubs t c).length := by
    have := (List.getElem?_eq_some_iff.1 hF).1
    simpa [stdSubs] using this
  obtain ⟨f1, f2, -, -, f5⟩ := keyVerts_table hte (k := ⟨s, c, 0⟩) hc hsF
  have hFe : keyVerts t ⟨s, c, 0⟩ = F := by rw [hF] at f5; exact (Option.some.inj f5).symm
  rw [hFe] at f1 f2
  obtain ⟨hsep, hfree⟩ := cube_faces t ht c hc hc1 F (List.mem_of_getElem? hF)
  subst hm
  have hbw := cubeBw_sum (K := K) hdim x
  rw [← hnv] at hbw
  -- coordinates of the point
  have hx1 : ∀ d : Fin t.dim, x d = (F.map fun v => if v.testBit d then cubeBw v x else 0).sum := by
    intro d
    rw [← sum_face t.nv F f1 f2 _ (fun v hv hvF => by rw [hx v hv hvF]; simp), (hbw d).1]
  have hx0 : ∀ d : Fin t.dim, 1 - x d = (F.map fun v => if v.testBit d then 0 else cubeBw v x).sum := by
    intro d
    rw [← sum_face t.nv F f1 f2 _ (fun v hv hvF => by rw [hx v hv hvF]; simp), (hbw d).2]
  have fix0 : ∀ d : Fin t.dim, (∀ z ∈ F, Nat.testBit z d = false) → x d = 0 := by
    intro d hd
    rw [hx1 d, List.sum_eq_zero]
    intro y hy
    rw [List.mem_map] at hy
    obtain ⟨v, hv, rfl⟩ := hy
    simp [hd v hv]
  have fix1 : ∀ d : Fin t.dim, (∀ z ∈ F, Nat.testBit z d = true) → x d = 1 := by
    intro d hd
    have := hx0 d
    rw [List.sum_eq_zero] at this
    · linear_combination -this
    intro y hy
    rw [List.mem_map] at hy
    obtain ⟨v, hv, rfl⟩ := hy
    simp [hd v hv]
  constructor
  · intro hall
    have hc0 := codim_of_subset hte hlt hc hc1 hF hall
    obtain ⟨htot, hco⟩ := cubeCoord_node ho ht hk hc0
    have hW0 : ∀ v < t.nv, v ∉ F → weight order t k v = 0 := by
      intro v hv hvF
      have hnk : v ∉ keyVerts t k := fun h => hvF (hall v h)
      rw [weight]
      rw [show (((keyVerts t k).zip ((points order (keyType t k)).getD k.index [])).map fun p => if p.1 = v then p.2 else 0).sum = 0 from ?_, mul_zero]
      rw [List.sum_eq_zero]
      intro y hy
      rw [List.mem_map] at hy
      obtain ⟨p, hp, rfl⟩ := hy
      rw [if_neg]
      rintro rfl
      exact hnk (List.of_mem_zip hp).1
    rw [sum_face t.nv F f1 f2 _ hW0] at htot
    have hWd : ∀ d : Fin t.dim, (F.map fun v => if v.testBit d then weight order t k v else 0).sum = order * cubeCoord order t k d := by
      intro d
      rw [← (hco d d.2).1, sum_face t.nv F f1 f2 _ (fun v hv hvF => by rw [hW0 v hv hvF]; simp)]
    -- fixed directions
    have hfix : ∀ d : Fin t.dim, Fixed F d → linePoly order (cubeCoord order t k d) (x d) = 1 := by
      intro d hd
      obtain ⟨-, hle, h0, h1⟩ := hco d d.2
      rcases hd with hd | hd
      · rw [fix0 d hd, linePoly_zero order _ hle, if_pos (h0.2 fun v hv => hd v (hall v hv))]
      · rw [fix1 d hd, linePoly_one order _ hle, if_pos (h1.2 fun v hv => hd v (hall v hv))]
    have hdiv : ∀ a b X : Nat, b = order * X → a + b = order * order → b / order = X ∧ a / order = order - X := by
      intro a b X hb hab
      refine ⟨by rw [hb, Nat.mul_div_cancel_left _ (by omega)], ?_⟩
      have : a = order * (order - X) := by rw [Nat.mul_sub]; omega
      rw [this, Nat.mul_div_cancel_left _ (by omega)]
    rcases hfree with ⟨hl, hfree⟩ | ⟨hl, ⟨d0, hd0⟩, hpat, hfree⟩ | ⟨hl, ⟨d1, hd1⟩, ⟨d2, hd2⟩, hne, hp1, hp2, hfree⟩
    · obtain ⟨a, rfl⟩ := List.length_eq_one_iff.1 hl
      rw [cubeShape, Finset.prod_eq_one fun d _ => hfix d (hfree d d.2)]
      have hb : cubeBw a x = 1 := by
        have h1 := hx1 ⟨0, by omega⟩
        have h0 := hx0 ⟨0, by omega⟩
        simp only [List.map_cons, List.map_nil, List.sum_cons, List.sum_nil, add_zero] at h1 h0
        split at h1
        · rename_i h
          rw [if_pos h] at h0
          linear_combination -h0 - h1
        · rename_i h
          rw [if_neg h] at h0
          linear_combination -h0 - h1
      simp only [List.map_cons, List.map_nil, List.sum_cons, List.sum_nil, add_zero] at htot
      simp only [List.map_cons, List.map_nil, faceValue, List.prod_cons, List.prod_nil, mul_one, htot, hb]
      rw [Nat.mul_div_cancel_left _ (by omega), factor_choose order order (b := order) (by simp)]
      simp
    · obtain ⟨a, b, rfl⟩ := List.length_eq_two.1 hl
      simp only [List.map_cons, List.map_nil, List.cons.injEq, and_true] at hpat
      obtain ⟨pa, pb⟩ := hpat
      rw [cubeShape, Finset.prod_eq_single (⟨d0, hd0⟩ : Fin t.dim) (fun d _ hd => hfix d (hfree d d.2 fun h => hd (Fin.ext h))) (fun h => absurd (Finset.mem_univ _) h)]
      have h1 := hx1 ⟨d0, hd0⟩
      have h0 := hx0 ⟨d0, hd0⟩
      have hw := hWd ⟨d0, hd0⟩
      simp only [List.map_cons, List.map_nil, List.sum_cons, List.sum_nil, add_zero, pa, pb, Bool.false_eq_true, if_false, if_true, zero_add] at h1 h0 hw htot
      obtain ⟨g1, g2⟩ := hdiv _ _ _ hw htot
      simp only [List.map_cons, List.map_nil, faceValue, List.prod_cons, List.prod_nil, mul_one]
      rw [linePoly, g1, g2, ← h1, ← h0]
    · obtain ⟨a, b, c, e, rfl⟩ := length_four hl
      simp only [List.map_cons, List.map_nil, List.cons.injEq, and_true] at hp1 hp2
      obtain ⟨pa, pb, pc, pe⟩ := hp1
      obtain ⟨qa, qb, qc, qe⟩ := hp2
      rw [cubeShape, ← Finset.prod_subset (Finset.subset_univ {(⟨d1, hd1⟩ : Fin t.dim), ⟨d2, hd2⟩}) (fun d _ hd => hfix d (hfree d d.2
        ⟨(fun h => hd (by rw [show d = ⟨d1, hd1⟩ from Fin.ext h]; simp)), (fun h => hd (by rw [show d = ⟨d2, hd2⟩ from Fin.ext h]; simp))⟩)), Finset.prod_pair hne]
      have h1 := hx1 ⟨d1, hd1⟩
      have h0 := hx0 ⟨d1, hd1⟩
      have hw := hWd ⟨d1, hd1⟩
      have h1' := hx1 ⟨d2, hd2⟩
      have h0' := hx0 ⟨d2, hd2⟩
      have hw' := hWd ⟨d2, hd2⟩
      simp only [List.map_cons, List.map_nil, List.sum_cons, List.sum_nil, add_zero, pa, pb, pc, pe, qa, qb, qc, qe, Bool.false_eq_true, if_false, if_true,
        zero_add] at h1 h0 hw h1' h0' hw' htot
      obtain ⟨g1, g2⟩ := hdiv (weight order t k a + weight order t k c) _ _ hw (by omega)
      obtain ⟨g1', g2'⟩ := hdiv (weight order t k a + weight order t k b) _ _ hw' (by omega)
      simp only [List.map_cons, List.map_nil, faceValue]
      rw [linePoly, linePoly, g1, g2, g1', g2', ← h1, ← h0, ← h1', ← h0']
  · rintro ⟨v, hv, hvF⟩
    obtain ⟨⟨d, hd⟩, hsepd⟩ := hsep v (t2 v hv) hvF
    apply Finset.prod_eq_zero (Finset.mem_univ (⟨d, hd⟩ : Fin t.dim))
    by_cases hc0 : k.codim = 0
    · have hpos : 0 < cubeCoord order t k d ∧ cubeCoord order t k d < order := by
        rw [cubeCoord, if_pos hc0]
        have ho1 : 0 < order - 1 := by
          obtain ⟨-, u, hu, hi⟩ := hk
          by_contra h0
          have h0 : order = 1 := by omega
          rw [t4, Option.some.injEq] at hu
          have hkt : keyType t k = t := by
            have hs0 : k.sub = 0 := by
              rw [hc0] at hlt
              simp [stdSubs, subVerts] at hlt
              exact hlt
            rw [keyType, hc0, hs0]
            have : ∀ t ∈ ([⟨2, 4⟩, ⟨3, 8⟩] : List Geo), (stdSubs t 0).getD 0 ⟨0, 0⟩ = t := by decide
            exact this t ht
          rw [← hu, hkt, h0] at hi
          have : ∀ t ∈ ([⟨2, 4⟩, ⟨3, 8⟩] : List Geo), lagrangeLayout 1 t.dim t = 0 := by decide
          rw [this t ht] at hi
          omega
        have := Nat.mod_lt (k.index / (order - 1) ^ d) ho1
        omega
      rcases hsepd with ⟨-, h⟩ | ⟨-, h⟩
      · rw [fix0 ⟨d, hd⟩ h, linePoly_zero order _ hpos.2.le, if_neg hpos.1.ne']
      · rw [fix1 ⟨d, hd⟩ h, linePoly_one order _ hpos.2.le, if_neg hpos.2.ne]
    · obtain ⟨-, hco⟩ := cubeCoord_node ho ht hk hc0
      obtain ⟨-, hle, h0, h1⟩ := hco d hd
      rcases hsepd with ⟨hb, h⟩ | ⟨hb, h⟩
      · rw [fix0 ⟨d, hd⟩ h, linePoly_zero order _ hle, if_neg]
        intro hz
        rw [h0.1 hz v hv] at hb
        cases hb
      · rw [fix1 ⟨d, hd⟩ h, linePoly_one order _ hle, if_neg]
        intro hz
        rw [h1.1 hz v hv] at hb
        cases hb

/-! ## Sub-entities -/

def SameVerts (N : Nat) (F F' : List Nat) : Prop := ∀ v < N, v ∈ F ↔ v ∈ F'

instance (N : Nat) (F F' : List Nat) : Decidable (SameVerts N F F') := by unfold SameVerts; infer_instance

/-- Different sub-entities have different vertices. -/
theorem subVerts_inj : ∀ t ∈ elemTypes, ∀ c ≤ t.dim, ∀ c' ≤ t.dim, ∀ i < (stdSubs t c).length, ∀ i' < (stdSubs t c').length,
    SameVerts t.nv ((subVerts (refOf t) c).getD i []) ((subVerts (refOf t) c').getD i' []) → c = c' ∧ i = i' := by decide +kernel

end Verif.Lagrange.Continuity

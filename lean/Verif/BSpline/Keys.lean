import Verif.BSpline.Tensor

/-!
# Local keys of the B-spline basis (C29)
-/

namespace Verif.BSpline

/-- Row of a lattice: first, inner and last entry. -/
def row (f i l n : Nat) : List Nat := f :: (List.replicate (n - 2) i ++ [l])

theorem row_length (f i l n : Nat) (hn : 2 ≤ n) : (row f i l n).length = n := by simp [row]; omega

theorem row_get (f i l n a : Nat) (hn : 2 ≤ n) (ha : a < n) :
    (row f i l n)[a]? = some (if a = 0 then f else if a = n - 1 then l else i) := by
  cases a with
  | zero => simp [row]
  | succ a =>
    rw [row, List.getElem?_cons_succ, List.getElem?_append, List.length_replicate, if_neg (show ¬ a + 1 = 0 by omega)]
    by_cases h : a < n - 2
    · rw [if_pos h, if_neg (by omega), List.getElem?_replicate, if_pos h]
    · rw [if_neg h, if_pos (by omega), show a - (n - 2) = 0 by omega]; rfl

theorem flatMap_const_get (r : List Nat) (k b a : Nat) (hb : b < k) (ha : a < r.length) :
    ((List.range k).flatMap fun _ => r)[r.length * b + a]? = r[a]? := by
  have hlen : ∀ k, ((List.range k).flatMap fun _ => r).length = r.length * k := by
    intro k; simp [List.length_flatMap, Nat.mul_comm]
  induction k with
  | zero => omega
  | succ k ih =>
    rw [List.range_succ, List.flatMap_append, List.getElem?_append, hlen]
    by_cases h : b < k
    · have : r.length * b + a < r.length * k := by
        have := Nat.mul_le_mul_left r.length (show b + 1 ≤ k from h)
        rw [Nat.mul_add] at this; omega
      rw [if_pos this, ih h]
    · obtain rfl : b = k := by omega
      rw [if_neg (by omega)]
      simp [Nat.add_sub_cancel_left]

theorem setup2d_get (n m a b : Nat) (hn : 2 ≤ n) (hm : 2 ≤ m) (ha : a < n) (hb : b < m) :
    (setup2d n m)[n * b + a]? = some (
      if b = 0 then (if a = 0 then 0 else if a = n - 1 then 1 else 2)
      else if b = m - 1 then (if a = 0 then 2 else if a = n - 1 then 3 else 3)
      else (if a = 0 then 0 else if a = n - 1 then 1 else 0)) := by
  have e : setup2d n m = (row 0 2 1 n ++ (List.range (m - 2)).flatMap fun _ => row 0 0 1 n) ++ row 2 3 3 n := rfl
  have hl1 := row_length 0 2 1 n hn
  have hl2 := row_length 0 0 1 n hn
  have hlen : ((List.range (m - 2)).flatMap fun _ => row 0 0 1 n).length = n * (m - 2) := by
    simp [List.length_flatMap, hl2, Nat.mul_comm]
  rw [e, List.getElem?_append, List.getElem?_append, List.length_append, hl1, hlen]
  have hmul : ∀ x y, x < y → n * x + n ≤ n * y := by
    intro x y hxy
    have := Nat.mul_le_mul_left n (show x + 1 ≤ y from hxy)
    rw [Nat.mul_add] at this; omega
  by_cases h0 : b = 0
  · subst h0
    rw [if_pos (by omega), if_pos (by omega), if_pos rfl, Nat.mul_zero, Nat.zero_add, row_get _ _ _ n a hn ha]
  · rw [if_neg h0]
    by_cases h1 : b = m - 1
    · rw [if_pos h1]
      have e1 : n * b = n + n * (m - 2) := by
        rw [h1, show m - 1 = m - 2 + 1 by omega, Nat.mul_add]; omega
      rw [if_neg (by omega), e1, Nat.add_sub_cancel_left, row_get _ _ _ n a hn ha]
    · rw [if_neg h1]
      have e1 : n * b = n + n * (b - 1) := by
        conv_lhs => rw [show b = b - 1 + 1 by omega, Nat.mul_add]
        omega
      have e2 := hmul (b - 1) (m - 2) (by omega)
      rw [if_pos (by omega), if_neg (by omega), e1, show n + n * (b - 1) + a - n = n * (b - 1) + a by omega]
      have := flatMap_const_get (row 0 0 1 n) (m - 2) (b - 1) a (by omega) (by rw [hl2]; exact ha)
      rw [hl2] at this
      rw [this, row_get _ _ _ n a hn ha]

/-- Where the lattice point `(a,b)` of an element with `n × m` functions belongs: sub-entity, codimension and number within
the sub-entity, in the numbering of the reference square. -/
def key2 (n m a b : Nat) : Nat × Nat × Nat :=
  if b = 0 then (if a = 0 then (0, 2, 0) else if a = n - 1 then (1, 2, 0) else (2, 1, a - 1))
  else if b = m - 1 then (if a = 0 then (2, 2, 0) else if a = n - 1 then (3, 2, 0) else (3, 1, a - 1))
  else (if a = 0 then (0, 1, b - 1) else if a = n - 1 then (1, 1, b - 1) else (0, 0, (n - 1) * (b - 1) + (a - 1)))

theorem localKeys2_get (n m a b : Nat) (hn : 2 ≤ n) (hm : 2 ≤ m) (ha : a < n) (hb : b < m) :
    (localKeys [n, m])[n * b + a]? = some (key2 n m a b) := by
  have hlt : n * b + a < n * m := by
    have := Nat.mul_le_mul_left n (show b + 1 ≤ m from hb)
    rw [Nat.mul_add] at this; omega
  have hs : keySubEntity [n, m] = setup2d n m := by
    rw [keySubEntity, if_pos ⟨by omega, by omega⟩]
  have hg : getIJK (n * b + a) [n, m] = [a, b] := by
    simp only [getIJK]
    rw [Nat.mul_add_mod, Nat.mod_eq_of_lt ha, Nat.mul_add_div (by omega), Nat.div_eq_of_lt ha, Nat.add_zero, Nat.mod_eq_of_lt hb]
  simp only [localKeys, List.foldl_cons, List.foldl_nil, Nat.one_mul, List.getElem?_map, List.getElem?_range hlt, Option.map_some]
  rw [hs, List.getD_eq_getElem?_getD, setup2d_get n m a b hn hm ha hb]
  simp only [keyCodim, keyIndex, hg, List.zipWith_cons_cons, List.zipWith_nil_right, List.sum_cons, List.sum_nil,
    List.zip_cons_cons, List.zip_nil_right, List.foldr_cons, List.foldr_nil, key2, Option.getD_some, Nat.mul_zero, Nat.zero_add]
  by_cases a0 : a = 0 <;> by_cases a1 : a = n - 1 <;> by_cases b0 : b = 0 <;> by_cases b1 : b = m - 1 <;>
    (first
      | omega
      | (have p1 : (0 < a ∧ a < n - 1) ↔ (a ≠ 0 ∧ a ≠ n - 1) := by omega
         have p2 : (0 < b ∧ b < m - 1) ↔ (b ≠ 0 ∧ b ≠ m - 1) := by omega
         simp only [p1, p2]
         simp [a0, a1, b0, b1]
         try (split_ifs <;> first | rfl | omega | simp_all)))

/-- C29, one direction: with at least two functions the keys are the two end points and consecutive inner
functions. -/
theorem C29_one (n : Nat) (hn : 2 ≤ n) :
    localKeys [n] = (0, 1, 0) :: ((List.range (n - 2)).map (fun i => (0, 0, i)) ++ [(1, 1, 0)]) := by
  apply List.ext_getElem?
  intro i
  have hs : keySubEntity [n] = row 0 0 1 n := by
    rw [keySubEntity]
    rw [if_pos (by omega), setup1d, if_neg (by omega)]; rfl
  simp only [localKeys, List.foldl_cons, List.foldl_nil, Nat.one_mul, List.getElem?_map]
  by_cases hi : i < n
  · rw [List.getElem?_range hi, Option.map_some, hs, List.getD_eq_getElem?_getD, row_get 0 0 1 n i hn hi]
    have hg : getIJK i [n] = [i] := by simp [getIJK, Nat.mod_eq_of_lt hi]
    simp only [keyCodim, keyIndex, hg, List.zipWith_cons_cons, List.zipWith_nil_right, List.sum_cons, List.sum_nil,
      List.zip_cons_cons, List.zip_nil_right, List.foldr_cons, List.foldr_nil, Option.getD_some, Nat.mul_zero, Nat.zero_add]
    cases i with
    | zero => simp
    | succ i =>
      rw [List.getElem?_cons_succ, List.getElem?_append, List.length_map, List.length_range]
      by_cases h : i < n - 2
      · rw [if_pos h, List.getElem?_map, List.getElem?_range h]
        rw [if_neg (by omega), if_neg (by omega), if_neg (by omega), if_pos (by omega)]; rfl
      · rw [if_neg h, show i - (n - 2) = 0 by omega]
        rw [if_neg (by omega), if_pos (by omega), if_pos (by omega), if_neg (by omega)]; rfl
  · rw [List.getElem?_eq_none (by simp; omega), List.getElem?_eq_none (by simp; omega)]; rfl

example : localKeys [4] = [(0, 1, 0), (0, 0, 0), (0, 0, 1), (1, 1, 0)] := by decide

/-- C29, two directions (partial: the numbers of inner functions are not consecutive): with at least two functions per direction the
keys name the vertex, edge or interior of the reference square the lattice point lies on, are pairwise different, and
number the functions on each edge consecutively. -/
theorem C29_two_partial (n m : Nat) (hn : 2 ≤ n) (hm : 2 ≤ m) :
    (localKeys [n, m]).length = n * m ∧ (localKeys [n, m]).Nodup ∧
    ∀ a b, a < n → b < m → (localKeys [n, m])[n * b + a]? = some (key2 n m a b) := by
  have hget := fun a b ha hb => localKeys2_get n m a b hn hm ha hb
  have hlen : (localKeys [n, m]).length = n * m := by simp [localKeys]
  refine ⟨hlen, ?_, hget⟩
  rw [List.nodup_iff_injective_getElem]
  intro ⟨i, hi⟩ ⟨j, hj⟩ h
  simp only at h
  rw [hlen] at hi hj
  have hi' : i / n < m := Nat.div_lt_of_lt_mul hi
  have hj' : j / n < m := Nat.div_lt_of_lt_mul hj
  have hia := Nat.mod_lt i (show 0 < n by omega)
  have hja := Nat.mod_lt j (show 0 < n by omega)
  have e1 := hget (i % n) (i / n) hia hi'
  have e2 := hget (j % n) (j / n) hja hj'
  rw [Nat.div_add_mod] at e1 e2
  have h3 : key2 n m (i % n) (i / n) = key2 n m (j % n) (j / n) := by
    rw [List.getElem?_eq_getElem (by rw [hlen]; exact hi)] at e1
    rw [List.getElem?_eq_getElem (by rw [hlen]; exact hj)] at e2
    rw [← Option.some.inj e1, ← Option.some.inj e2, h]
  have h4 : i % n = j % n ∧ i / n = j / n := by
    generalize i % n = a at *
    generalize i / n = b at *
    generalize j % n = a' at *
    generalize j / n = b' at *
    clear e1 e2 h hget hlen hi hj
    unfold key2 at h3
    by_cases hin : a ≠ 0 ∧ a ≠ n - 1 ∧ b ≠ 0 ∧ b ≠ m - 1 ∧ a' ≠ 0 ∧ a' ≠ n - 1 ∧ b' ≠ 0 ∧ b' ≠ m - 1
    · obtain ⟨q1, q2, q3, q4, q5, q6, q7, q8⟩ := hin
      simp only [q1, q2, q3, q4, q5, q6, q7, q8, if_false, Prod.mk.injEq, true_and] at h3
      have k1 := congrArg (fun x => x % (n - 1)) h3
      have k2 := congrArg (fun x => x / (n - 1)) h3
      simp only [Nat.mul_add_mod] at k1
      rw [Nat.mod_eq_of_lt (by omega), Nat.mod_eq_of_lt (by omega)] at k1
      simp only [Nat.mul_add_div (show 0 < n - 1 by omega)] at k2
      rw [Nat.div_eq_of_lt (show a - 1 < n - 1 by omega), Nat.div_eq_of_lt (show a' - 1 < n - 1 by omega)] at k2
      omega
    · generalize (n - 1) * (b - 1) = z1 at *
      generalize (n - 1) * (b' - 1) = z2 at *
      split_ifs at h3 <;> simp only [Prod.mk.injEq] at h3 <;> omega
  have := Nat.div_add_mod i n
  have := Nat.div_add_mod j n
  rw [Fin.mk.injEq]
  rw [← Nat.div_add_mod i n, ← Nat.div_add_mod j n, h4.1, h4.2]

example : (localKeys [3, 3]) = [(0, 2, 0), (2, 1, 0), (1, 2, 0), (0, 1, 0), (0, 0, 0), (1, 1, 0), (2, 2, 0), (3, 1, 0), (3, 2, 0)] := by
  decide

/-- C29 is false in two directions: the four inner functions of a bicubic element get the numbers 0, 1, 3, 4 (the code
multiplies with `sizes[j]-1` where the number of inner functions is `sizes[j]-2`, bsplinebasis.hh:298). -/
theorem C29_two_false :
    ((localKeys [4, 4]).filter fun k => k.2.1 = 0).map (fun k => k.2.2) = [0, 1, 3, 4] := by decide

/-- C29 is false if an element has a single function in one of two directions (first span of a knot vector that is not
open), and in three directions (documented): keys occur twice. -/
theorem C29_distinct_false : ¬ (localKeys [1, 3]).Nodup ∧ ¬ (localKeys [2, 2, 2]).Nodup := by decide

end Verif.BSpline

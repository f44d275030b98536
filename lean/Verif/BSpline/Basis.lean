import Verif.BSpline.Tensor
import Mathlib.Algebra.MvPolynomial.Degrees
import Mathlib.Algebra.BigOperators.Fin
import Mathlib.Algebra.Polynomial.Roots
import Mathlib.Algebra.CharZero.Infinite
import Mathlib.Order.Interval.Set.Infinite

/-!
# B-splines are a basis and reproduce polynomials (C78)
-/

set_option linter.unusedSectionVars false

namespace Verif.BSpline

open Finset Polynomial

variable {K : Type} [Field K] [LinearOrder K] [IsStrictOrderedRing K]

/-! ## Specification -/

/-- Sum of all finite numbers of a list, each multiplied with the coefficient of its index. -/
def combine (c : Nat → K) : List Nat → List (Option K) → Option K
  | j :: js, v :: vs => v.bind fun x => (combine c js vs).map fun y => c j * x + y
  | [], [] => some 0
  | _, _ => none

/-- The discrete function with coefficients `c` on element `e` in the point with local coordinates `xs`: the element is bound, shape functions are evaluated, and
multiplied with the coefficients found by the indices of the local view. -/
def splineAt (ds : List (Dir K)) (elements : List Nat) (c : Nat → K) (e : Nat) (xs : List K) : Option K :=
  (elementSpans ds elements e).bind fun ss => combine c (indices ds ss) (evalValues (ds.zip (ss.zip xs)))

/-- The point of element `e` with local coordinates `xs`, in the coordinates of the knots. -/
def pointAt (ds : List (Dir K)) (elements : List Nat) (e : Nat) (xs : List K) : List K :=
  List.zipWith (fun d a => d.t a.1 + (d.t (a.1 + 1) - d.t a.1) * a.2) ds (((elementSpans ds elements e).getD []).zip xs)

/-! ## One direction: linear independence -/

theorem polyN_sum {d : Dir K} (h : KnotsOK d) {s : Nat} (hs : SpanOK d s) (r m : Nat) (hm : d.n = m + r + 1)
    (h1 : r ≤ s) (h2 : s + r + 2 ≤ d.n) : ∑ i ∈ range m, polyN d s r i = 1 := by
  apply Polynomial.funext
  intro x
  rw [eval_finsetSum, eval_one, ← tableN_sum h hs x r m hm h1 h2]
  exact sum_congr rfl fun i hi => polyN_eval h s x r i (by rw [mem_range] at hi; omega)

theorem wt_ne_zero {d : Dir K} (h : KnotsOK d) {s : Nat} (hs : SpanOK d s) (r i : Nat) (h1 : i ≤ s) (h2 : s + 1 ≤ i + r) (h3 : i + r < d.n) :
    wt d r i ≠ 0 := by
  have a1 := h.mono' h1 (by omega)
  have a2 := h.mono' h2 h3
  have := hs.pos
  exact inv_ne_zero (sub_ne_zero.mpr (by intro hc; linarith))

/-- The functions that do not vanish on a knot span are linearly independent there. -/
theorem polyN_independent {d : Dir K} (h : KnotsOK d) {s : Nat} (hs : SpanOK d s) (r m : Nat) (hm : d.n = m + r + 1) (b : Nat → K)
    (h0 : ∑ i ∈ range m, C (b i) * polyN d s r i = 0) : ∀ i < m, i ≤ s → s ≤ i + r → b i = 0 := by
  have hsl := hs.lt
  induction r generalizing m b with
  | zero =>
    intro i hi h1 h2
    have e : i = s := by omega
    subst e
    simp only [polyN, mul_ite, mul_one, mul_zero] at h0
    rw [sum_ite_eq' (range m) i, if_pos (mem_range.mpr hi)] at h0
    exact C_eq_zero.mp h0
  | succ r ih =>
    -- coefficients of the derivative
    let b' : Nat → K := fun j => ((if j < m then b j else 0) - (if j = 0 then 0 else b (j - 1))) * wt d (r + 1) j
    have hd : ∑ j ∈ range (m + 1), C (b' j) * polyN d s r j = 0 := by
      have h1 := congrArg derivative h0
      rw [derivative_sum, derivative_zero] at h1
      have h2 : ∑ i ∈ range m, derivative (C (b i) * polyN d s (r + 1) i) = C ((r : K) + 1) *
          (∑ i ∈ range m, C (b i * wt d (r + 1) i) * polyN d s r i - ∑ i ∈ range m, C (b i * wt d (r + 1) (i + 1)) * polyN d s r (i + 1)) := by
        rw [mul_sub, mul_sum, mul_sum, ← sum_sub_distrib]
        refine sum_congr rfl fun i hi => ?_
        rw [mem_range] at hi
        rw [derivative_C_mul, polyN_derivative h s r i (by omega)]
        simp only [C_mul]
        ring
      rw [h2] at h1
      have hne : C ((r : K) + 1) ≠ 0 := by
        rw [Ne, C_eq_zero]
        positivity
      have h3 := (mul_eq_zero.mp h1).resolve_left hne
      have e1 : ∑ j ∈ range (m + 1), C ((if j < m then b j else 0) * wt d (r + 1) j) * polyN d s r j
          = ∑ i ∈ range m, C (b i * wt d (r + 1) i) * polyN d s r i := by
        rw [sum_range_succ, if_neg (Nat.lt_irrefl m)]
        simp only [zero_mul, map_zero, add_zero]
        exact sum_congr rfl fun i hi => by rw [if_pos (mem_range.mp hi)]
      have e2 : ∑ j ∈ range (m + 1), C ((if j = 0 then 0 else b (j - 1)) * wt d (r + 1) j) * polyN d s r j
          = ∑ i ∈ range m, C (b i * wt d (r + 1) (i + 1)) * polyN d s r (i + 1) := by
        rw [sum_range_succ']
        simp
      rw [← h3, ← e1, ← e2, ← sum_sub_distrib]
      refine sum_congr rfl fun j _ => ?_
      simp only [b', sub_mul, C_sub]
    have hz := ih (m + 1) (by omega) b' hd
    have hstep : ∀ j < m + 1, j ≤ s → s ≤ j + r → (if j < m then b j else 0) = (if j = 0 then 0 else b (j - 1)) := by
      intro j hj h1 h2
      have := hz j hj h1 h2
      have hw := wt_ne_zero h hs (r + 1) j h1 (by omega) (by omega)
      exact sub_eq_zero.mp ((mul_eq_zero.mp this).resolve_right hw)
    -- all coefficients are equal
    have hconst : ∀ k i, i + k < m → i + k ≤ s → s ≤ i + (r + 1) → b (i + k) = b i := by
      intro k
      induction k with
      | zero => intro i _ _ _; rfl
      | succ k ihk =>
        intro i h1 h2 h3
        have := hstep (i + (k + 1)) (by omega) h2 (by omega)
        rw [if_pos h1, if_neg (by omega)] at this
        rw [this, ← ihk i (by omega) (by omega) h3]
        rfl
    intro i hi h1 h2
    by_cases hleft : s ≤ r
    · have hb0 := hstep 0 (by omega) (by omega) (by omega)
      rw [if_pos (by omega), if_pos rfl] at hb0
      have := hconst i 0 (by omega) (by omega) (by omega)
      rw [Nat.zero_add] at this
      rw [this, hb0]
    · by_cases hright : m ≤ s
      · have hbm := hstep m (by omega) hright (by omega)
        rw [if_neg (Nat.lt_irrefl m), if_neg (by omega)] at hbm
        have := hconst (m - 1 - i) i (by omega) (by omega) h2
        rw [show i + (m - 1 - i) = m - 1 by omega] at this
        rw [← this, ← hbm]
      · have hall : ∀ j ∈ range m, C (b j) * polyN d s (r + 1) j = C (b i) * polyN d s (r + 1) j := by
          intro j hj
          rw [mem_range] at hj
          by_cases ha : j ≤ s ∧ s ≤ j + (r + 1)
          · have c1 := hconst (j - (s - (r + 1))) (s - (r + 1)) (by omega) (by omega) (by omega)
            have c2 := hconst (i - (s - (r + 1))) (s - (r + 1)) (by omega) (by omega) (by omega)
            rw [show s - (r + 1) + (j - (s - (r + 1))) = j by omega] at c1
            rw [show s - (r + 1) + (i - (s - (r + 1))) = i by omega] at c2
            rw [c1, c2]
          · rw [polyN_support d s (r + 1) j ha]; simp
        rw [sum_congr rfl hall, ← mul_sum, polyN_sum h hs (r + 1) m (by omega) (by omega) (by omega), mul_one] at h0
        exact C_eq_zero.mp h0

/-! ## One direction: polynomials -/

/-- Dual polynomial of Marsden's identity. -/
noncomputable def dual (d : Dir K) (r i : Nat) : K[X] := ∏ j ∈ range r, (C (d.t (i + 1 + j)) - X)

/-- Marsden's identity. -/
theorem marsden {d : Dir K} (h : KnotsOK d) {s : Nat} (hs : SpanOK d s) (x : K) (r m : Nat) (hm : d.n = m + r + 1)
    (h1 : r ≤ s) (h2 : s + r + 2 ≤ d.n) : ∑ i ∈ range m, dual d r i * C (tableN d s x r i) = (C x - X) ^ r := by
  induction r generalizing m with
  | zero =>
    simp only [dual, range_zero, prod_empty, one_mul, tableN, pow_zero]
    rw [← map_sum, sum_ite_eq' (range m) s, if_pos (mem_range.mpr (by omega)), map_one]
  | succ r ih =>
    have hsl := hs.lt
    have ih := ih (m + 1) (by omega) (by omega) (by omega)
    have z1 : tableN d s x r 0 = 0 := by by_contra hc; have := tableN_support d s x r 0 hc; omega
    have z2 : tableN d s x r m = 0 := by by_contra hc; have := tableN_support d s x r m hc; omega
    let F : Nat → K[X] := fun i => dual d (r + 1) i * C ((x - d.t i) * wt d (r + 1) i * tableN d s x r i)
    let G : Nat → K[X] := fun i => dual d r i * (C (d.t i) - X) * C ((d.t (i + (r + 1)) - x) * wt d (r + 1) i * tableN d s x r i)
    have e1 : ∀ i ∈ range m, dual d (r + 1) i * C (tableN d s x (r + 1) i) = F i + G (i + 1) := by
      intro i hi
      rw [mem_range] at hi
      rw [tableN_succ h s x r i (by omega)]
      simp only [F, G, C_add, mul_add]
      congr 2
      rw [dual, prod_range_succ', dual]
      congr 1
      exact prod_congr rfl fun j _ => by rw [show i + 1 + (j + 1) = i + 1 + 1 + j by omega]
    have e2 : ∀ i ∈ range (m + 1), F i + G i = (C x - X) * (dual d r i * C (tableN d s x r i)) := by
      intro i hi
      rw [mem_range] at hi
      simp only [F, G]
      by_cases h0 : tableN d s x r i = 0
      · rw [h0]; simp
      · have hsup := tableN_support d s x r i h0
        have hw := wt_mul (d := d) (r + 1) i (by
          have a1 := h.mono' hsup.1 (by omega)
          have a2 := h.mono' (show s + 1 ≤ i + (r + 1) by omega) (by omega)
          have := hs.pos
          intro hc; linarith)
        have hw' : C (wt d (r + 1) i) * (C (d.t (i + (r + 1))) - C (d.t i)) = 1 := by rw [← C_sub, ← C_mul, hw, map_one]
        have e3 : dual d (r + 1) i = dual d r i * (C (d.t (i + (r + 1))) - X) := by
          rw [dual, prod_range_succ, dual, show i + 1 + r = i + (r + 1) by omega]
        rw [e3]
        simp only [C_mul, C_sub]
        linear_combination dual d r i * C (tableN d s x r i) * (C x - X) * hw'
    rw [sum_congr rfl e1, sum_add_distrib, pow_succ, mul_comm, ← ih, mul_sum, ← sum_congr rfl e2, sum_add_distrib]
    rw [sum_range_succ (fun i => F i), sum_range_succ' (fun i => G i)]
    simp only [F, G, z1, z2, mul_zero, map_zero, add_zero]

/-- Coefficient of function `i` for the monomial of degree `k`. -/
noncomputable def monoCoeff (d : Dir K) (k i : Nat) : K :=
  (-1) ^ (d.order - k) * (dual d d.order i).coeff (d.order - k) / (d.order.choose k : K)

theorem coeff_C_sub_X_pow (x : K) (p k : Nat) (hk : k ≤ p) : ((C x - X) ^ p).coeff (p - k) = (-1) ^ (p - k) * x ^ k * (p.choose k : K) := by
  have e : (C x - X : K[X]) = (C x) + (- X) := sub_eq_add_neg _ _
  rw [e, add_comm, add_pow, finsetSum_coeff]
  rw [sum_eq_single (p - k)]
  · have e2 : ((-X : K[X]) ^ (p - k) * (C x) ^ (p - (p - k)) * ((p.choose (p - k) : Nat) : K[X]))
        = C ((-1) ^ (p - k) * x ^ k * (p.choose k : K)) * X ^ (p - k) := by
      rw [show p - (p - k) = k by omega, Nat.choose_symm hk, neg_pow]
      simp only [C_mul, C_pow, C_neg, map_one, map_natCast]
      ring
    rw [e2, coeff_C_mul, coeff_X_pow, if_pos rfl, mul_one]
  · intro j _ hj
    have e2 : ((-X : K[X]) ^ j * (C x) ^ (p - j) * ((p.choose j : Nat) : K[X]))
        = C ((-1) ^ j * x ^ (p - j) * (p.choose j : K)) * X ^ j := by
      rw [neg_pow]
      simp only [C_mul, C_pow, C_neg, map_one, map_natCast]
      ring
    rw [e2, coeff_C_mul, coeff_X_pow, if_neg (Ne.symm hj), mul_zero]
  · intro hc
    exact absurd (mem_range.mpr (by omega)) hc

theorem monomial_reproduced {d : Dir K} (h : KnotsOK d) {s : Nat} (hs : SpanOK d s) (x : K)
    (h1 : d.order ≤ s) (h2 : s + d.order + 2 ≤ d.n) (k : Nat) (hk : k ≤ d.order) :
    ∑ i ∈ range (dirSize d), monoCoeff d k i * tableN d s x d.order i = x ^ k := by
  have hm := marsden h hs x d.order (dirSize d) (by simp only [dirSize]; omega) h1 h2
  have hc := congrArg (fun p : K[X] => p.coeff (d.order - k)) hm
  simp only [finsetSum_coeff, coeff_mul_C] at hc
  rw [coeff_C_sub_X_pow x d.order k hk] at hc
  have hne : (d.order.choose k : K) ≠ 0 := Nat.cast_ne_zero.mpr (Nat.choose_pos hk).ne'
  have hsq : ((-1 : K) ^ (d.order - k)) * (-1) ^ (d.order - k) = 1 := by rw [← mul_pow]; simp
  have e : ∀ i ∈ range (dirSize d), monoCoeff d k i * tableN d s x d.order i
      = ((-1) ^ (d.order - k) / (d.order.choose k : K)) * ((dual d d.order i).coeff (d.order - k) * tableN d s x d.order i) := by
    intro i _
    simp only [monoCoeff]; ring
  rw [sum_congr rfl e, ← mul_sum, hc]
  field_simp
  linear_combination x ^ k * hsq

/-! ## Several directions -/

/-- Value of local function `i` in one direction. -/
def argValue (a : Arg K) (i : Nat) : K := tableN a.1 a.2.1 (toGlobal a.1 a.2.1 a.2.2) a.1.order (firstIndex a.1 a.2.1 + i)

/-- Sums over all local functions, one direction after the other. -/
def nest : List (Arg K) → (List Nat → K) → K
  | [], c => c []
  | a :: as, c => ∑ r ∈ range (localSize a.1 a.2.1), argValue a r * nest as fun g => c ((firstIndex a.1 a.2.1 + r) :: g)

def sizes (args : List (Arg K)) : List Nat := args.map fun a => localSize a.1 a.2.1

theorem productsK_range (args : List (Arg K)) :
    productsK (args.map fun a => values1 a.1 a.2.1 (toGlobal a.1 a.2.1 a.2.2)) =
      (List.range (sizes args).prod).map fun k => (List.zipWith argValue args (getIJK k (sizes args))).prod := by
  induction args with
  | nil => simp [productsK, sizes, getIJK]
  | cons a args ih =>
    rw [List.map_cons, productsK, ih]
    simp only [sizes, List.map_cons, List.prod_cons]
    rw [range_mul, List.map_flatMap, List.flatMap_map]
    congr 1
    funext q
    simp only [values1, List.map_map]
    apply List.map_congr_left
    intro r hr
    rw [List.mem_range] at hr
    simp only [Function.comp, getIJK, List.zipWith_cons_cons, List.prod_cons]
    rw [Nat.mul_add_mod, Nat.mod_eq_of_lt hr, Nat.mul_add_div (by omega), Nat.div_eq_of_lt hr, Nat.add_zero]
    rfl

theorem sum_flatMap_range (l m : Nat) (f : Nat → K) :
    ((List.range (l * m)).map f).sum = ∑ r ∈ range l, ((List.range m).map fun q => f (l * q + r)).sum := by
  have e : ∀ r ∈ range l, ((List.range m).map fun q => f (l * q + r)).sum = ∑ q ∈ range m, f (l * q + r) := fun r _ => sum_map_range _ _
  rw [sum_congr rfl e, sum_comm, ← sum_map_range, range_mul, List.map_flatMap]
  generalize List.range m = L
  induction L with
  | nil => rfl
  | cons q L ih =>
    rw [List.flatMap_cons, List.sum_append, ih, List.map_cons, List.sum_cons, List.map_map, ← sum_map_range]
    rfl

theorem nest_eq (args : List (Arg K)) (F : List Nat → K) :
    ((List.range (sizes args).prod).map fun k =>
      F (List.zipWith (· + ·) (args.map fun a => firstIndex a.1 a.2.1) (getIJK k (sizes args))) *
        (List.zipWith argValue args (getIJK k (sizes args))).prod).sum = nest args F := by
  induction args generalizing F with
  | nil => simp [sizes, getIJK, nest]
  | cons a args ih =>
    simp only [sizes, List.map_cons, List.prod_cons]
    rw [sum_flatMap_range, nest]
    refine sum_congr rfl fun r hr => ?_
    rw [mem_range] at hr
    rw [← ih, ← List.sum_map_mul_left]
    congr 1
    apply List.map_congr_left
    intro q _
    simp only [getIJK, List.zipWith_cons_cons, List.prod_cons, sizes]
    rw [Nat.mul_add_mod, Nat.mod_eq_of_lt hr, Nat.mul_add_div (by omega), Nat.div_eq_of_lt hr, Nat.add_zero]
    ring

theorem combine_map {α : Type} (c : Nat → K) (l : List α) (f : α → Nat) (g : α → K) :
    combine c (l.map f) ((l.map g).map some) = some ((l.map fun a => c (f a) * g a).sum) := by
  induction l with
  | nil => simp [combine]
  | cons a l ih => simp only [List.map_cons, combine, ih, Option.bind_some, Option.map_some, List.sum_cons]

theorem argsOK_bound {args : List (Arg K)} (h : ∀ a ∈ args, ArgOK a) : Bound (args.map (·.1)) (args.map (·.2.1)) := by
  induction args with
  | nil => exact .nil
  | cons a args ih => exact .cons ⟨(h a (by simp)).knots.size, (h a (by simp)).span.lt⟩ (ih fun b hb => h b (by simp [hb]))

theorem sizes_eq (args : List (Arg K)) : List.zipWith localSize (args.map (·.1)) (args.map (·.2.1)) = sizes args := by
  induction args with
  | nil => rfl
  | cons a args ih => simp [sizes, ih] at *

theorem firsts_eq (args : List (Arg K)) :
    List.zipWith firstIndex (args.map (·.1)) (args.map (·.2.1)) = args.map fun a => firstIndex a.1 a.2.1 := by
  induction args with
  | nil => rfl
  | cons a args ih => simp [ih] at *

/-- The discrete function on an element as nested sums. -/
theorem combine_eq (args : List (Arg K)) (hok : ∀ a ∈ args, ArgOK a) (c : Nat → K) :
    combine c (indices (args.map (·.1)) (args.map (·.2.1))) (evalValues args) =
      some (nest args fun g => c (flatIndex g ((args.map (·.1)).map dirSize))) := by
  have e : evalValues args = (productsK (args.map fun a => values1 a.1 a.2.1 (toGlobal a.1 a.2.1 a.2.2))).map some := by
    rw [evalValues, tensor_eq, ← products_some, List.map_map]
    · rfl
    · intro f hf
      obtain ⟨a, ha, rfl⟩ := List.mem_map.mp hf
      simp only [factor, List.length_map, values1, List.length_range]
      exact localSize_pos _ (hok a ha).knots.size _ (hok a ha).span.lt
  rw [e, productsK_range, indices, elementSize_eq, sizes_eq, firsts_eq, combine_map, ← nest_eq args]

/-- Sums over the functions of one direction are sums over the functions of the element. -/
theorem sum_local {d : Dir K} (h : KnotsOK d) {s : Nat} (hs : SpanOK d s) (x : K) (b : Nat → K) :
    ∑ r ∈ range (localSize d s), tableN d s x d.order (firstIndex d s + r) * b (firstIndex d s + r) =
      ∑ i ∈ range (dirSize d), b i * tableN d s x d.order i := by
  have hsl := hs.lt
  have hr := localSize_range d h.size s hsl
  rw [← Finset.sum_image (s := range (localSize d s)) (g := fun i => firstIndex d s + i) (f := fun i => tableN d s x d.order i * b i)
    (by intro a _ b _ hab; simpa using hab)]
  rw [show ∑ i ∈ range (dirSize d), b i * tableN d s x d.order i = ∑ i ∈ range (dirSize d), tableN d s x d.order i * b i from
    sum_congr rfl fun i _ => mul_comm _ _]
  apply Finset.sum_subset
  · intro g hg
    obtain ⟨i, hi, rfl⟩ := mem_image.mp hg
    rw [mem_range] at hi ⊢
    exact ((hr (firstIndex d s + i)).mp ⟨by omega, by omega⟩).2.2
  · intro g hg hng
    by_contra hc
    have hsup := tableN_support d s x d.order g (by intro h0; apply hc; simp [h0])
    obtain ⟨a, b⟩ := (hr g).mpr ⟨hsup.1, hsup.2, mem_range.mp hg⟩
    exact hng (mem_image.mpr ⟨g - firstIndex d s, mem_range.mpr (by omega), by omega⟩)

theorem nest_prod (args : List (Arg K)) (γ : Nat → Nat → K) (n : Nat) :
    nest args (fun g => (g.mapIdx fun j i => γ (n + j) i).prod) =
      (args.mapIdx fun j a => ∑ r ∈ range (localSize a.1 a.2.1), argValue a r * γ (n + j) (firstIndex a.1 a.2.1 + r)).prod := by
  induction args generalizing n with
  | nil => simp [nest]
  | cons a args ih =>
    rw [nest, List.mapIdx_cons, List.prod_cons, sum_mul]
    refine sum_congr rfl fun r _ => ?_
    have hn : ∀ c (F : List Nat → K), nest args (fun g => c * F g) = c * nest args F := by
      clear ih
      induction args with
      | nil => intros; rfl
      | cons a args ih =>
        intro c F
        simp only [nest]
        rw [mul_sum]
        refine sum_congr rfl fun r _ => ?_
        rw [ih]; ring
    simp only [List.mapIdx_cons, List.prod_cons, Nat.add_zero]
    rw [hn]
    have := ih (n + 1)
    simp only [Nat.add_assoc, Nat.add_comm 1] at this
    rw [this]
    ring

theorem nest_add (args : List (Arg K)) (F G : List Nat → K) : nest args (fun g => F g + G g) = nest args F + nest args G := by
  induction args generalizing F G with
  | nil => rfl
  | cons a args ih =>
    simp only [nest]
    rw [← sum_add_distrib]
    exact sum_congr rfl fun r _ => by rw [ih]; ring

theorem nest_smul (args : List (Arg K)) (c : K) (F : List Nat → K) : nest args (fun g => c * F g) = c * nest args F := by
  induction args generalizing F with
  | nil => rfl
  | cons a args ih =>
    simp only [nest]
    rw [mul_sum]
    exact sum_congr rfl fun r _ => by rw [ih]; ring

theorem nest_zero (args : List (Arg K)) : nest args (fun _ => 0) = 0 := by
  have := nest_smul args 0 (fun _ => 0)
  simpa using this

theorem nest_sum {ι : Type} (args : List (Arg K)) (t : Finset ι) (F : ι → List Nat → K) :
    nest args (fun g => ∑ i ∈ t, F i g) = ∑ i ∈ t, nest args (F i) := by
  classical
  induction t using Finset.induction_on with
  | empty => simp [nest_zero]
  | insert i t hi ih =>
    simp only [sum_insert hi]
    rw [nest_add, ih]

/-- Only active functions matter. -/
theorem nest_congr (args : List (Arg K)) (F G : List Nat → K)
    (h : ∀ g, List.Forall₂ (fun (a : Arg K) i => firstIndex a.1 a.2.1 ≤ i ∧ i < firstIndex a.1 a.2.1 + localSize a.1 a.2.1) args g → F g = G g) :
    nest args F = nest args G := by
  induction args generalizing F G with
  | nil => exact h [] .nil
  | cons a args ih =>
    simp only [nest]
    refine sum_congr rfl fun r hr => ?_
    rw [mem_range] at hr
    rw [ih _ _ fun g hg => h _ (.cons ⟨by omega, by omega⟩ hg)]

/-- One direction: a combination that vanishes in all inner points of the knot span is trivial. -/
theorem local_independent {d : Dir K} (h : KnotsOK d) {s : Nat} (hs : SpanOK d s) (b : Nat → K)
    (h0 : ∀ x : K, 0 < x → x < 1 → ∑ r ∈ range (localSize d s), argValue (d, s, x) r * b (firstIndex d s + r) = 0) :
    ∀ r < localSize d s, b (firstIndex d s + r) = 0 := by
  have hsl := hs.lt
  have hsz := h.size
  have hpos := hs.pos
  have hP : ∑ i ∈ range (dirSize d), C (b i) * polyN d s d.order i = 0 := by
    apply Polynomial.eq_zero_of_infinite_isRoot
    apply Set.Infinite.mono (s := Set.Ioo (d.t s) (d.t (s + 1))) _ (Set.Ioo_infinite hpos)
    rintro y ⟨hy1, hy2⟩
    have hgap : 0 < d.t (s + 1) - d.t s := by linarith
    have := h0 ((y - d.t s) / (d.t (s + 1) - d.t s)) (div_pos (by linarith) hgap) ((div_lt_one hgap).mpr (by linarith))
    simp only [argValue] at this
    have ey : toGlobal d s ((y - d.t s) / (d.t (s + 1) - d.t s)) = y := by
      unfold toGlobal; field_simp; ring
    rw [ey, sum_local h hs] at this
    simp only [Set.mem_ofPred_eq, IsRoot, eval_finsetSum, eval_mul, eval_C]
    rw [← this]
    exact sum_congr rfl fun i hi => by
      rw [mem_range] at hi
      rw [polyN_eval h s y d.order i (by simp only [dirSize] at hi; omega)]
  have := polyN_independent h hs d.order (dirSize d) (by simp only [dirSize]; omega) b hP
  intro r hr
  obtain ⟨a1, a2, a3⟩ := (localSize_range d h.size s hsl (firstIndex d s + r)).mp ⟨by omega, by omega⟩
  exact this _ a3 a1 a2

theorem nest_independent (dss : List (Dir K × Nat)) (hok : ∀ a ∈ dss, KnotsOK a.1 ∧ SpanOK a.1 a.2) (F : List Nat → K)
    (h0 : ∀ xs : List K, xs.length = dss.length → (∀ x ∈ xs, 0 < x ∧ x < 1) →
      nest (List.zipWith (fun a x => (a.1, a.2, x)) dss xs) F = 0) :
    ∀ g, List.Forall₂ (fun (a : Dir K × Nat) i => firstIndex a.1 a.2 ≤ i ∧ i < firstIndex a.1 a.2 + localSize a.1 a.2) dss g → F g = 0 := by
  induction dss generalizing F with
  | nil =>
    intro g hg
    cases hg
    simpa [nest] using h0 [] rfl (by simp)
  | cons a dss ih =>
    intro g hg
    cases hg with
    | @cons _ i _ g h1 h2 =>
    refine ih (fun b hb => hok b (by simp [hb])) (fun g => F (i :: g)) ?_ g h2
    intro xs hl hx
    have := local_independent (hok a (by simp)).1 (hok a (by simp)).2
      (fun i => nest (List.zipWith (fun a x => (a.1, a.2, x)) dss xs) fun g => F (i :: g)) (by
        intro x hx1 hx2
        have := h0 (x :: xs) (by simp [hl]) (by simpa using ⟨⟨hx1, hx2⟩, hx⟩)
        simpa [nest] using this) (i - firstIndex a.1 a.2) (by omega)
    rwa [show firstIndex a.1 a.2 + (i - firstIndex a.1 a.2) = i by omega] at this

/-! ## Theorems -/

section
variable {ds : List (Dir K)} {elements : List Nat}

theorem zip_facts {ss : List Nat} {xs : List K} (h1 : ds.length = ss.length) (h2 : xs.length = ds.length) :
    (ds.zip (ss.zip xs)).map (·.1) = ds ∧ (ds.zip (ss.zip xs)).map (·.2.1) = ss := by
  refine ⟨List.map_fst_zip (by rw [List.length_zip]; omega), ?_⟩
  have e1 : (fun a : Arg K => a.2.1) = Prod.fst ∘ Prod.snd := rfl
  rw [e1, ← List.map_map, List.map_snd_zip (by rw [List.length_zip]; omega), List.map_fst_zip (by omega)]

theorem spans_ok (h : List.Forall₂ DirOK ds elements) (hk : ∀ d ∈ ds, KnotsOK d) (e : Nat) (he : e < elements.prod) :
    ∃ ss, elementSpans ds elements e = some ss ∧ Bound ds ss ∧
      ∀ k (h1 : k < ds.length) (h2 : k < ss.length), KnotsOK ds[k] ∧ SpanOK ds[k] ss[k] ∧ ∃ i, spanOf ds[k] i = some ss[k] := by
  obtain ⟨ss, hss, hb, hsp⟩ := elementSpans_eq h e he
  refine ⟨ss, hss, hb, fun k h1 h2 => ⟨hk _ (List.getElem_mem _), ?_⟩⟩
  have hkg : k < (getIJK e elements).length := by rw [getIJK_length, ← h.length_eq]; exact h1
  have q := hsp k ds[k] _ ss[k] (List.getElem?_eq_getElem h1) (List.getElem?_eq_getElem hkg) (List.getElem?_eq_getElem h2)
  obtain ⟨a1, a2, -⟩ := (spanOf_some _ _ _).mp q
  have := eps_pos (K := K) 8
  exact ⟨⟨a1, by unfold Dir.Elem at a2; linarith⟩, _, q⟩

theorem args_ok {ss : List Nat}
    (hsp : ∀ k (h1 : k < ds.length) (h2 : k < ss.length), KnotsOK ds[k] ∧ SpanOK ds[k] ss[k] ∧ ∃ i, spanOf ds[k] i = some ss[k])
    (xs : List K) : ∀ a ∈ ds.zip (ss.zip xs), ArgOK a := by
  intro a ha
  obtain ⟨k, hk, rfl⟩ := List.mem_iff_getElem.mp ha
  simp only [List.length_zip] at hk
  simp only [List.getElem_zip]
  have := hsp k (by omega) (by omega)
  exact ⟨this.1, this.2.1⟩

/-- Digits of active functions. -/
theorem active_digits {args : List (Arg K)} (hok : ∀ a ∈ args, ArgOK a) {g : List Nat}
    (hg : List.Forall₂ (fun (a : Arg K) i => firstIndex a.1 a.2.1 ≤ i ∧ i < firstIndex a.1 a.2.1 + localSize a.1 a.2.1) args g) :
    List.Forall₂ (· < ·) g ((args.map (·.1)).map dirSize) := by
  induction hg with
  | nil => exact .nil
  | @cons a i args g h1 _ ih =>
    refine .cons ?_ (ih fun b hb => hok b (by simp [hb]))
    exact ((localSize_range a.1 (hok a (by simp)).knots.size a.2.1 (hok a (by simp)).span.lt i).mp h1).2.2

/-- **C78, linear independence.** Discrete functions are defined on all elements. If two coefficient vectors give the same function on (the interior of) an element, they agree for all functions of the
local view of this element; if they give the same function on all elements, they are equal. All orders, all dimensions, open and other knot vectors. -/
theorem C78_independent (h : List.Forall₂ DirOK ds elements) (hk : ∀ d ∈ ds, KnotsOK d) (c c' : Nat → K) :
    (∀ e < elements.prod, ∀ xs : List K, xs.length = ds.length → ∃ y, splineAt ds elements c e xs = some y) ∧
    (∀ e < elements.prod, (∀ xs : List K, xs.length = ds.length → (∀ x ∈ xs, 0 < x ∧ x < 1) →
        splineAt ds elements c e xs = splineAt ds elements c' e xs) →
      ∃ ss, elementSpans ds elements e = some ss ∧ ∀ j ∈ indices ds ss, c j = c' j) ∧
    ((∀ e < elements.prod, ∀ xs : List K, xs.length = ds.length → (∀ x ∈ xs, 0 < x ∧ x < 1) →
        splineAt ds elements c e xs = splineAt ds elements c' e xs) →
      ∀ j < dimension ds, c j = c' j) := by
  have hval : ∀ e < elements.prod, ∃ ss, elementSpans ds elements e = some ss ∧ Bound ds ss ∧
      (∀ k (h1 : k < ds.length) (h2 : k < ss.length), KnotsOK ds[k] ∧ SpanOK ds[k] ss[k] ∧ ∃ i, spanOf ds[k] i = some ss[k]) ∧
      ∀ (b : Nat → K) (xs : List K), xs.length = ds.length →
        splineAt ds elements b e xs = some (nest (ds.zip (ss.zip xs)) fun g => b (flatIndex g (ds.map dirSize))) := by
    intro e he
    obtain ⟨ss, hss, hb, hsp⟩ := spans_ok h hk e he
    refine ⟨ss, hss, hb, hsp, fun b xs hxs => ?_⟩
    have hz := zip_facts (xs := xs) hb.length_eq hxs
    have := combine_eq (ds.zip (ss.zip xs)) (args_ok hsp xs) b
    rw [hz.1, hz.2] at this
    rw [splineAt, hss, Option.bind_some, this]
  have hloc : ∀ e < elements.prod, (∀ xs : List K, xs.length = ds.length → (∀ x ∈ xs, 0 < x ∧ x < 1) →
        splineAt ds elements c e xs = splineAt ds elements c' e xs) →
      ∃ ss, elementSpans ds elements e = some ss ∧ ∀ j ∈ indices ds ss, c j = c' j := by
    intro e he heq
    obtain ⟨ss, hss, hb, hsp, hv⟩ := hval e he
    refine ⟨ss, hss, ?_⟩
    have hl := hb.length_eq
    have key := nest_independent (ds.zip ss) (by
      intro a ha
      obtain ⟨k, hk, rfl⟩ := List.mem_iff_getElem.mp ha
      simp only [List.length_zip] at hk
      simp only [List.getElem_zip]
      exact ⟨(hsp k (by omega) (by omega)).1, (hsp k (by omega) (by omega)).2.1⟩)
      (fun g => c (flatIndex g (ds.map dirSize)) + (-1) * c' (flatIndex g (ds.map dirSize))) (by
        intro xs hxs hx
        have hxs' : xs.length = ds.length := by rw [hxs, List.length_zip]; omega
        have e1 : List.zipWith (fun (a : Dir K × Nat) x => ((a.1, a.2, x) : Arg K)) (ds.zip ss) xs = ds.zip (ss.zip xs) := by
          apply List.ext_getElem
          · simp only [List.length_zipWith, List.length_zip]; omega
          · intros; simp
        have h1 := heq xs hxs' hx
        rw [hv c xs hxs', hv c' xs hxs', Option.some.injEq] at h1
        rw [e1, nest_add, nest_smul, h1]
        ring)
    intro j hj
    obtain ⟨i, -, hi⟩ := List.mem_map.mp hj
    have hF : List.Forall₂ (fun (a : Dir K × Nat) i => firstIndex a.1 a.2 ≤ i ∧ i < firstIndex a.1 a.2 + localSize a.1 a.2) (ds.zip ss)
        (List.zipWith (· + ·) (List.zipWith firstIndex ds ss) (getIJK i (List.zipWith localSize ds ss))) := by
      have hg := getIJK_ok _ hb.pos i
      revert hg
      generalize getIJK i (List.zipWith localSize ds ss) = g
      clear key hsp hv hi heq hss hj hk h hval
      clear hl
      induction hb generalizing g with
      | nil => intro hg; cases hg; exact .nil
      | @cons d s ds ss _ _ ih =>
        intro hg
        rw [List.zipWith_cons_cons] at hg
        cases hg with
        | @cons a _ g _ h1 h2 =>
          refine .cons ⟨?_, ?_⟩ (ih g h2)
          · simp
          · simpa using h1
    have := key _ hF
    rw [hi] at this
    linear_combination this
  refine ⟨fun e he xs hxs => ?_, hloc, ?_⟩
  · obtain ⟨ss, -, -, -, hv⟩ := hval e he
    exact ⟨_, hv c xs hxs⟩
  · intro heq j hj
    have hcov := leaf_Covered h
    rw [IndexTree.PB.Covered] at hcov
    obtain ⟨e, -, he⟩ := hcov j hj
    obtain ⟨ss, hss, hc⟩ := hloc e e.2 (heq e e.2)
    simp only [leaf, hss, Option.elim] at he
    exact hc j he

/-- **C78, polynomials.** On meshes where each element is inside of the support of `order+1` functions in each direction (all elements for open knot vectors), every polynomial with
degree at most `order[k]` in direction `k` is a discrete function: one coefficient vector gives the polynomial on all elements. -/
theorem C78_reproduce (h : List.Forall₂ DirOK ds elements) (hk : ∀ d ∈ ds, KnotsOK d)
    (hin : ∀ d ∈ ds, ∀ i s, spanOf d i = some s → d.order ≤ s ∧ s + d.order + 2 ≤ d.n)
    (P : MvPolynomial (Fin ds.length) K) (hP : ∀ k : Fin ds.length, P.degreeOf k ≤ (ds[k]).order) :
    ∃ c : Nat → K, ∀ e < elements.prod, ∀ xs : List K, xs.length = ds.length →
      splineAt ds elements c e xs = some (MvPolynomial.eval (fun k : Fin ds.length => (pointAt ds elements e xs).getD k 0) P) := by
  let γ : (Fin ds.length →₀ Nat) → Nat → Nat → K := fun m k i => if hk : k < ds.length then monoCoeff ds[k] (m ⟨k, hk⟩) i else 0
  refine ⟨fun j => ∑ m ∈ P.support, P.coeff m * ((getIJK j (ds.map dirSize)).mapIdx fun k i => γ m k i).prod, ?_⟩
  intro e he xs hxs
  obtain ⟨ss, hss, hb, hsp⟩ := spans_ok h hk e he
  have hl := hb.length_eq
  have hz := zip_facts (xs := xs) hb.length_eq hxs
  have hargs := args_ok hsp xs
  have := combine_eq (ds.zip (ss.zip xs)) hargs
    (fun j => ∑ m ∈ P.support, P.coeff m * ((getIJK j (ds.map dirSize)).mapIdx fun k i => γ m k i).prod)
  rw [hz.1, hz.2] at this
  rw [splineAt, hss, Option.bind_some, this]
  congr 1
  rw [nest_congr _ _ (fun g => ∑ m ∈ P.support, P.coeff m * (g.mapIdx fun k i => γ m k i).prod) (by
    intro g hg
    have := active_digits hargs hg
    rw [hz.1] at this
    simp only [getIJK_flatIndex this])]
  rw [nest_sum, MvPolynomial.eval_eq']
  refine sum_congr rfl fun m hm => ?_
  rw [nest_smul]
  congr 1
  have hp := nest_prod (ds.zip (ss.zip xs)) (γ m) 0
  simp only [Nat.zero_add] at hp
  rw [hp, ← List.prod_ofFn]
  congr 1
  have hlen : (ds.zip (ss.zip xs)).length = ds.length := by simp only [List.length_zip]; omega
  apply List.ext_getElem
  · simp only [List.length_mapIdx, List.length_ofFn, hlen]
  · intro k hk1 hk2
    rw [List.length_mapIdx, hlen] at hk1
    have hks : k < ss.length := by omega
    have hkx : k < xs.length := by omega
    have hs := hsp k hk1 hks
    obtain ⟨i, hi⟩ := hs.2.2
    have hinn := hin ds[k] (List.getElem_mem _) i _ hi
    simp only [List.getElem_mapIdx, List.getElem_zip, List.getElem_ofFn, γ, dif_pos hk1, argValue]
    rw [sum_local hs.1 hs.2.1 (toGlobal ds[k] ss[k] xs[k]) (monoCoeff ds[k] (m ⟨k, hk1⟩))]
    rw [monomial_reproduced hs.1 hs.2.1 _ hinn.1 hinn.2 _
      (le_trans (MvPolynomial.degreeOf_le_iff.mp (le_refl _) m hm) (hP ⟨k, hk1⟩))]
    congr 1
    rw [List.getD_eq_getElem?_getD, pointAt, hss, Option.getD_some, List.getElem?_zipWith]
    simp only [List.getElem?_eq_getElem hk1, List.zip, List.getElem?_zipWith, List.getElem?_eq_getElem hks, List.getElem?_eq_getElem hkx]
    rfl

end

/-- Both facts for bases with open knot vectors, all knots at distance at least `1e-8`. -/
theorem C78_open (dirs : List (Nat × List K))
    (h : ∀ x ∈ dirs, 2 ≤ x.2.length ∧ ∀ i, i + 1 < x.2.length → x.2.getD i 0 + 1 / 10 ^ 8 ≤ x.2.getD (i + 1) 0)
    (ds : List (Dir K)) (hds : ds = dirs.map fun x => (⟨x.1, openKnots x.1 true x.2⟩ : Dir K))
    (elements : List Nat) (hel : elements = dirs.map fun x => x.2.length - 1) :
    (∀ c c' : Nat → K, (∀ e < elements.prod, ∀ xs : List K, xs.length = ds.length → (∀ x ∈ xs, 0 < x ∧ x < 1) →
        splineAt ds elements c e xs = splineAt ds elements c' e xs) → ∀ j < dimension ds, c j = c' j) ∧
    (∀ P : MvPolynomial (Fin ds.length) K, (∀ k : Fin ds.length, P.degreeOf k ≤ (ds[k]).order) →
      ∃ c : Nat → K, ∀ e < elements.prod, ∀ xs : List K, xs.length = ds.length →
        splineAt ds elements c e xs = some (MvPolynomial.eval (fun k : Fin ds.length => (pointAt ds elements e xs).getD k 0) P)) := by
  subst hds hel
  have hok : List.Forall₂ DirOK (dirs.map fun x => (⟨x.1, openKnots x.1 true x.2⟩ : Dir K)) (dirs.map fun x => x.2.length - 1) := by
    induction dirs with
    | nil => exact .nil
    | cons x dirs ih =>
      exact .cons (C26_open x.1 x.2 (h x (by simp)).1 (h x (by simp)).2).1 (ih fun y hy => h y (by simp [hy]))
  have hk : ∀ d ∈ dirs.map (fun x => (⟨x.1, openKnots x.1 true x.2⟩ : Dir K)), KnotsOK d := by
    intro d hd
    obtain ⟨x, hx, rfl⟩ := List.mem_map.mp hd
    exact openKnots_OK x.1 x.2 (h x hx).1 (h x hx).2
  refine ⟨fun c c' => (C78_independent hok hk c c').2.2, C78_reproduce hok hk ?_⟩
  intro d hd i s hs
  obtain ⟨x, hx, rfl⟩ := List.mem_map.mp hd
  exact (C26_open x.1 x.2 (h x hx).1 (h x hx).2).2.2 i s hs

/-- Quadratic splines on `[0,1,3]`: coefficients for `x²`, on both elements. -/
example : (List.range 4).map (monoCoeff exDir 2) = [0, 0, 3, 9] ∧
    splineAt [exDir] [2] (fun j => [0, 0, 3, 9].getD j 0) 1 [1 / 4] = some ((3 / 2) ^ 2) ∧
    splineAt [exDir] [2] (fun j => [0, 0, 3, 9].getD j 0) 0 [1 / 4] = some ((1 / 4) ^ 2) := by
  refine ⟨?_, by decide +kernel, by decide +kernel⟩
  simp [monoCoeff, dual, exDir, Dir.t, List.range, List.range.loop, prod_range_succ, mul_coeff_zero]
  norm_num

/-- Not on outer knot spans: without the additional knots, constants are not reproduced, but the functions are still independent. -/
theorem C78_outer_false : let d : Dir ℚ := ⟨1, [0, 1, 2, 3]⟩
    KnotsOK d ∧ DirOK d 3 ∧ ¬ ∃ c : Nat → ℚ, ∀ e < 3, ∀ x : ℚ, splineAt [d] [3] c e [x] = some 1 := by
  refine ⟨⟨by decide, ?_, ?_⟩, ⟨by decide, by decide +kernel, ?_⟩, ?_⟩
  · intro i hi
    have : i = 0 ∨ i = 1 ∨ i = 2 := by simp [Dir.n] at hi; omega
    rcases this with rfl | rfl | rfl <;> norm_num [Dir.t]
  · intro i hi
    have : i = 0 ∨ i = 1 ∨ i = 2 := by simp [Dir.n] at hi; omega
    rcases this with rfl | rfl | rfl <;> norm_num [Dir.t]
  · intro g hg
    have hg' : g < 2 := hg
    have : g = 0 ∨ g = 1 := by omega
    rcases this with rfl | rfl
    · exact ⟨0, by decide, by decide, by norm_num [Dir.Elem, Dir.t]⟩
    · exact ⟨1, by decide, by decide, by norm_num [Dir.Elem, Dir.t]⟩
  · rintro ⟨c, hc⟩
    have h0 := hc 0 (by decide) 0
    have e1 : elementSpans [(⟨1, [0, 1, 2, 3]⟩ : Dir ℚ)] [3] 0 = some [0] := by decide +kernel
    have e2 : indices [(⟨1, [0, 1, 2, 3]⟩ : Dir ℚ)] [0] = [0] := by decide +kernel
    have e3 : evalValues [((⟨1, [0, 1, 2, 3]⟩, 0, 0) : Arg ℚ)] = [some 0] := by decide +kernel
    simp [splineAt, e1, e2, e3, combine] at h0

end Verif.BSpline

import Mathlib.Algebra.Polynomial.Derivative
import Mathlib.Algebra.Polynomial.Eval.Defs
import Mathlib.Algebra.BigOperators.Group.List.Basic
import Mathlib.Algebra.Field.Rat
import Mathlib.Tactic.Ring

/-!
# Univariate polynomials

Model of `dune/functions/analyticfunctions/polynomial.hh`: evaluation by the Horner scheme and the derivative, for each
of the four supported coefficient containers.
-/

namespace Verif.Analytic

open _root_.Polynomial (X C eval)

/-- An entry of a `std::tuple` of coefficients (polynomial.hh:69-88): a run time value or a `std::integral_constant`.
Simplification: run time values are already converted to the scalar type, integers do not overflow. -/
inductive Coef (K : Type) where
  | dyn (c : K)
  | const (c : Int)
  deriving DecidableEq

/-- The supported coefficient containers (polynomial.hh:103-106): `std::vector<K>`, `std::array<K,n>`,
`std::integer_sequence<I,...>` and `std::tuple<...>`. -/
inductive Coefs (K : Type) where
  | vector (l : List K)
  | array (l : List K)
  | sequence (l : List Int)
  | tuple (l : List (Coef K))
  deriving DecidableEq

variable {K : Type} [Ring K]

/-- Conversion of a tuple entry to the scalar type `K` (polynomial.hh:139-149, 190, 196). -/
def Coef.val : Coef K → K
  | .dyn c => c
  | .const c => (c : K)

/-- Entries as seen by `Hybrid::elementAt` (polynomial.hh:190, 196). For a `std::integer_sequence` each entry is a
`std::integral_constant`. -/
def Coefs.entries : Coefs K → List (Coef K)
  | .vector l => l.map .dyn
  | .array l => l.map .dyn
  | .sequence l => l.map .const
  | .tuple l => l

/-- polynomial.hh:24-32, the loop of the `std::vector` and the `std::array` overload (also 42-46): starting with `n-1`
value-initialised entries, for `i = 1, ..., n-1` entry `i-1` becomes `coefficients[i]*K(i)`. -/
def derivLoop (c : List K) : List K :=
  (List.range' 1 (c.length - 1)).foldl (fun d i => d.set (i - 1) (c[i]?.getD 0 * (i : K)))
    (List.replicate (c.length - 1) 0)

/-- polynomial.hh:54-57: drop the first entry and the first index, multiply the remaining ones pairwise. -/
def derivSequence : List Int → List Nat → List Int
  | _ :: i, _ :: j => List.zipWith (fun a (b : Nat) => a * (b : Int)) i j
  | _, _ => []

/-- polynomial.hh:82-86, `hybridFunctor(std::multiplies())`: the product of two `std::integral_constant`s is a
`std::integral_constant`, the one with a run time value is a run time value. -/
def Coef.mulConst (a : Coef K) (i : Int) : Coef K :=
  match a with
  | .dyn c => .dyn (c * (i : K))
  | .const c => .const (c * i)

/-- polynomial.hh:71-88, overload for `std::tuple`. -/
def derivTuple (c : List (Coef K)) : List (Coef K) :=
  if c.length = 0 then c
  else (List.range (c.length - 1)).map fun i => (c[i + 1]?.getD (.const 0)).mulConst ((i + 1 : Nat) : Int)

/-- polynomial.hh:22-88 `polynomialDerivativeCoefficients`, all overloads. -/
def derivCoefs : Coefs K → Coefs K
  | .vector l => if l.length = 0 then .vector [] else .vector (derivLoop l)
  | .array l => if l.length = 0 then .array l else .array (derivLoop l)
  | .sequence l => if l.length = 0 then .sequence l else .sequence (derivSequence l (List.range l.length))
  | .tuple l => .tuple (derivTuple l)

variable [DecidableEq K]

/-- polynomial.hh:139-149 `add`: returns the new value of `y` and whether an addition was executed. The `if constexpr`
is taken as written: the test for zero is made for entries which are *not* a `std::integral_constant`. -/
def addCoef (y : K) : Coef K → K × Nat
  | .dyn c => if c ≠ 0 then (y + c, 1) else (y, 0)
  | .const c => (y + (c : K), 1)

/-- polynomial.hh:176-200 `operator()`: value and the number of executed additions. The loop variable `i` runs over
`range(n-1)` and entry `(n-2)-i` is added. -/
def evalCount (cs : Coefs K) (x : K) : K × Nat :=
  let c := cs.entries
  let n := c.length
  if n = 0 then (0, 0)
  else
    (List.range (n - 1)).foldl (fun s i =>
      let r := addCoef (s.1 * x) (c[n - 2 - i]?.getD (.const 0))
      (r.1, s.2 + r.2)) ((c[n - 1]?.getD (.const 0)).val, 0)

/-- polynomial.hh:176-200 `operator()`. -/
def evalPoly (cs : Coefs K) (x : K) : K := (evalCount cs x).1

/-- polynomial.hh:203-209 `operator==`; both sides have the same type, hence integer sequences are equal. -/
def eqPoly : Coefs K → Coefs K → Bool
  | .vector a, .vector b => a == b
  | .array a, .array b => a == b
  | .sequence _, .sequence _ => true
  | .tuple a, .tuple b => a == b
  | _, _ => false

/-! ## Specification -/

omit [DecidableEq K]

/-- The mathematical polynomial `Σ c_i X^i` of a coefficient list. -/
noncomputable def polyOf (c : List K) (k : Nat := 0) : _root_.Polynomial K :=
  match c with
  | [] => 0
  | a :: l => C a * X ^ k + polyOf l (k + 1)

/-- The coefficients as elements of the scalar type. -/
def Coefs.vals (cs : Coefs K) : List K := cs.entries.map Coef.val

theorem addCoef_fst [DecidableEq K] (y : K) (c : Coef K) : (addCoef y c).1 = y + c.val := by
  cases c with
  | dyn c => by_cases h : c = 0 <;> simp [addCoef, Coef.val, h]
  | const c => simp [addCoef, Coef.val]

theorem polyOf_shift (c : List K) : ∀ k, polyOf c (k + 1) = polyOf c k * X := by
  induction c with
  | nil => simp [polyOf]
  | cons a l ih =>
    intro k
    simp only [polyOf, ih, pow_succ, add_mul, mul_assoc]

theorem polyOf_eval_sum (c : List K) (x : K) :
    ∀ k, (polyOf c k).eval x = ((List.range c.length).map fun i => c[i]?.getD 0 * x ^ (k + i)).sum := by
  induction c with
  | nil => simp [polyOf]
  | cons a l ih =>
    intro k
    simp only [polyOf, Polynomial.eval_add, ih, List.length_cons, List.range_succ_eq_map, List.map_cons, List.sum_cons,
      List.map_map]
    congr 1
    · simp
    · congr 1
      apply List.map_congr_left
      intro i _
      simp [Nat.add_comm, Nat.add_left_comm]

/-- Horner loop from the top: after processing, starting with `y`. -/
theorem horner_loop [DecidableEq K] (x : K) (c : List (Coef K)) :
    ∀ (m : Nat) (s : K × Nat), m ≤ c.length →
    ((List.range m).foldl (fun s i =>
      let r := addCoef (s.1 * x) (c[m - 1 - i]?.getD (.const 0))
      (r.1, s.2 + r.2)) s).1 = s.1 * x ^ m + (polyOf ((c.take m).map Coef.val)).eval x := by
  intro m
  induction m with
  | zero => intro s _; simp [polyOf]
  | succ m ih =>
    intro s hm
    rw [List.range_succ_eq_map, List.foldl_cons, List.foldl_map]
    have hc : c[m]?.getD (.const 0) = c[m] := by simp [List.getElem?_eq_getElem (show m < c.length by omega)]
    have hfun : (fun (s : K × Nat) (i : Nat) =>
        let r := addCoef (s.1 * x) (c[m + 1 - 1 - i.succ]?.getD (.const 0))
        (r.1, s.2 + r.2)) = (fun (s : K × Nat) (i : Nat) =>
        let r := addCoef (s.1 * x) (c[m - 1 - i]?.getD (.const 0))
        (r.1, s.2 + r.2)) := by
      funext s i
      have : m + 1 - 1 - i.succ = m - 1 - i := by omega
      rw [this]
    rw [hfun, ih _ (by omega)]
    simp only [Nat.add_sub_cancel, Nat.sub_zero, addCoef_fst, hc]
    rw [List.take_succ_eq_append_getElem (show m < c.length by omega), List.map_append,
      polyOf_eval_sum, polyOf_eval_sum]
    simp only [List.length_append, List.map_cons, List.map_nil, List.length_cons, List.length_nil, List.length_map,
      List.length_take, Nat.min_eq_left (show m ≤ c.length by omega), List.range_succ, List.map_append, List.sum_append,
      List.sum_cons, List.sum_nil]
    have h1 : (List.map (fun i => ((List.map Coef.val (c.take m) ++ [c[m].val])[i]?.getD 0) * x ^ (0 + i)) (List.range (0 + m)))
        = (List.map (fun i => ((List.map Coef.val (c.take m))[i]?.getD 0) * x ^ (0 + i)) (List.range m)) := by
      rw [Nat.zero_add]
      apply List.map_congr_left
      intro i hi
      rw [List.getElem?_append_left (by simp; simp at hi; omega)]
    have h2 : ((List.map Coef.val (c.take m) ++ [c[m].val])[m]?.getD 0) = c[m].val := by
      rw [List.getElem?_append_right (by simp)]
      simp [Nat.min_eq_left (show m ≤ c.length by omega)]
    simp only [Nat.zero_add] at h1 ⊢
    rw [h1, h2, add_zero, add_mul, mul_assoc, ← pow_succ']
    rw [add_assoc, add_comm (c[m].val * x ^ m)]

theorem polyOf_append (a b : List K) : ∀ k, polyOf (a ++ b) k = polyOf a k + polyOf b (k + a.length) := by
  induction a with
  | nil => intro k; simp [polyOf]
  | cons x a ih => intro k; simp [polyOf, ih, add_assoc, Nat.add_comm 1]

/-- **C37, values.** For every kind of container and all coefficients in an arbitrary ring (commutative or not),
`operator()` evaluates to `c_0 + c_1 x + ... + c_{n-1} x^{n-1}`. -/
theorem C37_eval [DecidableEq K] (cs : Coefs K) (x : K) :
    evalPoly cs x = ((List.range cs.vals.length).map fun i => cs.vals[i]?.getD 0 * x ^ i).sum := by
  have key : evalPoly cs x = (polyOf cs.vals).eval x := by
    unfold evalPoly evalCount Coefs.vals
    generalize cs.entries = c
    by_cases h : c.length = 0
    · have : c = [] := by simpa using h
      subst this
      simp [polyOf]
    · simp only [h, if_false]
      have hl := horner_loop x c (c.length - 1) ((c[c.length - 1]?.getD (.const 0)).val, 0) (by omega)
      have e : ∀ i, c.length - 1 - 1 - i = c.length - 2 - i := by intro i; omega
      simp only [e] at hl
      rw [hl]
      have hsplit : c = c.take (c.length - 1) ++ [c[c.length - 1]] := by
        rw [← List.take_succ_eq_append_getElem (show c.length - 1 < c.length by omega)]
        rw [show c.length - 1 + 1 = c.length by omega, List.take_length]
      conv_rhs => rw [hsplit]
      rw [List.map_append, polyOf_append, Polynomial.eval_add, add_comm]
      congr 1
      simp [polyOf, List.getElem?_eq_getElem (show c.length - 1 < c.length by omega), Polynomial.eval_mul_X_pow]
  rw [key, polyOf_eval_sum]
  simp

theorem evalPoly_polyOf [DecidableEq K] (cs : Coefs K) (x : K) : evalPoly cs x = (polyOf cs.vals).eval x := by
  rw [C37_eval, polyOf_eval_sum]
  simp

/-- The expected coefficients of the derivative: `1·c_1, 2·c_2, ...`. -/
def derivList (c : List K) : List K :=
  (List.range (c.length - 1)).map fun i => c[i + 1]?.getD 0 * ((i + 1 : Nat) : K)

theorem derivLoop_aux (c : List K) :
    ∀ (m : Nat), m ≤ c.length - 1 →
    (List.range' 1 m).foldl (fun d i => d.set (i - 1) (c[i]?.getD 0 * (i : K))) (List.replicate (c.length - 1) 0)
      = ((List.range m).map fun i => c[i + 1]?.getD 0 * ((i + 1 : Nat) : K)) ++ List.replicate (c.length - 1 - m) 0 := by
  intro m
  induction m with
  | zero => simp
  | succ m ih =>
    intro hm
    rw [List.range'_concat, List.foldl_append, ih (by omega), List.foldl_cons, List.foldl_nil, List.range_succ,
      List.map_append]
    simp only [Nat.one_mul, show 1 + m - 1 = m by omega]
    rw [List.set_append_right (h := by simp)]
    simp only [List.length_map, List.length_range, Nat.sub_self]
    obtain ⟨r, hr⟩ : ∃ r, c.length - 1 - m = r + 1 := ⟨c.length - 1 - m - 1, by omega⟩
    rw [hr, List.replicate_succ, List.set_cons_zero, show c.length - 1 - (m + 1) = r by omega, Nat.add_comm 1 m]
    simp

theorem derivLoop_eq (c : List K) : derivLoop c = derivList c := by
  unfold derivLoop derivList
  rw [derivLoop_aux c _ (Nat.le_refl _)]
  simp

theorem vals_derivCoefs (cs : Coefs K) : (derivCoefs cs).vals = derivList cs.vals := by
  cases cs with
  | vector l =>
    cases l with
    | nil => simp [derivCoefs, Coefs.vals, Coefs.entries, derivList]
    | cons a l =>
      simp [derivCoefs, Coefs.vals, Coefs.entries, derivLoop_eq, derivList, Coef.val, Function.comp_def]
  | array l =>
    cases l with
    | nil => simp [derivCoefs, Coefs.vals, Coefs.entries, derivList]
    | cons a l =>
      simp [derivCoefs, Coefs.vals, Coefs.entries, derivLoop_eq, derivList, Coef.val, Function.comp_def]
  | sequence l =>
    cases l with
    | nil => simp [derivCoefs, Coefs.vals, Coefs.entries, derivList]
    | cons a l =>
      simp only [derivCoefs, Coefs.vals, Coefs.entries, List.length_cons, Nat.add_one_ne_zero, if_false,
        List.range_succ_eq_map, derivSequence, List.map_map, derivList, List.length_map, Nat.add_sub_cancel,
        List.map_cons]
      apply List.ext_getElem?
      intro i
      by_cases h : i < l.length
      · simp [h, Coef.val]
      · simp [h]
  | tuple l =>
    cases l with
    | nil => simp [derivCoefs, Coefs.vals, Coefs.entries, derivList, derivTuple]
    | cons a l =>
      simp only [derivCoefs, Coefs.vals, Coefs.entries, derivTuple, List.length_cons, Nat.add_one_ne_zero, if_false,
        Nat.add_sub_cancel, List.map_map, derivList, List.length_map, List.map_cons]
      apply List.map_congr_left
      intro i hi
      have h : i < l.length := by simpa using hi
      simp only [Function.comp, List.getElem?_cons_succ, List.getElem?_map, List.getElem?_eq_getElem h,
        Option.map_some, Option.getD_some]
      cases l[i] <;> simp [Coef.mulConst, Coef.val]

theorem polyOf_coeff (c : List K) : ∀ k n, (polyOf c k).coeff n = if k ≤ n then c[n - k]?.getD 0 else 0 := by
  induction c with
  | nil => intro k n; simp [polyOf]
  | cons a l ih =>
    intro k n
    rw [polyOf, Polynomial.coeff_add, Polynomial.coeff_C_mul_X_pow, ih]
    by_cases h1 : n = k
    · subst h1; simp
    · by_cases h2 : k + 1 ≤ n
      · have : n - k = (n - (k + 1)) + 1 := by omega
        simp [h1, h2, show k ≤ n by omega, this]
      · simp [h1, h2, show ¬ k ≤ n by omega]

theorem polyOf_derivList (c : List K) : polyOf (derivList c) = Polynomial.derivative (polyOf c) := by
  ext n
  rw [Polynomial.coeff_derivative, polyOf_coeff, polyOf_coeff]
  simp only [Nat.zero_le, if_true, Nat.sub_zero, derivList, List.getElem?_map]
  by_cases h : n < c.length - 1
  · rw [List.getElem?_range h]
    simp
  · rw [List.getElem?_eq_none (by simpa using h)]
    rw [List.getElem?_eq_none (show c.length ≤ n + 1 by omega)]
    simp

/-- **C37, derivative.** For every kind of container, every number `m` of calls of `derivative()` and all coefficients,
the result evaluates to the `m`-th formal derivative of `Σ c_i X^i`. The derivative has the same kind of container,
with one coefficient less (none if there was none). -/
theorem C37_derivative [DecidableEq K] (cs : Coefs K) (m : Nat) (x : K) :
    evalPoly (derivCoefs^[m] cs) x = (Polynomial.derivative^[m] (polyOf cs.vals)).eval x ∧
    (derivCoefs^[m] cs).entries.length = cs.entries.length - m := by
  rw [evalPoly_polyOf]
  induction m generalizing cs with
  | zero => simp
  | succ m ih =>
    obtain ⟨h1, h2⟩ := ih (derivCoefs cs)
    rw [Function.iterate_succ_apply, Function.iterate_succ_apply, h1, h2, vals_derivCoefs, polyOf_derivList]
    refine ⟨rfl, ?_⟩
    have : (derivCoefs cs).vals.length = cs.vals.length - 1 := by rw [vals_derivCoefs]; simp [derivList]
    simp only [Coefs.vals, List.length_map] at this
    omega

/-- **C37, static coefficients stay static.** Entries of type `std::integral_constant` stay of that type in all
derivatives of tuples (documentation polynomial.hh:104-105). -/
theorem C37_static (l : List (Coef K)) (i : Nat) (c : Int) (h : l[i + 1]? = some (.const c)) :
    (derivCoefs (.tuple l)).entries[i]? = some (.const (c * ((i : Int) + 1))) := by
  have hl : i + 1 < l.length := (List.getElem?_eq_some_iff.mp h).1
  simp only [derivCoefs, Coefs.entries, derivTuple, show ¬ l.length = 0 by omega, if_false]
  rw [List.getElem?_map, List.getElem?_range (by omega), Option.map_some, h]
  simp [Coef.mulConst]

/-- **C37, equality.** `operator==` of polynomials of the same type implies equality of all values. Integer sequences of
the same type have the same entries. -/
theorem C37_eq [DecidableEq K] (a b : Coefs K) (h : eqPoly a b = true)
    (hseq : ∀ la lb, a = .sequence la → b = .sequence lb → la = lb) (x : K) : evalPoly a x = evalPoly b x := by
  cases a <;> cases b <;> simp [eqPoly] at h
  · rw [h]
  · rw [h]
  · rw [hseq _ _ rfl rfl]
  · rw [h]

/-- Documentation polynomial.hh:171-175: "Coefficients of type `std::integral_constant<0>` are eliminated at compile
time". -/
def SkipsStaticZeros (K : Type) [Ring K] [DecidableEq K] : Prop :=
  ∀ (y : K), (addCoef y (.const 0)).2 = 0

/-- The documented elimination does not take place: the condition in `add` is inverted. The addition of a static zero
is executed; the one of a run time zero is skipped. -/
theorem C37_skip_false [DecidableEq K] : ¬ SkipsStaticZeros K ∧ ∀ y : K, (addCoef y (.dyn 0)).2 = 0 := by
  constructor
  · intro h
    simpa [addCoef] using h 0
  · intro y
    simp [addCoef]

/-- The same for `operator()`: all `n-1` additions are executed for every integer sequence, whatever its entries. -/
theorem C37_count [DecidableEq K] (l : List Int) (x : K) : (evalCount (.sequence l) x).2 = l.length - 1 := by
  simp only [evalCount, Coefs.entries, List.length_map]
  by_cases h : l.length = 0
  · simp [h]
  simp only [h, if_false]
  have : ∀ (m : Nat) (s : K × Nat), m < l.length →
      ((List.range m).foldl (fun s i =>
      let r := addCoef (s.1 * x) ((List.map Coef.const l)[l.length - 2 - i]?.getD (.const 0))
      (r.1, s.2 + r.2)) s).2 = s.2 + m := by
    intro m
    induction m with
    | zero => simp
    | succ m ih =>
      intro s hm
      rw [List.range_succ, List.foldl_append]
      have hx : ∃ z, (List.map (Coef.const (K := K)) l)[l.length - 2 - m]?.getD (.const 0) = .const z := by
        rw [List.getElem?_map]
        cases l[l.length - 2 - m]? <;> simp
      obtain ⟨z, hz⟩ := hx
      simp only [List.foldl_cons, List.foldl_nil, hz]
      rw [ih s (by omega)]
      simp [addCoef, Nat.add_assoc]
  rw [this _ _ (by omega)]
  simp

/-! ## Examples -/

example : evalPoly (.vector [1, 2, 0, 4] : Coefs ℚ) 3 = 115 := by decide +kernel
example : derivCoefs (.vector [1, 2, 0, 4] : Coefs ℚ) = .vector [2, 0, 12] := by decide +kernel
example : evalPoly (derivCoefs (.sequence [7, 0, -5] : Coefs ℚ)) (1/2) = -5 := by decide +kernel
example : derivCoefs (.tuple [.dyn 1, .const 3, .dyn (1/2)] : Coefs ℚ) = .tuple [.const 3, .dyn 1] := by decide +kernel
example : evalPoly (.array [] : Coefs ℚ) 5 = 0 := by decide +kernel
example : (evalCount (.sequence [0, 0, 3] : Coefs ℚ) 2) = (12, 2) := by decide +kernel
example : (evalCount (.vector [0, 0, 3] : Coefs ℚ) 2) = (12, 0) := by decide +kernel

end Verif.Analytic

import Verif.BSpline.Index
import Mathlib.Algebra.Polynomial.Derivative
import Mathlib.Algebra.Order.BigOperators.Group.Finset
import Mathlib.Tactic.LinearCombination

/-!
# Values and derivatives of B-splines in one direction (C27, C28, C59)
-/

set_option linter.unusedSectionVars false

namespace Verif.BSpline

open Finset Polynomial

variable {K : Type} [Field K] [LinearOrder K] [IsStrictOrderedRing K]

/-- Non-decreasing knots; different neighbouring knots differ by more than the threshold of the code. -/
structure KnotsOK (d : Dir K) : Prop where
  size : d.order + 2 ≤ d.n
  mono : ∀ i, i + 1 < d.n → d.t i ≤ d.t (i + 1)
  sep : ∀ i, i + 1 < d.n → d.t (i + 1) = d.t i ∨ d.t (i + 1) - d.t i > 1 / 10 ^ 10

/-- A non-degenerate knot span. -/
structure SpanOK (d : Dir K) (s : Nat) : Prop where
  lt : s + 1 < d.n
  pos : d.t s < d.t (s + 1)

namespace KnotsOK

variable {d : Dir K} (h : KnotsOK d)
include h

theorem mono' {i j : Nat} (hij : i ≤ j) (hj : j < d.n) : d.t i ≤ d.t j := by
  induction hij with
  | refl => exact le_refl _
  | @step m _ ih => exact le_trans (ih (by omega)) (h.mono m hj)

theorem sep' {i j : Nat} (hij : i ≤ j) (hj : j < d.n) : d.t j = d.t i ∨ d.t j - d.t i > 1 / 10 ^ 10 := by
  induction hij with
  | refl => exact Or.inl rfl
  | @step m hm ih =>
    have h1 := h.mono' (show m ≤ m + 1 by omega) hj
    have h2 := h.mono' hm (show m < d.n by omega)
    rcases h.sep m hj with e | e
    · rw [show m.succ = m + 1 from rfl, e]; exact ih (by omega)
    · right; change d.t (m + 1) - d.t i > _; linarith

/-- Below the threshold means equal. -/
theorem thr {i j : Nat} (hij : i ≤ j) (hj : j < d.n) : d.t j - d.t i > 1 / 10 ^ 10 ↔ d.t j - d.t i ≠ 0 := by
  have := eps_pos (K := K) 10
  constructor
  · intro h0 h1; rw [h1] at h0; linarith
  · intro h0
    rcases h.sep' hij hj with e | e
    · exact absurd (sub_eq_zero.mpr e) h0
    · exact e

end KnotsOK

/-! ## The table -/

theorem tableN_support (d : Dir K) (s : Nat) (x : K) (r i : Nat) (h : tableN d s x r i ≠ 0) : i ≤ s ∧ s ≤ i + r := by
  induction r generalizing i with
  | zero => simp only [tableN] at h; split at h <;> [omega; simp at h]
  | succ r ih =>
    simp only [tableN] at h
    split at h
    · by_contra hc
      apply h
      have h1 : tableN d s x r i = 0 := by by_contra h1; have := ih i h1; omega
      have h2 : tableN d s x r (i + 1) = 0 := by by_contra h2; have := ih (i + 1) h2; omega
      rw [h1, h2]; simp
    · simp at h

/-- Weight of the recursion. -/
def wt (d : Dir K) (r i : Nat) : K := (d.t (i + r) - d.t i)⁻¹

theorem tableN_succ {d : Dir K} (h : KnotsOK d) (s : Nat) (x : K) (r i : Nat) (hi : i < d.n - (r + 1) - 1) :
    tableN d s x (r + 1) i = (x - d.t i) * wt d (r + 1) i * tableN d s x r i +
      (d.t (i + 1 + (r + 1)) - x) * wt d (r + 1) (i + 1) * tableN d s x r (i + 1) := by
  rw [tableN, if_pos hi]
  have t1 := h.thr (show i ≤ i + (r + 1) by omega) (by omega)
  have t2 := h.thr (show i + 1 ≤ i + (r + 1) + 1 by omega) (by omega)
  have e : i + 1 + (r + 1) = i + (r + 1) + 1 := by omega
  simp only [t1, t2, wt, e]
  congr 1
  · split
    · rw [div_eq_mul_inv]
    · next hc => rw [not_not.mp hc]; simp
  · split
    · rw [div_eq_mul_inv]
    · next hc => rw [not_not.mp hc]; simp

theorem wt_nonneg {d : Dir K} (h : KnotsOK d) (r i : Nat) (hi : i + r < d.n) : 0 ≤ wt d r i :=
  inv_nonneg.mpr (sub_nonneg.mpr (h.mono' (by omega) hi))

theorem tableN_nonneg {d : Dir K} (h : KnotsOK d) {s : Nat} (hs : SpanOK d s) {x : K} (h1 : d.t s ≤ x) (h2 : x ≤ d.t (s + 1))
    (r i : Nat) (hi : i < d.n - r - 1) : 0 ≤ tableN d s x r i := by
  have hsl := hs.lt
  induction r generalizing i with
  | zero => simp only [tableN]; split <;> simp
  | succ r ih =>
    rw [tableN_succ h s x r i hi]
    apply add_nonneg
    · by_cases h0 : tableN d s x r i = 0
      · rw [h0]; simp
      · have hsup := tableN_support d s x r i h0
        have := h.mono' hsup.1 (by omega)
        exact mul_nonneg (mul_nonneg (by linarith) (wt_nonneg h _ _ (by omega))) (ih i (by omega))
    · by_cases h0 : tableN d s x r (i + 1) = 0
      · rw [h0]; simp
      · have hsup := tableN_support d s x r (i + 1) h0
        have := h.mono' (show s + 1 ≤ i + 1 + (r + 1) by omega) (by omega)
        exact mul_nonneg (mul_nonneg (by linarith) (wt_nonneg h _ _ (by omega))) (ih (i + 1) (by omega))

/-- Both weights of one function add up to it. -/
theorem tableN_split {d : Dir K} (h : KnotsOK d) {s : Nat} (hs : SpanOK d s) (x : K) (r i : Nat) (hi : i + (r + 1) < d.n) :
    (d.t (i + (r + 1)) - x) * wt d (r + 1) i * tableN d s x r i =
      tableN d s x r i - (x - d.t i) * wt d (r + 1) i * tableN d s x r i := by
  by_cases h0 : tableN d s x r i = 0
  · rw [h0]; simp
  · have hsup := tableN_support d s x r i h0
    have a1 := h.mono' hsup.1 (by omega)
    have a2 := h.mono' (show s + 1 ≤ i + (r + 1) by omega) hi
    have hne : d.t (i + (r + 1)) - d.t i ≠ 0 := by have := hs.pos; intro hc; linarith
    simp only [wt]
    field_simp
    ring

theorem tableN_sum_succ {d : Dir K} (h : KnotsOK d) {s : Nat} (hs : SpanOK d s) (x : K) (r m : Nat) (hm : d.n = m + r + 2) :
    ∑ i ∈ range m, tableN d s x (r + 1) i = (∑ i ∈ range (m + 1), tableN d s x r i)
      - (d.t (0 + (r + 1)) - x) * wt d (r + 1) 0 * tableN d s x r 0
      - (x - d.t m) * wt d (r + 1) m * tableN d s x r m := by
  have e1 : ∀ i ∈ range m, tableN d s x (r + 1) i = (x - d.t i) * wt d (r + 1) i * tableN d s x r i +
      (tableN d s x r (i + 1) - (x - d.t (i + 1)) * wt d (r + 1) (i + 1) * tableN d s x r (i + 1)) := by
    intro i hi
    rw [mem_range] at hi
    rw [tableN_succ h s x r i (by omega), tableN_split h hs x r (i + 1) (by omega)]
  rw [sum_congr rfl e1, sum_add_distrib, sum_sub_distrib]
  have e2 := sum_range_succ' (fun i => tableN d s x r i) m
  have e3 := sum_range_succ' (fun i => (x - d.t i) * wt d (r + 1) i * tableN d s x r i) m
  have e4 := sum_range_succ (fun i => (x - d.t i) * wt d (r + 1) i * tableN d s x r i) m
  have e5 := tableN_split h hs x r 0 (by omega)
  linear_combination -e2 + e3 - e4 + e5

/-- The functions of degree `r` sum to one on inner knot spans, and to at most one on all knot spans. -/
theorem tableN_sum {d : Dir K} (h : KnotsOK d) {s : Nat} (hs : SpanOK d s) (x : K) (r m : Nat) (hm : d.n = m + r + 1)
    (h1 : r ≤ s) (h2 : s + r + 2 ≤ d.n) : ∑ i ∈ range m, tableN d s x r i = 1 := by
  induction r generalizing m with
  | zero =>
    simp only [tableN]
    rw [sum_ite_eq' (range m) s, if_pos (mem_range.mpr (by omega))]
  | succ r ih =>
    rw [tableN_sum_succ h hs x r m (by omega), ih (m + 1) (by omega) (by omega) (by omega)]
    have z1 : tableN d s x r 0 = 0 := by by_contra hc; have := tableN_support d s x r 0 hc; omega
    have z2 : tableN d s x r m = 0 := by by_contra hc; have := tableN_support d s x r m hc; omega
    rw [z1, z2]; ring

theorem tableN_sum_le {d : Dir K} (h : KnotsOK d) {s : Nat} (hs : SpanOK d s) {x : K} (hx1 : d.t s ≤ x) (hx2 : x ≤ d.t (s + 1))
    (r m : Nat) (hm : d.n = m + r + 1) : ∑ i ∈ range m, tableN d s x r i ≤ 1 := by
  have hsl := hs.lt
  induction r generalizing m with
  | zero =>
    simp only [tableN]
    rw [sum_ite_eq' (range m) s]; split <;> simp
  | succ r ih =>
    rw [tableN_sum_succ h hs x r m (by omega)]
    have := ih (m + 1) (by omega)
    have z1 : 0 ≤ (d.t (0 + (r + 1)) - x) * wt d (r + 1) 0 * tableN d s x r 0 := by
      by_cases h0 : tableN d s x r 0 = 0
      · rw [h0]; simp
      · have hsup := tableN_support d s x r 0 h0
        have := h.mono' (show s + 1 ≤ 0 + (r + 1) by omega) (by omega)
        exact mul_nonneg (mul_nonneg (by linarith) (wt_nonneg h _ _ (by omega))) (tableN_nonneg h hs hx1 hx2 r 0 (by omega))
    have z2 : 0 ≤ (x - d.t m) * wt d (r + 1) m * tableN d s x r m := by
      by_cases h0 : tableN d s x r m = 0
      · rw [h0]; simp
      · have hsup := tableN_support d s x r m h0
        have := h.mono' hsup.1 (by omega)
        exact mul_nonneg (mul_nonneg (by linarith) (wt_nonneg h _ _ (by omega))) (tableN_nonneg h hs hx1 hx2 r m (by omega))
    linarith

/-! ## Values -/

/-- The recursion of Cox and de Boor (Cottrell, Hughes, Bazilevs, formulas (2.1), (2.2)); `a/0 = 0`. -/
def coxDeBoor (t : Nat → K) : Nat → Nat → K → K
  | 0, i, x => if t i ≤ x ∧ x < t (i + 1) then 1 else 0
  | p + 1, i, x => (x - t i) / (t (i + p + 1) - t i) * coxDeBoor t p i x
      + (t (i + p + 2) - x) / (t (i + p + 2) - t (i + 1)) * coxDeBoor t p (i + 1) x

theorem tableN_eq_coxDeBoor {d : Dir K} (h : KnotsOK d) {s : Nat} (hs : SpanOK d s) {x : K} (h1 : d.t s ≤ x) (h2 : x < d.t (s + 1))
    (r i : Nat) (hi : i < d.n - r - 1) : tableN d s x r i = coxDeBoor d.t r i x := by
  have hsl := hs.lt
  induction r generalizing i with
  | zero =>
    simp only [tableN, coxDeBoor]
    by_cases hc : i = s
    · subst hc; rw [if_pos rfl, if_pos ⟨h1, h2⟩]
    · rw [if_neg hc, if_neg]
      rintro ⟨c1, c2⟩
      rcases Nat.lt_or_gt_of_ne hc with hlt | hgt
      · have := h.mono' (show i + 1 ≤ s from hlt) (by omega); linarith
      · have := h.mono' (show s + 1 ≤ i from hgt) (by omega); linarith
  | succ r ih =>
    rw [tableN_succ h s x r i hi, coxDeBoor, ih i (by omega), ih (i + 1) (by omega)]
    simp only [wt, div_eq_mul_inv]
    have e1 : i + 1 + (r + 1) = i + r + 2 := by omega
    rw [e1, ← Nat.add_assoc]

theorem sum_map_range (f : Nat → K) (n : Nat) : ((List.range n).map f).sum = ∑ i ∈ range n, f i := by
  induction n with
  | zero => simp
  | succ n ih => rw [List.range_succ, List.map_append, List.sum_append, ih, sum_range_succ]; simp

/-- Sum over the values handed out is the sum over all functions. -/
theorem values1_sum {d : Dir K} (h : KnotsOK d) {s : Nat} (hs : SpanOK d s) (x : K) :
    (values1 d s x).sum = ∑ i ∈ range (dirSize d), tableN d s x d.order i := by
  have hsl := hs.lt
  have hr := localSize_range d h.size s hsl
  have hp := localSize_pos d h.size s hsl
  have e : (values1 d s x).sum = ∑ i ∈ range (localSize d s), tableN d s x d.order (firstIndex d s + i) := by
    exact sum_map_range _ _
  rw [e]
  have e2 : range (dirSize d) = (range (dirSize d)) := rfl
  rw [← Finset.sum_image (s := range (localSize d s)) (g := fun i => firstIndex d s + i) (f := fun i => tableN d s x d.order i)
    (by intro a _ b _ hab; simpa using hab)]
  apply Finset.sum_subset
  · intro g hg
    obtain ⟨i, hi, rfl⟩ := mem_image.mp hg
    rw [mem_range] at hi ⊢
    exact ((hr (firstIndex d s + i)).mp ⟨by omega, by omega⟩).2.2
  · intro g hg hng
    by_contra hc
    have hsup := tableN_support d s x d.order g hc
    obtain ⟨a, b⟩ := (hr g).mpr ⟨hsup.1, hsup.2, mem_range.mp hg⟩
    exact hng (mem_image.mpr ⟨g - firstIndex d s, mem_range.mpr (by omega), by omega⟩)

/-- C27: on a non-degenerate knot span the values handed out are nonnegative, sum to at most one and, if the span is
an inner one (always true for open knot vectors), to one. Value number `k` is the function with index
`firstIndex + k` of Cox and de Boor, and all functions not handed out vanish. -/
theorem C27_values (d : Dir K) (h : KnotsOK d) (s : Nat) (hs : SpanOK d s) (x : K) (h1 : d.t s ≤ x) (h2 : x ≤ d.t (s + 1)) :
    (values1 d s x).length = localSize d s ∧
    (∀ v ∈ values1 d s x, 0 ≤ v) ∧
    (values1 d s x).sum ≤ 1 ∧
    (d.order ≤ s → s + d.order + 2 ≤ d.n → (values1 d s x).sum = 1) ∧
    (x < d.t (s + 1) → ∀ i < dirSize d,
      coxDeBoor d.t d.order i x =
        if firstIndex d s ≤ i then (values1 d s x).getD (i - firstIndex d s) 0 else 0) := by
  have hsl := hs.lt
  have hsz := h.size
  have hr := localSize_range d h.size s hsl
  refine ⟨by simp [values1], ?_, ?_, ?_, ?_⟩
  · intro v hv
    simp only [values1, List.mem_map, List.mem_range] at hv
    obtain ⟨i, hi, rfl⟩ := hv
    have := ((hr (firstIndex d s + i)).mp ⟨by omega, by omega⟩).2.2
    exact tableN_nonneg h hs h1 h2 _ _ (by simp only [dirSize] at this; omega)
  · rw [values1_sum h hs]
    exact tableN_sum_le h hs h1 h2 _ _ (by simp only [dirSize]; omega)
  · intro g1 g2
    rw [values1_sum h hs]
    exact tableN_sum h hs x _ _ (by simp only [dirSize]; omega) g1 g2
  · intro hx i hi
    rw [← tableN_eq_coxDeBoor h hs h1 hx d.order i (by simp only [dirSize] at hi; omega)]
    split
    · next hf =>
      by_cases hlt : i - firstIndex d s < localSize d s
      · simp only [values1, List.getD_eq_getElem?_getD, List.getElem?_map, List.getElem?_range hlt, Option.map_some,
          Option.getD_some]
        congr 1; omega
      · simp only [values1, List.getD_eq_getElem?_getD, List.getElem?_map]
        rw [List.getElem?_eq_none (by simp; omega)]
        simp only [Option.map_none, Option.getD_none]
        by_contra hc
        have hsup := tableN_support d s x d.order i hc
        have := (hr i).mpr ⟨hsup.1, hsup.2, hi⟩
        omega
    · next hf =>
      by_contra hc
      have hsup := tableN_support d s x d.order i hc
      have := (hr i).mpr ⟨hsup.1, hsup.2, hi⟩
      omega

/-- Quadratic splines on `[0,1,3]`, open. -/
def exDir : Dir ℚ := ⟨2, [0, 0, 0, 1, 3, 3, 3]⟩
theorem exDir_OK : KnotsOK exDir := by
  refine ⟨by decide, ?_, ?_⟩ <;> intro i hi <;>
  · have : i = 0 ∨ i = 1 ∨ i = 2 ∨ i = 3 ∨ i = 4 ∨ i = 5 := by simp [Dir.n, exDir] at hi; omega
    rcases this with rfl | rfl | rfl | rfl | rfl | rfl <;> norm_num [Dir.t, exDir]
theorem exDir_span : SpanOK exDir 3 := ⟨by decide, by norm_num [Dir.t, exDir]⟩

example : (values1 exDir 3 2).sum = 1 :=
  (C27_values exDir exDir_OK 3 exDir_span 2 (by norm_num [Dir.t, exDir]) (by norm_num [Dir.t, exDir])).2.2.2.1
    (by decide) (by decide)
example : values1 exDir 3 2 = [1 / 6, 7 / 12, 1 / 4] := by norm_num [values1, exDir, localSize, firstIndex, tableN, Dir.n, Dir.t, List.range, List.range.loop]

/-- Knots that are different but closer than the threshold `1e-10`: the values do not sum to one. -/
theorem C27_threshold_false :
    let d : Dir ℚ := ⟨1, [0, 0, 1 / 10 ^ 11, 1 / 10 ^ 11]⟩
    d.order ≤ 1 ∧ 1 + d.order + 2 ≤ d.n ∧ d.t 1 < d.t 2 ∧ (values1 d 1 0).sum = 0 := by
  decide +kernel

/-! ## Derivatives -/

/-- The functions of the table as polynomials. -/
noncomputable def polyN (d : Dir K) (s : Nat) : Nat → Nat → K[X]
  | 0, i => if i = s then 1 else 0
  | r + 1, i => (X - C (d.t i)) * C (wt d (r + 1) i) * polyN d s r i +
      (C (d.t (i + 1 + (r + 1))) - X) * C (wt d (r + 1) (i + 1)) * polyN d s r (i + 1)

theorem polyN_eval {d : Dir K} (h : KnotsOK d) (s : Nat) (x : K) (r i : Nat) (hi : i < d.n - r - 1) :
    (polyN d s r i).eval x = tableN d s x r i := by
  induction r generalizing i with
  | zero => simp only [polyN, tableN]; split <;> simp
  | succ r ih =>
    rw [tableN_succ h s x r i hi, polyN]
    simp only [eval_add, eval_mul, eval_sub, eval_X, eval_C]
    rw [ih i (by omega), ih (i + 1) (by omega)]

theorem wt_mul {d : Dir K} (r i : Nat) (hne : d.t (i + r) ≠ d.t i) : wt d r i * (d.t (i + r) - d.t i) = 1 :=
  inv_mul_cancel₀ (sub_ne_zero.mpr hne)

/-- Derivatives of B-splines by lower order B-splines. -/
theorem polyN_derivative {d : Dir K} (h : KnotsOK d) (s : Nat) (r i : Nat) (hi : i < d.n - (r + 1) - 1) :
    derivative (polyN d s (r + 1) i) = C ((r : K) + 1) *
      (C (wt d (r + 1) i) * polyN d s r i - C (wt d (r + 1) (i + 1)) * polyN d s r (i + 1)) := by
  induction r generalizing i with
  | zero =>
    have e : ∀ j, derivative (polyN d s 0 j) = 0 := by
      intro j; simp only [polyN]; split <;> simp
    have e0 : polyN d s (0 + 1) i = (X - C (d.t i)) * C (wt d (0 + 1) i) * polyN d s 0 i +
      (C (d.t (i + 1 + (0 + 1))) - X) * C (wt d (0 + 1) (i + 1)) * polyN d s 0 (i + 1) := rfl
    rw [e0]
    simp only [derivative_add, derivative_mul, derivative_sub, derivative_X, derivative_C, e]
    simp only [Nat.cast_zero, zero_add, map_one]
    ring
  | succ r ih =>
    rw [polyN]
    simp only [derivative_add, derivative_mul, derivative_sub, derivative_X, derivative_C]
    rw [ih i (by omega), ih (i + 1) (by omega)]
    have key : C (wt d (r + 1) (i + 1)) *
        (C (wt d (r + 2) i) * (C (d.t (i + (r + 2))) - C (d.t i)) -
         C (wt d (r + 2) (i + 1)) * (C (d.t (i + 1 + (r + 2))) - C (d.t (i + 1)))) = (0 : K[X]) := by
      by_cases hw : d.t (i + 1 + (r + 1)) = d.t (i + 1)
      · have : wt d (r + 1) (i + 1) = 0 := by simp [wt, hw]
        rw [this]; simp
      · have m1 := h.mono' (show i ≤ i + 1 by omega) (by omega)
        have m2 := h.mono' (show i + 1 ≤ i + 1 + (r + 1) by omega) (by omega)
        have m3 := h.mono' (show i + 1 + (r + 1) ≤ i + 1 + (r + 2) by omega) (by omega)
        have hlt := lt_of_le_of_ne m2 (Ne.symm hw)
        have e : i + (r + 2) = i + 1 + (r + 1) := by omega
        have a1 : wt d (r + 2) i * (d.t (i + (r + 2)) - d.t i) = 1 := wt_mul _ _ (by rw [e]; exact ne_of_gt (by linarith))
        have a2 : wt d (r + 2) (i + 1) * (d.t (i + 1 + (r + 2)) - d.t (i + 1)) = 1 := wt_mul _ _ (ne_of_gt (by linarith))
        rw [← C_sub, ← C_sub, ← C_mul, ← C_mul, a1, a2]; simp
    have e1 : polyN d s (r + 1) i = (X - C (d.t i)) * C (wt d (r + 1) i) * polyN d s r i +
      (C (d.t (i + 1 + (r + 1))) - X) * C (wt d (r + 1) (i + 1)) * polyN d s r (i + 1) := rfl
    have e2 : polyN d s (r + 1) (i + 1) = (X - C (d.t (i + 1))) * C (wt d (r + 1) (i + 1)) * polyN d s r (i + 1) +
      (C (d.t (i + 1 + 1 + (r + 1))) - X) * C (wt d (r + 1) (i + 1 + 1)) * polyN d s r (i + 1 + 1) := rfl
    rw [e1, e2]
    have e3 : i + 1 + 1 + (r + 1) = i + 1 + (r + 2) := by omega
    have e4 : i + (r + 2) = i + 1 + (r + 1) := by omega
    rw [e4] at key
    rw [e3]
    have e5 : r + 1 + 1 = r + 2 := rfl
    rw [e5]
    have e6 : C (((r + 1 : Nat) : K) + 1) = C ((r : K) + 1) + 1 := by rw [Nat.cast_add, Nat.cast_one, C_add, C_1]
    rw [e6]
    linear_combination (-C ((r : K) + 1) * polyN d s r (i + 1)) * key

/-- Division with the `isnan` test is multiplication with the weight. -/
theorem nanDiv_table {d : Dir K} (h : KnotsOK d) {s : Nat} (hs : SpanOK d s) (x : K) (r j : Nat) (hj : j + (r + 1) < d.n) :
    nanDiv (tableN d s x r j) (d.t (j + (r + 1)) - d.t j) = some (wt d (r + 1) j * tableN d s x r j) := by
  have hsl := hs.lt
  simp only [nanDiv, wt]
  split
  · next h0 =>
    have : tableN d s x r j = 0 := by
      by_contra hc
      have hsup := tableN_support d s x r j hc
      have m1 := h.mono' hsup.1 (by omega)
      have m2 := h.mono' (show s + 1 ≤ j + (r + 1) by omega) hj
      have := hs.pos
      linarith
    rw [this]; simp
  · rw [div_eq_mul_inv, mul_comm]

theorem derivs1_eq {d : Dir K} (h : KnotsOK d) {s : Nat} (hs : SpanOK d s) (x : K) :
    derivs1 d s x = (List.range (localSize d s)).map fun k =>
      some ((derivative (polyN d s d.order (firstIndex d s + k))).eval x) := by
  have hsl := hs.lt
  have hsz := h.size
  have hr := localSize_range d h.size s hsl
  apply List.map_congr_left
  intro k hk
  rw [List.mem_range] at hk
  have hk' := ((hr (firstIndex d s + k)).mp ⟨by omega, by omega⟩).2.2
  simp only [dirSize] at hk'
  generalize firstIndex d s + k = j at *
  by_cases h0 : d.order = 0
  · rw [if_pos h0, h0]
    simp only [polyN]; split <;> simp
  · rw [if_neg h0]
    obtain ⟨r, hr'⟩ : ∃ r, d.order = r + 1 := ⟨d.order - 1, by omega⟩
    simp only [hr', Nat.add_sub_cancel] at hk' ⊢
    rw [polyN_derivative h s r j (by omega), nanDiv_table h hs x r j (by omega)]
    have e : j + (r + 1) + 1 = j + 1 + (r + 1) := by omega
    rw [e, nanDiv_table h hs x r (j + 1) (by omega)]
    simp only [Option.bind_some, eval_mul, eval_sub, eval_C, Nat.cast_add, Nat.cast_one]
    rw [polyN_eval h s x r j (by omega), polyN_eval h s x r (j + 1) (by omega)]

theorem nanDiv_zero {a b A : K} (h : nanDiv a b = some A) (hb : b = 0) : a = 0 := by
  unfold nanDiv at h
  rw [if_pos hb] at h
  by_contra hc
  simp [hc] at h

theorem nanDiv2_eq {a b c A B : K} (h1 : nanDiv a c = some A) (h2 : nanDiv a b = some B) :
    nanDiv2 a b c = some (b⁻¹ * (c⁻¹ * a)) := by
  have h1 := nanDiv_zero h1
  have h2 := nanDiv_zero h2
  unfold nanDiv2 nanDiv
  by_cases hb : b = 0
  · simp [hb, h2 hb]
  · by_cases hc : c = 0
    · simp [hb, hc, h1 hc]
    · simp only [hb, hc, if_false, div_eq_mul_inv]
      congr 1
      ring

theorem seconds1_eq {d : Dir K} (h : KnotsOK d) {s : Nat} (hs : SpanOK d s) (x : K) :
    seconds1 d s x = (List.range (localSize d s)).map fun k =>
      some ((derivative (derivative (polyN d s d.order (firstIndex d s + k)))).eval x) := by
  have hsl := hs.lt
  have hsz := h.size
  have hr := localSize_range d h.size s hsl
  apply List.map_congr_left
  intro k hk
  rw [List.mem_range] at hk
  have hk' := ((hr (firstIndex d s + k)).mp ⟨by omega, by omega⟩).2.2
  simp only [dirSize] at hk'
  generalize firstIndex d s + k = j at *
  by_cases h0 : d.order = 0
  · rw [if_pos (by omega), h0]
    simp only [polyN]; split <;> simp
  by_cases h1 : d.order = 1
  · rw [if_pos (by omega), h1]
    rw [h1] at hk'
    rw [polyN_derivative h s 0 j (by omega)]
    have e : ∀ j, derivative (polyN d s 0 j) = 0 := by
      intro j; simp only [polyN]; split <;> simp
    simp [e]
  · rw [if_neg (by omega)]
    obtain ⟨r, hr'⟩ : ∃ r, d.order = r + 2 := ⟨d.order - 2, by omega⟩
    simp only [hr', Nat.add_sub_cancel] at hk' ⊢
    have z : ∀ i a b, i + (r + 1) < d.n → a ≤ i → i + (r + 1) ≤ b → b < d.n →
        ∃ A, nanDiv (tableN d s x r i) (d.t b - d.t a) = some A := by
      intro i a b hi ha hb hbn
      by_cases hz : d.t b - d.t a = 0
      · have : tableN d s x r i = 0 := by
          by_contra hc
          have hsup := tableN_support d s x r i hc
          have m1 := h.mono' (le_trans ha hsup.1) (by omega)
          have m2 := h.mono' (show s + 1 ≤ b by omega) hbn
          have := hs.pos
          linarith
        exact ⟨0, by simp [nanDiv, hz, this]⟩
      · exact ⟨_, by simp only [nanDiv, hz, if_false]; rfl⟩
    rw [polyN_derivative h s (r + 1) j (by omega)]
    have e1 : j + (r + 2) - 1 = j + (r + 1) := by omega
    have e2 : j + (r + 2) + 1 = j + 1 + (r + 2) := by omega
    have e3 : j + (r + 2) = j + 1 + (r + 1) := by omega
    have e4 : j + 1 + (r + 2) = j + 2 + (r + 1) := by omega
    obtain ⟨A1, hA1⟩ := z j j (j + (r + 2)) (by omega) (by omega) (by omega) (by omega)
    obtain ⟨A2, hA2⟩ := z (j + 1) j (j + (r + 2)) (by omega) (by omega) (by omega) (by omega)
    obtain ⟨A3, hA3⟩ := z (j + 1) (j + 1) (j + 1 + (r + 2)) (by omega) (by omega) (by omega) (by omega)
    obtain ⟨A4, hA4⟩ := z (j + 2) (j + 1) (j + 1 + (r + 2)) (by omega) (by omega) (by omega) (by omega)
    have b1 := nanDiv_table h hs x r j (by omega)
    have b2 := nanDiv_table h hs x r (j + 1) (by omega)
    have b3 := nanDiv_table h hs x r (j + 2) (by omega)
    rw [← e3] at b2
    rw [← e4] at b3
    rw [e1, e2, nanDiv2_eq b1 hA1, nanDiv2_eq b2 hA2, nanDiv2_eq b2 hA3, nanDiv2_eq b3 hA4]
    simp only [Option.bind_some, derivative_mul, derivative_C, derivative_sub, zero_mul, zero_add]
    rw [polyN_derivative h s r j (by omega), polyN_derivative h s r (j + 1) (by omega)]
    simp only [eval_mul, eval_sub, eval_C, Nat.cast_add, Nat.cast_one, Nat.cast_ofNat]
    rw [polyN_eval h s x r j (by omega), polyN_eval h s x r (j + 1) (by omega), polyN_eval h s x r (j + 1 + 1) (by omega)]
    congr 1
    simp only [wt]
    have f3 : j + 1 + (r + 1) = j + (r + 2) := by omega
    have f4 : j + 1 + 1 + (r + 1) = j + 1 + (r + 2) := by omega
    rw [f3, f4]
    ring

/-- C28 in one direction: on a non-degenerate knot span value number `k` is a polynomial in the point, and the first and
second derivatives handed out are the derivatives of this polynomial; none of them is infinite. -/
theorem C28_derivatives (d : Dir K) (h : KnotsOK d) (s : Nat) (hs : SpanOK d s) (k : Nat) (hk : k < localSize d s) :
    ∃ p : K[X], ∀ x, (values1 d s x)[k]? = some (p.eval x) ∧
      (derivs1 d s x)[k]? = some (some (p.derivative.eval x)) ∧
      (seconds1 d s x)[k]? = some (some (p.derivative.derivative.eval x)) := by
  have hsl := hs.lt
  have hsz := h.size
  have hr := localSize_range d h.size s hsl
  have hk' := ((hr (firstIndex d s + k)).mp ⟨by omega, by omega⟩).2.2
  simp only [dirSize] at hk'
  refine ⟨polyN d s d.order (firstIndex d s + k), fun x => ⟨?_, ?_, ?_⟩⟩
  · simp only [values1, List.getElem?_map, List.getElem?_range hk, Option.map_some]
    rw [polyN_eval h s x _ _ (by omega)]
  · rw [derivs1_eq h hs]; simp only [List.getElem?_map, List.getElem?_range hk, Option.map_some]
  · rw [seconds1_eq h hs]; simp only [List.getElem?_map, List.getElem?_range hk, Option.map_some]

example : ∃ p : ℚ[X], ∀ x, (values1 exDir 3 x)[1]? = some (p.eval x) ∧
      (derivs1 exDir 3 x)[1]? = some (some (p.derivative.eval x)) ∧
      (seconds1 exDir 3 x)[1]? = some (some (p.derivative.derivative.eval x)) :=
  C28_derivatives exDir exDir_OK 3 exDir_span 1 (by decide)
example : derivs1 exDir 3 2 = [some (-1 / 3), some (-1 / 6), some (1 / 2)] := by decide +kernel

/-! ## Smoothness across knots -/

/-- Values from the left and from the right of a knot of multiplicity `m` agree for all degrees `r ≥ m`. -/
theorem tableN_left_right {d : Dir K} (h : KnotsOK d) {s s' : Nat} (hs : SpanOK d s) (hs' : SpanOK d s')
    (hlt : s < s') (hτ : ∀ q, s < q → q ≤ s' → d.t q = d.t s') (r i : Nat) (hr : s' - s ≤ r) (hi : i < d.n - r - 1) :
    tableN d s (d.t s') r i = tableN d s' (d.t s') r i := by
  have hsl := hs.lt
  have hsl' := hs'.lt
  have h1 := hτ (s + 1) (by omega) (by omega)
  have hp := hs.pos
  have hp' := hs'.pos
  have left : ∀ r, r ≤ s' - s → ∀ i, i < d.n - r - 1 → tableN d s (d.t s') r i = if i = s then 1 else 0 := by
    intro r
    induction r with
    | zero => intro _ i _; rw [tableN]
    | succ r ih =>
      intro hr i hi
      rw [tableN_succ h s _ r i hi, ih (by omega) i (by omega), ih (by omega) (i + 1) (by omega)]
      by_cases c1 : i = s
      · subst c1
        rw [if_pos rfl, if_neg (by omega)]
        have e := hτ (i + (r + 1)) (by omega) (by omega)
        rw [← e, mul_comm (d.t (i + (r + 1)) - d.t i), wt_mul _ _ (by rw [e, ← h1]; exact ne_of_gt hp)]; simp
      · rw [if_neg c1]
        by_cases c2 : i + 1 = s
        · rw [if_pos c2, c2, hτ (s + (r + 1)) (by omega) (by omega)]; simp
        · rw [if_neg c2]; simp
  have right : ∀ r, r ≤ s' - s → ∀ i, i < d.n - r - 1 → tableN d s' (d.t s') r i = if i + r = s' then 1 else 0 := by
    intro r
    induction r with
    | zero => intro _ i _; rw [tableN]; rfl
    | succ r ih =>
      intro hr i hi
      rw [tableN_succ h s' _ r i hi, ih (by omega) i (by omega), ih (by omega) (i + 1) (by omega)]
      by_cases c1 : i + r = s'
      · rw [if_pos c1, if_neg (by omega), if_neg (by omega), hτ i (by omega) (by omega)]; simp
      · rw [if_neg c1]
        by_cases c2 : i + 1 + r = s'
        · rw [if_pos c2, if_pos (by omega)]
          have e := hτ (i + 1) (by omega) (by omega)
          have e2 : i + 1 + (r + 1) = s' + 1 := by omega
          have := wt_mul (d := d) (r + 1) (i + 1) (by rw [e, e2]; exact ne_of_gt hp')
          rw [e] at this
          rw [mul_comm (d.t (i + 1 + (r + 1)) - d.t s'), this]; simp
        · rw [if_neg c2, if_neg (by omega)]; simp
  obtain ⟨q, rfl⟩ := Nat.exists_eq_add_of_le hr
  clear hr
  induction q generalizing i with
  | zero =>
    rw [Nat.add_zero] at hi ⊢
    rw [left _ (Nat.le_refl _) i hi, right _ (Nat.le_refl _) i hi]
    by_cases c : i = s
    · rw [if_pos c, if_pos (by omega)]
    · rw [if_neg c, if_neg (by omega)]
  | succ q ih =>
    rw [← Nat.add_assoc] at hi ⊢
    rw [tableN_succ h s _ _ i hi, tableN_succ h s' _ _ i hi, ih i (by omega), ih (i + 1) (by omega)]

/-- Value number of function `i` on knot span `s` in the list `l`; functions not handed out have value zero. -/
def ofIndex (d : Dir K) (s : Nat) (l : List K) (i : Nat) : K :=
  if firstIndex d s ≤ i then l.getD (i - firstIndex d s) 0 else 0

theorem ofIndex_map {d : Dir K} (h : KnotsOK d) {s : Nat} (hs : SpanOK d s) (f : Nat → K) (i : Nat) (hi : i < dirSize d)
    (h0 : ¬ (i ≤ s ∧ s ≤ i + d.order) → f i = 0) :
    ofIndex d s ((List.range (localSize d s)).map fun k => f (firstIndex d s + k)) i = f i := by
  have hr := localSize_range d h.size s hs.lt i
  unfold ofIndex
  split
  · next hf =>
    by_cases hlt : i - firstIndex d s < localSize d s
    · simp only [List.getD_eq_getElem?_getD, List.getElem?_map, List.getElem?_range hlt, Option.map_some, Option.getD_some]
      congr 1; omega
    · rw [h0 (by intro hc; have := hr.mpr ⟨hc.1, hc.2, hi⟩; omega)]
      rw [List.getD_eq_getElem?_getD, List.getElem?_eq_none (by simp; omega)]; rfl
  · next hf =>
    rw [h0 (by intro hc; have := hr.mpr ⟨hc.1, hc.2, hi⟩; omega)]

/-- Two neighbouring elements: the knot between them has multiplicity `s' - s`. -/
structure Neighbours (d : Dir K) (s s' : Nat) : Prop where
  left : SpanOK d s
  right : SpanOK d s'
  lt : s < s'
  same : ∀ q, s < q → q ≤ s' → d.t q = d.t s'

theorem polyN_support (d : Dir K) (s : Nat) (r i : Nat) (h : ¬ (i ≤ s ∧ s ≤ i + r)) : polyN d s r i = 0 := by
  induction r generalizing i with
  | zero => simp only [polyN]; rw [if_neg (by omega)]
  | succ r ih => rw [polyN, ih i (by omega), ih (i + 1) (by omega)]; simp

/-- C59: at a knot of multiplicity `m` the B-splines of order `p` are continuous if `m ≤ p`, continuously differentiable if
`m ≤ p - 1` and twice so if `m ≤ p - 2`: values and derivatives handed out by the two elements agree. -/
theorem C59_smooth (d : Dir K) (h : KnotsOK d) (s s' : Nat) (hn : Neighbours d s s') (i : Nat) (hi : i < dirSize d) :
    (s' - s ≤ d.order → ofIndex d s (values1 d s (d.t s')) i = ofIndex d s' (values1 d s' (d.t s')) i) ∧
    (s' - s + 1 ≤ d.order → ∃ l l', derivs1 d s (d.t s') = l.map some ∧ derivs1 d s' (d.t s') = l'.map some ∧
      ofIndex d s l i = ofIndex d s' l' i) ∧
    (s' - s + 2 ≤ d.order → ∃ l l', seconds1 d s (d.t s') = l.map some ∧ seconds1 d s' (d.t s') = l'.map some ∧
      ofIndex d s l i = ofIndex d s' l' i) := by
  have hsz := h.size
  have hi' := hi
  simp only [dirSize] at hi'
  have key : ∀ r j, s' - s ≤ r → j < d.n - r - 1 → (polyN d s r j).eval (d.t s') = (polyN d s' r j).eval (d.t s') := by
    intro r j hr hj
    rw [polyN_eval h s _ r j hj, polyN_eval h s' _ r j hj]
    exact tableN_left_right h hn.left hn.right hn.lt hn.same r j hr hj
  refine ⟨fun hm => ?_, fun hm => ?_, fun hm => ?_⟩
  · unfold values1
    rw [ofIndex_map h hn.left (fun j => tableN d s (d.t s') d.order j) i hi
        (fun hc => by by_contra h0; exact hc (tableN_support _ _ _ _ _ h0)),
      ofIndex_map h hn.right (fun j => tableN d s' (d.t s') d.order j) i hi
        (fun hc => by by_contra h0; exact hc (tableN_support _ _ _ _ _ h0))]
    exact tableN_left_right h hn.left hn.right hn.lt hn.same _ i hm (by omega)
  · refine ⟨(List.range (localSize d s)).map fun k => ((derivative (polyN d s d.order (firstIndex d s + k))).eval (d.t s')),
      (List.range (localSize d s')).map fun k => ((derivative (polyN d s' d.order (firstIndex d s' + k))).eval (d.t s')),
      by rw [derivs1_eq h hn.left, List.map_map]; rfl, by rw [derivs1_eq h hn.right, List.map_map]; rfl, ?_⟩
    rw [ofIndex_map h hn.left (fun j => (derivative (polyN d s d.order j)).eval (d.t s')) i hi
        (fun hc => by rw [polyN_support _ _ _ _ hc]; simp),
      ofIndex_map h hn.right (fun j => (derivative (polyN d s' d.order j)).eval (d.t s')) i hi
        (fun hc => by rw [polyN_support _ _ _ _ hc]; simp)]
    obtain ⟨r, hr⟩ : ∃ r, d.order = r + 1 := ⟨d.order - 1, by omega⟩
    rw [hr] at hi' hm ⊢
    rw [polyN_derivative h s r i (by omega), polyN_derivative h s' r i (by omega)]
    simp only [eval_mul, eval_sub, eval_C]
    rw [key r i (by omega) (by omega), key r (i + 1) (by omega) (by omega)]
  · refine ⟨(List.range (localSize d s)).map fun k =>
        ((derivative (derivative (polyN d s d.order (firstIndex d s + k)))).eval (d.t s')),
      (List.range (localSize d s')).map fun k =>
        ((derivative (derivative (polyN d s' d.order (firstIndex d s' + k)))).eval (d.t s')),
      by rw [seconds1_eq h hn.left, List.map_map]; rfl, by rw [seconds1_eq h hn.right, List.map_map]; rfl, ?_⟩
    rw [ofIndex_map h hn.left (fun j => (derivative (derivative (polyN d s d.order j))).eval (d.t s')) i hi
        (fun hc => by rw [polyN_support _ _ _ _ hc]; simp),
      ofIndex_map h hn.right (fun j => (derivative (derivative (polyN d s' d.order j))).eval (d.t s')) i hi
        (fun hc => by rw [polyN_support _ _ _ _ hc]; simp)]
    obtain ⟨r, hr⟩ : ∃ r, d.order = r + 2 := ⟨d.order - 2, by omega⟩
    rw [hr] at hi' hm ⊢
    rw [polyN_derivative h s (r + 1) i (by omega), polyN_derivative h s' (r + 1) i (by omega)]
    simp only [derivative_mul, derivative_C, derivative_sub, zero_mul, zero_add]
    rw [polyN_derivative h s r i (by omega), polyN_derivative h s' r i (by omega),
      polyN_derivative h s r (i + 1) (by omega), polyN_derivative h s' r (i + 1) (by omega)]
    simp only [eval_mul, eval_sub, eval_C]
    rw [key r i (by omega) (by omega), key r (i + 1) (by omega) (by omega), key r (i + 1 + 1) (by omega) (by omega)]

example : ofIndex exDir 2 (values1 exDir 2 1) 1 = ofIndex exDir 3 (values1 exDir 3 1) 1 ∧
    ofIndex exDir 2 (values1 exDir 2 1) 1 = 2 / 3 := by decide +kernel

end Verif.BSpline

import Verif.BSpline.Values
import Mathlib.Algebra.BigOperators.Ring.List
import Mathlib.Algebra.Polynomial.Eval.Defs

/-!
# Tensor product B-splines: values and derivatives in several directions (C27, C28)
-/

set_option linter.unusedSectionVars false

namespace Verif.BSpline

open Polynomial

variable {K : Type} [Field K] [LinearOrder K] [IsStrictOrderedRing K]

/-! ## The loop over the multi digit counter -/

/-- Product of possibly infinite numbers. -/
def omul (a b : Option K) : Option K := a.bind fun x => b.map fun y => x * y

theorem omul_one (a : Option K) : omul (some 1) a = a := by cases a <;> simp [omul]
theorem omul_assoc (a b c : Option K) : omul (omul a b) c = omul a (omul b c) := by
  cases a <;> cases b <;> cases c <;> simp [omul, mul_assoc]

theorem foldl_omul (l : List (Option K)) (a : Option K) :
    l.foldl (fun r f => r.bind fun x => f.map fun y => x * y) a =
      omul a (l.foldl (fun r f => r.bind fun x => f.map fun y => x * y) (some 1)) := by
  induction l generalizing a with
  | nil => cases a <;> simp [omul]
  | cons b l ih =>
    rw [List.foldl_cons, ih, List.foldl_cons, ih (((some 1).bind fun x => b.map fun y => x * y))]
    change omul (omul a b) _ = omul a (omul (omul (some 1) b) _)
    rw [omul_one, omul_assoc]

/-- All products, first factor fastest. -/
def products : List (List (Option K)) → List (Option K)
  | [] => [some 1]
  | f :: fs => (products fs).flatMap fun b => f.map fun a => omul a b

theorem range_mul (l m : Nat) : List.range (l * m) = (List.range m).flatMap fun q => (List.range l).map fun r => l * q + r := by
  induction m with
  | zero => simp
  | succ m ih =>
    rw [Nat.mul_succ, List.range_add, ih, List.range_succ, List.flatMap_append]
    simp

theorem map_getD_range (f : List (Option K)) : (List.range f.length).map (fun r => f.getD r none) = f := by
  apply List.ext_getElem
  · simp
  · intro i h1 h2; simp [List.getD_eq_getElem?_getD, h2]

theorem tensor_eq (fs : List (List (Option K))) (h : ∀ f ∈ fs, 0 < f.length) : tensor fs = products fs := by
  have hpos : ∀ l ∈ fs.map List.length, 0 < l := by
    intro l hl; obtain ⟨f, hf, rfl⟩ := List.mem_map.mp hl; exact h f hf
  unfold tensor
  simp only [foldl_mul, Nat.one_mul, counterAt_eq _ hpos]
  clear h hpos
  suffices hs : ∀ fs : List (List (Option K)), (List.range (fs.map List.length).prod).map (fun i =>
      (List.zipWith (fun (f : List (Option K)) c => f.getD c none) fs (getIJK i (fs.map List.length))).foldl
        (fun r f => r.bind fun a => f.map fun b => a * b) (some 1)) = products fs from hs fs
  intro fs
  induction fs with
  | nil => simp [products]
  | cons f fs ih =>
    rw [List.map_cons, List.prod_cons, range_mul, List.map_flatMap, products, ← ih, List.flatMap_map]
    congr 1
    funext q
    rw [List.map_map]
    conv_rhs => rw [← map_getD_range f, List.map_map]
    apply List.map_congr_left
    intro r hr
    rw [List.mem_range] at hr
    simp only [Function.comp, getIJK, List.zipWith_cons_cons, List.foldl_cons]
    rw [Nat.mul_add_mod, Nat.mod_eq_of_lt hr, Nat.mul_add_div (by omega), Nat.div_eq_of_lt hr, Nat.add_zero, foldl_omul]
    change omul (omul (some 1) (f.getD r none)) _ = _
    rw [omul_one]

theorem products_length (fs : List (List (Option K))) : (products fs).length = (fs.map List.length).prod := by
  induction fs with
  | nil => rfl
  | cons f fs ih =>
    rw [products, List.length_flatMap, List.map_cons, List.prod_cons]
    simp only [List.length_map, List.map_const', List.sum_replicate, ih, smul_eq_mul]
    rw [Nat.mul_comm]

/-- Entry number `k` is the product of the entries given by the digits of `k`. -/
theorem tensor_get (fs : List (List (Option K))) (h : ∀ f ∈ fs, 0 < f.length) (k : Nat) (hk : k < (fs.map List.length).prod) :
    (tensor fs)[k]? = some ((List.zipWith (fun (f : List (Option K)) c => f.getD c none) fs
      (getIJK k (fs.map List.length))).foldr omul (some 1)) := by
  have hpos : ∀ l ∈ fs.map List.length, 0 < l := by
    intro l hl; obtain ⟨f, hf, rfl⟩ := List.mem_map.mp hl; exact h f hf
  have hf : ∀ l : List (Option K), l.foldl (fun r f => r.bind fun a => f.map fun b => a * b) (some 1) = l.foldr omul (some 1) := by
    intro l
    induction l with
    | nil => rfl
    | cons a l ih =>
      rw [List.foldl_cons, foldl_omul, ih, List.foldr_cons]
      change omul (omul (some 1) a) _ = _
      rw [omul_one]
  unfold tensor
  simp only [foldl_mul, Nat.one_mul, counterAt_eq _ hpos, hf]
  rw [List.getElem?_map, List.getElem?_range hk]
  rfl

/-! ## Values -/

/-- Products of finite numbers. -/
def productsK : List (List K) → List K
  | [] => [1]
  | f :: fs => (productsK fs).flatMap fun b => f.map fun a => a * b

theorem products_some (fs : List (List K)) : products (fs.map fun f => f.map some) = (productsK fs).map some := by
  induction fs with
  | nil => rfl
  | cons f fs ih =>
    rw [List.map_cons, products, ih, productsK, List.map_flatMap, List.flatMap_map]
    simp only [List.map_map]
    congr 1

theorem productsK_sum (fs : List (List K)) : (productsK fs).sum = (fs.map List.sum).prod := by
  induction fs with
  | nil => simp [productsK]
  | cons f fs ih =>
    rw [productsK, List.map_cons, List.prod_cons, ← ih]
    generalize productsK fs = l
    induction l with
    | nil => simp
    | cons b l ih => rw [List.flatMap_cons, List.sum_append, ih, List.sum_cons, mul_add, List.sum_map_mul_right]; simp

theorem productsK_nonneg (fs : List (List K)) (h : ∀ f ∈ fs, ∀ v ∈ f, 0 ≤ v) : ∀ v ∈ productsK fs, 0 ≤ v := by
  induction fs with
  | nil => simp [productsK]
  | cons f fs ih =>
    intro v hv
    rw [productsK, List.mem_flatMap] at hv
    obtain ⟨b, hb, hv⟩ := hv
    obtain ⟨a, ha, rfl⟩ := List.mem_map.mp hv
    exact mul_nonneg (h f (by simp) a ha) (ih (fun g hg => h g (by simp [hg])) b hb)

/-- One direction of an element. -/
structure ArgOK (a : Arg K) : Prop where
  knots : KnotsOK a.1
  span : SpanOK a.1 a.2.1

theorem toGlobal_mem {a : Arg K} (h : ArgOK a) (h0 : 0 ≤ a.2.2) (h1 : a.2.2 ≤ 1) :
    a.1.t a.2.1 ≤ toGlobal a.1 a.2.1 a.2.2 ∧ toGlobal a.1 a.2.1 a.2.2 ≤ a.1.t (a.2.1 + 1) := by
  have := h.span.pos
  unfold toGlobal
  constructor <;> nlinarith

/-- C27 in several directions: in a point of the reference cube the values on an element are as many as the element has
shape functions, nonnegative, and sum to one if all knot spans are inner ones. -/
theorem C27_tensor (args : List (Arg K)) (hok : ∀ a ∈ args, ArgOK a) (hx : ∀ a ∈ args, 0 ≤ a.2.2 ∧ a.2.2 ≤ 1) :
    ∃ vals : List K, evalValues args = vals.map some ∧
      vals.length = elementSize (args.map (·.1)) (args.map (·.2.1)) ∧ (∀ v ∈ vals, 0 ≤ v) ∧
      ((∀ a ∈ args, a.1.order ≤ a.2.1 ∧ a.2.1 + a.1.order + 2 ≤ a.1.n) → vals.sum = 1) := by
  have hval := fun a (ha : a ∈ args) => C27_values a.1 (hok a ha).knots a.2.1 (hok a ha).span
    (toGlobal a.1 a.2.1 a.2.2) (toGlobal_mem (hok a ha) (hx a ha).1 (hx a ha).2).1 (toGlobal_mem (hok a ha) (hx a ha).1 (hx a ha).2).2
  have e : evalValues args = (productsK (args.map fun a => values1 a.1 a.2.1 (toGlobal a.1 a.2.1 a.2.2))).map some := by
    rw [evalValues, tensor_eq, ← products_some, List.map_map]
    · rfl
    · intro f hf
      obtain ⟨a, ha, rfl⟩ := List.mem_map.mp hf
      simp only [factor, List.length_map, (hval a ha).1]
      exact localSize_pos _ (hok a ha).knots.size _ (hok a ha).span.lt
  refine ⟨_, e, ?_, ?_, ?_⟩
  · have h1 := congrArg List.length e
    rw [List.length_map] at h1
    rw [← h1, evalValues, tensor_eq, products_length, elementSize_eq]
    · congr 1
      rw [List.map_map]
      clear hval e h1 hx hok
      induction args with
      | nil => rfl
      | cons a args ih => simp [factor, values1, ih]
    · intro f hf
      obtain ⟨a, ha, rfl⟩ := List.mem_map.mp hf
      simp only [factor, List.length_map, (hval a ha).1]
      exact localSize_pos _ (hok a ha).knots.size _ (hok a ha).span.lt
  · refine productsK_nonneg _ ?_
    intro f hf
    obtain ⟨a, ha, rfl⟩ := List.mem_map.mp hf
    exact (hval a ha).2.1
  · intro hin
    rw [productsK_sum, List.map_map]
    apply List.prod_eq_one
    intro v hv
    obtain ⟨a, ha, rfl⟩ := List.mem_map.mp hv
    exact (hval a ha).2.2.2.1 (hin a ha).1 (hin a ha).2

example : (evalValues [((exDir, 3, 1 / 2) : Arg ℚ), (exDir, 2, 1 / 2)]).length = 9 := by decide +kernel

/-- Open knot vectors with knots at distance at least `1e-8` fulfil the assumptions. -/
theorem openKnots_OK (p : Nat) (knots : List K) (hm : 2 ≤ knots.length)
    (hg : ∀ i, i + 1 < knots.length → knots.getD i 0 + 1 / 10 ^ 8 ≤ knots.getD (i + 1) 0) :
    KnotsOK (⟨p, openKnots p true knots⟩ : Dir K) := by
  have hne : knots ≠ [] := by rintro rfl; simp at hm
  have hn : (⟨p, openKnots p true knots⟩ : Dir K).n = p + knots.length + p := openKnots_length p knots
  have he : ∀ i, i + 1 < p + knots.length + p →
      (⟨p, openKnots p true knots⟩ : Dir K).t (i + 1) = (⟨p, openKnots p true knots⟩ : Dir K).t i ∨
      (⟨p, openKnots p true knots⟩ : Dir K).t i + 1 / 10 ^ 8 ≤ (⟨p, openKnots p true knots⟩ : Dir K).t (i + 1) := by
    intro i hi
    by_cases hE : p ≤ i ∧ i + 1 < p + knots.length
    · exact Or.inr ((openKnots_elem p knots hg i hi (by omega)).mpr hE)
    · left
      simp only [Dir.t, openKnots_getD p knots hne]
      rw [not_and_or] at hE
      rcases hE with hc | hc
      · rw [if_pos (show i < p by omega)]
        by_cases h1 : i + 1 < p
        · rw [if_pos h1]
        · rw [if_neg h1, if_pos (by omega), show i + 1 - p = 0 by omega]
      · rw [if_neg (show ¬ i + 1 < p by omega), if_neg hc, if_pos hi, if_neg (show ¬ i < p by omega)]
        by_cases h1 : i < p + knots.length
        · rw [if_pos h1, show i - p = knots.length - 1 by omega]
        · rw [if_neg h1, if_pos (show i < p + knots.length + p by omega)]
  have e8 : (1 : K) / 10 ^ 10 < 1 / 10 ^ 8 := by norm_num
  have e10 := eps_pos (K := K) 10
  refine ⟨by rw [hn]; simp only; omega, ?_, ?_⟩
  · intro i hi
    rw [hn] at hi
    rcases he i hi with h | h <;> linarith
  · intro i hi
    rw [hn] at hi
    rcases he i hi with h | h
    · exact Or.inl h
    · right; linarith

/-- C27 for bases with open knot vectors: on every element and in every point of the reference cube the values are
nonnegative, sum to one, and there is one for each index of the element. -/
theorem C27_basis (dirs : List (Nat × List K))
    (h : ∀ x ∈ dirs, 2 ≤ x.2.length ∧ ∀ i, i + 1 < x.2.length → x.2.getD i 0 + 1 / 10 ^ 8 ≤ x.2.getD (i + 1) 0)
    (e : Nat) (he : e < (dirs.map fun x => x.2.length - 1).prod) :
    ∃ ss, elementSpans (dirs.map fun x => (⟨x.1, openKnots x.1 true x.2⟩ : Dir K)) (dirs.map fun x => x.2.length - 1) e = some ss ∧
      ∀ xs : List K, xs.length = dirs.length → (∀ x ∈ xs, 0 ≤ x ∧ x ≤ 1) →
        ∃ vals : List K,
          evalValues ((dirs.map fun x => (⟨x.1, openKnots x.1 true x.2⟩ : Dir K)).zip (ss.zip xs)) = vals.map some ∧
          vals.length = (indices (dirs.map fun x => (⟨x.1, openKnots x.1 true x.2⟩ : Dir K)) ss).length ∧
          (∀ v ∈ vals, 0 ≤ v) ∧ vals.sum = 1 := by
  have hok : List.Forall₂ DirOK (dirs.map fun x => (⟨x.1, openKnots x.1 true x.2⟩ : Dir K)) (dirs.map fun x => x.2.length - 1) := by
    clear he
    induction dirs with
    | nil => exact .nil
    | cons x dirs ih =>
      exact .cons (C26_open x.1 x.2 (h x (by simp)).1 (h x (by simp)).2).1 (ih fun y hy => h y (by simp [hy]))
  have hfacts : ∀ d ∈ dirs.map (fun x => (⟨x.1, openKnots x.1 true x.2⟩ : Dir K)), KnotsOK d ∧
      ∀ e s, spanOf d e = some s → SpanOK d s ∧ d.order ≤ s ∧ s + d.order + 2 ≤ d.n := by
    intro d hd
    obtain ⟨x, hx, rfl⟩ := List.mem_map.mp hd
    refine ⟨openKnots_OK x.1 x.2 (h x hx).1 (h x hx).2, fun e s hs => ⟨?_, (C26_open x.1 x.2 (h x hx).1 (h x hx).2).2.2 e s hs⟩⟩
    obtain ⟨h1, h2, -⟩ := (spanOf_some _ _ _).mp hs
    have := eps_pos (K := K) 8
    exact ⟨h1, by unfold Dir.Elem at h2; linarith⟩
  obtain ⟨ss, hss, hb, hsp⟩ := elementSpans_eq hok e he
  refine ⟨ss, hss, ?_⟩
  have hlen0 : (dirs.map fun x => (⟨x.1, openKnots x.1 true x.2⟩ : Dir K)).length = dirs.length := by simp
  have hlen1 : (dirs.map fun x => x.2.length - 1).length = dirs.length := by simp
  generalize (dirs.map fun x => (⟨x.1, openKnots x.1 true x.2⟩ : Dir K)) = ds at *
  generalize (dirs.map fun x => x.2.length - 1) = elements at *
  intro xs hxs hx
  have hls : ds.length = ss.length := hb.length_eq
  have hargs : ∀ a ∈ ds.zip (ss.zip xs), ArgOK a ∧ (0 ≤ a.2.2 ∧ a.2.2 ≤ 1) ∧ a.1.order ≤ a.2.1 ∧ a.2.1 + a.1.order + 2 ≤ a.1.n := by
    intro a ha
    obtain ⟨k, hk, rfl⟩ := List.mem_iff_getElem.mp ha
    simp only [List.length_zip] at hk
    simp only [List.getElem_zip]
    have hkg : k < (getIJK e elements).length := by rw [getIJK_length]; omega
    have q := hsp k ds[k] _ ss[k] (List.getElem?_eq_getElem (by omega)) (List.getElem?_eq_getElem hkg)
      (List.getElem?_eq_getElem (by omega))
    have f := hfacts ds[k] (List.getElem_mem _)
    exact ⟨⟨f.1, (f.2 _ _ q).1⟩, hx _ (List.getElem_mem _), (f.2 _ _ q).2⟩
  obtain ⟨vals, v1, v2, v3, v4⟩ := C27_tensor (ds.zip (ss.zip xs)) (fun a ha => (hargs a ha).1) (fun a ha => (hargs a ha).2.1)
  refine ⟨vals, v1, ?_, v3, v4 fun a ha => (hargs a ha).2.2⟩
  rw [v2, (C26_element ds ss hb).2.1]
  congr 1
  · exact List.map_fst_zip (by rw [List.length_zip]; omega)
  · have e1 : (fun a : Arg K => a.2.1) = Prod.fst ∘ Prod.snd := rfl
    rw [e1, ← List.map_map, List.map_snd_zip (by rw [List.length_zip]; omega), List.map_fst_zip (by omega)]

/-! ## Derivatives -/

/-- Polynomial of local shape function `g` in one direction. -/
noncomputable def argPoly (a : Arg K) (g : Nat) : K[X] := polyN a.1 a.2.1 a.1.order (firstIndex a.1 a.2.1 + g)

theorem factor_length {a : Arg K} (h : ArgOK a) (x : K) (c : Nat) : (factor a.1 a.2.1 x c).length = localSize a.1 a.2.1 := by
  match c with
  | 0 => simp [factor, values1]
  | 1 => simp [factor, derivs1]
  | _ + 2 => simp [factor, seconds1]

theorem factor_get {a : Arg K} (h : ArgOK a) (x : K) (c : Nat) (hc : c ≤ 2) (g : Nat) (hg : g < localSize a.1 a.2.1) :
    (factor a.1 a.2.1 x c).getD g none = some ((derivative^[c] (argPoly a g)).eval x) := by
  have hsz := h.knots.size
  have hr := localSize_range a.1 h.knots.size a.2.1 h.span.lt
  have hk' := ((hr (firstIndex a.1 a.2.1 + g)).mp ⟨by omega, by omega⟩).2.2
  simp only [dirSize] at hk'
  rcases (by omega : c = 0 ∨ c = 1 ∨ c = 2) with rfl | rfl | rfl
  · simp only [factor, values1, List.getD_eq_getElem?_getD, List.getElem?_map, List.getElem?_range hg, Option.map_some,
      Option.getD_some, Function.iterate_zero, id, argPoly]
    rw [polyN_eval h.knots _ x _ _ (by omega)]
  · rw [factor, derivs1_eq h.knots h.span]
    simp only [List.getD_eq_getElem?_getD, List.getElem?_map, List.getElem?_range hg, Option.map_some,
      Option.getD_some, Function.iterate_one, argPoly]
  · rw [factor, seconds1_eq h.knots h.span]
    · simp only [List.getD_eq_getElem?_getD, List.getElem?_map, List.getElem?_range hg, Option.map_some,
        Option.getD_some, argPoly]
      rfl
    · omega
    · omega

/-- Product of the one-dimensional derivatives. -/
noncomputable def prodDer (cnt : Nat → Nat) (args : List (Arg K)) (g : List Nat) : K :=
  (args.mapIdx fun j a => (derivative^[cnt j] (argPoly a (g.getD j 0))).eval (toGlobal a.1 a.2.1 a.2.2)).prod

theorem tensorDer_get (cnt : Nat → Nat) (hcnt : ∀ j, cnt j ≤ 2) (args : List (Arg K)) (hok : ∀ a ∈ args, ArgOK a) (k : Nat)
    (hk : k < elementSize (args.map (·.1)) (args.map (·.2.1))) :
    (tensorDer cnt args)[k]? = some (some (prodDer cnt args
      (getIJK k (List.zipWith localSize (args.map (·.1)) (args.map (·.2.1)))))) := by
  rw [elementSize_eq] at hk
  have hlens : ∀ (args : List (Arg K)) (cnt : Nat → Nat), (∀ a ∈ args, ArgOK a) →
      (args.mapIdx fun j a => factor a.1 a.2.1 (toGlobal a.1 a.2.1 a.2.2) (cnt j)).map List.length
      = List.zipWith localSize (args.map (·.1)) (args.map (·.2.1)) := by
    intro args
    induction args with
    | nil => intros; rfl
    | cons a args ih =>
      intro cnt hok
      rw [List.mapIdx_cons, List.map_cons, factor_length (hok a (by simp)), ih (fun j => cnt (j + 1)) (fun b hb => hok b (by simp [hb]))]
      rfl
  have hpos : ∀ l ∈ List.zipWith localSize (args.map (·.1)) (args.map (·.2.1)), 0 < l := pos_of_lt_prod hk
  rw [tensorDer, tensor_get]
  · rw [hlens args cnt hok]
    congr 1
    have hg := getIJK_ok _ hpos k
    revert hg
    generalize getIJK k (List.zipWith localSize (args.map (·.1)) (args.map (·.2.1))) = g
    clear hpos hk hlens
    unfold prodDer
    induction args generalizing g cnt with
    | nil => intro hg; cases hg; rfl
    | cons a args ih =>
      intro hg
      rw [List.map_cons, List.map_cons, List.zipWith_cons_cons] at hg
      cases hg with
      | @cons i _ g _ hi hg =>
        rw [List.mapIdx_cons, List.zipWith_cons_cons, List.foldr_cons, List.mapIdx_cons, List.prod_cons]
        rw [ih (fun j => cnt (j + 1)) (fun j => hcnt _) (fun b hb => hok b (by simp [hb])) g hg,
          factor_get (hok a (by simp)) _ _ (hcnt 0) i hi]
        simp [omul]
  · intro f hf
    have : f.length ∈ (args.mapIdx fun j a => factor a.1 a.2.1 (toGlobal a.1 a.2.1 a.2.2) (cnt j)).map List.length :=
      List.mem_map.mpr ⟨f, hf, rfl⟩
    rw [hlens args cnt hok] at this
    exact hpos _ this
  · rw [hlens args cnt hok]; exact hk

/-- Differentiating once more in the direction of the argument `(d,s,y)`. -/
theorem prodDer_poly (cnt : Nat → Nat) (pre post : List (Arg K)) (d : Dir K) (s : Nat) (g : List Nat) :
    ∃ p : K[X], ∀ y, prodDer cnt (pre ++ (d, s, y) :: post) g = p.eval y ∧
      prodDer (fun j => cnt j + if pre.length = j then 1 else 0) (pre ++ (d, s, y) :: post) g * (d.t (s + 1) - d.t s)
        = p.derivative.eval y := by
  have hpre : ∀ (cnt cnt' : Nat → Nat) (f : (Nat → Nat) → Nat → Arg K → K) (l : List (Arg K)), (∀ j < l.length, ∀ a, f cnt j a = f cnt' j a) →
      l.mapIdx (f cnt) = l.mapIdx (f cnt') := by
    intro cnt cnt' f l h
    apply List.ext_getElem
    · simp
    · intro i h1 h2
      simp only [List.getElem_mapIdx]
      exact h i (by simpa using h1) _
  let F : (Nat → Nat) → Nat → Arg K → K := fun c j a =>
    (derivative^[c j] (argPoly a (g.getD j 0))).eval (toGlobal a.1 a.2.1 a.2.2)
  let R1 : K := (pre.mapIdx (F cnt)).prod
  let R2 : K := (post.mapIdx fun j a => F cnt (j + (pre.length + 1)) a).prod
  let P : K[X] := derivative^[cnt pre.length] (polyN d s d.order (firstIndex d s + g.getD pre.length 0))
  let q : K[X] := C (d.t s) + C (d.t (s + 1) - d.t s) * X
  have hq : ∀ y, q.eval y = toGlobal d s y := by intro y; simp [q, toGlobal]
  have split : ∀ (c : Nat → Nat) (y : K), prodDer c (pre ++ (d, s, y) :: post) g =
      (pre.mapIdx (F c)).prod * ((derivative^[c pre.length] (polyN d s d.order (firstIndex d s + g.getD pre.length 0))).eval
        (toGlobal d s y) * (post.mapIdx fun j a => F c (j + (pre.length + 1)) a).prod) := by
    intro c y
    have e : prodDer c (pre ++ (d, s, y) :: post) g = ((pre ++ (d, s, y) :: post).mapIdx (F c)).prod := rfl
    rw [e, List.mapIdx_append, List.mapIdx_cons, List.prod_append, List.prod_cons]
    congr 2
    · simp [F, argPoly]
    · congr 1
      apply List.ext_getElem
      · simp
      · intro i h1 h2
        simp only [List.getElem_mapIdx]
        congr 1
        omega
  refine ⟨C (R1 * R2) * P.comp q, fun y => ⟨?_, ?_⟩⟩
  · rw [split, eval_mul, eval_C, eval_comp, hq]
    simp only [R1, R2, P]
    ring
  · rw [split]
    rw [hpre (fun j => cnt j + if pre.length = j then 1 else 0) cnt F pre (by
      intro j hj a; simp only [F]; rw [if_neg (by omega), Nat.add_zero])]
    have hpost : (post.mapIdx fun j a => F (fun j => cnt j + if pre.length = j then 1 else 0) (j + (pre.length + 1)) a) =
        post.mapIdx fun j a => F cnt (j + (pre.length + 1)) a := by
      apply List.ext_getElem
      · simp
      · intro i h1 h2
        simp only [List.getElem_mapIdx, F]
        have : ¬ pre.length = i + (pre.length + 1) := by omega
        simp only [this, if_false, Nat.add_zero]
    rw [hpost, if_pos rfl]
    rw [Function.iterate_succ_apply', derivative_mul, derivative_C, derivative_comp]
    have hdq : derivative q = C (d.t (s + 1) - d.t s) := by simp [q]
    rw [hdq]
    simp only [eval_add, eval_mul, eval_C, eval_comp, hq, zero_mul, zero_add, R1, R2, P]
    ring

theorem scaling_at (pre post : List (Arg K)) (d : Dir K) (s : Nat) (y : K) :
    scaling (pre ++ (d, s, y) :: post) pre.length = d.t (s + 1) - d.t s := by
  simp [scaling]

theorem scaling_const (pre post : List (Arg K)) (d : Dir K) (s : Nat) (y y' : K) (j : Nat) :
    scaling (pre ++ (d, s, y) :: post) j = scaling (pre ++ (d, s, y') :: post) j := by
  unfold scaling
  by_cases h1 : j < pre.length
  · rw [List.getElem?_append_left h1, List.getElem?_append_left h1]
  · rw [List.getElem?_append_right (by omega), List.getElem?_append_right (by omega)]
    rcases Nat.eq_zero_or_pos (j - pre.length) with h2 | h2
    · simp [h2]
    · obtain ⟨m, hm⟩ : ∃ m, j - pre.length = m + 1 := ⟨j - pre.length - 1, by omega⟩
      simp [hm]

/-- C28 in several directions: in local coordinates, entry `j` of the Jacobian of each shape function is its partial
derivative in direction `j`, and the second derivatives in the directions `(j',j)` are the derivatives of entry `j'` of the
Jacobian in direction `j`. (`pre`, `(d,s,y)`, `post` are the data of the directions before `j`, of `j`, and after `j`.) -/
theorem C28_tensor (pre post : List (Arg K)) (d : Dir K) (s : Nat) (hd : KnotsOK d) (hs : SpanOK d s)
    (hok : ∀ a ∈ pre ++ post, ArgOK a) (k : Nat)
    (hk : k < elementSize ((pre ++ (d, s, (0 : K)) :: post).map (·.1)) ((pre ++ (d, s, (0 : K)) :: post).map (·.2.1))) (j' : Nat) :
    (∃ p : K[X], ∀ y, (evalValues (pre ++ (d, s, y) :: post))[k]? = some (some (p.eval y)) ∧
      (evalJacobian (pre ++ (d, s, y) :: post) pre.length)[k]? = some (some (p.derivative.eval y))) ∧
    (∃ p : K[X], ∀ y, (evalJacobian (pre ++ (d, s, y) :: post) j')[k]? = some (some (p.eval y)) ∧
      (evalSecond (pre ++ (d, s, y) :: post) j' pre.length)[k]? = some (some (p.derivative.eval y))) := by
  have hok' : ∀ y, ∀ a ∈ pre ++ (d, s, y) :: post, ArgOK a := by
    intro y a ha
    rcases List.mem_append.mp ha with h | h
    · exact hok a (by simp [h])
    · rcases List.mem_cons.mp h with rfl | h
      · exact ⟨hd, hs⟩
      · exact hok a (by simp [h])
  have hk' : ∀ y, k < elementSize ((pre ++ (d, s, y) :: post).map (·.1)) ((pre ++ (d, s, y) :: post).map (·.2.1)) := by
    intro y; simpa using hk
  have hdig : ∀ y, List.zipWith localSize ((pre ++ (d, s, y) :: post).map (·.1)) ((pre ++ (d, s, y) :: post).map (·.2.1)) =
      List.zipWith localSize ((pre ++ (d, s, (0 : K)) :: post).map (·.1)) ((pre ++ (d, s, (0 : K)) :: post).map (·.2.1)) := by
    intro y; simp
  have get := fun cnt hcnt y => tensorDer_get (K := K) cnt hcnt (pre ++ (d, s, y) :: post) (hok' y) k (hk' y)
  simp only [hdig] at get
  generalize getIJK k (List.zipWith localSize ((pre ++ (d, s, (0 : K)) :: post).map (·.1))
    ((pre ++ (d, s, (0 : K)) :: post).map (·.2.1))) = g at get
  constructor
  · obtain ⟨p, hp⟩ := prodDer_poly (fun _ => 0) pre post d s g
    refine ⟨p, fun y => ⟨?_, ?_⟩⟩
    · have e : evalValues (pre ++ (d, s, y) :: post) = tensorDer (fun _ => 0) (pre ++ (d, s, y) :: post) := by
        rw [evalValues, tensorDer]
        congr 1
        apply List.ext_getElem
        · simp
        · intro i h1 h2; rw [List.getElem_map, List.getElem_mapIdx]
      rw [e, get _ (by simp) y, (hp y).1]
    · rw [evalJacobian, List.getElem?_map, get _ (by intro j; split <;> omega) y, scaling_at]
      have := (hp y).2
      simp only [Nat.zero_add] at this
      simp only [Option.map_some, this]
  · obtain ⟨p, hp⟩ := prodDer_poly (fun j => if j' = j then 1 else 0) pre post d s g
    refine ⟨C (scaling (pre ++ (d, s, (0 : K)) :: post) j') * p, fun y => ⟨?_, ?_⟩⟩
    · rw [evalJacobian, List.getElem?_map, get _ (by intro j; split <;> omega) y, (hp y).1]
      rw [eval_mul, eval_C, scaling_const pre post d s y 0]
      simp only [Option.map_some, mul_comm]
    · have ecnt : (fun j => if j' ≠ pre.length then (if j' = j ∨ pre.length = j then 1 else 0) else (if j' = j then 2 else 0))
          = fun j => (if j' = j then 1 else 0) + if pre.length = j then 1 else 0 := by
        funext j
        split_ifs <;> omega
      rw [evalSecond, ecnt, List.getElem?_map, get _ (by intro j; split_ifs <;> omega) y, scaling_at,
        scaling_const pre post d s y 0]
      rw [derivative_mul, derivative_C, zero_mul, zero_add, eval_mul, eval_C, ← (hp y).2]
      simp only [Option.map_some]
      congr 2
      ring

example (k : Nat) (hk : k < 9) : ∃ p : ℚ[X], ∀ y,
    (evalValues [((exDir, 3, 1 / 2) : Arg ℚ), (exDir, 2, y)])[k]? = some (some (p.eval y)) ∧
    (evalJacobian [((exDir, 3, 1 / 2) : Arg ℚ), (exDir, 2, y)] 1)[k]? = some (some (p.derivative.eval y)) :=
  (C28_tensor [(exDir, 3, 1 / 2)] [] exDir 2 exDir_OK ⟨by decide, by norm_num [Dir.t, exDir]⟩
    (by intro a ha; obtain rfl : a = (exDir, 3, 1 / 2) := by simpa using ha
        exact ⟨exDir_OK, exDir_span⟩) k (by
      have : elementSize [exDir, exDir] [3, 2] = 9 := by decide +kernel
      simp only [List.cons_append, List.nil_append, List.map_cons, List.map_nil]
      rw [this]; exact hk) 0).1

end Verif.BSpline

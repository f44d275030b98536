import Verif.BSpline.Model
import Verif.IndexTree.Props
import Mathlib.Algebra.Order.Ring.Rat
import Mathlib.Algebra.Field.Rat
import Mathlib.Algebra.BigOperators.Group.List.Basic
import Mathlib.Tactic.Ring
import Mathlib.Tactic.NormNum
import Mathlib.Tactic.Positivity
import Mathlib.Tactic.Linarith
import Mathlib.Tactic.FieldSimp

/-!
# Global indices of the B-spline basis (C26)
-/

set_option linter.unusedSectionVars false

namespace Verif.BSpline

/-! ## Multi digit numbers -/

theorem pos_of_lt_prod {ls : List Nat} {j : Nat} (h : j < ls.prod) : ∀ l ∈ ls, 0 < l := by
  replace h : 0 < ls.prod := by omega
  clear j
  induction ls with
  | nil => simp
  | cons a ls ih =>
    rw [List.prod_cons] at h
    intro l hl
    rcases List.mem_cons.mp hl with rfl | hl
    · exact Nat.pos_of_mul_pos_right h
    · exact ih (Nat.pos_of_mul_pos_left h) l hl

theorem foldl_mul (ls : List Nat) (a : Nat) : ls.foldl (fun r n => r * n) a = a * ls.prod := by
  induction ls generalizing a with
  | nil => simp
  | cons l ls ih => simp [ih, Nat.mul_assoc]

theorem foldl_mul_map {α : Type} (f : α → Nat) (ls : List α) (a : Nat) :
    ls.foldl (fun r d => r * f d) a = a * (ls.map f).prod := by
  rw [← foldl_mul, List.foldl_map]

theorem getIJK_ok (ls : List Nat) (h : ∀ l ∈ ls, 0 < l) (i : Nat) : List.Forall₂ (· < ·) (getIJK i ls) ls := by
  induction ls generalizing i with
  | nil => exact .nil
  | cons l ls ih => exact .cons (Nat.mod_lt _ (h l (by simp))) (ih (fun x hx => h x (by simp [hx])) _)

theorem flatIndex_cons (g : Nat) (gs : List Nat) (s : Nat) (ss : List Nat) (h : gs.length = ss.length) :
    flatIndex (g :: gs) (s :: ss) = flatIndex gs ss * s + g := by
  cases gs with
  | nil => simp [flatIndex]
  | cons a gs => simp [flatIndex]

theorem flatIndex_lt {g ls : List Nat} (h : List.Forall₂ (· < ·) g ls) : flatIndex g ls < ls.prod := by
  induction h with
  | nil => simp [flatIndex]
  | @cons a l g ls h1 h2 ih =>
    rw [flatIndex_cons _ _ _ _ h2.length_eq, List.prod_cons]
    calc flatIndex g ls * l + a < flatIndex g ls * l + l := by omega
      _ = (flatIndex g ls + 1) * l := by ring
      _ ≤ ls.prod * l := Nat.mul_le_mul_right _ ih
      _ = l * ls.prod := Nat.mul_comm _ _

theorem getIJK_flatIndex {g ls : List Nat} (h : List.Forall₂ (· < ·) g ls) : getIJK (flatIndex g ls) ls = g := by
  induction h with
  | nil => simp [getIJK]
  | @cons a l g ls h1 h2 ih =>
    rw [flatIndex_cons _ _ _ _ h2.length_eq, getIJK]
    have hl : 0 < l := by omega
    rw [Nat.mul_add_mod_of_lt' h1, Nat.mul_comm, Nat.mul_add_div hl, Nat.div_eq_of_lt h1, Nat.add_zero, ih]
where
  Nat.mul_add_mod_of_lt' {a b c : Nat} (h : c < b) : (a * b + c) % b = c := by
    rw [Nat.mul_comm, Nat.mul_add_mod, Nat.mod_eq_of_lt h]

theorem getIJK_length (i : Nat) (ls : List Nat) : (getIJK i ls).length = ls.length := by
  induction ls generalizing i with
  | nil => rfl
  | cons l ls ih => simp [getIJK, ih]

theorem flatIndex_getIJK (ls : List Nat) (i : Nat) (hi : i < ls.prod) : flatIndex (getIJK i ls) ls = i := by
  induction ls generalizing i with
  | nil => simp at hi; simp [getIJK, flatIndex, hi]
  | cons l ls ih =>
    rw [getIJK, flatIndex_cons _ _ _ _ (getIJK_length _ _)]
    rw [List.prod_cons] at hi
    rw [ih _ (Nat.div_lt_of_lt_mul hi), Nat.mul_comm]
    exact Nat.div_add_mod i l

theorem counterNext_getIJK (ls : List Nat) (h : ∀ l ∈ ls, 0 < l) (i : Nat) :
    counterNext ls (getIJK i ls) = getIJK (i + 1) ls := by
  induction ls generalizing i with
  | nil => rfl
  | cons l ls ih =>
    have hl : 0 < l := h l (by simp)
    rw [getIJK, counterNext, getIJK]
    have hm := Nat.mod_lt i hl
    have hd := Nat.div_add_mod i l
    split
    · next hlt =>
      have e : i + 1 = l * (i / l) + (i % l + 1) := by omega
      rw [e, Nat.mul_add_mod, Nat.mod_eq_of_lt hlt, Nat.mul_add_div hl, Nat.div_eq_of_lt hlt]
      rfl
    · next hge =>
      have e : i + 1 = l * (i / l + 1) := by rw [Nat.mul_add]; omega
      rw [ih (fun x hx => h x (by simp [hx])), e, Nat.mul_mod_right, Nat.mul_div_cancel_left _ hl]

/-- The multi digit counter runs through the numbers in the order of `getIJK` (x-index fastest). -/
theorem counterAt_eq (ls : List Nat) (h : ∀ l ∈ ls, 0 < l) (i : Nat) : counterAt ls i = getIJK i ls := by
  induction i with
  | zero =>
    rw [counterAt]
    clear h
    induction ls with
    | nil => rfl
    | cons l ls ih => rw [getIJK, Nat.zero_div, ← ih]; simp
  | succ i ih => rw [counterAt, ih, counterNext_getIJK ls h]

variable {K : Type} [Field K] [LinearOrder K]

/-! ## Knot spans -/

/-- Knot span `s` is an element for `bind`. -/
def Dir.Elem (d : Dir K) (s : Nat) : Prop := d.t s + 1 / 10 ^ 8 ≤ d.t (s + 1)

instance (d : Dir K) (s : Nat) : Decidable (d.Elem s) := by unfold Dir.Elem; infer_instance

/-- Number of elements left of knot span `s`. -/
def Dir.before (d : Dir K) (s : Nat) : Nat := (List.range s).countP fun q => decide (d.Elem q)

theorem Dir.before_succ (d : Dir K) (s : Nat) : d.before (s + 1) = d.before s + if d.Elem s then 1 else 0 := by
  simp only [Dir.before, List.range_succ, List.countP_append, List.countP_singleton, decide_eq_true_eq]

theorem Dir.before_mono (d : Dir K) {a b : Nat} (h : a ≤ b) : d.before a ≤ d.before b := by
  induction h with
  | refl => exact Nat.le_refl _
  | step _ ih => rw [Dir.before_succ]; omega

theorem skip_some (d : Dir K) (fuel s r : Nat) (hf : d.n < fuel + s) :
    skip d fuel s = some r ↔ s ≤ r ∧ r + 1 < d.n ∧ d.Elem r ∧ d.before r = d.before s := by
  induction fuel generalizing s with
  | zero => simp only [skip]; constructor
            · simp
            · rintro ⟨h1, h2, -⟩; omega
  | succ fuel ih =>
    rw [skip]
    split
    · next hs =>
      split
      · next hlt =>
        rw [ih (s + 1) (by omega), Dir.before_succ, if_neg (by unfold Dir.Elem; exact not_le.mpr hlt)]
        constructor
        · rintro ⟨h1, h2, h3, h4⟩; exact ⟨by omega, h2, h3, h4⟩
        · rintro ⟨h1, h2, h3, h4⟩
          refine ⟨?_, h2, h3, h4⟩
          rcases Nat.lt_or_eq_of_le h1 with h | h
          · exact h
          · subst h; exact absurd h3 (not_le.mpr hlt)
      · next hge =>
        have he : d.Elem s := not_lt.mp hge
        constructor
        · intro h
          obtain rfl : s = r := by simpa using h
          exact ⟨Nat.le_refl _, hs, he, rfl⟩
        · rintro ⟨h1, h2, h3, h4⟩
          rcases Nat.lt_or_eq_of_le h1 with h | h
          · have := d.before_mono (show s + 1 ≤ r from h)
            rw [Dir.before_succ, if_pos he] at this
            omega
          · simp [h]
    · next hs =>
      constructor
      · simp
      · rintro ⟨h1, h2, -⟩; omega

/-- The element number of a knot span counts the elements before it. -/
theorem spanOf_some (d : Dir K) (e s : Nat) :
    spanOf d e = some s ↔ s + 1 < d.n ∧ d.Elem s ∧ d.before s = e := by
  induction e generalizing s with
  | zero =>
    rw [spanOf, skip_some d _ _ _ (by omega)]
    simp [Dir.before]
  | succ e ih =>
    rw [spanOf]
    constructor
    · intro h
      obtain ⟨q, hq, hs⟩ := Option.bind_eq_some_iff.mp h
      obtain ⟨h1, h2, h3⟩ := (ih q).mp hq
      obtain ⟨g1, g2, g3, g4⟩ := (skip_some d _ _ _ (by omega)).mp hs
      refine ⟨g2, g3, ?_⟩
      rw [g4, Dir.before_succ, if_pos h2, h3]
    · rintro ⟨h1, h2, h3⟩
      -- the previous element
      have : ∃ q, q < s ∧ d.Elem q ∧ d.before q = e := by
        clear h1 h2
        induction s with
        | zero => simp [Dir.before] at h3
        | succ s ihs =>
          rw [Dir.before_succ] at h3
          by_cases hE : d.Elem s
          · rw [if_pos hE] at h3
            exact ⟨s, Nat.lt_succ_self _, hE, by omega⟩
          · rw [if_neg hE] at h3
            obtain ⟨q, hq, h⟩ := ihs h3
            exact ⟨q, by omega, h⟩
      obtain ⟨q, hq1, hq2, hq3⟩ := this
      refine Option.bind_eq_some_iff.mpr ⟨q, (ih q).mpr ⟨by omega, hq2, hq3⟩, ?_⟩
      rw [skip_some d _ _ _ (by omega)]
      refine ⟨hq1, h1, h2, ?_⟩
      rw [Dir.before_succ, if_pos hq2, hq3, h3]

theorem spanOf_isSome (d : Dir K) (e : Nat) (he : e < d.before (d.n - 1)) : ∃ s, spanOf d e = some s := by
  have : ∀ m, m ≤ d.n - 1 → e < d.before m → ∃ s, spanOf d e = some s := by
    intro m
    induction m with
    | zero => intro _ h; simp [Dir.before] at h
    | succ m ih =>
      intro hm h
      by_cases hlt : e < d.before m
      · exact ih (by omega) hlt
      · rw [Dir.before_succ] at h
        by_cases hE : d.Elem m
        · rw [if_pos hE] at h
          exact ⟨m, (spanOf_some d e m).mpr ⟨by omega, hE, by omega⟩⟩
        · rw [if_neg hE] at h; omega
  exact this _ (Nat.le_refl _) he

/-! ## Local and global lattices -/

theorem localSize_range (d : Dir K) (hd : d.order + 2 ≤ d.n) (s : Nat) (hs : s + 1 < d.n) (g : Nat) :
    (firstIndex d s ≤ g ∧ g < firstIndex d s + localSize d s) ↔ (g ≤ s ∧ s ≤ g + d.order ∧ g < dirSize d) := by
  simp only [localSize, firstIndex, dirSize]
  split <;> split <;> omega

theorem localSize_pos (d : Dir K) (hd : d.order + 2 ≤ d.n) (s : Nat) (hs : s + 1 < d.n) : 0 < localSize d s := by
  simp only [localSize]
  split <;> split <;> omega

theorem localSize_le (d : Dir K) (s : Nat) : localSize d s ≤ d.order + 1 := by
  simp only [localSize]
  split <;> split <;> omega

/-- Directions with enough knots, bound to existing knot spans. -/
def Bound (ds : List (Dir K)) (ss : List Nat) : Prop :=
  List.Forall₂ (fun d s => d.order + 2 ≤ d.n ∧ s + 1 < d.n) ds ss

theorem Bound.pos {ds : List (Dir K)} {ss : List Nat} (h : Bound ds ss) :
    ∀ l ∈ List.zipWith localSize ds ss, 0 < l := by
  induction h with
  | nil => simp
  | @cons d s ds ss h1 h2 ih =>
    intro l hl
    rw [List.zipWith_cons_cons, List.mem_cons] at hl
    rcases hl with rfl | hl
    · exact localSize_pos d h1.1 s h1.2
    · exact ih l hl

/-- Shifted local digits are exactly the digits of the active functions. -/
theorem shift_digits {ds : List (Dir K)} {ss : List Nat} (h : Bound ds ss) (g : List Nat) :
    (∃ l, List.Forall₂ (· < ·) l (List.zipWith localSize ds ss) ∧
      g = List.zipWith (· + ·) (List.zipWith firstIndex ds ss) l) ↔
    (List.Forall₂ (· < ·) g (ds.map dirSize) ∧
      ∀ (k : Nat) (d : Dir K) (s i : Nat), ds[k]? = some d → ss[k]? = some s → g[k]? = some i → i ≤ s ∧ s ≤ i + d.order) := by
  induction h generalizing g with
  | nil =>
    constructor
    · rintro ⟨l, -, rfl⟩; simp
    · rintro ⟨hg, -⟩
      cases hg
      exact ⟨[], .nil, rfl⟩
  | @cons d s ds ss h1 h2 ih =>
    have key := localSize_range d h1.1 s h1.2
    constructor
    · rintro ⟨l, hl, rfl⟩
      rw [List.zipWith_cons_cons] at hl
      cases hl with
      | @cons a _ l _ ha hl =>
        obtain ⟨i1, i2⟩ := (ih _).mp ⟨l, hl, rfl⟩
        obtain ⟨k1, k2, k3⟩ := (key (firstIndex d s + a)).mp ⟨by omega, by omega⟩
        rw [List.zipWith_cons_cons, List.zipWith_cons_cons, List.map_cons]
        refine ⟨.cons k3 i1, ?_⟩
        intro k d' s' i hd hs hi
        cases k with
        | zero =>
          simp only [List.getElem?_cons_zero, Option.some.injEq] at hd hs hi
          subst hd; subst hs; subst hi
          exact ⟨k1, k2⟩
        | succ k => exact i2 k d' s' i (by simpa using hd) (by simpa using hs) (by simpa using hi)
    · rintro ⟨hg, hk⟩
      rw [List.map_cons] at hg
      cases hg with
      | @cons i _ g _ hi hg =>
        obtain ⟨l, hl, rfl⟩ := (ih g).mpr ⟨hg, fun k d' s' i' a b c => hk (k + 1) d' s' i' (by simpa) (by simpa) (by simpa)⟩
        have h0 := hk 0 d s i (by simp) (by simp) (by simp)
        obtain ⟨j1, j2⟩ := (key i).mpr ⟨h0.1, h0.2, hi⟩
        refine ⟨(i - firstIndex d s) :: l, .cons (by omega) hl, ?_⟩
        rw [List.zipWith_cons_cons, List.zipWith_cons_cons]
        congr 1
        omega

theorem zipWith_add_inj : ∀ (a l l' : List Nat), l.length = a.length → l'.length = a.length →
    List.zipWith (· + ·) a l = List.zipWith (· + ·) a l' → l = l'
  | [], [], [], _, _, _ => rfl
  | [], _ :: _, _, h, _, _ => by simp at h
  | [], [], _ :: _, _, h, _ => by simp at h
  | _ :: _, [], _, h, _, _ => by simp at h
  | _ :: _, _ :: _, [], _, h, _ => by simp at h
  | a :: as, l :: ls, l' :: ls', h, h', e => by
    simp only [List.zipWith_cons_cons, List.cons.injEq] at e
    rw [zipWith_add_inj as ls ls' (by simpa using h) (by simpa using h') e.2]
    congr 1
    omega

theorem elementSize_eq (ds : List (Dir K)) (ss : List Nat) : elementSize ds ss = (List.zipWith localSize ds ss).prod := by
  rw [elementSize, foldl_mul, Nat.one_mul]

theorem dimension_eq (ds : List (Dir K)) : dimension ds = (ds.map dirSize).prod := by
  rw [dimension, foldl_mul_map, Nat.one_mul]

theorem maxNodeSize_eq (ds : List (Dir K)) : maxNodeSize ds = (ds.map fun d => d.order + 1).prod := by
  rw [maxNodeSize, foldl_mul_map, Nat.one_mul]

theorem elementSize_le {ds : List (Dir K)} {ss : List Nat} (h : Bound ds ss) : elementSize ds ss ≤ maxNodeSize ds := by
  rw [elementSize_eq, maxNodeSize_eq]
  induction h with
  | nil => simp
  | @cons d s ds ss h1 h2 ih =>
    rw [List.zipWith_cons_cons, List.map_cons, List.prod_cons, List.prod_cons]
    exact Nat.mul_le_mul (localSize_le d s) ih

/-- C26, one element: the indices of an element bound to the knot spans `ss` are pairwise different, smaller than
`dimension()`, as many as the element has shape functions and at most `maxNodeSize()`. A global index is used iff in
each direction `k` the knot span lies in the support `[i_k, i_k+order+1)` of the one-dimensional function, where
`(i_k)` are the digits of the index in the system of the `size(k)`. -/
theorem C26_element (ds : List (Dir K)) (ss : List Nat) (h : Bound ds ss) :
    (indices ds ss).Nodup ∧ (indices ds ss).length = elementSize ds ss ∧ elementSize ds ss ≤ maxNodeSize ds ∧
    ∀ j, j ∈ indices ds ss ↔ j < dimension ds ∧
      ∀ (k : Nat) (d : Dir K) (s i : Nat), ds[k]? = some d → ss[k]? = some s →
        (getIJK j (ds.map dirSize))[k]? = some i → i ≤ s ∧ s ≤ i + d.order := by
  have hpos := h.pos
  have hlen : (List.zipWith firstIndex ds ss).length = (List.zipWith localSize ds ss).length := by simp
  have hshift : ∀ i, List.Forall₂ (· < ·) (List.zipWith (· + ·) (List.zipWith firstIndex ds ss)
      (getIJK i (List.zipWith localSize ds ss))) (ds.map dirSize) :=
    fun i => ((shift_digits h _).mp ⟨_, getIJK_ok _ hpos i, rfl⟩).1
  refine ⟨?_, by simp [indices], elementSize_le h, ?_⟩
  · rw [indices]
    refine List.Nodup.map_on ?_ List.nodup_range
    intro i hi i' hi' e
    rw [List.mem_range, elementSize_eq] at hi hi'
    have e1 := congrArg (fun j => getIJK j (ds.map dirSize)) e
    simp only [getIJK_flatIndex (hshift i), getIJK_flatIndex (hshift i')] at e1
    have e2 := zipWith_add_inj _ _ _ (by rw [getIJK_length, hlen]) (by rw [getIJK_length, hlen]) e1
    rw [← flatIndex_getIJK _ i hi, ← flatIndex_getIJK _ i' hi', e2]
  · intro j
    rw [indices, List.mem_map, dimension_eq]
    constructor
    · rintro ⟨i, hi, rfl⟩
      refine ⟨flatIndex_lt (hshift i), ?_⟩
      rw [getIJK_flatIndex (hshift i)]
      exact ((shift_digits h _).mp ⟨_, getIJK_ok _ hpos i, rfl⟩).2
    · rintro ⟨hj, hk⟩
      have hds : ∀ l ∈ ds.map dirSize, 0 < l := pos_of_lt_prod hj
      obtain ⟨l, hl, he⟩ := (shift_digits h (getIJK j (ds.map dirSize))).mpr ⟨getIJK_ok _ hds j, hk⟩
      refine ⟨flatIndex l (List.zipWith localSize ds ss), ?_, ?_⟩
      · rw [List.mem_range, elementSize_eq]; exact flatIndex_lt hl
      · rw [getIJK_flatIndex hl, ← he, flatIndex_getIJK _ _ hj]

-- quadratic × linear splines, bound to the spans 3 and 1
example : indices (K := ℚ) [⟨2, [0, 0, 0, 1, 2, 2, 2]⟩, ⟨1, [0, 0, 1, 1]⟩] [3, 1] = [1, 2, 3, 5, 6, 7] := by decide +kernel

/-- C26: local, global and element numbering by several digits are mutually inverse. -/
theorem C26_digits (ls : List Nat) :
    (∀ i < ls.prod, flatIndex (getIJK i ls) ls = i) ∧
    (∀ g, List.Forall₂ (· < ·) g ls → getIJK (flatIndex g ls) ls = g ∧ flatIndex g ls < ls.prod) ∧
    ((∀ l ∈ ls, 0 < l) → ∀ i, counterAt ls i = getIJK i ls) :=
  ⟨fun i hi => flatIndex_getIJK ls i hi, fun _ hg => ⟨getIJK_flatIndex hg, flatIndex_lt hg⟩, fun h i => counterAt_eq ls h i⟩

example : getIJK 23 [3, 4, 5] = [2, 3, 1] ∧ flatIndex [2, 3, 1] [3, 4, 5] = 23 ∧ counterAt [3, 4, 5] 23 = [2, 3, 1] := by
  decide +kernel

/-! ## The whole basis -/

/-- Requirements on one direction and its number of elements: enough knots, as many elements as non-degenerate knot
spans, and every function has a non-degenerate knot span in its support. -/
structure DirOK (d : Dir K) (elements : Nat) : Prop where
  size : d.order + 2 ≤ d.n
  elems : elements = d.before (d.n - 1)
  supp : ∀ g < dirSize d, ∃ s, g ≤ s ∧ s ≤ g + d.order ∧ d.Elem s

/-- The leaf basis on the elements `0,…,#elements-1`. -/
def leaf (ds : List (Dir K)) (elements : List Nat) : IndexTree.Leaf (Fin elements.prod) where
  dim := dimension ds
  maxN := maxNodeSize ds
  loc := fun e => (elementSpans ds elements e).elim [] (indices ds)

theorem spans_foldr {α β : Type} (f : α → β → Option Nat) (P : α → β → Nat → Prop) : ∀ (ds : List α) (es : List β),
    List.Forall₂ (fun d e => ∃ s, f d e = some s ∧ P d e s) ds es →
    ∃ ss, (List.zipWith f ds es).foldr (fun a b => a.bind fun s => b.map (s :: ·)) (some []) = some ss ∧
      ss.length = ds.length ∧ ∀ (k : Nat) (d : α) (e : β) (s : Nat), ds[k]? = some d → es[k]? = some e → ss[k]? = some s →
        f d e = some s ∧ P d e s := by
  intro ds es h
  induction h with
  | nil => exact ⟨[], rfl, rfl, by simp⟩
  | @cons d e ds es h1 h2 ih =>
    obtain ⟨s, hs, hP⟩ := h1
    obtain ⟨ss, hss, hl, hk⟩ := ih
    refine ⟨s :: ss, by simp [hss, hs], by simp [hl], ?_⟩
    intro k d' e' s' a b c
    cases k with
    | zero =>
      simp only [List.getElem?_cons_zero, Option.some.injEq] at a b c
      subst a; subst b; subst c
      exact ⟨hs, hP⟩
    | succ k => exact hk k d' e' s' (by simpa using a) (by simpa using b) (by simpa using c)

theorem bound_of {ds : List (Dir K)} {ss : List Nat} (hl : ss.length = ds.length)
    (h : ∀ (k : Nat) (d : Dir K) (s : Nat), ds[k]? = some d → ss[k]? = some s → d.order + 2 ≤ d.n ∧ s + 1 < d.n) : Bound ds ss := by
  induction ds generalizing ss with
  | nil => cases ss with
    | nil => exact .nil
    | cons => simp at hl
  | cons d ds ih => cases ss with
    | nil => simp at hl
    | cons s ss =>
      exact .cons (h 0 d s (by simp) (by simp)) (ih (by simpa using hl) fun k d' s' a b => h (k + 1) d' s' (by simpa) (by simpa))

/-- Binding never reads past the end of a knot vector: element `e` is the tensor product of the knot spans with the
numbers given by its digits. -/
theorem elementSpans_eq {ds : List (Dir K)} {elements : List Nat} (h : List.Forall₂ DirOK ds elements) (e : Nat)
    (he : e < elements.prod) :
    ∃ ss, elementSpans ds elements e = some ss ∧ Bound ds ss ∧
      ∀ (k : Nat) (d : Dir K) (i s : Nat), ds[k]? = some d → (getIJK e elements)[k]? = some i → ss[k]? = some s →
        spanOf d i = some s := by
  have hpos : ∀ l ∈ elements, 0 < l := pos_of_lt_prod he
  have hg := getIJK_ok elements hpos e
  have h2 : List.Forall₂ (fun d i => ∃ s, spanOf d i = some s ∧ (d.order + 2 ≤ d.n ∧ s + 1 < d.n)) ds (getIJK e elements) := by
    revert hg
    generalize getIJK e elements = g
    clear hpos he
    induction h generalizing g with
    | nil => intro hg; cases hg; exact .nil
    | @cons d n ds ns h1 h2 ih =>
      intro hg
      cases hg with
      | @cons i _ g _ hi hg =>
        obtain ⟨s, hs⟩ := spanOf_isSome d i (by rw [← h1.elems]; exact hi)
        exact .cons ⟨s, hs, h1.size, ((spanOf_some d i s).mp hs).1⟩ (ih g hg)
  obtain ⟨ss, h3, h4, h5⟩ := spans_foldr spanOf (fun d _ s => d.order + 2 ≤ d.n ∧ s + 1 < d.n) ds _ h2
  refine ⟨ss, h3, bound_of h4 ?_, fun k d i s a b c => (h5 k d i s a b c).1⟩
  intro k d s a b
  have hk : k < (getIJK e elements).length := by
    rw [getIJK_length, ← h.length_eq]
    exact (List.getElem?_eq_some_iff.mp a).1
  exact (h5 k d _ s a (List.getElem?_eq_getElem hk) b).2

/-- The B-spline basis satisfies the hypothesis of the index tree theorems (C01–C12). -/
theorem leaf_WF {ds : List (Dir K)} {elements : List Nat} (h : List.Forall₂ DirOK ds elements) :
    (IndexTree.PB.leaf (leaf ds elements)).WF := by
  rw [IndexTree.PB.WF]
  constructor
  · intro e i hi
    obtain ⟨ss, hss, hb, -⟩ := elementSpans_eq h e e.2
    simp only [leaf, hss, Option.elim] at hi ⊢
    exact ((C26_element ds ss hb).2.2.2 i |>.mp hi).1
  · intro e
    obtain ⟨ss, hss, hb, -⟩ := elementSpans_eq h e e.2
    simp only [leaf, hss, Option.elim]
    rw [(C26_element ds ss hb).2.1]
    exact elementSize_le hb

/-- Every basis function is active on some element. -/
theorem leaf_Covered {ds : List (Dir K)} {elements : List Nat} (h : List.Forall₂ DirOK ds elements) :
    (IndexTree.PB.leaf (leaf ds elements)).Covered (fun _ => True) := by
  rw [IndexTree.PB.Covered]
  intro j hj
  simp only [leaf] at hj ⊢
  have hj' := hj
  rw [dimension_eq] at hj
  have hds : ∀ l ∈ ds.map dirSize, 0 < l := pos_of_lt_prod hj
  have hg := getIJK_ok _ hds j
  -- digits of an element in the support
  have : ∃ q, List.Forall₂ (· < ·) q elements ∧
      ∀ (k : Nat) (d : Dir K) (i a s : Nat), ds[k]? = some d → (getIJK j (ds.map dirSize))[k]? = some i →
        q[k]? = some a → spanOf d a = some s → i ≤ s ∧ s ≤ i + d.order := by
    revert hg
    generalize getIJK j (ds.map dirSize) = g
    clear hds hj hj'
    induction h generalizing g with
    | nil => intro _; exact ⟨[], .nil, by simp⟩
    | @cons d n ds ns h1 h2 ih =>
      intro hg
      rw [List.map_cons] at hg
      cases hg with
      | @cons i _ g _ hi hg =>
        obtain ⟨q, hq, hk⟩ := ih g hg
        obtain ⟨s, s1, s2, s3⟩ := h1.supp i hi
        have hs : s + 1 < d.n := by
          have := h1.size; simp only [dirSize] at hi; omega
        refine ⟨d.before s :: q, .cons ?_ hq, ?_⟩
        · have := d.before_mono (show s + 1 ≤ d.n - 1 by omega)
          rw [Dir.before_succ, if_pos s3] at this
          rw [h1.elems]; omega
        · intro k d' i' a s' c1 c2 c3 c4
          cases k with
          | zero =>
            simp only [List.getElem?_cons_zero, Option.some.injEq] at c1 c2 c3
            subst c1; subst c2; subst c3
            have e := (spanOf_some d (d.before s) s).mpr ⟨hs, s3, rfl⟩
            rw [e] at c4
            obtain rfl : s = s' := by simpa using c4
            exact ⟨s1, s2⟩
          | succ k => exact hk k d' i' a s' (by simpa using c1) (by simpa using c2) (by simpa using c3) c4
  obtain ⟨q, hq, hk⟩ := this
  refine ⟨⟨flatIndex q elements, flatIndex_lt hq⟩, trivial, ?_⟩
  obtain ⟨ss, hss, hb, hsp⟩ := elementSpans_eq h (flatIndex q elements) (flatIndex_lt hq)
  simp only [hss, Option.elim]
  rw [(C26_element ds ss hb).2.2.2]
  refine ⟨hj', ?_⟩
  intro k d s i a b c
  rw [getIJK_flatIndex hq] at hsp
  have hkq : k < q.length := by
    rw [hq.length_eq, ← h.length_eq]
    exact (List.getElem?_eq_some_iff.mp a).1
  exact hk k d i _ s a c (List.getElem?_eq_getElem hkq) (hsp k d _ s a (List.getElem?_eq_getElem hkq) b)

/-! ## Constructors -/

section Constructors

variable [IsStrictOrderedRing K]

theorem openKnots_getD (p : Nat) (knots : List K) (hk : knots ≠ []) (j : Nat) :
    (openKnots p true knots).getD j 0 =
      if j < p then knots.getD 0 0
      else if j < p + knots.length then knots.getD (j - p) 0
      else if j < p + knots.length + p then knots.getD (knots.length - 1) 0 else 0 := by
  have h0 : knots.headD 0 = knots.getD 0 0 := by cases knots <;> simp_all
  have h1 : knots.getLastD 0 = knots.getD (knots.length - 1) 0 := by
    rw [List.getLastD_eq_getLast?, List.getLast?_eq_getElem?, List.getD_eq_getElem?_getD]
  rw [← h0, ← h1]
  simp only [openKnots, if_true, List.getD_eq_getElem?_getD, List.getElem?_append, List.length_append,
    List.length_replicate, List.getElem?_replicate]
  by_cases c1 : j < p
  · rw [if_pos (show j < p + knots.length by omega), if_pos c1, if_pos c1, if_pos c1]; rfl
  · rw [if_neg c1, if_neg c1]
    by_cases c2 : j < p + knots.length
    · rw [if_pos c2, if_pos c2]
    · rw [if_neg c2, if_neg c2]
      by_cases c3 : j < p + knots.length + p
      · rw [if_pos c3, if_pos (by omega)]; rfl
      · rw [if_neg c3, if_neg (by omega)]; rfl

theorem openKnots_length (p : Nat) (knots : List K) : (openKnots p true knots).length = p + knots.length + p := by
  simp [openKnots, Nat.add_assoc]

theorem eps_pos (k : Nat) : (0 : K) < 1 / 10 ^ k := by positivity

/-- Elements of a knot vector made open: exactly the spans between given knots. -/
theorem openKnots_elem (p : Nat) (knots : List K)
    (hg : ∀ i, i + 1 < knots.length → knots.getD i 0 + 1 / 10 ^ 8 ≤ knots.getD (i + 1) 0) (s : Nat)
    (hs : s + 1 < p + knots.length + p) (hm : 0 < knots.length) :
    (⟨p, openKnots p true knots⟩ : Dir K).Elem s ↔ p ≤ s ∧ s + 1 < p + knots.length := by
  have hne : knots ≠ [] := by rintro rfl; simp at hm
  have he := eps_pos (K := K) 8
  simp only [Dir.Elem, Dir.t, openKnots_getD p knots hne]
  constructor
  · intro h
    by_contra hc
    rw [not_and_or] at hc
    rcases hc with hc | hc
    · rw [if_pos (by omega)] at h
      by_cases h1 : s + 1 < p
      · rw [if_pos h1] at h; linarith
      · rw [if_neg h1, if_pos (by omega), show s + 1 - p = 0 by omega] at h; linarith
    · rw [if_neg (show ¬ s + 1 < p by omega), if_neg hc, if_pos hs, if_neg (show ¬ s < p by omega)] at h
      by_cases h1 : s < p + knots.length
      · rw [if_pos h1, show s - p = knots.length - 1 by omega] at h; linarith
      · rw [if_neg h1, if_pos (show s < p + knots.length + p by omega)] at h; linarith
  · rintro ⟨h1, h2⟩
    rw [if_neg (by omega), if_pos (by omega), if_neg (by omega), if_pos h2, show s + 1 - p = s - p + 1 by omega]
    exact hg _ (by omega)

/-- C26, constructor with knots made open: with knots at distance at least `1e-8` the number of elements is the
number of knots minus one, the basis has `#elements + order` functions per direction, each active on some element,
and every element is an inner knot span (so that C27 applies). -/
theorem C26_open (p : Nat) (knots : List K) (hm : 2 ≤ knots.length)
    (hg : ∀ i, i + 1 < knots.length → knots.getD i 0 + 1 / 10 ^ 8 ≤ knots.getD (i + 1) 0) :
    DirOK (⟨p, openKnots p true knots⟩ : Dir K) (knots.length - 1) ∧
    dirSize (⟨p, openKnots p true knots⟩ : Dir K) = knots.length - 1 + p ∧
    ∀ e s, spanOf (⟨p, openKnots p true knots⟩ : Dir K) e = some s → p ≤ s ∧ s + p + 2 ≤ (openKnots p true knots).length := by
  have hn : (⟨p, openKnots p true knots⟩ : Dir K).n = p + knots.length + p := openKnots_length p knots
  have hel := fun s hs => openKnots_elem p knots hg s hs (by omega)
  refine ⟨⟨?_, ?_, ?_⟩, ?_, ?_⟩
  · simp only [hn]; omega
  · rw [hn]
    have : ∀ s, s ≤ p + knots.length + p - 1 →
        (⟨p, openKnots p true knots⟩ : Dir K).before s = min (s - p) (knots.length - 1) := by
      intro s
      induction s with
      | zero => intro _; simp [Dir.before]
      | succ s ih =>
        intro hs
        rw [Dir.before_succ, ih (by omega)]
        by_cases hE : (⟨p, openKnots p true knots⟩ : Dir K).Elem s
        · rw [if_pos hE]
          have := (hel s (by omega)).mp hE
          omega
        · rw [if_neg hE]
          have := mt (hel s (by omega)).mpr hE
          omega
    rw [this _ (Nat.le_refl _)]
    omega
  · intro g hgs
    simp only [dirSize, hn] at hgs
    simp only
    by_cases h1 : g ≤ p
    · exact ⟨p, h1, by omega, (hel p (by omega)).mpr ⟨Nat.le_refl _, by omega⟩⟩
    · exact ⟨g, Nat.le_refl _, by omega, (hel g (by omega)).mpr ⟨by omega, by omega⟩⟩
  · simp only [dirSize, hn]; omega
  · intro e s h
    obtain ⟨h1, h2, -⟩ := (spanOf_some _ _ _).mp h
    rw [hn] at h1
    have := (hel s h1).mp h2
    rw [openKnots_length]
    omega

-- quadratic splines on 4 elements
example : DirOK (⟨2, openKnots 2 true [0, 1, 3, 4, 5]⟩ : Dir ℚ) 4 :=
  (C26_open 2 [0, 1, 3, 4, 5] (by decide) (by
    intro i hi
    have : i = 0 ∨ i = 1 ∨ i = 2 ∨ i = 3 := by simp at hi; omega
    rcases this with rfl | rfl | rfl | rfl <;> norm_num)).1

theorem uniformKnots_gap (lower upper : K) (m : Nat) (hm : 0 < m) (i : Nat) (hi : i + 1 < (uniformKnots lower upper m).length) :
    (uniformKnots lower upper m).getD (i + 1) 0 = (uniformKnots lower upper m).getD i 0 + (upper - lower) / m := by
  simp only [uniformKnots, List.length_map, List.length_range] at hi
  have hmK : (m : K) ≠ 0 := Nat.cast_ne_zero.mpr (by omega)
  have h2 : i + 1 < m + 1 := hi
  have h1 : i < m + 1 := by omega
  simp only [uniformKnots, List.getD_eq_getElem?_getD, List.getElem?_map, List.getElem?_range h1, List.getElem?_range h2,
    Option.map_some, Option.getD_some, Nat.cast_add, Nat.cast_one]
  field_simp
  ring

/-- Knots of the uniform constructor start and end at the given corners and fulfil the assumptions of `C26_open` if
the elements are not smaller than `1e-8`. -/
theorem C26_uniform (lower upper : K) (m : Nat) (hm : 0 < m) (hw : (m : K) * (1 / 10 ^ 8) ≤ upper - lower) :
    (uniformKnots lower upper m).length = m + 1 ∧
    (uniformKnots lower upper m).headD 0 = lower ∧ (uniformKnots lower upper m).getLastD 0 = upper ∧
    ∀ i, i + 1 < (uniformKnots lower upper m).length →
      (uniformKnots lower upper m).getD i 0 + 1 / 10 ^ 8 ≤ (uniformKnots lower upper m).getD (i + 1) 0 := by
  have hmK : (0 : K) < m := Nat.cast_pos.mpr hm
  refine ⟨by simp [uniformKnots], ?_, ?_, ?_⟩
  · rw [uniformKnots, List.range_succ_eq_map]; simp
  · rw [List.getLastD_eq_getLast?, List.getLast?_eq_getElem?]
    simp only [uniformKnots, List.length_map, List.length_range, Nat.add_sub_cancel, List.getElem?_map,
      List.getElem?_range (show m < m + 1 by omega), Option.map_some, Option.getD_some]
    field_simp
    ring
  · intro i hi
    rw [uniformKnots_gap lower upper m hm i hi]
    have : 1 / 10 ^ 8 ≤ (upper - lower) / (m : K) := by rw [le_div_iff₀ hmK]; linarith
    linarith

example : uniformKnots (0 : ℚ) 3 4 = [0, 3 / 4, 3 / 2, 9 / 4, 3] := by decide +kernel

/-- C26 for whole bases: both constructors with open knot vectors give a basis on a structured grid that satisfies the
hypotheses of C01–C12: indices are in range, and every function is active on some element. -/
theorem C26_basis (dirs : List (Nat × List K))
    (h : ∀ x ∈ dirs, 2 ≤ x.2.length ∧ ∀ i, i + 1 < x.2.length → x.2.getD i 0 + 1 / 10 ^ 8 ≤ x.2.getD (i + 1) 0) :
    let ds := dirs.map fun x => (⟨x.1, openKnots x.1 true x.2⟩ : Dir K)
    let elements := dirs.map fun x => x.2.length - 1
    (IndexTree.PB.leaf (leaf ds elements)).WF ∧ (IndexTree.PB.leaf (leaf ds elements)).Covered (fun _ => True) ∧
    (∀ e, ((leaf ds elements).loc e).Nodup) ∧
    (leaf ds elements).dim = (dirs.map fun x => x.2.length - 1 + x.1).prod := by
  intro ds elements
  have hok : List.Forall₂ DirOK ds elements := by
    simp only [ds, elements]
    induction dirs with
    | nil => exact .nil
    | cons x dirs ih =>
      exact .cons (C26_open x.1 x.2 (h x (by simp)).1 (h x (by simp)).2).1 (ih fun y hy => h y (by simp [hy]))
  refine ⟨leaf_WF hok, leaf_Covered hok, ?_, ?_⟩
  · intro e
    obtain ⟨ss, hss, hb, -⟩ := elementSpans_eq hok e e.2
    simp only [leaf, hss, Option.elim]
    exact (C26_element ds ss hb).1
  · simp only [leaf, dimension_eq, ds, List.map_map]
    congr 1
    apply List.map_congr_left
    intro x hx
    exact (C26_open x.1 x.2 (h x hx).1 (h x hx).2).2.1

end Constructors

/-- Repeated knots: the constructor sets `elements_` to the number of knots minus one (bsplinebasis.hh:600-601), so that
in two dimensions elements get wrong knot spans and binding reads past the end of the knot vector (the assertion about
the number of elements notices this in debug mode only if the grid has the right number of elements). -/
theorem C26_repeated_false :
    let ds : List (Dir ℚ) := [⟨1, openKnots 1 true [0, 1, 1, 2]⟩, ⟨1, openKnots 1 true [0, 1, 1, 2]⟩]
    -- 2 × 2 non-degenerate spans; element 2 is the upper left one, but gets `elements_ = (3,3)`
    elementSpans ds [2, 2] 2 = some [1, 3] ∧ elementSpans ds [3, 3] 2 = none := by
  decide +kernel

end Verif.BSpline

import Verif.BSpline.Basis
import Verif.BSpline.Keys
import Verif.Dofs.SubEntity

/-!
# Boundary degrees of freedom of B-spline bases (C100)
-/

set_option linter.unusedSectionVars false

namespace Verif.BSpline

open Finset Verif.IndexTree Verif.Mapper Verif.Dofs

variable {K : Type} [Field K] [LinearOrder K] [IsStrictOrderedRing K]

/-! ## One direction with an open knot vector -/

/-- A direction with an open knot vector and `m` elements: element `i` is the knot span `order+i`, and the first and last knots are repeated. -/
structure OpenDir (d : Dir K) (m : Nat) : Prop where
  pos : 0 < m
  n : d.n = m + 1 + 2 * d.order
  knots : KnotsOK d
  ok : DirOK d m
  span : ∀ i < m, spanOf d i = some (d.order + i)
  left : ∀ i ≤ d.order, d.t i = d.t d.order
  right : ∀ i ≤ d.order, d.t (d.order + m + i) = d.t (d.order + m)

theorem openDir (p : Nat) (knots : List K) (hm : 2 ≤ knots.length)
    (hg : ∀ i, i + 1 < knots.length → knots.getD i 0 + 1 / 10 ^ 8 ≤ knots.getD (i + 1) 0) :
    OpenDir (⟨p, openKnots p true knots⟩ : Dir K) (knots.length - 1) := by
  have hne : knots ≠ [] := by rintro rfl; simp at hm
  have hn : (⟨p, openKnots p true knots⟩ : Dir K).n = p + knots.length + p := openKnots_length p knots
  have hel := fun s hs => openKnots_elem p knots hg s hs (by omega)
  have hbef : ∀ s, s ≤ p + knots.length + p - 1 →
      (⟨p, openKnots p true knots⟩ : Dir K).before s = min (s - p) (knots.length - 1) := by
    intro s
    induction s with
    | zero => intro _; simp [Dir.before]
    | succ s ih =>
      intro hs
      rw [Dir.before_succ, ih (by omega)]
      by_cases hE : (⟨p, openKnots p true knots⟩ : Dir K).Elem s
      · rw [if_pos hE]
        have := (hel s (by omega)).mp hE
        omega
      · rw [if_neg hE]
        have := mt (hel s (by omega)).mpr hE
        omega
  refine ⟨by omega, by rw [hn]; simp only; omega, openKnots_OK p knots hm hg, (C26_open p knots hm hg).1, ?_, ?_, ?_⟩
  · intro i hi
    rw [spanOf_some]
    simp only
    refine ⟨by rw [hn]; omega, (hel _ (by omega)).mpr ⟨by omega, by omega⟩, ?_⟩
    rw [hbef _ (by omega)]
    omega
  · intro i hi
    simp only at hi ⊢
    simp only [Dir.t, openKnots_getD p knots hne]
    by_cases h : i < p
    · rw [if_pos h, if_neg (by omega), if_pos (by omega), Nat.sub_self]
    · rw [show i = p by omega]
  · intro i hi
    simp only at hi ⊢
    simp only [Dir.t, openKnots_getD p knots hne]
    rw [if_neg (by omega), if_neg (by omega : ¬ p + (knots.length - 1) < p), if_pos (by omega : p + (knots.length - 1) < p + knots.length)]
    by_cases h : i = 0
    · subst h
      rw [if_pos (by omega), Nat.add_zero]
    · rw [if_neg (by omega), if_pos (by omega), show p + (knots.length - 1) - p = knots.length - 1 by omega]

namespace OpenDir

variable {d : Dir K} {m : Nat} (h : OpenDir d m)
include h

theorem spanOK {i : Nat} (hi : i < m) : SpanOK d (d.order + i) := by
  obtain ⟨a1, a2, -⟩ := (spanOf_some _ _ _).mp (h.span i hi)
  have := eps_pos (K := K) 8
  exact ⟨a1, by unfold Dir.Elem at a2; linarith⟩

theorem size : dirSize d = m + d.order := by
  have := h.n
  simp only [dirSize]
  omega

theorem localSize_eq {i : Nat} (hi : i < m) : localSize d (d.order + i) = d.order + 1 := by
  have h1 := h.n
  have h2 := localSize_range d h.knots.size (d.order + i) (by omega)
  have h3 := localSize_le d (d.order + i)
  have q := (h2 (i + d.order)).mpr ⟨by omega, by omega, by rw [h.size]; omega⟩
  simp only [firstIndex] at q
  omega

theorem first_eq (i : Nat) : firstIndex d (d.order + i) = i := by
  simp [firstIndex]

/-- Values in the left end of the domain. -/
theorem at_left (r : Nat) (hr : r ≤ d.order) (i : Nat) (hi : i < d.n - r - 1) :
    tableN d d.order (d.t d.order) r i = if i + r = d.order then 1 else 0 := by
  have hn := h.n
  have hm := h.pos
  have hs := h.spanOK h.pos
  rw [Nat.add_zero] at hs
  induction r generalizing i with
  | zero => rfl
  | succ r ih =>
    rw [tableN_succ h.knots d.order _ r i hi, ih (by omega) i (by omega), ih (by omega) (i + 1) (by omega)]
    by_cases h1 : i + (r + 1) = d.order
    · rw [if_pos h1, if_neg (by omega), if_pos (by omega)]
      have e1 : i + 1 + (r + 1) = d.order + 1 := by omega
      have hl := h.left (i + 1) (by omega)
      have := hs.pos
      simp only [wt, e1, hl]
      rw [mul_zero, zero_add, mul_one]
      exact mul_inv_cancel₀ (sub_ne_zero.mpr (ne_of_gt this))
    · rw [if_neg h1]
      by_cases h2 : i + r = d.order
      · rw [if_pos h2, if_neg (by omega), h.left i (by omega)]
        ring
      · rw [if_neg h2, if_neg (by omega)]
        ring

/-- Values in the right end of the domain. -/
theorem at_right (r : Nat) (hr : r ≤ d.order) (i : Nat) (hi : i < d.n - r - 1) :
    tableN d (d.order + (m - 1)) (d.t (d.order + m)) r i = if i = d.order + (m - 1) then 1 else 0 := by
  have hn := h.n
  have hm := h.pos
  have hs := (h.spanOK (show m - 1 < m by omega)).pos
  rw [show d.order + (m - 1) + 1 = d.order + m by omega] at hs
  induction r generalizing i with
  | zero => rfl
  | succ r ih =>
    rw [tableN_succ h.knots _ _ r i hi, ih (by omega) i (by omega), ih (by omega) (i + 1) (by omega)]
    by_cases h1 : i = d.order + (m - 1)
    · rw [if_pos h1, if_neg (by omega)]
      have e1 : i + (r + 1) = d.order + m + r := by omega
      have hl := h.right r (by omega)
      simp only [wt, e1, hl]
      rw [mul_zero, add_zero, mul_one, h1]
      exact mul_inv_cancel₀ (sub_ne_zero.mpr (ne_of_gt hs))
    · rw [if_neg h1]
      by_cases h2 : i + 1 = d.order + (m - 1)
      · rw [if_pos h2, show i + 1 + (r + 1) = d.order + m + r by omega, h.right r (by omega)]
        ring
      · rw [if_neg h2]
        ring

end OpenDir

/-! ## Several directions -/

/-- In direction `a`, only function `i` does not vanish, and it is one. -/
structure Pick (a : Arg K) (i : Nat) : Prop where
  lo : firstIndex a.1 a.2.1 ≤ i
  hi : i < firstIndex a.1 a.2.1 + localSize a.1 a.2.1
  val : ∀ F : Nat → K, ∑ r ∈ range (localSize a.1 a.2.1), argValue a r * F (firstIndex a.1 a.2.1 + r) = F i

theorem OpenDir.pick_left {d : Dir K} {m : Nat} (h : OpenDir d m) : Pick (d, d.order + 0, 0) 0 := by
  have hf := h.first_eq 0
  have hl := h.localSize_eq h.pos
  refine ⟨le_of_eq hf, by simp only [hf, hl]; omega, fun F => ?_⟩
  simp only [hf, hl]
  rw [Finset.sum_eq_single 0]
  · simp only [argValue, hf]
    have e : toGlobal d (d.order + 0) 0 = d.t d.order := by simp [toGlobal]
    have hn := h.n
    have hp := h.pos
    have := h.at_left d.order le_rfl 0 (by omega)
    rw [if_pos (by omega)] at this
    rw [e, Nat.add_zero, Nat.add_zero, this, one_mul]
  · intro r hr h0
    rw [mem_range] at hr
    simp only [argValue, hf]
    have e : toGlobal d (d.order + 0) 0 = d.t d.order := by simp [toGlobal]
    have hn := h.n
    have hp := h.pos
    have := h.at_left d.order le_rfl (0 + r) (by omega)
    rw [if_neg (by omega)] at this
    rw [e, Nat.add_zero, this, zero_mul]
  · intro h0
    simp at h0

theorem OpenDir.pick_right {d : Dir K} {m : Nat} (h : OpenDir d m) : Pick (d, d.order + (m - 1), 1) (m - 1 + d.order) := by
  have hp := h.pos
  have hf := h.first_eq (m - 1)
  have hl := h.localSize_eq (show m - 1 < m by omega)
  have hn := h.n
  have e : toGlobal d (d.order + (m - 1)) 1 = d.t (d.order + m) := by
    simp only [toGlobal, show d.order + (m - 1) + 1 = d.order + m by omega]
    ring
  refine ⟨by simp [hf], by simp only [hf, hl]; omega, fun F => ?_⟩
  simp only [hf, hl]
  rw [Finset.sum_eq_single d.order]
  · simp only [argValue, hf]
    have := h.at_right d.order le_rfl (m - 1 + d.order) (by omega)
    rw [if_pos (by omega)] at this
    rw [e, this, one_mul]
  · intro r hr h0
    rw [mem_range] at hr
    simp only [argValue, hf]
    have := h.at_right d.order le_rfl (m - 1 + r) (by omega)
    rw [if_neg (by omega)] at this
    rw [e, this, zero_mul]
  · intro h0
    simp at h0

/-- On a facet, only the functions with a fixed digit in one direction matter. -/
theorem facet_congr (args : List (Arg K)) (k i : Nat) (hk : k < args.length) (hp : ∀ a, args[k]? = some a → Pick a i) (F G : List Nat → K)
    (h : ∀ g, List.Forall₂ (fun (a : Arg K) i => firstIndex a.1 a.2.1 ≤ i ∧ i < firstIndex a.1 a.2.1 + localSize a.1 a.2.1) args g →
      g[k]? = some i → F g = G g) : nest args F = nest args G := by
  induction args generalizing k F G with
  | nil => simp at hk
  | cons a args ih =>
    simp only [nest]
    cases k with
    | zero =>
      have p := hp a rfl
      rw [p.val (fun j => nest args fun g => F (j :: g)), p.val (fun j => nest args fun g => G (j :: g))]
      exact nest_congr args _ _ fun g hg => h _ (.cons ⟨p.lo, p.hi⟩ hg) rfl
    | succ k =>
      refine sum_congr rfl fun r hr => ?_
      rw [mem_range] at hr
      rw [ih k (by simpa using hk) (fun a ha => hp a (by simpa using ha)) _ _ fun g hg hgk =>
        h _ (.cons ⟨by omega, by omega⟩ hg) (by simpa using hgk)]

/-- … and they are linearly independent there. -/
theorem facet_independent (dss : List (Dir K × Nat)) (hok : ∀ a ∈ dss, KnotsOK a.1 ∧ SpanOK a.1 a.2) (k : Nat) (v : K) (i : Nat)
    (hp : ∀ a, dss[k]? = some a → Pick (a.1, a.2, v) i) (F : List Nat → K)
    (h0 : ∀ xs : List K, xs.length = dss.length → (∀ j x, xs[j]? = some x → if j = k then x = v else 0 < x ∧ x < 1) →
      nest (List.zipWith (fun a x => (a.1, a.2, x)) dss xs) F = 0) :
    ∀ g, List.Forall₂ (fun (a : Dir K × Nat) i => firstIndex a.1 a.2 ≤ i ∧ i < firstIndex a.1 a.2 + localSize a.1 a.2) dss g →
      g[k]? = some i → F g = 0 := by
  induction dss generalizing k F with
  | nil =>
    intro g hg hk
    cases hg
    simp at hk
  | cons a dss ih =>
    intro g hg hk
    cases hg with
    | @cons _ j _ g h1 h2 =>
    cases k with
    | zero =>
      simp only [List.getElem?_cons_zero, Option.some.injEq] at hk
      subst hk
      refine nest_independent dss (fun b hb => hok b (by simp [hb])) (fun g => F (j :: g)) ?_ g h2
      intro xs hl hx
      have := h0 (v :: xs) (by simp [hl]) (by
        intro n x hn
        cases n with
        | zero => simp at hn; simp [hn]
        | succ n =>
          rw [if_neg (by omega)]
          exact hx x (List.mem_of_getElem? (by simpa using hn)))
      simp only [List.zipWith_cons_cons, nest] at this
      rwa [(hp a rfl).val (fun j => nest (List.zipWith (fun a x => (a.1, a.2, x)) dss xs) fun g => F (j :: g))] at this
    | succ k =>
      refine ih (fun b hb => hok b (by simp [hb])) k (fun a ha => hp a (by simpa using ha)) (fun g => F (j :: g)) ?_ g h2 (by simpa using hk)
      intro xs hl hx
      have := local_independent (hok a (by simp)).1 (hok a (by simp)).2
        (fun i => nest (List.zipWith (fun a x => (a.1, a.2, x)) dss xs) fun g => F (i :: g)) (by
          intro x hx1 hx2
          have := h0 (x :: xs) (by simp [hl]) (by
            intro n y hn
            cases n with
            | zero => simp at hn; rw [if_neg (by omega), ← hn]; exact ⟨hx1, hx2⟩
            | succ n =>
              have := hx n y (by simpa using hn)
              simpa using this)
          simpa [nest] using this) (j - firstIndex a.1 a.2) (by omega)
      rwa [show firstIndex a.1 a.2 + (j - firstIndex a.1 a.2) = j by omega] at this

/-! ## Elements -/

section
variable {ds : List (Dir K)} {elements : List Nat}

theorem openDirs_ok (h : List.Forall₂ OpenDir ds elements) : List.Forall₂ DirOK ds elements ∧ ∀ d ∈ ds, KnotsOK d := by
  induction h with
  | nil => exact ⟨.nil, by simp⟩
  | cons h1 _ ih => exact ⟨.cons h1.ok ih.1, by simpa using ⟨h1.knots, ih.2⟩⟩

/-- Knot spans of the elements. -/
def spans (ds : List (Dir K)) (a : List Nat) : List Nat := List.zipWith (fun d i => d.order + i) ds a

theorem openDirs_spans (h : List.Forall₂ OpenDir ds elements) (e : Nat) :
    elementSpans ds elements e = some (spans ds (getIJK e elements)) := by
  induction h generalizing e with
  | nil => rfl
  | @cons d m ds ms h1 _ ih =>
    have := ih (e / m)
    simp only [elementSpans] at this ⊢
    simp only [getIJK, List.zipWith_cons_cons, List.foldr_cons, this, h1.span _ (Nat.mod_lt _ h1.pos), spans, Option.bind_some, Option.map_some]

theorem openDirs_pos (h : List.Forall₂ OpenDir ds elements) : ∀ m ∈ elements, 0 < m := by
  induction h with
  | nil => simp
  | cons h1 _ ih => simpa using ⟨h1.pos, ih⟩

theorem openDirs_digits (h : List.Forall₂ OpenDir ds elements) (e : Nat) : List.Forall₂ (· < ·) (getIJK e elements) elements :=
  getIJK_ok elements (openDirs_pos h) e

theorem openDirs_sizes (h : List.Forall₂ OpenDir ds elements) {a : List Nat} (ha : List.Forall₂ (· < ·) a elements) :
    List.zipWith firstIndex ds (spans ds a) = a ∧ List.zipWith localSize ds (spans ds a) = ds.map fun d => d.order + 1 := by
  induction h generalizing a with
  | nil => cases ha; exact ⟨rfl, rfl⟩
  | @cons d m ds ms h1 _ ih =>
    cases ha with
    | @cons i _ a _ h3 h4 =>
      have := ih h4
      simp only [spans] at this ⊢
      simp only [List.zipWith_cons_cons, List.map_cons, this, h1.first_eq, h1.localSize_eq h3, and_self]

theorem openDirs_limits (h : List.Forall₂ OpenDir ds elements) : ds.map dirSize = List.zipWith (fun d m => m + d.order) ds elements := by
  induction h with
  | nil => rfl
  | cons h1 _ ih => rw [List.map_cons, ih, h1.size]; rfl

/-- The discrete function on an element as nested sums. -/
theorem spline_nest (h : List.Forall₂ OpenDir ds elements) (e : Nat) (he : e < elements.prod) (b : Nat → K) (xs : List K) (hxs : xs.length = ds.length) :
    splineAt ds elements b e xs = some (nest (ds.zip ((spans ds (getIJK e elements)).zip xs)) fun g => b (flatIndex g (ds.map dirSize))) := by
  obtain ⟨h1, h2⟩ := openDirs_ok h
  obtain ⟨ss, hss, hb, hsp⟩ := spans_ok h1 h2 e he
  have hz := zip_facts (xs := xs) hb.length_eq hxs
  have := combine_eq (ds.zip (ss.zip xs)) (args_ok hsp xs) b
  rw [hz.1, hz.2] at this
  have e1 := openDirs_spans h e
  rw [hss] at e1
  obtain rfl := Option.some.inj e1
  rw [splineAt, hss, Option.bind_some, this]

/-- Digit `i/2` is the smallest possible (`i` even), or the largest possible (`i` odd): the numbering of the facets of cubes. -/
def Extreme (limits digits : List Nat) (i : Nat) : Prop :=
  ∃ a m, digits[i / 2]? = some a ∧ limits[i / 2]? = some m ∧ if i % 2 = 0 then a = 0 else a + 1 = m

instance (limits digits : List Nat) (i : Nat) : Decidable (Extreme limits digits i) :=
  match h1 : digits[i / 2]?, h2 : limits[i / 2]? with
  | some a, some m => decidable_of_iff (if i % 2 = 0 then a = 0 else a + 1 = m) (by unfold Extreme; rw [h1, h2]; simp)
  | none, _ => isFalse (by unfold Extreme; rw [h1]; simp)
  | _, none => isFalse (by unfold Extreme; rw [h2]; simp)

theorem forall₂_get {α β : Type} {R : α → β → Prop} {l : List α} {m : List β} (h : List.Forall₂ R l m) {k : Nat} {a : α} (ha : l[k]? = some a) :
    ∃ b, m[k]? = some b ∧ R a b := by
  induction h generalizing k with
  | nil => simp at ha
  | cons h1 _ ih =>
    cases k with
    | zero => simp at ha; subst ha; exact ⟨_, rfl, h1⟩
    | succ k => simpa using ih (by simpa using ha)

/-- The facet of an element and the digit of the functions that do not vanish there. -/
theorem extreme_pick (h : List.Forall₂ OpenDir ds elements) {a : List Nat} {i : Nat} (hx : Extreme elements a i) {d : Dir K}
    (hd : ds[i / 2]? = some d) : ∃ s, (spans ds a)[i / 2]? = some s ∧
      Pick (d, s, (if i % 2 = 0 then 0 else 1 : K)) (if i % 2 = 0 then 0 else dirSize d - 1) := by
  obtain ⟨j, m, h1, h2, h3⟩ := hx
  obtain ⟨m', hm', hO⟩ := forall₂_get h hd
  rw [h2] at hm'
  obtain rfl := Option.some.inj hm'
  refine ⟨d.order + j, by simp [spans, List.getElem?_zipWith, hd, h1], ?_⟩
  by_cases hi : i % 2 = 0
  · rw [if_pos hi] at h3
    subst h3
    rw [if_pos hi, if_pos hi]
    exact hO.pick_left
  · rw [if_neg hi] at h3
    rw [if_neg hi, if_neg hi, hO.size, show j = m - 1 by omega, show m + d.order - 1 = m - 1 + d.order by omega]
    exact hO.pick_right

/-- An element where a function is active: in each direction the digit of the function, or the last element. -/
def home (elements g : List Nat) : List Nat := List.zipWith (fun m j => min j (m - 1)) elements g

theorem home_spec (h : List.Forall₂ OpenDir ds elements) {g : List Nat} (hg : List.Forall₂ (· < ·) g (ds.map dirSize)) :
    List.Forall₂ (· < ·) (home elements g) elements ∧
    List.Forall₂ (fun (a : Dir K × Nat) i => firstIndex a.1 a.2 ≤ i ∧ i < firstIndex a.1 a.2 + localSize a.1 a.2) (ds.zip (spans ds (home elements g))) g ∧
    ∀ i, Extreme (ds.map dirSize) g i → Extreme elements (home elements g) i := by
  induction h generalizing g with
  | nil => cases hg; exact ⟨.nil, .nil, fun i hi => by obtain ⟨a, m, h1, -⟩ := hi; simp at h1⟩
  | @cons d m ds ms h1 _ ih =>
    cases hg with
    | @cons j _ g _ h3 h4 =>
      rw [h1.size] at h3
      have hp := h1.pos
      obtain ⟨i1, i2, i3⟩ := ih h4
      have hm : min j (m - 1) < m := by omega
      refine ⟨.cons hm i1, .cons ?_ i2, ?_⟩
      · simp only [h1.first_eq, h1.localSize_eq hm]
        omega
      · intro i hi
        obtain ⟨a, n, q1, q2, q3⟩ := hi
        cases hk : i / 2 with
        | zero =>
          rw [hk] at q1 q2
          simp only [List.map_cons, List.getElem?_cons_zero, Option.some.injEq] at q1 q2
          refine ⟨min j (m - 1), m, by rw [hk]; rfl, by rw [hk]; rfl, ?_⟩
          rw [h1.size] at q2
          split at q3
          · rename_i he; rw [if_pos he]; omega
          · rename_i he; rw [if_neg he]; omega
        | succ k =>
          rw [hk] at q1 q2
          have e1 : (2 * k + i % 2) / 2 = k := by omega
          have e2 : (2 * k + i % 2) % 2 = i % 2 := by omega
          obtain ⟨a', n', r1, r2, r3⟩ := i3 (2 * k + i % 2) ⟨a, n, by rw [e1]; simpa using q1, by rw [e1]; simpa using q2, by rw [e2]; exact q3⟩
          rw [e1] at r1 r2
          rw [e2] at r3
          exact ⟨a', n', by rw [hk]; simpa [home] using r1, by rw [hk]; simpa using r2, r3⟩

/-! ## Boundary values -/

/-- Two discrete functions agree on the facets of the domain with number `i`. -/
def AgreeOnSide (ds : List (Dir K)) (elements : List Nat) (c c' : Nat → K) (i : Nat) : Prop :=
  ∀ e < elements.prod, Extreme elements (getIJK e elements) i → ∀ xs : List K, xs.length = ds.length → (∀ x ∈ xs, 0 ≤ x ∧ x ≤ 1) →
    xs[i / 2]? = some (if i % 2 = 0 then 0 else 1) → splineAt ds elements c e xs = splineAt ds elements c' e xs

/-- **C100, one side.** -/
theorem C100_side (h : List.Forall₂ OpenDir ds elements) (i : Nat) (c c' : Nat → K) :
    AgreeOnSide ds elements c c' i ↔
      ∀ j < dimension ds, Extreme (ds.map dirSize) (getIJK j (ds.map dirSize)) i → c j = c' j := by
  have hdim : dimension ds = (ds.map dirSize).prod := dimension_eq ds
  constructor
  · intro ha j hj hx
    rw [hdim] at hj
    have hpos := pos_of_lt_prod hj
    have hg := getIJK_ok _ hpos j
    have hfl := flatIndex_getIJK _ j hj
    revert hg hfl hx
    generalize getIJK j (ds.map dirSize) = g
    intro hx hg hfl
    obtain ⟨s1, s2, s3⟩ := home_spec h hg
    have he := flatIndex_lt s1
    have hee := getIJK_flatIndex s1
    have hxe := s3 i hx
    have hA := ha _ he (by rw [hee]; exact hxe)
    have hsn := fun b xs hxs => spline_nest h _ he b xs hxs
    rw [hee] at hsn
    obtain ⟨a, n, q1, q2, q3⟩ := id hx
    rw [List.getElem?_map, Option.map_eq_some_iff] at q2
    obtain ⟨d, hd, rfl⟩ := q2
    obtain ⟨s, hs, hP⟩ := extreme_pick h hxe hd
    have hlen : ds.length = (spans ds (home elements g)).length := by
      have := s1.length_eq
      have := h.length_eq
      simp only [spans, List.length_zipWith]
      omega
    obtain ⟨hok1, hok2⟩ := openDirs_ok h
    obtain ⟨ss, hss, hb, hsp⟩ := spans_ok hok1 hok2 _ he
    rw [openDirs_spans h, hee, Option.some.injEq] at hss
    subst hss
    have key := facet_independent (ds.zip (spans ds (home elements g))) (by
        intro b hb
        obtain ⟨k, hk, rfl⟩ := List.mem_iff_getElem.mp hb
        simp only [List.length_zip] at hk
        simp only [List.getElem_zip]
        exact ⟨(hsp k (by omega) (by omega)).1, (hsp k (by omega) (by omega)).2.1⟩)
      (i / 2) (if i % 2 = 0 then 0 else 1) (if i % 2 = 0 then 0 else dirSize d - 1) (by
        intro b hb
        rw [List.getElem?_zip_eq_some] at hb
        rw [hd, hs, Option.some.injEq, Option.some.injEq] at hb
        rw [← hb.1, ← hb.2]
        exact hP)
      (fun g => c (flatIndex g (ds.map dirSize)) + (-1) * c' (flatIndex g (ds.map dirSize))) (by
        intro xs hxs hx
        have hxs' : xs.length = ds.length := by rw [hxs, List.length_zip]; omega
        have e1 : List.zipWith (fun (a : Dir K × Nat) x => ((a.1, a.2, x) : Arg K)) (ds.zip (spans ds (home elements g))) xs =
            ds.zip ((spans ds (home elements g)).zip xs) := by
          apply List.ext_getElem
          · simp only [List.length_zipWith, List.length_zip]; omega
          · intros; simp
        have hi2 : i / 2 < xs.length := by rw [hxs']; exact (List.getElem?_eq_some_iff.mp hd).1
        have h1 := hA xs hxs' (by
          intro x hxm
          obtain ⟨n, hn⟩ := List.mem_iff_getElem?.mp hxm
          have := hx n x hn
          split at this
          · rw [this]; split <;> simp
          · exact ⟨this.1.le, this.2.le⟩) (by
          have := hx (i / 2) xs[i / 2] (List.getElem?_eq_getElem hi2)
          rw [if_pos rfl] at this
          rw [List.getElem?_eq_getElem hi2, this])
        rw [hsn c xs hxs', hsn c' xs hxs', Option.some.injEq] at h1
        rw [e1, nest_add, nest_smul, h1]
        ring) g s2 (by
          rw [q1]
          split at q3
          · rename_i h0; rw [if_pos h0, q3]
          · rename_i h0; rw [if_neg h0, ← q3]; rfl)
    rw [hfl] at key
    linear_combination key
  · intro ha e he hx xs hxs _ hxi
    rw [spline_nest h e he c xs hxs, spline_nest h e he c' xs hxs]
    congr 1
    obtain ⟨a, n, q1, q2, q3⟩ := id hx
    have hi2 : i / 2 < ds.length := by rw [h.length_eq]; exact (List.getElem?_eq_some_iff.mp q2).1
    obtain ⟨s, hs, hP⟩ := extreme_pick h hx (List.getElem?_eq_getElem hi2)
    have hsl : (spans ds (getIJK e elements)).length = ds.length := by
      have := (openDirs_digits h e).length_eq
      have := h.length_eq
      simp only [spans, List.length_zipWith]
      omega
    obtain ⟨hok1, hok2⟩ := openDirs_ok h
    obtain ⟨ss, hss, hb, hsp⟩ := spans_ok hok1 hok2 e he
    rw [openDirs_spans h, Option.some.injEq] at hss
    subst hss
    refine facet_congr _ (i / 2) (if i % 2 = 0 then 0 else dirSize ds[i / 2] - 1) (by simp only [List.length_zip]; omega) ?_ _ _ ?_
    · intro b hb
      rw [List.getElem?_zip_eq_some, List.getElem?_zip_eq_some, hs, hxi, List.getElem?_eq_getElem hi2] at hb
      simp only [Option.some.injEq] at hb
      have : b = (ds[i / 2], s, (if i % 2 = 0 then 0 else 1 : K)) := by
        obtain ⟨b1, b2, b3⟩ := b
        simp only at hb
        rw [hb.1, hb.2.1, hb.2.2]
      rw [this]
      exact hP
    · intro g hg hgi
      have hact := active_digits (args_ok hsp xs) hg
      rw [(zip_facts (xs := xs) hsl.symm hxs).1] at hact
      refine ha _ (by rw [hdim]; exact flatIndex_lt hact) ?_
      rw [getIJK_flatIndex hact]
      refine ⟨_, dirSize ds[i / 2], hgi, by rw [List.getElem?_map, List.getElem?_eq_getElem hi2]; rfl, ?_⟩
      have := (forall₂_get hact hgi)
      obtain ⟨b, hb1, hb2⟩ := this
      rw [List.getElem?_map, List.getElem?_eq_getElem hi2, Option.map_some, Option.some.injEq] at hb1
      split
      · rfl
      · rename_i h0; rw [if_neg h0] at hb2; omega

/-! ## Visited degrees of freedom -/

/-- The reference cube. -/
def cubeGeo (dim : Nat) : Geo := ⟨dim, 2 ^ dim⟩

/-- Local keys of the finite element bound to element `e`, bsplinebasis.hh:401-430 (`bind`) and 262-320. -/
def elementKeys (ds : List (Dir K)) (elements : List Nat) (e : Nat) : List Key :=
  (localKeys (List.zipWith localSize ds ((elementSpans ds elements e).getD []))).map fun k => ⟨k.1, k.2.1, k.2.2⟩

/-- `forEachBoundaryDOF(basis, f)`, boundarydofs.hh:38-54, 75-91, 111-127, for a B-spline basis. Sub-entities contained in an intersection: those of the reference
cube, subentitydofs.hh:69-93, 110-114. -/
def splineCalls (ds : List (Dir K)) (elements : List Nat) (hasBoundary : Fin elements.prod → Bool) (isects : Fin elements.prod → List BIsect)
    (els : List (Fin elements.prod)) : Option (List (Visit (Fin elements.prod))) :=
  forEachBoundaryDOF (PB.leaf (leaf ds elements)).model (fun _ e => elementKeys ds elements e)
    (fun _ i c k => stdInc (cubeGeo ds.length) i c k.codim k.sub) hasBoundary isects els

/-- The intersections of a structured grid: facet `i` of an element is a boundary intersection if the element is at this end of the grid. -/
structure StructuredBoundary (elements : List Nat) (hasBoundary : Fin elements.prod → Bool) (isects : Fin elements.prod → List BIsect) : Prop where
  reported : ∀ e, ∀ is ∈ isects e, is.boundary = true → hasBoundary e = true
  facets : ∀ e i, (∃ is ∈ isects e, is.boundary = true ∧ is.indexInInside = i) ↔ Extreme elements (getIJK e elements) i

/-- The local keys say on which facets of the element a local function lives. -/
def KeysFaithful (sizes : List Nat) : Prop :=
  ∀ l < sizes.prod, ∀ i < 2 * sizes.length, ∀ k : Nat × Nat × Nat, (localKeys sizes)[l]? = some k →
    (stdInc (cubeGeo sizes.length) i 1 k.2.1 k.1 = true ↔ Extreme sizes (getIJK l sizes) i)

theorem elementKeys_eq (h : List.Forall₂ OpenDir ds elements) (e : Nat) :
    elementKeys ds elements e = (localKeys (ds.map fun d => d.order + 1)).map fun k => ⟨k.1, k.2.1, k.2.2⟩ := by
  rw [elementKeys, openDirs_spans h, Option.getD_some, (openDirs_sizes h (openDirs_digits h e)).2]

theorem localKeys_length (sizes : List Nat) : (localKeys sizes).length = sizes.prod := by
  rw [localKeys, List.length_map, List.length_range, foldl_mul, Nat.one_mul]

theorem loc_eq (h : List.Forall₂ OpenDir ds elements) (e : Fin elements.prod) :
    (leaf ds elements).loc e = (List.range (ds.map fun d => d.order + 1).prod).map fun l =>
      flatIndex (List.zipWith (· + ·) (getIJK e elements) (getIJK l (ds.map fun d => d.order + 1))) (ds.map dirSize) := by
  obtain ⟨h1, h2⟩ := openDirs_sizes h (openDirs_digits h e)
  simp only [leaf, openDirs_spans h, Option.elim, indices, elementSize_eq, h1, h2]

/-- Digits of element and local function. -/
theorem extreme_add (h : List.Forall₂ OpenDir ds elements) {a b : List Nat} {i : Nat} (h1 : Extreme elements a i)
    (h2 : Extreme (ds.map fun d => d.order + 1) b i) : Extreme (ds.map dirSize) (List.zipWith (· + ·) a b) i := by
  obtain ⟨x, m, p1, p2, p3⟩ := h1
  obtain ⟨y, n, q1, q2, q3⟩ := h2
  rw [List.getElem?_map, Option.map_eq_some_iff] at q2
  obtain ⟨d, hd, rfl⟩ := q2
  obtain ⟨m', hm', hO⟩ := forall₂_get h hd
  rw [p2] at hm'
  obtain rfl := Option.some.inj hm'
  refine ⟨x + y, m + d.order, by simp [List.getElem?_zipWith, p1, q1], by rw [List.getElem?_map, hd, Option.map_some, hO.size], ?_⟩
  split at p3
  · rename_i h0; rw [if_pos h0] at q3 ⊢; omega
  · rename_i h0; rw [if_neg h0] at q3 ⊢; omega

theorem sum_digits (h : List.Forall₂ OpenDir ds elements) {a b : List Nat} (ha : List.Forall₂ (· < ·) a elements)
    (hb : List.Forall₂ (· < ·) b (ds.map fun d => d.order + 1)) : List.Forall₂ (· < ·) (List.zipWith (· + ·) a b) (ds.map dirSize) := by
  induction h generalizing a b with
  | nil => cases ha; exact .nil
  | @cons d m ds ms h1 _ ih =>
    cases ha with
    | cons h3 h4 =>
    rw [List.map_cons] at hb
    cases hb with
    | cons h5 h6 => exact .cons (by rw [h1.size]; simp only; omega) (ih h4 h6)

/-- Each function is the sum of digits of its home and of a local function. -/
theorem home_sum (h : List.Forall₂ OpenDir ds elements) {g : List Nat} (hg : List.Forall₂ (· < ·) g (ds.map dirSize)) :
    ∃ b, List.Forall₂ (· < ·) b (ds.map fun d => d.order + 1) ∧ List.zipWith (· + ·) (home elements g) b = g ∧
      ∀ i, Extreme (ds.map dirSize) g i → Extreme (ds.map fun d => d.order + 1) b i := by
  induction h generalizing g with
  | nil => cases hg; exact ⟨[], .nil, rfl, fun i hi => by obtain ⟨a, m, h1, -⟩ := hi; simp at h1⟩
  | @cons d m ds ms h1 _ ih =>
    cases hg with
    | @cons j _ g _ h3 h4 =>
      rw [h1.size] at h3
      have hp := h1.pos
      obtain ⟨b, i1, i2, i3⟩ := ih h4
      refine ⟨(j - min j (m - 1)) :: b, .cons (by simp only; omega) i1, ?_, ?_⟩
      · simp only [home] at i2
        simp only [home, List.zipWith_cons_cons, i2]
        congr 1
        omega
      · intro i hi
        obtain ⟨a, n, q1, q2, q3⟩ := hi
        cases hk : i / 2 with
        | zero =>
          rw [hk] at q1 q2
          simp only [List.map_cons, List.getElem?_cons_zero, Option.some.injEq] at q1 q2
          refine ⟨j - min j (m - 1), d.order + 1, by rw [hk]; rfl, by rw [hk]; rfl, ?_⟩
          rw [h1.size] at q2
          split at q3
          · rename_i he; rw [if_pos he]; omega
          · rename_i he; rw [if_neg he]; omega
        | succ k =>
          rw [hk] at q1 q2
          have e1 : (2 * k + i % 2) / 2 = k := by omega
          have e2 : (2 * k + i % 2) % 2 = i % 2 := by omega
          obtain ⟨a', n', r1, r2, r3⟩ := i3 (2 * k + i % 2) ⟨a, n, by rw [e1]; simpa using q1, by rw [e1]; simpa using q2, by rw [e2]; exact q3⟩
          rw [e1] at r1 r2
          rw [e2] at r3
          exact ⟨a', n', by rw [hk]; simpa using r1, by rw [hk]; simpa using r2, r3⟩

theorem visited_of_faithful (h : List.Forall₂ OpenDir ds elements) (hF : KeysFaithful (ds.map fun d => d.order + 1))
    {hasBoundary : Fin elements.prod → Bool} {isects : Fin elements.prod → List BIsect} (hB : StructuredBoundary elements hasBoundary isects)
    (els : List (Fin elements.prod)) (hels : ∀ e, e ∈ els) :
    ∃ calls, splineCalls ds elements hasBoundary isects els = some calls ∧
      ∀ j, (∃ v ∈ calls, v.index = [j]) ↔ j < dimension ds ∧ ∃ i, Extreme (ds.map dirSize) (getIJK j (ds.map dirSize)) i := by
  have hWF := leaf_WF (openDirs_ok h).1
  have R := (PB.leaf (leaf ds elements)).refines hWF
  have hlen : ∀ e, ((leaf ds elements).loc e).length = (elementKeys ds elements e).length := by
    intro e
    rw [loc_eq h, elementKeys_eq h, List.length_map, List.length_map, List.length_range, localKeys_length]
  have hkm : KeysMatch (fun _ (e : Fin elements.prod) => elementKeys ds elements e) (LocalView.fresh (PB.leaf (leaf ds elements)).model).tree := by
    intro p hp e
    have : leafInfo (LocalView.fresh (PB.leaf (leaf ds elements)).model).tree = [(0, fun e => ((leaf ds elements).loc e).length)] := rfl
    rw [this, List.mem_singleton] at hp
    subst hp
    exact hlen e
  have hloc : ∀ e, localIndices (PB.leaf (leaf ds elements)).model e = some (((leaf ds elements).loc e).map fun i => [i]) := by
    intro e
    rw [localIndices_eq R]
    simp [PB.spec, specLeaf]
  have hn : (ds.map fun d => d.order + 1).length = ds.length := by simp
  have hdim : dimension ds = (ds.map dirSize).prod := dimension_eq ds
  have hpos : ∀ n ∈ ds.map fun d => d.order + 1, 0 < n := by simp
  obtain ⟨calls, h1, h2⟩ := C32_boundary _ hWF (fun _ e => elementKeys ds elements e)
    (fun _ i c k => stdInc (cubeGeo ds.length) i c k.codim k.sub) hkm hasBoundary isects hB.reported els
  refine ⟨calls, h1, fun j => ⟨?_, ?_⟩⟩
  · rintro ⟨v, hv, hvj⟩
    obtain ⟨-, q2, q3, ⟨k, q4, q5⟩, L, q6, q7⟩ := (h2 v).mp hv
    rw [hasKey_leaf _ _ hlen] at q4
    rw [hloc] at q6
    obtain rfl := Option.some.inj q6
    rw [elementKeys_eq h, List.getElem?_map, Option.map_eq_some_iff] at q4
    obtain ⟨k0, r1, rfl⟩ := q4
    have hl : v.localIndex < (ds.map fun d => d.order + 1).prod := by
      have := (List.getElem?_eq_some_iff.mp r1).1
      rwa [localKeys_length] at this
    have hxe := (hB.facets v.element v.isect.indexInInside).mp ⟨_, q2, q3, rfl⟩
    have hi : v.isect.indexInInside < 2 * (ds.map fun d => d.order + 1).length := by
      obtain ⟨a, m, -, s2, -⟩ := hxe
      have := (List.getElem?_eq_some_iff.mp s2).1
      have := h.length_eq
      omega
    have hxl := (hF _ hl _ hi k0 r1).mp (by rw [hn]; exact q5)
    rw [loc_eq h, List.map_map, List.getElem?_map, List.getElem?_range hl, Option.map_some, Option.some.injEq, hvj] at q7
    simp only [Function.comp, List.cons.injEq, and_true] at q7
    have hs := sum_digits h (openDirs_digits h v.element) (getIJK_ok _ hpos v.localIndex)
    rw [← q7]
    refine ⟨by rw [hdim]; exact flatIndex_lt hs, v.isect.indexInInside, ?_⟩
    rw [getIJK_flatIndex hs]
    exact extreme_add h hxe hxl
  · rintro ⟨hj, i, hx⟩
    rw [hdim] at hj
    have hg := getIJK_ok _ (pos_of_lt_prod hj) j
    have hfl := flatIndex_getIJK _ j hj
    revert hx hg hfl
    generalize getIJK j (ds.map dirSize) = g
    intro hx hg hfl
    obtain ⟨s1, -, s3⟩ := home_spec h hg
    obtain ⟨b, b1, b2, b3⟩ := home_sum h hg
    have he := flatIndex_lt s1
    have hee := getIJK_flatIndex s1
    have hl := flatIndex_lt b1
    have hle := getIJK_flatIndex b1
    obtain ⟨is, i1, i2, i3⟩ := (hB.facets ⟨_, he⟩ i).mpr (by rw [hee]; exact s3 i hx)
    have hi : i < 2 * (ds.map fun d => d.order + 1).length := by
      obtain ⟨a, m, -, t2, -⟩ := hx
      have := (List.getElem?_eq_some_iff.mp t2).1
      simp only [List.length_map] at this ⊢
      omega
    have hkl : flatIndex b (ds.map fun d => d.order + 1) < (localKeys (ds.map fun d => d.order + 1)).length := by
      rw [localKeys_length]; exact hl
    have hk := List.getElem?_eq_getElem hkl
    generalize (localKeys (ds.map fun d => d.order + 1))[flatIndex b (ds.map fun d => d.order + 1)] = k0 at hk
    have hinc := (hF _ hl i hi _ hk).mpr (by rw [hle]; exact b3 i hx)
    refine ⟨⟨⟨_, he⟩, is, flatIndex b (ds.map fun d => d.order + 1), [j]⟩, (h2 _).mpr ⟨hels _, i1, i2, ⟨⟨k0.1, k0.2.1, k0.2.2⟩, ?_, ?_⟩, _, hloc _, ?_⟩, rfl⟩
    · rw [hasKey_leaf _ _ hlen, elementKeys_eq h, List.getElem?_map, hk, Option.map_some]
    · simp only [i3]
      rw [hn] at hinc
      exact hinc
    · rw [loc_eq h, List.map_map, List.getElem?_map, List.getElem?_range hl, Option.map_some]
      simp only [Function.comp, hee, hle, b2, hfl]

/-- One direction. -/
theorem faithful_one (n : Nat) (hn : 2 ≤ n) : KeysFaithful [n] := by
  intro l hl i hi k hk
  simp only [List.prod_cons, List.prod_nil, Nat.mul_one, List.length_singleton] at hl hi
  have hg : getIJK l [n] = [l] := by simp [getIJK, Nat.mod_eq_of_lt hl]
  have hk' : k = if l = 0 then (0, 1, 0) else if l = n - 1 then (1, 1, 0) else (0, 0, l - 1) := by
    rw [C29_one n hn] at hk
    cases l with
    | zero => simpa using hk.symm
    | succ l =>
      rw [List.getElem?_cons_succ, List.getElem?_append, List.length_map, List.length_range] at hk
      rw [if_neg (by omega)]
      by_cases h1 : l < n - 2
      · rw [if_pos h1, List.getElem?_map, List.getElem?_range h1] at hk
        rw [if_neg (by omega)]
        simpa using hk.symm
      · rw [if_neg h1, show l - (n - 2) = 0 by omega] at hk
        rw [if_pos (by omega)]
        simpa using hk.symm
  have hx : Extreme [n] (getIJK l [n]) i ↔ (if i % 2 = 0 then l = 0 else l + 1 = n) := by
    unfold Extreme
    rw [hg, show i / 2 = 0 by omega]
    simp
  rw [hx, hk']
  have hi' : i = 0 ∨ i = 1 := by omega
  have t1 : stdInc (cubeGeo 1) 0 1 1 0 = true ∧ stdInc (cubeGeo 1) 1 1 1 0 = false ∧ stdInc (cubeGeo 1) 0 1 1 1 = false ∧
    stdInc (cubeGeo 1) 1 1 1 1 = true ∧ ∀ i, stdInc (cubeGeo 1) i 1 0 0 = false := by
    refine ⟨by decide, by decide, by decide, by decide, fun i => by simp [stdInc]⟩
  obtain ⟨t1, t2, t3, t4, t5⟩ := t1
  by_cases c0 : l = 0
  · rcases hi' with rfl | rfl
    · simp [c0, t1]
    · simp [c0, t2]; omega
  · by_cases c1 : l = n - 1
    · rcases hi' with rfl | rfl
      · simp [c1, t3, show ¬ n - 1 = 0 by omega]
      · simp [c1, t4, show ¬ n - 1 = 0 by omega]; omega
    · rcases hi' with rfl | rfl
      · simp [c0, c1, t5]
      · simp [c0, c1, t5]; omega

/-- Two directions. -/
theorem faithful_two (n m : Nat) (hn : 2 ≤ n) (hm : 2 ≤ m) : KeysFaithful [n, m] := by
  intro l hl i hi k hk
  simp only [List.prod_cons, List.prod_nil, Nat.mul_one, List.length_cons, List.length_nil] at hl hi
  have ha : l % n < n := Nat.mod_lt _ (by omega)
  have hb : l / n < m := Nat.div_lt_of_lt_mul hl
  have hg : getIJK l [n, m] = [l % n, l / n] := by simp [getIJK, Nat.mod_eq_of_lt hb]
  have hk' := localKeys2_get n m _ _ hn hm ha hb
  rw [Nat.div_add_mod, hk, Option.some.injEq] at hk'
  rw [hg, hk']
  generalize l % n = a at *
  generalize l / n = b at *
  have hx : Extreme [n, m] [a, b] i ↔ (if i = 0 then a = 0 else if i = 1 then a + 1 = n else if i = 2 then b = 0 else b + 1 = m) := by
    unfold Extreme
    have hi' : i = 0 ∨ i = 1 ∨ i = 2 ∨ i = 3 := by omega
    rcases hi' with rfl | rfl | rfl | rfl <;> simp
  rw [hx]
  have hi' : i = 0 ∨ i = 1 ∨ i = 2 ∨ i = 3 := by omega
  show stdInc (cubeGeo 2) i 1 (key2 n m a b).2.1 (key2 n m a b).1 = true ↔ _
  unfold key2
  clear hx hk hk' hg hl
  rcases hi' with rfl | rfl | rfl | rfl
  · rw [if_pos (show 0 = 0 from rfl)]
    split_ifs <;> first
      | exact iff_of_true (by dsimp only; decide) (by omega)
      | exact iff_of_false (by dsimp only; decide) (by omega)
  · rw [if_neg (show ¬ 1 = 0 by decide), if_pos (show 1 = 1 from rfl)]
    split_ifs <;> first
      | exact iff_of_true (by dsimp only; decide) (by omega)
      | exact iff_of_false (by dsimp only; decide) (by omega)
  · rw [if_neg (show ¬ 2 = 0 by decide), if_neg (show ¬ 2 = 1 by decide), if_pos (show 2 = 2 from rfl)]
    split_ifs <;> first
      | exact iff_of_true (by dsimp only; decide) (by omega)
      | exact iff_of_false (by dsimp only; decide) (by omega)
  · rw [if_neg (show ¬ 3 = 0 by decide), if_neg (show ¬ 3 = 1 by decide), if_neg (show ¬ 3 = 2 by decide)]
    split_ifs <;> first
      | exact iff_of_true (by dsimp only; decide) (by omega)
      | exact iff_of_false (by dsimp only; decide) (by omega)

/-- `Agree`: two coefficient vectors agree in the visited degrees of freedom. -/
def AgreeVisited {E : Type} (calls : List (Visit E)) (c c' : Nat → K) : Prop := ∀ v ∈ calls, ∀ j, v.index = [j] → c j = c' j

/-- **C100, visited degrees of freedom.** Bases with open knot vectors and order at least one on structured grids, in one and two dimensions: `forEachBoundaryDOF` visits exactly the functions
that are the first or the last one in some direction. Missing: three dimensions and order zero, see `C100_interior_false`, `C100_missed_false`, `C100_order0_false`. -/
theorem C100_visited_partial (h : List.Forall₂ OpenDir ds elements) (hd : ds.length = 1 ∨ ds.length = 2) (ho : ∀ d ∈ ds, 1 ≤ d.order)
    {hasBoundary : Fin elements.prod → Bool} {isects : Fin elements.prod → List BIsect} (hB : StructuredBoundary elements hasBoundary isects)
    (els : List (Fin elements.prod)) (hels : ∀ e, e ∈ els) :
    ∃ calls, splineCalls ds elements hasBoundary isects els = some calls ∧
      ∀ j, (∃ v ∈ calls, v.index = [j]) ↔ j < dimension ds ∧ ∃ i, Extreme (ds.map dirSize) (getIJK j (ds.map dirSize)) i := by
  refine visited_of_faithful h ?_ hB els hels
  rcases hd with hd | hd
  · obtain ⟨d, rfl⟩ := List.length_eq_one_iff.mp hd
    exact faithful_one _ (by have := ho d (by simp); simp only; omega)
  · obtain ⟨d, d', rfl⟩ := List.length_eq_two.mp hd
    exact faithful_two _ _ (by have := ho d (by simp); simp only; omega) (by have := ho d' (by simp); simp only; omega)

/-- **C100, boundary values.** Two discrete functions agree on the boundary of the domain if and only if their coefficients agree for all functions that are the first or the last one
in some direction. All orders, all dimensions. -/
theorem C100_boundary (h : List.Forall₂ OpenDir ds elements) (c c' : Nat → K) :
    (∀ i, AgreeOnSide ds elements c c' i) ↔
      ∀ j < dimension ds, (∃ i, Extreme (ds.map dirSize) (getIJK j (ds.map dirSize)) i) → c j = c' j := by
  constructor
  · rintro ha j hj ⟨i, hi⟩
    exact (C100_side h i c c').mp (ha i) j hj hi
  · intro ha i
    exact (C100_side h i c c').mpr fun j hj hi => ha j hj ⟨i, hi⟩

/-- **C100.** Prescribing the visited degrees of freedom prescribes exactly the values on the boundary. Missing: as in `C100_visited_partial`. -/
theorem C100_values_partial (h : List.Forall₂ OpenDir ds elements) (hd : ds.length = 1 ∨ ds.length = 2) (ho : ∀ d ∈ ds, 1 ≤ d.order)
    {hasBoundary : Fin elements.prod → Bool} {isects : Fin elements.prod → List BIsect} (hB : StructuredBoundary elements hasBoundary isects)
    (els : List (Fin elements.prod)) (hels : ∀ e, e ∈ els) :
    ∃ calls, splineCalls ds elements hasBoundary isects els = some calls ∧
      ∀ c c' : Nat → K, AgreeVisited calls c c' ↔ ∀ i, AgreeOnSide ds elements c c' i := by
  obtain ⟨calls, h1, h2⟩ := C100_visited_partial h hd ho hB els hels
  refine ⟨calls, h1, fun c c' => ?_⟩
  rw [C100_boundary h]
  constructor
  · intro ha j hj hx
    obtain ⟨v, hv, hvj⟩ := (h2 j).mpr ⟨hj, hx⟩
    exact ha v hv j hvj
  · intro ha v hv j hvj
    obtain ⟨hj, hx⟩ := (h2 j).mp ⟨v, hv, hvj⟩
    exact ha j hj hx

end

/-- The constructors of the basis, for knots at distance at least `1e-8`. -/
theorem C100_open (dirs : List (Nat × List K))
    (h : ∀ x ∈ dirs, 2 ≤ x.2.length ∧ ∀ i, i + 1 < x.2.length → x.2.getD i 0 + 1 / 10 ^ 8 ≤ x.2.getD (i + 1) 0) :
    List.Forall₂ OpenDir (dirs.map fun x => (⟨x.1, openKnots x.1 true x.2⟩ : Dir K)) (dirs.map fun x => x.2.length - 1) := by
  induction dirs with
  | nil => exact .nil
  | cons x dirs ih => exact .cons (openDir x.1 x.2 (h x (by simp)).1 (h x (by simp)).2) (ih fun y hy => h y (by simp [hy]))

/-! ## Examples -/

/-- The intersections of a structured grid, facet by facet. -/
def gridIsects (elements : List Nat) (e : Fin elements.prod) : List BIsect :=
  (List.range (2 * elements.length)).map fun i => ⟨decide (Extreme elements (getIJK e elements) i), i⟩

def gridHasBoundary (elements : List Nat) (e : Fin elements.prod) : Bool := (gridIsects elements e).any (·.boundary)

theorem gridIsects_ok (elements : List Nat) : StructuredBoundary elements (gridHasBoundary elements) (gridIsects elements) := by
  refine ⟨fun e is his hb => List.any_eq_true.mpr ⟨is, his, hb⟩, fun e i => ⟨?_, fun hx => ?_⟩⟩
  · rintro ⟨is, his, hb, rfl⟩
    obtain ⟨n, -, rfl⟩ := List.mem_map.mp his
    simpa using hb
  · refine ⟨_, List.mem_map.mpr ⟨i, ?_, rfl⟩, by simpa using hx, rfl⟩
    obtain ⟨a, m, -, h2, -⟩ := hx
    have := (List.getElem?_eq_some_iff.mp h2).1
    rw [List.mem_range]
    omega

/-- The indices visited by `forEachBoundaryDOF` on the whole grid, without repetitions. -/
def visited (ds : List (Dir K)) (elements : List Nat) : Option (List MI) :=
  (splineCalls ds elements (gridHasBoundary elements) (gridIsects elements) (List.finRange elements.prod)).map fun cs => (cs.map (·.index)).dedup

/-- Quadratic splines on `2 × 2` elements: only the four inner functions are not visited. -/
example : (visited [exDir, exDir] [2, 2]).map (fun l => (List.range 16).filter fun j => [j] ∉ l) = some [5, 6, 9, 10] := by decide +kernel

example : List.Forall₂ OpenDir [exDir, exDir] [2, 2] := C100_open [(2, [0, 1, 3]), (2, [0, 1, 3])] (by
  intro x hx
  have : x = (2, [0, 1, 3]) := by simpa using hx
  subst this
  refine ⟨by decide, fun i hi => ?_⟩
  have : i = 0 ∨ i = 1 := by simp at hi; omega
  rcases this with rfl | rfl <;> norm_num)

/-- Three dimensions: the local keys are not set up, so that an inner function is visited. -/
theorem C100_interior_false : let d : Dir ℚ := ⟨1, openKnots 1 true [0, 1, 2]⟩
    OpenDir d 2 ∧ (visited [d, d, d] [2, 2, 2]).map (fun l => decide ([13] ∈ l)) = some true ∧
    ¬ ∃ i, Extreme ([d, d, d].map dirSize) (getIJK 13 ([d, d, d].map dirSize)) i := by
  refine ⟨openDir 1 [0, 1, 2] (by decide) (fun i hi => ?_), by decide +kernel, ?_⟩
  · have : i = 0 ∨ i = 1 := by simp at hi; omega
    rcases this with rfl | rfl <;> norm_num
  · rintro ⟨i, a, m, h1, h2, h3⟩
    have e1 : getIJK 13 ([(⟨1, openKnots 1 true [0, 1, 2]⟩ : Dir ℚ), ⟨1, openKnots 1 true [0, 1, 2]⟩, ⟨1, openKnots 1 true [0, 1, 2]⟩].map dirSize) = [1, 1, 1] := by decide
    have e2 : ([(⟨1, openKnots 1 true [0, 1, 2]⟩ : Dir ℚ), ⟨1, openKnots 1 true [0, 1, 2]⟩, ⟨1, openKnots 1 true [0, 1, 2]⟩].map dirSize) = [3, 3, 3] := by decide
    rw [e1] at h1
    rw [e2] at h2
    have ha := List.mem_of_getElem? h1
    have hm := List.mem_of_getElem? h2
    simp only [List.mem_cons, List.not_mem_nil, or_false, or_self] at ha hm
    subst ha hm
    split at h3 <;> omega

/-- … and functions at the boundary are not visited. -/
theorem C100_missed_false : let d : Dir ℚ := ⟨2, openKnots 2 true [0, 1, 2]⟩; let d' : Dir ℚ := ⟨2, openKnots 2 true [0, 1]⟩
    OpenDir d 2 ∧ OpenDir d' 1 ∧ (visited [d, d', d'] [2, 1, 1]).map (fun l => decide ([19] ∈ l)) = some false ∧
    Extreme ([d, d', d'].map dirSize) (getIJK 19 ([d, d', d'].map dirSize)) 1 := by
  refine ⟨openDir 2 [0, 1, 2] (by decide) (fun i hi => ?_), openDir 2 [0, 1] (by decide) (fun i hi => ?_), by decide +kernel, by decide +kernel⟩
  · have : i = 0 ∨ i = 1 := by simp at hi; omega
    rcases this with rfl | rfl <;> norm_num
  · have : i = 0 := by simp at hi; omega
    subst this
    norm_num

/-- Order zero: the last function is not visited, although it does not vanish at the boundary. -/
theorem C100_order0_false : let d : Dir ℚ := ⟨0, openKnots 0 true [0, 1, 2]⟩
    OpenDir d 2 ∧ visited [d] [2] = some [[0]] ∧ splineAt [d] [2] (fun j => if j = 1 then 1 else 0) 1 [1] = some 1 := by
  refine ⟨openDir 0 [0, 1, 2] (by decide) (fun i hi => ?_), by decide +kernel, by decide +kernel⟩
  have : i = 0 ∨ i = 1 := by simp at hi; omega
  rcases this with rfl | rfl <;> norm_num

/-- Knot vectors that are not open: all functions vanish at the boundary, but one is visited. -/
theorem C100_closed_false : let d : Dir ℚ := ⟨1, [0, 1, 2, 3]⟩
    visited [d] [3] = some [[0]] ∧ ∀ c : Nat → ℚ, splineAt [d] [3] c 0 [0] = some 0 ∧ splineAt [d] [3] c 2 [1] = some 0 := by
  refine ⟨by decide +kernel, fun c => ?_⟩
  have e1 : elementSpans [(⟨1, [0, 1, 2, 3]⟩ : Dir ℚ)] [3] 0 = some [0] := by decide +kernel
  have e2 : elementSpans [(⟨1, [0, 1, 2, 3]⟩ : Dir ℚ)] [3] 2 = some [2] := by decide +kernel
  have f1 : indices [(⟨1, [0, 1, 2, 3]⟩ : Dir ℚ)] [0] = [0] := by decide +kernel
  have f2 : indices [(⟨1, [0, 1, 2, 3]⟩ : Dir ℚ)] [2] = [1] := by decide +kernel
  have g1 : evalValues [((⟨1, [0, 1, 2, 3]⟩ : Dir ℚ), 0, (0 : ℚ))] = [some 0] := by decide +kernel
  have g2 : evalValues [((⟨1, [0, 1, 2, 3]⟩ : Dir ℚ), 2, (1 : ℚ))] = [some 0] := by decide +kernel
  simp only [splineAt, e1, e2, Option.bind_some, List.zip_cons_cons, List.zip_nil_right, f1, f2, g1, g2, combine]
  simp

end Verif.BSpline

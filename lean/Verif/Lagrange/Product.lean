import Verif.Functions.Product
import Verif.Lagrange.Reproduction

/-!
# Products of Lagrange bases

Functions of bases that are composed of Lagrange bases, for instance of the Taylor–Hood basis: each component is a continuous piecewise polynomial, and all
tuples of such functions occur.
-/

namespace Verif.Lagrange.Product

open Verif.Lagrange Verif.Lagrange.Continuity Verif.Mapper Verif.IndexTree Verif.RoundTrip Verif.Product
open Verif.Discrete (Shapes VecOK slotsOn)
open Verif.Piola (Vec)

variable {E S α K : Type} [LinearOrder α] [Field K]  {n : Nat}

/-- All leaves of the tree are Lagrange bases on the whole grid view; `ord p` is the order of the leaf with tree path `p`. -/
def LagrangeTree (G : LGrid E S α) (keys : Nat → Geo → List Key) (b : PB E) (ord : List Nat → Nat) : Prop :=
  ∀ p L f, Part b p L f → 1 ≤ ord p ∧ (G.dim = 3 → ord p ≤ 17) ∧ (∀ e, f e = true) ∧ L = lagrangeLeaf G (ord p) fun e => keys (ord p) (G.elemGeo e)

/-- The finite elements of the leaves are Lagrange elements. -/
def LagrangeShapes (G : LGrid E S α) (keys : Nat → Geo → List Key) (b : PB E) (ord : List Nat → Nat) (P : Shapes E (Vec K n) K) : Prop :=
  ∀ p L f, Part b p L f → P.rows p = 1 ∧ ∀ e x, P.shape false p e (if P.uses p then some e else none) x =
    (lagrangeValues (ord p) (keys (ord p)) (G.elemGeo e) x).map fun y => [[y]]

theorem fold_sum (L M : List K) (h : L.length = M.length) :
    (L.zip M).foldl (fun y cv => y + cv.1 * cv.2) 0 = ((List.range L.length).map fun i => L[i]?.getD 0 * M[i]?.getD 0).sum := by
  have hfold : ∀ (L : List (K × K)) (y : K), L.foldl (fun y cv => y + cv.1 * cv.2) y = y + (L.map fun cv => cv.1 * cv.2).sum := by
    intro L
    induction L with
    | nil => simp
    | cons a L ih => intro y; rw [List.foldl_cons, ih, List.map_cons, List.sum_cons, add_assoc]
  rw [hfold, zero_add]
  congr 1
  apply List.ext_getElem (by simp [h])
  intro i h1 h2
  simp only [List.length_map, List.length_range] at h2
  have h3 : i < M.length := by omega
  simp [h2, h3]

theorem combination_value {G : LGrid E S α} {keys : Nat → Geo → List Key} {b : PB E} {ord : List Nat → Nat} {P : Shapes E (Vec K n) K}
    (hs : LagrangeShapes G keys b ord P) {p : List Nat} {L : Leaf E} {f : E → Bool} (hp : Part b p L f) (u : Nat → K) (e : E) (x : Vec K n) :
    combination P false p e (((lagrangeLeaf G (ord p) fun e => keys (ord p) (G.elemGeo e)).loc e).map u) x =
      [value G (ord p) (fun e => keys (ord p) (G.elemGeo e)) (lagrangeValues (ord p) (keys (ord p))) u e x] := by
  obtain ⟨hr, hsh⟩ := hs p L f hp
  rw [value, fold_sum _ _ (by simp [lagrangeLeaf, lagrangeValues])]
  simp only [combination, hr, hsh, Shapes.outCols, Bool.false_eq_true, if_false, List.range_one, List.flatMap_cons, List.flatMap_nil, List.map_cons, List.map_nil,
    List.append_nil]
  congr 2
  apply List.map_congr_left
  intro i hi
  congr 1
  rw [List.getElem?_map]
  cases (lagrangeValues (ord p) (keys (ord p)) (G.elemGeo e) x)[i]? <;> simp

theorem polyOn_const (order : Nat) (t : Geo) (c : K) : PolyOn (n := n) order t fun _ => c := by
  refine ⟨MvPolynomial.C c, ?_, fun x => by simp⟩
  unfold PolyDegree
  split
  · intro d; simp
  · split
    · exact ⟨.C _ _ _, .C _ _ _⟩
    · simp

theorem loc_ne_nil {G : LGrid E S α} (h : G.OK) (helem : ∀ e, Supported n (G.elemGeo e)) {order : Nat} (ho : 1 ≤ order)
    {keys : Geo → List Key} (hk : LagrangeKeys G order fun e => keys (G.elemGeo e)) (e : E) : (lagrangeLeaf G order fun e => keys (G.elemGeo e)).loc e ≠ [] := by
  intro hn
  simp only [lagrangeLeaf, List.map_eq_nil_iff] at hn
  have := unisolvent ho (helem e) (polyOn_const _ _ (1 : ℚ)) (polyOn_const _ _ 0) (fun k hkl => by
    have hv : ValidKey G order e k := by
      obtain ⟨h1, u, h2, h3⟩ := hkl
      have := (h.base.elemMem e).2
      exact ⟨by omega, u, h2, by rw [← this]; exact h3⟩
    have := (hk.mem e k).2 hv
    rw [hn] at this
    simp at this) 0
  norm_num at this

/-- **C99.** A basis composed of Lagrange bases spans exactly the tuples of continuous functions that are on every element polynomials of the degree of their leaf,
for all nestings and all merging strategies. -/
theorem C99_lagrange [CharZero K] {G : LGrid E S α} (h : G.OK) (closed : Closed G) (helem : ∀ e, Supported n (G.elemGeo e)) {keys : Nat → Geo → List Key}
    (hk : ∀ order, LagrangeKeys G order fun e => keys order (G.elemGeo e)) {b : PB E} (hb : b.WF) {ord : List Nat → Nat} (ht : LagrangeTree G keys b ord)
    {P : Shapes E (Vec K n) K} (hP : P.OK ⟨b.model, []⟩) (hd : P.dimC = 1) (hsep : Separate ⟨b.model, []⟩ P) (hs : LagrangeShapes G keys b ord P)
    (F : List Nat → E → Vec K n → K) :
    (∃ v, VecOK ⟨b.model, []⟩ 1 v ∧ ∀ p L f, Part b p L f → ∀ e x, component ⟨b.model, []⟩ P v false (some e) p x = some [F p e x]) ↔
      ∀ p L f, Part b p L f → Continuous G (F p) ∧ ∀ e, PolyOn (ord p) (G.elemGeo e) (F p e) := by
  have hne : ∀ p L f, Part b p L f → ∀ e, L.loc e ≠ [] := by
    intro p L f hp e
    obtain ⟨h1, -, -, rfl⟩ := ht p L f hp
    exact loc_ne_nil h helem h1 (hk _) e
  have key := C99_space hb hP hd hsep fun p e x => [F p e x]
  constructor
  · rintro ⟨v, hv, hc⟩ p L f hp
    obtain ⟨u, hu⟩ := key.1 ⟨v, hv, fun p L f hp e _ _ x => hc p L f hp e x⟩ p L f hp
    obtain ⟨h1, h17, hf, rfl⟩ := ht p L f hp
    refine (C84_space h closed helem h1 h17 (hk _) _).2 ⟨u, fun e x => ?_⟩
    have := hu e (hf e) (hne p _ f hp e) x
    rw [combination_value hs hp] at this
    simpa using this
  · intro hF
    obtain ⟨v, hv, hc⟩ := key.2 (fun p L f hp => by
      obtain ⟨h1, h17, hf, rfl⟩ := ht p L f hp
      obtain ⟨u, hu⟩ := (C84_space h closed helem h1 h17 (hk _) _).1 (hF p _ f hp)
      exact ⟨u, fun e _ _ x => by rw [combination_value hs hp, hu]⟩)
    exact ⟨v, hv, fun p L f hp e x => hc p L f hp e ((ht p L f hp).2.2.1 e) (hne p L f hp e) x⟩

/-- **C99.** The coefficients of these functions are unique. -/
theorem C99_lagrange_unique [CharZero K] {G : LGrid E S α} (h : G.OK) (helem : ∀ e, Supported n (G.elemGeo e)) {keys : Nat → Geo → List Key}
    (hk : ∀ order, LagrangeKeys G order fun e => keys order (G.elemGeo e)) {b : PB E} (hb : b.WF) (hpl : Plain b) {ord : List Nat → Nat} (ht : LagrangeTree G keys b ord)
    {P : Shapes E (Vec K n) K} (hP : P.OK ⟨b.model, []⟩) (hd : P.dimC = 1) (hsep : Separate ⟨b.model, []⟩ P) (hs : LagrangeShapes G keys b ord P)
    {v v' : Discrete.Vec K} (hv : VecOK ⟨b.model, []⟩ 1 v) (hv' : VecOK ⟨b.model, []⟩ 1 v')
    (heq : ∀ p L f, Part b p L f → ∀ e x, component ⟨b.model, []⟩ P v false (some e) p x = component ⟨b.model, []⟩ P v' false (some e) p x)
    {m : MI} (hm : m ∈ IndexSet b.model) : v m = v' m := by
  refine C99_unique hb hpl hP hd hsep (fun p L f hp u u' hu e _ i hi => ?_) hv hv' (fun p L f hp e _ _ x => heq p L f hp e x) hm
  have hw := hp.wf hb
  obtain ⟨h1, h17, hf, rfl⟩ := ht p L f hp
  refine C79_unique (n := n) h helem h1 h17 (hk _) u u' (fun e x => ?_) i (hw.1 e i hi)
  have := hu e (hf e) (loc_ne_nil h helem h1 (hk _) e) x
  rw [combination_value hs hp, combination_value hs hp] at this
  simpa using this

/-- The definition of the Taylor–Hood basis of order `k` with `d` velocity components, taylorhoodbasis.hh:46-58, with any merging strategies. -/
def taylorHood (G : LGrid E S α) (keys : Nat → Geo → List Key) (s : IMS) (blocked : Bool) (d k : Nat) : PB E :=
  .composite blocked [.power s d (.leaf (lagrangeLeaf G (k + 1) fun e => keys (k + 1) (G.elemGeo e))), .leaf (lagrangeLeaf G k fun e => keys k (G.elemGeo e))]

/-- Orders of the leaves of a Taylor–Hood basis. -/
def taylorHoodOrder (k : Nat) (p : List Nat) : Nat := if p.head? = some 0 then k + 1 else k

theorem taylorHood_part {G : LGrid E S α} {keys : Nat → Geo → List Key} {s : IMS} {blocked : Bool} {d k : Nat} {p : List Nat} {L : Leaf E} {f : E → Bool} :
    Part (taylorHood G keys s blocked d k) p L f ↔
      ((∃ i < d, p = [0, i] ∧ L = lagrangeLeaf G (k + 1) fun e => keys (k + 1) (G.elemGeo e)) ∨
        p = [1] ∧ L = lagrangeLeaf G k fun e => keys k (G.elemGeo e)) ∧ f = fun _ => true := by
  constructor
  · intro h
    cases h with
    | @composite _ _ j b q _ _ hk h =>
      match j with
      | 0 =>
        simp only [List.getElem?_cons_zero, Option.some.injEq] at hk
        subst hk
        cases h with
        | power hi h => cases h; exact ⟨.inl ⟨_, hi, rfl, rfl⟩, rfl⟩
      | 1 =>
        simp only [List.getElem?_cons_succ, List.getElem?_cons_zero, Option.some.injEq] at hk
        subst hk
        cases h
        exact ⟨.inr ⟨rfl, rfl⟩, rfl⟩
      | j + 2 => simp at hk
  · rintro ⟨⟨i, hi, rfl, rfl⟩ | ⟨rfl, rfl⟩, rfl⟩
    · exact .composite (k := 0) rfl (.power hi (.leaf _))
    · exact .composite (k := 1) rfl (.leaf _)

theorem taylorHood_tree {G : LGrid E S α} {keys : Nat → Geo → List Key} {s : IMS} {blocked : Bool} {d k : Nat} (hk : 1 ≤ k) (h17 : G.dim = 3 → k ≤ 16) :
    LagrangeTree G keys (taylorHood G keys s blocked d k) (taylorHoodOrder k) := by
  intro p L f hp
  obtain ⟨⟨i, hi, rfl, rfl⟩ | ⟨rfl, rfl⟩, rfl⟩ := taylorHood_part.1 hp
  · exact ⟨by simp [taylorHoodOrder], fun h => by have := h17 h; simp [taylorHoodOrder]; omega, fun _ => rfl, by simp [taylorHoodOrder]⟩
  · exact ⟨by simpa [taylorHoodOrder] using hk, fun h => by have := h17 h; simp [taylorHoodOrder]; omega, fun _ => rfl, by simp [taylorHoodOrder]⟩

/-- **C99.** The functions of the Taylor–Hood basis of order `k` are exactly the pairs of a velocity, whose components are continuous and on every element polynomials
of degree `k + 1`, and a continuous pressure that is on every element a polynomial of degree `k`. -/
theorem C99_taylorHood [CharZero K] {G : LGrid E S α} (h : G.OK) (closed : Closed G) (helem : ∀ e, Supported n (G.elemGeo e)) {keys : Nat → Geo → List Key}
    (hk : ∀ order, LagrangeKeys G order fun e => keys order (G.elemGeo e)) {s : IMS} {blocked : Bool} {d k : Nat} (ho : 1 ≤ k) (h17 : G.dim = 3 → k ≤ 16)
    (hb : (taylorHood G keys s blocked d k).WF) {P : Shapes E (Vec K n) K} (hP : P.OK ⟨(taylorHood G keys s blocked d k).model, []⟩) (hd : P.dimC = 1)
    (hsep : Separate ⟨(taylorHood G keys s blocked d k).model, []⟩ P) (hs : LagrangeShapes G keys (taylorHood G keys s blocked d k) (taylorHoodOrder k) P)
    (u : Nat → E → Vec K n → K) (q : E → Vec K n → K) :
    (∃ v, VecOK ⟨(taylorHood G keys s blocked d k).model, []⟩ 1 v ∧ ∀ e x,
        (∀ i < d, component ⟨(taylorHood G keys s blocked d k).model, []⟩ P v false (some e) [0, i] x = some [u i e x]) ∧
        component ⟨(taylorHood G keys s blocked d k).model, []⟩ P v false (some e) [1] x = some [q e x]) ↔
      (∀ i < d, Continuous G (u i) ∧ ∀ e, PolyOn (k + 1) (G.elemGeo e) (u i e)) ∧ Continuous G q ∧ ∀ e, PolyOn k (G.elemGeo e) (q e) := by
  have key := C99_lagrange h closed helem hk hb (taylorHood_tree ho h17) hP hd hsep hs (fun p => if p = [1] then q else u (p[1]?.getD 0))
  constructor
  · rintro ⟨v, hv, hc⟩
    have h1 := key.1 ⟨v, hv, fun p L f hp e x => by
      obtain ⟨⟨i, hi, rfl, rfl⟩ | ⟨rfl, rfl⟩, rfl⟩ := taylorHood_part.1 hp
      · simpa using (hc e x).1 i hi
      · simpa using (hc e x).2⟩
    refine ⟨fun i hi => ?_, ?_⟩
    · simpa [taylorHoodOrder] using h1 [0, i] _ _ (taylorHood_part.2 ⟨.inl ⟨i, hi, rfl, rfl⟩, rfl⟩)
    · simpa [taylorHoodOrder] using h1 [1] _ _ (taylorHood_part.2 ⟨.inr ⟨rfl, rfl⟩, rfl⟩)
  · rintro ⟨hu, hq⟩
    obtain ⟨v, hv, hc⟩ := key.2 (fun p L f hp => by
      obtain ⟨⟨i, hi, rfl, rfl⟩ | ⟨rfl, rfl⟩, rfl⟩ := taylorHood_part.1 hp
      · simpa [taylorHoodOrder] using hu i hi
      · simpa [taylorHoodOrder] using hq)
    refine ⟨v, hv, fun e x => ⟨fun i hi => ?_, ?_⟩⟩
    · simpa using hc [0, i] _ _ (taylorHood_part.2 ⟨.inl ⟨i, hi, rfl, rfl⟩, rfl⟩) e x
    · simpa using hc [1] _ _ (taylorHood_part.2 ⟨.inr ⟨rfl, rfl⟩, rfl⟩) e x

/-! ## Examples -/

/-- Shape functions of a Taylor–Hood basis on the grid of a quadrilateral and a triangle; derivatives are not used. -/
def thShapes (k : Nat) : Shapes (Fin 2) (Vec ℚ 2) ℚ where
  dimC := 1
  uses _ := true
  shape d p e _ x := (lagrangeValues (taylorHoodOrder k p) (gridKeys mixedGrid (taylorHoodOrder k p)) (mixedGrid.elemGeo e) x).map fun y =>
    [if d then [0, 0] else [y]]
  rows _ := 1
  dim := 2
  dimworld := 2
  jinv _ _ := [[1, 0], [0, 1]]
  ntre d p := if d then [p ++ [0], p ++ [1]] else [p]

abbrev thDemo : PB (Fin 2) := taylorHood mixedGrid (fun k => gridKeys mixedGrid k) .blockedInt true 2 1

theorem thDemo_slots : ∀ e, slotsOn ⟨thDemo.model, []⟩ e = if e = 0 then [([0, 0], 0, 9), ([0, 1], 9, 9), ([1], 18, 4)] else [([0, 0], 0, 6), ([0, 1], 6, 6), ([1], 12, 3)] := by
  decide +kernel

theorem thDemo_mem {e : Fin 2} {s : List Nat × Nat × Nat} (hs : s ∈ slotsOn ⟨thDemo.model, []⟩ e) :
    s.2.2 = (gridKeys mixedGrid (taylorHoodOrder 1 s.1) (mixedGrid.elemGeo e)).length := by
  rw [thDemo_slots] at hs
  have : ∀ e : Fin 2, ∀ s ∈ (if e = 0 then [([0, 0], 0, 9), ([0, 1], 9, 9), ([1], 18, 4)] else [([0, 0], 0, 6), ([0, 1], 6, 6), ([1], 12, 3)] : List (List Nat × Nat × Nat)),
      s.2.2 = (gridKeys mixedGrid (taylorHoodOrder 1 s.1) (mixedGrid.elemGeo e)).length := by decide +kernel
  exact this e s hs

theorem thShapes_OK : (thShapes 1).OK ⟨thDemo.model, []⟩ where
  number d e x s hs := by rw [thDemo_mem hs]; simp [thShapes, lagrangeValues]
  rows d e x s hs φ hφ := by
    simp only [thShapes, List.mem_map] at hφ
    obtain ⟨y, -, rfl⟩ := hφ
    cases d <;> simp [thShapes, Shapes.cols]
  range d e s hs := by cases d <;> simp [thShapes, Shapes.outCols]

theorem thShapes_separate : Separate ⟨thDemo.model, []⟩ (thShapes 1) := by
  intro d e
  rw [thDemo_slots]
  cases d <;> fin_cases e <;> simp [thShapes]

theorem thShapes_lagrange : LagrangeShapes mixedGrid (fun k => gridKeys mixedGrid k) thDemo (taylorHoodOrder 1) (thShapes 1) := by
  intro p L f hp
  exact ⟨rfl, fun e x => by simp [thShapes]⟩

theorem thDemo_WF : thDemo.WF := by
  have h : ∀ k, k ≤ 2 → (PB.leaf (lagrangeLeaf mixedGrid k fun e => gridKeys mixedGrid k (mixedGrid.elemGeo e))).WF := fun k hk =>
    lagrangeLeaf_WF mixedGrid_OK (by simp [lagrangeAccept, mixedGrid]) (gridKeys_keys mixedGrid_OK k)
  simp only [thDemo, taylorHood, PB.WF, PB.WFs]
  exact ⟨by simp, ⟨by decide, h 2 le_rfl⟩, h 1 (by decide), trivial⟩

/-- The velocity `(2, 3)` and the pressure `5` belong to the space. -/
example : ∃ v, VecOK ⟨thDemo.model, []⟩ 1 v ∧ ∀ (e : Fin 2) (x : Vec ℚ 2),
    (∀ i < 2, component ⟨thDemo.model, []⟩ (thShapes 1) v false (some e) [0, i] x = some [(i : ℚ) + 2]) ∧
    component ⟨thDemo.model, []⟩ (thShapes 1) v false (some e) [1] x = some [5] := by
  have hc : ∀ (order : Nat) (c : ℚ), Continuous mixedGrid (fun _ (_ : Vec ℚ 2) => c) ∧ ∀ e, PolyOn (n := 2) order (mixedGrid.elemGeo e) fun _ => c :=
    fun order c => ⟨fun _ _ _ _ _ => rfl, fun e => polyOn_const _ _ c⟩
  exact (C99_taylorHood mixedGrid_OK mixedGrid_closed mixed_elem (gridKeys_keys mixedGrid_OK) le_rfl (fun h => absurd h (by decide)) thDemo_WF thShapes_OK rfl
    thShapes_separate thShapes_lagrange (fun i _ _ => i + 2) (fun _ _ => 5)).2 ⟨fun i _ => hc 2 _, hc 1 5⟩

/-- A pressure that is not continuous does not belong to the space. -/
example : ¬ ∃ v, VecOK ⟨thDemo.model, []⟩ 1 v ∧ ∀ (e : Fin 2) (x : Vec ℚ 2),
    (∀ i < 2, component ⟨thDemo.model, []⟩ (thShapes 1) v false (some e) [0, i] x = some [0]) ∧
    component ⟨thDemo.model, []⟩ (thShapes 1) v false (some e) [1] x = some [if e = 0 then 1 else 0] := by
  intro hv
  have h := ((C99_taylorHood mixedGrid_OK mixedGrid_closed mixed_elem (gridKeys_keys mixedGrid_OK) le_rfl (fun h => absurd h (by decide)) thDemo_WF thShapes_OK rfl
    thShapes_separate thShapes_lagrange (fun _ _ _ => 0) (fun e _ => if e = 0 then 1 else 0)).1 hv).2.1
  have := h 0 ![1, 0] 1 ![1, 0] ⟨2, 1, 2, 1, by decide, by decide, by decide, by decide +kernel, by decide +kernel, by decide +kernel, by decide +kernel, by decide +kernel, by decide +kernel⟩
  simp at this

end Verif.Lagrange.Product

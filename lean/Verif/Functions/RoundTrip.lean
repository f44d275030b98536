import Verif.Functions.Interpolate
import Verif.Functions.Discrete

/-!
# Interpolation of discrete functions

`interpolate(basis, coeff, f)` where `f` is the discrete function with coefficients `v`: the loop of `Functions/Interpolate` with the local
function of `Functions/Discrete`.
-/

namespace Verif.RoundTrip

open Verif.IndexTree Verif.Container Verif.Interpolate Verif.Discrete

variable {E X K : Type} [CommRing K]

/-! ## Model -/

/-- Evaluation at `x` of a local function (`d`: of the derivative) of the discrete function with coefficients `v`, bound to `bd`,
discreteglobalbasisfunction.hh:336-371, 583-627. By `C41_global` the value is the same for all histories of the local function.
Evaluation of an unbound function is undefined. -/
def localEval (B : Basis E) (P : Shapes E X K) (v : Vec K) (d : Bool) (bd : Option E) (x : X) : Option (Pos → K) :=
  bd.bind fun e => (run B ⟨v, []⟩ [.new d, .bind 0 e]).bind fun s => eval B P s 0 x

/-- `ComponentFunction::operator()` and its derivative, interpolate.hh:71-86, as flat vectors: the entries of
`nodeToRangeEntry(node, treePath, y)`. -/
def component (B : Basis E) (P : Shapes E X K) (v : Vec K) (d : Bool) (bd : Option E) (p : List Nat) (x : X) : Option (List K) :=
  (localEval B P v d bd x).map fun y => (P.ntre d p).map y

/-- `fe.localInterpolation().interpolate(f, out)` for the leaf with tree path `p` on element `e`. Arguments are the function and its
derivative, which may be undefined. -/
abbrev Functionals (E X K : Type) := List Nat → E → (X → Option (List K)) → (X → Option (List K)) → Option (List K)

/-- The interpolation of the discrete function. Undefined behaviour gives no coefficients, and reading them is undefined. -/
def discreteInterp (B : Basis E) (P : Shapes E X K) (N : Functionals E X K) (needs : List Nat → E → Bool)
    (init : Option E → Option E) (v : Vec K) : Interp E K where
  needsDerivative := needs
  interp p e f df := (N p e (component B P v false f p) (component B P v true df p)).getD []
  derivInit := init

/-! ## Specification -/

/-- The linear combination of the shape functions of a leaf: all entries of the value, or of the derivative with respect to global
coordinates. -/
def combination (P : Shapes E X K) (d : Bool) (p : List Nat) (e : E) (c : List K) (x : X) : List K :=
  let φ := P.shape d p e (if P.uses p then some e else none) x
  let lin (r k : Nat) : K := ((List.range c.length).map fun i => c[i]?.getD 0 * (((φ[i]?.getD [])[r]?.getD [])[k]?.getD 0)).sum
  (List.range (P.rows p)).flatMap fun r => (List.range (P.outCols d)).map fun s =>
    if d then ((List.range P.dim).map fun k => lin r k * ((P.jinv e x)[k]?.getD [])[s]?.getD 0).sum else lin r s

/-- The functionals of each finite element are dual to its shape functions: the coefficients of a linear combination are recovered. The
derivative is only available if the element asks for it. -/
def Dual (B : Basis E) (P : Shapes E X K) (N : Functionals E X K) (needs : List Nat → E → Bool) : Prop :=
  ∀ e, ∀ s ∈ slotsOn B e, ∀ c : List K, c.length = s.2.2 →
    N s.1 e (fun x => some (combination P false s.1 e c x))
      (if needs s.1 e then fun x => some (combination P true s.1 e c x) else fun _ => none) = some c

/-- Different leaves belong to different entries of the range, and a leaf to pairwise different entries. -/
def Separate (B : Basis E) (P : Shapes E X K) : Prop :=
  ∀ d e, ((slotsOn B e).filter fun s => s.2.2 ≠ 0).Pairwise (fun s t => List.Disjoint (P.ntre d s.1) (P.ntre d t.1)) ∧
    ∀ s ∈ slotsOn B e, (P.ntre d s.1).Nodup

/-! ## Proofs -/

omit [CommRing K] in
theorem assign_map (dst : List Pos) (vals : List K) (y : Pos → K) (hl : dst.length = vals.length) (hn : dst.Nodup) :
    dst.map ((dst.zip vals).foldl (fun y p => fun q => if q = p.1 then p.2 else y q) y) = vals := by
  apply List.ext_getElem (by simpa using hl)
  intro k h1 h2
  simp only [List.length_map] at h1
  rw [List.getElem_map]
  refine assign_in _ _ _ k _ ?_ ?_
  · rw [List.getElem?_zip_eq_some]
    exact ⟨List.getElem?_eq_getElem h1, List.getElem?_eq_getElem h2⟩
  · intro z hz he
    rw [List.zip, List.drop_zipWith] at hz
    have hz1 := (List.of_mem_zip hz).1
    rw [he] at hz1
    obtain ⟨u, hu, hu'⟩ := List.getElem_of_mem hz1
    rw [List.getElem_drop] at hu'
    have := (hn.getElem_inj_iff (hi := by simp at hu; omega) (hj := h1)).mp hu'
    omega

/-- The coefficients of a leaf. -/
def leafCoefs (B : Basis E) (v : Vec K) (e : E) (off n : Nat) : List K :=
  (List.range n).map fun i => ((v (indexOn B e (off + i))).getD [])[0]?.getD 0

theorem entries_combination (B : Basis E) (P : Shapes E X K) (hd : P.dimC = 1) (d : Bool) (e : E) (v : Vec K) (x : X) (p : List Nat)
    (off n : Nat) : entries B P d e v x p off n = combination P d p e (leafCoefs B v e off n) x := by
  have hc : ∀ r k, comb B P d e v x p off n 0 r k = ((List.range (leafCoefs B v e off n).length).map fun i =>
      (leafCoefs B v e off n)[i]?.getD 0 *
        ((((P.shape d p e (if P.uses p then some e else none) x)[i]?.getD [])[r]?.getD [])[k]?.getD 0)).sum := by
    intro r k
    rw [comb, show (leafCoefs B v e off n).length = n by simp [leafCoefs]]
    congr 1
    apply List.map_congr_left
    intro i hi
    rw [List.mem_range] at hi
    simp [leafCoefs, hi]
  rw [entries, hd, combination]
  simp only [← hc]
  cases d <;> simp [entry]

theorem component_eq {b : PB E} (hb : b.WF) {pre : List Nat} (hp : HasPath b pre) (P : Shapes E X K) (hP : P.OK ⟨b.model, pre⟩)
    (hd : P.dimC = 1) (hsep : Separate ⟨b.model, pre⟩ P) {v : Vec K} (hv : VecOK ⟨b.model, pre⟩ 1 v) (d : Bool) (e : E)
    (s : List Nat × Nat × Nat) (hs : s ∈ slotsOn ⟨b.model, pre⟩ e) (hn : s.2.2 ≠ 0) (x : X) :
    component ⟨b.model, pre⟩ P v d (some e) s.1 x = some (combination P d s.1 e (leafCoefs ⟨b.model, pre⟩ v e s.2.1 s.2.2) x) := by
  obtain ⟨st, hst, h⟩ := aget_eval hb hp P hP (by rw [hd]; exact hv) [.new d, .bind 0 e] (by simp) (by simp)
    (a := (v, [some (d, some (e, v))])) (by simp [Discrete.absRun, Discrete.absStep])
  have hev := h 0 d e v rfl x
  simp only [component, localEval, Option.bind_some, hst, hev, Option.map_some, Option.some.injEq]
  obtain ⟨S1, S2, hS⟩ := List.append_of_mem hs
  obtain ⟨hpw, hnd⟩ := hsep d e
  have hdis : ∀ t ∈ S2, t.2.2 ≠ 0 → List.Disjoint (P.ntre d s.1) (P.ntre d t.1) := by
    intro t ht htn
    rw [hS, List.filter_append, List.filter_cons_of_pos (by simpa using hn)] at hpw
    exact (List.pairwise_cons.1 (List.pairwise_append.1 hpw).2.1).1 t (List.mem_filter.2 ⟨ht, by simpa using htn⟩)
  rw [hS, List.foldl_append, List.foldl_cons, ← entries_combination _ _ hd]
  refine Eq.trans ?_ (assign_map (P.ntre d s.1) (entries ⟨b.model, pre⟩ P d e v x s.1 s.2.1 s.2.2)
    (S1.foldl (assignLeaf ⟨b.model, pre⟩ P d e v x) fun _ => 0) ?_ (hnd s hs))
  · apply List.map_congr_left
    intro q hq
    rw [slots_out _ _ _ _ _ _ _ _ _ (fun t ht htn hqt => hdis t ht htn hq hqt), assignLeaf, if_neg hn]
  · rw [hP.range d e s hs, entries_length]

theorem visit_slot {b : PB E} {pre : List Nat} {e : E} {w : Visit E} (hw : w ∈ visitsOn b.model pre e) :
    w.element = e ∧ ∃ s ∈ slotsOn ⟨b.model, pre⟩ e, w.path = s.1 ∧ w.i < s.2.2 ∧ w.index = indexOn ⟨b.model, pre⟩ e (s.2.1 + w.i) := by
  rw [visitsOn] at hw
  split at hw
  · simp at hw
  · rename_i v' hv'
    split at hw
    · simp at hw
    · rename_i t ht
      simp only [List.mem_flatMap, List.mem_filterMap, Option.map_eq_some_iff, List.mem_range] at hw
      obtain ⟨s, hs, i, hi, m, hm, rfl⟩ := hw
      simp only [SubLocalView.bind, SubBasis.localView, subspaceBasis, Option.map_eq_some_iff] at hv'
      obtain ⟨lv, hlv, rfl⟩ := hv'
      refine ⟨rfl, s, ?_, rfl, hi, ?_⟩
      · rw [slotsOn]
        simp only [SubLocalView.tree] at ht
        simp only [hlv, ht]
        exact hs
      · simp only [SubLocalView.index] at hm
        simp [indexOn, hlv, hm]

/-- The coefficients computed on an element. -/
theorem coefs_eq {b : PB E} (hb : b.WF) {pre : List Nat} (hp : HasPath b pre) (P : Shapes E X K) (hP : P.OK ⟨b.model, pre⟩)
    (hd : P.dimC = 1) (hsep : Separate ⟨b.model, pre⟩ P) {N : Functionals E X K} {needs : List Nat → E → Bool}
    (hN : Dual ⟨b.model, pre⟩ P N needs) (init : Option E → Option E) {v : Vec K} (hv : VecOK ⟨b.model, pre⟩ 1 v) {es : List E}
    {w : Visit E} (hw : w ∈ visits b.model pre es) :
    ∃ x, v w.index = some [x] ∧ ((discreteInterp ⟨b.model, pre⟩ P N needs init v).coefs w.element w.path)[w.i]? = some x := by
  have hmem := visits_mem hb hp es w hw
  obtain ⟨c, hc, hcl⟩ := hv _ hmem
  obtain ⟨x, rfl⟩ := List.length_eq_one_iff.1 hcl
  refine ⟨x, hc, ?_⟩
  rw [visits, List.mem_flatMap] at hw
  obtain ⟨e, -, hw⟩ := hw
  obtain ⟨rfl, s, hs, hpath, hi, hidx⟩ := visit_slot hw
  have hn : s.2.2 ≠ 0 := by omega
  have key := hN w.element s hs (leafCoefs ⟨b.model, pre⟩ v w.element s.2.1 s.2.2) (by simp [leafCoefs])
  rw [Interp.coefs, discreteInterp, hpath]
  simp only
  have h1 : component ⟨b.model, pre⟩ P v false (some w.element) s.1
      = fun x => some (combination P false s.1 w.element (leafCoefs ⟨b.model, pre⟩ v w.element s.2.1 s.2.2) x) :=
    funext fun x => component_eq hb hp P hP hd hsep hv false w.element s hs hn x
  have h2 : component ⟨b.model, pre⟩ P v true (if needs s.1 w.element = true then some w.element else none) s.1
      = if needs s.1 w.element then fun x => some (combination P true s.1 w.element (leafCoefs ⟨b.model, pre⟩ v w.element s.2.1 s.2.2) x)
        else fun _ => none := by
    funext x
    split
    · rw [component_eq hb hp P hP hd hsep hv true w.element s hs hn x]
    · rfl
  rw [h1, h2, key, Option.getD_some, leafCoefs, List.getElem?_map, List.getElem?_range hi, Option.map_some, ← hidx, hc]
  rfl

/-- **C63.** Interpolating the discrete function with coefficients `v` into its own basis returns `v`: after
`interpolate(basis, coeff, f, bitVector)` each marked coefficient that belongs to a visited element has the value it has in `v`, all
others keep the value they had after resizing. The basis is any tree, or any subspace of it; the finite elements have dual functionals. -/
theorem C63 {rs : CT → List (Ct K) → Nat → List (Ct K)} (hrs : ResizeOK rs) {b : PB E} (hb : b.WF) {pre : List Nat} (hp : HasPath b pre)
    (P : Shapes E X K) (hP : P.OK ⟨b.model, pre⟩) (hd : P.dimC = 1) (hsep : Separate ⟨b.model, pre⟩ P) {N : Functionals E X K}
    {needs : List Nat → E → Bool} (hN : Dual ⟨b.model, pre⟩ P N needs) (init : Option E → Option E) {v : Vec K}
    (hv : VecOK ⟨b.model, pre⟩ 1 v) (ty : CT) (mk : Marker) (es : List E) (c c1 : Ct K) (hc : HasType ty c)
    (hr : resize rs b.model.size ty c = .ok c1)
    (hty : ∀ m ∈ IndexSet b.model, ∀ t, CT.at m ty = some t → t.Padded)
    (hmk : mk = .allTrue ∨ ∃ bits, mk = .bits bits ∧ ∀ m ∈ IndexSet b.model, ∃ x, Entry bits m x) :
    ∃ c', interpolate rs b.model pre ty (discreteInterp ⟨b.model, pre⟩ P N needs init v) mk es c = .ok c' ∧
      ∀ m ∈ IndexSet b.model,
        (mk.test m = some true → (∃ e ∈ es, ∃ d ∈ b.spec.loc e, pre <+: d ∧ b.spec.mi d = m) →
          ∃ x, v m = some [x] ∧ access isScalar c' m = some (.scalar x)) ∧
        (mk.test m = some false ∨ (¬ ∃ e ∈ es, ∃ d ∈ b.spec.loc e, pre <+: d ∧ b.spec.mi d = m) →
          access isScalar c' m = access isScalar c1 m) := by
  have hvis : ∀ m, (∃ w ∈ visits b.model pre es, w.index = m) ↔ ∃ e ∈ es, ∃ d ∈ b.spec.loc e, pre <+: d ∧ b.spec.mi d = m := by
    intro m
    have h1 : ∀ e, (∃ w ∈ visitsOn b.model pre e, w.index = m) ↔ ∃ d ∈ b.spec.loc e, pre <+: d ∧ b.spec.mi d = m := by
      intro e
      have := (C39_visits b hb pre hp e).1
      have h2 : m ∈ (visitsOn b.model pre e).map (fun w => w.index) ↔ ∃ w ∈ visitsOn b.model pre e, w.index = m := List.mem_map
      rw [← h2, this, List.mem_map]
      constructor
      · rintro ⟨d, hd, rfl⟩
        rw [List.mem_filter] at hd
        exact ⟨d, hd.1, List.isPrefixOf_iff_prefix.1 hd.2, rfl⟩
      · rintro ⟨d, hd, hpre, rfl⟩
        exact ⟨d, List.mem_filter.2 ⟨hd, List.isPrefixOf_iff_prefix.2 hpre⟩, rfl⟩
    simp only [visits, List.mem_flatMap]
    constructor
    · rintro ⟨w, ⟨e, he, hw⟩, rfl⟩
      exact ⟨e, he, (h1 e).1 ⟨w, hw, rfl⟩⟩
    · rintro ⟨e, he, h⟩
      obtain ⟨w, hw, rfl⟩ := (h1 e).2 h
      exact ⟨w, ⟨e, he, hw⟩, rfl⟩
  have hI : ∀ w ∈ visits b.model pre es, w.i < ((discreteInterp ⟨b.model, pre⟩ P N needs init v).coefs w.element w.path).length := by
    intro w hw
    obtain ⟨x, -, hx⟩ := coefs_eq hb hp P hP hd hsep hN init hv hw
    exact (List.getElem?_eq_some_iff.1 hx).1
  rcases C39_basis hrs b hb pre hp ty (discreteInterp ⟨b.model, pre⟩ P N needs init v) mk es c hc hty hmk hI with ⟨e, he, -⟩ | ⟨c1', c', h1, h2, h3⟩
  · rw [hr] at he
    simp at he
  · rw [hr] at h1
    injection h1 with h1
    subst h1
    refine ⟨c', h2, fun m hm => ?_⟩
    obtain ⟨old, new, g1, g2, g3, g4, g5⟩ := h3 m hm
    refine ⟨fun ht hex => ?_, fun h => ?_⟩
    · obtain ⟨w, hw, rfl, hnew⟩ := g5 ht ((hvis m).2 hex)
      obtain ⟨x, hx1, hx2⟩ := coefs_eq hb hp P hP hd hsep hN init hv hw
      rw [hx2] at hnew
      injection hnew with hnew
      subst hnew
      exact ⟨_, hx1, g2⟩
    · rw [g2, C35_access _ _ _ g1]
      rcases h with h | h
      · rw [g3 h]
      · rw [g4 fun w hw hc => h ((hvis m).1 ⟨w, hw, hc⟩)]

/-- **C63, whole basis.** After `interpolate(basis, coeff, f)` over all elements, `coeff` and `v` agree in every coefficient. -/
theorem C63_all {rs : CT → List (Ct K) → Nat → List (Ct K)} (hrs : ResizeOK rs) {b : PB E} (hb : b.WF)
    (P : Shapes E X K) (hP : P.OK ⟨b.model, []⟩) (hd : P.dimC = 1) (hsep : Separate ⟨b.model, []⟩ P) {N : Functionals E X K}
    {needs : List Nat → E → Bool} (hN : Dual ⟨b.model, []⟩ P N needs) (init : Option E → Option E) {v : Vec K}
    (hv : VecOK ⟨b.model, []⟩ 1 v) (ty : CT) (es : List E) (hes : ∀ e, e ∈ es) (c c1 : Ct K) (hc : HasType ty c)
    (hr : resize rs b.model.size ty c = .ok c1)
    (hty : ∀ m ∈ IndexSet b.model, ∀ t, CT.at m ty = some t → t.Padded) :
    ∃ c', interpolate rs b.model [] ty (discreteInterp ⟨b.model, []⟩ P N needs init v) .allTrue es c = .ok c' ∧
      ∀ m ∈ IndexSet b.model, ∃ x, v m = some [x] ∧ access isScalar c' m = some (.scalar x) := by
  obtain ⟨c', h1, h2⟩ := C63 hrs hb (.nil b) P hP hd hsep hN init hv ty .allTrue es c c1 hc hr hty (.inl rfl)
  refine ⟨c', h1, fun m hm => (h2 m hm).1 rfl ?_⟩
  rw [indexSet_eq hb] at hm
  obtain ⟨e, d, hd', rfl⟩ := hm
  exact ⟨e, hes e, d, hd', List.nil_prefix, rfl⟩

/-! ## Example -/

/-- Values at the end points for the two components on the two elements. -/
def exN : Functionals Bool Int Int := fun _ _ f _ => (f 0).bind fun a => (f 1).bind fun b => (a[0]?).bind fun a => (b[0]?).map fun b => [a, b]

theorem ex_slots : ∀ e, slotsOn ⟨Discrete.exBasis.model, []⟩ e = [([0], 0, 2), ([1], 2, 2)] := by decide +kernel

theorem ex_dual : Dual ⟨Discrete.exBasis.model, []⟩ (exShapes true fun _ p => [p]) exN fun _ _ => false := by
  intro e s hs c hc
  have hs2 : s.2.2 = 2 := by
    rw [ex_slots] at hs
    simp only [List.mem_cons, List.not_mem_nil, or_false] at hs
    rcases hs with rfl | rfl <;> rfl
  rw [hs2] at hc
  match c, hc with
  | [a, b], _ => simp [exN, combination, exShapes, Shapes.outCols, List.range_succ]

theorem ex_separate : Separate ⟨Discrete.exBasis.model, []⟩ (exShapes true fun _ p => [p]) := by
  intro d e
  rw [ex_slots]
  simp [exShapes]

def exCoef : Ct Int := .vec [.arr [.scalar 7, .scalar 7]]

/-- The values at all multi-indices after the round trip. -/
def exValues : List (Option Int) :=
  match interpolate (stdResize 0) Discrete.exBasis.model [] (.vec (.arr 2 .scalar))
      (discreteInterp ⟨Discrete.exBasis.model, []⟩ (exShapes true fun _ p => [p]) exN (fun _ _ => false) id (exVec 1)) .allTrue
      [false, true] exCoef with
  | .error _ => []
  | .ok c => [[0, 0], [0, 1], [1, 0], [1, 1], [2, 0], [2, 1]].map fun m => match access isScalar c m with
    | some (.scalar x) => some x
    | _ => none

example : exValues = [some 0, some 1, some 10, some 11, some 20, some 21] := by decide +kernel

theorem ex_padded (m : MI) (t : CT) (h : CT.at m (.vec (.arr 2 .scalar)) = some t) : t.Padded := by
  match m, h with
  | [], h =>
    simp only [CT.at, Option.some.injEq] at h
    subst h
    exact .inr ⟨_, rfl, by decide, trivial⟩
  | [_], h =>
    simp only [CT.at, CT.kid, Option.bind_some, Option.some.injEq] at h
    subst h
    exact .inl ⟨by decide, trivial⟩
  | [_, _], h =>
    simp only [CT.at, CT.kid, Option.bind_some, Option.some.injEq] at h
    subst h
    exact .inl trivial
  | _ :: _ :: _ :: _, h => simp [CT.at, CT.kid] at h

/-- The container has type `std::vector<std::array<int,2>>` and the wrong size. -/
example : ∃ c', interpolate (stdResize 0) Discrete.exBasis.model [] (.vec (.arr 2 .scalar))
      (discreteInterp ⟨Discrete.exBasis.model, []⟩ (exShapes true fun _ p => [p]) exN (fun _ _ => false) id (exVec 1)) .allTrue
      [false, true] exCoef = .ok c' ∧
    ∀ m ∈ IndexSet Discrete.exBasis.model, ∃ x, exVec 1 m = some [x] ∧ access isScalar c' m = some (.scalar x) :=
  C63_all (stdResize_OK 0) (b := Discrete.exBasis) (by simp [Discrete.exBasis, PB.WF, exLeaf]) _ (exShapes_OK true [] (.inl rfl)) rfl ex_separate
    ex_dual id (exVec_OK 1 _) (.vec (.arr 2 .scalar)) [false, true] (by decide) exCoef
    (.vec [.arr [.scalar 7, .scalar 7], .arr [.scalar 0, .scalar 0], .arr [.scalar 0, .scalar 0]]) (by simp [HasType, exCoef]) rfl
    (fun m _ t ht => ex_padded m t ht)

end Verif.RoundTrip

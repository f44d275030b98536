import Verif.Functions.Galerkin
import Verif.Functions.Product
import Mathlib.Algebra.BigOperators.Ring.Finset

/-!
# Element matrices of the examples

`getLocalMatrix` and `getVolumeTerm` of examples/poisson-pq2.cc and examples/poisson-mfem.cc: the assembled forms, in terms of discrete functions and their derivatives.
-/

namespace Verif.Galerkin

open Verif.IndexTree Verif.Discrete Verif.RoundTrip Verif.Product
open Finset (range)

variable {E X K : Type} [Field K]

/-! ## Model -/

/-- Quadrature rules with positions and weights, and integration elements. -/
structure Quadrature (E X K : Type) where
  rule : E → List (X × K)
  integrationElement : E → X → K

/-- Entry of a matrix, `m[r][c]`. -/
def entryOf (m : Mat K) (r c : Nat) : K := (m[r]?.getD [])[c]?.getD 0

/-- `localBasis().evaluateFunction` and `evaluateJacobian` of the leaf with tree path `p`: the value of shape function `i`. -/
def shapeOf (P : Shapes E X K) (d : Bool) (p : List Nat) (e : E) (x : X) (i : Nat) : Mat K := (P.shape d p e (if P.uses p then some e else none) x)[i]?.getD []

/-- `referenceJacobians[i] * jacobianInverse`, poisson-pq2.cc:77, poisson-mfem.cc:106. -/
def jacobian (P : Shapes E X K) (p : List Nat) (e : E) (x : X) (i : Nat) : Mat K := matMul P.dimworld (shapeOf P true p e x i) (P.jinv e x)

/-- `elementMatrix[r][c] += y` for a matrix with `N` rows and columns. -/
def addAt (N : Nat) (M : Nat → Nat → K) (r c : Nat) (y : K) : Option (Nat → Nat → K) :=
  if r < N ∧ c < N then some fun r' c' => if r' = r ∧ c' = c then M r' c' + y else M r' c' else none

/-- `(jacobians[i] * transpose(jacobians[j]))[0][0]`, poisson-pq2.cc:82. -/
def gradients (P : Shapes E X K) (p : List Nat) (e : E) (x : X) (i j : Nat) : K :=
  ((List.range P.dimworld).map fun k => entryOf (jacobian P p e x i) 0 k * entryOf (jacobian P p e x j) 0 k).sum

/-- `getLocalMatrix` of poisson-pq2.cc:37-86. The finite element of a leaf has as many shape functions as the node. -/
def laplaceMatrix (P : Shapes E X K) (Q : Quadrature E X K) (v : LocalView E) : Option (Nat → Nat → K) :=
  v.element.bind fun e => (Q.rule e).foldlM (fun M pt =>
    (List.range v.size).foldlM (fun M i => (List.range v.size).foldlM (fun M j =>
      addAt v.size M i j (gradients P [] e pt.1 i j * pt.2 * Q.integrationElement e pt.1)) M) M) fun _ _ => 0

/-- `localRhs[r] += y` for a vector with `N` entries. -/
def addAtVec (N : Nat) (b : Nat → K) (r : Nat) (y : K) : Option (Nat → K) := if r < N then some fun r' => if r' = r then b r' + y else b r' else none

/-- `getVolumeTerm` of poisson-pq2.cc:91-134; `f` is the local function `localVolumeTerm`. -/
def volumeTerm (P : Shapes E X K) (Q : Quadrature E X K) (f : E → X → K) (v : LocalView E) : Option (Nat → K) :=
  v.element.bind fun e => (Q.rule e).foldlM (fun b pt =>
    (List.range v.size).foldlM (fun b i => addAtVec v.size b i (entryOf (shapeOf P false [] e pt.1 i) 0 0 * f e pt.1 * pt.2 * Q.integrationElement e pt.1)) b) fun _ => 0

/-- `fluxValues[i] * fluxValues[j]`, poisson-mfem.cc:126. -/
def valueProduct (P : Shapes E X K) (p : List Nat) (e : E) (x : X) (i j : Nat) : K :=
  ((List.range (P.rows p)).map fun k => entryOf (shapeOf P false p e x i) k 0 * entryOf (shapeOf P false p e x j) k 0).sum

/-- `trace(fluxReferenceJacobians[i] * jacobianInverse)`, poisson-mfem.cc:96-106. -/
def divergence (P : Shapes E X K) (p : List Nat) (e : E) (x : X) (i : Nat) : K := ((List.range (P.rows p)).map fun k => entryOf (jacobian P p e x i) k k).sum

/-- `getLocalMatrix` of poisson-mfem.cc:45-149. -/
def mixedMatrix (P : Shapes E X K) (Q : Quadrature E X K) (v : LocalView E) : Option (Nat → Nat → K) :=
  v.element.bind fun e => (Node.child [0] v.tree).bind fun flux => (Node.child [1] v.tree).bind fun pressure =>
    (Q.rule e).foldlM (fun M pt =>
      ((List.range flux.size).foldlM (fun M i => (flux.localIndex i).bind fun row => (List.range flux.size).foldlM (fun M j => (flux.localIndex j).bind fun col =>
        addAt v.size M row col (valueProduct P [0] e pt.1 i j * pt.2 * Q.integrationElement e pt.1)) M) M).bind fun M =>
      (List.range flux.size).foldlM (fun M i => (flux.localIndex i).bind fun fluxIndex => (List.range pressure.size).foldlM (fun M j => (pressure.localIndex j).bind fun pressureIndex =>
        let tmp := divergence P [0] e pt.1 i * entryOf (shapeOf P false [1] e pt.1 j) 0 0 * pt.2 * Q.integrationElement e pt.1
        (addAt v.size M fluxIndex pressureIndex tmp).bind fun M => addAt v.size M pressureIndex fluxIndex tmp) M) M) fun _ _ => 0

/-- `getVolumeTerm` of poisson-mfem.cc:153-201. -/
def mixedVolumeTerm (P : Shapes E X K) (Q : Quadrature E X K) (f : E → X → K) (v : LocalView E) : Option (Nat → K) :=
  v.element.bind fun e => (Node.child [1] v.tree).bind fun pressure =>
    (Q.rule e).foldlM (fun b pt =>
      (List.range pressure.size).foldlM (fun b j => (pressure.localIndex j).bind fun row =>
        addAtVec v.size b row (-entryOf (shapeOf P false [1] e pt.1 j) 0 0 * f e pt.1 * pt.2 * Q.integrationElement e pt.1)) b) fun _ => 0

/-- One element of `assembleLaplaceMatrix`, poisson-pq2.cc:212-237, and of `assembleMixedPoissonMatrix`, poisson-mfem.cc:264-287; `loc` is `getLocalMatrix`. -/
def matrixStepWith (pb : PreBasis E) (loc : LocalView E → Option (Nat → Nat → K)) (s : LocalView E × Sparse K) (e : E) : Option (LocalView E × Sparse K) :=
  (s.1.bind pb e).bind fun v => (loc v).bind fun M => (matrixLoop v M s.2).map fun A => (v, A)

/-- The matrix of `assembleLaplaceMatrix`, poisson-pq2.cc:178-254, and of `assembleMixedPoissonMatrix`, poisson-mfem.cc:240-288. -/
def assembleMatrixWith (pb : PreBasis E) (loc : LocalView E → Option (Nat → Nat → K)) (els : List E) : Option (Sparse K) :=
  (occupationPattern pb els).bind fun pat => (els.foldlM (matrixStepWith pb loc) (LocalView.fresh pb, ⟨pat, fun _ _ => 0⟩)).map Prod.snd

/-- One element, poisson-pq2.cc:212-250, poisson-mfem.cc:312-328; `loc` is `getVolumeTerm`. -/
def rhsStepWith (pb : PreBasis E) (loc : LocalView E → Option (Nat → K)) (s : LocalView E × (MI → K)) (e : E) : Option (LocalView E × (MI → K)) :=
  (s.1.bind pb e).bind fun v => (loc v).bind fun f => (rhsLoop v f s.2).map fun b => (v, b)

/-- The right hand side of `assembleLaplaceMatrix`, poisson-pq2.cc:178-254, and `assembleMixedPoissonRhs`, poisson-mfem.cc:291-329. -/
def assembleRhsWith (pb : PreBasis E) (loc : LocalView E → Option (Nat → K)) (els : List E) : Option (MI → K) :=
  (els.foldlM (rhsStepWith pb loc) (LocalView.fresh pb, fun _ => 0)).map Prod.snd

/-! ## Specification -/

/-- Entry `(r, s)` of the value (`d = false`, one column) or the derivative of component `p` of the discrete function with coefficients `u`: evaluation of its local function. -/
def valueOf (b : PB E) (P : Shapes E X K) (u : Discrete.Vec K) (d : Bool) (p : List Nat) (e : E) (x : X) (r s : Nat) : K :=
  ((component ⟨b.model, []⟩ P u d (some e) p x).getD [])[r * P.outCols d + s]?.getD 0

/-- The integral computed by the quadrature rules, of a function that is given on each element. -/
def integral (Q : Quadrature E X K) (els : List E) (g : E → X → K) : K :=
  (els.map fun e => ((Q.rule e).map fun pt => g e pt.1 * pt.2 * Q.integrationElement e pt.1).sum).sum

/-! ## Proofs -/

theorem lsum (n : Nat) (f : Nat → K) : ((List.range n).map f).sum = ∑ i ∈ range n, f i := rfl

/-- The position of the first basis function of a leaf on an element. -/
def firstOf (b : PB E) (p : List Nat) (e : E) : Nat := ((b.spec.loc e).takeWhile fun d => !p.isPrefixOf d).length

theorem firstOf_root (b : PB E) (e : E) : firstOf b [] e = 0 := by
  rw [firstOf]
  cases b.spec.loc e <;> simp

/-- A local view bound to an element, seen from a leaf. -/
theorem part_view {b : PB E} (hb : b.WF) {p : List Nat} {L : Leaf E} {f : E → Bool} (h : Part b p L f) {e : E} (he : f e = true) {lv v : LocalView E}
    (hbl : lv.tree.blank = b.model.makeNode.blank) (hv : lv.bind b.model e = some v) :
    v.element = some e ∧ v.size = (idx b.model e).length ∧ ∃ t, Node.child p v.tree = some t ∧ t.size = (L.loc e).length ∧
      ∀ i < (L.loc e).length, t.localIndex i = some (firstOf b p e + i) ∧ firstOf b p e + i < (idx b.model e).length ∧
        (idx b.model e)[firstOf b p e + i]?.getD [] = b.spec.mi (p ++ [(L.loc e)[i]?.getD 0]) := by
  have R := b.refines hb
  have hbind := LocalView.bind_eq R lv hbl e
  rw [hv, Option.some.injEq] at hbind
  subst hbind
  obtain ⟨t, ht, pre, M, post, hl, hoff, hsz, h1, h2, h3⟩ := path_slot h.path hb e 0 _ hbl
  have hM : M = (L.loc e).map fun i => p ++ [i] := by
    rw [← filter_slot hl h1 h2 h3, h.loc e, if_pos he]
  have hML : M.length = (L.loc e).length := by simp [hM]
  have hfirst : ∀ i < (L.loc e).length, firstOf b p e + i = t.offset + i := by
    intro i hi
    rw [firstOf, hl, List.append_assoc, List.takeWhile_append_of_pos (fun d hd => by simpa [← List.isPrefixOf_iff_prefix] using h2 d hd), hoff]
    cases hM' : M with
    | nil => rw [hM', List.length_nil] at hML; omega
    | cons d M =>
      rw [hM'] at h1
      rw [List.cons_append, List.takeWhile_cons_of_neg (by simpa [← List.isPrefixOf_iff_prefix] using h1 d List.mem_cons_self)]
      simp
  refine ⟨rfl, ?_, t, ht, by rw [hsz, hML], fun i hi => ?_⟩
  · rw [idx_eq b hb, List.length_map]
    exact R.nodeSize e 0 _ hbl
  rw [hfirst i hi]
  refine ⟨?_, ?_, ?_⟩
  · rw [Node.localIndex, if_pos (by rw [hsz, hML]; exact hi)]
  · rw [idx_eq b hb, hl]
    simp only [List.length_map, List.length_append]
    omega
  · rw [idx_eq b hb, hl, hoff, List.getElem?_map, List.append_assoc, List.getElem?_append_right (by omega), List.getElem?_append_left (by omega)]
    simp only [Nat.zero_add, Nat.add_sub_cancel_left]
    simp [hM, hi]

/-- An element matrix as bilinear form. -/
def lform (N : Nat) (M : Nat → Nat → K) (w : (Nat → K) × (Nat → K)) : K := ∑ i ∈ range N, ∑ j ∈ range N, w.2 i * M i j * w.1 j

theorem addAt_form {N : Nat} (M : Nat → Nat → K) {r c : Nat} (hr : r < N) (hc : c < N) (y : K) :
    ∃ M', addAt N M r c y = some M' ∧ ∀ w, lform N M' w = lform N M w + w.2 r * y * w.1 c := by
  refine ⟨_, if_pos ⟨hr, hc⟩, fun w => ?_⟩
  have h : ∀ i j, w.2 i * (if i = r ∧ j = c then M i j + y else M i j) * w.1 j = w.2 i * M i j * w.1 j + if i = r then (if j = c then w.2 i * y * w.1 j else 0) else 0 := by
    intro i j
    by_cases hi : i = r <;> by_cases hj : j = c <;> simp [hi, hj]
    ring
  simp only [lform, h, Finset.sum_add_distrib]
  congr 1
  rw [Finset.sum_eq_single r (fun i _ hi => by simp [hi]) (fun h => absurd (Finset.mem_range.2 hr) h),
    Finset.sum_eq_single c (fun j _ hj => by simp [hj]) (fun h => absurd (Finset.mem_range.2 hc) h)]
  simp

theorem addAtVec_form {N : Nat} (b : Nat → K) {r : Nat} (hr : r < N) (y : K) :
    ∃ b', addAtVec N b r y = some b' ∧ ∀ w : Nat → K, ∑ i ∈ range N, w i * b' i = ∑ i ∈ range N, w i * b i + w r * y := by
  refine ⟨_, if_pos hr, fun w => ?_⟩
  have h : ∀ i, w i * (if i = r then b i + y else b i) = w i * b i + if i = r then w i * y else 0 := by
    intro i
    by_cases hi : i = r <;> simp [hi]
    ring
  simp only [h, Finset.sum_add_distrib]
  congr 1
  rw [Finset.sum_eq_single r (fun i _ hi => by simp [hi]) (fun h => absurd (Finset.mem_range.2 hr) h), if_pos rfl]

/-- Loops over two sets of local indices. -/
theorem block_form {N n m : Nat} {row col : Nat → Option Nat} {ri ci : Nat → Nat} (hrow : ∀ i < n, row i = some (ri i) ∧ ri i < N) (hcol : ∀ j < m, col j = some (ci j) ∧ ci j < N)
    {step : (Nat → Nat → K) → Nat → Nat → Nat → Nat → Option (Nat → Nat → K)} {g : (Nat → K) × (Nat → K) → Nat → Nat → K}
    (hstep : ∀ M, ∀ i < n, ∀ j < m, ∃ M', step M i j (ri i) (ci j) = some M' ∧ ∀ w, lform N M' w = lform N M w + g w i j) (M : Nat → Nat → K) :
    ∃ M', (List.range n).foldlM (fun M i => (row i).bind fun r => (List.range m).foldlM (fun M j => (col j).bind fun c => step M i j r c) M) M = some M' ∧
      ∀ w, lform N M' w = lform N M w + ∑ i ∈ range n, ∑ j ∈ range m, g w i j := by
  obtain ⟨M', h1, -, h2⟩ := fold_sum (W := (Nat → K) × (Nat → K)) (fun M i => (row i).bind fun r => (List.range m).foldlM (fun M j => (col j).bind fun c => step M i j r c) M)
    (fun _ => True) (fun w M => lform N M w) (fun w i => ∑ j ∈ range m, g w i j) (List.range n) (by
      intro M i hi _
      rw [List.mem_range] at hi
      obtain ⟨M1, k1, -, k2⟩ := fold_sum (W := (Nat → K) × (Nat → K)) (fun M j => (col j).bind fun c => step M i j (ri i) c) (fun _ => True) (fun w M => lform N M w) (fun w j => g w i j)
        (List.range m) (by
          intro M j hj _
          rw [List.mem_range] at hj
          obtain ⟨M2, l1, l2⟩ := hstep M i hi j hj
          exact ⟨M2, by rw [(hcol j hj).1]; exact l1, trivial, l2⟩) M trivial
      exact ⟨M1, by rw [(hrow i hi).1]; exact k1, trivial, k2⟩) M trivial
  exact ⟨M', h1, h2⟩

/-- Products of linear combinations. -/
theorem product_form (n m l : Nat) (v u : Nat → K) (A B : Nat → Nat → K) (c d : K) :
    ∑ i ∈ range n, ∑ j ∈ range m, v i * ((∑ k ∈ range l, A i k * B j k) * c * d) * u j =
      (∑ k ∈ range l, (∑ j ∈ range m, u j * B j k) * ∑ i ∈ range n, v i * A i k) * c * d := by
  have h : ∀ i j, v i * ((∑ k ∈ range l, A i k * B j k) * c * d) * u j = (∑ k ∈ range l, (u j * B j k) * (v i * A i k)) * (c * d) := by
    intro i j
    rw [show v i * ((∑ k ∈ range l, A i k * B j k) * c * d) * u j = (v i * u j * ∑ k ∈ range l, A i k * B j k) * (c * d) by ring, Finset.mul_sum]
    congr 1
    exact Finset.sum_congr rfl fun k _ => by ring
  simp only [h]
  rw [mul_assoc]
  simp only [← Finset.sum_mul]
  congr 1
  rw [Finset.sum_congr rfl fun i _ => Finset.sum_comm, Finset.sum_comm]
  refine Finset.sum_congr rfl fun k _ => ?_
  simp only [← Finset.sum_mul, ← Finset.mul_sum]

theorem matMul_entry (m : Nat) (A B : Mat K) {R C r s : Nat} (hR : A.length = R) (hC : ∀ x ∈ A, x.length = C) (hr : r < R) (hs : s < m) :
    entryOf (matMul m A B) r s = ∑ k ∈ range C, entryOf A r k * entryOf B k s := by
  have hr' : r < A.length := by rw [hR]; exact hr
  simp only [entryOf, matMul, List.getElem?_map, List.getElem?_eq_getElem hr', Option.map_some, Option.getD_some, List.getElem?_range hs]
  rw [hC _ (List.getElem_mem hr'), lsum]

/-- Value and derivative of a component as linear combination of shape functions. -/
theorem valueOf_eq {b : PB E} (hb : b.WF) {P : Shapes E X K} (hP : P.OK ⟨b.model, []⟩) (hd : P.dimC = 1) (hsep : Separate ⟨b.model, []⟩ P) {u : Discrete.Vec K} (hu : VecOK ⟨b.model, []⟩ 1 u)
    (d : Bool) {p : List Nat} {L : Leaf E} {f : E → Bool} (h : Part b p L f) {e : E} (he : f e = true) (hn : L.loc e ≠ []) (x : X) {r s : Nat} (hr : r < P.rows p) (hs : s < P.outCols d) :
    valueOf b P u d p e x r s = ∑ i ∈ range (L.loc e).length, coef u (b.spec.mi (p ++ [(L.loc e)[i]?.getD 0])) *
      entryOf (if d then jacobian P p e x i else shapeOf P d p e x i) r s := by
  have hlen : (L.loc e).length ≠ 0 := by simpa using hn
  obtain ⟨off, hsl, -⟩ := h.slot hb he
  have hnum := hP.number d e x _ hsl
  have hrows := hP.rows d e x _ hsl
  have hget : ∀ i < (L.loc e).length, shapeOf P d p e x i ∈ P.shape d p e (if P.uses p then some e else none) x := fun i hi => by
    rw [shapeOf, List.getElem?_eq_getElem (by rw [hnum]; exact hi)]
    exact List.getElem_mem _
  rw [valueOf, C99_components hb hP hd hsep hu d h he hn x, Option.getD_some, combination]
  simp only []
  rw [flatMap_uniform _ (P.outCols d) (fun i => by simp) (P.rows p) r s hr hs]
  simp only [List.getElem?_map, List.getElem?_range hs, Option.map_some, Option.getD_some, List.length_map]
  have hci : ∀ i < (L.loc e).length, (((L.loc e)[i]?).map fun i => coef u (b.spec.mi (p ++ [i]))).getD 0 = coef u (b.spec.mi (p ++ [(L.loc e)[i]?.getD 0])) := fun i hi => by
    rw [List.getElem?_eq_getElem hi]
    rfl
  cases d with
  | false =>
    simp only [Bool.false_eq_true, if_false, lsum]
    refine Finset.sum_congr rfl fun i hi => ?_
    rw [hci i (Finset.mem_range.1 hi)]
    rfl
  | true =>
    simp only [if_true, lsum]
    have hj : ∀ i ∈ range (L.loc e).length, entryOf (jacobian P p e x i) r s = ∑ k ∈ range P.dim, entryOf (shapeOf P true p e x i) r k * entryOf (P.jinv e x) k s := fun i hi => by
      obtain ⟨q1, q2⟩ := hrows _ (hget i (Finset.mem_range.1 hi))
      exact matMul_entry _ _ _ q1 q2 hr hs
    have hsum : ∑ i ∈ range (L.loc e).length, coef u (b.spec.mi (p ++ [(L.loc e)[i]?.getD 0])) * entryOf (jacobian P p e x i) r s =
        ∑ i ∈ range (L.loc e).length, ∑ k ∈ range P.dim, coef u (b.spec.mi (p ++ [(L.loc e)[i]?.getD 0])) * (entryOf (shapeOf P true p e x i) r k * entryOf (P.jinv e x) k s) :=
      Finset.sum_congr rfl fun i hi => by rw [hj i hi, Finset.mul_sum]
    rw [hsum, Finset.sum_comm]
    refine Finset.sum_congr rfl fun k _ => ?_
    rw [Finset.sum_mul]
    refine Finset.sum_congr rfl fun i hi => ?_
    rw [hci i (Finset.mem_range.1 hi), ← mul_assoc]
    rfl

/-- Forms determine the entries. -/
theorem lform_entry {N : Nat} {M M' : Nat → Nat → K} (h : ∀ w, lform N M w = lform N M' w) {i j : Nat} (hi : i < N) (hj : j < N) : M i j = M' i j := by
  have he : ∀ M : Nat → Nat → K, lform N M (fun k => if k = j then 1 else 0, fun k => if k = i then 1 else 0) = M i j := fun M => by
    rw [lform, Finset.sum_eq_single i (fun k _ hk => by simp [hk]) (fun h => absurd (Finset.mem_range.2 hi) h),
      Finset.sum_eq_single j (fun k _ hk => by simp [hk]) (fun h => absurd (Finset.mem_range.2 hj) h)]
    simp
  rw [← he M, ← he M', h]

/-- The coefficients of an element. -/
def onElement (b : PB E) (e : E) (u : MI → K) (i : Nat) : K := u ((idx b.model e)[i]?.getD [])

theorem foldlM_range_congr {S : Type} {n m : Nat} (h : n = m) {f g : S → Nat → Option S} (hfg : ∀ s, ∀ i < m, f s i = g s i) (s : S) : (List.range n).foldlM f s = (List.range m).foldlM g s := by
  subst h
  exact Discrete.foldlM_congr f g _ (fun s i hi => hfg s i (List.mem_range.1 hi)) s

/-- If the element matrices represent given forms, assembling uses matrices that only depend on the element. -/
theorem matrix_with {b : PB E} (hb : b.WF) {loc : LocalView E → Option (Nat → Nat → K)} {F : E → (Nat → K) × (Nat → K) → K}
    (hloc : ∀ (lv v : LocalView E) e, lv.tree.blank = b.model.makeNode.blank → lv.bind b.model e = some v → ∃ M, loc v = some M ∧ ∀ w, lform (idx b.model e).length M w = F e w) :
    ∃ a : E → Nat → Nat → K, (∀ els, assembleMatrixWith b.model loc els = assembleMatrix b.model a els) ∧
      ∀ els u v, bilinear b.model a els u v = (els.map fun e => F e (onElement b e u, onElement b e v)).sum := by
  have hfresh := fun e => bind_view b hb (LocalView.fresh_blank b.model) e
  choose v0 hv0 _ _ _ using hfresh
  have h0 := fun e => hloc _ _ e (LocalView.fresh_blank b.model) (hv0 e)
  choose a _ ha2 using h0
  refine ⟨a, fun els => ?_, fun els u v => ?_⟩
  · rw [assembleMatrixWith, assembleMatrix]
    congr 1
    funext pat
    congr 1
    have : ∀ s : LocalView E × Sparse K, s.1.tree.blank = b.model.makeNode.blank → els.foldlM (matrixStepWith b.model loc) s = els.foldlM (matrixStep b.model a) s := by
      induction els with
      | nil => intro s _; rfl
      | cons e els ih =>
        intro s hs
        obtain ⟨v, v1, v2, v3, v4⟩ := bind_view b hb hs e
        obtain ⟨M, m1, m2⟩ := hloc _ v e hs v1
        have hstep : matrixStepWith b.model loc s e = matrixStep b.model a s e := by
          rw [matrixStepWith, matrixStep, v1, Option.bind_some, Option.bind_some, m1, Option.bind_some, matrixLoop, matrixLoop]
          congr 1
          refine foldlM_range_congr rfl (fun A i hi => ?_) _
          congr 1
          funext r
          refine foldlM_range_congr rfl (fun A j hj => ?_) _
          rw [v3] at hi hj
          rw [lform_entry (fun w => (m2 w).trans (ha2 e w).symm) hi hj]
        rw [List.foldlM_cons, List.foldlM_cons, hstep]
        cases hm : matrixStep b.model a s e with
        | none => rfl
        | some s' =>
          refine ih s' ?_
          rw [matrixStep, v1, Option.bind_some] at hm
          obtain ⟨A, -, rfl⟩ := Option.map_eq_some_iff.1 hm
          exact v2
    exact this _ (LocalView.fresh_blank b.model)
  · rw [bilinear]
    congr 1
    refine List.map_congr_left fun e _ => ?_
    rw [← ha2 e]
    rfl

/-- The same for right hand sides. -/
theorem rhs_with {b : PB E} (hb : b.WF) {loc : LocalView E → Option (Nat → K)} {F : E → (Nat → K) → K}
    (hloc : ∀ (lv v : LocalView E) e, lv.tree.blank = b.model.makeNode.blank → lv.bind b.model e = some v → ∃ f, loc v = some f ∧ ∀ w, ∑ i ∈ range (idx b.model e).length, w i * f i = F e w) :
    ∃ f : E → Nat → K, (∀ els, assembleRhsWith b.model loc els = assembleRhs b.model f els) ∧
      ∀ els v, linear b.model f els v = (els.map fun e => F e (onElement b e v)).sum := by
  have hfresh := fun e => bind_view b hb (LocalView.fresh_blank b.model) e
  choose v0 hv0 _ _ _ using hfresh
  have h0 := fun e => hloc _ _ e (LocalView.fresh_blank b.model) (hv0 e)
  choose f _ hf2 using h0
  refine ⟨f, fun els => ?_, fun els v => ?_⟩
  · rw [assembleRhsWith, assembleRhs]
    congr 1
    have : ∀ s : LocalView E × (MI → K), s.1.tree.blank = b.model.makeNode.blank → els.foldlM (rhsStepWith b.model loc) s = els.foldlM (rhsStep b.model f) s := by
      induction els with
      | nil => intro s _; rfl
      | cons e els ih =>
        intro s hs
        obtain ⟨v, v1, v2, v3, v4⟩ := bind_view b hb hs e
        obtain ⟨g, m1, m2⟩ := hloc _ v e hs v1
        have hstep : rhsStepWith b.model loc s e = rhsStep b.model f s e := by
          rw [rhsStepWith, rhsStep, v1, Option.bind_some, Option.bind_some, m1, Option.bind_some, rhsLoop, rhsLoop]
          congr 1
          refine foldlM_range_congr rfl (fun A i hi => ?_) _
          rw [v3] at hi
          have he : ∀ g : Nat → K, ∑ k ∈ range (idx b.model e).length, (if k = i then 1 else 0) * g k = g i := fun g => by
            rw [Finset.sum_eq_single i (fun k _ hk => by simp [hk]) (fun h => absurd (Finset.mem_range.2 hi) h)]
            simp
          rw [← he g, ← he (f e), m2 fun k => if k = i then 1 else 0, hf2 e fun k => if k = i then 1 else 0]
        rw [List.foldlM_cons, List.foldlM_cons, hstep]
        cases hm : rhsStep b.model f s e with
        | none => rfl
        | some s' =>
          refine ih s' ?_
          rw [rhsStep, v1, Option.bind_some] at hm
          obtain ⟨A, -, rfl⟩ := Option.map_eq_some_iff.1 hm
          exact v2
    exact this _ (LocalView.fresh_blank b.model)
  · rw [linear]
    congr 1
    refine List.map_congr_left fun e _ => ?_
    rw [← hf2 e]
    rfl

/-- Loops over quadrature points. -/
theorem rule_form {N : Nat} {R : List (X × K)} {step : (Nat → Nat → K) → X × K → Option (Nat → Nat → K)} {g : (Nat → K) × (Nat → K) → X × K → K}
    (hstep : ∀ M, ∀ pt, ∃ M', step M pt = some M' ∧ ∀ w, lform N M' w = lform N M w + g w pt) :
    ∃ M', R.foldlM step (fun _ _ => 0) = some M' ∧ ∀ w, lform N M' w = (R.map (g w)).sum := by
  obtain ⟨M', h1, -, h2⟩ := fold_sum (W := (Nat → K) × (Nat → K)) step (fun _ => True) (fun w M => lform N M w) g R (fun M pt _ _ => by
    obtain ⟨M', k1, k2⟩ := hstep M pt
    exact ⟨M', k1, trivial, k2⟩) (fun _ _ => 0) trivial
  exact ⟨M', h1, fun w => by rw [h2]; simp [lform]⟩

theorem rule_vec {N : Nat} {R : List (X × K)} {n : Nat} {row : Nat → Option Nat} {ri : Nat → Nat} (hrow : ∀ i < n, row i = some (ri i) ∧ ri i < N) (y : X × K → Nat → K) :
    ∃ f, R.foldlM (fun b pt => (List.range n).foldlM (fun b i => (row i).bind fun r => addAtVec N b r (y pt i)) b) (fun _ => 0) = some f ∧
      ∀ w : Nat → K, ∑ i ∈ range N, w i * f i = (R.map fun pt => ∑ i ∈ range n, w (ri i) * y pt i).sum := by
  obtain ⟨f, h1, -, h2⟩ := fold_sum (W := Nat → K) (fun (b : Nat → K) pt => (List.range n).foldlM (fun b i => (row i).bind fun r => addAtVec N b r (y pt i)) b) (fun _ => True)
    (fun w b => ∑ i ∈ range N, w i * b i) (fun w pt => ∑ i ∈ range n, w (ri i) * y pt i) R (fun b pt _ _ => fold_sum (W := Nat → K)
      (fun (b : Nat → K) i => (row i).bind fun r => addAtVec N b r (y pt i)) (fun _ => True) (fun w b => ∑ i ∈ range N, w i * b i) (fun w i => w (ri i) * y pt i) (List.range n) (by
        intro b i hi _
        rw [List.mem_range] at hi
        obtain ⟨b', k1, k2⟩ := addAtVec_form b (hrow i hi).2 (y pt i)
        exact ⟨b', by rw [(hrow i hi).1]; exact k1, trivial, k2⟩) b trivial) (fun _ => 0) trivial
  exact ⟨f, h1, fun w => by rw [h2]; simp⟩

theorem laplace_local {L : Leaf E} (hb : (PB.leaf L).WF) (P : Shapes E X K) (Q : Quadrature E X K) {lv v : LocalView E} {e : E}
    (hbl : lv.tree.blank = (PB.leaf L).model.makeNode.blank) (hv : lv.bind (PB.leaf L).model e = some v) :
    ∃ M, laplaceMatrix P Q v = some M ∧ ∀ w, lform (idx (PB.leaf L).model e).length M w = ((Q.rule e).map fun pt =>
      (∑ k ∈ range P.dimworld, (∑ j ∈ range (L.loc e).length, w.1 (firstOf (.leaf L) [] e + j) * entryOf (jacobian P [] e pt.1 j) 0 k) *
        ∑ i ∈ range (L.loc e).length, w.2 (firstOf (.leaf L) [] e + i) * entryOf (jacobian P [] e pt.1 i) 0 k) * pt.2 * Q.integrationElement e pt.1).sum := by
  obtain ⟨h1, h2, t, h3, h4, h5⟩ := part_view hb (.leaf L) rfl hbl hv
  have h0 := firstOf_root (.leaf L) e
  have hN : v.size = (L.loc e).length := by
    rw [Node.child, Option.some.injEq] at h3
    rw [LocalView.size, h3, h4]
  rw [laplaceMatrix, h1, Option.bind_some, ← h2, h0]
  simp only [Nat.zero_add]
  obtain ⟨M, k1, k2⟩ := rule_form (N := v.size) (R := Q.rule e) (step := fun M pt => (List.range v.size).foldlM (fun M i => (List.range v.size).foldlM (fun M j =>
      addAt v.size M i j (gradients P [] e pt.1 i j * pt.2 * Q.integrationElement e pt.1)) M) M)
    (g := fun w pt => (∑ k ∈ range P.dimworld, (∑ j ∈ range (L.loc e).length, w.1 j * entryOf (jacobian P [] e pt.1 j) 0 k) *
        ∑ i ∈ range (L.loc e).length, w.2 i * entryOf (jacobian P [] e pt.1 i) 0 k) * pt.2 * Q.integrationElement e pt.1) (fun M pt => by
      obtain ⟨M', l1, l2⟩ := block_form (N := v.size) (n := v.size) (m := v.size) (row := some) (col := some) (ri := id) (ci := id) (fun i hi => ⟨rfl, hi⟩) (fun i hi => ⟨rfl, hi⟩)
        (step := fun M i j r c => addAt v.size M r c (gradients P [] e pt.1 i j * pt.2 * Q.integrationElement e pt.1))
        (g := fun w i j => w.2 i * (gradients P [] e pt.1 i j * pt.2 * Q.integrationElement e pt.1) * w.1 j) (fun M i hi j hj => addAt_form M hi hj _) M
      refine ⟨M', l1, fun w => ?_⟩
      rw [l2, hN]
      simp only [gradients, lsum]
      rw [product_form])
  exact ⟨M, k1, k2⟩

theorem volume_local {L : Leaf E} (hb : (PB.leaf L).WF) (P : Shapes E X K) (Q : Quadrature E X K) (f : E → X → K) {lv v : LocalView E} {e : E}
    (hbl : lv.tree.blank = (PB.leaf L).model.makeNode.blank) (hv : lv.bind (PB.leaf L).model e = some v) :
    ∃ l, volumeTerm P Q f v = some l ∧ ∀ w : Nat → K, ∑ i ∈ range (idx (PB.leaf L).model e).length, w i * l i = ((Q.rule e).map fun pt =>
      (∑ i ∈ range (L.loc e).length, w (firstOf (.leaf L) [] e + i) * entryOf (shapeOf P false [] e pt.1 i) 0 0) * f e pt.1 * pt.2 * Q.integrationElement e pt.1).sum := by
  obtain ⟨h1, h2, t, h3, h4, h5⟩ := part_view hb (.leaf L) rfl hbl hv
  have h0 := firstOf_root (.leaf L) e
  have hN : v.size = (L.loc e).length := by
    rw [Node.child, Option.some.injEq] at h3
    rw [LocalView.size, h3, h4]
  rw [volumeTerm, h1, Option.bind_some, ← h2, h0]
  simp only [Nat.zero_add]
  obtain ⟨l, k1, k2⟩ := rule_vec (N := v.size) (R := Q.rule e) (n := v.size) (row := some) (ri := id) (fun i hi => ⟨rfl, hi⟩)
    fun pt i => entryOf (shapeOf P false [] e pt.1 i) 0 0 * f e pt.1 * pt.2 * Q.integrationElement e pt.1
  refine ⟨l, k1, fun w => ?_⟩
  rw [k2, hN]
  congr 1
  refine List.map_congr_left fun pt _ => ?_
  simp only [Finset.sum_mul, id]
  exact Finset.sum_congr rfl fun i _ => by ring

theorem coupling_form (n m : Nat) (v v' u u' : Nat → K) (D p : Nat → K) (c d : K) :
    ∑ i ∈ range n, ∑ j ∈ range m, (v i * (D i * p j * c * d) * u' j + v' j * (D i * p j * c * d) * u i) =
      ((∑ i ∈ range n, v i * D i) * (∑ j ∈ range m, u' j * p j) + (∑ i ∈ range n, u i * D i) * ∑ j ∈ range m, v' j * p j) * c * d := by
  rw [Finset.sum_mul_sum, Finset.sum_mul_sum, mul_assoc, add_mul, Finset.sum_mul, Finset.sum_mul, ← Finset.sum_add_distrib]
  refine Finset.sum_congr rfl fun i _ => ?_
  rw [Finset.sum_mul, Finset.sum_mul, ← Finset.sum_add_distrib]
  exact Finset.sum_congr rfl fun j _ => by ring

theorem mixed_local {b : PB E} (hb : b.WF) {L0 L1 : Leaf E} {f0 f1 : E → Bool} (hp0 : Part b [0] L0 f0) (hp1 : Part b [1] L1 f1) (P : Shapes E X K) (Q : Quadrature E X K) {lv v : LocalView E} {e : E}
    (he0 : f0 e = true) (he1 : f1 e = true) (hbl : lv.tree.blank = b.model.makeNode.blank) (hv : lv.bind b.model e = some v) :
    ∃ M, mixedMatrix P Q v = some M ∧ ∀ w, lform (idx b.model e).length M w = ((Q.rule e).map fun pt =>
      (∑ k ∈ range (P.rows [0]), (∑ j ∈ range (L0.loc e).length, w.1 (firstOf b [0] e + j) * entryOf (shapeOf P false [0] e pt.1 j) k 0) *
        ∑ i ∈ range (L0.loc e).length, w.2 (firstOf b [0] e + i) * entryOf (shapeOf P false [0] e pt.1 i) k 0) * pt.2 * Q.integrationElement e pt.1 +
      ((∑ i ∈ range (L0.loc e).length, w.2 (firstOf b [0] e + i) * divergence P [0] e pt.1 i) *
          (∑ j ∈ range (L1.loc e).length, w.1 (firstOf b [1] e + j) * entryOf (shapeOf P false [1] e pt.1 j) 0 0) +
        (∑ i ∈ range (L0.loc e).length, w.1 (firstOf b [0] e + i) * divergence P [0] e pt.1 i) *
          ∑ j ∈ range (L1.loc e).length, w.2 (firstOf b [1] e + j) * entryOf (shapeOf P false [1] e pt.1 j) 0 0) * pt.2 * Q.integrationElement e pt.1).sum := by
  obtain ⟨h1, h2, t0, h3, h4, h5⟩ := part_view hb hp0 he0 hbl hv
  obtain ⟨-, -, t1, g3, g4, g5⟩ := part_view hb hp1 he1 hbl hv
  rw [mixedMatrix, h1, Option.bind_some, h3, Option.bind_some, g3, Option.bind_some, h4, g4, h2]
  refine rule_form fun M pt => ?_
  obtain ⟨M1, k1, k2⟩ := block_form (N := (idx b.model e).length) (n := (L0.loc e).length) (m := (L0.loc e).length) (row := t0.localIndex) (col := t0.localIndex)
    (ri := fun i => firstOf b [0] e + i) (ci := fun i => firstOf b [0] e + i) (fun i hi => ⟨(h5 i hi).1, (h5 i hi).2.1⟩) (fun i hi => ⟨(h5 i hi).1, (h5 i hi).2.1⟩)
    (step := fun M i j r c => addAt (idx b.model e).length M r c (valueProduct P [0] e pt.1 i j * pt.2 * Q.integrationElement e pt.1))
    (g := fun w i j => w.2 (firstOf b [0] e + i) * (valueProduct P [0] e pt.1 i j * pt.2 * Q.integrationElement e pt.1) * w.1 (firstOf b [0] e + j))
    (fun M i hi j hj => addAt_form M (h5 i hi).2.1 (h5 j hj).2.1 _) M
  obtain ⟨M2, l1, l2⟩ := block_form (N := (idx b.model e).length) (n := (L0.loc e).length) (m := (L1.loc e).length) (row := t0.localIndex) (col := t1.localIndex)
    (ri := fun i => firstOf b [0] e + i) (ci := fun i => firstOf b [1] e + i) (fun i hi => ⟨(h5 i hi).1, (h5 i hi).2.1⟩) (fun i hi => ⟨(g5 i hi).1, (g5 i hi).2.1⟩)
    (step := fun M i j r c => (addAt (idx b.model e).length M r c (divergence P [0] e pt.1 i * entryOf (shapeOf P false [1] e pt.1 j) 0 0 * pt.2 * Q.integrationElement e pt.1)).bind fun M =>
      addAt (idx b.model e).length M c r (divergence P [0] e pt.1 i * entryOf (shapeOf P false [1] e pt.1 j) 0 0 * pt.2 * Q.integrationElement e pt.1))
    (g := fun w i j => w.2 (firstOf b [0] e + i) * (divergence P [0] e pt.1 i * entryOf (shapeOf P false [1] e pt.1 j) 0 0 * pt.2 * Q.integrationElement e pt.1) * w.1 (firstOf b [1] e + j) +
      w.2 (firstOf b [1] e + j) * (divergence P [0] e pt.1 i * entryOf (shapeOf P false [1] e pt.1 j) 0 0 * pt.2 * Q.integrationElement e pt.1) * w.1 (firstOf b [0] e + i))
    (fun M i hi j hj => by
      obtain ⟨A, a1, a2⟩ := addAt_form M (h5 i hi).2.1 (g5 j hj).2.1 (divergence P [0] e pt.1 i * entryOf (shapeOf P false [1] e pt.1 j) 0 0 * pt.2 * Q.integrationElement e pt.1)
      obtain ⟨B, b1, b2⟩ := addAt_form A (g5 j hj).2.1 (h5 i hi).2.1 (divergence P [0] e pt.1 i * entryOf (shapeOf P false [1] e pt.1 j) 0 0 * pt.2 * Q.integrationElement e pt.1)
      exact ⟨B, by rw [a1]; exact b1, fun w => by rw [b2, a2, add_assoc]⟩) M1
  refine ⟨M2, by rw [k1]; exact l1, fun w => ?_⟩
  rw [l2, k2, add_assoc]
  congr 1
  simp only [valueProduct, lsum]
  rw [product_form, coupling_form]

theorem mixedVolume_local {b : PB E} (hb : b.WF) {L1 : Leaf E} {f1 : E → Bool} (hp1 : Part b [1] L1 f1) (P : Shapes E X K) (Q : Quadrature E X K) (f : E → X → K) {lv v : LocalView E} {e : E}
    (he1 : f1 e = true) (hbl : lv.tree.blank = b.model.makeNode.blank) (hv : lv.bind b.model e = some v) :
    ∃ l, mixedVolumeTerm P Q f v = some l ∧ ∀ w : Nat → K, ∑ i ∈ range (idx b.model e).length, w i * l i = ((Q.rule e).map fun pt =>
      (-(∑ i ∈ range (L1.loc e).length, w (firstOf b [1] e + i) * entryOf (shapeOf P false [1] e pt.1 i) 0 0) * f e pt.1) * pt.2 * Q.integrationElement e pt.1).sum := by
  obtain ⟨h1, h2, t, h3, h4, h5⟩ := part_view hb hp1 he1 hbl hv
  rw [mixedVolumeTerm, h1, Option.bind_some, h3, Option.bind_some, h4, h2]
  obtain ⟨l, k1, k2⟩ := rule_vec (N := (idx b.model e).length) (R := Q.rule e) (n := (L1.loc e).length) (row := t.localIndex) (ri := fun i => firstOf b [1] e + i)
    (fun i hi => ⟨(h5 i hi).1, (h5 i hi).2.1⟩) fun pt i => -entryOf (shapeOf P false [1] e pt.1 i) 0 0 * f e pt.1 * pt.2 * Q.integrationElement e pt.1
  refine ⟨l, k1, fun w => ?_⟩
  rw [k2]
  congr 1
  refine List.map_congr_left fun pt _ => ?_
  rw [← Finset.sum_neg_distrib]
  simp only [Finset.sum_mul]
  exact Finset.sum_congr rfl fun i _ => by ring

omit [Field K] in
/-- The coefficients of a leaf on an element. -/
theorem onElement_coef {b : PB E} (hb : b.WF) {p : List Nat} {L : Leaf E} {f : E → Bool} (h : Part b p L f) {e : E} (he : f e = true) (u : MI → K) {i : Nat} (hi : i < (L.loc e).length) :
    onElement b e u (firstOf b p e + i) = u (b.spec.mi (p ++ [(L.loc e)[i]?.getD 0])) := by
  obtain ⟨v, v1, -⟩ := bind_view b hb (LocalView.fresh_blank b.model) e
  obtain ⟨-, -, t, -, -, h5⟩ := part_view hb h he (LocalView.fresh_blank b.model) v1
  rw [onElement, (h5 i hi).2.2]

/-- Value and derivative of a component with the coefficients of the element. -/
theorem valueOf_local {b : PB E} (hb : b.WF) {P : Shapes E X K} (hP : P.OK ⟨b.model, []⟩) (hd : P.dimC = 1) (hsep : Separate ⟨b.model, []⟩ P) {u : Discrete.Vec K} (hu : VecOK ⟨b.model, []⟩ 1 u)
    (d : Bool) {p : List Nat} {L : Leaf E} {f : E → Bool} (h : Part b p L f) {e : E} (he : f e = true) (hn : L.loc e ≠ []) (x : X) {r s : Nat} (hr : r < P.rows p) (hs : s < P.outCols d) :
    ∑ i ∈ range (L.loc e).length, onElement b e (coef u) (firstOf b p e + i) * entryOf (if d then jacobian P p e x i else shapeOf P d p e x i) r s = valueOf b P u d p e x r s := by
  rw [valueOf_eq hb hP hd hsep hu d h he hn x hr hs]
  exact Finset.sum_congr rfl fun i hi => by rw [onElement_coef hb h he _ (Finset.mem_range.1 hi)]

/-! ## Theorems -/

/-- **C114.** The element matrices and local right hand sides of examples/poisson-pq2.cc, for a basis with scalar finite elements: assembled, they are the forms `∫ ∇u·∇w` and `∫ f w` (computed with the
quadrature rules) of discrete functions, where the gradient is the one that evaluation of the derivative of a discrete function gives. -/
theorem C114_laplace {L : Leaf E} (hb : (PB.leaf L).WF) {P : Shapes E X K} (hP : P.OK ⟨(PB.leaf L).model, []⟩) (hd : P.dimC = 1) (hsep : Separate ⟨(PB.leaf L).model, []⟩ P)
    (hne : ∀ e, L.loc e ≠ []) (hrow : P.rows [] = 1) (Q : Quadrature E X K) (f : E → X → K) :
    ∃ (a : E → Nat → Nat → K) (l : E → Nat → K),
      (∀ els, assembleMatrixWith (PB.leaf L).model (laplaceMatrix P Q) els = assembleMatrix (PB.leaf L).model a els) ∧
      (∀ els, assembleRhsWith (PB.leaf L).model (volumeTerm P Q f) els = assembleRhs (PB.leaf L).model l els) ∧
      ∀ els u w, VecOK ⟨(PB.leaf L).model, []⟩ 1 u → VecOK ⟨(PB.leaf L).model, []⟩ 1 w →
        bilinear (PB.leaf L).model a els (coef u) (coef w) =
          integral Q els (fun e x => ∑ k ∈ range P.dimworld, valueOf (.leaf L) P u true [] e x 0 k * valueOf (.leaf L) P w true [] e x 0 k) ∧
        linear (PB.leaf L).model l els (coef w) = integral Q els fun e x => valueOf (.leaf L) P w false [] e x 0 0 * f e x := by
  obtain ⟨a, a1, a2⟩ := matrix_with hb fun lv v e => laplace_local hb P Q (lv := lv) (v := v) (e := e)
  obtain ⟨l, l1, l2⟩ := rhs_with hb fun lv v e => volume_local hb P Q f (lv := lv) (v := v) (e := e)
  refine ⟨a, l, a1, l1, fun els u w hu hw => ⟨?_, ?_⟩⟩
  · rw [a2, integral]
    congr 1
    refine List.map_congr_left fun e _ => ?_
    congr 1
    refine List.map_congr_left fun pt _ => ?_
    congr 2
    refine Finset.sum_congr rfl fun k hk => ?_
    rw [← valueOf_local hb hP hd hsep hu true (.leaf L) rfl (hne e) pt.1 (by rw [hrow]; exact Nat.one_pos) (show k < P.outCols true from Finset.mem_range.1 hk),
      ← valueOf_local hb hP hd hsep hw true (.leaf L) rfl (hne e) pt.1 (by rw [hrow]; exact Nat.one_pos) (show k < P.outCols true from Finset.mem_range.1 hk)]
    rfl
  · rw [l2, integral]
    congr 1
    refine List.map_congr_left fun e _ => ?_
    congr 1
    refine List.map_congr_left fun pt _ => ?_
    rw [← valueOf_local hb hP hd hsep hw false (.leaf L) rfl (hne e) pt.1 (by rw [hrow]; exact Nat.one_pos) (show 0 < P.outCols false from Nat.one_pos)]
    rfl

/-- **C114.** The element matrices and local right hand sides of examples/poisson-mfem.cc, for any basis tree with a vector valued leaf `0` and a scalar leaf `1`, without assumptions on positions of local
indices: assembled, they are the forms `∫ σ·τ + div τ u + div σ v` and `-∫ f v` (computed with the quadrature rules) of the components of discrete functions; the divergence is the trace of the
derivative of the component. -/
theorem C114_mixed {b : PB E} (hb : b.WF) {L0 L1 : Leaf E} {f0 f1 : E → Bool} (hp0 : Part b [0] L0 f0) (hp1 : Part b [1] L1 f1) (he0 : ∀ e, f0 e = true) (he1 : ∀ e, f1 e = true)
    {P : Shapes E X K} (hP : P.OK ⟨b.model, []⟩) (hd : P.dimC = 1) (hsep : Separate ⟨b.model, []⟩ P)
    (hne0 : ∀ e, L0.loc e ≠ []) (hne1 : ∀ e, L1.loc e ≠ []) (hrow0 : P.rows [0] = P.dimworld) (hrow1 : P.rows [1] = 1) (Q : Quadrature E X K) (f : E → X → K) :
    ∃ (a : E → Nat → Nat → K) (l : E → Nat → K),
      (∀ els, assembleMatrixWith b.model (mixedMatrix P Q) els = assembleMatrix b.model a els) ∧
      (∀ els, assembleRhsWith b.model (mixedVolumeTerm P Q f) els = assembleRhs b.model l els) ∧
      ∀ els u w, VecOK ⟨b.model, []⟩ 1 u → VecOK ⟨b.model, []⟩ 1 w →
        bilinear b.model a els (coef u) (coef w) = integral Q els (fun e x =>
          ∑ k ∈ range P.dimworld, valueOf b P u false [0] e x k 0 * valueOf b P w false [0] e x k 0 +
          ((∑ k ∈ range P.dimworld, valueOf b P w true [0] e x k k) * valueOf b P u false [1] e x 0 0 +
          (∑ k ∈ range P.dimworld, valueOf b P u true [0] e x k k) * valueOf b P w false [1] e x 0 0)) ∧
        linear b.model l els (coef w) = integral Q els fun e x => -valueOf b P w false [1] e x 0 0 * f e x := by
  obtain ⟨a, a1, a2⟩ := matrix_with hb fun lv v e => mixed_local hb hp0 hp1 P Q (lv := lv) (v := v) (he0 e) (he1 e)
  obtain ⟨l, l1, l2⟩ := rhs_with hb fun lv v e => mixedVolume_local hb hp1 P Q f (lv := lv) (v := v) (he1 e)
  have hval : ∀ u, VecOK ⟨b.model, []⟩ 1 u → ∀ e x, ∀ k ∈ range (P.rows [0]), ∑ i ∈ range (L0.loc e).length, onElement b e (coef u) (firstOf b [0] e + i) * entryOf (shapeOf P false [0] e x i) k 0 =
      valueOf b P u false [0] e x k 0 := fun u hu e x k hk =>
    valueOf_local hb hP hd hsep hu false hp0 (he0 e) (hne0 e) x (Finset.mem_range.1 hk) Nat.one_pos
  have hpr : ∀ u, VecOK ⟨b.model, []⟩ 1 u → ∀ e x, ∑ i ∈ range (L1.loc e).length, onElement b e (coef u) (firstOf b [1] e + i) * entryOf (shapeOf P false [1] e x i) 0 0 =
      valueOf b P u false [1] e x 0 0 := fun u hu e x =>
    valueOf_local hb hP hd hsep hu false hp1 (he1 e) (hne1 e) x (by rw [hrow1]; exact Nat.one_pos) Nat.one_pos
  have hdiv : ∀ u, VecOK ⟨b.model, []⟩ 1 u → ∀ e x, ∑ i ∈ range (L0.loc e).length, onElement b e (coef u) (firstOf b [0] e + i) * divergence P [0] e x i =
      ∑ k ∈ range P.dimworld, valueOf b P u true [0] e x k k := fun u hu e x => by
    simp only [divergence, lsum, Finset.mul_sum, hrow0]
    rw [Finset.sum_comm]
    refine Finset.sum_congr rfl fun k hk => ?_
    have hk' := Finset.mem_range.1 hk
    exact valueOf_local hb hP hd hsep hu true hp0 (he0 e) (hne0 e) x (by rw [hrow0]; exact hk') hk'
  refine ⟨a, l, a1, l1, fun els u w hu hw => ⟨?_, ?_⟩⟩
  · rw [a2, integral]
    congr 1
    refine List.map_congr_left fun e _ => ?_
    congr 1
    refine List.map_congr_left fun pt _ => ?_
    simp only []
    rw [hdiv u hu, hdiv w hw, hpr u hu, hpr w hw, Finset.sum_congr rfl fun k hk => by rw [hval u hu e pt.1 k hk, hval w hw e pt.1 k hk], hrow0]
    ring
  · rw [l2, integral]
    congr 1
    refine List.map_congr_left fun e _ => ?_
    congr 1
    refine List.map_congr_left fun pt _ => ?_
    rw [hpr w hw]

/-- **C114.** The linear system of examples/poisson-pq2.cc with marked coefficients eliminated: its solutions are the discrete functions with the given marked coefficients for which
`∫ ∇u·∇w = ∫ f w` for all discrete functions `w` whose marked coefficients vanish. -/
theorem C114_poisson {L : Leaf E} (hb : (PB.leaf L).WF) {P : Shapes E X K} (hP : P.OK ⟨(PB.leaf L).model, []⟩) (hd : P.dimC = 1) (hsep : Separate ⟨(PB.leaf L).model, []⟩ P)
    (hne : ∀ e, L.loc e ≠ []) (hrow : P.rows [] = 1) (Q : Quadrature E X K) (f : E → X → K) {els : List E} (hels : ∀ e, e ∈ els) {rows : List MI} (hr : Rows (PB.leaf L).model rows)
    (marked : MI → Bool) (g : MI → K) (hg : ∀ m ∈ IndexSet (PB.leaf L).model, marked m = false → g m = 0) :
    ∃ A rhs, assembleMatrixWith (PB.leaf L).model (laplaceMatrix P Q) els = some A ∧ assembleRhsWith (PB.leaf L).model (volumeTerm P Q f) els = some rhs ∧
      ∀ u, VecOK ⟨(PB.leaf L).model, []⟩ 1 u → (Solves rows (eliminate marked g rows A rhs).1 (eliminate marked g rows A rhs).2 (coef u) ↔
        (∀ m ∈ IndexSet (PB.leaf L).model, marked m = true → coef u m = g m) ∧
        ∀ w, VecOK ⟨(PB.leaf L).model, []⟩ 1 w → (∀ m ∈ IndexSet (PB.leaf L).model, marked m = true → coef w m = 0) →
          integral Q els (fun e x => ∑ k ∈ range P.dimworld, valueOf (.leaf L) P u true [] e x 0 k * valueOf (.leaf L) P w true [] e x 0 k) =
            integral Q els fun e x => valueOf (.leaf L) P w false [] e x 0 0 * f e x) := by
  obtain ⟨a, l, h1, h2, h3⟩ := C114_laplace hb hP hd hsep hne hrow Q f
  obtain ⟨A, rhs, k1, k2, k3⟩ := C113_eliminate _ hb a l hels hr marked g hg
  refine ⟨A, rhs, (h1 els).trans k1, (h2 els).trans k2, fun u hu => (k3 (coef u)).trans (and_congr_right fun _ => ⟨fun h w hw hz => ?_, fun h v hv => ?_⟩)⟩
  · rw [← (h3 els u w hu hw).1, ← (h3 els u w hu hw).2]
    exact h _ hz
  · have hw : VecOK ⟨(PB.leaf L).model, []⟩ 1 (fun m => some [v m]) := fun m _ => ⟨_, rfl, rfl⟩
    have := h _ hw hv
    rwa [← (h3 els u _ hu hw).1, ← (h3 els u _ hu hw).2] at this

/-! ## Example -/

/-- Linear functions on two intervals of length 1/2. -/
def exP1 : Shapes (Fin 2) ℚ ℚ where
  dimC := 1
  uses _ := false
  shape d _ _ _ x := ((if d then [-1, 1] else [1 - x, x]).map fun z => [[z]])
  rows _ := 1
  dim := 1
  dimworld := 1
  jinv _ _ := [[2]]
  ntre _ p := [p]

theorem exP1_OK : exP1.OK ⟨exLine.model, []⟩ := by
  have h1 : ∀ e, slotsOn ⟨exLine.model, []⟩ e = [([], 0, 2)] := by decide +kernel
  refine ⟨?_, ?_, ?_⟩
  · intro d e x s hs
    rw [h1, List.mem_singleton] at hs
    subst hs
    cases d <;> rfl
  · intro d e x s _ φ hφ
    simp only [exP1, List.mem_map] at hφ
    obtain ⟨z, _, rfl⟩ := hφ
    cases d <;> simp [exP1, Shapes.cols]
  · intro d e s _
    cases d <;> simp [exP1, Shapes.outCols]

theorem exP1_separate : Separate ⟨exLine.model, []⟩ exP1 := by
  have h1 : ∀ e, slotsOn ⟨exLine.model, []⟩ e = [([], 0, 2)] := by decide +kernel
  intro d e
  rw [h1]
  simp [exP1]

/-- The rule of Simpson. -/
def exSimpson : Quadrature (Fin 2) ℚ ℚ := ⟨fun _ => [(0, 1 / 6), (1 / 2, 4 / 6), (1, 1 / 6)], fun _ _ => 1 / 2⟩

/-- The assembled matrix of the Laplace operator, and the right hand side for `f = 1`. -/
example : (assembleMatrixWith exLine.model (laplaceMatrix exP1 exSimpson) [0, 1]).map (fun A => [[0], [1], [2]].map fun r => [[0], [1], [2]].map fun c => A.val r c) =
    some [[2, -2, 0], [-2, 4, -2], [0, -2, 2]] := by decide +kernel
example : (assembleRhsWith exLine.model (volumeTerm exP1 exSimpson fun _ _ => 1) [0, 1]).map (fun b => [[0], [1], [2]].map b) = some [1 / 4, 1 / 2, 1 / 4] := by decide +kernel

/-- The values and the derivative of a discrete function. -/
example : (valueOf exLine exP1 (fun m => some [if m = [1] then 3 else 0]) false [] 0 (1 / 3) 0 0, valueOf exLine exP1 (fun m => some [if m = [1] then 3 else 0]) true [] 1 (1 / 3) 0 0) =
    ((1 : ℚ), (-6 : ℚ)) := by decide +kernel

example (f : Fin 2 → ℚ → ℚ) : ∃ A rhs, assembleMatrixWith exLine.model (laplaceMatrix exP1 exSimpson) [0, 1] = some A ∧ assembleRhsWith exLine.model (volumeTerm exP1 exSimpson f) [0, 1] = some rhs ∧
    ∀ u, VecOK ⟨exLine.model, []⟩ 1 u → (Solves [[0], [1], [2]] (eliminate (fun m => m == [0] || m == [2]) (fun m => if m = [2] then 4 else 0) [[0], [1], [2]] A rhs).1
        (eliminate (fun m => m == [0] || m == [2]) (fun m => if m = [2] then 4 else 0) [[0], [1], [2]] A rhs).2 (coef u) ↔
      (∀ m ∈ IndexSet exLine.model, (m == [0] || m == [2]) = true → coef u m = if m = [2] then 4 else 0) ∧
      ∀ w, VecOK ⟨exLine.model, []⟩ 1 w → (∀ m ∈ IndexSet exLine.model, (m == [0] || m == [2]) = true → coef w m = 0) →
        integral exSimpson [0, 1] (fun e x => ∑ k ∈ range 1, valueOf exLine exP1 u true [] e x 0 k * valueOf exLine exP1 w true [] e x 0 k) =
          integral exSimpson [0, 1] fun e x => valueOf exLine exP1 w false [] e x 0 0 * f e x) :=
  C114_poisson exLine_WF exP1_OK rfl exP1_separate (by decide) rfl exSimpson f (by decide) exLine_rows _ _ fun m _ hm => if_neg fun h => by subst h; simp at hm

/-- Fluxes and pressures in one dimension: linear and piecewise constant functions. -/
def exMixed : PB (Fin 2) := .composite true [.leaf ⟨3, 2, fun e => [e.1, e.1 + 1]⟩, .leaf ⟨2, 1, fun e => [e.1]⟩]

def exMixedShapes : Shapes (Fin 2) ℚ ℚ where
  dimC := 1
  uses _ := false
  shape d p _ _ x := if p = [0] then (if d then [-1, 1] else [1 - x, x]).map fun z => [[z]] else [[[if d then 0 else 1]]]
  rows _ := 1
  dim := 1
  dimworld := 1
  jinv _ _ := [[2]]
  ntre _ p := [p]

theorem exMixed_WF : exMixed.WF := by
  unfold exMixed
  simp only [PB.WF, PB.WFs, and_true]
  decide

theorem exMixed_slots : ∀ e, slotsOn ⟨exMixed.model, []⟩ e = [([0], 0, 2), ([1], 2, 1)] := by decide +kernel

theorem exMixed_OK : exMixedShapes.OK ⟨exMixed.model, []⟩ := by
  refine ⟨?_, ?_, ?_⟩
  · intro d e x s hs
    rw [exMixed_slots] at hs
    simp only [List.mem_cons, List.not_mem_nil, or_false] at hs
    rcases hs with rfl | rfl <;> cases d <;> rfl
  · intro d e x s hs φ hφ
    rw [exMixed_slots] at hs
    simp only [List.mem_cons, List.not_mem_nil, or_false] at hs
    rcases hs with rfl | rfl
    · simp only [exMixedShapes, if_true, List.mem_map] at hφ
      obtain ⟨z, _, rfl⟩ := hφ
      cases d <;> simp [exMixedShapes, Shapes.cols]
    · simp [exMixedShapes] at hφ
      subst hφ
      cases d <;> simp [exMixedShapes, Shapes.cols]
  · intro d e s _
    cases d <;> simp [exMixedShapes, Shapes.outCols]

theorem exMixed_separate : Separate ⟨exMixed.model, []⟩ exMixedShapes := by
  intro d e
  rw [exMixed_slots]
  simp [exMixedShapes]

/-- The matrix of the first flux with the fluxes and pressures, and one row of a pressure. -/
example : (assembleMatrixWith exMixed.model (mixedMatrix exMixedShapes exSimpson) [0, 1]).map (fun A =>
    ([[0, 0], [0, 1], [1, 0], [1, 1]].map fun c => A.val [0, 0] c, [[0, 0], [0, 1], [0, 2], [1, 0]].map fun c => A.val [1, 1] c)) = some ([1 / 6, 1 / 12, -1, 0], [0, -1, 1, 0]) := by decide +kernel
example : (assembleRhsWith exMixed.model (mixedVolumeTerm exMixedShapes exSimpson fun _ _ => 2) [0, 1]).map (fun b => [[0, 0], [0, 1], [1, 0], [1, 1]].map b) = some [0, 0, -1, -1] := by decide +kernel

example (f : Fin 2 → ℚ → ℚ) : ∃ (a : Fin 2 → Nat → Nat → ℚ) (l : Fin 2 → Nat → ℚ),
    (∀ els, assembleMatrixWith exMixed.model (mixedMatrix exMixedShapes exSimpson) els = assembleMatrix exMixed.model a els) ∧
    (∀ els, assembleRhsWith exMixed.model (mixedVolumeTerm exMixedShapes exSimpson f) els = assembleRhs exMixed.model l els) ∧
    ∀ els u w, VecOK ⟨exMixed.model, []⟩ 1 u → VecOK ⟨exMixed.model, []⟩ 1 w →
      bilinear exMixed.model a els (coef u) (coef w) = integral exSimpson els (fun e x =>
        ∑ k ∈ range 1, valueOf exMixed exMixedShapes u false [0] e x k 0 * valueOf exMixed exMixedShapes w false [0] e x k 0 +
        ((∑ k ∈ range 1, valueOf exMixed exMixedShapes w true [0] e x k k) * valueOf exMixed exMixedShapes u false [1] e x 0 0 +
        (∑ k ∈ range 1, valueOf exMixed exMixedShapes u true [0] e x k k) * valueOf exMixed exMixedShapes w false [1] e x 0 0)) ∧
      linear exMixed.model l els (coef w) = integral exSimpson els fun e x => -valueOf exMixed exMixedShapes w false [1] e x 0 0 * f e x :=
  C114_mixed exMixed_WF (.composite (k := 0) rfl (.leaf _)) (.composite (k := 1) rfl (.leaf _)) (fun _ => rfl) (fun _ => rfl) exMixed_OK rfl exMixed_separate (by decide) (by decide) rfl rfl exSimpson f

end Verif.Galerkin

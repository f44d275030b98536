import Verif.Functions.LocalMatrix
import Mathlib.Algebra.Order.Field.Rat

/-!
# A discontinuous Galerkin method

The matrix of examples/advection-reaction-dg.cc: local views of an element and of its neighbors, element matrices with terms at intersections, and matrices that couple neighbors.
-/

namespace Verif.Galerkin

open Verif.IndexTree Verif.Discrete Verif.RoundTrip Verif.Product
open Finset (range)

variable {E X K : Type} [Field K] [LinearOrder K]

/-! ## Model -/

/-- A quadrature point of an intersection: `geometryInInside().global`, `geometryInOutside().global`, `integrationOuterNormal` and the weight. -/
structure FacePoint (X K : Type) where
  inside : X
  outside : X
  normal : Nat → K
  weight : K

/-- An intersection: `outside()` if `neighbor()`, the rule of advection-reaction-dg.cc:104-105 and the rule of advection-reaction-dg.cc:149-150. -/
structure Face (E X K : Type) where
  neighbor : Option E
  own : List (FacePoint X K)
  coupling : List (FacePoint X K)

/-- Local functions of the coefficients, and the intersections of an element. -/
structure Advection (E X K : Type) where
  velocity : E → X → Nat → K
  reaction : E → X → K
  faces : E → List (Face E X K)

/-- Scalar product of vectors with `n` entries. -/
def dot (n : Nat) (a b : Nat → K) : K := ((List.range n).map fun k => a k * b k).sum

/-- `values[i]`, a `FieldVector<double,1>`. -/
def scalarShape (P : Shapes E X K) (e : E) (x : X) (i : Nat) : K := entryOf (shapeOf P false [] e x i) 0 0

/-- `localVelocityField(positionInElement)*intersection.integrationOuterNormal(...)`, advection-reaction-dg.cc:115, 163. -/
def flux (P : Shapes E X K) (D : Advection E X K) (e : E) (pt : FacePoint X K) : K := dot P.dimworld (D.velocity e pt.inside) pt.normal

/-- `factor`, advection-reaction-dg.cc:115-119. -/
def ownFactor (P : Shapes E X K) (D : Advection E X K) (e : E) (is : Face E X K) (pt : FacePoint X K) : K :=
  if is.neighbor.isNone then min (flux P D e pt) 0 else flux P D e pt

/-- One quadrature point of the element, advection-reaction-dg.cc:87-94. -/
def advectionPoint (P : Shapes E X K) (Q : Quadrature E X K) (D : Advection E X K) (N : Nat) (e : E) (M : Nat → Nat → K) (pt : X × K) : Option (Nat → Nat → K) :=
  (List.range N).foldlM (fun M i => (List.range N).foldlM (fun M j =>
    (addAt N M i j (D.reaction e pt.1 * scalarShape P e pt.1 i * scalarShape P e pt.1 j * pt.2 * Q.integrationElement e pt.1)).bind fun M =>
      addAt N M i j (dot P.dimworld (D.velocity e pt.1) (entryOf (jacobian P [] e pt.1 i) 0) * scalarShape P e pt.1 j * pt.2 * Q.integrationElement e pt.1)) M) M

/-- One quadrature point of an intersection, advection-reaction-dg.cc:109-123. The finite element has `N` shape functions. -/
def ownPoint (P : Shapes E X K) (D : Advection E X K) (N : Nat) (e : E) (is : Face E X K) (M : Nat → Nat → K) (pt : FacePoint X K) : Option (Nat → Nat → K) :=
  (List.range N).foldlM (fun M i => (List.range N).foldlM (fun M j =>
    addAt N M i j (-1 * ownFactor P D e is pt * scalarShape P e pt.inside i * scalarShape P e pt.inside j * pt.weight)) M) M

/-- `getLocalMatrix`, advection-reaction-dg.cc:41-128. -/
def advectionMatrix (P : Shapes E X K) (Q : Quadrature E X K) (D : Advection E X K) (v : LocalView E) : Option (Nat → Nat → K) :=
  v.element.bind fun e => ((Q.rule e).foldlM (advectionPoint P Q D v.size e) fun _ _ => 0).bind fun M =>
    (D.faces e).foldlM (fun M is => is.own.foldlM (ownPoint P D v.size e is) M) M

/-- `elementMatrix[r][c] += y` for a matrix with `N` rows and `N'` columns. -/
def rectAdd (N N' : Nat) (M : Nat → Nat → K) (r c : Nat) (y : K) : Option (Nat → Nat → K) :=
  if r < N ∧ c < N' then some fun r' c' => if r' = r ∧ c' = c then M r' c' + y else M r' c' else none

/-- `getOffDiagonalLocalMatrix`, advection-reaction-dg.cc:132-169. -/
def couplingMatrix (P : Shapes E X K) (D : Advection E X K) (is : Face E X K) (v v' : LocalView E) : Option (Nat → Nat → K) :=
  v.element.bind fun e => v'.element.bind fun o => is.coupling.foldlM (fun M pt =>
    (List.range v.size).foldlM (fun M i => (List.range v'.size).foldlM (fun M j =>
      rectAdd v.size v'.size M i j (flux P D e pt * scalarShape P e pt.inside i * scalarShape P o pt.outside j * pt.weight)) M) M) fun _ _ => 0

/-- Loops over the local indices of two elements, advection-reaction-dg.cc:257-270. -/
def couplingPattern (v v' : LocalView E) (l : List (MI × MI)) : Option (List (MI × MI)) :=
  (List.range v.size).foldlM (fun l i => (v.index i).bind fun r => (List.range v'.size).foldlM (fun l j => (v'.index j).map fun c => addEntry l (r, c)) l) l

/-- An intersection of the pattern, advection-reaction-dg.cc:249-270. -/
def facePattern (pb : PreBasis E) (v : LocalView E) (l : List (MI × MI)) (is : Face E X K) : Option (List (MI × MI)) :=
  match is.neighbor with
  | none => some l
  | some o => ((LocalView.fresh pb).bind pb o).bind fun v' => couplingPattern v v' l

/-- One element of the pattern, advection-reaction-dg.cc:230-272. -/
def advectionPatternStep (pb : PreBasis E) (D : Advection E X K) (s : LocalView E × List (MI × MI)) (e : E) : Option (LocalView E × List (MI × MI)) :=
  (s.1.bind pb e).bind fun v => (patternLoop v s.2).bind fun l => ((D.faces e).foldlM (facePattern pb v) l).map fun l => (v, l)

/-- `getOccupationPattern`, advection-reaction-dg.cc:216-276. -/
def advectionPattern (pb : PreBasis E) (D : Advection E X K) (els : List E) : Option (List (MI × MI)) :=
  (els.foldlM (advectionPatternStep pb D) (LocalView.fresh pb, [])).map Prod.snd

/-- The loops over the matrix of two elements, advection-reaction-dg.cc:360-373; for `v' = v` those of advection-reaction-dg.cc:332-345. -/
def couplingLoop (v v' : LocalView E) (M : Nat → Nat → K) (A : Sparse K) : Option (Sparse K) :=
  (List.range v.size).foldlM (fun A i => (v.index i).bind fun r => (List.range v'.size).foldlM (fun A j => (v'.index j).bind fun c => A.addTo r c (M i j)) A) A

/-- An intersection, advection-reaction-dg.cc:350-373. -/
def faceStep (P : Shapes E X K) (pb : PreBasis E) (D : Advection E X K) (v : LocalView E) (A : Sparse K) (is : Face E X K) : Option (Sparse K) :=
  match is.neighbor with
  | none => some A
  | some o => ((LocalView.fresh pb).bind pb o).bind fun v' => (couplingMatrix P D is v v').bind fun M => couplingLoop v v' M A

/-- One element, advection-reaction-dg.cc:320-374. -/
def advectionStep (P : Shapes E X K) (Q : Quadrature E X K) (pb : PreBasis E) (D : Advection E X K) (s : LocalView E × Sparse K) (e : E) : Option (LocalView E × Sparse K) :=
  (s.1.bind pb e).bind fun v => (advectionMatrix P Q D v).bind fun M => (couplingLoop v v M s.2).bind fun A => ((D.faces e).foldlM (faceStep P pb D v) A).map fun A => (v, A)

/-- The matrix of `assembleStiffnessMatrix`, advection-reaction-dg.cc:281-391. Its right hand side is computed like the one of poisson-pq2.cc (`volumeTerm`, `assembleRhsWith`), advection-reaction-dg.cc:174-212,
376-387. -/
def assembleAdvection (P : Shapes E X K) (Q : Quadrature E X K) (pb : PreBasis E) (D : Advection E X K) (els : List E) : Option (Sparse K) :=
  (advectionPattern pb D els).bind fun pat => (els.foldlM (advectionStep P Q pb D) (LocalView.fresh pb, ⟨pat, fun _ _ => 0⟩)).map Prod.snd

/-! ## Specification -/

/-- The terms of an intersection, for functions `u` and `w` that are given on each element. -/
def faceTerms (n : Nat) (D : Advection E X K) (u w : E → X → K) (e : E) (is : Face E X K) : K :=
  match is.neighbor with
  | none => -(is.own.map fun pt => min (∑ k ∈ range n, D.velocity e pt.inside k * pt.normal k) 0 * u e pt.inside * w e pt.inside * pt.weight).sum
  | some o => -(is.own.map fun pt => (∑ k ∈ range n, D.velocity e pt.inside k * pt.normal k) * u e pt.inside * w e pt.inside * pt.weight).sum +
      (is.coupling.map fun pt => (∑ k ∈ range n, D.velocity e pt.inside k * pt.normal k) * u o pt.outside * w e pt.inside * pt.weight).sum

/-- The sum of the terms of all intersections. -/
def faceSum (n : Nat) (D : Advection E X K) (els : List E) (u w : E → X → K) : K := (els.map fun e => ((D.faces e).map (faceTerms n D u w e)).sum).sum

/-! ## Proofs -/

omit [LinearOrder K] in
/-- Two loops. -/
theorem loops_sum {S W : Type} {n m : Nat} {step : S → Nat → Nat → Option S} {P : S → Prop} {Φ : W → S → K} {g : W → Nat → Nat → K}
    (h : ∀ s, ∀ i < n, ∀ j < m, P s → ∃ s', step s i j = some s' ∧ P s' ∧ ∀ w, Φ w s' = Φ w s + g w i j) (s : S) (hs : P s) :
    ∃ s', (List.range n).foldlM (fun s i => (List.range m).foldlM (fun s j => step s i j) s) s = some s' ∧ P s' ∧ ∀ w, Φ w s' = Φ w s + ∑ i ∈ range n, ∑ j ∈ range m, g w i j :=
  fold_sum (fun s i => (List.range m).foldlM (fun s j => step s i j) s) P Φ (fun w i => ∑ j ∈ range m, g w i j) (List.range n)
    (fun s i hi hs => fold_sum (fun s j => step s i j) P Φ (fun w j => g w i j) (List.range m) (fun s j hj hs => h s i (List.mem_range.1 hi) j (List.mem_range.1 hj) hs) s hs) s hs

/-- A matrix of two elements as bilinear form. -/
def rform (N N' : Nat) (M : Nat → Nat → K) (w : (Nat → K) × (Nat → K)) : K := ∑ i ∈ range N, ∑ j ∈ range N', w.2 i * M i j * w.1 j

omit [LinearOrder K] in
theorem rectAdd_form {N N' : Nat} (M : Nat → Nat → K) {r c : Nat} (hr : r < N) (hc : c < N') (y : K) :
    ∃ M', rectAdd N N' M r c y = some M' ∧ ∀ w, rform N N' M' w = rform N N' M w + w.2 r * y * w.1 c := by
  refine ⟨_, if_pos ⟨hr, hc⟩, fun w => ?_⟩
  have h : ∀ i j, w.2 i * (if i = r ∧ j = c then M i j + y else M i j) * w.1 j = w.2 i * M i j * w.1 j + if i = r then (if j = c then w.2 i * y * w.1 j else 0) else 0 := by
    intro i j
    by_cases hi : i = r <;> by_cases hj : j = c <;> simp [hi, hj]
    ring
  simp only [rform, h, Finset.sum_add_distrib]
  congr 1
  rw [Finset.sum_eq_single r (fun i _ hi => by simp [hi]) (fun h => absurd (Finset.mem_range.2 hr) h),
    Finset.sum_eq_single c (fun j _ hj => by simp [hj]) (fun h => absurd (Finset.mem_range.2 hc) h)]
  simp

omit [LinearOrder K] in
/-- A product of two linear combinations. -/
theorem outer_form (n m : Nat) (v u a b : Nat → K) (c d : K) :
    ∑ i ∈ range n, ∑ j ∈ range m, v i * (c * a i * b j * d) * u j = c * (∑ j ∈ range m, u j * b j) * (∑ i ∈ range n, v i * a i) * d := by
  rw [show c * (∑ j ∈ range m, u j * b j) * (∑ i ∈ range n, v i * a i) * d = ((∑ i ∈ range n, v i * a i) * ∑ j ∈ range m, u j * b j) * (c * d) by ring, Finset.sum_mul_sum, Finset.sum_mul]
  refine Finset.sum_congr rfl fun i _ => ?_
  rw [Finset.sum_mul]
  exact Finset.sum_congr rfl fun j _ => by ring

/-- The value of a linear combination of the shape functions of an element. -/
def comb (P : Shapes E X K) (n : Nat) (e : E) (c : Nat → K) (x : X) : K := ∑ i ∈ range n, c i * scalarShape P e x i

/-- The derivative of a linear combination in the direction of the velocity. -/
def combFlow (P : Shapes E X K) (D : Advection E X K) (n : Nat) (e : E) (c : Nat → K) (x : X) : K :=
  ∑ i ∈ range n, c i * dot P.dimworld (D.velocity e x) (entryOf (jacobian P [] e x i) 0)

theorem advection_local {b : PB E} (hb : b.WF) (P : Shapes E X K) (Q : Quadrature E X K) (D : Advection E X K) {lv v : LocalView E} {e : E}
    (hbl : lv.tree.blank = b.model.makeNode.blank) (hv : lv.bind b.model e = some v) :
    ∃ M, advectionMatrix P Q D v = some M ∧ ∀ w, rform (idx b.model e).length (idx b.model e).length M w =
      ((Q.rule e).map fun pt => (D.reaction e pt.1 * comb P (idx b.model e).length e w.1 pt.1 * comb P (idx b.model e).length e w.2 pt.1 +
        comb P (idx b.model e).length e w.1 pt.1 * combFlow P D (idx b.model e).length e w.2 pt.1) * pt.2 * Q.integrationElement e pt.1).sum +
      ((D.faces e).map fun is => (is.own.map fun pt => -ownFactor P D e is pt * comb P (idx b.model e).length e w.1 pt.inside * comb P (idx b.model e).length e w.2 pt.inside * pt.weight).sum).sum := by
  obtain ⟨v', v1, v2, v3, v4⟩ := bind_view b hb hbl e
  rw [hv, Option.some.injEq] at v1
  subst v1
  have hel : v.element = some e := by
    have := LocalView.bind_eq (b.refines hb) lv hbl e
    rw [hv, Option.some.injEq] at this
    subst this
    rfl
  rw [advectionMatrix, hel, Option.bind_some, v3]
  generalize (idx b.model e).length = N
  obtain ⟨M1, k1, -, k2⟩ := fold_sum (W := (Nat → K) × (Nat → K)) (advectionPoint P Q D N e) (fun _ => True) (fun w M => lform N M w)
    (fun w pt => (D.reaction e pt.1 * comb P N e w.1 pt.1 * comb P N e w.2 pt.1 + comb P N e w.1 pt.1 * combFlow P D N e w.2 pt.1) * pt.2 * Q.integrationElement e pt.1) (Q.rule e) (by
      intro M pt _ _
      obtain ⟨M', l1, -, l2⟩ := loops_sum (W := (Nat → K) × (Nat → K)) (n := N) (m := N)
        (step := fun M i j => (addAt N M i j (D.reaction e pt.1 * scalarShape P e pt.1 i * scalarShape P e pt.1 j * pt.2 * Q.integrationElement e pt.1)).bind fun M =>
          addAt N M i j (dot P.dimworld (D.velocity e pt.1) (entryOf (jacobian P [] e pt.1 i) 0) * scalarShape P e pt.1 j * pt.2 * Q.integrationElement e pt.1))
        (P := fun _ => True) (Φ := fun w M => lform N M w)
        (g := fun w i j => w.2 i * (D.reaction e pt.1 * scalarShape P e pt.1 i * scalarShape P e pt.1 j * (pt.2 * Q.integrationElement e pt.1)) * w.1 j +
          w.2 i * (1 * dot P.dimworld (D.velocity e pt.1) (entryOf (jacobian P [] e pt.1 i) 0) * scalarShape P e pt.1 j * (pt.2 * Q.integrationElement e pt.1)) * w.1 j) (by
          intro M i hi j hj _
          obtain ⟨A, a1, a2⟩ := addAt_form M hi hj (D.reaction e pt.1 * scalarShape P e pt.1 i * scalarShape P e pt.1 j * pt.2 * Q.integrationElement e pt.1)
          obtain ⟨B, b1, b2⟩ := addAt_form A hi hj (dot P.dimworld (D.velocity e pt.1) (entryOf (jacobian P [] e pt.1 i) 0) * scalarShape P e pt.1 j * pt.2 * Q.integrationElement e pt.1)
          exact ⟨B, by rw [a1]; exact b1, trivial, fun w => by rw [b2, a2]; ring⟩) M trivial
      refine ⟨M', l1, trivial, fun w => ?_⟩
      rw [l2]
      simp only [Finset.sum_add_distrib]
      simp only [outer_form]
      simp only [comb, combFlow]
      ring) (fun _ _ => 0) trivial
  obtain ⟨M2, m1, -, m2⟩ := fold_sum (W := (Nat → K) × (Nat → K)) (fun M is => is.own.foldlM (ownPoint P D N e is) M) (fun _ => True) (fun w M => lform N M w)
    (fun w is => (is.own.map fun pt => -ownFactor P D e is pt * comb P N e w.1 pt.inside * comb P N e w.2 pt.inside * pt.weight).sum) (D.faces e) (by
      intro M is _ _
      refine fold_sum (W := (Nat → K) × (Nat → K)) (ownPoint P D N e is) (fun _ => True) (fun w M => lform N M w) _ is.own (fun M pt _ _ => ?_) M trivial
      obtain ⟨M', l1, -, l2⟩ := loops_sum (W := (Nat → K) × (Nat → K)) (n := N) (m := N)
        (step := fun M i j => addAt N M i j (-1 * ownFactor P D e is pt * scalarShape P e pt.inside i * scalarShape P e pt.inside j * pt.weight))
        (P := fun _ => True) (Φ := fun w M => lform N M w)
        (g := fun w i j => w.2 i * (-1 * ownFactor P D e is pt * scalarShape P e pt.inside i * scalarShape P e pt.inside j * pt.weight) * w.1 j) (by
          intro M i hi j hj _
          obtain ⟨A, a1, a2⟩ := addAt_form M hi hj (-1 * ownFactor P D e is pt * scalarShape P e pt.inside i * scalarShape P e pt.inside j * pt.weight)
          exact ⟨A, a1, trivial, a2⟩) M trivial
      refine ⟨M', l1, trivial, fun w => ?_⟩
      rw [l2]
      simp only [outer_form]
      simp only [comb]
      ring) M1 trivial
  refine ⟨M2, by rw [k1]; exact m1, fun w => ?_⟩
  have h0 : lform N (fun _ _ => (0 : K)) w = 0 := by simp [lform]
  rw [show rform N N M2 w = lform N M2 w from rfl, m2, k2, h0, zero_add]

omit [LinearOrder K] in
theorem coupling_local {b : PB E} (hb : b.WF) (P : Shapes E X K) (D : Advection E X K) (is : Face E X K) {lv v lv' v' : LocalView E} {e o : E}
    (hbl : lv.tree.blank = b.model.makeNode.blank) (hv : lv.bind b.model e = some v) (hbl' : lv'.tree.blank = b.model.makeNode.blank) (hv' : lv'.bind b.model o = some v') :
    ∃ M, couplingMatrix P D is v v' = some M ∧ ∀ w, rform (idx b.model e).length (idx b.model o).length M w =
      (is.coupling.map fun pt => flux P D e pt * comb P (idx b.model o).length o w.1 pt.outside * comb P (idx b.model e).length e w.2 pt.inside * pt.weight).sum := by
  obtain ⟨x, v1, v2, v3, v4⟩ := bind_view b hb hbl e
  rw [hv, Option.some.injEq] at v1
  subst v1
  obtain ⟨x, v1', v2', v3', v4'⟩ := bind_view b hb hbl' o
  rw [hv', Option.some.injEq] at v1'
  subst v1'
  have hel : v.element = some e := by
    have := LocalView.bind_eq (b.refines hb) lv hbl e
    rw [hv, Option.some.injEq] at this
    subst this
    rfl
  have hel' : v'.element = some o := by
    have := LocalView.bind_eq (b.refines hb) lv' hbl' o
    rw [hv', Option.some.injEq] at this
    subst this
    rfl
  rw [couplingMatrix, hel, Option.bind_some, hel', Option.bind_some, v3, v3']
  generalize (idx b.model e).length = N
  generalize (idx b.model o).length = N'
  obtain ⟨M, k1, -, k2⟩ := fold_sum (W := (Nat → K) × (Nat → K)) (fun M pt => (List.range N).foldlM (fun M i => (List.range N').foldlM (fun M j =>
      rectAdd N N' M i j (flux P D e pt * scalarShape P e pt.inside i * scalarShape P o pt.outside j * pt.weight)) M) M) (fun _ => True) (fun w M => rform N N' M w)
    (fun w pt => flux P D e pt * comb P N' o w.1 pt.outside * comb P N e w.2 pt.inside * pt.weight) is.coupling (by
      intro M pt _ _
      obtain ⟨M', l1, -, l2⟩ := loops_sum (W := (Nat → K) × (Nat → K)) (n := N) (m := N')
        (step := fun M i j => rectAdd N N' M i j (flux P D e pt * scalarShape P e pt.inside i * scalarShape P o pt.outside j * pt.weight))
        (P := fun _ => True) (Φ := fun w M => rform N N' M w)
        (g := fun w i j => w.2 i * (flux P D e pt * scalarShape P e pt.inside i * scalarShape P o pt.outside j * pt.weight) * w.1 j) (by
          intro M i hi j hj _
          obtain ⟨A, a1, a2⟩ := rectAdd_form M hi hj (flux P D e pt * scalarShape P e pt.inside i * scalarShape P o pt.outside j * pt.weight)
          exact ⟨A, a1, trivial, a2⟩) M trivial
      refine ⟨M', l1, trivial, fun w => ?_⟩
      rw [l2]
      simp only [outer_form]
      simp only [comb]) (fun _ _ => 0) trivial
  exact ⟨M, k1, fun w => by rw [k2]; simp [rform]⟩

omit [LinearOrder K] in
/-- Adding a matrix of two elements. -/
theorem couplingLoop_form {b : PB E} {v v' : LocalView E} {e o : E} (hs : v.size = (idx b.model e).length) (hi : ∀ i < (idx b.model e).length, v.index i = some ((idx b.model e)[i]?.getD []))
    (hs' : v'.size = (idx b.model o).length) (hi' : ∀ i < (idx b.model o).length, v'.index i = some ((idx b.model o)[i]?.getD [])) (M : Nat → Nat → K) {A : Sparse K}
    {pat : List (MI × MI)} (hA : A.pattern = pat) (hn : pat.Nodup) (hm : ∀ r ∈ idx b.model e, ∀ c ∈ idx b.model o, (r, c) ∈ pat) :
    ∃ A', couplingLoop v v' M A = some A' ∧ A'.pattern = pat ∧ ∀ w : (MI → K) × (MI → K), A'.form w.1 w.2 = A.form w.1 w.2 +
      rform (idx b.model e).length (idx b.model o).length M (onElement b o w.1, onElement b e w.2) := by
  obtain ⟨A', l1, l2, l3⟩ := fold_sum (W := (MI → K) × (MI → K)) (fun A i => (v.index i).bind fun r => (List.range v'.size).foldlM (fun A j => (v'.index j).bind fun c => A.addTo r c (M i j)) A)
    (fun A => A.pattern = pat) (fun w A => A.form w.1 w.2)
    (fun w i => ((List.range (idx b.model o).length).map fun j => onElement b e w.2 i * M i j * onElement b o w.1 j).sum)
    (List.range (idx b.model e).length) (by
      intro A i hii hA
      rw [List.mem_range] at hii
      obtain ⟨A', m1, m2, m3⟩ := fold_sum (W := (MI → K) × (MI → K)) (fun A j => (v'.index j).bind fun c => A.addTo ((idx b.model e)[i]?.getD []) c (M i j))
        (fun A => A.pattern = pat) (fun w A => A.form w.1 w.2)
        (fun w j => onElement b e w.2 i * M i j * onElement b o w.1 j) (List.range (idx b.model o).length) (by
          intro A j hj hA
          rw [List.mem_range] at hj
          have hm : ((idx b.model e)[i]?.getD [], (idx b.model o)[j]?.getD []) ∈ A.pattern := by
            rw [hA, List.getElem?_eq_getElem hii, List.getElem?_eq_getElem hj]
            exact hm _ (List.getElem_mem hii) _ (List.getElem_mem hj)
          obtain ⟨A', k1, k2, k3⟩ := addTo_form (hA ▸ hn) hm (M i j)
          exact ⟨A', by rw [hi' j hj]; exact k1, k2.trans hA, k3⟩) A hA
      exact ⟨A', by rw [hi i hii, hs']; exact m1, m2, m3⟩) A hA
  refine ⟨A', by rw [couplingLoop, hs]; exact l1, l2, l3⟩

theorem addEntry_spec (l : List (MI × MI)) (rc : MI × MI) (hl : l.Nodup) : (addEntry l rc).Nodup ∧ ∀ w, w ∈ addEntry l rc ↔ w ∈ l ∨ w = rc := by
  unfold addEntry
  split
  · rename_i h
    refine ⟨hl, fun w => ⟨.inl, ?_⟩⟩
    rintro (h' | rfl)
    · exact h'
    · exact h
  · rename_i h
    refine ⟨List.Nodup.append hl (List.nodup_singleton _) (by simpa using h), fun w => by simp⟩

theorem mem_pairs (l l' : List MI) (w : MI × MI) : (∃ i ∈ List.range l.length, ∃ j ∈ List.range l'.length, w = (l[i]?.getD [], l'[j]?.getD [])) ↔ w.1 ∈ l ∧ w.2 ∈ l' := by
  constructor
  · rintro ⟨i, hi, j, hj, rfl⟩
    rw [List.mem_range] at hi hj
    rw [List.getElem?_eq_getElem hi, List.getElem?_eq_getElem hj]
    exact ⟨List.getElem_mem hi, List.getElem_mem hj⟩
  · rintro ⟨hr, hc⟩
    obtain ⟨i, hi, h1⟩ := List.getElem_of_mem hr
    obtain ⟨j, hj, h2⟩ := List.getElem_of_mem hc
    refine ⟨i, List.mem_range.2 hi, j, List.mem_range.2 hj, ?_⟩
    rw [List.getElem?_eq_getElem hi, List.getElem?_eq_getElem hj, h1, h2]
    rfl

theorem couplingPattern_spec {b : PB E} {v v' : LocalView E} {e o : E} (hs : v.size = (idx b.model e).length) (hi : ∀ i < (idx b.model e).length, v.index i = some ((idx b.model e)[i]?.getD []))
    (hs' : v'.size = (idx b.model o).length) (hi' : ∀ i < (idx b.model o).length, v'.index i = some ((idx b.model o)[i]?.getD [])) {l : List (MI × MI)} (hl : l.Nodup) :
    ∃ l', couplingPattern v v' l = some l' ∧ l'.Nodup ∧ ∀ w, w ∈ l' ↔ w ∈ l ∨ (w.1 ∈ idx b.model e ∧ w.2 ∈ idx b.model o) := by
  obtain ⟨l', l1, l2, l3⟩ := fold_mem (W := MI × MI) (fun l i => (v.index i).bind fun r => (List.range v'.size).foldlM (fun l j => (v'.index j).map fun c => addEntry l (r, c)) l)
    (fun l => l.Nodup) (fun w l => w ∈ l) (fun w i => ∃ j ∈ List.range (idx b.model o).length, w = ((idx b.model e)[i]?.getD [], (idx b.model o)[j]?.getD []))
    (List.range (idx b.model e).length) (by
      intro l i hii hl
      obtain ⟨l', m1, m2, m3⟩ := fold_mem (W := MI × MI) (fun l j => (v'.index j).map fun c => addEntry l ((idx b.model e)[i]?.getD [], c)) (fun l => l.Nodup) (fun w l => w ∈ l)
        (fun w j => w = ((idx b.model e)[i]?.getD [], (idx b.model o)[j]?.getD [])) (List.range (idx b.model o).length) (by
          intro l j hj hl
          refine ⟨_, ?_, addEntry_spec l ((idx b.model e)[i]?.getD [], (idx b.model o)[j]?.getD []) hl⟩
          rw [hi' j (List.mem_range.1 hj)]
          rfl) l hl
      exact ⟨l', by rw [hi i (List.mem_range.1 hii), hs']; exact m1, m2, m3⟩) l hl
  refine ⟨l', by rw [couplingPattern, hs]; exact l1, l2, fun w => ?_⟩
  rw [l3, ← mem_pairs]

theorem patternLoop_spec {b : PB E} {v : LocalView E} {e : E} (hs : v.size = (idx b.model e).length) (hi : ∀ i < (idx b.model e).length, v.index i = some ((idx b.model e)[i]?.getD []))
    {l : List (MI × MI)} (hl : l.Nodup) :
    ∃ l', patternLoop v l = some l' ∧ l'.Nodup ∧ ∀ w, w ∈ l' ↔ w ∈ l ∨ (w.1 ∈ idx b.model e ∧ w.2 ∈ idx b.model e) := by
  obtain ⟨l', l1, l2, l3⟩ := couplingPattern_spec hs hi hs hi hl
  refine ⟨l', ?_, l2, l3⟩
  rw [← l1, patternLoop, couplingPattern]
  refine foldlM_range_congr rfl (fun l i hii => ?_) l
  rw [hi i (hs ▸ hii)]
  rfl

omit [Field K] [LinearOrder K] in
/-- The pattern. -/
theorem advectionPattern_spec {b : PB E} (hb : b.WF) (D : Advection E X K) (els : List E) :
    ∃ pat, advectionPattern b.model D els = some pat ∧ pat.Nodup ∧ ∀ w, w ∈ pat ↔ ∃ e ∈ els, (w.1 ∈ idx b.model e ∧ w.2 ∈ idx b.model e) ∨
      ∃ is ∈ D.faces e, ∃ o, is.neighbor = some o ∧ w.1 ∈ idx b.model e ∧ w.2 ∈ idx b.model o := by
  obtain ⟨s, h1, h2, h3⟩ := fold_mem (W := MI × MI) (advectionPatternStep b.model D) (fun s => s.1.tree.blank = b.model.makeNode.blank ∧ s.2.Nodup) (fun w s => w ∈ s.2)
    (fun w e => (w.1 ∈ idx b.model e ∧ w.2 ∈ idx b.model e) ∨ ∃ is ∈ D.faces e, ∃ o, is.neighbor = some o ∧ w.1 ∈ idx b.model e ∧ w.2 ∈ idx b.model o) els (by
      rintro s e - ⟨hs1, hs2⟩
      obtain ⟨v, v1, v2, v3, v4⟩ := bind_view b hb hs1 e
      obtain ⟨l, l1, l2, l3⟩ := patternLoop_spec v3 v4 hs2
      obtain ⟨l', m1, m2, m3⟩ := fold_mem (W := MI × MI) (facePattern b.model v) (fun l => l.Nodup) (fun w l => w ∈ l)
        (fun w is => ∃ o, is.neighbor = some o ∧ w.1 ∈ idx b.model e ∧ w.2 ∈ idx b.model o) (D.faces e) (by
          intro l is _ hl
          cases hn : is.neighbor with
          | none => exact ⟨l, by rw [facePattern, hn], hl, fun w => by simp⟩
          | some o =>
            obtain ⟨v', v1', v2', v3', v4'⟩ := bind_view b hb (LocalView.fresh_blank b.model) o
            obtain ⟨l', k1, k2, k3⟩ := couplingPattern_spec v3 v4 v3' v4' hl
            exact ⟨l', by rw [facePattern, hn]; simp only []; rw [v1', Option.bind_some, k1], k2, fun w => by rw [k3]; simp⟩) l l2
      exact ⟨(v, l'), by rw [advectionPatternStep, v1, Option.bind_some, l1, Option.bind_some, m1]; rfl, ⟨v2, m2⟩, fun w => by rw [m3, l3, or_assoc]⟩)
    (LocalView.fresh b.model, []) ⟨LocalView.fresh_blank _, List.nodup_nil⟩
  exact ⟨s.2, by rw [advectionPattern, h1]; rfl, h2.2, fun w => by rw [h3]; simp⟩

/-- The assembled form. -/
theorem advection_spec {b : PB E} (hb : b.WF) (P : Shapes E X K) (Q : Quadrature E X K) (D : Advection E X K) (els : List E) :
    ∃ A, assembleAdvection P Q b.model D els = some A ∧ (∀ rc ∈ A.pattern, rc.1 ∈ IndexSet b.model) ∧ ∀ u w : MI → K, A.form u w =
      (els.map fun e => ((Q.rule e).map fun pt => (D.reaction e pt.1 * comb P (idx b.model e).length e (onElement b e u) pt.1 * comb P (idx b.model e).length e (onElement b e w) pt.1 +
        comb P (idx b.model e).length e (onElement b e u) pt.1 * combFlow P D (idx b.model e).length e (onElement b e w) pt.1) * pt.2 * Q.integrationElement e pt.1).sum +
      ((D.faces e).map fun is => (is.own.map fun pt => -ownFactor P D e is pt * comb P (idx b.model e).length e (onElement b e u) pt.inside *
        comb P (idx b.model e).length e (onElement b e w) pt.inside * pt.weight).sum).sum +
      ((D.faces e).map fun is => (is.neighbor.map fun o => (is.coupling.map fun pt => flux P D e pt * comb P (idx b.model o).length o (onElement b o u) pt.outside *
        comb P (idx b.model e).length e (onElement b e w) pt.inside * pt.weight).sum).getD 0).sum).sum := by
  obtain ⟨pat, p1, p2, p3⟩ := advectionPattern_spec hb D els
  obtain ⟨s, h1, h2, h3⟩ := fold_sum (W := (MI → K) × (MI → K)) (advectionStep P Q b.model D) (fun s => s.1.tree.blank = b.model.makeNode.blank ∧ s.2.pattern = pat) (fun w s => s.2.form w.1 w.2)
    (fun w e => ((Q.rule e).map fun pt => (D.reaction e pt.1 * comb P (idx b.model e).length e (onElement b e w.1) pt.1 * comb P (idx b.model e).length e (onElement b e w.2) pt.1 +
        comb P (idx b.model e).length e (onElement b e w.1) pt.1 * combFlow P D (idx b.model e).length e (onElement b e w.2) pt.1) * pt.2 * Q.integrationElement e pt.1).sum +
      ((D.faces e).map fun is => (is.own.map fun pt => -ownFactor P D e is pt * comb P (idx b.model e).length e (onElement b e w.1) pt.inside *
        comb P (idx b.model e).length e (onElement b e w.2) pt.inside * pt.weight).sum).sum +
      ((D.faces e).map fun is => (is.neighbor.map fun o => (is.coupling.map fun pt => flux P D e pt * comb P (idx b.model o).length o (onElement b o w.1) pt.outside *
        comb P (idx b.model e).length e (onElement b e w.2) pt.inside * pt.weight).sum).getD 0).sum) els (by
      rintro s e he ⟨hs1, hs2⟩
      obtain ⟨v, v1, v2, v3, v4⟩ := bind_view b hb hs1 e
      obtain ⟨M, m1, m2⟩ := advection_local hb P Q D hs1 v1
      obtain ⟨A, l1, l2, l3⟩ := couplingLoop_form v3 v4 v3 v4 M hs2 p2 fun r hr c hc => (p3 _).2 ⟨e, he, .inl ⟨hr, hc⟩⟩
      obtain ⟨A', k1, k2, k3⟩ := fold_sum (W := (MI → K) × (MI → K)) (faceStep P b.model D v) (fun A => A.pattern = pat) (fun w A => A.form w.1 w.2)
        (fun w is => (is.neighbor.map fun o => (is.coupling.map fun pt => flux P D e pt * comb P (idx b.model o).length o (onElement b o w.1) pt.outside *
          comb P (idx b.model e).length e (onElement b e w.2) pt.inside * pt.weight).sum).getD 0) (D.faces e) (by
          intro A is his hA
          cases hn : is.neighbor with
          | none => exact ⟨A, by rw [faceStep, hn], hA, fun w => by simp⟩
          | some o =>
            obtain ⟨v', v1', v2', v3', v4'⟩ := bind_view b hb (LocalView.fresh_blank b.model) o
            obtain ⟨M', n1, n2⟩ := coupling_local hb P D is hs1 v1 (LocalView.fresh_blank b.model) v1'
            obtain ⟨A', q1, q2, q3⟩ := couplingLoop_form v3 v4 v3' v4' M' hA p2 fun r hr c hc => (p3 _).2 ⟨e, he, .inr ⟨is, his, o, hn, hr, hc⟩⟩
            exact ⟨A', by rw [faceStep, hn]; simp only []; rw [v1', Option.bind_some, n1, Option.bind_some, q1], q2, fun w => by rw [q3, n2, Option.map_some, Option.getD_some]⟩) A l2
      exact ⟨(v, A'), by rw [advectionStep, v1, Option.bind_some, m1, Option.bind_some, l1, Option.bind_some, k1]; rfl, ⟨v2, k2⟩, fun w => by rw [k3, l3, m2]; ring⟩)
    (LocalView.fresh b.model, ⟨pat, fun _ _ => 0⟩) ⟨LocalView.fresh_blank _, rfl⟩
  refine ⟨s.2, by rw [assembleAdvection, p1, Option.bind_some, h1]; rfl, fun rc hrc => ?_, fun u w => ?_⟩
  · rw [h2.2] at hrc
    obtain ⟨e, -, h⟩ := (p3 rc).1 hrc
    have hr : rc.1 ∈ idx b.model e := by
      rcases h with h | ⟨_, _, _, _, h⟩
      · exact h.1
      · exact h.1
    refine ⟨e, idx b.model e, ?_, hr⟩
    rw [idx_eq b hb]
    exact localIndices_eq (b.refines hb) e
  · rw [h3 (u, w)]
    simp [Sparse.form]

/-! ## Theorems -/

theorem leaf_size {L : Leaf E} (hb : (PB.leaf L).WF) (e : E) : (idx (PB.leaf L).model e).length = (L.loc e).length := by
  obtain ⟨v, v1, -⟩ := bind_view (.leaf L) hb (LocalView.fresh_blank _) e
  obtain ⟨-, h2, t, h3, h4, -⟩ := part_view hb (.leaf L) rfl (LocalView.fresh_blank _) v1
  rw [Node.child, Option.some.injEq] at h3
  rw [← h2, LocalView.size, h3, h4]

omit [LinearOrder K] in
theorem comb_value {L : Leaf E} (hb : (PB.leaf L).WF) {P : Shapes E X K} (hP : P.OK ⟨(PB.leaf L).model, []⟩) (hd : P.dimC = 1) (hsep : Separate ⟨(PB.leaf L).model, []⟩ P)
    (hne : ∀ e, L.loc e ≠ []) (hrow : P.rows [] = 1) {u : Discrete.Vec K} (hu : VecOK ⟨(PB.leaf L).model, []⟩ 1 u) (e : E) (x : X) :
    comb P (idx (PB.leaf L).model e).length e (onElement (.leaf L) e (coef u)) x = valueOf (.leaf L) P u false [] e x 0 0 := by
  rw [← valueOf_local hb hP hd hsep hu false (.leaf L) rfl (hne e) x (by rw [hrow]; exact Nat.one_pos) (show 0 < P.outCols false from Nat.one_pos), comb, leaf_size hb, firstOf_root]
  simp only [Nat.zero_add]
  rfl

omit [LinearOrder K] in
theorem combFlow_value {L : Leaf E} (hb : (PB.leaf L).WF) {P : Shapes E X K} (hP : P.OK ⟨(PB.leaf L).model, []⟩) (hd : P.dimC = 1) (hsep : Separate ⟨(PB.leaf L).model, []⟩ P)
    (hne : ∀ e, L.loc e ≠ []) (hrow : P.rows [] = 1) (D : Advection E X K) {u : Discrete.Vec K} (hu : VecOK ⟨(PB.leaf L).model, []⟩ 1 u) (e : E) (x : X) :
    combFlow P D (idx (PB.leaf L).model e).length e (onElement (.leaf L) e (coef u)) x = ∑ k ∈ range P.dimworld, D.velocity e x k * valueOf (.leaf L) P u true [] e x 0 k := by
  have h : ∀ k ∈ range P.dimworld, D.velocity e x k * valueOf (.leaf L) P u true [] e x 0 k =
      ∑ i ∈ range (L.loc e).length, onElement (.leaf L) e (coef u) i * (D.velocity e x k * entryOf (jacobian P [] e x i) 0 k) := by
    intro k hk
    rw [← valueOf_local hb hP hd hsep hu true (.leaf L) rfl (hne e) x (by rw [hrow]; exact Nat.one_pos) (show k < P.outCols true from Finset.mem_range.1 hk), firstOf_root, Finset.mul_sum]
    refine Finset.sum_congr rfl fun i _ => ?_
    rw [Nat.zero_add, if_pos rfl]
    ring
  rw [combFlow, leaf_size hb, Finset.sum_congr rfl h, Finset.sum_comm]
  refine Finset.sum_congr rfl fun i _ => ?_
  rw [dot, lsum, Finset.mul_sum]

theorem face_value {b : PB E} (P : Shapes E X K) (D : Advection E X K) (e : E) (is : Face E X K) (u w : MI → K) {U W : E → X → K}
    (hU : ∀ e x, comb P (idx b.model e).length e (onElement b e u) x = U e x) (hW : ∀ e x, comb P (idx b.model e).length e (onElement b e w) x = W e x) :
    (is.own.map fun pt => -ownFactor P D e is pt * comb P (idx b.model e).length e (onElement b e u) pt.inside * comb P (idx b.model e).length e (onElement b e w) pt.inside * pt.weight).sum +
      (is.neighbor.map fun o => (is.coupling.map fun pt => flux P D e pt * comb P (idx b.model o).length o (onElement b o u) pt.outside *
        comb P (idx b.model e).length e (onElement b e w) pt.inside * pt.weight).sum).getD 0 = faceTerms P.dimworld D U W e is := by
  simp only [hU, hW, faceTerms, ownFactor, flux, dot, lsum]
  have hneg : ∀ (l : List (FacePoint X K)) (g : FacePoint X K → K), (l.map fun pt => -g pt).sum = -(l.map g).sum := by
    intro l g
    induction l with
    | nil => simp
    | cons a l ih => rw [List.map_cons, List.sum_cons, ih, List.map_cons, List.sum_cons]; ring
  cases hn : is.neighbor with
  | none => simp [neg_mul, hneg]
  | some o => simp [neg_mul, hneg]

/-- **C116.** The system assembled by examples/advection-reaction-dg.cc, for a basis with scalar finite elements on any grid: all entries that are written are in the pattern, and the solutions are the discrete
functions `u` that satisfy, for all discrete functions `w`, the equation `∫ c u w + u β·∇w + faces = ∫ f w` where an intersection with a neighbor gives `-∫ β·n (u - u_neighbor) w` and one at the boundary
`-∫ min(β·n, 0) u w`. Values and gradients are those that evaluation of discrete functions gives. What is missing is that the solution of `β·∇u + c u = f` with zero inflow values satisfies the system: see
`C116_consistency_false`. -/
theorem C116_advection_partial {L : Leaf E} (hb : (PB.leaf L).WF) {P : Shapes E X K} (hP : P.OK ⟨(PB.leaf L).model, []⟩) (hd : P.dimC = 1) (hsep : Separate ⟨(PB.leaf L).model, []⟩ P)
    (hne : ∀ e, L.loc e ≠ []) (hrow : P.rows [] = 1) (Q : Quadrature E X K) (D : Advection E X K) (f : E → X → K) (els : List E) {rows : List MI} (hr : Rows (PB.leaf L).model rows) :
    ∃ A rhs, assembleAdvection P Q (PB.leaf L).model D els = some A ∧ assembleRhsWith (PB.leaf L).model (volumeTerm P Q f) els = some rhs ∧
      ∀ u, VecOK ⟨(PB.leaf L).model, []⟩ 1 u → (Solves rows A rhs (coef u) ↔
        ∀ w, VecOK ⟨(PB.leaf L).model, []⟩ 1 w →
          integral Q els (fun e x => D.reaction e x * valueOf (.leaf L) P u false [] e x 0 0 * valueOf (.leaf L) P w false [] e x 0 0 +
            valueOf (.leaf L) P u false [] e x 0 0 * ∑ k ∈ range P.dimworld, D.velocity e x k * valueOf (.leaf L) P w true [] e x 0 k) +
          faceSum P.dimworld D els (fun e x => valueOf (.leaf L) P u false [] e x 0 0) (fun e x => valueOf (.leaf L) P w false [] e x 0 0) =
            integral Q els fun e x => valueOf (.leaf L) P w false [] e x 0 0 * f e x) := by
  obtain ⟨A, a1, a2, a3⟩ := advection_spec hb P Q D els
  obtain ⟨_, l, -, l1, l2⟩ := C114_laplace hb hP hd hsep hne hrow Q f
  obtain ⟨rhs, k1, k2⟩ := rhs_spec (.leaf L) hb l els
  refine ⟨A, rhs, a1, (l1 els).trans k1, fun u hu => ?_⟩
  have hform : ∀ w, VecOK ⟨(PB.leaf L).model, []⟩ 1 w → A.form (coef u) (coef w) =
      integral Q els (fun e x => D.reaction e x * valueOf (.leaf L) P u false [] e x 0 0 * valueOf (.leaf L) P w false [] e x 0 0 +
        valueOf (.leaf L) P u false [] e x 0 0 * ∑ k ∈ range P.dimworld, D.velocity e x k * valueOf (.leaf L) P w true [] e x 0 k) +
      faceSum P.dimworld D els (fun e x => valueOf (.leaf L) P u false [] e x 0 0) (fun e x => valueOf (.leaf L) P w false [] e x 0 0) := by
    intro w hw
    rw [a3, integral, faceSum, ← List.sum_map_add]
    congr 1
    refine List.map_congr_left fun e _ => ?_
    rw [add_assoc, ← List.sum_map_add]
    congr 1
    · congr 1
      refine List.map_congr_left fun pt _ => ?_
      rw [comb_value hb hP hd hsep hne hrow hu, comb_value hb hP hd hsep hne hrow hw, combFlow_value hb hP hd hsep hne hrow D hw]
    · congr 1
      refine List.map_congr_left fun is _ => ?_
      exact face_value P D e is (coef u) (coef w) (comb_value hb hP hd hsep hne hrow hu) (comb_value hb hP hd hsep hne hrow hw)
  have hrows : (Solves rows A rhs (coef u)) ↔ ∀ v : MI → K, A.form (coef u) v = linear (PB.leaf L).model l els v := by
    have := rows_test hr.nodup (fun _ => false) (A.row (coef u)) rhs
    simp only [Bool.false_eq_true, false_imp_iff, imp_true_iff, forall_const] at this
    rw [Solves, this]
    refine forall_congr' fun v => ?_
    rw [row_form hr.nodup (fun rc hrc => (hr.mem _).2 (a2 rc hrc)), k2 rows hr.nodup fun m hm => (hr.mem m).2 hm]
  rw [hrows]
  constructor
  · intro h w hw
    rw [← hform w hw, ← (l2 els u w hu hw).2]
    exact h _
  · intro h v
    have hw : VecOK ⟨(PB.leaf L).model, []⟩ 1 (fun m => some [v m]) := fun m _ => ⟨_, rfl, rfl⟩
    have := h _ hw
    rwa [← hform _ hw, ← (l2 els u _ hu hw).2] at this

/-- **C116.** For a function `u` that has the same values on both sides of intersections, with the same rule for both terms of an intersection, interior intersections do not contribute: the system is
`∫ c u w + u β·∇w - ∫_inflow β·n u w = ∫ f w`. -/
theorem C116_continuous (n : Nat) (D : Advection E X K) (els : List E) (u w : E → X → K)
    (hrule : ∀ e ∈ els, ∀ is ∈ D.faces e, is.own = is.coupling) (hjump : ∀ e ∈ els, ∀ is ∈ D.faces e, ∀ o, is.neighbor = some o → ∀ pt ∈ is.coupling, u o pt.outside = u e pt.inside) :
    faceSum n D els u w = -(els.map fun e => (((D.faces e).filter fun is => is.neighbor.isNone).map fun is =>
      (is.own.map fun pt => min (∑ k ∈ range n, D.velocity e pt.inside k * pt.normal k) 0 * u e pt.inside * w e pt.inside * pt.weight).sum).sum).sum := by
  have hneg : ∀ (l : List E) (g : E → K), (l.map fun e => -g e).sum = -(l.map g).sum := by
    intro l g
    induction l with
    | nil => simp
    | cons a l ih => rw [List.map_cons, List.sum_cons, ih, List.map_cons, List.sum_cons]; ring
  rw [faceSum, ← hneg]
  congr 1
  refine List.map_congr_left fun e he => ?_
  have hr := hrule e he
  have hj := hjump e he
  generalize D.faces e = l at hr hj
  induction l with
  | nil => simp
  | cons is l ih =>
    have ih := ih (fun i hi => hr i (List.mem_cons_of_mem _ hi)) fun i hi => hj i (List.mem_cons_of_mem _ hi)
    rw [List.map_cons, List.sum_cons, ih]
    cases hn : is.neighbor with
    | none =>
      rw [List.filter_cons_of_pos (by rw [hn]; rfl), List.map_cons, List.sum_cons, faceTerms, hn]
      simp only []
      ring
    | some o =>
      rw [List.filter_cons_of_neg (by rw [hn]; simp), faceTerms, hn, hr is (List.mem_cons_self ..)]
      simp only []
      have hc : (is.coupling.map fun pt => (∑ k ∈ range n, D.velocity e pt.inside k * pt.normal k) * u o pt.outside * w e pt.inside * pt.weight) =
          is.coupling.map fun pt => (∑ k ∈ range n, D.velocity e pt.inside k * pt.normal k) * u e pt.inside * w e pt.inside * pt.weight :=
        List.map_congr_left fun pt hpt => by rw [hj is (List.mem_cons_self ..) o hn pt hpt]
      rw [hc, neg_add_cancel, zero_add]

/-! ## Example -/

/-- Discontinuous linear functions on two intervals of length 1/2. -/
def exDG : PB (Fin 2) := .leaf ⟨4, 2, fun e => [2 * e.1, 2 * e.1 + 1]⟩

theorem exDG_WF : exDG.WF := by
  unfold exDG
  rw [PB.WF]
  decide

theorem exDG_rows : Rows exDG.model [[0], [1], [2], [3]] := by
  refine ⟨by decide, fun m => ?_⟩
  rw [indexSet_eq exDG_WF]
  constructor
  · intro hm
    simp only [List.mem_cons, List.not_mem_nil, or_false] at hm
    rcases hm with rfl | rfl | rfl | rfl
    · exact ⟨0, [0], by decide, by decide⟩
    · exact ⟨0, [1], by decide, by decide⟩
    · exact ⟨1, [2], by decide, by decide⟩
    · exact ⟨1, [3], by decide, by decide⟩
  · rintro ⟨e, d, hd, hm⟩
    have : ∀ e : Fin 2, ∀ d ∈ exDG.spec.loc e, exDG.spec.mi d ∈ [[0], [1], [2], [3]] := by decide
    exact hm ▸ this e d hd

theorem exDG_OK : exP1.OK ⟨exDG.model, []⟩ := by
  have h1 : ∀ e, slotsOn ⟨exDG.model, []⟩ e = [([], 0, 2)] := by decide +kernel
  refine ⟨?_, ?_, ?_⟩
  · intro d e x s hs
    rw [h1, List.mem_singleton] at hs
    subst hs
    cases d <;> rfl
  · intro d e x s _ φ hφ
    simp only [exP1, List.mem_map] at hφ
    obtain ⟨z, _, rfl⟩ := hφ
    cases d <;> simp [exP1, Shapes.cols]
  · intro d e s _
    cases d <;> simp [exP1, Shapes.outCols]

theorem exDG_separate : Separate ⟨exDG.model, []⟩ exP1 := by
  have h1 : ∀ e, slotsOn ⟨exDG.model, []⟩ e = [([], 0, 2)] := by decide +kernel
  intro d e
  rw [h1]
  simp [exP1]

/-- Velocity 1, no reaction, and the end points of the intervals. -/
def exFlow : Advection (Fin 2) ℚ ℚ where
  velocity _ _ _ := 1
  reaction _ _ := 0
  faces e := [⟨if e = 0 then none else some 0, [⟨0, 1, fun _ => -1, 1⟩], [⟨0, 1, fun _ => -1, 1⟩]⟩,
    ⟨if e = 0 then some 1 else none, [⟨1, 0, fun _ => 1, 1⟩], [⟨1, 0, fun _ => 1, 1⟩]⟩]

/-- The assembled matrix. -/
example : (assembleAdvection exP1 exSimpson exDG.model exFlow [0, 1]).map (fun A => ([[0], [1], [2], [3]].map fun c => A.val [1] c, [[0], [1], [2], [3]].map fun c => A.val [2] c)) =
    some ([1 / 2, -1 / 2, 1, 0], [0, -1, 1 / 2, -1 / 2]) := by decide +kernel

example : ∃ A rhs, assembleAdvection exP1 exSimpson exDG.model exFlow [0, 1] = some A ∧ assembleRhsWith exDG.model (volumeTerm exP1 exSimpson fun _ _ => 1) [0, 1] = some rhs ∧
    ∀ u, VecOK ⟨exDG.model, []⟩ 1 u → (Solves [[0], [1], [2], [3]] A rhs (coef u) ↔ ∀ w, VecOK ⟨exDG.model, []⟩ 1 w →
      integral exSimpson [0, 1] (fun e x => 0 * valueOf exDG exP1 u false [] e x 0 0 * valueOf exDG exP1 w false [] e x 0 0 +
        valueOf exDG exP1 u false [] e x 0 0 * ∑ k ∈ range 1, 1 * valueOf exDG exP1 w true [] e x 0 k) +
      faceSum 1 exFlow [0, 1] (fun e x => valueOf exDG exP1 u false [] e x 0 0) (fun e x => valueOf exDG exP1 w false [] e x 0 0) =
        integral exSimpson [0, 1] fun e x => valueOf exDG exP1 w false [] e x 0 0 * 1) :=
  C116_advection_partial exDG_WF exDG_OK rfl exDG_separate (by decide) rfl exSimpson exFlow (fun _ _ => 1) [0, 1] exDG_rows

/-- The function `x` has no jumps and is zero at the inflow boundary. -/
example (w : Fin 2 → ℚ → ℚ) : faceSum 1 exFlow [0, 1] (fun e x => (e.1 + x) / 2) w = 0 := by
  rw [C116_continuous 1 exFlow [0, 1] (fun e x => (e.1 + x) / 2) w (by simp [exFlow]) (by decide +kernel)]
  simp [exFlow]

/-- The function `x`: it has derivative 1 and is zero at the inflow boundary. -/
def exIdentity : Discrete.Vec ℚ := fun m => some [if m = [0] then 0 else if m = [3] then 1 else 1 / 2]

/-- **C116, full statement fails.** The statement: if a function `u` of the space satisfies `β·∇u + c u = f`, has no jumps and is zero where `β·n < 0` at the boundary, then it satisfies the assembled system. It
fails for `u = x`, `β = 1`, `c = 0`, `f = 1` on two intervals: advection-reaction-dg.cc:93 applies the gradient to the test function. -/
theorem C116_consistency_false : ¬ ∀ (u : Discrete.Vec ℚ) (A : Sparse ℚ) (rhs : MI → ℚ), VecOK ⟨exDG.model, []⟩ 1 u →
    assembleAdvection exP1 exSimpson exDG.model exFlow [0, 1] = some A → assembleRhsWith exDG.model (volumeTerm exP1 exSimpson fun _ _ => 1) [0, 1] = some rhs →
    (∀ e x, ∑ k ∈ range 1, exFlow.velocity e x k * valueOf exDG exP1 u true [] e x 0 k + exFlow.reaction e x * valueOf exDG exP1 u false [] e x 0 0 = 1) →
    (∀ e, ∀ is ∈ exFlow.faces e, ∀ o, is.neighbor = some o → ∀ pt ∈ is.coupling, valueOf exDG exP1 u false [] o pt.outside 0 0 = valueOf exDG exP1 u false [] e pt.inside 0 0) →
    (∀ e, ∀ is ∈ exFlow.faces e, is.neighbor = none → ∀ pt ∈ is.own, ∑ k ∈ range 1, exFlow.velocity e pt.inside k * pt.normal k < 0 → valueOf exDG exP1 u false [] e pt.inside 0 0 = 0) →
    Solves [[0], [1], [2], [3]] A rhs (coef u) := by
  intro h
  have hu : VecOK ⟨exDG.model, []⟩ 1 exIdentity := fun m _ => ⟨_, rfl, rfl⟩
  obtain ⟨A, rhs, h1, h2, -⟩ : ∃ A rhs, assembleAdvection exP1 exSimpson exDG.model exFlow [0, 1] = some A ∧
      assembleRhsWith exDG.model (volumeTerm exP1 exSimpson fun _ _ => 1) [0, 1] = some rhs ∧ _ := C116_advection_partial exDG_WF exDG_OK rfl exDG_separate (by decide) rfl exSimpson exFlow (fun _ _ => 1) [0, 1] exDG_rows
  have hs := h exIdentity A rhs hu h1 h2 ?_ (by decide +kernel) (by decide +kernel)
  · have hA : (assembleAdvection exP1 exSimpson exDG.model exFlow [0, 1]).map (fun A => A.row (coef exIdentity) [3]) = some (3 / 4) := by decide +kernel
    have hr : (assembleRhsWith exDG.model (volumeTerm exP1 exSimpson fun _ _ => 1) [0, 1]).map (fun b => b [3]) = some (1 / 4) := by decide +kernel
    rw [h1, Option.map_some, Option.some.injEq] at hA
    rw [h2, Option.map_some, Option.some.injEq] at hr
    have := hs [3] (by decide)
    rw [hA, hr] at this
    norm_num at this
  · intro e x
    rw [Finset.sum_range_one, valueOf_eq exDG_WF exDG_OK rfl exDG_separate hu true (.leaf _) rfl (by revert e; decide) x (by decide) (by decide)]
    rw [show exFlow.velocity e x 0 = 1 from rfl, show exFlow.reaction e x = 0 from rfl, zero_mul, add_zero, one_mul]
    have hx : ∀ e : Fin 2, ∑ i ∈ range (([2 * e.1, 2 * e.1 + 1] : List Nat)).length, coef exIdentity ((PB.leaf ⟨4, 2, fun e : Fin 2 => [2 * e.1, 2 * e.1 + 1]⟩).spec.mi ([] ++ [[2 * e.1, 2 * e.1 + 1][i]?.getD 0])) *
        entryOf (if true then jacobian exP1 [] e 0 i else shapeOf exP1 true [] e 0 i) 0 0 = 1 := by decide +kernel
    exact hx e

end Verif.Galerkin

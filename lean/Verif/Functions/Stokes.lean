import Verif.Functions.LocalMatrix

/-!
# The Stokes example

Element matrices of examples/stokes-taylorhood.cc, and its treatment of Dirichlet values: rows of the identity, written element by element.
-/

namespace Verif.Galerkin

open Verif.IndexTree Verif.Discrete Verif.RoundTrip Verif.Product
open Finset (range)

variable {E X K : Type} [Field K]

/-! ## Model -/

/-- Velocity–velocity coupling at one quadrature point, stokes-taylorhood.cc:117-125. The gradients are those of the shape functions of the leaf `(0, 0)`; `dim` is the dimension of the grid and of the
world. -/
def velocityBlock (P : Shapes E X K) (Q : Quadrature E X K) (v : LocalView E) (e : E) (pt : X × K) (n : Nat) (M : Nat → Nat → K) : Option (Nat → Nat → K) :=
  (List.range n).foldlM (fun M i => (List.range n).foldlM (fun M j => (List.range P.dimworld).foldlM (fun M k =>
    (Node.child [0, k] v.tree).bind fun t => (t.localIndex i).bind fun row => (t.localIndex j).bind fun col =>
      addAt v.size M row col (gradients P [0, 0] e pt.1 i j * pt.2 * Q.integrationElement e pt.1)) M) M) M

/-- Velocity–pressure coupling at one quadrature point, stokes-taylorhood.cc:142-155. -/
def pressureBlock (P : Shapes E X K) (Q : Quadrature E X K) (v : LocalView E) (e : E) (pt : X × K) (n m : Nat) (M : Nat → Nat → K) : Option (Nat → Nat → K) :=
  (List.range n).foldlM (fun M i => (List.range m).foldlM (fun M j => (List.range P.dimworld).foldlM (fun M k =>
    (Node.child [0, k] v.tree).bind fun t => (t.localIndex i).bind fun vIndex => (Node.child [1] v.tree).bind fun s => (s.localIndex j).bind fun pIndex =>
      (addAt v.size M vIndex pIndex (-(entryOf (jacobian P [0, 0] e pt.1 i) 0 k * entryOf (shapeOf P false [1] e pt.1 j) 0 0 * pt.2 * Q.integrationElement e pt.1))).bind fun M =>
        addAt v.size M pIndex vIndex (-(entryOf (jacobian P [0, 0] e pt.1 i) 0 k * entryOf (shapeOf P false [1] e pt.1 j) 0 0 * pt.2 * Q.integrationElement e pt.1))) M) M) M

/-- `getLocalMatrix` of stokes-taylorhood.cc:50-160. -/
def stokesMatrix (P : Shapes E X K) (Q : Quadrature E X K) (v : LocalView E) : Option (Nat → Nat → K) :=
  v.element.bind fun e => (Node.child [0, 0] v.tree).bind fun velocity => (Node.child [1] v.tree).bind fun pressure =>
    (Q.rule e).foldlM (fun M pt => (velocityBlock P Q v e pt velocity.size M).bind (pressureBlock P Q v e pt velocity.size pressure.size)) fun _ _ => 0

/-- `matrixEntry(matrix, row, col) = x`, stokes-taylorhood.cc:459. -/
def Sparse.setTo (A : Sparse K) (r c : MI) (x : K) : Option (Sparse K) :=
  if (r, c) ∈ A.pattern then some { A with val := fun r' c' => if r' = r ∧ c' = c then x else A.val r' c' } else none

/-- One element of the modification of rows, stokes-taylorhood.cc:449-461. -/
def elementRowsStep (pb : PreBasis E) (marked : MI → Bool) (s : LocalView E × Sparse K) (e : E) : Option (LocalView E × Sparse K) :=
  (s.1.bind pb e).bind fun v => ((List.range v.size).foldlM (fun A i => (v.index i).bind fun row =>
    if marked row then (List.range v.size).foldlM (fun A j => (v.index j).bind fun col => A.setTo row col (if i = j then 1 else 0)) A else some A) s.2).map fun A => (v, A)

/-- Changing the marked rows to rows of the identity, stokes-taylorhood.cc:446-462. -/
def elementRows (pb : PreBasis E) (marked : MI → Bool) (els : List E) (A : Sparse K) : Option (Sparse K) :=
  (els.foldlM (elementRowsStep pb marked) (LocalView.fresh pb, A)).map Prod.snd

/-! ## Proofs -/

/-- Two loops. -/
theorem loops_form {N n m : Nat} {step : (Nat → Nat → K) → Nat → Nat → Option (Nat → Nat → K)} {g : (Nat → K) × (Nat → K) → Nat → Nat → K}
    (hstep : ∀ M, ∀ i < n, ∀ j < m, ∃ M', step M i j = some M' ∧ ∀ w, lform N M' w = lform N M w + g w i j) (M : Nat → Nat → K) :
    ∃ M', (List.range n).foldlM (fun M i => (List.range m).foldlM (fun M j => step M i j) M) M = some M' ∧
      ∀ w, lform N M' w = lform N M w + ∑ i ∈ range n, ∑ j ∈ range m, g w i j := by
  obtain ⟨M', h1, -, h2⟩ := fold_sum (W := (Nat → K) × (Nat → K)) (fun M i => (List.range m).foldlM (fun M j => step M i j) M)
    (fun _ => True) (fun w M => lform N M w) (fun w i => ∑ j ∈ range m, g w i j) (List.range n) (by
      intro M i hi _
      rw [List.mem_range] at hi
      obtain ⟨M1, k1, -, k2⟩ := fold_sum (W := (Nat → K) × (Nat → K)) (fun M j => step M i j) (fun _ => True) (fun w M => lform N M w) (fun w j => g w i j)
        (List.range m) (by
          intro M j hj _
          rw [List.mem_range] at hj
          obtain ⟨M2, l1, l2⟩ := hstep M i hi j hj
          exact ⟨M2, l1, trivial, l2⟩) M trivial
      exact ⟨M1, k1, trivial, k2⟩) M trivial
  exact ⟨M', h1, h2⟩

/-- One loop. -/
theorem loop_form {N n : Nat} {step : (Nat → Nat → K) → Nat → Option (Nat → Nat → K)} {g : (Nat → K) × (Nat → K) → Nat → K}
    (hstep : ∀ M, ∀ i < n, ∃ M', step M i = some M' ∧ ∀ w, lform N M' w = lform N M w + g w i) (M : Nat → Nat → K) :
    ∃ M', (List.range n).foldlM step M = some M' ∧ ∀ w, lform N M' w = lform N M w + ∑ i ∈ range n, g w i := by
  obtain ⟨M', h1, -, h2⟩ := fold_sum (W := (Nat → K) × (Nat → K)) step (fun _ => True) (fun w M => lform N M w) g (List.range n) (fun M i hi _ => by
    obtain ⟨M', k1, k2⟩ := hstep M i (List.mem_range.1 hi)
    exact ⟨M', k1, trivial, k2⟩) M trivial
  exact ⟨M', h1, h2⟩

theorem stokes_local {b : PB E} (hb : b.WF) (P : Shapes E X K) (Q : Quadrature E X K) (hD : 0 < P.dimworld) {L L1 : Leaf E} {f f1 : E → Bool} (hp : ∀ k < P.dimworld, Part b [0, k] L f)
    (hp1 : Part b [1] L1 f1) {lv v : LocalView E} {e : E} (he : f e = true) (he1 : f1 e = true) (hbl : lv.tree.blank = b.model.makeNode.blank) (hv : lv.bind b.model e = some v) :
    ∃ M, stokesMatrix P Q v = some M ∧ ∀ w, lform (idx b.model e).length M w = ((Q.rule e).map fun pt =>
      (∑ k ∈ range P.dimworld, ∑ l ∈ range P.dimworld, (∑ j ∈ range (L.loc e).length, w.1 (firstOf b [0, k] e + j) * entryOf (jacobian P [0, 0] e pt.1 j) 0 l) *
        ∑ i ∈ range (L.loc e).length, w.2 (firstOf b [0, k] e + i) * entryOf (jacobian P [0, 0] e pt.1 i) 0 l) * pt.2 * Q.integrationElement e pt.1 +
      -((∑ k ∈ range P.dimworld, ∑ i ∈ range (L.loc e).length, w.2 (firstOf b [0, k] e + i) * entryOf (jacobian P [0, 0] e pt.1 i) 0 k) *
          (∑ j ∈ range (L1.loc e).length, w.1 (firstOf b [1] e + j) * entryOf (shapeOf P false [1] e pt.1 j) 0 0) +
        (∑ k ∈ range P.dimworld, ∑ i ∈ range (L.loc e).length, w.1 (firstOf b [0, k] e + i) * entryOf (jacobian P [0, 0] e pt.1 i) 0 k) *
          ∑ j ∈ range (L1.loc e).length, w.2 (firstOf b [1] e + j) * entryOf (shapeOf P false [1] e pt.1 j) 0 0) * pt.2 * Q.integrationElement e pt.1).sum := by
  obtain ⟨h1, h2, t0, h3, h4, -⟩ := part_view hb (hp 0 hD) he hbl hv
  obtain ⟨-, -, t1, g3, g4, g5⟩ := part_view hb hp1 he1 hbl hv
  rw [stokesMatrix, h1, Option.bind_some, h3, Option.bind_some, g3, Option.bind_some, h4, g4]
  refine rule_form fun M pt => ?_
  obtain ⟨M1, k1, k2⟩ : ∃ M1, velocityBlock P Q v e pt (L.loc e).length M = some M1 ∧ ∀ w, lform (idx b.model e).length M1 w = lform (idx b.model e).length M w +
      ∑ i ∈ range (L.loc e).length, ∑ j ∈ range (L.loc e).length, ∑ k ∈ range P.dimworld,
        w.2 (firstOf b [0, k] e + i) * (gradients P [0, 0] e pt.1 i j * pt.2 * Q.integrationElement e pt.1) * w.1 (firstOf b [0, k] e + j) := by
    refine loops_form (fun M i hi j hj => loop_form (fun M k hk => ?_) M) M
    obtain ⟨-, -, t, i1, -, i2⟩ := part_view hb (hp k hk) he hbl hv
    obtain ⟨M', m1, m2⟩ := addAt_form M (i2 i hi).2.1 (i2 j hj).2.1 (gradients P [0, 0] e pt.1 i j * pt.2 * Q.integrationElement e pt.1)
    exact ⟨M', by rw [i1, Option.bind_some, (i2 i hi).1, Option.bind_some, (i2 j hj).1, Option.bind_some, h2]; exact m1, m2⟩
  obtain ⟨M2, l1, l2⟩ : ∃ M2, pressureBlock P Q v e pt (L.loc e).length (L1.loc e).length M1 = some M2 ∧ ∀ w, lform (idx b.model e).length M2 w = lform (idx b.model e).length M1 w +
      ∑ i ∈ range (L.loc e).length, ∑ j ∈ range (L1.loc e).length, ∑ k ∈ range P.dimworld,
        -(w.2 (firstOf b [0, k] e + i) * (entryOf (jacobian P [0, 0] e pt.1 i) 0 k * entryOf (shapeOf P false [1] e pt.1 j) 0 0 * pt.2 * Q.integrationElement e pt.1) * w.1 (firstOf b [1] e + j) +
          w.2 (firstOf b [1] e + j) * (entryOf (jacobian P [0, 0] e pt.1 i) 0 k * entryOf (shapeOf P false [1] e pt.1 j) 0 0 * pt.2 * Q.integrationElement e pt.1) * w.1 (firstOf b [0, k] e + i)) := by
    refine loops_form (fun M i hi j hj => loop_form (fun M k hk => ?_) M) M1
    obtain ⟨-, -, t, i1, -, i2⟩ := part_view hb (hp k hk) he hbl hv
    obtain ⟨A, a1, a2⟩ := addAt_form M (i2 i hi).2.1 (g5 j hj).2.1 (-(entryOf (jacobian P [0, 0] e pt.1 i) 0 k * entryOf (shapeOf P false [1] e pt.1 j) 0 0 * pt.2 * Q.integrationElement e pt.1))
    obtain ⟨B, b1, b2⟩ := addAt_form A (g5 j hj).2.1 (i2 i hi).2.1 (-(entryOf (jacobian P [0, 0] e pt.1 i) 0 k * entryOf (shapeOf P false [1] e pt.1 j) 0 0 * pt.2 * Q.integrationElement e pt.1))
    exact ⟨B, by rw [i1, Option.bind_some, (i2 i hi).1, Option.bind_some, g3, Option.bind_some, (g5 j hj).1, Option.bind_some, h2, a1]; exact b1, fun w => by rw [b2, a2]; ring⟩
  refine ⟨M2, by rw [k1]; exact l1, fun w => ?_⟩
  rw [l2, k2, add_assoc]
  congr 1
  congr 1
  · have hsw : ∀ F : Nat → Nat → Nat → K, ∑ i ∈ range (L.loc e).length, ∑ j ∈ range (L.loc e).length, ∑ k ∈ range P.dimworld, F i j k =
        ∑ k ∈ range P.dimworld, ∑ i ∈ range (L.loc e).length, ∑ j ∈ range (L.loc e).length, F i j k := fun F => by
      rw [Finset.sum_comm' (s := range P.dimworld) (t' := range (L.loc e).length) (s' := fun _ => range P.dimworld) (t := fun _ => range (L.loc e).length) (by simp)]
      exact Finset.sum_congr rfl fun i _ => Finset.sum_comm
    rw [hsw]
    simp only [gradients, lsum, product_form, ← Finset.sum_mul]
  · have hsw : ∀ F : Nat → Nat → Nat → K, ∑ i ∈ range (L.loc e).length, ∑ j ∈ range (L1.loc e).length, ∑ k ∈ range P.dimworld, F i j k =
        ∑ k ∈ range P.dimworld, ∑ i ∈ range (L.loc e).length, ∑ j ∈ range (L1.loc e).length, F i j k := fun F => by
      rw [Finset.sum_comm' (s := range P.dimworld) (t' := range (L.loc e).length) (s' := fun _ => range P.dimworld) (t := fun _ => range (L.loc e).length) (by simp)]
      exact Finset.sum_congr rfl fun i _ => Finset.sum_comm
    rw [hsw]
    simp only [Finset.sum_neg_distrib]
    simp only [coupling_form]
    simp only [← Finset.sum_mul, Finset.sum_add_distrib]
    ring

omit [Field K] in
/-- Loops that write entries. -/
theorem fold_set {S A V : Type} (val : S → V → K) (T : V → K) (step : S → A → Option S) (P : S → Prop) (W : A → V → Prop) (l : List A)
    (h : ∀ s, ∀ a ∈ l, P s → ∃ s', step s a = some s' ∧ P s' ∧ ∀ y, (W a y → val s' y = T y) ∧ (¬W a y → val s' y = val s y)) :
    ∀ s, P s → ∃ s', l.foldlM step s = some s' ∧ P s' ∧ ∀ y, ((∃ a ∈ l, W a y) → val s' y = T y) ∧ ((∀ a ∈ l, ¬W a y) → val s' y = val s y) := by
  induction l with
  | nil => intro s hs; exact ⟨s, rfl, hs, by simp⟩
  | cons a l ih =>
    intro s hs
    obtain ⟨s1, h1, h2, h3⟩ := h s a List.mem_cons_self hs
    obtain ⟨s2, k1, k2, k3⟩ := ih (fun s x hx => h s x (List.mem_cons_of_mem _ hx)) s1 h2
    refine ⟨s2, by rw [List.foldlM_cons, h1]; exact k1, k2, fun y => ⟨?_, fun hn => ?_⟩⟩
    · rintro ⟨x, hx, hw⟩
      by_cases hl : ∃ a ∈ l, W a y
      · exact (k3 y).1 hl
      · rw [(k3 y).2 fun a ha hw => hl ⟨a, ha, hw⟩]
        rcases List.mem_cons.1 hx with rfl | hx
        · exact (h3 y).1 hw
        · exact absurd ⟨x, hx, hw⟩ hl
    · rw [(k3 y).2 fun a ha => hn a (List.mem_cons_of_mem _ ha), (h3 y).2 (hn a List.mem_cons_self)]

omit [Field K] in
/-- Loops over a range that write entries: the last entry remains. -/
theorem range_last {S V : Type} (val : S → V → K) (T : Nat → V → K) (step : S → Nat → Option S) (P : S → Prop) (W : Nat → V → Prop) (n : Nat)
    (h : ∀ s, ∀ i < n, P s → ∃ s', step s i = some s' ∧ P s' ∧ ∀ y, (W i y → val s' y = T i y) ∧ (¬W i y → val s' y = val s y)) (s : S) (hs : P s) :
    ∃ s', (List.range n).foldlM step s = some s' ∧ P s' ∧ ∀ y, (∀ i < n, W i y → (∀ j < n, i < j → ¬W j y) → val s' y = T i y) ∧ ((∀ i < n, ¬W i y) → val s' y = val s y) := by
  induction n with
  | zero => exact ⟨s, rfl, hs, fun y => ⟨fun i hi => absurd hi (Nat.not_lt_zero i), fun _ => rfl⟩⟩
  | succ n ih =>
    obtain ⟨s1, h1, h2, h3⟩ := ih fun s i hi => h s i (by omega)
    obtain ⟨s2, k1, k2, k3⟩ := h s1 n (by omega) h2
    refine ⟨s2, by rw [List.range_succ, List.foldlM_append, h1]; simpa using k1, k2, fun y => ⟨fun i hi hw hl => ?_, fun hn => ?_⟩⟩
    · by_cases hin : i = n
      · subst hin
        exact (k3 y).1 hw
      · rw [(k3 y).2 (hl n (by omega) (by omega))]
        exact (h3 y).1 i (by omega) hw fun j hj => hl j (by omega)
    · rw [(k3 y).2 (hn n (by omega))]
      exact (h3 y).2 fun i hi => hn i (by omega)

/-- The last position of a member of a list. -/
theorem last_position {A : Type} [DecidableEq A] (l : List A) (d : A) : ∃ g : A → Nat, ∀ a ∈ l, g a < l.length ∧ l[g a]?.getD d = a ∧ ∀ j < l.length, g a < j → l[j]?.getD d ≠ a := by
  refine ⟨fun a => Nat.findGreatest (fun i => l[i]? = some a) l.length, fun a ha => ?_⟩
  obtain ⟨i, hi, hia⟩ := List.getElem_of_mem ha
  have h1 : l[Nat.findGreatest (fun i => l[i]? = some a) l.length]? = some a :=
    Nat.findGreatest_spec (P := fun i => l[i]? = some a) hi.le (by rw [List.getElem?_eq_getElem hi, hia])
  refine ⟨(List.getElem?_eq_some_iff.1 h1).1, by rw [h1]; rfl, fun j hj hgj hja => ?_⟩
  refine Nat.findGreatest_is_greatest (P := fun i => l[i]? = some a) hgj hj.le ?_
  rw [List.getElem?_eq_getElem hj] at hja ⊢
  exact congrArg some hja

/-- The entries after the modification. -/
theorem elementRows_spec {b : PB E} (hb : b.WF) (marked : MI → Bool) (els : List E) (A : Sparse K)
    (hA : ∀ r c, (r, c) ∈ A.pattern ↔ ∃ e ∈ els, r ∈ idx b.model e ∧ c ∈ idx b.model e) :
    ∃ A', elementRows b.model marked els A = some A' ∧ A'.pattern = A.pattern ∧ ∀ r c, (r, c) ∈ A.pattern →
      A'.val r c = if marked r = true then (if r = c then 1 else 0) else A.val r c := by
  obtain ⟨s, h1, h2, h3⟩ := fold_set (fun (s : LocalView E × Sparse K) (rc : MI × MI) => s.2.val rc.1 rc.2) (fun rc => if rc.1 = rc.2 then 1 else 0) (elementRowsStep b.model marked)
    (fun s => s.1.tree.blank = b.model.makeNode.blank ∧ s.2.pattern = A.pattern) (fun e rc => marked rc.1 = true ∧ rc.1 ∈ idx b.model e ∧ rc.2 ∈ idx b.model e) els (by
      rintro s e he ⟨hs1, hs2⟩
      obtain ⟨v, v1, v2, v3, v4⟩ := bind_view b hb hs1 e
      obtain ⟨g, hg⟩ := last_position (idx b.model e) []
      have hget : ∀ i < (idx b.model e).length, (idx b.model e)[i]?.getD [] ∈ idx b.model e := fun i hi => by
        rw [List.getElem?_eq_getElem hi]; exact List.getElem_mem hi
      obtain ⟨A1, l1, l2, l3⟩ := range_last (fun (A : Sparse K) (rc : MI × MI) => A.val rc.1 rc.2) (fun i rc => if i = g rc.2 then 1 else 0)
        (fun A i => (v.index i).bind fun row => if marked row then (List.range v.size).foldlM (fun A j => (v.index j).bind fun col => A.setTo row col (if i = j then 1 else 0)) A else some A)
        (fun B => B.pattern = A.pattern) (fun i rc => marked rc.1 = true ∧ rc.1 = (idx b.model e)[i]?.getD [] ∧ rc.2 ∈ idx b.model e) (idx b.model e).length (by
          intro B i hi hB
          rw [v4 i hi, Option.bind_some]
          by_cases hm : marked ((idx b.model e)[i]?.getD []) = true
          · rw [if_pos hm, v3]
            obtain ⟨C, m1, m2, m3⟩ := range_last (fun (A : Sparse K) (rc : MI × MI) => A.val rc.1 rc.2) (fun j _ => if i = j then 1 else 0)
              (fun A j => (v.index j).bind fun col => A.setTo ((idx b.model e)[i]?.getD []) col (if i = j then 1 else 0))
              (fun B => B.pattern = A.pattern) (fun j rc => rc.1 = (idx b.model e)[i]?.getD [] ∧ rc.2 = (idx b.model e)[j]?.getD []) (idx b.model e).length (by
                intro C j hj hC
                have hmem : ((idx b.model e)[i]?.getD [], (idx b.model e)[j]?.getD []) ∈ C.pattern := by
                  rw [hC, hA]
                  exact ⟨e, he, hget i hi, hget j hj⟩
                exact ⟨{ C with val := fun r' c' => if r' = (idx b.model e)[i]?.getD [] ∧ c' = (idx b.model e)[j]?.getD [] then if i = j then 1 else 0 else C.val r' c' },
                  by rw [v4 j hj, Option.bind_some, Sparse.setTo, if_pos hmem], hC, fun y => ⟨fun hy => if_pos hy, fun hy => if_neg hy⟩⟩) B hB
            refine ⟨C, m1, m2, fun y => ⟨fun hy => ?_, fun hy => (m3 y).2 fun j hj h => hy ⟨by rw [h.1]; exact hm, h.1, by rw [h.2]; exact hget j hj⟩⟩⟩
            obtain ⟨g1, g2, g3⟩ := hg _ hy.2.2
            exact (m3 y).1 (g y.2) g1 ⟨hy.2.1, g2.symm⟩ fun j hj hgj h => g3 j hj hgj h.2.symm
          · rw [if_neg hm]
            exact ⟨B, rfl, hB, fun y => ⟨fun hy => absurd (by rw [← hy.2.1]; exact hy.1) hm, fun _ => rfl⟩⟩) s.2 hs2
      refine ⟨(v, A1), ?_, ⟨v2, l2⟩, fun y => ⟨fun hy => ?_, fun hy => (l3 y).2 fun i hi h => hy ⟨h.1, by rw [h.2.1]; exact hget i hi, h.2.2⟩⟩⟩
      · rw [← v3] at l1
        rw [elementRowsStep, v1, Option.bind_some, l1]
        rfl
      · obtain ⟨g1, g2, g3⟩ := hg _ hy.2.1
        refine ((l3 y).1 (g y.1) g1 ⟨hy.1, g2.symm, hy.2.2⟩ fun j hj hgj h => g3 j hj hgj h.2.1.symm).trans ?_
        by_cases hyy : y.1 = y.2
        · rw [if_pos (by rw [hyy]), if_pos hyy]
        · rw [if_neg fun h => hyy (by rw [← g2, h, (hg _ hy.2.2).2.1]), if_neg hyy]) (LocalView.fresh b.model, A) ⟨LocalView.fresh_blank _, rfl⟩
  refine ⟨s.2, by rw [elementRows, h1]; rfl, h2.2, fun r c hrc => ?_⟩
  obtain ⟨e, he, hr, hc⟩ := (hA r c).1 hrc
  by_cases hm : marked r = true
  · rw [if_pos hm]
    exact (h3 (r, c)).1 ⟨e, he, hm, hr, hc⟩
  · rw [if_neg hm]
    exact (h3 (r, c)).2 fun e' _ h => hm h.1

/-! ## Theorems -/

/-- **C115.** The element matrices of examples/stokes-taylorhood.cc, for any basis tree whose leaves `(0, k)` have the same scalar finite element and with a scalar leaf `1`: assembled, they are the form
`∫ ∇u:∇w - div w p - div u q` (computed with the quadrature rules) of the components of discrete functions. -/
theorem C115_stokes {b : PB E} (hb : b.WF) {P : Shapes E X K} (hD : 0 < P.dimworld) {L L1 : Leaf E} {f f1 : E → Bool} (hp : ∀ k < P.dimworld, Part b [0, k] L f) (hp1 : Part b [1] L1 f1)
    (he : ∀ e, f e = true) (he1 : ∀ e, f1 e = true) (hP : P.OK ⟨b.model, []⟩) (hd : P.dimC = 1) (hsep : Separate ⟨b.model, []⟩ P) (hne : ∀ e, L.loc e ≠ []) (hne1 : ∀ e, L1.loc e ≠ [])
    (hrow : ∀ k < P.dimworld, P.rows [0, k] = 1) (hrow1 : P.rows [1] = 1) (hsame : ∀ k < P.dimworld, ∀ e x i, shapeOf P true [0, k] e x i = shapeOf P true [0, 0] e x i) (Q : Quadrature E X K) :
    ∃ a : E → Nat → Nat → K, (∀ els, assembleMatrixWith b.model (stokesMatrix P Q) els = assembleMatrix b.model a els) ∧
      ∀ els u w, VecOK ⟨b.model, []⟩ 1 u → VecOK ⟨b.model, []⟩ 1 w →
        bilinear b.model a els (coef u) (coef w) = integral Q els (fun e x =>
          ∑ k ∈ range P.dimworld, ∑ l ∈ range P.dimworld, valueOf b P u true [0, k] e x 0 l * valueOf b P w true [0, k] e x 0 l -
          (∑ k ∈ range P.dimworld, valueOf b P w true [0, k] e x 0 k) * valueOf b P u false [1] e x 0 0 -
          (∑ k ∈ range P.dimworld, valueOf b P u true [0, k] e x 0 k) * valueOf b P w false [1] e x 0 0) := by
  obtain ⟨a, a1, a2⟩ := matrix_with hb fun lv v e => stokes_local hb P Q hD hp hp1 (lv := lv) (v := v) (he e) (he1 e)
  have hval : ∀ u, VecOK ⟨b.model, []⟩ 1 u → ∀ e x, ∀ k < P.dimworld, ∀ l < P.dimworld,
      ∑ i ∈ range (L.loc e).length, onElement b e (coef u) (firstOf b [0, k] e + i) * entryOf (jacobian P [0, 0] e x i) 0 l = valueOf b P u true [0, k] e x 0 l := fun u hu e x k hk l hl => by
    rw [← valueOf_local hb hP hd hsep hu true (hp k hk) (he e) (hne e) x (by rw [hrow k hk]; exact Nat.one_pos) (show l < P.outCols true from hl)]
    refine Finset.sum_congr rfl fun i _ => ?_
    simp only [if_true, jacobian, hsame k hk]
  have hpr : ∀ u, VecOK ⟨b.model, []⟩ 1 u → ∀ e x, ∑ i ∈ range (L1.loc e).length, onElement b e (coef u) (firstOf b [1] e + i) * entryOf (shapeOf P false [1] e x i) 0 0 =
      valueOf b P u false [1] e x 0 0 := fun u hu e x =>
    valueOf_local hb hP hd hsep hu false hp1 (he1 e) (hne1 e) x (by rw [hrow1]; exact Nat.one_pos) Nat.one_pos
  have hgrad : ∀ u w, VecOK ⟨b.model, []⟩ 1 u → VecOK ⟨b.model, []⟩ 1 w → ∀ e x,
      (∑ k ∈ range P.dimworld, ∑ l ∈ range P.dimworld, (∑ j ∈ range (L.loc e).length, onElement b e (coef u) (firstOf b [0, k] e + j) * entryOf (jacobian P [0, 0] e x j) 0 l) *
        ∑ i ∈ range (L.loc e).length, onElement b e (coef w) (firstOf b [0, k] e + i) * entryOf (jacobian P [0, 0] e x i) 0 l) =
      ∑ k ∈ range P.dimworld, ∑ l ∈ range P.dimworld, valueOf b P u true [0, k] e x 0 l * valueOf b P w true [0, k] e x 0 l := fun u w hu hw e x =>
    Finset.sum_congr rfl fun k hk => Finset.sum_congr rfl fun l hl => by
      rw [hval u hu e x k (Finset.mem_range.1 hk) l (Finset.mem_range.1 hl), hval w hw e x k (Finset.mem_range.1 hk) l (Finset.mem_range.1 hl)]
  have hdiv : ∀ u, VecOK ⟨b.model, []⟩ 1 u → ∀ e x,
      (∑ k ∈ range P.dimworld, ∑ i ∈ range (L.loc e).length, onElement b e (coef u) (firstOf b [0, k] e + i) * entryOf (jacobian P [0, 0] e x i) 0 k) =
      ∑ k ∈ range P.dimworld, valueOf b P u true [0, k] e x 0 k := fun u hu e x =>
    Finset.sum_congr rfl fun k hk => hval u hu e x k (Finset.mem_range.1 hk) k (Finset.mem_range.1 hk)
  refine ⟨a, a1, fun els u w hu hw => ?_⟩
  rw [a2, integral]
  congr 1
  refine List.map_congr_left fun e _ => ?_
  congr 1
  refine List.map_congr_left fun pt _ => ?_
  simp only []
  rw [hgrad u w hu hw, hdiv u hu, hdiv w hw, hpr u hu, hpr w hw]
  ring

/-- **C115.** Writing the rows of the identity element by element, as in examples/stokes-taylorhood.cc, gives the system of `identityRows`, even if a multi-index appears twice in a local view. -/
theorem C115_rows {b : PB E} (hb : b.WF) (a : E → Nat → Nat → K) (els : List E) {rows : List MI} (hr : Rows b.model rows)
    (marked : MI → Bool) :
    ∃ A A', assembleMatrix b.model a els = some A ∧ elementRows b.model marked els A = some A' ∧
      ∀ rhs x, Solves rows A' rhs x ↔ Solves rows (identityRows marked rows A) rhs x := by
  obtain ⟨A, h1, -, h3, -⟩ := C113_matrix b hb a els
  obtain ⟨A', k1, k2, k3⟩ := elementRows_spec hb marked els A h3
  obtain ⟨i1, i2⟩ := identityRows_spec marked rows hr.nodup A
  refine ⟨A, A', h1, k1, fun rhs x => forall_congr' fun r => forall_congr' fun hrr => ?_⟩
  rw [row_congr (A := identityRows marked rows A) (A' := A') (u := x) (u' := x) (by rw [k2, i1]) fun c hc => ?_]
  rw [i1] at hc
  rw [k3 r c hc, i2 r c hc]
  simp only [hrr, true_and]

/-! ## Examples -/

/-- Velocities and pressures in one dimension: linear and piecewise constant functions. -/
def exStokes : PB (Fin 2) := .composite true [.power .blockedInt 1 (.leaf ⟨3, 2, fun e => [e.1, e.1 + 1]⟩), .leaf ⟨2, 1, fun e => [e.1]⟩]

def exStokesShapes : Shapes (Fin 2) ℚ ℚ := { exMixedShapes with shape := fun d p e o x => exMixedShapes.shape d (if p = [1] then [1] else [0]) e o x }

theorem exStokes_WF : exStokes.WF := by
  unfold exStokes
  simp only [PB.WF, PB.WFs, and_true]
  decide

theorem exStokes_slots : ∀ e, slotsOn ⟨exStokes.model, []⟩ e = [([0, 0], 0, 2), ([1], 2, 1)] := by decide +kernel

theorem exStokes_OK : exStokesShapes.OK ⟨exStokes.model, []⟩ := by
  refine ⟨?_, ?_, ?_⟩
  · intro d e x s hs
    rw [exStokes_slots] at hs
    simp only [List.mem_cons, List.not_mem_nil, or_false] at hs
    rcases hs with rfl | rfl <;> cases d <;> rfl
  · intro d e x s hs φ hφ
    rw [exStokes_slots] at hs
    simp only [List.mem_cons, List.not_mem_nil, or_false] at hs
    rcases hs with rfl | rfl
    · simp [exStokesShapes, exMixedShapes] at hφ
      obtain ⟨z, _, rfl⟩ := hφ
      cases d <;> simp [exStokesShapes, exMixedShapes, Shapes.cols]
    · simp [exStokesShapes, exMixedShapes] at hφ
      subst hφ
      cases d <;> simp [exStokesShapes, exMixedShapes, Shapes.cols]
  · intro d e s _
    cases d <;> simp [exStokesShapes, exMixedShapes, Shapes.outCols]

theorem exStokes_separate : Separate ⟨exStokes.model, []⟩ exStokesShapes := by
  intro d e
  rw [exStokes_slots]
  simp [exStokesShapes, exMixedShapes]

/-- The rows of a velocity and of a pressure. -/
example : (assembleMatrixWith exStokes.model (stokesMatrix exStokesShapes exSimpson) [0, 1]).map (fun A =>
    ([[0, 0, 0], [0, 1, 0], [0, 2, 0], [1, 0], [1, 1]].map fun c => A.val [0, 1, 0] c, [[0, 0, 0], [0, 1, 0], [0, 2, 0], [1, 0], [1, 1]].map fun c => A.val [1, 1] c)) =
    some ([-2, 4, -2, -1, 1], [0, 1, -1, 0, 0]) := by decide +kernel

example : ∃ a : Fin 2 → Nat → Nat → ℚ, (∀ els, assembleMatrixWith exStokes.model (stokesMatrix exStokesShapes exSimpson) els = assembleMatrix exStokes.model a els) ∧
    ∀ els u w, VecOK ⟨exStokes.model, []⟩ 1 u → VecOK ⟨exStokes.model, []⟩ 1 w →
      bilinear exStokes.model a els (coef u) (coef w) = integral exSimpson els (fun e x =>
        ∑ k ∈ range 1, ∑ l ∈ range 1, valueOf exStokes exStokesShapes u true [0, k] e x 0 l * valueOf exStokes exStokesShapes w true [0, k] e x 0 l -
        (∑ k ∈ range 1, valueOf exStokes exStokesShapes w true [0, k] e x 0 k) * valueOf exStokes exStokesShapes u false [1] e x 0 0 -
        (∑ k ∈ range 1, valueOf exStokes exStokesShapes u true [0, k] e x 0 k) * valueOf exStokes exStokesShapes w false [1] e x 0 0) := by
  have h0 : ∀ k < 1, Part exStokes [0, k] _ _ := fun k hk => .composite (k := 0) rfl (.power hk (.leaf _))
  have h1 : Part exStokes [1] _ _ := .composite (k := 1) rfl (.leaf _)
  exact C115_stokes exStokes_WF Nat.one_pos h0 h1 (fun _ => rfl) (fun _ => rfl) exStokes_OK rfl exStokes_separate (by decide) (by decide) (fun _ _ => rfl) rfl
    (fun k hk e x i => by obtain rfl : k = 0 := by change k < 1 at hk; omega
                          rfl) exSimpson

/-- The matrix after the rows of the outer velocities were changed. -/
example : ((assembleMatrixWith exStokes.model (stokesMatrix exStokesShapes exSimpson) [0, 1]).bind (elementRows exStokes.model (fun m => m == [0, 0, 0] || m == [0, 2, 0]) [0, 1])).map (fun A =>
    [[0, 0, 0], [0, 1, 0], [0, 2, 0], [1, 0]].map fun r => [[0, 0, 0], [0, 1, 0], [0, 2, 0], [1, 0], [1, 1]].map fun c => A.val r c) =
    some [[1, 0, 0, 0, 0], [-2, 4, -2, -1, 1], [0, 0, 1, 0, 0], [1, -1, 0, 0, 0]] := by decide +kernel

example (a : Fin 2 → Nat → Nat → ℚ) : ∃ A A', assembleMatrix exLine.model a [0, 1] = some A ∧ elementRows exLine.model (fun m => m == [0] || m == [2]) [0, 1] A = some A' ∧
    ∀ rhs x, Solves [[0], [1], [2]] A' rhs x ↔ Solves [[0], [1], [2]] (identityRows (fun m => m == [0] || m == [2]) [[0], [1], [2]] A) rhs x :=
  C115_rows exLine_WF a [0, 1] exLine_rows _

/-- One element whose two degrees of freedom are identified, as in a periodic basis on one element. -/
def exLoop : PB Unit := .leaf ⟨1, 2, fun _ => [0, 0]⟩

/-- The diagonal entry is first written by `1`, then twice by `0`, and at last by `1`. -/
example : ((assembleMatrix exLoop.model (fun _ i j => (2 * i + j + 5 : ℚ)) [()]).bind (elementRows exLoop.model (fun _ => true) [()])).map (fun A => A.val [0] [0]) = some 1 := by decide +kernel

end Verif.Galerkin

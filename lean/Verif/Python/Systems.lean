import Verif.Functions.Galerkin
import Mathlib.Algebra.BigOperators.Ring.Finset
import Mathlib.Algebra.BigOperators.Intervals
import Mathlib.Algebra.Order.BigOperators.Group.List
import Mathlib.Algebra.Order.Field.Basic
import Mathlib.Tactic.Linarith

/-!
# Linear systems of the Python examples

examples/poisson-pq2.py and examples/poisson-mfem.py: assembling into matrices of scipy and vectors of numpy, and three ways of writing essential conditions into a linear system.
-/

namespace Verif.PySystems

open Verif.IndexTree Verif.Galerkin
open Finset (range)

variable {E K : Type}

/-! ## Model -/

/-- `A[i, j] += y` for a matrix of scipy with `n` rows and columns: entries that are not stored are zero, other indices raise an error. -/
def matAdd [Add K] (n : Nat) (A : Nat → Nat → K) (i j : Nat) (y : K) : Option (Nat → Nat → K) :=
  if i < n ∧ j < n then some fun i' j' => if i' = i ∧ j' = j then A i' j' + y else A i' j' else none

/-- `b[i] += y` for a vector of numpy. -/
def vecAdd [Add K] (n : Nat) (b : Nat → K) (i : Nat) (y : K) : Option (Nat → K) := if i < n then some fun i' => if i' = i then b i' + y else b i' else none

/-- `localView.index(i)[0]`, poisson-pq2.py:95, poisson-mfem.py:187. -/
def digit (v : LocalView E) (i : Nat) : Option Nat := (v.index i).bind fun m => m[0]?

/-- Adding an element matrix, poisson-mfem.py:184-193. -/
def matLoop [Add K] (n : Nat) (v : LocalView E) (a : Nat → Nat → K) (A : Nat → Nat → K) : Option (Nat → Nat → K) :=
  (List.range v.size).foldlM (fun A i => (digit v i).bind fun r => (List.range v.size).foldlM (fun A j => (digit v j).bind fun c => matAdd n A r c (a i j)) A) A

/-- One element, poisson-mfem.py:175-193. -/
def matStep [Add K] (n : Nat) (pb : PreBasis E) (a : E → Nat → Nat → K) (s : LocalView E × (Nat → Nat → K)) (e : E) : Option (LocalView E × (Nat → Nat → K)) :=
  (s.1.bind pb e).bind fun v => (matLoop n v (a e) s.2).map fun A => (v, A)

/-- `assembleMixedPoissonMatrix`, poisson-mfem.py:163-196, with any element matrices; `n` is `len(basis)`. -/
def pyMatrix [Add K] [Zero K] (n : Nat) (pb : PreBasis E) (a : E → Nat → Nat → K) (els : List E) : Option (Nat → Nat → K) :=
  (els.foldlM (matStep n pb a) (LocalView.fresh pb, fun _ _ => 0)).map Prod.snd

/-- Adding a local vector, poisson-mfem.py:232-235. -/
def vecLoop [Add K] (n : Nat) (v : LocalView E) (f : Nat → K) (b : Nat → K) : Option (Nat → K) :=
  (List.range v.size).foldlM (fun b i => (digit v i).bind fun r => vecAdd n b r (f i)) b

/-- One element, poisson-mfem.py:222-235. -/
def vecStep [Add K] (n : Nat) (pb : PreBasis E) (f : E → Nat → K) (s : LocalView E × (Nat → K)) (e : E) : Option (LocalView E × (Nat → K)) :=
  (s.1.bind pb e).bind fun v => (vecLoop n v (f e) s.2).map fun b => (v, b)

/-- The loop of `assembleMixedPoissonRhs`, poisson-mfem.py:215-237, with any local vectors. -/
def pyRhs [Add K] [Zero K] (n : Nat) (pb : PreBasis E) (f : E → Nat → K) (els : List E) : Option (Nat → K) :=
  (els.foldlM (vecStep n pb f) (LocalView.fresh pb, fun _ => 0)).map Prod.snd

/-- Adding an element matrix and a local vector, poisson-pq2.py:93-101. -/
def bothLoop [Add K] (n : Nat) (v : LocalView E) (a : Nat → Nat → K) (f : Nat → K) (s : (Nat → Nat → K) × (Nat → K)) : Option ((Nat → Nat → K) × (Nat → K)) :=
  (List.range v.size).foldlM (fun s i => (digit v i).bind fun r => (vecAdd n s.2 r (f i)).bind fun b =>
    ((List.range v.size).foldlM (fun A j => (digit v j).bind fun c => matAdd n A r c (a i j)) s.1).map fun A => (A, b)) s

/-- One element, poisson-pq2.py:81-101. -/
def bothStep [Add K] (n : Nat) (pb : PreBasis E) (a : E → Nat → Nat → K) (f : E → Nat → K) (s : LocalView E × (Nat → Nat → K) × (Nat → K)) (e : E) :
    Option (LocalView E × (Nat → Nat → K) × (Nat → K)) :=
  (s.1.bind pb e).bind fun v => (bothLoop n v (a e) (f e) s.2).map fun s => (v, s)

/-- `assembleLaplaceMatrix`, poisson-pq2.py:65-104, with any element matrices and local vectors. -/
def pyLaplace [Add K] [Zero K] (n : Nat) (pb : PreBasis E) (a : E → Nat → Nat → K) (f : E → Nat → K) (els : List E) : Option ((Nat → Nat → K) × (Nat → K)) :=
  (els.foldlM (bothStep n pb a f) (LocalView.fresh pb, fun _ _ => 0, fun _ => 0)).map Prod.snd

/-- `zip(*A.nonzero())`: the positions of entries that are not zero. -/
def nonzero [Zero K] [DecidableEq K] (n : Nat) (A : Nat → Nat → K) : List (Nat × Nat) :=
  ((List.range n).flatMap fun i => (List.range n).map fun j => (i, j)).filter fun ij => A ij.1 ij.2 ≠ 0

/-- `A[i, j] = y` -/
def matSet (A : Nat → Nat → K) (i j : Nat) (y : K) : Nat → Nat → K := fun i' j' => if i' = i ∧ j' = j then y else A i' j'

/-- `b[i] = y` -/
def vecSet (b : Nat → K) (i : Nat) (y : K) : Nat → K := fun i' => if i' = i then y else b i'

/-- One entry, poisson-pq2.py:155-160. -/
def rowsStep [Zero K] [One K] [DecidableEq K] (mark g : Nat → K) (s : (Nat → Nat → K) × (Nat → K)) (ij : Nat × Nat) : (Nat → Nat → K) × (Nat → K) :=
  if mark ij.1 ≠ 0 then (matSet s.1 ij.1 ij.2 (if ij.1 = ij.2 then 1 else 0), vecSet s.2 ij.1 (g ij.1)) else s

/-- The loop that changes rows, poisson-pq2.py:152-160; the marker is a vector of numbers (poisson-pq2.py:133). -/
def pyRows [Zero K] [One K] [DecidableEq K] (n : Nat) (mark g : Nat → K) (A : Nat → Nat → K) (b : Nat → K) : (Nat → Nat → K) × (Nat → K) :=
  (nonzero n A).foldl (rowsStep mark g) (A, b)

/-- The first loop of `incorporateEssentialConstraints`, poisson-mfem.py:275-278. -/
def clearEntries [Zero K] [DecidableEq K] (n : Nat) (mark : Nat → K) (A : Nat → Nat → K) : Nat → Nat → K :=
  (nonzero n A).foldl (fun A ij => if mark ij.1 ≠ 0 ∨ mark ij.2 ≠ 0 then matSet A ij.1 ij.2 0 else A) A

/-- The second loop of `incorporateEssentialConstraints`, poisson-mfem.py:279-282. -/
def setDiagonal [Zero K] [One K] [DecidableEq K] (n : Nat) (mark g : Nat → K) (s : (Nat → Nat → K) × (Nat → K)) : (Nat → Nat → K) × (Nat → K) :=
  (List.range n).foldl (fun s i => if mark i ≠ 0 then (matSet s.1 i i 1, vecSet s.2 i (g i)) else s) s

/-- `incorporateEssentialConstraints`, poisson-mfem.py:273-282. -/
def pyConstraints [Field K] [DecidableEq K] (n : Nat) (mark g : Nat → K) (A : Nat → Nat → K) (b : Nat → K) : (Nat → Nat → K) × (Nat → K) :=
  setDiagonal n mark g (clearEntries n mark A, fun i => b i - ∑ j ∈ range n, A i j * (g j * mark j))

/-- `numpy.trace(numpy.array(J) * G)`, poisson-mfem.py:70: the product of arrays of numpy is taken entry by entry. -/
def pyDivergence [Field K] (d : Nat) (J G : Nat → Nat → K) : K := ∑ i ∈ range d, J i i * G i i

/-! ## Specification -/

/-- `x` solves the linear system. -/
def PySolves [Field K] (n : Nat) (A : Nat → Nat → K) (b x : Nat → K) : Prop := ∀ i < n, ∑ j ∈ range n, A i j * x j = b i

/-- The coefficient of a multi-index with one digit. -/
def flat (x : Nat → K) (m : MI) : K := x (m[0]?.getD 0)

/-- The multi-indices are `[0], …, [n-1]`: a flat basis with `len(basis) = n`. -/
def FlatBasis (pb : PreBasis E) (n : Nat) : Prop := ∀ m ∈ IndexSet pb, ∃ i < n, m = [i]

/-- The trace of the product of matrices: the divergence of a shape function whose Jacobian on the reference element is `J`. -/
def divergence [Field K] (d : Nat) (J G : Nat → Nat → K) : K := ∑ i ∈ range d, ∑ j ∈ range d, J i j * G j i

/-- The energy of local coefficients on an element. -/
def energy [Field K] (pb : PreBasis E) (a : E → Nat → Nat → K) (e : E) (y : Nat → K) : K :=
  ((List.range (idx pb e).length).map fun i => ((List.range (idx pb e).length).map fun j => y i * a e i j * y j).sum).sum

/-! ## Proofs -/

/-- The form of a matrix. -/
def form [Field K] (n : Nat) (A : Nat → Nat → K) (u v : Nat → K) : K := ∑ i ∈ range n, v i * ∑ j ∈ range n, A i j * u j

theorem matAdd_form [Field K] {n : Nat} (A : Nat → Nat → K) {i j : Nat} (hi : i < n) (hj : j < n) (y : K) :
    ∃ A', matAdd n A i j y = some A' ∧ ∀ u v, form n A' u v = form n A u v + v i * y * u j := by
  refine ⟨_, if_pos ⟨hi, hj⟩, fun u v => ?_⟩
  have h : ∀ i' j', (if i' = i ∧ j' = j then A i' j' + y else A i' j') = A i' j' + if i' = i ∧ j' = j then y else 0 := fun i' j' => by split_ifs <;> simp
  simp only [form, h, add_mul, Finset.sum_add_distrib, mul_add]
  congr 1
  rw [Finset.sum_eq_single i, Finset.sum_eq_single j]
  · simp [mul_assoc]
  · intro j' _ hne; simp [hne]
  · exact fun h => absurd (Finset.mem_range.2 hj) h
  · intro i' _ hne; simp [hne]
  · exact fun h => absurd (Finset.mem_range.2 hi) h

theorem vecAdd_form [Field K] {n : Nat} (b : Nat → K) {i : Nat} (hi : i < n) (y : K) :
    ∃ b', vecAdd n b i y = some b' ∧ ∀ v : Nat → K, ∑ k ∈ range n, v k * b' k = ∑ k ∈ range n, v k * b k + v i * y := by
  refine ⟨_, if_pos hi, fun v => ?_⟩
  have h : ∀ i', (if i' = i then b i' + y else b i') = b i' + if i' = i then y else 0 := fun i' => by split_ifs <;> simp
  simp only [h, mul_add, Finset.sum_add_distrib]
  congr 1
  rw [Finset.sum_eq_single i]
  · simp
  · intro j' _ hne; simp [hne]
  · exact fun h => absurd (Finset.mem_range.2 hi) h

/-- The multi-indices of a flat basis, as the programs read them. -/
theorem digit_view {b : PB E} (hb : b.WF) {n : Nat} (hn : FlatBasis b.model n) {e : E} {v : LocalView E} (hv : ∀ i < (idx b.model e).length, v.index i = some ((idx b.model e)[i]?.getD []))
    {i : Nat} (hi : i < (idx b.model e).length) : ∃ r < n, digit v i = some r ∧ ∀ x : Nat → K, flat x ((idx b.model e)[i]?.getD []) = x r := by
  have hm : (idx b.model e)[i]?.getD [] ∈ IndexSet b.model := by
    refine ⟨e, idx b.model e, ?_, ?_⟩
    · rw [idx_eq b hb]; exact localIndices_eq (b.refines hb) e
    · rw [List.getElem?_eq_getElem hi]; exact List.getElem_mem hi
  obtain ⟨r, hr, h⟩ := hn _ hm
  refine ⟨r, hr, ?_, fun x => ?_⟩
  · rw [digit, hv i hi, h]; rfl
  · rw [h]; rfl

theorem inner_form [Field K] {b : PB E} (hb : b.WF) {n : Nat} (hn : FlatBasis b.model n) {e : E} {v : LocalView E}
    (hv : ∀ i < (idx b.model e).length, v.index i = some ((idx b.model e)[i]?.getD [])) {r : Nat} (hr : r < n) (y : Nat → K) (A : Nat → Nat → K) :
    ∃ A', (List.range (idx b.model e).length).foldlM (fun A j => (digit v j).bind fun c => matAdd n A r c (y j)) A = some A' ∧
      ∀ u w, form n A' u w = form n A u w + ((List.range (idx b.model e).length).map fun j => w r * y j * flat u ((idx b.model e)[j]?.getD [])).sum := by
  obtain ⟨A', m1, -, m3⟩ := fold_sum (W := (Nat → K) × (Nat → K)) (fun A j => (digit v j).bind fun c => matAdd n A r c (y j)) (fun _ => True) (fun w A => form n A w.1 w.2)
    (fun w j => w.2 r * y j * flat w.1 ((idx b.model e)[j]?.getD [])) (List.range (idx b.model e).length) (by
      intro A j hj _
      obtain ⟨c, c1, c2, c3⟩ := digit_view (K := K) hb hn hv (List.mem_range.1 hj)
      obtain ⟨A', k1, k2⟩ := matAdd_form A hr c1 (y j)
      exact ⟨A', by rw [c2]; exact k1, trivial, fun w => by rw [k2, c3]⟩) A trivial
  exact ⟨A', m1, fun u w => m3 (u, w)⟩

theorem pyMatrix_spec [Field K] {b : PB E} (hb : b.WF) {n : Nat} (hn : FlatBasis b.model n) (a : E → Nat → Nat → K) (els : List E) :
    ∃ A, pyMatrix n b.model a els = some A ∧ ∀ u w, form n A u w = bilinear b.model a els (flat u) (flat w) := by
  obtain ⟨s, h1, -, h3⟩ := fold_sum (W := (Nat → K) × (Nat → K)) (matStep n b.model a) (fun s => s.1.tree.blank = b.model.makeNode.blank) (fun w s => form n s.2 w.1 w.2)
    (fun w e => ((List.range (idx b.model e).length).map fun i => ((List.range (idx b.model e).length).map fun j =>
      flat w.2 ((idx b.model e)[i]?.getD []) * a e i j * flat w.1 ((idx b.model e)[j]?.getD [])).sum).sum) els (by
      rintro s e - hs
      obtain ⟨v, v1, v2, v3, v4⟩ := bind_view b hb hs e
      obtain ⟨A, l1, -, l3⟩ := fold_sum (W := (Nat → K) × (Nat → K)) (fun A i => (digit v i).bind fun r => (List.range v.size).foldlM (fun A j => (digit v j).bind fun c => matAdd n A r c (a e i j)) A)
        (fun _ => True) (fun w A => form n A w.1 w.2)
        (fun w i => ((List.range (idx b.model e).length).map fun j => flat w.2 ((idx b.model e)[i]?.getD []) * a e i j * flat w.1 ((idx b.model e)[j]?.getD [])).sum)
        (List.range (idx b.model e).length) (by
          intro A i hi _
          obtain ⟨r, r1, r2, r3⟩ := digit_view (K := K) hb hn v4 (List.mem_range.1 hi)
          obtain ⟨A', k1, k2⟩ := inner_form hb hn v4 r1 (a e i) A
          exact ⟨A', by rw [r2, v3]; exact k1, trivial, fun w => by rw [k2, r3]⟩) s.2 trivial
      rw [← v3] at l1
      exact ⟨(v, A), by rw [matStep, v1, Option.bind_some, matLoop, l1]; rfl, v2, l3⟩) (LocalView.fresh b.model, fun _ _ => 0) (LocalView.fresh_blank _)
  refine ⟨s.2, by rw [pyMatrix, h1]; rfl, fun u w => ?_⟩
  rw [h3 (u, w), bilinear]
  simp [form]

theorem pyRhs_spec [Field K] {b : PB E} (hb : b.WF) {n : Nat} (hn : FlatBasis b.model n) (f : E → Nat → K) (els : List E) :
    ∃ rhs, pyRhs n b.model f els = some rhs ∧ ∀ w : Nat → K, ∑ i ∈ range n, w i * rhs i = linear b.model f els (flat w) := by
  obtain ⟨s, h1, -, h3⟩ := fold_sum (W := Nat → K) (vecStep n b.model f) (fun s => s.1.tree.blank = b.model.makeNode.blank) (fun w s => ∑ i ∈ range n, w i * s.2 i)
    (fun w e => ((List.range (idx b.model e).length).map fun i => flat w ((idx b.model e)[i]?.getD []) * f e i).sum) els (by
      rintro s e - hs
      obtain ⟨v, v1, v2, v3, v4⟩ := bind_view b hb hs e
      obtain ⟨A, l1, -, l3⟩ := fold_sum (W := Nat → K) (fun b' i => (digit v i).bind fun r => vecAdd n b' r (f e i)) (fun _ => True) (fun w A => ∑ i ∈ range n, w i * A i)
        (fun w i => flat w ((idx b.model e)[i]?.getD []) * f e i) (List.range (idx b.model e).length) (by
          intro A i hi _
          obtain ⟨r, r1, r2, r3⟩ := digit_view (K := K) hb hn v4 (List.mem_range.1 hi)
          obtain ⟨A', k1, k2⟩ := vecAdd_form A r1 (f e i)
          exact ⟨A', by rw [r2]; exact k1, trivial, fun w => by rw [k2, r3]⟩) s.2 trivial
      rw [← v3] at l1
      exact ⟨(v, A), by rw [vecStep, v1, Option.bind_some, vecLoop, l1]; rfl, v2, l3⟩) (LocalView.fresh b.model, fun _ => 0) (LocalView.fresh_blank _)
  refine ⟨s.2, by rw [pyRhs, h1]; rfl, fun w => ?_⟩
  rw [h3 w, linear]
  simp

theorem loop_pair {S T A : Type} (f : S → A → Option S) (g : T → A → Option T) (h : S × T → A → Option (S × T)) (l : List A)
    (hh : ∀ s t, ∀ a ∈ l, ∀ s' t', f s a = some s' → g t a = some t' → h (s, t) a = some (s', t')) :
    ∀ s t s' t', l.foldlM f s = some s' → l.foldlM g t = some t' → l.foldlM h (s, t) = some (s', t') := by
  induction l with
  | nil =>
    intro s t s' t' h1 h2
    cases h1; cases h2; rfl
  | cons a l ih =>
    intro s t s' t' h1 h2
    rw [List.foldlM_cons] at h1 h2
    obtain ⟨s1, k1, k2⟩ := Option.bind_eq_some_iff.1 h1
    obtain ⟨t1, m1, m2⟩ := Option.bind_eq_some_iff.1 h2
    rw [List.foldlM_cons, hh s t a List.mem_cons_self s1 t1 k1 m1]
    exact ih (fun s t a ha => hh s t a (List.mem_cons_of_mem _ ha)) s1 t1 s' t' k2 m2

/-- Assembling both at once gives the same matrix and vector. -/
theorem bothStep_pair [Add K] (n : Nat) (pb : PreBasis E) (a : E → Nat → Nat → K) (f : E → Nat → K) (els : List E) : ∀ (lv : LocalView E) (A : Nat → Nat → K) (b : Nat → K) sA sB,
    els.foldlM (matStep n pb a) (lv, A) = some sA → els.foldlM (vecStep n pb f) (lv, b) = some sB → els.foldlM (bothStep n pb a f) (lv, A, b) = some (sA.1, sA.2, sB.2) := by
  induction els with
  | nil =>
    intro lv A b sA sB h1 h2
    cases h1; cases h2; rfl
  | cons e els ih =>
    intro lv A b sA sB h1 h2
    rw [List.foldlM_cons] at h1 h2
    obtain ⟨s1, k1, k2⟩ := Option.bind_eq_some_iff.1 h1
    obtain ⟨t1, m1, m2⟩ := Option.bind_eq_some_iff.1 h2
    obtain ⟨v, v1, v2⟩ := Option.bind_eq_some_iff.1 k1
    obtain ⟨A1, v3, rfl⟩ := Option.map_eq_some_iff.1 v2
    rw [vecStep, show (lv, b).1.bind pb e = some v from v1, Option.bind_some] at m1
    obtain ⟨b1, w3, rfl⟩ := Option.map_eq_some_iff.1 m1
    have hb : bothLoop n v (a e) (f e) (A, b) = some (A1, b1) := by
      refine loop_pair _ _ _ _ ?_ A b A1 b1 v3 w3
      intro A b i _ A' b' x1 x2
      obtain ⟨r, y1, y2⟩ := Option.bind_eq_some_iff.1 x1
      rw [y1, Option.bind_some] at x2
      rw [y1, Option.bind_some, x2, Option.bind_some, y2]
      rfl
    rw [List.foldlM_cons, bothStep, show (lv, A, b).1.bind pb e = some v from v1, Option.bind_some, hb]
    exact ih v A1 b1 sA sB k2 m2

theorem pyLaplace_eq [Add K] [Zero K] {n : Nat} {pb : PreBasis E} {a : E → Nat → Nat → K} {f : E → Nat → K} {els : List E} {A : Nat → Nat → K} {b : Nat → K}
    (hA : pyMatrix n pb a els = some A) (hb : pyRhs n pb f els = some b) : pyLaplace n pb a f els = some (A, b) := by
  obtain ⟨sA, h1, rfl⟩ := Option.map_eq_some_iff.1 hA
  obtain ⟨sB, h2, rfl⟩ := Option.map_eq_some_iff.1 hb
  rw [pyLaplace, bothStep_pair n pb a f els _ _ _ sA sB h1 h2]
  rfl

theorem mem_nonzero [Zero K] [DecidableEq K] {n : Nat} {A : Nat → Nat → K} {i j : Nat} : (i, j) ∈ nonzero n A ↔ i < n ∧ j < n ∧ A i j ≠ 0 := by
  simp [nonzero, and_assoc]

theorem rows_spec [Zero K] [One K] [DecidableEq K] (mark g : Nat → K) (l : List (Nat × Nat)) (s : (Nat → Nat → K) × (Nat → K)) :
    (∀ i j, (l.foldl (rowsStep mark g) s).1 i j = if (i, j) ∈ l ∧ mark i ≠ 0 then (if i = j then 1 else 0) else s.1 i j) ∧
      ∀ i, (l.foldl (rowsStep mark g) s).2 i = if i ∈ l.map Prod.fst ∧ mark i ≠ 0 then g i else s.2 i := by
  induction l generalizing s with
  | nil => simp
  | cons p l ih =>
    obtain ⟨i0, j0⟩ := p
    obtain ⟨h1, h2⟩ := ih (rowsStep mark g s (i0, j0))
    constructor
    · intro i j
      rw [List.foldl_cons, h1, rowsStep]
      by_cases hm : mark i0 ≠ 0
      · by_cases he : i = i0 ∧ j = j0
        · obtain ⟨rfl, rfl⟩ := he
          simp [matSet, hm]
        · have : (i, j) ≠ (i0, j0) := fun h => he (by simpa using h)
          simp [matSet, hm, he, this]
      · by_cases he : i = i0 ∧ j = j0
        · obtain ⟨rfl, rfl⟩ := he
          simp [hm]
        · have : (i, j) ≠ (i0, j0) := fun h => he (by simpa using h)
          simp [hm, this]
    · intro i
      rw [List.foldl_cons, h2, rowsStep]
      simp only [List.map_cons, List.mem_cons]
      by_cases hm : mark i0 ≠ 0
      · by_cases he : i = i0
        · subst he
          simp [vecSet, hm]
        · by_cases hl : i ∈ l.map Prod.fst <;> simp only [vecSet, hm, he, hl, ne_eq, not_false_eq_true, if_true, if_false, false_or, true_and, false_and]
      · by_cases he : i = i0
        · subst he
          simp [hm]
        · by_cases hl : i ∈ l.map Prod.fst <;> simp only [hm, he, hl, ne_eq, if_false, false_or, true_and, false_and]

theorem clear_spec [Zero K] [DecidableEq K] (mark : Nat → K) (l : List (Nat × Nat)) (A : Nat → Nat → K) (i j : Nat) :
    l.foldl (fun A ij => if mark ij.1 ≠ 0 ∨ mark ij.2 ≠ 0 then matSet A ij.1 ij.2 0 else A) A i j = if (i, j) ∈ l ∧ (mark i ≠ 0 ∨ mark j ≠ 0) then 0 else A i j := by
  induction l generalizing A with
  | nil => simp
  | cons p l ih =>
    obtain ⟨i0, j0⟩ := p
    rw [List.foldl_cons, ih]
    by_cases he : i = i0 ∧ j = j0
    · obtain ⟨rfl, rfl⟩ := he
      by_cases hm : mark i ≠ 0 ∨ mark j ≠ 0
      · simp [hm, matSet]
      · simp only [hm, and_false, if_false]
    · have hne : (i, j) ≠ (i0, j0) := fun h => he (by simpa using h)
      have hs : (if mark i0 ≠ 0 ∨ mark j0 ≠ 0 then matSet A i0 j0 0 else A) i j = A i j := by
        split_ifs
        · exact if_neg he
        · rfl
      simp only [hs, List.mem_cons, hne, false_or]

theorem clearEntries_eq [Zero K] [DecidableEq K] {n : Nat} (mark : Nat → K) (A : Nat → Nat → K) {i j : Nat} (hi : i < n) (hj : j < n) :
    clearEntries n mark A i j = if mark i ≠ 0 ∨ mark j ≠ 0 then 0 else A i j := by
  rw [clearEntries, clear_spec]
  simp only [mem_nonzero]
  by_cases h : A i j = 0
  · simp [h]
  · simp [h, hi, hj]

theorem diagonal_spec [Zero K] [One K] [DecidableEq K] (mark g : Nat → K) (n : Nat) (s : (Nat → Nat → K) × (Nat → K)) :
    (∀ i j, (setDiagonal n mark g s).1 i j = if i < n ∧ i = j ∧ mark i ≠ 0 then 1 else s.1 i j) ∧ ∀ i, (setDiagonal n mark g s).2 i = if i < n ∧ mark i ≠ 0 then g i else s.2 i := by
  induction n with
  | zero => simp [setDiagonal]
  | succ n ih =>
    obtain ⟨h1, h2⟩ := ih
    have hs : setDiagonal (n + 1) mark g s = if mark n ≠ 0 then (matSet (setDiagonal n mark g s).1 n n 1, vecSet (setDiagonal n mark g s).2 n (g n)) else setDiagonal n mark g s := by
      rw [setDiagonal, List.range_succ, List.foldl_append]
      rfl
    rw [hs]
    by_cases hm : mark n ≠ 0
    · rw [if_pos hm]
      constructor
      · intro i j
        simp only [matSet, h1]
        by_cases hi : i = n
        · subst hi
          by_cases hj : j = i
          · subst hj; simp [hm]
          · have : ¬ i = j := fun h => hj h.symm
            simp [hj, this]
        · have : i < n + 1 ↔ i < n := by omega
          simp [hi, this]
      · intro i
        simp only [vecSet, h2]
        by_cases hi : i = n
        · subst hi; simp [hm]
        · have : i < n + 1 ↔ i < n := by omega
          simp [hi, this]
    · rw [if_neg hm]
      have hx : ∀ i, mark i ≠ 0 → (i < n + 1 ↔ i < n) := fun i hi => by
        have : i ≠ n := fun h => hm (h ▸ hi)
        omega
      constructor
      · intro i j
        rw [h1]
        by_cases hi : mark i ≠ 0
        · simp only [hx i hi]
        · simp [hi]
      · intro i
        rw [h2]
        by_cases hi : mark i ≠ 0
        · simp only [hx i hi]
        · simp [hi]

theorem test_rows [Field K] (n : Nat) (mark p q : Nat → K) :
    (∀ i < n, mark i = 0 → p i = q i) ↔ ∀ v : Nat → K, (∀ i < n, mark i ≠ 0 → v i = 0) → ∑ i ∈ range n, v i * p i = ∑ i ∈ range n, v i * q i := by
  constructor
  · intro h v hv
    refine Finset.sum_congr rfl fun i hi => ?_
    by_cases hm : mark i = 0
    · rw [h i (Finset.mem_range.1 hi) hm]
    · rw [hv i (Finset.mem_range.1 hi) hm, zero_mul, zero_mul]
  · intro h i hi hm
    have := h (fun k => if k = i then 1 else 0) fun k _ hk => if_neg fun (e : k = i) => hk (e ▸ hm)
    simpa [hi] using this

/-! ## Theorems -/

/-- **C118.** `incorporateEssentialConstraints(A, b, isConstrained, x)` of examples/poisson-mfem.py, for all matrices and markers whose entries are zero and one: the solutions of the new system are the vectors
with the given constrained entries that satisfy the other equations of the old system. -/
theorem C118_constraints [Field K] [DecidableEq K] (n : Nat) {mark : Nat → K} (hmark : ∀ i < n, mark i = 0 ∨ mark i = 1) (g : Nat → K) (A : Nat → Nat → K) (b x : Nat → K) :
    PySolves n (pyConstraints n mark g A b).1 (pyConstraints n mark g A b).2 x ↔
      (∀ i < n, mark i ≠ 0 → x i = g i) ∧ ∀ i < n, mark i = 0 → ∑ j ∈ range n, A i j * x j = b i := by
  obtain ⟨d1, d2⟩ := diagonal_spec mark g n (clearEntries n mark A, fun i => b i - ∑ j ∈ range n, A i j * (g j * mark j))
  have e1 : ∀ i < n, mark i ≠ 0 → ∑ j ∈ range n, (pyConstraints n mark g A b).1 i j * x j = x i := by
    intro i hi hm
    rw [Finset.sum_eq_single i]
    · rw [pyConstraints, d1, if_pos ⟨hi, rfl, hm⟩, one_mul]
    · intro j hj hne
      rw [pyConstraints, d1, if_neg fun h => hne h.2.1.symm]; dsimp only; rw [clearEntries_eq mark A hi (Finset.mem_range.1 hj), if_pos (.inl hm), zero_mul]
    · exact fun h => absurd (Finset.mem_range.2 hi) h
  have e2 : ∀ i < n, mark i = 0 → (∀ j < n, mark j ≠ 0 → x j = g j) →
      ∑ j ∈ range n, (pyConstraints n mark g A b).1 i j * x j + ∑ j ∈ range n, A i j * (g j * mark j) = ∑ j ∈ range n, A i j * x j := by
    intro i hi hm hx
    rw [← Finset.sum_add_distrib]
    refine Finset.sum_congr rfl fun j hj => ?_
    have hj := Finset.mem_range.1 hj
    rw [pyConstraints, d1, if_neg fun h => h.2.2 hm]; dsimp only; rw [clearEntries_eq mark A hi hj]
    rcases hmark j hj with h | h
    · simp [hm, h]
    · rw [if_pos (.inr (by rw [h]; exact one_ne_zero)), h, hx j hj (by rw [h]; exact one_ne_zero)]
      ring
  have f1 : ∀ i < n, mark i ≠ 0 → (pyConstraints n mark g A b).2 i = g i := fun i hi hm => by rw [pyConstraints, d2, if_pos ⟨hi, hm⟩]
  have f2 : ∀ i < n, mark i = 0 → (pyConstraints n mark g A b).2 i = b i - ∑ j ∈ range n, A i j * (g j * mark j) := fun i hi hm => by rw [pyConstraints, d2, if_neg fun h => h.2 hm]
  constructor
  · intro h
    have hx : ∀ i < n, mark i ≠ 0 → x i = g i := fun i hi hm => by rw [← e1 i hi hm, h i hi, f1 i hi hm]
    refine ⟨hx, fun i hi hm => ?_⟩
    rw [← e2 i hi hm hx, h i hi, f2 i hi hm, sub_add_cancel]
  · rintro ⟨hx, hr⟩ i hi
    by_cases hm : mark i = 0
    · rw [f2 i hi hm, ← hr i hi hm, ← e2 i hi hm hx, add_sub_cancel_right]
    · rw [e1 i hi hm, f1 i hi hm, hx i hi hm]

/-- **C118.** A symmetric matrix stays symmetric. -/
theorem C118_symmetric [Field K] [DecidableEq K] (n : Nat) (mark g : Nat → K) {A : Nat → Nat → K} (hA : ∀ i < n, ∀ j < n, A i j = A j i) (b : Nat → K) :
    ∀ i < n, ∀ j < n, (pyConstraints n mark g A b).1 i j = (pyConstraints n mark g A b).1 j i := by
  intro i hi j hj
  obtain ⟨d1, -⟩ := diagonal_spec mark g n (clearEntries n mark A, fun i => b i - ∑ j ∈ range n, A i j * (g j * mark j))
  by_cases h : i = j
  · rw [h]
  · rw [pyConstraints, d1, d1, if_neg fun k => h k.2.1, if_neg fun k => h k.2.1.symm]; dsimp only; rw [clearEntries_eq mark A hi hj, clearEntries_eq mark A hj hi, hA i hi j hj]
    simp only [or_comm]

/-- **C118.** The program of examples/poisson-mfem.py, with any element matrices and local vectors, for flat bases: the solutions of the linear system have the given constrained coefficients and satisfy
the equation of the forms for all test vectors without constrained coefficients. -/
theorem C118_mfem [Field K] [DecidableEq K] {b : PB E} (hb : b.WF) {n : Nat} (hn : FlatBasis b.model n) (a : E → Nat → Nat → K) (f : E → Nat → K) (els : List E)
    {mark : Nat → K} (hmark : ∀ i < n, mark i = 0 ∨ mark i = 1) (g : Nat → K) :
    ∃ A rhs, pyMatrix n b.model a els = some A ∧ pyRhs n b.model f els = some rhs ∧
      ∀ x, PySolves n (pyConstraints n mark g A rhs).1 (pyConstraints n mark g A rhs).2 x ↔
        (∀ i < n, mark i ≠ 0 → x i = g i) ∧ ∀ v : Nat → K, (∀ i < n, mark i ≠ 0 → v i = 0) → bilinear b.model a els (flat x) (flat v) = linear b.model f els (flat v) := by
  obtain ⟨A, a1, a2⟩ := pyMatrix_spec hb hn a els
  obtain ⟨rhs, r1, r2⟩ := pyRhs_spec hb hn f els
  refine ⟨A, rhs, a1, r1, fun x => ?_⟩
  rw [C118_constraints n hmark, test_rows]
  simp only [← a2, ← r2, form]

/-- **C118** for examples/poisson-pq2.py. Missing: rows of constrained coefficients with a zero on the diagonal. The loop visits only entries that are not zero, so it sets no diagonal entry there
(`C118_rows_false`). -/
theorem C118_rows_partial [Field K] [DecidableEq K] {b : PB E} (hb : b.WF) {n : Nat} (hn : FlatBasis b.model n) (a : E → Nat → Nat → K) (f : E → Nat → K) (els : List E) (mark g : Nat → K) :
    ∃ A rhs, pyLaplace n b.model a f els = some (A, rhs) ∧ ((∀ i < n, mark i ≠ 0 → A i i ≠ 0) →
      ∀ x, PySolves n (pyRows n mark g A rhs).1 (pyRows n mark g A rhs).2 x ↔
        (∀ i < n, mark i ≠ 0 → x i = g i) ∧ ∀ v : Nat → K, (∀ i < n, mark i ≠ 0 → v i = 0) → bilinear b.model a els (flat x) (flat v) = linear b.model f els (flat v)) := by
  obtain ⟨A, a1, a2⟩ := pyMatrix_spec hb hn a els
  obtain ⟨rhs, r1, r2⟩ := pyRhs_spec hb hn f els
  refine ⟨A, rhs, pyLaplace_eq a1 r1, fun hd x => ?_⟩
  obtain ⟨s1, s2⟩ := rows_spec mark g (nonzero n A) (A, rhs)
  have e1 : ∀ i < n, mark i ≠ 0 → ∑ j ∈ range n, (pyRows n mark g A rhs).1 i j * x j = x i := by
    intro i hi hm
    rw [Finset.sum_eq_single i]
    · rw [pyRows, s1, if_pos ⟨mem_nonzero.2 ⟨hi, hi, hd i hi hm⟩, hm⟩, if_pos rfl, one_mul]
    · intro j hj hne
      rw [pyRows, s1]
      by_cases h : A i j = 0
      · rw [if_neg fun k => (mem_nonzero.1 k.1).2.2 h]; dsimp only; rw [h, zero_mul]
      · rw [if_pos ⟨mem_nonzero.2 ⟨hi, Finset.mem_range.1 hj, h⟩, hm⟩, if_neg hne.symm, zero_mul]
    · exact fun h => absurd (Finset.mem_range.2 hi) h
  have e2 : ∀ i, mark i = 0 → ∑ j ∈ range n, (pyRows n mark g A rhs).1 i j * x j = ∑ j ∈ range n, A i j * x j := fun i hm =>
    Finset.sum_congr rfl fun j _ => by rw [pyRows, s1, if_neg fun k => k.2 hm]
  have f1 : ∀ i < n, mark i ≠ 0 → (pyRows n mark g A rhs).2 i = g i := fun i hi hm => by rw [pyRows, s2, if_pos ⟨List.mem_map.2 ⟨(i, i), mem_nonzero.2 ⟨hi, hi, hd i hi hm⟩, rfl⟩, hm⟩]
  have f2 : ∀ i, mark i = 0 → (pyRows n mark g A rhs).2 i = rhs i := fun i hm => by rw [pyRows, s2, if_neg fun k => k.2 hm]
  have ht := test_rows n mark (fun i => ∑ j ∈ range n, A i j * x j) rhs
  simp only [r2] at ht
  change _ ↔ ∀ v : Nat → K, _ → form n A x v = _ at ht
  simp only [a2] at ht
  rw [← ht]
  constructor
  · exact fun h => ⟨fun i hi hm => by rw [← e1 i hi hm, h i hi, f1 i hi hm], fun i hi hm => by rw [← e2 i hm, h i hi, f2 i hm]⟩
  · rintro ⟨h1, h2⟩ i hi
    by_cases hm : mark i = 0
    · rw [e2 i hm, f2 i hm, h2 i hi hm]
    · rw [e1 i hi hm, f1 i hi hm, h1 i hi hm]

theorem sum_pos [Field K] [LinearOrder K] [IsStrictOrderedRing K] (q : E → K) : ∀ l : List E, (∀ e ∈ l, 0 ≤ q e) → (∃ e ∈ l, 0 < q e) → 0 < (l.map q).sum
  | [], _, h => by obtain ⟨e, h, _⟩ := h; cases h
  | e :: l, h0, ⟨e', h1, h2⟩ => by
    have hl : 0 ≤ (l.map q).sum := List.sum_nonneg fun x hx => by obtain ⟨e'', h, rfl⟩ := List.mem_map.1 hx; exact h0 e'' (List.mem_cons_of_mem _ h)
    rw [List.map_cons, List.sum_cons]
    rcases List.mem_cons.1 h1 with rfl | h1
    · exact add_pos_of_pos_of_nonneg h2 hl
    · exact add_pos_of_nonneg_of_pos (h0 e List.mem_cons_self) (sum_pos q l (fun e h => h0 e (List.mem_cons_of_mem _ h)) ⟨e', h1, h2⟩)

theorem form_unit [Field K] {n : Nat} (A : Nat → Nat → K) {i : Nat} (hi : i < n) : form n A (fun j => if j = i then 1 else 0) (fun j => if j = i then 1 else 0) = A i i := by
  simp [form, hi]

/-- **C118** for examples/poisson-pq2.py with element matrices like those of the Laplace operator: no energy is negative, and only constant local coefficients have energy zero. Then no constrained row
has a zero on the diagonal, if the coefficient belongs to an element that has another coefficient, too. -/
theorem C118_laplace [Field K] [LinearOrder K] [IsStrictOrderedRing K] {b : PB E} (hb : b.WF) {n : Nat} (hn : FlatBasis b.model n) (a : E → Nat → Nat → K) (f : E → Nat → K) (els : List E)
    (mark g : Nat → K) (h0 : ∀ e ∈ els, ∀ y, 0 ≤ energy b.model a e y)
    (h1 : ∀ e ∈ els, ∀ y, energy b.model a e y = 0 → ∀ k < (idx b.model e).length, ∀ l < (idx b.model e).length, y k = y l)
    (hc : ∀ i < n, mark i ≠ 0 → ∃ e ∈ els, [i] ∈ idx b.model e ∧ ∃ m ∈ idx b.model e, m ≠ [i]) :
    ∃ A rhs, pyLaplace n b.model a f els = some (A, rhs) ∧
      ∀ x, PySolves n (pyRows n mark g A rhs).1 (pyRows n mark g A rhs).2 x ↔
        (∀ i < n, mark i ≠ 0 → x i = g i) ∧ ∀ v : Nat → K, (∀ i < n, mark i ≠ 0 → v i = 0) → bilinear b.model a els (flat x) (flat v) = linear b.model f els (flat v) := by
  obtain ⟨A, rhs, p1, p2⟩ := C118_rows_partial hb hn a f els mark g
  obtain ⟨A', a1, a2⟩ := pyMatrix_spec hb hn a els
  obtain ⟨rhs', r1, -⟩ := pyRhs_spec hb hn f els
  obtain ⟨rfl, rfl⟩ : A = A' ∧ rhs = rhs' := by simpa [pyLaplace_eq a1 r1, eq_comm] using p1
  refine ⟨A, rhs, p1, p2 fun i hi hm => ne_of_gt ?_⟩
  rw [← form_unit A hi, a2]
  obtain ⟨e, he, hk, m, hm1, hm2⟩ := hc i hi hm
  refine sum_pos (fun e => energy b.model a e fun k => flat (fun j => if j = i then 1 else 0) ((idx b.model e)[k]?.getD [])) els (fun e he => h0 e he _) ⟨e, he, lt_of_le_of_ne (h0 e he _) fun hz => ?_⟩
  obtain ⟨k, k1, k2⟩ := List.getElem_of_mem hk
  obtain ⟨l, l1, l2⟩ := List.getElem_of_mem hm1
  have h := h1 e he _ hz.symm k k1 l l1
  simp only [List.getElem?_eq_getElem k1, List.getElem?_eq_getElem l1, Option.getD_some, k2, l2] at h
  obtain ⟨j, -, rfl⟩ := hn m (⟨e, idx b.model e, by rw [idx_eq b hb]; exact localIndices_eq (b.refines hb) e, hm1⟩)
  have hj : j ≠ i := fun h => hm2 (by rw [h])
  simp [flat, hj] at h

/-- **C118, false in general** for examples/poisson-pq2.py: with a zero on the diagonal of a constrained row, the system has no solution although the constrained problem has one. -/
theorem C118_rows_false : ∃ (A : Nat → Nat → ℚ) (b mark g x : Nat → ℚ), (∀ i < 2, mark i ≠ 0 → x i = g i) ∧ (∀ i < 2, mark i = 0 → ∑ j ∈ range 2, A i j * x j = b i) ∧
    ∀ y, ¬ PySolves 2 (pyRows 2 mark g A b).1 (pyRows 2 mark g A b).2 y := by
  refine ⟨fun i j => if i = j then 0 else 1, fun _ => 5, fun i => if i = 0 then 1 else 0, fun _ => 5, fun _ => 5, by simp, ?_, ?_⟩
  · intro i hi hm
    obtain rfl : i = 1 := by
      rcases Nat.lt_or_ge i 1 with h | h
      · obtain rfl : i = 0 := by omega
        simp at hm
      · omega
    simp [Finset.sum_range_succ]
  · intro y h
    have h0 := h 0 (by decide)
    have v : (pyRows 2 (fun i => if i = 0 then (1 : ℚ) else 0) (fun _ => 5) (fun i j => if i = j then 0 else 1) fun _ => 5).1 0 0 = 0 ∧
        (pyRows 2 (fun i => if i = 0 then (1 : ℚ) else 0) (fun _ => 5) (fun i j => if i = j then 0 else 1) fun _ => 5).1 0 1 = 0 ∧
        (pyRows 2 (fun i => if i = 0 then (1 : ℚ) else 0) (fun _ => 5) (fun i j => if i = j then 0 else 1) fun _ => 5).2 0 = 5 := by decide +kernel
    rw [Finset.sum_range_succ, Finset.sum_range_one, v.1, v.2.1, v.2.2] at h0
    norm_num at h0

/-- **C119** Missing: elements whose Jacobian is not diagonal (`C119_divergence_false`). The divergence of examples/poisson-mfem.py is right for all shape functions if and only if the inverse Jacobian is
diagonal, as for the grid of the example. -/
theorem C119_divergence_partial [Field K] (d : Nat) (G : Nat → Nat → K) :
    (∀ J, pyDivergence d J G = divergence d J G) ↔ ∀ i < d, ∀ j < d, i ≠ j → G i j = 0 := by
  constructor
  · intro h i hi j hj hne
    have := h fun k l => if k = j ∧ l = i then 1 else 0
    simp only [pyDivergence, divergence] at this
    rw [Finset.sum_eq_zero fun k _ => by rw [if_neg fun hk => hne (hk.2.symm.trans hk.1), zero_mul], Finset.sum_eq_single j, Finset.sum_eq_single i] at this
    · simpa using this.symm
    · intro l _ hl; simp [hl]
    · exact fun h => absurd (Finset.mem_range.2 hi) h
    · intro k _ hk; simp [hk]
    · exact fun h => absurd (Finset.mem_range.2 hj) h
  · intro h J
    refine Finset.sum_congr rfl fun i hi => ?_
    rw [Finset.sum_eq_single i]
    · intro j hj hne
      rw [h j (Finset.mem_range.1 hj) i (Finset.mem_range.1 hi) hne, mul_zero]
    · exact fun h => absurd hi h

/-- **C119, false in general**: a shear, `G = (1 1; 0 1)`, with a shape function of which only one derivative is not zero. -/
theorem C119_divergence_false : ∃ J G : Nat → Nat → ℚ, pyDivergence 2 J G ≠ divergence 2 J G := by
  refine ⟨fun i j => if i = 1 ∧ j = 0 then 1 else 0, fun i j => if i ≤ j then 1 else 0, ?_⟩
  simp only [pyDivergence, divergence, Finset.sum_range_succ, Finset.sum_range_zero]
  norm_num

/-! ## Example -/

/-- Two elements with linear functions and a constant for each element, `Composite(Lagrange(order=1), Lagrange(order=0))`. -/
def exFlat : PB (Fin 2) := .composite false [.leaf ⟨3, 2, fun e => [e.1, e.1 + 1]⟩, .leaf ⟨2, 1, fun e => [e.1]⟩]

theorem exFlat_WF : exFlat.WF := by
  unfold exFlat
  simp only [PB.WF, PB.WFs, and_true]
  decide

theorem exFlat_flat : FlatBasis exFlat.model 5 := by
  intro m hm
  rw [indexSet_eq exFlat_WF] at hm
  obtain ⟨e, d, hd, rfl⟩ := hm
  have h : ∀ e : Fin 2, ∀ d ∈ exFlat.spec.loc e, ∃ i < 5, exFlat.spec.mi d = [i] := by decide +kernel
  exact h e d hd

def exA (e : Fin 2) (i j : Nat) : ℚ := e.1 + 1 + 3 * i + j

example : ((pyMatrix 5 exFlat.model exA [0, 1]).bind fun A => (pyRhs 5 exFlat.model (fun _ i => (i : ℚ) + 1) [0, 1]).map fun b =>
    ([A 1 1, A 1 3, A 4 2, A 0 2, b 1, b 4], (pyConstraints 5 (fun i => if i = 1 then 1 else 0) (fun i => 10 * (i : ℚ) + 1) A b).2 2)) = some ([7, 6, 9, 0, 3, 3], -53) := by decide +kernel

example (x : Nat → ℚ) : ∃ A rhs, pyMatrix 5 exFlat.model exA [0, 1] = some A ∧ pyRhs 5 exFlat.model (fun _ i => (i : ℚ) + 1) [0, 1] = some rhs ∧
    (PySolves 5 (pyConstraints 5 (fun i => if i = 1 then 1 else 0) (fun i => 10 * (i : ℚ) + 1) A rhs).1 (pyConstraints 5 (fun i => if i = 1 then 1 else 0) (fun i => 10 * (i : ℚ) + 1) A rhs).2 x ↔
      (∀ i < 5, (if i = 1 then (1 : ℚ) else 0) ≠ 0 → x i = 10 * i + 1) ∧ ∀ v : Nat → ℚ, (∀ i < 5, (if i = 1 then (1 : ℚ) else 0) ≠ 0 → v i = 0) →
        bilinear exFlat.model exA [0, 1] (flat x) (flat v) = linear exFlat.model (fun _ i => (i : ℚ) + 1) [0, 1] (flat v)) := by
  obtain ⟨A, rhs, h1, h2, h3⟩ := C118_mfem exFlat_WF exFlat_flat exA (fun _ i => (i : ℚ) + 1) [0, 1] (mark := fun i => if i = 1 then 1 else 0) (fun i _ => by split_ifs <;> simp) fun i => 10 * (i : ℚ) + 1
  exact ⟨A, rhs, h1, h2, h3 x⟩

/-- Changing rows, with a diagonal that is not zero. -/
example : ((pyLaplace 5 exFlat.model exA (fun _ i => (i : ℚ) + 1) [0, 1]).map fun s =>
    let t := pyRows 5 (fun i => if i = 1 then 1 else 0) (fun _ => 8) s.1 s.2; ([t.1 1 0, t.1 1 1, t.1 1 4, t.1 0 1, t.2 1, t.2 0])) = some [0, 1, 0, 2, 8, 1] := by decide +kernel

example : pyDivergence 2 (fun i j => (i + 2 * j : ℚ)) (fun i j => if i = j then 3 else 0) = 9 ∧ divergence 2 (fun i j => (i + 2 * j : ℚ)) (fun i j => if i = j then 3 else 0) = 9 := by
  constructor <;> norm_num [pyDivergence, divergence, Finset.sum_range_succ]

/-- Linear elements on two intervals, with the stiffness matrix of the Laplace operator. -/
def exLine : PB (Fin 2) := .leaf ⟨3, 2, fun e => [e.1, e.1 + 1]⟩

theorem exLine_WF : exLine.WF := by
  unfold exLine
  simp only [PB.WF]
  decide

theorem exLine_idx (e : Fin 2) : idx exLine.model e = [[e.1], [e.1 + 1]] := by rw [idx_eq _ exLine_WF]; revert e; decide +kernel

theorem exLine_energy (e : Fin 2) (y : Nat → ℚ) : energy exLine.model (fun _ i j => if i = j then 1 else -1) e y = (y 0 - y 1) ^ 2 := by
  simp only [energy, exLine_idx, List.length_cons, List.length_nil, List.range_succ, List.range_zero, List.nil_append, List.map_append, List.map_cons, List.map_nil, List.sum_append, List.sum_cons, List.sum_nil]
  norm_num
  ring

example (x : Nat → ℚ) : ∃ A rhs, pyLaplace 3 exLine.model (fun _ i j => if i = j then (1 : ℚ) else -1) (fun _ _ => 1) [0, 1] = some (A, rhs) ∧
    (PySolves 3 (pyRows 3 (fun i => if i = 1 then 0 else 1) (fun _ => 7) A rhs).1 (pyRows 3 (fun i => if i = 1 then 0 else 1) (fun _ => 7) A rhs).2 x ↔
      (∀ i < 3, (if i = 1 then (0 : ℚ) else 1) ≠ 0 → x i = 7) ∧ ∀ v : Nat → ℚ, (∀ i < 3, (if i = 1 then (0 : ℚ) else 1) ≠ 0 → v i = 0) →
        bilinear exLine.model (fun _ i j => if i = j then 1 else -1) [0, 1] (flat x) (flat v) = linear exLine.model (fun _ _ => 1) [0, 1] (flat v)) := by
  obtain ⟨A, rhs, h1, h2⟩ := C118_laplace exLine_WF (n := 3) (by
      intro m hm
      rw [indexSet_eq exLine_WF] at hm
      obtain ⟨e, d, hd, hm⟩ := hm
      have h : ∀ e : Fin 2, ∀ d ∈ exLine.spec.loc e, ∃ i < 3, exLine.spec.mi d = [i] := by decide +kernel
      exact hm ▸ h e d hd) (fun _ i j => if i = j then (1 : ℚ) else -1) (fun _ _ => 1) [0, 1] (fun i => if i = 1 then 0 else 1) (fun _ => 7)
    (fun e _ y => by rw [exLine_energy]; positivity)
    (fun e _ y h => by
      rw [exLine_energy] at h
      have h : y 0 = y 1 := sub_eq_zero.1 (pow_eq_zero_iff (two_ne_zero) |>.1 h)
      rw [exLine_idx]
      intro k hk l hl
      simp only [List.length_cons, List.length_nil] at hk hl
      have hk : k = 0 ∨ k = 1 := by omega
      have hl : l = 0 ∨ l = 1 := by omega
      rcases hk with rfl | rfl <;> rcases hl with rfl | rfl <;> simp [h])
    (by
      intro i hi hm
      have hi : i = 0 ∨ i = 2 := by
        rcases Nat.lt_trichotomy i 1 with h | h | h
        · omega
        · simp [h] at hm
        · omega
      simp only [exLine_idx]
      rcases hi with rfl | rfl
      · exact ⟨0, by simp, by simp, [1], by simp, by simp⟩
      · exact ⟨1, by simp, by simp, [1], by simp, by simp⟩)
  exact ⟨A, rhs, h1, h2 x⟩

end Verif.PySystems

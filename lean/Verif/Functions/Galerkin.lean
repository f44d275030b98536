import Verif.IndexTree.Props
import Mathlib.Algebra.BigOperators.Group.List.Basic
import Mathlib.Algebra.BigOperators.Ring.List
import Mathlib.Algebra.Field.Basic
import Mathlib.Data.List.Dedup
import Mathlib.Algebra.Field.Rat
import Mathlib.Algebra.Order.Field.Rat
import Mathlib.Tactic.FinCases
import Mathlib.Tactic.Linarith
import Mathlib.Tactic.Ring
import Mathlib.Tactic.LinearCombination

/-!
# Assembling linear systems with local views

The programs of the examples that assemble a sparse matrix and a right hand side with the multi-indices of a local view, and modify the system such that marked coefficients get given values:
which equations the solutions satisfy.
-/

namespace Verif.Galerkin

open Verif.IndexTree

variable {E K : Type}

/-! ## Model -/

/-- `MatrixIndexSet::add` of dune-istl: a set of pairs. -/
def addEntry (l : List (MI × MI)) (rc : MI × MI) : List (MI × MI) := if rc ∈ l then l else l ++ [rc]

/-- Loops over the local indices of one element, poisson-pq2.cc:157-169. -/
def patternLoop (v : LocalView E) (l : List (MI × MI)) : Option (List (MI × MI)) :=
  (List.range v.size).foldlM (fun l i => (List.range v.size).foldlM (fun l j => (v.index i).bind fun r => (v.index j).map fun c => addEntry l (r, c)) l) l

/-- One element, poisson-pq2.cc:151-171. -/
def patternStep (pb : PreBasis E) (s : LocalView E × List (MI × MI)) (e : E) : Option (LocalView E × List (MI × MI)) :=
  (s.1.bind pb e).bind fun v => (patternLoop v s.2).map fun l => (v, l)

/-- `getOccupationPattern(feBasis, nb)`, poisson-pq2.cc:139-173. -/
def occupationPattern (pb : PreBasis E) (els : List E) : Option (List (MI × MI)) := (els.foldlM (patternStep pb) (LocalView.fresh pb, [])).map Prod.snd

/-- A sparse matrix: entries exist for the pairs of its pattern. The matrices of the examples have rows and columns with multi-indices; how the digits are distributed over nested matrices is
not modelled. -/
structure Sparse (K : Type) where
  pattern : List (MI × MI)
  val : MI → MI → K

/-- `matrix[row][col] += x`, poisson-pq2.cc:233; entries outside the pattern do not exist. -/
def Sparse.addTo [Add K] (A : Sparse K) (r c : MI) (x : K) : Option (Sparse K) :=
  if (r, c) ∈ A.pattern then some { A with val := fun r' c' => if r' = r ∧ c' = c then A.val r' c' + x else A.val r' c' } else none

/-- The loops over an element matrix, poisson-pq2.cc:224-237. It has a row and a column for each local index (poisson-pq2.cc:51). -/
def matrixLoop [Add K] (v : LocalView E) (a : Nat → Nat → K) (A : Sparse K) : Option (Sparse K) :=
  (List.range v.size).foldlM (fun A i => (v.index i).bind fun r => (List.range v.size).foldlM (fun A j => (v.index j).bind fun c => A.addTo r c (a i j)) A) A

/-- One element, poisson-pq2.cc:212-237. -/
def matrixStep [Add K] (pb : PreBasis E) (a : E → Nat → Nat → K) (s : LocalView E × Sparse K) (e : E) : Option (LocalView E × Sparse K) :=
  (s.1.bind pb e).bind fun v => (matrixLoop v (a e) s.2).map fun A => (v, A)

/-- The matrix of `assembleLaplaceMatrix`, poisson-pq2.cc:178-254: pattern, zero, loop over the elements. The element matrices `a` are arbitrary. -/
def assembleMatrix [Add K] [Zero K] (pb : PreBasis E) (a : E → Nat → Nat → K) (els : List E) : Option (Sparse K) :=
  (occupationPattern pb els).bind fun pat => (els.foldlM (matrixStep pb a) (LocalView.fresh pb, ⟨pat, fun _ _ => 0⟩)).map Prod.snd

/-- The loop over a local right hand side, poisson-pq2.cc:244-250. -/
def rhsLoop [Add K] (v : LocalView E) (f : Nat → K) (b : MI → K) : Option (MI → K) :=
  (List.range v.size).foldlM (fun b i => (v.index i).map fun r => fun m => if m = r then b m + f i else b m) b

/-- One element, poisson-pq2.cc:212-250. -/
def rhsStep [Add K] (pb : PreBasis E) (f : E → Nat → K) (s : LocalView E × (MI → K)) (e : E) : Option (LocalView E × (MI → K)) :=
  (s.1.bind pb e).bind fun v => (rhsLoop v (f e) s.2).map fun b => (v, b)

/-- The right hand side of `assembleLaplaceMatrix`, poisson-pq2.cc:178-254. The vector has an entry for each multi-index of the basis (C33, C35). -/
def assembleRhs [Add K] [Zero K] (pb : PreBasis E) (f : E → Nat → K) (els : List E) : Option (MI → K) :=
  (els.foldlM (rhsStep pb f) (LocalView.fresh pb, fun _ => 0)).map Prod.snd

/-- Row `r` of the matrix times a vector, `BCRSMatrix::mv` of dune-istl. -/
def Sparse.row [Add K] [Mul K] [Zero K] (A : Sparse K) (x : MI → K) (r : MI) : K := ((A.pattern.filter fun rc => rc.1 = r).map fun rc => A.val rc.1 rc.2 * x rc.2).sum

/-- `matrix.mmv(x, rhs)`, poisson-pq2.cc:373. -/
def mmv [Add K] [Mul K] [Zero K] [Sub K] (A : Sparse K) (x b : MI → K) : MI → K := fun r => b r - A.row x r

/-- `for (auto&& [entry, idx] : sparseRange(matrix[r])) ...` -/
def Sparse.mapRow (A : Sparse K) (r : MI) (g : K → MI → K) : Sparse K := { A with val := fun r' c => if r' = r ∧ (r, c) ∈ A.pattern then g (A.val r' c) c else A.val r' c }

/-- One row, poisson-pq2.cc:377-388. -/
def symmetricStep [Zero K] [One K] (marked : MI → Bool) (x : MI → K) (s : Sparse K × (MI → K)) (r : MI) : Sparse K × (MI → K) :=
  if marked r then (s.1.mapRow r fun _ c => if r = c then 1 else 0, fun m => if m = r then x r else s.2 m)
  else (s.1.mapRow r fun y c => if marked c then 0 else y, s.2)

/-- Symmetric elimination of marked coefficients, poisson-pq2.cc:373-389. -/
def eliminate [Add K] [Mul K] [Sub K] [Zero K] [One K] (marked : MI → Bool) (x : MI → K) (rows : List MI) (A : Sparse K) (b : MI → K) : Sparse K × (MI → K) :=
  rows.foldl (symmetricStep marked x) (A, mmv A x b)

/-- Changing marked rows to rows of the identity, poisson-mfem.cc:447-460. -/
def identityRows [Zero K] [One K] (marked : MI → Bool) (rows : List MI) (A : Sparse K) : Sparse K :=
  rows.foldl (fun A r => if marked r then A.mapRow r fun _ c => if r = c then 1 else 0 else A) A

/-! ## Specification -/

/-- The multi-indices of an element, as read from a new local view. -/
def idx (pb : PreBasis E) (e : E) : List MI := (localIndices pb e).getD []

/-- The bilinear form with the given element matrices: the sum over all elements of `vᵀ a u` with the coefficients of the element. -/
def bilinear [Field K] (pb : PreBasis E) (a : E → Nat → Nat → K) (els : List E) (u v : MI → K) : K :=
  (els.map fun e => ((List.range (idx pb e).length).map fun i => ((List.range (idx pb e).length).map fun j =>
    v ((idx pb e)[i]?.getD []) * a e i j * u ((idx pb e)[j]?.getD [])).sum).sum).sum

/-- The linear form with the given local vectors. -/
def linear [Field K] (pb : PreBasis E) (f : E → Nat → K) (els : List E) (v : MI → K) : K :=
  (els.map fun e => ((List.range (idx pb e).length).map fun i => v ((idx pb e)[i]?.getD []) * f e i).sum).sum

/-- `x` solves the linear system. -/
def Solves [Field K] (rows : List MI) (A : Sparse K) (b x : MI → K) : Prop := ∀ r ∈ rows, A.row x r = b r

/-! ## Proofs -/

theorem fold_sum [Field K] {S W A : Type} (step : S → A → Option S) (P : S → Prop) (Φ : W → S → K) (g : W → A → K) (l : List A)
    (h : ∀ s, ∀ a ∈ l, P s → ∃ s', step s a = some s' ∧ P s' ∧ ∀ w, Φ w s' = Φ w s + g w a) :
    ∀ s, P s → ∃ s', l.foldlM step s = some s' ∧ P s' ∧ ∀ w, Φ w s' = Φ w s + (l.map (g w)).sum := by
  induction l with
  | nil => intro s hs; exact ⟨s, rfl, hs, by simp⟩
  | cons a l ih =>
    intro s hs
    obtain ⟨s1, h1, h2, h3⟩ := h s a List.mem_cons_self hs
    obtain ⟨s2, k1, k2, k3⟩ := ih (fun s x hx => h s x (List.mem_cons_of_mem _ hx)) s1 h2
    refine ⟨s2, by rw [List.foldlM_cons, h1]; exact k1, k2, fun w => ?_⟩
    rw [k3, h3, List.map_cons, List.sum_cons, add_assoc]

theorem fold_mem {S W A : Type} (step : S → A → Option S) (P : S → Prop) (Φ : W → S → Prop) (g : W → A → Prop) (l : List A)
    (h : ∀ s, ∀ a ∈ l, P s → ∃ s', step s a = some s' ∧ P s' ∧ ∀ w, Φ w s' ↔ Φ w s ∨ g w a) :
    ∀ s, P s → ∃ s', l.foldlM step s = some s' ∧ P s' ∧ ∀ w, Φ w s' ↔ Φ w s ∨ ∃ a ∈ l, g w a := by
  induction l with
  | nil => intro s hs; exact ⟨s, rfl, hs, by simp⟩
  | cons a l ih =>
    intro s hs
    obtain ⟨s1, h1, h2, h3⟩ := h s a List.mem_cons_self hs
    obtain ⟨s2, k1, k2, k3⟩ := ih (fun s x hx => h s x (List.mem_cons_of_mem _ hx)) s1 h2
    refine ⟨s2, by rw [List.foldlM_cons, h1]; exact k1, k2, fun w => ?_⟩
    rw [k3, h3]
    simp [or_assoc]

theorem idx_eq (b : PB E) (hb : b.WF) (e : E) : idx b.model e = (b.spec.loc e).map b.spec.mi := by rw [idx, localIndices_eq (b.refines hb), Option.getD_some]

/-- What a loop sees after binding the local view, whatever was bound before. -/
theorem bind_view (b : PB E) (hb : b.WF) {lv : LocalView E} (h : lv.tree.blank = b.model.makeNode.blank) (e : E) :
    ∃ v, lv.bind b.model e = some v ∧ v.tree.blank = b.model.makeNode.blank ∧ v.size = (idx b.model e).length ∧
      ∀ i < (idx b.model e).length, v.index i = some ((idx b.model e)[i]?.getD []) := by
  have R := b.refines hb
  refine ⟨_, LocalView.bind_eq R lv h e, by rw [Node.blank_bindTree]; exact h, ?_, fun i hi => ?_⟩
  · rw [idx_eq b hb, List.length_map]
    exact R.nodeSize e 0 _ h
  · rw [LocalView.index, ← idx_eq b hb, List.getElem?_eq_getElem hi, Option.getD_some]

theorem pattern_spec (b : PB E) (hb : b.WF) (els : List E) :
    ∃ pat, occupationPattern b.model els = some pat ∧ pat.Nodup ∧ ∀ r c, (r, c) ∈ pat ↔ ∃ e ∈ els, r ∈ idx b.model e ∧ c ∈ idx b.model e := by
  have hadd : ∀ (l : List (MI × MI)) rc, l.Nodup → (addEntry l rc).Nodup ∧ ∀ w, w ∈ addEntry l rc ↔ w ∈ l ∨ w = rc := by
    intro l rc hl
    unfold addEntry
    split
    · rename_i h
      refine ⟨hl, fun w => ⟨.inl, ?_⟩⟩
      rintro (h' | rfl)
      · exact h'
      · exact h
    · rename_i h
      refine ⟨List.Nodup.append hl (List.nodup_singleton _) (by simpa using h), fun w => by simp⟩
  obtain ⟨s, h1, h2, h3⟩ := fold_mem (W := MI × MI) (patternStep b.model) (fun s => s.1.tree.blank = b.model.makeNode.blank ∧ s.2.Nodup) (fun w s => w ∈ s.2)
    (fun w e => ∃ i ∈ List.range (idx b.model e).length, ∃ j ∈ List.range (idx b.model e).length, w = ((idx b.model e)[i]?.getD [], (idx b.model e)[j]?.getD [])) els (by
      rintro s e - ⟨hs1, hs2⟩
      obtain ⟨v, v1, v2, v3, v4⟩ := bind_view b hb hs1 e
      obtain ⟨l, l1, l2, l3⟩ := fold_mem (W := MI × MI) (fun l i => (List.range v.size).foldlM (fun l j => (v.index i).bind fun r => (v.index j).map fun c => addEntry l (r, c)) l)
        (fun l => l.Nodup) (fun w l => w ∈ l) (fun w i => ∃ j ∈ List.range (idx b.model e).length, w = ((idx b.model e)[i]?.getD [], (idx b.model e)[j]?.getD []))
        (List.range (idx b.model e).length) (by
          intro l i hi hl
          obtain ⟨l', m1, m2, m3⟩ := fold_mem (W := MI × MI) (fun l j => (v.index i).bind fun r => (v.index j).map fun c => addEntry l (r, c)) (fun l => l.Nodup) (fun w l => w ∈ l)
            (fun w j => w = ((idx b.model e)[i]?.getD [], (idx b.model e)[j]?.getD [])) (List.range (idx b.model e).length) (by
              intro l j hj hl
              refine ⟨_, ?_, hadd l ((idx b.model e)[i]?.getD [], (idx b.model e)[j]?.getD []) hl⟩
              rw [v4 i (List.mem_range.1 hi), v4 j (List.mem_range.1 hj)]
              rfl) l hl
          exact ⟨l', by rw [v3]; exact m1, m2, m3⟩) s.2 hs2
      refine ⟨(v, l), ?_, ⟨v2, l2⟩, l3⟩
      rw [← v3] at l1
      rw [patternStep, v1, Option.bind_some, patternLoop, l1]
      rfl) (LocalView.fresh b.model, []) ⟨LocalView.fresh_blank _, List.nodup_nil⟩
  refine ⟨s.2, by rw [occupationPattern, h1]; rfl, h2.2, fun r c => ?_⟩
  rw [h3]
  simp only [List.not_mem_nil, false_or]
  refine exists_congr fun e => and_congr_right fun _ => ⟨?_, ?_⟩
  · rintro ⟨i, hi, j, hj, h⟩
    rw [List.mem_range] at hi hj
    rw [List.getElem?_eq_getElem hi, List.getElem?_eq_getElem hj] at h
    obtain ⟨rfl, rfl⟩ := Prod.mk.inj h
    exact ⟨List.getElem_mem hi, List.getElem_mem hj⟩
  · rintro ⟨hr, hc⟩
    obtain ⟨i, hi, rfl⟩ := List.getElem_of_mem hr
    obtain ⟨j, hj, rfl⟩ := List.getElem_of_mem hc
    exact ⟨i, List.mem_range.2 hi, j, List.mem_range.2 hj, by rw [List.getElem?_eq_getElem hi, List.getElem?_eq_getElem hj]; rfl⟩

/-- The matrix as bilinear form. -/
def Sparse.form [Field K] (A : Sparse K) (u v : MI → K) : K := (A.pattern.map fun rc => v rc.1 * A.val rc.1 rc.2 * u rc.2).sum

theorem sum_update [Field K] {α : Type} [DecidableEq α] (l : List α) (hl : l.Nodup) {a : α} (ha : a ∈ l) (f : α → K) (x : K) :
    (l.map fun y => if y = a then f y + x else f y).sum = (l.map f).sum + x := by
  induction l with
  | nil => simp at ha
  | cons y l ih =>
    rw [List.nodup_cons] at hl
    rw [List.map_cons, List.sum_cons, List.map_cons, List.sum_cons]
    rcases List.mem_cons.1 ha with rfl | ha
    · have : (l.map fun y => if y = a then f y + x else f y) = l.map f := List.map_congr_left fun y hy => if_neg fun h : y = a => hl.1 (h ▸ hy)
      rw [this, if_pos rfl]
      ring
    · rw [ih hl.2 ha, if_neg (fun h : y = a => hl.1 (h ▸ ha)), add_assoc]

theorem addTo_form [Field K] {A : Sparse K} (hA : A.pattern.Nodup) {r c : MI} (h : (r, c) ∈ A.pattern) (x : K) :
    ∃ A', A.addTo r c x = some A' ∧ A'.pattern = A.pattern ∧ ∀ w : (MI → K) × (MI → K), A'.form w.1 w.2 = A.form w.1 w.2 + w.2 r * x * w.1 c := by
  refine ⟨_, if_pos h, rfl, fun w => ?_⟩
  rw [Sparse.form, Sparse.form, ← sum_update A.pattern hA h]
  congr 1
  refine List.map_congr_left fun y _ => ?_
  by_cases hy : y = (r, c)
  · subst hy
    simp only [and_self, if_true]
    ring
  · rw [if_neg hy]
    simp only [if_neg fun hc : y.1 = r ∧ y.2 = c => hy (Prod.ext hc.1 hc.2)]

theorem row_form [Field K] {A : Sparse K} {rows : List MI} (hn : rows.Nodup) (hr : ∀ rc ∈ A.pattern, rc.1 ∈ rows) (u v : MI → K) : A.form u v = (rows.map fun r => v r * A.row u r).sum := by
  unfold Sparse.form Sparse.row
  generalize A.pattern = pat at hr
  induction pat with
  | nil => simp
  | cons rc pat ih =>
    rw [List.map_cons, List.sum_cons, ih fun x hx => hr x (List.mem_cons_of_mem _ hx)]
    rw [add_comm, ← sum_update rows hn (hr rc List.mem_cons_self)]
    congr 1
    refine List.map_congr_left fun r _ => ?_
    by_cases h : r = rc.1
    · subst h
      rw [if_pos rfl, List.filter_cons_of_pos (by simp), List.map_cons, List.sum_cons]
      ring
    · rw [if_neg h, List.filter_cons_of_neg (by simpa using fun hc => h hc.symm)]

theorem matrix_spec [Field K] (b : PB E) (hb : b.WF) (a : E → Nat → Nat → K) (els : List E) {pat : List (MI × MI)} (hp : occupationPattern b.model els = some pat) :
    ∃ A, assembleMatrix b.model a els = some A ∧ A.pattern = pat ∧ ∀ u v, A.form u v = bilinear b.model a els u v := by
  obtain ⟨_, q1, q2, q3⟩ := pattern_spec b hb els
  rw [hp, Option.some.injEq] at q1
  subst q1
  obtain ⟨s, h1, h2, h3⟩ := fold_sum (W := (MI → K) × (MI → K)) (matrixStep b.model a) (fun s => s.1.tree.blank = b.model.makeNode.blank ∧ s.2.pattern = pat) (fun w s => s.2.form w.1 w.2)
    (fun w e => ((List.range (idx b.model e).length).map fun i => ((List.range (idx b.model e).length).map fun j =>
      w.2 ((idx b.model e)[i]?.getD []) * a e i j * w.1 ((idx b.model e)[j]?.getD [])).sum).sum) els (by
      rintro s e he ⟨hs1, hs2⟩
      obtain ⟨v, v1, v2, v3, v4⟩ := bind_view b hb hs1 e
      obtain ⟨A, l1, l2, l3⟩ := fold_sum (W := (MI → K) × (MI → K)) (fun A i => (v.index i).bind fun r => (List.range v.size).foldlM (fun A j => (v.index j).bind fun c => A.addTo r c (a e i j)) A)
        (fun A => A.pattern = pat) (fun w A => A.form w.1 w.2)
        (fun w i => ((List.range (idx b.model e).length).map fun j => w.2 ((idx b.model e)[i]?.getD []) * a e i j * w.1 ((idx b.model e)[j]?.getD [])).sum)
        (List.range (idx b.model e).length) (by
          intro A i hi hA
          rw [List.mem_range] at hi
          obtain ⟨A', m1, m2, m3⟩ := fold_sum (W := (MI → K) × (MI → K)) (fun A j => (v.index j).bind fun c => A.addTo ((idx b.model e)[i]?.getD []) c (a e i j))
            (fun A => A.pattern = pat) (fun w A => A.form w.1 w.2)
            (fun w j => w.2 ((idx b.model e)[i]?.getD []) * a e i j * w.1 ((idx b.model e)[j]?.getD [])) (List.range (idx b.model e).length) (by
              intro A j hj hA
              rw [List.mem_range] at hj
              have hm : ((idx b.model e)[i]?.getD [], (idx b.model e)[j]?.getD []) ∈ A.pattern := by
                rw [hA, q3, List.getElem?_eq_getElem hi, List.getElem?_eq_getElem hj]
                exact ⟨e, he, List.getElem_mem hi, List.getElem_mem hj⟩
              obtain ⟨A', k1, k2, k3⟩ := addTo_form (hA ▸ q2) hm (a e i j)
              exact ⟨A', by rw [v4 j hj]; exact k1, k2.trans hA, k3⟩) A hA
          exact ⟨A', by rw [v4 i hi, v3]; exact m1, m2, m3⟩) s.2 hs2
      refine ⟨(v, A), ?_, ⟨v2, l2⟩, l3⟩
      rw [← v3] at l1
      rw [matrixStep, v1, Option.bind_some, matrixLoop, l1]
      rfl) (LocalView.fresh b.model, ⟨pat, fun _ _ => 0⟩) ⟨LocalView.fresh_blank _, rfl⟩
  refine ⟨s.2, by rw [assembleMatrix, hp, Option.bind_some, h1]; rfl, h2.2, fun u v => ?_⟩
  rw [h3 (u, v), bilinear]
  simp [Sparse.form]

theorem rhs_spec [Field K] (b : PB E) (hb : b.WF) (f : E → Nat → K) (els : List E) :
    ∃ rhs, assembleRhs b.model f els = some rhs ∧ ∀ rows : List MI, rows.Nodup → (∀ m ∈ IndexSet b.model, m ∈ rows) → ∀ v, (rows.map fun r => v r * rhs r).sum = linear b.model f els v := by
  obtain ⟨s, h1, -, h3⟩ := fold_sum (W := {rows : List MI // rows.Nodup ∧ ∀ m ∈ IndexSet b.model, m ∈ rows} × (MI → K)) (rhsStep b.model f) (fun s => s.1.tree.blank = b.model.makeNode.blank)
    (fun w s => (w.1.1.map fun r => w.2 r * s.2 r).sum) (fun w e => ((List.range (idx b.model e).length).map fun i => w.2 ((idx b.model e)[i]?.getD []) * f e i).sum) els (by
      rintro s e - hs1
      obtain ⟨v, v1, v2, v3, v4⟩ := bind_view b hb hs1 e
      obtain ⟨r, l1, -, l3⟩ := fold_sum (W := {rows : List MI // rows.Nodup ∧ ∀ m ∈ IndexSet b.model, m ∈ rows} × (MI → K))
        (fun (b : MI → K) i => (v.index i).map fun r => fun m => if m = r then b m + f e i else b m) (fun _ => True) (fun w b => (w.1.1.map fun r => w.2 r * b r).sum)
        (fun w i => w.2 ((idx b.model e)[i]?.getD []) * f e i) (List.range (idx b.model e).length) (by
          intro b' i hi _
          rw [List.mem_range] at hi
          refine ⟨_, by rw [v4 i hi]; rfl, trivial, fun w => ?_⟩
          have hm : (idx b.model e)[i]?.getD [] ∈ w.1.1 := by
            refine w.1.2.2 _ ⟨e, idx b.model e, ?_, ?_⟩
            · rw [idx_eq b hb]; exact localIndices_eq (b.refines hb) e
            · rw [List.getElem?_eq_getElem hi]; exact List.getElem_mem hi
          rw [← sum_update w.1.1 w.1.2.1 hm]
          congr 1
          refine List.map_congr_left fun m _ => ?_
          by_cases h : m = (idx b.model e)[i]?.getD []
          · simp only [if_pos h]
            rw [← h]
            ring
          · simp only [if_neg h]) s.2 trivial
      refine ⟨(v, r), ?_, v2, l3⟩
      rw [← v3] at l1
      rw [rhsStep, v1, Option.bind_some, rhsLoop, l1]
      rfl) (LocalView.fresh b.model, fun _ => 0) (LocalView.fresh_blank _)
  refine ⟨s.2, by rw [assembleRhs, h1]; rfl, fun rows hn hr v => ?_⟩
  rw [h3 (⟨rows, hn, hr⟩, v), linear]
  simp

/-- Only the entries of a row matter. -/
theorem row_congr [Field K] {A A' : Sparse K} {u u' : MI → K} {r : MI} (hp : A'.pattern = A.pattern) (h : ∀ c, (r, c) ∈ A.pattern → A'.val r c * u' c = A.val r c * u c) : A'.row u' r = A.row u r := by
  unfold Sparse.row
  rw [hp]
  congr 1
  refine List.map_congr_left fun rc hrc => ?_
  obtain ⟨h1, h2⟩ := List.mem_filter.1 hrc
  have h2 : rc.1 = r := by simpa using h2
  subst h2
  exact h rc.2 h1

/-- A row of the identity. -/
theorem row_identity [Field K] {A : Sparse K} (hA : A.pattern.Nodup) {r : MI} (hr : (r, r) ∈ A.pattern) (hv : ∀ c, (r, c) ∈ A.pattern → A.val r c = if r = c then 1 else 0) (u : MI → K) : A.row u r = u r := by
  have h : A.row u r = ((A.pattern.filter fun rc => rc.1 = r).map fun y => if y = (r, r) then (fun _ => (0 : K)) y + u r else (fun _ => (0 : K)) y).sum := by
    unfold Sparse.row
    congr 1
    refine List.map_congr_left fun rc hrc => ?_
    obtain ⟨h1, h2⟩ := List.mem_filter.1 hrc
    obtain ⟨r', c⟩ := rc
    have h2 : r' = r := by simpa using h2
    subst h2
    rw [hv c h1]
    by_cases h : r' = c
    · subst h; simp
    · have h' : ¬ c = r' := fun hc => h hc.symm
      simp [h, h']
  rw [h, sum_update _ (hA.filter _) (List.mem_filter.2 ⟨hr, by simp⟩)]
  simp

theorem identityRows_spec [Field K] (marked : MI → Bool) (rows : List MI) (hn : rows.Nodup) (A : Sparse K) :
    (identityRows marked rows A).pattern = A.pattern ∧ ∀ r c, (r, c) ∈ A.pattern →
      (identityRows marked rows A).val r c = if r ∈ rows ∧ marked r = true then (if r = c then 1 else 0) else A.val r c := by
  unfold identityRows
  induction rows generalizing A with
  | nil => exact ⟨rfl, fun r c _ => by simp⟩
  | cons a rows ih =>
    rw [List.nodup_cons] at hn
    rw [List.foldl_cons]
    by_cases ha : marked a = true
    · rw [if_pos ha]
      obtain ⟨h1, h2⟩ := ih hn.2 (A.mapRow a fun _ c => if a = c then 1 else 0)
      refine ⟨h1, fun r c hrc => ?_⟩
      rw [h2 r c hrc]
      by_cases hra : r = a
      · subst hra
        simp [hn.1, ha, Sparse.mapRow, hrc]
      · simp [Sparse.mapRow, hra]
    · rw [if_neg ha]
      obtain ⟨h1, h2⟩ := ih hn.2 A
      refine ⟨h1, fun r c hrc => ?_⟩
      rw [h2 r c hrc]
      by_cases hra : r = a
      · subst hra
        simp [ha]
      · simp [hra]

theorem eliminate_spec [Field K] (marked : MI → Bool) (x : MI → K) (rows : List MI) (hn : rows.Nodup) (s : Sparse K × (MI → K)) :
    (rows.foldl (symmetricStep marked x) s).1.pattern = s.1.pattern ∧
      (∀ r c, (r, c) ∈ s.1.pattern → (rows.foldl (symmetricStep marked x) s).1.val r c
        = if r ∈ rows then (if marked r = true then (if r = c then 1 else 0) else if marked c = true then 0 else s.1.val r c) else s.1.val r c) ∧
      ∀ r, (rows.foldl (symmetricStep marked x) s).2 r = if r ∈ rows ∧ marked r = true then x r else s.2 r := by
  induction rows generalizing s with
  | nil => exact ⟨rfl, fun r c _ => by simp, fun r => by simp⟩
  | cons a rows ih =>
    rw [List.nodup_cons] at hn
    rw [List.foldl_cons]
    obtain ⟨h1, h2, h3⟩ := ih hn.2 (symmetricStep marked x s a)
    have hp : (symmetricStep marked x s a).1.pattern = s.1.pattern := by unfold symmetricStep; split <;> rfl
    refine ⟨h1.trans hp, fun r c hrc => ?_, fun r => ?_⟩
    · rw [h2 r c (by rw [hp]; exact hrc)]
      by_cases hra : r = a
      · subst hra
        by_cases ha : marked r = true <;> simp [hn.1, ha, symmetricStep, Sparse.mapRow, hrc]
      · by_cases ha : marked a = true <;> simp [symmetricStep, ha, Sparse.mapRow, hra]
    · rw [h3]
      by_cases hra : r = a
      · subst hra
        by_cases ha : marked r = true <;> simp [hn.1, ha, symmetricStep]
      · by_cases ha : marked a = true <;> simp [symmetricStep, ha, hra]

/-- Equations for the rows that are not marked, as equations for test vectors. -/
theorem rows_test [Field K] {rows : List MI} (hn : rows.Nodup) (marked : MI → Bool) (p q : MI → K) :
    (∀ r ∈ rows, marked r = false → p r = q r) ↔ ∀ v : MI → K, (∀ r ∈ rows, marked r = true → v r = 0) → (rows.map fun r => v r * p r).sum = (rows.map fun r => v r * q r).sum := by
  constructor
  · intro h v hv
    congr 1
    refine List.map_congr_left fun r hr => ?_
    by_cases hm : marked r = true
    · rw [hv r hr hm, zero_mul, zero_mul]
    · rw [h r hr (by simpa using hm)]
  · intro h r hr hm
    have := h (fun m => if m = r then 1 else 0) fun m _ hm' => if_neg fun hc => by subst hc; rw [hm] at hm'; cases hm'
    have key : ∀ p : MI → K, (rows.map fun m => (if m = r then (1 : K) else 0) * p m).sum = p r := by
      intro p
      have e : (rows.map fun m => (if m = r then (1 : K) else 0) * p m) = rows.map fun m => if m = r then (fun _ => (0 : K)) m + p r else (fun _ => (0 : K)) m := by
        refine List.map_congr_left fun m _ => ?_
        by_cases h : m = r
        · subst h; simp
        · simp [h]
      rw [e, sum_update rows hn hr]
      simp
    rwa [key, key] at this

/-! ## Theorems -/

/-- **C113.** Assembling with local views never leaves the occupation pattern, for all basis trees and element matrices; the pattern consists of the pairs of multi-indices that occur in one
element, each once; and the matrix, as a bilinear form on coefficient vectors, is the sum of the element matrices. -/
theorem C113_matrix [Field K] (b : PB E) (hb : b.WF) (a : E → Nat → Nat → K) (els : List E) :
    ∃ A, assembleMatrix b.model a els = some A ∧ A.pattern.Nodup ∧ (∀ r c, (r, c) ∈ A.pattern ↔ ∃ e ∈ els, r ∈ idx b.model e ∧ c ∈ idx b.model e) ∧
      ∀ u v : MI → K, (A.pattern.map fun rc => v rc.1 * A.val rc.1 rc.2 * u rc.2).sum = bilinear b.model a els u v := by
  obtain ⟨pat, h1, h2, h3⟩ := pattern_spec b hb els
  obtain ⟨A, k1, k2, k3⟩ := matrix_spec b hb a els h1
  exact ⟨A, k1, by rw [k2]; exact h2, by rw [k2]; exact h3, k3⟩

/-- The rows of the system are the multi-indices of the basis, each once. -/
structure Rows (pb : PreBasis E) (rows : List MI) : Prop where
  nodup : rows.Nodup
  mem : ∀ m, m ∈ rows ↔ m ∈ IndexSet pb

/-- Such a list exists for every grid: the multi-indices of all elements, without repetitions. -/
theorem rows_of {b : PB E} (hb : b.WF) {els : List E} (hels : ∀ e, e ∈ els) : Rows b.model (els.flatMap fun e => (b.spec.loc e).map b.spec.mi).dedup := by
  refine ⟨List.nodup_dedup _, fun m => ?_⟩
  rw [List.mem_dedup, indexSet_eq hb]
  simp only [List.mem_flatMap, List.mem_map, Set.mem_ofPred_eq]
  exact ⟨fun ⟨e, _, d, hd, h⟩ => ⟨e, d, hd, h.symm⟩, fun ⟨e, d, hd, h⟩ => ⟨e, hels e, d, hd, h.symm⟩⟩

/-- Facts about the assembled system. -/
theorem system_spec [Field K] (b : PB E) (hb : b.WF) (a : E → Nat → Nat → K) (f : E → Nat → K) {els : List E} (hels : ∀ e, e ∈ els) {rows : List MI} (hr : Rows b.model rows) :
    ∃ A rhs, assembleMatrix b.model a els = some A ∧ assembleRhs b.model f els = some rhs ∧ A.pattern.Nodup ∧ (∀ r ∈ rows, (r, r) ∈ A.pattern) ∧ (∀ rc ∈ A.pattern, rc.1 ∈ rows ∧ rc.2 ∈ rows) ∧
      (∀ u v, (rows.map fun r => v r * A.row u r).sum = bilinear b.model a els u v) ∧ ∀ v, (rows.map fun r => v r * rhs r).sum = linear b.model f els v := by
  obtain ⟨A, h1, h2, h3, h4⟩ := C113_matrix b hb a els
  obtain ⟨rhs, k1, k2⟩ := rhs_spec b hb f els
  have hI : ∀ e, ∀ m ∈ idx b.model e, m ∈ IndexSet b.model := fun e m hm => ⟨e, idx b.model e, by rw [idx_eq b hb]; exact localIndices_eq (b.refines hb) e, hm⟩
  have hpr : ∀ rc ∈ A.pattern, rc.1 ∈ rows ∧ rc.2 ∈ rows := by
    intro rc hrc
    obtain ⟨e, -, m1, m2⟩ := (h3 rc.1 rc.2).1 hrc
    exact ⟨(hr.mem _).2 (hI e _ m1), (hr.mem _).2 (hI e _ m2)⟩
  refine ⟨A, rhs, h1, k1, h2, fun r hrr => ?_, hpr, fun u v => ?_, k2 rows hr.nodup fun m hm => (hr.mem m).2 hm⟩
  · obtain ⟨e, I, m1, m2⟩ := (hr.mem r).1 hrr
    have : r ∈ idx b.model e := by rw [idx, m1]; exact m2
    exact (h3 r r).2 ⟨e, hels e, this, this⟩
  · rw [← h4, ← row_form hr.nodup fun rc hrc => (hpr rc hrc).1]
    rfl

/-- **C113.** The mixed Poisson example: after writing values `g` to the marked entries of the right hand side and changing the marked rows to rows of the identity, a vector solves the system if
and only if its marked coefficients are those of `g` and it satisfies the equations of the bilinear form for all test vectors that vanish in the marked coefficients. -/
theorem C113_rows [Field K] (b : PB E) (hb : b.WF) (a : E → Nat → Nat → K) (f : E → Nat → K) {els : List E} (hels : ∀ e, e ∈ els) {rows : List MI} (hr : Rows b.model rows) (marked : MI → Bool) (g : MI → K) :
    ∃ A rhs, assembleMatrix b.model a els = some A ∧ assembleRhs b.model f els = some rhs ∧
      ∀ x, Solves rows (identityRows marked rows A) (fun m => if marked m then g m else rhs m) x ↔
        (∀ m ∈ IndexSet b.model, marked m = true → x m = g m) ∧
        ∀ v, (∀ m ∈ IndexSet b.model, marked m = true → v m = 0) → bilinear b.model a els x v = linear b.model f els v := by
  obtain ⟨A, rhs, h1, h2, h3, h4, h5, h6, h7⟩ := system_spec b hb a f hels hr
  refine ⟨A, rhs, h1, h2, fun x => ?_⟩
  obtain ⟨i1, i2⟩ := identityRows_spec marked rows hr.nodup A
  simp only [← hr.mem, ← h6, ← h7, ← rows_test hr.nodup marked]
  have e1 : ∀ r ∈ rows, marked r = true → (identityRows marked rows A).row x r = x r := fun r hrr hm =>
    row_identity (by rw [i1]; exact h3) (by rw [i1]; exact h4 r hrr) (fun c hc => by rw [i1] at hc; rw [i2 r c hc, if_pos ⟨hrr, hm⟩]) x
  have e2 : ∀ r ∈ rows, marked r = false → (identityRows marked rows A).row x r = A.row x r := fun r hrr hm =>
    row_congr i1 fun c hc => by rw [i2 r c hc, if_neg fun h => by rw [hm] at h; cases h.2]
  change (∀ r ∈ rows, _ = if marked r then g r else rhs r) ↔ _
  constructor
  · intro hs
    refine ⟨fun r hrr hm => ?_, fun r hrr hm => ?_⟩
    · have := hs r hrr; rwa [e1 r hrr hm, if_pos hm] at this
    · have := hs r hrr; rwa [e2 r hrr hm, if_neg (by simp [hm])] at this
  · rintro ⟨g1, g2⟩ r hrr
    by_cases hm : marked r = true
    · rw [e1 r hrr hm, if_pos hm]; exact g1 r hrr hm
    · rw [e2 r hrr (by simpa using hm), if_neg hm]; exact g2 r hrr (by simpa using hm)

/-- **C113.** The Poisson example: symmetric elimination of the marked coefficients with values `g`, which is zero in all other coefficients, gives a system with the same solutions. -/
theorem C113_eliminate [Field K] (b : PB E) (hb : b.WF) (a : E → Nat → Nat → K) (f : E → Nat → K) {els : List E} (hels : ∀ e, e ∈ els) {rows : List MI} (hr : Rows b.model rows) (marked : MI → Bool) (g : MI → K)
    (hg : ∀ m ∈ IndexSet b.model, marked m = false → g m = 0) :
    ∃ A rhs, assembleMatrix b.model a els = some A ∧ assembleRhs b.model f els = some rhs ∧
      ∀ x, Solves rows (eliminate marked g rows A rhs).1 (eliminate marked g rows A rhs).2 x ↔
        (∀ m ∈ IndexSet b.model, marked m = true → x m = g m) ∧
        ∀ v, (∀ m ∈ IndexSet b.model, marked m = true → v m = 0) → bilinear b.model a els x v = linear b.model f els v := by
  obtain ⟨A, rhs, h1, h2, h3, h4, h5, h6, h7⟩ := system_spec b hb a f hels hr
  refine ⟨A, rhs, h1, h2, fun x => ?_⟩
  obtain ⟨i1, i2, i3⟩ := eliminate_spec marked g rows hr.nodup (A, mmv A g rhs)
  simp only [← hr.mem, ← h6, ← h7, ← rows_test hr.nodup marked] at hg ⊢
  change (∀ r ∈ rows, _ = _) ↔ _
  simp only [eliminate, i3]
  have e1 : ∀ r ∈ rows, marked r = true → (rows.foldl (symmetricStep marked g) (A, mmv A g rhs)).1.row x r = x r := fun r hrr hm =>
    row_identity (by rw [i1]; exact h3) (by rw [i1]; exact h4 r hrr) (fun c hc => by rw [i1] at hc; rw [i2 r c hc, if_pos hrr, if_pos hm]) x
  have e2 : ∀ r ∈ rows, marked r = false → (∀ m ∈ rows, marked m = true → x m = g m) →
      (rows.foldl (symmetricStep marked g) (A, mmv A g rhs)).1.row x r = A.row (fun m => x m - g m) r := fun r hrr hm hx =>
    row_congr i1 fun c hc => by
      rw [i2 r c hc, if_pos hrr, if_neg (by simp [hm])]
      by_cases hc' : marked c = true
      · rw [if_pos hc', hx c (h5 _ hc).2 hc', sub_self, zero_mul, mul_zero]
      · rw [if_neg hc', hg c (h5 _ hc).2 (by simpa using hc'), sub_zero]
  have e3 : ∀ r, A.row (fun m => x m - g m) r = A.row x r - A.row g r := by
    intro r
    unfold Sparse.row
    generalize A.pattern.filter (fun rc => rc.1 = r) = l
    induction l with
    | nil => simp
    | cons y l ih => simp only [List.map_cons, List.sum_cons, ih]; ring
  constructor
  · intro hs
    have hx : ∀ r ∈ rows, marked r = true → x r = g r := fun r hrr hm => by
      have := hs r hrr; rwa [e1 r hrr hm, if_pos ⟨hrr, hm⟩] at this
    refine ⟨hx, fun r hrr hm => ?_⟩
    have := hs r hrr
    rw [e2 r hrr hm hx, if_neg (by simp [hm]), e3, mmv] at this
    linear_combination this
  · rintro ⟨g1, g2⟩ r hrr
    by_cases hm : marked r = true
    · rw [e1 r hrr hm, if_pos ⟨hrr, hm⟩]; exact g1 r hrr hm
    · have hm' : marked r = false := by simpa using hm
      rw [e2 r hrr hm' g1, if_neg (by simp [hm]), e3, mmv, g2 r hrr hm']

/-! ## Example -/

/-- Linear functions on two intervals: three nodes, flat indices. -/
def exLine : PB (Fin 2) := .leaf ⟨3, 2, fun e => [e.1, e.1 + 1]⟩

theorem exLine_WF : exLine.WF := by
  unfold exLine
  rw [PB.WF]
  decide

/-- The element matrix of the Laplace operator. -/
def exLaplace : Fin 2 → Nat → Nat → ℚ := fun _ i j => if i = j then 1 else -1

theorem exLine_rows : Rows exLine.model [[0], [1], [2]] := by
  refine ⟨by decide, fun m => ?_⟩
  rw [indexSet_eq exLine_WF]
  constructor
  · intro hm
    simp only [List.mem_cons, List.not_mem_nil, or_false] at hm
    rcases hm with rfl | rfl | rfl
    · exact ⟨0, [0], by decide, by decide⟩
    · exact ⟨1, [1], by decide, by decide⟩
    · exact ⟨1, [2], by decide, by decide⟩
  · rintro ⟨e, d, hd, hm⟩
    have : ∀ e : Fin 2, ∀ d ∈ exLine.spec.loc e, exLine.spec.mi d ∈ [[0], [1], [2]] := by decide
    exact hm ▸ this e d hd

example : occupationPattern exLine.model [0, 1] = some [([0], [0]), ([0], [1]), ([1], [0]), ([1], [1]), ([1], [2]), ([2], [1]), ([2], [2])] := by decide +kernel

/-- Entry of the middle node. -/
example : (assembleMatrix exLine.model exLaplace [0, 1]).map (fun A => (A.val [0] [1], A.val [1] [1], A.val [0] [2])) = some (-1, 2, 0) := by decide +kernel

/-- The matrix after elimination of the end points, with values 0 and 4, and the right hand side: rows (1, 0), (0, 2, 0), (0, 1). -/
example : (assembleMatrix exLine.model exLaplace [0, 1]).map (fun A =>
    let s := eliminate (fun m => m == [0] || m == [2]) (fun m => if m = [2] then 4 else 0) [[0], [1], [2]] A fun _ => 0
    ([[0], [1], [2]].map fun r => [[0], [1], [2]].map fun c => s.1.val r c, [[0], [1], [2]].map s.2)) = some ([[1, 0, 0], [0, 2, 0], [0, 0, 1]], [0, 4, 4]) := by decide +kernel

/-- The solution of the Laplace equation with these boundary values: the linear function. -/
example : ∃ A rhs, assembleMatrix exLine.model exLaplace [0, 1] = some A ∧ assembleRhs exLine.model (fun _ _ => 0) [0, 1] = some rhs ∧
    ∀ x, Solves [[0], [1], [2]] (eliminate (fun m => m == [0] || m == [2]) (fun m => if m = [2] then 4 else 0) [[0], [1], [2]] A rhs).1
      (eliminate (fun m => m == [0] || m == [2]) (fun m => if m = [2] then 4 else 0) [[0], [1], [2]] A rhs).2 x → x [0] = 0 ∧ x [1] = 2 ∧ x [2] = 4 := by
  obtain ⟨A, rhs, h1, h2, h3⟩ := C113_eliminate exLine exLine_WF exLaplace (fun _ _ => 0) (els := [0, 1]) (fun e => by fin_cases e <;> simp) exLine_rows (fun m => m == [0] || m == [2])
    (fun m => if m = [2] then 4 else 0) (fun m _ hm => if_neg fun h => by subst h; simp at hm)
  refine ⟨A, rhs, h1, h2, fun x hx => ?_⟩
  obtain ⟨k1, k2⟩ := (h3 x).1 hx
  have x0 := k1 [0] ((exLine_rows.mem _).1 (by simp)) (by simp)
  have x2 := k1 [2] ((exLine_rows.mem _).1 (by simp)) (by simp)
  have ht := k2 (fun m => if m = [1] then 1 else 0) fun m _ hm => if_neg fun h => by subst h; simp at hm
  have hi0 : idx exLine.model 0 = [[0], [1]] := by decide
  have hi1 : idx exLine.model 1 = [[1], [2]] := by decide
  simp only [bilinear, linear, List.map_cons, List.map_nil, List.sum_cons, List.sum_nil, hi0, hi1, List.length_cons, List.length_nil, exLaplace] at ht
  simp [List.range_succ] at ht x0 x2
  rw [x0, x2] at ht
  exact ⟨x0, by linarith, x2⟩

end Verif.Galerkin

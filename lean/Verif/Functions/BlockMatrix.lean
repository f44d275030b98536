import Verif.Functions.Stokes
import Verif.IndexTree.TaylorHood

/-!
# The nested matrices of the Stokes example

Sparse matrices with multi-indices as rows and columns (C113) against the nested matrices of examples/stokes-taylorhood.cc: block matrices of sparse matrices of small dense matrices.
-/

namespace Verif.Galerkin

open Verif.IndexTree
open Finset (range)

variable {E K : Type}

/-! ## Model -/

/-- The entry `matrix[i][j][n][m][k][l]`; `k` and `l` are zero for entries that are numbers. -/
structure Slot where
  i : Nat
  j : Nat
  n : Nat
  m : Nat
  k : Nat
  l : Nat
  deriving DecidableEq

/-- `matrixEntry` with `BLOCKEDBASIS`, stokes-taylorhood.cc:220-232. -/
def blockedEntry (row col : MI) : Option Slot :=
  row[0]?.bind fun r0 => col[0]?.bind fun c0 =>
    if r0 = 0 ∧ c0 = 0 then row[1]?.bind fun r1 => col[1]?.bind fun c1 => row[2]?.bind fun r2 => col[2]?.map fun c2 => ⟨0, 0, r1, c1, r2, c2⟩
    else if r0 = 0 ∧ c0 = 1 then row[1]?.bind fun r1 => col[1]?.bind fun c1 => row[2]?.map fun r2 => ⟨0, 1, r1, c1, r2, 0⟩
    else if r0 = 1 ∧ c0 = 0 then row[1]?.bind fun r1 => col[1]?.bind fun c1 => col[2]?.map fun c2 => ⟨1, 0, r1, c1, 0, c2⟩
    else row[1]?.bind fun r1 => col[1]?.map fun c1 => ⟨1, 1, r1, c1, 0, 0⟩

/-- `matrixEntry` without `BLOCKEDBASIS`, stokes-taylorhood.cc:235-239. -/
def flatEntry (row col : MI) : Option Slot :=
  row[0]?.bind fun r0 => col[0]?.bind fun c0 => row[1]?.bind fun r1 => col[1]?.map fun c1 => ⟨r0, c0, r1, c1, 0, 0⟩

/-- The two variants of `matrixEntry`. -/
def matrixEntry (blocked : Bool) : MI → MI → Option Slot := if blocked then blockedEntry else flatEntry

/-- Rows of a dense matrix in the blocks with index `i`, stokes-taylorhood.cc:371-374, 382. -/
def innerSize (blocked : Bool) (dim i : Nat) : Nat := if blocked && i == 0 then dim else 1

/-- A 2x2 matrix of sparse matrices whose entries are matrices with `inner i` rows and `inner j` columns. -/
structure Blocks (K : Type) where
  inner : Nat → Nat
  pattern : Nat → Nat → List (Nat × Nat)
  val : Slot → K

/-- `matrix[i][j][n][m][k][l] += y`; an error if there is no such entry. -/
def Blocks.addTo [Add K] (A : Blocks K) (s : Slot) (y : K) : Option (Blocks K) :=
  if s.i < 2 ∧ s.j < 2 ∧ (s.n, s.m) ∈ A.pattern s.i s.j ∧ s.k < A.inner s.i ∧ s.l < A.inner s.j then
    some { A with val := fun s' => if s' = s then A.val s' + y else A.val s' } else none

/-- `nb[row[0]][col[0]].add(row[1],col[1])`, stokes-taylorhood.cc:198. `nb` is a 2x2 array of index sets with the given sizes. -/
def nbAdd (size : Nat → Nat) (nb : Nat → Nat → List (Nat × Nat)) (row col : MI) : Option (Nat → Nat → List (Nat × Nat)) :=
  row[0]?.bind fun r0 => col[0]?.bind fun c0 => row[1]?.bind fun r1 => col[1]?.bind fun c1 =>
    if r0 < 2 ∧ c0 < 2 ∧ r1 < size r0 ∧ c1 < size c0 then
      some fun i j => if i = r0 ∧ j = c0 then (if (r1, c1) ∈ nb i j then nb i j else nb i j ++ [(r1, c1)]) else nb i j else none

/-- The loops of one element, stokes-taylorhood.cc:188-202. -/
def nbLoop (size : Nat → Nat) (v : LocalView E) (nb : Nat → Nat → List (Nat × Nat)) : Option (Nat → Nat → List (Nat × Nat)) :=
  (List.range v.size).foldlM (fun nb i => (v.index i).bind fun r => (List.range v.size).foldlM (fun nb j => (v.index j).bind fun c => nbAdd size nb r c) nb) nb

/-- One element, stokes-taylorhood.cc:182-204. -/
def nbStep (pb : PreBasis E) (size : Nat → Nat) (s : LocalView E × (Nat → Nat → List (Nat × Nat))) (e : E) : Option (LocalView E × (Nat → Nat → List (Nat × Nat))) :=
  (s.1.bind pb e).bind fun v => (nbLoop size v s.2).map fun nb => (v, nb)

/-- `setOccupationPattern`, stokes-taylorhood.cc:164-215. -/
def blockPattern (pb : PreBasis E) (els : List E) : Option (Nat → Nat → List (Nat × Nat)) :=
  (pb.size [0]).bind fun s0 => (pb.size [1]).bind fun s1 =>
    (els.foldlM (nbStep pb fun i => if i = 0 then s0 else s1) (LocalView.fresh pb, fun _ _ => [])).map Prod.snd

/-- The loops over an element matrix, stokes-taylorhood.cc:279-290. -/
def blockLoop [Add K] (entry : MI → MI → Option Slot) (v : LocalView E) (M : Nat → Nat → K) (A : Blocks K) : Option (Blocks K) :=
  (List.range v.size).foldlM (fun A i => (v.index i).bind fun r => (List.range v.size).foldlM (fun A j => (v.index j).bind fun c => (entry r c).bind fun s => A.addTo s (M i j)) A) A

/-- One element, stokes-taylorhood.cc:264-292. -/
def blockStep [Add K] (pb : PreBasis E) (entry : MI → MI → Option Slot) (loc : LocalView E → Option (Nat → Nat → K)) (s : LocalView E × Blocks K) (e : E) : Option (LocalView E × Blocks K) :=
  (s.1.bind pb e).bind fun v => (loc v).bind fun M => (blockLoop entry v M s.2).map fun A => (v, A)

/-- `assembleStokesMatrix`, stokes-taylorhood.cc:245-294; `loc` is `getLocalMatrix`. -/
def assembleBlocks [Add K] [Zero K] (blocked : Bool) (dim : Nat) (pb : PreBasis E) (loc : LocalView E → Option (Nat → Nat → K)) (els : List E) : Option (Blocks K) :=
  (blockPattern pb els).bind fun nb => (els.foldlM (blockStep pb (matrixEntry blocked) loc) (LocalView.fresh pb, ⟨innerSize blocked dim, nb, fun _ => 0⟩)).map Prod.snd

/-- `matrix[i][j][n][m][k][l] = y`; an error if there is no such entry. -/
def Blocks.setTo (A : Blocks K) (s : Slot) (y : K) : Option (Blocks K) :=
  if s.i < 2 ∧ s.j < 2 ∧ (s.n, s.m) ∈ A.pattern s.i s.j ∧ s.k < A.inner s.i ∧ s.l < A.inner s.j then
    some { A with val := fun s' => if s' = s then y else A.val s' } else none

/-- One element of the modification of rows, stokes-taylorhood.cc:449-461. -/
def blockRowsStep [Zero K] [One K] (pb : PreBasis E) (entry : MI → MI → Option Slot) (marked : MI → Bool) (s : LocalView E × Blocks K) (e : E) : Option (LocalView E × Blocks K) :=
  (s.1.bind pb e).bind fun v => ((List.range v.size).foldlM (fun A i => (v.index i).bind fun row =>
    if marked row then (List.range v.size).foldlM (fun A j => (v.index j).bind fun col => (entry row col).bind fun t => A.setTo t (if i = j then 1 else 0)) A else some A) s.2).map fun A => (v, A)

/-- Changing the marked rows to rows of the identity, stokes-taylorhood.cc:446-462. -/
def blockRows [Zero K] [One K] (blocked : Bool) (pb : PreBasis E) (marked : MI → Bool) (els : List E) (A : Blocks K) : Option (Blocks K) :=
  (els.foldlM (blockRowsStep pb (matrixEntry blocked) marked) (LocalView.fresh pb, A)).map Prod.snd

/-! ## Specification -/

/-- Where the coefficient of a multi-index is in a nested vector: `x[_0][n][k]` and `x[_1][n]` with `BLOCKEDBASIS`, `x[i][n]` without. -/
def place (blocked : Bool) : MI → Option (Nat × Nat × Nat)
  | [i, n] => if blocked && i == 0 then none else some (i, n, 0)
  | [i, n, k] => if blocked && i == 0 then some (i, n, k) else none
  | _ => none

/-- The coefficients of a nested vector. -/
def coefs [Zero K] (blocked : Bool) (X : Nat → Nat → Nat → K) (m : MI) : K := ((place blocked m).map fun p => X p.1 p.2.1 p.2.2).getD 0

/-- Entry `y[i][n][k]` of the product of a nested matrix with a nested vector: rows of the blocks `(i, 0)` and `(i, 1)`, each entry of which is multiplied with a small vector. -/
def Blocks.row [Field K] (A : Blocks K) (X : Nat → Nat → Nat → K) (i n k : Nat) : K :=
  ∑ j ∈ range 2, (((A.pattern i j).filter fun nm => nm.1 = n).map fun nm => ∑ l ∈ range (A.inner j), A.val ⟨i, j, n, nm.2, k, l⟩ * X j nm.2 l).sum

/-! ## Proofs -/

/-- Two loops that run in parallel. -/
theorem lockstep {S T A : Type} (f : S → A → Option S) (g : T → A → Option T) (R : S → T → Prop) (l : List A)
    (h : ∀ s t, ∀ a ∈ l, R s t → ∀ s', f s a = some s' → ∃ t', g t a = some t' ∧ R s' t') : ∀ s t s', R s t → l.foldlM f s = some s' → ∃ t', l.foldlM g t = some t' ∧ R s' t' := by
  induction l with
  | nil =>
    intro s t s' hR hs
    rw [List.foldlM_nil, Option.pure_def, Option.some.injEq] at hs
    exact ⟨t, rfl, hs ▸ hR⟩
  | cons a l ih =>
    intro s t s' hR hs
    rw [List.foldlM_cons] at hs
    obtain ⟨s1, h1, h2⟩ := Option.bind_eq_some_iff.1 hs
    obtain ⟨t1, k1, k2⟩ := h s t a (List.mem_cons_self ..) hR s1 h1
    obtain ⟨t', m1, m2⟩ := ih (fun s t a ha => h s t a (List.mem_cons_of_mem _ ha)) s1 t1 s' k2 h2
    exact ⟨t', by rw [List.foldlM_cons, k1]; exact m1, m2⟩

theorem sum_filter [Field K] {A : Type} (l : List A) (p : A → Bool) (f : A → K) : (l.map fun a => if p a then f a else 0).sum = ((l.filter p).map f).sum := by
  induction l with
  | nil => rfl
  | cons a l ih =>
    rw [List.map_cons, List.sum_cons, ih]
    by_cases h : p a
    · rw [if_pos h, List.filter_cons_of_pos h, List.map_cons, List.sum_cons]
    · rw [if_neg h, List.filter_cons_of_neg h, zero_add]

/-- The bilinear form of a nested matrix. -/
def Blocks.form [Field K] (A : Blocks K) (X W : Nat → Nat → Nat → K) : K :=
  ∑ i ∈ range 2, ∑ j ∈ range 2, ((A.pattern i j).map fun nm => ∑ k ∈ range (A.inner i), ∑ l ∈ range (A.inner j), W i nm.1 k * A.val ⟨i, j, nm.1, nm.2, k, l⟩ * X j nm.2 l).sum

theorem blocks_add [Field K] {A : Blocks K} (hA : ∀ i j, (A.pattern i j).Nodup) {s : Slot} (hi : s.i < 2) (hj : s.j < 2) (hnm : (s.n, s.m) ∈ A.pattern s.i s.j) (hk : s.k < A.inner s.i)
    (hl : s.l < A.inner s.j) (y : K) :
    ∃ A', A.addTo s y = some A' ∧ A'.pattern = A.pattern ∧ A'.inner = A.inner ∧ ∀ X W, A'.form X W = A.form X W + W s.i s.n s.k * y * X s.j s.m s.l := by
  refine ⟨_, if_pos ⟨hi, hj, hnm, hk, hl⟩, rfl, rfl, fun X W => ?_⟩
  have hv : ∀ t : Slot, (if t = s then A.val t + y else A.val t) = A.val t + if t = s then y else 0 := by
    intro t
    split_ifs <;> simp
  simp only [Blocks.form, hv, mul_add, add_mul, Finset.sum_add_distrib, List.sum_map_add]
  congr 1
  rw [Finset.sum_eq_single s.i, Finset.sum_eq_single s.j, ← List.sum_toFinset _ (hA _ _), Finset.sum_eq_single (s.n, s.m), Finset.sum_eq_single s.k, Finset.sum_eq_single s.l]
  · simp
  · intro l _ h
    rw [if_neg fun h' => h (by rw [← h'])]
    simp
  · exact fun h => absurd (Finset.mem_range.2 hl) h
  · intro k _ h
    refine Finset.sum_eq_zero fun l _ => ?_
    rw [if_neg fun h' => h (by rw [← h'])]
    simp
  · exact fun h => absurd (Finset.mem_range.2 hk) h
  · intro nm _ h
    refine Finset.sum_eq_zero fun k _ => Finset.sum_eq_zero fun l _ => ?_
    rw [if_neg fun h' => h (by rw [← h'])]
    simp
  · exact fun h => absurd (List.mem_toFinset.2 hnm) h
  · intro j _ h
    refine List.sum_eq_zero fun x hx => ?_
    obtain ⟨nm, -, rfl⟩ := List.mem_map.1 hx
    refine Finset.sum_eq_zero fun k _ => Finset.sum_eq_zero fun l _ => ?_
    rw [if_neg fun h' => h (by rw [← h'])]
    simp
  · exact fun h => absurd (Finset.mem_range.2 hj) h
  · intro i _ h
    refine Finset.sum_eq_zero fun j _ => List.sum_eq_zero fun x hx => ?_
    obtain ⟨nm, -, rfl⟩ := List.mem_map.1 hx
    refine Finset.sum_eq_zero fun k _ => Finset.sum_eq_zero fun l _ => ?_
    rw [if_neg fun h' => h (by rw [← h'])]
    simp
  · exact fun h => absurd (Finset.mem_range.2 hi) h

theorem blocks_row [Field K] (A : Blocks K) (X : Nat → Nat → Nat → K) {i n k : Nat} (hi : i < 2) (hk : k < A.inner i) :
    A.form X (fun i' n' k' => if i' = i ∧ n' = n ∧ k' = k then 1 else 0) = A.row X i n k := by
  rw [Blocks.form, Blocks.row, Finset.sum_eq_single i]
  · refine Finset.sum_congr rfl fun j _ => ?_
    rw [← sum_filter]
    congr 1
    refine List.map_congr_left fun nm _ => ?_
    rw [Finset.sum_eq_single k]
    · by_cases h : nm.1 = n
      · simp [h]
      · simp [h]
    · intro k' _ h
      simp [h]
    · exact fun h => absurd (Finset.mem_range.2 hk) h
  · intro i' _ h
    refine Finset.sum_eq_zero fun j _ => List.sum_eq_zero fun x hx => ?_
    obtain ⟨nm, -, rfl⟩ := List.mem_map.1 hx
    simp [h]
  · exact fun h => absurd (Finset.mem_range.2 hi) h

/-- What is needed of the multi-indices. -/
structure Fits (I : Set MI) (size inner : Nat → Nat) (blocked : Bool) : Prop where
  place : ∀ m ∈ I, ∃ i n k, place blocked m = some (i, n, k) ∧ i < 2 ∧ n < size i ∧ k < inner i ∧ m[0]? = some i ∧ m[1]? = some n
  inj : ∀ m ∈ I, ∀ m' ∈ I, Galerkin.place blocked m = Galerkin.place blocked m' → m = m'
  entry : ∀ r ∈ I, ∀ c ∈ I, ∀ i n k j m l, Galerkin.place blocked r = some (i, n, k) → Galerkin.place blocked c = some (j, m, l) → matrixEntry blocked r c = some ⟨i, j, n, m, k, l⟩

/-- Patterns belong together. -/
def PatternOK (I : Set MI) (l : List (MI × MI)) (nb : Nat → Nat → List (Nat × Nat)) : Prop :=
  l.Nodup ∧ (∀ i j, (nb i j).Nodup) ∧ ∀ rc ∈ l, rc.1 ∈ I ∧ rc.2 ∈ I ∧ ∃ i n j m, rc.1[0]? = some i ∧ rc.1[1]? = some n ∧ rc.2[0]? = some j ∧ rc.2[1]? = some m ∧ (n, m) ∈ nb i j

theorem nbAdd_spec {I : Set MI} {size inner : Nat → Nat} {blocked : Bool} (H : Fits I size inner blocked) {l : List (MI × MI)} {nb : Nat → Nat → List (Nat × Nat)} (h : PatternOK I l nb)
    {r c : MI} (hr : r ∈ I) (hc : c ∈ I) : ∃ nb', nbAdd size nb r c = some nb' ∧ PatternOK I (addEntry l (r, c)) nb' := by
  obtain ⟨i, n, k, -, a2, a3, -, a5, a6⟩ := H.place r hr
  obtain ⟨j, m, k', -, b2, b3, -, b5, b6⟩ := H.place c hc
  refine ⟨_, by rw [nbAdd, a5, Option.bind_some, b5, Option.bind_some, a6, Option.bind_some, b6, Option.bind_some, if_pos ⟨a2, b2, a3, b3⟩], ?_, ?_, ?_⟩
  · unfold addEntry
    split
    · exact h.1
    · rename_i hn
      exact List.Nodup.append h.1 (List.nodup_singleton _) (by simpa using hn)
  · intro i' j'
    split_ifs with h1 h2
    · exact h.2.1 i' j'
    · exact List.Nodup.append (h.2.1 i' j') (List.nodup_singleton _) (by simpa using h2)
    · exact h.2.1 i' j'
  · intro rc hrc
    have hmono : ∀ i' j' p, p ∈ nb i' j' → p ∈ if i' = i ∧ j' = j then (if (n, m) ∈ nb i' j' then nb i' j' else nb i' j' ++ [(n, m)]) else nb i' j' := by
      intro i' j' p hp
      split_ifs
      · exact hp
      · exact List.mem_append_left _ hp
      · exact hp
    have hrc' : rc ∈ l ∨ rc = (r, c) := by
      unfold addEntry at hrc
      split at hrc
      · exact .inl hrc
      · simpa using hrc
    rcases hrc' with h' | rfl
    · obtain ⟨q1, q2, i', n', j', m', q3, q4, q5, q6, q7⟩ := h.2.2 rc h'
      exact ⟨q1, q2, i', n', j', m', q3, q4, q5, q6, hmono _ _ _ q7⟩
    · refine ⟨hr, hc, i, n, j, m, a5, a6, b5, b6, ?_⟩
      rw [if_pos ⟨rfl, rfl⟩]
      split_ifs with hm
      · exact hm
      · simp

theorem blockPattern_spec {b : PB E} (hb : b.WF) {size inner : Nat → Nat} {blocked : Bool} (H : Fits (IndexSet b.model) size inner blocked)
    (hs0 : b.model.size [0] = some (size 0)) (hs1 : b.model.size [1] = some (size 1)) {els : List E} {l : List (MI × MI)} (hl : occupationPattern b.model els = some l) :
    ∃ nb, blockPattern b.model els = some nb ∧ PatternOK (IndexSet b.model) l nb := by
  have H' : Fits (IndexSet b.model) (fun i => if i = 0 then size 0 else size 1) inner blocked := by
    refine ⟨fun m hm => ?_, H.inj, H.entry⟩
    obtain ⟨i, n, k, a1, a2, a3, a4, a5, a6⟩ := H.place m hm
    refine ⟨i, n, k, a1, a2, ?_, a4, a5, a6⟩
    rcases Nat.lt_or_ge i 1 with h | h
    · obtain rfl : i = 0 := by omega
      simpa using a3
    · obtain rfl : i = 1 := by omega
      simpa using a3
  have hI : ∀ e, ∀ m ∈ idx b.model e, m ∈ IndexSet b.model := fun e m hm => ⟨e, idx b.model e, by rw [idx_eq b hb]; exact localIndices_eq (b.refines hb) e, hm⟩
  rw [occupationPattern, Option.map_eq_some_iff] at hl
  obtain ⟨s, hs, rfl⟩ := hl
  obtain ⟨t, h1, h2, h3⟩ := lockstep (patternStep b.model) (nbStep b.model fun i => if i = 0 then size 0 else size 1)
    (fun s t => s.1 = t.1 ∧ s.1.tree.blank = b.model.makeNode.blank ∧ PatternOK (IndexSet b.model) s.2 t.2) els (by
      rintro ⟨lv, l⟩ ⟨lv', nb⟩ e - ⟨hlv, hbl, hP⟩ ⟨v, l'⟩ hstep
      obtain rfl : lv = lv' := hlv
      obtain ⟨v', v1, v2, v3, v4⟩ := bind_view b hb hbl e
      rw [patternStep, show lv.bind b.model e = some v' from v1, Option.bind_some, Option.map_eq_some_iff] at hstep
      obtain ⟨l1, hl1, heq⟩ := hstep
      obtain ⟨rfl, rfl⟩ := Prod.mk.inj heq
      have hin : ∀ i < v'.size, ∃ r ∈ IndexSet b.model, v'.index i = some r := by
        intro i hi
        rw [v3] at hi
        refine ⟨_, ?_, v4 i hi⟩
        rw [List.getElem?_eq_getElem hi]
        exact hI e _ (List.getElem_mem hi)
      obtain ⟨nb', n1, n2⟩ := lockstep _ (fun nb i => (v'.index i).bind fun r => (List.range v'.size).foldlM (fun nb j => (v'.index j).bind fun c =>
          nbAdd (fun i => if i = 0 then size 0 else size 1) nb r c) nb) (PatternOK (IndexSet b.model)) (List.range v'.size) (by
        intro l nb i hi hP l' hl'
        obtain ⟨r, hr1, hr2⟩ := hin i (List.mem_range.1 hi)
        rw [hr2, Option.bind_some]
        refine lockstep _ _ (PatternOK (IndexSet b.model)) (List.range v'.size) ?_ l nb l' hP hl'
        intro l nb j hj hP l' hl'
        obtain ⟨c, hc1, hc2⟩ := hin j (List.mem_range.1 hj)
        rw [hr2, Option.bind_some, hc2, Option.map_some, Option.some.injEq] at hl'
        subst hl'
        rw [hc2, Option.bind_some]
        exact nbAdd_spec H' hP hr1 hc1) l nb l1 hP hl1
      exact ⟨(v', nb'), by rw [nbStep, v1, Option.bind_some, nbLoop, n1]; rfl, rfl, v2, n2⟩)
    (LocalView.fresh b.model, []) (LocalView.fresh b.model, fun _ _ => []) s ⟨rfl, LocalView.fresh_blank _, List.nodup_nil, fun _ _ => List.nodup_nil, by simp⟩ hs
  exact ⟨t.2, by rw [blockPattern, hs0, Option.bind_some, hs1, Option.bind_some, h1]; rfl, h3.2⟩

/-- Matrices belong together. -/
def MatrixOK [Field K] (I : Set MI) (inner : Nat → Nat) (blocked : Bool) (A : Sparse K) (B : Blocks K) : Prop :=
  PatternOK I A.pattern B.pattern ∧ B.inner = inner ∧ (∀ X W, B.form X W = A.form (coefs blocked X) (coefs blocked W)) ∧
    ∀ rc ∈ A.pattern, ∀ s, matrixEntry blocked rc.1 rc.2 = some s → B.val s = A.val rc.1 rc.2

theorem Fits.entry_inj {I : Set MI} {size inner : Nat → Nat} {blocked : Bool} (H : Fits I size inner blocked) {r c r' c' : MI} (hr : r ∈ I) (hc : c ∈ I) (hr' : r' ∈ I) (hc' : c' ∈ I) :
    ∃ s, matrixEntry blocked r c = some s ∧ (matrixEntry blocked r' c' = some s → r = r' ∧ c = c') := by
  obtain ⟨i, n, k, a1, -⟩ := H.place r hr
  obtain ⟨j, m, l, b1, -⟩ := H.place c hc
  obtain ⟨i', n', k', a1', -⟩ := H.place r' hr'
  obtain ⟨j', m', l', b1', -⟩ := H.place c' hc'
  refine ⟨_, H.entry r hr c hc i n k j m l a1 b1, fun h => ?_⟩
  rw [H.entry r' hr' c' hc' i' n' k' j' m' l' a1' b1', Option.some.injEq] at h
  injection h with h1 h2 h3 h4 h5 h6
  subst h1 h2 h3 h4 h5 h6
  exact ⟨H.inj r hr r' hr' (a1.trans a1'.symm), H.inj c hc c' hc' (b1.trans b1'.symm)⟩

theorem addTo_both [Field K] {I : Set MI} {size inner : Nat → Nat} {blocked : Bool} (H : Fits I size inner blocked) {A A' : Sparse K} {B : Blocks K} (h : MatrixOK I inner blocked A B)
    {r c : MI} {y : K} (hA : A.addTo r c y = some A') : ∃ B', ((matrixEntry blocked r c).bind fun s => B.addTo s y) = some B' ∧ MatrixOK I inner blocked A' B' := by
  obtain ⟨⟨p1, p2, p3⟩, p4, p5, p6⟩ := h
  have hrc : (r, c) ∈ A.pattern := by
    by_contra hn
    rw [Sparse.addTo, if_neg hn] at hA
    exact absurd hA (by simp)
  obtain ⟨A1, a1, a2, a3⟩ := addTo_form p1 hrc y
  rw [hA, Option.some.injEq] at a1
  subst a1
  obtain ⟨hr, hc, i', n', j', m', q1, q2, q3, q4, q5⟩ := p3 _ hrc
  obtain ⟨i, n, k, r1, r2, -, r4, r5, r6⟩ := H.place r hr
  obtain ⟨j, m, l, c1, c2, -, c4, c5, c6⟩ := H.place c hc
  simp only [r5, r6, c5, c6, Option.some.injEq] at q1 q2 q3 q4
  subst q1 q2 q3 q4
  obtain ⟨B', b1, b2, b3, b4⟩ := blocks_add (A := B) p2 (s := ⟨i, j, n, m, k, l⟩) r2 c2 q5 (by rw [p4]; exact r4) (by rw [p4]; exact c4) y
  have he := H.entry r hr c hc i n k j m l r1 c1
  refine ⟨B', by rw [he]; exact b1, ⟨by rw [a2]; exact p1, by rw [b2]; exact p2, by rw [a2, b2]; exact p3⟩, b3.trans p4, fun X W => ?_, fun rc hrc' s hs => ?_⟩
  · rw [b4, p5, a3 (coefs blocked X, coefs blocked W)]
    simp only [coefs, r1, c1, Option.map_some, Option.getD_some]
  · rw [a2] at hrc'
    rw [Sparse.addTo, if_pos hrc, Option.some.injEq] at hA
    rw [Blocks.addTo, if_pos ⟨r2, c2, q5, by rw [p4]; exact r4, by rw [p4]; exact c4⟩, Option.some.injEq] at b1
    subst hA b1
    simp only []
    by_cases h : rc.1 = r ∧ rc.2 = c
    · have hs' := hs
      rw [h.1, h.2, he, Option.some.injEq] at hs'
      rw [if_pos h, if_pos hs'.symm, p6 rc hrc' s hs]
    · rw [if_neg h, if_neg, p6 rc hrc' s hs]
      rintro rfl
      obtain ⟨t, t1, t2⟩ := H.entry_inj (p3 _ hrc').1 (p3 _ hrc').2.1 hr hc
      rw [hs, Option.some.injEq] at t1
      subst t1
      exact h (t2 he)

theorem setTo_both [Field K] {I : Set MI} {size inner : Nat → Nat} {blocked : Bool} (H : Fits I size inner blocked) {A A' : Sparse K} {B : Blocks K} (h : MatrixOK I inner blocked A B)
    {r c : MI} {y : K} (hA : A.setTo r c y = some A') : ∃ B', ((matrixEntry blocked r c).bind fun s => B.setTo s y) = some B' ∧ MatrixOK I inner blocked A' B' := by
  have hrc : (r, c) ∈ A.pattern := by
    by_contra hn
    rw [Sparse.setTo, if_neg hn] at hA
    exact absurd hA (by simp)
  obtain ⟨hr, hc, -⟩ := h.1.2.2 _ hrc
  obtain ⟨s, hs, -⟩ := H.entry_inj hr hc hr hc
  have hv := h.2.2.2 _ hrc s hs
  have e1 : A.setTo r c y = A.addTo r c (y - A.val r c) := by
    rw [Sparse.setTo, Sparse.addTo]
    congr 3
    funext r' c'
    by_cases h : r' = r ∧ c' = c
    · rw [if_pos h, if_pos h, h.1, h.2]
      ring
    · rw [if_neg h, if_neg h]
  have e2 : B.setTo s y = B.addTo s (y - A.val r c) := by
    rw [Blocks.setTo, Blocks.addTo]
    congr 3
    funext s'
    by_cases h : s' = s
    · rw [if_pos h, if_pos h, h, hv]
      ring
    · rw [if_neg h, if_neg h]
  rw [e1] at hA
  obtain ⟨B', b1, b2⟩ := addTo_both H h hA
  rw [hs, Option.bind_some] at b1 ⊢
  exact ⟨B', e2.trans b1, b2⟩

theorem blocks_spec [Field K] {b : PB E} (hb : b.WF) {size inner : Nat → Nat} {blocked : Bool} {dim : Nat} (hin : inner = innerSize blocked dim) (H : Fits (IndexSet b.model) size inner blocked)
    (hs0 : b.model.size [0] = some (size 0)) (hs1 : b.model.size [1] = some (size 1)) {loc : LocalView E → Option (Nat → Nat → K)} {els : List E} {A : Sparse K}
    (hA : assembleMatrixWith b.model loc els = some A) :
    ∃ B, assembleBlocks blocked dim b.model loc els = some B ∧ MatrixOK (IndexSet b.model) inner blocked A B := by
  rw [assembleMatrixWith, Option.bind_eq_some_iff] at hA
  obtain ⟨l, hl, hA⟩ := hA
  rw [Option.map_eq_some_iff] at hA
  obtain ⟨s, hs, rfl⟩ := hA
  obtain ⟨nb, n1, n2⟩ := blockPattern_spec hb H hs0 hs1 hl
  obtain ⟨t, h1, h2, h3⟩ := lockstep (matrixStepWith b.model loc) (blockStep b.model (matrixEntry blocked) loc)
    (fun s t => s.1 = t.1 ∧ MatrixOK (IndexSet b.model) inner blocked s.2 t.2) els (by
      rintro ⟨lv, A⟩ ⟨lv', B⟩ e - ⟨hlv, hM⟩ ⟨v, A'⟩ hstep
      obtain rfl : lv = lv' := hlv
      rw [matrixStepWith, Option.bind_eq_some_iff] at hstep
      obtain ⟨v', hv', hstep⟩ := hstep
      rw [Option.bind_eq_some_iff] at hstep
      obtain ⟨M, hMM, hstep⟩ := hstep
      rw [Option.map_eq_some_iff] at hstep
      obtain ⟨A1, hA1, heq⟩ := hstep
      obtain ⟨rfl, rfl⟩ := Prod.mk.inj heq
      obtain ⟨B', b1, b2⟩ := lockstep _ (fun A i => (v'.index i).bind fun r => (List.range v'.size).foldlM (fun A j => (v'.index j).bind fun c => (matrixEntry blocked r c).bind fun s => A.addTo s (M i j)) A)
        (MatrixOK (IndexSet b.model) inner blocked) (List.range v'.size) (by
          intro A B i _ hM A' hA'
          obtain ⟨r, hr, hA'⟩ := Option.bind_eq_some_iff.1 hA'
          rw [hr, Option.bind_some]
          refine lockstep _ _ (MatrixOK (IndexSet b.model) inner blocked) (List.range v'.size) ?_ A B A' hM hA'
          intro A B j _ hM A' hA'
          obtain ⟨c, hc, hA'⟩ := Option.bind_eq_some_iff.1 hA'
          rw [hc, Option.bind_some]
          exact addTo_both H hM hA') A B A1 hM hA1
      exact ⟨(v', B'), by rw [blockStep, show lv.bind b.model e = some v' from hv', Option.bind_some, hMM, Option.bind_some, blockLoop, b1]; rfl, rfl, b2⟩)
    (LocalView.fresh b.model, ⟨l, fun _ _ => 0⟩) (LocalView.fresh b.model, ⟨innerSize blocked dim, nb, fun _ => 0⟩) s
    ⟨rfl, n2, hin.symm, fun X W => by simp [Blocks.form, Sparse.form], fun _ _ _ _ => rfl⟩ hs
  exact ⟨t.2, by rw [assembleBlocks, n1, Option.bind_some, h1]; rfl, h3⟩

theorem blockRows_spec [Field K] {b : PB E} {size inner : Nat → Nat} {blocked : Bool} (H : Fits (IndexSet b.model) size inner blocked) {marked : MI → Bool} {els : List E} {A A' : Sparse K} {B : Blocks K}
    (hM : MatrixOK (IndexSet b.model) inner blocked A B) (hA : elementRows b.model marked els A = some A') :
    ∃ B', blockRows blocked b.model marked els B = some B' ∧ MatrixOK (IndexSet b.model) inner blocked A' B' := by
  rw [elementRows, Option.map_eq_some_iff] at hA
  obtain ⟨s, hs, rfl⟩ := hA
  obtain ⟨t, h1, h2, h3⟩ := lockstep (elementRowsStep b.model marked) (blockRowsStep b.model (matrixEntry blocked) marked)
    (fun s t => s.1 = t.1 ∧ MatrixOK (IndexSet b.model) inner blocked s.2 t.2) els (by
      rintro ⟨lv, A⟩ ⟨lv', B⟩ e - ⟨hlv, hM⟩ ⟨v, A'⟩ hstep
      obtain rfl : lv = lv' := hlv
      rw [elementRowsStep, Option.bind_eq_some_iff] at hstep
      obtain ⟨v', hv', hstep⟩ := hstep
      rw [Option.map_eq_some_iff] at hstep
      obtain ⟨A1, hA1, heq⟩ := hstep
      obtain ⟨rfl, rfl⟩ := Prod.mk.inj heq
      obtain ⟨B', b1, b2⟩ := lockstep _ (fun A i => (v'.index i).bind fun row =>
          if marked row then (List.range v'.size).foldlM (fun A j => (v'.index j).bind fun col => (matrixEntry blocked row col).bind fun t => A.setTo t (if i = j then 1 else 0)) A else some A)
        (MatrixOK (IndexSet b.model) inner blocked) (List.range v'.size) (by
          intro A B i _ hM A' hA'
          obtain ⟨r, hr, hA'⟩ := Option.bind_eq_some_iff.1 hA'
          rw [hr, Option.bind_some]
          by_cases hm : marked r = true
          · rw [if_pos hm] at hA' ⊢
            refine lockstep _ _ (MatrixOK (IndexSet b.model) inner blocked) (List.range v'.size) ?_ A B A' hM hA'
            intro A B j _ hM A' hA'
            obtain ⟨c, hc, hA'⟩ := Option.bind_eq_some_iff.1 hA'
            rw [hc, Option.bind_some]
            exact setTo_both H hM hA'
          · rw [if_neg hm, Option.some.injEq] at hA'
            rw [if_neg hm]
            exact ⟨B, rfl, hA' ▸ hM⟩) A B A1 hM hA1
      exact ⟨(v', B'), by rw [blockRowsStep, show lv.bind b.model e = some v' from hv', Option.bind_some, b1]; rfl, rfl, b2⟩)
    (LocalView.fresh b.model, A) (LocalView.fresh b.model, B) s ⟨rfl, hM⟩ hs
  exact ⟨t.2, by rw [blockRows, h1]; rfl, h3⟩

/-- Rows of matrices that belong together. -/
theorem row_both [Field K] {I : Set MI} {size inner : Nat → Nat} {blocked : Bool} (H : Fits I size inner blocked) {A : Sparse K} {B : Blocks K} (h : MatrixOK I inner blocked A B)
    (X : Nat → Nat → Nat → K) {r : MI} (hr : r ∈ I) : ∃ i n k, Galerkin.place blocked r = some (i, n, k) ∧ B.row X i n k = A.row (coefs blocked X) r := by
  obtain ⟨⟨p1, p2, p3⟩, b2, b3, -⟩ := h
  obtain ⟨i, n, k, a1, a2, -, a4, -, -⟩ := H.place r hr
  refine ⟨i, n, k, a1, ?_⟩
  rw [← blocks_row B X a2 (by rw [b2]; exact a4), b3, Sparse.form, Sparse.row, ← sum_filter]
  congr 1
  refine List.map_congr_left fun rc hrc => ?_
  obtain ⟨i', n', k', c1, -⟩ := H.place rc.1 (p3 rc hrc).1
  have hW : coefs blocked (fun i' n' k' => if i' = i ∧ n' = n ∧ k' = k then (1 : K) else 0) rc.1 = if rc.1 = r then 1 else 0 := by
    rw [coefs, c1]
    simp only [Option.map_some, Option.getD_some]
    by_cases h : rc.1 = r
    · rw [if_pos h]
      rw [h, a1] at c1
      simp only [Option.some.injEq, Prod.mk.injEq] at c1
      rw [if_pos ⟨c1.1.symm, c1.2.1.symm, c1.2.2.symm⟩]
    · rw [if_neg h, if_neg]
      rintro ⟨rfl, rfl, rfl⟩
      exact h (H.inj _ (p3 rc hrc).1 _ hr (c1.trans a1.symm))
  rw [hW]
  by_cases h : rc.1 = r <;> simp [h]

/-- The multi-indices of the two Taylor-Hood trees. -/
theorem th_indices {blocked : Bool} {dim : Nat} {L2 L1 : Leaf E} (hb : (thTree blocked dim L2 L1).WF) {m : MI} (hm : m ∈ IndexSet (thTree blocked dim L2 L1).model) :
    (∃ x k, x < L2.dim ∧ k < dim ∧ m = if blocked then [0, x, k] else [0, x * dim + k]) ∨ ∃ x, x < L1.dim ∧ m = [1, x] := by
  rw [indexSet_eq hb] at hm
  obtain ⟨e, d, hd, rfl⟩ := hm
  have hd := (PB.refines _ hb).locMem e d hd
  simp only [thTree, PB.spec, PB.specs, specComposite, tagged, List.map_cons, List.map_nil,
    List.append_nil, List.mem_append, List.mem_map, specPower, List.mem_flatMap, List.mem_range, specLeaf] at hd
  rcases hd with ⟨_, ⟨k, hk, y, ⟨x, hx, rfl⟩, rfl⟩, rfl⟩ | ⟨_, ⟨x, hx, rfl⟩, rfl⟩
  · refine .inl ⟨x, k, hx, hk, ?_⟩
    cases blocked
    · simp [thTree, PB.spec, PB.specs, specComposite, specPower, specLeaf, IMS.merge, onFirst]
    · simp [thTree, PB.spec, PB.specs, specComposite, specPower, specLeaf, IMS.merge]
  · refine .inr ⟨x, hx, ?_⟩
    simp [thTree, PB.spec, PB.specs, specComposite, specLeaf]

/-- Sizes of the blocks. -/
def thBlockSize (blocked : Bool) (dim : Nat) (L2 L1 : Leaf E) (i : Nat) : Nat := if i = 0 then (if blocked then L2.dim else dim * L2.dim) else L1.dim

theorem th_fits {blocked : Bool} {dim : Nat} {L2 L1 : Leaf E} (hb : (thTree blocked dim L2 L1).WF) :
    Fits (IndexSet (thTree blocked dim L2 L1).model) (thBlockSize blocked dim L2 L1) (innerSize blocked dim) blocked := by
  have hlt : ∀ x k, x < L2.dim → k < dim → x * dim + k < dim * L2.dim := by
    intro x k hx hk
    calc x * dim + k < x * dim + dim := by omega
      _ = (x + 1) * dim := by rw [Nat.add_mul]; omega
      _ ≤ L2.dim * dim := Nat.mul_le_mul_right _ (by omega)
      _ = dim * L2.dim := Nat.mul_comm _ _
  refine ⟨fun m hm => ?_, fun m hm m' hm' h => ?_, fun r hr c hc i n k j m l hpr hpc => ?_⟩
  · rcases th_indices hb hm with ⟨x, k, hx, hk, rfl⟩ | ⟨x, hx, rfl⟩
    · cases blocked
      · exact ⟨0, x * dim + k, 0, rfl, by decide, by simpa [thBlockSize] using hlt x k hx hk, by simp [innerSize], rfl, rfl⟩
      · exact ⟨0, x, k, rfl, by decide, by simpa [thBlockSize] using hx, by simpa [innerSize] using hk, rfl, rfl⟩
    · exact ⟨1, x, 0, by simp [place], by decide, by simpa [thBlockSize] using hx, by simp [innerSize], rfl, rfl⟩
  · rcases th_indices hb hm with ⟨x, k, hx, hk, rfl⟩ | ⟨x, hx, rfl⟩ <;> rcases th_indices hb hm' with ⟨x', k', hx', hk', rfl⟩ | ⟨x', hx', rfl⟩ <;> cases blocked <;>
      simp_all [place]
  · rcases th_indices hb hr with ⟨x, k, hx, hk, rfl⟩ | ⟨x, hx, rfl⟩ <;> rcases th_indices hb hc with ⟨x', k', hx', hk', rfl⟩ | ⟨x', hx', rfl⟩ <;> cases blocked
    · change some (0, x * dim + k, 0) = _ at hpr; change some (0, x' * dim + k', 0) = _ at hpc; cases hpr; cases hpc; rfl
    · change some (0, x, k) = _ at hpr; change some (0, x', k') = _ at hpc; cases hpr; cases hpc; rfl
    · change some (0, x * dim + k, 0) = _ at hpr; change some (1, x', 0) = _ at hpc; cases hpr; cases hpc; rfl
    · change some (0, x, k) = _ at hpr; change some (1, x', 0) = _ at hpc; cases hpr; cases hpc; rfl
    · change some (1, x, 0) = _ at hpr; change some (0, x' * dim + k', 0) = _ at hpc; cases hpr; cases hpc; rfl
    · change some (1, x, 0) = _ at hpr; change some (0, x', k') = _ at hpc; cases hpr; cases hpc; rfl
    · change some (1, x, 0) = _ at hpr; change some (1, x', 0) = _ at hpc; cases hpr; cases hpc; rfl
    · change some (1, x, 0) = _ at hpr; change some (1, x', 0) = _ at hpc; cases hpr; cases hpc; rfl

theorem th_sizes (blocked : Bool) (dim : Nat) (L2 L1 : Leaf E) :
    (thTree blocked dim L2 L1).model.size [0] = some (thBlockSize blocked dim L2 L1 0) ∧ (thTree blocked dim L2 L1).model.size [1] = some (thBlockSize blocked dim L2 L1 1) := by
  cases blocked <;> exact ⟨rfl, rfl⟩

/-! ## Theorems -/

/-- **C117.** The nested matrix of examples/stokes-taylorhood.cc, in both variants: if the assembly of the matrix with multi-indices (C113) succeeds, so does that of the nested matrix, all entries
`matrixEntry(matrix, row, col)` exist, and the product with a nested vector has at the place of a multi-index the row of the product with the coefficients. -/
theorem C117_blocks [Field K] (blocked : Bool) {dim : Nat} (hdim : 0 < dim) {L2 L1 : Leaf E} (h2 : (PB.leaf L2).WF) (h1 : (PB.leaf L1).WF) {loc : LocalView E → Option (Nat → Nat → K)} {els : List E}
    {A : Sparse K} (hA : assembleMatrixWith (thTree blocked dim L2 L1).model loc els = some A) :
    ∃ B, assembleBlocks blocked dim (thTree blocked dim L2 L1).model loc els = some B ∧
      ∀ X, ∀ r ∈ IndexSet (thTree blocked dim L2 L1).model, ∃ i n k, place blocked r = some (i, n, k) ∧ B.row X i n k = A.row (coefs blocked X) r := by
  have hb := thTree_WF (hi := blocked) hdim h2 h1
  have H := th_fits hb
  obtain ⟨s0, s1⟩ := th_sizes blocked dim L2 L1
  obtain ⟨B, b1, b2⟩ := blocks_spec hb rfl H s0 s1 hA
  exact ⟨B, b1, fun X r hr => row_both H b2 X hr⟩

/-- **C117.** The whole system of examples/stokes-taylorhood.cc, after marked rows have been changed in the nested matrix, for any element matrices that depend on the element (such as those of C115): a nested
vector `X` solves it with a nested right hand side `Y` if and only if the coefficients of `X` solve the system with multi-indices whose marked rows are rows of the identity (C113, C115). -/
theorem C117_system [Field K] (blocked : Bool) {dim : Nat} (hdim : 0 < dim) {L2 L1 : Leaf E} (h2 : (PB.leaf L2).WF) (h1 : (PB.leaf L1).WF) {loc : LocalView E → Option (Nat → Nat → K)} {els : List E}
    {a : E → Nat → Nat → K} (hloc : assembleMatrixWith (thTree blocked dim L2 L1).model loc els = assembleMatrix (thTree blocked dim L2 L1).model a els) (marked : MI → Bool)
    {rows : List MI} (hr : Rows (thTree blocked dim L2 L1).model rows) :
    ∃ A B B', assembleMatrix (thTree blocked dim L2 L1).model a els = some A ∧ assembleBlocks blocked dim (thTree blocked dim L2 L1).model loc els = some B ∧
      blockRows blocked (thTree blocked dim L2 L1).model marked els B = some B' ∧
      ∀ X Y, (∀ r ∈ rows, ∀ i n k, place blocked r = some (i, n, k) → B'.row X i n k = Y i n k) ↔ Solves rows (identityRows marked rows A) (coefs blocked Y) (coefs blocked X) := by
  have hb := thTree_WF (hi := blocked) hdim h2 h1
  have H := th_fits hb
  obtain ⟨s0, s1⟩ := th_sizes blocked dim L2 L1
  obtain ⟨A, A', a1, a2, a3⟩ := C115_rows hb a els hr marked
  obtain ⟨B, b1, b2⟩ := blocks_spec hb rfl H s0 s1 (hloc.trans a1)
  obtain ⟨B', c1, c2⟩ := blockRows_spec H b2 a2
  refine ⟨A, B, B', a1, b1, c1, fun X Y => ?_⟩
  rw [← a3]
  refine forall_congr' fun r => forall_congr' fun hrr => ?_
  obtain ⟨i, n, k, d1, d2⟩ := row_both H c2 X ((hr.mem r).1 hrr)
  rw [← d2, coefs, d1]
  simp only [Option.some.injEq, Prod.mk.injEq, Option.map_some, Option.getD_some]
  constructor
  · exact fun h => h i n k ⟨rfl, rfl, rfl⟩
  · rintro h _ _ _ ⟨rfl, rfl, rfl⟩
    exact h

/-- **C117.** Different pairs of multi-indices of the basis have different entries of the nested matrix. -/
theorem C117_entries (blocked : Bool) {dim : Nat} (hdim : 0 < dim) {L2 L1 : Leaf E} (h2 : (PB.leaf L2).WF) (h1 : (PB.leaf L1).WF) {r c r' c' : MI}
    (hr : r ∈ IndexSet (thTree blocked dim L2 L1).model) (hc : c ∈ IndexSet (thTree blocked dim L2 L1).model) (hr' : r' ∈ IndexSet (thTree blocked dim L2 L1).model)
    (hc' : c' ∈ IndexSet (thTree blocked dim L2 L1).model) : ∃ s, matrixEntry blocked r c = some s ∧ (matrixEntry blocked r' c' = some s → r = r' ∧ c = c') := by
  exact (th_fits (thTree_WF (hi := blocked) hdim h2 h1)).entry_inj hr hc hr' hc'

/-! ## Example -/

/-- Quadratic velocities with two components and linear pressures on two intervals. -/
def exTH (blocked : Bool) : PB (Fin 2) := thTree blocked 2 ⟨5, 3, fun e => [2 * e.1, 2 * e.1 + 1, 2 * e.1 + 2]⟩ ⟨3, 2, fun e => [e.1, e.1 + 1]⟩

theorem exTH_WF (blocked : Bool) : (exTH blocked).WF := by
  refine thTree_WF (by decide) ?_ ?_ <;> rw [PB.WF] <;> decide

/-- A matrix with different entries. -/
def exEntries (v : LocalView (Fin 2)) : Option (Nat → Nat → ℚ) := some fun i j => 10 * i + j + v.size

/-- Entries of blocks of all kinds; the last one is in no sparse matrix. -/
example : (assembleBlocks true 2 (exTH true).model exEntries [0, 1]).map (fun B => [B.val ⟨0, 0, 0, 1, 1, 0⟩, B.val ⟨0, 1, 2, 1, 1, 0⟩, B.val ⟨1, 0, 1, 2, 0, 1⟩, B.val ⟨1, 1, 1, 1, 0, 0⟩, B.val ⟨0, 0, 0, 3, 0, 0⟩]) =
    some [39, 109, 154, 159, 0] := by decide +kernel
example : (assembleBlocks false 2 (exTH false).model exEntries [0, 1]).map (fun B => [B.val ⟨0, 0, 1, 2, 0, 0⟩, B.val ⟨0, 1, 5, 1, 0, 0⟩, B.val ⟨1, 0, 1, 5, 0, 0⟩, B.val ⟨1, 1, 1, 1, 0, 0⟩, B.val ⟨0, 0, 0, 6, 0, 0⟩]) =
    some [39, 109, 154, 159, 0] := by decide +kernel

/-- The first component of the velocity at the left end is marked: the second one keeps its row. -/
example : ((assembleBlocks true 2 (exTH true).model exEntries [0, 1]).bind fun B => blockRows true (exTH true).model (fun m => m == [0, 0, 0]) [0, 1] B).map (fun B =>
    [B.val ⟨0, 0, 0, 0, 0, 0⟩, B.val ⟨0, 0, 0, 0, 0, 1⟩, B.val ⟨0, 1, 0, 0, 0, 0⟩, B.val ⟨0, 0, 0, 0, 1, 0⟩]) = some [1, 0, 0, 38] := by decide +kernel

/-- Entries that do not exist. -/
example : (matrixEntry true [0, 1] [0, 1, 1], (⟨innerSize true 2, fun _ _ => [(0, 0)], fun _ => 0⟩ : Blocks ℚ).addTo ⟨0, 1, 0, 0, 2, 0⟩ 1 |>.isSome) = (none, false) := by decide +kernel

example (blocked : Bool) (marked : MI → Bool) : ∃ A B B', assembleMatrix (exTH blocked).model (fun _ i j => (10 * i + j + 8 : ℚ)) [0, 1] = some A ∧
    assembleBlocks blocked 2 (exTH blocked).model (fun _ => some fun i j => (10 * i + j + 8 : ℚ)) [0, 1] = some B ∧ blockRows blocked (exTH blocked).model marked [0, 1] B = some B' ∧
    ∀ X Y, (∀ r ∈ (([0, 1] : List (Fin 2)).flatMap fun e => ((exTH blocked).spec.loc e).map (exTH blocked).spec.mi).dedup, ∀ i n k, place blocked r = some (i, n, k) → B'.row X i n k = Y i n k) ↔
      Solves (([0, 1] : List (Fin 2)).flatMap fun e => ((exTH blocked).spec.loc e).map (exTH blocked).spec.mi).dedup
        (identityRows marked (([0, 1] : List (Fin 2)).flatMap fun e => ((exTH blocked).spec.loc e).map (exTH blocked).spec.mi).dedup A) (coefs blocked Y) (coefs blocked X) :=
  C117_system blocked (by decide) (by rw [PB.WF]; decide) (by rw [PB.WF]; decide) rfl marked (rows_of (exTH_WF blocked) (by decide))

end Verif.Galerkin

import Mathlib.Data.List.Nodup
import Mathlib.Algebra.BigOperators.Group.List.Basic

/-!
# Flat views of nested static containers

Model of `dune/functions/functionspacebases/flatvectorview.hh`.
-/

namespace Verif.FlatView

/-! ## Model -/

/-- Types: scalars; vectors handled by the generic backend (`FieldVector<X,n>`); `FieldMatrix<K,n,m>`;
`std::array<X,n>`. -/
inductive FT where
  | scalar
  | vec (n : Nat) (c : FT)
  | mat (n m : Nat)
  | arr (n : Nat) (c : FT)

/-- Values; a matrix is the list of its rows. -/
inductive FV (T : Type) where
  | scalar (t : T)
  | vec (l : List (FV T))
  | mat (rows : List (List T))
  | arr (l : List (FV T))

variable {T : Type}

/-- `FlatVectorBackend<...>::size`, flatvectorview.hh:45-57 (generic), 73-77 (matrices), 93-98 (arrays). -/
def FT.size : FT → Nat
  | .scalar => 1
  | .vec n _ => n
  | .mat n m => n * m
  | .arr n c => n * c.size

/-- `FlatVectorBackend<...>::getEntry`, flatvectorview.hh:31-43 (generic), 67-71 (matrices), 86-91 (arrays).
`none`: out of range access or division by zero. -/
def getEntry : FT → FV T → Nat → Option (FV T)
  | .scalar, v, _ => some v
  | .vec _ _, .vec l, i => l[i]?
  | .mat _ m, .mat rows, i => if m = 0 then none else (rows[i / m]?).bind fun r => (r[i % m]?).map .scalar
  | .arr _ c, .arr l, i => if c.size = 0 then none else (l[i / c.size]?).bind fun x => getEntry c x (i % c.size)
  | _, _, _ => none

/-! ## Specification -/

/-- The value has the type. -/
def Typed : FT → FV T → Prop
  | .scalar, .scalar _ => True
  | .vec n c, .vec l => l.length = n ∧ ∀ x ∈ l, Typed c x
  | .mat n m, .mat rows => rows.length = n ∧ ∀ r ∈ rows, r.length = m
  | .arr n c, .arr l => l.length = n ∧ ∀ x ∈ l, Typed c x
  | _, _ => False

mutual
/-- All scalar entries in lexicographic order. -/
def entries : FV T → List T
  | .scalar t => [t]
  | .vec l => entriesL l
  | .mat rows => rows.flatten
  | .arr l => entriesL l
def entriesL : List (FV T) → List T
  | [] => []
  | v :: vs => entries v ++ entriesL vs
end

/-- Arrays of arrays of ... of scalars, matrices or vectors of scalars. -/
def FT.Flat : FT → Prop
  | .scalar => True
  | .vec _ c => c = .scalar
  | .mat _ _ => True
  | .arr _ c => c.Flat

/-! ## Proofs -/

theorem entriesL_eq (l : List (FV T)) : entriesL l = l.flatMap entries := by
  induction l with
  | nil => rfl
  | cons v vs ih => simp [entriesL, ih]

theorem flatMap_get {α β : Type} (f : α → List β) (k : Nat) (l : List α) (h : ∀ x ∈ l, (f x).length = k) (hk : k ≠ 0)
    (i : Nat) : (l.flatMap f)[i]? = (l[i / k]?).bind fun x => (f x)[i % k]? := by
  induction l generalizing i with
  | nil => simp
  | cons a l ih =>
    have ha := h a List.mem_cons_self
    rw [List.flatMap_cons]
    by_cases hi : i < k
    · rw [List.getElem?_append_left (by omega), Nat.div_eq_of_lt hi, Nat.mod_eq_of_lt hi]; rfl
    · rw [List.getElem?_append_right (by omega), ha, ih (fun x hx => h x (List.mem_cons_of_mem _ hx)),
        Nat.div_eq_sub_div (by omega) (show k ≤ i by omega), Nat.mod_eq_sub_mod (show k ≤ i by omega)]
      rfl

theorem flatMap_len {α β : Type} (f : α → List β) (k : Nat) (l : List α) (h : ∀ x ∈ l, (f x).length = k) :
    (l.flatMap f).length = l.length * k := by
  induction l with
  | nil => simp
  | cons a l ih =>
    rw [List.flatMap_cons, List.length_append, ih (fun x hx => h x (List.mem_cons_of_mem _ hx)),
      h a List.mem_cons_self, List.length_cons, Nat.add_mul]
    omega

theorem entries_vec {l : List (FV T)} (h : ∀ x ∈ l, Typed .scalar x) : l = (entriesL l).map .scalar := by
  induction l with
  | nil => rfl
  | cons v vs ih =>
    have hv := h v List.mem_cons_self
    cases v with
    | scalar t =>
      simp only [entriesL, entries, List.singleton_append, List.map_cons, List.cons.injEq, true_and]
      exact ih (fun x hx => h x (List.mem_cons_of_mem _ hx))
    | _ => simp [Typed] at hv

theorem size_entries (t : FT) (ht : t.Flat) (v : FV T) (hv : Typed t v) : (entries v).length = t.size := by
  induction t generalizing v with
  | scalar =>
    cases v with
    | scalar x => rfl
    | _ => simp [Typed] at hv
  | vec n c _ =>
    cases v with
    | vec l =>
      obtain ⟨h1, h2⟩ := hv
      simp only [FT.Flat] at ht
      subst ht
      have := congrArg List.length (entries_vec h2)
      simp only [List.length_map] at this
      simp only [entries, FT.size]; omega
    | _ => simp [Typed] at hv
  | mat n m =>
    cases v with
    | mat rows =>
      obtain ⟨h1, h2⟩ := hv
      simp only [entries, FT.size]
      have := flatMap_len (fun r : List T => r) m rows h2
      rw [List.flatMap_id'] at this
      rw [this, h1]
    | _ => simp [Typed] at hv
  | arr n c ih =>
    cases v with
    | arr l =>
      obtain ⟨h1, h2⟩ := hv
      simp only [entries, entriesL_eq, FT.size]
      rw [flatMap_len entries c.size l (fun x hx => ih ht x (h2 x hx)), h1]
    | _ => simp [Typed] at hv

/-! ## C36 -/

/-- The flat view has as many entries as there are scalars, and entry `i` is the `i`-th scalar in
lexicographic order; for all types of (arrays of)* scalars, matrices and vectors of scalars. -/
theorem C36_partial (t : FT) (ht : t.Flat) (v : FV T) (hv : Typed t v) : t.size = (entries v).length ∧
    ∀ i, i < t.size → getEntry t v i = ((entries v)[i]?).map .scalar := by
  refine ⟨(size_entries t ht v hv).symm, ?_⟩
  induction t generalizing v with
  | scalar =>
    intro i hi
    simp only [FT.size, Nat.lt_one_iff] at hi
    subst hi
    cases v with
    | scalar x => rfl
    | _ => simp [Typed] at hv
  | vec n c _ =>
    intro i hi
    cases v with
    | vec l =>
      simp only [FT.Flat] at ht
      subst ht
      have := entries_vec hv.2
      simp only [getEntry, entries]
      conv_lhs => rw [this]
      rw [List.getElem?_map]
    | _ => simp [Typed] at hv
  | mat n m =>
    intro i hi
    cases v with
    | mat rows =>
      have hm : m ≠ 0 := by rintro rfl; simp [FT.size] at hi
      have := flatMap_get (fun r : List T => r) m rows hv.2 hm i
      rw [List.flatMap_id'] at this
      simp only [getEntry, entries, if_neg hm]
      rw [this, Option.map_bind]; rfl
    | _ => simp [Typed] at hv
  | arr n c ih =>
    intro i hi
    cases v with
    | arr l =>
      have hm : c.size ≠ 0 := by intro h0; simp [FT.size, h0] at hi
      have := flatMap_get entries c.size l (fun x hx => size_entries c ht x (hv.2 x hx)) hm i
      simp only [getEntry, entries, entriesL_eq, if_neg hm]
      rw [this, Option.map_bind]
      cases hx : l[i / c.size]? with
      | none => rfl
      | some x =>
        simp only [Option.bind_some, Function.comp]
        exact ih ht x (hv.2 x (List.mem_of_getElem? hx)) _ (Nat.mod_lt _ (by omega))
    | _ => simp [Typed] at hv

/-- The full claim, for all nestings. It is false. -/
def C36_full (T : Type) : Prop := ∀ (t : FT) (v : FV T), Typed t v → t.size = (entries v).length ∧
  ∀ i, i < t.size → getEntry t v i = ((entries v)[i]?).map .scalar

/-- `FieldVector<FieldVector<double,2>,1>` is not flattened: the view has size 1. -/
theorem C36_nested_vector_false : ¬ C36_full Nat := by
  intro h
  have := (h (.vec 1 (.vec 2 .scalar)) (.vec [.vec [.scalar 1, .scalar 2]]) (by simp [Typed])).1
  simp [FT.size, entries, entriesL] at this

/-- For all nestings the view enumerates the blocks it ends at exactly once, in order: the entries of the
view, flattened, are all scalar entries. -/
theorem C36_blocks (t : FT) (v : FV T) (hv : Typed t v) : ∃ bs : List (FV T), bs.length = t.size ∧
    (∀ i, i < t.size → getEntry t v i = bs[i]?) ∧ entriesL bs = entries v := by
  induction t generalizing v with
  | scalar => exact ⟨[v], rfl, fun i hi => by simp [FT.size] at hi; subst hi; rfl, by simp [entriesL]⟩
  | vec n c _ =>
    cases v with
    | vec l => exact ⟨l, hv.1, fun i _ => rfl, rfl⟩
    | _ => simp [Typed] at hv
  | mat n m =>
    cases v with
    | mat rows =>
      have h := C36_partial (.mat n m) trivial (.mat rows) hv
      refine ⟨rows.flatten.map .scalar, by rw [List.length_map]; exact h.1.symm, ?_, ?_⟩
      · intro i hi; rw [h.2 i hi, List.getElem?_map]; rfl
      · simp only [entries]
        generalize rows.flatten = l
        induction l with
        | nil => rfl
        | cons x l ih => simp [entriesL, entries, ih]
    | _ => simp [Typed] at hv
  | arr n c ih =>
    cases v with
    | arr l =>
      have hex : ∃ f : FV T → List (FV T), ∀ x ∈ l, (f x).length = c.size ∧
          (∀ i, i < c.size → getEntry c x i = (f x)[i]?) ∧ entriesL (f x) = entries x := by
        classical
        refine ⟨fun x => if h : x ∈ l then (ih x (hv.2 x h)).choose else [], fun x hx => ?_⟩
        simp only [dif_pos hx]
        exact (ih x (hv.2 x hx)).choose_spec
      obtain ⟨f, hf⟩ := hex
      refine ⟨l.flatMap f, ?_, ?_, ?_⟩
      · rw [flatMap_len f c.size l (fun x hx => (hf x hx).1), hv.1]; rfl
      · intro i hi
        have hm : c.size ≠ 0 := by intro h0; simp [FT.size, h0] at hi
        rw [flatMap_get f c.size l (fun x hx => (hf x hx).1) hm i]
        simp only [getEntry, if_neg hm]
        cases hx : l[i / c.size]? with
        | none => rfl
        | some x =>
          simp only [Option.bind_some]
          exact (hf x (List.mem_of_getElem? hx)).2.1 _ (Nat.mod_lt _ (by omega))
      · simp only [entries]
        have : ∀ x ∈ l, entriesL (f x) = entries x := fun x hx => (hf x hx).2.2
        clear hf ih hv
        induction l with
        | nil => rfl
        | cons a l ih =>
          rw [List.flatMap_cons, entriesL_eq, List.flatMap_append, ← entriesL_eq, ← entriesL_eq, entriesL,
            this a List.mem_cons_self, ih (fun x hx => this x (List.mem_cons_of_mem _ hx))]
    | _ => simp [Typed] at hv

/-! Example: `std::array<FieldMatrix<int,2,3>,2>`. -/

def exFV : FV Nat := .arr [.mat [[0, 1, 2], [3, 4, 5]], .mat [[6, 7, 8], [9, 10, 11]]]

example : (List.range 12).map (getEntry (.arr 2 (.mat 2 3)) exFV) = (List.range 12).map (fun i => some (.scalar i)) := rfl
example : (FT.arr 2 (.mat 2 3)).size = 12 ∧ ∀ i, i < 12 → getEntry (.arr 2 (.mat 2 3)) exFV i = some (.scalar i) := by
  have h := C36_partial (.arr 2 (.mat 2 3)) trivial exFV (by simp [exFV, Typed])
  refine ⟨h.1, fun i hi => ?_⟩
  rw [h.2 i hi]
  have : entries exFV = List.range 12 := rfl
  rw [this, List.getElem?_range hi]; rfl

end Verif.FlatView

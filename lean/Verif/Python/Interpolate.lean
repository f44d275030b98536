import Verif.Functions.RoundTrip

/-!
# Interpolation and discrete functions in Python

Model of `basis.interpolate(x, f)` and `basis.asFunction(x)` of the Python interface
(dune/python/functions/interpolate.hh, globalbasis.hh, discretefunction.hh, hierarchicvectorwrapper.hh) on top of the models of
`interpolate` (C39), of the ISTL backend (C33) and of the multi-index access (C35).
-/

namespace Verif.PyInterpolate

open Verif.IndexTree Verif.Container Verif.Interpolate

variable {E V : Type}

/-! ## Model -/

/-- Types of the entries of NumPy arrays: the three types with an overload of `interpolate` (`double`, `bool`, `int`), and all others
(single precision, 64 bit integers, other byte orders, ...). -/
inductive DType where
  | float64 | bool | intc | other (k : Nat)
  deriving DecidableEq

/-- A NumPy array: entry type, flag `writeable`, number of dimensions, extent of the first one, entries. -/
structure Arr (V : Type) where
  dtype : DType
  writeable : Bool
  ndim : Nat
  shape0 : Nat
  data : Ct V

/-- One-dimensional arrays have `shape0` entries. -/
def Arr.WF (a : Arr V) : Prop := a.ndim = 1 → HasType (.arr a.shape0 .scalar) a.data

/-- All NumPy arrays of the program. -/
abbrev Heap (V : Type) := List (Arr V)

/-- The argument `x`: an array, or another object (a list, ...). -/
inductive Arg where
  | array (i : Nat)
  | object (o : Nat)

inductive PyErr where
  | typeError | indexError | runtimeError | domainError | rangeError
  | ub
  deriving DecidableEq

/-- Outcome of a call: the arrays afterwards, and the exception if there is one. -/
structure Outcome (V : Type) where
  heap : Heap V
  error : Option PyErr

/-- The entry types of the overloads in the order of registration, globalbasis.hh:200-202, 206-208. -/
def overloads : List DType := [.float64, .bool, .intc]

/-- Calls of overloaded functions in pybind11: first, the overloads are tried without conversion. An argument `array_t<T>` (passed by value, interpolate.hh:18)
then accepts arrays with equivalent entry type only, and refers to the same array. -/
def pass1 (H : Heap V) : Arg → Option (DType × Nat)
  | .array i => (H[i]?).bind fun a => (overloads.find? (· == a.dtype)).map fun T => (T, i)
  | .object _ => none

/-- Second, the overloads are tried with conversion: `array_t<T>::ensure` makes a new array (`array_t<T>` has the default flag
`forcecast`). `ensure T arg` is the result of the conversion done by NumPy, `none` if that is not possible. -/
def pass2 (ensure : DType → Arg → Option (Arr V)) (arg : Arg) : Option (DType × Arr V) :=
  overloads.findSome? fun T => (ensure T arg).map fun a => (T, a)

/-- Exceptions of the C++ part: `RangeError` of the ISTL backend. -/
def ofErr : Err → PyErr
  | .ub => .ub
  | _ => .rangeError

/-- The function `interpolate<Basis, T>`, interpolate.hh:17-28, for the array `i`. `shape(0)` throws for arrays without dimensions,
`mutable_unchecked<1>()` for other dimensions than one and for read-only arrays. The array accessor has `operator[]`
and `size()` but no `resize()`. `I T` computes the coefficients with entry type `T`. All exceptions are thrown before the first entry is
written: `resize` does not change arrays without `resize()`. -/
def body (rs : CT → List (Ct V) → Nat → List (Ct V)) (pb : PreBasis E) (pre : List Nat) (I : DType → Interp E V) (es : List E) (H : Heap V)
    (T : DType) (i : Nat) : Outcome V :=
  match H[i]? with
  | none => ⟨H, some .ub⟩
  | some a =>
    if a.ndim = 0 then ⟨H, some .indexError⟩ else
    match pb.size [] with
    | none => ⟨H, some .ub⟩
    | some n =>
      if a.shape0 ≠ n then ⟨H, some .runtimeError⟩ else
      if a.ndim ≠ 1 ∨ a.writeable = false then ⟨H, some .domainError⟩ else
      match interpolate rs pb pre (.arr a.shape0 .scalar) (I T) .allTrue es a.data with
      | .error e => ⟨H, some (ofErr e)⟩
      | .ok c => ⟨H.set i { a with data := c }, none⟩

/-- `basis.interpolate(x, f)`. -/
def call (ensure : DType → Arg → Option (Arr V)) (rs : CT → List (Ct V) → Nat → List (Ct V)) (pb : PreBasis E) (pre : List Nat)
    (I : DType → Interp E V) (es : List E) (H : Heap V) (arg : Arg) : Outcome V :=
  match pass1 H arg with
  | some (T, i) => body rs pb pre I es H T i
  | none => match pass2 ensure arg with
    | some (T, a) => body rs pb pre I es (H ++ [a]) T H.length
    | none => ⟨H, some .typeError⟩

/-- The coefficient a function made by `basis.asFunction(x)` (globalbasis.hh:248-250) uses for the multi-index `m`: `HierarchicVectorWrapper::operator[]`
(hierarchicvectorwrapper.hh:42-52) on a `PythonVector`, which refers to the entries of `x` (dune-common). The size of `x` is not checked. -/
def coefficient (H : Heap V) (i : Nat) (m : MI) : Option V :=
  (H[i]?).bind fun a => match hybridAccess isScalar a.data m with
    | some (.scalar t) => some t
    | _ => none

/-! ## Proof -/

mutual
theorem hybrid_of_resolve (c d : Ct V) (s : Shifted) (h : resolve isScalar c s = some d) : hybridResolve isScalar c s = some d := by
  cases c with
  | scalar t =>
    simp only [resolve, isScalar, if_true] at h
    split at h
    · simpa [hybridResolve, isScalar] using h
    · cases h
  | vec l =>
    simp only [resolve, isScalar, Bool.false_eq_true, if_false] at h
    simpa [hybridResolve, isScalar] using hybrid_of_resolveAt l _ d _ h
  | arr l =>
    simp only [resolve, isScalar, Bool.false_eq_true, if_false] at h
    simpa [hybridResolve, isScalar] using hybrid_of_resolveAt l _ d _ h
  | tup l =>
    simp only [resolve, isScalar, Bool.false_eq_true, if_false] at h
    simp only [hybridResolve, isScalar, Bool.false_eq_true, if_false]
    split at h
    · next hl => rw [if_pos hl]; exact hybrid_of_resolveAt l _ d _ h
    · next hl => rw [if_neg hl]; exact hybrid_of_resolveAt l _ d _ h
theorem hybrid_of_resolveAt (l : List (Ct V)) (i : Nat) (d : Ct V) (s : Shifted) (h : resolveAt isScalar l i s = some d) :
    hybridResolveAt isScalar l i s = some d := by
  cases l with
  | nil => simp [resolveAt] at h
  | cons c cs =>
    cases i with
    | zero => exact hybrid_of_resolve c d s h
    | succ i => exact hybrid_of_resolveAt cs i d s h
end

theorem hybridAccess_of_access {c d : Ct V} {m : MI} (hm : m ≠ []) (h : access isScalar c m = some d) :
    hybridAccess isScalar c m = some d := by
  have := hybrid_of_resolve c d ⟨m, 0⟩ h
  rw [hybridAccess]
  split
  · next hc =>
    cases c with
    | scalar t =>
      simpa [hybridResolve, isScalar] using this
    | vec l => simp [isScalar] at hc
    | arr l => simp [isScalar] at hc
    | tup l => simp [isScalar] at hc
  · exact this

/-! ### Flat bases -/

/-- A flat basis with `n` coefficients: `basis.size() == n`, and `basis.size([i]) == 0` for all `i`. -/
structure Flat (pb : PreBasis E) (n : Nat) : Prop where
  size : pb.size [] = some n
  full : ∀ i < n, pb.size [i] = some 0

theorem mapKids_id (f : Nat → Ct V → Except Err (Ct V)) : ∀ (l : List (Ct V)) (k : Nat),
    (∀ i c, l[i]? = some c → f (k + i) c = .ok c) → mapKids f k l = .ok l
  | [], _, _ => rfl
  | c :: l, k, h => by
    have h0 := h 0 c rfl
    have ih := mapKids_id f l (k + 1) fun i d hd => by
      have := h (i + 1) d (by simpa using hd)
      rwa [show k + 1 + i = k + (i + 1) by omega]
    simp only [Nat.add_zero] at h0
    simp only [mapKids, h0, ih]

/-- Resizing an array of the right size to a flat basis does nothing. -/
theorem resize_flat (rs : CT → List (Ct V) → Nat → List (Ct V)) {pb : PreBasis E} {n : Nat} (hf : Flat pb n) {c : Ct V}
    (hc : HasType (.arr n .scalar) c) : resize rs pb.size (.arr n .scalar) c = .ok c := by
  cases c with
  | scalar t => simp [HasType] at hc
  | vec l => simp [HasType] at hc
  | tup l => simp [HasType] at hc
  | arr l =>
    simp only [HasType] at hc
    rw [Container.resize, resizeC, hf.size]
    dsimp only
    split
    · rfl
    · rw [if_neg (by simp [hc.1]), mapKids_id]
      · rfl
      · intro i c hi
        have hlt : i < l.length := (List.getElem?_eq_some_iff.1 hi).1
        have ht := hc.2 c (List.mem_of_getElem? hi)
        cases c with
        | scalar t =>
          simp only [Nat.zero_add, List.nil_append, resizeC, hf.full i (by omega), if_true]
        | vec l => simp [HasType] at ht
        | tup l => simp [HasType] at ht
        | arr l => simp [HasType] at ht

/-- The multi-indices of a flat basis have one digit. -/
theorem flat_index {b : PB E} (hb : b.WF) {n : Nat} (hf : Flat b.model n) (hn : 0 < n) {m : MI} (hm : m ∈ IndexSet b.model) :
    ∃ i < n, m = [i] := by
  obtain ⟨e, I, hI, hm⟩ := hm
  obtain ⟨I', hI', h⟩ := C01_digits_lt_size b hb e
  rw [hI] at hI'; injection hI' with hI'; subst hI'
  obtain ⟨h1, h2⟩ := h m hm
  match m, h1, h2 with
  | [], _, h2 => rw [hf.size] at h2; injection h2 with h2; omega
  | [i], h1, _ =>
    obtain ⟨k, hk, hlt⟩ := h1 [] i (List.prefix_refl _)
    rw [hf.size] at hk; injection hk with hk; subst hk
    exact ⟨i, hlt, rfl⟩
  | i :: j :: m, h1, _ =>
    exfalso
    obtain ⟨k, hk, hlt⟩ := h1 [] i ⟨j :: m, rfl⟩
    rw [hf.size] at hk; injection hk with hk; subst hk
    obtain ⟨k, hk, hlt'⟩ := h1 [i] j ⟨m, rfl⟩
    rw [hf.full i hlt] at hk; injection hk with hk; omega

theorem flat_padded {b : PB E} (hb : b.WF) {n : Nat} (hf : Flat b.model n) (hn : 0 < n) :
    ∀ m ∈ IndexSet b.model, ∀ t, CT.at m (.arr n .scalar) = some t → t.Padded := by
  intro m hm t ht
  obtain ⟨i, hi, rfl⟩ := flat_index hb hf hn hm
  simp only [CT.at, CT.kid, Option.bind_some, Option.some.injEq] at ht
  subst ht
  simp [CT.Padded, CT.ZeroOK]

/-- An array the function accepts without conversion and without exception. -/
structure Accepted (H : Heap V) (i : Nat) (a : Arr V) (n : Nat) : Prop where
  get : H[i]? = some a
  wf : a.WF
  dtype : a.dtype = .float64 ∨ a.dtype = .bool ∨ a.dtype = .intc
  ndim : a.ndim = 1
  writeable : a.writeable = true
  shape : a.shape0 = n

theorem pass1_accepted {H : Heap V} {i : Nat} {a : Arr V} (h : H[i]? = some a)
    (hd : a.dtype = .float64 ∨ a.dtype = .bool ∨ a.dtype = .intc) : pass1 H (.array i) = some (a.dtype, i) := by
  simp only [pass1, h, Option.bind_some, overloads]
  rcases hd with hd | hd | hd <;> rw [hd] <;> rfl

theorem call_accepted {ensure : DType → Arg → Option (Arr V)} {rs : CT → List (Ct V) → Nat → List (Ct V)} {pb : PreBasis E} {pre : List Nat}
    {I : DType → Interp E V} {es : List E} {H : Heap V} {i : Nat} {a : Arr V} {n : Nat} (hs : pb.size [] = some n) (ha : Accepted H i a n) :
    call ensure rs pb pre I es H (.array i) = match interpolate rs pb pre (.arr n .scalar) (I a.dtype) .allTrue es a.data with
      | .error e => ⟨H, some (ofErr e)⟩
      | .ok c => ⟨H.set i { a with data := c }, none⟩ := by
  rw [call, pass1_accepted ha.get ha.dtype]
  dsimp only
  rw [body, ha.get]
  dsimp only
  rw [if_neg (by rw [ha.ndim]; omega), hs]
  dsimp only
  rw [if_neg (by simp [ha.shape]), if_neg (by simp [ha.ndim, ha.writeable]), ha.shape]

theorem coefficient_set {H : Heap V} {i : Nat} {a : Arr V} (hi : H[i]? = some a) (c : Ct V) {m : MI} (hm : m ≠ []) {x : V}
    (h : access isScalar c m = some (.scalar x)) : coefficient (H.set i { a with data := c }) i m = some x := by
  have hlt : i < H.length := (List.getElem?_eq_some_iff.1 hi).1
  simp only [coefficient, List.getElem?_set_self hlt, Option.bind_some, hybridAccess_of_access hm h]

/-! ## Theorems -/

/-- **C74 (partial).** `basis.interpolate(x, f)` for a flat basis and a writeable one-dimensional NumPy array `x` of length `basis.size()` with entries
of type `double`, `bool` or `int`: there is no exception, the entry type of `x` decides which overload is used, no other array changes, and the
functions returned by `basis.asFunction(x)` (before or after the call) then use for each coefficient the value computed on the last element that contains it;
coefficients outside of the visited subspace keep their value. The full statement asks for this for all arguments for which there is no exception,
and for all bases; both are false, see `C74_convert_false` and `C74_asFunction_false`. -/
theorem C74_interpolate_partial {rs : CT → List (Ct V) → Nat → List (Ct V)} (hrs : ResizeOK rs) (b : PB E) (hb : b.WF) (pre : List Nat)
    (hp : HasPath b pre) {n : Nat} (hn : 0 < n) (hf : Flat b.model n) (ensure : DType → Arg → Option (Arr V)) (I : DType → Interp E V)
    (es : List E) (H : Heap V) (i : Nat) (a : Arr V) (ha : Accepted H i a n)
    (hI : ∀ w ∈ visits b.model pre es, w.i < ((I a.dtype).coefs w.element w.path).length) :
    ∃ H', call ensure rs b.model pre I es H (.array i) = ⟨H', none⟩ ∧ H'.length = H.length ∧ (∀ j ≠ i, H'[j]? = H[j]?) ∧
      (∀ V1 w V2, visits b.model pre es = V1 ++ w :: V2 → (∀ w' ∈ V2, w'.index ≠ w.index) →
        ∃ x, ((I a.dtype).coefs w.element w.path)[w.i]? = some x ∧ coefficient H' i w.index = some x) ∧
      (∀ m ∈ IndexSet b.model, (∀ w ∈ visits b.model pre es, w.index ≠ m) → coefficient H' i m = coefficient H i m) := by
  have hne : ∀ m ∈ IndexSet b.model, m ≠ [] := by
    intro m hm
    obtain ⟨k, _, rfl⟩ := flat_index hb hf hn hm
    exact List.cons_ne_nil _ _
  have hc : HasType (.arr n .scalar) a.data := by have := ha.wf ha.ndim; rwa [ha.shape] at this
  have hr := resize_flat rs hf hc
  have hent : ∀ m ∈ IndexSet b.model, ∃ x, Entry a.data m x := fun m hm => C33_entry hrs b hb _ _ _ hc hr m hm (flat_padded hb hf hn m hm)
  obtain ⟨c', h1, h2, _, h4⟩ := C39 rs b hb pre hp (.arr n .scalar) (I a.dtype) .allTrue es a.data a.data hr hent (fun _ _ => rfl) hI
  refine ⟨_, by rw [call_accepted hf.size ha, h1], List.length_set, fun j hj => List.getElem?_set_ne (Ne.symm hj), ?_, ?_⟩
  · intro V1 w V2 hV hlast
    obtain ⟨x, hx, hx'⟩ := h2 V1 w V2 hV rfl hlast
    refine ⟨x, hx, coefficient_set ha.get c' (hne _ (visits_mem hb hp es w (by rw [hV]; simp))) hx'⟩
  · intro m hm hv
    obtain ⟨x, hx⟩ := hent m hm
    have hx := C35_access _ _ _ hx
    have h5 := h4 m hm fun w hw hc => absurd hc (hv w hw)
    rw [coefficient_set ha.get c' (hne m hm) (by rw [h5, hx])]
    simp only [coefficient, ha.get, Option.bind_some, hybridAccess_of_access (hne m hm) hx]

/-- **C74, exceptions.** A call that raises an exception changes none of the arrays of the caller; arrays other than the argument are never changed. -/
theorem C74_exception (ensure : DType → Arg → Option (Arr V)) (rs : CT → List (Ct V) → Nat → List (Ct V)) (pb : PreBasis E) (pre : List Nat)
    (I : DType → Interp E V) (es : List E) (H : Heap V) (arg : Arg) (j : Nat) (hj : j < H.length)
    (h : (call ensure rs pb pre I es H arg).error ≠ none ∨ ∀ i, arg = .array i → j ≠ i) :
    (call ensure rs pb pre I es H arg).heap[j]? = H[j]? := by
  have key : ∀ (H1 : Heap V) T i, (body rs pb pre I es H1 T i).error ≠ none ∨ j ≠ i →
      (body rs pb pre I es H1 T i).heap[j]? = H1[j]? := by
    intro H1 T i h
    unfold body at h ⊢
    repeat' split
    all_goals first | rfl | skip
    all_goals simp_all
    exact List.getElem?_set_ne (by omega)
  unfold call at h ⊢
  split
  · next T i hp =>
    rw [hp] at h
    refine key H T i (h.imp id fun h => h i ?_)
    cases arg with
    | object o => simp [pass1] at hp
    | array k =>
      simp only [pass1] at hp
      cases hk : H[k]? with
      | none => simp [hk] at hp
      | some a =>
        rw [hk] at hp
        simp only [Option.bind_some, Option.map_eq_some_iff, Prod.mk.injEq] at hp
        obtain ⟨_, _, _, rfl⟩ := hp
        rfl
  · split
    · rw [key _ _ _ (.inr (by omega)), List.getElem?_append_left hj]
    · rfl

/-- **C74, wrong arrays.** For arrays with the right entry type: a wrong length, a wrong number of dimensions, and read-only arrays are reported, and
so are bases which are not flat. -/
theorem C74_reported (ensure : DType → Arg → Option (Arr V)) (rs : CT → List (Ct V) → Nat → List (Ct V)) (pb : PreBasis E) (pre : List Nat)
    (I : DType → Interp E V) (es : List E) (H : Heap V) (i : Nat) (a : Arr V) (n : Nat) (hs : pb.size [] = some n) (hi : H[i]? = some a)
    (hwf : a.WF) (hd : a.dtype = .float64 ∨ a.dtype = .bool ∨ a.dtype = .intc) :
    (a.ndim = 0 → call ensure rs pb pre I es H (.array i) = ⟨H, some .indexError⟩) ∧
    (a.ndim ≠ 0 → a.shape0 ≠ n → call ensure rs pb pre I es H (.array i) = ⟨H, some .runtimeError⟩) ∧
    (a.ndim ≠ 0 → a.shape0 = n → (a.ndim ≠ 1 ∨ a.writeable = false) → call ensure rs pb pre I es H (.array i) = ⟨H, some .domainError⟩) ∧
    (a.ndim = 1 → a.shape0 = n → a.writeable = true → (∀ j < n, ∃ k, pb.size [j] = some k) → (∃ j < n, pb.size [j] ≠ some 0) →
      call ensure rs pb pre I es H (.array i) = ⟨H, some .rangeError⟩) := by
  refine ⟨?_, ?_, ?_, ?_⟩
  · intro h0
    simp [call, pass1_accepted hi hd, body, hi, h0]
  · intro h0 h1
    simp [call, pass1_accepted hi hd, body, hi, h0, hs, h1]
  · intro h0 h1 h2
    simp only [call, pass1_accepted hi hd, body, hi, h0, hs, h1, ne_eq, not_true_eq_false, if_false]
    rw [if_pos h2]
  · intro h0 h1 h2 hdef ⟨j, hj, hjs⟩
    rw [call_accepted (a := a) hs ⟨hi, hwf, hd, h0, h2, h1⟩]
    have ht := hwf h0
    rw [h1] at ht
    have hr : resize rs pb.size (.arr n .scalar) a.data = .error .range := by
      cases hc : a.data with
      | scalar t => simp [hc, HasType] at ht
      | vec l => simp [hc, HasType] at ht
      | tup l => simp [hc, HasType] at ht
      | arr l =>
        rw [hc] at ht
        simp only [HasType] at ht
        rw [Container.resize, resizeC, hs]
        dsimp only
        rw [if_neg (by omega), if_neg (by simp [ht.1])]
        have key : ∀ (l : List (Ct V)) (k : Nat), (∀ c ∈ l, HasType .scalar c) → (∀ j, j < k + l.length → ∃ s, pb.size [j] = some s) →
            (∃ j, k ≤ j ∧ j < k + l.length ∧ pb.size [j] ≠ some 0) →
            mapKids (fun i c => resizeC rs pb.size .scalar ([] ++ [i]) c) k l = .error .range := by
          intro l
          induction l with
          | nil => intro k _ _ ⟨j, h1, h2, _⟩; simp at h2; omega
          | cons c l ih =>
            intro k ht hdef ⟨j, hj1, hj2, hj3⟩
            have htc := ht c (by simp)
            cases c with
            | vec l => simp [HasType] at htc
            | tup l => simp [HasType] at htc
            | arr l => simp [HasType] at htc
            | scalar t =>
              obtain ⟨s, hsk⟩ := hdef k (by simp)
              by_cases h0 : s = 0
              · subst h0
                have hne : j ≠ k := by rintro rfl; exact hj3 hsk
                simp only [List.length_cons] at hj2 hdef
                have := ih (k + 1) (fun c hc => ht c (by simp [hc])) (fun j hj => hdef j (by omega)) ⟨j, by omega, by omega, hj3⟩
                simp only [List.nil_append] at this
                simp only [mapKids, List.nil_append, resizeC, hsk, if_true, this]
              · simp only [mapKids, List.nil_append, resizeC, hsk, h0, if_false]
        rw [key l 0 ht.2 (fun j hj => hdef j (by omega)) ⟨j, by omega, by omega, hjs⟩]
        rfl
    have : resize rs (subspaceBasis pb pre).size (.arr n .scalar) a.data = .error .range := hr
    rw [interpolate, this]
    rfl

/-- The coefficients a function made by `asFunction` from the array `j` uses. -/
def asVector (H : Heap V) (j : Nat) : Discrete.Vec V := fun m => (coefficient H j m).map fun x => [x]

/-- **C74, round trip.** For a flat basis, `basis.interpolate(x, basis.asFunction(y))` makes `x` equal to `y` if both arrays have `basis.size()` entries and the
finite elements have dual functionals. -/
theorem C74_roundtrip [CommRing V] {X : Type} {rs : CT → List (Ct V) → Nat → List (Ct V)} (hrs : ResizeOK rs) {b : PB E} (hb : b.WF)
    {n : Nat} (hn : 0 < n) (hf : Flat b.model n) (P : Discrete.Shapes E X V) (hP : P.OK ⟨b.model, []⟩) (hd : P.dimC = 1)
    (hsep : RoundTrip.Separate ⟨b.model, []⟩ P) {N : RoundTrip.Functionals E X V} {needs : List Nat → E → Bool}
    (hN : RoundTrip.Dual ⟨b.model, []⟩ P N needs) (init : Option E → Option E) (ensure : DType → Arg → Option (Arr V))
    (es : List E) (hes : ∀ e, e ∈ es) (H : Heap V) (i j : Nat) (x y : Arr V) (hx : Accepted H i x n) (hy : Accepted H j y n) (hij : j ≠ i) :
    ∃ H', call ensure rs b.model [] (fun _ => RoundTrip.discreteInterp ⟨b.model, []⟩ P N needs init (asVector H j)) es H (.array i) = ⟨H', none⟩ ∧
      ∀ m ∈ IndexSet b.model, ∃ t, coefficient H' i m = some t ∧ coefficient H' j m = some t ∧ coefficient H j m = some t := by
  have hne : ∀ m ∈ IndexSet b.model, m ≠ [] := by
    intro m hm
    obtain ⟨k, _, rfl⟩ := flat_index hb hf hn hm
    exact List.cons_ne_nil _ _
  have hc : HasType (.arr n .scalar) x.data := by have := hx.wf hx.ndim; rwa [hx.shape] at this
  have hcy : HasType (.arr n .scalar) y.data := by have := hy.wf hy.ndim; rwa [hy.shape] at this
  have hr := resize_flat rs hf hc
  have hv : Discrete.VecOK ⟨b.model, []⟩ 1 (asVector H j) := by
    intro m hm
    obtain ⟨t, ht⟩ := C33_entry hrs b hb _ _ _ hcy (resize_flat rs hf hcy) m hm (flat_padded hb hf hn m hm)
    refine ⟨[t], ?_, rfl⟩
    simp only [asVector, coefficient, hy.get, Option.bind_some, hybridAccess_of_access (hne m hm) (C35_access _ _ _ ht), Option.map_some]
  obtain ⟨c', h1, h2⟩ := RoundTrip.C63_all hrs hb P hP hd hsep hN init hv (.arr n .scalar) es hes x.data x.data hc hr (flat_padded hb hf hn)
  refine ⟨_, by rw [call_accepted hf.size hx, h1], ?_⟩
  intro m hm
  obtain ⟨t, ht1, ht2⟩ := h2 m hm
  have ht3 : coefficient H j m = some t := by
    simp only [asVector, Option.map_eq_some_iff] at ht1
    obtain ⟨t', h, h'⟩ := ht1
    injection h' with h' _
    rw [h, h']
  refine ⟨t, coefficient_set hx.get c' (hne m hm) ht2, ?_, ht3⟩
  rw [← ht3]
  simp only [coefficient, List.getElem?_set_ne (Ne.symm hij)]

/-! ## Counterexamples -/

/-- **C74, other entry types (false).** For arrays with entries of any other type (single precision, 64 bit integers, ...), and for other objects like lists,
the call uses a temporary copy: it returns without exception, and the caller's array is unchanged, whatever the basis and the function are. -/
theorem C74_convert_false {rs : CT → List (Ct V) → Nat → List (Ct V)} (hrs : ResizeOK rs) (b : PB E) (hb : b.WF) {n : Nat} (hn : 0 < n)
    (hf : Flat b.model n) (ensure : DType → Arg → Option (Arr V)) (I : DType → Interp E V) (es : List E) (H : Heap V) (i : Nat) (a : Arr V) (k : Nat)
    (hi : H[i]? = some a) (hd : a.dtype = .other k) (a' : Arr V) (he : ensure .float64 (.array i) = some a') (hd' : a'.dtype = .float64)
    (hwf : a'.WF) (h1 : a'.ndim = 1) (hw : a'.writeable = true) (hs : a'.shape0 = n)
    (hI : ∀ w ∈ visits b.model [] es, w.i < ((I .float64).coefs w.element w.path).length) :
    (call ensure rs b.model [] I es H (.array i)).error = none ∧ ∀ j < H.length, (call ensure rs b.model [] I es H (.array i)).heap[j]? = H[j]? := by
  have hp1 : pass1 H (.array i) = none := by
    simp only [pass1, hi, Option.bind_some, overloads, hd]
    rfl
  have hp2 : pass2 ensure (.array i) = some (.float64, a') := by simp [pass2, overloads, he]
  have hcall : call ensure rs b.model [] I es H (.array i) = call ensure rs b.model [] I es (H ++ [a']) (.array H.length) := by
    have hget : (H ++ [a'])[H.length]? = some a' := by simp
    have : pass1 (H ++ [a']) (.array H.length) = some (.float64, H.length) := by
      have := pass1_accepted hget (.inl hd')
      rwa [hd'] at this
    rw [call, hp1, hp2, call, this]
  have hget : (H ++ [a'])[H.length]? = some a' := by simp
  obtain ⟨H', g1, _, g3, _⟩ := C74_interpolate_partial hrs b hb [] (.nil b) hn hf ensure I es (H ++ [a']) H.length a'
    ⟨hget, hwf, .inl hd', h1, hw, hs⟩ (by rwa [hd'])
  rw [hcall, g1]
  refine ⟨rfl, fun j hj => ?_⟩
  rw [g3 j (by omega), List.getElem?_append_left hj]

/-- **C74, blocked bases (false).** For multi-indices with more than one digit, `asFunction` ignores all digits but the first: in a function made from a
one-dimensional array, all coefficients of a block coincide. -/
theorem C74_asFunction_false (H : Heap V) (j : Nat) (a : Arr V) (hj : H[j]? = some a) (h1 : a.ndim = 1) (hwf : a.WF) (i : Nat) (p q : MI) :
    coefficient H j (i :: p) = coefficient H j (i :: q) := by
  have ht := hwf h1
  have key : ∀ r : MI, hybridAccess isScalar a.data (i :: r) = match a.data with | .arr l => l[i]? | _ => none := by
    intro r
    cases hc : a.data with
    | scalar t => simp [hc, HasType] at ht
    | vec l => simp [hc, HasType] at ht
    | tup l => simp [hc, HasType] at ht
    | arr l =>
      rw [hc] at ht
      simp only [HasType] at ht
      have hl : ∀ (l : List (Ct V)) (k : Nat) (s : Shifted), (∀ c ∈ l, HasType .scalar c) → hybridResolveAt isScalar l k s = l[k]? := by
        intro l
        induction l with
        | nil => intro k s _; simp [hybridResolveAt]
        | cons c l ih =>
          intro k s ht
          cases k with
          | zero =>
            have := ht c (by simp)
            cases c with
            | scalar t => simp [hybridResolveAt, hybridResolve, isScalar]
            | vec l => simp [HasType] at this
            | tup l => simp [HasType] at this
            | arr l => simp [HasType] at this
          | succ k => rw [hybridResolveAt, ih k s fun c hc => ht c (by simp [hc])]; rfl
      simp only [hybridAccess, isScalar, Bool.false_eq_true, if_false, hybridResolve, hl l _ _ ht.2]
      rfl
  simp only [coefficient, hj, Option.bind_some, key]

/-! ## Examples -/

/-- Two components with three coefficients each, interleaved. -/
def exBasis : PB Bool := .power .flatInt 2 (.leaf exLeaf)
theorem exBasis_WF : exBasis.WF := by simp [exBasis, PB.WF, exLeaf]
theorem exBasis_flat : Flat exBasis.model 6 := ⟨rfl, by decide +kernel⟩
def exInterp : DType → Interp Bool Int := fun T => {
  needsDerivative _ _ := false
  interp p e _ _ := [0, 1].map fun i => (if T = .bool then 1000 else 0) + (if e then 10 else 20) + 100 * (p[0]?.getD 0 : Nat) + i
  derivInit _ := none }
def exArr (T : DType) (x : Int) : Arr Int := ⟨T, true, 1, 6, .arr (List.replicate 6 (.scalar x))⟩
def exEnsure : DType → Arg → Option (Arr Int) := fun T _ => some (exArr T 0)
def exHeap : Heap Int := [exArr .float64 1, exArr .bool 2, exArr (.other 0) 3]
def exValues (b : PB Bool) (arg : Arg) (j : Nat) : List (Option Int) × Option PyErr :=
  let r := call exEnsure (stdResize 0) b.model [] exInterp [false, true] exHeap arg
  ((List.range 6).map fun i => coefficient r.heap j [i], r.error)

theorem exAccepted (i : Nat) (a : Arr Int) (h : (i = 0 ∧ a = exArr .float64 1) ∨ (i = 1 ∧ a = exArr .bool 2)) : Accepted exHeap i a 6 := by
  rcases h with ⟨rfl, rfl⟩ | ⟨rfl, rfl⟩
  · exact ⟨rfl, fun _ => by simp [exArr, HasType], .inl rfl, rfl, rfl, rfl⟩
  · exact ⟨rfl, fun _ => by simp [exArr, HasType], .inr (.inl rfl), rfl, rfl, rfl⟩

theorem exInterp_length : ∀ T, ∀ w ∈ visits exBasis.model [] [false, true], w.i < ((exInterp T).coefs w.element w.path).length := by
  intro T w hw
  have h : ∀ w ∈ visits exBasis.model [] [false, true], w.i < 2 := by decide +kernel
  simpa [Interp.coefs, exInterp] using h w hw

example : ∃ H', call exEnsure (stdResize 0) exBasis.model [] exInterp [false, true] exHeap (.array 1) = ⟨H', none⟩ ∧ H'.length = 3 ∧
    (∀ j ≠ 1, H'[j]? = exHeap[j]?) ∧
    (∀ V1 w V2, visits exBasis.model [] [false, true] = V1 ++ w :: V2 → (∀ w' ∈ V2, w'.index ≠ w.index) →
      ∃ x, ((exInterp .bool).coefs w.element w.path)[w.i]? = some x ∧ coefficient H' 1 w.index = some x) ∧
    (∀ m ∈ IndexSet exBasis.model, (∀ w ∈ visits exBasis.model [] [false, true], w.index ≠ m) → coefficient H' 1 m = coefficient exHeap 1 m) :=
  C74_interpolate_partial (stdResize_OK 0) exBasis exBasis_WF [] (.nil _) (by omega) exBasis_flat exEnsure exInterp [false, true] exHeap 1 (exArr .bool 2)
    (exAccepted 1 _ (.inr ⟨rfl, rfl⟩)) (exInterp_length _)

/-- The first two calls fill the argument, the third leaves it unchanged, all without exception; for the blocked basis there is an exception. -/
example : exValues exBasis (.array 0) 0 = ([some 10, some 110, some 11, some 111, some 20, some 120], none) := by decide +kernel
example : exValues exBasis (.array 1) 1 = ([some 1010, some 1110, some 1011, some 1111, some 1020, some 1120], none) := by decide +kernel
example : exValues exBasis (.array 2) 2 = ([some 3, some 3, some 3, some 3, some 3, some 3], none) := by decide +kernel
example : (exValues exBasis (.array 3) 0).2 = none := by decide +kernel
example : (exValues (.power .blockedInt 2 (.leaf exLeaf)) (.array 0) 0).2 = some .runtimeError := by decide +kernel

example : (call exEnsure (stdResize 0) exBasis.model [] exInterp [false, true] exHeap (.array 2)).error = none ∧
    ∀ j < 3, (call exEnsure (stdResize 0) exBasis.model [] exInterp [false, true] exHeap (.array 2)).heap[j]? = exHeap[j]? :=
  C74_convert_false (stdResize_OK 0) exBasis exBasis_WF (by omega) exBasis_flat exEnsure exInterp [false, true] exHeap 2 (exArr (.other 0) 3) 0 rfl rfl
    (exArr .float64 0) rfl rfl (fun _ => by simp [exArr, HasType]) rfl rfl rfl (exInterp_length _)

/-- Three blocks of two coefficients with an array of length three. -/
example : call exEnsure (stdResize 0) (PB.power .blockedInt 2 (.leaf exLeaf)).model [] exInterp [false, true]
    [⟨.float64, true, 1, 3, .arr (List.replicate 3 (.scalar 1))⟩] (.array 0) = ⟨[⟨.float64, true, 1, 3, .arr (List.replicate 3 (.scalar 1))⟩], some .rangeError⟩ :=
  (C74_reported exEnsure (stdResize 0) (PB.power .blockedInt 2 (.leaf exLeaf)).model [] exInterp [false, true] _ 0
    ⟨.float64, true, 1, 3, .arr (List.replicate 3 (.scalar 1))⟩ 3 rfl rfl (fun _ => by simp [HasType]) (.inl rfl)).2.2.2 rfl rfl rfl
    (by
      have : ∀ j < 3, (PB.power .blockedInt 2 (.leaf exLeaf)).model.size [j] = some 2 := by decide +kernel
      exact fun j hj => ⟨2, this j hj⟩) ⟨0, by omega, by decide +kernel⟩

/-- A function on the blocked basis reads the same coefficient for both components. -/
example : coefficient [⟨.float64, true, 1, 3, .arr [.scalar (5 : Int), .scalar 6, .scalar 7]⟩] 0 [1, 0] = some 6 ∧
    coefficient [⟨.float64, true, 1, 3, .arr [.scalar (5 : Int), .scalar 6, .scalar 7]⟩] 0 [1, 1] = some 6 := by decide +kernel

/-- The array is too short: undefined behaviour. -/
example : coefficient [⟨.float64, true, 1, 1, .arr [.scalar (5 : Int)]⟩] 0 [1] = none := by decide +kernel

theorem ex_slots : ∀ e, Discrete.slotsOn ⟨exBasis.model, []⟩ e = [([0], 0, 2), ([1], 2, 2)] := by decide +kernel

theorem ex_shapes : (Discrete.exShapes true fun _ p => [p]).OK ⟨exBasis.model, []⟩ := by
  refine ⟨?_, ?_, ?_⟩
  · intro d e x s hs
    rw [ex_slots] at hs
    simp only [List.mem_cons, List.not_mem_nil, or_false] at hs
    rcases hs with rfl | rfl <;> cases d <;> rfl
  · intro d e x s _ φ hφ
    simp only [Discrete.exShapes, List.mem_map] at hφ
    obtain ⟨z, _, rfl⟩ := hφ
    cases d <;> simp [Discrete.exShapes, Discrete.Shapes.cols]
  · intro d e s _
    cases d <;> simp [Discrete.exShapes, Discrete.Shapes.outCols]

theorem ex_dual : RoundTrip.Dual ⟨exBasis.model, []⟩ (Discrete.exShapes true fun _ p => [p]) RoundTrip.exN fun _ _ => false := by
  intro e s hs c hc
  have hs2 : s.2.2 = 2 := by
    rw [ex_slots] at hs
    simp only [List.mem_cons, List.not_mem_nil, or_false] at hs
    rcases hs with rfl | rfl <;> rfl
  rw [hs2] at hc
  match c, hc with
  | [a, b], _ => simp [RoundTrip.exN, RoundTrip.combination, Discrete.exShapes, Discrete.Shapes.outCols, List.range_succ]

example : ∃ H', call exEnsure (stdResize 0) exBasis.model [] (fun _ => RoundTrip.discreteInterp ⟨exBasis.model, []⟩ (Discrete.exShapes true fun _ p => [p])
      RoundTrip.exN (fun _ _ => false) id (asVector exHeap 1)) [false, true] exHeap (.array 0) = ⟨H', none⟩ ∧
    ∀ m ∈ IndexSet exBasis.model, ∃ t, coefficient H' 0 m = some t ∧ coefficient H' 1 m = some t ∧ coefficient exHeap 1 m = some t :=
  C74_roundtrip (stdResize_OK 0) exBasis_WF (by omega) exBasis_flat _ ex_shapes rfl
    (by intro d e; rw [ex_slots]; simp [Discrete.exShapes]) ex_dual id exEnsure [false, true] (by decide) exHeap 0 1 _ _
    (exAccepted 0 _ (.inl ⟨rfl, rfl⟩)) (exAccepted 1 _ (.inr ⟨rfl, rfl⟩)) (by omega)

end Verif.PyInterpolate

import Verif.IndexTree.Props

/-!
# Multi-index access to nested containers

Model of `dune/functions/common/indexaccess.hh`: `hybridIndexAccess`, the shifted multi-indices,
`hybridMultiIndexAccess`, `resolveDynamicMultiIndex` and `resolveStaticMultiIndex`.
-/

namespace Verif.Container

open Verif.IndexTree

variable {T : Type}

/-! ## Model -/

/-- Nested containers. `vec`: `operator[]` for run time indices and `resize()` (`std::vector`, `BlockVector`);
`arr`: `operator[]` for run time indices only (`std::array`, `FieldVector`); `tup`: only static indices
(`TupleVector`, `MultiTypeBlockVector`). -/
inductive Ct (T : Type) where
  | scalar (t : T)
  | vec (l : List (Ct T))
  | arr (l : List (Ct T))
  | tup (l : List (Ct T))

/-- The entries of a container. -/
def Ct.kids : Ct T → List (Ct T)
  | .scalar _ => []
  | .vec l => l
  | .arr l => l
  | .tup l => l

/-- `ShiftedDynamicMultiIndex<Index, offset>`, indexaccess.hh:119-158. -/
structure Shifted where
  index : MI
  offset : Nat

/-- `ShiftedDynamicMultiIndex::size`, indexaccess.hh:143-149. -/
def Shifted.size (s : Shifted) : Nat :=
  if s.offset < s.index.length then s.index.length - s.offset else 0

/-- `ShiftedDynamicMultiIndex::operator[]`, indexaccess.hh:127-133. -/
def Shifted.get (s : Shifted) (position : Nat) : Nat :=
  if position < s.size then s.index.getD (position + s.offset) 0 else 0

/-- `ShiftedDynamicMultiIndex::pop`, indexaccess.hh:138-141. -/
def Shifted.pop (s : Shifted) : Shifted := ⟨s.index, s.offset + 1⟩

mutual
/-- `Imp::resolveDynamicMultiIndex`, indexaccess.hh:300-334. `fin` is the predicate `isFinal`. `none`:
out of range access, failing assertion (line 301), or the code does not compile (scalars that are not
final). Static containers search for a matching static index and fall back to entry 0 (lines 318-324). -/
def resolve (fin : Ct T → Bool) : Ct T → Shifted → Option (Ct T)
  | .scalar t, s => if fin (.scalar t) then (if s.size = 0 then some (.scalar t) else none) else none
  | .vec l, s => if fin (.vec l) then (if s.size = 0 then some (.vec l) else none)
      else resolveAt fin l (s.get 0) s.pop
  | .arr l, s => if fin (.arr l) then (if s.size = 0 then some (.arr l) else none)
      else resolveAt fin l (s.get 0) s.pop
  | .tup l, s => if fin (.tup l) then (if s.size = 0 then some (.tup l) else none)
      else if s.get 0 < l.length then resolveAt fin l (s.get 0) s.pop else resolveAt fin l 0 s.pop
/-- `c[i]` followed by the recursive call. -/
def resolveAt (fin : Ct T → Bool) : List (Ct T) → Nat → Shifted → Option (Ct T)
  | [], _, _ => none
  | c :: _, 0, s => resolve fin c s
  | _ :: cs, i + 1, s => resolveAt fin cs i s
end

/-- The default criterion: there is no `operator[]`, indexaccess.hh:398-403. -/
def isScalar : Ct T → Bool
  | .scalar _ => true
  | _ => false

/-- `resolveDynamicMultiIndex(c, multiIndex, isFinal)`, indexaccess.hh:376-380. -/
def access (fin : Ct T → Bool) (c : Ct T) (m : MI) : Option (Ct T) := resolve fin c ⟨m, 0⟩

mutual
/-- `MultiIndexResolver::operator()`, indexaccess.hh:237-261, with `conv` the predicate "convertible to the
result type"; same conventions as `resolve` but there is no assertion. -/
def hybridResolve (conv : Ct T → Bool) : Ct T → Shifted → Option (Ct T)
  | .scalar t, _ => if conv (.scalar t) then some (.scalar t) else none
  | .vec l, s => if conv (.vec l) then some (.vec l) else hybridResolveAt conv l (s.get 0) s.pop
  | .arr l, s => if conv (.arr l) then some (.arr l) else hybridResolveAt conv l (s.get 0) s.pop
  | .tup l, s => if conv (.tup l) then some (.tup l)
      else if s.get 0 < l.length then hybridResolveAt conv l (s.get 0) s.pop else hybridResolveAt conv l 0 s.pop
def hybridResolveAt (conv : Ct T → Bool) : List (Ct T) → Nat → Shifted → Option (Ct T)
  | [], _, _ => none
  | c :: _, 0, s => hybridResolve conv c s
  | _ :: cs, i + 1, s => hybridResolveAt conv cs i s
end

/-- `hybridMultiIndexAccess<Result>(c, index)`, indexaccess.hh:285-291. The first digit is read from the
given multi-index itself, which must not be empty (line 249). -/
def hybridAccess (conv : Ct T → Bool) (c : Ct T) (m : MI) : Option (Ct T) :=
  if conv c then some c else if m = [] then none else hybridResolve conv c ⟨m, 0⟩

theorem Shifted.size_eq (s : Shifted) : s.size = (s.index.drop s.offset).length := by
  rw [Shifted.size, List.length_drop]; split <;> omega

theorem Shifted.pop_size_lt (s : Shifted) (h : ¬ s.size = 0) : s.pop.size < s.size := by
  rw [Shifted.size_eq, List.length_drop] at h; rw [Shifted.size_eq, Shifted.size_eq s, List.length_drop, List.length_drop]
  have h1 : s.pop.index = s.index := rfl
  have h2 : s.pop.offset = s.offset + 1 := rfl
  rw [h1, h2]; omega

/-- `Imp::resolveStaticMultiIndex`, indexaccess.hh:336-348. `ShiftedStaticMultiIndex` (162-197) has the same
members as the dynamic one, evaluated at compile time; out of range digits do not compile (`none`). -/
def staticResolve (c : Ct T) (s : Shifted) : Option (Ct T) :=
  if s.size = 0 then some c else (c.kids[s.get 0]?).bind fun d => staticResolve d s.pop
termination_by s.size
decreasing_by exact Shifted.pop_size_lt s (by assumption)

/-- `resolveStaticMultiIndex`, indexaccess.hh:420-424. -/
def staticAccess (c : Ct T) (m : MI) : Option (Ct T) := staticResolve c ⟨m, 0⟩

mutual
/-- Assignment `resolveDynamicMultiIndex(c, multiIndex) = x`: the reference returned at the end of the
recursion above is written. -/
def assign (x : T) : Ct T → Shifted → Option (Ct T)
  | .scalar _, s => if s.size = 0 then some (.scalar x) else none
  | .vec l, s => (assignAt x l (s.get 0) s.pop).map .vec
  | .arr l, s => (assignAt x l (s.get 0) s.pop).map .arr
  | .tup l, s => (if s.get 0 < l.length then assignAt x l (s.get 0) s.pop else assignAt x l 0 s.pop).map .tup
def assignAt (x : T) : List (Ct T) → Nat → Shifted → Option (List (Ct T))
  | [], _, _ => none
  | c :: cs, 0, s => (assign x c s).map (· :: cs)
  | c :: cs, i + 1, s => (assignAt x cs i s).map (c :: ·)
end

/-! ## Specification -/

/-- Following a path of digits. -/
def Ct.at : MI → Ct T → Option (Ct T)
  | [], c => some c
  | i :: p, c => (c.kids[i]?).bind (Ct.at p)

/-! ## Proofs -/

theorem Shifted.get_eq (s : Shifted) (i : Nat) : s.get i = (s.index.drop s.offset).getD i 0 := by
  rw [Shifted.get, Shifted.size_eq]
  split
  · rw [List.getD_eq_getElem?_getD, List.getD_eq_getElem?_getD, List.getElem?_drop, Nat.add_comm]
  · rename_i h
    rw [List.getD_eq_getElem?_getD, List.getElem?_eq_none (by omega)]; rfl

theorem resolveAt_eq (fin : Ct T → Bool) (l : List (Ct T)) (i : Nat) (s : Shifted) :
    resolveAt fin l i s = (l[i]?).bind fun c => resolve fin c s := by
  induction l generalizing i with
  | nil => simp [resolveAt]
  | cons c cs ih => cases i <;> simp [resolveAt, ih]

theorem hybridResolveAt_eq (fin : Ct T → Bool) (l : List (Ct T)) (i : Nat) (s : Shifted) :
    hybridResolveAt fin l i s = (l[i]?).bind fun c => hybridResolve fin c s := by
  induction l generalizing i with
  | nil => simp [hybridResolveAt]
  | cons c cs ih => cases i <;> simp [hybridResolveAt, ih]

theorem assignAt_eq (x : T) (l : List (Ct T)) (i : Nat) (s : Shifted) :
    assignAt x l i s = (l[i]?).bind fun c => (assign x c s).map (l.set i) := by
  induction l generalizing i with
  | nil => simp [assignAt]
  | cons c cs ih =>
    cases i with
    | zero => simp only [assignAt, List.getElem?_cons_zero, Option.bind_some]; rfl
    | succ i =>
      simp only [assignAt, ih, List.getElem?_cons_succ]
      cases cs[i]? with
      | none => rfl
      | some d => simp only [Option.bind_some, Option.map_map]; rfl

/-- The remaining digits of a shifted multi-index. -/
def Shifted.rest (s : Shifted) : MI := s.index.drop s.offset

theorem Shifted.rest_pop (s : Shifted) : s.pop.rest = s.rest.tail := by
  simp [Shifted.rest, Shifted.pop]

/-- `p` continues the digits `m` by zeros. -/
def Pads (m p : MI) : Prop := ∃ k, p = m ++ List.replicate k 0

theorem Pads.cons {m : MI} {i : Nat} {p : MI} (h : Pads m (i :: p)) : i = m.getD 0 0 ∧ Pads m.tail p := by
  obtain ⟨k, hk⟩ := h
  cases m with
  | nil =>
    cases k with
    | zero => simp at hk
    | succ k =>
      simp only [List.replicate_succ, List.nil_append, List.cons.injEq] at hk
      exact ⟨hk.1, k, by simpa using hk.2⟩
  | cons a m =>
    simp only [List.cons_append, List.cons.injEq] at hk
    exact ⟨hk.1, k, hk.2⟩

theorem Pads.nil {m : MI} (h : Pads m []) : m = [] := by
  obtain ⟨k, hk⟩ := h
  have := congrArg List.length hk
  simp at this
  exact List.length_eq_zero_iff.mp (by omega)

theorem Pads.mk_cons {m p : MI} (h : Pads m.tail p) : Pads m (m.getD 0 0 :: p) := by
  obtain ⟨k, rfl⟩ := h
  cases m with
  | nil => exact ⟨k + 1, by simp [List.replicate_succ]⟩
  | cons a m => exact ⟨k, by simp⟩

theorem kids_lt {l : List (Ct T)} {i : Nat} {c : Ct T} (h : l[i]? = some c) : i < l.length :=
  (List.getElem?_eq_some_iff.mp h).1

/-- One step of the recursion for in range digits. -/
theorem resolve_step (fin : Ct T → Bool) (c d : Ct T) (s : Shifted) (hf : fin c = false)
    (hd : c.kids[s.get 0]? = some d) : resolve fin c s = resolve fin d s.pop := by
  cases c with
  | scalar t => simp [Ct.kids] at hd
  | vec l => simp only [Ct.kids] at hd; simp [resolve, hf, resolveAt_eq, hd]
  | arr l => simp only [Ct.kids] at hd; simp [resolve, hf, resolveAt_eq, hd]
  | tup l => simp only [Ct.kids] at hd; simp only [resolve, hf, Bool.false_eq_true, if_false, if_pos (kids_lt hd), resolveAt_eq, hd, Option.bind_some]

theorem hybridResolve_step (fin : Ct T → Bool) (c d : Ct T) (s : Shifted) (hf : fin c = false)
    (hd : c.kids[s.get 0]? = some d) : hybridResolve fin c s = hybridResolve fin d s.pop := by
  cases c with
  | scalar t => simp [Ct.kids] at hd
  | vec l => simp only [Ct.kids] at hd; simp [hybridResolve, hf, hybridResolveAt_eq, hd]
  | arr l => simp only [Ct.kids] at hd; simp [hybridResolve, hf, hybridResolveAt_eq, hd]
  | tup l => simp only [Ct.kids] at hd; simp only [hybridResolve, hf, Bool.false_eq_true, if_false, if_pos (kids_lt hd), hybridResolveAt_eq, hd, Option.bind_some]

theorem resolve_fin (fin : Ct T → Bool) (c : Ct T) (s : Shifted) (hf : fin c = true) :
    resolve fin c s = if s.size = 0 then some c else none := by
  cases c <;> simp [resolve, hf]

theorem hybridResolve_fin (fin : Ct T → Bool) (c : Ct T) (s : Shifted) (hf : fin c = true) :
    hybridResolve fin c s = some c := by
  cases c <;> simp [hybridResolve, hf]

theorem resolve_path (fin : Ct T → Bool) (p : MI) (c d : Ct T) (s : Shifted) (hp : Pads s.rest p)
    (hat : Ct.at p c = some d) (hd : fin d = true)
    (hn : ∀ q c', q <+: p → q ≠ p → Ct.at q c = some c' → fin c' = false) : resolve fin c s = some d := by
  induction p generalizing c s with
  | nil =>
    simp only [Ct.at, Option.some.injEq] at hat
    subst hat
    rw [resolve_fin _ _ _ hd, if_pos]
    rw [Shifted.size_eq]
    exact List.length_eq_zero_iff.mpr hp.nil
  | cons i p ih =>
    simp only [Ct.at, Option.bind_eq_some_iff] at hat
    obtain ⟨c1, hc1, hat⟩ := hat
    obtain ⟨hi, hp'⟩ := hp.cons
    have hi' : s.get 0 = i := by rw [Shifted.get_eq, hi]; rfl
    rw [resolve_step fin c c1 s (hn [] c List.nil_prefix (by simp) rfl) (by rw [hi']; exact hc1)]
    refine ih c1 s.pop (by rw [Shifted.rest_pop]; exact hp') hat ?_
    intro q c' hq hqp hc'
    exact hn (i :: q) c' (by simpa using hq) (by simpa using hqp) (by simp [Ct.at, hc1, hc'])

theorem hybrid_path (fin : Ct T → Bool) (p : MI) (c d : Ct T) (s : Shifted) (hp : Pads s.rest p)
    (hat : Ct.at p c = some d) (hd : fin d = true)
    (hn : ∀ q c', q <+: p → q ≠ p → Ct.at q c = some c' → fin c' = false) : hybridResolve fin c s = some d := by
  induction p generalizing c s with
  | nil =>
    simp only [Ct.at, Option.some.injEq] at hat
    subst hat
    exact hybridResolve_fin _ _ _ hd
  | cons i p ih =>
    simp only [Ct.at, Option.bind_eq_some_iff] at hat
    obtain ⟨c1, hc1, hat⟩ := hat
    obtain ⟨hi, hp'⟩ := hp.cons
    have hi' : s.get 0 = i := by rw [Shifted.get_eq, hi]; rfl
    rw [hybridResolve_step fin c c1 s (hn [] c List.nil_prefix (by simp) rfl) (by rw [hi']; exact hc1)]
    refine ih c1 s.pop (by rw [Shifted.rest_pop]; exact hp') hat ?_
    intro q c' hq hqp hc'
    exact hn (i :: q) c' (by simpa using hq) (by simpa using hqp) (by simp [Ct.at, hc1, hc'])

theorem scalar_inner {p q : MI} {c c' : Ct T} {t : T} (hat : Ct.at p c = some (.scalar t)) (hq : q <+: p)
    (hqp : q ≠ p) (hc' : Ct.at q c = some c') : isScalar c' = false := by
  induction q generalizing p c with
  | nil =>
    simp only [Ct.at, Option.some.injEq] at hc'
    subst hc'
    cases p with
    | nil => exact absurd rfl hqp
    | cons i p =>
      cases c with
      | scalar t => simp [Ct.at, Ct.kids] at hat
      | _ => rfl
  | cons i q ih =>
    cases p with
    | nil => simp at hq
    | cons j p =>
      simp only [List.cons_prefix_cons] at hq
      obtain ⟨rfl, hq⟩ := hq
      simp only [Ct.at, Option.bind_eq_some_iff] at hat hc'
      obtain ⟨c1, hc1, hat⟩ := hat
      obtain ⟨c2, hc2, hc'⟩ := hc'
      rw [hc1] at hc2; injection hc2 with hc2; subst hc2
      exact ih hat hq (by simpa using hqp) hc'

mutual
/-- There are no containers with static access only. -/
def NoTup : Ct T → Prop
  | .scalar _ => True
  | .vec l => NoTups l
  | .arr l => NoTups l
  | .tup _ => False
def NoTups : List (Ct T) → Prop
  | [] => True
  | c :: cs => NoTup c ∧ NoTups cs
end

theorem NoTups.get {l : List (Ct T)} (h : NoTups l) {i : Nat} {c : Ct T} (hc : l[i]? = some c) : NoTup c := by
  induction l generalizing i with
  | nil => simp at hc
  | cons a l ih =>
    cases i with
    | zero => simp at hc; subst hc; exact h.1
    | succ i => exact ih h.2 (by simpa using hc)

/-- Converse without static containers. -/
theorem resolve_conv : (c : Ct T) → (s : Shifted) → NoTup c → (d : Ct T) → resolve isScalar c s = some d →
    ∃ p t, Pads s.rest p ∧ Ct.at p c = some d ∧ d = .scalar t
  | .scalar t, s, _, d, h => by
    simp only [resolve, isScalar, if_true] at h
    split at h
    · rename_i h0
      injection h with h; subst h
      rw [Shifted.size_eq] at h0
      exact ⟨[], t, ⟨0, by simp [Shifted.rest, List.length_eq_zero_iff.mp h0]⟩, rfl, rfl⟩
    · simp at h
  | .vec l, s, hn, d, h => by
    simp only [resolve, isScalar, resolveAt_eq, Bool.false_eq_true, if_false, Option.bind_eq_some_iff] at h
    obtain ⟨c1, hc1, h⟩ := h
    obtain ⟨p, t, hp, hat, hd⟩ := resolve_conv c1 s.pop (hn.get hc1) d h
    rw [Shifted.rest_pop] at hp
    rw [Shifted.get_eq] at hc1
    exact ⟨_, t, hp.mk_cons, by simp only [Ct.at, Ct.kids]; exact Option.bind_eq_some_iff.mpr ⟨c1, hc1, hat⟩, hd⟩
  | .arr l, s, hn, d, h => by
    simp only [resolve, isScalar, resolveAt_eq, Bool.false_eq_true, if_false, Option.bind_eq_some_iff] at h
    obtain ⟨c1, hc1, h⟩ := h
    obtain ⟨p, t, hp, hat, hd⟩ := resolve_conv c1 s.pop (hn.get hc1) d h
    rw [Shifted.rest_pop] at hp
    rw [Shifted.get_eq] at hc1
    exact ⟨_, t, hp.mk_cons, by simp only [Ct.at, Ct.kids]; exact Option.bind_eq_some_iff.mpr ⟨c1, hc1, hat⟩, hd⟩
  | .tup l, s, hn, d, h => absurd hn (by simp [NoTup])
termination_by c => sizeOf c
decreasing_by
  all_goals
    have := List.sizeOf_lt_of_mem (List.mem_of_getElem? hc1)
    simp_wf; omega

theorem at_append (p q : MI) (c d : Ct T) (h : Ct.at p c = some d) : Ct.at (p ++ q) c = Ct.at q d := by
  induction p generalizing c with
  | nil => simp only [Ct.at, Option.some.injEq] at h; simp [h]
  | cons i p ih =>
    simp only [Ct.at, Option.bind_eq_some_iff] at h
    obtain ⟨c1, hc1, h⟩ := h
    simp only [List.cons_append, Ct.at, hc1, Option.bind_some]
    exact ih c1 h

/-! ## C35 -/

/-- Following the digits of `m` and then as many zeros as needed ends at the coefficient `t`. -/
def Entry (c : Ct T) (m : MI) (t : T) : Prop := ∃ k, Ct.at (m ++ List.replicate k 0) c = some (.scalar t)

/-- `resolveDynamicMultiIndex` returns the entry reached by following the digits in order and then implicit
zeros, for all nested containers. -/
theorem C35_access (c : Ct T) (m : MI) (t : T) (h : Entry c m t) : access isScalar c m = some (.scalar t) := by
  obtain ⟨k, hk⟩ := h
  exact resolve_path isScalar _ c _ ⟨m, 0⟩ ⟨k, rfl⟩ hk rfl (fun q c' hq hqp hc' => scalar_inner hk hq hqp hc')

/-- Without static containers nothing else is ever returned. -/
theorem C35_access_iff (c : Ct T) (hc : NoTup c) (m : MI) (d : Ct T) :
    access isScalar c m = some d ↔ ∃ t, d = .scalar t ∧ Entry c m t := by
  constructor
  · intro h
    obtain ⟨p, t, ⟨k, hk⟩, hat, rfl⟩ := resolve_conv c ⟨m, 0⟩ hc d h
    exact ⟨t, rfl, k, by rw [← hat, hk]; rfl⟩
  · rintro ⟨t, rfl, h⟩
    exact C35_access c m t h

/-- The full claim that an access with a multi-index which does not address an entry is never resolved. -/
def C35_full (T : Type) : Prop := ∀ (c : Ct T) (m : MI) (d : Ct T), access isScalar c m = some d →
  ∃ t, d = .scalar t ∧ Entry c m t

/-- It is false for static containers: an out of range digit silently addresses entry 0. -/
theorem C35_tuple_out_of_range_false : ¬ C35_full Nat := by
  intro h
  have h1 : access isScalar (.tup [.vec [.scalar 7], .scalar 8]) [2, 0] = some (.scalar (7 : Nat)) := rfl
  obtain ⟨t, _, k, hk⟩ := h _ _ _ h1
  simp [Ct.at, Ct.kids] at hk

/-- General stopping criteria: the first container on the way that satisfies the criterion is returned if
there are no digits left. -/
theorem C35_access_final (fin : Ct T → Bool) (c d : Ct T) (m : MI) (k : Nat)
    (hat : Ct.at (m ++ List.replicate k 0) c = some d) (hd : fin d = true)
    (hn : ∀ q c', q <+: m ++ List.replicate k 0 → q ≠ m ++ List.replicate k 0 → Ct.at q c = some c' → fin c' = false) :
    access fin c m = some d :=
  resolve_path fin _ c _ ⟨m, 0⟩ ⟨k, rfl⟩ hat hd hn

/-- `hybridMultiIndexAccess`: the first container on the way that is convertible to the result type. -/
theorem C35_hybrid (conv : Ct T → Bool) (c d : Ct T) (m : MI) (hm : m ≠ []) (p : MI)
    (hp : p <+: m ∨ m <+: p ∧ ∃ k, p = m ++ List.replicate k 0)
    (hat : Ct.at p c = some d) (hd : conv d = true)
    (hn : ∀ q c', q <+: p → q ≠ p → Ct.at q c = some c' → conv c' = false) :
    hybridAccess conv c m = some d := by
  rw [hybridAccess]
  by_cases hc : conv c = true
  · rw [if_pos hc]
    cases p with
    | nil => exact hat
    | cons i p => exact absurd (hn [] c List.nil_prefix (by simp) rfl) (by simp [hc])
  · rw [if_neg hc, if_neg hm]
    -- only the digits of `p` are read
    have key : ∀ (p : MI) (c : Ct T) (s : Shifted), (∃ r, Pads s.rest (p ++ r)) → Ct.at p c = some d →
        (∀ q c', q <+: p → q ≠ p → Ct.at q c = some c' → conv c' = false) → hybridResolve conv c s = some d := by
      intro p
      induction p with
      | nil =>
        intro c s _ hat _
        simp only [Ct.at, Option.some.injEq] at hat
        subst hat
        exact hybridResolve_fin _ _ _ hd
      | cons i p ih =>
        intro c s hr hat hn
        obtain ⟨r, hr⟩ := hr
        simp only [Ct.at, Option.bind_eq_some_iff] at hat
        obtain ⟨c1, hc1, hat⟩ := hat
        obtain ⟨hi, hp'⟩ := Pads.cons hr
        have hi' : s.get 0 = i := by rw [Shifted.get_eq, hi]; rfl
        rw [hybridResolve_step conv c c1 s (hn [] c List.nil_prefix (by simp) rfl) (by rw [hi']; exact hc1)]
        refine ih c1 s.pop ⟨r, by rw [Shifted.rest_pop]; exact hp'⟩ hat ?_
        intro q c' hq hqp hc'
        exact hn (i :: q) c' (by simpa using hq) (by simpa using hqp) (by simp [Ct.at, hc1, hc'])
    refine key p c ⟨m, 0⟩ ?_ hat hn
    rcases hp with ⟨r, hr⟩ | ⟨_, k, hk⟩
    · exact ⟨r, 0, by simp [hr, Shifted.rest]⟩
    · exact ⟨[], k, by simp [hk, Shifted.rest]⟩

/-- `resolveStaticMultiIndex` follows exactly the given digits. -/
theorem C35_static (c : Ct T) (m : MI) : staticAccess c m = Ct.at m c := by
  have key : ∀ (n : Nat) (c : Ct T) (s : Shifted), s.rest.length = n → staticResolve c s = Ct.at s.rest c := by
    intro n
    induction n with
    | zero =>
      intro c s hs
      rw [staticResolve, if_pos (by rw [Shifted.size_eq]; exact hs), List.length_eq_zero_iff.mp hs]; rfl
    | succ n ih =>
      intro c s hs
      rw [staticResolve, if_neg (by rw [Shifted.size_eq]; change ¬ s.rest.length = 0; omega), Shifted.get_eq]
      change (c.kids[s.rest.getD 0 0]?).bind _ = _
      obtain ⟨i, r, hr⟩ := List.exists_cons_of_ne_nil (l := s.rest) (by intro h; simp [h] at hs)
      have : s.pop.rest = r := by rw [Shifted.rest_pop, hr]; rfl
      rw [hr] at hs ⊢
      simp only [Ct.at, List.getD_cons_zero]
      congr 1; funext d
      rw [ih d s.pop (by rw [this]; simpa using hs), this]
  exact key _ c ⟨m, 0⟩ rfl

/-! ### Writing -/

theorem assign_step (x : T) (c d : Ct T) (s : Shifted) (hd : c.kids[s.get 0]? = some d) :
    ∃ f : List (Ct T) → Ct T, (∀ l, (f l).kids = l) ∧
      assign x c s = (assign x d s.pop).map fun d' => f (c.kids.set (s.get 0) d') := by
  cases c with
  | scalar t => simp [Ct.kids] at hd
  | vec l =>
    simp only [Ct.kids] at hd
    refine ⟨.vec, fun _ => rfl, ?_⟩
    simp only [assign, assignAt_eq, hd, Option.bind_some, Option.map_map, Ct.kids]; rfl
  | arr l =>
    simp only [Ct.kids] at hd
    refine ⟨.arr, fun _ => rfl, ?_⟩
    simp only [assign, assignAt_eq, hd, Option.bind_some, Option.map_map, Ct.kids]; rfl
  | tup l =>
    simp only [Ct.kids] at hd
    refine ⟨.tup, fun _ => rfl, ?_⟩
    simp only [assign, assignAt_eq, hd, if_pos (kids_lt hd), Option.bind_some, Option.map_map, Ct.kids]; rfl

theorem assign_path (x : T) (p : MI) (c : Ct T) (t : T) (s : Shifted) (hp : Pads s.rest p)
    (hat : Ct.at p c = some (.scalar t)) : ∃ c', assign x c s = some c' ∧ Ct.at p c' = some (.scalar x) ∧
      ∀ q d, Ct.at q c = some (.scalar d) → q ≠ p → Ct.at q c' = some (.scalar d) := by
  induction p generalizing c s with
  | nil =>
    simp only [Ct.at, Option.some.injEq] at hat
    subst hat
    refine ⟨.scalar x, ?_, rfl, ?_⟩
    · rw [assign, if_pos]
      rw [Shifted.size_eq]
      exact List.length_eq_zero_iff.mpr hp.nil
    · intro q d hq hqp
      cases q with
      | nil => exact absurd rfl hqp
      | cons i q => simp [Ct.at, Ct.kids] at hq
  | cons i p ih =>
    simp only [Ct.at, Option.bind_eq_some_iff] at hat
    obtain ⟨c1, hc1, hat⟩ := hat
    obtain ⟨hi, hp'⟩ := hp.cons
    have hi' : s.get 0 = i := by rw [Shifted.get_eq, hi]; rfl
    obtain ⟨f, hf, hs⟩ := assign_step x c c1 s (by rw [hi']; exact hc1)
    obtain ⟨c1', h1, h2, h3⟩ := ih c1 s.pop (by rw [Shifted.rest_pop]; exact hp') hat
    have hlt := kids_lt hc1
    refine ⟨f (c.kids.set i c1'), by rw [hs, h1, hi']; rfl, ?_, ?_⟩
    · simp only [Ct.at, hf, List.getElem?_set_self hlt, Option.bind_some, h2]
    · intro q d hq hqp
      cases q with
      | nil =>
        simp only [Ct.at, Option.some.injEq] at hq
        subst hq; simp [Ct.kids] at hlt
      | cons j q =>
        simp only [Ct.at, Option.bind_eq_some_iff, hf] at hq ⊢
        obtain ⟨c2, hc2, hq⟩ := hq
        by_cases hj : i = j
        · subst hj
          rw [hc1] at hc2; injection hc2 with hc2; subst hc2
          exact ⟨c1', List.getElem?_set_self hlt, h3 q d hq (by simpa using hqp)⟩
        · exact ⟨c2, by rw [List.getElem?_set_ne hj]; exact hc2, hq⟩

theorem pads_prefix {a b : MI} {j k : Nat} (h : a ++ List.replicate j 0 = b ++ List.replicate k 0) :
    a <+: b ∨ b <+: a := by
  have h1 : a <+: b ++ List.replicate k 0 := ⟨_, h⟩
  have h2 : b <+: b ++ List.replicate k 0 := List.prefix_append _ _
  exact List.prefix_or_prefix_of_prefix h1 h2

/-- The returned reference designates exactly one coefficient: writing through it changes what is read with
the same multi-index and nothing that is read with a multi-index that is not a prefix or extension, in
particular not what is read with any other multi-index of the same basis. -/
theorem C35_write (c : Ct T) (m : MI) (t x : T) (h : Entry c m t) :
    ∃ c', assign x c ⟨m, 0⟩ = some c' ∧ access isScalar c' m = some (.scalar x) ∧
      ∀ m' t', Entry c m' t' → ¬ m <+: m' → ¬ m' <+: m → access isScalar c' m' = some (.scalar t') := by
  obtain ⟨k, hk⟩ := h
  obtain ⟨c', h1, h2, h3⟩ := assign_path x _ c t ⟨m, 0⟩ ⟨k, rfl⟩ hk
  refine ⟨c', h1, C35_access c' m x ⟨k, h2⟩, ?_⟩
  rintro m' t' ⟨k', hk'⟩ hn hn'
  refine C35_access c' m' t' ⟨k', h3 _ _ hk' ?_⟩
  intro he
  rcases pads_prefix he with h | h
  · exact hn' h
  · exact hn h

/-- For two different multi-indices of the same basis. -/
theorem C35_write_basis {E : Type} (b : PB E) (hb : b.WF) (c : Ct T) (m m' : MI) (t t' x : T)
    (hm : m ∈ IndexSet b.model) (hm' : m' ∈ IndexSet b.model) (hne : m ≠ m') (h : Entry c m t) (h' : Entry c m' t') :
    ∃ c', assign x c ⟨m, 0⟩ = some c' ∧ access isScalar c' m = some (.scalar x) ∧
      access isScalar c' m' = some (.scalar t') := by
  obtain ⟨c', h1, h2, h3⟩ := C35_write c m t x h
  exact ⟨c', h1, h2, h3 m' t' h' (fun hp => hne (C04_prefixFree b hb m hm m' hm' hp))
    (fun hp => hne (C04_prefixFree b hb m' hm' m hm hp).symm)⟩

/-! Examples -/

/-- A Taylor-Hood like container with one velocity block and blocks of length 1 for the pressure. -/
def exCt : Ct Nat :=
  .tup [.vec [.arr [.scalar 1, .scalar 2], .arr [.scalar 3, .scalar 4]], .vec [.arr [.scalar 5], .arr [.scalar 6]]]

example : access isScalar exCt [0, 1, 0] = some (.scalar 3) := C35_access _ _ _ ⟨0, rfl⟩
example : access isScalar exCt [1, 1] = some (.scalar 6) := C35_access _ _ _ ⟨1, rfl⟩
example : access isScalar exCt [0, 1] = some (.scalar 3) := C35_access _ _ _ ⟨1, rfl⟩
example : access isScalar exCt [1, 2] = none := rfl
example : access isScalar exCt [1, 1, 0, 0] = none := rfl
example : hybridAccess isScalar exCt [1, 1, 0, 0] = some (.scalar 6) :=
  C35_hybrid isScalar _ _ _ (by simp) [1, 1, 0] (Or.inl (by decide)) rfl rfl
    (fun q c' h1 h2 h3 => scalar_inner (t := 6) (p := [1, 1, 0]) rfl h1 h2 h3)
example : staticAccess exCt [0, 1] = some (.arr [.scalar 3, .scalar 4]) := C35_static _ _
example : ∃ c', assign 9 exCt ⟨[1, 1], 0⟩ = some c' ∧ access isScalar c' [1, 1] = some (.scalar 9) ∧
    ∀ m' t', Entry exCt m' t' → ¬ [1, 1] <+: m' → ¬ m' <+: [1, 1] → access isScalar c' m' = some (.scalar t') :=
  C35_write exCt [1, 1] 6 9 ⟨1, rfl⟩

end Verif.Container

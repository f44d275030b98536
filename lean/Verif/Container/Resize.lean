import Verif.Container.Access
import Verif.IndexTree.Descriptor

/-!
# Resizing nested containers to a basis

Model of `ISTLVectorBackend::resize` in `dune/functions/backends/istlvectorbackend.hh`.
-/

namespace Verif.Container

open Verif.IndexTree

variable {T : Type}

/-! ## Model -/

/-- Types of nested containers, see `Ct`. -/
inductive CT where
  | scalar
  | vec (c : CT)
  | arr (n : Nat) (c : CT)
  | tup (cs : List CT)

mutual
/-- The container has the given type. -/
def HasType : CT → Ct T → Prop
  | .scalar, .scalar _ => True
  | .vec t, .vec l => ∀ c ∈ l, HasType t c
  | .arr n t, .arr l => l.length = n ∧ ∀ c ∈ l, HasType t c
  | .tup ts, .tup l => HasTypes ts l
  | _, _ => False
def HasTypes : List CT → List (Ct T) → Prop
  | [], [] => True
  | t :: ts, c :: cs => HasType t c ∧ HasTypes ts cs
  | _, _ => False
end

inductive Err where
  /-- `RangeError` -/
  | range
  /-- undefined behaviour -/
  | ub
  deriving DecidableEq

/-- Loop over all entries with their indices starting at `i`. -/
def mapKids (f : Nat → Ct T → Except Err (Ct T)) : Nat → List (Ct T) → Except Err (List (Ct T))
  | _, [] => .ok []
  | i, c :: cs => match f i c with
    | .error e => .error e
    | .ok c' => match mapKids f (i + 1) cs with
      | .error e => .error e
      | .ok cs' => .ok (c' :: cs')

mutual
/-- `ISTLVectorBackend::resize(c, sizeProvider, prefix)`, istlvectorbackend.hh:153-233: containers with
`resize()` method (153-185), other vectors (187-223), scalars (225-233). `sz` is `sizeProvider.size(prefix)`,
`rs` the `resize` method of vectors with the given entry type. -/
def resizeC (rs : CT → List (Ct T) → Nat → List (Ct T)) (sz : MI → Option Nat) : CT → MI → Ct T → Except Err (Ct T)
  | .vec t, pre, .vec l => match sz pre with
    | none => .error .ub
    | some n =>
      if n = 0 then (if l.length = 0 then .error .range else .ok (.vec l))
      else (mapKids (fun i c => resizeC rs sz t (pre ++ [i]) c) 0 (rs t l n)).map .vec
  | .arr _ t, pre, .arr l => match sz pre with
    | none => .error .ub
    | some n =>
      if n = 0 then .ok (.arr l)
      else if l.length ≠ n then .error .range
      else (mapKids (fun i c => resizeC rs sz t (pre ++ [i]) c) 0 l).map .arr
  | .tup ts, pre, .tup l => match sz pre with
    | none => .error .ub
    | some n =>
      if n = 0 then .ok (.tup l)
      else if l.length ≠ n then .error .range
      else (resizeTup rs sz ts pre 0 l).map .tup
  | .scalar, pre, .scalar t => match sz pre with
    | none => .error .ub
    | some n => if n = 0 then .ok (.scalar t) else .error .range
  | _, _, _ => .error .ub
/-- The static loop over the entries of a multi-type container. -/
def resizeTup (rs : CT → List (Ct T) → Nat → List (Ct T)) (sz : MI → Option Nat) :
    List CT → MI → Nat → List (Ct T) → Except Err (List (Ct T))
  | t :: ts, pre, i, c :: cs => match resizeC rs sz t (pre ++ [i]) c with
    | .error e => .error e
    | .ok c' => match resizeTup rs sz ts pre (i + 1) cs with
      | .error e => .error e
      | .ok cs' => .ok (c' :: cs')
  | _, _, _, _ => .ok []
end

/-- `vectorBackend.resize(sizeProvider)`, istlvectorbackend.hh:259-265. -/
def resize (rs : CT → List (Ct T) → Nat → List (Ct T)) (sz : MI → Option Nat) (ty : CT) (c : Ct T) :
    Except Err (Ct T) := resizeC rs sz ty [] c

/-- Contract of the `resize(n)` methods of the vector types: afterwards there are `n` entries of the entry
type. Nothing is assumed about their values. -/
structure ResizeOK (rs : CT → List (Ct T) → Nat → List (Ct T)) : Prop where
  length : ∀ t l n, (rs t l n).length = n
  typed : ∀ t l n, (∀ c ∈ l, HasType t c) → ∀ c ∈ rs t l n, HasType t c

mutual
/-- Default constructed entries. -/
def defaultCt (t0 : T) : CT → Ct T
  | .scalar => .scalar t0
  | .vec _ => .vec []
  | .arr n c => .arr (List.replicate n (defaultCt t0 c))
  | .tup cs => .tup (defaultCts t0 cs)
def defaultCts (t0 : T) : List CT → List (Ct T)
  | [] => []
  | c :: cs => defaultCt t0 c :: defaultCts t0 cs
end

/-- `std::vector::resize`. -/
def stdResize (t0 : T) (t : CT) (l : List (Ct T)) (n : Nat) : List (Ct T) :=
  l.take n ++ List.replicate (n - l.length) (defaultCt t0 t)

mutual
theorem default_typed (t0 : T) : (t : CT) → HasType t (defaultCt t0 t)
  | .scalar => by simp [defaultCt, HasType]
  | .vec t => by simp [defaultCt, HasType]
  | .arr n t => by
    simp only [defaultCt, HasType, List.length_replicate, true_and, List.mem_replicate]
    rintro c ⟨_, rfl⟩
    exact default_typed t0 t
  | .tup cs => by simp only [defaultCt, HasType]; exact defaults_typed t0 cs
theorem defaults_typed (t0 : T) : (ts : List CT) → HasTypes ts (defaultCts t0 ts)
  | [] => by simp [defaultCts, HasTypes]
  | t :: ts => by simp only [defaultCts, HasTypes]; exact ⟨default_typed t0 t, defaults_typed t0 ts⟩
end

theorem stdResize_OK (t0 : T) : ResizeOK (stdResize t0) where
  length := by intro t l n; simp [stdResize]; omega
  typed := by
    intro t l n h c hc
    simp only [stdResize, List.mem_append, List.mem_replicate] at hc
    rcases hc with hc | ⟨_, rfl⟩
    · exact h c (List.mem_of_mem_take hc)
    · exact default_typed t0 t

/-! ## Specification -/

/-- Type of the entries with index `i`. -/
def CT.kid : CT → Nat → Option CT
  | .scalar, _ => none
  | .vec t, _ => some t
  | .arr _ t, _ => some t
  | .tup ts, i => ts[i]?

/-- Type of the entries reached by a path. -/
def CT.at : MI → CT → Option CT
  | [], t => some t
  | i :: p, t => (t.kid i).bind (CT.at p)

/-- All containers of this type have a coefficient at `[0][0]...`. -/
def CT.ZeroOK : CT → Prop
  | .scalar => True
  | .vec _ => False
  | .arr n t => 0 < n ∧ t.ZeroOK
  | .tup [] => False
  | .tup (t :: _) => t.ZeroOK

/-- Types that can be used for a single coefficient: scalars, non-empty static containers of such, and
dynamic vectors of these. -/
def CT.Padded (t : CT) : Prop := t.ZeroOK ∨ ∃ t', t = .vec t' ∧ t'.ZeroOK

/-- A container represents the index tree: at all prefixes with further digits it has the right number of
entries; single coefficients are not dynamic vectors. -/
def Represents (sz : MI → Option Nat) (v : Ct T) : Prop :=
  ∀ p, ValidPrefix sz p → ∃ d n, Ct.at p v = some d ∧ sz p = some n ∧ (n ≠ 0 → d.kids.length = n) ∧
    (n = 0 → ∀ l, d ≠ .vec l)

/-! ## Proofs -/

/-- Prefixes relative to a given one. -/
def Valid (sz : MI → Option Nat) : MI → MI → Prop
  | _, [] => True
  | pre, i :: p => (∃ n, sz pre = some n ∧ i < n) ∧ Valid sz (pre ++ [i]) p

theorem Valid.snoc {sz : MI → Option Nat} {pre p : MI} {i n : Nat} (h : Valid sz pre p) (hn : sz (pre ++ p) = some n)
    (hi : i < n) : Valid sz pre (p ++ [i]) := by
  induction p generalizing pre with
  | nil => exact ⟨⟨n, by simpa using hn, hi⟩, trivial⟩
  | cons j p ih => exact ⟨h.1, ih h.2 (by simpa using hn)⟩

theorem valid_of (sz : MI → Option Nat) {p : MI} (h : ValidPrefix sz p) : Valid sz [] p := by
  induction h with
  | nil => trivial
  | snoc _ hn hx ih => exact ih.snoc (by simpa using hn) hx

theorem valid_to (sz : MI → Option Nat) {pre p : MI} (hpre : ValidPrefix sz pre) (h : Valid sz pre p) :
    ValidPrefix sz (pre ++ p) := by
  induction p generalizing pre with
  | nil => simpa using hpre
  | cons i p ih =>
    obtain ⟨⟨n, hn, hi⟩, h⟩ := h
    have := ih (.snoc hpre hn hi) h
    simpa using this

theorem hasTypes_iff (ts : List CT) (l : List (Ct T)) : HasTypes ts l ↔ ts.length = l.length ∧
    ∀ (i : Nat) (t : CT) (c : Ct T), ts[i]? = some t → l[i]? = some c → HasType t c := by
  induction ts generalizing l with
  | nil =>
    cases l with
    | nil => simp [HasTypes]
    | cons => simp [HasTypes]
  | cons t ts ih =>
    cases l with
    | nil => simp [HasTypes]
    | cons c cs =>
      simp only [HasTypes, ih, List.length_cons, Nat.add_right_cancel_iff]
      constructor
      · rintro ⟨h, hl, hh⟩
        refine ⟨hl, ?_⟩
        intro i t' c' ht hc
        cases i with
        | zero => simp at ht hc; subst ht; subst hc; exact h
        | succ i => exact hh i t' c' (by simpa using ht) (by simpa using hc)
      · rintro ⟨hl, hh⟩
        exact ⟨hh 0 t c rfl rfl, hl, fun i t' c' ht hc => hh (i + 1) t' c' (by simpa using ht) (by simpa using hc)⟩

/-- Entries of typed containers are typed. -/
theorem typed_kid {ty : CT} {c d : Ct T} {i : Nat} (h : HasType ty c) (hd : c.kids[i]? = some d) :
    ∃ t, ty.kid i = some t ∧ HasType t d := by
  cases ty with
  | scalar => cases c <;> simp [HasType, Ct.kids] at h hd
  | vec t =>
    cases c with
    | vec l => exact ⟨t, rfl, h d (List.mem_of_getElem? hd)⟩
    | _ => simp [HasType] at h
  | arr n t =>
    cases c with
    | arr l => exact ⟨t, rfl, h.2 d (List.mem_of_getElem? hd)⟩
    | _ => simp [HasType] at h
  | tup ts =>
    cases c with
    | tup l =>
      simp only [HasType] at h
      obtain ⟨h1, h2⟩ := (hasTypes_iff ts l).mp h
      simp only [Ct.kids] at hd
      obtain ⟨t, ht⟩ : ∃ t, ts[i]? = some t := ⟨_, List.getElem?_eq_getElem (by rw [h1]; exact kids_lt hd)⟩
      exact ⟨t, ht, h2 i t d ht hd⟩
    | _ => simp [HasType] at h

theorem typed_at {p : MI} {ty : CT} {c d : Ct T} (h : HasType ty c) (hd : Ct.at p c = some d) :
    ∃ t, CT.at p ty = some t ∧ HasType t d := by
  induction p generalizing ty c with
  | nil => simp only [Ct.at, Option.some.injEq] at hd; subst hd; exact ⟨ty, rfl, h⟩
  | cons i p ih =>
    simp only [Ct.at, Option.bind_eq_some_iff] at hd
    obtain ⟨c1, hc1, hd⟩ := hd
    obtain ⟨t1, ht1, h1⟩ := typed_kid h hc1
    obtain ⟨t, ht, h2⟩ := ih h1 hd
    exact ⟨t, by simp [CT.at, ht1, ht], h2⟩

theorem kid_lt {ty t : CT} {i : Nat} (h : ty.kid i = some t) : sizeOf t < sizeOf ty := by
  cases ty with
  | scalar => simp [CT.kid] at h
  | vec t' => simp only [CT.kid, Option.some.injEq] at h; subst h; simp
  | arr n t' => simp only [CT.kid, Option.some.injEq] at h; subst h; simp
  | tup ts =>
    simp only [CT.kid] at h
    have := List.sizeOf_lt_of_mem (List.mem_of_getElem? h)
    simp; omega

theorem mapKids_ok {f : Nat → Ct T → Except Err (Ct T)} {i : Nat} {l l' : List (Ct T)} (h : mapKids f i l = .ok l') :
    l'.length = l.length ∧ ∀ (k : Nat) (c : Ct T), l[k]? = some c → ∃ c', l'[k]? = some c' ∧ f (i + k) c = .ok c' := by
  induction l generalizing i l' with
  | nil => simp only [mapKids, Except.ok.injEq] at h; subst h; simp
  | cons c cs ih =>
    simp only [mapKids] at h
    cases h1 : f i c with
    | error e => simp [h1] at h
    | ok c' =>
      cases h2 : mapKids f (i + 1) cs with
      | error e => simp [h1, h2] at h
      | ok cs' =>
        simp only [h1, h2, Except.ok.injEq] at h
        subst h
        obtain ⟨hl, hk⟩ := ih h2
        refine ⟨by simp [hl], ?_⟩
        intro k d hd
        cases k with
        | zero => simp at hd; subst hd; exact ⟨c', rfl, h1⟩
        | succ k =>
          obtain ⟨d', hd', hf⟩ := hk k d (by simpa using hd)
          exact ⟨d', by simpa using hd', by rw [← hf]; congr 1; omega⟩

theorem mapKids_exists {f : Nat → Ct T → Except Err (Ct T)} {i : Nat} {l : List (Ct T)}
    (h : ∀ (k : Nat) (c : Ct T), l[k]? = some c → ∃ c', f (i + k) c = .ok c') : ∃ l', mapKids f i l = .ok l' := by
  induction l generalizing i with
  | nil => exact ⟨[], rfl⟩
  | cons c cs ih =>
    obtain ⟨c', h1⟩ := h 0 c rfl
    obtain ⟨cs', h2⟩ := ih (i := i + 1) (fun k d hd => by
      obtain ⟨d', hd'⟩ := h (k + 1) d (by simpa using hd)
      exact ⟨d', by rw [← hd']; congr 1; omega⟩)
    exact ⟨c' :: cs', by simp only [mapKids, Nat.add_zero] at *; simp [h1, h2]⟩

theorem mapKids_error {f : Nat → Ct T → Except Err (Ct T)} {i : Nat} {l : List (Ct T)} {e : Err}
    (h : mapKids f i l = .error e) : ∃ (k : Nat) (c : Ct T), l[k]? = some c ∧ f (i + k) c = .error e := by
  induction l generalizing i with
  | nil => simp [mapKids] at h
  | cons c cs ih =>
    simp only [mapKids] at h
    cases h1 : f i c with
    | error e' => simp only [h1, Except.error.injEq] at h; subst h; exact ⟨0, c, rfl, h1⟩
    | ok c' =>
      cases h2 : mapKids f (i + 1) cs with
      | error e' =>
        simp only [h1, h2, Except.error.injEq] at h; subst h
        obtain ⟨k, d, hd, hf⟩ := ih h2
        exact ⟨k + 1, d, by simpa using hd, by rw [← hf]; congr 1; omega⟩
      | ok cs' => simp [h1, h2] at h

variable {rs : CT → List (Ct T) → Nat → List (Ct T)} {sz : MI → Option Nat}

theorem resizeTup_ok {ts : List CT} {pre : MI} {i : Nat} {l l' : List (Ct T)} (hl : ts.length = l.length)
    (h : resizeTup rs sz ts pre i l = .ok l') : l'.length = l.length ∧
      ∀ (k : Nat) (t : CT) (c : Ct T), ts[k]? = some t → l[k]? = some c →
        ∃ c', l'[k]? = some c' ∧ resizeC rs sz t (pre ++ [i + k]) c = .ok c' := by
  induction l generalizing i l' ts with
  | nil =>
    cases ts with
    | nil => simp only [resizeTup, Except.ok.injEq] at h; subst h; simp
    | cons => simp at hl
  | cons c cs ih =>
    cases ts with
    | nil => simp at hl
    | cons t ts =>
      simp only [resizeTup] at h
      cases h1 : resizeC rs sz t (pre ++ [i]) c with
      | error e => simp [h1] at h
      | ok c' =>
        cases h2 : resizeTup rs sz ts pre (i + 1) cs with
        | error e => simp [h1, h2] at h
        | ok cs' =>
          simp only [h1, h2, Except.ok.injEq] at h
          subst h
          obtain ⟨hl', hk⟩ := ih (by simpa using hl) h2
          refine ⟨by simp [hl'], ?_⟩
          intro k t' d ht hd
          cases k with
          | zero => simp at hd ht; subst hd; subst ht; exact ⟨c', rfl, h1⟩
          | succ k =>
            obtain ⟨d', hd', hf⟩ := hk k t' d (by simpa using ht) (by simpa using hd)
            exact ⟨d', by simpa using hd', by rw [← hf]; congr 3; omega⟩

theorem resizeTup_exists {ts : List CT} {pre : MI} {i : Nat} {l : List (Ct T)}
    (h : ∀ (k : Nat) (t : CT) (c : Ct T), ts[k]? = some t → l[k]? = some c →
        ∃ c', resizeC rs sz t (pre ++ [i + k]) c = .ok c') : ∃ l', resizeTup rs sz ts pre i l = .ok l' := by
  induction l generalizing i ts with
  | nil => cases ts <;> exact ⟨[], by simp [resizeTup]⟩
  | cons c cs ih =>
    cases ts with
    | nil => exact ⟨[], by simp [resizeTup]⟩
    | cons t ts =>
      obtain ⟨c', h1⟩ := h 0 t c rfl rfl
      obtain ⟨cs', h2⟩ := ih (i := i + 1) (ts := ts) (fun k t' d ht hd => by
        obtain ⟨d', hd'⟩ := h (k + 1) t' d (by simpa using ht) (by simpa using hd)
        exact ⟨d', by rw [← hd']; congr 3; omega⟩)
      exact ⟨c' :: cs', by simp only [resizeTup, Nat.add_zero] at *; simp [h1, h2]⟩

theorem resizeTup_error {ts : List CT} {pre : MI} {i : Nat} {l : List (Ct T)} {e : Err}
    (h : resizeTup rs sz ts pre i l = .error e) : ∃ (k : Nat) (t : CT) (c : Ct T), ts[k]? = some t ∧
      l[k]? = some c ∧ resizeC rs sz t (pre ++ [i + k]) c = .error e := by
  induction l generalizing i ts with
  | nil => cases ts <;> simp [resizeTup] at h
  | cons c cs ih =>
    cases ts with
    | nil => simp [resizeTup] at h
    | cons t ts =>
      simp only [resizeTup] at h
      cases h1 : resizeC rs sz t (pre ++ [i]) c with
      | error e' => simp only [h1, Except.error.injEq] at h; subst h; exact ⟨0, t, c, rfl, rfl, h1⟩
      | ok c' =>
        cases h2 : resizeTup rs sz ts pre (i + 1) cs with
        | error e' =>
          simp only [h1, h2, Except.error.injEq] at h; subst h
          obtain ⟨k, t', d, ht, hd, hf⟩ := ih h2
          exact ⟨k + 1, t', d, by simpa using ht, by simpa using hd, by rw [← hf]; congr 3; omega⟩
        | ok cs' => simp [h1, h2] at h

theorem map_ok {α β ε : Type} {f : α → β} {x : Except ε α} {b : β} (h : x.map f = .ok b) :
    ∃ a, x = .ok a ∧ f a = b := by
  cases x with
  | error e => simp [Except.map] at h
  | ok a => simp only [Except.map, Except.ok.injEq] at h; exact ⟨a, rfl, h⟩

theorem map_error {α β ε : Type} {f : α → β} {x : Except ε α} {e : ε} (h : x.map f = .error e) : x = .error e := by
  cases x with
  | error e' => simpa [Except.map] using h
  | ok a => simp [Except.map] at h

/-- One step of a successful resize. -/
theorem resize_inv (hrs : ResizeOK rs) {ty : CT} {pre : MI} {c c' : Ct T} (hc : HasType ty c)
    (h : resizeC rs sz ty pre c = .ok c') :
    (sz pre = some 0 ∧ c' = c ∧ ∀ l, c = .vec l → l ≠ []) ∨
    ∃ n, n ≠ 0 ∧ sz pre = some n ∧ c'.kids.length = n ∧
      (∀ i, i < n → ∃ t c1 c1', ty.kid i = some t ∧ HasType t c1 ∧ c'.kids[i]? = some c1' ∧
        resizeC rs sz t (pre ++ [i]) c1 = .ok c1') ∧
      ((∀ i t c1', ty.kid i = some t → c'.kids[i]? = some c1' → HasType t c1') → HasType ty c') := by
  cases ty with
  | scalar =>
    cases c with
    | scalar x =>
      simp only [resizeC] at h
      cases hs : sz pre with
      | none => simp [hs] at h
      | some n =>
        simp only [hs] at h
        split at h
        · rename_i h0
          injection h with h; subst h; subst h0
          exact Or.inl ⟨rfl, rfl, by simp⟩
        · simp at h
    | _ => simp [HasType] at hc
  | vec t =>
    cases c with
    | vec l =>
      simp only [resizeC] at h
      cases hs : sz pre with
      | none => simp [hs] at h
      | some n =>
        simp only [hs] at h
        by_cases h0 : n = 0
        · rw [if_pos h0] at h
          split at h
          · simp at h
          · rename_i hl
            injection h with h; subst h; subst h0
            refine Or.inl ⟨rfl, rfl, ?_⟩
            rintro l' hl' rfl
            injection hl' with hl'; subst hl'; simp at hl
        · rw [if_neg h0] at h
          obtain ⟨l', hl', rfl⟩ := map_ok h
          obtain ⟨h1, h2⟩ := mapKids_ok hl'
          rw [hrs.length] at h1
          refine Or.inr ⟨n, h0, rfl, h1, ?_, ?_⟩
          · intro i hi
            obtain ⟨c1, hc1⟩ : ∃ c1, (rs t l n)[i]? = some c1 :=
              ⟨_, List.getElem?_eq_getElem (by rw [hrs.length]; exact hi)⟩
            obtain ⟨c1', h3, h4⟩ := h2 i c1 hc1
            exact ⟨t, c1, c1', rfl, hrs.typed t l n hc c1 (List.mem_of_getElem? hc1), h3, by simpa using h4⟩
          · intro hk d hd
            obtain ⟨i, hi⟩ := List.mem_iff_getElem?.mp hd
            exact hk i t d rfl hi
    | _ => simp [HasType] at hc
  | arr m t =>
    cases c with
    | arr l =>
      simp only [resizeC] at h
      cases hs : sz pre with
      | none => simp [hs] at h
      | some n =>
        simp only [hs] at h
        by_cases h0 : n = 0
        · rw [if_pos h0] at h
          injection h with h; subst h; subst h0
          exact Or.inl ⟨rfl, rfl, by simp⟩
        · rw [if_neg h0] at h
          split at h
          · simp at h
          · rename_i hn
            have hn : l.length = n := by simpa using hn
            obtain ⟨l', hl', rfl⟩ := map_ok h
            obtain ⟨h1, h2⟩ := mapKids_ok hl'
            refine Or.inr ⟨n, h0, rfl, by rw [← hn, ← h1]; rfl, ?_, ?_⟩
            · intro i hi
              obtain ⟨c1, hc1⟩ : ∃ c1, l[i]? = some c1 := ⟨_, List.getElem?_eq_getElem (by omega)⟩
              obtain ⟨c1', h3, h4⟩ := h2 i c1 hc1
              exact ⟨t, c1, c1', rfl, hc.2 c1 (List.mem_of_getElem? hc1), h3, by simpa using h4⟩
            · intro hk
              refine ⟨by rw [h1]; exact hc.1, ?_⟩
              intro d hd
              obtain ⟨i, hi⟩ := List.mem_iff_getElem?.mp hd
              exact hk i t d rfl hi
    | _ => simp [HasType] at hc
  | tup ts =>
    cases c with
    | tup l =>
      simp only [resizeC] at h
      simp only [HasType] at hc
      obtain ⟨ht1, ht2⟩ := (hasTypes_iff ts l).mp hc
      cases hs : sz pre with
      | none => simp [hs] at h
      | some n =>
        simp only [hs] at h
        by_cases h0 : n = 0
        · rw [if_pos h0] at h
          injection h with h; subst h; subst h0
          exact Or.inl ⟨rfl, rfl, by simp⟩
        · rw [if_neg h0] at h
          split at h
          · simp at h
          · rename_i hn
            have hn : l.length = n := by simpa using hn
            obtain ⟨l', hl', rfl⟩ := map_ok h
            obtain ⟨h1, h2⟩ := resizeTup_ok ht1 hl'
            refine Or.inr ⟨n, h0, rfl, by rw [← hn, ← h1]; rfl, ?_, ?_⟩
            · intro i hi
              obtain ⟨c1, hc1⟩ : ∃ c1, l[i]? = some c1 := ⟨_, List.getElem?_eq_getElem (by omega)⟩
              obtain ⟨t, ht⟩ : ∃ t, ts[i]? = some t := ⟨_, List.getElem?_eq_getElem (by omega)⟩
              obtain ⟨c1', h3, h4⟩ := h2 i t c1 ht hc1
              exact ⟨t, c1, c1', ht, ht2 i t c1 ht hc1, h3, by simpa using h4⟩
            · intro hk
              simp only [HasType]
              exact (hasTypes_iff ts l').mpr ⟨by rw [h1]; exact ht1, hk⟩
    | _ => simp [HasType] at hc

theorem resize_shape (hrs : ResizeOK rs) (ty : CT) (pre : MI) (c c' : Ct T) (hc : HasType ty c)
    (h : resizeC rs sz ty pre c = .ok c') : HasType ty c' ∧ ∀ p, Valid sz pre p → ∃ d n, Ct.at p c' = some d ∧
      sz (pre ++ p) = some n ∧ (n ≠ 0 → d.kids.length = n) ∧ (n = 0 → ∀ l, d = .vec l → l ≠ []) := by
  rcases resize_inv hrs hc h with ⟨hs, rfl, hv⟩ | ⟨n, hn, hs, hlen, hkid, htyp⟩
  · refine ⟨hc, ?_⟩
    intro p hp
    cases p with
    | nil => exact ⟨c', 0, rfl, by simpa using hs, by simp, fun _ => hv⟩
    | cons i p =>
      obtain ⟨⟨n, hn, hi⟩, _⟩ := hp
      rw [hs] at hn; injection hn with hn; omega
  · constructor
    · apply htyp
      intro i t c1' ht hc1'
      obtain ⟨t', c1, c1'', ht', h1, h2, h3⟩ := hkid i (by rw [← hlen]; exact kids_lt hc1')
      rw [ht] at ht'; injection ht' with ht'; subst ht'
      rw [hc1'] at h2; injection h2 with h2; subst h2
      have := kid_lt ht
      exact (resize_shape hrs t (pre ++ [i]) c1 _ h1 h3).1
    · intro p hp
      cases p with
      | nil => exact ⟨c', n, rfl, by simpa using hs, fun _ => hlen, fun h0 => absurd h0 hn⟩
      | cons i p =>
        obtain ⟨⟨n', hn', hi⟩, hp⟩ := hp
        rw [hs] at hn'; injection hn' with hn'; subst hn'
        obtain ⟨t, c1, c1', ht, h1, h2, h3⟩ := hkid i hi
        have := kid_lt ht
        obtain ⟨d, k, hd, hk, hrest⟩ := (resize_shape hrs t (pre ++ [i]) c1 c1' h1 h3).2 p hp
        exact ⟨d, k, by simp [Ct.at, h2, hd], by simpa using hk, hrest⟩
termination_by sizeOf ty

/-- Representation relative to a prefix. -/
def RepAt (sz : MI → Option Nat) (pre : MI) (v : Ct T) : Prop :=
  ∀ p, Valid sz pre p → ∃ d n, Ct.at p v = some d ∧ sz (pre ++ p) = some n ∧ (n ≠ 0 → d.kids.length = n) ∧
    (n = 0 → ∀ l, d ≠ .vec l)

theorem RepAt.kid {pre : MI} {v : Ct T} (h : RepAt sz pre v) {n i : Nat} (hn : sz pre = some n) (hi : i < n) :
    ∃ v1, v.kids[i]? = some v1 ∧ RepAt sz (pre ++ [i]) v1 := by
  obtain ⟨d, k, hd, hk, hl, _⟩ := h [] trivial
  simp only [Ct.at, Option.some.injEq] at hd
  subst hd
  simp only [List.append_nil] at hk
  rw [hn] at hk; injection hk with hk; subst hk
  have hlen := hl (by omega)
  refine ⟨v.kids[i], List.getElem?_eq_getElem (by omega), ?_⟩
  intro p hp
  obtain ⟨d, k, hd, hk, hr⟩ := h (i :: p) ⟨⟨n, hn, hi⟩, hp⟩
  simp only [Ct.at, List.getElem?_eq_getElem (show i < v.kids.length by omega), Option.bind_some] at hd
  exact ⟨d, k, hd, by simpa using hk, hr⟩

theorem RepAt.root {pre : MI} {v : Ct T} (h : RepAt sz pre v) : ∃ n, sz pre = some n ∧ (n ≠ 0 → v.kids.length = n) ∧
    (n = 0 → ∀ l, v ≠ .vec l) := by
  obtain ⟨d, n, hd, hn, hr⟩ := h [] trivial
  simp only [Ct.at, Option.some.injEq] at hd
  subst hd
  exact ⟨n, by simpa using hn, hr⟩

theorem resize_exists (hrs : ResizeOK rs) (ty : CT) (pre : MI) (c v : Ct T) (hc : HasType ty c) (hv : HasType ty v)
    (hr : RepAt sz pre v) : ∃ c', resizeC rs sz ty pre c = .ok c' := by
  obtain ⟨n, hn, hlen, h0⟩ := hr.root
  cases ty with
  | scalar =>
    cases c with
    | scalar x =>
      cases v with
      | scalar y =>
        have : n = 0 := by
          by_contra hne
          have := hlen hne
          simp [Ct.kids] at this; omega
        subst this
        exact ⟨.scalar x, by simp [resizeC, hn]⟩
      | _ => simp [HasType] at hv
    | _ => simp [HasType] at hc
  | vec t =>
    cases c with
    | vec l =>
      cases v with
      | vec lv =>
        by_cases hz : n = 0
        · exact absurd rfl (h0 hz lv)
        · have hlv := hlen hz
          simp only [Ct.kids] at hlv
          obtain ⟨l', hl'⟩ := mapKids_exists (f := fun i c => resizeC rs sz t (pre ++ [i]) c) (i := 0)
            (l := rs t l n) (by
              intro k d hd
              have hk : k < n := by have := kids_lt hd; rwa [hrs.length] at this
              obtain ⟨v1, hv1, hr1⟩ := hr.kid hn hk
              obtain ⟨t', ht', hv1'⟩ := typed_kid hv hv1
              simp only [CT.kid, Option.some.injEq] at ht'
              subst ht'
              simpa using resize_exists hrs t (pre ++ [k]) d v1 (hrs.typed t l n hc d (List.mem_of_getElem? hd)) hv1' hr1)
          exact ⟨.vec l', by simp [resizeC, hn, hz, hl', Except.map]⟩
      | _ => simp [HasType] at hv
    | _ => simp [HasType] at hc
  | arr m t =>
    cases c with
    | arr l =>
      cases v with
      | arr lv =>
        by_cases hz : n = 0
        · exact ⟨.arr l, by simp [resizeC, hn, hz]⟩
        · have hlv := hlen hz
          simp only [Ct.kids] at hlv
          have hl : l.length = n := by rw [← hlv, hv.1, hc.1]
          obtain ⟨l', hl'⟩ := mapKids_exists (f := fun i c => resizeC rs sz t (pre ++ [i]) c) (i := 0)
            (l := l) (by
              intro k d hd
              have hk : k < n := by rw [← hl]; exact kids_lt hd
              obtain ⟨v1, hv1, hr1⟩ := hr.kid hn hk
              obtain ⟨t', ht', hv1'⟩ := typed_kid hv hv1
              simp only [CT.kid, Option.some.injEq] at ht'
              subst ht'
              simpa using resize_exists hrs t (pre ++ [k]) d v1 (hc.2 d (List.mem_of_getElem? hd)) hv1' hr1)
          exact ⟨.arr l', by simp [resizeC, hn, hz, hl, hl', Except.map]⟩
      | _ => simp [HasType] at hv
    | _ => simp [HasType] at hc
  | tup ts =>
    cases c with
    | tup l =>
      cases v with
      | tup lv =>
        have hc' := hc
        have hv' := hv
        simp only [HasType] at hc' hv'
        obtain ⟨hc1, hc2⟩ := (hasTypes_iff ts l).mp hc'
        obtain ⟨hv1, hv2⟩ := (hasTypes_iff ts lv).mp hv'
        by_cases hz : n = 0
        · exact ⟨.tup l, by simp [resizeC, hn, hz]⟩
        · have hlv := hlen hz
          simp only [Ct.kids] at hlv
          have hl : l.length = n := by rw [← hlv, ← hv1, hc1]
          obtain ⟨l', hl'⟩ := resizeTup_exists (rs := rs) (sz := sz) (ts := ts) (pre := pre) (i := 0) (l := l) (by
              intro k t d ht hd
              have hk : k < n := by rw [← hl]; exact kids_lt hd
              obtain ⟨v1, hv1, hr1⟩ := hr.kid hn hk
              have := List.sizeOf_lt_of_mem (List.mem_of_getElem? ht)
              simpa using resize_exists hrs t (pre ++ [k]) d v1 (hc2 k t d ht hd) (hv2 k t v1 ht hv1) hr1)
          exact ⟨.tup l', by simp [resizeC, hn, hz, hl, hl', Except.map]⟩
      | _ => simp [HasType] at hv
    | _ => simp [HasType] at hc
termination_by sizeOf ty
decreasing_by
  all_goals
    first
    | omega
    | (subst_vars; simp only [CT.vec.sizeOf_spec, CT.arr.sizeOf_spec, CT.tup.sizeOf_spec]; omega)

/-- Undefined behaviour can only come from the size provider. -/
theorem resize_no_ub (hrs : ResizeOK rs) (ty : CT) (pre : MI) (c : Ct T) (hc : HasType ty c)
    (hs : ∀ p, Valid sz pre p → ∃ n, sz (pre ++ p) = some n) : resizeC rs sz ty pre c ≠ .error .ub := by
  intro h
  obtain ⟨n, hn⟩ := hs [] trivial
  simp only [List.append_nil] at hn
  have step : ∀ k, k < n → ∀ p, Valid sz (pre ++ [k]) p → ∃ n, sz (pre ++ [k] ++ p) = some n := by
    intro k hk p hp
    obtain ⟨m, hm⟩ := hs (k :: p) ⟨⟨n, hn, hk⟩, hp⟩
    exact ⟨m, by simpa using hm⟩
  cases ty with
  | scalar =>
    cases c with
    | scalar x =>
      simp only [resizeC, hn] at h
      split at h <;> simp at h
    | _ => simp [HasType] at hc
  | vec t =>
    cases c with
    | vec l =>
      simp only [resizeC, hn] at h
      split at h
      · split at h <;> simp at h
      · obtain ⟨k, d, hd, hf⟩ := mapKids_error (map_error h)
        have hk : k < n := by have := kids_lt hd; rwa [hrs.length] at this
        simp only [Nat.zero_add] at hf
        exact resize_no_ub hrs t (pre ++ [k]) d (hrs.typed t l n hc d (List.mem_of_getElem? hd)) (step k hk) hf
    | _ => simp [HasType] at hc
  | arr m t =>
    cases c with
    | arr l =>
      simp only [resizeC, hn] at h
      split at h
      · simp at h
      · split at h
        · simp at h
        · rename_i hl
          obtain ⟨k, d, hd, hf⟩ := mapKids_error (map_error h)
          have hk : k < n := by have := kids_lt hd; omega
          simp only [Nat.zero_add] at hf
          exact resize_no_ub hrs t (pre ++ [k]) d (hc.2 d (List.mem_of_getElem? hd)) (step k hk) hf
    | _ => simp [HasType] at hc
  | tup ts =>
    cases c with
    | tup l =>
      simp only [resizeC, hn] at h
      split at h
      · simp at h
      · split at h
        · simp at h
        · rename_i hl
          obtain ⟨k, t, d, ht, hd, hf⟩ := resizeTup_error (map_error h)
          have hk : k < n := by have := kids_lt hd; omega
          simp only [Nat.zero_add] at hf
          simp only [HasType] at hc
          have := List.sizeOf_lt_of_mem (List.mem_of_getElem? ht)
          exact resize_no_ub hrs t (pre ++ [k]) d (((hasTypes_iff ts l).mp hc).2 k t d ht hd) (step k hk) hf
    | _ => simp [HasType] at hc
termination_by sizeOf ty
decreasing_by
  all_goals
    first
    | omega
    | (subst_vars; simp only [CT.vec.sizeOf_spec, CT.arr.sizeOf_spec, CT.tup.sizeOf_spec]; omega)

theorem zero_path (ty : CT) (d : Ct T) (hz : ty.ZeroOK) (hd : HasType ty d) :
    ∃ k t, Ct.at (List.replicate k 0) d = some (.scalar t) := by
  match ty, d with
  | .scalar, .scalar t => exact ⟨0, t, rfl⟩
  | .arr n t, .arr (c :: cs) =>
    obtain ⟨k, x, hk⟩ := zero_path t c hz.2 (hd.2 c List.mem_cons_self)
    exact ⟨k + 1, x, by simpa [List.replicate_succ, Ct.at, Ct.kids] using hk⟩
  | .arr n t, .arr [] => simp only [CT.ZeroOK, HasType, List.length_nil] at hz hd; omega
  | .tup (t :: ts), .tup (c :: cs) =>
    simp only [HasType, HasTypes] at hd
    obtain ⟨k, x, hk⟩ := zero_path t c (by simpa [CT.ZeroOK] using hz) hd.1
    exact ⟨k + 1, x, by simpa [List.replicate_succ, Ct.at, Ct.kids] using hk⟩
  | .tup (t :: ts), .tup [] => simp [HasType, HasTypes] at hd
  | .tup [], _ => simp [CT.ZeroOK] at hz
  | .vec t, _ => simp [CT.ZeroOK] at hz
  | .scalar, .vec _ | .scalar, .arr _ | .scalar, .tup _ => simp [HasType] at hd
  | .arr _ _, .vec _ | .arr _ _, .scalar _ | .arr _ _, .tup _ => simp [HasType] at hd
  | .tup (_ :: _), .vec _ | .tup (_ :: _), .scalar _ | .tup (_ :: _), .arr _ => simp [HasType] at hd
termination_by sizeOf ty

/-! ## C33 -/

/-- After a successful resize the container has, at every prefix that can be built from the sizes of the
basis, exactly `size(prefix)` entries (if this is not 0); for all container types, all previous contents and
all size providers. -/
theorem C33_shape (hrs : ResizeOK rs) (ty : CT) (c c' : Ct T) (hc : HasType ty c)
    (h : resize rs sz ty c = .ok c') : HasType ty c' ∧ ∀ p, ValidPrefix sz p → ∃ d n, Ct.at p c' = some d ∧
      sz p = some n ∧ (n ≠ 0 → d.kids.length = n) := by
  obtain ⟨h1, h2⟩ := resize_shape hrs ty [] c c' hc h
  refine ⟨h1, fun p hp => ?_⟩
  obtain ⟨d, n, hd, hn, hl, _⟩ := h2 p (valid_of sz hp)
  exact ⟨d, n, hd, by simpa using hn, hl⟩

theorem index_valid {E : Type} {b : PB E} (hb : b.WF) {m : MI} (hm : m ∈ IndexSet b.model) :
    ValidPrefix b.model.size m ∧ b.model.size m = some 0 := by
  obtain ⟨e, I, hI, hm⟩ := hm
  obtain ⟨I', hI', h⟩ := C01_digits_lt_size b hb e
  rw [hI] at hI'; injection hI' with hI'; subst hI'
  obtain ⟨h1, h2⟩ := h m hm
  refine ⟨?_, h2⟩
  have key : ∀ (n : Nat), n ≤ m.length → ValidPrefix b.model.size (m.take n) := by
    intro n
    induction n with
    | zero => intro _; exact .nil
    | succ n ih =>
      intro hn
      have hlt : n < m.length := by omega
      rw [List.take_succ_eq_append_getElem hlt]
      obtain ⟨k, hk, hx⟩ := h1 (m.take n) m[n] (by
        rw [← List.take_succ_eq_append_getElem hlt]; exact List.take_prefix _ _)
      exact .snoc (ih (by omega)) hk hx
  simpa using key m.length (Nat.le_refl _)

/-- After a successful `resize(basis)` every multi-index of the basis addresses a coefficient. -/
theorem C33_entry {E : Type} (hrs : ResizeOK rs) (b : PB E) (hb : b.WF) (ty : CT) (c c' : Ct T) (hc : HasType ty c)
    (h : resize rs b.model.size ty c = .ok c') (m : MI) (hm : m ∈ IndexSet b.model)
    (hp : ∀ t, CT.at m ty = some t → t.Padded) : ∃ x, Entry c' m x := by
  obtain ⟨h1, h2⟩ := resize_shape hrs ty [] c c' hc h
  obtain ⟨hv, h0⟩ := index_valid hb hm
  obtain ⟨d, n, hd, hn, _, hl⟩ := h2 m (valid_of _ hv)
  simp only [List.nil_append] at hn
  rw [h0] at hn; injection hn with hn; subst hn
  obtain ⟨t, ht, htd⟩ := typed_at h1 hd
  rcases hp t ht with hz | ⟨t', rfl, hz⟩
  · obtain ⟨k, x, hk⟩ := zero_path t d hz htd
    exact ⟨x, k, by rw [at_append _ _ _ _ hd]; exact hk⟩
  · cases d with
    | vec l =>
      cases l with
      | nil => exact absurd rfl (hl rfl [] rfl)
      | cons d0 l =>
        obtain ⟨k, x, hk⟩ := zero_path t' d0 hz (htd d0 List.mem_cons_self)
        exact ⟨x, k + 1, by rw [at_append _ _ _ _ hd]; simpa [List.replicate_succ, Ct.at, Ct.kids] using hk⟩
    | _ => simp [HasType] at htd

/-- After a successful `resize(basis)` the access by every multi-index of the basis is in range, if the
container type has a type for single coefficients there. -/
theorem C33_access {E : Type} (hrs : ResizeOK rs) (b : PB E) (hb : b.WF) (ty : CT) (c c' : Ct T) (hc : HasType ty c)
    (h : resize rs b.model.size ty c = .ok c') (m : MI) (hm : m ∈ IndexSet b.model)
    (hp : ∀ t, CT.at m ty = some t → t.Padded) : ∃ x, access isScalar c' m = some (.scalar x) := by
  obtain ⟨x, hx⟩ := C33_entry hrs b hb ty c c' hc h m hm hp
  exact ⟨x, C35_access c' m x hx⟩

/-- The first claim without restriction of the container type. It is false. -/
def C33_access_full (T E : Type) : Prop := ∀ (rs : CT → List (Ct T) → Nat → List (Ct T)), ResizeOK rs →
  ∀ (b : PB E), b.WF → ∀ (ty : CT) (c c' : Ct T), HasType ty c → resize rs b.model.size ty c = .ok c' →
  ∀ m ∈ IndexSet b.model, ∃ d, access isScalar c' m = some d

/-- One function and a container of type `vector<array<vector<double>,1>>`: `resize` succeeds although
`v[0][0][0]` does not exist. -/
theorem C33_access_false : ¬ C33_access_full Nat Unit := by
  intro h
  obtain ⟨d, hd⟩ := h (stdResize 0) (stdResize_OK 0) (.leaf ⟨1, 1, fun _ => [0]⟩) (by simp [PB.WF])
    (.vec (.arr 1 (.vec .scalar))) (.vec []) (.vec [.arr [.vec []]]) (by simp [HasType]) rfl [0]
    ⟨(), [[0]], by decide, by simp⟩
  exact absurd hd (by simp [access, resolve, resolveAt, isScalar, Shifted.get, Shifted.size, Shifted.pop])

/-- If resize fails, it throws `RangeError`, and no container of this type represents the index tree. -/
theorem C33_error (hrs : ResizeOK rs) (ty : CT) (c : Ct T) (hc : HasType ty c) (e : Err)
    (hs : ∀ p, ValidPrefix sz p → ∃ n, sz p = some n)
    (h : resize rs sz ty c = .error e) : e = .range ∧ ¬ ∃ v : Ct T, HasType ty v ∧ Represents sz v := by
  constructor
  · cases e with
    | range => rfl
    | ub =>
      refine absurd h (resize_no_ub hrs ty [] c hc ?_)
      intro p hp
      have := valid_to sz .nil hp
      obtain ⟨n, hn⟩ := hs _ this
      exact ⟨n, hn⟩
  · rintro ⟨v, hv, hr⟩
    obtain ⟨c', hc'⟩ := resize_exists (sz := sz) hrs ty [] c v hc hv (by
      intro p hp
      have := valid_to sz .nil hp
      exact hr _ this)
    rw [show resize rs sz ty c = .ok c' from hc'] at h
    simp at h

theorem valid_prefix_of_index {E : Type} {b : PB E} (hb : b.WF) (hpos : b.Pos) (hcov : b.Covered (fun _ => True))
    {p : MI} (hp : ValidPrefix b.model.size p) : ∃ m ∈ IndexSet b.model, p <+: m := by
  have C := b.complete hb hpos
  rw [indexSet_covered hb hcov]
  induction hp with
  | nil =>
    obtain ⟨d, hd⟩ := List.exists_mem_of_ne_nil _ C.nonempty
    exact ⟨_, ⟨d, hd, rfl⟩, List.nil_prefix⟩
  | snoc _ hn hx ih =>
    obtain ⟨_, ⟨d, hd, rfl⟩, hp⟩ := ih
    obtain ⟨d', hd', h'⟩ := C.digits d hd _ hp _ hn _ hx
    exact ⟨_, ⟨d', hd', rfl⟩, h'⟩

/-- For bases with non-empty leaves: resize fails only with `RangeError`, and only if there is no container of
this type with `size(p)` entries at all proper prefixes `p` of multi-indices and a scalar at every
multi-index. -/
theorem C33_error_basis {E : Type} (hrs : ResizeOK rs) (b : PB E) (hb : b.WF) (hpos : b.Pos)
    (hcov : b.Covered (fun _ => True)) (ty : CT) (c : Ct T) (hc : HasType ty c) (e : Err)
    (h : resize rs b.model.size ty c = .error e) : e = .range ∧
      ¬ ∃ v : Ct T, HasType ty v ∧ ∀ m ∈ IndexSet b.model, (∃ x, Ct.at m v = some (.scalar x)) ∧
        ∀ p, p <+: m → p ≠ m → ∃ d n, Ct.at p v = some d ∧ b.model.size p = some n ∧ d.kids.length = n := by
  have hC := (C03_complete b hb hpos hcov).2
  obtain ⟨h1, h2⟩ := C33_error hrs ty c hc e (fun p hp => by
    obtain ⟨n, hn, _⟩ := hC p (valid_prefix_of_index hb hpos hcov hp)
    exact ⟨n, hn⟩) h
  refine ⟨h1, ?_⟩
  rintro ⟨v, hv, hr⟩
  refine h2 ⟨v, hv, ?_⟩
  intro p hp
  obtain ⟨m, hm, hpm⟩ := valid_prefix_of_index hb hpos hcov hp
  obtain ⟨⟨x, hx⟩, hr⟩ := hr m hm
  by_cases hpe : p = m
  · subst hpe
    exact ⟨_, 0, hx, (index_valid hb hm).2, by simp, by simp⟩
  · obtain ⟨d, n, hd, hn, hl⟩ := hr p hpm hpe
    refine ⟨d, n, hd, hn, fun _ => hl, ?_⟩
    rintro rfl
    obtain ⟨n', hn', hiff⟩ := hC p ⟨m, hm, hpm⟩
    rw [hn] at hn'; injection hn' with hn'; subst hn'
    obtain ⟨q, hq⟩ := hpm
    cases q with
    | nil => exact absurd (by simpa using hq) hpe
    | cons i q =>
      have := (hiff i).mpr ⟨m, hm, q, by simpa using hq⟩
      omega

/-- The second claim for all bases. It is false. -/
def C33_error_full (T E : Type) : Prop := ∀ (rs : CT → List (Ct T) → Nat → List (Ct T)), ResizeOK rs →
  ∀ (b : PB E), b.WF → ∀ (ty : CT) (c : Ct T), HasType ty c → ∀ e, resize rs b.model.size ty c = .error e →
  ¬ ∃ v : Ct T, HasType ty v ∧ ∀ p, ValidPrefix b.model.size p →
    ∃ d n, Ct.at p v = some d ∧ b.model.size p = some n ∧ d.kids.length = n

/-- `composite(lagrange, empty)` and a tuple of two vectors: the resize of an empty container throws although
the container `([x], [])` has the right number of entries everywhere. -/
theorem C33_empty_basis_false : ¬ C33_error_full Nat Unit := by
  intro h
  refine h (stdResize 0) (stdResize_OK 0)
    (.composite true [.leaf ⟨1, 1, fun _ => [0]⟩, .leaf ⟨0, 0, fun _ => []⟩]) (by simp [PB.WF, PB.WFs])
    (.tup [.vec .scalar, .vec .scalar]) (.tup [.vec [], .vec []]) (by simp [HasType, HasTypes]) .range rfl ?_
  refine ⟨.tup [.vec [.scalar 0], .vec []], by simp [HasType, HasTypes], ?_⟩
  intro p hp
  have : p = [] ∨ p = [0] ∨ p = [1] ∨ p = [0, 0] := by
    induction hp with
    | nil => simp
    | snoc _ hn hx ih =>
      rcases ih with rfl | rfl | rfl | rfl
      · obtain rfl : _ = 2 := by simpa [PB.model, PB.models, compositePB, compositeSize] using hn.symm
        simp; omega
      · obtain rfl : _ = 1 := by
          simpa [PB.model, PB.models, compositePB, compositeSize, leafPB, multiIndexPopFront_cons] using hn.symm
        simp; omega
      · obtain rfl : _ = 0 := by
          simpa [PB.model, PB.models, compositePB, compositeSize, leafPB, multiIndexPopFront_cons] using hn.symm
        omega
      · obtain rfl : _ = 0 := by
          simpa [PB.model, PB.models, compositePB, compositeSize, leafPB, multiIndexPopFront_cons] using hn.symm
        omega
  rcases this with rfl | rfl | rfl | rfl
  · exact ⟨_, 2, rfl, rfl, rfl⟩
  · exact ⟨_, 1, rfl, rfl, rfl⟩
  · exact ⟨_, 0, rfl, rfl, rfl⟩
  · exact ⟨_, 0, rfl, rfl, rfl⟩

/-! Example: a Taylor-Hood like basis and the container `tuple<vector<array<double,2>>, vector<double>>`. -/

def exTy : CT := .tup [.vec (.arr 2 .scalar), .vec .scalar]

example : resize (stdResize 0) (thTree true 2 thEx2 thEx1).model.size exTy (.tup [.vec [.arr [.scalar 7, .scalar 8]], .vec []]) =
    .ok (.tup [.vec (.arr [.scalar 7, .scalar 8] :: List.replicate 4 (.arr [.scalar 0, .scalar 0])),
      .vec (List.replicate 3 (.scalar 0))]) := by rfl
example : resize (stdResize 0) (thTree true 3 thEx2 thEx1).model.size exTy (.tup [.vec [], .vec []]) = .error .range := by rfl

end Verif.Container

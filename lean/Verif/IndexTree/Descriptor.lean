import Mathlib.Data.Fintype.EquivFin
import Verif.IndexTree.Periodic
import Verif.IndexTree.TaylorHood

/-!
# Container descriptors

Model of `containerdescriptors.hh` and of the `containerDescriptor()` methods of the pre-bases.
-/

namespace Verif.IndexTree

variable {E : Type}

/-! ## Model -/

/-- `Tuple`, `Array`, `Vector`, containerdescriptors.hh:80-112. -/
inductive LKind where
  | tuple | array | vector
  deriving DecidableEq

/-- Descriptors, containerdescriptors.hh:51-191: `Unknown`, `Value`, lists of children,
`UniformArray<Child,n>` (`static = true`) and `UniformVector<Child>` of size `n`. -/
inductive CD where
  | unknown
  | value
  | list (k : LKind) (l : List CD)
  | uniform (static : Bool) (n : Nat) (c : CD)

/-- `size()`, containerdescriptors.hh:77, 139, 181; `Unknown` has none. -/
def CD.size : CD → Option Nat
  | .unknown => none
  | .value => some 0
  | .list _ l => some l.length
  | .uniform _ n _ => some n

/-- Following `operator[]` along a path. Below an unknown descriptor nothing is known; accesses outside
of the range of `size()` are not specified (`none`). -/
def CD.at : MI → CD → Option CD
  | [], c => some c
  | _ :: _, .unknown => some .unknown
  | _ :: _, .value => none
  | i :: p, .list _ l => (l[i]?).bind (CD.at p)
  | i :: p, .uniform _ n c => if i < n then CD.at p c else none

mutual
/-- `std::is_same` of the descriptor types. All entries of an array or vector have the same type. -/
def CD.sameType : CD → CD → Bool
  | .unknown, .unknown => true
  | .value, .value => true
  | .list k l, .list k' l' => decide (k = k') && if k = .vector then CD.sameHead l l' else CD.sameTypes l l'
  | .uniform s n c, .uniform s' n' c' => (s == s') && (!s || n == n') && CD.sameType c c'
  | _, _ => false
def CD.sameTypes : List CD → List CD → Bool
  | [], [] => true
  | x :: xs, y :: ys => CD.sameType x y && CD.sameTypes xs ys
  | _, _ => false
def CD.sameHead : List CD → List CD → Bool
  | x :: _, y :: _ => CD.sameType x y
  | _, _ => false
end

/-- `makeDescriptor`, containerdescriptors.hh:84-107. -/
def makeDescriptor : List CD → CD
  | [] => .list .array []
  | c :: cs => if cs.all (CD.sameType c) then .list .array (c :: cs) else .list .tuple (c :: cs)

mutual
/-- `appendToTree`, containerdescriptors.hh:195-275; `st`: the size is a static constant. -/
def CD.append (st : Bool) (s : Nat) : CD → CD
  | .unknown => .unknown
  | .value => .uniform st s .value
  | .list .vector l => .list .vector (CD.appendList st s l)
  | .list _ l => makeDescriptor (CD.appendList st s l)
  | .uniform st' n c => .uniform st' n (CD.append st s c)
def CD.appendList (st : Bool) (s : Nat) : List CD → List CD
  | [] => []
  | c :: cs => CD.append st s c :: CD.appendList st s cs
end

/-- Entries `child[i]` for `j<n, i<child.size()`, containerdescriptors.hh:307-354. -/
def repLex (n : Nat) (l : List CD) : List CD := (List.range n).flatMap fun _ => l

/-- Entries `child[i]` for `i<child.size(), j<n`, containerdescriptors.hh:376-423. -/
def repInt (n : Nat) (l : List CD) : List CD := l.flatMap fun c => List.replicate n c

/-- `flatLexicographicN` and `flatInterleavedN`, containerdescriptors.hh:288-423, with the given
repetition of the entries. `none`: the template cannot be instantiated (`emplace_back` on
`std::array` for static `n`, `std::make_index_sequence` with dynamic `n` for tuples). -/
def flatN (rep : Nat → List CD → List CD) (st : Bool) (n : Nat) : CD → Option CD
  | .unknown => some .unknown
  | .value => some .unknown
  | .uniform false m c => some (.uniform false (m * n) c)
  | .uniform true m c => some (.uniform st (n * m) c)
  | .list .vector l => some (.list .vector (rep n l))
  | .list .array l => if st then none else some (.list .vector (rep n l))
  | .list .tuple l => if st then some (makeDescriptor (rep n l)) else none

/-- `containerDescriptorImpl`, dynamicpowerbasis.hh:373-387; `st`: `PowerPreBasis` with static number of
children, otherwise `DynamicPowerPreBasis`. -/
def powerDescriptor (st : Bool) (s : IMS) (c : Nat) (d : CD) : Option CD :=
  match s with
  | .flatInt => flatN repInt st c d
  | .flatLex => flatN repLex st c d
  | .blockedLex => some (.uniform st c d)
  | .blockedInt => some (CD.append st c d)

/-- `std::is_same_v<Child, FlatVector>` and its size. -/
def flatVectorSize : CD → Option Nat
  | .uniform false n .value => some n
  | _ => none

/-- The fold `(child.size() + ...)` in containerdescriptors.hh:281-282. -/
def flatSizes : List CD → Option Nat
  | [] => some 0
  | c :: cs => (flatVectorSize c).bind fun n => (flatSizes cs).bind fun m => some (n + m)

/-- `CompositePreBasis::containerDescriptor`, compositebasis.hh:274-289, and `flatLexicographic`,
containerdescriptors.hh:278-285. -/
def compositeDescriptor (blocked : Bool) (ds : List CD) : CD :=
  if blocked then makeDescriptor ds
  else match flatSizes ds with
    | some n => .uniform false n .value
    | none => .unknown

mutual
/-- `basis.containerDescriptor()` of a basis tree returns the descriptor, for any choice of static or
dynamic powers. Leaf bases: leafprebasismixin.hh:66-69; restricted bases: restrictedbasis.hh:161-164. -/
inductive Desc : PB E → CD → Prop
  | leaf (L : Leaf E) : Desc (.leaf L) (.uniform false L.dim .value)
  | power (st : Bool) (s : IMS) (c : Nat) {sub : PB E} {d d' : CD} : Desc sub d →
      powerDescriptor st s c d = some d' → Desc (.power s c sub) d'
  | composite (blocked : Bool) {subs : List (PB E)} {ds : List CD} : Descs subs ds →
      Desc (.composite blocked subs) (compositeDescriptor blocked ds)
  | restricted (f : E → Bool) {sub : PB E} {d : CD} : Desc sub d → Desc (.restricted f sub) d
inductive Descs : List (PB E) → List CD → Prop
  | nil : Descs [] []
  | cons {b : PB E} {d : CD} {bs : List (PB E)} {ds : List CD} : Desc b d → Descs bs ds → Descs (b :: bs) (d :: ds)
end

/-! ## Proof -/

structure AgreeCD (pb : PreBasis E) (sp : Spec E) (cd : CD) : Prop where
  root : cd = .unknown ∨ (cd ≠ .value ∧ cd.size = some sp.root)
  pref : ∀ d ∈ sp.dofs, ∀ p, p <+: sp.mi d → ∃ d', CD.at p cd = some d' ∧
    (d' = .unknown ∨ ∃ n, d'.size = some n ∧ pb.size p = some n)
  full : ∀ d ∈ sp.dofs, ∃ d', CD.at (sp.mi d) cd = some d' ∧ (d' = .unknown ∨ d' = .value)

theorem at_unknown (p : MI) : CD.at p .unknown = some .unknown := by
  cases p <;> rfl

theorem agree_unknown (pb : PreBasis E) (sp : Spec E) : AgreeCD pb sp .unknown :=
  ⟨Or.inl rfl, fun _ _ p _ => ⟨.unknown, at_unknown p, Or.inl rfl⟩, fun _ _ => ⟨.unknown, at_unknown _, Or.inl rfl⟩⟩

theorem leaf_agree (L : Leaf E) : AgreeCD (leafPB L) (specLeaf L) (.uniform false L.dim .value) where
  root := Or.inr ⟨by simp, rfl⟩
  pref := by
    intro d hd p hp
    simp only [specLeaf, List.mem_map, List.mem_range] at hd hp
    obtain ⟨i, hi, rfl⟩ := hd
    rcases p with _ | ⟨a, _ | ⟨b, p⟩⟩
    · exact ⟨_, rfl, Or.inr ⟨L.dim, rfl, by simp [leafPB]⟩⟩
    · obtain rfl : a = i := by simpa using hp
      exact ⟨.value, by simp [CD.at, hi], Or.inr ⟨0, rfl, by simp [leafPB]⟩⟩
    · exact absurd hp.length_le (by simp)
  full := by
    intro d hd
    simp only [specLeaf, List.mem_map, List.mem_range] at hd ⊢
    obtain ⟨i, hi, rfl⟩ := hd
    exact ⟨.value, by simp [CD.at, hi], Or.inr rfl⟩

theorem makeDescriptor_at (i : Nat) (p : MI) (l : List CD) :
    CD.at (i :: p) (makeDescriptor l) = (l[i]?).bind (CD.at p) := by
  cases l with
  | nil => simp [makeDescriptor, CD.at]
  | cons c cs => simp only [makeDescriptor]; split <;> rfl

theorem makeDescriptor_size (l : List CD) : (makeDescriptor l).size = some l.length := by
  cases l with
  | nil => rfl
  | cons c cs => simp only [makeDescriptor]; split <;> rfl

theorem makeDescriptor_ne (l : List CD) : makeDescriptor l ≠ .value := by
  cases l with
  | nil => simp [makeDescriptor]
  | cons c cs => simp only [makeDescriptor]; split <;> simp

theorem appendList_eq (st : Bool) (s : Nat) (l : List CD) : CD.appendList st s l = l.map (CD.append st s) := by
  induction l with
  | nil => rfl
  | cons c cs ih => simp [CD.appendList, ih]

/-- Paths in the extended tree. -/
theorem append_at (st : Bool) (s : Nat) (p : MI) (c d : CD) (h : CD.at p c = some d) :
    CD.at p (CD.append st s c) = some (CD.append st s d) := by
  induction p generalizing c with
  | nil => simp only [CD.at, Option.some.injEq] at h ⊢; rw [h]
  | cons i p ih =>
    cases c with
    | unknown =>
      simp only [CD.at, Option.some.injEq] at h
      rw [← h]; rfl
    | value => simp [CD.at] at h
    | uniform st' n c =>
      simp only [CD.at] at h
      split at h
      · rename_i hi
        simp only [CD.append, CD.at, hi, if_true]
        exact ih c h
      · simp at h
    | list k l =>
      simp only [CD.at, Option.bind_eq_some_iff] at h
      obtain ⟨x, hx, hd⟩ := h
      have : ((CD.appendList st s l)[i]?).bind (CD.at p) = some (CD.append st s d) := by
        rw [appendList_eq, List.getElem?_map, hx]
        simpa using ih x hd
      cases k with
      | vector => simpa [CD.append, CD.at] using this
      | tuple => rw [CD.append]; rw [makeDescriptor_at]; exact this; simp
      | array => rw [CD.append]; rw [makeDescriptor_at]; exact this; simp

theorem append_size (st : Bool) (s : Nat) (c : CD) (h : c ≠ .value) : (CD.append st s c).size = c.size := by
  cases c with
  | unknown => rfl
  | value => exact absurd rfl h
  | uniform st' n c => rfl
  | list k l =>
    cases k with
    | vector => simp [CD.append, CD.size, appendList_eq]
    | tuple => rw [CD.append, makeDescriptor_size] <;> simp [CD.size, appendList_eq]
    | array => rw [CD.append, makeDescriptor_size] <;> simp [CD.size, appendList_eq]

theorem repLex_length (n : Nat) (l : List CD) : (repLex n l).length = n * l.length := by
  rw [repLex, length_flatMap_const _ _ l.length (by simp)]; simp

theorem repInt_length (n : Nat) (l : List CD) : (repInt n l).length = l.length * n := by
  rw [repInt, length_flatMap_const _ _ n (by simp)]

theorem repLex_get (n : Nat) (l : List CD) (k i : Nat) (hk : k < n) (hi : i < l.length) :
    (repLex n l)[i + k * l.length]? = l[i]? := by
  induction n generalizing k with
  | zero => omega
  | succ n ih =>
    have hs : repLex (n+1) l = repLex n l ++ l := by
      simp [repLex, List.range_succ, List.flatMap_append]
    rw [hs]
    by_cases hkn : k = n
    · subst hkn
      rw [List.getElem?_append_right (by rw [repLex_length]; omega), repLex_length]
      congr 1; omega
    · rw [List.getElem?_append_left, ih k (by omega)]
      rw [repLex_length]
      calc i + k * l.length < l.length + k * l.length := by omega
        _ = (k + 1) * l.length := by rw [Nat.add_mul]; omega
        _ ≤ n * l.length := Nat.mul_le_mul_right _ (by omega)

theorem repInt_get (n : Nat) (l : List CD) (k i : Nat) (hk : k < n) (hi : i < l.length) :
    (repInt n l)[i * n + k]? = l[i]? := by
  induction l generalizing i with
  | nil => simp at hi
  | cons c cs ih =>
    have hs : repInt n (c :: cs) = List.replicate n c ++ repInt n cs := by simp [repInt]
    rw [hs]
    cases i with
    | zero =>
      rw [List.getElem?_append_left (by simpa using hk)]
      simp [hk]
    | succ i =>
      have h2 : (i + 1) * n + k = n + (i * n + k) := by rw [Nat.add_mul]; omega
      rw [List.getElem?_append_right (by simp; omega), h2]
      simp only [List.length_replicate, Nat.add_sub_cancel_left, List.getElem?_cons_succ]
      exact ih i (by simpa using hi)

/-- The two flat power strategies at once: first digits are renumbered by `f k`. -/
theorem flat_agree {pb pb' : PreBasis E} {sp sp' : Spec E} {cd cd' : CD} (R : Refines pb sp) (A : AgreeCD pb sp cd)
    (rep : Nat → List CD → List CD) (st : Bool) (c : Nat) (f : Nat → Nat → Nat)
    (hrep : ∀ l : List CD, (rep c l).length = l.length * c)
    (hget : ∀ (l : List CD) k i, l.length = sp.root → k < c → i < l.length → (rep c l)[f k i]? = l[i]?)
    (hlt : ∀ k i, k < c → i < sp.root → f k i < sp.root * c)
    (hdofs : ∀ d' ∈ sp'.dofs, ∃ k, ∃ d ∈ sp.dofs, k < c ∧ sp'.mi d' = onFirst (f k) (sp.mi d))
    (hroot : sp'.root = sp.root * c) (hroot' : pb'.size [] = some sp'.root)
    (hsize : ∀ k i p, k < c → i < sp.root → pb'.size (f k i :: p) = pb.size (i :: p))
    (h : flatN rep st c cd = some cd') : AgreeCD pb' sp' cd' := by
  rcases A.root with hu | ⟨_, hroot1⟩
  · subst hu
    simp only [flatN, Option.some.injEq] at h
    subst h; exact agree_unknown _ _
  -- effect of the repetition on paths
  have key : cd' = .unknown ∨ ((cd' ≠ .value ∧ cd'.size = some (sp.root * c)) ∧
      ∀ k i p, k < c → i < sp.root → CD.at (f k i :: p) cd' = CD.at (i :: p) cd) := by
    cases cd with
    | unknown => simp only [flatN, Option.some.injEq] at h; exact Or.inl h.symm
    | value => simp only [flatN, Option.some.injEq] at h; exact Or.inl h.symm
    | uniform st' m c0 =>
      simp only [CD.size, Option.some.injEq] at hroot1
      subst hroot1
      right
      cases st' with
      | false =>
        simp only [flatN, Option.some.injEq] at h
        subst h
        refine ⟨⟨by simp, rfl⟩, fun k i p hk hi => ?_⟩
        simp [CD.at, hlt k i hk hi, hi]
      | true =>
        simp only [flatN, Option.some.injEq] at h
        subst h
        refine ⟨⟨by simp, by simp [CD.size, Nat.mul_comm]⟩, fun k i p hk hi => ?_⟩
        have := hlt k i hk hi
        rw [Nat.mul_comm] at this
        simp [CD.at, this, hi]
    | list kd l =>
      simp only [CD.size, Option.some.injEq] at hroot1
      right
      have hg : ∀ k i p, k < c → i < sp.root → ((rep c l)[f k i]?).bind (CD.at p) = (l[i]?).bind (CD.at p) := by
        intro k i p hk hi
        rw [hget l k i hroot1 hk (by omega)]
      cases kd with
      | vector =>
        simp only [flatN, Option.some.injEq] at h
        subst h
        exact ⟨⟨by simp, by simp [CD.size, hrep, hroot1]⟩, fun k i p hk hi => by simpa [CD.at] using hg k i p hk hi⟩
      | array =>
        cases st with
        | true => simp [flatN] at h
        | false =>
          simp only [flatN, Bool.false_eq_true, if_false, Option.some.injEq] at h
          subst h
          exact ⟨⟨by simp, by simp [CD.size, hrep, hroot1]⟩, fun k i p hk hi => by simpa [CD.at] using hg k i p hk hi⟩
      | tuple =>
        cases st with
        | false => simp [flatN] at h
        | true =>
          simp only [flatN, if_true, Option.some.injEq] at h
          subst h
          refine ⟨⟨makeDescriptor_ne _, by simp [makeDescriptor_size, hrep, hroot1]⟩, fun k i p hk hi => ?_⟩
          rw [makeDescriptor_at, hg k i p hk hi]
          rfl
  rcases key with hu | ⟨hsz, hat⟩
  · subst hu; exact agree_unknown _ _
  · obtain ⟨hnv, hsz⟩ := hsz
    refine ⟨Or.inr ⟨hnv, by rw [hsz, hroot]⟩, ?_, ?_⟩
    · intro d' hd' p hp
      obtain ⟨k, d, hd, hk, hmi⟩ := hdofs d' hd'
      obtain ⟨i, r, hm, hi⟩ := R.first hd
      rw [hmi, hm] at hp
      cases p with
      | nil => exact ⟨cd', rfl, Or.inr ⟨_, hsz, by rw [hroot', hroot]⟩⟩
      | cons a p =>
        simp only [onFirst, List.cons_prefix_cons] at hp
        obtain ⟨rfl, hp⟩ := hp
        rw [hat k i p hk hi, hsize k i p hk hi]
        exact A.pref d hd (i :: p) (by rw [hm]; simpa using hp)
    · intro d' hd'
      obtain ⟨k, d, hd, hk, hmi⟩ := hdofs d' hd'
      obtain ⟨i, r, hm, hi⟩ := R.first hd
      rw [hmi, hm]
      have := A.full d hd
      rw [hm] at this
      simp only [onFirst]
      rw [hat k i r hk hi]
      exact this

theorem power_agree (st : Bool) (s : IMS) (c : Nat) (hc : 0 < c) {b : PreBasis E} {sp : Spec E} {cd cd' : CD}
    (R : Refines b sp) (A : AgreeCD b sp cd) (h : powerDescriptor st s c cd = some cd') :
    AgreeCD (powerPB s c b) (specPower s c sp) cd' := by
  have hc0 : c ≠ 0 := by omega
  cases s with
  | flatInt =>
    refine flat_agree R A repInt st c (fun k i => i * c + k) (repInt_length c)
      (fun l k i _ hk hi => repInt_get c l k i hk hi) ?_ ?_ (by simp [specPower, Nat.mul_comm]) ?_ ?_ h
    · intro k i hk hi
      calc i * c + k < i * c + c := by omega
        _ = (i + 1) * c := by rw [Nat.add_mul]; omega
        _ ≤ sp.root * c := Nat.mul_le_mul_right _ (by omega)
    · intro d' hd'
      obtain ⟨k, d, rfl, hk, hd⟩ := mem_power_dofs.mp hd'
      exact ⟨k, d, hd, hk, rfl⟩
    · simp [powerPB, powerSize, R.root, specPower]
    · intro k i p hk hi
      have : (i * c + k) / c = i := by
        rw [Nat.mul_comm, Nat.mul_add_div (by omega), Nat.div_eq_of_lt hk, Nat.add_zero]
      simp [powerPB, powerSize, hc0, updFirst, setDigit, this]
  | flatLex =>
    refine flat_agree R A repLex st c (fun k i => i + k * sp.root)
      (fun l => by rw [repLex_length, Nat.mul_comm])
      (fun l k i hl hk hi => by rw [← hl]; exact repLex_get c l k i hk hi) ?_ ?_ (by simp [specPower, Nat.mul_comm]) ?_ ?_ h
    · intro k i hk hi
      calc i + k * sp.root < sp.root + k * sp.root := by omega
        _ = (k + 1) * sp.root := by rw [Nat.add_mul]; omega
        _ ≤ c * sp.root := Nat.mul_le_mul_right _ (by omega)
        _ = sp.root * c := Nat.mul_comm _ _
    · intro d' hd'
      obtain ⟨k, d, rfl, hk, hd⟩ := mem_power_dofs.mp hd'
      exact ⟨k, d, hd, hk, rfl⟩
    · simp [powerPB, powerSize, R.root, specPower]
    · intro k i p hk hi
      have : (i + k * sp.root) % sp.root = i := by
        rw [Nat.add_mul_mod_self_right, Nat.mod_eq_of_lt hi]
      simp [powerPB, powerSize, R.root, show sp.root ≠ 0 by omega, updFirst, setDigit, this]
  | blockedLex =>
    simp only [powerDescriptor, Option.some.injEq] at h
    subst h
    refine ⟨Or.inr ⟨by simp, rfl⟩, ?_, ?_⟩
    · intro d' hd' p hp
      obtain ⟨k, d, rfl, hk, hd⟩ := mem_power_dofs.mp hd'
      simp only [specPower, IMS.merge] at hp
      cases p with
      | nil => exact ⟨_, rfl, Or.inr ⟨c, rfl, by simp [powerPB, powerSize]⟩⟩
      | cons a p =>
        simp only [List.cons_prefix_cons] at hp
        obtain ⟨rfl, hp⟩ := hp
        obtain ⟨d', h1, h2⟩ := A.pref d hd p hp
        refine ⟨d', by simp [CD.at, hk, h1], ?_⟩
        simpa [powerPB, powerSize, multiIndexPopFront_cons] using h2
    · intro d' hd'
      obtain ⟨k, d, rfl, hk, hd⟩ := mem_power_dofs.mp hd'
      obtain ⟨d', h1, h2⟩ := A.full d hd
      exact ⟨d', by simp [specPower, IMS.merge, CD.at, hk, h1], h2⟩
  | blockedInt =>
    simp only [powerDescriptor, Option.some.injEq] at h
    subst h
    have hone : ∀ k, k < c → CD.at [k] (CD.uniform st c .value) = some .value := by
      intro k hk; simp [CD.at, hk]
    have hat : ∀ (p q : MI) (x y : CD), CD.at p x = some y → CD.at (p ++ q) x = CD.at q y := by
      intro p
      induction p with
      | nil => intro q x y hx; simp only [CD.at, Option.some.injEq] at hx; simp [hx]
      | cons i p ih =>
        intro q x y hx
        cases x with
        | unknown =>
          simp only [CD.at, Option.some.injEq] at hx
          subst hx; rw [at_unknown, at_unknown]
        | value => simp [CD.at] at hx
        | list k l =>
          simp only [CD.at, Option.bind_eq_some_iff] at hx
          obtain ⟨z, hz, hx⟩ := hx
          simp only [List.cons_append, CD.at, hz, Option.bind_some]
          exact ih q z y hx
        | uniform s' n z =>
          simp only [CD.at] at hx
          split at hx
          · rename_i hi
            simp only [List.cons_append, CD.at, hi, if_true]
            exact ih q z y hx
          · simp at hx
    -- the descriptor at a full index of the sub-basis
    have hfull : ∀ d ∈ sp.dofs, CD.at (sp.mi d) (CD.append st c cd) = some .unknown ∨
        CD.at (sp.mi d) (CD.append st c cd) = some (.uniform st c .value) := by
      intro d hd
      obtain ⟨d', h1, h2⟩ := A.full d hd
      rcases h2 with rfl | rfl
      · exact Or.inl (append_at st c _ _ _ h1)
      · exact Or.inr (append_at st c _ _ _ h1)
    refine ⟨?_, ?_, ?_⟩
    · rcases A.root with hu | ⟨hv, hr⟩
      · left; subst hu; rfl
      · right
        refine ⟨?_, by rw [append_size _ _ _ hv, hr]; rfl⟩
        cases cd with
        | unknown => simp [CD.append]
        | value => exact absurd rfl hv
        | uniform => simp [CD.append]
        | list k l =>
          cases k with
          | vector => simp [CD.append]
          | tuple => rw [CD.append]; exact makeDescriptor_ne _; simp
          | array => rw [CD.append]; exact makeDescriptor_ne _; simp
    · intro d' hd' p hp
      obtain ⟨k, d, rfl, hk, hd⟩ := mem_power_dofs.mp hd'
      have hmi : (specPower .blockedInt c sp).mi (k :: d) = sp.mi d ++ [k] := rfl
      rw [hmi] at hp
      rcases prefix_snoc_cases hp with rfl | hp
      · -- the full index
        have hs : (powerPB .blockedInt c b).size (sp.mi d ++ [k]) = some 0 := by
          have := R.sizeFull d hd
          simp [powerPB, powerSize, this]
        rcases hfull d hd with h1 | h1
        · exact ⟨.unknown, by rw [hat _ _ _ _ h1]; exact at_unknown _, Or.inl rfl⟩
        · exact ⟨.value, by rw [hat _ _ _ _ h1]; exact hone k hk, Or.inr ⟨0, rfl, hs⟩⟩
      · by_cases hpd : p = sp.mi d
        · -- the full index of the sub-basis
          subst hpd
          have hne : sp.mi d ≠ [] := by
            obtain ⟨i, r, hm, _⟩ := R.first hd
            simp [hm]
          have hs : (powerPB .blockedInt c b).size (sp.mi d) = some c := by
            have h0 := R.sizeFull d hd
            obtain ⟨n, hn, hlt⟩ := R.sizeLt d hd (sp.mi d).dropLast ((sp.mi d).getLast hne)
              ⟨[], by rw [List.append_nil, List.dropLast_concat_getLast hne]⟩
            rw [List.dropLast_eq_take] at hn
            have hn0 : n ≠ 0 := by omega
            simp [powerPB, powerSize, h0, hn, hne, hn0]
          rcases hfull d hd with h1 | h1
          · exact ⟨_, h1, Or.inl rfl⟩
          · exact ⟨_, h1, Or.inr ⟨c, rfl, hs⟩⟩
        · -- a proper prefix
          obtain ⟨q, hq⟩ := hp
          have hqne : q ≠ [] := by
            intro h0; subst h0; simp at hq; exact hpd hq
          obtain ⟨x, q, rfl⟩ := List.exists_cons_of_ne_nil hqne
          obtain ⟨n, hn, hlt⟩ := R.sizeLt d hd p x ⟨q, by rw [← hq]; simp⟩
          have hs : (powerPB .blockedInt c b).size p = some n := by
            have hn0 : n ≠ 0 := by omega
            by_cases hp0 : p = []
            · subst hp0; simpa [powerPB, powerSize] using hn
            · obtain ⟨n', hn', hlt'⟩ := R.sizeLt d hd p.dropLast (p.getLast hp0)
                (by rw [List.dropLast_concat_getLast hp0]; exact ⟨x :: q, hq⟩)
              rw [List.dropLast_eq_take] at hn'
              have hn0' : n' ≠ 0 := by omega
              simp [powerPB, powerSize, hp0, hn, hn0, hn', hn0']
          obtain ⟨d1, h1, h2⟩ := A.pref d hd p ⟨x :: q, hq⟩
          refine ⟨_, append_at st c _ _ _ h1, ?_⟩
          rcases h2 with rfl | ⟨n', h3, h4⟩
          · exact Or.inl rfl
          · right
            rw [hn] at h4
            simp only [Option.some.injEq] at h4
            subst h4
            refine ⟨n, ?_, hs⟩
            rw [append_size, h3]
            intro hv; subst hv
            simp [CD.size] at h3; omega
    · intro d' hd'
      obtain ⟨k, d, rfl, hk, hd⟩ := mem_power_dofs.mp hd'
      have hmi : (specPower .blockedInt c sp).mi (k :: d) = sp.mi d ++ [k] := rfl
      rw [hmi]
      rcases hfull d hd with h1 | h1
      · exact ⟨.unknown, by rw [hat _ _ _ _ h1]; exact at_unknown _, Or.inl rfl⟩
      · exact ⟨.value, by rw [hat _ _ _ _ h1]; exact hone k hk, Or.inr rfl⟩

/-- Agreement for lists of children. -/
inductive AgreeL : List (PreBasis E) → List (Spec E) → List CD → Prop
  | nil : AgreeL [] [] []
  | cons {b : PreBasis E} {sp : Spec E} {d : CD} {bs : List (PreBasis E)} {sps : List (Spec E)} {ds : List CD} :
      AgreeCD b sp d → AgreeL bs sps ds → AgreeL (b :: bs) (sp :: sps) (d :: ds)

theorem AgreeL.get {bs : List (PreBasis E)} {sps : List (Spec E)} {ds : List CD} (A : AgreeL bs sps ds) (k : Nat)
    (sp : Spec E) (h : sps[k]? = some sp) : ∃ b d, bs[k]? = some b ∧ ds[k]? = some d ∧ AgreeCD b sp d := by
  induction A generalizing k with
  | nil => simp at h
  | cons a _ ih =>
    cases k with
    | zero =>
      simp only [List.getElem?_cons_zero, Option.some.injEq] at h
      subst h
      exact ⟨_, _, rfl, rfl, a⟩
    | succ k => simpa using ih k (by simpa using h)

theorem AgreeL.length {bs : List (PreBasis E)} {sps : List (Spec E)} {ds : List CD} (A : AgreeL bs sps ds) :
    bs.length = sps.length ∧ ds.length = sps.length := by
  induction A with
  | nil => exact ⟨rfl, rfl⟩
  | cons _ _ ih => simp [ih.1, ih.2]

theorem flatVectorSize_some {d : CD} {n : Nat} (h : flatVectorSize d = some n) : d = .uniform false n .value := by
  unfold flatVectorSize at h
  split at h
  · simp only [Option.some.injEq] at h; subst h; rfl
  · simp at h

theorem flatSizes_spec {bs : List (PreBasis E)} {sps : List (Spec E)} {ds : List CD} (A : AgreeL bs sps ds)
    {n : Nat} (h : flatSizes ds = some n) : n = (sps.map (·.root)).sum ∧
      ∀ (k : Nat) (d : CD), ds[k]? = some d → ∃ m, d = CD.uniform false m .value := by
  induction A generalizing n with
  | nil => simp [flatSizes] at h; subst h; simp
  | cons a _ ih =>
    simp only [flatSizes, Option.bind_eq_some_iff, Option.some.injEq] at h
    obtain ⟨m, hm, m', hm', rfl⟩ := h
    obtain ⟨h1, h2⟩ := ih hm'
    have hd := flatVectorSize_some hm
    constructor
    · have := a.root
      rw [hd] at this
      simp only [reduceCtorEq, ne_eq, not_false_eq_true, true_and, CD.size, Option.some.injEq, false_or] at this
      simp [h1, this]
    · intro k d hk
      cases k with
      | zero =>
        simp only [List.getElem?_cons_zero, Option.some.injEq] at hk
        subst hk; exact ⟨m, hd⟩
      | succ k => exact h2 k d (by simpa using hk)

theorem composite_agree (blocked : Bool) {bs : List (PreBasis E)} {sps : List (Spec E)} {ds : List CD}
    (R : RefinesL bs sps) (hne : bs ≠ []) (A : AgreeL bs sps ds) :
    AgreeCD (compositePB blocked bs) (specComposite blocked sps) (compositeDescriptor blocked ds) := by
  have RC := composite_refines blocked hne R
  cases blocked with
  | true =>
    simp only [compositeDescriptor, if_true]
    refine ⟨Or.inr ⟨makeDescriptor_ne _, ?_⟩, ?_, ?_⟩
    · rw [makeDescriptor_size, A.length.2]; rfl
    · intro d hd p hp
      obtain ⟨k, sp, d', hsp, hd', rfl⟩ := mem_composite_dofs.mp hd
      rw [composite_mi hsp] at hp
      simp only [if_true] at hp
      cases p with
      | nil => exact ⟨_, rfl, Or.inr ⟨ds.length, makeDescriptor_size _, by
          simp [compositePB, compositeSize, A.length.1, A.length.2]⟩⟩
      | cons a p =>
        simp only [List.cons_prefix_cons] at hp
        obtain ⟨rfl, hp⟩ := hp
        obtain ⟨b, cd, hb, hcd, a0⟩ := A.get a sp hsp
        obtain ⟨d1, h1, h2⟩ := a0.pref d' hd' p hp
        refine ⟨d1, by rw [makeDescriptor_at, hcd, Option.bind_some, h1], ?_⟩
        simpa [compositePB, compositeSize, multiIndexPopFront_cons, hb] using h2
    · intro d hd
      obtain ⟨k, sp, d', hsp, hd', rfl⟩ := mem_composite_dofs.mp hd
      rw [composite_mi hsp]
      obtain ⟨b, cd, hb, hcd, a0⟩ := A.get k sp hsp
      obtain ⟨d1, h1, h2⟩ := a0.full d' hd'
      exact ⟨d1, by simp [makeDescriptor_at, hcd, h1], h2⟩
  | false =>
    simp only [compositeDescriptor, Bool.false_eq_true, if_false]
    cases hf : flatSizes ds with
    | none => exact agree_unknown _ _
    | some n =>
      obtain ⟨hn, hflat⟩ := flatSizes_spec A hf
      simp only
      have hlen1 : ∀ d ∈ (specComposite false sps).dofs, ∃ x, (specComposite false sps).mi d = [x] ∧ x < n := by
        intro d hd
        obtain ⟨k, sp, d', hsp, hd', rfl⟩ := mem_composite_dofs.mp hd
        obtain ⟨b, cd, hb, hcd, a0⟩ := A.get k sp hsp
        obtain ⟨m, rfl⟩ := hflat k cd hcd
        obtain ⟨d1, h1, h2⟩ := a0.full d' hd'
        rw [composite_mi hsp]
        simp only [Bool.false_eq_true, if_false]
        have hmr : m = sp.root := by
          have := a0.root
          simpa [CD.size] using this
        generalize sp.mi d' = mm at h1
        cases mm with
        | nil =>
          simp only [CD.at, Option.some.injEq] at h1
          subst h1; simp at h2
        | cons x r =>
          simp only [CD.at] at h1
          split at h1
          · rename_i hx
            cases r with
            | nil =>
              refine ⟨_, rfl, ?_⟩
              rw [hn]
              exact offs_lt hsp (by omega)
            | cons y r => simp [CD.at] at h1
          · simp at h1
      refine ⟨Or.inr ⟨by simp, by simp [CD.size, hn, specComposite]⟩, ?_, ?_⟩
      · intro d hd p hp
        obtain ⟨x, hx, hlt⟩ := hlen1 d hd
        have hfull := RC.sizeFull d hd
        rw [hx] at hp hfull
        rcases p with _ | ⟨a, _ | ⟨b, p⟩⟩
        · exact ⟨_, rfl, Or.inr ⟨n, rfl, by rw [RC.root, hn]; rfl⟩⟩
        · obtain rfl : a = x := by simpa using hp
          exact ⟨.value, by simp [CD.at, hlt], Or.inr ⟨0, rfl, hfull⟩⟩
        · exact absurd hp.length_le (by simp)
      · intro d hd
        obtain ⟨x, hx, hlt⟩ := hlen1 d hd
        rw [hx]
        exact ⟨.value, by simp [CD.at, hlt], Or.inr rfl⟩

theorem restricted_agree (f : E → Bool) {b : PreBasis E} {sp : Spec E} {cd : CD} (A : AgreeCD b sp cd) :
    AgreeCD (restrictedPB f b) (specRestricted f sp) cd := ⟨A.root, A.pref, A.full⟩

mutual
theorem desc_agree {b : PB E} {cd : CD} (hb : b.WF) (h : Desc b cd) : AgreeCD b.model b.spec cd := by
  match b, cd, h with
  | _, _, .leaf L => exact leaf_agree L
  | .power _ _ sub, _, .power st s c hd h =>
    exact power_agree st s c hb.1 (PB.refines _ hb.2) (desc_agree hb.2 hd) h
  | .composite _ subs, _, .composite blocked hds =>
    exact composite_agree blocked (PB.refinesL _ hb.2)
      (by cases subs with
          | nil => exact absurd rfl hb.1
          | cons => simp [PB.models]) (descs_agree hb.2 hds)
  | .restricted _ sub, _, .restricted f hd => exact restricted_agree f (desc_agree (b := sub) hb hd)
theorem descs_agree {bs : List (PB E)} {ds : List CD} (hb : PB.WFs bs) (h : Descs bs ds) :
    AgreeL (PB.models bs) (PB.specs bs) ds := by
  match bs, ds, h with
  | _, _, .nil => exact .nil
  | b :: bs, _, .cons hd hds => exact .cons (desc_agree hb.1 hd) (descs_agree hb.2 hds)
end

/-! ## C12 -/

/-- For every basis tree and every choice of static and dynamic powers: following a returned container
descriptor along any prefix of any multi-index never leaves the descriptor, and either reaches an
unknown sub-descriptor or one whose number of entries is `size(prefix)`. -/
theorem C12_descriptor (b : PB E) (hb : b.WF) (cd : CD) (hcd : Desc b cd) :
    (cd = .unknown ∨ ∃ n, cd.size = some n ∧ b.model.size [] = some n) ∧
    ∀ e I, localIndices b.model e = some I → ∀ m ∈ I, ∀ p, p <+: m →
      ∃ d, CD.at p cd = some d ∧ (d = .unknown ∨ ∃ n, d.size = some n ∧ b.model.size p = some n) := by
  have A := desc_agree hb hcd
  have R := b.refines hb
  constructor
  · rcases A.root with h | ⟨_, h⟩
    · exact Or.inl h
    · exact Or.inr ⟨_, h, R.root⟩
  · intro e I hI m hm p hp
    rw [localIndices_eq R e] at hI
    injection hI with hI
    subst hI
    obtain ⟨d, hd, rfl⟩ := List.mem_map.mp hm
    exact A.pref d (R.locMem e d hd) p hp

/-- Prefixes a user can build by respecting the sizes reported by the basis. -/
inductive ValidPrefix (size : MI → Option Nat) : MI → Prop
  | nil : ValidPrefix size []
  | snoc {p : MI} {x n : Nat} : ValidPrefix size p → size p = some n → x < n → ValidPrefix size (p ++ [x])

/-- If all leaf bases are non-empty this holds for all prefixes built from the sizes reported by the
basis. -/
theorem C12_valid_prefixes (b : PB E) (hb : b.WF) (hpos : b.Pos) (cd : CD) (hcd : Desc b cd) (p : MI)
    (hp : ValidPrefix b.model.size p) :
    ∃ d, CD.at p cd = some d ∧ (d = .unknown ∨ ∃ n, d.size = some n ∧ b.model.size p = some n) := by
  have A := desc_agree hb hcd
  have C := b.complete hb hpos
  have key : ∃ d ∈ b.spec.dofs, p <+: b.spec.mi d := by
    induction hp with
    | nil =>
      obtain ⟨d, hd⟩ := List.exists_mem_of_ne_nil _ C.nonempty
      exact ⟨d, hd, List.nil_prefix⟩
    | snoc _ hn hx ih =>
      obtain ⟨d, hd, hp⟩ := ih
      exact C.digits d hd _ hp _ hn _ hx
  obtain ⟨d, hd, hp⟩ := key
  exact A.pref d hd p hp

/-- The full claim for all prefixes built from the sizes reported by the basis, without assuming
non-empty leaf bases. It is false. -/
def C12_full (E : Type) : Prop := ∀ (b : PB E), b.WF → ∀ cd, Desc b cd → ∀ p, ValidPrefix b.model.size p →
  ∃ d, CD.at p cd = some d ∧ (d = .unknown ∨ ∃ n, d.size = some n ∧ b.model.size p = some n)

/-- `power<2>(composite(lagrange, empty), blockedInterleaved)`: `size({1})` is 2 although there is no
index with first digit 1; the descriptor has 0 entries there. -/
theorem C12_empty_leaf_false : ¬ C12_full Unit := by
  intro h
  have hd : Desc (.power .blockedInt 2 (.composite true [.leaf ⟨1, 1, fun _ => [0]⟩, .leaf ⟨0, 0, fun _ => []⟩]) : PB Unit)
      (CD.append true 2 (compositeDescriptor true [.uniform false 1 .value, .uniform false 0 .value])) :=
    .power true .blockedInt 2 (.composite true (.cons (.leaf _) (.cons (.leaf _) .nil))) rfl
  obtain ⟨d, h1, h2⟩ := h _ (by simp [PB.WF, PB.WFs]) _ hd [1] (.snoc (n := 2) .nil rfl (by decide))
  have h3 : CD.at [1] (CD.append true 2 (compositeDescriptor true [.uniform false 1 .value, .uniform false 0 .value]))
      = some (.uniform false 0 (.uniform true 2 .value)) := rfl
  rw [h3] at h1
  injection h1 with h1
  subst h1
  rcases h2 with h2 | ⟨n, h2, h4⟩
  · simp at h2
  · simp [CD.size] at h2
    subst h2
    exact absurd h4 (by decide)

/-- Example: the descriptor of a Taylor-Hood like tree with hybrid indices. -/
example : Desc (thTree true 2 thEx2 thEx1)
    (.list .tuple [.uniform false 5 (.uniform true 2 .value), .uniform false 3 .value]) := by
  have h : Desc (thTree true 2 thEx2 thEx1)
      (compositeDescriptor true [CD.append true 2 (.uniform false 5 .value), .uniform false 3 .value]) :=
    .composite true (.cons (.power true .blockedInt 2 (.leaf thEx2) rfl) (.cons (.leaf thEx1) .nil))
  exact h

/-- `TaylorHoodPreBasis::containerDescriptor`, taylorhoodbasis.hh:204-216. -/
def thDescriptor (hi : Bool) (dim s2 s1 : Nat) : CD :=
  if hi then makeDescriptor [.uniform false s2 (.uniform true dim .value), .uniform false s1 .value]
  else .list .array [.uniform false (dim * s2) .value, .uniform false s1 .value]

/-- Taylor-Hood: the descriptor has `size(prefix)` entries at all prefixes of the documented
multi-indices, in both variants. -/
theorem C12_taylorHood (hi : Bool) (dim : Nat) (hdim : 0 < dim) (L2 L1 : Leaf E) (h2 : (PB.leaf L2).WF)
    (h1 : (PB.leaf L1).WF) :
    ∀ e I, localIndices (thTree hi dim L2 L1).model e = some I → ∀ m ∈ I, ∀ p, p <+: m →
      ∃ d n, CD.at p (thDescriptor hi dim L2.dim L1.dim) = some d ∧ d.size = some n ∧
        (thPB hi dim L2 L1).size p = some n := by
  intro e I hI m hm p hp
  have R := PB.refines _ (thTree_WF (hi := hi) hdim h2 h1)
  rw [localIndices_eq R e] at hI
  injection hI with hI
  subst hI
  obtain ⟨d, hd, rfl⟩ := List.mem_map.mp hm
  have hd := R.locMem e d hd
  simp only [thTree, PB.spec, PB.specs, specComposite, tagged, List.map_cons, List.map_nil,
    List.append_nil, List.mem_append, List.mem_map, specPower, List.mem_flatMap, List.mem_range, specLeaf] at hd
  rcases hd with ⟨_, ⟨k, hk, y, ⟨x, hx, rfl⟩, rfl⟩, rfl⟩ | ⟨_, ⟨x, hx, rfl⟩, rfl⟩
  · cases hi with
    | false =>
      have hmi : (thTree false dim L2 L1).spec.mi [0, k, x] = [0, x * dim + k] := by
        simp [thTree, PB.spec, PB.specs, specComposite, specPower, specLeaf, IMS.merge, onFirst]
      have hlt : x * dim + k < dim * L2.dim := by
        calc x * dim + k < x * dim + dim := by omega
          _ = (x + 1) * dim := by rw [Nat.add_mul]; omega
          _ ≤ L2.dim * dim := Nat.mul_le_mul_right _ (by omega)
          _ = dim * L2.dim := Nat.mul_comm _ _
      rw [hmi] at hp
      rcases p with _ | ⟨a, _ | ⟨b, _ | ⟨c, p⟩⟩⟩
      · exact ⟨_, 2, rfl, rfl, rfl⟩
      · obtain rfl : a = 0 := by simpa using hp
        exact ⟨_, dim * L2.dim, rfl, rfl, by simp [thPB, thSize]⟩
      · obtain ⟨rfl, rfl⟩ : a = 0 ∧ b = x * dim + k := by simpa using hp
        exact ⟨.value, 0, by simp [thDescriptor, CD.at, hlt], rfl, by simp [thPB, thSize]⟩
      · exact absurd hp.length_le (by simp)
    | true =>
      have hmi : (thTree true dim L2 L1).spec.mi [0, k, x] = [0, x, k] := by
        simp [thTree, PB.spec, PB.specs, specComposite, specPower, specLeaf, IMS.merge]
      rw [hmi] at hp
      rcases p with _ | ⟨a, _ | ⟨b, _ | ⟨c, _ | ⟨f, p⟩⟩⟩⟩
      · exact ⟨_, 2, rfl, by simp [thDescriptor, makeDescriptor_size], rfl⟩
      · obtain rfl : a = 0 := by simpa using hp
        exact ⟨.uniform false L2.dim (.uniform true dim .value), L2.dim,
          by simp [thDescriptor, makeDescriptor_at, CD.at], rfl, by simp [thPB, thSize]⟩
      · obtain ⟨rfl, rfl⟩ : a = 0 ∧ b = x := by simpa using hp
        exact ⟨.uniform true dim .value, dim, by simp [thDescriptor, makeDescriptor_at, CD.at, hx], rfl,
          by simp [thPB, thSize]⟩
      · obtain ⟨rfl, rfl, rfl⟩ : a = 0 ∧ b = x ∧ c = k := by simpa using hp
        exact ⟨.value, 0, by simp [thDescriptor, makeDescriptor_at, CD.at, hx, hk], rfl, by simp [thPB, thSize]⟩
      · exact absurd hp.length_le (by simp)
  · have hmi : (thTree hi dim L2 L1).spec.mi [1, x] = [1, x] := by
      simp [thTree, PB.spec, PB.specs, specComposite, specLeaf]
    rw [hmi] at hp
    rcases p with _ | ⟨a, _ | ⟨b, _ | ⟨c, p⟩⟩⟩
    · cases hi
      · exact ⟨_, 2, rfl, rfl, rfl⟩
      · exact ⟨_, 2, rfl, by simp [thDescriptor, makeDescriptor_size], rfl⟩
    · obtain rfl : a = 1 := by simpa using hp
      cases hi
      · exact ⟨_, L1.dim, rfl, rfl, by simp [thPB, thSize]⟩
      · exact ⟨.uniform false L1.dim .value, L1.dim, by simp [thDescriptor, makeDescriptor_at, CD.at], rfl,
          by simp [thPB, thSize]⟩
    · obtain ⟨rfl, rfl⟩ : a = 1 ∧ b = x := by simpa using hp
      cases hi
      · exact ⟨.value, 0, by simp [thDescriptor, CD.at, hx], rfl, by simp [thPB, thSize]⟩
      · exact ⟨.value, 0, by simp [thDescriptor, makeDescriptor_at, CD.at, hx], rfl, by simp [thPB, thSize]⟩
    · exact absurd hp.length_le (by simp)

/-! ## C16 -/

/-- The periodic basis returns the descriptor of the raw basis (periodicbasis.hh:125-129). -/
def periodicDescriptor (raw : CD) : CD := raw

/-- The full claim: the number of entries of the descriptor is `size()`. It is false. -/
def C16_full (E : Type) : Prop := ∀ (L : Leaf E) (calls : List (Nat × Nat)) (f : List (Option Nat)) (n : Nat),
  (PB.leaf L).WF → (∀ p ∈ calls, p.1 < L.dim ∧ p.2 < L.dim) → periodicMap L.dim (unifyAll calls) = some (f, n) →
  (periodicDescriptor (.uniform false L.dim .value)).size = (periodicPB (leafPB L) f n).size []

theorem C16_false : ¬ C16_full Unit := by
  intro h
  have := h ⟨2, 2, fun _ => [0, 1]⟩ [(0, 1)] [some 0, some 0] 1 (by simp [PB.WF]) (by decide) (by decide)
  exact absurd this (by decide)

/-- The descriptor has `size()` entries exactly if no two different indices were unified.
Missing: all other sets of pairs, for which the claim is false. -/
theorem C16_partial (L : Leaf E) (calls : List (Nat × Nat)) (h : ∀ p ∈ calls, p.1 < L.dim ∧ p.2 < L.dim)
    (f : List (Option Nat)) (n : Nat) (hf : periodicMap L.dim (unifyAll calls) = some (f, n)) :
    (periodicDescriptor (.uniform false L.dim .value)).size = (periodicPB (leafPB L) f n).size [] ↔
      ∀ p ∈ calls, p.1 = p.2 := by
  have hr := unifyAll_range h
  obtain ⟨f', n', hf', I⟩ := periodicMap_spec L.dim _ (unifyAll_spec calls).1 hr
  rw [hf] at hf'
  simp only [Option.some.injEq, Prod.mk.injEq] at hf'
  obtain ⟨rfl, rfl⟩ := hf'
  have hex : ∀ i : Fin L.dim, ∃ v : Fin n, f[i.1]? = some (some v.1) := by
    intro i
    obtain ⟨v, hv⟩ := I.done i i.2
    exact ⟨⟨v, I.lt i v hv⟩, hv⟩
  choose g hg using hex
  have hsurj : Function.Surjective g := by
    intro v
    obtain ⟨i, hi, hv⟩ := I.rep v v.2
    refine ⟨⟨i, hi⟩, ?_⟩
    have := hg ⟨i, hi⟩
    rw [hv] at this
    simp only [Option.some.injEq] at this
    exact Fin.ext this.symm
  have hsz : (periodicDescriptor (.uniform false L.dim .value)).size = (periodicPB (leafPB L) f n).size [] ↔
      Fintype.card (Fin L.dim) = Fintype.card (Fin n) := by
    simp [periodicDescriptor, CD.size, periodicPB]
  rw [hsz]
  constructor
  · intro hcard
    have hinj := ((Fintype.bijective_iff_surjective_and_card g).mpr ⟨hsurj, hcard⟩).1
    intro p hp
    by_contra hne
    -- the largest partner of the larger index gets the same index
    have hm : (min p.1 p.2, max p.1 p.2) ∈ unifyAll calls :=
      ((unifyAll_spec calls).2 _).mpr ⟨p, hp, hne, rfl⟩
    generalize max p.1 p.2 = b at hm
    have hfin : ∀ k a, (a, b) ∈ unifyAll calls → b ≤ a + k →
        ∃ a', (a', b) ∈ unifyAll calls ∧ ∀ c, (c, b) ∈ unifyAll calls → c ≤ a' := by
      intro k
      induction k with
      | zero => intro a ha hle; have := (hr _ ha).1; simp at this; omega
      | succ k ih =>
        intro a ha hle
        by_cases hc : ∃ c, (c, b) ∈ unifyAll calls ∧ a < c
        · obtain ⟨c, hc, hlt⟩ := hc
          exact ih c hc (by omega)
        · exact ⟨a, ha, fun c hc' => by by_contra hlt; exact hc ⟨c, hc', by omega⟩⟩
    obtain ⟨a', ha', hmax⟩ := hfin b _ hm (by omega)
    have heq := I.last a' b ha' hmax
    have hb := hr _ ha'
    simp only at hb
    have := @hinj ⟨b, hb.2⟩ ⟨a', by omega⟩ (by
      have h1 := hg ⟨b, hb.2⟩
      have h2 := hg ⟨a', by omega⟩
      simp only at h1 h2
      rw [heq, h2] at h1
      simp only [Option.some.injEq] at h1
      exact Fin.ext h1.symm)
    simp at this
    omega
  · intro htriv
    have hinj : Function.Injective g := by
      intro i j hij
      have hc := (I.conn i j _ (hg i) (by rw [hij]; exact hg j)).chain
      have : ∀ {a b : Nat}, Chain calls a b → a = b := by
        intro a b hc
        induction hc with
        | refl => rfl
        | step _ u ih =>
          rw [ih]
          rcases u with u | u
          · exact htriv _ u
          · exact (htriv _ u).symm
      exact Fin.ext (this hc)
    exact Fintype.card_of_bijective ⟨hinj, hsurj⟩

end Verif.IndexTree

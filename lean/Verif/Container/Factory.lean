import Verif.Container.Resize

/-!
# Container factories

Model of `makeContainer` (`dune/functions/backends/containerfactory.hh`) and `makeISTLVector`
(`dune/functions/backends/istlvectorfactory.hh`).
-/

namespace Verif.Container

open Verif.IndexTree

variable {T : Type}

/-! ## Model -/

mutual
/-- `ContainerFactory`, containerfactory.hh:23-84. `none`: the descriptor contains `Unknown`. -/
def makeContainer (t : T) : CD → Option (Ct T)
  | .unknown => none
  | .value => some (.scalar t)
  | .list .tuple l => (makeContainers t l).map .tup
  | .list .array l => (makeContainers t l).map .arr
  | .list .vector l => (makeContainers t l).map .vec
  | .uniform true n c => (makeContainer t c).map fun x => .arr (List.replicate n x)
  | .uniform false n c => (makeContainer t c).map fun x => .vec (List.replicate n x)
def makeContainers (t : T) : List CD → Option (List (Ct T))
  | [] => some []
  | c :: cs => (makeContainer t c).bind fun x => (makeContainers t cs).map (x :: ·)
end

/-- `std::is_same<Child, Value>`. -/
def isValue : CD → Bool
  | .value => true
  | _ => false

/-- The type is `UniformArray<Value,m>`. -/
def flatArray : CD → Option Nat
  | .uniform true m .value => some m
  | _ => none

/-- Class template argument deduction of `BlockVector{x...}`, istlvectorfactory.hh:42, 62: without arguments it
does not compile; a single argument that is a `BlockVector` is copied ([over.match.class.deduct]); otherwise
the entries of the initializer list are the blocks. -/
def blockVectorInit : List (Ct T) → Option (Ct T)
  | [] => none
  | [.vec l] => some (.vec l)
  | l => some (.vec l)

/-- `BlockVector<FieldVector<T,m>>(n)`. -/
def fieldBlocks (z : T) (n m : Nat) : Ct T := .vec (List.replicate n (.arr (List.replicate m (.scalar z))))

mutual
/-- `ISTLVectorFactory`, istlvectorfactory.hh:23-116. `z` is `T(0)`, which is also the value of the entries of
a new `BlockVector` or `FieldVector`. Arrays and vectors whose first entry has type `UniformArray<Value,m>` have
only such entries. -/
def makeISTL (z : T) : CD → Option (Ct T)
  | .unknown => none
  | .value => some (.scalar z)
  | .list .tuple l => (makeISTLs z l).map .tup
  | .list .array l => match l.head?.bind flatArray with
    | some m => if l.all (fun c => flatArray c == some m) then some (fieldBlocks z l.length m) else none
    | none => (makeISTLs z l).bind blockVectorInit
  | .list .vector l => match l.head?.bind flatArray with
    | some m => if l.all (fun c => flatArray c == some m) then some (fieldBlocks z l.length m) else none
    | none => (makeISTLs z l).map .vec
  | .uniform true n c => if isValue c then some (.arr (List.replicate n (.scalar z)))
      else (makeISTL z c).bind fun x => blockVectorInit (List.replicate n x)
  | .uniform false n c => if isValue c then some (.vec (List.replicate n (.scalar z)))
      else match flatArray c with
        | some m => some (fieldBlocks z n m)
        | none => (makeISTL z c).map fun x => .vec (List.replicate n x)
def makeISTLs (z : T) : List CD → Option (List (Ct T))
  | [] => some []
  | c :: cs => (makeISTL z c).bind fun x => (makeISTLs z cs).map (x :: ·)
end

/-! ## Proofs -/

mutual
/-- The container has the structure of the descriptor and all coefficients are `z`. -/
def Match (z : T) : CD → Ct T → Prop
  | .unknown, _ => False
  | .value, c => c = .scalar z
  | .list _ l, c => isScalar c = false ∧ Matches z l c.kids
  | .uniform _ n d, c => isScalar c = false ∧ c.kids.length = n ∧ ∀ x ∈ c.kids, Match z d x
def Matches (z : T) : List CD → List (Ct T) → Prop
  | [], l => l = []
  | d :: ds, l => ∃ x xs, l = x :: xs ∧ Match z d x ∧ Matches z ds xs
end

theorem Matches.get {z : T} {ds : List CD} {l : List (Ct T)} (h : Matches z ds l) : l.length = ds.length ∧
    ∀ (i : Nat) (d : CD), ds[i]? = some d → ∃ x, l[i]? = some x ∧ Match z d x := by
  induction ds generalizing l with
  | nil => simp only [Matches] at h; subst h; simp
  | cons d ds ih =>
    simp only [Matches] at h
    obtain ⟨x, xs, rfl, h1, h2⟩ := h
    obtain ⟨hl, hi⟩ := ih h2
    refine ⟨by simp [hl], ?_⟩
    intro i d' hd
    cases i with
    | zero => simp at hd; subst hd; exact ⟨x, rfl, h1⟩
    | succ i => simpa using hi i d' (by simpa using hd)

theorem Match.at {z : T} (p : MI) {cd : CD} {c : Ct T} (h : Match z cd c) :
    (CD.at p cd = none ∧ Ct.at p c = none) ∨
      ∃ d x, CD.at p cd = some d ∧ Ct.at p c = some x ∧ Match z d x := by
  induction p generalizing cd c with
  | nil => exact Or.inr ⟨cd, c, rfl, rfl, h⟩
  | cons i p ih =>
    cases cd with
    | unknown => simp [Match] at h
    | value => simp only [Match] at h; subst h; left; exact ⟨rfl, rfl⟩
    | list k l =>
      simp only [Match] at h
      obtain ⟨hl, hg⟩ := h.2.get
      simp only [CD.at, Ct.at]
      cases hd : l[i]? with
      | none =>
        left
        rw [List.getElem?_eq_none_iff] at hd
        rw [List.getElem?_eq_none (by omega)]
        exact ⟨rfl, rfl⟩
      | some d =>
        obtain ⟨x, hx, hm⟩ := hg i d hd
        rw [hx]
        exact ih hm
    | uniform st n d =>
      simp only [Match] at h
      simp only [CD.at, Ct.at]
      by_cases hi : i < n
      · rw [if_pos hi, List.getElem?_eq_getElem (by omega)]
        exact ih (h.2.2 _ (List.getElem_mem _))
      · left
        rw [if_neg hi, List.getElem?_eq_none (by omega)]
        exact ⟨rfl, rfl⟩

theorem Match.size {z : T} {cd : CD} {c : Ct T} (h : Match z cd c) : cd.size = some c.kids.length := by
  cases cd with
  | unknown => simp [Match] at h
  | value => simp only [Match] at h; subst h; rfl
  | list k l => simp only [Match] at h; simp [CD.size, h.2.get.1]
  | uniform st n d => simp only [Match] at h; simp [CD.size, h.2.1]

theorem Match.scalar {z : T} {cd : CD} {x : T} (h : Match z cd (.scalar x)) : cd = .value ∧ x = z := by
  cases cd with
  | unknown => simp [Match] at h
  | value => simp only [Match, Ct.scalar.injEq] at h; exact ⟨rfl, h⟩
  | list k l => simp [Match, isScalar] at h
  | uniform st n d => simp [Match, isScalar] at h

theorem match_uniform {z : T} {d : CD} {x : Ct T} (h : Match z d x) (n : Nat) (st : Bool) {f : List (Ct T) → Ct T}
    (hf : ∀ l, (f l).kids = l ∧ isScalar (f l) = false) : Match z (.uniform st n d) (f (List.replicate n x)) := by
  simp only [Match, hf, List.length_replicate, true_and, List.mem_replicate]
  rintro y ⟨_, rfl⟩
  exact h

mutual
theorem makeContainer_match (z : T) : (cd : CD) → (c : Ct T) → makeContainer z cd = some c → Match z cd c
  | .unknown, c, h => by simp [makeContainer] at h
  | .value, c, h => by
    simp only [makeContainer, Option.some.injEq] at h
    simp [Match, h]
  | .list k l, c, h => by
    have key : ∃ l', makeContainers z l = some l' ∧ isScalar c = false ∧ c.kids = l' := by
      cases k <;> simp only [makeContainer, Option.map_eq_some_iff] at h <;> obtain ⟨l', hl', rfl⟩ := h <;>
        exact ⟨l', hl', rfl, rfl⟩
    obtain ⟨l', hl', h1, h2⟩ := key
    simp only [Match, h1, h2, true_and]
    exact makeContainers_match z l l' hl'
  | .uniform st n d, c, h => by
    cases st with
    | true =>
      simp only [makeContainer, Option.map_eq_some_iff] at h
      obtain ⟨x, hx, rfl⟩ := h
      exact match_uniform (makeContainer_match z d x hx) n true (f := .arr) (fun l => ⟨rfl, rfl⟩)
    | false =>
      simp only [makeContainer, Option.map_eq_some_iff] at h
      obtain ⟨x, hx, rfl⟩ := h
      exact match_uniform (makeContainer_match z d x hx) n false (f := .vec) (fun l => ⟨rfl, rfl⟩)
theorem makeContainers_match (z : T) : (ds : List CD) → (l : List (Ct T)) → makeContainers z ds = some l → Matches z ds l
  | [], l, h => by simp only [makeContainers, Option.some.injEq] at h; simp [Matches, ← h]
  | d :: ds, l, h => by
    simp only [makeContainers, Option.bind_eq_some_iff, Option.map_eq_some_iff] at h
    obtain ⟨x, hx, xs, hxs, rfl⟩ := h
    simp only [Matches]
    exact ⟨x, xs, rfl, makeContainer_match z d x hx, makeContainers_match z ds xs hxs⟩
end

mutual
/-- There is no unknown descriptor. -/
def Known : CD → Prop
  | .unknown => False
  | .value => True
  | .list _ l => Knowns l
  | .uniform _ _ c => Known c
def Knowns : List CD → Prop
  | [] => True
  | c :: cs => Known c ∧ Knowns cs
end

mutual
theorem makeContainer_exists (z : T) : (cd : CD) → Known cd → ∃ c, makeContainer z cd = some c
  | .unknown, h => by simp [Known] at h
  | .value, _ => ⟨_, rfl⟩
  | .list k l, h => by
    obtain ⟨l', hl'⟩ := makeContainers_exists z l h
    cases k <;> simp [makeContainer, hl']
  | .uniform st n d, h => by
    obtain ⟨x, hx⟩ := makeContainer_exists z d h
    cases st <;> simp [makeContainer, hx]
theorem makeContainers_exists (z : T) : (ds : List CD) → Knowns ds → ∃ l, makeContainers z ds = some l
  | [], _ => ⟨_, rfl⟩
  | d :: ds, h => by
    obtain ⟨x, hx⟩ := makeContainer_exists z d h.1
    obtain ⟨xs, hxs⟩ := makeContainers_exists z ds h.2
    exact ⟨x :: xs, by simp [makeContainers, hx, hxs]⟩
end

/-! ## C34 -/

/-- A container mirrors a descriptor: the paths to coefficients are exactly the paths to values of the
descriptor, all coefficients are `z`, and the number of entries agrees everywhere. -/
def Mirrors (z : T) (cd : CD) (c : Ct T) : Prop :=
  (∀ p x, Ct.at p c = some (.scalar x) ↔ CD.at p cd = some .value ∧ x = z) ∧
  ∀ p d, CD.at p cd = some d → ∃ x, Ct.at p c = some x ∧ d.size = some x.kids.length

theorem mirrors_of_match {z : T} {cd : CD} {c : Ct T} (h : Match z cd c) : Mirrors z cd c := by
  constructor
  · intro p x
    rcases h.at p with ⟨h1, h2⟩ | ⟨d, y, h1, h2, h3⟩
    · rw [h1, h2]; simp
    · rw [h1, h2]
      constructor
      · intro h
        injection h with h; subst h
        obtain ⟨rfl, rfl⟩ := h3.scalar
        exact ⟨rfl, rfl⟩
      · rintro ⟨hv, rfl⟩
        injection hv with hv; subst hv
        simp only [Match] at h3
        rw [h3]
  · intro p d hd
    rcases h.at p with ⟨h1, h2⟩ | ⟨d', y, h1, h2, h3⟩
    · rw [h1] at hd; simp at hd
    · rw [h1] at hd; injection hd with hd; subst hd
      exact ⟨y, h2, h3.size⟩

/-- `makeContainer`, for all descriptors: it is defined unless the descriptor has an unknown part and the
container mirrors the descriptor. -/
theorem C34_container (z : T) (cd : CD) : (Known cd → ∃ c, makeContainer z cd = some c) ∧
    ∀ c, makeContainer z cd = some c → Mirrors z cd c :=
  ⟨makeContainer_exists z cd, fun _ h => mirrors_of_match (makeContainer_match z cd _ h)⟩

theorem cd_at_snoc {p : MI} {i : Nat} {cd x : CD} (h : CD.at (p ++ [i]) cd = some x) :
    ∃ d, CD.at p cd = some d ∧ (d = .unknown ∨ ∃ n, d.size = some n ∧ i < n) := by
  induction p generalizing cd with
  | nil =>
    refine ⟨cd, rfl, ?_⟩
    cases cd with
    | unknown => exact Or.inl rfl
    | value => simp [CD.at] at h
    | list k l =>
      simp only [List.nil_append, CD.at, Option.bind_eq_some_iff] at h
      obtain ⟨d, hd, _⟩ := h
      exact Or.inr ⟨_, rfl, (List.getElem?_eq_some_iff.mp hd).1⟩
    | uniform st n c =>
      simp only [List.nil_append, CD.at] at h
      split at h
      · rename_i hi; exact Or.inr ⟨_, rfl, hi⟩
      · simp at h
  | cons j p ih =>
    cases cd with
    | unknown => exact ⟨.unknown, at_unknown _, Or.inl rfl⟩
    | value => simp [CD.at] at h
    | list k l =>
      simp only [List.cons_append, CD.at, Option.bind_eq_some_iff] at h ⊢
      obtain ⟨d, hd, h⟩ := h
      obtain ⟨d', hd', hr⟩ := ih h
      exact ⟨d', ⟨d, hd, hd'⟩, hr⟩
    | uniform st n c =>
      simp only [List.cons_append, CD.at] at h ⊢
      split at h
      · rename_i hi
        obtain ⟨d', hd', hr⟩ := ih h
        exact ⟨d', by rw [if_pos hi]; exact hd', hr⟩
      · simp at h

/-- Containers that mirror the descriptor of a basis: the coefficients are exactly at the multi-indices of
the basis, no further coefficients exist. -/
theorem mirror_basis {E : Type} {z : T} (b : PB E) (hb : b.WF) (hpos : b.Pos) (hcov : b.Covered (fun _ => True))
    (cd : CD) (hcd : Desc b cd) (c : Ct T) (hm : Match z cd c) (p : MI) (x : T) :
    Ct.at p c = some (.scalar x) ↔ p ∈ IndexSet b.model ∧ x = z := by
  rw [(mirrors_of_match hm).1]
  have hunk : ∀ q d, CD.at q cd = some d → d ≠ .unknown := by
    intro q d hd hu
    subst hu
    rcases hm.at q with ⟨h1, _⟩ | ⟨d', y, h1, _, h3⟩
    · rw [h1] at hd; simp at hd
    · rw [h1] at hd; injection hd with hd; subst hd; simp [Match] at h3
  have hC := (C03_complete b hb hpos hcov).2
  constructor
  · rintro ⟨h, rfl⟩
    refine ⟨?_, rfl⟩
    have key : ∀ n, n ≤ p.length → ValidPrefix b.model.size (p.take n) := by
      intro n
      induction n with
      | zero => intro _; exact .nil
      | succ n ih =>
        intro hn
        have hlt : n < p.length := by omega
        have hv := ih (by omega)
        rw [List.take_succ_eq_append_getElem hlt]
        obtain ⟨y, hy⟩ : ∃ y, CD.at (p.take n ++ [p[n]]) cd = some y := by
          cases hx : CD.at (p.take n ++ [p[n]]) cd with
          | some y => exact ⟨y, rfl⟩
          | none =>
            exfalso
            rcases hm.at (p.take n ++ [p[n]]) with ⟨_, h2⟩ | ⟨d', y, h1, _, _⟩
            · have hval := (mirrors_of_match hm).1 p x |>.mpr ⟨h, rfl⟩
              have hsplit : p = (p.take n ++ [p[n]]) ++ p.drop (n + 1) := by
                rw [← List.take_succ_eq_append_getElem hlt, List.take_append_drop]
              have hnone : ∀ (q r : MI) (c : Ct T), Ct.at q c = none → Ct.at (q ++ r) c = none := by
                intro q
                induction q with
                | nil => intro r c hc; simp [Ct.at] at hc
                | cons i q ih =>
                  intro r c hc
                  simp only [List.cons_append, Ct.at] at hc ⊢
                  cases hk : c.kids[i]? with
                  | none => rfl
                  | some c1 =>
                    rw [hk, Option.bind_some] at hc
                    rw [Option.bind_some]
                    exact ih r c1 hc
              rw [hsplit, hnone _ _ _ h2] at hval
              simp at hval
            · rw [h1] at hx; simp at hx
        obtain ⟨d, hd, hr⟩ := cd_at_snoc hy
        obtain ⟨d', hd', hr'⟩ := C12_valid_prefixes b hb hpos cd hcd _ hv
        rw [hd] at hd'; injection hd' with hd'; subst hd'
        rcases hr with hu | ⟨k, hk, hi⟩
        · exact absurd hu (hunk _ _ hd)
        · rcases hr' with hu | ⟨k', hk', hs⟩
          · exact absurd hu (hunk _ _ hd)
          · rw [hk] at hk'; injection hk' with hk'; subst hk'
            exact .snoc hv hs hi
    have hv := key p.length (Nat.le_refl _)
    rw [List.take_length] at hv
    obtain ⟨d, hd, hr⟩ := C12_valid_prefixes b hb hpos cd hcd p hv
    rw [h] at hd; injection hd with hd; subst hd
    rcases hr with hu | ⟨n, hn, hs⟩
    · simp at hu
    · simp only [CD.size, Option.some.injEq] at hn; subst hn
      obtain ⟨m, hmI, hpm⟩ := valid_prefix_of_index hb hpos hcov hv
      obtain ⟨n', hn', hiff⟩ := hC p ⟨m, hmI, hpm⟩
      rw [hs] at hn'; injection hn' with hn'; subst hn'
      obtain ⟨q, hq⟩ := hpm
      cases q with
      | nil => rw [List.append_nil] at hq; rw [hq]; exact hmI
      | cons i q => exact absurd ((hiff i).mpr ⟨m, hmI, q, by simpa using hq⟩) (by omega)
  · rintro ⟨hp, rfl⟩
    refine ⟨?_, rfl⟩
    have A := desc_agree hb hcd
    rw [indexSet_covered hb hcov] at hp
    obtain ⟨d, hd, rfl⟩ := hp
    obtain ⟨d', h1, h2⟩ := A.full d hd
    rcases h2 with h2 | h2
    · exact absurd h2 (hunk _ _ h1)
    · rw [h1, h2]

/-- The container created from the descriptor of a basis: every multi-index of the basis addresses a
coefficient with the default value, and there are no further coefficients. -/
theorem C34_basis {E : Type} (z : T) (b : PB E) (hb : b.WF) (hpos : b.Pos) (hcov : b.Covered (fun _ => True))
    (cd : CD) (hcd : Desc b cd) (c : Ct T) (hc : makeContainer z cd = some c) :
    (∀ m ∈ IndexSet b.model, access isScalar c m = some (.scalar z)) ∧
    ∀ p x, Ct.at p c = some (.scalar x) ↔ p ∈ IndexSet b.model ∧ x = z := by
  have key := mirror_basis b hb hpos hcov cd hcd c (makeContainer_match z cd c hc)
  refine ⟨fun m hm => C35_access c m z ⟨0, ?_⟩, key⟩
  simpa using (key m z).mpr ⟨hm, rfl⟩

/-! ### ISTL vectors -/

/-- The ISTL container of the descriptor is a `BlockVector`. -/
def isBlockVector : CD → Bool
  | .uniform false _ _ => true
  | .uniform true _ c => !isValue c
  | .list .tuple _ => false
  | .list _ _ => true
  | _ => false

mutual
/-- There are no arrays with a single `BlockVector`, no empty arrays of blocks (these do not compile), and
entries of arrays and vectors have the same type. -/
def NoSingle : CD → Prop
  | .unknown => False
  | .value => True
  | .list .tuple l => NoSingles l
  | .list .array l => l ≠ [] ∧ (l.length = 1 → ∀ c ∈ l, isBlockVector c = false) ∧ NoSingles l ∧
      ∀ c ∈ l, ∀ c' ∈ l, flatArray c = flatArray c'
  | .list .vector l => NoSingles l ∧ ∀ c ∈ l, ∀ c' ∈ l, flatArray c = flatArray c'
  | .uniform true n c => isValue c = false → n ≠ 0 ∧ (n = 1 → isBlockVector c = false) ∧ NoSingle c
  | .uniform false _ c => NoSingle c
def NoSingles : List CD → Prop
  | [] => True
  | c :: cs => NoSingle c ∧ NoSingles cs
end

theorem flatArray_some {c : CD} {m : Nat} (h : flatArray c = some m) : c = .uniform true m .value := by
  unfold flatArray at h
  split at h
  · injection h with h; subst h; rfl
  · simp at h

theorem isValue_true {c : CD} (h : isValue c = true) : c = .value := by
  cases c <;> simp [isValue] at h; rfl

theorem blockVectorInit_vec {l : List (Ct T)} (h0 : l ≠ []) (h1 : l.length = 1 → ∀ x ∈ l, ∀ l', x ≠ .vec l') :
    blockVectorInit l = some (.vec l) := by
  unfold blockVectorInit
  split
  · exact absurd rfl h0
  · rename_i l'
    exact absurd rfl (h1 rfl _ (List.mem_singleton.mpr rfl) l')
  · rfl

theorem fieldBlocks_match_uniform (z : T) (n m : Nat) (st : Bool) :
    Match z (.uniform st n (.uniform true m .value)) (fieldBlocks z n m) :=
  match_uniform (f := .vec) (match_uniform (f := .arr) (by simp [Match]) m true (fun l => ⟨rfl, rfl⟩)) n st (fun l => ⟨rfl, rfl⟩)

theorem matches_replicate {z : T} {x : Ct T} {d : CD} (hx : Match z d x) (l : List CD) (hl : ∀ c ∈ l, c = d) :
    Matches z l (List.replicate l.length x) := by
  induction l with
  | nil => simp [Matches]
  | cons c cs ih =>
    obtain rfl := hl c List.mem_cons_self
    simp only [Matches, List.length_cons, List.replicate_succ]
    exact ⟨x, _, rfl, hx, ih (fun c' hc' => hl c' (List.mem_cons_of_mem _ hc'))⟩

theorem fieldBlocks_match_list (z : T) (k : LKind) (l : List CD) (m : Nat) (h : ∀ c ∈ l, flatArray c = some m) :
    Match z (.list k l) (fieldBlocks z l.length m) := by
  simp only [Match, fieldBlocks, isScalar, Ct.kids, true_and]
  refine matches_replicate (d := .uniform true m .value) ?_ l (fun c hc => flatArray_some (h c hc))
  exact match_uniform (f := .arr) (by simp [Match]) m true (fun l => ⟨rfl, rfl⟩)

theorem makeISTL_vec (z : T) (cd : CD) (l : List (Ct T)) (h : makeISTL z cd = some (.vec l)) : isBlockVector cd = true := by
  cases cd with
  | unknown => simp [makeISTL] at h
  | value => simp [makeISTL] at h
  | list k l0 =>
    cases k with
    | tuple => simp [makeISTL] at h
    | _ => rfl
  | uniform st n c =>
    cases st with
    | false => rfl
    | true =>
      simp only [makeISTL] at h
      split at h
      · simp at h
      · rename_i hv; simp [isBlockVector, hv]

mutual
theorem makeISTL_match (z : T) : (cd : CD) → NoSingle cd → ∃ c, makeISTL z cd = some c ∧ Match z cd c
  | .unknown, h => by simp [NoSingle] at h
  | .value, _ => ⟨.scalar z, by simp [makeISTL, Match]⟩
  | .list .tuple l, h => by
    obtain ⟨l', h1, h2⟩ := makeISTLs_match z l h
    exact ⟨.tup l', by simp [makeISTL, h1], by simp only [Match, isScalar, Ct.kids, true_and]; exact h2⟩
  | .list .array l, h => by
    obtain ⟨h0, hs, hl, ht⟩ := h
    obtain ⟨l', h1, h2⟩ := makeISTLs_match z l hl
    simp only [makeISTL]
    cases hf : l.head?.bind flatArray with
    | some m =>
      have hall : ∀ c ∈ l, flatArray c = some m := by
        obtain ⟨a, ha, hm⟩ := Option.bind_eq_some_iff.mp hf
        intro c hc
        rw [ht c hc a (List.mem_of_mem_head? ha), hm]
      refine ⟨fieldBlocks z l.length m, ?_, fieldBlocks_match_list z _ l m hall⟩
      simp only
      rw [if_pos]
      simpa using hall
    | none =>
      refine ⟨.vec l', ?_, by simp only [Match, isScalar, Ct.kids, true_and]; exact h2⟩
      simp only [h1, Option.bind_some]
      apply blockVectorInit_vec
      · rintro rfl
        have := h2.get.1
        exact h0 (List.length_eq_zero_iff.mp this.symm)
      · intro hlen x hx v hv
        subst hv
        have hlen' := h2.get.1
        rw [hlen] at hlen'
        match l, l', hlen'.symm, hlen with
        | [d], [y], _, _ =>
          obtain rfl := List.mem_singleton.mp hx
          simp only [makeISTLs, Option.bind_eq_some_iff, Option.map_eq_some_iff] at h1
          obtain ⟨y', hy', xs, _, he⟩ := h1
          injection he with he1 he2
          subst he1
          have := makeISTL_vec z d v hy'
          rw [hs rfl d (List.mem_singleton.mpr rfl)] at this
          simp at this
  | .list .vector l, h => by
    obtain ⟨hl, ht⟩ := h
    obtain ⟨l', h1, h2⟩ := makeISTLs_match z l hl
    simp only [makeISTL]
    cases hf : l.head?.bind flatArray with
    | some m =>
      have hall : ∀ c ∈ l, flatArray c = some m := by
        obtain ⟨a, ha, hm⟩ := Option.bind_eq_some_iff.mp hf
        intro c hc
        rw [ht c hc a (List.mem_of_mem_head? ha), hm]
      refine ⟨fieldBlocks z l.length m, ?_, fieldBlocks_match_list z _ l m hall⟩
      simp only
      rw [if_pos]
      simpa using hall
    | none => exact ⟨.vec l', by simp [h1], by simp only [Match, isScalar, Ct.kids, true_and]; exact h2⟩
  | .uniform true n d, h => by
    simp only [makeISTL]
    cases hv : isValue d with
    | true =>
      obtain rfl := isValue_true hv
      exact ⟨_, rfl, match_uniform (f := .arr) (by simp [Match]) n true (fun l => ⟨rfl, rfl⟩)⟩
    | false =>
      obtain ⟨hn, hs, hd⟩ := h hv
      obtain ⟨x, hx, hm⟩ := makeISTL_match z d hd
      refine ⟨.vec (List.replicate n x), ?_, match_uniform (f := .vec) hm n true (fun l => ⟨rfl, rfl⟩)⟩
      simp only [Bool.false_eq_true, if_false, hx, Option.bind_some]
      apply blockVectorInit_vec
      · simpa using hn
      · intro hlen y hy v hv'
        obtain ⟨_, rfl⟩ := List.mem_replicate.mp hy
        subst hv'
        have := makeISTL_vec z d v hx
        rw [hs (by simpa using hlen)] at this
        simp at this
  | .uniform false n d, h => by
    simp only [makeISTL]
    cases hv : isValue d with
    | true =>
      obtain rfl := isValue_true hv
      exact ⟨_, rfl, match_uniform (f := .vec) (by simp [Match]) n false (fun l => ⟨rfl, rfl⟩)⟩
    | false =>
      simp only [Bool.false_eq_true, if_false]
      cases hf : flatArray d with
      | some m =>
        obtain rfl := flatArray_some hf
        exact ⟨_, rfl, fieldBlocks_match_uniform z n m false⟩
      | none =>
        obtain ⟨x, hx, hm⟩ := makeISTL_match z d h
        exact ⟨.vec (List.replicate n x), by simp [hx], match_uniform (f := .vec) hm n false (fun l => ⟨rfl, rfl⟩)⟩
theorem makeISTLs_match (z : T) : (ds : List CD) → NoSingles ds → ∃ l, makeISTLs z ds = some l ∧ Matches z ds l
  | [], _ => ⟨[], rfl, by simp [Matches]⟩
  | d :: ds, h => by
    obtain ⟨x, hx, hm⟩ := makeISTL_match z d h.1
    obtain ⟨xs, hxs, hms⟩ := makeISTLs_match z ds h.2
    refine ⟨x :: xs, by simp [makeISTLs, hx, hxs], ?_⟩
    simp only [Matches]
    exact ⟨x, xs, rfl, hm, hms⟩
end

/-- `makeISTLVector` for descriptors without arrays of a single `BlockVector`: the vector mirrors the
descriptor, all coefficients are zero. -/
theorem C34_istl_partial (z : T) (cd : CD) (h : NoSingle cd) : ∃ c, makeISTL z cd = some c ∧ Mirrors z cd c := by
  obtain ⟨c, h1, h2⟩ := makeISTL_match z cd h
  exact ⟨c, h1, mirrors_of_match h2⟩

/-- The same for the descriptor of a basis. -/
theorem C34_istl_basis_partial {E : Type} (z : T) (b : PB E) (hb : b.WF) (hpos : b.Pos)
    (hcov : b.Covered (fun _ => True)) (cd : CD) (hcd : Desc b cd) (h : NoSingle cd) :
    ∃ c, makeISTL z cd = some c ∧ (∀ m ∈ IndexSet b.model, access isScalar c m = some (.scalar z)) ∧
      ∀ p x, Ct.at p c = some (.scalar x) ↔ p ∈ IndexSet b.model ∧ x = z := by
  obtain ⟨c, h1, h2⟩ := makeISTL_match z cd h
  have key := mirror_basis b hb hpos hcov cd hcd c h2
  refine ⟨c, h1, fun m hm => C35_access c m z ⟨0, ?_⟩, key⟩
  simpa using (key m z).mpr ⟨hm, rfl⟩

/-- The full claim for ISTL vectors. It is false. -/
def C34_istl_full (T E : Type) : Prop := ∀ (z : T) (b : PB E), b.WF → b.Pos → b.Covered (fun _ => True) →
  ∀ cd, Desc b cd → ∀ c, makeISTL z cd = some c → ∀ m ∈ IndexSet b.model, access isScalar c m = some (.scalar z)

/-- `power<1>(lagrange, blockedLexicographic)`: `BlockVector{node}` copies the inner vector instead of
creating a vector with one block. -/
theorem C34_istl_false : ¬ C34_istl_full Nat Unit := by
  intro h
  have hd : Desc (.power .blockedLex 1 (.leaf ⟨3, 3, fun _ => [0, 1, 2]⟩) : PB Unit) (.uniform true 1 (.uniform false 3 .value)) :=
    .power true .blockedLex 1 (.leaf _) rfl
  have := h 0 _ (by simp [PB.WF]) (by simp [PB.Pos]) (by
      simp only [PB.Covered]
      intro i hi
      exact ⟨(), trivial, by simp; omega⟩) _ hd (.vec [.scalar 0, .scalar 0, .scalar 0]) rfl [0, 1]
    ⟨(), [[0, 0], [0, 1], [0, 2]], by decide, by simp⟩
  exact absurd this (by simp [access, resolve, resolveAt, isScalar, Shifted.get, Shifted.size, Shifted.pop])

/-! Examples: the descriptor of Taylor-Hood. -/

example : makeContainer (0 : Nat) (thDescriptor true 2 2 1) =
    some (.tup [.vec [.arr [.scalar 0, .scalar 0], .arr [.scalar 0, .scalar 0]], .vec [.scalar 0]]) := rfl
example : makeISTL (0 : Nat) (thDescriptor true 2 2 1) =
    some (.tup [.vec [.arr [.scalar 0, .scalar 0], .arr [.scalar 0, .scalar 0]], .vec [.scalar 0]]) := rfl
example : NoSingle (thDescriptor true 2 2 1) := by
  simp [thDescriptor, makeDescriptor, CD.sameType, NoSingle, NoSingles, isValue]
example : makeISTL (0 : Nat) (thDescriptor false 2 2 1) =
    some (.vec [.vec (List.replicate 4 (.scalar 0)), .vec [.scalar 0]]) := rfl

end Verif.Container

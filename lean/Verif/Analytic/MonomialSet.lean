import Mathlib.Algebra.MvPolynomial.PDeriv
import Mathlib.Data.Nat.Choose.Sum
import Mathlib.Algebra.BigOperators.Fin
import Mathlib.Algebra.Field.Rat
import Mathlib.Tactic.Ring
import Mathlib.Data.List.Nodup
import Mathlib.Data.List.Range

/-!
# Monomial sets

Model of `dune/functions/analyticfunctions/monomialset.hh`. Arrays are lists with checked access, an access out of range
is `none`. Loop variables are `int` in the code, hence differences are computed in `Int`.
-/

namespace Verif.Analytic

open MvPolynomial (X pderiv eval)

/-- `y[i] = v` with a bounds check. -/
def write {α : Type} (y : List α) (i : Nat) (v : α) : Option (List α) :=
  if i < y.length then some (y.set i v) else none

/-- `y[i]` with a bounds check, `i` of type `int`. -/
def read {α : Type} (y : List α) (i : Int) : Option α :=
  if 0 ≤ i then y[i.toNat]? else none

variable {K : Type} [CommRing K]

/-- monomialset.hh:24-33 `computePowers<maxDegree>`: writes into the passed array. -/
def computePowers (maxDegree : Int) (x : K) (y : List K) : Option (List K) :=
  if 0 ≤ maxDegree then do
    let y ← write y 0 1
    (List.range maxDegree.toNat).foldlM (fun (y : List K) (k : Nat) => do
      let v ← read y k
      write y (k + 1) (v * x)) y
  else some y

/-- The nested loop of the 2d specialisation with the running `index` (monomialset.hh:233-242, 254-262, 276-287,
301-318). `zero` is the initial value of the entries, `body` the value written at `index`. Several conditional writes to
the components of the same entry are one `body`. -/
def loop2 {β : Type} (maxDegree size : Nat) (zero : β) (body : Int → Int → Option β) : Option (List β) := do
  let r ← (List.range (maxDegree + 1)).foldlM (fun (s : List β × Nat) (degree : Nat) =>
    (List.range (degree + 1)).foldlM (fun (s : List β × Nat) (k : Nat) => do
      let v ← body degree k
      let y ← write s.1 s.2 v
      pure (y, s.2 + 1)) s) (List.replicate size zero, 0)
  pure r.1

/-- The nested loop of the 3d specialisation (monomialset.hh:349-363, 375-386, 403-420, 434-471). -/
def loop3 {β : Type} (maxDegree size : Nat) (zero : β) (body : Int → Int → Int → Option β) : Option (List β) := do
  let r ← (List.range (maxDegree + 1)).foldlM (fun (s : List β × Nat) (degree : Nat) =>
    (List.range (degree + 1)).foldlM (fun (s : List β × Nat) (k : Nat) =>
      (List.range (degree - k + 1)).foldlM (fun (s : List β × Nat) (l : Nat) => do
        let v ← body degree k l
        let y ← write s.1 s.2 v
        pure (y, s.2 + 1)) s) s) (List.replicate size zero, 0)
  pure r.1

/-- The loop of the 1d specialisation `for k in range(n)` writing entry `k` (monomialset.hh:164-165, 186-187, 200-202). -/
def loop1 {β : Type} (first last size : Nat) (zero : β) (body : Int → Option β) : Option (List β) :=
  (List.range' first (last - first)).foldlM (fun (y : List β) (k : Nat) => do
    let v ← body k
    write y k v) (List.replicate size zero)

/-- monomialset.hh:159 -/
def size1 (maxDegree : Nat) : Nat := maxDegree + 1
/-- monomialset.hh:228 -/
def size2 (maxDegree : Nat) : Nat := (maxDegree + 1) * (maxDegree + 2) / 2
/-- monomialset.hh:344, `Dune::binomial` is taken as the binomial coefficient. -/
def size3 (maxDegree : Nat) : Nat := Nat.choose (maxDegree + 3) 3

/-- monomialset.hh:161-167 -/
def exponents1 (D : Nat) : Option (List (List Nat)) :=
  loop1 0 (size1 D) (size1 D) [0] fun k => some [k.toNat]

/-- monomialset.hh:169-175 -/
def value1 (D : Nat) (x : Fin 1 → K) : Option (List K) :=
  computePowers D (x 0) (List.replicate (size1 D) 0)

/-- monomialset.hh:179-189 -/
def jacobian1 (D : Nat) (x : Fin 1 → K) : Option (List (List K)) := do
  let p ← computePowers ((D : Int) - 1) (x 0) (List.replicate (size1 D) 0)
  loop1 1 (D + 1) (size1 D) [0] fun degree => do
    let a ← read p (degree - 1)
    pure [(degree : K) * a]

/-- monomialset.hh:193-204 -/
def hessian1 (D : Nat) (x : Fin 1 → K) : Option (List (List (List K))) := do
  let p ← computePowers ((D : Int) - 2) (x 0) (List.replicate (D + 1) 0)
  loop1 0 (D + 1) (size1 D) [[0]] fun degree =>
    if degree - 1 > 0 then do
      let a ← read p (degree - 2)
      pure [[((degree * (degree - 1) : Int) : K) * a]]
    else some [[0]]

/-- monomialset.hh:230-244 -/
def exponents2 (D : Nat) : Option (List (List Nat)) :=
  loop2 D (size2 D) [0, 0] fun degree k => some [(degree - k).toNat, k.toNat]

/-- monomialset.hh:246-264 -/
def value2 (D : Nat) (x : Fin 2 → K) : Option (List K) := do
  let p0 ← computePowers D (x 0) (List.replicate (size2 D) 0)
  let p1 ← computePowers D (x 1) (List.replicate (size2 D) 0)
  loop2 D (size2 D) 0 fun degree k => do
    let a ← read p0 (degree - k)
    let b ← read p1 k
    pure (a * b)

/-- A component of a zero-initialised entry which is assigned under a condition (monomialset.hh:201, 280-284, 305-314,
410-416, 439-469). -/
def assignIf (c : Prop) [Decidable c] (v : Option K) : Option K :=
  if c then v else some 0

/-- The product `f*xPowers[0][i]*xPowers[1][j]` of the 2d derivatives (monomialset.hh:281-284, 306-314). -/
def prod2 (p0 p1 : List K) (f i j : Int) : Option K := do
  let a ← read p0 i
  let b ← read p1 j
  pure ((f : K) * a * b)

/-- monomialset.hh:268-289 -/
def jacobian2 (D : Nat) (x : Fin 2 → K) : Option (List (List K)) := do
  let p0 ← computePowers ((D : Int) - 1) (x 0) (List.replicate (size2 D) 0)
  let p1 ← computePowers ((D : Int) - 1) (x 1) (List.replicate (size2 D) 0)
  loop2 D (size2 D) [0, 0] fun degree k => do
    let d0 ← assignIf (degree - k > 0) (prod2 p0 p1 (degree - k) (degree - k - 1) k)
    let d1 ← assignIf (k > 0) (prod2 p0 p1 k (degree - k) (k - 1))
    pure [d0, d1]

/-- monomialset.hh:293-320 -/
def hessian2 (D : Nat) (x : Fin 2 → K) : Option (List (List (List K))) := do
  let p0 ← computePowers ((D : Int) - 2) (x 0) (List.replicate (D + 1) 0)
  let p1 ← computePowers ((D : Int) - 2) (x 1) (List.replicate (D + 1) 0)
  loop2 D (size2 D) [[0, 0], [0, 0]] fun degree k => do
    let d00 ← assignIf (degree - k > 1) (prod2 p0 p1 ((degree - k - 1) * (degree - k)) (degree - k - 2) k)
    let mixed ← assignIf (k > 0 ∧ degree - k > 0) (prod2 p0 p1 (k * (degree - k)) (degree - k - 1) (k - 1))
    let d11 ← assignIf (k > 1) (prod2 p0 p1 (k * (k - 1)) (degree - k) (k - 2))
    pure [[d00, mixed], [mixed, d11]]

/-- monomialset.hh:346-365 -/
def exponents3 (D : Nat) : Option (List (List Nat)) :=
  loop3 D (size3 D) [0, 0, 0] fun degree k l => some [(degree - k - l).toNat, l.toNat, k.toNat]

/-- monomialset.hh:367-388 -/
def value3 (D : Nat) (x : Fin 3 → K) : Option (List K) := do
  let p0 ← computePowers D (x 0) (List.replicate (D + 1) 0)
  let p1 ← computePowers D (x 1) (List.replicate (D + 1) 0)
  let p2 ← computePowers D (x 2) (List.replicate (D + 1) 0)
  loop3 D (size3 D) 0 fun degree k l => do
    let a ← read p0 (degree - k - l)
    let b ← read p1 l
    let c ← read p2 k
    pure (a * b * c)

/-- The product `f*xPowers[0][i]*xPowers[1][j]*xPowers[2][k]` of the 3d derivatives (monomialset.hh:411-416, 440-468). -/
def prod3 (p0 p1 p2 : List K) (f i j k : Int) : Option K := do
  let a ← read p0 i
  let b ← read p1 j
  let c ← read p2 k
  pure ((f : K) * a * b * c)

/-- monomialset.hh:392-422; the powers are computed by the inlined loop of `computePowers<maxDegree>`. -/
def jacobian3 (D : Nat) (x : Fin 3 → K) : Option (List (List K)) := do
  let p0 ← computePowers D (x 0) (List.replicate (D + 1) 0)
  let p1 ← computePowers D (x 1) (List.replicate (D + 1) 0)
  let p2 ← computePowers D (x 2) (List.replicate (D + 1) 0)
  loop3 D (size3 D) [0, 0, 0] fun degree k l => do
    let d0 ← assignIf (degree - k - l > 0) (prod3 p0 p1 p2 (degree - k - l) (degree - k - l - 1) l k)
    let d1 ← assignIf (l > 0) (prod3 p0 p1 p2 l (degree - k - l) (l - 1) k)
    let d2 ← assignIf (k > 0) (prod3 p0 p1 p2 k (degree - k - l) l (k - 1))
    pure [d0, d1, d2]

/-- monomialset.hh:426-472 -/
def hessian3 (D : Nat) (x : Fin 3 → K) : Option (List (List (List K))) := do
  let p0 ← computePowers D (x 0) (List.replicate (D + 1) 0)
  let p1 ← computePowers D (x 1) (List.replicate (D + 1) 0)
  let p2 ← computePowers D (x 2) (List.replicate (D + 1) 0)
  loop3 D (size3 D) [[0, 0, 0], [0, 0, 0], [0, 0, 0]] fun degree k l => do
    let xx ← assignIf (degree - k - l - 1 > 0) (prod3 p0 p1 p2 ((degree - k - l) * (degree - k - l - 1)) (degree - k - l - 2) l k)
    let xy ← assignIf (degree - k - l > 0 ∧ l > 0) (prod3 p0 p1 p2 ((degree - k - l) * l) (degree - k - l - 1) (l - 1) k)
    let yy ← assignIf (l - 1 > 0) (prod3 p0 p1 p2 (l * (l - 1)) (degree - k - l) (l - 2) k)
    let xz ← assignIf (k > 0 ∧ degree - k - l > 0) (prod3 p0 p1 p2 ((degree - k - l) * k) (degree - k - l - 1) l (k - 1))
    let yz ← assignIf (l > 0 ∧ k > 0) (prod3 p0 p1 p2 (l * k) (degree - k - l) (l - 1) (k - 1))
    let zz ← assignIf (k - 1 > 0) (prod3 p0 p1 p2 ((k - 1) * k) (degree - k - l) l (k - 2))
    pure [[xx, xy, xz], [xy, yy, yz], [xz, yz, zz]]

/-! ## Specification -/

/-- The monomial with the given exponents. -/
noncomputable def mono (K : Type) [CommRing K] (dim : Nat) (e : List Nat) : MvPolynomial (Fin dim) K :=
  ∏ j : Fin dim, X j ^ (e[j.val]?.getD 0)

/-- The documented order: by degree, then lexicographically starting with the exponent of the last coordinate. -/
def Before (a b : List Nat) : Prop :=
  a.sum < b.sum ∨ (a.sum = b.sum ∧ List.Lex (· < ·) a.reverse b.reverse)

/-- A list of all exponents of total degree at most `D`, each once, in the documented order. -/
structure AllExponents (dim D : Nat) (L : List (List Nat)) : Prop where
  count : L.length = Nat.choose (D + dim) dim
  unique : L.Nodup
  all : ∀ e, e ∈ L ↔ e.length = dim ∧ e.sum ≤ D
  order : L.Pairwise Before

/-! ## Proofs -/

theorem write_append {α : Type} (a : List α) (b : α) (c : List α) (v : α) :
    write (a ++ b :: c) a.length v = some (a ++ v :: c) := by
  simp [write]

theorem powLoop (x : K) (n : Nat) : ∀ m, m + 1 ≤ n →
    (List.range m).foldlM (fun (y : List K) (k : Nat) => do
      let v ← read y k
      write y (k + 1) (v * x)) (1 :: List.replicate (n - 1) 0)
      = some (((List.range (m + 1)).map fun i => x ^ i) ++ List.replicate (n - (m + 1)) 0) := by
  intro m
  induction m with
  | zero => intro _; simp
  | succ m ih =>
    intro hm
    rw [List.range_succ, List.foldlM_append, ih (by omega)]
    obtain ⟨r, hr⟩ : ∃ r, n - (m + 1) = r + 1 := ⟨n - (m + 1) - 1, by omega⟩
    have hread : read (List.map (fun i => x ^ i) (List.range (m + 1)) ++ List.replicate (n - (m + 1)) 0) (m : Int)
        = some (x ^ m) := by
      simp [read, List.getElem?_append_left]
    simp only [Option.bind_eq_bind, Option.bind_some, List.foldlM_cons, List.foldlM_nil, hread]
    have := write_append (List.map (fun i => x ^ i) (List.range (m + 1))) 0 (List.replicate r 0) (x ^ m * x)
    rw [List.length_map, List.length_range] at this
    rw [hr, List.replicate_succ, this, show n - (m + 1 + 1) = r by omega, List.range_succ (n := m + 1)]
    simp [pow_succ]

theorem computePowers_eq (d : Int) (x : K) (n : Nat) (h : d < n) :
    ∃ p, computePowers d x (List.replicate n 0) = some p ∧ ∀ i : Int, 0 ≤ i → i ≤ d → read p i = some (x ^ i.toNat) := by
  by_cases hd : 0 ≤ d
  · obtain ⟨n, rfl⟩ : ∃ n', n = n' + 1 := ⟨n - 1, by omega⟩
    refine ⟨((List.range (d.toNat + 1)).map fun i => x ^ i) ++ List.replicate (n + 1 - (d.toNat + 1)) 0, ?_, ?_⟩
    · have hw : write (List.replicate (n + 1) (0 : K)) 0 1 = some (1 :: List.replicate n 0) := by
        simp [write, List.replicate_succ]
      have := powLoop x (n + 1) d.toNat (by omega)
      rw [Nat.add_sub_cancel] at this
      simp only [computePowers, hd, if_true, hw, Option.bind_eq_bind, Option.bind_some]
      exact this
    · intro i h0 h1
      have : i.toNat < d.toNat + 1 := by omega
      simp only [read, h0, if_true]
      rw [List.getElem?_append_left (by simpa using this), List.getElem?_map, List.getElem?_range this]
      rfl
  · exact ⟨List.replicate n 0, by simp [computePowers, hd], by intro i h0 h1; omega⟩

/-- Writing at a running index fills the array. -/
theorem fill {β γ : Type} (L : List γ) (body : γ → Option β) (f : γ → β) (hb : ∀ e ∈ L, body e = some (f e)) (zero : β) :
    ∀ (r : Nat) (a : List β),
    L.foldlM (fun (s : List β × Nat) e => do
      let v ← body e
      let y ← write s.1 s.2 v
      pure (y, s.2 + 1)) (a ++ List.replicate (L.length + r) zero, a.length)
      = some (a ++ L.map f ++ List.replicate r zero, a.length + L.length) := by
  induction L with
  | nil => intro r a; simp
  | cons e L ih =>
    intro r a
    have hw := write_append a zero (List.replicate (L.length + r) zero) (f e)
    rw [List.length_cons, show L.length + 1 + r = (L.length + r) + 1 by omega, List.replicate_succ]
    simp only [List.foldlM_cons, hb e (by simp), Option.bind_eq_bind, Option.bind_some, hw, Option.pure_def]
    have := ih (fun e he => hb e (by simp [he])) r (a ++ [f e])
    simp only [List.length_append, List.length_cons, List.length_nil, List.append_assoc, List.cons_append, List.nil_append]
      at this
    rw [show a.length + 1 = a.length + (0 + 1) by omega]
    simp only [Option.bind_eq_bind, Option.pure_def] at this
    rw [this]
    simp [Nat.add_comm, Nat.add_left_comm]

theorem foldlM_flatMap' {γ δ σ : Type} (L : List γ) (g : γ → List δ) (h : σ → δ → Option σ) (s : σ) :
    (L.flatMap g).foldlM h s = L.foldlM (fun s e => (g e).foldlM h s) s := by
  induction L generalizing s with
  | nil => rfl
  | cons e L ih =>
    simp only [List.flatMap_cons, List.foldlM_append, List.foldlM_cons]
    congr 1
    funext t
    exact ih t

/-- Loop variables `(degree, k)` in the order of the 2d loop. -/
def idx2 (D : Nat) : List (Nat × Nat) :=
  (List.range (D + 1)).flatMap fun d => (List.range (d + 1)).map fun k => (d, k)

/-- Loop variables `(degree, k, l)` in the order of the 3d loop. -/
def idx3 (D : Nat) : List (Nat × Nat × Nat) :=
  (List.range (D + 1)).flatMap fun d => (List.range (d + 1)).flatMap fun k => (List.range (d - k + 1)).map fun l => (d, k, l)

theorem sum_range_succ_list (f : Nat → Nat) (n : Nat) :
    ((List.range (n + 1)).map f).sum = ((List.range n).map f).sum + f n := by
  simp [List.range_succ]

theorem tri (D : Nat) : ((List.range (D + 1)).map fun d => d + 1).sum * 2 = (D + 1) * (D + 2) := by
  induction D with
  | zero => simp
  | succ D ih => rw [sum_range_succ_list, Nat.add_mul, ih]; ring

theorem idx2_length (D : Nat) : (idx2 D).length = size2 D := by
  have := tri D
  simp only [idx2, List.length_flatMap, List.length_map, List.length_range, size2]
  omega

theorem choose_two (d : Nat) : Nat.choose (d + 2) 2 * 2 = (d + 1) * (d + 2) := by
  induction d with
  | zero => simp
  | succ d ih =>
    rw [show d + 1 + 2 = (d + 2) + 1 by omega, Nat.choose_succ_succ' (d + 2) 1, Nat.choose_one_right, Nat.add_mul, ih]
    ring

theorem size2_choose (D : Nat) : size2 D = Nat.choose (D + 2) 2 := by
  have := choose_two D
  unfold size2
  omega

theorem inner_sum (d : Nat) : ((List.range (d + 1)).map fun k => d - k + 1).sum = Nat.choose (d + 2) 2 := by
  have hrev : ((List.range (d + 1)).map fun k => d - k + 1).sum = ((List.range (d + 1)).map fun k => k + 1).sum := by
    have : (List.range (d + 1)).map (fun k => d - k + 1) = ((List.range (d + 1)).map fun k => k + 1).reverse := by
      apply List.ext_getElem
      · simp
      · intro i h1 h2
        simp
    rw [this, List.sum_reverse]
  have h1 := tri d
  have h2 := choose_two d
  omega

theorem idx3_length (D : Nat) : (idx3 D).length = size3 D := by
  simp only [idx3, List.length_flatMap, List.length_map, List.length_range, inner_sum, size3]
  induction D with
  | zero => simp
  | succ D ih =>
    rw [sum_range_succ_list, ih, show D + 1 + 3 = (D + 3) + 1 by omega, Nat.choose_succ_succ' (D + 3) 2]
    rw [show D + 1 + 2 = D + 3 by omega, Nat.add_comm]

theorem loop2_eq {β : Type} (D : Nat) (zero : β) (body : Int → Int → Option β) (f : Nat → Nat → β)
    (hb : ∀ d k : Nat, k ≤ d → d ≤ D → body d k = some (f d k)) :
    loop2 D (size2 D) zero body = some ((idx2 D).map fun e => f e.1 e.2) := by
  have h := fill (idx2 D) (fun e => body e.1 e.2) (fun e => f e.1 e.2) (by
    rintro ⟨d, k⟩ he
    simp only [idx2, List.mem_flatMap, List.mem_range, List.mem_map, Prod.mk.injEq] at he
    obtain ⟨d', h1, k', h2, rfl, rfl⟩ := he
    exact hb _ _ (by omega) (by omega)) zero 0 []
  rw [idx2_length] at h
  simp only [List.nil_append, Nat.add_zero, List.length_nil, List.replicate_zero, List.append_nil] at h
  unfold loop2
  rw [show idx2 D = (List.range (D + 1)).flatMap fun d => (List.range (d + 1)).map fun k => (d, k) from rfl,
    foldlM_flatMap'] at h
  simp only [List.foldlM_map] at h
  rw [h]
  rfl

theorem loop3_eq {β : Type} (D : Nat) (zero : β) (body : Int → Int → Int → Option β) (f : Nat → Nat → Nat → β)
    (hb : ∀ d k l : Nat, k + l ≤ d → d ≤ D → body d k l = some (f d k l)) :
    loop3 D (size3 D) zero body = some ((idx3 D).map fun e => f e.1 e.2.1 e.2.2) := by
  have h := fill (idx3 D) (fun e => body e.1 e.2.1 e.2.2) (fun e => f e.1 e.2.1 e.2.2) (by
    rintro ⟨d, k, l⟩ he
    simp only [idx3, List.mem_flatMap, List.mem_range, List.mem_map, Prod.mk.injEq] at he
    obtain ⟨d', h1, k', h2, l', h3, rfl, rfl, rfl⟩ := he
    exact hb d' k' l' (by omega) (by omega)) zero 0 []
  rw [idx3_length] at h
  simp only [List.nil_append, Nat.add_zero, List.length_nil, List.replicate_zero, List.append_nil] at h
  unfold loop3
  rw [show idx3 D = (List.range (D + 1)).flatMap fun d => (List.range (d + 1)).flatMap fun k =>
    (List.range (d - k + 1)).map fun l => (d, k, l) from rfl, foldlM_flatMap'] at h
  simp only [foldlM_flatMap', List.foldlM_map] at h
  rw [h]
  rfl

theorem loop1_eq {β : Type} (first last size : Nat) (h1 : first ≤ last) (h2 : last ≤ size) (zero : β)
    (body : Int → Option β) (f : Nat → β) (hb : ∀ k : Nat, first ≤ k → k < last → body k = some (f k)) :
    loop1 first last size zero body
      = some ((List.range size).map fun k => if first ≤ k ∧ k < last then f k else zero) := by
  unfold loop1
  have : ∀ m, first + m ≤ last →
      (List.range' first m).foldlM (fun (y : List β) (k : Nat) => do
        let v ← body k
        write y k v) (List.replicate size zero)
      = some ((List.range size).map fun k => if first ≤ k ∧ k < first + m then f k else zero) := by
    intro m
    induction m with
    | zero =>
      intro _
      simp only [List.range'_zero, List.foldlM_nil, Nat.add_zero, Option.pure_def]
      congr 1
      apply List.ext_getElem
      · simp
      · intro i h1 h2
        simp only [List.getElem_replicate, List.getElem_map, List.getElem_range]
        rw [if_neg (by omega)]
    | succ m ih =>
      intro hm
      rw [List.range'_concat, List.foldlM_append, ih (by omega)]
      simp only [Option.bind_eq_bind, Option.bind_some, List.foldlM_cons, List.foldlM_nil, Nat.one_mul,
        hb (first + m) (by omega) (by omega), Option.pure_def, Option.bind_fun_some]
      simp only [write, List.length_map, List.length_range]
      rw [if_pos (by omega)]
      congr 1
      apply List.ext_getElem
      · simp
      · intro i h1 h2
        simp only [List.getElem_set, List.getElem_map, List.getElem_range]
        by_cases hi : first + m = i
        · subst hi
          rw [if_pos rfl, if_pos (by omega)]
        · rw [if_neg hi]
          split_ifs <;> first | rfl | omega
  have h := this (last - first) (by omega)
  rw [show first + (last - first) = last by omega] at h
  exact h

/-! ### Exponents -/

theorem exponents1_eq (D : Nat) : exponents1 D = some ((List.range (D + 1)).map fun k => [k]) := by
  unfold exponents1 size1
  rw [loop1_eq 0 (D + 1) (D + 1) (by omega) (by omega) [0] _ (fun k => [k]) (by simp)]
  congr 1
  apply List.map_congr_left
  intro k hk
  simp at hk
  simp [hk]

theorem exponents2_eq (D : Nat) : exponents2 D = some ((idx2 D).map fun e => [e.1 - e.2, e.2]) := by
  unfold exponents2
  rw [loop2_eq D [0, 0] _ (fun d k => [d - k, k])]
  intro d k h1 h2
  simp

theorem exponents3_eq (D : Nat) : exponents3 D = some ((idx3 D).map fun e => [e.1 - e.2.1 - e.2.2, e.2.2, e.2.1]) := by
  unfold exponents3
  rw [loop3_eq D [0, 0, 0] _ (fun d k l => [d - k - l, l, k])]
  intro d k l h1 h2
  simp only [Int.toNat_natCast]
  congr 2
  omega

theorem before_ne {a b : List Nat} (h : Before a b) : a ≠ b := by
  rintro rfl
  rcases h with h | ⟨_, h⟩
  · exact Nat.lt_irrefl _ h
  · exact absurd h (List.lex_irrefl (fun x => Nat.lt_irrefl x) _)

theorem allExponents_mk {dim D : Nat} {L : List (List Nat)} (h1 : L.length = Nat.choose (D + dim) dim)
    (h2 : ∀ e, e ∈ L ↔ e.length = dim ∧ e.sum ≤ D) (h3 : L.Pairwise Before) : AllExponents dim D L :=
  ⟨h1, h3.imp before_ne, h2, h3⟩

theorem pairwise_range_map {β : Type} {R : β → β → Prop} (n : Nat) (f : Nat → β)
    (h : ∀ i j, i < j → j < n → R (f i) (f j)) : ((List.range n).map f).Pairwise R := by
  rw [List.pairwise_map]
  exact List.pairwise_lt_range.imp_of_mem (fun {a b} _ hb hab => h a b hab (by simpa using hb))

theorem pairwise_range_flatMap {β : Type} {R : β → β → Prop} (n : Nat) (f : Nat → List β)
    (h1 : ∀ i, i < n → (f i).Pairwise R)
    (h2 : ∀ i j, i < j → j < n → ∀ a ∈ f i, ∀ b ∈ f j, R a b) : ((List.range n).flatMap f).Pairwise R := by
  rw [List.pairwise_flatMap]
  refine ⟨fun i hi => h1 i (by simpa using hi), ?_⟩
  exact List.pairwise_lt_range.imp_of_mem (fun {a b} _ hb hab => h2 a b hab (by simpa using hb))

theorem all1 (D : Nat) : AllExponents 1 D ((List.range (D + 1)).map fun k => [k]) := by
  apply allExponents_mk
  · simp
  · intro e
    constructor
    · intro h
      simp only [List.mem_map, List.mem_range] at h
      obtain ⟨k, hk, rfl⟩ := h
      simp; omega
    · rintro ⟨h1, h2⟩
      match e, h1 with
      | [a], _ =>
        simp at h2 ⊢
        omega
  · apply pairwise_range_map
    intro i j hij _
    exact Or.inl (by simpa using hij)

theorem all2 (D : Nat) : AllExponents 2 D ((idx2 D).map fun e => [e.1 - e.2, e.2]) := by
  apply allExponents_mk
  · rw [List.length_map, idx2_length, size2_choose]
  · intro e
    simp only [idx2, List.mem_map, List.mem_flatMap, List.mem_range]
    constructor
    · rintro ⟨_, ⟨d, hd, k, hk, rfl⟩, rfl⟩
      simp; omega
    · rintro ⟨h1, h2⟩
      match e, h1 with
      | [a, b], _ =>
        simp at h2
        exact ⟨(a + b, b), ⟨a + b, by omega, b, by omega, rfl⟩, by simp⟩
  · rw [idx2, List.map_flatMap]
    apply pairwise_range_flatMap
    · intro d _
      rw [List.map_map]
      apply pairwise_range_map
      intro i j hij hj
      refine Or.inr ⟨?_, ?_⟩
      · simp; omega
      · simp only [Function.comp, List.reverse_cons, List.reverse_nil, List.nil_append, List.cons_append]
        exact List.Lex.rel hij
    · intro i j hij hj a ha b hb
      simp only [List.map_map, List.mem_map, List.mem_range, Function.comp] at ha hb
      obtain ⟨k, hk, rfl⟩ := ha
      obtain ⟨l, hl, rfl⟩ := hb
      refine Or.inl ?_
      simp; omega

theorem all3 (D : Nat) : AllExponents 3 D ((idx3 D).map fun e => [e.1 - e.2.1 - e.2.2, e.2.2, e.2.1]) := by
  apply allExponents_mk
  · rw [List.length_map, idx3_length, size3]
  · intro e
    simp only [idx3, List.mem_map, List.mem_flatMap, List.mem_range]
    constructor
    · rintro ⟨_, ⟨d, hd, k, hk, l, hl, rfl⟩, rfl⟩
      simp; omega
    · rintro ⟨h1, h2⟩
      match e, h1 with
      | [a, b, c], _ =>
        simp at h2
        exact ⟨(a + b + c, c, b), ⟨a + b + c, by omega, c, by omega, b, by omega, rfl⟩, by
          simp only [List.cons.injEq, and_true]; omega⟩
  · rw [idx3, List.map_flatMap]
    apply pairwise_range_flatMap
    · intro d _
      rw [List.map_flatMap]
      apply pairwise_range_flatMap
      · intro k hk
        rw [List.map_map]
        apply pairwise_range_map
        intro i j hij hj
        refine Or.inr ⟨?_, ?_⟩
        · simp; omega
        · simp only [Function.comp, List.reverse_cons, List.reverse_nil, List.nil_append, List.cons_append]
          exact List.Lex.cons (List.Lex.rel hij)
      · intro i j hij hj a ha b hb
        simp only [List.map_map, List.mem_map, List.mem_range, Function.comp] at ha hb
        obtain ⟨k, hk, rfl⟩ := ha
        obtain ⟨l, hl, rfl⟩ := hb
        refine Or.inr ⟨?_, ?_⟩
        · simp; omega
        · simp only [List.reverse_cons, List.reverse_nil, List.nil_append, List.cons_append]
          exact List.Lex.rel hij
    · intro i j hij hj a ha b hb
      simp only [List.mem_map, List.mem_flatMap, List.mem_range] at ha hb
      obtain ⟨_, ⟨k, hk, l, hl, rfl⟩, rfl⟩ := ha
      obtain ⟨_, ⟨k', hk', l', hl', rfl⟩, rfl⟩ := hb
      refine Or.inl ?_
      simp; omega

/-- **C38, exponents.** For every maximal degree and `dim = 1, 2, 3`, `exponents()` accesses its array in range only and
returns every exponent multi-index of total degree at most `maxDegree` exactly once, in the documented order. The number is
`binomial(maxDegree+dim, dim)`. -/
theorem C38_exponents (D : Nat) :
    (∃ L, exponents1 D = some L ∧ AllExponents 1 D L) ∧
    (∃ L, exponents2 D = some L ∧ AllExponents 2 D L) ∧
    (∃ L, exponents3 D = some L ∧ AllExponents 3 D L) :=
  ⟨⟨_, exponents1_eq D, all1 D⟩, ⟨_, exponents2_eq D, all2 D⟩, ⟨_, exponents3_eq D, all3 D⟩⟩

/-! ### Values and derivatives -/

theorem eval_mono (dim : Nat) (e : List Nat) (x : Fin dim → K) :
    eval x (mono K dim e) = ∏ j : Fin dim, x j ^ (e[j.val]?.getD 0) := by
  simp [mono]

theorem value1_spec (D : Nat) (x : Fin 1 → K) :
    value1 D x = (exponents1 D).map (List.map fun e => eval x (mono K 1 e)) := by
  rw [exponents1_eq, value1]
  have := powLoop (x 0) (D + 1) D (by omega)
  simp only [computePowers, size1, Int.natCast_nonneg, if_true, Int.toNat_natCast]
  rw [show write (List.replicate (D + 1) (0 : K)) 0 1 = some (1 :: List.replicate D 0) by
    simp [write, List.replicate_succ]]
  rw [Nat.add_sub_cancel] at this
  simp only [Option.bind_eq_bind, Option.bind_some] at this ⊢
  rw [this]
  simp [eval_mono]

theorem value2_spec (D : Nat) (x : Fin 2 → K) :
    value2 D x = (exponents2 D).map (List.map fun e => eval x (mono K 2 e)) := by
  have hs : (D : Int) < size2 D := by
    have := choose_two D; rw [size2_choose]; nlinarith
  obtain ⟨p0, h0, r0⟩ := computePowers_eq (D : Int) (x 0) (size2 D) hs
  obtain ⟨p1, h1, r1⟩ := computePowers_eq (D : Int) (x 1) (size2 D) hs
  rw [exponents2_eq]
  simp only [value2, h0, h1, Option.bind_eq_bind, Option.bind_some]
  rw [loop2_eq D 0 _ (fun d k => x 0 ^ (d - k) * x 1 ^ k)]
  · simp [eval_mono, Function.comp_def]
  · intro d k hk hd
    rw [r0 _ (by omega) (by omega), r1 _ (by omega) (by omega)]
    simp

theorem value3_spec (D : Nat) (x : Fin 3 → K) :
    value3 D x = (exponents3 D).map (List.map fun e => eval x (mono K 3 e)) := by
  obtain ⟨p0, h0, r0⟩ := computePowers_eq (D : Int) (x 0) (D + 1) (by omega)
  obtain ⟨p1, h1, r1⟩ := computePowers_eq (D : Int) (x 1) (D + 1) (by omega)
  obtain ⟨p2, h2, r2⟩ := computePowers_eq (D : Int) (x 2) (D + 1) (by omega)
  rw [exponents3_eq]
  simp only [value3, h0, h1, h2, Option.bind_eq_bind, Option.bind_some]
  rw [loop3_eq D 0 _ (fun d k l => x 0 ^ (d - k - l) * x 1 ^ l * x 2 ^ k)]
  · simp [eval_mono, Function.comp_def, Fin.prod_univ_three]
  · intro d k l hk hd
    rw [r0 _ (by omega) (by omega), r1 _ (by omega) (by omega), r2 _ (by omega) (by omega)]
    simp only [Option.bind_some, Int.toNat_natCast, Option.pure_def]
    rw [show ((d : Int) - k - l).toNat = d - k - l by omega]

/-- **C38, values.** For every maximal degree and every point, `operator()` returns the values of the monomials with the
exponents listed by `exponents()`, in this order. -/
theorem C38_values (D : Nat) :
    (∀ x : Fin 1 → K, value1 D x = (exponents1 D).map (List.map fun e => eval x (mono K 1 e))) ∧
    (∀ x : Fin 2 → K, value2 D x = (exponents2 D).map (List.map fun e => eval x (mono K 2 e))) ∧
    (∀ x : Fin 3 → K, value3 D x = (exponents3 D).map (List.map fun e => eval x (mono K 3 e))) :=
  ⟨value1_spec D, value2_spec D, value3_spec D⟩

/-- All first derivatives of the monomial at `x`. -/
noncomputable def gradSpec (dim : Nat) (x : Fin dim → K) (e : List Nat) : List K :=
  (List.finRange dim).map fun i => eval x (pderiv i (mono K dim e))

/-- All second derivatives of the monomial at `x`. -/
noncomputable def hessSpec (dim : Nat) (x : Fin dim → K) (e : List Nat) : List (List K) :=
  (List.finRange dim).map fun i => (List.finRange dim).map fun j => eval x (pderiv i (pderiv j (mono K dim e)))

theorem mono_eq (dim : Nat) (e : List Nat) :
    mono K dim e = MvPolynomial.monomial (Finsupp.equivFunOnFinite.symm fun j : Fin dim => e[j.val]?.getD 0) 1 := by
  rw [MvPolynomial.monomial_eq, Finsupp.prod_fintype _ _ (by simp)]
  simp [mono]

theorem eval_pderiv (dim : Nat) (x : Fin dim → K) (e : List Nat) (i : Fin dim) :
    eval x (pderiv i (mono K dim e))
      = (e[i.val]?.getD 0 : K) * ∏ k : Fin dim, x k ^ (e[k.val]?.getD 0 - if k = i then 1 else 0) := by
  rw [mono_eq, MvPolynomial.pderiv_monomial, MvPolynomial.eval_monomial, Finsupp.prod_fintype _ _ (by simp)]
  simp [Finsupp.single_apply, eq_comm]

theorem eval_pderiv2 (dim : Nat) (x : Fin dim → K) (e : List Nat) (i j : Fin dim) :
    eval x (pderiv i (pderiv j (mono K dim e)))
      = (e[j.val]?.getD 0 : K) * ((e[i.val]?.getD 0 - if i = j then 1 else 0 : Nat) : K) *
        ∏ k : Fin dim, x k ^ (e[k.val]?.getD 0 - (if k = j then 1 else 0) - if k = i then 1 else 0) := by
  rw [mono_eq, MvPolynomial.pderiv_monomial, MvPolynomial.pderiv_monomial, MvPolynomial.eval_monomial,
    Finsupp.prod_fintype _ _ (by simp)]
  simp [Finsupp.single_apply, eq_comm]

theorem grad1 (x : Fin 1 → K) (a : Nat) : gradSpec 1 x [a] = [(a : K) * x 0 ^ (a - 1)] := by
  simp [gradSpec, eval_pderiv, List.finRange_succ]

theorem hess1 (x : Fin 1 → K) (a : Nat) : hessSpec 1 x [a] = [[(a : K) * ((a - 1 : Nat) : K) * x 0 ^ (a - 1 - 1)]] := by
  simp [hessSpec, eval_pderiv2, List.finRange_succ]

theorem grad2 (x : Fin 2 → K) (a b : Nat) :
    gradSpec 2 x [a, b] = [(a : K) * (x 0 ^ (a - 1) * x 1 ^ b), (b : K) * (x 0 ^ a * x 1 ^ (b - 1))] := by
  simp [gradSpec, eval_pderiv, List.finRange_succ, Fin.prod_univ_two]

theorem hess2 (x : Fin 2 → K) (a b : Nat) :
    hessSpec 2 x [a, b] =
      [[(a : K) * ((a - 1 : Nat) : K) * (x 0 ^ (a - 1 - 1) * x 1 ^ b), (b : K) * (a : K) * (x 0 ^ (a - 1) * x 1 ^ (b - 1))],
       [(a : K) * (b : K) * (x 0 ^ (a - 1) * x 1 ^ (b - 1)), (b : K) * ((b - 1 : Nat) : K) * (x 0 ^ a * x 1 ^ (b - 1 - 1))]] := by
  simp [hessSpec, eval_pderiv2, List.finRange_succ, Fin.prod_univ_two]

theorem grad3 (x : Fin 3 → K) (a b c : Nat) :
    gradSpec 3 x [a, b, c] = [(a : K) * (x 0 ^ (a - 1) * x 1 ^ b * x 2 ^ c), (b : K) * (x 0 ^ a * x 1 ^ (b - 1) * x 2 ^ c),
      (c : K) * (x 0 ^ a * x 1 ^ b * x 2 ^ (c - 1))] := by
  simp [gradSpec, eval_pderiv, List.finRange_succ, Fin.prod_univ_three]

theorem hess3 (x : Fin 3 → K) (a b c : Nat) :
    hessSpec 3 x [a, b, c] =
      [[(a : K) * ((a - 1 : Nat) : K) * (x 0 ^ (a - 1 - 1) * x 1 ^ b * x 2 ^ c),
        (b : K) * (a : K) * (x 0 ^ (a - 1) * x 1 ^ (b - 1) * x 2 ^ c),
        (c : K) * (a : K) * (x 0 ^ (a - 1) * x 1 ^ b * x 2 ^ (c - 1))],
       [(a : K) * (b : K) * (x 0 ^ (a - 1) * x 1 ^ (b - 1) * x 2 ^ c),
        (b : K) * ((b - 1 : Nat) : K) * (x 0 ^ a * x 1 ^ (b - 1 - 1) * x 2 ^ c),
        (c : K) * (b : K) * (x 0 ^ a * x 1 ^ (b - 1) * x 2 ^ (c - 1))],
       [(a : K) * (c : K) * (x 0 ^ (a - 1) * x 1 ^ b * x 2 ^ (c - 1)),
        (b : K) * (c : K) * (x 0 ^ a * x 1 ^ (b - 1) * x 2 ^ (c - 1)),
        (c : K) * ((c - 1 : Nat) : K) * (x 0 ^ a * x 1 ^ b * x 2 ^ (c - 1 - 1))]] := by
  simp [hessSpec, eval_pderiv2, List.finRange_succ, Fin.prod_univ_three]

/-- Array of powers up to `d`. -/
def IsPow (p : List K) (x : K) (d : Int) : Prop := ∀ i : Int, 0 ≤ i → i ≤ d → read p i = some (x ^ i.toNat)

theorem IsPow.get {p : List K} {x : K} {d : Int} (h : IsPow p x d) (n : Nat) (hn : (n : Int) ≤ d) :
    read p (n : Int) = some (x ^ n) := by
  simpa using h n (by omega) hn

theorem jacobian1_spec (D : Nat) (x : Fin 1 → K) :
    jacobian1 D x = (exponents1 D).map (List.map (gradSpec 1 x)) := by
  obtain ⟨p0, h0, (r0 : IsPow _ _ _)⟩ := computePowers_eq ((D : Int) - 1) (x 0) (size1 D) (by unfold size1; omega)
  rw [exponents1_eq]
  simp only [jacobian1, h0, Option.bind_eq_bind, Option.bind_some]
  rw [loop1_eq 1 (D + 1) (size1 D) (by omega) (by unfold size1; omega) [0] _ (fun k => [(k : K) * x 0 ^ (k - 1)])]
  · simp only [size1, Option.map_some, List.map_map, Option.some.injEq]
    apply List.map_congr_left
    intro k hk
    simp only [List.mem_range] at hk
    simp only [Function.comp, grad1]
    split
    · rfl
    · obtain rfl : k = 0 := by omega
      simp
  · intro k h1 h2
    obtain ⟨k, rfl⟩ : ∃ k', k = k' + 1 := ⟨k - 1, by omega⟩
    rw [show ((k + 1 : Nat) : Int) - 1 = (k : Int) by omega, r0.get k (by omega)]
    simp

theorem hessian1_spec (D : Nat) (x : Fin 1 → K) :
    hessian1 D x = (exponents1 D).map (List.map (hessSpec 1 x)) := by
  obtain ⟨p0, h0, (r0 : IsPow _ _ _)⟩ := computePowers_eq ((D : Int) - 2) (x 0) (D + 1) (by omega)
  rw [exponents1_eq]
  simp only [hessian1, h0, Option.bind_eq_bind, Option.bind_some]
  rw [loop1_eq 0 (D + 1) (size1 D) (by omega) (by unfold size1; omega) [[0]] _
    (fun k => [[(k : K) * ((k - 1 : Nat) : K) * x 0 ^ (k - 1 - 1)]])]
  · simp only [size1, Option.map_some, List.map_map, Option.some.injEq]
    apply List.map_congr_left
    intro k hk
    simp only [List.mem_range] at hk
    simp [hess1, hk]
  · intro k h1 h2
    match k with
    | 0 => simp
    | 1 => simp
    | k + 2 =>
      rw [if_pos (by omega), show ((k + 2 : Nat) : Int) - 2 = (k : Int) by omega, r0.get k (by omega),
        show ((k + 2 : Nat) : Int) - 1 = ((k + 1 : Nat) : Int) by omega]
      simp

theorem prod2_eq {p0 p1 : List K} {x0 x1 : K} {D : Int} (r0 : IsPow p0 x0 D) (r1 : IsPow p1 x1 D)
    (f : Int) (i j : Nat) (hi : (i : Int) ≤ D) (hj : (j : Int) ≤ D) :
    prod2 p0 p1 f i j = some ((f : K) * (x0 ^ i * x1 ^ j)) := by
  simp [prod2, r0.get i hi, r1.get j hj, mul_assoc]

theorem jacobian2_spec (D : Nat) (x : Fin 2 → K) :
    jacobian2 D x = (exponents2 D).map (List.map (gradSpec 2 x)) := by
  have hs : (D : Int) - 1 < size2 D := by
    have := choose_two D; rw [size2_choose]; nlinarith
  obtain ⟨p0, h0, (r0 : IsPow _ _ _)⟩ := computePowers_eq _ (x 0) (size2 D) hs
  obtain ⟨p1, h1, (r1 : IsPow _ _ _)⟩ := computePowers_eq _ (x 1) (size2 D) hs
  rw [exponents2_eq]
  simp only [jacobian2, h0, h1, Option.bind_eq_bind, Option.bind_some]
  rw [loop2_eq D [0, 0] _ (fun d k => gradSpec 2 x [d - k, k])]
  · simp [Function.comp_def]
  · intro d b hk hd
    obtain ⟨a, rfl⟩ : ∃ a, d = a + b := ⟨d - b, by omega⟩
    rw [show ((a + b : Nat) : Int) - b = (a : Int) by omega, Nat.add_sub_cancel, grad2]
    have e0 : assignIf ((a : Int) > 0) (prod2 p0 p1 a ((a : Int) - 1) b) = some ((a : K) * (x 0 ^ (a - 1) * x 1 ^ b)) := by
      match a with
      | 0 => simp [assignIf]
      | a + 1 =>
        rw [assignIf, if_pos (by omega), show ((a + 1 : Nat) : Int) - 1 = (a : Int) by omega, prod2_eq r0 r1 _ _ _ (by omega) (by omega)]
        simp
    have e1 : assignIf ((b : Int) > 0) (prod2 p0 p1 b a ((b : Int) - 1)) = some ((b : K) * (x 0 ^ a * x 1 ^ (b - 1))) := by
      match b with
      | 0 => simp [assignIf]
      | b + 1 =>
        rw [assignIf, if_pos (by omega), show ((b + 1 : Nat) : Int) - 1 = (b : Int) by omega, prod2_eq r0 r1 _ _ _ (by omega) (by omega)]
        simp
    rw [e0, e1]
    simp

theorem hessian2_spec (D : Nat) (x : Fin 2 → K) :
    hessian2 D x = (exponents2 D).map (List.map (hessSpec 2 x)) := by
  obtain ⟨p0, h0, (r0 : IsPow _ _ _)⟩ := computePowers_eq ((D : Int) - 2) (x 0) (D + 1) (by omega)
  obtain ⟨p1, h1, (r1 : IsPow _ _ _)⟩ := computePowers_eq ((D : Int) - 2) (x 1) (D + 1) (by omega)
  rw [exponents2_eq]
  simp only [hessian2, h0, h1, Option.bind_eq_bind, Option.bind_some]
  rw [loop2_eq D _ _ (fun d k => hessSpec 2 x [d - k, k])]
  · simp [Function.comp_def]
  · intro d b hk hd
    obtain ⟨a, rfl⟩ : ∃ a, d = a + b := ⟨d - b, by omega⟩
    rw [show ((a + b : Nat) : Int) - b = (a : Int) by omega, Nat.add_sub_cancel, hess2]
    have e0 : assignIf ((a : Int) > 1) (prod2 p0 p1 (((a : Int) - 1) * (a : Int)) ((a : Int) - 2) b)
        = some ((a : K) * ((a - 1 : Nat) : K) * (x 0 ^ (a - 1 - 1) * x 1 ^ b)) := by
      match a with
      | 0 => simp [assignIf]
      | 1 => simp [assignIf]
      | a + 2 =>
        rw [assignIf, if_pos (by omega), show ((a + 2 : Nat) : Int) - 2 = (a : Int) by omega, prod2_eq r0 r1 _ _ _ (by omega) (by omega)]
        simp
        try ring
    have em : assignIf ((b : Int) > 0 ∧ (a : Int) > 0) (prod2 p0 p1 ((b : Int) * (a : Int)) ((a : Int) - 1) ((b : Int) - 1))
        = some ((b : K) * (a : K) * (x 0 ^ (a - 1) * x 1 ^ (b - 1))) := by
      match a, b with
      | 0, _ => simp [assignIf]
      | _, 0 => simp [assignIf]
      | a + 1, b + 1 =>
        rw [assignIf, if_pos (by omega), show ((a + 1 : Nat) : Int) - 1 = (a : Int) by omega,
          show ((b + 1 : Nat) : Int) - 1 = (b : Int) by omega, prod2_eq r0 r1 _ _ _ (by omega) (by omega)]
        simp
        try ring
    have e1 : assignIf ((b : Int) > 1) (prod2 p0 p1 ((b : Int) * ((b : Int) - 1)) a ((b : Int) - 2))
        = some ((b : K) * ((b - 1 : Nat) : K) * (x 0 ^ a * x 1 ^ (b - 1 - 1))) := by
      match b with
      | 0 => simp [assignIf]
      | 1 => simp [assignIf]
      | b + 2 =>
        rw [assignIf, if_pos (by omega), show ((b + 2 : Nat) : Int) - 2 = (b : Int) by omega, prod2_eq r0 r1 _ _ _ (by omega) (by omega)]
        simp
        try ring
    rw [e0, em, e1]
    simp [mul_comm (b : K) (a : K)]

theorem prod3_eq {p0 p1 p2 : List K} {x0 x1 x2 : K} {D : Int} (r0 : IsPow p0 x0 D) (r1 : IsPow p1 x1 D)
    (r2 : IsPow p2 x2 D) (f : Int) (i j k : Nat) (hi : (i : Int) ≤ D) (hj : (j : Int) ≤ D) (hk : (k : Int) ≤ D) :
    prod3 p0 p1 p2 f i j k = some ((f : K) * (x0 ^ i * x1 ^ j * x2 ^ k)) := by
  simp [prod3, r0.get i hi, r1.get j hj, r2.get k hk, mul_assoc]

theorem jacobian3_spec (D : Nat) (x : Fin 3 → K) :
    jacobian3 D x = (exponents3 D).map (List.map (gradSpec 3 x)) := by
  obtain ⟨p0, h0, (r0 : IsPow _ _ _)⟩ := computePowers_eq (D : Int) (x 0) (D + 1) (by omega)
  obtain ⟨p1, h1, (r1 : IsPow _ _ _)⟩ := computePowers_eq (D : Int) (x 1) (D + 1) (by omega)
  obtain ⟨p2, h2, (r2 : IsPow _ _ _)⟩ := computePowers_eq (D : Int) (x 2) (D + 1) (by omega)
  rw [exponents3_eq]
  simp only [jacobian3, h0, h1, h2, Option.bind_eq_bind, Option.bind_some]
  rw [loop3_eq D _ _ (fun d k l => gradSpec 3 x [d - k - l, l, k])]
  · simp [Function.comp_def]
  · intro d c b hk hd
    obtain ⟨a, rfl⟩ : ∃ a, d = a + c + b := ⟨d - c - b, by omega⟩
    rw [show ((a + c + b : Nat) : Int) - c - b = (a : Int) by omega, show a + c + b - c - b = a by omega, grad3]
    have e0 : assignIf ((a : Int) > 0) (prod3 p0 p1 p2 a ((a : Int) - 1) b c)
        = some ((a : K) * (x 0 ^ (a - 1) * x 1 ^ b * x 2 ^ c)) := by
      match a with
      | 0 => simp [assignIf]
      | a + 1 =>
        rw [assignIf, if_pos (by omega), show ((a + 1 : Nat) : Int) - 1 = (a : Int) by omega,
          prod3_eq r0 r1 r2 _ _ _ _ (by omega) (by omega) (by omega)]
        simp
    have e1 : assignIf ((b : Int) > 0) (prod3 p0 p1 p2 b (a : Int) ((b : Int) - 1) c)
        = some ((b : K) * (x 0 ^ a * x 1 ^ (b - 1) * x 2 ^ c)) := by
      match b with
      | 0 => simp [assignIf]
      | b + 1 =>
        rw [assignIf, if_pos (by omega), show ((b + 1 : Nat) : Int) - 1 = (b : Int) by omega,
          prod3_eq r0 r1 r2 _ _ _ _ (by omega) (by omega) (by omega)]
        simp
    have e2 : assignIf ((c : Int) > 0) (prod3 p0 p1 p2 c (a : Int) b ((c : Int) - 1))
        = some ((c : K) * (x 0 ^ a * x 1 ^ b * x 2 ^ (c - 1))) := by
      match c with
      | 0 => simp [assignIf]
      | c + 1 =>
        rw [assignIf, if_pos (by omega), show ((c + 1 : Nat) : Int) - 1 = (c : Int) by omega,
          prod3_eq r0 r1 r2 _ _ _ _ (by omega) (by omega) (by omega)]
        simp
    rw [e0, e1, e2]
    simp

theorem hessian3_spec (D : Nat) (x : Fin 3 → K) :
    hessian3 D x = (exponents3 D).map (List.map (hessSpec 3 x)) := by
  obtain ⟨p0, h0, (r0 : IsPow _ _ _)⟩ := computePowers_eq (D : Int) (x 0) (D + 1) (by omega)
  obtain ⟨p1, h1, (r1 : IsPow _ _ _)⟩ := computePowers_eq (D : Int) (x 1) (D + 1) (by omega)
  obtain ⟨p2, h2, (r2 : IsPow _ _ _)⟩ := computePowers_eq (D : Int) (x 2) (D + 1) (by omega)
  rw [exponents3_eq]
  simp only [hessian3, h0, h1, h2, Option.bind_eq_bind, Option.bind_some]
  rw [loop3_eq D _ _ (fun d k l => hessSpec 3 x [d - k - l, l, k])]
  · simp [Function.comp_def]
  · intro d c b hk hd
    obtain ⟨a, rfl⟩ : ∃ a, d = a + c + b := ⟨d - c - b, by omega⟩
    rw [show ((a + c + b : Nat) : Int) - c - b = (a : Int) by omega, show a + c + b - c - b = a by omega, hess3]
    have exx : assignIf ((a : Int) - 1 > 0) (prod3 p0 p1 p2 ((a : Int) * ((a : Int) - 1)) ((a : Int) - 2) b c)
        = some ((a : K) * ((a - 1 : Nat) : K) * (x 0 ^ (a - 1 - 1) * x 1 ^ b * x 2 ^ c)) := by
      match a with
      | 0 => simp [assignIf]
      | 1 => simp [assignIf]
      | a + 2 =>
        rw [assignIf, if_pos (by omega), show ((a + 2 : Nat) : Int) - 2 = (a : Int) by omega,
          prod3_eq r0 r1 r2 _ _ _ _ (by omega) (by omega) (by omega)]
        simp
        try ring
    have eyy : assignIf ((b : Int) - 1 > 0) (prod3 p0 p1 p2 ((b : Int) * ((b : Int) - 1)) a ((b : Int) - 2) c)
        = some ((b : K) * ((b - 1 : Nat) : K) * (x 0 ^ a * x 1 ^ (b - 1 - 1) * x 2 ^ c)) := by
      match b with
      | 0 => simp [assignIf]
      | 1 => simp [assignIf]
      | b + 2 =>
        rw [assignIf, if_pos (by omega), show ((b + 2 : Nat) : Int) - 2 = (b : Int) by omega,
          prod3_eq r0 r1 r2 _ _ _ _ (by omega) (by omega) (by omega)]
        simp
        try ring
    have ezz : assignIf ((c : Int) - 1 > 0) (prod3 p0 p1 p2 (((c : Int) - 1) * (c : Int)) a b ((c : Int) - 2))
        = some ((c : K) * ((c - 1 : Nat) : K) * (x 0 ^ a * x 1 ^ b * x 2 ^ (c - 1 - 1))) := by
      match c with
      | 0 => simp [assignIf]
      | 1 => simp [assignIf]
      | c + 2 =>
        rw [assignIf, if_pos (by omega), show ((c + 2 : Nat) : Int) - 2 = (c : Int) by omega,
          prod3_eq r0 r1 r2 _ _ _ _ (by omega) (by omega) (by omega)]
        simp
        try ring
    have exy : assignIf ((a : Int) > 0 ∧ (b : Int) > 0) (prod3 p0 p1 p2 ((a : Int) * (b : Int)) ((a : Int) - 1) ((b : Int) - 1) c)
        = some ((a : K) * (b : K) * (x 0 ^ (a - 1) * x 1 ^ (b - 1) * x 2 ^ c)) := by
      match a, b with
      | 0, _ => simp [assignIf]
      | _, 0 => simp [assignIf]
      | a + 1, b + 1 =>
        rw [assignIf, if_pos (by omega), show ((a + 1 : Nat) : Int) - 1 = (a : Int) by omega,
          show ((b + 1 : Nat) : Int) - 1 = (b : Int) by omega,
          prod3_eq r0 r1 r2 _ _ _ _ (by omega) (by omega) (by omega)]
        simp
    have exz : assignIf ((c : Int) > 0 ∧ (a : Int) > 0) (prod3 p0 p1 p2 ((a : Int) * (c : Int)) ((a : Int) - 1) b ((c : Int) - 1))
        = some ((a : K) * (c : K) * (x 0 ^ (a - 1) * x 1 ^ b * x 2 ^ (c - 1))) := by
      match a, c with
      | 0, _ => simp [assignIf]
      | _, 0 => simp [assignIf]
      | a + 1, c + 1 =>
        rw [assignIf, if_pos (by omega), show ((a + 1 : Nat) : Int) - 1 = (a : Int) by omega,
          show ((c + 1 : Nat) : Int) - 1 = (c : Int) by omega,
          prod3_eq r0 r1 r2 _ _ _ _ (by omega) (by omega) (by omega)]
        simp
    have eyz : assignIf ((b : Int) > 0 ∧ (c : Int) > 0) (prod3 p0 p1 p2 ((b : Int) * (c : Int)) a ((b : Int) - 1) ((c : Int) - 1))
        = some ((b : K) * (c : K) * (x 0 ^ a * x 1 ^ (b - 1) * x 2 ^ (c - 1))) := by
      match b, c with
      | 0, _ => simp [assignIf]
      | _, 0 => simp [assignIf]
      | b + 1, c + 1 =>
        rw [assignIf, if_pos (by omega), show ((b + 1 : Nat) : Int) - 1 = (b : Int) by omega,
          show ((c + 1 : Nat) : Int) - 1 = (c : Int) by omega,
          prod3_eq r0 r1 r2 _ _ _ _ (by omega) (by omega) (by omega)]
        simp
    rw [exx, exy, eyy, exz, eyz, ezz]
    simp [mul_comm (b : K) (a : K), mul_comm (c : K) (a : K), mul_comm (c : K) (b : K)]

/-- **C38, derivatives.** For every maximal degree and every point the derivative object returns all first derivatives of
the monomials listed by `exponents()`, and its derivative object all second derivatives. All array accesses are in
range. -/
theorem C38_derivatives (D : Nat) :
    (∀ x : Fin 1 → K, jacobian1 D x = (exponents1 D).map (List.map (gradSpec 1 x)) ∧
      hessian1 D x = (exponents1 D).map (List.map (hessSpec 1 x))) ∧
    (∀ x : Fin 2 → K, jacobian2 D x = (exponents2 D).map (List.map (gradSpec 2 x)) ∧
      hessian2 D x = (exponents2 D).map (List.map (hessSpec 2 x))) ∧
    (∀ x : Fin 3 → K, jacobian3 D x = (exponents3 D).map (List.map (gradSpec 3 x)) ∧
      hessian3 D x = (exponents3 D).map (List.map (hessSpec 3 x))) :=
  ⟨fun x => ⟨jacobian1_spec D x, hessian1_spec D x⟩, fun x => ⟨jacobian2_spec D x, hessian2_spec D x⟩,
    fun x => ⟨jacobian3_spec D x, hessian3_spec D x⟩⟩

/-! ## Examples -/

example : exponents3 2 = some [[0,0,0], [1,0,0], [0,1,0], [0,0,1], [2,0,0], [1,1,0], [0,2,0], [1,0,1], [0,1,1], [0,0,2]] := by
  decide +kernel
example : value2 2 ![(2 : ℚ), 3] = some [1, 2, 3, 4, 6, 9] := by decide +kernel
example : jacobian2 2 ![(2 : ℚ), 3] = some [[0, 0], [1, 0], [0, 1], [4, 0], [3, 2], [0, 6]] := by decide +kernel
example : (hessian3 3 ![(2 : ℤ), 3, 5]).bind (fun h => h[15]?) = some [[0, 5, 3], [5, 0, 2], [3, 2, 0]] := by decide +kernel
example : hessian1 0 ![(2 : ℚ)] = some [[[0]]] := by decide +kernel

end Verif.Analytic

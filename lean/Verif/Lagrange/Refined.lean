import Verif.Lagrange.Hierarchical

/-!
# Functions of refined Lagrange bases

refinedlagrangebasis.hh: functions that are affine (`k = 1`) or constant (`k = 0`) on the `2^dim` simplices into which an element is divided. For `k = 1` there is one degree of freedom
per vertex and per edge; the functions are exactly the continuous functions that are affine on the parts of all elements.
-/

namespace Verif.Lagrange.Refined

open Mapper
open Verif.Lagrange.Continuity
open Verif.Lagrange.Hierarchical (Simplex SubKey center vertexKey subKey_table bary_center verts_perm value)
open Verif.Piola (Vec)
open Verif.HDiv.Tangential (bary)
open Verif.FE (Matches simplex)

variable {E S α K : Type} [Field K] [LinearOrder K] {n : Nat}

/-! ## Model -/

/-- `RefinedSimplexLocalBasis::getSubElement` (dune-localfunctions): number of the part that contains a point. -/
def select (n : Nat) (x : Vec K n) : Nat :=
  let X := coordinate x
  if n = 1 then (if X 0 ≤ 1 / 2 then 0 else 1)
  else if n = 2 then (if X 0 + X 1 ≤ 1 / 2 then 0 else if 1 / 2 ≤ X 0 then 1 else if 1 / 2 ≤ X 1 then 2 else 3)
  else if X 0 + X 1 + X 2 ≤ 1 / 2 then 0 else if 1 / 2 ≤ X 0 then 1 else if 1 / 2 ≤ X 1 then 2 else if 1 / 2 ≤ X 2 then 3
  else if X 0 + X 1 ≤ 1 / 2 ∧ X 1 + X 2 ≤ 1 / 2 then 4 else if 1 / 2 ≤ X 0 + X 1 ∧ X 1 + X 2 ≤ 1 / 2 then 5
  else if X 0 + X 1 ≤ 1 / 2 ∧ 1 / 2 ≤ X 1 + X 2 then 6 else 7

omit [LinearOrder K] in
/-- Barycentric coordinates in part `s` of the element, as functions `l` of those in the element: the one of the vertex `A = [a]` or of the midpoint of the edge `A = [a, b]`. Part `s ≤ n` is the
one with vertex `s`; in three dimensions the octahedron in the middle is divided along the line from the midpoint of edge 0, 2 to that of edge 1, 3. -/
def mu (n s : Nat) (A : List Nat) (l : Nat → K) : K :=
  match A with
  | [a] => if a = s then 2 * l a - 1 else 0
  | [a, b] =>
    if s ≤ n then (if a = s then 2 * l b else if b = s then 2 * l a else 0)
    else if n = 2 then 2 * l a + 2 * l b - 1
    else if (a, b) = (0, 2) then (if s = 4 then 2 * l 2 else if s = 5 then 1 - 2 * l 1 else if s = 6 then 1 - 2 * l 3 else 2 * l 0)
    else if (a, b) = (1, 3) then (if s = 4 then 1 - 2 * l 0 else if s = 5 then 2 * l 3 else if s = 6 then 2 * l 1 else 1 - 2 * l 2)
    else if (a, b) ∈ (if s = 4 then [(0, 1), (0, 3)] else if s = 5 then [(0, 1), (1, 2)] else if s = 6 then [(0, 3), (2, 3)] else [(1, 2), (2, 3)]) then 2 * l a + 2 * l b - 1 else 0
  | _ => 0

/-- Shape functions of `RefinedP1LocalFiniteElement` (dune-localfunctions). -/
def shape (key : Key) (x : Vec K n) : K := mu n (select n x) (keyVerts (simplex n) key) fun v => bary v x

/-- Functions of the basis with `k = 1`, refinedlagrangebasis.hh:62-66, with the given local keys. -/
def refinedValue (G : GridView E S) (keys : List Key) (vec : Nat → K) (e : E) (x : Vec K n) : K :=
  value G (refinedLayout 1 G.dim) keys (fun x => keys.map fun key => shape key x) vec e x

/-- Local keys of `RefinedP0LocalFiniteElement` (dune-localfunctions). -/
def constantKeys (dim : Nat) : List Key := (List.range (2 ^ dim)).map fun i => ⟨0, 0, i⟩

/-- Functions of the basis with `k = 0`, refinedlagrangebasis.hh:57-61. The shape functions of `RefinedP0LocalFiniteElement` are 1 on one part, and 0 on the others. -/
def constantValue (G : GridView E S) (vec : Nat → K) (e : E) (x : Vec K n) : K :=
  value G (refinedLayout 0 G.dim) (constantKeys G.dim) (fun x => (constantKeys G.dim).map fun key => if key.index = select n x then 1 else 0) vec e x

/-! ## Specification -/

/-- Points of the reference simplex. -/
def Inside (x : Vec K n) : Prop := ∀ v < n + 1, 0 ≤ bary v x

/-- The parts of a simplex, in barycentric coordinates. -/
def Part (n s : Nat) (l : Nat → K) : Prop :=
  if s ≤ n then 1 / 2 ≤ l s
  else (∀ v < n + 1, l v ≤ 1 / 2) ∧ (n = 3 → (if s = 4 ∨ s = 6 then l 1 + l 2 ≤ 1 / 2 else 1 / 2 ≤ l 1 + l 2) ∧ (if s = 4 ∨ s = 5 then l 2 + l 3 ≤ 1 / 2 else 1 / 2 ≤ l 2 + l 3))

/-- The interior of the parts, relative to the simplex. -/
def OpenPart (n s : Nat) (l : Nat → K) : Prop :=
  if s ≤ n then 1 / 2 < l s
  else (∀ v < n + 1, l v < 1 / 2) ∧ (n = 3 → (if s = 4 ∨ s = 6 then l 1 + l 2 < 1 / 2 else 1 / 2 < l 1 + l 2) ∧ (if s = 4 ∨ s = 5 then l 2 + l 3 < 1 / 2 else 1 / 2 < l 2 + l 3))

/-- Functions that are constant in the interior of all parts. -/
def PiecewiseConstant (f : Vec K n → K) : Prop := ∀ s < 2 ^ n, ∃ c : K, ∀ x, Inside x → OpenPart n s (fun v => bary v x) → f x = c

/-- Functions that are affine on all parts. -/
def PiecewiseAffine (f : Vec K n → K) : Prop :=
  ∀ s < 2 ^ n, ∃ (a : K) (b : Fin n → K), ∀ x, Inside x → Part n s (fun v => bary v x) → f x = a + ∑ d, b d * x d

/-- Functions on the elements that agree in all common points. -/
def ContinuousIn (G : LGrid E S α) (f : E → Vec K n → K) : Prop := ∀ e x e' x', Inside x → Inside x' → Meets G e x e' x' → f e x = f e' x'

/-! ## Shape functions -/

/-- The shape functions without reference to the parts. -/
def hat (n : Nat) (A : List Nat) (l : Nat → K) : K :=
  match A with
  | [a] => max 0 (2 * l a - 1)
  | [a, b] =>
    if n = 3 ∧ (a, b) = (0, 2) then max 0 (min (min (2 * l 0) (2 * l 2)) (min (1 - 2 * l 1) (1 - 2 * l 3)))
    else if n = 3 ∧ (a, b) = (1, 3) then max 0 (min (min (2 * l 1) (2 * l 3)) (min (1 - 2 * l 0) (1 - 2 * l 2)))
    else max 0 (min (min (2 * l a) (2 * l b)) (2 * l a + 2 * l b - 1))
  | _ => 0

/-- Vertices and edges. -/
def Node (n : Nat) (A : List Nat) : Prop := (∃ a < n + 1, A = [a]) ∨ ∃ a < n + 1, ∃ b < n + 1, a < b ∧ A = [a, b]

variable [IsStrictOrderedRing K]

omit [Field K] [IsStrictOrderedRing K] in
theorem hat_left {z a b c : K} (h0 : z ≤ a) (hb : a ≤ b) (hc : a ≤ c) : a = max z (min (min a b) c) := by
  rw [min_eq_left hb, min_eq_left hc, max_eq_right h0]

omit [Field K] [IsStrictOrderedRing K] in
theorem hat_mid {z a b c : K} (h0 : z ≤ b) (ha : b ≤ a) (hc : b ≤ c) : b = max z (min (min a b) c) := by
  rw [min_eq_right ha, min_eq_left hc, max_eq_right h0]

omit [Field K] [IsStrictOrderedRing K] in
theorem hat_right {z a b c : K} (h0 : z ≤ c) (ha : c ≤ a) (hb : c ≤ b) : c = max z (min (min a b) c) := by
  rw [min_eq_right (le_min ha hb), max_eq_right h0]

omit [Field K] [IsStrictOrderedRing K] in
theorem hat_zero {z a b c : K} (h : c ≤ z) : z = max z (min (min a b) c) := by
  rw [max_eq_left ((min_le_right _ _).trans h)]

/-- Barycentric coordinates. -/
structure Bary (n : Nat) (l : Nat → K) : Prop where
  nonneg : ∀ v < n + 1, 0 ≤ l v
  sum : ∑ v ∈ Finset.range (n + 1), l v = 1

theorem Bary.two {l : Nat → K} (h : Bary n l) {a b : Nat} (ha : a < n + 1) (hb : b < n + 1) (hab : a ≠ b) : l a + l b ≤ 1 := by
  rw [← h.sum, ← Finset.sum_pair (f := l) hab]
  refine Finset.sum_le_sum_of_subset_of_nonneg ?_ fun v hv _ => h.nonneg v (Finset.mem_range.1 hv)
  intro v hv
  simp only [Finset.mem_insert, Finset.mem_singleton] at hv
  exact Finset.mem_range.2 (by omega)

theorem Bary.three {l : Nat → K} (h : Bary n l) {a b c : Nat} (ha : a < n + 1) (hb : b < n + 1) (hc : c < n + 1) (hab : a ≠ b) (hac : a ≠ c) (hbc : b ≠ c) : l a + l b + l c ≤ 1 := by
  have : l a + l b + l c = ∑ v ∈ ({a, b, c} : Finset Nat), l v := by
    rw [Finset.sum_insert (by simp [hab, hac]), Finset.sum_pair hbc, add_assoc]
  rw [this, ← h.sum]
  refine Finset.sum_le_sum_of_subset_of_nonneg ?_ fun v hv _ => h.nonneg v (Finset.mem_range.1 hv)
  intro v hv
  simp only [Finset.mem_insert, Finset.mem_singleton] at hv
  exact Finset.mem_range.2 (by omega)

/-- Shape functions in the parts with a vertex of the element. -/
theorem mu_corner {s : Nat} (hs : s < n + 1) {A : List Nat} (hA : Node n A) {l : Nat → K} (h : Bary n l) (hp : 1 / 2 ≤ l s) : mu n s A l = hat n A l := by
  have one : ∀ v < n + 1, v ≠ s → l v ≤ 1 / 2 := fun v hv hvs => by linarith [h.two hv hs hvs]
  have two : ∀ v < n + 1, ∀ w < n + 1, v ≠ s → w ≠ s → v ≠ w → l v + l w ≤ 1 / 2 := fun v hv w hw hvs hws hvw => by linarith [h.three hv hw hs hvw hvs hws]
  rcases hA with ⟨a, ha, rfl⟩ | ⟨a, ha, b, hb, hab, rfl⟩
  · rw [mu, hat]
    by_cases has : a = s
    · subst has
      rw [if_pos rfl, max_eq_right (by linarith)]
    · rw [if_neg has, max_eq_left (by linarith [one a ha has])]
  · have na := h.nonneg a ha
    have nb := h.nonneg b hb
    have gen : (if a = s then 2 * l b else if b = s then 2 * l a else 0) = max 0 (min (min (2 * l a) (2 * l b)) (2 * l a + 2 * l b - 1)) := by
      by_cases has : a = s
      · subst has
        rw [if_pos rfl]
        have := one b hb (by omega)
        exact hat_mid (by linarith) (by linarith) (by linarith)
      · rw [if_neg has]
        by_cases hbs : b = s
        · subst hbs
          rw [if_pos rfl]
          have := one a ha has
          exact hat_left (by linarith) (by linarith) (by linarith)
        · rw [if_neg hbs]
          exact hat_zero (by linarith [two a ha b hb has hbs (by omega)])
    have diag : ∀ c < n + 1, ∀ d < n + 1, c ≠ a → c ≠ b → d ≠ a → d ≠ b → (s = a ∨ s = b ∨ s = c ∨ s = d) →
        (if a = s then 2 * l b else if b = s then 2 * l a else 0) = max 0 (min (min (2 * l a) (2 * l b)) (min (1 - 2 * l c) (1 - 2 * l d))) := by
      intro c hc d hd hca hcb hda hdb hall
      by_cases has : a = s
      · subst has
        rw [if_pos rfl]
        have := one b hb (by omega)
        exact hat_mid (by linarith) (by linarith) (le_min (by linarith [two b hb c hc (by omega) hca (Ne.symm hcb)]) (by linarith [two b hb d hd (by omega) hda (Ne.symm hdb)]))
      · rw [if_neg has]
        by_cases hbs : b = s
        · subst hbs
          rw [if_pos rfl]
          have := one a ha has
          exact hat_left (by linarith) (by linarith) (le_min (by linarith [two a ha c hc has hcb (Ne.symm hca)]) (by linarith [two a ha d hd has hdb (Ne.symm hda)]))
        · rw [if_neg hbs]
          rcases hall with rfl | rfl | rfl | rfl
          · exact absurd rfl has
          · exact absurd rfl hbs
          · exact hat_zero ((min_le_left _ _).trans (by linarith))
          · exact hat_zero ((min_le_right _ _).trans (by linarith))
    rw [mu, hat, if_pos (by omega)]
    by_cases h02 : n = 3 ∧ (a, b) = (0, 2)
    · rw [if_pos h02]
      obtain ⟨rfl, h02⟩ := h02
      obtain ⟨rfl, rfl⟩ := Prod.mk.inj h02
      exact diag 1 (by omega) 3 (by omega) (by decide) (by decide) (by decide) (by decide) (by omega)
    · rw [if_neg h02]
      by_cases h13 : n = 3 ∧ (a, b) = (1, 3)
      · rw [if_pos h13]
        obtain ⟨rfl, h13⟩ := h13
        obtain ⟨rfl, rfl⟩ := Prod.mk.inj h13
        exact diag 0 (by omega) 2 (by omega) (by decide) (by decide) (by decide) (by decide) (by omega)
      · rw [if_neg h13]
        exact gen

/-- Shape functions in the triangle in the middle. -/
theorem mu_triangle {A : List Nat} (hA : Node 2 A) {l : Nat → K} (h : Bary 2 l) (hp : ∀ v < 3, l v ≤ 1 / 2) : mu 2 3 A l = hat 2 A l := by
  have hsum := h.sum
  simp only [Finset.sum_range_succ, Finset.sum_range_zero, zero_add] at hsum
  have q0 := hp 0 (by decide)
  have q1 := hp 1 (by decide)
  have q2 := hp 2 (by decide)
  rcases hA with ⟨a, ha, rfl⟩ | ⟨a, ha, b, hb, hab, rfl⟩
  · rw [mu, hat, if_neg (by omega), max_eq_left (by linarith [hp a ha])]
  · rw [mu, hat, if_neg (by decide), if_pos rfl, if_neg (by simp), if_neg (by simp)]
    refine hat_right ?_ (by linarith [hp b hb]) (by linarith [hp a ha])
    interval_cases b <;> interval_cases a <;> linarith

/-- Shape functions in the octahedron in the middle. -/
theorem mu_octahedron {s : Nat} (hs : 4 ≤ s) (hs' : s < 8) {A : List Nat} (hA : Node 3 A) {l : Nat → K} (h : Bary 3 l) (hp : Part 3 s l) : mu 3 s A l = hat 3 A l := by
  have hsum := h.sum
  simp only [Finset.sum_range_succ, Finset.sum_range_zero, zero_add] at hsum
  rw [Part, if_neg (by omega)] at hp
  obtain ⟨hp, hp'⟩ := hp
  obtain ⟨p1, p2⟩ := hp' rfl
  have q0 := hp 0 (by decide)
  have q1 := hp 1 (by decide)
  have q2 := hp 2 (by decide)
  have q3 := hp 3 (by decide)
  have n0 := h.nonneg 0 (by decide)
  have n1 := h.nonneg 1 (by decide)
  have n2 := h.nonneg 2 (by decide)
  have n3 := h.nonneg 3 (by decide)
  rcases hA with ⟨a, ha, rfl⟩ | ⟨a, ha, b, hb, hab, rfl⟩
  · rw [mu, hat, if_neg (by omega), max_eq_left (by linarith [hp a ha])]
  · clear hp hp' h
    obtain ⟨z1, z2⟩ : (s = 4 ∨ s = 5 ∨ s = 6 ∨ s = 7) ∧ ((a, b) = (0, 1) ∨ (a, b) = (0, 2) ∨ (a, b) = (0, 3) ∨ (a, b) = (1, 2) ∨ (a, b) = (1, 3) ∨ (a, b) = (2, 3)) := by
      refine ⟨by omega, ?_⟩
      simp only [Prod.mk.injEq]
      omega
    clear hs hs' ha hb hab
    rcases z2 with z | z | z | z | z | z <;> obtain ⟨rfl, rfl⟩ := Prod.mk.inj z <;> clear z <;> rcases z1 with rfl | rfl | rfl | rfl <;>
      simp (decide := true) only [mu, hat, ↓reduceIte] at p1 p2 ⊢ <;>
      first
      | exact hat_zero (by linarith)
      | exact hat_right (by linarith) (by linarith) (by linarith)
      | exact hat_left (by linarith) (by linarith) (le_min (by linarith) (by linarith))
      | exact hat_mid (by linarith) (by linarith) (le_min (by linarith) (by linarith))
      | exact (min_eq_left (a := 1 - 2 * l 1) (b := 1 - 2 * l 3) (by linarith)).symm ▸ hat_right (by linarith) (by linarith) (by linarith)
      | exact (min_eq_right (a := 1 - 2 * l 1) (b := 1 - 2 * l 3) (by linarith)).symm ▸ hat_right (by linarith) (by linarith) (by linarith)
      | exact (min_eq_left (a := 1 - 2 * l 0) (b := 1 - 2 * l 2) (by linarith)).symm ▸ hat_right (by linarith) (by linarith) (by linarith)
      | exact (min_eq_right (a := 1 - 2 * l 0) (b := 1 - 2 * l 2) (by linarith)).symm ▸ hat_right (by linarith) (by linarith) (by linarith)

theorem mu_hat (hn : Simplex n) {s : Nat} (hs : s < 2 ^ n) {A : List Nat} (hA : Node n A) {l : Nat → K} (h : Bary n l) (hp : Part n s l) : mu n s A l = hat n A l := by
  by_cases hsn : s ≤ n
  · exact mu_corner (by omega) hA h (by rwa [Part, if_pos hsn] at hp)
  · rcases hn.cases with rfl | rfl | rfl
    · omega
    · obtain rfl : s = 3 := by omega
      rw [Part, if_neg hsn] at hp
      exact mu_triangle hA h hp.1
    · exact mu_octahedron (by omega) (by omega) hA h hp

/-! ## Points of an element -/

omit [LinearOrder K] [IsStrictOrderedRing K] in
theorem bary_coordinate (hn : Simplex n) (x : Vec K n) : (∀ d < n, bary (d + 1) x = coordinate x d) ∧ bary 0 x = 1 - ∑ d ∈ Finset.range n, coordinate x d := by
  rcases hn.cases with rfl | rfl | rfl
  · refine ⟨fun d hd => ?_, ?_⟩
    · obtain rfl : d = 0 := by omega
      simp [bary, coordinate]
    · simp [bary, coordinate]
  · refine ⟨fun d hd => ?_, ?_⟩
    · interval_cases d <;> simp [bary, coordinate]
    · simp [bary, coordinate, Finset.sum_range_succ]
  · refine ⟨fun d hd => ?_, ?_⟩
    · interval_cases d <;> simp [bary, coordinate, Fin.sum_univ_three]
    · simp [bary, coordinate, Finset.sum_range_succ, Fin.sum_univ_three]

omit [IsStrictOrderedRing K] in
theorem bary_of (hn : Simplex n) {x : Vec K n} (hx : Inside x) : Bary n fun v => bary v x := by
  obtain ⟨h1, h2⟩ := bary_coordinate hn x
  refine ⟨hx, ?_⟩
  rw [Finset.sum_range_succ', h2, Finset.sum_congr rfl fun d hd => h1 d (Finset.mem_range.1 hd)]
  ring

/-- `getSubElement` finds a part that contains the point. -/
theorem select_part (hn : Simplex n) {x : Vec K n} (hx : Inside x) : select n x < 2 ^ n ∧ Part n (select n x) fun v => bary v x := by
  obtain ⟨h1, h2⟩ := bary_coordinate hn x
  rcases hn.cases with rfl | rfl | rfl
  · have e1 := h1 0 (by decide)
    simp only [Finset.sum_range_one] at h2
    unfold select
    simp only [↓reduceIte, zero_add] at e1 ⊢
    split
    · refine ⟨by decide, ?_⟩
      rw [Part, if_pos (by decide)]
      linarith
    · refine ⟨by decide, ?_⟩
      rw [Part, if_pos (by decide)]
      linarith
  · have e1 := h1 0 (by decide)
    have e2 := h1 1 (by decide)
    simp only [Finset.sum_range_succ, Finset.sum_range_zero, zero_add, Nat.reduceAdd] at h2 e1 e2
    unfold select
    simp (decide := true) only [↓reduceIte]
    split_ifs with c1 c2 c3
    · refine ⟨by decide, ?_⟩
      rw [Part, if_pos (by decide)]
      linarith
    · refine ⟨by decide, ?_⟩
      rw [Part, if_pos (by decide)]
      linarith
    · refine ⟨by decide, ?_⟩
      rw [Part, if_pos (by decide)]
      linarith
    · refine ⟨by decide, ?_⟩
      rw [Part, if_neg (by decide)]
      refine ⟨fun v hv => ?_, fun h => absurd h (by decide)⟩
      interval_cases v <;> linarith
  · have e1 := h1 0 (by decide)
    have e2 := h1 1 (by decide)
    have e3 := h1 2 (by decide)
    simp only [Finset.sum_range_succ, Finset.sum_range_zero, zero_add, Nat.reduceAdd] at h2 e1 e2 e3
    unfold select
    simp (decide := true) only [↓reduceIte]
    split_ifs with c1 c2 c3 c4 c5 c6 c7
    · refine ⟨by decide, ?_⟩
      rw [Part, if_pos (by decide)]
      linarith
    · refine ⟨by decide, ?_⟩
      rw [Part, if_pos (by decide)]
      linarith
    · refine ⟨by decide, ?_⟩
      rw [Part, if_pos (by decide)]
      linarith
    · refine ⟨by decide, ?_⟩
      rw [Part, if_pos (by decide)]
      linarith
    all_goals
      refine ⟨by decide, ?_⟩
      rw [Part, if_neg (by decide)]
      refine ⟨fun v hv => by interval_cases v <;> linarith, fun _ => ?_⟩
      simp (decide := true) only [↓reduceIte]
      rw [e1, e2, e3]
    · exact c5
    · exact c6
    · exact c7
    · push Not at c5 c6 c7
      rcases le_total (coordinate x 0 + coordinate x 1) (1 / 2) with c | c
      · have a := c5 c
        have b := c7 c
        linarith
      · exact ⟨c, (c6 c).le⟩

theorem shape_hat (hn : Simplex n) {key : Key} (hA : Node n (keyVerts (simplex n) key)) {x : Vec K n} (hx : Inside x) :
    shape key x = hat n (keyVerts (simplex n) key) fun v => bary v x :=
  mu_hat hn (select_part hn hx).1 hA (bary_of hn hx) (select_part hn hx).2

/-! ## Degrees of freedom -/

/-- Vertices, then edges. -/
def nodeKeys (n : Nat) : List Key :=
  (List.range (n + 1)).map (fun i => ⟨i, n, 0⟩) ++ (List.range ((n + 1) * n / 2)).map fun i => ⟨i, n - 1, 0⟩

theorem nodeKeys_matches (hn : Simplex n) : Matches n (refinedLayout 1 n) (nodeKeys n) := by
  rcases hn.cases with rfl | rfl | rfl <;> decide +kernel

theorem matches_mem {dim : Nat} {lay : Layout} {keys keys' : List Key} (h : Matches dim lay keys) (h' : Matches dim lay keys') {k : Key} (hk : k ∈ keys) : k ∈ keys' := by
  obtain ⟨h1, t, h2, h3⟩ := h.2.1 k hk
  obtain ⟨s, c, i⟩ := k
  refine h'.2.2 c (by simp only at h1; omega) s (List.getElem?_eq_some_iff.1 h2).1 i ?_
  rw [List.getD_eq_getElem?_getD, h2]
  exact h3

theorem matches_perm {dim : Nat} {lay : Layout} {keys keys' : List Key} (h : Matches dim lay keys) (h' : Matches dim lay keys') : keys.Perm keys' :=
  (List.perm_ext_iff_of_nodup h.1 h'.1).2 fun _ => ⟨matches_mem h h', matches_mem h' h⟩

theorem nodeKeys_node (hn : Simplex n) {key : Key} (hk : key ∈ nodeKeys n) : Node n (keyVerts (simplex n) key) ∧ SubKey n key ∧ key.index = 0 := by
  have tab : ∀ n, n = 1 ∨ n = 2 ∨ n = 3 → ∀ key ∈ nodeKeys n, ((∃ a < n + 1, keyVerts (simplex n) key = [a]) ∨ ∃ a < n + 1, ∃ b < n + 1, a < b ∧ keyVerts (simplex n) key = [a, b]) ∧
      (key.codim ≤ n ∧ key.sub < (stdSubs (simplex n) key.codim).length) ∧ key.index = 0 := by
    rintro n (rfl | rfl | rfl) <;> decide +kernel
  exact tab n hn.cases key hk

theorem keys_node (hn : Simplex n) {keys : List Key} (hm : Matches n (refinedLayout 1 n) keys) {key : Key} (hk : key ∈ keys) :
    Node n (keyVerts (simplex n) key) ∧ SubKey n key ∧ key.index = 0 :=
  nodeKeys_node hn (matches_mem hm (nodeKeys_matches hn) hk)

/-! ## Traces -/

/-- Function of a vertex or an edge on the faces that contain it. -/
def trace : List K → K
  | [a] => max 0 (2 * a - 1)
  | [a, b] => max 0 (min (min (2 * a) (2 * b)) (2 * a + 2 * b - 1))
  | _ => 0

omit [IsStrictOrderedRing K] in
theorem trace_perm (l l' : List K) (h : l.Perm l') : trace l = trace l' := by
  match l, h with
  | [], h => rw [← h.nil_eq]
  | [a], h => rw [List.perm_singleton.1 h.symm]
  | [a, b], h =>
    have hl := h.length_eq
    match l', hl with
    | [c, d], _ =>
      have : (a = c ∧ b = d) ∨ (a = d ∧ b = c) := by
        have := h
        rw [List.cons_perm_iff_perm_erase] at this
        obtain ⟨h1, h2⟩ := this
        by_cases hac : a = c
        · subst hac
          rw [List.erase_cons_head] at h2
          exact Or.inl ⟨rfl, by simpa using h2⟩
        · have had : a = d := by simpa [hac] using h1
          subst had
          rw [List.erase_cons_tail (by simpa using Ne.symm hac), List.erase_cons_head] at h2
          exact Or.inr ⟨rfl, by simpa using h2⟩
      rcases this with ⟨rfl, rfl⟩ | ⟨rfl, rfl⟩
      · rfl
      · simp only [trace]
        rw [min_comm (2 * a) (2 * b), add_comm (2 * a) (2 * b)]
  | a :: b :: c :: l, h =>
    have hl := h.length_eq
    match l', hl with
    | d :: e :: f :: l', _ => rfl

/-- On the faces that do not contain the vertex or the edge. -/
theorem hat_out {A : List Nat} (hA : Node n A) {l : Nat → K} {v : Nat} (hv : v ∈ A) (h0 : l v ≤ 0) : hat n A l = 0 := by
  rcases hA with ⟨a, -, rfl⟩ | ⟨a, -, b, -, -, rfl⟩
  · rw [List.mem_singleton] at hv
    subst hv
    exact max_eq_left (by linarith)
  · have low : ∀ c : K, max 0 (min (min (2 * l a) (2 * l b)) c) = 0 := fun c => by
      refine max_eq_left ((min_le_left _ _).trans ?_)
      simp only [List.mem_cons, List.not_mem_nil, or_false] at hv
      rcases hv with rfl | rfl
      · exact (min_le_left _ _).trans (by linarith)
      · exact (min_le_right _ _).trans (by linarith)
    rw [hat]
    by_cases h02 : n = 3 ∧ (a, b) = (0, 2)
    · rw [if_pos h02]
      obtain ⟨rfl, rfl⟩ := Prod.mk.inj h02.2
      exact low _
    · rw [if_neg h02]
      by_cases h13 : n = 3 ∧ (a, b) = (1, 3)
      · rw [if_pos h13]
        obtain ⟨rfl, rfl⟩ := Prod.mk.inj h13.2
        exact low _
      · rw [if_neg h13]
        exact low _

/-- On the faces that contain the vertex or the edge. -/
theorem hat_face {A : List Nat} (hA : Node n A) {l : Nat → K} (h : Bary n l) {w : Nat} (hw : w < n + 1) (hwA : w ∉ A) (h0 : l w = 0) : hat n A l = trace (A.map l) := by
  rcases hA with ⟨a, -, rfl⟩ | ⟨a, -, b, -, -, rfl⟩
  · rfl
  · rw [hat]
    by_cases h02 : n = 3 ∧ (a, b) = (0, 2)
    · rw [if_pos h02]
      obtain ⟨rfl, h02⟩ := h02
      obtain ⟨rfl, rfl⟩ := Prod.mk.inj h02
      have hsum := h.sum
      simp only [Finset.sum_range_succ, Finset.sum_range_zero, zero_add] at hsum
      have n1 := h.nonneg 1 (by decide)
      have n3 := h.nonneg 3 (by decide)
      have : w = 1 ∨ w = 3 := by
        simp only [List.mem_cons, List.not_mem_nil, or_false] at hwA
        omega
      simp only [List.map, trace]
      congr 2
      rcases this with rfl | rfl
      · rw [min_eq_right (by linarith)]
        linarith
      · rw [min_eq_left (by linarith)]
        linarith
    · rw [if_neg h02]
      by_cases h13 : n = 3 ∧ (a, b) = (1, 3)
      · rw [if_pos h13]
        obtain ⟨rfl, h13⟩ := h13
        obtain ⟨rfl, rfl⟩ := Prod.mk.inj h13
        have hsum := h.sum
        simp only [Finset.sum_range_succ, Finset.sum_range_zero, zero_add] at hsum
        have n0 := h.nonneg 0 (by decide)
        have n2 := h.nonneg 2 (by decide)
        have : w = 0 ∨ w = 2 := by
          simp only [List.mem_cons, List.not_mem_nil, or_false] at hwA
          omega
        simp only [List.map, trace]
        congr 2
        rcases this with rfl | rfl
        · rw [min_eq_right (by linarith)]
          linarith
        · rw [min_eq_left (by linarith)]
          linarith
      · rw [if_neg h13]
        rfl

theorem traces (hn : Simplex n) {keys : List Key} (hm : Matches n (refinedLayout 1 n) keys) :
    Hierarchical.EntityTraces (simplex n) keys (shape (K := K) (n := n)) trace Inside := by
  intro key hkey c s F hc hc' hF x hx hz
  obtain ⟨hA, hk, -⟩ := keys_node hn hm hkey
  have lt := (subKey_table hn hk).2.1
  rw [shape_hat hn hA hx]
  constructor
  · intro hall
    have tab : ∀ n, n = 1 ∨ n = 2 ∨ n = 3 → ∀ c ≤ n, 1 ≤ c → ∀ F ∈ subVerts (refOf (simplex n)) c, ∃ w < n + 1, w ∉ F := by
      rintro n (rfl | rfl | rfl) <;> decide +kernel
    obtain ⟨w, hw, hwF⟩ := tab n hn.cases c hc' hc F (List.mem_of_getElem? hF)
    exact hat_face hA (bary_of hn hx) hw (fun h => hwF (hall w h)) (hz w hw hwF)
  · rintro ⟨v, hv, hvF⟩
    exact hat_out hA hv (le_of_eq (hz v (lt v hv) hvF))

/-- **C95.** The functions of the refined basis of order 1 are continuous. -/
theorem C95_continuous {G : LGrid E S α} (h : G.OK) (closed : Closed G) (hn : G.dim = n) (helem : ∀ e, G.elemGeo e = simplex G.dim) {keys : List Key}
    (hm : Matches G.dim (refinedLayout 1 G.dim) keys) (vec : Nat → K) : ContinuousIn G (n := n) (refinedValue G.toGridView keys vec) := by
  intro e x e' x' hx hx' hmeet
  have hs := Hierarchical.simplex_of h hn helem e
  have hm' : Matches n (refinedLayout 1 n) keys := by rw [← hn]; exact hm
  refine Hierarchical.entity_continuous h closed hn helem hm (fun key hkey => (keys_node hs hm' hkey).2.2) ?_ trace_perm vec hx hx' hmeet
  rw [hn]
  exact traces hs hm'

/-! ## Values in the nodes -/

/-- Barycentric coordinates of the barycentre of `A`. -/
def weight (A : List Nat) (v : Nat) : K := if v ∈ A then (A.length : K)⁻¹ else 0

omit [IsStrictOrderedRing K] in
theorem hat_congr {A : List Nat} (hA : Node n A) {l l' : Nat → K} (h : ∀ v < n + 1, l v = l' v) : hat n A l = hat n A l' := by
  rcases hA with ⟨a, ha, rfl⟩ | ⟨a, ha, b, hb, -, rfl⟩
  · rw [hat, hat, h a ha]
  · rw [hat, hat, h a ha, h b hb]
    by_cases hn : n = 3
    · subst hn
      rw [h 0 (by decide), h 1 (by decide), h 2 (by decide), h 3 (by decide)]
    · rw [if_neg (fun h => hn h.1), if_neg (fun h => hn h.1), if_neg (fun h => hn h.1), if_neg (fun h => hn h.1)]

theorem hat_weight {A B : List Nat} (hA : Node n A) (hB : Node n B) : hat n A (weight B) = if A = B then (1 : K) else 0 := by
  have out : ∀ v ∈ A, v ∉ B → hat n A (weight B) = (0 : K) := fun v hv hvB => hat_out hA hv (by rw [weight, if_neg hvB])
  by_cases hAB : A = B
  · subst hAB
    rw [if_pos rfl]
    rcases hA with ⟨a, ha, rfl⟩ | ⟨a, ha, b, hb, hab, rfl⟩
    · simp only [hat, weight, List.mem_singleton, if_true, List.length_singleton]
      norm_num
    · have wa : weight (K := K) [a, b] a = 1 / 2 := by simp [weight]
      have wb : weight (K := K) [a, b] b = 1 / 2 := by simp [weight]
      rw [hat, wa, wb]
      by_cases h02 : n = 3 ∧ (a, b) = (0, 2)
      · rw [if_pos h02]
        obtain ⟨rfl, rfl⟩ := Prod.mk.inj h02.2
        rw [wa, wb, show weight (K := K) [0, 2] 1 = 0 from rfl, show weight (K := K) [0, 2] 3 = 0 from rfl]
        norm_num
      · rw [if_neg h02]
        by_cases h13 : n = 3 ∧ (a, b) = (1, 3)
        · rw [if_pos h13]
          obtain ⟨rfl, rfl⟩ := Prod.mk.inj h13.2
          rw [wa, wb, show weight (K := K) [1, 3] 0 = 0 from rfl, show weight (K := K) [1, 3] 2 = 0 from rfl]
          norm_num
        · rw [if_neg h13]
          norm_num
  · rw [if_neg hAB]
    rcases hA with ⟨a, ha, rfl⟩ | ⟨a, ha, b, hb, hab, rfl⟩
    · rcases hB with ⟨c, hc, rfl⟩ | ⟨c, hc, d, hd, hcd, rfl⟩
      · exact out a (by simp) (by simpa using hAB)
      · rw [hat, max_eq_left]
        rw [weight]
        split
        · simp
        · simp
    · rcases hB with ⟨c, hc, rfl⟩ | ⟨c, hc, d, hd, hcd, rfl⟩
      · by_cases hac : a = c
        · exact out b (by simp) (by simp; omega)
        · exact out a (by simp) (by simpa using hac)
      · by_cases hac : a = c ∨ a = d
        · by_cases hbc : b = c ∨ b = d
          · exact absurd (by rw [show a = c by omega, show b = d by omega]) hAB
          · exact out b (by simp) (by simpa using hbc)
        · exact out a (by simp) (by simpa using hac)

theorem center_inside (hn : Simplex n) {key : Key} (hk : SubKey n key) : Inside (center K n (simplex n) key) := by
  intro v hv
  rw [bary_center hn hk hv]
  split
  · positivity
  · exact le_refl _

/-- Values of the shape functions in the nodes. -/
theorem shape_center (hn : Simplex n) {keys : List Key} (hm : Matches n (refinedLayout 1 n) keys) {key key' : Key} (hk : key ∈ keys) (hk' : key' ∈ keys) :
    shape key (center K n (simplex n) key') = if key = key' then 1 else 0 := by
  obtain ⟨hA, hs, h0⟩ := keys_node hn hm hk
  obtain ⟨hB, hs', h0'⟩ := keys_node hn hm hk'
  rw [shape_hat hn hA (center_inside hn hs'), hat_congr hA (l' := weight (keyVerts (simplex n) key')) (fun v hv => by rw [bary_center hn hs' hv, weight]), hat_weight hA hB]
  refine if_congr ⟨fun h => ?_, fun h => by rw [h]⟩ rfl rfl
  obtain ⟨h1, h2⟩ := Hierarchical.subKey_inj hn hs hs' fun v _ => by rw [h]
  cases key; cases key'
  simp_all

/-! ## Functions on an element -/

/-- A combination of the shape functions. -/
def combination (keys : List Key) (c : Key → K) (x : Vec K n) : K := (keys.map fun key => c key * shape key x).sum

theorem dual (hn : Simplex n) {keys : List Key} (hm : Matches n (refinedLayout 1 n) keys) (c : Key → K) {key : Key} (hk : key ∈ keys) :
    combination keys c (center K n (simplex n) key) = c key := by
  rw [combination, List.map_congr_left (g := fun key' => if key' = key then c key else 0)]
  · rw [← List.sum_toFinset _ hm.1, Finset.sum_ite_eq', if_pos (List.mem_toFinset.2 hk)]
  · intro key' hk'
    rw [shape_center hn hm hk' hk]
    split
    · rename_i h; rw [h, mul_one]
    · rw [mul_zero]

/-- The vertices and edges of the simplex. -/
def nodes (n : Nat) : List (List Nat) := if n = 1 then [[0], [1], [0, 1]] else if n = 2 then [[0], [1], [2], [0, 1], [0, 2], [1, 2]]
  else [[0], [1], [2], [3], [0, 1], [0, 2], [1, 2], [0, 3], [1, 3], [2, 3]]

theorem nodeKeys_verts (hn : Simplex n) : (nodeKeys n).map (keyVerts (simplex n)) = nodes n := by
  rcases hn.cases with rfl | rfl | rfl <;> decide +kernel

/-- The local coordinates in a part are barycentric coordinates for the vertices of the part: they have sum one, and give back the point. -/
theorem mu_sum (hn : Simplex n) {s : Nat} (hs : s < 2 ^ n) {l : Nat → K} (h : ∑ v ∈ Finset.range (n + 1), l v = 1) :
    ((nodes n).map fun A => mu n s A l).sum = 1 := by
  rcases hn.cases with rfl | rfl | rfl
  · simp only [Finset.sum_range_succ, Finset.sum_range_zero, zero_add] at h
    have : s < 2 := hs
    interval_cases s <;> simp (decide := true) only [nodes, mu, ↓reduceIte, List.map, List.sum_cons, List.sum_nil] <;> linear_combination 2 * h
  · simp only [Finset.sum_range_succ, Finset.sum_range_zero, zero_add] at h
    have : s < 4 := hs
    interval_cases s <;> simp (decide := true) only [nodes, mu, ↓reduceIte, List.map, List.sum_cons, List.sum_nil] <;>
      first | linear_combination 2 * h | linear_combination 4 * h
  · simp only [Finset.sum_range_succ, Finset.sum_range_zero, zero_add] at h
    have : s < 8 := hs
    interval_cases s <;> simp (decide := true) only [nodes, mu, ↓reduceIte, List.map, List.sum_cons, List.sum_nil] <;> linear_combination 2 * h

theorem mu_point (hn : Simplex n) {s : Nat} (hs : s < 2 ^ n) {l : Nat → K} (h : ∑ v ∈ Finset.range (n + 1), l v = 1) {v : Nat} (hv : v < n + 1) :
    ((nodes n).map fun A => weight A v * mu n s A l).sum = l v := by
  rcases hn.cases with rfl | rfl | rfl
  · simp only [Finset.sum_range_succ, Finset.sum_range_zero, zero_add] at h
    have : s < 2 := hs
    interval_cases s <;> interval_cases v <;>
      simp (decide := true) only [nodes, mu, weight, ↓reduceIte, List.map, List.sum_cons, List.sum_nil, List.length, Nat.cast_ofNat, zero_add, Nat.cast_one, Nat.reduceAdd] <;>
      first | linear_combination h | linear_combination 0 * h
  · simp only [Finset.sum_range_succ, Finset.sum_range_zero, zero_add] at h
    have : s < 4 := hs
    interval_cases s <;> interval_cases v <;>
      simp (decide := true) only [nodes, mu, weight, ↓reduceIte, List.map, List.sum_cons, List.sum_nil, List.length, Nat.cast_ofNat, zero_add, Nat.cast_one, Nat.reduceAdd] <;>
      first | linear_combination h | linear_combination 0 * h
  · simp only [Finset.sum_range_succ, Finset.sum_range_zero, zero_add] at h
    have : s < 8 := hs
    interval_cases s <;> interval_cases v <;>
      simp (decide := true) only [nodes, mu, weight, ↓reduceIte, List.map, List.sum_cons, List.sum_nil, List.length, Nat.cast_ofNat, zero_add, Nat.cast_one, Nat.reduceAdd] <;>
      first | linear_combination h | linear_combination 0 * h

/-- The function of a node vanishes on a part, or the node belongs to the part. -/
theorem mu_part (hn : Simplex n) {s : Nat} (hs : s < 2 ^ n) {A : List Nat} (hA : Node n A) : (∀ l : Nat → K, mu n s A l = 0) ∨ Part n s (weight (K := K) A) := by
  have half : ∀ a b v : Nat, weight (K := K) [a, b] v ≤ 1 / 2 := fun a b v => by
    rw [weight]
    split <;> simp
  by_cases hsn : s ≤ n
  · rw [Part, if_pos hsn]
    rcases hA with ⟨a, ha, rfl⟩ | ⟨a, ha, b, hb, hab, rfl⟩
    · by_cases has : a = s
      · subst has
        exact Or.inr (by rw [weight, if_pos (by simp)]; norm_num)
      · exact Or.inl fun l => by rw [mu, if_neg has]
    · by_cases has : a = s
      · subst has
        exact Or.inr (by rw [weight, if_pos (by simp)]; norm_num)
      · by_cases hbs : b = s
        · subst hbs
          exact Or.inr (by rw [weight, if_pos (by simp)]; norm_num)
        · exact Or.inl fun l => by rw [mu, if_pos hsn, if_neg has, if_neg hbs]
  · rcases hA with ⟨a, ha, rfl⟩ | ⟨a, ha, b, hb, hab, rfl⟩
    · exact Or.inl fun l => by rw [mu, if_neg (by omega)]
    · rcases hn.cases with rfl | rfl | rfl
      · omega
      · exact Or.inr (by rw [Part, if_neg hsn]; exact ⟨fun v _ => half a b v, fun h => absurd h (by decide)⟩)
      · have h12 : Part 3 s (weight (K := K) [a, b]) ↔ (if s = 4 ∨ s = 6 then weight (K := K) [a, b] 1 + weight [a, b] 2 ≤ 1 / 2 else 1 / 2 ≤ weight (K := K) [a, b] 1 + weight [a, b] 2) ∧
            (if s = 4 ∨ s = 5 then weight (K := K) [a, b] 2 + weight [a, b] 3 ≤ 1 / 2 else 1 / 2 ≤ weight (K := K) [a, b] 2 + weight [a, b] 3) := by
          rw [Part, if_neg hsn]
          exact ⟨fun h => h.2 rfl, fun h => ⟨fun v _ => half a b v, fun _ => h⟩⟩
        rw [h12]
        obtain ⟨z1, z2⟩ : (s = 4 ∨ s = 5 ∨ s = 6 ∨ s = 7) ∧ ((a, b) = (0, 1) ∨ (a, b) = (0, 2) ∨ (a, b) = (0, 3) ∨ (a, b) = (1, 2) ∨ (a, b) = (1, 3) ∨ (a, b) = (2, 3)) := by
          refine ⟨by have : s < 8 := hs; omega, ?_⟩
          simp only [Prod.mk.injEq]
          omega
        clear h12 half hs hsn ha hb hab
        rcases z2 with z | z | z | z | z | z <;> obtain ⟨rfl, rfl⟩ := Prod.mk.inj z <;> clear z <;> rcases z1 with rfl | rfl | rfl | rfl <;>
          first
          | (refine Or.inl fun l => ?_
             simp (decide := true) only [mu, ↓reduceIte]
             done)
          | (refine Or.inr ?_
             simp (decide := true) only [weight, ↓reduceIte, List.length]
             norm_num)

omit [IsStrictOrderedRing K] in
theorem part_congr {s : Nat} {l l' : Nat → K} (h : ∀ v < n + 1, l v = l' v) (hp : Part n s l) : Part n s l' := by
  unfold Part at hp ⊢
  by_cases hsn : s ≤ n
  · rw [if_pos hsn] at hp ⊢
    rw [← h s (by omega)]
    exact hp
  · rw [if_neg hsn] at hp ⊢
    refine ⟨fun v hv => by rw [← h v hv]; exact hp.1 v hv, ?_⟩
    rintro rfl
    rw [← h 1 (by decide), ← h 2 (by decide), ← h 3 (by decide)]
    exact hp.2 rfl

/-- Affine functions. -/
def Affine (g : Vec K n → K) : Prop := ∃ (a : K) (b : Fin n → K), ∀ x, g x = a + ∑ d, b d * x d

omit [LinearOrder K] [IsStrictOrderedRing K] in
theorem affine_const (c : K) : Affine fun _ : Vec K n => c := ⟨c, fun _ => 0, fun x => by simp⟩

omit [LinearOrder K] [IsStrictOrderedRing K] in
theorem Affine.add {g g' : Vec K n → K} (h : Affine g) (h' : Affine g') : Affine fun x => g x + g' x := by
  obtain ⟨a, b, h⟩ := h
  obtain ⟨a', b', h'⟩ := h'
  refine ⟨a + a', fun d => b d + b' d, fun x => ?_⟩
  simp only [h, h', add_mul, Finset.sum_add_distrib]
  ring

omit [LinearOrder K] [IsStrictOrderedRing K] in
theorem Affine.smul {g : Vec K n → K} (h : Affine g) (c : K) : Affine fun x => c * g x := by
  obtain ⟨a, b, h⟩ := h
  refine ⟨c * a, fun d => c * b d, fun x => ?_⟩
  simp only [h, mul_add, Finset.mul_sum, mul_assoc]

omit [LinearOrder K] [IsStrictOrderedRing K] in
theorem affine_bary (v : Nat) : Affine fun x : Vec K n => bary v x := by
  by_cases hv : v = 0
  · exact ⟨1, fun _ => -1, fun x => by simp [bary, hv, sub_eq_add_neg]⟩
  · exact ⟨0, fun d => if d.val + 1 = v then 1 else 0, fun x => by simp [bary, hv]⟩

omit [LinearOrder K] [IsStrictOrderedRing K] in
theorem affine_mu (s : Nat) {A : List Nat} (hA : Node n A) : Affine fun x : Vec K n => mu n s A fun v => bary v x := by
  have one : ∀ (p q : K) (v : Nat), Affine fun x : Vec K n => p + q * bary v x := fun p q v => (affine_const p).add ((affine_bary v).smul q)
  have two : ∀ (p q r : K) (v w : Nat), Affine fun x : Vec K n => p + q * bary v x + r * bary w x := fun p q r v w => (one p q v).add ((affine_bary w).smul r)
  have f1 : ∀ v, Affine fun x : Vec K n => 2 * bary v x - 1 := fun v => by
    have := one (-1) 2 v
    simp only [neg_add_eq_sub] at this
    exact this
  have f2 : ∀ v, Affine fun x : Vec K n => 1 - 2 * bary v x := fun v => by
    have := one 1 (-2) v
    simp only [neg_mul, ← sub_eq_add_neg] at this
    exact this
  have f3 : ∀ v w, Affine fun x : Vec K n => 2 * bary v x + 2 * bary w x - 1 := fun v w => by
    obtain ⟨a, b, h⟩ := two (-1) 2 2 v w
    exact ⟨a, b, fun x => by rw [← h]; ring⟩
  have f4 : ∀ v, Affine fun x : Vec K n => 2 * bary v x := fun v => (affine_bary v).smul 2
  rcases hA with ⟨a, ha, rfl⟩ | ⟨a, ha, b, hb, hab, rfl⟩
  · simp only [mu]
    split_ifs
    · exact f1 a
    · exact affine_const 0
  · simp only [mu]
    split_ifs <;> first | exact f1 _ | exact f2 _ | exact f3 _ _ | exact f4 _ | exact affine_const 0

/-- Combinations of the shape functions are affine on the parts. -/
theorem combination_affine (hn : Simplex n) {keys : List Key} (hm : Matches n (refinedLayout 1 n) keys) (c : Key → K) : PiecewiseAffine (n := n) (combination keys c) := by
  intro s hs
  have key : ∀ L : List Key, (∀ k ∈ L, k ∈ keys) → ∃ (a : K) (b : Fin n → K), ∀ x, Inside x → Part n s (fun v => bary v x) → combination L c x = a + ∑ d, b d * x d := by
    intro L
    induction L with
    | nil => exact fun _ => ⟨0, fun _ => 0, fun x _ _ => by simp [combination]⟩
    | cons k L ih =>
      intro hL
      obtain ⟨a, b, hab⟩ := ih fun k hk => hL k (List.mem_cons_of_mem _ hk)
      obtain ⟨hA, -, -⟩ := keys_node hn hm (hL k List.mem_cons_self)
      obtain ⟨a', b', hab'⟩ := Affine.add (⟨a, b, fun _ => rfl⟩ : Affine fun x : Vec K n => a + ∑ d, b d * x d) ((affine_mu (K := K) s hA).smul (c k))
      refine ⟨a', b', fun x hx hp => ?_⟩
      simp only at hab'
      rw [← hab', ← hab x hx hp, combination, List.map_cons, List.sum_cons, shape_hat hn hA hx, mu_hat hn hs hA (bary_of hn hx) hp, combination, add_comm]
  exact key keys fun _ h => h

omit [LinearOrder K] [IsStrictOrderedRing K] in
theorem sum_affine {ι : Type} (L : List ι) (a : K) (b : Fin n → K) (w : ι → Fin n → K) (m : ι → K) :
    (L.map fun A => (a + ∑ d, b d * w A d) * m A).sum = a * (L.map m).sum + ∑ d, b d * (L.map fun A => w A d * m A).sum := by
  induction L with
  | nil => simp
  | cons A L ih =>
    have : ∑ d, b d * (w A d * m A + (L.map fun A => w A d * m A).sum) = (∑ d, b d * w A d) * m A + ∑ d, b d * (L.map fun A => w A d * m A).sum := by
      rw [Finset.sum_mul, ← Finset.sum_add_distrib]
      exact Finset.sum_congr rfl fun d _ => by ring
    simp only [List.map_cons, List.sum_cons, ih, this]
    ring

/-- Functions that are affine on the parts are determined by their values in the nodes. -/
theorem represent (hn : Simplex n) {keys : List Key} (hm : Matches n (refinedLayout 1 n) keys) {f : Vec K n → K} (hf : PiecewiseAffine f) {x : Vec K n} (hx : Inside x) :
    f x = combination keys (fun key => f (center K n (simplex n) key)) x := by
  obtain ⟨hs, hp⟩ := select_part hn hx
  obtain ⟨a, b, hab⟩ := hf _ hs
  have hb := bary_of hn hx
  rw [combination, ((matches_perm hm (nodeKeys_matches hn)).map _).sum_eq,
    List.map_congr_left (g := (fun A => (a + ∑ d : Fin n, b d * weight A (d.val + 1)) * mu n (select n x) A fun v => bary v x) ∘ keyVerts (simplex n)), ← List.map_map, nodeKeys_verts hn]
  · have := sum_affine (nodes n) a b (fun A d => weight A (d.val + 1)) fun A => mu n (select n x) A fun v => bary v x
    rw [this, mu_sum hn hs hb.sum, hab x hx hp, mul_one]
    congr 1
    refine Finset.sum_congr rfl fun d _ => ?_
    rw [mu_point hn hs hb.sum (by omega), (bary_coordinate hn x).1 d.1 d.2, coordinate, dif_pos d.2]
  · intro key hkey
    obtain ⟨hA, hk, -⟩ := nodeKeys_node hn hkey
    rw [Function.comp_apply, shape]
    rcases mu_part (K := K) hn hs hA with h0 | h0
    · rw [h0, mul_zero, mul_zero]
    · congr 1
      refine hab _ (center_inside hn hk) ?_
      exact part_congr (fun v hv => (bary_center hn hk hv).symm) h0

/-! ## Functions on the grid -/

omit [IsStrictOrderedRing K] in
theorem refinedValue_combination (G : GridView E S) (keys : List Key) (vec : Nat → K) (e : E) (x : Vec K n) :
    refinedValue G keys vec e x = combination keys (fun key => vec (mapperIndex G (refinedLayout 1 G.dim) (G.sub e key.codim key.sub) + key.index)) x := by
  rw [refinedValue, Hierarchical.value_sum, combination]
  exact Fin.sum_univ_fun_getElem keys fun key => vec (mapperIndex G (refinedLayout 1 G.dim) (G.sub e key.codim key.sub) + key.index) * shape key x

/-- The value in a node is the same on all elements. -/
theorem node_same {G : LGrid E S α} (h : G.OK) (hn : G.dim = n) (helem : ∀ e, G.elemGeo e = simplex G.dim) {keys : List Key} (hm : Matches n (refinedLayout 1 n) keys)
    {f : E → Vec K n → K} (hf : ContinuousIn G f) {e e' : E} {key key' : Key} (hkey : key ∈ keys) (hkey' : key' ∈ keys)
    (hsub : G.sub e key.codim key.sub = G.sub e' key'.codim key'.sub) : f e (center K n (simplex n) key) = f e' (center K n (simplex n) key') := by
  have hs := Hierarchical.simplex_of h hn helem e
  have he : ∀ e, G.elemGeo e = simplex n := fun e => by rw [helem, hn]
  obtain ⟨-, s1, s2⟩ := keys_node hs hm hkey
  obtain ⟨-, s1', s2'⟩ := keys_node hs hm hkey'
  have hcodim : key.codim = key'.codim := by
    have d1 := subGeo_dim h (e := e) (by rw [he]; exact s1.2)
    have d2 := subGeo_dim h (e := e') (by rw [he]; exact s1'.2)
    rw [hsub] at d1
    have := s1.1
    have := s1'.1
    omega
  by_cases h0 : key.codim = 0
  · obtain rfl := Hierarchical.top_key hs s1 s2 h0
    obtain rfl := Hierarchical.top_key hs s1' s2' (by rw [← hcodim])
    obtain rfl := h.elemInj e e' hsub
    rfl
  · have lens : (keyVerts (simplex n) key).length = (keyVerts (simplex n) key').length := by
      rw [(subKey_table hs s1).2.2, (subKey_table hs s1').2.2, hcodim]
    have hids := verts_perm h (k := key) (k' := key') (e := e) (e' := e') (by rw [hn]; exact s1.1) (by rw [hn]; exact s1'.1) (by rw [he]; exact s1.2) (by rw [he]; exact s1'.2) hsub
    rw [he, he] at hids
    have inj : ∀ e, ∀ v < n + 1, ∀ v' < n + 1, G.ids e v = G.ids e v' → v = v' := fun e v hv v' hv' hid =>
      h.idsInj e v v' (by rw [he]; exact hv) (by rw [he]; exact hv') hid
    refine hf _ _ _ _ (center_inside hs s1) (center_inside hs s1')
      (Hierarchical.meets_center h hn helem s1 s1' (by omega) hsub s1 s1' (fun _ h => h) (fun _ h => h) lens ?_)
    intro v hv v' hv' hid
    constructor
    · intro hmem
      obtain ⟨w, hw, hw'⟩ := List.mem_map.1 (hids.mem_iff.1 (List.mem_map_of_mem hmem))
      rw [← inj e' w ((subKey_table hs s1').2.1 w hw) v' hv' (by rw [hw', hid])]
      exact hw
    · intro hmem
      obtain ⟨w, hw, hw'⟩ := List.mem_map.1 (hids.mem_iff.2 (List.mem_map_of_mem hmem))
      rw [← inj e w ((subKey_table hs s1).2.1 w hw) v hv (by rw [hw', hid])]
      exact hw

/-- **C95.** The functions of the refined basis of order 1 are exactly the continuous functions that are affine on the parts of all elements. -/
theorem C95_space {G : LGrid E S α} (h : G.OK) (closed : Closed G) (hn : G.dim = n) (helem : ∀ e, G.elemGeo e = simplex G.dim) {keys : List Key}
    (hm : Matches G.dim (refinedLayout 1 G.dim) keys) (f : E → Vec K n → K) :
    (ContinuousIn G f ∧ ∀ e, PiecewiseAffine (f e)) ↔ ∃ vec : Nat → K, ∀ e x, Inside x → f e x = refinedValue G.toGridView keys vec e x := by
  have hm' : Matches n (refinedLayout 1 n) keys := by rw [← hn]; exact hm
  constructor
  · rintro ⟨hf, hspace⟩
    have hex : ∀ i : Nat, ∃ y : K, ∀ e key, key ∈ keys → mapperIndex G.toGridView (refinedLayout 1 G.dim) (G.sub e key.codim key.sub) + key.index = i →
        f e (center K n (simplex n) key) = y := by
      intro i
      by_cases hi : ∃ e key, key ∈ keys ∧ mapperIndex G.toGridView (refinedLayout 1 G.dim) (G.sub e key.codim key.sub) + key.index = i
      · obtain ⟨e, key, hkey, hi⟩ := hi
        refine ⟨f e (center K n (simplex n) key), fun e' key' hkey' hi' => node_same h hn helem hm' hf hkey' hkey ?_⟩
        obtain ⟨l, hl⟩ := List.mem_iff_getElem?.1 hkey
        obtain ⟨l', hl'⟩ := List.mem_iff_getElem?.1 hkey'
        refine ((mapperLeaf_same h.base (Hierarchical.keysOK h helem hm) e' e l' l key' key hl' hl).1 ?_).1
        simp [mapperLeaf, hl, hl', hi, hi']
      · exact ⟨0, fun e key hkey h => absurd ⟨e, key, hkey, h⟩ hi⟩
    choose vec hvec using hex
    refine ⟨vec, fun e x hx => ?_⟩
    rw [refinedValue_combination, represent (Hierarchical.simplex_of h hn helem e) hm' (hspace e) hx, combination, combination]
    congr 1
    refine List.map_congr_left fun key hkey => ?_
    rw [hvec _ e key hkey rfl]
  · rintro ⟨vec, hvec⟩
    refine ⟨fun e x e' x' hx hx' hmeet => ?_, fun e s hs => ?_⟩
    · rw [hvec e x hx, hvec e' x' hx']
      exact C95_continuous h closed hn helem hm vec e x e' x' hx hx' hmeet
    · obtain ⟨a, b, hab⟩ := combination_affine (Hierarchical.simplex_of h hn helem e) hm'
        (fun key => vec (mapperIndex G.toGridView (refinedLayout 1 G.dim) (G.sub e key.codim key.sub) + key.index)) s hs
      exact ⟨a, b, fun x hx hp => by rw [hvec e x hx, refinedValue_combination, hab x hx hp]⟩

/-- **C95.** Continuous functions that are affine on every element belong to the refined space. -/
theorem C95_contains {G : LGrid E S α} (h : G.OK) (closed : Closed G) (hn : G.dim = n) (helem : ∀ e, G.elemGeo e = simplex G.dim) {keys : List Key}
    (hm : Matches G.dim (refinedLayout 1 G.dim) keys) (a : E → K) (b : E → Fin n → K) (hf : ContinuousIn G fun e (x : Vec K n) => a e + ∑ d, b e d * x d) :
    ∃ vec : Nat → K, ∀ e x, Inside x → a e + ∑ d, b e d * x d = refinedValue G.toGridView keys vec e x :=
  (C95_space h closed hn helem hm fun e x => a e + ∑ d, b e d * x d).1 ⟨hf, fun e _ _ => ⟨a e, b e, fun _ _ _ => rfl⟩⟩

/-- **C95.** The coefficients are the values in the vertices and in the midpoints of the edges. -/
theorem C95_nodal {G : LGrid E S α} (h : G.OK) (hn : G.dim = n) (helem : ∀ e, G.elemGeo e = simplex G.dim) {keys : List Key} (hm : Matches G.dim (refinedLayout 1 G.dim) keys)
    (vec : Nat → K) (e : E) {key : Key} (hkey : key ∈ keys) :
    refinedValue G.toGridView keys vec e (center K n (simplex n) key) = vec (mapperIndex G.toGridView (refinedLayout 1 G.dim) (G.sub e key.codim key.sub) + key.index) := by
  rw [refinedValue_combination, dual (Hierarchical.simplex_of h hn helem e) (by rw [← hn]; exact hm) _ hkey]

/-- **C95.** The coefficients are determined by the function. -/
theorem C95_unique {G : LGrid E S α} (h : G.OK) (hn : G.dim = n) (helem : ∀ e, G.elemGeo e = simplex G.dim) {keys : List Key} (hm : Matches G.dim (refinedLayout 1 G.dim) keys)
    (vec vec' : Nat → K) (heq : ∀ e (x : Vec K n), Inside x → refinedValue G.toGridView keys vec e x = refinedValue G.toGridView keys vec' e x) :
    ∀ i < (mapperLeaf G.toGridView (refinedLayout 1 G.dim) fun _ => keys).dim, vec i = vec' i := by
  intro i hi
  obtain ⟨e, -, he⟩ := mapperLeaf_Covered h.base (Hierarchical.keysFull h helem hm) i hi
  obtain ⟨key, hkey, rfl⟩ := List.mem_map.1 he
  have hs := Hierarchical.simplex_of h hn helem e
  rw [← C95_nodal h hn helem hm vec e hkey, ← C95_nodal h hn helem hm vec' e hkey]
  exact heq e _ (center_inside hs (keys_node hs (by rw [← hn]; exact hm) hkey).2.1)

/-- **C95.** `interpolate` finds the coefficients of every function of the space, and leaves other entries unchanged. -/
theorem C95_interpolate {G : LGrid E S α} (h : G.OK) (hn : G.dim = n) (helem : ∀ e, G.elemGeo e = simplex G.dim) {keys : List Key}
    (hm : Matches G.dim (refinedLayout 1 G.dim) keys) {f : E → Vec ℝ n → ℝ} (hf : ContinuousIn G f) (hspace : ∀ e, PiecewiseAffine (f e)) (vec : Nat → ℝ) (es : List E) :
    ∃ r, FE.Interpolation.interpolateAll ((mapperLeaf G.toGridView (refinedLayout 1 G.dim) fun _ => keys).loc)
        (fun _ e => some (keys.map fun key => f e (center ℝ n (simplex n) key))) vec es = some r ∧
      (∀ e ∈ es, ∀ x, Inside x → refinedValue G.toGridView keys r e x = f e x) ∧
      ∀ i, (∀ e ∈ es, i ∉ (mapperLeaf G.toGridView (refinedLayout 1 G.dim) fun _ => keys).loc e) → r i = vec i := by
  have hm' : Matches n (refinedLayout 1 n) keys := by rw [← hn]; exact hm
  obtain ⟨r, h1, h2, h3⟩ := FE.Interpolation.interpolateAll_spec (loc := (mapperLeaf G.toGridView (refinedLayout 1 G.dim) fun _ => keys).loc)
    (coefs := fun _ e => some (keys.map fun key => f e (center ℝ n (simplex n) key))) (c := fun e => keys.map fun key => f e (center ℝ n (simplex n) key))
    (fun _ _ => rfl) (fun e => by simp [mapperLeaf]) (by
      intro e e' l l' i x x' hl hl' hx hx'
      rw [List.getElem?_map, Option.map_eq_some_iff] at hx hx'
      obtain ⟨key, hkey, rfl⟩ := hx
      obtain ⟨key', hkey', rfl⟩ := hx'
      refine node_same h hn helem hm' hf (List.mem_of_getElem? hkey) (List.mem_of_getElem? hkey') ?_
      exact ((mapperLeaf_same h.base (Hierarchical.keysOK h helem hm) e e' l l' key key' hkey hkey').1 (by rw [hl, hl'])).1) vec es
  refine ⟨r, h1, fun e he x hx => ?_, h3⟩
  rw [refinedValue_combination, represent (Hierarchical.simplex_of h hn helem e) hm' (hspace e) hx, combination, combination]
  congr 1
  refine List.map_congr_left fun key hkey => ?_
  obtain ⟨l, hl⟩ := List.mem_iff_getElem?.1 hkey
  rw [h2 e he l (mapperIndex G.toGridView (refinedLayout 1 G.dim) (G.sub e key.codim key.sub) + key.index) (f e (center ℝ n (simplex n) key)) (by simp [mapperLeaf, hl])
    (by rw [List.getElem?_map, hl]; rfl)]

/-- **C95.** Interpolation of a discrete function restores its coefficients. -/
theorem C95_roundTrip {G : LGrid E S α} (h : G.OK) (closed : Closed G) (hn : G.dim = n) (helem : ∀ e, G.elemGeo e = simplex G.dim) {keys : List Key}
    (hm : Matches G.dim (refinedLayout 1 G.dim) keys) (coef vec : Nat → ℝ) (es : List E) (hall : ∀ e, e ∈ es) :
    ∃ r, FE.Interpolation.interpolateAll ((mapperLeaf G.toGridView (refinedLayout 1 G.dim) fun _ => keys).loc)
        (fun _ e => some (keys.map fun key => refinedValue (n := n) G.toGridView keys coef e (center ℝ n (simplex n) key))) vec es = some r ∧
      ∀ i < (mapperLeaf G.toGridView (refinedLayout 1 G.dim) fun _ => keys).dim, r i = coef i := by
  obtain ⟨hc, hsp⟩ := (C95_space h closed hn helem hm (refinedValue (n := n) G.toGridView keys coef)).2 ⟨coef, fun _ _ _ => rfl⟩
  obtain ⟨r, h1, h2, -⟩ := C95_interpolate h hn helem hm hc hsp vec es
  exact ⟨r, h1, C95_unique h hn helem hm r coef fun e x hx => h2 e (hall e) x hx⟩

/-! ## Order zero -/

/-- The parts do not overlap. -/
theorem part_unique (hn : Simplex n) {s s' : Nat} (hs : s < 2 ^ n) (hs' : s' < 2 ^ n) {l : Nat → K} (h : Bary n l) (ho : OpenPart n s l) (hp : Part n s' l) : s = s' := by
  unfold OpenPart at ho
  unfold Part at hp
  by_contra hne
  by_cases h1 : s ≤ n
  · rw [if_pos h1] at ho
    by_cases h2 : s' ≤ n
    · rw [if_pos h2] at hp
      linarith [h.two (a := s) (b := s') (by omega) (by omega) hne]
    · rw [if_neg h2] at hp
      linarith [hp.1 s (by omega)]
  · rw [if_neg h1] at ho
    by_cases h2 : s' ≤ n
    · rw [if_pos h2] at hp
      linarith [ho.1 s' (by omega)]
    · rw [if_neg h2] at hp
      rcases hn.cases with rfl | rfl | rfl
      · omega
      · omega
      · obtain ⟨o1, o2⟩ := ho.2 rfl
        obtain ⟨p1, p2⟩ := hp.2 rfl
        have : s < 8 := hs
        have : s' < 8 := hs'
        have e1 : (s = 4 ∨ s = 6) ↔ (s' = 4 ∨ s' = 6) := by
          by_cases c : s = 4 ∨ s = 6 <;> by_cases c' : s' = 4 ∨ s' = 6
          · exact ⟨fun _ => c', fun _ => c⟩
          · rw [if_pos c] at o1
            rw [if_neg c'] at p1
            linarith
          · rw [if_neg c] at o1
            rw [if_pos c'] at p1
            linarith
          · exact ⟨fun h => absurd h c, fun h => absurd h c'⟩
        have e2 : (s = 4 ∨ s = 5) ↔ (s' = 4 ∨ s' = 5) := by
          by_cases c : s = 4 ∨ s = 5 <;> by_cases c' : s' = 4 ∨ s' = 5
          · exact ⟨fun _ => c', fun _ => c⟩
          · rw [if_pos c] at o2
            rw [if_neg c'] at p2
            linarith
          · rw [if_neg c] at o2
            rw [if_pos c'] at p2
            linarith
          · exact ⟨fun h => absurd h c, fun h => absurd h c'⟩
        omega

theorem select_open (hn : Simplex n) {s : Nat} (hs : s < 2 ^ n) {x : Vec K n} (hx : Inside x) (ho : OpenPart n s fun v => bary v x) : select n x = s :=
  (part_unique hn hs (select_part hn hx).1 (bary_of hn hx) ho (select_part hn hx).2).symm

theorem constantKeys_matches (hn : Simplex n) : Matches n (refinedLayout 0 n) (constantKeys n) := by
  rcases hn.cases with rfl | rfl | rfl <;> decide +kernel

omit [IsStrictOrderedRing K] in
theorem constantValue_select (G : GridView E S) (vec : Nat → K) (e : E) {x : Vec K n} (hs : select n x < 2 ^ G.dim) :
    constantValue G vec e x = vec (mapperIndex G (refinedLayout 0 G.dim) (G.sub e 0 0) + select n x) := by
  rw [constantValue, Hierarchical.value_sum G _ _ fun key x => if key.index = select n x then 1 else 0]
  refine (Fin.sum_univ_fun_getElem (constantKeys G.dim) fun key =>
    vec (mapperIndex G (refinedLayout 0 G.dim) (G.sub e key.codim key.sub) + key.index) * if key.index = select n x then 1 else 0).trans ?_
  rw [constantKeys, List.map_map, ← List.sum_toFinset _ List.nodup_range, List.toFinset_range]
  simp only [Function.comp_apply, mul_ite, mul_one, mul_zero]
  rw [Finset.sum_ite_eq', if_pos (Finset.mem_range.2 hs)]

/-- **C95.** The functions of the refined basis of order 0 are exactly the functions that are constant in the interior of the parts of all elements. -/
theorem C95_constant {G : LGrid E S α} (h : G.OK) (hn : G.dim = n) (helem : ∀ e, G.elemGeo e = simplex G.dim) (f : E → Vec K n → K) :
    (∀ e, PiecewiseConstant (f e)) ↔
      ∃ vec : Nat → K, ∀ e, ∀ s < 2 ^ n, ∀ x, Inside x → OpenPart n s (fun v => bary v x) → f e x = constantValue G.toGridView vec e x := by
  constructor
  · intro hf
    have hex : ∀ i : Nat, ∃ y : K, ∀ e, ∀ s < 2 ^ n, mapperIndex G.toGridView (refinedLayout 0 G.dim) (G.sub e 0 0) + s = i →
        ∀ x, Inside x → OpenPart n s (fun v => bary v x) → f e x = y := by
      intro i
      by_cases hi : ∃ e, ∃ s < 2 ^ n, mapperIndex G.toGridView (refinedLayout 0 G.dim) (G.sub e 0 0) + s = i
      · obtain ⟨e, s, hs, hi⟩ := hi
        obtain ⟨c, hc⟩ := hf e s hs
        refine ⟨c, fun e' s' hs' hi' => ?_⟩
        have hsx := Hierarchical.simplex_of h hn helem e
        have hget : ∀ s < 2 ^ n, (constantKeys G.dim)[s]? = some ⟨0, 0, s⟩ := fun s hs => by simp [constantKeys, hn, hs]
        have hidx : ∀ e s, s < 2 ^ n → ((mapperLeaf G.toGridView (refinedLayout 0 G.dim) fun _ => constantKeys G.dim).loc e)[s]? =
            some (mapperIndex G.toGridView (refinedLayout 0 G.dim) (G.sub e 0 0) + s) := fun e s hs => by simp [mapperLeaf, hget s hs]
        obtain ⟨g1, g2⟩ := (mapperLeaf_same h.base (Hierarchical.keysOK h helem (lay := refinedLayout 0 G.dim) (by rw [hn]; exact constantKeys_matches hsx)) e' e s' s _ _
          (hget s' hs') (hget s hs)).1
          (by rw [hidx e' s' hs', hidx e s hs, hi, hi'])
        obtain rfl := h.elemInj e' e g1
        simp only at g2
        subst g2
        exact hc
      · exact ⟨0, fun e s hs h => absurd ⟨e, s, hs, h⟩ hi⟩
    choose vec hvec using hex
    refine ⟨vec, fun e s hs x hx ho => ?_⟩
    have hsel := select_open (Hierarchical.simplex_of h hn helem e) hs hx ho
    rw [constantValue_select _ _ _ (by rw [hsel, hn]; exact hs), hsel]
    exact hvec _ e s hs rfl x hx ho
  · rintro ⟨vec, hvec⟩ e s hs
    refine ⟨vec (mapperIndex G.toGridView (refinedLayout 0 G.dim) (G.sub e 0 0) + s), fun x hx ho => ?_⟩
    have hsel := select_open (Hierarchical.simplex_of h hn helem e) hs hx ho
    rw [hvec e s hs x hx ho, constantValue_select _ _ _ (by rw [hsel, hn]; exact hs), hsel]

/-- A point in the interior of a part. -/
def innerPoint (n s : Nat) : Vec K n := fun d =>
  if s ≤ n then (if s = d.val + 1 then 3 / 4 else 1 / 16)
  else if n = 2 then 1 / 3
  else if s = 4 then (if d.val = 1 then 3 / 20 else if d.val = 0 then 1 / 4 else 3 / 10)
  else if s = 5 then (if d.val = 0 then 3 / 10 else if d.val = 1 then 1 / 4 else 1 / 5)
  else if s = 6 then (if d.val = 0 then 1 / 5 else if d.val = 1 then 1 / 4 else 3 / 10)
  else (if d.val = 1 then 3 / 10 else 1 / 4)

theorem innerPoint_open (hn : Simplex n) {s : Nat} (hs : s < 2 ^ n) : Inside (innerPoint (K := K) n s) ∧ OpenPart n s fun v => bary v (innerPoint (K := K) n s) := by
  obtain ⟨h1, h2⟩ := bary_coordinate (K := K) hn (innerPoint n s)
  rcases hn.cases with rfl | rfl | rfl
  · have e1 := h1 0 (by decide)
    simp only [Finset.sum_range_succ, Finset.sum_range_zero, zero_add] at h2 e1
    have : s < 2 := hs
    interval_cases s <;> simp (decide := true) only [coordinate, innerPoint, ↓reduceIte, ↓reduceDIte] at h2 e1 <;> refine ⟨?_, ?_⟩
    all_goals first
      | (intro v hv; interval_cases v <;> simp only [h2, e1] <;> norm_num)
      | (simp (decide := true) only [OpenPart, ↓reduceIte, h2, e1]; norm_num)
  · have e1 := h1 0 (by decide)
    have e2 := h1 1 (by decide)
    simp only [Finset.sum_range_succ, Finset.sum_range_zero, zero_add, Nat.reduceAdd] at h2 e1 e2
    have : s < 4 := hs
    interval_cases s <;> simp (decide := true) only [coordinate, innerPoint, ↓reduceIte, ↓reduceDIte] at h2 e1 e2 <;> refine ⟨?_, ?_⟩
    all_goals first
      | (intro v hv; interval_cases v <;> simp only [h2, e1, e2] <;> norm_num)
      | (simp (decide := true) only [OpenPart, ↓reduceIte, h2, e1, e2]; norm_num; done)
      | (rw [OpenPart, if_neg (by decide)]; refine ⟨fun v hv => ?_, fun h => absurd h (by decide)⟩; interval_cases v <;> simp only [h2, e1, e2] <;> norm_num)
  · have e1 := h1 0 (by decide)
    have e2 := h1 1 (by decide)
    have e3 := h1 2 (by decide)
    simp only [Finset.sum_range_succ, Finset.sum_range_zero, zero_add, Nat.reduceAdd] at h2 e1 e2 e3
    have : s < 8 := hs
    interval_cases s <;> simp (decide := true) only [coordinate, innerPoint, ↓reduceIte, ↓reduceDIte] at h2 e1 e2 e3 <;> refine ⟨?_, ?_⟩
    all_goals first
      | (intro v hv; interval_cases v <;> simp only [h2, e1, e2, e3] <;> norm_num)
      | (simp (decide := true) only [OpenPart, ↓reduceIte, h2, e1, e2, e3]; norm_num; done)
      | (rw [OpenPart, if_neg (by decide)]
         refine ⟨fun v hv => by interval_cases v <;> simp only [h2, e1, e2, e3] <;> norm_num, fun _ => ?_⟩
         simp (decide := true) only [↓reduceIte, e1, e2, e3]
         norm_num)

/-- **C95.** The coefficients of the functions of order 0 are determined by the function. -/
theorem C95_constant_unique {G : LGrid E S α} (h : G.OK) (hn : G.dim = n) (helem : ∀ e, G.elemGeo e = simplex G.dim) (vec vec' : Nat → K)
    (heq : ∀ e, ∀ s < 2 ^ n, ∀ x : Vec K n, Inside x → OpenPart n s (fun v => bary v x) → constantValue G.toGridView vec e x = constantValue G.toGridView vec' e x) :
    ∀ i < (mapperLeaf G.toGridView (refinedLayout 0 G.dim) fun _ => constantKeys G.dim).dim, vec i = vec' i := by
  intro i hi
  obtain ⟨e, -, he⟩ := mapperLeaf_Covered h.base
    (fun e => Hierarchical.keysFull h helem (lay := refinedLayout 0 G.dim) (by rw [hn]; exact constantKeys_matches (Hierarchical.simplex_of h hn helem e)) e) i hi
  have hs := Hierarchical.simplex_of h hn helem e
  obtain ⟨key, hkey, rfl⟩ := List.mem_map.1 he
  obtain ⟨s, hsr, rfl⟩ := List.mem_map.1 hkey
  rw [List.mem_range, hn] at hsr
  obtain ⟨i1, i2⟩ := innerPoint_open (K := K) hs hsr
  have := heq e s hsr _ i1 i2
  rw [constantValue_select _ _ _ (by rw [select_open hs hsr i1 i2, hn]; exact hsr), constantValue_select _ _ _ (by rw [select_open hs hsr i1 i2, hn]; exact hsr),
    select_open hs hsr i1 i2] at this
  exact this

/-- **C95.** `interpolate` with order 0: the values in one point of every part give the function of the space, and other entries are left unchanged. -/
theorem C95_constant_interpolate {G : LGrid E S α} (h : G.OK) (hn : G.dim = n) (helem : ∀ e, G.elemGeo e = simplex G.dim) {f : E → Vec ℝ n → ℝ} (hf : ∀ e, PiecewiseConstant (f e))
    (point : Nat → Vec ℝ n) (hpoint : ∀ s < 2 ^ n, Inside (point s) ∧ OpenPart n s fun v => bary v (point s)) (vec : Nat → ℝ) (es : List E) :
    ∃ r, FE.Interpolation.interpolateAll ((mapperLeaf G.toGridView (refinedLayout 0 G.dim) fun _ => constantKeys G.dim).loc)
        (fun _ e => some ((constantKeys G.dim).map fun key => f e (point key.index))) vec es = some r ∧
      (∀ e ∈ es, ∀ s < 2 ^ n, ∀ x, Inside x → OpenPart n s (fun v => bary v x) → constantValue G.toGridView r e x = f e x) ∧
      ∀ i, (∀ e ∈ es, i ∉ (mapperLeaf G.toGridView (refinedLayout 0 G.dim) fun _ => constantKeys G.dim).loc e) → r i = vec i := by
  obtain ⟨r, h1, h2, h3⟩ := FE.Interpolation.interpolateAll_spec (loc := (mapperLeaf G.toGridView (refinedLayout 0 G.dim) fun _ => constantKeys G.dim).loc)
    (coefs := fun _ e => some ((constantKeys G.dim).map fun key => f e (point key.index))) (c := fun e => (constantKeys G.dim).map fun key => f e (point key.index))
    (fun _ _ => rfl) (fun e => by simp [mapperLeaf]) (by
      intro e e' l l' i x x' hl hl' hx hx'
      rw [List.getElem?_map, Option.map_eq_some_iff] at hx hx'
      obtain ⟨key, hkey, rfl⟩ := hx
      obtain ⟨key', hkey', rfl⟩ := hx'
      obtain ⟨g1, g2⟩ := (mapperLeaf_same h.base (Hierarchical.keysOK h helem (lay := refinedLayout 0 G.dim)
        (by rw [hn]; exact constantKeys_matches (Hierarchical.simplex_of h hn helem e))) e e' l l' key key' hkey hkey').1 (by rw [hl, hl'])
      have zero : ∀ key ∈ constantKeys G.dim, key.codim = 0 ∧ key.sub = 0 := fun key hk => by
        obtain ⟨s, -, rfl⟩ := List.mem_map.1 hk
        exact ⟨rfl, rfl⟩
      obtain ⟨z1, z2⟩ := zero key (List.mem_of_getElem? hkey)
      obtain ⟨z1', z2'⟩ := zero key' (List.mem_of_getElem? hkey')
      rw [z1, z2, z1', z2'] at g1
      rw [h.elemInj e e' g1, g2]) vec es
  refine ⟨r, h1, fun e he s hs x hx ho => ?_, h3⟩
  have hsel := select_open (Hierarchical.simplex_of h hn helem e) hs hx ho
  obtain ⟨c, hc⟩ := hf e s hs
  rw [constantValue_select _ _ _ (by rw [hsel, hn]; exact hs), hsel, hc x hx ho, ← hc _ (hpoint s hs).1 (hpoint s hs).2]
  refine h2 e he s _ _ ?_ ?_
  · simp [mapperLeaf, constantKeys, hn, hs]
  · simp [constantKeys, hn, hs]

/-! ## Examples -/

/-- Local keys of `RefinedP1LocalFiniteElement` on triangles. -/
def triangleKeys : List Key := [⟨0, 2, 0⟩, ⟨0, 1, 0⟩, ⟨1, 2, 0⟩, ⟨1, 1, 0⟩, ⟨2, 1, 0⟩, ⟨2, 2, 0⟩]

theorem triangleKeys_matches : Matches 2 (refinedLayout 1 2) triangleKeys := by decide

/-- Two triangles with the common edge 20, 40, which they see in opposite directions: the functions agree on it, for all coefficients. -/
example (vec : Nat → ℚ) (y : ℚ) (h0 : 0 ≤ y) (h1 : y ≤ 1) : refinedValue demoGrid.toGridView triangleKeys vec 0 (![1 - y, y] : Vec ℚ 2) =
    refinedValue demoGrid.toGridView triangleKeys vec 1 ![y, 1 - y] := by
  have inside : ∀ z : ℚ, 0 ≤ z → z ≤ 1 → Inside (![1 - z, z] : Vec ℚ 2) := by
    intro z hz hz' v hv
    interval_cases v <;> simp [bary, hz, hz']
  refine C95_continuous (n := 2) demoGrid_OK Hierarchical.demoGrid_closed rfl (fun _ => rfl) triangleKeys_matches vec 0 _ 1 _ (inside y h0 h1) ?_
    ⟨1, 2, 1, 2, by decide, by decide, by decide, by decide, by decide, by decide, ?_, ?_, ?_⟩
  · have := inside (1 - y) (by linarith) (by linarith)
    rwa [sub_sub_cancel] at this
  · have : ∀ v < 3, v ∉ keyVerts ⟨2, 3⟩ ⟨2, 1, 0⟩ → v = 0 := by decide
    intro v hv hvF
    obtain rfl := this v hv hvF
    simp [vertexWeight, demoGrid, bary]
  · have : ∀ v < 3, v ∉ keyVerts ⟨2, 3⟩ ⟨2, 1, 0⟩ → v = 0 := by decide
    intro v hv hvF
    obtain rfl := this v hv hvF
    simp [vertexWeight, demoGrid, bary]
  · have : ∀ v < 3, ∀ v' < 3, demoGrid.ids 0 v = demoGrid.ids 1 v' → v = 1 ∧ v' = 2 ∨ v = 2 ∧ v' = 1 := by decide
    intro v hv v' hv' hid
    rcases this v hv v' hv' hid with ⟨rfl, rfl⟩ | ⟨rfl, rfl⟩ <;> simp [vertexWeight, demoGrid, bary]

/-- Values in the triangle in the middle, in one with a vertex, and with order 0. -/
example : refinedValue demoGrid.toGridView triangleKeys (fun i => (i * i : ℚ)) 0 (![1 / 3, 1 / 4] : Vec ℚ 2) = 67 / 3 ∧
    refinedValue demoGrid.toGridView triangleKeys (fun i => (i * i : ℚ)) 0 (![2 / 3, 1 / 4] : Vec ℚ 2) = 21 ∧
    constantValue demoGrid.toGridView (fun i => (i : ℚ)) 1 (![1 / 3, 1 / 4] : Vec ℚ 2) = 7 := by decide +kernel

/-- The functions of the vertex 0 are not polynomials: they vanish on three of the four parts. -/
example : (shape ⟨0, 2, 0⟩ (![0, 0] : Vec ℚ 2) = 1) ∧ ∀ x : Vec ℚ 2, Inside x → bary 0 x ≤ 1 / 2 → shape ⟨0, 2, 0⟩ x = 0 := by
  refine ⟨by decide +kernel, fun x hx h => ?_⟩
  have hs : Simplex 2 := by unfold Simplex; decide
  rw [shape_hat hs (nodeKeys_node hs (by decide)).1 hx]
  show max 0 (2 * bary 0 x - 1) = 0
  exact max_eq_left (by linarith)

end Verif.Lagrange.Refined

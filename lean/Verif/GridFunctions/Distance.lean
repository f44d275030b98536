import Mathlib.Algebra.Order.Field.Basic
import Mathlib.Algebra.Order.BigOperators.Group.Finset
import Mathlib.Algebra.BigOperators.Intervals
import Mathlib.Data.Nat.Bitwise
import Mathlib.Tactic.Linarith
import Mathlib.Tactic.Ring
import Mathlib.Tactic.NormNum
import Mathlib.Algebra.Order.Ring.Rat
import Mathlib.Data.Rat.Defs

/-!
# Distance to reference elements

Model of `Impl::ReferenceElementUtilities::distance` and `checkInside` in
`dune/functions/gridfunctions/finefunctiononcoarsegridview.hh`.
-/

namespace Verif.Distance

variable {K : Type} [Field K] [LinearOrder K] [IsStrictOrderedRing K]

/-! ## Model -/

/-- `Dune::Impl::isPyramid(topologyId, dim)` of dune-geometry: `((topologyId & ~1) & (1u << (dim-1))) == 0`. -/
def isPyramid (t dim : Nat) : Bool := !(dim - 1 != 0 && t.testBit (dim - 1))

/-- `Dune::Impl::baseTopologyId(topologyId, dim)` of dune-geometry: `topologyId & ((1u << (dim-1)) - 1)`. -/
def baseTopologyId (t dim : Nat) : Nat := t % 2 ^ (dim - 1)

/-- The new scale factor, finefunctiononcoarsegridview.hh:42-43 and 69-70. -/
def newScale (t dim : Nat) (xl s : K) : K := if isPyramid t dim then s - max (min xl s) 0 else s

/-- `distance`, finefunctiononcoarsegridview.hh:34-49. For `dim = 0` the code reads `x[-1]`. -/
def distance : Nat → Nat → (Nat → K) → K → Option K
  | _, 0, _, _ => none
  | t, dim + 1, x, s =>
    let distLast := max (max (x dim - s) (-x dim)) 0
    if dim + 1 > 1 then
      (distance (baseTopologyId t (dim + 1)) dim x (newScale t (dim + 1) (x dim) s)).map (· + distLast)
    else some distLast

/-- `checkInside`, finefunctiononcoarsegridview.hh:58-75. -/
def checkInside : Nat → Nat → (Nat → K) → K → K → Bool
  | _, 0, _, _, _ => true
  | t, dim + 1, x, tol, s =>
    let distLast := max (x dim - s) (-x dim)
    if distLast ≤ tol then
      checkInside (baseTopologyId t (dim + 1)) dim x (tol - max distLast 0) (newScale t (dim + 1) (x dim) s)
    else false

/-! ## Specification -/

/-- The reference element with the given topology scaled by `s`: products of a base with an interval, or cones over a base.
Bit `d` of the topology, `d > 0`, tells that the step from dimension `d` to dimension `d + 1` is a product. -/
def Inside (t : Nat) : Nat → K → (Nat → K) → Prop
  | 0, _, _ => True
  | dim + 1, s, x => 0 ≤ x dim ∧ x dim ≤ s ∧
      Inside t dim (if dim ≠ 0 ∧ t.testBit dim = true then s else s - x dim) x

/-- The l1 distance of two points. -/
def l1 (dim : Nat) (x y : Nat → K) : K := ∑ i ∈ Finset.range dim, |x i - y i|

/-- Simplices, and products of simplices with any number of intervals. In dimension up to three these are all reference
elements but the pyramid over a square. -/
def SimplexThenProducts (t dim : Nat) : Prop :=
  ∀ i, 0 < i → i < dim → t.testBit i = false → ∀ j, 0 < j → j ≤ i → t.testBit j = false

/-! ## Proof -/

theorem isPyramid_eq (t d : Nat) : isPyramid t (d + 1) = !(decide (d ≠ 0) && t.testBit d) := by
  cases d <;> simp [isPyramid]

theorem testBit_base (t d i : Nat) (h : i < d) : (baseTopologyId t (d + 1)).testBit i = t.testBit i := by
  simp [baseTopologyId, Nat.testBit_mod_two_pow, h]

omit [IsStrictOrderedRing K] in
theorem inside_congr (t t' : Nat) : ∀ (dim : Nat) (s : K) (x : Nat → K), (∀ i < dim, t.testBit i = t'.testBit i) →
    (Inside t dim s x ↔ Inside t' dim s x) := by
  intro dim
  induction dim with
  | zero => intro s x _; rfl
  | succ dim ih =>
    intro s x h
    simp only [Inside]
    rw [h dim (by omega)]
    rw [ih _ x (fun i hi => h i (by omega))]

theorem clamp_nonneg (a s : K) (hs : 0 ≤ s) : 0 ≤ s - max (min a s) 0 := by
  rcases le_total a s with h | h <;> rcases le_total a 0 with h' | h' <;> simp [h, h', hs]

theorem newScale_nonneg (t d : Nat) (a s : K) (hs : 0 ≤ s) : 0 ≤ newScale t d a s := by
  rw [newScale]; split
  · exact clamp_nonneg a s hs
  · exact hs

omit [IsStrictOrderedRing K] in
theorem newScale_inside (t d : Nat) (a s : K) (h0 : 0 ≤ a) (h1 : a ≤ s) :
    newScale t (d + 1) a s = if d ≠ 0 ∧ t.testBit d = true then s else s - a := by
  rw [newScale, isPyramid_eq]
  by_cases h : d ≠ 0 ∧ t.testBit d = true
  · simp [h.1, h.2]
  · rw [if_neg h, if_pos (by rw [not_and_or] at h; simpa using h), min_eq_left h1, max_eq_left h0]

theorem distLast_zero (a s : K) : max (max (a - s) (-a)) 0 = 0 ↔ 0 ≤ a ∧ a ≤ s := by
  rw [max_eq_right_iff, max_le_iff, sub_nonpos, neg_nonpos]
  exact And.comm

omit [IsStrictOrderedRing K] in
/-- Unfolding for dimension at least two. -/
theorem distance_succ (t dim : Nat) (x : Nat → K) (s : K) (hd : 0 < dim) : distance t (dim + 1) x s =
    (distance (baseTopologyId t (dim + 1)) dim x (newScale t (dim + 1) (x dim) s)).map
      (· + max (max (x dim - s) (-x dim)) 0) := by
  rw [distance]
  simp [hd]

omit [IsStrictOrderedRing K] in
theorem distance_one (t : Nat) (x : Nat → K) (s : K) : distance t 1 x s = some (max (max (x 0 - s) (-x 0)) 0) := by
  rw [distance]
  simp

/-- **C44, points inside.** For every topology the distance is defined and non-negative, and it is zero exactly for points of
the (scaled) reference element. -/
theorem C44_inside (t dim : Nat) (hd : 0 < dim) (x : Nat → K) (s : K) (hs : 0 ≤ s) :
    ∃ d, distance t dim x s = some d ∧ 0 ≤ d ∧ (d = 0 ↔ Inside t dim s x) := by
  induction dim generalizing t s with
  | zero => omega
  | succ dim ih =>
    rcases Nat.eq_zero_or_pos dim with rfl | hdim
    · refine ⟨_, distance_one t x s, le_max_right _ _, ?_⟩
      rw [distLast_zero]
      simp [Inside]
    · obtain ⟨d, h1, h2, h3⟩ := ih (baseTopologyId t (dim + 1)) hdim (newScale t (dim + 1) (x dim) s)
        (newScale_nonneg _ _ _ _ hs)
      have hl : 0 ≤ max (max (x dim - s) (-x dim)) 0 := le_max_right _ _
      refine ⟨_, by rw [distance_succ t dim x s hdim, h1]; rfl, add_nonneg h2 hl, ?_⟩
      rw [add_eq_zero_iff_of_nonneg h2 hl, distLast_zero, h3,
        inside_congr (baseTopologyId t (dim + 1)) t dim _ x (fun i hi => testBit_base t dim i hi)]
      simp only [Inside]
      constructor
      · rintro ⟨h, h4, h5⟩
        rw [newScale_inside t dim _ _ h4 h5] at h
        exact ⟨h4, h5, h⟩
      · rintro ⟨h4, h5, h⟩
        rw [newScale_inside t dim _ _ h4 h5]
        exact ⟨h, h4, h5⟩

/-- **C44, checkInside.** For every topology and every non-negative tolerance, `checkInside` holds exactly if the distance is
at most the tolerance. -/
theorem C44_checkInside (t dim : Nat) (hd : 0 < dim) (x : Nat → K) (s tol : K) (hs : 0 ≤ s) (htol : 0 ≤ tol) :
    ∃ d, distance t dim x s = some d ∧ (checkInside t dim x tol s = true ↔ d ≤ tol) := by
  induction dim generalizing t s tol with
  | zero => omega
  | succ dim ih =>
    have hle : (max (x dim - s) (-x dim) ≤ tol ↔ max (max (x dim - s) (-x dim)) 0 ≤ tol) := by
      constructor
      · intro h; exact max_le h htol
      · intro h; exact (le_max_left _ _).trans h
    rw [checkInside]
    rcases Nat.eq_zero_or_pos dim with rfl | hdim
    · refine ⟨_, distance_one t x s, ?_⟩
      rw [← hle]
      split <;> simp_all [checkInside]
    · by_cases h : max (x dim - s) (-x dim) ≤ tol
      · rw [if_pos h]
        obtain ⟨d, h1, h2⟩ := ih (baseTopologyId t (dim + 1)) hdim (newScale t (dim + 1) (x dim) s)
          (tol - max (max (x dim - s) (-x dim)) 0) (newScale_nonneg _ _ _ _ hs) (sub_nonneg.mpr (hle.mp h))
        refine ⟨_, by rw [distance_succ t dim x s hdim, h1]; rfl, ?_⟩
        rw [h2]
        exact le_sub_iff_add_le
      · rw [if_neg h]
        obtain ⟨d, h1, h2, _⟩ := C44_inside (baseTopologyId t (dim + 1)) dim hdim x (newScale t (dim + 1) (x dim) s)
          (newScale_nonneg _ _ _ _ hs)
        refine ⟨_, by rw [distance_succ t dim x s hdim, h1]; rfl, ?_⟩
        constructor
        · intro h; simp at h
        · intro h'
          exact absurd (hle.mpr (le_trans (le_add_of_nonneg_left h2) h')) h

omit [IsStrictOrderedRing K] in
theorem l1_succ (dim : Nat) (x y : Nat → K) : l1 (dim + 1) x y = l1 dim x y + |x dim - y dim| := by
  rw [l1, Finset.sum_range_succ]; rfl

/-- The distance of the last coordinate to the interval. -/
theorem distLast_eq (a s : K) (hs : 0 ≤ s) : max (max (a - s) (-a)) 0 = |a - max (min a s) 0| := by
  rcases le_total a s with h | h
  · rcases le_total a 0 with h' | h'
    · rw [min_eq_left h, max_eq_right h', sub_zero, abs_of_nonpos h', max_eq_right (show a - s ≤ -a by linarith),
        max_eq_left (by linarith)]
    · rw [min_eq_left h, max_eq_left h', sub_self, abs_zero]
      exact max_eq_right (max_le (by linarith) (by linarith))
  · rw [min_eq_right h, max_eq_left hs, abs_of_nonneg (by linarith), max_eq_left (show -a ≤ a - s by linarith),
      max_eq_left (by linarith)]

omit [IsStrictOrderedRing K] in
theorem inside_coords (t : Nat) : ∀ (dim : Nat) (s : K) (x y : Nat → K), (∀ i < dim, x i = y i) →
    (Inside t dim s x ↔ Inside t dim s y) := by
  intro dim
  induction dim with
  | zero => intro s x y _; rfl
  | succ dim ih =>
    intro s x y h
    simp only [Inside, h dim (by omega)]
    rw [ih _ x y (fun i hi => h i (by omega))]

omit [IsStrictOrderedRing K] in
theorem l1_congr (dim : Nat) (x y z : Nat → K) (h : ∀ i < dim, y i = z i) : l1 dim x y = l1 dim x z := by
  apply Finset.sum_congr rfl
  intro i hi
  rw [h i (by simpa using hi)]

/-- **C44, attained.** For every topology the computed value is the l1 distance to some point of the reference element, hence
an upper bound for the distance. -/
theorem C44_attained (t dim : Nat) (hd : 0 < dim) (x : Nat → K) (s : K) (hs : 0 ≤ s) :
    ∃ d, distance t dim x s = some d ∧ ∃ y, Inside t dim s y ∧ l1 dim x y = d := by
  induction dim generalizing t s with
  | zero => omega
  | succ dim ih =>
    set c := max (min (x dim) s) 0 with hc
    have hc0 : 0 ≤ c := le_max_right _ _
    have hcs : c ≤ s := max_le (min_le_right _ _) hs
    rcases Nat.eq_zero_or_pos dim with rfl | hdim
    · refine ⟨_, distance_one t x s, fun _ => c, by simp [Inside, hc0, hcs], ?_⟩
      rw [l1_succ, distLast_eq _ _ hs]
      simp [l1, hc]
    · obtain ⟨d, h1, y, h2, h3⟩ := ih (baseTopologyId t (dim + 1)) hdim (newScale t (dim + 1) (x dim) s)
        (newScale_nonneg _ _ _ _ hs)
      refine ⟨_, by rw [distance_succ t dim x s hdim, h1]; rfl, fun i => if i = dim then c else y i, ?_, ?_⟩
      · simp only [Inside, if_true]
        refine ⟨hc0, hcs, ?_⟩
        rw [inside_coords t dim _ _ y (by intro i hi; simp [show i ≠ dim by omega]),
          ← inside_congr (baseTopologyId t (dim + 1)) t dim _ y (fun i hi => testBit_base t dim i hi)]
        rw [newScale, isPyramid_eq] at h2
        by_cases h : dim ≠ 0 ∧ t.testBit dim = true
        · rw [if_pos h]
          simpa [h.1, h.2] using h2
        · rw [if_neg h]
          rw [if_pos (by rw [not_and_or] at h; simpa using h)] at h2
          exact h2
      · rw [l1_succ, l1_congr dim x _ y (by intro i hi; simp [show i ≠ dim by omega]), h3, distLast_eq _ _ hs]
        simp [hc]

/-- Simplices: changing the scaling of the simplex changes the distance by at most the difference. -/
theorem simplex_lower (t dim : Nat) (hd : 0 < dim) (ht : ∀ i, 0 < i → i < dim → t.testBit i = false) (x y : Nat → K)
    (s r : K) (hs : 0 ≤ s) (hy : Inside t dim r y) :
    ∃ d, distance t dim x s = some d ∧ d ≤ l1 dim x y + max (r - s) 0 := by
  induction dim generalizing t s r with
  | zero => omega
  | succ dim ih =>
    obtain ⟨hy0, hy1, hy2⟩ := hy
    have a1 := le_abs_self (x dim - y dim)
    have a2 := neg_abs_le (x dim - y dim)
    have a3 := le_max_left (r - s) 0
    have a4 := le_max_right (r - s) 0
    rcases Nat.eq_zero_or_pos dim with rfl | hdim
    · refine ⟨_, distance_one t x s, ?_⟩
      rw [l1_succ]
      simp only [l1, Finset.range_zero, Finset.sum_empty, zero_add]
      apply max_le
      · apply max_le <;> linarith
      · have := abs_nonneg (x 0 - y 0)
        linarith
    · have hbit : t.testBit dim = false := ht dim hdim (by omega)
      rw [hbit] at hy2
      simp only [Bool.false_eq_true, and_false, if_false] at hy2
      have hpyr : newScale t (dim + 1) (x dim) s = s - max (min (x dim) s) 0 := by
        rw [newScale, isPyramid_eq, hbit]; simp
      obtain ⟨d, h1, h2⟩ := ih (baseTopologyId t (dim + 1)) hdim
        (by intro i hi hi'; rw [testBit_base t dim i hi']; exact ht i hi (by omega))
        (newScale t (dim + 1) (x dim) s) (r - y dim) (newScale_nonneg _ _ _ _ hs)
        ((inside_congr _ t dim _ y (fun i hi => testBit_base t dim i hi)).mpr hy2)
      refine ⟨_, by rw [distance_succ t dim x s hdim, h1]; rfl, ?_⟩
      rw [l1_succ]
      rw [hpyr] at h2
      have key : max (r - y dim - (s - max (min (x dim) s) 0)) 0 + max (max (x dim - s) (-x dim)) 0
          ≤ |x dim - y dim| + max (r - s) 0 := by
        rcases le_total (x dim) s with h | h
        · rcases le_total (x dim) 0 with h' | h'
          · rw [min_eq_left h, max_eq_right h', max_eq_right (show x dim - s ≤ -x dim by linarith),
              max_eq_left (show (0 : K) ≤ -x dim by linarith), ← max_add_add_right]
            apply max_le <;> linarith
          · rw [min_eq_left h, max_eq_left h', max_eq_right (show max (x dim - s) (-x dim) ≤ 0 from
              max_le (by linarith) (by linarith)), add_zero]
            have := abs_nonneg (x dim - y dim)
            apply max_le <;> linarith
        · rw [min_eq_right h, max_eq_left hs, max_eq_left (show -x dim ≤ x dim - s by linarith),
            max_eq_left (show (0 : K) ≤ x dim - s by linarith), ← max_add_add_right]
          apply max_le <;> linarith
      linarith

/-- **C44, l1 distance.** For simplices and products of simplices with intervals (in dimension up to three: all reference
elements but the square pyramid) the computed value is the l1 distance to the reference element: the minimum
of the l1 distances to its points. For other topologies see `C44_attained` and `C44_pyramid_false`. -/
theorem C44_l1_partial (t dim : Nat) (hd : 0 < dim) (ht : SimplexThenProducts t dim) (x : Nat → K) (s : K) (hs : 0 ≤ s) :
    ∃ d, distance t dim x s = some d ∧ IsLeast {r | ∃ y, Inside t dim s y ∧ l1 dim x y = r} d := by
  obtain ⟨d, h1, h2⟩ := C44_attained t dim hd x s hs
  refine ⟨d, h1, h2, ?_⟩
  rintro _ ⟨y, hy, rfl⟩
  clear h2
  have key : ∃ d, distance t dim x s = some d ∧ d ≤ l1 dim x y := by
    clear h1
    induction dim generalizing t with
    | zero => omega
    | succ dim ih =>
      by_cases hs' : ∀ i, 0 < i → i < dim + 1 → t.testBit i = false
      · obtain ⟨d, g1, g2⟩ := simplex_lower t (dim + 1) hd hs' x y s s hs hy
        exact ⟨d, g1, by simpa using g2⟩
      · have hbit : t.testBit dim = true ∧ dim ≠ 0 := by
          by_contra hcon
          apply hs'
          intro i hi hi'
          have hdim : dim ≠ 0 := by omega
          have hb : t.testBit dim = false := by simpa [hdim] using hcon
          exact ht dim (by omega) (by omega) hb i hi (by omega)
        obtain ⟨hy0, hy1, hy2⟩ := hy
        rw [if_pos ⟨hbit.2, hbit.1⟩] at hy2
        have hns : newScale t (dim + 1) (x dim) s = s := by
          rw [newScale, isPyramid_eq, hbit.1]; simp [hbit.2]
        obtain ⟨d, g1, g2⟩ := ih (baseTopologyId t (dim + 1)) (by omega)
          (by
            intro i hi hi' hb j hj hj'
            rw [testBit_base t dim i hi'] at hb
            rw [testBit_base t dim j (by omega)]
            exact ht i hi (by omega) hb j hj hj')
          ((inside_congr _ t dim _ y (fun i hi => testBit_base t dim i hi)).mpr hy2)
        refine ⟨_, by rw [distance_succ t dim x s (by omega), hns, g1]; rfl, ?_⟩
        rw [l1_succ]
        have a1 := le_abs_self (x dim - y dim)
        have a2 := neg_abs_le (x dim - y dim)
        have a3 := abs_nonneg (x dim - y dim)
        have : max (max (x dim - s) (-x dim)) 0 ≤ |x dim - y dim| := by
          apply max_le
          · apply max_le <;> linarith
          · exact a3
        linarith
  obtain ⟨d', g1, g2⟩ := key
  rw [h1] at g1
  injection g1 with g1
  rw [g1]; exact g2

/-! ### The reference elements -/

/-- Simplices: non-negative coordinates with sum at most `s`. -/
theorem inside_simplex (t dim : Nat) (ht : ∀ i, 0 < i → i < dim → t.testBit i = false) (s : K) (x : Nat → K) (hs : 0 ≤ s) :
    Inside t dim s x ↔ (∀ i < dim, 0 ≤ x i) ∧ ∑ i ∈ Finset.range dim, x i ≤ s := by
  induction dim generalizing s with
  | zero => simp [Inside, hs]
  | succ dim ih =>
    have hb : ¬ (dim ≠ 0 ∧ t.testBit dim = true) := by
      rintro ⟨h1, h2⟩
      rw [ht dim (by omega) (by omega)] at h2
      simp at h2
    simp only [Inside]
    rw [if_neg hb, Finset.sum_range_succ]
    constructor
    · rintro ⟨h1, h2, h3⟩
      rw [ih (fun i hi hi' => ht i hi (by omega)) _ (by linarith)] at h3
      refine ⟨?_, by linarith⟩
      intro i hi
      rcases Nat.lt_succ_iff_lt_or_eq.mp hi with h | rfl
      · exact h3.1 i h
      · exact h1
    · rintro ⟨h1, h2⟩
      have h0 : 0 ≤ ∑ i ∈ Finset.range dim, x i :=
        Finset.sum_nonneg fun i hi => h1 i (by have := Finset.mem_range.mp hi; omega)
      refine ⟨h1 dim (by omega), by linarith, ?_⟩
      rw [ih (fun i hi hi' => ht i hi (by omega)) _ (by linarith)]
      exact ⟨fun i hi => h1 i (by omega), by linarith⟩

omit [IsStrictOrderedRing K] in
/-- Cubes. -/
theorem inside_cube (t dim : Nat) (ht : ∀ i, 0 < i → i < dim → t.testBit i = true) (s : K) (x : Nat → K) :
    Inside t dim s x ↔ ∀ i < dim, 0 ≤ x i ∧ x i ≤ s := by
  induction dim with
  | zero => simp [Inside]
  | succ dim ih =>
    simp only [Inside]
    have : Inside t dim (if dim ≠ 0 ∧ t.testBit dim = true then s else s - x dim) x ↔ ∀ i < dim, 0 ≤ x i ∧ x i ≤ s := by
      rcases Nat.eq_zero_or_pos dim with rfl | h
      · simp [Inside]
      · rw [if_pos ⟨by omega, ht dim h (by omega)⟩, ih (fun i hi hi' => ht i hi (by omega))]
    rw [this]
    constructor
    · rintro ⟨h1, h2, h3⟩ i hi
      rcases Nat.lt_succ_iff_lt_or_eq.mp hi with h | rfl
      · exact h3 i h
      · exact ⟨h1, h2⟩
    · intro h
      exact ⟨(h dim (by omega)).1, (h dim (by omega)).2, fun i hi => h i (by omega)⟩

/-- Prisms over triangles. -/
theorem inside_prism (x : Nat → K) :
    Inside 4 3 1 x ↔ (0 ≤ x 0 ∧ 0 ≤ x 1 ∧ x 0 + x 1 ≤ 1) ∧ 0 ≤ x 2 ∧ x 2 ≤ 1 := by
  have h1 : Nat.testBit 4 2 = true := by decide
  have h2 : Nat.testBit 4 1 = false := by decide
  simp only [Inside, h1, h2]
  simp only [ne_eq, OfNat.ofNat_ne_zero, not_false_eq_true, and_self, if_true, Nat.one_ne_zero, Bool.false_eq_true, and_false, if_false, and_true]
  constructor
  · rintro ⟨a, b, c, d, e, f⟩; exact ⟨⟨e, c, by linarith⟩, a, b⟩
  · rintro ⟨⟨e, c, f⟩, a, b⟩; exact ⟨a, b, c, by linarith, e, by linarith⟩

/-- Pyramids over squares. -/
theorem inside_pyramid (x : Nat → K) :
    Inside 3 3 1 x ↔ 0 ≤ x 2 ∧ (0 ≤ x 0 ∧ x 0 ≤ 1 - x 2) ∧ (0 ≤ x 1 ∧ x 1 ≤ 1 - x 2) := by
  have h1 : Nat.testBit 3 2 = false := by decide
  have h2 : Nat.testBit 3 1 = true := by decide
  simp only [Inside, h1, h2]
  simp only [ne_eq, OfNat.ofNat_ne_zero, not_false_eq_true, and_self, if_true, Nat.one_ne_zero, Bool.false_eq_true, and_false, if_false, and_true]
  constructor
  · rintro ⟨a, b, c, d, e, f⟩; exact ⟨a, ⟨e, f⟩, c, d⟩
  · rintro ⟨a, ⟨e, f⟩, c, d⟩; exact ⟨a, by linarith, c, d, e, f⟩

/-- For the pyramid over a square the value is not the l1 distance: at `(1,1,1/2)` it is `1`, but the point `(1,1,0)` of the
pyramid has distance `1/2`. -/
theorem C44_pyramid_false :
    ∃ x y : Nat → ℚ, distance 3 3 x 1 = some 1 ∧ Inside 3 3 1 y ∧ l1 3 x y = 1 / 2 := by
  refine ⟨fun i => if i = 2 then 1 / 2 else 1, fun i => if i = 2 then 0 else 1, ?_, ?_, ?_⟩
  · simp [distance, newScale, isPyramid, baseTopologyId, show Nat.testBit 3 1 = true by decide, show Nat.testBit 3 2 = false by decide]
    norm_num
  · rw [inside_pyramid]; norm_num
  · simp [l1, Finset.sum_range_succ]

omit [IsStrictOrderedRing K] in
theorem distance_congr (t t' : Nat) : ∀ (dim : Nat) (x : Nat → K) (s : K), (∀ i < dim, t.testBit i = t'.testBit i) →
    distance t dim x s = distance t' dim x s := by
  intro dim
  induction dim generalizing t t' with
  | zero => intro x s _; rfl
  | succ dim ih =>
    intro x s h
    rcases Nat.eq_zero_or_pos dim with rfl | hdim
    · rw [distance_one, distance_one]
    · rw [distance_succ t dim x s hdim, distance_succ t' dim x s hdim, newScale, newScale, isPyramid_eq, isPyramid_eq,
        h dim (by omega), ih (baseTopologyId t (dim + 1)) (baseTopologyId t' (dim + 1))]
      intro i hi
      rw [testBit_base _ _ _ hi, testBit_base _ _ _ hi, h i (by omega)]

omit [IsStrictOrderedRing K] in
/-- One step with the topology unchanged. -/
theorem distance_step (t dim : Nat) (x : Nat → K) (s : K) (hd : 0 < dim) : distance t (dim + 1) x s =
    (distance t dim x (newScale t (dim + 1) (x dim) s)).map (· + max (max (x dim - s) (-x dim)) 0) := by
  rw [distance_succ t dim x s hd, distance_congr _ t dim _ _ (fun i hi => testBit_base t dim i hi)]

theorem distance_tail (t k n : Nat) (x : Nat → K) (s : K) (hs : 0 ≤ s) (hk : 0 < k) (hkn : k ≤ n)
    (hx : ∀ m, k ≤ m → m < n → x m = 0) : distance t n x s = distance t k x s := by
  induction n, hkn using Nat.le_induction with
  | base => rfl
  | succ n hkn ih =>
    rw [distance_step t n x s (by omega), hx n hkn (by omega), newScale, min_eq_left hs]
    rw [max_self, sub_zero, ite_self, ih (fun m h1 h2 => hx m h1 (by omega))]
    rw [show max (max ((0 : K) - s) (-0)) 0 = 0 by simp [hs]]
    simp

omit [IsStrictOrderedRing K] in
theorem inside_tail (t k n : Nat) (x : Nat → K) (s : K) (hs : 0 ≤ s) (hkn : k ≤ n)
    (hx : ∀ m, k ≤ m → m < n → x m = 0) : Inside t n s x ↔ Inside t k s x := by
  induction n, hkn using Nat.le_induction with
  | base => rfl
  | succ n hkn ih =>
    simp only [Inside, hx n hkn (by omega), sub_zero, ite_self, le_refl, hs, true_and]
    exact ih (fun m h1 h2 => hx m h1 (by omega))

/-- **C44, exactly these topologies.** The computed value is the l1 distance for all points exactly for simplices and products
of simplices with intervals. -/
theorem C44_l1_iff (t dim : Nat) (hd : 0 < dim) :
    (∀ x : Nat → K, ∃ d, distance t dim x 1 = some d ∧ IsLeast {r | ∃ y, Inside t dim 1 y ∧ l1 dim x y = r} d) ↔
    SimplexThenProducts t dim := by
  constructor
  · intro h i hi hidim hbi j hj hji
    by_contra hbj
    have hbj : t.testBit j = true := by simpa using hbj
    have hij : j < i := by
      rcases Nat.lt_or_ge j i with h | h
      · exact h
      · have : j = i := by omega
        rw [this, hbi] at hbj; simp at hbj
    let x : Nat → K := fun m => if m = i then 1 / 2 else if m = j ∨ m = 0 then 1 else 0
    let y : Nat → K := fun m => if m = j ∨ m = 0 then 1 else 0
    have hxi : x i = 1 / 2 := by simp [x]
    have hxj : x j = 1 := by simp [x, show j ≠ i by omega]
    have hx0 : x 0 = 1 := by simp [x, show 0 ≠ i by omega]
    have hyj : y j = 1 := by simp [y]
    have hy0 : y 0 = 1 := by simp [y]
    have hhalf : (0 : K) ≤ 1 / 2 := by norm_num
    have h1 : distance t dim x 1 = some 1 := by
      rw [distance_tail t (i + 1) dim x 1 zero_le_one (by omega) (by omega)
        (by intro m h1 h2; simp [x, show m ≠ i by omega, show m ≠ j by omega, show m ≠ 0 by omega])]
      rw [distance_step t i x 1 (by omega), newScale, isPyramid_eq, hbi, hxi]
      simp only [Bool.and_false, Bool.not_false, if_true]
      rw [show (1 : K) - max (min (1 / 2) 1) 0 = 1 / 2 by
        rw [min_eq_left (by norm_num), max_eq_left hhalf]; norm_num]
      rw [show max (max ((1 : K) / 2 - 1) (-(1 / 2))) 0 = 0 by
        rw [max_eq_right]; apply max_le <;> norm_num]
      rw [distance_tail t (j + 1) i x (1 / 2) hhalf (by omega) (by omega)
        (by intro m h1 h2; simp [x, show m ≠ i by omega, show m ≠ j by omega, show m ≠ 0 by omega])]
      rw [distance_step t j x (1 / 2) hj, newScale, isPyramid_eq, hbj, hxj]
      simp only [ne_eq, show j ≠ 0 by omega, not_false_eq_true, decide_true, Bool.and_self, Bool.not_true, Bool.false_eq_true, if_false]
      rw [distance_tail t 1 j x (1 / 2) hhalf (by omega) (by omega)
        (by intro m h1 h2; simp [x, show m ≠ i by omega, show m ≠ j by omega, show m ≠ 0 by omega])]
      rw [distance_one, hx0]
      have : max (max ((1 : K) - 1 / 2) (-1)) 0 = 1 / 2 := by
        rw [max_eq_left (show (-1 : K) ≤ 1 - 1 / 2 by norm_num), max_eq_left (by norm_num)]; norm_num
      rw [this]
      simp only [Option.map_some, Option.some.injEq]
      norm_num
    have h2 : Inside t dim 1 y := by
      rw [inside_tail t (j + 1) dim y 1 zero_le_one (by omega)
        (by intro m h1 h2; simp [y, show m ≠ j by omega, show m ≠ 0 by omega])]
      simp only [Inside, hyj, hbj]
      rw [if_pos ⟨by omega, trivial⟩]
      refine ⟨zero_le_one, le_refl _, ?_⟩
      rw [inside_tail t 1 j y 1 zero_le_one (by omega)
        (by intro m h1 h2; simp [y, show m ≠ j by omega, show m ≠ 0 by omega])]
      simp [Inside, hy0]
    have h3 : l1 dim x y = 1 / 2 := by
      rw [l1, Finset.sum_eq_single i]
      · simp [x, y, show i ≠ j by omega, show i ≠ 0 by omega]
      · intro m _ hm
        simp [x, y, hm]
      · intro h; exact absurd (Finset.mem_range.mpr hidim) h
    obtain ⟨d, g1, g2⟩ := h x
    rw [h1] at g1
    injection g1 with g1
    have := g2.2 ⟨y, h2, h3⟩
    rw [← g1] at this
    norm_num at this
  · intro h x
    exact C44_l1_partial t dim hd h x 1 zero_le_one

/-! Examples -/

/-- `(2, -1)` has distance 2 to the triangle and also to the square. -/
example : distance 0 2 (fun i => if i = 0 then (2 : ℚ) else -1) 1 = some 2 ∧
    distance 3 2 (fun i => if i = 0 then (2 : ℚ) else -1) 1 = some 2 := by
  constructor <;> simp [distance, newScale, isPyramid, show Nat.testBit 3 1 = true by decide] <;> norm_num

/-- `(2/3, 2/3)` has distance `1/3` to the triangle and lies in the square. -/
example : distance 0 2 (fun _ => (2 / 3 : ℚ)) 1 = some (1 / 3) ∧ distance 3 2 (fun _ => (2 / 3 : ℚ)) 1 = some 0 := by
  constructor <;> simp [distance, newScale, isPyramid, show Nat.testBit 3 1 = true by decide] <;> norm_num

example : SimplexThenProducts 0 3 ∧ SimplexThenProducts 7 3 ∧ SimplexThenProducts 4 3 ∧ ¬ SimplexThenProducts 3 3 := by
  refine ⟨?_, ?_, ?_, ?_⟩
  · intro i _ _ _ j _ _; simp
  · intro i h1 h2 h3
    have : i = 1 ∨ i = 2 := by omega
    rcases this with rfl | rfl <;> exact absurd h3 (by decide)
  · intro i h1 h2 h3 j h4 h5
    have : i = 1 ∨ i = 2 := by omega
    rcases this with rfl | rfl
    · have : j = 1 := by omega
      subst this; decide
    · exact absurd h3 (by decide)
  · intro h
    exact absurd (h 2 (by omega) (by omega) (by decide) 1 (by omega) (by omega)) (by decide)

end Verif.Distance

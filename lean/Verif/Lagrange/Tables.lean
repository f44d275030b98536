import Verif.Lagrange.Model
import Mathlib.Tactic.Ring
import Mathlib.Tactic.Linarith
import Mathlib.Tactic.IntervalCases
import Mathlib.Data.List.Range
import Mathlib.Data.List.Nodup

namespace Verif.Lagrange

/-! ## Enumeration of barycentric indices -/

theorem flatMap_range_get {β : Type} (r : Nat) (f : Nat → List β) (i j : Nat) (hi : i < r) (hj : j < (f i).length) :
    ((List.range r).flatMap f)[((List.range i).map fun i => (f i).length).sum + j]? = (f i)[j]? := by
  induction r with
  | zero => omega
  | succ r ih =>
    have hl : ∀ r, ((List.range r).flatMap f).length = ((List.range r).map fun i => (f i).length).sum := by
      intro r; simp [List.length_flatMap]
    rw [List.range_succ, List.flatMap_append]
    rcases Nat.lt_or_ge i r with h | h
    · rw [List.getElem?_append_left, ih h]
      have h1 := ih h
      rw [List.getElem?_eq_getElem hj] at h1
      exact (List.getElem?_eq_some_iff.mp h1).1
    · obtain rfl : i = r := by omega
      rw [List.getElem?_append_right (by rw [hl]; omega), hl]
      simp

theorem rowOffset (m i : Nat) (hi : i ≤ m) :
    2 * ((List.range i).map fun i => m - i).sum + i * (i - 1) = 2 * (m * i) := by
  induction i with
  | zero => simp
  | succ i ih =>
    have ih := ih (by omega)
    rw [List.range_succ, List.map_append, List.sum_append]
    simp only [List.map_cons, List.map_nil, List.sum_cons, List.sum_nil, Nat.add_zero, Nat.add_sub_cancel]
    obtain ⟨q, rfl⟩ : ∃ q, m = i + q := ⟨m - i, by omega⟩
    have h1 : i + q - i = q := by omega
    rw [h1]
    cases i with
    | zero => simp
    | succ i =>
      simp only [Nat.add_sub_cancel] at ih ⊢
      nlinarith

theorem even_mul_pred (i : Nat) : 2 * (i * (i - 1) / 2) = i * (i - 1) := by
  apply Nat.mul_div_cancel'
  cases i with
  | zero => simp
  | succ i =>
    have := Nat.even_mul_succ_self i
    rw [Nat.mul_comm] at this
    simpa using this.two_dvd

theorem flat_eq_offset (m i j : Nat) (hi : i ≤ m) :
    baryToFlat m (m - 1 - (i + j), j, i) = ((List.range i).map fun i => m - i).sum + j := by
  have h1 := rowOffset m i hi
  have h2 := even_mul_pred i
  simp only [baryToFlat]
  omega

theorem baryList_get (m : Nat) (b : Bary) (h : b.1 + b.2.1 + b.2.2 + 1 = m) :
    (baryList m)[baryToFlat m b]? = some b := by
  obtain ⟨x, j, i⟩ := b
  simp only at h
  have hx : x = m - 1 - (i + j) := by omega
  subst hx
  rw [flat_eq_offset m i j (by omega)]
  have := flatMap_range_get m (fun i => (List.range (m - i)).map fun j => ((m - 1 - (i + j), j, i) : Bary)) i j
    (by omega) (by simp; omega)
  simp only [List.length_map, List.length_range] at this
  rw [baryList, this]
  rw [List.getElem?_map, List.getElem?_range (by omega)]
  rfl

theorem baryList_mem (m : Nat) (b : Bary) (h : b ∈ baryList m) : b.1 + b.2.1 + b.2.2 + 1 = m := by
  simp only [baryList, List.mem_flatMap, List.mem_range, List.mem_map] at h
  obtain ⟨i, hi, j, hj, rfl⟩ := h
  simp only; omega

theorem baryList_length (m : Nat) : (baryList m).length = m * (m + 1) / 2 := by
  have h := rowOffset m m (Nat.le_refl _)
  have h2 : (baryList m).length = ((List.range m).map fun i => m - i).sum := by
    simp [baryList, List.length_flatMap]
  rw [h2]
  have h3 : m * (m - 1) + 2 * m = m * (m + 1) := by
    cases m with
    | zero => rfl
    | succ m => simp only [Nat.add_sub_cancel]; ring
  have h4 := rowOffset m m (Nat.le_refl _)
  have : 2 * ((List.range m).map fun i => m - i).sum = m * (m + 1) := by
    have : 2 * (m * m) = m * (m - 1) + m * (m + 1) := by
      cases m with
      | zero => rfl
      | succ m => simp only [Nat.add_sub_cancel]; ring
    omega
  omega

theorem baryToFlat_lt (m : Nat) (b : Bary) (h : b.1 + b.2.1 + b.2.2 + 1 = m) :
    baryToFlat m b < m * (m + 1) / 2 := by
  have := (List.getElem?_eq_some_iff.mp (baryList_get m b h)).1
  rwa [baryList_length] at this

theorem baryToFlat_inj (m : Nat) (b b' : Bary) (h : b.1 + b.2.1 + b.2.2 + 1 = m)
    (h' : b'.1 + b'.2.1 + b'.2.2 + 1 = m) : baryToFlat m b = baryToFlat m b' ↔ b = b' := by
  constructor
  · intro he
    have h1 := baryList_get m b h
    rw [he, baryList_get m b' h'] at h1
    simpa using h1.symm
  · rintro rfl; rfl

theorem triTransform_sum (j : Nat) (b : Bary) :
    (triTransform j b).1 + (triTransform j b).2.1 + (triTransform j b).2.2 = b.1 + b.2.1 + b.2.2 := by
  simp only [triTransform, swap01, swap02, swap12]
  split <;> split <;> split <;> simp <;> omega

/-- Entry `i` of a row of the triangle table. -/
theorem triRow_get (order j i : Nat) (ho : 3 ≤ order) (hi : i < (order - 2) * (order - 1) / 2) :
    ∃ b : Bary, (baryList (order - 2))[i]? = some b ∧ b.1 + b.2.1 + b.2.2 + 1 = order - 2 ∧
      (triRow order j)[i]? = some (baryToFlat (order - 2) (triTransform j b)) := by
  have hl := baryList_length (order - 2)
  rw [show order - 2 + 1 = order - 1 by omega] at hl
  have hi' : i < (baryList (order - 2)).length := by omega
  refine ⟨(baryList (order-2))[i], List.getElem?_eq_getElem hi', ?_, ?_⟩
  · exact baryList_mem _ _ (List.getElem_mem hi')
  · rw [triRow, if_neg (by omega), List.getElem?_map, List.getElem?_range hi]
    simp [List.getD, List.getElem?_eq_getElem hi']

theorem triTransform_inj (j : Nat) (b b' : Bary) (h : triTransform j b = triTransform j b') : b = b' := by
  obtain ⟨x, y, z⟩ := b
  obtain ⟨x', y', z'⟩ := b'
  simp only [triTransform, swap01, swap02, swap12] at h
  split at h <;> split at h <;> split at h <;> simp_all

theorem baryList_nodup (m : Nat) : (baryList m).Nodup := by
  rw [List.nodup_iff_injective_get]
  intro i j hij
  have key : ∀ i : Fin (baryList m).length, baryToFlat m ((baryList m).get i) = i := by
    have : ∀ i j, i < m → j < m - i → (baryList m)[baryToFlat m (m - 1 - (i + j), j, i)]? = some (m - 1 - (i + j), j, i) :=
      fun i j hi hj => baryList_get m _ (by simp only; omega)
    -- every position is of the form offset i + j
    have pos : ∀ r, r ≤ m → ∀ p, p < ((List.range r).map fun i => m - i).sum →
        ∃ i j, i < r ∧ j < m - i ∧ p = ((List.range i).map fun i => m - i).sum + j := by
      intro r
      induction r with
      | zero => intro _ p hp; simp at hp
      | succ r ih =>
        intro hr p hp
        rw [List.range_succ, List.map_append, List.sum_append] at hp
        simp only [List.map_cons, List.map_nil, List.sum_cons, List.sum_nil, Nat.add_zero] at hp
        by_cases h : p < ((List.range r).map fun i => m - i).sum
        · obtain ⟨i, j, h1, h2, h3⟩ := ih (by omega) p h
          exact ⟨i, j, by omega, h2, h3⟩
        · exact ⟨r, p - ((List.range r).map fun i => m - i).sum, by omega, by omega, by omega⟩
    rintro ⟨p, hp⟩
    have hl : (baryList m).length = ((List.range m).map fun i => m - i).sum := by
      simp [baryList, List.length_flatMap]
    obtain ⟨i, j, h1, h2, h3⟩ := pos m (Nat.le_refl _) p (by omega)
    have h4 := this i j h1 h2
    have h5 := flat_eq_offset m i j (by omega)
    rw [← h3] at h5
    rw [h5, List.getElem?_eq_getElem hp] at h4
    simp only [Option.some.injEq] at h4
    simp only [List.get_eq_getElem, h4, h5]
  have := congrArg (baryToFlat m) hij
  rw [key, key] at this
  exact Fin.ext this

/-! ## Quadrilateral table -/

theorem quadTransform_lt (m j : Nat) (c : Nat × Nat) (h1 : c.1 < m) (h2 : c.2 < m) :
    (quadTransform m j c).1 < m ∧ (quadTransform m j c).2 < m := by
  simp only [quadTransform]
  split <;> split <;> split <;> split <;> (constructor <;> (try dsimp only) <;> omega)

theorem quadTransform_inj (m j : Nat) (c c' : Nat × Nat) (h1 : c.1 < m) (h2 : c.2 < m) (h1' : c'.1 < m) (h2' : c'.2 < m)
    (h : quadTransform m j c = quadTransform m j c') : c = c' := by
  obtain ⟨x, y⟩ := c
  obtain ⟨x', y'⟩ := c'
  simp only [quadTransform] at h
  simp only at h1 h2 h1' h2'
  split at h <;> split at h <;> split at h <;> split at h <;> simp only [Prod.mk.injEq] at h ⊢ <;> omega

theorem cart_inj (m : Nat) (c c' : Nat × Nat) (h1 : c.1 < m) (h1' : c'.1 < m) :
    c.1 + m * c.2 = c'.1 + m * c'.2 ↔ c = c' := by
  constructor
  · intro h
    have hm : 0 < m := by omega
    have a := congrArg (· % m) h
    have b := congrArg (· / m) h
    simp only [Nat.add_mul_mod_self_left, Nat.mod_eq_of_lt h1, Nat.mod_eq_of_lt h1',
      Nat.add_mul_div_left _ _ hm, Nat.div_eq_of_lt h1, Nat.div_eq_of_lt h1'] at a b
    exact Prod.ext a (by omega)
  · rintro rfl; rfl

theorem cart_lt (m : Nat) (c : Nat × Nat) (h1 : c.1 < m) (h2 : c.2 < m) : c.1 + m * c.2 < m * m := by
  calc c.1 + m * c.2 < m + m * c.2 := by omega
    _ = m * (c.2 + 1) := by ring
    _ ≤ m * m := Nat.mul_le_mul_left _ h2

theorem quadRow_get (order j i : Nat) (ho : 2 ≤ order) (hi : i < (order - 1) * (order - 1)) :
    i % (order - 1) < order - 1 ∧ i / (order - 1) < order - 1 ∧
    (quadRow order j)[i]? = some ((quadTransform (order - 1) j (i % (order - 1), i / (order - 1))).1 +
        (order - 1) * (quadTransform (order - 1) j (i % (order - 1), i / (order - 1))).2) := by
  refine ⟨Nat.mod_lt _ (by omega), Nat.div_lt_of_lt_mul hi, ?_⟩
  rw [quadRow, if_neg (by omega), List.getElem?_map, List.getElem?_range hi]
  rfl

end Verif.Lagrange

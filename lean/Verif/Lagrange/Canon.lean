import Verif.Lagrange.Orient
import Mathlib.Tactic.Order

namespace Verif.Lagrange

set_option linter.unusedSimpArgs false
set_option linter.unusedSectionVars false

variable {α : Type} [LinearOrder α]

/-- Two points of a face, given as lists of (global vertex id, weight of this vertex), are the same
point: whenever both lists mention the same vertex, they do so with the same weight. -/
def SamePoint (P P' : List (α × Nat)) : Prop :=
  ∀ x w w', (x, w) ∈ P → (x, w') ∈ P' → w = w'

theorem SamePoint.congr {P S P' S' : List (α × Nat)} (h : ∀ p, p ∈ P ↔ p ∈ S) (h' : ∀ p, p ∈ P' ↔ p ∈ S') :
    SamePoint P P' ↔ SamePoint S S' := by
  simp only [SamePoint, h, h']

/-! ## Triangles -/

theorem tri_canon (v0 v1 v2 : α) (h01 : v0 ≠ v1) (h02 : v0 ≠ v2) (h12 : v1 ≠ v2) :
    ∃ u0 u1 u2, u0 < u1 ∧ u1 < u2 ∧ (∀ x, x ∈ [v0, v1, v2] ↔ x ∈ [u0, u1, u2]) ∧
      ∀ (b : Bary) (p : α × Nat), p ∈ [(v0, b.1 + 1), (v1, b.2.1 + 1), (v2, b.2.2 + 1)] ↔
        p ∈ [(u0, (triTransform (triOrientation (decide (v0 > v1)) (decide (v0 > v2)) (decide (v1 > v2))) b).1 + 1),
             (u1, (triTransform (triOrientation (decide (v0 > v1)) (decide (v0 > v2)) (decide (v1 > v2))) b).2.1 + 1),
             (u2, (triTransform (triOrientation (decide (v0 > v1)) (decide (v0 > v2)) (decide (v1 > v2))) b).2.2 + 1)] := by
  rcases lt_or_gt_of_ne h01 with a | a <;> rcases lt_or_gt_of_ne h02 with b | b <;>
    rcases lt_or_gt_of_ne h12 with c | c
  · have e : triOrientation false false false = 0 := by decide
    refine ⟨v0, v1, v2, a, c, by simp, ?_⟩
    intro w p
    simp only [gt_iff_lt, a, b, c, not_lt_of_gt a, not_lt_of_gt b, not_lt_of_gt c, decide_true, decide_false, e]
    simp [triTransform]
  · have e : triOrientation false false true = 4 := by decide
    refine ⟨v0, v2, v1, b, c, by simp; tauto, ?_⟩
    intro w p
    simp only [gt_iff_lt, a, b, c, not_lt_of_gt a, not_lt_of_gt b, not_lt_of_gt c, decide_true, decide_false, e]
    simp [triTransform, swap12, swap01, swap02]; tauto
  · exfalso; order
  · have e : triOrientation false true true = 1 := by decide
    refine ⟨v2, v0, v1, b, a, by simp; tauto, ?_⟩
    intro w p
    simp only [gt_iff_lt, a, b, c, not_lt_of_gt a, not_lt_of_gt b, not_lt_of_gt c, decide_true, decide_false, e]
    simp [triTransform, swap12, swap01, swap02]; tauto
  · have e : triOrientation true false false = 6 := by decide
    refine ⟨v1, v0, v2, a, b, by simp; tauto, ?_⟩
    intro w p
    simp only [gt_iff_lt, a, b, c, not_lt_of_gt a, not_lt_of_gt b, not_lt_of_gt c, decide_true, decide_false, e]
    simp [triTransform, swap12, swap01, swap02]; tauto
  · exfalso; order
  · have e : triOrientation true true false = 2 := by decide
    refine ⟨v1, v2, v0, c, b, by simp; tauto, ?_⟩
    intro w p
    simp only [gt_iff_lt, a, b, c, not_lt_of_gt a, not_lt_of_gt b, not_lt_of_gt c, decide_true, decide_false, e]
    simp [triTransform, swap12, swap01, swap02]; tauto
  · have e : triOrientation true true true = 5 := by decide
    refine ⟨v2, v1, v0, c, a, by simp; tauto, ?_⟩
    intro w p
    simp only [gt_iff_lt, a, b, c, not_lt_of_gt a, not_lt_of_gt b, not_lt_of_gt c, decide_true, decide_false, e]
    simp [triTransform, swap12, swap01, swap02]; tauto

theorem sorted3_unique {u0 u1 u2 t0 t1 t2 : α} (a : u0 < u1) (b : u1 < u2) (c : t0 < t1) (d : t1 < t2)
    (h : ∀ x, x ∈ [u0, u1, u2] ↔ x ∈ [t0, t1, t2]) : u0 = t0 ∧ u1 = t1 ∧ u2 = t2 := by
  simp only [List.mem_cons, List.not_mem_nil, or_false] at h
  have h0 := (h u0).mp (Or.inl rfl)
  have h2 := (h u2).mp (Or.inr (Or.inr rfl))
  have h1 := (h u1).mp (Or.inr (Or.inl rfl))
  rcases h0 with h0 | h0 | h0 <;> rcases h1 with h1 | h1 | h1 <;> rcases h2 with h2 | h2 | h2 <;>
    first | exact ⟨h0, h1, h2⟩ | (exfalso; order)

theorem samePoint3 {u0 u1 u2 : α} (a : u0 < u1) (b : u1 < u2) (x y : Bary) :
    SamePoint [(u0, x.1 + 1), (u1, x.2.1 + 1), (u2, x.2.2 + 1)] [(u0, y.1 + 1), (u1, y.2.1 + 1), (u2, y.2.2 + 1)] ↔ x = y := by
  constructor
  · intro h
    have h1 := h u1 (x.2.1 + 1) (y.2.1 + 1) (by simp) (by simp)
    have h2 := h u2 (x.2.2 + 1) (y.2.2 + 1) (by simp) (by simp)
    have k := h u0 (x.1 + 1) (y.1 + 1) (by simp) (by simp)
    obtain ⟨x0, x1, x2⟩ := x
    obtain ⟨y0, y1, y2⟩ := y
    simp only [Prod.mk.injEq] at *
    omega
  · rintro rfl z w w' hw hw'
    have n01 : u0 ≠ u1 := ne_of_lt a
    have n12 : u1 ≠ u2 := ne_of_lt b
    have n02 : u0 ≠ u2 := ne_of_lt (lt_trans a b)
    simp only [List.mem_cons, Prod.mk.injEq, List.not_mem_nil, or_false] at hw hw'
    rcases hw with ⟨rfl, rfl⟩ | ⟨rfl, rfl⟩ | ⟨rfl, rfl⟩ <;> rcases hw' with ⟨h, rfl⟩ | ⟨h, rfl⟩ | ⟨h, rfl⟩ <;>
      first | rfl | exact absurd h ‹_› | exact absurd h.symm ‹_›

/-! ## Quadrilaterals -/

/-- Weights of the four vertices (bilinear shape functions times `(m+1)²`) at the point number
`(x,y)`, `x,y<m`. -/
def quadWeight (m : Nat) (c : Nat × Nat) : List Nat :=
  [(m - c.1) * (m - c.2), (c.1 + 1) * (m - c.2), (m - c.1) * (c.2 + 1), (c.1 + 1) * (c.2 + 1)]

/-- How the weights are permuted by the transformation for the orientation `8+j`. -/
def gq (o : Nat) : List Nat :=
  ([[0,1,2,3],[2,0,3,1],[3,2,1,0],[1,3,0,2],[0,2,1,3],[2,3,0,1],[3,1,2,0],[1,0,3,2]] : List (List Nat)).getD (o - 8) []

theorem quadWeight_transform (m o : Nat) (h8 : 8 ≤ o) (h16 : o < 16) (c : Nat × Nat) (hx : c.1 < m) (hy : c.2 < m) :
    quadWeight m (quadTransform m (o - 8) c) = (gq o).map fun a => (quadWeight m c).getD a 0 := by
  obtain ⟨x, y⟩ := c
  simp only at hx hy
  have e1 : m - (m - 1 - x) = x + 1 := by omega
  have e2 : m - (m - 1 - y) = y + 1 := by omega
  have e3 : m - 1 - x + 1 = m - x := by omega
  have e4 : m - 1 - y + 1 = m - y := by omega
  interval_cases o <;> simp [quadWeight, quadTransform, gq, e1, e2, e3, e4, Nat.mul_comm]

/-- The comparisons of four different numbers. -/
def cmp4 (a01 a02 a03 a12 a13 a23 : Bool) (x y : Nat) : Bool :=
  match x, y with
  | 0, 1 => a01 | 0, 2 => a02 | 0, 3 => a03 | 1, 2 => a12 | 1, 3 => a13 | 2, 3 => a23
  | 1, 0 => !a01 | 2, 0 => !a02 | 3, 0 => !a03 | 2, 1 => !a12 | 3, 1 => !a13 | 3, 2 => !a23
  | _, _ => false

def trans4 (L : Nat → Nat → Bool) : Bool :=
  (List.range 4).all fun x => (List.range 4).all fun y => (List.range 4).all fun z =>
    !(L x y && L y z) || x == z || L x z

theorem quad_table : ∀ a01 a02 a03 a12 a13 a23 : Bool,
    let L := cmp4 a01 a02 a03 a12 a13 a23
    trans4 L = true → (∀ x < 4, ∀ y < 4, L x y = true → L y x = false) →
    let o := quadOrientation (!a02) (!a13) (!a01) (!a23) L
    8 ≤ o ∧ o < 16 ∧ L ((gq o).getD 0 0) ((gq o).getD 1 0) = true ∧ L ((gq o).getD 1 0) ((gq o).getD 2 0) = true ∧
      L ((gq o).getD 0 0) ((gq o).getD 3 0) = true := by
  decide +kernel

theorem gq_table : ∀ o < 16, 8 ≤ o → ∃ p q r s, gq o = [p, q, r, s] ∧ p < 4 ∧ q < 4 ∧ r < 4 ∧ s < 4 ∧
    [p, q, r, s].Nodup ∧ p + s = 3 ∧ q + r = 3 := by
  intro o h h8
  interval_cases o <;> refine ⟨_, _, _, _, rfl, ?_⟩ <;> decide

theorem perm4 {p q r s : Nat} (hp : p < 4) (hq : q < 4) (hnd : [p, q, r, s].Nodup) (hps : p + s = 3) (hqr : q + r = 3)
    (P : Nat → Prop) : (P 0 ∨ P 1 ∨ P 2 ∨ P 3) ↔ (P p ∨ P q ∨ P r ∨ P s) := by
  obtain rfl : s = 3 - p := by omega
  obtain rfl : r = 3 - q := by omega
  interval_cases p <;> interval_cases q <;> simp at hnd <;> simp <;> tauto

theorem quad_canon (v0 v1 v2 v3 : α) (hnd : [v0, v1, v2, v3].Nodup) (lt : Nat → Nat → Bool)
    (hlt : ∀ x y, lt x y = decide ([v0, v1, v2, v3].getD x v0 < [v0, v1, v2, v3].getD y v0)) :
    let o := quadOrientation (decide (v0 > v2)) (decide (v1 > v3)) (decide (v0 > v1)) (decide (v2 > v3)) lt
    8 ≤ o ∧ o < 16 ∧ ∃ u0 u1 u2 u3, u0 < u1 ∧ u1 < u2 ∧ u0 < u3 ∧
      (∀ x, x ∈ [v0, v1, v2, v3] ↔ x ∈ [u0, u1, u2, u3]) ∧
      (∀ x y, (x, y) ∈ [(v0, v3), (v3, v0), (v1, v2), (v2, v1)] ↔ (x, y) ∈ [(u0, u3), (u3, u0), (u1, u2), (u2, u1)]) ∧
      ∀ m (c : Nat × Nat), c.1 < m → c.2 < m → ∀ p, p ∈ [v0, v1, v2, v3].zip (quadWeight m c) ↔
        p ∈ [u0, u1, u2, u3].zip (quadWeight m (quadTransform m (o - 8) c)) := by
  intro o
  let V : Nat → α := fun x => [v0, v1, v2, v3].getD x v0
  have hne : ∀ x < 4, ∀ y < 4, x ≠ y → V x ≠ V y := by
    simp only [List.nodup_cons, List.mem_cons, List.not_mem_nil, or_false, not_or] at hnd
    obtain ⟨⟨n1, n2, n3⟩, ⟨n4, n5⟩, n6, -⟩ := hnd
    intro x hx y hy
    interval_cases x <;> interval_cases y <;> simp [V, n1, n2, n3, n4, n5, n6, Ne.symm n1, Ne.symm n2, Ne.symm n3, Ne.symm n4,
      Ne.symm n5, Ne.symm n6]
  let L := cmp4 (decide (V 0 < V 1)) (decide (V 0 < V 2)) (decide (V 0 < V 3)) (decide (V 1 < V 2)) (decide (V 1 < V 3))
    (decide (V 2 < V 3))
  have hneg : ∀ x < 4, ∀ y < 4, x ≠ y → (!decide (V x < V y)) = decide (V y < V x) := by
    intro x hx y hy hxy
    have := hne x hx y hy hxy
    by_cases h : V x < V y
    · simp [h, le_of_lt h]
    · simp [h, lt_of_le_of_ne (not_lt.mp h) (Ne.symm this)]
  have hL : ∀ x < 4, ∀ y < 4, L x y = decide (V x < V y) := by
    intro x hx y hy
    interval_cases x <;> interval_cases y <;>
      first
      | rfl
      | simp [L, cmp4]; done
      | exact hneg _ (by omega) _ (by omega) (by omega)
  have htr : trans4 L = true := by
    simp only [trans4, List.all_eq_true, List.mem_range]
    intro x hx y hy z hz
    rw [hL x hx y hy, hL y hy z hz, hL x hx z hz]
    by_cases h1 : V x < V y <;> by_cases h2 : V y < V z <;> simp [h1, h2]
    exact Or.inr (lt_trans h1 h2)
  have has : ∀ x < 4, ∀ y < 4, L x y = true → L y x = false := by
    intro x hx y hy
    rw [hL x hx y hy, hL y hy x hx]
    simp only [decide_eq_true_eq, decide_eq_false_iff_not, not_lt]
    exact le_of_lt
  have hT := quad_table _ _ _ _ _ _ htr has
  have ho : o = quadOrientation (!decide (V 0 < V 2)) (!decide (V 1 < V 3)) (!decide (V 0 < V 1)) (!decide (V 2 < V 3)) L := by
    rw [hneg 0 (by omega) 2 (by omega) (by omega), hneg 1 (by omega) 3 (by omega) (by omega),
      hneg 0 (by omega) 1 (by omega) (by omega), hneg 2 (by omega) 3 (by omega) (by omega)]
    apply quadOrientation_congr
    · rw [hlt, hL 2 (by omega) 1 (by omega)]
    · rw [hlt, hL 0 (by omega) 3 (by omega)]
    · rw [hlt, hL 3 (by omega) 0 (by omega)]
    · rw [hlt, hL 1 (by omega) 2 (by omega)]
  change (let o := _; 8 ≤ o ∧ _) at hT
  simp only at hT
  rw [← ho] at hT
  obtain ⟨h8, h16, k1, k2, k3⟩ := hT
  obtain ⟨p, q, r, s, hg, hp, hq, hr, hs, hnd', hps, hqr⟩ := gq_table o h16 h8
  rw [hg] at k1 k2 k3
  simp only [List.getD_cons_zero, List.getD_cons_succ] at k1 k2 k3
  change L p q = true at k1
  change L q r = true at k2
  change L p s = true at k3
  rw [hL p hp q hq, decide_eq_true_eq] at k1
  rw [hL q hq r hr, decide_eq_true_eq] at k2
  rw [hL p hp s hs, decide_eq_true_eq] at k3
  refine ⟨h8, h16, V p, V q, V r, V s, k1, k2, k3, ?_, ?_, ?_⟩
  · intro x
    simpa [V] using perm4 hp hq hnd' hps hqr fun a => x = V a
  · intro x y
    have := perm4 hp hq hnd' hps hqr fun a => x = V a ∧ y = V (3 - a)
    rw [show 3 - p = s by omega, show 3 - q = r by omega, show 3 - r = q by omega, show 3 - s = p by omega] at this
    simp only [List.mem_cons, List.not_mem_nil, or_false, Prod.mk.injEq]
    have key : ∀ a b c d : Prop, (a ∨ d ∨ b ∨ c) ↔ (a ∨ b ∨ c ∨ d) := by
      clear * -
      intro a b c d
      tauto
    exact (key _ _ _ _).trans (Iff.trans this (key _ _ _ _).symm)
  · intro m c hx hy pr
    rw [quadWeight_transform m o h8 h16 c hx hy, hg]
    have := perm4 hp hq hnd' hps hqr fun a => pr = (V a, (quadWeight m c).getD a 0)
    simpa [V, quadWeight] using this

theorem quad_unique {u0 u1 u2 u3 t0 t1 t2 t3 : α} (a : u0 < u1) (b : u1 < u2) (c : u0 < u3)
    (a' : t0 < t1) (b' : t1 < t2) (c' : t0 < t3)
    (h : ∀ x, x ∈ [u0, u1, u2, u3] ↔ x ∈ [t0, t1, t2, t3])
    (hd : ∀ x y, (x, y) ∈ [(u0, u3), (u3, u0), (u1, u2), (u2, u1)] ↔ (x, y) ∈ [(t0, t3), (t3, t0), (t1, t2), (t2, t1)]) :
    u0 = t0 ∧ u1 = t1 ∧ u2 = t2 ∧ u3 = t3 := by
  simp only [List.mem_cons, List.not_mem_nil, or_false, Prod.mk.injEq] at h hd
  have h0 : u0 = t0 := by
    have h1 := (h u0).mp (Or.inl rfl)
    have h2 := (h t0).mpr (Or.inl rfl)
    rcases h1 with h1 | h1 | h1 | h1 <;> rcases h2 with h2 | h2 | h2 | h2 <;> order
  subst h0
  have h3 := (hd u0 u3).mp (Or.inl ⟨rfl, rfl⟩)
  have h1 := (hd u1 u2).mp (Or.inr (Or.inr (Or.inl ⟨rfl, rfl⟩)))
  have h3 : u3 = t3 := by
    rcases h3 with h3 | h3 | h3 | h3 <;> obtain ⟨h3, h3'⟩ := h3 <;> order
  have h1 : u1 = t1 ∧ u2 = t2 := by
    rcases h1 with h1 | h1 | h1 | h1
    · exact absurd h1.1 (ne_of_gt a)
    · obtain ⟨h1, h1'⟩ := h1; exfalso; order
    · exact h1
    · obtain ⟨h1, h1'⟩ := h1; exfalso; order
  exact ⟨rfl, h1.1, h1.2, h3⟩

theorem samePoint4 {u0 u1 u2 u3 : α} (hnd : [u0, u1, u2, u3].Nodup) (m : Nat) (x y : Nat × Nat)
    (hx : x.1 < m ∧ x.2 < m) (hy : y.1 < m ∧ y.2 < m) :
    SamePoint ([u0, u1, u2, u3].zip (quadWeight m x)) ([u0, u1, u2, u3].zip (quadWeight m y)) ↔ x = y := by
  simp only [List.nodup_cons, List.mem_cons, List.not_mem_nil, or_false, not_or] at hnd
  obtain ⟨⟨n1, n2, n3⟩, ⟨n4, n5⟩, n6, -⟩ := hnd
  constructor
  · intro h
    have h0 := h u0 ((m - x.1) * (m - x.2)) ((m - y.1) * (m - y.2)) (by simp [quadWeight]) (by simp [quadWeight])
    have h1 := h u1 ((x.1 + 1) * (m - x.2)) ((y.1 + 1) * (m - y.2)) (by simp [quadWeight]) (by simp [quadWeight])
    have h2 := h u2 ((m - x.1) * (x.2 + 1)) ((m - y.1) * (y.2 + 1)) (by simp [quadWeight]) (by simp [quadWeight])
    have h3 := h u3 ((x.1 + 1) * (x.2 + 1)) ((y.1 + 1) * (y.2 + 1)) (by simp [quadWeight]) (by simp [quadWeight])
    obtain ⟨x1, x2⟩ := x
    obtain ⟨y1, y2⟩ := y
    simp only at hx hy h0 h1 h2 h3
    obtain ⟨p, hp⟩ := Nat.exists_eq_add_of_lt hx.1
    have e1 : (x1 + 1) * (m + 1) = (y1 + 1) * (m + 1) := by
      have a1 : (x1 + 1) * (m - x2) + (x1 + 1) * (x2 + 1) = (x1 + 1) * (m + 1) := by
        rw [← Nat.mul_add]; congr 1; omega
      have a2 : (y1 + 1) * (m - y2) + (y1 + 1) * (y2 + 1) = (y1 + 1) * (m + 1) := by
        rw [← Nat.mul_add]; congr 1; omega
      omega
    have e2 : (m + 1) * (x2 + 1) = (m + 1) * (y2 + 1) := by
      have a1 : (m - x1) * (x2 + 1) + (x1 + 1) * (x2 + 1) = (m + 1) * (x2 + 1) := by
        rw [← Nat.add_mul]; congr 1; omega
      have a2 : (m - y1) * (y2 + 1) + (y1 + 1) * (y2 + 1) = (m + 1) * (y2 + 1) := by
        rw [← Nat.add_mul]; congr 1; omega
      omega
    have e1 := Nat.eq_of_mul_eq_mul_right (by omega) e1
    have e2 := Nat.eq_of_mul_eq_mul_left (by omega) e2
    rw [Prod.mk.injEq]; omega
  · rintro rfl z w w' hw hw'
    simp only [quadWeight, List.zip_cons_cons, List.zip_nil_left, List.mem_cons, Prod.mk.injEq, List.not_mem_nil, or_false] at hw hw'
    rcases hw with ⟨rfl, rfl⟩ | ⟨rfl, rfl⟩ | ⟨rfl, rfl⟩ | ⟨rfl, rfl⟩ <;>
    rcases hw' with ⟨h, rfl⟩ | ⟨h, rfl⟩ | ⟨h, rfl⟩ | ⟨h, rfl⟩ <;>
      first | rfl | exact absurd h ‹_› | exact absurd h.symm ‹_›

end Verif.Lagrange

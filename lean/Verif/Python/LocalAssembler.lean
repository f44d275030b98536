import Verif.Python.Systems
import Verif.Functions.LocalMatrix
import Mathlib.Algebra.Order.BigOperators.Group.Finset

/-!
# The Poisson problem in Python

The program examples/poisson-pq2.py, with the element matrices and local vectors computed by quadrature rules.
-/

namespace Verif.PySystems

open Verif.IndexTree Verif.Galerkin
open Verif.Discrete (Shapes VecOK)
open Verif.RoundTrip (Separate)
open Verif.Product
open Finset (range)

variable {E X K : Type} [Field K]

/-! ## Model -/

/-- `localAssembler`, poisson-pq2.py:19-59. `np.dot` of a vector and a matrix, and of two vectors, is the product of linear algebra; `f` is `volumeTerm` after `toGlobal`. -/
def localAssembler (P : Shapes E X K) (Q : Quadrature E X K) (f : E → X → K) (v : LocalView E) : Option ((Nat → Nat → K) × (Nat → K)) :=
  v.element.bind fun e => (Q.rule e).foldlM (fun s pt => (List.range v.size).foldlM (fun s i =>
    ((List.range v.size).foldlM (fun M j => addAt v.size M i j (pt.2 * Q.integrationElement e pt.1 * gradients P [] e pt.1 i j)) s.1).bind fun M =>
    (addAtVec v.size s.2 i (pt.2 * Q.integrationElement e pt.1 * entryOf (shapeOf P false [] e pt.1 i) 0 0 * f e pt.1)).map fun b => (M, b)) s) (fun _ _ => 0, fun _ => 0)

/-- One element, poisson-pq2.py:81-101. -/
def stepWith (n : Nat) (pb : PreBasis E) (loc : LocalView E → Option ((Nat → Nat → K) × (Nat → K))) (s : LocalView E × (Nat → Nat → K) × (Nat → K)) (e : E) :
    Option (LocalView E × (Nat → Nat → K) × (Nat → K)) :=
  (s.1.bind pb e).bind fun v => (loc v).bind fun l => (bothLoop n v l.1 l.2 s.2).map fun s => (v, s)

/-- `assembleLaplaceMatrix`, poisson-pq2.py:65-104. -/
def assembleLaplace (n : Nat) (pb : PreBasis E) (loc : LocalView E → Option ((Nat → Nat → K) × (Nat → K))) (els : List E) : Option ((Nat → Nat → K) × (Nat → K)) :=
  (els.foldlM (stepWith n pb loc) (LocalView.fresh pb, fun _ _ => 0, fun _ => 0)).map Prod.snd

/-! ## Specification -/

/-- The discrete function with the entries of a vector of numpy as coefficients. -/
def discrete (x : Nat → K) : Discrete.Vec K := fun m => some [flat x m]

/-- The discrete Poisson problem: `x` has the given coefficients, and `∫ ∇x·∇w = ∫ f w` for all `w` without these coefficients. -/
def Poisson (b : PB E) (P : Shapes E X K) (Q : Quadrature E X K) (f : E → X → K) (els : List E) (n : Nat) (mark g x : Nat → K) : Prop :=
  (∀ i < n, mark i ≠ 0 → x i = g i) ∧ ∀ w : Nat → K, (∀ i < n, mark i ≠ 0 → w i = 0) →
    integral Q els (fun e y => ∑ k ∈ range P.dimworld, valueOf b P (discrete x) true [] e y 0 k * valueOf b P (discrete w) true [] e y 0 k) =
      integral Q els fun e y => valueOf b P (discrete w) false [] e y 0 0 * f e y

/-! ## Proofs -/

/-- The local assembler computes the same as the two functions of the C++ program. -/
theorem localAssembler_eq (P : Shapes E X K) (Q : Quadrature E X K) (f : E → X → K) {v : LocalView E} {M : Nat → Nat → K} {l : Nat → K} (hM : laplaceMatrix P Q v = some M)
    (hl : volumeTerm P Q f v = some l) : localAssembler P Q f v = some (M, l) := by
  obtain ⟨e, e1, e2⟩ := Option.bind_eq_some_iff.1 hM
  rw [volumeTerm, e1, Option.bind_some] at hl
  rw [localAssembler, e1, Option.bind_some]
  refine loop_pair _ _ _ _ ?_ _ _ M l e2 hl
  intro A b pt _ A' b' h1 h2
  refine loop_pair _ _ _ _ ?_ A b A' b' h1 h2
  intro A b i _ A' b' h1 h2
  have h : ∀ j, pt.2 * Q.integrationElement e pt.1 * gradients P [] e pt.1 i j = gradients P [] e pt.1 i j * pt.2 * Q.integrationElement e pt.1 := fun j => by ring
  simp only [h]
  rw [h1, Option.bind_some, show pt.2 * Q.integrationElement e pt.1 * entryOf (shapeOf P false [] e pt.1 i) 0 0 * f e pt.1 =
    entryOf (shapeOf P false [] e pt.1 i) 0 0 * f e pt.1 * pt.2 * Q.integrationElement e pt.1 by ring, h2]
  rfl

/-- If the local matrices and vectors represent given forms, assembling uses data that only depend on the element. -/
theorem both_with {b : PB E} (hb : b.WF) (n : Nat) {loc : LocalView E → Option ((Nat → Nat → K) × (Nat → K))} {F : E → (Nat → K) × (Nat → K) → K} {G : E → (Nat → K) → K}
    (hloc : ∀ (lv v : LocalView E) e, lv.tree.blank = b.model.makeNode.blank → lv.bind b.model e = some v → ∃ M l, loc v = some (M, l) ∧ (∀ w, lform (idx b.model e).length M w = F e w) ∧
      ∀ w, ∑ i ∈ range (idx b.model e).length, w i * l i = G e w) :
    ∃ (a : E → Nat → Nat → K) (l : E → Nat → K), (∀ els, assembleLaplace n b.model loc els = pyLaplace n b.model a l els) ∧
      (∀ e w, lform (idx b.model e).length (a e) w = F e w) ∧ ∀ e w, ∑ i ∈ range (idx b.model e).length, w i * l e i = G e w := by
  have hfresh := fun e => bind_view b hb (LocalView.fresh_blank b.model) e
  choose v0 hv0 _ _ _ using hfresh
  have h0 := fun e => hloc _ _ e (LocalView.fresh_blank b.model) (hv0 e)
  choose a l _ ha hl using h0
  refine ⟨a, l, fun els => ?_, ha, hl⟩
  rw [assembleLaplace, pyLaplace]
  congr 1
  have : ∀ s : LocalView E × (Nat → Nat → K) × (Nat → K), s.1.tree.blank = b.model.makeNode.blank → els.foldlM (stepWith n b.model loc) s = els.foldlM (bothStep n b.model a l) s := by
    induction els with
    | nil => intro s _; rfl
    | cons e els ih =>
      intro s hs
      obtain ⟨v, v1, v2, v3, v4⟩ := bind_view b hb hs e
      obtain ⟨M, g, m1, m2, m3⟩ := hloc _ v e hs v1
      have hstep : stepWith n b.model loc s e = bothStep n b.model a l s e := by
        rw [stepWith, bothStep, v1, Option.bind_some, Option.bind_some, m1, Option.bind_some, bothLoop, bothLoop]
        congr 1
        refine foldlM_range_congr rfl (fun A i hi => ?_) _
        rw [v3] at hi
        have he : ∀ g : Nat → K, ∑ k ∈ range (idx b.model e).length, (if k = i then 1 else 0) * g k = g i := fun g => by
          rw [Finset.sum_eq_single i (fun k _ hk => by simp [hk]) (fun h => absurd (Finset.mem_range.2 hi) h)]
          simp
        have hg : g i = l e i := by rw [← he g, ← he (l e), m3, hl]
        dsimp only
        rw [hg]
        congr 1
        funext r
        congr 1
        funext b'
        congr 1
        refine foldlM_range_congr rfl (fun A j hj => ?_) _
        rw [v3] at hj
        rw [lform_entry (fun w => (m2 w).trans (ha e w).symm) hi hj]
      rw [List.foldlM_cons, List.foldlM_cons, hstep]
      cases hm : bothStep n b.model a l s e with
      | none => rfl
      | some s' =>
        refine ih s' ?_
        rw [bothStep, v1, Option.bind_some] at hm
        obtain ⟨A, -, rfl⟩ := Option.map_eq_some_iff.1 hm
        exact v2
  exact this _ (LocalView.fresh_blank b.model)

theorem rule_zero [LinearOrder K] [IsStrictOrderedRing K] {R : List (X × K)} {q c : X × K → K} (hc : ∀ pt ∈ R, 0 < c pt) (hq : ∀ pt ∈ R, 0 ≤ q pt) (h : (R.map fun pt => q pt * c pt).sum = 0) :
    ∀ pt ∈ R, q pt = 0 := by
  intro pt hp
  by_contra hne
  exact (sum_pos (fun pt => q pt * c pt) R (fun pt hp => mul_nonneg (hq pt hp) (hc pt hp).le) ⟨pt, hp, mul_pos (lt_of_le_of_ne (hq pt hp) (Ne.symm hne)) (hc pt hp)⟩).ne' h

/-! ## Theorem -/

/-- **C120.** The program of examples/poisson-pq2.py, for a basis with scalar finite elements: the solutions of the linear system are the coefficients of the solutions of the discrete Poisson problem, if
weights and integration elements are positive, linear combinations of shape functions whose gradient vanishes at all quadrature points have equal coefficients, and constrained coefficients belong to
elements with other coefficients. -/
theorem C120_program [LinearOrder K] [IsStrictOrderedRing K] {L : Leaf E} (hb : (PB.leaf L).WF) {n : Nat} (hn : FlatBasis (PB.leaf L).model n) {P : Shapes E X K}
    (hP : P.OK ⟨(PB.leaf L).model, []⟩) (hd : P.dimC = 1) (hsep : Separate ⟨(PB.leaf L).model, []⟩ P) (hne : ∀ e, L.loc e ≠ []) (hrow : P.rows [] = 1)
    (Q : Quadrature E X K) (f : E → X → K) (els : List E) (mark g : Nat → K) (hQ : ∀ e ∈ els, ∀ pt ∈ Q.rule e, 0 < pt.2 ∧ 0 < Q.integrationElement e pt.1)
    (hgrad : ∀ e ∈ els, ∀ y : Nat → K, (∀ pt ∈ Q.rule e, ∀ k < P.dimworld, ∑ j ∈ range (L.loc e).length, y j * entryOf (jacobian P [] e pt.1 j) 0 k = 0) →
      ∀ i < (L.loc e).length, ∀ j < (L.loc e).length, y i = y j)
    (hc : ∀ i < n, mark i ≠ 0 → ∃ e ∈ els, [i] ∈ idx (PB.leaf L).model e ∧ ∃ m ∈ idx (PB.leaf L).model e, m ≠ [i]) :
    ∃ A rhs, assembleLaplace n (PB.leaf L).model (localAssembler P Q f) els = some (A, rhs) ∧
      ∀ x, PySolves n (pyRows n mark g A rhs).1 (pyRows n mark g A rhs).2 x ↔ Poisson (.leaf L) P Q f els n mark g x := by
  obtain ⟨a, l, a1, a2, a3⟩ := both_with hb n fun lv v e h1 h2 => by
    obtain ⟨M, m1, m2⟩ := laplace_local hb P Q h1 h2
    obtain ⟨l, l1, l2⟩ := volume_local hb P Q f h1 h2
    exact ⟨M, l, localAssembler_eq P Q f m1 l1, m2, l2⟩
  have hlen : ∀ e, (idx (PB.leaf L).model e).length = (L.loc e).length := fun e => by
    obtain ⟨v, v1, -⟩ := bind_view (.leaf L) hb (LocalView.fresh_blank _) e
    obtain ⟨-, h2, t, h3, h4, -⟩ := part_view hb (.leaf L) rfl (LocalView.fresh_blank _) v1
    rw [Node.child, Option.some.injEq] at h3
    rw [← h2, LocalView.size, h3, h4]
  have hen : ∀ e y, energy (PB.leaf L).model a e y = ((Q.rule e).map fun pt =>
      (∑ k ∈ range P.dimworld, (∑ j ∈ range (L.loc e).length, y j * entryOf (jacobian P [] e pt.1 j) 0 k) * ∑ j ∈ range (L.loc e).length, y j * entryOf (jacobian P [] e pt.1 j) 0 k) *
        (pt.2 * Q.integrationElement e pt.1)).sum := fun e y => by
    have := a2 e (y, y)
    rw [firstOf_root] at this
    simp only [Nat.zero_add, mul_assoc] at this ⊢
    rw [← this]
    simp only [energy, lform, lsum, mul_assoc]
  have hpos : ∀ e ∈ els, ∀ pt ∈ Q.rule e, 0 < pt.2 * Q.integrationElement e pt.1 := fun e he pt hp => mul_pos (hQ e he pt hp).1 (hQ e he pt hp).2
  obtain ⟨A, rhs, h1, h2⟩ := C118_laplace hb hn a l els mark g
    (fun e he y => by
      rw [hen]
      refine List.sum_nonneg fun z hz => ?_
      obtain ⟨pt, hp, rfl⟩ := List.mem_map.1 hz
      exact mul_nonneg (Finset.sum_nonneg fun k _ => mul_self_nonneg _) (hpos e he pt hp).le)
    (fun e he y h => by
      rw [hen] at h
      rw [hlen]
      refine hgrad e he y fun pt hp k hk => ?_
      have := rule_zero (hpos e he) (fun pt _ => Finset.sum_nonneg fun k _ => mul_self_nonneg _) h pt hp
      exact mul_self_eq_zero.1 ((Finset.sum_eq_zero_iff_of_nonneg fun k _ => mul_self_nonneg _).1 this k (Finset.mem_range.2 hk))) hc
  refine ⟨A, rhs, (a1 els).trans h1, fun x => ?_⟩
  have hv : ∀ u : Nat → K, VecOK ⟨(PB.leaf L).model, []⟩ 1 (discrete u) := fun u m _ => ⟨_, rfl, rfl⟩
  have hcf : ∀ u : Nat → K, coef (discrete u) = flat u := fun u => rfl
  rw [h2, Poisson]
  refine and_congr_right fun _ => forall_congr' fun w => imp_congr_right fun _ => ?_
  have hgr : ∀ u : Nat → K, ∀ e y, ∀ k ∈ range P.dimworld, ∑ i ∈ range (L.loc e).length, onElement (.leaf L) e (flat u) (firstOf (.leaf L) [] e + i) * entryOf (jacobian P [] e y i) 0 k =
      valueOf (.leaf L) P (discrete u) true [] e y 0 k := fun u e y k hk => by
    rw [← valueOf_local hb hP hd hsep (hv u) true (.leaf L) rfl (hne e) y (by rw [hrow]; exact Nat.one_pos) (show k < P.outCols true from Finset.mem_range.1 hk), hcf]
    rfl
  have hva : ∀ u : Nat → K, ∀ e y, ∑ i ∈ range (L.loc e).length, onElement (.leaf L) e (flat u) (firstOf (.leaf L) [] e + i) * entryOf (shapeOf P false [] e y i) 0 0 =
      valueOf (.leaf L) P (discrete u) false [] e y 0 0 := fun u e y => by
    rw [← valueOf_local hb hP hd hsep (hv u) false (.leaf L) rfl (hne e) y (by rw [hrow]; exact Nat.one_pos) (show 0 < P.outCols false from Nat.one_pos), hcf]
    rfl
  have e1 : bilinear (PB.leaf L).model a els (flat x) (flat w) =
      integral Q els (fun e y => ∑ k ∈ range P.dimworld, valueOf (.leaf L) P (discrete x) true [] e y 0 k * valueOf (.leaf L) P (discrete w) true [] e y 0 k) := by
    rw [bilinear, integral]
    congr 1
    refine List.map_congr_left fun e _ => ?_
    refine (a2 e (onElement (.leaf L) e (flat x), onElement (.leaf L) e (flat w))).trans ?_
    congr 1
    refine List.map_congr_left fun pt _ => ?_
    congr 2
    exact Finset.sum_congr rfl fun k hk => by rw [← hgr x e pt.1 k hk, ← hgr w e pt.1 k hk]
  have e2 : linear (PB.leaf L).model l els (flat w) = integral Q els fun e y => valueOf (.leaf L) P (discrete w) false [] e y 0 0 * f e y := by
    rw [linear, integral]
    congr 1
    refine List.map_congr_left fun e _ => ?_
    refine (a3 e (onElement (.leaf L) e (flat w))).trans ?_
    congr 1
    refine List.map_congr_left fun pt _ => ?_
    rw [← hva w e pt.1]
  rw [e1, e2]

/-! ## Example -/

/-- Two intervals with linear elements and the rule of Simpson: matrix and right-hand side for `f = 1`. -/
example : (assembleLaplace 3 Galerkin.exLine.model (localAssembler exP1 exSimpson fun _ _ => 1) [0, 1]).map (fun s =>
    ([0, 1, 2].map fun i => [0, 1, 2].map fun j => s.1 i j, [0, 1, 2].map s.2)) = some ([[2, -2, 0], [-2, 4, -2], [0, -2, 2]], [1 / 4, 1 / 2, 1 / 4]) := by decide +kernel

theorem line_idx (e : Fin 2) : idx Galerkin.exLine.model e = [[e.1], [e.1 + 1]] := by rw [idx_eq _ Galerkin.exLine_WF]; revert e; decide +kernel

theorem line_flat : FlatBasis Galerkin.exLine.model 3 := by
  intro m hm
  rw [indexSet_eq Galerkin.exLine_WF] at hm
  obtain ⟨e, d, hd, hm⟩ := hm
  have h : ∀ e : Fin 2, ∀ d ∈ Galerkin.exLine.spec.loc e, ∃ i < 3, Galerkin.exLine.spec.mi d = [i] := by decide +kernel
  exact hm ▸ h e d hd

/-- Prescribed values at both ends of the interval. -/
example (f : Fin 2 → ℚ → ℚ) (g : Nat → ℚ) : ∃ A rhs, assembleLaplace 3 Galerkin.exLine.model (localAssembler exP1 exSimpson f) [0, 1] = some (A, rhs) ∧
    ∀ x, PySolves 3 (pyRows 3 (fun i => if i = 1 then 0 else 1) g A rhs).1 (pyRows 3 (fun i => if i = 1 then 0 else 1) g A rhs).2 x ↔
      Poisson Galerkin.exLine exP1 exSimpson f [0, 1] 3 (fun i => if i = 1 then 0 else 1) g x := by
  refine C120_program Galerkin.exLine_WF line_flat exP1_OK rfl exP1_separate (by decide) rfl exSimpson f [0, 1] _ g ?_ ?_ ?_
  · intro e _ pt hp
    simp only [exSimpson, List.mem_cons, List.not_mem_nil, or_false] at hp
    refine ⟨?_, by norm_num [exSimpson]⟩
    rcases hp with rfl | rfl | rfl <;> norm_num
  · intro e _ y h i hi j hj
    have h := h (0, 1 / 6) (by simp [exSimpson]) 0 Nat.one_pos
    have j0 : entryOf (jacobian exP1 [] e (0, (1 : ℚ) / 6).1 0) 0 0 = -2 := (by decide +kernel : ∀ e : Fin 2, entryOf (jacobian exP1 [] e (0, (1 : ℚ) / 6).1 0) 0 0 = -2) e
    have j1 : entryOf (jacobian exP1 [] e (0, (1 : ℚ) / 6).1 1) 0 0 = 2 := (by decide +kernel : ∀ e : Fin 2, entryOf (jacobian exP1 [] e (0, (1 : ℚ) / 6).1 1) 0 0 = 2) e
    simp only [List.length_cons, List.length_nil] at h hi hj
    rw [Finset.sum_range_succ, Finset.sum_range_succ, Finset.sum_range_zero, j0, j1] at h
    have h : y 0 = y 1 := by linarith
    have hi : i = 0 ∨ i = 1 := by omega
    have hj : j = 0 ∨ j = 1 := by omega
    rcases hi with rfl | rfl <;> rcases hj with rfl | rfl <;> simp [h]
  · change ∀ i < 3, _ → ∃ e ∈ _, [i] ∈ idx Galerkin.exLine.model e ∧ ∃ m ∈ idx Galerkin.exLine.model e, m ≠ [i]
    simp only [line_idx]
    intro i hi hm
    have hi : i = 0 ∨ i = 2 := by
      rcases Nat.lt_trichotomy i 1 with h | h | h
      · omega
      · simp [h] at hm
      · omega
    rcases hi with rfl | rfl
    · exact ⟨0, by simp, by simp, [1], by simp, by simp⟩
    · exact ⟨1, by simp, by simp, [1], by simp, by simp⟩

end Verif.PySystems

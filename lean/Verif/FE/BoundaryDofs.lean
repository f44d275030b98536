import Verif.FE.TriangleSpace
import Verif.FE.HermiteSpace
import Verif.Dofs.BoundaryLeaf

/-!
# Boundary DOFs of the Hermite, Morley and Argyris bases

What the degrees of freedom visited by `forEachBoundaryDOF` say about the discrete function on the boundary.
-/

namespace Verif.FE.BoundaryDofs

open Verif.FE Verif.Mapper Verif.Lagrange Verif.FE.Triangle Verif.FE.Conform Verif.FE.TriangleInterp Verif.FE.TriangleSpace Verif.FE.Interpolation
open Verif.Dofs (BIsect Visit leafCalls leafCalls_spec BoundaryOK Agree stdInc)
open MvPolynomial (pderiv eval)

variable {E S : Type}

/-! ## Proofs -/

theorem coef_key {G : GridView E S} {lay : Layout} {keys : List Key} (vec : Nat → ℝ) (e : E) {l : Nat} {k : Key} (hk : keys[l]? = some k) :
    coef G lay keys vec e l = vec (mapperIndex G lay (G.sub e k.codim k.sub) + k.index) := by
  simp [coef, mapperLeaf, hk]

/-- The visited degrees of freedom in terms of local coefficients. -/
theorem calls_coef {G : LGrid E S Nat} (h : SimplexGrid G.toGridView) {lay : Layout} {keys : List Key} (hm : Matches G.dim lay keys) {hasBoundary : E → Bool}
    {isects : E → List BIsect} (hB : BoundaryOK (G.dim + 1) hasBoundary isects) (els : List E) :
    ∃ calls, leafCalls G.toGridView lay keys hasBoundary isects els = some calls ∧ ∀ vec vec' : Nat → ℝ, Agree calls vec vec' ↔
      ∀ e ∈ els, ∀ is ∈ isects e, is.boundary = true → ∀ (l : Nat) (k : Key), keys[l]? = some k → stdInc (simplex G.dim) is.indexInInside 1 k.codim k.sub = true →
        coef G.toGridView lay keys vec e l = coef G.toGridView lay keys vec' e l := by
  obtain ⟨calls, h1, h2⟩ := leafCalls_spec h.base (keysOK h hm) hasBoundary isects hB.reported els
  refine ⟨calls, h1, fun vec vec' => (h2 ℝ vec vec').trans ?_⟩
  constructor
  · intro ha e he is his hb l k hl hinc
    rw [coef_key vec e hl, coef_key vec' e hl]
    exact ha e he is his hb l k hl (by rw [h.simplices]; exact hinc)
  · intro ha e he is his hb l k hl hinc
    rw [← coef_key vec e hl, ← coef_key vec' e hl]
    exact ha e he is his hb l k hl (by rw [← h.simplices e]; exact hinc)

theorem inc_vertex (i a : Fin 3) : stdInc (simplex 2) i 1 2 a = true ↔ a.val = lower i ∨ a.val = upper i := by
  revert i a
  decide

theorem lower_lt (i : Nat) : lower i < 3 := by
  unfold lower
  split <;> omega

theorem upper_lt (i : Nat) : upper i < 3 := by
  unfold upper
  split <;> omega

theorem inc_edge (i j : Fin 3) : stdInc (simplex 2) i 1 1 j = true ↔ j = i := by
  revert i j
  decide

section
variable {G : LGrid E S Nat} {geo : E → Affine} {elems : List E}

theorem vertex_inj (h : TriGrid G geo) (e : E) (a a' : Fin 3) (hs : G.sub e 2 a = G.sub e 2 a') : a = a' := by
  have hlt : ∀ a : Fin 3, a.val < (G.refSubs (G.elemGeo e) 2).length := by
    intro a
    rw [h.ok.std, h.simplex.simplices, h.dim2]
    exact a.2
  exact Fin.ext (h.ok.base.subInj e 2 a 2 a' (hlt a) (hlt a') hs).2

theorem normal_all (h : TriGrid G geo) (e : E) (i : Fin 3) {v v' : Vec}
    (hk : v 0 * Morley.normals (geo e) (edgeFlags (G.ids e)) i 0 + v 1 * Morley.normals (geo e) (edgeFlags (G.ids e)) i 1
      = v' 0 * Morley.normals (geo e) (edgeFlags (G.ids e)) i 0 + v' 1 * Morley.normals (geo e) (edgeFlags (G.ids e)) i 1) {n : Vec}
    (hn : n 0 * globalEdge (geo e) i 0 + n 1 * globalEdge (geo e) i 1 = 0) : ∑ d, n d * v d = ∑ d, n d * v' d := by
  have hne : Morley.sgn (edgeFlags (G.ids e) i) ≠ 0 := by cases edgeFlags (G.ids e) i <;> norm_num [Morley.sgn]
  simp only [Morley.normals_eq] at hk
  have := along_normal (h.regular e) i (a := v 0 - v' 0) (b := v 1 - v' 1) (by
    apply mul_left_cancel₀ hne
    linear_combination hk) hn
  simp only [Fin.sum_univ_two]
  linear_combination this

theorem morley_history (s : MorleySetup G geo elems) (history : List E) (e : E) (c : ℝ) (w : Nat → ℝ) :
    combine 6 w (Morley.shape c (s.fe history e)) = combine 6 w (Morley.shape c (s.fe [] e)) := by
  have hs : ∀ m ∈ Finset.range 6, Morley.shape c (s.fe history e) m = Morley.shape c (s.fe [] e) m := by
    intro m hm
    show Morley.outF (V := MvPolynomial (Fin 2) ℝ) _ _ m = Morley.outF (V := MvPolynomial (Fin 2) ℝ) _ _ m
    refine Finset.sum_congr rfl fun j hj => ?_
    rw [s.mat history e ⟨m, Finset.mem_range.1 hm⟩ ⟨j, Finset.mem_range.1 hj⟩, s.mat [] e ⟨m, Finset.mem_range.1 hm⟩ ⟨j, Finset.mem_range.1 hj⟩]
  unfold combine
  exact Finset.sum_congr rfl fun m hm => by rw [hs m hm]

/-- The coefficients of a discrete function of the Morley basis. -/
theorem morley_coefs [Nonempty E] (s : MorleySetup G geo elems) (h : TriGrid G geo) (hall : ∀ e, e ∈ elems) {c : ℝ} (hc : c = 1 / 2 * Real.sqrt 2) (vec : Nat → ℝ) :
    ∃ q : E → MvPolynomial (Fin 2) ℝ, (∀ history e x, morleyValue c G geo elems history vec e x = some (eval ((geo e).global x) (q e)) ∧
        morleyDerivative c G geo elems history vec e x = some fun d => eval ((geo e).global x) (pderiv d (q e))) ∧
      ∀ (e : E) (l : Nat) (x : ℝ), (morleyCoefs G geo (fun e x => eval ((geo e).global x) (q e)) (fun e x d => eval ((geo e).global x) (pderiv d (q e))) e)[l]? = some x →
        coef G.toGridView morleyLayout s.keys vec e l = x := by
  have hfun := fun history e => s.function h vec history e c
  obtain ⟨q, hq, hf⟩ := (C89_morley h hall hc fun e x => (eval ((geo e).global x) (Argyris.push (geo e)
      (combine 6 (coef G.toGridView morleyLayout s.keys vec e) (Morley.shape c (s.fe [] e)))))).1 ⟨vec, fun history e x => by
        rw [(hfun history e x).1, morley_history]⟩
  have hpq : ∀ e, Argyris.push (geo e) (combine 6 (coef G.toGridView morleyLayout s.keys vec e) (Morley.shape c (s.fe [] e))) = q e := by
    intro e
    apply MvPolynomial.funext
    intro y
    obtain ⟨x, rfl⟩ := global_surjective (h.regular e) y
    exact hf e x
  have hv : ∀ history e x, morleyValue c G geo elems history vec e x = some (eval ((geo e).global x) (q e)) ∧
        morleyDerivative c G geo elems history vec e x = some fun d => eval ((geo e).global x) (pderiv d (q e)) := by
    intro history e x
    rw [(hfun history e x).1, (hfun history e x).2, morley_history, hpq]
    exact ⟨rfl, rfl⟩
  refine ⟨q, hv, ?_⟩
  obtain ⟨r, r1, r2⟩ := morley_exists s h hall hc hq
  have huniq := C89_morley_unique h hall hc vec r fun e x => by rw [(hv [] e x).1, (r1 [] e x).1]
  intro e l x hx
  rw [← r2 e l x hx]
  unfold coef
  cases hl : ((mapperLeaf G.toGridView morleyLayout fun _ => s.keys).loc e)[l]? with
  | none => rfl
  | some n => exact huniq n (s.numbering.bounded e n (List.mem_of_getElem? hl))

/-- The coefficients of a discrete function of the Argyris basis. -/
theorem argyris_coefs [Nonempty E] (s : ArgyrisSetup G geo elems) (h : TriGrid G geo) (hall : ∀ e, e ∈ elems) {c : ℝ} (hc : c = -8 * Real.sqrt 2) (vec : Nat → ℝ) :
    ∃ q : E → MvPolynomial (Fin 2) ℝ, (∀ e x, argyrisValue c G geo elems vec e x = some (eval ((geo e).global x) (q e)) ∧
        argyrisDerivative c G geo elems vec e x = some fun d => eval ((geo e).global x) (pderiv d (q e))) ∧
      (∀ e, q e = Argyris.push (geo e) (combine 21 (coef G.toGridView argyrisLayout s.keys vec e)
        (Argyris.shape c (Argyris.bindGeometry (geo e) (s.size e) (edgeFlags (G.ids e)))))) ∧
      ∀ (e : E) (l : Nat) (x : ℝ), (argyrisCoefs G geo s.size (fun e x => eval ((geo e).global x) (q e)) (fun e x d => eval ((geo e).global x) (pderiv d (q e)))
        (fun e x d d' => eval ((geo e).global x) (pderiv d (pderiv d' (q e)))) e)[l]? = some x → coef G.toGridView argyrisLayout s.keys vec e l = x := by
  have hfun := fun e => s.function h vec e c
  obtain ⟨q, hq, hf⟩ := (C89_argyris h hall hc fun e x => (eval ((geo e).global x) (Argyris.push (geo e)
      (combine 21 (coef G.toGridView argyrisLayout s.keys vec e) (Argyris.shape c (Argyris.bindGeometry (geo e) (s.size e) (edgeFlags (G.ids e)))))))).1
        ⟨vec, fun e x => (hfun e x).1⟩
  have hpq : ∀ e, Argyris.push (geo e) (combine 21 (coef G.toGridView argyrisLayout s.keys vec e)
      (Argyris.shape c (Argyris.bindGeometry (geo e) (s.size e) (edgeFlags (G.ids e))))) = q e := by
    intro e
    apply MvPolynomial.funext
    intro y
    obtain ⟨x, rfl⟩ := global_surjective (h.regular e) y
    exact hf e x
  have hv : ∀ e x, argyrisValue c G geo elems vec e x = some (eval ((geo e).global x) (q e)) ∧
        argyrisDerivative c G geo elems vec e x = some fun d => eval ((geo e).global x) (pderiv d (q e)) := by
    intro e x
    rw [(hfun e x).1, (hfun e x).2, hpq]
    exact ⟨rfl, rfl⟩
  refine ⟨q, hv, fun e => (hpq e).symm, ?_⟩
  obtain ⟨r, r1, r2⟩ := argyris_exists s h hall hc hq
  have huniq := C89_argyris_unique h hall hc vec r fun e x => by rw [(hv e x).1, (r1 e x).1]
  intro e l x hx
  rw [← r2 e l x hx]
  unfold coef
  cases hl : ((mapperLeaf G.toGridView argyrisLayout fun _ => s.keys).loc e)[l]? with
  | none => rfl
  | some n => exact huniq n (s.numbering.bounded e n (List.mem_of_getElem? hl))

/-! ## Theorems -/

/-- **C90, Morley basis.** Two coefficient vectors agree in the degrees of freedom visited by `forEachBoundaryDOF` if and only if the discrete functions have the same values in the
vertices and the same normal derivatives in the midpoints of all boundary edges. -/
theorem C90_morley [Nonempty E] (h : TriGrid G geo) (hall : ∀ e, e ∈ elems) {c : ℝ} (hc : c = 1 / 2 * Real.sqrt 2) {hasBoundary : E → Bool} {isects : E → List BIsect}
    (hB : BoundaryOK 3 hasBoundary isects) (els : List E) :
    ∃ keys calls, morleyKeys = some keys ∧ leafCalls G.toGridView morleyLayout keys hasBoundary isects els = some calls ∧ ∀ vec vec' : Nat → ℝ, Agree calls vec vec' ↔
      ∀ e ∈ els, ∀ is ∈ isects e, is.boundary = true → ∀ history,
        morleyValue c G geo elems history vec e (corner (lower is.indexInInside)) = morleyValue c G geo elems history vec' e (corner (lower is.indexInInside)) ∧
        morleyValue c G geo elems history vec e (corner (upper is.indexInInside)) = morleyValue c G geo elems history vec' e (corner (upper is.indexInInside)) ∧
        ∃ v v', morleyDerivative c G geo elems history vec e (midpointR is.indexInInside) = some v ∧
          morleyDerivative c G geo elems history vec' e (midpointR is.indexInInside) = some v' ∧
          ∀ n : Vec, n 0 * globalEdge (geo e) is.indexInInside 0 + n 1 * globalEdge (geo e) is.indexInInside 1 = 0 → ∑ d, n d * v d = ∑ d, n d * v' d := by
  obtain ⟨s⟩ := morleySetup h elems hall inferInstance
  have hm : Matches G.dim morleyLayout s.keys := by
    have := s.hkeys
    have key : ∃ keys, morleyKeys = some keys ∧ Matches 2 morleyLayout keys := ⟨_, rfl, by decide +kernel⟩
    obtain ⟨keys, k1, k2⟩ := key
    rw [k1, Option.some.injEq] at this
    rw [← this, h.dim2]
    exact k2
  obtain ⟨calls, h1, h2⟩ := calls_coef (G := G) h.simplex hm (by rw [h.dim2]; exact hB) els
  refine ⟨s.keys, calls, s.hkeys, h1, fun vec vec' => (h2 vec vec').trans ?_⟩
  obtain ⟨q, q1, q2⟩ := morley_coefs s h hall hc vec
  obtain ⟨q', q1', q2'⟩ := morley_coefs s h hall hc vec'
  have hval : ∀ e (a : Fin 3), coef G.toGridView morleyLayout s.keys vec e a = coef G.toGridView morleyLayout s.keys vec' e a ↔
      eval ((geo e).global (corner a)) (q e) = eval ((geo e).global (corner a)) (q' e) := by
    intro e a
    rw [q2 e a _ (morleyCoefs_value _ _ _ _ _ a), q2' e a _ (morleyCoefs_value _ _ _ _ _ a)]
  have hnor : ∀ e (i : Fin 3), coef G.toGridView morleyLayout s.keys vec e (3 + i) = coef G.toGridView morleyLayout s.keys vec' e (3 + i) ↔
      ∀ n : Vec, n 0 * globalEdge (geo e) i 0 + n 1 * globalEdge (geo e) i 1 = 0 →
        ∑ d, n d * eval ((geo e).global (midpointR i)) (pderiv d (q e)) = ∑ d, n d * eval ((geo e).global (midpointR i)) (pderiv d (q' e)) := by
    intro e i
    rw [q2 e _ _ (morleyCoefs_normal _ _ _ _ _ i), q2' e _ _ (morleyCoefs_normal _ _ _ _ _ i)]
    refine ⟨fun hk n hn => ?_, fun hk => ?_⟩
    · exact normal_all h e i hk hn
    · have := hk _ (normal_direction (G := G) e i)
      simp only [Fin.sum_univ_two] at this
      linear_combination this
  constructor
  · intro ha e he is his hb history
    have hi := hB.facet e is his
    have hl := lower_lt is.indexInInside
    have hu := upper_lt is.indexInInside
    have h0 := (hval e ⟨_, hl⟩).1 (ha e he is his hb _ _ (s.key2 ⟨_, hl⟩) (by rw [h.dim2]; exact (inc_vertex ⟨_, hi⟩ ⟨_, hl⟩).2 (Or.inl rfl)))
    have h1 := (hval e ⟨_, hu⟩).1 (ha e he is his hb _ _ (s.key2 ⟨_, hu⟩) (by rw [h.dim2]; exact (inc_vertex ⟨_, hi⟩ ⟨_, hu⟩).2 (Or.inr rfl)))
    have h2 := (hnor e ⟨_, hi⟩).1 (ha e he is his hb _ _ (s.key1 ⟨_, hi⟩) (by rw [h.dim2]; exact (inc_edge ⟨_, hi⟩ ⟨_, hi⟩).2 rfl))
    refine ⟨?_, ?_, _, _, (q1 history e _).2, (q1' history e _).2, h2⟩
    · rw [(q1 history e _).1, (q1' history e _).1]
      exact congrArg some h0
    · rw [(q1 history e _).1, (q1' history e _).1]
      exact congrArg some h1
  · intro ha e he is his hb l k hl hinc
    have hi := hB.facet e is his
    obtain ⟨a0, a1, v, v', w, w', hv⟩ := ha e he is his hb []
    rw [(q1 [] e _).1, (q1' [] e _).1, Option.some.injEq] at a0 a1
    rw [(q1 [] e _).2, Option.some.injEq] at w
    rw [(q1' [] e _).2, Option.some.injEq] at w'
    subst w
    subst w'
    have hlt : l < 6 := by rw [← s.length]; exact (List.getElem?_eq_some_iff.1 hl).1
    rcases morley_cases l hlt with ⟨a, rfl⟩ | ⟨j, rfl⟩
    · rw [s.key2 a, Option.some.injEq] at hl
      subst hl
      rw [h.dim2] at hinc
      rw [hval]
      rcases (inc_vertex ⟨_, hi⟩ a).1 hinc with hc | hc
      · rw [hc]
        exact a0
      · rw [hc]
        exact a1
    · rw [s.key1 j, Option.some.injEq] at hl
      subst hl
      rw [h.dim2] at hinc
      obtain rfl := (inc_edge ⟨_, hi⟩ j).1 hinc
      exact (hnor e ⟨_, hi⟩).2 hv

/-- **C90, Argyris basis.** Two coefficient vectors agree in the degrees of freedom visited by `forEachBoundaryDOF` if and only if the discrete functions have the same values and gradients
on all boundary edges and the same second derivatives in the vertices of these edges. -/
theorem C90_argyris [Nonempty E] (h : TriGrid G geo) (hall : ∀ e, e ∈ elems) {c : ℝ} (hc : c = -8 * Real.sqrt 2) {hasBoundary : E → Bool} {isects : E → List BIsect}
    (hB : BoundaryOK 3 hasBoundary isects) (els : List E) :
    ∃ keys calls, argyrisKeys = some keys ∧ leafCalls G.toGridView argyrisLayout keys hasBoundary isects els = some calls ∧ ∀ vec vec' : Nat → ℝ, Agree calls vec vec' ↔
      ∀ e ∈ els, ∀ is ∈ isects e, is.boundary = true →
        (∀ x, OnEdge is.indexInInside x → argyrisValue c G geo elems vec e x = argyrisValue c G geo elems vec' e x ∧
          argyrisDerivative c G geo elems vec e x = argyrisDerivative c G geo elems vec' e x) ∧
        ∃ q q' : MvPolynomial (Fin 2) ℝ, (∀ x, argyrisValue c G geo elems vec e x = some (eval ((geo e).global x) q)) ∧
          (∀ x, argyrisValue c G geo elems vec' e x = some (eval ((geo e).global x) q')) ∧
          SameJet q q' ((geo e).global (corner (lower is.indexInInside))) ∧ SameJet q q' ((geo e).global (corner (upper is.indexInInside))) := by
  obtain ⟨s⟩ := argyrisSetup h elems hall inferInstance
  have hm : Matches G.dim argyrisLayout s.keys := by
    have := s.hkeys
    have key : ∃ keys, argyrisKeys = some keys ∧ Matches 2 argyrisLayout keys := ⟨_, rfl, by decide +kernel⟩
    obtain ⟨keys, k1, k2⟩ := key
    rw [k1, Option.some.injEq] at this
    rw [← this, h.dim2]
    exact k2
  obtain ⟨calls, h1, h2⟩ := calls_coef (G := G) h.simplex hm (by rw [h.dim2]; exact hB) els
  refine ⟨s.keys, calls, s.hkeys, h1, fun vec vec' => (h2 vec vec').trans ?_⟩
  obtain ⟨q, q1, q3, q2⟩ := argyris_coefs s h hall hc vec
  obtain ⟨q', q1', q3', q2'⟩ := argyris_coefs s h hall hc vec'
  constructor
  · intro ha e he is his hb
    have hi := hB.facet e is his
    have hcv : ∀ a : Fin 3, a.val = lower is.indexInInside ∨ a.val = upper is.indexInInside → ∀ k : Fin 6,
        coef G.toGridView argyrisLayout s.keys vec e (6 * a + k) = coef G.toGridView argyrisLayout s.keys vec' e (6 * a + k) := by
      intro a ha' k
      exact ha e he is his hb _ _ (s.key2 a k) (by rw [h.dim2]; exact (inc_vertex ⟨_, hi⟩ a).2 ha')
    have hce := ha e he is his hb _ _ (s.key1 ⟨_, hi⟩) (by rw [h.dim2]; exact (inc_edge ⟨_, hi⟩ ⟨_, hi⟩).2 rfl)
    have hjet : ∀ a : Fin 3, a.val = lower is.indexInInside ∨ a.val = upper is.indexInInside → SameJet (q e) (q' e) ((geo e).global (corner a)) := by
      intro a ha'
      rw [q3, q3']
      exact argyris_jet (h.regular e) (h.regular e) (s.nonzero e) (s.nonzero e) _ _ c _ _ a a rfl rfl (hcv a ha')
    refine ⟨fun x hx => ?_, q e, q' e, fun x => (q1 e x).1, fun x => (q1' e x).1, hjet ⟨_, lower_lt _⟩ (Or.inl rfl), hjet ⟨_, upper_lt _⟩ (Or.inr rfl)⟩
    obtain ⟨r1, r2⟩ := argyris_edge h (e := e) (e' := e) (i := ⟨_, hi⟩) (i' := ⟨_, hi⟩) rfl (s.nonzero e) (s.nonzero e) (edgeFlags_oriented _) (edgeFlags_oriented _) c
        (coef G.toGridView argyrisLayout s.keys vec e) (coef G.toGridView argyrisLayout s.keys vec' e)
        (fun a a' ha' hs => by
          obtain rfl := vertex_inj h e a a' hs
          exact ⟨rfl, hcv a ha'⟩) hce hx
    rw [(q1 e x).1, (q1' e x).1, (q1 e x).2, (q1' e x).2, q3, q3']
    exact ⟨congrArg some r1, congrArg some (funext (r2 hc))⟩
  · intro ha e he is his hb l k hl hinc
    have hi := hB.facet e is his
    obtain ⟨a0, p, p', hp, hp', j0, j1⟩ := ha e he is his hb
    have hpq : ∀ {q p : MvPolynomial (Fin 2) ℝ} {vec}, (∀ x, argyrisValue c G geo elems vec e x = some (eval ((geo e).global x) q)) →
        (∀ x, argyrisValue c G geo elems vec e x = some (eval ((geo e).global x) p)) → p = q := by
      intro q p vec g1 g2
      apply MvPolynomial.funext
      intro y
      obtain ⟨x, rfl⟩ := global_surjective (h.regular e) y
      have := g1 x
      rw [g2 x, Option.some.injEq] at this
      exact this
    obtain rfl := hpq (fun x => (q1 e x).1) hp
    obtain rfl := hpq (fun x => (q1' e x).1) hp'
    have hlt : l < 21 := by rw [← s.length]; exact (List.getElem?_eq_some_iff.1 hl).1
    rcases argyris_cases l hlt with ⟨a, k', rfl⟩ | ⟨j, rfl⟩
    · rw [s.key2 a, Option.some.injEq] at hl
      subst hl
      rw [h.dim2] at hinc
      rw [q2 e _ _ (argyrisCoefs_vertex _ _ _ _ _ _ _ a k'), q2' e _ _ (argyrisCoefs_vertex _ _ _ _ _ _ _ a k')]
      have jet : SameJet (q e) (q' e) ((geo e).global (corner a)) := by
        rcases (inc_vertex ⟨_, hi⟩ a).1 hinc with hc | hc <;> rw [hc]
        · exact j0
        · exact j1
      simp only [vertexValue, jet.value, jet.first, jet.second]
    · rw [s.key1 j, Option.some.injEq] at hl
      subst hl
      rw [h.dim2] at hinc
      obtain rfl := (inc_edge ⟨_, hi⟩ j).1 hinc
      rw [q2 e _ _ (argyrisCoefs_normal _ _ _ _ _ _ _ _), q2' e _ _ (argyrisCoefs_normal _ _ _ _ _ _ _ _)]
      have := (a0 (midpointR is.indexInInside) ⟨1 / 2, midpoint_line ⟨_, hi⟩⟩).2
      rw [(q1 e _).2, (q1' e _).2, Option.some.injEq] at this
      have g0 := congrFun this 0
      have g1 := congrFun this 1
      simp only at g0 g1 ⊢
      rw [g0, g1]

end

/-! ## Hermite basis -/

namespace Hermite
open Verif.FE.Hermite Verif.FE.HermiteConform Verif.FE.HermiteInterp Verif.FE.HermiteSpace

variable {dim : Nat} {reduced : Bool} {G : LGrid E S Nat} {geo : E → HermiteConform.Affine dim} {elems : List E}

theorem inc_facet (hd : dim = 1 ∨ dim = 2 ∨ dim = 3) (i a : Fin (dim + 1)) :
    stdInc (FE.simplex dim) i 1 dim a = true ↔ ∃ j, a.val = facetVertex dim i j := by
  rcases hd with rfl | rfl | rfl <;> revert i a <;> decide

theorem inc_inner2 (i : Fin 3) : stdInc (FE.simplex 2) i 1 0 0 = false := by
  revert i
  decide

theorem inc_inner3 (i j : Fin 4) : stdInc (FE.simplex 3) i 1 1 j = true ↔ j = i := by
  revert i j
  decide

/-- A cubic function that vanishes with its derivatives in the vertices of a facet and, on tetrahedra, in its centre, vanishes on the facet. -/
theorem facet_zero (hd : dim = 1 ∨ dim = 2 ∨ dim = 3) (g : HermiteConform.Affine dim) (i : Fin (dim + 1)) (W : MvPolynomial (Fin dim) ℝ) (hW : W.totalDegree ≤ 3)
    (v0 : ∀ j, eval (g.global (vertexK ℝ dim (facetVertex dim i j))) W = 0)
    (v1 : ∀ j d, eval (g.global (vertexK ℝ dim (facetVertex dim i j))) (pderiv d W) = 0)
    (v2 : dim = 3 → eval (g.global (innerK ℝ dim i)) W = 0) {x : Fin dim → ℝ} (hx : OnFacet dim i x) : eval (g.global x) W = 0 := by
  obtain ⟨t, ht, rfl⟩ := hx
  have step : ∀ (k : Nat) (hk : Exists k false) (hkd : k + 1 = dim),
      (∀ t < nInner k false, dim = 3 ∧ innerK ℝ k t = fun _ => 1 / 3) →
      eval (g.global fun d => ∑ j, t j * vertexK ℝ dim (facetVertex dim i j) d) W = 0 := by
    intro k hk hkd hin
    subst hkd
    rw [global_affine g (fun j => vertexK ℝ (k + 1) (facetVertex (k + 1) i j)) t ht]
    refine plane_zero hk (fun j => g.global (vertexK ℝ (k + 1) (facetVertex (k + 1) i j))) W hW v0 v1 ?_ fun j => t j.succ
    intro s hs'
    obtain ⟨h3, hc⟩ := hin s hs'
    obtain rfl : k = 2 := by omega
    rw [hc]
    have c1 := global_affine g (fun j => vertexK ℝ 3 (facetVertex 3 i j)) (fun _ => 1 / 3) (by simp)
    rw [← c1, ← inner_centre i]
    exact v2 rfl
  rcases hd with rfl | rfl | rfl
  · have : (fun d => ∑ j, t j * vertexK ℝ 1 (facetVertex 1 i j) d) = vertexK ℝ 1 (facetVertex 1 i 0) := by
      funext d
      simp only [Finset.univ_unique, Finset.sum_singleton, Fin.default_eq_zero] at ht ⊢
      rw [ht, one_mul]
    rw [this]
    exact v0 0
  · exact step 1 (by decide) rfl (fun t ht => absurd ht (by simp [nInner]))
  · exact step 2 (by decide) rfl (fun t ht => ⟨rfl, by funext d; simp [innerK, innerPoint, castQ]⟩)

/-- **C90, Hermite basis.** Two coefficient vectors agree in the degrees of freedom visited by `forEachBoundaryDOF` if and only if the discrete functions have the same values on all
boundary facets and the same gradients in the vertices of these facets. -/
theorem C90_hermite [Nonempty E] (hx : Exists dim reduced) (h : AffineGrid G geo) (hall : ∀ e, e ∈ elems) {hasBoundary : E → Bool} {isects : E → List BIsect}
    (hB : BoundaryOK (dim + 1) hasBoundary isects) (els : List E) :
    ∃ keys calls, hermiteKeys dim reduced = some keys ∧ leafCalls G.toGridView (hermiteLayout dim reduced) keys hasBoundary isects els = some calls ∧
      ∀ vec vec' : Nat → ℝ, Agree calls vec vec' ↔ ∀ e ∈ els, ∀ is ∈ isects e, is.boundary = true →
        (∀ x, OnFacet dim is.indexInInside x → value reduced G.toGridView geo elems vec e x = value reduced G.toGridView geo elems vec' e x) ∧
        ∀ j, derivative reduced G.toGridView geo elems vec e (vertexK ℝ dim (facetVertex dim is.indexInInside j))
          = derivative reduced G.toGridView geo elems vec' e (vertexK ℝ dim (facetVertex dim is.indexInInside j)) := by
  obtain ⟨s⟩ := exists_setup hx h elems hall inferInstance
  have hd := exists_dim hx
  have hm : Matches G.dim (hermiteLayout dim reduced) s.keys := by
    have := s.hkeys
    have key : ∃ keys, hermiteKeys dim reduced = some keys ∧ Matches dim (hermiteLayout dim reduced) keys := by
      rcases hx.cases with ⟨rfl, rfl⟩ | ⟨rfl, rfl⟩ | ⟨rfl, rfl⟩ | ⟨rfl, rfl⟩ <;> exact ⟨_, rfl, by decide +kernel⟩
    obtain ⟨keys, k1, k2⟩ := key
    rw [k1, Option.some.injEq] at this
    rw [← this, h.dimEq]
    exact k2
  obtain ⟨keys, k1, k2, k3⟩ := keys_spec hx
  rw [s.hkeys, Option.some.injEq] at k1
  subst k1
  obtain ⟨calls, h1, h2⟩ := calls_coef (G := G) h.simplex hm (by rw [h.dimEq]; exact hB) els
  refine ⟨s.keys, calls, s.hkeys, h1, fun vec vec' => (h2 vec vec').trans ?_⟩
  choose p p1 p2 using fun e => s.function hx h vec e
  choose p' p1' p2' using fun e => s.function hx h vec' e
  constructor
  · intro ha e he is his hb
    have hi := hB.facet e is his
    obtain ⟨-, -, -, hlt, -⟩ := facet_table hd ⟨_, hi⟩
    have hcv : ∀ j (k : Fin (dim + 1)), Conform.coef G.toGridView (hermiteLayout dim reduced) s.keys vec e ((dim + 1) * facetVertex dim is.indexInInside j + k)
        = Conform.coef G.toGridView (hermiteLayout dim reduced) s.keys vec' e ((dim + 1) * facetVertex dim is.indexInInside j + k) := by
      intro j k
      exact ha e he is his hb _ _ (k2 ⟨_, hlt j⟩ k) (by rw [h.dimEq]; exact (inc_facet hd ⟨_, hi⟩ ⟨_, hlt j⟩).2 ⟨j, rfl⟩)
    have v1 : ∀ j d, eval ((geo e).global (vertexK ℝ dim (facetVertex dim is.indexInInside j))) (pderiv d (p e))
        = eval ((geo e).global (vertexK ℝ dim (facetVertex dim is.indexInInside j))) (pderiv d (p' e)) := by
      intro j d
      have a1 := (p1 e).gradient ⟨_, hlt j⟩ d
      have a2 := (p1' e).gradient ⟨_, hlt j⟩ d
      have := hcv j d.succ
      rw [Fin.val_succ] at this
      simp only at a1 a2
      rw [a1, a2, this]
    refine ⟨fun x hon => ?_, fun j => ?_⟩
    · rw [(p2 e x).1, (p2' e x).1]
      congr 1
      rw [← sub_eq_zero, ← map_sub]
      refine facet_zero hd (geo e) ⟨_, hi⟩ _ ((MvPolynomial.totalDegree_sub _ _).trans (max_le (p1 e).degree (p1' e).degree)) ?_ ?_ ?_ hon
      · intro j
        have a1 := (p1 e).value ⟨_, hlt j⟩
        have a2 := (p1' e).value ⟨_, hlt j⟩
        simp only at a1 a2
        rw [map_sub, a1, a2, sub_eq_zero]
        exact hcv j 0
      · intro j d
        rw [map_sub, map_sub, sub_eq_zero]
        exact v1 j d
      · intro h3
        have hr : nInner dim reduced = 4 := by
          rcases hx.cases with ⟨h1, rfl⟩ | ⟨h1, rfl⟩ | ⟨h1, rfl⟩ | ⟨h1, rfl⟩ <;> subst h3 <;> first | rfl | omega
        have hlt4 : is.indexInInside < nInner dim reduced := by rw [hr]; omega
        have a1 := (p1 e).inner _ hlt4
        have a2 := (p1' e).inner _ hlt4
        simp only
        rw [map_sub, a1, a2, sub_eq_zero]
        refine ha e he is his hb _ _ (k3 h3 ⟨_, hi⟩) ?_
        rw [h.dimEq]
        subst h3
        exact (inc_inner3 ⟨_, hi⟩ ⟨_, hi⟩).2 rfl
    · rw [(p2 e _).2, (p2' e _).2]
      exact congrArg some (funext (v1 j))
  · intro ha e he is his hb l k hl hinc
    have hi := hB.facet e is his
    obtain ⟨a0, a1⟩ := ha e he is his hb
    obtain ⟨-, -, -, hlt, -⟩ := facet_table hd ⟨_, hi⟩
    have hll : l < Hermite.size dim reduced := by rw [← s.length]; exact (List.getElem?_eq_some_iff.1 hl).1
    rcases number_cases hx l hll with ⟨a, k', rfl⟩ | ⟨t, ht, rfl⟩
    · rw [k2 a k', Option.some.injEq] at hl
      subst hl
      rw [h.dimEq] at hinc
      obtain ⟨j, hj⟩ := (inc_facet hd ⟨_, hi⟩ a).1 hinc
      rcases Fin.eq_zero_or_eq_succ k' with rfl | ⟨d, rfl⟩
      · have b1 := (p1 e).value a
        have b2 := (p1' e).value a
        have := a0 (vertexK ℝ dim (facetVertex dim is.indexInInside j)) ⟨fun j' => if j = j' then 1 else 0, by simp, by funext d; simp⟩
        rw [(p2 e _).1, (p2' e _).1, Option.some.injEq] at this
        rw [hj] at b1 b2 ⊢
        simp only [Fin.val_zero, add_zero]
        rw [← b1, ← b2]
        exact this
      · have b1 := (p1 e).gradient a d
        have b2 := (p1' e).gradient a d
        have := a1 j
        rw [(p2 e _).2, (p2' e _).2, Option.some.injEq] at this
        have := congrFun this d
        have hn := s.sizeNe e a
        rw [hj] at b1 b2 hn ⊢
        simp only at b1 b2
        rw [b1, b2] at this
        rw [Fin.val_succ]
        exact (div_left_inj' hn).1 this
    · rcases inner_keys hx s.hkeys t ht with ⟨hd2, rfl, hk⟩ | ⟨hd3, ht4, hk⟩
      · rw [hk, Option.some.injEq] at hl
        subst hl
        rw [h.dimEq] at hinc
        subst hd2
        have := inc_inner2 ⟨_, hi⟩
        simp only at this hinc
        rw [this] at hinc
        exact absurd hinc (by decide)
      · rw [hk, Option.some.injEq] at hl
        subst hl
        rw [h.dimEq] at hinc
        subst hd3
        have hti := congrArg Fin.val ((inc_inner3 ⟨_, hi⟩ ⟨t, ht4⟩).1 hinc)
        simp only at hti
        rw [← (p1 e).inner t ht, ← (p1' e).inner t ht]
        have := a0 (innerK ℝ 3 t) ⟨fun _ => 1 / 3, by simp, by rw [← hti]; exact inner_centre ⟨t, ht4⟩⟩
        rwa [(p2 e _).1, (p2' e _).1, Option.some.injEq] at this

end Hermite

/-! ## Examples -/

section
open Verif.FE.Triangle

/-- The derivative of a discrete function of the Morley basis is the derivative of its value. -/
theorem morley_derivative [Nonempty E] {G : LGrid E S Nat} {geo : E → Affine} {elems : List E} (h : TriGrid G geo) (hall : ∀ e, e ∈ elems) {c : ℝ} (hc : c = 1 / 2 * Real.sqrt 2)
    {vec : Nat → ℝ} {e : E} {q : MvPolynomial (Fin 2) ℝ} (hq : ∀ x, morleyValue c G geo elems [] vec e x = some (eval ((geo e).global x) q)) (history : List E) (x : Vec) :
    morleyDerivative c G geo elems history vec e x = some fun d => eval ((geo e).global x) (pderiv d q) := by
  obtain ⟨s⟩ := morleySetup h elems hall inferInstance
  obtain ⟨p, p1, -⟩ := morley_coefs s h hall hc vec
  have : p e = q := by
    apply MvPolynomial.funext
    intro y
    obtain ⟨x, rfl⟩ := global_surjective (h.regular e) y
    have := (p1 [] e x).1
    rw [hq x, Option.some.injEq] at this
    exact this.symm
  rw [(p1 history e x).2, this]

/-- The boundary edges of the two triangles of `demoGrid`. -/
def demoBoundary : Fin 2 → List BIsect := fun _ => [⟨true, 0⟩, ⟨true, 1⟩, ⟨false, 2⟩]

theorem demo_boundary : BoundaryOK 3 (fun _ => true) demoBoundary where
  reported _ _ _ _ := rfl
  facet := by decide

/-- With `s = x + y`: `s (1 - s)` on the first triangle and `(s - 1) (s - 2)` on the second one. -/
noncomputable def wave (e : Fin 2) : MvPolynomial (Fin 2) ℝ :=
  if e = 0 then (MvPolynomial.X 0 + MvPolynomial.X 1) * (1 - MvPolynomial.X 0 - MvPolynomial.X 1)
  else (MvPolynomial.X 0 + MvPolynomial.X 1 - 1) * (MvPolynomial.X 0 + MvPolynomial.X 1 - MvPolynomial.C 2)

theorem demo_midpoint (e : Fin 2) : (demoGeo e).global (midpointR (2 : Fin 3)) 0 + (demoGeo e).global (midpointR (2 : Fin 3)) 1 = 1 := by
  fin_cases e <;> simp [demoGeo, Affine.global, midpointR, Triangle.midpoint, castQ] <;> norm_num

theorem wave_family : MorleyFamily demoGrid demoGeo wave where
  degree := by
    have a1 : (MvPolynomial.X 0 + MvPolynomial.X 1 : MvPolynomial (Fin 2) ℝ).totalDegree ≤ 1 := (MvPolynomial.totalDegree_add _ _).trans (by simp)
    have a2 : (1 - MvPolynomial.X 0 - MvPolynomial.X 1 : MvPolynomial (Fin 2) ℝ).totalDegree ≤ 1 :=
      (MvPolynomial.totalDegree_sub _ _).trans (max_le ((MvPolynomial.totalDegree_sub _ _).trans (by simp)) (by simp))
    have a3 : (MvPolynomial.X 0 + MvPolynomial.X 1 - 1 : MvPolynomial (Fin 2) ℝ).totalDegree ≤ 1 :=
      (MvPolynomial.totalDegree_sub _ _).trans (max_le a1 (by simp))
    have a4 : (MvPolynomial.X 0 + MvPolynomial.X 1 - MvPolynomial.C 2 : MvPolynomial (Fin 2) ℝ).totalDegree ≤ 1 :=
      (MvPolynomial.totalDegree_sub _ _).trans (max_le a1 (by rw [MvPolynomial.totalDegree_C]; omega))
    intro e
    fin_cases e
    · exact (MvPolynomial.totalDegree_mul _ _).trans (by omega)
    · exact (MvPolynomial.totalDegree_mul _ _).trans (by omega)
  vertex := by
    intro e e' a a' hs
    rcases demo_vertices e e' a a' hs with ⟨rfl, rfl⟩ | ⟨hne, -, h0⟩
    · rfl
    · rcases demo_diagonal e a h0 with ⟨h1, h2⟩ | ⟨h1, h2⟩ <;> fin_cases e <;> fin_cases e' <;> simp [wave] at hne h1 h2 ⊢ <;> rw [h1, h2] <;> norm_num
  edge := by
    intro e e' i i' hs n hn
    rcases demo_edges e e' i i' hs with ⟨rfl, rfl⟩ | ⟨hne, rfl, rfl⟩
    · rfl
    · have hm := demo_midpoint e
      generalize (demoGeo e).global (midpointR (2 : Fin 3)) = y at hm ⊢
      have : y 1 = 1 - y 0 := by linarith
      fin_cases e <;> fin_cases e' <;> simp [wave, MvPolynomial.pderiv_X, Fin.sum_univ_two, Derivation.leibniz, this] at hne ⊢ <;> ring

/-- The coefficients of the Morley basis visited by `forEachBoundaryDOF` do not determine the values on the boundary. -/
theorem C90_morley_values_false : ∃ keys calls, morleyKeys = some keys ∧
    leafCalls demoGrid.toGridView morleyLayout keys (fun _ => true) demoBoundary [0, 1] = some calls ∧ ∃ vec vec' : Nat → ℝ, Agree calls vec vec' ∧
      ∃ x, OnEdge 0 x ∧ morleyValue (1 / 2 * Real.sqrt 2) demoGrid demoGeo [0, 1] [] vec 0 x ≠ morleyValue (1 / 2 * Real.sqrt 2) demoGrid demoGeo [0, 1] [] vec' 0 x := by
  obtain ⟨keys, calls, h1, h2, h3⟩ := C90_morley demo_triGrid (elems := [0, 1]) (by decide) rfl demo_boundary [0, 1]
  obtain ⟨vec, hv⟩ := (C89_morley demo_triGrid (elems := [0, 1]) (by decide) rfl fun e x => eval ((demoGeo e).global x) (wave e)).2 ⟨wave, wave_family, fun _ _ => rfl⟩
  obtain ⟨vec', hv'⟩ := (C89_morley demo_triGrid (elems := [0, 1]) (by decide) rfl fun e x => eval ((demoGeo e).global x) 0).2
    ⟨fun _ => 0, ⟨by simp, by simp, by simp⟩, fun _ _ => rfl⟩
  refine ⟨keys, calls, h1, h2, vec, vec', (h3 vec vec').2 ?_, midpointR (0 : Fin 3), ⟨1 / 2, midpoint_line 0⟩, ?_⟩
  · intro e he is his hb history
    rw [hv, hv', hv, hv']
    refine ⟨?_, ?_, _, _, morley_derivative demo_triGrid (by decide) rfl (fun x => hv [] e x) history _,
      morley_derivative demo_triGrid (by decide) rfl (fun x => hv' [] e x) history _, ?_⟩
    · have hi : is = ⟨true, 0⟩ ∨ is = ⟨true, 1⟩ := by
        simp only [demoBoundary, List.mem_cons, List.not_mem_nil, or_false] at his
        rcases his with rfl | rfl | rfl <;> simp at hb ⊢
      rcases hi with rfl | rfl <;> fin_cases e <;>
        simp [wave, demoGeo, Affine.global, corner, Hermite.vertexK, Hermite.vertex, castQ, lower] <;> norm_num
    · have hi : is = ⟨true, 0⟩ ∨ is = ⟨true, 1⟩ := by
        simp only [demoBoundary, List.mem_cons, List.not_mem_nil, or_false] at his
        rcases his with rfl | rfl | rfl <;> simp at hb ⊢
      rcases hi with rfl | rfl <;> fin_cases e <;>
        simp [wave, demoGeo, Affine.global, corner, Hermite.vertexK, Hermite.vertex, castQ, upper]
    · have hi : is = ⟨true, 0⟩ ∨ is = ⟨true, 1⟩ := by
        simp only [demoBoundary, List.mem_cons, List.not_mem_nil, or_false] at his
        rcases his with rfl | rfl | rfl <;> simp at hb ⊢
      intro n hn
      rcases hi with rfl | rfl <;> fin_cases e <;>
        simp [wave, demoGeo, Affine.global, globalEdge, corner, Hermite.vertexK, Hermite.vertex, midpointR, Triangle.midpoint, castQ, lower, upper, MvPolynomial.pderiv_X,
          Fin.sum_univ_two, Derivation.leibniz] at hn ⊢ <;> (rw [hn]; ring)
  · rw [hv, hv']
    simp [wave, demoGeo, Affine.global, midpointR, Triangle.midpoint, castQ]
    norm_num

end

namespace Hermite
open Verif.FE.Hermite Verif.FE.HermiteConform Verif.FE.HermiteInterp Verif.FE.HermiteSpace

/-- The unit interval as a grid with one element. -/
def interval : LGrid (Fin 1) (Fin 3) Nat where
  dim := 1
  types := [⟨0, 1⟩, ⟨1, 2⟩]
  gsize := fun t => if t = ⟨0, 1⟩ then 2 else if t = ⟨1, 2⟩ then 1 else 0
  geo := fun s => if s.1 < 1 then ⟨1, 2⟩ else ⟨0, 1⟩
  idx := fun s => if s.1 < 1 then s.1 else s.1 - 1
  refSubs := stdSubs
  elemGeo := fun _ => ⟨1, 2⟩
  sub := fun _ c i => if c = 0 then 0 else if i = 0 then 1 else 2
  ids := fun _ v => v

theorem interval_bound {c i : Nat} (h : i < (stdSubs ⟨1, 2⟩ c).length) : c < 2 ∧ i < 2 := by
  by_cases hc : c < 2
  · have : ∀ c < 2, (stdSubs ⟨1, 2⟩ c).length ≤ 2 := by decide
    exact ⟨hc, lt_of_lt_of_le h (this c hc)⟩
  · have : subVerts (refOf ⟨1, 2⟩) c = [] := by
      rw [subVerts, if_neg (by omega), if_neg (by simp [refOf]; omega), if_neg (by simp [refOf]; omega), if_neg (by simp [refOf])]
    simp [stdSubs, this] at h

theorem interval_OK : interval.OK where
  base := {
    typesNodup := by decide
    geoMem := by decide
    idxLt := by decide
    idxInj := by decide
    idxSurj := by decide
    subGeo := by
      intro e c i t h
      have hb := interval_bound (List.getElem?_eq_some_iff.mp h).1
      have : ∀ e : Fin 1, ∀ c < 2, ∀ i < 2, ∀ t ∈ (stdSubs ⟨1, 2⟩ c)[i]?, interval.geo (interval.sub e c i) = t := by decide
      exact this e c hb.1 i hb.2 t h
    subInj := by
      intro e c i c' i' h h'
      have hb := interval_bound h
      have hb' := interval_bound h'
      have : ∀ e : Fin 1, ∀ c i c' i' : Fin 2, i.1 < (stdSubs ⟨1, 2⟩ c).length → i'.1 < (stdSubs ⟨1, 2⟩ c').length →
        interval.sub e c i = interval.sub e c' i' → c.1 = c'.1 ∧ i.1 = i'.1 := by decide
      exact this e ⟨c, hb.1⟩ ⟨i, hb.2⟩ ⟨c', hb'.1⟩ ⟨i', hb'.2⟩ h h'
    subSurj := by
      have : ∀ s : Fin 3, ∃ e : Fin 1, ∃ c : Fin 2, ∃ i : Fin 2, i.1 < (stdSubs ⟨1, 2⟩ c).length ∧ interval.sub e c i = s := by decide
      intro s
      obtain ⟨e, c, i, hi, hs⟩ := this s
      exact ⟨e, c, i, Nat.lt_succ_iff.mp c.2, hi, hs⟩
    elemMem := by decide }
  std := fun _ _ => rfl
  type := by decide
  elemInj := by decide
  idsInj := fun _ _ _ _ _ h => h
  vertsSame := by
    intro e k e' k' h h' hs
    have hb := interval_bound h
    have hb' := interval_bound h'
    have : ∀ e e' : Fin 1, ∀ c i c' i' : Fin 2, i.1 < (stdSubs ⟨1, 2⟩ c).length → i'.1 < (stdSubs ⟨1, 2⟩ c').length →
        interval.sub e c i = interval.sub e' c' i' → (interval.verts e ⟨i, c, 0⟩).Perm (interval.verts e' ⟨i', c', 0⟩) := by
      decide +kernel
    intro x
    exact (this e e' ⟨k.codim, hb.1⟩ ⟨k.sub, hb.2⟩ ⟨k'.codim, hb'.1⟩ ⟨k'.sub, hb'.2⟩ h h' hs).mem_iff
  diagSame := by
    intro e k e' k' h h' hs hg
    have : ∀ s, interval.geo s ≠ ⟨2, 4⟩ := by decide
    exact absurd hg (this _)

def intervalGeo (_ : Fin 1) : HermiteConform.Affine 1 := ⟨0, 1⟩

theorem interval_affineGrid : AffineGrid interval intervalGeo where
  ok := interval_OK
  simplex := { toStdGrid := ⟨interval_OK.base, interval_OK.std, interval_OK.type, interval_OK.elemInj⟩, simplices := by decide, types := by decide }
  dimEq := rfl
  idVertex := by decide
  position := by
    have key : ∀ (e e' : Fin 1) (i i' : Fin 2), interval.sub e 1 i = interval.sub e' 1 i' → i = i' := by decide
    intro e e' i i' hs
    rw [key e e' i i' hs]
    rfl
  regular := by simp [intervalGeo]

/-- Both vertices are boundary facets. -/
def intervalBoundary : Fin 1 → List BIsect := fun _ => [⟨true, 0⟩, ⟨true, 1⟩]

theorem interval_boundary : BoundaryOK 2 (fun _ => true) intervalBoundary where
  reported _ _ _ _ := rfl
  facet := by decide

/-- The visited coefficients are not determined by the values on the boundary: to fix all visited coefficients is more than a condition for boundary values. -/
theorem C90_hermite_values_false : ∃ keys calls, hermiteKeys 1 false = some keys ∧
    leafCalls interval.toGridView (hermiteLayout 1 false) keys (fun _ => true) intervalBoundary [0] = some calls ∧ ∃ vec vec' : Nat → ℝ, ¬ Agree calls vec vec' ∧
      ∀ e ∈ [0], ∀ is ∈ intervalBoundary e, is.boundary = true → ∀ x, OnFacet 1 is.indexInInside x →
        value false interval.toGridView intervalGeo [0] vec e x = value false interval.toGridView intervalGeo [0] vec' e x := by
  obtain ⟨keys, calls, h1, h2, h3⟩ := C90_hermite (reduced := false) (by decide) interval_affineGrid (elems := [0]) (by decide) interval_boundary [0]
  have hfam : ∀ q : MvPolynomial (Fin 1) ℝ, q.totalDegree ≤ 3 → HermiteFamily false interval intervalGeo fun _ => q := fun q hq =>
    ⟨fun _ => hq, fun _ _ _ _ _ => ⟨rfl, fun _ => rfl⟩, fun _ _ _ _ _ _ _ => rfl, by simp⟩
  obtain ⟨vec, hv⟩ := (C89_hermite (reduced := false) (by decide) interval_affineGrid (elems := [0]) (by decide)
    fun e x => eval ((intervalGeo e).global x) (MvPolynomial.X 0 * (1 - MvPolynomial.X 0))).2 ⟨fun _ => MvPolynomial.X 0 * (1 - MvPolynomial.X 0), hfam _ (by
      have : (1 - MvPolynomial.X 0 : MvPolynomial (Fin 1) ℝ).totalDegree ≤ 1 := (MvPolynomial.totalDegree_sub _ _).trans (by simp)
      exact (MvPolynomial.totalDegree_mul _ _).trans (by simp; omega)), fun _ _ => rfl⟩
  obtain ⟨vec', hv'⟩ := (C89_hermite (reduced := false) (by decide) interval_affineGrid (elems := [0]) (by decide) fun e x => eval ((intervalGeo e).global x) 0).2
    ⟨fun _ => 0, hfam _ (by simp), fun _ _ => rfl⟩
  refine ⟨keys, calls, h1, h2, vec, vec', ?_, ?_⟩
  · intro ha
    have hd := ((h3 vec vec').1 ha 0 (by simp) ⟨true, 0⟩ (by decide) rfl).2 0
    obtain ⟨s⟩ := exists_setup (reduced := false) (by decide) interval_affineGrid [0] (by decide) inferInstance
    obtain ⟨p, -, p2⟩ := s.function (by decide) interval_affineGrid vec 0
    obtain ⟨p', -, p2'⟩ := s.function (by decide) interval_affineGrid vec' 0
    have e1 : p = MvPolynomial.X 0 * (1 - MvPolynomial.X 0) := by
      apply MvPolynomial.funext
      intro y
      obtain ⟨x, rfl⟩ := HermiteInterp.global_surjective (interval_affineGrid.regular 0) y
      exact Option.some.inj ((p2 x).1.symm.trans (hv 0 x))
    have e2 : p' = 0 := by
      apply MvPolynomial.funext
      intro y
      obtain ⟨x, rfl⟩ := HermiteInterp.global_surjective (interval_affineGrid.regular 0) y
      exact Option.some.inj ((p2' x).1.symm.trans (hv' 0 x))
    rw [(p2 _).2, (p2' _).2, Option.some.injEq, e1, e2] at hd
    have := congrFun hd 0
    have f0 : facetVertex 1 0 0 = 0 := by decide
    simp [f0, intervalGeo, HermiteConform.Affine.global, Derivation.leibniz, vertexK, vertex, castQ] at this
  · intro e _ is his hb x hx
    rw [hv, hv']
    obtain ⟨t, ht, rfl⟩ := hx
    have f0 : facetVertex 1 0 0 = 0 := by decide
    have f1 : facetVertex 1 1 0 = 1 := by decide
    simp only [Finset.univ_unique, Finset.sum_singleton, Fin.default_eq_zero] at ht
    simp only [intervalBoundary, List.mem_cons, List.not_mem_nil, or_false] at his
    rcases his with rfl | rfl <;> simp [f0, f1, ht, intervalGeo, HermiteConform.Affine.global, vertexK, vertex, castQ]

end Hermite

end Verif.FE.BoundaryDofs

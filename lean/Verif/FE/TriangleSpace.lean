import Verif.FE.TriangleInterp

/-!
# The spaces of Morley and Argyris functions

Which functions are functions of the basis, and that their coefficients are unique. The model is that of `Verif.FE.Conform` and `Verif.FE.TriangleInterp`.
-/

namespace Verif.FE.TriangleSpace

open Verif.FE Verif.FE.Triangle Verif.Mapper Verif.Lagrange Verif.FE.Conform Verif.FE.Interpolation Verif.FE.TriangleInterp
open MvPolynomial (pderiv eval)

variable {E S : Type}

/-! ## Specification -/

/-- A family of polynomials in global coordinates, one for each element, is continuous in the vertices, and its normal derivative is continuous in the
midpoints of the edges. -/
structure MorleyFamily (G : LGrid E S Nat) (geo : E → Affine) (q : E → MvPolynomial (Fin 2) ℝ) : Prop where
  degree : ∀ e, (q e).totalDegree ≤ 2
  vertex : ∀ e e' (a a' : Fin 3), G.sub e 2 a = G.sub e' 2 a' → eval ((geo e).global (corner a)) (q e) = eval ((geo e).global (corner a)) (q e')
  edge : ∀ e e' (i i' : Fin 3), G.sub e 1 i = G.sub e' 1 i' → ∀ n : Vec, n 0 * globalEdge (geo e) i 0 + n 1 * globalEdge (geo e) i 1 = 0 →
    ∑ d, n d * eval ((geo e).global (midpointR i)) (pderiv d (q e)) = ∑ d, n d * eval ((geo e).global (midpointR i)) (pderiv d (q e'))

/-- A family of polynomials in global coordinates, one for each element, is continuously differentiable, and in the vertices twice. -/
structure ArgyrisFamily (G : LGrid E S Nat) (geo : E → Affine) (q : E → MvPolynomial (Fin 2) ℝ) : Prop where
  degree : ∀ e, (q e).totalDegree ≤ 5
  vertex : ∀ e e' (a a' : Fin 3), G.sub e 2 a = G.sub e' 2 a' → SameJet (q e) (q e') ((geo e).global (corner a))
  edge : ∀ e e' (i i' : Fin 3), G.sub e 1 i = G.sub e' 1 i' → ∀ x, OnEdge i x →
    eval ((geo e).global x) (q e) = eval ((geo e).global x) (q e') ∧
    ∀ d, eval ((geo e).global x) (pderiv d (q e)) = eval ((geo e).global x) (pderiv d (q e'))

/-! ## Proofs -/

theorem totalDegree_push (g : Affine) (u : MvPolynomial (Fin 2) ℝ) : (Argyris.push g u).totalDegree ≤ u.totalDegree := by
  apply HermiteConform.totalDegree_subst
  intro j
  rw [Argyris.push, MvPolynomial.aeval_X]
  exact HermiteConform.totalDegree_affine _ _

theorem morley_degree (c : ℝ) (fe : Morley.Bound) (m : Nat) : (Morley.shape c fe m).totalDegree ≤ 2 := by
  refine MvPolynomial.totalDegree_finsetSum_le fun k hk => ?_
  rw [Finset.mem_range] at hk
  refine (MvPolynomial.totalDegree_smul_le _ _).trans ?_
  rw [Morley.refPoly, RefBasis.poly, poly_sum]
  · refine MvPolynomial.totalDegree_finsetSum_le fun j _ => ?_
    refine (MvPolynomial.totalDegree_smul_le _ _).trans ?_
    have : ∀ l ∈ ([[0, 0], [1, 0], [0, 1], [2, 0], [1, 1], [0, 2]] : List (List Nat)), (l.getD 0 0) + (l.getD 1 0) ≤ 2 := by decide
    have h5 := this _ (List.getElem_mem j.2)
    unfold Analytic.mono
    rw [Fin.prod_univ_two]
    refine (MvPolynomial.totalDegree_mul _ _).trans (le_trans (Nat.add_le_add ?_ ?_) h5)
    · exact (MvPolynomial.totalDegree_X_pow _ _).le
    · exact (MvPolynomial.totalDegree_X_pow _ _).le
  · have := (rowsBasis_WF Morley.wf c).2
    apply this
    rw [List.getElem?_eq_getElem (by simpa [Morley.refBasis, rowsBasis, Morley.rows] using hk)]
    exact List.getElem_mem _

theorem vertex_ne_edge {G : LGrid E S Nat} {geo : E → Affine} (h : TriGrid G geo) {e e' : E} {i i' : Fin 3} (hs : G.sub e 2 i = G.sub e' 1 i') : False := by
  have a := (geo_sub h e i).1
  rw [hs, (geo_sub h e' i').2] at a
  simp at a

section
variable {G : LGrid E S Nat} {geo : E → Affine} {elems : List E}

theorem normal_direction (e : E) (i : Fin 3) :
    Morley.normals (geo e) (edgeFlags (G.ids e)) i 0 * globalEdge (geo e) i 0
      + Morley.normals (geo e) (edgeFlags (G.ids e)) i 1 * globalEdge (geo e) i 1 = 0 := by
  simp only [Morley.normals_eq]
  have r0 : rot (tangent (geo e) i) 0 = -(globalEdge (geo e) i 1 / twoNorm (globalEdge (geo e) i)) := rfl
  have r1 : rot (tangent (geo e) i) 1 = globalEdge (geo e) i 0 / twoNorm (globalEdge (geo e) i) := rfl
  rw [r0, r1]
  ring

theorem normals_match (h : TriGrid G geo) {e e' : E} {i i' : Fin 3} (hs : G.sub e 1 i = G.sub e' 1 i') (d : Fin 2) :
    Morley.normals (geo e) (edgeFlags (G.ids e)) i d = Morley.normals (geo e') (edgeFlags (G.ids e')) i' d := by
  simp only [Morley.normals_eq]
  exact normal_match h hs (edgeFlags_oriented _) (edgeFlags_oriented _) d

theorem morley_consistent (s : MorleySetup G geo elems) (h : TriGrid G geo) {q : E → MvPolynomial (Fin 2) ℝ} (hq : MorleyFamily G geo q)
    (e e' : E) (l l' : Nat) (k k' : Key) (x x' : ℝ) (hk : s.keys[l]? = some k) (hk' : s.keys[l']? = some k')
    (hs : G.sub e k.codim k.sub = G.sub e' k'.codim k'.sub) (_ : k.index = k'.index)
    (h1 : (morleyCoefs G geo (fun e x => eval ((geo e).global x) (q e)) (fun e x d => eval ((geo e).global x) (pderiv d (q e))) e)[l]? = some x)
    (h2 : (morleyCoefs G geo (fun e x => eval ((geo e).global x) (q e)) (fun e x d => eval ((geo e).global x) (pderiv d (q e))) e')[l']? = some x') :
    x = x' := by
  have hl : l < 6 := by rw [← s.length]; exact (List.getElem?_eq_some_iff.1 hk).1
  have hl' : l' < 6 := by rw [← s.length]; exact (List.getElem?_eq_some_iff.1 hk').1
  rcases morley_cases l hl with ⟨i, rfl⟩ | ⟨i, rfl⟩ <;> rcases morley_cases l' hl' with ⟨i', rfl⟩ | ⟨i', rfl⟩
  · rw [s.key2] at hk hk'
    injection hk with hk
    injection hk' with hk'
    subst hk
    subst hk'
    rw [morleyCoefs_value] at h1 h2
    injection h1 with h1
    injection h2 with h2
    rw [← h1, ← h2, hq.vertex e e' i i' hs, h.position e e' i i' hs]
  · rw [s.key2] at hk
    rw [s.key1] at hk'
    injection hk with hk
    injection hk' with hk'
    subst hk
    subst hk'
    exact (vertex_ne_edge h hs).elim
  · rw [s.key1] at hk
    rw [s.key2] at hk'
    injection hk with hk
    injection hk' with hk'
    subst hk
    subst hk'
    exact (vertex_ne_edge h hs.symm).elim
  · rw [s.key1] at hk hk'
    injection hk with hk
    injection hk' with hk'
    subst hk
    subst hk'
    rw [morleyCoefs_normal] at h1 h2
    injection h1 with h1
    injection h2 with h2
    have key := hq.edge e e' i i' hs _ (normal_direction (G := G) e i)
    simp only [Fin.sum_univ_two, normals_match h hs] at key
    rw [← h1, ← h2, ← edge_points h hs]
    simp only [normals_match h hs]
    linear_combination key

/-- The families are functions of the basis. -/
theorem morley_exists (s : MorleySetup G geo elems) (h : TriGrid G geo) (hall : ∀ e, e ∈ elems) {c : ℝ} (hc : c = 1 / 2 * Real.sqrt 2)
    {q : E → MvPolynomial (Fin 2) ℝ} (hq : MorleyFamily G geo q) :
    ∃ r, (∀ history e x, morleyValue c G geo elems history r e x = some (eval ((geo e).global x) (q e)) ∧
        morleyDerivative c G geo elems history r e x = some fun d => eval ((geo e).global x) (pderiv d (q e))) ∧
      ∀ (e : E) (l : Nat) (x : ℝ), (morleyCoefs G geo (fun e x => eval ((geo e).global x) (q e)) (fun e x d => eval ((geo e).global x) (pderiv d (q e))) e)[l]? = some x →
        coef G.toGridView morleyLayout s.keys r e l = x := by
  set f : E → Vec → ℝ := fun e x => eval ((geo e).global x) (q e) with hf
  set df : E → Vec → Vec := fun e x d => eval ((geo e).global x) (pderiv d (q e)) with hdf
  obtain ⟨r, -, r2, r3, -, -⟩ := leaf_result s.numbering (s.coefs_eq f df)
    (fun e => by rw [s.length]; rfl) (morley_consistent s h hq) elems hall fun _ => 0
  refine ⟨r, fun history e => ?_, r2⟩
  have hval : ∀ x, morleyValue c G geo elems history r e x = some (eval ((geo e).global x) (q e)) := by
    intro x
    have hp : ∀ y, eval y (pull (geo e).origin (geo e).J (q e)) = eval ((geo e).global y) (q e) := fun y => eval_pull _ _ y (q e)
    obtain ⟨cs, vs, c1, c2, c3, c4⟩ := Morley.C50_reproduction (h.regular e) (edgeFlags (G.ids e))
      (history.map (fun e => (geo e, edgeFlags (G.ids e)))) hc (pull (geo e).origin (geo e).J (q e))
      ((totalDegree_pull _ _ _).trans (hq.degree e)) (df := df e) (by
        intro i j
        rw [pderiv_pull, map_sum]
        simp only [map_mul, eval_pull, MvPolynomial.eval_C]
        rfl) x
    have hcs : cs = morleyCoefs G geo f df e := by
      have := s.coefs_eq f df history e
      rw [s.bind_eq, Option.bind_some] at this
      have hfe : (fun y => eval y (pull (geo e).origin (geo e).J (q e))) = f e := funext hp
      rw [hfe] at c1
      exact Option.some.inj (c1.symm.trans this)
    simp only [morleyValue, s.hdata, s.bind_eq, s.hkeys, Option.bind_some, MorleySetup.fe, c2, Option.map_some, r3, ← hcs]
    rw [HermiteInterp.axpyAll_zip, c4, hp]
  have hpq : Argyris.push (geo e) (combine 6 (coef G.toGridView morleyLayout s.keys r e) (Morley.shape c (s.fe history e))) = q e := by
    apply MvPolynomial.funext
    intro y
    obtain ⟨x, rfl⟩ := global_surjective (h.regular e) y
    exact Option.some.inj ((s.function h r history e c x).1.symm.trans (hval x))
  intro x
  exact ⟨hval x, by rw [(s.function h r history e c x).2, hpq]⟩

/-- **C89, Morley basis.** A function is a function of the basis, exactly if on each element it is a polynomial of degree at most two, its values agree in
common vertices and its normal derivatives agree in the midpoints of common edges. The elements to which the local function was bound before do not
matter. -/
theorem C89_morley [Nonempty E] (h : TriGrid G geo) (hall : ∀ e, e ∈ elems) {c : ℝ} (hc : c = 1 / 2 * Real.sqrt 2) (f : E → Vec → ℝ) :
    (∃ vec, ∀ history e x, morleyValue c G geo elems history vec e x = some (f e x)) ↔
      ∃ q, MorleyFamily G geo q ∧ ∀ e x, f e x = eval ((geo e).global x) (q e) := by
  refine ⟨?_, ?_⟩
  · rintro ⟨vec, hvec⟩
    obtain ⟨s⟩ := morleySetup h elems hall inferInstance
    refine ⟨fun e => Argyris.push (geo e) (combine 6 (coef G.toGridView morleyLayout s.keys vec e) (Morley.shape c (s.fe [] e))), ⟨?_, ?_, ?_⟩, ?_⟩
    · intro e
      exact (totalDegree_push _ _).trans (totalDegree_combine fun m _ => morley_degree c _ m)
    · intro e e' a a' hs
      obtain ⟨v, v1, v2⟩ := C61_morley_vertex h elems hall vec hs c [] []
      rw [(s.function h vec [] e c _).1, Option.some.injEq] at v1
      rw [(s.function h vec [] e' c _).1, Option.some.injEq, ← h.position e e' a a' hs] at v2
      rw [v1, v2]
    · intro e e' i i' hs n hn
      obtain ⟨hm, v, v', v1, v2, v3⟩ := C61_morley h elems hall vec hs hc [] [] n hn
      rw [(s.function h vec [] e c _).2, Option.some.injEq] at v1
      rw [(s.function h vec [] e' c _).2, Option.some.injEq, ← hm] at v2
      rw [← v1, ← v2] at v3
      simp only [Fin.sum_univ_two]
      linear_combination v3
    · intro e x
      have := hvec [] e x
      rw [(s.function h vec [] e c _).1, Option.some.injEq] at this
      exact this.symm
  · rintro ⟨q, hq, hf⟩
    obtain ⟨s⟩ := morleySetup h elems hall inferInstance
    obtain ⟨r, hr, -⟩ := morley_exists s h hall hc hq
    exact ⟨r, fun history e x => by rw [(hr history e x).1, hf]⟩

/-- **C89, Morley basis, uniqueness.** Different coefficient vectors give different functions. -/
theorem C89_morley_unique [Nonempty E] (h : TriGrid G geo) (hall : ∀ e, e ∈ elems) {c : ℝ} (hc : c = 1 / 2 * Real.sqrt 2) (vec vec' : Nat → ℝ)
    (heq : ∀ e x, morleyValue c G geo elems [] vec e x = morleyValue c G geo elems [] vec' e x) :
    ∀ n < mapperSize G.toGridView morleyLayout, vec n = vec' n := by
  obtain ⟨s⟩ := morleySetup h elems hall inferInstance
  intro n hn
  obtain ⟨e, he⟩ := s.numbering.used n hn
  obtain ⟨l, hl⟩ := List.getElem?_of_mem he
  have hlt : l < 6 := by rw [← s.length, ← s.numbering.length e]; exact (List.getElem?_eq_some_iff.1 hl).1
  have hu : combine 6 (coef G.toGridView morleyLayout s.keys vec e) (Morley.shape c (s.fe [] e))
      = combine 6 (coef G.toGridView morleyLayout s.keys vec' e) (Morley.shape c (s.fe [] e)) := by
    apply MvPolynomial.funext
    intro x
    have := heq e x
    rw [(s.function h vec [] e c _).1, (s.function h vec' [] e c _).1, Option.some.injEq, Argyris.eval_push (h.regular e),
      Argyris.eval_push (h.regular e)] at this
    exact this
  have d := s.dual h [] e hc (coef G.toGridView morleyLayout s.keys vec e) ⟨l, hlt⟩
  rw [hu, s.dual h [] e hc _ ⟨l, hlt⟩] at d
  have g : ∀ v : Nat → ℝ, coef G.toGridView morleyLayout s.keys v e l = v n := by
    intro v
    rw [coef, hl]
    rfl
  rw [← g vec, ← g vec']
  exact d.symm

/-! ## Argyris -/

theorem argyris_consistent (s : ArgyrisSetup G geo elems) (h : TriGrid G geo) {q : E → MvPolynomial (Fin 2) ℝ} (hq : ArgyrisFamily G geo q)
    (e e' : E) (l l' : Nat) (k k' : Key) (x x' : ℝ) (hk : s.keys[l]? = some k) (hk' : s.keys[l']? = some k')
    (hs : G.sub e k.codim k.sub = G.sub e' k'.codim k'.sub) (hi : k.index = k'.index)
    (h1 : (argyrisCoefs G geo s.size (fun e x => eval ((geo e).global x) (q e)) (fun e x d => eval ((geo e).global x) (pderiv d (q e)))
      (fun e x d d' => eval ((geo e).global x) (pderiv d (pderiv d' (q e)))) e)[l]? = some x)
    (h2 : (argyrisCoefs G geo s.size (fun e x => eval ((geo e).global x) (q e)) (fun e x d => eval ((geo e).global x) (pderiv d (q e)))
      (fun e x d d' => eval ((geo e).global x) (pderiv d (pderiv d' (q e)))) e')[l']? = some x') :
    x = x' := by
  have hl : l < 21 := by rw [← s.length]; exact (List.getElem?_eq_some_iff.1 hk).1
  have hl' : l' < 21 := by rw [← s.length]; exact (List.getElem?_eq_some_iff.1 hk').1
  rcases argyris_cases l hl with ⟨i, j, rfl⟩ | ⟨i, rfl⟩ <;> rcases argyris_cases l' hl' with ⟨i', j', rfl⟩ | ⟨i', rfl⟩
  · rw [s.key2] at hk hk'
    injection hk with hk
    injection hk' with hk'
    subst hk
    subst hk'
    rw [argyrisCoefs_vertex] at h1 h2
    injection h1 with h1
    injection h2 with h2
    simp only at hs hi
    have j := hq.vertex e e' i i' hs
    have hp := h.position e e' i i' hs
    rw [hp] at j
    rw [← h1, ← h2, s.shared e e' i i' hs, Fin.ext hi]
    simp only [vertexValue, hp, j.value, j.first, j.second]
  · rw [s.key2] at hk
    rw [s.key1] at hk'
    injection hk with hk
    injection hk' with hk'
    subst hk
    subst hk'
    exact (vertex_ne_edge h hs).elim
  · rw [s.key1] at hk
    rw [s.key2] at hk'
    injection hk with hk
    injection hk' with hk'
    subst hk
    subst hk'
    exact (vertex_ne_edge h hs.symm).elim
  · rw [s.key1] at hk hk'
    injection hk with hk
    injection hk' with hk'
    subst hk
    subst hk'
    rw [argyrisCoefs_normal] at h1 h2
    injection h1 with h1
    injection h2 with h2
    have key := (hq.edge e e' i i' hs (midpointR i) ⟨1 / 2, midpoint_line i⟩).2
    rw [← h1, ← h2, key, key, ← edge_points h hs]
    simp only [normals_match h hs]

/-- The families are functions of the basis. -/
theorem argyris_exists (s : ArgyrisSetup G geo elems) (h : TriGrid G geo) (hall : ∀ e, e ∈ elems) {c : ℝ} (hc : c = -8 * Real.sqrt 2)
    {q : E → MvPolynomial (Fin 2) ℝ} (hq : ArgyrisFamily G geo q) :
    ∃ r, (∀ e x, argyrisValue c G geo elems r e x = some (eval ((geo e).global x) (q e)) ∧
        argyrisDerivative c G geo elems r e x = some fun d => eval ((geo e).global x) (pderiv d (q e))) ∧
      ∀ (e : E) (l : Nat) (x : ℝ), (argyrisCoefs G geo s.size (fun e x => eval ((geo e).global x) (q e)) (fun e x d => eval ((geo e).global x) (pderiv d (q e)))
        (fun e x d d' => eval ((geo e).global x) (pderiv d (pderiv d' (q e)))) e)[l]? = some x → coef G.toGridView argyrisLayout s.keys r e l = x := by
  set f : E → Vec → ℝ := fun e x => eval ((geo e).global x) (q e) with hf
  set df : E → Vec → Vec := fun e x d => eval ((geo e).global x) (pderiv d (q e)) with hdf
  set Hf : E → Vec → Fin 2 → Fin 2 → ℝ := fun e x d d' => eval ((geo e).global x) (pderiv d (pderiv d' (q e))) with hHf
  obtain ⟨r, -, r2, r3, -, -⟩ := leaf_result s.numbering (fun _ e => s.coefs_eq f df Hf e)
    (fun e => by rw [s.length]; simp [argyrisCoefs]) (argyris_consistent s h hq) elems hall fun _ => 0
  refine ⟨r, fun e => ?_, r2⟩
  have hval : ∀ x, argyrisValue c G geo elems r e x = some (eval ((geo e).global x) (q e)) := by
    intro x
    have hp : ∀ (y) (q : MvPolynomial (Fin 2) ℝ), eval y (pull (geo e).origin (geo e).J q) = eval ((geo e).global y) q := fun y q => eval_pull _ _ y q
    have hb := s.bound e
    obtain ⟨cs, vs, c1, c2, c3, c4⟩ := Argyris.C51_reproduction hb (h.regular e) s.positive hc (pull (geo e).origin (geo e).J (q e))
      ((totalDegree_pull _ _ _).trans (hq.degree e)) (df := df e) (Hf := Hf e) (by
        intro x j
        rw [pderiv_pull, map_sum]
        simp only [map_mul, hp, MvPolynomial.eval_C]
        rfl) (by
        intro x a b
        rw [pderiv_pull, map_sum, map_sum]
        simp only [Derivation.leibniz, MvPolynomial.pderiv_C, smul_eq_mul, mul_zero, map_zero, map_mul, map_add, pderiv_pull, hp,
          MvPolynomial.eval_C, hHf, Fin.sum_univ_two]
        have sym : pderiv 0 (pderiv 1 (q e)) = pderiv 1 (pderiv 0 (q e)) := pderiv_comm 0 1 (q e)
        rw [sym]
        ring) x
    have hcs : cs = argyrisCoefs G geo s.size f df Hf e := by
      have := s.coefs_eq f df Hf e
      rw [s.bound, Option.bind_some] at this
      have hfe : (fun y => eval y (pull (geo e).origin (geo e).J (q e))) = f e := funext fun y => hp y (q e)
      rw [hfe] at c1
      exact Option.some.inj (c1.symm.trans this)
    simp only [argyrisValue, s.hpb, s.bound, s.hkeys, Option.bind_some, c2, Option.map_some, r3, ← hcs]
    rw [HermiteInterp.axpyAll_zip, c4, hp]
  have hpq : Argyris.push (geo e) (combine 21 (coef G.toGridView argyrisLayout s.keys r e)
      (Argyris.shape c (Argyris.bindGeometry (geo e) (s.size e) (edgeFlags (G.ids e))))) = q e := by
    apply MvPolynomial.funext
    intro y
    obtain ⟨x, rfl⟩ := global_surjective (h.regular e) y
    exact Option.some.inj ((s.function h r e c x).1.symm.trans (hval x))
  intro x
  exact ⟨hval x, by rw [(s.function h r e c x).2, hpq]⟩

/-- **C89, Argyris basis.** A function is a function of the basis, exactly if on each element it is a polynomial of degree at most five, it is continuously
differentiable across common edges, and its first and second derivatives agree in common vertices. -/
theorem C89_argyris [Nonempty E] (h : TriGrid G geo) (hall : ∀ e, e ∈ elems) {c : ℝ} (hc : c = -8 * Real.sqrt 2) (f : E → Vec → ℝ) :
    (∃ vec, ∀ e x, argyrisValue c G geo elems vec e x = some (f e x)) ↔
      ∃ q, ArgyrisFamily G geo q ∧ ∀ e x, f e x = eval ((geo e).global x) (q e) := by
  refine ⟨?_, ?_⟩
  · rintro ⟨vec, hvec⟩
    obtain ⟨s⟩ := argyrisSetup h elems hall inferInstance
    refine ⟨fun e => Argyris.push (geo e) (combine 21 (coef G.toGridView argyrisLayout s.keys vec e)
      (Argyris.shape c (Argyris.bindGeometry (geo e) (s.size e) (edgeFlags (G.ids e))))), ⟨?_, ?_, ?_⟩, ?_⟩
    · intro e
      exact (totalDegree_push _ _).trans (totalDegree_combine fun m hm => totalDegree_shape c _ m hm)
    · intro e e' a a' hs
      exact argyris_jet (h.regular e) (h.regular e') (s.nonzero e) (s.nonzero e') _ _ c _ _ a a' (h.position e e' a a' hs) (s.shared e e' a a' hs)
        fun k => coef_shared s.numbering vec (s.key2 a k) (s.key2 a' k) hs rfl
    · intro e e' i i' hs x hx
      obtain ⟨r1, r2⟩ := argyris_edge h hs (s.nonzero e) (s.nonzero e') (edgeFlags_oriented _) (edgeFlags_oriented _) c
        (coef G.toGridView argyrisLayout s.keys vec e) (coef G.toGridView argyrisLayout s.keys vec e')
        (fun a a' _ hs => ⟨s.shared e e' a a' hs, fun k => coef_shared s.numbering vec (s.key2 a k) (s.key2 a' k) hs rfl⟩)
        (coef_shared s.numbering vec (s.key1 i) (s.key1 i') hs rfl) hx
      exact ⟨r1, r2 hc⟩
    · intro e x
      have := hvec e x
      rw [(s.function h vec e c _).1, Option.some.injEq] at this
      exact this.symm
  · rintro ⟨q, hq, hf⟩
    obtain ⟨s⟩ := argyrisSetup h elems hall inferInstance
    obtain ⟨r, hr, -⟩ := argyris_exists s h hall hc hq
    exact ⟨r, fun e x => by rw [(hr e x).1, hf]⟩

/-- **C89, Argyris basis, uniqueness.** Different coefficient vectors give different functions. -/
theorem C89_argyris_unique [Nonempty E] (h : TriGrid G geo) (hall : ∀ e, e ∈ elems) {c : ℝ} (hc : c = -8 * Real.sqrt 2) (vec vec' : Nat → ℝ)
    (heq : ∀ e x, argyrisValue c G geo elems vec e x = argyrisValue c G geo elems vec' e x) :
    ∀ n < mapperSize G.toGridView argyrisLayout, vec n = vec' n := by
  obtain ⟨s⟩ := argyrisSetup h elems hall inferInstance
  intro n hn
  obtain ⟨e, he⟩ := s.numbering.used n hn
  obtain ⟨l, hl⟩ := List.getElem?_of_mem he
  have hlt : l < 21 := by rw [← s.length, ← s.numbering.length e]; exact (List.getElem?_eq_some_iff.1 hl).1
  set fe := Argyris.bindGeometry (geo e) (s.size e) (edgeFlags (G.ids e))
  have hu : combine 21 (coef G.toGridView argyrisLayout s.keys vec e) (Argyris.shape c fe)
      = combine 21 (coef G.toGridView argyrisLayout s.keys vec' e) (Argyris.shape c fe) := by
    apply MvPolynomial.funext
    intro x
    have := heq e x
    rw [(s.function h vec e c _).1, (s.function h vec' e c _).1, Option.some.injEq, Argyris.eval_push (h.regular e),
      Argyris.eval_push (h.regular e)] at this
    exact this
  have g : ∀ v : Nat → ℝ, coef G.toGridView argyrisLayout s.keys v e l = v n := by
    intro v
    rw [coef, hl]
    rfl
  rw [← g vec, ← g vec']
  rcases argyris_cases l hlt with ⟨i, k, rfl⟩ | ⟨i, rfl⟩
  · rw [← s.vertex h e c (coef G.toGridView argyrisLayout s.keys vec e) i k, hu, s.vertex h e c _ i k]
  · rw [← s.normal h e hc (coef G.toGridView argyrisLayout s.keys vec e) i, hu, s.normal h e hc _ i]

end

/-! ## Examples -/

theorem demo_vertices : ∀ (e e' : Fin 2) (i i' : Fin 3), demoGrid.sub e 2 i = demoGrid.sub e' 2 i' →
    (e = e' ∧ i = i') ∨ (e ≠ e' ∧ i.val + i'.val = 3 ∧ i ≠ 0) := by decide

theorem demo_edges : ∀ (e e' : Fin 2) (i i' : Fin 3), demoGrid.sub e 1 i = demoGrid.sub e' 1 i' → (e = e' ∧ i = i') ∨ (e ≠ e' ∧ i = 2 ∧ i' = 2) := by
  decide

/-- A vertex of the diagonal. -/
theorem demo_diagonal (e : Fin 2) (i : Fin 3) (hi : i ≠ 0) :
    ((demoGeo e).global (corner i) 0 = 1 ∧ (demoGeo e).global (corner i) 1 = 0) ∨ ((demoGeo e).global (corner i) 0 = 0 ∧ (demoGeo e).global (corner i) 1 = 1) := by
  fin_cases e <;> fin_cases i <;> simp [demoGeo, Affine.global, corner, Hermite.vertexK, Hermite.vertex, castQ] at hi ⊢

theorem demo_direction (e : Fin 2) (n : Vec) (hn : n 0 * globalEdge (demoGeo e) 2 0 + n 1 * globalEdge (demoGeo e) 2 1 = 0) : n 0 = n 1 := by
  fin_cases e <;> simp [globalEdge, demoGeo, Affine.global, corner, Hermite.vertexK, Hermite.vertex, castQ, lower, upper] at hn <;> linarith

/-- `0` on the first triangle and `1 - (x - y)²` on the second one. -/
noncomputable def bump (e : Fin 2) : MvPolynomial (Fin 2) ℝ :=
  if e = 0 then 0 else 1 - (MvPolynomial.X 0 - MvPolynomial.X 1) ^ 2

theorem bump_family : MorleyFamily demoGrid demoGeo bump where
  degree := by
    intro e
    fin_cases e
    · simp [bump]
    · have : (MvPolynomial.X 0 - MvPolynomial.X 1 : MvPolynomial (Fin 2) ℝ).totalDegree ≤ 1 :=
        (MvPolynomial.totalDegree_sub _ _).trans (by simp)
      simp only [bump]
      refine (MvPolynomial.totalDegree_sub _ _).trans (max_le (by simp) ((MvPolynomial.totalDegree_pow _ _).trans (by omega)))
  vertex := by
    intro e e' a a' hs
    rcases demo_vertices e e' a a' hs with ⟨rfl, rfl⟩ | ⟨hne, -, h0⟩
    · rfl
    · rcases demo_diagonal e a h0 with ⟨h1, h2⟩ | ⟨h1, h2⟩ <;> fin_cases e <;> fin_cases e' <;> simp [bump] at hne h1 h2 ⊢ <;> rw [h1, h2] <;> norm_num
  edge := by
    intro e e' i i' hs n hn
    rcases demo_edges e e' i i' hs with ⟨rfl, rfl⟩ | ⟨hne, rfl, rfl⟩
    · rfl
    · have hn' := demo_direction e n hn
      fin_cases e <;> fin_cases e' <;> simp [bump, MvPolynomial.pderiv_X, Fin.sum_univ_two, hn'] at hne ⊢ <;> ring

/-- A function of the Morley basis that jumps by one in the midpoint of the common edge. -/
example : ∃ vec, ∀ history x,
    morleyValue (1 / 2 * Real.sqrt 2) demoGrid demoGeo [0, 1] history vec 0 x = some 0 ∧
    morleyValue (1 / 2 * Real.sqrt 2) demoGrid demoGeo [0, 1] history vec 1 ![1 / 2, 1 / 2] = some 1 := by
  obtain ⟨vec, hvec⟩ := (C89_morley demo_triGrid (elems := [0, 1]) (by decide) rfl
    fun e x => eval ((demoGeo e).global x) (bump e)).2 ⟨bump, bump_family, fun _ _ => rfl⟩
  refine ⟨vec, fun history x => ⟨?_, ?_⟩⟩
  · rw [hvec]
    simp [bump]
  · rw [hvec]
    simp [bump, demoGeo, Affine.global]

/-- A continuous function with a kink along the common edge is no function of the Morley basis. -/
example : ¬ ∃ vec, ∀ history e x, morleyValue (1 / 2 * Real.sqrt 2) demoGrid demoGeo [0, 1] history vec e x
    = some (if e = 0 then 0 else (demoGeo e).global x 0 + (demoGeo e).global x 1 - 1) := by
  rw [C89_morley demo_triGrid (elems := [0, 1]) (by decide) rfl]
  rintro ⟨q, hq, hf⟩
  have h0 : q 0 = 0 := by
    apply MvPolynomial.funext
    intro y
    obtain ⟨x, rfl⟩ := global_surjective (demo_triGrid.regular 0) y
    rw [← hf]
    simp
  have h1 : q 1 = MvPolynomial.X 0 + MvPolynomial.X 1 - 1 := by
    apply MvPolynomial.funext
    intro y
    obtain ⟨x, rfl⟩ := global_surjective (demo_triGrid.regular 1) y
    rw [← hf]
    simp
  have := hq.edge 0 1 2 2 (by decide) ![1, 1] (by
    simp [globalEdge, demoGeo, Affine.global, corner, Hermite.vertexK, Hermite.vertex, castQ, lower, upper])
  simp [h0, h1, MvPolynomial.pderiv_X, Fin.sum_univ_two] at this
  norm_num at this

/-- `0` on the first triangle and `(x + y - 1)³` on the second one. -/
noncomputable def cube (e : Fin 2) : MvPolynomial (Fin 2) ℝ :=
  if e = 0 then 0 else let s := MvPolynomial.X 0 + MvPolynomial.X 1 - 1; s * s * s

theorem cube_family : ArgyrisFamily demoGrid demoGeo cube where
  degree := by
    intro e
    fin_cases e
    · simp [cube]
    · have h1 : (MvPolynomial.X 0 + MvPolynomial.X 1 - 1 : MvPolynomial (Fin 2) ℝ).totalDegree ≤ 1 :=
        (MvPolynomial.totalDegree_sub _ _).trans (max_le ((MvPolynomial.totalDegree_add _ _).trans (by simp)) (by simp))
      simp only [cube]
      refine (MvPolynomial.totalDegree_mul _ _).trans ((Nat.add_le_add ((MvPolynomial.totalDegree_mul _ _).trans (Nat.add_le_add h1 h1)) h1).trans (by omega))
  vertex := by
    intro e e' a a' hs
    rcases demo_vertices e e' a a' hs with ⟨rfl, rfl⟩ | ⟨hne, -, h0⟩
    · exact ⟨rfl, fun _ => rfl, fun _ _ => rfl⟩
    · have hy : (demoGeo e).global (corner a) 0 + (demoGeo e).global (corner a) 1 - 1 = 0 := by
        rcases demo_diagonal e a h0 with ⟨h1, h2⟩ | ⟨h1, h2⟩ <;> rw [h1, h2] <;> norm_num
      generalize (demoGeo e).global (corner a) = y at hy
      refine ⟨?_, ?_, ?_⟩
      · fin_cases e <;> fin_cases e' <;> simp [cube, hy] at hne ⊢
      · intro d
        fin_cases e <;> fin_cases e' <;> fin_cases d <;> simp [cube, hy, Derivation.leibniz] at hne ⊢
      · intro d d'
        fin_cases e <;> fin_cases e' <;> fin_cases d <;> fin_cases d' <;> simp [cube, hy, Derivation.leibniz] at hne ⊢
  edge := by
    intro e e' i i' hs x hx
    rcases demo_edges e e' i i' hs with ⟨rfl, rfl⟩ | ⟨hne, rfl, rfl⟩
    · exact ⟨rfl, fun _ => rfl⟩
    · obtain ⟨t, rfl⟩ := hx
      have hy : (demoGeo e).global (fun d => corner (lower (2 : Fin 3)) d + t * (corner (upper (2 : Fin 3)) d - corner (lower (2 : Fin 3)) d)) 0
          + (demoGeo e).global (fun d => corner (lower (2 : Fin 3)) d + t * (corner (upper (2 : Fin 3)) d - corner (lower (2 : Fin 3)) d)) 1 - 1 = 0 := by
        fin_cases e <;> simp [demoGeo, Affine.global, corner, Hermite.vertexK, Hermite.vertex, castQ, lower, upper]
      generalize (demoGeo e).global (fun d => corner (lower (2 : Fin 3)) d + t * (corner (upper (2 : Fin 3)) d - corner (lower (2 : Fin 3)) d)) = y at hy
      refine ⟨?_, ?_⟩
      · fin_cases e <;> fin_cases e' <;> simp [cube, hy] at hne ⊢
      · intro d
        fin_cases e <;> fin_cases e' <;> fin_cases d <;> simp [cube, hy, Derivation.leibniz] at hne ⊢

example : ∃ vec, ∀ x, argyrisValue (-8 * Real.sqrt 2) demoGrid demoGeo [0, 1] vec 0 x = some 0 ∧
    argyrisValue (-8 * Real.sqrt 2) demoGrid demoGeo [0, 1] vec 1 ![0, 0] = some 1 := by
  obtain ⟨vec, hvec⟩ := (C89_argyris demo_triGrid (elems := [0, 1]) (by decide) rfl
    fun e x => eval ((demoGeo e).global x) (cube e)).2 ⟨cube, cube_family, fun _ _ => rfl⟩
  refine ⟨vec, fun x => ⟨?_, ?_⟩⟩
  · rw [hvec]
    simp [cube]
  · rw [hvec]
    simp [cube, demoGeo, Affine.global]

/-- `(x + y - 1)²` on the second triangle only is continuously differentiable, but no function of the Argyris basis. -/
example : ¬ ∃ vec, ∀ e x, argyrisValue (-8 * Real.sqrt 2) demoGrid demoGeo [0, 1] vec e x
    = some (if e = 0 then 0 else ((demoGeo e).global x 0 + (demoGeo e).global x 1 - 1) ^ 2) := by
  rw [C89_argyris demo_triGrid (elems := [0, 1]) (by decide) rfl]
  rintro ⟨q, hq, hf⟩
  have h0 : q 0 = 0 := by
    apply MvPolynomial.funext
    intro y
    obtain ⟨x, rfl⟩ := global_surjective (demo_triGrid.regular 0) y
    rw [← hf]
    simp
  have h1 : q 1 = (MvPolynomial.X 0 + MvPolynomial.X 1 - 1) ^ 2 := by
    apply MvPolynomial.funext
    intro y
    obtain ⟨x, rfl⟩ := global_surjective (demo_triGrid.regular 1) y
    rw [← hf]
    simp
  have := (hq.vertex 0 1 1 2 (by decide)).second 0 0
  rw [h0, h1, pow_two] at this
  simp [Derivation.leibniz] at this
  norm_num at this

end Verif.FE.TriangleSpace

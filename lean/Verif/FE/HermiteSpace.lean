import Verif.FE.HermiteInterp

/-!
# The space of Hermite functions

Which functions are functions of the cubic Hermite bases, and that their coefficients are unique. The model is that of `Verif.FE.HermiteConform` and
`Verif.FE.HermiteInterp`.
-/

namespace Verif.FE.HermiteSpace

open Verif.FE Verif.Mapper Verif.Lagrange Verif.FE.Hermite Verif.FE.HermiteConform Verif.FE.HermiteInterp Verif.FE.Interpolation
open MvPolynomial (pderiv eval)

variable {E S : Type} {dim : Nat}

/-! ## Specification -/

/-- A family of cubic polynomials in global coordinates, one for each element, is continuous, and its gradient is continuous in the vertices. For the
reduced basis the value in the centre of a triangle is given by values and gradients in the vertices. -/
structure HermiteFamily (reduced : Bool) (G : LGrid E S Nat) (geo : E → Affine dim) (q : E → MvPolynomial (Fin dim) ℝ) : Prop where
  degree : ∀ e, (q e).totalDegree ≤ 3
  vertex : ∀ e e' (a a' : Fin (dim + 1)), G.sub e dim a = G.sub e' dim a' →
    eval ((geo e).global (vertexK ℝ dim a)) (q e) = eval ((geo e).global (vertexK ℝ dim a)) (q e') ∧
    ∀ d, eval ((geo e).global (vertexK ℝ dim a)) (pderiv d (q e)) = eval ((geo e).global (vertexK ℝ dim a)) (pderiv d (q e'))
  facet : ∀ e e' (i i' : Fin (dim + 1)), G.sub e 1 i = G.sub e' 1 i' → ∀ x, OnFacet dim i x →
    eval ((geo e).global x) (q e) = eval ((geo e).global x) (q e')
  centre : reduced = true → ∀ e, 6 * eval ((geo e).global fun _ => 1 / 3) (q e)
    = ∑ i : Fin (dim + 1), (2 * eval ((geo e).global (vertexK ℝ dim i)) (q e)
      - ∑ d, ((geo e).global (vertexK ℝ dim i) d - (geo e).global (fun _ => 1 / 3) d) * eval ((geo e).global (vertexK ℝ dim i)) (pderiv d (q e)))

/-! ## Proofs -/

variable {reduced : Bool} {G : LGrid E S Nat} {geo : E → Affine dim} {elems : List E}

theorem consistent (s : Setup reduced G geo elems) (hx : Exists dim reduced) (h : AffineGrid G geo) {q : E → MvPolynomial (Fin dim) ℝ}
    (hq : HermiteFamily reduced G geo q) (e e' : E) (l l' n : Nat) (x x' : ℝ) (h1 : (s.loc e)[l]? = some n) (h2 : (s.loc e')[l']? = some n)
    (h3 : (s.coefs (fun e x => eval ((geo e).global x) (q e)) (fun e x d => eval ((geo e).global x) (pderiv d (q e))) e)[l]? = some x)
    (h4 : (s.coefs (fun e x => eval ((geo e).global x) (q e)) (fun e x d => eval ((geo e).global x) (pderiv d (q e))) e')[l']? = some x') :
    x = x' := by
  have hd := exists_dim hx
  have geoE : ∀ e, G.elemGeo e = FE.simplex dim := fun e => by rw [h.simplex.simplices e, h.dimEq]
  have hl : l < Hermite.size dim reduced := by rw [← s.loc_length e]; exact (List.getElem?_eq_some_iff.1 h1).1
  have hl' : l' < Hermite.size dim reduced := by rw [← s.loc_length e']; exact (List.getElem?_eq_some_iff.1 h2).1
  have hsh : ∀ k k', s.keys[l]? = some k → s.keys[l']? = some k' → G.sub e k.codim k.sub = G.sub e' k'.codim k'.sub ∧ k.index = k'.index :=
    fun k k' hk hk' => (s.numbering.shared e e' l l' k k' hk hk').1 (h1.trans h2.symm)
  have gv : ∀ e (i : Fin (dim + 1)), G.geo (G.sub e dim i) = ⟨0, 1⟩ := fun e i =>
    h.ok.base.subGeo e dim i ⟨0, 1⟩ (by rw [h.ok.std, geoE]; exact (facet_table hd i).2.2.1)
  have gi : ∀ e t, t < nInner dim reduced → ∀ k, s.keys[(dim + 1) * (dim + 1) + t]? = some k → (G.geo (G.sub e k.codim k.sub)).dim = 2 := by
    intro e t ht k hk
    rcases inner_keys hx s.hkeys t ht with ⟨h2, rfl, hk'⟩ | ⟨h3, h4, hk'⟩
    · rw [hk] at hk'
      injection hk' with hk'
      subst hk'
      rw [h.ok.base.subGeo e 0 0 ⟨2, 3⟩ (by rw [h.ok.std, geoE, h2]; rfl)]
    · rw [hk] at hk'
      injection hk' with hk'
      subst hk'
      rw [h.ok.base.subGeo e 1 t ⟨2, 3⟩]
      rw [h.ok.std, geoE]
      subst h3
      have : ∀ t < 4, (stdSubs (FE.simplex 3) 1)[t]? = some ⟨2, 3⟩ := by decide
      exact this t h4
  set f : E → (Fin dim → ℝ) → ℝ := fun e x => eval ((geo e).global x) (q e) with hf
  set df : E → (Fin dim → ℝ) → Fin dim → ℝ := fun e x d => eval ((geo e).global x) (pderiv d (q e)) with hdf
  rcases number_cases hx l hl with ⟨i, k, rfl⟩ | ⟨t, ht, rfl⟩ <;> rcases number_cases hx l' hl' with ⟨i', k', rfl⟩ | ⟨t', ht', rfl⟩
  · obtain ⟨hs, hk⟩ := hsh _ _ (s.vertexKey i k) (s.vertexKey i' k')
    simp only at hs hk
    have hk := Fin.ext hk
    subst hk
    have hpos := h.position e e' i i' hs
    obtain ⟨v1, v2⟩ := hq.vertex e e' i i' hs
    revert h3 h4
    refine Fin.cases ?_ (fun d => ?_) k
    · intro h3 h4
      have c1 := coefs_value hx (s.fe e) (f e) (df e) i
      have c2 := coefs_value hx (s.fe e') (f e') (df e') i'
      simp only [Fin.val_zero, Nat.add_zero] at h3 h4
      have e1 := c1.symm.trans h3
      have e2 := c2.symm.trans h4
      injection e1 with e1
      injection e2 with e2
      rw [← e1, ← e2]
      simp only [hf]
      rw [v1, hpos]
    · intro h3 h4
      have c1 := coefs_gradient hx (s.fe e) (f e) (df e) i d
      have c2 := coefs_gradient hx (s.fe e') (f e') (df e') i' d
      simp only [Fin.val_succ] at h3 h4
      have e1 := c1.symm.trans h3
      have e2 := c2.symm.trans h4
      injection e1 with e1
      injection e2 with e2
      rw [← e1, ← e2, s.meshSize, s.meshSize, s.shared e e' i i' hs]
      simp only [hdf]
      rw [v2, hpos]
  · obtain ⟨k2, hk2⟩ : ∃ k2, s.keys[(dim + 1) * (dim + 1) + t']? = some k2 := ⟨_, List.getElem?_eq_getElem (by rw [s.length]; exact hl')⟩
    obtain ⟨hs, -⟩ := hsh _ _ (s.vertexKey i k) hk2
    have := gi e' t' ht' k2 hk2
    rw [← hs] at this
    simp only at this
    rw [gv] at this
    simp at this
  · obtain ⟨k2, hk2⟩ : ∃ k2, s.keys[(dim + 1) * (dim + 1) + t]? = some k2 := ⟨_, List.getElem?_eq_getElem (by rw [s.length]; exact hl)⟩
    obtain ⟨hs, -⟩ := hsh _ _ hk2 (s.vertexKey i' k')
    have := gi e t ht k2 hk2
    rw [hs] at this
    simp only at this
    rw [gv] at this
    simp at this
  · have c1 := coefs_inner hx (s.fe e) (f e) (df e) t ht
    have c2 := coefs_inner hx (s.fe e') (f e') (df e') t' ht'
    have e1 := c1.symm.trans h3
    have e2 := c2.symm.trans h4
    injection e1 with e1
    injection e2 with e2
    rw [← e1, ← e2]
    rcases inner_keys hx s.hkeys t ht with ⟨d2, rfl, hk⟩ | ⟨d3, t4, hk⟩ <;>
      rcases inner_keys hx s.hkeys t' ht' with ⟨d2', rfl, hk'⟩ | ⟨d3', t4', hk'⟩
    · have := h.ok.elemInj _ _ (hsh _ _ hk hk').1
      rw [this]
    · omega
    · omega
    · subst d3
      have hs : G.sub e 1 t = G.sub e' 1 t' := (hsh _ _ hk hk').1
      have := hq.facet e e' ⟨t, t4⟩ ⟨t', t4'⟩ hs (innerK ℝ 3 t) ⟨fun _ => 1 / 3, by norm_num, inner_centre ⟨t, t4⟩⟩
      simp only [hf]
      rw [this, centre_position h (i := ⟨t, t4⟩) (i' := ⟨t', t4'⟩) hs]

/-- The value of a function of the reduced basis in the centre of a triangle. -/
theorem reduced_centre {G : LGrid E S Nat} {geo : E → Affine 2} (s : Setup true G geo elems) (hx : Exists 2 true) {r : Nat → ℝ} {e : E}
    {p : MvPolynomial (Fin 2) ℝ} (hp : IsFunction true (geo e) (s.size e) (Conform.coef G.toGridView (hermiteLayout 2 true) s.keys r e) p)
    (hv : value true G.toGridView geo elems r e (fun _ => 1 / 3) = some (eval ((geo e).global fun _ => 1 / 3) p)) :
    6 * eval ((geo e).global fun _ => 1 / 3) p
      = ∑ i : Fin 3, (2 * eval ((geo e).global (vertexK ℝ 2 i)) p
        - ∑ d, ((geo e).global (vertexK ℝ 2 i) d - (geo e).global (fun _ => 1 / 3) d) * eval ((geo e).global (vertexK ℝ 2 i)) (pderiv d p)) := by
  have hl : Conform.localDofs G.toGridView (hermiteLayout 2 true) s.keys r e
      = (List.range 9).map (Conform.coef G.toGridView (hermiteLayout 2 true) s.keys r e) := by
    rw [Conform.localDofs_eq, s.length]
    rfl
  generalize Conform.coef G.toGridView (hermiteLayout 2 true) s.keys r e = w at hp hl
  have hc : evaluateFunction true (s.fe e) (fun _ => (1 / 3 : ℝ)) = some ((List.range 9).map (outF (s.fe e).scaledJacobian fun m => castQ ℝ (Hermite.w.getD m 0))) := by
    obtain ⟨E, hE⟩ := hx.wf
    have h3 : (fun _ => (1 / 3 : ℝ)) = fun d : Fin 2 => castQ ℝ ((fun _ => 1 / 3) d) := by
      funext d
      simp [castQ]
    have h9 : (refBasis 2 true).evaluateFunction (fun _ : Fin 2 => (1 / 3 : ℚ)) = some ((List.range 9).map fun m => Hermite.w.getD m 0) := by decide +kernel
    rw [evaluateFunction, h3, RefBasis.evaluateFunction_cast hE, h9]
    simp only [Option.map_some, List.map_map, Option.bind_eq_bind, Option.bind_some]
    exact transform_eq hx (s.fe e) _
  simp only [value, s.hsizes, s.bound, s.hkeys, Option.bind_some, hl, hc, Option.map_some, Option.some.injEq] at hv
  rw [← hv]
  have o0 : ∀ (i : Fin 3) (g : Nat → ℝ), outF (s.fe e).scaledJacobian g (3 * i) = g (3 * i) := by
    intro i g
    fin_cases i <;> rfl
  have o1 : ∀ (i : Fin 3) (k : Fin 2) (g : Nat → ℝ), outF (s.fe e).scaledJacobian g (3 * i + (k + 1))
      = (geo e).J k 0 / s.size e i * g (3 * i + 1) + (geo e).J k 1 / s.size e i * g (3 * i + 2) := by
    intro i k g
    rw [← s.jacobian, ← s.jacobian]
    fin_cases i <;> fin_cases k <;> simp [outF, Fin.sum_univ_two]
  have hw : Hermite.w = [1/3, 1/18, 1/18, 1/3, -1/9, 1/18, 1/3, 1/18, -1/9] := rfl
  have r : ∀ (i : Fin 3) (d : Fin 2), eval ((geo e).global (vertexK ℝ 2 i)) (pderiv d p) = w (3 * i + (d + 1)) / s.size e i := hp.gradient
  have v : ∀ (i : Fin 3), eval ((geo e).global (vertexK ℝ 2 i)) p = w (3 * i) := hp.value
  rw [Conform.axpyAll_range]
  simp only [Finset.sum_range_succ, Finset.sum_range_zero, zero_add, smul_eq_mul, Fin.sum_univ_three, Fin.sum_univ_two, r, v]
  have a0 := o0 0
  have a1 := o0 1
  have a2 := o0 2
  have b00 := o1 0 0
  have b01 := o1 0 1
  have b10 := o1 1 0
  have b11 := o1 1 1
  have b20 := o1 2 0
  have b21 := o1 2 1
  simp at a0 a1 a2 b00 b01 b10 b11 b20 b21
  simp [a0, a1, a2, b00, b01, b10, b11, b20, b21, hw, castQ, Affine.global, vertexK, vertex, Fin.sum_univ_two]
  have n0 := s.sizeNe e 0
  have n1 := s.sizeNe e 1
  have n2 := s.sizeNe e 2
  simp at n0 n1 n2
  field_simp
  ring

theorem global_plane (g : Affine dim) (y : Fin dim → ℝ) :
    (fun d => g.global (vertexK ℝ dim (0 : Fin (dim + 1))) d
      + ∑ j : Fin dim, (g.global (vertexK ℝ dim j.succ) d - g.global (vertexK ℝ dim (0 : Fin (dim + 1))) d) * y j) = g.global y := by
  funext d
  have h0 : vertexK ℝ dim (0 : Fin (dim + 1)) = 0 := vertex_zero dim
  have h1 : ∀ j : Fin dim, vertexK ℝ dim j.succ = fun d => if j = d then 1 else 0 := fun j => vertex_succ dim j
  simp only [Affine.global, h0, h1]
  simp

/-- A cubic polynomial with vanishing degrees of freedom on an element is zero. -/
theorem unisolvent_element (hd : Exists dim false) {g : Affine dim} (hg : g.J.det ≠ 0) (W : MvPolynomial (Fin dim) ℝ) (hW : W.totalDegree ≤ 3)
    (h0 : ∀ i : Fin (dim + 1), eval (g.global (vertexK ℝ dim i)) W = 0)
    (h1 : ∀ (i : Fin (dim + 1)) d, eval (g.global (vertexK ℝ dim i)) (pderiv d W) = 0)
    (h2 : ∀ t < nInner dim false, eval (g.global (innerK ℝ dim t)) W = 0) : W = 0 := by
  apply MvPolynomial.funext
  intro y
  obtain ⟨x, rfl⟩ := global_surjective hg y
  have := plane_zero hd (fun i : Fin (dim + 1) => g.global (vertexK ℝ dim i)) W hW h0 h1 (fun t ht => by
    rw [global_plane]
    exact h2 t ht) x
  rw [global_plane] at this
  rw [this, map_zero]

theorem full_exists (hx : Exists dim reduced) : Exists dim false := ⟨hx.1, by simp⟩

/-- The families are functions of the basis. -/
theorem family_exists [Nonempty E] (hx : Exists dim reduced) (h : AffineGrid G geo) (hall : ∀ e, e ∈ elems) {q : E → MvPolynomial (Fin dim) ℝ}
    (hq : HermiteFamily reduced G geo q) :
    ∃ r, ∀ e x, value reduced G.toGridView geo elems r e x = some (eval ((geo e).global x) (q e)) ∧
      derivative reduced G.toGridView geo elems r e x = some fun d => eval ((geo e).global x) (pderiv d (q e)) := by
  obtain ⟨s⟩ := exists_setup hx h elems hall inferInstance
  obtain ⟨r, -, r2, -⟩ := s.result hx (consistent s hx h hq) (fun _ => 0) elems hall
  refine ⟨r, fun e => ?_⟩
  obtain ⟨p, p1, p2⟩ := s.function hx h r e
  suffices hpq : p = q e by
    intro x
    rw [← hpq]
    exact p2 x
  set f : E → (Fin dim → ℝ) → ℝ := fun e x => eval ((geo e).global x) (q e) with hf
  set df : E → (Fin dim → ℝ) → Fin dim → ℝ := fun e x d => eval ((geo e).global x) (pderiv d (q e)) with hdf
  have v : ∀ i : Fin (dim + 1), eval ((geo e).global (vertexK ℝ dim i)) p = eval ((geo e).global (vertexK ℝ dim i)) (q e) := by
    intro i
    rw [p1.value, s.coef_eq hx (r2 e) (coefs_value hx (s.fe e) (f e) (df e) i)]
  have w : ∀ (i : Fin (dim + 1)) d, eval ((geo e).global (vertexK ℝ dim i)) (pderiv d p) = eval ((geo e).global (vertexK ℝ dim i)) (pderiv d (q e)) := by
    intro i d
    rw [p1.gradient, s.coef_eq hx (r2 e) (coefs_gradient hx (s.fe e) (f e) (df e) i d), s.meshSize, mul_div_cancel_right₀ _ (s.sizeNe e i)]
  rw [← sub_eq_zero]
  refine unisolvent_element (full_exists hx) (h.regular e) _ ((MvPolynomial.totalDegree_sub _ _).trans (max_le p1.degree (hq.degree e)))
    (fun i => by rw [map_sub, v, sub_self]) (fun i d => by rw [map_sub, map_sub, w, sub_self]) fun t ht => ?_
  rw [map_sub, sub_eq_zero]
  by_cases hr : reduced = false
  · subst hr
    rw [p1.inner t ht, s.coef_eq hx (r2 e) (coefs_inner hx (s.fe e) (f e) (df e) t ht)]
  · rw [Bool.not_eq_false] at hr
    subst hr
    have d2 := hx.2 rfl
    subst d2
    have c1 := reduced_centre s hx p1 (p2 _).1
    have c2 := hq.centre rfl e
    simp only [v, w] at c1
    have hin : innerK ℝ 2 t = fun _ => 1 / 3 := by
      funext d
      simp [innerK, innerPoint, castQ]
    rw [hin]
    linarith

/-- **C89, Hermite basis.** A function is a function of the cubic Hermite basis, exactly if it is continuous, on each element a polynomial of degree at most
three, and its gradients agree in common vertices. For the reduced basis in addition the value `c` in the centre of each triangle satisfies
`6 f(c) = Σᵢ (2 f(vᵢ) - ∇f(vᵢ)·(vᵢ - c))`. -/
theorem C89_hermite [Nonempty E] (hx : Exists dim reduced) (h : AffineGrid G geo) (hall : ∀ e, e ∈ elems) (f : E → (Fin dim → ℝ) → ℝ) :
    (∃ vec, ∀ e x, value reduced G.toGridView geo elems vec e x = some (f e x)) ↔
      ∃ q, HermiteFamily reduced G geo q ∧ ∀ e x, f e x = eval ((geo e).global x) (q e) := by
  refine ⟨?_, ?_⟩
  · rintro ⟨vec, hvec⟩
    obtain ⟨s⟩ := exists_setup hx h elems hall inferInstance
    choose p p1 p2 using fun e => s.function hx h vec e
    refine ⟨p, ⟨fun e => (p1 e).degree, ?_, ?_, ?_⟩, ?_⟩
    · intro e e' a a' hs
      obtain ⟨⟨v, v1, v2⟩, w, w1, w2⟩ := C62_vertex hx h elems hall vec hs
      rw [(p2 e _).1, Option.some.injEq] at v1
      rw [(p2 e _).2, Option.some.injEq] at w1
      rw [(p2 e' _).1, Option.some.injEq, ← h.position e e' a a' hs] at v2
      rw [(p2 e' _).2, Option.some.injEq, ← h.position e e' a a' hs] at w2
      exact ⟨v1.trans v2.symm, fun d => congrFun (w1.trans w2.symm) d⟩
    · intro e e' i i' hs x hon
      obtain ⟨x', hx'⟩ := global_surjective (h.regular e') ((geo e).global x)
      obtain ⟨v, v1, v2⟩ := C62_facet hx h elems hall vec hs hon hx'.symm
      rw [(p2 e _).1, Option.some.injEq] at v1
      rw [(p2 e' _).1, Option.some.injEq, hx'] at v2
      exact v1.trans v2.symm
    · intro hr e
      subst hr
      have d2 := hx.2 rfl
      subst d2
      exact reduced_centre s hx (p1 e) (p2 e _).1
    · intro e x
      have := hvec e x
      rw [(p2 e _).1, Option.some.injEq] at this
      exact this.symm
  · rintro ⟨q, hq, hf⟩
    obtain ⟨r, hr⟩ := family_exists hx h hall hq
    exact ⟨r, fun e x => by rw [(hr e x).1, hf]⟩

/-- **C89, Hermite basis, uniqueness.** Different coefficient vectors give different functions. -/
theorem C89_hermite_unique [Nonempty E] (hx : Exists dim reduced) (h : AffineGrid G geo) (hall : ∀ e, e ∈ elems) (vec vec' : Nat → ℝ)
    (heq : ∀ e x, value reduced G.toGridView geo elems vec e x = value reduced G.toGridView geo elems vec' e x) :
    ∀ n < mapperSize G.toGridView (hermiteLayout dim reduced), vec n = vec' n := by
  obtain ⟨s⟩ := exists_setup hx h elems hall inferInstance
  intro n hn
  obtain ⟨e, l, hl⟩ := s.index hn
  obtain ⟨p, p1, p2⟩ := s.function hx h vec e
  obtain ⟨p', p1', p2'⟩ := s.function hx h vec' e
  have hp : p = p' := by
    apply MvPolynomial.funext
    intro y
    obtain ⟨x, rfl⟩ := global_surjective (h.regular e) y
    have := heq e x
    rwa [(p2 x).1, (p2' x).1, Option.some.injEq] at this
  subst hp
  have g : ∀ v : Nat → ℝ, Conform.coef G.toGridView (hermiteLayout dim reduced) s.keys v e l = v n := by
    intro v
    rw [Conform.coef, show ((mapperLeaf G.toGridView (hermiteLayout dim reduced) fun _ => s.keys).loc e)[l]? = some n from hl]
    rfl
  rw [← g vec, ← g vec']
  have hlt : l < Hermite.size dim reduced := by rw [← s.loc_length e]; exact (List.getElem?_eq_some_iff.1 hl).1
  rcases number_cases hx l hlt with ⟨i, k, rfl⟩ | ⟨t, ht, rfl⟩
  · refine Fin.cases ?_ (fun d => ?_) k
    · simp only [Fin.val_zero, Nat.add_zero]
      rw [← p1.value, p1'.value]
    · have := (p1.gradient i d).symm.trans (p1'.gradient i d)
      simp only [Fin.val_succ]
      exact (div_left_inj' (s.sizeNe e i)).1 this
  · rw [← p1.inner t ht, p1'.inner t ht]

/-! ## Examples -/

theorem demo_vertices : ∀ (e e' : Fin 2) (i i' : Fin 3), demoGrid.sub e 2 i = demoGrid.sub e' 2 i' →
    (e = e' ∧ i = i') ∨ (e ≠ e' ∧ i.val + i'.val = 3 ∧ i ≠ 0) := by decide

theorem demo_edges : ∀ (e e' : Fin 2) (i i' : Fin 3), demoGrid.sub e 1 i = demoGrid.sub e' 1 i' → (e = e' ∧ i = i') ∨ (e ≠ e' ∧ i = 2 ∧ i' = 2) := by
  decide

theorem demo_diagonal (e : Fin 2) (i : Fin 3) (hi : i ≠ 0) :
    ((demoGeo e).global (vertexK ℝ 2 i) 0 = 1 ∧ (demoGeo e).global (vertexK ℝ 2 i) 1 = 0) ∨
      ((demoGeo e).global (vertexK ℝ 2 i) 0 = 0 ∧ (demoGeo e).global (vertexK ℝ 2 i) 1 = 1) := by
  fin_cases e <;> fin_cases i <;> simp [demoGeo, Affine.global, Hermite.vertexK, Hermite.vertex, castQ] at hi ⊢

/-- `0` on the first triangle and `xy(x + y - 1)` on the second one. -/
noncomputable def ridge (e : Fin 2) : MvPolynomial (Fin 2) ℝ :=
  if e = 0 then 0 else MvPolynomial.X 0 * MvPolynomial.X 1 * (MvPolynomial.X 0 + MvPolynomial.X 1 - 1)

theorem ridge_family : HermiteFamily false demoGrid demoGeo ridge where
  degree := by
    intro e
    fin_cases e
    · simp [ridge]
    · have h1 : (MvPolynomial.X 0 + MvPolynomial.X 1 - 1 : MvPolynomial (Fin 2) ℝ).totalDegree ≤ 1 :=
        (MvPolynomial.totalDegree_sub _ _).trans (max_le ((MvPolynomial.totalDegree_add _ _).trans (by simp)) (by simp))
      have h2 : (MvPolynomial.X 0 * MvPolynomial.X 1 : MvPolynomial (Fin 2) ℝ).totalDegree ≤ 2 :=
        (MvPolynomial.totalDegree_mul _ _).trans (by simp)
      simp only [ridge]
      exact (MvPolynomial.totalDegree_mul _ _).trans (Nat.add_le_add h2 h1)
  vertex := by
    intro e e' a a' hs
    rcases demo_vertices e e' a a' hs with ⟨rfl, rfl⟩ | ⟨hne, -, h0⟩
    · exact ⟨rfl, fun _ => rfl⟩
    · have hy : (demoGeo e).global (vertexK ℝ 2 a) 0 + (demoGeo e).global (vertexK ℝ 2 a) 1 - 1 = 0 ∧
          (demoGeo e).global (vertexK ℝ 2 a) 0 * (demoGeo e).global (vertexK ℝ 2 a) 1 = 0 := by
        rcases demo_diagonal e a h0 with ⟨h1, h2⟩ | ⟨h1, h2⟩ <;> rw [h1, h2] <;> norm_num
      generalize (demoGeo e).global (vertexK ℝ 2 a) = y at hy
      obtain ⟨hy1, hy2⟩ := hy
      refine ⟨?_, ?_⟩
      · fin_cases e <;> fin_cases e' <;> simp [ridge, hy1] at hne ⊢
      · intro d
        fin_cases e <;> fin_cases e' <;> fin_cases d <;> simp [ridge, hy1, hy2, Derivation.leibniz] at hne ⊢
  facet := by
    intro e e' i i' hs x hx
    rcases demo_edges e e' i i' hs with ⟨rfl, rfl⟩ | ⟨hne, rfl, rfl⟩
    · rfl
    · obtain ⟨t, ht, rfl⟩ := hx
      have f0 : facetVertex 2 2 0 = 1 := by decide
      have f1 : facetVertex 2 2 1 = 2 := by decide
      rw [Fin.sum_univ_two] at ht
      have hy : (demoGeo e).global (fun d => ∑ j, t j * vertexK ℝ 2 (facetVertex 2 (2 : Fin 3) j) d) 0
          + (demoGeo e).global (fun d => ∑ j, t j * vertexK ℝ 2 (facetVertex 2 (2 : Fin 3) j) d) 1 - 1 = 0 := by
        fin_cases e <;> simp [demoGeo, Affine.global, Fin.sum_univ_two, f0, f1, Hermite.vertexK, Hermite.vertex, castQ] <;> linarith
      generalize (demoGeo e).global (fun d => ∑ j, t j * vertexK ℝ 2 (facetVertex 2 (2 : Fin 3) j) d) = y at hy
      fin_cases e <;> fin_cases e' <;> simp [ridge, hy] at hne ⊢
  centre := by simp

/-- A function of the Hermite basis whose gradient jumps across the common edge. -/
example : ∃ vec, ∀ x, value false demoGrid.toGridView demoGeo [0, 1] vec 0 x = some 0 ∧
    value false demoGrid.toGridView demoGeo [0, 1] vec 1 ![0, 0] = some 1 := by
  obtain ⟨vec, hvec⟩ := (C89_hermite (by decide) demo_affineGrid (elems := [0, 1]) (by decide)
    fun e x => eval ((demoGeo e).global x) (ridge e)).2 ⟨ridge, ridge_family, fun _ _ => rfl⟩
  refine ⟨vec, fun x => ⟨?_, ?_⟩⟩
  · rw [hvec]
    simp [ridge]
  · rw [hvec]
    simp [ridge, demoGeo, Affine.global]

/-- It is no function of the reduced basis. -/
example : ¬ ∃ vec, ∀ e x, value true demoGrid.toGridView demoGeo [0, 1] vec e x = some (eval ((demoGeo e).global x) (ridge e)) := by
  rw [C89_hermite (by decide) demo_affineGrid (elems := [0, 1]) (by decide)]
  rintro ⟨q, hq, hf⟩
  have h1 : q 1 = ridge 1 := by
    apply MvPolynomial.funext
    intro y
    obtain ⟨x, rfl⟩ := global_surjective (demo_affineGrid.regular 1) y
    rw [← hf]
  have := hq.centre rfl 1
  rw [h1] at this
  simp [ridge, demoGeo, Affine.global, Fin.sum_univ_two, Fin.sum_univ_three, Hermite.vertexK, Hermite.vertex, castQ, Derivation.leibniz] at this
  norm_num at this

end Verif.FE.HermiteSpace

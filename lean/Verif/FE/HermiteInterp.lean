import Verif.FE.Interpolation
import Mathlib.Algebra.MvPolynomial.Funext

/-!
# Interpolation in the Hermite space
-/

namespace Verif.FE.HermiteInterp

open Verif.FE Verif.Mapper Verif.Lagrange Verif.FE.Hermite Verif.FE.HermiteConform Verif.FE.Interpolation
open MvPolynomial (pderiv eval)

variable {E S : Type} {dim : Nat}

/-! ## Model -/

/-- `interpolate(basis, coeff, f)` for the cubic Hermite basis. `f e` is the local function bound to `e` and `df e` its derivative. The pre-basis
was constructed with the traversal `elems` of the grid view. interpolate.hh:254-259 (loop) and :151-173 (leaf), cubichermitebasis.hh:695-700 (`bind`). -/
noncomputable def hermiteInterpolate (reduced : Bool) (G : GridView E S) (geo : E → Affine dim) (elems : List E) (f : E → (Fin dim → ℝ) → ℝ)
    (df : E → (Fin dim → ℝ) → Fin dim → ℝ) (vec : Nat → ℝ) (es : List E) : Option (Nat → ℝ) :=
  (meshSizes G geo elems).bind fun sizes => (hermiteKeys dim reduced).bind fun keys =>
    interpolateAll (mapperLeaf G (hermiteLayout dim reduced) fun _ => keys).loc
      (fun _ e => (bindNode G geo sizes e).bind fun fe => Hermite.interpolate reduced fe (f e) (df e)) vec es

/-- The local function of `AnalyticGridViewFunction`, analyticgridviewfunction.hh:105-109. -/
def localOf {V : Type} (geo : E → Affine dim) (F : (Fin dim → ℝ) → V) (e : E) (x : Fin dim → ℝ) : V := F ((geo e).global x)

/-! ## Proofs -/

theorem get_of_range {n : Nat} {l : List (Nat × ℝ)} (h : l.map Prod.fst = List.range n) {p : Nat × ℝ} (hp : p ∈ l) :
    (l.map Prod.snd)[p.1]? = some p.2 := by
  obtain ⟨k, hk, rfl⟩ := List.getElem_of_mem hp
  have : (l.map Prod.fst)[k]? = (List.range n)[k]? := by rw [h]
  have hn : n = l.length := by
    have := congrArg List.length h
    simpa using this.symm
  rw [List.getElem?_map, List.getElem?_eq_getElem hk, List.getElem?_range (by omega), Option.map_some, Option.some.injEq] at this
  rw [this, List.getElem?_map, List.getElem?_eq_getElem hk, Option.map_some]

section
variable {reduced : Bool} (h : Exists dim reduced) (fe : Bound ℝ dim) (f : (Fin dim → ℝ) → ℝ) (df : (Fin dim → ℝ) → Fin dim → ℝ)
include h

theorem coefs_value (i : Fin (dim + 1)) : ((writes reduced fe f df).map Prod.snd)[(dim + 1) * i.val]? = some (f (vertexK ℝ dim i)) := by
  have := get_of_range (writes_fst h fe f df) (p := (i.val * (dim + 1), f (vertexK ℝ dim i))) (by
    simp only [writes, List.mem_append, List.mem_flatMap, List.mem_finRange, true_and, List.mem_cons]
    exact Or.inl ⟨i, Or.inl rfl⟩)
  rw [Nat.mul_comm]
  exact this

theorem coefs_gradient (i : Fin (dim + 1)) (d : Fin dim) : ((writes reduced fe f df).map Prod.snd)[(dim + 1) * i.val + (d.val + 1)]?
    = some (df (vertexK ℝ dim i) d * fe.meshSize i) := by
  have := get_of_range (writes_fst h fe f df) (p := (i.val * (dim + 1) + d.val + 1, df (vertexK ℝ dim i) d * fe.meshSize i)) (by
    simp only [writes, List.mem_append, List.mem_flatMap, List.mem_finRange, true_and, List.mem_cons, List.mem_map]
    exact Or.inl ⟨i, Or.inr ⟨d, rfl⟩⟩)
  rw [Nat.mul_comm, ← Nat.add_assoc]
  exact this

theorem coefs_inner (t : Nat) (ht : t < nInner dim reduced) : ((writes reduced fe f df).map Prod.snd)[(dim + 1) * (dim + 1) + t]?
    = some (f (innerK ℝ dim t)) := by
  refine get_of_range (writes_fst h fe f df) (p := ((dim + 1) * (dim + 1) + t, f (innerK ℝ dim t))) ?_
  have hr : reduced = false := by
    cases reduced with
    | false => rfl
    | true => simp [nInner] at ht
  subst hr
  simp only [writes, List.mem_append]
  right
  simp only [Bool.false_eq_true, if_false, List.mem_map, List.mem_range]
  exact ⟨t, by simpa [nInner] using ht, rfl⟩

omit fe f df in
/-- Each local number belongs to a vertex or to an inner point. -/
theorem number_cases (l : Nat) (hl : l < size dim reduced) :
    (∃ i k : Fin (dim + 1), l = (dim + 1) * i.val + k.val) ∨ ∃ t < nInner dim reduced, l = (dim + 1) * (dim + 1) + t := by
  rcases h.cases with ⟨rfl, rfl⟩ | ⟨rfl, rfl⟩ | ⟨rfl, rfl⟩ | ⟨rfl, rfl⟩ <;> revert l <;> decide +kernel

end

theorem inner_keys {reduced : Bool} (h : Exists dim reduced) {keys : List Key} (hk : hermiteKeys dim reduced = some keys) (t : Nat)
    (ht : t < nInner dim reduced) : (dim = 2 ∧ t = 0 ∧ keys[(dim + 1) * (dim + 1) + t]? = some ⟨0, 0, 0⟩) ∨
      (dim = 3 ∧ t < dim + 1 ∧ keys[(dim + 1) * (dim + 1) + t]? = some ⟨t, 1, 0⟩) := by
  have key : ∀ keys, hermiteKeys dim reduced = some keys → (dim = 2 ∧ ∀ t < nInner dim reduced, t = 0 ∧ keys[(dim + 1) * (dim + 1) + t]? = some ⟨0, 0, 0⟩) ∨
      (dim = 3 ∧ ∀ t < nInner dim reduced, t < dim + 1 ∧ keys[(dim + 1) * (dim + 1) + t]? = some ⟨t, 1, 0⟩) ∨ nInner dim reduced = 0 := by
    rcases h.cases with ⟨rfl, rfl⟩ | ⟨rfl, rfl⟩ | ⟨rfl, rfl⟩ | ⟨rfl, rfl⟩ <;> intro keys hk
    · exact Or.inr (Or.inr rfl)
    · cases hk
      left
      decide +kernel
    · exact Or.inr (Or.inr rfl)
    · cases hk
      right
      left
      decide +kernel
  rcases key keys hk with ⟨h1, h2⟩ | ⟨h1, h2⟩ | h0
  · exact Or.inl ⟨h1, (h2 t ht).1, (h2 t ht).2⟩
  · exact Or.inr ⟨h1, (h2 t ht).1, (h2 t ht).2⟩
  · omega

/-- The centres of a common facet of two tetrahedra. -/
theorem centre_position {G : LGrid E S Nat} {geo : E → Affine 3} (h : AffineGrid G geo) {e e' : E} {i i' : Fin 4}
    (hs : G.sub e 1 i = G.sub e' 1 i') : (geo e).global (innerK ℝ 3 i) = (geo e').global (innerK ℝ 3 i') := by
  obtain ⟨σ, hσ, hids⟩ := facet_vertices (by simp) h hs
  obtain ⟨-, -, -, hlt, -⟩ := facet_table (dim := 3) (by simp) i
  obtain ⟨-, -, -, hlt', -⟩ := facet_table (dim := 3) (by simp) i'
  have hpos : ∀ j, (geo e).global (vertexK ℝ 3 (facetVertex 3 i j)) = (geo e').global (vertexK ℝ 3 (facetVertex 3 i' (σ j))) :=
    fun j => h.position e e' ⟨_, hlt j⟩ ⟨_, hlt' (σ j)⟩ (h.idVertex e e' ⟨_, hlt j⟩ ⟨_, hlt' (σ j)⟩ (hids j))
  have avg : ∀ (g : Affine 3) (v : Fin 3 → Fin 3 → ℝ), g.global (fun d => ∑ j, (fun _ => 1 / 3) j * v j d) = fun d => 1 / 3 * ∑ j, g.global (v j) d := by
    intro g v
    funext d
    simp only [Affine.global, Fin.sum_univ_three]
    ring
  rw [inner_centre, inner_centre, avg, avg]
  funext d
  congr 1
  refine Eq.trans (Finset.sum_congr rfl fun j _ => ?_)
    (hσ.sum_comp fun j => (geo e').global (vertexK ℝ 3 (facetVertex 3 i' j)) d)
  exact congrFun (hpos j) d

/-- The bound finite elements of a grid. -/
structure Setup (reduced : Bool) (G : LGrid E S Nat) (geo : E → Affine dim) (elems : List E) where
  keys : List Key
  sizes : List ℝ
  fe : E → Bound ℝ dim
  size : E → Nat → ℝ
  hkeys : hermiteKeys dim reduced = some keys
  length : keys.length = Hermite.size dim reduced
  numbering : Numbering G.toGridView (hermiteLayout dim reduced) keys
  hsizes : meshSizes G.toGridView geo elems = some sizes
  nonzero : ∀ s ∈ sizes, s ≠ 0
  bound : ∀ e, bindNode G.toGridView geo sizes e = some (fe e)
  jacobian : ∀ e (i : Fin (dim + 1)) a b, (fe e).scaledJacobian i a b = (geo e).J a b / size e i
  meshSize : ∀ e (i : Fin (dim + 1)), (fe e).meshSize i = size e i
  sizeNe : ∀ e (i : Fin (dim + 1)), size e i ≠ 0
  shared : ∀ e e' (a a' : Fin (dim + 1)), G.sub e dim a = G.sub e' dim a' → size e a = size e' a'
  vertexKey : ∀ i k : Fin (dim + 1), keys[(dim + 1) * i.val + k.val]? = some ⟨i, dim, k⟩

theorem volume_pos {g : Affine dim} (hg : g.J.det ≠ 0) : 0 < volume g := by
  unfold volume
  have := abs_pos.2 hg
  have : (0 : ℝ) < dim.factorial := by exact_mod_cast Nat.factorial_pos dim
  positivity

theorem exists_setup {reduced : Bool} (hx : Exists dim reduced) {G : LGrid E S Nat} {geo : E → Affine dim} (h : AffineGrid G geo) (elems : List E)
    (hall : ∀ e, e ∈ elems) (hne : Nonempty E) : Nonempty (Setup reduced G geo elems) := by
  have hd := exists_dim hx
  have hdp : 0 < G.dim := by have := h.dimEq; omega
  have geoE : ∀ e, G.elemGeo e = FE.simplex dim := fun e => by rw [h.simplex.simplices e, h.dimEq]
  obtain ⟨r, m1, m2, -⟩ := MeshSize.C56 h.ok.base hdp MeshSize.vertexLayout (fun e => volume (geo e)) elems hall
  obtain ⟨keys, k1, k2, k3⟩ := keys_spec hx
  obtain ⟨keys', k1', k4, num, -⟩ := C60_hermite h.simplex hne (by rw [h.dimEq]; exact hx)
  rw [h.dimEq, k1] at k1'
  injection k1' with k1'
  subst k1'
  rw [h.dimEq] at k4 num
  have hlt : ∀ e (i : Fin (dim + 1)), mapperIndex G.toGridView MeshSize.vertexLayout (G.sub e dim i) < r.length := by
    intro e i
    have := mapper_lt h.ok.base MeshSize.vertexLayout (G.sub e dim i) 0 (by
      rw [h.ok.base.subGeo e dim i ⟨0, 1⟩ (by rw [h.ok.std, geoE]; exact (facet_table hd i).2.2.1)]
      decide)
    omega
  have hnz : ∀ s ∈ r, s ≠ 0 := fun s hs =>
    (MeshSize.C56_pos h.ok.base hdp _ _ elems hall (fun e => volume_pos (h.regular e)) m1 s hs).1.ne'
  set size : E → Nat → ℝ := fun e i => r.getD (mapperIndex G.toGridView MeshSize.vertexLayout (G.sub e dim i)) 0 with hsize
  have hget : ∀ e (i : Fin (dim + 1)), size e i = r[mapperIndex G.toGridView MeshSize.vertexLayout (G.sub e dim i)]'(hlt e i) := by
    intro e i
    simp only [hsize]
    rw [List.getD_eq_getElem?_getD, List.getElem?_eq_getElem (hlt e i), Option.getD_some]
  refine ⟨⟨keys, r, fun e => _, size, k1, k4, num, m1, hnz, fun e => dif_pos (hlt e), ?_, ?_, ?_, ?_, k2⟩⟩
  · intro e i a b
    simp only [hget]
  · intro e i
    simp only [hget]
  · intro e i
    rw [hget]
    exact hnz _ (List.getElem_mem _)
  · intro e e' a a' hs
    simp only [hsize]
    rw [hs]

variable {reduced : Bool} {G : LGrid E S Nat} {geo : E → Affine dim} {elems : List E}

/-- The coefficients computed on an element. -/
noncomputable def Setup.coefs (s : Setup reduced G geo elems) (f : E → (Fin dim → ℝ) → ℝ) (df : E → (Fin dim → ℝ) → Fin dim → ℝ) (e : E) : List ℝ :=
  (writes reduced (s.fe e) (f e) (df e)).map Prod.snd

/-- The indices of an element. -/
def Setup.loc (s : Setup reduced G geo elems) (e : E) : List Nat := (mapperLeaf G.toGridView (hermiteLayout dim reduced) fun _ => s.keys).loc e

theorem Setup.loc_length (s : Setup reduced G geo elems) (e : E) : (s.loc e).length = Hermite.size dim reduced := by
  rw [Setup.loc, s.numbering.length, s.length]

theorem Setup.coefs_length (s : Setup reduced G geo elems) (hx : Exists dim reduced) (f : E → (Fin dim → ℝ) → ℝ)
    (df : E → (Fin dim → ℝ) → Fin dim → ℝ) (e : E) : (s.coefs f df e).length = Hermite.size dim reduced := by
  have := congrArg List.length (writes_fst hx (s.fe e) (f e) (df e))
  simpa [Setup.coefs] using this

theorem Setup.interpolate_eq (s : Setup reduced G geo elems) (hx : Exists dim reduced) (f : E → (Fin dim → ℝ) → ℝ)
    (df : E → (Fin dim → ℝ) → Fin dim → ℝ) (vec : Nat → ℝ) (es : List E) :
    hermiteInterpolate reduced G.toGridView geo elems f df vec es = interpolateAll s.loc (fun _ e => some (s.coefs f df e)) vec es := by
  simp only [hermiteInterpolate, s.hsizes, s.hkeys, Option.bind_some, s.bound, Hermite.interpolate_eq hx]
  rfl

/-- The function with the coefficients `r` on element `e`. -/
theorem Setup.function (s : Setup reduced G geo elems) (hx : Exists dim reduced) (h : AffineGrid G geo) (r : Nat → ℝ) (e : E) :
    ∃ p, IsFunction reduced (geo e) (s.size e) (Conform.coef G.toGridView (hermiteLayout dim reduced) s.keys r e) p ∧ ∀ x,
      value reduced G.toGridView geo elems r e x = some (eval ((geo e).global x) p) ∧
      derivative reduced G.toGridView geo elems r e x = some fun d => eval ((geo e).global x) (pderiv d p) := by
  obtain ⟨p, p1, p2⟩ := isFunction hx (h.regular e) (s.size e) (s.jacobian e) (Conform.coef G.toGridView (hermiteLayout dim reduced) s.keys r e)
  refine ⟨p, p1, fun x => ?_⟩
  have hl : Conform.localDofs G.toGridView (hermiteLayout dim reduced) s.keys r e
      = (List.range (Hermite.size dim reduced)).map (Conform.coef G.toGridView (hermiteLayout dim reduced) s.keys r e) := by
    rw [Conform.localDofs_eq, s.length]
    rfl
  refine ⟨?_, ?_⟩
  · simp only [value, s.hsizes, s.bound, s.hkeys, Option.bind_some, hl]
    exact (p2 x).1
  · simp only [derivative, s.hsizes, s.bound, s.hkeys, Option.bind_some, hl]
    exact (p2 x).2

theorem Setup.coef_eq (s : Setup reduced G geo elems) (hx : Exists dim reduced) {f : E → (Fin dim → ℝ) → ℝ} {df : E → (Fin dim → ℝ) → Fin dim → ℝ}
    {r : Nat → ℝ} {e : E} (hr : ∀ (l n : Nat) (x : ℝ), (s.loc e)[l]? = some n → (s.coefs f df e)[l]? = some x → r n = x) {l : Nat} {x : ℝ}
    (hl : (s.coefs f df e)[l]? = some x) : Conform.coef G.toGridView (hermiteLayout dim reduced) s.keys r e l = x := by
  have hlt := (List.getElem?_eq_some_iff.1 hl).1
  rw [s.coefs_length hx] at hlt
  have e1 : (s.loc e)[l]? = some ((s.loc e)[l]'(by rw [s.loc_length]; exact hlt)) := List.getElem?_eq_getElem _
  have := hr l _ x e1 hl
  unfold Conform.coef
  rw [show ((mapperLeaf G.toGridView (hermiteLayout dim reduced) fun _ => s.keys).loc e)[l]? = _ from e1, Option.map_some, Option.getD_some, this]

/-- Elements agree in shared coefficients, if the function and its derivative are functions of global coordinates. -/
theorem Setup.consistent (s : Setup reduced G geo elems) (hx : Exists dim reduced) (h : AffineGrid G geo) (F : (Fin dim → ℝ) → ℝ)
    (DF : (Fin dim → ℝ) → Fin dim → ℝ) (e e' : E) (l l' n : Nat) (x x' : ℝ) (h1 : (s.loc e)[l]? = some n) (h2 : (s.loc e')[l']? = some n)
    (h3 : (s.coefs (localOf geo F) (localOf geo DF) e)[l]? = some x) (h4 : (s.coefs (localOf geo F) (localOf geo DF) e')[l']? = some x') :
    x = x' := by
  have hd := exists_dim hx
  have geoE : ∀ e, G.elemGeo e = FE.simplex dim := fun e => by rw [h.simplex.simplices e, h.dimEq]
  have hl : l < Hermite.size dim reduced := by rw [← s.loc_length e]; exact (List.getElem?_eq_some_iff.1 h1).1
  have hl' : l' < Hermite.size dim reduced := by rw [← s.loc_length e']; exact (List.getElem?_eq_some_iff.1 h2).1
  have hsh : ∀ k k', s.keys[l]? = some k → s.keys[l']? = some k' → G.sub e k.codim k.sub = G.sub e' k'.codim k'.sub ∧ k.index = k'.index :=
    fun k k' hk hk' => (s.numbering.shared e e' l l' k k' hk hk').1 (h1.trans h2.symm)
  have gv : ∀ e (i : Fin (dim + 1)), G.geo (G.sub e dim i) = ⟨0, 1⟩ := fun e i =>
    h.ok.base.subGeo e dim i ⟨0, 1⟩ (by rw [h.ok.std, geoE]; exact (facet_table hd i).2.2.1)
  have gi : ∀ e t, t < nInner dim reduced → ∀ k, s.keys[(dim + 1) * (dim + 1) + t]? = some k → (G.geo (G.sub e k.codim k.sub)).dim = 2 := by
    intro e t ht k hk
    rcases inner_keys hx s.hkeys t ht with ⟨h2, rfl, hk'⟩ | ⟨h3, h4, hk'⟩
    · rw [hk] at hk'
      injection hk' with hk'
      subst hk'
      rw [h.ok.base.subGeo e 0 0 ⟨2, 3⟩ (by rw [h.ok.std, geoE, h2]; rfl)]
    · rw [hk] at hk'
      injection hk' with hk'
      subst hk'
      rw [h.ok.base.subGeo e 1 t ⟨2, 3⟩]
      rw [h.ok.std, geoE]
      subst h3
      have : ∀ t < 4, (stdSubs (FE.simplex 3) 1)[t]? = some ⟨2, 3⟩ := by decide
      exact this t h4
  rcases number_cases hx l hl with ⟨i, k, rfl⟩ | ⟨t, ht, rfl⟩ <;> rcases number_cases hx l' hl' with ⟨i', k', rfl⟩ | ⟨t', ht', rfl⟩
  · obtain ⟨hs, hk⟩ := hsh _ _ (s.vertexKey i k) (s.vertexKey i' k')
    simp only at hs hk
    have hk := Fin.ext hk
    subst hk
    have hpos := h.position e e' i i' hs
    revert h3 h4
    refine Fin.cases ?_ (fun d => ?_) k
    · intro h3 h4
      have c1 := coefs_value hx (s.fe e) (localOf geo F e) (localOf geo DF e) i
      have c2 := coefs_value hx (s.fe e') (localOf geo F e') (localOf geo DF e') i'
      simp only [Fin.val_zero, Nat.add_zero] at h3 h4
      have e1 := c1.symm.trans h3
      have e2 := c2.symm.trans h4
      injection e1 with e1
      injection e2 with e2
      rw [← e1, ← e2, localOf, localOf, hpos]
    · intro h3 h4
      have c1 := coefs_gradient hx (s.fe e) (localOf geo F e) (localOf geo DF e) i d
      have c2 := coefs_gradient hx (s.fe e') (localOf geo F e') (localOf geo DF e') i' d
      simp only [Fin.val_succ] at h3 h4
      have e1 := c1.symm.trans h3
      have e2 := c2.symm.trans h4
      injection e1 with e1
      injection e2 with e2
      rw [← e1, ← e2, localOf, localOf, hpos, s.meshSize, s.meshSize, s.shared e e' i i' hs]
  · obtain ⟨k2, hk2⟩ : ∃ k2, s.keys[(dim + 1) * (dim + 1) + t']? = some k2 := ⟨_, List.getElem?_eq_getElem (by rw [s.length]; exact hl')⟩
    obtain ⟨hs, -⟩ := hsh _ _ (s.vertexKey i k) hk2
    have := gi e' t' ht' k2 hk2
    rw [← hs] at this
    simp only at this
    rw [gv] at this
    simp at this
  · obtain ⟨k2, hk2⟩ : ∃ k2, s.keys[(dim + 1) * (dim + 1) + t]? = some k2 := ⟨_, List.getElem?_eq_getElem (by rw [s.length]; exact hl)⟩
    obtain ⟨hs, -⟩ := hsh _ _ hk2 (s.vertexKey i' k')
    have := gi e t ht k2 hk2
    rw [hs] at this
    simp only at this
    rw [gv] at this
    simp at this
  · have c1 := coefs_inner hx (s.fe e) (localOf geo F e) (localOf geo DF e) t ht
    have c2 := coefs_inner hx (s.fe e') (localOf geo F e') (localOf geo DF e') t' ht'
    have e1 := c1.symm.trans h3
    have e2 := c2.symm.trans h4
    injection e1 with e1
    injection e2 with e2
    rw [← e1, ← e2, localOf, localOf]
    congr 1
    rcases inner_keys hx s.hkeys t ht with ⟨d2, rfl, hk⟩ | ⟨d3, t4, hk⟩ <;>
      rcases inner_keys hx s.hkeys t' ht' with ⟨d2', rfl, hk'⟩ | ⟨d3', t4', hk'⟩
    · have := h.ok.elemInj _ _ (hsh _ _ hk hk').1
      rw [this]
    · omega
    · omega
    · subst d3
      exact centre_position h (i := ⟨t, t4⟩) (i' := ⟨t', t4'⟩) (hsh _ _ hk hk').1

theorem Setup.index (s : Setup reduced G geo elems) {n : Nat} (hn : n < mapperSize G.toGridView (hermiteLayout dim reduced)) :
    ∃ (e : E) (l : Nat), (s.loc e)[l]? = some n := by
  obtain ⟨e, he⟩ := s.numbering.used n hn
  obtain ⟨l, hl⟩ := List.getElem?_of_mem he
  exact ⟨e, l, hl⟩

/-- The result of the interpolation. -/
theorem Setup.result (s : Setup reduced G geo elems) (hx : Exists dim reduced) {f : E → (Fin dim → ℝ) → ℝ} {df : E → (Fin dim → ℝ) → Fin dim → ℝ}
    (cons : ∀ (e e' : E) (l l' n : Nat) (x x' : ℝ), (s.loc e)[l]? = some n → (s.loc e')[l']? = some n → (s.coefs f df e)[l]? = some x →
      (s.coefs f df e')[l']? = some x' → x = x') (vec : Nat → ℝ) (es : List E) (hes : ∀ e, e ∈ es) :
    ∃ r, hermiteInterpolate reduced G.toGridView geo elems f df vec es = some r ∧
      (∀ (e : E) (l n : Nat) (x : ℝ), (s.loc e)[l]? = some n → (s.coefs f df e)[l]? = some x → r n = x) ∧
      ∀ n, mapperSize G.toGridView (hermiteLayout dim reduced) ≤ n → r n = vec n := by
  obtain ⟨r, r1, r2, r3⟩ := interpolateAll_spec (loc := s.loc) (coefs := fun _ e => some (s.coefs f df e)) (fun _ _ => rfl)
    (fun e => by rw [s.coefs_length hx, s.loc_length]) cons vec es
  refine ⟨r, by rw [s.interpolate_eq hx]; exact r1, fun e => r2 e (hes e), fun n hn => r3 n fun e _ hc => ?_⟩
  have : n < mapperSize G.toGridView (hermiteLayout dim reduced) := s.numbering.bounded e n hc
  omega

/-- **C64, Hermite basis.** Let `F` be a function of global coordinates with derivative `DF`. `interpolate(basis, coeff, F)` gives the same coefficients
for all orders of traversal and all previous contents of the vector. The discrete function has the value and the derivative of `F` in all vertices, on
all elements, and the value of `F` in the inner points. -/
theorem C64_hermite [Nonempty E] (hx : Exists dim reduced) (h : AffineGrid G geo) (hall : ∀ e, e ∈ elems) (F : (Fin dim → ℝ) → ℝ)
    (DF : (Fin dim → ℝ) → Fin dim → ℝ) :
    ∃ T : Nat → ℝ, ∀ (es : List E) (_ : ∀ e, e ∈ es) (vec : Nat → ℝ), ∃ r,
      hermiteInterpolate reduced G.toGridView geo elems (localOf geo F) (localOf geo DF) vec es = some r ∧
      (∀ n < mapperSize G.toGridView (hermiteLayout dim reduced), r n = T n) ∧
      (∀ n, mapperSize G.toGridView (hermiteLayout dim reduced) ≤ n → r n = vec n) ∧
      (∀ e (i : Fin (dim + 1)), value reduced G.toGridView geo elems r e (vertexK ℝ dim i) = some (F ((geo e).global (vertexK ℝ dim i))) ∧
        derivative reduced G.toGridView geo elems r e (vertexK ℝ dim i) = some (DF ((geo e).global (vertexK ℝ dim i)))) ∧
      ∀ e, ∀ t < nInner dim reduced, value reduced G.toGridView geo elems r e (innerK ℝ dim t) = some (F ((geo e).global (innerK ℝ dim t))) := by
  obtain ⟨s⟩ := exists_setup hx h elems hall inferInstance
  have cons := s.consistent hx h F DF
  obtain ⟨T, -, T2, -⟩ := s.result hx cons (fun _ => 0) elems hall
  refine ⟨T, fun es hes vec => ?_⟩
  obtain ⟨r, r1, r2, r3⟩ := s.result hx cons vec es hes
  refine ⟨r, r1, ?_, r3, ?_, ?_⟩
  · intro n hn
    obtain ⟨e, l, hl⟩ := s.index hn
    have hlt : l < (s.coefs (localOf geo F) (localOf geo DF) e).length := by
      rw [s.coefs_length hx, ← s.loc_length e]
      exact (List.getElem?_eq_some_iff.1 hl).1
    rw [r2 e l n _ hl (List.getElem?_eq_getElem hlt), T2 e l n _ hl (List.getElem?_eq_getElem hlt)]
  · intro e i
    obtain ⟨p, p1, p2⟩ := s.function hx h r e
    rw [(p2 _).1, (p2 _).2, p1.value]
    refine ⟨?_, congrArg some (funext fun d => ?_)⟩
    · rw [s.coef_eq hx (r2 e) (coefs_value hx (s.fe e) (localOf geo F e) (localOf geo DF e) i)]
      rfl
    · rw [p1.gradient, s.coef_eq hx (r2 e) (coefs_gradient hx (s.fe e) (localOf geo F e) (localOf geo DF e) i d), s.meshSize,
        mul_div_cancel_right₀ _ (s.sizeNe e i)]
      rfl
  · intro e t ht
    obtain ⟨p, p1, p2⟩ := s.function hx h r e
    rw [(p2 _).1, p1.inner t ht, s.coef_eq hx (r2 e) (coefs_inner hx (s.fe e) (localOf geo F e) (localOf geo DF e) t ht)]
    rfl

theorem global_surjective {g : Affine dim} (hg : g.J.det ≠ 0) (y : Fin dim → ℝ) : ∃ x, g.global x = y := by
  refine ⟨fun j => ∑ d, g.J⁻¹ j d * (y d - g.origin d), ?_⟩
  funext d
  simp only [Affine.global, Finset.mul_sum]
  rw [Finset.sum_comm]
  simp only [← mul_assoc, ← Finset.sum_mul, mul_inv hg]
  simp

theorem axpyAll_zip (cs vs : List ℝ) : Conform.axpyAll cs vs = (List.zipWith (· * ·) cs vs).sum := by
  have key : ∀ (l : List (ℝ × ℝ)) (y : ℝ), l.foldl (fun y cv => y + cv.1 • cv.2) y = y + (l.map fun p => p.1 * p.2).sum := by
    intro l
    induction l with
    | nil => simp
    | cons a l ih => intro y; rw [List.foldl_cons, ih]; simp [add_assoc]
  rw [Conform.axpyAll, key, zero_add]
  congr 1
  induction cs generalizing vs with
  | nil => rfl
  | cons a cs ih => cases vs with
    | nil => rfl
    | cons b vs => simp [ih]

/-- **C64, Hermite basis, polynomials.** The interpolation of a polynomial of degree at most three (at most two for the reduced element) is the polynomial:
values and derivatives of the discrete function are those of the polynomial at every point of every element. -/
theorem C64_hermite_polynomials [Nonempty E] (hx : Exists dim reduced) (h : AffineGrid G geo) (hall : ∀ e, e ∈ elems)
    (q : MvPolynomial (Fin dim) ℝ) (hq : q.totalDegree ≤ if reduced then 2 else 3) (es : List E) (hes : ∀ e, e ∈ es) (vec : Nat → ℝ) :
    ∃ r, hermiteInterpolate reduced G.toGridView geo elems (localOf geo fun y => eval y q) (localOf geo fun y d => eval y (pderiv d q)) vec es
        = some r ∧
      ∀ e x, value reduced G.toGridView geo elems r e x = some (eval ((geo e).global x) q) ∧
        derivative reduced G.toGridView geo elems r e x = some fun d => eval ((geo e).global x) (pderiv d q) := by
  obtain ⟨s⟩ := exists_setup hx h elems hall inferInstance
  obtain ⟨r, r1, r2, -⟩ := s.result hx (s.consistent hx h (fun y => eval y q) fun y d => eval y (pderiv d q)) vec es hes
  refine ⟨r, r1, fun e => ?_⟩
  have hval : ∀ x, value reduced G.toGridView geo elems r e x = some (eval ((geo e).global x) q) := by
    intro x
    have hp : ∀ y, eval y (pull (geo e).origin (geo e).J q) = eval ((geo e).global y) q := fun y => eval_pull _ _ y q
    obtain ⟨cs, vs, c1, c2, c3, c4⟩ := C49_reproduction hx (s.bound e) s.nonzero (pull (geo e).origin (geo e).J q)
      ((totalDegree_pull _ _ _).trans hq) (df := localOf geo (fun y d => eval y (pderiv d q)) e) (by
        intro i j
        rw [pderiv_pull, map_sum]
        simp only [map_mul, eval_pull, MvPolynomial.eval_C]
        rfl) x
    rw [Hermite.interpolate_eq hx] at c1
    injection c1 with c1
    have hc : cs = s.coefs (localOf geo fun y => eval y q) (localOf geo fun y d => eval y (pderiv d q)) e := by
      rw [← c1, Setup.coefs]
      congr 3
      funext y
      exact hp y
    have hdofs : Conform.localDofs G.toGridView (hermiteLayout dim reduced) s.keys r e = cs := by
      rw [hc]
      apply List.ext_getElem
      · rw [s.coefs_length hx, ← s.loc_length e]
        simp [Conform.localDofs, Setup.loc]
      · intro l l1 l2
        have hl : l < (s.loc e).length := by rw [s.loc_length, ← s.coefs_length hx]; exact l2
        have := r2 e l _ _ (List.getElem?_eq_getElem hl) (List.getElem?_eq_getElem l2)
        rw [← this]
        simp [Conform.localDofs, Setup.loc]
    simp only [value, s.hsizes, s.bound, s.hkeys, Option.bind_some, c2, Option.map_some, hdofs]
    rw [axpyAll_zip, c4, hp]
  obtain ⟨p, -, p2⟩ := s.function hx h r e
  have hpq : p = q := by
    apply MvPolynomial.funext
    intro y
    obtain ⟨x, rfl⟩ := global_surjective (h.regular e) y
    have := (p2 x).1.symm.trans (hval x)
    injection this
  intro x
  exact ⟨hval x, by rw [(p2 x).2, hpq]⟩

/-- **C64, Hermite basis, projection.** The interpolation of a discrete function of the same space returns its coefficients. -/
theorem C64_hermite_projection [Nonempty E] (hx : Exists dim reduced) (h : AffineGrid G geo) (hall : ∀ e, e ∈ elems) (v : Nat → ℝ)
    {f : E → (Fin dim → ℝ) → ℝ} {df : E → (Fin dim → ℝ) → Fin dim → ℝ} (hf : ∀ e x, value reduced G.toGridView geo elems v e x = some (f e x))
    (hdf : ∀ e x, derivative reduced G.toGridView geo elems v e x = some (df e x)) (es : List E) (hes : ∀ e, e ∈ es) (vec : Nat → ℝ) :
    ∃ r, hermiteInterpolate reduced G.toGridView geo elems f df vec es = some r ∧
      ∀ n < mapperSize G.toGridView (hermiteLayout dim reduced), r n = v n := by
  obtain ⟨s⟩ := exists_setup hx h elems hall inferInstance
  have key : ∀ (e : E) (l n : Nat) (x : ℝ), (s.loc e)[l]? = some n → (s.coefs f df e)[l]? = some x → x = v n := by
    intro e l n x hn hl
    obtain ⟨p, p1, p2⟩ := s.function hx h v e
    have hfe : ∀ y, f e y = eval ((geo e).global y) p := fun y => Option.some.inj ((hf e y).symm.trans (p2 y).1)
    have hdfe : ∀ y, df e y = fun d => eval ((geo e).global y) (pderiv d p) := fun y => Option.some.inj ((hdf e y).symm.trans (p2 y).2)
    have hlt := (List.getElem?_eq_some_iff.1 hl).1
    rw [s.coefs_length hx] at hlt
    have hv : v n = Conform.coef G.toGridView (hermiteLayout dim reduced) s.keys v e l := by
      unfold Conform.coef
      rw [show ((mapperLeaf G.toGridView (hermiteLayout dim reduced) fun _ => s.keys).loc e)[l]? = _ from hn]
      rfl
    rw [hv]
    rcases number_cases hx l hlt with ⟨i, k, rfl⟩ | ⟨t, ht, rfl⟩
    · revert hl hn hv hlt
      refine Fin.cases ?_ (fun d => ?_) k
      · intro hn hl _ _
        have c1 := coefs_value hx (s.fe e) (f e) (df e) i
        simp only [Fin.val_zero, Nat.add_zero] at hl ⊢
        have e1 := c1.symm.trans hl
        injection e1 with e1
        rw [← e1, hfe, p1.value]
      · intro hn hl _ _
        have c1 := coefs_gradient hx (s.fe e) (f e) (df e) i d
        simp only [Fin.val_succ] at hl ⊢
        have e1 := c1.symm.trans hl
        injection e1 with e1
        rw [← e1, hdfe]
        beta_reduce
        rw [p1.gradient, s.meshSize, div_mul_cancel₀ _ (s.sizeNe e i)]
    · have c1 := coefs_inner hx (s.fe e) (f e) (df e) t ht
      have e1 := c1.symm.trans hl
      injection e1 with e1
      rw [← e1, hfe, p1.inner t ht]
  obtain ⟨r, r1, r2, -⟩ := s.result hx (fun e e' l l' n x x' h1 h2 h3 h4 => (key e l n x h1 h3).trans (key e' l' n x' h2 h4).symm) vec es hes
  refine ⟨r, r1, fun n hn => ?_⟩
  obtain ⟨e, l, hl⟩ := s.index hn
  have hlt : l < (s.coefs f df e).length := by
    rw [s.coefs_length hx, ← s.loc_length e]
    exact (List.getElem?_eq_some_iff.1 hl).1
  rw [r2 e l n _ hl (List.getElem?_eq_getElem hlt), key e l n _ hl (List.getElem?_eq_getElem hlt)]

/-! ## Example -/

/-- `x²y + 2y` on the two triangles of the unit square, at a point inside the second one. -/
example : ∃ r, hermiteInterpolate false demoGrid.toGridView demoGeo [0, 1] (localOf demoGeo fun y => y 0 * y 0 * y 1 + 2 * y 1)
      (localOf demoGeo fun y => ![2 * y 0 * y 1, y 0 * y 0 + 2]) (fun _ => 17) [1, 0] = some r ∧
    value false demoGrid.toGridView demoGeo [0, 1] r 1 ![1 / 2, 1 / 4] = some (1 / 2 * (1 / 2) * (3 / 4) + 2 * (3 / 4)) := by
  have hd : (MvPolynomial.X 0 * MvPolynomial.X 0 * MvPolynomial.X 1 + MvPolynomial.C 2 * MvPolynomial.X 1 : MvPolynomial (Fin 2) ℝ).totalDegree
      ≤ if false = true then 2 else 3 := by
    refine (MvPolynomial.totalDegree_add _ _).trans (max_le ?_ ?_)
    · refine (MvPolynomial.totalDegree_mul _ _).trans ?_
      have := MvPolynomial.totalDegree_mul (MvPolynomial.X 0 : MvPolynomial (Fin 2) ℝ) (MvPolynomial.X 0)
      simp only [MvPolynomial.totalDegree_X] at this ⊢
      simp only [Bool.false_eq_true, if_false]
      omega
    · refine (MvPolynomial.totalDegree_mul _ _).trans ?_
      simp
  obtain ⟨r, r1, r2⟩ := C64_hermite_polynomials (reduced := false) (by decide) demo_affineGrid (elems := [0, 1]) (by decide) _ hd [1, 0]
    (by decide) fun _ => 17
  refine ⟨r, ?_, ?_⟩
  · rw [← r1]
    congr 1
    · funext e x
      simp [localOf]
    · funext e x d
      fin_cases d <;> simp [localOf, MvPolynomial.pderiv_X]
      ring
  · rw [(r2 1 _).1]
    simp [demoGeo, Affine.global, Fin.sum_univ_two]
    norm_num

end Verif.FE.HermiteInterp

import Verif.FE.HermiteInterp

/-!
# Interpolation in the Morley and Argyris spaces
-/

namespace Verif.FE.TriangleInterp

open Verif.FE Verif.FE.Triangle Verif.Mapper Verif.Lagrange Verif.FE.Conform Verif.FE.Interpolation
open Verif.FE.HermiteInterp (get_of_range axpyAll_zip)
open MvPolynomial (pderiv eval)

variable {E S : Type}

/-! ## Model -/

/-- `interpolate(basis, coeff, f)` for the Morley basis. `f e` is the local function bound to `e` and `df e` its derivative. The pre-basis
was constructed with the traversal `elems` of the grid view. interpolate.hh:254-259 (loop) and :151-173 (leaf), morleybasis.hh:568-573 (`bind`). -/
noncomputable def morleyInterpolate (G : LGrid E S Nat) (geo : E → Affine) (elems : List E) (f : E → Vec → ℝ) (df : E → Vec → Vec) (vec : Nat → ℝ)
    (es : List E) : Option (Nat → ℝ) :=
  (edgeTable G elems).bind fun data => morleyKeys.bind fun keys =>
    interpolateAll (mapperLeaf G.toGridView morleyLayout fun _ => keys).loc
      (fun history e => (morleyBind G geo data (history ++ [e])).bind fun fe => Morley.interpolate fe (f e) (df e)) vec es

/-- `interpolate(basis, coeff, f)` for the Argyris basis. `Hf e` is the second derivative.
interpolate.hh:254-259 (loop) and :151-173 (leaf), argyrisbasis.hh:504-532. -/
noncomputable def argyrisInterpolate (G : LGrid E S Nat) (geo : E → Affine) (elems : List E) (f : E → Vec → ℝ) (df : E → Vec → Vec)
    (Hf : E → Vec → Fin 2 → Fin 2 → ℝ) (vec : Nat → ℝ) (es : List E) : Option (Nat → ℝ) :=
  (argyrisPreBasis G geo elems).bind fun pb => argyrisKeys.bind fun keys =>
    interpolateAll (mapperLeaf G.toGridView argyrisLayout fun _ => keys).loc
      (fun _ e => (argyrisBind G geo pb e).bind fun fe => Argyris.interpolate fe (f e) (df e) (Hf e)) vec es

/-- The local function of `AnalyticGridViewFunction`, analyticgridviewfunction.hh:105-109. -/
def localOf {V : Type} (geo : E → Affine) (F : Vec → V) (e : E) (x : Vec) : V := F ((geo e).global x)

/-! ## Facts on triangles -/

theorem global_surjective {g : Affine} (hg : g.Regular) (y : Vec) : ∃ x, g.global x = y := by
  unfold Affine.Regular at hg
  obtain ⟨D, hD⟩ : ∃ D, g.J 0 0 * g.J 1 1 - g.J 0 1 * g.J 1 0 = D := ⟨_, rfl⟩
  rw [hD] at hg
  refine ⟨fun j => ∑ d, Argyris.inv g j d * (y d - g.origin d), ?_⟩
  funext d
  simp only [Affine.global, Fin.sum_univ_two, Argyris.inv, hD]
  fin_cases d <;> simp <;> field_simp <;> rw [← hD] <;> ring

/-- Vectors that vanish in the direction of the unit normal vanish in the direction of all normals. -/
theorem along_normal {g : Affine} (hg : g.Regular) (i : Fin 3) {a b : ℝ} (h : rot (tangent g i) 0 * a + rot (tangent g i) 1 * b = 0) {n : Vec}
    (hn : n 0 * globalEdge g i 0 + n 1 * globalEdge g i 1 = 0) : a * n 0 + b * n 1 = 0 := by
  have hne := globalNorm_ne hg i
  have hs2 := twoNorm_sq (globalEdge g i)
  have r0 : rot (tangent g i) 0 = -(globalEdge g i 1 / twoNorm (globalEdge g i)) := rfl
  have r1 : rot (tangent g i) 1 = globalEdge g i 0 / twoNorm (globalEdge g i) := rfl
  rw [r0, r1] at h
  have key3 : globalEdge g i 1 * a = globalEdge g i 0 * b := by
    field_simp at h
    linear_combination -h
  apply mul_left_cancel₀ (mul_ne_zero hne hne)
  rw [hs2]
  generalize globalEdge g i 0 = E0 at *
  generalize globalEdge g i 1 = E1 at *
  linear_combination (a * E0 + b * E1) * hn + (n 0 * E1 - n 1 * E0) * key3

theorem geo_sub {G : LGrid E S Nat} {geo : E → Affine} (h : TriGrid G geo) (e : E) (i : Fin 3) :
    (G.geo (G.sub e 2 i)).dim = 0 ∧ (G.geo (G.sub e 1 i)).dim = 1 := by
  have geo3 : ∀ e, G.elemGeo e = ⟨2, 3⟩ := fun e => by rw [h.simplex.simplices e, h.dim2]; rfl
  refine ⟨?_, ?_⟩
  · rw [h.ok.base.subGeo e 2 i ⟨0, 1⟩ (by rw [h.ok.std, geo3]; fin_cases i <;> rfl)]
  · rw [h.ok.base.subGeo e 1 i ⟨1, 2⟩ (by rw [h.ok.std, geo3]; fin_cases i <;> rfl)]

/-- Interpolation on a whole grid view, for a leaf basis with consistent element coefficients. -/
theorem leaf_result {G : GridView E S} {lay : Layout} {keys : List Key} (num : Numbering G lay keys) {coefs : List E → E → Option (List ℝ)}
    {c : E → List ℝ} (hc : ∀ history e, coefs history e = some (c e)) (hl : ∀ e, (c e).length = keys.length)
    (cons : ∀ (e e' : E) (l l' : Nat) (k k' : Key) (x x' : ℝ), keys[l]? = some k → keys[l']? = some k' →
      G.sub e k.codim k.sub = G.sub e' k'.codim k'.sub → k.index = k'.index → (c e)[l]? = some x → (c e')[l']? = some x' → x = x')
    (es : List E) (hes : ∀ e, e ∈ es) (vec : Nat → ℝ) :
    ∃ r, interpolateAll (mapperLeaf G lay fun _ => keys).loc coefs vec es = some r ∧
      (∀ (e : E) (l : Nat) (x : ℝ), (c e)[l]? = some x → coef G lay keys r e l = x) ∧
      (∀ e, localDofs G lay keys r e = c e) ∧
      (∀ n, mapperSize G lay ≤ n → r n = vec n) ∧
      ∀ n < mapperSize G lay, ∃ (e : E) (l : Nat) (x : ℝ), (c e)[l]? = some x ∧ ((mapperLeaf G lay fun _ => keys).loc e)[l]? = some n ∧ r n = x := by
  have ll : ∀ e, ((mapperLeaf G lay fun _ => keys).loc e).length = keys.length := num.length
  have cons' : ∀ (e e' : E) (l l' n : Nat) (x x' : ℝ), ((mapperLeaf G lay fun _ => keys).loc e)[l]? = some n →
      ((mapperLeaf G lay fun _ => keys).loc e')[l']? = some n → (c e)[l]? = some x → (c e')[l']? = some x' → x = x' := by
    intro e e' l l' n x x' h1 h2 h3 h4
    have hlt : l < keys.length := by rw [← ll e]; exact (List.getElem?_eq_some_iff.1 h1).1
    have hlt' : l' < keys.length := by rw [← ll e']; exact (List.getElem?_eq_some_iff.1 h2).1
    obtain ⟨s1, s2⟩ := (num.shared e e' l l' _ _ (List.getElem?_eq_getElem hlt) (List.getElem?_eq_getElem hlt')).1 (h1.trans h2.symm)
    exact cons e e' l l' _ _ x x' (List.getElem?_eq_getElem hlt) (List.getElem?_eq_getElem hlt') s1 s2 h3 h4
  obtain ⟨r, r1, r2, r3⟩ := interpolateAll_spec hc (fun e => by rw [hl, ll]) cons' vec es
  have get : ∀ (e : E) (l : Nat) (x : ℝ), (c e)[l]? = some x → ∃ n, ((mapperLeaf G lay fun _ => keys).loc e)[l]? = some n ∧ r n = x := by
    intro e l x hx
    have hlt := (List.getElem?_eq_some_iff.1 hx).1
    rw [hl, ← ll e] at hlt
    exact ⟨_, List.getElem?_eq_getElem hlt, r2 e (hes e) l _ x (List.getElem?_eq_getElem hlt) hx⟩
  refine ⟨r, r1, ?_, ?_, ?_, ?_⟩
  · intro e l x hx
    obtain ⟨n, hn, hr⟩ := get e l x hx
    rw [coef, hn, Option.map_some, Option.getD_some, hr]
  · intro e
    apply List.ext_getElem
    · rw [hl, ← ll e]
      simp [localDofs]
    · intro l l1 l2
      obtain ⟨n, hn, hr⟩ := get e l _ (List.getElem?_eq_getElem l2)
      rw [← hr]
      obtain ⟨hl', rfl⟩ := List.getElem?_eq_some_iff.1 hn
      simp [localDofs]
  · intro n hn
    refine r3 n fun e _ hc => ?_
    have : n < mapperSize G lay := num.bounded e n hc
    omega
  · intro n hn
    obtain ⟨e, he⟩ := num.used n hn
    obtain ⟨l, hle⟩ := List.getElem?_of_mem he
    have hlt := (List.getElem?_eq_some_iff.1 hle).1
    rw [ll, ← hl e] at hlt
    exact ⟨e, l, _, List.getElem?_eq_getElem hlt, hle, r2 e (hes e) l n _ hle (List.getElem?_eq_getElem hlt)⟩

/-! ## Morley -/

/-- The coefficients computed on an element. -/
noncomputable def morleyCoefs (G : LGrid E S Nat) (geo : E → Affine) (f : E → Vec → ℝ) (df : E → Vec → Vec) (e : E) : List ℝ :=
  let n := Morley.normals (geo e) (edgeFlags (G.ids e))
  [f e (corner 0), f e (corner 1), f e (corner 2),
    df e (midpointR 0) 0 * n 0 0 + df e (midpointR 0) 1 * n 0 1,
    df e (midpointR 1) 0 * n 1 0 + df e (midpointR 1) 1 * n 1 1,
    df e (midpointR 2) 0 * n 2 0 + df e (midpointR 2) 1 * n 2 1]

theorem morleyCoefs_value (G : LGrid E S Nat) (geo : E → Affine) (f : E → Vec → ℝ) (df : E → Vec → Vec) (e : E) (i : Fin 3) :
    (morleyCoefs G geo f df e)[i.val]? = some (f e (corner i)) := by
  fin_cases i <;> rfl

theorem morleyCoefs_normal (G : LGrid E S Nat) (geo : E → Affine) (f : E → Vec → ℝ) (df : E → Vec → Vec) (e : E) (i : Fin 3) :
    (morleyCoefs G geo f df e)[3 + i.val]? = some (df e (midpointR i) 0 * Morley.normals (geo e) (edgeFlags (G.ids e)) i 0
      + df e (midpointR i) 1 * Morley.normals (geo e) (edgeFlags (G.ids e)) i 1) := by
  fin_cases i <;> rfl

theorem morley_keys : ∃ keys, morleyKeys = some keys ∧ keys.length = 6 ∧ (∀ i : Fin 3, keys[i.val]? = some ⟨i, 2, 0⟩) ∧
    ∀ i : Fin 3, keys[3 + i.val]? = some ⟨i, 1, 0⟩ := ⟨_, rfl, by decide +kernel, by decide +kernel, by decide +kernel⟩

theorem morley_cases (l : Nat) (hl : l < 6) : (∃ i : Fin 3, l = i.val) ∨ ∃ i : Fin 3, l = 3 + i.val := by
  by_cases h : l < 3
  · exact Or.inl ⟨⟨l, h⟩, rfl⟩
  · exact Or.inr ⟨⟨l - 3, by omega⟩, by simp only; omega⟩

/-- The members of the Morley basis and the functions of the elements. -/
structure MorleySetup (G : LGrid E S Nat) (geo : E → Affine) (elems : List E) where
  keys : List Key
  hkeys : morleyKeys = some keys
  numbering : Numbering G.toGridView morleyLayout keys
  length : keys.length = 6
  key2 : ∀ i : Fin 3, keys[i.val]? = some ⟨i, 2, 0⟩
  key1 : ∀ i : Fin 3, keys[3 + i.val]? = some ⟨i, 1, 0⟩
  data : List (Nat → Bool)
  hdata : edgeTable G elems = some data
  bound : ∀ l : List E, morleyBind G geo data l = some (Morley.bindAll (l.map fun e => (geo e, edgeFlags (G.ids e))))

theorem morleySetup {G : LGrid E S Nat} {geo : E → Affine} (h : TriGrid G geo) (elems : List E) (hall : ∀ e, e ∈ elems) (hne : Nonempty E) :
    Nonempty (MorleySetup G geo elems) := by
  obtain ⟨table, t1, t2⟩ := edgeTable_spec h elems
  obtain ⟨keys, k1, k0, k2, k3⟩ := morley_keys
  obtain ⟨keys', k1', k4, num, -⟩ := C60_morley h.simplex hne h.dim2
  rw [k1] at k1'
  injection k1' with k1'
  subst k1'
  refine ⟨⟨keys, k1, num, k0, k2, k3, table, t1, fun l => ?_⟩⟩
  have : (l.mapM fun e => (table[mapperIndex G.toGridView (elementLayout 2) (G.sub e 0 0)]?).map fun o => (geo e, o))
      = some (l.map fun e => (geo e, edgeFlags (G.ids e))) := by
    induction l with
    | nil => rfl
    | cons a l ih => rw [List.mapM_cons, ih, t2 a (hall a)]; rfl
  rw [morleyBind, this]
  rfl

section
variable {G : LGrid E S Nat} {geo : E → Affine} {elems : List E} (s : MorleySetup G geo elems)

/-- The finite element bound to `e`. -/
noncomputable def MorleySetup.fe (_s : MorleySetup G geo elems) (history : List E) (e : E) : Morley.Bound :=
  Morley.bindAll (history.map (fun e => (geo e, edgeFlags (G.ids e))) ++ [(geo e, edgeFlags (G.ids e))])

theorem MorleySetup.bind_eq (history : List E) (e : E) : morleyBind G geo s.data (history ++ [e]) = some (s.fe history e) := by
  rw [s.bound]
  simp [MorleySetup.fe]

theorem MorleySetup.coefs_eq (f : E → Vec → ℝ) (df : E → Vec → Vec) (history : List E) (e : E) :
    (morleyBind G geo s.data (history ++ [e])).bind (fun fe => Morley.interpolate fe (f e) (df e)) = some (morleyCoefs G geo f df e) := by
  rw [s.bind_eq, Option.bind_some]
  have hn : (s.fe history e).normals = Morley.normals (geo e) (edgeFlags (G.ids e)) := Morley.bindAll_normals _ _ _
  unfold morleyCoefs
  simp only [← hn]
  rfl

theorem MorleySetup.function (h : TriGrid G geo) (r : Nat → ℝ) (history : List E) (e : E) (c : ℝ) (x : Vec) :
    morleyValue c G geo elems history r e x = some (eval ((geo e).global x) (Argyris.push (geo e)
      (combine 6 (coef G.toGridView morleyLayout s.keys r e) (Morley.shape c (s.fe history e))))) ∧
    morleyDerivative c G geo elems history r e x = some fun d => eval ((geo e).global x) (pderiv d (Argyris.push (geo e)
      (combine 6 (coef G.toGridView morleyLayout s.keys r e) (Morley.shape c (s.fe history e))))) := by
  have hd : localDofs G.toGridView morleyLayout s.keys r e = (List.range 6).map (coef G.toGridView morleyLayout s.keys r e) := by
    rw [localDofs_eq, s.length]
    rfl
  refine ⟨?_, ?_⟩
  · simp only [morleyValue, s.hdata, s.bind_eq, s.hkeys, Option.bind_some, (Morley.evaluate_eq c _ x).1, Option.map_some, hd]
    rw [eval_combine, Argyris.eval_push (h.regular e)]
  · simp only [morleyDerivative, s.hdata, s.bind_eq, s.hkeys, Option.bind_some, (Morley.evaluate_eq c _ x).2.1, Option.map_some, hd]
    rw [jacobian_combine, timesInverse_eq (h.regular e)]

theorem MorleySetup.mat (history : List E) (e : E) (m n : Fin 6) :
    (s.fe history e).mat m n = Morley.matrix (geo e) (edgeFlags (G.ids e)) m n := Morley.bindAll_mat _ _ _ m n

/-- The functionals of a linear combination of the shape functions. -/
theorem MorleySetup.dual (h : TriGrid G geo) (history : List E) (e : E) {c : ℝ} (hc : c = 1 / 2 * Real.sqrt 2) (w : Nat → ℝ) (n : Fin 6) :
    Morley.dof (geo e) (edgeFlags (G.ids e)) n (combine 6 w (Morley.shape c (s.fe history e))) = w n := by
  refine map_combine_dual 6 w (Morley.shape c (s.fe history e)) _ n n.2 fun m hm => ?_
  have := Morley.duality (h.regular e) (edgeFlags (G.ids e)) c (s.fe history e) (s.mat history e) ⟨m, hm⟩ n
  rw [show c * Real.sqrt 2 = 1 by rw [hc]; have := Morley.sqrt2_sq; linear_combination 1 / 2 * this] at this
  rw [this]
  simp [Fin.ext_iff]

theorem MorleySetup.consistent (h : TriGrid G geo) (F : Vec → ℝ) (DF : Vec → Vec) (e e' : E) (l l' : Nat) (k k' : Key) (x x' : ℝ)
    (hk : s.keys[l]? = some k) (hk' : s.keys[l']? = some k') (hs : G.sub e k.codim k.sub = G.sub e' k'.codim k'.sub) (_ : k.index = k'.index)
    (h1 : (morleyCoefs G geo (localOf geo F) (localOf geo DF) e)[l]? = some x)
    (h2 : (morleyCoefs G geo (localOf geo F) (localOf geo DF) e')[l']? = some x') : x = x' := by
  have hl : l < 6 := by rw [← s.length]; exact (List.getElem?_eq_some_iff.1 hk).1
  have hl' : l' < 6 := by rw [← s.length]; exact (List.getElem?_eq_some_iff.1 hk').1
  rcases morley_cases l hl with ⟨i, rfl⟩ | ⟨i, rfl⟩ <;> rcases morley_cases l' hl' with ⟨i', rfl⟩ | ⟨i', rfl⟩
  · rw [s.key2] at hk hk'
    injection hk with hk
    injection hk' with hk'
    subst hk
    subst hk'
    rw [morleyCoefs_value] at h1 h2
    injection h1 with h1
    injection h2 with h2
    rw [← h1, ← h2, localOf, localOf, h.position e e' i i' hs]
  · rw [s.key2] at hk
    rw [s.key1] at hk'
    injection hk with hk
    injection hk' with hk'
    subst hk
    subst hk'
    have a := (geo_sub h e i).1
    have b := (geo_sub h e' i').2
    simp only at hs
    rw [hs, b] at a
    simp at a
  · rw [s.key1] at hk
    rw [s.key2] at hk'
    injection hk with hk
    injection hk' with hk'
    subst hk
    subst hk'
    have a := (geo_sub h e i).2
    have b := (geo_sub h e' i').1
    simp only at hs
    rw [hs, b] at a
    simp at a
  · rw [s.key1] at hk hk'
    injection hk with hk
    injection hk' with hk'
    subst hk
    subst hk'
    rw [morleyCoefs_normal] at h1 h2
    injection h1 with h1
    injection h2 with h2
    have n := fun d => normal_match h hs (edgeFlags_oriented _) (edgeFlags_oriented _) d
    rw [← h1, ← h2, localOf, localOf, edge_points h hs]
    simp only [Morley.normals_eq, n]

/-- **C64, Morley basis.** Let `F` be a function of global coordinates with derivative `DF`. `interpolate(basis, coeff, F)` gives the same coefficients
for all orders of traversal and all previous contents of the vector. The discrete function has the value of `F` in all vertices and the normal
derivative of `F` in the midpoints of the edges, on all elements. -/
theorem C64_morley [Nonempty E] (h : TriGrid G geo) (hall : ∀ e, e ∈ elems) {c : ℝ} (hc : c = 1 / 2 * Real.sqrt 2) (F : Vec → ℝ) (DF : Vec → Vec) :
    ∃ T : Nat → ℝ, ∀ (es : List E) (_ : ∀ e, e ∈ es) (vec : Nat → ℝ), ∃ r,
      morleyInterpolate G geo elems (localOf geo F) (localOf geo DF) vec es = some r ∧
      (∀ n < mapperSize G.toGridView morleyLayout, r n = T n) ∧ (∀ n, mapperSize G.toGridView morleyLayout ≤ n → r n = vec n) ∧
      (∀ history e (i : Fin 3), morleyValue c G geo elems history r e (corner i) = some (F ((geo e).global (corner i)))) ∧
      ∀ history e (i : Fin 3), ∃ v, morleyDerivative c G geo elems history r e (midpointR i) = some v ∧
        ∀ n : Vec, n 0 * globalEdge (geo e) i 0 + n 1 * globalEdge (geo e) i 1 = 0 →
          v 0 * n 0 + v 1 * n 1 = DF ((geo e).global (midpointR i)) 0 * n 0 + DF ((geo e).global (midpointR i)) 1 * n 1 := by
  obtain ⟨s⟩ := morleySetup h elems hall inferInstance
  have res := leaf_result s.numbering (s.coefs_eq (localOf geo F) (localOf geo DF)) (fun e => by rw [s.length]; rfl) (s.consistent h F DF)
  have hI : ∀ vec es, morleyInterpolate G geo elems (localOf geo F) (localOf geo DF) vec es
      = interpolateAll (mapperLeaf G.toGridView morleyLayout fun _ => s.keys).loc (fun history e => (morleyBind G geo s.data (history ++ [e])).bind
        fun fe => Morley.interpolate fe (localOf geo F e) (localOf geo DF e)) vec es := by
    intro vec es
    simp only [morleyInterpolate, s.hdata, s.hkeys, Option.bind_some]
  obtain ⟨T, -, T1, -, -, -⟩ := res elems hall fun _ => 0
  refine ⟨T, fun es hes vec => ?_⟩
  obtain ⟨r, r1, r2, -, r4, r5⟩ := res es hes vec
  refine ⟨r, by rw [hI]; exact r1, ?_, r4, ?_, ?_⟩
  · intro n hn
    obtain ⟨e, l, x, hx, hln, hr⟩ := r5 n hn
    have := T1 e l x hx
    rw [coef, hln, Option.map_some, Option.getD_some] at this
    rw [hr, this]
  · intro history e i
    rw [(s.function h r history e c _).1, Argyris.eval_push (h.regular e)]
    have := s.dual h history e hc (coef G.toGridView morleyLayout s.keys r e) ⟨i, by omega⟩
    rw [Morley.dof, if_pos i.2, evalL_apply] at this
    simp only at this
    rw [this, r2 e i _ (morleyCoefs_value G geo _ _ e i)]
    rfl
  · intro history e i
    refine ⟨_, (s.function h r history e c _).2, fun n hn => ?_⟩
    have := s.dual h history e hc (coef G.toGridView morleyLayout s.keys r e) ⟨3 + i, by omega⟩
    rw [Morley.dof, if_neg (by simp), r2 e _ _ (morleyCoefs_normal G geo _ _ e i)] at this
    simp only [Nat.add_sub_cancel_left, LinearMap.smul_apply, smul_eq_mul, Morley.normals_eq] at this
    rw [Argyris.normalL_eq (h.regular e)] at this
    have hsg : Morley.sgn (edgeFlags (G.ids e) i) ≠ 0 := by cases edgeFlags (G.ids e) i <;> norm_num [Morley.sgn]
    rw [← sub_eq_zero]
    set p := Argyris.push (geo e) (combine 6 (coef G.toGridView morleyLayout s.keys r e) (Morley.shape c (s.fe history e)))
    have key := along_normal (h.regular e) i (a := eval ((geo e).global (midpointR i)) (pderiv 0 p) - DF ((geo e).global (midpointR i)) 0)
      (b := eval ((geo e).global (midpointR i)) (pderiv 1 p) - DF ((geo e).global (midpointR i)) 1) (by
        apply mul_left_cancel₀ hsg
        simp only [localOf] at this
        linear_combination this) hn
    linear_combination key

/-- **C64, Morley basis, polynomials.** The interpolation of a polynomial of degree at most two is the polynomial. -/
theorem C64_morley_polynomials [Nonempty E] (h : TriGrid G geo) (hall : ∀ e, e ∈ elems) {c : ℝ} (hc : c = 1 / 2 * Real.sqrt 2)
    (q : MvPolynomial (Fin 2) ℝ) (hq : q.totalDegree ≤ 2) (es : List E) (hes : ∀ e, e ∈ es) (vec : Nat → ℝ) :
    ∃ r, morleyInterpolate G geo elems (localOf geo fun y => eval y q) (localOf geo fun y d => eval y (pderiv d q)) vec es = some r ∧
      ∀ history e x, morleyValue c G geo elems history r e x = some (eval ((geo e).global x) q) ∧
        morleyDerivative c G geo elems history r e x = some fun d => eval ((geo e).global x) (pderiv d q) := by
  obtain ⟨s⟩ := morleySetup h elems hall inferInstance
  obtain ⟨r, r1, -, r3, -, -⟩ := leaf_result s.numbering (s.coefs_eq (localOf geo fun y => eval y q) (localOf geo fun y d => eval y (pderiv d q)))
    (fun e => by rw [s.length]; rfl) (s.consistent h (fun y => eval y q) fun y d => eval y (pderiv d q)) es hes vec
  refine ⟨r, ?_, fun history e => ?_⟩
  · simp only [morleyInterpolate, s.hdata, s.hkeys, Option.bind_some]
    exact r1
  have hval : ∀ x, morleyValue c G geo elems history r e x = some (eval ((geo e).global x) q) := by
    intro x
    have hp : ∀ y, eval y (pull (geo e).origin (geo e).J q) = eval ((geo e).global y) q := fun y => eval_pull _ _ y q
    obtain ⟨cs, vs, c1, c2, c3, c4⟩ := Morley.C50_reproduction (h.regular e) (edgeFlags (G.ids e))
      (history.map (fun e => (geo e, edgeFlags (G.ids e)))) hc (pull (geo e).origin (geo e).J q)
      ((totalDegree_pull _ _ _).trans hq) (df := localOf geo (fun y d => eval y (pderiv d q)) e) (by
        intro i j
        rw [pderiv_pull, map_sum]
        simp only [map_mul, eval_pull, MvPolynomial.eval_C]
        rfl) x
    have hcs : cs = morleyCoefs G geo (localOf geo fun y => eval y q) (localOf geo fun y d => eval y (pderiv d q)) e := by
      have := s.coefs_eq (localOf geo fun y => eval y q) (localOf geo fun y d => eval y (pderiv d q)) history e
      rw [s.bind_eq, Option.bind_some] at this
      have hf : (fun y => eval y (pull (geo e).origin (geo e).J q)) = localOf geo (fun y => eval y q) e := funext hp
      rw [hf] at c1
      exact Option.some.inj (c1.symm.trans this)
    simp only [morleyValue, s.hdata, s.bind_eq, s.hkeys, Option.bind_some, MorleySetup.fe, c2, Option.map_some, r3, ← hcs]
    rw [axpyAll_zip, c4, hp]
  have hpq : Argyris.push (geo e) (combine 6 (coef G.toGridView morleyLayout s.keys r e) (Morley.shape c (s.fe history e))) = q := by
    apply MvPolynomial.funext
    intro y
    obtain ⟨x, rfl⟩ := global_surjective (h.regular e) y
    exact Option.some.inj ((s.function h r history e c x).1.symm.trans (hval x))
  intro x
  exact ⟨hval x, by rw [(s.function h r history e c x).2, hpq]⟩

/-- **C64, Morley basis, projection.** The interpolation of a discrete function of the same space returns its coefficients. `history e` are the elements
to which the local function was bound before `e`. -/
theorem C64_morley_projection [Nonempty E] (h : TriGrid G geo) (hall : ∀ e, e ∈ elems) {c : ℝ} (hc : c = 1 / 2 * Real.sqrt 2) (v : Nat → ℝ)
    {f : E → Vec → ℝ} {df : E → Vec → Vec} (history : E → List E) (hf : ∀ e x, morleyValue c G geo elems (history e) v e x = some (f e x))
    (hdf : ∀ e x, morleyDerivative c G geo elems (history e) v e x = some (df e x)) (es : List E) (hes : ∀ e, e ∈ es) (vec : Nat → ℝ) :
    ∃ r, morleyInterpolate G geo elems f df vec es = some r ∧ ∀ n < mapperSize G.toGridView morleyLayout, r n = v n := by
  obtain ⟨s⟩ := morleySetup h elems hall inferInstance
  have key : ∀ (e : E) (l : Nat) (x : ℝ), (morleyCoefs G geo f df e)[l]? = some x → x = coef G.toGridView morleyLayout s.keys v e l := by
    intro e l x hl
    have hlt : l < 6 := (List.getElem?_eq_some_iff.1 hl).1
    have hfe := fun y => Option.some.inj ((hf e y).symm.trans (s.function h v (history e) e c y).1)
    have hdfe := fun y => Option.some.inj ((hdf e y).symm.trans (s.function h v (history e) e c y).2)
    set u := combine 6 (coef G.toGridView morleyLayout s.keys v e) (Morley.shape c (s.fe (history e) e)) with hu
    have hc' := s.coefs_eq f df (history e) e
    rw [s.bind_eq, Option.bind_some, show f e = fun y => eval y u from funext fun y => by rw [hfe, Argyris.eval_push (h.regular e)],
      Morley.interpolate_eq (h.regular e) (edgeFlags (G.ids e)) (s.fe (history e) e) (Morley.bindAll_normals _ _ _) u (df e) (by
        intro i j
        rw [hdfe]
        exact Argyris.grad_push (h.regular e) (midpointR i) u j)] at hc'
    have hc' := Option.some.inj hc'
    rw [← hc', List.getElem?_map, List.getElem?_range hlt, Option.map_some, Option.some.injEq] at hl
    rw [← hl]
    exact s.dual h (history e) e hc _ ⟨l, hlt⟩
  obtain ⟨r, r1, r2, -, -, r5⟩ := leaf_result s.numbering (s.coefs_eq f df) (fun e => by rw [s.length]; rfl)
    (fun e e' l l' k k' x x' hk hk' hs hi h1 h2 => by
      rw [key e l x h1, key e' l' x' h2]
      exact coef_shared s.numbering v hk hk' hs hi) es hes vec
  refine ⟨r, ?_, fun n hn => ?_⟩
  · simp only [morleyInterpolate, s.hdata, s.hkeys, Option.bind_some]
    exact r1
  · obtain ⟨e, l, x, hx, hln, hr⟩ := r5 n hn
    rw [hr, key e l x hx, coef, hln]
    rfl

end

/-! ## Argyris -/

/-- The coefficients computed on an element with mesh sizes `size`. -/
noncomputable def argyrisCoefs (G : LGrid E S Nat) (geo : E → Affine) (size : E → Nat → ℝ) (f : E → Vec → ℝ) (df : E → Vec → Vec)
    (Hf : E → Vec → Fin 2 → Fin 2 → ℝ) (e : E) : List ℝ :=
  ([0, 1, 2].flatMap fun i =>
    [f e (corner i), df e (corner i) 0 * size e i, df e (corner i) 1 * size e i, Hf e (corner i) 0 0 * size e i * size e i,
      Hf e (corner i) 0 1 * size e i * size e i, Hf e (corner i) 1 1 * size e i * size e i]) ++
  [0, 1, 2].map fun i => df e (midpointR i) 0 * Morley.normals (geo e) (edgeFlags (G.ids e)) i 0
    + df e (midpointR i) 1 * Morley.normals (geo e) (edgeFlags (G.ids e)) i 1

/-- Datum `k` of a vertex. -/
def vertexValue (h v : ℝ) (g : Vec) (H : Fin 2 → Fin 2 → ℝ) (k : Fin 6) : ℝ :=
  ![v, g 0 * h, g 1 * h, H 0 0 * h * h, H 0 1 * h * h, H 1 1 * h * h] k

theorem argyrisCoefs_vertex (G : LGrid E S Nat) (geo : E → Affine) (size : E → Nat → ℝ) (f : E → Vec → ℝ) (df : E → Vec → Vec)
    (Hf : E → Vec → Fin 2 → Fin 2 → ℝ) (e : E) (i : Fin 3) (k : Fin 6) :
    (argyrisCoefs G geo size f df Hf e)[6 * i.val + k.val]? = some (vertexValue (size e i) (f e (corner i)) (df e (corner i)) (Hf e (corner i)) k) := by
  fin_cases i <;> fin_cases k <;> rfl

theorem argyrisCoefs_normal (G : LGrid E S Nat) (geo : E → Affine) (size : E → Nat → ℝ) (f : E → Vec → ℝ) (df : E → Vec → Vec)
    (Hf : E → Vec → Fin 2 → Fin 2 → ℝ) (e : E) (i : Fin 3) :
    (argyrisCoefs G geo size f df Hf e)[18 + i.val]? = some (df e (midpointR i) 0 * Morley.normals (geo e) (edgeFlags (G.ids e)) i 0
      + df e (midpointR i) 1 * Morley.normals (geo e) (edgeFlags (G.ids e)) i 1) := by
  fin_cases i <;> rfl

theorem argyris_cases (l : Nat) (hl : l < 21) : (∃ (i : Fin 3) (k : Fin 6), l = 6 * i.val + k.val) ∨ ∃ i : Fin 3, l = 18 + i.val := by
  by_cases h : l < 18
  · exact Or.inl ⟨⟨l / 6, by omega⟩, ⟨l % 6, by omega⟩, by simp only; omega⟩
  · exact Or.inr ⟨⟨l - 18, by omega⟩, by simp only; omega⟩

/-- The members of the Argyris basis and the functions of the elements. -/
structure ArgyrisSetup (G : LGrid E S Nat) (geo : E → Affine) (elems : List E) where
  keys : List Key
  hkeys : argyrisKeys = some keys
  numbering : Numbering G.toGridView argyrisLayout keys
  length : keys.length = 21
  key2 : ∀ (i : Fin 3) (k : Fin 6), keys[6 * i.val + k.val]? = some ⟨i, 2, k⟩
  key1 : ∀ i : Fin 3, keys[18 + i.val]? = some ⟨i, 1, 0⟩
  pb : ArgyrisPreBasis
  hpb : argyrisPreBasis G geo elems = some pb
  positive : ∀ s ∈ pb.meshSizes, s ≠ 0
  size : E → Nat → ℝ
  bound : ∀ e, argyrisBind G geo pb e = some (Argyris.bindGeometry (geo e) (size e) (edgeFlags (G.ids e)))
  nonzero : ∀ e (i : Fin 3), size e i ≠ 0
  shared : ∀ e e' (i i' : Fin 3), G.sub e 2 i = G.sub e' 2 i' → size e i = size e' i'

theorem argyrisSetup {G : LGrid E S Nat} {geo : E → Affine} (h : TriGrid G geo) (elems : List E) (hall : ∀ e, e ∈ elems) (hne : Nonempty E) :
    Nonempty (ArgyrisSetup G geo elems) := by
  obtain ⟨pb, p1, p2, p3, p4⟩ := argyrisPreBasis_spec h elems hall
  have kk : ∃ keys, argyrisKeys = some keys ∧ (∀ (i : Fin 3) (k : Fin 6), keys[6 * i.val + k.val]? = some ⟨i, 2, k⟩) ∧
      ∀ i : Fin 3, keys[18 + i.val]? = some ⟨i, 1, 0⟩ := ⟨_, rfl, by decide +kernel, by decide +kernel⟩
  obtain ⟨keys, k1, k2, k3⟩ := kk
  obtain ⟨keys', k1', k4, num, -⟩ := C60_argyris h.simplex hne h.dim2
  rw [k1] at k1'
  injection k1' with k1'
  subst k1'
  have hb : ∀ e, ∃ fe, argyrisBind G geo pb e = some fe := by
    intro e
    obtain ⟨s0, q0⟩ := p3 e 0
    obtain ⟨s1, q1⟩ := p3 e 1
    obtain ⟨s2, q2⟩ := p3 e 2
    simp only [Fin.isValue, Fin.val_zero, Fin.val_one, Fin.val_two] at q0 q1 q2
    unfold argyrisBind Argyris.bind
    rw [p4, q0, q1, q2]
    exact ⟨_, rfl⟩
  have hs : ∀ e, ∃ size : Nat → ℝ, argyrisBind G geo pb e = some (Argyris.bindGeometry (geo e) size (edgeFlags (G.ids e))) ∧
      (∀ i : Fin 3, size i ≠ 0) ∧
      ∀ i : Fin 3, pb.meshSizes[mapperIndex G.toGridView MeshSize.vertexLayout (G.sub e 2 i)]? = some (size i) := by
    intro e
    obtain ⟨fe, hfe⟩ := hb e
    obtain ⟨size, o, h1, h2, h3, h4⟩ := Argyris.bind_eq hfe p2
    rw [p4] at h3
    injection h3 with h3
    subst h3
    exact ⟨size, by rw [hfe, h1], h2, h4⟩
  choose size b1 b2 b3 using hs
  refine ⟨⟨keys, k1, num, k4, k2, k3, pb, p1, p2, size, b1, b2, fun e e' i i' hs => ?_⟩⟩
  have := b3 e i
  rw [hs, b3 e' i'] at this
  injection this with this
  exact this.symm

section
variable {G : LGrid E S Nat} {geo : E → Affine} {elems : List E} (s : ArgyrisSetup G geo elems)

theorem ArgyrisSetup.coefs_eq (f : E → Vec → ℝ) (df : E → Vec → Vec) (Hf : E → Vec → Fin 2 → Fin 2 → ℝ) (e : E) :
    (argyrisBind G geo s.pb e).bind (fun fe => Argyris.interpolate fe (f e) (df e) (Hf e)) = some (argyrisCoefs G geo s.size f df Hf e) := by
  rw [s.bound, Option.bind_some]
  have key : ∀ ws : List (Nat × ℝ), ws.length = 21 → ws.map Prod.fst = List.range 21 →
      writeAll (List.replicate 21 0) ws = some (ws.map Prod.snd) := by
    intro ws h1 h2
    have := writeAll_eq ws 0 (by rw [h1, h2])
    rwa [h1] at this
  unfold Argyris.interpolate
  rw [key _ (by simp) (by simp [List.range_succ])]
  simp [Argyris.bindGeometry, argyrisCoefs, Morley.normals]

theorem ArgyrisSetup.function (h : TriGrid G geo) (r : Nat → ℝ) (e : E) (c : ℝ) (x : Vec) :
    argyrisValue c G geo elems r e x = some (eval ((geo e).global x) (Argyris.push (geo e)
      (combine 21 (coef G.toGridView argyrisLayout s.keys r e) (Argyris.shape c (Argyris.bindGeometry (geo e) (s.size e) (edgeFlags (G.ids e))))))) ∧
    argyrisDerivative c G geo elems r e x = some fun d => eval ((geo e).global x) (pderiv d (Argyris.push (geo e)
      (combine 21 (coef G.toGridView argyrisLayout s.keys r e) (Argyris.shape c (Argyris.bindGeometry (geo e) (s.size e) (edgeFlags (G.ids e))))))) := by
  have hd : localDofs G.toGridView argyrisLayout s.keys r e = (List.range 21).map (coef G.toGridView argyrisLayout s.keys r e) := by
    rw [localDofs_eq, s.length]
    rfl
  refine ⟨?_, ?_⟩
  · simp only [argyrisValue, s.hpb, s.bound, s.hkeys, Option.bind_some, (Argyris.evaluate_eq c _ x).1, Option.map_some, hd]
    rw [eval_combine, Argyris.eval_push (h.regular e)]
  · simp only [argyrisDerivative, s.hpb, s.bound, s.hkeys, Option.bind_some, (Argyris.evaluate_eq c _ x).2.1, Option.map_some, hd]
    rw [jacobian_combine, timesInverse_eq (h.regular e)]

/-- The vertex functionals of a linear combination of the shape functions. -/
theorem ArgyrisSetup.vertex (h : TriGrid G geo) (e : E) (c : ℝ) (w : Nat → ℝ) (i : Fin 3) (k : Fin 6) :
    Argyris.vertexDof (geo e) (s.size e) i k (combine 21 w (Argyris.shape c (Argyris.bindGeometry (geo e) (s.size e) (edgeFlags (G.ids e)))))
      = w (6 * i + k) := by
  refine map_combine_dual 21 w _ _ (6 * i + k) (by omega) fun m hm => ?_
  exact Argyris.vertex_duality (h.regular e) (s.size e) (s.nonzero e) _ c i k ⟨m, hm⟩

/-- The edge functionals of a linear combination of the shape functions. -/
theorem ArgyrisSetup.normal (h : TriGrid G geo) (e : E) {c : ℝ} (hc : c = -8 * Real.sqrt 2) (w : Nat → ℝ) (i : Fin 3) :
    Morley.sgn (edgeFlags (G.ids e) i) * Morley.normalL (geo e) i
      (combine 21 w (Argyris.shape c (Argyris.bindGeometry (geo e) (s.size e) (edgeFlags (G.ids e))))) = w (18 + i) := by
  have := map_combine_dual 21 w (Argyris.shape c (Argyris.bindGeometry (geo e) (s.size e) (edgeFlags (G.ids e))))
    (Argyris.dof (geo e) (s.size e) (edgeFlags (G.ids e)) (18 + i)) (18 + i) (by omega) (by
      intro m hm
      have := Argyris.duality (h.regular e) (s.size e) (s.nonzero e) (edgeFlags (G.ids e)) c ⟨m, hm⟩ ⟨18 + i, by omega⟩
      rw [show Argyris.kappa c 2 = 1 by
        rw [Argyris.kappa, if_pos rfl, hc]
        have := Morley.sqrt2_sq
        linear_combination 1 / 2 * this] at this
      simpa [Fin.ext_iff] using this)
  rw [← this, Argyris.dof, if_neg (by omega)]
  simp

theorem ArgyrisSetup.consistent (h : TriGrid G geo) (F : Vec → ℝ) (DF : Vec → Vec) (HF : Vec → Fin 2 → Fin 2 → ℝ) (e e' : E) (l l' : Nat)
    (k k' : Key) (x x' : ℝ) (hk : s.keys[l]? = some k) (hk' : s.keys[l']? = some k') (hs : G.sub e k.codim k.sub = G.sub e' k'.codim k'.sub)
    (hi : k.index = k'.index) (h1 : (argyrisCoefs G geo s.size (localOf geo F) (localOf geo DF) (localOf geo HF) e)[l]? = some x)
    (h2 : (argyrisCoefs G geo s.size (localOf geo F) (localOf geo DF) (localOf geo HF) e')[l']? = some x') : x = x' := by
  have hl : l < 21 := by rw [← s.length]; exact (List.getElem?_eq_some_iff.1 hk).1
  have hl' : l' < 21 := by rw [← s.length]; exact (List.getElem?_eq_some_iff.1 hk').1
  rcases argyris_cases l hl with ⟨i, j, rfl⟩ | ⟨i, rfl⟩ <;> rcases argyris_cases l' hl' with ⟨i', j', rfl⟩ | ⟨i', rfl⟩
  · rw [s.key2] at hk hk'
    injection hk with hk
    injection hk' with hk'
    subst hk
    subst hk'
    rw [argyrisCoefs_vertex] at h1 h2
    injection h1 with h1
    injection h2 with h2
    simp only at hs hi
    rw [← h1, ← h2, localOf, localOf, localOf, localOf, localOf, localOf, h.position e e' i i' hs, s.shared e e' i i' hs, Fin.ext hi]
  · rw [s.key2] at hk
    rw [s.key1] at hk'
    injection hk with hk
    injection hk' with hk'
    subst hk
    subst hk'
    have a := (geo_sub h e i).1
    have b := (geo_sub h e' i').2
    simp only at hs
    rw [hs, b] at a
    simp at a
  · rw [s.key1] at hk
    rw [s.key2] at hk'
    injection hk with hk
    injection hk' with hk'
    subst hk
    subst hk'
    have a := (geo_sub h e i).2
    have b := (geo_sub h e' i').1
    simp only at hs
    rw [hs, b] at a
    simp at a
  · rw [s.key1] at hk hk'
    injection hk with hk
    injection hk' with hk'
    subst hk
    subst hk'
    rw [argyrisCoefs_normal] at h1 h2
    injection h1 with h1
    injection h2 with h2
    have n := fun d => normal_match h hs (edgeFlags_oriented _) (edgeFlags_oriented _) d
    rw [← h1, ← h2, localOf, localOf, edge_points h hs]
    simp only [Morley.normals_eq, n]

/-- **C64, Argyris basis.** Let `F` be a function of global coordinates with first and second derivatives `DF` and `HF`.
`interpolate(basis, coeff, F)` gives the same coefficients for all orders of traversal and all previous contents of the vector. The discrete
function has the value and the derivative of `F` in all vertices and, for the exact constant of the shape functions, the normal derivative of `F`
in the midpoints of the edges, on all elements. -/
theorem C64_argyris [Nonempty E] (h : TriGrid G geo) (hall : ∀ e, e ∈ elems) (F : Vec → ℝ) (DF : Vec → Vec) (HF : Vec → Fin 2 → Fin 2 → ℝ) :
    ∃ T : Nat → ℝ, ∀ (es : List E) (_ : ∀ e, e ∈ es) (vec : Nat → ℝ), ∃ r,
      argyrisInterpolate G geo elems (localOf geo F) (localOf geo DF) (localOf geo HF) vec es = some r ∧
      (∀ n < mapperSize G.toGridView argyrisLayout, r n = T n) ∧ (∀ n, mapperSize G.toGridView argyrisLayout ≤ n → r n = vec n) ∧
      (∀ c e (i : Fin 3), argyrisValue c G geo elems r e (corner i) = some (F ((geo e).global (corner i))) ∧
        argyrisDerivative c G geo elems r e (corner i) = some (DF ((geo e).global (corner i)))) ∧
      ∀ c, c = -8 * Real.sqrt 2 → ∀ e (i : Fin 3), ∃ v, argyrisDerivative c G geo elems r e (midpointR i) = some v ∧
        ∀ n : Vec, n 0 * globalEdge (geo e) i 0 + n 1 * globalEdge (geo e) i 1 = 0 →
          v 0 * n 0 + v 1 * n 1 = DF ((geo e).global (midpointR i)) 0 * n 0 + DF ((geo e).global (midpointR i)) 1 * n 1 := by
  obtain ⟨s⟩ := argyrisSetup h elems hall inferInstance
  have res := leaf_result s.numbering (fun _ e => s.coefs_eq (localOf geo F) (localOf geo DF) (localOf geo HF) e)
    (fun e => by rw [s.length]; simp [argyrisCoefs]) (s.consistent h F DF HF)
  have hI : ∀ vec es, argyrisInterpolate G geo elems (localOf geo F) (localOf geo DF) (localOf geo HF) vec es
      = interpolateAll (mapperLeaf G.toGridView argyrisLayout fun _ => s.keys).loc (fun _ e => (argyrisBind G geo s.pb e).bind
        fun fe => Argyris.interpolate fe (localOf geo F e) (localOf geo DF e) (localOf geo HF e)) vec es := by
    intro vec es
    simp only [argyrisInterpolate, s.hpb, s.hkeys, Option.bind_some]
  obtain ⟨T, -, T1, -, -, -⟩ := res elems hall fun _ => 0
  refine ⟨T, fun es hes vec => ?_⟩
  obtain ⟨r, r1, r2, -, r4, r5⟩ := res es hes vec
  refine ⟨r, by rw [hI]; exact r1, ?_, r4, ?_, ?_⟩
  · intro n hn
    obtain ⟨e, l, x, hx, hln, hr⟩ := r5 n hn
    have := T1 e l x hx
    rw [coef, hln, Option.map_some, Option.getD_some] at this
    rw [hr, this]
  · intro c e i
    have v := fun k => s.vertex h e c (coef G.toGridView argyrisLayout s.keys r e) i k
    have v0 := v 0
    have v1 := v 1
    have v2 := v 2
    rw [r2 e _ _ (argyrisCoefs_vertex G geo s.size _ _ _ e i _)] at v0 v1 v2
    have hne := s.nonzero e i
    simp [Argyris.vertexDof, vertexValue, evalL_apply, Argyris.globalL_eq (h.regular e)] at v0 v1 v2
    refine ⟨?_, ?_⟩
    · rw [(s.function h r e c _).1, Argyris.eval_push (h.regular e), v0]
      rfl
    · rw [(s.function h r e c _).2]
      refine congrArg some (funext fun d => ?_)
      fin_cases d
      · apply mul_left_cancel₀ hne
        simp only [Fin.zero_eta]
        rw [v1, mul_comm]
        rfl
      · apply mul_left_cancel₀ hne
        simp only [Fin.mk_one]
        rw [v2, mul_comm]
        rfl
  · intro c hc e i
    refine ⟨_, (s.function h r e c _).2, fun n hn => ?_⟩
    have := s.normal h e hc (coef G.toGridView argyrisLayout s.keys r e) i
    rw [r2 e _ _ (argyrisCoefs_normal G geo s.size _ _ _ e i)] at this
    simp only [Morley.normals_eq] at this
    rw [Argyris.normalL_eq (h.regular e)] at this
    have hsg : Morley.sgn (edgeFlags (G.ids e) i) ≠ 0 := by cases edgeFlags (G.ids e) i <;> norm_num [Morley.sgn]
    rw [← sub_eq_zero]
    set p := Argyris.push (geo e) (combine 21 (coef G.toGridView argyrisLayout s.keys r e)
      (Argyris.shape c (Argyris.bindGeometry (geo e) (s.size e) (edgeFlags (G.ids e)))))
    have key := along_normal (h.regular e) i (a := eval ((geo e).global (midpointR i)) (pderiv 0 p) - DF ((geo e).global (midpointR i)) 0)
      (b := eval ((geo e).global (midpointR i)) (pderiv 1 p) - DF ((geo e).global (midpointR i)) 1) (by
        apply mul_left_cancel₀ hsg
        simp only [localOf] at this
        linear_combination this) hn
    linear_combination key

/-- **C64, Argyris basis, polynomials.** The interpolation of a polynomial of degree at most five is the polynomial. -/
theorem C64_argyris_polynomials [Nonempty E] (h : TriGrid G geo) (hall : ∀ e, e ∈ elems) {c : ℝ} (hc : c = -8 * Real.sqrt 2)
    (q : MvPolynomial (Fin 2) ℝ) (hq : q.totalDegree ≤ 5) (es : List E) (hes : ∀ e, e ∈ es) (vec : Nat → ℝ) :
    ∃ r, argyrisInterpolate G geo elems (localOf geo fun y => eval y q) (localOf geo fun y d => eval y (pderiv d q))
        (localOf geo fun y d d' => eval y (pderiv d (pderiv d' q))) vec es = some r ∧
      ∀ e x, argyrisValue c G geo elems r e x = some (eval ((geo e).global x) q) ∧
        argyrisDerivative c G geo elems r e x = some fun d => eval ((geo e).global x) (pderiv d q) := by
  obtain ⟨s⟩ := argyrisSetup h elems hall inferInstance
  obtain ⟨r, r1, -, r3, -, -⟩ := leaf_result s.numbering (fun _ e => s.coefs_eq (localOf geo fun y => eval y q)
    (localOf geo fun y d => eval y (pderiv d q)) (localOf geo fun y d d' => eval y (pderiv d (pderiv d' q))) e)
    (fun e => by rw [s.length]; simp [argyrisCoefs])
    (s.consistent h (fun y => eval y q) (fun y d => eval y (pderiv d q)) fun y d d' => eval y (pderiv d (pderiv d' q))) es hes vec
  refine ⟨r, ?_, fun e => ?_⟩
  · simp only [argyrisInterpolate, s.hpb, s.hkeys, Option.bind_some]
    exact r1
  have hval : ∀ x, argyrisValue c G geo elems r e x = some (eval ((geo e).global x) q) := by
    intro x
    have hp : ∀ (y) (q : MvPolynomial (Fin 2) ℝ), eval y (pull (geo e).origin (geo e).J q) = eval ((geo e).global y) q := fun y q => eval_pull _ _ y q
    have hb := s.bound e
    obtain ⟨cs, vs, c1, c2, c3, c4⟩ := Argyris.C51_reproduction hb (h.regular e) s.positive hc (pull (geo e).origin (geo e).J q)
      ((totalDegree_pull _ _ _).trans hq) (df := localOf geo (fun y d => eval y (pderiv d q)) e)
      (Hf := localOf geo (fun y d d' => eval y (pderiv d (pderiv d' q))) e) (by
        intro x j
        rw [pderiv_pull, map_sum]
        simp only [map_mul, hp, MvPolynomial.eval_C]
        rfl) (by
        intro x a b
        rw [pderiv_pull, map_sum, map_sum]
        simp only [Derivation.leibniz, MvPolynomial.pderiv_C, smul_eq_mul, mul_zero, map_zero, map_mul, map_add, pderiv_pull, hp,
          MvPolynomial.eval_C, localOf, Fin.sum_univ_two]
        have sym : pderiv 0 (pderiv 1 q) = pderiv 1 (pderiv 0 q) := pderiv_comm 0 1 q
        rw [sym]
        ring) x
    have hcs : cs = argyrisCoefs G geo s.size (localOf geo fun y => eval y q) (localOf geo fun y d => eval y (pderiv d q))
        (localOf geo fun y d d' => eval y (pderiv d (pderiv d' q))) e := by
      have := s.coefs_eq (localOf geo fun y => eval y q) (localOf geo fun y d => eval y (pderiv d q))
        (localOf geo fun y d d' => eval y (pderiv d (pderiv d' q))) e
      rw [s.bound, Option.bind_some] at this
      have hf : (fun y => eval y (pull (geo e).origin (geo e).J q)) = localOf geo (fun y => eval y q) e := funext fun y => hp y q
      rw [hf] at c1
      exact Option.some.inj (c1.symm.trans this)
    simp only [argyrisValue, s.hpb, s.bound, s.hkeys, Option.bind_some, c2, Option.map_some, r3, ← hcs]
    rw [axpyAll_zip, c4, hp]
  have hpq : Argyris.push (geo e) (combine 21 (coef G.toGridView argyrisLayout s.keys r e)
      (Argyris.shape c (Argyris.bindGeometry (geo e) (s.size e) (edgeFlags (G.ids e))))) = q := by
    apply MvPolynomial.funext
    intro y
    obtain ⟨x, rfl⟩ := global_surjective (h.regular e) y
    exact Option.some.inj ((s.function h r e c x).1.symm.trans (hval x))
  intro x
  exact ⟨hval x, by rw [(s.function h r e c x).2, hpq]⟩

end

/-! ## Examples -/

/-- `xy` in the Morley space on the two triangles of the unit square. -/
example : ∃ r, morleyInterpolate demoGrid demoGeo [0, 1] (localOf demoGeo fun y => y 0 * y 1) (localOf demoGeo fun y => ![y 1, y 0])
      (fun _ => 17) [1, 0] = some r ∧
    morleyValue (1 / 2 * Real.sqrt 2) demoGrid demoGeo [0, 1] [0, 1, 0] r 1 ![1 / 2, 1 / 4] = some (1 / 2 * (3 / 4)) := by
  have hd : (MvPolynomial.X 0 * MvPolynomial.X 1 : MvPolynomial (Fin 2) ℝ).totalDegree ≤ 2 := by
    refine (MvPolynomial.totalDegree_mul _ _).trans ?_
    simp
  obtain ⟨r, r1, r2⟩ := C64_morley_polynomials demo_triGrid (elems := [0, 1]) (by decide) rfl _ hd [1, 0] (by decide) fun _ => 17
  refine ⟨r, ?_, ?_⟩
  · rw [← r1]
    congr 1
    · funext e x
      simp [localOf]
    · funext e x d
      fin_cases d <;> simp [localOf, MvPolynomial.pderiv_X]
  · rw [(r2 _ 1 _).1]
    simp [demoGeo, Affine.global, Fin.sum_univ_two]
    norm_num

/-- `xy` in the Argyris space on the two triangles of the unit square. -/
example : ∃ r, argyrisInterpolate demoGrid demoGeo [0, 1] (localOf demoGeo fun y => y 0 * y 1) (localOf demoGeo fun y => ![y 1, y 0])
      (localOf demoGeo fun _ => !![0, 1; 1, 0]) (fun _ => 17) [1, 0] = some r ∧
    argyrisValue (-8 * Real.sqrt 2) demoGrid demoGeo [0, 1] r 1 ![1 / 2, 1 / 4] = some (1 / 2 * (3 / 4)) := by
  have hd : (MvPolynomial.X 0 * MvPolynomial.X 1 : MvPolynomial (Fin 2) ℝ).totalDegree ≤ 5 := by
    refine (MvPolynomial.totalDegree_mul _ _).trans ?_
    simp
  obtain ⟨r, r1, r2⟩ := C64_argyris_polynomials demo_triGrid (elems := [0, 1]) (by decide) rfl _ hd [1, 0] (by decide) fun _ => 17
  refine ⟨r, ?_, ?_⟩
  · rw [← r1]
    congr 1
    · funext e x
      simp [localOf]
    · funext e x d
      fin_cases d <;> simp [localOf, MvPolynomial.pderiv_X]
    · funext e x d d'
      fin_cases d <;> fin_cases d' <;> simp [localOf, MvPolynomial.pderiv_X]
  · rw [(r2 1 _).1]
    simp [demoGeo, Affine.global, Fin.sum_univ_two]
    norm_num

end Verif.FE.TriangleInterp

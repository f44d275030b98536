import Verif.FE.Push
import Verif.FE.Numbering
import Verif.HDiv.Orientation
import Verif.Leaf.MeshSize

/-!
# Continuity of functions in the Morley and Argyris spaces

A coefficient vector of the global basis defines a function on each triangle. The functions of two triangles with a common edge fit
together there: in the Argyris space they have equal values and gradients on the whole edge, in the Morley space
equal values at the vertices and equal normal derivatives at the midpoint.
-/

namespace Verif.FE.Conform

open Verif.FE Verif.FE.Triangle Verif.Mapper Verif.Lagrange
open MvPolynomial (pderiv eval)

variable {E S : Type} {dim : Nat}

/-! ## Model -/

/-- discreteglobalbasisfunction.hh:351-363 for scalar coefficients: linear combination of the values (or, 526-535,
Jacobians) of the shape functions. -/
def axpyAll {V : Type} [AddCommGroup V] [Module ℝ V] (dofs : List ℝ) (values : List V) : V :=
  (dofs.zip values).foldl (fun y cv => y + cv.1 • cv.2) 0

/-- The coefficients of an element (discreteglobalbasisfunction.hh:140-147). -/
def localDofs (G : GridView E S) (lay : Layout) (keys : List Key) (vec : Nat → ℝ) (e : E) : List ℝ :=
  ((mapperLeaf G lay fun _ => keys).loc e).map vec

/-- `mcmgElementLayout`. -/
def elementLayout (dim : Nat) : Layout := fun t => if t.dim = dim then 1 else 0

/-- The orientations of an element, mapperutilities.hh:148-160, as `std::bitset<3>`. -/
def edgeFlags (ids : Nat → Nat) : Nat → Bool := fun i => (HDiv.edgeOrientations ids)[i]?.getD false

/-- `computeEdgeOrientations`, mapperutilities.hh:128-163. `elems` are the elements in the order of traversal. `none` if an
index is out of bounds. -/
def edgeTable (G : LGrid E S Nat) (elems : List E) : Option (List (Nat → Bool)) :=
  elems.foldlM (fun table e =>
      if mapperIndex G.toGridView (elementLayout 2) (G.sub e 0 0) < table.length then
        some (table.set (mapperIndex G.toGridView (elementLayout 2) (G.sub e 0 0)) (edgeFlags (G.ids e)))
      else none)
    (List.replicate ((G.types.filter fun t => t.dim = 2).map G.gsize).sum fun _ => false)

/-- `geometry().volume()` of a triangle. -/
noncomputable def volume (g : Affine) : ℝ := |g.J 0 0 * g.J 1 1 - g.J 0 1 * g.J 1 0| / 2

/-- The members of `ArgyrisPreBasis`, argyrisbasis.hh:916-921. -/
structure ArgyrisPreBasis where
  meshSizes : List ℝ
  orientations : List (Nat → Bool)

/-- The constructor of `ArgyrisPreBasis`, argyrisbasis.hh:890-898. -/
noncomputable def argyrisPreBasis (G : LGrid E S Nat) (geo : E → Affine) (elems : List E) : Option ArgyrisPreBasis :=
  (MeshSize.averageMeshSize G.toGridView MeshSize.vertexLayout (fun e => volume (geo e)) elems).bind fun h =>
    (edgeTable G elems).bind fun o => some ⟨h, o⟩

/-- `ArgyrisNode::bind`, argyrisbasis.hh:821-829. -/
noncomputable def argyrisBind (G : LGrid E S Nat) (geo : E → Affine) (pb : ArgyrisPreBasis) (e : E) : Option Argyris.Bound :=
  Argyris.bind pb.meshSizes (fun i => mapperIndex G.toGridView MeshSize.vertexLayout (G.sub e 2 i)) pb.orientations
    (mapperIndex G.toGridView (elementLayout 2) (G.sub e 0 0)) (geo e)

/-- discreteglobalbasisfunction.hh:619: the product with `jacobianInverse`. -/
noncomputable def timesInverse (g : Affine) (refJacobian : Vec) : Vec := fun d => ∑ j, refJacobian j * Argyris.inv g j d

/-- The value at the local point `x` of element `e` of the discrete function with coefficients `vec`,
discreteglobalbasisfunction.hh:336-368. The constant `c` is that of `Argyris.evaluateFunction`. -/
noncomputable def argyrisValue (c : ℝ) (G : LGrid E S Nat) (geo : E → Affine) (elems : List E) (vec : Nat → ℝ) (e : E) (x : Vec) :
    Option ℝ :=
  (argyrisPreBasis G geo elems).bind fun pb => (argyrisBind G geo pb e).bind fun fe => argyrisKeys.bind fun keys =>
    (Argyris.evaluateFunction c fe x).map fun values => axpyAll (localDofs G.toGridView argyrisLayout keys vec e) values

/-- The derivative of the discrete function, discreteglobalbasisfunction.hh:583-627. -/
noncomputable def argyrisDerivative (c : ℝ) (G : LGrid E S Nat) (geo : E → Affine) (elems : List E) (vec : Nat → ℝ) (e : E) (x : Vec) :
    Option Vec :=
  (argyrisPreBasis G geo elems).bind fun pb => (argyrisBind G geo pb e).bind fun fe => argyrisKeys.bind fun keys =>
    (Argyris.evaluateJacobian c fe x).map fun jacobians =>
      timesInverse (geo e) (axpyAll (localDofs G.toGridView argyrisLayout keys vec e) jacobians)

/-- `MorleyNode` after it was bound to the elements of `history`, morleybasis.hh:568-573. `data` is `data_`. -/
noncomputable def morleyBind (G : LGrid E S Nat) (geo : E → Affine) (data : List (Nat → Bool)) (history : List E) : Option Morley.Bound :=
  (history.mapM fun e => (data[mapperIndex G.toGridView (elementLayout 2) (G.sub e 0 0)]?).map fun o => (geo e, o)).map Morley.bindAll

/-- The value at the local point `x` of element `e` of the discrete function with coefficients `vec` in the Morley space. The local view
was bound to the elements of `history` before. -/
noncomputable def morleyValue (c : ℝ) (G : LGrid E S Nat) (geo : E → Affine) (elems history : List E) (vec : Nat → ℝ) (e : E) (x : Vec) :
    Option ℝ :=
  (edgeTable G elems).bind fun data => (morleyBind G geo data (history ++ [e])).bind fun fe => morleyKeys.bind fun keys =>
    (Morley.evaluateFunction c fe x).map fun values => axpyAll (localDofs G.toGridView morleyLayout keys vec e) values

/-- The derivative of the discrete function. -/
noncomputable def morleyDerivative (c : ℝ) (G : LGrid E S Nat) (geo : E → Affine) (elems history : List E) (vec : Nat → ℝ) (e : E)
    (x : Vec) : Option Vec :=
  (edgeTable G elems).bind fun data => (morleyBind G geo data (history ++ [e])).bind fun fe => morleyKeys.bind fun keys =>
    (Morley.evaluateJacobian c fe x).map fun jacobians =>
      timesInverse (geo e) (axpyAll (localDofs G.toGridView morleyLayout keys vec e) jacobians)

/-! ## Specification -/

/-- A conforming grid of non-degenerate triangles in the plane: equal vertex ids mean equal vertices, and equal vertices have
equal positions. -/
structure TriGrid (G : LGrid E S Nat) (geo : E → Affine) : Prop where
  ok : G.OK
  simplex : SimplexGrid G.toGridView
  dim2 : G.dim = 2
  idVertex : ∀ e e' (i i' : Fin 3), G.ids e i = G.ids e' i' → G.sub e 2 i = G.sub e' 2 i'
  position : ∀ e e' (i i' : Fin 3), G.sub e 2 i = G.sub e' 2 i' → (geo e).global (corner i) = (geo e').global (corner i')
  regular : ∀ e, (geo e).Regular

/-- `x` lies on edge `i` of the reference triangle (extended to a line). -/
def OnEdge (i : Nat) (x : Vec) : Prop := ∃ t : ℝ, x = fun d => corner (lower i) d + t * (corner (upper i) d - corner (lower i) d)

/-! ## Facts on the grid -/

theorem global_line (g : Affine) (a b : Vec) (t : ℝ) :
    g.global (fun d => a d + t * (b d - a d)) = fun d => g.global a d + t * (g.global b d - g.global a d) := by
  funext d
  simp only [Affine.global, Fin.sum_univ_two]
  ring

theorem midpoint_line (i : Fin 3) : midpointR i = fun d => corner (lower i) d + 1 / 2 * (corner (upper i) d - corner (lower i) d) := by
  funext d
  fin_cases i <;> fin_cases d <;>
    simp [midpointR, Triangle.midpoint, corner, Hermite.vertexK, Hermite.vertex, castQ, upper, lower] <;> norm_num

theorem lower_lt (i : Fin 3) : lower i < 3 := by fin_cases i <;> decide
theorem upper_lt (i : Fin 3) : upper i < 3 := by fin_cases i <;> decide
theorem lower_ne (i : Fin 3) : lower i ≠ upper i := by fin_cases i <;> decide

/-- Orientation flags as computed by `computeEdgeOrientations`. -/
def Oriented (ids : Nat → Nat) (o : Nat → Bool) : Prop :=
  ∀ i : Fin 3, (HDiv.edgeOrientations ids)[i.val]? = some (o i)

theorem Oriented.eq {ids : Nat → Nat} {o : Nat → Bool} (h : Oriented ids o) (i : Fin 3) :
    o i = decide (ids (lower i) > ids (upper i)) := by
  have := h i
  fin_cases i <;> simp [HDiv.edgeOrientations, triangle] at this <;> simp [← this, lower, upper]

/-- The vertices of a common edge. -/
theorem edge_vertices {G : LGrid E S Nat} {geo : E → Affine} (h : TriGrid G geo) {e e' : E} {i i' : Fin 3}
    (hs : G.sub e 1 i = G.sub e' 1 i') :
    (G.ids e (lower i) = G.ids e' (lower i') ∧ G.ids e (upper i) = G.ids e' (upper i')) ∨
    (G.ids e (lower i) = G.ids e' (upper i') ∧ G.ids e (upper i) = G.ids e' (lower i')) := by
  have geo3 : ∀ e, G.elemGeo e = ⟨2, 3⟩ := fun e => by rw [h.simplex.simplices e, h.dim2]; rfl
  have len : ∀ (e : E) (i : Fin 3), i.val < (G.refSubs (G.elemGeo e) 1).length := by
    intro e i
    rw [h.ok.std, geo3]
    exact i.2
  have vs : ∀ (e : E) (i : Fin 3), G.verts e ⟨i, 1, 0⟩ = [G.ids e (lower i), G.ids e (upper i)] := by
    intro e i
    rw [LGrid.verts, geo3]
    fin_cases i <;> rfl
  have hv := h.ok.vertsSame e ⟨i, 1, 0⟩ e' ⟨i', 1, 0⟩ (len e i) (len e' i') hs
  rw [vs, vs] at hv
  simp only [List.mem_cons, List.not_mem_nil, or_false] at hv
  have n1 : G.ids e (lower i) ≠ G.ids e (upper i) := fun hc =>
    lower_ne i (h.ok.idsInj e _ _ (by rw [geo3]; exact lower_lt i) (by rw [geo3]; exact upper_lt i) hc)
  have h1 := (hv (G.ids e (lower i))).1 (Or.inl rfl)
  have h2 := (hv (G.ids e (upper i))).1 (Or.inr rfl)
  rcases h1 with h1 | h1 <;> rcases h2 with h2 | h2
  · exact absurd (h1.trans h2.symm) n1
  · exact Or.inl ⟨h1, h2⟩
  · exact Or.inr ⟨h1, h2⟩
  · exact absurd (h1.trans h2.symm) n1

/-- The oriented normals of a common edge are equal. -/
theorem normal_match {G : LGrid E S Nat} {geo : E → Affine} (h : TriGrid G geo) {e e' : E} {i i' : Fin 3}
    (hs : G.sub e 1 i = G.sub e' 1 i') {o o' : Nat → Bool} (ho : Oriented (G.ids e) o) (ho' : Oriented (G.ids e') o') (d : Fin 2) :
    Morley.sgn (o i) * rot (tangent (geo e) i) d = Morley.sgn (o' i') * rot (tangent (geo e') i') d := by
  have pos : ∀ a a' : Nat, a < 3 → a' < 3 → G.ids e a = G.ids e' a' → (geo e).global (corner a) = (geo e').global (corner a') :=
    fun a a' ha ha' hi => h.position e e' ⟨a, ha⟩ ⟨a', ha'⟩ (h.idVertex e e' ⟨a, ha⟩ ⟨a', ha'⟩ hi)
  have geo3 : ∀ e, G.elemGeo e = ⟨2, 3⟩ := fun e => by rw [h.simplex.simplices e, h.dim2]; rfl
  have n1 : G.ids e (lower i) ≠ G.ids e (upper i) := fun hc =>
    lower_ne i (h.ok.idsInj e _ _ (by rw [geo3]; exact lower_lt i) (by rw [geo3]; exact upper_lt i) hc)
  rw [ho.eq, ho'.eq]
  rcases edge_vertices h hs with ⟨h1, h2⟩ | ⟨h1, h2⟩
  · have e1 : globalEdge (geo e) i = globalEdge (geo e') i' := by
      funext d
      rw [globalEdge, globalEdge, pos _ _ (lower_lt i) (lower_lt i') h1, pos _ _ (upper_lt i) (upper_lt i') h2]
    rw [h1, h2]
    unfold tangent
    rw [e1]
  · have e1 : globalEdge (geo e) i = fun d => -globalEdge (geo e') i' d := by
      funext d
      rw [globalEdge, globalEdge, pos _ _ (lower_lt i) (upper_lt i') h1, pos _ _ (upper_lt i) (lower_lt i') h2]
      ring
    have e2 : twoNorm (globalEdge (geo e) i) = twoNorm (globalEdge (geo e') i') := by
      rw [e1]; simp [twoNorm]
    rw [h1, h2] at n1 ⊢
    have e3 : ∀ d, rot (tangent (geo e) i) d = -rot (tangent (geo e') i') d := by
      intro d
      fin_cases d <;> simp [rot, tangent, e2] <;> rw [e1] <;> ring
    rw [e3]
    rcases Nat.lt_or_gt_of_ne n1 with hl | hl
    · simp [Morley.sgn, hl, Nat.lt_asymm hl]
    · simp [Morley.sgn, hl, Nat.lt_asymm hl]

/-- A common edge in global coordinates: end points and midpoint. -/
theorem edge_points {G : LGrid E S Nat} {geo : E → Affine} (h : TriGrid G geo) {e e' : E} {i i' : Fin 3}
    (hs : G.sub e 1 i = G.sub e' 1 i') :
    (geo e).global (midpointR i) = (geo e').global (midpointR i') := by
  have pos : ∀ a a' : Nat, a < 3 → a' < 3 → G.ids e a = G.ids e' a' → (geo e).global (corner a) = (geo e').global (corner a') :=
    fun a a' ha ha' hi => h.position e e' ⟨a, ha⟩ ⟨a', ha'⟩ (h.idVertex e e' ⟨a, ha⟩ ⟨a', ha'⟩ hi)
  rw [midpoint_line, midpoint_line, global_line, global_line]
  rcases edge_vertices h hs with ⟨h1, h2⟩ | ⟨h1, h2⟩
  · rw [pos _ _ (lower_lt i) (lower_lt i') h1, pos _ _ (upper_lt i) (upper_lt i') h2]
  · rw [pos _ _ (lower_lt i) (upper_lt i') h1, pos _ _ (upper_lt i) (lower_lt i') h2]
    funext d
    ring

/-! ## Linear combinations -/

theorem axpyAll_range {V : Type} [AddCommGroup V] [Module ℝ V] (n : Nat) (c : Nat → ℝ) (v : Nat → V) :
    axpyAll ((List.range n).map c) ((List.range n).map v) = ∑ m ∈ Finset.range n, c m • v m := by
  have key : ∀ (l : List Nat) (y : V), ((l.map c).zip (l.map v)).foldl (fun y cv => y + cv.1 • cv.2) y
      = y + (l.map fun m => c m • v m).sum := by
    intro l
    induction l with
    | nil => simp
    | cons a l ih => intro y; simp [ih, add_assoc]
  rw [axpyAll, key, zero_add]
  rfl

/-- The function of an element as polynomial. -/
noncomputable def combine {dim : Nat} (n : Nat) (c : Nat → ℝ) (P : Nat → MvPolynomial (Fin dim) ℝ) : MvPolynomial (Fin dim) ℝ :=
  ∑ m ∈ Finset.range n, c m • P m

theorem eval_combine (n : Nat) (c : Nat → ℝ) (P : Nat → MvPolynomial (Fin dim) ℝ) (x : Fin dim → ℝ) :
    axpyAll ((List.range n).map c) ((List.range n).map fun m => eval x (P m)) = eval x (combine n c P) := by
  rw [axpyAll_range, combine, map_sum]
  simp [MvPolynomial.smul_eval]

theorem jacobian_combine (n : Nat) (c : Nat → ℝ) (P : Nat → MvPolynomial (Fin dim) ℝ) (x : Fin dim → ℝ) :
    axpyAll ((List.range n).map c) ((List.range n).map fun m => fun i => eval x (pderiv i (P m)))
      = fun i => eval x (pderiv i (combine n c P)) := by
  rw [axpyAll_range, combine]
  funext i
  simp [map_sum, MvPolynomial.smul_eval, Derivation.map_smul]

theorem map_combine (n : Nat) (c : Nat → ℝ) (P : Nat → MvPolynomial (Fin dim) ℝ) (L : MvPolynomial (Fin dim) ℝ →ₗ[ℝ] ℝ) :
    L (combine n c P) = ∑ m ∈ Finset.range n, c m * L (P m) := by
  simp [combine, map_sum]

theorem map_combine_dual (n : Nat) (c : Nat → ℝ) (P : Nat → MvPolynomial (Fin dim) ℝ) (L : MvPolynomial (Fin dim) ℝ →ₗ[ℝ] ℝ)
    (k : Nat) (hk : k < n) (h : ∀ m < n, L (P m) = if m = k then 1 else 0) : L (combine n c P) = c k := by
  rw [map_combine, Finset.sum_eq_single k]
  · rw [h k hk, if_pos rfl, mul_one]
  · intro m hm hne
    rw [h m (Finset.mem_range.1 hm), if_neg hne, mul_zero]
  · intro hc
    exact absurd (Finset.mem_range.2 hk) hc

theorem localDofs_eq (G : GridView E S) (lay : Layout) (keys : List Key) (vec : Nat → ℝ) (e : E) :
    localDofs G lay keys vec e = (List.range keys.length).map fun m =>
      (((mapperLeaf G lay fun _ => keys).loc e)[m]?.map vec).getD 0 := by
  apply List.ext_getElem
  · simp [localDofs, mapperLeaf]
  · intro m h1 h2
    have hm : m < ((mapperLeaf G lay fun _ => keys).loc e).length := by simpa [localDofs] using h1
    simp [localDofs, hm]

/-! ## Construction of the pre-basis -/

theorem size0 (G : GridView E S) : ((G.types.filter fun t => t.dim = 2).map G.gsize).sum = mapperSize G (elementLayout 2) := by
  unfold mapperSize
  generalize G.types = ts
  induction ts with
  | nil => rfl
  | cons t ts ih =>
    by_cases ht : t.dim = 2
    · simp [ht, elementLayout] at ih ⊢
      exact ih
    · simp [ht, elementLayout] at ih ⊢
      exact ih

theorem edgeTable_spec {G : LGrid E S Nat} {geo : E → Affine} (h : TriGrid G geo) (elems : List E) :
    ∃ table, edgeTable G elems = some table ∧
      ∀ e ∈ elems, table[mapperIndex G.toGridView (elementLayout 2) (G.sub e 0 0)]? = some (edgeFlags (G.ids e)) := by
  have geo3 : ∀ e, G.elemGeo e = ⟨2, 3⟩ := fun e => by rw [h.simplex.simplices e, h.dim2]; rfl
  have hs : ∀ e, G.geo (G.sub e 0 0) = ⟨2, 3⟩ := by
    intro e
    apply h.ok.base.subGeo e 0 0
    rw [h.ok.std, geo3]
    rfl
  have hl : ∀ e, 0 < elementLayout 2 (G.geo (G.sub e 0 0)) := fun e => by rw [hs]; decide
  have hlt : ∀ e, mapperIndex G.toGridView (elementLayout 2) (G.sub e 0 0) < mapperSize G.toGridView (elementLayout 2) := by
    intro e
    have := mapper_lt h.ok.base (elementLayout 2) (G.sub e 0 0) 0 (hl e)
    simpa using this
  have hinj : ∀ e e', mapperIndex G.toGridView (elementLayout 2) (G.sub e 0 0)
      = mapperIndex G.toGridView (elementLayout 2) (G.sub e' 0 0) → e = e' := by
    intro e e' he
    have := mapper_inj h.ok.base (elementLayout 2) (G.sub e 0 0) (G.sub e' 0 0) 0 0 (hl e) (hl e') |>.1 (by simpa using he)
    exact h.ok.elemInj _ _ this.1
  have key : ∀ (l : List E) (t : List (Nat → Bool)), t.length = mapperSize G.toGridView (elementLayout 2) →
      ∃ table, l.foldlM (fun table e =>
        if mapperIndex G.toGridView (elementLayout 2) (G.sub e 0 0) < table.length then
          some (table.set (mapperIndex G.toGridView (elementLayout 2) (G.sub e 0 0)) (edgeFlags (G.ids e)))
        else none) t = some table ∧
      ∀ e, (e ∈ l ∨ t[mapperIndex G.toGridView (elementLayout 2) (G.sub e 0 0)]? = some (edgeFlags (G.ids e))) →
        table[mapperIndex G.toGridView (elementLayout 2) (G.sub e 0 0)]? = some (edgeFlags (G.ids e)) := by
    intro l
    induction l with
    | nil =>
      intro t _
      exact ⟨t, rfl, fun e he => he.resolve_left (by simp)⟩
    | cons a l ih =>
      intro t ht
      obtain ⟨table, h1, h2⟩ := ih (t.set (mapperIndex G.toGridView (elementLayout 2) (G.sub a 0 0)) (edgeFlags (G.ids a))) (by simpa using ht)
      refine ⟨table, ?_, ?_⟩
      · rw [List.foldlM_cons, if_pos (by rw [ht]; exact hlt a)]
        exact h1
      · intro e he
        apply h2
        by_cases hea : e = a
        · subst hea
          right
          rw [List.getElem?_set_self (by rw [ht]; exact hlt e)]
        · rcases he with he | he
          · left
            exact (List.mem_cons.1 he).resolve_left hea
          · right
            rw [List.getElem?_set_ne (fun hc => hea (hinj _ _ hc).symm)]
            exact he
  obtain ⟨table, h1, h2⟩ := key elems
    (List.replicate ((G.types.filter fun t => t.dim = 2).map G.gsize).sum fun _ => false)
    (by rw [List.length_replicate]; exact size0 G.toGridView)
  exact ⟨table, h1, fun e he => h2 e (Or.inl he)⟩

theorem edgeFlags_oriented (ids : Nat → Nat) : Oriented ids (edgeFlags ids) := by
  intro i
  fin_cases i <;> rfl

theorem volume_pos {g : Affine} (hg : g.Regular) : 0 < volume g := by
  unfold volume
  have := abs_pos.2 hg
  positivity

theorem argyrisPreBasis_spec {G : LGrid E S Nat} {geo : E → Affine} (h : TriGrid G geo) (elems : List E) (hall : ∀ e, e ∈ elems) :
    ∃ pb, argyrisPreBasis G geo elems = some pb ∧ (∀ s ∈ pb.meshSizes, s ≠ 0) ∧
      (∀ e (i : Fin 3), ∃ s, pb.meshSizes[mapperIndex G.toGridView MeshSize.vertexLayout (G.sub e 2 i)]? = some s) ∧
      ∀ e, pb.orientations[mapperIndex G.toGridView (elementLayout 2) (G.sub e 0 0)]? = some (edgeFlags (G.ids e)) := by
  have geo3 : ∀ e, G.elemGeo e = ⟨2, 3⟩ := fun e => by rw [h.simplex.simplices e, h.dim2]; rfl
  have hd : 0 < G.dim := by rw [h.dim2]; decide
  obtain ⟨r, h1, h2, -⟩ := MeshSize.C56 h.ok.base hd MeshSize.vertexLayout (fun e => volume (geo e)) elems hall
  obtain ⟨table, h3, h4⟩ := edgeTable_spec h elems
  refine ⟨⟨r, table⟩, by simp [argyrisPreBasis, h1, h3], ?_, ?_, fun e => h4 e (hall e)⟩
  · intro s hs
    exact (MeshSize.C56_pos h.ok.base hd _ _ elems hall (fun e => volume_pos (h.regular e)) h1 s hs).1.ne'
  · intro e i
    have hlt := mapper_lt h.ok.base MeshSize.vertexLayout (G.sub e 2 i) 0 (by
      rw [h.ok.base.subGeo e 2 i ⟨0, 1⟩ (by rw [h.ok.std, geo3]; fin_cases i <;> rfl)]
      decide)
    exact ⟨_, List.getElem?_eq_getElem (by simp only; omega)⟩

/-! ## Argyris -/

theorem totalDegree_shape (c : ℝ) (fe : Argyris.Bound) (m : Nat) (hm : m < 21) : (Argyris.shape c fe m).totalDegree ≤ 5 := by
  rw [Argyris.shape_sum c fe ⟨m, hm⟩]
  refine MvPolynomial.totalDegree_finsetSum_le fun j _ => ?_
  refine (MvPolynomial.totalDegree_smul_le _ _).trans ?_
  have : ∀ l ∈ Argyris.E5, (l.getD 0 0) + (l.getD 1 0) ≤ 5 := by decide
  have h5 := this _ (List.getElem_mem j.2)
  unfold Analytic.mono
  rw [Fin.prod_univ_two]
  refine (MvPolynomial.totalDegree_mul _ _).trans (le_trans (Nat.add_le_add ?_ ?_) h5)
  · exact (MvPolynomial.totalDegree_X_pow _ _).le
  · exact (MvPolynomial.totalDegree_X_pow _ _).le

theorem totalDegree_combine {n d : Nat} {c : Nat → ℝ} {P : Nat → MvPolynomial (Fin dim) ℝ} (h : ∀ m < n, (P m).totalDegree ≤ d) :
    (combine n c P).totalDegree ≤ d := by
  refine MvPolynomial.totalDegree_finsetSum_le fun m hm => ?_
  exact (MvPolynomial.totalDegree_smul_le _ _).trans (h m (Finset.mem_range.1 hm))

/-- Equal derivatives up to order two. -/
structure SameJet (p q : MvPolynomial (Fin 2) ℝ) (y : Vec) : Prop where
  value : eval y p = eval y q
  first : ∀ d, eval y (pderiv d p) = eval y (pderiv d q)
  second : ∀ d e, eval y (pderiv d (pderiv e p)) = eval y (pderiv d (pderiv e q))

/-- Two triangles with a common vertex and equal coefficients there. -/
theorem argyris_jet {g g' : Affine} (hg : g.Regular) (hg' : g'.Regular) {h h' : Nat → ℝ} (hh : ∀ i : Fin 3, h i ≠ 0)
    (hh' : ∀ i : Fin 3, h' i ≠ 0) (o o' : Nat → Bool) (c : ℝ) (w w' : Nat → ℝ) (a a' : Fin 3)
    (hp : g.global (corner a) = g'.global (corner a')) (hs : h a = h' a') (hw : ∀ k : Fin 6, w (6 * a + k) = w' (6 * a' + k)) :
    SameJet (Argyris.push g (combine 21 w (Argyris.shape c (Argyris.bindGeometry g h o))))
      (Argyris.push g' (combine 21 w' (Argyris.shape c (Argyris.bindGeometry g' h' o')))) (g.global (corner a)) := by
  set u := combine 21 w (Argyris.shape c (Argyris.bindGeometry g h o)) with hu
  set u' := combine 21 w' (Argyris.shape c (Argyris.bindGeometry g' h' o')) with hu'
  have key : ∀ k : Fin 6, Argyris.vertexDof g h a k u = Argyris.vertexDof g' h' a' k u' := by
    intro k
    rw [hu, hu', map_combine_dual 21 w _ _ (6 * a + k) (by omega)
        (fun m hm => Argyris.vertex_duality hg h hh o c a k ⟨m, hm⟩),
      map_combine_dual 21 w' _ _ (6 * a' + k) (by omega)
        (fun m hm => Argyris.vertex_duality hg' h' hh' o' c a' k ⟨m, hm⟩), hw]
  have k0 := key 0
  have k1 := key 1
  have k2 := key 2
  have k3 := key 3
  have k4 := key 4
  have k5 := key 5
  simp only [Argyris.vertexDof, Fin.val_zero, Fin.val_one, if_true, if_false, one_ne_zero, LinearMap.smul_apply,
    Argyris.globalL_eq hg, Argyris.globalL_eq hg', Argyris.global2L_eq hg, Argyris.global2L_eq hg', ← hp, ← hs, evalL_apply,
    smul_eq_mul, show ((2 : Fin 6) : Nat) = 2 from rfl, show ((3 : Fin 6) : Nat) = 3 from rfl,
    show ((4 : Fin 6) : Nat) = 4 from rfl, show ((5 : Fin 6) : Nat) = 5 from rfl, Nat.reduceEqDiff, OfNat.ofNat_ne_zero,
    OfNat.ofNat_ne_one] at k0 k1 k2 k3 k4 k5
  have ha := hh a
  have hb := mul_ne_zero ha ha
  refine ⟨?_, ?_, ?_⟩
  · rw [Argyris.eval_push hg, hp, Argyris.eval_push hg', k0]
  · intro d
    fin_cases d
    · exact mul_left_cancel₀ ha k1
    · exact mul_left_cancel₀ ha k2
  · intro d e
    fin_cases d <;> fin_cases e
    · exact mul_left_cancel₀ hb k3
    · exact mul_left_cancel₀ hb k4
    · simp only [Fin.mk_one, Fin.zero_eta]
      rw [pderiv_comm 1 0, pderiv_comm 1 0]
      exact mul_left_cancel₀ hb k4
    · exact mul_left_cancel₀ hb k5

/-- Two triangles with a common edge and equal coefficients there. -/
theorem argyris_edge {G : LGrid E S Nat} {geo : E → Affine} (hG : TriGrid G geo) {e e' : E} {i i' : Fin 3}
    (hs : G.sub e 1 i = G.sub e' 1 i') {h h' : Nat → ℝ} (hh : ∀ i : Fin 3, h i ≠ 0) (hh' : ∀ i : Fin 3, h' i ≠ 0)
    {o o' : Nat → Bool} (ho : Oriented (G.ids e) o) (ho' : Oriented (G.ids e') o') (c : ℝ) (w w' : Nat → ℝ)
    (hv : ∀ a a' : Fin 3, a.val = lower i ∨ a.val = upper i → G.sub e 2 a = G.sub e' 2 a' → h a = h' a' ∧ ∀ k : Fin 6, w (6 * a + k) = w' (6 * a' + k))
    (he : w (18 + i) = w' (18 + i')) {x : Vec} (hx : OnEdge i x) :
    let p := Argyris.push (geo e) (combine 21 w (Argyris.shape c (Argyris.bindGeometry (geo e) h o)))
    let q := Argyris.push (geo e') (combine 21 w' (Argyris.shape c (Argyris.bindGeometry (geo e') h' o')))
    eval ((geo e).global x) p = eval ((geo e).global x) q ∧
    (c = -8 * Real.sqrt 2 → ∀ d, eval ((geo e).global x) (pderiv d p) = eval ((geo e).global x) (pderiv d q)) := by
  intro p q
  obtain ⟨t, rfl⟩ := hx
  rw [global_line]
  have hg := hG.regular e
  have hg' := hG.regular e'
  have jet : ∀ a : Fin 3, (a.val = lower i ∨ a.val = upper i) → SameJet p q ((geo e).global (corner a)) := by
    intro a ha
    have : ∃ a' : Fin 3, G.ids e a = G.ids e' a' := by
      rcases edge_vertices hG hs with ⟨h1, h2⟩ | ⟨h1, h2⟩ <;> rcases ha with ha | ha <;> rw [ha]
      · exact ⟨⟨_, lower_lt i'⟩, h1⟩
      · exact ⟨⟨_, upper_lt i'⟩, h2⟩
      · exact ⟨⟨_, upper_lt i'⟩, h1⟩
      · exact ⟨⟨_, lower_lt i'⟩, h2⟩
    obtain ⟨a', ha'⟩ := this
    have hsub := hG.idVertex e e' a a' ha'
    exact argyris_jet hg hg' hh hh' o o' c w w' a a' (hG.position e e' a a' hsub) (hv a a' ha hsub).1 (hv a a' ha hsub).2
  have jA := jet ⟨_, lower_lt i⟩ (Or.inl rfl)
  have jB := jet ⟨_, upper_lt i⟩ (Or.inr rfl)
  simp only at jA jB
  have D : ∀ (w : Nat → ℝ) (fe : Argyris.Bound), (combine 21 w (Argyris.shape c fe)).totalDegree ≤ 5 :=
    fun w fe => totalDegree_combine fun m hm => totalDegree_shape c fe m hm
  set A := (geo e).global (corner (lower i)) with hA
  set B := (geo e).global (corner (upper i)) with hB
  have d5 : (line A (fun d => B d - A d) (p - q)).natDegree ≤ 5 := by
    rw [map_sub]
    refine (Polynomial.natDegree_sub_le _ _).trans (max_le ?_ ?_) <;>
      exact (Argyris.degree_push _ _ _ _).trans (D _ _)
  have d4 : ∀ d, (line A (fun d => B d - A d) (pderiv d (p - q))).natDegree ≤ 4 := by
    intro d
    rw [map_sub, map_sub]
    refine (Polynomial.natDegree_sub_le _ _).trans (max_le ?_ ?_) <;>
      exact (Argyris.degree_pderiv_push _ _ _ _ _).trans (by have := D w (Argyris.bindGeometry (geo e) h o); have := D w' (Argyris.bindGeometry (geo e') h' o'); omega)
  have z : ∀ y, SameJet p q y → eval y (p - q) = 0 ∧ (∀ d, eval y (pderiv d (p - q)) = 0) ∧
      ∀ d e, eval y (pderiv d (pderiv e (p - q))) = 0 := by
    intro y hy
    refine ⟨by simp [hy.value], fun d => by simp [hy.first d], fun d e => by simp [hy.second d e]⟩
  obtain ⟨a0, a1, a2⟩ := z A jA
  obtain ⟨b0, b1, b2⟩ := z B jB
  refine ⟨?_, ?_⟩
  · have := Argyris.c0_edge (p - q) A B d5 a0 a1 a2 b0 b1 b2
    have := congrArg (Polynomial.eval t) this
    rw [eval_line] at this
    simpa [sub_eq_zero] using this
  · intro hc d
    have n0 := normal_match hG hs ho ho' 0
    have n1 := normal_match hG hs ho ho' 1
    have du : ∀ (g : Affine) (hg : g.Regular) (h : Nat → ℝ) (hh : ∀ i : Fin 3, h i ≠ 0) (o : Nat → Bool) (w : Nat → ℝ) (i : Fin 3),
        w (18 + i) = Morley.sgn (o i) * Morley.normalL g i (combine 21 w (Argyris.shape c (Argyris.bindGeometry g h o))) := by
      intro g hg h hh o w i
      have := map_combine_dual 21 w (Argyris.shape c (Argyris.bindGeometry g h o)) (Argyris.dof g h o (18 + i)) (18 + i) (by omega) (by
        intro m hm
        have := Argyris.duality hg h hh o c ⟨m, hm⟩ ⟨18 + i, by omega⟩
        rw [show Argyris.kappa c 2 = 1 by
          rw [Argyris.kappa, if_pos rfl, hc]
          have := Morley.sqrt2_sq
          linear_combination 1 / 2 * this] at this
        simpa [Fin.ext_iff] using this)
      rw [← this, Argyris.dof, if_neg (by omega)]
      simp
    have m1 := du (geo e) hg h hh o w i
    have m2 := du (geo e') hg' h' hh' o' w' i'
    rw [he, m2, Argyris.normalL_eq hg, Argyris.normalL_eq hg', ← edge_points hG hs] at m1
    have mid : (geo e).global (midpointR i) = fun d => A d + 1 / 2 * (B d - A d) := by rw [midpoint_line, global_line]
    rw [mid] at m1
    have := (Argyris.c1_edge (p - q) A B (fun d => Morley.sgn (o i) * rot (tangent (geo e) i) d) ?_ d5 d4 a0 a1 a2 b0 b1 b2 ?_ t).2 d
    · simpa [sub_eq_zero] using this
    · have hn := globalNorm_ne hg i
      have hs2 := twoNorm_sq (globalEdge (geo e) i)
      have hsg : Morley.sgn (o i) ≠ 0 := by cases o i <;> norm_num [Morley.sgn]
      simp only [rot, tangent, Matrix.cons_val_zero, Matrix.cons_val_one]
      have e0 : B 0 - A 0 = globalEdge (geo e) i 0 := rfl
      have e1 : B 1 - A 1 = globalEdge (geo e) i 1 := rfl
      rw [e0, e1]
      have : Morley.sgn (o i) * -(globalEdge (geo e) i 1 / twoNorm (globalEdge (geo e) i)) * globalEdge (geo e) i 1
          - Morley.sgn (o i) * (globalEdge (geo e) i 0 / twoNorm (globalEdge (geo e) i)) * globalEdge (geo e) i 0
          = -Morley.sgn (o i) * twoNorm (globalEdge (geo e) i) := by
        field_simp
        linear_combination hs2
      rw [this]
      exact mul_ne_zero (neg_ne_zero.2 hsg) hn
    · simp only [map_sub]
      linear_combination -m1 - n0 * eval (fun d => A d + 1 / 2 * (B d - A d)) (pderiv 0 q)
        - n1 * eval (fun d => A d + 1 / 2 * (B d - A d)) (pderiv 1 q)

/-- The derivative of a polynomial on an element is that of the polynomial in global coordinates. -/
theorem timesInverse_eq {g : Affine} (hg : g.Regular) (u : MvPolynomial (Fin 2) ℝ) (x : Vec) :
    timesInverse g (fun i => eval x (pderiv i u)) = fun d => eval (g.global x) (pderiv d (Argyris.push g u)) := by
  funext d
  simp only [timesInverse, Argyris.pderiv_push, map_add, map_mul, Argyris.eval_push hg, MvPolynomial.eval_C, Fin.sum_univ_two]

/-- The coefficients of element `e`. -/
def coef (G : GridView E S) (lay : Layout) (keys : List Key) (vec : Nat → ℝ) (e : E) (m : Nat) : ℝ :=
  (((mapperLeaf G lay fun _ => keys).loc e)[m]?.map vec).getD 0

theorem coef_shared {G : GridView E S} {lay : Layout} {keys : List Key} (hn : Numbering G lay keys) (vec : Nat → ℝ) {e e' : E} {l l' : Nat}
    {k k' : Key} (hk : keys[l]? = some k) (hk' : keys[l']? = some k') (hs : G.sub e k.codim k.sub = G.sub e' k'.codim k'.sub)
    (hi : k.index = k'.index) : coef G lay keys vec e l = coef G lay keys vec e' l' := by
  unfold coef
  rw [(hn.shared e e' l l' k k' hk hk').2 ⟨hs, hi⟩]

theorem argyris_setup {G : LGrid E S Nat} {geo : E → Affine} (h : TriGrid G geo) (elems : List E) (hall : ∀ e, e ∈ elems)
    (hne : Nonempty E) (vec : Nat → ℝ) :
    ∃ (size : E → Nat → ℝ) (w : E → Nat → ℝ), (∀ e (i : Fin 3), size e i ≠ 0) ∧
      (∀ e e' (a a' : Fin 3), G.sub e 2 a = G.sub e' 2 a' → size e a = size e' a' ∧ ∀ k : Fin 6, w e (6 * a + k) = w e' (6 * a' + k)) ∧
      (∀ e e' (i i' : Fin 3), G.sub e 1 i = G.sub e' 1 i' → w e (18 + i) = w e' (18 + i')) ∧
      ∀ c e x, argyrisValue c G geo elems vec e x = some (eval ((geo e).global x) (Argyris.push (geo e)
          (combine 21 (w e) (Argyris.shape c (Argyris.bindGeometry (geo e) (size e) (edgeFlags (G.ids e))))))) ∧
        argyrisDerivative c G geo elems vec e x = some fun d => eval ((geo e).global x) (pderiv d (Argyris.push (geo e)
          (combine 21 (w e) (Argyris.shape c (Argyris.bindGeometry (geo e) (size e) (edgeFlags (G.ids e))))))) := by
  obtain ⟨pb, p1, p2, p3, p4⟩ := argyrisPreBasis_spec h elems hall
  have kk : ∃ keys, argyrisKeys = some keys ∧ (∀ (i : Fin 3) (k : Fin 6), keys[6 * i.val + k.val]? = some ⟨i, 2, k⟩) ∧
      ∀ i : Fin 3, keys[18 + i.val]? = some ⟨i, 1, 0⟩ := ⟨_, rfl, by decide +kernel, by decide +kernel⟩
  obtain ⟨keys, k1, k2, k3⟩ := kk
  obtain ⟨keys', k1', k4, num, -⟩ := C60_argyris h.simplex hne h.dim2
  rw [k1] at k1'
  injection k1' with k1'
  subst k1'
  have hb : ∀ e, ∃ size : Nat → ℝ, argyrisBind G geo pb e = some (Argyris.bindGeometry (geo e) size (edgeFlags (G.ids e))) ∧
      (∀ i : Fin 3, size i ≠ 0) ∧
      ∀ i : Fin 3, pb.meshSizes[mapperIndex G.toGridView MeshSize.vertexLayout (G.sub e 2 i)]? = some (size i) := by
    intro e
    obtain ⟨s0, q0⟩ := p3 e 0
    obtain ⟨s1, q1⟩ := p3 e 1
    obtain ⟨s2, q2⟩ := p3 e 2
    have hf : argyrisBind G geo pb e = some (Argyris.bindGeometry (geo e) (fun i => if i = 0 then s0 else if i = 1 then s1 else s2)
        (edgeFlags (G.ids e))) := by
      unfold argyrisBind Argyris.bind
      rw [p4]
      simp only [Fin.isValue, Fin.val_zero, Fin.val_one, Fin.val_two] at q0 q1 q2
      rw [q0, q1, q2]
      rfl
    refine ⟨_, hf, ?_, ?_⟩
    · intro i
      fin_cases i
      · exact p2 _ (List.mem_of_getElem? q0)
      · exact p2 _ (List.mem_of_getElem? q1)
      · exact p2 _ (List.mem_of_getElem? q2)
    · intro i
      fin_cases i
      · exact q0
      · exact q1
      · exact q2
  choose size b1 b2 b3 using hb
  refine ⟨size, coef G.toGridView argyrisLayout keys vec, b2, ?_, ?_, ?_⟩
  · intro e e' a a' hs
    refine ⟨?_, fun k => coef_shared num vec (k2 a k) (k2 a' k) hs rfl⟩
    have := b3 e a
    rw [hs, b3 e' a'] at this
    injection this with this
    exact this.symm
  · intro e e' i i' hs
    exact coef_shared num vec (k3 i) (k3 i') hs rfl
  · intro c e x
    have hd : localDofs G.toGridView argyrisLayout keys vec e = (List.range 21).map (coef G.toGridView argyrisLayout keys vec e) := by
      rw [localDofs_eq, k4]
      rfl
    refine ⟨?_, ?_⟩
    · simp only [argyrisValue, p1, b1, k1, Option.bind_some, (Argyris.evaluate_eq c _ x).1, Option.map_some, hd]
      rw [eval_combine, Argyris.eval_push (h.regular e)]
    · simp only [argyrisDerivative, p1, b1, k1, Option.bind_some, (Argyris.evaluate_eq c _ x).2.1, Option.map_some, hd]
      rw [jacobian_combine, timesInverse_eq (h.regular e)]

/-- **C61, Argyris basis.** A discrete function with arbitrary coefficients is continuously differentiable across every edge: at every common
point of the edge the two neighbouring elements return the same value and the same derivative. The values agree for every value of the
constant `c` of the shape functions, the derivatives for the exact constant. -/
theorem C61_argyris {G : LGrid E S Nat} {geo : E → Affine} (h : TriGrid G geo) (elems : List E) (hall : ∀ e, e ∈ elems) (vec : Nat → ℝ)
    {e e' : E} {i i' : Fin 3} (hs : G.sub e 1 i = G.sub e' 1 i') {x x' : Vec} (hx : OnEdge i x)
    (hxx : (geo e).global x = (geo e').global x') (c : ℝ) :
    (∃ v, argyrisValue c G geo elems vec e x = some v ∧ argyrisValue c G geo elems vec e' x' = some v) ∧
    (c = -8 * Real.sqrt 2 →
      ∃ v, argyrisDerivative c G geo elems vec e x = some v ∧ argyrisDerivative c G geo elems vec e' x' = some v) := by
  obtain ⟨size, w, h1, h2, h3, h4⟩ := argyris_setup h elems hall ⟨e⟩ vec
  obtain ⟨r1, r2⟩ := argyris_edge h hs (h1 e) (h1 e') (edgeFlags_oriented _) (edgeFlags_oriented _) c (w e) (w e')
    (fun a a' _ => h2 e e' a a') (h3 e e' i i' hs) hx
  refine ⟨⟨_, (h4 c e x).1, ?_⟩, fun hc => ⟨_, (h4 c e x).2, ?_⟩⟩
  · rw [(h4 c e' x').1, r1, hxx]
  · rw [(h4 c e' x').2]
    exact congrArg some (funext fun d => by rw [r2 hc d, hxx])

/-- **C61, Argyris basis, vertices.** All elements with a common vertex return the same value and the same derivative there. -/
theorem C61_argyris_vertex {G : LGrid E S Nat} {geo : E → Affine} (h : TriGrid G geo) (elems : List E) (hall : ∀ e, e ∈ elems)
    (vec : Nat → ℝ) {e e' : E} {a a' : Fin 3} (hs : G.sub e 2 a = G.sub e' 2 a') (c : ℝ) :
    (∃ v, argyrisValue c G geo elems vec e (corner a) = some v ∧ argyrisValue c G geo elems vec e' (corner a') = some v) ∧
    ∃ v, argyrisDerivative c G geo elems vec e (corner a) = some v ∧ argyrisDerivative c G geo elems vec e' (corner a') = some v := by
  obtain ⟨size, w, h1, h2, h3, h4⟩ := argyris_setup h elems hall ⟨e⟩ vec
  have hp := h.position e e' a a' hs
  have j := argyris_jet (h.regular e) (h.regular e') (h1 e) (h1 e') (edgeFlags (G.ids e)) (edgeFlags (G.ids e')) c (w e) (w e') a a' hp
    (h2 e e' a a' hs).1 (h2 e e' a a' hs).2
  refine ⟨⟨_, (h4 c e _).1, ?_⟩, ⟨_, (h4 c e _).2, ?_⟩⟩
  · rw [(h4 c e' _).1, ← hp, j.value]
  · rw [(h4 c e' _).2, ← hp]
    exact congrArg some (funext fun d => (j.first d).symm)

/-! ## Morley -/

theorem morley_setup {G : LGrid E S Nat} {geo : E → Affine} (h : TriGrid G geo) (elems : List E) (hall : ∀ e, e ∈ elems)
    (hne : Nonempty E) (vec : Nat → ℝ) :
    ∃ (w : E → Nat → ℝ), 
      (∀ e e' (a a' : Fin 3), G.sub e 2 a = G.sub e' 2 a' → w e a = w e' a') ∧
      (∀ e e' (i i' : Fin 3), G.sub e 1 i = G.sub e' 1 i' → w e (3 + i) = w e' (3 + i')) ∧
      ∀ history e, ∃ fe : Morley.Bound, (∀ m n : Fin 6, fe.mat m n = Morley.matrix (geo e) (edgeFlags (G.ids e)) m n) ∧ 
        ∀ c x, morleyValue c G geo elems history vec e x = some (eval ((geo e).global x) (Argyris.push (geo e)
          (combine 6 (w e) (Morley.shape c fe)))) ∧
        morleyDerivative c G geo elems history vec e x = some fun d => eval ((geo e).global x) (pderiv d (Argyris.push (geo e)
          (combine 6 (w e) (Morley.shape c fe)))) := by
  obtain ⟨table, t1, t2⟩ := edgeTable_spec h elems
  have kk : ∃ keys, morleyKeys = some keys ∧ (∀ i : Fin 3, keys[i.val]? = some ⟨i, 2, 0⟩) ∧
      ∀ i : Fin 3, keys[3 + i.val]? = some ⟨i, 1, 0⟩ := ⟨_, rfl, by decide +kernel, by decide +kernel⟩
  obtain ⟨keys, k1, k2, k3⟩ := kk
  obtain ⟨keys', k1', k4, num, -⟩ := C60_morley h.simplex hne h.dim2
  rw [k1] at k1'
  injection k1' with k1'
  subst k1'
  have hb : ∀ l : List E, morleyBind G geo table l = some (Morley.bindAll (l.map fun e => (geo e, edgeFlags (G.ids e)))) := by
    intro l
    have : (l.mapM fun e => (table[mapperIndex G.toGridView (elementLayout 2) (G.sub e 0 0)]?).map fun o => (geo e, o))
        = some (l.map fun e => (geo e, edgeFlags (G.ids e))) := by
      induction l with
      | nil => rfl
      | cons a l ih => rw [List.mapM_cons, ih, t2 a (hall a)]; rfl
    rw [morleyBind, this]
    rfl
  refine ⟨coef G.toGridView morleyLayout keys vec, ?_, ?_, ?_⟩
  · intro e e' a a' hs
    exact coef_shared num vec (k2 a) (k2 a') hs rfl
  · intro e e' i i' hs
    exact coef_shared num vec (k3 i) (k3 i') hs rfl
  · intro history e
    refine ⟨Morley.bindAll (history.map (fun e => (geo e, edgeFlags (G.ids e))) ++ [(geo e, edgeFlags (G.ids e))]),
      Morley.bindAll_mat _ _ _, ?_⟩
    intro c x
    have hd : localDofs G.toGridView morleyLayout keys vec e = (List.range 6).map (coef G.toGridView morleyLayout keys vec e) := by
      rw [localDofs_eq, k4]
      rfl
    refine ⟨?_, ?_⟩
    · simp only [morleyValue, t1, hb, k1, Option.bind_some, (Morley.evaluate_eq c _ x).1, Option.map_some, hd, List.map_append,
        List.map_cons, List.map_nil]
      rw [eval_combine, Argyris.eval_push (h.regular e)]
    · simp only [morleyDerivative, t1, hb, k1, Option.bind_some, (Morley.evaluate_eq c _ x).2.1, Option.map_some, hd, List.map_append,
        List.map_cons, List.map_nil]
      rw [jacobian_combine, timesInverse_eq (h.regular e)]

/-- **C61, Morley basis, vertices.** All elements with a common vertex return the same value there. -/
theorem C61_morley_vertex {G : LGrid E S Nat} {geo : E → Affine} (h : TriGrid G geo) (elems : List E) (hall : ∀ e, e ∈ elems)
    (vec : Nat → ℝ) {e e' : E} {a a' : Fin 3} (hs : G.sub e 2 a = G.sub e' 2 a') (c : ℝ) (history history' : List E) :
    ∃ v, morleyValue c G geo elems history vec e (corner a) = some v ∧ morleyValue c G geo elems history' vec e' (corner a') = some v := by
  obtain ⟨w, h1, h2, h3⟩ := morley_setup h elems hall ⟨e⟩ vec
  have key : ∀ e (fe : Morley.Bound), (∀ m n : Fin 6, fe.mat m n = Morley.matrix (geo e) (edgeFlags (G.ids e)) m n) → ∀ a : Fin 3,
      eval (corner a) (combine 6 (w e) (Morley.shape c fe)) = w e a := by
    intro e fe hfe a
    have := map_combine_dual 6 (w e) (Morley.shape c fe) (evalL (corner a)) a (by omega) (by
      intro m hm
      have := Morley.duality (h.regular e) (edgeFlags (G.ids e)) c fe hfe ⟨m, hm⟩ ⟨a, by omega⟩
      have h5 : ¬ a.val = 5 := by omega
      rw [Morley.dof, if_pos (by simp)] at this
      simpa [Fin.ext_iff, h5] using this)
    rwa [evalL_apply] at this
  obtain ⟨fe, f1, f2⟩ := h3 history e
  obtain ⟨fe', f1', f2'⟩ := h3 history' e'
  refine ⟨_, (f2 c _).1, ?_⟩
  rw [(f2' c _).1, Argyris.eval_push (h.regular e), Argyris.eval_push (h.regular e'), key e fe f1, key e' fe' f1', h1 e e' a a' hs]

/-- **C61, Morley basis, edges.** At the midpoint of a common edge the derivatives returned by the two neighbouring elements have the same
component in the direction of the normal of the edge. -/
theorem C61_morley {G : LGrid E S Nat} {geo : E → Affine} (h : TriGrid G geo) (elems : List E) (hall : ∀ e, e ∈ elems) (vec : Nat → ℝ)
    {e e' : E} {i i' : Fin 3} (hs : G.sub e 1 i = G.sub e' 1 i') {c : ℝ} (hc : c = 1 / 2 * Real.sqrt 2) (history history' : List E)
    (n : Vec) (hn : n 0 * globalEdge (geo e) i 0 + n 1 * globalEdge (geo e) i 1 = 0) :
    (geo e).global (midpointR i) = (geo e').global (midpointR i') ∧
    ∃ v v', morleyDerivative c G geo elems history vec e (midpointR i) = some v ∧
      morleyDerivative c G geo elems history' vec e' (midpointR i') = some v' ∧ v 0 * n 0 + v 1 * n 1 = v' 0 * n 0 + v' 1 * n 1 := by
  refine ⟨edge_points h hs, ?_⟩
  obtain ⟨w, h1, h2, h3⟩ := morley_setup h elems hall ⟨e⟩ vec
  have key : ∀ e (fe : Morley.Bound), (∀ m n : Fin 6, fe.mat m n = Morley.matrix (geo e) (edgeFlags (G.ids e)) m n) → ∀ i : Fin 3,
      Morley.sgn (edgeFlags (G.ids e) i) * Morley.normalL (geo e) i (combine 6 (w e) (Morley.shape c fe)) = w e (3 + i) := by
    intro e fe hfe i
    have := map_combine_dual 6 (w e) (Morley.shape c fe) (Morley.dof (geo e) (edgeFlags (G.ids e)) (3 + i)) (3 + i) (by omega) (by
      intro m hm
      have := Morley.duality (h.regular e) (edgeFlags (G.ids e)) c fe hfe ⟨m, hm⟩ ⟨3 + i, by omega⟩
      rw [show c * Real.sqrt 2 = 1 by rw [hc]; have := Morley.sqrt2_sq; linear_combination 1 / 2 * this] at this
      simpa [Fin.ext_iff] using this)
    rw [← this, Morley.dof, if_neg (by omega)]
    simp
  obtain ⟨fe, f1, f2⟩ := h3 history e
  obtain ⟨fe', f1', f2'⟩ := h3 history' e'
  refine ⟨_, _, (f2 c _).2, (f2' c _).2, ?_⟩
  have m1 := key e fe f1 i
  have m2 := key e' fe' f1' i'
  have n0 := normal_match h hs (edgeFlags_oriented _) (edgeFlags_oriented _) 0
  have n1 := normal_match h hs (edgeFlags_oriented _) (edgeFlags_oriented _) 1
  rw [h2 e e' i i' hs, ← m2, Argyris.normalL_eq (h.regular e), Argyris.normalL_eq (h.regular e'), ← edge_points h hs] at m1
  rw [← edge_points h hs]
  have hne := globalNorm_ne (h.regular e) i
  have hs2 := twoNorm_sq (globalEdge (geo e) i)
  have hsg : Morley.sgn (edgeFlags (G.ids e) i) * Morley.sgn (edgeFlags (G.ids e) i) = 1 := by
    cases edgeFlags (G.ids e) i <;> norm_num [Morley.sgn]
  have r0 : rot (tangent (geo e) i) 0 = -(globalEdge (geo e) i 1 / twoNorm (globalEdge (geo e) i)) := rfl
  have r1 : rot (tangent (geo e) i) 1 = globalEdge (geo e) i 0 / twoNorm (globalEdge (geo e) i) := rfl
  generalize eval ((geo e).global (midpointR i)) (pderiv 0 (Argyris.push (geo e) (combine 6 (w e) (Morley.shape c fe)))) = p0 at *
  generalize eval ((geo e).global (midpointR i)) (pderiv 1 (Argyris.push (geo e) (combine 6 (w e) (Morley.shape c fe)))) = p1 at *
  generalize eval ((geo e).global (midpointR i)) (pderiv 0 (Argyris.push (geo e') (combine 6 (w e') (Morley.shape c fe')))) = q0 at *
  generalize eval ((geo e).global (midpointR i)) (pderiv 1 (Argyris.push (geo e') (combine 6 (w e') (Morley.shape c fe')))) = q1 at *
  rw [r0] at n0
  rw [r1] at n1
  rw [r0, r1] at m1
  have key2 : rot (tangent (geo e) i) 0 * (p0 - q0) + rot (tangent (geo e) i) 1 * (p1 - q1) = 0 := by
    rw [r0, r1]
    generalize Morley.sgn (edgeFlags (G.ids e) i) = s at *
    linear_combination s * m1 - s * n0 * q0 - s * n1 * q1 - (-(globalEdge (geo e) i 1 / twoNorm (globalEdge (geo e) i)) * (p0 - q0) + globalEdge (geo e) i 0 / twoNorm (globalEdge (geo e) i) * (p1 - q1)) * hsg
  rw [r0, r1] at key2
  have key3 : globalEdge (geo e) i 1 * (p0 - q0) = globalEdge (geo e) i 0 * (p1 - q1) := by
    field_simp at key2
    linear_combination -key2
  apply mul_left_cancel₀ (mul_ne_zero hne hne)
  rw [hs2]
  generalize globalEdge (geo e) i 0 = E0 at *
  generalize globalEdge (geo e) i 1 = E1 at *
  linear_combination ((p0 - q0) * E0 + (p1 - q1) * E1) * hn + (n 0 * E1 - n 1 * E0) * key3

/-! ## Example -/

/-- The unit square as two triangles with a common diagonal, on which the local numbering of the vertices is opposite. -/
noncomputable def demoGeo (e : Fin 2) : Affine := if e = 0 then ⟨![0, 0], !![1, 0; 0, 1]⟩ else ⟨![1, 1], !![-1, 0; 0, -1]⟩

theorem demo_triGrid : TriGrid demoGrid demoGeo where
  ok := demoGrid_OK
  simplex := demoGrid_simplex
  dim2 := rfl
  idVertex := by decide
  position := by
    have key : ∀ (e e' : Fin 2) (i i' : Fin 3), demoGrid.sub e 2 i = demoGrid.sub e' 2 i' →
        (e = e' ∧ i = i') ∨ (e = 0 ∧ e' = 1 ∧ i.val + i'.val = 3) ∨ (e = 1 ∧ e' = 0 ∧ i.val + i'.val = 3) := by decide
    intro e e' i i' hs
    rcases key e e' i i' hs with ⟨rfl, rfl⟩ | ⟨rfl, rfl, h⟩ | ⟨rfl, rfl, h⟩
    · rfl
    · fin_cases i <;> fin_cases i' <;> simp at h <;> funext d <;> fin_cases d <;>
        simp [demoGeo, Affine.global, corner, Hermite.vertexK, Hermite.vertex, castQ]
    · fin_cases i <;> fin_cases i' <;> simp at h <;> funext d <;> fin_cases d <;>
        simp [demoGeo, Affine.global, corner, Hermite.vertexK, Hermite.vertex, castQ]
  regular := by
    intro e
    fin_cases e <;> simp [demoGeo, Affine.Regular]

example (vec : Nat → ℝ) : ∃ v, argyrisDerivative (-8 * Real.sqrt 2) demoGrid demoGeo [0, 1] vec 0 ![1 / 4, 3 / 4] = some v ∧
    argyrisDerivative (-8 * Real.sqrt 2) demoGrid demoGeo [0, 1] vec 1 ![3 / 4, 1 / 4] = some v := by
  refine (C61_argyris demo_triGrid [0, 1] (by decide) vec (e := 0) (e' := 1) (i := 2) (i' := 2) (by decide) ?_ ?_ _).2 rfl
  · refine ⟨3 / 4, ?_⟩
    funext d
    fin_cases d <;> simp [corner, Hermite.vertexK, Hermite.vertex, castQ, lower, upper] <;> norm_num
  · funext d
    fin_cases d <;> simp [demoGeo, Affine.global] <;> norm_num

example (vec : Nat → ℝ) := C61_morley demo_triGrid [0, 1] (by decide) vec (e := 0) (e' := 1) (i := 2) (i' := 2) (by decide) rfl [1, 0] [0]
  ![1, 1]

end Verif.FE.Conform

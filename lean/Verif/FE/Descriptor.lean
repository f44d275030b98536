import Verif.FE.TriangleInterp

/-!
# Descriptions of degrees of freedom

`FunctionalDescriptor` of functionaldescriptor.hh and the tables of the Hermite, Morley and Argyris interpolations.
-/

namespace Verif.FE.Describe

open Verif.FE Verif.FE.Triangle Verif.Mapper
open Verif.FE.HermiteInterp (coefs_value coefs_gradient coefs_inner number_cases)

/-! ## Model -/

/-- functionaldescriptor.hh:36-85: the two members `partialDerivativeOrder_` and `normalDerivativeOrder_`. -/
structure Descriptor (dim : Nat) where
  order : Fin dim → Nat
  normal : Nat

instance (dim : Nat) : DecidableEq (Descriptor dim) := fun a b =>
  decidable_of_iff ((∀ d, a.order d = b.order d) ∧ a.normal = b.normal)
    ⟨fun h => by cases a; cases b; simp only at h; rw [funext h.1, h.2], fun h => by subst h; exact ⟨fun _ => rfl, rfl⟩⟩

/-- functionaldescriptor.hh:42-45, the default constructor. -/
def value (dim : Nat) : Descriptor dim := ⟨fun _ => 0, 0⟩

/-- functionaldescriptor.hh:47-50. -/
def ofOrder {dim : Nat} (order : Fin dim → Nat) : Descriptor dim := ⟨order, 0⟩

/-- functionaldescriptor.hh:52-55. -/
def ofNormal (dim : Nat) (order : Nat) : Descriptor dim := ⟨fun _ => 0, order⟩

/-- `FunctionalDescriptor({a, b, ...})`. Overload resolution for a braced list: a list with one number converts to `unsigned int` by a standard
conversion, which is better than the aggregate initialization of `std::array`; longer lists only convert to `std::array`. Missing entries of the
array are zero. -/
def ofBraces (dim : Nat) : List Nat → Descriptor dim
  | [n] => ofNormal dim n
  | l => ofOrder fun d => l[d.val]?.getD 0

/-- functionaldescriptor.hh:57-60. -/
def Descriptor.isNormalDerivative {dim : Nat} (D : Descriptor dim) : Bool := D.normal > 0

/-- cubichermitebasis.hh:401-448, the constructor of `CubicHermiteLocalInterpolation`. The entries are assigned one after the other. -/
def hermiteDescriptors (dim : Nat) (reduced : Bool) : List (Descriptor dim) :=
  match dim with
  | 1 => [value 1, ofBraces 1 [1], value 1, ofBraces 1 [1]]
  | 2 => [value 2, ofBraces 2 [1, 0], ofBraces 2 [0, 1], value 2, ofBraces 2 [1, 0], ofBraces 2 [0, 1],
      value 2, ofBraces 2 [1, 0], ofBraces 2 [0, 1]] ++ if reduced then [] else [value 2]
  | 3 => [value 3, ofBraces 3 [1, 0, 0], ofBraces 3 [0, 1, 0], ofBraces 3 [0, 0, 1],
      value 3, ofBraces 3 [1, 0, 0], ofBraces 3 [0, 1, 0], ofBraces 3 [0, 0, 1],
      value 3, ofBraces 3 [1, 0, 0], ofBraces 3 [0, 1, 0], ofBraces 3 [0, 0, 1],
      value 3, ofBraces 3 [1, 0, 0], ofBraces 3 [0, 1, 0], ofBraces 3 [0, 0, 1], value 3, value 3, value 3, value 3]
  | _ => []

/-- morleybasis.hh:276-284. `FunctionalDescriptor(1)` has no braces. -/
def morleyDescriptors : List (Descriptor 2) := [value 2, value 2, value 2, ofNormal 2 1, ofNormal 2 1, ofNormal 2 1]

/-- argyrisbasis.hh:436-465. -/
def argyrisDescriptors : List (Descriptor 2) :=
  [value 2, ofBraces 2 [1, 0], ofBraces 2 [0, 1], ofBraces 2 [2, 0], ofBraces 2 [1, 1], ofBraces 2 [0, 2],
    value 2, ofBraces 2 [1, 0], ofBraces 2 [0, 1], ofBraces 2 [2, 0], ofBraces 2 [1, 1], ofBraces 2 [0, 2],
    value 2, ofBraces 2 [1, 0], ofBraces 2 [0, 1], ofBraces 2 [2, 0], ofBraces 2 [1, 1], ofBraces 2 [0, 2],
    ofNormal 2 1, ofNormal 2 1, ofNormal 2 1]

/-! ## Specification -/

/-- The partial derivative in the directions `dirs` at the local point `x` of a function with values `f`, gradients `df` and Hessians `Hf`. -/
def derivative {dim : Nat} (f : (Fin dim → ℝ) → ℝ) (df : (Fin dim → ℝ) → Fin dim → ℝ) (Hf : (Fin dim → ℝ) → Fin dim → Fin dim → ℝ)
    (x : Fin dim → ℝ) : List (Fin dim) → Option ℝ
  | [] => some (f x)
  | [d] => some (df x d)
  | [d, d'] => some (Hf x d d')
  | _ => none

/-- `D` describes the functional with value `c` as a partial derivative at `x`, where each derivative is scaled with the mesh size `h`. -/
def Partial {dim : Nat} (D : Descriptor dim) (f : (Fin dim → ℝ) → ℝ) (df : (Fin dim → ℝ) → Fin dim → ℝ)
    (Hf : (Fin dim → ℝ) → Fin dim → Fin dim → ℝ) (x : Fin dim → ℝ) (h c : ℝ) : Prop :=
  D.isNormalDerivative = false ∧ ∃ dirs : List (Fin dim), (∀ d, D.order d = dirs.count d) ∧
    ∃ v, derivative f df Hf x dirs = some v ∧ c = v * h ^ dirs.length

/-- `D` describes the functional with value `c` as the derivative at `x` in the direction of a unit vector orthogonal to `edge`. -/
def Normal (D : Descriptor 2) (df : Vec → Vec) (x edge : Vec) (c : ℝ) : Prop :=
  D.isNormalDerivative = true ∧ D.normal = 1 ∧ (∀ d, D.order d = 0) ∧
    ∃ n : Vec, n 0 * n 0 + n 1 * n 1 = 1 ∧ n 0 * edge 0 + n 1 * edge 1 = 0 ∧ c = df x 0 * n 0 + df x 1 * n 1

/-- The centre of the sub-entity to which a degree of freedom of the Hermite element belongs: a vertex, the triangle or a facet of the
tetrahedron. -/
noncomputable def centre (dim : Nat) (k : Key) : Fin dim → ℝ := if k.codim = dim then Hermite.vertexK ℝ dim k.sub else Hermite.innerK ℝ dim k.sub

/-! ## Proofs -/

theorem hermite_table {dim : Nat} {reduced : Bool} (h : Hermite.Exists dim reduced) (hd : 2 ≤ dim) :
    (hermiteDescriptors dim reduced).length = Hermite.size dim reduced ∧
    (∀ i : Fin (dim + 1), (hermiteDescriptors dim reduced)[(dim + 1) * i.val]? = some (value dim) ∧
      ∀ d : Fin dim, (hermiteDescriptors dim reduced)[(dim + 1) * i.val + (d.val + 1)]? = some ⟨fun d' => [d].count d', 0⟩) ∧
    ∀ t < Hermite.nInner dim reduced, (hermiteDescriptors dim reduced)[(dim + 1) * (dim + 1) + t]? = some (value dim) := by
  rcases h.cases with ⟨rfl, rfl⟩ | ⟨rfl, rfl⟩ | ⟨rfl, rfl⟩ | ⟨rfl, rfl⟩
  · omega
  all_goals decide +kernel

theorem keys_table {dim : Nat} {reduced : Bool} (h : Hermite.Exists dim reduced) :
    ∃ keys, hermiteKeys dim reduced = some keys ∧ keys.length = Hermite.size dim reduced ∧
    (∀ i k : Fin (dim + 1), keys[(dim + 1) * i.val + k.val]? = some ⟨i, dim, k⟩) ∧
    ∀ t < Hermite.nInner dim reduced, ∃ c < dim, keys[(dim + 1) * (dim + 1) + t]? = some ⟨t, c, 0⟩ := by
  rcases h.cases with ⟨rfl, rfl⟩ | ⟨rfl, rfl⟩ | ⟨rfl, rfl⟩ | ⟨rfl, rfl⟩ <;>
    exact ⟨_, rfl, by decide +kernel, by decide +kernel, by decide +kernel⟩

theorem partial_value {dim : Nat} (f : (Fin dim → ℝ) → ℝ) (df : (Fin dim → ℝ) → Fin dim → ℝ) (Hf : (Fin dim → ℝ) → Fin dim → Fin dim → ℝ)
    (x : Fin dim → ℝ) (h : ℝ) : Partial (value dim) f df Hf x h (f x) :=
  ⟨rfl, [], fun _ => rfl, f x, rfl, by simp⟩

/-- **C65, Hermite interpolation.** In dimensions two and three the descriptor of each degree of freedom tells which derivative `interpolate`
evaluates in the centre of the sub-entity of the degree of freedom. The derivatives are scaled by the mesh size of the vertex. -/
theorem C65_hermite_partial {dim : Nat} {reduced : Bool} (hx : Hermite.Exists dim reduced) (hd : 2 ≤ dim) (fe : Hermite.Bound ℝ dim)
    (f : (Fin dim → ℝ) → ℝ) (df : (Fin dim → ℝ) → Fin dim → ℝ) (Hf : (Fin dim → ℝ) → Fin dim → Fin dim → ℝ) :
    ∃ keys coefficients, hermiteKeys dim reduced = some keys ∧ Hermite.interpolate reduced fe f df = some coefficients ∧
      keys.length = coefficients.length ∧ (hermiteDescriptors dim reduced).length = coefficients.length ∧
      ∀ (l : Nat) (k : Key) (D : Descriptor dim) (c : ℝ), keys[l]? = some k → (hermiteDescriptors dim reduced)[l]? = some D →
        coefficients[l]? = some c → ∃ i : Fin (dim + 1), i.val = k.sub ∧ Partial D f df Hf (centre dim k) (fe.meshSize i) c := by
  obtain ⟨keys, k1, k2, k3, k4⟩ := keys_table hx
  obtain ⟨t1, t2, t3⟩ := hermite_table hx hd
  have hl : ((Hermite.writes reduced fe f df).map Prod.snd).length = Hermite.size dim reduced := by
    have := congrArg List.length (Hermite.writes_fst hx fe f df)
    simpa using this
  refine ⟨keys, _, k1, Hermite.interpolate_eq hx fe f df, by rw [k2, hl], by rw [t1, hl], ?_⟩
  intro l k D c hk hD hc
  have hlt : l < Hermite.size dim reduced := by rw [← k2]; exact (List.getElem?_eq_some_iff.1 hk).1
  rcases number_cases hx l hlt with ⟨i, j, rfl⟩ | ⟨t, ht, rfl⟩
  · rw [k3] at hk
    injection hk with hk
    subst hk
    refine ⟨i, rfl, ?_⟩
    revert hD hc
    refine Fin.cases ?_ (fun d => ?_) j
    · intro hD hc
      simp only [Fin.val_zero, Nat.add_zero] at hD hc
      rw [(t2 i).1] at hD
      rw [coefs_value hx] at hc
      injection hD with hD
      injection hc with hc
      subst hD
      subst hc
      rw [centre, if_pos rfl]
      exact partial_value f df Hf _ _
    · intro hD hc
      rw [Fin.val_succ, (t2 i).2] at hD
      rw [Fin.val_succ, coefs_gradient hx] at hc
      injection hD with hD
      injection hc with hc
      subst hD
      subst hc
      rw [centre, if_pos rfl]
      exact ⟨rfl, [d], fun _ => rfl, _, rfl, by simp⟩
  · obtain ⟨cd, hcd, hk'⟩ := k4 t ht
    rw [hk'] at hk
    injection hk with hk
    subst hk
    rw [t3 t ht] at hD
    rw [coefs_inner hx _ _ _ t ht] at hc
    injection hD with hD
    injection hc with hc
    subst hD
    subst hc
    have ht' : t < dim + 1 := by
      revert ht
      rcases hx.cases with ⟨rfl, rfl⟩ | ⟨rfl, rfl⟩ | ⟨rfl, rfl⟩ | ⟨rfl, rfl⟩ <;> simp [Hermite.nInner] <;> omega
    refine ⟨⟨t, ht'⟩, rfl, ?_⟩
    rw [centre, if_neg (by simp only; omega)]
    exact partial_value f df Hf _ _

/-- **C65 is false for the Hermite interpolation in dimension one.** `FunctionalDescriptor({1})` is the description of a normal derivative, its
order of partial derivatives is zero. The degree of freedom is the scaled partial derivative: it is neither the value nor the derivative in the direction
of a unit vector. -/
theorem C65_hermite_false : ∃ (fe : Hermite.Bound ℝ 1) (f : (Fin 1 → ℝ) → ℝ) (df : (Fin 1 → ℝ) → Fin 1 → ℝ) (coefficients : List ℝ) (D : Descriptor 1) (c : ℝ),
    (∀ x, HasDerivAt (fun t => f fun _ => t) (df x 0) (x 0)) ∧
    Hermite.interpolate false fe f df = some coefficients ∧ coefficients[1]? = some c ∧ (hermiteDescriptors 1 false)[1]? = some D ∧
    D.isNormalDerivative = true ∧ (∀ d, D.order d = 0) ∧ c = df (Hermite.vertexK ℝ 1 0) 0 * fe.meshSize 0 ∧
    (∀ Hf x h, ¬ Partial D f df Hf x h c) ∧ ∀ x (n : Fin 1 → ℝ), n 0 * n 0 = 1 → c ≠ df x 0 * n 0 := by
  refine ⟨⟨fun _ => 2, fun _ => 1⟩, fun x => x 0, fun _ _ => 1, _, ofBraces 1 [1], 1 * 2, fun x => hasDerivAt_id (x 0), Hermite.interpolate_eq (by decide) _ _ _,
    rfl, rfl, rfl, fun _ => rfl, rfl, fun Hf x h hp => ?_, fun x n hn hc => ?_⟩
  · exact absurd hp.1 (by decide)
  · rw [one_mul, one_mul] at hc
    rw [← hc] at hn
    norm_num at hn

theorem normal_unit {g : Affine} (hg : g.Regular) (o : Nat → Bool) (i : Fin 3) :
    Morley.normals g o i 0 * Morley.normals g o i 0 + Morley.normals g o i 1 * Morley.normals g o i 1 = 1 := by
  have hs : Morley.sgn (o i) * Morley.sgn (o i) = 1 := by cases o i <;> norm_num [Morley.sgn]
  have := tangent_unit hg i
  simp only [Morley.normals_eq, rot, Matrix.cons_val_zero, Matrix.cons_val_one]
  linear_combination hs * (tangent g i 0 * tangent g i 0 + tangent g i 1 * tangent g i 1) + this

theorem normal_orthogonal {g : Affine} (hg : g.Regular) (o : Nat → Bool) (i : Fin 3) :
    Morley.normals g o i 0 * globalEdge g i 0 + Morley.normals g o i 1 * globalEdge g i 1 = 0 := by
  have := globalNorm_ne hg i
  simp only [Morley.normals_eq, rot, Matrix.cons_val_zero, Matrix.cons_val_one, tangent]
  field_simp
  ring

/-- The directions of the derivatives at a vertex of the Argyris element. -/
def directions (j : Fin 6) : List (Fin 2) := ![[], [0], [1], [0, 0], [0, 1], [1, 1]] j

/-- The coefficients of the Argyris interpolation in one list. -/
noncomputable def coefficients (g : Affine) (h : Nat → ℝ) (o : Nat → Bool) (f : Vec → ℝ) (df : Vec → Vec) (Hf : Vec → Fin 2 → Fin 2 → ℝ) : List ℝ :=
  ([0, 1, 2].flatMap fun i =>
    [f (corner i), df (corner i) 0 * h i, df (corner i) 1 * h i, Hf (corner i) 0 0 * h i * h i, Hf (corner i) 0 1 * h i * h i,
      Hf (corner i) 1 1 * h i * h i]) ++
  [0, 1, 2].map fun i => df (midpointR i) 0 * Morley.normals g o i 0 + df (midpointR i) 1 * Morley.normals g o i 1

theorem interpolate_eq (g : Affine) (h : Nat → ℝ) (o : Nat → Bool) (f : Vec → ℝ) (df : Vec → Vec) (Hf : Vec → Fin 2 → Fin 2 → ℝ) :
    Argyris.interpolate (Argyris.bindGeometry g h o) f df Hf = some (coefficients g h o f df Hf) := by
  have key : ∀ ws : List (Nat × ℝ), ws.length = 21 → ws.map Prod.fst = List.range 21 →
      writeAll (List.replicate 21 0) ws = some (ws.map Prod.snd) := by
    intro ws h1 h2
    have := writeAll_eq ws 0 (by rw [h1, h2])
    rwa [h1] at this
  unfold Argyris.interpolate
  rw [key _ (by simp) (by simp [List.range_succ])]
  simp [Argyris.bindGeometry, coefficients, Morley.normals]

/-- **C65, Morley interpolation.** The first three degrees of freedom are values at the vertices, the others normal derivatives at the midpoints
of the edges. -/
theorem C65_morley {g : Affine} (hg : g.Regular) (o : Nat → Bool) (history : List (Affine × (Nat → Bool))) (f : Vec → ℝ) (df : Vec → Vec)
    (Hf : Vec → Fin 2 → Fin 2 → ℝ) :
    ∃ keys coefficients, morleyKeys = some keys ∧ Morley.interpolate (Morley.bindAll (history ++ [(g, o)])) f df = some coefficients ∧
      keys.length = coefficients.length ∧ morleyDescriptors.length = coefficients.length ∧
      ∀ (l : Nat) (k : Key) (D : Descriptor 2) (c : ℝ), keys[l]? = some k → morleyDescriptors[l]? = some D → coefficients[l]? = some c →
        (k.codim = 2 ∧ ∀ h, Partial D f df Hf (corner k.sub) h c) ∨ (k.codim = 1 ∧ Normal D df (midpointR k.sub) (globalEdge g k.sub) c) := by
  obtain ⟨keys, k1, k2, k3, k4⟩ := TriangleInterp.morley_keys
  have hn : (Morley.bindAll (history ++ [(g, o)])).normals = Morley.normals g o := Morley.bindAll_normals _ _ _
  refine ⟨keys, _, k1, rfl, k2, rfl, ?_⟩
  intro l k D c hk hD hc
  have hl : l < 6 := by rw [← k2]; exact (List.getElem?_eq_some_iff.1 hk).1
  rcases TriangleInterp.morley_cases l hl with ⟨i, rfl⟩ | ⟨i, rfl⟩
  · rw [k3] at hk
    injection hk with hk
    subst hk
    left
    refine ⟨rfl, fun h => ?_⟩
    have e1 : D = value 2 := by revert hD; fin_cases i <;> exact fun hD => (Option.some.inj hD).symm
    have e2 : c = f (corner i) := by revert hc; fin_cases i <;> exact fun hc => (Option.some.inj hc).symm
    rw [e1, e2]
    exact partial_value f df Hf _ _
  · rw [k4] at hk
    injection hk with hk
    subst hk
    right
    have e1 : D = ofNormal 2 1 := by revert hD; fin_cases i <;> exact fun hD => (Option.some.inj hD).symm
    have e2 : c = df (midpointR i) 0 * (Morley.bindAll (history ++ [(g, o)])).normals i 0
        + df (midpointR i) 1 * (Morley.bindAll (history ++ [(g, o)])).normals i 1 := by
      revert hc; fin_cases i <;> exact fun hc => (Option.some.inj hc).symm
    rw [e1, e2, hn]
    exact ⟨rfl, rfl, rfl, fun _ => rfl, _, normal_unit hg o i, normal_orthogonal hg o i, rfl⟩

/-- **C65, Argyris interpolation.** The degrees of freedom of a vertex are the value and the partial derivatives of order one and two, scaled with powers of
the mesh size; the last three degrees of freedom are normal derivatives at the midpoints of the edges. -/
theorem C65_argyris {g : Affine} (hg : g.Regular) (h : Nat → ℝ) (o : Nat → Bool) (f : Vec → ℝ) (df : Vec → Vec) (Hf : Vec → Fin 2 → Fin 2 → ℝ) :
    ∃ keys coefficients, argyrisKeys = some keys ∧ Argyris.interpolate (Argyris.bindGeometry g h o) f df Hf = some coefficients ∧
      keys.length = coefficients.length ∧ argyrisDescriptors.length = coefficients.length ∧
      ∀ (l : Nat) (k : Key) (D : Descriptor 2) (c : ℝ), keys[l]? = some k → argyrisDescriptors[l]? = some D → coefficients[l]? = some c →
        (k.codim = 2 ∧ Partial D f df Hf (corner k.sub) (h k.sub) c) ∨ (k.codim = 1 ∧ Normal D df (midpointR k.sub) (globalEdge g k.sub) c) := by
  have kk : ∃ keys, argyrisKeys = some keys ∧ keys.length = 21 ∧ (∀ (i : Fin 3) (k : Fin 6), keys[6 * i.val + k.val]? = some ⟨i, 2, k⟩) ∧
      ∀ i : Fin 3, keys[18 + i.val]? = some ⟨i, 1, 0⟩ := ⟨_, rfl, by decide +kernel, by decide +kernel, by decide +kernel⟩
  obtain ⟨keys, k1, k2, k3, k4⟩ := kk
  refine ⟨keys, _, k1, interpolate_eq g h o f df Hf, k2, rfl, ?_⟩
  intro l k D c hk hD hc
  have hl : l < 21 := by rw [← k2]; exact (List.getElem?_eq_some_iff.1 hk).1
  rcases TriangleInterp.argyris_cases l hl with ⟨i, j, rfl⟩ | ⟨i, rfl⟩
  · rw [k3] at hk
    injection hk with hk
    subst hk
    left
    refine ⟨rfl, ?_⟩
    have e1 : D = ⟨fun d => (directions j).count d, 0⟩ := by
      have : ∀ (i : Fin 3) (j : Fin 6), argyrisDescriptors[6 * i.val + j.val]? = some ⟨fun d => (directions j).count d, 0⟩ := by decide +kernel
      rw [this] at hD
      exact (Option.some.inj hD).symm
    have e2 : ∃ v, derivative f df Hf (corner i) (directions j) = some v ∧ c = v * h i ^ (directions j).length := by
      revert hc
      fin_cases i <;> fin_cases j <;> exact fun hc => ⟨_, rfl, (Option.some.inj hc).symm.trans (by simp [directions, pow_two]; try ring)⟩
    rw [e1]
    exact ⟨rfl, directions j, fun _ => rfl, e2⟩
  · rw [k4] at hk
    injection hk with hk
    subst hk
    right
    have e1 : D = ofNormal 2 1 := by revert hD; fin_cases i <;> exact fun hD => (Option.some.inj hD).symm
    have e2 : c = df (midpointR i) 0 * Morley.normals g o i 0 + df (midpointR i) 1 * Morley.normals g o i 1 := by
      revert hc; fin_cases i <;> exact fun hc => (Option.some.inj hc).symm
    rw [e1, e2]
    exact ⟨rfl, rfl, rfl, fun _ => rfl, _, normal_unit hg o i, normal_orthogonal hg o i, rfl⟩

/-! ## Example -/

/-- The fifth degree of freedom of the Argyris element is the mixed derivative, that of `xy` is the square of the mesh size. -/
example : argyrisDescriptors[4]? = some ⟨![1, 1], 0⟩ ∧
    ∃ cs, Argyris.interpolate (Argyris.bindGeometry Argyris.exampleTriangle (fun _ => 3) fun _ => false) (fun x => x 0 * x 1) (fun x => ![x 1, x 0])
      (fun _ => ![![0, 1], ![1, 0]]) = some cs ∧ cs[4]? = some (1 * 3 * 3) := by
  refine ⟨by decide, ?_⟩
  obtain ⟨_, cs, -, h1, -⟩ := C65_argyris Argyris.exampleTriangle_regular (fun _ => 3) (fun _ => false) (fun x => x 0 * x 1) (fun x => ![x 1, x 0])
    (fun _ => ![![0, 1], ![1, 0]])
  refine ⟨cs, h1, ?_⟩
  rw [interpolate_eq] at h1
  rw [← Option.some.inj h1]
  simp [coefficients]

end Verif.FE.Describe

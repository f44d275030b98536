import Mathlib.Analysis.InnerProductSpace.PiL2
import Mathlib.Tactic.Linarith
import Mathlib.Tactic.NormNum

/-!
# Normal of the closest face

Model of `dune/functions/gridfunctions/facenormalgridfunction.hh`, with real numbers instead of floating point numbers.
-/

namespace Verif.FaceNormal

open RealInnerProductSpace

variable {F G : Type} [NormedAddCommGroup F] [InnerProductSpace ℝ F] [NormedAddCommGroup G] [InnerProductSpace ℝ G]

/-! ## Model -/

/-- `normal /= normal.two_norm()` (lines 38 and 139). -/
noncomputable def normalize {F : Type} [NormedAddCommGroup F] [InnerProductSpace ℝ F] (v : F) : F := ‖v‖⁻¹ • v

/-- `faceDistance`, facenormalgridfunction.hh:37-41; `face` consists of `integrationOuterNormal` and `position`. -/
noncomputable def faceDistance (x : F) (face : F × F) : ℝ := ⟪face.2 - x, normalize face.1⟫

/-- The loop of `closestFaceIndex`, facenormalgridfunction.hh:32-47: index of the face to be visited, and index and distance of the
closest face so far. -/
noncomputable def closestLoop (x : F) : List (F × F) → Nat → Nat × ℝ → Nat
  | [], _, best => best.1
  | face :: faces, i, best =>
    if faceDistance x face < best.2 then closestLoop x faces (i + 1) (i, faceDistance x face)
    else closestLoop x faces (i + 1) best

/-- `closestFaceIndex`, facenormalgridfunction.hh:28-49; `far` is the largest number. -/
noncomputable def closestFaceIndex (far : ℝ) (faces : List (F × F)) (x : F) : Nat := closestLoop x faces 0 (0, far)

/-- `operator()` of the local function, facenormalgridfunction.hh:128-141; `B` is `jacobianInverseTransposed(x)`. -/
noncomputable def faceNormal (far : ℝ) (faces : List (F × F)) (B : F → G) (x : F) : Option G :=
  (faces[closestFaceIndex far faces x]?).map fun face => normalize (B face.1)

/-! ## Specification -/

/-- The reference element: the points which are on the inner side of all faces. -/
def Inside (faces : List (F × F)) (y : F) : Prop := ∀ face ∈ faces, ⟪y - face.2, face.1⟫ ≤ 0

/-- Points of a face. -/
def OnFace (faces : List (F × F)) (face : F × F) (y : F) : Prop := Inside faces y ∧ ⟪y - face.2, face.1⟫ = 0

/-! ## Proof -/

theorem norm_normalize (v : F) (h : v ≠ 0) : ‖normalize v‖ = 1 := by
  rw [normalize, norm_smul, norm_inv, norm_norm, inv_mul_cancel₀ (norm_ne_zero_iff.mpr h)]

theorem inner_normalize (u v : F) : ⟪u, normalize v⟫ = ‖v‖⁻¹ * ⟪u, v⟫ := by
  rw [normalize, inner_smul_right]

theorem closestLoop_spec (x : F) : ∀ (faces : List (F × F)) (i : Nat) (best : Nat × ℝ),
    ((∀ face ∈ faces, best.2 ≤ faceDistance x face) ∧ closestLoop x faces i best = best.1) ∨
    ∃ j face, faces[j]? = some face ∧ closestLoop x faces i best = i + j ∧ faceDistance x face < best.2 ∧
      (∀ face' ∈ faces, faceDistance x face ≤ faceDistance x face') ∧
      ∀ (j' : Nat) (face' : F × F), j' < j → faces[j']? = some face' → faceDistance x face < faceDistance x face' := by
  intro faces
  induction faces with
  | nil => intro i best; left; exact ⟨by simp, rfl⟩
  | cons face faces ih =>
    intro i best
    rw [closestLoop]
    by_cases h : faceDistance x face < best.2
    · right
      rw [if_pos h]
      rcases ih (i + 1) (i, faceDistance x face) with ⟨h1, h2⟩ | ⟨j, f, h1, h2, h3, h4, h5⟩
      · refine ⟨0, face, rfl, h2, h, ?_, by intro j' _ hj; omega⟩
        intro f hf
        rcases List.mem_cons.mp hf with rfl | hf
        · exact le_rfl
        · exact h1 f hf
      · refine ⟨j + 1, f, h1, by rw [h2]; omega, h3.trans h, ?_, ?_⟩
        · intro f' hf
          rcases List.mem_cons.mp hf with rfl | hf
          · exact h3.le
          · exact h4 f' hf
        · intro j' f' hj hf
          cases j' with
          | zero => simp at hf; subst hf; exact h3
          | succ j' => exact h5 j' f' (by omega) (by simpa using hf)
    · rw [if_neg h]
      rcases ih (i + 1) best with ⟨h1, h2⟩ | ⟨j, f, h1, h2, h3, h4, h5⟩
      · left
        refine ⟨?_, h2⟩
        intro f hf
        rcases List.mem_cons.mp hf with rfl | hf
        · exact not_lt.mp h
        · exact h1 f hf
      · right
        have h6 : faceDistance x f < faceDistance x face := lt_of_lt_of_le h3 (not_lt.mp h)
        refine ⟨j + 1, f, h1, by rw [h2]; omega, h3, ?_, ?_⟩
        · intro f' hf
          rcases List.mem_cons.mp hf with rfl | hf
          · exact h6.le
          · exact h4 f' hf
        · intro j' f' hj hf
          cases j' with
          | zero => simp at hf; subst hf; exact h6
          | succ j' => exact h5 j' f' (by omega) (by simpa using hf)

/-! ## Theorems -/

/-- C46: for a point `x` of the reference element, the face used by the face normal function has minimal Euclidean distance among
all faces. More precisely: the distance is attained at a point `p` of this face, and all points of all faces are at least as far
away. Among the faces of minimal distance it is the one with the smallest index. -/
theorem C46 (far : ℝ) (faces : List (F × F)) (hn : ∀ face ∈ faces, face.1 ≠ 0) (x : F) (hx : Inside faces x)
    (hfar : ∃ face ∈ faces, faceDistance x face < far) :
    ∃ face p, faces[closestFaceIndex far faces x]? = some face ∧ OnFace faces face p ∧
      (∀ face' ∈ faces, ∀ y, OnFace faces face' y → dist x p ≤ dist x y) ∧
      ∀ (j : Nat) (face' : F × F), j < closestFaceIndex far faces x → faces[j]? = some face' →
        ∀ y, OnFace faces face' y → dist x p < dist x y := by
  rcases closestLoop_spec x faces 0 (0, far) with ⟨h1, _⟩ | ⟨j, face, h1, h2, h3, h4, h5⟩
  · obtain ⟨f, hf, hf'⟩ := hfar
    exact absurd (h1 f hf) (not_le.mpr hf')
  · have hmem : face ∈ faces := List.mem_of_getElem? h1
    have hj : closestFaceIndex far faces x = j := by rw [closestFaceIndex, h2]; omega
    have hu := norm_normalize face.1 (hn face hmem)
    have hd : 0 ≤ faceDistance x face := by
      rw [faceDistance, inner_normalize]
      have := hx face hmem
      rw [← neg_sub, inner_neg_left] at this
      exact mul_nonneg (inv_nonneg.mpr (norm_nonneg _)) (by linarith)
    set d := faceDistance x face with hdd
    have hpos : ∀ f ∈ faces, 0 < ‖f.1‖ := fun f hf => norm_pos_iff.mpr (hn f hf)
    have hside : ∀ f ∈ faces, ∀ y : F, ⟪y - f.2, f.1⟫ = -‖f.1‖ * ⟪f.2 - y, normalize f.1⟫ := by
      intro f hf y
      rw [inner_normalize, ← neg_sub f.2 y, inner_neg_left]
      have := hpos f hf
      field_simp
    have hdist : dist x (x + d • normalize face.1) = d := by
      rw [dist_eq_norm, sub_add_cancel_left, norm_neg, norm_smul, hu, mul_one, Real.norm_of_nonneg hd]
    have hlow : ∀ f ∈ faces, ∀ y, OnFace faces f y → faceDistance x f ≤ dist x y := by
      intro f hf y hy
      have h6 := hside f hf y
      rw [hy.2] at h6
      have h7 : ⟪f.2 - y, normalize f.1⟫ = 0 := by
        have := hpos f hf
        rcases mul_eq_zero.mp h6.symm with h | h
        · linarith
        · exact h
      have h8 : faceDistance x f = ⟪y - x, normalize f.1⟫ := by
        rw [faceDistance, ← sub_add_sub_cancel f.2 y x, inner_add_left, h7, zero_add]
      rw [h8]
      calc ⟪y - x, normalize f.1⟫ ≤ ‖y - x‖ * ‖normalize f.1‖ := real_inner_le_norm _ _
        _ = dist x y := by rw [norm_normalize f.1 (hn f hf), mul_one, dist_comm, dist_eq_norm]
    refine ⟨face, x + d • normalize face.1, by rw [hj]; exact h1, ⟨?_, ?_⟩, ?_, ?_⟩
    · intro f hf
      rw [hside f hf]
      have h6 : 0 ≤ ⟪f.2 - (x + d • normalize face.1), normalize f.1⟫ := by
        rw [← sub_sub, inner_sub_left, inner_smul_left]
        have h7 : ⟪normalize face.1, normalize f.1⟫ ≤ 1 := by
          refine (real_inner_le_norm _ _).trans ?_
          rw [hu, norm_normalize f.1 (hn f hf), mul_one]
        have h8 : d ≤ ⟪f.2 - x, normalize f.1⟫ := h4 f hf
        simp only [conj_trivial]
        nlinarith
      nlinarith [hpos f hf]
    · rw [hside face hmem, ← sub_sub, inner_sub_left, inner_smul_left, real_inner_self_eq_norm_sq, hu]
      simp [hdd, faceDistance]
    · intro f hf y hy
      rw [hdist]
      exact (h4 f hf).trans (hlow f hf y hy)
    · intro i f hi hf y hy
      rw [hdist]
      exact lt_of_lt_of_le (h5 i f (by omega) hf) (hlow f (List.mem_of_getElem? hf) y hy)

/-- C46, direction: the returned vector is the unit outer normal of that face at the image of the point. Here `J` is the Jacobian of
the geometry and `B` the transposed of its (pseudo) inverse. The vector is tangential to the element, orthogonal to the image of
the tangents of the face, points outwards, and is the only such unit vector. -/
theorem C46_normal (far : ℝ) (faces : List (F × F)) (hn : ∀ face ∈ faces, face.1 ≠ 0) (x : F)
    (J : F →ₗ[ℝ] G) (B : F → G) (hB : ∀ n v, ⟪B n, J v⟫ = ⟪n, v⟫) (hBJ : ∀ n, B n ∈ LinearMap.range J)
    (face : F × F) (hf : faces[closestFaceIndex far faces x]? = some face) :
    ∃ ν, faceNormal far faces B x = some ν ∧
      (‖ν‖ = 1 ∧ ν ∈ LinearMap.range J ∧ (∀ v, ⟪face.1, v⟫ = 0 → ⟪ν, J v⟫ = 0) ∧ (∀ v, 0 < ⟪face.1, v⟫ → 0 < ⟪ν, J v⟫)) ∧
      ∀ w : G, ‖w‖ = 1 → w ∈ LinearMap.range J → (∀ v, ⟪face.1, v⟫ = 0 → ⟪w, J v⟫ = 0) → (∀ v, 0 < ⟪face.1, v⟫ → 0 < ⟪w, J v⟫) →
        w = ν := by
  have hne : face.1 ≠ 0 := hn face (List.mem_of_getElem? hf)
  have hs : 0 < ⟪face.1, face.1⟫ := real_inner_self_pos.mpr hne
  have hB0 : B face.1 ≠ 0 := by
    intro h
    have := hB face.1 face.1
    rw [h, inner_zero_left] at this
    linarith
  have hp : 0 < ‖B face.1‖⁻¹ := inv_pos.mpr (norm_pos_iff.mpr hB0)
  have hν : ∀ v, ⟪normalize (B face.1), J v⟫ = ‖B face.1‖⁻¹ * ⟪face.1, v⟫ := by
    intro v
    rw [normalize, inner_smul_left, hB]
    simp
  refine ⟨_, by rw [faceNormal, hf]; rfl, ⟨norm_normalize _ hB0, Submodule.smul_mem _ _ (hBJ _), ?_, ?_⟩, ?_⟩
  · intro v hv
    rw [hν, hv, mul_zero]
  · intro v hv
    rw [hν]
    exact mul_pos hp hv
  · intro w hw hwJ h0 h1
    obtain ⟨u, rfl⟩ := hwJ
    set α := ⟪J u, J face.1⟫ / ⟪face.1, face.1⟫ with hα
    have hα0 : 0 < α := div_pos (h1 _ hs) hs
    have h2 : ∀ v, ⟪J u, J v⟫ = α * ⟪face.1, v⟫ := by
      intro v
      have h3 := h0 (v - (⟪face.1, v⟫ / ⟪face.1, face.1⟫) • face.1) (by
        rw [inner_sub_right, inner_smul_right]
        field_simp
        ring)
      rw [map_sub, map_smul, inner_sub_right, inner_smul_right] at h3
      rw [hα]
      field_simp
      field_simp at h3
      linarith
    obtain ⟨b, hb⟩ := hBJ face.1
    have h4 : J u = α • B face.1 := by
      have h3 : ∀ v, ⟪J u - α • B face.1, J v⟫ = 0 := by
        intro v
        rw [inner_sub_left, h2, inner_smul_left, hB]
        simp
      have h6 := h3 (u - α • b)
      rw [map_sub, map_smul, hb] at h6
      exact sub_eq_zero.mp (inner_self_eq_zero.mp h6)
    have h5 : α * ‖B face.1‖ = 1 := by
      rw [h4, norm_smul, Real.norm_of_nonneg hα0.le] at hw
      exact hw
    rw [h4, normalize]
    congr 1
    exact eq_inv_of_mul_eq_one_left h5

/-! ## Examples -/

/-- The reference interval. -/
def exInterval : List (ℝ × ℝ) := [(-1, 0), (1, 1)]

theorem exInterval_inside (x : ℝ) : Inside exInterval x ↔ 0 ≤ x ∧ x ≤ 1 := by
  simp [Inside, exInterval]

/-- The face closest to `3 / 4` is the right one, and the normal on an interval with length `2` and orientation reversed is `-1`. -/
example : closestFaceIndex 1000 exInterval (3 / 4) = 1 ∧
    faceNormal (G := ℝ) 1000 exInterval (fun v => -v / 2) (3 / 4) = some (-1) := by
  have h : closestFaceIndex 1000 exInterval (3 / 4) = 1 := by
    simp only [closestFaceIndex, exInterval, closestLoop, faceDistance, normalize]
    norm_num
  refine ⟨h, ?_⟩
  rw [faceNormal, h]
  simp [exInterval, normalize]

/-- The reference triangle. -/
noncomputable def exTriangle : List (EuclideanSpace ℝ (Fin 2) × EuclideanSpace ℝ (Fin 2)) :=
  [(!₂[0, -1], !₂[1 / 2, 0]), (!₂[-1, 0], !₂[0, 1 / 2]), (!₂[1, 1], !₂[1 / 2, 1 / 2])]

theorem exTriangle_inside (x : EuclideanSpace ℝ (Fin 2)) : Inside exTriangle x ↔ 0 ≤ x 0 ∧ 0 ≤ x 1 ∧ x 0 + x 1 ≤ 1 := by
  simp only [Inside, exTriangle, List.forall_mem_cons, PiLp.inner_apply, Fin.sum_univ_two]
  simp
  constructor
  · rintro ⟨h1, h2, h3⟩
    exact ⟨h2, h1, by linarith⟩
  · rintro ⟨h1, h2, h3⟩
    exact ⟨h2, h1, by linarith⟩

theorem exTriangle_far (x : EuclideanSpace ℝ (Fin 2)) (hx : x 1 < 1000) : faceDistance x (!₂[0, -1], !₂[1 / 2, 0]) < 1000 := by
  rw [faceDistance, normalize, PiLp.inner_apply, Fin.sum_univ_two]
  have : ‖(!₂[0, -1] : EuclideanSpace ℝ (Fin 2))‖ = 1 := by
    rw [EuclideanSpace.norm_eq]; simp
  rw [this]
  simpa using hx

example (x : EuclideanSpace ℝ (Fin 2)) (h0 : 0 ≤ x 0) (h1 : 0 ≤ x 1) (h2 : x 0 + x 1 ≤ 1) :=
  C46 1000 exTriangle
    (by
      intro f hf h
      simp only [exTriangle, List.mem_cons, List.not_mem_nil, or_false] at hf
      rcases hf with rfl | rfl | rfl
      · have := congrArg (fun v => v 1) h; simp at this
      · have := congrArg (fun v => v 0) h; simp at this
      · have := congrArg (fun v => v 0) h; simp at this)
    x ((exTriangle_inside x).mpr ⟨h0, h1, h2⟩)
    ⟨_, by simp [exTriangle], exTriangle_far x (by linarith)⟩

end Verif.FaceNormal

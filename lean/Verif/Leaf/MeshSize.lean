import Verif.Lagrange.Leaf
import Mathlib.Analysis.SpecialFunctions.Pow.Real
import Mathlib.Algebra.BigOperators.Group.List.Basic
import Mathlib.Algebra.Order.BigOperators.Group.List
import Mathlib.Tactic.NormNum
import Mathlib.Tactic.Positivity

/-!
# Average mesh size

Model of `MapperElementSubIndices` and `computeAverageSubEntityMeshSize` (common/mapperutilities.hh), on top of the model of the
mapper in `Leaf/Mapper`. Real numbers instead of floating point numbers; counters do not overflow.
-/

namespace Verif.MeshSize

open Verif.Mapper

variable {E S : Type}

/-- `MapperElementSubIndices::bind`, mapperutilities.hh:48-64. -/
def elementIndices (G : GridView E S) (lay : Layout) (e : E) : List Nat :=
  (List.range (G.dim + 1)).flatMap fun codim =>
    (List.range (G.refSubs (G.elemGeo e) codim).length).flatMap fun i =>
      let c := lay ((G.refSubs (G.elemGeo e) codim).getD i ⟨0, 0⟩)
      if c > 0 then
        let firstIndex := mapperIndex G lay (G.sub e codim i)
        List.range' firstIndex c
      else []

/-- The two arrays of the function. -/
structure Acc where
  sum : List ℝ
  cnt : List Nat

/-- Body of the inner loop, mapperutilities.hh:108-109. `none` if the index is out of bounds. -/
noncomputable def addAt (A : ℝ) (a : Acc) (i : Nat) : Option Acc :=
  if i < a.sum.length ∧ i < a.cnt.length then some ⟨a.sum.modify i (· + A), a.cnt.modify i (· + 1)⟩ else none

/-- Body of the outer loop, mapperutilities.hh:103-111. -/
noncomputable def addElement (G : GridView E S) (lay : Layout) (vol : E → ℝ) (a : Acc) (e : E) : Option Acc :=
  (elementIndices G lay e).foldlM (addAt (vol e)) a

/-- Mesh size from accumulated volume and number of elements, mapperutilities.hh:113. `none` for a division by zero. -/
noncomputable def meanRoot (dim : Nat) (s : ℝ) (n : Nat) : Option ℝ :=
  if n = 0 ∨ dim = 0 then none else some ((s / n) ^ (1 / (dim : ℝ)))

/-- `computeAverageSubEntityMeshSize`, mapperutilities.hh:96-115. `elems` are the elements in the order of traversal. -/
noncomputable def averageMeshSize (G : GridView E S) (lay : Layout) (vol : E → ℝ) (elems : List E) : Option (List ℝ) :=
  (elems.foldlM (addElement G lay vol)
    ⟨List.replicate (mapperSize G lay) 0, List.replicate (mapperSize G lay) 0⟩).bind fun a =>
  (List.range (mapperSize G lay)).mapM fun i => (a.sum[i]?).bind fun s => (a.cnt[i]?).bind fun n => meanRoot G.dim s n

/-! ## Proofs -/

/-- The sub-entity `s` belongs to the element `e`. -/
def Contains (G : GridView E S) (e : E) (s : S) : Prop :=
  ∃ c i, c ≤ G.dim ∧ i < (G.refSubs (G.elemGeo e) c).length ∧ G.sub e c i = s

theorem elementIndices_eq (G : GridView E S) (lay : Layout) (e : E) :
    elementIndices G lay e =
      (allKeys G lay (G.elemGeo e)).map fun k => mapperIndex G lay (G.sub e k.codim k.sub) + k.index := by
  simp only [elementIndices, allKeys, List.map_flatMap]
  refine List.flatMap_congr fun c _ => List.flatMap_congr fun i _ => ?_
  generalize lay ((G.refSubs (G.elemGeo e) c).getD i ⟨0, 0⟩) = n
  by_cases hn : n > 0
  · rw [if_pos hn, List.map_map, List.range'_eq_map_range]
    rfl
  · have : n = 0 := by omega
    subst this
    simp

theorem mem_elementIndices {G : GridView E S} (h : G.OK) (lay : Layout) (e : E) (s : S) (j : Nat) (hj : j < lay (G.geo s)) :
    mapperIndex G lay s + j ∈ elementIndices G lay e ↔ Contains G e s := by
  rw [elementIndices_eq, List.mem_map]
  constructor
  · rintro ⟨k, hk, he⟩
    obtain ⟨hc, u, hu, hlt⟩ := mem_allKeys.mp hk
    have hg := h.subGeo _ _ _ _ hu
    have := (mapper_inj h lay _ _ k.index j (by rw [hg]; exact hlt) hj).mp he
    exact ⟨k.codim, k.sub, hc, (List.getElem?_eq_some_iff.mp hu).1, this.1⟩
  · rintro ⟨c, i, hc, hi, rfl⟩
    refine ⟨⟨i, c, j⟩, mem_allKeys.mpr ⟨hc, (G.refSubs (G.elemGeo e) c)[i], by simp [hi], ?_⟩, rfl⟩
    have hg := h.subGeo e c i ((G.refSubs (G.elemGeo e) c)[i]) (by simp [hi])
    rw [← hg]
    exact hj

theorem elementIndices_nodup {G : GridView E S} (h : G.OK) (lay : Layout) (e : E) : (elementIndices G lay e).Nodup := by
  rw [elementIndices_eq]
  refine List.Nodup.map_on ?_ (allKeys_nodup _ _ _)
  intro k hk k' hk' he
  obtain ⟨_, u, hu, hlt⟩ := mem_allKeys.mp hk
  obtain ⟨_, u', hu', hlt'⟩ := mem_allKeys.mp hk'
  have h1 := (mapper_inj h lay _ _ k.index k'.index (by rw [h.subGeo _ _ _ _ hu]; exact hlt)
    (by rw [h.subGeo _ _ _ _ hu']; exact hlt')).mp he
  have h2 := h.subInj e _ _ _ _ (List.getElem?_eq_some_iff.mp hu).1 (List.getElem?_eq_some_iff.mp hu').1 h1.1
  cases k
  cases k'
  simp_all

theorem elementIndices_lt {G : GridView E S} (h : G.OK) (lay : Layout) (e : E) :
    ∀ i ∈ elementIndices G lay e, i < mapperSize G lay := by
  intro i hi
  rw [elementIndices_eq, List.mem_map] at hi
  obtain ⟨k, hk, rfl⟩ := hi
  obtain ⟨_, u, hu, hlt⟩ := mem_allKeys.mp hk
  exact mapper_lt h lay _ _ (by rw [h.subGeo _ _ _ _ hu]; exact hlt)

/-- State of the arrays: `f` and `g` are their entries. -/
def Is (n : Nat) (a : Acc) (f : Nat → ℝ) (g : Nat → Nat) : Prop :=
  a.sum.length = n ∧ a.cnt.length = n ∧ (∀ i < n, a.sum[i]? = some (f i)) ∧ ∀ i < n, a.cnt[i]? = some (g i)

theorem addAt_is {n : Nat} {a : Acc} {f : Nat → ℝ} {g : Nat → Nat} (h : Is n a f g) (A : ℝ) (i : Nat) (hi : i < n) :
    ∃ a', addAt A a i = some a' ∧ Is n a' (fun k => f k + if i = k then A else 0) (fun k => g k + if i = k then 1 else 0) := by
  obtain ⟨h1, h2, h3, h4⟩ := h
  refine ⟨_, by rw [addAt, if_pos ⟨by omega, by omega⟩], by simpa using h1, by simpa using h2, ?_, ?_⟩
  · intro k hk
    simp only [List.getElem?_modify, h3 k hk]
    split <;> simp_all
  · intro k hk
    simp only [List.getElem?_modify, h4 k hk]
    split <;> simp_all

theorem addAll_is {n : Nat} (A : ℝ) (l : List Nat) (hl : ∀ i ∈ l, i < n) {a : Acc} {f : Nat → ℝ} {g : Nat → Nat} (h : Is n a f g) :
    ∃ a', l.foldlM (addAt A) a = some a' ∧ Is n a' (fun k => f k + l.count k * A) (fun k => g k + l.count k) := by
  induction l generalizing a f g with
  | nil => exact ⟨a, rfl, by simpa using h⟩
  | cons i l ih =>
    obtain ⟨a1, h1, h2⟩ := addAt_is h A i (hl i (by simp))
    obtain ⟨a2, h3, h4⟩ := ih (fun i hi => hl i (by simp [hi])) h2
    refine ⟨a2, by rw [List.foldlM_cons, h1]; exact h3, ?_⟩
    convert h4 using 2
    · rw [List.count_cons]
      split <;> simp_all
      ring
    · rw [List.count_cons]
      split <;> simp_all
      omega

open Classical in
theorem addElements_is {G : GridView E S} (h : G.OK) (lay : Layout) (vol : E → ℝ) (elems : List E) {a : Acc} {f : Nat → ℝ}
    {g : Nat → Nat} (ha : Is (mapperSize G lay) a f g) :
    ∃ a', elems.foldlM (addElement G lay vol) a = some a' ∧
      Is (mapperSize G lay) a'
        (fun k => f k + ((elems.filter fun e => k ∈ elementIndices G lay e).map vol).sum)
        (fun k => g k + (elems.filter fun e => k ∈ elementIndices G lay e).length) := by
  induction elems generalizing a f g with
  | nil => exact ⟨a, rfl, by simpa using ha⟩
  | cons e elems ih =>
    obtain ⟨a1, h1, h2⟩ := addAll_is (vol e) _ (elementIndices_lt h lay e) ha
    obtain ⟨a2, h3, h4⟩ := ih h2
    refine ⟨a2, by rw [List.foldlM_cons, addElement, h1]; exact h3, ?_⟩
    have hc : ∀ k, (elementIndices G lay e).count k = if k ∈ elementIndices G lay e then 1 else 0 := by
      intro k
      split
      · exact List.count_eq_one_of_mem (elementIndices_nodup h lay e) ‹_›
      · exact List.count_eq_zero.mpr ‹_›
    convert h4 using 2 with k k
    · rw [hc, List.filter_cons]
      by_cases hk : k ∈ elementIndices G lay e
      · simp [hk]
        ring
      · simp [hk]
    · rw [hc, List.filter_cons]
      by_cases hk : k ∈ elementIndices G lay e
      · simp [hk]
        omega
      · simp [hk]

theorem mapM_range_some {α : Type} (n : Nat) (f : Nat → Option α) (g : Nat → α) (h : ∀ i < n, f i = some (g i)) :
    (List.range n).mapM f = some ((List.range n).map g) := by
  have : ∀ l : List Nat, (∀ i ∈ l, f i = some (g i)) → l.mapM f = some (l.map g) := by
    intro l
    induction l with
    | nil => intro _; rfl
    | cons i l ih =>
      intro hl
      rw [List.mapM_cons, hl i (by simp), ih fun i hi => hl i (by simp [hi])]
      rfl
  exact this _ fun i hi => h i (by simpa using hi)

/-! ## Theorems -/

open Classical in
/-- C56: the function computes one number per index of the mapper. The numbers at the indices of a sub-entity `s` are the `dim`-th root of
the average volume of exactly those elements that contain `s`. There is at least one of them, so that nothing is divided by zero. -/
theorem C56 {G : GridView E S} (h : G.OK) (hd : 0 < G.dim) (lay : Layout) (vol : E → ℝ) (elems : List E) (hall : ∀ e, e ∈ elems) :
    ∃ r, averageMeshSize G lay vol elems = some r ∧ r.length = mapperSize G lay ∧
      ∀ s, let adj := elems.filter fun e => Contains G e s
        adj ≠ [] ∧ ∀ j < lay (G.geo s),
          r[mapperIndex G lay s + j]? = some (((adj.map vol).sum / adj.length) ^ (1 / (G.dim : ℝ))) := by
  obtain ⟨a, h1, h2, h3, h4, h5⟩ := addElements_is h lay vol elems (a := ⟨List.replicate (mapperSize G lay) 0, List.replicate (mapperSize G lay) 0⟩)
    (f := fun _ => 0) (g := fun _ => 0) ⟨by simp, by simp, by simp +contextual, by simp +contextual⟩
  have hne : ∀ s, (elems.filter fun e => Contains G e s) ≠ [] := by
    intro s hc
    obtain ⟨e, he⟩ := h.subSurj s
    rw [List.filter_eq_nil_iff] at hc
    exact hc e (hall e) (by simpa [Contains] using he)
  have hf : ∀ s, ∀ j < lay (G.geo s), (elems.filter fun e => mapperIndex G lay s + j ∈ elementIndices G lay e) =
      elems.filter fun e => Contains G e s := by
    intro s j hj
    refine List.filter_congr fun e _ => ?_
    rw [decide_eq_decide]
    exact mem_elementIndices h lay e s j hj
  have hm := mapM_range_some (mapperSize G lay)
    (fun i => (a.sum[i]?).bind fun s => (a.cnt[i]?).bind fun n => meanRoot G.dim s n)
    (fun i => (((elems.filter fun e => i ∈ elementIndices G lay e).map vol).sum /
      ((elems.filter fun e => i ∈ elementIndices G lay e).length : ℕ)) ^ (1 / (G.dim : ℝ))) (by
      intro i hi
      obtain ⟨s, j, hj, rfl⟩ := mapper_surj h lay i hi
      simp only [h4 _ hi, h5 _ hi, Option.bind_some, meanRoot, hf s j hj, zero_add]
      rw [if_neg]
      rintro (hc | hc)
      · exact hne s (List.length_eq_zero_iff.mp hc)
      · omega)
  refine ⟨_, by rw [averageMeshSize, h1]; exact hm, by simp, ?_⟩
  intro s
  refine ⟨hne s, ?_⟩
  intro j hj
  simp only [List.getElem?_map, List.getElem?_range (mapper_lt h lay s j hj), Option.map_some, hf s j hj]

/-- C56: the entries are positive if all volumes are positive, their `dim`-th power is the average volume, and it lies between
the smallest and the largest volume. -/
theorem C56_pos {G : GridView E S} (h : G.OK) (hd : 0 < G.dim) (lay : Layout) (vol : E → ℝ) (elems : List E) (hall : ∀ e, e ∈ elems)
    (hv : ∀ e, 0 < vol e) {r : List ℝ} (hr : averageMeshSize G lay vol elems = some r) (x : ℝ) (hx : x ∈ r) :
    0 < x ∧ ∃ s, 0 < lay (G.geo s) ∧ ∃ e e', Contains G e s ∧ Contains G e' s ∧ vol e ≤ x ^ G.dim ∧ x ^ G.dim ≤ vol e' := by
  classical
  obtain ⟨r', h1, h2, h3⟩ := C56 h hd lay vol elems hall
  rw [hr] at h1
  injection h1 with h1
  subst h1
  obtain ⟨n, hn, rfl⟩ := List.getElem_of_mem hx
  rw [h2] at hn
  obtain ⟨s, j, hj, rfl⟩ := mapper_surj h lay n hn
  obtain ⟨hne, h4⟩ := h3 s
  have h5 := h4 j hj
  rw [List.getElem?_eq_getElem (by omega)] at h5
  injection h5 with h5
  rw [h5]
  generalize hadj : (elems.filter fun e => decide (Contains G e s)) = adj at *
  have hmem : ∀ e ∈ adj, Contains G e s := by
    intro e he
    rw [← hadj, List.mem_filter] at he
    simpa using he.2
  have hlen : (0 : ℝ) < adj.length := by
    have := List.length_pos_iff.mpr hne
    exact_mod_cast this
  obtain ⟨a, ha⟩ := List.exists_mem_of_ne_nil _ hne
  have hsum : ∀ l : List E, l ≠ [] → ∃ e ∈ l, ∃ e' ∈ l, l.length * vol e ≤ (l.map vol).sum ∧ (l.map vol).sum ≤ l.length * vol e' := by
    intro l
    induction l with
    | nil => intro hl; exact absurd rfl hl
    | cons a l ih =>
      intro _
      by_cases hl : l = []
      · subst hl
        exact ⟨a, by simp, a, by simp, by simp, by simp⟩
      · obtain ⟨e, he, e', he', i1, i2⟩ := ih hl
        have hp : (0 : ℝ) ≤ l.length := by positivity
        refine ⟨if vol a ≤ vol e then a else e, ?_, if vol e' ≤ vol a then a else e', ?_, ?_, ?_⟩
        · split <;> simp [he]
        · split <;> simp [he']
        · rw [List.map_cons, List.sum_cons, List.length_cons]
          push_cast
          split
          · nlinarith
          · nlinarith
        · rw [List.map_cons, List.sum_cons, List.length_cons]
          push_cast
          split
          · nlinarith
          · nlinarith
  obtain ⟨e, he, e', he', i1, i2⟩ := hsum adj hne
  have hpos : 0 < (adj.map vol).sum / adj.length := by
    refine div_pos ?_ hlen
    exact lt_of_lt_of_le (mul_pos hlen (hv e)) i1
  have hpow : (((adj.map vol).sum / adj.length) ^ (1 / (G.dim : ℝ))) ^ G.dim = (adj.map vol).sum / adj.length := by
    rw [one_div]
    exact Real.rpow_inv_natCast_pow hpos.le (by omega)
  refine ⟨Real.rpow_pos_of_pos hpos _, s, by omega, e, e', hmem e he, hmem e' he', ?_, ?_⟩
  · rw [hpow, le_div_iff₀ hlen]
    linarith
  · rw [hpow, div_le_iff₀ hlen]
    linarith

/-- C56: the result does not depend on the order of traversal. -/
theorem C56_perm {G : GridView E S} (h : G.OK) (hd : 0 < G.dim) (lay : Layout) (vol : E → ℝ) (elems elems' : List E)
    (hp : elems.Perm elems') (hall : ∀ e, e ∈ elems) :
    averageMeshSize G lay vol elems = averageMeshSize G lay vol elems' := by
  classical
  obtain ⟨r, h1, h2, h3⟩ := C56 h hd lay vol elems hall
  obtain ⟨r', h1', h2', h3'⟩ := C56 h hd lay vol elems' fun e => hp.mem_iff.mp (hall e)
  rw [h1, h1']
  congr 1
  refine List.ext_getElem? fun n => ?_
  by_cases hn : n < mapperSize G lay
  · obtain ⟨s, j, hj, rfl⟩ := mapper_surj h lay n hn
    rw [(h3 s).2 j hj, (h3' s).2 j hj]
    have hq := hp.filter fun e => decide (Contains G e s)
    rw [(hq.map vol).sum_eq, hq.length_eq]
  · rw [List.getElem?_eq_none (by omega), List.getElem?_eq_none (by omega)]

/-! ## Examples -/

open Verif.Lagrange

/-- One value per vertex, as used by the Hermite basis. -/
def vertexLayout : Layout := fun t => if t.dim = 0 then 1 else 0

/-- Two triangles with volumes 1 and 3: the second and fourth vertex belong to both. -/
example : elementIndices demoGrid.toGridView vertexLayout 0 = [0, 1, 3] ∧
    elementIndices demoGrid.toGridView vertexLayout 1 = [2, 3, 1] := by decide

def exVol : Fin 2 → ℝ := fun e => if e = 0 then 1 else 3

example : averageMeshSize demoGrid.toGridView vertexLayout exVol [0, 1] =
    some [1, (2 : ℝ) ^ (1 / 2 : ℝ), (3 : ℝ) ^ (1 / 2 : ℝ), (2 : ℝ) ^ (1 / 2 : ℝ)] := by
  have h0 : elementIndices demoGrid.toGridView vertexLayout 0 = [0, 1, 3] := by decide
  have h1 : elementIndices demoGrid.toGridView vertexLayout 1 = [2, 3, 1] := by decide
  have hs : mapperSize demoGrid.toGridView vertexLayout = 4 := by decide
  have hd : demoGrid.dim = 2 := rfl
  have hr : List.range 4 = [0, 1, 2, 3] := by decide
  simp [averageMeshSize, addElement, h0, h1, hs, hd, hr, addAt, exVol, meanRoot, List.replicate]
  norm_num

example := C56 demoGrid_OK.base (by decide) vertexLayout exVol [0, 1] (by decide)

example (r : List ℝ) := C56_pos (r := r) demoGrid_OK.base (by decide) vertexLayout exVol [0, 1] (by decide)
  (by intro e; simp only [exVol]; split <;> norm_num)

example := C56_perm demoGrid_OK.base (by decide) vertexLayout exVol [0, 1] [1, 0] (by decide) (by decide)

end Verif.MeshSize

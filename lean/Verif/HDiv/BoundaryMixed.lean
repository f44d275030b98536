import Verif.HDiv.NedelecMixed
import Verif.Dofs.BoundaryLeaf

/-!
# Boundary DOFs of Raviart–Thomas and Nédélec bases on grids of simplices, cubes and prisms

The degrees of freedom visited by `forEachBoundaryDOF` determine the normal components of Raviart–Thomas functions and the tangential components of Nédélec functions on the boundary, and are
determined by them. The elements have affine or multilinear geometries, the boundary facets need not be plane.
-/

namespace Verif.HDiv.BoundaryMixed

open Matrix Verif.Mapper Verif.Lagrange Verif.Piola Verif.Dofs
open Verif.Lagrange.Continuity (Supported vertexWeight prismType)
open Verif.HDiv.Trace (Inside MixedGrid Neighbours gridJac mixedValue rtKeys facetIndex facetOf facetVert refCorner refCorner_on refCorner_inside refCorner_weight facetVert_inj C102_facet)
open Verif.HDiv.Tangential (EdgeGrid edgeFunction nedKeys nedTypes edgeNo edgeValue comp vertexIndex)

variable {E S K : Type} [Field K] [LinearOrder K] [IsStrictOrderedRing K] {n : Nat}

/-! ## Specification -/

/-- The intersections of a grid view: an element with a boundary intersection reports it, and the numbers of the facets are those of the element. -/
structure BoundaryFacets (G : LGrid E S Nat) (hasBoundary : E → Bool) (isects : E → List BIsect) : Prop where
  reported : ∀ e, ∀ is ∈ isects e, is.boundary = true → hasBoundary e = true
  facet : ∀ e, ∀ is ∈ isects e, is.indexInInside < numFacets (G.elemGeo e)

/-! ## Raviart–Thomas basis -/

theorem rt_keys (hn : n = 1 ∨ n = 2) {t : Geo} (ht : Supported (n + 1) t) : (rtKeys t).Nodup ∧ ∀ k ∈ rtKeys t, k.codim ≤ n + 1 ∧ ∃ u, (stdSubs t k.codim)[k.sub]? = some u ∧ k.index < rtLayout 0 (n + 1) u := by
  have tab : ∀ t ∈ elemTypes, t ≠ ⟨3, 5⟩ → 1 < t.dim → (rtKeys t).Nodup ∧ ∀ k ∈ rtKeys t, k.codim ≤ t.dim ∧ ∃ u ∈ (stdSubs t k.codim)[k.sub]?, k.index < rtLayout 0 t.dim u := by decide +kernel
  obtain ⟨h1, h2⟩ := tab t ht.1 ht.2.2 (by rw [ht.2.1]; omega)
  refine ⟨h1, fun k hk => ⟨ht.2.1 ▸ (h2 k hk).1, ?_⟩⟩
  obtain ⟨u, q1, q2⟩ := (h2 k hk).2
  exact ⟨u, q1, ht.2.1 ▸ q2⟩

theorem inc_facet {t : Geo} (ht : t ∈ elemTypes) : ∀ i < numFacets t, ∀ j < numFacets t, stdInc t i 1 1 j = true ↔ j = i := by
  revert t
  decide +kernel

/-- **C109, Raviart–Thomas basis of order 0.** Two coefficient vectors agree in the degrees of freedom visited by `forEachBoundaryDOF` if and only if the normal components of the discrete
functions agree in all points of the boundary facets. -/
theorem C109_raviartThomas (hn : n = 1 ∨ n = 2) {G : LGrid E S Nat} {pos : Nat → Vec K (n + 1)} (hG : MixedGrid G n pos) {isects : E → List (Isect E)} (hI : Neighbours G.toGridView isects)
    (fixed : Option Geo) (hfix : ∀ u, fixed = some u → ∀ e, u = G.elemGeo e ∧ (G.elemGeo e = simplexOf G.dim ∨ G.elemGeo e = cubeOf G.dim)) {geo : E → Geometry K (n + 1)}
    (hgeo : ∀ e x, Inside (G.elemGeo e) x → (geo e).OK (gridJac G pos e x) x) {hasBoundary : E → Bool} {bisects : E → List BIsect} (hB : BoundaryFacets G hasBoundary bisects) (els : List E) :
    ∃ calls, elementCalls G.toGridView (rtLayout 0 G.dim) (fun e => rtKeys (G.elemGeo e)) hasBoundary bisects els = some calls ∧ ∀ vec vec' : Nat → K, Agree calls vec vec' ↔
      ∀ e ∈ els, ∀ is ∈ bisects e, is.boundary = true → ∀ x, Inside (G.elemGeo e) x → (facetOf K n (G.elemGeo e) is.indexInInside).On x →
        ∃ v v', mixedValue G fixed isects geo vec e x = some v ∧ mixedValue G fixed isects geo vec' e x = some v' ∧
          ∀ N : Vec K (n + 1), (∀ k, N ⬝ᵥ (gridJac G pos e x *ᵥ (facetOf K n (G.elemGeo e) is.indexInInside).frame k) = 0) → N ⬝ᵥ v = N ⬝ᵥ v' := by
  have hk : KeysOK G.toGridView (rtLayout 0 G.dim) fun e => rtKeys (G.elemGeo e) := by
    refine ⟨fun e => (rt_keys hn (hG.types e)).1, fun e k hk => ?_⟩
    rw [hG.ok.std, hG.dim]
    exact (rt_keys hn (hG.types e)).2 k hk
  obtain ⟨calls, h1, h2⟩ := elementCalls_spec hG.ok.base hk hasBoundary bisects hB.reported els
  refine ⟨calls, h1, fun vec vec' => (h2 K vec vec').trans ⟨?_, ?_⟩⟩
  · intro ha e he is his hb x hin hx
    have hi := hB.facet e is his
    obtain ⟨v, v', r1, r2, r3⟩ := C102_facet hn hG hI fixed hfix geo vec vec' e hi hx (hgeo e x hin)
    refine ⟨v, v', r1, r2, r3.1 ?_⟩
    exact ha e he is his hb is.indexInInside ⟨is.indexInInside, 1, 0⟩ (by rw [rtKeys, List.getElem?_map, List.getElem?_range hi]; rfl)
      ((inc_facet (hG.types e).1 _ hi _ hi).2 rfl)
  · intro ha e he is his hb l k hl hinc
    have hi := hB.facet e is his
    have hlt := (List.getElem?_eq_some_iff.1 hl).1
    simp only [rtKeys, List.length_map, List.length_range] at hlt
    rw [rtKeys, List.getElem?_map, List.getElem?_range hlt] at hl
    obtain rfl := Option.some.inj hl
    obtain rfl := (inc_facet (hG.types e).1 _ hi _ hlt).1 hinc
    have hu : (stdSubs (G.elemGeo e) 1)[is.indexInInside]? = some (stdSubs (G.elemGeo e) 1)[is.indexInInside] := List.getElem?_eq_getElem hi
    have hpos : ∀ t ∈ elemTypes, ∀ u ∈ stdSubs t 1, 0 < u.nv := by decide
    have h0 := hpos _ (hG.types e).1 _ (List.mem_of_getElem? hu)
    have hin := refCorner_inside (K := K) hn (hG.types e) ((facetVert_inj (hG.types e).1 hu).1 0 h0)
    have hx := refCorner_on (K := K) hn (hG.types e) hu h0
    obtain ⟨v, v', r1, r2, r3⟩ := C102_facet hn hG hI fixed hfix geo vec vec' e hi hx (hgeo e _ hin)
    obtain ⟨w, w', s1, s2, s3⟩ := ha e he is his hb _ hin hx
    rw [r1, Option.some.injEq] at s1
    rw [r2, Option.some.injEq] at s2
    subst s1
    subst s2
    exact r3.2 s3

/-! ## Nédélec basis -/

theorem ned_keys {t : Geo} (ht : t ∈ nedTypes) : (nedKeys t).Nodup ∧ ∀ k ∈ nedKeys t, k.codim ≤ t.dim ∧ ∃ u, (stdSubs t k.codim)[k.sub]? = some u ∧ k.index < nedelecLayout u := by
  have tab : ∀ t ∈ nedTypes, (nedKeys t).Nodup ∧ ∀ k ∈ nedKeys t, k.codim ≤ t.dim ∧ ∃ u ∈ (stdSubs t k.codim)[k.sub]?, k.index < nedelecLayout u := by decide +kernel
  obtain ⟨h1, h2⟩ := tab t ht
  refine ⟨h1, fun k hk => ⟨(h2 k hk).1, ?_⟩⟩
  obtain ⟨u, q1, q2⟩ := (h2 k hk).2
  exact ⟨u, q1, q2⟩

/-- Vertices of a facet that are joined by an edge of the facet. -/
def Side (u : Geo) (k m : Nat) : Prop := k < u.nv ∧ m < u.nv ∧ k ≠ m ∧ (u = ⟨2, 4⟩ → k + m ≠ 3)

instance (u : Geo) (k m : Nat) : Decidable (Side u k m) := inferInstanceAs (Decidable (_ ∧ _ ∧ _ ∧ _))

theorem side_inc {t : Geo} (ht : t ∈ nedTypes) : ∀ i < (stdSubs t 1).length, ∀ u ∈ (stdSubs t 1)[i]?, (∀ k < u.nv, ∀ m < u.nv, Side u k m → edgeNo t (facetVert t i k) (facetVert t i m) < (refOf t).edges.length ∧
    stdInc t i 1 (t.dim - 1) (edgeNo t (facetVert t i k) (facetVert t i m)) = true) ∧
    ∀ l < (refOf t).edges.length, stdInc t i 1 (t.dim - 1) l = true → ∃ k < u.nv, ∃ m < u.nv, Side u k m ∧ edgeNo t (facetVert t i k) (facetVert t i m) = l := by
  revert t
  decide +kernel

/-- The components tangential to a facet are determined by the values on the edges of the facet, and determine them. -/
theorem facet_comp (hn : n = 1 ∨ n = 2) {t : Geo} (ht : t ∈ nedTypes) (hd : t.dim = n + 1) {i : Nat} {u : Geo} (hu : (stdSubs t 1)[i]? = some u) {D D' : Nat → Nat → K}
    (hD : ∀ a b, D b a = -D a b) (hD' : ∀ a b, D' b a = -D' a b) :
    (∀ k m, Side u k m → D (facetVert t i k) (facetVert t i m) = D' (facetVert t i k) (facetVert t i m)) ↔
      ∀ x : Vec K (n + 1), Inside t x → (facetOf K n t i).On x → ∀ k, comp t D x ((facetOf K n t i).frame k) = comp t D' x ((facetOf K n t i).frame k) := by
  have hs := Tangential.ned_supported ht hd
  have hi : i < numFacets t := (List.getElem?_eq_some_iff.1 hu).1
  have lt := (facetVert_inj hs.1 hu).1
  have inj := (facetVert_inj hs.1 hu).2
  have z : ∀ {D : Nat → Nat → K}, (∀ a b, D b a = -D a b) → ∀ a, D a a = 0 := fun h a => self_eq_neg.1 (h a a)
  have at0 : ∀ j < u.nv, Inside t (refCorner K n t (facetVert t i j)) ∧ (facetOf K n t i).On (refCorner K n t (facetVert t i j)) ∧
      ∀ m < u.nv, vertexWeight t (facetVert t i m) (refCorner K n t (facetVert t i j)) = if m = j then 1 else 0 := by
    intro j hj
    refine ⟨refCorner_inside hn hs (lt j hj), refCorner_on hn hs hu hj, fun m hm => ?_⟩
    rw [refCorner_weight hn hs (lt j hj) (lt m hm)]
    by_cases h : m = j
    · rw [if_pos h, if_pos (by rw [h])]
    · rw [if_neg h, if_neg fun hc => h (inj m hm j hj hc)]
  rcases hn with rfl | rfl
  · have hnv : u = ⟨1, 2⟩ := by
      have : ∀ t ∈ elemTypes, t.dim = 2 → ∀ u ∈ stdSubs t 1, u = ⟨1, 2⟩ := by decide
      exact this _ hs.1 hd u (List.mem_of_getElem? hu)
    subst hnv
    have f := fun (D : Nat → Nat → K) (x : Vec K 2) (hx : (facetOf K 1 t i).On x) => Tangential.edge_comp (Trace.supported_two hs) D hi hx
    constructor
    · intro h x _ hx k
      rw [Subsingleton.elim k 0, f D x hx, f D' x hx]
      exact h 0 1 (by decide)
    · intro h k m hkm
      obtain ⟨q1, q2, -⟩ := at0 0 (by decide)
      have h01 := h _ q1 q2 0
      rw [f D _ q2, f D' _ q2] at h01
      obtain ⟨k2, m2, hne, -⟩ := hkm
      have : k = 0 ∧ m = 1 ∨ k = 1 ∧ m = 0 := by
        simp only at k2 m2
        omega
      rcases this with ⟨rfl, rfl⟩ | ⟨rfl, rfl⟩
      · exact h01
      · rw [hD, hD', h01]
  · have hu2 : u = ⟨2, 3⟩ ∨ u = ⟨2, 4⟩ := by
      have : ∀ t ∈ elemTypes, t.dim = 3 → ∀ u ∈ stdSubs t 1, u = ⟨2, 3⟩ ∨ u = ⟨2, 4⟩ := by decide
      exact this _ hs.1 hd u (List.mem_of_getElem? hu)
    rcases hu2 with rfl | rfl
    · have tet : ∀ t ∈ nedTypes, t.dim = 3 → ⟨2, 3⟩ ∈ stdSubs t 1 → t = ⟨3, 4⟩ := by decide
      have t1 := tet _ ht hd (List.mem_of_getElem? hu)
      have f := fun (D : Nat → Nat → K) (hD : ∀ a b, D b a = -D a b) (x : Vec K 3) (hx : (facetOf K 2 t i).On x) (k : Fin 2) => Tangential.face_comp t1 D (z hD) hD hi hx k
      constructor
      · intro h x _ hx k
        rw [f D hD x hx, f D' hD' x hx]
        refine Finset.sum_congr rfl fun j _ => ?_
        have e : ∀ a b, a < 3 → b < 3 → D (facetVert t i a) (facetVert t i b) = D' (facetVert t i a) (facetVert t i b) := by
          intro a b ha hb
          by_cases hab : a = b
          · rw [hab, z hD, z hD']
          · exact h a b ⟨ha, hb, hab, fun hc => absurd hc (by decide)⟩
        rw [e j (k + 1) j.2 (by omega), e j 0 j.2 (by omega)]
      · intro h
        have g : ∀ (j : Fin 3) (k : Fin 2), D (facetVert t i j) (facetVert t i (k + 1)) - D (facetVert t i j) (facetVert t i 0) =
            D' (facetVert t i j) (facetVert t i (k + 1)) - D' (facetVert t i j) (facetVert t i 0) := by
          intro j k
          obtain ⟨q1, q2, q3⟩ := at0 j j.2
          have hc := h _ q1 q2 k
          rw [f D hD _ q2, f D' hD' _ q2] at hc
          have w : ∀ F : Fin 3 → K, ∑ a : Fin 3, vertexWeight t (facetVert t i a) (refCorner K 2 t (facetVert t i j)) * F a = F j := by
            intro F
            rw [Finset.sum_eq_single j]
            · rw [q3 j j.2, if_pos rfl, one_mul]
            · intro b _ hb
              rw [q3 b b.2, if_neg fun hc => hb (Fin.ext hc), zero_mul]
            · simp
          rw [w fun a => D (facetVert t i a) (facetVert t i (k + 1)) - D (facetVert t i a) (facetVert t i 0),
            w fun a => D' (facetVert t i a) (facetVert t i (k + 1)) - D' (facetVert t i a) (facetVert t i 0)] at hc
          exact hc
        have g01 := g 0 0
        have g02 := g 0 1
        have g12 := g 1 1
        simp only [Fin.val_zero, Fin.val_one, Nat.zero_add, Nat.reduceAdd, z hD, z hD', sub_zero] at g01 g02 g12
        rw [hD (facetVert t i 0), hD' (facetVert t i 0), g01] at g12
        have g12 := sub_left_injective g12
        rintro k m ⟨hk, hm, hkm, -⟩
        have hk : k < 3 := hk
        have hm : m < 3 := hm
        have c : (k = 0 ∧ m = 1) ∨ (k = 0 ∧ m = 2) ∨ (k = 1 ∧ m = 2) ∨ (k = 1 ∧ m = 0) ∨ (k = 2 ∧ m = 0) ∨ (k = 2 ∧ m = 1) := by omega
        rcases c with ⟨rfl, rfl⟩ | ⟨rfl, rfl⟩ | ⟨rfl, rfl⟩ | ⟨rfl, rfl⟩ | ⟨rfl, rfl⟩ | ⟨rfl, rfl⟩
        · exact g01
        · exact g02
        · exact g12
        · rw [hD, hD', g01]
        · rw [hD, hD', g02]
        · rw [hD, hD', g12]
    · have hex : ∀ t ∈ nedTypes, t.dim = 3 → ⟨2, 4⟩ ∈ stdSubs t 1 → t = ⟨3, 8⟩ := by decide
      have t1 := hex _ ht hd (List.mem_of_getElem? hu)
      have f := fun (D : Nat → Nat → K) (x : Vec K 3) (hx : (facetOf K 2 t i).On x) (k : Fin 2) => Tangential.quad_comp t1 D hi hx k
      constructor
      · intro h x _ hx k
        rw [f D x hx, f D' x hx]
        simp only [Tangential.quadComp, h 0 1 (by decide), h 2 3 (by decide), h 0 2 (by decide), h 1 3 (by decide)]
      · intro h
        have g : ∀ j < 4, ∀ k : Fin 2, Tangential.quadComp (fun m => if m = j then (1 : K) else 0) (fun a b => D (facetVert t i a) (facetVert t i b)) k =
            Tangential.quadComp (fun m => if m = j then (1 : K) else 0) (fun a b => D' (facetVert t i a) (facetVert t i b)) k := by
          intro j hj k
          obtain ⟨q1, q2, q3⟩ := at0 j hj
          have hc := h _ q1 q2 k
          rw [f D _ q2, f D' _ q2] at hc
          simpa only [Tangential.quadComp, q3 0 (by decide), q3 1 (by decide), q3 2 (by decide), q3 3 (by decide)] using hc
        have g01 := g 0 (by decide) 0
        have g02 := g 0 (by decide) 1
        have g23 := g 3 (by decide) 0
        have g13 := g 3 (by decide) 1
        simp [Tangential.quadComp] at g01 g02 g23 g13
        rintro k m ⟨hk, hm, hkm, hq⟩
        have hk : k < 4 := hk
        have hm : m < 4 := hm
        have hq := hq rfl
        have c : (k = 0 ∧ m = 1) ∨ (k = 0 ∧ m = 2) ∨ (k = 1 ∧ m = 3) ∨ (k = 2 ∧ m = 3) ∨ (k = 1 ∧ m = 0) ∨ (k = 2 ∧ m = 0) ∨ (k = 3 ∧ m = 1) ∨ (k = 3 ∧ m = 2) := by omega
        rcases c with ⟨rfl, rfl⟩ | ⟨rfl, rfl⟩ | ⟨rfl, rfl⟩ | ⟨rfl, rfl⟩ | ⟨rfl, rfl⟩ | ⟨rfl, rfl⟩ | ⟨rfl, rfl⟩ | ⟨rfl, rfl⟩
        · exact g01
        · exact g02
        · exact g13
        · exact g23
        · rw [hD, hD', g01]
        · rw [hD, hD', g02]
        · rw [hD, hD', g13]
        · rw [hD, hD', g23]

omit [IsStrictOrderedRing K] [LinearOrder K] in
/-- The values of an edge in terms of its coefficient. -/
theorem edgeValue_eq {G : LGrid E S Nat} {fixed : Option Geo} (hG : EdgeGrid G fixed n) (vec vec' : Nat → K) (e : E) {a b : Nat} (ha : a < (G.elemGeo e).nv) (hb : b < (G.elemGeo e).nv) (hab : a ≠ b) :
    edgeValue G.toGridView vec e a b = edgeValue G.toGridView vec' e a b ↔ vec (mapperIndex G.toGridView nedelecLayout (G.sub e (G.dim - 1) (edgeNo (G.elemGeo e) a b))) =
      vec' (mapperIndex G.toGridView nedelecLayout (G.sub e (G.dim - 1) (edgeNo (G.elemGeo e) a b))) := by
  have hne : vertexIndex G.toGridView e a ≠ vertexIndex G.toGridView e b := fun h => hab (Tangential.vertex_inj hG.accepted e a ha b hb h)
  simp only [edgeValue]
  rcases Nat.lt_or_gt_of_ne hne with h | h
  · simp [h]
  · simp [h, not_lt.2 h.le]

/-- **C109, Nédélec basis of order 1.** Two coefficient vectors agree in the degrees of freedom visited by `forEachBoundaryDOF` if and only if the tangential components of the discrete functions
agree in all points of the boundary facets. -/
theorem C109_nedelec (hn : n = 1 ∨ n = 2) {G : LGrid E S Nat} {fixed : Option Geo} (hG : EdgeGrid G fixed n) {pos : Nat → Vec K (n + 1)} {geo : E → Geometry K (n + 1)}
    (hgeo : ∀ e x, Inside (G.elemGeo e) x → (geo e).OK (gridJac G pos e x) x) {hasBoundary : E → Bool} {bisects : E → List BIsect} (hB : BoundaryFacets G hasBoundary bisects) (els : List E) :
    ∃ calls, elementCalls G.toGridView nedelecLayout (fun e => nedKeys (G.elemGeo e)) hasBoundary bisects els = some calls ∧ ∀ vec vec' : Nat → K, Agree calls vec vec' ↔
      ∀ e ∈ els, ∀ is ∈ bisects e, is.boundary = true → ∀ x, Inside (G.elemGeo e) x → (facetOf K n (G.elemGeo e) is.indexInInside).On x →
        ∃ v v', edgeFunction G fixed geo vec e x = some v ∧ edgeFunction G fixed geo vec' e x = some v' ∧
          ∀ k, v ⬝ᵥ (gridJac G pos e x *ᵥ (facetOf K n (G.elemGeo e) is.indexInInside).frame k) = v' ⬝ᵥ (gridJac G pos e x *ᵥ (facetOf K n (G.elemGeo e) is.indexInInside).frame k) := by
  have ht := fun e => Tangential.accepted_type hG.accepted e
  have hd : ∀ e, (G.elemGeo e).dim = G.dim := fun e => (hG.ok.base.elemMem e).2
  have hk : KeysOK G.toGridView nedelecLayout fun e => nedKeys (G.elemGeo e) := by
    refine ⟨fun e => (ned_keys (ht e)).1, fun e k hk => ?_⟩
    rw [hG.ok.std, ← hd e]
    exact (ned_keys (ht e)).2 k hk
  obtain ⟨calls, h1, h2⟩ := elementCalls_spec hG.ok.base hk hasBoundary bisects hB.reported els
  refine ⟨calls, h1, fun vec vec' => (h2 K vec vec').trans ?_⟩
  have key : ∀ e, ∀ is ∈ bisects e, (∀ (l : Nat) (k : Key), (nedKeys (G.elemGeo e))[l]? = some k → stdInc (G.elemGeo e) is.indexInInside 1 k.codim k.sub = true →
        vec (mapperIndex G.toGridView nedelecLayout (G.sub e k.codim k.sub) + k.index) = vec' (mapperIndex G.toGridView nedelecLayout (G.sub e k.codim k.sub) + k.index)) ↔
      ∀ x, Inside (G.elemGeo e) x → (facetOf K n (G.elemGeo e) is.indexInInside).On x → ∃ v v', edgeFunction G fixed geo vec e x = some v ∧ edgeFunction G fixed geo vec' e x = some v' ∧
          ∀ k, v ⬝ᵥ (gridJac G pos e x *ᵥ (facetOf K n (G.elemGeo e) is.indexInInside).frame k) = v' ⬝ᵥ (gridJac G pos e x *ᵥ (facetOf K n (G.elemGeo e) is.indexInInside).frame k) := by
    intro e is his
    have hi : is.indexInInside < (stdSubs (G.elemGeo e) 1).length := hB.facet e is his
    obtain ⟨u, hu⟩ : ∃ u, (stdSubs (G.elemGeo e) 1)[is.indexInInside]? = some u := ⟨_, List.getElem?_eq_getElem hi⟩
    obtain ⟨s1, s2⟩ := side_inc (ht e) _ hi u hu
    obtain ⟨lt, inj⟩ := facetVert_inj (hG.ok.type e) hu
    have f := facet_comp (K := K) hn (ht e) ((hd e).trans hG.dim) hu (D := edgeValue G.toGridView vec e) (D' := edgeValue G.toGridView vec' e)
      (Tangential.edgeValue_swap _ _ _) (Tangential.edgeValue_swap _ _ _)
    refine Iff.trans ?_ (f.trans ?_)
    · constructor
      · intro h k m hkm
        obtain ⟨q1, q2⟩ := s1 k hkm.1 m hkm.2.1 hkm
        refine (edgeValue_eq hG vec vec' e (lt k hkm.1) (lt m hkm.2.1) fun hc => hkm.2.2.1 (inj k hkm.1 m hkm.2.1 hc)).2 ?_
        have := h _ ⟨edgeNo (G.elemGeo e) (facetVert (G.elemGeo e) is.indexInInside k) (facetVert (G.elemGeo e) is.indexInInside m), (G.elemGeo e).dim - 1, 0⟩
          (by rw [nedKeys, List.getElem?_map, List.getElem?_range q1]; rfl) q2
        rwa [hd e] at this
      · intro h l k hl hinc
        have hlt := (List.getElem?_eq_some_iff.1 hl).1
        simp only [nedKeys, List.length_map, List.length_range] at hlt
        rw [nedKeys, List.getElem?_map, List.getElem?_range hlt] at hl
        obtain rfl := Option.some.inj hl
        obtain ⟨k, hk, m, hm, hkm, rfl⟩ := s2 l hlt hinc
        have := (edgeValue_eq hG vec vec' e (lt k hk) (lt m hm) fun hc => hkm.2.2.1 (inj k hk m hm hc)).1 (h k m hkm)
        rw [← hd e] at this
        exact this
    · refine forall_congr' fun x => forall_congr' fun hin => forall_congr' fun hx => ?_
      obtain ⟨v, r1, r2⟩ := Tangential.ned_value hG.accepted hG.dim geo vec e (hgeo e x hin)
      obtain ⟨v', r1', r2'⟩ := Tangential.ned_value hG.accepted hG.dim geo vec' e (hgeo e x hin)
      constructor
      · intro h
        refine ⟨v, v', r1, r1', fun k => ?_⟩
        rw [r2, r2', h]
      · rintro ⟨w, w', q1, q1', q2⟩ k
        obtain rfl := Option.some.inj (r1.symm.trans q1)
        obtain rfl := Option.some.inj (r1'.symm.trans q1')
        rw [← r2, ← r2', q2]
  exact forall_congr' fun e => forall_congr' fun _ => forall_congr' fun is => forall_congr' fun his => forall_congr' fun _ => key e is his

/-! ## Examples: a trapezoid and a triangle -/

/-- The common edge has the number 1 in the trapezoid and 0 in the triangle. -/
def demoBoundary (e : Fin 2) : List BIsect := if e = 0 then [⟨true, 0⟩, ⟨false, 1⟩, ⟨true, 2⟩, ⟨true, 3⟩] else [⟨false, 0⟩, ⟨true, 1⟩, ⟨true, 2⟩]

theorem demo_boundary : BoundaryFacets Continuity.mixedGrid (fun _ => true) demoBoundary where
  reported _ _ _ _ := rfl
  facet := by decide +kernel

/-- All edges but the common one, whose index is 1, are visited. -/
example : (elementCalls Continuity.mixedGrid.toGridView (rtLayout 0 2) (fun e => rtKeys (Continuity.mixedGrid.elemGeo e)) (fun _ => true) demoBoundary [0, 1]).map (fun calls => calls.map Visit.index)
    = some [[0], [2], [3], [4], [5]] := by decide +kernel

example : (elementCalls Continuity.mixedGrid.toGridView nedelecLayout (fun e => nedKeys (Continuity.mixedGrid.elemGeo e)) (fun _ => true) demoBoundary [0, 1]).map (fun calls => calls.map Visit.index)
    = some [[0], [2], [3], [4], [5]] := by decide +kernel

theorem demo_agree {calls : List (Visit (Fin 2))} (h : calls.map Visit.index = [[0], [2], [3], [4], [5]]) (vec vec' : Nat → ℝ) : Agree calls vec vec' ↔ ∀ m ∈ [0, 2, 3, 4, 5], vec m = vec' m := by
  have key : (∀ v ∈ calls, ∀ m, v.index = [m] → vec m = vec' m) ↔ ∀ i ∈ calls.map Visit.index, ∀ m, i = [m] → vec m = vec' m := by simp
  rw [Agree, key, h]
  simp

/-- The functions of the Raviart–Thomas basis without normal component on the boundary of the trapezoid and the triangle: those whose coefficients vanish on all edges but the common one. -/
example (vec : Nat → ℝ) : (∀ m ∈ [0, 2, 3, 4, 5], vec m = 0) ↔ ∀ e, ∀ is ∈ demoBoundary e, is.boundary = true → ∀ x, Inside (Continuity.mixedGrid.elemGeo e) x →
    (facetOf ℝ 1 (Continuity.mixedGrid.elemGeo e) is.indexInInside).On x → ∃ v v', mixedValue Continuity.mixedGrid none Trace.trapezoidIsects Trace.trapezoidGeo vec e x = some v ∧
      mixedValue Continuity.mixedGrid none Trace.trapezoidIsects Trace.trapezoidGeo (fun _ => 0) e x = some v' ∧
      ∀ N : Vec ℝ 2, (∀ k, N ⬝ᵥ (gridJac Continuity.mixedGrid Trace.trapezoidPos e x *ᵥ (facetOf ℝ 1 (Continuity.mixedGrid.elemGeo e) is.indexInInside).frame k) = 0) → N ⬝ᵥ v = N ⬝ᵥ v' := by
  obtain ⟨calls, h1, h2⟩ := C109_raviartThomas (Or.inl rfl) Trace.trapezoid_grid Trace.trapezoid_neighbours none (by simp) Trace.trapezoid_geo demo_boundary [0, 1]
  have hc : (elementCalls Continuity.mixedGrid.toGridView (rtLayout 0 Continuity.mixedGrid.dim) (fun e => rtKeys (Continuity.mixedGrid.elemGeo e)) (fun _ => true) demoBoundary [0, 1]).map (fun calls => calls.map Visit.index)
    = some [[0], [2], [3], [4], [5]] := by decide +kernel
  rw [h1, Option.map_some, Option.some.injEq] at hc
  refine (demo_agree hc vec fun _ => 0).symm.trans ((h2 vec fun _ => 0).trans ?_)
  refine forall_congr' fun e => ⟨fun h => h (by fin_cases e <;> simp), fun h _ => h⟩

/-- The functions of the Nédélec basis without tangential component on the boundary. -/
example (vec : Nat → ℝ) : (∀ m ∈ [0, 2, 3, 4, 5], vec m = 0) ↔ ∀ e, ∀ is ∈ demoBoundary e, is.boundary = true → ∀ x, Inside (Continuity.mixedGrid.elemGeo e) x →
    (facetOf ℝ 1 (Continuity.mixedGrid.elemGeo e) is.indexInInside).On x → ∃ v v', edgeFunction Continuity.mixedGrid none Trace.trapezoidGeo vec e x = some v ∧
      edgeFunction Continuity.mixedGrid none Trace.trapezoidGeo (fun _ => 0) e x = some v' ∧
      ∀ k, v ⬝ᵥ (gridJac Continuity.mixedGrid Trace.trapezoidPos e x *ᵥ (facetOf ℝ 1 (Continuity.mixedGrid.elemGeo e) is.indexInInside).frame k) =
        v' ⬝ᵥ (gridJac Continuity.mixedGrid Trace.trapezoidPos e x *ᵥ (facetOf ℝ 1 (Continuity.mixedGrid.elemGeo e) is.indexInInside).frame k) := by
  obtain ⟨calls, h1, h2⟩ := C109_nedelec (Or.inl rfl) Tangential.trapezoid_edges Trace.trapezoid_geo demo_boundary [0, 1]
  have hc : (elementCalls Continuity.mixedGrid.toGridView nedelecLayout (fun e => nedKeys (Continuity.mixedGrid.elemGeo e)) (fun _ => true) demoBoundary [0, 1]).map (fun calls => calls.map Visit.index)
    = some [[0], [2], [3], [4], [5]] := by decide +kernel
  rw [h1, Option.map_some, Option.some.injEq] at hc
  refine (demo_agree hc vec fun _ => 0).symm.trans ((h2 vec fun _ => 0).trans ?_)
  refine forall_congr' fun e => ⟨fun h => h (by fin_cases e <;> simp), fun h _ => h⟩

end Verif.HDiv.BoundaryMixed

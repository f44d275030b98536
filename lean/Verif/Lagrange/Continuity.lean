import Verif.Lagrange.Leaf
import Verif.HDiv.TangentialTrace

/-!
# Continuity of Lagrange functions

A coefficient vector of the Lagrange basis defines a function on each element. On conforming grids these functions agree on common faces.
-/

namespace Verif.Lagrange.Continuity

open Mapper
open Verif.HDiv.Tangential (sum_match)

variable {E S α K : Type} [LinearOrder α] [Field K]

/-! ## Model -/

/-- discreteglobalbasisfunction.hh:345-363 with a scalar leaf basis: indices of the basis, values of the shape functions (dune-localfunctions), linear combination. -/
def value {X : Type} (G : LGrid E S α) (order : Nat) (keys : E → List Key) (values : Geo → X → List K) (vec : Nat → K) (e : E) (x : X) : K :=
  ((((lagrangeLeaf G order keys).loc e).map vec).zip (values (G.elemGeo e) x)).foldl (fun y cv => y + cv.1 * cv.2) 0

/-! ## Blocks -/

theorem lagrangeIndex_block {G : LGrid E S α} (h : G.OK) (order : Nat) (h17 : G.dim = 3 → order ≤ 17) {e : E} {k : Key} (hk : ValidKey G order e k) :
    ∃ p, p < lagrangeLayout order G.dim (G.geo (G.sub e k.codim k.sub)) ∧
      lagrangeIndex G order e k = some (mapperIndex G.toGridView (lagrangeLayout order G.dim) (G.sub e k.codim k.sub) + p) := by
  obtain ⟨d, d', p, p', hd, -, hp, -, hlt, -⟩ := perm_same h order h17 e k e k hk hk rfl
  refine ⟨p, hlt, ?_⟩
  by_cases h1 : order = 1
  · subst h1
    obtain ⟨hi, hm⟩ := order1_shortcut h e k hk
    rw [lagrangeIndex, if_pos rfl, hm]
    have hp0 : p = 0 := by
      have : permuteFaceDOF G.dim 1 k.sub k.codim k.index d = some k.index := by
        simp [permuteFaceDOF]
      rw [this] at hp
      simp at hp
      omega
    rw [hp0, Nat.add_zero]
  · rw [lagrangeIndex, if_neg h1, hd, Option.bind_some, hp, Option.bind_some]

/-- Each number of the block of an entity belongs to a key of each element with this entity. -/
theorem block_covered {G : LGrid E S α} (h : G.OK) (order : Nat) (h17 : G.dim = 3 → order ≤ 17) (e : E) {c i j : Nat} (hc : c ≤ G.dim)
    (hi : i < (stdSubs (G.elemGeo e) c).length) (hj : j < lagrangeLayout order G.dim (G.geo (G.sub e c i))) :
    ∃ a, ValidKey G order e ⟨i, c, a⟩ ∧
      lagrangeIndex G order e ⟨i, c, a⟩ = some (mapperIndex G.toGridView (lagrangeLayout order G.dim) (G.sub e c i) + j) := by
  have hg := h.base.subGeo e c i _ (by rw [h.std]; exact List.getElem?_eq_getElem hi)
  have hvalid : ∀ i' : Fin (lagrangeLayout order G.dim (G.geo (G.sub e c i))), ValidKey G order e ⟨i, c, i'⟩ := by
    intro i'
    exact ⟨hc, _, List.getElem?_eq_getElem hi, lt_of_lt_of_eq i'.2 (by rw [hg])⟩
  have hf : ∀ i' : Fin (lagrangeLayout order G.dim (G.geo (G.sub e c i))),
      ∃ p : Fin (lagrangeLayout order G.dim (G.geo (G.sub e c i))), lagrangeIndex G order e ⟨i, c, i'⟩ =
        some (mapperIndex G.toGridView (lagrangeLayout order G.dim) (G.sub e c i) + p) := by
    intro i'
    obtain ⟨p, hlt, hp⟩ := lagrangeIndex_block h order h17 (hvalid i')
    exact ⟨⟨p, hlt⟩, hp⟩
  choose f hf using hf
  have hinj : Function.Injective f := by
    intro a b hab
    obtain ⟨n, n', h1, h2, -, hiff⟩ := C20_C22_conformity h order h17 e _ e _ (hvalid a) (hvalid b)
    rw [hf a, Option.some.injEq] at h1
    rw [hf b, Option.some.injEq] at h2
    have hsn := hiff.mp (by rw [← h1, ← h2, hab])
    have := sameNode_self h order e _ _ (hvalid a) (hvalid b) hsn
    rw [Key.mk.injEq] at this
    exact Fin.ext this.2.2
  obtain ⟨a, ha⟩ := (Finite.injective_iff_surjective.mp hinj) ⟨j, hj⟩
  exact ⟨a, hvalid a, by rw [hf a, ha]⟩

/-- On a common entity, each node of one element is a node of the other one. -/
theorem node_exists {G : LGrid E S α} (h : G.OK) (order : Nat) (h17 : G.dim = 3 → order ≤ 17) {e e' : E} {k : Key} (hk : ValidKey G order e k) {i' : Nat}
    (hi' : i' < (stdSubs (G.elemGeo e') k.codim).length) (hs : G.sub e k.codim k.sub = G.sub e' k.codim i') :
    ∃ k', ValidKey G order e' k' ∧ SameNode G order e k e' k' := by
  obtain ⟨p, hp, hx⟩ := lagrangeIndex_block h order h17 hk
  obtain ⟨a, ha, hy⟩ := block_covered h order h17 e' hk.1 hi' (j := p) (by rw [← hs]; exact hp)
  refine ⟨_, ha, ?_⟩
  obtain ⟨n, n', h1, h2, -, hiff⟩ := C20_C22_conformity h order h17 e k e' _ hk ha
  refine hiff.1 ?_
  rw [hx, Option.some.injEq] at h1
  rw [hy, Option.some.injEq] at h2
  rw [← h1, ← h2, hs]

/-! ## Matching of nodes -/

theorem value_sum {X : Type} (G : LGrid E S α) (order : Nat) (keys : E → List Key) (values : Geo → X → List K) (vec : Nat → K) (e : E) (x : X)
    (hlen : (values (G.elemGeo e) x).length = (keys e).length) :
    value G order keys values vec e x = ∑ l : Fin (keys e).length,
      vec ((lagrangeIndex G order e (keys e)[l]).getD (mapperSize G.toGridView (lagrangeLayout order G.dim))) * (values (G.elemGeo e) x)[l.val]'(by omega) := by
  have hfold : ∀ (L : List (K × K)) (y : K), L.foldl (fun y cv => y + cv.1 * cv.2) y = y + (L.map fun cv => cv.1 * cv.2).sum := by
    intro L
    induction L with
    | nil => simp
    | cons a L ih => intro y; rw [List.foldl_cons, ih, List.map_cons, List.sum_cons, add_assoc]
  rw [value, hfold, zero_add, Fin.sum_univ_def]
  congr 1
  apply List.ext_getElem
  · simp [lagrangeLeaf, hlen]
  · intro l h1 h2
    simp [lagrangeLeaf]

/-- The values on two elements agree if the shape functions of common nodes have the same values and those of other nodes vanish. -/
theorem C69_matching {X : Type} {G : LGrid E S α} (h : G.OK) {order : Nat} (h17 : G.dim = 3 → order ≤ 17) {keys : E → List Key} (hk : LagrangeKeys G order keys)
    (values : Geo → X → List K) (shape : Geo → Key → X → K) (hv : ∀ e x, values (G.elemGeo e) x = (keys e).map fun k => shape (G.elemGeo e) k x)
    (vec : Nat → K) {e e' : E} {x x' : X}
    (hsame : ∀ k k', ValidKey G order e k → ValidKey G order e' k' → SameNode G order e k e' k' → shape (G.elemGeo e) k x = shape (G.elemGeo e') k' x')
    (hzero : ∀ k, ValidKey G order e k → (∀ k', ValidKey G order e' k' → ¬ SameNode G order e k e' k') → shape (G.elemGeo e) k x = 0)
    (hzero' : ∀ k', ValidKey G order e' k' → (∀ k, ValidKey G order e k → ¬ SameNode G order e k e' k') → shape (G.elemGeo e') k' x' = 0) :
    value G order keys values vec e x = value G order keys values vec e' x' := by
  rw [value_sum G order keys values vec e x (by simp [hv]), value_sum G order keys values vec e' x' (by simp [hv])]
  have valid : ∀ e, ∀ l : Fin (keys e).length, ValidKey G order e (keys e)[l] := fun e l => (hk.mem e _).1 (List.getElem_mem _)
  have index : ∀ (e e' : E) (l : Fin (keys e).length) (l' : Fin (keys e').length),
      lagrangeIndex G order e (keys e)[l] = lagrangeIndex G order e' (keys e')[l'] ↔ SameNode G order e (keys e)[l] e' (keys e')[l'] := by
    intro e e' l l'
    obtain ⟨n, n', h1, h2, -, hiff⟩ := C20_C22_conformity h order h17 e _ e' _ (valid e l) (valid e' l')
    rw [h1, h2, Option.some.injEq, hiff]
  have inj : ∀ e, Function.Injective fun l : Fin (keys e).length => lagrangeIndex G order e (keys e)[l] := by
    intro e l l' hl
    have := sameNode_self h order e _ _ (valid e l) (valid e l') ((index e e l l').1 hl)
    exact Fin.ext (((hk.nodup e).getElem_inj_iff).1 this)
  refine sum_match (fun l : Fin (keys e).length => lagrangeIndex G order e (keys e)[l]) (fun l : Fin (keys e').length => lagrangeIndex G order e' (keys e')[l])
    (inj e) (inj e') _ _ ?_ ?_ ?_
  · intro l l' hl
    have := hsame _ _ (valid e l) (valid e' l') ((index e e' l l').1 hl)
    simp only [hv, List.getElem_map]
    rw [hl]
    exact congrArg _ this
  · intro l hl
    have := hzero _ (valid e l) (by
      intro k' hk' hsn
      obtain ⟨l', hl', rfl⟩ := List.mem_iff_getElem.1 ((hk.mem e' k').2 hk')
      exact hl ⟨l', hl'⟩ ((index e e' l ⟨l', hl'⟩).2 hsn))
    simp only [hv, List.getElem_map]
    rw [show shape (G.elemGeo e) (keys e)[l.val] x = 0 from this, mul_zero]
  · intro l' hl'
    have := hzero' _ (valid e' l') (by
      intro k hk2 hsn
      obtain ⟨l, hl, rfl⟩ := List.mem_iff_getElem.1 ((hk.mem e k).2 hk2)
      exact hl' ⟨l, hl⟩ ((index e e' ⟨l, hl⟩ l').2 hsn))
    simp only [hv, List.getElem_map]
    rw [show shape (G.elemGeo e') (keys e')[l'.val] x' = 0 from this, mul_zero]

/-! ## Specification -/

/-- One factor of a shape function: vanishes at `0, 1/k, …, (a-1)/k` and is 1 at `a/k`. -/
def factor (order a : Nat) (l : K) : K := ∏ j ∈ Finset.range a, ((order : K) * l - j) / (j + 1)

/-- Local vertices of the sub-entity of a key. -/
def keyVerts (t : Geo) (k : Key) : List Nat := (subVerts (refOf t) k.codim).getD k.sub []

/-- Type of the sub-entity of a key. -/
def keyType (t : Geo) (k : Key) : Geo := (stdSubs t k.codim).getD k.sub ⟨0, 0⟩

/-- Weight of the local vertex `v` in the Lagrange point of a key, with sum `order ^ 2` (weights of points of simplices have the sum `order`). -/
def weight (order : Nat) (t : Geo) (k : Key) (v : Nat) : Nat :=
  (if keyType t k = ⟨2, 4⟩ then 1 else order) *
    (((keyVerts t k).zip ((points order (keyType t k)).getD k.index [])).map fun p => if p.1 = v then p.2 else 0).sum

/-- Value of the shape function of a Lagrange point in a point of a face. Both are given by their weights at the vertices of the face. On edges and triangles these are the
barycentric coordinates; on quadrilaterals, the sums of the weights over opposite sides are the coordinates. -/
def faceValue (order : Nat) : List (Nat × K) → K
  | [a, b, c, d] => factor order ((a.1 + c.1) / order) (a.2 + c.2) * factor order ((b.1 + d.1) / order) (b.2 + d.2) *
      (factor order ((a.1 + b.1) / order) (a.2 + b.2) * factor order ((c.1 + d.1) / order) (c.2 + d.2))
  | l => (l.map fun p => factor order (p.1 / order) p.2).prod

def ValidLocal (order : Nat) (t : Geo) (k : Key) : Prop :=
  k.codim ≤ t.dim ∧ ∃ u, (stdSubs t k.codim)[k.sub]? = some u ∧ k.index < lagrangeLayout order t.dim u

/-- Contract of a Lagrange element: in the points of a face `F`, which are those where the weights `bw v` of other vertices vanish, the shape functions of the
Lagrange points of the face are those of the face, and the other ones vanish. -/
def Traces {X : Type} (order : Nat) (t : Geo) (bw : Nat → X → K) (shape : Key → X → K) : Prop :=
  ∀ k, ValidLocal order t k → ∀ (c s : Nat) (F : List Nat), 1 ≤ c → c ≤ t.dim → (subVerts (refOf t) c)[s]? = some F → ∀ x, (∀ v < t.nv, v ∉ F → bw v x = 0) →
    ((∀ v ∈ keyVerts t k, v ∈ F) → shape k x = faceValue order (F.map fun v => (weight order t k v, bw v x))) ∧
    ((∃ v ∈ keyVerts t k, v ∉ F) → shape k x = 0)

/-- Contract of the grid: the faces of a common entity of two elements are common to them. -/
def Closed (G : LGrid E S α) : Prop :=
  ∀ e e' c s c' s', s < (stdSubs (G.elemGeo e) c).length → s' < (stdSubs (G.elemGeo e') c').length → G.sub e c s = G.sub e' c' s' →
    ∀ c2 s2, s2 < (stdSubs (G.elemGeo e) c2).length → (∀ v ∈ keyVerts (G.elemGeo e) ⟨s2, c2, 0⟩, v ∈ keyVerts (G.elemGeo e) ⟨s, c, 0⟩) →
      ∃ s2' < (stdSubs (G.elemGeo e') c2).length, G.sub e c2 s2 = G.sub e' c2 s2'

/-! ## Faces seen from two sides -/

/-- `faceValue` does not depend on the order of the vertices; for quadrilaterals, diagonals have to be preserved. -/
theorem faceValue_congr {β : Type} (order : Nat) (P P' : List (β × Nat × K)) (hn : (P.map Prod.fst).Nodup) (hn' : (P'.map Prod.fst).Nodup)
    (hset : ∀ p, p ∈ P ↔ p ∈ P') (hd : P.length = 4 → ∀ x y, Diagonal (P.map Prod.fst) x y ↔ Diagonal (P'.map Prod.fst) x y) :
    faceValue order (P.map Prod.snd) = faceValue order (P'.map Prod.snd) := by
  have hperm : P.Perm P' := (List.perm_ext_iff_of_nodup (List.Nodup.of_map _ hn) (List.Nodup.of_map _ hn')).2 hset
  have hgen : ∀ Q : List (β × Nat × K), Q.length ≠ 4 → faceValue order (Q.map Prod.snd) = ((Q.map Prod.snd).map fun p => factor order (p.1 / order) p.2).prod := by
    intro Q hQ
    match Q, hQ with
    | [], _ => rfl
    | [_], _ => rfl
    | [_, _], _ => rfl
    | [_, _, _], _ => rfl
    | [_, _, _, _], h => exact absurd rfl h
    | _ :: _ :: _ :: _ :: _ :: _, _ => rfl
  by_cases h4 : P.length = 4
  · have h4' : P'.length = 4 := by rw [← hperm.length_eq, h4]
    match P, h4, P', h4' with
    | [a, b, c, d], _, [a', b', c', d'], _ =>
      have hd := hd rfl
      simp only [List.map_cons, List.map_nil] at hd hn hn'
      have hdiag : ∀ (p q r s : β) (x y : β), Diagonal [p, q, r, s] x y ↔ (p = x ∧ s = y) ∨ (q = x ∧ r = y) ∨ (r = x ∧ q = y) ∨ (s = x ∧ p = y) := by
        intro p q r s x y
        constructor
        · rintro ⟨i, hi, h1, h2⟩
          have : i = 0 ∨ i = 1 ∨ i = 2 ∨ i = 3 := by omega
          rcases this with rfl | rfl | rfl | rfl <;> simp at h1 h2 <;> simp [h1, h2]
        · rintro (⟨rfl, rfl⟩ | ⟨rfl, rfl⟩ | ⟨rfl, rfl⟩ | ⟨rfl, rfl⟩)
          · exact ⟨0, by omega, rfl, rfl⟩
          · exact ⟨1, by omega, rfl, rfl⟩
          · exact ⟨2, by omega, rfl, rfl⟩
          · exact ⟨3, by omega, rfl, rfl⟩
      -- entries are determined by their names
      have huniq : ∀ p ∈ [a, b, c, d], ∀ q ∈ [a', b', c', d'], p.1 = q.1 → p = q := by
        intro p hp q hq hpq
        have hq' := (hset q).2 hq
        exact List.inj_on_of_nodup_map (f := Prod.fst) (by simpa using hn) hp hq' hpq
      have hAD := (hd a'.1 d'.1).2 ((hdiag _ _ _ _ _ _).2 (Or.inl ⟨rfl, rfl⟩))
      have hBC := (hd b'.1 c'.1).2 ((hdiag _ _ _ _ _ _).2 (Or.inr (Or.inl ⟨rfl, rfl⟩)))
      rw [hdiag] at hAD hBC
      simp only [List.nodup_cons, List.mem_cons, List.not_mem_nil, or_false, not_or, not_false_eq_true, List.nodup_nil, and_true] at hn hn'
      obtain ⟨⟨nab, nac, nad⟩, ⟨nbc, nbd⟩, ncd⟩ := hn
      obtain ⟨⟨nab', nac', nad'⟩, ⟨nbc', nbd'⟩, ncd'⟩ := hn'
      have eq1 : ∀ {p q}, p ∈ [a, b, c, d] → q ∈ [a', b', c', d'] → p.1 = q.1 → p = q := fun hp hq h => huniq _ hp _ hq h
      simp only [List.map_cons, List.map_nil, faceValue]
      rcases hAD with ⟨x1, x2⟩ | ⟨x1, x2⟩ | ⟨x1, x2⟩ | ⟨x1, x2⟩ <;> rcases hBC with ⟨y1, y2⟩ | ⟨y1, y2⟩ | ⟨y1, y2⟩ | ⟨y1, y2⟩ <;>
        first
        | exact absurd (x1.symm.trans y1) nab'
        | exact absurd (x1.symm.trans y2) nac'
        | (replace x1 := eq1 (by simp) (by simp) x1
           replace x2 := eq1 (by simp) (by simp) x2
           replace y1 := eq1 (by simp) (by simp) y1
           replace y2 := eq1 (by simp) (by simp) y2
           subst x1 x2 y1 y2
           simp only [add_comm, mul_comm, mul_left_comm, mul_assoc])
  · rw [hgen P h4, hgen P' (by rw [← hperm.length_eq]; exact h4)]
    exact ((hperm.map _).map _).prod_eq

/-- Vertices of a sub-entity. -/
theorem keyVerts_table {t : Geo} (ht : t ∈ elemTypes) {k : Key} (hc : k.codim ≤ t.dim) (hs : k.sub < (stdSubs t k.codim).length) :
    (keyVerts t k).Nodup ∧ (∀ v ∈ keyVerts t k, v < t.nv) ∧ (keyVerts t k).length = (keyType t k).nv ∧ (stdSubs t k.codim)[k.sub]? = some (keyType t k) ∧
      (subVerts (refOf t) k.codim)[k.sub]? = some (keyVerts t k) := by
  have h : ∀ t ∈ elemTypes, ∀ c ≤ t.dim, ∀ i < (stdSubs t c).length, ((subVerts (refOf t) c).getD i []).Nodup ∧ (∀ v ∈ (subVerts (refOf t) c).getD i [], v < t.nv) ∧
      ((subVerts (refOf t) c).getD i []).length = ((stdSubs t c).getD i ⟨0, 0⟩).nv := by decide +kernel
  obtain ⟨h1, h2, h3⟩ := h t ht _ hc _ hs
  have hs' : k.sub < (subVerts (refOf t) k.codim).length := by simpa [stdSubs] using hs
  refine ⟨h1, h2, h3, ?_, ?_⟩
  · rw [keyType, List.getD_eq_getElem?_getD, List.getElem?_eq_getElem hs, Option.getD_some]
  · rw [keyVerts, List.getD_eq_getElem?_getD, List.getElem?_eq_getElem hs', Option.getD_some]

/-- A face does not have all vertices of the element. -/
theorem face_proper : ∀ t ∈ elemTypes, ∀ c ≤ t.dim, 1 ≤ c → ∀ F ∈ subVerts (refOf t) c, ∃ v < t.nv, v ∉ F := by decide +kernel

/-- The sum in `weight`. -/
theorem sum_lookup (l : List Nat) (w : List Nat) (hl : l.Nodup) (hw : w.length = l.length) (v : Nat) :
    (∀ i (hi : i < l.length), l[i] = v → ((l.zip w).map fun p => if p.1 = v then p.2 else 0).sum = w[i]) ∧
    (v ∉ l → ((l.zip w).map fun p => if p.1 = v then p.2 else 0).sum = 0) := by
  induction l generalizing w with
  | nil => simp
  | cons a l ih =>
    match w, hw with
    | b :: w, hw =>
      obtain ⟨ha, hl⟩ := List.nodup_cons.1 hl
      obtain ⟨ih1, ih2⟩ := ih w hl (by simpa using hw)
      constructor
      · intro i hi hv
        cases i with
        | zero =>
          simp only [List.getElem_cons_zero] at hv
          subst hv
          simp [ih2 ha]
        | succ i =>
          simp only [List.getElem_cons_succ] at hv ⊢
          have hne : a ≠ v := by rintro rfl; exact ha (hv ▸ List.getElem_mem _)
          have := ih1 i (by simpa using hi) hv
          simp [hne, this]
      · intro hv
        have hne : a ≠ v := by rintro rfl; simp at hv
        have := ih2 (by intro h; exact hv (List.mem_cons_of_mem _ h))
        simp [hne, this]

omit [LinearOrder α] in
theorem subGeo_dim {G : LGrid E S α} (h : G.OK) {e : E} {c i : Nat} (hi : i < (stdSubs (G.elemGeo e) c).length) : (G.geo (G.sub e c i)).dim = G.dim - c := by
  rw [h.base.subGeo e c i _ (by rw [h.std]; exact List.getElem?_eq_getElem hi)]
  simp [stdSubs, (refOf_table _ (h.type e)).1, (h.base.elemMem e).2]

theorem SameNode.symm {G : LGrid E S α} (h : G.OK) (order : Nat) (h17 : G.dim = 3 → order ≤ 17) {e e' : E} {k k' : Key} (hk : ValidKey G order e k)
    (hk' : ValidKey G order e' k') : SameNode G order e k e' k' ↔ SameNode G order e' k' e k := by
  obtain ⟨n, n', h1, h2, -, hiff⟩ := C20_C22_conformity h order h17 e k e' k' hk hk'
  obtain ⟨m, m', g1, g2, -, giff⟩ := C20_C22_conformity h order h17 e' k' e k hk' hk
  rw [← hiff, ← giff]
  rw [h2, Option.some.injEq] at g1
  rw [h1, Option.some.injEq] at g2
  rw [g1, g2, eq_comm]

omit [LinearOrder α] in
/-- Common nodes have the same weights at common vertices. -/
theorem weight_same {G : LGrid E S α} (h : G.OK) {order : Nat} {e e' : E} {k k' : Key} (hk : ValidKey G order e k) (hk' : ValidKey G order e' k')
    (hs : SameNode G order e k e' k') (hc : k.codim ≠ 0) {v v' : Nat} (hv : v < (G.elemGeo e).nv) (hv' : v' < (G.elemGeo e').nv)
    (hid : G.ids e v = G.ids e' v') : weight order (G.elemGeo e) k v = weight order (G.elemGeo e') k' v' := by
  have hdim : ∀ e, (G.elemGeo e).dim = G.dim := fun e => (h.base.elemMem e).2
  obtain ⟨hc1, u, hu, hi⟩ := hk
  obtain ⟨hc1', u', hu', hi'⟩ := hk'
  have hlt := (List.getElem?_eq_some_iff.1 hu).1
  have hlt' := (List.getElem?_eq_some_iff.1 hu').1
  obtain ⟨t1, t2, t3, t4, -⟩ := keyVerts_table (h.type e) (by rw [hdim]; exact hc1) hlt
  obtain ⟨t1', t2', t3', t4', -⟩ := keyVerts_table (h.type e') (by rw [hdim]; exact hc1') hlt'
  obtain ⟨hsub, hs⟩ := hs
  rw [if_neg hc] at hs
  obtain ⟨w, w', hw, hw', hP⟩ := hs
  have hg := h.base.subGeo e _ _ _ (by rw [h.std]; exact t4)
  have hg' := h.base.subGeo e' _ _ _ (by rw [h.std]; exact t4')
  have ht : keyType (G.elemGeo e) k = keyType (G.elemGeo e') k' := by rw [← hg, ← hg', hsub]
  have hV := h.vertsSame e k e' k' (by rw [h.std]; exact hlt) (by rw [h.std]; exact hlt') hsub
  rw [hg] at hw
  rw [hg'] at hw'
  obtain ⟨u0, v0, a1, -, -, -, -, a6⟩ := stdSubs_lower _ (h.type e) _ (by rw [hdim]; exact hc1) hc _ hlt
  rw [t4, Option.some.injEq] at a1
  have hwl : w.length = (keyVerts (G.elemGeo e) k).length := by rw [t3, points_length order _ (a1 ▸ a6) w (List.mem_of_getElem? hw)]
  have hwl' : w'.length = (keyVerts (G.elemGeo e') k').length := by
    rw [t3', points_length order _ (ht ▸ a1 ▸ a6) w' (List.mem_of_getElem? hw')]
  rw [weight, weight, ht, List.getD_eq_getElem?_getD, List.getD_eq_getElem?_getD, ← ht, hw, ht, hw', Option.getD_some, Option.getD_some]
  congr 1
  have hVe : G.verts e k = (keyVerts (G.elemGeo e) k).map (G.ids e) := rfl
  have hVe' : G.verts e' k' = (keyVerts (G.elemGeo e') k').map (G.ids e') := rfl
  have hmem : v ∈ keyVerts (G.elemGeo e) k ↔ v' ∈ keyVerts (G.elemGeo e') k' := by
    constructor
    · intro hm
      have := (hV (G.ids e v)).1 (by rw [hVe]; exact List.mem_map_of_mem hm)
      rw [hVe', List.mem_map] at this
      obtain ⟨z, hz, hzz⟩ := this
      rw [← h.idsInj e' z v' (t2' z hz) hv' (by rw [hzz, hid])]
      exact hz
    · intro hm
      have := (hV (G.ids e' v')).2 (by rw [hVe']; exact List.mem_map_of_mem hm)
      rw [hVe, List.mem_map] at this
      obtain ⟨z, hz, hzz⟩ := this
      rw [← h.idsInj e z v (t2 z hz) hv (by rw [hzz, hid])]
      exact hz
  by_cases hm : v ∈ keyVerts (G.elemGeo e) k
  · obtain ⟨i, hi, rfl⟩ := List.mem_iff_getElem.1 hm
    obtain ⟨i', hi', rfl⟩ := List.mem_iff_getElem.1 (hmem.1 hm)
    rw [(sum_lookup _ w t1 hwl _).1 i hi rfl, (sum_lookup _ w' t1' hwl' _).1 i' hi' rfl]
    refine hP (G.ids e (keyVerts (G.elemGeo e) k)[i]) _ _ ?_ ?_
    · rw [hVe, List.mem_iff_getElem]
      exact ⟨i, by simp; omega, by simp⟩
    · rw [hVe', List.mem_iff_getElem]
      exact ⟨i', by simp; omega, by simp [hid]⟩
  · rw [(sum_lookup _ w t1 hwl _).2 hm, (sum_lookup _ w' t1' hwl' _).2 (fun h => hm (hmem.2 h))]

/-- A Lagrange function is continuous: its values on two elements agree in the points of a common face. This holds for each type of the elements. -/
theorem C69_face {X : Type} {G : LGrid E S α} (h : G.OK) (closed : Closed G) {order : Nat} (h17 : G.dim = 3 → order ≤ 17) {keys : E → List Key}
    (hk : LagrangeKeys G order keys) (values : Geo → X → List K) (bw : Geo → Nat → X → K) (shape : Geo → Key → X → K)
    (hv : ∀ e x, values (G.elemGeo e) x = (keys e).map fun k => shape (G.elemGeo e) k x)
    (tr : ∀ e, Traces order (G.elemGeo e) (bw (G.elemGeo e)) (shape (G.elemGeo e))) (vec : Nat → K) {e e' : E} {c s c' s' : Nat} (hc1 : 1 ≤ c)
    (hs : s < (stdSubs (G.elemGeo e) c).length) (hs' : s' < (stdSubs (G.elemGeo e') c').length) (hc : c ≤ G.dim) (hc' : c' ≤ G.dim)
    (hsub : G.sub e c s = G.sub e' c' s') {x x' : X}
    (hx : ∀ v < (G.elemGeo e).nv, v ∉ keyVerts (G.elemGeo e) ⟨s, c, 0⟩ → bw (G.elemGeo e) v x = 0)
    (hx' : ∀ v < (G.elemGeo e').nv, v ∉ keyVerts (G.elemGeo e') ⟨s', c', 0⟩ → bw (G.elemGeo e') v x' = 0)
    (hxx : ∀ v < (G.elemGeo e).nv, ∀ v' < (G.elemGeo e').nv, G.ids e v = G.ids e' v' → bw (G.elemGeo e) v x = bw (G.elemGeo e') v' x') :
    value G order keys values vec e x = value G order keys values vec e' x' := by
  have hdim : ∀ e, (G.elemGeo e).dim = G.dim := fun e => (h.base.elemMem e).2
  obtain ⟨f1, f2, f3, f4, f5⟩ := keyVerts_table (h.type e) (k := ⟨s, c, 0⟩) (by rw [hdim]; exact hc) hs
  obtain ⟨f1', f2', f3', f4', f5'⟩ := keyVerts_table (h.type e') (k := ⟨s', c', 0⟩) (by rw [hdim]; exact hc') hs'
  have hV := h.vertsSame e ⟨s, c, 0⟩ e' ⟨s', c', 0⟩ (by rw [h.std]; exact hs) (by rw [h.std]; exact hs') hsub
  have hD := h.diagSame e ⟨s, c, 0⟩ e' ⟨s', c', 0⟩ (by rw [h.std]; exact hs) (by rw [h.std]; exact hs') hsub
  have hg := h.base.subGeo e _ _ _ (by rw [h.std]; exact f4)
  have hg' := h.base.subGeo e' _ _ _ (by rw [h.std]; exact f4')
  have hcc : c' = c := by
    have : G.geo (G.sub e c s) = G.geo (G.sub e' c' s') := by rw [hsub]
    have d1 := subGeo_dim h (e := e) hs
    have d2 := subGeo_dim h (e := e') hs'
    rw [this] at d1
    omega
  subst hcc
  have hVe : ∀ e k, G.verts e k = (keyVerts (G.elemGeo e) k).map (G.ids e) := fun _ _ => rfl
  -- nodes of the face, seen from both elements
  have hsubset : ∀ {e e' : E} {k k' : Key} {s s' : Nat}, ValidKey G order e k → ValidKey G order e' k' → s < (stdSubs (G.elemGeo e) c').length →
      s' < (stdSubs (G.elemGeo e') c').length → G.sub e c' s = G.sub e' c' s' → G.sub e k.codim k.sub = G.sub e' k'.codim k'.sub →
      (∀ v ∈ keyVerts (G.elemGeo e) k, v ∈ keyVerts (G.elemGeo e) ⟨s, c', 0⟩) → ∀ v ∈ keyVerts (G.elemGeo e') k', v ∈ keyVerts (G.elemGeo e') ⟨s', c', 0⟩ := by
    intro e e' k k' s s' hk hk' hs hs' hF hsub hall v' hv'
    obtain ⟨hkc, u, hu, -⟩ := hk
    obtain ⟨hkc', u', hu', -⟩ := hk'
    have hlt := (List.getElem?_eq_some_iff.1 hu).1
    have hlt' := (List.getElem?_eq_some_iff.1 hu').1
    have b' := (keyVerts_table (h.type e') (by rw [hdim]; exact hkc') hlt').2.1
    have bF' := (keyVerts_table (h.type e') (k := ⟨s', c', 0⟩) (by rw [hdim]; exact hc) hs').2.1
    have hVk := h.vertsSame e k e' k' (by rw [h.std]; exact hlt) (by rw [h.std]; exact hlt') hsub
    have hVF := h.vertsSame e ⟨s, c', 0⟩ e' ⟨s', c', 0⟩ (by rw [h.std]; exact hs) (by rw [h.std]; exact hs') hF
    have h1 := (hVk (G.ids e' v')).2 (by rw [hVe]; exact List.mem_map_of_mem hv')
    rw [hVe, List.mem_map] at h1
    obtain ⟨z, hz, hzz⟩ := h1
    have h2 := (hVF (G.ids e z)).1 (by rw [hVe]; exact List.mem_map_of_mem (hall z hz))
    rw [hVe, List.mem_map] at h2
    obtain ⟨y, hy, hyy⟩ := h2
    rw [← h.idsInj e' y v' (bF' y hy) (b' v' hv') (by rw [hyy, hzz])]
    exact hy
  have hlocal : ∀ {e k}, ValidKey G order e k → ValidLocal order (G.elemGeo e) k := by
    rintro e k ⟨h1, u, h2, h3⟩
    exact ⟨by rw [hdim]; exact h1, u, h2, by rw [hdim]; exact h3⟩
  have trace := fun {k} (hk : ValidKey G order e k) => tr e k (hlocal hk) c' s _ hc1 (by rw [hdim]; exact hc) f5 x hx
  have trace' := fun {k} (hk : ValidKey G order e' k) => tr e' k (hlocal hk) c' s' _ hc1 (by rw [hdim]; exact hc) f5' x' hx'
  refine C69_matching h h17 hk values shape hv vec ?_ ?_ ?_
  · intro k k' hk hk' hsn
    by_cases hall : ∀ v ∈ keyVerts (G.elemGeo e) k, v ∈ keyVerts (G.elemGeo e) ⟨s, c', 0⟩
    · have hall' := hsubset hk hk' hs hs' hsub hsn.1 hall
      rw [(trace hk).1 hall, (trace' hk').1 hall']
      have hc0 : k.codim ≠ 0 := by
        intro h0
        obtain ⟨v, hv, hvF⟩ := face_proper _ (h.type e) c' (by rw [hdim]; exact hc) hc1 _ (List.mem_of_getElem? f5)
        obtain ⟨-, u, hu, -⟩ := hk
        rw [h0] at hu
        have h00 : k.sub = 0 := by
          have := (List.getElem?_eq_some_iff.1 hu).1
          simp [stdSubs, subVerts] at this
          exact this
        refine hvF (hall v ?_)
        simp only [keyVerts, h0, h00, subVerts, if_true]
        simp [(refOf_table _ (h.type e)).2.1, hv]
      have key := faceValue_congr order
        ((keyVerts (G.elemGeo e) ⟨s, c', 0⟩).map fun v => (G.ids e v, weight order (G.elemGeo e) k v, bw (G.elemGeo e) v x))
        ((keyVerts (G.elemGeo e') ⟨s', c', 0⟩).map fun v => (G.ids e' v, weight order (G.elemGeo e') k' v, bw (G.elemGeo e') v x')) ?_ ?_ ?_ ?_
      · simpa only [List.map_map, Function.comp_def] using key
      · simp only [List.map_map, Function.comp_def]
        exact List.Nodup.map_on (fun a ha b hb hab => h.idsInj e a b (f2 a ha) (f2 b hb) hab) f1
      · simp only [List.map_map, Function.comp_def]
        exact List.Nodup.map_on (fun a ha b hb hab => h.idsInj e' a b (f2' a ha) (f2' b hb) hab) f1'
      · intro p
        simp only [List.mem_map]
        constructor
        · rintro ⟨v, hvF, rfl⟩
          have := (hV (G.ids e v)).1 (by rw [hVe]; exact List.mem_map_of_mem hvF)
          rw [hVe, List.mem_map] at this
          obtain ⟨v', hv', hid⟩ := this
          exact ⟨v', hv', by rw [weight_same h hk hk' hsn hc0 (f2 v hvF) (f2' v' hv') hid.symm, hxx v (f2 v hvF) v' (f2' v' hv') hid.symm, hid]⟩
        · rintro ⟨v', hvF, rfl⟩
          have := (hV (G.ids e' v')).2 (by rw [hVe]; exact List.mem_map_of_mem hvF)
          rw [hVe, List.mem_map] at this
          obtain ⟨v, hv, hid⟩ := this
          exact ⟨v, hv, by rw [weight_same h hk hk' hsn hc0 (f2 v hv) (f2' v' hvF) hid, hxx v (f2 v hv) v' (f2' v' hvF) hid, hid]⟩
      · intro h4 a b
        have h24 : G.geo (G.sub e c' s) = ⟨2, 4⟩ := by
          have := (stdSubs_lower _ (h.type e) c' (by rw [hdim]; exact hc) (by omega) s hs)
          obtain ⟨u, v, u1, -, -, -, -, u6⟩ := this
          rw [f4, Option.some.injEq] at u1
          rw [hg]
          rw [List.length_map, f3] at h4
          rw [← u1] at u6
          simp only [List.mem_cons, List.not_mem_nil, or_false] at u6
          rcases u6 with h | h | h | h
          · rw [h] at h4; simp at h4
          · rw [h] at h4; simp at h4
          · rw [h] at h4; simp at h4
          · exact h
        simp only [List.map_map, Function.comp_def]
        exact hD h24 a b
    · have hall' : ¬ ∀ v ∈ keyVerts (G.elemGeo e') k', v ∈ keyVerts (G.elemGeo e') ⟨s', c', 0⟩ :=
        fun hh => hall (hsubset hk' hk hs' hs hsub.symm hsn.1.symm hh)
      push Not at hall hall'
      rw [(trace hk).2 hall, (trace' hk').2 hall']
  · intro k hk hno
    refine (trace hk).2 ?_
    by_contra hall
    push Not at hall
    obtain ⟨s2, hs2, h2⟩ := closed e e' c' s c' s' hs hs' hsub k.codim k.sub (by obtain ⟨-, u, hu, -⟩ := hk; exact (List.getElem?_eq_some_iff.1 hu).1) hall
    obtain ⟨k', hk', hsn⟩ := node_exists h order h17 hk hs2 h2
    exact hno k' hk' hsn
  · intro k' hk' hno
    refine (trace' hk').2 ?_
    by_contra hall
    push Not at hall
    obtain ⟨s2, hs2, h2⟩ := closed e' e c' s' c' s hs' hs hsub.symm k'.codim k'.sub (by obtain ⟨-, u, hu, -⟩ := hk'; exact (List.getElem?_eq_some_iff.1 hu).1) hall
    obtain ⟨k, hk, hsn⟩ := node_exists h order h17 hk' hs2 h2
    exact hno k hk ((SameNode.symm h order h17 hk hk').2 hsn)

end Verif.Lagrange.Continuity

import Verif.Lagrange.Reproduction
import Verif.FE.Numbering
import Verif.FE.Interpolation

/-!
# Functions of hierarchical Lagrange bases

The shape functions of hierarchicallagrangebasis.hh and hierarchicallagrangewithelementbubblebasis.hh belong to entities: the function of an entity with the vertices `A` is
`|A|^|A| ∏ λ_v`, that is `λ_v` for vertices, `4 λ_a λ_b` for edges, and the bubble for the element. The functions of these bases are continuous, and they are exactly the continuous
functions that are on every element a polynomial of degree 1 or 2 (plus a multiple of the bubble).
-/

namespace Verif.Lagrange.Hierarchical

open Mapper
open Verif.Lagrange.Continuity
open Verif.Piola (Vec)
open Verif.HDiv.Tangential (bary sum_match)
open Verif.FE (Matches simplex)
open MvPolynomial (eval)

variable {E S α K : Type} [LinearOrder α] [Field K] {n : Nat}

/-! ## Model -/

/-- discreteglobalbasisfunction.hh:345-363 with a scalar basis whose indices are those of `LeafPreBasisMapperMixin`: linear combination of the values of the shape functions. -/
def value {X : Type} (G : GridView E S) (lay : Layout) (keys : List Key) (values : X → List K) (vec : Nat → K) (e : E) (x : X) : K :=
  ((((mapperLeaf G lay fun _ => keys).loc e).map vec).zip (values x)).foldl (fun y cv => y + cv.1 * cv.2) 0

/-- Function of the bubbles of entities. -/
def entityValue (l : List K) : K := (l.length : K) ^ l.length * l.prod

/-- Shape functions of `HierarchicalP2LocalFiniteElement`, `HierarchicalP1WithElementBubbleLocalFiniteElement` and `HierarchicalP2WithElementBubbleLocalFiniteElement`
(dune-localfunctions). The key of a function is that of its entity. -/
def shape (t : Geo) (k : Key) (x : Vec K n) : K := entityValue ((keyVerts t k).map fun v => bary v x)

/-- Layouts of the bases, hierarchicallagrangebasis.hh:53, 70 and hierarchicallagrangewithelementbubblebasis.hh:51, 68. -/
def layout (bubble : Bool) (k dim : Nat) : Layout := if bubble then bubbleLayout k dim else hierarchicalLayout k dim

/-- Functions of the basis with the given local keys. -/
def hierValue (G : GridView E S) (bubble : Bool) (k : Nat) (keys : List Key) (vec : Nat → K) (e : E) (x : Vec K n) : K :=
  value G (layout bubble k G.dim) keys (fun x => keys.map fun key => shape (simplex G.dim) key x) vec e x

/-! ## Specification -/

/-- The bubble of the element. -/
def elementBubble (x : Vec K n) : K := ((n + 1 : Nat) : K) ^ (n + 1) * ∏ v ∈ Finset.range (n + 1), bary v x

/-- Polynomials of degree `k`, with `bubble` plus a multiple of the bubble. -/
def HierSpace (bubble : Bool) (k : Nat) (t : Geo) (f : Vec K n → K) : Prop :=
  ∃ (p : Vec K n → K) (c : K), PolyOn k t p ∧ (bubble = false → c = 0) ∧ ∀ x, f x = p x + c * elementBubble x

/-- Contract of shape functions that belong to entities: on a face, those of its entities are given by the barycentric coordinates of the vertices of the entity, the others vanish. -/
def EntityTraces (t : Geo) (keys : List Key) (shape : Key → Vec K n → K) (τ : List K → K) (inside : Vec K n → Prop) : Prop :=
  ∀ k ∈ keys, ∀ (c s : Nat) (F : List Nat), 1 ≤ c → c ≤ t.dim → (subVerts (refOf t) c)[s]? = some F → ∀ x, inside x → (∀ v < t.nv, v ∉ F → bary v x = 0) →
    ((∀ v ∈ keyVerts t k, v ∈ F) → shape k x = τ ((keyVerts t k).map fun v => bary v x)) ∧ ((∃ v ∈ keyVerts t k, v ∉ F) → shape k x = 0)

/-! ## Continuity -/

omit [LinearOrder α] in
theorem simplex_types {G : LGrid E S α} (h : G.OK) (e : E) (he : G.elemGeo e = simplex G.dim) :
    simplex G.dim ∈ ([⟨1, 2⟩, ⟨2, 3⟩, ⟨3, 4⟩] : List Geo) ∧ 1 ≤ G.dim ∧ G.dim ≤ 3 := by
  have h1 := refOf_table _ (h.type e)
  rw [he] at h1
  have h2 : 1 ≤ G.dim ∧ G.dim ≤ 3 := ⟨h1.2.2.1, h1.2.2.2.1⟩
  obtain ⟨h3, h4⟩ := h2
  refine ⟨?_, h3, h4⟩
  interval_cases G.dim <;> decide

omit [LinearOrder α] in
theorem keysOK {G : LGrid E S α} (h : G.OK) (helem : ∀ e, G.elemGeo e = simplex G.dim) {lay : Layout} {keys : List Key} (hm : Matches G.dim lay keys) :
    KeysOK G.toGridView lay fun _ => keys where
  nodup _ := hm.1
  ok e k hk := by
    rw [h.std, helem]
    exact hm.2.1 k hk

omit [LinearOrder α] in
theorem keysFull {G : LGrid E S α} (h : G.OK) (helem : ∀ e, G.elemGeo e = simplex G.dim) {lay : Layout} {keys : List Key} (hm : Matches G.dim lay keys) :
    KeysFull G.toGridView lay fun _ => keys := by
  intro e c i t j hc hi hj
  rw [h.std, helem] at hi
  have hlt := (List.getElem?_eq_some_iff.mp hi).1
  refine hm.2.2 c (by omega) i hlt j ?_
  rw [List.getD_eq_getElem?_getD, hi]
  exact hj

theorem value_sum {X : Type} (G : GridView E S) (lay : Layout) (keys : List Key) (shape : Key → X → K) (vec : Nat → K) (e : E) (x : X) :
    value G lay keys (fun x => keys.map fun k => shape k x) vec e x =
      ∑ l : Fin keys.length, vec (mapperIndex G lay (G.sub e keys[l].codim keys[l].sub) + keys[l].index) * shape keys[l] x := by
  have hfold : ∀ (L : List (K × K)) (y : K), L.foldl (fun y cv => y + cv.1 * cv.2) y = y + (L.map fun cv => cv.1 * cv.2).sum := by
    intro L
    induction L with
    | nil => simp
    | cons a L ih => intro y; rw [List.foldl_cons, ih, List.map_cons, List.sum_cons, add_assoc]
  rw [value, hfold, zero_add, Fin.sum_univ_def]
  congr 1
  apply List.ext_getElem
  · simp [mapperLeaf]
  · intro l h1 h2
    simp [mapperLeaf]

omit [LinearOrder α] in
/-- A common entity has the same vertices on both sides. -/
theorem verts_perm {G : LGrid E S α} (h : G.OK) {e e' : E} {k k' : Key} (hc : k.codim ≤ G.dim) (hc' : k'.codim ≤ G.dim)
    (hs : k.sub < (stdSubs (G.elemGeo e) k.codim).length) (hs' : k'.sub < (stdSubs (G.elemGeo e') k'.codim).length)
    (hsub : G.sub e k.codim k.sub = G.sub e' k'.codim k'.sub) : ((keyVerts (G.elemGeo e) k).map (G.ids e)).Perm ((keyVerts (G.elemGeo e') k').map (G.ids e')) := by
  have hdim : ∀ e, (G.elemGeo e).dim = G.dim := fun e => (h.base.elemMem e).2
  obtain ⟨f1, f2, -, -, -⟩ := keyVerts_table (h.type e) (k := k) (by rw [hdim]; exact hc) hs
  obtain ⟨f1', f2', -, -, -⟩ := keyVerts_table (h.type e') (k := k') (by rw [hdim]; exact hc') hs'
  rw [List.perm_ext_iff_of_nodup (List.Nodup.map_on (fun a ha b hb hab => h.idsInj e a b (f2 a ha) (f2 b hb) hab) f1)
    (List.Nodup.map_on (fun a ha b hb hab => h.idsInj e' a b (f2' a ha) (f2' b hb) hab) f1')]
  exact h.vertsSame e k e' k' (by rw [h.std]; exact hs) (by rw [h.std]; exact hs') hsub

omit [LinearOrder α] [Field K] in
/-- Values at the vertices of a common entity. -/
theorem values_perm {G : LGrid E S α} (h : G.OK) {e e' : E} {k k' : Key} (hc : k.codim ≤ G.dim) (hc' : k'.codim ≤ G.dim)
    (hs : k.sub < (stdSubs (G.elemGeo e) k.codim).length) (hs' : k'.sub < (stdSubs (G.elemGeo e') k'.codim).length)
    (hsub : G.sub e k.codim k.sub = G.sub e' k'.codim k'.sub) (g g' : Nat → K)
    (hg : ∀ v ∈ keyVerts (G.elemGeo e) k, ∀ v' ∈ keyVerts (G.elemGeo e') k', G.ids e v = G.ids e' v' → g v = g' v') :
    ((keyVerts (G.elemGeo e) k).map g).Perm ((keyVerts (G.elemGeo e') k').map g') := by
  have hdim : ∀ e, (G.elemGeo e).dim = G.dim := fun e => (h.base.elemMem e).2
  obtain ⟨f1, f2, -, -, -⟩ := keyVerts_table (h.type e) (k := k) (by rw [hdim]; exact hc) hs
  obtain ⟨f1', f2', -, -, -⟩ := keyVerts_table (h.type e') (k := k') (by rw [hdim]; exact hc') hs'
  have hp : ((keyVerts (G.elemGeo e) k).map fun v => (G.ids e v, g v)).Perm ((keyVerts (G.elemGeo e') k').map fun v => (G.ids e' v, g' v)) := by
    have hn : ((keyVerts (G.elemGeo e) k).map fun v => (G.ids e v, g v)).Nodup :=
      List.Nodup.map_on (fun a ha b hb hab => h.idsInj e a b (f2 a ha) (f2 b hb) (Prod.mk.inj hab).1) f1
    have hn' : ((keyVerts (G.elemGeo e') k').map fun v => (G.ids e' v, g' v)).Nodup :=
      List.Nodup.map_on (fun a ha b hb hab => h.idsInj e' a b (f2' a ha) (f2' b hb) (Prod.mk.inj hab).1) f1'
    have hperm := verts_perm h hc hc' hs hs' hsub
    rw [List.perm_ext_iff_of_nodup hn hn']
    intro p
    simp only [List.mem_map]
    constructor
    · rintro ⟨v, hv, rfl⟩
      obtain ⟨v', hv', hid⟩ := List.mem_map.1 (hperm.mem_iff.1 (List.mem_map_of_mem hv))
      exact ⟨v', hv', by rw [hid, hg v hv v' hv' hid.symm]⟩
    · rintro ⟨v', hv', rfl⟩
      obtain ⟨v, hv, hid⟩ := List.mem_map.1 (hperm.mem_iff.2 (List.mem_map_of_mem hv'))
      exact ⟨v, hv, by rw [hid, hg v hv v' hv' hid]⟩
  have := hp.map Prod.snd
  simpa [List.map_map, Function.comp_def] using this

omit [LinearOrder α] in
/-- Degrees of freedom of a common face belong to both elements. -/
theorem key_match {G : LGrid E S α} (h : G.OK) (closed : Closed G) (helem : ∀ e, G.elemGeo e = simplex G.dim) {lay : Layout} {keys : List Key} (hm : Matches G.dim lay keys)
    {e e' : E} {c s s' : Nat} (hs : s < (stdSubs (G.elemGeo e) c).length) (hs' : s' < (stdSubs (G.elemGeo e') c).length) (hsub : G.sub e c s = G.sub e' c s')
    {k : Key} (m : k ∈ keys) (hall : ∀ v ∈ keyVerts (simplex G.dim) k, v ∈ keyVerts (G.elemGeo e) ⟨s, c, 0⟩) :
    ∃ l' : Fin keys.length, G.sub e k.codim k.sub = G.sub e' keys[l'].codim keys[l'].sub := by
  obtain ⟨v1, t, v2, v3⟩ := hm.2.1 _ m
  obtain ⟨s2, hs2, h2⟩ := closed e e' c s c s' hs hs' hsub k.codim k.sub (by rw [helem]; exact (List.getElem?_eq_some_iff.1 v2).1) (by rw [← helem e] at hall; exact hall)
  rw [helem] at hs2
  have g := h.base.subGeo e k.codim k.sub t (by rw [h.std, helem]; exact v2)
  have g' := h.base.subGeo e' k.codim s2 _ (by rw [h.std, helem]; exact List.getElem?_eq_getElem hs2)
  obtain ⟨l', hl', hk'⟩ := List.mem_iff_getElem.1 (hm.2.2 _ (by omega) s2 hs2 k.index (by
    rw [List.getD_eq_getElem?_getD, List.getElem?_eq_getElem hs2, Option.getD_some, ← g', ← h2, g]
    exact v3))
  refine ⟨⟨l', hl'⟩, ?_⟩
  show G.sub e k.codim k.sub = G.sub e' keys[l'].codim keys[l'].sub
  rw [hk', h2]

omit [LinearOrder α] in
/-- Functions of bases with one degree of freedom per entity are continuous. -/
theorem entity_continuous {G : LGrid E S α} (h : G.OK) (closed : Closed G) (hn : G.dim = n) (helem : ∀ e, G.elemGeo e = simplex G.dim) {lay : Layout} {keys : List Key}
    (hm : Matches G.dim lay keys) (hone : ∀ k ∈ keys, k.index = 0) {shape : Key → Vec K n → K} {τ : List K → K} {inside : Vec K n → Prop}
    (tr : EntityTraces (simplex G.dim) keys shape τ inside) (hτ : ∀ l l' : List K, l.Perm l' → τ l = τ l') (vec : Nat → K) {e e' : E} {x x' : Vec K n}
    (hin : inside x) (hin' : inside x') (hmeet : Meets G e x e' x') :
    value G.toGridView lay keys (fun x => keys.map fun k => shape k x) vec e x = value G.toGridView lay keys (fun x => keys.map fun k => shape k x) vec e' x' := by
  have hdim : ∀ e, (G.elemGeo e).dim = G.dim := fun e => (h.base.elemMem e).2
  have hbw : ∀ e, vertexWeight (K := K) (n := n) (G.elemGeo e) = bary := fun e => vertexWeight_simplex (by rw [helem]; exact (simplex_types h e (helem e)).1)
  obtain ⟨c, s, c', s', hc1, hc, hc', hs, hs', hsub, hx, hx', hxx⟩ := hmeet
  rw [hbw] at hx hx'
  simp only [hbw] at hxx
  have hcc : c' = c := by
    have d1 := subGeo_dim h (e := e) hs
    have d2 := subGeo_dim h (e := e') hs'
    rw [hsub] at d1
    omega
  subst hcc
  obtain ⟨f1, f2, -, -, f5⟩ := keyVerts_table (h.type e) (k := ⟨s, c', 0⟩) (by rw [hdim]; exact hc) hs
  obtain ⟨f1', f2', -, -, f5'⟩ := keyVerts_table (h.type e') (k := ⟨s', c', 0⟩) (by rw [hdim]; exact hc') hs'
  have valid : ∀ k ∈ keys, ∀ e, k.codim ≤ G.dim ∧ k.sub < (stdSubs (G.elemGeo e) k.codim).length := by
    intro k hk e
    obtain ⟨h1, t, h2, -⟩ := hm.2.1 k hk
    rw [helem]
    exact ⟨h1, (List.getElem?_eq_some_iff.1 h2).1⟩
  have trace : ∀ k ∈ keys, _ := fun k hk => tr k hk c' s _ hc1 hc (by rw [← helem e]; exact f5) x hin (by rw [← helem e]; exact hx)
  have trace' : ∀ k ∈ keys, _ := fun k hk => tr k hk c' s' _ hc1 hc (by rw [← helem e']; exact f5') x' hin' (by rw [← helem e']; exact hx')
  -- entities of the face, seen from both sides
  have hsubset : ∀ {e e' : E} {k k' : Key} {s s' : Nat}, k ∈ keys → k' ∈ keys → s < (stdSubs (G.elemGeo e) c').length →
      s' < (stdSubs (G.elemGeo e') c').length → G.sub e c' s = G.sub e' c' s' → G.sub e k.codim k.sub = G.sub e' k'.codim k'.sub →
      (∀ v ∈ keyVerts (G.elemGeo e) k, v ∈ keyVerts (G.elemGeo e) ⟨s, c', 0⟩) → ∀ v ∈ keyVerts (G.elemGeo e') k', v ∈ keyVerts (G.elemGeo e') ⟨s', c', 0⟩ := by
    intro e e' k k' s s' hk hk' hs hs' hF hsub hall v' hv'
    have p1 := verts_perm h (valid k hk e).1 (valid k' hk' e').1 (valid k hk e).2 (valid k' hk' e').2 hsub
    have p2 := verts_perm h (k := ⟨s, c', 0⟩) (k' := ⟨s', c', 0⟩) hc hc hs hs' hF
    obtain ⟨z, hz, hzz⟩ := List.mem_map.1 (p1.mem_iff.2 (List.mem_map_of_mem hv'))
    obtain ⟨y, hy, hyy⟩ := List.mem_map.1 (p2.mem_iff.1 (List.mem_map_of_mem (hall z hz)))
    have b' := (keyVerts_table (h.type e') (k := k') (by rw [hdim]; exact (valid k' hk' e').1) (valid k' hk' e').2).2.1
    have bF' := (keyVerts_table (h.type e') (k := ⟨s', c', 0⟩) (by rw [hdim]; exact hc) hs').2.1
    rw [← h.idsInj e' y v' (bF' y hy) (b' v' hv') (by rw [hyy, hzz])]
    exact hy
  have inj : ∀ e, Function.Injective fun l : Fin keys.length => G.sub e keys[l].codim keys[l].sub := by
    intro e l l' hl
    have m : keys[l] ∈ keys := List.getElem_mem l.2
    have m' : keys[l'] ∈ keys := List.getElem_mem l'.2
    obtain ⟨g1, g2⟩ := h.base.subInj e _ _ _ _ (by rw [h.std]; exact (valid _ m e).2) (by rw [h.std]; exact (valid _ m' e).2) hl
    have g3 : keys[l].index = keys[l'].index := by rw [hone _ m, hone _ m']
    have : keys[l] = keys[l'] := by
      generalize keys[l] = a at *
      generalize keys[l'] = b at *
      cases a; cases b; simp_all
    exact Fin.ext ((hm.1.getElem_inj_iff).1 this)
  rw [value_sum, value_sum]
  refine sum_match (fun l : Fin keys.length => G.sub e keys[l].codim keys[l].sub) (fun l : Fin keys.length => G.sub e' keys[l].codim keys[l].sub) (inj e) (inj e') _ _ ?_ ?_ ?_
  · intro l l' hl
    have m : keys[l] ∈ keys := List.getElem_mem l.2
    have m' : keys[l'] ∈ keys := List.getElem_mem l'.2
    have hl : G.sub e keys[l].codim keys[l].sub = G.sub e' keys[l'].codim keys[l'].sub := hl
    rw [hl, hone _ m, hone _ m']
    congr 1
    by_cases hall : ∀ v ∈ keyVerts (G.elemGeo e) keys[l], v ∈ keyVerts (G.elemGeo e) ⟨s, c', 0⟩
    · have hall' := hsubset m m' hs hs' hsub hl hall
      rw [(trace _ m).1 (by rw [← helem e]; exact hall), (trace' _ m').1 (by rw [← helem e']; exact hall')]
      refine hτ _ _ ?_
      have := values_perm h (valid _ m e).1 (valid _ m' e').1 (valid _ m e).2 (valid _ m' e').2 hl (fun v => bary v x) (fun v => bary v x') (by
        intro v hv v' hv' hid
        exact hxx v (f2 v (hall v hv)) v' (f2' v' (hall' v' hv')) hid)
      rwa [helem e, helem e'] at this
    · have hall' : ¬ ∀ v ∈ keyVerts (G.elemGeo e') keys[l'], v ∈ keyVerts (G.elemGeo e') ⟨s', c', 0⟩ :=
        fun hh => hall (hsubset m' m hs' hs hsub.symm hl.symm hh)
      push Not at hall hall'
      rw [(trace _ m).2 (by rw [← helem e]; exact hall), (trace' _ m').2 (by rw [← helem e']; exact hall')]
  · intro l hl
    have m : keys[l] ∈ keys := List.getElem_mem l.2
    rw [(trace _ m).2 ?_, mul_zero]
    by_contra hall
    push Not at hall
    obtain ⟨l', hl'⟩ := key_match h closed helem hm hs hs' hsub m hall
    exact hl l' hl'
  · intro l hl
    have m : keys[l] ∈ keys := List.getElem_mem l.2
    rw [(trace' _ m).2 ?_, mul_zero]
    by_contra hall
    push Not at hall
    obtain ⟨l', hl'⟩ := key_match h closed helem hm hs' hs hsub.symm m hall
    exact hl l' hl'.symm

theorem entityValue_perm (l l' : List K) (h : l.Perm l') : entityValue l = entityValue l' := by
  rw [entityValue, entityValue, h.length_eq, h.prod_eq]

theorem shape_traces (t : Geo) (keys : List Key) (hv : ∀ k ∈ keys, ∀ v ∈ keyVerts t k, v < t.nv) :
    EntityTraces (n := n) t keys (shape (K := K) t) entityValue fun _ => True := by
  intro k hk c s F _ _ _ x _ hx
  refine ⟨fun _ => rfl, ?_⟩
  rintro ⟨v, hvk, hvF⟩
  rw [shape, entityValue, List.prod_eq_zero, mul_zero]
  rw [List.mem_map]
  exact ⟨v, hvk, hx v (hv k hk v hvk) hvF⟩

theorem layout_le (bubble : Bool) (k dim : Nat) (t : Geo) : layout bubble k dim t ≤ 1 := by
  unfold layout bubbleLayout hierarchicalLayout
  cases bubble <;> simp only [Bool.false_eq_true, if_false, if_true] <;> split <;> split <;> omega

theorem keys_index {dim : Nat} {bubble : Bool} {k : Nat} {keys : List Key} (hm : Matches dim (layout bubble k dim) keys) : ∀ key ∈ keys, key.index = 0 := by
  intro key hkey
  obtain ⟨-, t, -, h⟩ := hm.2.1 key hkey
  have := layout_le bubble k dim t
  omega

omit [LinearOrder α] in
/-- **C93.** The functions of hierarchical Lagrange bases of order 1 and 2, with and without element bubble, are continuous. -/
theorem C93_continuous {G : LGrid E S α} (h : G.OK) (closed : Closed G) (hn : G.dim = n) (helem : ∀ e, G.elemGeo e = simplex G.dim) (bubble : Bool) (k : Nat) {keys : List Key}
    (hm : Matches G.dim (layout bubble k G.dim) keys) (vec : Nat → K) : Continuous G (n := n) (hierValue G.toGridView bubble k keys vec) := by
  intro e x e' x' hmeet
  refine entity_continuous h closed hn helem hm (keys_index hm) (shape_traces _ keys ?_) entityValue_perm vec trivial trivial hmeet
  intro key hkey
  obtain ⟨h1, t, h2, -⟩ := hm.2.1 key hkey
  have := h.type e
  rw [helem] at this
  exact (keyVerts_table this h1 (List.getElem?_eq_some_iff.1 h2).1).2.1


/-! ## Functionals -/

/-- The barycentre of the entity of a key. -/
def center (K : Type) [Field K] (n : Nat) (t : Geo) (k : Key) : Vec K n := fun j => if j.val + 1 ∈ keyVerts t k then ((keyVerts t k).length : K)⁻¹ else 0

/-- The key of a vertex. -/
def vertexKey (n v : Nat) : Key := ⟨v, n, 0⟩

/-- Functionals of vertices and edges: the value in the vertex, and the value in the midpoint minus the mean of the values in the vertices of the edge. -/
def lowFunctional (t : Geo) (k : Key) (f : Vec K n → K) : K :=
  f (center K n t k) - if (keyVerts t k).length = 2 then ((keyVerts t k).map fun v => f (center K n t (vertexKey n v))).sum / 2 else 0

def Simplex (n : Nat) : Prop := simplex n ∈ ([⟨1, 2⟩, ⟨2, 3⟩, ⟨3, 4⟩] : List Geo)

/-- A sub-entity. -/
def SubKey (n : Nat) (k : Key) : Prop := k.codim ≤ n ∧ k.sub < (stdSubs (simplex n) k.codim).length

theorem Simplex.cases (h : Simplex n) : n = 1 ∨ n = 2 ∨ n = 3 := by
  simp only [Simplex, simplex, List.mem_cons, Geo.mk.injEq, List.not_mem_nil, or_false] at h
  omega

theorem Simplex.elem (h : Simplex n) : simplex n ∈ elemTypes := by
  rcases h.cases with rfl | rfl | rfl <;> decide

theorem Simplex.supported (h : Simplex n) : Supported n (simplex n) := by
  rcases h.cases with rfl | rfl | rfl <;> decide

theorem subKey_table (h : Simplex n) {k : Key} (hk : SubKey n k) : (keyVerts (simplex n) k).Nodup ∧ (∀ v ∈ keyVerts (simplex n) k, v < n + 1) ∧
    (keyVerts (simplex n) k).length = n - k.codim + 1 := by
  obtain ⟨h1, h2, h3, -, -⟩ := keyVerts_table h.elem hk.1 hk.2
  refine ⟨h1, h2, ?_⟩
  have key : ∀ n, n = 1 ∨ n = 2 ∨ n = 3 → ∀ c ≤ n, ∀ i < (stdSubs (simplex n) c).length, ((subVerts (refOf (simplex n)) c).getD i []).length = n - c + 1 := by
    rintro n (rfl | rfl | rfl) <;> decide +kernel
  exact key n h.cases _ hk.1 _ hk.2

theorem vertexKey_sub (h : Simplex n) {v : Nat} (hv : v < n + 1) : SubKey n (vertexKey n v) ∧ keyVerts (simplex n) (vertexKey n v) = [v] := by
  have key : ∀ n, n = 1 ∨ n = 2 ∨ n = 3 → ∀ v < n + 1, v < (stdSubs (simplex n) n).length ∧ (subVerts (refOf (simplex n)) n).getD v [] = [v] := by
    rintro n (rfl | rfl | rfl) <;> decide +kernel
  obtain ⟨h1, h2⟩ := key n h.cases v hv
  exact ⟨⟨le_refl _, h1⟩, h2⟩

/-- Barycentric coordinates of barycentres. -/
theorem bary_center [CharZero K] (h : Simplex n) {k : Key} (hk : SubKey n k) {v : Nat} (hv : v < n + 1) :
    bary v (center K n (simplex n) k) = if v ∈ keyVerts (simplex n) k then ((keyVerts (simplex n) k).length : K)⁻¹ else 0 := by
  obtain ⟨hnd, hlt, hlen⟩ := subKey_table h hk
  unfold center
  generalize keyVerts (simplex n) k = A at *
  have hsum : ∑ v ∈ Finset.range (n + 1), (if v ∈ A then (A.length : K)⁻¹ else 0) = 1 := by
    rw [sum_face (n + 1) A hnd hlt _ (fun v _ hvA => if_neg hvA), List.map_congr_left (g := fun _ => (A.length : K)⁻¹) (fun v hv => if_pos hv), List.map_const', List.sum_replicate,
      nsmul_eq_mul, mul_inv_cancel₀]
    exact_mod_cast (by omega : A.length ≠ 0)
  cases v with
  | zero =>
    rw [Finset.sum_range_succ', ← Fin.sum_univ_eq_sum_range (fun j => if j + 1 ∈ A then (A.length : K)⁻¹ else 0)] at hsum
    rw [bary, if_pos rfl]
    linear_combination -hsum
  | succ v =>
    rw [bary, if_neg (by omega), Finset.sum_eq_single (⟨v, by omega⟩ : Fin n)]
    · simp
    · intro j _ hj
      rw [if_neg]
      intro h
      exact hj (Fin.ext (by simpa using h))
    · simp

/-- Values of the shape functions in barycentres. -/
theorem shape_center [CharZero K] (h : Simplex n) {k k' : Key} (hk : SubKey n k) (hk' : SubKey n k') :
    shape (simplex n) k' (center K n (simplex n) k) = if ∀ v ∈ keyVerts (simplex n) k', v ∈ keyVerts (simplex n) k then
      (((keyVerts (simplex n) k').length : K) / (keyVerts (simplex n) k).length) ^ (keyVerts (simplex n) k').length else 0 := by
  have hb : (keyVerts (simplex n) k').map (fun v => bary v (center K n (simplex n) k)) =
      (keyVerts (simplex n) k').map fun v => if v ∈ keyVerts (simplex n) k then ((keyVerts (simplex n) k).length : K)⁻¹ else 0 :=
    List.map_congr_left fun v hv => bary_center h hk ((subKey_table h hk').2.1 v hv)
  rw [shape, entityValue, hb, List.length_map]
  split
  · rename_i hall
    rw [List.map_congr_left (g := fun _ => ((keyVerts (simplex n) k).length : K)⁻¹) (fun v hv => if_pos (hall v hv)), List.map_const', List.prod_replicate, ← mul_pow, div_eq_mul_inv]
  · rename_i hall
    push Not at hall
    obtain ⟨v, hv, hvk⟩ := hall
    rw [List.prod_eq_zero, mul_zero]
    rw [List.mem_map]
    exact ⟨v, hv, if_neg hvk⟩

/-- Different sub-entities have different vertices. -/
theorem subKey_inj (h : Simplex n) {k k' : Key} (hk : SubKey n k) (hk' : SubKey n k') (hv : ∀ v < n + 1, v ∈ keyVerts (simplex n) k ↔ v ∈ keyVerts (simplex n) k') :
    k.codim = k'.codim ∧ k.sub = k'.sub := by
  exact subVerts_inj (simplex n) h.elem _ hk.1 _ hk'.1 _ hk.2 _ hk'.2 hv

/-- A combination of the shape functions. -/
def combination (t : Geo) (keys : List Key) (c : Key → K) (x : Vec K n) : K := (keys.map fun k => c k * shape t k x).sum

/-- In a vertex, a combination has the value of the coefficient of the vertex. -/
theorem combination_vertex [CharZero K] (h : Simplex n) {keys : List Key} (hnd : keys.Nodup) (hkeys : ∀ k ∈ keys, SubKey n k ∧ k.index = 0) (c : Key → K) {v : Nat} (hv : v < n + 1)
    (hmem : vertexKey n v ∈ keys) : combination (simplex n) keys c (center K n (simplex n) (vertexKey n v)) = c (vertexKey n v) := by
  classical
  obtain ⟨g1, g2⟩ := vertexKey_sub h hv
  rw [combination, ← List.sum_toFinset _ hnd, Finset.sum_eq_single (vertexKey n v)]
  · rw [shape_center h g1 g1, if_pos (fun _ h => h), g2]; simp
  · intro k hk hne
    rw [List.mem_toFinset] at hk
    rw [shape_center h g1 (hkeys k hk).1, if_neg, mul_zero]
    intro hall
    rw [g2] at hall
    obtain ⟨a1, a2, a3⟩ := subKey_table h (hkeys k hk).1
    obtain ⟨b1, b2⟩ := subKey_inj h (hkeys k hk).1 g1 (fun w hw => by
      rw [g2]
      refine ⟨hall w, fun hw' => ?_⟩
      rw [List.mem_singleton] at hw'
      obtain ⟨z, hz⟩ := List.exists_mem_of_length_pos (l := keyVerts (simplex n) k) (by omega)
      have := hall z hz
      rw [List.mem_singleton] at this
      rw [hw', ← this]
      exact hz)
    refine hne ?_
    have b3 := (hkeys k hk).2
    cases k
    simp_all [vertexKey]
  · intro hn
    exact absurd (List.mem_toFinset.2 hmem) hn

/-- In the midpoint of an edge. -/
theorem combination_edge [CharZero K] (h : Simplex n) {keys : List Key} (hnd : keys.Nodup) (hkeys : ∀ k ∈ keys, SubKey n k ∧ k.index = 0) (c : Key → K) {k : Key} {a b : Nat}
    (hmem : k ∈ keys) (hab : keyVerts (simplex n) k = [a, b]) (ha : vertexKey n a ∈ keys) (hb : vertexKey n b ∈ keys) :
    combination (simplex n) keys c (center K n (simplex n) k) = c k + (c (vertexKey n a) + c (vertexKey n b)) / 2 := by
  classical
  have hk := (hkeys k hmem).1
  obtain ⟨t1, t2, -⟩ := subKey_table h hk
  rw [hab] at t1 t2
  obtain ⟨a1, a2⟩ := vertexKey_sub h (t2 a (by simp))
  obtain ⟨b1, b2⟩ := vertexKey_sub h (t2 b (by simp))
  have hne : a ≠ b := by simp at t1; exact t1
  have n1 : vertexKey n a ≠ vertexKey n b := by simpa [vertexKey] using hne
  have n2 : k ≠ vertexKey n a := by rintro rfl; rw [a2] at hab; simp at hab
  have n3 : k ≠ vertexKey n b := by rintro rfl; rw [b2] at hab; simp at hab
  rw [combination, ← List.sum_toFinset _ hnd, ← Finset.sum_subset (s₁ := {k, vertexKey n a, vertexKey n b})]
  · rw [Finset.sum_insert (by simp [n2, n3]), Finset.sum_pair n1, shape_center h hk hk, if_pos (fun _ h => h), shape_center h hk a1, shape_center h hk b1, a2, b2, hab]
    rw [if_pos (by simp), if_pos (by simp)]
    simp only [List.length_cons, List.length_nil]
    norm_num
    ring
  · intro z hz
    simp only [Finset.mem_insert, Finset.mem_singleton] at hz
    rw [List.mem_toFinset]
    rcases hz with rfl | rfl | rfl <;> assumption
  · intro z hz hnz
    rw [List.mem_toFinset] at hz
    simp only [Finset.mem_insert, Finset.mem_singleton, not_or] at hnz
    rw [shape_center h hk (hkeys z hz).1, if_neg, mul_zero]
    intro hall
    have hz1 := (hkeys z hz).1
    have hz0 := (hkeys z hz).2
    obtain ⟨z1, z2, z3⟩ := subKey_table h hz1
    rw [hab] at hall
    have same : ∀ k' : Key, SubKey n k' → k'.index = 0 → (∀ v < n + 1, v ∈ keyVerts (simplex n) z ↔ v ∈ keyVerts (simplex n) k') → z = k' := by
      intro k' hk' h0 hv
      obtain ⟨g1, g2⟩ := subKey_inj h hz1 hk' hv
      cases z; cases k'; simp_all
    by_cases ma : a ∈ keyVerts (simplex n) z <;> by_cases mb : b ∈ keyVerts (simplex n) z
    · refine hnz.1 (same k hk (hkeys k hmem).2 fun v _ => ?_)
      rw [hab]
      refine ⟨hall v, fun hv => ?_⟩
      simp only [List.mem_cons, List.not_mem_nil, or_false] at hv
      rcases hv with rfl | rfl <;> assumption
    · refine hnz.2.1 (same _ a1 rfl fun v _ => ?_)
      rw [a2]
      refine ⟨fun hv => ?_, fun hv => ?_⟩
      · have := hall v hv
        simp only [List.mem_cons, List.not_mem_nil, or_false] at this ⊢
        rcases this with rfl | rfl
        · rfl
        · exact absurd hv mb
      · rw [List.mem_singleton] at hv
        rw [hv]; exact ma
    · refine hnz.2.2 (same _ b1 rfl fun v _ => ?_)
      rw [b2]
      refine ⟨fun hv => ?_, fun hv => ?_⟩
      · have := hall v hv
        simp only [List.mem_cons, List.not_mem_nil, or_false] at this ⊢
        rcases this with rfl | rfl
        · exact absurd hv ma
        · rfl
      · rw [List.mem_singleton] at hv
        rw [hv]; exact mb
    · obtain ⟨w, hw⟩ := List.exists_mem_of_length_pos (l := keyVerts (simplex n) z) (by omega)
      have := hall w hw
      simp only [List.mem_cons, List.not_mem_nil, or_false] at this
      rcases this with rfl | rfl
      · exact ma hw
      · exact mb hw


/-! ## The space on an element -/

/-- Functions of the polynomial part. -/
def low (t : Geo) (k : Nat) (keys : List Key) : List Key := keys.filter fun key => (keyVerts t key).length ≤ k

/-- The functionals of the bases, as evaluated by the interpolations of the local finite elements (dune-localfunctions): that of the bubble is the value in the barycentre minus the
value of the other part. -/
def functional (t : Geo) (k : Nat) (keys : List Key) (key : Key) (f : Vec K n → K) : K :=
  if (keyVerts t key).length ≤ k then lowFunctional t key f
  else f (center K n t key) - combination t (low t k keys) (fun key' => lowFunctional t key' f) (center K n t key)

theorem sub_type (h : Simplex n) {key : Key} {t : Geo} (hc : key.codim ≤ n) (ht : (stdSubs (simplex n) key.codim)[key.sub]? = some t) : t = simplex (n - key.codim) := by
  have tab : ∀ n, n = 1 ∨ n = 2 ∨ n = 3 → ∀ c ≤ n, ∀ i < (stdSubs (simplex n) c).length, (stdSubs (simplex n) c)[i]? = some (simplex (n - c)) := by
    rintro n (rfl | rfl | rfl) <;> decide +kernel
  have := tab n h.cases _ hc _ (List.getElem?_eq_some_iff.1 ht).1
  rw [ht] at this
  exact Option.some.inj this

theorem type_of_sub (h : Simplex n) {key : Key} (hk : SubKey n key) : (stdSubs (simplex n) key.codim)[key.sub]? = some (simplex (n - key.codim)) := by
  obtain ⟨t, ht⟩ : ∃ t, (stdSubs (simplex n) key.codim)[key.sub]? = some t := ⟨_, List.getElem?_eq_getElem hk.2⟩
  rw [ht, sub_type h hk.1 ht]

theorem layout_simplex {bubble : Bool} {k d : Nat} (hk : k = 1 ∨ k = 2) : layout bubble k n (simplex d) = if d + 1 ≤ k ∨ (bubble = true ∧ d = n) then 1 else 0 := by
  rcases hk with rfl | rfl <;> cases bubble <;> simp [layout, hierarchicalLayout, bubbleLayout, simplex] <;> (congr 1; (try simp); try omega)

/-- The keys of the bases. -/
theorem mem_keys (h : Simplex n) {bubble : Bool} {k : Nat} (hk : k = 1 ∨ k = 2) {keys : List Key} (hm : Matches n (layout bubble k n) keys) (key : Key) :
    key ∈ keys ↔ SubKey n key ∧ key.index = 0 ∧ ((keyVerts (simplex n) key).length ≤ k ∨ (bubble = true ∧ key.codim = 0)) := by
  constructor
  · intro hmem
    obtain ⟨h1, t, h2, h3⟩ := hm.2.1 key hmem
    have hs : SubKey n key := ⟨h1, (List.getElem?_eq_some_iff.1 h2).1⟩
    refine ⟨hs, keys_index hm key hmem, ?_⟩
    rw [sub_type h h1 h2, layout_simplex hk] at h3
    rw [(subKey_table h hs).2.2]
    split at h3
    · rename_i hor
      rcases hor with hor | ⟨hor, h0⟩
      · exact Or.inl hor
      · exact Or.inr ⟨hor, by omega⟩
    · omega
  · rintro ⟨h1, h2, h3⟩
    have hd := type_of_sub h h1
    have := hm.2.2 key.codim (Nat.lt_succ_of_le h1.1) key.sub h1.2 key.index (by
      rw [List.getD_eq_getElem?_getD, hd, Option.getD_some, layout_simplex hk, if_pos]
      · omega
      · rw [(subKey_table h h1).2.2] at h3
        rcases h3 with h3 | ⟨h3, h4⟩
        · exact Or.inl h3
        · exact Or.inr ⟨h3, by omega⟩)
    exact this

theorem keys_sub (h : Simplex n) {bubble : Bool} {k : Nat} (hk : k = 1 ∨ k = 2) {keys : List Key} (hm : Matches n (layout bubble k n) keys) : ∀ key ∈ keys, SubKey n key ∧ key.index = 0 :=
  fun key hkey => ⟨((mem_keys h hk hm key).1 hkey).1, ((mem_keys h hk hm key).1 hkey).2.1⟩

/-- Valid keys of Lagrange bases of the same order. -/
theorem validLocal_iff (h : Simplex n) {k : Nat} (hk : k = 1 ∨ k = 2) (key : Key) :
    ValidLocal k (simplex n) key ↔ SubKey n key ∧ key.index = 0 ∧ (keyVerts (simplex n) key).length ≤ k := by
  have lay : ∀ d, lagrangeLayout k n (simplex d) = if d + 1 ≤ k then 1 else 0 := by
    intro d
    rcases hk with rfl | rfl
    · cases d <;> simp [lagrangeLayout, simplex]
    · rcases d with _ | _ | d
      · simp [lagrangeLayout, simplex]
      · simp [lagrangeLayout, simplex]
      · simp [lagrangeLayout, simplex, Nat.choose_eq_zero_of_lt]
  constructor
  · rintro ⟨h1, t, h2, h3⟩
    have hs : SubKey n key := ⟨h1, (List.getElem?_eq_some_iff.1 h2).1⟩
    change key.index < lagrangeLayout k n t at h3
    rw [sub_type h h1 h2, lay] at h3
    rw [(subKey_table h hs).2.2]
    split at h3
    · exact ⟨hs, by omega, by assumption⟩
    · omega
  · rintro ⟨h1, h2, h3⟩
    refine ⟨h1.1, _, type_of_sub h h1, ?_⟩
    change key.index < lagrangeLayout k n _
    rw [lay, if_pos (by rw [(subKey_table h h1).2.2] at h3; exact h3)]
    omega

/-- Lagrange points of order 1 and 2. -/
theorem node_center [CharZero K] (h : Simplex n) {k : Nat} (hk : k = 1 ∨ k = 2) {key : Key} (hv : ValidLocal k (simplex n) key) :
    lagrangeNode K n k (simplex n) key = center K n (simplex n) key := by
  obtain ⟨h1, h2, h3⟩ := (validLocal_iff h hk key).1 hv
  have tab : ∀ n, n = 1 ∨ n = 2 ∨ n = 3 → ∀ k, k = 1 ∨ k = 2 → ∀ c < n + 1, ∀ i < (stdSubs (simplex n) c).length, (keyVerts (simplex n) ⟨i, c, 0⟩).length ≤ k → ∀ v < n + 1,
      simplexWeight k (simplex n) ⟨i, c, 0⟩ v * (keyVerts (simplex n) ⟨i, c, 0⟩).length = if v ∈ keyVerts (simplex n) ⟨i, c, 0⟩ then k else 0 := by
    rintro n (rfl | rfl | rfl) k (rfl | rfl) <;> decide +kernel
  have hlen := (subKey_table h h1).2.2
  obtain ⟨i, c, j⟩ := key
  obtain rfl : j = 0 := h2
  rw [lagrangeNode, if_neg (not_cube_of_simplex _ h).1, if_neg (not_cube_of_simplex _ h).2]
  funext d
  have := tab n h.cases k hk c (Nat.lt_succ_of_le h1.1) i h1.2 h3 (d + 1) (by omega)
  have hk0 : (k : K) ≠ 0 := by exact_mod_cast (by omega : k ≠ 0)
  have hl0 : ((keyVerts (simplex n) ⟨i, c, 0⟩).length : K) ≠ 0 := by
    rw [hlen]; exact_mod_cast (by omega : n - c + 1 ≠ 0)
  rw [simplexNode, center, div_eq_iff hk0]
  have this : (simplexWeight k (simplex n) ⟨i, c, 0⟩ (d + 1) : K) * ((keyVerts (simplex n) ⟨i, c, 0⟩).length : K) = if d.val + 1 ∈ keyVerts (simplex n) ⟨i, c, 0⟩ then (k : K) else 0 := by
    rw [← Nat.cast_mul, this]; split <;> simp
  split at this
  · rename_i hd
    rw [if_pos hd]; field_simp; exact this
  · rename_i hd
    rw [if_neg hd, zero_mul]
    exact (mul_eq_zero.1 this).resolve_right hl0

theorem polyOn_entity (h : Simplex n) {k : Nat} {key : Key} (hl : (keyVerts (simplex n) key).length ≤ k) : PolyOn k (simplex n) (shape (K := K) (n := n) (simplex n) key) := by
  refine ⟨MvPolynomial.C (((keyVerts (simplex n) key).length : K) ^ (keyVerts (simplex n) key).length) * ((keyVerts (simplex n) key).map (baryP K n)).prod, ?_, fun x => ?_⟩
  · rw [polyDegree_simplex h]
    refine (MvPolynomial.totalDegree_mul _ _).trans ?_
    rw [MvPolynomial.totalDegree_C, zero_add]
    refine le_trans ?_ hl
    generalize keyVerts (simplex n) key = l
    induction l with
    | nil => simp
    | cons a l ih =>
      rw [List.map_cons, List.prod_cons, List.length_cons]
      refine (MvPolynomial.totalDegree_mul _ _).trans ?_
      have := totalDegree_baryP (K := K) (n := n) a
      omega
  · rw [shape, entityValue, List.length_map, map_mul, MvPolynomial.eval_C, map_list_prod, List.map_map]
    congr 2
    exact List.map_congr_left fun v _ => (eval_baryP v x).symm

theorem shape_top (h : Simplex n) (x : Vec K n) : shape (simplex n) ⟨0, 0, 0⟩ x = elementBubble x := by
  have tab : ∀ n, n = 1 ∨ n = 2 ∨ n = 3 → keyVerts (simplex n) ⟨0, 0, 0⟩ = List.range (n + 1) := by
    rintro n (rfl | rfl | rfl) <;> decide +kernel
  rw [shape, entityValue, tab n h.cases, List.length_map, List.length_range, elementBubble]
  rfl


theorem key_vertex (h : Simplex n) {key : Key} (hk : SubKey n key) (h0 : key.index = 0) (hl : (keyVerts (simplex n) key).length = 1) : key = vertexKey n key.sub ∧ key.sub < n + 1 := by
  have hc := (subKey_table h hk).2.2
  have hcn := hk.1
  have hcodim : key.codim = n := by omega
  have hlen : (stdSubs (simplex n) n).length = n + 1 := by
    rcases h.cases with rfl | rfl | rfl <;> decide +kernel
  refine ⟨?_, ?_⟩
  · cases key; simp_all [vertexKey]
  · have := hk.2
    rw [hcodim, hlen] at this
    exact this

/-- The functionals of vertices and edges are dual to the shape functions. -/
theorem low_dual [CharZero K] (h : Simplex n) {k : Nat} (hk : k = 1 ∨ k = 2) {keys : List Key} (hnd : keys.Nodup) (hkeys : ∀ key ∈ keys, SubKey n key ∧ key.index = 0)
    (hfull : ∀ key, SubKey n key → key.index = 0 → (keyVerts (simplex n) key).length ≤ k → key ∈ keys) (c : Key → K) {key : Key} (hkey : key ∈ keys)
    (hl : (keyVerts (simplex n) key).length ≤ k) : lowFunctional (simplex n) key (combination (n := n) (simplex n) keys c) = c key := by
  obtain ⟨s1, s2⟩ := hkeys key hkey
  have hpos := (subKey_table h s1).2.2
  have vmem : ∀ v < n + 1, vertexKey n v ∈ keys := fun v hv =>
    hfull _ (vertexKey_sub h hv).1 rfl (by rw [(vertexKey_sub h hv).2, List.length_singleton]; omega)
  rw [lowFunctional]
  by_cases h2 : (keyVerts (simplex n) key).length = 2
  · obtain ⟨a, b, hab⟩ := List.length_eq_two.1 h2
    have hlt := (subKey_table h s1).2.1
    rw [hab] at hlt
    have ha := hlt a (by simp)
    have hb := hlt b (by simp)
    rw [if_pos h2, combination_edge h hnd hkeys c hkey hab (vmem a ha) (vmem b hb), hab]
    simp only [List.map_cons, List.map_nil, List.sum_cons, List.sum_nil, combination_vertex h hnd hkeys c ha (vmem a ha), combination_vertex h hnd hkeys c hb (vmem b hb)]
    ring
  · obtain ⟨g1, g2⟩ := key_vertex h s1 s2 (by omega)
    rw [if_neg h2, sub_zero, g1, combination_vertex h hnd hkeys c g2 (vmem _ g2)]

theorem lowFunctional_sub (t : Geo) (key : Key) (f g : Vec K n → K) : lowFunctional t key (fun x => f x - g x) = lowFunctional t key f - lowFunctional t key g := by
  have : ∀ l : List Nat, (l.map fun v => f (center K n t (vertexKey n v)) - g (center K n t (vertexKey n v))).sum =
      (l.map fun v => f (center K n t (vertexKey n v))).sum - (l.map fun v => g (center K n t (vertexKey n v))).sum := by
    intro l
    induction l with
    | nil => simp
    | cons a l ih => simp only [List.map_cons, List.sum_cons, ih]; ring
  rw [lowFunctional, lowFunctional, lowFunctional, this]
  split <;> ring

/-- A function with vanishing functionals vanishes in the points. -/
theorem low_zero (h : Simplex n) {k : Nat} (hk : k = 1 ∨ k = 2) {f : Vec K n → K} (hf : ∀ key, SubKey n key → key.index = 0 → (keyVerts (simplex n) key).length ≤ k → lowFunctional (simplex n) key f = 0)
    {key : Key} (h1 : SubKey n key) (h2 : key.index = 0) (h3 : (keyVerts (simplex n) key).length ≤ k) : f (center K n (simplex n) key) = 0 := by
  have vert : ∀ v < n + 1, f (center K n (simplex n) (vertexKey n v)) = 0 := by
    intro v hv
    obtain ⟨g1, g2⟩ := vertexKey_sub h hv
    have := hf _ g1 rfl (by rw [g2, List.length_singleton]; omega)
    rw [lowFunctional, g2, List.length_singleton, if_neg (by omega), sub_zero] at this
    exact this
  have := hf key h1 h2 h3
  rw [lowFunctional] at this
  split at this
  · rw [List.sum_eq_zero, zero_div, sub_zero] at this
    · exact this
    · intro y hy
      obtain ⟨v, hv, rfl⟩ := List.mem_map.1 hy
      exact vert v ((subKey_table h h1).2.1 v hv)
  · rw [sub_zero] at this; exact this

theorem mem_low {t : Geo} {k : Nat} {keys : List Key} {key : Key} : key ∈ low t k keys ↔ key ∈ keys ∧ (keyVerts t key).length ≤ k := by simp [low]

/-- Polynomials are combinations of the functions of vertices and edges. -/
theorem expand [CharZero K] (h : Simplex n) {bubble : Bool} {k : Nat} (hk : k = 1 ∨ k = 2) {keys : List Key} (hm : Matches n (layout bubble k n) keys) {p : Vec K n → K}
    (hp : PolyOn k (simplex n) p) (x : Vec K n) : p x = combination (simplex n) (low (simplex n) k keys) (fun key => lowFunctional (simplex n) key p) x := by
  classical
  have hnd : (low (simplex n) k keys).Nodup := hm.1.filter _
  have hkeys : ∀ key ∈ low (simplex n) k keys, SubKey n key ∧ key.index = 0 := fun key hkey => keys_sub h hk hm key (mem_low.1 hkey).1
  have hfull : ∀ key, SubKey n key → key.index = 0 → (keyVerts (simplex n) key).length ≤ k → key ∈ low (simplex n) k keys :=
    fun key h1 h2 h3 => mem_low.2 ⟨(mem_keys h hk hm key).2 ⟨h1, h2, Or.inl h3⟩, h3⟩
  refine unisolvent (by omega) h.supported hp ?_ (fun key hv => ?_) x
  · have := polyOn_combination (t := simplex n) (order := k) (low (simplex n) k keys).toFinset (fun key => lowFunctional (simplex n) key p) (shape (simplex n))
      (fun key hkey => polyOn_entity h (mem_low.1 (List.mem_toFinset.1 hkey)).2)
    obtain ⟨P, h1, h2⟩ := this
    exact ⟨P, h1, fun x => by rw [← h2]; exact (List.sum_toFinset _ hnd).symm⟩
  · rw [node_center h hk hv]
    obtain ⟨h1, h2, h3⟩ := (validLocal_iff h hk key).1 hv
    refine sub_eq_zero.1 (low_zero (f := fun x => p x - combination (simplex n) (low (simplex n) k keys) (fun key => lowFunctional (simplex n) key p) x) h hk ?_ h1 h2 h3)
    intro key h1 h2 h3
    rw [lowFunctional_sub, low_dual h hk hnd hkeys hfull _ (hfull key h1 h2 h3) h3, sub_self]

theorem bubble_center (h : Simplex n) [CharZero K] {key : Key} (hk : SubKey n key) : elementBubble (center K n (simplex n) key) = if key.codim = 0 then 1 else 0 := by
  have ht : SubKey n ⟨0, 0, 0⟩ := ⟨by simp, by rcases h.cases with rfl | rfl | rfl <;> decide +kernel⟩
  obtain ⟨t1, t2, t3⟩ := subKey_table h ht
  obtain ⟨u1, u2, u3⟩ := subKey_table h hk
  have hkc := hk.1
  rw [← shape_top h, shape_center h hk ht]
  have hall : ∀ v < n + 1, v ∈ keyVerts (simplex n) ⟨0, 0, 0⟩ := by
    rcases h.cases with rfl | rfl | rfl <;> decide +kernel
  by_cases h0 : key.codim = 0
  · have tab : ∀ n, n = 1 ∨ n = 2 ∨ n = 3 → ∀ i < (stdSubs (simplex n) 0).length, i = 0 := by
      rintro n (rfl | rfl | rfl) <;> decide +kernel
    have hsub := tab n h.cases key.sub (by rw [← h0]; exact hk.2)
    have : keyVerts (simplex n) key = keyVerts (simplex n) ⟨0, 0, 0⟩ := by
      obtain ⟨s, c, i⟩ := key
      obtain rfl : c = 0 := h0
      obtain rfl : s = 0 := hsub
      rfl
    rw [this, if_pos (fun _ h => h), if_pos h0, div_self, one_pow]
    rw [t3]; exact_mod_cast (by omega : n - 0 + 1 ≠ 0)
  · rw [if_neg h0, if_neg]
    intro hsub
    have : (keyVerts (simplex n) ⟨0, 0, 0⟩).length ≤ (keyVerts (simplex n) key).length := (t1.subperm hsub).length_le
    rw [t3, u3] at this
    simp only at this
    omega

theorem top_key (h : Simplex n) {key : Key} (hk : SubKey n key) (hi : key.index = 0) (h0 : key.codim = 0) : key = ⟨0, 0, 0⟩ := by
  have tab : ∀ n, n = 1 ∨ n = 2 ∨ n = 3 → ∀ i < (stdSubs (simplex n) 0).length, i = 0 := by
    rintro n (rfl | rfl | rfl) <;> decide +kernel
  have hsub := tab n h.cases key.sub (by rw [← h0]; exact hk.2)
  cases key; simp_all

/-- Combinations split into the polynomial part and the bubble. -/
theorem combination_split (h : Simplex n) {bubble : Bool} {k : Nat} (hk : k = 1 ∨ k = 2) (hb : bubble = true → k ≤ n) {keys : List Key} (hm : Matches n (layout bubble k n) keys)
    (c : Key → K) (x : Vec K n) :
    combination (simplex n) keys c x = combination (simplex n) (low (simplex n) k keys) c x + if bubble then c ⟨0, 0, 0⟩ * elementBubble x else 0 := by
  classical
  rw [combination, combination, low, ← List.sum_toFinset _ hm.1, ← List.sum_toFinset _ (hm.1.filter _), List.toFinset_filter,
    ← Finset.sum_filter_add_sum_filter_not keys.toFinset (fun key => decide ((keyVerts (simplex n) key).length ≤ k) = true)]
  congr 1
  have htop : ∀ key ∈ keys, ¬ (keyVerts (simplex n) key).length ≤ k → bubble = true ∧ key = ⟨0, 0, 0⟩ := by
    intro key hkey hl
    obtain ⟨h1, h2, h3⟩ := (mem_keys h hk hm key).1 hkey
    obtain ⟨h3, h4⟩ := h3.resolve_left hl
    exact ⟨h3, top_key h h1 h2 h4⟩
  cases bubble with
  | false =>
    refine Finset.sum_eq_zero fun key hkey => ?_
    rw [Finset.mem_filter, List.mem_toFinset, decide_eq_true_iff] at hkey
    exact absurd (htop key hkey.1 hkey.2).1 (by simp)
  | true =>
    have ht : SubKey n ⟨0, 0, 0⟩ := ⟨by simp, by rcases h.cases with rfl | rfl | rfl <;> decide +kernel⟩
    have hlen : (keyVerts (simplex n) ⟨0, 0, 0⟩).length = n + 1 := (subKey_table h ht).2.2
    have hkn := hb rfl
    rw [if_pos rfl, Finset.sum_eq_single (⟨0, 0, 0⟩ : Key), shape_top h]
    · intro key hkey hne
      rw [Finset.mem_filter, List.mem_toFinset, decide_eq_true_iff] at hkey
      exact absurd (htop key hkey.1 hkey.2).2 hne
    · intro hn
      refine absurd ?_ hn
      rw [Finset.mem_filter, List.mem_toFinset, decide_eq_true_iff, hlen]
      exact ⟨(mem_keys h hk hm _).2 ⟨ht, rfl, Or.inr ⟨rfl, rfl⟩⟩, by omega⟩

/-- The functions of an element are the combinations with the values of the functionals. -/
theorem represent [CharZero K] (h : Simplex n) {bubble : Bool} {k : Nat} (hk : k = 1 ∨ k = 2) (hb : bubble = true → k ≤ n) {keys : List Key} (hm : Matches n (layout bubble k n) keys)
    {f : Vec K n → K} (hf : HierSpace bubble k (simplex n) f) (x : Vec K n) :
    f x = combination (simplex n) keys (fun key => functional (simplex n) k keys key f) x := by
  obtain ⟨p, c, hp, hc, hfp⟩ := hf
  have ht : SubKey n ⟨0, 0, 0⟩ := ⟨by simp, by rcases h.cases with rfl | rfl | rfl <;> decide +kernel⟩
  have hlen : (keyVerts (simplex n) ⟨0, 0, 0⟩).length = n + 1 := (subKey_table h ht).2.2
  have vert0 : ∀ v < n + 1, elementBubble (center K n (simplex n) (vertexKey n v)) = 0 := by
    intro v hv
    rw [bubble_center h (vertexKey_sub h hv).1, if_neg]
    have : 1 ≤ n := by rcases h.cases with rfl | rfl | rfl <;> omega
    simp only [vertexKey]; omega
  have hlow : ∀ key, SubKey n key → (keyVerts (simplex n) key).length ≤ k → lowFunctional (simplex n) key f = lowFunctional (simplex n) key p := by
    intro key h1 h2
    have hz : ∀ y, c * elementBubble y = 0 → f y = p y := fun y hy => by rw [hfp, hy, add_zero]
    have hv : ∀ v ∈ keyVerts (simplex n) key, f (center K n (simplex n) (vertexKey n v)) = p (center K n (simplex n) (vertexKey n v)) :=
      fun v hv => hz _ (by rw [vert0 v ((subKey_table h h1).2.1 v hv), mul_zero])
    rw [lowFunctional, lowFunctional, List.map_congr_left hv, hz]
    cases bubble with
    | false => rw [hc rfl, zero_mul]
    | true =>
      have := hb rfl
      rw [(subKey_table h h1).2.2] at h2
      rw [bubble_center h h1, if_neg (by omega), mul_zero]
  have hcomb : ∀ y, combination (simplex n) (low (simplex n) k keys) (fun key => lowFunctional (simplex n) key f) y = p y := by
    intro y
    rw [expand h hk hm hp y, combination, combination]
    congr 1
    refine List.map_congr_left fun key hkey => ?_
    rw [hlow key (keys_sub h hk hm key (mem_low.1 hkey).1).1 (mem_low.1 hkey).2]
  rw [combination_split h hk hb hm]
  have e1 : combination (simplex n) (low (simplex n) k keys) (fun key => functional (simplex n) k keys key f) x = p x := by
    rw [← hcomb x, combination, combination]
    congr 1
    refine List.map_congr_left fun key hkey => ?_
    rw [functional, if_pos (mem_low.1 hkey).2]
  rw [e1, hfp]
  congr 1
  cases bubble with
  | false => rw [hc rfl, zero_mul, if_neg (by simp)]
  | true =>
    have := hb rfl
    rw [if_pos rfl, functional, if_neg (by omega), hcomb, hfp, bubble_center h ht, if_pos rfl]
    ring

/-- The functionals are dual to the shape functions. -/
theorem dual [CharZero K] (h : Simplex n) {bubble : Bool} {k : Nat} (hk : k = 1 ∨ k = 2) (hb : bubble = true → k ≤ n) {keys : List Key} (hm : Matches n (layout bubble k n) keys)
    (c : Key → K) {key : Key} (hkey : key ∈ keys) : functional (simplex n) k keys key (combination (n := n) (simplex n) keys c) = c key := by
  have hfull : ∀ key, SubKey n key → key.index = 0 → (keyVerts (simplex n) key).length ≤ k → key ∈ keys := fun key h1 h2 h3 => (mem_keys h hk hm key).2 ⟨h1, h2, Or.inl h3⟩
  rw [functional]
  split
  · rename_i hl
    exact low_dual h hk hm.1 (keys_sub h hk hm) hfull c hkey hl
  · rename_i hl
    obtain ⟨h1, h2, h3⟩ := (mem_keys h hk hm key).1 hkey
    obtain ⟨rfl, h4⟩ := h3.resolve_left hl
    obtain rfl := top_key h h1 h2 h4
    rw [combination_split h hk hb hm, if_pos rfl, bubble_center h h1, if_pos rfl, mul_one]
    have : combination (n := n) (simplex n) (low (simplex n) k keys) (fun key' => lowFunctional (simplex n) key' (combination (n := n) (simplex n) keys c)) =
        combination (simplex n) (low (simplex n) k keys) c := by
      funext x
      rw [combination, combination]
      congr 1
      refine List.map_congr_left fun key hkey => ?_
      rw [low_dual h hk hm.1 (keys_sub h hk hm) hfull c (mem_low.1 hkey).1 (mem_low.1 hkey).2]
    rw [this]
    ring

/-- Combinations are functions of the space. -/
theorem combination_space (h : Simplex n) {bubble : Bool} {k : Nat} (hk : k = 1 ∨ k = 2) (hb : bubble = true → k ≤ n) {keys : List Key} (hm : Matches n (layout bubble k n) keys)
    (c : Key → K) : HierSpace bubble k (simplex n) (combination (n := n) (simplex n) keys c) := by
  classical
  refine ⟨combination (simplex n) (low (simplex n) k keys) c, if bubble then c ⟨0, 0, 0⟩ else 0, ?_, fun hb => by rw [hb]; rfl, fun x => ?_⟩
  · have := polyOn_combination (t := simplex n) (order := k) (low (simplex n) k keys).toFinset c (shape (simplex n))
      (fun key hkey => polyOn_entity h (mem_low.1 (List.mem_toFinset.1 hkey)).2)
    obtain ⟨P, h1, h2⟩ := this
    exact ⟨P, h1, fun x => by rw [← h2]; exact (List.sum_toFinset _ (hm.1.filter _)).symm⟩
  · rw [combination_split h hk hb hm]
    split <;> simp


/-! ## The space on a grid -/

theorem hierValue_combination (G : GridView E S) (bubble : Bool) (k : Nat) (keys : List Key) (vec : Nat → K) (e : E) (x : Vec K n) :
    hierValue G bubble k keys vec e x =
      combination (simplex G.dim) keys (fun key => vec (mapperIndex G (layout bubble k G.dim) (G.sub e key.codim key.sub) + key.index)) x := by
  rw [hierValue, value_sum, combination]
  exact Fin.sum_univ_fun_getElem keys fun key => vec (mapperIndex G (layout bubble k G.dim) (G.sub e key.codim key.sub) + key.index) * shape (simplex G.dim) key x

omit [LinearOrder α] in
theorem simplex_of {G : LGrid E S α} (h : G.OK) (hn : G.dim = n) (helem : ∀ e, G.elemGeo e = simplex G.dim) (e : E) : Simplex n := by
  rw [← hn]; exact (simplex_types h e (helem e)).1

omit [LinearOrder α] in
/-- Barycentres of entities that belong to a common entity. -/
theorem meets_center [CharZero K] {G : LGrid E S α} (h : G.OK) (hn : G.dim = n) (helem : ∀ e, G.elemGeo e = simplex G.dim) {e e' : E} {k k' m m' : Key}
    (hk : SubKey n k) (hk' : SubKey n k') (hc : 1 ≤ k.codim) (hsub : G.sub e k.codim k.sub = G.sub e' k'.codim k'.sub) (hm : SubKey n m) (hm' : SubKey n m')
    (hin : ∀ v ∈ keyVerts (simplex n) m, v ∈ keyVerts (simplex n) k) (hin' : ∀ v ∈ keyVerts (simplex n) m', v ∈ keyVerts (simplex n) k')
    (hlen : (keyVerts (simplex n) m).length = (keyVerts (simplex n) m').length)
    (hiff : ∀ v < n + 1, ∀ v' < n + 1, G.ids e v = G.ids e' v' → (v ∈ keyVerts (simplex n) m ↔ v' ∈ keyVerts (simplex n) m')) :
    Meets G e (center K n (simplex n) m) e' (center K n (simplex n) m') := by
  have hs := simplex_of h hn helem e
  have he : ∀ e, G.elemGeo e = simplex n := fun e => by rw [helem, hn]
  have hbw : ∀ e, vertexWeight (K := K) (n := n) (G.elemGeo e) = bary := fun e => vertexWeight_simplex (by rw [he]; exact hs)
  refine ⟨k.codim, k.sub, k'.codim, k'.sub, hc, by rw [hn]; exact hk.1, by rw [hn]; exact hk'.1, by rw [he]; exact hk.2, by rw [he]; exact hk'.2, hsub, ?_, ?_, ?_⟩
  · intro v hv hvk
    rw [he] at hv hvk
    rw [hbw, bary_center hs hm hv, if_neg fun hvm => hvk (hin v hvm)]
  · intro v hv hvk
    rw [he] at hv hvk
    rw [hbw, bary_center hs hm' hv, if_neg fun hvm => hvk (hin' v hvm)]
  · intro v hv v' hv' hid
    rw [he] at hv hv'
    rw [hbw, hbw, bary_center hs hm hv, bary_center hs hm' hv', hlen]
    exact if_congr (hiff v hv v' hv' hid) rfl rfl

omit [LinearOrder α] in
/-- The functionals of an entity are the same on all elements. -/
theorem functional_same [CharZero K] {G : LGrid E S α} (h : G.OK) (hn : G.dim = n) (helem : ∀ e, G.elemGeo e = simplex G.dim) {bubble : Bool} {k : Nat} (hk : k = 1 ∨ k = 2)
    {keys : List Key} (hm : Matches n (layout bubble k n) keys) {f : E → Vec K n → K} (hf : Continuous G f) {e e' : E} {key key' : Key} (hkey : key ∈ keys)
    (hkey' : key' ∈ keys) (hsub : G.sub e key.codim key.sub = G.sub e' key'.codim key'.sub) :
    functional (simplex n) k keys key (f e) = functional (simplex n) k keys key' (f e') := by
  have hs := simplex_of h hn helem e
  have he : ∀ e, G.elemGeo e = simplex n := fun e => by rw [helem, hn]
  obtain ⟨s1, s2, -⟩ := (mem_keys hs hk hm key).1 hkey
  obtain ⟨s1', s2', -⟩ := (mem_keys hs hk hm key').1 hkey'
  have hcodim : key.codim = key'.codim := by
    have d1 := subGeo_dim h (e := e) (by rw [he]; exact s1.2)
    have d2 := subGeo_dim h (e := e') (by rw [he]; exact s1'.2)
    rw [hsub] at d1
    have := s1.1
    have := s1'.1
    omega
  by_cases h0 : key.codim = 0
  · obtain rfl := top_key hs s1 s2 h0
    obtain rfl := top_key hs s1' s2' (by rw [← hcodim])
    obtain rfl := h.elemInj e e' hsub
    rfl
  · have lens : (keyVerts (simplex n) key).length = (keyVerts (simplex n) key').length := by
      rw [(subKey_table hs s1).2.2, (subKey_table hs s1').2.2, hcodim]
    have hids := verts_perm h (k := key) (k' := key') (e := e) (e' := e') (by rw [hn]; exact s1.1) (by rw [hn]; exact s1'.1) (by rw [he]; exact s1.2) (by rw [he]; exact s1'.2) hsub
    rw [he, he] at hids
    have inj : ∀ e, ∀ v < n + 1, ∀ v' < n + 1, G.ids e v = G.ids e v' → v = v' := fun e v hv v' hv' hid =>
      h.idsInj e v v' (by rw [he]; exact hv) (by rw [he]; exact hv') hid
    have iff1 : ∀ v < n + 1, ∀ v' < n + 1, G.ids e v = G.ids e' v' → (v ∈ keyVerts (simplex n) key ↔ v' ∈ keyVerts (simplex n) key') := by
      intro v hv v' hv' hid
      constructor
      · intro hmem
        obtain ⟨w, hw, hw'⟩ := List.mem_map.1 (hids.mem_iff.1 (List.mem_map_of_mem hmem))
        rw [← inj e' w ((subKey_table hs s1').2.1 w hw) v' hv' (by rw [hw', hid])]
        exact hw
      · intro hmem
        obtain ⟨w, hw, hw'⟩ := List.mem_map.1 (hids.mem_iff.2 (List.mem_map_of_mem hmem))
        rw [← inj e w ((subKey_table hs s1).2.1 w hw) v hv (by rw [hw', hid])]
        exact hw
    have hlow : (keyVerts (simplex n) key).length ≤ k := by
      by_contra hl
      exact h0 (((mem_keys hs hk hm key).1 hkey).2.2.resolve_left hl).2
    rw [functional, functional, if_pos hlow, if_pos (by rw [← lens]; exact hlow), lowFunctional, lowFunctional, lens,
      hf _ _ _ _ (meets_center h hn helem s1 s1' (by omega) hsub s1 s1' (fun _ h => h) (fun _ h => h) lens iff1)]
    congr 2
    refine congrArg (· / 2) (List.Perm.sum_eq ?_)
    have := values_perm h (k := key) (k' := key') (e := e) (e' := e') (by rw [hn]; exact s1.1) (by rw [hn]; exact s1'.1) (by rw [he]; exact s1.2) (by rw [he]; exact s1'.2) hsub
      (fun v => f e (center K n (simplex n) (vertexKey n v))) (fun v => f e' (center K n (simplex n) (vertexKey n v))) (by
        intro v hv v' hv' hid
        rw [he] at hv hv'
        have lv := (subKey_table hs s1).2.1 v hv
        have lv' := (subKey_table hs s1').2.1 v' hv'
        obtain ⟨g1, g2⟩ := vertexKey_sub hs lv
        obtain ⟨g1', g2'⟩ := vertexKey_sub hs lv'
        refine hf _ _ _ _ (meets_center h hn helem s1 s1' (by omega) hsub g1 g1' (by rw [g2]; simpa using hv) (by rw [g2']; simpa using hv') (by rw [g2, g2']; rfl) ?_)
        intro w hw w' hw' hww
        rw [g2, g2', List.mem_singleton, List.mem_singleton]
        constructor
        · rintro rfl
          exact inj e' _ hw' _ lv' (by rw [← hww, hid])
        · rintro rfl
          exact inj e _ hw _ lv (by rw [hww, hid]))
    rwa [he, he] at this

omit [LinearOrder α] in
/-- **C93.** The functions of hierarchical Lagrange bases are exactly the continuous functions that are a polynomial of the order of the basis on every element, plus a multiple of the
bubble for the bases with element bubble. -/
theorem C93_space [CharZero K] {G : LGrid E S α} (h : G.OK) (closed : Closed G) (hn : G.dim = n) (helem : ∀ e, G.elemGeo e = simplex G.dim) {bubble : Bool} {k : Nat}
    (hk : k = 1 ∨ k = 2) (hb : bubble = true → k ≤ n) {keys : List Key} (hm : Matches G.dim (layout bubble k G.dim) keys) (f : E → Vec K n → K) :
    (Continuous G f ∧ ∀ e, HierSpace bubble k (G.elemGeo e) (f e)) ↔ ∃ vec : Nat → K, ∀ e x, f e x = hierValue G.toGridView bubble k keys vec e x := by
  have hm' : Matches n (layout bubble k n) keys := by rw [← hn]; exact hm
  constructor
  · rintro ⟨hf, hspace⟩
    have hex : ∀ i : Nat, ∃ y : K, ∀ e key, key ∈ keys → mapperIndex G.toGridView (layout bubble k G.dim) (G.sub e key.codim key.sub) + key.index = i →
        functional (simplex n) k keys key (f e) = y := by
      intro i
      by_cases hi : ∃ e key, key ∈ keys ∧ mapperIndex G.toGridView (layout bubble k G.dim) (G.sub e key.codim key.sub) + key.index = i
      · obtain ⟨e, key, hkey, hi⟩ := hi
        refine ⟨functional (simplex n) k keys key (f e), fun e' key' hkey' hi' => functional_same h hn helem hk hm' hf hkey' hkey ?_⟩
        obtain ⟨l, hl⟩ := List.mem_iff_getElem?.1 hkey
        obtain ⟨l', hl'⟩ := List.mem_iff_getElem?.1 hkey'
        refine ((mapperLeaf_same h.base (keysOK h helem hm) e' e l' l key' key hl' hl).1 ?_).1
        simp [mapperLeaf, hl, hl', hi, hi']
      · exact ⟨0, fun e key hkey h => absurd ⟨e, key, hkey, h⟩ hi⟩
    choose vec hvec using hex
    refine ⟨vec, fun e x => ?_⟩
    have hs := simplex_of h hn helem e
    have hsp := hspace e
    rw [helem, hn] at hsp
    rw [hierValue_combination, represent hs hk hb hm' hsp x, combination, combination, hn]
    congr 1
    refine List.map_congr_left fun key hkey => ?_
    rw [hvec _ e key hkey (by rw [hn])]
  · rintro ⟨vec, hvec⟩
    refine ⟨fun e x e' x' hmeet => ?_, fun e => ?_⟩
    · rw [hvec, hvec]
      exact C93_continuous h closed hn helem bubble k hm vec e x e' x' hmeet
    · rw [show f e = combination (n := n) (simplex n) keys _ from funext fun x => by rw [hvec, hierValue_combination, hn], helem, hn]
      exact combination_space (simplex_of h hn helem e) hk hb hm' _

omit [LinearOrder α] in
/-- **C93.** The coefficients are determined by the function. -/
theorem C93_unique [CharZero K] {G : LGrid E S α} (h : G.OK) (hn : G.dim = n) (helem : ∀ e, G.elemGeo e = simplex G.dim) {bubble : Bool} {k : Nat} (hk : k = 1 ∨ k = 2)
    (hb : bubble = true → k ≤ n) {keys : List Key} (hm : Matches G.dim (layout bubble k G.dim) keys) (vec vec' : Nat → K)
    (heq : ∀ e (x : Vec K n), hierValue G.toGridView bubble k keys vec e x = hierValue G.toGridView bubble k keys vec' e x) :
    ∀ i < (mapperLeaf G.toGridView (layout bubble k G.dim) fun _ => keys).dim, vec i = vec' i := by
  intro i hi
  have hm' : Matches n (layout bubble k n) keys := by rw [← hn]; exact hm
  obtain ⟨e, -, he⟩ := mapperLeaf_Covered h.base (keysFull h helem hm) i hi
  obtain ⟨key, hkey, rfl⟩ := List.mem_map.1 he
  have hs := simplex_of h hn helem e
  have d1 := dual hs hk hb hm' (fun key => vec (mapperIndex G.toGridView (layout bubble k G.dim) (G.sub e key.codim key.sub) + key.index)) hkey
  have d2 := dual hs hk hb hm' (fun key => vec' (mapperIndex G.toGridView (layout bubble k G.dim) (G.sub e key.codim key.sub) + key.index)) hkey
  rw [← d1, ← d2]
  congr 1
  funext x
  have := heq e x
  rw [hierValue_combination, hierValue_combination, hn] at this
  rw [hn]
  exact this

/-- **C93.** The hierarchical basis of order `k` spans the same functions as the Lagrange basis of order `k`. -/
theorem C93_lagrange [CharZero K] {G : LGrid E S α} (h : G.OK) (closed : Closed G) (hn : G.dim = n) (helem : ∀ e, G.elemGeo e = simplex G.dim) {k : Nat} (hk : k = 1 ∨ k = 2)
    {keys : List Key} (hm : Matches G.dim (layout false k G.dim) keys) {lkeys : Geo → List Key} (hl : LagrangeKeys G k fun e => lkeys (G.elemGeo e)) (f : E → Vec K n → K) :
    (∃ vec : Nat → K, ∀ e x, f e x = hierValue G.toGridView false k keys vec e x) ↔
      ∃ vec : Nat → K, ∀ e x, f e x = Continuity.value G k (fun e => lkeys (G.elemGeo e)) (lagrangeValues k lkeys) vec e x := by
  rw [← C93_space h closed hn helem hk (by simp) hm, ← C84_space h closed (fun e => by rw [helem, hn]; exact (simplex_of h hn helem e).supported) (by omega) (by omega) hl]
  refine and_congr_right fun _ => forall_congr' fun e => ⟨?_, fun hp => ⟨_, 0, hp, fun _ => rfl, fun x => by simp⟩⟩
  rintro ⟨p, c, hp, hc, hfp⟩
  obtain ⟨P, h1, h2⟩ := hp
  exact ⟨P, h1, fun x => by rw [hfp, hc rfl, zero_mul, add_zero, h2]⟩

/-- In one dimension, the bubble is the function of order 2. -/
theorem C93_line : layout true 1 1 = layout false 2 1 ∧ layout true 2 1 = layout false 2 1 := by
  constructor <;> funext t <;> simp [layout, bubbleLayout, hierarchicalLayout]
  congr 1; simp; omega

omit [LinearOrder α] in
/-- **C93.** `interpolate` finds the coefficients of every function of the space, and leaves other entries unchanged. -/
theorem C93_interpolate {G : LGrid E S α} (h : G.OK) (hn : G.dim = n) (helem : ∀ e, G.elemGeo e = simplex G.dim) {bubble : Bool} {k : Nat}
    (hk : k = 1 ∨ k = 2) (hb : bubble = true → k ≤ n) {keys : List Key} (hm : Matches G.dim (layout bubble k G.dim) keys) {f : E → Vec ℝ n → ℝ} (hf : Continuous G f)
    (hspace : ∀ e, HierSpace bubble k (G.elemGeo e) (f e)) (vec : Nat → ℝ) (es : List E) :
    ∃ r, FE.Interpolation.interpolateAll ((mapperLeaf G.toGridView (layout bubble k G.dim) fun _ => keys).loc)
        (fun _ e => some (keys.map fun key => functional (simplex G.dim) k keys key (f e))) vec es = some r ∧
      (∀ e ∈ es, ∀ x, hierValue G.toGridView bubble k keys r e x = f e x) ∧
      ∀ i, (∀ e ∈ es, i ∉ (mapperLeaf G.toGridView (layout bubble k G.dim) fun _ => keys).loc e) → r i = vec i := by
  have hm' : Matches n (layout bubble k n) keys := by rw [← hn]; exact hm
  obtain ⟨r, h1, h2, h3⟩ := FE.Interpolation.interpolateAll_spec (loc := (mapperLeaf G.toGridView (layout bubble k G.dim) fun _ => keys).loc)
    (coefs := fun _ e => some (keys.map fun key => functional (simplex G.dim) k keys key (f e))) (c := fun e => keys.map fun key => functional (simplex G.dim) k keys key (f e))
    (fun _ _ => rfl) (fun e => by simp [mapperLeaf]) (by
      intro e e' l l' i x x' hl hl' hx hx'
      rw [List.getElem?_map, Option.map_eq_some_iff] at hx hx'
      obtain ⟨key, hkey, rfl⟩ := hx
      obtain ⟨key', hkey', rfl⟩ := hx'
      rw [hn]
      refine functional_same h hn helem hk hm' hf (List.mem_of_getElem? hkey) (List.mem_of_getElem? hkey') ?_
      exact ((mapperLeaf_same h.base (keysOK h helem hm) e e' l l' key key' hkey hkey').1 (by rw [hl, hl'])).1) vec es
  refine ⟨r, h1, fun e he x => ?_, h3⟩
  have hsp := hspace e
  rw [helem, hn] at hsp
  rw [hierValue_combination, represent (simplex_of h hn helem e) hk hb hm' hsp x, combination, combination, hn]
  congr 1
  refine List.map_congr_left fun key hkey => ?_
  obtain ⟨l, hl⟩ := List.mem_iff_getElem?.1 hkey
  have := h2 e he l (mapperIndex G.toGridView (layout bubble k G.dim) (G.sub e key.codim key.sub) + key.index) (functional (simplex n) k keys key (f e)) (by simp [mapperLeaf, hl])
    (by rw [List.getElem?_map, hl, hn]; rfl)
  rw [hn] at this
  rw [this]

omit [LinearOrder α] in
/-- **C93.** Interpolation of a discrete function restores its coefficients. -/
theorem C93_roundTrip {G : LGrid E S α} (h : G.OK) (closed : Closed G) (hn : G.dim = n) (helem : ∀ e, G.elemGeo e = simplex G.dim) {bubble : Bool} {k : Nat}
    (hk : k = 1 ∨ k = 2) (hb : bubble = true → k ≤ n) {keys : List Key} (hm : Matches G.dim (layout bubble k G.dim) keys) (coef vec : Nat → ℝ) (es : List E) (hall : ∀ e, e ∈ es) :
    ∃ r, FE.Interpolation.interpolateAll ((mapperLeaf G.toGridView (layout bubble k G.dim) fun _ => keys).loc)
        (fun _ e => some (keys.map fun key => functional (simplex G.dim) k keys key (hierValue (n := n) G.toGridView bubble k keys coef e))) vec es = some r ∧
      ∀ i < (mapperLeaf G.toGridView (layout bubble k G.dim) fun _ => keys).dim, r i = coef i := by
  obtain ⟨hc, hsp⟩ := (C93_space h closed hn helem hk hb hm (hierValue (n := n) G.toGridView bubble k keys coef)).2 ⟨coef, fun _ _ => rfl⟩
  obtain ⟨r, h1, h2, -⟩ := C93_interpolate h hn helem hk hb hm hc hsp vec es
  exact ⟨r, h1, C93_unique h hn helem hk hb hm r coef fun e x => h2 e (hall e) x⟩


/-! ## Examples -/

theorem demoGrid_closed : Closed demoGrid := by
  intro e e' c s c' s' h h' hs c2 s2 h2 hv
  have hb := demo_sub_bound h
  have hb' := demo_sub_bound h'
  have hb2 := demo_sub_bound h2
  have : ∀ e e' : Fin 2, ∀ c : Fin 3, ∀ i : Fin 3, ∀ c' : Fin 3, ∀ i' : Fin 3, ∀ c2 : Fin 3, ∀ i2 : Fin 3, i.1 < (stdSubs (demoGrid.elemGeo e) c).length →
      i'.1 < (stdSubs (demoGrid.elemGeo e') c').length → demoGrid.sub e c i = demoGrid.sub e' c' i' → i2.1 < (stdSubs (demoGrid.elemGeo e) c2).length →
      (∀ v ∈ keyVerts (demoGrid.elemGeo e) ⟨i2, c2, 0⟩, v ∈ keyVerts (demoGrid.elemGeo e) ⟨i, c, 0⟩) →
      ∃ s2' : Fin 3, s2'.1 < (stdSubs (demoGrid.elemGeo e') c2).length ∧ demoGrid.sub e c2 i2 = demoGrid.sub e' c2 s2' := by decide +kernel
  obtain ⟨s2', h1, h3⟩ := this e e' ⟨c, hb.1⟩ ⟨s, hb.2⟩ ⟨c', hb'.1⟩ ⟨s', hb'.2⟩ ⟨c2, hb2.1⟩ ⟨s2, hb2.2⟩ h h' hs h2 hv
  exact ⟨s2', h1, h3⟩

/-- Local keys of `HierarchicalP2WithElementBubbleLocalFiniteElement` on triangles. -/
def p2BubbleKeys : List Key := [⟨0, 2, 0⟩, ⟨0, 1, 0⟩, ⟨1, 2, 0⟩, ⟨1, 1, 0⟩, ⟨2, 1, 0⟩, ⟨2, 2, 0⟩, ⟨0, 0, 0⟩]

theorem p2BubbleKeys_matches : Matches 2 (layout true 2 2) p2BubbleKeys := by decide

/-- Two triangles with the common edge 20, 40, which they see in opposite directions: the functions agree on it, for all coefficients. -/
example (vec : Nat → ℚ) (y : ℚ) : hierValue demoGrid.toGridView true 2 p2BubbleKeys vec 0 (![1 - y, y] : Vec ℚ 2) =
    hierValue demoGrid.toGridView true 2 p2BubbleKeys vec 1 ![y, 1 - y] := by
  refine C93_continuous (n := 2) demoGrid_OK demoGrid_closed rfl (fun _ => rfl) true 2 p2BubbleKeys_matches vec 0 _ 1 _
    ⟨1, 2, 1, 2, by decide, by decide, by decide, by decide, by decide, by decide, ?_, ?_, ?_⟩
  · have : ∀ v < 3, v ∉ keyVerts ⟨2, 3⟩ ⟨2, 1, 0⟩ → v = 0 := by decide
    intro v hv hvF
    obtain rfl := this v hv hvF
    simp [vertexWeight, demoGrid, bary]
  · have : ∀ v < 3, v ∉ keyVerts ⟨2, 3⟩ ⟨2, 1, 0⟩ → v = 0 := by decide
    intro v hv hvF
    obtain rfl := this v hv hvF
    simp [vertexWeight, demoGrid, bary]
  · have : ∀ v < 3, ∀ v' < 3, demoGrid.ids 0 v = demoGrid.ids 1 v' → v = 1 ∧ v' = 2 ∨ v = 2 ∧ v' = 1 := by decide
    intro v hv v' hv' hid
    rcases this v hv v' hv' hid with ⟨rfl, rfl⟩ | ⟨rfl, rfl⟩ <;> simp [vertexWeight, demoGrid, bary]

/-- One of the values: all of the seven functions of the first triangle contribute. -/
example : hierValue demoGrid.toGridView true 2 p2BubbleKeys (fun i => (i + 1 : ℚ)) 0 (![1 / 2, 1 / 4] : Vec ℚ 2) = 291 / 16 := by decide +kernel

/-- The bubble of one triangle, continued by zero: there are coefficients for it. -/
example : ∃ vec : Nat → ℚ, ∀ (e : Fin 2) (x : Vec ℚ 2), (if e = 0 then elementBubble x else 0) = hierValue demoGrid.toGridView true 2 p2BubbleKeys vec e x := by
  refine (C93_space (n := 2) demoGrid_OK demoGrid_closed rfl (fun _ => rfl) (Or.inr rfl) (fun _ => le_refl _) p2BubbleKeys_matches
    fun e x => if e = 0 then elementBubble x else 0).1 ⟨?_, ?_⟩
  · have zero : ∀ (e e' : Fin 2) (x x' : Vec ℚ 2), Meets demoGrid e x e' x' → elementBubble x = 0 := by
      rintro e e' x x' ⟨c, s, c', s', hc, hc2, -, hs, -, -, hz, -⟩
      have tab : ∀ c < 3, 1 ≤ c → ∀ s < (stdSubs ⟨2, 3⟩ c).length, ∃ v < 3, v ∉ keyVerts ⟨2, 3⟩ ⟨s, c, 0⟩ := by decide
      obtain ⟨v, hv, hvF⟩ := tab c (Nat.lt_succ_of_le hc2) hc s hs
      have := hz v hv hvF
      rw [elementBubble, Finset.prod_eq_zero (Finset.mem_range.2 hv), mul_zero]
      rwa [vertexWeight_simplex (show demoGrid.elemGeo e ∈ ([⟨1, 2⟩, ⟨2, 3⟩, ⟨3, 4⟩] : List Geo) from by simp [demoGrid])] at this
    rintro e x e' x' hm
    have hm' : Meets demoGrid e' x' e x := by
      obtain ⟨c, s, c', s', h1, h2, h3, h4, h5, h6, h7, h8, h9⟩ := hm
      have hcc : c = c' := by
        have d1 := subGeo_dim demoGrid_OK (e := e) h4
        have d2 := subGeo_dim demoGrid_OK (e := e') h5
        rw [h6] at d1
        omega
      exact ⟨c', s', c, s, by omega, h3, h2, h5, h4, h6.symm, h8, h7, fun v hv v' hv' hid => (h9 v' hv' v hv hid.symm).symm⟩
    simp only [zero e e' x x' hm, zero e' e x' x hm', ite_self]
  · intro e
    refine ⟨fun _ => 0, if e = 0 then 1 else 0, PolyOn.zero _ _, by simp, fun x => ?_⟩
    split <;> simp

end Verif.Lagrange.Hierarchical

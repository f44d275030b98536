import Verif.SubDomain.Iteration
import Verif.Lagrange.Reproduction

/-!
# Bases on the grid view of a subdomain

Model of `SubDomainGridView` in `dune/functions/common/subdomain.hh` (366-522) as a grid view in the sense of the leaf bases.
-/

namespace Verif.SubDomain

open Verif.Mapper
open Verif.Lagrange
open Verif.Lagrange.Continuity (Closed keyVerts)

variable {E S α : Type}

/-! ## Model -/

/-- `index(entity)` for entities of the subdomain, subdomain.hh:250-257. The exception for other entities and undefined behaviour do not occur for entities of the subdomain
(C30), hence the value 0 is never used. -/
def ISet.indexD (G : GridView E S) (s : ISet) (x : S) : Nat :=
  match s.index G x with
  | .value n => n
  | _ => 0

/-- `SubDomainGridView`, subdomain.hh:451-517: the entities are those of the inserted elements, sizes, types and indices come from the index set, everything else from the grid.
`hist` are the elements inserted so far. -/
def subView (G : GridView E S) (hE : ElemOK G) (hist : List E) (s : ISet) : GridView {e // e ∈ hist} {x // Inserted G hist x} where
  dim := G.dim
  types := (List.range (G.dim + 1)).flatMap fun c => (s.types G c).getD []
  gsize := s.sizeOf G
  geo := fun x => G.geo x.1
  idx := fun x => s.indexD G x.1
  refSubs := G.refSubs
  elemGeo := fun e => G.elemGeo e.1
  sub := fun e c i =>
    if h : c ≤ G.dim ∧ i < (G.refSubs (G.elemGeo e.1) c).length then ⟨G.sub e.1 c i, e.1, e.2, c, i, h.1, h.2, rfl⟩
    else ⟨G.sub e.1 0 0, e.1, e.2, 0, 0, Nat.zero_le _, by rw [hE.self]; exact Nat.one_pos, rfl⟩

/-- The same with the global ids of the vertices: `grid()` is the grid of the host, subdomain.hh:457-460. -/
def subLGrid (G : LGrid E S α) (hE : ElemOK G.toGridView) (hist : List E) (s : ISet) : LGrid {e // e ∈ hist} {x // Inserted G.toGridView hist x} α where
  toGridView := subView G.toGridView hE hist s
  ids := fun e => G.ids e.1

/-! ## Lemmas -/

theorem stdSubs_large : ∀ t ∈ elemTypes, ∀ c, t.dim < c → stdSubs t c = [] := by
  intro t ht c hc
  have hd := (refOf_table t ht).1
  have : (refOf t).dim = t.dim := hd
  rw [stdSubs, subVerts, if_neg (by omega), if_neg (by omega), if_neg (by omega), if_neg (by omega)]
  rfl

theorem elemOK_std {G : GridView E S} (h : StdGrid G) : ElemOK G where
  self e := by rw [h.std]; exact (by decide : ∀ t ∈ elemTypes, (stdSubs t 0).length = 1) _ (h.type e)
  inj := h.elemInj

theorem subView_sub {G : GridView E S} (hE : ElemOK G) (hist : List E) (s : ISet) (e : {e // e ∈ hist}) {c i : Nat} (hc : c ≤ G.dim)
    (hi : i < (G.refSubs (G.elemGeo e.1) c).length) : ((subView G hE hist s).sub e c i).1 = G.sub e.1 c i := by
  simp [subView, hc, hi]

/-- **C86.** The grid view of a subdomain satisfies the contract of a grid view, for all histories of insertions: everything proved for the leaf bases holds for bases on
subdomains. -/
theorem C86_gridView {G : GridView E S} (h : StdGrid G) (hist : List E) :
    ∃ s, ISet.run G hist = some s ∧ StdGrid (subView G (elemOK_std h) hist s) := by
  obtain ⟨s, h1, hc, hinj, hsurj, -, htypes⟩ := C30_indexSet h.base (dimOK_std h) hist
  have hval : ∀ x, Inserted G hist x → ∃ n, s.index G x = .value n ∧ n < s.sizeOf G (G.geo x) := fun x hx => ((hc x).1 hx).2
  have hD : ∀ n x, s.index G x = .value n → s.indexD G x = n := by intro n x hx; simp [ISet.indexD, hx]
  have htype : ∀ t, t ∈ (subView G (elemOK_std h) hist s).types ↔ ∃ x, Inserted G hist x ∧ G.geo x = t := by
    intro t
    simp only [subView, List.mem_flatMap, List.mem_range]
    constructor
    · rintro ⟨c, hc', ht⟩
      obtain ⟨ts, h2, -, h3⟩ := htypes c (by omega)
      rw [h2] at ht
      exact ((h3 t).1 ht).2
    · rintro ⟨x, hx, rfl⟩
      obtain ⟨e, he, c, i, hcd, hi, rfl⟩ := hx
      have := dimOK_std h e c hcd _ (List.getElem_mem hi)
      rw [← h.base.subGeo e c i _ (List.getElem?_eq_getElem hi)] at this
      obtain ⟨ts, h2, -, h3⟩ := htypes c hcd
      exact ⟨c, by omega, by rw [h2]; exact (h3 _).2 ⟨this, _, ⟨e, he, c, i, hcd, hi, rfl⟩, rfl⟩⟩
  have hrange : ∀ (e : E) (c i : Nat), i < (G.refSubs (G.elemGeo e) c).length → c ≤ G.dim := by
    intro e c i hi
    by_contra hn
    rw [h.std, stdSubs_large _ (h.type e) c (by rw [(h.base.elemMem e).2]; omega)] at hi
    simp at hi
  refine ⟨s, h1, ⟨?_, ?_, ?_, ?_, ?_, ?_, ?_, ?_, ?_⟩, fun e c => h.std e.1 c, fun e => h.type e.1, ?_⟩
  · -- types
    simp only [subView]
    rw [List.nodup_flatMap]
    refine ⟨fun c hc' => ?_, ?_⟩
    · obtain ⟨ts, h2, h3, -⟩ := htypes c (by rw [List.mem_range] at hc'; omega)
      rw [h2]; exact h3
    · refine List.Pairwise.imp_of_mem ?_ (List.nodup_range (n := G.dim + 1))
      intro c c' hc1 hc2 hne t ht ht'
      rw [List.mem_range] at hc1 hc2
      obtain ⟨ts, h2, -, h3⟩ := htypes c (by omega)
      obtain ⟨ts', h2', -, h3'⟩ := htypes c' (by omega)
      simp only [h2] at ht
      simp only [h2'] at ht'
      have a := ((h3 t).1 ht).1
      have b := ((h3' t).1 ht').1
      omega
  · exact fun x => (htype _).2 ⟨x.1, x.2, rfl⟩
  · intro x
    obtain ⟨n, hn, hlt⟩ := hval x.1 x.2
    simp only [subView]
    rw [hD n _ hn]; exact hlt
  · intro x y hg hi
    obtain ⟨n, hn, -⟩ := hval x.1 x.2
    obtain ⟨m, hm, -⟩ := hval y.1 y.2
    simp only [subView] at hg hi
    rw [hD n _ hn, hD m _ hm] at hi
    subst hi
    exact Subtype.ext (hinj _ _ _ hg hn hm)
  · intro t _ n hn
    obtain ⟨x, hx, hi⟩ := hsurj t n hn
    have hins : Inserted G hist x := by
      by_contra hni
      rw [((hc x).2 hni).2] at hi
      cases hi
    exact ⟨⟨x, hins⟩, hx, hD n x hi⟩
  · intro e c i t ht
    have hi := (List.getElem?_eq_some_iff.1 ht).1
    have hc' := hrange e.1 c i hi
    have := h.base.subGeo e.1 c i t ht
    rw [← this, ← subView_sub (elemOK_std h) hist s e hc' hi]
    rfl
  · intro e c i c' i' hi hi' heq
    refine h.base.subInj e.1 c i c' i' hi hi' ?_
    rw [← subView_sub (elemOK_std h) hist s e (hrange e.1 c i hi) hi, ← subView_sub (elemOK_std h) hist s e (hrange e.1 c' i' hi') hi', heq]
  · intro x
    obtain ⟨e, he, c, i, hcd, hi, hx⟩ := x.2
    exact ⟨⟨e, he⟩, c, i, hcd, hi, Subtype.ext ((subView_sub (elemOK_std h) hist s ⟨e, he⟩ hcd hi).trans hx)⟩
  · intro e
    refine ⟨(htype _).2 ⟨G.sub e.1 0 0, ⟨e.1, e.2, 0, 0, Nat.zero_le _, by rw [(elemOK_std h).self]; exact Nat.one_pos, rfl⟩, elem_geo h e.1⟩, (h.base.elemMem e.1).2⟩
  · intro e e' heq
    refine Subtype.ext (h.elemInj e.1 e'.1 ?_)
    rw [← subView_sub (elemOK_std h) hist s e (Nat.zero_le _) (by rw [(elemOK_std h).self]; exact Nat.one_pos),
      ← subView_sub (elemOK_std h) hist s e' (Nat.zero_le _) (by rw [(elemOK_std h).self]; exact Nat.one_pos), heq]

theorem std_of {G : LGrid E S α} (h : G.OK) : StdGrid G.toGridView := ⟨h.base, h.std, h.type, h.elemInj⟩

/-- **C86.** With the ids of the grid also the contract of the Lagrange bases holds, and conforming grids have conforming subdomains. -/
theorem C86_lagrangeGrid {G : LGrid E S α} (h : G.OK) (closed : Closed G) (hist : List E) :
    ∃ s, ISet.run G.toGridView hist = some s ∧ (subLGrid G (elemOK_std (std_of h)) hist s).OK ∧ Closed (subLGrid G (elemOK_std (std_of h)) hist s) := by
  obtain ⟨s, h1, h2⟩ := C86_gridView (std_of h) hist
  have hE := elemOK_std (std_of h)
  have hrange : ∀ (e : E) (c i : Nat), i < (stdSubs (G.elemGeo e) c).length → c ≤ G.dim := by
    intro e c i hi
    by_contra hn
    rw [stdSubs_large _ (h.type e) c (by rw [(h.base.elemMem e).2]; omega)] at hi
    simp at hi
  have hsub : ∀ (e : {e // e ∈ hist}) (c i : Nat), i < (stdSubs (G.elemGeo e.1) c).length →
      ((subLGrid G hE hist s).sub e c i).1 = G.sub e.1 c i := by
    intro e c i hi
    exact subView_sub hE hist s e (hrange e.1 c i hi) (by rw [h.std]; exact hi)
  have hsame : ∀ (e e' : {e // e ∈ hist}) (c i c' i' : Nat), i < (stdSubs (G.elemGeo e.1) c).length → i' < (stdSubs (G.elemGeo e'.1) c').length →
      ((subLGrid G hE hist s).sub e c i = (subLGrid G hE hist s).sub e' c' i' ↔ G.sub e.1 c i = G.sub e'.1 c' i') := by
    intro e e' c i c' i' hi hi'
    rw [← hsub e c i hi, ← hsub e' c' i' hi', Subtype.ext_iff]
  have hlen : ∀ (e : {e // e ∈ hist}) c, ((subLGrid G hE hist s).refSubs ((subLGrid G hE hist s).elemGeo e) c).length = (stdSubs (G.elemGeo e.1) c).length :=
    fun e c => congrArg List.length (h.std e.1 c)
  refine ⟨s, h1, ⟨h2.base, h2.std, h2.type, h2.elemInj, fun e => h.idsInj e.1, ?_, ?_⟩, ?_⟩
  · intro e k e' k' hk hk' heq x
    rw [hlen] at hk hk'
    exact h.vertsSame e.1 k e'.1 k' (by rw [h.std]; exact hk) (by rw [h.std]; exact hk') ((hsame e e' _ _ _ _ hk hk').1 heq) x
  · intro e k e' k' hk hk' heq hq x y
    rw [hlen] at hk hk'
    refine h.diagSame e.1 k e'.1 k' (by rw [h.std]; exact hk) (by rw [h.std]; exact hk') ((hsame e e' _ _ _ _ hk hk').1 heq) ?_ x y
    rw [← hq, ← hsub e _ _ hk]
    rfl
  · intro e e' c i c' i' hi hi' heq c2 i2 hi2 hv
    obtain ⟨j, hj, hj'⟩ := closed e.1 e'.1 c i c' i' hi hi' ((hsame e e' c i c' i' hi hi').1 heq) c2 i2 hi2 hv
    exact ⟨j, hj, (hsame e e' c2 i2 c2 j hi2 hj).2 hj'⟩

/-! ## Relation to the basis on the whole grid -/

/-- The numbers of the mapper of the subdomain are a renumbering of those of the host, restricted to the entities of the subdomain. -/
theorem mapper_renumber {E' S' : Type} {G : GridView E S} (h : G.OK) {G' : GridView E' S'} (h' : G'.OK) (ι : S' → S) (hι : Function.Injective ι) (hgeo : ∀ x, G'.geo x = G.geo (ι x))
    (lay : Layout) : ∃ φ : Nat → Nat, (∀ x j, j < lay (G'.geo x) → φ (mapperIndex G' lay x + j) = mapperIndex G lay (ι x) + j) ∧
      (∀ n < mapperSize G' lay, φ n < mapperSize G lay) ∧ ∀ n < mapperSize G' lay, ∀ m < mapperSize G' lay, φ n = φ m → n = m := by
  have hex : ∀ n, ∃ v, ∀ x j, j < lay (G'.geo x) → n = mapperIndex G' lay x + j → v = mapperIndex G lay (ι x) + j := by
    intro n
    by_cases hn : ∃ x j, j < lay (G'.geo x) ∧ n = mapperIndex G' lay x + j
    · obtain ⟨x, j, hj, rfl⟩ := hn
      refine ⟨mapperIndex G lay (ι x) + j, fun x' j' hj' heq => ?_⟩
      obtain ⟨rfl, rfl⟩ := (mapper_inj h' lay x x' j j' hj hj').1 heq
      rfl
    · exact ⟨0, fun x j hj heq => absurd ⟨x, j, hj, heq⟩ hn⟩
  choose φ hφ using hex
  have hφ' : ∀ x j, j < lay (G'.geo x) → φ (mapperIndex G' lay x + j) = mapperIndex G lay (ι x) + j := fun x j hj => hφ _ x j hj rfl
  refine ⟨φ, hφ', fun n hn => ?_, fun n hn m hm heq => ?_⟩
  · obtain ⟨x, j, hj, rfl⟩ := mapper_surj h' lay n hn
    rw [hφ' x j hj]
    exact mapper_lt h lay (ι x) j (by rw [← hgeo]; exact hj)
  · obtain ⟨x, j, hj, rfl⟩ := mapper_surj h' lay n hn
    obtain ⟨y, i, hi, rfl⟩ := mapper_surj h' lay m hm
    rw [hφ' x j hj, hφ' y i hi] at heq
    obtain ⟨hx, rfl⟩ := (mapper_inj h lay _ _ j i (by rw [← hgeo]; exact hj) (by rw [← hgeo]; exact hi)).1 heq
    rw [hι hx]

/-- **C86.** All bases whose indices come from a mapper (leafprebasismappermixin.hh): the indices on the subdomain are a renumbering of those indices of the basis on the whole grid that
occur on elements of the subdomain. -/
theorem C86_mapper {G : GridView E S} (h : StdGrid G) (lay : Layout) (keys : E → List Key) (hk : KeysOK G lay keys) (hist : List E) :
    ∃ s, ISet.run G hist = some s ∧ ∃ φ : Nat → Nat,
      (∀ e : {e // e ∈ hist}, ((mapperLeaf (subView G (elemOK_std h) hist s) lay fun e => keys e.1).loc e).map φ = (mapperLeaf G lay keys).loc e.1) ∧
      ∀ n < mapperSize (subView G (elemOK_std h) hist s) lay, φ n < mapperSize G lay ∧ ∀ m < mapperSize (subView G (elemOK_std h) hist s) lay, φ n = φ m → n = m := by
  obtain ⟨s, h1, h2⟩ := C86_gridView h hist
  obtain ⟨φ, a, b, c⟩ := mapper_renumber h.base h2.base (fun x => x.1) Subtype.val_injective (fun _ => rfl) lay
  refine ⟨s, h1, φ, fun e => ?_, fun n hn => ⟨b n hn, c n hn⟩⟩
  simp only [mapperLeaf, List.map_map]
  refine List.map_congr_left fun k hke => ?_
  obtain ⟨hc, t, ht, hj⟩ := hk.ok e.1 k hke
  have hi := (List.getElem?_eq_some_iff.1 ht).1
  have hs := subView_sub (elemOK_std h) hist s e hc hi
  have hg : (subView G (elemOK_std h) hist s).geo ((subView G (elemOK_std h) hist s).sub e k.codim k.sub) = t := by
    rw [← h.base.subGeo e.1 _ _ t ht, ← hs]; rfl
  rw [Function.comp_apply, a _ _ (by rw [hg]; exact hj), hs]

theorem layout_one (dim : Nat) (t : Geo) : lagrangeLayout 1 dim t ≤ 1 := by
  unfold lagrangeLayout
  rw [if_neg (by decide)]
  split
  · rcases Nat.eq_zero_or_pos t.dim with h | h
    · simp [h]
    · rw [Nat.choose_eq_zero_of_lt (by omega)]; omega
  split
  · rcases Nat.eq_zero_or_pos t.dim with h | h
    · simp [h]
    · rw [Nat.zero_pow h]; omega
  split
  · omega
  split
  · simp
  · omega

variable [LinearOrder α]

theorem lagrangeIndex_sub {G : LGrid E S α} (h : G.OK) {hist : List E} {s : ISet} (hE : ElemOK G.toGridView) (h' : (subLGrid G hE hist s).OK) {order : Nat} (h17 : G.dim = 3 → order ≤ 17)
    (e : {e // e ∈ hist}) {k : Key} (hk : ValidKey G order e.1 k) :
    ∃ p, p < lagrangeLayout order G.dim (G.geo (G.sub e.1 k.codim k.sub)) ∧
      lagrangeIndex G order e.1 k = some (mapperIndex G.toGridView (lagrangeLayout order G.dim) (G.sub e.1 k.codim k.sub) + p) ∧
      lagrangeIndex (subLGrid G hE hist s) order e k =
        some (mapperIndex (subView G.toGridView hE hist s) (lagrangeLayout order G.dim) ((subView G.toGridView hE hist s).sub e k.codim k.sub) + p) := by
  have hk' : ValidKey (subLGrid G hE hist s) order e k := hk
  obtain ⟨p, p1, p2⟩ := Continuity.lagrangeIndex_block h order h17 hk
  obtain ⟨q, q1, q2⟩ := Continuity.lagrangeIndex_block h' order h17 hk'
  refine ⟨p, p1, p2, ?_⟩
  by_cases h1 : order = 1
  · subst h1
    have a := layout_one G.dim (G.geo (G.sub e.1 k.codim k.sub))
    have b := layout_one (subLGrid G hE hist s).dim ((subLGrid G hE hist s).geo ((subLGrid G hE hist s).sub e k.codim k.sub))
    have : p = q := by omega
    rw [this]
    exact q2
  · rw [lagrangeIndex, if_neg h1] at p2 ⊢
    show ((computeFaceOrientations (refOf (G.elemGeo e.1)) (G.ids e.1) order).bind _) = _
    cases hd : computeFaceOrientations (refOf (G.elemGeo e.1)) (G.ids e.1) order with
    | none => rw [hd] at p2; simp at p2
    | some d =>
      rw [hd] at p2
      rw [Option.bind_some] at p2 ⊢
      show ((permuteFaceDOF G.dim order k.sub k.codim k.index d).bind _) = _
      cases hp : permuteFaceDOF G.dim order k.sub k.codim k.index d with
      | none => rw [hp] at p2; simp at p2
      | some r =>
        rw [hp, Option.bind_some, Option.some.injEq] at p2
        rw [Option.bind_some]
        have : r = p := by omega
        rw [this]
        rfl

/-- **C86.** Lagrange bases of all orders: the indices on the subdomain are a renumbering of those indices of the basis on the whole grid that occur on elements of the subdomain. -/
theorem C86_lagrange {G : LGrid E S α} (h : G.OK) (closed : Closed G) {order : Nat} (h17 : G.dim = 3 → order ≤ 17) {keys : Geo → List Key}
    (hk : LagrangeKeys G order fun e => keys (G.elemGeo e)) (hist : List E) :
    ∃ s, ISet.run G.toGridView hist = some s ∧ ∃ φ : Nat → Nat,
      (∀ e : {e // e ∈ hist}, ((lagrangeLeaf (subLGrid G (elemOK_std (std_of h)) hist s) order fun e => keys (G.elemGeo e.1)).loc e).map φ =
        (lagrangeLeaf G order fun e => keys (G.elemGeo e)).loc e.1) ∧
      ∀ n < (lagrangeLeaf (subLGrid G (elemOK_std (std_of h)) hist s) order fun e => keys (G.elemGeo e.1)).dim,
        φ n < (lagrangeLeaf G order fun e => keys (G.elemGeo e)).dim ∧
        (∃ e ∈ hist, φ n ∈ (lagrangeLeaf G order fun e => keys (G.elemGeo e)).loc e) ∧
        ∀ m < (lagrangeLeaf (subLGrid G (elemOK_std (std_of h)) hist s) order fun e => keys (G.elemGeo e.1)).dim, φ n = φ m → n = m := by
  obtain ⟨s, h1, h2, -⟩ := C86_lagrangeGrid h closed hist
  have hE := elemOK_std (std_of h)
  obtain ⟨φ, a, b, c⟩ := mapper_renumber h.base h2.base (fun x => x.1) Subtype.val_injective (fun _ => rfl) (lagrangeLayout order G.dim)
  have hloc : ∀ e : {e // e ∈ hist}, ((lagrangeLeaf (subLGrid G hE hist s) order fun e => keys (G.elemGeo e.1)).loc e).map φ =
        (lagrangeLeaf G order fun e => keys (G.elemGeo e)).loc e.1 := by
    intro e
    simp only [lagrangeLeaf, List.map_map]
    refine List.map_congr_left fun k hke => ?_
    have hv := (hk.mem e.1 k).1 hke
    obtain ⟨p, hp, e1, e2⟩ := lagrangeIndex_sub h hE h2 h17 e hv
    obtain ⟨hc, t, ht, -⟩ := hv
    have hi : k.sub < (G.refSubs (G.elemGeo e.1) k.codim).length := by rw [h.std]; exact (List.getElem?_eq_some_iff.1 ht).1
    have hs := subView_sub hE hist s e hc hi
    rw [Function.comp_apply, e1, e2, Option.getD_some, Option.getD_some]
    have hg : (subLGrid G hE hist s).geo ((subView G.toGridView hE hist s).sub e k.codim k.sub) = G.geo (G.sub e.1 k.codim k.sub) := by rw [← hs]; rfl
    have := a ((subView G.toGridView hE hist s).sub e k.codim k.sub) p (by rw [hg]; exact hp)
    rw [← hs]
    exact this
  refine ⟨s, h1, φ, hloc, fun n hn => ⟨b n hn, ?_, c n hn⟩⟩
  obtain ⟨e, k, hv, hi⟩ := lagrange_covered h2 order h17 n hn
  refine ⟨e.1, e.2, ?_⟩
  rw [← hloc e, List.mem_map]
  refine ⟨n, ?_, rfl⟩
  simp only [lagrangeLeaf, List.mem_map]
  exact ⟨k, (hk.mem e.1 k).2 hv, by rw [hi]; rfl⟩

/-- **C86.** `dimension()` of the Lagrange basis on the subdomain is the number of those functions of the basis on the whole grid that belong to elements of the subdomain. -/
theorem C86_dimension {G : LGrid E S α} (h : G.OK) (closed : Closed G) {order : Nat} (h17 : G.dim = 3 → order ≤ 17) {keys : Geo → List Key}
    (hk : LagrangeKeys G order fun e => keys (G.elemGeo e)) (hist : List E) :
    ∃ s, ISet.run G.toGridView hist = some s ∧
      (lagrangeLeaf (subLGrid G (elemOK_std (std_of h)) hist s) order fun e => keys (G.elemGeo e.1)).dim =
        {n | ∃ e ∈ hist, n ∈ (lagrangeLeaf G order fun e => keys (G.elemGeo e)).loc e}.ncard := by
  obtain ⟨s, h1, φ, h2, h3⟩ := C86_lagrange h closed h17 hk hist
  obtain ⟨s', h1', h4, -⟩ := C86_lagrangeGrid h closed hist
  obtain rfl : s = s' := Option.some.inj (h1.symm.trans h1')
  refine ⟨s, h1, ?_⟩
  generalize hL : (lagrangeLeaf (subLGrid G (elemOK_std (std_of h)) hist s) order fun e => keys (G.elemGeo e.1)) = L at h2 h3 ⊢
  have hlt : ∀ e, ∀ n ∈ L.loc e, n < L.dim := by
    intro e n hn
    rw [← hL] at hn ⊢
    simp only [lagrangeLeaf, List.mem_map] at hn ⊢
    obtain ⟨k, hke, rfl⟩ := hn
    have hv : ValidKey (subLGrid G (elemOK_std (std_of h)) hist s) order e k := (hk.mem e.1 k).1 hke
    obtain ⟨p, hp, h5⟩ := Continuity.lagrangeIndex_block h4 order h17 hv
    rw [h5]
    exact mapper_lt h4.base _ _ p hp
  have : {n | ∃ e ∈ hist, n ∈ (lagrangeLeaf G order fun e => keys (G.elemGeo e)).loc e} = φ '' {n | n < L.dim} := by
    ext n
    constructor
    · rintro ⟨e, he, hn⟩
      rw [← h2 ⟨e, he⟩, List.mem_map] at hn
      obtain ⟨m, hm, rfl⟩ := hn
      exact ⟨m, hlt _ m hm, rfl⟩
    · rintro ⟨m, hm, rfl⟩
      exact (h3 m hm).2.1
  have hinj : Set.InjOn φ {n | n < L.dim} := fun n hn m hm heq => (h3 n hn).2.2 m hm heq
  rw [this, hinj.ncard_image]
  have : {n | n < L.dim} = (Finset.range L.dim : Set Nat) := by ext n; simp
  rw [this, Set.ncard_coe_finset, Finset.card_range]

open Verif.Lagrange.Continuity (value lagrangeValues) in
open Verif.Piola (Vec) in
/-- **C86.** The functions of the Lagrange basis on the subdomain are exactly the restrictions of the functions of the basis on the whole grid. -/
theorem C86_functions {K : Type} [Field K] {d : Nat} {G : LGrid E S α} (h : G.OK) (closed : Closed G) {order : Nat} (h17 : G.dim = 3 → order ≤ 17) {keys : Geo → List Key}
    (hk : LagrangeKeys G order fun e => keys (G.elemGeo e)) (hist : List E) :
    ∃ s, ISet.run G.toGridView hist = some s ∧
      (∀ vec : Nat → K, ∃ vec' : Nat → K, ∀ (e : {e // e ∈ hist}) (x : Vec K d),
        value (subLGrid G (elemOK_std (std_of h)) hist s) order (fun e => keys (G.elemGeo e.1)) (lagrangeValues order keys) vec' e x =
          value G order (fun e => keys (G.elemGeo e)) (lagrangeValues order keys) vec e.1 x) ∧
      ∀ vec' : Nat → K, ∃ vec : Nat → K, ∀ (e : {e // e ∈ hist}) (x : Vec K d),
        value (subLGrid G (elemOK_std (std_of h)) hist s) order (fun e => keys (G.elemGeo e.1)) (lagrangeValues order keys) vec' e x =
          value G order (fun e => keys (G.elemGeo e)) (lagrangeValues order keys) vec e.1 x := by
  obtain ⟨s, h1, φ, h2, h3⟩ := C86_lagrange h closed h17 hk hist
  obtain ⟨s', h1', h4, -⟩ := C86_lagrangeGrid h closed hist
  obtain rfl : s = s' := Option.some.inj (h1.symm.trans h1')
  have hlt : ∀ e, ∀ n ∈ (lagrangeLeaf (subLGrid G (elemOK_std (std_of h)) hist s) order fun e => keys (G.elemGeo e.1)).loc e,
      n < (lagrangeLeaf (subLGrid G (elemOK_std (std_of h)) hist s) order fun e => keys (G.elemGeo e.1)).dim := by
    intro e n hn
    simp only [lagrangeLeaf, List.mem_map] at hn ⊢
    obtain ⟨k, hke, rfl⟩ := hn
    have hv : ValidKey (subLGrid G (elemOK_std (std_of h)) hist s) order e k := (hk.mem e.1 k).1 hke
    obtain ⟨p, hp, h5⟩ := Continuity.lagrangeIndex_block h4 order h17 hv
    rw [h5]
    exact mapper_lt h4.base _ _ p hp
  have key : ∀ (vec vec' : Nat → K), (∀ n < (lagrangeLeaf (subLGrid G (elemOK_std (std_of h)) hist s) order fun e => keys (G.elemGeo e.1)).dim, vec' n = vec (φ n)) →
      ∀ (e : {e // e ∈ hist}) (x : Vec K d),
        value (subLGrid G (elemOK_std (std_of h)) hist s) order (fun e => keys (G.elemGeo e.1)) (lagrangeValues order keys) vec' e x =
          value G order (fun e => keys (G.elemGeo e)) (lagrangeValues order keys) vec e.1 x := by
    intro vec vec' hv e x
    simp only [value]
    rw [← h2 e, List.map_map]
    have : ((lagrangeLeaf (subLGrid G (elemOK_std (std_of h)) hist s) order fun e => keys (G.elemGeo e.1)).loc e).map vec' =
        ((lagrangeLeaf (subLGrid G (elemOK_std (std_of h)) hist s) order fun e => keys (G.elemGeo e.1)).loc e).map (vec ∘ φ) :=
      List.map_congr_left fun n hn => hv n (hlt e n hn)
    rw [this]
    rfl
  refine ⟨s, h1, fun vec => ⟨vec ∘ φ, key vec _ fun _ _ => rfl⟩, fun vec' => ?_⟩
  have hex : ∀ m, ∃ y : K, ∀ n < (lagrangeLeaf (subLGrid G (elemOK_std (std_of h)) hist s) order fun e => keys (G.elemGeo e.1)).dim, φ n = m → vec' n = y := by
    intro m
    by_cases hm : ∃ n < (lagrangeLeaf (subLGrid G (elemOK_std (std_of h)) hist s) order fun e => keys (G.elemGeo e.1)).dim, φ n = m
    · obtain ⟨n, hn, rfl⟩ := hm
      exact ⟨vec' n, fun n' hn' heq => by rw [(h3 n hn).2.2 n' hn' heq.symm]⟩
    · exact ⟨0, fun n hn heq => absurd ⟨n, hn, heq⟩ hm⟩
  choose vec hvec using hex
  exact ⟨vec, key vec vec' fun n hn => hvec _ n hn rfl⟩

/-! ## Restricted bases -/

omit [LinearOrder α] in
theorem accept_sub {G : LGrid E S α} (h : G.OK) (hist : List E) {s : ISet} (hs : ISet.run G.toGridView hist = some s) {order : Nat} (ha : lagrangeAccept G.toGridView order = true) :
    lagrangeAccept (subView G.toGridView (elemOK_std (std_of h)) hist s) order = true := by
  obtain ⟨s', h1, -, -, hsurj, -⟩ := C30_indexSet h.base (dimOK_std (std_of h)) hist
  obtain rfl : s = s' := Option.some.inj (hs.symm.trans h1)
  have key : ∀ t, 0 < (subView G.toGridView (elemOK_std (std_of h)) hist s).gsize t → 0 < G.gsize t := by
    intro t ht
    obtain ⟨x, rfl, -⟩ := hsurj t 0 ht
    exact Nat.lt_of_le_of_lt (Nat.zero_le _) (h.base.idxLt x)
  have k5 := key ⟨3, 5⟩
  have k6 := key ⟨3, 6⟩
  simp only [lagrangeAccept, Bool.and_eq_true, Bool.not_eq_true', Bool.and_eq_false_iff, decide_eq_false_iff_not] at ha ⊢
  refine ⟨⟨?_, ?_⟩, ha.2⟩
  · rcases ha.1.1 with h | h
    · exact .inl h
    · exact .inr fun h' => h (k5 h')
  · rcases ha.1.2 with h | h
    · exact .inl h
    · exact .inr fun h' => h (k6 h')

open Classical in
/-- The pre-basis on the subdomain as seen from the whole grid. It is only used on elements of the subdomain (restrictedbasis.hh:74-85, 186-192). -/
noncomputable def extend {hist : List E} (L : IndexTree.Leaf {e // e ∈ hist}) : IndexTree.Leaf E where
  dim := L.dim
  maxN := L.maxN
  loc := fun e => if he : e ∈ hist then L.loc ⟨e, he⟩ else []

/-- `BasisFactory::restrict(lagrange<order>(), subDomain)`. -/
noncomputable def restrictedLagrange (G : LGrid E S α) (hE : ElemOK G.toGridView) (hist : List E) (s : ISet) (order : Nat) (keys : Geo → List Key) : IndexTree.PB E :=
  .restricted (fun e => decide (s.containsElem G.toGridView e = .value true)) (.leaf (extend (lagrangeLeaf (subLGrid G hE hist s) order fun e => keys (G.elemGeo e.1))))

/-- **C86.** Lagrange bases restricted to a subdomain satisfy the assumptions of the theorems on basis trees (C01-C12), in any tree. They have the indices of the basis on the subdomain
on its elements, and none elsewhere. -/
theorem C86_restricted {G : LGrid E S α} (h : G.OK) (closed : Closed G) {order : Nat} (ha : lagrangeAccept G.toGridView order = true) {keys : Geo → List Key}
    (hk : LagrangeKeys G order fun e => keys (G.elemGeo e)) (hist : List E) :
    ∃ s, ISet.run G.toGridView hist = some s ∧ (restrictedLagrange G (elemOK_std (std_of h)) hist s order keys).WF ∧
      (restrictedLagrange G (elemOK_std (std_of h)) hist s order keys).Covered (fun _ => True) ∧
      (∀ e : {e // e ∈ hist}, IndexTree.localIndices (restrictedLagrange G (elemOK_std (std_of h)) hist s order keys).model e.1 =
        some (((lagrangeLeaf (subLGrid G (elemOK_std (std_of h)) hist s) order fun e => keys (G.elemGeo e.1)).loc e).map fun n => [n])) ∧
      ∀ e, e ∉ hist → IndexTree.localIndices (restrictedLagrange G (elemOK_std (std_of h)) hist s order keys).model e = some [] := by
  obtain ⟨s, h1, h2, -⟩ := C86_lagrangeGrid h closed hist
  have hE := elemOK_std (std_of h)
  have hk' : LagrangeKeys (subLGrid G hE hist s) order fun e => keys (G.elemGeo e.1) := ⟨fun e => hk.nodup e.1, fun e k => hk.mem e.1 k⟩
  have wf := lagrangeLeaf_WF h2 (accept_sub h hist h1 ha) hk'
  have cov := lagrangeLeaf_Covered h2 (accept_sub h hist h1 ha) hk'
  rw [IndexTree.PB.WF] at wf
  rw [IndexTree.PB.Covered] at cov
  have hcont : ∀ e, s.containsElem G.toGridView e = .value true ↔ e ∈ hist := by
    obtain ⟨s', h1', h2', -⟩ := C30_indexSet h.base (dimOK_std (std_of h)) hist
    obtain rfl : s = s' := Option.some.inj (h1.symm.trans h1')
    intro e
    rw [← inserted_elem h.base (dimOK_std (std_of h)) hE hist e]
    constructor
    · intro hc
      by_contra hni
      have := ((h2' (G.sub e 0 0)).2 hni).1
      rw [ISet.containsElem, this] at hc
      cases hc
    · exact fun hi => ((h2' _).1 hi).1
  have wfe : (IndexTree.PB.leaf (extend (lagrangeLeaf (subLGrid G hE hist s) order fun e => keys (G.elemGeo e.1)))).WF := by
    rw [IndexTree.PB.WF]
    refine ⟨fun e i hi => ?_, fun e => ?_⟩
    · by_cases he : e ∈ hist
      · simp only [extend, he, dite_true] at hi ⊢
        exact wf.1 _ i hi
      · simp [extend, he] at hi
    · by_cases he : e ∈ hist
      · simp only [extend, he, dite_true]
        exact wf.2 _
      · simp [extend, he]
  have R := IndexTree.PB.refines _ wfe
  refine ⟨s, h1, ?_, ?_, fun e => ?_, fun e he => ?_⟩
  · rw [restrictedLagrange, IndexTree.PB.WF]; exact wfe
  · rw [restrictedLagrange, IndexTree.PB.Covered, IndexTree.PB.Covered]
    intro n hn
    obtain ⟨e, -, hm⟩ := cov n hn
    exact ⟨e.1, ⟨trivial, by rw [decide_eq_true_eq]; exact (hcont e.1).2 e.2⟩, by simpa [extend, e.2] using hm⟩
  · rw [restrictedLagrange, (IndexTree.C14_restricted _ _ wfe e.1).1, if_pos (by rw [decide_eq_true_eq]; exact (hcont e.1).2 e.2), IndexTree.localIndices_eq R]
    simp [IndexTree.PB.spec, IndexTree.specLeaf, extend, e.2]
  · rw [restrictedLagrange, (IndexTree.C14_restricted _ _ wfe e).1, if_neg]
    rw [decide_eq_true_eq, hcont]; exact he

/-! ## Insertion into a subdomain with a basis -/

/-- `mapper.index(entity)` of a basis that was created when the index set was `s`, now that the index set is `t`: the mapper keeps the first indices of the types, and refers to the
index set of the subdomain (subdomain.hh:462-465, 521). -/
def laterIndex (G : GridView E S) (s t : ISet) (lay : Layout) (x : S) : Nat :=
  offset (s.sizeOf G) lay ((List.range (G.dim + 1)).flatMap fun c => (s.types G c).getD []) (G.geo x) + t.indexD G x * lay (G.geo x)

omit [LinearOrder α] in
/-- **C86.** If elements are inserted after the basis was created, then the indices of the old entities do not change, also without update of the basis. -/
theorem C86_insert {G : GridView E S} (h : StdGrid G) (hist more : List E) (lay : Layout) :
    ∃ s t, ISet.run G hist = some s ∧ ISet.run G (hist ++ more) = some t ∧
      ∀ x : {x // Inserted G hist x}, laterIndex G s t lay x.1 = mapperIndex (subView G (elemOK_std h) hist s) lay x := by
  obtain ⟨s, t, h1, h2, h3, -⟩ := C30_stable h.base (dimOK_std h) hist more
  obtain ⟨s', h1', h4, -⟩ := C30_indexSet h.base (dimOK_std h) hist
  obtain rfl : s = s' := Option.some.inj (h1.symm.trans h1')
  refine ⟨s, t, h1, h2, fun x => ?_⟩
  obtain ⟨n, hn, -⟩ := ((h4 x.1).1 x.2).2
  have a : s.indexD G x.1 = n := by simp [ISet.indexD, hn]
  have b : t.indexD G x.1 = n := by simp [ISet.indexD, h3 _ _ hn]
  simp only [laterIndex, mapperIndex, subView]
  rw [a, b]

omit [LinearOrder α] in
/-- **C86.** For the new elements the basis has to be updated: before that, two different points of the Lagrange basis of order 2 (an edge of the new element and a vertex of the old one)
have the same index, and a vertex has an index beyond the dimension. -/
theorem C86_insert_false : ∃ (G : LGrid (Fin 2) (Fin 11) Nat) (h : G.OK) (s t : ISet), ISet.run G.toGridView [1] = some s ∧ ISet.run G.toGridView [1, 0] = some t ∧
    (∃ x y, x ≠ y ∧ Inserted G.toGridView [1, 0] x ∧ Inserted G.toGridView [1] y ∧ 0 < lagrangeLayout 2 2 (G.geo x) ∧ 0 < lagrangeLayout 2 2 (G.geo y) ∧
      laterIndex G.toGridView s t (lagrangeLayout 2 2) x = laterIndex G.toGridView s t (lagrangeLayout 2 2) y) ∧
    ∃ x, Inserted G.toGridView [1, 0] x ∧ 0 < lagrangeLayout 2 2 (G.geo x) ∧
      mapperSize (subView G.toGridView (elemOK_std (std_of h)) [1] s) (lagrangeLayout 2 2) ≤ laterIndex G.toGridView s t (lagrangeLayout 2 2) x := by
  refine ⟨demoGrid, demoGrid_OK, (ISet.run demoGrid.toGridView [1]).get (by decide +kernel), (ISet.run demoGrid.toGridView [1, 0]).get (by decide +kernel), by simp, by simp, ?_, ?_⟩
  · exact ⟨2, 9, by decide, ⟨0, by decide, 1, 0, by decide, by decide, by decide⟩, ⟨1, by decide, 2, 0, by decide, by decide, by decide⟩, by decide, by decide, by decide +kernel⟩
  · exact ⟨7, ⟨0, by decide, 2, 0, by decide, by decide, by decide⟩, by decide, by decide +kernel⟩

/-! ## Examples -/

omit [LinearOrder α] in
/-- The second of two triangles as subdomain: dimension 6 for order 2, 10 for order 3. -/
example : (ISet.run demoGrid.toGridView [1, 1]).map (fun s => [2, 3].map fun k =>
    mapperSize (subView demoGrid.toGridView (elemOK_std demoGrid_std) [1, 1] s) (lagrangeLayout k 2)) = some [6, 10] := by decide +kernel

end Verif.SubDomain

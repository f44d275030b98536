import Verif.SubDomain.IndexSet

/-!
# Iteration over subdomains, interfaces and skeletons

Model of `SubDomainGridView::ElementIterator`, `Impl::GlobalIntersectionIt`, `SubDomainInterface` and
`SubDomainSkeleton` in `dune/functions/common/subdomain.hh`.

Iterators of the host grid view are modelled as the list of objects that are still to be visited; the end iterator is
the empty list. Dereferencing or incrementing the end iterator is undefined (`none`).
-/

namespace Verif.SubDomain

open Verif.Mapper

variable {E S : Type}

/-! ## Elements of a subdomain -/

/-- The loop `while ((hostIt_ != hostEndIt_) and (not contains(*hostIt_))) ++hostIt_`, subdomain.hh:393-394, 400-401. -/
def skip (contains : E → Bool) : List E → List E
  | [] => []
  | e :: es => if contains e then e :: es else skip contains es

/-- Constructor of the element iterator, subdomain.hh:388-395. -/
def elemBegin (contains : E → Bool) (host : List E) : List E := skip contains host

/-- `operator++`, subdomain.hh:397-403. -/
def elemNext (contains : E → Bool) : List E → Option (List E)
  | [] => none
  | _ :: es => some (skip contains es)

/-- A loop `for (; it != end; ++it) visit(*it)`: `Visits next s l` says that starting in the state `s` the loop terminates,
without undefined behaviour, after visiting `l`. -/
inductive Visits {σ α : Type} (deref : σ → Option α) (isEnd : σ → Bool) (next : σ → Option σ) : σ → List α → Prop
  | done {s : σ} : isEnd s = true → Visits deref isEnd next s []
  | step {s s' : σ} {a : α} {l : List α} : isEnd s = false → deref s = some a → next s = some s' →
      Visits deref isEnd next s' l → Visits deref isEnd next s (a :: l)

/-- The loop has at most one result. -/
theorem Visits.unique {σ α : Type} {deref : σ → Option α} {isEnd : σ → Bool} {next : σ → Option σ} {s : σ} {l l' : List α}
    (h : Visits deref isEnd next s l) (h' : Visits deref isEnd next s l') : l = l' := by
  induction h generalizing l' with
  | done h1 =>
    cases h' with
    | done _ => rfl
    | step h2 _ _ _ => rw [h1] at h2; cases h2
  | step h1 h2 h3 _ ih =>
    cases h' with
    | done h4 => rw [h1] at h4; cases h4
    | step h4 h5 h6 h7 =>
      rw [h2] at h5; rw [h3] at h6
      cases h5; cases h6
      rw [ih h7]

/-- Loop over the elements of a subdomain view, subdomain.hh:380-419, 484-497: comparison with `end()` compares the host
iterators. -/
def elemVisits (contains : E → Bool) (host l : List E) : Prop :=
  Visits (fun s : List E => s.head?) (fun s => s.isEmpty) (elemNext contains) (elemBegin contains host) l

/-- **C31.** The loop over the elements of a subdomain visits exactly the contained elements, each one as often and in the
same order as the host grid view. -/
theorem C31_elements (contains : E → Bool) (host : List E) :
    elemVisits contains host (host.filter contains) := by
  unfold elemVisits elemBegin
  induction host with
  | nil => exact .done rfl
  | cons e es ih =>
    by_cases h : contains e = true
    · simp only [skip, h, if_true, List.filter_cons_of_pos]
      exact .step rfl rfl rfl ih
    · simp only [skip, h, Bool.false_eq_true, if_false]
      rw [List.filter_cons_of_neg h]
      exact ih

/-- `SubDomain::contains(element)`, subdomain.hh:628-631; an element is its own sub-entity of codimension 0. -/
def ISet.containsElem (G : GridView E S) (s : ISet) (e : E) : Result Bool := s.contains G (G.sub e 0 0)

/-- Contract of the grid: the only sub-entity of codimension 0 is the element itself, and different elements are different entities. -/
structure ElemOK (G : GridView E S) : Prop where
  self : ∀ e, (G.refSubs (G.elemGeo e) 0).length = 1
  inj : ∀ e e', G.sub e 0 0 = G.sub e' 0 0 → e = e'

theorem inserted_elem {G : GridView E S} (hG : G.OK) (hD : DimOK G) (hE : ElemOK G) (h : List E) (e : E) :
    Inserted G h (G.sub e 0 0) ↔ e ∈ h := by
  constructor
  · rintro ⟨e', he', c, i, hc, hi, heq⟩
    have h1 := hD e' c hc _ (List.getElem_mem hi)
    rw [← hG.subGeo e' c i _ (List.getElem?_eq_getElem hi), heq] at h1
    have hi0 : 0 < (G.refSubs (G.elemGeo e) 0).length := by rw [hE.self]; omega
    have h2 := hD e 0 (by omega) _ (List.getElem_mem hi0)
    rw [← hG.subGeo e 0 0 _ (List.getElem?_eq_getElem hi0)] at h2
    have hc0 : c = 0 := by omega
    subst hc0
    have hi' : i = 0 := by have := hE.self e'; omega
    subst hi'
    rw [← hE.inj _ _ heq]; exact he'
  · intro he
    exact ⟨e, he, 0, 0, by omega, by rw [hE.self]; omega, rfl⟩

/-- **C31.** The subdomain built by inserting the elements `h` in any order and with any repetitions: iteration over its grid view
visits exactly the elements of the grid which were inserted, once each and in grid order. -/
theorem C31_subdomain {G : GridView E S} (hG : G.OK) (hD : DimOK G) (hE : ElemOK G) (h : List E)
    (host : List E) (hn : host.Nodup) :
    ∃ s, ISet.run G h = some s ∧
      ∃ l, elemVisits (fun e => s.containsElem G e = .value true) host l ∧ l.Nodup ∧ l.Sublist host ∧
        ∀ e, e ∈ l ↔ e ∈ host ∧ e ∈ h := by
  obtain ⟨s, h1, h2, -⟩ := C30_indexSet hG hD h
  refine ⟨s, h1, _, C31_elements _ host, hn.filter _, List.filter_sublist, ?_⟩
  intro e
  rw [List.mem_filter]
  have : s.containsElem G e = .value true ↔ e ∈ h := by
    rw [← inserted_elem hG hD hE h e]
    constructor
    · intro hc
      by_contra hni
      have := ((h2 (G.sub e 0 0)).2 hni).1
      rw [ISet.containsElem, this] at hc
      simp at hc
    · intro hi
      exact ((h2 (G.sub e 0 0)).1 hi).1
  simp only [decide_eq_true_eq, this]

/-! ## Intersections -/

/-- The methods of an intersection used here. -/
structure Isect (E : Type) where
  inside : E
  outside : E
  boundary : Bool
  neighbor : Bool

/-- State of `GlobalIntersectionIt`: `elementIt_` and `iIt_`, subdomain.hh:155-161. The cached copies `element_` and
`intersection_` are the first entries of the lists. -/
abbrev GIt (E : Type) := List E × List (Isect E)

/-- The loop of `operator++`, subdomain.hh:122-137, from the point after `++(*iIt_)`. `isects e` is the range
`ibegin(e)..iend(e)`. -/
def settle (isects : E → List (Isect E)) (contains : Isect E → Bool) : List E → List (Isect E) → Option (GIt E)
  | [], _ => none
  | e :: es, j :: js => if contains j then some (e :: es, j :: js) else settle isects contains (e :: es) js
  | [_], [] => some ([], [])
  | _ :: e' :: es', [] =>
    match isects e' with
    | [] => none
    | j :: js => if contains j then some (e' :: es', j :: js) else settle isects contains (e' :: es') js
termination_by es js => (es.length, js.length)

/-- `operator++`, subdomain.hh:120-138. -/
def gNext (isects : E → List (Isect E)) (contains : Isect E → Bool) : GIt E → Option (GIt E)
  | (_, []) => none
  | (es, _ :: js) => settle isects contains es js

/-- Constructor, subdomain.hh:89-103. -/
def gBegin (isects : E → List (Isect E)) (contains : Isect E → Bool) : List E → Option (GIt E)
  | [] => some ([], [])
  | e :: es =>
    match isects e with
    | [] => none
    | j :: js => if contains j then some (e :: es, j :: js) else gNext isects contains (e :: es, j :: js)

/-- Loop with the sentinel, subdomain.hh:149-152: `l` is visited. -/
def gVisits (isects : E → List (Isect E)) (contains : Isect E → Bool) (els : List E) (l : List (Isect E)) : Prop :=
  ∃ s, gBegin isects contains els = some s ∧
    Visits (fun s : GIt E => s.2.head?) (fun s => s.1.isEmpty) (gNext isects contains) s l

theorem settle_visits (isects : E → List (Isect E)) (contains : Isect E → Bool) (hne : ∀ e, isects e ≠ [])
    (e : E) (es : List E) (js : List (Isect E)) :
    ∃ s, settle isects contains (e :: es) js = some s ∧
      Visits (fun s : GIt E => s.2.head?) (fun s => s.1.isEmpty) (gNext isects contains) s
        (js.filter contains ++ (es.flatMap isects).filter contains) := by
  induction es generalizing e js with
  | nil =>
    induction js with
    | nil =>
      refine ⟨([], []), by simp [settle], ?_⟩
      exact .done rfl
    | cons j js ih =>
      obtain ⟨s, h1, h2⟩ := ih
      by_cases hj : contains j = true
      · refine ⟨([e], j :: js), by simp [settle, hj], ?_⟩
        rw [List.filter_cons_of_pos hj, List.cons_append]
        exact .step rfl rfl (show gNext isects contains ([e], j :: js) = some s from h1) h2
      · refine ⟨s, by rw [settle, if_neg hj]; exact h1, ?_⟩
        rw [List.filter_cons_of_neg hj]; exact h2
  | cons e' es ihe =>
    induction js with
    | nil =>
      cases hi : isects e' with
      | nil => exact absurd hi (hne e')
      | cons j js =>
        obtain ⟨s, h1, h2⟩ := ihe e' js
        by_cases hj : contains j = true
        · refine ⟨(e' :: es, j :: js), by rw [settle]; simp [hi, hj], ?_⟩
          simp only [List.filter_nil, List.nil_append, List.flatMap_cons, hi, List.cons_append]
          rw [List.filter_cons_of_pos hj, List.filter_append]
          exact .step rfl rfl (show gNext isects contains (e' :: es, j :: js) = some s from h1) h2
        · refine ⟨s, by rw [settle]; simp [hi, hj, h1], ?_⟩
          simp only [List.filter_nil, List.nil_append, List.flatMap_cons, hi, List.cons_append]
          rw [List.filter_cons_of_neg hj, List.filter_append]
          exact h2
    | cons j js ih =>
      obtain ⟨s, h1, h2⟩ := ih
      by_cases hj : contains j = true
      · refine ⟨(e :: e' :: es, j :: js), by rw [settle, if_pos hj], ?_⟩
        rw [List.filter_cons_of_pos hj, List.cons_append]
        exact .step rfl rfl (show gNext isects contains (e :: e' :: es, j :: js) = some s from h1) h2
      · refine ⟨s, by rw [settle, if_neg hj]; exact h1, ?_⟩
        rw [List.filter_cons_of_neg hj]; exact h2

/-- **C31.** The global intersection iterator visits, for every predicate, exactly the intersections of all elements that satisfy it,
in order and as often as they occur — provided every element has at least one intersection. -/
theorem C31_intersections (isects : E → List (Isect E)) (contains : Isect E → Bool) (hne : ∀ e, isects e ≠ [])
    (els : List E) : gVisits isects contains els ((els.flatMap isects).filter contains) := by
  cases els with
  | nil => exact ⟨([], []), rfl, .done rfl⟩
  | cons e es =>
    obtain ⟨j, js, hi⟩ := List.exists_cons_of_ne_nil (hne e)
    obtain ⟨s, h1, h2⟩ := settle_visits isects contains hne e es js
    by_cases hj : contains j = true
    · refine ⟨(e :: es, j :: js), by simp [gBegin, hi, hj], ?_⟩
      simp only [List.flatMap_cons, hi, List.cons_append]
      rw [List.filter_cons_of_pos hj, List.filter_append]
      exact .step rfl rfl (show gNext isects contains (e :: es, j :: js) = some s from h1) h2
    · refine ⟨s, by simp only [gBegin, hi, hj, gNext]; exact h1, ?_⟩
      simp only [List.flatMap_cons, hi, List.cons_append]
      rw [List.filter_cons_of_neg hj, List.filter_append]
      exact h2

/-- Without that assumption the statement is false: the iterator dereferences the intersection end iterator of the
element without intersections. -/
theorem C31_no_intersections_false :
    ∃ (isects : Nat → List (Isect Nat)) (contains : Isect Nat → Bool) (els : List Nat),
      ¬ ∃ l, gVisits isects contains els l := by
  refine ⟨fun _ => [], fun _ => true, [0], ?_⟩
  rintro ⟨l, s, h, -⟩
  simp [gBegin] at h

/-- `SubDomainInterface::contains`, subdomain.hh:676-682. `A`, `B`: the `contains` methods of the subdomains. -/
def ifaceContains (A B : E → Bool) (is : Isect E) : Bool :=
  if is.boundary || !is.neighbor then false
  else (A is.inside && B is.outside) || (A is.outside && B is.inside)

/-- `SubDomainInterface::isOriented`, subdomain.hh:692-697. -/
def isOriented (A B : E → Bool) (is : Isect E) : Bool :=
  if is.boundary || !is.neighbor then false
  else A is.inside && B is.outside

/-- The predicate passed to the iterator in `SubDomainInterface::begin`, subdomain.hh:707-711. -/
def ifacePred (B : E → Bool) (is : Isect E) : Bool :=
  if is.boundary || !is.neighbor then false else B is.outside

/-- Loop over a `SubDomainInterface`, subdomain.hh:705-718: the iterator runs over the elements of the grid view of subdomain A,
i.e. the elements `elsA` visited by `elemVisits`. -/
def ifaceVisits (isects : E → List (Isect E)) (A B : E → Bool) (host : List E) (l : List (Isect E)) : Prop :=
  ∃ elsA, elemVisits A host elsA ∧ gVisits isects (ifacePred B) elsA l

/-- `SubDomainSkeleton::contains`, subdomain.hh:745-750. -/
def skelContains (A : E → Bool) (is : Isect E) : Bool :=
  if is.boundary || !is.neighbor then false else A is.inside && A is.outside

/-- Contract of the grid: every element has intersections, their inside is the element. -/
structure IsectOK (isects : E → List (Isect E)) : Prop where
  nonempty : ∀ e, isects e ≠ []
  inside : ∀ e, ∀ j ∈ isects e, j.inside = e

/-- **C31.** Iterating over an interface visits exactly the oriented intersections of the grid (the ones with inside in A and outside in B,
which are inside of the domain and have a neighbor), in grid order; each of them is contained in the interface. -/
theorem C31_interface {isects : E → List (Isect E)} (hI : IsectOK isects) (A B : E → Bool) (host : List E) :
    ifaceVisits isects A B host ((host.flatMap isects).filter (isOriented A B)) ∧
    ∀ is, isOriented A B is = true → ifaceContains A B is = true := by
  refine ⟨⟨host.filter A, C31_elements A host, ?_⟩, ?_⟩
  · have e : ((host.filter A).flatMap isects).filter (ifacePred B) = (host.flatMap isects).filter (isOriented A B) := by
      induction host with
      | nil => rfl
      | cons x xs ih =>
        by_cases hx : A x = true
        · rw [List.filter_cons_of_pos hx]
          simp only [List.flatMap_cons, List.filter_append, ih]
          congr 1
          apply List.filter_congr
          intro j hj
          simp only [ifacePred, isOriented, hI.inside x j hj, hx, Bool.true_and]
        · rw [List.filter_cons_of_neg hx]
          simp only [List.flatMap_cons, List.filter_append, ih]
          have : (isects x).filter (isOriented A B) = [] := by
            rw [List.filter_eq_nil_iff]
            intro j hj
            simp [isOriented, hI.inside x j hj, hx]
          rw [this, List.nil_append]
    rw [← e]; exact C31_intersections isects (ifacePred B) hI.nonempty (host.filter A)
  · intro is h
    simp only [isOriented, ifaceContains] at h ⊢
    split
    · rename_i h1; simp [h1] at h
    · rename_i h1; rw [if_neg h1] at h; simp [h]

/-- The same intersection seen from the other side. -/
def Isect.flip (is : Isect E) : Isect E := { is with inside := is.outside, outside := is.inside }

/-- **C31.** The membership tests. An intersection is in the interface iff it is not a boundary intersection, has a
neighbor and its two elements are in different ones of the two subdomains; membership is symmetric; seen from exactly one side
an intersection of the interface of disjoint subdomains is visited by the iterator. The skeleton consists of the
intersections with both elements in the subdomain, whichever side they are seen from; it is the interface of the subdomain with itself. -/
theorem C31_membership (A B : E → Bool) (is : Isect E) :
    (ifaceContains A B is = true ↔ is.boundary = false ∧ is.neighbor = true ∧
      ((A is.inside = true ∧ B is.outside = true) ∨ (A is.outside = true ∧ B is.inside = true))) ∧
    (isOriented A B is = true ↔ is.boundary = false ∧ is.neighbor = true ∧ A is.inside = true ∧ B is.outside = true) ∧
    ifaceContains A B is = ifaceContains B A is ∧ ifaceContains A B is.flip = ifaceContains A B is ∧
    (ifaceContains A B is = (isOriented A B is || isOriented A B is.flip)) ∧
    ((∀ e, ¬ (A e = true ∧ B e = true)) → ifaceContains A B is = true →
      (isOriented A B is = true ∧ isOriented A B is.flip = false) ∨ (isOriented A B is = false ∧ isOriented A B is.flip = true)) ∧
    (skelContains A is = true ↔ is.boundary = false ∧ is.neighbor = true ∧ A is.inside = true ∧ A is.outside = true) ∧
    skelContains A is.flip = skelContains A is ∧ skelContains A is = ifaceContains A A is := by
  obtain ⟨i, o, b, n⟩ := is
  have hAB : (∀ e, ¬ (A e = true ∧ B e = true)) → ¬ (A i = true ∧ B i = true) ∧ ¬ (A o = true ∧ B o = true) :=
    fun h => ⟨h _, h _⟩
  simp only [ifaceContains, isOriented, skelContains, Isect.flip]
  refine ⟨?_, ?_, ?_, ?_, ?_, fun h => ?_, ?_, ?_, ?_⟩
  case refine_6 =>
    replace h := hAB h
    revert h
    generalize A i = p, A o = q, B i = r, B o = s
    cases b <;> cases n <;> cases p <;> cases q <;> cases r <;> cases s <;> simp
  all_goals
    clear hAB
    generalize A i = p, A o = q, B i = r, B o = s
    cases b <;> cases n <;> cases p <;> cases q <;> cases r <;> cases s <;> simp

/-! ## Example: four elements in a row, A = {0, 1, 3}, B = {2} -/

/-- Intersections of a one-dimensional grid with `n` elements. -/
def rowIsects (n e : Nat) : List (Isect Nat) :=
  [if e = 0 then ⟨e, e, true, false⟩ else ⟨e, e - 1, false, true⟩,
   if e + 1 = n then ⟨e, e, true, false⟩ else ⟨e, e + 1, false, true⟩]

example : ∃ l, ifaceVisits (rowIsects 4) (fun e => e ≠ 2) (fun e => e = 2) [0, 1, 2, 3] l ∧
    l.map (fun is => (is.inside, is.outside)) = [(1, 2), (3, 2)] :=
  ⟨_, (C31_interface ⟨by intro e; simp [rowIsects], by
    intro e j hj
    simp [rowIsects] at hj
    rcases hj with rfl | rfl <;> split <;> rfl⟩ _ _ _).1, by decide +kernel⟩

example : ∃ s, ISet.run Lagrange.demoGrid.toGridView [1, 1] = some s ∧
    elemVisits (fun e => s.containsElem Lagrange.demoGrid.toGridView e = .value true) [0, 1] [1] := by
  obtain ⟨s, h1, l, h2, h3, h4, h5⟩ := C31_subdomain Lagrange.demoGrid_OK.base (dimOK_std Lagrange.demoGrid_std)
    ⟨by decide +kernel, Lagrange.demoGrid_OK.elemInj⟩ [1, 1] [0, 1] (by decide)
  refine ⟨s, h1, ?_⟩
  have : l = [1] := by
    have h0 : (0 : Fin 2) ∉ l := fun h => by have := (h5 0).mp h; simp at this
    have h1' : (1 : Fin 2) ∈ l := (h5 1).mpr (by simp)
    have : ∀ x ∈ l, x = 1 := by
      intro x hx
      match x with
      | 0 => exact absurd hx h0
      | 1 => rfl
    match l, h3, this, h1' with
    | [a], _, h, _ => rw [h a (by simp)]
    | a :: b :: l, hn, h, _ =>
      rw [h a (by simp), h b (by simp)] at hn
      simp at hn
  exact this ▸ h2

end Verif.SubDomain

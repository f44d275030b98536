import Verif.SubDomain.Iteration

/-!
# The global intersection iterator with its caches

Model of `Impl::GlobalIntersectionIt` in `dune/functions/common/subdomain.hh` with all of its data members: the two iterators
of the grid view, the optional which holds the intersection iterator, and the copies of the element and of the intersection
which exist if the iterators of the grid view return temporaries.

`Iteration.lean` models the same class by its two positions only. Here the position in the intersections carries the element
whose intersections they are: comparing it with the end of the intersections of another element, dereferencing an
empty optional and incrementing or dereferencing an end iterator are undefined (`none`).
-/

namespace Verif.SubDomain

variable {E : Type}

/-- The compile time constants `cacheElement` and `cacheIntersection`, subdomain.hh:50-51. -/
structure CacheConfig where
  cacheElement : Bool
  cacheIntersection : Bool

/-- Data members of the iterator, subdomain.hh:155-161. `elementIt` are the elements still to come (`elementEnd_` is the
empty list), `iIt` the optional with the owner of the range and the intersections still to come, `element` and `intersection`
the copies; a copy which is `std::monostate` (53-54) is never accessed. -/
structure CIt (E : Type) where
  elementIt : List E
  iIt : Option (E × List (Isect E))
  element : Option E
  intersection : Option (Isect E)

namespace CIt

/-- `element()`, subdomain.hh:56-62. -/
def elem (c : CacheConfig) (s : CIt E) : Option E :=
  if c.cacheElement then s.element else s.elementIt.head?

/-- `updateElement()`, subdomain.hh:64-68. -/
def updateElement (c : CacheConfig) (s : CIt E) : Option (CIt E) :=
  if c.cacheElement then s.elementIt.head?.map fun e => { s with element := some e } else some s

/-- `**iIt_`. -/
def deref2 (s : CIt E) : Option (Isect E) := s.iIt.bind fun p => p.2.head?

/-- `intersection()`, subdomain.hh:70-76. -/
def isect (c : CacheConfig) (s : CIt E) : Option (Isect E) :=
  if c.cacheIntersection then s.intersection else s.deref2

/-- `updateIntersection()`, subdomain.hh:78-82. -/
def updateIntersection (c : CacheConfig) (s : CIt E) : Option (CIt E) :=
  if c.cacheIntersection then s.deref2.map fun j => { s with intersection := some j } else some s

/-- `iIt_ = gridView_.ibegin(element())`, subdomain.hh:99, 131. -/
def ibegin (c : CacheConfig) (isects : E → List (Isect E)) (s : CIt E) : Option (CIt E) :=
  (s.elem c).map fun e => { s with iIt := some (e, isects e) }

/-- `operator*`, subdomain.hh:115-118. -/
def star (c : CacheConfig) (s : CIt E) : Option (Isect E) := s.isect c

/-- `updateIntersection(); if (contains_(intersection())) return *this;`, subdomain.hh:133-135: the first component tells
whether the loop is left. -/
def test (c : CacheConfig) (contains : Isect E → Bool) (s : CIt E) : Option (Bool × CIt E) :=
  (s.updateIntersection c).bind fun s' => (s'.isect c).map fun j => (contains j, s')

variable [DecidableEq E]

/-- `*iIt_ == gridView_.iend(element())`, subdomain.hh:125. -/
def atIend (c : CacheConfig) (s : CIt E) : Option Bool :=
  s.iIt.bind fun p => (s.elem c).bind fun e => if p.1 = e then some p.2.isEmpty else none

/-- The `then` branch, subdomain.hh:127-131. -/
def nextElement (c : CacheConfig) (isects : E → List (Isect E)) (contains : Isect E → Bool) (s : CIt E) :
    Option (Bool × CIt E) :=
  match s.elementIt with
  | [] => none
  | _ :: es =>
    if es.isEmpty then some (true, { s with elementIt := es })
    else (({ s with elementIt := es } : CIt E).updateElement c).bind fun s1 =>
      (s1.ibegin c isects).bind fun s2 => s2.test c contains

/-- One iteration of the loop in `operator++`, subdomain.hh:122-136. -/
def body (c : CacheConfig) (isects : E → List (Isect E)) (contains : Isect E → Bool) (s : CIt E) :
    Option (Bool × CIt E) :=
  match s.iIt with
  | none => none
  | some (_, []) => none
  | some (e, _ :: js) =>
    let s1 : CIt E := { s with iIt := some (e, js) }
    (s1.atIend c).bind fun b => if b then s1.nextElement c isects contains else s1.test c contains

/-- Number of elements and of intersections of the current element still to come. -/
def remaining (s : CIt E) : Nat × Nat := (s.elementIt.length, (s.iIt.elim [] Prod.snd).length)

omit [DecidableEq E] in
theorem test_remaining {c : CacheConfig} {contains : Isect E → Bool} {s s' : CIt E} {b : Bool}
    (h : s.test c contains = some (b, s')) : s'.elementIt = s.elementIt ∧ s'.iIt = s.iIt := by
  rw [test, updateIntersection] at h
  split at h
  · simp only [Option.bind_eq_some_iff, Option.map_eq_some_iff] at h
    obtain ⟨s1, ⟨j, _, rfl⟩, _, _, h2⟩ := h
    injection h2 with _ h3
    subst h3
    exact ⟨rfl, rfl⟩
  · simp only [Option.bind_some, Option.map_eq_some_iff] at h
    obtain ⟨_, _, h2⟩ := h
    injection h2 with _ h3
    subst h3
    exact ⟨rfl, rfl⟩

omit [DecidableEq E] in
theorem updateElement_elementIt {c : CacheConfig} {s s' : CIt E} (h : s.updateElement c = some s') :
    s'.elementIt = s.elementIt := by
  rw [updateElement] at h
  split at h
  · simp only [Option.map_eq_some_iff] at h
    obtain ⟨_, _, rfl⟩ := h
    rfl
  · injection h with h; subst h; rfl

omit [DecidableEq E] in
theorem nextElement_elementIt {c : CacheConfig} {isects : E → List (Isect E)} {contains : Isect E → Bool}
    {s s' : CIt E} {b : Bool} (h : s.nextElement c isects contains = some (b, s')) :
    ∃ e, s.elementIt = e :: s'.elementIt := by
  rw [nextElement] at h
  split at h
  · cases h
  · rename_i e es he
    refine ⟨e, ?_⟩
    rw [he]
    split at h
    · injection h with h
      injection h with _ h
      subst h; rfl
    · simp only [Option.bind_eq_some_iff] at h
      obtain ⟨s1, h1, s2, h2, h3⟩ := h
      have h4 := updateElement_elementIt h1
      rw [ibegin] at h2
      simp only [Option.map_eq_some_iff] at h2
      obtain ⟨_, _, rfl⟩ := h2
      rw [(test_remaining h3).1]
      rw [h4]

theorem body_remaining {c : CacheConfig} {isects : E → List (Isect E)} {contains : Isect E → Bool}
    {s s' : CIt E} {b : Bool} (h : s.body c isects contains = some (b, s')) :
    (∃ e, s.elementIt = e :: s'.elementIt) ∨
      (s'.elementIt = s.elementIt ∧ ∃ e j js, s.iIt = some (e, j :: js) ∧ s'.iIt = some (e, js)) := by
  rw [body] at h
  split at h
  · cases h
  · cases h
  · rename_i e j js hi
    simp only [Option.bind_eq_some_iff] at h
    obtain ⟨b', _, h⟩ := h
    split at h
    · have h' := nextElement_elementIt h
      exact Or.inl h'
    · obtain ⟨h1, h2⟩ := test_remaining h
      exact Or.inr ⟨h1, e, j, js, hi, h2⟩

/-- The order in which positions come. -/
def Before (a b : Nat × Nat) : Prop := a.1 < b.1 ∨ (a.1 = b.1 ∧ a.2 < b.2)

theorem body_before {c : CacheConfig} {isects : E → List (Isect E)} {contains : Isect E → Bool}
    {s s' : CIt E} {b : Bool} (h : s.body c isects contains = some (b, s')) :
    Before s'.remaining s.remaining := by
  rcases body_remaining h with ⟨e, he⟩ | ⟨h1, e, j, js, h2, h3⟩
  · left; simp [remaining, he]
  · right; simp [remaining, h1, h2, h3]

/-- `operator++`, subdomain.hh:120-138. -/
def next (c : CacheConfig) (isects : E → List (Isect E)) (contains : Isect E → Bool) (s : CIt E) : Option (CIt E) :=
  match _h : s.body c isects contains with
  | none => none
  | some (true, s') => some s'
  | some (false, s') => next c isects contains s'
termination_by s.remaining
decreasing_by
  rcases body_before _h with h1 | ⟨h1, h2⟩
  · exact Prod.Lex.left _ _ h1
  · rw [Prod.lex_def]; exact Or.inr ⟨h1, h2⟩

/-- Constructor with a position in the elements, subdomain.hh:89-103, 105-107; before it the optionals are empty. -/
def make (c : CacheConfig) (isects : E → List (Isect E)) (contains : Isect E → Bool) (els : List E) : Option (CIt E) :=
  let s0 : CIt E := ⟨els, none, none, none⟩
  if els.isEmpty then some s0
  else (s0.updateElement c).bind fun s1 => (s1.ibegin c isects).bind fun s2 => (s2.updateIntersection c).bind fun s3 =>
    (s3.isect c).bind fun j => if contains j then some s3 else s3.next c isects contains

/-- Comparison with the sentinel, subdomain.hh:149-152. -/
def isEnd (s : CIt E) : Bool := s.elementIt.isEmpty

/-- `operator==`, subdomain.hh:140-147. Both iterators belong to the same range of elements, hence positions in the elements are
equal if equally many elements are to come; positions in the intersections may be compared if they have the same owner. -/
def eq (a b : CIt E) : Option Bool :=
  if a.elementIt.length ≠ b.elementIt.length then some false
  else if a.elementIt.isEmpty then some true
  else a.iIt.bind fun p => b.iIt.bind fun q => if p.1 = q.1 then some (decide (p.2.length = q.2.length)) else none

/-- The iterator after `n` increments of `begin()`. -/
def nth (c : CacheConfig) (isects : E → List (Isect E)) (contains : Isect E → Bool) (els : List E) : Nat → Option (CIt E)
  | 0 => make c isects contains els
  | n + 1 => (nth c isects contains els n).bind (next c isects contains)

/-! ## The caches agree with the positions -/

/-- Relation to the positions of `Iteration.lean`. -/
def Rel (c : CacheConfig) (s : CIt E) (g : GIt E) : Prop :=
  s.elementIt = g.1 ∧ (g.1 = [] ∨ ∃ e es j js, g = (e :: es, j :: js) ∧ s.iIt = some (e, j :: js) ∧
    (c.cacheElement = true → s.element = some e) ∧ (c.cacheIntersection = true → s.intersection = some j))

omit [DecidableEq E] in
theorem test_eq (c : CacheConfig) (contains : Isect E → Bool) {s : CIt E} {e : E} {es : List E} {j : Isect E}
    {js : List (Isect E)} (h1 : s.elementIt = e :: es) (h2 : s.iIt = some (e, j :: js))
    (h3 : c.cacheElement = true → s.element = some e) :
    ∃ s', s.test c contains = some (contains j, s') ∧ Rel c s' (e :: es, j :: js) := by
  by_cases hc : c.cacheIntersection = true
  · refine ⟨{ s with intersection := some j }, ?_, h1, Or.inr ⟨e, es, j, js, rfl, h2, h3, fun _ => rfl⟩⟩
    simp [test, updateIntersection, isect, deref2, hc, h2]
  · refine ⟨s, ?_, h1, Or.inr ⟨e, es, j, js, rfl, h2, h3, fun h => absurd h hc⟩⟩
    simp [test, updateIntersection, isect, deref2, hc, h2]

omit [DecidableEq E] in
theorem enter_eq (c : CacheConfig) (isects : E → List (Isect E)) {s : CIt E} {e : E} {es : List E}
    (h1 : s.elementIt = e :: es) :
    ∃ s1 s2, s.updateElement c = some s1 ∧ s1.ibegin c isects = some s2 ∧ s2.elementIt = e :: es ∧
      s2.iIt = some (e, isects e) ∧ (c.cacheElement = true → s2.element = some e) := by
  by_cases hc : c.cacheElement = true
  · refine ⟨{ s with element := some e }, { s with element := some e, iIt := some (e, isects e) }, ?_, ?_, h1, rfl,
      fun _ => rfl⟩
    · simp [updateElement, hc, h1]
    · simp [ibegin, elem, hc]
  · refine ⟨s, { s with iIt := some (e, isects e) }, ?_, ?_, h1, rfl, fun h => absurd h hc⟩
    · simp [updateElement, hc]
    · simp [ibegin, elem, hc, h1]

theorem next_of_true {c : CacheConfig} {isects : E → List (Isect E)} {contains : Isect E → Bool} {s s' : CIt E}
    (h : s.body c isects contains = some (true, s')) : s.next c isects contains = some s' := by
  rw [next]
  split
  · rename_i h'; rw [h'] at h; cases h
  · rename_i h'; rw [h'] at h; injection h with h; injection h with _ h; rw [h]
  · rename_i h'; rw [h'] at h; injection h with h; injection h with h _; cases h

theorem next_of_false {c : CacheConfig} {isects : E → List (Isect E)} {contains : Isect E → Bool} {s s' : CIt E}
    (h : s.body c isects contains = some (false, s')) :
    s.next c isects contains = s'.next c isects contains := by
  rw [next]
  split
  · rename_i h'; rw [h'] at h; cases h
  · rename_i h'; rw [h'] at h; injection h with h; injection h with h _; cases h
  · rename_i h'; rw [h'] at h; injection h with h; injection h with _ h; rw [h]

/-- The increment of the iterator with its caches follows the increment of the positions. -/
theorem settle_rel (c : CacheConfig) (isects : E → List (Isect E)) (contains : Isect E → Bool)
    (hne : ∀ e, isects e ≠ []) (es : List E) :
    ∀ (e : E) (js : List (Isect E)) (j : Isect E) (s : CIt E), Rel c s (e :: es, j :: js) →
      ∃ g s', settle isects contains (e :: es) js = some g ∧ s.next c isects contains = some s' ∧ Rel c s' g := by
  induction es with
  | nil =>
    intro e js
    induction js with
    | nil =>
      rintro j s ⟨h1, h2⟩
      rcases h2 with h2 | ⟨e', es', j', js', hg, h3, h4, h5⟩
      · cases h2
      · injection hg with hg1 hg2
        injection hg1 with hg3 hg4
        injection hg2 with hg5 hg6
        subst hg3; subst hg4; subst hg5; subst hg6
        refine ⟨([], []), { s with iIt := some (e, []), elementIt := [] }, by simp [settle], ?_, rfl, Or.inl rfl⟩
        apply next_of_true
        have : ({ s with iIt := some (e, []) } : CIt E).atIend c = some true := by
          by_cases hc : c.cacheElement = true
          · simp [atIend, elem, hc, h4 hc]
          · simp [atIend, elem, hc, h1]
        simp only [body, h3, this, Option.bind_some, if_true, nextElement]
        simp [h1]
    | cons j1 js ih =>
      rintro j s ⟨h1, h2⟩
      rcases h2 with h2 | ⟨e', es', j', js', hg, h3, h4, h5⟩
      · cases h2
      · injection hg with hg1 hg2
        injection hg1 with hg3 hg4
        injection hg2 with hg5 hg6
        subst hg3; subst hg4; subst hg5; subst hg6
        have hi : ({ s with iIt := some (e, j1 :: js) } : CIt E).atIend c = some false := by
          by_cases hc : c.cacheElement = true
          · simp [atIend, elem, hc, h4 hc]
          · simp [atIend, elem, hc, h1]
        obtain ⟨s', h6, h7⟩ := test_eq c contains (s := { s with iIt := some (e, j1 :: js) }) h1 rfl h4
        have hb : s.body c isects contains = some (contains j1, s') := by
          simp only [body, h3, hi, Option.bind_some, Bool.false_eq_true, if_false, h6]
        by_cases hj : contains j1 = true
        · rw [hj] at hb
          exact ⟨_, s', by rw [settle, if_pos hj], next_of_true hb, h7⟩
        · have hj' : contains j1 = false := by simpa using hj
          rw [hj'] at hb
          obtain ⟨g, s2, h8, h9, h10⟩ := ih j1 s' h7
          exact ⟨g, s2, by rw [settle, if_neg hj]; exact h8, by rw [next_of_false hb]; exact h9, h10⟩
  | cons e2 es ihe =>
    intro e js
    induction js with
    | nil =>
      rintro j s ⟨h1, h2⟩
      rcases h2 with h2 | ⟨e', es', j', js', hg, h3, h4, h5⟩
      · cases h2
      · injection hg with hg1 hg2
        injection hg1 with hg3 hg4
        injection hg2 with hg5 hg6
        subst hg3; subst hg4; subst hg5; subst hg6
        have hi : ({ s with iIt := some (e, []) } : CIt E).atIend c = some true := by
          by_cases hc : c.cacheElement = true
          · simp [atIend, elem, hc, h4 hc]
          · simp [atIend, elem, hc, h1]
        obtain ⟨j2, js2, hi2⟩ := List.exists_cons_of_ne_nil (hne e2)
        obtain ⟨s1, s2, h6, h7, h8, h9, h10⟩ :=
          enter_eq c isects (s := { s with iIt := some (e, []), elementIt := e2 :: es }) rfl
        rw [hi2] at h9
        obtain ⟨s', h11, h12⟩ := test_eq c contains h8 h9 h10
        have hb : s.body c isects contains = some (contains j2, s') := by
          simp only [body, h3, hi, Option.bind_some, if_true, nextElement]
          simp [h1, h6, h7, h11]
        by_cases hj : contains j2 = true
        · rw [hj] at hb
          exact ⟨_, s', by rw [settle]; simp [hi2, hj], next_of_true hb, h12⟩
        · have hj' : contains j2 = false := by simpa using hj
          rw [hj'] at hb
          obtain ⟨g, s3, h13, h14, h15⟩ := ihe e2 js2 j2 s' h12
          exact ⟨g, s3, by rw [settle]; simp [hi2, hj, h13], by rw [next_of_false hb]; exact h14, h15⟩
    | cons j1 js ih =>
      rintro j s ⟨h1, h2⟩
      rcases h2 with h2 | ⟨e', es', j', js', hg, h3, h4, h5⟩
      · cases h2
      · injection hg with hg1 hg2
        injection hg1 with hg3 hg4
        injection hg2 with hg5 hg6
        subst hg3; subst hg4; subst hg5; subst hg6
        have hi : ({ s with iIt := some (e, j1 :: js) } : CIt E).atIend c = some false := by
          by_cases hc : c.cacheElement = true
          · simp [atIend, elem, hc, h4 hc]
          · simp [atIend, elem, hc, h1]
        obtain ⟨s', h6, h7⟩ := test_eq c contains (s := { s with iIt := some (e, j1 :: js) }) h1 rfl h4
        have hb : s.body c isects contains = some (contains j1, s') := by
          simp only [body, h3, hi, Option.bind_some, Bool.false_eq_true, if_false, h6]
        by_cases hj : contains j1 = true
        · rw [hj] at hb
          exact ⟨_, s', by rw [settle, if_pos hj], next_of_true hb, h7⟩
        · have hj' : contains j1 = false := by simpa using hj
          rw [hj'] at hb
          obtain ⟨g, s2, h8, h9, h10⟩ := ih j1 s' h7
          exact ⟨g, s2, by rw [settle, if_neg hj]; exact h8, by rw [next_of_false hb]; exact h9, h10⟩

theorem make_rel (c : CacheConfig) (isects : E → List (Isect E)) (contains : Isect E → Bool)
    (hne : ∀ e, isects e ≠ []) (els : List E) :
    ∃ g s, gBegin isects contains els = some g ∧ make c isects contains els = some s ∧ Rel c s g := by
  cases els with
  | nil => exact ⟨([], []), ⟨[], none, none, none⟩, rfl, rfl, rfl, Or.inl rfl⟩
  | cons e es =>
    obtain ⟨j, js, hi⟩ := List.exists_cons_of_ne_nil (hne e)
    obtain ⟨s1, s2, h6, h7, h8, h9, h10⟩ := enter_eq c isects (s := ⟨e :: es, none, none, none⟩) rfl
    rw [hi] at h9
    obtain ⟨s', h11, h12⟩ := test_eq c contains h8 h9 h10
    rw [test] at h11
    simp only [Option.bind_eq_some_iff, Option.map_eq_some_iff] at h11
    obtain ⟨s3, h13, j', h14, h15⟩ := h11
    injection h15 with h15 h16
    subst h16
    have hm : make c isects contains (e :: es) = if contains j then some s3 else s3.next c isects contains := by
      simp [make, h6, h7, h13, h14, h15]
    by_cases hj : contains j = true
    · exact ⟨(e :: es, j :: js), s3, by simp [gBegin, hi, hj], by rw [hm, if_pos hj], h12⟩
    · obtain ⟨g, s4, h17, h18, h19⟩ := settle_rel c isects contains hne es e js j s3 h12
      exact ⟨g, s4, by simp [gBegin, hi, hj, gNext, h17], by rw [hm, if_neg hj, h18], h19⟩

theorem visits_rel (c : CacheConfig) (isects : E → List (Isect E)) (contains : Isect E → Bool)
    (hne : ∀ e, isects e ≠ []) {g : GIt E} {l : List (Isect E)}
    (h : Visits (fun s : GIt E => s.2.head?) (fun s => s.1.isEmpty) (gNext isects contains) g l) :
    ∀ s : CIt E, Rel c s g → Visits (star c) isEnd (next c isects contains) s l := by
  induction h with
  | done h =>
    rintro s ⟨h1, _⟩
    exact .done (by rw [isEnd, h1]; exact h)
  | @step g g' a l h1 h2 h3 _ ih =>
    rintro s hs
    obtain ⟨hs1, hs2 | ⟨e, es, j, js, hg, h4, h5, h6⟩⟩ := id hs
    · rw [hs2] at h1; cases h1
    · subst hg
      obtain ⟨g2, s', h7, h8, h9⟩ := settle_rel c isects contains hne es e js j s hs
      have : g2 = g' := by
        have h3' : settle isects contains (e :: es) js = some g' := h3
        rw [h7] at h3'; injection h3'
      subst this
      refine .step ?_ ?_ h8 (ih s' h9)
      · rw [isEnd, hs1]; rfl
      · have : a = j := by simpa using h2.symm
        subst this
        by_cases hc : c.cacheIntersection = true
        · simp [star, isect, hc, h6 hc]
        · simp [star, isect, hc, deref2, h4]

end CIt

open CIt

variable [DecidableEq E]

/-- **C104.** With any combination of the caches the loop `for (auto it = begin(); it != sentinel; ++it) visit(*it)` is defined and
visits exactly the intersections of all elements that satisfy the predicate, in order. -/
theorem C104_visits (c : CacheConfig) (isects : E → List (Isect E)) (contains : Isect E → Bool)
    (hne : ∀ e, isects e ≠ []) (els : List E) :
    ∃ s, make c isects contains els = some s ∧
      Visits (star c) isEnd (next c isects contains) s ((els.flatMap isects).filter contains) := by
  obtain ⟨g, s, h1, h2, h3⟩ := make_rel c isects contains hne els
  obtain ⟨g', h4, h5⟩ := C31_intersections isects contains hne els
  rw [h1] at h4; injection h4 with h4; subst h4
  exact ⟨s, h2, visits_rel c isects contains hne h5 s h3⟩

namespace CIt

theorem next_before {c : CacheConfig} {isects : E → List (Isect E)} {contains : Isect E → Bool} {s s' : CIt E}
    (h : s.next c isects contains = some s') : Before s'.remaining s.remaining := by
  fun_induction next c isects contains s with
  | case1 => cases h
  | case2 s s2 hb => injection h with h; subst h; exact body_before hb
  | case3 s s2 hb ih =>
    have h1 := ih h
    have h2 := body_before hb
    unfold Before at *
    omega

/-- What holds of every iterator reached from `begin()`: its caches agree with positions in the range of elements. -/
def Reached (c : CacheConfig) (els : List E) (s : CIt E) : Prop :=
  (∃ k, s.elementIt = els.drop k) ∧ ∃ g, Rel c s g

theorem next_drop {c : CacheConfig} {isects : E → List (Isect E)} {contains : Isect E → Bool} {els : List E} {s s' : CIt E}
    (h : s.next c isects contains = some s') (hs : ∃ k, s.elementIt = els.drop k) :
    ∃ k, s'.elementIt = els.drop k := by
  have key : ∀ {a b : CIt E} {r : Bool}, a.body c isects contains = some (r, b) → (∃ k, a.elementIt = els.drop k) →
      ∃ k, b.elementIt = els.drop k := by
    rintro a b r hb ⟨k, hk⟩
    rcases body_remaining hb with ⟨e, he⟩ | ⟨h1, -⟩
    · refine ⟨k + 1, ?_⟩
      rw [← List.tail_drop, ← hk, he]; rfl
    · exact ⟨k, by rw [h1, hk]⟩
  fun_induction next c isects contains s with
  | case1 => cases h
  | case2 s s2 hb => injection h with h; subst h; exact key hb hs
  | case3 s s2 hb ih => exact ih h (key hb hs)

theorem next_reached {c : CacheConfig} {isects : E → List (Isect E)} {contains : Isect E → Bool}
    (hne : ∀ e, isects e ≠ []) {els : List E} {s s' : CIt E} (hs : Reached c els s) (he : s.isEnd = false)
    (h : s.next c isects contains = some s') : Reached c els s' := by
  refine ⟨next_drop h hs.1, ?_⟩
  obtain ⟨-, g, hg⟩ := hs
  obtain ⟨h1, h2 | ⟨e, es, j, js, hg', h4, h5, h6⟩⟩ := id hg
  · rw [isEnd, h1, h2] at he; cases he
  · subst hg'
    obtain ⟨g2, s2, -, h8, h9⟩ := settle_rel c isects contains hne es e js j s hg
    rw [h] at h8; injection h8 with h8; subst h8
    exact ⟨g2, h9⟩

theorem make_reached {c : CacheConfig} {isects : E → List (Isect E)} {contains : Isect E → Bool}
    (hne : ∀ e, isects e ≠ []) {els : List E} {s : CIt E} (h : make c isects contains els = some s) : Reached c els s := by
  constructor
  · rw [make] at h
    split at h
    · injection h with h; subst h; exact ⟨0, rfl⟩
    · simp only [Option.bind_eq_some_iff] at h
      obtain ⟨s1, h1, s2, h2, s3, h3, j, h4, h5⟩ := h
      have e1 := updateElement_elementIt h1
      rw [ibegin] at h2
      simp only [Option.map_eq_some_iff] at h2
      obtain ⟨e, -, rfl⟩ := h2
      have e3 : s3.elementIt = s1.elementIt := by
        have : CIt.test c (fun _ => true) ({ s1 with iIt := some (e, isects e) } : CIt E) = some (true, s3) := by
          simp [test, h3, h4]
        exact (test_remaining this).1
      have : ∃ k, s3.elementIt = els.drop k := ⟨0, by rw [e3, e1]; rfl⟩
      split at h5
      · injection h5 with h5; subst h5; exact this
      · exact next_drop h5 this
  · obtain ⟨g, s', -, h2, h3⟩ := make_rel c isects contains hne els
    rw [h] at h2; injection h2 with h2; subst h2
    exact ⟨g, h3⟩

omit [DecidableEq E] in
/-- Positions in one list are equal if equally much of it remains. -/
theorem drop_same {els : List E} {a b : List E} (ha : ∃ k, a = els.drop k) (hb : ∃ k, b = els.drop k)
    (h : a.length = b.length) : a = b := by
  obtain ⟨k, rfl⟩ := ha
  obtain ⟨m, rfl⟩ := hb
  simp only [List.length_drop] at h
  by_cases hk : k ≤ els.length
  · by_cases hm : m ≤ els.length
    · have : k = m := by omega
      rw [this]
    · rw [List.drop_eq_nil_of_le (by omega), List.drop_eq_nil_of_le (by omega)]
  · rw [List.drop_eq_nil_of_le (by omega), List.drop_eq_nil_of_le (by omega)]

/-- Comparison of two iterators reached from `begin()` is defined and compares what remains. -/
theorem eq_reached {c : CacheConfig} {els : List E} {a b : CIt E} (ha : Reached c els a) (hb : Reached c els b) :
    (a.eq b = some true ∧ a.elementIt = b.elementIt ∧ (a.elementIt ≠ [] → a.iIt = b.iIt ∨ a.remaining = b.remaining)) ∨
      (a.eq b = some false ∧ a.remaining ≠ b.remaining) := by
  by_cases hl : a.elementIt.length = b.elementIt.length
  · have hs := drop_same ha.1 hb.1 hl
    by_cases hn : a.elementIt = []
    · left
      refine ⟨?_, hs, fun h => absurd hn h⟩
      simp [eq, hn, hs ▸ hn]
    · obtain ⟨-, g, h1, h2⟩ := ha
      obtain ⟨-, g', h1', h2'⟩ := hb
      rcases h2 with h2 | ⟨e, es, j, js, hg, h3, -, -⟩
      · rw [h1, h2] at hn; exact absurd rfl hn
      rcases h2' with h2' | ⟨e', es', j', js', hg', h3', -, -⟩
      · rw [hs, h1', h2'] at hn; exact absurd rfl hn
      subst hg; subst hg'
      have hee : e = e' := by
        rw [h1, h1'] at hs
        injection hs
      subst hee
      have hne : a.elementIt.isEmpty = false := by rw [h1]; rfl
      have hval : a.eq b = some (decide ((j :: js).length = (j' :: js').length)) := by
        simp [eq, hl, hne, h3, h3']
      by_cases hj : (j :: js).length = (j' :: js').length
      · left
        refine ⟨by rw [hval]; simp [hj], hs, fun _ => Or.inr ?_⟩
        simp only [remaining, h3, h3', hl, Option.elim]
        rw [hj]
      · right
        refine ⟨by rw [hval]; simpa using hj, ?_⟩
        intro h
        simp only [remaining, h3, h3', Option.elim, Prod.mk.injEq] at h
        exact hj h.2
  · right
    refine ⟨by simp [eq, hl], ?_⟩
    intro h
    simp only [remaining, Prod.mk.injEq] at h
    exact hl h.1

/-- The increments of a loop. -/
theorem nth_visits {c : CacheConfig} {isects : E → List (Isect E)} {contains : Isect E → Bool}
    (hne : ∀ e, isects e ≠ []) (els : List E) (n : Nat) (hn : n ≤ ((els.flatMap isects).filter contains).length) :
    ∃ s, nth c isects contains els n = some s ∧ Reached c els s ∧
      Visits (star c) isEnd (next c isects contains) s (((els.flatMap isects).filter contains).drop n) := by
  induction n with
  | zero =>
    obtain ⟨s, h1, h2⟩ := C104_visits c isects contains hne els
    exact ⟨s, h1, make_reached hne h1, h2⟩
  | succ n ih =>
    obtain ⟨s, h1, h2, h3⟩ := ih (by omega)
    rw [List.drop_eq_getElem_cons (by omega)] at h3
    cases h3 with
    | step h4 h5 h6 h7 =>
      rename_i s'
      exact ⟨s', by simp [nth, h1, h6], next_reached hne h2 h4 h6, h7⟩

theorem nth_before {c : CacheConfig} {isects : E → List (Isect E)} {contains : Isect E → Bool} {els : List E} {n : Nat} :
    ∀ (d : Nat) {a b : CIt E}, nth c isects contains els n = some a →
      nth c isects contains els (n + d + 1) = some b → Before b.remaining a.remaining := by
  intro d
  induction d with
  | zero =>
    intro a b h1 h2
    have h2' : (nth c isects contains els n).bind (next c isects contains) = some b := h2
    rw [h1] at h2'
    exact next_before h2'
  | succ d ih =>
    intro a b h1 h2
    have h2' : (nth c isects contains els (n + d + 1)).bind (next c isects contains) = some b := h2
    obtain ⟨s, h3, h4⟩ := Option.bind_eq_some_iff.1 h2'
    have h5 := ih h1 h3
    have h6 := next_before h4
    unfold Before at *
    omega

end CIt

/-- **C104.** Iterators are equal exactly if they are equally far from `begin()`: for any numbers `m` and `n` of increments that stay
within the range, comparing the two iterators is defined, and its result is whether `m = n`; dereferencing gives the intersection
with this number, and comparison with the sentinel tells whether all of them have been visited. -/
theorem C104_equal (c : CacheConfig) (isects : E → List (Isect E)) (contains : Isect E → Bool)
    (hne : ∀ e, isects e ≠ []) (els : List E) (l : List (Isect E)) (hl : l = (els.flatMap isects).filter contains)
    (m n : Nat) (hm : m ≤ l.length) (hn : n ≤ l.length) :
    ∃ a b, nth c isects contains els m = some a ∧ nth c isects contains els n = some b ∧
      a.eq b = some (decide (m = n)) ∧ a.isEnd = decide (m = l.length) ∧ (m < l.length → a.star c = l[m]?) := by
  subst hl
  obtain ⟨a, ha, har, hav⟩ := nth_visits (c := c) hne els m hm
  obtain ⟨b, hb, hbr, hbv⟩ := nth_visits (c := c) hne els n hn
  have hend : a.isEnd = decide (m = ((els.flatMap isects).filter contains).length) := by
    by_cases h : m = ((els.flatMap isects).filter contains).length
    · rw [h, List.drop_length] at hav
      cases hav with
      | done h1 => simp [h, h1]
    · rw [List.drop_eq_getElem_cons (by omega)] at hav
      cases hav with
      | step h1 => simp [h, h1]
  refine ⟨a, b, ha, hb, ?_, hend, ?_⟩
  · by_cases hmn : m = n
    · subst hmn
      rw [ha] at hb; injection hb with hb; subst hb
      rcases eq_reached har hbr with ⟨h, -⟩ | ⟨-, h⟩
      · rw [h]; simp
      · exact absurd rfl h
    · have hend' : b.isEnd = decide (n = ((els.flatMap isects).filter contains).length) := by
        by_cases h : n = ((els.flatMap isects).filter contains).length
        · rw [h, List.drop_length] at hbv
          cases hbv with
          | done h1 => simp [h, h1]
        · rw [List.drop_eq_getElem_cons (by omega)] at hbv
          cases hbv with
          | step h1 => simp [h, h1]
      have hrem : a.remaining ≠ b.remaining := by
        intro h
        rcases Nat.lt_or_gt_of_ne hmn with h1 | h1
        · have := nth_before (n - m - 1) ha (by rw [show m + (n - m - 1) + 1 = n from by omega]; exact hb)
          rw [h] at this; unfold Before at this; omega
        · have := nth_before (m - n - 1) hb (by rw [show n + (m - n - 1) + 1 = m from by omega]; exact ha)
          rw [h] at this; unfold Before at this; omega
      rcases eq_reached har hbr with ⟨-, h1, h2⟩ | ⟨h, -⟩
      · exfalso
        by_cases hn0 : a.elementIt = []
        · have e1 : a.isEnd = true := by rw [isEnd, hn0]; rfl
          have e2 : b.isEnd = true := by rw [isEnd, ← h1, hn0]; rfl
          rw [hend] at e1; rw [hend'] at e2
          simp only [decide_eq_true_eq] at e1 e2
          omega
        · rcases h2 hn0 with h3 | h3
          · exact hrem (by rw [remaining, remaining, h1, h3])
          · exact hrem h3
      · rw [h]; simp [hmn]
  · intro h
    rw [List.drop_eq_getElem_cons h] at hav
    cases hav with
    | step _ h1 => rw [h1, List.getElem?_eq_getElem h]

/-- **C104.** An iterator constructed at the end of the elements is a valid end iterator: it is the sentinel, and an iterator of the range
is equal to it, in either order, exactly if it has visited everything. -/
theorem C104_end (c : CacheConfig) (isects : E → List (Isect E)) (contains : Isect E → Bool)
    (hne : ∀ e, isects e ≠ []) (els : List E) (n : Nat) (hn : n ≤ ((els.flatMap isects).filter contains).length) :
    ∃ a b, nth c isects contains els n = some a ∧ make c isects contains [] = some b ∧ b.isEnd = true ∧
      a.eq b = some a.isEnd ∧ b.eq a = some a.isEnd ∧
      (a.isEnd = true ↔ n = ((els.flatMap isects).filter contains).length) := by
  obtain ⟨a, -, ha, -, -, he, -⟩ := C104_equal c isects contains hne els _ rfl n n hn hn
  refine ⟨a, ⟨[], none, none, none⟩, ha, rfl, rfl, ?_, ?_, by rw [he]; simp⟩
  · cases h : a.elementIt <;> simp [eq, isEnd, h]
  · cases h : a.elementIt <;> simp [eq, isEnd, h]

/-- Two elements with two intersections each; the interior intersections are visited. -/
private def sampleIsects (e : Nat) : List (Isect Nat) := [⟨e, 1 - e, false, true⟩, ⟨e, e, true, false⟩]

example : (nth ⟨true, true⟩ sampleIsects (fun j => j.neighbor) [0, 1] 1).bind (star ⟨true, true⟩) =
    some ⟨1, 0, false, true⟩ := by
  have h := C104_equal ⟨true, true⟩ sampleIsects (fun j => j.neighbor) (fun e => by simp [sampleIsects]) [0, 1] _ rfl 1 1
    (by decide) (by decide)
  obtain ⟨a, b, h1, -, -, -, h2⟩ := h
  rw [h1]
  exact (h2 (by decide)).trans rfl

example : ∃ a b, nth ⟨true, false⟩ sampleIsects (fun j => j.neighbor) [0, 1] 0 = some a ∧
    nth ⟨true, false⟩ sampleIsects (fun j => j.neighbor) [0, 1] 1 = some b ∧ a.eq b = some false := by
  obtain ⟨a, b, h1, h2, h3, -⟩ := C104_equal ⟨true, false⟩ sampleIsects (fun j => j.neighbor)
    (fun e => by simp [sampleIsects]) [0, 1] _ rfl 0 1 (by decide) (by decide)
  exact ⟨a, b, h1, h2, h3⟩

end Verif.SubDomain

import Verif.Functions.Dirichlet

/-!
# Parts of the boundary

Callbacks of `forEachBoundaryDOF` that only act for some boundary intersections, as in `examples/poisson-mfem.cc`, to set boundary values on a part of the boundary.
-/

namespace Verif.Dofs

open Verif.Mapper Verif.IndexTree Verif.Container
open Verif.Interpolate (Interp interpolate visits)
open Verif.Assign (Lib assignValue)
open Verif.Dirichlet (setBoundary boundaryMarker markCalls)

variable {E T : Type}

/-! ## Model -/

/-- `markBoundaryDOFsByIndicator`, poisson-mfem.cc:336-344, for given calls: `sel` is the condition on the intersection, which is one of the boundary and known by the element and the number of
the facet. -/
def markWhere (sel : E → BIsect → Bool) (calls : List (Visit E)) (bits : Ct Bool) : Option (Ct Bool) :=
  calls.foldlM (fun c v => if sel v.element v.isect then assign true c ⟨v.index, 0⟩ else some c) bits

/-- The program poisson-mfem.cc:435-441 for a subspace basis: resize, assign `false`, mark the boundary DOFs of the selected intersections, interpolate. -/
def setBoundaryWhere (A : Lib Bool Bool) (rsB : CT → List (Ct Bool) → Nat → List (Ct Bool)) (rs : CT → List (Ct T) → Nat → List (Ct T)) (pb : PreBasis E) (p : List Nat)
    (keys : Nat → E → List Key) (inc : E → Nat → Nat → Key → Bool) (hasBoundary : E → Bool) (isects : E → List BIsect) (sel : E → BIsect → Bool) (els : List E) (tyB : CT) (bits : Ct Bool)
    (ty : CT) (I : Interp E T) (c : Ct T) : Option (Ct T) :=
  match Container.resize rsB pb.size tyB bits with
  | .error _ => none
  | .ok b1 => (assignValue A tyB b1 false).bind fun b2 => (subForEachBoundaryDOF (subspaceBasis pb p) keys inc hasBoundary isects els).bind fun calls =>
      (markWhere sel calls b2).bind fun mk => match interpolate rs pb p ty I (.bits mk) els c with
        | .error _ => none
        | .ok c' => some c'

/-! ## Specification -/

/-- The intersections where only the selected ones are counted as boundary intersections. -/
def selected (sel : E → BIsect → Bool) (isects : E → List BIsect) (e : E) : List BIsect := (isects e).map fun is => ⟨is.boundary && sel e is, is.indexInInside⟩

/-! ## Proofs -/

theorem mem_selected {sel : E → BIsect → Bool} {isects : E → List BIsect} {e : E} {is : BIsect} (h : is ∈ selected sel isects e) (hb : is.boundary = true) :
    is ∈ isects e ∧ sel e is = true := by
  obtain ⟨is', h1, rfl⟩ := List.mem_map.1 h
  simp only [Bool.and_eq_true] at hb
  obtain ⟨h2, h3⟩ := hb
  have : (⟨is'.boundary && sel e is', is'.indexInInside⟩ : BIsect) = is' := by rw [h2, h3]; cases is'; simp_all
  rw [this]
  exact ⟨h1, h3⟩

/-- One element. -/
theorem selectedIsect {b : PB E} (hb : b.WF) {keys : Nat → E → List Key} (inc : E → Nat → Nat → Key → Bool) (sel : E → BIsect → Bool) {e : E} {n : Node E}
    (hk : KeysMatch keys n) (hn : n.blank = b.model.makeNode.blank) {v : LocalView E} (hv1 : v.tree = Node.bindTree e 0 n) (hv2 : v.element = some e)
    (iss : List BIsect) (d d' : SubDofs) (calls : List (Visit E)) {s : BState E} (hs : iss.foldlM (isectStep keys inc e) ⟨v, d, calls⟩ = some s) :
    ∃ d'', (iss.map fun is => (⟨is.boundary && sel e is, is.indexInInside⟩ : BIsect)).foldlM (isectStep keys inc e) ⟨v, d', calls.filter fun x => sel x.element x.isect⟩
      = some ⟨v, d'', s.calls.filter fun x => sel x.element x.isect⟩ := by
  have hleafy := Node.leafy_of_blank _ _ hn (b.refines hb).leafy
  induction iss generalizing d d' calls with
  | nil => simp at hs; subst hs; exact ⟨d', rfl⟩
  | cons is iss ih =>
    rw [List.foldlM_cons] at hs
    rw [List.map_cons, List.foldlM_cons]
    obtain ⟨s1, hs1, hs⟩ := Option.bind_eq_some_iff.mp hs
    by_cases hbd : is.boundary = true
    · obtain ⟨c1, h1, -⟩ := (C32_bind keys inc n hleafy hk e [] _ rfl is.indexInInside 1).1
      simp only [isectStep, hbd, if_true, hv2, LocalView.size, hv1, h1, Option.bind_some] at hs1
      obtain ⟨r, hr, rfl⟩ := Option.map_eq_some_iff.mp hs1
      have hr' : ∀ x ∈ r, x.element = e ∧ x.isect = is := by
        clear hs hs1 ih
        generalize c1.containedDOFs = l at hr
        induction l generalizing r with
        | nil => simp at hr; subst hr; simp
        | cons a l ih =>
          rw [List.mapM_cons] at hr
          simp only [Option.bind_eq_bind, Option.pure_def] at hr
          obtain ⟨y, hy, hr⟩ := Option.bind_eq_some_iff.mp hr
          obtain ⟨r', hr', hr⟩ := Option.bind_eq_some_iff.mp hr
          simp only [Option.some.injEq] at hr
          subst hr
          obtain ⟨m, -, rfl⟩ := Option.map_eq_some_iff.mp hy
          intro x hx
          rcases List.mem_cons.1 hx with rfl | hx
          · exact ⟨rfl, rfl⟩
          · exact ih r' hr' x hx
      by_cases hsel : sel e is = true
      · have his : (⟨is.boundary && sel e is, is.indexInInside⟩ : BIsect) = is := by rw [hbd, hsel]; cases is; simp_all
        have hf : r.filter (fun x => sel x.element x.isect) = r := List.filter_eq_self.2 fun x hx => by rw [(hr' x hx).1, (hr' x hx).2, hsel]
        have hstep : isectStep keys inc e ⟨v, d', calls.filter fun x => sel x.element x.isect⟩ is = some ⟨v, c1, (calls ++ r).filter fun x => sel x.element x.isect⟩ := by
          simp only [isectStep, hbd, if_true, hv2, LocalView.size, hv1, h1, Option.bind_some]
          rw [hr, Option.map_some, List.filter_append, hf]
        rw [his, hstep]
        exact ih c1 c1 (calls ++ r) hs
      · have hf : r.filter (fun x => sel x.element x.isect) = [] := List.filter_eq_nil_iff.2 fun x hx => by rw [(hr' x hx).1, (hr' x hx).2]; exact hsel
        have hstep : isectStep keys inc e ⟨v, d', calls.filter fun x => sel x.element x.isect⟩ ⟨is.boundary && sel e is, is.indexInInside⟩
            = some ⟨v, d', (calls ++ r).filter fun x => sel x.element x.isect⟩ := by
          simp only [isectStep, hbd, Bool.true_and, hsel, List.filter_append, hf, List.append_nil]
          rfl
        rw [hstep]
        exact ih c1 d' (calls ++ r) hs
    · simp only [isectStep, hbd] at hs1
      simp at hs1
      subst hs1
      have hstep : isectStep keys inc e ⟨v, d', calls.filter fun x => sel x.element x.isect⟩ ⟨is.boundary && sel e is, is.indexInInside⟩
          = some ⟨v, d', calls.filter fun x => sel x.element x.isect⟩ := by simp [isectStep, hbd]
      rw [hstep]
      exact ih d d' calls hs

theorem selected_root (b : PB E) (hb : b.WF) (keys : Nat → E → List Key) (inc : E → Nat → Nat → Key → Bool) (hk : KeysMatch keys (LocalView.fresh b.model).tree) (hasBoundary : E → Bool)
    (isects : E → List BIsect) (sel : E → BIsect → Bool) (els : List E) {calls : List (Visit E)} (h : forEachBoundaryDOF b.model keys inc hasBoundary isects els = some calls) :
    forEachBoundaryDOF b.model keys inc hasBoundary (selected sel isects) els = some (calls.filter fun x => sel x.element x.isect) := by
  have R := b.refines hb
  rw [forEachBoundaryDOF] at h
  obtain ⟨s', hs, rfl⟩ := Option.map_eq_some_iff.mp h
  have key : ∀ (els : List E) (s s' : BState E) (d' : SubDofs), KeysMatch keys s.view.tree → s.view.tree.blank = b.model.makeNode.blank →
      els.foldlM (elemStep b.model keys inc hasBoundary isects) s = some s' →
      ∃ t, els.foldlM (elemStep b.model keys inc hasBoundary (selected sel isects)) ⟨s.view, d', s.calls.filter fun x => sel x.element x.isect⟩ = some t ∧
        t.calls = s'.calls.filter fun x => sel x.element x.isect := by
    intro els
    induction els with
    | nil => intro s s' d' _ _ h; simp at h; subst h; exact ⟨_, rfl, rfl⟩
    | cons e els ih =>
      intro s s' d' h1 h2 h
      rw [List.foldlM_cons] at h ⊢
      obtain ⟨s1, hs1, h⟩ := Option.bind_eq_some_iff.mp h
      by_cases hbd : hasBoundary e = true
      · simp only [elemStep, hbd, if_true, LocalView.bind_eq R _ h2 e, Option.bind_some] at hs1
        obtain ⟨d'', hd⟩ := selectedIsect hb inc sel h1 h2 rfl rfl (isects e) s.dofs d' s.calls hs1
        have hv := isect_view _ _ _ _ _ _ hs1
        have hstep : elemStep b.model keys inc hasBoundary (selected sel isects) ⟨s.view, d', s.calls.filter fun x => sel x.element x.isect⟩ e
            = some ⟨s1.view, d'', s1.calls.filter fun x => sel x.element x.isect⟩ := by
          simp only [elemStep, hbd, if_true, LocalView.bind_eq R _ h2 e, Option.bind_some, selected]
          rw [hd, hv]
        rw [hstep]
        refine ih s1 s' d'' ?_ ?_ h
        · intro x hx
          rw [hv, leafInfo_bindTree] at hx
          exact h1 x hx
        · rw [hv, Node.blank_bindTree]; exact h2
      · simp only [elemStep, hbd] at hs1
        simp at hs1
        subst hs1
        have hstep : elemStep b.model keys inc hasBoundary (selected sel isects) ⟨s.view, d', s.calls.filter fun x => sel x.element x.isect⟩ e
            = some ⟨s.view, d', s.calls.filter fun x => sel x.element x.isect⟩ := by simp [elemStep, hbd]
        rw [hstep]
        exact ih s s' d' h1 h2 h
  obtain ⟨t, g1, g2⟩ := key els ⟨LocalView.fresh b.model, {}, []⟩ s' {} hk (LocalView.fresh_blank _) hs
  rw [← g2, forEachBoundaryDOF]
  exact Option.map_eq_some_iff.mpr ⟨t, g1, rfl⟩

theorem selected_reported {hasBoundary : E → Bool} {isects : E → List BIsect} (hB : ∀ e, ∀ is ∈ isects e, is.boundary = true → hasBoundary e = true) (sel : E → BIsect → Bool) :
    ∀ e, ∀ is ∈ selected sel isects e, is.boundary = true → hasBoundary e = true := fun e is his hb => hB e is (mem_selected his hb).1 hb

/-! ## Theorems -/

/-- **C112.** Ignoring the calls for some intersections has the effect of a traversal where these are not boundary intersections, for all subspace bases: the calls that are not ignored are the same, in
the same order. -/
theorem C112_calls (b : PB E) (hb : b.WF) {p : List Nat} (hp : HasPath b p) (keys : Nat → E → List Key) (inc : E → Nat → Nat → Key → Bool) (hk : KeysMatch keys (LocalView.fresh b.model).tree)
    (hasBoundary : E → Bool) (isects : E → List BIsect) (hB : ∀ e, ∀ is ∈ isects e, is.boundary = true → hasBoundary e = true) (sel : E → BIsect → Bool) (els : List E) :
    ∃ calls, subForEachBoundaryDOF (subspaceBasis b.model p) keys inc hasBoundary isects els = some calls ∧
      subForEachBoundaryDOF (subspaceBasis b.model p) keys inc hasBoundary (selected sel isects) els = some (calls.filter fun x => sel x.element x.isect) := by
  obtain ⟨calls, h1, h2⟩ := C110_subspace b hb p [] (by simpa using hp) keys inc hk hasBoundary isects hB els
  obtain ⟨calls', g1, g2⟩ := C110_subspace b hb p [] (by simpa using hp) keys inc hk hasBoundary (selected sel isects) (selected_reported hB sel) els
  rw [selected_root b hb keys inc hk hasBoundary isects sel els h1, Option.some.injEq] at g1
  refine ⟨_, h2, g2.trans ?_⟩
  rw [← g1, List.filter_filter, List.filter_filter]
  simp only [Bool.and_comm]

/-- **C112.** The program with a condition on the intersection is the program of C111 for the selected part of the boundary. -/
theorem C112_program {A : Lib Bool Bool} {rsB : CT → List (Ct Bool) → Nat → List (Ct Bool)} {rs : CT → List (Ct T) → Nat → List (Ct T)} (b : PB E) (hb : b.WF) {p : List Nat} (hp : HasPath b p)
    (keys : Nat → E → List Key) (inc : E → Nat → Nat → Key → Bool) (hk : KeysMatch keys (LocalView.fresh b.model).tree) (hasBoundary : E → Bool) (isects : E → List BIsect)
    (hB : ∀ e, ∀ is ∈ isects e, is.boundary = true → hasBoundary e = true) (sel : E → BIsect → Bool) (els : List E) (tyB : CT) (bits : Ct Bool) (ty : CT) (I : Interp E T) (c : Ct T) :
    setBoundaryWhere A rsB rs b.model p keys inc hasBoundary isects sel els tyB bits ty I c = setBoundary A rsB rs b.model p keys inc hasBoundary (selected sel isects) els tyB bits ty I c := by
  obtain ⟨calls, h1, h2⟩ := C112_calls b hb hp keys inc hk hasBoundary isects hB sel els
  have hm : ∀ bits, markWhere sel calls bits = markCalls (calls.filter fun x => sel x.element x.isect) bits := by
    clear h1 h2
    induction calls with
    | nil => intro bits; rfl
    | cons x calls ih =>
      intro bits
      by_cases hx : sel x.element x.isect = true
      · rw [List.filter_cons_of_pos (p := fun x : Visit E => sel x.element x.isect) hx, markWhere, markCalls, List.foldlM_cons, List.foldlM_cons, if_pos hx]
        cases assign true bits ⟨x.index, 0⟩ with
        | none => rfl
        | some c => exact ih c
      · rw [List.filter_cons_of_neg (p := fun x : Visit E => sel x.element x.isect) hx, markWhere, List.foldlM_cons, if_neg hx]
        exact ih bits
  simp only [setBoundaryWhere, setBoundary, boundaryMarker, h1, h2, Option.bind_some, hm]
  cases Container.resize rsB b.model.size tyB bits with
  | error e => rfl
  | ok b1 =>
    cases h : assignValue A tyB b1 false with
    | none => simp [h]
    | some b2 => simp only [h, Option.bind_some]; rfl

/-! ## Example -/

/-- Only edge 1 of the first element of the basis of `Verif/Dofs/SubEntity.lean`: the common vertex of both boundary edges is visited, that of the other edge is not. -/
example : (subForEachBoundaryDOF (subspaceBasis exBasis.model [1]) (fun _ => exKeys) (fun _ i c k => stdInc ⟨2, 3⟩ i c k.codim k.sub) (fun e => e = 0)
    (selected (fun _ is => is.indexInInside == 1) exIsects) [0, 1]).map (fun l => l.map Visit.index) = some [[1, 0], [1, 3]] := by decide +kernel

example : (setBoundaryWhere Dirichlet.bitLib (stdResize true) (stdResize 7) exBasis.model [1] (fun _ => exKeys) (fun _ i c k => stdInc ⟨2, 3⟩ i c k.codim k.sub) (fun e => e = 0) exIsects
    (fun _ is => is.indexInInside == 1) [0, 1] (.arr 2 (.vec .scalar)) (.arr [.vec [], .vec []]) (.arr 2 (.vec .scalar)) Dirichlet.exInterp (.arr [.vec [], .vec []])).map
    (fun c => [0, 1, 2, 3].map fun i => match access isScalar c [1, i] with | some (.scalar x) => x | _ => 0) = some [100, 7, 7, 201] := by decide +kernel

end Verif.Dofs

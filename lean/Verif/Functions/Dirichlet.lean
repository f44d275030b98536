import Verif.Dofs.Components
import Verif.Functions.RoundTrip
import Verif.Container.Assign

/-!
# Interpolation of boundary values

The usual way to set boundary values, as in `examples/stokes-taylorhood.cc` and `examples/interpolation.cc`: the degrees of freedom visited by `forEachBoundaryDOF` are marked in a nested
bit vector, and this is passed to `interpolate`.
-/

namespace Verif.Dirichlet

open Verif.Mapper Verif.IndexTree Verif.Container Verif.Interpolate Verif.Dofs
open Verif.Assign (Lib assignValue C77_number)

variable {E T : Type}

/-! ## Model -/

/-- The loop `forEachBoundaryDOF(sub, [&](auto&& index) { isBoundaryBackend[index] = true; })` for given calls, stokes-taylorhood.cc:419-423, interpolation.cc:104-107. -/
def markCalls (calls : List (Dofs.Visit E)) (bits : Ct Bool) : Option (Ct Bool) := calls.foldlM (fun c v => assign true c ⟨v.index, 0⟩) bits

/-- `isBoundaryBackend.resize(basis); isBoundaryBackend = false; forEachBoundaryDOF(...)`, stokes-taylorhood.cc:410-423, interpolation.cc:100-107, with the assignment of `false` by the
backend (istlvectorbackend.hh:287-291). The examples assign `false` to the container itself. `none`: undefined, does not compile, or `resize` throws. -/
def boundaryMarker (A : Lib Bool Bool) (rs : CT → List (Ct Bool) → Nat → List (Ct Bool)) (pb : PreBasis E) (p : List Nat) (keys : Nat → E → List Key) (inc : E → Nat → Nat → Key → Bool)
    (hasBoundary : E → Bool) (isects : E → List BIsect) (els : List E) (ty : CT) (bits : Ct Bool) : Option (Ct Bool) :=
  match Container.resize rs pb.size ty bits with
  | .error _ => none
  | .ok c1 => (assignValue A ty c1 false).bind fun c2 => (subForEachBoundaryDOF (subspaceBasis pb p) keys inc hasBoundary isects els).bind fun calls => markCalls calls c2

/-- The whole program: mark the boundary DOFs of a subspace basis and interpolate into the marked entries, stokes-taylorhood.cc:410-439, interpolation.cc:100-111. -/
def setBoundary (A : Lib Bool Bool) (rsB : CT → List (Ct Bool) → Nat → List (Ct Bool)) (rs : CT → List (Ct T) → Nat → List (Ct T)) (pb : PreBasis E) (p : List Nat)
    (keys : Nat → E → List Key) (inc : E → Nat → Nat → Key → Bool) (hasBoundary : E → Bool) (isects : E → List BIsect) (els : List E) (tyB : CT) (bits : Ct Bool)
    (ty : CT) (I : Interp E T) (c : Ct T) : Option (Ct T) :=
  (boundaryMarker A rsB pb p keys inc hasBoundary isects els tyB bits).bind fun mk =>
    match interpolate rs pb p ty I (.bits mk) els c with
    | .error _ => none
    | .ok c' => some c'

/-! ## Proofs -/

theorem mark_entry {b : PB E} (hb : b.WF) (calls : List (Dofs.Visit E)) (hcalls : ∀ v ∈ calls, v.index ∈ IndexSet b.model) (bits : Ct Bool) (old : MI → Bool)
    (h : ∀ m ∈ IndexSet b.model, Entry bits m (old m)) :
    ∃ c, markCalls calls bits = some c ∧ ∀ m ∈ IndexSet b.model, Entry c m (old m || decide (m ∈ calls.map Dofs.Visit.index)) := by
  induction calls generalizing bits old with
  | nil => exact ⟨bits, rfl, by simpa using h⟩
  | cons v calls ih =>
    obtain ⟨k, hk⟩ := h _ (hcalls v List.mem_cons_self)
    obtain ⟨c, h1, h2, h3⟩ := assign_path true _ bits _ ⟨v.index, 0⟩ ⟨k, rfl⟩ hk
    obtain ⟨c', g1, g2⟩ := ih (fun x hx => hcalls x (List.mem_cons_of_mem _ hx)) c (fun m => old m || decide (m = v.index)) (by
      intro m hm
      by_cases he : m = v.index
      · subst he
        exact ⟨k, by rw [decide_eq_true rfl, Bool.or_true]; exact h2⟩
      · obtain ⟨k', hk'⟩ := h m hm
        refine ⟨k', ?_⟩
        rw [decide_eq_false he, Bool.or_false]
        refine h3 _ _ hk' fun heq => ?_
        rcases pads_prefix heq with hpre | hpre
        · exact he (C04_prefixFree b hb _ hm _ (hcalls v List.mem_cons_self) hpre)
        · exact he (C04_prefixFree b hb _ (hcalls v List.mem_cons_self) _ hm hpre).symm)
    refine ⟨c', ?_, fun m hm => ?_⟩
    · rw [markCalls, List.foldlM_cons, h1]
      exact g1
    · have := g2 m hm
      simpa [Bool.or_assoc] using this

/-- The visited multi-indices belong to visited elements and to functions below the node. -/
theorem call_index (b : PB E) (hb : b.WF) (keys : Nat → E → List Key) (inc : E → Nat → Nat → Key → Bool) (hk : KeysMatch keys (LocalView.fresh b.model).tree) (hasBoundary : E → Bool)
    (isects : E → List BIsect) (hB : ∀ e, ∀ is ∈ isects e, is.boundary = true → hasBoundary e = true) (els : List E) {p : List Nat} (hp : HasPath b p) {calls : List (Dofs.Visit E)}
    (h : subForEachBoundaryDOF (subspaceBasis b.model p) keys inc hasBoundary isects els = some calls) :
    ∀ v ∈ calls, v.element ∈ els ∧ ∃ d ∈ b.spec.loc v.element, p <+: d ∧ v.index = b.spec.mi d := by
  intro v hv
  refine ⟨?_, sub_index b hb keys inc hk hasBoundary isects hB els hp h v hv⟩
  obtain ⟨calls', h1, h2⟩ := C110_subspace b hb p [] (by simpa using hp) keys inc hk hasBoundary isects hB els
  obtain ⟨_, g1, g2⟩ := C32_boundary b hb keys inc hk hasBoundary isects hB els
  rw [h1, Option.some.injEq] at g1
  subst g1
  have hn : (subspaceBasis b.model p) = nested b.model p [] := rfl
  simp only [List.flatten_nil, List.append_nil] at h2
  rw [hn, h2, Option.some.injEq] at h
  subst h
  exact ((g2 v).1 (List.mem_filter.1 hv).1).1

/-- A visited multi-index is met by interpolation into the subspace basis. -/
theorem visits_index {b : PB E} (hb : b.WF) {p : List Nat} (hp : HasPath b p) {els : List E} {e : E} (he : e ∈ els) {d : List Nat} (hd : d ∈ b.spec.loc e) (hpd : p <+: d) :
    b.spec.mi d ∈ (visits b.model p els).map Interpolate.Visit.index := by
  have h := (C39_visits b hb p hp e).1
  have h1 : b.spec.mi d ∈ (visitsOn b.model p e).map (fun w => w.index) := by
    rw [h]
    exact List.mem_map_of_mem (List.mem_filter.2 ⟨hd, List.isPrefixOf_iff_prefix.2 hpd⟩)
  obtain ⟨w, hw, hwi⟩ := List.mem_map.1 h1
  exact List.mem_map.2 ⟨w, List.mem_flatMap.2 ⟨e, he, hw⟩, hwi⟩

/-- The last visit of a multi-index. -/
theorem last_visit {m : MI} (V : List (Interpolate.Visit E)) (h : m ∈ V.map Interpolate.Visit.index) :
    ∃ V1 w V2, V = V1 ++ w :: V2 ∧ w.index = m ∧ ∀ w' ∈ V2, w'.index ≠ m := by
  induction V with
  | nil => simp at h
  | cons w V ih =>
    by_cases h1 : m ∈ V.map Interpolate.Visit.index
    · obtain ⟨V1, w', V2, rfl, h2, h3⟩ := ih h1
      exact ⟨w :: V1, w', V2, rfl, h2, h3⟩
    · rw [List.map_cons, List.mem_cons] at h
      refine ⟨[], w, V, rfl, (h.resolve_right h1).symm, fun w' hw' he => h1 ?_⟩
      exact List.mem_map.2 ⟨w', hw', he⟩

/-! ## Theorems -/

/-- **C111.** The bit vector: after `resize`, assigning `false` and the loop over the boundary DOFs of a subspace basis exactly the entries of the visited multi-indices are `true`, for all basis
trees, subspaces and nestings of the bit vector. -/
theorem C111_marker {A : Lib Bool Bool} (hA : A.Numbers) {rs : CT → List (Ct Bool) → Nat → List (Ct Bool)} (hrs : ResizeOK rs) (b : PB E) (hb : b.WF) {p : List Nat} (hp : HasPath b p)
    (keys : Nat → E → List Key) (inc : E → Nat → Nat → Key → Bool) (hk : KeysMatch keys (LocalView.fresh b.model).tree) (hasBoundary : E → Bool) (isects : E → List BIsect)
    (hB : ∀ e, ∀ is ∈ isects e, is.boundary = true → hasBoundary e = true) (els : List E) (ty : CT) (bits c1 : Ct Bool) (hc : HasType ty bits)
    (hr : Container.resize rs b.model.size ty bits = .ok c1) (hty : ∀ m ∈ IndexSet b.model, ∀ t, CT.at m ty = some t → t.Padded) :
    ∃ calls mk, subForEachBoundaryDOF (subspaceBasis b.model p) keys inc hasBoundary isects els = some calls ∧
      boundaryMarker A rs b.model p keys inc hasBoundary isects els ty bits = some mk ∧
      ∀ m ∈ IndexSet b.model, Entry mk m (decide (m ∈ calls.map Dofs.Visit.index)) := by
  obtain ⟨calls', -, h2⟩ := C110_subspace b hb p [] (by simpa using hp) keys inc hk hasBoundary isects hB els
  obtain ⟨calls, hcalls⟩ : ∃ calls, subForEachBoundaryDOF (subspaceBasis b.model p) keys inc hasBoundary isects els = some calls := ⟨_, h2⟩
  obtain ⟨c2, g1, -, g3⟩ := C77_number hA ty c1 (C33_shape hrs ty bits c1 hc hr).1 false
  have hidx := call_index b hb keys inc hk hasBoundary isects hB els hp hcalls
  have R := b.refines hb
  obtain ⟨mk, k1, k2⟩ := mark_entry hb calls (fun v hv => by
      obtain ⟨-, d, hd, -, h⟩ := hidx v hv
      rw [h, indexSet_eq hb]
      exact ⟨v.element, d, hd, rfl⟩) c2 (fun _ => false) (fun m hm => by
      obtain ⟨x, k, hk⟩ := C33_entry hrs b hb ty bits c1 hc hr m hm (hty m hm)
      have := g3 (m ++ List.replicate k 0)
      rw [hk] at this
      exact ⟨k, this⟩)
  refine ⟨calls, mk, hcalls, ?_, fun m hm => by simpa using k2 m hm⟩
  simp only [boundaryMarker, hr, g1, hcalls, Option.bind_some, k1]

/-- **C111.** The coefficients: after marking the boundary DOFs of a subspace basis and interpolating any function into the marked entries, the coefficients of the visited multi-indices are those
that interpolation without bit vector computes (into any vector), and all others keep the value they had after resizing. Holds for all functions, also if the values computed on different
elements differ. -/
theorem C111_interpolate {A : Lib Bool Bool} (hA : A.Numbers) {rsB : CT → List (Ct Bool) → Nat → List (Ct Bool)} (hrsB : ResizeOK rsB) {rs : CT → List (Ct T) → Nat → List (Ct T)}
    (hrs : ResizeOK rs) (b : PB E) (hb : b.WF) {p : List Nat} (hp : HasPath b p) (keys : Nat → E → List Key) (inc : E → Nat → Nat → Key → Bool)
    (hk : KeysMatch keys (LocalView.fresh b.model).tree) (hasBoundary : E → Bool) (isects : E → List BIsect)
    (hB : ∀ e, ∀ is ∈ isects e, is.boundary = true → hasBoundary e = true) (els : List E)
    (tyB : CT) (bits bits1 : Ct Bool) (hcB : HasType tyB bits) (hrB : Container.resize rsB b.model.size tyB bits = .ok bits1)
    (htyB : ∀ m ∈ IndexSet b.model, ∀ t, CT.at m tyB = some t → t.Padded)
    (ty : CT) (c c1 : Ct T) (hc : HasType ty c) (hr : Container.resize rs b.model.size ty c = .ok c1) (hty : ∀ m ∈ IndexSet b.model, ∀ t, CT.at m ty = some t → t.Padded)
    (tyF : CT) (cF cF1 : Ct T) (hcF : HasType tyF cF) (hrF : Container.resize rs b.model.size tyF cF = .ok cF1) (htyF : ∀ m ∈ IndexSet b.model, ∀ t, CT.at m tyF = some t → t.Padded)
    (I : Interp E T) (hI : ∀ w ∈ visits b.model p els, w.i < (I.coefs w.element w.path).length) :
    ∃ calls full c', subForEachBoundaryDOF (subspaceBasis b.model p) keys inc hasBoundary isects els = some calls ∧
      interpolate rs b.model p tyF I .allTrue els cF = .ok full ∧
      setBoundary A rsB rs b.model p keys inc hasBoundary isects els tyB bits ty I c = some c' ∧
      ∀ m ∈ IndexSet b.model, ∃ x, access isScalar c' m = some (.scalar x) ∧
        (m ∈ calls.map Dofs.Visit.index → access isScalar full m = some (.scalar x)) ∧ (m ∉ calls.map Dofs.Visit.index → access isScalar c1 m = some (.scalar x)) := by
  obtain ⟨calls, mk, hcalls, hmk, hent⟩ := C111_marker hA hrsB b hb hp keys inc hk hasBoundary isects hB els tyB bits bits1 hcB hrB htyB
  have htest : ∀ m ∈ IndexSet b.model, (Marker.bits mk).test m = some (decide (m ∈ calls.map Dofs.Visit.index)) := by
    intro m hm
    rw [Marker.test, C35_access _ _ _ (hent m hm)]
  have hvm := visits_mem hb hp els
  obtain ⟨c', h1, h2, -, h4⟩ := C39 rs b hb p hp ty I (.bits mk) els c c1 hr (fun m hm => C33_entry hrs b hb ty c c1 hc hr m hm (hty m hm))
    (fun w hw => by rw [htest _ (hvm w hw)]; rfl) hI
  obtain ⟨full, f1, f2⟩ := C39_all hrs b hb p hp tyF I els cF cF1 hcF hrF htyF hI
  refine ⟨calls, full, c', hcalls, f1, by simp only [setBoundary, hmk, Option.bind_some, h1], fun m hm => ?_⟩
  by_cases hmc : m ∈ calls.map Dofs.Visit.index
  · obtain ⟨v, hv, rfl⟩ := List.mem_map.1 hmc
    obtain ⟨he, d, hd, hpd, hdi⟩ := call_index b hb keys inc hk hasBoundary isects hB els hp hcalls v hv
    obtain ⟨V1, w, V2, hV, hw, hlast⟩ := last_visit _ (hdi ▸ visits_index hb hp he hd hpd)
    obtain ⟨x, hx, hx'⟩ := h2 V1 w V2 hV (by rw [hw, htest _ hm, decide_eq_true hmc]) (by rw [hw]; exact hlast)
    obtain ⟨y, hy, hy'⟩ := f2 V1 w V2 hV (by rw [hw]; exact hlast)
    rw [hx, Option.some.injEq] at hy
    subst hy
    rw [hw] at hx' hy'
    exact ⟨x, hx', fun _ => hy', fun h => absurd hmc h⟩
  · obtain ⟨x, hx⟩ := C33_entry hrs b hb ty c c1 hc hr m hm (hty m hm)
    have hkeep := h4 m hm (fun w _ _ => by rw [htest _ hm, decide_eq_false hmc])
    rw [C35_access _ _ _ hx] at hkeep
    exact ⟨x, hkeep, fun h => absurd h hmc, fun _ => C35_access _ _ _ hx⟩

/-! ## Examples -/

/-- Only numbers can be assigned, as for `std::vector<bool>` and `std::array`. -/
def bitLib : Lib Bool Bool where
  ok
    | .scalar => true
    | _ => false
  set
    | .scalar, _, v => .scalar v
    | _, c, _ => c

theorem bitLib_numbers : bitLib.Numbers where
  scalar := rfl
  typed := by
    intro ty c v h hc
    match ty, c, h, hc with
    | .scalar, .scalar x, _, _ => trivial
  filled := by
    intro ty c v h hc
    match ty, c, h, hc with
    | .scalar, .scalar x, _, _ =>
      intro p
      rw [Assign.at_scalar]
      by_cases hp : p = []
      · simp [hp, bitLib, Ct.at]
      · simp only [hp, if_false]
        rw [show bitLib.set .scalar (.scalar x) v = .scalar v from rfl, Assign.at_scalar, if_neg hp]

/-- The interpolated values on the two triangles of the basis of `Verif/Dofs/SubEntity.lean`: they differ in the common vertices. -/
def exInterp : Interp (Fin 2) Nat where
  needsDerivative _ _ := false
  interp _ e _ _ := [0, 1, 2].map fun i => 100 * (e.val + 1) + i
  derivInit := id

/-- The numbers of the nested vectors after setting the boundary values of a component. -/
def exRun (p : List Nat) : Option (List (List (Option Nat))) :=
  (setBoundary bitLib (stdResize true) (stdResize 7) Dofs.exBasis.model p (fun _ => exKeys) (fun _ i c k => stdInc ⟨2, 3⟩ i c k.codim k.sub) (fun e => e = 0) exIsects [0, 1]
    (.arr 2 (.vec .scalar)) (.arr [.vec [], .vec [.scalar true]]) (.arr 2 (.vec .scalar)) exInterp (.arr [.vec [.scalar 1, .scalar 2, .scalar 3, .scalar 4], .vec []])).map
    fun c => [0, 1].map fun k => [0, 1, 2, 3].map fun i => match access isScalar c [k, i] with
      | some (.scalar x) => some x
      | _ => none

/-- Only the entries `[1, 0]`, `[1, 1]` and `[1, 3]` of the visited DOFs are set: the new entry `[1, 2]` is the value of `resize`, and the first component is unchanged. -/
example : exRun [1] = some [[some 1, some 2, some 3, some 4], [some 100, some 202, some 7, some 201]] := by decide +kernel
example : exRun [0] = some [[some 100, some 202, some 3, some 201], [some 7, some 7, some 7, some 7]] := by decide +kernel

end Verif.Dirichlet

import Verif.Functions.RoundTrip
import Verif.IndexTree.Periodic
import Verif.IndexTree.Transformed

/-!
# Functions of bases with transformed indices

A basis with transformed indices has the same functions as the wrapped basis. A periodic basis has exactly those functions of the wrapped basis whose
coefficients agree in all pairs of unified indices.
-/

namespace Verif.Renumbered

open Verif.IndexTree Verif.Discrete Verif.RoundTrip Verif.Transformed

variable {E X K : Type} [CommRing K]

/-! ## Specification -/

/-- The coefficient vector of the wrapped basis: the coefficient of the function with multi-index `m` is the one of the new multi-index `T m`. -/
def pull (T : MI → MI) (v : Vec K) : Vec K := fun m => if m = [] then v [] else v (T m)

/-- The new multi-index of a flat index. -/
def merge (f : List (Option Nat)) (m : MI) : MI := [((f[m.headD 0]?).getD none).getD 0]

/-- `F` is the discrete function with coefficients `v`, evaluated with local functions (also those of the derivative). -/
def Evaluates (pb : PreBasis E) (P : Shapes E X K) (v : Vec K) (F : Bool → E → X → Pos → K) : Prop :=
  VecOK ⟨pb, []⟩ P.dimC v ∧ ∀ d e x, localEval ⟨pb, []⟩ P v d (some e) x = some (F d e x)

/-- Whenever two indices are unified with the same larger index, they are unified with each other, too. -/
def Transitive (calls : List (Nat × Nat)) : Prop := ∀ a a' b, a < a' → a' < b → Unified calls a b → Unified calls a' b → Unified calls a a'

/-! ## Proofs -/

theorem eval_fold {b : PB E} (hb : b.WF) (P : Shapes E X K) (hP : P.OK ⟨b.model, []⟩) {v : Vec K} (hv : VecOK ⟨b.model, []⟩ P.dimC v) (d : Bool) (e : E) (x : X) :
    localEval ⟨b.model, []⟩ P v d (some e) x = some ((slotsOn ⟨b.model, []⟩ e).foldl (assignLeaf ⟨b.model, []⟩ P d e v x) fun _ => 0) := by
  obtain ⟨st, hst, h⟩ := aget_eval hb (.nil b) P hP hv [.new d, .bind 0 e] (by simp) (by simp)
    (a := (v, [some (d, some (e, v))])) (by simp [Discrete.absRun, Discrete.absStep])
  simp only [localEval, Option.bind_some, hst, h 0 d e v rfl x]

section Same

variable {b b' : PB E} (hb : b.WF) (hb' : b'.WF) (hnode : b'.model.makeNode = b.model.makeNode) (T : MI → MI)
  (hT : ∀ e, (b'.spec.loc e).map b'.spec.mi = ((b.spec.loc e).map b.spec.mi).map T)
include hb hb' hnode hT

omit hT in
theorem slots_same (e : E) : slotsOn ⟨b'.model, []⟩ e = slotsOn ⟨b.model, []⟩ e := by
  have h1 := LocalView.bind_eq (b.refines hb) (LocalView.fresh b.model) (LocalView.fresh_blank b.model) e
  have h2 := LocalView.bind_eq (b'.refines hb') (LocalView.fresh b'.model) (LocalView.fresh_blank b'.model) e
  have ht : (LocalView.fresh b'.model).tree = (LocalView.fresh b.model).tree := by simp only [LocalView.fresh, hnode]
  simp only [slotsOn, h1, h2, ht]

omit hnode [CommRing K] in
theorem index_same (v : Vec K) (e : E) (i : Nat) : v (indexOn ⟨b'.model, []⟩ e i) = pull T v (indexOn ⟨b.model, []⟩ e i) := by
  have R := b.refines hb
  have h1 := LocalView.bind_eq R (LocalView.fresh b.model) (LocalView.fresh_blank b.model) e
  have h2 := LocalView.bind_eq (b'.refines hb') (LocalView.fresh b'.model) (LocalView.fresh_blank b'.model) e
  simp only [indexOn, h1, h2, Option.bind_some, LocalView.index, hT]
  by_cases hi : i < (b.spec.loc e).length
  · have hne : b.spec.mi (b.spec.loc e)[i] ≠ [] := by
      intro h0
      have hl := R.lenMin _ (R.locMem e _ (List.getElem_mem hi))
      have hp := R.minPos
      rw [h0] at hl
      simp at hl
      omega
    simp [hi, pull, hne]
  · have : (b.spec.loc e)[i]? = none := List.getElem?_eq_none (by omega)
    simp [this, pull]

omit hnode in
theorem indexSet_same : IndexSet b'.model = T '' IndexSet b.model := by
  ext m
  constructor
  · rintro ⟨e, I, hI, hm⟩
    rw [localIndices_eq (b'.refines hb') e, Option.some.injEq, hT] at hI
    subst hI
    obtain ⟨m0, h0, rfl⟩ := List.mem_map.1 hm
    exact ⟨m0, ⟨e, _, localIndices_eq (b.refines hb) e, h0⟩, rfl⟩
  · rintro ⟨m0, ⟨e, I, hI, hm⟩, rfl⟩
    rw [localIndices_eq (b.refines hb) e, Option.some.injEq] at hI
    subst hI
    refine ⟨e, _, localIndices_eq (b'.refines hb') e, ?_⟩
    rw [hT]
    exact List.mem_map_of_mem hm

omit hb' hnode hT [CommRing K] in
theorem index_ne {m : MI} (hm : m ∈ IndexSet b.model) : m ≠ [] := by
  rw [indexSet_eq hb] at hm
  obtain ⟨e, d, hd, rfl⟩ := hm
  have R := b.refines hb
  intro h0
  have hl := R.lenMin _ (R.locMem e _ hd)
  have hp := R.minPos
  rw [h0] at hl
  simp at hl
  omega

omit hnode [CommRing K] in
theorem vec_same {v : Vec K} {c : Nat} : VecOK ⟨b'.model, []⟩ c v ↔ VecOK ⟨b.model, []⟩ c (pull T v) := by
  unfold VecOK
  simp only [indexSet_same hb hb' T hT, Set.mem_image, forall_exists_index, and_imp, forall_apply_eq_imp_iff₂]
  constructor
  · intro h m hm
    rw [pull, if_neg (index_ne hb hm)]
    exact h m hm
  · intro h m hm
    have := h m hm
    rwa [pull, if_neg (index_ne hb hm)] at this

theorem eval_same {P : Shapes E X K} (hP : P.OK ⟨b.model, []⟩) {v : Vec K} (hv : VecOK ⟨b'.model, []⟩ P.dimC v) (d : Bool) (e : E) (x : X) :
    localEval ⟨b'.model, []⟩ P v d (some e) x = localEval ⟨b.model, []⟩ P (pull T v) d (some e) x := by
  have hs := slots_same hb hb' hnode
  have hP' : P.OK ⟨b'.model, []⟩ := ⟨by simpa only [hs] using hP.number, by simpa only [hs] using hP.rows, by simpa only [hs] using hP.range⟩
  rw [eval_fold hb' P hP' hv, eval_fold hb P hP ((vec_same hb hb' T hT).1 hv), hs]
  have he : assignLeaf ⟨b'.model, []⟩ P d e v x = assignLeaf ⟨b.model, []⟩ P d e (pull T v) x := by
    funext y s q
    simp only [assignLeaf, entries, entry, comb, index_same hb hb' T hT]
  rw [he]

theorem evaluates_same {P : Shapes E X K} (hP : P.OK ⟨b.model, []⟩) (v : Vec K) (F : Bool → E → X → Pos → K) :
    Evaluates b'.model P v F ↔ Evaluates b.model P (pull T v) F := by
  constructor
  · rintro ⟨h1, h2⟩
    exact ⟨(vec_same hb hb' T hT).1 h1, fun d e x => by rw [← eval_same hb hb' hnode T hT hP h1, h2]⟩
  · rintro ⟨h1, h2⟩
    have h1' := (vec_same hb hb' T hT).2 h1
    exact ⟨h1', fun d e x => by rw [eval_same hb hb' hnode T hT hP h1', h2]⟩

end Same

/-- Evaluation only depends on the coefficients of the multi-indices of the basis. -/
theorem eval_congr {b : PB E} (hb : b.WF) {P : Shapes E X K} (hP : P.OK ⟨b.model, []⟩) {v w : Vec K} (h : ∀ m ∈ IndexSet b.model, v m = w m)
    (hn : v [] = w []) (F : Bool → E → X → Pos → K) : Evaluates b.model P v F ↔ Evaluates b.model P w F := by
  have aux : ∀ {v w : Vec K}, (∀ m ∈ IndexSet b.model, v m = w m) → v [] = w [] → Evaluates b.model P v F → Evaluates b.model P w F := by
    rintro v w h hn ⟨h1, h2⟩
    have hw : VecOK ⟨b.model, []⟩ P.dimC w := fun m hm => by rw [← h m hm]; exact h1 m hm
    refine ⟨hw, fun d e x => ?_⟩
    rw [← h2, eval_fold hb P hP h1, eval_fold hb P hP hw]
    have hi : ∀ i, v (indexOn ⟨b.model, []⟩ e i) = w (indexOn ⟨b.model, []⟩ e i) := by
      intro i
      have hbind := LocalView.bind_eq (b.refines hb) (LocalView.fresh b.model) (LocalView.fresh_blank b.model) e
      have hloc := localIndices_eq (b.refines hb) e
      simp only [indexOn, hbind, Option.bind_some, LocalView.index]
      by_cases hi : i < ((b.spec.loc e).map b.spec.mi).length
      · rw [List.getElem?_eq_getElem hi, Option.getD_some]
        exact h _ ⟨e, _, hloc, List.getElem_mem hi⟩
      · rw [List.getElem?_eq_none (by omega), Option.getD_none, hn]
    have he : assignLeaf ⟨b.model, []⟩ P d e w x = assignLeaf ⟨b.model, []⟩ P d e v x := by
      funext y s q
      simp only [assignLeaf, entries, entry, comb, hi]
    rw [he]
  exact ⟨aux h hn, aux (fun m hm => (h m hm).symm) hn.symm⟩

/-! ## Theorems -/

/-- **C101.** A basis with transformed indices has the same functions as the wrapped basis: the coefficient of the new multi-index `T m` is the one of the multi-index `m`. This
holds for all consistent transformations of all bases, and for values and derivatives. -/
theorem C101_transformed (b : PB E) (hb : b.WF) (τ : Transformation) (T : MI → MI) (root : Nat) (C : Consistent b.model (Dofs b.spec) τ T root)
    {P : Shapes E X K} (hP : P.OK ⟨b.model, []⟩) (F : Bool → E → X → Pos → K) :
    (∀ v, Evaluates (transformedPB b.model τ) P v F ↔ Evaluates b.model P (pull T v) F) ∧
      ((∃ v, Evaluates (transformedPB b.model τ) P v F) ↔ ∃ w, Evaluates b.model P w F) := by
  classical
  have hwf := (C75 b hb τ T root C).1
  have hT : ∀ e, ((transformed b τ T root).spec.loc e).map (transformed b τ T root).spec.mi = ((b.spec.loc e).map b.spec.mi).map T := by
    intro e
    simp [transformed, PB.spec, specTransformed]
  have key := fun v => evaluates_same hb hwf rfl T hT hP v F
  refine ⟨key, ⟨fun ⟨v, hv⟩ => ⟨_, (key v).1 hv⟩, ?_⟩⟩
  rintro ⟨w, hw⟩
  have hinj : ∀ m ∈ IndexSet b.model, ∀ m' ∈ IndexSet b.model, T m = T m' → m = m' := by
    rw [indexSet_eq hb]
    rintro _ ⟨e, d, hd, rfl⟩ _ ⟨e', d', hd', rfl⟩ h
    exact C.prefixFree _ _ ⟨d, (b.refines hb).locMem e d hd, rfl⟩ ⟨d', (b.refines hb).locMem e' d' hd', rfl⟩ (by rw [h])
  have hne : ∀ m ∈ IndexSet b.model, T m ≠ [] := by
    rw [indexSet_eq hb]
    rintro _ ⟨e, d, hd, rfl⟩ h
    have h1 := (C.len _ ⟨d, (b.refines hb).locMem e d hd, rfl⟩).1
    have := C.minPos
    rw [h] at h1
    simp at h1
    omega
  let v : Vec K := fun m => if m = [] then w [] else if h : ∃ m0 ∈ IndexSet b.model, T m0 = m then w h.choose else none
  refine ⟨v, (key v).2 ((eval_congr hb hP ?_ ?_ F).1 hw)⟩
  · intro m hm
    have hex : ∃ m0 ∈ IndexSet b.model, T m0 = T m := ⟨m, hm, rfl⟩
    rw [pull, if_neg (index_ne hb hm)]
    simp only [v, if_neg (hne m hm), dif_pos hex]
    rw [hinj _ hex.choose_spec.1 _ hm hex.choose_spec.2]
  · simp [pull, v]

/-- The numbering of the periodic basis. -/
theorem merge_eq {f : List (Option Nat)} {i v : Nat} (h : f[i]? = some (some v)) : merge f [i] = [v] := by
  simp [merge, h]

/-- **C101.** A function of a periodic basis is the function of the wrapped basis with the coefficients `c[i] = v[f[i]]`, where `f` is the identification computed by
`PeriodicIndexingTransformation`. -/
theorem C101_pull (b : PB E) (hb : b.WF) (hflat : b.model.maxLen = 1) (calls : List (Nat × Nat)) (h : ∀ p ∈ calls, p.1 < b.spec.root ∧ p.2 < b.spec.root)
    {P : Shapes E X K} (hP : P.OK ⟨b.model, []⟩) {f : List (Option Nat)} {n : Nat} (hf : periodicMap b.spec.root (unifyAll calls) = some (f, n))
    (v : Vec K) (F : Bool → E → X → Pos → K) :
    Evaluates (periodicPB b.model f n) P v F ↔ Evaluates b.model P (pull (merge f) v) F := by
  obtain ⟨f', n', h1, h2⟩ := C15_basis b hb hflat calls h
  rw [hf, Option.some.injEq, Prod.mk.injEq] at h1
  obtain ⟨rfl, rfl⟩ := h1
  exact evaluates_same (b' := .ext (periodicPB b.model f n) (specPeriodic b.spec f n)) hb h2 rfl (merge f) (by intro e; simp [PB.spec, specPeriodic, merge]) hP v F

/-- **C101.** If the pairs are closed, the functions of a periodic basis are exactly the functions of the wrapped basis whose coefficients agree in each pair of unified indices. -/
theorem C101_periodic_partial (b : PB E) (hb : b.WF) (hflat : b.model.maxLen = 1) (calls : List (Nat × Nat)) (h : ∀ p ∈ calls, p.1 < b.spec.root ∧ p.2 < b.spec.root)
    (hcl : Transitive calls) {P : Shapes E X K} (hP : P.OK ⟨b.model, []⟩) {f : List (Option Nat)} {n : Nat}
    (hf : periodicMap b.spec.root (unifyAll calls) = some (f, n)) (F : Bool → E → X → Pos → K) :
    (∃ v, Evaluates (periodicPB b.model f n) P v F) ↔ ∃ w, Evaluates b.model P w F ∧ ∀ p ∈ calls, w [p.1] = w [p.2] := by
  classical
  obtain ⟨f', n', h1, h2, h3, h4, h5, h6⟩ := C15_partial b.spec.root calls h
  rw [hf, Option.some.injEq, Prod.mk.injEq] at h1
  obtain ⟨rfl, rfl⟩ := h1
  have key := fun v => C101_pull b hb hflat calls h hP hf v F
  constructor
  · rintro ⟨v, hv⟩
    refine ⟨_, (key v).1 hv, fun p hp => ?_⟩
    obtain ⟨hp1, hp2⟩ := h p hp
    have := h6 hcl p.1 p.2 hp1 hp2 (.step (.refl _) (.inl hp))
    simp [pull, merge, this]
  · rintro ⟨w, hw, hc⟩
    have hchain : ∀ a c, Chain calls a c → w [a] = w [c] := by
      intro a c hac
      induction hac with
      | refl => rfl
      | step _ hu ih =>
        rw [ih]
        rcases hu with hu | hu
        · exact hc _ hu
        · exact (hc _ hu).symm
    let v : Vec K := fun m => if m = [] then w [] else if h : ∃ i < b.spec.root, merge f [i] = m then w [h.choose] else none
    refine ⟨v, (key v).2 ((eval_congr hb hP ?_ ?_ F).1 hw)⟩
    · intro m hm
      rw [pull, if_neg (index_ne hb hm)]
      rw [indexSet_eq hb] at hm
      obtain ⟨e, d, hd, rfl⟩ := hm
      obtain ⟨x, hx, hlt⟩ := mi_flat (b.refines hb) hflat ((b.refines hb).locMem e d hd)
      rw [hx]
      have hex : ∃ i < b.spec.root, merge f [i] = merge f [x] := ⟨x, hlt, rfl⟩
      simp only [v, show merge f [x] ≠ [] by simp [merge], if_false, dif_pos hex]
      obtain ⟨hi, he⟩ := hex.choose_spec
      obtain ⟨a, -, ha⟩ := h3 _ hi
      obtain ⟨c, -, hc'⟩ := h3 _ hlt
      rw [merge_eq ha, merge_eq hc', List.cons.injEq] at he
      exact hchain _ _ (h5 x _ hlt hi (by rw [ha, hc', he.1]))
    · simp [pull, v]

/-- **C101.** If the coefficients of the functions of the wrapped basis are unique, then also those of the functions of the periodic basis. -/
theorem C101_unique (b : PB E) (hb : b.WF) (hflat : b.model.maxLen = 1) (calls : List (Nat × Nat)) (h : ∀ p ∈ calls, p.1 < b.spec.root ∧ p.2 < b.spec.root)
    {P : Shapes E X K} (hP : P.OK ⟨b.model, []⟩) {f : List (Option Nat)} {n : Nat} (hf : periodicMap b.spec.root (unifyAll calls) = some (f, n))
    (hu : ∀ w w' F, Evaluates b.model P w F → Evaluates b.model P w' F → ∀ m ∈ IndexSet b.model, w m = w' m)
    {v v' : Vec K} {F : Bool → E → X → Pos → K} (hv : Evaluates (periodicPB b.model f n) P v F) (hv' : Evaluates (periodicPB b.model f n) P v' F) :
    ∀ m ∈ IndexSet (periodicPB b.model f n), v m = v' m := by
  obtain ⟨f', n', h1, h2⟩ := C15_basis b hb hflat calls h
  rw [hf, Option.some.injEq, Prod.mk.injEq] at h1
  obtain ⟨rfl, rfl⟩ := h1
  have hset := indexSet_same (b' := .ext (periodicPB b.model f n) (specPeriodic b.spec f n)) hb h2 (merge f) (by intro e; simp [PB.spec, specPeriodic, merge])
  intro m hm
  rw [show IndexSet (periodicPB b.model f n) = _ from hset] at hm
  obtain ⟨m0, hm0, rfl⟩ := hm
  have := hu _ _ F ((C101_pull b hb hflat calls h hP hf v F).1 hv) ((C101_pull b hb hflat calls h hP hf v' F).1 hv') m0 hm0
  simpa [pull, index_ne hb hm0] using this

/-! ## Examples -/

/-- Linear functions on two elements of a line with the points 0, 1, 2. -/
def lineShapes : Shapes Bool Int Int where
  dimC := 1
  uses _ := false
  shape d _ _ _ x := (if d then [-1, 1] else [1 - x, x]).map fun z => [[z]]
  rows _ := 1
  dim := 1
  dimworld := 1
  jinv _ _ := [[1]]
  ntre _ _ := [[0]]

theorem line_slots : ∀ e, slotsOn ⟨(PB.leaf exLeaf).model, []⟩ e = [([], 0, 2)] := by decide +kernel

theorem lineShapes_OK : lineShapes.OK ⟨(PB.leaf exLeaf).model, []⟩ where
  number d e x s hs := by
    rw [line_slots] at hs
    simp only [List.mem_cons, List.not_mem_nil, or_false] at hs
    subst hs
    cases d <;> rfl
  rows d e x s hs φ hφ := by
    simp only [lineShapes] at hφ
    cases d <;> simp at hφ <;> rcases hφ with rfl | rfl <;> simp [lineShapes, Shapes.cols]
  range d e s hs := by cases d <;> simp [lineShapes, Shapes.outCols]

theorem line_WF : (PB.leaf exLeaf).WF := by simp [PB.WF, exLeaf]

def lineVec (a b c : Int) : Vec Int := fun m => match m with
  | [0] => some [a]
  | [1] => some [b]
  | [2] => some [c]
  | _ => none

theorem lineVec_OK (a b c : Int) : VecOK ⟨(PB.leaf exLeaf).model, []⟩ 1 (lineVec a b c) := by
  intro m hm
  rw [indexSet_eq line_WF] at hm
  obtain ⟨e, d, hd, rfl⟩ := hm
  cases e <;> simp [PB.spec, specLeaf, exLeaf] at hd <;> rcases hd with rfl | rfl <;> simp [lineVec]

theorem line_index : ∀ e i, i < 2 → indexOn ⟨(PB.leaf exLeaf).model, []⟩ e i = if i = 0 then (if e then [0] else [2]) else [1] := by decide +kernel

theorem line_eval (w : Vec Int) (hw : VecOK ⟨(PB.leaf exLeaf).model, []⟩ 1 w) (e : Bool) (x : Int) (F : Pos → Int)
    (h : localEval ⟨(PB.leaf exLeaf).model, []⟩ lineShapes w false (some e) x = some F) :
    F [0] = ((w (if e then [0] else [2])).getD [])[0]?.getD 0 * (1 - x) + ((w [1]).getD [])[0]?.getD 0 * x := by
  rw [eval_fold line_WF lineShapes lineShapes_OK hw, line_slots, Option.some.injEq] at h
  subst h
  simp [assignLeaf, entries, entry, comb, line_index, lineShapes, Shapes.outCols, List.range_succ]

theorem line_total (w : Vec Int) (hw : VecOK ⟨(PB.leaf exLeaf).model, []⟩ 1 w) : ∃ F, Evaluates (PB.leaf exLeaf).model lineShapes w F :=
  ⟨_, hw, fun d e x => eval_fold line_WF lineShapes lineShapes_OK hw d e x⟩

/-- The points 0 and 2 are identified: the periodic basis has the functions whose values in these points are the same. -/
example (F : Bool → Bool → Int → Pos → Int) : (∃ v, Evaluates (periodicPB (PB.leaf exLeaf).model [some 0, some 1, some 0] 2) lineShapes v F) ↔
    ∃ w, Evaluates (PB.leaf exLeaf).model lineShapes w F ∧ w [2] = w [0] := by
  rw [C101_periodic_partial (.leaf exLeaf) line_WF rfl [(2, 0)] (by decide) (by intro a a' b; simp [Unified]; omega) lineShapes_OK (by decide) F]
  simp

example (a b c : Int) (F : Bool → Bool → Int → Pos → Int) (hw : Evaluates (PB.leaf exLeaf).model lineShapes (lineVec a b c) F) (x : Int) :
    F false true x [0] = a * (1 - x) + b * x ∧ F false false x [0] = c * (1 - x) + b * x := by
  have h1 := line_eval _ hw.1 true x _ (hw.2 false true x)
  have h2 := line_eval _ hw.1 false x _ (hw.2 false false x)
  simp [lineVec] at h1 h2
  exact ⟨h1, h2⟩

theorem line_unique (w w' : Vec Int) (F : Bool → Bool → Int → Pos → Int) (hw : Evaluates (PB.leaf exLeaf).model lineShapes w F)
    (hw' : Evaluates (PB.leaf exLeaf).model lineShapes w' F) : ∀ m ∈ IndexSet (PB.leaf exLeaf).model, w m = w' m := by
  intro m hm
  obtain ⟨c, hc, hl⟩ := hw.1 m hm
  obtain ⟨c', hc', hl'⟩ := hw'.1 m hm
  obtain ⟨y, rfl⟩ := List.length_eq_one_iff.1 hl
  obtain ⟨y', rfl⟩ := List.length_eq_one_iff.1 hl'
  rw [indexSet_eq line_WF] at hm
  obtain ⟨e, d, hd, rfl⟩ := hm
  have h := fun x => line_eval _ hw.1 e x _ (hw.2 false e x)
  have h' := fun x => line_eval _ hw'.1 e x _ (hw'.2 false e x)
  have h0 := h 0
  have h0' := h' 0
  have h1 := h 1
  have h1' := h' 1
  rw [hc, hc']
  cases e <;> simp [PB.spec, specLeaf, exLeaf] at hd <;> rcases hd with rfl | rfl <;> simp [hc, hc'] at h0 h0' h1 h1' ⊢ <;>
    first | rw [← h0, ← h0'] | rw [← h1, ← h1']

example {v v' : Vec Int} {F : Bool → Bool → Int → Pos → Int} (hv : Evaluates (periodicPB (PB.leaf exLeaf).model [some 0, some 1, some 0] 2) lineShapes v F)
    (hv' : Evaluates (periodicPB (PB.leaf exLeaf).model [some 0, some 1, some 0] 2) lineShapes v' F) :
    ∀ m ∈ IndexSet (periodicPB (PB.leaf exLeaf).model [some 0, some 1, some 0] 2), v m = v' m :=
  C101_unique (.leaf exLeaf) line_WF rfl [(2, 0)] (by decide) lineShapes_OK (by decide) line_unique hv hv'

/-- The indices of the points 0 and 2 are exchanged: the functions are the same, and so are their coefficients up to the exchange. -/
example (F : Bool → Bool → Int → Pos → Int) :
    (∀ a b c, Evaluates (transformedPB (PB.leaf exLeaf).model (renumberFirst (PB.leaf exLeaf).model exSwap exSwap)) lineShapes (lineVec a b c) F ↔
      Evaluates (PB.leaf exLeaf).model lineShapes (lineVec c b a) F) ∧
    ((∃ v, Evaluates (transformedPB (PB.leaf exLeaf).model (renumberFirst (PB.leaf exLeaf).model exSwap exSwap)) lineShapes v F) ↔
      ∃ w, Evaluates (PB.leaf exLeaf).model lineShapes w F) := by
  obtain ⟨h1, h2⟩ := C101_transformed (.leaf exLeaf) line_WF _ _ _ (C75_renumber (.leaf exLeaf) line_WF exSwap exSwap
    (by intro x hx; have hx : x < 3 := hx; show _ < 3; simp only [exSwap]; split_ifs <;> omega) exSwap_inv) lineShapes_OK F
  refine ⟨fun a b c => (h1 _).trans (eval_congr line_WF lineShapes_OK (fun m hm => ?_) (by simp [pull, lineVec]) F), h2⟩
  rw [indexSet_eq line_WF] at hm
  obtain ⟨e, d, hd, rfl⟩ := hm
  cases e <;> simp [PB.spec, specLeaf, exLeaf] at hd <;> rcases hd with rfl | rfl <;> simp [pull, onFirst, exSwap, lineVec]

/-- The full claim without a condition on the pairs. -/
def C101_full : Prop := ∀ (calls : List (Nat × Nat)) (f : List (Option Nat)) (n : Nat), (∀ p ∈ calls, p.1 < 3 ∧ p.2 < 3) →
  periodicMap 3 (unifyAll calls) = some (f, n) → ∀ v F, Evaluates (periodicPB (PB.leaf exLeaf).model f n) lineShapes v F →
    ∃ w, Evaluates (PB.leaf exLeaf).model lineShapes w F ∧ ∀ p ∈ calls, w [p.1] = w [p.2]

/-- If 0 and 1 are unified with 2, but not with each other, there are functions of the periodic basis with different values in the points 0 and 2. -/
theorem C101_open_false : ¬ C101_full := by
  intro h
  have hf : periodicMap 3 (unifyAll [(0, 2), (1, 2)]) = some ([some 0, some 1, some 1], 2) := by decide
  let v : Vec Int := lineVec 0 1 1
  have hp : VecOK ⟨(PB.leaf exLeaf).model, []⟩ 1 (pull (merge [some 0, some 1, some 1]) v) := by
    intro m hm
    rw [indexSet_eq line_WF] at hm
    obtain ⟨e, d, hd, rfl⟩ := hm
    cases e <;> simp [PB.spec, specLeaf, exLeaf] at hd <;> rcases hd with rfl | rfl <;> simp [pull, merge, v, lineVec]
  obtain ⟨F, hF⟩ := line_total _ hp
  have hv := (C101_pull (.leaf exLeaf) line_WF rfl [(0, 2), (1, 2)] (by decide) lineShapes_OK hf v F).2 hF
  obtain ⟨w, hw, hc⟩ := h [(0, 2), (1, 2)] _ 2 (by decide) hf v F hv
  have key := line_unique _ _ F hw hF
  have hi : ∀ i < 3, [i] ∈ IndexSet (PB.leaf exLeaf).model := by
    intro i hi
    rw [indexSet_eq line_WF]
    have : i = 0 ∨ i = 1 ∨ i = 2 := by omega
    rcases this with rfl | rfl | rfl
    · exact ⟨true, [0], by decide, rfl⟩
    · exact ⟨true, [1], by decide, rfl⟩
    · exact ⟨false, [2], by decide, rfl⟩
  have h0 := key [0] (hi 0 (by omega))
  have h2 := key [2] (hi 2 (by omega))
  have := hc (0, 2) (by simp)
  simp only at this
  rw [h0, h2] at this
  simp [pull, merge, v, lineVec] at this

end Verif.Renumbered

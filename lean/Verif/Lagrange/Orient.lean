import Verif.Lagrange.Tables

namespace Verif.Lagrange

variable {α : Type} [LinearOrder α]

/-! ## Bits of the orientation object -/

theorem edgeLoop_spec (ids : Nat → α) (es : List (Nat × Nat)) (i : Nat) (d : Bits) (j : Nat) :
    edgeLoop ids i es d j = if i ≤ j then
      (match es[j - i]? with | some e => decide (ids e.1 > ids e.2) | none => d j) else d j := by
  induction es generalizing i d with
  | nil => simp [edgeLoop]
  | cons e es ih =>
    rw [edgeLoop, ih]
    rcases Nat.lt_trichotomy j i with h | h | h
    · rw [if_neg (by omega), if_neg (by omega)]; simp [setBit]; omega
    · subst h; simp [setBit]
    · rw [if_pos (by omega), if_pos (by omega), show j - i = (j - (i+1)) + 1 by omega]
      simp only [List.getElem?_cons_succ]
      cases es[j - (i+1)]? with
      | none => simp [setBit]; omega
      | some e => rfl

/-- Requirements on a 3d reference element. -/
def RefElem.ok (re : RefElem) : Bool :=
  decide (re.edges.length ≤ 12) && decide (re.facets.length ≤ 6) &&
  (List.range re.facets.length).all fun f =>
    let fv := re.facets.getD f []
    (decide (fv.length = 3) || decide (fv.length = 4)) && fv.all (fun v => decide (v < re.vertices)) && decide fv.Nodup &&
    (List.range (localEdges fv.length).length).all fun k =>
      match facetEdge re f k with
      | some e => decide (re.edges[e]? = some (fv.getD ((localEdges fv.length).getD k (0,0)).1 0,
          fv.getD ((localEdges fv.length).getD k (0,0)).2 0))
      | none => false

theorem refElems_ok : ∀ re ∈ refElems, re.ok = true := by decide +kernel

/-- Orientation of a facet as computed from its own vertices. -/
def orientOf (ids : Nat → α) : List Nat → Nat
  | [a, b, c] => triOrientation (decide (ids a > ids b)) (decide (ids a > ids c)) (decide (ids b > ids c))
  | [a, b, c, d] => quadOrientation (decide (ids a > ids c)) (decide (ids b > ids d)) (decide (ids a > ids b))
      (decide (ids c > ids d)) (fun x y => decide (ids ([a, b, c, d].getD x 0) < ids ([a, b, c, d].getD y 0)))
  | _ => 0

theorem ok_facet {re : RefElem} (h : re.ok = true) {f : Nat} {fv : List Nat} (hf : re.facets[f]? = some fv) :
    f < 6 ∧ (fv.length = 3 ∨ fv.length = 4) ∧ (∀ v ∈ fv, v < re.vertices) ∧ fv.Nodup ∧
    ∀ k ab, (localEdges fv.length)[k]? = some ab → ∃ e a b, facetEdge re f k = some e ∧ e < 12 ∧
      fv[ab.1]? = some a ∧ fv[ab.2]? = some b ∧ re.edges[e]? = some (a, b) := by
  simp only [RefElem.ok, Bool.and_eq_true, decide_eq_true_eq, List.all_eq_true, List.mem_range] at h
  obtain ⟨⟨h12, h6⟩, h⟩ := h
  obtain ⟨hfl, hfv⟩ := List.getElem?_eq_some_iff.mp hf
  have h := h f hfl
  simp only [List.getD, hf, Option.getD_some, Bool.or_eq_true, decide_eq_true_eq] at h
  obtain ⟨⟨⟨hlen, hv⟩, hnd⟩, he⟩ := h
  refine ⟨by omega, hlen, hv, hnd, ?_⟩
  intro k ab hk
  have hkl := (List.getElem?_eq_some_iff.mp hk).1
  have he := he k hkl
  rw [hk] at he
  simp only [Option.getD_some] at he
  cases hfe : facetEdge re f k with
  | none => rw [hfe] at he; simp at he
  | some e =>
    rw [hfe] at he
    simp only [decide_eq_true_eq] at he
    have hfe' := hfe
    simp only [facetEdge, hf, Option.bind_some, hk, Option.bind_eq_some_iff] at hfe'
    obtain ⟨a, ha, b, hb, -⟩ := hfe'
    have := (List.getElem?_eq_some_iff.mp he).1
    exact ⟨e, a, b, rfl, by omega, ha, hb, by simpa [ha, hb] using he⟩

theorem testBit_lt16 {x k : Nat} (hx : x < 16) (hk : 4 ≤ k) : x.testBit k = false := by
  apply Nat.testBit_lt_two_pow
  calc x < 2^4 := hx
    _ ≤ 2^k := Nat.pow_le_pow_right (by omega) hk

theorem bits_lt16 {x : Nat} (hx : x < 16) :
    (x.testBit 0).toNat + 2 * (x.testBit 1).toNat + 4 * (x.testBit 2).toNat + 8 * (x.testBit 3).toNat = x := by
  interval_cases x <;> rfl

theorem triOrientation_lt (a b c : Bool) : triOrientation a b c < 8 := by
  revert a b c; decide

theorem quadOrientation_congr (a b c d : Bool) (lt lt' : Nat → Nat → Bool) (h1 : lt 2 1 = lt' 2 1)
    (h2 : lt 0 3 = lt' 0 3) (h3 : lt 3 0 = lt' 3 0) (h4 : lt 1 2 = lt' 1 2) :
    quadOrientation a b c d lt = quadOrientation a b c d lt' := by
  simp only [quadOrientation, h1, h2, h3, h4]

/-- A comparison function from four bits. -/
def ltOf (l21 l03 l30 l12 : Bool) (x y : Nat) : Bool :=
  if x = 2 then l21 else if x = 0 then l03 else if x = 3 then l30 else if y = 2 then l12 else false

theorem quadOrientation_lt (a b c d : Bool) (lt : Nat → Nat → Bool) : quadOrientation a b c d lt < 16 := by
  rw [quadOrientation_congr a b c d lt (ltOf (lt 2 1) (lt 0 3) (lt 3 0) (lt 1 2)) rfl rfl rfl rfl]
  generalize lt 2 1 = p
  generalize lt 0 3 = q
  generalize lt 3 0 = r
  generalize lt 1 2 = s
  revert a b c d p q r s
  decide +kernel

theorem orientOf_lt (ids : Nat → α) (fv : List Nat) : orientOf ids fv < 16 := by
  unfold orientOf
  split
  · exact Nat.lt_of_lt_of_le (triOrientation_lt _ _ _) (by omega)
  · exact quadOrientation_lt _ _ _ _ _
  · omega

theorem facetStep_eq {re : RefElem} (h : re.ok = true) (ids : Nat → α) {f : Nat} {fv : List Nat}
    (hf : re.facets[f]? = some fv) (d : Bits)
    (hd : ∀ e a b, re.edges[e]? = some (a, b) → d e = decide (ids a > ids b)) :
    facetStep re ids f fv d = some (orShift d (orientOf ids fv) (facetBitOffset f)) := by
  obtain ⟨_, hlen, _, _, hE⟩ := ok_facet h hf
  rcases hlen with hl | hl
  · match fv, hl with
    | [v0, v1, v2], _ =>
      obtain ⟨e0, a0, b0, h0, -, ha0, hb0, hr0⟩ := hE 0 (0,1) rfl
      obtain ⟨e1, a1, b1, h1, -, ha1, hb1, hr1⟩ := hE 1 (0,2) rfl
      obtain ⟨e2, a2, b2, h2, -, ha2, hb2, hr2⟩ := hE 2 (1,2) rfl
      simp at ha0 hb0 ha1 hb1 ha2 hb2
      subst ha0 hb0 ha1 hb1 ha2 hb2
      simp only [facetStep, h0, h1, h2, Option.bind_some, hd _ _ _ hr0, hd _ _ _ hr1, hd _ _ _ hr2, orientOf]
  · match fv, hl with
    | [v0, v1, v2, v3], _ =>
      obtain ⟨e0, a0, b0, h0, -, ha0, hb0, hr0⟩ := hE 0 (0,2) rfl
      obtain ⟨e1, a1, b1, h1, -, ha1, hb1, hr1⟩ := hE 1 (1,3) rfl
      obtain ⟨e2, a2, b2, h2, -, ha2, hb2, hr2⟩ := hE 2 (0,1) rfl
      obtain ⟨e3, a3, b3, h3, -, ha3, hb3, hr3⟩ := hE 3 (2,3) rfl
      simp at ha0 hb0 ha1 hb1 ha2 hb2 ha3 hb3
      subst ha0 hb0 ha1 hb1 ha2 hb2 ha3 hb3
      simp only [facetStep, h0, h1, h2, h3, Option.bind_some, hd _ _ _ hr0, hd _ _ _ hr1, hd _ _ _ hr2,
        hd _ _ _ hr3, orientOf]

theorem facetLoop_spec {re : RefElem} (h : re.ok = true) (h12 : re.edges.length ≤ 12) (ids : Nat → α)
    (fs : List (List Nat)) (i : Nat) (d : Bits)
    (hfs : ∀ (k : Nat) (fv : List Nat), fs[k]? = some fv → re.facets[i + k]? = some fv)
    (hd : ∀ e a b, re.edges[e]? = some (a, b) → d e = decide (ids a > ids b))
    (hclean : ∀ j, 12 + 4 * i ≤ j → d j = false) :
    ∃ d', facetLoop re ids i fs d = some d' ∧ (∀ j, j < 12 + 4 * i → d' j = d j) ∧
      ∀ (k : Nat) (fv : List Nat), fs[k]? = some fv → faceOrientationIndex 3 d' (i + k) 1 = orientOf ids fv := by
  induction fs generalizing i d with
  | nil => exact ⟨d, rfl, fun _ _ => rfl, by simp⟩
  | cons fv fs ih =>
    have hf := hfs 0 fv rfl
    rw [Nat.add_zero] at hf
    have hi : i < 6 := (ok_facet h hf).1
    have hstep := facetStep_eq h ids hf d hd
    have hx := orientOf_lt ids fv
    have hlow : ∀ j, j < 12 + 4 * i → orShift d (orientOf ids fv) (facetBitOffset i) j = d j := by
      intro j hj
      have : ¬ (facetBitOffset i ≤ j ∧ j < 36) := by unfold facetBitOffset; omega
      simp [orShift, this]
    have hhigh : ∀ j, 12 + 4 * (i + 1) ≤ j → orShift d (orientOf ids fv) (facetBitOffset i) j = false := by
      intro j hj
      have h1 := hclean j (by omega)
      have h2 : (orientOf ids fv).testBit (j - facetBitOffset i) = false :=
        testBit_lt16 hx (by unfold facetBitOffset; omega)
      simp [orShift, h1, h2]
    have hmid : ∀ k, k < 4 → orShift d (orientOf ids fv) (facetBitOffset i) (12 + 4 * i + k)
        = (orientOf ids fv).testBit k := by
      intro k hk
      have h1 := hclean (12 + 4 * i + k) (by omega)
      have h2 : facetBitOffset i ≤ 12 + 4 * i + k ∧ 12 + 4 * i + k < 36 := by unfold facetBitOffset; omega
      have h3 : 12 + 4 * i + k - facetBitOffset i = k := by unfold facetBitOffset; omega
      simp [orShift, h1, h2, h3]
    obtain ⟨d', h1, h2, h3⟩ := ih (i + 1) (orShift d (orientOf ids fv) (facetBitOffset i))
      (by intro k fv' hk
          rw [show i + 1 + k = i + (k + 1) by omega]
          exact hfs (k + 1) fv' (by simpa using hk))
      (by intro e a b he
          have := (List.getElem?_eq_some_iff.mp he).1
          rw [hlow e (by omega)]; exact hd e a b he)
      hhigh
    refine ⟨d', by rw [facetLoop, hstep, Option.bind_some, h1], ?_, ?_⟩
    · intro j hj
      rw [h2 j (by omega), hlow j hj]
    · intro k fv' hk
      cases k with
      | zero =>
        simp only [List.getElem?_cons_zero, Option.some.injEq] at hk
        subst hk
        have e0 := hmid 0 (by omega)
        have e1 := hmid 1 (by omega)
        have e2 := hmid 2 (by omega)
        have e3 := hmid 3 (by omega)
        simp only [faceOrientationIndex, facetBitOffset, Nat.add_zero]
        rw [if_neg (by omega), if_pos trivial, h2 (12 + 4 * i) (by omega), h2 (12 + 4 * i + 1) (by omega),
          h2 (12 + 4 * i + 2) (by omega), h2 (12 + 4 * i + 3) (by omega), e1, e2, e3]
        rw [Nat.add_zero] at e0
        rw [e0]
        exact bits_lt16 hx
      | succ k =>
        rw [show i + (k + 1) = i + 1 + k by omega]
        exact h3 k fv' (by simpa using hk)

/-- What the orientation object contains. -/
theorem faceOrientations_spec {re : RefElem} (hre : re ∈ refElems) (ids : Nat → α) (codims : List Nat) :
    ∃ d, faceOrientations re ids codims = some d ∧
      ((∃ c ∈ codims, c ≤ re.dim - 1) → ∀ e a b, re.edges[e]? = some (a, b) →
        faceOrientationIndex re.dim d e (re.dim - 1) = (decide (ids a > ids b)).toNat) ∧
      (re.dim = 3 → 1 ∈ codims → ∀ f fv, re.facets[f]? = some fv →
        faceOrientationIndex 3 d f 1 = orientOf ids fv) ∧
      (1 ∉ codims → ∀ f, f < 6 → re.edges.length ≤ 12 → re.dim = 3 → faceOrientationIndex 3 d f 1 = 0) := by
  have hok := refElems_ok re hre
  have h12 : re.edges.length ≤ 12 := by
    simp only [RefElem.ok, Bool.and_eq_true, decide_eq_true_eq] at hok
    exact hok.1.1
  have hdim : re.dim = 2 ∨ re.dim = 3 := by
    revert re; decide
  have hE : ∀ (e a b : Nat), re.edges[e]? = some (a, b) → edgeLoop ids 0 re.edges (fun _ => false) e = decide (ids a > ids b) := by
    intro e a b he
    rw [edgeLoop_spec]; simp [he]
  have hclean : ∀ j, 12 ≤ j → edgeLoop ids 0 re.edges (fun _ => false) j = false := by
    intro j hj
    rw [edgeLoop_spec]
    have : re.edges[j]? = none := List.getElem?_eq_none (by omega)
    simp [this]
  by_cases hface : re.dim = 3 ∧ codims.any (fun c => decide (c = re.dim - 2)) = true
  · have h1 : 1 ∈ codims := by
      obtain ⟨h3, h⟩ := hface
      simpa [h3] using h
    have hany : codims.any (fun c => decide (c ≤ re.dim - 1)) = true := by
      rw [List.any_eq_true]
      exact ⟨1, h1, by simp [hface.1]⟩
    obtain ⟨d, hd1, hd2, hd3⟩ := facetLoop_spec hok h12 ids re.facets 0 (edgeLoop ids 0 re.edges fun _ => false)
      (by simp) hE (by simpa using hclean)
    refine ⟨d, by simp only [faceOrientations, hany, if_true]; rw [if_pos hface]; exact hd1, ?_, ?_, ?_⟩
    · intro _ e a b he
      have := (List.getElem?_eq_some_iff.mp he).1
      simp only [faceOrientationIndex, if_true]
      rw [hd2 e (by omega), hE e a b he]
    · intro _ _ f fv hf
      simpa using hd3 f fv hf
    · intro h; exact absurd h1 h
  · refine ⟨if codims.any (fun c => decide (c ≤ re.dim - 1)) then edgeLoop ids 0 re.edges (fun _ => false) else fun _ => false,
      by simp only [faceOrientations]; rw [if_neg hface], ?_, ?_, ?_⟩
    · rintro ⟨c, hc, hle⟩ e a b he
      have hany : codims.any (fun c => decide (c ≤ re.dim - 1)) = true := by
        rw [List.any_eq_true]
        exact ⟨c, hc, by simpa using hle⟩
      simp only [faceOrientationIndex, hany, if_true, hE e a b he]
    · intro h3 h1
      exact absurd ⟨h3, by rw [List.any_eq_true]; exact ⟨1, h1, by simp [h3]⟩⟩ hface
    · intro _ f hf _ h3
      have hz : ∀ j, 12 ≤ j → (if codims.any (fun c => decide (c ≤ re.dim - 1)) then edgeLoop ids 0 re.edges (fun _ => false) else fun _ => false) j = false := by
        intro j hj
        split
        · exact hclean j hj
        · rfl
      simp only [faceOrientationIndex, facetBitOffset]
      rw [if_neg (by omega), if_pos trivial, hz _ (by omega), hz _ (by omega), hz _ (by omega), hz _ (by omega)]
      rfl

end Verif.Lagrange

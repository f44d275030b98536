import Verif.IndexTree.Refine

namespace Verif.IndexTree

variable {E : Type}

/-! ## Tagged lists -/

theorem mem_tagged {k0 : Nat} {ls : List (List (List Nat))} {x : List Nat} :
    x ∈ tagged k0 ls ↔ ∃ k l d, ls[k]? = some l ∧ d ∈ l ∧ x = (k0 + k) :: d := by
  induction ls generalizing k0 with
  | nil => simp [tagged]
  | cons l ls ih =>
    simp only [tagged, List.mem_append, List.mem_map, ih]
    constructor
    · rintro (⟨d, hd, rfl⟩ | ⟨k, l', d, h, hd, rfl⟩)
      · exact ⟨0, l, d, by simp, hd, by simp⟩
      · exact ⟨k+1, l', d, by simpa using h, hd, by simp; omega⟩
    · rintro ⟨k, l', d, h, hd, rfl⟩
      cases k with
      | zero =>
        simp at h; subst h
        exact Or.inl ⟨d, hd, by simp⟩
      | succ k =>
        exact Or.inr ⟨k, l', d, by simpa using h, hd, by simp; omega⟩

theorem nodup_tagged {k0 : Nat} {ls : List (List (List Nat))} (h : ∀ l ∈ ls, l.Nodup) :
    (tagged k0 ls).Nodup := by
  induction ls generalizing k0 with
  | nil => simp [tagged]
  | cons l ls ih =>
    rw [tagged, List.nodup_append]
    refine ⟨(h l List.mem_cons_self).map (fun a b hab => by simpa using hab),
      ih (fun l' hl' => h l' (List.mem_cons_of_mem _ hl')), ?_⟩
    intro a ha b hb hab
    subst hab
    obtain ⟨d, _, rfl⟩ := List.mem_map.mp ha
    obtain ⟨k, l', d', _, _, he⟩ := mem_tagged.mp hb
    simp at he; omega

theorem length_tagged {k0 : Nat} {ls : List (List (List Nat))} :
    (tagged k0 ls).length = (ls.map List.length).sum := by
  induction ls generalizing k0 with
  | nil => simp [tagged]
  | cons l ls ih => simp [tagged, ih]

theorem mem_composite_dofs {blocked : Bool} {sps : List (Spec E)} {x : List Nat} :
    x ∈ (specComposite blocked sps).dofs ↔
      ∃ k sp d, sps[k]? = some sp ∧ d ∈ sp.dofs ∧ x = k :: d := by
  simp only [specComposite, mem_tagged, List.getElem?_map, Option.map_eq_some_iff, Nat.zero_add]
  constructor
  · rintro ⟨k, l, d, ⟨sp, h, rfl⟩, hd, rfl⟩; exact ⟨k, sp, d, h, hd, rfl⟩
  · rintro ⟨k, sp, d, h, hd, rfl⟩; exact ⟨k, _, d, ⟨sp, h, rfl⟩, hd, rfl⟩

theorem mem_composite_loc {blocked : Bool} {sps : List (Spec E)} {e : E} {x : List Nat} :
    x ∈ (specComposite blocked sps).loc e ↔
      ∃ k sp d, sps[k]? = some sp ∧ d ∈ sp.loc e ∧ x = k :: d := by
  simp only [specComposite, mem_tagged, List.getElem?_map, Option.map_eq_some_iff, Nat.zero_add]
  constructor
  · rintro ⟨k, l, d, ⟨sp, h, rfl⟩, hd, rfl⟩; exact ⟨k, sp, d, h, hd, rfl⟩
  · rintro ⟨k, sp, d, h, hd, rfl⟩; exact ⟨k, _, d, ⟨sp, h, rfl⟩, hd, rfl⟩

theorem forall₂_get {α β : Type} {R : α → β → Prop} {l : List α} {m : List β}
    (h : List.Forall₂ R l m) {k : Nat} {y : β} (hy : m[k]? = some y) :
    ∃ x, l[k]? = some x ∧ R x y := by
  induction h generalizing k with
  | nil => simp at hy
  | cons hab _ ih =>
    cases k with
    | zero => simp at hy; subst hy; exact ⟨_, by simp, hab⟩
    | succ k => simpa using ih (by simpa using hy)

theorem listMin_le {l : List Nat} {x : Nat} (h : x ∈ l) : listMin l ≤ x := by
  induction l with
  | nil => simp at h
  | cons a l ih =>
    cases l with
    | nil => simp at h; simp [listMin, h]
    | cons b l =>
      rw [listMin]
      · rcases List.mem_cons.mp h with rfl | h
        · exact Nat.min_le_left _ _
        · exact Nat.le_trans (Nat.min_le_right _ _) (ih h)
      · simp

theorem listMin_mem {l : List Nat} (h : l ≠ []) : listMin l ∈ l := by
  induction l with
  | nil => exact absurd rfl h
  | cons a l ih =>
    cases l with
    | nil => simp [listMin]
    | cons b l =>
      rw [listMin]
      · rcases Nat.le_total a (listMin (b :: l)) with h | h
        · rw [Nat.min_eq_left h]; exact List.mem_cons_self
        · rw [Nat.min_eq_right h]; exact List.mem_cons_of_mem _ (ih (by simp))
      · simp

theorem le_listMax {l : List Nat} {x : Nat} (h : x ∈ l) : x ≤ listMax l := by
  induction l with
  | nil => simp at h
  | cons a l ih =>
    rw [listMax]
    rcases List.mem_cons.mp h with rfl | h
    · exact Nat.le_max_left _ _
    · exact Nat.le_trans (ih h) (Nat.le_max_right _ _)

theorem listMax_mono {l m : List Nat} (h : List.Forall₂ (· ≤ ·) l m) : listMax l ≤ listMax m := by
  induction h with
  | nil => exact Nat.le_refl _
  | cons hab _ ih => rw [listMax, listMax]; omega

abbrev RefinesL (subs : List (PreBasis E)) (sps : List (Spec E)) := List.Forall₂ Refines subs sps

theorem sumSizes_eq {subs : List (PreBasis E)} {sps : List (Spec E)} (R : RefinesL subs sps) :
    sumSizes subs = some (sps.map (·.root)).sum := by
  induction R with
  | nil => rfl
  | cons h _ ih => simp [sumSizes, h.root, ih]

/-- Offset of child `k` for the flat lexicographic strategy. -/
abbrev offs (sps : List (Spec E)) (k : Nat) : Nat := ((sps.take k).map (·.root)).sum

theorem flatFind_eq {subs : List (PreBasis E)} {sps : List (Spec E)} (R : RefinesL subs sps)
    {k : Nat} {b : PreBasis E} {sp : Spec E} (hb : subs[k]? = some b) (hsp : sps[k]? = some sp)
    {i : Nat} (hi : i < sp.root) (r : MI) :
    flatFind subs ((i + offs sps k) :: r) = b.size (i :: r) := by
  induction R generalizing k with
  | nil => simp at hb
  | cons h _ ih =>
    rename_i b0 sp0 bs0 sps0 _
    cases k with
    | zero =>
      simp at hb hsp; subst hb; subst hsp
      simp [flatFind, h.root, offs, hi]
    | succ k =>
      simp only [flatFind, h.root, Option.bind_some, List.getElem?_cons_zero]
      have : ¬ (i + offs (sp0 :: sps0) (k+1) < sp0.root) := by simp [offs]; omega
      rw [if_neg this, setDigit_cons, Option.bind_some]
      rw [← ih (by simpa using hb) (by simpa using hsp)]
      congr 2
      simp [offs]; omega

theorem offs_inj {sps : List (Spec E)} {k k' : Nat} {sp sp' : Spec E}
    (h : sps[k]? = some sp) (h' : sps[k']? = some sp') {i i' : Nat} (hi : i < sp.root)
    (hi' : i' < sp'.root) (he : i + offs sps k = i' + offs sps k') : k = k' := by
  induction sps generalizing k k' with
  | nil => simp at h
  | cons s sps ih =>
    cases k with
    | zero =>
      cases k' with
      | zero => rfl
      | succ k' =>
        simp at h; subst h
        simp [offs] at he; omega
    | succ k =>
      cases k' with
      | zero =>
        simp at h'; subst h'
        simp [offs] at he; omega
      | succ k' =>
        congr 1
        refine ih (by simpa using h) (by simpa using h') ?_
        simp [offs] at he ⊢; omega

theorem offs_lt {sps : List (Spec E)} {k : Nat} {sp : Spec E} (h : sps[k]? = some sp) {i : Nat}
    (hi : i < sp.root) : i + offs sps k < (sps.map (·.root)).sum := by
  induction sps generalizing k with
  | nil => simp at h
  | cons s sps ih =>
    cases k with
    | zero => simp at h; subst h; simp [offs]; omega
    | succ k =>
      have := ih (k := k) (by simpa using h)
      simp [offs] at this ⊢; omega

theorem offs_surj {sps : List (Spec E)} {x : Nat} (hx : x < (sps.map (·.root)).sum) :
    ∃ k sp i, sps[k]? = some sp ∧ i < sp.root ∧ x = i + offs sps k := by
  induction sps generalizing x with
  | nil => simp at hx
  | cons s sps ih =>
    rcases Nat.lt_or_ge x s.root with h | h
    · exact ⟨0, s, x, by simp, h, by simp [offs]⟩
    · simp at hx
      obtain ⟨k, sp, i, h1, h2, h3⟩ := ih (x := x - s.root) (by omega)
      exact ⟨k+1, sp, i, by simpa using h1, h2, by simp [offs] at h3 ⊢; omega⟩

theorem composite_mi {blocked : Bool} {sps : List (Spec E)} {k : Nat} {sp : Spec E} {d : List Nat}
    (h : sps[k]? = some sp) : (specComposite blocked sps).mi (k :: d)
      = if blocked then k :: sp.mi d else onFirst (· + offs sps k) (sp.mi d) := by
  simp [specComposite, h, offs]

theorem onFirst_length (f : Nat → Nat) (m : MI) : (onFirst f m).length = m.length := by
  cases m <;> rfl

theorem composite_mi_length {blocked : Bool} {sps : List (Spec E)} {k : Nat} {sp : Spec E}
    {d : List Nat} (h : sps[k]? = some sp) :
    ((specComposite blocked sps).mi (k :: d)).length = (sp.mi d).length + blocked.toNat := by
  rw [composite_mi h]
  cases blocked <;> simp [onFirst_length]

/-! ## Binding and filling the children -/

theorem composite_node_inv {ns : List (Node E)} {m : Node E}
    (h : m.blank = (Node.mk {} ns : Node E).blank) :
    ∃ d cs, m = .mk d cs ∧ d.filters = [] ∧ d.feSize = none ∧
      List.Forall₂ (fun n n' => n.blank = n'.blank) cs ns := by
  cases m with
  | mk d cs =>
    simp only [Node.blank, Node.mk.injEq, NodeData.mk.injEq, true_and] at h
    obtain ⟨⟨hfe, hfi⟩, hc⟩ := h
    refine ⟨d, cs, rfl, hfi, hfe, ?_⟩
    rw [Node.blankList_eq_map, Node.blankList_eq_map] at hc
    clear hfe hfi
    induction cs generalizing ns with
    | nil => cases ns with
      | nil => exact .nil
      | cons => simp at hc
    | cons n cs ih =>
      cases ns with
      | nil => simp at hc
      | cons n' ns =>
        simp at hc
        exact .cons hc.1 (ih hc.2)

theorem bindChildren_snd' {subs : List (PreBasis E)} {sps : List (Spec E)} (R : RefinesL subs sps)
    {cs : List (Node E)} (h : List.Forall₂ (fun n n' => n.blank = n'.blank) cs (subs.map (·.makeNode)))
    (e : E) (off : Nat) :
    (Node.bindChildren e off cs).2 = off + (sps.map (fun sp => (sp.loc e).length)).sum := by
  induction R generalizing cs off with
  | nil => cases h; simp [Node.bindChildren]
  | cons hr _ ih =>
    cases h with
    | cons hn hns =>
      simp only [Node.bindChildren, hr.nodeSize e off _ hn]
      rw [ih hns]
      simp; omega

/-- The indices of a list of children from running value `k` (child number or offset). -/
def compList (blocked : Bool) (e : E) : Nat → List (Spec E) → List MI
  | _, [] => []
  | k, sp :: sps =>
    ((sp.loc e).map fun d => if blocked then k :: sp.mi d else onFirst (· + k) (sp.mi d))
      ++ compList blocked e (if blocked then k + 1 else k + sp.root) sps

theorem compList_length (blocked : Bool) (e : E) (k : Nat) (sps : List (Spec E)) :
    (compList blocked e k sps).length = (sps.map (fun sp => (sp.loc e).length)).sum := by
  induction sps generalizing k with
  | nil => rfl
  | cons sp sps ih => simp [compList, ih]

theorem compList_eq (blocked : Bool) (e : E) (all : List (Spec E)) (sps : List (Spec E)) (k : Nat)
    (h : all.drop k = sps) :
    compList blocked e (if blocked then k else offs all k) sps
      = (tagged k (sps.map (·.loc e))).map (specComposite blocked all).mi := by
  induction sps generalizing k with
  | nil => simp [compList, tagged]
  | cons sp sps ih =>
    have hget : all[k]? = some sp := by
      have := congrArg (fun l => l[0]?) h
      simpa [List.getElem?_drop] using this
    have hdrop : all.drop (k+1) = sps := by
      rw [← List.drop_drop, h]; simp
    have hoffs : offs all (k+1) = offs all k + sp.root := by
      have hk : k < all.length := by
        rw [List.getElem?_eq_some_iff] at hget; exact hget.1
      have hgk : all[k] = sp := by
        rw [List.getElem?_eq_some_iff] at hget; exact hget.2
      simp only [offs]
      rw [take_succ_lt _ _ hk]; simp [hgk, -List.take_append_getElem]
    have hk' : (if blocked then (if blocked then k else offs all k) + 1
        else (if blocked then k else offs all k) + sp.root) = if blocked then k + 1 else offs all (k+1) := by
      cases blocked <;> simp [hoffs]
    rw [compList, hk', ih _ hdrop]
    simp only [List.map_cons, tagged, List.map_append, List.map_map]
    congr 1
    refine List.map_congr_left fun d _ => ?_
    simp only [Function.comp, composite_mi hget]
    cases blocked <;> simp

theorem compositeFill_eq {subs : List (PreBasis E)} {sps : List (Spec E)} (R : RefinesL subs sps)
    (blocked : Bool) (cap : Nat) (hcap : ∀ b ∈ subs, b.bufLen + blocked.toNat ≤ cap)
    {cs : List (Node E)} (h : List.Forall₂ (fun n n' => n.blank = n'.blank) cs (subs.map (·.makeNode)))
    (e : E) (off k : Nat) (pre mid post : Buf)
    (hmid : mid.length = (sps.map (fun sp => (sp.loc e).length)).sum) :
    compositeFill blocked cap subs (Node.bindChildren e off cs).1 k (pre ++ mid ++ post) pre.length
      = some (pre ++ compList blocked e k sps ++ post,
          pre.length + (sps.map (fun sp => (sp.loc e).length)).sum) := by
  induction R generalizing cs off k pre mid with
  | nil =>
    cases h
    have : mid = [] := by simpa using hmid
    simp [compositeFill, compList, this]
  | cons hr _ ih =>
    rename_i b sp bs sps' hrest
    cases h with
    | cons hn hns =>
      rename_i n ns
      have hcapb := hcap b List.mem_cons_self
      simp only [List.map_cons, List.sum_cons] at hmid
      have hsz := hr.nodeSize e off n hn
      have hfill := hr.fill cap (by omega) e off n hn pre (mid.take (sp.loc e).length)
        (mid.drop (sp.loc e).length ++ post) (by simp; omega)
      have hmidsplit : pre ++ mid ++ post = pre ++ mid.take (sp.loc e).length
          ++ (mid.drop (sp.loc e).length ++ post) := by
        rw [List.append_assoc, List.append_assoc, ← List.append_assoc (mid.take _),
          List.take_append_drop]
      simp only [Node.bindChildren, compositeFill]
      rw [hmidsplit, hfill, Option.bind_some]
      simp only [hsz]
      have hloop := blockLoop pre ((sp.loc e).map sp.mi) (mid.drop (sp.loc e).length ++ post)
        (if blocked then multiIndexPushFront cap k else updFirst (· + k))
        (fun m => if blocked then k :: m else onFirst (· + k) m) (by
          intro m hm
          obtain ⟨d, hd, rfl⟩ := List.mem_map.mp hm
          have hd' := hr.locMem e d hd
          obtain ⟨i, r, hmi, _⟩ := hr.first hd'
          have h1 := hr.lenMax d hd'
          have h2 := hr.maxBuf
          cases blocked with
          | true =>
            simp only [Bool.toNat_true] at hcapb
            simp only [if_true]
            exact multiIndexPushFront_eq (by omega)
          | false =>
            simp only [Bool.false_eq_true, if_false]
            exact updFirst_ne _ _ (by simp [hmi]))
      rw [List.length_map] at hloop
      rw [hloop, Option.bind_some]
      have hk' : (if blocked = true then some (k + 1) else (b.size []).bind fun r => some (k + r))
          = some (if blocked then k + 1 else k + sp.root) := by
        cases blocked <;> simp [hr.root]
      rw [hk', Option.bind_some]
      have := ih (fun b hb => hcap b (List.mem_cons_of_mem _ hb)) hns (off + (sp.loc e).length)
        (if blocked then k + 1 else k + sp.root)
        (pre ++ ((sp.loc e).map sp.mi).map (fun m => if blocked then k :: m else onFirst (· + k) m))
        (mid.drop (sp.loc e).length) (by simp; omega)
      rw [List.length_append, List.length_map, List.length_map] at this
      rw [← List.append_assoc (pre ++ _)]
      rw [this]
      simp only [compList, List.map_map, List.map_cons, List.sum_cons, List.append_assoc,
        Nat.add_assoc]
      rfl

theorem RefinesL.length_eq {subs : List (PreBasis E)} {sps : List (Spec E)} (R : RefinesL subs sps) :
    subs.length = sps.length := List.Forall₂.length_eq R

theorem composite_refines (blocked : Bool) {subs : List (PreBasis E)} {sps : List (Spec E)}
    (hne : subs ≠ []) (R : RefinesL subs sps) :
    Refines (compositePB blocked subs) (specComposite blocked sps) where
  minPos := by
    have hne' : subs.map (·.minLen) ≠ [] := by simpa using hne
    have hm := listMin_mem hne'
    obtain ⟨b, hb, hbe⟩ := List.mem_map.mp hm
    obtain ⟨k, hk⟩ := List.mem_iff_getElem?.mp hb
    have : 1 ≤ b.minLen := by
      obtain ⟨sp, hsp⟩ : ∃ sp, sps[k]? = some sp := by
        have := (List.getElem?_eq_some_iff.mp hk).1
        have hl := R.length_eq
        exact ⟨sps[k]'(by omega), by simp⟩
      obtain ⟨b', hb', hr⟩ := forall₂_get R hsp
      rw [hk] at hb'; simp at hb'; subst hb'
      exact hr.minPos
    simp only [compositePB]; omega
  minMax := by
    have hne' : subs.map (·.minLen) ≠ [] := by simpa using hne
    have hm := listMin_mem hne'
    obtain ⟨b, hb, hbe⟩ := List.mem_map.mp hm
    obtain ⟨k, hk⟩ := List.mem_iff_getElem?.mp hb
    have : b.minLen ≤ b.maxLen := by
      obtain ⟨sp, hsp⟩ : ∃ sp, sps[k]? = some sp := by
        have := (List.getElem?_eq_some_iff.mp hk).1
        have hl := R.length_eq
        exact ⟨sps[k]'(by omega), by simp⟩
      obtain ⟨b', hb', hr⟩ := forall₂_get R hsp
      rw [hk] at hb'; simp at hb'; subst hb'
      exact hr.minMax
    have h2 := le_listMax (List.mem_map_of_mem (f := (·.maxLen)) hb)
    simp only [compositePB]; omega
  maxBuf := by
    have : listMax (subs.map (·.maxLen)) ≤ listMax (subs.map (·.bufLen)) := by
      refine listMax_mono ?_
      clear hne
      induction R with
      | nil => exact .nil
      | cons h _ ih => exact .cons h.maxBuf ih
    simp only [compositePB]; omega
  nodup := by
    refine nodup_tagged ?_
    intro l hl
    obtain ⟨sp, hsp, rfl⟩ := List.mem_map.mp hl
    obtain ⟨k, hk⟩ := List.mem_iff_getElem?.mp hsp
    obtain ⟨b, _, hr⟩ := forall₂_get R hk
    exact hr.nodup
  locMem := by
    intro e x hx
    obtain ⟨k, sp, d, hsp, hd, rfl⟩ := mem_composite_loc.mp hx
    obtain ⟨b, _, hr⟩ := forall₂_get R hsp
    exact mem_composite_dofs.mpr ⟨k, sp, d, hsp, hr.locMem e d hd, rfl⟩
  dim := by
    simp only [compositePB, specComposite, length_tagged, List.map_map]
    clear hne
    induction R with
    | nil => rfl
    | cons h _ ih => simp [h.dim, ih]
  maxN := by
    intro e
    simp only [compositePB, specComposite, length_tagged, List.map_map]
    clear hne
    induction R with
    | nil => exact Nat.le_refl _
    | cons h _ ih =>
      have := h.maxN e
      simp at ih ⊢; omega
  lenMin := by
    intro x hx
    obtain ⟨k, sp, d, hsp, hd, rfl⟩ := mem_composite_dofs.mp hx
    obtain ⟨b, hb, hr⟩ := forall₂_get R hsp
    rw [composite_mi_length hsp]
    have h1 := hr.lenMin d hd
    have h2 : listMin (subs.map (·.minLen)) ≤ b.minLen :=
      listMin_le (List.mem_map_of_mem (List.mem_of_getElem? hb))
    simp only [compositePB]; omega
  lenMax := by
    intro x hx
    obtain ⟨k, sp, d, hsp, hd, rfl⟩ := mem_composite_dofs.mp hx
    obtain ⟨b, hb, hr⟩ := forall₂_get R hsp
    rw [composite_mi_length hsp]
    have h1 := hr.lenMax d hd
    have h2 : b.maxLen ≤ listMax (subs.map (·.maxLen)) :=
      le_listMax (List.mem_map_of_mem (List.mem_of_getElem? hb))
    simp only [compositePB]; omega
  prefixFree := by
    intro x hx x' hx' h
    obtain ⟨k, sp, d, hsp, hd, rfl⟩ := mem_composite_dofs.mp hx
    obtain ⟨k', sp', d', hsp', hd', rfl⟩ := mem_composite_dofs.mp hx'
    rw [composite_mi hsp, composite_mi hsp'] at h
    obtain ⟨b, hb, hr⟩ := forall₂_get R hsp
    obtain ⟨b', hb', hr'⟩ := forall₂_get R hsp'
    cases blocked with
    | true =>
      simp only [if_true, List.cons_prefix_cons] at h
      obtain ⟨rfl, h⟩ := h
      rw [hsp] at hsp'; simp at hsp'; subst hsp'
      rw [hr.prefixFree d hd d' hd' h]
    | false =>
      simp only [Bool.false_eq_true, if_false] at h
      obtain ⟨i, r, hm, hi⟩ := hr.first hd
      obtain ⟨i', r', hm', hi'⟩ := hr'.first hd'
      rw [hm, hm'] at h
      obtain ⟨h1, h2⟩ := onFirst_prefix h
      obtain rfl := offs_inj hsp hsp' hi hi' h1
      rw [hsp] at hsp'; simp at hsp'; subst hsp'
      rw [hr.prefixFree d hd d' hd' (by
        rw [hm, hm', List.cons_prefix_cons]; exact ⟨by omega, h2⟩)]
  root := by
    cases blocked with
    | true => simp [compositePB, compositeSize, specComposite, R.length_eq]
    | false => simp [compositePB, compositeSize, specComposite, sumSizes_eq R]
  sizeLt := by
    intro x hx p y h
    obtain ⟨k, sp, d, hsp, hd, rfl⟩ := mem_composite_dofs.mp hx
    obtain ⟨b, hb, hr⟩ := forall₂_get R hsp
    rw [composite_mi hsp] at h
    show ∃ n, compositeSize blocked subs p = some n ∧ y < n
    cases blocked with
    | true =>
      simp only [if_true] at h
      cases p with
      | nil =>
        simp only [List.nil_append, List.cons_prefix_cons] at h
        refine ⟨subs.length, by simp [compositeSize], ?_⟩
        rw [h.1]; exact (List.getElem?_eq_some_iff.mp hb).1
      | cons z p =>
        simp only [List.cons_append, List.cons_prefix_cons] at h
        obtain ⟨rfl, h⟩ := h
        obtain ⟨n, hn, hy⟩ := hr.sizeLt d hd p y h
        exact ⟨n, by simp [compositeSize, multiIndexPopFront_cons, hb, hn], hy⟩
    | false =>
      simp only [Bool.false_eq_true, if_false] at h
      obtain ⟨i, r, hm, hi⟩ := hr.first hd
      rw [hm] at h
      simp only [onFirst] at h
      cases p with
      | nil =>
        simp only [List.nil_append, List.cons_prefix_cons] at h
        exact ⟨(sps.map (·.root)).sum, by simp [compositeSize, sumSizes_eq R], by rw [h.1]; exact offs_lt hsp hi⟩
      | cons z p =>
        simp only [List.cons_append, List.cons_prefix_cons] at h
        obtain ⟨rfl, h⟩ := h
        obtain ⟨n, hn, hy⟩ := hr.sizeLt d hd (i :: p) y (by
          rw [hm, List.cons_append, List.cons_prefix_cons]; exact ⟨rfl, h⟩)
        exact ⟨n, by simp [compositeSize, flatFind_eq R hb hsp hi, hn], hy⟩
  sizeFull := by
    intro x hx
    obtain ⟨k, sp, d, hsp, hd, rfl⟩ := mem_composite_dofs.mp hx
    obtain ⟨b, hb, hr⟩ := forall₂_get R hsp
    rw [composite_mi hsp]
    show compositeSize blocked subs _ = some 0
    have hf := hr.sizeFull d hd
    cases blocked with
    | true => simp [compositeSize, multiIndexPopFront_cons, hb, hf]
    | false =>
      obtain ⟨i, r, hm, hi⟩ := hr.first hd
      rw [hm] at hf
      simp [hm, onFirst, compositeSize, flatFind_eq R hb hsp hi, hf]
  leafy := by
    refine ⟨fun h => absurd rfl h, ?_⟩
    show Node.LeafyList (subs.map (·.makeNode))
    clear hne
    induction R with
    | nil => trivial
    | cons h _ ih => exact ⟨h.leafy, ih⟩
  nodeSize := by
    intro e off m hm
    obtain ⟨d, cs, rfl, hfi, hfe, hcs⟩ := composite_node_inv hm
    have h2 := bindChildren_snd' R hcs e off
    simp only [Node.bindTree, hfi, hfe, List.all_nil, if_true, Node.size, Node.data, h2, specComposite,
      length_tagged, List.map_map]
    simp only [Nat.add_sub_cancel_left]; rfl
  filterIrrel := by
    intro cap f n buf pos
    cases n; rfl
  fill := by
    intro cap hcap e off m hm pre mid post hmid
    obtain ⟨d, cs, rfl, hfi, hfe, hcs⟩ := composite_node_inv hm
    have hlen : ((specComposite blocked sps).loc e).length
        = (sps.map (fun sp => (sp.loc e).length)).sum := by
      simp only [specComposite, length_tagged, List.map_map]; rfl
    have hcap' : ∀ b ∈ subs, b.bufLen + blocked.toNat ≤ cap := by
      intro b hb
      have := le_listMax (List.mem_map_of_mem (f := (·.bufLen)) hb)
      simp only [compositePB] at hcap; omega
    have h := compositeFill_eq R blocked cap hcap' hcs e off 0 pre mid post (by rw [hmid, hlen])
    have hc := compList_eq blocked e sps sps 0 (by simp)
    simp only [offs, List.take_zero, List.map_nil, List.sum_nil, ite_self] at hc
    rw [hlen]
    have hl2 : (specComposite blocked sps).loc e = tagged 0 (sps.map (·.loc e)) := rfl
    rw [hl2, ← hc, ← h]
    simp [compositePB, Node.bindTree, hfi, hfe, Node.children]

theorem composite_complete (blocked : Bool) {subs : List (PreBasis E)} {sps : List (Spec E)}
    (hne : subs ≠ []) (R : RefinesL subs sps) (C : List.Forall₂ Complete subs sps) :
    Complete (compositePB blocked subs) (specComposite blocked sps) where
  nonempty := by
    cases C with
    | nil => exact absurd rfl hne
    | cons h _ =>
      obtain ⟨d, hd⟩ := List.exists_mem_of_ne_nil _ h.nonempty
      exact List.ne_nil_of_mem (mem_composite_dofs.mpr ⟨0, _, d, by simp, hd, rfl⟩)
  digits := by
    intro x hx p hp n hn y hy
    obtain ⟨k, sp, d, hsp, hd, rfl⟩ := mem_composite_dofs.mp hx
    obtain ⟨b, hb, hr⟩ := forall₂_get R hsp
    obtain ⟨b', hb', hc⟩ := forall₂_get C hsp
    rw [hb] at hb'; simp at hb'; subst hb'
    rw [composite_mi hsp] at hp
    have hn : compositeSize blocked subs p = some n := hn
    cases blocked with
    | true =>
      simp only [if_true] at hp
      cases p with
      | nil =>
        simp [compositeSize] at hn
        subst hn
        have hl := R.length_eq
        have hsy : sps[y]? = some (sps[y]'(by omega)) := by simp
        obtain ⟨b', hb', hc'⟩ := forall₂_get C hsy
        obtain ⟨d', hd'⟩ := List.exists_mem_of_ne_nil _ hc'.nonempty
        refine ⟨y :: d', mem_composite_dofs.mpr ⟨y, _, d', hsy, hd', rfl⟩, ?_⟩
        rw [composite_mi hsy]; simp
      | cons z p =>
        rw [List.cons_prefix_cons] at hp
        obtain ⟨rfl, hp⟩ := hp
        simp [compositeSize, multiIndexPopFront_cons, hb] at hn
        obtain ⟨d', hd', h'⟩ := hc.digits d hd p hp n hn y hy
        refine ⟨z :: d', mem_composite_dofs.mpr ⟨z, _, d', hsp, hd', rfl⟩, ?_⟩
        rw [composite_mi hsp]; simpa [List.cons_prefix_cons] using h'
    | false =>
      simp only [Bool.false_eq_true, if_false] at hp
      obtain ⟨i, r, hm, hi⟩ := hr.first hd
      rw [hm] at hp
      simp only [onFirst] at hp
      cases p with
      | nil =>
        simp [compositeSize, sumSizes_eq R] at hn
        subst hn
        obtain ⟨k', sp', i', hsp', hi', rfl⟩ := offs_surj hy
        obtain ⟨b', hb', hc'⟩ := forall₂_get C hsp'
        obtain ⟨b'', hb'', hr'⟩ := forall₂_get R hsp'
        rw [hb'] at hb''; simp at hb''; subst hb''
        obtain ⟨d0, hd0⟩ := List.exists_mem_of_ne_nil _ hc'.nonempty
        obtain ⟨d', hd', h'⟩ := hc'.digits d0 hd0 [] List.nil_prefix _ hr'.root i' hi'
        refine ⟨k' :: d', mem_composite_dofs.mpr ⟨k', _, d', hsp', hd', rfl⟩, ?_⟩
        rw [composite_mi hsp']
        obtain ⟨j, r', hm', _⟩ := hr'.first hd'
        rw [hm'] at h' ⊢
        simp at h' ⊢
        simp [onFirst, h']
      | cons z p =>
        rw [List.cons_prefix_cons] at hp
        obtain ⟨rfl, hp⟩ := hp
        simp [compositeSize, flatFind_eq R hb hsp hi] at hn
        obtain ⟨d', hd', h'⟩ := hc.digits d hd (i :: p)
          (by rw [hm, List.cons_prefix_cons]; exact ⟨rfl, hp⟩) n hn y hy
        refine ⟨k :: d', mem_composite_dofs.mpr ⟨k, _, d', hsp, hd', rfl⟩, ?_⟩
        rw [composite_mi hsp]
        obtain ⟨j, r', hm', _⟩ := hr.first hd'
        rw [hm', List.cons_append, List.cons_prefix_cons] at h'
        simp only [hm', onFirst, List.cons_append, List.cons_prefix_cons, Bool.false_eq_true, if_false]
        exact ⟨by rw [h'.1], h'.2⟩

end Verif.IndexTree

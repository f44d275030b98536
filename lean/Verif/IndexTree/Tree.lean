import Verif.IndexTree.NodeLemmas

namespace Verif.IndexTree

variable {E : Type}

/-! ## Every well-formed basis tree satisfies the contract -/

mutual
theorem PB.refines : (b : PB E) → b.WF → Refines b.model b.spec
  | .leaf L, h => by
    rw [PB.WF] at h
    exact leaf_refines L h.1 h.2
  | .power s c sub, h => by
    rw [PB.WF] at h
    exact power_refines s c h.1 (PB.refines sub h.2)
  | .composite blocked subs, h => by
    rw [PB.WF] at h
    refine composite_refines blocked ?_ (PB.refinesL subs h.2)
    cases subs with
    | nil => exact absurd rfl h.1
    | cons => simp [PB.models]
  | .restricted f sub, h => by
    rw [PB.WF] at h
    exact restricted_refines f (PB.refines sub h)
  | .ext pb sp, h => by
    rw [PB.WF] at h
    exact h
theorem PB.refinesL : (bs : List (PB E)) → PB.WFs bs → RefinesL (PB.models bs) (PB.specs bs)
  | [], _ => .nil
  | b :: bs, h => by
    rw [PB.WFs] at h
    exact .cons (PB.refines b h.1) (PB.refinesL bs h.2)
end

mutual
theorem PB.complete : (b : PB E) → b.WF → b.Pos → Complete b.model b.spec
  | .leaf L, _, h => by
    rw [PB.Pos] at h
    exact leaf_complete L h
  | .power s c sub, h, hp => by
    rw [PB.WF] at h
    rw [PB.Pos] at hp
    exact power_complete s c h.1 (PB.refines sub h.2) (PB.complete sub h.2 hp)
  | .composite blocked subs, h, hp => by
    rw [PB.WF] at h
    rw [PB.Pos] at hp
    refine composite_complete blocked ?_ (PB.refinesL subs h.2) (PB.completeL subs h.2 hp)
    cases subs with
    | nil => exact absurd rfl h.1
    | cons => simp [PB.models]
  | .restricted f sub, h, hp => by
    rw [PB.WF] at h
    rw [PB.Pos] at hp
    exact restricted_complete f (PB.complete sub h hp)
  | .ext pb sp, _, hp => by
    rw [PB.Pos] at hp
    exact hp
theorem PB.completeL : (bs : List (PB E)) → PB.WFs bs → PB.Poss bs →
    List.Forall₂ Complete (PB.models bs) (PB.specs bs)
  | [], _, _ => .nil
  | b :: bs, h, hp => by
    rw [PB.WFs] at h
    rw [PB.Poss] at hp
    exact .cons (PB.complete b h.1 hp.1) (PB.completeL bs h.2 hp.2)
end

mutual
theorem PB.covered : (b : PB E) → (P : E → Prop) → b.Covered P →
    ∀ d ∈ b.spec.dofs, ∃ e, P e ∧ d ∈ b.spec.loc e
  | .leaf L, P, h => by
    rw [PB.Covered] at h
    intro d hd
    simp only [PB.spec, specLeaf, List.mem_map, List.mem_range] at hd ⊢
    obtain ⟨i, hi, rfl⟩ := hd
    obtain ⟨e, he, hl⟩ := h i hi
    exact ⟨e, he, i, hl, rfl⟩
  | .power s c sub, P, h => by
    rw [PB.Covered] at h
    intro x hx
    rw [PB.spec] at hx ⊢
    obtain ⟨k, d, rfl, hk, hd⟩ := mem_power_dofs.mp hx
    obtain ⟨e, he, hl⟩ := PB.covered sub P h d hd
    refine ⟨e, he, ?_⟩
    simp only [specPower, List.mem_flatMap, List.mem_range, List.mem_map]
    exact ⟨k, hk, d, hl, rfl⟩
  | .composite blocked subs, P, h => by
    rw [PB.Covered] at h
    intro x hx
    rw [PB.spec] at hx ⊢
    obtain ⟨k, sp, d, hk, hd, rfl⟩ := mem_composite_dofs.mp hx
    obtain ⟨e, he, hl⟩ := PB.coveredL subs P h k sp hk d hd
    exact ⟨e, he, mem_composite_loc.mpr ⟨k, sp, d, hk, hl, rfl⟩⟩
  | .restricted f sub, P, h => by
    rw [PB.Covered] at h
    intro d hd
    obtain ⟨e, he, hl⟩ := PB.covered sub _ h d hd
    refine ⟨e, he.1, ?_⟩
    simp only [PB.spec, specRestricted, he.2, if_true]
    exact hl
  | .ext pb sp, P, h => by
    rw [PB.Covered] at h
    exact h
theorem PB.coveredL : (bs : List (PB E)) → (P : E → Prop) → PB.Covereds P bs →
    ∀ (k : Nat) (sp : Spec E), (PB.specs bs)[k]? = some sp → ∀ d ∈ sp.dofs, ∃ e, P e ∧ d ∈ sp.loc e
  | [], _, _ => by simp [PB.specs]
  | b :: bs, P, h => by
    rw [PB.Covereds] at h
    intro k sp hk
    cases k with
    | zero =>
      simp [PB.specs] at hk
      subst hk
      exact PB.covered b P h.1
    | succ k =>
      simp [PB.specs] at hk
      exact PB.coveredL bs P h.2 k sp hk
end

/-! ## Local views of a refining pre-basis -/

section
variable {pb : PreBasis E} {sp : Spec E}

theorem LocalView.resizeBuf_length (buf : Buf) (n : Nat) : (resizeBuf buf n).length = n := by
  simp [resizeBuf]; omega

theorem LocalView.bind_eq (R : Refines pb sp) (lv : LocalView E) (h : lv.tree.blank = pb.makeNode.blank)
    (e : E) : lv.bind pb e = some
      { tree := Node.bindTree e 0 lv.tree, element := some e, indices := (sp.loc e).map sp.mi } := by
  have hf := R.fill pb.bufLen (Nat.le_refl _) e 0 lv.tree h []
    (resizeBuf lv.indices (Node.bindTree e 0 lv.tree).size) []
    (by rw [resizeBuf_length, R.nodeSize e 0 _ h])
  simp only [List.nil_append, List.append_nil, List.length_nil, Nat.zero_add] at hf
  simp [LocalView.bind, hf]

theorem LocalView.fresh_blank (pb : PreBasis E) :
    (LocalView.fresh pb).tree.blank = pb.makeNode.blank := Node.blank_initializeTree 0 _

theorem localIndices_eq (R : Refines pb sp) (e : E) :
    localIndices pb e = some ((sp.loc e).map sp.mi) := by
  simp [localIndices, LocalView.bind_eq R _ (LocalView.fresh_blank pb)]

end

end Verif.IndexTree

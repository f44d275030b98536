import Verif.IndexTree.Spec

namespace Verif.IndexTree

theorem take_succ_lt {α : Type} (l : List α) (i : Nat) (h : i < l.length) :
    l.take (i+1) = l.take i ++ [l[i]] := by
  rw [List.take_add_one]; simp [h]

/-! ## Loops and elementary operations -/

theorem forLoop_eq {S : Type} (n : Nat) (body : Nat → S → Option S) (g : Nat → S)
    (h : ∀ i, i < n → body i (g i) = some (g (i+1))) : forLoop n body (g 0) = some (g n) := by
  induction n with
  | zero => rfl
  | succ n ih =>
    rw [forLoop, ih (fun i hi => h i (by omega))]
    simpa using h n (by omega)

theorem store_append (pre : Buf) (x : MI) (post : Buf) (v : MI) :
    store (pre ++ x :: post) pre.length v = some (pre ++ v :: post) := by
  simp [store]

theorem update_append (pre : Buf) (x : MI) (post : Buf) (f : MI → Option MI) (v : MI)
    (h : f x = some v) :
    update (pre ++ x :: post) pre.length f = some (pre ++ v :: post) := by
  simp [update, h, store_append]

theorem setDigit_cons (x : Nat) (r : MI) (v : Nat) : setDigit (x :: r) 0 v = some (v :: r) := by
  simp [setDigit]

theorem updFirst_ne (f : Nat → Nat) (m : MI) (h : m ≠ []) : updFirst f m = some (onFirst f m) := by
  cases m with
  | nil => exact absurd rfl h
  | cons x r => simp [updFirst, setDigit, onFirst]

theorem pushBack_ok {cap v : Nat} {m : MI} (h : m.length < cap) :
    pushBack cap v m = some (m ++ [v]) := by simp [pushBack, h]

theorem setBack_append (v w : Nat) (m : MI) : setBack v (m ++ [w]) = some (m ++ [v]) := by
  simp [setBack, setDigit]

theorem shiftUp_spec (m : MI) (y : Nat) (r : MI) (k : Nat) (hk : k ≤ m.length) :
    shiftUp k (m.take k ++ y :: r) = some ((m.take k).head?.getD y :: (m.take k) ++ r) := by
  induction k generalizing y r with
  | zero => simp [shiftUp]
  | succ k ih =>
    have hlt : k < m.length := by omega
    have e1 := take_succ_lt m k hlt
    have hl : (m.take k).length = k := by simp; omega
    rw [e1, shiftUp]
    have g : ((m.take k ++ [m[k]]) ++ y :: r)[k]? = some m[k] := by
      rw [List.append_assoc, List.getElem?_append_right (by omega)]; simp [hl]
    rw [g]
    have s : setDigit ((m.take k ++ [m[k]]) ++ y :: r) (k+1) m[k]
        = some (m.take k ++ m[k] :: (m[k] :: r)) := by
      rw [setDigit, if_pos (by simp; omega)]
      congr 1
      rw [List.append_assoc, List.set_append_right _ _ (by omega)]
      simp [hl]
    rw [Option.bind_some, s, Option.bind_some, ih _ _ (by omega)]
    congr 1
    cases k with
    | zero => simp
    | succ k => cases m with
      | nil => simp at hlt
      | cons a m =>
        simp only [List.length_cons, Nat.add_lt_add_iff_right] at hlt
        simp [-List.take_append_getElem]

theorem multiIndexPushFront_eq {cap M0 : Nat} {m : MI} (h : m.length < cap) :
    multiIndexPushFront cap M0 m = some (M0 :: m) := by
  have hr : resize cap (m.length + 1) m = some (m ++ [0]) := by
    rw [resize, if_pos (by omega)]
    simp [List.take_of_length_le]
  have hs := shiftUp_spec m 0 [] m.length (Nat.le_refl _)
  rw [List.take_length] at hs
  rw [multiIndexPushFront, hr, Option.bind_some]
  have hl : List.length (m ++ [0]) - 1 = m.length := by simp
  rw [hl, hs]
  simp [setDigit]

theorem multiIndexPopFront_cons (x : Nat) (r : MI) :
    multiIndexPopFront (x :: r) = some r := by
  have key : ∀ (n : Nat), n ≤ r.length →
      forLoop n (fun i m => (m[i+1]?).bind fun x => setDigit m i x) (x :: r)
        = some (r.take n ++ (x :: r).drop n) := by
    intro n hn
    have := forLoop_eq (S := MI) n (fun i m => (m[i+1]?).bind fun x => setDigit m i x)
      (fun n => r.take n ++ (x :: r).drop n) (by
        intro i hi
        have hl : (r.take i).length = i := by simp; omega
        have hi' : i < r.length := by omega
        have g : (r.take i ++ (x :: r).drop i)[i+1]? = some r[i] := by
          rw [List.getElem?_append_right (by omega)]
          simp [hl, hi', List.getElem?_drop]
        simp only [g, Option.bind_some]
        rw [setDigit, if_pos (by simp; omega)]
        congr 1
        rw [List.set_append_right _ _ (by omega)]
        have : (x :: r).drop i = (x :: r)[i]'(by simp; omega) :: (x :: r).drop (i+1) := by
          rw [List.drop_eq_getElem_cons]
        rw [this]
        simp only [take_succ_lt _ _ hi', hl, Nat.sub_self, List.set_cons_zero,
          List.append_assoc, List.cons_append, List.nil_append])
    simpa using this
  rw [multiIndexPopFront, if_neg (by simp)]
  rw [show (x :: r).length - 1 = r.length by simp, key _ (Nat.le_refl _)]
  simp

/-! ## First loop over a block of the buffer -/

theorem blockLoop (pre mid post : Buf) (f : MI → Option MI) (g : MI → MI)
    (h : ∀ m ∈ mid, f m = some (g m)) :
    forLoop mid.length (fun i buf => update buf (pre.length + i) f) (pre ++ mid ++ post)
      = some (pre ++ mid.map g ++ post) := by
  have := forLoop_eq (S := Buf) mid.length (fun i buf => update buf (pre.length + i) f)
    (fun i => (pre ++ (mid.take i).map g) ++ (mid.drop i ++ post)) (by
      intro i hi
      have hd : mid.drop i = mid[i] :: mid.drop (i+1) := by
        rw [List.drop_eq_getElem_cons]
      have hl : pre.length + i = (pre ++ (mid.take i).map g).length := by
        simp; omega
      simp only [hd, List.cons_append]
      rw [hl, update_append _ _ _ _ (g mid[i]) (h _ (List.getElem_mem hi))]
      simp only [take_succ_lt _ _ hi, List.map_append, List.map_cons, List.map_nil, List.append_assoc, List.cons_append, List.nil_append])
  simpa using this

/-- The copy loop: `blocks` of new entries are written behind the first block. -/
theorem copyInner (s : IMS) (root k : Nat) (pre B done rest post : Buf) (g : MI → MI)
    (hrest : rest.length = B.length)
    (h : ∀ m ∈ B, powerCopy s (k+1) root m = some (g m)) :
    forLoop B.length (fun i (st : Buf × Nat) =>
      (st.1[pre.length + i]?).bind fun m =>
      (store st.1 st.2 m).bind fun buf1 =>
      (update buf1 st.2 (powerCopy s (k+1) root)).bind fun buf2 =>
        some (buf2, st.2 + 1))
      (pre ++ B ++ done ++ rest ++ post, pre.length + B.length + done.length)
    = some (pre ++ B ++ done ++ B.map g ++ post,
        pre.length + B.length + done.length + B.length) := by
  have := forLoop_eq (S := Buf × Nat) B.length (fun i (st : Buf × Nat) =>
      (st.1[pre.length + i]?).bind fun m =>
      (store st.1 st.2 m).bind fun buf1 =>
      (update buf1 st.2 (powerCopy s (k+1) root)).bind fun buf2 =>
        some (buf2, st.2 + 1))
    (fun i => ((pre ++ B ++ done ++ (B.take i).map g) ++ (rest.drop i ++ post),
      pre.length + B.length + done.length + i)) (by
      intro i hi
      have hi' : i < rest.length := by omega
      have hd : rest.drop i = rest[i] :: rest.drop (i+1) := by
        rw [List.drop_eq_getElem_cons]
      have hl : pre.length + B.length + done.length + i
          = (pre ++ B ++ done ++ (B.take i).map g).length := by
        simp; omega
      have hg : ((pre ++ B ++ done ++ (B.take i).map g) ++ (rest.drop i ++ post))[pre.length + i]?
          = some B[i] := by
        simp only [List.append_assoc]
        rw [List.getElem?_append_right (by omega)]
        rw [List.getElem?_append_left (by omega)]
        simp [hi]
      simp only [hg, Option.bind_some]
      simp only [hd, List.cons_append]
      rw [hl, store_append, Option.bind_some,
        update_append _ _ _ _ (g B[i]) (h _ (List.getElem_mem hi)), Option.bind_some]
      rw [← hl]
      simp only [take_succ_lt _ _ hi, List.map_append, List.map_cons, List.map_nil, List.append_assoc, List.cons_append, List.nil_append, Nat.add_assoc])
  have e : rest.drop B.length = [] := by simp [hrest]
  simpa [e] using this

theorem copyLoop (s : IMS) (c root : Nat) (pre B rest post : Buf) (g : Nat → MI → MI)
    (hrest : rest.length = (c-1) * B.length)
    (h : ∀ k, k < c - 1 → ∀ m ∈ B, powerCopy s (k+1) root m = some (g (k+1) m)) :
    powerCopyLoop s c root B.length pre.length (pre ++ B ++ rest ++ post, pre.length + B.length)
    = some (pre ++ B ++ (List.range (c-1)).flatMap (fun k => B.map (g (k+1))) ++ post,
        pre.length + B.length + (c-1) * B.length) := by
  unfold powerCopyLoop
  have := forLoop_eq (S := Buf × Nat) (c-1) (fun k st =>
    forLoop B.length (fun i (st : Buf × Nat) =>
      (st.1[pre.length + i]?).bind fun m =>
      (store st.1 st.2 m).bind fun buf1 =>
      (update buf1 st.2 (powerCopy s (k+1) root)).bind fun buf2 =>
        some (buf2, st.2 + 1)) st)
    (fun n => (pre ++ B ++ (List.range n).flatMap (fun k => B.map (g (k+1)))
        ++ rest.drop (n * B.length) ++ post, pre.length + B.length + n * B.length)) (by
      intro k hk
      have hdl : ((List.range k).flatMap (fun k => B.map (g (k+1)))).length = k * B.length := by
        clear hk
        induction k with
        | zero => simp
        | succ k ih => rw [List.range_succ, List.flatMap_append, List.length_append, ih]; simp [Nat.succ_mul]
      have hmul : (k+1) * B.length ≤ (c-1) * B.length := Nat.mul_le_mul_right _ (by omega)
      rw [Nat.succ_mul] at hmul
      have hsplit : rest.drop (k * B.length)
          = (rest.drop (k * B.length)).take B.length ++ rest.drop ((k+1) * B.length) := by
        rw [Nat.succ_mul, ← List.drop_drop, List.take_append_drop]
      have := copyInner s root k pre B ((List.range k).flatMap (fun k => B.map (g (k+1))))
        ((rest.drop (k * B.length)).take B.length) (rest.drop ((k+1) * B.length) ++ post) (g (k+1))
        (by simp; omega) (h k hk)
      rw [hdl] at this
      rw [hsplit]
      simp only [List.append_assoc] at this ⊢
      rw [this]
      simp [List.range_succ, List.flatMap_append, Nat.succ_mul, Nat.add_assoc])
  have e : rest.drop ((c-1) * B.length) = [] := by simp [hrest]
  simpa [e] using this

theorem leafFill_eq (cap : Nat) (hcap : 1 ≤ cap) (gs : List Nat) (pre mid post : Buf)
    (h : mid.length = gs.length) :
    leafFill cap gs (pre ++ mid ++ post) pre.length
      = some (pre ++ gs.map (fun i => [i]) ++ post, pre.length + gs.length) := by
  induction gs generalizing pre mid with
  | nil =>
    have : mid = [] := by simpa using h
    simp [leafFill, this]
  | cons g gs ih =>
    cases mid with
    | nil => simp at h
    | cons m mid =>
      rw [leafFill, if_pos hcap, List.append_assoc, List.cons_append, store_append, Option.bind_some]
      have := ih (pre ++ [[g]]) mid (by simpa using h)
      simp at this
      simp [this, Nat.add_assoc, Nat.add_comm 1]

/-! ## Nodes -/

namespace Node
variable {E : Type}

@[simp] theorem blankList_length (l : List (Node E)) : (blankList l).length = l.length := by
  induction l with
  | nil => rfl
  | cons n ns ih => simp [blankList, ih]

theorem blankList_eq_map (l : List (Node E)) : blankList l = l.map blank := by
  induction l with
  | nil => rfl
  | cons n ns ih => simp [blankList, ih]

theorem emptyAllList_eq_map (off : Nat) (l : List (Node E)) :
    emptyAllList off l = l.map (emptyAll off) := by
  induction l with
  | nil => rfl
  | cons n ns ih => simp [emptyAllList, ih]

@[simp] theorem emptyAll_size (off : Nat) (n : Node E) : (emptyAll off n).size = 0 := by
  cases n; simp [emptyAll, size, data]

theorem bindTree_addFilter_true (e : E) (off : Nat) (f : E → Bool) (n : Node E) (h : f e = true) :
    bindTree e off (addFilter f n) = addFilter f (bindTree e off n) := by
  cases n with
  | mk d c =>
    simp only [addFilter, bindTree, List.all_cons, h, Bool.true_and]
    split
    · split <;> rfl
    · simp [emptyAll]

theorem bindTree_addFilter_false (e : E) (off : Nat) (f : E → Bool) (n : Node E) (h : f e = false) :
    bindTree e off (addFilter f n) = emptyAll off (addFilter f n) := by
  cases n with
  | mk d c => simp [addFilter, bindTree, h]

@[simp] theorem addFilter_size (f : E → Bool) (n : Node E) : (addFilter f n).size = n.size := by
  cases n; rfl

theorem blank_addFilter_inv (f : E → Bool) (m n : Node E) (h : m.blank = (addFilter f n).blank) :
    ∃ m', m = addFilter f m' ∧ m'.blank = n.blank := by
  cases m with
  | mk d c =>
    cases n with
    | mk d' c' =>
      simp only [blank, addFilter, Node.mk.injEq, NodeData.mk.injEq, true_and] at h
      obtain ⟨⟨hfe, hfi⟩, hc⟩ := h
      refine ⟨mk { d with filters := d'.filters } c, ?_, ?_⟩
      · cases d; simp_all [addFilter]
      · simp [blank, hfe, hc]

end Node
end Verif.IndexTree

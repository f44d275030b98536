import Verif.GridFunctions.Local
import Verif.Lagrange.Reproduction

/-!
# Evaluation of grid functions in global coordinates

`operator()` of the grid functions themselves, which takes global coordinates, is compared with their local functions (`GridFunctions/Local`).
-/

namespace Verif.GridFunctions

variable {E X G V K : Type}

/-! ## Model -/

/-- What global evaluation of discrete functions uses: the grid view of the function with the given local values, as a set of elements, and
`HierarchicSearch::findEntity` for a set of elements together with `geometry().local`. `none`: the search throws an exception. -/
structure Search (E X G V : Type) where
  view : (Nat → E → X → V) → E → Bool
  find : (E → Bool) → G → Option (E × X)

inductive GErr where
  | notImplemented
  /-- `HierarchicSearch` found no element -/
  | notFound
  deriving DecidableEq

mutual
/-- `operator()` of the `k`-th derivative of a grid function in global coordinates: analyticgridviewfunction.hh:184-187 (derivatives: 190-193),
facenormalgridfunction.hh:167-170, discreteglobalbasisfunction.hh:402-410, 657-665 (derivatives: 413-416, 667-670), composedgridfunction.hh:177-182
(derivatives: 185-188), coarsefunctiononfinegridview.hh:177-180 (derivatives: 183-192), finefunctiononcoarsegridview.hh:273-276 (derivatives: 279-288). -/
def GF.global (S : Search E X G V) : GF E X G V → Nat → G → Except GErr V
  | .analytic f, k, y => .ok (f k y)
  | .faceNormal _, _, _ => .error .notImplemented
  | .other m F, k, y =>
    if k ≤ m then match S.find (S.view F) y with
      | none => .error .notFound
      | some (e, x) => .ok (F k e x)
    else .error .notImplemented
  | .composed o gs, 0, y => match GF.globals S gs y with
    | .error r => .error r
    | .ok vs => .ok (o vs)
  | .composed _ _, _ + 1, _ => .error .notImplemented
  | .coarse _ g, k, y => g.global S k y
  | .fine _ g, k, y => g.global S k y
def GF.globals (S : Search E X G V) : List (GF E X G V) → G → Except GErr (List V)
  | [], _ => .ok []
  | g :: gs, y => match g.global S 0 y with
    | .error r => .error r
    | .ok v => match GF.globals S gs y with
      | .error r => .error r
      | .ok vs => .ok (v :: vs)
end

/-! ## Specification -/

variable [Zero K] [LinearOrder K]

/-- `x` is in the reference element of `e`. -/
def Grid.Inside (gr : Grid E X G K) (e : E) (x : X) : Prop := gr.dist e x = 0

/-- Contract of the grid: fathers and children have the same geometry, and fathers contain their children. -/
structure Grid.Nested (gr : Grid E X G K) : Prop where
  geoFather : ∀ e p x, gr.H.father e = some p → gr.geo p (gr.H.toFather e x) = gr.geo e x
  inFather : ∀ e p x, gr.H.father e = some p → gr.Inside e x → gr.Inside p (gr.H.toFather e x)
  geoChild : ∀ e x, ∀ c ∈ gr.children e, gr.geo c (gr.H.fromFather c x) = gr.geo e x

/-- Contract of the search, first part: the element which is returned is in the set, and it contains the point. -/
def Search.Sound (gr : Grid E X G K) (S : Search E X G V) : Prop :=
  ∀ s y e x, S.find s y = some (e, x) → s e = true ∧ gr.Inside e x ∧ gr.geo e x = y

/-- Contract of the search, second part: an element is found, if there is one. -/
def Search.Complete (gr : Grid E X G K) (S : Search E X G V) : Prop :=
  ∀ s e x, s e = true → gr.Inside e x → (S.find s (gr.geo e x)).isSome

/-- The values at the point `y` do not depend on the element of `s` in which the function is evaluated. -/
def OneValue (gr : Grid E X G K) (s : E → Bool) (f : E → X → V) (y : G) : Prop :=
  ∀ e x e' x', s e = true → s e' = true → gr.Inside e x → gr.Inside e' x' → gr.geo e x = y → gr.geo e' x' = y → f e x = f e' x'

mutual
/-- The `k`-th derivative can be evaluated in global coordinates: there are no face normals, composed functions are not differentiated, and the orders
are admissible. -/
def GF.HasGlobal : GF E X G V → Nat → Prop
  | .analytic _, _ => True
  | .faceNormal _, _ => False
  | .other m _, k => k ≤ m
  | .composed _ gs, k => k = 0 ∧ GF.HaveGlobal gs
  | .coarse _ g, k => g.HasGlobal k
  | .fine _ g, k => g.HasGlobal k
def GF.HaveGlobal : List (GF E X G V) → Prop
  | [] => True
  | g :: gs => g.HasGlobal 0 ∧ GF.HaveGlobal gs
end

mutual
/-- All discrete functions in `g` have one value (`k`-th derivative) at the point `y`. -/
def GF.OneValued (gr : Grid E X G K) (view : (Nat → E → X → V) → E → Bool) : GF E X G V → Nat → G → Prop
  | .analytic _, _, _ => True
  | .faceNormal _, _, _ => True
  | .other _ F, k, y => OneValue gr (view F) (F k) y
  | .composed _ gs, _, y => GF.OneValueds gr view gs y
  | .coarse _ g, k, y => g.OneValued gr view k y
  | .fine _ g, k, y => g.OneValued gr view k y
def GF.OneValueds (gr : Grid E X G K) (view : (Nat → E → X → V) → E → Bool) : List (GF E X G V) → G → Prop
  | [], _ => True
  | g :: gs, y => g.OneValued gr view 0 y ∧ GF.OneValueds gr view gs y
end

mutual
/-- The function is defined on `e`: discrete functions are used on their grid view only, and coarse functions and fine functions are used on elements with
ancestors or with descendants that cover them. -/
def GF.On (gr : Grid E X G K) (view : (Nat → E → X → V) → E → Bool) : GF E X G V → E → Prop
  | .analytic _, _ => True
  | .faceNormal _, _ => True
  | .other _ F, e => view F e = true
  | .composed _ gs, e => GF.Ons gr view gs e
  | .coarse s g, e => ∃ a φ ψ, Ancestor gr.H (fun e => !s e) e a φ ψ ∧ g.On gr view a
  | .fine s g, e => ∀ x, gr.Inside e x → ∃ e' x', Descend gr s e x e' x' ∧ gr.Inside e' x' ∧ g.On gr view e'
def GF.Ons (gr : Grid E X G K) (view : (Nat → E → X → V) → E → Bool) : List (GF E X G V) → E → Prop
  | [], _ => True
  | g :: gs, e => g.On gr view e ∧ GF.Ons gr view gs e
end

/-! ## Proof -/

omit [LinearOrder K] in
theorem Ancestor.global {gr : Grid E X G K} (hn : gr.Nested) {c : E → Bool} {e a : E} {φ ψ : X → X} (h : Ancestor gr.H c e a φ ψ) :
    ∀ x, gr.geo a (φ x) = gr.geo e x ∧ (gr.Inside e x → gr.Inside a (φ x)) := by
  induction h with
  | here _ => intro x; exact ⟨rfl, id⟩
  | up _ hf _ ih =>
    intro x
    obtain ⟨h1, h2⟩ := ih (gr.H.toFather _ x)
    exact ⟨h1.trans (hn.geoFather _ _ _ hf), fun h => h2 (hn.inFather _ _ _ hf h)⟩

theorem Descend.global {gr : Grid E X G K} (hn : gr.Nested) {s : E → Bool} {e e' : E} {x x' : X} (h : Descend gr s e x e' x') :
    gr.geo e' x' = gr.geo e x := by
  induction h with
  | here _ => rfl
  | down _ hc _ _ _ _ ih => rw [ih, hn.geoChild _ _ _ (by rw [hc]; simp)]

mutual
theorem global_val {gr : Grid E X G K} (hn : gr.Nested) {S : Search E X G V} (hS : S.Sound gr) : (g : GF E X G V) → (k : Nat) → (e : E) → (x : X) → (v : V) →
    g.On gr S.view e → gr.Inside e x → g.OneValued gr S.view k (gr.geo e x) → g.global S k (gr.geo e x) = .ok v → g.Val gr k e x v
  | .analytic f, k, e, x, v, _, _, _, h => by
    rw [GF.global] at h
    rw [GF.Val]
    injection h with h
    exact h.symm
  | .faceNormal _, _, _, _, _, _, _, _, h => by simp [GF.global] at h
  | .other m F, k, e, x, v, ho, hx, hv, h => by
    rw [GF.On] at ho
    rw [GF.OneValued] at hv
    rw [GF.global] at h
    rw [GF.Val]
    split at h
    · split at h
      · exact absurd h (by simp)
      · rename_i e' x' hp
        obtain ⟨h1, h2, h3⟩ := hS _ _ _ _ hp
        injection h with h
        rw [← h]
        exact hv _ _ _ _ h1 ho h2 hx h3 rfl
    · exact absurd h (by simp)
  | .composed o gs, 0, e, x, v, ho, hx, hv, h => by
    rw [GF.On] at ho
    rw [GF.OneValued] at hv
    rw [GF.global] at h
    rw [GF.Val]
    split at h
    · exact absurd h (by simp)
    · rename_i vs hp
      injection h with h
      exact ⟨rfl, vs, globals_val hn hS gs e x vs ho hx hv hp, h.symm⟩
  | .composed o gs, k + 1, e, x, v, _, _, _, h => by simp [GF.global] at h
  | .coarse s g, k, e, x, v, ho, hx, hv, h => by
    rw [GF.On] at ho
    rw [GF.OneValued] at hv
    rw [GF.global] at h
    rw [GF.Val]
    obtain ⟨a, φ, ψ, ha, ho⟩ := ho
    obtain ⟨h1, h2⟩ := ha.global hn x
    rw [← h1] at hv h
    exact ⟨a, φ, ψ, ha, global_val hn hS g k a (φ x) v ho (h2 hx) hv h⟩
  | .fine s g, k, e, x, v, ho, hx, hv, h => by
    rw [GF.On] at ho
    rw [GF.OneValued] at hv
    rw [GF.global] at h
    rw [GF.Val]
    obtain ⟨e', x', hd, hx', ho⟩ := ho x hx
    have h1 := hd.global hn
    rw [← h1] at hv h
    exact ⟨e', x', hd, global_val hn hS g k e' x' v ho hx' hv h⟩
theorem globals_val {gr : Grid E X G K} (hn : gr.Nested) {S : Search E X G V} (hS : S.Sound gr) : (gs : List (GF E X G V)) → (e : E) → (x : X) → (vs : List V) →
    GF.Ons gr S.view gs e → gr.Inside e x → GF.OneValueds gr S.view gs (gr.geo e x) → GF.globals S gs (gr.geo e x) = .ok vs → GF.Vals gr gs e x vs
  | [], e, x, vs, _, _, _, h => by
    rw [GF.globals] at h
    rw [GF.Vals]
    injection h with h
    exact h.symm
  | g :: gs, e, x, vs, ho, hx, hv, h => by
    rw [GF.Ons] at ho
    rw [GF.OneValueds] at hv
    rw [GF.globals] at h
    rw [GF.Vals]
    split at h
    · exact absurd h (by simp)
    · rename_i v hp
      split at h
      · exact absurd h (by simp)
      · rename_i ws hq
        injection h with h
        exact ⟨v, ws, h.symm, global_val hn hS g 0 e x v ho.1 hx hv.1 hp, globals_val hn hS gs e x ws ho.2 hx hv.2 hq⟩
end

mutual
theorem global_found {gr : Grid E X G K} (hn : gr.Nested) {S : Search E X G V} (hS : S.Complete gr) : (g : GF E X G V) → (k : Nat) → (e : E) → (x : X) →
    g.HasGlobal k → g.On gr S.view e → gr.Inside e x → ∃ v, g.global S k (gr.geo e x) = .ok v
  | .analytic f, k, e, x, _, _, _ => ⟨f k (gr.geo e x), by rw [GF.global]⟩
  | .faceNormal _, _, _, _, h, _, _ => by simp [GF.HasGlobal] at h
  | .other m F, k, e, x, h, ho, hx => by
    rw [GF.HasGlobal] at h
    rw [GF.On] at ho
    obtain ⟨⟨e', x'⟩, hp⟩ := Option.isSome_iff_exists.1 (hS _ e x ho hx)
    exact ⟨F k e' x', by rw [GF.global, if_pos h, hp]⟩
  | .composed o gs, k, e, x, h, ho, hx => by
    rw [GF.HasGlobal] at h
    rw [GF.On] at ho
    obtain ⟨rfl, h⟩ := h
    obtain ⟨vs, h1⟩ := globals_found hn hS gs e x h ho hx
    exact ⟨o vs, by rw [GF.global, h1]⟩
  | .coarse s g, k, e, x, h, ho, hx => by
    rw [GF.HasGlobal] at h
    rw [GF.On] at ho
    obtain ⟨a, φ, ψ, ha, ho⟩ := ho
    obtain ⟨h1, h2⟩ := ha.global hn x
    obtain ⟨v, h3⟩ := global_found hn hS g k a (φ x) h ho (h2 hx)
    exact ⟨v, by rw [GF.global, ← h1]; exact h3⟩
  | .fine s g, k, e, x, h, ho, hx => by
    rw [GF.HasGlobal] at h
    rw [GF.On] at ho
    obtain ⟨e', x', hd, hx', ho⟩ := ho x hx
    obtain ⟨v, h3⟩ := global_found hn hS g k e' x' h ho hx'
    exact ⟨v, by rw [GF.global, ← hd.global hn]; exact h3⟩
theorem globals_found {gr : Grid E X G K} (hn : gr.Nested) {S : Search E X G V} (hS : S.Complete gr) : (gs : List (GF E X G V)) → (e : E) → (x : X) →
    GF.HaveGlobal gs → GF.Ons gr S.view gs e → gr.Inside e x → ∃ vs, GF.globals S gs (gr.geo e x) = .ok vs
  | [], e, x, _, _, _ => ⟨[], by rw [GF.globals]⟩
  | g :: gs, e, x, h, ho, hx => by
    rw [GF.HaveGlobal] at h
    rw [GF.Ons] at ho
    obtain ⟨v, h1⟩ := global_found hn hS g 0 e x h.1 ho.1 hx
    obtain ⟨vs, h3⟩ := globals_found hn hS gs e x h.2 ho.2 hx
    exact ⟨v :: vs, by rw [GF.globals, h1]; simp only [h3]⟩
end

mutual
theorem hasGlobal_of_ok {S : Search E X G V} : (g : GF E X G V) → (k : Nat) → (y : G) → (v : V) → g.global S k y = .ok v → g.HasGlobal k
  | .analytic _, _, _, _, _ => by rw [GF.HasGlobal]; trivial
  | .faceNormal _, _, _, _, h => by simp [GF.global] at h
  | .other m F, k, y, v, h => by
    rw [GF.global] at h
    rw [GF.HasGlobal]
    by_contra hk
    rw [if_neg hk] at h
    exact absurd h (by simp)
  | .composed o gs, 0, y, v, h => by
    rw [GF.global] at h
    rw [GF.HasGlobal]
    split at h
    · exact absurd h (by simp)
    · rename_i vs hp
      exact ⟨rfl, haveGlobal_of_ok gs y vs hp⟩
  | .composed o gs, k + 1, _, _, h => by simp [GF.global] at h
  | .coarse _ g, k, y, v, h => by
    rw [GF.global] at h
    rw [GF.HasGlobal]
    exact hasGlobal_of_ok g k y v h
  | .fine _ g, k, y, v, h => by
    rw [GF.global] at h
    rw [GF.HasGlobal]
    exact hasGlobal_of_ok g k y v h
theorem haveGlobal_of_ok {S : Search E X G V} : (gs : List (GF E X G V)) → (y : G) → (vs : List V) → GF.globals S gs y = .ok vs → GF.HaveGlobal gs
  | [], _, _, _ => by rw [GF.HaveGlobal]; trivial
  | g :: gs, y, vs, h => by
    rw [GF.globals] at h
    rw [GF.HaveGlobal]
    split at h
    · exact absurd h (by simp)
    · rename_i v hp
      split at h
      · exact absurd h (by simp)
      · rename_i ws hq
        exact ⟨hasGlobal_of_ok g 0 y v hp, haveGlobal_of_ok gs y ws hq⟩
end

omit [Zero K] in
theorem Expected.eval_last {gr : Grid E X G K} {g : GF E X G V} {s : Nat × Option E} {ops : List (LOp E X)} {vs : List V} {k : Nat} {e : E} {x : X} {v : V}
    (h : Expected gr g s ops vs (k, some e)) (hv : g.Val gr k e x v) : Expected gr g s (ops ++ [.eval x]) (vs ++ [v]) (k, some e) := by
  generalize hs : (k, some e) = s' at h
  induction h with
  | nil => subst hs; exact .eval hv .nil
  | bind hd _ ih => exact .bind hd (ih hs)
  | unbind _ ih => exact .unbind (ih hs)
  | copy _ ih => exact .copy (ih hs)
  | derivative hd _ ih => exact .derivative hd (ih hs)
  | eval hw _ ih => exact .eval hw (ih hs)

/-! ## Theorems -/

/-- **C106.** If a grid function, or a derivative of it, is evaluated in global coordinates, and gives a value, then this is the value at the corresponding point
of each element that contains the point, provided the discrete functions in it have one value there; and the derivative is one that can be evaluated. -/
theorem C106_sound {gr : Grid E X G K} (hn : gr.Nested) {S : Search E X G V} (hS : S.Sound gr) (g : GF E X G V) {k : Nat} {e : E} {x : X} {v : V}
    (ho : g.On gr S.view e) (hx : gr.Inside e x) (hv : g.OneValued gr S.view k (gr.geo e x)) (h : g.global S k (gr.geo e x) = .ok v) :
    g.Val gr k e x v ∧ g.HasGlobal k :=
  ⟨global_val hn hS g k e x v ho hx hv h, hasGlobal_of_ok g k _ v h⟩

/-- **C106.** Evaluation in global coordinates at a point of an element gives the value that the local function gives, if it is bound to this element, whatever
has been done with it before. -/
theorem C106_agree [Nonempty X] {gr : Grid E X G K} (hg : gr.OK) (h0 : ∀ e x, 0 ≤ gr.dist e x) (hn : gr.Nested) {S : Search E X G V} (hS : S.Sound gr)
    (hC : S.Complete gr) (g : GF E X G V) (hw : g.WF) {k : Nat} {e : E} {x : X} (hk : g.HasGlobal k) (ho : g.On gr S.view e) (hx : gr.Inside e x)
    (hv : g.OneValued gr S.view k (gr.geo e x)) {ops : List (LOp E X)} {vs : List V} (h : Expected gr g (0, none) ops vs (k, some e)) :
    ∃ v l, g.global S k (gr.geo e x) = .ok v ∧ g.run gr g.new (ops ++ [.eval x]) = .ok (vs ++ [v], l) := by
  obtain ⟨v, h1⟩ := global_found hn hC g k e x hk ho hx
  obtain ⟨l, h2, -⟩ := C54 hg h0 g hw (h.eval_last (global_val hn hS g k e x v ho hx hv h1))
  exact ⟨v, l, h1, h2⟩

omit [LinearOrder K] in
/-- **C106.** A Lagrange function of a grid view whose elements `L` are elements of the grid, via `i`: global evaluation in each point of each element gives the
value of the linear combination of the shape functions on this element. The grid view is conforming: points of different elements have the same position only if
they are the same point of a common face, edge or vertex. -/
theorem C106_lagrange {L T α R : Type} [LinearOrder α] [Field R] [CharZero R] {n : Nat} {LG : Lagrange.LGrid L T α} (h : LG.OK) (closed : Lagrange.Continuity.Closed LG)
    (helem : ∀ l, Lagrange.Continuity.Supported n (LG.elemGeo l)) {order : Nat} (hord : 1 ≤ order) (h17 : LG.dim = 3 → order ≤ 17) {keys : Mapper.Geo → List Mapper.Key}
    (hk : Lagrange.LagrangeKeys LG order fun l => keys (LG.elemGeo l)) (vec : Nat → R)
    {gr : Grid E (Piola.Vec R n) G K} {S : Search E (Piola.Vec R n) G R} (hS : S.Sound gr) (hC : S.Complete gr) (i : L → E) (m : Nat)
    (F : Nat → E → Piola.Vec R n → R)
    (hF : ∀ l x, F 0 (i l) x = Lagrange.Continuity.value LG order (fun l => keys (LG.elemGeo l)) (Lagrange.Continuity.lagrangeValues order keys) vec l x)
    (hview : ∀ e, S.view F e = true ↔ ∃ l, i l = e)
    (conf : ∀ l x l' x', gr.Inside (i l) x → gr.Inside (i l') x' → gr.geo (i l) x = gr.geo (i l') x' → (l = l' ∧ x = x') ∨ Lagrange.Continuity.Meets LG l x l' x')
    (l : L) (x : Piola.Vec R n) (hx : gr.Inside (i l) x) :
    (GF.other m F).global S 0 (gr.geo (i l) x) =
      .ok (Lagrange.Continuity.value LG order (fun l => keys (LG.elemGeo l)) (Lagrange.Continuity.lagrangeValues order keys) vec l x) := by
  obtain ⟨⟨e', x'⟩, hp⟩ := Option.isSome_iff_exists.1 (hC _ (i l) x ((hview _).2 ⟨l, rfl⟩) hx)
  obtain ⟨h1, h2, h3⟩ := hS _ _ _ _ hp
  obtain ⟨l', rfl⟩ := (hview _).1 h1
  rw [GF.global, if_pos (Nat.zero_le _), hp]
  simp only [hF]
  rcases conf _ _ _ _ h2 hx h3 with ⟨rfl, rfl⟩ | hm
  · rfl
  · rw [((Lagrange.Continuity.C84_space h closed helem hord h17 hk _).2 ⟨vec, fun _ _ => rfl⟩).1 _ _ _ _ hm]

/-! ## Examples -/

/-- The interval `[0, 4]` and its halves `[0, 2]` and `[2, 4]`. -/
def halves : Grid (Fin 3) ℚ ℚ ℚ where
  H := { father := fun e => if e = 0 then none else some 0
         level := fun e => if e = 0 then 0 else 1
         toFather := fun e x => if e = 1 then x / 2 else (x + 1) / 2
         fromFather := fun e x => if e = 1 then 2 * x else 2 * x - 1 }
  children e := if e = 0 then [1, 2] else []
  maxLevel := 1
  geo e x := if e = 0 then 4 * x else if e = 1 then 2 * x else 2 + 2 * x
  dist _ x := min 500 (max 0 (max (-x) (x - 1)))
  far := 1000

theorem halves_inside (e : Fin 3) (x : ℚ) : halves.Inside e x ↔ 0 ≤ x ∧ x ≤ 1 := by
  simp only [Grid.Inside, halves]
  constructor
  · intro h
    have h1 : max (-x) (x - 1) ≤ 0 := by
      rcases min_choice (500 : ℚ) (max 0 (max (-x) (x - 1))) with h2 | h2
      · rw [h2] at h; norm_num at h
      · rw [h2] at h; rw [← h]; exact le_max_right _ _
    have h2 := (le_max_left (-x) (x - 1)).trans h1
    have h3 := (le_max_right (-x) (x - 1)).trans h1
    exact ⟨by linarith, by linarith⟩
  · intro h
    rw [max_eq_left (max_le (by linarith) (by linarith))]
    norm_num

theorem halves_OK : halves.OK := by
  refine ⟨?_, ?_⟩
  · intro e p h
    simp only [halves] at h ⊢
    split at h
    · simp at h
    · rename_i he; injection h with h; rw [← h]; simp [he]
  · intro e c hc
    fin_cases e <;> simp [halves] at hc ⊢
    rcases hc with rfl | rfl <;> simp

theorem halves_nonneg (e : Fin 3) (x : ℚ) : 0 ≤ halves.dist e x := le_min (by norm_num) (le_max_left _ _)

theorem halves_nested : halves.Nested := by
  refine ⟨?_, ?_, ?_⟩
  · intro e p x h
    fin_cases e <;> simp [halves] at h ⊢ <;> subst h <;> simp <;> ring
  · intro e p x h hx
    rw [halves_inside] at hx ⊢
    fin_cases e <;> simp [halves] at h ⊢ <;> constructor <;> linarith
  · intro e x c hc
    fin_cases e <;> simp [halves] at hc ⊢
    rcases hc with rfl | rfl <;> simp <;> ring

/-- The first element of the set that contains the point. The function lives on the halves. -/
def firstHalf : Search (Fin 3) ℚ ℚ ℚ where
  view _ e := decide (e ≠ 0)
  find s y :=
    if s 0 ∧ 0 ≤ y ∧ y ≤ 4 then some (0, y / 4) else if s 1 ∧ 0 ≤ y ∧ y ≤ 2 then some (1, y / 2)
    else if s 2 ∧ 2 ≤ y ∧ y ≤ 4 then some (2, (y - 2) / 2) else none

theorem firstHalf_sound : firstHalf.Sound halves := by
  intro s y e x h
  simp only [firstHalf] at h
  rw [halves_inside]
  split at h
  · rename_i hc
    simp only [Option.some.injEq, Prod.mk.injEq] at h
    obtain ⟨rfl, rfl⟩ := h
    refine ⟨hc.1, ⟨by linarith, by linarith⟩, by simp [halves]; ring⟩
  split at h
  · rename_i hc
    simp only [Option.some.injEq, Prod.mk.injEq] at h
    obtain ⟨rfl, rfl⟩ := h
    refine ⟨hc.1, ⟨by linarith, by linarith⟩, by simp [halves]; ring⟩
  split at h
  · rename_i hc
    simp only [Option.some.injEq, Prod.mk.injEq] at h
    obtain ⟨rfl, rfl⟩ := h
    refine ⟨hc.1, ⟨by linarith, by linarith⟩, by simp [halves]; ring⟩
  · exact absurd h (by simp)

theorem firstHalf_complete : firstHalf.Complete halves := by
  intro s e x hs hx
  rw [halves_inside] at hx
  simp only [firstHalf]
  split
  · rfl
  split
  · rfl
  split
  · rfl
  · rename_i h0 h1 h2
    fin_cases e
    · exact absurd ⟨hs, by simp [halves]; linarith, by simp [halves]; linarith⟩ h0
    · exact absurd ⟨hs, by simp [halves]; linarith, by simp [halves]; linarith⟩ h1
    · exact absurd ⟨hs, by simp [halves]; linarith, by simp [halves]; linarith⟩ h2

/-- **C106.** The condition on discrete functions cannot be omitted: for a piecewise constant function, evaluation in the global coordinates of a common point of two
elements gives the value on one of them, whereas the local function that is bound to the other element has another value. -/
theorem C106_discontinuous : ∃ (gr : Grid (Fin 3) ℚ ℚ ℚ) (S : Search (Fin 3) ℚ ℚ ℚ) (F : Nat → Fin 3 → ℚ → ℚ), gr.OK ∧ gr.Nested ∧ S.Sound gr ∧ S.Complete gr ∧
    (GF.other 0 F).On gr S.view 2 ∧ gr.Inside 2 0 ∧ (GF.other 0 F).global S 0 (gr.geo 2 0) = .ok 1 ∧
    ∃ l, (GF.other 0 F).run gr (GF.new (G := ℚ) (.other 0 F)) [.bind 2, .eval 0] = .ok ([2], l) :=
  ⟨halves, firstHalf, fun _ e _ => (e.val : ℚ), halves_OK, halves_nested, firstHalf_sound, firstHalf_complete, by simp [GF.On, firstHalf],
    by rw [halves_inside]; norm_num, by simp [GF.global, firstHalf, halves], _, rfl⟩

theorem halves_descend (x : ℚ) : ∃ e x', Descend halves (fun e => decide (e ≠ 0)) 0 x e x' ∧ e ≠ 0 ∧ (halves.Inside 0 x → halves.Inside e x') := by
  have hc : halves.children 0 = [1, 2] := rfl
  have hfar : ∀ e y, halves.dist e y < halves.far := fun e y => lt_of_le_of_lt (min_le_left _ _) (by norm_num [halves])
  have h1 : halves.H.fromFather 1 x = 2 * x := rfl
  have h2 : halves.H.fromFather 2 x = 2 * x - 1 := rfl
  by_cases h : halves.dist 1 (2 * x) ≤ halves.dist 2 (2 * x - 1)
  · refine ⟨1, 2 * x, .down (c := 1) (C1 := []) (C2 := [2]) rfl hc (hfar _ _) (by simp) ?_ (.here (by decide)), by decide, fun hx => ?_⟩
    · intro c' hc'
      rw [List.mem_singleton] at hc'
      rw [hc', h1, h2]
      exact h
    · rw [halves_inside] at hx
      by_cases hx' : x ≤ 1 / 2
      · rw [halves_inside]; constructor <;> linarith
      · have h0 : halves.Inside 2 (2 * x - 1) := by rw [halves_inside]; constructor <;> linarith
        rw [Grid.Inside] at h0 ⊢
        rw [h0] at h
        exact le_antisymm h (halves_nonneg _ _)
  · push Not at h
    refine ⟨2, 2 * x - 1, .down (c := 2) (C1 := [1]) (C2 := []) rfl hc (hfar _ _) ?_ (by simp) (.here (by decide)), by decide, fun hx => ?_⟩
    · intro c' hc'
      rw [List.mem_singleton] at hc'
      rw [hc', h1, h2]
      exact h
    · rw [halves_inside] at hx
      by_cases hx' : x ≤ 1 / 2
      · have h0 : halves.Inside 1 (2 * x) := by rw [halves_inside]; constructor <;> linarith
        rw [Grid.Inside] at h0
        rw [h0] at h
        exact absurd h (not_lt.2 (halves_nonneg _ _))
      · rw [halves_inside]; constructor <;> linarith

/-- The continuous function with the values 0, 1, 4 in the points 0, 2, 4, multiplied with an analytic function, on the coarse element. -/
def product : GF (Fin 3) ℚ ℚ ℚ := .composed List.prod [.analytic fun _ y => y + 1,
  .fine (fun e => decide (e ≠ 0)) (.other 1 fun _ e x => if e = 1 then x else 1 + 3 * x)]

example (x : ℚ) (h0 : 0 ≤ x) (h1 : x ≤ 1) : ∃ v l, product.global firstHalf 0 (4 * x) = .ok v ∧
    product.run halves product.new [.bind 1, .unbind, .bind 0, .copy, .eval x] = .ok ([v], l) := by
  have hd : ∀ e, product.Dom halves e := by
    intro e
    simp only [product, GF.Dom, GF.Doms, true_and, and_true]
    intro y
    fin_cases e
    · obtain ⟨e', x', h1, -⟩ := halves_descend y
      exact ⟨e', x', h1⟩
    · exact ⟨_, _, .here rfl⟩
    · exact ⟨_, _, .here rfl⟩
  refine C106_agree (X := ℚ) (gr := halves) (S := firstHalf) halves_OK halves_nonneg halves_nested firstHalf_sound firstHalf_complete product
    (by simp [product, GF.WF, GF.WFs]) (k := 0) (e := 0) (x := x) (vs := []) (ops := [.bind 1, .unbind, .bind 0, .copy])
    (by simp [product, GF.HasGlobal, GF.HaveGlobal]) ?_ ((halves_inside _ _).2 ⟨h0, h1⟩) ?_
    (.bind (hd 1) (.unbind (.bind (hd 0) (.copy .nil))))
  · simp only [product, GF.On, GF.Ons, true_and, and_true]
    intro y hy
    obtain ⟨e', x', h1, h2, h3⟩ := halves_descend y
    exact ⟨e', x', h1, h3 hy, by simp [firstHalf, h2]⟩
  · simp only [product, GF.OneValued, GF.OneValueds, true_and, and_true]
    intro e z e' z' he he' hz hz' h3 h4
    rw [halves_inside] at hz hz'
    rw [← h4] at h3
    fin_cases e <;> fin_cases e' <;> simp [firstHalf, halves] at he he' h3 ⊢ <;> linarith

/-- The point between the halves. -/
example : product.global firstHalf 0 2 = .ok 3 := by
  simp only [product, GF.global, GF.globals, firstHalf]
  norm_num

/-- Face normals cannot be evaluated, also as parts of composed functions. -/
example (S : Search (Fin 3) ℚ ℚ ℚ) (N : Fin 3 → ℚ → ℚ) (y : ℚ) :
    (GF.composed List.prod [.analytic fun _ y => y, .faceNormal N]).global S 0 y = .error .notImplemented := by
  simp [GF.global, GF.globals]

/-- The reference elements of the quadrilateral and of the triangle in `mixedGrid`. -/
def InReference (e : Fin 2) (x : Piola.Vec ℚ 2) : Prop := 0 ≤ x 0 ∧ 0 ≤ x 1 ∧ if e = 0 then x 0 ≤ 1 ∧ x 1 ≤ 1 else x 0 + x 1 ≤ 1

instance (e : Fin 2) (x : Piola.Vec ℚ 2) : Decidable (InReference e x) := by unfold InReference; infer_instance

/-- The unit square and the triangle with the vertices (1, 1), (1, 0), (2, 0). -/
def flatGrid : Grid (Fin 2) (Piola.Vec ℚ 2) (ℚ × ℚ) ℚ where
  H := { father := fun _ => none, level := fun _ => 0, toFather := fun _ x => x, fromFather := fun _ x => x }
  children _ := []
  maxLevel := 0
  geo e x := if e = 0 then (x 0, x 1) else (1 + x 1, 1 - x 0 - x 1)
  dist e x := if InReference e x then 0 else 1
  far := 1000

/-- The square is searched first. -/
def flatSearch : Search (Fin 2) (Piola.Vec ℚ 2) (ℚ × ℚ) ℚ where
  view _ _ := true
  find s y :=
    if s 0 ∧ InReference 0 ![y.1, y.2] then some (0, ![y.1, y.2])
    else if s 1 ∧ InReference 1 ![2 - y.1 - y.2, y.1 - 1] then some (1, ![2 - y.1 - y.2, y.1 - 1]) else none

theorem flat_inside (e : Fin 2) (x : Piola.Vec ℚ 2) : flatGrid.Inside e x ↔ InReference e x := by
  simp only [Grid.Inside, flatGrid]
  split <;> simp_all

theorem flat_sound : flatSearch.Sound flatGrid := by
  intro s y e x h
  rw [flat_inside]
  simp only [flatSearch] at h
  split at h
  · rename_i hc
    simp only [Option.some.injEq, Prod.mk.injEq] at h
    obtain ⟨rfl, rfl⟩ := h
    exact ⟨hc.1, hc.2, by simp [flatGrid]⟩
  split at h
  · rename_i hc
    simp only [Option.some.injEq, Prod.mk.injEq] at h
    obtain ⟨rfl, rfl⟩ := h
    exact ⟨hc.1, hc.2, by simp [flatGrid, Prod.ext_iff]; ring⟩
  · exact absurd h (by simp)

theorem flat_complete : flatSearch.Complete flatGrid := by
  intro s e x hs hx
  rw [flat_inside] at hx
  simp only [flatSearch]
  split
  · rfl
  split
  · rfl
  · rename_i h0 h1
    fin_cases e
    · refine absurd ⟨hs, ?_⟩ h0
      simpa [InReference, flatGrid] using hx
    · refine absurd ⟨hs, ?_⟩ h1
      simp [InReference, flatGrid] at hx ⊢
      refine ⟨by linarith, by linarith, by linarith⟩

theorem flat_meets (x x' : Piola.Vec ℚ 2) (h0 : x 0 = 1) (h1 : x' 1 = 0) (h2 : x 1 = 1 - x' 0) :
    Lagrange.Continuity.Meets Lagrange.Continuity.mixedGrid 0 x 1 x' ∧ Lagrange.Continuity.Meets Lagrange.Continuity.mixedGrid 1 x' 0 x := by
  have w0 : ∀ v < 4, Lagrange.Continuity.vertexWeight ⟨2, 4⟩ v x = if v = 1 then x' 0 else if v = 3 then 1 - x' 0 else 0 := by
    intro v hv
    have : v = 0 ∨ v = 1 ∨ v = 2 ∨ v = 3 := by omega
    rcases this with rfl | rfl | rfl | rfl <;>
      simp [Lagrange.Continuity.vertexWeight, Lagrange.Continuity.cubeBw, Fin.prod_univ_two, h0, h2, Nat.testBit]
  have w1 : ∀ v < 3, Lagrange.Continuity.vertexWeight ⟨2, 3⟩ v x' = if v = 1 then x' 0 else if v = 0 then 1 - x' 0 else 0 := by
    intro v hv
    have : v = 0 ∨ v = 1 ∨ v = 2 := by omega
    rcases this with rfl | rfl | rfl <;>
      simp [Lagrange.Continuity.vertexWeight, HDiv.Tangential.bary, Lagrange.Continuity.prismType, Fin.sum_univ_two, h1]
  have k0 : ∀ v < 4, v ∉ Lagrange.Continuity.keyVerts ⟨2, 4⟩ ⟨1, 1, 0⟩ → v ≠ 1 ∧ v ≠ 3 := by decide
  have k1 : ∀ v < 3, v ∉ Lagrange.Continuity.keyVerts ⟨2, 3⟩ ⟨0, 1, 0⟩ → v ≠ 1 ∧ v ≠ 0 := by decide
  have hid : ∀ v < 4, ∀ v' < 3, Lagrange.Continuity.mixedGrid.ids 0 v = Lagrange.Continuity.mixedGrid.ids 1 v' → (v = 1 ∧ v' = 1) ∨ (v = 3 ∧ v' = 0) := by decide
  have hz0 : ∀ v < 4, v ∉ Lagrange.Continuity.keyVerts ⟨2, 4⟩ ⟨1, 1, 0⟩ → Lagrange.Continuity.vertexWeight ⟨2, 4⟩ v x = 0 := by
    intro v hv hm; rw [w0 v hv, if_neg (k0 v hv hm).1, if_neg (k0 v hv hm).2]
  have hz1 : ∀ v < 3, v ∉ Lagrange.Continuity.keyVerts ⟨2, 3⟩ ⟨0, 1, 0⟩ → Lagrange.Continuity.vertexWeight ⟨2, 3⟩ v x' = 0 := by
    intro v hv hm; rw [w1 v hv, if_neg (k1 v hv hm).1, if_neg (k1 v hv hm).2]
  have hs : ∀ v < 4, ∀ v' < 3, Lagrange.Continuity.mixedGrid.ids 0 v = Lagrange.Continuity.mixedGrid.ids 1 v' →
      Lagrange.Continuity.vertexWeight ⟨2, 4⟩ v x = Lagrange.Continuity.vertexWeight ⟨2, 3⟩ v' x' := by
    intro v hv v' hv' h
    rw [w0 v hv, w1 v' hv']
    rcases hid v hv v' hv' h with ⟨rfl, rfl⟩ | ⟨rfl, rfl⟩ <;> simp
  exact ⟨⟨1, 1, 1, 0, by decide, by decide, by decide, by decide, by decide, by decide, hz0, hz1, hs⟩,
    ⟨1, 0, 1, 1, by decide, by decide, by decide, by decide, by decide, by decide, hz1, hz0, fun v hv v' hv' h => (hs v' hv' v hv h.symm).symm⟩⟩

theorem flat_conforming (l : Fin 2) (x : Piola.Vec ℚ 2) (l' : Fin 2) (x' : Piola.Vec ℚ 2) (hx : flatGrid.Inside l x) (hx' : flatGrid.Inside l' x')
    (h : flatGrid.geo l x = flatGrid.geo l' x') : (l = l' ∧ x = x') ∨ Lagrange.Continuity.Meets Lagrange.Continuity.mixedGrid l x l' x' := by
  rw [flat_inside] at hx hx'
  fin_cases l <;> fin_cases l' <;> simp [flatGrid, InReference, Prod.ext_iff] at hx hx' h ⊢
  · left; ext i; fin_cases i <;> simp [h.1, h.2]
  · exact (flat_meets x x' (by linarith) (by linarith) (by linarith)).1
  · exact (flat_meets x' x (by linarith) (by linarith) (by linarith)).2
  · left; ext i; fin_cases i <;> simp <;> linarith

open Lagrange.Continuity in
/-- A quadratic function on the square and the triangle. -/
def quadratic (vec : Nat → ℚ) (e : Fin 2) (x : Piola.Vec ℚ 2) : ℚ :=
  value mixedGrid 2 (fun e => gridKeys mixedGrid 2 (mixedGrid.elemGeo e)) (lagrangeValues 2 (gridKeys mixedGrid 2)) vec e x

open Lagrange.Continuity in
/-- Global evaluation at a point of the triangle, also if it belongs to the square as well. -/
example (vec : Nat → ℚ) (x : Piola.Vec ℚ 2) (hx : InReference 1 x) :
    (GF.other 1 fun _ => quadratic vec).global flatSearch 0 (1 + x 1, 1 - x 0 - x 1) = .ok (quadratic vec 1 x) :=
  C106_lagrange (R := ℚ) (n := 2) mixedGrid_OK mixedGrid_closed mixed_elem (order := 2) (by decide) (fun h => absurd h (by decide))
    (gridKeys_keys mixedGrid_OK 2) vec flat_sound flat_complete id 1 (fun _ => quadratic vec) (fun _ _ => rfl)
    (fun e => by simp [flatSearch]) flat_conforming 1 x ((flat_inside _ _).2 hx)

end Verif.GridFunctions

import Verif.IndexTree.Props
import Mathlib.Tactic.FinCases

/-!
# Bases described in Python

`defaultGlobalBasis(gridView, tree)` turns a description of a basis, built from `Lagrange`, `Nedelec`, `RaviartThomas`,
`Composite`, `Power` and the operators `*` and `**`, into the name of a C++ pre-basis type. The module that is loaded is
identified by that name only.

Source: python/dune/functions/tree.py, python/dune/functions/globalbasis.py, python/dune/functions/__init__.py,
dune/python/functions/globalbasis.hh.
-/

namespace Verif.PyBasis

open Verif.IndexTree

/-! ## Descriptions and names -/

/-- Strings as lists of characters. -/
abbrev Text := List Char

/-- String literals. Irreducible, so that only the kernel evaluates them. -/
@[irreducible] def txt (s : String) : Text := s.toList

/-- The classes of tree.py:6-90. Numbers are Python integers; the arguments of the constructors are stored without any
test. -/
inductive Tree where
  | lagrange (order : Int)
  | dg (order dimRange : Int)
  | nedelec (kind order : Int)
  | raviartThomas (order : Int)
  | composite (children : List Tree) (blocked : Bool) (layout : String)
  | power (child : Tree) (exponent : Int) (blocked : Bool) (layout : String)

/-- `Composite(*args)` with the default keyword arguments (tree.py:63-68); the assertion `len(args) > 0` holds for the
callers below. -/
def Tree.prod (ts : List Tree) : Tree := .composite ts false "lexicographic"

/-- `__mul__`, tree.py:14-15. -/
def Tree.mul (a b : Tree) : Tree := .prod [a, b]

/-- `__pow__`, tree.py:17-18, with the defaults of tree.py:75-84. -/
def Tree.pow (a : Tree) (p : Int) : Tree := .power a p false "lexicographic"

instance : Mul Tree := ⟨Tree.mul⟩
instance : HPow Tree Int Tree := ⟨Tree.pow⟩

/-- Python exceptions: `KeyError` of the dictionary of layouts and the exceptions of globalbasis.py:17 and 30-31. -/
inductive Err where
  | keyError (layout : String)
  | notSupported
  deriving DecidableEq

/-- `str(n)`. -/
def num (n : Int) : Text :=
  if 0 ≤ n then Nat.toDigits 10 n.toNat else '-' :: Nat.toDigits 10 (-n).toNat

/-- `indexMergingStrategy`, globalbasis.py:6-9. -/
def strategyName (blocked : Bool) (layout : String) : Except Err Text :=
  let b := if blocked then txt "Blocked" else txt "Flat"
  let p := txt "Dune::Functions::BasisFactory::"
  if layout = "lexicographic" then .ok (p ++ (b ++ txt "Lexicographic"))
  else if layout = "interleaved" then .ok (p ++ (b ++ txt "Interleaved"))
  else .error (.keyError layout)

/-- `sep.join(l)` -/
def join (sep : Text) : List Text → Text
  | [] => []
  | [a] => a
  | a :: b :: l => a ++ (sep ++ join sep (b :: l))

mutual
/-- `preBasisTypeName`, globalbasis.py:12-31. -/
def typeName (gv : Text) : Tree → Except Err Text
  | .lagrange k => .ok (txt "Dune::Functions::LagrangePreBasis< " ++ (gv ++ (txt " , " ++ (num k ++ txt " >"))))
  | .dg _ _ => .error .notSupported
  | .nedelec kind k =>
    .ok (txt "Dune::Functions::NedelecPreBasis< " ++ (gv ++ (txt ", double, " ++ (num kind
      ++ (txt ", " ++ (num k ++ txt " >"))))))
  | .raviartThomas k =>
    .ok (txt "Dune::Functions::RaviartThomasPreBasis< " ++ (gv ++ (txt ", " ++ (num k ++ txt " >"))))
  | .composite children blocked layout =>
    (strategyName blocked layout).bind fun ims => (typeNames gv children).bind fun cs =>
      .ok (txt "Dune::Functions::CompositePreBasis< " ++ (ims ++ (txt " , "
        ++ (join (txt " , ") cs ++ txt " >"))))
  | .power child exponent blocked layout =>
    (strategyName blocked layout).bind fun ims => (typeName gv child).bind fun c =>
      .ok (txt "Dune::Functions::PowerPreBasis< " ++ (ims ++ (txt " , "
        ++ (c ++ (txt " , " ++ (num exponent ++ txt " >"))))))
def typeNames (gv : Text) : List Tree → Except Err (List Text)
  | [] => .ok []
  | t :: ts => (typeName gv t).bind fun a => (typeNames gv ts).bind fun as => .ok (a :: as)
end

/-- The name of the basis type, globalbasis.py:43, which is the only data in the name of the module
(`"globalbasis_" + hashIt(typeName)`, __init__.py:21-25, the hash is not modelled). -/
def basisName (gv : Text) (t : Tree) : Except Err Text :=
  (typeName gv t).bind fun n => .ok (txt "Dune::Functions::DefaultGlobalBasis< " ++ (n ++ txt " >"))

/-! ## C++ types -/

/-- Pre-basis types of C++ over one grid view type. -/
inductive Cpp where
  | lagrange (k : Int)
  | nedelec (kind order : Int)
  | raviartThomas (k : Int)
  | composite (s : IMS) (subs : List Cpp)
  | power (s : IMS) (sub : Cpp) (c : Int)

/-- The classes of basistags.hh:43-184. -/
def IMS.cppName : IMS → Text
  | .flatLex => txt "Dune::Functions::BasisFactory::FlatLexicographic"
  | .flatInt => txt "Dune::Functions::BasisFactory::FlatInterleaved"
  | .blockedLex => txt "Dune::Functions::BasisFactory::BlockedLexicographic"
  | .blockedInt => txt "Dune::Functions::BasisFactory::BlockedInterleaved"

mutual
/-- How the type is written. -/
def Cpp.text (gv : Text) : Cpp → Text
  | .lagrange k => txt "Dune::Functions::LagrangePreBasis< " ++ (gv ++ (txt " , " ++ (num k ++ txt " >")))
  | .nedelec kind k =>
    txt "Dune::Functions::NedelecPreBasis< " ++ (gv ++ (txt ", double, " ++ (num kind
      ++ (txt ", " ++ (num k ++ txt " >")))))
  | .raviartThomas k =>
    txt "Dune::Functions::RaviartThomasPreBasis< " ++ (gv ++ (txt ", " ++ (num k ++ txt " >")))
  | .composite s subs =>
    txt "Dune::Functions::CompositePreBasis< " ++ (IMS.cppName s ++ (txt " , "
        ++ (join (txt " , ") (Cpp.texts gv subs) ++ txt " >")))
  | .power s sub c =>
    txt "Dune::Functions::PowerPreBasis< " ++ (IMS.cppName s ++ (txt " , "
        ++ (sub.text gv ++ (txt " , " ++ (num c ++ txt " >")))))
def Cpp.texts (gv : Text) : List Cpp → List Text
  | [] => []
  | c :: cs => c.text gv :: Cpp.texts gv cs
end

/-- The documented meaning of the keyword arguments. -/
inductive Strategy : Bool → String → IMS → Prop where
  | flatLex : Strategy false "lexicographic" .flatLex
  | flatInt : Strategy false "interleaved" .flatInt
  | blockedLex : Strategy true "lexicographic" .blockedLex
  | blockedInt : Strategy true "interleaved" .blockedInt

/-- The C++ type that is meant by a description. -/
inductive Means : Tree → Cpp → Prop where
  | lagrange (k) : Means (.lagrange k) (.lagrange k)
  | nedelec (kind k) : Means (.nedelec kind k) (.nedelec kind k)
  | raviartThomas (k) : Means (.raviartThomas k) (.raviartThomas k)
  | composite {b l s ts cs} : Strategy b l s → List.Forall₂ Means ts cs → Means (.composite ts b l) (.composite s cs)
  | power {b l s t c} (p) : Strategy b l s → Means t c → Means (.power t p b l) (.power s c p)

/-! ## The basis of a C++ type -/

/-- The leaf bases. -/
inductive LeafKind where
  | lagrange (k : Int)
  | nedelec (kind order : Int)
  | raviartThomas (k : Int)
  deriving DecidableEq

variable {E : Type}

/-- `CompositePreBasis`: only the two lexicographic strategies have overloads of `size` and `indices`
(compositebasis.hh:184-220, 293-338). -/
def compositeOf : IMS → List (PB E) → Option (PB E)
  | .flatLex, bs => some (.composite false bs)
  | .blockedLex, bs => some (.composite true bs)
  | .flatInt, _ => none
  | .blockedInt, _ => none

mutual
/-- The pre-basis constructed from a grid view for the given type (dune/python/functions/globalbasis.hh:258,
compositebasis.hh:115-121, powerbasis.hh:79-85). `leaf` gives the leaf bases on that grid view, `none` where the class does not
compile or its constructor throws. Powers without children and negative exponents are not accepted. -/
def Cpp.basis (leaf : LeafKind → Option (Leaf E)) : Cpp → Option (PB E)
  | .lagrange k => (leaf (.lagrange k)).map PB.leaf
  | .nedelec kind k => (leaf (.nedelec kind k)).map PB.leaf
  | .raviartThomas k => (leaf (.raviartThomas k)).map PB.leaf
  | .composite s subs =>
    if subs.isEmpty then none else (Cpp.bases leaf subs).bind (compositeOf s)
  | .power s sub c => if 0 < c then (sub.basis leaf).map (PB.power s c.toNat) else none
def Cpp.bases (leaf : LeafKind → Option (Leaf E)) : List Cpp → Option (List (PB E))
  | [] => some []
  | c :: cs => (c.basis leaf).bind fun b => (Cpp.bases leaf cs).bind fun bs => some (b :: bs)
end

/-- `defaultGlobalBasis(gridView, tree)`, globalbasis.py:34-45: the text is compiled. Which type it denotes is decided
by how types are written. -/
def DefaultGlobalBasis (leaf : LeafKind → Option (Leaf E)) (gv : Text) (t : Tree) (b : PB E) : Prop :=
  ∃ (s : Text) (c : Cpp), typeName gv t = .ok s ∧ c.text gv = s ∧ c.basis leaf = some b

/-! ## Range dimension -/

mutual
/-- `nodeRangeDim` of the node of the basis, dune/python/functions/globalbasis.hh:63-77, with `dimRange` of the shape
functions of the leaf bases: 1 for Lagrange bases, the dimension of the domain for the others. -/
def Cpp.rangeDim (dim : Nat) : Cpp → Nat
  | .lagrange _ => 1
  | .nedelec _ _ => dim
  | .raviartThomas _ => dim
  | .composite _ subs => Cpp.rangeDims dim subs
  | .power _ sub c => c.toNat * sub.rangeDim dim
def Cpp.rangeDims (dim : Nat) : List Cpp → Nat
  | [] => 0
  | c :: cs => c.rangeDim dim + Cpp.rangeDims dim cs
end

/-- `asFunction` exists only for leaf and power bases, dune/python/functions/globalbasis.hh:215, 248-250. -/
def Cpp.hasAsFunction : Cpp → Bool
  | .composite _ _ => false
  | _ => true

/-! ## Specification of regrouping -/

/-- The leaf bases of a description from left to right, powers repeated. `opt` restricts the keyword arguments. -/
inductive Factors (opt : Bool → String → Prop) : Tree → List LeafKind → Prop where
  | lagrange (k) : Factors opt (.lagrange k) [.lagrange k]
  | nedelec (kind k) : Factors opt (.nedelec kind k) [.nedelec kind k]
  | raviartThomas (k) : Factors opt (.raviartThomas k) [.raviartThomas k]
  | composite {ts ls b l} : opt b l → ts ≠ [] → List.Forall₂ (Factors opt) ts ls →
      Factors opt (.composite ts b l) ls.flatten
  | power {t ls b l} (p : Nat) : opt b l → 0 < p → Factors opt t ls →
      Factors opt (.power t p b l) (List.replicate p ls).flatten

/-- `*`, `**`, `Composite` and `Power` with the default keyword arguments. -/
def Plain (b : Bool) (l : String) : Prop := b = false ∧ l = "lexicographic"

/-- The indices of a sequence of leaf bases numbered one after the other. -/
def consecutive (e : E) : Nat → List (Leaf E) → List MI
  | _, [] => []
  | k, L :: Ls => (L.loc e).map (fun i => [k + i]) ++ consecutive e (k + L.dim) Ls

/-! ## Names are unambiguous -/

/-- Two texts that start differently. -/
theorem append_absurd {p q x y : Text} (h : p ++ x = q ++ y) (h1 : ¬ p <+: q) (h2 : ¬ q <+: p) : False := by
  have hp : p <+: q ++ y := h ▸ List.prefix_append p x
  rcases List.prefix_or_prefix_of_prefix hp (List.prefix_append q y) with h' | h'
  · exact h1 h'
  · exact h2 h'

theorem toDigits_inj {m n : Nat} (h : Nat.toDigits 10 m = Nat.toDigits 10 n) : m = n := by
  have := congrArg (fun l => Nat.ofDigitChars 10 l 0) h
  simpa [Nat.ofDigitChars_toDigits] using this

/-- Digits followed by something that is not a digit. -/
theorem digits_append {a b x y : Text} {c d : Char} (ha : ∀ z ∈ a, z.isDigit = true) (hb : ∀ z ∈ b, z.isDigit = true)
    (hc : c.isDigit = false) (hd : d.isDigit = false) (h : a ++ c :: x = b ++ d :: y) : a = b ∧ c :: x = d :: y := by
  induction a generalizing b with
  | nil =>
    cases b with
    | nil => exact ⟨rfl, h⟩
    | cons z b =>
      simp only [List.nil_append, List.cons_append, List.cons.injEq] at h
      have := hb z (by simp)
      rw [← h.1, hc] at this; cases this
  | cons w a ih =>
    cases b with
    | nil =>
      simp only [List.nil_append, List.cons_append, List.cons.injEq] at h
      have := ha w (by simp)
      rw [h.1, hd] at this; cases this
    | cons z b =>
      simp only [List.cons_append, List.cons.injEq] at h
      obtain ⟨h1, h2⟩ := ih (fun z hz => ha z (by simp [hz])) (fun z hz => hb z (by simp [hz])) h.2
      exact ⟨by rw [h.1, h1], h2⟩

theorem digit_mem (n : Nat) : ∀ z ∈ Nat.toDigits 10 n, z.isDigit = true :=
  fun _ hz => Nat.isDigit_of_mem_toDigits (by decide) (by decide) hz

theorem num_append {m n : Int} {x y : Text} {c d : Char} (hc : c.isDigit = false) (hd : d.isDigit = false)
    (h : num m ++ c :: x = num n ++ d :: y) : m = n ∧ c :: x = d :: y := by
  have key : ∀ (k : Nat) (z : Text), Nat.toDigits 10 k ++ z ≠ [] := by
    intro k z h0
    exact Nat.toDigits_ne_nil (List.append_eq_nil_iff.mp h0).1
  have neg : ∀ (k l : Nat) (z : Text) (w : Text), Nat.toDigits 10 k ++ z = '-' :: w → False := by
    intro k l z w h0
    cases hk : Nat.toDigits 10 k with
    | nil => exact Nat.toDigits_ne_nil hk
    | cons a as =>
      rw [hk] at h0
      simp only [List.cons_append, List.cons.injEq] at h0
      have := digit_mem k a (by rw [hk]; simp)
      rw [h0.1] at this
      exact absurd this (by decide)
  unfold num at h
  by_cases hm : 0 ≤ m <;> by_cases hn : 0 ≤ n
  · simp only [hm, hn, if_true] at h
    obtain ⟨h1, h2⟩ := digits_append (digit_mem _) (digit_mem _) hc hd h
    have := toDigits_inj h1
    exact ⟨by omega, h2⟩
  · simp only [hm, hn, if_true, if_false, List.cons_append] at h
    exact (neg _ 0 _ _ h).elim
  · simp only [hm, hn, if_true, if_false, List.cons_append] at h
    exact (neg _ 0 _ _ h.symm).elim
  · simp only [hm, hn, if_false, List.cons_append, List.cons.injEq, true_and] at h
    obtain ⟨h1, h2⟩ := digits_append (digit_mem _) (digit_mem _) hc hd h
    have := toDigits_inj h1
    exact ⟨by omega, h2⟩

/-- As `num_append`, with separators given as texts. -/
theorem num_sep {m n : Int} {x y : Text} (sep : Text) {c : Char} {r : Text} (hs : sep = c :: r)
    (hc : c.isDigit = false) (h : num m ++ (sep ++ x) = num n ++ (sep ++ y)) : m = n ∧ x = y := by
  subst hs
  simp only [List.cons_append] at h
  obtain ⟨h1, h2⟩ := num_append hc hc h
  simp only [List.cons.injEq, true_and] at h2
  exact ⟨h1, List.append_cancel_left h2⟩

theorem cppName_append {s s' : IMS} {x y : Text} (h : IMS.cppName s ++ (txt " , " ++ x)
    = IMS.cppName s' ++ (txt " , " ++ y)) : s = s' ∧ x = y := by
  rw [← List.append_assoc, ← List.append_assoc] at h
  by_cases hs : s = s'
  · subst hs
    exact ⟨rfl, List.append_cancel_left h⟩
  · exfalso
    revert h hs
    cases s <;> cases s' <;> intro h hs <;>
      first
        | exact hs rfl
        | exact append_absurd h (by decide +kernel) (by decide +kernel)

/-- The part of the name that depends on the class only. -/
def tagOf : Fin 5 → Text
  | 0 => txt "Dune::Functions::LagrangePreBasis< "
  | 1 => txt "Dune::Functions::NedelecPreBasis< "
  | 2 => txt "Dune::Functions::RaviartThomasPreBasis< "
  | 3 => txt "Dune::Functions::CompositePreBasis< "
  | 4 => txt "Dune::Functions::PowerPreBasis< "

def Cpp.cls : Cpp → Fin 5
  | .lagrange _ => 0
  | .nedelec _ _ => 1
  | .raviartThomas _ => 2
  | .composite _ _ => 3
  | .power _ _ _ => 4

theorem tagOf_prefix : ∀ i j : Fin 5, i ≠ j → ¬ tagOf i <+: tagOf j := by decide +kernel

theorem tagOf_head : ∀ i : Fin 5, tagOf i = 'D' :: (tagOf i).tail := by decide +kernel

theorem text_tag (gv : Text) (c : Cpp) : ∃ r, c.text gv = tagOf c.cls ++ r := by
  cases c with
  | lagrange k => exact ⟨gv ++ (txt " , " ++ (num k ++ txt " >")), by rw [Cpp.text, Cpp.cls, tagOf]⟩
  | nedelec kind k => exact ⟨gv ++ (txt ", double, " ++ (num kind ++ (txt ", " ++ (num k ++ txt " >")))), by
      rw [Cpp.text, Cpp.cls, tagOf]⟩
  | raviartThomas k => exact ⟨gv ++ (txt ", " ++ (num k ++ txt " >")), by rw [Cpp.text, Cpp.cls, tagOf]⟩
  | composite s subs => exact ⟨IMS.cppName s ++ (txt " , " ++ (join (txt " , ") (Cpp.texts gv subs) ++ txt " >")), by
      rw [Cpp.text, Cpp.cls, tagOf]⟩
  | power s sub c => exact ⟨IMS.cppName s ++ (txt " , " ++ (sub.text gv ++ (txt " , " ++ (num c ++ txt " >")))), by
      rw [Cpp.text, Cpp.cls, tagOf]⟩

theorem text_head (gv : Text) (c : Cpp) : ∃ r, c.text gv = 'D' :: r := by
  obtain ⟨r, hr⟩ := text_tag gv c
  rw [tagOf_head] at hr
  exact ⟨_, hr⟩

theorem tag_absurd {gv : Text} {c c' : Cpp} {r r' : Text} (h : c.text gv ++ r = c'.text gv ++ r')
    (h1 : c.cls ≠ c'.cls) : False := by
  obtain ⟨x, hx⟩ := text_tag gv c
  obtain ⟨y, hy⟩ := text_tag gv c'
  rw [hx, hy, List.append_assoc, List.append_assoc] at h
  exact append_absurd h (tagOf_prefix _ _ h1) (tagOf_prefix _ _ (Ne.symm h1))

theorem closing : txt " >" = ' ' :: ['>'] := by decide +kernel
theorem comma : txt ", " = ',' :: [' '] := by decide +kernel
theorem closing_comma : ¬ txt " >" <+: txt " , " := by decide +kernel
theorem comma_closing : ¬ txt " , " <+: txt " >" := by decide +kernel

mutual
theorem text_inj (gv : Text) : ∀ (c c' : Cpp) (r r' : Text), c.text gv ++ r = c'.text gv ++ r' → c = c' ∧ r = r'
  | .lagrange k, c', r, r', h => by
    cases c' with
    | lagrange k' =>
      simp only [Cpp.text, List.append_assoc] at h
      obtain ⟨h1, h2⟩ := num_sep (txt " >") closing (by decide)
        (List.append_cancel_left (List.append_cancel_left (List.append_cancel_left h)))
      exact ⟨by rw [h1], h2⟩
    | _ => exact (tag_absurd h (by simp only [Cpp.cls]; decide)).elim
  | .nedelec kind k, c', r, r', h => by
    cases c' with
    | nedelec kind' k' =>
      simp only [Cpp.text, List.append_assoc] at h
      obtain ⟨h1, h2⟩ := num_sep (txt ", ") comma (by decide)
        (List.append_cancel_left (List.append_cancel_left (List.append_cancel_left h)))
      obtain ⟨h3, h4⟩ := num_sep (txt " >") closing (by decide) h2
      exact ⟨by rw [h1, h3], h4⟩
    | _ => exact (tag_absurd h (by simp only [Cpp.cls]; decide)).elim
  | .raviartThomas k, c', r, r', h => by
    cases c' with
    | raviartThomas k' =>
      simp only [Cpp.text, List.append_assoc] at h
      obtain ⟨h1, h2⟩ := num_sep (txt " >") closing (by decide)
        (List.append_cancel_left (List.append_cancel_left (List.append_cancel_left h)))
      exact ⟨by rw [h1], h2⟩
    | _ => exact (tag_absurd h (by simp only [Cpp.cls]; decide)).elim
  | .composite s subs, c', r, r', h => by
    cases c' with
    | composite s' subs' =>
      simp only [Cpp.text, List.append_assoc] at h
      obtain ⟨h1, h2⟩ := cppName_append (List.append_cancel_left h)
      obtain ⟨h3, h4⟩ := texts_inj gv subs subs' r r' h2
      exact ⟨by rw [h1, h3], h4⟩
    | _ => exact (tag_absurd h (by simp only [Cpp.cls]; decide)).elim
  | .power s sub c, c', r, r', h => by
    cases c' with
    | power s' sub' c' =>
      simp only [Cpp.text, List.append_assoc] at h
      obtain ⟨h1, h2⟩ := cppName_append (List.append_cancel_left h)
      obtain ⟨h3, h4⟩ := text_inj gv sub sub' _ _ h2
      obtain ⟨h5, h6⟩ := num_sep (txt " >") closing (by decide) (List.append_cancel_left h4)
      exact ⟨by rw [h1, h3, h5], h6⟩
    | _ => exact (tag_absurd h (by simp only [Cpp.cls]; decide)).elim
theorem texts_inj (gv : Text) : ∀ (l l' : List Cpp) (r r' : Text),
    join (txt " , ") (Cpp.texts gv l) ++ (txt " >" ++ r) = join (txt " , ") (Cpp.texts gv l') ++ (txt " >" ++ r') →
    l = l' ∧ r = r'
  | [], [], r, r', h => ⟨rfl, List.append_cancel_left h⟩
  | [], c' :: l', r, r', h => by
    obtain ⟨y, hy⟩ := text_head gv c'
    exfalso
    cases l' with
    | nil => simp only [Cpp.texts, join, hy, List.nil_append, List.cons_append] at h; exact absurd h (by rw [closing]; simp)
    | cons d l' =>
      simp only [Cpp.texts, join, hy, List.nil_append, List.cons_append] at h; exact absurd h (by rw [closing]; simp)
  | c :: l, [], r, r', h => by
    obtain ⟨y, hy⟩ := text_head gv c
    exfalso
    cases l with
    | nil => simp only [Cpp.texts, join, hy, List.nil_append, List.cons_append] at h; exact absurd h (by rw [closing]; simp)
    | cons d l =>
      simp only [Cpp.texts, join, hy, List.nil_append, List.cons_append] at h; exact absurd h (by rw [closing]; simp)
  | [c], [c'], r, r', h => by
    simp only [Cpp.texts, join] at h
    obtain ⟨h1, h2⟩ := text_inj gv c c' _ _ h
    exact ⟨by rw [h1], List.append_cancel_left h2⟩
  | [c], c' :: d' :: l', r, r', h => by
    simp only [Cpp.texts, join, List.append_assoc] at h
    obtain ⟨h1, h2⟩ := text_inj gv c c' _ _ h
    exact (append_absurd h2 closing_comma comma_closing).elim
  | c :: d :: l, [c'], r, r', h => by
    simp only [Cpp.texts, join, List.append_assoc] at h
    obtain ⟨h1, h2⟩ := text_inj gv c c' _ _ h
    exact (append_absurd h2 comma_closing closing_comma).elim
  | c :: d :: l, c' :: d' :: l', r, r', h => by
    simp only [Cpp.texts, join, List.append_assoc] at h
    obtain ⟨h1, h2⟩ := text_inj gv c c' _ _ h
    obtain ⟨h3, h4⟩ := texts_inj gv (d :: l) (d' :: l') r r' (by
      simpa only [Cpp.texts] using List.append_cancel_left h2)
    exact ⟨by rw [h1, h3], h4⟩
end

/-! ## Names of descriptions -/

theorem strategyName_iff (b : Bool) (l : String) (n : Text) :
    strategyName b l = .ok n ↔ ∃ s, Strategy b l s ∧ n = IMS.cppName s := by
  constructor
  · intro h
    unfold strategyName at h
    simp only at h
    split at h
    · rename_i hl; subst hl
      cases b
      · exact ⟨.flatLex, .flatLex, by cases h; decide +kernel⟩
      · exact ⟨.blockedLex, .blockedLex, by cases h; decide +kernel⟩
    · split at h
      · rename_i hl; subst hl
        cases b
        · exact ⟨.flatInt, .flatInt, by cases h; decide +kernel⟩
        · exact ⟨.blockedInt, .blockedInt, by cases h; decide +kernel⟩
      · cases h
  · rintro ⟨s, hs, rfl⟩
    cases hs <;> decide +kernel

theorem bind_ok {α β ε : Type} {x : Except ε α} {f : α → Except ε β} {b : β} :
    x.bind f = .ok b ↔ ∃ a, x = .ok a ∧ f a = .ok b := by
  cases x with
  | error e => simp [Except.bind]
  | ok a => simp [Except.bind]

mutual
theorem typeName_iff (gv : Text) : ∀ (t : Tree) (n : Text),
    typeName gv t = .ok n ↔ ∃ c, Means t c ∧ n = c.text gv
  | .lagrange k, n => by
    rw [typeName]
    constructor
    · intro h; cases h; exact ⟨_, .lagrange k, rfl⟩
    · rintro ⟨c, hc, rfl⟩; cases hc; rfl
  | .dg o d, n => by
    rw [typeName]
    constructor
    · intro h; cases h
    · rintro ⟨c, hc, rfl⟩; cases hc
  | .nedelec kind k, n => by
    rw [typeName]
    constructor
    · intro h; cases h; exact ⟨_, .nedelec kind k, rfl⟩
    · rintro ⟨c, hc, rfl⟩; cases hc; rfl
  | .raviartThomas k, n => by
    rw [typeName]
    constructor
    · intro h; cases h; exact ⟨_, .raviartThomas k, rfl⟩
    · rintro ⟨c, hc, rfl⟩; cases hc; rfl
  | .composite ts b l, n => by
    rw [typeName, bind_ok]
    constructor
    · rintro ⟨ims, h1, h2⟩
      obtain ⟨s, hs, rfl⟩ := (strategyName_iff b l ims).mp h1
      obtain ⟨ns, h3, h4⟩ := bind_ok.mp h2
      obtain ⟨cs, hcs, rfl⟩ := (typeNames_iff gv ts ns).mp h3
      exact ⟨_, .composite hs hcs, by rw [Cpp.text]; cases h4; rfl⟩
    · rintro ⟨c, hc, rfl⟩
      cases hc with
      | composite hs hcs =>
        exact ⟨_, (strategyName_iff b l _).mpr ⟨_, hs, rfl⟩,
          bind_ok.mpr ⟨_, (typeNames_iff gv ts _).mpr ⟨_, hcs, rfl⟩, by rw [Cpp.text]⟩⟩
  | .power t p b l, n => by
    rw [typeName, bind_ok]
    constructor
    · rintro ⟨ims, h1, h2⟩
      obtain ⟨s, hs, rfl⟩ := (strategyName_iff b l ims).mp h1
      obtain ⟨ns, h3, h4⟩ := bind_ok.mp h2
      obtain ⟨cs, hcs, rfl⟩ := (typeName_iff gv t ns).mp h3
      exact ⟨_, .power p hs hcs, by rw [Cpp.text]; cases h4; rfl⟩
    · rintro ⟨c, hc, rfl⟩
      cases hc with
      | power _ hs hcs =>
        exact ⟨_, (strategyName_iff b l _).mpr ⟨_, hs, rfl⟩,
          bind_ok.mpr ⟨_, (typeName_iff gv t _).mpr ⟨_, hcs, rfl⟩, by rw [Cpp.text]⟩⟩
theorem typeNames_iff (gv : Text) : ∀ (ts : List Tree) (ns : List Text),
    typeNames gv ts = .ok ns ↔ ∃ cs, List.Forall₂ Means ts cs ∧ ns = Cpp.texts gv cs
  | [], ns => by
    rw [typeNames]
    constructor
    · intro h; cases h; exact ⟨[], .nil, rfl⟩
    · rintro ⟨c, hc, rfl⟩; cases hc; rfl
  | t :: ts, ns => by
    rw [typeNames, bind_ok]
    constructor
    · rintro ⟨a, h1, h2⟩
      obtain ⟨as, h3, h4⟩ := bind_ok.mp h2
      obtain ⟨c, hc, rfl⟩ := (typeName_iff gv t a).mp h1
      obtain ⟨cs, hcs, rfl⟩ := (typeNames_iff gv ts as).mp h3
      exact ⟨c :: cs, .cons hc hcs, by rw [Cpp.texts]; cases h4; rfl⟩
    · rintro ⟨_, h, rfl⟩
      cases h with
      | cons hc hcs =>
        exact ⟨_, (typeName_iff gv t _).mpr ⟨_, hc, rfl⟩,
          bind_ok.mpr ⟨_, (typeNames_iff gv ts _).mpr ⟨_, hcs, rfl⟩, by rw [Cpp.texts]⟩⟩
end

theorem Strategy.unique {b : Bool} {l : String} {s : IMS} {b' : Bool} {l' : String} (h : Strategy b l s)
    (h' : Strategy b' l' s) : b = b' ∧ l = l' := by
  cases h <;> cases h' <;> exact ⟨rfl, rfl⟩

mutual
theorem means_inj : ∀ (c : Cpp) (t t' : Tree), Means t c → Means t' c → t = t'
  | .lagrange _, _, _, h, h' => by cases h; cases h'; rfl
  | .nedelec _ _, _, _, h, h' => by cases h; cases h'; rfl
  | .raviartThomas _, _, _, h, h' => by cases h; cases h'; rfl
  | .composite s cs, _, _, h, h' => by
    cases h with
    | composite hs hcs =>
      cases h' with
      | composite hs' hcs' =>
        obtain ⟨rfl, rfl⟩ := hs.unique hs'
        rw [means_injL cs _ _ hcs hcs']
  | .power s c p, _, _, h, h' => by
    cases h with
    | power _ hs hc =>
      cases h' with
      | power _ hs' hc' =>
        obtain ⟨rfl, rfl⟩ := hs.unique hs'
        rw [means_inj c _ _ hc hc']
theorem means_injL : ∀ (cs : List Cpp) (ts ts' : List Tree), List.Forall₂ Means ts cs →
    List.Forall₂ Means ts' cs → ts = ts'
  | [], _, _, h, h' => by cases h; cases h'; rfl
  | c :: cs, _, _, h, h' => by
    cases h with
    | cons hc hcs =>
      cases h' with
      | cons hc' hcs' => rw [means_inj c _ _ hc hc', means_injL cs _ _ hcs hcs']
end

/-- **C82** (names). A description has a name exactly if it means a C++ type, the name is how that type is written, and no
other type is written in this way. -/
theorem C82_typeName (gv : Text) (t : Tree) (n : Text) :
    typeName gv t = .ok n ↔ ∃ c, Means t c ∧ n = c.text gv ∧ ∀ c' : Cpp, c'.text gv = n → c' = c := by
  rw [typeName_iff]
  constructor
  · rintro ⟨c, hc, rfl⟩
    refine ⟨c, hc, rfl, fun c' h => ?_⟩
    exact (text_inj gv c' c [] [] (by simpa using h)).1
  · rintro ⟨c, hc, hn, -⟩; exact ⟨c, hc, hn⟩

/-- **C82** (modules). Two descriptions for the same grid view type that are served by the same module are equal. -/
theorem C82_module (gv : Text) (t t' : Tree) (n : Text) (h : basisName gv t = .ok n) (h' : basisName gv t' = .ok n) :
    t = t' := by
  obtain ⟨a, ha, h1⟩ := bind_ok.mp h
  obtain ⟨b, hb, h2⟩ := bind_ok.mp h'
  have h3 : a = b := by
    have := Except.ok.inj (h1.trans h2.symm)
    exact List.append_cancel_right (List.append_cancel_left this)
  subst h3
  obtain ⟨c, hc, rfl⟩ := (typeName_iff gv t a).mp ha
  obtain ⟨d, hd, he⟩ := (typeName_iff gv t' _).mp hb
  obtain ⟨rfl, -⟩ := text_inj gv c d [] [] (by simpa using he)
  exact means_inj c t t' hc hd

/-! ## The basis of a description -/

theorem defaultGlobalBasis_iff {leaf : LeafKind → Option (Leaf E)} {gv : Text} {t : Tree} {b : PB E} :
    DefaultGlobalBasis leaf gv t b ↔ ∃ c, Means t c ∧ c.basis leaf = some b := by
  constructor
  · rintro ⟨n, c, h1, h2, h3⟩
    obtain ⟨d, hd, rfl⟩ := (typeName_iff gv t n).mp h1
    obtain ⟨rfl, -⟩ := text_inj gv c d [] [] (by simpa using h2)
    exact ⟨c, hd, h3⟩
  · rintro ⟨c, h1, h2⟩
    exact ⟨_, c, (typeName_iff gv t _).mpr ⟨c, h1, rfl⟩, rfl, h2⟩

theorem bases_iff {leaf : LeafKind → Option (Leaf E)} : ∀ {cs : List Cpp} {bs : List (PB E)},
    Cpp.bases leaf cs = some bs ↔ List.Forall₂ (fun (c : Cpp) b => c.basis leaf = some b) cs bs
  | [], bs => by
    rw [Cpp.bases]
    constructor
    · intro h; cases h; exact .nil
    · intro h; cases h; rfl
  | c :: cs, bs => by
    rw [Cpp.bases]
    simp only [Option.bind_eq_some_iff]
    constructor
    · rintro ⟨b, hb, bs', hbs, h⟩
      cases h
      exact .cons hb (bases_iff.mp hbs)
    · intro h
      cases h with
      | cons hb hbs => exact ⟨_, hb, _, bases_iff.mpr hbs, rfl⟩

theorem forall₂_comp {α β γ : Type} {R : α → β → Prop} {S : β → γ → Prop} {l : List α} {n : List γ} :
    List.Forall₂ (fun a c => ∃ b, R a b ∧ S b c) l n ↔ ∃ m, List.Forall₂ R l m ∧ List.Forall₂ S m n := by
  constructor
  · intro h
    induction h with
    | nil => exact ⟨[], .nil, .nil⟩
    | cons h _ ih =>
      obtain ⟨b, h1, h2⟩ := h
      obtain ⟨m, h3, h4⟩ := ih
      exact ⟨b :: m, .cons h1 h3, .cons h2 h4⟩
  · rintro ⟨m, h1, h2⟩
    induction h1 generalizing n with
    | nil => cases h2; exact .nil
    | cons h _ ih =>
      cases h2 with
      | cons h3 h4 => exact .cons ⟨_, h, h3⟩ (ih h4)

/-- **C82** (`Composite`). The call succeeds exactly for the lexicographic layout and if it succeeds for all children;
the result is the composite basis of the children's bases, blocked as demanded. -/
theorem C82_composite (leaf : LeafKind → Option (Leaf E)) (gv : Text) (ts : List Tree) (blocked : Bool) (layout : String)
    (b : PB E) :
    DefaultGlobalBasis leaf gv (.composite ts blocked layout) b ↔
      layout = "lexicographic" ∧ ts ≠ [] ∧
        ∃ bs, List.Forall₂ (DefaultGlobalBasis leaf gv) ts bs ∧ b = .composite blocked bs := by
  have hall : ∀ bs, List.Forall₂ (DefaultGlobalBasis leaf gv) ts bs ↔
      ∃ cs, List.Forall₂ Means ts cs ∧ Cpp.bases leaf cs = some bs := by
    intro bs
    simp only [bases_iff]
    rw [← forall₂_comp]
    simp only [← defaultGlobalBasis_iff (gv := gv)]
  rw [defaultGlobalBasis_iff]
  constructor
  · rintro ⟨c, hc, hb⟩
    cases hc with
    | @composite _ _ s _ cs hs hcs =>
      rw [Cpp.basis] at hb
      have hne : cs ≠ [] := by rintro rfl; simp at hb
      have hne' : ts ≠ [] := by rintro rfl; cases hcs; exact hne rfl
      have he : cs.isEmpty = false := by cases cs with
        | nil => exact absurd rfl hne
        | cons => rfl
      rw [he] at hb
      simp only [Bool.false_eq_true, if_false, Option.bind_eq_some_iff] at hb
      obtain ⟨bs, hbs, hb⟩ := hb
      cases hs with
      | flatLex => cases hb; exact ⟨rfl, hne', bs, (hall bs).mpr ⟨cs, hcs, hbs⟩, rfl⟩
      | blockedLex => cases hb; exact ⟨rfl, hne', bs, (hall bs).mpr ⟨cs, hcs, hbs⟩, rfl⟩
      | flatInt => cases hb
      | blockedInt => cases hb
  · rintro ⟨rfl, hne, bs, hbs, rfl⟩
    obtain ⟨cs, hcs, h⟩ := (hall bs).mp hbs
    have he : cs.isEmpty = false := by
      cases hcs with
      | nil => exact absurd rfl hne
      | cons => rfl
    cases blocked with
    | false => exact ⟨_, .composite .flatLex hcs, by rw [Cpp.basis, he, h]; rfl⟩
    | true => exact ⟨_, .composite .blockedLex hcs, by rw [Cpp.basis, he, h]; rfl⟩

/-- **C82** (`Power`). The call succeeds exactly for positive exponents and the two layouts, if it succeeds for the
child; the result is the power basis with the documented strategy. -/
theorem C82_power (leaf : LeafKind → Option (Leaf E)) (gv : Text) (t : Tree) (p : Int) (blocked : Bool)
    (layout : String) (b : PB E) :
    DefaultGlobalBasis leaf gv (.power t p blocked layout) b ↔
      0 < p ∧ ∃ s b', Strategy blocked layout s ∧ DefaultGlobalBasis leaf gv t b' ∧ b = .power s p.toNat b' := by
  rw [defaultGlobalBasis_iff]
  constructor
  · rintro ⟨c, hc, hb⟩
    cases hc with
    | @power _ _ s _ c _ hs hc =>
      rw [Cpp.basis] at hb
      split at hb
      · obtain ⟨b', hb', rfl⟩ := Option.map_eq_some_iff.mp hb
        exact ⟨by assumption, s, b', hs, defaultGlobalBasis_iff.mpr ⟨c, hc, hb'⟩, rfl⟩
      · cases hb
  · rintro ⟨hp, s, b', hs, hb', rfl⟩
    obtain ⟨c, hc, h⟩ := defaultGlobalBasis_iff.mp hb'
    exact ⟨_, .power p hs hc, by rw [Cpp.basis, if_pos hp, h]; rfl⟩

mutual
theorem basis_WF {leaf : LeafKind → Option (Leaf E)} (hleaf : ∀ k L, leaf k = some L → (PB.leaf L).WF) :
    ∀ (c : Cpp) (b : PB E), c.basis leaf = some b → b.WF
  | .lagrange k, b, h => by
    rw [Cpp.basis] at h
    obtain ⟨L, hL, rfl⟩ := Option.map_eq_some_iff.mp h
    exact hleaf _ _ hL
  | .nedelec kind k, b, h => by
    rw [Cpp.basis] at h
    obtain ⟨L, hL, rfl⟩ := Option.map_eq_some_iff.mp h
    exact hleaf _ _ hL
  | .raviartThomas k, b, h => by
    rw [Cpp.basis] at h
    obtain ⟨L, hL, rfl⟩ := Option.map_eq_some_iff.mp h
    exact hleaf _ _ hL
  | .composite s cs, b, h => by
    rw [Cpp.basis] at h
    split at h
    · cases h
    · rename_i he
      obtain ⟨bs, hbs, hb⟩ := Option.bind_eq_some_iff.mp h
      have hne : bs ≠ [] := by
        rintro rfl
        cases bases_iff.mp hbs
        exact he rfl
      cases s with
      | flatLex => cases hb; rw [PB.WF]; exact ⟨hne, bases_WF hleaf cs bs hbs⟩
      | blockedLex => cases hb; rw [PB.WF]; exact ⟨hne, bases_WF hleaf cs bs hbs⟩
      | flatInt => cases hb
      | blockedInt => cases hb
  | .power s c p, b, h => by
    rw [Cpp.basis] at h
    split at h
    · obtain ⟨b', hb', rfl⟩ := Option.map_eq_some_iff.mp h
      rw [PB.WF]
      exact ⟨by omega, basis_WF hleaf c b' hb'⟩
    · cases h
theorem bases_WF {leaf : LeafKind → Option (Leaf E)} (hleaf : ∀ k L, leaf k = some L → (PB.leaf L).WF) :
    ∀ (cs : List Cpp) (bs : List (PB E)), Cpp.bases leaf cs = some bs → PB.WFs bs
  | [], bs, h => by rw [Cpp.bases] at h; cases h; exact trivial
  | c :: cs, bs, h => by
    rw [Cpp.bases] at h
    obtain ⟨b, hb, h⟩ := Option.bind_eq_some_iff.mp h
    obtain ⟨bs', hbs, h⟩ := Option.bind_eq_some_iff.mp h
    cases h
    rw [PB.WFs]
    exact ⟨basis_WF hleaf c b hb, bases_WF hleaf cs bs' hbs⟩
end

/-- **C82** (index properties). Every basis obtained from a description is one of the basis trees for which C01-C14 hold. -/
theorem C82_wellFormed (leaf : LeafKind → Option (Leaf E)) (hleaf : ∀ k L, leaf k = some L → (PB.leaf L).WF)
    (gv : Text) (t : Tree) (b : PB E) (h : DefaultGlobalBasis leaf gv t b) : b.WF := by
  obtain ⟨c, -, hc⟩ := defaultGlobalBasis_iff.mp h
  exact basis_WF hleaf c b hc

/-! ## Products can be regrouped -/

theorem consecutive_append (e : E) (k : Nat) (Ls Ms : List (Leaf E)) :
    consecutive e k (Ls ++ Ms) = consecutive e k Ls ++ consecutive e (k + (Ls.map (·.dim)).sum) Ms := by
  induction Ls generalizing k with
  | nil => simp [consecutive]
  | cons L Ls ih =>
    simp only [List.cons_append, consecutive, ih, List.append_assoc, List.map_cons, List.sum_cons, Nat.add_assoc]

theorem consecutive_shift (e : E) (k j : Nat) (Ls : List (Leaf E)) :
    (consecutive e k Ls).map (onFirst (· + j)) = consecutive e (k + j) Ls := by
  induction Ls generalizing k with
  | nil => rfl
  | cons L Ls ih =>
    simp only [consecutive, List.map_append, ih, List.map_map]
    congr 1
    · refine List.map_congr_left fun i _ => ?_
      simp only [Function.comp, onFirst]
      congr 1; omega
    · congr 1; omega

/-- What is needed about the basis of a product. -/
structure IsProduct (b : PB E) (Ls : List (Leaf E)) : Prop where
  out : ∀ e, (b.spec.loc e).map b.spec.mi = consecutive e 0 Ls
  root : b.spec.root = (Ls.map (·.dim)).sum
  dim : b.model.dimension = (Ls.map (·.dim)).sum

theorem isProduct_leaf (L : Leaf E) : IsProduct (.leaf L) [L] where
  out := by
    intro e
    simp [PB.spec, specLeaf, consecutive]
  root := by simp [PB.spec, specLeaf]
  dim := by simp [PB.model, leafPB]

theorem compList_product (e : E) {bs : List (PB E)} {Lss : List (List (Leaf E))} (h : List.Forall₂ IsProduct bs Lss)
    (k : Nat) : compList false e k (PB.specs bs) = consecutive e k Lss.flatten := by
  induction h generalizing k with
  | nil => rfl
  | cons h1 _ ih =>
    rw [PB.specs, compList]
    simp only [Bool.false_eq_true, if_false, List.flatten_cons, consecutive_append, ih]
    congr 1
    · rw [← Nat.zero_add k, ← consecutive_shift, ← h1.out e, List.map_map, Nat.zero_add]
      rfl
    · rw [h1.root]

theorem isProduct_composite {bs : List (PB E)} {Lss : List (List (Leaf E))} (h : List.Forall₂ IsProduct bs Lss) :
    IsProduct (.composite false bs) Lss.flatten where
  out := by
    intro e
    have hc := compList_eq false e (PB.specs bs) (PB.specs bs) 0 (by simp)
    simp only [Bool.false_eq_true, if_false, offs, List.take_zero, List.map_nil, List.sum_nil] at hc
    rw [PB.spec]
    have : (specComposite false (PB.specs bs)).loc e = tagged 0 ((PB.specs bs).map (·.loc e)) := rfl
    rw [this, ← hc, compList_product e h]
  root := by
    rw [PB.spec]
    simp only [specComposite, Bool.false_eq_true, if_false]
    induction h with
    | nil => rfl
    | cons h1 _ ih => rw [PB.specs]; simp [ih, h1.root]
  dim := by
    rw [PB.model]
    simp only [compositePB]
    induction h with
    | nil => rfl
    | cons h1 _ ih => rw [PB.models]; simp [ih, h1.dim]

theorem sum_replicate_map {α : Type} (f : α → Nat) (p : Nat) (l : List α) :
    ((List.replicate p l).flatten.map f).sum = p * (l.map f).sum := by
  induction p with
  | zero => simp
  | succ p ih =>
    rw [List.replicate_succ, List.flatten_cons, List.map_append, List.sum_append, ih, Nat.succ_mul, Nat.add_comm]

theorem isProduct_power {b : PB E} {Ls : List (Leaf E)} (h : IsProduct b Ls) (p : Nat) :
    IsProduct (.power .flatLex p b) (List.replicate p Ls).flatten where
  out := by
    intro e
    rw [PB.spec]
    have hloc : (specPower .flatLex p b.spec).loc e
        = (List.range p).flatMap fun k => (b.spec.loc e).map (k :: ·) := rfl
    rw [hloc, List.map_flatMap]
    have hk : ∀ k, ((b.spec.loc e).map (k :: ·)).map (specPower .flatLex p b.spec).mi
        = consecutive e (k * (Ls.map (·.dim)).sum) Ls := by
      intro k
      rw [← Nat.zero_add (k * _), ← consecutive_shift, ← h.out e, ← h.root, List.map_map, List.map_map]
      rfl
    simp only [hk]
    induction p with
    | zero => simp [consecutive]
    | succ p ih =>
      rw [List.range_succ, List.flatMap_append, List.replicate_succ', List.flatten_append, consecutive_append,
        sum_replicate_map]
      congr 1
      · exact ih rfl (by assumption)
      · simp
  root := by
    rw [sum_replicate_map, PB.spec]
    simp only [specPower, h.root]
  dim := by
    rw [sum_replicate_map, PB.model]
    simp only [powerPB, h.dim, Nat.mul_comm]

/-- The leaf basis of each factor. -/
def Leaves (leaf : LeafKind → Option (Leaf E)) (ks : List LeafKind) (Ls : List (Leaf E)) : Prop :=
  List.Forall₂ (fun k L => leaf k = some L) ks Ls

theorem Leaves.append {leaf : LeafKind → Option (Leaf E)} {ks ks' : List LeafKind} {Ls Ls' : List (Leaf E)}
    (h : Leaves leaf ks Ls) (h' : Leaves leaf ks' Ls') : Leaves leaf (ks ++ ks') (Ls ++ Ls') := by
  unfold Leaves at *
  induction h with
  | nil => exact h'
  | cons h1 _ ih => exact .cons h1 ih

theorem Leaves.replicate {leaf : LeafKind → Option (Leaf E)} {ks : List LeafKind} {Ls : List (Leaf E)}
    (h : Leaves leaf ks Ls) (p : Nat) : Leaves leaf (List.replicate p ks).flatten (List.replicate p Ls).flatten := by
  induction p with
  | zero => exact .nil
  | succ p ih => exact h.append ih

theorem Leaves.unique {leaf : LeafKind → Option (Leaf E)} {ks : List LeafKind} {Ls Ls' : List (Leaf E)}
    (h : Leaves leaf ks Ls) (h' : Leaves leaf ks Ls') : Ls = Ls' := by
  unfold Leaves at *
  induction h generalizing Ls' with
  | nil => cases h'; rfl
  | cons h1 _ ih =>
    cases h' with
    | cons h2 h3 =>
      rw [h1] at h2
      cases h2
      rw [ih h3]

theorem Strategy.plain {b : Bool} {l : String} {s : IMS} (h : Strategy b l s) (hp : Plain b l) : s = .flatLex := by
  obtain ⟨hb, hl⟩ := hp
  cases h with
  | flatLex => rfl
  | flatInt => exact absurd hl (by decide)
  | blockedLex => cases hb
  | blockedInt => cases hb

mutual
theorem product_of (leaf : LeafKind → Option (Leaf E)) (gv : Text) : ∀ (t : Tree) (ks : List LeafKind) (b : PB E),
    Factors Plain t ks → DefaultGlobalBasis leaf gv t b → ∃ Ls, Leaves leaf ks Ls ∧ IsProduct b Ls
  | .lagrange k, ks, b, hf, hb => by
    cases hf
    obtain ⟨c, hc, h⟩ := defaultGlobalBasis_iff.mp hb
    cases hc
    rw [Cpp.basis] at h
    obtain ⟨L, hL, rfl⟩ := Option.map_eq_some_iff.mp h
    exact ⟨[L], .cons hL .nil, isProduct_leaf L⟩
  | .dg o d, ks, b, hf, hb => by cases hf
  | .nedelec kind k, ks, b, hf, hb => by
    cases hf
    obtain ⟨c, hc, h⟩ := defaultGlobalBasis_iff.mp hb
    cases hc
    rw [Cpp.basis] at h
    obtain ⟨L, hL, rfl⟩ := Option.map_eq_some_iff.mp h
    exact ⟨[L], .cons hL .nil, isProduct_leaf L⟩
  | .raviartThomas k, ks, b, hf, hb => by
    cases hf
    obtain ⟨c, hc, h⟩ := defaultGlobalBasis_iff.mp hb
    cases hc
    rw [Cpp.basis] at h
    obtain ⟨L, hL, rfl⟩ := Option.map_eq_some_iff.mp h
    exact ⟨[L], .cons hL .nil, isProduct_leaf L⟩
  | .composite ts bl l, ks, b, hf, hb => by
    obtain ⟨-, -, bs, hbs, rfl⟩ := (C82_composite leaf gv ts bl l b).mp hb
    cases hf with
    | composite ho _ hts =>
      obtain ⟨rfl, -⟩ := ho
      obtain ⟨Lss, h1, h2⟩ := products_of leaf gv ts _ bs hts hbs
      exact ⟨_, h1, isProduct_composite h2⟩
  | .power t p bl l, ks, b, hf, hb => by
    obtain ⟨hp, s, b', hs, hb', rfl⟩ := (C82_power leaf gv t p bl l b).mp hb
    cases hf with
    | power q ho _ ht =>
      rw [hs.plain ho]
      obtain ⟨Ls, h1, h2⟩ := product_of leaf gv t _ b' ht hb'
      exact ⟨_, h1.replicate q, by simpa using isProduct_power h2 q⟩
theorem products_of (leaf : LeafKind → Option (Leaf E)) (gv : Text) : ∀ (ts : List Tree) (kss : List (List LeafKind))
    (bs : List (PB E)), List.Forall₂ (Factors Plain) ts kss → List.Forall₂ (DefaultGlobalBasis leaf gv) ts bs →
    ∃ Lss, Leaves leaf kss.flatten Lss.flatten ∧ List.Forall₂ IsProduct bs Lss
  | [], kss, bs, hf, hb => by cases hf; cases hb; exact ⟨[], .nil, .nil⟩
  | t :: ts, kss, bs, hf, hb => by
    cases hf with
    | cons hf1 hf2 =>
      cases hb with
      | cons hb1 hb2 =>
        obtain ⟨Ls, h1, h2⟩ := product_of leaf gv t _ _ hf1 hb1
        obtain ⟨Lss, h3, h4⟩ := products_of leaf gv ts _ _ hf2 hb2
        exact ⟨Ls :: Lss, h1.append h3, .cons h2 h4⟩
end

/-- **C82** (products). A product written with `*`, `**` and plain `Composite` and `Power`, in any grouping, numbers the
functions of its factors one after the other: on every element the indices are those of the factors in their order, each
shifted by the dimensions of the factors before it. -/
theorem C82_product (leaf : LeafKind → Option (Leaf E)) (hleaf : ∀ k L, leaf k = some L → (PB.leaf L).WF) (gv : Text)
    (t : Tree) (ks : List LeafKind) (hf : Factors Plain t ks) (b : PB E) (hb : DefaultGlobalBasis leaf gv t b) :
    ∃ Ls, Leaves leaf ks Ls ∧ b.model.dimension = (Ls.map (·.dim)).sum ∧
      b.model.size [] = some (Ls.map (·.dim)).sum ∧ ∀ e, localIndices b.model e = some (consecutive e 0 Ls) := by
  obtain ⟨Ls, h1, h2⟩ := product_of leaf gv t ks b hf hb
  have R := b.refines (C82_wellFormed leaf hleaf gv t b hb)
  refine ⟨Ls, h1, h2.dim, ?_, fun e => ?_⟩
  · rw [R.root, h2.root]
  · rw [localIndices_eq R e, h2.out e]

/-- **C82** (regrouping). Two products with the same factors in the same order have the same dimension, size and
indices. -/
theorem C82_regroup (leaf : LeafKind → Option (Leaf E)) (hleaf : ∀ k L, leaf k = some L → (PB.leaf L).WF) (gv : Text)
    (t t' : Tree) (ks : List LeafKind) (hf : Factors Plain t ks) (hf' : Factors Plain t' ks) (b b' : PB E)
    (hb : DefaultGlobalBasis leaf gv t b) (hb' : DefaultGlobalBasis leaf gv t' b') :
    b.model.dimension = b'.model.dimension ∧ b.model.size [] = b'.model.size [] ∧
      ∀ e, localIndices b.model e = localIndices b'.model e := by
  obtain ⟨Ls, h1, h2, h3, h4⟩ := C82_product leaf hleaf gv t ks hf b hb
  obtain ⟨Ls', h1', h2', h3', h4'⟩ := C82_product leaf hleaf gv t' ks hf' b' hb'
  have := h1.unique h1'
  subst this
  exact ⟨h2.trans h2'.symm, h3.trans h3'.symm, fun e => (h4 e).trans (h4' e).symm⟩

mutual
theorem exists_basis (leaf : LeafKind → Option (Leaf E)) (gv : Text) : ∀ (t : Tree) (ks : List LeafKind),
    Factors Plain t ks → (∀ k ∈ ks, leaf k ≠ none) → ∃ b, DefaultGlobalBasis leaf gv t b
  | .lagrange k, ks, hf, hk => by
    cases hf
    obtain ⟨L, hL⟩ := Option.ne_none_iff_exists'.mp (hk (.lagrange k) (by simp))
    exact ⟨.leaf L, defaultGlobalBasis_iff.mpr ⟨_, .lagrange k, by rw [Cpp.basis, hL]; rfl⟩⟩
  | .dg o d, ks, hf, hk => by cases hf
  | .nedelec kind k, ks, hf, hk => by
    cases hf
    obtain ⟨L, hL⟩ := Option.ne_none_iff_exists'.mp (hk (.nedelec kind k) (by simp))
    exact ⟨.leaf L, defaultGlobalBasis_iff.mpr ⟨_, .nedelec kind k, by rw [Cpp.basis, hL]; rfl⟩⟩
  | .raviartThomas k, ks, hf, hk => by
    cases hf
    obtain ⟨L, hL⟩ := Option.ne_none_iff_exists'.mp (hk (.raviartThomas k) (by simp))
    exact ⟨.leaf L, defaultGlobalBasis_iff.mpr ⟨_, .raviartThomas k, by rw [Cpp.basis, hL]; rfl⟩⟩
  | .composite ts bl l, ks, hf, hk => by
    cases hf with
    | composite ho hne hts =>
      obtain ⟨bs, hbs⟩ := exists_bases leaf gv ts _ hts hk
      exact ⟨_, (C82_composite leaf gv ts bl l _).mpr ⟨ho.2, hne, bs, hbs, rfl⟩⟩
  | .power t p bl l, ks, hf, hk => by
    cases hf with
    | power q ho hq ht =>
      obtain ⟨rfl, rfl⟩ := ho
      obtain ⟨b, hb⟩ := exists_basis leaf gv t _ ht (fun k hk' => hk k (by
        obtain ⟨q, rfl⟩ : ∃ r, q = r + 1 := ⟨q - 1, by omega⟩
        simp [List.replicate_succ, hk']))
      exact ⟨_, (C82_power leaf gv t q false "lexicographic" _).mpr ⟨by omega, .flatLex, b, .flatLex, hb, rfl⟩⟩
theorem exists_bases (leaf : LeafKind → Option (Leaf E)) (gv : Text) : ∀ (ts : List Tree) (kss : List (List LeafKind)),
    List.Forall₂ (Factors Plain) ts kss → (∀ k ∈ kss.flatten, leaf k ≠ none) →
    ∃ bs, List.Forall₂ (DefaultGlobalBasis leaf gv) ts bs
  | [], kss, hf, hk => ⟨[], .nil⟩
  | t :: ts, kss, hf, hk => by
    cases hf with
    | cons hf1 hf2 =>
      obtain ⟨b, hb⟩ := exists_basis leaf gv t _ hf1 (fun k hk' => hk k (by simp [hk']))
      obtain ⟨bs, hbs⟩ := exists_bases leaf gv ts _ hf2 (fun k hk' => hk k (by
        rw [List.flatten_cons]; exact List.mem_append_right _ hk'))
      exact ⟨b :: bs, .cons hb hbs⟩
end

/-- **C82** (existence). A product has a basis exactly if all its factors have one on the given grid view. -/
theorem C82_exists (leaf : LeafKind → Option (Leaf E)) (gv : Text) (t : Tree) (ks : List LeafKind)
    (hf : Factors Plain t ks) :
    (∃ b, DefaultGlobalBasis leaf gv t b) ↔ ∀ k ∈ ks, ∃ L, leaf k = some L := by
  constructor
  · rintro ⟨b, hb⟩
    obtain ⟨Ls, h1, -⟩ := product_of leaf gv t ks b hf hb
    unfold Leaves at h1
    clear hf
    induction h1 with
    | nil => intro k hk; cases hk
    | cons h _ ih =>
      intro k hk
      rcases List.mem_cons.mp hk with rfl | hk
      · exact ⟨_, h⟩
      · exact ih k hk
  · intro h
    exact exists_basis leaf gv t ks hf (fun k hk => by obtain ⟨L, hL⟩ := h k hk; simp [hL])

/-! ## Range dimension -/

/-- Number of components of the shape functions. -/
def LeafKind.components (dim : Nat) : LeafKind → Nat
  | .lagrange _ => 1
  | .nedelec _ _ => dim
  | .raviartThomas _ => dim

mutual
theorem rangeDim_of (dim : Nat) (opt : Bool → String → Prop) : ∀ (t : Tree) (ks : List LeafKind) (c : Cpp),
    Factors opt t ks → Means t c → c.rangeDim dim = (ks.map (LeafKind.components dim)).sum
  | .lagrange _, _, _, hf, hc => by cases hf; cases hc; simp [Cpp.rangeDim, LeafKind.components]
  | .dg _ _, _, _, hf, _ => by cases hf
  | .nedelec _ _, _, _, hf, hc => by cases hf; cases hc; simp [Cpp.rangeDim, LeafKind.components]
  | .raviartThomas _, _, _, hf, hc => by cases hf; cases hc; simp [Cpp.rangeDim, LeafKind.components]
  | .composite ts _ _, _, _, hf, hc => by
    cases hf with
    | composite _ _ hts =>
      cases hc with
      | composite _ hcs => rw [Cpp.rangeDim]; exact rangeDims_of dim opt ts _ _ hts hcs
  | .power t _ _ _, _, _, hf, hc => by
    cases hf with
    | power q _ _ ht =>
      cases hc with
      | power _ _ hc =>
        rw [Cpp.rangeDim, rangeDim_of dim opt t _ _ ht hc, Int.toNat_natCast]
        rw [sum_replicate_map]
theorem rangeDims_of (dim : Nat) (opt : Bool → String → Prop) : ∀ (ts : List Tree) (kss : List (List LeafKind))
    (cs : List Cpp), List.Forall₂ (Factors opt) ts kss → List.Forall₂ Means ts cs →
    Cpp.rangeDims dim cs = (kss.flatten.map (LeafKind.components dim)).sum
  | [], _, _, hf, hc => by cases hf; cases hc; rfl
  | t :: ts, _, _, hf, hc => by
    cases hf with
    | cons hf1 hf2 =>
      cases hc with
      | cons hc1 hc2 =>
        rw [Cpp.rangeDims, rangeDim_of dim opt t _ _ hf1 hc1, rangeDims_of dim opt ts _ _ hf2 hc2, List.flatten_cons,
          List.map_append, List.sum_append]
end

/-- **C82** (range). The range dimension of functions of a basis is the number of components of all its factors, for
all merging strategies. -/
theorem C82_rangeDim (dim : Nat) (t : Tree) (ks : List LeafKind) (hf : Factors (fun _ _ => True) t ks) (c : Cpp)
    (hc : Means t c) : c.rangeDim dim = (ks.map (LeafKind.components dim)).sum :=
  rangeDim_of dim _ t ks c hf hc

/-! ## What is not true -/

/-- Full statement: every description built with documented keyword arguments gives a basis. `Composite` with
`layout="interleaved"` has a type name but never a basis, whatever the children. -/
theorem C82_interleaved_false :
    (∀ (gv : Text) (ts : List Tree) (blocked : Bool) (ns : List Text), typeNames gv ts = .ok ns →
      ∃ n, typeName gv (.composite ts blocked "interleaved") = .ok n) ∧
    ∀ (E : Type) (leaf : LeafKind → Option (Leaf E)) (gv : Text) (ts : List Tree) (blocked : Bool) (b : PB E),
      ¬ DefaultGlobalBasis leaf gv (.composite ts blocked "interleaved") b := by
  constructor
  · intro gv ts blocked ns h
    obtain ⟨cs, hcs, -⟩ := (typeNames_iff gv ts ns).mp h
    cases blocked with
    | false => exact ⟨_, (typeName_iff gv _ _).mpr ⟨_, .composite .flatInt hcs, rfl⟩⟩
    | true => exact ⟨_, (typeName_iff gv _ _).mpr ⟨_, .composite .blockedInt hcs, rfl⟩⟩
  · intro E leaf gv ts blocked b h
    exact absurd ((C82_composite leaf gv ts blocked "interleaved" b).mp h).1 (by decide)

/-- `DG` is part of the interface but never has a name. -/
theorem C82_dg_false (gv : Text) (order dimRange : Int) : typeName gv (.dg order dimRange) = .error .notSupported := rfl

/-- Full statement: descriptions with the same indices offer the same methods. `L * L` and `L ** 2` have the same
indices, but only the second basis has `asFunction`. -/
theorem C82_asFunction_false (k : Int) : ∃ (t t' : Tree) (ks : List LeafKind) (c c' : Cpp),
    t = Tree.lagrange k * Tree.lagrange k ∧ t' = Tree.lagrange k ^ (2 : Int) ∧
    Factors Plain t ks ∧ Factors Plain t' ks ∧ Means t c ∧ Means t' c' ∧
    c.hasAsFunction = false ∧ c'.hasAsFunction = true := by
  refine ⟨_, _, [.lagrange k, .lagrange k], .composite .flatLex [.lagrange k, .lagrange k],
    .power .flatLex (.lagrange k) 2, rfl, rfl, ?_, ?_, ?_, ?_, rfl, rfl⟩
  · exact .composite (ls := [[.lagrange k], [.lagrange k]]) ⟨rfl, rfl⟩ (by simp)
      (.cons (.lagrange k) (.cons (.lagrange k) .nil))
  · exact .power (ls := [.lagrange k]) 2 ⟨rfl, rfl⟩ (by decide) (.lagrange k)
  · exact .composite .flatLex (.cons (.lagrange k) (.cons (.lagrange k) .nil))
  · exact .power 2 .flatLex (.lagrange k)

/-! ## Examples -/

/-- Two Lagrange bases on the two elements of `exLeaf`. -/
def exPyLeaf : LeafKind → Option (Leaf Bool)
  | .lagrange 1 => some exLeaf
  | .lagrange 2 => some exLeaf2
  | _ => none

theorem exPyLeaf_WF : ∀ k L, exPyLeaf k = some L → (PB.leaf L).WF := by
  intro k L h
  unfold exPyLeaf at h
  split at h
  · cases h; simp [PB.WF, exLeaf]
  · cases h; simp [PB.WF, exLeaf2]
  · cases h

/-- `(L1 * L2) * L1` -/
def exA : Tree := (Tree.lagrange 1 * Tree.lagrange 2) * Tree.lagrange 1
/-- `L1 * (L2 * L1)` -/
def exB : Tree := Tree.lagrange 1 * (Tree.lagrange 2 * Tree.lagrange 1)

theorem exA_factors : Factors Plain exA [.lagrange 1, .lagrange 2, .lagrange 1] :=
  .composite (ls := [[.lagrange 1, .lagrange 2], [.lagrange 1]]) ⟨rfl, rfl⟩ (by simp)
    (.cons (.composite (ls := [[.lagrange 1], [.lagrange 2]]) ⟨rfl, rfl⟩ (by simp)
      (.cons (.lagrange 1) (.cons (.lagrange 2) .nil))) (.cons (.lagrange 1) .nil))

theorem exB_factors : Factors Plain exB [.lagrange 1, .lagrange 2, .lagrange 1] :=
  .composite (ls := [[.lagrange 1], [.lagrange 2, .lagrange 1]]) ⟨rfl, rfl⟩ (by simp)
    (.cons (.lagrange 1) (.cons (.composite (ls := [[.lagrange 2], [.lagrange 1]]) ⟨rfl, rfl⟩ (by simp)
      (.cons (.lagrange 2) (.cons (.lagrange 1) .nil))) .nil))

example : ∃ b b', DefaultGlobalBasis exPyLeaf [] exA b ∧ DefaultGlobalBasis exPyLeaf [] exB b' ∧
    b.model.dimension = b'.model.dimension ∧ ∀ e, localIndices b.model e = localIndices b'.model e := by
  obtain ⟨b, hb⟩ := (C82_exists exPyLeaf [] exA _ exA_factors).mpr (by
    intro k hk; fin_cases hk <;> exact ⟨_, rfl⟩)
  obtain ⟨b', hb'⟩ := (C82_exists exPyLeaf [] exB _ exB_factors).mpr (by
    intro k hk; fin_cases hk <;> exact ⟨_, rfl⟩)
  have h := C82_regroup exPyLeaf exPyLeaf_WF [] exA exB _ exA_factors exB_factors b b' hb hb'
  exact ⟨b, b', hb, hb', h.1, h.2.2⟩
example : localIndices (PB.composite false [.composite false [.leaf exLeaf, .leaf exLeaf2], .leaf exLeaf]).model true
    = some [[0], [1], [3], [4], [5], [6]] := by decide +kernel
example : consecutive true 0 [exLeaf, exLeaf2, exLeaf] = [[0], [1], [3], [4], [5], [6]] := by decide +kernel
example : typeName (txt "GV") (Tree.lagrange 2 ^ (3 : Int)) = .ok (txt ("Dune::Functions::PowerPreBasis< "
    ++ "Dune::Functions::BasisFactory::FlatLexicographic , Dune::Functions::LagrangePreBasis< GV , 2 > , 3 >")) := by
  decide +kernel
example : typeName (txt "GV") (.composite [.nedelec 1 1, .raviartThomas (-1)] true "lexicographic")
    = .ok (txt ("Dune::Functions::CompositePreBasis< Dune::Functions::BasisFactory::BlockedLexicographic , "
      ++ "Dune::Functions::NedelecPreBasis< GV, double, 1, 1 > , Dune::Functions::RaviartThomasPreBasis< GV, -1 > >")) := by
  decide +kernel
example : typeName (txt "GV") (.power (.lagrange 1) 2 false "blocked") = .error (.keyError "blocked") := by decide +kernel
example := C82_rangeDim 3 (.composite [.lagrange 1, .power (.nedelec 1 1) 2 true "interleaved"] true "lexicographic")
  [.lagrange 1, .nedelec 1 1, .nedelec 1 1]
  (.composite (ls := [[.lagrange 1], [.nedelec 1 1, .nedelec 1 1]]) trivial (by simp) (.cons (.lagrange 1)
    (.cons (.power (ls := [.nedelec 1 1]) 2 trivial (by decide) (.nedelec 1 1)) .nil)))
example : (Cpp.composite .blockedLex [.lagrange 1, .power .blockedInt (.nedelec 1 1) 2]).rangeDim 3 = 7 := by decide +kernel

end Verif.PyBasis

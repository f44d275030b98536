import Mathlib.Algebra.Order.Field.Basic
import Mathlib.Data.List.Nodup

/-!
# Model of the B-spline basis (bsplinebasis.hh)

Coordinates and values live in an ordered field `K`: floating point numbers are modelled by exact arithmetic, infinities
and not-a-number by `none`. Unsigned counters are natural numbers (no overflow of the total dimension).
-/

namespace Verif.BSpline

variable {K : Type} [Field K] [LinearOrder K]

/-- Entries of `order_` and `knotVectors_` for one coordinate direction, bsplinebasis.hh:1217-1220. -/
structure Dir (K : Type) where
  order : Nat
  knots : List K

/-- `knotVectors_[i].size()`. -/
def Dir.n (d : Dir K) : Nat := d.knots.length

/-- `knotVectors_[i][j]`; all reads of the model have `j < size()` where the value matters. -/
def Dir.t (d : Dir K) (j : Nat) : K := d.knots.getD j 0

/-- `makeOpen` part of the constructors, bsplinebasis.hh:608-622, 660-674. -/
def openKnots (order : Nat) (makeOpen : Bool) (knots : List K) : List K :=
  (if makeOpen then List.replicate order (knots.headD 0) else []) ++ knots ++
    (if makeOpen then List.replicate order (knots.getLastD 0) else [])

/-- Knots of the uniform constructor, bsplinebasis.hh:666-668. -/
def uniformKnots (lower upper : K) (elements : Nat) : List K :=
  (List.range (elements + 1)).map fun (j : Nat) => lower + (j : K) * (upper - lower) / (elements : K)

/-! ## Multi digit numbers -/

/-- `MultiDigitCounter::operator++`, bsplinebasis.hh:526-539. -/
def counterNext : List Nat → List Nat → List Nat
  | l :: ls, c :: cs => if c + 1 < l then (c + 1) :: cs else 0 :: counterNext ls cs
  | _, _ => []

/-- State of a `MultiDigitCounter` after `k` increments, bsplinebasis.hh:520-524. -/
def counterAt (limits : List Nat) : Nat → List Nat
  | 0 => limits.map fun _ => 0
  | k + 1 => counterNext limits (counterAt limits k)

/-- `getIJK`, bsplinebasis.hh:993-1002, and `multiindex`, bsplinebasis.hh:187-196. -/
def getIJK : Nat → List Nat → List Nat
  | _, [] => []
  | idx, l :: ls => (idx % l) :: getIJK (idx / l) ls

/-- Flat index from a tuple, bsplinebasis.hh:735-739: `globalIJK[dim-1]`, then `idx*size(i)+globalIJK[i]` for
`i = dim-2,…,0`. -/
def flatIndex : List Nat → List Nat → Nat
  | [], _ => 0
  | [g], _ => g
  | _ :: _, [] => 0
  | g :: gs, s :: ss => flatIndex gs ss * s + g

/-! ## Elements and knot spans -/

/-- `while (knots[s+1] < knots[s]+1e-8) s++`, bsplinebasis.hh:408-409, 416-417; `none`: read past the end. -/
def skip (d : Dir K) : Nat → Nat → Option Nat
  | 0, _ => none
  | fuel + 1, s =>
    if s + 1 < d.n then
      if d.t (s + 1) < d.t s + 1 / 10 ^ 8 then skip d fuel (s + 1) else some s
    else none

/-- `currentKnotSpan_[i]` after `bind(elementIdx)`, bsplinebasis.hh:405-418. -/
def spanOf (d : Dir K) : Nat → Option Nat
  | 0 => skip d (d.n + 1) 0
  | e + 1 => (spanOf d e).bind fun s => skip d (d.n + 1) (s + 1)

/-- `BSplineLocalFiniteElement::size(int)`, bsplinebasis.hh:470-479; the same code at 805-809, 933-937, 1018-1022 and
1121-1125. -/
def localSize (d : Dir K) (s : Nat) : Nat :=
  let r := d.order + 1
  let r := if s < d.order then r - (d.order - s) else r
  if d.order > d.n - s - 2 then r - (d.order - (d.n - s - 2)) else r

/-- `size(d)`, bsplinebasis.hh:756-759. -/
def dirSize (d : Dir K) : Nat := d.n - d.order - 1

/-- `max((int)currentKnotSpan - (int)order, 0)`, bsplinebasis.hh:733, 814-815, 1053, 1129. -/
def firstIndex (d : Dir K) (s : Nat) : Nat := s - d.order

/-- `dimension()`, bsplinebasis.hh:747-753. -/
def dimension (ds : List (Dir K)) : Nat := ds.foldl (fun r d => r * dirSize d) 1

/-- `maxNodeSize()`, bsplinebasis.hh:707-713. -/
def maxNodeSize (ds : List (Dir K)) : Nat := ds.foldl (fun r d => r * (d.order + 1)) 1

/-- `BSplineLocalFiniteElement::size()`, bsplinebasis.hh:452-458. -/
def elementSize (ds : List (Dir K)) (ss : List Nat) : Nat :=
  (List.zipWith localSize ds ss).foldl (fun r n => r * n) 1

/-- `indices(node,it)`, bsplinebasis.hh:717-744, for a node bound to the knot spans `ss`. -/
def indices (ds : List (Dir K)) (ss : List Nat) : List Nat :=
  (List.range (elementSize ds ss)).map fun i =>
    flatIndex (List.zipWith (· + ·) (List.zipWith firstIndex ds ss) (getIJK i (List.zipWith localSize ds ss)))
      (ds.map dirSize)

/-- Knot spans of an element: `getIJK(elementIndex, elements_)`, then `bind`; bsplinebasis.hh:1255-1260. -/
def elementSpans (ds : List (Dir K)) (elements : List Nat) (idx : Nat) : Option (List Nat) :=
  (List.zipWith spanOf ds (getIJK idx elements)).foldr (fun a b => a.bind fun s => b.map (s :: ·)) (some [])

/-! ## Function values and derivatives in one direction -/

/-- The array `N` of `evaluateFunction` and `evaluateFunctionFull`, bsplinebasis.hh:1025-1046, 1078-1099; entries that are
not written are zero. -/
def tableN (d : Dir K) (span : Nat) (x : K) : Nat → Nat → K
  | 0, i => if i = span then 1 else 0
  | r + 1, i =>
    if i < d.n - (r + 1) - 1 then
      let factor1 := if d.t (i + (r + 1)) - d.t i > 1 / 10 ^ 10 then (x - d.t i) / (d.t (i + (r + 1)) - d.t i) else 0
      let factor2 := if d.t (i + (r + 1) + 1) - d.t (i + 1) > 1 / 10 ^ 10 then
        (d.t (i + (r + 1) + 1) - x) / (d.t (i + (r + 1) + 1) - d.t (i + 1)) else 0
      factor1 * tableN d span x r i + factor2 * tableN d span x r (i + 1)
    else 0

/-- `evaluateFunction` in one direction, bsplinebasis.hh:1012-1055. -/
def values1 (d : Dir K) (span : Nat) (x : K) : List K :=
  (List.range (localSize d span)).map fun i => tableN d span x d.order (firstIndex d span + i)

/-- Floating point division followed by `if (std::isnan(a)) a = 0`: `0/0` becomes `0`, division of something
else by zero is infinite (`none`). -/
def nanDiv (a b : K) : Option K :=
  if b = 0 then (if a = 0 then some 0 else none) else some (a / b)

/-- First derivatives, bsplinebasis.hh:847-870 (`evaluateJacobian`) and 1160-1182 (`evaluateAll`). -/
def derivs1 (d : Dir K) (span : Nat) (x : K) : List (Option K) :=
  (List.range (localSize d span)).map fun k =>
    if d.order = 0 then some 0
    else
      let j := firstIndex d span + k
      (nanDiv (tableN d span x (d.order - 1) j) (d.t (j + d.order) - d.t j)).bind fun a1 =>
      (nanDiv (tableN d span x (d.order - 1) (j + 1)) (d.t (j + d.order + 1) - d.t (j + 1))).bind fun a2 =>
      some ((d.order : K) * (a1 - a2))

/-- `a / b / c` followed by the `isnan` test: not-a-number propagates through the second division. -/
def nanDiv2 (a b c : K) : Option K :=
  if b = 0 then (if a = 0 then some 0 else none) else nanDiv (a / b) c

/-- Second derivatives, bsplinebasis.hh:1184-1212. -/
def seconds1 (d : Dir K) (span : Nat) (x : K) : List (Option K) :=
  (List.range (localSize d span)).map fun k =>
    if d.order < 2 then some 0
    else
      let j := firstIndex d span + k
      let p := d.order
      let low := tableN d span x (p - 2)
      (nanDiv2 (low j) (d.t (j + p) - d.t j) (d.t (j + p - 1) - d.t j)).bind fun a1 =>
      (nanDiv2 (low (j + 1)) (d.t (j + p) - d.t j) (d.t (j + p) - d.t (j + 1))).bind fun a2 =>
      (nanDiv2 (low (j + 1)) (d.t (j + p + 1) - d.t (j + 1)) (d.t (j + p) - d.t (j + 1))).bind fun a3 =>
      (nanDiv2 (low (j + 2)) (d.t (j + p + 1) - d.t (j + 1)) (d.t (j + 1 + p) - d.t (j + 2))).bind fun a4 =>
      some ((p : K) * ((p : K) - 1) * (a1 - a2 - a3 + a4))

/-! ## Tensor products -/

/-- Loop over a `MultiDigitCounter`, multiplying one factor per direction: bsplinebasis.hh:775-788, 883-891, 944-985;
`none` if some factor is infinite. -/
def tensor (factors : List (List (Option K))) : List (Option K) :=
  let limits := factors.map List.length
  (List.range (limits.foldl (fun r n => r * n) 1)).map fun i =>
    (List.zipWith (fun (f : List (Option K)) c => f.getD c none) factors (counterAt limits i)).foldl
      (fun r f => r.bind fun a => f.map fun b => a * b) (some 1)

/-- `offset_ + scaling_*in` in one direction, bsplinebasis.hh:79-80, 422-423. -/
def toGlobal (d : Dir K) (s : Nat) (x : K) : K := d.t s + (d.t (s + 1) - d.t s) * x

/-- How often a direction is differentiated. -/
def factor (d : Dir K) (s : Nat) (x : K) : Nat → List (Option K)
  | 0 => (values1 d s x).map some
  | 1 => derivs1 d s x
  | _ => seconds1 d s x

/-- Arguments for direction `j`: direction data, knot span, coordinate. -/
abbrev Arg (K : Type) := Dir K × Nat × K

/-- `BSplineLocalBasis::evaluateFunction`, bsplinebasis.hh:76-83 and 765-789. -/
def evalValues (args : List (Arg K)) : List (Option K) :=
  tensor (args.map fun a => factor a.1 a.2.1 (toGlobal a.1 a.2.1 a.2.2) 0)

/-- Factors of the product rule: `cnt j` derivatives in direction `j`. -/
def tensorDer (cnt : Nat → Nat) (args : List (Arg K)) : List (Option K) :=
  tensor (args.mapIdx fun j a => factor a.1 a.2.1 (toGlobal a.1 a.2.1 a.2.2) (cnt j))

/-- `scaling_[j][j]`. -/
def scaling (args : List (Arg K)) (j : Nat) : K :=
  match args[j]? with
  | some a => a.1.t (a.2.1 + 1) - a.1.t a.2.1
  | none => 0

/-- Column `j` of `BSplineLocalBasis::evaluateJacobian`, bsplinebasis.hh:89-100 and 796-893; the same value as
`evaluate<1>({j},…)`, 114-125, 953-963. -/
def evalJacobian (args : List (Arg K)) (j : Nat) : List (Option K) :=
  (tensorDer (fun k => if j = k then 1 else 0) args).map fun v => v.map (· * scaling args j)

/-- `evaluate<2>({d0,d1},…)`, bsplinebasis.hh:126-137, 965-985. -/
def evalSecond (args : List (Arg K)) (d0 d1 : Nat) : List (Option K) :=
  (tensorDer (fun j => if d0 ≠ d1 then (if d0 = j ∨ d1 = j then 1 else 0) else (if d0 = j then 2 else 0)) args).map
    fun v => v.map (· * (scaling args d0 * scaling args d1))

/-! ## Local keys -/

/-- `codim[i]`, bsplinebasis.hh:269-280. -/
def keyCodim (sizes : List Nat) (i : Nat) : Nat :=
  (List.zipWith (fun m n => if m = 0 ∨ m = n - 1 then 1 else 0) (getIJK i sizes) sizes).sum

/-- `index[i]`, bsplinebasis.hh:287-299: loop `j = dim-1,…,0`. -/
def keyIndex (sizes : List Nat) (i : Nat) : Nat :=
  (List.zip (getIJK i sizes) sizes).foldr
    (fun ms idx => if 0 < ms.1 ∧ ms.1 < ms.2 - 1 then (ms.2 - 1) * idx + (ms.1 - 1) else idx) 0

/-- `setup1d`, bsplinebasis.hh:199-218. -/
def setup1d (n : Nat) : List Nat :=
  if n = 1 then [0] else 0 :: (List.replicate (n - 2) 0 ++ [1])

/-- `setup2d`, bsplinebasis.hh:220-259. -/
def setup2d (n m : Nat) : List Nat :=
  (0 :: (List.replicate (n - 2) 2 ++ [1])) ++
  (List.range (m - 2)).flatMap (fun _ => 0 :: (List.replicate (n - 2) 0 ++ [1])) ++
  (2 :: (List.replicate (n - 2) 3 ++ [3]))

/-- `subEntity`, bsplinebasis.hh:302-315. -/
def keySubEntity (sizes : List Nat) : List Nat :=
  let zero := List.replicate (sizes.foldl (fun r n => r * n) 1) 0
  match sizes with
  | [n] => if 0 < n then setup1d n else zero
  | [n, m] => if 1 < n ∧ 1 < m then setup2d n m else zero
  | _ => zero

/-- `LocalKey(subEntity[i], codim[i], index[i])`, bsplinebasis.hh:318-319. -/
def localKeys (sizes : List Nat) : List (Nat × Nat × Nat) :=
  (List.range (sizes.foldl (fun r n => r * n) 1)).map fun i =>
    ((keySubEntity sizes).getD i 0, keyCodim sizes i, keyIndex sizes i)

end Verif.BSpline

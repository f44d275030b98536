import Mathlib.Analysis.SpecialFunctions.Trigonometric.Deriv
import Mathlib.Analysis.Calculus.IteratedDeriv.Defs

/-!
# Trigonometric functions

Model of `dune/functions/analyticfunctions/trigonometricfunction.hh` over the real numbers: `std::sin` and `std::cos` are
the exact functions, the `int` factors do not overflow.
-/

namespace Verif.Analytic

/-- The template parameters of `TrigonometricFunction<K, sinFactor, cosFactor>` (trigonometricfunction.hh:30-31). -/
structure Trig where
  sinFactor : Int
  cosFactor : Int
  deriving DecidableEq

/-- trigonometricfunction.hh:35-38 `operator()`. -/
noncomputable def Trig.call (f : Trig) (x : ℝ) : ℝ := f.sinFactor * Real.sin x + f.cosFactor * Real.cos x

/-- trigonometricfunction.hh:42-46 `derivative`. -/
def Trig.derivative (f : Trig) : Trig := ⟨-f.cosFactor, f.sinFactor⟩

theorem Trig.hasDerivAt (f : Trig) (x : ℝ) : HasDerivAt f.call (f.derivative.call x) x := by
  have h := ((Real.hasDerivAt_sin x).const_mul (f.sinFactor : ℝ)).add ((Real.hasDerivAt_cos x).const_mul (f.cosFactor : ℝ))
  have e : f.derivative.call x = f.sinFactor * Real.cos x + f.cosFactor * -Real.sin x := by
    simp [Trig.derivative, Trig.call]; ring
  rw [e]
  exact h

/-- **C55.** For all factors, all points and every order `n`: applying `derivative()` `n` times gives an object which
evaluates to the `n`-th derivative of `x ↦ sinFactor·sin x + cosFactor·cos x`; each derivative object is differentiable
everywhere with the next one as derivative. -/
theorem C55 (f : Trig) (n : Nat) (x : ℝ) :
    (Trig.derivative^[n] f).call x
      = iteratedDeriv n (fun t : ℝ => (f.sinFactor : ℝ) * Real.sin t + (f.cosFactor : ℝ) * Real.cos t) x ∧
    HasDerivAt (Trig.derivative^[n] f).call ((Trig.derivative^[n + 1] f).call x) x := by
  constructor
  · suffices h : ∀ n, iteratedDeriv n f.call = (Trig.derivative^[n] f).call by
      exact (congrFun (h n) x).symm
    intro n
    induction n with
    | zero => simp
    | succ n ih =>
      funext y
      rw [iteratedDeriv_succ, ih, Function.iterate_succ_apply']
      exact ((Trig.derivative^[n] f).hasDerivAt y).deriv
  · rw [Function.iterate_succ_apply']
    exact (Trig.derivative^[n] f).hasDerivAt x

/-- **C55, period.** Four derivatives give an object of the same type. -/
theorem C55_period (f : Trig) : Trig.derivative^[4] f = f := by
  simp [Trig.derivative]

example : Trig.derivative^[3] ⟨2, 5⟩ = ⟨5, -2⟩ := by decide
example : (Trig.mk 2 5).derivative.call 0 = 2 := by simp [Trig.derivative, Trig.call]

end Verif.Analytic

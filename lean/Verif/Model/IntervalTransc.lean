import Verif.Model.IntervalLib
import Mathlib.Analysis.SpecialFunctions.Arcosh
import Mathlib.Analysis.SpecialFunctions.Artanh
import Mathlib.Analysis.SpecialFunctions.Arsinh
import Mathlib.Analysis.SpecialFunctions.Trigonometric.Inverse
import Mathlib.Analysis.SpecialFunctions.Trigonometric.Arctan
/-
The transcendental functions of the interval library (eo/contrib/boost/numeric/interval/transc.hpp 27-227,
constants.hpp 23-81, rounded_transc.hpp 21-140), over the reals.

`fd`, `fu`: the function of the C library rounded downwards and upwards, on floating-point numbers (also on infinities).
-/
namespace Paradiseo.IvLib

open Fl

/-- exp, atan, sinh, tanh, asinh (transc.hpp 27-35, 147-165, 182-200). -/
noncomputable def mono (fd fu : Fl ℝ → Fl ℝ) (x : Iv ℝ) : Iv ℝ := if empty x then none else ⟨fd x.lo, fu x.up⟩

/-- log (transc.hpp 37-49). -/
noncomputable def ilog (fd fu : Fl ℝ → Fl ℝ) (x : Iv ℝ) : Iv ℝ :=
  if empty x || !isPos x.up then none else ⟨if !isPos x.lo then .ninf else fd x.lo, fu x.up⟩

/-- The constants (constants.hpp 28-33, 35-54): enclosures of π, π/2, 2π. -/
structure PiC where
  pl : ℝ
  pu : ℝ
  hl : ℝ
  hu : ℝ
  tl : ℝ
  tu : ℝ

/-- pi, pi_half, pi_twice (constants.hpp 58-81). -/
def PiC.pi (c : PiC) : Iv ℝ := ⟨.fin c.pl, .fin c.pu⟩
def PiC.half (c : PiC) : Iv ℝ := ⟨.fin c.hl, .fin c.hu⟩
def PiC.twice (c : PiC) : Iv ℝ := ⟨.fin c.tl, .fin c.tu⟩

/-- The interval from minus one to one. -/
def unit : Iv ℝ := ⟨.fin (-1), .fin 1⟩

/-- cos (transc.hpp 51-78); `none` when more than `k` calls are nested. -/
noncomputable def icos (r : Rnd ℝ) (c : PiC) (fd fu : Fl ℝ → Fl ℝ) : Nat → Iv ℝ → Option (Iv ℝ)
  | 0, _ => .none
  | k + 1, x =>
    if empty x then some none
    else
      let tmp := fmod r x c.twice
      if le (.fin c.tl) (width r tmp) then some unit
      else if le (.fin c.pu) tmp.lo then (icos r c fd fu k (sub r tmp c.pi)).map opp
      else if le tmp.up (.fin c.pl) then some ⟨fd tmp.up, fu tmp.lo⟩
      else if le tmp.up (.fin c.tl) then some ⟨.fin (-1), fu (Fl.min (Fl.sub r.dn (.fin c.tl) tmp.up) tmp.lo)⟩
      else some unit

/-- sin (transc.hpp 80-91). -/
noncomputable def isin (r : Rnd ℝ) (c : PiC) (fd fu : Fl ℝ → Fl ℝ) (k : Nat) (x : Iv ℝ) : Option (Iv ℝ) :=
  if empty x then some none else icos r c fd fu k (sub r x c.half)

/-- tan (transc.hpp 93-111). -/
noncomputable def itan (r : Rnd ℝ) (c : PiC) (fd fu : Fl ℝ → Fl ℝ) (x : Iv ℝ) : Iv ℝ :=
  if empty x then none
  else
    let tmp := fmod r x c.pi
    let tmp := if le (.fin c.hl) tmp.lo then sub r tmp c.pi else tmp
    if le tmp.lo (.fin (-c.hl)) || le (.fin c.hl) tmp.up then whole else ⟨fd tmp.lo, fu tmp.up⟩

/-- asin (transc.hpp 113-128). -/
noncomputable def iasin (c : PiC) (fd fu : Fl ℝ → Fl ℝ) (x : Iv ℝ) : Iv ℝ :=
  if empty x || lt x.up (.fin (-1)) || lt (.fin 1) x.lo then none
  else ⟨if le x.lo (.fin (-1)) then .fin (-c.hu) else fd x.lo, if le (.fin 1) x.up then .fin c.hu else fu x.up⟩

/-- acos (transc.hpp 130-145). -/
noncomputable def iacos (c : PiC) (fd fu : Fl ℝ → Fl ℝ) (x : Iv ℝ) : Iv ℝ :=
  if empty x || lt x.up (.fin (-1)) || lt (.fin 1) x.lo then none
  else ⟨if le (.fin 1) x.up then .fin 0 else fd x.up, if le x.lo (.fin (-1)) then .fin c.pu else fu x.lo⟩

/-- cosh (transc.hpp 167-180). -/
noncomputable def icosh (fd fu : Fl ℝ → Fl ℝ) (x : Iv ℝ) : Iv ℝ :=
  if empty x then none
  else if isNeg x.up then ⟨fd x.up, fu x.lo⟩
  else if !isNeg x.lo then ⟨fd x.lo, fu x.up⟩
  else ⟨.fin 0, fu (if lt x.up (neg x.lo) then x.lo else x.up)⟩

/-- acosh (transc.hpp 202-211). -/
noncomputable def iacosh (fd fu : Fl ℝ → Fl ℝ) (x : Iv ℝ) : Iv ℝ :=
  if empty x || lt x.up (.fin 1) then none else ⟨if le x.lo (.fin 1) then .fin 0 else fd x.lo, fu x.up⟩

/-- atanh (transc.hpp 213-227). -/
noncomputable def iatanh (fd fu : Fl ℝ → Fl ℝ) (x : Iv ℝ) : Iv ℝ :=
  if empty x || lt x.up (.fin (-1)) || lt (.fin 1) x.lo then none
  else ⟨if le x.lo (.fin (-1)) then .ninf else fd x.lo, if le (.fin 1) x.up then .pinf else fu x.up⟩

end Paradiseo.IvLib

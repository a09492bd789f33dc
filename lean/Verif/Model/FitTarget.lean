import Verif.Model.LSParts
/-
mo/src/continuator/moFitContinuator.h: a local search stops when a fitness is reached.
-/
namespace Paradiseo.LS

/-- `moFitContinuator::operator()` (continuator/moFitContinuator.h:55-57); `init` is that of moContinuator and does nothing. -/
def fitTarget {S F : Type} [LinearOrder F] (maxFit : F) : ContStep Unit (S × F) :=
  fun k sol => (decide (sol.2 < maxFit), k)

end Paradiseo.LS

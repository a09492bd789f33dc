import Verif.Model.Exceptions
import Verif.Props.ExternalEval
/-
C317: what the exceptions tell a handler.
-/
namespace Paradiseo.Exceptions

open Paradiseo.State

/-- The classes whose message is made from the arguments of the constructor when it is asked for. -/
def Composed : Exc → Prop
  | .popSize _ _ | .popSizeChange _ _ _ | .maxTime _ | .maxEval _ | .missingParam _ | .wrongParamType _ | .system _ _
  | .file _ => True
  | _ => False

theorem append_ne {a b : Text} (h : a ≠ []) : a ++ b ≠ [] := by
  cases a with
  | nil => exact absurd rfl h
  | cons x l => simp

/-- A handler of std::exception, which has only `what()`, gets the empty text from the classes that compose their message,
although `message()` of the same object is not empty; for all other classes the two agree. -/
theorem C317_what (e : Exc) :
    (Composed e → e.what = [] ∧ e.message ≠ []) ∧ (¬ Composed e → e.what = e.message) := by
  refine ⟨fun h => ?_, fun h => ?_⟩
  · cases e <;> simp only [Composed] at h <;>
      exact ⟨rfl, by
        simp only [Exc.message, List.append_assoc]
        exact append_ne (by decide +kernel)⟩
  · cases e <;> simp only [Composed, not_true_eq_false] at h <;> rfl

/-- So the error that the parallel master throws when a task fails says the same whatever composed exception the task
threw: only that it was in the loop. -/
theorem C317_mpi (e : Exc) (h : Composed e) : mpiRethrown e = lit " in eoMpi loop" := by
  rw [mpiRethrown, ((C317_what e).1 h).1, List.nil_append]

/-- `message()` does tell the arguments: two exceptions of one of these classes with the same message had the same
arguments. -/
theorem C317_message :
    (∀ n n', (Exc.popSize n).message = (Exc.popSize n').message → n = n') ∧
    (∀ t t', (Exc.maxTime t).message = (Exc.maxTime t').message → t = t') ∧
    (∀ t t', (Exc.maxEval t).message = (Exc.maxEval t').message → t = t') ∧
    (∀ n n', (Exc.missingParam n).message = (Exc.missingParam n').message → n = n') ∧
    (∀ n n', (Exc.wrongParamType n).message = (Exc.wrongParamType n').message → n = n') ∧
    (∀ n n', (Exc.file n).message = (Exc.file n').message → n = n') := by
  refine ⟨fun n n' h => ?_, fun n n' h => ?_, fun n n' h => ?_, fun n n' h => ?_, fun n n' h => ?_, fun n n' h => ?_⟩ <;>
    simp only [Exc.message, ne_eq, not_true_eq_false, if_false, List.append_nil, List.append_cancel_left_eq,
      List.append_cancel_right_eq] at h
  · exact ExternalEval.showNat_injective h
  · exact ExternalEval.showNat_injective h
  · exact ExternalEval.showNat_injective h
  · exact h
  · exact h
  · exact h

/-- The other composed messages, in full. -/
theorem C317_text (a b : Nat) (msg cmd out : Text) (code : Int) (hm : msg ≠ []) (ho : out ≠ []) :
    (Exc.popSizeChange a b msg).message =
      lit "Population size changed from " ++ showNat a ++ lit " to " ++ showNat b ++ lit ", " ++ msg ∧
    (Exc.popSizeChange a b).message = lit "Population size changed from " ++ showNat a ++ lit " to " ++ showNat b ∧
    (Exc.popSize a msg).message = lit "Bad population size: " ++ showNat a ++ lit ", " ++ msg ∧
    (Exc.system cmd none).message = lit "System call: `" ++ cmd ++ lit "` ended with error" ∧
    (Exc.system cmd (some (code, []))).message =
      (Exc.system cmd none).message ++ lit " code #" ++ showInt code ∧
    (Exc.system cmd (some (code, out))).message =
      (Exc.system cmd (some (code, []))).message ++ lit " with the following output:\n" ++ out := by
  simp [Exc.message, hm, ho]

/-- The classes that are given their text say it unchanged, both ways; the one for values that are not numbers has a text of
its own. -/
theorem C317_plain (m : Text) (e : Exc) (h : e ∈ [Exc.base m, .invalidFitness m, .stop m, .max m, .param m]) :
    e.message = m ∧ e.what = m ∧ Exc.nan.message = lit "The objective function returned a bad value (nan or inf)" := by
  simp only [List.mem_cons, List.not_mem_nil, or_false] at h
  rcases h with rfl | rfl | rfl | rfl | rfl <;> exact ⟨rfl, rfl, rfl⟩

example : (Exc.max (lit "stop here")).message = lit "stop here" := rfl

example : Composed (.file (lit "gen7")) ∧ (Exc.file (lit "gen7")).message = lit "Could not open file: gen7" :=
  ⟨trivial, by decide +kernel⟩

example : (Exc.system (lit "ls") (some (-1, []))).message = lit "System call: `ls` ended with error code #-1" := by
  decide +kernel

end Paradiseo.Exceptions

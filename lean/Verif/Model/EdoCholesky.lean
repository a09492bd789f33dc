import Mathlib.Analysis.Real.Sqrt
import Mathlib.Algebra.BigOperators.Group.Finset.Basic

/-!
# edo: Cholesky factorisations

Model of edo/src/utils/edoCholesky.h.  Numbers are real numbers; a square root of a negative number and
a division by zero, which give `nan` or `inf` in the code, are the outcome `none`.  A matrix is a function
of two indices, of which only those below the size matter.
-/

namespace Paradiseo.Edo

/-- A matrix. -/
abbrev Mat := Nat → Nat → ℝ

/-- `L(i, j) = v`. -/
def setMat (L : Mat) (i j : Nat) (v : ℝ) : Mat := fun a b => if a = i ∧ b = j then v else L a b

/-- `sqrt`. -/
noncomputable def sqrt? (x : ℝ) : Option ℝ := if x < 0 then none else some (Real.sqrt x)

/-- Division. -/
noncomputable def div? (a b : ℝ) : Option ℝ := if b = 0 then none else some (a / b)

/-- `for (k = a; k < a + n; ++k) s = f(s, k)`, stopped by an undefined result. -/
def loopN {β : Type} (f : β → Nat → Option β) : Nat → Nat → β → Option β
  | _, 0, s => some s
  | a, n + 1, s =>
    match f s a with
    | none => none
    | some s' => loopN f (a + 1) n s'

/-- `sum = 0; for (k = 0; k < n; ++k) sum += L(j, k) * L(i, k)` (edoCholesky.h 151-154, 160-163). -/
def dotRows (L : Mat) (j i n : Nat) : ℝ := (List.range n).foldl (fun s k => s + L j k * L i k) 0

/-- The body of the loop over the rows (edoCholesky.h 158-167). -/
noncomputable def lltEntry (V : Mat) (i : Nat) (L : Mat) (j : Nat) : Option Mat :=
  match div? (V j i - dotRows L j i i) (L i i) with
  | none => none
  | some v => some (setMat L j i v)

/-- The body of the loop over the columns (edoCholesky.h 149-168); `piv` is L_i_i as a function of
`V(i,i) - sum`. -/
noncomputable def lltCol (piv : ℝ → Option ℝ) (V : Mat) (N : Nat) (L : Mat) (i : Nat) : Option Mat :=
  match piv (V i i - dotRows L i i i) with
  | none => none
  | some v => loopN (lltEntry V i) (i + 1) (N - (i + 1)) (setMat L i i v)

/-- The body of the loop over the first column (edoCholesky.h 144-146). -/
noncomputable def lltFirst (V : Mat) (L : Mat) (j : Nat) : Option Mat :=
  match div? (V 0 j) (L 0 0) with
  | none => none
  | some v => some (setMat L j 0 v)

/-- CholeskyLLT::factorize (edoCholesky.h 136-169).  With an empty matrix `L(0, 0)` does not exist. -/
noncomputable def factorize (piv : ℝ → Option ℝ) (V : Mat) (N : Nat) : Option Mat :=
  if N = 0 then none
  else
    match sqrt? (V 0 0) with
    | none => none
    | some v =>
      match loopN (lltFirst V) 1 (N - 1) (setMat (fun _ _ => 0) 0 0 v) with
      | none => none
      | some L => loopN (lltCol piv V N) 1 (N - 1) L

/-- CholeskyLLT::L_i_i (edoCholesky.h 173-178). -/
noncomputable def pivLLT (x : ℝ) : Option ℝ := sqrt? x

/-- CholeskyLLTabs::L_i_i (edoCholesky.h 194-198). -/
noncomputable def pivAbs (x : ℝ) : Option ℝ := sqrt? |x|

/-- CholeskyLLTzero::L_i_i (edoCholesky.h 213-223). -/
noncomputable def pivZero (x : ℝ) : Option ℝ := if 0 ≤ x then sqrt? x else some 0

/-- `D(j,j) = V(j,j); for (k = 0; k <= j-1; ++k) D(j,j) -= L(j,k) * L(j,k) * D(k,k)`
(edoCholesky.h 251-254). -/
def ldltDiag (V : Mat) (L : Mat) (D : Nat → ℝ) (j : Nat) : ℝ :=
  (List.range j).foldl (fun s k => s - L j k * L j k * D k) (V j j)

/-- The body of the inner loop (edoCholesky.h 256-264). -/
noncomputable def ldltEntry (V : Mat) (D : Nat → ℝ) (j : Nat) (L : Mat) (i : Nat) : Option Mat :=
  match div? ((List.range j).foldl (fun s k => s - L i k * L j k * D k) (V i j)) (D j) with
  | none => none
  | some v => some (setMat L i j v)

/-- The body of the outer loop (edoCholesky.h 248-265): `L` and the diagonal of `D`. -/
noncomputable def ldltCol (V : Mat) (N : Nat) (s : Mat × (Nat → ℝ)) (j : Nat) :
    Option (Mat × (Nat → ℝ)) :=
  let L := setMat s.1 j j 1
  let D := Function.update s.2 j (ldltDiag V L s.2 j)
  match loopN (ldltEntry V D j) (j + 1) (N - (j + 1)) L with
  | none => none
  | some L' => some (L', D)

/-- CholeskyLDLT::root (edoCholesky.h 271-285): the product of `L` with the square root of `D`, whose
entries outside of the diagonal are zero. -/
noncomputable def ldltRoot (N : Nat) (L : Mat) (D : Nat → ℝ) : Option Mat :=
  if ∃ i, i < N ∧ D i < 0 then none
  else some fun i j => ∑ k ∈ Finset.range N, L i k * (if k = j then Real.sqrt (D j) else 0)

/-- CholeskyLDLT::factorize (edoCholesky.h 237-268). -/
noncomputable def factorizeLDLT (V : Mat) (N : Nat) : Option Mat :=
  if N = 0 then none
  else
    match loopN (ldltCol V N) 0 N ((fun _ _ => 0), Function.update (fun _ => 0) 0 (V 0 0)) with
    | none => none
    | some (L, D) => ldltRoot N L D

end Paradiseo.Edo

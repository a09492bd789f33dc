import Verif.Model.EdoCMA
import Mathlib.Analysis.SpecialFunctions.Sqrt

/-!
# eo: eigenvalues and eigenvectors of a symmetric matrix

Model of eo/src/es/eig.cpp (reduction to tridiagonal form by Householder reflections, QL algorithm with implicit shifts).
Numbers are real numbers; matrices and vectors are functions of their indices.  A loop that assigns to each index
something that does not depend on the other assignments of the same loop is written as one function; sums are written as
sums, whatever the order of the loop.  The test whether adding a number changes a sum (eig.cpp 156-157), which in
floating-point arithmetic holds for small numbers other than zero, is the parameter `negl`.
-/

namespace Paradiseo.Eig

open Finset
open Paradiseo.Edo (Mat)

/-- `ma`, `diag` and `neben` of Householder (eig.cpp 63-64). -/
structure House where
  ma : Mat
  diag : Nat → ℝ
  neben : Nat → ℝ

/-- `v[i] = x`. -/
def put (v : Nat → ℝ) (i : Nat) (x : ℝ) : Nat → ℝ := fun j => if j = i then x else v j

/-- The sum of the absolute values of row `i` left of the diagonal (eig.cpp 77-78). -/
noncomputable def rowAbs (ma : Mat) (i : Nat) : ℝ := ∑ k ∈ range i, |ma i k|

/-- `sum` after the normalisation of the row (eig.cpp 84-88). -/
noncomputable def rowSq (ma : Mat) (i : Nat) : ℝ := ∑ k ∈ range i, ma i k / rowAbs ma i * (ma i k / rowAbs ma i)

/-- `tmp` (eig.cpp 89). -/
noncomputable def rowTmp (ma : Mat) (i : Nat) : ℝ :=
  if 0 < ma i (i - 1) / rowAbs ma i then -Real.sqrt (rowSq ma i) else Real.sqrt (rowSq ma i)

/-- `h` (eig.cpp 91). -/
noncomputable def rowH (ma : Mat) (i : Nat) : ℝ := rowSq ma i - ma i (i - 1) / rowAbs ma i * rowTmp ma i

/-- Row `i` after line 92: the vector of the reflection. -/
noncomputable def hvec (ma : Mat) (i k : Nat) : ℝ :=
  if k = i - 1 then ma i k / rowAbs ma i - rowTmp ma i else ma i k / rowAbs ma i

/-- `neben[j]` (eig.cpp 96-101): only the lower triangle is read. -/
noncomputable def pvec (ma : Mat) (i j : Nat) : ℝ :=
  (∑ k ∈ range (j + 1), ma j k * hvec ma i k + ∑ k ∈ Ico (j + 1) i, ma k j * hvec ma i k) / rowH ma i

/-- `sum` after line 104. -/
noncomputable def halfK (ma : Mat) (i : Nat) : ℝ := (∑ j ∈ range i, pvec ma i j * hvec ma i j) / (2 * rowH ma i)

/-- `neben[j]` after line 107. -/
noncomputable def qvec (ma : Mat) (i j : Nat) : ℝ := pvec ma i j - hvec ma i j * halfK ma i

open Classical in
/-- One round of the first loop of Householder (eig.cpp 69-116). -/
noncomputable def reflect (i : Nat) (s : House) : House :=
  if i = 1 ∨ rowAbs s.ma i = 0 then
    { s with neben := put s.neben i (s.ma i (i - 1)), diag := put s.diag i 0 }
  else
    { ma := fun r c =>
        if r = i ∧ c < i then hvec s.ma i c
        else if c = i ∧ r < i then hvec s.ma i r / rowH s.ma i
        else if r < i ∧ c ≤ r then s.ma r c - (hvec s.ma i r * qvec s.ma i c + qvec s.ma i r * hvec s.ma i c)
        else s.ma r c
      diag := put s.diag i (rowH s.ma i)
      neben := fun j => if j = i then rowAbs s.ma i * rowTmp s.ma i else if j < i then qvec s.ma i j else s.neben j }

/-- The first loop (eig.cpp 69) for `i = n - 1, ..., 1`. -/
noncomputable def reduceDown : Nat → House → House
  | 0, s => s
  | 1, s => s
  | n + 2, s => reduceDown (n + 1) (reflect (n + 1) s)

open Classical in
/-- One round of the second loop (eig.cpp 121-135). -/
noncomputable def accumulate (i : Nat) (s : House) : House :=
  let ma1 : Mat := if s.diag i ≠ 0 then
      fun r c => if r < i ∧ c < i then s.ma r c - (∑ k ∈ range i, s.ma i k * s.ma k c) * s.ma r i else s.ma r c
    else s.ma
  { s with
    diag := put s.diag i (ma1 i i)
    ma := fun r c => if r = i ∧ c = i then 1 else if (r = i ∧ c < i) ∨ (c = i ∧ r < i) then 0 else ma1 r c }

/-- The second loop (eig.cpp 121) for `i = 0, ..., n - 1`. -/
noncomputable def accumulateUp : Nat → House → House
  | 0, s => s
  | n + 1, s => accumulate n (accumulateUp n s)

/-- Householder (eig.cpp 63-136). -/
noncomputable def householder (N : Nat) (s : House) : House :=
  let t := reduceDown N s
  accumulateUp N { t with diag := put t.diag 0 0, neben := put t.neben 0 0 }

/-- `diag`, `neben` and `mq` of QLalgo (eig.cpp 153-154). -/
structure QL where
  diag : Nat → ℝ
  neben : Nat → ℝ
  mq : Mat

/-- The loop for `j` (eig.cpp 164-169), from `j` on with `fuel` indices left. -/
noncomputable def split (negl : ℝ → ℝ → Bool) (s : QL) : Nat → Nat → Nat
  | 0, j => j
  | fuel + 1, j => if negl (s.neben j) (|s.diag j| + |s.diag (j + 1)|) then j else split negl s fuel (j + 1)

/-- What the innermost loop changes: the arrays, `c1`, `c2`, `p` and `diff`. -/
structure Sweep where
  ql : QL
  c1 : ℝ
  c2 : ℝ
  p : ℝ
  diff : ℝ

/-- `diff` before the innermost loop (eig.cpp 173-179). -/
noncomputable def shift (s : QL) (i j : Nat) : ℝ :=
  let diff := (s.diag (i + 1) - s.diag i) / s.neben i / 2
  if 0 ≤ diff then s.diag j - s.diag i + s.neben i / (diff + Real.sqrt (diff * diff + 1))
  else s.diag j - s.diag i + s.neben i / (diff - Real.sqrt (diff * diff + 1))

/-- The rotation `(c1, c2, neben[kp1])` (eig.cpp 185-199). -/
noncomputable def rotation (tmp diff : ℝ) : ℝ × ℝ × ℝ :=
  if |diff| ≤ |tmp| then
    let c1 := diff / tmp
    let c2 := 1 / Real.sqrt (c1 * c1 + 1)
    (c1 * c2, c2, tmp / c2)
  else
    let c2 := tmp / diff
    let c1 := 1 / Real.sqrt (c2 * c2 + 1)
    (c1, c2 * c1, diff / c1)

/-- One round of the innermost loop (eig.cpp 182-211). -/
noncomputable def rotate (k : Nat) (w : Sweep) : Sweep :=
  let tmp := w.c2 * w.ql.neben k
  let cneben := w.c1 * w.ql.neben k
  let (c1, c2, r) := rotation tmp w.diff
  let tmp2 := (w.ql.diag k - w.ql.diag (k + 1) + w.p) * c2 + 2 * c1 * cneben
  { ql :=
      { neben := put w.ql.neben (k + 1) r
        diag := put w.ql.diag (k + 1) (w.ql.diag (k + 1) + (tmp2 * c2 - w.p))
        mq := fun l x =>
          if x = k + 1 then c2 * w.ql.mq l k + c1 * w.ql.mq l (k + 1)
          else if x = k then c1 * w.ql.mq l k - c2 * w.ql.mq l (k + 1)
          else w.ql.mq l x }
    c1 := c1, c2 := c2, p := tmp2 * c2, diff := tmp2 * c1 - cneben }

/-- The innermost loop (eig.cpp 182) for `k = i + m - 1, ..., i`. -/
noncomputable def rotateDown (i : Nat) : Nat → Sweep → Sweep
  | 0, w => w
  | m + 1, w => rotateDown i m (rotate (i + m) w)

/-- A sweep from `j` down to `i` (eig.cpp 173-214). -/
noncomputable def sweep (i j : Nat) (s : QL) : QL :=
  let w := rotateDown i (j - i) { ql := s, c1 := 1, c2 := 1, p := 0, diff := shift s i j }
  { diag := put w.ql.diag i (w.ql.diag i - w.p)
    neben := put (put w.ql.neben i w.diff) j 0
    mq := w.ql.mq }

/-- How the inner loop ends: with the number of iterations, or cut off. -/
inductive QLEnd where
  | done (s : QL) (iter : Nat)
  | cut (s : QL)

/-- The loop `do ... while (j != i)` (eig.cpp 162-216). -/
noncomputable def qlInner (negl : ℝ → ℝ → Bool) (N maxIter i : Nat) (s : QL) (iter : Nat) : QLEnd :=
  let j := split negl s (N - 1 - i) i
  if j = i then .done s iter
  else if maxIter < iter + 1 then .cut s
  else qlInner negl N maxIter i (sweep i j s) (iter + 1)
termination_by maxIter - iter
decreasing_by omega

/-- The outer loop (eig.cpp 161-217) with `left` indices left; the result is the returned number and the arrays. -/
noncomputable def qlOuter (negl : ℝ → ℝ → Bool) (N maxIter : Nat) : Nat → QL → Nat → Nat × QL
  | 0, s, iter => (iter, s)
  | left + 1, s, iter =>
    if iter < maxIter then
      match qlInner negl N maxIter (N - (left + 1)) s iter with
      | .cut s => (maxIter - 1, s)
      | .done s iter => qlOuter negl N maxIter left s iter
    else (iter, s)

/-- QLalgo (eig.cpp 152-219). -/
noncomputable def qlAlgo (negl : ℝ → ℝ → Bool) (N maxIter : Nat) (s : QL) : Nat × QL :=
  qlOuter negl N maxIter N { s with neben := put s.neben (N - 1) 0 } 0

/-- eig (eig.cpp 237-258) for `N > 0`; `C` is read below the diagonal only.  The result is the returned number, the
eigenvalues and the eigenvectors (columns). -/
noncomputable def eig (negl : ℝ → ℝ → Bool) (N : Nat) (C : Mat) (niter : Nat) : Nat × (Nat → ℝ) × Mat :=
  let n := if niter = 0 then 30 * N else niter
  let t := householder N { ma := fun r c => if c ≤ r then C r c else C c r, diag := fun _ => 0, neben := fun _ => 0 }
  let q := qlAlgo negl N n { diag := t.diag, neben := fun k => t.neben (k + 1), mq := t.ma }
  (q.1, q.2.diag, q.2.mq)

end Paradiseo.Eig

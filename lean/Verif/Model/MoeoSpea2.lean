import Mathlib.Algebra.Order.Field.Basic
import Mathlib.Data.List.Basic
/-
Model of the archive of SPEA2 (moeo/src/archive/moeoSPEA2Archive.h).

An individual carries its fitness, its diversity and what the distance looks at. `borne` is the number
of members (members enter through the modelled function only). `std::sort` is an arbitrary function
(its specification is a hypothesis of the theorems); reading `copy_pop` behind its end is `none`.
-/
namespace Paradiseo.Moeo.Spea2

variable {F α : Type} [Field F] [LinearOrder F]

/-- An individual. -/
structure Ind (F α : Type) where
  fit : F
  dvs : F
  obj : α

/-- `fitness + diversity`, what `Cmp` compares (lines 338-344) and line 181. -/
def Ind.sum (a : Ind F α) : F := a.fit + a.dvs

/-- Lines 183-185: the member at `i` is overwritten by the last one, which makes place for `p`. -/
def replaceAt {β : Type} (l : List β) (i : Nat) (p : β) : List β :=
  match l.getLast? with
  | some z => (l.set i z).dropLast ++ [p]
  | none => [p]

/-- The loop of lines 181-188 (`i = j` throughout). `pop` is sorted; the number of replacements and the
members. -/
def replaceLoop (pop : List (Ind F α)) : Nat → Nat → List (Ind F α) → Option (Nat × List (Ind F α))
  | 0, i, l => some (i, l)
  | fuel + 1, i, l =>
    match l[i]?, pop[i]? with
    | none, _ => some (i, l)
    | some _, none => none
    | some a, some p =>
      if a.sum < p.sum ∧ a.fit ≤ -1 then replaceLoop pop fuel (i + 1) (replaceAt l i p)
      else some (i, l)

/-- A row of `matrice`: the number it belongs to (the last entry of the code's vector) and the pairs of
numbers and distances. -/
abbrev Row (F : Type) := Nat × List (Nat × F)

/-- `CmpVector` (lines 351-368): the distances from the left, then the numbers of the rows. -/
def rowLt (a b : Row F) : Bool :=
  go (a.2.map Prod.snd) (b.2.map Prod.snd)
where
  /-- The loop; the last entry of a row holds its number. -/
  go : List F → List F → Bool
  | x :: xs, y :: ys => if x < y then true else if x > y then false else go xs ys
  | _, _ => decide (a.1 < b.1)

/-- Lines 206-235: the rows of all candidates, each sorted by `sortPairs`. -/
def rows (d : Nat → Nat → F) (sortPairs : List (Nat × F) → List (Nat × F)) (n : Nat) : List (Row F) :=
  (List.range n).map fun k =>
    (k, sortPairs (((List.range n).filter (· != k)).map fun l => (l, d (min k l) (max k l))))

/-- Lines 251-258: the first row goes, and its number goes from all other rows. -/
def dropFirst (rs : List (Row F)) : List (Row F) :=
  match rs with
  | [] => []
  | r :: rs => rs.map fun q => (q.1, q.2.eraseP (·.1 == r.1))

/-- Lines 247-262, `k` rounds: the numbers removed and the rows left. `rs` is sorted at the start of each
round. -/
def thin (sortRows : List (Row F) → List (Row F)) : Nat → List (Row F) → List Nat × List (Row F)
  | 0, rs => ([], rs)
  | k + 1, rs =>
    let s := sortRows rs
    let out := thin sortRows k (dropFirst s)
    (s.head?.map Prod.fst |>.toList) ++ out.1 |> fun o => (o, out.2)

/-- Lines 273-278: the kept newcomers take the places of the members that are not kept. -/
def fill {β : Type} (l : List β) : List Nat → List β → List β
  | k :: ks, p :: ps => fill (l.set k p) ks ps
  | _, _ => l

/-- Lines 191-279: newcomers from number `inf` on (the first is `pop[inf]`). -/
def truncate (dist : α → α → F) (sortPairs : List (Nat × F) → List (Nat × F))
    (sortRows : List (Row F) → List (Row F)) (pop : List (Ind F α)) (inf : Nat) (l : List (Ind F α)) :
    List (Ind F α) :=
  let new := (pop.drop inf).takeWhile fun a => decide (a.fit > -1)
  let all := l ++ new
  let d := fun i j => match all[i]?, all[j]? with
    | some a, some b => dist a.obj b.obj
    | _, _ => 0
  let n := l.length
  let out := thin sortRows new.length (rows d sortPairs (n + new.length))
  let notkept := out.1.filter (· < n)
  let kept := ((out.2.map Prod.fst).filter (n ≤ ·)).filterMap fun k => all[k]?
  fill l notkept kept

/-- `operator()(_pop)` (lines 145-282): the members after the call. -/
def insert (maxSize : Nat) (dist : α → α → F) (sortPop sortArch : List (Ind F α) → List (Ind F α))
    (sortPairs : List (Nat × F) → List (Nat × F)) (sortRows : List (Row F) → List (Row F))
    (l : List (Ind F α)) (pop : List (Ind F α)) : Option (List (Ind F α)) :=
  let ps := sortPop pop
  if l.length < maxSize then some (l ++ ps.take (min ps.length (maxSize - l.length)))
  else
    match replaceLoop ps l.length 0 (sortArch l) with
    | none => none
    | some (i, l1) =>
      match ps[i]? with
      | none => none
      | some q => if q.fit > -1 then some (truncate dist sortPairs sortRows ps i l1) else some l1

end Paradiseo.Moeo.Spea2

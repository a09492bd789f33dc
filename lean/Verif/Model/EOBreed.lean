/-
Model of the populator, the general operators and their containers, and the breeders:
eo/src/eoPopulator.h, eoGenOp.h, eoInvalidateOps.h, eoOpContainer.h, eoSGAGenOp.h, eoPropGAGenOp.h,
eoGeneralBreeder.h, eoOneToOneBreeder.h, eoSGATransform.h.

Simplifications:
* a selector is the list of its answers: `sel t` is the result of its call number `t` in the run;
* `rng.uniform()` number `k` gives `u k`; operators may use random numbers, so that their result also
  depends on `k`, a counter of random events;
* an operator given by the user is a total function of the individuals, returning its Boolean and the
  individuals afterwards;
* the type caught by eoProportionalOp (`eoPopulator::OutOfIndividuals`) is thrown by no populator of the
  library (eoSeqPopulator throws a class of its own, eoPopulator.h:180), so an exception of the
  populator always passes through.
-/
import Verif.Model.EO
import Verif.Model.EOReplacement
import Verif.Model.EOSelect

namespace Paradiseo.Breed

open Paradiseo.EO (Err HowMany Ind evalFuncPtr)
open Paradiseo.Sel (rngRoulette)

variable {α G F : Type}

/-- What the run is given from outside: the selections, the uniform draws, and the capacity an
implementation gives to a full vector of the given size that gets one more element. -/
structure Env (α : Type) where
  sel : Nat → Except Err α
  u : Nat → ℚ
  grow : Nat → Nat

/-- The state of a populator (eoPopulator.h:131-133): the vector of offspring, its capacity, the position
of `current`; and the counters of the selections and of the random events so far. -/
structure St (α : Type) where
  dest : List α
  cur : Nat
  cap : Nat
  t : Nat
  k : Nat

/-- `operator*` (eoPopulator.h:62-68) with `get_next` (137-144): the individual at the place of
`current`; at the end a selected one is appended first.  The Boolean tells that the vector was
reallocated, which ends the validity of all references into it. -/
def St.deref (env : Env α) (s : St α) : Except Err (α × St α × Bool) :=
  if s.cur = s.dest.length then
    match env.sel s.t with
    | .error e => .error e
    | .ok x =>
      .ok (x, { s with
        dest := s.dest ++ [x], t := s.t + 1
        cap := if s.dest.length < s.cap then s.cap
               else max (env.grow s.dest.length) (s.dest.length + 1) },
        decide (¬ s.dest.length < s.cap))
  else match s.dest[s.cur]? with
    | none => .error .ub
    | some x => .ok (x, s, false)

/-- `operator++` (eoPopulator.h:74-83). -/
def St.next (s : St α) : St α := if s.cur = s.dest.length then s else { s with cur := s.cur + 1 }

/-- `reserve` (eoPopulator.h:95-104). -/
def St.reserve (s : St α) (n : Nat) : St α := { s with cap := max s.cap (s.dest.length + n) }

/-- `exhausted` (eoPopulator.h:123). -/
def St.exhausted (s : St α) : Bool := decide (s.cur = s.dest.length)

/-- `insert` (eoPopulator.h:88-91): before the place of `current`, which then is the new individual. -/
def St.insert (s : St α) (x : α) : St α :=
  { s with dest := s.dest.take s.cur ++ x :: s.dest.drop s.cur, cap := max s.cap (s.dest.length + 1) }

/-- eoSeqPopulator::select (eoPopulator.h:168-175). -/
def seqPopulatorSel (src : List α) (t : Nat) : Except Err α :=
  match src[t]? with
  | some x => .ok x
  | none => .error .thrown

/-- Operators of the user on one, two (the second constant) and two individuals; the first argument is
the counter of random events. -/
abbrev MonOp (α : Type) := Nat → α → Bool × α
abbrev BinOp (α : Type) := Nat → α → α → Bool × α
abbrev QuadOp (α : Type) := Nat → α → α → Bool × α × α

/-- A general operator (eoGenOp.h:60-83): `max_production` and `apply`. -/
structure GenOp (α : Type) where
  maxProd : Nat
  apply : Env α → St α → Except Err (St α)

/-- eoGenOp::operator() (eoGenOp.h:73-77). -/
def GenOp.call (g : GenOp α) (env : Env α) (s : St α) : Except Err (St α) :=
  g.apply env (s.reserve g.maxProd)

/-- eoInvalidateMonOp, eoInvalidateBinOp, eoInvalidateQuadOp (eoInvalidateOps.h:52-61, 86-95, 120-129). -/
def invMon [Inhabited F] (op : MonOp (Ind G F)) : MonOp (Ind G F) := fun k x =>
  if (op k x).1 then (true, (op k x).2.invalidate) else (false, (op k x).2)

def invBin [Inhabited F] (op : BinOp (Ind G F)) : BinOp (Ind G F) := fun k x y =>
  if (op k x y).1 then (true, (op k x y).2.invalidate) else (false, (op k x y).2)

def invQuad [Inhabited F] (op : QuadOp (Ind G F)) : QuadOp (Ind G F) := fun k x y =>
  if (op k x y).1 then (true, (op k x y).2.1.invalidate, (op k x y).2.2.invalidate)
  else (false, (op k x y).2.1, (op k x y).2.2)

/-- eoMonGenOp (eoGenOp.h:95-102). -/
def monGen [Inhabited F] (op : MonOp (Ind G F)) : GenOp (Ind G F) where
  maxProd := 1
  apply env s :=
    match s.deref env with
    | .error e => .error e
    | .ok (x, s, _) =>
      .ok { s with dest := s.dest.set s.cur (invMon op s.k x).2, k := s.k + 1 }

/-- eoBinGenOp (eoGenOp.h:117-129); the selection does not touch the offspring. -/
def binGen [Inhabited F] (op : BinOp (Ind G F)) : GenOp (Ind G F) where
  maxProd := 1
  apply env s :=
    match s.deref env with
    | .error e => .error e
    | .ok (x, s, _) =>
      match env.sel s.t with
      | .error e => .error e
      | .ok y =>
        .ok { s with dest := s.dest.set s.cur (invBin op s.k x y).2, t := s.t + 1, k := s.k + 1 }

/-- eoSelBinGenOp (eoGenOp.h:144-150) with a selector of its own, also a function of the run. -/
def selBinGen [Inhabited F] (op : BinOp (Ind G F)) (sel : Nat → Except Err (Ind G F)) :
    GenOp (Ind G F) where
  maxProd := 1
  apply env s :=
    match s.deref env with
    | .error e => .error e
    | .ok (x, s, _) =>
      match sel s.k with
      | .error e => .error e
      | .ok y => .ok { s with dest := s.dest.set s.cur (invBin op s.k x y).2, k := s.k + 1 }

/-- eoQuadGenOp (eoGenOp.h:167-181): the reference `a` is used after `*++_pop`, which may reallocate. -/
def quadGen [Inhabited F] (op : QuadOp (Ind G F)) : GenOp (Ind G F) where
  maxProd := 2
  apply env s :=
    match s.deref env with
    | .error e => .error e
    | .ok (a, s, _) =>
      match s.next.deref env with
      | .error e => .error e
      | .ok (b, s', moved) =>
        if moved then .error .ub
        else .ok { s' with
          dest := (s'.dest.set s.cur (invQuad op s'.k a b).2.1).set s'.cur (invQuad op s'.k a b).2.2
          k := s'.k + 1 }

/-- eoMonCloneOp, eoQuadCloneOp (eoCloneOps.h:53, 78). -/
def monClone : MonOp α := fun _ x => (false, x)
def quadClone : QuadOp α := fun _ x y => (false, x, y)

/-- The do-while loop of eoSequentialOp for one operator (eoOpContainer.h:108-136). -/
def seqLoop (env : Env α) (rate : ℚ) (op : GenOp α) : Nat → St α → Except Err (St α)
  | 0, _ => .error .fuel
  | n + 1, s =>
    match (if env.u s.k < rate then op.apply env { s with k := s.k + 1 }
           else .ok { s with k := s.k + 1 }) with
    | .error e => .error e
    | .ok s => if s.next.exhausted then .ok s.next else seqLoop env rate op n s.next

/-- The loop over the operators (eoOpContainer.h:106-137); `pos` is the place remembered. -/
def seqOps (fuel : Nat) (env : Env α) (pos : Nat) : List (GenOp α × ℚ) → St α → Except Err (St α)
  | [], s => .ok s
  | (op, rate) :: ops, s =>
    match seqLoop env rate op fuel { s with cur := pos } with
    | .error e => .error e
    | .ok s => seqOps fuel env pos ops s

/-- eoOpContainer::max_production and add (eoOpContainer.h:55-70). -/
def maxProduction (ops : List (GenOp α × ℚ)) : Nat := (ops.map fun o => o.1.maxProd).foldl max 0

/-- eoSequentialOp (eoOpContainer.h:102-138). -/
def seqGen (fuel : Nat) (ops : List (GenOp α × ℚ)) : GenOp α where
  maxProd := maxProduction ops
  apply env s := seqOps fuel env s.cur ops (s.reserve (maxProduction ops))

/-- eoProportionalOp (eoOpContainer.h:158-170). -/
def propGen (ops : List (GenOp α × ℚ)) : GenOp α where
  maxProd := maxProduction ops
  apply env s :=
    match rngRoulette (ops.map Prod.snd) 0 (env.u s.k) with
    | .error e => .error e
    | .ok i =>
      match ops[i]? with
      | none => .error .ub
      | some (op, _) =>
        match op.call env { s with k := s.k + 1 } with
        | .error e => .error e
        | .ok s => .ok s.next

/-- eoSGAGenOp (eoSGAGenOp.h:54-77). -/
def sgaGen [Inhabited F] (fuel : Nat) (cross : QuadOp (Ind G F)) (pCross : ℚ) (mutn : MonOp (Ind G F))
    (pMut : ℚ) : GenOp (Ind G F) where
  maxProd := 2
  apply env s := (seqGen fuel [(propGen [(quadGen cross, pCross), (quadGen quadClone, 1 - pCross)], 1),
    (monGen mutn, pMut)]).apply env s

/-- eoPropGAGenOp (eoPropGAGenOp.h:53-73). -/
def propGAGen [Inhabited F] (wClone : ℚ) (cross : QuadOp (Ind G F)) (wCross : ℚ) (mutn : MonOp (Ind G F))
    (wMut : ℚ) : GenOp (Ind G F) where
  maxProd := 2
  apply env s := (propGen [(quadGen cross, wCross), (monGen mutn, wMut), (monGen monClone, wClone)]).apply
    env s

/-- The loop of eoGeneralBreeder (eoGeneralBreeder.h:93-97). -/
def breedLoop (env : Env α) (op : GenOp α) (target : Nat) : Nat → St α → Except Err (St α)
  | 0, _ => .error .fuel
  | n + 1, s =>
    if s.dest.length < target then
      match op.call env s with
      | .error e => .error e
      | .ok s => breedLoop env op target n s.next
    else .ok s

/-- The populator at the start (eoPopulator.h:47-51) of a breeder, with the capacity `cap` of the
cleared offspring vector. -/
def startSt (parents : List α) (cap : Nat) : St α := ⟨[], 0, max cap parents.length, 0, 0⟩

/-- eoGeneralBreeder::operator() (eoGeneralBreeder.h:87-100); the loop ends with at least `target`
individuals, so that `resize` only cuts. -/
def generalBreeder (fuel : Nat) (env : Env α) (h : HowMany) (op : GenOp α) (parents : List α)
    (cap : Nat) : Except Err (List α) :=
  match h.eval parents.length with
  | .error e => .error e
  | .ok target =>
    match breedLoop env op target fuel (startSt parents cap) with
    | .error e => .error e
    | .ok s => .ok (s.dest.take target)

/-- One turn of the loop of eoOneToOneBreeder (eoOneToOneBreeder.h:86-106). -/
def oneToOneStep [Inhabited F] [LE F] [DecidableRel (α := F) (· ≤ ·)] (f : G → F) (env : Env (Ind G F))
    (op : GenOp (Ind G F)) (pReplace : ℚ) (s : St (Ind G F)) : Except Err (St (Ind G F)) :=
  match s.deref env with
  | .error e => .error e
  | .ok (parent, s1, _) =>
    match op.call env s1 with
    | .error e => .error e
    | .ok s2 =>
      match s2.deref env with
      | .error e => .error e
      | .ok (child, s3, _) =>
        if s3.cur ≠ s.cur then .error .thrown
        else
          match parent.gt (evalFuncPtr f child) with
          | none => .error .thrown
          | some false =>
            .ok { s3 with dest := s3.dest.set s3.cur (evalFuncPtr f child) }.next
          | some true =>
            .ok { s3 with
              dest := s3.dest.set s3.cur (if env.u s3.k < pReplace then parent else evalFuncPtr f child)
              k := s3.k + 1 }.next

/-- The loop of eoOneToOneBreeder (eoOneToOneBreeder.h:84-107). -/
def oneToOneLoop [Inhabited F] [LE F] [DecidableRel (α := F) (· ≤ ·)] (f : G → F) (env : Env (Ind G F))
    (op : GenOp (Ind G F)) (pReplace : ℚ) : Nat → St (Ind G F) → Except Err (St (Ind G F))
  | 0, s => .ok s
  | n + 1, s =>
    match oneToOneStep f env op pReplace s with
    | .error e => .error e
    | .ok s => oneToOneLoop f env op pReplace n s

/-- eoOneToOneBreeder::operator() (eoOneToOneBreeder.h:77-108), with an evaluator that evaluates invalid
individuals. -/
def oneToOneBreeder [Inhabited F] [LE F] [DecidableRel (α := F) (· ≤ ·)] (f : G → F)
    (env : Env (Ind G F)) (h : HowMany) (op : GenOp (Ind G F)) (pReplace : ℚ)
    (parents : List (Ind G F)) (cap : Nat) : Except Err (List (Ind G F)) :=
  match h.eval parents.length with
  | .error e => .error e
  | .ok target =>
    match oneToOneLoop f env op pReplace target (startSt parents cap) with
    | .error e => .error e
    | .ok s => .ok s.dest

/-- The crossover loop of eoSGATransform (eoSGATransform.h:68-75): over the pairs of places 2i, 2i+1.
Result: the population and the counter of random events. -/
def sgaCross (u : Nat → ℚ) (p : ℚ) (cross : QuadOp α) : List α → Nat → List α × Nat
  | a :: b :: l, k =>
    if u k < p then
      ((cross (k + 1) a b).2.1 :: (cross (k + 1) a b).2.2 :: (sgaCross u p cross l (k + 2)).1,
        (sgaCross u p cross l (k + 2)).2)
    else (a :: b :: (sgaCross u p cross l (k + 1)).1, (sgaCross u p cross l (k + 1)).2)
  | l, k => (l, k)

/-- The mutation loop of eoSGATransform (eoSGATransform.h:77-84). -/
def sgaMutate (u : Nat → ℚ) (p : ℚ) (mutn : MonOp α) : List α → Nat → List α
  | [], _ => []
  | a :: l, k =>
    if u k < p then (mutn (k + 1) a).2 :: sgaMutate u p mutn l (k + 2)
    else a :: sgaMutate u p mutn l (k + 1)

/-- eoSGATransform::operator() (eoSGATransform.h:64-85), the operators wrapped by the invalidating ones
(lines 88, 90). -/
def sgaTransform [Inhabited F] (u : Nat → ℚ) (cross : QuadOp (Ind G F)) (pCross : ℚ)
    (mutn : MonOp (Ind G F)) (pMut : ℚ) (pop : List (Ind G F)) : List (Ind G F) :=
  sgaMutate u pMut (invMon mutn) (sgaCross u pCross (invQuad cross) pop 0).1
    (sgaCross u pCross (invQuad cross) pop 0).2

end Paradiseo.Breed

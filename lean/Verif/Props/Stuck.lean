/-
Property C386: an elitist algorithm whose mutation flips a bounded number of bits can be stuck for ever.
-/
import Verif.Props.EAConvergence
import Verif.Props.EOBits
import Mathlib.Data.List.Sort

namespace Paradiseo.EO
open Paradiseo.Ops (hamming detBitFlip oneBitFlip detSingleBitFlip C59_with_replacement C59_one_bit C59_exactly_k)
open Run (EA RunSt)

/-- The trap of `n` bits: the number of zeros, except for the string of ones, which is better than all others. -/
def trap (n : Nat) (g : List Bool) : Nat := if g = List.replicate n true then n + 1 else g.count false

/-- A breeding all of whose offspring, not evaluated yet, differ from an individual of the population in at most `k` bits. -/
def Near (k : Nat) (breed : Nat → List (Ind (List Bool) Nat) → Except Err (List (Ind (List Bool) Nat))) : Prop :=
  ∀ t pop off, breed t pop = .ok off → ∀ x ∈ off, x.fitness = none ∧
    ∃ y ∈ pop, x.genome.length = y.genome.length ∧ hamming y.genome x.genome ≤ k

theorem hamming_zeros (n : Nat) (g : List Bool) (hg : g.length = n) :
    hamming (List.replicate n false) g = g.count true := by
  subst hg
  induction g with
  | nil => rfl
  | cons b g ih =>
    simp only [List.length_cons, List.replicate_succ, hamming, List.count_cons, ih]
    cases b <;> simp [Nat.add_comm]

theorem trap_near {n k : Nat} (hk : k < n) (g : List Bool) (hg : g.length = n)
    (h : hamming (List.replicate n false) g ≤ k) : trap n g ≤ n ∧ (trap n g = n → g = List.replicate n false) := by
  rw [hamming_zeros n g hg] at h
  have hne : g ≠ List.replicate n true := by
    rintro rfl
    rw [List.count_replicate_self] at h
    omega
  unfold trap
  rw [if_neg hne]
  refine ⟨hg ▸ List.count_le_length, fun he => ?_⟩
  rw [List.eq_replicate_iff]
  refine ⟨hg, ?_⟩
  rw [← hg] at he
  exact fun b hb => (List.count_eq_length.1 he b hb).symm

/-- All individuals are the string of zeros, with its fitness. -/
def AtZero (n : Nat) (pop : List (Ind (List Bool) Nat)) : Prop :=
  ∀ x ∈ pop, x.genome = List.replicate n false ∧ x.fitness = some (trap n x.genome)

variable {σ : Type}

theorem stuck_generation {n k : Nat} (hn : 0 < n) (hk : k < n) (ea : EA (List Bool) Nat σ) (hf : ea.f = trap n)
    (hbreed : Near k ea.breed) (sort : List (Ind (List Bool) Nat) → List (Ind (List Bool) Nat))
    (hs : IsSort (fun x : Ind (List Bool) Nat => x.repFitness) sort) (hr : ∀ t, ea.replace t = plusReplacement sort)
    (s s' : RunSt (List Bool) Nat σ) (hz : AtZero n s.pop) (h : ea.generation s = .ok s') : AtZero n s'.pop := by
  have hn0 : List.replicate n false ≠ List.replicate n true := by
    intro he
    have := congrArg List.head? he
    rw [List.head?_replicate, List.head?_replicate, if_neg (by omega), if_neg (by omega)] at this
    simp at this
  have ht0 : trap n (List.replicate n false) = n := by
    unfold trap; rw [if_neg hn0, List.count_replicate_self]
  unfold EA.generation at h
  cases hb : ea.breed s.gens s.pop with
  | error e => simp [hb] at h
  | ok off =>
    simp only [hb] at h
    have hev := C47_evalPop ea.f s.evals off
    set off' := (evalPop ea.f s.evals off).2 with hoff'
    have hofit : ∀ x ∈ off', x.fitness = some (ea.f x.genome) := by
      apply hev.2.2.1
      intro x hx v hv
      rw [(hbreed _ _ _ hb x hx).1] at hv
      cases hv
    have hnear : ∀ x ∈ off', x.genome.length = n ∧ hamming (List.replicate n false) x.genome ≤ k := by
      intro x hx
      have hm : x.genome ∈ off.map (·.genome) := hev.1 ▸ List.mem_map_of_mem hx
      obtain ⟨y, hy, hyx⟩ := List.mem_map.1 hm
      obtain ⟨-, z, hz', h1, h2⟩ := hbreed _ _ _ hb y hy
      rw [(hz z hz').1] at h1 h2
      rw [← hyx]
      exact ⟨by simpa using h1, h2⟩
    obtain ⟨kept, hp, hl, ⟨dropped, hperm, hbest⟩, -⟩ :=
      C48_plus (fun x : Ind (List Bool) Nat => x.repFitness) sort hs s.pop off'
    rw [hr, hp] at h
    simp only [hl, gt_iff_lt, lt_irrefl, if_false, Except.ok.injEq] at h
    rw [← h]
    show AtZero n kept
    have hall : ∀ x ∈ s.pop ++ off', x.fitness = some (trap n x.genome) ∧ trap n x.genome ≤ n ∧
        (trap n x.genome = n → x.genome = List.replicate n false) := by
      intro x hx
      rcases List.mem_append.1 hx with hx | hx
      · obtain ⟨h1, h2⟩ := hz x hx
        exact ⟨h2, by rw [h1, ht0], fun _ => h1⟩
      · obtain ⟨h1, h2⟩ := hnear x hx
        exact ⟨hf ▸ hofit x hx, trap_near hk _ h1 h2⟩
    have hfit : ∀ x ∈ s.pop ++ off', x.repFitness = trap n x.genome := fun x hx => fitness_eq (hall x hx).1
    intro x hx
    have hxm : x ∈ s.pop ++ off' := hperm.mem_iff.1 (List.mem_append_left _ hx)
    refine ⟨(hall x hxm).2.2 ?_, (hall x hxm).1⟩
    by_contra hlt
    have hlt : x.repFitness < n := by
      rw [hfit x hxm]
      exact lt_of_le_of_ne (hall x hxm).2.1 hlt
    -- too many individuals of fitness `n`
    have hc := hperm.countP_eq fun y => decide (y.repFitness = n)
    rw [List.countP_append, List.countP_append] at hc
    have hd : dropped.countP (fun y => decide (y.repFitness = n)) = 0 := by
      rw [List.countP_eq_zero]
      intro y hy
      have := hbest x hx y hy
      simp only [decide_eq_true_eq]
      simp only at this
      omega
    have hpar : s.pop.countP (fun y => decide (y.repFitness = n)) = s.pop.length := by
      rw [List.countP_eq_length]
      intro y hy
      have hym : y ∈ s.pop ++ off' := List.mem_append_left _ hy
      simp only [decide_eq_true_eq]
      rw [hfit y hym, (hz y hy).1, ht0]
    have hkc : kept.countP (fun y => decide (y.repFitness = n)) < kept.length := by
      rcases Nat.lt_or_ge (kept.countP (fun y => decide (y.repFitness = n))) kept.length with h | h
      · exact h
      · have := List.countP_eq_length.1 (le_antisymm List.countP_le_length h) x hx
        simp only [decide_eq_true_eq] at this
        omega
    omega

/-- With the (mu + lambda) replacement and offspring that differ from an individual of the population in at most `k < n`
bits, a run on the trap started on strings of zeros ends, if it ends, with strings of zeros only: it never finds the optimum,
whatever was drawn and however long it ran. -/
theorem stuck_loop {n k : Nat} (hk : k < n) (ea : EA (List Bool) Nat σ) (hf : ea.f = trap n)
    (hbreed : Near k ea.breed) (sort : List (Ind (List Bool) Nat) → List (Ind (List Bool) Nat))
    (hs : IsSort (fun x : Ind (List Bool) Nat => x.repFitness) sort) (hr : ∀ t, ea.replace t = plusReplacement sort)
    (fuel : Nat) (s s' : RunSt (List Bool) Nat σ) (hz : AtZero n s.pop) (h : ea.loop fuel s = .ok s') :
    AtZero n s'.pop ∧ ¬ HasOptimum n (trap n) s'.pop := by
  have key : AtZero n s'.pop := by
    induction fuel generalizing s with
    | zero => cases h
    | succ fuel ih =>
      unfold EA.loop at h
      cases hg : ea.generation s with
      | error e => simp [hg] at h
      | ok s1 =>
        have h1 := stuck_generation (by omega) hk ea hf hbreed sort hs hr s s1 hz hg
        simp only [hg] at h
        cases hc : ea.cont s1.cs s1.evals s1.pop with
        | error e => simp [hc] at h
        | ok r =>
          obtain ⟨b, cs⟩ := r
          simp only [hc] at h
          cases b with
          | true => exact ih { s1 with cs := cs } h1 h
          | false =>
            simp only [Except.ok.injEq] at h
            rw [← h]; exact h1
  refine ⟨key, ?_⟩
  rintro ⟨x, hx, -, hopt⟩
  have := hopt (List.replicate n true) (by simp)
  rw [(key x hx).1] at this
  have hne : List.replicate n false ≠ List.replicate n true := by
    intro he
    have := congrArg List.head? he
    rw [List.head?_replicate, List.head?_replicate, if_neg (by omega), if_neg (by omega)] at this
    simp at this
  unfold trap at this
  rw [if_pos rfl, if_neg hne, List.count_replicate_self] at this
  omega

/-- C386: a run of eoEasyEA with the (mu + lambda) replacement, on the trap, started on any number of strings of zeros, with
offspring that differ from an individual of the population in at most `k < n` bits, ends, if it ends, with strings of zeros only:
it never finds the optimum, whatever was drawn and however long it ran. -/
theorem C386_stuck {n k : Nat} (hk : k < n) (ea : EA (List Bool) Nat σ) (hf : ea.f = trap n)
    (hbreed : Near k ea.breed) (sort : List (Ind (List Bool) Nat) → List (Ind (List Bool) Nat))
    (hs : IsSort (fun x : Ind (List Bool) Nat => x.repFitness) sort) (hr : ∀ t, ea.replace t = plusReplacement sort)
    (fuel mu evals : Nat) (cs : σ) (s : RunSt (List Bool) Nat σ)
    (h : ea.run fuel (List.replicate mu (Ind.new (List.replicate n false))) evals cs = .ok s) :
    s.pop.map (·.genome) = List.replicate s.pop.length (List.replicate n false) ∧ ¬ HasOptimum n (trap n) s.pop := by
  have hz : AtZero n (ea.start (List.replicate mu (Ind.new (List.replicate n false))) evals cs).pop := by
    have hev := C47_evalPop ea.f evals (List.replicate mu (Ind.new (F := Nat) (List.replicate n false)))
    intro x hx
    refine ⟨?_, ?_⟩
    · have : x.genome ∈ (List.replicate mu (Ind.new (F := Nat) (List.replicate n false))).map (·.genome) :=
        hev.1 ▸ List.mem_map_of_mem hx
      obtain ⟨y, hy, hyx⟩ := List.mem_map.1 this
      rw [(List.mem_replicate.1 hy).2] at hyx
      exact hyx.symm
    · rw [← hf]
      refine hev.2.2.1 ?_ x hx
      intro y hy v hv
      rw [(List.mem_replicate.1 hy).2] at hv
      simp [Ind.new, Ind.fitness] at hv
  obtain ⟨h1, h2⟩ := stuck_loop hk ea hf hbreed sort hs hr fuel _ s hz h
  refine ⟨?_, h2⟩
  rw [List.eq_replicate_iff]
  refine ⟨by simp, fun g hg => ?_⟩
  obtain ⟨x, hx, rfl⟩ := List.mem_map.1 hg
  exact (h1 x hx).1

/-- C386: the mutations that flip a given number of bits of an individual breed such offspring. -/
theorem C386_near (k : Nat) (l l' : List Bool) (hl : 0 < l.length) (r : Nat → Nat) :
    (oneBitFlip r l = .ok l' → l'.length = l.length ∧ hamming l l' ≤ 1) ∧
    (detBitFlip r k l = .ok l' → l'.length = l.length ∧ hamming l l' ≤ k) ∧
    (∀ b, k ≤ l.length → detSingleBitFlip r k l = .ok (l', b) → l'.length = l.length ∧ hamming l l' ≤ k) := by
  refine ⟨fun h => ?_, fun h => ?_, fun b hk h => ?_⟩
  · obtain ⟨l2, h1, h2, h3⟩ := C59_one_bit r l hl
    rw [h, Except.ok.injEq] at h1; subst h1; exact ⟨h2, h3.le⟩
  · obtain ⟨l2, h1, h2, h3, -⟩ := C59_with_replacement r k l hl
    rw [h, Except.ok.injEq] at h1; subst h1; exact ⟨h2, h3⟩
  · obtain ⟨l2, h1, h2, h3⟩ := C59_exactly_k r k l hk
    rw [h, Except.ok.injEq, Prod.mk.injEq] at h1; obtain ⟨rfl, -⟩ := h1; exact ⟨h2, h3.le⟩

/-! ### The hypotheses can be met -/

def fitSort (l : List (Ind (List Bool) Nat)) : List (Ind (List Bool) Nat) :=
  l.insertionSort fun a b => b.repFitness ≤ a.repFitness

/-- One generation of a (1+1) algorithm on three bits with the flip of one bit. -/
def oneFlip : EA (List Bool) Nat Unit where
  f := trap 3
  breed t pop := .ok (pop.map fun x => Ind.new (match oneBitFlip (fun _ => t) x.genome with | .ok g => g | .error _ => x.genome))
  replace _ := plusReplacement fitSort
  cont := fun _ _ pop => .ok (decide (pop.length = 0), ())

example : Near 1 oneFlip.breed ∧ IsSort (fun x : Ind (List Bool) Nat => x.repFitness) fitSort ∧
    (match oneFlip.run 1 (List.replicate 1 (Ind.new (List.replicate 3 false))) 0 () with
      | .ok s => s.gens
      | .error _ => 0) = 1 := by
  refine ⟨?_, ⟨fun l => List.perm_insertionSort _ l, fun l => ?_⟩, by decide +kernel⟩
  rotate_left
  · haveI : IsTrans (Ind (List Bool) Nat) fun a b => b.repFitness ≤ a.repFitness := ⟨fun a b c h1 h2 => h2.trans h1⟩
    haveI : Std.Total fun a b : Ind (List Bool) Nat => b.repFitness ≤ a.repFitness := ⟨fun a b => le_total _ _⟩
    exact List.pairwise_insertionSort _ l
  intro t pop off h x hx
  simp only [oneFlip, Except.ok.injEq] at h
  rw [← h] at hx
  obtain ⟨y, hy, rfl⟩ := List.mem_map.1 hx
  refine ⟨rfl, y, hy, ?_⟩
  cases hg : y.genome with
  | nil => exact ⟨rfl, by simp [hamming]⟩
  | cons b g =>
    obtain ⟨l', h1, h2, h3⟩ := C59_one_bit (fun _ => t) (b :: g) (by simp)
    simp only [h1, Ind.new]
    exact ⟨h2, h3.le⟩

end Paradiseo.EO

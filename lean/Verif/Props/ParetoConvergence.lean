/-
Property C384: the archive-based algorithms moeoSEEA and moeoASEEA, when every generation contains one offspring made
by the bit-flip mutation, fill the archive with exactly the Pareto front, with a probability that tends to one.
-/
import Verif.Props.EAConvergence
import Verif.Props.MoeoEA
import Verif.Props.EOBits
import Mathlib.Data.Fintype.Order

open Finset

namespace Paradiseo.Moeo.Ea
open Paradiseo.Ops (bitMutation)
open Paradiseo.EO (after miss_le flipProb flipsOf flipProb_nonneg flipProb_sum flipProb_ge bitMutation_reach)

variable {V : Type} {n : Nat}

/-- Spec: `v` is the vector of a string of `n` bits and no string of `n` bits dominates it. -/
def Pareto (A : ArchCfg (List Bool) V) (n : Nat) (v : V) : Prop :=
  (∃ g : List Bool, g.length = n ∧ A.ov g = v) ∧ ∀ h : List Bool, h.length = n → A.cmp v (A.ov h) = false

open Classical in
/-- Spec: the Pareto front. -/
noncomputable def paretoFront (A : ArchCfg (List Bool) V) (n : Nat) : Finset V :=
  {v ∈ univ.image fun φ : Fin n → Bool => A.ov (List.ofFn φ) | Pareto A n v}

/-- Spec: the vectors of the archive are exactly the Pareto front. -/
def IsFront (A : ArchCfg (List Bool) V) (n : Nat) (arch : List (List Bool)) : Prop :=
  ∀ v, v ∈ arch.map A.ov ↔ Pareto A n v

/-- The offspring of a generation, as a function of the flips `φ` of one mutation and of the strings it may start from:
among them is the mutation by `φ` of some string of `n` bits; all have `n` bits. -/
def WithMutant (n : Nat) (B : Nat → (Fin n → Bool) → List (List Bool) → List (List Bool)) : Prop :=
  ∀ t src, src ≠ [] → (∀ x ∈ src, x.length = n) →
    (∃ g : List Bool, g.length = n ∧ ∀ φ, (bitMutation (flipsOf φ) g).1 ∈ B t φ src) ∧
      ∀ φ, ∀ x ∈ B t φ src, x.length = n

theorem mem_paretoFront {A : ArchCfg (List Bool) V} {v : V} : v ∈ paretoFront A n ↔ Pareto A n v := by
  classical
  unfold paretoFront
  rw [mem_filter, mem_image]
  refine ⟨fun h => h.2, fun h => ⟨?_, h⟩⟩
  obtain ⟨⟨g, hg, rfl⟩, -⟩ := h
  subst hg
  exact ⟨fun i => g[i], mem_univ _, by simp⟩

/-- Every string is Pareto optimal or dominated by one that is. -/
theorem exists_pareto {A : ArchCfg (List Bool) V} (hA : A.Exact) (g : List Bool) (hg : g.length = n) :
    Pareto A n (A.ov g) ∨ ∃ h : List Bool, h.length = n ∧ A.cmp (A.ov g) (A.ov h) = true ∧ Pareto A n (A.ov h) := by
  classical
  let r : (Fin n → Bool) → (Fin n → Bool) → Prop := fun a b => A.cmp (A.ov (List.ofFn b)) (A.ov (List.ofFn a)) = true
  haveI : IsTrans _ r := ⟨fun a b c h1 h2 => hA.trans _ _ _ h2 h1⟩
  haveI : Std.Irrefl r := ⟨fun a h => by simp only [r, hA.irrefl] at h; exact absurd h (by simp)⟩
  have wf : WellFounded r := Finite.wellFounded_of_trans_of_irrefl r
  have hall : ∀ h : List Bool, h.length = n → ∃ φ : Fin n → Bool, List.ofFn φ = h := by
    intro h hh; subst hh; exact ⟨fun i => h[i], by simp⟩
  have key : ∀ φ : Fin n → Bool, Pareto A n (A.ov (List.ofFn φ)) ∨
      ∃ h : List Bool, h.length = n ∧ A.cmp (A.ov (List.ofFn φ)) (A.ov h) = true ∧ Pareto A n (A.ov h) := by
    intro φ
    induction φ using wf.induction with
    | _ φ ih =>
      by_cases hp : ∀ h : List Bool, h.length = n → A.cmp (A.ov (List.ofFn φ)) (A.ov h) = false
      · exact Or.inl ⟨⟨_, by simp, rfl⟩, hp⟩
      · push Not at hp
        obtain ⟨h, hh, hc⟩ := hp
        obtain ⟨ψ, rfl⟩ := hall h hh
        have hc' : A.cmp (A.ov (List.ofFn φ)) (A.ov (List.ofFn ψ)) = true := by simpa using hc
        rcases ih ψ hc' with h1 | ⟨k, hk, h1, h2⟩
        · exact Or.inr ⟨_, hh, hc', h1⟩
        · exact Or.inr ⟨k, hk, hA.trans _ _ _ hc' h1, h2⟩
  obtain ⟨φ, rfl⟩ := hall g hg
  exact key φ

/-- Everything submitted, generation after generation. -/
def histStep (A : ArchCfg (List Bool) V) (B : Nat → (Fin n → Bool) → List (List Bool) → List (List Bool))
    (φ : Fin n → Bool) (s : Nat × List (List Bool)) : Nat × List (List Bool) :=
  (s.1 + 1, s.2 ++ B s.1 φ (archiveOf A s.2))

theorem archive_ne {A : ArchCfg (List Bool) V} (hA : A.Exact) {hist : List (List Bool)} (hne : hist ≠ []) :
    archiveOf A hist ≠ [] := by
  obtain ⟨x, hx⟩ := List.exists_mem_of_ne_nil _ hne
  classical
  obtain ⟨v, hv, hnd, -⟩ := covers_front (cmp := A.cmp) ⟨hA.irrefl, hA.trans⟩ (hist.map A.ov) (List.mem_map_of_mem (f := A.ov) hx)
  intro h
  have := ((C33_unbounded_archive A hA hist).2.2 v).2 ⟨hv, hnd⟩
  rw [h] at this
  simp at this

/-- An archive of a history of strings of `n` bits that contains the whole Pareto front contains nothing else. -/
theorem isFront_of {A : ArchCfg (List Bool) V} (hA : A.Exact) {hist : List (List Bool)} (hn : ∀ x ∈ hist, x.length = n)
    (h : ∀ v ∈ paretoFront A n, v ∈ (archiveOf A hist).map A.ov) : IsFront A n (archiveOf A hist) := by
  intro v
  refine ⟨fun hv => ?_, fun hv => h v (mem_paretoFront.2 hv)⟩
  obtain ⟨h1, h2⟩ := ((C33_unbounded_archive A hA hist).2.2 v).1 hv
  obtain ⟨g, hg, rfl⟩ := List.mem_map.1 h1
  rcases exists_pareto hA g (hn g hg) with hp | ⟨k, hk, hc, hp⟩
  · exact hp
  · have := ((C33_unbounded_archive A hA hist).2.2 _).1 (h _ (mem_paretoFront.2 hp))
    rw [h2 _ this.1] at hc
    exact absurd hc (by simp)

open Classical in
/-- The probability that the archive is not the front after `T` generations. -/
theorem front_missed_le {A : ArchCfg (List Bool) V} (hA : A.Exact)
    (B : Nat → (Fin n → Bool) → List (List Bool) → List (List Bool)) (hB : WithMutant n B) (p : ℝ) (h0 : 0 ≤ p)
    (h1 : p ≤ 1) (pop : List (List Bool)) (hne : pop ≠ []) (hpop : ∀ x ∈ pop, x.length = n) (T : Nat) :
    ∑ b : Fin T → Fin n → Bool with
        ¬ IsFront A n (archiveOf A (after (histStep A B) (List.ofFn b) (0, pop)).2), ∏ t, flipProb p (b t) ≤
      (paretoFront A n).card * (1 - min p (1 - p) ^ n) ^ T := by
  let inv : Nat × List (List Bool) → Prop := fun s => s.2 ≠ [] ∧ ∀ x ∈ s.2, x.length = n
  have hsrc : ∀ s, inv s → archiveOf A s.2 ≠ [] ∧ ∀ x ∈ archiveOf A s.2, x.length = n := fun s hs =>
    ⟨archive_ne hA hs.1, fun x hx => hs.2 x ((C33_unbounded_archive A hA s.2).1 x hx)⟩
  have hi : ∀ φ s, inv s → inv (histStep A B φ s) := by
    intro φ s hs
    refine ⟨by simp [histStep, hs.1], fun x hx => ?_⟩
    rcases List.mem_append.1 hx with hx | hx
    · exact hs.2 x hx
    · exact (hB _ _ (hsrc s hs).1 (hsrc s hs).2).2 φ x hx
  have hinv : ∀ (l : List (Fin n → Bool)) s, inv s → inv (after (histStep A B) l s) := by
    intro l
    induction l with
    | nil => exact fun s hs => hs
    | cons φ l ih => exact fun s hs => ih _ (hi φ s hs)
  have hf : ∀ v, Pareto A n v → ∀ s, inv s → v ∈ s.2.map A.ov → v ∈ (archiveOf A s.2).map A.ov := by
    intro v hv s hs hm
    refine ((C33_unbounded_archive A hA s.2).2.2 v).2 ⟨hm, fun w hw => ?_⟩
    obtain ⟨h, hh, rfl⟩ := List.mem_map.1 hw
    exact hv.2 h (hs.2 h hh)
  have hk1 : ∀ v, Pareto A n v → ∀ φ s, inv s → v ∈ (archiveOf A s.2).map A.ov →
      v ∈ (archiveOf A (histStep A B φ s).2).map A.ov := by
    intro v hv φ s hs h
    refine hf v hv _ (hi φ s hs) ?_
    have := (((C33_unbounded_archive A hA s.2).2.2 v).1 h).1
    simp only [histStep, List.map_append, List.mem_append]
    exact Or.inl this
  have hk2 : ∀ v, Pareto A n v → ∀ s, inv s → ∃ φ, min p (1 - p) ^ n ≤ flipProb p φ ∧
      v ∈ (archiveOf A (histStep A B φ s).2).map A.ov := by
    intro v hv s hs
    obtain ⟨⟨o, ho, rfl⟩, -⟩ := id hv
    obtain ⟨g, hg, hmem⟩ := (hB s.1 _ (hsrc s hs).1 (hsrc s hs).2).1
    obtain ⟨φ, hφ⟩ := bitMutation_reach g o hg ho
    refine ⟨φ, flipProb_ge h0 h1 φ, hf _ hv _ (hi φ s hs) ?_⟩
    have := hmem φ
    rw [hφ] at this
    simp only [histStep, List.map_append, List.mem_append]
    exact Or.inr (List.mem_map_of_mem this)
  have one : ∀ v ∈ paretoFront A n, ∑ b : Fin T → Fin n → Bool,
      (if v ∈ (archiveOf A (after (histStep A B) (List.ofFn b) (0, pop)).2).map A.ov then 0 else ∏ t, flipProb p (b t)) ≤
        (1 - min p (1 - p) ^ n) ^ T := by
    intro v hv
    have hv := mem_paretoFront.1 hv
    have key := miss_le (flipProb p) (flipProb_nonneg h0 h1) (flipProb_sum n p) (min p (1 - p) ^ n) (histStep A B)
      (fun s => v ∈ (archiveOf A s.2).map A.ov) inv (hk1 v hv) hi (hk2 v hv) T (0, pop) ⟨hne, hpop⟩
    convert key
  calc _ = ∑ b : Fin T → Fin n → Bool,
        (if IsFront A n (archiveOf A (after (histStep A B) (List.ofFn b) (0, pop)).2) then 0
          else ∏ t, flipProb p (b t)) := by
        rw [sum_filter]
        exact sum_congr rfl fun b _ => by split_ifs <;> simp_all
    _ ≤ ∑ b : Fin T → Fin n → Bool, ∑ v ∈ paretoFront A n,
        (if v ∈ (archiveOf A (after (histStep A B) (List.ofFn b) (0, pop)).2).map A.ov then 0
          else ∏ t, flipProb p (b t)) := by
        refine sum_le_sum fun b _ => ?_
        have hw : 0 ≤ ∏ t, flipProb p (b t) := prod_nonneg fun t _ => flipProb_nonneg h0 h1 _
        have hpos : ∀ v ∈ paretoFront A n, 0 ≤
            (if v ∈ (archiveOf A (after (histStep A B) (List.ofFn b) (0, pop)).2).map A.ov then 0
              else ∏ t, flipProb p (b t)) := fun v _ => by split_ifs <;> first | exact le_rfl | exact hw
        by_cases hfr : IsFront A n (archiveOf A (after (histStep A B) (List.ofFn b) (0, pop)).2)
        · rw [if_pos hfr]; exact sum_nonneg hpos
        · rw [if_neg hfr]
          have : ∃ v ∈ paretoFront A n, v ∉ (archiveOf A (after (histStep A B) (List.ofFn b) (0, pop)).2).map A.ov := by
            by_contra hc
            push Not at hc
            exact hfr (isFront_of hA (hinv _ _ ⟨hne, hpop⟩).2 hc)
          obtain ⟨v, hv, hnv⟩ := this
          refine le_trans (le_of_eq ?_) (single_le_sum hpos hv)
          rw [if_neg hnv]
    _ = ∑ v ∈ paretoFront A n, ∑ b : Fin T → Fin n → Bool,
        (if v ∈ (archiveOf A (after (histStep A B) (List.ofFn b) (0, pop)).2).map A.ov then 0
          else ∏ t, flipProb p (b t)) := sum_comm
    _ ≤ ∑ v ∈ paretoFront A n, (1 - min p (1 - p) ^ n) ^ T := sum_le_sum one
    _ = _ := by rw [sum_const, nsmul_eq_mul]

/-! ### C384 -/

/-- The breeding of a run with the flips `b`: nothing after the last generation. -/
def bred (B : Nat → (Fin n → Bool) → List (List Bool) → List (List Bool)) (b : List (Fin n → Bool)) (t : Nat)
    (src : List (List Bool)) : List (List Bool) :=
  match b[t]? with
  | some φ => B t φ src
  | none => []

/-- A run of moeoSEEA of `T` generations on an empty archive, with the flips `b`. -/
def seeaRun (A : ArchCfg (List Bool) V) (B : Nat → (Fin n → Bool) → List (List Bool) → List (List Bool))
    (pop : List (List Bool)) (b : List (Fin n → Bool)) :=
  seea A (.genOp fun t pop arch => bred B b t (source pop arch)) (fun t _ => decide (t < b.length)) (b.length + 1) pop []

theorem seeaRun_eq {A : ArchCfg (List Bool) V} (hA : A.Exact)
    (B : Nat → (Fin n → Bool) → List (List Bool) → List (List Bool)) (pop : List (List Bool)) (hne : pop ≠ [])
    (b : List (Fin n → Bool)) :
    ∃ p seen, seeaRun A B pop b = .done (p, archiveOf A (after (histStep A B) b (0, pop)).2, seen) := by
  have key : ∀ (l pre : List (Fin n → Bool)) (hist : List (List Bool)) (seen : List (List (List Bool))), b = pre ++ l →
      hist ≠ [] → ∃ p seen', seeaLoop A (.genOp fun t pop arch => bred B b t (source pop arch))
        (fun t _ => decide (t < b.length)) (l.length + 1) pre.length pop (archiveOf A hist) seen =
        .done (p, archiveOf A (after (histStep A B) l (pre.length, hist)).2, seen') := by
    intro l
    induction l with
    | nil =>
      intro pre hist seen hb _
      refine ⟨pop, seen ++ [pop], ?_⟩
      unfold seeaLoop
      simp [hb, after]
    | cons φ l ih =>
      intro pre hist seen hb hh
      unfold seeaLoop
      have hlt : pre.length < b.length := by simp [hb]
      have hget : b[pre.length]? = some φ := by simp [hb]
      rw [if_pos (by simpa using hlt)]
      have hs : source pop (archiveOf A hist) = archiveOf A hist := by
        unfold source; rw [if_pos (List.length_pos_iff.2 (archive_ne hA hh))]
      have e : (updatePop A (archiveOf A hist) (seeaBreed (.genOp fun t pop arch =>
          bred B b t (source pop arch)) pre.length pop (archiveOf A hist))).1 =
          archiveOf A (hist ++ B pre.length φ (archiveOf A hist)) := by
        simp only [seeaBreed, bred, hget, hs]
        unfold archiveOf
        rw [updatePop_append]
      rw [e]
      obtain ⟨p, seen', h⟩ := ih (pre ++ [φ]) (hist ++ B pre.length φ (archiveOf A hist)) (seen ++ [pop])
        (by simp [hb]) (by simp [hh])
      refine ⟨p, seen', ?_⟩
      simp only [List.length_append, List.length_cons, List.length_nil, Nat.zero_add] at h
      rw [List.length_cons, h]
      rfl
  exact key b [] pop [] rfl hne

/-- A run of moeoASEEA of `T` generations on an empty archive, with the flips `b`. -/
def aseeaRun (A : ArchCfg (List Bool) V) (mx : Nat) (perm : Nat → List Nat → List Nat)
    (B : Nat → (Fin n → Bool) → List (List Bool) → List (List Bool)) (pop : List (List Bool)) (b : List (Fin n → Bool)) :=
  aseea A mx perm (bred B b) (fun t _ => decide (t < b.length)) (b.length + 1) pop []

/-- The parents moeoASEEA takes from the archive. -/
def picked (mx : Nat) (perm : List Nat → List Nat) (arch : List (List Bool)) : List (List Bool) :=
  match detArchiveSelect mx 0 perm arch [] with
  | .done r => r
  | _ => []

theorem picked_spec (mx : Nat) (hmx : 0 < mx) {perm : List Nat → List Nat} (hp : ∀ l, (perm l).Perm l)
    (arch : List (List Bool)) (hne : arch ≠ []) :
    detArchiveSelect mx 0 perm arch [] = .done (picked mx perm arch) ∧ picked mx perm arch ≠ [] ∧
      ∀ x ∈ picked mx perm arch, x ∈ arch := by
  obtain ⟨-, h2, h3, -, -⟩ := C172_archive_select mx 0 hp arch []
  by_cases h : arch.length ≤ mx
  · have := h2 (Nat.zero_le _) (Nat.zero_le _) h
    simp only [picked, this]
    exact ⟨trivial, hne, fun x hx => hx⟩
  · obtain ⟨r, hr, hl, hs⟩ := h3 (Nat.zero_le _) (by omega)
    simp only [picked, hr]
    refine ⟨trivial, fun he => ?_, fun x hx => hs.subset hx⟩
    rw [he] at hl
    simp only [List.length_nil] at hl
    omega

theorem aseeaRun_eq {A : ArchCfg (List Bool) V} (hA : A.Exact) (mx : Nat) (hmx : 0 < mx)
    (perm : Nat → List Nat → List Nat) (hp : ∀ t l, (perm t l).Perm l)
    (B : Nat → (Fin n → Bool) → List (List Bool) → List (List Bool)) (pop : List (List Bool)) (hne : pop ≠ [])
    (b : List (Fin n → Bool)) :
    ∃ p seen, aseeaRun A mx perm B pop b = .done (p, archiveOf A
      (after (histStep A fun t φ arch => B t φ (picked mx (perm t) arch)) b (0, pop)).2, seen) := by
  have key : ∀ (l pre : List (Fin n → Bool)) (pop hist : List (List Bool)) (seen : List (List (List Bool))),
      b = pre ++ l → hist ≠ [] → ∃ p seen', aseeaLoop A mx perm (bred B b)
        (fun t _ => decide (t < b.length)) (l.length + 1) pre.length pop (archiveOf A hist) seen =
        .done (p, archiveOf A (after (histStep A fun t φ arch => B t φ (picked mx (perm t) arch)) l
          (pre.length, hist)).2, seen') := by
    intro l
    induction l with
    | nil =>
      intro pre pop hist seen hb _
      refine ⟨pop, seen ++ [pop], ?_⟩
      unfold aseeaLoop
      simp [hb, after]
    | cons φ l ih =>
      intro pre pop hist seen hb hh
      unfold aseeaLoop
      have hlt : pre.length < b.length := by simp [hb]
      have hget : b[pre.length]? = some φ := by simp [hb]
      rw [if_pos (by simpa using hlt), (picked_spec mx hmx (hp pre.length) _ (archive_ne hA hh)).1]
      simp only
      have e : (updatePop A (archiveOf A hist) (bred B b pre.length (picked mx (perm pre.length) (archiveOf A hist)))).1 =
          archiveOf A (hist ++ B pre.length φ (picked mx (perm pre.length) (archiveOf A hist))) := by
        simp only [bred, hget]
        unfold archiveOf
        rw [updatePop_append]
      rw [e]
      obtain ⟨p, seen', h⟩ := ih (pre ++ [φ]) [] (hist ++ B pre.length φ (picked mx (perm pre.length) (archiveOf A hist)))
        (seen ++ [pop]) (by simp [hb]) (by simp [hh])
      refine ⟨p, seen', ?_⟩
      simp only [List.length_append, List.length_cons, List.length_nil, Nat.zero_add] at h
      rw [List.length_cons, h]
      rfl
  exact key b [] pop pop [] rfl hne

/-- The run ends and leaves exactly the Pareto front in the archive. -/
def Finds (A : ArchCfg (List Bool) V) (n : Nat) (r : Out (List (List Bool) × List (List Bool) × List (List (List Bool)))) :
    Prop := ∃ p arch seen, r = .done (p, arch, seen) ∧ IsFront A n arch

theorem finds_done {A : ArchCfg (List Bool) V} {r : Out (List (List Bool) × List (List Bool) × List (List (List Bool)))}
    {arch : List (List Bool)} (h : ∃ p seen, r = .done (p, arch, seen)) : Finds A n r ↔ IsFront A n arch := by
  obtain ⟨p, seen, rfl⟩ := h
  constructor
  · rintro ⟨p', a', s', h, hf⟩
    simp only [Out.done.injEq, Prod.mk.injEq] at h
    rw [h.2.1]; exact hf
  · exact fun hf => ⟨p, arch, seen, rfl, hf⟩

open Classical in
/-- C384: moeoSEEA.  Whatever the choice of the mutated string, the other offspring and the initial population, the
probability that `T` generations do not leave exactly the Pareto front in the archive is at most the size of the front
times `(1 - min p (1-p) ^ n) ^ T`. -/
theorem C384_seea {A : ArchCfg (List Bool) V} (hA : A.Exact)
    (B : Nat → (Fin n → Bool) → List (List Bool) → List (List Bool)) (hB : WithMutant n B) (p : ℝ) (h0 : 0 ≤ p)
    (h1 : p ≤ 1) (pop : List (List Bool)) (hne : pop ≠ []) (hpop : ∀ x ∈ pop, x.length = n) (T : Nat) :
    ∑ b : Fin T → Fin n → Bool with ¬ Finds A n (seeaRun A B pop (List.ofFn b)), ∏ t, flipProb p (b t) ≤
      (paretoFront A n).card * (1 - min p (1 - p) ^ n) ^ T := by
  refine le_trans (le_of_eq ?_) (front_missed_le hA B hB p h0 h1 pop hne hpop T)
  refine sum_congr ?_ fun _ _ => rfl
  ext b
  simp only [mem_filter, mem_univ, true_and, finds_done (seeaRun_eq hA B pop hne (List.ofFn b))]

open Classical in
/-- C384: the same for moeoASEEA, which breeds from at most `mx` members of the archive. -/
theorem C384_aseea {A : ArchCfg (List Bool) V} (hA : A.Exact) (mx : Nat) (hmx : 0 < mx)
    (perm : Nat → List Nat → List Nat) (hp : ∀ t l, (perm t l).Perm l)
    (B : Nat → (Fin n → Bool) → List (List Bool) → List (List Bool)) (hB : WithMutant n B) (p : ℝ) (h0 : 0 ≤ p)
    (h1 : p ≤ 1) (pop : List (List Bool)) (hne : pop ≠ []) (hpop : ∀ x ∈ pop, x.length = n) (T : Nat) :
    ∑ b : Fin T → Fin n → Bool with ¬ Finds A n (aseeaRun A mx perm B pop (List.ofFn b)), ∏ t, flipProb p (b t) ≤
      (paretoFront A n).card * (1 - min p (1 - p) ^ n) ^ T := by
  have hB' : WithMutant n fun t φ arch => B t φ (picked mx (perm t) arch) := by
    intro t src hs hl
    obtain ⟨-, h2, h3⟩ := picked_spec mx hmx (hp t) src hs
    exact hB t _ h2 fun x hx => hl x (h3 x hx)
  refine le_trans (le_of_eq ?_) (front_missed_le hA _ hB' p h0 h1 pop hne hpop T)
  refine sum_congr ?_ fun _ _ => rfl
  ext b
  simp only [mem_filter, mem_univ, true_and, finds_done (aseeaRun_eq hA mx hmx perm hp B pop hne (List.ofFn b))]

open Classical in
/-- C384: hence, with `0 < p < 1`, both probabilities tend to zero. -/
theorem C384_limit {A : ArchCfg (List Bool) V} (hA : A.Exact) (mx : Nat) (hmx : 0 < mx)
    (perm : Nat → List Nat → List Nat) (hp : ∀ t l, (perm t l).Perm l)
    (B : Nat → (Fin n → Bool) → List (List Bool) → List (List Bool)) (hB : WithMutant n B) (p : ℝ) (h0 : 0 < p)
    (h1 : p < 1) (pop : List (List Bool)) (hne : pop ≠ []) (hpop : ∀ x ∈ pop, x.length = n) :
    Filter.Tendsto (fun T => ∑ b : Fin T → Fin n → Bool with ¬ Finds A n (seeaRun A B pop (List.ofFn b)),
      ∏ t, flipProb p (b t)) Filter.atTop (nhds 0) ∧
    Filter.Tendsto (fun T => ∑ b : Fin T → Fin n → Bool with ¬ Finds A n (aseeaRun A mx perm B pop (List.ofFn b)),
      ∏ t, flipProb p (b t)) Filter.atTop (nhds 0) := by
  have hm : 0 < min p (1 - p) := lt_min h0 (by linarith)
  have hm1 : min p (1 - p) ≤ 1 := (min_le_left _ _).trans h1.le
  have hpow : 0 < min p (1 - p) ^ n := pow_pos hm n
  have hpow1 : min p (1 - p) ^ n ≤ 1 := pow_le_one₀ hm.le hm1
  have hlim : Filter.Tendsto (fun T : Nat => ((paretoFront A n).card : ℝ) * (1 - min p (1 - p) ^ n) ^ T) Filter.atTop
      (nhds 0) := by
    simpa using (tendsto_pow_atTop_nhds_zero_of_lt_one (r := 1 - min p (1 - p) ^ n) (by linarith)
      (by linarith)).const_mul ((paretoFront A n).card : ℝ)
  exact ⟨squeeze_zero (fun T => sum_nonneg fun b _ => prod_nonneg fun t _ => flipProb_nonneg h0.le h1.le _)
      (fun T => C384_seea hA B hB p h0.le h1.le pop hne hpop T) hlim,
    squeeze_zero (fun T => sum_nonneg fun b _ => prod_nonneg fun t _ => flipProb_nonneg h0.le h1.le _)
      (fun T => C384_aseea hA mx hmx perm hp B hB p h0.le h1.le pop hne hpop T) hlim⟩

/-! ### The hypotheses can be met -/

/-- Number of ones and number of zeros of the first two bits, both to be maximised, with one mutant per generation. -/
example : let A : ArchCfg (List Bool) (Nat × Nat) := ⟨fun g => (g.count true, (g.take 2).count false),
      fun u v => decide (u.1 ≤ v.1 ∧ u.2 ≤ v.2 ∧ u ≠ v), fun u v => decide (u = v), false⟩
    let B : Nat → (Fin 3 → Bool) → List (List Bool) → List (List Bool) := fun _ φ src =>
      [(bitMutation (flipsOf φ) (src.headD [])).1]
    A.Exact ∧ WithMutant 3 B ∧ Pareto A 3 (1, 2) ∧ Pareto A 3 (3, 0) := by
  refine ⟨⟨fun v => by simp, fun u v w => ?_, by simp⟩, ?_, ?_, ?_⟩
  · simp only [decide_eq_true_eq]
    rintro ⟨a, b, c⟩ ⟨d, e, f⟩
    refine ⟨a.trans d, b.trans e, fun h => c ?_⟩
    subst h
    exact Prod.ext (le_antisymm a d) (le_antisymm b e)
  · intro t src hs hl
    cases src with
    | nil => exact absurd rfl hs
    | cons x src =>
      refine ⟨⟨x, hl x (by simp), fun φ => by simp⟩, fun φ y hy => ?_⟩
      simp only [List.headD_cons, List.mem_singleton] at hy
      rw [hy, (Paradiseo.Ops.C59_bit_mutation _ _).1]
      exact hl x (by simp)
  · refine ⟨⟨[false, false, true], rfl, rfl⟩, fun h hh => ?_⟩
    match h, hh with
    | [a, b, c], _ => revert a b c; decide
  · refine ⟨⟨[true, true, true], rfl, rfl⟩, fun h hh => ?_⟩
    match h, hh with
    | [a, b, c], _ => revert a b c; decide

end Paradiseo.Moeo.Ea

import Verif.Model.MultiStart
import Verif.Props.Mpi
import Mathlib.Tactic.Ring
/-! The invariant of distributed restarts. -/

namespace Paradiseo.MultiStart

open Paradiseo.Mpi

variable {S E σ : Type}

/-- The results of the first `n` runs of a worker that begins in state `s`. -/
def results (proc : S → E × S) : Nat → S → List E
  | 0, _ => []
  | n + 1, s => (proc s).1 :: results proc n (proc s).2

/-- The state of the worker after `n` runs. -/
def after (proc : S → E × S) : Nat → S → S
  | 0, s => s
  | n + 1, s => after proc n (proc s).2

theorem results_succ (proc : S → E × S) (n : Nat) (s : S) :
    results proc (n + 1) s = results proc n s ++ [(proc (after proc n s)).1] := by
  induction n generalizing s with
  | zero => rfl
  | succ n ih => rw [results, ih]; rfl

theorem after_succ (proc : S → E × S) (n : Nat) (s : S) : after proc (n + 1) s = (proc (after proc n s)).2 := by
  induction n generalizing s with
  | zero => rfl
  | succ n ih => rw [after, ih]; rfl

theorem results_length (proc : S → E × S) (n : Nat) (s : S) : (results proc n s).length = n := by
  induction n generalizing s with
  | zero => rfl
  | succ n ih => simp [results, ih]

/-- What was received from worker `w`. -/
def ofW (w : Nat) (l : List (Nat × E)) : List E := (l.filter fun p => decide (p.1 = w)).map (·.2)

/-- The part of the invariant that does not depend on where the master is. -/
structure Core (A : Assign σ) (a : σ) (proc : S → E × S) (W : Finset Nat) (I : σ → Finset Nat → Nat → Prop)
    (runs : Int) (b0 : List (Nat × E)) (s0 : Nat → S) (B : Prop) (F : Finset Nat) (k : Nat) (s : St S E σ) : Prop where
  alg : I s.alg F k
  sub : F ⊆ W
  budget : B → s.runs.toNat ≤ k
  busy : ∀ w ∈ W, w ∉ F → (s.inbox w = 1 ∧ s.outbox w = []) ∨ (s.inbox w = 0 ∧ ∃ e, s.outbox w = [e])
  free : ∀ w, w ∈ F ∨ w ∉ W → s.inbox w = 0 ∧ s.outbox w = []
  old : ∃ l, s.bests = b0 ++ l ∧ l.length + ∑ w ∈ W, (s.inbox w + (s.outbox w).length) = s.given.length ∧
    (∀ p ∈ l, p.1 ∈ W) ∧
    ∀ w, ∃ n, results proc n (s0 w) = ofW w l ++ s.outbox w ∧ s.wrk w = after proc n (s0 w) ∧
      s.given.count w = n + s.inbox w
  total : s.given.length + s.runs.toNat = runs.toNat
  mem : ∀ w ∈ s.given, w ∈ W
  uses : ∃ out, Uses A a s.alg s.given out ∧ ∀ w, out.count w = s.inbox w + (s.outbox w).length

section
variable {A : Assign σ} {a : σ} {proc : S → E × S} {W : Finset Nat} {I : σ → Finset Nat → Nat → Prop}
  {runs : Int} {b0 : List (Nat × E)} {s0 : Nat → S} {B : Prop} {F : Finset Nat} {k : Nat} {s s' : St S E σ}

theorem Core.of_outbox (h : Core A a proc W I runs b0 s0 B F k s) {w : Nat} {e : E} {rest : List E}
    (ho : s.outbox w = e :: rest) : w ∈ W ∧ w ∉ F ∧ rest = [] ∧ s.inbox w = 0 := by
  by_cases hw : w ∈ F ∨ w ∉ W
  · rw [(h.free w hw).2] at ho
    simp at ho
  · push Not at hw
    rcases h.busy w hw.2 hw.1 with h3 | ⟨h3, e', h4⟩
    · rw [h3.2] at ho
      simp at ho
    · rw [h4] at ho
      simp only [List.cons.injEq] at ho
      exact ⟨hw.2, hw.1, ho.2.symm, h3⟩

theorem core_handle (hA : Lawful A W I) (h : Core A a proc W I runs b0 s0 B F k s) {w : Nat} {e : E}
    {rest : List E} (ho : s.outbox w = e :: rest) :
    Core A a proc W I runs b0 s0 B (insert w F) k (s.handle A w e rest) := by
  obtain ⟨hw, hwF, rfl, hin⟩ := h.of_outbox ho
  exact
    { alg := hA.confirm _ _ _ _ h.alg h.sub hw hwF
      sub := Finset.insert_subset hw h.sub
      budget := h.budget
      busy := by
        intro v hv hvF
        simp only [Finset.mem_insert, not_or] at hvF
        simpa [St.handle, hvF.1] using h.busy v hv hvF.2
      free := by
        intro v hv
        by_cases hvw : v = w
        · subst hvw
          simp [St.handle, hin]
        · simpa [St.handle, hvw] using h.free v (by simpa [hvw] using hv)
      old := by
        obtain ⟨l, h1, h2, h3, h4⟩ := h.old
        refine ⟨l ++ [(w, e)], ?_, ?_, ?_, ?_⟩
        · simp [St.handle, h1]
        · have := sum_update (W := W) (g := fun v => s.inbox v + (s.outbox v).length)
            (h := fun v => s.inbox v + (Function.update s.outbox w [] v).length) hw
            (by intro v hv; simp [hv])
          simp only [ho, Function.update_self, List.length_singleton, List.length_nil] at this
          simp only [St.handle, List.length_append, List.length_singleton]
          omega
        · intro p hp
          rcases List.mem_append.mp hp with hp | hp
          · exact h3 p hp
          · rw [List.mem_singleton.mp hp]; exact hw
        · intro v
          obtain ⟨n, g1, g2, g3⟩ := h4 v
          refine ⟨n, ?_, g2, g3⟩
          by_cases hvw : v = w
          · subst hvw
            rw [g1, ho]
            simp [St.handle, ofW]
          · rw [g1]
            simp [St.handle, ofW, hvw, Ne.symm hvw]
      total := h.total
      mem := h.mem
      uses := by
        obtain ⟨out, h1, h2⟩ := h.uses
        have hm : w ∈ out := by
          apply List.count_pos_iff.mp
          rw [h2, ho]
          simp
        refine ⟨_, Uses.confirm _ _ _ w h1 hm, ?_⟩
        intro v
        by_cases hvw : v = w
        · subst hvw
          rw [List.count_erase_self, h2, ho]
          simp [St.handle]
        · rw [List.count_erase_of_ne hvw, h2]
          simp [St.handle, hvw] }

theorem core_assign (hA : Lawful A W I) (h : Core A a proc W I runs b0 s0 B F k s) (hne : ¬ s.runs ≤ 0) :
    (((A.get s.alg).1 ≤ 0 ∧ (s.assign A).phase = .wait ∧ Core A a proc W I runs b0 s0 B F k (s.assign A) ∧
      (s.assign A).runs = s.runs ∧ (s.assign A).inbox = s.inbox) ∨
     ∃ r ∈ F, 0 < (A.get s.alg).1 ∧ (s.assign A).phase = .check ∧
        Core A a proc W I runs b0 s0 B (F.erase r) (k - 1) (s.assign A) ∧
        (s.assign A).runs = s.runs - 1 ∧
        ∑ v ∈ W, (s.assign A).inbox v = ∑ v ∈ W, s.inbox v + 1) ∧
    (s.assign A).finishes = s.finishes ∧ (s.assign A).outbox = s.outbox := by
  rcases hA.get _ _ _ h.alg h.sub with ⟨hg, hI⟩ | ⟨r, hr, hr0, hg, hI⟩
  · have e : s.assign A = { s with alg := (A.get s.alg).2, phase := .wait } := by
      unfold St.assign; rw [if_pos hg]
    rw [e]
    refine ⟨Or.inl ⟨hg, rfl, ?_, rfl, rfl⟩, rfl, rfl⟩
    obtain ⟨out, h1, h2⟩ := h.uses
    exact { alg := hI, sub := h.sub, budget := h.budget, busy := h.busy, free := h.free, old := h.old
            total := h.total, mem := h.mem, uses := ⟨out, Uses.nobody _ _ _ h1 hg, h2⟩ }
  · have hpos : ¬ (A.get s.alg).1 ≤ 0 := by omega
    have e : s.assign A = ({ s with alg := (A.get s.alg).2 } : St S E σ).send r := by
      unfold St.assign; rw [if_neg hpos, hg]; rfl
    have hrW := h.sub hr
    obtain ⟨f1, f2⟩ := h.free r (Or.inl hr)
    have hsum := sum_update (W := W) (g := s.inbox)
      (h := Function.update s.inbox r (s.inbox r + 1)) hrW (by intro v hv; simp [hv])
    rw [Function.update_self] at hsum
    rw [e]
    refine ⟨Or.inr ⟨r, hr, by omega, rfl, ?_, rfl, by simp only [St.send]; omega⟩, rfl, rfl⟩
    refine
      { alg := hI
        sub := (Finset.erase_subset _ _).trans h.sub
        budget := ?_
        busy := ?_
        free := ?_
        old := ?_
        total := ?_
        mem := ?_
        uses := ?_ }
    · intro hB
      have := h.budget hB
      simp only [St.send]
      omega
    · intro v hv hvF
      by_cases hvr : v = r
      · subst hvr
        left
        simp [St.send, f1, f2]
      · have : v ∉ F := fun hc => hvF (Finset.mem_erase.mpr ⟨hvr, hc⟩)
        simpa [St.send, hvr] using h.busy v hv this
    · intro v hv
      have hvr : v ≠ r := by
        rintro rfl
        rcases hv with hv | hv
        · simp at hv
        · exact hv hrW
      simpa [St.send, hvr] using h.free v (hv.imp (fun x => (Finset.mem_erase.mp x).2) id)
    · obtain ⟨l, h1, h2, h3, h4⟩ := h.old
      refine ⟨l, h1, ?_, h3, ?_⟩
      · simp only [St.send, List.length_cons, Finset.sum_add_distrib] at h2 ⊢
        omega
      · intro v
        obtain ⟨n, g1, g2, g3⟩ := h4 v
        refine ⟨n, g1, g2, ?_⟩
        simp only [St.send]
        by_cases hvr : v = r
        · subst hvr
          simp [g3]; ring
        · simp [hvr, g3, Ne.symm hvr]
    · have := h.total
      simp only [St.send, List.length_cons]
      omega
    · intro w hw
      simp only [St.send, List.mem_cons] at hw
      rcases hw with rfl | hw
      · exact hrW
      · exact h.mem w hw
    · obtain ⟨out, h1, h2⟩ := h.uses
      refine ⟨r :: out, Uses.get _ _ _ r h1 hr0 hg, ?_⟩
      intro v
      simp only [St.send]
      by_cases hvr : v = r
      · subst hvr
        simp [h2]; ring
      · simp [hvr, h2, Ne.symm hvr]

theorem core_work (h : Core A a proc W I runs b0 s0 B F k s) {w : Nat} (hi : 0 < s.inbox w) :
    w ∈ W ∧ s.inbox w = 1 ∧ s.outbox w = [] ∧ Core A a proc W I runs b0 s0 B F k (s.work proc w) := by
  by_cases hw : w ∈ F ∨ w ∉ W
  · rw [(h.free w hw).1] at hi
    omega
  push Not at hw
  rcases h.busy w hw.2 hw.1 with h3 | h3
  swap
  · omega
  refine ⟨hw.2, h3.1, h3.2, ?_⟩
  exact
    { alg := h.alg
      sub := h.sub
      budget := h.budget
      busy := by
        intro v hv hvF
        by_cases hvw : v = w
        · subst hvw
          right
          simp [St.work, h3.1, h3.2]
        · simpa [St.work, hvw] using h.busy v hv hvF
      free := by
        intro v hv
        have hvw : v ≠ w := by
          rintro rfl
          rcases hv with hv | hv
          · exact hw.1 hv
          · exact hv hw.2
        simpa [St.work, hvw] using h.free v hv
      old := by
        obtain ⟨l, h1, h2, h4, h5⟩ := h.old
        refine ⟨l, h1, ?_, h4, ?_⟩
        · have := sum_update (W := W) (g := fun v => s.inbox v + (s.outbox v).length)
            (h := fun v => (s.work proc w).inbox v + ((s.work proc w).outbox v).length) hw.2
            (by intro v hv; simp [St.work, hv])
          simp only [St.work, Function.update_self, h3.1, h3.2, List.nil_append, List.length_singleton,
            List.length_nil] at this
          simp only [St.work, h3.1, h3.2, List.nil_append]
          omega
        · intro v
          obtain ⟨n, g1, g2, g3⟩ := h5 v
          by_cases hvw : v = w
          · subst hvw
            refine ⟨n + 1, ?_, ?_, ?_⟩
            · rw [results_succ, g1, ← g2]
              simp [St.work, h3.2]
            · rw [after_succ, ← g2]
              simp [St.work]
            · simp only [St.work, Function.update_self]
              omega
          · exact ⟨n, by simpa [St.work, hvw] using g1, by simpa [St.work, hvw] using g2,
              by simpa [St.work, hvw] using g3⟩
      total := h.total
      mem := h.mem
      uses := by
        obtain ⟨out, h1, h2⟩ := h.uses
        refine ⟨out, h1, ?_⟩
        intro v
        rw [h2]
        by_cases hvw : v = w
        · subst hvw
          simp [St.work, h3.1, h3.2]
        · simp [St.work, hvw] }

end

/-- The whole invariant. -/
structure Inv (A : Assign σ) (a : σ) (proc : S → E × S) (W : Finset Nat) (I : σ → Finset Nat → Nat → Prop)
    (runs : Int) (b0 : List (Nat × E)) (s0 : Nat → S) (B : Prop) (F : Finset Nat) (k : Nat) (s : St S E σ) : Prop
    extends Core A a proc W I runs b0 s0 B F k s where
  fins : ∀ w, s.finishes w = if (s.phase = .fin ∨ s.phase = .done) ∧ w ∈ F then 1 else 0
  ended : s.phase = .fin ∨ s.phase = .done → s.runs ≤ 0
  all : s.phase = .done → F = W
  waits : s.phase = .wait → ¬ s.runs ≤ 0 ∧ (B → F ≠ W)

/-- The number of steps that can still be taken. -/
def measure (W : Finset Nat) (s : St S E σ) : Nat :=
  4 * s.runs.toNat + 2 * ∑ w ∈ W, s.inbox w + ∑ w ∈ W, (s.outbox w).length +
    match s.phase with
    | .check => 3
    | .wait => 2
    | .fin => 1
    | .done => 0

section
variable {A : Assign σ} {a : σ} {proc : S → E × S} {W : Finset Nat} {I : σ → Finset Nat → Nat → Prop}
  {runs : Int} {b0 : List (Nat × E)} {s0 : Nat → S} {B : Prop} {F : Finset Nat} {k : Nat} {s s' : St S E σ}

theorem inv_step (hA : Lawful A W I) (h : Inv A a proc W I runs b0 s0 B F k s) (hs : Step A proc W.card s s') :
    (∃ F' k', Inv A a proc W I runs b0 s0 B F' k' s') ∧ measure W s' < measure W s := by
  cases hs with
  | next hph hne =>
    obtain ⟨h1, h2, h3⟩ := core_assign hA h.toCore hne
    have hfin0 : ∀ w, s.finishes w = 0 := by intro w; rw [h.fins w]; simp [hph]
    rcases h1 with ⟨g0, g1, g2, g3, g4⟩ | ⟨r, hr, g0, g1, g2, g3, g4⟩
    · refine ⟨⟨F, k, { g2 with fins := ?_, ended := ?_, all := ?_, waits := ?_ }⟩, ?_⟩
      · intro w; rw [h2, hfin0]; simp [g1]
      · simp [g1]
      · simp [g1]
      · intro _
        refine ⟨by rw [g3]; exact hne, ?_⟩
        intro hB hFW
        subst hFW
        have hb := h.budget hB
        have := hA.live _ _ h.alg (by omega)
        omega
      · simp only [measure, g1, g3, g4, h3, hph]
        omega
    · refine ⟨⟨F.erase r, k - 1, { g2 with fins := ?_, ended := ?_, all := ?_, waits := ?_ }⟩, ?_⟩
      · intro w; rw [h2, hfin0]; simp [g1]
      · simp [g1]
      · simp [g1]
      · simp [g1]
      · simp only [measure, g1, g3, g4, h3, hph]
        omega
  | response w e rest hph ho =>
    obtain ⟨hwW, hwF, rfl, hin⟩ := h.of_outbox ho
    have hc := core_handle hA h.toCore ho
    have hw := h.waits hph
    have hne : ¬ (s.handle A w e []).runs ≤ 0 := hw.1
    obtain ⟨h1, h2, h3⟩ := core_assign hA hc hne
    have hfin0 : ∀ w, s.finishes w = 0 := by intro w; rw [h.fins w]; simp [hph]
    have hout : ∑ v ∈ W, ((s.handle A w e []).outbox v).length + 1 = ∑ v ∈ W, (s.outbox v).length := by
      have := sum_update (W := W) (g := fun v => (s.outbox v).length)
        (h := fun v => ((s.handle A w e []).outbox v).length) hwW
        (by intro v hv; simp [St.handle, hv])
      simp only [ho, St.handle, Function.update_self, List.length_singleton, List.length_nil] at this ⊢
      omega
    have hix : (s.handle A w e []).runs = s.runs := rfl
    have hib : (s.handle A w e []).inbox = s.inbox := rfl
    have hfi : (s.handle A w e []).finishes = s.finishes := rfl
    rcases h1 with ⟨g0, g1, g2, g3, g4⟩ | ⟨r, hr, g0, g1, g2, g3, g4⟩
    · refine ⟨⟨_, k, { g2 with fins := ?_, ended := ?_, all := ?_, waits := ?_ }⟩, ?_⟩
      · intro v; rw [h2, hfi, hfin0]; simp [g1]
      · simp [g1]
      · simp [g1]
      · intro _
        refine ⟨by rw [g3]; exact hw.1, ?_⟩
        intro hB hFW
        have halg := hc.alg
        rw [hFW] at halg
        have hb := hc.budget hB
        rw [hix] at hb
        have := hA.live _ _ halg (by omega)
        omega
      · simp only [measure, g1, g3, g4, h3, hph, hix, hib]
        omega
    · refine ⟨⟨_, k - 1, { g2 with fins := ?_, ended := ?_, all := ?_, waits := ?_ }⟩, ?_⟩
      · intro v; rw [h2, hfi, hfin0]; simp [g1]
      · simp [g1]
      · simp [g1]
      · simp [g1]
      · rw [hix] at g3
        rw [hib] at g4
        simp only [measure, g1, g3, g4, h3, hph]
        omega
  | finish hph he =>
    refine ⟨⟨F, k, { h.toCore with fins := ?_, ended := ?_, all := ?_, waits := ?_ }⟩, ?_⟩
    · intro w
      simp only
      rw [h.fins w, hA.idles _ _ _ _ h.alg h.sub]
      simp [hph]
    · intro _; exact he
    · simp
    · simp
    · simp only [measure, hph]
      omega
  | last w e rest hph ht ho =>
    obtain ⟨hwW, hwF, rfl, hin⟩ := h.of_outbox ho
    have hc := core_handle hA h.toCore ho
    have hout : ∑ v ∈ W, ((s.handle A w e []).outbox v).length + 1 = ∑ v ∈ W, (s.outbox v).length := by
      have := sum_update (W := W) (g := fun v => (s.outbox v).length)
        (h := fun v => ((s.handle A w e []).outbox v).length) hwW
        (by intro v hv; simp [St.handle, hv])
      simp only [ho, St.handle, Function.update_self, List.length_singleton, List.length_nil] at this ⊢
      omega
    have hph' : (s.handle A w e []).phase = .fin := hph
    refine ⟨⟨insert w F, k, { hc with fins := ?_, ended := ?_, all := ?_, waits := ?_ }⟩, ?_⟩
    · intro v
      by_cases hv : v = w
      · subst hv
        simp only [Function.update_self]
        rw [h.fins v]
        simp [hph', hwF]
      · simp only [ne_eq, hv, not_false_eq_true, Function.update_of_ne]
        rw [h.fins v]
        simp [hph, hph', hv]
    · intro _; exact h.ended (Or.inl hph)
    · simp only [hph']; simp
    · simp only [hph']; simp
    · have hix : (s.handle A w e []).runs = s.runs := rfl
      have hib : (s.handle A w e []).inbox = s.inbox := rfl
      simp only [measure, hph, hph', hix, hib]
      omega
  | leave hph ht =>
    have hF : F = W := by
      apply Finset.eq_of_subset_of_card_le h.sub
      rw [← hA.available _ _ _ h.alg h.sub, ht]
    refine ⟨⟨F, k, { h.toCore with fins := ?_, ended := ?_, all := ?_, waits := ?_ }⟩, ?_⟩
    · intro w
      have := h.fins w
      simp only
      rw [this]
      simp [hph]
    · intro _; exact h.ended (Or.inl hph)
    · intro _; exact hF
    · simp
    · simp only [measure, hph]
      omega
  | work w hi =>
    obtain ⟨hwW, hin, hout, hc⟩ := core_work h.toCore hi
    refine ⟨⟨F, k, { hc with fins := h.fins, ended := h.ended, all := h.all, waits := h.waits }⟩, ?_⟩
    have h1 := sum_update (W := W) (g := s.inbox)
      (h := (s.work proc w).inbox) hwW (by intro v hv; simp [St.work, hv])
    have h2 := sum_update (W := W) (g := fun v => (s.outbox v).length)
      (h := fun v => ((s.work proc w).outbox v).length) hwW (by intro v hv; simp [St.work, hv])
    have e1 : (s.work proc w).inbox w = 0 := by simp [St.work, hin]
    have e2 : (s.work proc w).outbox w = [(proc (s.wrk w)).1] := by simp [St.work, hout]
    have e3 : (s.work proc w).runs = s.runs := rfl
    have e4 : (s.work proc w).phase = s.phase := rfl
    simp only [hin, hout, e1, e2, List.length_singleton, List.length_nil] at h1 h2
    simp only [measure, e3, e4]
    omega

theorem inv_start {wrk : Nat → S} (hI : I a W k) (hB : B → runs.toNat ≤ k) :
    Inv A a proc W I runs b0 wrk B W k (St.start a runs b0 wrk) where
  alg := hI
  sub := subset_rfl
  budget := hB
  busy := fun w hw hw' => absurd hw hw'
  free := fun w _ => ⟨rfl, rfl⟩
  old := ⟨[], by simp [St.start], by simp [St.start], by simp, fun w => ⟨0, by simp [St.start, results, ofW], rfl,
    by simp [St.start]⟩⟩
  total := by simp [St.start]
  mem := by simp [St.start]
  uses := ⟨[], Uses.start, by simp [St.start]⟩
  fins := by simp [St.start]
  ended := by simp [St.start]
  all := by simp [St.start]
  waits := by simp [St.start]

theorem inv_reach (hA : Lawful A W I) {n : Nat} (h : Inv A a proc W I runs b0 s0 B F k s)
    (hr : Reach A proc W.card s n s') :
    (∃ F' k', Inv A a proc W I runs b0 s0 B F' k' s') ∧ measure W s' + n ≤ measure W s := by
  induction hr with
  | init => exact ⟨⟨F, k, h⟩, by omega⟩
  | step n a b _ hab ih =>
    obtain ⟨⟨F1, k1, h1⟩, h2⟩ := ih
    obtain ⟨h3, h4⟩ := inv_step hA h1 hab
    exact ⟨h3, by omega⟩

theorem inv_progress (hA : Lawful A W I) (h : Inv A a proc W I runs b0 s0 B F k s) (hB : B)
    (hd : s.phase ≠ .done) : ∃ s', Step A proc W.card s s' := by
  have hbusy : F ≠ W → (∃ w e rest, s.outbox w = e :: rest) ∨ ∃ w, 0 < s.inbox w := by
    intro hne
    obtain ⟨w, hw, hwF⟩ : ∃ w ∈ W, w ∉ F := by
      by_contra hcon
      push Not at hcon
      exact hne (Finset.Subset.antisymm h.sub hcon)
    rcases h.busy w hw hwF with h3 | ⟨_, e, h3⟩
    · exact Or.inr ⟨w, by omega⟩
    · exact Or.inl ⟨w, e, [], h3⟩
  cases hph : s.phase with
  | check =>
    by_cases hi : s.runs ≤ 0
    · exact ⟨_, Step.finish s hph hi⟩
    · exact ⟨_, Step.next s hph hi⟩
  | wait =>
    rcases hbusy ((h.waits hph).2 hB) with ⟨w, l, rest, ho⟩ | ⟨w, hi⟩
    · exact ⟨_, Step.response s w l rest hph ho⟩
    · exact ⟨_, Step.work s w hi⟩
  | fin =>
    by_cases ht : A.availableWorkers s.alg = W.card
    · exact ⟨_, Step.leave s hph ht⟩
    · have hne : F ≠ W := by
        rintro rfl
        exact ht (hA.available _ _ _ h.alg h.sub)
      rcases hbusy hne with ⟨w, l, rest, ho⟩ | ⟨w, hi⟩
      · exact ⟨_, Step.last s w l rest hph ht ho⟩
      · exact ⟨_, Step.work s w hi⟩
  | done => exact absurd hph hd

end

end Paradiseo.MultiStart

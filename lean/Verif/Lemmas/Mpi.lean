import Verif.Model.Mpi
import Mathlib.Data.List.Nodup
import Mathlib.Algebra.Order.BigOperators.Group.Finset
import Mathlib.Tactic.Ring

/-! The invariant of the distributed application of a function. -/

namespace Paradiseo.Mpi

variable {α σ : Type}

/-- What the job needs of an assignment algorithm with the workers `W`.  `I s F k` means: in state `s` the
workers in `F` are free, and the algorithm is ready to hand out `k` more tasks. -/
structure Lawful (A : Assign σ) (W : Finset Nat) (I : σ → Finset Nat → Nat → Prop) : Prop where
  /-- `get` answers "nobody", or it takes some free worker -/
  get : ∀ s F k, I s F k → F ⊆ W → ((A.get s).1 ≤ 0 ∧ I (A.get s).2 F k) ∨
    ∃ r ∈ F, 0 < r ∧ (A.get s).1 = (r : Int) ∧ I (A.get s).2 (F.erase r) (k - 1)
  /-- `confirm` makes a busy worker free -/
  confirm : ∀ s F k w, I s F k → F ⊆ W → w ∈ W → w ∉ F → I (A.confirm s w) (insert w F) k
  available : ∀ s F k, I s F k → F ⊆ W → A.availableWorkers s = F.card
  idles : ∀ s F k w, I s F k → F ⊆ W → (A.idles s).count w = if w ∈ F then 1 else 0
  /-- if everybody is free and tasks are left, somebody gets one -/
  live : ∀ s k, I s W k → 0 < k → 0 < (A.get s).1

/-- How often place `q` is in the tasks of an inbox. -/
def pend (l : List (Nat × List α)) (q : Nat) : Nat :=
  (l.map fun p => (List.range' p.1 p.2.length).count q).sum

theorem count_range' (i n q : Nat) :
    (List.range' i n).count q = if i ≤ q ∧ q < i + n then 1 else 0 := by
  rw [List.Nodup.count List.nodup_range']
  simp [List.mem_range'_1]

theorem getElem?_writeAt (t l : List α) (i q : Nat) (h : i + l.length ≤ t.length) :
    (writeAt t i l)[q]? = if i ≤ q ∧ q < i + l.length then l[q - i]? else t[q]? := by
  unfold writeAt
  rw [List.append_assoc]
  have hl : (t.take i).length = i := by simp; omega
  rcases Nat.lt_or_ge q i with h1 | h1
  · rw [List.getElem?_append_left (by omega), if_neg (by omega), List.getElem?_take_of_lt h1]
  · rw [List.getElem?_append_right (by omega), hl]
    rcases Nat.lt_or_ge q (i + l.length) with h2 | h2
    · rw [if_pos ⟨h1, h2⟩, List.getElem?_append_left (by omega)]
    · rw [if_neg (by omega), List.getElem?_append_right (by omega), List.getElem?_drop]
      congr 1
      omega

theorem length_writeAt (t l : List α) (i : Nat) (h : i + l.length ≤ t.length) :
    (writeAt t i l).length = t.length := by
  simp [writeAt]
  omega

/-- The part of the invariant that does not depend on where the master is. -/
structure Core (W : Finset Nat) (I : σ → Finset Nat → Nat → Prop) (p : Nat) (f : α → α)
    (t0 : List α) (B : Prop) (F : Finset Nat) (k : Nat) (s : MSt α σ) : Prop where
  alg : I s.alg F k
  sub : F ⊆ W
  budget : B → t0.length - s.index ≤ k * p
  len : s.table.length = t0.length
  ind : s.index ≤ t0.length
  busy : ∀ w ∈ W, w ∉ F → ∃ i n, s.assigned w = (i, n) ∧ i + n ≤ s.index ∧
    ((s.inbox w = [(i, (t0.drop i).take n)] ∧ s.outbox w = []) ∨
      (s.inbox w = [] ∧ s.outbox w = [((t0.drop i).take n).map f]))
  free : ∀ w, w ∈ F ∨ w ∉ W → s.inbox w = [] ∧ s.outbox w = []
  todo : ∀ q : Nat, s.index ≤ q → s.table[q]? = t0[q]?
  ready : ∀ q : Nat, q < s.index → s.table[q]? = (t0[q]?).map f ∨ ∃ w ∈ W, w ∉ F ∧
    (s.assigned w).1 ≤ q ∧ q < (s.assigned w).1 + (s.assigned w).2
  cnt : ∀ q : Nat, s.calls.count q + ∑ w ∈ W, pend (s.inbox w) q = if q < s.index then 1 else 0

theorem sum_update {W : Finset Nat} {g h : Nat → Nat} {w : Nat} (hw : w ∈ W)
    (he : ∀ v, v ≠ w → h v = g v) : ∑ v ∈ W, h v + g w = ∑ v ∈ W, g v + h w := by
  rw [← Finset.add_sum_erase _ h hw, ← Finset.add_sum_erase _ g hw]
  have : ∑ x ∈ W.erase w, h x = ∑ x ∈ W.erase w, g x :=
    Finset.sum_congr rfl fun x hx => he x (Finset.mem_erase.mp hx).1
  omega

section
variable {A : Assign σ} {W : Finset Nat} {I : σ → Finset Nat → Nat → Prop} {p : Nat} {f : α → α}
  {t0 : List α} {B : Prop} {F : Finset Nat} {k : Nat} {s : MSt α σ}

theorem Core.of_outbox (h : Core W I p f t0 B F k s) {w : Nat} {l : List α} {rest : List (List α)}
    (ho : s.outbox w = l :: rest) : w ∈ W ∧ w ∉ F ∧ rest = [] ∧ s.inbox w = [] ∧
      (s.assigned w).1 + (s.assigned w).2 ≤ s.index ∧
      l = ((t0.drop (s.assigned w).1).take (s.assigned w).2).map f := by
  by_cases hw : w ∈ F ∨ w ∉ W
  · rw [(h.free w hw).2] at ho
    simp at ho
  · push Not at hw
    obtain ⟨i, n, h1, h2, h3 | h3⟩ := h.busy w hw.2 hw.1
    · rw [h3.2] at ho
      simp at ho
    · rw [h3.2] at ho
      simp only [List.cons.injEq] at ho
      refine ⟨hw.2, hw.1, ho.2.symm, h3.1, ?_, ?_⟩
      · rw [h1]; exact h2
      · rw [h1, ← ho.1]

theorem core_handle (hA : Lawful A W I) (h : Core W I p f t0 B F k s) {w : Nat} {l : List α}
    {rest : List (List α)} (ho : s.outbox w = l :: rest) :
    Core W I p f t0 B (insert w F) k (s.handle A w l rest) := by
  obtain ⟨hw, hwF, rfl, hin, hle, hl⟩ := h.of_outbox ho
  have hlen : l.length = (s.assigned w).2 := by
    have := h.ind
    rw [hl]
    simp
    omega
  have hfit : (s.assigned w).1 + l.length ≤ s.table.length := by
    rw [h.len, hlen]
    have := h.ind
    omega
  have hget : ∀ q, (s.handle A w l []).table[q]? =
      if (s.assigned w).1 ≤ q ∧ q < (s.assigned w).1 + (s.assigned w).2 then (t0[q]?).map f
      else s.table[q]? := by
    intro q
    simp only [MSt.handle]
    rw [getElem?_writeAt _ _ _ _ hfit, hlen]
    split
    · rename_i hq
      rw [hl, List.getElem?_map, List.getElem?_take_of_lt (by omega), List.getElem?_drop]
      congr 2
      omega
    · rfl
  exact
    { alg := hA.confirm _ _ _ _ h.alg h.sub hw hwF
      sub := Finset.insert_subset hw h.sub
      budget := h.budget
      len := by simp only [MSt.handle]; rw [length_writeAt _ _ _ hfit, h.len]
      ind := h.ind
      busy := by
        intro v hv hvF
        simp only [Finset.mem_insert, not_or] at hvF
        simpa [MSt.handle, hvF.1] using h.busy v hv hvF.2
      free := by
        intro v hv
        by_cases hvw : v = w
        · subst hvw
          simp [MSt.handle, hin]
        · simpa [MSt.handle, hvw] using h.free v (by simpa [hvw] using hv)
      todo := by
        intro q hq
        rw [hget]
        have hq' : s.index ≤ q := hq
        rw [if_neg (by omega)]
        exact h.todo q hq
      ready := by
        intro q hq
        rw [hget]
        split
        · exact Or.inl rfl
        · rename_i hne
          rcases h.ready q hq with h1 | ⟨v, h1, h2, h3⟩
          · exact Or.inl h1
          · refine Or.inr ⟨v, h1, ?_, h3⟩
            simp only [Finset.mem_insert, not_or]
            refine ⟨?_, h2⟩
            rintro rfl
            exact hne h3
      cnt := h.cnt }

theorem core_assign (hA : Lawful A W I) (hp : 0 < p) (h : Core W I p f t0 B F k s)
    (hne : s.index ≠ s.table.length) :
    (((A.get s.alg).1 ≤ 0 ∧ (s.assign A p).phase = .wait ∧ Core W I p f t0 B F k (s.assign A p) ∧
      (s.assign A p).index = s.index ∧ (s.assign A p).inbox = s.inbox ∧
      (s.assign A p).outbox = s.outbox) ∨
     ∃ r ∈ F, 0 < (A.get s.alg).1 ∧ (s.assign A p).phase = .check ∧
        Core W I p f t0 B (F.erase r) (k - 1) (s.assign A p) ∧
        s.index < (s.assign A p).index ∧
        (s.assign A p).outbox = s.outbox ∧
        ∑ v ∈ W, ((s.assign A p).inbox v).length = ∑ v ∈ W, (s.inbox v).length + 1) ∧
    (s.assign A p).finishes = s.finishes ∧ (s.assign A p).table.length = s.table.length := by
  rcases hA.get _ _ _ h.alg h.sub with ⟨h1, h2⟩ | ⟨r, hr, hr0, h1, h2⟩
  · constructor
    · left
      simp only [MSt.assign, if_pos h1]
      exact ⟨h1, trivial, { h with alg := h2 }, by simp⟩
    · simp [MSt.assign, if_pos h1]
  · have hpos : ¬ (A.get s.alg).1 ≤ 0 := by rw [h1]; omega
    have hnat : (A.get s.alg).1.toNat = r := by rw [h1]; simp
    constructor
    · right
      have hind := h.ind
      have hlen := h.len
      refine ⟨r, hr, by omega, ?_⟩
      simp only [MSt.assign, if_neg hpos, hnat, MSt.send]
      generalize hfut : (if s.index + p < s.table.length then s.index + p else s.table.length) = fut
      have hf1 : s.index < fut := by split at hfut <;> omega
      have hf2 : fut ≤ t0.length := by split at hfut <;> omega
      have hf3 : t0.length - s.index ≤ k * p → t0.length - fut ≤ (k - 1) * p := by
        intro hk
        have : 0 < k := by
          rcases Nat.eq_zero_or_pos k with rfl | h
          · omega
          · exact h
        obtain ⟨j, rfl⟩ : ∃ j, k = j + 1 := ⟨k - 1, by omega⟩
        rw [Nat.succ_mul] at hk
        simp only [Nat.add_sub_cancel]
        split at hfut <;> omega
      have hrW := h.sub hr
      obtain ⟨hin, hout⟩ := h.free r (Or.inl hr)
      have hdata : (s.table.drop s.index).take (fut - s.index) = (t0.drop s.index).take (fut - s.index) := by
        congr 1
        apply List.ext_getElem?
        intro q
        rw [List.getElem?_drop, List.getElem?_drop]
        exact h.todo _ (by omega)
      have hinner : Core W I p f t0 B (F.erase r) (k - 1)
          { s with
            alg := (A.get s.alg).2
            phase := MPhase.check
            inbox := Function.update s.inbox r
              (s.inbox r ++ [(s.index, (s.table.drop s.index).take (fut - s.index))])
            assigned := Function.update s.assigned r (s.index, fut - s.index)
            index := fut } :=
        { alg := h2
          sub := (Finset.erase_subset _ _).trans h.sub
          budget := fun hB => hf3 (h.budget hB)
          len := h.len
          ind := hf2
          busy := by
            intro w hw hwF
            by_cases hwr : w = r
            · subst hwr
              refine ⟨s.index, fut - s.index, by simp, by simp only; omega, Or.inl ⟨?_, hout⟩⟩
              simp [hin, hdata]
            · have hwF' : w ∉ F := by
                intro hcon
                exact hwF (Finset.mem_erase.mpr ⟨hwr, hcon⟩)
              obtain ⟨i, n, g1, g2, g3⟩ := h.busy w hw hwF'
              exact ⟨i, n, by simpa [hwr] using g1, by simp only; omega, by simpa [hwr] using g3⟩
          free := by
            intro w hw
            have hwr : w ≠ r := by
              rintro rfl
              rcases hw with hw | hw
              · simp at hw
              · exact hw hrW
            have : w ∈ F ∨ w ∉ W := by
              rcases hw with hw | hw
              · exact Or.inl (Finset.mem_of_mem_erase hw)
              · exact Or.inr hw
            simpa [hwr] using h.free w this
          todo := fun q hq => h.todo q (by simp only at hq; omega)
          ready := by
            intro q hq
            simp only at hq
            rcases Nat.lt_or_ge q s.index with hlt | hge
            · rcases h.ready q hlt with g | ⟨w, g1, g2, g3⟩
              · exact Or.inl g
              · have hwr : w ≠ r := by rintro rfl; exact g2 hr
                exact Or.inr ⟨w, g1, fun hcon => g2 (Finset.mem_of_mem_erase hcon), by simpa [hwr] using g3⟩
            · exact Or.inr ⟨r, hrW, by simp, by simp; omega⟩
          cnt := by
            intro q
            have hc := h.cnt q
            have hsum := sum_update (W := W) (g := fun v => pend (s.inbox v) q)
              (h := fun v => pend (Function.update s.inbox r
                (s.inbox r ++ [(s.index, (s.table.drop s.index).take (fut - s.index))]) v) q) hrW
              (by intro v hv; simp [hv])
            simp only [Function.update_self, hin, List.nil_append, pend, List.map_cons, List.map_nil,
              List.sum_cons, List.sum_nil, count_range'] at hsum
            have hl2 : ((s.table.drop s.index).take (fut - s.index)).length = fut - s.index := by
              simp; omega
            rw [hl2] at hsum
            simp only [pend, hin, List.nil_append, count_range'] at hc ⊢
            split at hsum <;> split at hc <;> split <;> omega }
      refine ⟨trivial, hinner, hf1, trivial, ?_⟩
      have hsum := sum_update (W := W) (g := fun v => (s.inbox v).length)
        (h := fun v => (Function.update s.inbox r
          (s.inbox r ++ [(s.index, (s.table.drop s.index).take (fut - s.index))]) v).length) hrW
        (by intro v hv; simp [hv])
      simp only [Function.update_self, hin, List.nil_append, List.length_singleton,
        List.length_nil] at hsum
      simp only [hin, List.nil_append]
      omega
    · simp [MSt.assign, if_neg hpos, MSt.send]

theorem core_work (h : Core W I p f t0 B F k s) {w i : Nat} {l : List α}
    {rest : List (Nat × List α)} (hi : s.inbox w = (i, l) :: rest) :
    w ∈ W ∧ rest = [] ∧ s.outbox w = [] ∧ Core W I p f t0 B F k
      { s with
        inbox := Function.update s.inbox w rest
        outbox := Function.update s.outbox w (s.outbox w ++ [l.map f])
        calls := s.calls ++ List.range' i l.length } := by
  by_cases hw : w ∈ F ∨ w ∉ W
  · rw [(h.free w hw).1] at hi
    simp at hi
  push Not at hw
  obtain ⟨i', n, h1, h2, h3 | h3⟩ := h.busy w hw.2 hw.1
  swap
  · rw [h3.1] at hi
    simp at hi
  rw [h3.1] at hi
  simp only [List.cons.injEq, Prod.mk.injEq] at hi
  obtain ⟨⟨rfl, rfl⟩, rfl⟩ := hi
  refine ⟨hw.2, rfl, h3.2, ?_⟩
  exact
    { h with
      busy := by
        intro v hv hvF
        by_cases hvw : v = w
        · subst hvw
          refine ⟨i', n, h1, h2, Or.inr ?_⟩
          simp [h3.2]
        · simpa [hvw] using h.busy v hv hvF
      free := by
        intro v hv
        have hvw : v ≠ w := by
          rintro rfl
          rcases hv with hv | hv
          · exact hw.1 hv
          · exact hv hw.2
        simpa [hvw] using h.free v hv
      cnt := by
        intro q
        have hc := h.cnt q
        have hsum := sum_update (W := W) (g := fun v => pend (s.inbox v) q)
          (h := fun v => pend (Function.update s.inbox w [] v) q) hw.2
          (by intro v hv; simp [hv])
        simp only [Function.update_self, h3.1, pend, List.map_cons, List.map_nil,
          List.sum_cons, List.sum_nil] at hsum
        simp only [List.count_append]
        simp only [pend] at hc ⊢
        omega }

end

/-- The whole invariant. -/
structure MInv (W : Finset Nat) (I : σ → Finset Nat → Nat → Prop) (p : Nat) (f : α → α)
    (t0 : List α) (B : Prop) (F : Finset Nat) (k : Nat) (s : MSt α σ) : Prop
    extends Core W I p f t0 B F k s where
  fins : ∀ w, s.finishes w = if (s.phase = .fin ∨ s.phase = .done) ∧ w ∈ F then 1 else 0
  ended : s.phase = .fin ∨ s.phase = .done → s.index = t0.length
  all : s.phase = .done → F = W
  waits : s.phase = .wait → s.index ≠ t0.length ∧ (B → F ≠ W)

section
variable {A : Assign σ} {W : Finset Nat} {I : σ → Finset Nat → Nat → Prop} {p : Nat} {f : α → α}
  {t0 : List α} {B : Prop} {F : Finset Nat} {k : Nat} {s s' : MSt α σ}

/-- The number of steps that can still be taken. -/
def measure (W : Finset Nat) (s : MSt α σ) : Nat :=
  4 * (s.table.length - s.index) + 2 * ∑ w ∈ W, (s.inbox w).length + ∑ w ∈ W, (s.outbox w).length +
    match s.phase with
    | .check => 3
    | .wait => 2
    | .fin => 1
    | .done => 0

theorem pos_budget (h : Core W I p f t0 B F k s) (hB : B) (hne : s.index ≠ t0.length) : 0 < k := by
  have h1 := h.budget hB
  have h2 := h.ind
  rcases Nat.eq_zero_or_pos k with rfl | h
  · omega
  · exact h

theorem minv_step (hA : Lawful A W I) (hp : 0 < p) (h : MInv W I p f t0 B F k s)
    (hs : MStep A p f W.card s s') :
    (∃ F' k', MInv W I p f t0 B F' k' s') ∧ measure W s' < measure W s := by
  cases hs with
  | next hph hne =>
    have hlen := h.len
    obtain ⟨h1, h2, h3⟩ := core_assign hA hp h.toCore hne
    have hfin0 : ∀ w, s.finishes w = 0 := by intro w; rw [h.fins w]; simp [hph]
    rcases h1 with ⟨g0, g1, g2, g3, g4, g5⟩ | ⟨r, hr, g0, g1, g2, g3, g4, g5⟩
    · refine ⟨⟨F, k, { g2 with fins := ?_, ended := ?_, all := ?_, waits := ?_ }⟩, ?_⟩
      · intro w; rw [h2, hfin0]; simp [g1]
      · simp [g1]
      · simp [g1]
      · intro _
        refine ⟨by rw [g3]; omega, ?_⟩
        intro hB hFW
        subst hFW
        have := hA.live _ _ h.alg (pos_budget h.toCore hB (by omega))
        omega
      · simp only [measure, g1, g3, g4, g5, h3, hph]
        omega
    · refine ⟨⟨F.erase r, k - 1, { g2 with fins := ?_, ended := ?_, all := ?_, waits := ?_ }⟩, ?_⟩
      · intro w; rw [h2, hfin0]; simp [g1]
      · simp [g1]
      · simp [g1]
      · simp [g1]
      · have i1 := g2.ind
        have i2 := g2.len
        simp only [measure, g1, g4, g5, h3, hph]
        omega
  | response w l rest hph ho =>
    obtain ⟨hwW, hwF, rfl, hin, _, _⟩ := h.of_outbox ho
    have hc := core_handle hA h.toCore ho
    have hlen := hc.len
    have hlen0 := h.len
    have hw := h.waits hph
    have hne : (s.handle A w l []).index ≠ (s.handle A w l []).table.length := by
      rw [hlen]; exact hw.1
    obtain ⟨h1, h2, h3⟩ := core_assign hA hp hc hne
    have hfin0 : ∀ w, s.finishes w = 0 := by intro w; rw [h.fins w]; simp [hph]
    have hout : ∑ v ∈ W, ((s.handle A w l []).outbox v).length + 1 = ∑ v ∈ W, (s.outbox v).length := by
      have := sum_update (W := W) (g := fun v => (s.outbox v).length)
        (h := fun v => ((s.handle A w l []).outbox v).length) hwW
        (by intro v hv; simp [MSt.handle, hv])
      simp only [ho, MSt.handle, Function.update_self, List.length_singleton, List.length_nil] at this ⊢
      omega
    have hix : (s.handle A w l []).index = s.index := rfl
    have hib : (s.handle A w l []).inbox = s.inbox := rfl
    have hfi : (s.handle A w l []).finishes = s.finishes := rfl
    rcases h1 with ⟨g0, g1, g2, g3, g4, g5⟩ | ⟨r, hr, g0, g1, g2, g3, g4, g5⟩
    · refine ⟨⟨_, k, { g2 with fins := ?_, ended := ?_, all := ?_, waits := ?_ }⟩, ?_⟩
      · intro v; rw [h2, hfi, hfin0]; simp [g1]
      · simp [g1]
      · simp [g1]
      · intro _
        refine ⟨by rw [g3]; exact hw.1, ?_⟩
        intro hB hFW
        have halg := hc.alg
        rw [hFW] at halg
        have := hA.live _ _ halg (pos_budget hc hB hw.1)
        omega
      · simp only [measure, g1, g3, g4, g5, h3, hph, hlen, hlen0, hix, hib]
        omega
    · refine ⟨⟨_, k - 1, { g2 with fins := ?_, ended := ?_, all := ?_, waits := ?_ }⟩, ?_⟩
      · intro v; rw [h2, hfi, hfin0]; simp [g1]
      · simp [g1]
      · simp [g1]
      · simp [g1]
      · have i1 := g2.ind
        rw [hix] at g3
        rw [hib] at g5
        simp only [measure, g1, g4, g5, h3, hph, hlen, hlen0]
        omega
  | finish hph he =>
    have hlen := h.len
    refine ⟨⟨F, k, { h.toCore with fins := ?_, ended := ?_, all := ?_, waits := ?_ }⟩, ?_⟩
    · intro w
      simp only
      rw [h.fins w, hA.idles _ _ _ _ h.alg h.sub]
      simp [hph]
    · intro _; simp only; omega
    · simp
    · simp
    · simp only [measure, hph]
      omega
  | last w l rest hph ht ho =>
    obtain ⟨hwW, hwF, rfl, hin, _, _⟩ := h.of_outbox ho
    have hc := core_handle hA h.toCore ho
    have hlen := hc.len
    have hlen0 := h.len
    have hout : ∑ v ∈ W, ((s.handle A w l []).outbox v).length + 1 = ∑ v ∈ W, (s.outbox v).length := by
      have := sum_update (W := W) (g := fun v => (s.outbox v).length)
        (h := fun v => ((s.handle A w l []).outbox v).length) hwW
        (by intro v hv; simp [MSt.handle, hv])
      simp only [ho, MSt.handle, Function.update_self, List.length_singleton, List.length_nil] at this ⊢
      omega
    have hph' : (s.handle A w l []).phase = .fin := hph
    refine ⟨⟨insert w F, k, { hc with fins := ?_, ended := ?_, all := ?_, waits := ?_ }⟩, ?_⟩
    · intro v
      by_cases hv : v = w
      · subst hv
        simp only [Function.update_self]
        rw [h.fins v]
        simp [hph', hwF]
      · simp only [ne_eq, hv, not_false_eq_true, Function.update_of_ne]
        rw [h.fins v]
        simp [hph, hph', hv]
    · intro _; exact h.ended (Or.inl hph)
    · simp only [hph']; simp
    · simp only [hph']; simp
    · have hix : (s.handle A w l []).index = s.index := rfl
      have hib : (s.handle A w l []).inbox = s.inbox := rfl
      simp only [measure, hph, hph', hlen, hlen0, hix, hib]
      omega
  | leave hph ht =>
    have hF : F = W := by
      apply Finset.eq_of_subset_of_card_le h.sub
      rw [← hA.available _ _ _ h.alg h.sub, ht]
    refine ⟨⟨F, k, { h.toCore with fins := ?_, ended := ?_, all := ?_, waits := ?_ }⟩, ?_⟩
    · intro w
      have := h.fins w
      simp only
      rw [this]
      simp [hph]
    · intro _; exact h.ended (Or.inl hph)
    · intro _; exact hF
    · simp
    · simp only [measure, hph]
      omega
  | work w i l rest hi =>
    obtain ⟨hwW, rfl, hout, hc⟩ := core_work h.toCore hi
    refine ⟨⟨F, k, { hc with fins := h.fins, ended := h.ended, all := h.all, waits := h.waits }⟩, ?_⟩
    have h1 := sum_update (W := W) (g := fun v => (s.inbox v).length)
      (h := fun v => (Function.update s.inbox w [] v).length) hwW (by intro v hv; simp [hv])
    have h2 := sum_update (W := W) (g := fun v => (s.outbox v).length)
      (h := fun v => (Function.update s.outbox w (s.outbox w ++ [l.map f]) v).length) hwW
      (by intro v hv; simp [hv])
    simp only [Function.update_self, hi, hout, List.length_singleton, List.length_nil,
      List.nil_append] at h1 h2
    simp only [measure, hout, List.nil_append]
    omega

theorem minv_start (hI : I s.alg W k) (hs : s = MSt.start s.alg t0) (hB : B → t0.length ≤ k * p) :
    MInv W I p f t0 B W k s := by
  have e1 : s.index = 0 := by rw [hs]; rfl
  have e2 : s.table = t0 := by rw [hs]; rfl
  have e3 : ∀ w, s.inbox w = [] := by intro w; rw [hs]; rfl
  have e4 : ∀ w, s.outbox w = [] := by intro w; rw [hs]; rfl
  have e5 : ∀ w, s.finishes w = 0 := by intro w; rw [hs]; rfl
  have e6 : s.calls = [] := by rw [hs]; rfl
  have e7 : s.phase = .check := by rw [hs]; rfl
  exact
    { alg := hI
      sub := subset_rfl
      budget := by rw [e1]; simpa using hB
      len := by rw [e2]
      ind := by rw [e1]; omega
      busy := fun w hw hw' => absurd hw hw'
      free := fun w _ => ⟨e3 w, e4 w⟩
      todo := by intro q _; rw [e2]
      ready := by rw [e1]; intro q hq; omega
      cnt := by intro q; simp [e1, e6, e3, pend]
      fins := by intro w; rw [e5]; simp [e7]
      ended := by simp [e7]
      all := by simp [e7]
      waits := by simp [e7] }

theorem minv_reach (hA : Lawful A W I) (hp : 0 < p) {n : Nat}
    (h : MInv W I p f t0 B F k s) (hr : MReach A p f W.card s n s') :
    (∃ F' k', MInv W I p f t0 B F' k' s') ∧ measure W s' + n ≤ measure W s := by
  induction hr with
  | init => exact ⟨⟨F, k, h⟩, by omega⟩
  | step n a b _ hab ih =>
    obtain ⟨⟨F1, k1, h1⟩, h2⟩ := ih
    obtain ⟨h3, h4⟩ := minv_step hA hp h1 hab
    exact ⟨h3, by omega⟩

theorem minv_progress (hA : Lawful A W I) (h : MInv W I p f t0 B F k s) (hB : B)
    (hd : s.phase ≠ .done) : ∃ s', MStep A p f W.card s s' := by
  have hbusy : F ≠ W → (∃ w l rest, s.outbox w = l :: rest) ∨
      ∃ w i l rest, s.inbox w = (i, l) :: rest := by
    intro hne
    obtain ⟨w, hw, hwF⟩ : ∃ w ∈ W, w ∉ F := by
      by_contra hcon
      push Not at hcon
      exact hne (Finset.Subset.antisymm h.sub hcon)
    obtain ⟨i, n, _, _, h3 | h3⟩ := h.busy w hw hwF
    · exact Or.inr ⟨w, _, _, _, h3.1⟩
    · exact Or.inl ⟨w, _, _, h3.2⟩
  cases hph : s.phase with
  | check =>
    by_cases hi : s.index = s.table.length
    · exact ⟨_, MStep.finish s hph hi⟩
    · exact ⟨_, MStep.next s hph hi⟩
  | wait =>
    rcases hbusy ((h.waits hph).2 hB) with ⟨w, l, rest, ho⟩ | ⟨w, i, l, rest, hi⟩
    · exact ⟨_, MStep.response s w l rest hph ho⟩
    · exact ⟨_, MStep.work s w i l rest hi⟩
  | fin =>
    by_cases ht : A.availableWorkers s.alg = W.card
    · exact ⟨_, MStep.leave s hph ht⟩
    · have hne : F ≠ W := by
        rintro rfl
        exact ht (hA.available _ _ _ h.alg h.sub)
      rcases hbusy hne with ⟨w, l, rest, ho⟩ | ⟨w, i, l, rest, hi⟩
      · exact ⟨_, MStep.last s w l rest hph ht ho⟩
      · exact ⟨_, MStep.work s w i l rest hi⟩
  | done => exact absurd hph hd

end

end Paradiseo.Mpi

namespace Paradiseo.Mpi

/-! ### The two algorithms -/

theorem dynamic_lawful (W : Finset Nat) (hW : 0 ∉ W) (hne : W.Nonempty) :
    Lawful dynamic W (fun s F _ => s.Nodup ∧ ∀ w, w ∈ s ↔ w ∈ F) where
  get := by
    rintro s F k ⟨h1, h2⟩ hF
    rcases List.eq_nil_or_concat s with rfl | ⟨l, r, rfl⟩
    · left
      exact ⟨by simp [dynamic], by simp [dynamic], by simpa [dynamic] using h2⟩
    · right
      rw [List.concat_eq_append] at *
      have hr : r ∈ F := by rw [← h2]; simp
      refine ⟨r, hr, ?_, by simp [dynamic], ?_, ?_⟩
      · rcases Nat.eq_zero_or_pos r with rfl | h
        · exact absurd (hF hr) hW
        · exact h
      · simp only [dynamic, List.getLast?_append, List.getLast?_singleton, Option.some_or,
          List.dropLast_concat]
        exact (List.nodup_append.mp h1).1
      · intro w
        simp only [dynamic, List.getLast?_append, List.getLast?_singleton, Option.some_or,
          List.dropLast_concat, Finset.mem_erase, ← h2 w, List.mem_append, List.mem_singleton]
        have := (List.nodup_append.mp h1).2.2
        constructor
        · intro hw
          exact ⟨fun e => this w hw r (by simp) e, Or.inl hw⟩
        · rintro ⟨h3, h4 | h4⟩
          · exact h4
          · exact absurd h4 h3
  confirm := by
    rintro s F k w ⟨h1, h2⟩ hF hw hwF
    constructor
    · simp only [dynamic]
      rw [List.nodup_append]
      refine ⟨h1, by simp, ?_⟩
      intro a ha b hb
      simp only [List.mem_singleton] at hb
      subst hb
      rintro rfl
      exact hwF ((h2 a).mp ha)
    · intro v
      simp only [dynamic, List.mem_append, List.mem_singleton, Finset.mem_insert, h2 v]
      exact or_comm
  available := by
    rintro s F k ⟨h1, h2⟩ _
    have : F = s.toFinset := by ext w; simp [h2]
    rw [this, List.toFinset_card_of_nodup h1]
    rfl
  idles := by
    rintro s F k w ⟨h1, h2⟩ _
    simp only [dynamic, List.Nodup.count h1, h2]
  live := by
    rintro s k ⟨h1, h2⟩ _
    rcases List.eq_nil_or_concat s with rfl | ⟨l, r, rfl⟩
    · obtain ⟨w, hw⟩ := hne
      exact absurd ((h2 w).mpr hw) (by simp)
    · have hr : r ∈ W := by rw [← h2]; simp
      have : r ≠ 0 := by rintro rfl; exact hW hr
      simp [dynamic]
      omega

/-- How many more tasks a slot can take. -/
def slotLeft (x : Int × Nat × Bool) : Int := x.1 - (if x.2.2 then 1 else 0)

/-- How many more tasks the static algorithm can hand out. -/
def left (l : List (Int × Nat × Bool)) : Int := (l.map slotLeft).sum

theorem staticGet_none {l : List (Int × Nat × Bool)} :
    staticGet l = none ↔ ∀ x ∈ l, ¬ (x.2.2 = false ∧ x.1 > 0) := by
  induction l with
  | nil => simp [staticGet]
  | cons x l ih =>
    obtain ⟨a, r, b⟩ := x
    simp only [staticGet, List.mem_cons, forall_eq_or_imp]
    split
    · rename_i h
      simp [h]
    · rename_i h
      rw [← ih]
      cases staticGet l <;> simp [h]

theorem staticGet_some {l l' : List (Int × Nat × Bool)} {r : Nat} (h : staticGet l = some (r, l')) :
    ∃ l1 a l2, l = l1 ++ (a, r, false) :: l2 ∧ a > 0 ∧ l' = l1 ++ (a, r, true) :: l2 := by
  induction l generalizing l' with
  | nil => simp [staticGet] at h
  | cons x l ih =>
    obtain ⟨a, r', b⟩ := x
    simp only [staticGet] at h
    split at h
    · rename_i hb
      obtain ⟨rfl, hb⟩ := hb
      simp only [Option.some.injEq, Prod.mk.injEq] at h
      obtain ⟨rfl, rfl⟩ := h
      exact ⟨[], a, l, rfl, hb, rfl⟩
    · cases hg : staticGet l with
      | none => rw [hg] at h; simp at h
      | some p =>
        rw [hg] at h
        simp only [Option.some.injEq, Prod.mk.injEq] at h
        obtain ⟨rfl, rfl⟩ := h
        obtain ⟨l1, a', l2, h1, h2, h3⟩ := ih hg
        exact ⟨(a, r', b) :: l1, a', l2, by simp [h1], h2, by simp [h3]⟩

theorem staticConfirm_split (rank : Nat) (l1 l2 : List (Int × Nat × Bool)) (a : Int) (b : Bool)
    (h : rank ∉ l1.map fun x => x.2.1) :
    staticConfirm rank (l1 ++ (a, rank, b) :: l2) = l1 ++ (a - 1, rank, false) :: l2 := by
  induction l1 with
  | nil => simp [staticConfirm]
  | cons x l1 ih =>
    obtain ⟨a', r', b'⟩ := x
    simp only [List.map_cons, List.mem_cons, not_or] at h
    simp only [List.cons_append, staticConfirm, if_neg (Ne.symm h.1), ih h.2]

theorem left_confirm_le (rank : Nat) (l : List (Int × Nat × Bool)) :
    left (staticConfirm rank l) ≤ left l := by
  induction l with
  | nil => simp [staticConfirm]
  | cons x l ih =>
    obtain ⟨a, r, b⟩ := x
    simp only [staticConfirm]
    simp only [left] at ih ⊢
    split
    · simp only [List.map_cons, List.sum_cons, slotLeft]
      cases b <;> simp
    · simp only [List.map_cons, List.sum_cons]
      omega

theorem left_get {l l' : List (Int × Nat × Bool)} {r : Nat} (h : staticGet l = some (r, l')) :
    left l' = left l - 1 := by
  obtain ⟨l1, a, l2, rfl, _, rfl⟩ := staticGet_some h
  simp [left, slotLeft]
  omega

/-- The invariant of the static algorithm with the workers `W`. -/
structure StaticInv (W : Finset Nat) (s : Static) (F : Finset Nat) (k : Nat) : Prop where
  nodup : (s.slots.map fun x => x.2.1).Nodup
  ranks : ∀ w, w ∈ (s.slots.map fun x => x.2.1) ↔ w ∈ W
  frees : ∀ w, w ∈ F ↔ ∃ a, (a, w, false) ∈ s.slots
  nonneg : ∀ x ∈ s.slots, 0 ≤ slotLeft x
  total : left s.slots = k
  number : s.freeWorkers = F.card

theorem nodup_rank {l : List (Int × Nat × Bool)} (h : (l.map fun x => x.2.1).Nodup)
    {a a' : Int} {w : Nat} {b b' : Bool} (h1 : (a, w, b) ∈ l) (h2 : (a', w, b') ∈ l) :
    a = a' ∧ b = b' := by
  have := List.inj_on_of_nodup_map h h1 h2 rfl
  simpa using this

theorem static_lawful (W : Finset Nat) (hW : 0 ∉ W) : Lawful static W (StaticInv W) where
  get := by
    intro s F k h hF
    cases hg : staticGet s.slots with
    | none =>
      left
      simp only [static, hg]
      exact ⟨by omega, h⟩
    | some p =>
      obtain ⟨r, l'⟩ := p
      right
      have hl := left_get hg
      obtain ⟨l1, a, l2, h1, h2, h3⟩ := staticGet_some hg
      have hr : r ∈ F := by rw [h.frees]; exact ⟨a, by simp [h1]⟩
      simp only [static, hg]
      have hpos : 0 < r := by
        rcases Nat.eq_zero_or_pos r with rfl | h
        · exact absurd (hF hr) hW
        · exact h
      have hmap : (l'.map fun x => x.2.1) = s.slots.map fun x => x.2.1 := by
        rw [h1, h3]; simp
      have hnn : ∀ x ∈ l', 0 ≤ slotLeft x := by
        intro x hx
        rw [h3] at hx
        have := h.nonneg x
        rw [h1] at this
        simp only [List.mem_append, List.mem_cons] at hx this
        rcases hx with hx | rfl | hx
        · exact this (Or.inl hx)
        · simp only [slotLeft, if_true]; omega
        · exact this (Or.inr (Or.inr hx))
      have hnd := h.nodup
      rw [h1] at hnd
      simp only [List.map_append, List.map_cons, List.nodup_append, List.nodup_cons] at hnd
      refine ⟨r, hr, hpos, rfl, ?_⟩
      exact
        { nodup := by simp only; rw [hmap]; exact h.nodup
          ranks := by simp only; rw [hmap]; exact h.ranks
          frees := by
            intro w
            rw [Finset.mem_erase, h.frees]
            simp only [h1, h3, List.mem_append, List.mem_cons, Prod.mk.injEq, and_true]
            constructor
            · rintro ⟨hw, a', h4 | h4 | h4⟩
              · exact ⟨a', Or.inl h4⟩
              · exact absurd h4.2 hw
              · exact ⟨a', Or.inr (Or.inr h4)⟩
            · rintro ⟨a', h4 | h4 | h4⟩
              · refine ⟨?_, a', Or.inl h4⟩
                rintro rfl
                exact hnd.2.2 w (List.mem_map.mpr ⟨_, h4, rfl⟩) w (by simp) rfl
              · simp at h4
              · refine ⟨?_, a', Or.inr (Or.inr h4)⟩
                rintro rfl
                exact hnd.2.1.1 (List.mem_map.mpr ⟨_, h4, rfl⟩)
          nonneg := hnn
          total := by
            have h5 : 0 ≤ left l' := by
              apply List.sum_nonneg
              intro x hx
              obtain ⟨y, hy, rfl⟩ := List.mem_map.mp hx
              exact hnn y hy
            have := h.total
            simp only
            omega
          number := by
            rw [Finset.card_erase_of_mem hr, ← h.number] }
  confirm := by
    intro s F k w h hF hw hwF
    have h0 := (h.ranks w).mpr hw
    obtain ⟨⟨a, w', b⟩, hx, rfl⟩ := List.mem_map.mp h0
    simp only at hw hwF h0 ⊢
    have hb : b = true := by
      cases b with
      | true => rfl
      | false => exact absurd ((h.frees w').mpr ⟨a, hx⟩) hwF
    subst hb
    obtain ⟨l1, l2, h1⟩ := List.append_of_mem hx
    have hnd := h.nodup
    rw [h1] at hnd
    simp only [List.map_append, List.map_cons, List.nodup_append, List.nodup_cons] at hnd
    have hc : staticConfirm w' s.slots = l1 ++ (a - 1, w', false) :: l2 := by
      rw [h1]
      apply staticConfirm_split
      intro hcon
      exact hnd.2.2 w' hcon w' (by simp) rfl
    have hmap : ((l1 ++ (a - 1, w', false) :: l2).map fun x => x.2.1) = s.slots.map fun x => x.2.1 := by
      rw [h1]; simp
    simp only [static, hc]
    exact
      { nodup := by simp only; rw [hmap]; exact h.nodup
        ranks := by simp only; rw [hmap]; exact h.ranks
        frees := by
          intro v
          rw [Finset.mem_insert, h.frees]
          simp only [h1, List.mem_append, List.mem_cons, Prod.mk.injEq, and_true]
          constructor
          · rintro (rfl | ⟨a', h4 | h4 | h4⟩)
            · exact ⟨a - 1, Or.inr (Or.inl ⟨rfl, rfl⟩)⟩
            · exact ⟨a', Or.inl h4⟩
            · simp at h4
            · exact ⟨a', Or.inr (Or.inr h4)⟩
          · rintro ⟨a', h4 | h4 | h4⟩
            · exact Or.inr ⟨a', Or.inl h4⟩
            · exact Or.inl h4.2
            · exact Or.inr ⟨a', Or.inr (Or.inr h4)⟩
        nonneg := by
          intro x hx
          have h5 := h.nonneg x
          have h6 := h.nonneg (a, w', true) (by simp [h1])
          rw [h1] at h5
          simp only [List.mem_append, List.mem_cons] at hx h5
          rcases hx with hx | rfl | hx
          · exact h5 (Or.inl hx)
          · simpa [slotLeft] using h6
          · exact h5 (Or.inr (Or.inr hx))
        total := by
          rw [← h.total, h1]
          simp [left, slotLeft]
        number := by
          rw [Finset.card_insert_of_notMem hwF, ← h.number] }
  available := fun s F k h _ => h.number
  idles := by
    intro s F k w h hF
    simp only [static]
    have hnd : ((s.slots.filter fun p => !p.2.2).map fun p => p.2.1).Nodup :=
      h.nodup.sublist (List.Sublist.map _ List.filter_sublist)
    rw [List.Nodup.count hnd]
    congr 1
    rw [eq_iff_iff, h.frees]
    simp
  live := by
    intro s k h hk
    cases hg : staticGet s.slots with
    | some p =>
      obtain ⟨r, l'⟩ := p
      obtain ⟨l1, a, l2, h1, h2, h3⟩ := staticGet_some hg
      have hr : r ∈ W := by rw [h.frees]; exact ⟨a, by simp [h1]⟩
      have : r ≠ 0 := by rintro rfl; exact hW hr
      simp only [static, hg]
      omega
    | none =>
      exfalso
      rw [staticGet_none] at hg
      have hz : left s.slots ≤ 0 := by
        have : ∀ x ∈ s.slots.map slotLeft, x ≤ 0 := by
          intro x hx
          obtain ⟨⟨a, w, b⟩, hy, rfl⟩ := List.mem_map.mp hx
          have hwW : w ∈ W := (h.ranks w).mp (List.mem_map.mpr ⟨_, hy, rfl⟩)
          obtain ⟨a', ha'⟩ := (h.frees w).mp hwW
          obtain ⟨rfl, rfl⟩ := nodup_rank h.nodup hy ha'
          have := hg _ hy
          simp only [true_and, slotLeft] at this ⊢
          simp
          omega
        have hsum : ∀ l : List Int, (∀ x ∈ l, x ≤ 0) → l.sum ≤ 0 := by
          intro l
          induction l with
          | nil => simp
          | cons y l ih =>
            intro hl
            have h1 := hl y (by simp)
            have h2 := ih fun x hx => hl x (by simp [hx])
            simp only [List.sum_cons]
            omega
        exact hsum _ this
      have := h.total
      omega

theorem sum_zipIdx_ite (l : List Nat) (m n : Nat) (q : Int) :
    ((l.zipIdx n).map fun x : Nat × Nat => q + (if x.2 < m then (1 : Int) else 0)).sum =
      q * l.length + ((min (m - n) l.length : Nat) : Int) := by
  induction l generalizing n with
  | nil => simp
  | cons x l ih =>
    simp only [List.zipIdx_cons, List.map_cons, List.sum_cons, ih, List.length_cons]
    push_cast
    split <;> ring_nf <;> omega

theorem init_inv {ws : List Nat} {runs : Nat} {s : Static} (hnd : ws.Nodup)
    (h : Static.init ws runs = some s) : StaticInv ws.toFinset s ws.toFinset runs := by
  unfold Static.init at h
  split at h
  · simp at h
  · rename_i hlen
    simp only [Option.some.injEq] at h
    subst h
    have hmap : ((ws.zipIdx.map fun (r, i) => ((((runs / ws.length : Nat) : Int) +
        (if i < runs - (runs / ws.length) * ws.length then 1 else 0), r, false) :
          Int × Nat × Bool)).map fun x => x.2.1) = ws := by
      rw [List.map_map]
      exact (List.zipIdx_map_fst 0 ws)
    exact
      { nodup := by simp only; rw [hmap]; exact hnd
        ranks := by intro w; simp only; rw [hmap]; simp
        frees := by
          intro w
          rw [List.mem_toFinset]
          constructor
          · intro hw
            rw [← hmap] at hw
            obtain ⟨⟨a, w', b⟩, hx, rfl⟩ := List.mem_map.mp hw
            obtain ⟨⟨r, i⟩, h1, h2⟩ := List.mem_map.mp hx
            simp only [Prod.mk.injEq] at h2
            obtain ⟨_, _, rfl⟩ := h2
            exact ⟨a, hx⟩
          · rintro ⟨a, ha⟩
            rw [← hmap]
            exact List.mem_map.mpr ⟨_, ha, rfl⟩
        nonneg := by
          intro x hx
          obtain ⟨⟨r, i⟩, h1, rfl⟩ := List.mem_map.mp hx
          have hq : (0 : Int) ≤ ((runs / ws.length : Nat) : Int) := Int.natCast_nonneg _
          simp only [slotLeft, Bool.false_eq_true, if_false]
          split <;> omega
        total := by
          have h2 := sum_zipIdx_ite ws (runs - (runs / ws.length) * ws.length) 0
            ((runs / ws.length : Nat) : Int)
          have e : left (ws.zipIdx.map fun (r, i) => ((((runs / ws.length : Nat) : Int) +
              (if i < runs - (runs / ws.length) * ws.length then 1 else 0), r, false) :
                Int × Nat × Bool)) = (ws.zipIdx.map fun x : Nat × Nat =>
                  ((runs / ws.length : Nat) : Int) +
                    (if x.2 < runs - (runs / ws.length) * ws.length then (1 : Int) else 0)).sum := by
            unfold left
            rw [List.map_map]
            congr 1
            apply List.map_congr_left
            intro x _
            simp [slotLeft]
          rw [e, h2]
          have h3 := Nat.div_add_mod runs ws.length
          have h4 := Nat.mod_lt runs (Nat.pos_of_ne_zero hlen)
          rw [Nat.mul_comm] at h3
          have h5 : min (runs - (runs / ws.length) * ws.length - 0) ws.length = runs % ws.length := by
            omega
          rw [h5]
          exact_mod_cast h3
        number := by simp [List.toFinset_card_of_nodup hnd] }

/-- The static algorithm cannot send more tasks than announced. -/
theorem static_index {α : Type} {p runs total n : Nat} {f : α → α} {a : Static} {t0 : List α}
    (ha : left a.slots = runs)
    {s : MSt α Static} (hr : MReach static p f total (MSt.start a t0) n s) :
    (s.index : Int) + left s.alg.slots * p ≤ runs * p := by
  have hassign : ∀ s : MSt α Static, (s.index : Int) + left s.alg.slots * p ≤ runs * p →
      (((s.assign static p).index : Int) + left (s.assign static p).alg.slots * p ≤ runs * p) := by
    intro s h
    unfold MSt.assign
    cases hg : staticGet s.alg.slots with
    | none => simpa [static, hg] using h
    | some q =>
      obtain ⟨r, l'⟩ := q
      have hl := left_get hg
      simp only [static, hg]
      split
      · simp only
        rw [hl]
        have : (0 : Int) ≤ p := by omega
        rw [Int.sub_mul]
        omega
      · simp only [MSt.send]
        rw [hl, Int.sub_mul]
        split
        · push_cast
          omega
        · omega
  have hhandle : ∀ (s : MSt α Static) w l rest, (s.index : Int) + left s.alg.slots * p ≤ runs * p →
      (((s.handle static w l rest).index : Int) +
        left (s.handle static w l rest).alg.slots * p ≤ runs * p) := by
    intro s w l rest h
    have h1 := left_confirm_le w s.alg.slots
    have h2 : left (staticConfirm w s.alg.slots) * p ≤ left s.alg.slots * p :=
      Int.mul_le_mul_of_nonneg_right h1 (by omega)
    simp only [MSt.handle, static]
    omega
  induction hr with
  | init => simp [MSt.start, ha]
  | step n s s' _ hs ih =>
    cases hs with
    | next hp h => exact hassign _ ih
    | response w l rest hp h => exact hassign _ (hhandle _ _ _ _ ih)
    | finish hp h => exact ih
    | last w l rest hp ht h => exact hhandle s w l rest ih
    | leave hp ht => exact ih
    | work w i l rest h => exact ih

end Paradiseo.Mpi

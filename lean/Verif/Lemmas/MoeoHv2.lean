import Verif.Model.MoeoHv2
import Mathlib.Tactic.Ring
import Mathlib.Tactic.Linarith
import Mathlib.Algebra.Order.Field.Basic
import Mathlib.Data.List.TakeDrop
/-
Lemmas about the archive of the largest dominated area.
-/
namespace Paradiseo.Moeo.Hv2

variable {F : Type} [Field F] [LinearOrder F]

/-- In increasing order of the second objective the first objective decreases. -/
def Front (l : List (Pt F)) : Prop := l.Pairwise fun a b => a.y < b.y ∧ b.x < a.x

/-- Every fitness is the value `compute` would give. -/
def Exact (mx : F) (l : List (Pt F)) : Prop := ∀ (i : Nat) p, l[i]? = some p → p.fit = area mx l i

/-- The two objectives. -/
def xy (p : Pt F) : F × F := (p.x, p.y)

theorem area_congr (mx : F) (l l' : List (Pt F)) (i i' : Nat) (h0 : i = 0 ↔ i' = 0)
    (h1 : (l[i - 1]?).map xy = (l'[i' - 1]?).map xy) (h2 : (l[i]?).map xy = (l'[i']?).map xy)
    (h3 : (l[i + 1]?).map xy = (l'[i' + 1]?).map xy) : area mx l i = area mx l' i' := by
  rcases i with _ | i <;> rcases i' with _ | i'
  · rfl
  · simp at h0
  · simp at h0
  · simp only [Nat.add_sub_cancel] at h1
    simp only [area]
    change (l[i + 2]?).map xy = (l'[i' + 2]?).map xy at h3
    revert h1 h2 h3
    rcases l[i]? with _ | a <;> rcases l[i + 1]? with _ | b <;> rcases l[i + 2]? with _ | c <;>
      rcases l'[i']? with _ | a' <;> rcases l'[i' + 1]? with _ | b' <;>
      rcases l'[i' + 2]? with _ | c' <;> simp [xy]
    intro h1 h2 h3 h4 h5 h6
    rw [h1, h3, h6, h2]

theorem area_map (mx : F) (l l' : List (Pt F)) (i : Nat) (h : l.map xy = l'.map xy) :
    area mx l i = area mx l' i := by
  have hh (j : Nat) : (l[j]?).map xy = (l'[j]?).map xy := by
    rw [← List.getElem?_map, ← List.getElem?_map, h]
  exact area_congr mx l l' i i Iff.rfl (hh _) (hh _) (hh _)

theorem setFit_map (l : List (Pt F)) (i : Nat) (v : F) : (setFit l i v).map xy = l.map xy := by
  apply List.ext_getElem?
  intro j
  rw [List.getElem?_map, List.getElem?_map, setFit, List.getElem?_modify]
  by_cases h : i = j <;> rcases l[j]? <;> simp [h, xy]

theorem setFit_length (l : List (Pt F)) (i : Nat) (v : F) : (setFit l i v).length = l.length := by
  simp [setFit]

theorem compute_map (mx : F) (l : List (Pt F)) (i : Nat) : (compute mx l i).map xy = l.map xy :=
  setFit_map l i _

theorem compute_length (mx : F) (l : List (Pt F)) (i : Nat) : (compute mx l i).length = l.length :=
  setFit_length l i _

theorem compute_get (mx : F) (l : List (Pt F)) (i j : Nat) (p : Pt F)
    (h : (compute mx l i)[j]? = some p) :
    (j = i ∧ p.fit = area mx l i) ∨ (j ≠ i ∧ l[j]? = some p) := by
  rw [compute, setFit, List.getElem?_modify] at h
  by_cases hj : i = j
  · subst hj
    left
    simp only [if_true] at h
    rcases hl : l[i]? with _ | q
    · simp [hl] at h
    · simp only [hl, Option.map_eq_map, Option.map_some, Option.some.injEq] at h
      exact ⟨rfl, by rw [← h]⟩
  · right
    simp only [if_neg hj] at h
    refine ⟨fun e => hj e.symm, ?_⟩
    simpa using h

theorem computeFitness_map (mx : F) (l : List (Pt F)) (i : Nat) :
    (computeFitness mx l i).map xy = l.map xy := by
  unfold computeFitness
  simp only []
  rw [compute_map]
  split_ifs <;> simp [compute_map]

theorem computeFitness_length (mx : F) (l : List (Pt F)) (i : Nat) :
    (computeFitness mx l i).length = l.length := by
  have := congrArg List.length (computeFitness_map mx l i)
  simpa using this

theorem computeFitness_get (mx : F) (l : List (Pt F)) (h j : Nat) (p : Pt F)
    (hp : (computeFitness mx l h)[j]? = some p) :
    p.fit = area mx l j ∨ (j + 1 ≠ h ∧ j ≠ h ∧ j ≠ h + 1 ∧ l[j]? = some p) := by
  unfold computeFitness at hp
  simp only [] at hp
  have e1 : (if h ≠ 0 then compute mx l (h - 1) else l).map xy = l.map xy := by
    split_ifs <;> simp [compute_map]
  set l1 := (if h ≠ 0 then compute mx l (h - 1) else l) with hl1
  have e2 : (if h + 1 < l1.length then compute mx l1 (h + 1) else l1).map xy = l.map xy := by
    split_ifs <;> simp [compute_map, e1]
  set l2 := (if h + 1 < l1.length then compute mx l1 (h + 1) else l1) with hl2
  rcases compute_get mx l2 h j p hp with ⟨rfl, hf⟩ | ⟨hj, hp2⟩
  · left; rw [hf, area_map mx l2 l _ e2]
  · have hlt : j < l1.length := by
      have : j < l2.length := by
        rw [List.getElem?_eq_some_iff] at hp2; exact hp2.1
      have e : l2.length = l1.length := by
        rw [hl2]; split_ifs <;> simp [compute_length]
      omega
    have hp1 : (p.fit = area mx l j) ∨ (j ≠ h + 1 ∧ l1[j]? = some p) := by
      rw [hl2] at hp2
      split_ifs at hp2 with hc
      · rcases compute_get mx l1 (h + 1) j p hp2 with ⟨rfl, hf⟩ | ⟨hj', h'⟩
        · left; rw [hf, area_map mx l1 l _ e1]
        · exact Or.inr ⟨hj', h'⟩
      · right; exact ⟨by omega, hp2⟩
    rcases hp1 with hf | ⟨hj1, hp1⟩
    · exact Or.inl hf
    · rw [hl1] at hp1
      split_ifs at hp1 with hc
      · rcases compute_get mx l (h - 1) j p hp1 with ⟨rfl, hf⟩ | ⟨hj', h'⟩
        · exact Or.inl hf
        · exact Or.inr ⟨by omega, hj, hj1, h'⟩
      · exact Or.inr ⟨by omega, hj, hj1, hp1⟩

/-- Only the neighbours of the place where elements are replaced need a new value. -/
theorem exact_insert (mx : F) (pre mid post : List (Pt F)) (p : Pt F)
    (hE : Exact mx (pre ++ mid ++ post)) :
    Exact mx (computeFitness mx (pre ++ p :: post) pre.length) := by
  intro i q hq
  rw [area_map mx _ _ i (computeFitness_map mx _ _)]
  rcases computeFitness_get mx _ _ _ _ hq with h | ⟨h1, h2, h3, h⟩
  · exact h
  · rcases Nat.lt_or_ge i pre.length with hi | hi
    · have hg (j : Nat) (hj : j < pre.length) :
          (pre ++ mid ++ post)[j]? = (pre ++ p :: post)[j]? := by
        rw [List.append_assoc, List.getElem?_append_left hj, List.getElem?_append_left hj]
      rw [← hg i hi] at h
      rw [hE i q h]
      apply area_congr _ _ _ _ _ Iff.rfl
      · rw [hg _ (by omega)]
      · rw [hg _ (by omega)]
      · rw [hg _ (by omega)]
    · obtain ⟨k, rfl⟩ : ∃ k, i = pre.length + 2 + k := ⟨i - (pre.length + 2), by omega⟩
      have hg (j : Nat) : (pre ++ mid ++ post)[pre.length + mid.length + j]? =
          (pre ++ p :: post)[pre.length + 1 + j]? := by
        rw [List.getElem?_append_right (by simp), List.getElem?_append_right (by omega)]
        have e1 : pre.length + mid.length + j - (pre ++ mid).length = j := by simp
        have e2 : pre.length + 1 + j - pre.length = j + 1 := by omega
        rw [e1, e2, List.getElem?_cons_succ]
      have e : pre.length + 2 + k = pre.length + 1 + (k + 1) := by omega
      rw [e, ← hg] at h
      rw [hE _ q h, e]
      apply area_congr _ _ _ _ _ (by omega)
      · have e1 : pre.length + mid.length + (k + 1) - 1 = pre.length + mid.length + k := by omega
        have e2 : pre.length + 1 + (k + 1) - 1 = pre.length + 1 + k := by omega
        rw [e1, e2, hg]
      · rw [hg]
      · have e1 : pre.length + mid.length + (k + 1) + 1 = pre.length + mid.length + (k + 2) := by omega
        have e2 : pre.length + 1 + (k + 1) + 1 = pre.length + 1 + (k + 2) := by omega
        rw [e1, e2, hg]

theorem exact_erase (mx : F) (l : List (Pt F)) (k : Nat) (hE : Exact mx l) (hk : k ≠ 0)
    (hl : k + 1 < l.length) :
    Exact mx (compute mx (compute mx (l.eraseIdx k) (k - 1)) k) := by
  intro i q hq
  have em : (compute mx (compute mx (l.eraseIdx k) (k - 1)) k).map xy = (l.eraseIdx k).map xy := by
    rw [compute_map, compute_map]
  rw [area_map mx _ _ i em]
  rcases compute_get mx _ _ _ _ hq with ⟨rfl, hf⟩ | ⟨h1, hq⟩
  · rw [hf, area_map mx _ _ _ (compute_map mx _ _)]
  · rcases compute_get mx _ _ _ _ hq with ⟨rfl, hf⟩ | ⟨h2, hq⟩
    · exact hf
    · rw [List.getElem?_eraseIdx] at hq
      rcases Nat.lt_or_ge i k with hi | hi
      · rw [if_pos hi] at hq
        rw [hE i q hq]
        apply area_congr _ _ _ _ _ Iff.rfl <;> rw [List.getElem?_eraseIdx, if_pos (by omega)]
      · rw [if_neg (by omega)] at hq
        rw [hE _ q hq]
        apply area_congr _ _ _ _ _ (by omega)
        · rw [List.getElem?_eraseIdx, if_neg (by omega)]
          congr 2; omega
        · rw [List.getElem?_eraseIdx, if_neg (by omega)]
        · rw [List.getElem?_eraseIdx, if_neg (by omega)]

theorem front_map (l l' : List (Pt F)) (h : l.map xy = l'.map xy) (hf : Front l) : Front l' := by
  have key (m : List (Pt F)) : Front m ↔ (m.map xy).Pairwise fun a b => a.2 < b.2 ∧ b.1 < a.1 := by
    rw [List.pairwise_map]; rfl
  rw [key] at hf ⊢
  rwa [← h]

/-! ### The place of a newcomer -/

theorem mem_takeWhile_imp {α : Type} {f : α → Bool} {l : List α} {a : α} (h : a ∈ l.takeWhile f) :
    f a = true := by
  induction l with
  | nil => simp at h
  | cons b l ih =>
    rw [List.takeWhile_cons] at h
    split_ifs at h with hb
    · rcases List.mem_cons.1 h with rfl | h
      · exact hb
      · exact ih h
    · simp at h

theorem upper_split (l : List (Pt F)) (p : Pt F) :
    l.take (upper l p) = l.takeWhile (fun a => !compLt p a) ∧
      l.drop (upper l p) = l.dropWhile (fun a => !compLt p a) := by
  have h := List.takeWhile_append_dropWhile (p := fun a => !compLt p a) (l := l)
  have hu : upper l p = (l.takeWhile (fun a => !compLt p a)).length := rfl
  rw [hu]
  generalize l.takeWhile (fun a => !compLt p a) = a at h ⊢
  generalize l.dropWhile (fun a => !compLt p a) = b at h ⊢
  subst h
  exact ⟨List.take_left' rfl, List.drop_left' rfl⟩

/-- What `place` leaves of the archive. -/
theorem place_some (l : List (Pt F)) (p : Pt F) (hF : Front l) (h : Nat) (l1 : List (Pt F))
    (hp : place l p = some (h, l1)) :
    ∃ pre mid post, l = pre ++ mid ++ post ∧ l1 = pre ++ post ∧ h = pre.length ∧
      (∀ a ∈ mid, p.x ≤ a.x ∧ p.y ≤ a.y) ∧ Front (pre ++ p :: post) := by
  obtain ⟨hT, hD⟩ := upper_split l p
  have hlen : (l.takeWhile (fun a => !compLt p a)).length = upper l p := rfl
  unfold place at hp
  simp only [] at hp
  split_ifs at hp with hok
  · unfold accepts at hok
    simp only [Option.some.injEq, Prod.mk.injEq] at hp
    obtain ⟨rfl, rfl⟩ := hp
    set pre := l.takeWhile (fun a => !compLt p a) with hpre
    set rest := l.dropWhile (fun a => !compLt p a) with hrest
    have hl : pre ++ rest = l := List.takeWhile_append_dropWhile
    set mid := rest.takeWhile (fun a => decide (p.x ≤ a.x)) with hmid
    set post := rest.dropWhile (fun a => decide (p.x ≤ a.x)) with hpost
    have hr : mid ++ post = rest := List.takeWhile_append_dropWhile
    rw [hT, hD]
    rw [← hl, Front, List.pairwise_append] at hF
    obtain ⟨hF1, hF2, hF3⟩ := hF
    have hrestp : ∀ b ∈ rest, p.y ≤ b.y ∧ (b.x < p.x → p.y < b.y) := by
      rcases hrr : rest with _ | ⟨r0, rs⟩
      · simp
      · have h0 : compLt p r0 = true := by
          have := List.head?_dropWhile_not (fun a => !compLt p a) l
          rw [← hrest, hrr] at this
          simpa using this
        simp only [compLt, Bool.or_eq_true, Bool.and_eq_true, decide_eq_true_eq] at h0
        rw [hrr, List.pairwise_cons] at hF2
        intro b hb
        rcases List.mem_cons.1 hb with rfl | hb
        · rcases h0 with h0 | ⟨h0, h0'⟩
          · exact ⟨h0.le, fun _ => h0⟩
          · exact ⟨h0.le, fun hc => absurd h0' (not_lt.2 hc.le)⟩
        · have := (hF2.1 b hb).1
          have h0y : p.y ≤ r0.y := by
            rcases h0 with h0 | ⟨h0, _⟩
            · exact h0.le
            · exact h0.le
          exact ⟨h0y.trans this.le, fun _ => lt_of_le_of_lt h0y this⟩
    have hprex : ∀ a ∈ pre, p.x < a.x := by
      rcases List.eq_nil_or_concat pre with hn | ⟨init, a0, hc⟩
      · rw [hn]; simp
      · have hne : upper l p ≠ 0 := by rw [← hlen, hc]; simp
        rw [if_neg hne] at hok
        have hget : l[upper l p - 1]? = some a0 := by
          have e : l[pre.length - 1]? = pre[pre.length - 1]? := by
            conv_lhs => lhs; rw [← hl]
            rw [List.getElem?_append_left (by rw [hc]; simp)]
          rw [← hlen, e, hc]
          simp
        rw [hget] at hok
        simp only [decide_eq_true_eq] at hok
        rw [hc, List.concat_eq_append, List.pairwise_append] at hF1
        intro a ha
        rw [hc, List.concat_eq_append, List.mem_append] at ha
        rcases ha with ha | ha
        · exact hok.trans (hF1.2.2 a ha a0 (by simp)).2
        · rw [List.mem_singleton.1 ha]; exact hok
    refine ⟨pre, mid, post, by rw [List.append_assoc, hr, hl], rfl, rfl, ?_, ?_⟩
    · intro a ha
      have h1 : p.x ≤ a.x := by
        have := mem_takeWhile_imp ha
        simpa using this
      exact ⟨h1, (hrestp a (by rw [← hr]; exact List.mem_append_left _ ha)).1⟩
    · have hpostx : ∀ b ∈ post, b.x < p.x := by
        rcases hpp : post with _ | ⟨b0, bs⟩
        · simp
        · have h0 : ¬ p.x ≤ b0.x := by
            have := List.head?_dropWhile_not (fun a => decide (p.x ≤ a.x)) rest
            rw [← hpost, hpp] at this
            simpa using this
          have hF4 : List.Pairwise (fun a b : Pt F => a.y < b.y ∧ b.x < a.x) (b0 :: bs) := by
            rw [← hpp]
            exact hF2.sublist (List.dropWhile_sublist _)
          rw [List.pairwise_cons] at hF4
          intro b hb
          rcases List.mem_cons.1 hb with rfl | hb
          · exact not_le.1 h0
          · exact (hF4.1 b hb).2.trans (not_le.1 h0)
      have hpr : ∀ b ∈ post, b ∈ rest := fun b hb => by rw [← hr]; exact List.mem_append_right _ hb
      rw [Front, List.pairwise_append]
      refine ⟨hF1, ?_, ?_⟩
      · rw [List.pairwise_cons]
        refine ⟨fun b hb => ⟨(hrestp b (hpr b hb)).2 (hpostx b hb), hpostx b hb⟩, ?_⟩
        exact hF2.sublist (List.dropWhile_sublist _)
      · intro a ha b hb
        rcases List.mem_cons.1 hb with rfl | hb
        · refine ⟨?_, hprex a ha⟩
          have h1 := mem_takeWhile_imp ha
          simp only [compLt, Bool.not_eq_true', Bool.or_eq_false_iff, Bool.and_eq_false_iff,
            decide_eq_false_iff_not] at h1
          rcases lt_trichotomy a.y b.y with h | h | h
          · exact h
          · rcases h1.2 with h2 | h2
            · exact absurd h.symm h2
            · exact absurd (hprex a ha) h2
          · exact absurd h h1.1
        · exact hF3 a ha b (hpr b hb)

theorem place_none (l : List (Pt F)) (p : Pt F) (hp : place l p = none) :
    ∃ a ∈ l, a.x ≤ p.x ∧ a.y ≤ p.y := by
  unfold place at hp
  simp only [] at hp
  split_ifs at hp with hok
  · unfold accepts at hok
    have hne : upper l p ≠ 0 := by
      intro e; rw [if_pos e] at hok; exact hok rfl
    rw [if_neg hne] at hok
    have hlen : (l.takeWhile (fun a => !compLt p a)).length = upper l p := rfl
    have hlt : upper l p - 1 < (l.takeWhile (fun a => !compLt p a)).length := by omega
    have hl : l.takeWhile (fun a => !compLt p a) ++ l.dropWhile (fun a => !compLt p a) = l :=
      List.takeWhile_append_dropWhile
    have hget : l[upper l p - 1]? = some ((l.takeWhile (fun a => !compLt p a))[upper l p - 1]) := by
      conv_lhs => lhs; rw [← hl]
      rw [List.getElem?_append_left hlt, List.getElem?_eq_getElem hlt]
    have hm : (l.takeWhile (fun a => !compLt p a))[upper l p - 1] ∈ l.takeWhile (fun a => !compLt p a) :=
      List.getElem_mem hlt
    set a := (l.takeWhile (fun a => !compLt p a))[upper l p - 1] with ha
    rw [hget] at hok
    simp only [decide_eq_true_eq, not_lt] at hok
    have h1 := mem_takeWhile_imp hm
    simp only [compLt, Bool.not_eq_true', Bool.or_eq_false_iff, Bool.and_eq_false_iff,
      decide_eq_false_iff_not] at h1
    exact ⟨a, (List.takeWhile_sublist _).subset hm, hok, not_lt.1 h1.1⟩

/-! ### Removing the least area -/

theorem scanMin_spec (l : List (Pt F)) : ∀ (i : Nat) (m : F) (k : Option Nat),
    (scanMin l i m k).1 ≤ m ∧ (∀ p ∈ l, (scanMin l i m k).1 ≤ p.fit) ∧
      (((scanMin l i m k) = (m, k)) ∨
        ∃ j p, (scanMin l i m k).2 = some (i + j) ∧ l[j]? = some p ∧ p.fit = (scanMin l i m k).1 ∧
          p.fit < m) := by
  induction l with
  | nil => intro i m k; simp [scanMin]
  | cons q l ih =>
    intro i m k
    simp only [scanMin]
    split_ifs with h
    · obtain ⟨h1, h2, h3⟩ := ih (i + 1) q.fit (some i)
      refine ⟨h1.trans h.le, ?_, ?_⟩
      · intro p hp
        rcases List.mem_cons.1 hp with rfl | hp
        · exact h1
        · exact h2 p hp
      · right
        rcases h3 with h3 | ⟨j, p, h3, h4, h5, h6⟩
        · exact ⟨0, q, by rw [h3]; simp, by simp, by rw [h3], h⟩
        · exact ⟨j + 1, p, by rw [h3]; congr 1; omega, by simpa using h4, h5, h6.trans h⟩
    · obtain ⟨h1, h2, h3⟩ := ih (i + 1) m k
      refine ⟨h1, ?_, ?_⟩
      · intro p hp
        rcases List.mem_cons.1 hp with rfl | hp
        · exact h1.trans (not_lt.1 h)
        · exact h2 p hp
      · rcases h3 with h3 | ⟨j, p, h3, h4, h5, h6⟩
        · exact Or.inl h3
        · exact Or.inr ⟨j + 1, p, by rw [h3]; congr 1; omega, by simpa using h4, h5, h6⟩

theorem filterbis_small (mx : F) (ms fuel : Nat) (m : F) (l : List (Pt F)) (h : l.length ≤ ms) :
    filterbis mx ms fuel m l = some l := by
  cases fuel with
  | zero => rfl
  | succ f => rw [filterbis, if_neg (by omega)]

/-- With one element too many, one turn: the element of least fitness leaves. -/
theorem filterbis_one (mx : F) (ms : Nat) (l r : List (Pt F)) (hl : l.length = ms + 1)
    (hE : Exact mx l) (hr : filterbis mx ms l.length mx l = some r) :
    ∃ (k : Nat) (q : Pt F), k ≠ 0 ∧ k + 1 < l.length ∧ l[k]? = some q ∧ q.fit < mx ∧
      (∀ p ∈ l, q.fit ≤ p.fit) ∧ r = compute mx (compute mx (l.eraseIdx k) (k - 1)) k := by
  rw [hl, filterbis, if_pos (by omega)] at hr
  obtain ⟨h1, h2, h3⟩ := scanMin_spec l 0 mx none
  rcases h3 with h3 | ⟨j, q, h3, h4, h5, h6⟩
  · rw [h3] at hr; cases hr
  · rw [← Prod.mk.eta (p := scanMin l 0 mx none), h3] at hr
    simp only [] at hr
    have hj0 : j ≠ 0 := by
      rintro rfl
      have := hE 0 q h4
      rw [this] at h6
      exact lt_irrefl _ h6
    have hlt : j < l.length := (List.getElem?_eq_some_iff.1 h4).1
    have hj1 : j + 1 < l.length := by
      by_contra hc
      have e : j + 1 = l.length := by omega
      have hf := hE j q h4
      obtain ⟨i, rfl⟩ : ∃ i, j = i + 1 := ⟨j - 1, by omega⟩
      have hn : l[i + 2]? = none := List.getElem?_eq_none (by omega)
      rw [area, hn] at hf
      have : q.fit = mx := by
        rw [hf]; rcases l[i]? <;> rcases l[i + 1]? <;> rfl
      exact lt_irrefl _ (this ▸ h6)
    rw [Nat.zero_add, if_neg hj0, if_neg (by rw [List.length_eraseIdx_of_lt hlt]; omega)] at hr
    rw [filterbis_small _ _ _ _ _ (by
      rw [compute_length, compute_length, List.length_eraseIdx_of_lt hlt]; omega)] at hr
    refine ⟨j, q, hj0, hj1, h4, h6, fun p hp => ?_, by simpa using hr.symm⟩
    rw [h5]; exact h2 p hp

theorem map_eraseIdx' {α β : Type} (f : α → β) (l : List α) (k : Nat) :
    (l.eraseIdx k).map f = (l.map f).eraseIdx k := by
  apply List.ext_getElem?
  intro i
  rw [List.getElem?_map, List.getElem?_eraseIdx, List.getElem?_eraseIdx, List.getElem?_map,
    List.getElem?_map]
  split_ifs <;> rfl

theorem front_erase (l : List (Pt F)) (k : Nat) (h : Front l) : Front (l.eraseIdx k) :=
  h.sublist (List.eraseIdx_sublist l k)

/-- What an insertion followed by the filter does when the archive was full. -/
theorem insertFilter_spec (mx : F) (pre mid post : List (Pt F)) (p : Pt F) (ms : Nat)
    (hE : Exact mx (pre ++ mid ++ post)) (hF : Front (pre ++ p :: post))
    (hms : (pre ++ post).length = ms) (r : List (Pt F))
    (hr : insertFilter mx ms (pre ++ post) pre.length p = some r) :
    Front r ∧ Exact mx r ∧ r.length = ms ∧
    ∃ k : Nat, k ≠ 0 ∧ k < ms ∧ r.map xy = ((pre ++ p :: post).eraseIdx k).map xy ∧
      area mx (pre ++ p :: post) k < mx ∧
      ∀ i : Nat, i ≤ ms → area mx (pre ++ p :: post) k ≤ area mx (pre ++ p :: post) i := by
  rw [insertFilter, List.take_left' rfl, List.drop_left' rfl] at hr
  set l2 := pre ++ p :: post with hl2
  have hlen2 : l2.length = ms + 1 := by rw [← hms]; simp [hl2]; omega
  have hE2 := exact_insert mx pre mid post p hE
  rw [← hl2] at hE2
  have hm2 := computeFitness_map mx l2 pre.length
  have hlen3 : (computeFitness mx l2 pre.length).length = ms + 1 := by
    rw [computeFitness_length, hlen2]
  set l3 := computeFitness mx l2 pre.length with hl3
  obtain ⟨k, q, hk0, hk1, hkq, hqm, hmin, rfl⟩ := filterbis_one mx ms l3 r hlen3 hE2 hr
  have hqa : q.fit = area mx l2 k := by rw [hE2 k q hkq, area_map mx l3 l2 k hm2]
  have hlt : k < l3.length := by omega
  refine ⟨?_, exact_erase mx l3 k hE2 hk0 hk1, ?_, k, hk0, by omega, ?_, by rw [← hqa]; exact hqm, ?_⟩
  · apply front_map (l3.eraseIdx k)
    · rw [compute_map, compute_map]
    · exact front_erase _ _ (front_map l2 l3 hm2.symm hF)
  · rw [compute_length, compute_length, List.length_eraseIdx_of_lt hlt]; omega
  · rw [compute_map, compute_map, map_eraseIdx', map_eraseIdx', hm2]
  · intro i hi
    have hil : i < l3.length := by omega
    rw [← hqa, ← area_map mx l3 l2 i hm2, ← hE2 i _ (List.getElem?_eq_getElem hil)]
    exact hmin _ (List.getElem_mem hil)

/-! ### Areas after an insertion -/

theorem ins_get_lt {α : Type} (pre post : List α) (p : α) (i : Nat) (h : i < pre.length) :
    (pre ++ p :: post)[i]? = (pre ++ post)[i]? := by
  rw [List.getElem?_append_left h, List.getElem?_append_left h]

theorem ins_get_eq {α : Type} (pre post : List α) (p : α) :
    (pre ++ p :: post)[pre.length]? = some p := by
  rw [List.getElem?_append_right (Nat.le_refl _)]; simp

theorem ins_get_gt {α : Type} (pre post : List α) (p : α) (i : Nat) (h : pre.length ≤ i) :
    (pre ++ p :: post)[i + 1]? = (pre ++ post)[i]? := by
  rw [List.getElem?_append_right (by omega), List.getElem?_append_right h]
  have e : i + 1 - pre.length = (i - pre.length) + 1 := by omega
  rw [e, List.getElem?_cons_succ]

theorem area_get (mx : F) (l : List (Pt F)) (j : Nat) (a b c : Pt F) (ha : l[j]? = some a)
    (hb : l[j + 1]? = some b) (hc : l[j + 2]? = some c) :
    area mx l (j + 1) = (a.x - b.x) * (c.y - b.y) := by
  simp [area, ha, hb, hc]

theorem area_last (mx : F) (l : List (Pt F)) (i : Nat) (h : l.length ≤ i + 1) : area mx l i = mx := by
  rcases i with _ | i
  · rfl
  · have hn : l[i + 2]? = none := List.getElem?_eq_none (by omega)
    rw [area, hn]
    rcases l[i]? <;> rcases l[i + 1]? <;> rfl

theorem area_ins_lt (mx : F) (pre post : List (Pt F)) (p : Pt F) (i : Nat) (h : i + 1 < pre.length) :
    area mx (pre ++ p :: post) i = area mx (pre ++ post) i := by
  apply area_congr _ _ _ _ _ Iff.rfl <;> rw [ins_get_lt _ _ _ _ (by omega)]

theorem area_ins_gt (mx : F) (pre post : List (Pt F)) (p : Pt F) (i : Nat) (h : pre.length < i) :
    area mx (pre ++ p :: post) (i + 1) = area mx (pre ++ post) i := by
  apply area_congr _ _ _ _ _ (by omega)
  · obtain ⟨j, rfl⟩ : ∃ j, i = j + 1 := ⟨i - 1, by omega⟩
    simp only [Nat.add_sub_cancel]
    rw [ins_get_gt _ _ _ _ (by omega)]
  · rw [ins_get_gt _ _ _ _ (by omega)]
  · rw [ins_get_gt _ _ _ _ (by omega)]

/-- The invariant of the archive. -/
def Ok (mx : F) (ms : Nat) (l : List (Pt F)) : Prop := Front l ∧ Exact mx l ∧ l.length ≤ ms

/-- What `step` may do. -/
def Outcome (mx : F) (ms : Nat) (l : List (Pt F)) (p : Pt F) (t : Bool) (l' : List (Pt F)) : Prop :=
  (t = false ∧ l' = l ∧ ∃ a ∈ l, a.x ≤ p.x ∧ a.y ≤ p.y) ∨
  ∃ pre mid post, l = pre ++ mid ++ post ∧ (∀ a ∈ mid, p.x ≤ a.x ∧ p.y ≤ a.y) ∧
    Front (pre ++ p :: post) ∧
    ((t = true ∧ (pre ++ post).length < ms ∧ l'.map xy = (pre ++ p :: post).map xy) ∨
      (mid = [] ∧ (pre ++ post).length = ms ∧
        ((t = true ∧ ∃ k : Nat, k ≠ 0 ∧ k < ms ∧ k ≠ pre.length ∧
            l'.map xy = ((pre ++ p :: post).eraseIdx k).map xy ∧
            area mx (pre ++ p :: post) k < mx ∧
            ∀ i : Nat, i ≤ ms → area mx (pre ++ p :: post) k ≤ area mx (pre ++ p :: post) i) ∨
          (t = false ∧ l' = l ∧
            ∀ i : Nat, i ≤ ms → area mx (pre ++ p :: post) pre.length ≤ area mx (pre ++ p :: post) i))))

variable [IsStrictOrderedRing F]

theorem filter_spec (mx : F) (ms : Nat) (pre post : List (Pt F)) (p : Pt F) (t : Bool)
    (l' : List (Pt F)) (hE : Exact mx (pre ++ post)) (hF0 : Front (pre ++ post))
    (hF : Front (pre ++ p :: post))
    (hms : (pre ++ post).length = ms)
    (hs : filter mx ms (pre ++ post) pre.length p = some (t, l')) :
    Ok mx ms l' ∧
      ((t = true ∧ ∃ k : Nat, k ≠ 0 ∧ k < ms ∧ k ≠ pre.length ∧
            l'.map xy = ((pre ++ p :: post).eraseIdx k).map xy ∧
            area mx (pre ++ p :: post) k < mx ∧
            ∀ i : Nat, i ≤ ms → area mx (pre ++ p :: post) k ≤ area mx (pre ++ p :: post) i) ∨
          (t = false ∧ l' = pre ++ post ∧
            ∀ i : Nat, i ≤ ms →
              area mx (pre ++ p :: post) pre.length ≤ area mx (pre ++ p :: post) i)) := by
  have key (hk : ∀ k : Nat, k ≠ 0 → k < ms → area mx (pre ++ p :: post) k < mx →
        (∀ i : Nat, i ≤ ms → area mx (pre ++ p :: post) k ≤ area mx (pre ++ p :: post) i) →
        k ≠ pre.length)
      (hr : (insertFilter mx ms (pre ++ post) pre.length p).map (fun l' => (true, l')) =
        some (t, l')) : Ok mx ms l' ∧
      ((t = true ∧ ∃ k : Nat, k ≠ 0 ∧ k < ms ∧ k ≠ pre.length ∧
            l'.map xy = ((pre ++ p :: post).eraseIdx k).map xy ∧
            area mx (pre ++ p :: post) k < mx ∧
            ∀ i : Nat, i ≤ ms → area mx (pre ++ p :: post) k ≤ area mx (pre ++ p :: post) i) ∨
          (t = false ∧ l' = pre ++ post ∧
            ∀ i : Nat, i ≤ ms →
              area mx (pre ++ p :: post) pre.length ≤ area mx (pre ++ p :: post) i)) := by
    rw [Option.map_eq_some_iff] at hr
    obtain ⟨r, hr, he⟩ := hr
    simp only [Prod.mk.injEq] at he
    obtain ⟨rfl, rfl⟩ := he
    obtain ⟨h1, h2, h3, k, h4, h5, h6, h7, h8⟩ := insertFilter_spec mx pre [] post p ms
      (by simpa using hE) hF hms r hr
    exact ⟨⟨h1, h2, h3.le⟩, Or.inl ⟨rfl, k, h4, h5, hk k h4 h5 h7 h8, h6, h7, h8⟩⟩
  unfold filter at hs
  split_ifs at hs with hext
  · refine key (fun k hk0 hk _ _ => ?_) hs
    rcases hext with h | h <;> omega
  · have hpre : pre.length ≠ 0 := fun h => hext (Or.inl h)
    have hpost : pre.length < ms := by
      have h1 : pre.length ≠ (pre ++ post).length := fun h => hext (Or.inr h)
      have h2 : (pre ++ post).length = pre.length + post.length := List.length_append
      omega
    split at hs
    case h_2 => cases hs
    case h_1 a b c ha hb hc =>
      simp only [] at hs
      have ga : (pre ++ p :: post)[pre.length - 1]? = some a := by
        rw [ins_get_lt _ _ _ _ (by omega)]; exact ha
      have gp := ins_get_eq pre post p
      have gb : (pre ++ p :: post)[pre.length + 1]? = some b := by
        rw [ins_get_gt _ _ _ _ (Nat.le_refl _)]; exact hb
      have gc : (pre ++ p :: post)[pre.length + 1 + 1]? = some c := by
        rw [ins_get_gt _ _ _ _ (by omega)]; exact hc
      have arp : area mx (pre ++ p :: post) pre.length = (b.y - p.y) * (a.x - p.x) := by
        obtain ⟨h, hh⟩ : ∃ h, pre.length = h + 1 := ⟨pre.length - 1, by omega⟩
        rw [hh] at ga gp gb ⊢
        rw [area_get mx _ h a p b ga gp gb]; ring
      have ars : area mx (pre ++ p :: post) (pre.length + 1) = (p.x - b.x) * (c.y - b.y) :=
        area_get mx _ _ p b c gp gb gc
      have arr : ∀ q, predArea mx (pre ++ post) pre.length p a = some q →
          area mx (pre ++ p :: post) (pre.length - 1) = q := by
        intro q hq
        unfold predArea at hq
        split_ifs at hq with h0
        · rw [h0]; simpa [area] using hq
        · obtain ⟨h, hh⟩ : ∃ h, pre.length = h + 2 := ⟨pre.length - 2, by omega⟩
          split at hq
          case h_2 => cases hq
          case h_1 a' ha' =>
            have ga' : (pre ++ p :: post)[h]? = some a' := by
              rw [ins_get_lt _ _ _ _ (by omega)]; rw [hh] at ha'; simpa using ha'
            rw [hh] at ga gp ⊢
            rw [show h + 2 - 1 = h + 1 by omega] at ga ⊢
            rw [area_get mx _ h a' a p ga' ga gp]
            simp only [Option.some.injEq] at hq
            rw [← hq]; ring
      split at hs
      case h_1 => cases hs
      case h_2 pred hpred =>
        have hpd := arr pred hpred
        split_ifs at hs with h1 h2
        · refine key (fun k _ _ _ hmin => ?_) hs
          rintro rfl
          have e1 := hmin (pre.length + 1) (by omega)
          have e2 := hmin (pre.length - 1) (by omega)
          rw [arp] at e1 e2
          rw [ars] at e1
          rw [hpd] at e2
          rcases h1 with h1 | h1
          · exact absurd e1 (not_le.2 h1)
          · exact absurd e2 (not_le.2 h1)
        · simp only [Option.some.injEq, Prod.mk.injEq] at hs
          obtain ⟨rfl, rfl⟩ := hs
          obtain ⟨hs1, hs2, _⟩ := scanMin_spec (pre ++ post) 0 mx none
          refine ⟨⟨hF0, hE, hms.le⟩, Or.inr ⟨rfl, rfl, fun i hi => ?_⟩⟩
          have hold (j : Nat) (hj : j < ms) : area mx (pre ++ p :: post) pre.length ≤
              area mx (pre ++ post) j := by
            have hjl : j < (pre ++ post).length := by omega
            rw [← hE j _ (List.getElem?_eq_getElem hjl), arp]
            exact h2.trans (hs2 _ (List.getElem_mem hjl))
          have hn := not_or.1 h1
          rcases Nat.lt_trichotomy i pre.length with h | h | h
          · rcases Nat.lt_or_ge (i + 1) pre.length with h' | h'
            · rw [area_ins_lt _ _ _ _ _ h']; exact hold i (by omega)
            · have : i = pre.length - 1 := by omega
              rw [this, hpd, arp]; exact not_lt.1 hn.2
          · rw [h]
          · rcases Nat.lt_or_ge (pre.length + 1) i with h' | h'
            · obtain ⟨j, rfl⟩ : ∃ j, i = j + 1 := ⟨i - 1, by omega⟩
              rw [area_ins_gt _ _ _ _ _ (by omega)]; exact hold j (by omega)
            · have : i = pre.length + 1 := by omega
              rw [this, ars, arp]; exact not_lt.1 hn.1
        · refine key (fun k _ _ hkm hmin => ?_) hs
          rintro rfl
          obtain ⟨hs1, hs2, hs3⟩ := scanMin_spec (pre ++ post) 0 mx none
          have h2' := not_le.1 h2
          have hn := not_or.1 h1
          rcases hs3 with hs3 | ⟨j, q, _, hj, hq, _⟩
          · rw [hs3] at h2'
            rw [arp] at hkm
            exact lt_asymm h2' hkm
          · rw [← hq, hE j q hj, ← arp] at h2'
            have hjl : j < (pre ++ post).length := (List.getElem?_eq_some_iff.1 hj).1
            rcases Nat.lt_or_ge (j + 1) pre.length with h' | h'
            · have := hmin j (by omega)
              rw [area_ins_lt _ _ _ _ _ h'] at this
              exact absurd this (not_le.2 h2')
            · rcases Nat.lt_or_ge pre.length j with h'' | h''
              · have := hmin (j + 1) (by omega)
                rw [area_ins_gt _ _ _ _ _ (by omega)] at this
                exact absurd this (not_le.2 h2')
              · have hle := hF
                rw [Front, List.pairwise_iff_getElem] at hle
                have hrel (u v : Nat) (huv : u < v) (pu pv : Pt F)
                    (hu : (pre ++ p :: post)[u]? = some pu) (hv : (pre ++ p :: post)[v]? = some pv) :
                    pu.y < pv.y ∧ pv.x < pu.x := by
                  obtain ⟨a1, rfl⟩ := List.getElem?_eq_some_iff.1 hu
                  obtain ⟨a2, rfl⟩ := List.getElem?_eq_some_iff.1 hv
                  exact hle u v a1 a2 huv
                have hcase : j = pre.length - 1 ∨ j = pre.length := by omega
                rcases hcase with rfl | rfl
                · have e2 : area mx (pre ++ p :: post) (pre.length - 1) ≤
                      area mx (pre ++ post) (pre.length - 1) := by
                    by_cases h0 : pre.length - 1 = 0
                    · rw [h0]; exact le_refl _
                    · obtain ⟨h, hh⟩ : ∃ h, pre.length = h + 2 := ⟨pre.length - 2, by omega⟩
                      have hlt : h < (pre ++ p :: post).length := by simp; omega
                      have ga' := List.getElem?_eq_getElem hlt
                      set a' := (pre ++ p :: post)[h] with ha'
                      rw [hh] at ga gp gb ha hb ⊢
                      rw [show h + 2 - 1 = h + 1 by omega] at ga ha ⊢
                      have ga'' : (pre ++ post)[h]? = some a' := by
                        rw [← ins_get_lt pre post p h (by omega)]; exact ga'
                      rw [area_get mx _ h a' a p ga' ga gp, area_get mx _ h a' a b ga'' ha hb]
                      have r1 := hrel h (h + 1) (by omega) a' a ga' ga
                      have r2 := hrel (h + 2) (h + 2 + 1) (by omega) p b gp gb
                      apply mul_le_mul_of_nonneg_left
                      · linarith [r2.1]
                      · linarith [r1.2]
                  have := hmin (pre.length - 1) (by omega)
                  exact absurd (this.trans e2) (not_le.2 h2')
                · have e2 : area mx (pre ++ p :: post) (pre.length + 1) ≤
                      area mx (pre ++ post) pre.length := by
                    have e3 : area mx (pre ++ post) pre.length = (a.x - b.x) * (c.y - b.y) := by
                      obtain ⟨h, hh⟩ : ∃ h, pre.length = h + 1 := ⟨pre.length - 1, by omega⟩
                      rw [hh] at ha hb hc ⊢
                      exact area_get mx _ h a b c ha hb hc
                    rw [ars, e3]
                    have r1 := hrel (pre.length - 1) pre.length (by omega) a p ga gp
                    have r2 := hrel (pre.length + 1) (pre.length + 1 + 1) (by omega) b c gb gc
                    apply mul_le_mul_of_nonneg_right
                    · linarith [r1.2]
                    · linarith [r2.1]
                  have := hmin (pre.length + 1) (by omega)
                  exact absurd (this.trans e2) (not_le.2 h2')

theorem step_spec (mx : F) (ms : Nat) (hms : 2 ≤ ms) (l : List (Pt F)) (p : Pt F) (t : Bool)
    (l' : List (Pt F)) (hok : Ok mx ms l) (hs : step mx ms l p = some (t, l')) :
    Ok mx ms l' ∧ Outcome mx ms l p t l' := by
  obtain ⟨hF, hE, hl⟩ := hok
  unfold step at hs
  split_ifs at hs with h0
  · simp only [Option.some.injEq, Prod.mk.injEq] at hs
    obtain ⟨rfl, rfl⟩ := hs
    have : l = [] := by simpa using h0
    subst this
    refine ⟨⟨by simp [Front], ?_, by simp; omega⟩, Or.inr ⟨[], [], [], rfl, by simp, by simp [Front],
      Or.inl ⟨rfl, by simp; omega, by simp [xy]⟩⟩⟩
    intro i q hq
    rcases i with _ | i
    · simp only [List.getElem?_cons_zero, Option.some.injEq] at hq
      rw [← hq]; rfl
    · simp at hq
  · split at hs
    case h_1 hp =>
      simp only [Option.some.injEq, Prod.mk.injEq] at hs
      obtain ⟨rfl, rfl⟩ := hs
      exact ⟨⟨hF, hE, hl⟩, Or.inl ⟨rfl, rfl, place_none l p hp⟩⟩
    case h_2 h l1 hp =>
      obtain ⟨pre, mid, post, rfl, rfl, rfl, hmid, hF2⟩ := place_some l p hF h l1 hp
      split_ifs at hs with hlt
      · rw [List.take_left' rfl, List.drop_left' rfl] at hs
        simp only [] at hs
        have hlen : (pre ++ p :: post).length = (pre ++ post).length + 1 := by simp; omega
        split_ifs at hs with h2
        · simp only [Option.some.injEq, Prod.mk.injEq] at hs
          obtain ⟨rfl, rfl⟩ := hs
          have hm := computeFitness_map mx (pre ++ p :: post) pre.length
          refine ⟨⟨front_map _ _ hm.symm hF2, exact_insert mx pre mid post p hE, ?_⟩, Or.inr
            ⟨pre, mid, post, rfl, hmid, hF2, Or.inl ⟨rfl, hlt, hm⟩⟩⟩
          rw [computeFitness_length]; omega
        · simp only [Option.some.injEq, Prod.mk.injEq] at hs
          obtain ⟨rfl, rfl⟩ := hs
          have hm : ((pre ++ p :: post).map fun q => { q with fit := mx }).map xy =
              (pre ++ p :: post).map xy := by
            rw [List.map_map]; rfl
          refine ⟨⟨front_map _ _ hm.symm hF2, ?_, ?_⟩, Or.inr
            ⟨pre, mid, post, rfl, hmid, hF2, Or.inl ⟨rfl, hlt, hm⟩⟩⟩
          · intro i q hq
            rw [List.getElem?_map, Option.map_eq_some_iff] at hq
            obtain ⟨q', _, rfl⟩ := hq
            rcases i with _ | i
            · rfl
            · rw [area_last _ _ _ (by rw [List.length_map]; omega)]
          · rw [List.length_map]; omega
      · have e1 : (pre ++ mid ++ post).length = (pre ++ post).length + mid.length := by
          simp; omega
        have hm0 : mid = [] := by
          apply List.eq_nil_of_length_eq_zero; omega
        subst hm0
        rw [List.append_nil] at hE hF hl ⊢
        have hmm : (pre ++ post).length = ms := by omega
        obtain ⟨h1, h2⟩ := filter_spec mx ms pre post p t l' hE hF hF2 hmm hs
        refine ⟨h1, Or.inr ⟨pre, [], post, by simp, by simp, hF2, Or.inr ⟨rfl, hmm, ?_⟩⟩⟩
        exact h2

theorem ok_nil (mx : F) (ms : Nat) : Ok mx ms ([] : List (Pt F)) :=
  ⟨by simp [Front], fun i p h => by simp at h, by simp⟩

theorem feed_ok (mx : F) (ms : Nat) (hms : 2 ≤ ms) (ps : List (Pt F)) : ∀ (r : Bool) (l : List (Pt F))
    (r' : Bool) (l' : List (Pt F)), Ok mx ms l → feed mx ms ps (r, l) = some (r', l') → Ok mx ms l' := by
  induction ps with
  | nil => intro r l r' l' h hs; simp only [feed, Option.some.injEq, Prod.mk.injEq] at hs; rw [← hs.2]; exact h
  | cons p ps ih =>
    intro r l r' l' h hs
    simp only [feed] at hs
    split at hs
    case h_1 => cases hs
    case h_2 t l1 h1 => exact ih _ _ _ _ (step_spec mx ms hms l p t l1 h h1).1 hs

end Paradiseo.Moeo.Hv2

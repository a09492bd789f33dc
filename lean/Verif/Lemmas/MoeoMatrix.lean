import Verif.Lemmas.MoeoDepth
/-
Lemmas on the dominance matrix.
-/
namespace Paradiseo.Moeo

/-- Number of indices below `N` satisfying `f`. -/
def cnt (N : Nat) (f : Nat → Bool) : Int := ((List.range N).countP f : Nat)

theorem cnt_congr {N : Nat} {f g : Nat → Bool} (h : ∀ x < N, f x = g x) : cnt N f = cnt N g := by
  unfold cnt
  congr 1
  apply List.countP_congr
  intro x hx
  rw [h x (List.mem_range.1 hx)]

theorem cnt_put_true {N : Nat} {f : Nat → Bool} {b : Nat} (hb : b < N) (hf : f b = false) :
    cnt N (put f b true) = cnt N f + 1 := by
  induction N with
  | zero => omega
  | succ N ih =>
    unfold cnt at ih ⊢
    rw [List.range_succ, List.countP_append, List.countP_append]
    by_cases h : b = N
    · subst h
      have : (List.range b).countP (put f b true) = (List.range b).countP f := by
        apply List.countP_congr
        intro x hx
        rw [put_ne _ _ (Nat.ne_of_lt (List.mem_range.1 hx))]
      simp [this, hf, List.countP_cons]
    · have := ih (by omega)
      have e : put f b true N = f N := put_ne _ _ (fun h' => h h'.symm)
      simp only [List.countP_cons, List.countP_nil, e]
      push_cast at this ⊢
      omega

theorem cnt_put_false {N : Nat} {f : Nat → Bool} {b : Nat} (hb : b < N) (hf : f b = true) :
    cnt N (put f b false) = cnt N f - 1 := by
  have h := cnt_put_true (f := put f b false) hb (by simp)
  have e : put (put f b false) b true = f := by
    funext x
    by_cases hx : x = b
    · subst hx; simp [hf]
    · simp [put, hx]
  rw [e] at h
  omega

/-- The pairs visited. -/
def dmList (N : Nat) : List (Nat × Nat) :=
  (List.range (N - 1)).flatMap fun k => (List.range' (k + 1) (N - (k + 1))).map fun l => (k, l)

theorem mem_dmList {N k l : Nat} : (k, l) ∈ dmList N ↔ k < l ∧ l < N := by
  simp only [dmList, List.mem_flatMap, List.mem_range, List.mem_map, List.mem_range'_1, Prod.mk.injEq]
  constructor
  · rintro ⟨a, h1, b, h2, rfl, rfl⟩; omega
  · rintro ⟨h1, h2⟩; exact ⟨k, by omega, l, by omega, rfl, rfl⟩

theorem nodup_dmList (N : Nat) : (dmList N).Nodup := by
  unfold dmList
  rw [List.nodup_flatMap]
  constructor
  · intro k _
    exact (List.nodup_range' (step := 1) (by omega)).map (fun a b h => (Prod.mk.inj h).2)
  · refine (List.nodup_range).imp ?_
    intro a b hab
    rw [Function.onFun, List.disjoint_left]
    intro x hx hy
    rw [List.mem_map] at hx hy
    obtain ⟨_, _, rfl⟩ := hx
    obtain ⟨_, _, h⟩ := hy
    exact hab (Prod.mk.inj h).1.symm

theorem dmPairs_eq (dom eqv : Nat → Nat → Bool) (nocopy : Bool) (N : Nat) (cs : List Nat) :
    dmPairs dom eqv nocopy N cs = (dmList N).foldl (fun s p => dmPair dom eqv nocopy s p.1 p.2)
      ⟨fun _ _ => false, fun _ => 0, fun _ => 0, cs⟩ := by
  unfold dmPairs dmList
  rw [List.foldl_flatMap]
  simp only [List.foldl_map]

/-- Invariant of the pair loop. -/
structure PairInv (dom eqv : Nat → Nat → Bool) (nocopy : Bool) (N : Nat) (cs : List Nat)
    (past : List (Nat × Nat)) (s : DomMatrix) : Prop where
  m : ∀ a b, s.m a b = (dom a b && decide ((a, b) ∈ past ∨ (b, a) ∈ past))
  count : ∀ a < N, s.count a = cnt N (s.m a)
  rank : ∀ b < N, s.rank b = cnt N fun a => s.m a b
  copies : ∀ x, x ∈ s.copySet ↔ x ∈ cs ∨ nocopy = true ∧ ∃ k, (k, x) ∈ past ∧ dom k x = false ∧
    dom x k = false ∧ eqv k x = true
  nodup : cs.Nodup → s.copySet.Nodup

theorem setTrue_inv {dom : Nat → Nat → Bool} {N : Nat} {s : DomMatrix} {k l : Nat} (hk : k < N)
    (hl : l < N) (hf : s.m k l = false)
    (hc : ∀ a < N, s.count a = cnt N (s.m a)) (hr : ∀ b < N, s.rank b = cnt N fun a => s.m a b) :
    let m' := put s.m k (put (s.m k) l true)
    (∀ a b, m' a b = if a = k ∧ b = l then true else s.m a b) ∧
    (∀ a < N, put s.count k (s.count k + 1) a = cnt N (m' a)) ∧
    (∀ b < N, put s.rank l (s.rank l + 1) b = cnt N fun a => m' a b) := by
  have hm : ∀ a b, put s.m k (put (s.m k) l true) a b = if a = k ∧ b = l then true else s.m a b := by
    intro a b
    by_cases ha : a = k
    · subst ha
      by_cases hb : b = l <;> simp [put, hb]
    · simp [put, ha]
  refine ⟨hm, ?_, ?_⟩
  · intro a ha
    by_cases hak : a = k
    · subst hak; simp only [put_same]; rw [cnt_put_true hl hf, hc a ha]
    · rw [put_ne _ _ hak, put_ne _ _ hak, hc a ha]
  · intro b hb
    by_cases hbl : b = l
    · subst hbl
      rw [put_same, hr b hb, ← cnt_put_true (f := fun a => s.m a b) hk hf]
      apply cnt_congr
      intro x _
      rw [hm]
      by_cases hx : x = k <;> simp [put, hx]
    · rw [put_ne _ _ hbl, hr b hb]
      apply cnt_congr
      intro x _
      rw [hm]; simp [hbl]

theorem PairInv.step {dom eqv : Nat → Nat → Bool} {nocopy : Bool} {N : Nat} {cs : List Nat}
    {past : List (Nat × Nat)} {s : DomMatrix} (hasym : ∀ p q, dom p q = true → dom q p = false)
    (h : PairInv dom eqv nocopy N cs past s) {k l : Nat} (hkl : k < l) (hl : l < N)
    (h1 : (k, l) ∉ past) (h2 : (l, k) ∉ past) :
    PairInv dom eqv nocopy N cs (past ++ [(k, l)]) (dmPair dom eqv nocopy s k l) := by
  have hfalse : s.m k l = false ∧ s.m l k = false := by
    rw [h.m, h.m]; simp [h1, h2]
  have hp : ∀ a b, ((a, b) ∈ past ++ [(k, l)] ∨ (b, a) ∈ past ++ [(k, l)]) ↔
      ((a, b) ∈ past ∨ (b, a) ∈ past) ∨ (a = k ∧ b = l) ∨ (a = l ∧ b = k) := by
    intro a b; simp only [List.mem_append, List.mem_singleton, Prod.mk.injEq]; tauto
  unfold dmPair
  by_cases hd1 : dom k l = true
  · rw [if_pos hd1]
    obtain ⟨e1, e2, e3⟩ := setTrue_inv (dom := dom) (show k < N by omega) hl hfalse.1 h.count h.rank
    refine ⟨?_, e2, e3, ?_, h.nodup⟩
    · intro a b
      refine Eq.trans (e1 a b) ?_
      rw [h.m]
      simp only [hp]
      by_cases hab : a = k ∧ b = l
      · simp [hab, hd1]
      · by_cases hba : a = l ∧ b = k
        · have : dom a b = false := by rw [hba.1, hba.2]; exact hasym _ _ hd1
          simp [hab, this]
        · simp [hab, hba]
    · intro x
      rw [h.copies]
      refine or_congr Iff.rfl (and_congr Iff.rfl ?_)
      constructor
      · rintro ⟨k', a, b⟩; exact ⟨k', List.mem_append_left _ a, b⟩
      · rintro ⟨k', a, b, c⟩
        rw [List.mem_append, List.mem_singleton, Prod.mk.injEq] at a
        rcases a with a | ⟨rfl, rfl⟩
        · exact ⟨k', a, b, c⟩
        · rw [hd1] at b; simp at b
  · rw [if_neg hd1]
    by_cases hd2 : dom l k = true
    · rw [if_pos hd2]
      obtain ⟨e1, e2, e3⟩ := setTrue_inv (dom := dom) hl (show k < N by omega) hfalse.2 h.count h.rank
      refine ⟨?_, e2, e3, ?_, h.nodup⟩
      · intro a b
        refine Eq.trans (e1 a b) ?_
        rw [h.m]
        simp only [hp]
        by_cases hba : a = l ∧ b = k
        · simp [hba, hd2]
        · by_cases hab : a = k ∧ b = l
          · have : dom a b = false := by rw [hab.1, hab.2]; simpa using hd1
            simp [hba, this]
          · simp [hab, hba]
      · intro x
        rw [h.copies]
        refine or_congr Iff.rfl (and_congr Iff.rfl ?_)
        constructor
        · rintro ⟨k', a, b⟩; exact ⟨k', List.mem_append_left _ a, b⟩
        · rintro ⟨k', a, b, c⟩
          rw [List.mem_append, List.mem_singleton, Prod.mk.injEq] at a
          rcases a with a | ⟨rfl, rfl⟩
          · exact ⟨k', a, b, c⟩
          · rw [hd2] at c; simp at c
    · rw [if_neg hd2]
      have hm : ∀ a b, s.m a b = (dom a b && decide ((a, b) ∈ past ++ [(k, l)] ∨ (b, a) ∈ past ++ [(k, l)])) := by
        intro a b
        rw [h.m]
        simp only [hp]
        by_cases hba : a = l ∧ b = k
        · have : dom a b = false := by rw [hba.1, hba.2]; simpa using hd2
          simp [this]
        · by_cases hab : a = k ∧ b = l
          · have : dom a b = false := by rw [hab.1, hab.2]; simpa using hd1
            simp [this]
          · simp [hab, hba]
      by_cases he : (nocopy && eqv k l) = true
      · rw [if_pos he]
        rw [Bool.and_eq_true] at he
        refine ⟨hm, h.count, h.rank, ?_, fun hn => (h.nodup hn).insert⟩
        intro x
        simp only [List.mem_insert_iff, h.copies]
        constructor
        · rintro (rfl | a | ⟨a, k', b, c⟩)
          · exact Or.inr ⟨he.1, k, by simp, by simpa using hd1, by simpa using hd2, he.2⟩
          · exact Or.inl a
          · exact Or.inr ⟨a, k', List.mem_append_left _ b, c⟩
        · rintro (a | ⟨a, k', b, c⟩)
          · exact Or.inr (Or.inl a)
          · rw [List.mem_append, List.mem_singleton, Prod.mk.injEq] at b
            rcases b with b | ⟨rfl, rfl⟩
            · exact Or.inr (Or.inr ⟨a, k', b, c⟩)
            · exact Or.inl rfl
      · rw [if_neg he]
        refine ⟨hm, h.count, h.rank, ?_, h.nodup⟩
        intro x
        rw [h.copies]
        refine or_congr Iff.rfl ?_
        constructor
        · rintro ⟨a, k', b, c⟩; exact ⟨a, k', List.mem_append_left _ b, c⟩
        · rintro ⟨a, k', b, c, d, e⟩
          rw [List.mem_append, List.mem_singleton, Prod.mk.injEq] at b
          rcases b with b | ⟨rfl, rfl⟩
          · exact ⟨a, k', b, c, d, e⟩
          · exact absurd (by simp [a, e]) he

theorem pairs_inv {dom eqv : Nat → Nat → Bool} {nocopy : Bool} {N : Nat} {cs : List Nat}
    (hasym : ∀ p q, dom p q = true → dom q p = false) :
    PairInv dom eqv nocopy N cs (dmList N) (dmPairs dom eqv nocopy N cs) := by
  rw [dmPairs_eq]
  have : ∀ (L past : List (Nat × Nat)) s, (past ++ L).Nodup → (∀ p ∈ past ++ L, p.1 < p.2 ∧ p.2 < N) →
      PairInv dom eqv nocopy N cs past s →
      PairInv dom eqv nocopy N cs (past ++ L)
        (L.foldl (fun s p => dmPair dom eqv nocopy s p.1 p.2) s) := by
    intro L
    induction L with
    | nil => intro past s _ _ h; simpa using h
    | cons p L ih =>
      intro past s hnd hlt h
      have hp := hlt p (by simp)
      have hnp : p ∉ past := by
        rw [List.nodup_append] at hnd
        intro hm
        exact hnd.2.2 p hm p (by simp) rfl
      have hst := h.step hasym hp.1 hp.2 hnp (by
        intro hm
        have := hlt (p.2, p.1) (by simp [hm])
        simp at this; omega)
      have e : past ++ p :: L = (past ++ [p]) ++ L := by simp
      rw [e] at hnd hlt ⊢
      exact ih _ _ hnd hlt hst
  have h := this (dmList N) [] ⟨fun _ _ => false, fun _ => 0, fun _ => 0, cs⟩ (by simpa using nodup_dmList N)
    (by
      intro p hp
      simp only [List.nil_append] at hp
      exact mem_dmList.1 (show (p.1, p.2) ∈ dmList N from hp))
    ⟨by simp, by simp [cnt], by simp [cnt], by simp, fun h => h⟩
  simpa using h

/-! Second and third pass -/

theorem mark_spec (N : Nat) (c : Nat) (hc : c < N) (s : DomMatrix)
    (hcount : ∀ a < N, s.count a = cnt N (s.m a)) :
    let s' := dmMark N s c
    (∀ a b, s'.m a b = if a < N ∧ b = c then true else s.m a b) ∧
    (∀ a < N, s'.count a = cnt N (s'.m a)) ∧ s'.rank = s.rank ∧ s'.copySet = s.copySet := by
  unfold dmMark
  have : ∀ n ≤ N,
      let s' := (List.range n).foldl (dmMarkStep c) s
      (∀ a b, s'.m a b = if a < n ∧ b = c then true else s.m a b) ∧
      (∀ a < N, s'.count a = cnt N (s'.m a)) ∧ s'.rank = s.rank ∧ s'.copySet = s.copySet := by
    intro n hn
    induction n with
    | zero => simpa using hcount
    | succ n ih =>
      obtain ⟨h1, h2, h3, h4⟩ := ih (by omega)
      rw [List.range_succ, List.foldl_append]
      simp only [List.foldl_cons, List.foldl_nil]
      generalize (List.range n).foldl (dmMarkStep c) s = t at *
      unfold dmMarkStep
      by_cases hm : t.m n c = true
      · rw [if_neg (by simp [hm])]
        refine ⟨?_, h2, h3, h4⟩
        intro a b
        by_cases ha : a = n ∧ b = c
        · rw [ha.1, ha.2, hm]; simp
        · rw [h1]
          have : (a < n + 1 ∧ b = c) ↔ (a < n ∧ b = c) := by omega
          simp only [this]
      · rw [if_pos (by simp [hm])]
        refine ⟨?_, ?_, h3, h4⟩
        · intro a b
          by_cases ha : a = n
          · subst ha
            by_cases hb : b = c
            · simp [hb]
            · simp [put_ne _ _ hb, h1, hb]
          · simp only [put_ne _ _ ha, h1]
            have : (a < n + 1 ∧ b = c) ↔ (a < n ∧ b = c) := by omega
            simp only [this]
        · intro a ha
          by_cases han : a = n
          · subst han
            simp only [put_same]
            rw [cnt_put_true hc (by simpa using hm), h2 a ha]
          · simp only [put_ne _ _ han]; exact h2 a ha
  exact this N le_rfl

theorem marks_spec (N : Nat) (C : List Nat) (hC : ∀ c ∈ C, c < N) (s : DomMatrix)
    (hcount : ∀ a < N, s.count a = cnt N (s.m a)) :
    let s' := C.foldl (dmMark N) s
    (∀ a b, s'.m a b = if a < N ∧ b ∈ C then true else s.m a b) ∧
    (∀ a < N, s'.count a = cnt N (s'.m a)) ∧ s'.rank = s.rank ∧ s'.copySet = s.copySet := by
  induction C generalizing s with
  | nil => simpa using hcount
  | cons c C ih =>
    obtain ⟨h1, h2, h3, h4⟩ := mark_spec N c (hC c (by simp)) s hcount
    obtain ⟨g1, g2, g3, g4⟩ := ih (fun x hx => hC x (by simp [hx])) (dmMark N s c) h2
    rw [List.foldl_cons]
    refine ⟨?_, g2, by rw [g3, h3], by rw [g4, h4]⟩
    intro a b
    rw [g1, h1]
    by_cases ha : a < N <;> by_cases hb : b = c <;> simp [ha, hb]

theorem unmark_spec (N : Nat) (c : Nat) (s : DomMatrix) (good : Nat → Prop)
    (hc : c < N)
    (hrank : ∀ b < N, good b → s.rank b = cnt N fun a => s.m a b) :
    let s' := dmUnmark N s c
    (∀ a b, s'.m a b = if a = c ∧ b < N then false else s.m a b) ∧
    (∀ b < N, good b → s'.rank b = cnt N fun a => s'.m a b) ∧ s'.count = s.count ∧
    s'.copySet = s.copySet := by
  unfold dmUnmark
  have : ∀ n ≤ N,
      let s' := (List.range n).foldl (dmUnmarkStep c) s
      (∀ a b, s'.m a b = if a = c ∧ b < n then false else s.m a b) ∧
      (∀ b < N, good b → s'.rank b = cnt N fun a => s'.m a b) ∧ s'.count = s.count ∧
      s'.copySet = s.copySet := by
    intro n hn
    induction n with
    | zero => simpa using hrank
    | succ n ih =>
      obtain ⟨h1, h2, h3, h4⟩ := ih (by omega)
      rw [List.range_succ, List.foldl_append]
      simp only [List.foldl_cons, List.foldl_nil]
      generalize (List.range n).foldl (dmUnmarkStep c) s = t at *
      unfold dmUnmarkStep
      by_cases hm : t.m c n = true
      · rw [if_pos hm]
        have hmm : ∀ a b, put t.m c (put (t.m c) n false) a b = if a = c ∧ b = n then false else t.m a b := by
          intro a b
          by_cases ha : a = c
          · subst ha
            by_cases hb : b = n <;> simp [put, hb]
          · simp [put, ha]
        refine ⟨?_, ?_, h3, h4⟩
        · intro a b
          simp only
          rw [hmm, h1]
          by_cases ha : a = c
          · by_cases hb : b = n
            · simp [ha, hb]
            · have : b < n + 1 ↔ b < n := by omega
              simp [ha, hb, this]
          · simp [ha]
        · intro b hb hg
          by_cases hbn : b = n
          · subst hbn
            simp only [put_same]
            rw [h2 b hb hg, ← cnt_put_false (f := fun a => t.m a b) hc hm]
            apply cnt_congr
            intro x _
            rw [hmm]
            by_cases hx : x = c <;> simp [put, hx]
          · simp only [put_ne _ _ hbn]
            rw [h2 b hb hg]
            apply cnt_congr
            intro x _
            rw [hmm]; simp [hbn]
      · rw [if_neg hm]
        refine ⟨?_, h2, h3, h4⟩
        intro a b
        by_cases hab : a = c ∧ b = n
        · rw [hab.1, hab.2]; simp only [Bool.not_eq_true] at hm; simp [hm]
        · rw [h1]
          have : (a = c ∧ b < n + 1) ↔ (a = c ∧ b < n) := by omega
          simp only [this]
  exact this N le_rfl

theorem unmarks_spec (N : Nat) (C : List Nat) (hC : ∀ c ∈ C, c < N) (s : DomMatrix)
    (good : Nat → Prop) (hrank : ∀ b < N, good b → s.rank b = cnt N fun a => s.m a b) :
    let s' := C.foldl (dmUnmark N) s
    (∀ a b, s'.m a b = if a ∈ C ∧ b < N then false else s.m a b) ∧
    (∀ b < N, good b → s'.rank b = cnt N fun a => s'.m a b) ∧ s'.count = s.count ∧
    s'.copySet = s.copySet := by
  induction C generalizing s with
  | nil => simpa using hrank
  | cons c C ih =>
    obtain ⟨h1, h2, h3, h4⟩ := unmark_spec N c s good (hC c (by simp)) hrank
    obtain ⟨g1, g2, g3, g4⟩ := ih (fun x hx => hC x (by simp [hx])) (dmUnmark N s c) h2
    rw [List.foldl_cons]
    refine ⟨?_, g2, by rw [g3, h3], by rw [g4, h4]⟩
    intro a b
    rw [g1, h1]
    by_cases ha : a = c <;> by_cases hb : b < N <;> simp [ha, hb]

theorem final_spec (v : Int) (C : List Nat) (s : DomMatrix) :
    let s' := C.foldl (fun s c => { s with count := put s.count c 0, rank := put s.rank c v }) s
    s'.m = s.m ∧ s'.copySet = s.copySet ∧
    (∀ a, s'.count a = if a ∈ C then 0 else s.count a) ∧
    (∀ a, s'.rank a = if a ∈ C then v else s.rank a) := by
  induction C generalizing s with
  | nil => simp
  | cons c C ih =>
    obtain ⟨g1, g2, g3, g4⟩ := ih { s with count := put s.count c 0, rank := put s.rank c v }
    rw [List.foldl_cons]
    refine ⟨g1, g2, ?_, ?_⟩
    · intro a; rw [g3]
      by_cases ha : a = c <;> simp [put, ha]
    · intro a; rw [g4]
      by_cases ha : a = c <;> simp [put, ha]

end Paradiseo.Moeo

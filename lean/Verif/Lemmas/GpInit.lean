import Verif.Lemmas.Gp

/-!
# Helper lemmas for the initialisers of trees and for typed trees
-/

namespace Paradiseo.Gp

variable {α : Type}

/-- All leaves are `d` levels below the root. -/
def LeavesAt (d : Nat) (t : Sub α) : Prop := ∀ p u, t.at? p = some u → u.args = [] → p.length = d

theorem mem_postL {as : List (Sub α)} {a : α} : a ∈ postL as ↔ ∃ t ∈ as, a ∈ post t := by
  induction as with
  | nil => simp [postL]
  | cons t ts ih => simp [postL, ih, or_comm]

theorem heightL_le {as : List (Sub α)} {d : Nat} (h : ∀ t ∈ as, height t ≤ d) : heightL as ≤ d := by
  induction as with
  | nil => simp [heightL]
  | cons t ts ih =>
    have h1 := h t (by simp)
    have h2 := ih (fun u hu => h u (List.mem_cons_of_mem _ hu))
    simp [heightL, h1, h2]

theorem times_spec {P : Sub α → Prop} (f : List α × Nat → Option (List α × Nat))
    (hf : ∀ l n, ∃ t n', f (l, n) = some (l ++ pre t, n') ∧ P t) (k : Nat) (l : List α) (n : Nat) :
    ∃ ts n', times f k (l, n) = some (l ++ preL ts, n') ∧ ts.length = k ∧ ∀ t ∈ ts, P t := by
  induction k generalizing l n with
  | zero => exact ⟨[], n, by simp [times, preL], rfl, by simp⟩
  | succ k ih =>
    obtain ⟨t, n1, h1, h2⟩ := hf l n
    obtain ⟨ts, n2, h3, h4, h5⟩ := ih (l ++ pre t) n1
    refine ⟨t :: ts, n2, ?_, by simp [h4], ?_⟩
    · rw [times, h1]
      simp only
      rw [h3]
      simp [preL]
    · intro u hu
      rcases List.mem_cons.mp hu with rfl | hu
      · exact h2
      · exact h5 u hu

/-- What the generator makes. -/
def Made (ar : α → Nat) (nodes : List α) (grow : Bool) (d : Nat) (t : Sub α) : Prop :=
  Exact ar t ∧ height t ≤ d + 1 ∧ (grow = false → LeavesAt d t) ∧ ∀ a ∈ post t, a ∈ nodes

theorem rnd_lt (r : Nat → Nat) (n : Nat) {k : Nat} (hk : 0 < k) : rnd r n k < k := by
  unfold rnd
  rw [if_neg (by omega)]
  exact Nat.mod_lt _ hk

theorem made_node {ar : α → Nat} {nodes : List α} {grow : Bool} {d : Nat} {a : α} {ts : List (Sub α)}
    (hl : ts.length = ar a) (ha : a ∈ nodes) (h : ∀ t ∈ ts, Made ar nodes grow d t)
    (hg : grow = false → ts ≠ []) : Made ar nodes grow (d + 1) (refresh a ts) := by
  refine ⟨exact_refresh hl (fun t ht => (h t ht).1), ?_, ?_, ?_⟩
  · rw [height_eq, refresh_args]
    have := heightL_le (fun t ht => (h t ht).2.1)
    omega
  · intro hgr p u hp hu
    cases p with
    | nil => simp at hp; subst hp; exact absurd hu (hg hgr)
    | cons k p =>
      rw [at_cons, refresh_args] at hp
      cases hk : ts[k]? with
      | none => simp [hk] at hp
      | some v =>
        rw [hk] at hp
        have := (h v (List.mem_of_getElem? hk)).2.2.1 hgr p u hp hu
        simp [this]
  · intro b hb
    rw [post_eq, refresh_args, refresh_val, List.mem_append, List.mem_singleton, mem_postL] at hb
    rcases hb with ⟨t, ht, hb⟩ | rfl
    · exact (h t ht).2.2.2 b hb
    · exact ha

theorem generate_spec (ar : α → Nat) (nodes : List α) (term : Nat) (grow : Bool) (r : Nat → Nat)
    (h0 : ∀ i a, i < term → nodes[i]? = some a → ar a = 0)
    (h1 : ∀ i a, term ≤ i → nodes[i]? = some a → 0 < ar a) (ht : 0 < term) (hl : term ≤ nodes.length)
    (hg : grow = false → term < nodes.length) (d : Nat) :
    ∀ l n, ∃ t n', generate ar nodes term grow r d (l, n) = some (l ++ pre t, n') ∧ Made ar nodes grow d t := by
  induction d with
  | zero =>
    intro l n
    have hlt := rnd_lt r n ht
    obtain ⟨a, ha⟩ : ∃ a, nodes[rnd r n term]? = some a := ⟨_, List.getElem?_eq_getElem (by omega)⟩
    have har := h0 _ a hlt ha
    refine ⟨refresh a [], n + 1, ?_, exact_refresh (by simp [har]) (by simp), ?_, ?_, ?_⟩
    · rw [generate, ha, pre_eq]; rfl
    · rw [height_eq]; simp [heightL]
    · intro _ p u hp _
      cases p with
      | nil => rfl
      | cons k p => simp [at_cons] at hp
    · intro b hb
      simp [post_eq, postL] at hb
      subst hb
      exact List.mem_of_getElem? ha
  | succ d ih =>
    intro l n
    have key : ∀ k, k < nodes.length → (grow = false → term ≤ k) →
        ∃ t n', (match nodes[k]? with
          | none => none
          | some a => times (generate ar nodes term grow r d) (ar a) (l ++ [a], n + 1)) = some (l ++ pre t, n') ∧
          Made ar nodes grow (d + 1) t := by
      intro k hk hgk
      obtain ⟨a, ha⟩ : ∃ a, nodes[k]? = some a := ⟨_, List.getElem?_eq_getElem hk⟩
      obtain ⟨ts, n', h2, h3, h4⟩ := times_spec _ ih (ar a) (l ++ [a]) (n + 1)
      refine ⟨refresh a ts, n', ?_, made_node h3 (List.mem_of_getElem? ha) h4 ?_⟩
      · rw [ha]
        simp only
        rw [h2, pre_eq]
        simp
      · intro hgr e
        have := h1 k a (hgk hgr) ha
        subst e
        simp at h3
        omega
    rw [generate]
    refine key _ ?_ ?_
    · cases grow with
      | true => simp only [if_true]; exact rnd_lt r n (by omega)
      | false =>
        have := hg rfl
        have := rnd_lt r n (k := nodes.length - term) (by omega)
        simp only [Bool.false_eq_true, if_false]
        omega
    · intro e
      subst e
      simp

theorem sorted_split (ar : α → Nat) (nodes : List α) :
    let s := nodes.mergeSort fun a b => ar a ≤ ar b
    let term := s.findIdx fun a => 0 < ar a
    (∀ i a, i < term → s[i]? = some a → ar a = 0) ∧ (∀ i a, term ≤ i → s[i]? = some a → 0 < ar a) ∧
      term ≤ s.length := by
  intro s term
  have hs : s.Pairwise fun a b => (decide (ar a ≤ ar b)) = true :=
    List.pairwise_mergeSort (fun a b c h1 h2 => by simp at *; omega) (fun a b => by simp; omega) nodes
  refine ⟨?_, ?_, List.findIdx_le_length⟩
  · intro i a hi ha
    obtain ⟨hlt, e⟩ := List.getElem?_eq_some_iff.mp ha
    have := List.not_of_lt_findIdx hi
    rw [e] at this
    simpa using this
  · intro i a hi ha
    obtain ⟨hlt, e⟩ := List.getElem?_eq_some_iff.mp ha
    have ht : term < s.length := by omega
    have h1 : 0 < ar s[term] := by
      have := List.findIdx_getElem (p := fun a => decide (0 < ar a)) (xs := s) (w := ht)
      simpa using this
    rcases Nat.lt_or_eq_of_le hi with h | h
    · have := List.pairwise_iff_getElem.mp hs term i ht hlt h
      rw [e] at this
      simp at this
      omega
    · subst h
      rw [e] at h1
      exact h1

/-! ### Typed trees -/

/-- Every argument has the type its parent asks for. -/
def WellTyped (T : Typed α) (t : Sub α) : Prop :=
  ∀ p u, t.at? p = some u → ∀ i v, u.args[i]? = some v → T.ty v.val = T.argTy u.val i

theorem wellTyped_iff (T : Typed α) (t : Sub α) :
    WellTyped T t ↔ (∀ i v, t.args[i]? = some v → T.ty v.val = T.argTy t.val i) ∧ ∀ u ∈ t.args, WellTyped T u := by
  constructor
  · intro h
    refine ⟨h [] t (by simp), ?_⟩
    intro u hu p v hv
    obtain ⟨k, hk⟩ := List.mem_iff_getElem?.mp hu
    refine h (k :: p) v ?_
    rw [at_cons, hk]
    exact hv
  · rintro ⟨h1, h2⟩ p
    cases p with
    | nil => intro u hu; simp at hu; subst hu; exact h1
    | cons k p =>
      intro u hu
      rw [at_cons] at hu
      cases hk : t.args[k]? with
      | none => simp [hk] at hu
      | some v =>
        rw [hk] at hu
        exact h2 v (List.mem_of_getElem? hk) p u hu

theorem WellTyped.at {T : Typed α} {t u : Sub α} (h : WellTyped T t) {p : List Nat} (hp : t.at? p = some u) :
    WellTyped T u := by
  intro q v hv
  exact h (p ++ q) v (by rw [at_append, hp]; exact hv)

/-- What the typed generator makes when it reports success. -/
def StMade (T : Typed α) (nodes : List α) (grow : Bool) (d : Nat) (y : Int) (t : Sub α) : Prop :=
  Made T.ar nodes grow d t ∧ WellTyped T t ∧ T.ty t.val = y

theorem eachArg_spec (T : Typed α) (P : Nat → Sub α → Prop)
    (f : Nat → List α × Nat × Bool → Option (List α × Nat × Bool))
    (hf : ∀ i l n ok l' n', f i (l, n, ok) = some (l', n', true) → ok = true ∧ ∃ t, l' = l ++ pre t ∧ P i t)
    (k i : Nat) (l : List α) (n : Nat) (ok : Bool) (l' : List α) (n' : Nat)
    (h : eachArg f k i (l, n, ok) = some (l', n', true)) :
    ok = true ∧ ∃ ts, l' = l ++ preL ts ∧ ts.length = k ∧ ∀ (j : Nat) t, ts[j]? = some t → P (i + j) t := by
  induction k generalizing i l n ok with
  | zero =>
    simp [eachArg] at h
    obtain ⟨rfl, rfl, rfl⟩ := h
    exact ⟨rfl, [], by simp [preL], rfl, by simp⟩
  | succ k ih =>
    rw [eachArg] at h
    cases h1 : f i (l, n, ok) with
    | none => simp [h1] at h
    | some x =>
      obtain ⟨l1, n1, ok1⟩ := x
      rw [h1] at h
      obtain ⟨rfl, ts, h3, h4, h5⟩ := ih (i + 1) l1 n1 ok1 h
      obtain ⟨rfl, t, rfl, h7⟩ := hf i l n ok l1 n1 h1
      refine ⟨rfl, t :: ts, by rw [h3]; simp [preL], by simp [h4], ?_⟩
      intro j u hu
      cases j with
      | zero => simp at hu; subst hu; exact h7
      | succ j =>
        have := h5 j u (by simpa using hu)
        rwa [show i + 1 + j = i + (j + 1) by omega] at this

theorem stGenerate_spec (T : Typed α) (nodes : List α) (grow : Bool) (r : Nat → Nat) (d : Nat) :
    ∀ y l n ok l' n', stGenerate T nodes grow r d y (l, n, ok) = some (l', n', true) →
      ok = true ∧ ∃ t, l' = l ++ pre t ∧ StMade T nodes grow d y t := by
  induction d with
  | zero =>
    intro y l n ok l' n' h
    rw [stGenerate] at h
    by_cases he : (terminals T nodes y).isEmpty
    · simp [he] at h
    · simp only [he, Bool.false_eq_true, if_false] at h
      cases ha : (terminals T nodes y)[rnd r n (terminals T nodes y).length]? with
      | none => simp [ha] at h
      | some a =>
        rw [ha] at h
        simp at h
        obtain ⟨rfl, rfl, rfl⟩ := h
        have hm := List.mem_of_getElem? ha
        simp [terminals] at hm
        obtain ⟨hm, hy, har⟩ := hm
        refine ⟨rfl, refresh a [], by rw [pre_eq]; rfl, ⟨exact_refresh (by simp [har]) (by simp), ?_, ?_, ?_⟩, ?_, hy⟩
        · rw [height_eq]; simp [heightL]
        · intro _ p u hp _
          cases p with
          | nil => rfl
          | cons k p => simp [at_cons] at hp
        · intro b hb
          simp [post_eq, postL] at hb
          subst hb
          exact hm
        · rw [wellTyped_iff]; simp
  | succ d ih =>
    intro y l n ok l' n' h
    rw [stGenerate] at h
    generalize hts : (if grow = true then allOf T nodes y else nonterminals T nodes y) = ts at h
    have hmem : ∀ a ∈ ts, a ∈ nodes ∧ T.ty a = y ∧ (grow = false → T.ar a ≠ 0) := by
      intro a ha
      rw [← hts] at ha
      cases grow with
      | true => simp [allOf] at ha; exact ⟨ha.1, ha.2, by simp⟩
      | false => simp [nonterminals] at ha; exact ⟨ha.1, ha.2.1, fun _ => ha.2.2⟩
    cases ha : ts[rnd r n ts.length]? with
    | none => simp [ha] at h
    | some a =>
      rw [ha] at h
      simp only at h
      obtain ⟨hn, hy, hgr⟩ := hmem a (List.mem_of_getElem? ha)
      obtain ⟨rfl, us, h1, h2, h3⟩ := eachArg_spec T (fun i t => StMade T nodes grow d (T.argTy a i) t) _
        (fun i l n ok l' n' hh => ih (T.argTy a i) l n ok l' n' hh) _ _ _ _ _ _ _ h
      have h3' : ∀ (j : Nat) t, us[j]? = some t → StMade T nodes grow d (T.argTy a j) t := by
        intro j t hj
        have := h3 j t hj
        rwa [Nat.zero_add] at this
      refine ⟨rfl, refresh a us, by rw [h1, pre_eq]; simp, made_node h2 hn ?_ ?_, ?_, hy⟩
      · intro t ht
        obtain ⟨j, hj⟩ := List.mem_iff_getElem?.mp ht
        exact (h3' j t hj).1
      · intro hg e
        subst e
        simp at h2
        exact hgr hg h2.symm
      · rw [wellTyped_iff]
        refine ⟨?_, ?_⟩
        · intro i v hv
          exact (h3' i v hv).2.2
        · intro u hu
          obtain ⟨j, hj⟩ := List.mem_iff_getElem?.mp hu
          exact (h3' j u hj).2.1

theorem assign_val (s t u : Sub α) (T : Typed α) (p : List Nat) (h : t.at? p = some u)
    (hy : T.ty s.val = T.ty u.val) : T.ty (s.assign t p).val = T.ty t.val := by
  cases p with
  | nil => simp at h; subst h; rw [assign_nil]; exact hy
  | cons k p => rw [assign_cons]; rfl

theorem wellTyped_assign (T : Typed α) (s : Sub α) (hs : WellTyped T s) (p : List Nat) (t u : Sub α)
    (ht : WellTyped T t) (h : t.at? p = some u) (hy : T.ty s.val = T.ty u.val) : WellTyped T (s.assign t p) := by
  induction p generalizing t with
  | nil =>
    rw [assign_nil, wellTyped_iff]
    exact (wellTyped_iff T s).mp hs
  | cons k p ih =>
    rw [at_cons] at h
    cases hk : t.args[k]? with
    | none => simp [hk] at h
    | some v =>
      rw [hk] at h
      have ht' := (wellTyped_iff T t).mp ht
      have hv : WellTyped T (s.assign v p) := ih v (ht'.2 v (List.mem_of_getElem? hk)) h
      rw [assign_cons, wellTyped_iff]
      refine ⟨?_, ?_⟩
      · intro i w hw
        rw [refresh_args, List.getElem?_modify] at hw
        rw [refresh_val]
        by_cases e : k = i
        · subst e
          simp [hk] at hw
          subst hw
          rw [assign_val s v u T p h hy]
          exact ht'.1 k v hk
        · simp [e] at hw
          exact ht'.1 i w hw
      · intro w hw
        rcases mem_modify hw with h' | ⟨v', h1, rfl⟩
        · exact ht'.2 w h'
        · rw [hk] at h1
          cases h1
          exact hv

theorem mem_possible (T : Typed α) (t : Sub α) (y : Int) (n : Nat) :
    n ∈ possible T t y ↔ n < t.size ∧ ∃ u, t.at? (getPath t n) = some u ∧ T.ty u.val = y := by
  simp only [possible, List.mem_filter, List.mem_range]
  refine and_congr_right fun _ => ?_
  cases t.at? (getPath t n) with
  | none => simp
  | some u => simp

theorem stPick_spec (T : Typed α) (t1 t2 : Sub α) (is : List Nat) (i : Nat) (ns : List Nat)
    (h : stPick T t1 t2 is = some (i, ns)) :
    i ∈ is ∧ ∃ u, t1.at? (getPath t1 i) = some u ∧ ns = possible T t2 (T.ty u.val) ∧
      (ns = [] → ∀ j ∈ is, ∀ v, t1.at? (getPath t1 j) = some v → possible T t2 (T.ty v.val) = []) := by
  induction is with
  | nil => simp [stPick] at h
  | cons k ks ih =>
    rw [stPick] at h
    cases hk : t1.at? (getPath t1 k) with
    | none => simp [hk] at h
    | some u =>
      rw [hk] at h
      simp only at h
      by_cases hc : (possible T t2 (T.ty u.val)).isEmpty ∧ (!ks.isEmpty) = true
      · rw [if_pos hc] at h
        obtain ⟨h1, v, h2, h3, h4⟩ := ih h
        refine ⟨List.mem_cons_of_mem _ h1, v, h2, h3, ?_⟩
        intro hn j hj w hw
        rcases List.mem_cons.mp hj with rfl | hj
        · rw [hk] at hw
          cases hw
          simpa using hc.1
        · exact h4 hn j hj w hw
      · rw [if_neg hc] at h
        simp at h
        obtain ⟨rfl, rfl⟩ := h
        refine ⟨by simp, u, hk, rfl, ?_⟩
        intro hn j hj w hw
        have hks : ks = [] := by
          rw [hn] at hc
          simpa using hc
        subst hks
        simp at hj
        subst hj
        rw [hk] at hw
        cases hw
        exact hn

end Paradiseo.Gp

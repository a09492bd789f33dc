import Verif.Lemmas.SymDag

/-!
# Formulas as shared nodes (C363, C364)

The specification is a program whose variables hold formulas, written out in full, with no sharing and no counts.
-/

namespace Paradiseo.MathSym.Dag

/-! ### Specification -/

/-- Variables that hold a formula each, or none. -/
abbrev Env := List (Nat × Option (Tree Nat))

/-- The formulas of these variables. -/
def Env.trees (e : Env) : List Nat → Option (List (Tree Nat))
  | [] => some []
  | g :: gs =>
    match e.lookup g, e.trees gs with
    | some (some t), some ts => some (t :: ts)
    | _, _ => none

/-- A step on plain values. -/
def Env.step (e : Env) : Op → Option Env
  | .empty h => some ((h, none) :: e)
  | .leaf h tok => some ((h, some (.node tok [])) :: e)
  | .make h tok gs => (e.trees gs).map fun ts => (h, some (.node tok ts)) :: e
  | .copy h g => (e.lookup g).map fun v => (h, v) :: e
  | .assign h g => (e.lookup g).map fun v => setAt h v e
  | .assignArg h g i =>
    match e.lookup g with
    | some (some (.node _ ts)) => (ts[i]?).map fun u => setAt h (some u) e
    | _ => none
  | .destroy h => some (e.filter fun p => p.1 ≠ h)

/-- A program on plain values. -/
def Env.run (e : Env) : List Op → Option Env
  | [] => some e
  | op :: ops =>
    match e.step op with
    | none => none
    | some e1 => e1.run ops

mutual
/-- The number of levels of a formula. -/
def height : Tree Nat → Nat
  | .node _ ts => 1 + heights ts
def heights : List (Tree Nat) → Nat
  | [] => 0
  | t :: ts => max (height t) (heights ts)
end

/-- One formula occurs in the other. -/
inductive Within (v : Tree Nat) : Tree Nat → Prop where
  | here : Within v v
  | arg {tok : Nat} {ts : List (Tree Nat)} {u : Tree Nat} : u ∈ ts → Within v u → Within v (.node tok ts)

/-- The variable and its value agree: reading `token()` and `args()` gives the formula. -/
def AgreeV (ns : List Node) : Option Nat → Option (Tree Nat) → Prop
  | none, none => True
  | some i, some t => Den ns i t
  | _, _ => False

/-! ### The invariant -/

def Agree (ns : List Node) : List (Nat × Option Nat) → Env → Prop
  | [], [] => True
  | p :: l, q :: e => p.1 = q.1 ∧ AgreeV ns p.2 q.2 ∧ Agree ns l e
  | _, _ => False

/-- The references held by variables. -/
def refs (l : List (Nat × Option Nat)) : List Nat := l.filterMap Prod.snd

/-- Size and depth as stored. -/
def Stats (strict : Prop) (t : Tree Nat) (n : Node) : Prop :=
  n.size = t.size ∧ height t ≤ n.depth ∧ n.depth ≤ height t + 1 ∧ (strict → n.depth = height t)

structure Inv (strict : Prop) (s : St) (e : Env) : Prop where
  names : (s.vars.map Prod.fst).Nodup
  cons : Cons s.mem.nodes s.mem.tokens (refs s.vars) s.next
  agree : Agree s.mem.nodes s.vars e
  stats : ∀ n ∈ s.mem.nodes, ∀ t, Den s.mem.nodes n.id t → Stats strict t n

theorem agree_lookup {ns : List Node} : ∀ {l : List (Nat × Option Nat)} {e : Env} {h : Nat} {a : Option Nat},
    Agree ns l e → l.lookup h = some a → ∃ v, e.lookup h = some v ∧ AgreeV ns a v
  | [], [], _, _, _, hl => by simp at hl
  | (k, b) :: l, (k', v) :: e, h, a, hg, hl => by
    simp only [Agree] at hg
    obtain ⟨rfl, hv, hr⟩ := hg
    by_cases hk : h = k
    · subst hk
      simp only [List.lookup, beq_self_eq_true, Option.some.injEq] at hl
      subst hl
      exact ⟨v, by simp [List.lookup], hv⟩
    · have hb : (h == k) = false := by simpa using hk
      simp only [List.lookup, hb] at hl ⊢
      exact agree_lookup hr hl
  | [], _ :: _, _, _, hg, _ => by simp only [Agree] at hg
  | _ :: _, [], _, _, hg, _ => by simp only [Agree] at hg

theorem agree_lookup_none {ns : List Node} : ∀ {l : List (Nat × Option Nat)} {e : Env} {h : Nat},
    Agree ns l e → l.lookup h = none → e.lookup h = none
  | [], [], _, _, hl => by simp
  | (k, b) :: l, (k', v) :: e, h, hg, hl => by
    simp only [Agree] at hg
    obtain ⟨rfl, hv, hr⟩ := hg
    by_cases hk : h = k
    · subst hk
      simp [List.lookup] at hl
    · have hb : (h == k) = false := by simpa using hk
      simp only [List.lookup, hb] at hl ⊢
      exact agree_lookup_none hr hl
  | [], _ :: _, _, hg, _ => by simp only [Agree] at hg
  | _ :: _, [], _, hg, _ => by simp only [Agree] at hg

theorem agreeV_mono {ns ns' : List Node} {a : Option Nat} {v : Option (Tree Nat)}
    (h : ∀ i, a = some i → ∀ t, Den ns i t → Den ns' i t) (hg : AgreeV ns a v) : AgreeV ns' a v := by
  cases a <;> cases v <;> simp only [AgreeV] at hg ⊢
  exact h _ rfl _ hg

theorem refs_cons (p : Nat × Option Nat) (l : List (Nat × Option Nat)) : refs (p :: l) = p.2.toList ++ refs l := by
  obtain ⟨k, a⟩ := p
  cases a <;> simp [refs]

theorem agree_mono {ns ns' : List Node} : ∀ {l : List (Nat × Option Nat)} {e : Env},
    (∀ i ∈ refs l, ∀ t, Den ns i t → Den ns' i t) → Agree ns l e → Agree ns' l e
  | [], [], _, _ => by simp only [Agree]
  | p :: l, q :: e, h, hg => by
    simp only [Agree] at hg ⊢
    rw [refs_cons] at h
    exact ⟨hg.1, agreeV_mono (fun i hi => h i (by simp [hi])) hg.2.1,
      agree_mono (fun i hi => h i (by simp [hi])) hg.2.2⟩
  | [], _ :: _, _, hg => by simp only [Agree] at hg
  | _ :: _, [], _, hg => by simp only [Agree] at hg

theorem agree_filter {ns : List Node} (h : Nat) : ∀ {l : List (Nat × Option Nat)} {e : Env},
    Agree ns l e → Agree ns (l.filter fun p => p.1 ≠ h) (e.filter fun p => p.1 ≠ h)
  | [], [], _ => by simp [Agree]
  | p :: l, q :: e, hg => by
    simp only [Agree] at hg
    rw [List.filter_cons, List.filter_cons, ← hg.1]
    by_cases hk : p.1 = h
    · simpa [hk] using agree_filter h hg.2.2
    · simp only [ne_eq, hk, not_false_eq_true, decide_true, if_true, Agree]
      exact ⟨hg.1, hg.2.1, by simpa using agree_filter h hg.2.2⟩
  | [], _ :: _, hg => by simp only [Agree] at hg
  | _ :: _, [], hg => by simp only [Agree] at hg

theorem agree_setAt {ns ns' : List Node} {h : Nat} {b : Option Nat} {v : Option (Tree Nat)} (hv : AgreeV ns' b v) :
    ∀ {l : List (Nat × Option Nat)} {e : Env},
    (∀ i ∈ refs (l.filter fun p => p.1 ≠ h), ∀ t, Den ns i t → Den ns' i t) →
    Agree ns l e → Agree ns' (setAt h b l) (setAt h v e)
  | [], [], _, _ => by simp [setAt, Agree]
  | p :: l, q :: e, hd, hg => by
    simp only [Agree] at hg
    have hsub : ∀ i ∈ refs (l.filter fun p => p.1 ≠ h), i ∈ refs ((p :: l).filter fun p => p.1 ≠ h) := by
      intro i hi
      rw [List.filter_cons]
      split
      · rw [refs_cons]; simp only [List.mem_append]; exact Or.inr hi
      · exact hi
    have ih := agree_setAt hv (fun i hi => hd i (hsub i hi)) hg.2.2
    simp only [setAt, List.map_cons, Agree]
    rw [← hg.1]
    refine ⟨by split <;> simp [hg.1], ?_, ih⟩
    by_cases hk : p.1 = h
    · simpa [hk] using hv
    · simp only [hk, if_false]
      refine agreeV_mono (fun i hi => hd i ?_) hg.2.1
      rw [List.filter_cons]
      simp only [ne_eq, hk, not_false_eq_true, decide_true, if_true]
      rw [refs_cons, hi]
      simp
  | [], _ :: _, _, hg => by simp only [Agree] at hg
  | _ :: _, [], _, hg => by simp only [Agree] at hg

theorem setAt_self {β : Type} : ∀ {l : List (Nat × β)} {h : Nat} {a : β}, (l.map Prod.fst).Nodup → l.lookup h = some a →
    setAt h a l = l
  | [], _, _, _, _ => by simp [setAt]
  | (k, b) :: l, h, a, hn, hl => by
    simp only [List.map_cons, List.nodup_cons] at hn
    by_cases hk : h = k
    · subst hk
      simp only [List.lookup, beq_self_eq_true, Option.some.injEq] at hl
      subst hl
      simp only [setAt, List.map_cons, if_true]
      congr 1
      conv_rhs => rw [← List.map_id l]
      apply List.map_congr_left
      rintro ⟨k, d⟩ hm
      have : k ≠ h := by
        rintro rfl
        exact hn.1 (List.mem_map.2 ⟨_, hm, rfl⟩)
      simp [this]
    · have hb : (h == k) = false := by simpa using hk
      simp only [List.lookup, hb] at hl
      have := setAt_self hn.2 hl
      simp only [setAt] at this
      simp only [setAt, List.map_cons, Ne.symm hk, if_false, this]

theorem setVar_eq (h : Nat) (a : Option Nat) (l : List (Nat × Option Nat)) : setVar h a l = setAt h a l := rfl

theorem mem_refs {l : List (Nat × Option Nat)} {h i : Nat} (hl : (h, some i) ∈ l) : i ∈ refs l := by
  rw [refs, List.mem_filterMap]
  exact ⟨_, hl, rfl⟩

theorem refs_perm {l l' : List (Nat × Option Nat)} (p : l.Perm l') : (refs l).Perm (refs l') := p.filterMap _

/-- Statistics are kept as long as nodes only go away. -/
theorem stats_sub {strict : Prop} {a b : List Node} (hs : Sub a b)
    (h : ∀ n ∈ b, ∀ t, Den b n.id t → Stats strict t n) : ∀ n ∈ a, ∀ t, Den a n.id t → Stats strict t n := by
  intro n hn t ht
  obtain ⟨k, hk, e1, _, _, e4, e5⟩ := hs n hn
  have := h k hk t (by rw [e1]; exact den_sub hs t n.id ht)
  rw [Stats, e4, e5] at this
  exact this

theorem denL_get {ns : List Node} : ∀ {is : List Nat} {ts : List (Tree Nat)} {i b : Nat}, DenL ns is ts →
    is[i]? = some b → ∃ u, ts[i]? = some u ∧ Den ns b u
  | [], _, i, b, _, h => by simp at h
  | j :: is, t :: ts, 0, b, hd, h => by
    simp only [DenL] at hd
    simp only [List.getElem?_cons_zero, Option.some.injEq] at h
    subst h
    exact ⟨t, rfl, hd.1⟩
  | j :: is, t :: ts, i + 1, b, hd, h => by
    simp only [DenL] at hd
    simp only [List.getElem?_cons_succ] at h ⊢
    exact denL_get hd.2 h
  | _ :: _, [], _, _, hd, _ => by simp only [DenL] at hd

theorem den_mem {ns : List Node} {i : Nat} {t : Tree Nat} (h : Den ns i t) : i ∈ ns.map Node.id := by
  cases t
  simp only [Den] at h
  obtain ⟨n, hn, e, _⟩ := h
  exact List.mem_map.2 ⟨n, hn, e⟩

theorem denL_mem {ns : List Node} : ∀ {is : List Nat} {ts : List (Tree Nat)}, DenL ns is ts →
    ∀ i ∈ is, i ∈ ns.map Node.id
  | [], _, _, i, hi => by simp at hi
  | j :: is, t :: ts, hd, i, hi => by
    simp only [DenL] at hd
    rcases List.mem_cons.1 hi with rfl | hi
    · exact den_mem hd.1
    · exact denL_mem hd.2 i hi
  | _ :: _, [], hd, _, _ => by simp only [DenL] at hd

theorem ids_agree {s : St} {e : Env} {ns : List Node} (hg : Agree ns s.vars e) : ∀ {gs is : List Nat},
    s.ids gs = some is → ∃ ts, e.trees gs = some ts ∧ DenL ns is ts
  | [], is, h => by
    simp only [St.ids, Option.some.injEq] at h
    subst h
    exact ⟨[], rfl, by simp only [DenL]⟩
  | g :: gs, is, h => by
    simp only [St.ids] at h
    split at h
    · rename_i i js h1 h2
      cases h
      obtain ⟨ts, k1, k2⟩ := ids_agree hg h2
      obtain ⟨v, k3, k4⟩ := agree_lookup hg h1
      cases v with
      | none => simp only [AgreeV] at k4
      | some t =>
        simp only [AgreeV] at k4
        exact ⟨t :: ts, by simp only [Env.trees, k3, k1], by simp only [DenL]; exact ⟨k4, k2⟩⟩
    · cases h

theorem sizes_eq {strict : Prop} {m : Mem} (hids : (m.nodes.map Node.id).Nodup)
    (h : ∀ n ∈ m.nodes, ∀ t, Den m.nodes n.id t → Stats strict t n) :
    ∀ {is : List Nat} {ts : List (Tree Nat)}, DenL m.nodes is ts → m.sizes is = MathSym.sizes ts
  | [], [], _ => by simp [Mem.sizes, MathSym.sizes]
  | i :: is, t :: ts, hd => by
    simp only [DenL] at hd
    have ih := sizes_eq hids h hd.2
    obtain ⟨n, hn, rfl⟩ := List.mem_map.1 (den_mem hd.1)
    have hf : m.find n.id = some n := find_of_mem hids hn
    simp only [Mem.sizes, List.map_cons, List.sum_cons, hf] at ih ⊢
    rw [ih, (h n hn t hd.1).1, MathSym.sizes]
  | [], _ :: _, hd => by simp only [DenL] at hd
  | _ :: _, [], hd => by simp only [DenL] at hd

theorem depths_fold (m : Mem) : ∀ (is : List Nat) (d : Nat),
    is.foldl (fun d i => max d (match m.find i with | some n => n.depth | none => 0)) d
      = max d (is.foldl (fun d i => max d (match m.find i with | some n => n.depth | none => 0)) 0)
  | [], d => by simp
  | i :: is, d => by
    rw [List.foldl_cons, List.foldl_cons, depths_fold m is (max d _), depths_fold m is (max 0 _)]
    omega

theorem height_pos (t : Tree Nat) : 1 ≤ height t := by
  cases t
  simp only [height]
  omega

theorem depths_bounds {strict : Prop} {m : Mem} (hids : (m.nodes.map Node.id).Nodup)
    (h : ∀ n ∈ m.nodes, ∀ t, Den m.nodes n.id t → Stats strict t n) :
    ∀ {is : List Nat} {ts : List (Tree Nat)}, DenL m.nodes is ts →
      heights ts ≤ is.foldl (fun d i => max d (match m.find i with | some n => n.depth | none => 0)) 0 ∧
      is.foldl (fun d i => max d (match m.find i with | some n => n.depth | none => 0)) 0 ≤ heights ts + 1 ∧
      (strict → is.foldl (fun d i => max d (match m.find i with | some n => n.depth | none => 0)) 0 = heights ts)
  | [], [], _ => by simp [heights]
  | i :: is, t :: ts, hd => by
    simp only [DenL] at hd
    obtain ⟨h1, h2, h3⟩ := depths_bounds hids h hd.2
    obtain ⟨n, hn, rfl⟩ := List.mem_map.1 (den_mem hd.1)
    have hf : m.find n.id = some n := find_of_mem hids hn
    obtain ⟨_, k1, k2, k3⟩ := h n hn t hd.1
    rw [List.foldl_cons, depths_fold]
    simp only [hf, heights]
    refine ⟨by omega, by omega, fun hs => ?_⟩
    rw [h3 hs, k3 hs]
    omega
  | [], _ :: _, hd => by simp only [DenL] at hd
  | _ :: _, [], hd => by simp only [DenL] at hd

/-- What a new node stands for. -/
theorem stats_fresh {strict : Prop} {m : Mem} {ns : List Node} {tk : Nat → Nat} {R is : List Nat} {next tok depth : Nat}
    {ts : List (Tree Nat)} (hids : (m.nodes.map Node.id).Nodup)
    (hst : ∀ n ∈ m.nodes, ∀ t, Den m.nodes n.id t → Stats strict t n) (hd : DenL m.nodes is ts)
    (hsub : Sub ns m.nodes) (hsub' : Sub m.nodes ns)
    (hc : Cons (⟨next, tok, is, 1, 1 + m.sizes is, depth⟩ :: ns) tk R (next + 1)) (hcl : Cons ns tk' R' next')
    (hdep : height (.node tok ts) ≤ depth ∧ depth ≤ height (.node tok ts) + 1 ∧
      (strict → depth = height (.node tok ts))) :
    ∀ n ∈ (⟨next, tok, is, 1, 1 + m.sizes is, depth⟩ :: ns : List Node), ∀ t,
      Den (⟨next, tok, is, 1, 1 + m.sizes is, depth⟩ :: ns) n.id t → Stats strict t n := by
  have hup : Sub ns (⟨next, tok, is, 1, 1 + m.sizes is, depth⟩ :: ns) := fun n hn =>
    ⟨n, List.mem_cons_of_mem _ hn, rfl, rfl, rfl, rfl, rfl⟩
  have hnew : Den (⟨next, tok, is, 1, 1 + m.sizes is, depth⟩ :: ns) next (.node tok ts) := by
    simp only [Den]
    exact ⟨_, List.mem_cons_self, rfl, rfl, denL_sub hup ts is (denL_sub hsub' ts is hd)⟩
  intro n hn t ht
  rcases List.mem_cons.1 hn with rfl | hn
  · obtain rfl := den_unique hc.ids _ _ _ hnew ht
    refine ⟨?_, hdep⟩
    show 1 + m.sizes is = _
    rw [sizes_eq hids hst hd, Tree.size]
  · exact stats_sub hsub hst n hn t (den_keep hcl hc.ids hup ht (List.mem_map.2 ⟨n, hn, rfl⟩))

theorem findKey_spec {m : Mem} {tok : Nat} {is : List Nat} {n : Node} (h : m.findKey tok is = some n) :
    n ∈ m.nodes ∧ n.tok = tok ∧ n.args = is := by
  refine ⟨List.mem_of_find?_eq_some h, ?_⟩
  simpa using List.find?_some h

theorem construct_inv {strict : Prop} {s : St} {e : Env} (hi : Inv strict s e) {h tok depth : Nat} {is : List Nat}
    {ts : List (Tree Nat)} (hh : s.vars.lookup h = none) (hd : DenL s.mem.nodes is ts)
    (hdep : height (.node tok ts) ≤ depth ∧ depth ≤ height (.node tok ts) + 1 ∧
      (strict → depth = height (.node tok ts))) :
    ∃ s', s.construct h tok is depth = some s' ∧ Inv strict s' ((h, some (.node tok ts)) :: e) := by
  have hnames : ((h :: s.vars.map Prod.fst)).Nodup := List.nodup_cons.2 ⟨lookup_none _ _ hh, hi.names⟩
  cases hf : s.mem.findKey tok is with
  | some n =>
    obtain ⟨hn, e1, e2⟩ := findKey_spec hf
    obtain ⟨m, h1, h2, h3, h4⟩ := incref_spec s.mem n.id _ _ hi.cons (List.mem_map.2 ⟨n, hn, rfl⟩)
    have hst : s.construct h tok is depth = some ⟨(h, some n.id) :: s.vars, m, s.next⟩ := by
      simp only [St.construct, hf, h1]
    refine ⟨_, hst, ⟨hnames, h2, ?_, stats_sub h3 hi.stats⟩⟩
    simp only [Agree, AgreeV, true_and]
    refine ⟨?_, agree_mono (fun i _ t ht => den_sub h4 t i ht) hi.agree⟩
    apply den_sub h4
    simp only [Den]
    exact ⟨n, hn, rfl, e1, by rw [e2]; exact hd⟩
  | none =>
    obtain ⟨m, h1, h2, h3, h4⟩ := increfs_spec is s.mem _ _ hi.cons (denL_mem hd)
    have hst : s.construct h tok is depth = some ⟨(h, some s.next) :: s.vars,
        ⟨⟨s.next, tok, is, 1, 1 + s.mem.sizes is, depth⟩ :: m.nodes,
          fun t => if t = tok then m.tokens t + 1 else m.tokens t⟩, s.next + 1⟩ := by
      simp only [St.construct, hf, h1]
    have hc : Cons (⟨s.next, tok, is, 1, 1 + s.mem.sizes is, depth⟩ :: m.nodes)
        (fun t => if t = tok then m.tokens t + 1 else m.tokens t) (s.next :: refs s.vars) (s.next + 1) := by
      apply h2.fresh
      intro n hn e1 e2
      obtain ⟨k, hk, _, f2, f3, _⟩ := h3 n hn
      rw [Mem.findKey, List.find?_eq_none] at hf
      exact hf k hk (by simp [f2, f3, e1, e2])
    have hup : Sub m.nodes (⟨s.next, tok, is, 1, 1 + s.mem.sizes is, depth⟩ :: m.nodes) := fun n hn =>
      ⟨n, List.mem_cons_of_mem _ hn, rfl, rfl, rfl, rfl, rfl⟩
    have hup' := h4.trans hup
    refine ⟨_, hst, ⟨hnames, hc, ?_, stats_fresh hi.cons.ids hi.stats hd h3 h4 hc h2 hdep⟩⟩
    simp only [Agree, AgreeV, true_and]
    refine ⟨?_, agree_mono (fun i _ t ht => den_sub hup' t i ht) hi.agree⟩
    simp only [Den]
    exact ⟨_, List.mem_cons_self, rfl, rfl, denL_sub hup' ts is hd⟩

/-- A leaf is not made with an empty vector of arguments. -/
def properOp : Op → Bool
  | .make _ _ [] => false
  | _ => true

theorem denL_length {ns : List Node} : ∀ {is : List Nat} {ts : List (Tree Nat)}, DenL ns is ts → is.length = ts.length
  | [], [], _ => rfl
  | _ :: is, _ :: ts, h => by
    simp only [DenL] at h
    simp [denL_length h.2]
  | [], _ :: _, hd => by simp only [DenL] at hd
  | _ :: _, [], hd => by simp only [DenL] at hd

theorem ids_length {s : St} : ∀ {gs is : List Nat}, s.ids gs = some is → is.length = gs.length
  | [], is, h => by
    simp only [St.ids, Option.some.injEq] at h
    subst h
    rfl
  | g :: gs, is, h => by
    simp only [St.ids] at h
    split at h
    · rename_i i js h1 h2
      cases h
      simp [ids_length h2]
    · cases h

theorem take_find {m : Mem} {i : Nat} (h : i ∈ m.nodes.map Node.id) (hids : (m.nodes.map Node.id).Nodup) :
    ∃ n ∈ m.nodes, m.find i = some n ∧ n.id = i := by
  obtain ⟨n, hn, rfl⟩ := List.mem_map.1 h
  exact ⟨n, hn, find_of_mem hids hn, rfl⟩

/-- Assignment of another node that stays while the old one is given up. -/
theorem assign_inv {strict : Prop} {s : St} {e : Env} (hi : Inv strict s e) {h : Nat} {a b : Option Nat}
    {v : Option (Tree Nat)} (ha : s.vars.lookup h = some a) (hv : AgreeV s.mem.nodes b v)
    (hb : ∀ m' : Mem, Cons m'.nodes m'.tokens (refs (s.vars.filter fun p => p.1 ≠ h)) s.next →
      Sub m'.nodes s.mem.nodes → ∀ i, b = some i → i ∈ m'.nodes.map Node.id) :
    ∃ m m1, s.mem.drop a = some m ∧ m.take b = some m1 ∧
      Cons m.nodes m.tokens (refs (s.vars.filter fun p => p.1 ≠ h)) s.next ∧ Sub m.nodes s.mem.nodes ∧
      Inv strict ⟨setVar h b s.vars, m1, s.next⟩ (setAt h v e) := by
  have hp := perm_filter _ _ _ hi.names ha
  have hc0 := hi.cons.perm (List.Perm.refl _) (refs_perm hp)
  rw [refs_cons] at hc0
  obtain ⟨m, h1, h2, h3⟩ := drop_spec s.mem a _ _ hc0
  obtain ⟨m1, k1, k2, k3, k4⟩ := take_spec m b _ _ h2 (hb m h2 h3)
  have hc1 : Cons m1.nodes m1.tokens (refs (setVar h b s.vars)) s.next := by
    refine k2.perm (List.Perm.refl _) ?_
    have := (refs_perm (perm_setAt _ h a b hi.names ha)).symm
    rw [refs_cons] at this
    exact this
  have hkeep : ∀ i, i ∈ m.nodes.map Node.id → ∀ t, Den s.mem.nodes i t → Den m1.nodes i t := fun i him t ht =>
    den_sub k4 t i (den_keep h2 hi.cons.ids h3 ht him)
  refine ⟨m, m1, h1, k1, h2, h3, ⟨?_, hc1, ?_, stats_sub (k3.trans h3) hi.stats⟩⟩
  · show ((setVar h b s.vars).map Prod.fst).Nodup
    rw [setVar_eq, names_setAt]
    exact hi.names
  · refine agree_setAt (agreeV_mono (fun i hib => hkeep i (hb m h2 h3 i hib)) hv) ?_ hi.agree
    intro i hir
    exact hkeep i (h2.closedR i hir)

theorem lookup_filter {β : Type} : ∀ {l : List (Nat × β)} {h g : Nat}, g ≠ h →
    (l.filter fun p => p.1 ≠ h).lookup g = l.lookup g
  | [], _, _, _ => by simp
  | (k, b) :: l, h, g, hgh => by
    have ih := lookup_filter (l := l) hgh
    rw [List.filter_cons]
    by_cases hk : k = h
    · subst hk
      have hb : (g == k) = false := by simpa using hgh
      simp only [ne_eq, not_true_eq_false, decide_false, Bool.false_eq_true, if_false, List.lookup, hb]
      exact ih
    · simp only [ne_eq, hk, not_false_eq_true, decide_true, if_true, List.lookup]
      rw [← ih]

/-- Assigning what the variable has already. -/
theorem assign_same {strict : Prop} {s : St} {e : Env} (hi : Inv strict s e) {h : Nat} {a : Option Nat}
    {v : Option (Tree Nat)} (ha : s.vars.lookup h = some a) (hv : AgreeV s.mem.nodes a v) :
    Inv strict s (setAt h v e) := by
  refine ⟨hi.names, hi.cons, ?_, hi.stats⟩
  have := agree_setAt (h := h) (l := s.vars) (e := e) hv (fun i _ t ht => ht) hi.agree
  rw [setAt_self hi.names ha] at this
  exact this

theorem step_inv {strict : Prop} {s : St} {e : Env} (hi : Inv strict s e) (op : Op) (ha : s.allowed op = true)
    (hop : strict → properOp op = true) :
    ∃ s' e', s.step op = some s' ∧ e.step op = some e' ∧ Inv strict s' e' := by
  cases op with
  | empty h =>
    simp only [St.allowed, Option.isNone_iff_eq_none] at ha
    refine ⟨_, _, rfl, rfl, ⟨List.nodup_cons.2 ⟨lookup_none _ _ ha, hi.names⟩, hi.cons, ?_, hi.stats⟩⟩
    simp only [Agree, AgreeV, true_and]
    exact hi.agree
  | leaf h tok =>
    simp only [St.allowed, Option.isNone_iff_eq_none] at ha
    obtain ⟨s', h1, h2⟩ := construct_inv hi (tok := tok) (depth := 1) (is := []) (ts := []) ha (by simp only [DenL])
      (by simp [height, heights])
    exact ⟨s', _, h1, rfl, h2⟩
  | make h tok gs =>
    simp only [St.allowed, Bool.and_eq_true, Option.isNone_iff_eq_none, Option.isSome_iff_exists] at ha
    obtain ⟨hh, is, his⟩ := ha
    obtain ⟨ts, hts, hd⟩ := ids_agree hi.agree his
    have hb := depths_bounds hi.cons.ids hi.stats hd
    have hdp : s.mem.depths is = max 1 (is.foldl (fun d i => max d (match s.mem.find i with
        | some n => n.depth | none => 0)) 0) := depths_fold s.mem is 1
    have hlen := denL_length hd
    have hlen' := ids_length his
    obtain ⟨s', h1, h2⟩ := construct_inv hi (tok := tok) (depth := 1 + s.mem.depths is) hh hd (by
      rw [hdp]
      simp only [height]
      refine ⟨by omega, by omega, fun hs => ?_⟩
      rw [hb.2.2 hs]
      cases ts with
      | nil =>
        exfalso
        have := hop hs
        cases gs with
        | nil => simp [properOp] at this
        | cons g gs => simp only [List.length_nil, List.length_cons] at hlen hlen'; omega
      | cons t ts =>
        have := height_pos t
        simp only [heights]
        omega)
    exact ⟨s', _, by simp only [St.step, his, h1], by simp only [Env.step, hts, Option.map_some], h2⟩
  | copy h g =>
    simp only [St.allowed, Bool.and_eq_true, Option.isNone_iff_eq_none, Option.isSome_iff_exists] at ha
    obtain ⟨hh, b, hb⟩ := ha
    obtain ⟨v, hv, hav⟩ := agree_lookup hi.agree hb
    obtain ⟨m, h1, h2, h3, h4⟩ := take_spec s.mem b _ _ hi.cons (by
      rintro i rfl
      exact hi.cons.closedR i (mem_refs (lookup_mem _ _ _ hb)))
    refine ⟨⟨(h, b) :: s.vars, m, s.next⟩, (h, v) :: e, by simp only [St.step, hb, h1],
      by simp only [Env.step, hv, Option.map_some], ⟨List.nodup_cons.2 ⟨lookup_none _ _ hh, hi.names⟩, ?_, ?_, stats_sub h3 hi.stats⟩⟩
    · show Cons m.nodes m.tokens (refs ((h, b) :: s.vars)) s.next
      rw [refs_cons]
      exact h2
    · simp only [Agree, true_and]
      exact ⟨agreeV_mono (fun i _ t ht => den_sub h4 t i ht) hav,
        agree_mono (fun i _ t ht => den_sub h4 t i ht) hi.agree⟩
  | assign h g =>
    simp only [St.allowed, Bool.and_eq_true, Option.isSome_iff_exists] at ha
    obtain ⟨⟨a, hla⟩, b, hlb⟩ := ha
    obtain ⟨v, hv, hav⟩ := agree_lookup hi.agree hlb
    by_cases hab : b = a
    · subst hab
      exact ⟨s, _, by simp only [St.step, hla, hlb, if_true], by simp only [Env.step, hv, Option.map_some],
        assign_same hi hla hav⟩
    · have hgh : g ≠ h := by
        rintro rfl
        rw [hla] at hlb
        exact hab (Option.some.inj hlb).symm
      obtain ⟨m, m1, h1, h2, _, _, h5⟩ := assign_inv hi hla hav (b := b) (by
        rintro m' hc _ i rfl
        refine hc.closedR i (mem_refs (h := g) (lookup_mem _ _ _ ?_))
        rw [lookup_filter hgh, hlb])
      exact ⟨_, _, by simp only [St.step, hla, hlb, hab, if_false, h1, h2], by simp only [Env.step, hv, Option.map_some], h5⟩
  | assignArg h g i =>
    simp only [St.allowed, Bool.and_eq_true, Option.isSome_iff_exists, decide_eq_true_eq] at ha
    obtain ⟨⟨⟨a, hla⟩, hha⟩, hgh⟩ := ha
    rw [St.hasArg] at hha
    split at hha
    case h_2 => cases hha
    case h_1 j hlb =>
    split at hha
    case h_2 => cases hha
    case h_1 n hn =>
    simp only [decide_eq_true_eq] at hha
    have hget : n.args[i]? = some n.args[i] := List.getElem?_eq_getElem hha
    generalize hbe : n.args[i] = b at hget
    obtain ⟨v, hv, hav⟩ := agree_lookup hi.agree hlb
    obtain ⟨hnm, hnj⟩ := find_mem hn
    cases v with
    | none => simp only [AgreeV] at hav
    | some t =>
      obtain ⟨tok, ts⟩ := t
      simp only [AgreeV, Den] at hav
      obtain ⟨n', hn', e1, e2, e3⟩ := hav
      obtain rfl := id_inj hi.cons.ids hnm hn' (hnj.trans e1.symm)
      obtain ⟨u, hu, hub⟩ := denL_get e3 hget
      have hstep : e.step (.assignArg h g i) = some (setAt h (some u) e) := by
        simp only [Env.step, hv, hu, Option.map_some]
      by_cases hab : some b = a
      · subst hab
        exact ⟨s, _, by simp only [St.step, hla, hlb, hn, hget, if_true], hstep, assign_same hi hla (by simpa only [AgreeV] using hub)⟩
      · have hj : ∀ m' : Mem, Cons m'.nodes m'.tokens (refs (s.vars.filter fun p => p.1 ≠ h)) s.next →
            j ∈ m'.nodes.map Node.id := by
          intro m' hc
          refine hc.closedR j (mem_refs (h := g) (lookup_mem _ _ _ ?_))
          rw [lookup_filter (Ne.symm hgh), hlb]
        obtain ⟨m, m1, h1, h2, h3, h4, h5⟩ := assign_inv hi hla (b := some b) (v := some u)
          (by simpa only [AgreeV] using hub) (by
          intro m' hc hs k hk
          cases hk
          obtain ⟨n', hn', hf, hid⟩ := take_find (hj m' hc) hc.ids
          obtain ⟨q, hq, f1, _, f3, _⟩ := hs n' hn'
          obtain rfl := id_inj hi.cons.ids hnm hq (hnj.trans (hid.symm.trans f1.symm))
          refine hc.closedA b (List.mem_flatMap.2 ⟨n', hn', ?_⟩)
          rw [← f3]
          exact List.mem_of_getElem? hget)
        obtain ⟨n', hn', hf, hid⟩ := take_find (hj m h3) h3.ids
        exact ⟨_, _, by simp only [St.step, hla, hlb, hn, hget, hab, if_false, h1, hf, h2], hstep, h5⟩
  | destroy h =>
    simp only [St.allowed, Option.isSome_iff_exists] at ha
    obtain ⟨a, hla⟩ := ha
    have hc0 := hi.cons.perm (List.Perm.refl _) (refs_perm (perm_filter _ _ _ hi.names hla))
    rw [refs_cons] at hc0
    obtain ⟨m, h1, h2, h3⟩ := drop_spec s.mem a _ _ hc0
    refine ⟨⟨s.vars.filter fun p => p.1 ≠ h, m, s.next⟩, _, by simp only [St.step, hla, h1], rfl, ⟨?_, h2, ?_, stats_sub h3 hi.stats⟩⟩
    · exact hi.names.sublist ((List.filter_sublist).map _)
    · exact agree_mono (fun i hir t ht => den_keep h2 hi.cons.ids h3 ht (h2.closedR i hir)) (agree_filter h hi.agree)

theorem inv_init (strict : Prop) : Inv strict St.init [] := by
  refine ⟨by simp [St.init], ⟨by simp [St.init], ?_, ?_, ?_, ?_, ?_, ?_, ?_, ?_⟩, by simp only [St.init, Agree], ?_⟩ <;>
    simp [St.init, refs, allArgs, tokSum]

theorem run_inv {strict : Prop} : ∀ {ops : List Op} {s : St} {e : Env}, Inv strict s e →
    (strict → ∀ op ∈ ops, properOp op = true) →
    s.run ops = .ruleBroken ∨ ∃ s' e', s.run ops = .done s' ∧ e.run ops = some e' ∧ Inv strict s' e'
  | [], s, e, hi, _ => Or.inr ⟨s, e, rfl, rfl, hi⟩
  | op :: ops, s, e, hi, hp => by
    by_cases ha : s.allowed op = true
    · obtain ⟨s1, e1, h1, h2, h3⟩ := step_inv hi op ha fun hs => hp hs op (by simp)
      rcases run_inv (ops := ops) h3 fun hs op hop => hp hs op (by simp [hop]) with h | ⟨s', e', k1, k2, k3⟩
      · exact Or.inl (by simp only [St.run, ha, if_true, h1, h])
      · exact Or.inr ⟨s', e', by simp only [St.run, ha, if_true, h1, k1], by simp only [Env.run, h2, k2], k3⟩
    · exact Or.inl (by simp only [St.run, ha]; rfl)

theorem inv_of_run {ops : List Op} {s : St} (h : St.init.run ops = .done s) :
    ∃ e, Env.run [] ops = some e ∧ Inv False s e := by
  rcases run_inv (ops := ops) (inv_init False) (fun h => h.elim) with h' | ⟨s', e', k1, k2, k3⟩
  · rw [h] at h'; cases h'
  · rw [h] at k1; cases k1
    exact ⟨e', k2, k3⟩

/-! ### C363 -/

/-- C363 (no undefined behaviour): a program by the rules never touches a node that is gone. -/
theorem C363_safe (ops : List Op) : St.init.run ops ≠ .undefined := by
  rcases run_inv (ops := ops) (inv_init False) (fun h => h.elim) with h | ⟨s', e', k1, _⟩
  · rw [h]; simp
  · rw [k1]; simp

/-- C363 (values): every variable holds the formula that the program on plain values gives it. -/
theorem C363_values (ops : List Op) (s : St) (h : St.init.run ops = .done s) :
    ∃ e, Env.run [] ops = some e ∧ ∀ v,
      (s.vars.lookup v = none ↔ e.lookup v = none) ∧
      ∀ a, s.vars.lookup v = some a → ∃ t, e.lookup v = some t ∧ AgreeV s.mem.nodes a t ∧
        ∀ t', AgreeV s.mem.nodes a t' → t' = t := by
  obtain ⟨e, he, hi⟩ := inv_of_run h
  refine ⟨e, he, fun v => ⟨⟨agree_lookup_none hi.agree, fun hn => ?_⟩, fun a ha => ?_⟩⟩
  · cases hl : s.vars.lookup v with
    | none => rfl
    | some a =>
      obtain ⟨t, ht, _⟩ := agree_lookup hi.agree hl
      rw [hn] at ht; cases ht
  · obtain ⟨t, ht, hv⟩ := agree_lookup hi.agree ha
    refine ⟨t, ht, hv, fun t' ht' => ?_⟩
    cases a <;> cases t <;> cases t' <;> simp only [AgreeV] at hv ht'
    · rfl
    · rw [den_unique hi.cons.ids _ _ _ hv ht']

/-- C363 (equality): two variables compare equal just when their formulas are the same. -/
theorem C363_equal (ops : List Op) (s : St) (e : Env) (h : St.init.run ops = .done s) (he : Env.run [] ops = some e)
    (v w : Nat) (t u : Option (Tree Nat)) (hv : e.lookup v = some t) (hw : e.lookup w = some u) :
    ∃ b, s.equal v w = some b ∧ (b = true ↔ t = u) := by
  obtain ⟨e', he', hi⟩ := inv_of_run h
  rw [he] at he'; cases he'
  have get : ∀ x y, e.lookup x = some y → ∃ a, s.vars.lookup x = some a ∧ AgreeV s.mem.nodes a y := by
    intro x y hx
    cases hl : s.vars.lookup x with
    | none => rw [agree_lookup_none hi.agree hl] at hx; cases hx
    | some a =>
      obtain ⟨y', hy', hav⟩ := agree_lookup hi.agree hl
      rw [hx] at hy'; cases hy'
      exact ⟨a, rfl, hav⟩
  obtain ⟨a, ha, ha'⟩ := get v t hv
  obtain ⟨b, hb, hb'⟩ := get w u hw
  refine ⟨decide (a = b), by simp only [St.equal, ha, hb], ?_⟩
  rw [decide_eq_true_eq]
  cases a <;> cases b <;> cases t <;> cases u <;> simp only [AgreeV] at ha' hb' <;> simp
  constructor
  · rintro rfl
    exact den_unique hi.cons.ids _ _ _ ha' hb'
  · rintro rfl
    exact den_inj hi.cons.keys _ _ _ ha' hb'

theorem agree_refs {ns : List Node} : ∀ {l : List (Nat × Option Nat)} {e : Env}, Agree ns l e →
    ∀ i ∈ refs l, ∃ p ∈ e, ∃ t, p.2 = some t ∧ Den ns i t
  | [], _, _, i, hi => by simp [refs] at hi
  | (k, a) :: l, (k', v) :: e, hg, i, hi => by
    simp only [Agree] at hg
    rw [refs_cons] at hi
    rcases List.mem_append.1 hi with hi | hi
    · simp only [Option.mem_toList] at hi
      cases hi
      cases v with
      | none => simp only [AgreeV] at hg; exact hg.2.1.elim
      | some t =>
        simp only [AgreeV] at hg
        exact ⟨_, List.mem_cons_self, t, rfl, hg.2.1⟩
    · obtain ⟨p, hp, h⟩ := agree_refs hg.2.2 i hi
      exact ⟨p, List.mem_cons_of_mem _ hp, h⟩
  | _ :: _, [], hg, _, _ => by simp only [Agree] at hg

theorem agree_refs' {ns : List Node} : ∀ {l : List (Nat × Option Nat)} {e : Env}, Agree ns l e →
    ∀ p ∈ e, ∀ t, p.2 = some t → ∃ i, Den ns i t
  | [], [], _, p, hp, _, _ => by simp at hp
  | (k, a) :: l, (k', v) :: e, hg, p, hp, t, ht => by
    simp only [Agree] at hg
    rcases List.mem_cons.1 hp with rfl | hp
    · simp only at ht
      subst ht
      cases a with
      | none => simp only [AgreeV] at hg; exact hg.2.1.elim
      | some i => simp only [AgreeV] at hg; exact ⟨i, hg.2.1⟩
    · exact agree_refs' hg.2.2 p hp t ht
  | _ :: _, [], hg, _, _, _, _ => by simp only [Agree] at hg
  | [], _ :: _, hg, _, _, _, _ => by simp only [Agree] at hg

theorem denL_of_mem {ns : List Node} : ∀ {is : List Nat} {ts : List (Tree Nat)}, DenL ns is ts →
    (∀ u ∈ ts, ∃ i ∈ is, Den ns i u) ∧ (∀ i ∈ is, ∃ u ∈ ts, Den ns i u)
  | [], [], _ => by simp
  | i :: is, t :: ts, hd => by
    simp only [DenL] at hd
    obtain ⟨h1, h2⟩ := denL_of_mem hd.2
    constructor
    · intro u hu
      rcases List.mem_cons.1 hu with rfl | hu
      · exact ⟨i, by simp, hd.1⟩
      · obtain ⟨j, hj, h⟩ := h1 u hu
        exact ⟨j, by simp [hj], h⟩
    · intro j hj
      rcases List.mem_cons.1 hj with rfl | hj
      · exact ⟨t, by simp, hd.1⟩
      · obtain ⟨u, hu, h⟩ := h2 j hj
        exact ⟨u, by simp [hu], h⟩
  | [], _ :: _, hd => by simp only [DenL] at hd
  | _ :: _, [], hd => by simp only [DenL] at hd

theorem within_den {ns : List Node} {v t : Tree Nat} (h : Within v t) : ∀ i, Den ns i t → ∃ j, Den ns j v := by
  induction h with
  | here => intro i hi; exact ⟨i, hi⟩
  | arg hu _ ih =>
    intro i hi
    simp only [Den] at hi
    obtain ⟨n, _, _, _, hd⟩ := hi
    obtain ⟨j, _, hj⟩ := (denL_of_mem hd).1 _ hu
    exact ih j hj

theorem within_trans {a b c : Tree Nat} (h : Within a b) (h' : Within b c) : Within a c := by
  induction h' with
  | here => exact h
  | arg hu _ ih => exact .arg hu ih

/-- Every node is part of the formula of some variable. -/
theorem reached {strict : Prop} {s : St} {e : Env} (hi : Inv strict s e) : ∀ (k : Nat) (n : Node), n ∈ s.mem.nodes →
    s.next - n.id ≤ k → ∃ u, Den s.mem.nodes n.id u ∧ ∃ p ∈ e, ∃ t, p.2 = some t ∧ Within u t := by
  intro k
  induction k with
  | zero =>
    intro n hn hk
    have := hi.cons.lt n hn
    omega
  | succ k ih =>
    intro n hn hk
    have hc := hi.cons.count n hn
    have hp := hi.cons.pos n hn
    by_cases hr : n.id ∈ refs s.vars
    · obtain ⟨p, hp, t, ht, hd⟩ := agree_refs hi.agree n.id hr
      exact ⟨t, hd, p, hp, t, ht, .here⟩
    · have h0 := List.count_eq_zero.2 hr
      have hA : n.id ∈ allArgs s.mem.nodes := List.count_pos_iff.1 (by omega)
      obtain ⟨q, hq, hqa⟩ := List.mem_flatMap.1 hA
      have hlt := hi.cons.acyc q hq n.id hqa
      have hql := hi.cons.lt q hq
      obtain ⟨w, hw, p, hp, t, ht, hwt⟩ := ih q hq (by omega)
      obtain ⟨tok, ts⟩ := w
      have hw' := hw
      simp only [Den] at hw'
      obtain ⟨q', hq', e1, _, hd⟩ := hw'
      obtain rfl := id_inj hi.cons.ids hq hq' e1.symm
      obtain ⟨u, hu, hdu⟩ := (denL_of_mem hd).2 n.id hqa
      exact ⟨u, hdu, p, hp, t, ht, within_trans (.arg hu .here) hwt⟩

/-- C363 (sharing, no leak): the nodes stored stand, one each, for the different formulas that occur in the
variables, and no others. -/
theorem C363_shared (ops : List Op) (s : St) (e : Env) (h : St.init.run ops = .done s) (he : Env.run [] ops = some e) :
    (∀ n ∈ s.mem.nodes, ∃ u, Den s.mem.nodes n.id u ∧ ∃ p ∈ e, ∃ t, p.2 = some t ∧ Within u t) ∧
    ∀ p ∈ e, ∀ t, p.2 = some t → ∀ u, Within u t →
      ∃ n ∈ s.mem.nodes, Den s.mem.nodes n.id u ∧ ∀ k ∈ s.mem.nodes, Den s.mem.nodes k.id u → k = n := by
  obtain ⟨e', he', hi⟩ := inv_of_run h
  rw [he] at he'; cases he'
  refine ⟨fun n hn => reached hi _ n hn (le_refl _), fun p hp t ht u hu => ?_⟩
  obtain ⟨i, hd⟩ := agree_refs' hi.agree p hp t ht
  obtain ⟨j, hj⟩ := within_den hu i hd
  obtain ⟨n, hn, rfl⟩ := List.mem_map.1 (den_mem hj)
  exact ⟨n, hn, hj, fun k hk hku => id_inj hi.cons.ids hk hn (den_inj hi.cons.keys u _ _ hku hj)⟩

/-- C363 (all given back): without a variable that holds a formula nothing is stored, and no token is counted. -/
theorem C363_empty (ops : List Op) (s : St) (e : Env) (h : St.init.run ops = .done s) (he : Env.run [] ops = some e)
    (hn : ∀ p ∈ e, p.2 = none) : s.mem.nodes = [] ∧ ∀ t, s.mem.tokens t = 0 := by
  have h0 : s.mem.nodes = [] := by
    rw [List.eq_nil_iff_forall_not_mem]
    intro n hm
    obtain ⟨u, _, p, hp, t, ht, _⟩ := (C363_shared ops s e h he).1 n hm
    rw [hn p hp] at ht
    cases ht
  refine ⟨h0, fun t => ?_⟩
  obtain ⟨e', he', hi⟩ := inv_of_run h
  rw [hi.cons.toks t, h0]
  rfl

open Classical in
theorem denL_count {ns : List Node} (hids : (ns.map Node.id).Nodup)
    (hk : ∀ a ∈ ns, ∀ b ∈ ns, a.tok = b.tok → a.args = b.args → a.id = b.id) {i : Nat} {t : Tree Nat}
    (hi : Den ns i t) : ∀ {is : List Nat} {ts : List (Tree Nat)}, DenL ns is ts → is.count i = ts.count t
  | [], [], _ => by simp
  | j :: is, u :: ts, hd => by
    simp only [DenL] at hd
    have ih := denL_count hids hk hi hd.2
    rw [List.count_cons, List.count_cons, ih]
    by_cases hj : j = i
    · subst hj
      obtain rfl := den_unique hids _ _ _ hi hd.1
      simp
    · have : u ≠ t := by
        rintro rfl
        exact hj (den_inj hk _ _ _ hd.1 hi)
      simp [hj, this]
  | [], _ :: _, hd => by simp only [DenL] at hd
  | _ :: _, [], hd => by simp only [DenL] at hd

open Classical in
theorem agree_count {ns : List Node} (hids : (ns.map Node.id).Nodup)
    (hk : ∀ a ∈ ns, ∀ b ∈ ns, a.tok = b.tok → a.args = b.args → a.id = b.id) {i : Nat} {t : Tree Nat}
    (hi : Den ns i t) : ∀ {l : List (Nat × Option Nat)} {e : Env}, Agree ns l e →
    (refs l).count i = (e.map Prod.snd).count (some t)
  | [], [], _ => by simp [refs]
  | (k, a) :: l, (k', v) :: e, hg => by
    simp only [Agree] at hg
    have ih := agree_count hids hk hi hg.2.2
    rw [refs_cons, List.count_append, ih, List.map_cons, List.count_cons]
    cases a <;> cases v <;> simp only [AgreeV] at hg
    · simp
    · exact hg.2.1.elim
    · exact hg.2.1.elim
    · rename_i j u
      by_cases hj : j = i
      · subst hj
        obtain rfl := den_unique hids _ _ _ hi hg.2.1
        simp
        omega
      · have : u ≠ t := by
          rintro rfl
          exact hj (den_inj hk _ _ _ hg.2.1 hi)
        simp [hj, this]
  | [], _ :: _, hd => by simp only [Agree] at hd
  | _ :: _, [], hd => by simp only [Agree] at hd

/-- The formulas of a list of nodes. -/
def DenN (ns : List Node) : List Node → List (Tree Nat) → Prop
  | [], [] => True
  | n :: l, t :: ts => Den ns n.id t ∧ DenN ns l ts
  | _, _ => False

theorem denN_exists {ns : List Node} {tk : Nat → Nat} {R : List Nat} {next : Nat} (h : Cons ns tk R next) :
    ∀ l : List Node, (∀ n ∈ l, n ∈ ns) → ∃ ts, DenN ns l ts
  | [], _ => ⟨[], by simp only [DenN]⟩
  | n :: l, hl => by
    obtain ⟨ts, hts⟩ := denN_exists h l fun k hk => hl k (by simp [hk])
    obtain ⟨t, ht⟩ := den_exists h n.id (List.mem_map.2 ⟨n, hl n (by simp), rfl⟩)
    exact ⟨t :: ts, by simp only [DenN]; exact ⟨ht, hts⟩⟩

theorem denN_mem {ns : List Node} : ∀ {l : List Node} {ts : List (Tree Nat)}, DenN ns l ts →
    ∀ u, u ∈ ts ↔ ∃ n ∈ l, Den ns n.id u ∧ u ∈ ts
  | [], [], _, u => by simp
  | n :: l, t :: ts, hd, u => by
    simp only [DenN] at hd
    have ih := denN_mem hd.2 u
    constructor
    · intro hu
      rcases List.mem_cons.1 hu with rfl | hu
      · exact ⟨n, by simp, hd.1, by simp⟩
      · obtain ⟨k, hk, h1, h2⟩ := ih.1 hu
        exact ⟨k, by simp [hk], h1, by simp [h2]⟩
    · rintro ⟨_, _, _, h⟩
      exact h
  | [], _ :: _, hd, _ => by simp only [DenN] at hd
  | _ :: _, [], hd, _ => by simp only [DenN] at hd

theorem denN_mem' {ns : List Node} (hids : (ns.map Node.id).Nodup) : ∀ {l : List Node} {ts : List (Tree Nat)},
    DenN ns l ts → ∀ n ∈ l, ∀ u, Den ns n.id u → u ∈ ts
  | [], [], _, n, hn, _, _ => by simp at hn
  | k :: l, t :: ts, hd, n, hn, u, hu => by
    simp only [DenN] at hd
    rcases List.mem_cons.1 hn with rfl | hn
    · rw [den_unique hids _ _ _ hu hd.1]; simp
    · exact List.mem_cons_of_mem _ (denN_mem' hids hd.2 n hn u hu)
  | [], _ :: _, hd, _, _, _, _ => by simp only [DenN] at hd
  | _ :: _, [], hd, _, _, _, _ => by simp only [DenN] at hd

theorem denN_nodup {ns : List Node} (hk : ∀ a ∈ ns, ∀ b ∈ ns, a.tok = b.tok → a.args = b.args → a.id = b.id) :
    ∀ {l : List Node} {ts : List (Tree Nat)}, DenN ns l ts → (l.map Node.id).Nodup → ts.Nodup
  | [], [], _, _ => by simp
  | n :: l, t :: ts, hd, hn => by
    simp only [DenN] at hd
    simp only [List.map_cons, List.nodup_cons] at hn ⊢
    refine ⟨fun ht => ?_, denN_nodup hk hd.2 hn.2⟩
    obtain ⟨k, hkl, hkt, _⟩ := (denN_mem hd.2 t).1 ht
    exact hn.1 (List.mem_map.2 ⟨k, hkl, den_inj hk _ _ _ hkt hd.1⟩)
  | [], _ :: _, hd, _ => by simp only [DenN] at hd
  | _ :: _, [], hd, _ => by simp only [DenN] at hd

open Classical in
theorem denN_count {ns : List Node} (hids : (ns.map Node.id).Nodup)
    (hk : ∀ a ∈ ns, ∀ b ∈ ns, a.tok = b.tok → a.args = b.args → a.id = b.id) {i : Nat} {t : Tree Nat}
    (hi : Den ns i t) : ∀ {l : List Node} {ts : List (Tree Nat)}, (∀ n ∈ l, n ∈ ns) → DenN ns l ts →
    (allArgs l).count i = (ts.flatMap Tree.args).count t
  | [], [], _, _ => by simp [allArgs]
  | n :: l, u :: ts, hl, hd => by
    simp only [DenN] at hd
    have ih := denN_count hids hk hi (fun k hk => hl k (by simp [hk])) hd.2
    rw [allArgs_cons, List.count_append, ih, List.flatMap_cons, List.count_append]
    congr 1
    obtain ⟨tok, us⟩ := u
    have hu := hd.1
    simp only [Den] at hu
    obtain ⟨k, hkn, e1, _, e3⟩ := hu
    obtain rfl := id_inj hids hkn (hl n (by simp)) e1
    exact denL_count hids hk hi e3
  | [], _ :: _, _, hd => by simp only [DenN] at hd
  | _ :: _, [], _, hd => by simp only [DenN] at hd

/-- The different formulas that occur in the variables. -/
def Alive (e : Env) (us : List (Tree Nat)) : Prop :=
  us.Nodup ∧ ∀ u, u ∈ us ↔ ∃ p ∈ e, ∃ t, p.2 = some t ∧ Within u t

theorem alive_nodes {s : St} {e : Env} (hi : Inv False s e) : ∃ us, DenN s.mem.nodes s.mem.nodes us ∧ Alive e us := by
  obtain ⟨us, hus⟩ := denN_exists hi.cons s.mem.nodes fun _ h => h
  refine ⟨us, hus, denN_nodup hi.cons.keys hus hi.cons.ids, fun u => ⟨fun hu => ?_, fun ⟨p, hp, t, ht, hw⟩ => ?_⟩⟩
  · obtain ⟨n, hn, hd, _⟩ := (denN_mem hus u).1 hu
    obtain ⟨u', hu', h⟩ := reached hi _ n hn (le_refl _)
    rw [den_unique hi.cons.ids _ _ _ hd hu']
    exact h
  · obtain ⟨i, hd⟩ := agree_refs' hi.agree p hp t ht
    obtain ⟨j, hj⟩ := within_den hw i hd
    obtain ⟨n, hn, rfl⟩ := List.mem_map.1 (den_mem hj)
    exact denN_mem' hi.cons.ids hus n hn u hj

theorem alive_perm {e : Env} {us vs : List (Tree Nat)} (h : Alive e us) (h' : Alive e vs) : us.Perm vs :=
  (List.perm_ext_iff_of_nodup h.1 h'.1).2 fun u => (h.2 u).trans (h'.2 u).symm

open Classical in
/-- The references to a formula: variables that hold it, and places as an argument of a formula that occurs. -/
noncomputable def refsTo (e : Env) (us : List (Tree Nat)) (t : Tree Nat) : Nat :=
  (e.map Prod.snd).count (some t) + (us.flatMap Tree.args).count t

theorem cnt_eq {s : St} {e : Env} (hi : Inv False s e) {us : List (Tree Nat)} (hus : DenN s.mem.nodes s.mem.nodes us)
    {n : Node} (hn : n ∈ s.mem.nodes) {t : Tree Nat} (ht : Den s.mem.nodes n.id t) : n.cnt = refsTo e us t := by
  rw [hi.cons.count n hn, refsTo, agree_count hi.cons.ids hi.cons.keys ht hi.agree,
    denN_count hi.cons.ids hi.cons.keys ht (fun _ h => h) hus]

open Classical in
theorem refsTo_perm {e : Env} {us vs : List (Tree Nat)} (h : us.Perm vs) (t : Tree Nat) : refsTo e us t = refsTo e vs t := by
  rw [refsTo, refsTo, (h.flatMap_right Tree.args).count_eq]

/-- C363 (reference count): `refcount()` of a variable is the number of variables with the same formula and of the
places that formula has as an argument in the different formulas alive. -/
theorem C363_refcount (ops : List Op) (s : St) (e : Env) (h : St.init.run ops = .done s) (he : Env.run [] ops = some e)
    (us : List (Tree Nat)) (hus : Alive e us) (v : Nat) (t : Tree Nat) (hv : e.lookup v = some (some t)) :
    s.refcount v = some (refsTo e us t) := by
  obtain ⟨e', he', hi⟩ := inv_of_run h
  rw [he] at he'; cases he'
  obtain ⟨vs, hvs, hal⟩ := alive_nodes hi
  rw [refsTo_perm (alive_perm hus hal) t]
  cases hl : s.vars.lookup v with
  | none => rw [agree_lookup_none hi.agree hl] at hv; cases hv
  | some a =>
    obtain ⟨y, hy, hav⟩ := agree_lookup hi.agree hl
    rw [hv] at hy; cases hy
    cases a with
    | none => simp only [AgreeV] at hav
    | some i =>
      simp only [AgreeV] at hav
      obtain ⟨n, hn, rfl⟩ := List.mem_map.1 (den_mem hav)
      have hf : s.mem.find n.id = some n := find_of_mem hi.cons.ids hn
      simp only [St.refcount, hl, hf, Option.map_some]
      rw [cnt_eq hi hvs hn hav]

theorem tokSum_eq {s : St} {e : Env} (hi : Inv False s e) {us : List (Tree Nat)}
    (hus : DenN s.mem.nodes s.mem.nodes us) (tok : Nat) : ∀ {l : List Node} {ts : List (Tree Nat)},
    (∀ n ∈ l, n ∈ s.mem.nodes) → DenN s.mem.nodes l ts →
    tokSum tok l = (ts.map fun t => if t.token = tok then refsTo e us t else 0).sum
  | [], [], _, _ => by simp [tokSum]
  | n :: l, t :: ts, hl, hd => by
    simp only [DenN] at hd
    have ih := tokSum_eq hi hus tok (fun k hk => hl k (by simp [hk])) hd.2
    rw [tokSum_cons, ih, List.map_cons, List.sum_cons, cnt_eq hi hus (hl n (by simp)) hd.1]
    congr 1
    obtain ⟨tk, us⟩ := t
    have hu := hd.1
    simp only [Den] at hu
    obtain ⟨k, hkn, e1, e2, _⟩ := hu
    obtain rfl := id_inj hi.cons.ids hkn (hl n (by simp)) e1
    rw [e2]
    rfl
  | [], _ :: _, _, hd => by simp only [DenN] at hd
  | _ :: _, [], _, hd => by simp only [DenN] at hd

/-- C363 (token statistics): `token_count` of a token is the number of references to the different formulas alive
that start with it. -/
theorem C363_tokens (ops : List Op) (s : St) (e : Env) (h : St.init.run ops = .done s) (he : Env.run [] ops = some e)
    (us : List (Tree Nat)) (hus : Alive e us) (tok : Nat) :
    s.mem.tokens tok = (us.map fun t => if t.token = tok then refsTo e us t else 0).sum := by
  obtain ⟨e', he', hi⟩ := inv_of_run h
  rw [he] at he'; cases he'
  obtain ⟨vs, hvs, hal⟩ := alive_nodes hi
  rw [hi.cons.toks tok, tokSum_eq hi hvs tok (fun _ h => h) hvs, ((alive_perm hus hal).map _).sum_eq]
  congr 1
  apply List.map_congr_left
  intro t _
  rw [refsTo_perm (alive_perm hus hal) t]

/-- C363 (a variable assigned one of its own arguments): when nothing else refers to the formula, the argument is
read after it is gone. -/
theorem C363_own_argument : St.init.runAny [.leaf 0 7, .make 1 8 [0], .destroy 0, .assignArg 1 1 0] = none ∧
    (St.init.runAny [.leaf 0 7, .make 1 8 [0], .destroy 0]).isSome ∧
    (St.init.runAny [.leaf 0 7, .make 1 8 [0], .destroy 0, .copy 2 1, .assignArg 1 1 0]).isSome := by
  decide +kernel

/-! ### C364 -/

theorem stats_of_run {strict : Prop} {ops : List Op} {s : St} {e : Env} (h : St.init.run ops = .done s)
    (he : Env.run [] ops = some e) (hp : strict → ∀ op ∈ ops, properOp op = true) {v : Nat} {t : Tree Nat}
    (hv : e.lookup v = some (some t)) :
    ∃ n, s.size v = some n.size ∧ s.depth v = some n.depth ∧ Stats strict t n := by
  rcases run_inv (ops := ops) (inv_init strict) hp with h' | ⟨s', e', k1, k2, hi⟩
  · rw [h] at h'; cases h'
  rw [h] at k1; cases k1
  rw [he] at k2; cases k2
  cases hl : s.vars.lookup v with
  | none => rw [agree_lookup_none hi.agree hl] at hv; cases hv
  | some a =>
    obtain ⟨y, hy, hav⟩ := agree_lookup hi.agree hl
    rw [hv] at hy; cases hy
    cases a with
    | none => simp only [AgreeV] at hav
    | some i =>
      simp only [AgreeV] at hav
      obtain ⟨n, hn, rfl⟩ := List.mem_map.1 (den_mem hav)
      have hf : s.mem.find n.id = some n := find_of_mem hi.cons.ids hn
      exact ⟨n, by simp only [St.size, hl, hf, Option.map_some], by simp only [St.depth, hl, hf, Option.map_some],
        hi.stats n hn t hav⟩

/-- C364 (size): `size()` is the number of nodes of the formula written out, shared parts counted each time. -/
theorem C364_size (ops : List Op) (s : St) (e : Env) (h : St.init.run ops = .done s) (he : Env.run [] ops = some e)
    (v : Nat) (t : Tree Nat) (hv : e.lookup v = some (some t)) : s.size v = some t.size := by
  obtain ⟨n, h1, _, h3⟩ := stats_of_run (strict := False) h he (fun h => h.elim) hv
  rw [h1, h3.1]

/-- C364 (depth, always): `depth()` is the number of levels of the formula, or one more. -/
theorem C364_depth_bounds (ops : List Op) (s : St) (e : Env) (h : St.init.run ops = .done s)
    (he : Env.run [] ops = some e) (v : Nat) (t : Tree Nat) (hv : e.lookup v = some (some t)) :
    ∃ d, s.depth v = some d ∧ height t ≤ d ∧ d ≤ height t + 1 := by
  obtain ⟨n, _, h2, h3⟩ := stats_of_run (strict := False) h he (fun h => h.elim) hv
  exact ⟨n.depth, h2, h3.2.1, h3.2.2.1⟩

/-- C364 (depth): it is the number of levels when no leaf is made with an empty vector of arguments. -/
theorem C364_depth (ops : List Op) (s : St) (e : Env) (h : St.init.run ops = .done s) (he : Env.run [] ops = some e)
    (hp : ∀ op ∈ ops, properOp op = true) (v : Nat) (t : Tree Nat) (hv : e.lookup v = some (some t)) :
    s.depth v = some (height t) := by
  obtain ⟨n, _, h2, h3⟩ := stats_of_run (strict := True) h he (fun _ => hp) hv
  rw [h2, h3.2.2.2 trivial]

/-- The depth of a variable after a program. -/
def depthAfter (ops : List Op) (v : Nat) : Option Nat :=
  match St.init.run ops with
  | .done s => s.depth v
  | _ => none

/-- C364 (depth of a leaf made with an empty vector): two, and then every equal leaf has it, as long as the node is
kept. -/
theorem C364_depth_history :
    depthAfter [.leaf 0 7] 0 = some 1 ∧ depthAfter [.make 0 7 []] 0 = some 2 ∧
    depthAfter [.make 0 7 [], .leaf 1 7] 1 = some 2 ∧ depthAfter [.leaf 1 7, .make 0 7 []] 0 = some 1 ∧
    depthAfter [.make 0 7 [], .destroy 0, .leaf 1 7] 1 = some 1 := by
  decide +kernel

/-! ### A case that meets the hypotheses -/

/-- Two variables built in different ways, equal, one assigned an argument of the other. -/
def demo : List Op :=
  [.leaf 0 7, .make 1 8 [0, 0], .leaf 2 7, .make 3 8 [2, 0], .copy 4 3, .assignArg 4 1 1, .destroy 2, .empty 5,
    .assign 5 3]

example : Env.run [] demo = some
    [(5, some (.node 8 [.node 7 [], .node 7 []])), (4, some (.node 7 [])),
      (3, some (.node 8 [.node 7 [], .node 7 []])), (1, some (.node 8 [.node 7 [], .node 7 []])),
      (0, some (.node 7 []))] := rfl

/-- Whether a program ends by the rules in a state with a property. -/
def endsIn (ops : List Op) (P : St → Bool) : Bool :=
  match St.init.run ops with
  | .done s => P s
  | _ => false

example : endsIn demo (fun s => s.equal 1 3 == some true && s.equal 1 4 == some false && s.refcount 1 == some 3 &&
    s.refcount 0 == some 4 && s.size 3 == some 3 && s.depth 3 == some 2 && s.mem.nodes.length == 2 &&
    s.mem.tokens 7 == 4 && s.mem.tokens 8 == 3) = true := by decide +kernel

end Paradiseo.MathSym.Dag

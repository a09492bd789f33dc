import Verif.Lemmas.MoeoHv2Vol
/-
C159: the bounded archive of two minimised objectives keeping the largest dominated area.

The specification speaks of the objectives of the members only: weak dominance in both objectives,
the area (Lebesgue measure) dominated by a set of points up to a reference corner, and what is lost of
this area when one point is taken away.
-/
namespace Paradiseo.Moeo.Hv2

variable {F : Type} [Field F] [LinearOrder F]

/-- `a` is at least as good as `b` in both (minimised) objectives. -/
def WeakDom (a b : F × F) : Prop := a.1 ≤ b.1 ∧ a.2 ≤ b.2

/-- The points of `s` no other point of `s` is at least as good as. -/
def Best (s : List (F × F)) (c : F × F) : Prop := c ∈ s ∧ ∀ d ∈ s, WeakDom d c → d = c

theorem front_antichain (l : List (Pt F)) (h : Front l) (a b : Pt F) (ha : a ∈ l) (hb : b ∈ l)
    (hd : WeakDom (xy a) (xy b)) : a = b := by
  by_contra hne
  obtain ⟨i, hi, rfl⟩ := List.getElem_of_mem ha
  obtain ⟨j, hj, rfl⟩ := List.getElem_of_mem hb
  rw [Front, List.pairwise_iff_getElem] at h
  rcases Nat.lt_trichotomy i j with hij | rfl | hij
  · exact absurd hd.1 (not_le.2 (h i j hi hj hij).2)
  · exact hne rfl
  · exact absurd hd.2 (not_le.2 (h j i hj hi hij).1)

section
variable [IsStrictOrderedRing F]

/-- Whatever is offered, as long as nothing undefined happened: no member is at least as good as
another one (in particular no duplicates), at most the declared number of members, and they are stored
in increasing order of the second objective. -/
theorem C159_front (mx : F) (maxSize : Nat) (ps : List (Pt F)) (r : Bool) (l : List (Pt F))
    (h : feed mx (capacity maxSize) ps (false, []) = some (r, l)) :
    l.length ≤ max 2 maxSize ∧
      (∀ i j : Nat, ∀ a b, l[i]? = some a → l[j]? = some b → WeakDom (xy a) (xy b) → i = j) ∧
      l.Pairwise (fun a b => a.y < b.y) := by
  have hok := feed_ok mx (capacity maxSize) (le_max_left _ _) ps _ _ _ _ (ok_nil mx _) h
  refine ⟨hok.2.2, ?_, hok.1.imp fun h => h.1⟩
  intro i j a b ha hb hd
  obtain ⟨hi, rfl⟩ := List.getElem?_eq_some_iff.1 ha
  obtain ⟨hj, rfl⟩ := List.getElem?_eq_some_iff.1 hb
  have hp := List.pairwise_iff_getElem.1 hok.1
  rcases Nat.lt_trichotomy i j with hij | rfl | hij
  · exact absurd hd.1 (not_le.2 (hp i j hi hj hij).2)
  · rfl
  · exact absurd hd.2 (not_le.2 (hp j i hj hi hij).1)

/-- The hypothesis is met: three offers to an archive of two. -/
example : feed (100 : ℚ) (capacity 2) [⟨1, 3, 0⟩, ⟨3, 1, 0⟩, ⟨0, 4, 0⟩] (false, []) =
    some (true, [⟨3, 1, 100⟩, ⟨0, 4, 100⟩]) := by decide +kernel

/-- Every member but the first and the last carries exactly the area that would be lost without it,
for any reference corner; the first and the last carry the large value. -/
theorem C159_fitness (mx : F) (maxSize : Nat) (ps : List (Pt F)) (r : Bool) (l : List (Pt F))
    (h : feed mx (capacity maxSize) ps (false, []) = some (r, l)) (i : Nat) (p : Pt F)
    (hp : l[i]? = some p) :
    ((i = 0 ∨ i + 1 = l.length) → p.fit = mx) ∧
      (0 < i → i + 1 < l.length → ∀ rx ry : F, p.fit = vol ry rx l - vol ry rx (l.eraseIdx i)) := by
  have hok := feed_ok mx (capacity maxSize) (le_max_left _ _) ps _ _ _ _ (ok_nil mx _) h
  have hf := hok.2.1 i p hp
  refine ⟨?_, ?_⟩
  · rintro (rfl | hi)
    · exact hf
    · rw [hf, area_last _ _ _ (by omega)]
  · intro h0 h1 rx ry
    obtain ⟨k, rfl⟩ : ∃ k, i = k + 1 := ⟨i - 1, by omega⟩
    rw [vol_erase mx ry l k (by omega), hf]; ring

/-- The sum of slices used above is the area dominated by the members, in the sense of measure. -/
theorem C159_area (rx ry : ℝ) (mx : ℝ) (maxSize : Nat) (ps : List (Pt ℝ)) (r : Bool) (l : List (Pt ℝ))
    (h : feed mx (capacity maxSize) ps (false, []) = some (r, l))
    (hb : ∀ p ∈ l, p.x ≤ rx ∧ p.y ≤ ry) :
    MeasureTheory.volume {z : ℝ × ℝ | ∃ p ∈ l, p.x ≤ z.1 ∧ p.y ≤ z.2 ∧ z.1 < rx ∧ z.2 < ry} =
      ENNReal.ofReal (vol ry rx l) :=
  (vol_is_area ry l rx (feed_ok mx (capacity maxSize) (le_max_left _ _) ps _ _ _ _ (ok_nil mx _) h).1 hb).1

theorem step_defined (mx : F) (ms : Nat) (l : List (Pt F)) (p : Pt F)
    (hF : Front l) (hl : l.length < ms) : ∃ t l', step mx ms l p = some (t, l') := by
  unfold step
  split_ifs with h0
  · exact ⟨_, _, rfl⟩
  · rcases hp : place l p with _ | ⟨h, l1⟩
    · exact ⟨_, _, rfl⟩
    · obtain ⟨pre, mid, post, rfl, rfl, rfl, -, -⟩ := place_some l p hF h l1 hp
      have : (pre ++ post).length < ms := by
        simp at hl ⊢; omega
      simp only [this, if_true]
      split_ifs
      · exact ⟨_, _, rfl⟩
      · exact ⟨_, _, rfl⟩

/-- Invariant of an archive which never had to forget. -/
structure Covers (s : List (F × F)) (l : List (Pt F)) : Prop where
  sub : ∀ a ∈ l, xy a ∈ s
  cov : ∀ c ∈ s, ∃ a ∈ l, WeakDom (xy a) c

theorem step_covers (mx : F) (ms : Nat) (hms : 2 ≤ ms) (l : List (Pt F)) (p : Pt F) (t : Bool)
    (l' : List (Pt F)) (s : List (F × F)) (hok : Ok mx ms l) (hl : l.length < ms) (hc : Covers s l)
    (hs : step mx ms l p = some (t, l')) : Covers (xy p :: s) l' ∧ l'.length ≤ l.length + 1 := by
  obtain ⟨-, ho⟩ := step_spec mx ms hms l p t l' hok hs
  rcases ho with ⟨rfl, rfl, a, ha, hax, hay⟩ | ⟨pre, mid, post, rfl, hm, hF, ho⟩
  · refine ⟨⟨fun a ha => List.mem_cons_of_mem _ (hc.sub a ha), fun c hcm => ?_⟩, by omega⟩
    rcases List.mem_cons.1 hcm with rfl | hcm
    · exact ⟨a, ha, hax, hay⟩
    · exact hc.cov c hcm
  · rcases ho with ⟨rfl, -, he⟩ | ⟨rfl, hlen, -⟩
    · have key (c : F × F) : (∃ a ∈ l', xy a = c) ↔ ∃ a ∈ pre ++ p :: post, xy a = c := by
        rw [← List.mem_map, ← List.mem_map, he]
      refine ⟨⟨fun a ha => ?_, fun c hcm => ?_⟩, ?_⟩
      · obtain ⟨b, hb, hba⟩ := (key (xy a)).1 ⟨a, ha, rfl⟩
        rw [← hba]
        rcases List.mem_append.1 hb with hb | hb
        · exact List.mem_cons_of_mem _ (hc.sub b (by simp [hb]))
        · rcases List.mem_cons.1 hb with rfl | hb
          · simp
          · exact List.mem_cons_of_mem _ (hc.sub b (by simp [hb]))
      · have hp' : ∃ a ∈ l', xy a = xy p := (key (xy p)).2 ⟨p, by simp, rfl⟩
        rcases List.mem_cons.1 hcm with rfl | hcm
        · obtain ⟨a, ha, e⟩ := hp'
          exact ⟨a, ha, by rw [e]; exact ⟨le_refl _, le_refl _⟩⟩
        · obtain ⟨b, hb, hbc⟩ := hc.cov c hcm
          rw [List.append_assoc, List.mem_append, List.mem_append] at hb
          have hcase : b ∈ mid ∨ b ∈ pre ++ p :: post := by
            rcases hb with hb | hb | hb
            · right; simp [hb]
            · left; exact hb
            · right; simp [hb]
          rcases hcase with hb | hb
          · obtain ⟨a, ha, e⟩ := hp'
            have := hm b hb
            exact ⟨a, ha, by rw [e]; exact ⟨this.1.trans hbc.1, this.2.trans hbc.2⟩⟩
          · obtain ⟨a, ha, e⟩ := (key (xy b)).2 ⟨b, hb, rfl⟩
            exact ⟨a, ha, by rw [e]; exact hbc⟩
      · have := congrArg List.length he
        simp at this ⊢
        omega
    · simp at hlen hl; omega

theorem feed_covers (mx : F) (ms : Nat) (hms : 2 ≤ ms) (ps : List (Pt F)) : ∀ (r : Bool)
    (l : List (Pt F)) (s : List (F × F)), Ok mx ms l → Covers s l → l.length + ps.length ≤ ms →
    ∃ r' l', feed mx ms ps (r, l) = some (r', l') ∧ Ok mx ms l' ∧
      Covers ((ps.map xy).reverse ++ s) l' := by
  induction ps with
  | nil => intro r l s hok hc hl; exact ⟨r, l, rfl, hok, by simpa using hc⟩
  | cons p ps ih =>
    intro r l s hok hc hl
    have hl' : l.length < ms := by simp at hl; omega
    obtain ⟨t, l1, h1⟩ := step_defined mx ms l p hok.1 hl'
    obtain ⟨hc1, hlen⟩ := step_covers mx ms hms l p t l1 s hok hl' hc h1
    obtain ⟨r', l', h2, h3, h4⟩ := ih (t || r) l1 _ (step_spec mx ms hms l p t l1 hok h1).1 hc1
      (by simp at hl; omega)
    refine ⟨r', l', by simp only [feed, h1]; exact h2, h3, ?_⟩
    simpa using h4

/-- With room for every offer nothing undefined happens and the archive holds exactly the best of all
points ever offered. -/
theorem C159_unbounded (mx : F) (maxSize : Nat) (ps : List (Pt F)) (hroom : ps.length ≤ maxSize) :
    ∃ r l, feed mx (capacity maxSize) ps (false, []) = some (r, l) ∧
      ∀ c : F × F, (∃ a ∈ l, xy a = c) ↔ Best (ps.map xy) c := by
  obtain ⟨r, l, h1, h2, h3⟩ := feed_covers mx (capacity maxSize) (le_max_left _ _) ps false [] []
    (ok_nil mx _) ⟨by simp, by simp⟩ (by simpa [capacity] using Or.inr hroom)
  refine ⟨r, l, h1, fun c => ⟨?_, ?_⟩⟩
  · rintro ⟨a, ha, rfl⟩
    refine ⟨by simpa using h3.sub a ha, fun d hd hda => ?_⟩
    obtain ⟨b, hb, hbd⟩ := h3.cov d (by simpa using hd)
    have : b = a := front_antichain l h2.1 b a hb ha ⟨hbd.1.trans hda.1, hbd.2.trans hda.2⟩
    subst this
    exact Prod.ext (le_antisymm hda.1 hbd.1) (le_antisymm hda.2 hbd.2)
  · rintro ⟨hc, hmin⟩
    obtain ⟨b, hb, hbc⟩ := h3.cov c (by simpa using hc)
    exact ⟨b, hb, hmin _ (by simpa using h3.sub b hb) hbc⟩

/-- Five offers with room for five. -/
example : feed (100 : ℚ) (capacity 5) [⟨1, 3, 0⟩, ⟨3, 1, 0⟩, ⟨2, 2, 0⟩, ⟨2, 3, 0⟩, ⟨1, 2, 0⟩] (false, []) =
    some (true, [⟨3, 1, 100⟩, ⟨1, 2, 100⟩]) := by decide +kernel

/-- The answer is "accepted" exactly when the point is in the archive afterwards and was not before;
a refused point leaves the archive as it was. -/
theorem C159_answer (mx : F) (maxSize : Nat) (l : List (Pt F)) (p : Pt F) (t : Bool) (l' : List (Pt F))
    (hok : Ok mx (capacity maxSize) l) (hs : step mx (capacity maxSize) l p = some (t, l')) :
    (t = true ↔ xy p ∈ l'.map xy ∧ xy p ∉ l.map xy) ∧ (t = false → l' = l) := by
  have hms : 2 ≤ capacity maxSize := le_max_left _ _
  obtain ⟨hok', ho⟩ := step_spec mx _ hms l p t l' hok hs
  rcases ho with ⟨rfl, rfl, a, ha, hax, hay⟩ | ⟨pre, mid, post, rfl, hm, hF, ho⟩
  · refine ⟨⟨by simp, fun h => absurd h.1 h.2⟩, fun _ => rfl⟩
  · have hnotin : xy p ∉ (pre ++ post).map xy := by
      intro h
      obtain ⟨a, ha, e⟩ := List.mem_map.1 h
      have hap : a ∈ pre ∨ a ∈ post := by simpa using ha
      rw [Front, List.pairwise_append, List.pairwise_cons] at hF
      rcases hap with h | h
      · have := (hF.2.2 a h p (by simp)).1
        rw [show a.y = p.y from congrArg Prod.snd e] at this
        exact lt_irrefl _ this
      · have := (hF.2.1.1 a h).1
        rw [show a.y = p.y from congrArg Prod.snd e] at this
        exact lt_irrefl _ this
    have hnm : xy p ∉ (pre ++ mid ++ post).map xy := by
      intro h
      obtain ⟨a, ha, e⟩ := List.mem_map.1 h
      have hcase : a ∈ mid ∨ a ∈ pre ++ post := by simp at ha ⊢; tauto
      rcases hcase with h' | h'
      · -- a member equal to the newcomer is refused
        obtain ⟨h0, hp0⟩ : (pre ++ mid ++ post).length ≠ 0 ∧
            ∃ h l1, place (pre ++ mid ++ post) p = some (h, l1) := by
          refine ⟨by have := List.length_pos_of_mem ha; omega, ?_⟩
          rcases hpl : place (pre ++ mid ++ post) p with _ | ⟨h1, l1⟩
          · exfalso
            unfold step at hs
            rw [if_neg (by have := List.length_pos_of_mem ha; omega), hpl] at hs
            simp only [Option.some.injEq, Prod.mk.injEq] at hs
            obtain ⟨rfl, rfl⟩ := hs
            rcases ho with ⟨h, _⟩ | ⟨rfl, -⟩
            · cases h
            · simp at h'
          · exact ⟨h1, l1, rfl⟩
        obtain ⟨h1, l1, hp1⟩ := hp0
        -- the elements before the place are strictly before, those after strictly after
        unfold place at hp1
        simp only [] at hp1
        split_ifs at hp1 with hacc
        have hle : a ∈ (pre ++ mid ++ post).takeWhile (fun b => !compLt p b) := by
          have hsort := hok.1
          have hspl : (pre ++ mid ++ post).takeWhile (fun b => !compLt p b) ++
              (pre ++ mid ++ post).dropWhile (fun b => !compLt p b) = pre ++ mid ++ post :=
            List.takeWhile_append_dropWhile
          rw [← hspl, List.mem_append] at ha
          rcases ha with ha | ha
          · exact ha
          · exfalso
            rcases hd : (pre ++ mid ++ post).dropWhile (fun b => !compLt p b) with _ | ⟨r0, rs⟩
            · rw [hd] at ha; simp at ha
            · have hr0 : compLt p r0 = true := by
                have := List.head?_dropWhile_not (fun b => !compLt p b) (pre ++ mid ++ post)
                rw [hd] at this
                simpa using this
              rw [← hspl, hd, Front, List.pairwise_append, List.pairwise_cons] at hsort
              rw [hd] at ha
              have e1 : a.x = p.x := congrArg Prod.fst e
              have e2 : a.y = p.y := congrArg Prod.snd e
              simp only [compLt, Bool.or_eq_true, Bool.and_eq_true, decide_eq_true_eq] at hr0
              rcases List.mem_cons.1 ha with rfl | ha
              · rw [e1, e2] at hr0
                rcases hr0 with h | ⟨_, h⟩ <;> exact lt_irrefl _ h
              · have := (hsort.2.1.1 a ha).1
                rw [e2] at this
                rcases hr0 with h | ⟨h, _⟩
                · exact lt_asymm h this
                · rw [h] at this; exact lt_irrefl _ this
        have hsp := place_some (pre ++ mid ++ post) p hok.1 h1 l1 (by
          unfold place; simp only []; rw [if_pos hacc]; simpa using hp1)
        obtain ⟨pre', mid', post', e1, e2, e3, -, hF'⟩ := hsp
        simp only [Option.some.injEq, Prod.mk.injEq] at hp1
        have hpre : pre' = (pre ++ mid ++ post).takeWhile (fun b => !compLt p b) := by
          have := (upper_split (pre ++ mid ++ post) p).1
          rw [hp1.1, e3, e1, List.append_assoc, List.take_left' rfl] at this
          rw [← List.append_assoc, ← e1] at this
          exact this
        rw [← hpre] at hle
        rw [Front, List.pairwise_append] at hF'
        have := (hF'.2.2 a hle p (by simp)).1
        rw [show a.y = p.y from congrArg Prod.snd e] at this
        exact lt_irrefl _ this
      · exact hnotin (List.mem_map.2 ⟨a, h', e⟩)
    rcases ho with ⟨rfl, -, he⟩ | ⟨rfl, hlen, ho⟩
    · refine ⟨⟨fun _ => ⟨by rw [he]; simp, hnm⟩, fun _ => rfl⟩, by simp⟩
    · rcases ho with ⟨rfl, k, hk0, hk1, hk2, he, -, -⟩ | ⟨rfl, rfl, -⟩
      · refine ⟨⟨fun _ => ⟨?_, hnm⟩, fun _ => rfl⟩, by simp⟩
        rw [he]
        apply List.mem_map_of_mem
        rw [List.mem_eraseIdx_iff_getElem?]
        exact ⟨pre.length, hk2.symm, ins_get_eq pre post p⟩
      · exact ⟨⟨by simp, fun h => absurd h.1 h.2⟩, fun _ => rfl⟩

/-- A full archive takes a point by giving up the member (never the first, the last or the newcomer)
whose loss costs the least area among all members and the newcomer; it refuses a point which no member
is at least as good as only when the newcomer itself costs least. `b` is the archive with the newcomer
in its place. -/
theorem C159_full (mx : F) (maxSize : Nat) (l : List (Pt F)) (p : Pt F) (t : Bool) (l' : List (Pt F))
    (hok : Ok mx (capacity maxSize) l) (hfull : l.length = capacity maxSize)
    (hnew : ∀ a ∈ l, ¬ WeakDom (xy a) (xy p) ∧ ¬ WeakDom (xy p) (xy a))
    (hs : step mx (capacity maxSize) l p = some (t, l')) (rx ry : F) :
    ∃ pre post, l = pre ++ post ∧ Front (pre ++ p :: post) ∧
      let b := pre ++ p :: post
      let loss := fun i => vol ry rx b - vol ry rx (b.eraseIdx i)
      (t = true → ∃ k : Nat, 0 < k ∧ k < l.length ∧ k ≠ pre.length ∧ l'.map xy = (b.eraseIdx k).map xy ∧
        ∀ i : Nat, 0 < i → i < l.length → loss k ≤ loss i) ∧
      (t = false → l' = l ∧ ∀ i : Nat, 0 < i → i < l.length → loss pre.length ≤ loss i) := by
  have hms : 2 ≤ capacity maxSize := le_max_left _ _
  obtain ⟨hok', ho⟩ := step_spec mx _ hms l p t l' hok hs
  rcases ho with ⟨rfl, rfl, a, ha, hax, hay⟩ | ⟨pre, mid, post, rfl, hm, hF, ho⟩
  · exact absurd ⟨hax, hay⟩ (hnew a ha).1
  · have hmid : mid = [] := by
      rcases mid with _ | ⟨a, mid⟩
      · rfl
      · exact absurd (hm a (by simp)) (hnew a (by simp)).2
    subst hmid
    rw [List.append_nil] at hfull ⊢
    refine ⟨pre, post, rfl, hF, ?_⟩
    have hlb : (pre ++ p :: post).length = capacity maxSize + 1 := by
      simp at hfull ⊢; omega
    have hloss (i : Nat) (h0 : 0 < i) (h1 : i < (pre ++ post).length) :
        vol ry rx (pre ++ p :: post) - vol ry rx ((pre ++ p :: post).eraseIdx i) =
          area mx (pre ++ p :: post) i := by
      obtain ⟨k, rfl⟩ : ∃ k, i = k + 1 := ⟨i - 1, by omega⟩
      rw [vol_erase mx ry _ k (by omega)]; ring
    rcases ho with ⟨rfl, hlt, -⟩ | ⟨-, hlen, ho⟩
    · omega
    · rcases ho with ⟨rfl, k, hk0, hk1, hk2, he, hkm, hmin⟩ | ⟨rfl, rfl, hmin⟩
      · refine ⟨fun _ => ⟨k, by omega, by omega, hk2, he, fun i h0 h1 => ?_⟩, by simp⟩
        simp only []
        rw [hloss i h0 h1, hloss k (by omega) (by omega)]
        exact hmin i (by omega)
      · refine ⟨by simp, fun _ => ⟨by simp, fun i h0 h1 => ?_⟩⟩
        have hext : pre.length ≠ 0 ∧ pre.length ≠ (pre ++ post).length := by
          by_contra hc
          -- a newcomer at an end is never refused
          have hc' : pre.length = 0 ∨ pre.length = (pre ++ post).length := by omega
          have h2 := hs
          unfold step at h2
          rw [List.append_nil, if_neg (by omega)] at h2
          have hpl : place (pre ++ post) p ≠ none := by
            intro hn
            obtain ⟨a, ha, hax, hay⟩ := place_none _ _ hn
            exact (hnew a (by simpa using ha)).1 ⟨hax, hay⟩
          rcases hpe : place (pre ++ post) p with _ | ⟨h1', l1⟩
          · exact hpl hpe
          · have hF0 : Front (pre ++ post) := by simpa using hok.1
            obtain ⟨pre', mid', post', e1, e2, e3, e4, hF'⟩ := place_some _ p hF0 h1' l1 hpe
            have hm' : mid' = [] := by
              rcases mid' with _ | ⟨a, mid'⟩
              · rfl
              · exact absurd (e4 a (by simp)) (hnew a (by simp [e1])).2
            subst hm'
            rw [List.append_nil] at e1
            have hpp : pre'.length = pre.length := by
              have s1 := hF
              have s2 := hF'
              rw [Front, List.pairwise_append, List.pairwise_cons] at s1 s2
              rcases Nat.lt_trichotomy pre'.length pre.length with hlt | h | hlt
              · exfalso
                have hm1 : pre[pre'.length] ∈ post' := by
                  have : (pre' ++ post')[pre'.length]? = some pre[pre'.length] := by
                    rw [← e1, List.getElem?_append_left hlt, List.getElem?_eq_getElem hlt]
                  rw [List.getElem?_append_right (Nat.le_refl _)] at this
                  exact List.mem_of_getElem? this
                have a1 := (s1.2.2 _ (List.getElem_mem hlt) p (by simp)).1
                have a2 := (s2.2.1.1 _ hm1).1
                exact lt_asymm a1 a2
              · exact h
              · exfalso
                have hm1 : pre'[pre.length] ∈ post := by
                  have : (pre ++ post)[pre.length]? = some pre'[pre.length] := by
                    rw [e1, List.getElem?_append_left hlt, List.getElem?_eq_getElem hlt]
                  rw [List.getElem?_append_right (Nat.le_refl _)] at this
                  exact List.mem_of_getElem? this
                have a1 := (s2.2.2 _ (List.getElem_mem hlt) p (by simp)).1
                have a2 := (s1.2.1.1 _ hm1).1
                exact lt_asymm a1 a2
            rw [hpe] at h2
            simp only [e2, ← e1] at h2
            rw [if_neg (by omega), e3, hpp] at h2
            unfold filter at h2
            rw [if_pos hc', Option.map_eq_some_iff] at h2
            obtain ⟨_, _, h2⟩ := h2
            simp at h2
        have h0' : 0 < pre.length := by omega
        have h1' : pre.length < (pre ++ post).length := by
          have : (pre ++ post).length = pre.length + post.length := List.length_append
          omega
        simp only []
        rw [hloss i h0 h1, hloss pre.length h0' h1']
        exact hmin i (by omega)

/-- The member best in the first objective and the member best in the second objective survive every
offer: afterwards there still is a member at least as good in that objective. -/
theorem C159_extremes (mx : F) (maxSize : Nat) (l : List (Pt F)) (p : Pt F) (t : Bool)
    (l' : List (Pt F)) (hok : Ok mx (capacity maxSize) l)
    (hs : step mx (capacity maxSize) l p = some (t, l')) (a : Pt F) (ha : a ∈ l) :
    (∃ b ∈ l', b.x ≤ a.x) ∧ (∃ b ∈ l', b.y ≤ a.y) := by
  have hms : 2 ≤ capacity maxSize := le_max_left _ _
  obtain ⟨hok', ho⟩ := step_spec mx _ hms l p t l' hok hs
  have transfer (m : List (Pt F)) (he : l'.map xy = m.map xy) (h : (∃ b ∈ m, b.x ≤ a.x) ∧
      (∃ b ∈ m, b.y ≤ a.y)) : (∃ b ∈ l', b.x ≤ a.x) ∧ (∃ b ∈ l', b.y ≤ a.y) := by
    obtain ⟨⟨b, hb, h1⟩, c, hc, h2⟩ := h
    have hb' : xy b ∈ l'.map xy := by rw [he]; exact List.mem_map_of_mem hb
    have hc' : xy c ∈ l'.map xy := by rw [he]; exact List.mem_map_of_mem hc
    obtain ⟨b', hb1, e1⟩ := List.mem_map.1 hb'
    obtain ⟨c', hc1, e2⟩ := List.mem_map.1 hc'
    exact ⟨⟨b', hb1, by rw [show b'.x = b.x from congrArg Prod.fst e1]; exact h1⟩,
      ⟨c', hc1, by rw [show c'.y = c.y from congrArg Prod.snd e2]; exact h2⟩⟩
  rcases ho with ⟨rfl, rfl, -⟩ | ⟨pre, mid, post, rfl, hm, hF, ho⟩
  · exact ⟨⟨a, ha, le_refl _⟩, a, ha, le_refl _⟩
  · have hcov : ∃ b ∈ pre ++ p :: post, b.x ≤ a.x ∧ b.y ≤ a.y := by
      have hcase : a ∈ mid ∨ a ∈ pre ++ p :: post := by simp at ha ⊢; tauto
      rcases hcase with h | h
      · exact ⟨p, by simp, hm a h⟩
      · exact ⟨a, h, le_refl _, le_refl _⟩
    obtain ⟨b, hb, hbx, hby⟩ := hcov
    rcases ho with ⟨rfl, -, he⟩ | ⟨rfl, hlen, ho⟩
    · exact transfer _ he ⟨⟨b, hb, hbx⟩, b, hb, hby⟩
    · rcases ho with ⟨rfl, k, hk0, hk1, hk2, he, -, -⟩ | ⟨rfl, rfl, -⟩
      · apply transfer _ he
        have hlb : (pre ++ p :: post).length = capacity maxSize + 1 := by
          simp at hlen ⊢; omega
        obtain ⟨i, hi, rfl⟩ := List.getElem_of_mem hb
        have hp := List.pairwise_iff_getElem.1 hF
        constructor
        · refine ⟨(pre ++ p :: post)[capacity maxSize]'(by omega), ?_, ?_⟩
          · rw [List.mem_eraseIdx_iff_getElem?]
            exact ⟨capacity maxSize, by omega, List.getElem?_eq_getElem _⟩
          · rcases Nat.lt_or_ge i (capacity maxSize) with h | h
            · exact (hp i _ hi (by omega) h).2.le.trans hbx
            · have : i = capacity maxSize := by omega
              subst this; exact hbx
        · refine ⟨(pre ++ p :: post)[0]'(by omega), ?_, ?_⟩
          · rw [List.mem_eraseIdx_iff_getElem?]
            exact ⟨0, by omega, List.getElem?_eq_getElem _⟩
          · rcases Nat.eq_zero_or_pos i with rfl | h
            · exact hby
            · exact (hp 0 i (by omega) hi h).1.le.trans hby
      · exact ⟨⟨a, ha, le_refl _⟩, a, ha, le_refl _⟩

/-- The dominated area never decreases when there was room, nor when a full archive takes a newcomer
that is neither first nor last in its place. -/
theorem C159_volume (mx : F) (maxSize : Nat) (l : List (Pt F)) (p : Pt F) (t : Bool)
    (l' : List (Pt F)) (hok : Ok mx (capacity maxSize) l)
    (hs : step mx (capacity maxSize) l p = some (t, l')) (rx ry : F)
    (hr : ∀ a ∈ p :: l, a.x ≤ rx ∧ a.y ≤ ry)
    (hin : l.length < capacity maxSize ∨ ((∃ a ∈ l, a.y < p.y) ∧ ∃ a ∈ l, a.x < p.x)) :
    vol ry rx l ≤ vol ry rx l' := by
  have hms : 2 ≤ capacity maxSize := le_max_left _ _
  obtain ⟨hok', ho⟩ := step_spec mx _ hms l p t l' hok hs
  rcases ho with ⟨rfl, rfl, -⟩ | ⟨pre, mid, post, rfl, hm, hF, ho⟩
  · exact le_refl _
  · have hv := vol_insert ry p pre mid post rx (hr p (by simp)).1 (hr p (by simp)).2
      (fun a ha => (hr a (by simp at ha ⊢; tauto)).1) hm hok.1 hF
    rcases ho with ⟨rfl, -, he⟩ | ⟨rfl, hlen, ho⟩
    · rw [vol_map ry l' _ he]; exact hv
    · rcases ho with ⟨rfl, k, hk0, hk1, hk2, he, -, hmin⟩ | ⟨rfl, rfl, -⟩
      · have hlb : (pre ++ p :: post).length = capacity maxSize + 1 := by
          simp at hlen ⊢; omega
        rcases hin with hin | ⟨⟨a, ha, hay⟩, b, hb, hbx⟩
        · simp at hin hlen; omega
        · have hpre : pre ≠ [] := by
            rintro rfl
            rw [List.nil_append, Front, List.pairwise_cons] at hF
            exact lt_asymm hay (hF.1 a (by simpa using ha)).1
          have hpost : post ≠ [] := by
            rintro rfl
            rw [Front, List.pairwise_append] at hF
            exact lt_asymm hbx (hF.2.2 b (by simpa using hb) p (by simp)).2
          have h0 : 0 < pre.length := List.length_pos_iff.2 hpre
          have h1 : 0 < post.length := List.length_pos_iff.2 hpost
          obtain ⟨j, hj⟩ : ∃ j, k = j + 1 := ⟨k - 1, by omega⟩
          obtain ⟨h, hh⟩ : ∃ h, pre.length = h + 1 := ⟨pre.length - 1, by omega⟩
          have e1 : vol ry rx (pre ++ post) = vol ry rx (pre ++ p :: post) -
              area mx (pre ++ p :: post) (h + 1) := by
            rw [← vol_erase mx ry _ h (by
              have : (pre ++ p :: post).length = pre.length + (post.length + 1) := by simp
              omega), ← hh, List.eraseIdx_append_of_length_le (Nat.le_refl _)]
            simp
          rw [vol_map ry l' _ he, hj, vol_erase mx ry _ j (by omega), List.append_nil, e1]
          have := hmin pre.length (by have := hlen; simp at this; omega)
          rw [hj, hh] at this
          linarith
      · exact le_refl _

/-- A full archive of three and a newcomer between the first and the second member. -/
example : step (100 : ℚ) (capacity 3) [⟨9, 1, 100⟩, ⟨6, 2, 9⟩, ⟨3, 5, 100⟩] ⟨7, (3 / 2), 0⟩ =
    some (false, [⟨9, 1, 100⟩, ⟨6, 2, 9⟩, ⟨3, 5, 100⟩]) := by decide +kernel

/-- The same archive with a newcomer at the end: the second member is given up. -/
example : step (100 : ℚ) (capacity 3) [⟨9, 1, 100⟩, ⟨6, 2, 9⟩, ⟨3, 5, 100⟩] ⟨2, 9, 0⟩ =
    some (true, [⟨9, 1, 100⟩, ⟨3, 5, 24⟩, ⟨2, 9, 100⟩]) := by decide +kernel

/-- A full archive of two, newcomers of which no member is at least as good: at an end the newcomer is
taken (and the member next to it given up). -/
example : step (100 : ℚ) (capacity 2) [⟨9, 1, 100⟩, ⟨3, 5, 100⟩] ⟨2, 9, 0⟩ =
    some (true, [⟨9, 1, 100⟩, ⟨2, 9, 100⟩]) := by decide +kernel

/-- **Defect.** A full archive which is offered a point whose place is just before the last member
reads past the end of the set: undefined. In an archive of two this is every newcomer between them. -/
theorem C159_before_last_undefined (mx : F) (maxSize : Nat) (pre : List (Pt F)) (z p : Pt F)
    (hok : Ok mx (capacity maxSize) (pre ++ [z])) (hfull : (pre ++ [z]).length = capacity maxSize)
    (hF : Front (pre ++ [p, z])) : step mx (capacity maxSize) (pre ++ [z]) p = none := by
  have hms : 2 ≤ capacity maxSize := le_max_left _ _
  have hl : pre.length + 1 = capacity maxSize := by simpa using hfull
  have hF' := hF
  rw [Front, List.pairwise_append, List.pairwise_cons] at hF'
  obtain ⟨-, ⟨hpz, -⟩, hp⟩ := hF'
  have hpz := hpz z (by simp)
  have hu : upper (pre ++ [z]) p = pre.length := by
    have h1 : pre.takeWhile (fun a => !compLt p a) = pre := by
      have hall : ∀ a ∈ pre, (!compLt p a) = true := by
        intro a ha
        have := hp a ha p (by simp)
        simp [compLt, not_lt.2 this.1.le, this.1.ne']
      clear hok hfull hF hp hl
      induction pre with
      | nil => rfl
      | cons a pre ih =>
        rw [List.takeWhile_cons, if_pos (hall a (by simp)), ih fun b hb => hall b (by simp [hb])]
    have h2 : [z].takeWhile (fun a => !compLt p a) = [] := by
      simp [compLt, hpz.1]
    rw [upper, List.takeWhile_append]
    simp [h1, h2]
  have hget : (pre ++ [z])[pre.length - 1]? = some (pre[pre.length - 1]'(by omega)) := by
    rw [List.getElem?_append_left (by omega), List.getElem?_eq_getElem]
  have hplace : place (pre ++ [z]) p = some (pre.length, pre ++ [z]) := by
    unfold place accepts
    simp only [hu, hget]
    rw [if_neg (show pre.length ≠ 0 by omega)]
    have := hp _ (List.getElem_mem (show pre.length - 1 < pre.length by omega)) p (by simp)
    simp [this.2, hpz.2]
  unfold step
  rw [if_neg (by simp), hplace]
  simp only []
  rw [if_neg (show ¬ (pre ++ [z]).length < capacity maxSize by omega)]
  unfold filter
  rw [if_neg (show ¬ (pre.length = 0 ∨ pre.length = (pre ++ [z]).length) by omega)]
  have hn : (pre ++ [z])[pre.length + 1]? = none := List.getElem?_eq_none (by simp)
  rw [hn]
  split
  · simp_all
  · rfl

/-- The hypotheses are met by two members and a point between them. -/
example : Ok (100 : ℚ) (capacity 2) [⟨9, 1, 100⟩, ⟨3, 5, 100⟩] ∧
    Front [(⟨9, 1, 100⟩ : Pt ℚ), ⟨5, 2, 0⟩, ⟨3, 5, 100⟩] ∧
    step (100 : ℚ) (capacity 2) [⟨9, 1, 100⟩, ⟨3, 5, 100⟩] ⟨5, 2, 0⟩ = none := by
  refine ⟨⟨by simp [Front]; norm_num, ?_, by simp [capacity]⟩, by simp [Front]; norm_num, by decide +kernel⟩
  intro i q hq
  rcases i with _ | _ | i
  · simp at hq; rw [← hq]; rfl
  · simp at hq; rw [← hq]; rfl
  · simp at hq

end

/-- **Defect.** When every area is at least the large value (here 100) the element to give up is never
chosen: the iterator is used uninitialised. -/
theorem C159_large_areas_undefined :
    ∃ (l : List (Pt ℚ)) (p : Pt ℚ), (∀ i : Nat, ∀ q, l[i]? = some q → q.fit = area 100 l i) ∧
      step 100 (capacity 3) l p = none ∧ (∀ a ∈ l, p.x < a.x) := by
  refine ⟨[⟨50, 0, 100⟩, ⟨30, 20, 400⟩, ⟨10, 40, 100⟩], ⟨-10, 60, 0⟩, ?_, by decide +kernel, ?_⟩
  · intro i q hq
    rcases i with _ | _ | _ | i
    · simp at hq; rw [← hq]; rfl
    · simp at hq; rw [← hq]; simp [area]; norm_num
    · simp at hq; rw [← hq]; rfl
    · simp at hq
  · intro a ha
    simp at ha
    rcases ha with rfl | rfl | rfl <;> norm_num

end Paradiseo.Moeo.Hv2

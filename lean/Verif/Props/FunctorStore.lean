import Verif.Model.FunctorStore
import Mathlib.Data.List.Nodup
/-
C322: what the store of functors deletes.
-/
namespace Paradiseo.FunctorStore

open Paradiseo.EO

theorem storeAll_vec (rs vec : List Nat) : (storeAll vec rs).1 = vec ++ rs := by
  induction rs generalizing vec with
  | nil => simp [storeAll]
  | cons r rs ih => simp only [storeAll, ih]; simp [storeFunctor]

/-- Everything stored is deleted with the store and nothing else is: provided every functor was on the heap and was stored
only once. -/
theorem C322_deletes (rs : List Nat) (h : Heap) (hl : ∀ r ∈ rs, h r = true) (hn : rs.Nodup) :
    ∃ h', destroy (storeAll [] rs).1 h = .ok h' ∧ ∀ x, h' x = (h x && decide (x ∉ rs)) := by
  rw [storeAll_vec, List.nil_append]
  induction rs generalizing h with
  | nil => exact ⟨h, rfl, by simp⟩
  | cons r rs ih =>
    rw [List.nodup_cons] at hn
    obtain ⟨h', h1, h2⟩ := ih (fun x => if x = r then false else h x) (fun x hx => by
      have : x ≠ r := fun h => hn.1 (h ▸ hx)
      simp [this, hl x (by simp [hx])]) hn.2
    refine ⟨h', ?_, fun x => ?_⟩
    · simp only [destroy, delete, hl r (by simp), if_true]
      exact h1
    · rw [h2]
      by_cases hx : x = r <;> simp [hx]

/-- Otherwise the destructor has undefined behaviour: a functor stored twice, or one that is not on the heap, for example
a variable of the caller. -/
theorem C322_undefined (rs : List Nat) (h : Heap) (hbad : ¬ ((∀ r ∈ rs, h r = true) ∧ rs.Nodup)) :
    destroy (storeAll [] rs).1 h = .error .ub := by
  rw [storeAll_vec, List.nil_append]
  have key : ∀ (rs : List Nat) (h : Heap), (∀ e, destroy rs h = .error e → e = .ub) ∧
      ∀ h', destroy rs h = .ok h' → (∀ r ∈ rs, h r = true) ∧ rs.Nodup := by
    intro rs
    induction rs with
    | nil => intro h; simp [destroy]
    | cons r rs ih =>
      intro h
      simp only [destroy, delete]
      cases hr : h r with
      | false => simp
      | true =>
        simp only [if_true]
        obtain ⟨i1, i2⟩ := ih fun x => if x = r then false else h x
        refine ⟨i1, fun h' hh => ?_⟩
        obtain ⟨j1, j2⟩ := i2 h' hh
        have hnot : r ∉ rs := fun hm => by simpa using j1 r hm
        refine ⟨fun x hx => ?_, List.nodup_cons.2 ⟨hnot, j2⟩⟩
        rcases List.mem_cons.1 hx with rfl | hx
        · exact hr
        · have := j1 x hx
          by_cases hxr : x = r
          · rw [hxr]; exact hr
          · simpa [hxr] using this
  cases hd : destroy rs h with
  | error e => rw [(key rs h).1 e hd]
  | ok h' => exact absurd ((key rs h).2 h' hd) hbad

/-- A debug build warns exactly when a functor is stored again, and then says how often it has been. -/
theorem C322_warning (vec rs : List Nat) : (storeAll vec rs).2 = [] ↔ rs.Nodup ∧ ∀ r ∈ rs, r ∉ vec := by
  induction rs generalizing vec with
  | nil => simp [storeAll]
  | cons r rs ih =>
    simp only [storeAll, List.append_eq_nil_iff, ih]
    simp only [storeFunctor, List.nodup_cons, List.mem_cons, forall_eq_or_imp]
    by_cases hm : r ∈ vec
    · have : 0 < vec.count r := List.count_pos_iff.2 hm
      simp [this, hm]
    · have : ¬ 0 < vec.count r := by rw [List.count_pos_iff]; exact hm
      simp only [this, if_false, Option.toList_none, true_and, hm, not_false_eq_true]
      constructor
      · rintro ⟨h1, h2⟩
        refine ⟨⟨fun hr => ?_, h1⟩, fun x hx => ?_⟩
        · have := h2 r hr
          simp at this
        · have := h2 x hx
          simp at this
          exact this.1
      · rintro ⟨⟨h1, h2⟩, h3⟩
        refine ⟨h2, fun x hx => ?_⟩
        have hxr : x ≠ r := fun h => h1 (h ▸ hx)
        simp [h3 x hx, hxr]

theorem C322_warning_count (vec : List Nat) (r : Nat) :
    (storeFunctor vec r).2 = if r ∈ vec then some ((storeFunctor vec r).1.count r) else none := by
  unfold storeFunctor
  by_cases hm : r ∈ vec
  · have : 0 < vec.count r := List.count_pos_iff.2 hm
    simp [this, hm, List.count_append]
  · have : ¬ 0 < vec.count r := by rw [List.count_pos_iff]; exact hm
    simp [this, hm]

example : (destroy (storeAll [] [3, 5]).1 fun x => decide (x < 6)).toBool = true ∧
    destroy (storeAll [] [3, 5, 3]).1 (fun x => decide (x < 6)) = .error .ub ∧ (storeAll [] [3, 5, 3]).2 = [2] :=
  ⟨rfl, C322_undefined _ _ (by decide), rfl⟩

end Paradiseo.FunctorStore

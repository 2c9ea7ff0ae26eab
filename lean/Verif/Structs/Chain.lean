import Mathlib.Logic.Function.Basic
import Mathlib.Data.List.Nodup
import Mathlib.Tactic.Common

/-!
# Singly linked intrusive lists

`nxt` is the memory holding the `nxt` field of every object; `Chain nxt p l` says that
following `nxt` from the pointer `p` visits exactly the objects `l` and ends in NULL.
-/

namespace Verif

variable {α : Type*}

inductive Chain (nxt : α → Option α) : Option α → List α → Prop where
  | nil : Chain nxt none []
  | cons {a l} (rest : Chain nxt (nxt a) l) : Chain nxt (some a) (a :: l)

namespace Chain

variable {nxt nxt' : α → Option α} {p : Option α} {l l' : List α}

theorem congr (h : Chain nxt p l) (e : ∀ x ∈ l, nxt' x = nxt x) : Chain nxt' p l := by
  induction h with
  | nil => exact .nil
  | @cons a l rest ih =>
    have := ih (fun x hx => e x (List.mem_cons_of_mem _ hx))
    rw [← e a List.mem_cons_self] at this
    exact .cons this

theorem unique (h : Chain nxt p l) (h' : Chain nxt p l') : l = l' := by
  induction h generalizing l' with
  | nil => cases h'; rfl
  | cons rest ih =>
    cases h' with
    | cons rest' => rw [ih rest']

theorem head_mem {a : α} (h : Chain nxt (some a) l) : a ∈ l := by
  cases h; exact List.mem_cons_self

/-- The part of the chain from `a` on. -/
theorem suffix_of_mem {a : α} (h : Chain nxt p l) (ha : a ∈ l) :
    ∃ l1 l2, l = l1 ++ a :: l2 ∧ Chain nxt (some a) (a :: l2) := by
  induction h with
  | nil => simp at ha
  | @cons b l rest ih =>
    by_cases e : a = b
    · subst e
      exact ⟨[], l, rfl, .cons rest⟩
    · obtain ⟨l1, l2, h1, h2⟩ := ih (by simpa [e] using ha)
      exact ⟨b :: l1, l2, by rw [h1]; rfl, h2⟩

theorem nodup (h : Chain nxt p l) : l.Nodup := by
  induction h with
  | nil => exact List.nodup_nil
  | @cons a l rest ih =>
    rw [List.nodup_cons]
    refine ⟨fun ha => ?_, ih⟩
    obtain ⟨l1, l2, h1, h2⟩ := rest.suffix_of_mem ha
    cases h2 with
    | cons rest' =>
      have := rest.unique rest'
      have := congrArg List.length this
      rw [h1] at this
      simp at this
      omega

end Chain
end Verif

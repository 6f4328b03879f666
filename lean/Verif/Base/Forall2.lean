/-!
Two lists related element by element.
-/
namespace Verif

/-- The lists have the same length and corresponding elements are related. -/
inductive Forall2 {α β : Type} (R : α → β → Prop) : List α → List β → Prop where
  | nil : Forall2 R [] []
  | cons {a b l m} : R a b → Forall2 R l m → Forall2 R (a :: l) (b :: m)

theorem Forall2.length_eq {α β : Type} {R : α → β → Prop} {l : List α} {m : List β}
    (h : Forall2 R l m) : l.length = m.length := by
  induction h with
  | nil => rfl
  | cons _ _ ih => simp [ih]

theorem Forall2.imp {α β : Type} {R S : α → β → Prop} (hRS : ∀ a b, R a b → S a b) {l : List α}
    {m : List β} (h : Forall2 R l m) : Forall2 S l m := by
  induction h with
  | nil => exact .nil
  | cons h _ ih => exact .cons (hRS _ _ h) ih

end Verif

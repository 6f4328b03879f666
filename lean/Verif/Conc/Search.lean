import Verif.Conc.Lin
/-!
A search that finds every linearization of a history, to show that there is none.
-/
namespace Verif.Conc
variable {σ Op Ret : Type}

/-- Runs, with the first step first. -/
inductive ARunH (O : Obj σ Op Ret) : ASt σ Op Ret → List (Ev Op Ret) → ASt σ Op Ret → Prop where
  | refl (a) : ARunH O a [] a
  | head {a o b es c} : AStep O a o b → ARunH O b es c → ARunH O a (o.toList ++ es) c

theorem ARunH.snoc {O : Obj σ Op Ret} {a b c : ASt σ Op Ret} {es : List (Ev Op Ret)} {o : Option (Ev Op Ret)}
    (h : ARunH O a es b) (hs : AStep O b o c) : ARunH O a (es ++ o.toList) c := by
  induction h with
  | refl => have := ARunH.head hs (.refl _); simpa using this
  | head h1 _ ih => rw [List.append_assoc]; exact .head h1 (ih hs)

theorem ARun.toH {O : Obj σ Op Ret} {a b : ASt σ Op Ret} {es : List (Ev Op Ret)} (h : ARun O a es b) : ARunH O a es b := by
  induction h with
  | refl => exact .refl _
  | tail _ hs ih => exact ih.snoc hs

/-- Is there a linearization of the rest of a history, for threads below `n`? `true` also if the fuel runs out, so that
`false` always means that there is none. Answers are compared by `eqv`. -/
def search (O : Obj σ Op Ret) (eqv : Ret → Ret → Bool) (n : Nat) : Nat → List (Ev Op Ret) → ASt σ Op Ret → Bool
  | 0, _, _ => true
  | _ + 1, [], _ => true
  | f + 1, .call t op :: es, a =>
    (match a.thr t with | .idle => search O eqv n f es ⟨a.q, upd a.thr t (.pend op)⟩ | _ => false) ||
    (List.range n).any fun u =>
      match a.thr u with
      | .pend op' => search O eqv n f (.call t op :: es) ⟨(O.apply a.q op').1, upd a.thr u (.done (O.apply a.q op').2)⟩
      | _ => false
  | f + 1, .ret t r :: es, a =>
    (match a.thr t with | .done r' => eqv r r' && search O eqv n f es ⟨a.q, upd a.thr t .idle⟩ | _ => false) ||
    (List.range n).any fun u =>
      match a.thr u with
      | .pend op' => search O eqv n f (.ret t r :: es) ⟨(O.apply a.q op').1, upd a.thr u (.done (O.apply a.q op').2)⟩
      | _ => false

theorem search_complete {O : Obj σ Op Ret} {eqv : Ret → Ret → Bool} (heq : ∀ r, eqv r r = true) {n : Nat}
    {a b : ASt σ Op Ret} {es : List (Ev Op Ret)} (h : ARunH O a es b) :
    (∀ t op, Ev.call t op ∈ es → t < n) → (∀ u, n ≤ u → a.thr u = .idle) → ∀ f, search O eqv n f es a = true := by
  induction h with
  | refl => intro _ _ f; cases f <;> rfl
  | @head a o b es c hs _ ih =>
    intro hc hi f
    cases f with
    | zero => cases hs <;> rfl
    | succ f =>
      cases hs with
      | @call t op h1 =>
        have ht : t < n := hc t op (by simp)
        have := ih (fun t op h => hc t op (by simp [h]))
          (fun u hu => by simp only; rw [upd_other _ _ (by omega)]; exact hi u hu) f
        simp only [Option.toList_some, List.singleton_append, search, h1, this, Bool.true_or]
      | @ret t r h1 =>
        have := ih (fun t op h => hc t op (by simp [h]))
          (fun u hu => by
            simp only
            by_cases e : u = t
            · subst e; exact upd_same _ _ _
            · rw [upd_other _ _ e]; exact hi u hu) f
        simp only [Option.toList_some, List.singleton_append, search, h1, this, heq, Bool.and_true, Bool.true_or]
      | @lin t op h1 =>
        have ht : t < n := by
          rcases Nat.lt_or_ge t n with h | h
          · exact h
          · rw [hi t h] at h1; cases h1
        have := ih (fun t op h => hc t op (by simpa using h))
          (fun u hu => by simp only; rw [upd_other _ _ (by omega)]; exact hi u hu) f
        have hany : ((List.range n).any fun u =>
            match a.thr u with
            | .pend op' => search O eqv n f es ⟨(O.apply a.q op').1, upd a.thr u (.done (O.apply a.q op').2)⟩
            | _ => false) = true := by
          rw [List.any_eq_true]
          exact ⟨t, List.mem_range.2 ht, by rw [h1]; exact this⟩
        simp only [Option.toList_none, List.nil_append]
        cases es with
        | nil => rfl
        | cons e es =>
          cases e with
          | call t' op' => rw [search, hany, Bool.or_true]
          | ret t' r' => rw [search, hany, Bool.or_true]

/-- If the search finds nothing, there is no linearization. -/
theorem not_linearizable {O : Obj σ Op Ret} (eqv : Ret → Ret → Bool) (heq : ∀ r, eqv r r = true) (n f : Nat) {q : σ}
    {es : List (Ev Op Ret)} (hc : ∀ t op, Ev.call t op ∈ es → t < n)
    (h : search O eqv n f es ⟨q, fun _ => .idle⟩ = false) : ¬ Linearizable O q es := by
  rintro ⟨a, ha⟩
  have := search_complete heq ha.toH hc (fun _ _ => rfl) f
  rw [h] at this
  cases this

end Verif.Conc

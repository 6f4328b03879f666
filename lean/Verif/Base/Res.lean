/-!
Outcomes of a call: success, an error reply, a panic (which includes out-of-bounds accesses and
`unreachable_unchecked`, i.e. undefined behaviour), or a loop that never ends.
-/
namespace Verif

/-- Outcome of a function of the server. -/
inductive Res (ε α : Type) where
  | ok (a : α)
  | err (e : ε)
  | panic
  | hang
  deriving DecidableEq, Repr

namespace Res
variable {ε α β : Type}

/-- Sequencing: `?` in the Rust code. -/
@[simp] def bind : Res ε α → (α → Res ε β) → Res ε β
  | ok a, f => f a
  | err e, _ => err e
  | panic, _ => panic
  | hang, _ => hang

instance : Monad (Res ε) where
  pure := ok
  bind := bind

@[simp] theorem pure_eq (a : α) : (pure a : Res ε α) = ok a := rfl
@[simp] theorem bind_eq (x : Res ε α) (f : α → Res ε β) : (x >>= f) = x.bind f := rfl

/-- The call returned (a value or an error reply). -/
def returns : Res ε α → Bool
  | ok _ => true
  | err _ => true
  | _ => false

def isOk : Res ε α → Bool
  | ok _ => true
  | _ => false

theorem bind_eq_ok {x : Res ε α} {f : α → Res ε β} {b : β} (h : x.bind f = ok b) :
    ∃ a, x = ok a ∧ f a = ok b := by
  cases x <;> simp_all

end Res
end Verif

/-
The program of the weak memory model of the primary index is that of the model with sequentially consistent memory (C40).
-/
import Verif.Weak.Index
namespace Verif.Weak.Index
open Verif.Conc Verif.Trie Verif.Trie.Conc

variable {K V : Type} [DecidableEq K]

/-- One access with sequentially consistent memory. -/
def scAccess (s : Verif.Trie.Conc.St K V) (t : Tid) (a : Addr) : Step K V → Option (Verif.Trie.Conc.St K V)
  | .stop => none
  | .go pc => some (s.at t pc)
  | .read b k =>
    match s.list b with
    | some l => some (s.at t (k l))
    | none => some (s.at t .fault)
  | .load σ _ k =>
    match s.load σ with
    | some w => some (s.at t (k w))
    | none => some (s.at t .fault)
  | .freeze σ k =>
    match s.load σ with
    | some w => some ((s.store σ ⟨w.p, true⟩).at t (k w))
    | none => some (s.at t .fault)
  | .cas σ p x _ ok bad =>
    match s.load σ with
    | none => some (s.at t .fault)
    | some w =>
      if w = ⟨p, false⟩ then
        match (x.make a).2, s.heap a with
        | some _, some _ => none
        | new, _ => some ((memPut s new σ ⟨(x.make a).1, false⟩).at t ok)
      else some (s.at t bad)

/-- Every step of the model of C40, except the answer and giving a node to `defer_destroy`, is an access of this program. -/
theorem prog_sc (hash : K → UInt64) (s : Verif.Trie.Conc.St K V) (t : Tid) (a : Addr) (pc : Pc K V) (h1 : ∀ r, pc ≠ .ret r)
    (h2 : ∀ b k, pc ≠ .retire b k) : goPc hash s t a pc = (scAccess s t a (prog hash pc)).map fun s' => (s', none) := by
  cases pc with
  | idle | fault | panic => rfl
  | ret r => exact absurd rfl (h1 r)
  | retire b k => exact absurd rfl (h2 b k)
  | get k cur h =>
    simp only [goPc, prog, scAccess]
    cases hl : s.load cur with
    | none => rfl
    | some w => cases hw : w.p <;> simp [getPc, hw]
  | getData k b => simp only [goPc, prog, scAccess]; cases s.list b <;> rfl
  | patch m k v lvl cur par =>
    simp only [goPc, prog, scAccess]
    cases hl : s.load cur with
    | none => rfl
    | some w =>
      simp only [patchPc]
      by_cases hp : w.pend = true
      · simp only [hp, if_true]
        cases par with
        | none => rfl
        | some x => rfl
      · simp only [hp]
        cases hw : w.p with
        | null => by_cases hm : m = .refresh <;> simp [hm]
        | leaf | node => rfl
  | patchNew m k v lvl cur par =>
    simp only [goPc, prog, scAccess]
    cases hl : s.load cur with
    | none => rfl
    | some w =>
      by_cases hw : w = ⟨.null, false⟩
      · simp only [hw, if_true, New.make, memPut]
        cases s.heap a <;> rfl
      · simp only [hw, if_false]; rfl
  | patchData m k v lvl cur par b =>
    simp only [goPc, prog, scAccess]
    cases hl : s.list b with
    | none => rfl
    | some l =>
      cases l with
      | nil => rfl
      | cons e l =>
        simp only [patchDataPc]
        split
        · split <;> rfl
        · cases find (e :: l) k with
          | some x => simp only; split <;> rfl
          | none => simp only; split <;> rfl
  | patchSplit m k v lvl cur par b i =>
    simp only [goPc, prog, scAccess]
    cases hl : s.load cur with
    | none => rfl
    | some w =>
      by_cases hw : w = ⟨.leaf b, false⟩
      · simp only [hw, if_true, New.make, memPut]
        cases s.heap a with
        | some _ => rfl
        | none =>
          simp only [Option.map_some]
          congr 6
          funext j
          split <;> rfl
      · simp only [hw, if_false]; rfl
  | patchPut m k v lvl cur par b l r =>
    simp only [goPc, prog, scAccess]
    cases hl : s.load cur with
    | none => rfl
    | some w =>
      by_cases hw : w = ⟨.leaf b, false⟩
      · simp only [hw, if_true, New.make, memPut]
        cases s.heap a <;> rfl
      · simp only [hw, if_false]; rfl
  | del k lvl cur levels =>
    simp only [goPc, prog, scAccess]
    cases hl : s.load cur with
    | none => rfl
    | some w =>
      cases hw : w.p with
      | null => simp [delPc, hw]
      | leaf b =>
        simp only [delPc, hw]
        by_cases hp : w.pend = true
        · simp only [hp, if_true]
          cases levels <;> rfl
        · simp only [hp]; rfl
      | node b =>
        simp only [delPc, hw]
        by_cases hp : w.pend = true
        · simp only [hp, if_true]
          cases levels <;> rfl
        · simp only [hp]
          by_cases hx : levels.length < 16 <;> simp [hx]
  | delData k lvl cur levels b => simp only [goPc, prog, scAccess]; cases s.list b <;> rfl
  | delPut k lvl cur levels b l r =>
    simp only [goPc, prog, scAccess]
    cases hl : s.load cur with
    | none => rfl
    | some w =>
      by_cases hw : w = ⟨.leaf b, false⟩
      · simp only [hw, if_true]
        cases l with
        | nil => simp only [delNew, New.make, memPut]; rfl
        | cons e l => simp only [delNew, New.make, memPut]; cases s.heap a <;> rfl
      · simp only [hw, if_false]; rfl
  | count levels p c i cnt r =>
    simp only [goPc, prog]
    by_cases hi : i < 16
    · simp only [hi, dif_pos, scAccess]
      cases s.load (.of c ⟨i, hi⟩) <;> rfl
    · simp only [hi, dif_neg, not_false_eq_true]
      split <;> rfl
  | cz i x =>
    simp only [goPc, prog]
    by_cases hi : i < 16
    · simp only [hi, dif_pos, scAccess]
      cases hl : s.load (.of x.c ⟨i, hi⟩) with
      | none => rfl
      | some w => cases hw : w.p <;> simp [czPc, hw]
    · simp only [hi, dif_neg, not_false_eq_true, scAccess]
      cases hl : s.load x.p with
      | none => rfl
      | some w =>
        by_cases hw : w = ⟨.node x.c, false⟩
        · simp only [hw, if_true, czNew, czKont]
          cases x.insert with
          | snode b => simp only [New.make, memPut]; rfl
          | null => simp only [New.make, memPut]; rfl
          | restored => simp only [New.make, memPut]; cases s.heap a <;> rfl
        · simp only [hw, if_false]; rfl
  | czRead i b x =>
    simp only [goPc, prog]
    by_cases hi : i < 16
    · simp only [hi, dif_pos, scAccess]
      cases s.list b <;> rfl
    · simp only [hi, dif_neg, not_false_eq_true, scAccess, Option.map_none]

end Verif.Weak.Index

import Verif.Bench.Model
/-!
Lemmas for C72: the invariant of the benchmark.
-/
namespace Verif.Bench

/-! ### Lists -/

theorem sum_set {f : W → Nat} : ∀ {ws : List W} {i : Nat} {w w' : W}, ws[i]? = some w →
    ((ws.set i w').map f).sum + f w = (ws.map f).sum + f w'
  | [], i, w, w', h => by simp at h
  | x :: ws, 0, w, w', h => by
    simp only [List.getElem?_cons_zero, Option.some.injEq] at h
    subst h
    simp only [List.set_cons_zero, List.map_cons, List.sum_cons]
    omega
  | x :: ws, i + 1, w, w', h => by
    have := sum_set (f := f) (ws := ws) (w' := w') (by simpa using h)
    simp only [List.set_cons_succ, List.map_cons, List.sum_cons]
    omega

theorem sum_const {f : W → Nat} {c : Nat} : ∀ {ws : List W}, (∀ w ∈ ws, f w = c) → (ws.map f).sum = c * ws.length
  | [], _ => by simp
  | x :: ws, h => by
    simp only [List.map_cons, List.sum_cons, List.length_cons]
    rw [h x (by simp), sum_const (c := c) fun w hw => h w (by simp [hw]), Nat.mul_succ, Nat.add_comm]

theorem sum_le {f : W → Nat} {c : Nat} : ∀ {ws : List W}, (∀ w ∈ ws, f w ≤ c) → (ws.map f).sum ≤ c * ws.length
  | [], _ => by simp
  | x :: ws, h => by
    simp only [List.map_cons, List.sum_cons, List.length_cons]
    have h1 := h x (by simp)
    have h2 := sum_le (f := f) (c := c) (ws := ws) fun w hw => h w (by simp [hw])
    rw [Nat.mul_succ]; omega

theorem sum_full {f : W → Nat} : ∀ {ws : List W}, (∀ w ∈ ws, f w ≤ 1) → (ws.map f).sum = ws.length → ∀ w ∈ ws, f w = 1
  | [], _, _ => by simp
  | x :: ws, h, hs => by
    simp only [List.map_cons, List.sum_cons, List.length_cons] at hs
    have h1 := h x (by simp)
    have h2 := sum_le (f := f) (c := 1) (ws := ws) fun w hw => h w (by simp [hw])
    intro w hw
    rcases List.mem_cons.1 hw with rfl | hw
    · omega
    · exact sum_full (fun w hw => h w (by simp [hw])) (by omega) w hw

theorem le_sum {f : W → Nat} : ∀ {ws : List W} {i : Nat} {w : W}, ws[i]? = some w → f w ≤ (ws.map f).sum
  | [], i, w, h => by simp at h
  | x :: ws, 0, w, h => by
    simp only [List.getElem?_cons_zero, Option.some.injEq] at h
    subst h
    simp only [List.map_cons, List.sum_cons]
    omega
  | x :: ws, i + 1, w, h => by
    have := le_sum (f := f) (ws := ws) (by simpa using h)
    simp only [List.map_cons, List.sum_cons]
    omega

theorem nodup_bound : ∀ {n : Nat} {l : List Nat}, l.Nodup → (∀ x ∈ l, 1 ≤ x ∧ x ≤ n) → l.length ≤ n
  | 0, l, _, h => by
    cases l with
    | nil => simp
    | cons x l => have := h x (by simp); omega
  | n + 1, l, hn, h => by
    have h1 := nodup_bound (n := n) (l := l.erase (n + 1)) (hn.erase _) fun x hx => by
      have hx' := hn.mem_erase_iff.1 hx
      have := h x hx'.2
      have := hx'.1
      omega
    have := List.length_erase (a := n + 1) (l := l)
    split at this <;> omega

theorem mem_set {ws : List W} {i j : Nat} {w' x : W} (h : (ws.set i w')[j]? = some x) :
    (j = i ∧ x = w') ∨ (j ≠ i ∧ ws[j]? = some x) := by
  by_cases hj : j = i
  · subst hj
    refine .inl ⟨rfl, ?_⟩
    rw [List.getElem?_set] at h
    simp only [if_true] at h
    split at h
    · cases h; rfl
    · cases h
  · refine .inr ⟨hj, ?_⟩
    simpa [Ne.symm hj] using h

/-! ### The keys -/

theorem digitsVal_zeros (k : Nat) (b : Bytes) : Num.digitsVal (List.replicate k 48 ++ b) = Num.digitsVal b := by
  induction k with
  | zero => simp
  | succ k ih => simpa [List.replicate_succ, Num.digitsVal] using ih

theorem fmtPk_inj {w p q : Nat} (h : fmtPk w p = fmtPk w q) : p = q := by
  have := congrArg Num.digitsVal h
  simp only [fmtPk, digitsVal_zeros, Num.digitsVal_decimal] at this
  exact this

/-! ### The invariant -/

/-- The position that a connection has taken and not yet used. -/
def W.hand : W → Option Nat
  | .drawn _ _ p => if p = 0 then none else some p
  | .query _ _ p => some p
  | _ => none

/-- It has reported, or left. -/
def W.rep (t : Nat) : W → Nat
  | .wait n => if n = t then 1 else 0
  | .sent _ => 1
  | _ => 0

/-- Queries that it has finished; of one that has reported, one. -/
def W.mine (t : Nat) : W → Nat
  | .draw _ d | .drawn _ d _ | .query _ d _ | .finish _ d => d
  | .sent _ => 1
  | .wait n => if n = t then 1 else 0
  | _ => 0

/-- It has seen the target at zero. -/
def W.empty (t : Nat) : W → Bool
  | .drawn _ _ p => p = 0
  | .finish .. | .sent _ | .panicked => true
  | .wait n => n = t
  | _ => false

/-- The tasks that a connection has received. -/
def W.ok (m : Main) : W → Prop
  | .wait n => n = m.tasks ∨ n + 1 = m.tasks ∧ ∀ k, m ≠ .begin k
  | .sent n => n = m.tasks
  | .got n | .draw n _ | .drawn n _ _ | .query n _ _ | .finish n _ => n = m.tasks ∧ 0 < n ∧ ∀ k, m ≠ .begin k
  | .panicked => ∀ k, m ≠ .begin k

/-- A run is going on or has ended. -/
def Main.running (m : Main) : Prop := ∀ k, m ≠ .begin k

/-- The number of this stage's queries. -/
def here (t : Nat) (log : List (Nat × Nat)) : List Nat := log.filterMap fun e => if e.1 + 1 = t then some e.2 else none

/-- The value that the row of position `p` must have. -/
def want (log : List (Nat × Nat)) (p : Nat) : Option Nat :=
  if (3, p) ∈ log then none else if (2, p) ∈ log then some 1 else if (0, p) ∈ log then some 0 else none

structure Inv (width N count : Nat) (s : St) : Prop where
  pos : 0 < N
  len : s.ws.length = N
  four : s.main.tasks ≤ 4 ∧ ∀ k, s.main = .begin k → k < 4
  ok : ∀ (i : Nat) (w : W), s.ws[i]? = some w → w.ok s.main
  hand : ∀ (i : Nat) (w : W) (p : Nat), s.ws[i]? = some w → w.hand = some p →
    s.target < p ∧ p ≤ count ∧ (s.main.tasks - 1, p) ∉ s.log
  hands : ∀ (i j : Nat) (v w : W) (p : Nat), s.ws[i]? = some v → s.ws[j]? = some w → i ≠ j → v.hand = some p → w.hand ≠ some p
  nodup : s.log.Nodup
  sorted : s.log.Pairwise fun a b => a.1 ≤ b.1
  range : ∀ e ∈ s.log, e.1 < s.main.tasks ∧ 1 ≤ e.2 ∧ e.2 ≤ count ∧ (e.1 + 1 = s.main.tasks → s.main.running → s.target < e.2)
  low : s.main.running → s.target ≤ count
  all : s.exit = false → s.main.running → ∀ p, s.target < p → p ≤ count → (s.main.tasks - 1, p) ∈ s.log ∨ ∃ (i : Nat) (w : W), s.ws[i]? = some w ∧ w.hand = some p
  past : ∀ k p, (k + 1 < s.main.tasks ∨ k < s.main.tasks ∧ ¬ s.main.running) → 1 ≤ p → p ≤ count → (k, p) ∈ s.log
  zero : s.exit = false → s.main.running → ∀ (i : Nat) (w : W), s.ws[i]? = some w → w.empty s.main.tasks = true → s.target = 0
  sum : s.main.running → s.exit = false → (s.ws.map (W.mine s.main.tasks)).sum ≤ (here s.main.tasks s.log).length
  work : s.main.running → s.exit = false → 0 < (here s.main.tasks s.log).length → 0 < (s.ws.map (W.mine s.main.tasks)).sum
  collect : ∀ k rem, s.main = .collect k rem → 1 ≤ rem ∧ rem ≤ N ∧ s.inbox.length + N ≤ (s.ws.map (W.rep s.main.tasks)).sum + rem ∧
    (s.exit = false → s.inbox.length + N = (s.ws.map (W.rep s.main.tasks)).sum + rem)
  begin : ∀ k, s.main = .begin k → s.inbox = [] ∧ s.exit = false ∧ ∀ w ∈ s.ws, w.rep k = 1
  done : s.main = .done → s.exit = false ∧ (∀ w ∈ s.ws, w.rep 4 = 1)
  bad : s.exit = true → false ∈ s.inbox ∨ ∃ k, s.main = .failed k
  good : s.exit = false → false ∉ s.inbox ∧ ∀ k, s.main ≠ .failed k
  tbl : s.exit = false → ∀ p, 1 ≤ p → p ≤ count → s.tbl (fmtPk width p) = want s.log p

end Verif.Bench

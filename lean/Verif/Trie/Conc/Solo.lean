/-
A thread that runs alone finishes its operation on the primary index (C88), wherever it and the others have been stopped: the bound
and what it rests on. The model is `Verif.Trie.Conc`.
-/
import Verif.Trie.Conc.Theorems
set_option linter.unusedSectionVars false
namespace Verif.Trie.Conc
open Verif.Conc
variable {K V : Type} [DecidableEq K]
variable {hash : K → UInt64} {s s' : St K V} {g : Gh} {t : Tid}
variable {e : ESt (K → Option V) (Op K V) (Option V)}

/-! ## The way of a hash through the tree -/

/-- The places on the way of a hash from the root, with the level and the branches passed, last first; none of the pointers
passed is frozen. -/
inductive Trail (ld : Slot → Option Word) (h : UInt64) : Slot → Nat → List Level → Prop
  | root : Trail ld h .root 0 []
  | step {σ : Slot} {lvl : Nat} {ls : List Level} {b : Addr} : Trail ld h σ lvl ls → ld σ = some ⟨.node b, false⟩ →
      Trail ld h (.of b (chunk h lvl)) (lvl + LG) ((σ, b) :: ls)

/-- How many of the next `n` pointers on the way of a hash are frozen. -/
def pends (ld : Slot → Option Word) (h : UInt64) : Nat → Slot → Nat → Nat
  | 0, _, _ => 0
  | n + 1, σ, lvl =>
    match ld σ with
    | none => 0
    | some w =>
      (if w.pend = true then 1 else 0) +
        match w.p with
        | .node b => pends ld h n (.of b (chunk h lvl)) (lvl + LG)
        | _ => 0

/-- How many pointers on the way of a hash are frozen; there are at most 17 pointers on the way. -/
def frozenOn (ld : Slot → Option Word) (h : UInt64) : Nat := pends ld h 17 .root 0

theorem pends_le (ld : Slot → Option Word) (h : UInt64) : ∀ n σ lvl, pends ld h n σ lvl ≤ n
  | 0, _, _ => Nat.le_refl 0
  | n + 1, σ, lvl => by
    simp only [pends]
    split
    · omega
    · rename_i w _
      have hh : (if w.pend = true then 1 else 0) ≤ 1 := by split <;> omega
      obtain ⟨p, q⟩ := w
      cases p with
      | node b =>
        have := pends_le ld h n (.of b (chunk h lvl)) (lvl + LG)
        dsimp only at hh ⊢
        omega
      | null | leaf => dsimp only at hh ⊢; omega

theorem Trail.pends {ld : Slot → Option Word} {h : UInt64} {σ : Slot} {lvl : Nat} {ls : List Level} (ht : Trail ld h σ lvl ls) :
    ∀ n, Conc.pends ld h (n + ls.length) .root 0 = Conc.pends ld h n σ lvl := by
  induction ht with
  | root => intro n; rfl
  | step _ hl ih =>
    intro n
    have := ih (n + 1)
    rw [show Conc.pends ld h (n + 1) _ _ = _ from by rw [Conc.pends, hl]] at this
    simp only [Bool.false_eq_true, if_false, Nat.zero_add] at this
    rw [← this, List.length_cons, Nat.add_right_comm, Nat.add_assoc]

theorem Trail.frozenOn {ld : Slot → Option Word} {h : UInt64} {σ : Slot} {lvl : Nat} {ls : List Level} (ht : Trail ld h σ lvl ls)
    (hl : ls.length ≤ 17) : frozenOn ld h = Conc.pends ld h (17 - ls.length) σ lvl := by
  rw [← ht.pends (17 - ls.length), Nat.sub_add_cancel hl]; rfl

/-- Where the way of a hash is. -/
structure On (g : Gh) (h : UInt64) (σ : Slot) (lvl : Nat) : Prop where
  live : g.Live σ
  on : OnP h (g.slot σ)
  lvl : lvl = LG * (g.slot σ).length

theorem On.step {m : K → Option V} (hs : Shared hash s g m) {h : UInt64} {σ : Slot} {lvl : Nat} (ho : On g h σ lvl) {w : Word}
    (hl : s.load σ = some w) {b : Addr} (hw : w.p = .node b) :
    On g h (.of b (chunk h lvl)) (lvl + LG) ∧ (g.slot (.of b (chunk h lvl))).length = (g.slot σ).length + 1 ∧
      (g.slot σ).length ≤ 15 := by
  obtain ⟨h1, h2, f, h3⟩ := hs.node σ w b ho.live hl hw
  have hlen : (g.slot (.of b (chunk h lvl))).length = (g.slot σ).length + 1 := by simp [Gh.slot, h2]
  refine ⟨⟨h1, ?_, ?_⟩, hlen, ?_⟩
  · refine ⟨?_, by rw [h2]; exact ho.on⟩
    rw [h2, ← ho.lvl]
  · rw [hlen, ho.lvl, Nat.mul_add, Nat.mul_one]
  · rw [← h2]; exact hs.depth b f h3

theorem Trail.on {m : K → Option V} (hs : Shared hash s g m) {h : UInt64} {σ : Slot} {lvl : Nat} {ls : List Level}
    (ht : Trail s.load h σ lvl ls) : On g h σ lvl ∧ (g.slot σ).length = ls.length ∧ ls.length ≤ 16 := by
  induction ht with
  | root => exact ⟨⟨trivial, trivial, rfl⟩, rfl, Nat.zero_le _⟩
  | step _ hl ih =>
    obtain ⟨h1, h2, h3⟩ := ih
    obtain ⟨h4, h5, h6⟩ := h1.step hs hl rfl
    exact ⟨h4, by rw [h5, h2]; rfl, by simp only [List.length_cons]; omega⟩

/-- Only the places that were passed matter for the way. -/
theorem Trail.frame {m : K → Option V} (hs : Shared hash s g m) {h : UInt64} {ld : Slot → Option Word} {d : Nat}
    (heq : ∀ τ, g.Live τ → OnP h (g.slot τ) → (g.slot τ).length < d → s.load τ ≠ none → ld τ = s.load τ) {σ : Slot} {lvl : Nat}
    {ls : List Level} (ht : Trail s.load h σ lvl ls) (hd : ls.length ≤ d) : Trail ld h σ lvl ls := by
  induction ht with
  | root => exact .root
  | step h1 hl ih =>
    simp only [List.length_cons] at hd
    have ho := h1.on hs
    exact .step (ih (by omega)) (by rw [heq _ ho.1.live ho.1.on (by omega) (by simp [hl])]; exact hl)

/-- Only the places that are still ahead matter for what is counted. -/
theorem pends_frame {m : K → Option V} (hs : Shared hash s g m) {h : UInt64} {ld : Slot → Option Word} {d : Nat}
    (heq : ∀ τ, g.Live τ → OnP h (g.slot τ) → d ≤ (g.slot τ).length → s.load τ ≠ none → ld τ = s.load τ) :
    ∀ (n : Nat) {σ : Slot} {lvl : Nat}, On g h σ lvl → d ≤ (g.slot σ).length → s.load σ ≠ none →
      pends ld h n σ lvl = pends s.load h n σ lvl
  | 0, _, _, _, _, _ => rfl
  | n + 1, σ, lvl, ho, hd, hn => by
    simp only [pends, heq σ ho.live ho.on hd hn]
    split
    · rfl
    · rename_i w hw
      cases hb : w.p with
      | node b =>
        obtain ⟨h1, h2, _⟩ := ho.step hs hw hb
        obtain ⟨_, _, f, h3⟩ := hs.node σ w b ho.live hw hb
        dsimp only
        rw [pends_frame hs heq n h1 (by omega) (by simp [St.load, h3])]
      | null | leaf => rfl

/-! ## How many steps are left -/

/-- For an operation that has done its work: it counts children and compresses, or returns. `B` stands for an operation that
starts again at the root. -/
def Kont.left (B : Nat) : Kont K V → Nat
  | .patch _ _ _ => B
  | .del _ => B
  | .up ls _ => 52 * ls.length + 1
  | .ret _ => 1

def Pc.left (B : Nat) : Pc K V → Nat
  | .ret _ => 1
  | .getData _ _ => 2
  | .retire _ k => 1 + k.left B
  | .count ls _ _ i _ _ => (16 - i) + 36 + 52 * ls.length
  | .cz i x => 2 * (16 - i) + 2 + x.k.left B
  | .czRead i _ x => 2 * (16 - i) + 1 + x.k.left B
  | _ => 0

/-- One attempt, from the root to the exchange that ends it. -/
local notation "TRY" => (1040 : Nat)
/-- All attempts of a thread that is alone and starts at the root. -/
local notation "ALL" => (18720 : Nat)

/-- What is found in the place where a thread is. -/
def weigh : Option Word → Nat
  | some ⟨.leaf _, _⟩ => 4
  | some ⟨.null, _⟩ => 3
  | _ => 0

def Kont.key : Kont K V → Option K
  | .patch _ k _ => some k
  | .del k => some k
  | _ => none

/-- A thread on its way down has at most `n` steps to go; either it may be anywhere, or it has come from the root while nothing
else happened, and then every further attempt leaves one frozen pointer less on its way. -/
def Lim.At (hash : K → UInt64) (s : St K V) (k : K) (lvl : Nat) (cur : Slot) (ok : List Level → Prop) (w n : Nat) : Prop :=
  ∃ b, (b = ALL ∨ ∃ ls, Trail s.load (hash k) cur lvl ls ∧ ok ls ∧ b = frozenOn s.load (hash k) * TRY) ∧
    b + 900 + 2 * (64 - lvl) + w ≤ n

/-- The branch that is being compressed is on the way of the key, because a frozen pointer was met in it. -/
def Near (hash : K → UInt64) (s : St K V) (x : Cz K V) (k : K) : Prop :=
  ∃ lvl ls w, Trail s.load (hash k) x.p lvl ls ∧ s.load x.p = some ⟨.node x.c, false⟩ ∧
    s.load (.of x.c (chunk (hash k) lvl)) = some w ∧ w.pend = true

/-- At most `n` steps are left for a thread that is alone. -/
def Lim (hash : K → UInt64) (s : St K V) : Pc K V → Nat → Prop
  | .patch _ k _ lvl cur par, n => Lim.At hash s k lvl cur (par = ·.head?) (weigh (s.load cur)) n
  | .patchNew _ k _ lvl cur par, n =>
    Lim.At hash s k lvl cur (par = ·.head?) (if s.load cur = some ⟨.null, false⟩ then 2 else 6) n
  | .patchData _ k _ lvl cur par b, n =>
    Lim.At hash s k lvl cur (par = ·.head?) (if s.load cur = some ⟨.leaf b, false⟩ then 3 else 7) n
  | .patchSplit _ k _ lvl cur par b _, n =>
    Lim.At hash s k lvl cur (par = ·.head?) (if s.load cur = some ⟨.leaf b, false⟩ then 2 else 6) n
  | .patchPut _ k _ lvl cur par b _ _, n =>
    Lim.At hash s k lvl cur (par = ·.head?) (if s.load cur = some ⟨.leaf b, false⟩ then 2 else 6) n
  | .del k lvl cur levels, n => Lim.At hash s k lvl cur (levels = ·) (weigh (s.load cur)) n
  | .delData k lvl cur levels b, n =>
    Lim.At hash s k lvl cur (levels = ·) (if s.load cur = some ⟨.leaf b, false⟩ then 3 else 7) n
  | .delPut k lvl cur levels b _ _, n =>
    Lim.At hash s k lvl cur (levels = ·) (if s.load cur = some ⟨.leaf b, false⟩ then 2 else 6) n
  | .cz i x, n => (∃ k, x.k.key = some k ∧ Near hash s x k ∧ frozenOn s.load (hash k) * TRY + 2 * (16 - i) + 2 ≤ n) ∨
      (Pc.cz i x).left ALL ≤ n
  | .czRead i b x, n => (∃ k, x.k.key = some k ∧ Near hash s x k ∧ frozenOn s.load (hash k) * TRY + 2 * (16 - i) + 1 ≤ n) ∨
      (Pc.czRead i b x).left ALL ≤ n
  | .retire b k, n => (∃ k', k.key = some k' ∧ (frozenOn s.load (hash k') + 1) * TRY ≤ n) ∨ (Pc.retire b k).left ALL ≤ n
  | .get _ _ _, _ => False
  | pc, n => pc.left ALL ≤ n

theorem load_at (s : St K V) (t : Tid) (pc : Pc K V) : (s.at t pc).load = s.load := by
  funext σ; cases σ <;> rfl

theorem pc_at (s : St K V) (t : Tid) (pc : Pc K V) : ((s.at t pc).thr t).pc = pc := by simp [St.at]

theorem Lim.at {pc : Pc K V} {n : Nat} (h : Lim hash s pc n) (t : Tid) (q : Pc K V) : Lim hash (s.at t q) pc n := by
  cases pc <;> first | exact h | (simp only [Lim, Lim.At, Near, load_at] at h ⊢; exact h)

theorem Lim.mono {pc : Pc K V} {n n' : Nat} (h : Lim hash s pc n) (hn : n ≤ n') : Lim hash s pc n' := by
  have hA : ∀ {k lvl cur ok w}, Lim.At hash s k lvl cur ok w n → Lim.At hash s k lvl cur ok w n' := by
    rintro k lvl cur ok w ⟨b, h1, h2⟩
    exact ⟨b, h1, Nat.le_trans h2 hn⟩
  cases pc with
  | get => exact h
  | patch | patchNew | patchData | patchSplit | patchPut | del | delData | delPut => exact hA h
  | cz | czRead =>
    rcases h with ⟨k, h1, h2, h3⟩ | h
    · exact .inl ⟨k, h1, h2, Nat.le_trans h3 hn⟩
    · exact .inr (Nat.le_trans h hn)
  | retire =>
    rcases h with ⟨k, h1, h3⟩ | h
    · exact .inl ⟨k, h1, Nat.le_trans h3 hn⟩
    · exact .inr (Nat.le_trans h hn)
  | idle | ret | getData | count | fault | panic => exact Nat.le_trans h hn

theorem weigh_le (o : Option Word) : weigh o ≤ 4 := by
  unfold weigh; split <;> omega

/-- A thread at the root has come from the root. -/
theorem lim_root {k : Kont K V} {k' : K} (hk : k.key = some k') :
    Lim hash s (kontPc k) ((frozenOn s.load (hash k') + 1) * TRY - 1) := by
  have hw := weigh_le (s.load .root)
  have : frozenOn s.load (hash k') * TRY + 900 + 2 * (64 - 0) + weigh (s.load .root) ≤ (frozenOn s.load (hash k') + 1) * TRY - 1 := by
    rw [Nat.add_mul]; omega
  cases k with
  | patch m k v => cases hk; exact ⟨_, .inr ⟨[], .root, rfl, rfl⟩, this⟩
  | del k => cases hk; exact ⟨_, .inr ⟨[], .root, rfl, rfl⟩, this⟩
  | up | ret => cases hk

theorem lim_kont (k : Kont K V) : ∃ n < k.left ALL + 1, Lim hash s (kontPc k) n := by
  cases k with
  | patch m k v =>
    refine ⟨_, ?_, lim_root rfl⟩
    have : frozenOn s.load (hash k) ≤ 17 := pends_le s.load (hash k) 17 .root 0
    simp only [Kont.left]; omega
  | del k =>
    refine ⟨_, ?_, lim_root rfl⟩
    have : frozenOn s.load (hash k) ≤ 17 := pends_le s.load (hash k) 17 .root 0
    simp only [Kont.left]; omega
  | ret r => exact ⟨1, by simp [Kont.left], Nat.le_refl 1⟩
  | up ls r =>
    cases ls with
    | nil => exact ⟨1, by simp [Kont.left], Nat.le_refl 1⟩
    | cons x ls => exact ⟨_, by simp only [Kont.left, List.length_cons]; omega, Nat.le_refl (16 - 0 + 36 + 52 * ls.length)⟩

theorem left_pos (k : Kont K V) : 1 ≤ k.left ALL := by
  cases k <;> simp only [Kont.left] <;> omega

theorem left_restored (k : Kont K V) : k.restored.left ALL ≤ k.left ALL := by
  cases k <;> simp only [Kont.left, Kont.restored] <;> omega

theorem key_restored (k : Kont K V) : k.restored.key = k.key := by cases k <;> rfl

/-- The same memory, further on the same way. -/
theorem Lim.At.next {k : K} {lvl : Nat} {cur : Slot} {ok : List Level → Prop} {w n w' : Nat} (h : Lim.At hash s k lvl cur ok w n)
    (hw : w' < w) (hs : s'.load = s.load) : ∃ n' < n, Lim.At hash s' k lvl cur ok w' n' := by
  obtain ⟨b, h1, h2⟩ := h
  exact ⟨_, by omega, b, by rw [hs]; exact h1, Nat.le_refl _⟩

theorem Lim.At.base {k : K} {lvl : Nat} {cur : Slot} {ok : List Level → Prop} {w n : Nat} (h : Lim.At hash s k lvl cur ok w n) :
    900 ≤ n := by
  obtain ⟨b, _, h2⟩ := h
  omega

/-- One step down. -/
theorem Lim.At.down {k : K} {lvl : Nat} {cur : Slot} {ok ok' : List Level → Prop} {w n : Nat} (h : Lim.At hash s k lvl cur ok w n)
    (hlvl : lvl + LG ≤ 64) {b : Addr} (hl : s.load cur = some ⟨.node b, false⟩) (hok : ∀ ls, ok ls → ok' ((cur, b) :: ls))
    (hs : s'.load = s.load) :
    ∃ n' < n, Lim.At hash s' k (lvl + LG) (.of b (chunk (hash k) lvl)) ok' (weigh (s'.load (.of b (chunk (hash k) lvl)))) n' := by
  obtain ⟨a, h1, h2⟩ := h
  have hw := weigh_le (s'.load (.of b (chunk (hash k) lvl)))
  have : LG = 4 := rfl
  refine ⟨_, ?_, a, ?_, Nat.le_refl _⟩
  · omega
  · rw [hs]
    rcases h1 with h1 | ⟨ls, h3, h4, h5⟩
    · exact .inl h1
    · exact .inr ⟨_, .step h3 hl, hok ls h4, h5⟩

/-- A frozen pointer was met. -/
theorem Lim.At.froze {k : K} {lvl : Nat} {cur : Slot} {ok : List Level → Prop} {w n : Nat} (h : Lim.At hash s k lvl cur ok w n)
    {x : Word} (hl : s.load cur = some x) (hx : x.pend = true) {p : Slot} {c : Addr}
    (hok : ∀ ls, ok ls → ls.head? = some (p, c)) {kt : Kont K V} (hk : kt.key = some k) (hkl : kt.left ALL = ALL)
    (hs : s'.load = s.load) : ∃ n' < n, Lim hash s' (cz0 p c kt) n' := by
  obtain ⟨a, h1, h2⟩ := h
  rcases h1 with h1 | ⟨ls, h3, h4, h5⟩
  · refine ⟨ALL + 34, by omega, .inr ?_⟩
    simp only [Pc.left, hkl]; omega
  · refine ⟨frozenOn s.load (hash k) * TRY + 34, by omega, .inl ⟨k, hk, ?_, ?_⟩⟩
    · have h6 := hok ls h4
      cases h3 with
      | root => cases h6
      | @step σ l2 ls2 b h7 h8 =>
        simp only [List.head?_cons, Option.some.injEq, Prod.mk.injEq] at h6
        obtain ⟨rfl, rfl⟩ := h6
        exact ⟨l2, ls2, x, by rw [hs]; exact h7, by rw [hs]; exact h8, by rw [hs]; exact hl, hx⟩
    · rw [hs]; omega

/-- An exchange at `σ` of something else that is not frozen, when the pointer after it on the way was frozen. -/
theorem swap_frozen {m : K → Option V} (hsh : Shared hash s g m) {h : UInt64} {σ : Slot} {lvl : Nat} {ls : List Level} {c : Addr}
    {w : Word} {ld : Slot → Option Word} (ht : Trail s.load h σ lvl ls) (hl : s.load σ = some ⟨.node c, false⟩)
    (hw : s.load (.of c (chunk h lvl)) = some w) (hp : w.pend = true) (heq : ∀ τ, s.load τ ≠ none → τ ≠ σ → ld τ = s.load τ)
    (hσ : (∃ p : Ptr, ld σ = some ⟨p, false⟩ ∧ p.term) ∨
      ∃ a, ld σ = some ⟨.node a, false⟩ ∧ ld (.of a (chunk h lvl)) = some ⟨w.p, false⟩) :
    frozenOn ld h + 1 ≤ frozenOn s.load h := by
  obtain ⟨ho, hlen, _⟩ := ht.on hsh
  obtain ⟨ho1, hlen1, h15⟩ := ho.step hsh hl rfl
  have ht' : Trail ld h σ lvl ls := ht.frame hsh (d := ls.length) (fun τ _ _ h3 h4 => heq τ h4 (fun e => by subst e; omega))
    (Nat.le_refl _)
  rw [ht.frozenOn (by omega), ht'.frozenOn (by omega)]
  obtain ⟨n, hn⟩ : ∃ n, 17 - ls.length = n + 2 := ⟨15 - ls.length, by omega⟩
  rw [hn]
  have hr : pends s.load h (n + 2) σ lvl = pends s.load h (n + 1) (.of c (chunk h lvl)) (lvl + LG) := by
    rw [pends, hl]; simp
  have hr2 : pends s.load h (n + 1) (.of c (chunk h lvl)) (lvl + LG) = 1 +
      match w.p with
      | .node b => pends s.load h n (.of b (chunk h (lvl + LG))) (lvl + LG + LG)
      | _ => 0 := by
    rw [pends, hw]; simp [hp]
  rw [hr, hr2]
  rcases hσ with ⟨p, h1, h2⟩ | ⟨a, h1, h2⟩
  · have : pends ld h (n + 2) σ lvl = 0 := by
      rw [pends, h1]
      cases p with
      | node b => exact absurd rfl (h2 b)
      | null | leaf => rfl
    omega
  · have h3 : pends ld h (n + 2) σ lvl =
        match w.p with
        | .node b => pends ld h n (.of b (chunk h (lvl + LG))) (lvl + LG + LG)
        | _ => 0 := by
      rw [pends, h1]
      simp only [Bool.false_eq_true, if_false, Nat.zero_add]
      rw [pends, h2]
      simp
    rw [h3]
    cases hwp : w.p with
    | null | leaf => exact Nat.le_refl _
    | node b =>
      obtain ⟨ho2, hlen2, _⟩ := ho1.step hsh hw hwp
      obtain ⟨_, _, f, hf⟩ := hsh.node _ w b ho1.live hw hwp
      dsimp only
      rw [pends_frame hsh (d := ls.length + 1) (fun τ _ _ h3 h4 => heq τ h4 (fun e => by subst e; omega)) n ho2 (by omega)
        (by simp [St.load, hf])]
      omega

/-- Freezing another pointer of a branch in which the pointer on the way is frozen. -/
theorem flag_frozen {m : K → Option V} (hsh : Shared hash s g m) {x : Cz K V} {k : K} (hn : Near hash s x k) {i : Fin 16} {w : Word}
    (hw : s.load (.of x.c i) = some w) (h1 : s'.load = (s.store (.of x.c i) ⟨w.p, true⟩).load) :
    Near hash s' x k ∧ frozenOn s'.load (hash k) = frozenOn s.load (hash k) := by
  obtain ⟨lvl, ls, w0, h2, h3, h4, h5⟩ := hn
  obtain ⟨ho, hlen, _⟩ := h2.on hsh
  obtain ⟨hc, hpath, f, hf⟩ := hsh.node _ _ _ ho.live h3 rfl
  have hfr : ∀ τ, g.Live τ → OnP (hash k) (g.slot τ) → s.load τ ≠ none → s'.load τ = s.load τ := by
    intro τ _ h7 _
    rw [h1, store_load hw]
    split
    · rename_i e
      subst e
      have : i = chunk (hash k) lvl := by
        rw [h7.1, hpath, ho.lvl]
      subst this
      rw [hw] at h4
      cases h4
      rw [hw]
      obtain ⟨p, q⟩ := w
      cases h5
      rfl
    · rfl
  have hch : s.load (.of x.c (chunk (hash k) lvl)) ≠ none := by simp [h4]
  have ho1 := (ho.step hsh h3 rfl).1
  refine ⟨⟨lvl, ls, w0, h2.frame hsh (d := ls.length) (fun τ a b _ d => hfr τ a b d) (Nat.le_refl _), ?_, ?_, h5⟩, ?_⟩
  · rw [hfr _ ho.live ho.on (by simp [h3])]; exact h3
  · rw [hfr _ ho1.live ho1.on hch]; exact h4
  · exact pends_frame hsh (d := 0) (fun τ a b _ d => hfr τ a b d) 17 ⟨trivial, trivial, rfl⟩ (Nat.zero_le _) (by simp [St.load])

/-- A list is put below a new branch. -/
theorem split_lim {m : K → Option V} (hsh : Shared hash s g m) {k : K} {lvl : Nat} {cur : Slot} {ok : List Level → Prop} {n : Nat}
    (h : Lim.At hash s k lvl cur ok 2 n) {b a : Addr} (hl : s.load cur = some ⟨.leaf b, false⟩) (ha : s.heap a = none) {i : Fin 16}
    (hs : s'.load = ((s.alloc a (.branch fun j => if j = i then ⟨.leaf b, false⟩ else ⟨.null, false⟩)).store cur
            ⟨.node a, false⟩).load) :
    ∃ n' < n, Lim.At hash s' k lvl cur ok (weigh (s'.load cur)) n' := by
  have hf := put_facts (s := s) (new := some (a, .branch fun j => if j = i then ⟨.leaf b, false⟩ else ⟨.null, false⟩))
    (w := ⟨.node a, false⟩) hl (fun n c e => by cases e; exact ha)
  simp only [St.put] at hf
  have hld : s'.load cur = some ⟨.node a, false⟩ := by rw [hs]; exact hf.ld
  obtain ⟨d, h1, h2⟩ := h
  refine ⟨_, ?_, d, ?_, Nat.le_refl _⟩
  · rw [hld]; simp only [weigh]; omega
  · rcases h1 with h1 | ⟨ls, h3, h4, h5⟩
    · exact .inl h1
    · obtain ⟨ho, hlen, h16⟩ := h3.on hsh
      have heq : ∀ τ, s.load τ ≠ none → τ ≠ cur → s'.load τ = s.load τ := by
        intro τ h6 h7
        rw [hs]
        refine hf.ldOld τ h7 (fun n c j e e' => ?_)
        cases e
        subst e'
        simp [St.load, ha] at h6
      have ht' : Trail s'.load (hash k) cur lvl ls := h3.frame hsh (d := ls.length)
        (fun τ _ _ h6 h7 => heq τ h7 (fun e => by subst e; omega)) (Nat.le_refl _)
      refine .inr ⟨ls, ht', h4, ?_⟩
      rw [h5, h3.frozenOn (by omega), ht'.frozenOn (by omega)]
      obtain ⟨n, hn⟩ : ∃ n, 17 - ls.length = n + 1 := ⟨16 - ls.length, by omega⟩
      rw [hn]
      congr 1
      rw [pends, pends, hl, hld]
      simp only [Bool.false_eq_true, if_false, Nat.zero_add]
      cases n with
      | zero => rfl
      | succ n =>
        rw [pends, hs, hf.ldNew _ _ _ rfl]
        by_cases hc : chunk (hash k) lvl = i <;> simp [hc]

/-- Steps that only read. -/
theorem lim_read {pc' : Pc K V} {n n' : Nat} (hn : n' < n) (h : Lim hash s pc' n') :
    ∃ n' < n, Lim hash (s.at t pc') ((s.at t pc').thr t).pc n' :=
  ⟨n', hn, by rw [pc_at]; exact h.at t pc'⟩

theorem lim_ret {r : Option V} {n : Nat} (hn : 1 < n) : ∃ n' < n, Lim hash (s.at t (.ret r)) ((s.at t (.ret r)).thr t).pc n' :=
  ⟨1, hn, by rw [pc_at]; exact Nat.le_refl 1⟩

theorem CurOk.lt {k : K} {lvl : Nat} {cur : Slot} (hi : Inv hash s g e) (h : CurOk hash s g t k lvl cur) {w : Word} {c : Addr}
    (hl : s.load cur = some w) (hw : w.p = .node c) : lvl + LG ≤ 64 := by
  have := (hi.down h.slot hl hw h.on).2.2.2.1
  have h4 : LG = 4 := rfl
  rw [h.lvl, h4]
  omega

theorem CurOk.le {k : K} {lvl : Nat} {cur : Slot} (hi : Inv hash s g e) (h : CurOk hash s g t k lvl cur) :
    (g.slot cur).length ≤ 16 := by
  cases cur with
  | root => exact Nat.zero_le _
  | of b i =>
    obtain ⟨_, f, hf⟩ := h.slot
    have := hi.sh.depth b f hf
    simp only [Gh.slot, List.length_cons]
    omega

/-- Every step of a thread that is alone leaves fewer steps. -/
theorem lim_step {n : Nat} {a : Addr} {o : Option (Ev (Op K V) (Option V))} {pc : Pc K V} (hi : Inv hash s g e)
    (hok : PcOk hash s g t pc) (hg : goPc hash s t a pc = some (s', o)) (hl : Lim hash s pc n) :
    ∃ n' < n, Lim hash s' (s'.thr t).pc n' := by
  cases pc with
  | idle | fault | panic => cases hg
  | get => exact hl.elim
  | ret r =>
    simp only [goPc, Option.some.injEq, Prod.mk.injEq] at hg
    obtain ⟨rfl, _⟩ := hg
    exact ⟨0, hl, by rw [pc_at]; exact Nat.le_refl 0⟩
  | getData k b =>
    have hl : 2 ≤ n := hl
    simp only [goPc] at hg
    split at hg
    · simp only [Option.some.injEq, Prod.mk.injEq] at hg
      obtain ⟨rfl, _⟩ := hg
      exact lim_read (n' := 0) (by omega) (Nat.le_refl 0)
    · simp only [Option.some.injEq, Prod.mk.injEq] at hg
      obtain ⟨rfl, _⟩ := hg
      exact lim_ret (by omega)
  | retire b k =>
    simp only [goPc, Option.some.injEq, Prod.mk.injEq] at hg
    obtain ⟨rfl, _⟩ := hg
    rcases hl with ⟨k', h1, h2⟩ | hl
    · exact lim_read (s := { s with retired := s.retired ++ [(b, s.pinnedNow)] }) (Nat.lt_of_lt_of_le (Nat.sub_lt (by omega) Nat.one_pos) h2)
        (lim_root h1)
    · obtain ⟨n', h3, h4⟩ := lim_kont (hash := hash) (s := { s with retired := s.retired ++ [(b, s.pinnedNow)] }) k
      have hl : 1 + k.left ALL ≤ n := hl
      exact lim_read (by omega) h4
  | count ls p c i cnt r =>
    have hl : (16 - i) + 36 + 52 * ls.length ≤ n := hl
    simp only [goPc] at hg
    split at hg
    · split at hg
      · simp only [Option.some.injEq, Prod.mk.injEq] at hg
        obtain ⟨rfl, _⟩ := hg
        exact lim_read (n' := 0) (by omega) (Nat.le_refl 0)
      · simp only [Option.some.injEq, Prod.mk.injEq] at hg
        obtain ⟨rfl, _⟩ := hg
        exact lim_read (n' := (16 - (i + 1)) + 36 + 52 * ls.length) (by omega) (Nat.le_refl _)
    · split at hg
      · simp only [Option.some.injEq, Prod.mk.injEq] at hg
        obtain ⟨rfl, _⟩ := hg
        exact lim_ret (by omega)
      · simp only [Option.some.injEq, Prod.mk.injEq] at hg
        obtain ⟨rfl, _⟩ := hg
        exact lim_read (n' := 35 + 52 * ls.length) (by omega) (.inr (by simp only [Pc.left, Kont.left]; omega))
  | patch m k v lvl cur par =>
    have hb := hl.base
    simp only [goPc] at hg
    cases hw : s.load cur with
    | none =>
      simp only [hw, Option.some.injEq, Prod.mk.injEq] at hg
      obtain ⟨rfl, _⟩ := hg
      exact lim_read (n' := 0) (by omega) (Nat.le_refl 0)
    | some w =>
      obtain ⟨p, q⟩ := w
      simp only [hw] at hg
      cases q with
      | true =>
        simp only [if_true] at hg
        cases par with
        | none =>
          simp only [Option.some.injEq, Prod.mk.injEq] at hg
          obtain ⟨rfl, _⟩ := hg
          exact lim_read (n' := 0) (by omega) (Nat.le_refl 0)
        | some x =>
          simp only [Option.some.injEq, Prod.mk.injEq] at hg
          obtain ⟨rfl, _⟩ := hg
          rw [pc_at]
          exact Lim.At.froze hl hw rfl (fun ls h => h.symm) rfl rfl (load_at ..)
      | false =>
        simp only [Bool.false_eq_true, if_false] at hg
        cases p with
        | null =>
          simp only at hg
          split at hg
          · simp only [Option.some.injEq, Prod.mk.injEq] at hg
            obtain ⟨rfl, _⟩ := hg
            exact lim_ret (by omega)
          · simp only [Option.some.injEq, Prod.mk.injEq] at hg
            obtain ⟨rfl, _⟩ := hg
            rw [pc_at]
            exact Lim.At.next hl (by simp [load_at, hw, weigh]) (load_at ..)
        | leaf b =>
          simp only [Option.some.injEq, Prod.mk.injEq] at hg
          obtain ⟨rfl, _⟩ := hg
          rw [pc_at]
          exact Lim.At.next hl (by simp [load_at, hw, weigh]) (load_at ..)
        | node b =>
          simp only [Option.some.injEq, Prod.mk.injEq] at hg
          obtain ⟨rfl, _⟩ := hg
          rw [pc_at]
          exact Lim.At.down hl (hok.1.lt hi hw rfl) hw (fun ls _ => rfl) (load_at ..)
  | patchNew m k v lvl cur par =>
    have hb := hl.base
    simp only [goPc] at hg
    cases hw : s.load cur with
    | none =>
      simp only [hw, Option.some.injEq, Prod.mk.injEq] at hg
      obtain ⟨rfl, _⟩ := hg
      exact lim_read (n' := 0) (by omega) (Nat.le_refl 0)
    | some w =>
      simp only [hw] at hg
      split at hg
      · split at hg
        · cases hg
        · simp only [Option.some.injEq, Prod.mk.injEq] at hg
          obtain ⟨rfl, _⟩ := hg
          exact lim_ret (by omega)
      · rename_i hne
        simp only [Option.some.injEq, Prod.mk.injEq] at hg
        obtain ⟨rfl, _⟩ := hg
        rw [pc_at]
        have := weigh_le (s.load cur)
        exact Lim.At.next hl (by rw [load_at, if_neg (by rw [hw]; simpa using hne)]; omega) (load_at ..)
  | patchData m k v lvl cur par b =>
    have hb := hl.base
    have hnx : (if s.load cur = some ⟨.leaf b, false⟩ then 2 else 6) < if s.load cur = some ⟨.leaf b, false⟩ then 3 else 7 := by
      split <;> omega
    simp only [goPc] at hg
    repeat' split at hg
    all_goals
      simp only [Option.some.injEq, Prod.mk.injEq] at hg
      obtain ⟨rfl, _⟩ := hg
      first
        | exact lim_read (pc' := .fault) (n' := 0) (by omega) (Nat.le_refl 0)
        | exact lim_read (pc' := .panic) (n' := 0) (by omega) (Nat.le_refl 0)
        | exact lim_ret (by omega)
        | (rw [pc_at]; exact Lim.At.next hl (by rw [load_at]; exact hnx) (load_at ..))
  | patchSplit m k v lvl cur par b i =>
    have hb := hl.base
    simp only [goPc] at hg
    cases hw : s.load cur with
    | none =>
      simp only [hw, Option.some.injEq, Prod.mk.injEq] at hg
      obtain ⟨rfl, _⟩ := hg
      exact lim_read (n' := 0) (by omega) (Nat.le_refl 0)
    | some w =>
      simp only [hw] at hg
      split at hg
      · rename_i hwe
        split at hg
        · cases hg
        · rename_i hn
          simp only [Option.some.injEq, Prod.mk.injEq] at hg
          obtain ⟨rfl, _⟩ := hg
          rw [pc_at]
          subst hwe
          have hl : Lim.At hash s k lvl cur (par = ·.head?) (if s.load cur = some ⟨.leaf b, false⟩ then 2 else 6) n := hl
          rw [if_pos hw] at hl
          exact split_lim hi.sh hl hw hn (load_at ..)
      · rename_i hne
        simp only [Option.some.injEq, Prod.mk.injEq] at hg
        obtain ⟨rfl, _⟩ := hg
        rw [pc_at]
        have := weigh_le (s.load cur)
        exact Lim.At.next hl (by rw [load_at, if_neg (by rw [hw]; simpa using hne)]; omega) (load_at ..)
  | patchPut m k v lvl cur par b l r =>
    have hb := hl.base
    simp only [goPc] at hg
    cases hw : s.load cur with
    | none =>
      simp only [hw, Option.some.injEq, Prod.mk.injEq] at hg
      obtain ⟨rfl, _⟩ := hg
      exact lim_read (n' := 0) (by omega) (Nat.le_refl 0)
    | some w =>
      simp only [hw] at hg
      split at hg
      · split at hg
        · cases hg
        · simp only [Option.some.injEq, Prod.mk.injEq] at hg
          obtain ⟨rfl, _⟩ := hg
          exact lim_read (n' := 2) (by omega) (.inr (Nat.le_refl 2))
      · rename_i hne
        simp only [Option.some.injEq, Prod.mk.injEq] at hg
        obtain ⟨rfl, _⟩ := hg
        rw [pc_at]
        have := weigh_le (s.load cur)
        exact Lim.At.next hl (by rw [load_at, if_neg (by rw [hw]; simpa using hne)]; omega) (load_at ..)
  | del k lvl cur levels =>
    have hb := hl.base
    simp only [goPc] at hg
    cases hw : s.load cur with
    | none =>
      simp only [hw, Option.some.injEq, Prod.mk.injEq] at hg
      obtain ⟨rfl, _⟩ := hg
      exact lim_read (n' := 0) (by omega) (Nat.le_refl 0)
    | some w =>
      obtain ⟨p, q⟩ := w
      simp only [hw] at hg
      cases p with
      | null =>
        simp only [Option.some.injEq, Prod.mk.injEq] at hg
        obtain ⟨rfl, _⟩ := hg
        exact lim_ret (by omega)
      | leaf b =>
        cases q with
        | true =>
          simp only [if_true] at hg
          cases levels with
          | nil =>
            simp only [Option.some.injEq, Prod.mk.injEq] at hg
            obtain ⟨rfl, _⟩ := hg
            exact lim_read (n' := 0) (by omega) (Nat.le_refl 0)
          | cons x ls =>
            simp only [Option.some.injEq, Prod.mk.injEq] at hg
            obtain ⟨rfl, _⟩ := hg
            rw [pc_at]
            exact Lim.At.froze hl hw rfl (fun ls h => by rw [← h]; rfl) rfl rfl (load_at ..)
        | false =>
          simp only [Bool.false_eq_true, if_false, Option.some.injEq, Prod.mk.injEq] at hg
          obtain ⟨rfl, _⟩ := hg
          rw [pc_at]
          exact Lim.At.next hl (by simp [load_at, hw, weigh]) (load_at ..)
      | node b =>
        cases q with
        | true =>
          simp only [if_true] at hg
          cases levels with
          | nil =>
            simp only [Option.some.injEq, Prod.mk.injEq] at hg
            obtain ⟨rfl, _⟩ := hg
            exact lim_read (n' := 0) (by omega) (Nat.le_refl 0)
          | cons x ls =>
            simp only [Option.some.injEq, Prod.mk.injEq] at hg
            obtain ⟨rfl, _⟩ := hg
            rw [pc_at]
            exact Lim.At.froze hl hw rfl (fun ls h => by rw [← h]; rfl) rfl rfl (load_at ..)
        | false =>
          simp only [Bool.false_eq_true, if_false] at hg
          split at hg
          · simp only [Option.some.injEq, Prod.mk.injEq] at hg
            obtain ⟨rfl, _⟩ := hg
            rw [pc_at]
            exact Lim.At.down hl (hok.1.lt hi hw rfl) hw (fun ls h => by rw [h]) (load_at ..)
          · simp only [Option.some.injEq, Prod.mk.injEq] at hg
            obtain ⟨rfl, _⟩ := hg
            exact lim_read (n' := 0) (by omega) (Nat.le_refl 0)
  | delData k lvl cur levels b =>
    have hb := hl.base
    have hnx : (if s.load cur = some ⟨.leaf b, false⟩ then 2 else 6) < if s.load cur = some ⟨.leaf b, false⟩ then 3 else 7 := by
      split <;> omega
    simp only [goPc] at hg
    split at hg
    · simp only [Option.some.injEq, Prod.mk.injEq] at hg
      obtain ⟨rfl, _⟩ := hg
      exact lim_read (n' := 0) (by omega) (Nat.le_refl 0)
    · simp only [Option.some.injEq, Prod.mk.injEq] at hg
      obtain ⟨rfl, _⟩ := hg
      rw [pc_at]
      exact Lim.At.next hl (by rw [load_at]; exact hnx) (load_at ..)
  | delPut k lvl cur levels b l r =>
    have hb := hl.base
    have hlv : levels.length ≤ 16 := by rw [hok.1.2.2]; exact hok.1.1.le hi
    simp only [goPc] at hg
    cases hw : s.load cur with
    | none =>
      simp only [hw, Option.some.injEq, Prod.mk.injEq] at hg
      obtain ⟨rfl, _⟩ := hg
      exact lim_read (n' := 0) (by omega) (Nat.le_refl 0)
    | some w =>
      simp only [hw] at hg
      split at hg
      · split at hg
        · simp only [Option.some.injEq, Prod.mk.injEq] at hg
          obtain ⟨rfl, _⟩ := hg
          exact lim_read (n' := 1 + (52 * levels.length + 1)) (by omega) (.inr (Nat.le_refl _))
        · split at hg
          · cases hg
          · simp only [Option.some.injEq, Prod.mk.injEq] at hg
            obtain ⟨rfl, _⟩ := hg
            exact lim_read (n' := 1 + (52 * levels.length + 1)) (by omega) (.inr (Nat.le_refl _))
      · rename_i hne
        simp only [Option.some.injEq, Prod.mk.injEq] at hg
        obtain ⟨rfl, _⟩ := hg
        rw [pc_at]
        have := weigh_le (s.load cur)
        exact Lim.At.next hl (by rw [load_at, if_neg (by rw [hw]; simpa using hne)]; omega) (load_at ..)
  | czRead i b x =>
    have hpos := left_pos x.k
    simp only [goPc] at hg
    split at hg
    · split at hg
      · simp only [Option.some.injEq, Prod.mk.injEq] at hg
        obtain ⟨rfl, _⟩ := hg
        refine lim_read (n' := 0) ?_ (Nat.le_refl 0)
        rcases hl with ⟨k, _, _, hl⟩ | hl
        · omega
        · simp only [Pc.left] at hl; omega
      · simp only [Option.some.injEq, Prod.mk.injEq] at hg
        obtain ⟨rfl, _⟩ := hg
        rw [pc_at]
        rcases hl with ⟨k, h1, h2, hl⟩ | hl
        · refine ⟨n - 1, by omega, .inl ⟨k, h1, ?_, ?_⟩⟩
          · simp only [Near, load_at] at h2 ⊢; exact h2
          · simp only [load_at]; generalize frozenOn s.load (hash k) * TRY = y at *; omega
        · simp only [Pc.left] at hl
          exact ⟨n - 1, by omega, .inr (by simp only [Pc.left, Cz.see]; omega)⟩
    · cases hg
  | cz i x =>
    have hpos := left_pos x.k
    have hn0 : 2 ≤ n := by
      rcases hl with ⟨k, _, _, hl⟩ | hl
      · omega
      · simp only [Pc.left] at hl; omega
    simp only [goPc] at hg
    by_cases hi16 : i < 16
    · rw [dif_pos hi16] at hg
      cases hw : s.load (.of x.c ⟨i, hi16⟩) with
      | none =>
        simp only [hw, Option.some.injEq, Prod.mk.injEq] at hg
        obtain ⟨rfl, _⟩ := hg
        exact lim_read (n' := 0) (by omega) (Nat.le_refl 0)
      | some w =>
        have key : ∀ s2 : St K V, s2.load = (s.store (.of x.c ⟨i, hi16⟩) ⟨w.p, true⟩).load →
            (∀ b, ∃ n' < n, Lim hash s2 (.czRead i b x) n') ∧
            (∀ p, ∃ n' < n, Lim hash s2 (.cz (i + 1) (x.see ⟨i, hi16⟩ p 0)) n') := by
          intro s2 hs2
          rcases hl with ⟨k, h1, h2, hl⟩ | hl
          · obtain ⟨h3, h4⟩ := flag_frozen hi.sh h2 hw hs2
            exact ⟨fun b => ⟨n - 1, by omega, .inl ⟨k, h1, h3, by simp only [h4]; generalize frozenOn s.load (hash k) * TRY = y at *; omega⟩⟩,
              fun p => ⟨n - 1, by omega, .inl ⟨k, h1, h3, by simp only [h4]; generalize frozenOn s.load (hash k) * TRY = y at *; omega⟩⟩⟩
          · simp only [Pc.left] at hl
            exact ⟨fun b => ⟨n - 1, by omega, .inr (by simp only [Pc.left]; omega)⟩,
              fun p => ⟨n - 1, by omega, .inr (by simp only [Pc.left, Cz.see]; omega)⟩⟩
        simp only [hw] at hg
        split at hg
        · simp only [Option.some.injEq, Prod.mk.injEq] at hg
          obtain ⟨rfl, _⟩ := hg
          rw [pc_at]
          exact (key _ (load_at ..)).1 _
        · simp only [Option.some.injEq, Prod.mk.injEq] at hg
          obtain ⟨rfl, _⟩ := hg
          rw [pc_at]
          exact (key _ (load_at ..)).2 _
    · rw [dif_neg hi16] at hg
      have hok : CzOk s g t i x := hok
      have hi16' : i = 16 := by have := hok.le; omega
      subst hi16'
      cases hw : s.load x.p with
      | none =>
        simp only [hw, Option.some.injEq, Prod.mk.injEq] at hg
        obtain ⟨rfl, _⟩ := hg
        exact lim_read (n' := 0) (by omega) (Nat.le_refl 0)
      | some w =>
        simp only [hw] at hg
        split at hg
        · rename_i hwe
          subst hwe
          have key : ∀ (new : Option (Addr × Cell K V)) (p : Ptr) (s2 : St K V) (kt : Kont K V),
              (∀ n c, new = some (n, c) → s.heap n = none) → s2.load = (s.put new x.p ⟨p, false⟩).load →
              kt.key = x.k.key → kt.left ALL ≤ x.k.left ALL →
              (p.term ∨ ∃ a, p = .node a ∧ new = some (a, .branch fun j => ⟨x.acc j, false⟩)) →
              ∃ n' < n, Lim hash s2 (.retire x.c kt) n' := by
            intro new p s2 kt hnew hs2 hk1 hk2 hp
            have hf := put_facts (s := s) (new := new) (σ := x.p) (w := ⟨p, false⟩) hw hnew
            rcases hl with ⟨k, h1, ⟨lvl, ls, w, h2, h3, h4, h5⟩, hl⟩ | hl
            · refine ⟨n - 1, by omega, .inl ⟨k, by rw [hk1]; exact h1, ?_⟩⟩
              have : frozenOn s2.load (hash k) + 1 ≤ frozenOn s.load (hash k) := by
                refine swap_frozen hi.sh h2 h3 h4 h5 (fun τ h6 h7 => ?_) ?_
                · rw [hs2]
                  refine hf.ldOld τ h7 (fun n' c j e e' => ?_)
                  subst e'
                  simp [St.load, hnew n' c e] at h6
                · rw [hs2]
                  rcases hp with hp | ⟨a, hp, hnw⟩
                  · exact .inl ⟨p, hf.ld, hp⟩
                  · refine .inr ⟨a, by rw [hf.ld, hp], ?_⟩
                    rw [hf.ldNew a _ _ hnw]
                    obtain ⟨f, hfc, hfw⟩ := load_of h4
                    have := hok.acc f hfc (chunk (hash k) lvl) (chunk (hash k) lvl).isLt
                    rw [hfw] at this
                    rw [this]
              refine Nat.le_trans (Nat.mul_le_mul_right TRY this) ?_
              generalize frozenOn s.load (hash k) * TRY = y at *
              omega
            · simp only [Pc.left] at hl
              exact ⟨n - 1, by omega, .inr (by simp only [Pc.left]; omega)⟩
          split at hg
          · simp only [Option.some.injEq, Prod.mk.injEq] at hg
            obtain ⟨rfl, _⟩ := hg
            rw [pc_at]
            exact key none _ _ x.k (fun _ _ h => by cases h) (load_at ..) rfl (Nat.le_refl _) (.inl fun c h => by cases h)
          · simp only [Option.some.injEq, Prod.mk.injEq] at hg
            obtain ⟨rfl, _⟩ := hg
            rw [pc_at]
            exact key none _ _ x.k (fun _ _ h => by cases h) (load_at ..) rfl (Nat.le_refl _) (.inl fun c h => by cases h)
          · split at hg
            · cases hg
            · rename_i hn
              simp only [Option.some.injEq, Prod.mk.injEq] at hg
              obtain ⟨rfl, _⟩ := hg
              rw [pc_at]
              exact key (some (a, _)) _ _ x.k.restored (fun _ _ h => by cases h; exact hn) (load_at ..) (key_restored _)
                (left_restored _) (.inr ⟨a, rfl, rfl⟩)
        · rename_i hne
          simp only [Option.some.injEq, Prod.mk.injEq] at hg
          obtain ⟨rfl, _⟩ := hg
          rw [pc_at]
          rcases hl with ⟨k, _, ⟨_, _, _, _, h3, _⟩, _⟩ | hl
          · rw [h3] at hw; cases hw; exact absurd rfl hne
          · obtain ⟨n', h3, h4⟩ := lim_kont (hash := hash) (s := s) x.k
            simp only [Pc.left] at hl
            exact ⟨n', by omega, h4.at t _⟩

/-! ## What else holds in reachable states -/

def Kont.short : Kont K V → Prop
  | .up ls _ => ls.length ≤ 16
  | _ => True

/-- The array of levels is not longer than its capacity. -/
def Pc.short : Pc K V → Prop
  | .del _ _ _ ls => ls.length ≤ 16
  | .delData _ _ _ ls _ => ls.length ≤ 16
  | .delPut _ _ _ ls _ _ _ => ls.length ≤ 16
  | .count ls _ _ _ _ _ => ls.length ≤ 16
  | .cz _ x => x.k.short
  | .czRead _ _ x => x.k.short
  | .retire _ k => k.short
  | _ => True

/-- Between two steps of a thread. -/
theorem kont_short {k : Kont K V} (h : k.short) : (kontPc k).short := by
  cases k with
  | patch | ret => trivial
  | del => exact Nat.zero_le _
  | up ls r =>
    cases ls with
    | nil => trivial
    | cons x ls => have : ls.length + 1 ≤ 16 := h; show ls.length ≤ 16; omega

theorem restored_short {k : Kont K V} (h : k.short) : k.restored.short := by
  cases k <;> first | exact h | trivial

/-- What a step of a thread does to the threads, and what is seen of it. -/
theorem go_thr {a : Addr} {o : Option (Ev (Op K V) (Option V))} {pc : Pc K V} (hg : goPc hash s t a pc = some (s', o)) :
    ∃ pc', s'.thr = upd s.thr t ⟨(s.thr t).pinned, pc'⟩ ∧ (pc.short → pc'.short) ∧
      ((∃ r, pc = .ret r ∧ o = some (.ret t r) ∧ pc' = .idle) ∨ (o = none ∧ pc' ≠ .idle)) := by
  have hst : ∀ (s1 : St K V) σ w pc', s1.thr = s.thr → ((s1.store σ w).at t pc').thr = upd s.thr t ⟨(s.thr t).pinned, pc'⟩ := by
    intro s1 σ w pc' h
    simp only [St.at, (store_rest s1 σ w).2.2, h]
  have hno : ∀ k : Kont K V, kontPc k ≠ .idle := by
    intro k
    cases k with
    | patch | del | ret => intro h; cases h
    | up ls r => cases ls <;> intro h <;> cases h
  cases pc with
  | idle | fault | panic => cases hg
  | ret r =>
    simp only [goPc, Option.some.injEq, Prod.mk.injEq] at hg
    obtain ⟨rfl, rfl⟩ := hg
    exact ⟨.idle, rfl, fun _ => trivial, .inl ⟨r, rfl, rfl, rfl⟩⟩
  | retire b k =>
    simp only [goPc, Option.some.injEq, Prod.mk.injEq] at hg
    obtain ⟨rfl, rfl⟩ := hg
    exact ⟨kontPc k, rfl, fun h => kont_short h, .inr ⟨rfl, hno k⟩⟩
  | cz i x =>
    simp only [goPc] at hg
    repeat' split at hg
    all_goals first
      | (cases hg; done)
      | (simp only [Option.some.injEq, Prod.mk.injEq] at hg
         obtain ⟨rfl, rfl⟩ := hg
         first
           | exact ⟨_, rfl, fun _ => trivial, .inr ⟨rfl, fun h => by cases h⟩⟩
           | exact ⟨_, rfl, fun h => kont_short h, .inr ⟨rfl, hno _⟩⟩
           | exact ⟨_, hst s _ _ _ rfl, fun h => h, .inr ⟨rfl, fun h => by cases h⟩⟩
           | exact ⟨_, hst (s.alloc a _) _ _ _ rfl, fun h => restored_short h, .inr ⟨rfl, fun h => by cases h⟩⟩)
  | count ls p c i cnt r =>
    simp only [goPc] at hg
    repeat' split at hg
    all_goals
      simp only [Option.some.injEq, Prod.mk.injEq] at hg
      obtain ⟨rfl, rfl⟩ := hg
      first
        | exact ⟨_, rfl, fun h => h, .inr ⟨rfl, fun h => by cases h⟩⟩
        | exact ⟨_, rfl, fun _ => trivial, .inr ⟨rfl, fun h => by cases h⟩⟩
  | del k lvl cur ls =>
    simp only [goPc] at hg
    repeat' split at hg
    all_goals first
      | (cases hg; done)
      | (simp only [Option.some.injEq, Prod.mk.injEq] at hg
         obtain ⟨rfl, rfl⟩ := hg
         first
           | exact ⟨_, rfl, fun h => h, .inr ⟨rfl, fun h => by cases h⟩⟩
           | exact ⟨_, rfl, fun _ => trivial, .inr ⟨rfl, fun h => by cases h⟩⟩
           | (refine ⟨_, rfl, fun _ => ?_, .inr ⟨rfl, fun h => by cases h⟩⟩
              simp only [Pc.short, List.length_cons]; omega))
  | _ =>
    simp only [goPc] at hg
    repeat' split at hg
    all_goals first
      | (cases hg; done)
      | (simp only [Option.some.injEq, Prod.mk.injEq] at hg
         obtain ⟨rfl, rfl⟩ := hg
         first
           | exact ⟨_, rfl, fun _ => trivial, .inr ⟨rfl, fun h => by cases h⟩⟩
           | exact ⟨_, rfl, fun h => h, .inr ⟨rfl, fun h => by cases h⟩⟩
           | exact ⟨_, hst s _ _ _ rfl, fun h => h, .inr ⟨rfl, fun h => by cases h⟩⟩
           | exact ⟨_, hst s _ _ _ rfl, fun h => trivial, .inr ⟨rfl, fun h => by cases h⟩⟩
           | exact ⟨_, hst (s.alloc a _) _ _ _ rfl, fun h => trivial, .inr ⟨rfl, fun h => by cases h⟩⟩
           | exact ⟨_, hst (s.alloc a _) _ _ _ rfl, fun h => h, .inr ⟨rfl, fun h => by cases h⟩⟩)

theorem go_heap {a : Addr} {o : Option (Ev (Op K V) (Option V))} {pc : Pc K V} (hg : goPc hash s t a pc = some (s', o)) :
    ∀ b, b ≠ a → s.heap b = none → s'.heap b = none := by
  have hst : ∀ σ w pc' b, b ≠ a → s.heap b = none → ((s.store σ w).at t pc').heap b = none := fun σ w pc' b _ h => store_none h σ w
  have hal : ∀ c σ w pc' b, b ≠ a → s.heap b = none → (((s.alloc a c).store σ w).at t pc').heap b = none :=
    fun c σ w pc' b hb h => store_none (s := s.alloc a c) (by simp [St.alloc, setHeap, hb, h]) σ w
  cases pc with
  | idle | fault | panic => cases hg
  | _ =>
    simp only [goPc] at hg
    repeat' split at hg
    all_goals first
      | (cases hg; done)
      | (simp only [Option.some.injEq, Prod.mk.injEq] at hg
         obtain ⟨rfl, _⟩ := hg
         first
           | exact fun b _ h => h
           | exact hst _ _ _
           | exact hal _ _ _ _)

/-- Levels fit, and addresses are left. -/
structure More (s : St K V) : Prop where
  short : ∀ t, (s.thr t).pc.short
  room : ∃ n, ∀ a, n ≤ a → s.heap a = none

theorem More.step {x : Act K V} {o : Option (Ev (Op K V) (Option V))} (h : More s) (hx : exec hash s x = some (s', o)) : More s' := by
  obtain ⟨h1, n, h2⟩ := h
  have hu : ∀ t th, th.pc.short → ∀ u, (upd s.thr t th u).pc.short := by
    intro t th hth u
    by_cases e : u = t
    · subst e; simpa using hth
    · simpa [e] using h1 u
  cases x with
  | pin t =>
    simp only [exec] at hx
    split at hx
    · cases hx
    · simp only [Option.some.injEq, Prod.mk.injEq] at hx
      obtain ⟨rfl, _⟩ := hx
      exact ⟨hu t _ (h1 t), n, h2⟩
  | unpin t =>
    simp only [exec] at hx
    split at hx
    · split at hx
      · simp only [Option.some.injEq, Prod.mk.injEq] at hx
        obtain ⟨rfl, _⟩ := hx
        exact ⟨hu t _ trivial, n, h2⟩
      · cases hx
    · cases hx
  | call t op =>
    simp only [exec] at hx
    split at hx
    · split at hx
      · simp only [Option.some.injEq, Prod.mk.injEq] at hx
        obtain ⟨rfl, _⟩ := hx
        exact ⟨hu t ⟨_, startPc hash op⟩ (by cases op <;> first | trivial | exact Nat.zero_le _), n, h2⟩
      · cases hx
    · cases hx
  | go t a =>
    obtain ⟨pc', h3, h4, _⟩ := go_thr hx
    refine ⟨fun u => by rw [h3]; exact hu t _ (h4 (h1 t)) u, Nat.max n (a + 1), fun b hb => ?_⟩
    refine go_heap hx b ?_ (h2 b (Nat.le_trans (Nat.le_max_left ..) hb))
    rintro rfl
    exact Nat.not_succ_le_self _ (Nat.le_trans (Nat.le_max_right n (b + 1)) hb)
  | reclaim i =>
    simp only [exec] at hx
    split at hx
    · simp only [Option.some.injEq, Prod.mk.injEq] at hx
      obtain ⟨rfl, _⟩ := hx
      refine ⟨h1, n, fun b hb => ?_⟩
      simp only [setHeap]
      split
      · rfl
      · exact h2 b hb
    · cases hx

theorem More.run : ∀ {acts : List (Act K V)} {s s' : St K V} {evs : List (Ev (Op K V) (Option V))}, More s →
    Conc.run hash s acts = some (s', evs) → More s'
  | [], s, s', evs, hm, h => by
    simp only [Conc.run, Option.some.injEq, Prod.mk.injEq] at h
    obtain ⟨rfl, _⟩ := h
    exact hm
  | x :: xs, s, s', evs, hm, h => by
    simp only [Conc.run] at h
    cases hx : exec hash s x with
    | none => simp [hx] at h
    | some r =>
      obtain ⟨s1, o⟩ := r
      simp only [hx, Option.map_eq_some_iff, Prod.mk.injEq] at h
      obtain ⟨⟨s2, es⟩, hr, rfl, _⟩ := h
      exact More.run (hm.step hx) hr

theorem more_init : More (init : St K V) := ⟨fun _ => trivial, 0, fun _ _ => rfl⟩

/-- A thread in an operation can always do its next access. -/
theorem can_go (hi : Inv hash s g e) (hb : (s.thr t).pc ≠ .idle) {a : Addr} (ha : s.heap a = none) :
    ∃ s' o, goPc hash s t a (s.thr t).pc = some (s', o) := by
  have hok := (hi.tok t).ok
  generalize (s.thr t).pc = pc at *
  cases pc with
  | idle => exact absurd rfl hb
  | fault | panic => exact hok.elim
  | czRead i b x =>
    obtain ⟨_, _, ⟨l, hl⟩, h16, _⟩ := hok
    simp only [goPc, dif_pos h16, list_of hl]
    exact ⟨_, _, rfl⟩
  | del k lvl cur ls =>
    obtain ⟨w, hw⟩ := hok.1.slot.load
    obtain ⟨p, q⟩ := w
    simp only [goPc, hw]
    cases p <;> cases q <;> cases ls <;> simp <;> first | exact ⟨_, _, rfl⟩ | (split <;> exact ⟨_, _, rfl⟩)
  | ret | retire => exact ⟨_, _, rfl⟩
  | _ =>
    simp only [goPc, ha]
    repeat' split
    all_goals exact ⟨_, _, rfl⟩

/-! ## The theorems -/

theorem run_go {a : Addr} {as : List Addr} {evs : List (Ev (Op K V) (Option V))}
    (h : run hash s ((a :: as).map (.go t)) = some (s', evs)) :
    ∃ s1 o es, goPc hash s t a (s.thr t).pc = some (s1, o) ∧ run hash s1 (as.map (.go t)) = some (s', es) ∧
      evs = o.toList ++ es := by
  simp only [List.map_cons, run] at h
  cases hx : exec hash s (.go t a) with
  | none => simp [hx] at h
  | some r =>
    obtain ⟨s1, o⟩ := r
    simp only [hx, Option.map_eq_some_iff, Prod.mk.injEq] at h
    obtain ⟨⟨s2, es⟩, hr, rfl, rfl⟩ := h
    exact ⟨s1, o, es, hx, hr, rfl⟩

theorem lim_run : ∀ {as : List Addr} {s s' : St K V} {g : Gh} {e : ESt (K → Option V) (Op K V) (Option V)} {n : Nat}
    {evs : List (Ev (Op K V) (Option V))}, Inv hash s g e → Lim hash s (s.thr t).pc n →
    run hash s (as.map (.go t)) = some (s', evs) → as.length ≤ n
  | [], _, _, _, _, _, _, _, _, _ => Nat.zero_le _
  | a :: as, s, s', g, e, n, evs, hi, hl, h => by
    obtain ⟨s1, o, es, h1, h2, _⟩ := run_go h
    obtain ⟨g1, e1, hi1, _⟩ := step (x := .go t a) hi h1
    obtain ⟨n1, h3, h4⟩ := lim_step hi (hi.tok t).ok h1 hl
    have := lim_run hi1 h4 h2
    simp only [List.length_cons]
    omega

/-- A lookup goes down one level with every step. -/
theorem get_run : ∀ {as : List Addr} {s s' : St K V} {g g0 : Gh} {e : ESt (K → Option V) (Op K V) (Option V)}
    {m : K → Option V} {evs : List (Ev (Op K V) (Option V))} {k : K} {cur : Slot} {h : UInt64}, Inv hash s g0 e → Shared hash s g m →
    (s.thr t).pc = .get k cur h → SlotOk s g t cur → run hash s (as.map (.go t)) = some (s', evs) →
    as.length + (g.slot cur).length ≤ 19
  | as, s, s', g, g0, e, m, evs, k, cur, h, hi, hs, hpc, hok, hr => by
    have h16 : (g.slot cur).length ≤ 16 := by
      cases cur with
      | root => exact Nat.zero_le _
      | of b i =>
        obtain ⟨_, f, hf⟩ := hok
        have := hs.depth b f hf
        simp only [Gh.slot, List.length_cons]
        omega
    cases as with
    | nil => simp only [List.length_nil]; omega
    | cons a as =>
      obtain ⟨s1, o, es, h1, h2, _⟩ := run_go hr
      obtain ⟨g1, e1, hi1, _⟩ := step (x := .go t a) hi h1
      rw [hpc] at h1
      obtain ⟨w, hw⟩ := hok.load
      simp only [goPc, hw] at h1
      simp only [List.length_cons]
      cases hp : w.p with
      | null =>
        simp only [hp, Option.some.injEq, Prod.mk.injEq] at h1
        obtain ⟨rfl, _⟩ := h1
        have := lim_run (n := 1) hi1 (by rw [pc_at]; exact Nat.le_refl 1) h2
        omega
      | leaf b =>
        simp only [hp, Option.some.injEq, Prod.mk.injEq] at h1
        obtain ⟨rfl, _⟩ := h1
        have := lim_run (n := 2) hi1 (by rw [pc_at]; exact Nat.le_refl 2) h2
        omega
      | node b =>
        simp only [hp, Option.some.injEq, Prod.mk.injEq] at h1
        obtain ⟨rfl, _⟩ := h1
        have : Safe g t b ∧ g.path b = g.slot cur ∧ ∃ f, s.heap b = some (.branch f) := by
          cases cur with
          | root =>
            obtain ⟨h3, h4, h5⟩ := hs.node .root w b trivial hw hp
            exact ⟨.inl h3, h4, h5⟩
          | of c i =>
            obtain ⟨h3 | ⟨D, h3, hD⟩, f, hf⟩ := hok
            · obtain ⟨h3, h4, h5⟩ := hs.node (.of c i) w b h3 hw hp
              exact ⟨.inl h3, h4, h5⟩
            · obtain ⟨f', hf', rfl⟩ := load_of hw
              exact hs.goneN c D f' t i b h3 hf' hD hp
        obtain ⟨h3, h4, f, h5⟩ := this
        have := get_run hi1 (hs.at t _) (pc_at ..) (show SlotOk _ g t (.of b (chunk h 0)) from ⟨h3, f, h5⟩) h2
        rw [show g.slot (.of b (chunk h 0)) = chunk h 0 :: g.path b from rfl, h4, List.length_cons] at this
        omega

/-- **C88.** Wherever a thread has been stopped in an operation on the primary index, and wherever all other threads have been
stopped: if it goes on alone, it does so for at most 19755 accesses. -/
theorem C88_bounded {acts : List (Act K V)} {s s' : St K V} {evs evs' : List (Ev (Op K V) (Option V))} {t : Tid} {as : List Addr}
    (h : run hash init acts = some (s, evs)) (h' : run hash s (as.map (.go t)) = some (s', evs')) : as.length ≤ 19755 := by
  obtain ⟨g, e, hi, _⟩ := run_inv (inv_init (hash := hash)) h
  have hsh := (more_init.run h).short t
  have hA : ∀ k lvl cur ok w, w ≤ 7 → Lim.At hash s k lvl cur ok w 19755 :=
    fun k lvl cur ok w hw => ⟨ALL, .inl rfl, by omega⟩
  have hW := fun o => Nat.le_trans (weigh_le o) (by decide : 4 ≤ 7)
  have hI : ∀ (c : Prop) [Decidable c] (x y : Nat), x ≤ 7 → y ≤ 7 → (if c then x else y) ≤ 7 := by
    intro c _ x y hx hy; split <;> assumption
  have hK : ∀ k : Kont K V, k.short → k.left ALL ≤ ALL := by
    intro k hk
    cases k with
    | patch | del => exact Nat.le_refl _
    | ret => show 1 ≤ ALL; omega
    | up ls r => have : ls.length ≤ 16 := hk; simp only [Kont.left]; omega
  by_cases hget : ∃ k cur hh, (s.thr t).pc = .get k cur hh
  · obtain ⟨k, cur, hh, hpc⟩ := hget
    have hok := (hi.tok t).ok
    rw [hpc] at hok
    have := get_run hi hi.sh hpc hok.1 h'
    omega
  · refine lim_run hi ?_ h'
    generalize (s.thr t).pc = pc at hsh hget
    cases pc with
    | get k cur hh => exact absurd ⟨k, cur, hh, rfl⟩ hget
    | patch => exact hA _ _ _ _ _ (hW _)
    | patchNew => exact hA _ _ _ _ _ (hI _ _ _ (by omega) (by omega))
    | patchData => exact hA _ _ _ _ _ (hI _ _ _ (by omega) (by omega))
    | patchSplit => exact hA _ _ _ _ _ (hI _ _ _ (by omega) (by omega))
    | patchPut => exact hA _ _ _ _ _ (hI _ _ _ (by omega) (by omega))
    | del => exact hA _ _ _ _ _ (hW _)
    | delData => exact hA _ _ _ _ _ (hI _ _ _ (by omega) (by omega))
    | delPut => exact hA _ _ _ _ _ (hI _ _ _ (by omega) (by omega))
    | cz i x => exact .inr (by have := hK _ hsh; simp only [Pc.left]; omega)
    | czRead i b x => exact .inr (by have := hK _ hsh; simp only [Pc.left]; omega)
    | retire b k => exact .inr (by have := hK _ hsh; simp only [Pc.left]; omega)
    | count ls p c i cnt r => have : ls.length ≤ 16 := hsh; simp only [Lim, Pc.left]; omega
    | idle | ret | getData | fault | panic => simp only [Lim, Pc.left]; omega

theorem alone_done : ∀ (n : Nat) {s : St K V} {g : Gh} {e : ESt (K → Option V) (Op K V) (Option V)}, Inv hash s g e → More s →
    (s.thr t).pc ≠ .idle → (∀ (as : List Addr) s' evs, run hash s (as.map (.go t)) = some (s', evs) → as.length ≤ n) →
    ∃ (as : List Addr) (s' : St K V) (r : Option V), as.length ≤ n ∧ run hash s (as.map (.go t)) = some (s', [.ret t r]) ∧ (s'.thr t).pc = .idle
  | n, s, g, e, hi, hm, hb, hn => by
    obtain ⟨N, hN⟩ := hm.room
    obtain ⟨s1, o, h1⟩ := can_go hi hb (hN N (Nat.le_refl _))
    have hx : exec hash s (.go t N) = some (s1, o) := h1
    have hr : ∀ (as : List Addr) s2 es, run hash s1 (as.map (.go t)) = some (s2, es) →
        run hash s ((N :: as).map (.go t)) = some (s2, o.toList ++ es) := by
      intro as s2 es h
      simp only [List.map_cons, run, hx, h, Option.map_some]
    cases n with
    | zero => exact absurd (hn [N] s1 _ (hr [] s1 [] rfl)) (by simp)
    | succ n =>
      obtain ⟨pc', h2, _, h3⟩ := go_thr h1
      have hpc : (s1.thr t).pc = pc' := by rw [h2]; simp
      rcases h3 with ⟨r, _, rfl, rfl⟩ | ⟨rfl, h3⟩
      · exact ⟨[N], s1, r, by simp, hr [] s1 [] rfl, hpc⟩
      · obtain ⟨g1, e1, hi1, _⟩ := step (x := .go t N) hi h1
        obtain ⟨as, s2, r, h4, h5, h6⟩ := alone_done n hi1 (hm.step hx) (by rw [hpc]; exact h3)
          (fun as s2 es h => by
            have := hn _ _ _ (hr as s2 es h)
            simp only [List.length_cons] at this
            omega)
        exact ⟨N :: as, s2, r, by simp only [List.length_cons]; omega, hr as s2 _ h5, h6⟩

/-- **C88.** And it does not stop before the operation has returned: no thread ever waits for another. -/
theorem C88_done {acts : List (Act K V)} {s : St K V} {evs : List (Ev (Op K V) (Option V))} {t : Tid}
    (h : run hash init acts = some (s, evs)) (hb : (s.thr t).pc ≠ .idle) :
    ∃ (as : List Addr) (s' : St K V) (r : Option V), as.length ≤ 19755 ∧ run hash s (as.map (.go t)) = some (s', [.ret t r]) ∧ (s'.thr t).pc = .idle := by
  obtain ⟨g, e, hi, _⟩ := run_inv (inv_init (hash := hash)) h
  exact alone_done 19755 hi (more_init.run h) hb (fun as s' evs h' => C88_bounded h h')

/-! ## Lookups whatever the others do -/

/-- A step of the thread `t`. -/
def Act.isGo (t : Tid) : Act K V → Bool
  | .go u _ => u = t
  | _ => false

theorem other_pc {x : Act K V} {o : Option (Ev (Op K V) (Option V))} (hx : exec hash s x = some (s', o)) (hg : x.isGo t = false)
    (hb : (s.thr t).pc ≠ .idle) : (s'.thr t).pc = (s.thr t).pc := by
  cases x with
  | pin u =>
    simp only [exec] at hx
    split at hx
    · cases hx
    · simp only [Option.some.injEq, Prod.mk.injEq] at hx
      obtain ⟨rfl, _⟩ := hx
      by_cases e : t = u
      · subst e; simp
      · simp [e]
  | unpin u =>
    simp only [exec] at hx
    split at hx
    · rename_i hu
      split at hx
      · simp only [Option.some.injEq, Prod.mk.injEq] at hx
        obtain ⟨rfl, _⟩ := hx
        have e : t ≠ u := by rintro rfl; exact hb hu
        simp [e]
      · cases hx
    · cases hx
  | call u op =>
    simp only [exec] at hx
    split at hx
    · rename_i hu
      split at hx
      · simp only [Option.some.injEq, Prod.mk.injEq] at hx
        obtain ⟨rfl, _⟩ := hx
        have e : t ≠ u := by rintro rfl; exact hb hu
        simp [St.at, e]
      · cases hx
    · cases hx
  | go u a =>
    obtain ⟨pc', h, _⟩ := go_thr hx
    have e : t ≠ u := by rintro rfl; simp [Act.isGo] at hg
    rw [h]; simp [e]
  | reclaim n =>
    simp only [exec] at hx
    split at hx
    · simp only [Option.some.injEq, Prod.mk.injEq] at hx
      obtain ⟨rfl, _⟩ := hx
      rfl
    · cases hx

/-- How many accesses a lookup has left before it returns. -/
def Pc.ahead (g : Gh) : Pc K V → Option Nat
  | .get _ cur _ => some (18 - (g.slot cur).length)
  | .getData _ _ => some 1
  | .ret _ => some 0
  | _ => none

theorem ahead_run : ∀ {acts : List (Act K V)} {s s' : St K V} {g : Gh} {e : ESt (K → Option V) (Op K V) (Option V)} {n : Nat}
    {evs : List (Ev (Op K V) (Option V))}, Inv hash s g e → (s.thr t).pc.ahead g = some n → run hash s acts = some (s', evs) →
    (∀ r, .ret t r ∉ evs) → (acts.filter (Act.isGo t)).length ≤ n
  | [], _, _, _, _, _, _, _, _, _, _ => Nat.zero_le _
  | x :: xs, s, s', g, e, n, evs, hi, hn, h, hno => by
    simp only [run] at h
    cases hx : exec hash s x with
    | none => simp [hx] at h
    | some r =>
      obtain ⟨s1, o⟩ := r
      simp only [hx, Option.map_eq_some_iff, Prod.mk.injEq] at h
      obtain ⟨⟨s2, es⟩, hr, rfl, rfl⟩ := h
      obtain ⟨g1, e1, hi1, _, hpath⟩ := step hi hx
      have hno1 : ∀ r, Ev.ret t r ∉ es := fun r hm => hno r (List.mem_append_right _ hm)
      cases hg : x.isGo t with
      | false =>
        rw [List.filter_cons_of_neg (by simp [hg])]
        refine ahead_run hi1 ?_ hr hno1
        rw [other_pc hx hg (fun e => by rw [e] at hn; cases hn)]
        have hok := (hi.tok t).ok
        generalize (s.thr t).pc = pc at hn hok
        cases pc with
        | get k cur hh =>
          rw [← hn]
          simp only [Pc.ahead]
          cases cur with
          | root => rfl
          | of b i =>
            obtain ⟨⟨_, f, hf⟩, _⟩ := hok
            simp only [Gh.slot, hpath b (by simp [hf])]
        | getData | ret => exact hn
        | _ => cases hn
      | true =>
        rw [List.filter_cons_of_pos hg, List.length_cons]
        cases x with
        | pin | unpin | call | reclaim => cases hg
        | go u a =>
          have hu : u = t := by simpa [Act.isGo] using hg
          have hok := (hi.tok t).ok
          have hx : goPc hash s t a (s.thr t).pc = some (s1, o) := by rw [hu] at hx; exact hx
          cases hpc : (s.thr t).pc with
          | get k cur hh =>
            rw [hpc] at hn hok hx
            obtain ⟨hslot, hon, _⟩ := hok
            have h16 : (g.slot cur).length ≤ 16 := by
              cases cur with
              | root => exact Nat.zero_le _
              | of b i =>
                obtain ⟨_, f, hf⟩ := hslot
                have := hi.sh.depth b f hf
                simp only [Gh.slot, List.length_cons]
                omega
            obtain ⟨w, hw⟩ := hslot.load
            simp only [Pc.ahead, Option.some.injEq] at hn
            simp only [goPc, hw] at hx
            cases hp : w.p with
            | null =>
              simp only [hp, Option.some.injEq, Prod.mk.injEq] at hx
              obtain ⟨rfl, _⟩ := hx
              have := ahead_run hi1 (by rw [pc_at]; rfl) hr hno1
              omega
            | leaf b =>
              simp only [hp, Option.some.injEq, Prod.mk.injEq] at hx
              obtain ⟨rfl, _⟩ := hx
              have := ahead_run hi1 (by rw [pc_at]; rfl) hr hno1
              omega
            | node b =>
              simp only [hp, Option.some.injEq, Prod.mk.injEq] at hx
              obtain ⟨rfl, _⟩ := hx
              obtain ⟨_, h2, f, h3⟩ := hi.readNode hslot hw hp
              have := ahead_run hi1 (by rw [pc_at]; rfl) hr hno1
              rw [show g1.slot (.of b (chunk hh 0)) = chunk hh 0 :: g1.path b from rfl, hpath b (by simp [h3]), h2,
                List.length_cons] at this
              omega
          | getData k b =>
            rw [hpc] at hn hx hok
            obtain ⟨_, l, hl⟩ := hok
            cases hn
            simp only [goPc, list_of hl, Option.some.injEq, Prod.mk.injEq] at hx
            obtain ⟨rfl, _⟩ := hx
            have := ahead_run hi1 (by rw [pc_at]; rfl) hr hno1
            omega
          | ret r =>
            rw [hpc] at hx
            simp only [goPc, Option.some.injEq, Prod.mk.injEq] at hx
            obtain ⟨_, rfl⟩ := hx
            exact absurd (List.mem_append_left _ (by simp)) (hno r)
          | _ => rw [hpc] at hn; cases hn

/-- **C88.** A lookup returns with its 19th access at the latest, whatever the other threads do meanwhile. -/
theorem C88_lookup {acts acts' : List (Act K V)} {s s' : St K V} {evs evs' : List (Ev (Op K V) (Option V))} {t : Tid} {k : K}
    (h : run hash init acts = some (s, evs)) (hc : (s.thr t).pc = startPc hash (.get k))
    (h' : run hash s acts' = some (s', evs')) (hno : ∀ r, .ret t r ∉ evs') : (acts'.filter (Act.isGo t)).length ≤ 18 := by
  obtain ⟨g, e, hi, _⟩ := run_inv (inv_init (hash := hash)) h
  exact ahead_run hi (by rw [hc]; rfl) h' hno

/-! Thread 0 was stopped in the middle of a compression (`sched2`): thread 1 finds a frozen pointer, completes the compression
itself, starts again at the root and inserts its key, in 28 accesses; and thread 0 then needs 47 more. -/

def stopped : List (Act Nat Nat) :=
  two ++ [.call 1 (.insert 33 30)] ++ gos 1 2 0 ++ [.call 0 (.delete 17)] ++ gos 0 30 100

example : (run UInt64.ofNat init (stopped ++ gos 1 28 200)).map (·.2.getLast?) = some (some (.ret 1 none)) := by decide +kernel
example : (run UInt64.ofNat init (stopped ++ gos 1 29 200)).isNone = true := by decide +kernel
example : (run UInt64.ofNat init (stopped ++ gos 1 28 200 ++ gos 0 47 300)).map (·.2.getLast?) = some (some (.ret 0 (some 20))) := by
  decide +kernel
example : (run UInt64.ofNat init (stopped ++ gos 1 28 200 ++ gos 0 48 300)).isNone = true := by decide +kernel

/-- An insertion, on the other hand, can be kept from returning by others: whenever thread 1 has found the place for its key empty,
thread 0 puts its own key there, and removes it again when thread 1 has seen it. -/
def teased (n : Nat) : List (Act Nat Nat) :=
  [.pin 0, .pin 1, .call 1 (.insert 1 5)] ++ gos 1 1 0 ++
    (List.range n).flatMap fun i => [.call 0 (.insert 1 10)] ++ gos 0 3 (20 * i) ++ gos 1 1 0 ++
      [.call 0 (.delete 1)] ++ gos 0 5 (20 * i + 5) ++ gos 1 1 0

/-- After twelve rounds thread 0 has done 24 operations, and thread 1 has not done its one. -/
example : (run UInt64.ofNat init (teased 12)).map (fun r => r.2.filter fun
    | .ret 1 _ => true
    | .call 1 _ => true
    | _ => false) = some [Ev.call 1 (.insert 1 5)] := by decide +kernel
example : (run UInt64.ofNat init (teased 12)).map (fun r => (r.2.filter fun
    | .ret 0 _ => true
    | _ => false).length) = some 24 := by decide +kernel
/-- As soon as it is left alone it finishes. -/
example : (run UInt64.ofNat init (teased 12 ++ gos 1 2 900)).map (·.2.getLast?) = some (some (.ret 1 none)) := by decide +kernel

/-- A lookup that is in a branch while it is taken away needs four accesses (`sched1`). -/
example : (run UInt64.ofNat init sched1).map (·.2.getLast?) = some (some (.ret 1 none)) ∧ (sched1.filter (Act.isGo 1)).length = 4 := by
  decide +kernel

end Verif.Trie.Conc

import Verif.Net.Exchange
import Verif.Num.Theorems
/-!
C22 and C23: query packets.
-/
namespace Verif.Net

open Num (isDigit AllDigits digitsVal valFrom decimal digit_low valFrom_ge)
open Lex (ascii)

/-! ### Specification -/

/-- The bytes of a query packet as the protocol defines them: `S`, the number of bytes that follow
the first line feed, LF, the length of the query text, LF, the text, the parameters. -/
def packet (q params : Bytes) : Bytes :=
  let body := decimal q.length ++ 10 :: (q ++ params)
  83 :: (decimal body.length ++ 10 :: body)

/-! ### Scanning lengths -/

theorem scanInt_digits {ds : Bytes} (hd : AllDigits ds) {acc : Nat} (hv : valFrom acc ds < 2 ^ 64)
    (rest : Bytes) :
    scanInt ds acc = .pending (valFrom acc ds) ∧
    scanInt (ds ++ 10 :: rest) acc = .completed (valFrom acc ds) rest := by
  induction ds generalizing acc with
  | nil => simp [scanInt, valFrom]
  | cons d ds ih =>
    have hdd := hd d (by simp)
    have hl := digit_low d hdd
    have hge := valFrom_ge (acc * 10 + (d.toNat - 48)) ds
    have hv' : valFrom (acc * 10 + (d.toNat - 48)) ds < 2 ^ 64 := hv
    have := ih (fun b hb => hd b (by simp [hb])) hv'
    simp only [List.cons_append, scanInt, hl.2, if_false, hdd, hl.1, true_and]
    rw [if_pos (by omega), if_pos (by omega)]
    exact this

theorem valFrom_append (a : Nat) (x y : Bytes) : valFrom (valFrom a x) y = valFrom a (x ++ y) := by
  simp [valFrom, List.foldl_append]

/-! ### Invariant of a packet under way -/

section
variable (q params : Bytes)

/-- Body of the packet. -/
def bodyOf : Bytes := decimal q.length ++ 10 :: (q ++ params)

/-- Size field. -/
def sizeOf' : Bytes := decimal (bodyOf q params).length

theorem packet_eq : packet q params = 83 :: (sizeOf' q params ++ 10 :: bodyOf q params) := rfl

theorem packet_length : (packet q params).length = (sizeOf' q params).length + 2 + (bodyOf q params).length := by
  rw [packet_eq]; simp; omega

/-- Where a connection stands that has received the strict prefix `r` of the packet. -/
inductive Inv : Bytes → Conn → Prop where
  | init (r : Bytes) : r.length < 5 → Inv r ⟨r, 0, XState.new⟩
  | m1 (a : Bytes) (t : Nat) : a <+: sizeOf' q params → t ≤ a.length + 2 →
      Inv (83 :: a) ⟨83 :: a, a.length + 1, ⟨.pendingMeta1, t, digitsVal a, 0⟩⟩
  | m2 (b x : Bytes) : b <+: decimal q.length →
      Inv (83 :: (sizeOf' q params ++ 10 :: (b ++ x)))
        ⟨83 :: (sizeOf' q params ++ 10 :: (b ++ x)), (sizeOf' q params).length + 2 + b.length,
          ⟨.pendingMeta2, (packet q params).length, (bodyOf q params).length, digitsVal b⟩⟩
  | m3 (d : Bytes) :
      Inv (83 :: (sizeOf' q params ++ 10 :: (decimal q.length ++ 10 :: d)))
        ⟨83 :: (sizeOf' q params ++ 10 :: (decimal q.length ++ 10 :: d)),
          (sizeOf' q params).length + 2 + (decimal q.length).length + 1,
          ⟨.pendingData, (packet q params).length, (bodyOf q params).length, q.length⟩⟩

/-- The right result of a resume with the prefix `r` of the packet. -/
def Good (r : Bytes) (res : XResult) : Prop :=
  (r = packet q params ∧ res = .completed (q ++ params) q.length) ∨
  (r ≠ packet q params ∧ ∃ s cur, res = .change s cur ∧ Inv q params r ⟨r, cur, s⟩)

theorem size_val : digitsVal (sizeOf' q params) = (bodyOf q params).length := Num.digitsVal_decimal _

theorem prefix_digits {a A : Bytes} (h : a <+: A) (hA : AllDigits A) : AllDigits a := by
  obtain ⟨t, rfl⟩ := h
  exact fun b hb => hA b (by simp [hb])

theorem prefix_val {a A : Bytes} (h : a <+: A) : digitsVal a ≤ digitsVal A := by
  obtain ⟨t, rfl⟩ := h
  rw [Num.digitsVal_append]
  exact valFrom_ge _ _

theorem good_data (st : XInternal) (d : Bytes) (hd : d <+: q ++ params) :
    Good q params (83 :: (sizeOf' q params ++ 10 :: (decimal q.length ++ 10 :: d)))
      (resumeData ⟨st, (packet q params).length, (bodyOf q params).length, q.length⟩
        (83 :: (sizeOf' q params ++ 10 :: (decimal q.length ++ 10 :: d))).length d) := by
  have hc : (83 :: (sizeOf' q params ++ 10 :: (decimal q.length ++ 10 :: d))).length - d.length =
      (sizeOf' q params).length + 2 + (decimal q.length).length + 1 := by simp; omega
  have hp : (packet q params).length =
      (sizeOf' q params).length + 2 + (decimal q.length).length + 1 + (q ++ params).length := by
    rw [packet_length]; simp [bodyOf]; omega
  obtain ⟨t, ht⟩ := hd
  have hl : d.length + t.length = (q ++ params).length := by rw [← ht]; simp
  have hsub : subW (packet q params).length
      ((sizeOf' q params).length + 2 + (decimal q.length).length + 1) = (q ++ params).length := by
    unfold subW; rw [if_pos (by omega)]; omega
  unfold resumeData
  simp only [hc]
  rw [hsub]
  by_cases h : t = []
  · subst h
    simp only [List.append_nil] at ht
    subst ht
    left
    simp [packet_eq, bodyOf]
  · right
    have : t.length ≠ 0 := by simpa using h
    refine ⟨?_, ?_⟩
    · rw [packet_eq, bodyOf]
      intro e
      simp only [List.cons.injEq, true_and, List.append_cancel_left_eq] at e
      rw [← ht] at e
      have := congrArg List.length e
      simp at this; exact h this
    · rw [if_neg (by omega)]
      exact ⟨_, _, rfl, .m3 d⟩

variable (hlen : (packet q params).length < 2 ^ 64)
include hlen

theorem good_md2 (st : XInternal) (b y : Bytes) (hb : b <+: decimal q.length)
    (hy : b ++ y <+: bodyOf q params) :
    Good q params (83 :: (sizeOf' q params ++ 10 :: (b ++ y)))
      (resumeMd2 ⟨st, (packet q params).length, (bodyOf q params).length, digitsVal b⟩
        (83 :: (sizeOf' q params ++ 10 :: (b ++ y))).length y) := by
  have hq : q.length < 2 ^ 64 := by
    have := packet_length q params
    simp [bodyOf] at this; omega
  have hdig := Num.decimal_digits q.length
  have hval := Num.digitsVal_decimal q.length
  obtain ⟨t, ht⟩ := hy
  unfold bodyOf at ht
  rcases List.append_eq_append_iff.1 ht with ⟨u, hu, -⟩ | ⟨d, hd, hd'⟩
  · -- all of it are digits of the query length
    have hby : b ++ y <+: decimal q.length := ⟨u, hu.symm⟩
    have hv : valFrom (digitsVal b) y < 2 ^ 64 := by
      rw [← Num.digitsVal_append]
      have := prefix_val hby
      omega
    have hyd : AllDigits y := fun c hc => prefix_digits hby hdig c (by simp [hc])
    unfold resumeMd2
    simp only [(scanInt_digits hyd hv []).1]
    right
    refine ⟨?_, _, _, rfl, ?_⟩
    · rw [packet_eq, bodyOf]
      intro e
      simp only [List.cons.injEq, true_and, List.append_cancel_left_eq] at e
      have hmem : (10 : UInt8) ∈ b ++ y := by rw [e]; simp
      have := prefix_digits hby hdig 10 hmem
      simp [isDigit] at this
    · have := Inv.m2 (q := q) (params := params) (b ++ y) [] hby
      simp only [List.append_nil] at this
      rw [Num.digitsVal_append] at this
      have e : (83 :: (sizeOf' q params ++ 10 :: (b ++ y))).length =
        (sizeOf' q params).length + 2 + (b ++ y).length := by simp; omega
      rw [e]
      exact this
  · -- the query length is complete
    cases d with
    | nil =>
      simp only [List.append_nil] at hd
      have hby : b ++ y <+: decimal q.length := ⟨[], by rw [hd]; simp⟩
      have hv : valFrom (digitsVal b) y < 2 ^ 64 := by
        rw [← Num.digitsVal_append]
        have := prefix_val hby
        omega
      have hyd : AllDigits y := fun c hc => prefix_digits hby hdig c (by simp [hc])
      unfold resumeMd2
      simp only [(scanInt_digits hyd hv []).1]
      right
      refine ⟨?_, _, _, rfl, ?_⟩
      · rw [packet_eq, bodyOf]
        intro e
        simp only [List.cons.injEq, true_and, List.append_cancel_left_eq] at e
        have hmem : (10 : UInt8) ∈ b ++ y := by rw [e]; simp
        have := prefix_digits hby hdig 10 hmem
        simp [isDigit] at this
      · have := Inv.m2 (q := q) (params := params) (b ++ y) [] hby
        simp only [List.append_nil] at this
        rw [Num.digitsVal_append] at this
        have e : (83 :: (sizeOf' q params ++ 10 :: (b ++ y))).length =
          (sizeOf' q params).length + 2 + (b ++ y).length := by simp; omega
        rw [e]
        exact this
    | cons c d =>
      simp only [List.cons_append, List.cons.injEq] at hd'
      obtain ⟨rfl, hd'⟩ := hd'
      obtain ⟨u, hu⟩ := hb
      rw [← hu, List.append_assoc, List.append_cancel_left_eq] at hd
      subst hd
      have hud : AllDigits u := by rw [← hu] at hdig; exact fun c hc => hdig c (by simp [hc])
      have hv : valFrom (digitsVal b) u = q.length := by
        rw [← Num.digitsVal_append, hu, hval]
      unfold resumeMd2
      simp only [(scanInt_digits hud (by omega : valFrom (digitsVal b) u < 2 ^ 64) d).2, hv]
      have := good_data q params st d ⟨t, hd'.symm⟩
      rw [← hu] at this
      simpa using this

theorem good_md1 (st : XInternal) (t : Nat) (a y : Bytes) (ht : t ≤ (a ++ y).length + 1)
    (ha : a <+: sizeOf' q params) (hy : a ++ y <+: sizeOf' q params ++ 10 :: bodyOf q params) :
    Good q params (83 :: (a ++ y)) (resumeMd1 ⟨st, t, digitsVal a, 0⟩ (83 :: (a ++ y)).length y) := by
  have hN : (bodyOf q params).length < 2 ^ 64 := by have := packet_length q params; omega
  have hdig : AllDigits (sizeOf' q params) := Num.decimal_digits _
  have hval := size_val q params
  obtain ⟨z, hz⟩ := hy
  by_cases hcase : a ++ y <+: sizeOf' q params
  · have hv : valFrom (digitsVal a) y < 2 ^ 64 := by
      rw [← Num.digitsVal_append]
      have := prefix_val hcase
      omega
    have hyd : AllDigits y := fun c hc => prefix_digits hcase hdig c (by simp [hc])
    unfold resumeMd1
    simp only [(scanInt_digits hyd hv []).1]
    right
    refine ⟨?_, _, _, rfl, ?_⟩
    · rw [packet_eq]
      intro e
      simp only [List.cons.injEq, true_and] at e
      have hmem : (10 : UInt8) ∈ a ++ y := by rw [e]; simp
      have := prefix_digits hcase hdig 10 hmem
      simp [isDigit] at this
    · rw [← Num.digitsVal_append]
      have h := Inv.m1 (q := q) (params := params) (a ++ y) ((t + 1) % 2 ^ 64) hcase
        (by have := Nat.mod_le (t + 1) (2 ^ 64); omega)
      simpa using h
  · rcases List.append_eq_append_iff.1 hz with ⟨u, hu, -⟩ | ⟨d, hd, hd'⟩
    · exact absurd ⟨u, hu.symm⟩ hcase
    · cases d with
      | nil => simp only [List.append_nil] at hd; exact absurd ⟨[], by rw [hd]; simp⟩ hcase
      | cons c d =>
        simp only [List.cons_append, List.cons.injEq] at hd'
        obtain ⟨rfl, hd'⟩ := hd'
        obtain ⟨u, hu⟩ := ha
        rw [← hu, List.append_assoc, List.append_cancel_left_eq] at hd
        subst hd
        have hud : AllDigits u := by rw [← hu] at hdig; exact fun c hc => hdig c (by simp [hc])
        have hv : valFrom (digitsVal a) u = (bodyOf q params).length := by
          rw [← Num.digitsVal_append, hu, hval]
        unfold resumeMd1
        simp only [(scanInt_digits hud (by omega : valFrom (digitsVal a) u < 2 ^ 64) d).2, hv]
        have htgt : ((83 :: (a ++ (u ++ 10 :: d))).length - d.length + (bodyOf q params).length) % 2 ^ 64 =
            (packet q params).length := by
          have h1 := packet_length q params
          have h2 : (sizeOf' q params).length = a.length + u.length := by rw [← hu]; simp
          simp only [List.length_cons, List.length_append]
          omega
        rw [htgt]
        have := good_md2 q params hlen st [] d (List.nil_prefix) ⟨z, hd'.symm⟩
        rw [← hu, show digitsVal [] = 0 from rfl] at this
        simpa using this

theorem feed_packet (r : Bytes) (c : Conn) (h : Inv q params r c) (chunk : Bytes) (hne : chunk ≠ [])
    (hp : r ++ chunk <+: packet q params) :
    (r ++ chunk = packet q params ∧ c.feed chunk = (Conn.fresh, .query q params)) ∨
    (r ++ chunk ≠ packet q params ∧ ∃ c', c.feed chunk = (c', .none) ∧ Inv q params (r ++ chunk) c') := by
  have hfin : ∀ {c : Conn} {r : Bytes}, c.buf = r → ¬ (r ++ chunk).length < c.state.target →
      Good q params (r ++ chunk) (resume (r ++ chunk) c.cursor c.state) →
      (r ++ chunk = packet q params ∧ c.feed chunk = (Conn.fresh, .query q params)) ∨
      (r ++ chunk ≠ packet q params ∧ ∃ c', c.feed chunk = (c', .none) ∧ Inv q params (r ++ chunk) c') := by
    intro c r hbuf hge hg
    unfold Conn.feed
    simp only [hbuf]
    rw [if_neg hge]
    rcases hg with ⟨h1, h2⟩ | ⟨h1, s, cur, h2, h3⟩
    · left; rw [h2]; refine ⟨h1, ?_⟩; simp
    · right; rw [h2]; exact ⟨h1, _, rfl, h3⟩
  have hcl : 0 < chunk.length := List.length_pos_iff.2 hne
  have hlt : (r ++ chunk).length < (packet q params).length ∨ r ++ chunk = packet q params := by
    obtain ⟨t, ht⟩ := hp
    cases t with
    | nil => right; simpa using ht
    | cons => left; rw [← ht]; simp
  cases h with
  | init r hr =>
    by_cases hlen5 : (r ++ chunk).length < 5
    · right
      refine ⟨?_, _, ?_, .init _ hlen5⟩
      · intro e
        have h1 := packet_length q params
        have h2 : 1 ≤ (sizeOf' q params).length := by
          unfold sizeOf'; rw [decimal]; split <;> simp
        have h3 : 1 ≤ (decimal q.length).length := by rw [decimal]; split <;> simp
        have h4 : (bodyOf q params).length = (decimal q.length).length + 1 + (q ++ params).length := by
          simp [bodyOf]; omega
        rw [e] at hlen5; omega
      · unfold Conn.feed
        simp only [show XState.new.target = 5 from rfl]
        rw [if_pos hlen5]
    · refine hfin rfl hlen5 ?_
      simp only [resume, XState.new, List.drop_zero, startInitial]
      rw [packet_eq] at hp
      generalize r ++ chunk = w at *
      cases w with
      | nil => simp at hlen5
      | cons b w =>
        rw [List.cons_prefix_cons] at hp
        obtain ⟨rfl, hp⟩ := hp
        simp only [if_true]
        have := good_md1 q params hlen .initial 5 [] w (by simp at hlen5 ⊢; omega) List.nil_prefix hp
        simpa [digitsVal] using this
  | m1 a t ha ht =>
    refine hfin rfl (by simp at hcl ⊢; omega) ?_
    simp only [resume, List.cons_append, List.drop_succ_cons, List.drop_left]
    rw [packet_eq, List.cons_append, List.cons_prefix_cons] at hp
    exact good_md1 q params hlen _ _ a chunk (by simp; omega) ha hp.2
  | m2 b x hb =>
    rcases hlt with hlt | heq
    · right
      have hi := Inv.m2 (q := q) (params := params) b (x ++ chunk) hb
      refine ⟨fun e => by rw [e] at hlt; omega, _, ?_, by simpa using hi⟩
      unfold Conn.feed
      simp only
      rw [if_pos hlt]
      simp
    · refine hfin rfl (by rw [heq]; simp) ?_
      simp only [resume]
      have e : (83 :: (sizeOf' q params ++ 10 :: (b ++ x)) ++ chunk) =
          (83 :: (sizeOf' q params ++ 10 :: b)) ++ (x ++ chunk) := by simp
      have hdrop : (83 :: (sizeOf' q params ++ 10 :: (b ++ x)) ++ chunk).drop
          ((sizeOf' q params).length + 2 + b.length) = x ++ chunk := by
        rw [e]; exact List.drop_left' (by simp; omega)
      rw [hdrop]
      have hpre : b ++ (x ++ chunk) <+: bodyOf q params := by
        rw [packet_eq] at hp
        simp only [List.cons_append, List.append_assoc, List.cons_prefix_cons, true_and,
          List.prefix_append_right_inj] at hp
        exact hp
      have := good_md2 q params hlen .pendingMeta2 b (x ++ chunk) hb hpre
      simpa using this
  | m3 d =>
    rcases hlt with hlt | heq
    · right
      have hi := Inv.m3 (q := q) (params := params) (d ++ chunk)
      refine ⟨fun e => by rw [e] at hlt; omega, _, ?_, by simpa using hi⟩
      unfold Conn.feed
      simp only
      rw [if_pos hlt]
      simp
    · refine hfin rfl (by rw [heq]; simp) ?_
      simp only [resume]
      have e : (83 :: (sizeOf' q params ++ 10 :: (decimal q.length ++ 10 :: d)) ++ chunk) =
          (83 :: (sizeOf' q params ++ 10 :: (decimal q.length ++ [10]))) ++ (d ++ chunk) := by simp
      have hdrop : (83 :: (sizeOf' q params ++ 10 :: (decimal q.length ++ 10 :: d)) ++ chunk).drop
          ((sizeOf' q params).length + 2 + (decimal q.length).length + 1) = d ++ chunk := by
        rw [e]; exact List.drop_left' (by simp; omega)
      rw [hdrop]
      have hpre : d ++ chunk <+: q ++ params := by
        rw [packet_eq, bodyOf] at hp
        simp only [List.cons_append, List.append_assoc, List.cons_prefix_cons, true_and,
          List.prefix_append_right_inj] at hp
        exact hp
      have := good_data q params .pendingData (d ++ chunk) hpre
      simpa using this

theorem run_packet (r : Bytes) (c : Conn) (h : Inv q params r c) (chunks : List Bytes)
    (hne : ∀ x ∈ chunks, x ≠ []) (hr : r ≠ packet q params) (hp : r ++ chunks.flatten = packet q params)
    (more : List Bytes) :
    c.run (chunks ++ more) = ((Conn.fresh.run more).1, .query q params :: (Conn.fresh.run more).2) := by
  induction chunks generalizing r c with
  | nil => simp at hp; exact absurd hp hr
  | cons x xs ih =>
    have hx := hne x (by simp)
    have hpre : r ++ x <+: packet q params := ⟨xs.flatten, by simpa using hp⟩
    simp only [List.cons_append, Conn.run]
    rcases feed_packet q params hlen r c h x hx hpre with ⟨h1, h2⟩ | ⟨h1, c', h2, h3⟩
    · rw [h2]
      have hnil : xs = [] := by
        have e : (r ++ x) ++ xs.flatten = r ++ x := by rw [List.append_assoc, ← List.flatten_cons, hp, h1]
        have e : xs.flatten = [] := List.append_right_eq_self.1 e
        cases xs with
        | nil => rfl
        | cons y ys =>
          have hy := hne y (by simp)
          simp only [List.flatten_cons, List.append_eq_nil_iff] at e
          exact absurd e.1 hy
      subst hnil
      simp
    · rw [h2]
      exact ih (r ++ x) c' h3 (fun y hy => hne y (by simp [hy])) h1 (by simpa using hp)

end

/-! ### Property theorems -/

/-- **C22.** A client sends any sequence of well-formed query packets, each after the reply to the
one before. However the network splits the bytes of each packet into non-empty reads, the server
executes exactly these queries with exactly these parameters, in this order, and ends up ready for
the next packet. -/
theorem C22_split_independent (msgs : List ((Bytes × Bytes) × List Bytes))
    (hlen : ∀ m ∈ msgs, (packet m.1.1 m.1.2).length < 2 ^ 64)
    (hsplit : ∀ m ∈ msgs, m.2.flatten = packet m.1.1 m.1.2 ∧ ∀ x ∈ m.2, x ≠ []) :
    Conn.fresh.run (msgs.map (·.2)).flatten =
      (Conn.fresh, msgs.map fun m => .query m.1.1 m.1.2) := by
  induction msgs with
  | nil => rfl
  | cons m ms ih =>
    have h1 := hsplit m (by simp)
    have hne : ([] : Bytes) ≠ packet m.1.1 m.1.2 := by rw [packet_eq]; simp
    simp only [List.map_cons, List.flatten_cons]
    rw [run_packet m.1.1 m.1.2 (hlen m (by simp)) [] Conn.fresh (.init [] (by simp)) m.2 h1.2 hne
      (by simpa using h1.1)]
    rw [ih (fun x hx => hlen x (by simp [hx])) (fun x hx => hsplit x (by simp [hx]))]

example : packet (ascii "select ?") [0] = ascii "S11\n8\nselect ?" ++ [0] ∧
    Conn.fresh.run [ascii "S1", ascii "1\n", ascii "8\nselect", ascii " ?", [0]] =
      (Conn.fresh, [.query (ascii "select ?") [0]]) := by decide +kernel

/-- **C23 is violated: a panic.** A packet whose query length is larger than its payload: the server
panics, and the connection ends without a reply. For every payload and every larger length. -/
theorem C23_query_length_panics_violated (w : Nat) (payload : Bytes) (hw : payload.length < w)
    (hw2 : w < 2 ^ 63) :
    (Conn.fresh.run [83 :: (decimal (decimal w ++ 10 :: payload).length ++ 10 :: (decimal w ++ 10 :: payload))]).2
      = [.panic] := by
  have hdw := Num.decimal_digits w
  have hvw := Num.digitsVal_decimal w
  have hlw : (decimal w).length ≤ 20 := Num.decimal_length_le (by omega) (by omega)
  have hpos : ∀ n, 1 ≤ (decimal n).length := by intro n; rw [decimal]; split <;> simp
  have hp := hpos w
  generalize hN : (decimal w ++ 10 :: payload).length = N
  have hN' : N = (decimal w).length + 1 + payload.length := by rw [← hN]; simp; omega
  have hp2 := hpos N
  have hlN : (decimal N).length ≤ 20 := Num.decimal_length_le (by omega) (by omega)
  have hdN := Num.decimal_digits N
  have hvN := Num.digitsVal_decimal N
  have h1 := (scanInt_digits hdN (acc := 0) (by show digitsVal _ < _; omega) (decimal w ++ 10 :: payload)).2
  have h2 := (scanInt_digits hdw (acc := 0) (by show digitsVal _ < _; omega) payload).2
  rw [show valFrom 0 (decimal N) = N from hvN] at h1
  rw [show valFrom 0 (decimal w) = w from hvw] at h2
  have hlen : ¬ (([] : Bytes) ++ 83 :: (decimal N ++ 10 :: (decimal w ++ 10 :: payload))).length < 5 := by
    simp; omega
  simp only [Conn.run, Conn.feed, Conn.fresh, show XState.new.target = 5 from rfl]
  rw [if_neg hlen]
  simp only [resume, XState.new, List.drop_zero, List.nil_append, startInitial, if_true, resumeMd1, h1,
    resumeMd2, h2, resumeData]
  have hT : ((83 :: (decimal N ++ 10 :: (decimal w ++ 10 :: payload))).length -
      (decimal w ++ 10 :: payload).length + N) % 2 ^ 64 = (decimal N).length + 2 + N := by
    simp only [List.length_cons, List.length_append]; omega
  have hC : (83 :: (decimal N ++ 10 :: (decimal w ++ 10 :: payload))).length - payload.length =
      (decimal N).length + 2 + (decimal w).length + 1 := by
    simp only [List.length_cons, List.length_append]; omega
  rw [hT, hC]
  have hS : subW ((decimal N).length + 2 + N) ((decimal N).length + 2 + (decimal w).length + 1) = payload.length := by
    unfold subW; rw [if_pos (by omega)]; omega
  rw [hS]
  simp only [if_true]
  rw [if_neg (by omega)]

example : (Conn.fresh.run [ascii "S2\n9\n"]).2 = [.panic] := by decide +kernel

/-- A connection that waits for data it has already passed never leaves this state. -/
theorem stuck_run (c : Conn) (hst : c.state.st = .pendingData) (hcur : c.cursor ≤ c.buf.length)
    (hover : c.state.target < c.buf.length) (chunks : List Bytes)
    (htot : c.buf.length + chunks.flatten.length < 2 ^ 64) : (c.run chunks).2 = [] := by
  induction chunks generalizing c with
  | nil => rfl
  | cons x xs ih =>
    simp only [List.flatten_cons, List.length_append] at htot
    have hlen : (c.buf ++ x).length = c.buf.length + x.length := by simp
    have hfeed : c.feed x = (⟨c.buf ++ x, c.cursor, c.state⟩, .none) := by
      unfold Conn.feed
      simp only
      rw [if_neg (by omega)]
      unfold resume
      rw [hst]
      simp only [resumeData, List.length_drop]
      have hd : (c.buf ++ x).length - ((c.buf ++ x).length - c.cursor) = c.cursor := by omega
      rw [hd]
      rw [if_neg]
      · simp only [Prod.mk.injEq, Conn.mk.injEq, and_true, true_and]
        rw [← hst]
      · unfold subW; split <;> omega
    simp only [Conn.run, hfeed]
    exact ih _ hst (by simp only [List.length_append]; omega) (by simp only [List.length_append]; omega)
      (by simp only [List.length_append]; omega)

/-- **C23 is violated: a connection that never makes progress again, by a wrong size.** After these
five bytes (all that the size field announces has arrived) no reply is ever sent, whatever follows. -/
theorem C23_small_size_hangs_violated (chunks : List Bytes) (h : chunks.flatten.length < 2 ^ 63) :
    (Conn.fresh.run (ascii "S1\n0\n" :: chunks)).2 = [] := by
  have h0 : Conn.fresh.feed (ascii "S1\n0\n") = (⟨ascii "S1\n0\n", 5, ⟨.pendingData, 4, 1, 0⟩⟩, .none) := by
    decide +kernel
  rw [Conn.run, h0]
  exact stuck_run _ rfl (by decide) (by decide) _
    (by simp only [show (ascii "S1\n0\n").length = 5 from rfl]; omega)

/-- **C23 is violated: pipelining.** A well-formed packet that arrives together with at least one
byte of the next one is never answered, whatever follows. -/
theorem C23_pipelined_packet_hangs_violated (q params extra : Bytes) (hne : extra ≠ [])
    (chunks : List Bytes) (h : (packet q params).length + extra.length + chunks.flatten.length < 2 ^ 64) :
    (Conn.fresh.run ((packet q params ++ extra) :: chunks)).2 = [] := by
  have hel : 0 < extra.length := List.length_pos_iff.2 hne
  have hpos : ∀ n, 1 ≤ (decimal n).length := by intro n; rw [decimal]; split <;> simp
  have hpl := packet_length q params
  have hb : (bodyOf q params).length = (decimal q.length).length + 1 + (q ++ params).length := by
    simp [bodyOf]; omega
  have hp1 := hpos q.length
  have hp2 : 1 ≤ (sizeOf' q params).length := hpos _
  have hdN : AllDigits (sizeOf' q params) := Num.decimal_digits _
  have hvN := size_val q params
  have hq : q.length ≤ (q ++ params).length := by simp
  have h1 := (scanInt_digits hdN (acc := 0) (by show digitsVal _ < _; omega) (bodyOf q params ++ extra)).2
  have h2 := (scanInt_digits (Num.decimal_digits q.length) (acc := 0)
    (by show digitsVal _ < _; rw [Num.digitsVal_decimal]; omega) (q ++ params ++ extra)).2
  rw [show valFrom 0 (sizeOf' q params) = _ from hvN] at h1
  rw [show valFrom 0 (decimal q.length) = q.length from Num.digitsVal_decimal _] at h2
  have hform : packet q params ++ extra = 83 :: (sizeOf' q params ++ 10 :: (bodyOf q params ++ extra)) := by
    rw [packet_eq]; simp
  have hform2 : bodyOf q params ++ extra = decimal q.length ++ 10 :: (q ++ params ++ extra) := by
    simp [bodyOf]
  have hfeed : Conn.fresh.feed (packet q params ++ extra) =
      (⟨packet q params ++ extra, (sizeOf' q params).length + 2 + (decimal q.length).length + 1,
        ⟨.pendingData, (packet q params).length, (bodyOf q params).length, q.length⟩⟩, .none) := by
    unfold Conn.feed
    simp only [Conn.fresh, List.nil_append, show XState.new.target = 5 from rfl]
    rw [if_neg (by simp; omega)]
    have hr : resume (packet q params ++ extra) 0 XState.new =
        .change ⟨.pendingData, (packet q params).length, (bodyOf q params).length, q.length⟩
          ((sizeOf' q params).length + 2 + (decimal q.length).length + 1) := by
      rw [hform]
      simp only [resume, XState.new, List.drop_zero, startInitial, if_true, resumeMd1, h1, resumeMd2]
      rw [hform2]
      simp only [h2, resumeData]
      have hT : ((83 :: (sizeOf' q params ++ 10 :: (decimal q.length ++ 10 :: (q ++ params ++ extra)))).length -
          (decimal q.length ++ 10 :: (q ++ params ++ extra)).length + (bodyOf q params).length) % 2 ^ 64 =
          (packet q params).length := by
        simp only [List.length_cons, List.length_append] at *; omega
      have hC : (83 :: (sizeOf' q params ++ 10 :: (decimal q.length ++ 10 :: (q ++ params ++ extra)))).length -
          (q ++ params ++ extra).length = (sizeOf' q params).length + 2 + (decimal q.length).length + 1 := by
        simp only [List.length_cons, List.length_append] at *; omega
      rw [hT, hC]
      have hS : subW (packet q params).length ((sizeOf' q params).length + 2 + (decimal q.length).length + 1) =
          (q ++ params).length := by
        unfold subW; rw [if_pos (by omega)]; omega
      rw [hS, if_neg (by simp; omega)]
    rw [hr]
  simp only [Conn.run, hfeed]
  exact stuck_run _ rfl (by simp only [List.length_append] at *; omega)
    (by simp only [List.length_append] at *; omega) _ (by simp only [List.length_append] at *; omega)

example : (Conn.fresh.run [packet (ascii "select a") [] ++ ascii "S", packet (ascii "use x") []]).2 = [] := by
  decide +kernel

/-! ### What holds for every byte stream -/

/-- Header bytes that are consistent with the state of the connection. -/
structure Sound (c : Conn) : Prop where
  cur : c.cursor ≤ c.buf.length
  shape : match c.state.st with
    | .initial => c.cursor = 0 ∧ c.state = XState.new
    | .pendingMeta1 => ∃ ds, c.buf.take c.cursor = 83 :: ds ∧ AllDigits ds ∧
        c.state.psize = digitsVal ds ∧ c.state.psize < 2 ^ 64 ∧ c.state.qwin = 0
    | .pendingMeta2 => ∃ ds es, c.buf.take c.cursor = 83 :: (ds ++ 10 :: es) ∧ AllDigits ds ∧ AllDigits es ∧
        c.state.psize = digitsVal ds ∧ c.state.psize < 2 ^ 64 ∧ c.state.qwin = digitsVal es ∧
        c.state.qwin < 2 ^ 64 ∧ c.state.target = (ds.length + 2 + c.state.psize) % 2 ^ 64
    | .pendingData => ∃ ds es, c.buf.take c.cursor = 83 :: (ds ++ 10 :: (es ++ [10])) ∧ AllDigits ds ∧
        AllDigits es ∧ c.state.psize = digitsVal ds ∧ c.state.psize < 2 ^ 64 ∧
        c.state.qwin = digitsVal es ∧ c.state.target = (ds.length + 2 + c.state.psize) % 2 ^ 64

/-- A byte string is a packet: two lengths in decimal, and a payload of the announced size. -/
def IsPacket (buf payload : Bytes) (qwin : Nat) : Prop :=
  ∃ ds es, buf = 83 :: (ds ++ 10 :: (es ++ 10 :: payload)) ∧ AllDigits ds ∧ AllDigits es ∧
    digitsVal ds = (es ++ 10 :: payload).length ∧ digitsVal es = qwin

theorem scanInt_inv {buf : Bytes} {acc : Nat} (ha : acc < 2 ^ 64) :
    (∀ v rest, scanInt buf acc = .completed v rest →
      ∃ ds, buf = ds ++ 10 :: rest ∧ AllDigits ds ∧ v = valFrom acc ds ∧ v < 2 ^ 64) ∧
    (∀ p, scanInt buf acc = .pending p → AllDigits buf ∧ p = valFrom acc buf ∧ p < 2 ^ 64) := by
  induction buf generalizing acc with
  | nil =>
    refine ⟨fun v rest h => by simp [scanInt] at h, fun p h => ?_⟩
    simp [scanInt] at h; subst h
    exact ⟨by simp [AllDigits], rfl, ha⟩
  | cons d buf ih =>
    unfold scanInt
    by_cases hd : d = 10
    · subst hd
      refine ⟨fun v rest h => ?_, fun p h => by simp at h⟩
      simp at h
      obtain ⟨rfl, rfl⟩ := h
      exact ⟨[], rfl, by simp [AllDigits], rfl, ha⟩
    · rw [if_neg hd]
      by_cases hc : isDigit d = true ∧ acc * 10 + (d &&& 0x0F).toNat < 2 ^ 64
      · rw [if_pos hc]
        obtain ⟨i1, i2⟩ := ih hc.2
        refine ⟨fun v rest h => ?_, fun p h => ?_⟩
        · obtain ⟨ds, rfl, h2, h3, h4⟩ := i1 v rest h
          refine ⟨d :: ds, rfl, ?_, ?_, h4⟩
          · intro x hx
            rcases List.mem_cons.1 hx with rfl | hx
            · exact hc.1
            · exact h2 x hx
          · rw [h3, (digit_low d hc.1).1]; rfl
        · obtain ⟨h2, h3, h4⟩ := i2 p h
          refine ⟨?_, ?_, h4⟩
          · intro x hx
            rcases List.mem_cons.1 hx with rfl | hx
            · exact hc.1
            · exact h2 x hx
          · rw [h3, (digit_low d hc.1).1]; rfl
      · rw [if_neg hc]
        exact ⟨fun v rest h => by simp at h, fun p h => by simp at h⟩

/-- What a resume may do with the buffer `buf`. -/
def SoundRes (buf : Bytes) : XResult → Prop
  | .completed payload qwin => IsPacket buf payload qwin
  | .change s cur => Sound ⟨buf, cur, s⟩
  | .error => True

theorem sound_data (s : XState) (ds es rest : Bytes) (h1 : AllDigits ds) (h2 : AllDigits es)
    (h3 : s.psize = digitsVal ds) (h4 : s.psize < 2 ^ 64) (h5 : s.qwin = digitsVal es)
    (h6 : s.target = (ds.length + 2 + s.psize) % 2 ^ 64)
    (hl : (83 :: (ds ++ 10 :: (es ++ 10 :: rest))).length < 2 ^ 64) :
    SoundRes (83 :: (ds ++ 10 :: (es ++ 10 :: rest)))
      (resumeData s (83 :: (ds ++ 10 :: (es ++ 10 :: rest))).length rest) := by
  have hc : (83 :: (ds ++ 10 :: (es ++ 10 :: rest))).length - rest.length = ds.length + 2 + es.length + 1 := by
    simp; omega
  unfold resumeData
  simp only [hc]
  split
  · rename_i he
    refine ⟨ds, es, rfl, h1, h2, ?_, h5.symm⟩
    rw [← h3]
    simp only [List.length_cons, List.length_append] at hl ⊢
    have h7 := Nat.div_add_mod (ds.length + 2 + s.psize) (2 ^ 64)
    have h8 := Nat.mod_lt (ds.length + 2 + s.psize) (show 0 < 2 ^ 64 by omega)
    unfold subW at he
    split at he <;> omega
  · have ht : (83 :: (ds ++ 10 :: (es ++ 10 :: rest))).take (ds.length + 2 + es.length + 1) =
        83 :: (ds ++ 10 :: (es ++ [10])) := by
      rw [show 83 :: (ds ++ 10 :: (es ++ 10 :: rest)) = (83 :: (ds ++ 10 :: (es ++ [10]))) ++ rest by simp]
      exact List.take_left' (by simp; omega)
    exact ⟨by simp; omega, ds, es, ht, h1, h2, h3, h4, h5, h6⟩

theorem sound_md2 (s : XState) (ds es rest : Bytes) (h1 : AllDigits ds) (h2 : AllDigits es)
    (h3 : s.psize = digitsVal ds) (h4 : s.psize < 2 ^ 64) (h5 : s.qwin = digitsVal es) (h5' : s.qwin < 2 ^ 64)
    (h6 : s.target = (ds.length + 2 + s.psize) % 2 ^ 64)
    (hl : (83 :: (ds ++ 10 :: (es ++ rest))).length < 2 ^ 64) :
    SoundRes (83 :: (ds ++ 10 :: (es ++ rest)))
      (resumeMd2 s (83 :: (ds ++ 10 :: (es ++ rest))).length rest) := by
  unfold resumeMd2
  obtain ⟨i1, i2⟩ := scanInt_inv (buf := rest) h5'
  cases hsc : scanInt rest s.qwin with
  | completed v rest' =>
    simp only
    obtain ⟨gs, rfl, hg, hv, hv'⟩ := i1 v rest' hsc
    have := sound_data { s with qwin := v } ds (es ++ gs) rest' h1
      (fun x hx => by rcases List.mem_append.1 hx with hx | hx; exact h2 x hx; exact hg x hx) h3 h4
      (by simp only [hv, h5, Num.digitsVal_append]) h6 (by simpa using hl)
    simpa using this
  | pending p =>
    simp only
    obtain ⟨hg, hv, hv'⟩ := i2 p hsc
    refine ⟨Nat.le_refl _, ds, es ++ rest, List.take_length, h1,
      (fun x hx => by rcases List.mem_append.1 hx with hx | hx; exact h2 x hx; exact hg x hx), h3, h4,
      by simp only [hv, h5, Num.digitsVal_append], hv', h6⟩
  | error => trivial

theorem sound_md1 (s : XState) (ds rest : Bytes) (h1 : AllDigits ds)
    (h3 : s.psize = digitsVal ds) (h4 : s.psize < 2 ^ 64) (h5 : s.qwin = 0)
    (hl : (83 :: (ds ++ rest)).length < 2 ^ 64) :
    SoundRes (83 :: (ds ++ rest)) (resumeMd1 s (83 :: (ds ++ rest)).length rest) := by
  unfold resumeMd1
  obtain ⟨i1, i2⟩ := scanInt_inv (buf := rest) h4
  cases hsc : scanInt rest s.psize with
  | completed v rest' =>
    simp only
    obtain ⟨gs, rfl, hg, hv, hv'⟩ := i1 v rest' hsc
    have hlen : (83 :: (ds ++ (gs ++ 10 :: rest'))).length - rest'.length = (ds ++ gs).length + 2 := by
      simp; omega
    rw [hlen]
    have := sound_md2 { s with psize := v, target := ((ds ++ gs).length + 2 + v) % 2 ^ 64 } (ds ++ gs) [] rest'
      (fun x hx => by rcases List.mem_append.1 hx with hx | hx; exact h1 x hx; exact hg x hx)
      (by simp [AllDigits]) (by simp only [hv, h3, Num.digitsVal_append]) hv' h5 (by simp [h5])
      rfl (by simpa using hl)
    simpa using this
  | pending p =>
    simp only
    obtain ⟨hg, hv, hv'⟩ := i2 p hsc
    refine ⟨Nat.le_refl _, ds ++ rest, List.take_length,
      (fun x hx => by rcases List.mem_append.1 hx with hx | hx; exact h1 x hx; exact hg x hx),
      by simp only [hv, h3, Num.digitsVal_append], hv', h5⟩
  | error => trivial

theorem take_drop_split {buf pre : Bytes} {cur : Nat} (h : buf.take cur = pre) (chunk : Bytes)
    (hc : cur ≤ buf.length) : buf ++ chunk = pre ++ (buf ++ chunk).drop cur := by
  have h2 : (buf ++ chunk).take cur = pre := by rw [List.take_append_of_le_length hc, h]
  rw [← h2, List.take_append_drop]

theorem sound_resume (c : Conn) (h : Sound c) (chunk : Bytes) (hl : (c.buf ++ chunk).length < 2 ^ 64)
    (ht : ¬ (c.buf ++ chunk).length < c.state.target) :
    SoundRes (c.buf ++ chunk) (resume (c.buf ++ chunk) c.cursor c.state) := by
  obtain ⟨hcur, hsh⟩ := h
  unfold resume
  cases hst : c.state.st with
  | initial =>
    rw [hst] at hsh
    obtain ⟨h0, hs⟩ := hsh
    simp only [h0, List.drop_zero, hs, startInitial]
    cases hb : c.buf ++ chunk with
    | nil => rw [hb, hs] at ht; simp [XState.new] at ht
    | cons b w =>
      simp only
      by_cases hS : b = 83
      · subst hS
        rw [if_pos rfl]
        have := sound_md1 XState.new [] w (by simp [AllDigits]) rfl (by decide) rfl (by rw [hb] at hl; simpa using hl)
        simpa using this
      · rw [if_neg hS]; trivial
  | pendingMeta1 =>
    rw [hst] at hsh
    obtain ⟨ds, e1, e2, e3, e4, e5⟩ := hsh
    simp only
    have hsp := take_drop_split e1 chunk hcur
    generalize (c.buf ++ chunk).drop c.cursor = rest at *
    rw [hsp] at hl ⊢
    exact sound_md1 c.state ds rest e2 e3 e4 e5 hl
  | pendingMeta2 =>
    rw [hst] at hsh
    obtain ⟨ds, es, e1, e2, e3, e4, e5, e6, e7, e8⟩ := hsh
    simp only
    have hsp := take_drop_split e1 chunk hcur
    generalize (c.buf ++ chunk).drop c.cursor = rest at *
    simp only [List.cons_append, List.append_assoc] at hsp
    rw [hsp] at hl ⊢
    exact sound_md2 c.state ds es rest e2 e3 e4 e5 e6 e7 e8 hl
  | pendingData =>
    rw [hst] at hsh
    obtain ⟨ds, es, e1, e2, e3, e4, e5, e6, e7⟩ := hsh
    simp only
    have hsp := take_drop_split e1 chunk hcur
    generalize (c.buf ++ chunk).drop c.cursor = rest at *
    simp only [List.cons_append, List.append_assoc, List.nil_append] at hsp
    rw [hsp] at hl ⊢
    exact sound_data c.state ds es rest e2 e3 e4 e5 e6 e7 hl

theorem sound_fresh : Sound Conn.fresh := ⟨Nat.le_refl _, rfl, rfl⟩

theorem sound_feed (c : Conn) (h : Sound c) (chunk : Bytes) (hl : (c.buf ++ chunk).length < 2 ^ 64) :
    Sound (c.feed chunk).1 ∧
    (∀ q p, (c.feed chunk).2 = .query q p → IsPacket (c.buf ++ chunk) (q ++ p) q.length) ∧
    ((c.feed chunk).2 = .panic → ∃ payload w, IsPacket (c.buf ++ chunk) payload w ∧ payload.length < w) := by
  unfold Conn.feed
  simp only
  by_cases ht : (c.buf ++ chunk).length < c.state.target
  · rw [if_pos ht]
    refine ⟨⟨by have := h.cur; simp only [List.length_append]; omega, ?_⟩, by simp, by simp⟩
    have hsh := h.shape
    have hcur := h.cur
    have htk : (c.buf ++ chunk).take c.cursor = c.buf.take c.cursor := List.take_append_of_le_length hcur
    simp only [htk]
    exact hsh
  · rw [if_neg ht]
    have hs := sound_resume c h chunk hl ht
    cases hr : resume (c.buf ++ chunk) c.cursor c.state with
    | completed payload qwin =>
      rw [hr] at hs
      simp only
      refine ⟨sound_fresh, fun q p hq => ?_, fun hq => ?_⟩
      · split at hq
        · rename_i hle
          simp only [Event.query.injEq] at hq
          obtain ⟨rfl, rfl⟩ := hq
          rw [List.take_append_drop, List.length_take, Nat.min_eq_left hle]
          exact hs
        · cases hq
      · split at hq
        · cases hq
        · exact ⟨payload, qwin, hs, by omega⟩
    | change s cur => rw [hr] at hs; exact ⟨hs, by simp, by simp⟩
    | error => exact ⟨sound_fresh, by simp, by simp⟩

theorem feed_buf_length (c : Conn) (x : Bytes) : (c.feed x).1.buf.length ≤ c.buf.length + x.length := by
  unfold Conn.feed
  simp only
  split
  · simp
  · split <;> simp [Conn.fresh]

theorem sound_run (c : Conn) (h : Sound c) (chunks : List Bytes)
    (hl : c.buf.length + chunks.flatten.length < 2 ^ 64) :
    Sound (c.run chunks).1 ∧ (c.run chunks).1.buf.length ≤ c.buf.length + chunks.flatten.length := by
  induction chunks generalizing c with
  | nil => exact ⟨h, by simp [Conn.run]⟩
  | cons x xs ih =>
    simp only [List.flatten_cons, List.length_append] at hl ⊢
    have h1 := (sound_feed c h x (by simp only [List.length_append]; omega)).1
    have h2 := feed_buf_length c x
    have h3 := ih (c.feed x).1 h1 (by omega)
    unfold Conn.run
    generalize c.feed x = fx at *
    obtain ⟨c', e⟩ := fx
    simp only at h1 h2 h3
    cases e with
    | none => exact ⟨h3.1, by have := h3.2; simp only; omega⟩
    | panic => exact ⟨h1, by simp only; omega⟩
    | query q p => exact ⟨h3.1, by have := h3.2; simp only; omega⟩
    | illegal => exact ⟨h3.1, by have := h3.2; simp only; omega⟩

/-- **C23, partial: whatever a client sends.** For every sequence of reads: the connection never
looks past the bytes received; a query is executed only if the bytes received since the last reply
are exactly a packet with this text and these parameters; the only panic is that of a packet whose
query length is larger than its payload. Missing from the full property: that panic, and the
connections that stop making progress (the three `_violated` theorems). -/
theorem C23_every_stream_partial (reads : List Bytes) (next : Bytes)
    (hl : reads.flatten.length + next.length < 2 ^ 64) :
    let c := (Conn.fresh.run reads).1
    c.cursor ≤ c.buf.length ∧
    (∀ q p, (c.feed next).2 = .query q p → IsPacket (c.buf ++ next) (q ++ p) q.length) ∧
    ((c.feed next).2 = .panic → ∃ payload w, IsPacket (c.buf ++ next) payload w ∧ payload.length < w) := by
  have h := sound_run Conn.fresh sound_fresh reads (by simp only [Conn.fresh, List.length_nil]; omega)
  simp only [Conn.fresh, List.length_nil] at h
  have h2 := sound_feed _ h.1 next (by simp only [List.length_append]; omega)
  exact ⟨h.1.cur, h2.2⟩

/-- **C23, partial: wrong first byte.** At least five bytes that do not start with `S` are answered
with the error reply, and the connection is ready for the next packet. -/
theorem C23_wrong_marker_partial (b : UInt8) (rest : Bytes) (hb : b ≠ 83) (hl : 4 ≤ rest.length) :
    Conn.fresh.feed (b :: rest) = (Conn.fresh, .illegal) := by
  unfold Conn.feed
  simp only [Conn.fresh, List.nil_append, show XState.new.target = 5 from rfl]
  rw [if_neg (by simp; omega)]
  simp [resume, XState.new, startInitial, hb]

example : (Conn.fresh.run [ascii "GET /"]).2 = [.illegal] := by decide +kernel

end Verif.Net

import Verif.Server.Site
import Verif.Server.HubClients
/-!
C82: from bytes to bytes, with batches and restarts, a table is a map.
-/
namespace Verif.Server
open Verif.Gns (Cat Model Client Consistent PkNonNull)
open Verif.Journal (HEADER)
open Verif.Dml (FloatOps ATable Reply SpecStep SpecRun abs Tbl)
open Verif.Net (HsConn HsError HsStep Conn Event hello packet)
open Verif.Net.Reply (FloatText send readReplies)

/-! ### Specification -/

/-- What connection `who` reads, if the server was started `now` times before. -/
def heard (who : Nat × Nat) : Nat → List Deed → List Inp
  | _, [] => []
  | now, .inp a :: ds => if (now, a.con) = who then a :: heard who now ds else heard who now ds
  | now, .flush _ _ _ :: ds => heard who now ds
  | now, .restart _ _ _ _ :: ds => heard who (now + 1) ds

/-- The bytes that connection `who` gets. -/
def bytesTo (who : Nat × Nat) (out : List Out) : Bytes :=
  (out.map fun o => if o.who = who then o.bytes else []).flatten

/-- The queries that were executed for connection `who`, with their answers. -/
def doneFor (who : Nat × Nat) (out : List Out) : List (Q × Answer) :=
  (out.map fun o => if o.who = who then o.did else []).flatten

/-- All queries that were executed, with their answers, in this order. -/
def doneAll (out : List Out) : List (Q × Answer) := (out.map (·.did)).flatten

/-- The client of connection `who` follows the protocol: it does not close the connection, it sends a handshake and then these
queries, each in any pieces and after the reply to the one before. -/
structure Follows (who : Nat × Nat) (ds : List Deed) (name pwd : Bytes) (qs : List (Bytes × Bytes)) : Prop where
  sizes : (hello name pwd).length < 2 ^ 64 ∧ ∀ q ∈ qs, (packet q.1 q.2).length < 2 ^ 64
  stays : ∀ a ∈ heard who 0 ds, ∀ i, a ≠ .close i
  sends : ∃ (hs : List Bytes) (ps : List (List Bytes)), chunks (heard who 0 ds) = hs ++ ps.flatten ∧
    hs.flatten = hello name pwd ∧ (∀ x ∈ hs, x ≠ []) ∧
    ps.map List.flatten = qs.map (fun q => packet q.1 q.2) ∧ ∀ p ∈ ps, ∀ x ∈ p, x ≠ []

/-- The text and the parameters of a query. -/
def said (e : Q × Answer) : Bytes × Bytes := (e.1.2.2.1, e.1.2.2.2)

/-- The answers `ras` go over the wire for the executed queries `done` of a client that asked `qs`: these are its queries in its
order, and all of them are executed and answered, unless the task of the connection dies in one of them. -/
def Answers (qs : List (Bytes × Bytes)) (done : List (Q × Answer)) (ras : List Net.Reply.Answer) : Prop :=
  (done.map said = qs ∧ done.map (fun e => told e.2) = ras.map some) ∨
    (done.map said <+: qs ∧ done.map (fun e => told e.2) = ras.map some ++ [none])

/-! ### The tables -/

theorem acts_append {S : Setup} : ∀ {as bs : List Act} {z z1 z2 : Sys} {o1 o2 : List (Q × Answer)}, z.acts S as = .ok (z1, o1) →
    z1.acts S bs = .ok (z2, o2) → z.acts S (as ++ bs) = .ok (z2, o1 ++ o2)
  | [], bs, z, z1, z2, o1, o2, h1, h2 => by cases h1; exact h2
  | a :: as, bs, z, z1, z2, o1, o2, h1, h2 => by
    rw [Sys.acts] at h1
    obtain ⟨⟨z3, o3⟩, e1, h1⟩ := bind_ok h1
    obtain ⟨⟨z4, o4⟩, e2, h1⟩ := bind_ok h1
    cases h1
    rw [List.cons_append, Sys.acts, e1]
    simp only [Batch.Run.bind]
    rw [acts_append e2 h2]
    simp

theorem step_acts {S : Setup} {H : Host} {p p' : Site} {a : Deed} {o : List Out} (h : p.step S H a = .ok (p', o)) :
    p.sys.acts S (p.act a) = .ok (p'.sys, doneAll o) := by
  have one : ∀ {x : Act} {z : Sys} {l}, p.sys.act S x = .ok (z, l) → p.sys.acts S [x] = .ok (z, l) := by
    intro x z l hx
    rw [Sys.acts, hx]
    simp [Batch.Run.bind, Sys.acts]
  cases a with
  | inp a =>
    rw [Site.step] at h
    split at h
    · cases h
    · rename_i h1 b _
      cases hq : p.asked a with
      | none =>
        simp only [hq, Batch.Run.ok.injEq, Prod.mk.injEq] at h
        obtain ⟨rfl, rfl⟩ := h
        simp [Site.act, hq, Sys.acts, doneAll]
      | some q =>
        simp only [hq] at h
        obtain ⟨⟨z, l⟩, e1, e2⟩ := bind_ok h
        cases e2
        simp only [Site.act, hq, Option.toList, List.map_cons, List.map_nil]
        rw [one (x := .query q) e1]
        simp [doneAll]
  | flush x y n =>
    rw [Site.step] at h
    obtain ⟨z, e1, e2⟩ := bind_ok h
    cases e2
    exact one (x := .flush x y n) (by rw [Sys.act, e1]; rfl)
  | restart st cl op data =>
    rw [Site.step] at h
    obtain ⟨d, e1, h⟩ := bind_ok h
    obtain ⟨z, e2, h⟩ := bind_ok h
    cases h
    refine one (x := .restart st cl op data) ?_
    rw [Sys.act, e1]
    simp only [Batch.Run.bind]
    rw [e2]
    rfl

theorem run_acts {S : Setup} {H : Host} : ∀ {ds : List Deed} {p p' : Site} {o : List Out}, p.run S H ds = .ok (p', o) →
    p.sys.acts S (p.acts S H ds) = .ok (p'.sys, doneAll o)
  | [], p, p', o, h => by cases h; rfl
  | a :: ds, p, p', o, h => by
    rw [Site.run] at h
    obtain ⟨⟨p1, o1⟩, e1, h⟩ := bind_ok h
    obtain ⟨⟨p2, o2⟩, e2, h⟩ := bind_ok h
    cases h
    rw [Site.acts, e1]
    have := acts_append (step_acts e1) (run_acts e2)
    simpa [doneAll] using this

theorem run_append' {S : Setup} {H : Host} : ∀ {as bs : List Deed} {p p1 p2 : Site} {o1 o2 : List Out}, p.run S H as = .ok (p1, o1) →
    p1.run S H bs = .ok (p2, o2) → p.run S H (as ++ bs) = .ok (p2, o1 ++ o2)
  | [], bs, p, p1, p2, o1, o2, h1, h2 => by cases h1; exact h2
  | a :: as, bs, p, p1, p2, o1, o2, h1, h2 => by
    rw [Site.run] at h1
    obtain ⟨⟨p3, o3⟩, e1, h1⟩ := bind_ok h1
    obtain ⟨⟨p4, o4⟩, e2, h1⟩ := bind_ok h1
    cases h1
    rw [List.cons_append, Site.run, e1]
    simp only [Batch.Run.bind]
    rw [run_append' e2 h2]
    simp

theorem site_acts_append {S : Setup} {H : Host} : ∀ {as bs : List Deed} {p p1 : Site} {o1 : List Out}, p.run S H as = .ok (p1, o1) →
    p.acts S H (as ++ bs) = p.acts S H as ++ p1.acts S H bs
  | [], bs, p, p1, o1, h1 => by cases h1; rfl
  | a :: as, bs, p, p1, o1, h1 => by
    rw [Site.run] at h1
    obtain ⟨⟨p3, o3⟩, e1, h1⟩ := bind_ok h1
    obtain ⟨⟨p4, o4⟩, e2, h1⟩ := bind_ok h1
    cases h1
    rw [List.cons_append, Site.acts, Site.acts, e1]
    simp only
    rw [site_acts_append e2, List.append_assoc]

/-! ### One connection -/

theorem step_era {S : Setup} {H : Host} {p p' : Site} {a : Deed} {o : List Out} (h : p.step S H a = .ok (p', o)) :
    p.era ≤ p'.era ∧ ∀ x ∈ o, x.who.1 = p.era := by
  cases a with
  | inp a =>
    rw [Site.step] at h
    split at h
    · cases h
    · split at h
      · cases h; simp
      · obtain ⟨⟨z, l⟩, e1, e2⟩ := bind_ok h
        cases e2; simp
  | flush x y n =>
    rw [Site.step] at h
    obtain ⟨z, e1, e2⟩ := bind_ok h
    cases e2; simp
  | restart st cl op data =>
    rw [Site.step] at h
    obtain ⟨d, e1, h⟩ := bind_ok h
    obtain ⟨z, e2, h⟩ := bind_ok h
    cases h; simp [Site.fresh]

theorem run_era {S : Setup} {H : Host} : ∀ {ds : List Deed} {p p' : Site} {o : List Out}, p.run S H ds = .ok (p', o) →
    ∀ x ∈ o, p.era ≤ x.who.1
  | [], p, p', o, h, x, hx => by cases h; cases hx
  | a :: ds, p, p', o, h, x, hx => by
    rw [Site.run] at h
    obtain ⟨⟨p1, o1⟩, e1, h⟩ := bind_ok h
    obtain ⟨⟨p2, o2⟩, e2, h⟩ := bind_ok h
    cases h
    have hs := step_era e1
    rcases List.mem_append.1 hx with hx | hx
    · exact Nat.le_of_eq (hs.2 x hx).symm
    · exact Nat.le_trans hs.1 (run_era e2 x hx)

/-- Nothing for a connection. -/
def Silent (who : Nat × Nat) (o : List Out) : Prop := bytesTo who o = [] ∧ doneFor who o = []

theorem bytesTo_append (who : Nat × Nat) (a b : List Out) : bytesTo who (a ++ b) = bytesTo who a ++ bytesTo who b := by
  simp [bytesTo]

theorem doneFor_append (who : Nat × Nat) (a b : List Out) : doneFor who (a ++ b) = doneFor who a ++ doneFor who b := by
  simp [doneFor]

theorem silent_of {who : Nat × Nat} : ∀ {o : List Out}, (∀ x ∈ o, x.who ≠ who) → Silent who o
  | [], _ => ⟨rfl, rfl⟩
  | x :: o, h => by
    obtain ⟨h1, h2⟩ := silent_of (o := o) fun y hy => h y (by simp [hy])
    have hx := h x (by simp)
    constructor
    · simpa [bytesTo, hx] using h1
    · simpa [doneFor, hx] using h2

theorem silent_past {S : Setup} {H : Host} {ds : List Deed} {p p' : Site} {o : List Out} (h : p.run S H ds = .ok (p', o))
    {e i : Nat} (he : e < p.era) : Silent (e, i) o :=
  silent_of fun x hx hw => by
    have := run_era h x hx
    rw [hw] at this
    exact absurd this (by simpa using he)

theorem heard_past : ∀ {ds : List Deed} {e i now : Nat}, e < now → heard (e, i) now ds = []
  | [], _, _, _, _ => rfl
  | .inp a :: ds, e, i, now, h => by
    rw [heard, if_neg (by simp; omega)]
    exact heard_past h
  | .flush _ _ _ :: ds, e, i, now, h => heard_past (ds := ds) h
  | .restart _ _ _ _ :: ds, e, i, now, h => heard_past (ds := ds) (by omega)

/-- The step of another connection. -/
theorem hub_other {H : Host} {h h' : Hub} {a : Inp} {b : Bytes} (hs : h.step H a = some (h', b)) {i : Nat} (hi : i ≠ a.con) :
    h'.con i = h.con i := by
  cases a with
  | close j =>
    simp only [Hub.step, Option.some.injEq, Prod.mk.injEq] at hs
    obtain ⟨rfl, -⟩ := hs
    simp only [Inp.con] at hi
    simp [Hub.set, hi]
  | read j o c =>
    simp only [Inp.con] at hi
    unfold Hub.step at hs
    simp only at hs
    repeat' split at hs
    all_goals first | cases hs | skip
    all_goals simp [Hub.set, hi]

theorem step_other {S : Setup} {H : Host} {p p' : Site} {a : Inp} {o : List Out} (h : p.step S H (.inp a) = .ok (p', o)) {i : Nat}
    (hi : a.con ≠ i) : p'.con i = p.con i ∧ p'.era = p.era ∧ ∀ e, Silent (e, i) o := by
  rw [Site.step] at h
  split at h
  · cases h
  · rename_i h1 b hs
    have := hub_other hs (Ne.symm hi)
    split at h
    · cases h
      exact ⟨this, rfl, fun e => silent_of (by simp [hi])⟩
    · obtain ⟨⟨z, l⟩, e1, e2⟩ := bind_ok h
      cases e2
      exact ⟨this, rfl, fun e => silent_of (by simp [hi])⟩

theorem step_flush {S : Setup} {H : Host} {p p' : Site} {x y : String} {n : Nat} {o : List Out}
    (h : p.step S H (.flush x y n) = .ok (p', o)) : p'.con = p.con ∧ p'.era = p.era ∧ o = [] := by
  rw [Site.step] at h
  obtain ⟨z, e1, e2⟩ := bind_ok h
  cases e2
  exact ⟨rfl, rfl, rfl⟩

theorem step_restart {S : Setup} {H : Host} {p p' : Site} {st : Start} {cl op : List MKey → List MKey} {data : Path → Bytes} {o : List Out}
    (h : p.step S H (.restart st cl op data) = .ok (p', o)) : (∀ i, p'.con i = .greeting {}) ∧ p'.era = p.era + 1 ∧ o = [] := by
  rw [Site.step] at h
  obtain ⟨d, e1, h⟩ := bind_ok h
  obtain ⟨z, e2, h⟩ := bind_ok h
  cases h
  exact ⟨fun _ => rfl, rfl, rfl⟩

theorem query_out {S : Setup} {z z' : Sys} {q : Q} {o : List (Q × Answer)} (h : z.query S q = .ok (z', o)) :
    o = [(q, (serve q.1 z.srv q.2.1 q.2.2.1 q.2.2.2).2.2.1)] := by
  unfold Sys.query at h
  simp only at h
  obtain ⟨w, _, h⟩ := bind_ok h
  obtain ⟨u, _, h⟩ := bind_ok h
  cases h
  rfl

/-- A connection that is closed stays silent. -/
theorem run_closed {S : Setup} {H : Host} {i : Nat} : ∀ {ds : List Deed} {p p' : Site} {o : List Out}, p.run S H ds = .ok (p', o) →
    p.con i = .closed → Silent (p.era, i) o
  | [], p, p', o, h, hc => by cases h; exact ⟨rfl, rfl⟩
  | a :: ds, p, p', o, h, hc => by
    rw [Site.run] at h
    obtain ⟨⟨p1, o1⟩, e1, h⟩ := bind_ok h
    obtain ⟨⟨p2, o2⟩, e2, h⟩ := bind_ok h
    cases h
    suffices hs : Silent (p.era, i) o1 ∧ Silent (p.era, i) o2 by
      exact ⟨by rw [bytesTo_append, hs.1.1, hs.2.1]; rfl, by rw [doneFor_append, hs.1.2, hs.2.2]; rfl⟩
    cases a with
    | inp a =>
      by_cases hi : a.con = i
      · have hask : p.asked a = none := by
          cases a with
          | close j => rfl
          | read j o c => simp only [Inp.con] at hi; subst hi; simp [Site.asked, hc]
        have hstep : ∃ h', Hub.step H ⟨p.sys.srv, p.con⟩ a = some (h', []) ∧ h'.con i = .closed := by
          cases a with
          | close j => simp only [Inp.con] at hi; subst hi; exact ⟨_, rfl, by simp [Hub.set]⟩
          | read j o c => simp only [Inp.con] at hi; subst hi; exact ⟨⟨p.sys.srv, p.con⟩, by simp [Hub.step, hc], hc⟩
        obtain ⟨h', k1, k2⟩ := hstep
        rw [Site.step, k1] at e1
        simp only [hask, Batch.Run.ok.injEq, Prod.mk.injEq] at e1
        obtain ⟨rfl, rfl⟩ := e1
        exact ⟨⟨by simp [bytesTo], by simp [doneFor]⟩, run_closed (p := ⟨p.sys, h'.con, p.era⟩) e2 k2⟩
      · obtain ⟨k1, k2, k3⟩ := step_other e1 hi
        exact ⟨k3 _, by rw [← k2]; exact run_closed e2 (k1.trans hc)⟩
    | flush x y n =>
      obtain ⟨k1, k2, rfl⟩ := step_flush e1
      exact ⟨⟨rfl, rfl⟩, by rw [← k2]; exact run_closed e2 (by rw [k1]; exact hc)⟩
    | restart st cl op data =>
      obtain ⟨k1, k2, rfl⟩ := step_restart e1
      exact ⟨⟨rfl, rfl⟩, silent_past e2 (by omega)⟩

theorem Answers.nil {done : List (Q × Answer)} {ras : List Net.Reply.Answer} : Answers [] done ras → done = [] ∧ ras = []
  | .inl ⟨h1, h2⟩ => by
    have : done = [] := by simpa using h1
    subst this
    exact ⟨rfl, by simpa using h2.symm⟩
  | .inr ⟨h1, h2⟩ => by
    have : done = [] := by simpa using h1
    subst this
    simp at h2

theorem solo_asked_nil {c : Conn} {qs : List (Bytes × Bytes)} (h : (solo (.talk c) []).map Msg.asked = qs.map some) : qs = [] := by
  cases qs with
  | nil => rfl
  | cons q qs => simp [solo] at h

/-- A connection that is logged in and sends queries. -/
theorem run_talking {S : Setup} {H : Host} {i : Nat} : ∀ {ds : List Deed} {p p' : Site} {o : List Out}, p.run S H ds = .ok (p', o) →
    ∀ {c : Conn} {x : Sess}, p.con i = .talking c x → ∀ {qs : List (Bytes × Bytes)},
    (solo (.talk c) (heard (p.era, i) p.era ds)).map Msg.asked = qs.map some →
    ∃ ras : List Net.Reply.Answer, Answers qs (doneFor (p.era, i) o) ras ∧
      bytesTo (p.era, i) o = (ras.map fun r => send (r.resp H.text)).flatten ∧
      ∀ e ∈ doneFor (p.era, i) o, e.1.2.1.client = x.client
  | [], p, p', o, h, c, x, hc, qs, hq => by
    cases h
    cases solo_asked_nil hq
    exact ⟨[], .inl ⟨rfl, rfl⟩, rfl, by simp [doneFor]⟩
  | a :: ds, p, p', o, h, c, x, hc, qs, hq => by
    rw [Site.run] at h
    obtain ⟨⟨p1, o1⟩, e1, h⟩ := bind_ok h
    obtain ⟨⟨p2, o2⟩, e2, h⟩ := bind_ok h
    cases h
    cases a with
    | flush x' y n =>
      obtain ⟨k1, k2, rfl⟩ := step_flush e1
      rw [heard] at hq
      have := run_talking e2 (i := i) (by rw [k1]; exact hc) (qs := qs) (by rw [k2]; exact hq)
      rw [k2] at this
      exact this
    | restart st cl op data =>
      obtain ⟨k1, k2, rfl⟩ := step_restart e1
      rw [heard, heard_past (by omega)] at hq
      cases solo_asked_nil hq
      obtain ⟨s1, s2⟩ := silent_past e2 (e := p.era) (i := i) (by omega)
      rw [List.nil_append, s1, s2]
      exact ⟨[], .inl ⟨rfl, rfl⟩, rfl, by simp⟩
    | inp a =>
      by_cases hi : a.con = i
      · rw [heard, if_pos (by rw [hi]), solo] at hq
        cases a with
        | close j =>
          simp only [Fr.inp, List.cons_append, List.nil_append, List.map_cons] at hq
          cases qs <;> simp [Msg.asked] at hq
        | read j oo chunk =>
          simp only [Inp.con] at hi
          subst hi
          simp only [Fr.inp, Fr.feed] at hq
          rw [Site.step] at e1
          rcases hf : c.feed chunk with ⟨c', ev⟩
          rw [hf] at hq
          cases ev with
          | none =>
            simp only [Hub.step, hc, hf, Site.asked, Batch.Run.ok.injEq, Prod.mk.injEq] at e1
            obtain ⟨rfl, rfl⟩ := e1
            obtain ⟨ras, r1, r2, r3⟩ := run_talking e2 (i := j) (c := c') (x := x) (by simp [Hub.set]) (qs := qs) hq
            refine ⟨ras, ?_, ?_, ?_⟩
            · rw [doneFor_append]; simpa [doneFor] using r1
            · rw [bytesTo_append]; simpa [bytesTo] using r2
            · rw [doneFor_append]; simpa [doneFor] using r3
          | illegal => cases qs <;> simp [Msg.asked] at hq
          | panic => cases qs <;> simp [Msg.asked] at hq
          | query text params =>
            cases qs with
            | nil => simp at hq
            | cons q qs =>
              simp only [List.singleton_append, List.map_cons, List.cons.injEq, Msg.asked, Option.some.injEq] at hq
              obtain ⟨rfl, hq⟩ := hq
              simp only [Hub.step, hc, hf, Site.asked, Inp.con] at e1
              rcases hv : serve oo p.sys.srv x text params with ⟨s', x', ans, evt⟩
              have hx' : x'.client = x.client := by
                have := serve_client oo p.sys.srv x text params
                rw [hv] at this
                exact this
              simp only [hv] at e1
              cases ht : told ans with
              | some r =>
                simp only [ht] at e1
                obtain ⟨⟨z, l⟩, g1, g2⟩ := bind_ok e1
                cases g2
                have hl := query_out g1
                simp only [hv] at hl
                subst hl
                obtain ⟨ras, r1, r2, r3⟩ := run_talking e2 (i := j) (c := c') (x := x') (by simp [Hub.set]) (qs := qs) hq
                have hd : doneFor (p.era, j) ([⟨(p.era, j), send (r.resp H.text), [((oo, x, text, params), ans)]⟩] ++ o2) =
                    ((oo, x, text, params), ans) :: doneFor (p.era, j) o2 := by simp [doneFor]
                refine ⟨r :: ras, ?_, ?_, ?_⟩
                · rw [hd]
                  rcases r1 with ⟨a1, a2⟩ | ⟨a1, a2⟩
                  · exact .inl ⟨by rw [List.map_cons, a1]; rfl, by rw [List.map_cons, a2]; simp [ht]⟩
                  · refine .inr ⟨?_, by rw [List.map_cons, a2]; simp [ht]⟩
                    rw [List.map_cons]
                    exact List.cons_prefix_cons.2 ⟨rfl, a1⟩
                · rw [bytesTo_append, r2]
                  simp [bytesTo]
                · rw [hd]
                  intro e he
                  rcases List.mem_cons.1 he with rfl | he
                  · rfl
                  · rw [r3 e he, hx']
              | none =>
                simp only [ht] at e1
                obtain ⟨⟨z, l⟩, g1, g2⟩ := bind_ok e1
                cases g2
                have hl := query_out g1
                simp only [hv] at hl
                subst hl
                obtain ⟨s1, s2⟩ := run_closed e2 (i := j) (by simp [Hub.set])
                have hd : doneFor (p.era, j) ([⟨(p.era, j), [], [((oo, x, text, params), ans)]⟩] ++ o2) =
                    [((oo, x, text, params), ans)] := by
                  rw [doneFor_append, s2]; simp [doneFor]
                refine ⟨[], .inr ⟨?_, ?_⟩, ?_, ?_⟩
                · rw [hd]
                  exact List.cons_prefix_cons.2 ⟨rfl, List.nil_prefix⟩
                · rw [hd]; simp [ht]
                · rw [bytesTo_append, s1]; simp [bytesTo]
                · rw [hd]; simp
      · obtain ⟨k1, k2, k3⟩ := step_other e1 hi
        rw [heard, if_neg (by simp [hi])] at hq
        obtain ⟨ras, r1, r2, r3⟩ := run_talking e2 (i := i) (k1.trans hc) (qs := qs) (by rw [k2]; exact hq)
        rw [k2] at r1 r2 r3
        refine ⟨ras, ?_, ?_, ?_⟩
        · rw [doneFor_append, (k3 _).2]; exact r1
        · rw [bytesTo_append, (k3 _).1]; exact r2
        · rw [doneFor_append, (k3 _).2]; exact r3

/-- A connection that says hello and then sends queries. -/
theorem run_greeting {S : Setup} {H : Host} {i : Nat} {name pwd : Bytes} : ∀ {ds : List Deed} {p p' : Site} {o : List Out},
    p.run S H ds = .ok (p', o) → ∀ {c : HsConn}, p.con i = .greeting c → ∀ {l : List Msg} {qs : List (Bytes × Bytes)},
    solo (.greet c) (heard (p.era, i) p.era ds) = .hello name pwd :: l → l.map Msg.asked = qs.map some →
    ∃ pre post p1 o1, ds = pre ++ post ∧ p.run S H pre = .ok (p1, o1) ∧ p1.era = p.era ∧
      ((Gns.login H.check p1.sys.srv.cat name pwd = none ∧ bytesTo (p.era, i) o = [72, 0, 1, 5] ∧ doneFor (p.era, i) o = []) ∨
       ∃ (u : Client) (ras : List Net.Reply.Answer), Gns.login H.check p1.sys.srv.cat name pwd = some u ∧
        Answers qs (doneFor (p.era, i) o) ras ∧
        bytesTo (p.era, i) o = [72, 0, 0, 0] ++ (ras.map fun r => send (r.resp H.text)).flatten ∧
        ∀ e ∈ doneFor (p.era, i) o, e.1.2.1.client = u)
  | [], p, p', o, h, c, hc, l, qs, hh, _ => by simp [heard, solo] at hh
  | a :: ds, p, p', o, h, c, hc, l, qs, hh, hq => by
    have h0 := h
    rw [Site.run] at h
    obtain ⟨⟨p1, o1⟩, e1, h⟩ := bind_ok h
    obtain ⟨⟨p2, o2⟩, e2, h⟩ := bind_ok h
    cases h
    have later : ∀ {c' : HsConn}, p1.con i = .greeting c' → p1.era = p.era → Silent (p.era, i) o1 →
        solo (.greet c') (heard (p.era, i) p.era ds) = .hello name pwd :: l →
        ∃ pre post p3 o3, a :: ds = pre ++ post ∧ p.run S H pre = .ok (p3, o3) ∧ p3.era = p.era ∧
          ((Gns.login H.check p3.sys.srv.cat name pwd = none ∧ bytesTo (p.era, i) (o1 ++ o2) = [72, 0, 1, 5] ∧
            doneFor (p.era, i) (o1 ++ o2) = []) ∨
          ∃ (u : Client) (ras : List Net.Reply.Answer), Gns.login H.check p3.sys.srv.cat name pwd = some u ∧
            Answers qs (doneFor (p.era, i) (o1 ++ o2)) ras ∧
            bytesTo (p.era, i) (o1 ++ o2) = [72, 0, 0, 0] ++ (ras.map fun r => send (r.resp H.text)).flatten ∧
            ∀ e ∈ doneFor (p.era, i) (o1 ++ o2), e.1.2.1.client = u) := by
      intro c' k1 k2 k3 k4
      obtain ⟨pre, post, p3, o3, g1, g2, g3, g4⟩ := run_greeting e2 k1 (by rw [k2]; exact k4) hq
      refine ⟨a :: pre, post, p3, o1 ++ o3, by rw [g1]; rfl, ?_, g3.trans k2, ?_⟩
      · rw [Site.run, e1]
        simp only [Batch.Run.bind]
        rw [g2]
      · rw [k2] at g4
        rw [bytesTo_append, doneFor_append, k3.1, k3.2]
        exact g4
    cases a with
    | flush x' y n =>
      obtain ⟨k1, k2, rfl⟩ := step_flush e1
      exact later (by rw [k1]; exact hc) k2 ⟨rfl, rfl⟩ (by rw [heard] at hh; exact hh)
    | restart st cl op data =>
      rw [heard, heard_past (by omega)] at hh
      simp [solo] at hh
    | inp a =>
      by_cases hi : a.con = i
      · rw [heard, if_pos (by rw [hi]), solo] at hh
        cases a with
        | close j => simp [Fr.inp] at hh
        | read j oo chunk =>
          simp only [Inp.con] at hi
          subst hi
          simp only [Fr.inp, Fr.feed] at hh
          rw [Site.step] at e1
          have hask : p.asked (.read j oo chunk) = none := by simp [Site.asked, hc]
          cases hf : c.feed chunk with
          | more c' =>
            rw [hf] at hh
            simp only [Hub.step, hc, hf, hask, Batch.Run.ok.injEq, Prod.mk.injEq] at e1
            obtain ⟨rfl, rfl⟩ := e1
            exact later (c' := c') (by simp [Hub.set]) rfl ⟨by simp [bytesTo], by simp [doneFor]⟩ hh
          | done u' p' left =>
            rw [hf] at hh
            simp only [List.singleton_append, List.cons.injEq, Msg.hello.injEq] at hh
            obtain ⟨⟨rfl, rfl⟩, rfl⟩ := hh
            refine ⟨[], .inp (.read j oo chunk) :: ds, p, [], rfl, rfl, rfl, ?_⟩
            cases hlog : Gns.login H.check p.sys.srv.cat u' p' with
            | none =>
              simp only [Hub.step, hc, hf, hask, hlog, Batch.Run.ok.injEq, Prod.mk.injEq, Inp.con] at e1
              obtain ⟨rfl, rfl⟩ := e1
              obtain ⟨s1, s2⟩ := run_closed e2 (i := j) (by simp [Hub.set])
              refine .inl ⟨rfl, ?_, ?_⟩
              · rw [bytesTo_append, s1]; simp [bytesTo, hsRefusal, hsCode]
              · rw [doneFor_append, s2]; simp [doneFor]
            | some u =>
              simp only [Hub.step, hc, hf, hask, hlog, Batch.Run.ok.injEq, Prod.mk.injEq, Inp.con] at e1
              obtain ⟨rfl, rfl⟩ := e1
              obtain ⟨ras, r1, r2, r3⟩ := run_talking e2 (i := j) (c := Conn.fresh left) (x := ⟨u, none⟩) (by simp [Hub.set]) (qs := qs) hq
              refine .inr ⟨u, ras, rfl, ?_, ?_, ?_⟩
              · rw [doneFor_append]; simpa [doneFor] using r1
              · rw [bytesTo_append, r2]; simp [bytesTo, hsWelcome]
              · rw [doneFor_append]; simpa [doneFor] using r3
          | reject e => rw [hf] at hh; simp at hh
          | panic => rw [hf] at hh; simp at hh
          | oob => rw [hf] at hh; simp at hh
      · obtain ⟨k1, k2, k3⟩ := step_other e1 hi
        refine later (k1.trans hc) k2 (k3 _) ?_
        rw [heard, if_neg (by simp [hi])] at hh
        exact hh

/-- A connection of any start. -/
theorem run_client {S : Setup} {H : Host} {e i : Nat} {name pwd : Bytes} {l : List Msg} {qs : List (Bytes × Bytes)}
    (hq : l.map Msg.asked = qs.map some) : ∀ {ds : List Deed} {p p' : Site} {o : List Out}, p.run S H ds = .ok (p', o) →
    (p.era < e ∨ p.era = e ∧ p.con i = .greeting {}) →
    solo (.greet {}) (heard (e, i) p.era ds) = .hello name pwd :: l →
    ∃ pre post p1 o1, ds = pre ++ post ∧ p.run S H pre = .ok (p1, o1) ∧ p1.era = e ∧
      ((Gns.login H.check p1.sys.srv.cat name pwd = none ∧ bytesTo (e, i) o = [72, 0, 1, 5] ∧ doneFor (e, i) o = []) ∨
       ∃ (u : Client) (ras : List Net.Reply.Answer), Gns.login H.check p1.sys.srv.cat name pwd = some u ∧
        Answers qs (doneFor (e, i) o) ras ∧
        bytesTo (e, i) o = [72, 0, 0, 0] ++ (ras.map fun r => send (r.resp H.text)).flatten ∧
        ∀ d ∈ doneFor (e, i) o, d.1.2.1.client = u)
  | [], p, p', o, h, _, hh => by simp [heard, solo] at hh
  | a :: ds, p, p', o, h, hp, hh => by
    rcases hp with hp | ⟨rfl, hp⟩
    · rw [Site.run] at h
      obtain ⟨⟨p1, o1⟩, e1, h⟩ := bind_ok h
      obtain ⟨⟨p2, o2⟩, e2, h⟩ := bind_ok h
      cases h
      have hs : Silent (e, i) o1 := silent_of fun x hx hw => by
        have := (step_era e1).2 x hx
        rw [hw] at this
        simp only at this
        omega
      have hnext : (p1.era < e ∨ p1.era = e ∧ p1.con i = .greeting {}) ∧ heard (e, i) p.era (a :: ds) = heard (e, i) p1.era ds := by
        cases a with
        | inp a =>
          have he : p1.era = p.era := by
            rw [Site.step] at e1
            split at e1
            · cases e1
            · split at e1
              · cases e1; rfl
              · obtain ⟨⟨z, l⟩, g1, g2⟩ := bind_ok e1
                cases g2; rfl
          rw [he]
          refine ⟨.inl hp, ?_⟩
          rw [heard, if_neg (by simp; omega)]
        | flush x y n =>
          obtain ⟨_, k2, _⟩ := step_flush e1
          rw [k2]
          exact ⟨.inl hp, rfl⟩
        | restart st cl op data =>
          obtain ⟨k1, k2, _⟩ := step_restart e1
          refine ⟨?_, by rw [k2]; rfl⟩
          by_cases h' : p1.era < e
          · exact .inl h'
          · exact .inr ⟨by omega, k1 i⟩
      rw [hnext.2] at hh
      obtain ⟨pre, post, p3, o3, g1, g2, g3, g4⟩ := run_client hq e2 hnext.1 hh
      refine ⟨a :: pre, post, p3, o1 ++ o3, by rw [g1]; rfl, ?_, g3, ?_⟩
      · rw [Site.run, e1]
        simp only [Batch.Run.bind]
        rw [g2]
      · rw [bytesTo_append, doneFor_append, hs.1, hs.2]
        exact g4
    · exact run_greeting h hp hh hq

theorem zip_scripts : ∀ {ps : List (List Bytes)} {qs : List (Bytes × Bytes)},
    ps.map List.flatten = qs.map (fun q => packet q.1 q.2) → (∀ p ∈ ps, ∀ x ∈ p, x ≠ []) →
    ∃ l : List ((Bytes × Bytes) × List Bytes), l.map (·.1) = qs ∧ l.map (·.2) = ps ∧
      ∀ m ∈ l, m.2.flatten = packet m.1.1 m.1.2 ∧ ∀ x ∈ m.2, x ≠ []
  | [], [], _, _ => ⟨[], rfl, rfl, by simp⟩
  | [], _ :: _, h, _ => by simp at h
  | _ :: _, [], h, _ => by simp at h
  | p :: ps, q :: qs, h, hp => by
    simp only [List.map_cons, List.cons.injEq] at h
    obtain ⟨l, h1, h2, h3⟩ := zip_scripts h.2 fun y hy => hp y (by simp [hy])
    refine ⟨(q, p) :: l, by simp [h1], by simp [h2], ?_⟩
    intro m hm
    rcases List.mem_cons.1 hm with rfl | hm
    · exact ⟨h.1, hp p (by simp)⟩
    · exact h3 m hm

/-- What a client that follows the protocol gets. -/
theorem follows_gets {S : Setup} {H : Host} {z : Sys} {ds : List Deed} {p' : Site} {out : List Out}
    (hrun : (Site.fresh z 0).run S H ds = .ok (p', out)) {who : Nat × Nat} {name pwd : Bytes} {qs : List (Bytes × Bytes)}
    (hc : Follows who ds name pwd qs) :
    ∃ pre post p1 o1, ds = pre ++ post ∧ (Site.fresh z 0).run S H pre = .ok (p1, o1) ∧ p1.era = who.1 ∧
      ((Gns.login H.check p1.sys.srv.cat name pwd = none ∧ bytesTo who out = [72, 0, 1, 5] ∧ doneFor who out = []) ∨
       ∃ (u : Client) (ras : List Net.Reply.Answer), Gns.login H.check p1.sys.srv.cat name pwd = some u ∧
        Answers qs (doneFor who out) ras ∧
        bytesTo who out = [72, 0, 0, 0] ++ (ras.map fun r => send (r.resp H.text)).flatten ∧
        ∀ d ∈ doneFor who out, d.1.2.1.client = u) := by
  obtain ⟨e, i⟩ := who
  obtain ⟨hs, ps, h1, h2, h3, h4, h5⟩ := hc.sends
  obtain ⟨l, k1, k2, k3⟩ := zip_scripts h4 h5
  obtain ⟨ms, g1, g2⟩ := solo_script (qs := l) hc.stays (by rw [h1, k2]) h2 h3 hc.sizes.1
    (fun m hm => hc.sizes.2 m.1 (by rw [← k1]; exact List.mem_map_of_mem hm)) k3
  refine run_client (l := ms) (by rw [g2, ← k1, List.map_map]; rfl) hrun ?_ g1
  by_cases he : e = 0
  · exact .inr ⟨he.symm, rfl⟩
  · exact .inl (Nat.pos_of_ne_zero he)

/-! ### The answers are well-formed -/

theorem Holds.tags {S : Setup} {z : Sys} {sp m : String} {md : Model} {t : Tbl} (h : Holds S z sp m md t) : Good t := by
  obtain ⟨R, hg⟩ := h.good
  refine ⟨hg.vals, fun e he => .inr ?_⟩
  have := (hg.inv.rows e he).1
  rw [hg.inv.model]
  exact this

theorem AllHold.tags {S : Setup} {z : Sys} (h : AllHold S z) : GoodSrv z.srv := by
  intro a b t ht
  unfold Srv.tbl at ht
  cases hm : z.srv.cat.models a b with
  | none => rw [hm] at ht; cases ht
  | some md =>
    obtain ⟨_, t', k⟩ := h a b md hm
    have := k.tbl
    unfold Srv.tbl at this
    rw [this] at ht
    cases ht
    exact k.tags

theorem AllHold.act {S : Setup} (hl : S.lim ≤ 2 ^ 62) (hlo : HEADER < S.lim) (hh : S.mdlHdr.length = HEADER) {z z1 : Sys} {a : Act}
    {o : List (Q × Answer)} (hz : SysOk S z) (h : AllHold S z) (hp : PlainAct z a) (hx : z.act S a = .ok (z1, o)) :
    SysOk S z1 ∧ AllHold S z1 ∧ ∀ e ∈ o, AnswerTags e.2 := by
  have hok : ActOk a := by
    cases a with
    | query q => exact hp.1
    | flush => trivial
    | restart => exact hp
  refine ⟨hz.act hl hok hx, ?_⟩
  cases a with
  | query q =>
    refine ⟨h.query hl hlo hh hz hp hx, fun e he => ?_⟩
    rw [query_out hx] at he
    cases List.mem_singleton.1 he
    exact (serve_good hz.cons h.tags hp.2.1).2
  | flush a b n =>
    rw [Sys.act] at hx
    obtain ⟨z3, f1, f2⟩ := bind_ok hx
    cases f2
    refine ⟨?_, by simp⟩
    intro x y md hm
    rw [(hz.flush f1).2] at hm
    obtain ⟨k1, t, k2⟩ := h x y md hm
    obtain ⟨t', g, _⟩ := k2.flush hl k1 f1
    exact ⟨k1, t', g⟩
  | restart st cl op data =>
    obtain ⟨r1, _, r3, r4⟩ := hz.restart hl hok.1 hok.2 hx
    refine ⟨?_, by rw [r1]; simp⟩
    intro x y md hm
    rw [r3] at hm
    obtain ⟨k1, t, k2⟩ := h x y md hm
    obtain ⟨t', g, _⟩ := r4 x y md t k1 k2
    exact ⟨k1, t', g⟩

theorem AllHold.acts {S : Setup} (hl : S.lim ≤ 2 ^ 62) (hlo : HEADER < S.lim) (hh : S.mdlHdr.length = HEADER) :
    ∀ {as : List Act} {z z' : Sys} {o : List (Q × Answer)}, SysOk S z → AllHold S z → Plainly S z as → z.acts S as = .ok (z', o) →
    ∀ e ∈ o, AnswerTags e.2
  | [], z, z', o, _, _, _, hx, e, he => by cases hx; cases he
  | a :: as, z, z', o, hz, h, hp, hx, e, he => by
    rw [Sys.acts] at hx
    obtain ⟨⟨z1, o1⟩, e1, hx⟩ := bind_ok hx
    obtain ⟨⟨z2, o2⟩, e2, hx⟩ := bind_ok hx
    cases hx
    obtain ⟨k1, k2, k3⟩ := h.act hl hlo hh hz hp.1 e1
    rcases List.mem_append.1 he with he | he
    · exact k3 e he
    · exact AllHold.acts hl hlo hh k1 k2 (hp.2 z1 o1 e1) e2 e he

theorem AllHold.all {S : Setup} (hl : S.lim ≤ 2 ^ 62) (hlo : HEADER < S.lim) (hh : S.mdlHdr.length = HEADER) :
    ∀ {as : List Act} {z z' : Sys} {o : List (Q × Answer)}, SysOk S z → AllHold S z → Plainly S z as → z.acts S as = .ok (z', o) →
    SysOk S z' ∧ AllHold S z'
  | [], z, z', o, hz, h, _, hx => by cases hx; exact ⟨hz, h⟩
  | a :: as, z, z', o, hz, h, hp, hx => by
    rw [Sys.acts] at hx
    obtain ⟨⟨z1, o1⟩, e1, hx⟩ := bind_ok hx
    obtain ⟨⟨z2, o2⟩, e2, hx⟩ := bind_ok hx
    cases hx
    obtain ⟨x1, x2, _⟩ := h.act hl hlo hh hz hp.1 e1
    exact AllHold.all hl hlo hh x1 x2 (hp.2 z1 o1 e1) e2

theorem doneFor_sub {who : Nat × Nat} {out : List Out} {e : Q × Answer} (h : e ∈ doneFor who out) : e ∈ doneAll out := by
  simp only [doneFor, doneAll, List.mem_flatten, List.mem_map] at h ⊢
  obtain ⟨l, ⟨o, ho, rfl⟩, he⟩ := h
  split at he
  · exact ⟨_, ⟨o, ho, rfl⟩, he⟩
  · cases he

theorem Answers.told {qs : List (Bytes × Bytes)} {done : List (Q × Answer)} {ras : List Net.Reply.Answer} (h : Answers qs done ras)
    {r : Net.Reply.Answer} (hr : r ∈ ras) : ∃ e ∈ done, Server.told e.2 = some r := by
  have : some r ∈ done.map fun e => Server.told e.2 := by
    rcases h with ⟨_, h⟩ | ⟨_, h⟩ <;> rw [h] <;> simp [hr]
  obtain ⟨e, h1, h2⟩ := List.mem_map.1 this
  exact ⟨e, h1, h2⟩

theorem doneFor_sublist (who : Nat × Nat) : ∀ (out : List Out), (doneFor who out).Sublist (doneAll out)
  | [] => .slnil
  | o :: out => by
    have ih := doneFor_sublist who out
    simp only [doneFor, doneAll, List.map_cons, List.flatten_cons] at ih ⊢
    split
    · exact (List.Sublist.refl _).append ih
    · exact (List.nil_sublist _).append ih

/-! ### The statements -/

theorem stmtsOn_append (sp m : String) (a b : List Act) : stmtsOn sp m (a ++ b) = stmtsOn sp m a ++ stmtsOn sp m b := by
  simp [stmtsOn]

theorem acts_stmts {S : Setup} {sp m : String} : ∀ {as : List Act} {z z' : Sys} {o : List (Q × Answer)},
    z.acts S as = .ok (z', o) → (∀ e, .query e ∈ as → Usual e) → stmtsOn sp m as = o.filterMap fun e => stmtOn sp m e.1
  | [], z, z', o, h, _ => by cases h; rfl
  | a :: as, z, z', o, h, hu => by
    rw [Sys.acts] at h
    obtain ⟨⟨z1, o1⟩, e1, h⟩ := bind_ok h
    obtain ⟨⟨z2, o2⟩, e2, h⟩ := bind_ok h
    cases h
    have ih := acts_stmts (sp := sp) (m := m) e2 fun e he => hu e (by simp [he])
    have hc : stmtsOn sp m (a :: as) = stmtsOn sp m [a] ++ stmtsOn sp m as := stmtsOn_append sp m [a] as
    rw [hc, ih, List.filterMap_append]
    congr 1
    cases a with
    | query q =>
      rw [query_out e1]
      simp [stmtsOn, List.filterMap_cons]
    | flush x y n =>
      rw [Sys.act] at e1
      obtain ⟨z3, _, f2⟩ := bind_ok e1
      cases f2
      rfl
    | restart st cl op data =>
      rw [Sys.act] at e1
      obtain ⟨d, _, f2⟩ := bind_ok e1
      obtain ⟨z3, _, f2⟩ := bind_ok f2
      cases f2
      rfl

theorem act_decl {S : Setup} (hl : S.lim ≤ 2 ^ 62) {F : FloatOps} {z z' : Sys} {sp m : String} (hz : SysOk S z) {a : Act}
    (ha : ActOk a) (hs : ActSpares F sp m a) {o : List (Q × Answer)} (hx : z.act S a = .ok (z', o)) :
    z'.srv.cat.models sp m = z.srv.cat.models sp m := by
  cases a with
  | query q =>
    rcases hz.query hl ha with e | ⟨z1, e, _, e2, _⟩
    · rw [Sys.act, e] at hx; cases hx
    rw [Sys.act, e] at hx
    cases hx
    rw [e2]
    cases hr : read q.1 q.2.1 q.2.2.1 q.2.2.2 with
    | none => rw [(serve_read.2 hr).1]
    | some y =>
      rw [serve_read.1 _ hr]
      refine (execute_frame hz.neat (p := .decl sp m) ?_ : Same z.srv _ (.decl sp m))
      rcases hs.1 y hr with h | h
      · intro hn
        unfold stmtOn at h
        rw [hr] at h
        cases y <;> simp_all [Names]
      · exact h.1
  | flush x y n =>
    rw [Sys.act] at hx
    obtain ⟨z3, f1, f2⟩ := bind_ok hx
    cases f2
    rw [(hz.flush f1).2]
  | restart st cl op data =>
    rw [(hz.restart hl ha.1 ha.2 hx).2.2.1]

theorem plain_ok {z : Sys} {a : Act} (h : PlainAct z a) : ActOk a := by
  cases a with
  | query q => exact h.1
  | flush => trivial
  | restart => exact h

theorem plainly_ok {S : Setup} : ∀ {as : List Act} {z z' : Sys} {o : List (Q × Answer)}, Plainly S z as → z.acts S as = .ok (z', o) →
    ∀ a ∈ as, ActOk a
  | [], _, _, _, _, _, a, ha => by cases ha
  | b :: as, z, z', o, h, hx, a, ha => by
    rw [Sys.acts] at hx
    obtain ⟨⟨z1, o1⟩, e1, hx⟩ := bind_ok hx
    obtain ⟨⟨z2, o2⟩, e2, hx⟩ := bind_ok hx
    rcases List.mem_cons.1 ha with rfl | ha
    · exact plain_ok h.1
    · exact plainly_ok (h.2 z1 o1 e1) e2 a ha

theorem plainly_append {S : Setup} : ∀ {as bs : List Act} {z z' : Sys} {o : List (Q × Answer)}, Plainly S z (as ++ bs) →
    z.acts S as = .ok (z', o) → Plainly S z as ∧ Plainly S z' bs
  | [], bs, z, z', o, h, hx => by cases hx; exact ⟨trivial, h⟩
  | a :: as, bs, z, z', o, h, hx => by
    rw [Sys.acts] at hx
    obtain ⟨⟨z1, o1⟩, e1, hx⟩ := bind_ok hx
    obtain ⟨⟨z2, o2⟩, e2, hx⟩ := bind_ok hx
    cases hx
    obtain ⟨k1, k2⟩ := plainly_append (h.2 z1 o1 e1) e2
    refine ⟨⟨h.1, fun z3 o3 h3 => ?_⟩, k2⟩
    rw [e1] at h3
    cases h3
    exact k1

theorem plain_updates {S : Setup} (hl : S.lim ≤ 2 ^ 62) {F : FloatOps} {sp m : String} {md : Model} : ∀ {as : List Act} {z z' : Sys}
    {o : List (Q × Answer)}, SysOk S z → z.srv.cat.models sp m = some md → Plainly S z as → (∀ a ∈ as, ActSpares F sp m a) →
    z.acts S as = .ok (z', o) → ∀ us w, .update us w ∈ stmtsOn sp m as → Dml.SimpleUpd md us
  | [], z, z', o, _, _, _, _, _, us, w, h => by cases h
  | a :: as, z, z', o, hz, hm, hp, hs, hx, us, w, h => by
    rw [Sys.acts] at hx
    obtain ⟨⟨z1, o1⟩, e1, hx⟩ := bind_ok hx
    obtain ⟨⟨z2, o2⟩, e2, hx⟩ := bind_ok hx
    have hok := plain_ok hp.1
    have hc : stmtsOn sp m (a :: as) = stmtsOn sp m [a] ++ stmtsOn sp m as := stmtsOn_append sp m [a] as
    rw [hc] at h
    rcases List.mem_append.1 h with h | h
    · cases a with
      | query q =>
        simp only [stmtsOn, List.mem_filterMap, List.mem_singleton] at h
        obtain ⟨_, rfl, h⟩ := h
        exact hp.1.2.2.2.2 sp m md us w hm h
      | flush => simp [stmtsOn] at h
      | restart => simp [stmtsOn] at h
    · refine plain_updates hl (hz.act hl hok e1) ?_ (hp.2 z1 o1 e1) (fun b hb => hs b (by simp [hb])) e2 us w h
      rw [act_decl hl hz hok (hs a (by simp)) e1]
      exact hm

/-! ### Theorems -/

/-- **C82, clients (partial).** Take any life of a server from a new installation on: bytes that arrive in any pieces on any
connections, batches and clean restarts at any time. A client that follows the protocol is either refused, because its name and
password are those of no account at that time, and then nothing is executed for it; or it is welcomed, all its queries are executed
in its order as the user that it named, and what it reads from the bytes that it gets are exactly the answers to these, in this
order, unless its task dies in one of them. Other clients, batches and restarts have no influence on what it can read. Missing:
clients that do not wait for replies (C65), and servers with tables that the code is known to get wrong (`PlainAct`). -/
theorem C82_clients_partial {S : Setup} {H : Host} (hl : S.lim ≤ 2 ^ 62) (hlo : HEADER < S.lim) (hg : S.gnsHdr.length = HEADER)
    (hmd : S.mdlHdr.length = HEADER) {hash : Bytes} {z : Sys} (h0 : install S hash = .ok z) {ds : List Deed} {p : Site} {out : List Out}
    (hrun : (Site.fresh z 0).run S H ds = .ok (p, out)) (hp : Plainly S z ((Site.fresh z 0).acts S H ds))
    {who : Nat × Nat} {name pwd : Bytes} {qs : List (Bytes × Bytes)} (hc : Follows who ds name pwd qs)
    (hout : (bytesTo who out).length < 2 ^ 64) :
    (doneFor who out).Sublist (doneAll out) ∧
    ∃ pre post p1 o1, ds = pre ++ post ∧ (Site.fresh z 0).run S H pre = .ok (p1, o1) ∧ p1.era = who.1 ∧
      ((Gns.login H.check p1.sys.srv.cat name pwd = none ∧ bytesTo who out = [72, 0, 1, 5] ∧ doneFor who out = []) ∨
       ∃ (u : Client) (ras : List Net.Reply.Answer) (b : Bytes), Gns.login H.check p1.sys.srv.cat name pwd = some u ∧
        (∀ d ∈ doneFor who out, d.1.2.1.client = u) ∧ Answers qs (doneFor who out) ras ∧ bytesTo who out = [72, 0, 0, 0] ++ b ∧
        ((∀ a ∈ ras, FewCols a) → readReplies H.text ras.length b = some (ras.map Net.Reply.Answer.canon, []))) := by
  refine ⟨doneFor_sublist who out, ?_⟩
  obtain ⟨pre, post, p1, o1, g1, g2, g3, g4⟩ := follows_gets hrun hc
  refine ⟨pre, post, p1, o1, g1, g2, g3, ?_⟩
  rcases g4 with g4 | ⟨u, ras, k1, k2, k3, k4⟩
  · exact .inl g4
  · refine .inr ⟨u, ras, _, k1, k4, k2, k3, fun hf => ?_⟩
    refine Net.Reply.C26_connections H.text ras fun a ha => ?_
    obtain ⟨e, he, ht⟩ := k2.told ha
    rcases install_ok hl hg hash with i | ⟨z1, i, i0, i1⟩
    · rw [i] at h0; cases h0
    rw [i] at h0
    cases h0
    have hall : AllHold S z := by
      intro a b md hm
      rw [i1] at hm
      cases hm
    have hr := run_acts hrun
    refine told_wf H.text (hall.acts hl hlo hmd i0 hp hr e (doneFor_sub he)) ht (hf a ha) ?_
    rw [k3] at hout
    obtain ⟨l, r, rfl⟩ := List.append_of_mem ha
    simp only [List.map_append, List.map_cons, List.flatten_append, List.flatten_cons, List.length_append] at hout
    omega

/-- **C82, tables (partial).** In such a life let the query that is completed by one read create the model `sp.m`, and let nothing
after it alter or drop it. The answers to the queries on it that are executed for all the clients, in this order, up to the widths
of numbers, and the rows in the end are those of a map from keys to rows. With the theorem about clients: a client reads the
answers of this map from the bytes that it gets. Missing, as in C56 and C65: `ALTER MODEL`, nullable primary keys, the UPDATEs that
the code gets wrong, and queries that are executed at the same time. -/
theorem C82_tables_partial {S : Setup} {H : Host} {F : FloatOps} (hl : S.lim ≤ 2 ^ 62) (hlo : HEADER < S.lim)
    (hg : S.gnsHdr.length = HEADER) (hmd : S.mdlHdr.length = HEADER) {hash : Bytes} {z : Sys} (h0 : install S hash = .ok z)
    {before after : List Deed} {a : Inp} {q : Q} {p1 p2 p3 : Site} {o1 o2 o3 : List Out} {sp m : String} {md : Model}
    (h1 : (Site.fresh z 0).run S H before = .ok (p1, o1)) (h2 : p1.step S H (.inp a) = .ok (p2, o2)) (hq : p1.asked a = some q)
    (h3 : p2.run S H after = .ok (p3, o3))
    (hp : Plainly S z ((Site.fresh z 0).acts S H (before ++ .inp a :: after)))
    (hnew : p1.sys.srv.cat.models sp m = none) (hm : p2.sys.srv.cat.models sp m = some md)
    (hs : ∀ x ∈ p2.acts S H after, ActSpares F sp m x) :
    ∃ (rs : List Reply) (t : Tbl), answersTo sp m (doneAll o3) = rs.map .rows ∧ p3.sys.srv.tbl sp m = some t ∧
      SpecRun F md (fun _ => none) ((doneAll o3).filterMap fun e => stmtOn sp m e.1) (abs t) (rs.map Reply.norm) := by
  rcases install_ok hl hg hash with i | ⟨z1, i, i0, i1⟩
  · rw [i] at h0; cases h0
  have h0' := h0
  rw [i] at h0
  cases h0
  have hall : AllHold S z := by
    intro a b md hm
    rw [i1] at hm
    cases hm
  have r1 := run_acts h1
  have r2 := step_acts h2
  have r3 := run_acts h3
  rw [site_acts_append h1, Site.acts, h2] at hp
  simp only at hp
  have hact : p1.act (.inp a) = [.query q] := by simp [Site.act, hq]
  rw [hact] at hp r2
  obtain ⟨hp1, hp2⟩ := plainly_append hp r1
  have hq2 : p1.sys.query S q = .ok (p2.sys, doneAll o2) := by
    rw [Sys.acts] at r2
    obtain ⟨⟨z3, l3⟩, e1, r2⟩ := bind_ok r2
    simp only [Sys.acts, Batch.Run.bind, Batch.Run.ok.injEq, Prod.mk.injEq, List.append_nil] at r2
    obtain ⟨rfl, rfl⟩ := r2
    exact e1
  have hp3 : Plainly S p2.sys (p2.acts S H after) := hp2.2 _ _ hq2
  have ok1 := plainly_ok hp1 r1
  have ok3 := plainly_ok hp3 r3
  have k1 : SysOk S p1.sys := i0.acts hl ok1 r1
  have k2 : SysOk S p2.sys := k1.act hl (a := .query q) hp2.1.1 hq2
  have a2 : AllHold S p2.sys := (AllHold.all hl hlo hmd i0 hall hp1 r1).2.query hl hlo hmd k1 hp2.1 hq2
  obtain ⟨l, _, _⟩ := a2 sp m md hm
  obtain ⟨rs, t, c1, c2, c3⟩ := C56_restarts_are_invisible_partial (F := F) hl hlo hg hmd h0' r1 ok1 hq2 hp2.1.1 hnew hm l.pk r3
    (fun x hx => ⟨ok3 x hx, hs x hx⟩)
    (updatesFine_simple l.model (plain_updates hl k2 hm hp3 hs r3))
  rw [acts_stmts r3 fun e he => ok3 _ he] at c3
  exact ⟨rs, t, c1, c2, c3⟩

theorem goes_on {S : Setup} {H : Host} (hl : S.lim ≤ 2 ^ 62) (hlo : HEADER < S.lim) (hh : S.mdlHdr.length = HEADER) :
    ∀ {ds : List Deed} {p : Site}, SysOk S p.sys → AllHold S p.sys → Plainly S p.sys (p.acts S H ds) → p.run S H ds = .bad →
    ∃ pre a post p1 o1, ds = pre ++ .inp a :: post ∧ p.run S H pre = .ok (p1, o1) ∧ Hub.step H ⟨p1.sys.srv, p1.con⟩ a = none
  | [], p, _, _, _, h => by cases h
  | d :: ds, p, hz, ha, hp, h => by
    rw [Site.run] at h
    cases e1 : p.step S H d with
    | full => rw [e1] at h; cases h
    | bad =>
      have one : ∀ {x : Act}, p.act d = [x] → p.sys.act S x ≠ .bad := by
        intro x hx hb
        have hp' : Plainly S p.sys [x] := by
          rw [Site.acts, hx, e1] at hp
          exact hp
        refine AllHold.acts_not_bad hl hlo hh hz ha hp' ?_
        rw [Sys.acts, hb]
        rfl
      cases d with
      | inp a =>
        refine ⟨[], a, ds, p, [], rfl, rfl, ?_⟩
        rw [Site.step] at e1
        split at e1
        · assumption
        · cases hq : p.asked a with
          | none => simp [hq] at e1
          | some q =>
            simp only [hq] at e1
            cases hx : p.sys.query S q with
            | bad => exact absurd hx (one (x := .query q) (by simp [Site.act, hq]))
            | full => rw [hx] at e1; cases e1
            | ok r => rw [hx] at e1; cases e1
      | flush x y n =>
        refine absurd ?_ (one (x := .flush x y n) rfl)
        rw [Site.step] at e1
        rw [Sys.act]
        cases hx : p.sys.flush S x y n with
        | bad => rfl
        | full => rw [hx] at e1; cases e1
        | ok r => rw [hx] at e1; cases e1
      | restart st cl op data =>
        refine absurd ?_ (one (x := .restart st cl op data) rfl)
        rw [Site.step] at e1
        rw [Sys.act]
        cases hx : p.sys.stop S cl data with
        | bad => rfl
        | full => rw [hx] at e1; cases e1
        | ok r =>
          rw [hx] at e1
          simp only [Batch.Run.bind] at e1 ⊢
          cases hy : boot S st op r with
          | bad => rfl
          | full => rw [hy] at e1; cases e1
          | ok r => rw [hy] at e1; cases e1
    | ok r =>
      obtain ⟨p1, o1⟩ := r
      rw [e1] at h
      simp only [Batch.Run.bind] at h
      rw [Site.acts, e1] at hp
      simp only at hp
      obtain ⟨q1, q2⟩ := plainly_append hp (step_acts e1)
      have hrun : p1.run S H ds = .bad := by
        cases hx : p1.run S H ds with
        | bad => rfl
        | full => rw [hx] at h; cases h
        | ok r => rw [hx] at h; cases h
      obtain ⟨k1, k2⟩ := AllHold.all hl hlo hh hz ha q1 (step_acts e1)
      obtain ⟨pre, a, post, p2, o2, g1, g2, g3⟩ := goes_on hl hlo hh k1 k2 q2 hrun
      refine ⟨d :: pre, a, post, p2, o1 ++ o2, by rw [g1]; rfl, ?_, g3⟩
      rw [Site.run, e1]
      simp only [Batch.Run.bind]
      rw [g2]

/-- **C82, availability (partial).** Such a life goes on, with every start successful and every batch written, until a file or a
counter is full, or a client sends the handshake that makes the server read outside of its buffer (C25). -/
theorem C82_goes_on_partial {S : Setup} {H : Host} (hl : S.lim ≤ 2 ^ 62) (hlo : HEADER < S.lim) (hg : S.gnsHdr.length = HEADER)
    (hmd : S.mdlHdr.length = HEADER) {hash : Bytes} {z : Sys} (h0 : install S hash = .ok z) {ds : List Deed}
    (hp : Plainly S z ((Site.fresh z 0).acts S H ds)) :
    (Site.fresh z 0).run S H ds = .full ∨ (∃ p out, (Site.fresh z 0).run S H ds = .ok (p, out)) ∨
    ∃ pre i o chunk post p1 o1 c, ds = pre ++ .inp (.read i o chunk) :: post ∧ (Site.fresh z 0).run S H pre = .ok (p1, o1) ∧
      p1.con i = .greeting c ∧ c.feed chunk = .oob := by
  cases hx : (Site.fresh z 0).run S H ds with
  | full => exact .inl rfl
  | ok r => exact .inr (.inl ⟨r.1, r.2, rfl⟩)
  | bad =>
    refine .inr (.inr ?_)
    rcases install_ok hl hg hash with i | ⟨z1, i, i0, i1⟩
    · rw [i] at h0; cases h0
    rw [i] at h0
    cases h0
    have hall : AllHold S z := by
      intro a b md hm
      rw [i1] at hm
      cases hm
    obtain ⟨pre, a, post, p1, o1, g1, g2, g3⟩ := goes_on hl hlo hmd i0 hall hp hx
    cases a with
    | close i => cases g3
    | read i o chunk =>
      unfold Hub.step at g3
      simp only at g3
      split at g3
      · rename_i c hc
        refine ⟨pre, i, o, chunk, post, p1, o1, c, g1, g2, hc, ?_⟩
        split at g3
        · cases g3
        · split at g3 <;> cases g3
        · cases g3
        · cases g3
        · assumption
      · split at g3
        · cases g3
        · cases g3
        · cases g3
        · split at g3 <;> cases g3
      · cases g3

/-! ### A concrete life -/

section Example
open Verif.Lex (ascii)

private def ofl : Dml.FloatOps := ⟨fun a _ => a, fun a _ => a, fun a _ => a, fun a _ => a⟩
private def o : Outside :=
  ⟨{ Gns.fine 1 with hash := ascii "pw" }, id, List.reverse, ofl, fun _ => none, fun _ => "", fun _ => [], fun _ => 0, true, fun _ => [],
    fun _ => [], fun sp => sp.models⟩
private def H : Host := ⟨fun p h => p == h, Net.Reply.exText⟩
private def setup : Setup := ⟨100000, List.replicate 64 0, List.replicate 64 1⟩
private def hi (name pwd : String) (i : Nat) : Deed := .inp (.read i o (hello (ascii name) (ascii pwd)))
private def ask (i : Nat) (text : String) (params : Bytes) : Deed := .inp (.read i o (packet (ascii text) params))
private def again : Deed := .restart .same id List.reverse (fun _ => [])

private def begins : List Deed :=
  [hi "root" "secret" 0, ask 0 "create space s" [], ask 0 "sysctl create user u with { password: ? }" [6, 50, 10, 112, 119],
   hi "u" "pw" 1]
private def creates : Deed := ask 0 "create model s.m(primary id: uint64, n: uint8)" []
private def sel : Bytes := packet (ascii "select n from s.m where id = ?") [2, 55, 10]
private def goesOn : List Deed :=
  [ask 1 "insert into s.m(?, ?)" [2, 55, 10, 2, 49, 10], .flush "s" "m" 1, hi "u" "px" 2,
   ask 1 "update s.m set n = ? where id = ?" [2, 51, 10, 2, 55, 10], again, hi "u" "pw" 0,
   .inp (.read 0 o (sel.take 9)), ask 1 "drop space s" [], .inp (.read 0 o (sel.drop 9)),
   ask 0 "insert into s.m(?, ?)" [2, 55, 10, 2, 49, 10]]

private def life (ds : List Deed) : Option (List Out) :=
  match (install setup (ascii "secret")).bind fun z => (Site.fresh z 0).run setup H ds with
  | .ok (_, o) => some o
  | _ => none

private def gets (who : Nat × Nat) (ds : List Deed) : Option Bytes := (life ds).map (bytesTo who)

/-- The user `u` inserts a row, a batch is written, the row is updated, the server is restarted, the user connects anew, sends the
query in two pieces, and reads the row `3`; an INSERT of the same key is refused with error 108. A client with a wrong
password is refused, and the task of a client that does not say hello panics (C24). -/
theorem C82_life : gets (0, 1) (begins ++ creates :: goesOn) = some [72, 0, 0, 0, 18, 18] ∧
    gets (0, 2) (begins ++ creates :: goesOn) = some [72, 0, 1, 5] ∧
    gets (1, 0) (begins ++ creates :: goesOn) = some ([72, 0, 0, 0] ++ [17, 49, 10, 2, 51, 10] ++ [16, 108, 0]) ∧
    gets (1, 1) (begins ++ creates :: goesOn) = some [] := by
  refine ⟨?_, ?_, ?_, ?_⟩ <;> decide +kernel

/-- The client of the second start follows the protocol. -/
example : Follows (1, 0) (begins ++ creates :: goesOn) (ascii "u") (ascii "pw")
    [(ascii "select n from s.m where id = ?", [2, 55, 10]), (ascii "insert into s.m(?, ?)", [2, 55, 10, 2, 49, 10])] := by
  have hh : heard (1, 0) 0 (begins ++ creates :: goesOn) =
      [.read 0 o (hello (ascii "u") (ascii "pw")), .read 0 o (sel.take 9), .read 0 o (sel.drop 9),
        .read 0 o (packet (ascii "insert into s.m(?, ?)") [2, 55, 10, 2, 49, 10])] := by
    simp [heard, begins, creates, goesOn, hi, ask, again, Inp.con]
  refine ⟨by decide +kernel, ?_, ?_⟩
  · rw [hh]; simp
  · refine ⟨[hello (ascii "u") (ascii "pw")],
      [[sel.take 9, sel.drop 9], [packet (ascii "insert into s.m(?, ?)") [2, 55, 10, 2, 49, 10]]], ?_, ?_, ?_, ?_, ?_⟩
    · rw [hh]; rfl
    all_goals decide +kernel

/-- Not `ALTER MODEL`, not an UPDATE, and no primary key that is chosen without the word `primary`. -/
private def mild : Option Ql.Query → Bool
  | some (.ddl (.alterModel _ _ _)) => false
  | some (.ddl (.createModel _ _ specs _ _)) => specs.any fun s => s.primary
  | some (.rows ⟨_, _, .update _ _⟩) => false
  | _ => true

private def mildAct : Act → Bool
  | .query q => mild (read q.1 q.2.1 q.2.2.1 q.2.2.2)
  | _ => true

private def from' : Deed → Prop
  | .inp (.read _ x _) => x = o
  | .restart _ cl op _ => (∀ l, (cl l).Perm l) ∧ ∀ l, (op l).Perm l
  | _ => True

private theorem act_from {p : Site} {d : Deed} (h : from' d) : ∀ a ∈ p.act d,
    match a with
    | .query q => q.1 = o
    | .restart _ cl op _ => (∀ l, (cl l).Perm l) ∧ ∀ l, (op l).Perm l
    | _ => True := by
  intro a ha
  cases d with
  | inp a =>
    cases a with
    | close i => simp [Site.act, Site.asked] at ha
    | read i x c =>
      simp only [Site.act, List.mem_map, Option.mem_toList] at ha
      obtain ⟨q, hq, rfl⟩ := ha
      unfold Site.asked at hq
      simp only at hq
      repeat' split at hq
      all_goals cases hq
      exact h
  | flush => simp only [Site.act, List.mem_singleton] at ha; subst ha; trivial
  | restart st cl op data => simp only [Site.act, List.mem_singleton] at ha; subst ha; exact h

private theorem plain_act {p : Site} {d : Deed} (h : from' d) (hm : (p.act d).all mildAct = true) :
    ∀ z : Sys, ∀ a ∈ p.act d, PlainAct z a := by
  intro z a ha
  have h1 := act_from h a ha
  have h2 := List.all_eq_true.1 hm a ha
  cases a with
  | flush => trivial
  | restart => exact h1
  | query q =>
    obtain ⟨x, y, t, ps⟩ := q
    simp only at h1
    subst h1
    simp only [mildAct] at h2
    refine ⟨⟨fun l => List.Perm.refl _, fun _ _ _ => rfl⟩, fun l => List.reverse_perm l, ?_, ?_, ?_⟩
    · intro a b k hr
      simp only at hr
      rw [hr] at h2
      cases h2
    · intro a b specs pr f hr hn
      simp only at hr
      rw [hr] at h2
      obtain ⟨s, hs, h3⟩ := List.any_eq_true.1 h2
      rw [hn.1 s hs] at h3
      cases h3
    · intro a b md us w _ hst
      unfold stmtOn at hst
      simp only at hst
      split at hst
      · rename_i r hr
        rw [hr] at h2
        split at hst
        · obtain ⟨ra, rb, st⟩ := r
          cases st <;> simp [asks] at hst
          cases h2
        · cases hst
      · cases hst

private theorem plainly {S : Setup} {H : Host} : ∀ (ds : List Deed) (p : Site), (∀ d ∈ ds, from' d) → (p.acts S H ds).all mildAct = true →
    Plainly S p.sys (p.acts S H ds)
  | [], p, _, _ => trivial
  | d :: ds, p, h, hm => by
    have hone : ∀ (as : List Act) (z : Sys), (∀ z : Sys, ∀ a ∈ as, PlainAct z a) → (∀ z' o, z.acts S as = .ok (z', o) → Plainly S z' (match p.step S H d with
      | .ok (p, _) => Site.acts S H p ds
      | _ => [])) → Plainly S z (as ++ match p.step S H d with
      | .ok (p, _) => Site.acts S H p ds
      | _ => []) := by
      intro as
      induction as with
      | nil => intro z _ h2; exact h2 z [] rfl
      | cons a as ih =>
        intro z h1 h2
        refine ⟨h1 z a (by simp), fun z' o hz => ih z' (fun z x hx => h1 z x (by simp [hx])) fun z2 o2 h3 => h2 z2 (o ++ o2) ?_⟩
        rw [Sys.acts, hz]
        simp only [Batch.Run.bind]
        rw [h3]
    rw [Site.acts] at hm ⊢
    rw [List.all_append, Bool.and_eq_true] at hm
    refine hone _ _ (plain_act (h d (by simp)) hm.1) fun z' o hz => ?_
    cases hx : p.step S H d with
    | ok r =>
      obtain ⟨p1, o1⟩ := r
      have := step_acts hx
      rw [hz] at this
      cases this
      have h2 := hm.2
      rw [hx] at h2
      exact plainly ds p1 (fun d hd => h d (by simp [hd])) h2
    | full => trivial
    | bad => trivial

private def quiet : List Deed :=
  [ask 1 "insert into s.m(?, ?)" [2, 55, 10, 2, 49, 10], .flush "s" "m" 1, again, hi "u" "pw" 0,
   .inp (.read 0 o (sel.take 9)), .inp (.read 0 o (sel.drop 9)), ask 0 "insert into s.m(?, ?)" [2, 55, 10, 2, 49, 10]]

private def allMild (ds : List Deed) : Bool :=
  match install setup (ascii "secret") with
  | .ok z => ((Site.fresh z 0).acts setup H ds).all mildAct
  | _ => false

/-- The conditions of the theorems hold for a life with a restart between an INSERT and a SELECT. -/
example : ∃ z p out, install setup (ascii "secret") = .ok z ∧ (Site.fresh z 0).run setup H (begins ++ creates :: quiet) = .ok (p, out) ∧
    Plainly setup z ((Site.fresh z 0).acts setup H (begins ++ creates :: quiet)) ∧
    bytesTo (1, 0) out = [72, 0, 0, 0] ++ [17, 49, 10, 2, 49, 10] ++ [16, 108, 0] := by
  have hb : gets (1, 0) (begins ++ creates :: quiet) = some ([72, 0, 0, 0] ++ [17, 49, 10, 2, 49, 10] ++ [16, 108, 0]) := by decide +kernel
  have hm : allMild (begins ++ creates :: quiet) = true := by decide +kernel
  unfold gets life at hb
  unfold allMild at hm
  cases hi0 : install setup (ascii "secret") with
  | full => rw [hi0] at hm; cases hm
  | bad => rw [hi0] at hm; cases hm
  | ok z =>
    rw [hi0] at hm hb
    simp only [Batch.Run.bind] at hb
    cases hr : (Site.fresh z 0).run setup H (begins ++ creates :: quiet) with
    | full => rw [hr] at hb; cases hb
    | bad => rw [hr] at hb; cases hb
    | ok r =>
      obtain ⟨p, out⟩ := r
      rw [hr] at hb
      refine ⟨z, p, out, rfl, hr, ?_, by simpa using hb⟩
      refine plainly _ (Site.fresh z 0) ?_ hm
      intro d hd
      simp only [begins, creates, quiet, List.cons_append, List.nil_append, List.mem_cons, List.not_mem_nil, or_false] at hd
      rcases hd with rfl | rfl | rfl | rfl | rfl | rfl | rfl | rfl | rfl | rfl | rfl | rfl
      all_goals first | exact rfl | trivial | exact ⟨fun l => List.Perm.refl _, fun l => List.reverse_perm l⟩

/-- **C82 is violated: pieces.** Whether a row is there for all later clients, also after a restart, depends on the pieces in which
the bytes of the client arrived (C65). -/
theorem C82_pieces_violated :
    gets (1, 0) (begins ++ [creates, ask 1 "insert into s.m(?, ?)" [2, 55, 10, 2, 49, 10], ask 1 "insert into s.m(?, ?)" [2, 56, 10, 2, 50, 10],
      again, hi "u" "pw" 0, .inp (.read 0 o sel)]) = some ([72, 0, 0, 0] ++ [17, 49, 10, 2, 49, 10]) ∧
    gets (1, 0) (begins ++ [creates, .inp (.read 1 o (packet (ascii "insert into s.m(?, ?)") [2, 55, 10, 2, 49, 10] ++
      packet (ascii "insert into s.m(?, ?)") [2, 56, 10, 2, 50, 10])),
      again, hi "u" "pw" 0, .inp (.read 0 o sel)]) = some ([72, 0, 0, 0] ++ [16, 111, 0]) := by
  refine ⟨?_, ?_⟩ <;> decide +kernel

end Example

end Verif.Server

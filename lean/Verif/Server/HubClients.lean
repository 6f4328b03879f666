import Verif.Server.HubTheorems
import Verif.Server.HubLemmas
/-!
C65, continued: who is served, and what clients can read.
-/
namespace Verif.Server
open Verif.Net (HsConn HsError HsStep Conn Event hello packet IsPacket Announces)
open Verif.Net.Reply (FloatText send readReply readReplies)

/-! ### The queries that are executed -/

/-- The query that a message is, if the connection has a session. -/
def Desk.query (d : Desk) (i : Nat) (m : Msg) : List (Nat × Q) :=
  match d.seat i, m with
  | .taken x, .query o text params => [(i, o, x, text, params)]
  | _, _ => []

/-- The queries that are executed, with their connections and the sessions that they run in. -/
def Desk.queries (check : Bytes → Bytes → Bool) (d : Desk) : List (Nat × Msg) → List (Nat × Q)
  | [] => []
  | (i, m) :: ms => d.query i m ++ (d.hear check i m).1.queries check ms

theorem hear_query {check : Bytes → Bytes → Bool} {d : Desk} {i : Nat} {o : Outside} {text params : Bytes} {x : Sess}
    (h : d.seat i = .taken x) :
    (d.hear check i (.query o text params)).1.srv = (serve o d.srv x text params).1 ∧
    (d.hear check i (.query o text params)).2 = ((told (serve o d.srv x text params).2.2.1).map Said.reply).toList ∧
    (d.hear check i (.query o text params)).1.seat i =
      match told (serve o d.srv x text params).2.2.1 with
      | some _ => .taken (serve o d.srv x text params).2.1
      | none => .gone := by
  simp only [Desk.hear, h]
  rcases hs : serve o d.srv x text params with ⟨s', x', a, ev⟩
  simp only
  cases told a with
  | some r => simp [Desk.put]
  | none => simp [Desk.put]

theorem hear_other {check : Bytes → Bytes → Bool} {d : Desk} {i : Nat} {m : Msg}
    (h : ∀ x o text params, d.seat i = .taken x → m ≠ .query o text params) :
    (d.hear check i m).1.srv = d.srv ∧ d.query i m = [] := by
  unfold Desk.hear Desk.query
  cases hs : d.seat i <;> cases m <;> simp [Desk.put]
  · split <;> simp
  · exact absurd rfl (h _ _ _ _ hs)

theorem hear_seat {check : Bytes → Bytes → Bool} {d : Desk} {i j : Nat} {m : Msg} (h : j ≠ i) :
    (d.hear check i m).1.seat j = d.seat j := by
  unfold Desk.hear
  repeat' split
  all_goals simp [Desk.put, h]

/-- The state of the server is that of the queries that were executed. -/
theorem run_serveAll (check : Bytes → Bytes → Bool) : ∀ (ms : List (Nat × Msg)) (d : Desk),
    (d.run check ms).1.srv = serveAll d.srv ((d.queries check ms).map Prod.snd)
  | [], d => rfl
  | (i, m) :: ms, d => by
    rw [Desk.run, Desk.queries]
    simp only
    rw [run_serveAll check ms]
    by_cases h : ∃ x o text params, d.seat i = .taken x ∧ m = .query o text params
    · obtain ⟨x, o, text, params, hx, rfl⟩ := h
      rw [(hear_query hx).1]
      have : d.query i (.query o text params) = [(i, o, x, text, params)] := by simp [Desk.query, hx]
      rw [this]
      rfl
    · have := hear_other (check := check) (d := d) (i := i) (m := m) fun x o t p hx he => h ⟨x, o, t, p, hx, he⟩
      rw [this.1, this.2]
      rfl

theorem run_snoc (check : Bytes → Bytes → Bool) (d : Desk) (ms : List (Nat × Msg)) (i : Nat) (m : Msg) :
    (d.run check (ms ++ [(i, m)])).1 = ((d.run check ms).1.hear check i m).1 := by
  rw [run_append]
  simp [Desk.run]

/-- A session was opened by a hello with the right password. -/
theorem sessions_inv {check : Bytes → Bytes → Bool} {s : Srv} : ∀ {n : Nat} {pre : List (Nat × Msg)}, pre.length = n → ∀ {i : Nat} {x : Sess},
    ((Desk.start s).run check pre).1.seat i = .taken x →
    ∃ a name pwd b, pre = a ++ (i, .hello name pwd) :: b ∧
      Gns.login check ((Desk.start s).run check a).1.srv.cat name pwd = some x.client
  | 0, pre, hl, i, x, h => by
    obtain rfl := List.length_eq_zero_iff.1 hl
    cases h
  | n + 1, pre, hl, i, x, h => by
    have hne : pre ≠ [] := by rintro rfl; simp at hl
    obtain ⟨pre', ⟨j, m⟩, rfl⟩ : ∃ p e, pre = p ++ [e] := ⟨pre.dropLast, pre.getLast hne, (List.dropLast_concat_getLast hne).symm⟩
    have hl' : pre'.length = n := by simpa using hl
    rw [run_snoc] at h
    have ih := fun y => sessions_inv (check := check) (s := s) hl' (i := i) (x := y)
    have back : ∀ y, y.client = x.client → ((Desk.start s).run check pre').1.seat i = .taken y →
        ∃ a name pwd b, pre' ++ [(j, m)] = a ++ (i, .hello name pwd) :: b ∧
        Gns.login check ((Desk.start s).run check a).1.srv.cat name pwd = some x.client := by
      intro y hy hz
      obtain ⟨a, name, pwd, b, h1, h2⟩ := ih y hz
      exact ⟨a, name, pwd, b ++ [(j, m)], by rw [h1]; simp, by rw [← hy]; exact h2⟩
    by_cases hj : i = j
    · subst hj
      generalize hd : ((Desk.start s).run check pre').1 = d at h ih back
      cases hs : d.seat i with
      | new =>
        cases m with
        | hello name pwd =>
          simp only [Desk.hear, hs] at h
          split at h
          · rename_i u hu
            simp only [Desk.put, if_true, Seat.taken.injEq] at h
            subst h
            exact ⟨pre', name, pwd, [], rfl, by rw [hd]; exact hu⟩
          · simp [Desk.put] at h
        | _ => simp [Desk.hear, hs, Desk.put] at h
      | taken y =>
        refine back y ?_ hs
        cases m with
        | query o t p =>
          rw [(hear_query hs).2.2] at h
          split at h
          · cases h; exact (serve_client o d.srv y t p).symm
          · cases h
        | _ =>
          simp [Desk.hear, hs, Desk.put] at h
          try (subst h; rfl)
      | gone =>
        cases m <;> simp [Desk.hear, hs, Desk.put] at h
    · rw [hear_seat hj] at h
      exact back x rfl h

theorem queries_mem {check : Bytes → Bytes → Bool} {s : Srv} {e : Nat × Q} : ∀ {ms pre : List (Nat × Msg)},
    e ∈ ((Desk.start s).run check pre).1.queries check ms →
    ∃ a b, ms = a ++ (e.1, .query e.2.1 e.2.2.2.1 e.2.2.2.2) :: b ∧ ((Desk.start s).run check (pre ++ a)).1.seat e.1 = .taken e.2.2.1
  | [], pre, h => by simp [Desk.queries] at h
  | (i, m) :: ms, pre, h => by
    rw [Desk.queries] at h
    rcases List.mem_append.1 h with k | k
    · clear h
      unfold Desk.query at k
      split at k
      · rename_i hs
        cases List.mem_singleton.1 k
        exact ⟨[], ms, rfl, by simpa using hs⟩
      · cases k
    · rw [← run_snoc] at k
      obtain ⟨a, b, rfl, h2⟩ := queries_mem k
      exact ⟨(i, m) :: a, b, rfl, by simpa using h2⟩

/-- What the server says in answer to a query. -/
theorem replies_from (check : Bytes → Bytes → Bool) : ∀ (ms : List (Nat × Msg)) (d : Desk), ∀ e ∈ (d.run check ms).2, ∀ a, e.2 = .reply a →
    a = .error 6 ∨ ∃ pre q post, d.queries check ms = pre ++ (e.1, q) :: post ∧
      told (serve q.1 (serveAll d.srv (pre.map Prod.snd)) q.2.1 q.2.2.1 q.2.2.2).2.2.1 = some a
  | [], d, e, h, _, _ => by simp [Desk.run] at h
  | (i, m) :: ms, d, e, h, a, ha => by
    rw [Desk.run] at h
    simp only at h
    rcases List.mem_append.1 h with h | h
    · obtain ⟨y, hy, rfl⟩ := List.mem_map.1 h
      simp only at ha
      subst ha
      cases hs : d.seat i with
      | new => 
        cases m <;> simp [Desk.hear, hs] at hy
        split at hy <;> simp at hy
      | gone => cases m <;> simp [Desk.hear, hs] at hy
      | taken x =>
        cases m with
        | query o t p =>
          rw [(hear_query hs).2.1] at hy
          refine .inr ⟨[], (o, x, t, p), (d.hear check i (.query o t p)).1.queries check ms, ?_, ?_⟩
          · rw [Desk.queries]; simp [Desk.query, hs]
          · simp only [Option.mem_toList, Option.map_eq_some_iff, Said.reply.injEq, exists_eq_right] at hy
            exact hy
        | illegal => simp [Desk.hear, hs] at hy; exact .inl hy
        | _ => simp [Desk.hear, hs] at hy
    · rcases replies_from check ms _ e h a ha with r | ⟨pre, q, post, h1, h2⟩
      · exact .inl r
      · refine .inr ⟨d.query i m ++ pre, q, post, by rw [Desk.queries, h1]; simp, ?_⟩
        rw [← h2, List.map_append]
        by_cases hq : ∃ x o text params, d.seat i = .taken x ∧ m = .query o text params
        · obtain ⟨x, o, text, params, hx, rfl⟩ := hq
          have : d.query i (.query o text params) = [(i, o, x, text, params)] := by simp [Desk.query, hx]
          rw [this, (hear_query hx).1]
          rfl
        · have := hear_other (check := check) (d := d) (i := i) (m := m) fun x o t p hx he => hq ⟨x, o, t, p, hx, he⟩
          rw [this.1, this.2]
          rfl

/-! ### Who is served -/

/-- **C65, sessions.** The state of the server is that of a list of queries, each of which was sent on a connection whose client
had said hello with the name and the password of an account at that time, and was executed as the user of this account. -/
theorem C65_sessions (check : Bytes → Bytes → Bool) (s : Srv) (ms : List (Nat × Msg)) :
    ((Desk.start s).run check ms).1.srv = serveAll s (((Desk.start s).queries check ms).map Prod.snd) ∧
    ∀ i o x text params, (i, o, x, text, params) ∈ (Desk.start s).queries check ms →
      ∃ a name pwd b c, ms = a ++ (i, .hello name pwd) :: b ++ (i, .query o text params) :: c ∧
        Gns.login check ((Desk.start s).run check a).1.srv.cat name pwd = some x.client := by
  refine ⟨run_serveAll check ms _, fun i o x text params h => ?_⟩
  obtain ⟨p, c, h1, h2⟩ := queries_mem (pre := []) h
  rw [List.nil_append] at h2
  obtain ⟨a, name, pwd, b, h3, h4⟩ := sessions_inv rfl h2
  exact ⟨a, name, pwd, b, c, by rw [h1, h3], h4⟩

theorem talks_no_hello {b : Bytes} {ms : List Msg} (h : Talks b ms) : ∀ name pwd, Msg.hello name pwd ∉ ms := by
  induction h with
  | rest b ms h => intro n p hm; cases h _ hm
  | query b r o t p ms _ _ ih => intro n q hm; rcases List.mem_cons.1 hm with hm | hm; cases hm; exact ih n q hm
  | illegal b r ms _ ih => intro n q hm; rcases List.mem_cons.1 hm with hm | hm; cases hm; exact ih n q hm
  | dead b r pl k ms _ _ h => intro n q hm; rcases List.mem_cons.1 hm with hm | hm; cases hm; cases h _ hm

theorem greets_hello {b : Bytes} {ms : List Msg} (h : Greets b ms) {name pwd : Bytes} (hm : Msg.hello name pwd ∈ ms) :
    ∃ c r left, b = c ++ r ∧ Announces c name.length pwd.length (name ++ pwd ++ left) := by
  have bye : ∀ {l : List Msg}, (∀ m ∈ l, m = .bye) → Msg.hello name pwd ∈ l → False := fun h hm => by cases h _ hm
  cases h with
  | rest => rename_i h; exact (bye h hm).elim
  | hello c r n p left ms h1 h2 =>
    rcases List.mem_cons.1 hm with hm | hm
    · cases hm; exact ⟨c, r, left, rfl, h1⟩
    · exact absurd hm (talks_no_hello h2 _ _)
  | bad _ ms => rename_i h; rcases List.mem_cons.1 hm with hm | hm; cases hm; exact (bye h hm).elim
  | dead c r ms _ h => rcases List.mem_cons.1 hm with hm | hm; cases hm; exact (bye h hm).elim
  | wild c r rest u p ms _ _ h => rcases List.mem_cons.1 hm with hm | hm; cases hm; exact (bye h hm).elim

/-- Sessions that never open do nothing. -/
theorem strangers {check : Bytes → Bytes → Bool} {s : Srv} : ∀ (ms : List (Nat × Msg)) (d : Desk), d.srv = s → (∀ i x, d.seat i ≠ .taken x) →
    (∀ e ∈ ms, ∀ name pwd, e.2 = .hello name pwd → Gns.login check s.cat name pwd = none) →
    (d.run check ms).1.srv = s ∧ ∀ e ∈ (d.run check ms).2, ∃ h, e.2 = .refused h
  | [], d, hd, _, _ => ⟨hd, by simp [Desk.run]⟩
  | (i, m) :: ms, d, hd, hs, hm => by
    have hstep : (d.hear check i m).1.srv = s ∧ (∀ j x, (d.hear check i m).1.seat j ≠ .taken x) ∧
        ∀ y ∈ (d.hear check i m).2, ∃ h, y = .refused h := by
      have h1 : (d.hear check i m).1.srv = s := by
        rw [(hear_other fun x o t p hx => absurd hx (hs i x)).1, hd]
      refine ⟨h1, ?_, ?_⟩
      · intro j x
        by_cases hj : j = i
        · subst hj
          cases hsj : d.seat j with
          | taken y => exact absurd hsj (hs j y)
          | new =>
            cases m <;> simp [Desk.hear, hsj, Desk.put]
            rename_i name pwd
            rw [hd, hm (j, .hello name pwd) (by simp) name pwd rfl]
            simp
          | gone => cases m <;> simp [Desk.hear, hsj, Desk.put]
        · rw [hear_seat hj]; exact hs j x
      · intro y hy
        cases hsj : d.seat i with
        | taken y => exact absurd hsj (hs i y)
        | new =>
          cases m <;> simp [Desk.hear, hsj, Desk.put] at hy
          · rename_i name pwd
            rw [hd, hm (i, .hello name pwd) (by simp) name pwd rfl] at hy
            exact ⟨_, List.mem_singleton.1 hy⟩
          · exact ⟨_, hy⟩
        | gone => cases m <;> simp [Desk.hear, hsj, Desk.put] at hy
    rw [Desk.run]
    simp only
    obtain ⟨ih1, ih2⟩ := strangers ms _ hstep.1 hstep.2.1 fun e he => hm e (by simp [he])
    refine ⟨ih1, fun e he => ?_⟩
    rcases List.mem_append.1 he with he | he
    · obtain ⟨y, hy, rfl⟩ := List.mem_map.1 he
      exact hstep.2.2 y hy
    · exact ih2 e he

theorem of_mem {α : Type} {i : Nat} {l : List (Nat × α)} {a : α} (h : (i, a) ∈ l) : a ∈ of i l :=
  List.mem_filterMap.2 ⟨(i, a), h, by simp⟩

theorem mem_of {α : Type} {i : Nat} {l : List (Nat × α)} {a : α} (h : a ∈ of i l) : (i, a) ∈ l := by
  obtain ⟨⟨j, b⟩, h1, h2⟩ := List.mem_filterMap.1 h
  simp only at h2
  split at h2
  · cases h2; rename_i hj; subst hj; exact h1
  · cases h2

/-- **C65, strangers.** If no connection ever announces the name and the password of an account, then the server stays exactly as
it was, whatever else is sent, and says nothing but refusals. -/
theorem C65_strangers_partial {H : Host} {s : Srv} {as : List Inp} {h' : Hub} {out : List (Nat × Bytes)}
    (hrun : (Hub.start s).run H as = some (h', out)) (hl : ∀ i, (bytesFrom i as).flatten.length < 2 ^ 64)
    (hno : ∀ i c r left name pwd, (bytesFrom i as).flatten = c ++ r → Announces c name.length pwd.length (name ++ pwd ++ left) →
      Gns.login H.check s.cat name pwd = none) :
    h'.srv = s ∧ ∀ i, ∃ es : List HsError, (of i out).flatten = (es.map fun e => [72, 0, 1, hsCode e]).flatten := by
  obtain ⟨ms, g1, g2, g3, _⟩ := C65_conversations_partial hrun
  obtain ⟨k1, k2⟩ := strangers (check := H.check) ms (Desk.start s) rfl (by intro i x h; cases h) (by
    rintro ⟨i, m⟩ he name pwd hm
    simp only at hm
    subst hm
    obtain ⟨c, r, left, e1, e2⟩ := greets_hello (g3 i (hl i)) (of_mem he)
    exact hno i c r left name pwd e1 e2)
  refine ⟨g1.symm.trans k1, fun i => ?_⟩
  have : ∀ (l : List Said), (∀ y ∈ l, ∃ h, y = .refused h) → ∃ es : List HsError,
      (l.map (Said.bytes H.text)).flatten = (es.map fun e => [72, 0, 1, hsCode e]).flatten := by
    intro l
    induction l with
    | nil => intro _; exact ⟨[], rfl⟩
    | cons y l ih =>
      intro h
      obtain ⟨e, rfl⟩ := h y (by simp)
      obtain ⟨es, he⟩ := ih fun z hz => h z (by simp [hz])
      exact ⟨e :: es, by rw [List.map_cons, List.flatten_cons, List.map_cons, List.flatten_cons, he]; rfl⟩
  obtain ⟨es, he⟩ := this (of i ((Desk.start s).run H.check ms).2) fun y hy => k2 _ (mem_of hy)
  exact ⟨es, by rw [g2, he]⟩

/-- **C65, root.** If no connection ever announces the name and the password of the root account, then spaces, models and users
stay as they are, whatever is sent. -/
theorem C65_only_root_partial {H : Host} {s : Srv} {as : List Inp} {h' : Hub} {out : List (Nat × Bytes)}
    (hrun : (Hub.start s).run H as = some (h', out)) (hl : ∀ i, (bytesFrom i as).flatten.length < 2 ^ 64)
    (hno : ∀ i c r left name pwd u, (bytesFrom i as).flatten = c ++ r → Announces c name.length pwd.length (name ++ pwd ++ left) →
      Gns.login H.check s.cat name pwd = some u → u.root = false) :
    h'.srv.cat = s.cat := by
  obtain ⟨ms, g1, _, g3, _⟩ := C65_conversations_partial hrun
  have hm : ∀ e ∈ ms, ∀ name pwd u, e.2 = .hello name pwd → Gns.login H.check s.cat name pwd = some u → u.root = false := by
    rintro ⟨i, m⟩ he name pwd u hm hu
    simp only at hm
    subst hm
    obtain ⟨c, r, left, e1, e2⟩ := greets_hello (g3 i (hl i)) (of_mem he)
    exact hno i c r left name pwd u e1 e2 hu
  rw [← g1]
  clear g1 g3 hno hrun hl
  suffices hh : ∀ (ms : List (Nat × Msg)) (d : Desk), d.srv.cat = s.cat → (∀ i x, d.seat i = .taken x → x.client.root = false) →
      (∀ e ∈ ms, ∀ name pwd u, e.2 = .hello name pwd → Gns.login H.check s.cat name pwd = some u → u.root = false) →
      (d.run H.check ms).1.srv.cat = s.cat from hh ms _ rfl (by intro i x h; cases h) hm
  intro ms
  induction ms with
  | nil => intro d hd _ _; exact hd
  | cons e ms ih =>
    obtain ⟨i, m⟩ := e
    intro d hd hs hm
    rw [Desk.run]
    simp only
    refine ih _ ?_ ?_ fun e he => hm e (by simp [he])
    · by_cases hq : ∃ x o text params, d.seat i = .taken x ∧ m = .query o text params
      · obtain ⟨x, o, text, params, hx, rfl⟩ := hq
        rw [(hear_query hx).1, (C28_only_root o d.srv x (hs i x hx) text params).1, hd]
      · rw [(hear_other (check := H.check) (d := d) (i := i) (m := m) fun x o t p hx he => hq ⟨x, o, t, p, hx, he⟩).1, hd]
    · intro j x hx
      by_cases hj : j = i
      · subst hj
        cases hsj : d.seat j with
        | taken y =>
          cases m with
          | query o t p =>
            rw [(hear_query hsj).2.2] at hx
            split at hx
            · cases hx; rw [serve_client]; exact hs j y hsj
            · cases hx
          | _ =>
            simp [Desk.hear, hsj, Desk.put] at hx
            try (subst hx; exact hs j y hsj)
        | new =>
          cases m with
          | hello name pwd =>
            simp only [Desk.hear, hsj] at hx
            split at hx
            · rename_i u hu
              simp only [Desk.put, if_true, Seat.taken.injEq] at hx
              subst hx
              rw [hd] at hu
              exact hm (j, .hello name pwd) (by simp) name pwd u rfl hu
            · simp [Desk.put] at hx
          | _ => simp [Desk.hear, hsj, Desk.put] at hx
        | gone => cases m <;> simp [Desk.hear, hsj, Desk.put] at hx
      · rw [hear_seat hj] at hx; exact hs j x hx

/-! ### What clients can read -/

/-- The iteration orders are orders of all entries, and it is not a forced `DROP SPACE` whose commit fails. -/
def Regular (o : Outside) : Prop := (∀ l, (o.order l).Perm l) ∧ ∀ x text params, Usual (o, x, text, params)

theorem serveAll_good (hash : Bytes) : ∀ (n : Nat) (qs : List Q), qs.length = n → (∀ q ∈ qs, Regular q.1) →
    GoodSrv (serveAll (newServer hash) qs)
  | 0, qs, hl, _ => by
    obtain rfl := List.length_eq_zero_iff.1 hl
    intro a b t h
    cases h
  | n + 1, qs, hl, h => by
    have hne : qs ≠ [] := by rintro rfl; simp at hl
    obtain ⟨pre, ⟨o, x, t, p⟩, rfl⟩ : ∃ p e, qs = p ++ [e] := ⟨qs.dropLast, qs.getLast hne, (List.dropLast_concat_getLast hne).symm⟩
    rw [serveAll_append]
    have hr := h (o, x, t, p) (by simp)
    refine (serve_good (new_consistent hash pre fun q hq => ?_) (serveAll_good hash n pre (by simpa using hl) fun q hq => h q (by simp [hq])) hr.1).1
    exact (h q (by simp [hq])).2 _ _ _

theorem queries_outside {check : Bytes → Bytes → Bool} {e : Nat × Q} : ∀ {ms : List (Nat × Msg)} {d : Desk}, e ∈ d.queries check ms →
    ∃ text params, (e.1, .query e.2.1 text params) ∈ ms
  | [], d, h => by simp [Desk.queries] at h
  | (i, m) :: ms, d, h => by
    rw [Desk.queries] at h
    rcases List.mem_append.1 h with k | k
    · unfold Desk.query at k
      split at k
      · cases List.mem_singleton.1 k
        exact ⟨_, _, List.mem_cons_self⟩
      · cases k
    · obtain ⟨t, p, h⟩ := queries_outside k
      exact ⟨t, p, List.mem_cons_of_mem _ h⟩

theorem replies_wf (T : FloatText) (check : Bytes → Bytes → Bool) (hash : Bytes) {ms : List (Nat × Msg)}
    (ho : ∀ e ∈ ms, ∀ o text params, e.2 = .query o text params → Regular o) :
    ∀ e ∈ ((Desk.start (newServer hash)).run check ms).2, ∀ a, e.2 = .reply a → FewCols a → (send (a.resp T)).length < 2 ^ 64 → a.Wf := by
  intro e he a ha hf hl
  rcases replies_from check ms _ e he a ha with rfl | ⟨pre, q, post, h1, h2⟩
  · show 6 < 256
    decide
  · have hreg : ∀ y ∈ (Desk.start (newServer hash)).queries check ms, Regular y.2.1 := by
      intro y hy
      obtain ⟨t, p, hm⟩ := queries_outside hy
      exact ho _ hm _ _ _ rfl
    have hpre : ∀ y ∈ pre.map Prod.snd, Regular y.1 := by
      intro y hy
      obtain ⟨z, hz, rfl⟩ := List.mem_map.1 hy
      exact hreg z (by rw [h1]; simp [hz])
    have hq := hreg (e.1, q) (by rw [h1]; simp)
    have hg := serve_good (o := q.1) (x := q.2.1) (text := q.2.2.1) (params := q.2.2.2)
      (new_consistent hash (pre.map Prod.snd) fun y hy => (hpre y hy).2 _ _ _)
      (serveAll_good hash _ _ rfl hpre) hq.1
    exact told_wf T hg.2 h2 hf hl

/-- **C65, readable.** Every reply of a server, in any history of messages, is read back by a client up to the payload of NaNs,
if the reply is smaller than 2^64 bytes and has fewer than 2^64 columns. -/
theorem C65_readable (T : FloatText) (check : Bytes → Bytes → Bool) (hash : Bytes) {ms : List (Nat × Msg)}
    (ho : ∀ e ∈ ms, ∀ o text params, e.2 = .query o text params → Regular o) :
    ∀ e ∈ ((Desk.start (newServer hash)).run check ms).2, ∀ a, e.2 = .reply a → FewCols a → (send (a.resp T)).length < 2 ^ 64 →
    ∀ rest, readReply T (send (a.resp T) ++ rest) = some (a.canon, rest) := fun e he a ha hf hl rest =>
  Net.Reply.C26_replies_are_decodable T a (replies_wf T check hash ho e he a ha hf hl) rest

theorem of_cons {α : Type} (i j : Nat) (m : α) (ms : List (Nat × α)) : of i ((j, m) :: ms) = (if j = i then [m] else []) ++ of i ms := by
  simp only [of, List.filterMap_cons]
  by_cases h : j = i <;> simp [h]

/-- What is said on a connection that only sends queries. -/
theorem talk_shape {check : Bytes → Bytes → Bool} {i : Nat} : ∀ (ms : List (Nat × Msg)) (d : Desk), d.seat i ≠ .new →
    (∀ m ∈ of i ms, (Msg.asked m).isSome = true) →
    ∃ ras : List Net.Reply.Answer, of i (d.run check ms).2 = ras.map .reply ∧ ras.length ≤ (of i ms).length ∧
      (ras.length = (of i ms).length ∨ (d.run check ms).1.seat i = .gone) ∧ (d.seat i = .gone → ras = [] ∧ (d.run check ms).1.seat i = .gone)
  | [], d, _, _ => ⟨[], rfl, Nat.le_refl _, .inl rfl, fun h => ⟨rfl, h⟩⟩
  | (j, m) :: ms, d, hs, hm => by
    rw [Desk.run]
    simp only
    rw [of_append, of_cons]
    rw [of_cons] at hm
    by_cases hj : j = i
    · subst hj
      simp only [if_true, List.singleton_append, List.length_cons] at hm ⊢
      rw [of_same]
      have hm0 := hm m (by simp)
      cases m with
      | query o t p =>
        cases hsj : d.seat j with
        | new => exact absurd hsj hs
        | taken x =>
          obtain ⟨_, k2, k3⟩ := hear_query (check := check) (o := o) (text := t) (params := p) hsj
          obtain ⟨ras, r1, r2, r3, r4⟩ := talk_shape (check := check) ms (d.hear check j (.query o t p)).1 (by rw [k3]; split <;> simp)
            (fun m hm' => hm m (by simp [hm']))
          rw [k2, r1]
          cases ht : told (serve o d.srv x t p).2.2.1 with
          | some a =>
            refine ⟨a :: ras, by simp, by simp; omega, ?_, fun h => (by cases h)⟩
            rcases r3 with r3 | r3
            · left; simp [r3]
            · exact .inr r3
          | none =>
            rw [ht] at k3
            refine ⟨ras, by simp, by omega, .inr (r4 k3).2, fun h => (by cases h)⟩
        | gone =>
          have hd : d.hear check j (.query o t p) = (d, []) := by simp only [Desk.hear, hsj]
          rw [hd]
          obtain ⟨ras, r1, r2, r3, r4⟩ := talk_shape (check := check) ms d hs (fun m hm' => hm m (by simp [hm']))
          exact ⟨ras, by simpa using r1, by omega, .inr (r4 hsj).2, fun _ => r4 hsj⟩
      | _ => cases hm0
    · simp only [hj, if_false, List.nil_append] at hm ⊢
      rw [of_other hj, List.nil_append]
      obtain ⟨ras, r1, r2, r3, r4⟩ := talk_shape (check := check) ms (d.hear check j m).1 (by rw [hear_seat (Ne.symm hj)]; exact hs) hm
      exact ⟨ras, r1, r2, r3, by rw [hear_seat (Ne.symm hj)] at r4; exact r4⟩

/-- What is said on a connection that says hello and then only sends queries. -/
theorem hello_shape {check : Bytes → Bytes → Bool} {i : Nat} {name pwd : Bytes} : ∀ (ms : List (Nat × Msg)) (d : Desk) {l : List Msg},
    d.seat i = .new → of i ms = .hello name pwd :: l → (∀ m ∈ l, (Msg.asked m).isSome = true) →
    of i (d.run check ms).2 = [.refused .auth] ∨
    ∃ ras : List Net.Reply.Answer, of i (d.run check ms).2 = .welcome :: ras.map .reply ∧ ras.length ≤ l.length ∧
      (ras.length = l.length ∨ (d.run check ms).1.seat i = .gone)
  | [], d, l, _, h, _ => by cases h
  | (j, m) :: ms, d, l, hs, h, hm => by
    rw [Desk.run]
    simp only
    rw [of_append]
    rw [of_cons] at h
    by_cases hj : j = i
    · subst hj
      simp only [if_true, List.singleton_append, List.cons.injEq] at h
      obtain ⟨rfl, rfl⟩ := h
      rw [of_same]
      cases hl : Gns.login check d.srv.cat name pwd with
      | none =>
        have hd : d.hear check j (.hello name pwd) = (d.put j .gone, [.refused .auth]) := by simp only [Desk.hear, hs, hl]
        rw [hd]
        have hg : (d.put j .gone).seat j = .gone := by simp [Desk.put]
        obtain ⟨ras, r1, _, _, r4⟩ := talk_shape (check := check) ms (d.put j .gone) (by rw [hg]; simp) hm
        rw [r1, (r4 hg).1]
        exact .inl rfl
      | some u =>
        have hd : d.hear check j (.hello name pwd) = (d.put j (.taken ⟨u, none⟩), [.welcome]) := by simp only [Desk.hear, hs, hl]
        rw [hd]
        have hg : (d.put j (.taken ⟨u, none⟩)).seat j = .taken ⟨u, none⟩ := by simp [Desk.put]
        obtain ⟨ras, r1, r2, r3, _⟩ := talk_shape (check := check) ms (d.put j (.taken ⟨u, none⟩)) (by rw [hg]; simp) hm
        exact .inr ⟨ras, by rw [r1]; rfl, r2, r3⟩
    · simp only [hj, if_false, List.nil_append] at h
      rw [of_other hj, List.nil_append]
      exact hello_shape ms _ (by rw [hear_seat (Ne.symm hj)]; exact hs) h hm

theorem said_length {T : FloatText} {l : List Said} {y : Said} (h : y ∈ l) : (y.bytes T).length ≤ (l.map (Said.bytes T)).flatten.length := by
  obtain ⟨a, b, rfl⟩ := List.append_of_mem h
  simp
  omega

/-- **C65, clients.** Take a new server, any inputs of any connections without undefined behaviour, and a client that follows the
protocol: it sends a handshake and then queries, each in any pieces and after the reply to the one before. Either it gets the
four bytes of the refusal, or it gets the four bytes of the welcome followed by replies that it can read, one for each query as
long as the task of the connection lives. These are the answers to exactly its queries, in the order of `Desk.run`. -/
theorem C65_clients_partial {H : Host} {hash : Bytes} {as : List Inp} {h' : Hub} {out : List (Nat × Bytes)}
    (hrun : (Hub.start (newServer hash)).run H as = some (h', out)) (ho : ∀ i o chunk, .read i o chunk ∈ as → Regular o)
    {i : Nat} {name pwd : Bytes} {qs : List ((Bytes × Bytes) × List Bytes)} {hs : List Bytes}
    (hopen : .close i ∉ as) (hb : bytesFrom i as = hs ++ (qs.map (·.2)).flatten)
    (h1 : hs.flatten = hello name pwd) (h2 : ∀ x ∈ hs, x ≠ []) (h3 : (hello name pwd).length < 2 ^ 64)
    (h4 : ∀ m ∈ qs, (packet m.1.1 m.1.2).length < 2 ^ 64)
    (h5 : ∀ m ∈ qs, m.2.flatten = packet m.1.1 m.1.2 ∧ ∀ x ∈ m.2, x ≠ []) (hout : (of i out).flatten.length < 2 ^ 64) :
    ∃ (ms : List (Nat × Msg)) (l : List Msg), ((Desk.start (newServer hash)).run H.check ms).1.srv = h'.srv ∧
      of i ms = .hello name pwd :: l ∧ l.map Msg.asked = qs.map (fun m => some m.1) ∧
      ((of i ((Desk.start (newServer hash)).run H.check ms).2 = [.refused .auth] ∧ (of i out).flatten = [72, 0, 1, 5]) ∨
        ∃ (ras : List Net.Reply.Answer) (b : Bytes),
          of i ((Desk.start (newServer hash)).run H.check ms).2 = .welcome :: ras.map .reply ∧ ras.length ≤ qs.length ∧
          (ras.length = qs.length ∨ ((Desk.start (newServer hash)).run H.check ms).1.seat i = .gone) ∧
          (of i out).flatten = [72, 0, 0, 0] ++ b ∧
          ((∀ a ∈ ras, FewCols a) → readReplies H.text ras.length b = some (ras.map Net.Reply.Answer.canon, []))) := by
  obtain ⟨ms, g1, g2, _, g4, g5⟩ := C65_conversations_partial hrun
  obtain ⟨l, k1, k2⟩ := g4 i name pwd qs hs hopen hb h1 h2 h3 h4 h5
  refine ⟨ms, l, g1, k1, k2, ?_⟩
  have hasked : ∀ m ∈ l, (Msg.asked m).isSome = true := by
    intro m hm
    have : Msg.asked m ∈ qs.map (fun m => some m.1) := by rw [← k2]; exact List.mem_map_of_mem hm
    obtain ⟨q, _, hq⟩ := List.mem_map.1 this
    rw [← hq]
    rfl
  have hlen : l.length = qs.length := by simpa using congrArg List.length k2
  rcases hello_shape (check := H.check) ms (Desk.start (newServer hash)) rfl k1 hasked with e | ⟨ras, e1, e2, e3⟩
  · refine .inl ⟨e, ?_⟩
    rw [g2, e]
    rfl
  · refine .inr ⟨ras, (ras.map fun a => send (a.resp H.text)).flatten, e1, by omega, by rw [← hlen]; exact e3, ?_, ?_⟩
    · rw [g2, e1]
      simp only [List.map_cons, List.flatten_cons, List.map_map]
      rfl
    · intro hf
      refine Net.Reply.C26_connections H.text ras fun a ha => ?_
      have hmem : Said.reply a ∈ of i ((Desk.start (newServer hash)).run H.check ms).2 := by
        rw [e1]
        exact List.mem_cons_of_mem _ (List.mem_map_of_mem ha)
      refine replies_wf H.text H.check hash ?_ _ (mem_of hmem) a rfl (hf a ha) ?_
      · intro e he o text params hq
        obtain ⟨chunk, hc⟩ := g5 e he o text params hq
        exact ho _ _ _ hc
      · have := said_length (T := H.text) hmem
        rw [← g2] at this
        exact Nat.lt_of_le_of_lt this hout

/-- **C65, codes.** The number on the wire tells which error it was. Two errors have the same number only if they have the same
name in both places: the refusal of the permission (5) and an unknown column (101). -/
theorem C65_codes :
    (∀ a b, lexCode a = lexCode b → a = b) ∧ (∀ a b, qlCode a = qlCode b → a = b) ∧ (∀ a b, gnsCode a = gnsCode b → a = b) ∧
    (∀ a b, dmlCode a = dmlCode b → a = b) ∧ (∀ a b, lexCode a ≠ qlCode b) ∧ (∀ a b, lexCode a ≠ gnsCode b) ∧
    (∀ a b, lexCode a ≠ dmlCode b) ∧ (∀ a b, qlCode a ≠ dmlCode b) ∧
    (∀ a b, qlCode a = gnsCode b → a = .permDenied ∧ b = .permDenied) ∧
    (∀ a b, gnsCode a = dmlCode b → a = .unknownField ∧ b = .unknownField) := by
  refine ⟨?_, ?_, ?_, ?_, ?_, ?_, ?_, ?_, ?_, ?_⟩ <;> intro a b <;> cases a <;> cases b <;> decide

/-- A refusal says why. -/
theorem C65_refusals (a b : HsError) (h : hsRefusal a = hsRefusal b) : a = b := by
  cases a <;> cases b <;> first | rfl | exact absurd h (by decide)

/-! ### Concrete conversations -/

section Example

private def ofl : Dml.FloatOps := ⟨fun a _ => a, fun a _ => a, fun a _ => a, fun a _ => a⟩
private def o : Outside :=
  ⟨{ Gns.fine 1 with hash := Lex.ascii "pw" }, id, List.reverse, ofl, fun _ => none, fun _ => "", fun _ => [], fun _ => 0, true, fun _ => [],
    fun _ => [], fun sp => sp.models⟩
private def H : Host := ⟨fun p h => p == h, Net.Reply.exText⟩
private def S : Srv := newServer (Lex.ascii "secret")
private def root : Bytes := hello (Lex.ascii "root") (Lex.ascii "secret")
private def says (as : List Inp) : Option (List (Nat × Bytes)) := ((Hub.start S).run H as).map fun r => r.2.filter fun e => e.2 ≠ []

/-- Two connections: one of them sends its handshake in two pieces and is root; the other one has no account. The replies are
the welcome, the empty reply, an error for an unknown keyword, the refusal. -/
example : says [.read 0 o (root.take 9), .read 0 o (root.drop 9), .read 1 o (hello (Lex.ascii "u") (Lex.ascii "pw")),
    .read 0 o (packet (Lex.ascii "create space s") []), .read 1 o (packet (Lex.ascii "drop space s") []),
    .read 0 o (packet (Lex.ascii "frobnicate") [])] =
    some [(0, [72, 0, 0, 0]), (1, [72, 0, 1, 5]), (0, [18]), (0, [16, 32, 0])] := by
  decide +kernel

/-- A row goes in and comes out, for a user that root creates while it is connected: the row `7, 1` is
`\x11 2 LF \x05 7 LF \x02 1 LF`. -/
example : says [.read 0 o root, .read 0 o (packet (Lex.ascii "create space s") []),
    .read 0 o (packet (Lex.ascii "create model s.m(primary id: uint64, n: uint8)") []),
    .read 0 o (packet (Lex.ascii "sysctl create user u with { password: ? }") [6, 50, 10, 112, 119]),
    .read 1 o (hello (Lex.ascii "u") (Lex.ascii "pw")),
    .read 1 o (packet (Lex.ascii "insert into s.m(?, ?)") [2, 55, 10, 2, 49, 10]),
    .read 1 o (packet (Lex.ascii "select * from s.m where id = ?") [2, 55, 10]),
    .read 1 o (packet (Lex.ascii "drop model s.m") [])] =
    some [(0, [72, 0, 0, 0]), (0, [18]), (0, [18]), (0, [18]), (1, [72, 0, 0, 0]), (1, [18]),
      (1, [17, 50, 10, 5, 55, 10, 2, 49, 10]), (1, [16, 5, 0])] := by
  decide +kernel

/-- The numbers of the errors (`error.rs:36-98`): unknown statement, unexpected end, invalid syntax, no statement, unexpected byte; the space
exists, is not empty, is not there; an illegal change, a bad definition, an unknown column, an invalid type; a duplicate row, a row that does
not fit, an unknown column, a column without index, no such row. -/
example : (says (.read 0 o root :: [
    ("create frob foo x", []),
    ("select * from", []),
    ("select * from s.m where", []),
    ("drop space", []),
    ("use 5 5", []),
    ("create space t", []),
    ("create space t", []),
    ("create model t.m(primary id: uint64, n: uint8)", []),
    ("drop space t", []),
    ("drop space zz", []),
    ("alter model t.m add n { type: uint8 }", []),
    ("create model t.k(primary id: list {type: uint8}, n: uint8)", []),
    ("alter model t.m remove qq", []),
    ("alter model t.m update n { type: string }", []),
    ("insert into t.m(?, ?)", [2, 49, 10, 2, 50, 10]),
    ("insert into t.m(?, ?)", [2, 49, 10, 2, 50, 10]),
    ("insert into t.m(?, ?)", [2, 51, 10, 2, 51, 48, 48, 10]),
    ("select q from t.m where id = ?", [2, 49, 10]),
    ("select * from t.m where n = ?", [2, 49, 10]),
    ("select * from t.m where id = ?", [2, 57, 10])].map fun (e : String × Bytes) =>
      .read 0 o (packet (Lex.ascii e.1) e.2))).map (List.map Prod.snd) =
    some [[72, 0, 0, 0], [16, 33, 0], [16, 27, 0], [16, 28, 0], [16, 32, 0], [16, 26, 0], [18], [16, 103, 0], [18], [16, 104, 0], [16, 100, 0], [16, 107, 0], [16, 106, 0], [16, 101, 0], [16, 105, 0], [18], [16, 108, 0], [16, 109, 0], [16, 101, 0], [16, 110, 0], [16, 111, 0]] := by
  decide +kernel

/-- **C65 is violated: pieces.** What is executed depends on the pieces in which the bytes arrive. A client that sends its
handshake and its first query without waiting gets the welcome but no reply if they arrive together: the query lies in the
buffer, complete, until the client sends more. And of two queries that arrive together neither is
executed (C23). -/
theorem C65_pieces_violated :
    says [.read 0 o root, .read 0 o (packet (Lex.ascii "create space s") [])] = some [(0, [72, 0, 0, 0]), (0, [18])] ∧
    says [.read 0 o (root ++ packet (Lex.ascii "create space s") [])] = some [(0, [72, 0, 0, 0])] ∧
    says [.read 0 o root, .read 0 o (packet (Lex.ascii "create space s") []), .read 0 o (packet (Lex.ascii "create space t") [])] =
      some [(0, [72, 0, 0, 0]), (0, [18]), (0, [18])] ∧
    says [.read 0 o root, .read 0 o (packet (Lex.ascii "create space s") [] ++ packet (Lex.ascii "create space t") [])] =
      some [(0, [72, 0, 0, 0])] ∧
    ((Hub.start S).run H [.read 0 o (root ++ packet (Lex.ascii "create space s") [])]).map (fun r => (r.1.srv.cat.spaces "s").isSome) =
      some false := by
  refine ⟨?_, ?_, ?_, ?_, ?_⟩ <;> decide +kernel

/-- **C65 is violated: undefined behaviour.** A client without an account makes the server read outside its buffer (C25): from
then on nothing is known about any connection. -/
theorem C65_undefined_violated (h : Hub) (i : Nat) (hi : h.con i = .greeting {}) :
    h.step H (.read i o ([72, 0, 0, 0, 0, 0] ++ Lex.ascii "18446744073709551615\n1\n")) = none := by
  have : HsConn.feed {} ([72, 0, 0, 0, 0, 0] ++ Lex.ascii "18446744073709551615\n1\n") = .oob := by decide +kernel
  simp only [Hub.step, hi, this]

end Example

end Verif.Server

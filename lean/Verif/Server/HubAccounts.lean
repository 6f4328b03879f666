import Verif.Server.HubClients
/-!
C66: accounts that are dropped lose their access.
-/
namespace Verif.Server
open Verif.Net (hello packet)

/-! ### New sessions -/

/-- What is executed does not name the account: no `CREATE USER`, `ALTER USER` or `DROP USER` of it. -/
def Leaves (n : String) (qs : List Q) : Prop := ∀ q ∈ qs, ∀ y, read q.1 q.2.1 q.2.2.1 q.2.2.2 = some y → ¬ Names y (.user n)

theorem exec_user {perm : Enc.Fields → Enc.Fields} {u : Gns.Client} {c : Gns.Cat} {w : Gns.World} {d : Gns.Stmt} {n : String}
    (h : ¬ DdlNames d (.user n)) : (Gns.exec perm u c w d).cat.users n = c.users n :=
  (exec_frame perm u c w d).users n h

theorem serve_user {o : Outside} {s : Srv} {x : Sess} {text params : Bytes} {n : String}
    (h : ∀ y, read o x text params = some y → ¬ Names y (.user n)) : (serve o s x text params).1.cat.users n = s.cat.users n := by
  cases hr : read o x text params with
  | none => rw [(serve_read.2 hr).1]
  | some q =>
    have hq := h q hr
    rw [serve_read.1 _ hr]
    cases q with
    | ddl d => exact exec_user hq
    | sysctl c =>
      cases c with
      | user d => exact exec_user hq
      | report => rfl
    | use u => rfl
    | inspect i => simp only [execute]; split <;> rfl
    | rows r => simp only [execute]; split <;> rfl

theorem serveAll_user {n : String} : ∀ {qs : List Q} {s : Srv}, Leaves n qs → (serveAll s qs).cat.users n = s.cat.users n
  | [], _, _ => rfl
  | (o, x, t, p) :: qs, s, h => by
    rw [serveAll, serveAll_user fun q hq => h q (by simp [hq])]
    exact serve_user (h (o, x, t, p) (by simp))

theorem login_other {check : Bytes → Bytes → Bool} {c c' : Gns.Cat} {name pwd : Bytes} (h : ∀ n, decStr name = some n → c'.users n = c.users n) :
    Gns.login check c' name pwd = Gns.login check c name pwd := by
  unfold Gns.login
  cases hd : decStr name with
  | none => rfl
  | some n => simp only [Gns.verifyUser, h n hd]

/-- **C66, new sessions (partial).** From a state of the server in which there is no account `n`, as long as no executed query
names the account: every hello with this name is refused, whatever the password, and there still is no such account. Missing:
the sessions that are open already (`C66_open_sessions_violated`). -/
theorem C66_no_account_partial {check : Bytes → Bytes → Bool} {d : Desk} {n : String} (hd : d.srv.cat.users n = none)
    {a b : List (Nat × Msg)} {i : Nat} {name pwd : Bytes} (hn : decStr name = some n)
    (hl : Leaves n ((d.queries check (a ++ (i, .hello name pwd) :: b)).map Prod.snd)) (hi : (d.run check a).1.seat i = .new) :
    ((d.run check a).1.hear check i (.hello name pwd)).2 = [.refused .auth] ∧
      (d.run check (a ++ (i, .hello name pwd) :: b)).1.srv.cat.users n = none := by
  have hq : ∀ (a b : List (Nat × Msg)) (d : Desk), d.queries check (a ++ b) = d.queries check a ++ (d.run check a).1.queries check b := by
    intro a
    induction a with
    | nil => intro b d; rfl
    | cons e a ih =>
      intro b d
      obtain ⟨j, m⟩ := e
      simp only [List.cons_append, Desk.queries, ih, Desk.run, List.append_assoc]
  have ha : (d.run check a).1.srv.cat.users n = none := by
    rw [run_serveAll, serveAll_user, hd]
    intro q hq'
    refine hl q ?_
    rw [hq, List.map_append]
    exact List.mem_append_left _ hq'
  refine ⟨?_, by rw [run_serveAll, serveAll_user hl, hd]⟩
  have : Gns.login check (d.run check a).1.srv.cat name pwd = none := by
    cases hg : Gns.login check (d.run check a).1.srv.cat name pwd with
    | none => rfl
    | some u =>
      obtain ⟨h1, _, h, h2, _⟩ := (Gns.C29_login_exact _ _ _ _ _).1 hg
      rw [hn] at h1
      cases h1
      rw [ha] at h2
      cases h2
  simp only [Desk.hear, hi, this]

/-- **C66, acknowledged.** A `DROP USER` that is answered with success leaves no such account, whoever sent it; it was root, and
not about itself. -/
theorem C66_dropped {o : Outside} {s : Srv} {x : Sess} {text params : Bytes} {n : String} {r : Option Bool}
    (hr : read o x text params = some (.sysctl (.user (.dropUser n))))
    (ha : (serve o s x text params).2.2.1 = .ddl (.ok r)) :
    (serve o s x text params).1.cat.users n = none ∧ x.client.root = true ∧ x.client.name ≠ n ∧ (s.cat.users n).isSome = true := by
  rw [serve_read.1 _ hr] at ha ⊢
  simp only [execute, runDdl, worldFor] at ha ⊢
  unfold Gns.exec at ha ⊢
  split at ha
  · rename_i hroot
    rw [if_pos hroot]
    simp only at ha ⊢
    unfold Gns.execDropUser at ha ⊢
    split at ha
    · cases ha
    · rename_i hne
      rw [if_neg hne]
      split at ha
      · rename_i h hh
        rw [hh]
        unfold Gns.Cat.commit at ha ⊢
        split at ha
        · rename_i hc
          rw [if_pos hc]
          exact ⟨by simp [Gns.upd], hroot, hne, by simp⟩
        · cases ha
      · cases ha
  · cases ha

/-- **C66, the others.** As long as no executed query names an account, its name and password stay as they are: exactly the
same hellos are accepted. -/
theorem C66_others {check : Bytes → Bytes → Bool} {d : Desk} {ms : List (Nat × Msg)} {name pwd : Bytes}
    (h : ∀ n, decStr name = some n → Leaves n ((d.queries check ms).map Prod.snd)) :
    Gns.login check (d.run check ms).1.srv.cat name pwd = Gns.login check d.srv.cat name pwd :=
  login_other fun n hn => by rw [run_serveAll, serveAll_user (h n hn)]

/-! ### Open sessions -/

section Example

private def ofl : Dml.FloatOps := ⟨fun a _ => a, fun a _ => a, fun a _ => a, fun a _ => a⟩
private def o (hash : Bytes) : Outside :=
  ⟨{ Gns.fine 1 with hash := hash }, id, List.reverse, ofl, fun _ => none, fun _ => "", fun _ => [], fun _ => 0, true, fun _ => [],
    fun _ => [], fun sp => sp.models⟩
private def H : Host := ⟨fun p h => p == h, Net.Reply.exText⟩
private def S : Srv := newServer (Lex.ascii "secret")
private def p : Outside := o (Lex.ascii "pw")
private def says (as : List Inp) : Option (List (Nat × Bytes)) := ((Hub.start S).run H as).map fun r => r.2.filter fun e => e.2 ≠ []

/-- Root makes a table and an account; the user logs in; root drops the account. -/
private def story : List Inp :=
  [.read 0 p (hello (Lex.ascii "root") (Lex.ascii "secret")), .read 0 p (packet (Lex.ascii "create space s") []),
   .read 0 p (packet (Lex.ascii "create model s.m(primary id: uint64, n: uint8)") []),
   .read 0 p (packet (Lex.ascii "sysctl create user u with { password: ? }") [6, 50, 10, 112, 119]),
   .read 1 p (hello (Lex.ascii "u") (Lex.ascii "pw")),
   .read 0 p (packet (Lex.ascii "sysctl drop user u") [])]

/-- **C66 is violated: open sessions.** The `DROP USER` is acknowledged and new connections of the user are refused, but the
connection that is open still writes and reads rows. -/
theorem C66_open_sessions_violated :
    says (story ++ [.read 2 p (hello (Lex.ascii "u") (Lex.ascii "pw")),
      .read 1 p (packet (Lex.ascii "insert into s.m(?, ?)") [2, 55, 10, 2, 49, 10]),
      .read 0 p (packet (Lex.ascii "select * from s.m where id = ?") [2, 55, 10]),
      .read 1 p (packet (Lex.ascii "delete from s.m where id = ?") [2, 55, 10])]) =
    some [(0, [72, 0, 0, 0]), (0, [18]), (0, [18]), (0, [18]), (1, [72, 0, 0, 0]), (0, [18]), (2, [72, 0, 1, 5]), (1, [18]),
      (0, [17, 50, 10, 5, 55, 10, 2, 49, 10]), (1, [18])] := by
  decide +kernel

/-- **C66 is violated: a new password.** The only way to give an account a new password is to drop it and to create it again
(C44). Whoever had logged in with the old one stays logged in. -/
theorem C66_new_password_violated :
    says (story ++ [
      .read 0 (o (Lex.ascii "new")) (packet (Lex.ascii "sysctl create user u with { password: ? }") [6, 51, 10, 110, 101, 119]),
      .read 2 p (hello (Lex.ascii "u") (Lex.ascii "pw")), .read 3 p (hello (Lex.ascii "u") (Lex.ascii "new")),
      .read 1 p (packet (Lex.ascii "insert into s.m(?, ?)") [2, 55, 10, 2, 49, 10])]) =
    some [(0, [72, 0, 0, 0]), (0, [18]), (0, [18]), (0, [18]), (1, [72, 0, 0, 0]), (0, [18]), (0, [18]), (2, [72, 0, 1, 5]),
      (3, [72, 0, 0, 0]), (1, [18])] := by
  decide +kernel

/-- The `DROP USER` of the story is read as one, and the conditions of `C66_dropped` hold. -/
example : (match read p ⟨⟨"root", true⟩, none⟩ (Lex.ascii "sysctl drop user u") [] with
    | some (.sysctl (.user (.dropUser n))) => n
    | _ => "") = "u" := by decide +kernel

end Example

end Verif.Server

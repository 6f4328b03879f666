import Verif.Journal.Lemmas3
/-!
Property theorems about the catalogue journal (C01 to C05, C41).

`lifetime`, `running`, `crashed` (in `Scenario.lean`) describe what a server does with its journal;
`scroll` is the reading side of "open the journal at start".
-/
namespace Verif.Journal

variable {G : Type} {kinds : Nat} {apply : G → Ev → Res SErr G}

/-- A 64-byte file header for the examples. -/
def exHdr : Bytes := List.replicate 64 7

/-- Three sessions with events for the examples. -/
def exFirst : List Ev := [⟨0, [1, 2, 3]⟩, ⟨3, []⟩]
def exRest : List (List Ev) := [[], [⟨10, List.replicate 9000 5⟩, ⟨2, [0]⟩]]

/-- **C01.** Run any number of sessions, each of which opens the journal, commits any events and
shuts down cleanly (`lifetime`). All calls succeed, and the next start succeeds, builds the state
that applying all committed events in order gives, and returns a writer. -/
theorem C01_clean_restart {g0 g : G} {hdr : Bytes} {first : List Ev} {rest : List (List Ev)}
    (hkinds : kinds ≤ 256) (hh : hdr.length = 64)
    (hk : ∀ s ∈ first :: rest, ∀ e ∈ s, e.kind < kinds)
    (hsz : sizeBound (first :: rest) + 64 < 2 ^ 63)
    (ha : replay apply g0 (first :: rest).flatten = .ok g) :
    ∃ file w, lifetime (eventLogDecode kinds apply) g0 hdr first rest = some file ∧
      openJournal (eventLogDecode kinds apply) g0 file [] = .ok (w, g) := by
  obtain ⟨file, hf, hl, -, hc⟩ := lifetime_closed hkinds hh hk (by omega) ha
  obtain ⟨w, hw, -⟩ := hc.open (by omega)
  exact ⟨file, w, hf, hw⟩

theorem replay_collect (g : List Ev) (es : List Ev) : replay collect g es = .ok (g ++ es) := by
  induction es generalizing g with
  | nil => simp [replay]
  | cons e es ih => simp [replay, collect, ih]

/-- **C01**, in the form "exactly the acknowledged events, each once and in order": with a handler
that records the events it is given, the next start records the concatenation of all sessions. -/
theorem C01_exactly_the_log {hdr : Bytes} {first : List Ev} {rest : List (List Ev)}
    (hkinds : kinds ≤ 256) (hh : hdr.length = 64)
    (hk : ∀ s ∈ first :: rest, ∀ e ∈ s, e.kind < kinds)
    (hsz : sizeBound (first :: rest) + 64 < 2 ^ 63) :
    ∃ file w, lifetime (eventLogDecode kinds collect) [] hdr first rest = some file ∧
      openJournal (eventLogDecode kinds collect) [] file [] = .ok (w, (first :: rest).flatten) :=
  C01_clean_restart hkinds hh hk hsz (by rw [replay_collect]; rfl)

example : (∀ s ∈ exFirst :: exRest, ∀ e ∈ s, e.kind < 11) ∧ sizeBound (exFirst :: exRest) + 64 < 2 ^ 63 := by
  decide +kernel

/-- **C02 is violated.** Whatever was acknowledged (in this session and before), if the process dies
without the clean shutdown, the next start fails with an I/O error and recovers nothing. -/
theorem C02_crash_loses_everything_violated {g0 g : G} {hdr : Bytes} {older : List (List Ev)}
    {last : List Ev} (hkinds : kinds ≤ 256) (hh : hdr.length = 64)
    (hk : ∀ s ∈ older ++ [last], ∀ e ∈ s, e.kind < kinds)
    (hsz : sizeBound (older ++ [last]) < 2 ^ 63)
    (ha : replay apply g0 (older ++ [last]).flatten = .ok g) :
    ∃ file, crashed (eventLogDecode kinds apply) g0 hdr older last = some file ∧
      openJournal (eventLogDecode kinds apply) g0 file [] = .err .io := by
  obtain ⟨w, hw, hl, hi, hr⟩ := running_reached hkinds hh hk hsz ha
  refine ⟨w.log.disk, by simp [crashed, hw], ?_⟩
  have := hr.scroll_err (rest := []) hi.hdr applyNext_nil
  rw [List.append_nil] at this
  simp [openJournal, this]

/-- **C02, partial.** The data is not lost, only refused: there is a 64-byte block such that the
file with this block appended opens and gives exactly the acknowledged events. Missing: the server
never writes that block after a crash, so the full property fails (theorem above). -/
theorem C02_acknowledged_events_are_in_the_file_partial {g0 g : G} {hdr : Bytes}
    {older : List (List Ev)} {last : List Ev} (hkinds : kinds ≤ 256) (hh : hdr.length = 64)
    (hk : ∀ s ∈ older ++ [last], ∀ e ∈ s, e.kind < kinds)
    (hsz : sizeBound (older ++ [last]) + 64 < 2 ^ 63)
    (ha : replay apply g0 (older ++ [last]).flatten = .ok g) :
    ∃ file block w, crashed (eventLogDecode kinds apply) g0 hdr older last = some file ∧
      block.length = 64 ∧
      openJournal (eventLogDecode kinds apply) g0 (file ++ block) [] = .ok (w, g) := by
  obtain ⟨w, hw, hl, hi, hr⟩ := running_reached hkinds hh hk (by omega) ha
  obtain ⟨w1, e1, i1, d1, -⟩ := hi.commitDriver .closed
  have hc : Closed kinds apply g0 w1.log.disk g := ⟨w, w1, hi, hr, e1, rfl⟩
  have hlen : (drvBytes w .closed).length = 64 := encode_length ..
  have hl1 : w1.log.disk.length = w.log.disk.length + 64 := by
    rw [d1, List.length_append, hlen]
  obtain ⟨w2, hw2, -⟩ := hc.open (by omega)
  exact ⟨w.log.disk, drvBytes w .closed, w2, by simp [crashed, hw], hlen, by rw [← d1]; exact hw2⟩

example : (∀ s ∈ exRest ++ [exFirst], ∀ e ∈ s, e.kind < 11) ∧ sizeBound (exRest ++ [exFirst]) + 64 < 2 ^ 63 := by
  decide +kernel

/-- **C03.** Cut the journal of a server off anywhere after the header. If the rest is accepted
at start, it is exactly what the file was after one of the earlier clean shutdowns. -/
theorem C03_truncation_detected {g0 g : G} {hdr : Bytes} {first : List Ev} {rest : List (List Ev)}
    {file p : Bytes} (hkinds : kinds ≤ 256) (hh : hdr.length = 64)
    (hk : ∀ s ∈ first :: rest, ∀ e ∈ s, e.kind < kinds)
    (hsz : sizeBound (first :: rest) < 2 ^ 63)
    (ha : replay apply g0 (first :: rest).flatten = .ok g)
    (hf : lifetime (eventLogDecode kinds apply) g0 hdr first rest = some file)
    (hp : p <+: file) (hpl : 64 ≤ p.length)
    (hok : (scroll (eventLogDecode kinds apply) g0 p).isOk) :
    ∃ n, lifetime (eventLogDecode kinds apply) g0 hdr first (rest.take n) = some p :=
  TruncOk.lifetime hkinds hh hk hsz ha hf p hp hpl hok

/-- Non-vacuity of C03: a two-session journal cut at the end of the first session is accepted, and
cut three bytes later it is an I/O error. -/
example :
    let f := lifetime (eventLogDecode 11 collect) [] exHdr exFirst [[⟨2, [0]⟩]]
    (f.map fun f => (f.length, (scroll (eventLogDecode 11 collect) [] (f.take 211)).isOk,
      (scroll (eventLogDecode 11 collect) [] (f.take 214)).isOk)) = some (380, true, false) := by
  decide +kernel

/-- **C04.** An event is committed with a payload `a ++ m ++ b`. If later, in the stored file, `m`
(at most eight bytes) is damaged in any way, then the next start reports corruption, whatever
follows in the file. -/
theorem C04_payload_corruption_detected {g0 g : G} {hdr : Bytes} {older : List (List Ev)}
    {last : List Ev} {w w' : JW} {kind : Nat} {a m b m' F rest : Bytes}
    (hkinds : kinds ≤ 256) (hh : hdr.length = 64)
    (hk : ∀ s ∈ older ++ [last], ∀ e ∈ s, e.kind < kinds)
    (hsz : sizeBound (older ++ [last ++ [⟨kind, a ++ m ++ b⟩]]) < 2 ^ 63)
    (ha : replay apply g0 (older ++ [last]).flatten = .ok g)
    (hw : running (eventLogDecode kinds apply) g0 hdr older last = some w)
    (hkind : kind < kinds)
    (hc : w.commitEvent ⟨kind, a ++ m ++ b⟩ = (w', .ok ()))
    (hF : w'.log.disk = F ++ (a ++ m ++ b))
    (hl : m'.length = m.length) (h8 : m.length ≤ 8) (hne : m' ≠ m) :
    scroll (eventLogDecode kinds apply) g0 (F ++ (a ++ m' ++ b) ++ rest) = .err .corrupted := by
  have hb1 : sizeBound (older ++ [last ++ [⟨kind, a ++ m ++ b⟩]])
      = sizeBound (older ++ [last]) + (40 + (a ++ m ++ b).length) := by
    simp [sizeBound]; omega
  obtain ⟨w0, hw0, hl0, hi, hr⟩ := running_reached hkinds hh hk (by omega) ha
  rw [hw] at hw0; cases hw0
  obtain ⟨w1, e1, i1, d1, -⟩ := hi.commitEvent ⟨kind, a ++ m ++ b⟩
  rw [hc] at e1; cases e1
  rw [evBytes_eq, hF, ← List.append_assoc w.log.disk] at d1
  have hF' : F = w.log.disk ++ evHead w.txnId ⟨kind, a ++ m ++ b⟩ :=
    List.append_inj_left' d1 rfl
  subst hF'
  have : w.log.disk ++ evHead w.txnId ⟨kind, a ++ m ++ b⟩ ++ (a ++ m' ++ b) ++ rest
      = w.log.disk ++ (evHead w.txnId ⟨kind, a ++ m ++ b⟩ ++ (a ++ m' ++ b) ++ rest) := by simp
  rw [this]
  refine hr.scroll_err hi.hdr (applyNext_event_damaged hkinds hi hkind ?_ ?_ ?_)
  · rw [evBytes_length]; simp only [List.length_append] at *; omega
  · simp [hl]
  · intro heq
    apply hne
    simp only [← List.append_assoc] at heq
    rw [List.append_assoc _ a m', List.append_assoc _ a m] at heq
    simp only [← List.append_assoc] at heq
    exact Crc.crc_window hl (by omega) heq

/-- Non-vacuity of C04: such a commit on a running server, with the file ending in the payload. -/
example :
    (running (eventLogDecode 11 collect) [] exHdr [exFirst] [⟨2, [0]⟩]).map (fun w =>
      let c := w.commitEvent ⟨1, [1, 2] ++ [3, 4] ++ [5]⟩
      (c.2, c.1.log.disk.drop (c.1.log.disk.length - 5))) = some (.ok (), [1, 2] ++ [3, 4] ++ [5]) := by
  decide +kernel

/-- **C05 is violated.** On a journal that already holds at least one event of this session or an
earlier session, let a commit fail in any way, let the recovery check (`heartbeat`) succeed, and let
the server go on without further faults: commit any events and shut down cleanly. Then the next
start always fails: nothing that was acknowledged, before or after, can be read. -/
theorem C05_recovered_driver_poisons_violated {g0 g : G} {hdr : Bytes} {older : List (List Ev)}
    {last later : List Ev} {w w1 w2 : JW} {io : List Sys} {e : Ev} {r : Res SErr Unit} {file : Bytes}
    (hkinds : kinds ≤ 256) (hh : hdr.length = 64)
    (hk : ∀ s ∈ older ++ [last], ∀ e ∈ s, e.kind < kinds)
    (hsz : sizeBound (older ++ [last]) < 2 ^ 63)
    (ha : replay apply g0 (older ++ [last]).flatten = .ok g)
    (hw : running (eventLogDecode kinds apply) g0 hdr older last = some w)
    (hsome : w.txnId ≠ 0)
    (hfail : (w.withIo io).commitEvent e = (w1, r)) (hr : r ≠ .ok ())
    (hhb : w1.heartbeat = (w2, .ok ()))
    (hlater : (w2.withIo []).session later = some file) :
    openJournal (eventLogDecode kinds apply) g0 file [] = .err .metaCorrupted := by
  obtain ⟨w0, hw0, hl0, hi, hre⟩ := running_reached hkinds hh hk hsz ha
  rw [hw] at hw0; cases hw0
  obtain ⟨ht, ho, hp⟩ := JW.commitEvent_failed hr hfail
  have hvc : w1.log.cursor = w1.log.disk.length ∧ w1.log.cursor = w1.knownTxnOffset ∧
      w2 = { w1 with log := { w1.log with buf := [] } } := by
    unfold JW.heartbeat TW.verifyCursor at hhb
    split at hhb
    · split at hhb
      · simp only [Prod.mk.injEq, and_true] at hhb
        simp_all
      · simp at hhb
    · simp at hhb
  obtain ⟨hv, hcur, hw2⟩ := hvc
  have hoffc : w.knownTxnOffset = w.log.cursor := by have := hi.offc; simpa [hsome] using this
  have hdisk : w1.log.disk = w.log.disk := by
    have h1 : (w.withIo io).log.disk = w.log.disk := rfl
    have h2 : (w.withIo io).knownTxnOffset = w.knownTxnOffset := rfl
    rw [h1] at hp; rw [h2] at ho
    refine (hp.eq_of_length ?_).symm
    rw [← hi.good.cur, ← hoffc, ← ho, ← hcur, hv]
  have hg : (w2.withIo []).log.Good := by
    subst hw2
    exact ⟨rfl, hv, by simp [JW.withIo]⟩
  have hb : (w2.withIo []).log.buf = [] := by subst hw2; rfl
  obtain ⟨t, htl, hfile⟩ := session_start hg hb hlater
  have hid : (w2.withIo []).txnId = w.txnId + 1 := by
    subst hw2; exact ht
  have hd2 : (w2.withIo []).log.disk = w.log.disk := by subst hw2; exact hdisk
  rw [hid, hd2] at hfile
  have hsc : scroll (eventLogDecode kinds apply) g0 file = .err .metaCorrupted := by
    rw [hfile]
    refine hre.scroll_err hi.hdr (applyNext_wrong_id ?_ (by omega) htl)
    have := hi.id; omega
  simp [openJournal, hsc]

/-- A concrete run for the theorem above: one committed event, a commit whose `write` fails, a
successful recovery check, one more committed event and a clean shutdown. The file exists (every
call after the failure was acknowledged) and cannot be opened. -/
example :
    let w := ((JW.create exHdr []).1.commitEvent ⟨0, [1]⟩).1
    let f := ((w.withIo [.fail]).commitEvent ⟨1, [2]⟩)
    let h := f.1.heartbeat
    let file := (h.1.withIo []).session [⟨2, [3]⟩]
    w.txnId = 1 ∧ f.2 = .err .io ∧ h.2 = .ok () ∧
    (file.map fun f => scroll (eventLogDecode 11 collect) [] f) = some (.err .metaCorrupted) := by
  decide +kernel

/-- On a fresh journal, in which nothing has been committed yet, the recovery check can never
succeed, whatever happened: the driver stays down until the server is restarted. -/
theorem C05_fresh_journal_never_recovers_violated {hdr : Bytes} {w w1 : JW} {io : List Sys} {e : Ev}
    {r : Res SErr Unit} (hh : hdr.length = 64) (hw : JW.create hdr [] = (w, .ok ()))
    (hfail : (w.withIo io).commitEvent e = (w1, r)) (hr : r ≠ .ok ()) :
    w1.heartbeat.2 ≠ .ok () := by
  obtain ⟨ht, ho, hp⟩ := JW.commitEvent_failed hr hfail
  have hw0 : w.knownTxnOffset = 0 ∧ w.log.disk = hdr := by
    simp [JW.create, JW.new] at hw; subst hw; exact ⟨rfl, rfl⟩
  have ho' : w1.knownTxnOffset = 0 := by rw [ho]; exact hw0.1
  have hp' : hdr <+: w1.log.disk := by rw [← hw0.2]; exact hp
  have := hp'.length_le
  unfold JW.heartbeat TW.verifyCursor
  split
  · rename_i h
    simp only [decide_eq_true_eq] at h
    rw [if_neg (by omega)]; simp
  · simp

example : ∃ w1 r, ((JW.create exHdr []).1.withIo [.fail]).commitEvent ⟨1, [2]⟩ = (w1, r) ∧ r ≠ .ok () :=
  ⟨_, _, rfl, by decide +kernel⟩

/-- **C05, partial.** Without a failed commit everything acknowledged is read back, also after any
number of recovery checks: a check on a healthy journal changes nothing. Missing: the case the
property is about, a failed commit, where it does not hold (theorems above). -/
theorem C05_check_on_healthy_journal_partial {g0 g : G} {hdr : Bytes} {older : List (List Ev)}
    {last : List Ev} {w : JW} (hkinds : kinds ≤ 256) (hh : hdr.length = 64)
    (hk : ∀ s ∈ older ++ [last], ∀ e ∈ s, e.kind < kinds)
    (hsz : sizeBound (older ++ [last]) < 2 ^ 63)
    (ha : replay apply g0 (older ++ [last]).flatten = .ok g)
    (hw : running (eventLogDecode kinds apply) g0 hdr older last = some w) :
    w.heartbeat.1 = w ∧ (w.txnId ≠ 0 → w.heartbeat.2 = .ok ()) := by
  obtain ⟨w0, hw0, hl0, hi, hre⟩ := running_reached hkinds hh hk hsz ha
  rw [hw] at hw0; cases hw0
  have hc := hi.good.cur
  have hb := hi.buf
  have ho := hi.offc
  unfold JW.heartbeat TW.verifyCursor
  refine ⟨?_, ?_⟩
  · split
    · split
      · cases w with
        | mk log t k o => cases log; simp_all
      · rfl
    · rfl
  · intro h0
    rw [if_neg h0] at ho
    rw [if_pos (by simpa using hc), if_pos ho.symm]

/-! ### C41: buffered writes reach the file -/

/-- **C41, partial.** Any sequence of buffered writes of any sizes followed by a flush appends
exactly their concatenation to the file, in order, if every system call accepts all bytes it is
given. Missing: short writes, where it fails (next theorem). -/
theorem C41_buffered_writes_reach_file_partial {w : TW} (hg : w.Good) (hb : w.buf = []) (ds : List Bytes) :
    ∃ w1 w2, w.writeAll ds = (w1, .ok ()) ∧ w1.flushSync = (w2, .ok ()) ∧
      w2.disk = w.disk ++ ds.flatten := by
  obtain ⟨w1, e1, g1, c1, -⟩ := hg.writeAll ds
  obtain ⟨w2, e2, g2, d2, -⟩ := g1.flushSync
  exact ⟨w1, w2, e1, e2, by rw [d2, c1]; simp [TW.content, hb]⟩

/-- The writer of a new journal meets the hypotheses of C41. -/
example : (JW.create exHdr []).1.log.Good ∧ (JW.create exHdr []).1.log.buf = [] := by
  exact ⟨⟨rfl, by decide +kernel, by decide +kernel⟩, rfl⟩

/-- **C41 is violated.** If the operating system accepts only a part of a write, which it may do
at any time, the commit is acknowledged although the file does not contain the event; after a clean
shutdown the journal cannot be opened. -/
theorem C41_short_write_corrupts_violated :
    ∃ io w file, ((JW.create exHdr []).1.withIo io).commitEvent ⟨0, [1, 2, 3]⟩ = (w, .ok ()) ∧
      fileOf (w.withIo []).close = some file ∧
      ∃ e, openJournal (eventLogDecode 11 collect) [] file [] = .err e := by
  refine ⟨[.wrote 20, .wrote 23], _, _, rfl, rfl, .eventCorrupted, ?_⟩
  decide +kernel

/-- Also: if the rest of a short write is then accepted in full, the write loop never ends. -/
theorem C41_short_write_hangs_violated (buf disk : Bytes) (n : Nat) (h0 : 0 < n) (h1 : n < buf.length) :
    (fwriteAllCount buf [.wrote n, .wrote buf.length] disk 0).2.2.2 = .hang := by
  have a : ¬ (0 = buf.length) := by omega
  have b : ¬ (min n buf.length = 0) := by omega
  have c : ¬ (min n buf.length = buf.length) := by omega
  have d : ¬ (buf.length = 0) := by omega
  have e : ¬ (min n buf.length + buf.length = buf.length) := by omega
  have f : ¬ (min n buf.length + buf.length = 0) := by omega
  simp only [fwriteAllCount, if_neg a, if_neg b, Nat.zero_add, if_neg c, Nat.min_self, if_neg d, if_neg e,
    if_neg f]

/-- How an opened journal ended. -/
def ending {α : Type} : Res SErr α → Nat
  | .ok _ => 0
  | .err _ => 1
  | .panic => 2
  | .hang => 3

/-- The same when a journal is opened, which writes the event `Reopened`: with a short write and a failure the buffer is cleared beyond
its end (line 521 of `rw.rs`, undefined behaviour), after a short write alone the start never ends, and a failure is reported. -/
theorem C41_short_write_at_start_violated :
    ∃ file, lifetime (eventLogDecode 11 collect) [] exHdr [⟨1, [2]⟩] [] = some file ∧
      ending (openJournal (eventLogDecode 11 collect) [] file [.wrote 60, .wrote 60, .fail]) = 2 ∧
      ending (openJournal (eventLogDecode 11 collect) [] file [.wrote 1]) = 3 ∧
      ending (openJournal (eventLogDecode 11 collect) [] file [.fail]) = 1 ∧
      ending (openJournal (eventLogDecode 11 collect) [] file []) = 0 := by
  refine ⟨_, rfl, ?_, ?_, ?_, ?_⟩ <;> decide +kernel

end Verif.Journal

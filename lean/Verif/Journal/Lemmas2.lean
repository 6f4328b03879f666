import Verif.Journal.Lemmas
import Verif.Journal.Scenario
/-!
Induction over sessions.
-/
namespace Verif.Journal

/-- The initial state of the journal reader. -/
def startR {G} (rest : Bytes) (gs : G) : JR G :=
  { tr := { rest, cursor := HEADER, ck := Crc.new }, txnId := 0, lastTxnId := 0,
    lastTxnOffset := 0, lastTxnChecksum := 0, gs }

/-- A reader started on everything `w` has written (followed by any `rest`) gets to the point where
it is in step with `w`, having built `gs`. -/
def Reached {G} (dec : Decode G) (g0 : G) (w : JW) (gs : G) : Prop :=
  ∀ rest, ∃ k, k + HEADER ≤ w.log.disk.length ∧ ∀ fuel,
    JR.scrollLoop dec (k + fuel) (startR (w.log.disk.drop HEADER ++ rest) g0)
      = JR.scrollLoop dec fuel (readerAt w rest gs)

theorem Reached.scroll {G} {dec : Decode G} {g0 : G} {w : JW} {gs : G} (h : Reached dec g0 w gs)
    (hh : HEADER ≤ w.log.disk.length) (rest : Bytes) :
    ∃ n, scroll dec g0 (w.log.disk ++ rest) = (JR.scrollLoop dec (n + 1 + rest.length) (readerAt w rest gs)).bind
      fun r => .ok (⟨r.tr.cursor, r.tr.ck, r.txnId, r.lastTxnOffset⟩, r.gs) := by
  obtain ⟨k, hk, hf⟩ := h rest
  refine ⟨w.log.disk.length - HEADER - k, ?_⟩
  unfold Journal.scroll
  have hd : (w.log.disk ++ rest).drop HEADER = w.log.disk.drop HEADER ++ rest :=
    List.drop_append_of_le_length hh
  simp only [hd]
  have hl : (w.log.disk.drop HEADER ++ rest).length + 1
      = k + (w.log.disk.length - HEADER - k + 1 + rest.length) := by
    simp only [List.length_append, List.length_drop]; omega
  rw [hl]
  have := hf (w.log.disk.length - HEADER - k + 1 + rest.length)
  unfold startR at this
  rw [this]

theorem create_idle {hdr : Bytes} (hh : hdr.length = HEADER) :
    ∃ w, JW.create hdr [] = (w, .ok ()) ∧ w.Idle ∧ w.log.disk = hdr ∧
      ∀ (G : Type) (dec : Decode G) (g0 : G), Reached dec g0 w g0 := by
  refine ⟨_, rfl, ⟨⟨rfl, hh.symm, by simp⟩, rfl, rfl, rfl, ?_, by simp, rfl, by simp, rfl⟩, rfl, ?_⟩
  · simp [hh]
  · intro G dec g0 rest
    refine ⟨0, by simp [hh], ?_⟩
    intro fuel
    have : hdr.drop HEADER = [] := List.drop_eq_nil_of_le (by omega)
    have hz : Crc.finish Crc.new = 0 := by decide
    simp only [Nat.zero_add, this, List.nil_append]
    simp [startR, readerAt, hz]

theorem scrollLoop_next {G} {dec : Decode G} {fuel : Nat} {r r' : JR G}
    (h : r.applyNext dec = .ok (false, r')) : JR.scrollLoop dec (1 + fuel) r = JR.scrollLoop dec fuel r' := by
  rw [Nat.add_comm]
  simp [JR.scrollLoop, h]

section
variable {G : Type} {kinds : Nat} {apply : G → Ev → Res SErr G}

theorem Reached.commit {g0 gs gs' : G} {w w' : JW} {e : Ev} (hkinds : kinds ≤ 256)
    (hr : Reached (eventLogDecode kinds apply) g0 w gs) (h : w.Idle) (hk : e.kind < kinds)
    (hw : w.commitEvent e = (w', .ok ())) (hsz : w'.log.disk.length < 2 ^ 63) (ha : apply gs e = .ok gs') :
    Reached (eventLogDecode kinds apply) g0 w' gs' := by
  obtain ⟨w1, e1, i1, d1, k1, t1, n1, o1⟩ := h.commitEvent e
  have : w1 = w' := by rw [hw] at e1; cases e1; rfl
  subst this
  intro rest
  obtain ⟨k, hk1, hf⟩ := hr (evBytes w.txnId e ++ rest)
  refine ⟨k + 1, ?_, ?_⟩
  · rw [d1, List.length_append, evBytes_length]; omega
  · intro fuel
    have := hf (1 + fuel)
    rw [scrollLoop_next (applyNext_event hkinds h hk hw hsz ha)] at this
    rw [← this, d1, List.drop_append_of_le_length h.hdr, List.append_assoc, Nat.add_assoc]

theorem Reached.reopen {dec : Decode G} {g0 gs : G} {w w' w'' : JW}
    (hr : Reached dec g0 w gs) (h : w.Idle) (hw : w.close = (w', .ok ()))
    (hw' : w'.commitDriver .reopened = (w'', .ok ())) (hsz : w''.log.disk.length < 2 ^ 63) :
    Reached dec g0 w'' gs := by
  obtain ⟨w1, e1, i1, d1, k1, t1, n1, o1⟩ := h.commitDriver .closed
  have : w1 = w' := by unfold JW.close at hw; rw [hw] at e1; cases e1; rfl
  subst this
  obtain ⟨w2, e2, i2, d2, k2, t2, n2, o2⟩ := i1.commitDriver .reopened
  have : w2 = w'' := by rw [hw'] at e2; cases e2; rfl
  subst this
  have hlen : w2.log.disk.length = w.log.disk.length + 128 := by
    rw [d2, d1]; simp only [List.length_append, drvBytes, encode_length]
  intro rest
  obtain ⟨k, hk1, hf⟩ := hr (drvBytes w .closed ++ (drvBytes w1 .reopened ++ rest))
  refine ⟨k + 1, by omega, ?_⟩
  intro fuel
  have := hf (1 + fuel)
  have hne : drvBytes w1 .reopened ++ rest ≠ [] := by
    intro hc
    have := congrArg List.length hc
    simp [drvBytes, encode_length] at this
  have hlen1 : w1.log.disk.length = w.log.disk.length + 64 := by
    rw [d1]; simp only [List.length_append, drvBytes, encode_length]
  have hstep := applyNext_close (dec := dec) (gs := gs) (rest := drvBytes w1 .reopened ++ rest) h hw (by omega)
  rw [if_neg hne, handleReopen_ok i1 hw' hsz] at hstep
  rw [scrollLoop_next hstep] at this
  rw [← this, d2, d1, List.append_assoc, List.drop_append_of_le_length h.hdr]
  simp only [List.append_assoc, Nat.add_assoc]

theorem Reached.scroll_closed {dec : Decode G} {g0 gs : G} {w w' : JW}
    (hr : Reached dec g0 w gs) (h : w.Idle) (hw : w.close = (w', .ok ()))
    (hsz : w'.log.disk.length < 2 ^ 63) :
    Journal.scroll dec g0 w'.log.disk = .ok
      (⟨w'.log.cursor, w'.log.ck, w'.txnId, w'.knownTxnOffset⟩, gs) := by
  obtain ⟨w1, e1, i1, d1, k1, t1, n1, o1⟩ := h.commitDriver .closed
  have : w1 = w' := by unfold JW.close at hw; rw [hw] at e1; cases e1; rfl
  subst this
  obtain ⟨n, hn⟩ := hr.scroll h.hdr (drvBytes w .closed)
  have hstep := applyNext_close (dec := dec) (gs := gs) (rest := []) h hw hsz
  rw [List.append_nil, if_pos rfl] at hstep
  rw [d1, hn]
  have : n + 1 + (drvBytes w .closed).length = (n + (drvBytes w .closed).length) + 1 := by omega
  rw [this]
  simp only [JR.scrollLoop, hstep, Res.bind, if_true]
  rfl

/-- Total number of bytes of the committed events. -/
def evsSize (evs : List Ev) : Nat := (evs.map fun e => 40 + e.payload.length).sum

theorem commitAll_idle {w : JW} (h : w.Idle) (evs : List Ev) :
    ∃ w', w.commitAll evs = (w', .ok ()) ∧ w'.Idle ∧
      w'.log.disk.length = w.log.disk.length + evsSize evs ∧ w.log.disk <+: w'.log.disk := by
  induction evs generalizing w with
  | nil => exact ⟨w, rfl, h, by simp [evsSize], List.prefix_refl _⟩
  | cons e es ih =>
    obtain ⟨w1, e1, i1, d1, -⟩ := h.commitEvent e
    obtain ⟨w2, e2, i2, d2, p2⟩ := ih i1
    refine ⟨w2, by simp [JW.commitAll, e1, e2], i2, ?_, ?_⟩
    · rw [d2, d1, List.length_append, evBytes_length]; simp [evsSize]; omega
    · exact List.IsPrefix.trans ⟨_, d1.symm⟩ p2

theorem commitAll_reached {g0 gs gs' : G} {w : JW} {evs : List Ev} (hkinds : kinds ≤ 256)
    (hr : Reached (eventLogDecode kinds apply) g0 w gs) (h : w.Idle) (hk : ∀ e ∈ evs, e.kind < kinds)
    (hsz : w.log.disk.length + evsSize evs < 2 ^ 63) (ha : replay apply gs evs = .ok gs') :
    ∃ w', w.commitAll evs = (w', .ok ()) ∧ w'.Idle ∧
      w'.log.disk.length = w.log.disk.length + evsSize evs ∧ w.log.disk <+: w'.log.disk ∧
      Reached (eventLogDecode kinds apply) g0 w' gs' := by
  induction evs generalizing w gs with
  | nil =>
    simp only [replay, Res.ok.injEq] at ha; subst ha
    exact ⟨w, rfl, h, by simp [evsSize], List.prefix_refl _, hr⟩
  | cons e es ih =>
    obtain ⟨g1, ha1, ha2⟩ := Res.bind_eq_ok ha
    obtain ⟨w1, e1, i1, d1, -⟩ := h.commitEvent e
    have hl : w1.log.disk.length = w.log.disk.length + (40 + e.payload.length) := by
      rw [d1, List.length_append, evBytes_length]
    have hes : evsSize (e :: es) = (40 + e.payload.length) + evsSize es := by simp [evsSize]
    have r1 := hr.commit hkinds h (hk e (by simp)) e1 (by omega) ha1
    obtain ⟨w2, e2, i2, d2, p2, r2⟩ := ih r1 i1 (fun e he => hk e (by simp [he])) (by omega) ha2
    refine ⟨w2, by simp [JW.commitAll, e1, e2], i2, by omega, ?_, r2⟩
    exact List.IsPrefix.trans ⟨_, d1.symm⟩ p2

/-- The state after clean sessions: the file was left by closing an idle writer that the reader can
reach. -/
structure Closed (kinds : Nat) (apply : G → Ev → Res SErr G) (g0 : G) (file : Bytes) (gs : G) : Prop where
  ex : ∃ w w', w.Idle ∧ Reached (eventLogDecode kinds apply) g0 w gs ∧ w.close = (w', .ok ()) ∧
    w'.log.disk = file

theorem Closed.session {g0 gs gs' : G} {w : JW} {evs : List Ev} (hkinds : kinds ≤ 256)
    (hr : Reached (eventLogDecode kinds apply) g0 w gs) (h : w.Idle) (hk : ∀ e ∈ evs, e.kind < kinds)
    (hsz : w.log.disk.length + evsSize evs < 2 ^ 63) (ha : replay apply gs evs = .ok gs') :
    ∃ file, w.session evs = some file ∧ file.length = w.log.disk.length + evsSize evs + 64 ∧
      w.log.disk <+: file ∧ Closed kinds apply g0 file gs' := by
  obtain ⟨w1, e1, i1, d1, p1, r1⟩ := commitAll_reached hkinds hr h hk hsz ha
  obtain ⟨w2, e2, i2, d2, -⟩ := i1.commitDriver .closed
  refine ⟨w2.log.disk, ?_, ?_, ?_, ⟨w1, w2, i1, r1, e2, rfl⟩⟩
  · simp [JW.session, e1, JW.close, e2, fileOf]
  · rw [d2, List.length_append, drvBytes, encode_length]; omega
  · exact p1.trans ⟨_, d2.symm⟩

theorem Closed.open {g0 gs : G} {file : Bytes} (h : Closed kinds apply g0 file gs)
    (hsz : file.length + 64 < 2 ^ 63) :
    ∃ w, openJournal (eventLogDecode kinds apply) g0 file [] = .ok (w, gs) ∧ w.Idle ∧
      w.log.disk.length = file.length + 64 ∧ file <+: w.log.disk ∧
      Reached (eventLogDecode kinds apply) g0 w gs := by
  obtain ⟨w, w', i, r, hw, rfl⟩ := h.ex
  obtain ⟨w1, e1, i1, d1, k1, t1, n1, o1⟩ := i.commitDriver .closed
  have : w1 = w' := by unfold JW.close at hw; rw [hw] at e1; cases e1; rfl
  subst this
  have hs := r.scroll_closed i hw (by omega)
  obtain ⟨w2, e2, i2, d2, -⟩ := i1.commitDriver .reopened
  have hl2 : w2.log.disk.length = w1.log.disk.length + 64 := by
    rw [d2, List.length_append, drvBytes, encode_length]
  have h0 : w1.knownTxnOffset ≠ 0 := by
    rw [o1, i1.good.cur]; have := i1.hdr; simp only [HEADER] at this; omega
  refine ⟨w2, ?_, i2, hl2, ⟨_, d2.symm⟩, r.reopen i hw e2 (by omega)⟩
  unfold openJournal
  rw [hs]
  simp only [Res.bind]
  rw [JW.new_of_reader i1 h0, e2]

theorem sizeBound_cons (s : List Ev) (ss : List (List Ev)) :
    sizeBound (s :: ss) = 128 + evsSize s + sizeBound ss := by
  simp [sizeBound, evsSize]; omega

theorem Closed.nextSessions {g0 gs gs' : G} {file : Bytes} {ss : List (List Ev)} (hkinds : kinds ≤ 256)
    (h : Closed kinds apply g0 file gs) (hk : ∀ s ∈ ss, ∀ e ∈ s, e.kind < kinds)
    (hsz : file.length + sizeBound ss < 2 ^ 63) (ha : replay apply gs ss.flatten = .ok gs') :
    ∃ file', nextSessions (eventLogDecode kinds apply) g0 file ss = some file' ∧
      file'.length + 64 ≤ file.length + sizeBound ss ∧ file <+: file' ∧ Closed kinds apply g0 file' gs' := by
  induction ss generalizing file gs with
  | nil =>
    simp only [replay, List.flatten_nil, Res.ok.injEq] at ha; subst ha
    exact ⟨file, rfl, by simp [sizeBound], List.prefix_refl _, h⟩
  | cons s ss ih =>
    rw [sizeBound_cons] at hsz ⊢
    have hsb : 64 ≤ sizeBound ss := by simp [sizeBound]
    obtain ⟨w, ho, i, hl, p, r⟩ := h.open (by omega)
    have hsplit : ∃ g1, replay apply gs s = .ok g1 ∧ replay apply g1 ss.flatten = .ok gs' := by
      clear ih h ho r hsz hk
      rw [List.flatten_cons] at ha
      induction s generalizing gs with
      | nil => exact ⟨gs, rfl, ha⟩
      | cons e s ih2 =>
        obtain ⟨g1, h1, h2⟩ := Res.bind_eq_ok ha
        obtain ⟨g2, h3, h4⟩ := ih2 h2
        exact ⟨g2, by simp [replay, h1, h3], h4⟩
    obtain ⟨g1, ha1, ha2⟩ := hsplit
    obtain ⟨f1, es, fl, fp, fc⟩ := Closed.session hkinds r i (hk s (by simp)) (by omega) ha1
    obtain ⟨f2, e2, l2, p2, c2⟩ := ih fc (fun s hs => hk s (by simp [hs])) (by omega) ha2
    refine ⟨f2, ?_, by omega, p.trans (fp.trans p2), c2⟩
    simp [Journal.nextSessions, nextSession, ho, es, e2]

theorem replay_append {a b : List Ev} {g g' : G} (ha : replay apply g (a ++ b) = .ok g') :
    ∃ g1, replay apply g a = .ok g1 ∧ replay apply g1 b = .ok g' := by
  induction a generalizing g with
  | nil => exact ⟨g, rfl, ha⟩
  | cons e s ih2 =>
    obtain ⟨g1, h1, h2⟩ := Res.bind_eq_ok ha
    obtain ⟨g2, h3, h4⟩ := ih2 h2
    exact ⟨g2, by simp [replay, h1, h3], h4⟩

theorem lifetime_closed {g0 gs : G} {hdr : Bytes} {first : List Ev} {rest : List (List Ev)}
    (hkinds : kinds ≤ 256) (hh : hdr.length = HEADER)
    (hk : ∀ s ∈ first :: rest, ∀ e ∈ s, e.kind < kinds) (hsz : sizeBound (first :: rest) < 2 ^ 63)
    (ha : replay apply g0 (first :: rest).flatten = .ok gs) :
    ∃ file, lifetime (eventLogDecode kinds apply) g0 hdr first rest = some file ∧
      file.length ≤ sizeBound (first :: rest) ∧ hdr <+: file ∧ Closed kinds apply g0 file gs := by
  rw [sizeBound_cons] at hsz ⊢
  obtain ⟨w, hw, i, hd, r⟩ := create_idle hh
  have hsb : 64 ≤ sizeBound rest := by simp [sizeBound]
  obtain ⟨g1, ha1, ha2⟩ := replay_append ha
  have hdl : w.log.disk.length = 64 := by rw [hd, hh]; rfl
  obtain ⟨f1, es, fl, fp, fc⟩ := Closed.session hkinds (r G (eventLogDecode kinds apply) g0) i
    (hk first (by simp)) (by omega) ha1
  obtain ⟨f2, e2, l2, p2, c2⟩ := fc.nextSessions hkinds (fun s hs => hk s (by simp [hs])) (by omega) ha2
  refine ⟨f2, ?_, by omega, (hd ▸ fp).trans p2, c2⟩
  simp [lifetime, firstSession, hw, es, e2]

/-- After any clean sessions and an unfinished one, the writer is idle and reachable. -/
theorem running_reached {g0 gs : G} {hdr : Bytes} {older : List (List Ev)} {last : List Ev}
    (hkinds : kinds ≤ 256) (hh : hdr.length = HEADER)
    (hk : ∀ s ∈ older ++ [last], ∀ e ∈ s, e.kind < kinds) (hsz : sizeBound (older ++ [last]) < 2 ^ 63)
    (ha : replay apply g0 (older ++ [last]).flatten = .ok gs) :
    ∃ w : JW, running (eventLogDecode kinds apply) g0 hdr older last = some w ∧
      w.log.disk.length + 64 ≤ sizeBound (older ++ [last]) ∧ w.Idle ∧
      Reached (eventLogDecode kinds apply) g0 w gs := by
  have hb : sizeBound (older ++ [last]) = sizeBound older + 128 + evsSize last := by
    simp [sizeBound, evsSize]; omega
  rw [List.flatten_append] at ha
  obtain ⟨g1, ha1, ha2⟩ := replay_append ha
  simp only [List.flatten_cons, List.flatten_nil, List.append_nil] at ha2
  cases older with
  | nil =>
    simp only [List.flatten_nil, replay, Res.ok.injEq] at ha1; subst ha1
    obtain ⟨w, hw, i, hd, r⟩ := create_idle hh
    have hdl : w.log.disk.length = 64 := by rw [hd, hh]; rfl
    obtain ⟨w1, e1, i1, l1, -, r1⟩ := commitAll_reached hkinds (r G (eventLogDecode kinds apply) g0) i
      (hk last (by simp)) (by omega) ha2
    exact ⟨w1, by simp [running, hw, e1, writerOf], by omega, i1, r1⟩
  | cons first rest =>
    obtain ⟨f, ef, lf, -, cf⟩ := lifetime_closed hkinds hh
      (fun s hs => hk s (by simp only [List.mem_append]; exact Or.inl hs)) (by omega) ha1
    obtain ⟨w, ho, i, hl, -, r⟩ := cf.open (by omega)
    obtain ⟨w1, e1, i1, l1, -, r1⟩ := commitAll_reached hkinds r i (hk last (by simp)) (by omega) ha2
    exact ⟨w1, by simp [running, ef, ho, e1, writerOf], by omega, i1, r1⟩

/-! ### Truncated input -/

theorem TR.read_short {q : Bytes} {n c : Nat} {k : BitVec 64} (h : q.length < n) :
    TR.read ⟨q, c, k⟩ n = .err .io := by
  unfold TR.read
  exact if_neg (by simp only; omega)

theorem TR.read_take {a b : Bytes} {n m c : Nat} {k : BitVec 64} (h : a.length = n) :
    TR.read ⟨(a ++ b).take m, c, k⟩ n =
      if m < n then .err .io else .ok (a, ⟨b.take (m - n), c + n, Crc.update k a⟩) := by
  subst h
  by_cases hm : m < a.length
  · rw [if_pos hm, TR.read_short]
    simp only [List.length_take, List.length_append]; omega
  · have e : (a ++ b).take m = a ++ b.take (m - a.length) := by
      rw [List.take_append, List.take_of_length_le (by omega)]
    rw [e, TR.read_append rfl, if_neg hm]

/-- An event that is cut off is reported as an I/O error. -/
theorem applyNext_event_cut {w : JW} {e : Ev} {gs : G} {m : Nat} (hkinds : kinds ≤ 256) (h : w.Idle)
    (hk : e.kind < kinds) (hsz : w.log.disk.length + (evBytes w.txnId e).length < 2 ^ 63)
    (hm : m < (evBytes w.txnId e).length) :
    (readerAt w ((evBytes w.txnId e).take m) gs).applyNext (eventLogDecode kinds apply) = .err .io := by
  rw [evBytes_length] at hm hsz
  have hid : w.txnId < 2 ^ 63 := by have := h.id; omega
  have hor := mask_or (show e.kind < 256 by omega)
  have hM : MASK = 2 ^ 63 := rfl
  unfold JR.applyNext readerAt evBytes eventLogWrites
  simp only [List.flatten_cons, List.flatten_nil, List.append_nil]
  rw [TR.read_take (le_length 16 _)]
  by_cases h1 : m < 16
  · simp [h1]
  simp only [h1, if_false, Res.bind]
  rw [TR.read_take (le_length 8 _)]
  by_cases h2 : m - 16 < 8
  · simp [h2]
  simp only [h2, if_false, Res.bind]
  rw [unle_le16 (by omega), hor, unle_le8 (by omega)]
  simp only [ne_eq, not_true, if_false, Nat.le_add_right, if_true, Nat.add_sub_cancel_left]
  unfold eventLogDecode
  simp only [Nat.mod_eq_of_lt (show e.kind < 256 by omega), Nat.not_le.mpr hk, if_false]
  rw [TR.read_take (le_length 8 _)]
  by_cases h3 : m - 16 - 8 < 8
  · simp [h3]
  simp only [h3, if_false, Res.bind]
  rw [TR.read_take (le_length 8 _)]
  by_cases h4 : m - 16 - 8 - 8 < 8
  · simp [h4]
  simp only [h4, if_false, Res.bind]
  rw [unle_le8 (by omega), if_neg (by omega)]
  have : ∀ c k, TR.read ⟨e.payload.take (m - 16 - 8 - 8 - 8), c, k⟩ e.payload.length = .err .io := by
    intro c k
    apply TR.read_short
    simp only [List.length_take]; omega
  rw [this]

theorem applyNext_nil {dec : Decode G} {w : JW} {gs : G} :
    (readerAt w [] gs).applyNext dec = .err .io := by
  unfold JR.applyNext readerAt
  simp only
  rw [TR.read_short (by simp)]
  rfl

/-- A close event that is cut off is reported as an I/O error. -/
theorem applyNext_close_cut {dec : Decode G} {w : JW} {gs : G} {m : Nat} (h : w.Idle)
    (hsz : w.log.disk.length + 64 < 2 ^ 63) (hm : m < 64) :
    (readerAt w ((drvBytes w .closed).take m) gs).applyNext dec = .err .io := by
  have hid : w.txnId < 2 ^ 63 := by have := h.id; omega
  have hsplit : drvBytes w .closed = le 16 w.txnId ++ (le 8 1 ++ (drvBytes w .closed).drop 24) := by
    simp only [drvBytes, DriverEvent.encode, DKind.dscr, List.append_assoc]
    congr 2
  have htl : ((drvBytes w .closed).drop 24).length = 40 := by simp [drvBytes, encode_length]
  generalize (drvBytes w .closed).drop 24 = tail at *
  unfold JR.applyNext readerAt
  rw [hsplit, TR.read_take (le_length 16 _)]
  by_cases h1 : m < 16
  · simp [h1]
  simp only [h1, if_false, Res.bind]
  rw [TR.read_take (le_length 8 _)]
  by_cases h2 : m - 16 < 8
  · simp [h2]
  simp only [h2, if_false, Res.bind]
  rw [unle_le16 (by omega), unle_le8 (by omega : 1 < 2 ^ 64)]
  have hm' : ¬ MASK ≤ 1 := by unfold MASK; omega
  simp only [ne_eq, not_true, if_false, hm']
  unfold JR.handleClose
  rw [TR.read_short (by simp only [List.length_take, FULL_EVENT_SIZE]; omega)]
  rfl

theorem handleReopen_cut {w : JW} {gs : G} {q : Bytes} (hq : q.length < 64) :
    (readerAt w q gs).handleReopen = .err .io := by
  unfold JR.handleReopen readerAt
  simp only
  rw [TR.read_short (by simp only [FULL_EVENT_SIZE]; omega)]
  rfl

theorem Reached.scroll_err {dec : Decode G} {g0 gs : G} {w : JW} {rest : Bytes} {e : SErr}
    (hr : Reached dec g0 w gs) (hh : HEADER ≤ w.log.disk.length)
    (h : (readerAt w rest gs).applyNext dec = .err e) : Journal.scroll dec g0 (w.log.disk ++ rest) = .err e := by
  obtain ⟨n, hn⟩ := hr.scroll hh rest
  rw [hn]
  have : n + 1 + rest.length = (n + rest.length) + 1 := by omega
  rw [this]
  simp only [JR.scrollLoop, h, Res.bind]

/-- Every proper truncation of what `w` has written that is accepted is one of the files `S`. -/
def TruncOk (dec : Decode G) (g0 : G) (S : Bytes → Prop) (file : Bytes) : Prop :=
  ∀ p, p <+: file → HEADER ≤ p.length → (Journal.scroll dec g0 p).isOk → S p

theorem prefix_append_cases {p a b : Bytes} (h : p <+: a ++ b) :
    p <+: a ∨ ∃ m, m ≤ b.length ∧ p = a ++ b.take m := by
  by_cases hl : p.length ≤ a.length
  · exact Or.inl (List.prefix_of_prefix_length_le h (List.prefix_append a b) hl)
  · right
    refine ⟨p.length - a.length, ?_, ?_⟩
    · have := h.length_le; simp only [List.length_append] at this; omega
    · rw [List.prefix_iff_eq_take] at h
      conv => lhs; rw [h]
      rw [List.take_append, List.take_of_length_le (by omega)]

theorem TruncOk.commit {g0 gs gs' : G} {S : Bytes → Prop} {w w' : JW} {e : Ev} (hkinds : kinds ≤ 256)
    (ht : TruncOk (eventLogDecode kinds apply) g0 S w.log.disk)
    (hr : Reached (eventLogDecode kinds apply) g0 w gs) (h : w.Idle) (hk : e.kind < kinds)
    (hw : w.commitEvent e = (w', .ok ())) (hsz : w'.log.disk.length < 2 ^ 63) (ha : apply gs e = .ok gs') :
    TruncOk (eventLogDecode kinds apply) g0 S w'.log.disk := by
  have hr' := hr.commit hkinds h hk hw hsz ha
  obtain ⟨w1, e1, i1, d1, k1, t1, n1, o1⟩ := h.commitEvent e
  have : w1 = w' := by rw [hw] at e1; cases e1; rfl
  subst this
  intro p hp hl hok
  have hp' := hp
  rw [d1] at hp'
  rcases prefix_append_cases hp' with hq | ⟨m, hm, hq⟩
  · exact ht p hq hl hok
  · exfalso
    by_cases hfull : m = (evBytes w.txnId e).length
    · have : p = w1.log.disk ++ [] := by rw [hq, hfull, List.take_length, d1, List.append_nil]
      rw [this, hr'.scroll_err i1.hdr applyNext_nil] at hok
      cases hok
    · rw [hq, hr.scroll_err h.hdr (applyNext_event_cut hkinds h hk
        (by rw [← List.length_append, ← d1]; exact hsz) (by omega))] at hok
      cases hok

theorem TruncOk.reopen {dec : Decode G} {g0 gs : G} {S : Bytes → Prop} {w w' w'' : JW}
    (ht : TruncOk dec g0 S w'.log.disk) (hr : Reached dec g0 w gs) (h : w.Idle)
    (hw : w.close = (w', .ok ())) (hw' : w'.commitDriver .reopened = (w'', .ok ()))
    (hsz : w''.log.disk.length < 2 ^ 63) : TruncOk dec g0 S w''.log.disk := by
  have hr' := hr.reopen h hw hw' hsz
  obtain ⟨w1, e1, i1, d1, k1, t1, n1, o1⟩ := h.commitDriver .closed
  have : w1 = w' := by unfold JW.close at hw; rw [hw] at e1; cases e1; rfl
  subst this
  obtain ⟨w2, e2, i2, d2, k2, t2, n2, o2⟩ := i1.commitDriver .reopened
  have : w2 = w'' := by rw [hw'] at e2; cases e2; rfl
  subst this
  have hlen : w2.log.disk.length = w1.log.disk.length + 64 := by
    rw [d2]; simp only [List.length_append, drvBytes, encode_length]
  intro p hp hl hok
  have hp' := hp
  rw [d2] at hp'
  rcases prefix_append_cases hp' with hq | ⟨m, hm, hq⟩
  · exact ht p hq hl hok
  · have hbl : (drvBytes w1 .reopened).length = 64 := by simp [drvBytes, encode_length]
    by_cases hfull : m = 64
    · exfalso
      have : p = w2.log.disk ++ [] := by rw [hq, hfull, ← hbl, List.take_length, d2, List.append_nil]
      rw [this, hr'.scroll_err i2.hdr applyNext_nil] at hok
      cases hok
    · by_cases h0 : m = 0
      · apply ht p _ hl hok
        rw [hq, h0, List.take_zero, List.append_nil]
        exact List.prefix_refl _
      · exfalso
        have hne : (drvBytes w1 .reopened).take m ≠ [] := by
          intro hc
          have := congrArg List.length hc
          simp only [List.length_take, List.length_nil] at this
          omega
        have hstep := applyNext_close (dec := dec) (gs := gs) (rest := (drvBytes w1 .reopened).take m) h hw
          (by omega)
        rw [if_neg hne, handleReopen_cut (by simp only [List.length_take]; omega)] at hstep
        rw [hq, d1, List.append_assoc, hr.scroll_err h.hdr hstep] at hok
        cases hok

theorem TruncOk.close {dec : Decode G} {g0 gs : G} {S : Bytes → Prop} {w w' : JW}
    (ht : TruncOk dec g0 S w.log.disk) (hr : Reached dec g0 w gs) (h : w.Idle)
    (hw : w.close = (w', .ok ())) (hsz : w'.log.disk.length < 2 ^ 63) :
    TruncOk dec g0 (fun p => S p ∨ p = w'.log.disk) w'.log.disk := by
  obtain ⟨w1, e1, i1, d1, k1, t1, n1, o1⟩ := h.commitDriver .closed
  have : w1 = w' := by unfold JW.close at hw; rw [hw] at e1; cases e1; rfl
  subst this
  have hbl : (drvBytes w .closed).length = 64 := by simp [drvBytes, encode_length]
  have hlen : w1.log.disk.length = w.log.disk.length + 64 := by
    rw [d1]; simp only [List.length_append, hbl]
  intro p hp hl hok
  have hp' := hp
  rw [d1] at hp'
  rcases prefix_append_cases hp' with hq | ⟨m, hm, hq⟩
  · exact Or.inl (ht p hq hl hok)
  · by_cases hfull : m = 64
    · right
      rw [hq, hfull, ← hbl, List.take_length, d1]
    · exfalso
      rw [hq, hr.scroll_err h.hdr (applyNext_close_cut h (by omega) (by omega))] at hok
      cases hok

theorem TruncOk.commitAll {g0 gs gs' : G} {S : Bytes → Prop} {w w' : JW} {evs : List Ev} (hkinds : kinds ≤ 256)
    (ht : TruncOk (eventLogDecode kinds apply) g0 S w.log.disk)
    (hr : Reached (eventLogDecode kinds apply) g0 w gs) (h : w.Idle) (hk : ∀ e ∈ evs, e.kind < kinds)
    (hw : w.commitAll evs = (w', .ok ()))
    (hsz : w.log.disk.length + evsSize evs < 2 ^ 63) (ha : replay apply gs evs = .ok gs') :
    TruncOk (eventLogDecode kinds apply) g0 S w'.log.disk := by
  induction evs generalizing w gs with
  | nil => simp only [JW.commitAll, Prod.mk.injEq, and_true] at hw; subst hw; exact ht
  | cons e es ih =>
    obtain ⟨g1, ha1, ha2⟩ := Res.bind_eq_ok ha
    obtain ⟨w1, e1, i1, d1, -⟩ := h.commitEvent e
    have hl : w1.log.disk.length = w.log.disk.length + (40 + e.payload.length) := by
      rw [d1, List.length_append, evBytes_length]
    have hes : evsSize (e :: es) = (40 + e.payload.length) + evsSize es := by simp [evsSize]
    have r1 := hr.commit hkinds h (hk e (by simp)) e1 (by omega) ha1
    have t1 := ht.commit hkinds hr h (hk e (by simp)) e1 (by omega) ha1
    simp only [JW.commitAll, e1] at hw
    exact ih t1 r1 i1 (fun e he => hk e (by simp [he])) hw (by omega) ha2

theorem TruncOk.session {g0 gs gs' : G} {S : Bytes → Prop} {w : JW} {evs : List Ev} {file : Bytes}
    (hkinds : kinds ≤ 256) (ht : TruncOk (eventLogDecode kinds apply) g0 S w.log.disk)
    (hr : Reached (eventLogDecode kinds apply) g0 w gs) (h : w.Idle) (hk : ∀ e ∈ evs, e.kind < kinds)
    (hw : w.session evs = some file)
    (hsz : w.log.disk.length + evsSize evs + 64 < 2 ^ 63) (ha : replay apply gs evs = .ok gs') :
    TruncOk (eventLogDecode kinds apply) g0 (fun p => S p ∨ p = file) file := by
  obtain ⟨w1, e1, i1, d1, p1, r1⟩ := commitAll_reached hkinds hr h hk (by omega) ha
  have t1 := ht.commitAll hkinds hr h hk e1 (by omega) ha
  obtain ⟨w2, e2, i2, d2, -⟩ := i1.commitDriver .closed
  have hf : w.session evs = some w2.log.disk := by simp [JW.session, e1, JW.close, e2, fileOf]
  rw [hf] at hw; cases hw
  exact t1.close r1 i1 e2 (by rw [d2, List.length_append, drvBytes, encode_length]; omega)

theorem TruncOk.nextSessions {g0 gs gs' : G} {S : Bytes → Prop} {file file' : Bytes} {ss : List (List Ev)}
    (hkinds : kinds ≤ 256) (ht : TruncOk (eventLogDecode kinds apply) g0 S file)
    (h : Closed kinds apply g0 file gs) (hk : ∀ s ∈ ss, ∀ e ∈ s, e.kind < kinds)
    (hsz : file.length + sizeBound ss < 2 ^ 63) (ha : replay apply gs ss.flatten = .ok gs')
    (hn : nextSessions (eventLogDecode kinds apply) g0 file ss = some file') :
    TruncOk (eventLogDecode kinds apply) g0
      (fun p => S p ∨ ∃ n, nextSessions (eventLogDecode kinds apply) g0 file (ss.take n) = some p) file' := by
  induction ss generalizing file gs S with
  | nil =>
    simp only [Journal.nextSessions, Option.some.injEq] at hn; subst hn
    intro p a b c
    exact Or.inl (ht p a b c)
  | cons s ss ih =>
    rw [sizeBound_cons] at hsz
    have hsb : 64 ≤ sizeBound ss := by simp [sizeBound]
    obtain ⟨w, ho, i, hl, p, r⟩ := h.open (by omega)
    rw [List.flatten_cons] at ha
    obtain ⟨g1, ha1, ha2⟩ := replay_append ha
    obtain ⟨f1, es, fl, fp, fc⟩ := Closed.session hkinds r i (hk s (by simp)) (by omega) ha1
    have hns : nextSession (eventLogDecode kinds apply) g0 file s = some f1 := by
      simp [nextSession, ho, es]
    have hn2 : Journal.nextSessions (eventLogDecode kinds apply) g0 f1 ss = some file' := by
      simpa [Journal.nextSessions, hns] using hn
    have tw : TruncOk (eventLogDecode kinds apply) g0 S w.log.disk := by
      obtain ⟨v, v', vi, vr, hv, hvf⟩ := h.ex
      obtain ⟨v1, ve1, vi1, vd1, vk1, vt1, vn1, vo1⟩ := vi.commitDriver .closed
      have : v1 = v' := by unfold JW.close at hv; rw [hv] at ve1; cases ve1; rfl
      subst this
      obtain ⟨v2, ve2, vi2, vd2, -⟩ := vi1.commitDriver .reopened
      have h0 : v1.knownTxnOffset ≠ 0 := by
        rw [vo1, vi1.good.cur]; have := vi1.hdr; simp only [HEADER] at this; omega
      have hvl : v2.log.disk.length = v1.log.disk.length + 64 := by
        rw [vd2, List.length_append, drvBytes, encode_length]
      rw [← hvf] at hl ho hsz ht
      have hs := vr.scroll_closed vi hv (by omega)
      unfold openJournal at ho
      rw [hs] at ho
      simp only [Res.bind] at ho
      rw [JW.new_of_reader vi1 h0, ve2] at ho
      simp only [Res.ok.injEq, Prod.mk.injEq, and_true] at ho
      subst ho
      exact ht.reopen vr vi hv ve2 (by omega)
    have t1 := tw.session hkinds r i (hk s (by simp)) es (by omega) ha1
    have t2 := ih t1 fc (fun s hs => hk s (by simp [hs])) (by omega) ha2 hn2
    intro p a b c
    rcases t2 p a b c with (hS | hf) | ⟨n, hn'⟩
    · exact Or.inl hS
    · refine Or.inr ⟨1, ?_⟩
      simp [Journal.nextSessions, hns, hf]
    · refine Or.inr ⟨n + 1, ?_⟩
      simpa [Journal.nextSessions, hns] using hn'

theorem TruncOk.lifetime {g0 gs : G} {hdr : Bytes} {first : List Ev} {rest : List (List Ev)} {file : Bytes}
    (hkinds : kinds ≤ 256) (hh : hdr.length = HEADER)
    (hk : ∀ s ∈ first :: rest, ∀ e ∈ s, e.kind < kinds) (hsz : sizeBound (first :: rest) < 2 ^ 63)
    (ha : replay apply g0 (first :: rest).flatten = .ok gs)
    (hf : lifetime (eventLogDecode kinds apply) g0 hdr first rest = some file) :
    TruncOk (eventLogDecode kinds apply) g0
      (fun p => ∃ n, Journal.lifetime (eventLogDecode kinds apply) g0 hdr first (rest.take n) = some p) file := by
  rw [sizeBound_cons] at hsz
  obtain ⟨w, hw, i, hd, r⟩ := create_idle hh
  have hsb : 64 ≤ sizeBound rest := by simp [sizeBound]
  obtain ⟨g1, ha1, ha2⟩ := replay_append ha
  have hdl : w.log.disk.length = 64 := by rw [hd, hh]; rfl
  have r0 := r G (eventLogDecode kinds apply) g0
  obtain ⟨f1, es, fl, fp, fc⟩ := Closed.session hkinds r0 i (hk first (by simp)) (by omega) ha1
  have t0 : TruncOk (eventLogDecode kinds apply) g0 (fun _ => False) w.log.disk := by
    intro p hp hl hok
    have : p = w.log.disk ++ [] := by
      rw [List.append_nil]
      exact hp.eq_of_length (by have := hp.length_le; simp only [HEADER] at hl; omega)
    rw [this, r0.scroll_err i.hdr applyNext_nil] at hok
    cases hok
  have t1 := t0.session hkinds r0 i (hk first (by simp)) es (by omega) ha1
  have hfs : firstSession hdr first = some f1 := by simp [firstSession, hw, es]
  have hn : Journal.nextSessions (eventLogDecode kinds apply) g0 f1 rest = some file := by
    simpa [Journal.lifetime, hfs] using hf
  have t2 := t1.nextSessions hkinds fc (fun s hs => hk s (by simp [hs])) (by omega) ha2 hn
  intro p a b c
  rcases t2 p a b c with (hF | hp) | ⟨n, hn'⟩
  · exact hF.elim
  · exact ⟨0, by simp [Journal.lifetime, hfs, Journal.nextSessions, hp]⟩
  · exact ⟨n, by simp [Journal.lifetime, hfs, hn']⟩

end
end Verif.Journal

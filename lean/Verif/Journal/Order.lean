import Verif.Journal.Theorems
/-!
C43: records of the journal that are missing or repeated.
-/
namespace Verif.Journal

variable {G : Type} {kinds : Nat} {apply : G → Ev → Res SErr G}

theorem commitAll_txnId {w w' : JW} (h : w.Idle) {evs : List Ev} (hw : w.commitAll evs = (w', .ok ())) :
    w'.txnId = w.txnId + evs.length := by
  induction evs generalizing w with
  | nil => cases hw; rfl
  | cons e es ih =>
    obtain ⟨w1, e1, i1, -, -, t1, -⟩ := h.commitEvent e
    simp only [JW.commitAll, e1] at hw
    rw [ih i1 hw, t1, List.length_cons]; omega

/-- **C43, missing records.** A server commits the events `es` (at least one) and then `e`. If the
records of `es` disappear from the file, so that the record of `e` follows what was there before
them, then the next start reports corruption, whatever follows in the file. -/
theorem C43_missing_records_detected {g0 g : G} {hdr : Bytes} {older : List (List Ev)}
    {last es : List Ev} {e : Ev} {w w1 w2 : JW} {record rest : Bytes}
    (hkinds : kinds ≤ 256) (hh : hdr.length = 64)
    (hk : ∀ s ∈ older ++ [last], ∀ e ∈ s, e.kind < kinds)
    (hsz : sizeBound (older ++ [last]) + sizeBound [es] < 2 ^ 63)
    (ha : replay apply g0 (older ++ [last]).flatten = .ok g)
    (hw : running (eventLogDecode kinds apply) g0 hdr older last = some w)
    (hes : es ≠ []) (hw1 : w.commitAll es = (w1, .ok ())) (hw2 : w1.commitEvent e = (w2, .ok ()))
    (hrec : w2.log.disk = w1.log.disk ++ record) :
    scroll (eventLogDecode kinds apply) g0 (w.log.disk ++ (record ++ rest)) = .err .metaCorrupted := by
  obtain ⟨w0, hw0, hl0, hi, hr⟩ := running_reached hkinds hh hk (by omega) ha
  rw [hw] at hw0; cases hw0
  obtain ⟨w1', e1, i1, l1, -⟩ := commitAll_idle hi es
  rw [hw1] at e1; cases e1
  obtain ⟨w2', e2, i2, d2, -⟩ := i1.commitEvent e
  rw [hw2] at e2; cases e2
  rw [d2] at hrec
  have hb := List.append_cancel_left hrec
  have hid := commitAll_txnId hi hw1
  have hpos := List.length_pos_iff.2 hes
  have hsb : sizeBound [es] = 64 + (128 + evsSize es) := by simp [sizeBound, evsSize]
  have := i1.id
  rw [← hb]
  unfold evBytes
  simp only [List.append_assoc]
  exact hr.scroll_err hi.hdr (applyNext_wrong_id (by omega) (by omega) (by simp))

/-- **C43, repeated records.** If the record of the last committed event is in the file twice, the
next start reports corruption, whatever follows. -/
theorem C43_repeated_record_detected {g0 g : G} {hdr : Bytes} {older : List (List Ev)}
    {last : List Ev} {e : Ev} {w w1 : JW} {record rest : Bytes}
    (hkinds : kinds ≤ 256) (hh : hdr.length = 64)
    (hk : ∀ s ∈ older ++ [last ++ [e]], ∀ e ∈ s, e.kind < kinds)
    (hsz : sizeBound (older ++ [last ++ [e]]) < 2 ^ 63)
    (ha : replay apply g0 (older ++ [last ++ [e]]).flatten = .ok g)
    (hw : running (eventLogDecode kinds apply) g0 hdr older last = some w)
    (hw1 : w.commitEvent e = (w1, .ok ())) (hrec : w1.log.disk = w.log.disk ++ record) :
    scroll (eventLogDecode kinds apply) g0 (w.log.disk ++ (record ++ (record ++ rest))) = .err .metaCorrupted := by
  have hsb : sizeBound (older ++ [last ++ [e]]) = sizeBound (older ++ [last]) + (40 + e.payload.length) := by
    simp [sizeBound]; omega
  have hflat : (older ++ [last ++ [e]]).flatten = (older ++ [last]).flatten ++ [e] := by simp
  rw [hflat] at ha
  obtain ⟨g1, ha1, ha2⟩ := replay_append ha
  have hk' : ∀ s ∈ older ++ [last], ∀ e ∈ s, e.kind < kinds := by
    intro s hs x hx
    rcases List.mem_append.1 hs with hs | hs
    · exact hk s (by simp [hs]) x hx
    · simp only [List.mem_singleton] at hs; subst hs
      exact hk (s ++ [e]) (by simp) x (by simp [hx])
  obtain ⟨w0, hw0, hl0, hi, hr⟩ := running_reached hkinds hh hk' (by omega) ha1
  rw [hw] at hw0; cases hw0
  obtain ⟨w1', e1, i1, d1, -, t1, -⟩ := hi.commitEvent e
  rw [hw1] at e1; cases e1
  have hrec' := hrec
  rw [d1] at hrec
  have hb := List.append_cancel_left hrec
  have hl1 : w1.log.disk.length = w.log.disk.length + (40 + e.payload.length) := by
    rw [d1, List.length_append, evBytes_length]
  obtain ⟨g2, ha3, -⟩ := Res.bind_eq_ok ha2
  have r1 := hr.commit hkinds hi (hk (last ++ [e]) (by simp) e (by simp)) hw1 (by omega) ha3
  rw [← List.append_assoc, ← hrec', ← hb]
  unfold evBytes
  simp only [List.append_assoc]
  have := hi.id
  exact r1.scroll_err i1.hdr (applyNext_wrong_id (by omega) (by omega) (by simp))

/-- A concrete case of both theorems, with the bytes of a real file. -/
example :
    (running (eventLogDecode 11 collect) [] exHdr [exFirst] [⟨2, [0]⟩]).map (fun w =>
      let w1 := (w.commitAll [⟨0, [1]⟩]).1
      let w2 := (w1.commitEvent ⟨3, [4]⟩).1
      let r1 := w1.log.disk.drop w.log.disk.length
      let r2 := w2.log.disk.drop w1.log.disk.length
      (scroll (eventLogDecode 11 collect) [] (w.log.disk ++ r2),
        scroll (eventLogDecode 11 collect) [] (w.log.disk ++ r1 ++ r1)))
      = some (.err .metaCorrupted, .err .metaCorrupted) := by
  decide +kernel

end Verif.Journal

import Verif.Journal.Damage
import Verif.Batch.LifeTheorems
import Verif.Gns.Theorems
/-!
C83: a damaged journal is never accepted. The log of the catalogue and the data files of models, as the server leaves them after a clean
shutdown, with up to eight consecutive bytes changed after the header: opening them never succeeds. What it should do is report an error;
the `_violated` theorems are changes of a single bit on which it crashes.
-/
namespace Verif.Server.Damage
open Verif Verif.Journal

theorem open_not_ok {G} {dec : Decode G} {g : G} {file : Bytes} {io : List Sys} (h : (scroll dec g file).isOk = false) :
    (openJournal dec g file io).isOk = false := by
  unfold openJournal
  cases hs : scroll dec g file with
  | ok a => rw [hs] at h; cases h
  | err e => rfl
  | panic => rfl
  | hang => rfl

theorem scroll_of_open {G} {dec : Decode G} {g : G} {file : Bytes} {io : List Sys} {x} (h : openJournal dec g file io = .ok x) :
    (scroll dec g file).isOk = true := by
  unfold openJournal at h
  obtain ⟨a, e, -⟩ := Res.bind_eq_ok h
  rw [e]; rfl

theorem batch_honest : Honest Batch.batchDecode := by
  intro g md tr g' tr' h
  unfold Batch.batchDecode at h
  simp only at h
  split at h
  · cases h
  · obtain ⟨⟨p, rest⟩, -, h⟩ := Res.bind_eq_ok h
    obtain ⟨⟨used, t1⟩, e1, h⟩ := Res.bind_eq_ok h
    obtain ⟨gs, -, h⟩ := Res.bind_eq_ok h
    obtain ⟨⟨ck, t2⟩, e2, h⟩ := Res.bind_eq_ok h
    simp only at h
    split at h
    · simp only [Res.ok.injEq, Prod.mk.injEq] at h
      obtain ⟨rfl, rfl⟩ := h
      exact honest_trans (honest_read e1) (honest_read e2)
    · cases h

/-! ### The log of the catalogue -/

/-- **C83, log of the catalogue (partial).** Any history of sessions as in C09 leaves a log that opens. With up to eight consecutive
bytes of it changed anywhere after the header, it does not open any more, so no start comes up with a catalogue read from it. Missing:
the start may crash instead of reporting an error (`C83_catalogue_length_violated`, `C83_catalogue_kind_violated`). -/
theorem C83_catalogue_partial {ss : List (List Gns.Op)} (hne : ss ≠ []) (ho : ∀ s ∈ ss, ∀ o ∈ s, o.ok ∧ ¬ o.lostDrop) :
    ∃ c first rest, Gns.life [] Gns.Cat.empty ss = some (c, first :: rest) ∧
      ∀ hdr : Bytes, hdr.length = 64 → sizeBound ((first :: rest).map (·.map Gns.toEv)) + 64 < 2 ^ 62 →
      ∃ file w r,
        lifetime (eventLogDecode 11 Gns.gnsApply) Gns.Cat.empty hdr (first.map Gns.toEv) (rest.map (·.map Gns.toEv)) = some file ∧
        openJournal (eventLogDecode 11 Gns.gnsApply) Gns.Cat.empty file [] = .ok (w, r) ∧
        ∀ file', Damaged file file' → ∀ io, (openJournal (eventLogDecode 11 Gns.gnsApply) Gns.Cat.empty file' io).isOk = false := by
  obtain ⟨c, first, rest, h1, -, h3⟩ := Gns.C09_restart_rebuilds_the_catalogue_partial hne ho
  refine ⟨c, first, rest, h1, fun hdr hh hs => ?_⟩
  obtain ⟨file, w, r, e1, e2, -⟩ := h3 hdr hh hs
  exact ⟨file, w, r, e1, e2, fun file' hd io =>
    open_not_ok (C83_damage_is_noticed (eventLog_honest _ _) (scroll_of_open e2) hd)⟩

/-! ### The data files -/

/-- **C83, data files (partial).** The life of a model as in C11 leaves a data file that opens; with up to eight consecutive bytes
changed anywhere after the header it does not. Missing: the start may crash (`C83_text_length_violated`, `C83_key_tag_violated`,
`C83_version_violated`). -/
theorem C83_data_file_partial {F : Dml.FloatOps} {order : List (Dml.Key × Nat) → List (Dml.Key × Nat)}
    (ho : ∀ l, (order l).Perm l) {m : Gns.Model} (hm : Batch.LifeOk m) {lim : Nat} (hlim : lim ≤ 2 ^ 62) {hdr : Bytes}
    (hh : hdr.length = HEADER) (hlo : HEADER < lim) {first : List Batch.Op} {rest : List (List Batch.Op)}
    (hx : ∀ os ∈ first :: rest, Batch.Fixed os)
    (hf : Dml.Fine F m ((first :: rest).map Batch.stmts).flatten (fun _ => none))
    (ht : ∀ st ∈ ((first :: rest).map Batch.stmts).flatten, Batch.StmtTags st) :
    Batch.life F order lim m hdr first rest = .full ∨
      ∃ e, Batch.life F order lim m hdr first rest = .ok e ∧
        (openJournal Batch.batchDecode (Dml.Tbl.empty m) e.file []).isOk = true ∧
        ∀ file', Damaged e.file file' → ∀ t io, (openJournal Batch.batchDecode t file' io).isOk = false := by
  rcases Batch.C11_restarts_are_invisible_partial ho hm hlim hh hlo hx hf ht with h | ⟨e, h, -, w, T, e2, -⟩
  · exact .inl h
  · exact .inr ⟨e, h, by rw [e2]; rfl, fun file' hd t io =>
      open_not_ok (C83_damage_is_noticed batch_honest (scroll_of_open e2) hd)⟩

/-! ### Crashes -/

/-- How opening ends. -/
inductive End
  | opened
  | refused (e : SErr)
  | crashed
  | waits
  deriving DecidableEq

def ended {G} : Res SErr G → End
  | .ok _ => .opened
  | .err e => .refused e
  | .panic => .crashed
  | .hang => .waits

/-- The file with one byte replaced. -/
def patch (f : Bytes) (i : Nat) (b : UInt8) : Bytes := f.set i b

/-- A patched file is a damaged one. -/
theorem patch_damaged {f : Bytes} {i : Nat} {b a : UInt8} (hi : 64 ≤ i) (ha : f[i]? = some a) (hne : a ≠ b) : Damaged f (patch f i b) := by
  obtain ⟨hlt, hget⟩ := List.getElem?_eq_some_iff.1 ha
  refine ⟨f.take i, [a], [b], f.drop (i + 1), by rw [List.length_take]; omega, rfl, by simp, by simp [hne], ?_, ?_⟩
  · rw [List.append_assoc, List.singleton_append, ← hget, List.getElem_cons_drop hlt, List.take_append_drop]
  · rw [patch, List.set_eq_take_append_cons_drop, if_pos hlt, List.append_assoc, List.singleton_append]

/-- A log of the catalogue: a space, and one property set by ALTER SPACE. -/
def gnsFile : Option Bytes :=
  lifetime (eventLogDecode 11 Gns.gnsApply) Gns.Cat.empty Batch.exHdr
    (([.createSpace "apps" 7 [], .alterSpace ⟨"apps", 7⟩ [("motd", .data (.str "welcome to the applications of the company"))]] :
      List Enc.Event).map Gns.toEv) []

def openGns (f : Bytes) : End := ended (openJournal (eventLogDecode 11 Gns.gnsApply) Gns.Cat.empty f [])

/-- It opens; other damage is reported as it should be: a changed letter, name, identifier or checksum. -/
example : (gnsFile.map fun f => openGns f :: [237, 212, 172, 164, 319].map fun i => openGns (patch f i 1)) = some
    [.opened, .refused .corrupted, .refused .corrupted, .refused .corrupted, .refused .corrupted, .refused .eventCorrupted] := by
  decide +kernel

/-- **C83, violated.** One bit of the length of an event: `vec![0; plen]` is called before anything about the length is checked
(`raw/journal/mod.rs:131-134`), and `plen` is above 2^63. -/
theorem C83_catalogue_length_violated : ∃ file file', gnsFile = some file ∧ openGns file = .opened ∧ Damaged file file' ∧
    openGns file' = .crashed := by
  refine ⟨gnsFile.getD [], patch (gnsFile.getD []) 179 128, by decide +kernel, by decide +kernel,
    patch_damaged (a := 0) (by decide) (by decide +kernel) (by decide), by decide +kernel⟩

/-- **C83, violated.** The checksum of an event covers its length and its payload, not its kind (`raw/journal/mod.rs:128-146`), and an
event is applied before the checksum of the file is compared. One bit of the kind turns ALTER SPACE (1) into ALTER MODEL REMOVE (5); its
reader takes the text of the property for a count, and `Vec::with_capacity` panics. -/
theorem C83_catalogue_kind_violated : ∃ file file', gnsFile = some file ∧ openGns file = .opened ∧ Damaged file file' ∧
    openGns file' = .crashed := by
  refine ⟨gnsFile.getD [], patch (gnsFile.getD []) 156 5, by decide +kernel, by decide +kernel,
    patch_damaged (a := 1) (by decide) (by decide +kernel) (by decide), by decide +kernel⟩

/-- A data file: a row that was inserted and changed twice, each change in a batch of its own. -/
def rowsFile : Option Bytes :=
  match Batch.life Dml.exF id 100000 Dml.exModel Batch.exHdr [.stmt (Dml.exRow 1 .null), .flush 1,
    .stmt (.update [⟨"n", .assign, .uint 7⟩] (Dml.whereId 1)), .flush 1,
    .stmt (.update [⟨"n", .assign, .uint 8⟩] (Dml.whereId 1))] [] with
  | .ok e => some e.file
  | _ => none

def openRows (f : Bytes) : End := ended (openJournal Batch.batchDecode (Dml.Tbl.empty Dml.exModel) f [])

/-- It opens; other damage is reported as it should be: a changed letter, key or number. -/
example : (rowsFile.map fun f => openRows f :: [148, 123, 132, 165].map fun i => openRows (patch f i 1)) = some
    [.opened, .refused .corrupted, .refused .corrupted, .refused .corrupted, .refused .corrupted] := by
  decide +kernel

/-- **C83, violated.** One bit of the length of a text in a row: `vec![0; size]` (`mdl_journal.rs:725-730`). -/
theorem C83_text_length_violated : ∃ file file', rowsFile = some file ∧ openRows file = .opened ∧ Damaged file file' ∧
    openRows file' = .crashed := by
  refine ⟨rowsFile.getD [], patch (rowsFile.getD []) 147 128, by decide +kernel, by decide +kernel,
    patch_damaged (a := 0) (by decide) (by decide +kernel) (by decide), by decide +kernel⟩

/-- **C83, violated.** One bit of the tag of the primary key: `TagUnique::try_from_raw` (`mdl_journal.rs:451-452`) only refuses what
exceeds the largest discriminant, which is 255, so the byte becomes a value of the enumeration that does not exist: undefined behaviour. -/
theorem C83_key_tag_violated : ∃ file file', rowsFile = some file ∧ openRows file = .opened ∧ Damaged file file' ∧
    openRows file' = .crashed := by
  refine ⟨rowsFile.getD [], patch (rowsFile.getD []) 96 4, by decide +kernel, by decide +kernel,
    patch_damaged (a := 0) (by decide) (by decide +kernel) (by decide), by decide +kernel⟩

/-- **C83, violated.** One bit of the version of a row in a later batch: the row is put in before the checksum of the batch is compared,
and the assertion about the version fails (`mdl_journal.rs:518-532`). -/
theorem C83_version_violated : ∃ file file', rowsFile = some file ∧ openRows file = .opened ∧ Damaged file file' ∧
    openRows file' = .crashed := by
  refine ⟨rowsFile.getD [], patch (rowsFile.getD []) 342 0, by decide +kernel, by decide +kernel,
    patch_damaged (a := 2) (by decide) (by decide +kernel) (by decide), by decide +kernel⟩

end Verif.Server.Damage

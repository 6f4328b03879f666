import Verif.Old.LoadLemmas
/-!
C61: an old installation, from its files to the answers of the upgraded server.
-/
namespace Verif.Old
open Verif.Gns (Cat Model)
open Verif.Enc (Event encDict encEntry)
open Verif.Server (MKey Path Rows pathOf OldOk Setup Sys Act Q Answer Start ActOk ActSpares Quiet answersTo stmtsOn recreate)
open Verif.Header (readMeta)
open Verif.Dml (Key FloatOps Tbl SpecRun Reply abs)
open Verif.Server (UpdatesFine)
open Verif.Batch (Rec others)

/-! ### Loading again -/

theorem flatten_reopened (x : Inst) (ks : List MKey) (k : MKey) : ((x.reopened ks).data k).flatten = (x.data k).flatten := by
  simp only [Inst.reopened]
  split <;> simp

theorem mem_reopened {x : Inst} {ks : List MKey} {k : MKey} {s : List OBatch} (h : s ∈ (x.reopened ks).data k) : s ∈ x.data k ∨ s = [] := by
  simp only [Inst.reopened] at h
  split at h
  · rcases List.mem_append.1 h with h | h
    · exact .inl h
    · exact .inr (by simpa using h)
  · exact .inl h

theorem reopened_ok {x : Inst} (hx : x.Ok) (ks : List MKey) (hid : ids (x.sessions.map (·.map payloadOf)) + 2 < 2 ^ 64) :
    (x.reopened ks).Ok := by
  refine ⟨by simp [Inst.reopened], ?_, ?_, ?_, hx.cons, hx.props, hx.plain, ?_, hx.users, hx.stamp, hx.stamps⟩
  · intro s hs e he
    rcases List.mem_append.1 hs with hs | hs
    · exact hx.events s hs e he
    · rw [List.mem_singleton.1 hs] at he; cases he
  · rw [show (x.reopened ks).sessions = x.sessions ++ [[]] from rfl, (oldLog_more hx.opened).2]
    omega
  · have := hx.log
    simpa [Inst.reopened] using this
  · intro a b m hm
    obtain ⟨h1, h2⟩ := hx.data a b m hm
    refine ⟨⟨?_, ?_, ?_, by rw [flatten_reopened]; exact h1.versions, by rw [flatten_reopened]; exact h1.deletes⟩, ?_⟩
    · have := h1.some
      simp only [Inst.reopened]
      split <;> simp [this]
    · intro s hs y hy
      rcases mem_reopened hs with hs | rfl
      · exact h1.batches s hs y hy
      · cases hy
    · intro s hs y hy
      rcases mem_reopened hs with hs | rfl
      · exact h1.plain s hs y hy
      · cases hy
    · intro s hs y hy
      rcases mem_reopened hs with hs | rfl
      · exact h2 s hs y hy
      · cases hy

theorem reopened_old (x : Inst) (ks : List MKey) (o : Order) : (x.reopened ks).old o = x.old o := by
  have : (x.reopened ks).rows = x.rows := by
    funext a b
    simp only [Inst.rows, flatten_reopened]
    rfl
  simp only [Inst.old, this]
  rfl

/-! ### Theorems -/

/-- **C61, partial.** The files of an old installation in which no model had its columns changed are accepted. All of its spaces and
models are loaded, its users with their passwords, and the rows of every model as its file has them. The log and the data files are
closed again; they can be loaded any number of times with the same result, until they are moved away.

Missing: models whose columns were changed, files with failed writes, and installations that were not shut down
(`C59_crash_violated` to `C60_truncation_violated`). -/
theorem C61_loaded_partial {x : Inst} (hx : x.Ok) {o : Order} (ho : o.Ok x.cat)
    (hid : ids (x.sessions.map (·.map payloadOf)) + 2 < 2 ^ 64) :
    ∃ y d, loadFiles o x.files = .ok y d ∧ (∃ d', loadFiles o d = .ok y d') ∧ OldOk y ∧ y.srv.cat.models = x.cat.models ∧
      (∀ n, (y.srv.cat.spaces n).map (fun s => (s.uuid, s.props)) = (x.cat.spaces n).map fun s => (s.uuid, s.props)) ∧
      (∀ n h, y.srv.cat.users n = some h ↔ (n, h) ∈ x.users) ∧
      ∀ a b m, x.cat.models a b = some m → ∃ t, y.srv.tbl a b = some t ∧ t.model = m ∧
        abs t = fileTable m ((x.data (a, b)).flatten.flatMap (·.recs)) := by
  refine ⟨x.old o, _, loadFiles_ok hx ho, ?_, old_ok hx ho, rfl, ?_, ?_, ?_⟩
  · have := loadFiles_ok (reopened_ok hx (o.first x.cat) hid) (o := o) ho
    rw [reopened_old] at this
    exact ⟨_, this⟩
  · intro n
    show ((x.cat.spaces n).map _).map _ = _
    rw [Option.map_map]
    rfl
  · intro n h
    show (x.cat.users n).or ((x.users.find? fun u => decide (u.1 = n)).map (·.2)) = some h ↔ _
    rw [hx.no_users, Option.none_or, Option.map_eq_some_iff]
    have key : ∀ us : List (String × Bytes), (us.map (·.1)).Nodup →
        ((∃ a, us.find? (fun u => decide (u.1 = n)) = some a ∧ a.2 = h) ↔ (n, h) ∈ us) := by
      intro us
      induction us with
      | nil => simp
      | cons u us ih =>
        intro hn
        rw [List.map_cons, List.nodup_cons] at hn
        rw [List.find?_cons]
        by_cases e : u.1 = n
        · simp only [e, decide_true, Option.some.injEq, exists_eq_left', List.mem_cons]
          constructor
          · intro h'; exact .inl (by rw [← e, ← h'])
          · rintro (h' | h')
            · rw [← h']
            · exact absurd (List.mem_map.2 ⟨_, h', e.symm⟩) hn.1
        · simp only [e, decide_false, List.mem_cons]
          rw [ih hn.2]
          constructor
          · exact .inr
          · rintro (h' | h')
            · exact absurd (by rw [← h']) e
            · exact h'
    exact key _ hx.users.nodup
  · intro a b m hm
    obtain ⟨t, h1, h2, h3⟩ := hx.table hm
    refine ⟨t, ?_, h3.model, h3.table (hx.mok hm) (hx.data a b m hm).1⟩
    show (x.cat.models a b).map _ = some t
    rw [hm]
    show some (Tbl.mk m (x.rows a b).heap (x.rows a b).idx (x.rows a b).ver (x.rows a b).queue) = some t
    rw [h2]
    have := h3.model
    obtain ⟨tm, _, _, _, _⟩ := t
    simp only at this
    subst this
    rfl

/-- **C61, partial.** From the bytes of the old files to the answers of the new server. The files of the installation `x` are loaded
and written in the new format, and the server runs (`before`), is restarted, and runs on (`after`) as in C58. The answers to all queries
on the model `sp.m` are those of a map that starts with the rows that the old data file has. -/
theorem C61_answers_partial {S : Setup} {F : FloatOps} (hl : S.lim ≤ 2 ^ 62) (hg : S.gnsHdr.length = Journal.HEADER)
    (hmd : S.mdlHdr.length = Journal.HEADER) {order : List (Key × Nat) → List (Key × Nat)} (ho : ∀ l, (order l).Perm l) {x : Inst}
    (hx : x.Ok) {oo : Order} (hoo : oo.Ok x.cat) {sp m : String} {md : Model} (hm : x.cat.models sp m = some md) {y : Server.Old}
    {d : Files} (hy : loadFiles oo x.files = .ok y d) {z0 z1 z2 z3 : Sys} {before after : List Act}
    {o1 o2 o3 : List (Q × Answer)} {st : Start} {cl op : List MKey → List MKey} (hcl : ∀ l, (cl l).Perm l)
    (hop : ∀ l, (op l).Perm l) {data : Path → Bytes} (h0 : recreate S order y = .ok z0)
    (h1 : z0.acts S before = .ok (z1, o1)) (hb : ∀ a ∈ before, ActOk a ∧ ActSpares F sp m a ∧ Quiet sp m a)
    (h2 : z1.act S (.restart st cl op data) = .ok (z2, o2))
    (h3 : z2.acts S after = .ok (z3, o3)) (ha : ∀ a ∈ after, ActOk a ∧ ActSpares F sp m a)
    (hf : UpdatesFine F md (stmtsOn sp m after) (fileTable md ((x.data (sp, m)).flatten.flatMap (·.recs)))) :
    ∃ (rs : List Reply) (t' : Tbl), answersTo sp m (o1 ++ o2 ++ o3) = rs.map .rows ∧ z3.srv.tbl sp m = some t' ∧
      SpecRun F md (fileTable md ((x.data (sp, m)).flatten.flatMap (·.recs))) (stmtsOn sp m (before ++ after)) (abs t')
        (rs.map Reply.norm) := by
  have e := loadFiles_ok hx hoo
  rw [hy] at e
  cases e
  obtain ⟨t, g1, g2, g3⟩ := hx.table hm
  have ht : (x.old oo).srv.tbl sp m = some t := by
    show (x.cat.models sp m).map _ = some t
    rw [hm]
    show some (Tbl.mk md (x.rows sp m).heap (x.rows sp m).idx (x.rows sp m).ver (x.rows sp m).queue) = some t
    rw [g2]
    have := g3.model
    obtain ⟨tm, _, _, _, _⟩ := t
    simp only at this
    subst this
    rfl
  have hta := g3.table (hx.mok hm) (hx.data sp m md hm).1
  have hmt := g3.model
  rw [← hta, ← hmt] at hf ⊢
  exact Server.C58_rows_survive_partial hl hg hmd ho (old_ok hx hoo) ht hcl hop h0 h1 hb h2 h3 ha hf

/-! ### When a file is refused -/

/-- Put a data file in the place of another. -/
def Files.put (d : Files) (p : Path) (g : Option Bytes) : Files := { d with data := fun q => if q = p then g else d.data q }

/-- The file is missing, it has the header of another file, or it is refused with an error (C60). -/
def Refused (m : Model) : Option Bytes → Prop
  | none => True
  | some f => (∀ h, readMeta v1 v1Data f ≠ .ok h) ∨ readData m (f.drop HDR) = .err

/-- The server crashes while it reads the file. -/
def Crashes (m : Model) : Option Bytes → Prop
  | none => False
  | some f => (∃ h, readMeta v1 v1Data f = .ok h) ∧ readData m (f.drop HDR) = .panic

theorem loadOne_refused {c : Cat} {k : MKey} {p : Path} {m : Model} (h : pathOf c k = some (p, m)) {d : Files}
    (hr : Refused m (d.data p)) (y : Tables) : loadOne c k y d = .err d := by
  rw [loadOne]
  simp only [h]
  cases hf : d.data p with
  | none => rfl
  | some f =>
    rw [hf] at hr
    simp only
    rcases hr with hr | hr
    · split
      · rename_i u hu; exact absurd hu (hr u)
      · rfl
    · split
      · simp only [hr]
      · rfl

theorem loadOne_crashes {c : Cat} {k : MKey} {p : Path} {m : Model} (h : pathOf c k = some (p, m)) {d : Files}
    (hr : Crashes m (d.data p)) (y : Tables) : loadOne c k y d = .panic d := by
  rw [loadOne]
  simp only [h]
  cases hf : d.data p with
  | none => rw [hf] at hr; exact hr.elim
  | some f =>
    rw [hf] at hr
    obtain ⟨⟨u, hu⟩, hr⟩ := hr
    simp only [hu, hr]

theorem loadAll_append {c : Cat} : ∀ {a b : List MKey} {y y' : Tables} {d d' : Files} {ps : List Path},
    loadAll c a y d = (.ok y' d', ps) → loadAll c (a ++ b) y d = loadAll c b y' d'
  | [], b, y, y', d, d', ps, h => by
    simp only [loadAll, Prod.mk.injEq, Load.ok.injEq] at h
    rw [← h.1.1, ← h.1.2]
    rfl
  | k :: a, b, y, y', d, d', ps, h => by
    rw [loadAll] at h
    rw [List.cons_append, loadAll]
    cases e : loadOne c k y d with
    | ok y1 d1 => rw [e] at h; exact loadAll_append h
    | err d1 => rw [e] at h; cases h
    | panic d1 => rw [e] at h; cases h

/-- The models before the one with the bad file are loaded. -/
theorem loadAll_until {x : Inst} (hx : x.Ok) {ks1 ks2 : List MKey} {k0 : MKey} (hn : (ks1 ++ k0 :: ks2).Nodup)
    (hin : ∀ k ∈ ks1, ∃ m, x.cat.models k.1 k.2 = some m) {p0 : Path} {m0 : Model} (hp : pathOf x.cat k0 = some (p0, m0))
    {d : Files} (hd : ∀ p, p ≠ p0 → d.data p = x.files.data p) :
    loadAll x.cat (ks1 ++ k0 :: ks2) (fun _ _ => Rows.none, []) d =
      loadAll x.cat (k0 :: ks2) (fun a b => if (a, b) ∈ ks1 then x.rows a b else Rows.none, (pathsOf x.cat ks1).reverse)
        (appendAll d (pathsOf x.cat ks1) [REOPEN]) ∧
      (appendAll d (pathsOf x.cat ks1) [REOPEN]).data p0 = d.data p0 := by
  rw [List.nodup_append] at hn
  obtain ⟨n1, -, n3⟩ := hn
  have h := loadAll_ok hx (y := (fun _ _ => Rows.none, [])) (d := d) n1 (by
    intro k hk
    obtain ⟨m, hm⟩ := hin k hk
    obtain ⟨p, hp'⟩ := pathOf_of hx.cons hm
    refine ⟨p, m, hp', hd p ?_⟩
    rintro rfl
    exact n3 k hk k0 (by simp) ((pathOf_some hp').2.symm.trans (pathOf_some hp).2))
  refine ⟨by rw [loadAll_append h]; simp only [List.append_nil], ?_⟩
  rw [appendAll_data _ _ (pathsOf_nodup n1), if_neg]
  intro hm
  have := (mem_pathsOf.1 hm).1
  rw [(pathOf_some hp).2] at this
  exact n3 k0 this k0 (by simp) rfl

theorem open_log {x : Inst} (hx : x.Ok) : ∃ u, readMeta v1 v1Log (x.stamp.hdr v1Log ++ oldLog x.sessions) = .ok u ∧
    openLog (x.stamp.hdr v1Log ++ oldLog x.sessions) = .ok (x.cat, x.stamp.hdr v1Log ++ oldLog x.sessions ++
      reopenRec (ids (x.sessions.map (·.map payloadOf))), ids (x.sessions.map (·.map payloadOf)) + 1) := by
  obtain ⟨u, hu⟩ := hdr_read hx.stamp v1_fits.1 (oldLog x.sessions)
  have hl := C59_log_is_read_partial (hdr_length x.stamp v1Log) hx.opened hx.events (by have := hx.ids; omega) hx.log
  exact ⟨u, hu, by rw [openLog, hl]; rfl⟩

theorem split_at {ks : List MKey} {k : MKey} (h : k ∈ ks) : ∃ a b, ks = a ++ k :: b := List.append_of_mem h

/-- **C61, partial.** One data file is missing, has the header of another file, or is refused by its reader. Then the upgrade ends
with an error, and nothing is lost: once the right file is put in its place, the installation is loaded as it would have been at first.
The files that were read before the bad one were closed again, and so was the log. -/
theorem C61_refused_file_partial {x : Inst} (hx : x.Ok) {o : Order} (ho : o.Ok x.cat)
    (hid : ids (x.sessions.map (·.map payloadOf)) + 2 < 2 ^ 64) {k0 : MKey} {p0 : Path} {m0 : Model}
    (hp : pathOf x.cat k0 = some (p0, m0)) {g : Option Bytes} (hg : Refused m0 g) :
    ∃ d, loadFiles o (x.files.put p0 g) = .err d ∧ d.data p0 = g ∧ ∃ d', loadFiles o (d.put p0 (x.files.data p0)) = .ok (x.old o) d' := by
  have hk0 : k0 ∈ o.first x.cat := (ho.first k0.1 k0.2).2 (by simp [(pathOf_some hp).1])
  obtain ⟨ks1, ks2, hks⟩ := split_at hk0
  have hn := ho.fnodup
  rw [hks] at hn
  have hn1 : ks1.Nodup := (List.nodup_append.1 hn).1
  have hk1 : k0 ∉ ks1 := fun h => (List.nodup_append.1 hn).2.2 k0 h k0 (by simp) rfl
  obtain ⟨u, hu, hopen⟩ := open_log hx
  have hput : ∀ p, (x.files.put p0 g).data p = if p = p0 then g else x.files.data p := fun p => rfl
  obtain ⟨e1, e2⟩ := loadAll_until hx hn (fun k hk => by
    have := (ho.first k.1 k.2).1 (by rw [hks]; simp [hk])
    exact Option.isSome_iff_exists.1 this) hp (d := Files.mk (some (x.stamp.hdr v1Log ++ oldLog x.sessions ++
      reopenRec (ids (x.sessions.map (fun s : List Event => s.map payloadOf))))) x.files.sys (x.files.put p0 g).data) (by
      intro p h; rw [hput, if_neg h])
  have hpn : p0 ∉ pathsOf x.cat ks1 := by
    intro h
    have := (mem_pathsOf.1 h).1
    rw [(pathOf_some hp).2] at this
    exact hk1 this
  refine ⟨{ (x.reopened ks1).files with
    data := fun p => if p ∈ pathsOf x.cat ks1 then ((x.files.put p0 g).data p).map (· ++ [REOPEN] ++ [CLOSE]) else (x.files.put p0 g).data p },
    ?_, ?_, ?_⟩
  · rw [loadFiles, loadGns]
    simp only [show (x.files.put p0 g).gns = some (x.stamp.hdr v1Log ++ oldLog x.sessions) from rfl, hu, hopen]
    rw [show (x.files.put p0 g).sys = x.files.sys from rfl, hks, e1, loadAll, loadOne_refused hp (by
      rw [e2]; rw [hput, if_pos rfl]; exact hg)]
    simp only
    generalize hd : appendAll _ (pathsOf x.cat ks1) [REOPEN] = d
    rw [closed_again hx hn1 (by rw [← hd]; exact (appendAll_gns _ _ _).1) (by rw [← hd]; exact (appendAll_gns _ _ _).2)
      (fun p => by rw [← hd]; exact appendAll_data _ _ (pathsOf_nodup hn1))]
  · simp only [hpn, if_false, hput, if_true]
  · have hr := loadFiles_ok (reopened_ok hx ks1 hid) (o := o) ho
    rw [reopened_old] at hr
    suffices hfe : Files.put _ p0 (x.files.data p0) = (x.reopened ks1).files by rw [hfe]; exact ⟨_, hr⟩
    rw [← reopened_files hx ks1]
    simp only [Files.put, Files.mk.injEq, true_and]
    funext p
    by_cases h : p = p0
    · subst h; simp [hpn]
    · simp [h]

/-- **C61, violated.** The reader crashes at one data file, as it does at several defects (`C60_missing_key_violated`,
`C60_damaged_length_violated`). Then the log of the catalogue stays open, and the installation cannot be loaded any more: not even
if the data file is repaired. -/
theorem C61_crash_violated {x : Inst} (hx : x.Ok) {o : Order} (ho : o.Ok x.cat)
    (hr : ∀ s ∈ x.sessions, ∀ e ∈ s, Random (spaceOf e)) {k0 : MKey} {p0 : Path} {m0 : Model}
    (hp : pathOf x.cat k0 = some (p0, m0)) {g : Option Bytes} (hg : Crashes m0 g) :
    ∃ d, loadFiles o (x.files.put p0 g) = .panic d ∧ ∀ d', d'.gns = d.gns → ∀ y e, loadFiles o d' ≠ .ok y e := by
  have hk0 : k0 ∈ o.first x.cat := (ho.first k0.1 k0.2).2 (by simp [(pathOf_some hp).1])
  obtain ⟨ks1, ks2, hks⟩ := split_at hk0
  have hn := ho.fnodup
  rw [hks] at hn
  obtain ⟨u, hu, hopen⟩ := open_log hx
  have hput : ∀ p, (x.files.put p0 g).data p = if p = p0 then g else x.files.data p := fun p => rfl
  obtain ⟨e1, e2⟩ := loadAll_until hx hn (fun k hk => by
    have := (ho.first k.1 k.2).1 (by rw [hks]; simp [hk])
    exact Option.isSome_iff_exists.1 this) hp (d := Files.mk (some (x.stamp.hdr v1Log ++ oldLog x.sessions ++
      reopenRec (ids (x.sessions.map (fun s : List Event => s.map payloadOf))))) x.files.sys (x.files.put p0 g).data) (by
      intro p h; rw [hput, if_neg h])
  refine ⟨appendAll (Files.mk (some (x.stamp.hdr v1Log ++ oldLog x.sessions ++
      reopenRec (ids (x.sessions.map (fun s : List Event => s.map payloadOf))))) x.files.sys (x.files.put p0 g).data)
      (pathsOf x.cat ks1) [REOPEN], ?_, ?_⟩
  · rw [loadFiles, loadGns]
    simp only [show (x.files.put p0 g).gns = some (x.stamp.hdr v1Log ++ oldLog x.sessions) from rfl, hu, hopen]
    rw [show (x.files.put p0 g).sys = x.files.sys from rfl, hks, e1, loadAll, loadOne_crashes hp (by
      rw [e2]; rw [hput, if_pos rfl]; exact hg)]
  · intro d' hd' y e hy
    rw [(appendAll_gns _ _ _).1] at hd'
    simp only at hd'
    obtain ⟨f, id, h1, h2⟩ := C59_crash_violated (hdr_length x.stamp v1Log) hx.opened hx.events hr hx.ids hx.log
    rw [hopen] at h1
    cases h1
    rw [loadFiles, loadGns] at hy
    simp only [hd'] at hy
    cases ho' : openLog (x.stamp.hdr v1Log ++ oldLog x.sessions ++ reopenRec (ids (x.sessions.map (·.map payloadOf)))) with
    | ok z =>
      rw [openLog] at ho'
      obtain ⟨w, hw, -⟩ := Res.bind_eq_ok ho'
      exact h2 w hw
    | err _ =>
      cases hm : readMeta v1 v1Log (x.stamp.hdr v1Log ++ oldLog x.sessions ++ reopenRec (ids (x.sessions.map (·.map payloadOf)))) <;>
        simp only [hm, ho'] at hy <;> cases hy
    | panic =>
      cases hm : readMeta v1 v1Log (x.stamp.hdr v1Log ++ oldLog x.sessions ++ reopenRec (ids (x.sessions.map (·.map payloadOf)))) <;>
        simp only [hm, ho'] at hy <;> cases hy
    | hang =>
      cases hm : readMeta v1 v1Log (x.stamp.hdr v1Log ++ oldLog x.sessions ++ reopenRec (ids (x.sessions.map (·.map payloadOf)))) <;>
        simp only [hm, ho'] at hy <;> cases hy

end Verif.Old

namespace Verif.Old
open Verif.Enc (encDict encEntry encCell Dict)
open Verif.Server (Path)

theorem encDict_append : ∀ a b : Dict, encDict (a ++ b) = encDict a ++ encDict b
  | [], b => rfl
  | (k, v) :: a, b => by rw [List.cons_append, encDict, encDict_append a b, encDict]; simp

/-- The byte `c` is at a fixed place. -/
def At (f : UInt8 → Bytes) : Prop := ∃ a b, ∀ c, f c = a ++ c :: b

theorem At.pre {f : UInt8 → Bytes} (h : At f) (x : Bytes) : At fun c => x ++ f c := by
  obtain ⟨a, b, h⟩ := h
  exact ⟨x ++ a, b, fun c => by simp [h]⟩

theorem At.suf {f : UInt8 → Bytes} (h : At f) (x : Bytes) : At fun c => f c ++ x := by
  obtain ⟨a, b, h⟩ := h
  exact ⟨a, b ++ x, fun c => by simp [h]⟩

theorem At.cons {f : UInt8 → Bytes} (h : At f) (x : UInt8) : At fun c => x :: f c := h.pre [x]

/-- Where a byte of a hash is in the file. -/
theorem sysBytes_at (us us' : List (String × Bytes)) (n : String) (p q : Bytes) (sc sv : UInt64) :
    At fun c => sysBytes (us ++ (n, p ++ c :: q) :: us') sc sv := by
  have h1 : At fun c => encCell (.list [.bin (p ++ c :: q)]) := by
    have : At fun c => p ++ c :: q := ⟨p, q, fun _ => rfl⟩
    have := ((((this.pre (le 8 (p.length + (q.length + 1)))).cons (UInt8.ofNat (Tag.binary.value + 1))).suf []).pre (le 8 1))
    obtain ⟨a, b, h⟩ := this
    refine ⟨a, b, fun c => ?_⟩
    rw [← h]
    simp [encCell, Enc.encList, Enc.encTag, Cell.tag]
  have h2 := ((h1.pre (encStr n)).cons (UInt8.ofNat (Tag.list.value + 1))).pre (le 8 (encStr n).length)
  have h3 := (h2.pre (encDict (us.map fun u => (u.1, .data (.list [.bin u.2]))))).suf (encDict (us'.map fun u => (u.1, .data (.list [.bin u.2]))))
  have h4 := (((h3.pre (le 8 (us.length + (us'.length + 1)))).pre (encStr "users")).cons (UInt8.ofNat Enc.DICT)).pre (le 8 (encStr "users").length)
  have h5 := (((h4.pre (le 8 1)).pre (encStr "auth")).cons (UInt8.ofNat Enc.DICT)).pre (le 8 (encStr "auth").length)
  have h6 := (h5.pre (le 8 2)).suf (encDict [("sys", .map [("sc", .data (.uint .uint64 sc)), ("sv", .data (.uint .uint64 sv))])])
  obtain ⟨a, b, h⟩ := h6
  refine ⟨a, b, fun c => ?_⟩
  rw [← h]
  simp only [sysBytes, Enc.encDictFull, sysDict, List.map_append, List.map_cons, encDict, encEntry, encDict_append, Enc.encTag, Cell.tag,
    List.length_cons, List.length_append, List.length_map, List.length_nil, List.append_nil, List.append_assoc, List.cons_append]

/-- **C61, violated.** The file with the users has no checksum. Any byte of the hash of any password may be changed; the file is
accepted, and the password is another one, for which nobody knows the text. -/
theorem C61_damaged_users_violated {us us' : List (String × Bytes)} {n : String} {p q : Bytes} {c : UInt8}
    (h : UsersOk (us ++ (n, p ++ c :: q) :: us')) (sc sv : UInt64) :
    ∃ a b, sysBytes (us ++ (n, p ++ c :: q) :: us') sc sv = a ++ c :: b ∧
      ∀ c', readSys (a ++ c' :: b) = .ok (us ++ (n, p ++ c' :: q) :: us') := by
  obtain ⟨a, b, hab⟩ := sysBytes_at us us' n p q sc sv
  refine ⟨a, b, hab c, fun c' => ?_⟩
  rw [← hab c']
  have := readSys_sysBytes (us := us ++ (n, p ++ c' :: q) :: us') ⟨?_, ?_, ?_, ?_⟩ sc sv []
  · rwa [List.append_nil] at this
  · have := h.nodup; simpa using this
  · have := h.root; simpa using this
  · intro u hu
    rcases List.mem_append.1 hu with hu | hu
    · exact h.sizes u (by simp [hu])
    · rcases List.mem_cons.1 hu with rfl | hu
      · have := h.sizes (n, p ++ c :: q) (by simp); simpa using this
      · exact h.sizes u (by simp [hu])
  · have := h.count; simpa using this

/-- The users of the example. -/
def exUsers : List (String × Bytes) := [("root", [1, 2, 3]), ("amy", [4, 5, 6, 7])]

example : UsersOk exUsers := ⟨by decide, by decide, by decide +kernel, by decide⟩

def outName {ε α} : Res ε α → String
  | .ok _ => "ok"
  | .err _ => "error"
  | .panic => "panic"
  | .hang => "hang"

example : outName (readSys (sysBytes exUsers 3 1)) = "ok" := by decide +kernel

/-- **C61, violated.** A file with the users that was cut off is not refused with an error: the reader does not look whether the block
that a length announces is there, and reads behind the end of the file. -/
theorem C61_cut_users_violated : outName (readSys ((sysBytes exUsers 3 1).take 90)) = "panic" := by decide +kernel

/-- But it is never accepted. -/
example : ∀ n ∈ List.range (sysBytes exUsers 3 1).length, outName (readSys ((sysBytes exUsers 3 1).take n)) ≠ "ok" := by decide +kernel

section Example
open Verif.Gns (upd upd2 Cat Model)

private def props : Enc.Dict := [("env", .map [])]
/-- The catalogue with the model `s.m` of C60. -/
private def exCat : Cat :=
  ⟨upd (upd (fun _ => none) "s" (some ⟨1, [], props⟩)) "s" (some ⟨1, ["m"], props⟩), upd2 (fun _ _ => none) "s" "m" (some exData), fun _ => none⟩

/-- An installation with two sessions, in the second of which nothing happened, and the rows of C60. -/
private def exInst : Inst where
  sessions := [[.createSpace "s" 1 props, .createModel ⟨"s", 1⟩ "m" ⟨7, "id", .uint64, exData.fields⟩], []]
  cat := exCat
  data _ := exSs
  users := exUsers
  sc := 3
  sv := 1
  stamp := ⟨⟨0, 0, 0, 0⟩, 0⟩
  stamps _ := ⟨⟨0, 0, 0, 0⟩, 0⟩

private def exOrder : Order := ⟨fun _ => [("s", "m")], fun _ => [("s", "m")], fun _ => ["s"]⟩

example : Gns.applyAll Cat.empty exInst.sessions.flatten = .ok exInst.cat := by
  rfl

/-- The rows of `s.m` after loading. -/
private def exRows : Load Server.Old → Option (List (Option (Option Bytes × Option Bytes)))
  | .ok y _ => (y.srv.tbl "s" "m").map fun t => [1, 2, 3].map fun k : UInt64 => (rowOf t (.uint k)).map fun r => ((r.cells "a").map Enc.enc, (r.cells "b").map Enc.enc)
  | _ => none

example : exRows (loadFiles exOrder exInst.files) =
    some [some (some (Enc.enc (.uint .uint8 11)), some (Enc.enc (.str "y"))), none, some (some (Enc.enc (.uint .uint8 30)), some (Enc.enc .null))] := by
  decide +kernel

private theorem space_of {n : String} {s : Gns.Space} (h : exCat.spaces n = some s) : n = "s" ∧ s = ⟨1, ["m"], props⟩ := by
  simp only [exCat, upd] at h
  split at h
  · cases h; exact ⟨by assumption, rfl⟩
  · cases h

private theorem model_of {a b : String} {m : Model} (h : exCat.models a b = some m) : a = "s" ∧ b = "m" ∧ m = exData := by
  simp only [exCat, upd2] at h
  split at h
  · rename_i hab
    cases h
    exact ⟨hab.1, hab.2, rfl⟩
  · cases h

/-- The conditions hold for it. -/
private theorem exInst_ok : exInst.Ok := by
  refine ⟨by decide, ?_, by decide +kernel, rfl, ⟨?_, ?_, ?_, ?_⟩, ?_, ?_, ?_, ⟨by decide, by decide, by decide +kernel, by decide⟩, by decide,
    fun _ => (by decide : 0 < 2 ^ 128)⟩
  · intro s hs e he
    simp only [exInst, List.mem_cons, List.not_mem_nil, or_false] at hs
    rcases hs with rfl | rfl
    · simp only [List.mem_cons, List.not_mem_nil, or_false] at he
      rcases he with rfl | rfl
      · exact ⟨⟨by decide, by decide, by simp [props, Enc.WfDict, Enc.WfVal]; decide⟩, by decide, by decide +kernel⟩
      · exact ⟨⟨by decide, by decide, by decide, by decide, by simp [exData, Enc.WfFields, Enc.WfLayers, Tag.cls]; decide⟩, by decide, by decide +kernel⟩
    · cases he
  · intro s sp n h hn
    obtain ⟨rfl, rfl⟩ := space_of h
    simp only [List.mem_singleton] at hn
    subst hn
    exact ⟨exData, rfl⟩
  · intro s n m h
    obtain ⟨rfl, rfl, _⟩ := model_of h
    exact ⟨_, rfl, by simp⟩
  · intro s sp h
    obtain ⟨rfl, rfl⟩ := space_of h
    simp
  · intro s n m h
    obtain ⟨_, _, rfl⟩ := model_of h
    exact ⟨⟨by decide, by
      intro e he
      simp only [exData, List.mem_cons, List.not_mem_nil, or_false] at he
      rcases he with rfl | rfl | rfl
      · exact ⟨0, .uint64, by decide, rfl⟩
      · exact ⟨0, .uint8, by decide, rfl⟩
      · exact ⟨0, .string, by decide, rfl⟩⟩, ⟨⟨[.uint64], false⟩, by decide, rfl⟩, by decide⟩
  · intro n s h
    obtain ⟨rfl, rfl⟩ := space_of h
    refine ⟨by simp [props, Gns.Distinct, Gns.DistinctVal, Gns.get], by simp [props, Gns.Typed, Gns.TypedVal], .inl ⟨⟨[], rfl⟩, ?_⟩⟩
    intro k hk
    simp [props, Gns.get, Gns.ENV] at hk ⊢
    exact fun h => hk h.symm
  · intro a b m h
    obtain ⟨_, _, rfl⟩ := model_of h
    refine ⟨rfl, ?_, by decide⟩
    intro f hf
    have : Gns.fget exData.fields exData.pk = some ⟨[.uint64], false⟩ := by decide
    rw [this] at hf
    cases hf
    rfl
  · intro a b m h
    obtain ⟨_, _, rfl⟩ := model_of h
    refine ⟨exSs_written, ?_⟩
    have key : ∀ (x : UInt64) (y : Cell) (k : Dml.DKind) (v : Nat) (q : Dml.Key), x.toNat < 256 → (y = .null ∨ ∃ z, y = .str z) →
        RecFits exData ⟨k, v, q, [.uint .uint8 x, y]⟩ := by
      intro x y k v q hx hy _ j name f c hj hf hc
      match j with
      | 0 =>
        cases hj
        cases hf
        cases hc
        exact .inr hx
      | 1 =>
        cases hj
        cases hf
        cases hc
        rcases hy with rfl | ⟨z, rfl⟩
        · exact .inl rfl
        · exact .inr trivial
      | j + 2 => cases hj
    intro s hs b hb e he
    simp only [exInst, exSs, List.mem_cons, List.not_mem_nil, or_false] at hs
    rcases hs with rfl | rfl
    · simp only [List.mem_cons, List.not_mem_nil, or_false] at hb
      rcases hb with rfl | rfl
      · simp only [List.mem_cons, List.not_mem_nil, or_false] at he
        rcases he with rfl | rfl
        · exact key _ _ _ _ _ (by decide) (.inr ⟨_, rfl⟩)
        · exact key _ _ _ _ _ (by decide) (.inl rfl)
      · simp only [List.mem_cons, List.not_mem_nil, or_false] at he
        rcases he with rfl | rfl
        · exact key _ _ _ _ _ (by decide) (.inr ⟨_, rfl⟩)
        · exact fun h => absurd rfl h
    · simp only [List.mem_cons, List.not_mem_nil, or_false] at hb
      subst hb
      simp only [List.mem_cons, List.not_mem_nil, or_false] at he
      subst he
      exact key _ _ _ _ _ (by decide) (.inl rfl)

private theorem exOrder_ok : exOrder.Ok exInst.cat := by
  have hm : ∀ a b, (a, b) ∈ [("s", "m")] ↔ (exCat.models a b).isSome = true := by
    intro a b
    simp only [exCat, upd2, List.mem_singleton, Prod.mk.injEq]
    by_cases h : a = "s" ∧ b = "m" <;> simp [h]
  refine ⟨hm, by decide, hm, by decide, ?_, by decide⟩
  intro n
  simp only [exInst, exOrder, exCat, upd, List.mem_singleton]
  by_cases h : n = "s" <;> simp [h]

example : ∃ d, loadFiles exOrder exInst.files = .ok (exInst.old exOrder) d := ⟨_, loadFiles_ok exInst_ok exOrder_ok⟩

private def Load.name {α} : Load α → String
  | .ok _ _ => "ok"
  | .err _ => "error"
  | .panic _ => "panic"
private def Load.files {α} : Load α → Files
  | .ok _ d => d
  | .err d => d
  | .panic d => d
private def exPath : Path := ⟨"s", 1, "m", 7⟩
/-- A data file in which a row is deleted that is not there. -/
private def exCrash : Option Bytes := some ((exInst.stamps ("s", "m")).hdr v1Data ++ OBatch.bytes .uint ⟨0, 2, 1, [del 0 1]⟩)

/-- A missing file, and the next attempt with the file. -/
example : Load.name (loadFiles exOrder (exInst.files.put exPath none)) = "error" ∧
    Load.name (loadFiles exOrder ((Load.files (loadFiles exOrder (exInst.files.put exPath none))).put exPath (exInst.files.data exPath))) = "ok" := by
  decide +kernel

/-- A crash, and the next attempt with the right file. -/
example : Load.name (loadFiles exOrder (exInst.files.put exPath exCrash)) = "panic" ∧
    Load.name (loadFiles exOrder ((Load.files (loadFiles exOrder (exInst.files.put exPath exCrash))).put exPath (exInst.files.data exPath))) = "error" := by
  decide +kernel

end Example

end Verif.Old

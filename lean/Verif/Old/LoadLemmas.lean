import Verif.Old.Load
import Verif.Old.DataTheorems
import Verif.Old.LogTheorems
import Verif.Header.Theorems
import Verif.Server.UpgradeTheorems
/-!
Lemmas for C61: what is loaded from the files of an old installation.
-/
namespace Verif.Old
open Verif.Gns (Cat Model Consistent Distinct Typed EnvOnly PkNonNull fget)
open Verif.Enc (Event)
open Verif.Server (MKey Path Rows pathOf OldOk)
open Verif.Header (Spec FileSpec Host readMeta writeMeta)
open Verif.Dml (Key Cells RowObj Tbl ATable kget Inv abs normCells CellOk RowOk RowInv)
open Verif.Batch (Rec others zipCells Vals TagOk MOk LifeOk)

/-! ### Specification -/

/-- When and where a file was created. -/
structure Stamp where
  host : Host
  epoch : Nat

def Stamp.hdr (s : Stamp) (f : FileSpec) : Bytes := writeMeta v1 f s.host s.epoch

/-- An old installation: the sessions of its log and the catalogue they left, the sessions of its data files, and its users. -/
structure Inst where
  sessions : List (List Event)
  cat : Cat
  data : MKey → List (List OBatch)
  users : List (String × Bytes)
  sc : UInt64
  sv : UInt64
  stamp : Stamp
  stamps : MKey → Stamp

/-- The data file of a model. -/
def Inst.file (x : Inst) (k : MKey) (m : Model) : Bytes := (x.stamps k).hdr v1Data ++ dataBytes m.pkTag.uniq (x.data k)

/-- Its files. -/
def Inst.files (x : Inst) : Files where
  gns := some (x.stamp.hdr v1Log ++ oldLog x.sessions)
  sys := some (x.stamp.hdr v1Sys ++ sysBytes x.users x.sc x.sv)
  data p :=
    match pathOf x.cat (p.space, p.model) with
    | some (q, m) => if q = p then some (x.file (p.space, p.model) m) else none
    | none => none

/-- The values of a record fit the columns. -/
def RecFits (m : Model) (e : Rec) : Prop :=
  e.kind ≠ .delete → ∀ (j : Nat) (name : String) (f : Field) (c : Cell), (others m)[j]? = some name → fget m.fields name = some f →
    e.cells[j]? = some c → CellOk f.layers c

/-- The installation is in order. -/
structure Inst.Ok (x : Inst) : Prop where
  opened : x.sessions ≠ []
  events : ∀ s ∈ x.sessions, ∀ e ∈ s, OldEv e
  ids : ids (x.sessions.map (·.map payloadOf)) + 1 < 2 ^ 64
  log : Gns.applyAll Cat.empty x.sessions.flatten = .ok x.cat
  cons : Consistent x.cat
  props : ∀ n s, x.cat.spaces n = some s → Distinct s.props ∧ Typed s.props ∧ (EnvOnly s.props ∨ ∀ k, Gns.get s.props k = none)
  plain : ∀ a b m, x.cat.models a b = some m → m.deltas = [] ∧ PkNonNull m ∧ m.fields.length < 2 ^ 64
  data : ∀ a b m, x.cat.models a b = some m → Written m (x.data (a, b)) ∧
    ∀ s ∈ x.data (a, b), ∀ b ∈ s, ∀ e ∈ b.recs, RecFits m e
  users : UsersOk x.users
  stamp : x.stamp.epoch < 2 ^ 128
  stamps : ∀ k, (x.stamps k).epoch < 2 ^ 128

/-- The installation after a session in which nothing happened and the data files of these models were opened. -/
def Inst.reopened (x : Inst) (ks : List MKey) : Inst :=
  { x with sessions := x.sessions ++ [[]], data := fun k => if k ∈ ks then x.data k ++ [[]] else x.data k }

/-- The hash maps iterate over what is in them, in any order. -/
structure Order.Ok (o : Order) (c : Cat) : Prop where
  first : ∀ a b, (a, b) ∈ o.first c ↔ (c.models a b).isSome = true
  fnodup : (o.first c).Nodup
  keys : ∀ a b, (a, b) ∈ o.keys c ↔ (c.models a b).isSome = true
  knodup : (o.keys c).Nodup
  spaces : ∀ n, n ∈ o.spaces c ↔ (c.spaces n).isSome = true
  snodup : (o.spaces c).Nodup

/-- The table that a file stands for: the last change of each key. -/
def fileTable (m : Model) (es : List Rec) : ATable := fun k =>
  (lastRec k es).bind fun e =>
    if e.kind = .delete then none else some fun c => ((others m).idxOf? c).bind fun j => (e.cells[j]?).map Dml.norm

/-! ### One table -/

theorem others_nodup {m : Model} (hm : MOk m) : (others m).Nodup := hm.others_nodup

theorem zipCells_idx {m : Model} (hm : MOk m) {cs : List Cell} (hl : cs.length = (others m).length) (c : String) :
    zipCells (others m) cs c = ((others m).idxOf? c).bind fun j => cs[j]? := by
  cases h : (others m).idxOf? c with
  | none =>
    rw [List.idxOf?_eq_none_iff] at h
    exact (Batch.zip_foldl hm.others_nodup cs (fun _ => none) (by simp) hl.symm).2 c h
  | some j =>
    rw [List.idxOf?_eq_some_iff] at h
    exact zipCells_get hm hl (by rw [List.getElem?_eq_getElem h.1]; simpa using h.2.1)

theorem rec_len {m : Model} {ss : List (List OBatch)} (h : Written m ss) {e : Rec} (he : e ∈ ss.flatten.flatMap (·.recs)) :
    OldRec m.pkTag.uniq (others m).length e ∧ ∃ s ∈ ss, ∃ b ∈ s, e ∈ b.recs := by
  obtain ⟨b, hb, he⟩ := List.mem_flatMap.1 he
  obtain ⟨s, hs, hb⟩ := List.mem_flatten.1 hb
  have := (h.batches s hs b hb).recs e he
  rw [(h.plain s hs b hb).2] at this
  exact ⟨this, s, hs, b, hb, he⟩

/-- What is loaded from a data file is a table of the model. -/
theorem Loaded.inv {m : Model} (hm : MOk m) (hd : m.deltas = []) {ss : List (List OBatch)} (h : Written m ss)
    (hf : ∀ s ∈ ss, ∀ b ∈ s, ∀ e ∈ b.recs, RecFits m e) {t : Tbl} (hl : Loaded m (ss.flatten.flatMap (·.recs)) t) :
    Inv m t ∧ Vals TagOk t ∧ (∀ r ∈ t.heap, r.revised < 2 ^ 64) ∧ t.queue = [] := by
  refine ⟨⟨hl.model, hl.rinv.nodup, ?_⟩, ?_, ?_, hl.queue⟩
  · intro x hx
    obtain ⟨r, h1, h2⟩ := hl.rinv.valid x hx
    obtain ⟨e, g1, g2, g3⟩ := hl.heap r (List.mem_of_getElem? h1)
    obtain ⟨k1, s, hs, b, hb, he⟩ := rec_len h g1
    refine ⟨by rw [← h2, g3]; exact k1.key, r, h1, h2, by rw [g3, hd]; rfl, ?_⟩
    subst g3
    intro k
    have hlen := k1.len g2
    refine ⟨?_, ?_⟩
    · intro f hf' hk
      have hko : k ∈ others m := Batch.mem_others.2 ⟨by simp [hf'], hk⟩
      obtain ⟨j, hj, hjk⟩ := List.mem_iff_getElem.1 hko
      have hg : (others m)[j]? = some k := by rw [List.getElem?_eq_getElem hj, hjk]
      have hc : e.cells[j]? = some (e.cells[j]'(by omega)) := by simp
      exact ⟨_, (zipCells_get hm hlen hg).trans hc, hf s hs b hb e he g2 j k f _ hg hf' hc⟩
    · intro hk
      refine (Batch.zip_foldl hm.others_nodup e.cells (fun _ => none) (by simp) hlen.symm).2 k ?_
      rw [Batch.mem_others]
      rintro ⟨a, b⟩
      rcases hk with hk | hk
      · rw [hk] at a; cases a
      · exact b hk
  · intro r hr k c hc
    obtain ⟨e, g1, g2, g3⟩ := hl.heap r hr
    obtain ⟨k1, -⟩ := rec_len h g1
    subst g3
    have hc := (zipCells_idx hm (k1.len g2) k).symm.trans hc
    obtain ⟨j, -, hj⟩ := Option.bind_eq_some_iff.1 hc
    exact k1.vals c (List.mem_of_getElem? hj)
  · intro r hr
    obtain ⟨e, g1, g2, g3⟩ := hl.heap r hr
    rw [g3]
    exact (rec_len h g1).1.txn

/-- It stands for the table of the file. -/
theorem Loaded.table {m : Model} (hm : MOk m) {ss : List (List OBatch)} (h : Written m ss) {t : Tbl}
    (hl : Loaded m (ss.flatten.flatMap (·.recs)) t) : abs t = fileTable m (ss.flatten.flatMap (·.recs)) := by
  funext k
  have hr := hl.rows hm h k
  have hab : abs t k = (rowOf t k).map fun r => normCells r.cells := by
    rw [abs, rowOf, Option.map_bind]; rfl
  rw [hab, fileTable]
  cases he : lastRec k (ss.flatten.flatMap (·.recs)) with
  | none => simp only [he] at hr; rw [hr]; rfl
  | some e =>
    simp only [he, Option.bind_some] at hr ⊢
    split
    · rename_i hk; rw [if_pos hk] at hr; rw [hr]; rfl
    · rename_i hk
      rw [if_neg hk] at hr
      obtain ⟨r, h1, -, -, h3⟩ := hr
      rw [h1, Option.map_some, Option.some.injEq]
      funext c
      rw [normCells]
      cases hc : (others m).idxOf? c with
      | some j =>
        rw [List.idxOf?_eq_some_iff] at hc
        rw [Option.bind_some, h3 j c (by rw [List.getElem?_eq_getElem hc.1]; simpa using hc.2.1)]
      | none =>
        obtain ⟨i, -, hi⟩ := Option.bind_eq_some_iff.1 h1
        obtain ⟨e', g1, g2, g3⟩ := hl.heap r (List.mem_of_getElem? hi)
        have := zipCells_idx hm ((rec_len h g1).1.len g2) c
        rw [hc] at this
        rw [g3]
        simp only [this, Option.bind_none, Option.map_none]

/-! ### All files -/

def toRows (t : Tbl) : Rows := ⟨t.heap, t.idx, t.ver, t.queue⟩

/-- The rows that are loaded. -/
def Inst.rows (x : Inst) (a b : String) : Rows :=
  match x.cat.models a b with
  | some m => toRows ((applyBatches (Tbl.empty m) (x.data (a, b)).flatten).getD (Tbl.empty m))
  | none => Rows.none

theorem v1_fits : Header.Fits v1 v1Log ∧ Header.Fits v1 v1Data ∧ Header.Fits v1 v1Sys := by
  refine ⟨⟨?_, ?_, ?_, ?_, ?_, ?_, ?_⟩, ⟨?_, ?_, ?_, ?_, ?_, ?_, ?_⟩, ⟨?_, ?_, ?_, ?_, ?_, ?_, ?_⟩⟩ <;> decide +kernel

theorem hdr_length (s : Stamp) (f : FileSpec) : (s.hdr f).length = 64 := Header.encode_length _ _ _ _ _ _ (by simp)

theorem hdr_read {s : Stamp} (h : s.epoch < 2 ^ 128) {f : FileSpec} (hf : Header.Fits v1 f) (r : Bytes) :
    ∃ y, readMeta v1 f (s.hdr f ++ r) = .ok y := ⟨_, Header.C10_own_files_accepted hf s.host h r⟩

theorem hdr_drop (s : Stamp) (f : FileSpec) (r : Bytes) : (s.hdr f ++ r).drop HDR = r := by
  rw [show HDR = (s.hdr f).length from (hdr_length s f).symm, List.drop_left]

theorem pathOf_some {c : Cat} {k : MKey} {p : Path} {m : Model} (h : pathOf c k = some (p, m)) :
    c.models k.1 k.2 = some m ∧ (p.space, p.model) = k := by
  rw [pathOf] at h
  split at h
  · rename_i hm
    cases h
    exact ⟨hm, rfl⟩
  · cases h

theorem pathOf_of {c : Cat} (hc : Consistent c) {k : MKey} {m : Model} (h : c.models k.1 k.2 = some m) :
    ∃ p, pathOf c k = some (p, m) := by
  obtain ⟨s, hs, -⟩ := hc.owned _ _ _ h
  exact ⟨_, by rw [pathOf, hs, h]⟩

theorem Inst.files_data {x : Inst} {k : MKey} {p : Path} {m : Model} (h : pathOf x.cat k = some (p, m)) :
    x.files.data p = some (x.file k m) := by
  have hk := (pathOf_some h).2
  simp only [Inst.files, hk, h, if_true]

theorem Inst.Ok.mok {x : Inst} (hx : x.Ok) {a b : String} {m : Model} (h : x.cat.models a b = some m) : MOk m := by
  obtain ⟨h1, h2, h3⟩ := hx.plain a b m h
  exact Batch.LifeOk.mok ⟨hx.cons.models a b m h, h2, by rw [h1]; simp, by rw [h1]; simp, h3⟩

theorem Inst.Ok.table {x : Inst} (hx : x.Ok) {a b : String} {m : Model} (h : x.cat.models a b = some m) :
    ∃ t, applyBatches (Tbl.empty m) (x.data (a, b)).flatten = some t ∧ x.rows a b = toRows t ∧
      Loaded m ((x.data (a, b)).flatten.flatMap (·.recs)) t := by
  obtain ⟨t, h1, h2⟩ := load_written (hx.plain a b m h).1 (hx.data a b m h).1
  exact ⟨t, h1, by rw [Inst.rows, h]; simp only [h1, Option.getD_some], h2⟩

theorem loadOne_ok {x : Inst} (hx : x.Ok) {k : MKey} {p : Path} {m : Model} (h : pathOf x.cat k = some (p, m)) {d : Files}
    (hd : d.data p = x.files.data p) (y : Tables) :
    loadOne x.cat k y d = .ok (fun a b => if a = k.1 ∧ b = k.2 then x.rows k.1 k.2 else y.1 a b, p :: y.2) (d.append p [REOPEN]) := by
  have hm := (pathOf_some h).1
  obtain ⟨t, h1, h2, -⟩ := hx.table hm
  obtain ⟨u, hu⟩ := hdr_read (hx.stamps k) v1_fits.2.1 (dataBytes m.pkTag.uniq (x.data k))
  have hr := readData_file (hx.data _ _ m hm).1.some (hx.data _ _ m hm).1.batches h1
  rw [loadOne]
  simp only [h, hd, Inst.files_data h, Inst.file, hu, hdr_drop, show x.data k = x.data (k.1, k.2) from rfl, hr]
  rw [h2]
  rfl

/-- Write at the end of some data files. -/
def appendAll (d : Files) (ps : List Path) (x : Bytes) : Files := ps.foldl (fun d p => d.append p x) d

theorem closeData_eq : ∀ (ps : List Path) (d : Files), closeData d ps = appendAll d ps [CLOSE]
  | [], _ => rfl
  | p :: ps, d => by rw [closeData, closeData_eq ps]; rfl

theorem appendAll_data (z : Bytes) : ∀ {ps : List Path} {d : Files} (p : Path), ps.Nodup →
    (appendAll d ps z).data p = if p ∈ ps then (d.data p).map (· ++ z) else d.data p
  | [], d, p, _ => by simp [appendAll]
  | q :: ps, d, p, h => by
    rw [List.nodup_cons] at h
    rw [show appendAll d (q :: ps) z = appendAll (d.append q z) ps z from rfl, appendAll_data z p h.2]
    by_cases hq : p = q
    · subst hq
      simp [h.1, Files.append]
    · simp only [List.mem_cons, hq, false_or, Files.append, if_false]

theorem appendAll_gns (z : Bytes) : ∀ (ps : List Path) (d : Files), (appendAll d ps z).gns = d.gns ∧ (appendAll d ps z).sys = d.sys
  | [], _ => ⟨rfl, rfl⟩
  | p :: ps, d => appendAll_gns z ps (d.append p z)

def pathsOf (c : Cat) (ks : List MKey) : List Path := ks.filterMap fun k => (pathOf c k).map (·.1)

theorem loadAll_ok {x : Inst} (hx : x.Ok) : ∀ {ks : List MKey} {d : Files} {y : Tables}, ks.Nodup →
    (∀ k ∈ ks, ∃ p m, pathOf x.cat k = some (p, m) ∧ d.data p = x.files.data p) →
    loadAll x.cat ks y d = (.ok (fun a b => if (a, b) ∈ ks then x.rows a b else y.1 a b, (pathsOf x.cat ks).reverse ++ y.2)
      (appendAll d (pathsOf x.cat ks) [REOPEN]), (pathsOf x.cat ks).reverse ++ y.2)
  | [], d, y, _, _ => by simp [loadAll, pathsOf, appendAll]
  | k :: ks, d, y, hn, h => by
    rw [List.nodup_cons] at hn
    obtain ⟨p, m, h1, h2⟩ := h k (by simp)
    have hp : pathsOf x.cat (k :: ks) = p :: pathsOf x.cat ks := by simp [pathsOf, h1]
    rw [loadAll, loadOne_ok hx h1 h2]
    simp only
    rw [loadAll_ok hx hn.2 ?_, hp]
    · simp only [List.reverse_cons, List.append_assoc, List.singleton_append]
      congr 2
      congr 1
      funext a b
      by_cases hk : (a, b) = k
      · subst hk
        simp [hn.1]
      · have : ¬(a = k.1 ∧ b = k.2) := fun e => hk (by rw [e.1, e.2])
        simp only [List.mem_cons, hk, false_or, this, if_false]
    · intro k' hk'
      obtain ⟨p', m', g1, g2⟩ := h k' (by simp [hk'])
      refine ⟨p', m', g1, ?_⟩
      have : p' ≠ p := by
        rintro rfl
        apply hn.1
        rw [← (pathOf_some h1).2, (pathOf_some g1).2]
        exact hk'
      simp only [Files.append, this, if_false, g2]

theorem pathsOf_nodup {c : Cat} {ks : List MKey} (h : ks.Nodup) : (pathsOf c ks).Nodup := by
  rw [pathsOf, List.Nodup, List.pairwise_filterMap]
  refine List.Pairwise.imp ?_ h
  intro k k' hne p hp p' hp' e
  subst e
  obtain ⟨⟨p1, m1⟩, h1, rfl⟩ := Option.map_eq_some_iff.1 hp
  obtain ⟨⟨p2, m2⟩, h2, e⟩ := Option.map_eq_some_iff.1 hp'
  simp only at e
  subst e
  exact hne ((pathOf_some h1).2.symm.trans (pathOf_some h2).2)

theorem mem_pathsOf {c : Cat} {ks : List MKey} {p : Path} :
    p ∈ pathsOf c ks ↔ (p.space, p.model) ∈ ks ∧ ∃ m, pathOf c (p.space, p.model) = some (p, m) := by
  rw [pathsOf, List.mem_filterMap]
  constructor
  · rintro ⟨k, hk', hk⟩
    obtain ⟨⟨p1, m1⟩, h1, rfl⟩ := Option.map_eq_some_iff.1 hk
    have := (pathOf_some h1).2
    simp only
    rw [this]
    exact ⟨hk', m1, h1⟩
  · rintro ⟨hk, m, hm⟩
    exact ⟨(p.space, p.model), hk, by rw [hm]; rfl⟩

theorem Inst.reopened_data {x : Inst} (hx : x.Ok) (p : Path) (ks : List MKey) :
    (x.reopened ks).files.data p = if p ∈ pathsOf x.cat ks then (x.files.data p).map (· ++ [REOPEN] ++ [CLOSE]) else x.files.data p := by
  by_cases hp : p ∈ pathsOf x.cat ks
  · rw [if_pos hp]
    obtain ⟨hk, m, hm⟩ := mem_pathsOf.1 hp
    have e : pathOf (x.reopened ks).cat (p.space, p.model) = some (p, m) := hm
    rw [Inst.files_data hm, Inst.files_data e, Option.map_some]
    simp only [Inst.file, Inst.reopened, hk, if_true]
    rw [dataBytes_more _ (hx.data _ _ m (pathOf_some hm).1).1.some]
    simp
  · rw [if_neg hp]
    simp only [Inst.files]
    rw [show (x.reopened ks).cat = x.cat from rfl]
    cases hq : pathOf x.cat (p.space, p.model) with
    | none => rfl
    | some qm =>
      obtain ⟨q, m⟩ := qm
      simp only
      split
      · rename_i e
        subst e
        have : (q.space, q.model) ∉ ks := fun h => hp (mem_pathsOf.2 ⟨h, m, hq⟩)
        simp [Inst.file, Inst.reopened, this]
      · rfl

theorem oldLog_more {ss : List (List Event)} (h : ss ≠ []) :
    oldLog (ss ++ [[]]) = oldLog ss ++ reopenRec (ids (ss.map (·.map payloadOf))) ++ closeRec (ids (ss.map (·.map payloadOf)) + 1) ∧
      ids ((ss ++ [[]]).map (fun s : List Event => s.map payloadOf)) = ids (ss.map (·.map payloadOf)) + 1 := by
  have e : (ss ++ [[]]).map (fun s : List Event => s.map payloadOf) = ss.map (·.map payloadOf) ++ [[]] := by simp
  obtain ⟨h2, h3⟩ := logBytes_more (ss := ss.map (·.map payloadOf)) (id := 0) (by simpa using h)
  simp only [Nat.zero_add] at h2
  rw [oldLog, oldLog, e, h2, h3]
  exact ⟨rfl, rfl⟩

theorem closed_again {x : Inst} (hx : x.Ok) {ks : List MKey} (hk : ks.Nodup) {d : Files}
    (hg : d.gns = some (x.stamp.hdr v1Log ++ oldLog x.sessions ++ reopenRec (ids (x.sessions.map (·.map payloadOf)))))
    (hs : d.sys = x.files.sys) {f : Path → Option Bytes}
    (hd : ∀ p, d.data p = if p ∈ pathsOf x.cat ks then (f p).map (· ++ [REOPEN]) else f p) :
    closeData (d.appendLog (closeRec (ids (x.sessions.map (·.map payloadOf)) + 1))) (pathsOf x.cat ks).reverse =
      { (x.reopened ks).files with data := fun p => if p ∈ pathsOf x.cat ks then (f p).map (· ++ [REOPEN] ++ [CLOSE]) else f p } := by
  have hn := pathsOf_nodup (c := x.cat) hk
  rw [closeData_eq]
  have e1 := appendAll_gns [CLOSE] (pathsOf x.cat ks).reverse (d.appendLog (closeRec (ids (x.sessions.map (·.map payloadOf)) + 1)))
  have hdat : (appendAll (d.appendLog (closeRec (ids (x.sessions.map (·.map payloadOf)) + 1)))
      (pathsOf x.cat ks).reverse [CLOSE]).data = fun p => if p ∈ pathsOf x.cat ks then (f p).map (· ++ [REOPEN] ++ [CLOSE]) else f p := by
    funext p
    rw [appendAll_data _ _ ((List.reverse_perm _).nodup_iff.2 hn)]
    simp only [List.mem_reverse, Files.appendLog, hd]
    split
    · cases f p <;> simp
    · rfl
  generalize appendAll (d.appendLog (closeRec (ids (x.sessions.map (·.map payloadOf)) + 1)))
    (pathsOf x.cat ks).reverse [CLOSE] = d' at e1 hdat ⊢
  obtain ⟨a, b, c⟩ := d'
  obtain ⟨e1, e2⟩ := e1
  simp only at e1 e2 hdat
  subst hdat
  have ea : a = (x.reopened ks).files.gns := by
    rw [e1, Files.appendLog, hg]
    show some _ = some _
    rw [show (x.reopened ks).sessions = x.sessions ++ [[]] from rfl, (oldLog_more hx.opened).1]
    simp only [List.append_assoc]
    rfl
  have eb : b = (x.reopened ks).files.sys := by rw [e2, Files.appendLog, hs]; rfl
  rw [ea, eb]

theorem reopened_files {x : Inst} (hx : x.Ok) (ks : List MKey) :
    { (x.reopened ks).files with
      data := fun p => if p ∈ pathsOf x.cat ks then (x.files.data p).map (· ++ [REOPEN] ++ [CLOSE]) else x.files.data p } =
    (x.reopened ks).files := by
  have h : (x.reopened ks).files.data = _ := funext fun p => Inst.reopened_data hx p ks
  generalize (x.reopened ks).files = d at h
  obtain ⟨a, b, c⟩ := d
  simp only at h
  rw [h]

/-- The catalogue and the rows are loaded, and the files are as after one more session in which nothing happened. -/
theorem loadGns_ok {x : Inst} (hx : x.Ok) {o : Order} (ho : o.Ok x.cat) :
    loadGns o x.files = .ok (x.cat, x.rows) (x.reopened (o.first x.cat)).files := by
  obtain ⟨u, hu⟩ := hdr_read hx.stamp v1_fits.1 (oldLog x.sessions)
  have hl := C59_log_is_read_partial (hdr_length x.stamp v1Log) hx.opened hx.events (by have := hx.ids; omega) hx.log
  have hopen : openLog (x.stamp.hdr v1Log ++ oldLog x.sessions) = .ok (x.cat, x.stamp.hdr v1Log ++ oldLog x.sessions ++
      reopenRec (ids (x.sessions.map (·.map payloadOf))), ids (x.sessions.map (·.map payloadOf)) + 1) := by
    rw [openLog, hl]; rfl
  have hall : ∀ k ∈ o.first x.cat, ∃ p m, pathOf x.cat k = some (p, m) ∧ x.files.data p = x.files.data p := by
    intro k hk
    obtain ⟨m, hm⟩ := Option.isSome_iff_exists.1 ((ho.first k.1 k.2).1 hk)
    obtain ⟨p, hp⟩ := pathOf_of hx.cons hm
    exact ⟨p, m, hp, rfl⟩
  have hrows : (fun a b => if (a, b) ∈ o.first x.cat then x.rows a b else Rows.none) = x.rows := by
    funext a b
    by_cases h : (x.cat.models a b).isSome = true
    · rw [if_pos ((ho.first a b).2 h)]
    · rw [if_neg (fun e => h ((ho.first a b).1 e)), Inst.rows]
      cases hm : x.cat.models a b with
      | none => rfl
      | some m => simp [hm] at h
  rw [loadGns]
  simp only [show x.files.gns = some (x.stamp.hdr v1Log ++ oldLog x.sessions) from rfl, hu, hopen]
  have hlo := loadAll_ok (y := (fun _ _ => Rows.none, [])) hx (d := Files.mk (some (x.stamp.hdr v1Log ++ oldLog x.sessions ++
    reopenRec (ids (x.sessions.map (fun s : List Event => s.map payloadOf))))) x.files.sys x.files.data) ho.fnodup hall
  rw [hlo]
  simp only [List.append_nil]
  rw [hrows]
  generalize hd : appendAll _ (pathsOf x.cat (o.first x.cat)) [REOPEN] = d
  rw [closed_again hx ho.fnodup (by rw [← hd]; exact (appendAll_gns _ _ _).1) (by rw [← hd]; exact (appendAll_gns _ _ _).2)
    (fun p => by rw [← hd]; exact appendAll_data _ _ (pathsOf_nodup ho.fnodup))]
  rw [reopened_files hx]

/-! ### What is loaded is in order -/

theorem apply_users {c c' : Cat} {e : Event} (he : e.code < 8) (h : Gns.apply c e = .ok c') : c'.users = c.users := by
  cases e with
  | createUser n x => simp [Event.code] at he
  | alterUser n x => simp [Event.code] at he
  | dropUser n => simp [Event.code] at he
  | createSpace n u p =>
    simp only [Gns.apply] at h
    split at h <;> cases h
    rfl
  | alterSpace i p =>
    simp only [Gns.apply] at h
    split at h
    · cases h
    · obtain ⟨r, -, h⟩ := Res.bind_eq_ok h
      split at h <;> cases h
      rfl
  | dropSpace i =>
    simp only [Gns.apply] at h
    obtain ⟨r, -, h⟩ := Res.bind_eq_ok h
    cases h; rfl
  | createModel i n l =>
    simp only [Gns.apply] at h
    split at h
    · cases h
    · split at h
      · cases h
      · split at h <;> cases h
        rfl
  | alterAdd i fs =>
    simp only [Gns.apply] at h
    obtain ⟨m, -, h⟩ := Res.bind_eq_ok h
    obtain ⟨r, -, h⟩ := Res.bind_eq_ok h
    cases h; rfl
  | alterUpdate i fs =>
    simp only [Gns.apply] at h
    obtain ⟨m, -, h⟩ := Res.bind_eq_ok h
    obtain ⟨r, -, h⟩ := Res.bind_eq_ok h
    cases h; rfl
  | alterRemove i ns =>
    simp only [Gns.apply] at h
    obtain ⟨m, -, h⟩ := Res.bind_eq_ok h
    split at h <;> cases h
    rfl
  | dropModel i =>
    simp only [Gns.apply] at h
    obtain ⟨s, -, h⟩ := Res.bind_eq_ok h
    split at h
    · split at h
      · cases h
      · split at h <;> cases h
        rfl
    · cases h

theorem applyAll_users : ∀ {es : List Event} {c c' : Cat}, (∀ e ∈ es, e.code < 8) → Gns.applyAll c es = .ok c' → c'.users = c.users
  | [], c, c', _, h => by cases h; rfl
  | e :: es, c, c', he, h => by
    rw [Gns.applyAll] at h
    obtain ⟨c1, h1, h2⟩ := Res.bind_eq_ok h
    rw [applyAll_users (fun x hx => he x (by simp [hx])) h2, apply_users (he e (by simp)) h1]

/-- The log says nothing about users. -/
theorem Inst.Ok.no_users {x : Inst} (hx : x.Ok) (n : String) : x.cat.users n = none := by
  rw [applyAll_users ?_ hx.log]
  · rfl
  · intro e he
    obtain ⟨s, hs, he⟩ := List.mem_flatten.1 he
    exact (hx.events s hs e he).code

/-- What is loaded. -/
def Inst.old (x : Inst) (o : Order) : Server.Old :=
  ⟨⟨withUsers (relist x.cat (o.keys x.cat)) x.users, x.rows⟩, o.spaces x.cat, o.keys x.cat, x.users.map (·.1)⟩

theorem loadFiles_ok {x : Inst} (hx : x.Ok) {o : Order} (ho : o.Ok x.cat) : loadFiles o x.files = .ok (x.old o) (x.reopened (o.first x.cat)).files := by
  obtain ⟨u, hu⟩ := hdr_read hx.stamp v1_fits.2.2 (sysBytes x.users x.sc x.sv)
  have hs := readSys_sysBytes hx.users x.sc x.sv []
  rw [List.append_nil] at hs
  rw [loadFiles, loadGns_ok hx ho]
  simp only [show (x.reopened (o.first x.cat)).files.sys = some (x.stamp.hdr v1Sys ++ sysBytes x.users x.sc x.sv) from rfl, hu, hdr_drop, hs]
  rfl

theorem old_ok {x : Inst} (hx : x.Ok) {o : Order} (ho : o.Ok x.cat) : OldOk (x.old o) := by
  have hsp : ∀ {n s}, (x.old o).srv.cat.spaces n = some s → ∃ s', x.cat.spaces n = some s' ∧
      s = { s' with models := ((o.keys x.cat).filter fun k => k.1 = n).map (·.2) } := by
    intro n s h
    obtain ⟨s', h1, h2⟩ := Option.map_eq_some_iff.1 (show (x.cat.spaces n).map _ = some s from h)
    exact ⟨s', h1, h2.symm⟩
  refine ⟨?_, ⟨?_, ?_, ?_, hx.cons.models⟩, ?_, ho.snodup, ho.keys, ho.knodup, ?_, hx.users.nodup, ?_, ?_, hx.plain, ?_⟩
  · intro a b h
    have h : x.cat.models a b = none := h
    show x.rows a b = _
    rw [Inst.rows, h]
  · intro s sp n h hn
    obtain ⟨s', h1, rfl⟩ := hsp h
    obtain ⟨k, hk, rfl⟩ := List.mem_map.1 hn
    obtain ⟨hk', e⟩ := List.mem_filter.1 hk
    have e : k.1 = s := by simpa using e
    subst e
    exact Option.isSome_iff_exists.1 ((ho.keys k.1 k.2).1 hk')
  · intro s n m h
    obtain ⟨sp, h1, -⟩ := hx.cons.owned s n m h
    refine ⟨{ sp with models := ((o.keys x.cat).filter fun k => k.1 = s).map (·.2) }, ?_, ?_⟩
    · show (x.cat.spaces s).map _ = _
      rw [h1]; rfl
    · have hm : x.cat.models s n = some m := h
      exact List.mem_map.2 ⟨(s, n), List.mem_filter.2 ⟨(ho.keys s n).2 (by simp [hm]), by simp⟩, rfl⟩
  · intro s sp h
    obtain ⟨s', h1, rfl⟩ := hsp h
    simp only
    rw [List.Nodup, List.pairwise_map]
    refine List.Pairwise.imp_of_mem ?_ (ho.knodup.filter _)
    intro a b ha hb hne e
    have e1 : a.1 = s := by simpa using (List.mem_filter.1 ha).2
    have e2 : b.1 = s := by simpa using (List.mem_filter.1 hb).2
    exact hne (Prod.ext (e1.trans e2.symm) e)
  · intro n
    show n ∈ o.spaces x.cat ↔ ((x.cat.spaces n).map _).isSome = true
    rw [ho.spaces, Option.isSome_map]
  · intro n
    show n ∈ x.users.map (·.1) ↔ ((x.cat.users n).or ((x.users.find? fun u => decide (u.1 = n)).map (·.2))).isSome = true
    rw [hx.no_users, Option.none_or, Option.isSome_map, List.find?_isSome]
    simp
  · intro n s h
    obtain ⟨s', h1, rfl⟩ := hsp h
    rfl
  · intro n s h
    obtain ⟨s', h1, rfl⟩ := hsp h
    exact hx.props n s' h1
  · intro a b t ht
    obtain ⟨m, hm, rfl⟩ := Option.map_eq_some_iff.1 (show (x.cat.models a b).map _ = some t from ht)
    obtain ⟨t, h1, h2, h3⟩ := hx.table hm
    have := h3.inv (hx.mok hm) (hx.plain a b m hm).1 (hx.data a b m hm).1 (hx.data a b m hm).2
    have e : (⟨m, (x.rows a b).heap, (x.rows a b).idx, (x.rows a b).ver, (x.rows a b).queue⟩ : Tbl) = t := by
      rw [h2]
      have := h3.model
      obtain ⟨tm, _, _, _, _⟩ := t
      simp only at this
      subst this
      rfl
    show Inv m (⟨m, (x.rows a b).heap, (x.rows a b).idx, (x.rows a b).ver, (x.rows a b).queue⟩ : Tbl) ∧ _
    rw [← e] at this
    exact this

end Verif.Old

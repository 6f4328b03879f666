import Verif.Server.WholeTheorems
/-!
A start that fails, and the files that it leaves (`restore` and `initialize_new`, `storage/v2/mod.rs:101-155`; `entrypoint`,
`main.rs:81-129`).
-/
namespace Verif.Server
open Verif.Enc (Event)
open Verif.Dml (abs)
open Verif.Batch (LifeOk)
open Verif.Lex (ascii)
open Verif.Gns (Cat Model)
open Verif.Journal (JW openJournal eventLogDecode HEADER)

/-- The files before a start; the file of a model may be missing. -/
structure Files where
  gns : Bytes
  data : Path → Option Bytes
  keys : List MKey

/-- What the files of a clean shutdown are. -/
def Disk.files (d : Disk) : Files := ⟨d.gns, fun p => some (d.data p), d.keys⟩

/-- The outcome of the loop over the models: all are loaded, a file is too large, or one could not be opened. -/
inductive Opening where
  | ok (l : Loaded) (data : Path → Option Bytes)
  | full
  | failed (data : Path → Option Bytes)

/-- Change one file. -/
def putFile (f : Path → Option Bytes) (p : Path) (b : Bytes) : Path → Option Bytes := fun x => if x = p then some b else f x

/-- The files of the models are opened and read (`storage/v2/mod.rs:124-137`); a file that is opened gets a "reopened" event
(`raw/mod.rs:67-77, 499-516`). At the first file that is missing or is refused the function returns the error (`?`, line 131);
the drivers opened before are dropped, and the writer has no `Drop` that would close the file (`raw/mod.rs:472-478`). A file
that is refused is not changed: it was only read. -/
def openTry (S : Setup) (c : Cat) : List MKey → Loaded → (Path → Option Bytes) → Opening
  | [], l, f => .ok l f
  | k :: ks, l, f =>
    match pathOf c k with
    | some (p, m) =>
      match f p with
      | some b =>
        match Batch.start S.lim m b with
        | .ok (s, _) => openTry S c ks (l.set k s) (putFile f p s.w.log.disk)
        | .full => .full
        | .bad => .failed f
      | none => .failed f
    | none => .failed f

/-- The outcome of a start: the server runs, a file is too large, or it ends with an error and leaves these files. -/
inductive Started where
  | up (z : Sys)
  | full
  | failed (d : Files)

/-- The root password is set if it changed (`storage/v2/mod.rs:138-151`), and the server runs. -/
def rooted (S : Setup) (st : Start) (keys : List MKey) (c : Cat) (gw : JW) (l : Loaded) (data : Path → Option Bytes) : Started :=
  match Gns.session c st.ops with
  | (c, es) =>
    match commitEvs S gw es with
    | .ok gw => .up ⟨⟨c, l.rows⟩, l.drv, gw, keys⟩
    | .full => .full
    | .bad => .failed ⟨gw.log.disk, data, keys⟩

/-- A start with the files that it leaves (`restore`, `storage/v2/mod.rs:120-155`). The error goes through `load_all`
(`engine/mod.rs:65-86`) to `entrypoint`, which calls `engine::finish` only if loading succeeded (`main.rs:106-119`). -/
def tryBoot (S : Setup) (st : Start) (order : List MKey → List MKey) (d : Files) : Started :=
  match openJournal (eventLogDecode 11 Gns.gnsApply) Cat.empty d.gns [] with
  | .ok (gw, c) =>
    match fits S gw with
    | .ok gw =>
      match openTry S c (order d.keys) (.none S) d.data with
      | .ok l data => rooted S st d.keys c gw l data
      | .full => .full
      | .failed data => .failed ⟨gw.log.disk, data, d.keys⟩
    | _ => .full
  | _ => .failed d

/-- It runs. -/
def Started.runs : Started → Bool
  | .up _ => true
  | _ => false

/-! ### A start with all files is the start of C56 -/

theorem openTry_openAll {S : Setup} {c : Cat} {data : Path → Bytes} : ∀ {ks : List MKey} {l l' : Loaded} {f : Path → Option Bytes},
    ks.Nodup → (∀ k ∈ ks, ∀ p m, pathOf c k = some (p, m) → f p = some (data p)) →
    openAll S c data ks l = .ok l' → ∃ f', openTry S c ks l f = .ok l' f'
  | [], l, l', f, _, _, h => by
    cases h
    exact ⟨f, rfl⟩
  | k :: ks, l, l', f, hn, hf, h => by
    rw [openAll] at h
    rw [openTry]
    cases hp : pathOf c k with
    | none => rw [hp] at h; cases h
    | some pm =>
      obtain ⟨p, m⟩ := pm
      rw [hp] at h
      simp only at h ⊢
      rw [hf k (by simp) p m hp]
      simp only
      obtain ⟨⟨s, u⟩, h1, h2⟩ := bind_ok h
      rw [h1]
      simp only
      refine openTry_openAll (List.nodup_cons.1 hn).2 ?_ h2
      intro k' hk' p' m' hp'
      have hne : p' ≠ p := by
        rintro rfl
        have e1 := pathOf_key hp
        have e2 := pathOf_key hp'
        have : k' = k := Prod.ext (e2.1.symm.trans e1.1) (e2.2.1.symm.trans e1.2.1)
        subst this
        exact (List.nodup_cons.1 hn).1 hk'
      simp only [putFile, if_neg hne]
      exact hf k' (by simp [hk']) p' m' hp'

/-- With the files of a clean shutdown, a start that succeeds in C56 succeeds here with the same server. -/
theorem tryBoot_of_boot {S : Setup} {st : Start} {order : List MKey → List MKey} {d : Disk} {z : Sys}
    (hn : (order d.keys).Nodup) (h : boot S st order d = .ok z) : tryBoot S st order d.files = .up z := by
  unfold boot at h
  unfold tryBoot
  simp only [Disk.files]
  cases ho : openJournal (eventLogDecode 11 Gns.gnsApply) Cat.empty d.gns [] with
  | ok r =>
    obtain ⟨gw, c⟩ := r
    rw [ho] at h
    simp only at h ⊢
    obtain ⟨gw1, v1, v2⟩ := bind_ok h
    obtain ⟨l, v3, v4⟩ := bind_ok v2
    obtain ⟨gw2, v5, v6⟩ := bind_ok v4
    cases v6
    obtain ⟨f', e⟩ := openTry_openAll (f := fun p => some (d.data p)) hn (fun _ _ _ _ _ => rfl) v3
    rw [v1]
    simp only [e, rooted, v5]
  | err e => rw [ho] at h; cases h
  | panic => rw [ho] at h; cases h
  | hang => rw [ho] at h; cases h

/-! ### Theorems -/

/-- A log that was written and not closed is refused. -/
theorem unclosed_refused {G : Type} {dec : Journal.Decode G} {g0 r : G} {w : JW} (hi : w.Idle) (hr : Journal.Reached dec g0 w r) :
    openJournal dec g0 w.log.disk [] = .err .io := by
  have := hr.scroll_err (rest := []) hi.hdr Journal.applyNext_nil
  rw [List.append_nil] at this
  rw [openJournal, this]
  rfl

/-- **C81 is violated.** Take any life of a server and a clean shutdown, and then a start that fails because a data file of a
model is missing or is refused, whatever the files of the models are. After it no start succeeds any more, whatever is done to
the files of the models: the files that were there before the failed start do not help, for the failed start left the log of the
catalogue open. -/
theorem C81_failed_start_violated {S : Setup} (hl : S.lim ≤ 2 ^ 62) (hg : S.gnsHdr.length = HEADER) {hash : Bytes}
    {z0 z : Sys} {before : List Act} {o : List (Q × Answer)} (h0 : install S hash = .ok z0)
    (h1 : z0.acts S before = .ok (z, o)) (hb : ∀ a ∈ before, ActOk a)
    {cl : List MKey → List MKey} {old : Path → Bytes} {d : Disk} (h2 : z.stop S cl old = .ok d)
    {st : Start} {op : List MKey → List MKey} {data : Path → Option Bytes} {d' : Files}
    (h3 : tryBoot S st op ⟨d.gns, data, d.keys⟩ = .failed d') :
    ∀ (st' : Start) (op' : List MKey → List MKey) (data' : Path → Option Bytes) (ks : List MKey),
      tryBoot S st' op' ⟨d'.gns, data', ks⟩ = .failed ⟨d'.gns, data', ks⟩ := by
  rcases install_ok hl hg hash with e | ⟨zi, e, k0, _⟩
  · rw [e] at h0; cases h0
  rw [e] at h0
  cases h0
  have k1 := k0.acts hl hb h1
  obtain ⟨w, gw, t, r, c1, c2, c3, c4, c5⟩ := k1.closed hl
  have hd : d.gns = w.log.disk := by
    rw [Sys.stop, c1] at h2
    simp only at h2
    obtain ⟨f, _, y⟩ := bind_ok h2
    cases y
    rfl
  have hd' : d'.gns = gw.log.disk := by
    rw [tryBoot] at h3
    simp only [hd, c2] at h3
    have hfit : fits S gw = .ok gw ∨ fits S gw = .full := by
      unfold fits; split
      · exact .inl rfl
      · exact .inr rfl
    rcases hfit with hfit | hfit
    · rw [hfit] at h3
      simp only at h3
      cases ho : openTry S r (op d.keys) (.none S) data with
      | ok l data1 =>
        rw [ho] at h3
        simp only [rooted] at h3
        cases hc : commitEvs S gw (Gns.session r st.ops).2 with
        | ok gw' => rw [hc] at h3; cases h3
        | full => rw [hc] at h3; cases h3
        | bad => rw [hc] at h3; cases h3; rfl
      | full => rw [ho] at h3; cases h3
      | failed data1 => rw [ho] at h3; cases h3; rfl
    · rw [hfit] at h3; cases h3
  intro st' op' data' ks
  rw [tryBoot]
  simp only [hd', unclosed_refused c3 c4]

/-- **C81 is violated.** The same holds of the data files: one that the failed start has opened is refused afterwards. -/
theorem C81_data_file_violated {lim : Nat} {md : Model} {file : Bytes} {w : JW} {T : Dml.Tbl} (hk : Batch.Kept md file w T)
    {s : Batch.Srv} (h : Batch.start lim md file = .ok (s, ())) : Batch.start lim md s.w.log.disk = .bad := by
  rcases start_kept (lim := lim) hk with e | ⟨e, _, hg⟩
  · rw [e] at h; cases h
  · rw [e] at h
    cases h
    rw [Batch.start, unclosed_refused hk.idle hk.reached]

/-- **C81 (partial).** A start that fails while it reads the log of the catalogue changes nothing. Missing: the failures after
that, which leave the log open (`C81_failed_start_violated`). -/
theorem C81_log_refused_partial {S : Setup} {st : Start} {op : List MKey → List MKey} {d : Files}
    (h : ∀ gw c, openJournal (eventLogDecode 11 Gns.gnsApply) Cat.empty d.gns [] ≠ .ok (gw, c)) :
    tryBoot S st op d = .failed d := by
  unfold tryBoot
  cases ho : openJournal (eventLogDecode 11 Gns.gnsApply) Cat.empty d.gns [] with
  | ok r => exact absurd ho (h r.1 r.2)
  | err e => rfl
  | panic => rfl
  | hang => rfl

/-- **C81 (partial).** A start that fails after loading (a port in use, for example) closes the files (`main.rs:115-119`), and the
next start finds the same models with the same rows. Missing: a model with a nullable primary key or with changed columns (C56),
and a failure while loading. -/
theorem C81_after_loading_partial {S : Setup} (hl : S.lim ≤ 2 ^ 62) (hg : S.gnsHdr.length = HEADER) {hash : Bytes}
    {z0 z z1 z2 : Sys} {before : List Act} {o : List (Q × Answer)} (h0 : install S hash = .ok z0)
    (h1 : z0.acts S before = .ok (z, o)) (hb : ∀ a ∈ before, ActOk a)
    {st st' : Start} {cl op cl' op' : List MKey → List MKey} (hcl : ∀ l, (cl l).Perm l) (hop : ∀ l, (op l).Perm l)
    (hcl' : ∀ l, (cl' l).Perm l) (hop' : ∀ l, (op' l).Perm l) {data data' : Path → Bytes} {d d' : Disk}
    (h2 : z.stop S cl data = .ok d) (h3 : boot S st op d = .ok z1)
    (h4 : z1.stop S cl' data' = .ok d') (h5 : boot S st' op' d' = .ok z2) :
    tryBoot S st op d.files = .up z1 ∧ tryBoot S st' op' d'.files = .up z2 ∧
    z2.srv.cat.models = z.srv.cat.models ∧
    ∀ sp m md t, LifeOk md → Holds S z sp m md t → ∃ t', z2.srv.tbl sp m = some t' ∧ abs t' = abs t := by
  rcases install_ok hl hg hash with e | ⟨zi, e, k0, _⟩
  · rw [e] at h0; cases h0
  rw [e] at h0
  cases h0
  have k1 := k0.acts hl hb h1
  have x1 : z.act S (.restart st cl op data) = .ok (z1, []) := by
    rw [Sys.act, h2]; simp only [Batch.Run.bind]; rw [h3]
  have x2 : z1.act S (.restart st' cl' op' data') = .ok (z2, []) := by
    rw [Sys.act, h4]; simp only [Batch.Run.bind]; rw [h5]
  obtain ⟨_, r2, r3, r4⟩ := k1.restart hl hcl hop x1
  obtain ⟨_, _, s3, s4⟩ := r2.restart hl hcl' hop' x2
  have keys : ∀ {y : Sys} {c : List MKey → List MKey} {f : Path → Bytes} {e : Disk}, y.stop S c f = .ok e → e.keys = y.keys := by
    intro y c f e h
    unfold Sys.stop at h
    split at h
    · obtain ⟨g, _, y2⟩ := bind_ok h
      cases y2
      rfl
    · cases h
  refine ⟨tryBoot_of_boot ?_ h3, tryBoot_of_boot ?_ h5, s3.trans r3, ?_⟩
  · rw [keys h2]; exact (hop _).nodup_iff.2 k1.nodup
  · rw [keys h4]; exact (hop' _).nodup_iff.2 r2.nodup
  · intro sp m md t hm ht
    obtain ⟨t1, g1, g2⟩ := r4 sp m md t hm ht
    obtain ⟨t2, g3, g4⟩ := s4 sp m md t1 hm g1
    exact ⟨t2, g3.tbl, g4.trans g2⟩

theorem commitEvs_trunc {S : Setup} (hl : S.lim ≤ 2 ^ 62) {P : Bytes → Prop} : ∀ {es : List Event} {w w' : JW} {r r' : Cat}, w.Idle →
    Journal.Reached gdec Cat.empty w r → Journal.TruncOk gdec Cat.empty P w.log.disk → Gns.applyAll r es = .ok r' →
    (∀ e ∈ es, Gns.EvOk e) → commitEvs S w es = .ok w' → Journal.TruncOk gdec Cat.empty P w'.log.disk
  | [], w, w', r, r', _, _, ht, _, _, h => by
    cases h
    exact ht
  | e :: es, w, w', r, r', hi, hr, ht, ha, he, h => by
    obtain ⟨r1, a1, a2⟩ := Res.bind_eq_ok ha
    obtain ⟨w1, e1, i1, d1, -⟩ := hi.commitEvent (Gns.toEv e)
    have hlen : w1.log.disk.length = w.log.disk.length + (40 + e.encode.length) := by
      rw [d1, List.length_append, Journal.evBytes_length]; rfl
    rw [commitEvs, e1] at h
    simp only [fits] at h
    by_cases hf : w1.log.disk.length < S.lim
    · rw [if_pos hf] at h
      have hwf : Enc.WfEvent e := Gns.wf_event e (he e (by simp)) (by omega)
      have hap : Gns.gnsApply r (Gns.toEv e) = .ok r1 := by
        simp only [Gns.gnsApply, Gns.toEv, Enc.C08_nothing_left_over e hwf, a1]
        simp
      have hr1 : Journal.Reached gdec Cat.empty w1 r1 := hr.commit (by omega) hi (Gns.code_lt e) e1 (by omega) hap
      exact commitEvs_trunc hl i1 hr1 (ht.commit (by omega) hr hi (Gns.code_lt e) e1 (by omega) hap) a2
        (fun x hx => he x (by simp [hx])) h
    · rw [if_neg hf] at h; cases h

/-- **C81 is violated.** A first start that is interrupted, at any point of what it writes to the log of the catalogue (before,
in or after the header, in or after the event that creates the root user), leaves a directory in which no start succeeds: the
log exists, so the next start reads it instead of making a new one (`load`, `storage/mod.rs:60-82`), and it is refused. -/
theorem C81_first_start_violated {S : Setup} (hl : S.lim ≤ 2 ^ 62) (hg : S.gnsHdr.length = HEADER) {hash : Bytes} {z0 : Sys}
    (h0 : install S hash = .ok z0) {p : Bytes} (hp : p <+: z0.gw.log.disk) (st : Start) (op : List MKey → List MKey)
    (data : Path → Option Bytes) (ks : List MKey) : tryBoot S st op ⟨p, data, ks⟩ = .failed ⟨p, data, ks⟩ := by
  have hno : (Journal.scroll gdec Cat.empty p).isOk = false := by
    cases hx : (Journal.scroll gdec Cat.empty p).isOk with
    | false => rfl
    | true =>
      exfalso
      by_cases hlen : HEADER ≤ p.length
      · obtain ⟨w, c1, i1, d1, r1⟩ := Journal.create_idle hg
        rw [install, c1] at h0
        simp only at h0
        obtain ⟨gw1, v1, v2⟩ := bind_ok h0
        obtain ⟨gw2, v3, v4⟩ := bind_ok v2
        cases v4
        have : gw1 = w := by
          unfold fits at v1
          split at v1
          · cases v1; rfl
          · cases v1
        subst this
        obtain ⟨s1, s2, _, s4⟩ := Gns.session_ok (os := (Start.init hash).ops) (c := Cat.empty)
          (c' := (Gns.session Cat.empty (Start.init hash).ops).1) (es := (Gns.session Cat.empty (Start.init hash).ops).2)
          rfl Gns.Cat.empty_consistent (rootOps_ok _)
        obtain ⟨r', a1, a2⟩ := s4 (fun _ => false) Cat.empty ⟨rfl, rfl, fun _ => .none⟩
        have t0 : Journal.TruncOk gdec Cat.empty (fun _ => False) gw1.log.disk := by
          intro p hp hl hok
          have : p = gw1.log.disk ++ [] := by
            rw [List.append_nil]
            refine hp.eq_of_length ?_
            have := hp.length_le
            rw [d1, hg] at this ⊢
            omega
          rw [this, (r1 _ gdec Cat.empty).scroll_err i1.hdr Journal.applyNext_nil] at hok
          cases hok
        exact commitEvs_trunc hl i1 (r1 _ _ _) t0 a1 s2 v3 p hp hlen hx
      · have hd : p.drop HEADER = [] := List.drop_eq_nil_of_le (by omega)
        rw [Journal.scroll, hd] at hx
        cases hx
  refine C81_log_refused_partial ?_
  intro gw c h
  obtain ⟨x, h1, _⟩ := Res.bind_eq_ok h
  change Journal.scroll gdec Cat.empty p = .ok x at h1
  rw [h1] at hno
  cases hno

section Example

private def ofl : Dml.FloatOps := ⟨fun a _ => a, fun a _ => a, fun a _ => a, fun a _ => a⟩
private def out : Outside :=
  ⟨Gns.fine 1, id, List.reverse, ofl, fun _ => none, fun _ => "", fun _ => [], fun _ => 0, true, fun _ => [], fun _ => [],
    fun sp => sp.models⟩
private def root : Sess := ⟨⟨"root", true⟩, none⟩
private def user : Sess := ⟨⟨"u", false⟩, some "s"⟩
private def asRoot (text : String) : Act := .query (out, root, ascii text, [])
private def asUser (text : String) (params : Bytes) : Act := .query (out, user, ascii text, params)
private def setup : Setup := ⟨100000, List.replicate 64 0, List.replicate 64 1⟩

/-- Two models, the second one with a row. -/
private def life : List Act :=
  [asRoot "create space s", asRoot "create model s.k(primary id: uint64, x: string)",
   asRoot "create model s.m(primary id: uint64, n: uint8)", asUser "insert into m(?, ?)" [2, 55, 10, 2, 49, 10]]

/-- The server after this life, and the files after the shutdown. -/
private def stopped : Option (Sys × Disk) :=
  match (install setup []).bind fun z => z.acts setup life with
  | .ok (z, _) =>
    match z.stop setup id (fun _ => []) with
    | .ok d => some (z, d)
    | _ => none
  | _ => none

/-- The number of rows of `s.m`. -/
private def rowsOf (z : Sys) : Nat := (z.srv.tbl "s" "m").elim 0 (·.idx.length)

/-- What a start does: the rows of `s.m`, or `none` and the length of the log of the catalogue. -/
private def seenAt : Started → Option Nat × Nat
  | .up z => (some (rowsOf z), 0)
  | .full => (none, 0)
  | .failed d => (none, d.gns.length)

/-- The start with all files; the start without the file of `s.m`; and after that the start with all files. -/
private def story : Option ((Option Nat × Nat) × Nat × (Option Nat × Nat) × (Option Nat × Nat)) :=
  stopped.map fun (_, d) =>
    let first := tryBoot setup .same id ⟨d.gns, fun p => if p.model = "m" then none else some (d.data p), d.keys⟩
    (seenAt (tryBoot setup .same id d.files), d.gns.length, seenAt first,
      match first with
      | .failed d' => seenAt (tryBoot setup .same id ⟨d'.gns, d.files.data, d.keys⟩)
      | _ => (some 1000, 0))

/-- The server starts with all files. It does not start without the file of `s.m`, and the log of the catalogue grows by one
event (64 bytes); and then it does not start with the file either. -/
theorem C81_missing_file_violated :
    ∃ n, story = some ((some 1, 0), n, (none, n + 64), (none, n + 64)) := by
  refine ⟨(stopped.elim 0 (·.2.gns.length)), ?_⟩
  decide +kernel

/-- The first start succeeds, and the log has more than its header. -/
example : (match install setup [] with | .ok z => decide (64 < z.gw.log.disk.length) | _ => false) = true := by
  decide +kernel

end Example

end Verif.Server

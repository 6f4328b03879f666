/-
C89: an error that ends the start of the server is printed with the step in which it happened. Partial: the code violates it in the
ways that are shown here.
-/
import Verif.Diag.Model
namespace Verif.Diag

/-! ## What a message should say -/

/-- The part of the server that a step belongs to. -/
def topic : Step → Sub
  | .readConfig | .readTls | .lockPid | .runtime | .signals => .init
  | .bind .. | .tls => .network
  | _ => .storage

/-- What a step is called. -/
def text : Step → String
  | .readConfig => "loading configuration file from disk"
  | .readTls => "loading TLS configuration from disk"
  | .lockPid => "locking PID file"
  | .runtime => "initializing runtime"
  | .signals => "binding system signals"
  | .oldCatalogue | .oldSystem | .backup => "loading storage-v1 in compatibility mode"
  | .oldModel p => "failed to restore model data from journal in `" ++ p ++ "`"
  | .newCatalogue => "creating gns"
  | .newSpace _ => "creating all spaces"
  | .newModel _ => "creating all models"
  | .newUser _ => "creating all users"
  | .create => "creating databases"
  | .catalogue => "loading gns"
  | .model p => "loading model driver in " ++ p
  | .password => "updating password to system database from configuration"
  | .bind h p => "failed to bind to port `" ++ h ++ ":" ++ toString p ++ "`"
  | .tls => "failed to initialize TLS socket"

/-- Which errors a step can end with: OpenSSL's in `init_tls`, those of the system everywhere else, and those of storage where files are
decoded. -/
def fits : Step → Raw → Bool
  | .tls, .ssl _ => true
  | .tls, _ => false
  | _, .io _ => true
  | .oldCatalogue, .storage _ | .oldCatalogue, .txn _ | .oldSystem, .storage _ | .oldSystem, .txn _ => true
  | .oldModel _, .storage _ | .oldModel _, .txn _ | .catalogue, .storage _ | .catalogue, .txn _ => true
  | .model _, .storage _ | .model _, .txn _ => true
  | .newCatalogue, .storage _ | .newSpace _, .storage _ | .newModel _, .storage _ | .newUser _, .storage _ => true
  | .create, .storage _ | .password, .storage _ => true
  | _, _ => false

/-- The steps whose errors do not tell the part of the server (see `C89_origin_violated`). -/
def homeless : Step → Bool
  | .readConfig | .readTls | .bind .. | .tls => true
  | _ => false

/-- The error `e` tells the reason `r` and the step. -/
def Tells (st : Step) (r : Raw) (e : Err) : Prop :=
  e.kind = r.kind ∧ e.dmsg = some (text st) ∧ e.origin = if homeless st then none else some (topic st)

/-! ## Reading the contexts off the list of steps -/

/-- The contexts after some steps in which nothing is thrown away. -/
def after : (Thread → Ctx) → List Op → (Thread → Ctx)
  | c, [] => c
  | c, .ctx t x :: ops => after (upd c t (x.run (c t))) ops
  | c, .step .. :: ops => after c ops

/-- All errors in steps tell the step. -/
def AllTell : (Thread → Ctx) → List Op → Prop
  | _, [] => True
  | c, .ctx t x :: ops => AllTell (upd c t (x.run (c t))) ops
  | c, .step t st w :: ops => (∀ r, fits st r = true → Tells st r (raise w r (c t)).1) ∧ AllTell c ops

theorem upd_self (c : Thread → Ctx) (t : Thread) : upd c t (c t) = c := by
  funext u
  simp only [upd]
  split
  · subst u; rfl
  · rfl

theorem after_append (c : Thread → Ctx) (a b : List Op) : after c (a ++ b) = after (after c a) b := by
  induction a generalizing c with
  | nil => rfl
  | cons o a ih => cases o <;> exact ih _

theorem allTell_append (c : Thread → Ctx) (a b : List Op) : AllTell c (a ++ b) ↔ AllTell c a ∧ AllTell (after c a) b := by
  induction a generalizing c with
  | nil => simp [AllTell, after]
  | cons o a ih =>
    cases o with
    | ctx t x => exact ih _
    | step t st w => simp only [List.cons_append, AllTell, after, ih, and_assoc]

/-- The steps of a list of operations. -/
def steps (ops : List Op) : List Step := ops.filterMap fun | .step _ st _ => some st | .ctx .. => none

theorem run_tells (f : Step → Outcome) (hd : ∀ st, (f st).dropped = []) (hf : ∀ st r, (f st).err = some r → fits st r = true) :
    ∀ (ops : List Op) (c : Thread → Ctx), AllTell c ops → ∀ e, run f c ops = .error e →
      ∃ a st b r, steps ops = a ++ st :: b ∧ (∀ x ∈ a, (f x).err = none) ∧ (f st).err = some r ∧ Tells st r e
  | [], _, _, _, h => by simp [run] at h
  | .ctx t x :: ops, c, ha, e, h => run_tells f hd hf ops _ ha e h
  | .step t st w :: ops, c, ha, e, h => by
    simp only [run] at h
    cases hr : (f st).err with
    | some r =>
      rw [hr, hd st] at h
      simp only [drops, Except.error.injEq] at h
      exact ⟨[], st, steps ops, r, rfl, by simp, hr, h ▸ ha.1 r (hf st r hr)⟩
    | none =>
      rw [hr, hd st] at h
      simp only [drops, upd_self] at h
      obtain ⟨a, st', b, r, h1, h2, h3, h4⟩ := run_tells f hd hf ops c ha.2 e h
      refine ⟨st :: a, st', b, r, ?_, ?_, h3, h4⟩
      · rw [show steps (.step t st w :: ops) = st :: steps ops from rfl, h1]; rfl
      · intro x hx
        rcases List.mem_cons.1 hx with rfl | hx
        · exact hr
        · exact h2 x hx

theorem run_ok (f : Step → Outcome) (hd : ∀ st, (f st).dropped = []) :
    ∀ (ops : List Op) (c : Thread → Ctx), (∀ st ∈ steps ops, (f st).err = none) → run f c ops = .ok (after c ops)
  | [], _, _ => rfl
  | .ctx t x :: ops, c, h => run_ok f hd ops _ h
  | .step t st w :: ops, c, h => by
    have h0 := h st (by simp [steps])
    simp only [run, h0, hd st, drops, upd_self, after]
    exact run_ok f hd ops c fun x hx => h x (by simp only [steps, List.filterMap_cons] at hx ⊢; exact List.mem_cons_of_mem _ hx)

/-! ## The start -/

theorem tells_of {st : Step} {c : Ctx} (hs : st ≠ .tls) (h : homeless st = false) (hd : c.dmsg = some (text st))
    (ho : c.origin = some (topic st)) : ∀ r, fits st r = true → Tells st r (raise none r c).1 := by
  intro r hr
  cases r with
  | io s | storage s | txn s => exact ⟨rfl, hd, by rw [h]; exact ho⟩
  | ssl s => cases st <;> first | exact absurd rfl hs | cases hr
  | config s => cases st <;> cases hr
  | full e => cases st <;> cases hr

theorem tells_io {st : Step} {c : Ctx} (hs : st = .readConfig ∨ st = .readTls) (hd : c.dmsg = some (text st))
    (ho : c.origin = none) : ∀ r, fits st r = true → Tells st r (raise none r c).1 := by
  intro r hr
  have h : homeless st = true := by rcases hs with rfl | rfl <;> rfl
  cases r with
  | io s => exact ⟨rfl, hd, by rw [h]; exact ho⟩
  | storage s | txn s | ssl s | config s | full s => rcases hs with rfl | rfl <;> cases hr

theorem config_tell (s : Setup) (c : Thread → Ctx) (h : (c .main).origin = none) : AllTell c (configOps s) := by
  unfold configOps
  cases s.file <;> cases s.endpoint.hasTls <;>
    simp only [Bool.false_eq_true, if_true, if_false, List.nil_append, List.append_nil, List.cons_append, AllTell, and_true] <;>
    first
    | exact tells_io (.inl rfl) rfl h
    | exact tells_io (.inr rfl) rfl h
    | exact ⟨tells_io (.inl rfl) rfl h, tells_io (.inr rfl) rfl h⟩

theorem after_config_pool (s : Setup) (c : Thread → Ctx) : after c (configOps s) .pool = c .pool := by
  unfold configOps
  cases s.file <;> cases s.endpoint.hasTls <;> rfl

theorem init_tell (c : Thread → Ctx) : AllTell c initOps :=
  ⟨tells_of (by decide) rfl rfl rfl, tells_of (by decide) rfl rfl rfl, tells_of (by decide) rfl rfl rfl, trivial⟩

/-- Steps with the same context. -/
theorem map_tell {α : Type} (g : α → Step) (l : List α) (c : Thread → Ctx)
    (h : ∀ a, g a ≠ .tls ∧ homeless (g a) = false ∧ (c .pool).dmsg = some (text (g a)) ∧ (c .pool).origin = some (topic (g a))) :
    AllTell c (l.map fun a => .step .pool (g a) none) ∧ after c (l.map fun a => .step .pool (g a) none) = c := by
  induction l with
  | nil => exact ⟨trivial, rfl⟩
  | cons a l ih => exact ⟨⟨tells_of (h a).1 (h a).2.1 (h a).2.2.1 (h a).2.2.2, ih.1⟩, ih.2⟩

theorem models_tell : ∀ (l : List String) (c : Thread → Ctx), (c .pool).origin = some .storage →
    AllTell c (l.flatMap modelOps) ∧ (after c (l.flatMap modelOps) .pool).origin = some .storage
  | [], _, h => ⟨trivial, h⟩
  | p :: l, c, h => by
    have ih := models_tell l (upd c .pool ⟨(c .pool).origin, some ("loading model driver in " ++ p)⟩) h
    exact ⟨⟨tells_of (by simp) rfl rfl h, ih.1⟩, ih.2⟩

theorem oldModels_tell : ∀ (l : List String) (c : Thread → Ctx), (c .pool).origin = some .storage →
    AllTell c (l.flatMap oldModelOps) ∧ after c (l.flatMap oldModelOps) = c
  | [], _, h => ⟨trivial, rfl⟩
  | p :: l, c, h => by
    have ih := oldModels_tell l c h
    refine ⟨⟨?_, ih.1⟩, ih.2⟩
    intro r hr
    cases r with
    | io s => simp only [raise, Wrap.run, Raw.inheritParent]; exact ⟨rfl, rfl, h⟩
    | storage s | txn s => simp only [raise, Wrap.run, Raw.inheritParent, Raw.into, h]; exact ⟨rfl, rfl, rfl⟩
    | ssl s | config s | full s => cases hr

theorem load_tell (d : Disk) (c : Thread → Ctx) (h : (c .pool).origin = some .storage) : AllTell c (loadOps d) := by
  cases d with
  | empty => exact ⟨tells_of (by decide) rfl rfl h, trivial⟩
  | current ms pw =>
    have hm := models_tell ms (after c [.ctx .pool (.setDmsg "loading databases"), .ctx .pool (.setDmsg "loading gns"),
      .step .pool .catalogue none]) h
    simp only [loadOps, allTell_append]
    refine ⟨⟨tells_of (by decide) rfl rfl h, trivial⟩, hm.1, ?_⟩
    cases pw
    · exact trivial
    · exact ⟨tells_of (by decide) rfl rfl hm.2, trivial⟩
  | old ms n m =>
    have hm := oldModels_tell ms (after c [.ctx .pool (.setDmsg "loading storage-v1 in compatibility mode"),
      .step .pool .oldCatalogue none]) h
    simp only [loadOps, allTell_append]
    refine ⟨⟨tells_of (by decide) rfl rfl h, trivial⟩, hm.1, ?_⟩
    rw [hm.2]
    refine ⟨⟨tells_of (by decide) rfl rfl h, tells_of (by decide) rfl rfl h, tells_of (by decide) rfl rfl h, trivial⟩, ?_⟩
    have k1 := fun c h => map_tell Step.newSpace (List.range n) c h
    have k2 := fun c h => map_tell Step.newModel (List.range ms.length) c h
    have k3 := fun c h => map_tell Step.newUser (List.range m) c h
    have h1 := k1 _ (fun i => ⟨by simp, rfl, rfl, h⟩ : ∀ i, _ ∧ _ ∧ ((after (after c [.ctx .pool (.setDmsg
      "loading storage-v1 in compatibility mode"), .step .pool .oldCatalogue none]) [.step .pool .oldSystem none, .step .pool .backup none,
      .ctx .pool (.setDmsg "upgrading storage-v1 to storage-v2 format"), .ctx .pool (.setDmsg "creating gns"),
      .step .pool .newCatalogue none, .ctx .pool (.setDmsg "creating all spaces")]) .pool).dmsg = _ ∧ _)
    refine ⟨h1.1, ?_⟩
    rw [h1.2]
    generalize hq : after (after c [.ctx .pool (.setDmsg "loading storage-v1 in compatibility mode"),
      .step .pool .oldCatalogue none]) _ = q
    have ho : (q .pool).origin = some .storage := by rw [← hq]; exact h
    simp only [AllTell, allTell_append]
    have h2 := k2 (upd q .pool ⟨(q .pool).origin, some "creating all models"⟩) (fun i => ⟨by simp, rfl, rfl, ho⟩)
    refine ⟨h2.1, ?_⟩
    have h2' := h2.2
    simp only [CtxOp.run]
    rw [h2']
    exact (k3 (upd _ .pool ⟨_, some "creating all users"⟩) fun i => ⟨by simp, rfl, rfl, ho⟩).1

theorem bind_tell (h : String) (p : Nat) (c : Thread → Ctx) (ops : List Op) (ha : AllTell c ops) : AllTell c (bindOp h p :: ops) := by
  refine ⟨?_, ha⟩
  intro r hr
  cases r <;> first | exact ⟨rfl, rfl, rfl⟩ | cases hr

theorem tls_tell (c : Thread → Ctx) : AllTell c tlsOps := by
  refine ⟨?_, trivial⟩
  intro r hr
  cases r <;> first | exact ⟨rfl, rfl, rfl⟩ | cases hr

theorem boot_tell (s : Setup) : AllTell fresh (boot s) := by
  unfold boot
  rw [allTell_append]
  refine ⟨config_tell s fresh rfl, ?_⟩
  rw [allTell_append]
  refine ⟨init_tell _, ?_⟩
  rw [show ∀ c ops, AllTell c (.ctx .pool (.setOrigin .storage) :: ops) = AllTell (upd c .pool ⟨some .storage, (c .pool).dmsg⟩) ops from
    fun _ _ => rfl, allTell_append]
  refine ⟨load_tell _ _ rfl, ?_⟩
  simp only [AllTell]
  cases s.endpoint with
  | insecure h p => exact bind_tell _ _ _ _ trivial
  | secure h p => exact bind_tell _ _ _ _ (tls_tell _)
  | multi h p h' p' => exact bind_tell _ _ _ _ (bind_tell _ _ _ _ (tls_tell _))

/-- C89 without errors that are thrown away: whatever is on the disk and however the server is configured, an error that ends the
start is that of the first step that fails, and it tells the step. Four kinds of steps do not tell the part of the server. -/
theorem C89_start_partial (s : Setup) (f : Step → Outcome) (hd : ∀ st, (f st).dropped = [])
    (hf : ∀ st r, (f st).err = some r → fits st r = true) (e : Err) (h : run f fresh (boot s) = .error e) :
    ∃ a st b r, steps (boot s) = a ++ st :: b ∧ (∀ x ∈ a, (f x).err = none) ∧ (f st).err = some r ∧ Tells st r e :=
  run_tells f hd hf _ _ (boot_tell s) e h

/-- If all goes well the server comes up. -/
theorem C89_up (s : Setup) (f : Step → Outcome) (hd : ∀ st, (f st).dropped = []) (h : ∀ st ∈ steps (boot s), (f st).err = none) :
    run f fresh (boot s) = .ok (after fresh (boot s)) :=
  run_ok f hd _ _ h

/-- The error that ends the start. -/
def told : Except Err (Thread → Ctx) → Option Err
  | .error e => some e
  | .ok _ => none

/-- A step that goes wrong, and all others go well. -/
def only (st : Step) (dropped : List Raw) (r : Raw) : Step → Outcome := fun x => if x = st then ⟨dropped, some r⟩ else ⟨[], none⟩

/-- The second of two models has a damaged file. -/
example : told (run (only (.model "data/b") [] (.storage "journal-corrupted")) fresh
      (boot ⟨true, .insecure "127.0.0.1" 2003, .current ["data/a", "data/b"] false⟩)) =
      some ⟨.storage "journal-corrupted", some .storage, some "loading model driver in data/b"⟩ ∧
    (⟨.storage "journal-corrupted", some .storage, some "loading model driver in data/b"⟩ : Err).str =
      "storage error error: loading model driver in data/b; storage error: journal-corrupted" := by
  constructor <;> decide +kernel

/-! ## Where it fails -/

/-- Four kinds of steps never tell the part of the server, whatever goes wrong in them: a port that is in use is a "runtime error". -/
theorem C89_origin_violated (s : Setup) (f : Step → Outcome) (hd : ∀ st, (f st).dropped = [])
    (hf : ∀ st r, (f st).err = some r → fits st r = true) (e : Err) (h : run f fresh (boot s) = .error e)
    (hh : ∀ st ∈ steps (boot s), (f st).err ≠ none → homeless st = true) : e.origin = none := by
  obtain ⟨a, st, b, r, h1, _, h3, h4⟩ := C89_start_partial s f hd hf e h
  have := h4.2.2
  rw [hh st (by rw [h1]; simp) (by rw [h3]; simp)] at this
  exact this

example : (told (run (only (.bind "127.0.0.1" 2003) [] (.io "Address already in use (os error 98)")) fresh
      (boot ⟨false, .insecure "127.0.0.1" 2003, .empty⟩))).map Err.str =
    some "runtime error: failed to bind to port `127.0.0.1:2003`; io error: Address already in use (os error 98)" := by
  decide +kernel

-- files for TLS are read only if there is an endpoint for it
example : Step.readTls ∉ steps (boot ⟨true, .insecure "127.0.0.1" 2003, .empty⟩) ∧
    Step.readTls ∈ steps (boot ⟨true, .multi "127.0.0.1" 2003 "127.0.0.1" 2004, .empty⟩) := by decide +kernel

/-- If an error of storage was thrown away in the same step, as it is for a name in a dictionary that is not UTF-8
(`common_encoding/r1/map.rs:212-219` with `r1/mod.rs:278-281`, then lines 112-121), the message tells nothing of the step: the context was
taken by the first of the two errors. -/
theorem C89_dropped_violated (s : Setup) (f : Step → Outcome) (a b : String) (hc : (f .catalogue) = ⟨[.storage a], some (.storage b)⟩)
    (hw : ∀ st, st ≠ .catalogue → f st = ⟨[], none⟩) (ms : List String) (pw : Bool) (hs : s.disk = .current ms pw) :
    run f fresh (boot s) = .error ⟨.storage b, none, none⟩ := by
  have skip : ∀ (ops rest : List Op) (c : Thread → Ctx), Step.catalogue ∉ steps ops → run f c (ops ++ rest) = run f (after c ops) rest := by
    intro ops
    induction ops with
    | nil => intro rest c _; rfl
    | cons o ops ih =>
      intro rest c hn
      cases o with
      | ctx t x => exact ih rest _ hn
      | step t st w =>
        simp only [steps, List.filterMap_cons, List.mem_cons, not_or] at hn
        simp only [List.cons_append, run, hw st (Ne.symm hn.1), drops, upd_self, after]
        exact ih rest c hn.2
  unfold boot
  rw [skip _ _ _ (by unfold configOps; cases s.file <;> cases s.endpoint.hasTls <;> decide), skip _ _ _ (by decide), hs]
  simp only [loadOps, List.cons_append, List.nil_append, run, hc, drops, raise, Raw.into, Ctx.null]

/-- The same with two models: the first start with such a file says only this. -/
example : (told (run (only .catalogue [.storage "structure-decode-corrupted-payload"] (.storage "structure-decode-corrupted-payload"))
      fresh (boot ⟨true, .secure "127.0.0.1" 2004, .current ["data/a", "data/b"] true⟩))).map Err.str =
    some "runtime error: storage error: structure-decode-corrupted-payload" := by
  decide +kernel

/-- The old log of the catalogue repairs itself after an event that cannot be read (`v1/raw/journal/raw.rs:245-247`): that error is thrown
away, and what goes wrong later with the rows of a model is not called an error of storage any more. -/
theorem C89_repaired_violated :
    told (run (fun st => if st = .oldCatalogue then ⟨[.txn "txn-payload-unexpected-eof"], none⟩
        else if st = .oldModel "data/a" then ⟨[], some (.storage "batch-corrupted-file")⟩ else ⟨[], none⟩) fresh
      (boot ⟨false, .insecure "127.0.0.1" 2003, .old ["data/a"] 1 1⟩)) =
    some ⟨.storage "batch-corrupted-file", none, some "failed to restore model data from journal in `data/a`"⟩ := by
  decide +kernel

/-- The context of the thread that loaded the databases is never cleared, and the thread goes back to the pool, from which it takes
statements (for as long as the pool keeps it). If one of them cannot write to the log of the catalogue, the server prints that this
happened while the last model was loaded. -/
theorem C89_stale_violated (file : Bool) (ep : Endpoint) (ms : List String) (p : String) (x : String) :
    ddlMessage (after fresh (boot ⟨file, ep, .current (ms ++ [p]) false⟩) .pool) (.io x) =
      "GNS driver failed with: " ++ ("storage error" ++ " error: " ++ ("loading model driver in " ++ p ++ "; " ++ ("io error: " ++ x))) := by
  have last : ∀ (l : List String) (c : Thread → Ctx), (c .pool).origin = some .storage →
      after c ((l ++ [p]).flatMap modelOps) .pool = ⟨some .storage, some ("loading model driver in " ++ p)⟩ := by
    intro l
    induction l with
    | nil => intro c h; simp [List.flatMap, modelOps, after, CtxOp.run, upd, h]
    | cons q l ih => intro c h; exact ih _ h
  have e : after fresh (boot ⟨file, ep, .current (ms ++ [p]) false⟩) .pool =
      ⟨some .storage, some ("loading model driver in " ++ p)⟩ := by
    unfold boot
    rw [after_append, after_append]
    simp only [after, loadOps, after_append, Bool.false_eq_true, if_false]
    cases ep <;> simp only [startOps, tlsOps, bindOp, after] <;>
      simp only [upd, reduceCtorEq, if_false] <;> exact last ms _ rfl
  rw [e]
  rfl

example : ddlMessage (after fresh (boot ⟨true, .insecure "127.0.0.1" 2003, .current ["data/a"] false⟩) .pool)
      (.io "No space left on device (os error 28)") =
    "GNS driver failed with: storage error error: loading model driver in data/a; io error: No space left on device (os error 28)" := by
  decide +kernel

-- how each kind of an error begins
example : [Kind.io "a", .storage "a", .txn "a", .other "a", .config "a"].map Kind.str =
    ["io error: a", "storage error: a", "txn error: a", "error: a", "config error: a"] := by decide +kernel

/-! ## The methods -/

/-- What an error is does not depend on how its context is made. -/
theorem wrap_kind (w : Wrap) (r : Raw) (c : Ctx) : (w.run r c).1.kind = r.kind ∧ (r.into c).1.kind = r.kind := by
  refine ⟨?_, by cases r <;> rfl⟩
  obtain ⟨o, m⟩ := c
  cases r with
  | full e => obtain ⟨k, o', m'⟩ := e; cases w <;> cases o' <;> cases m' <;> rfl
  | io | storage | txn | ssl | config => cases w <;> cases o <;> cases m <;> rfl

/-- The methods that set something set it, and all others leave or remove it. -/
theorem wrap_sets (r : Raw) (c : Ctx) (o : Sub) (m : String) :
    ((Wrap.setOrigin o).run r c).1.origin = some o ∧ ((Wrap.ipSetOrigin o).run r c).1.origin = some o ∧
    ((Wrap.ilSetOrigin o).run r c).1.origin = some o ∧ ((Wrap.inheritSetOrigin o).run r c).1.origin = some o ∧
    ((Wrap.setDmsg m).run r c).1.dmsg = some m ∧ ((Wrap.ipSetDmsg m).run r c).1.dmsg = some m ∧
    ((Wrap.ilSetDmsg m).run r c).1.dmsg = some m ∧ ((Wrap.inheritSetDmsg m).run r c).1.dmsg = some m ∧
    (Wrap.orphan.run r c).1 = ⟨r.kind, none, none⟩ ∧ (Wrap.orphanOrigin.run r c).1.origin = none ∧
    (Wrap.orphanDmsg.run r c).1.dmsg = none ∧
    (Wrap.setCtx o m).run r c = (⟨r.kind, some o, some m⟩, c) := by
  refine ⟨rfl, rfl, rfl, ?_, rfl, rfl, rfl, ?_, rfl, rfl, rfl, rfl⟩
  · simp only [Wrap.run]; split <;> rfl
  · simp only [Wrap.run]; split <;> rfl

/-- A context is taken at most once by errors of storage: the second of two has none. -/
theorem into_twice (a b : String) (c : Ctx) :
    ((Raw.storage b).into ((Raw.storage a).into c).2).1 = ⟨.storage b, none, none⟩ := rfl

/-- Errors of the system leave the context: the second of two tells the same. -/
theorem into_io_twice (a b : String) (c : Ctx) :
    ((Raw.io b).into ((Raw.io a).into c).2).1 = ⟨.io b, c.origin, c.dmsg⟩ := rfl

example : ((Raw.io "b").into ((Raw.io "a").into ⟨some .storage, some "step"⟩).2).1 = ⟨.io "b", some .storage, some "step"⟩ := by decide

end Verif.Diag

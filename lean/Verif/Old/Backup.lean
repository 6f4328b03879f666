import Verif.Base.Bytes
/-!
Model of the backup that an upgrade makes of the old files (`v1::load_gns_prepare_migration`,
`storage/v1/mod.rs:56-68`, and `move_files_recursively`, `/repo/server/src/util/os.rs:483-508`), file by
file. C85. Paths are relative to `/repo/server/src/engine`.

Paths of the file system are lists of names, from the working directory on. A directory is listed once,
in some order, and nobody else changes it meanwhile. `create_dir_all` fails if a file is in the way,
`rename` if the new place has no directory, if a directory is there, or if it is on another device.
-/
namespace Verif.Old.Backup

abbrev Path := List String

/-- What is under a path: a directory or a file. -/
inductive Obj
  | dir
  | file (b : Bytes)
  deriving DecidableEq

/-- A file system: the objects, and the device that a path is on. -/
structure FS where
  obj : Path → Option Obj
  dev : Path → Nat

/-- The contents of a directory in the order in which `read_dir` lists it. `other`: neither `is_dir` nor
`is_file`, for example a pipe or a link to nothing. -/
inductive Ents
  | nil
  | file (name : String) (rest : Ents)
  | dir (name : String) (kids : Ents) (rest : Ents)
  | other (name : String) (rest : Ents)

/-- A call of the file system, on a path below the backup directory: `create_dir_all`, or `rename` from
the same path below the working directory. -/
inductive Step
  | mk (d : Path)
  | mv (r : Path)
  deriving DecidableEq

/-- The entries of a directory (`rmove`, `os.rs:493-505`): a directory is made before what is in it is
moved (`:490-492`); what is neither a directory nor a file is left. The old directories are not removed. -/
def plan (d : Path) : Ents → List Step
  | .nil => []
  | .file n rest => .mv (d ++ [n]) :: plan d rest
  | .dir n kids rest => .mk (d ++ [n]) :: (plan (d ++ [n]) kids ++ plan d rest)
  | .other _ rest => plan d rest

/-- The names of the files in the working directory (`storage/v1/mod.rs:43-45`). -/
def GNS : String := "gns.db-tlog"
def SYS : String := "sys.db"
def DATA : String := "data"

/-- All calls of the backup (`storage/v1/mod.rs:62-67`). -/
def migrate (data : Ents) : List Step :=
  .mk [] :: .mk [DATA] :: (plan [DATA] data ++ [.mv [GNS], .mv [SYS]])

/-- The prefixes of a path. -/
def inits : Path → List Path
  | [] => [[]]
  | x :: p => [] :: (inits p).map (x :: ·)

/-- Whether a path is a file. -/
def FS.isFile (f : FS) (p : Path) : Bool :=
  match f.obj p with
  | some (.file _) => true
  | _ => false

/-- A call. `none`: it fails. -/
def FS.call (bak : Path) (f : FS) : Step → Option FS
  | .mk d =>
    if (inits (bak ++ d)).any f.isFile then none
    else some { f with obj := fun q => if q ∈ inits (bak ++ d) ∧ f.obj q = none then some .dir else f.obj q }
  | .mv r =>
    match f.obj r with
    | some (.file b) =>
      if f.obj (bak ++ r.dropLast) = some .dir ∧ f.obj (bak ++ r) ≠ some .dir ∧ f.dev r = f.dev (bak ++ r) then
        some { f with obj := fun q => if q = bak ++ r then some (.file b) else if q = r then none else f.obj q }
      else none
    | _ => none

/-- Calls one after the other, up to the first that fails. -/
def FS.calls (bak : Path) (f : FS) : List Step → Option FS
  | [] => some f
  | s :: ss => (f.call bak s).bind fun f => f.calls bak ss

/-! ### What is to be shown -/

/-- The paths of the files in a listing. -/
def files (d : Path) : Ents → List Path
  | .nil => []
  | .file n rest => (d ++ [n]) :: files d rest
  | .dir n kids rest => files (d ++ [n]) kids ++ files d rest
  | .other _ rest => files d rest

/-- The names in a directory. -/
def names : Ents → List String
  | .nil => []
  | .file n rest => n :: names rest
  | .dir n _ rest => n :: names rest
  | .other n rest => n :: names rest

/-- No directory has two entries with the same name. -/
def Distinct : Ents → Prop
  | .nil => True
  | .file n rest => n ∉ names rest ∧ Distinct rest
  | .dir n kids rest => n ∉ names rest ∧ Distinct kids ∧ Distinct rest
  | .other n rest => n ∉ names rest ∧ Distinct rest

/-- The files of the old installation. -/
def old (data : Ents) : List Path := files [DATA] data ++ [[GNS], [SYS]]

/-! ### Lists of calls -/

def Step.path : Step → Path
  | .mk d => d
  | .mv r => r

/-- Directories that calls make. -/
def mks (l : List Step) : List Path := l.filterMap fun s => match s with | .mk d => some d | .mv _ => none

/-- Files that calls move. -/
def mvs (l : List Step) : List Path := l.filterMap fun s => match s with | .mk _ => none | .mv r => some r

theorem mks_mk (d : Path) (l : List Step) : mks (.mk d :: l) = d :: mks l := rfl
theorem mks_mv (d : Path) (l : List Step) : mks (.mv d :: l) = mks l := rfl
theorem mvs_mk (d : Path) (l : List Step) : mvs (.mk d :: l) = mvs l := rfl
theorem mvs_mv (d : Path) (l : List Step) : mvs (.mv d :: l) = d :: mvs l := rfl
theorem mks_append (a b : List Step) : mks (a ++ b) = mks a ++ mks b := List.filterMap_append ..
theorem mvs_append (a b : List Step) : mvs (a ++ b) = mvs a ++ mvs b := List.filterMap_append ..

theorem mks_path {l : List Step} {d : Path} (h : d ∈ mks l) : d ∈ l.map Step.path := by
  obtain ⟨s, hs, e⟩ := List.mem_filterMap.1 h
  cases s with
  | mk d' => cases e; exact List.mem_map.2 ⟨_, hs, rfl⟩
  | mv r => cases e

theorem mvs_path {l : List Step} {r : Path} (h : r ∈ mvs l) : r ∈ l.map Step.path := by
  obtain ⟨s, hs, e⟩ := List.mem_filterMap.1 h
  cases s with
  | mk d' => cases e
  | mv r => cases e; exact List.mem_map.2 ⟨_, hs, rfl⟩

/-- Every directory that is needed is made before. -/
def Par (made : List Path) : List Step → Prop
  | [] => True
  | .mk d :: l => (∀ p ∈ inits d, p = d ∨ p ∈ made) ∧ Par (d :: made) l
  | .mv r :: l => r ≠ [] ∧ r.dropLast ∈ made ∧ Par made l

theorem Par.mono {l : List Step} : ∀ {m m' : List Path}, (∀ x ∈ m, x ∈ m') → Par m l → Par m' l := by
  induction l with
  | nil => intros; trivial
  | cons s l ih =>
    intro m m' hm h
    cases s with
    | mk d => exact ⟨fun p hp => (h.1 p hp).imp id (hm p), ih (fun x hx => by
        rcases List.mem_cons.1 hx with rfl | hx
        · exact List.mem_cons_self ..
        · exact List.mem_cons_of_mem _ (hm x hx)) h.2⟩
    | mv r => exact ⟨h.1, hm _ h.2.1, ih hm h.2.2⟩

theorem Par.append {a b : List Step} : ∀ {m : List Path}, Par m a → Par m b → Par m (a ++ b) := by
  induction a with
  | nil => intro m _ h; exact h
  | cons s a ih =>
    intro m h hb
    cases s with
    | mk d => exact ⟨h.1, ih h.2 (hb.mono fun x hx => List.mem_cons_of_mem _ hx)⟩
    | mv r => exact ⟨h.1, h.2.1, ih h.2.2 hb⟩

theorem Par.take {l : List Step} : ∀ {m : List Path} (n : Nat), Par m l → Par m (l.take n) := by
  induction l with
  | nil => intro m n h; simpa using h
  | cons s l ih =>
    intro m n h
    cases n with
    | zero => trivial
    | succ n =>
      cases s with
      | mk d => exact ⟨h.1, ih n h.2⟩
      | mv r => exact ⟨h.1, h.2.1, ih n h.2.2⟩

theorem inits_snoc (d : Path) (n : String) : ∀ p ∈ inits (d ++ [n]), p = d ++ [n] ∨ p ∈ inits d := by
  induction d with
  | nil => intro p hp; simp [inits] at hp ⊢; exact hp.symm
  | cons x d ih =>
    intro p hp
    simp only [List.cons_append, inits, List.mem_cons, List.mem_map] at hp ⊢
    rcases hp with rfl | ⟨q, hq, rfl⟩
    · exact .inr (.inl rfl)
    · rcases ih q hq with rfl | h
      · exact .inl rfl
      · exact .inr (.inr ⟨q, h, rfl⟩)

theorem self_inits (d : Path) : d ∈ inits d := by
  induction d with
  | nil => simp [inits]
  | cons x d ih => simp [inits, ih]

theorem plan_par : ∀ (e : Ents) (d : Path) (m : List Path), (∀ p ∈ inits d, p ∈ m) → Par m (plan d e)
  | .nil, _, _, _ => trivial
  | .file n rest, d, m, h => ⟨by simp, by simpa using h d (self_inits d), plan_par rest d m h⟩
  | .other n rest, d, m, h => plan_par rest d m h
  | .dir n kids rest, d, m, h => by
    refine ⟨fun p hp => (inits_snoc d n p hp).imp id (h p), Par.append (plan_par kids _ _ ?_) (plan_par rest d _ ?_)⟩
    · intro p hp
      rcases inits_snoc d n p hp with rfl | hp
      · exact List.mem_cons_self ..
      · exact List.mem_cons_of_mem _ (h p hp)
    · exact fun p hp => List.mem_cons_of_mem _ (h p hp)

theorem plan_mvs : ∀ (e : Ents) (d : Path), mvs (plan d e) = files d e
  | .nil, _ => rfl
  | .file n rest, d => by rw [plan, mvs_mv, files, plan_mvs rest d]
  | .other n rest, d => plan_mvs rest d
  | .dir n kids rest, d => by rw [plan, mvs_mk, mvs_append, plan_mvs kids, plan_mvs rest, files]

/-- The paths of a plan are below the names of the directory. -/
theorem plan_below : ∀ (e : Ents) (d : Path), ∀ s ∈ plan d e, ∃ n ∈ names e, ∃ t, s.path = d ++ n :: t
  | .nil, _, s, h => by simp [plan] at h
  | .file n rest, d, s, h => by
    rcases List.mem_cons.1 h with rfl | h
    · exact ⟨n, List.mem_cons_self .., [], rfl⟩
    · obtain ⟨m, hm, t, e⟩ := plan_below rest d s h
      exact ⟨m, List.mem_cons_of_mem _ hm, t, e⟩
  | .other n rest, d, s, h => by
    obtain ⟨m, hm, t, e⟩ := plan_below rest d s h
    exact ⟨m, List.mem_cons_of_mem _ hm, t, e⟩
  | .dir n kids rest, d, s, h => by
    rcases List.mem_cons.1 h with rfl | h
    · exact ⟨n, List.mem_cons_self .., [], rfl⟩
    · rcases List.mem_append.1 h with h | h
      · obtain ⟨m, hm, t, e⟩ := plan_below kids _ s h
        exact ⟨n, List.mem_cons_self .., m :: t, by simpa using e⟩
      · obtain ⟨m, hm, t, e⟩ := plan_below rest d s h
        exact ⟨m, List.mem_cons_of_mem _ hm, t, e⟩

theorem plan_nodup : ∀ (e : Ents) (d : Path), Distinct e → ((plan d e).map Step.path).Nodup
  | .nil, _, _ => List.nodup_nil
  | .file n rest, d, h => by
    refine List.nodup_cons.2 ⟨fun hm => ?_, plan_nodup rest d h.2⟩
    obtain ⟨s, hs, e⟩ := List.mem_map.1 hm
    obtain ⟨m, hm, t, e'⟩ := plan_below rest d s hs
    have := List.append_cancel_left (e'.symm.trans e)
    exact h.1 ((List.cons.inj this).1 ▸ hm)
  | .other n rest, d, h => plan_nodup rest d h.2
  | .dir n kids rest, d, h => by
    rw [plan, List.map_cons, List.map_append]
    refine List.nodup_cons.2 ⟨fun hm => ?_, List.nodup_append.2 ⟨plan_nodup kids _ h.2.1, plan_nodup rest d h.2.2, ?_⟩⟩
    · rcases List.mem_append.1 hm with hm | hm
      · obtain ⟨s, hs, e⟩ := List.mem_map.1 hm
        obtain ⟨m, _, t, e'⟩ := plan_below kids _ s hs
        have := congrArg List.length (e'.symm.trans e)
        simp [Step.path] at this
      · obtain ⟨s, hs, e⟩ := List.mem_map.1 hm
        obtain ⟨m, hm, t, e'⟩ := plan_below rest d s hs
        have := List.append_cancel_left (e'.symm.trans e)
        exact h.1 ((List.cons.inj this).1 ▸ hm)
    · intro x hx y hy e
      obtain ⟨s, hs, rfl⟩ := List.mem_map.1 hx
      obtain ⟨s', hs', rfl⟩ := List.mem_map.1 hy
      obtain ⟨_, _, t, e1⟩ := plan_below kids _ s hs
      obtain ⟨m, hm, t', e2⟩ := plan_below rest d s' hs'
      have := e1.symm.trans (e.trans e2)
      rw [List.append_assoc] at this
      have := List.append_cancel_left this
      exact h.1 ((List.cons.inj this).1 ▸ hm)

/-! ### The calls succeed and lose nothing -/

/-- A path that is neither below the backup directory nor above it. -/
def Sep (bak r : Path) : Prop := r ≠ [] ∧ r.head? ≠ bak.head? ∧ bak ≠ []

theorem inits_head {p : Path} : ∀ {q : Path}, q ∈ inits p → q = [] ∨ q.head? = p.head? := by
  intro q hq
  cases p with
  | nil => simp [inits] at hq; exact .inl hq
  | cons x p =>
    simp only [inits, List.mem_cons, List.mem_map] at hq
    rcases hq with h | ⟨t, _, rfl⟩
    · exact .inl h
    · exact .inr rfl

theorem head_append {bak : Path} (h : bak ≠ []) (x : Path) : (bak ++ x).head? = bak.head? := by
  cases bak with
  | nil => exact absurd rfl h
  | cons => rfl

theorem Sep.not_inits {bak r : Path} (h : Sep bak r) (d : Path) : r ∉ inits (bak ++ d) := by
  intro hm
  rcases inits_head hm with e | e
  · exact h.1 e
  · exact h.2.1 (e.trans (head_append h.2.2 d))

theorem Sep.ne {bak r : Path} (h : Sep bak r) (x : Path) : r ≠ bak ++ x := fun e =>
  h.2.1 (e ▸ head_append h.2.2 x)

theorem inits_append : ∀ {a d q : Path}, q ∈ inits (a ++ d) → q ∈ inits a ∨ ∃ d' ∈ inits d, q = a ++ d'
  | [], d, q, h => .inr ⟨q, h, rfl⟩
  | x :: a, d, q, h => by
    simp only [List.cons_append, inits, List.mem_cons, List.mem_map] at h ⊢
    rcases h with rfl | ⟨t, ht, rfl⟩
    · exact .inl (.inl rfl)
    · rcases inits_append ht with h | ⟨d', hd, rfl⟩
      · exact .inl (.inr ⟨t, h, rfl⟩)
      · exact .inr ⟨d', hd, rfl⟩

theorem mem_inits_append : ∀ {a d x : Path}, a ++ x ∈ inits (a ++ d) ↔ x ∈ inits d
  | [], _, _ => Iff.rfl
  | y :: a, d, x => by
    simp only [List.cons_append, inits, List.mem_cons, List.mem_map]
    constructor
    · rintro (h | ⟨t, ht, e⟩)
      · cases h
      · obtain rfl := (List.cons.inj e).2
        exact mem_inits_append.1 ht
    · exact fun h => .inr ⟨_, mem_inits_append.2 h, rfl⟩

theorem inits_length {p : Path} : ∀ {q : Path}, q ∈ inits p → q.length ≤ p.length := by
  induction p with
  | nil => intro q h; simp [inits] at h; simp [h]
  | cons x p ih =>
    intro q h
    simp only [inits, List.mem_cons, List.mem_map] at h
    rcases h with rfl | ⟨t, ht, rfl⟩
    · simp
    · simpa using ih ht

/-- Where everything is after some of the calls. -/
structure Inv (bak : Path) (f0 : FS) (made done todo : List Path) (f : FS) : Prop where
  own : ∀ r, r ∈ done ∨ r ∈ todo → Sep bak r ∧ f0.dev r = f0.dev (bak ++ r) ∧ ∃ b, f0.obj r = some (.file b)
  dev : f.dev = f0.dev
  up : ∀ p ∈ inits bak, f.isFile p = false
  dirs : ∀ d ∈ made, f.obj (bak ++ d) = some .dir
  moved : ∀ r ∈ done, f.obj (bak ++ r) = f0.obj r ∧ f.obj r = none
  here : ∀ r ∈ todo, f.obj r = f0.obj r
  free : ∀ x, x ∉ made → x ∉ done → f.obj (bak ++ x) = none

theorem isFile_dir {f : FS} {p : Path} (h : f.obj p = some .dir) : f.isFile p = false := by simp [FS.isFile, h]
theorem isFile_none {f : FS} {p : Path} (h : f.obj p = none) : f.isFile p = false := by simp [FS.isFile, h]

theorem call_mk {bak : Path} {f0 f : FS} {made done todo : List Path} (h : Inv bak f0 made done todo f) {d : Path}
    (hp : ∀ p ∈ inits d, p = d ∨ p ∈ made) (hd : d ∉ done) :
    ∃ f', f.call bak (.mk d) = some f' ∧ Inv bak f0 (d :: made) done todo f' := by
  have old : d ∈ made ∨ f.obj (bak ++ d) = none := by
    by_cases hm : d ∈ made
    · exact .inl hm
    · exact .inr (h.free d hm hd)
  have nofile : ∀ q ∈ inits (bak ++ d), f.isFile q = false := by
    intro q hq
    rcases inits_append hq with hq | ⟨d', hd', rfl⟩
    · exact h.up q hq
    · rcases hp d' hd' with rfl | hm
      · exact old.elim (fun hm => isFile_dir (h.dirs _ hm)) isFile_none
      · exact isFile_dir (h.dirs _ hm)
  have hany : (inits (bak ++ d)).any f.isFile = false := List.any_eq_false.2 fun q hq => by simp [nofile q hq]
  refine ⟨{ f with obj := fun q => if q ∈ inits (bak ++ d) ∧ f.obj q = none then some .dir else f.obj q },
    by simp only [FS.call, hany]; rfl, ⟨h.own, h.dev, ?_, ?_, ?_, ?_, ?_⟩⟩
  · intro p hp'
    simp only [FS.isFile]
    split
    · next b e =>
      split at e
      · cases e
      · have := h.up p hp'; simp [FS.isFile, e] at this
    · rfl
  · intro x hx
    simp only
    rcases List.mem_cons.1 hx with rfl | hx
    · rcases old with hm | hn
      · rw [if_neg (by rw [h.dirs _ hm]; simp)]; exact h.dirs _ hm
      · rw [if_pos ⟨self_inits _, hn⟩]
    · rw [if_neg (by rw [h.dirs _ hx]; simp)]; exact h.dirs _ hx
  · intro r hr
    obtain ⟨sep, _, b, hb⟩ := h.own r (.inl hr)
    obtain ⟨h1, h2⟩ := h.moved r hr
    simp only
    rw [if_neg (by rw [h1, hb]; simp), if_neg fun x => sep.not_inits d x.1]
    exact ⟨h1, h2⟩
  · intro r hr
    obtain ⟨sep, _⟩ := h.own r (.inr hr)
    simp only
    rw [if_neg fun x => sep.not_inits d x.1]
    exact h.here r hr
  · intro x hx hxd
    have hxd' : x ≠ d := fun e => hx (e ▸ List.mem_cons_self ..)
    have hxm : x ∉ made := fun m => hx (List.mem_cons_of_mem _ m)
    simp only
    rw [if_neg]
    · exact h.free x hxm hxd
    · rintro ⟨hi, _⟩
      exact (hp x (mem_inits_append.1 hi)).elim hxd' hxm

theorem call_mv {bak : Path} {f0 f : FS} {made done todo : List Path} {r : Path}
    (h : Inv bak f0 made done (r :: todo) f) (hp : r.dropLast ∈ made) (hm : r ∉ made) (hd : r ∉ done)
    (ht : r ∉ todo) : ∃ f', f.call bak (.mv r) = some f' ∧ Inv bak f0 made (r :: done) todo f' := by
  obtain ⟨sep, hdev, b, hb⟩ := h.own r (.inr (List.mem_cons_self ..))
  have hr : f.obj r = some (.file b) := (h.here r (List.mem_cons_self ..)).trans hb
  have hn := h.free r hm hd
  refine ⟨_, by
    simp only [FS.call, hr]
    rw [if_pos ⟨h.dirs _ hp, by rw [hn]; simp, by rw [h.dev]; exact hdev⟩], ?_⟩
  have inj : ∀ {x}, bak ++ x = bak ++ r → x = r := fun e => List.append_cancel_left e
  refine ⟨?_, h.dev, ?_, ?_, ?_, ?_, ?_⟩
  · rintro x (hx | hx)
    · rcases List.mem_cons.1 hx with rfl | hx
      · exact ⟨sep, hdev, b, hb⟩
      · exact h.own x (.inl hx)
    · exact h.own x (.inr (List.mem_cons_of_mem _ hx))
  · intro p hp'
    have hne : p ≠ bak ++ r := fun e => by
      have := inits_length hp'
      have hl : r.length ≠ 0 := fun e => sep.1 (List.length_eq_zero_iff.1 e)
      rw [e] at this; simp at this; omega
    simp only [FS.isFile, hne, if_false]
    by_cases hpr : p = r
    · simp [hpr]
    · simp only [hpr, if_false]; exact h.up p hp'
  · intro d hd'
    have h1 : bak ++ d ≠ bak ++ r := fun e => hm (inj e ▸ hd')
    have h2 : bak ++ d ≠ r := fun e => sep.ne d e.symm
    simp only [h1, h2, if_false]; exact h.dirs d hd'
  · intro x hx
    rcases List.mem_cons.1 hx with rfl | hx
    · simp [hb, sep.ne x]
    · have hxr : x ≠ r := fun e => hd (e ▸ hx)
      obtain ⟨sx, _⟩ := h.own x (.inl hx)
      obtain ⟨m1, m2⟩ := h.moved x hx
      have h1 : bak ++ x ≠ bak ++ r := fun e => hxr (inj e)
      have h2 : bak ++ x ≠ r := fun e => sep.ne x e.symm
      simp only [h1, h2, if_false, sx.ne r, hxr]
      exact ⟨m1, m2⟩
  · intro x hx
    have hxr : x ≠ r := fun e => ht (e ▸ hx)
    obtain ⟨sx, _⟩ := h.own x (.inr (List.mem_cons_of_mem _ hx))
    simp only [sx.ne r, hxr, if_false]
    exact h.here x (List.mem_cons_of_mem _ hx)
  · intro x hx hxd
    have hxr : x ≠ r := fun e => hxd (e ▸ List.mem_cons_self ..)
    have h1 : bak ++ x ≠ bak ++ r := fun e => hxr (inj e)
    have h2 : bak ++ x ≠ r := fun e => sep.ne x e.symm
    simp only [h1, h2, if_false]
    exact h.free x hx fun m => hxd (List.mem_cons_of_mem _ m)

theorem calls_inv {bak : Path} {f0 : FS} (rest : List Path) : ∀ (l : List Step) (f : FS) (made done : List Path),
    Inv bak f0 made done (mvs l ++ rest) f → Par made l → (l.map Step.path).Nodup → (∀ s ∈ l, s.path ∉ done) →
    (∀ s ∈ l, s.path ∉ made) → (∀ s ∈ l, s.path ∉ rest) →
    ∃ f', f.calls bak l = some f' ∧ Inv bak f0 ((mks l).reverse ++ made) ((mvs l).reverse ++ done) rest f'
  | [], f, made, done, h, _, _, _, _, _ => ⟨f, rfl, h⟩
  | .mk d :: l, f, made, done, h, hp, hn, hd, hm, hr => by
    obtain ⟨f1, e1, i1⟩ := call_mk h hp.1 (hd _ (List.mem_cons_self ..))
    have hn' := List.nodup_cons.1 hn
    obtain ⟨f', e', i'⟩ := calls_inv rest l f1 (d :: made) done i1 hp.2 hn'.2
      (fun s hs => hd s (List.mem_cons_of_mem _ hs))
      (fun s hs hmem => (List.mem_cons.1 hmem).elim
        (fun e => hn'.1 (List.mem_map.2 ⟨s, hs, e⟩)) (hm s (List.mem_cons_of_mem _ hs)))
      (fun s hs => hr s (List.mem_cons_of_mem _ hs))
    refine ⟨f', by rw [FS.calls, e1]; exact e', ?_⟩
    rw [mks_mk, List.reverse_cons, List.append_assoc]; exact i'
  | .mv r :: l, f, made, done, h, hp, hn, hd, hm, hr => by
    have hn' := List.nodup_cons.1 hn
    have ht : r ∉ mvs l ++ rest := fun hx => (List.mem_append.1 hx).elim
      (fun hx => by
        obtain ⟨s, hs, e⟩ := List.mem_filterMap.1 hx
        cases s with
        | mk d => cases e
        | mv r' => cases e; exact hn'.1 (List.mem_map.2 ⟨_, hs, rfl⟩))
      (hr _ (List.mem_cons_self ..))
    obtain ⟨f1, e1, i1⟩ := call_mv (h : Inv bak f0 made done (r :: (mvs l ++ rest)) f) hp.2.1
      (hm _ (List.mem_cons_self ..)) (hd _ (List.mem_cons_self ..)) ht
    obtain ⟨f', e', i'⟩ := calls_inv rest l f1 made (r :: done) i1 hp.2.2 hn'.2
      (fun s hs hmem => (List.mem_cons.1 hmem).elim
        (fun e => hn'.1 (List.mem_map.2 ⟨s, hs, e⟩)) (hd s (List.mem_cons_of_mem _ hs)))
      (fun s hs => hm s (List.mem_cons_of_mem _ hs)) (fun s hs => hr s (List.mem_cons_of_mem _ hs))
    refine ⟨f', by rw [FS.calls, e1]; exact e', ?_⟩
    rw [mks_mv, mvs_mv, List.reverse_cons, List.append_assoc]; exact i'

/-! ### The whole backup -/

theorem migrate_mvs (data : Ents) : mvs (migrate data) = old data := by
  rw [migrate, mvs_mk, mvs_mk, mvs_append, plan_mvs]; rfl

theorem migrate_par (data : Ents) : Par [] (migrate data) := by
  refine ⟨fun p hp => .inl (by simpa [inits] using hp), ?_, Par.append (plan_par _ _ _ ?_) ?_⟩
  · intro p hp; simp [inits] at hp; rcases hp with rfl | rfl
    · exact .inr (by simp)
    · exact .inl rfl
  · intro p hp; simp [inits] at hp; rcases hp with rfl | rfl <;> simp
  · exact ⟨by simp, by simp, by simp, by simp, trivial⟩

theorem migrate_nodup {data : Ents} (h : Distinct data) : ((migrate data).map Step.path).Nodup := by
  have below : ∀ x ∈ (plan [DATA] data).map Step.path, ∃ n t, x = DATA :: n :: t := by
    intro x hx
    obtain ⟨s, hs, rfl⟩ := List.mem_map.1 hx
    obtain ⟨n, _, t, e⟩ := plan_below data [DATA] s hs
    exact ⟨n, t, e⟩
  simp only [migrate, List.map_cons, List.map_append, List.map_nil, Step.path]
  refine List.nodup_cons.2 ⟨?_, List.nodup_cons.2 ⟨?_, List.nodup_append.2 ⟨plan_nodup data _ h, by decide, ?_⟩⟩⟩
  · simp only [List.mem_cons, List.mem_append, List.not_mem_nil, or_false, not_or]
    refine ⟨by simp, fun hx => ?_, by simp, by simp⟩
    obtain ⟨n, t, e⟩ := below _ hx; cases e
  · simp only [List.mem_cons, List.mem_append, List.not_mem_nil, or_false, not_or]
    refine ⟨fun hx => ?_, by decide, by decide⟩
    obtain ⟨n, t, e⟩ := below _ hx; cases e
  · intro x hx y hy e
    obtain ⟨n, t, e'⟩ := below _ hx
    subst e; subst e'
    simp at hy

/-- An old installation, and a backup directory that is new. -/
structure Before (f : FS) (stamp : String) (data : Ents) : Prop where
  distinct : Distinct data
  files : ∀ r ∈ old data, f.dev r = f.dev (["backups", stamp] ++ r) ∧ ∃ b, f.obj r = some (.file b)
  new : ∀ x, f.obj (["backups", stamp] ++ x) = none
  up : f.isFile [] = false ∧ f.isFile ["backups"] = false

theorem old_sep {data : Ents} (stamp : String) : ∀ r ∈ old data, Sep ["backups", stamp] r := by
  intro r hr
  rw [← migrate_mvs] at hr
  obtain ⟨s, hs, e⟩ := List.mem_filterMap.1 hr
  cases s with
  | mk d => cases e
  | mv r' =>
    cases e
    simp only [migrate, List.mem_cons, List.mem_append, reduceCtorEq, false_or, Step.mv.injEq, List.not_mem_nil,
      or_false] at hs
    rcases hs with hs | rfl | rfl
    · obtain ⟨n, _, t, e⟩ := plan_below data [DATA] _ hs
      simp only [Step.path] at e
      subst e
      exact ⟨by simp, by simp [DATA], by simp⟩
    · exact ⟨by simp, by simp [GNS], by simp⟩
    · exact ⟨by simp, by simp [SYS], by simp⟩

theorem Before.run {f : FS} {stamp : String} {data : Ents} (h : Before f stamp data) (n : Nat) :
    ∃ f', f.calls ["backups", stamp] ((migrate data).take n) = some f' ∧
      Inv ["backups", stamp] f (mks ((migrate data).take n)).reverse (mvs ((migrate data).take n)).reverse
        (mvs ((migrate data).drop n)) f' := by
  have hn : (((migrate data).take n).map Step.path ++ ((migrate data).drop n).map Step.path).Nodup := by
    rw [← List.map_append, List.take_append_drop]; exact migrate_nodup h.distinct
  have hcat : mvs ((migrate data).take n) ++ mvs ((migrate data).drop n) = old data := by
    rw [← mvs_append, List.take_append_drop, migrate_mvs]
  have h0 : Inv ["backups", stamp] f [] [] (mvs ((migrate data).take n) ++ mvs ((migrate data).drop n)) f := by
    rw [hcat]
    refine ⟨?_, rfl, ?_, by simp, by simp, fun _ _ => rfl, fun x _ _ => h.new x⟩
    · rintro r (hr | hr)
      · cases hr
      · exact ⟨old_sep stamp r hr, (h.files r hr).1, (h.files r hr).2⟩
    · intro p hp
      simp only [inits, List.map_cons, List.map_nil, List.mem_cons, List.not_mem_nil, or_false] at hp
      rcases hp with rfl | rfl | rfl
      · exact h.up.1
      · exact h.up.2
      · exact isFile_none (by simpa using h.new [])
  obtain ⟨f', e, i⟩ := calls_inv _ _ f [] [] h0 ((migrate_par data).take n) (List.nodup_append.1 hn).1
    (by simp) (by simp) (fun s hs hm => by
      obtain ⟨s', hs', e⟩ := List.mem_filterMap.1 hm
      cases s' with
      | mk d => cases e
      | mv r =>
        have e : r = s.path := by simpa using e
        exact (List.nodup_append.1 hn).2.2 _ (List.mem_map.2 ⟨s, hs, rfl⟩) _ (List.mem_map.2 ⟨_, hs', rfl⟩) e.symm)
  exact ⟨f', e, by simpa using i⟩

/-- C85: at whatever call the backup is interrupted, no call before has failed, and every file of the old installation is as it was at
exactly one of the two places. -/
theorem C85_nothing_is_lost {f : FS} {stamp : String} {data : Ents} (h : Before f stamp data) (n : Nat) :
    ∃ f', f.calls ["backups", stamp] ((migrate data).take n) = some f' ∧
      ∀ r ∈ old data, (f'.obj r = f.obj r ∧ f'.obj (["backups", stamp] ++ r) = none) ∨
        (f'.obj r = none ∧ f'.obj (["backups", stamp] ++ r) = f.obj r) := by
  obtain ⟨f', e, i⟩ := h.run n
  refine ⟨f', e, fun r hr => ?_⟩
  have hn : (((migrate data).take n).map Step.path ++ ((migrate data).drop n).map Step.path).Nodup := by
    rw [← List.map_append, List.take_append_drop]; exact migrate_nodup h.distinct
  rw [← migrate_mvs, ← List.take_append_drop n (migrate data), mvs_append] at hr
  rcases List.mem_append.1 hr with hr | hr
  · exact .inr (i.moved r (by simpa using hr)).symm
  · have hp := mvs_path hr
    refine .inl ⟨i.here r hr, i.free r ?_ ?_⟩
    · exact fun hm => (List.nodup_append.1 hn).2.2 _ (mks_path (by simpa using hm)) _ hp rfl
    · exact fun hm => (List.nodup_append.1 hn).2.2 _ (mvs_path (by simpa using hm)) _ hp rfl

/-- C85: a backup that is not interrupted succeeds. All files of the old installation are in the new directory under the same names and
with the same contents, no other files are there, and none of them is left at its old place. -/
theorem C85_backup_is_complete {f : FS} {stamp : String} {data : Ents} (h : Before f stamp data) :
    ∃ f', f.calls ["backups", stamp] (migrate data) = some f' ∧
      (∀ r ∈ old data, f'.obj r = none ∧ f'.obj (["backups", stamp] ++ r) = f.obj r) ∧
      ∀ x, f'.isFile (["backups", stamp] ++ x) = true → x ∈ old data := by
  obtain ⟨f', e, i⟩ := h.run (migrate data).length
  rw [List.take_length] at e i
  refine ⟨f', e, fun r hr => ?_, fun x hx => ?_⟩
  · rw [← migrate_mvs] at hr
    exact (i.moved r (by simpa using hr)).symm
  · rw [← migrate_mvs]
    refine Decidable.byContradiction fun hn => ?_
    by_cases hm : x ∈ mks (migrate data)
    · rw [isFile_dir (i.dirs x (by simpa using hm))] at hx; cases hx
    · rw [isFile_none (i.free x (by simpa using hm) (by simpa using hn))] at hx; cases hx

/-- C85: until the last call `sys.db` is in place, so that the next start takes the installation for an old one (`storage/mod.rs:62`)
and never for a new one. -/
theorem C85_sys_is_last {f : FS} {stamp : String} {data : Ents} (h : Before f stamp data) {n : Nat}
    (hn : n < (migrate data).length) :
    ∃ f', f.calls ["backups", stamp] ((migrate data).take n) = some f' ∧ f'.obj [SYS] = f.obj [SYS] := by
  obtain ⟨f', e, i⟩ := h.run n
  refine ⟨f', e, i.here _ ?_⟩
  have : migrate data = (.mk [] :: .mk [DATA] :: (plan [DATA] data ++ [.mv [GNS]])) ++ [.mv [SYS]] := by simp [migrate]
  rw [this, List.drop_append_of_le_length (by rw [this] at hn; simpa using Nat.le_of_lt_succ (by simpa using hn)), mvs_append]
  exact List.mem_append_right _ (List.mem_singleton.2 rfl)

/-! ### Cases -/

/-- Two models in a space. -/
def someData : Ents := .dir "apps" (.dir "users" (.file "data" .nil) (.dir "posts" (.file "data" .nil) .nil)) (.other "link" .nil)

/-- The files of an installation. -/
def someFiles : List (Path × Bytes) :=
  [(["data", "apps", "users", "data"], [1]), (["data", "apps", "posts", "data"], [2]), ([GNS], [3]), ([SYS], [4])]

/-- An installation with these files; `dev` gives the devices. -/
def someFS (dev : Path → Nat) : FS := ⟨fun p => (someFiles.lookup p).map .file, dev⟩

theorem someBefore : Before (someFS fun _ => 0) "20240101_000000-before_upgrade_to_v2" someData := by
  refine ⟨?_, ?_, ?_, ?_⟩
  · simp [someData, Distinct, names]
  · intro r hr
    refine ⟨rfl, ?_⟩
    simp only [old, someData, files, List.append_nil, List.cons_append, List.nil_append, List.mem_cons, List.not_mem_nil, or_false] at hr
    rcases hr with rfl | rfl | rfl | rfl
    · exact ⟨[1], by decide +kernel⟩
    · exact ⟨[2], by decide +kernel⟩
    · exact ⟨[3], by decide +kernel⟩
    · exact ⟨[4], by decide +kernel⟩
  · intro x
    simp [someFS, someFiles, List.lookup, GNS, SYS]
  · decide +kernel

example : ((someFS fun _ => 0).calls ["backups", "b"] (migrate someData)).map (fun f =>
    (f.obj ["backups", "b", "data", "apps", "posts", "data"], f.obj ["data", "apps", "posts", "data"], f.obj ["backups", "b", SYS])) =
    some (some (.file [2]), none, some (.file [4])) := by decide +kernel

/-- C85, violated: if a directory of the data is on another device than the backups (another mount), `rename` fails. Files that were moved
before are not moved back: here one data file is gone from its place, so that the next start cannot read the old installation, and
every further start fails as well (`C58_stuck_violated`). -/
theorem C85_other_device_violated : ∃ (f f' : FS) (stamp : String) (data : Ents), Distinct data ∧
    (∀ r ∈ old data, ∃ b, f.obj r = some (.file b)) ∧
    f.calls ["backups", stamp] (migrate data) = none ∧
    f.calls ["backups", stamp] ((migrate data).take 5) = some f' ∧
    f'.obj ["data", "apps", "users", "data"] = none ∧ f'.obj [SYS] = f.obj [SYS] := by
  have e : ∃ f', (someFS fun p => if p.head? = some "data" ∧ p[2]? = some "posts" then 1 else 0).calls ["backups", "b"]
      ((migrate someData).take 5) = some f' ∧
      f'.obj ["data", "apps", "users", "data"] = none ∧ f'.obj [SYS] = some (.file [4]) := by
    refine ⟨_, rfl, ?_, ?_⟩ <;> decide +kernel
  obtain ⟨f', e1, e3, e4⟩ := e
  refine ⟨someFS fun p => if p.head? = some "data" ∧ p[2]? = some "posts" then 1 else 0, f', "b", someData,
    someBefore.distinct, fun r hr => (someBefore.files r hr).2, ?_, e1, e3, e4⟩
  have : ((someFS fun p => if p.head? = some "data" ∧ p[2]? = some "posts" then 1 else 0).calls ["backups", "b"]
      (migrate someData)).isNone = true := by decide +kernel
  exact Option.isNone_iff_eq_none.1 this

end Verif.Old.Backup

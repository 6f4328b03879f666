import Verif.Vfs.Model
/-!
What a program may expect of a file system: the interface `fs.rs` on a real one. Files have paths; the contents of a file that is removed
while it is open are not described (only that its descriptor can be closed).
-/
namespace Verif.Vfs

inductive Item where
  | dir
  | file (data : Bytes)
  deriving DecidableEq, Repr

/-- Directories and files by their paths, and the descriptors with their positions. -/
structure Real where
  items : List String → Option Item
  fds : List (Option (List String × Nat))

def upd {β : Type} (f : List String → Option β) (p : List String) (x : Option β) : List String → Option β := fun q => if q = p then x else f q

/-- The bytes of a file after a write at a position; a gap is filled with zeros. -/
def patch (data : Bytes) (pos : Nat) (b : Bytes) : Bytes :=
  data.take pos ++ List.replicate (pos - data.length) 0 ++ b ++ data.drop (pos + b.length)

/-- The bytes of a file after its length was set. -/
def resize (data : Bytes) (n : Nat) : Bytes := data.take n ++ List.replicate (n - data.length) 0

/-- Either the condition holds and the operation is done, or it fails and changes nothing. -/
def Real.If (r r' : Real) (out : Out) (c : Prop) (good : Prop) : Prop := (c ∧ good) ∨ (¬ c ∧ out = .fail ∧ r' = r)

/-- A file under a descriptor. -/
def Real.At (r : Real) (i : Nat) (p : List String) (pos : Nat) (data : Bytes) : Prop :=
  r.fds[i]? = some (some (p, pos)) ∧ r.items p = some (.file data)

/-- What each operation does. -/
def Spec (r : Real) (op : Op) (out : Out) (r' : Real) : Prop :=
  match op with
  | .createDir p => r.If r' out (r.items p.comps = some .dir ∧ r.items p.full = none)
      (out = .done ∧ r' = { r with items := upd r.items p.full (some .dir) })
  | .createDirAll p => r.If r' out (∀ q, q <+: p.full → ∀ b, r.items q ≠ some (.file b))
      (out = .done ∧ r'.fds = r.fds ∧ ∀ q, r'.items q = if q <+: p.full then some .dir else r.items q)
  | .removeDir p => r.If r' out (r.items p.full = some .dir ∧ ∀ n, r.items (p.full ++ [n]) = none)
      (out = .done ∧ r' = { r with items := upd r.items p.full none })
  | .removeDirAll p => r.If r' out (r.items p.full = some .dir)
      (out = .done ∧ r'.fds = r.fds ∧ ∀ q, r'.items q = if p.full <+: q then none else r.items q)
  | .removeFile p => r.If r' out (∃ b, r.items p.full = some (.file b))
      (out = .done ∧ r' = { r with items := upd r.items p.full none })
  | .rename p q => ∀ b, r.items p.full = some (.file b) → r.items q.comps = some .dir → r.items q.full ≠ some .dir →
      out = .done ∧ ∀ x, r'.items x = if x = q.full then some (.file b) else if x = p.full then none else r.items x
  | .readAll p => r.If r' out (∃ b, r.items p.full = some (.file b))
      (∃ b, r.items p.full = some (.file b) ∧ out = .bytes b ∧ r' = r)
  | .create p => r.If r' out (r.items p.comps = some .dir ∧ r.items p.full = none)
      (out = .fd r.fds.length ∧ r' = ⟨upd r.items p.full (some (.file [])), r.fds ++ [some (p.full, 0)]⟩)
  | .openRw p => r.If r' out (∃ b, r.items p.full = some (.file b))
      (out = .fd r.fds.length ∧ r' = { r with fds := r.fds ++ [some (p.full, 0)] })
  | .read i n => ∀ p pos data, r.At i p pos data →
      if pos + n ≤ data.length then out = .bytes ((data.drop pos).take n) ∧ r' = { r with fds := r.fds.set i (some (p, pos + n)) }
      else out = .fail ∧ ∃ pos', r' = { r with fds := r.fds.set i (some (p, pos')) }
  | .write i b => ∀ p pos data, r.At i p pos data →
      out = .num b.length ∧ r' = ⟨upd r.items p (some (.file (patch data pos b))), r.fds.set i (some (p, pos + b.length))⟩
  | .truncate i n => ∀ p pos data, r.At i p pos data →
      out = .done ∧ r' = { r with items := upd r.items p (some (.file (resize data n))) }
  | .len i => ∀ p pos data, r.At i p pos data → out = .num data.length ∧ r' = r
  | .cursor i => ∀ p pos data, r.At i p pos data → out = .num pos ∧ r' = r
  | .seek i n => ∀ p pos data, r.At i p pos data → out = .done ∧ r' = { r with fds := r.fds.set i (some (p, n)) }
  | .close i => ∀ x, r.fds[i]? = some (some x) → out = .done ∧ r' = { r with fds := r.fds.set i none }

/-- The operations for which a real file system and that of the tests should agree: no file is open twice, removed while it is open or renamed,
and so on. -/
def Allowed (r : Real) : Op → Prop
  | .createDirAll p => r.items p.full ≠ some .dir
  | .removeDirAll p => ∀ (i : Nat) q n, r.fds[i]? = some (some (q, n)) → ¬ p.full <+: q
  | .removeFile p => ∀ (i : Nat) q n, r.fds[i]? = some (some (q, n)) → q ≠ p.full
  | .rename .. => False
  | .openRw p => ∀ (i : Nat) q n, r.fds[i]? = some (some (q, n)) → q ≠ p.full
  | .truncate i n => ∀ q pos, r.fds[i]? = some (some (q, pos)) → pos ≤ n
  | .seek i n => ∀ p pos data, r.At i p pos data → n ≤ data.length
  | _ => True

end Verif.Vfs

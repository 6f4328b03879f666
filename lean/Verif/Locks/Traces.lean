import Verif.Locks.Model
/-!
C36, the order of the locks: what each program does when it runs alone, for every outcome. The theorems about deadlocks hold for every
outcome of a test, so that they do not say which of the two ways a program goes; this file does.
-/
namespace Verif.Locks

/-- What can be seen of a program that runs alone: its operations on locks, and whether it panicked. -/
inductive Ev where
  | got (l : Lock) (m : Mode)
  | upgraded (l : Lock)
  | downgraded (l : Lock)
  | gave (l : Lock)
  | panicked
  deriving DecidableEq, Repr

/-- The events of a program that runs alone from the catalogue `c`, with the outcomes `bs` of its tests (`false` once the list is
used up). -/
def events : Prog → Cat → List Bool → List Ev
  | .done, _, _ => []
  | .panic, _, _ => [.panicked]
  | .look k, c, bs => events (k c) c bs
  | .upd f k, c, bs => events k (f c) bs
  | .pick k, c, bs => events (k (bs.headD false)) c bs.tail
  | .acq l m k, c, bs => .got l m :: events k c bs
  | .upg l k, c, bs => .upgraded l :: events k c bs
  | .down l k, c, bs => .downgraded l :: events k c bs
  | .rel l k, c, bs => .gave l :: events k c bs

/-- No space and no model; the space `s` without models; the space `s` with the model `m`. -/
def cat0 : Cat := ⟨fun _ => none, fun _ _ => false⟩
def catS : Cat := cat0.setSpace "s" (some [])
def catM : Cat := (cat0.setSpace "s" (some ["m"])).setModel "s" "m" true

/-- A statement that takes `l`, tests, and either commits or gives up. -/
def committed (l : Lock) : List Ev := [.got l .write, .got .gns .write, .gave .gns, .gave l]
def refused (l : Lock) : List Ev := [.got l .write, .gave l]

/-- **C36, locks of DDL on spaces and users.** The log is only touched if the statement is legal and the log is healthy. -/
theorem C36_spaces_and_users :
    events (createSpace "s") cat0 [true, true, true] = committed .spaces ∧
    events (createSpace "s") cat0 [true, true, false] = committed .spaces ∧
    events (createSpace "s") cat0 [true, false] = refused .spaces ∧
    events (createSpace "s") cat0 [false] = refused .spaces ∧
    events (createSpace "s") catS [true, true, true] = refused .spaces ∧
    events (alterSpace "s") catS [true, true, true] = committed .spaces ∧
    events (alterSpace "s") catS [true, false] = refused .spaces ∧
    events (alterSpace "s") catS [false] = refused .spaces ∧
    events (alterSpace "s") cat0 [true, true, true] = refused .spaces ∧
    events (dropSpacePlain "s") catS [true, true] = committed .spaces ∧
    events (dropSpacePlain "s") catS [false] = refused .spaces ∧
    events (dropSpacePlain "s") catM [true, true] = refused .spaces ∧
    events (dropSpacePlain "s") cat0 [true, true] = refused .spaces ∧
    events changeUser cat0 [true, true, true] = committed .users ∧
    events changeUser cat0 [true, false] = refused .users ∧
    events changeUser cat0 [false] = refused .users := by
  decide +kernel

/-- **C36, locks of DDL on models.** CREATE MODEL, DROP MODEL and the forced DROP SPACE take the space map first, ALTER MODEL the model
map. -/
theorem C36_models :
    events (createModel "s" "m") catS [true, true, true] =
      [.got .spaces .write, .got .gns .write, .gave .gns, .got .models .write, .gave .models, .gave .spaces] ∧
    events (createModel "s" "m") catS [true, true, false] = committed .spaces ∧
    events (createModel "s" "m") catS [false] = refused .spaces ∧
    events (createModel "s" "m") catM [true, true, true] = refused .spaces ∧
    events (createModel "s" "m") cat0 [true, true, true] = refused .spaces ∧
    events (dropModel "s" "m") catM [false, true, true] =
      [.got .spaces .write, .got .models .write, .got .gns .write, .gave .gns, .gave .models, .gave .spaces] ∧
    events (dropModel "s" "m") catM [true] = [.got .spaces .write, .got .models .write, .gave .models, .gave .spaces] ∧
    events (dropModel "s" "m") catM [false, false] = [.got .spaces .write, .got .models .write, .gave .models, .gave .spaces] ∧
    events (dropModel "s" "m") catS [false, true, true] = refused .spaces ∧
    events (dropSpaceForce "s" true) catM [true, true] =
      [.got .spaces .write, .got .models .write, .got .gns .write, .gave .gns, .gave .models, .gave .spaces] ∧
    events (dropSpaceForce "s" true) catM [false] = [.got .spaces .write, .got .models .write, .gave .models, .gave .spaces] ∧
    events (dropSpaceForce "s" true) cat0 [true, true] = [.got .spaces .write, .got .models .write, .gave .models, .gave .spaces] ∧
    events (alterModel "s" "m") catM [true, true, true] =
      [.got .models .write, .got .spaces .read, .got .gns .write, .gave .gns, .gave .spaces, .gave .models] ∧
    events (alterModel "s" "m") catM [false] = [.got .models .write, .got .spaces .read, .gave .spaces, .gave .models] ∧
    events (alterModel "s" "m") catM [true, false] = [.got .models .write, .got .spaces .read, .gave .spaces, .gave .models] ∧
    events (alterModel "s" "m") catS [true, true, true] = refused .models := by
  decide +kernel

/-- **C36, locks of statements that read the catalogue.** Only root's INSPECT GLOBAL looks at the users, and not while it holds the
spaces. -/
theorem C36_inspect (c : Cat) (bs : List Bool) :
    events inspectGlobal c (true :: bs) = [.got .spaces .read, .gave .spaces, .got .users .read, .gave .users] ∧
    events inspectGlobal c (false :: bs) = [.got .spaces .read, .gave .spaces] ∧
    events inspectModel c bs = [.got .models .read, .gave .models] ∧
    events readSpaces c bs = [.got .spaces .read, .gave .spaces] ∧
    events verifyUser c bs = [.got .users .read, .gave .users] :=
  ⟨rfl, rfl, rfl, rfl, rfl⟩

/-- The events between taking and giving back the model map for reading. -/
def under (es : List Ev) : List Ev := .got .models .read :: es ++ [.gave .models]

/-- **C36, locks of statements on rows.** A statement that does not find its model, or is refused, takes no lock but that of the model
map; otherwise the locks are these. -/
theorem C36_rows (m r : Nat) (c : Cat) (bs : List Bool) :
    let two : Shape := .cons 7 (.cons 8 .nil .nil) (.cons 9 .nil .nil)
    let look : List Ev := [.got (.list 0 7) .read, .got (.list 1 8) .read, .gave (.list 1 8), .gave (.list 0 7), .got (.list 0 9) .read, .gave (.list 0 9)]
    let fresh : List Ev := .got (.row m r) .up :: .downgraded (.row m r) :: look ++ [.gave (.row m r)]
    let stale : List Ev := .got (.row m r) .up :: .upgraded (.row m r) :: .downgraded (.row m r) :: look ++ [.gave (.row m r)]
    events (select m r two) c [true, false] = under fresh ∧
    events (select m r two) c [true, true] = under stale ∧
    events (select m r two) c (false :: bs) = under [] ∧
    events (selectAll m [(r, two), (r, two)]) c [true, false, true] = under (.got (.latch m) .write :: fresh ++ stale ++ [.gave (.latch m)]) ∧
    events (selectAll m [(r, two)]) c (false :: bs) = under [] ∧
    events (insert m (.cons 7 (.cons 8 .nil .nil) .nil)) c [true, true] =
      under [.got (.list 0 7) .write, .got (.list 1 8) .write, .gave (.list 1 8), .gave (.list 0 7), .got (.latch m) .read, .gave (.latch m)] ∧
    events (insert m (.cons 7 .nil .nil)) c [true, false] = under [.got (.list 0 7) .write, .gave (.list 0 7)] ∧
    events (insert m two) c (false :: bs) = under [] ∧
    events (delete m) c (true :: bs) = under [.got (.latch m) .read, .gave (.latch m)] ∧
    events (delete m) c (false :: bs) = under [] ∧
    events (update m r [3, 4]) c (true :: bs) =
      under [.got (.row m r) .write, .got (.list 0 3) .write, .gave (.list 0 3), .got (.list 0 4) .write, .gave (.list 0 4), .gave (.row m r)] ∧
    events (update m r [3, 4]) c (false :: bs) = under [] := by
  intro two look fresh stale
  refine ⟨?_, ?_, ?_, ?_, ?_, ?_, ?_, ?_, ?_, ?_, ?_, ?_⟩ <;> rfl

/-- **C36, locks of the background tasks.** A batch of rows is written under the model map and the driver of the model; a task whose model
is gone takes nothing else. -/
theorem C36_tasks (m n r : Nat) (c : Cat) (bs : List Bool) :
    events (taskWriteBatch m [(r, .nil)]) c [true, true] =
      under [.got (.driver m) .write, .got (.row m r) .up, .upgraded (.row m r), .downgraded (.row m r), .gave (.row m r), .gave (.driver m)] ∧
    events (taskWriteBatch m [(r, .nil)]) c (false :: bs) = under [] ∧
    events (taskRecoverModel m) c (true :: bs) = under [.got (.driver m) .write, .gave (.driver m)] ∧
    events (taskRecoverModel m) c (false :: bs) = under [] ∧
    events taskCheckGns c bs = [.got .gns .write, .gave .gns] ∧
    events (taskGeneral [(m, [(r, .nil)]), (n, [])]) c [false] =
      under [.got (.driver m) .write, .got (.row m r) .up, .downgraded (.row m r), .gave (.row m r), .gave (.driver m),
        .got (.driver n) .write, .gave (.driver n)] :=
  ⟨rfl, rfl, rfl, rfl, rfl, rfl⟩

end Verif.Locks

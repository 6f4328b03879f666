/-
The lock order of every statement and task: the space map before the model map for all but ALTER MODEL, the model map
before the space map for all but CREATE MODEL, DROP MODEL and the forced DROP SPACE.
-/
import Verif.Locks.Order
namespace Verif.Locks

/-- Rank of the locks; `swap` puts the model map before the space map. -/
def rank (swap : Bool) : Lock → Nat
  | .users => 0
  | .spaces => if swap then 2 else 1
  | .models => if swap then 1 else 2
  | .gns => 3
  | .driver _ => 3
  | .latch _ => 4
  | .row _ _ => 5
  | .list d _ => 6 + d

/-- Statements that ask for the space map while they hold the model map. -/
def Stmt.modelsFirst : Stmt → Bool
  | .alterModel _ _ => true
  | _ => false

/-- Statements that ask for the model map while they hold the space map. -/
def Stmt.spacesFirst : Stmt → Bool
  | .createModel _ _ => true
  | .dropModel _ _ => true
  | .dropSpaceForce _ _ => true
  | _ => false

theorem unhold_cons {rk : Lock → Nat} {h : List (Lock × Mode)} {l : Lock} {m : Mode}
    (hb : ∀ x ∈ h, rk x.1 < rk l) : unhold ((l, m) :: h) l = h := by
  simp only [unhold, List.filter_cons]
  simp only [ne_eq, not_true_eq_false, decide_false, Bool.false_eq_true, if_false]
  rw [List.filter_eq_self]
  intro x hx
  have := hb x hx
  simp only [decide_eq_true_eq]
  intro e; rw [e] at this; omega

theorem rehold_cons {rk : Lock → Nat} {h : List (Lock × Mode)} {l : Lock} {m m' : Mode}
    (hb : ∀ x ∈ h, rk x.1 < rk l) : rehold ((l, m) :: h) l m' = (l, m') :: h := by
  simp only [rehold, List.map_cons, if_true]
  congr 1
  conv => rhs; rw [← List.map_id h]
  apply List.map_congr_left
  intro x hx
  have := hb x hx
  have : x.1 ≠ l := by intro e; rw [e] at this; omega
  simp [this]

theorem ordered_rel {rk : Lock → Nat} {h : List (Lock × Mode)} {l : Lock} {m : Mode} {k : Prog}
    (hb : ∀ x ∈ h, rk x.1 < rk l) (hk : Ordered rk h k) : Ordered rk ((l, m) :: h) (.rel l k) := by
  rw [Ordered, unhold_cons hb]; exact hk

theorem ordered_readLists {sw : Bool} : ∀ (s : Shape) (d : Nat) (h : List (Lock × Mode)) (k : Prog),
    (∀ x ∈ h, rank sw x.1 < 6 + d) → Ordered (rank sw) h k → Ordered (rank sw) h (readLists d s k)
  | .nil, _, _, _, _, hk => hk
  | .cons id inner next, d, h, k, hb, hk => by
    refine ⟨hb, ordered_readLists inner (d + 1) _ _ ?_ (ordered_rel hb (ordered_readLists next d h k hb hk))⟩
    intro x hx
    rcases List.mem_cons.1 hx with rfl | hx
    · simp [rank]
    · have := hb x hx; omega

theorem ordered_checkLists {sw : Bool} : ∀ (s : Shape) (d : Nat) (h : List (Lock × Mode)) (k : Prog),
    (∀ x ∈ h, rank sw x.1 < 6 + d) → Ordered (rank sw) h k → Ordered (rank sw) h (checkLists d s k)
  | .nil, _, _, _, _, hk => hk
  | .cons id inner next, d, h, k, hb, hk => by
    refine ⟨hb, ordered_checkLists inner (d + 1) _ _ ?_ (ordered_rel hb (ordered_checkLists next d h k hb hk))⟩
    intro x hx
    rcases List.mem_cons.1 hx with rfl | hx
    · simp [rank]
    · have := hb x hx; omega

theorem ordered_freezeRow {sw : Bool} {m r : Nat} {cells : Shape} {h : List (Lock × Mode)} {k : Prog}
    (hb : ∀ x ∈ h, rank sw x.1 < 5) (hk : Ordered (rank sw) h k) : Ordered (rank sw) h (freezeRow m r cells k) := by
  have hb' : ∀ x ∈ h, rank sw x.1 < rank sw (.row m r) := hb
  have hl : ∀ md, Ordered (rank sw) ((.row m r, md) :: h) (readLists 0 cells (.rel (.row m r) k)) := by
    intro md
    refine ordered_readLists cells 0 _ _ ?_ (ordered_rel hb' hk)
    intro x hx
    rcases List.mem_cons.1 hx with rfl | hx
    · simp [rank]
    · have := hb x hx; omega
  refine ⟨hb', fun b => ?_⟩
  cases b
  · simp only [Bool.false_eq_true, if_false]
    rw [Ordered, rehold_cons hb']; exact hl _
  · simp only [if_true]
    refine ⟨by simp, ?_, ?_⟩
    · intro x hx hne
      rcases List.mem_cons.1 hx with rfl | hx
      · exact absurd rfl hne
      · exact hb' x hx
    · rw [rehold_cons hb', Ordered, rehold_cons hb']; exact hl _

theorem ordered_freezeRows {sw : Bool} {m : Nat} {h : List (Lock × Mode)} {k : Prog}
    (hb : ∀ x ∈ h, rank sw x.1 < 5) (hk : Ordered (rank sw) h k) :
    ∀ rows, Ordered (rank sw) h (freezeRows m rows k)
  | [] => hk
  | (_, _) :: rows => ordered_freezeRow hb (ordered_freezeRows hb hk rows)

theorem ordered_pushLists {sw : Bool} {h : List (Lock × Mode)} {k : Prog}
    (hb : ∀ x ∈ h, rank sw x.1 < 6) (hk : Ordered (rank sw) h k) :
    ∀ is, Ordered (rank sw) h (pushLists is k)
  | [] => hk
  | i :: is => ⟨hb, ordered_rel (rk := rank sw) (l := .list 0 i) hb (ordered_pushLists hb hk is)⟩

theorem ordered_dropModelsLoop {rk : Lock → Nat} {s : String} {h : List (Lock × Mode)} {k : Prog}
    (hk : Ordered rk h k) : ∀ ms, Ordered rk h (dropModelsLoop s ms k)
  | [] => hk
  | m :: ms => by
    intro c
    dsimp only
    split
    · exact ordered_dropModelsLoop hk ms
    · trivial

theorem ordered_writeBatch {sw : Bool} {m : Nat} {rows : List (Nat × Shape)} {h : List (Lock × Mode)} {k : Prog}
    (hb : ∀ x ∈ h, rank sw x.1 < 3) (hk : Ordered (rank sw) h k) : Ordered (rank sw) h (writeBatch m rows k) := by
  refine ⟨hb, ordered_freezeRows ?_ (ordered_rel (rk := rank sw) (l := .driver m) hb hk) rows⟩
  intro x hx
  rcases List.mem_cons.1 hx with rfl | hx
  · simp [rank]
  · have := hb x hx; omega

theorem ordered_writeBatches {sw : Bool} {h : List (Lock × Mode)} {k : Prog}
    (hb : ∀ x ∈ h, rank sw x.1 < 3) (hk : Ordered (rank sw) h k) :
    ∀ ms, Ordered (rank sw) h (writeBatches ms k)
  | [] => hk
  | (_, _) :: ms => ordered_writeBatch hb (ordered_writeBatches hb hk ms)

theorem ordered_commit {sw : Bool} {h : List (Lock × Mode)} {ok bad : Prog}
    (hb : ∀ x ∈ h, rank sw x.1 < 3) (h1 : Ordered (rank sw) h ok) (h2 : Ordered (rank sw) h bad) :
    Ordered (rank sw) h (commit ok bad) := by
  intro b
  cases b
  · exact h2
  · refine ⟨hb, fun b => ?_⟩
    cases b
    · exact ordered_rel (rk := rank sw) (l := .gns) hb h2
    · exact ordered_rel (rk := rank sw) (l := .gns) hb h1

/-- Works through a program of a fixed shape. -/
macro "ordered" : tactic => `(tactic|
  (repeat' first
    | (simp [Ordered, unhold, rank]; done)
    | apply ordered_commit
    | apply ordered_dropModelsLoop
    | apply ordered_writeBatches
    | apply ordered_writeBatch
    | apply ordered_freezeRows
    | apply ordered_freezeRow
    | apply ordered_pushLists
    | apply ordered_checkLists
    | (intro _; dsimp only)
    | (refine And.intro (by simp [rank]) ?_)
    | split
    | (simp only [Ordered, unhold, rank]; simp)))

theorem ordered_spaces_first (q : Stmt) (h : q.modelsFirst = false) : Ordered (rank false) [] q.prog := by
  cases q <;> simp only [Stmt.modelsFirst, reduceCtorEq] at h <;> simp only [Stmt.prog]
  case createSpace => unfold createSpace; ordered
  case alterSpace => unfold alterSpace; ordered
  case dropSpacePlain => unfold dropSpacePlain; ordered
  case dropSpaceForce => unfold dropSpaceForce; ordered
  case createModel => unfold createModel; ordered
  case dropModel => unfold dropModel; ordered
  case readSpaces => unfold readSpaces; ordered
  case inspectGlobal => unfold inspectGlobal; ordered
  case inspectModel => unfold inspectModel; ordered
  case verifyUser => unfold verifyUser; ordered
  case changeUser => unfold changeUser; ordered
  case select => unfold select; ordered
  case selectAll => unfold selectAll; ordered
  case insert => unfold insert; ordered
  case delete => unfold delete; ordered
  case update => unfold update; ordered
  case taskWriteBatch => unfold taskWriteBatch; ordered
  case taskRecoverModel => unfold taskRecoverModel; ordered
  case taskCheckGns => unfold taskCheckGns; ordered
  case taskGeneral => unfold taskGeneral; ordered

theorem ordered_models_first (q : Stmt) (h : q.spacesFirst = false) : Ordered (rank true) [] q.prog := by
  cases q <;> simp only [Stmt.spacesFirst, reduceCtorEq] at h <;> simp only [Stmt.prog]
  case createSpace => unfold createSpace; ordered
  case alterSpace => unfold alterSpace; ordered
  case dropSpacePlain => unfold dropSpacePlain; ordered
  case alterModel => unfold alterModel; ordered
  case readSpaces => unfold readSpaces; ordered
  case inspectGlobal => unfold inspectGlobal; ordered
  case inspectModel => unfold inspectModel; ordered
  case verifyUser => unfold verifyUser; ordered
  case changeUser => unfold changeUser; ordered
  case select => unfold select; ordered
  case selectAll => unfold selectAll; ordered
  case insert => unfold insert; ordered
  case delete => unfold delete; ordered
  case update => unfold update; ordered
  case taskWriteBatch => unfold taskWriteBatch; ordered
  case taskRecoverModel => unfold taskRecoverModel; ordered
  case taskCheckGns => unfold taskCheckGns; ordered
  case taskGeneral => unfold taskGeneral; ordered

/-- Either order will do for a whole client. -/
theorem ordered_client {rk : Lock → Nat} : ∀ (qs : List Stmt), (∀ q ∈ qs, Ordered rk [] q.prog) →
    Ordered rk [] (client qs)
  | [], _ => rfl
  | q :: qs, h => (h q (by simp)).andThen (ordered_client qs fun q' hq => h q' (List.mem_cons_of_mem _ hq))

theorem start_inv {rk : Lock → Nat} {c : Cat} {qs : List (List Stmt)} (h : ∀ q ∈ qs, Ordered rk [] (client q)) :
    Inv rk (start c qs) where
  ord t ht := by
    simp only [start, List.mem_map] at ht
    obtain ⟨q, hq, rfl⟩ := ht
    exact h q hq
  excl := by
    intro i j t u ht _ _ l a b ha _
    have := mem_of_get? ht
    simp only [start, List.mem_map] at this
    obtain ⟨q, _, rfl⟩ := this
    simp at ha

end Verif.Locks

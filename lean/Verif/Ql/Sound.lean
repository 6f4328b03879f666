import Verif.Ql.SoundDml
/-!
What the parser accepts is in the grammar.
-/
namespace Verif.Ql
open Verif.Lex (Token Symbol Keyword KwStmt KwMisc Lit)
open Gr

variable {e : Env} {α : Type}

/-! ### The code of a statement that changes the catalogue -/

/-- A space or a model, or neither. -/
theorem thing_cases (a : Token) : a = kw .space ∨ a = kw .model ∨ ((a == kw .space) = false ∧ (a == kw .model) = false) := by
  by_cases h1 : a = kw .space
  · exact .inl h1
  · by_cases h2 : a = kw .model
    · exact .inr (.inl h2)
    · exact .inr (.inr ⟨by simpa using h1, by simpa using h2⟩)

theorem blkCode_sysctl {a b : Token} : blkCode .sysctl a b = 1 := by
  unfold blkCode
  generalize isId b = x
  generalize (b == kw .if) = y
  generalize (b == kw .allow) = z
  generalize (a == kw .space) = u
  generalize (a == kw .model) = v
  revert x y z u v
  decide

theorem blkCode_create {a b : Token} : blkCode .create a b =
    if isId b || b == kw .if then (if a = kw .space then 2 else if a = kw .model then 3 else 0) else 0 := by
  unfold blkCode
  generalize isId b = x
  generalize (b == kw .if) = y
  generalize (b == kw .allow) = z
  rcases thing_cases a with rfl | rfl | ⟨h1, h2⟩
  · revert x y z; decide
  · revert x y z; decide
  · have h1' : a ≠ kw .space := by simpa using h1
    have h2' : a ≠ kw .model := by simpa using h2
    simp only [h1, h2, h1', h2', if_false]
    revert x y z; decide

theorem blkCode_alter {a b : Token} : blkCode .alter a b =
    if isId b then (if a = kw .space then 4 else if a = kw .model then 5 else 0) else 0 := by
  unfold blkCode
  generalize isId b = x
  generalize (b == kw .if) = y
  generalize (b == kw .allow) = z
  rcases thing_cases a with rfl | rfl | ⟨h1, h2⟩
  · revert x y z; decide
  · revert x y z; decide
  · have h1' : a ≠ kw .space := by simpa using h1
    have h2' : a ≠ kw .model := by simpa using h2
    simp only [h1, h2, h1', h2', if_false]
    revert x y z; decide

theorem blkCode_drop {a b : Token} : blkCode .drop a b =
    if isId b || b == kw .allow || b == kw .if then (if a = kw .space then 6 else if a = kw .model then 7 else 0) else 0 := by
  unfold blkCode
  generalize isId b = x
  generalize (b == kw .if) = y
  generalize (b == kw .allow) = z
  rcases thing_cases a with rfl | rfl | ⟨h1, h2⟩
  · revert x y z; decide
  · revert x y z; decide
  · have h1' : a ≠ kw .space := by simpa using h1
    have h2' : a ≠ kw .model := by simpa using h2
    simp only [h1, h2, h1', h2', if_false]
    revert x y z; decide

/-! ### Dispatch -/

/-- A statement on a space or a model after `create space` and the like. -/
theorem ddl_sound {p : P Gns.Stmt} {k : KwStmt} {m : KwMisc} {cs : Option String} {c : Calls} {s : St}
    (h : lp p e (Read e (fun ts a => Ddl (pre k m ts) a) s) s) (hs : s.i = 2)
    (h0 : e.toks[0]? = some (.kw (.statement k))) (h1 : e.toks[1]? = some (kw m)) :
    lp (hardened p) e (fun q _ => Stmt cs c e.toks (.ddl q)) s := by
  refine hardened_lp (lp_mono h fun a s' h hl => ?_)
  obtain ⟨ts, h2, h3⟩ := h.all2 hs h0 h1 hl
  rw [h2]
  exact .ddl h3

theorem runBlocking_sound {r : Bool} {stmt : KwStmt} {s : St} (hs : s.i = 1) (h0 : e.toks[0]? = some (.kw (.statement stmt)))
    (hb : stmt.isBlocking = true) :
    lp (runBlocking r stmt) e (fun q _ => (r = true ∨ stmt = .sysctl) ∧ Stmt e.cs (calls e) e.toks q) s := by
  unfold runBlocking
  lps
  refine ⟨fun _ => trivial, fun hr _ => ⟨fun _ => trivial, fun _ => ?_⟩⟩
  have hr' : r = true ∨ stmt = .sysctl := by
    simp only [Bool.not_eq_true', Bool.not_eq_false, Bool.or_eq_true, beq_iff_eq] at hr
    exact hr
  rw [lp_withoutSpace]
  lps
  intro a ha b _
  rw [hs] at ha
  have ha' : e.toks[1]? = some a := ha
  have two : (⟨s.i + 1, s.f⟩ : St).i = 2 := by show s.i + 1 = 2; omega
  have fin : ∀ {p : P Gns.Stmt} {s1 : St}, lp (hardened p) { e with cs := none } (fun q _ => Stmt e.cs (calls e) e.toks (.ddl q)) s1 →
      lp (do let s ← hardened p; pure (.ddl s)) { e with cs := none }
        (fun q _ => (r = true ∨ stmt = .sysctl) ∧ Stmt e.cs (calls e) e.toks q) s1 := by
    intro p s1 h
    lps
    exact lp_mono h fun _ _ h => ⟨hr', h⟩
  cases stmt with
  | sysctl =>
    rw [blkCode_sysctl]
    simp only [blkExec]
    lps
    refine hardened_lp (lp_mono sysctl_sound fun a s' h hl => ⟨.inr trivial, ?_⟩)
    obtain ⟨ts, h2, h3⟩ := h.all (by simpa using hs) h0 hl
    simp only at h2
    rw [h2]
    exact .sysctl h3
  | create =>
    rw [blkCode_create]
    have : ((KwStmt.create != .sysctl).toNat) = 1 := rfl
    rw [this]
    split
    · split
      · rename_i hx
        subst hx
        exact fin (ddl_sound createSpace_sound two h0 ha')
      · split
        · rename_i hx
          subst hx
          exact fin (ddl_sound (createModel_sound rfl) two h0 ha')
        · trivial
    · trivial
  | alter =>
    rw [blkCode_alter]
    have : ((KwStmt.alter != .sysctl).toNat) = 1 := rfl
    rw [this]
    split
    · split
      · rename_i hx
        subst hx
        exact fin (ddl_sound alterSpace_sound two h0 ha')
      · split
        · rename_i hx
          subst hx
          exact fin (ddl_sound (alterModel_sound rfl) two h0 ha')
        · trivial
    · trivial
  | drop =>
    rw [blkCode_drop]
    have : ((KwStmt.drop != .sysctl).toNat) = 1 := rfl
    rw [this]
    split
    · split
      · rename_i hx
        subst hx
        exact fin (ddl_sound dropSpace_sound two h0 ha')
      · split
        · rename_i hx
          subst hx
          exact fin (ddl_sound (dropModel_sound rfl) two h0 ha')
        · trivial
    · trivial
  | _ => simp [KwStmt.isBlocking] at hb

theorem runNb_sound {stmt : KwStmt} {s : St} (hs : s.i = 1) (h0 : e.toks[0]? = some (.kw (.statement stmt)))
    (hb : stmt.isBlocking = false) :
    lp (runNb stmt) e (fun q _ => Stmt e.cs (calls e) e.toks q) s := by
  unfold runNb
  lps
  intro _
  have rows : ∀ {p : P RowQuery} {s1 : St}, s1.i = 1 →
      lp p e (fun r s' => s'.i = e.toks.length →
        Read e (fun ts q => Dml e.cs (calls e) (.kw (.statement stmt) :: ts) q) s1 r s') s1 →
      lp (do let s ← hardened p; pure (.rows s)) e (fun q _ => Stmt e.cs (calls e) e.toks q) s1 := by
    intro p s1 h1 h
    lps
    refine hardened_lp (lp_mono h fun a s' h hl => ?_)
    obtain ⟨ts, h2, h3⟩ := (h hl).all h1 h0 hl
    rw [h2]
    exact .rows h3
  have one : (⟨s.i + 0, s.f⟩ : St).i = 1 := hs
  cases stmt with
  | use =>
    show lp (nbExec 0) _ _ _
    simp only [nbExec]
    lps
    refine hardened_lp (lp_mono useStmt_sound fun a s' h hl => ?_)
    obtain ⟨ts, h2, h3⟩ := h.all one h0 hl
    rw [h2]
    exact .use h3
  | inspect =>
    show lp (nbExec 1) _ _ _
    simp only [nbExec]
    lps
    refine hardened_lp (lp_mono inspectStmt_sound fun a s' h hl => ?_)
    obtain ⟨ts, h2, h3⟩ := h.all one h0 hl
    rw [h2]
    exact .inspect h3
  | describe => trivial
  | «exists» => trivial
  | insert => exact rows one (insertStmt_sound one)
  | update => exact rows one (lp_mono updateStmt_sound fun _ _ h _ => h)
  | delete => exact rows one (lp_mono deleteStmt_sound fun _ _ h _ => h)
  | select =>
    by_cases ha : e.toks[s.i]? = some (kw .all)
    · rw [ha]
      show lp (nbExec 8) _ _ _
      simp only [nbExec]
      lps
      refine hardened_lp (lp_mono selectAllStmt_sound fun a s' h hl => ?_)
      rw [hs] at ha
      obtain ⟨ts, h2, h3⟩ := h.all2 (by show s.i + 1 = 2; omega) h0 ha hl
      rw [h2]
      exact .rows h3
    · simp only [ha, decide_false, Bool.and_false]
      exact rows one (lp_mono selectStmt_sound fun _ _ h _ => h)
  | _ => simp [KwStmt.isBlocking] at hb

/-- The first token of a statement on spaces and models. -/
theorem ddl_first {ts : List Token} {s : Gns.Stmt} (h : Ddl ts s) :
    ∃ k, ts[0]? = some (.kw (.statement k)) ∧ (k = .create ∨ k = .alter ∨ k = .drop) := by
  cases h <;> simp

/-- Every query that is accepted is in the grammar, and statements on spaces and models come from the root
account. -/
theorem parse_sound {r : Bool} {q : Query} (h : parse r e = .ok q) :
    Stmt e.cs (calls e) e.toks q ∧ (r = true ∨ ∀ s, q ≠ .ddl s) := by
  have key : lp (dispatch r) e (fun q _ => Stmt e.cs (calls e) e.toks q ∧ (r = true ∨ ∀ s, q ≠ .ddl s)) ⟨0, true⟩ := by
    simp only [dispatch, tryStatement]
    lps
    refine fun _ => ⟨fun _ => trivial, fun _ t ht => ?_⟩
    split
    · rename_i stmt
      have nd : (stmt = .sysctl ∨ stmt.isBlocking = false) → ∀ q, Stmt e.cs (calls e) e.toks q → ∀ s, q ≠ .ddl s := by
        rintro hk q hq s rfl
        generalize e.toks = toks at ht hq
        cases hq with
        | ddl hd =>
          obtain ⟨k, h1, h2⟩ := ddl_first hd
          rw [ht] at h1
          cases h1
          rcases h2 with rfl | rfl | rfl <;> simp [KwStmt.isBlocking] at hk
      lps
      refine ⟨fun hb => ?_, fun hb => ?_⟩
      · refine lp_mono (runBlocking_sound rfl ht hb) ?_
        rintro q _ ⟨h1, h2⟩
        rcases h1 with h1 | h1
        · exact ⟨h2, .inl h1⟩
        · exact ⟨h2, .inr (nd (.inl h1) q h2)⟩
      · have hb : stmt.isBlocking = false := by simpa using hb
        refine lp_mono (runNb_sound rfl ht hb) fun q _ h => ⟨h, .inr (nd (.inr hb) q h)⟩
    · trivial
  unfold parse P.run at h
  split at h
  · rename_i a s' ha
    cases h
    exact (lp_iff.1 key) _ _ ha
  all_goals cases h

end Verif.Ql

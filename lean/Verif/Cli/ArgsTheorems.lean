import Verif.Cli.Args
import Verif.Cli.ReplTheorems
import Verif.Config.Theorems
/-!
C64: the shell connects where, and as whom, it was told to, and a query on the command line is like one that is typed.
-/
namespace Verif.Cli.Start
open Verif.Config (Str splitOn splitOn_one splitOn_two parseNum maxU16 Fs Var Site epText Denotes wordsOf)
open Verif.Server (Outside Srv Sess Answer)

/-! ### Specification -/

/-- The options of the shell. -/
inductive Opt where
  | endpoint | cert | user | pass | eval
  deriving DecidableEq, Repr

def Opt.name : Opt → Str
  | .endpoint => "--endpoint".toList
  | .cert => "--tls-cert".toList
  | .user => "--user".toList
  | .pass => "--password".toList
  | .eval => "--eval".toList

/-- What a person can ask of the shell: a place, with or without TLS, a file with a certificate, a user, a password, a query. -/
structure Wish where
  place : Option (Bool × Site) := none
  cert : Option Str := none
  user : Option Str := none
  pass : Option Str := none
  eval : Option Str := none

/-- The values of the options. -/
def Wish.value (w : Wish) : Opt → Option Str
  | .endpoint => w.place.map fun p => epText p.1 p.2
  | .cert => w.cert
  | .user => w.user
  | .pass => w.pass
  | .eval => w.eval

/-- An option on the command line, as one word or two. -/
structure Item where
  opt : Opt
  val : Str
  joined : Bool

def Item.words (i : Item) : List Str := wordsOf i.opt.name i.val i.joined

/-- The options, in any order, say what is wished. -/
def Says (w : Wish) (items : List Item) : Prop :=
  ∀ o, (items.filter fun i => i.opt = o).map (·.val) = (w.value o).toList

/-- A key that a person presses. -/
inductive Key where
  | char (c : Char)
  | back
  deriving DecidableEq, Repr

/-- The text that is typed with these keys. -/
def text : List Key → Str → Str
  | [], p => p
  | .char c :: ks, p => text ks (p ++ [c])
  | .back :: ks, p => text ks p.dropLast

/-- How the terminal library reports a key: capital letters with the modifier for the shift key. -/
def press (upper : Char → Bool) : Key → Event
  | .char c => .key (.char c) (if upper c then .shift else .none) true
  | .back => .key .backspace .none true

/-- A person types these keys, then enter; then anything. -/
def types (upper : Char → Bool) (ks : List Key) (rest : List Event) : List Event :=
  ks.map (press upper) ++ .key .enter .none true :: rest

/-- The connection that is wished. -/
def IsKind (fs : Fs) : Option (Bool × Site) → Option Str → Kind → Prop
  | none, none, k => k = .tcp "127.0.0.1".toList 2003
  | some (false, s), none, k => ∃ p, Denotes maxU16 s.port p ∧ k = .tcp s.host p
  | some (true, s), some path, k => ∃ p c, Denotes maxU16 s.port p ∧ fs path = some c ∧ k = .tls s.host p c
  | _, _, _ => False

/-- The password: of the options, of the environment, or what is typed. -/
def IsPass (env : Var) (typed : Str) : Option Str → Str → Prop
  | some q, p => p = q
  | none, p =>
    match env with
    | .val v => p = v
    | _ => p = typed

/-- The client that is wished. -/
structure Means (fs : Fs) (env : Var) (typed : Str) (w : Wish) (c : Client) : Prop where
  kind : IsKind fs w.place w.cert c.kind
  user : c.user = w.user.getD "root".toList
  pass : IsPass env typed w.pass c.pass

/-- What the shell does for a client. -/
def taskOf (c : Client) : Option Str → Task
  | none => .shell c
  | some q => .once c q

/-! ### Proof -/

theorem name_inj {o o' : Opt} (h : o.name = o'.name) : o = o' := by
  cases o <;> cases o' <;> first | rfl | (exact absurd h (by decide))

theorem name_facts (o : Opt) : '=' ∉ o.name ∧ o.name ≠ "--help".toList ∧ o.name ≠ "--version".toList := by
  cases o <;> decide +kernel

theorem get_none {a : Map} {k : Str} : a.get k = none ↔ ∀ e ∈ a, e.1 ≠ k := by
  induction a with
  | nil => simp [Map.get]
  | cons e a ih =>
    unfold Map.get
    split
    · rename_i h
      simp [h]
    · rename_i h
      simp [h, ih]

theorem get_remove (a : Map) (k k' : Str) : (a.remove k).get k' = if k' = k then none else a.get k' := by
  induction a with
  | nil => simp [Map.remove, Map.get]
  | cons e a ih =>
    unfold Map.remove at ih ⊢
    rw [List.filter_cons]
    by_cases h : e.1 = k
    · rw [if_neg (by simp [h]), ih]
      by_cases h' : k' = k
      · simp [h']
      · rw [if_neg h', if_neg h', Map.get, if_neg (by rw [h]; exact Ne.symm h')]
    · rw [if_pos (by simp [h]), Map.get, Map.get, ih]
      by_cases h' : e.1 = k'
      · rw [if_pos h', if_pos h', if_neg (by rw [← h']; exact h)]
      · rw [if_neg h', if_neg h']

theorem isEmpty_iff (a : Map) : a.isEmpty = true ↔ ∀ k, a.get k = none := by
  cases a with
  | nil => simp [Map.get]
  | cons e a =>
    simp only [List.isEmpty_cons, Bool.false_eq_true, false_iff]
    intro h
    have := h e.1
    simp [Map.get] at this

/-- The map of the options. -/
def collect (a : Map) (items : List Item) : Map := items.foldl (fun a i => (i.opt.name, i.val) :: a) a

/-- The next options are new and different. -/
def New (a : Map) : List Item → Prop
  | [] => True
  | i :: items => a.get i.opt.name = none ∧ New ((i.opt.name, i.val) :: a) items

theorem loop_item (i : Item) (hj : i.joined = true → '=' ∉ i.val) (rest : List Str) (a : Map) (h : a.get i.opt.name = none) :
    loop (i.words ++ rest) a = loop rest ((i.opt.name, i.val) :: a) := by
  obtain ⟨h1, h2, h3⟩ := name_facts i.opt
  have he : a.enter i.opt.name i.val = .ok ((i.opt.name, i.val) :: a) := by unfold Map.enter; rw [h]
  unfold Item.words wordsOf
  cases hb : i.joined with
  | true =>
    have ne : ∀ t : Str, '=' ∉ t → i.opt.name ++ '=' :: i.val ≠ t := by
      rintro t ht rfl
      exact ht (by simp)
    simp only [if_true, List.cons_append, List.nil_append]
    rw [loop.eq_def]
    simp only
    rw [if_neg (ne _ (by decide)), if_neg (ne _ (by decide)), splitOn_two.2 ⟨rfl, h1, hj hb⟩]
    simp only [he]
    rfl
  | false =>
    simp only [Bool.false_eq_true, if_false, List.cons_append, List.nil_append]
    rw [loop.eq_def]
    simp only
    rw [if_neg h2, if_neg h3, splitOn_one.2 ⟨rfl, h1⟩]
    simp only [he]
    rfl

theorem loop_items (items : List Item) (hj : ∀ i ∈ items, i.joined = true → '=' ∉ i.val) (a : Map) (hn : New a items) (rest : List Str) :
    loop (items.flatMap Item.words ++ rest) a = loop rest (collect a items) := by
  induction items generalizing a with
  | nil => rfl
  | cons i items ih =>
    obtain ⟨h1, h2⟩ := hn
    rw [List.flatMap_cons, List.append_assoc, loop_item i (hj i (by simp)) _ _ h1]
    exact ih (fun j hj' => hj j (List.mem_cons_of_mem _ hj')) _ h2

theorem new_of {items : List Item} {a : Map} (ha : ∀ i ∈ items, a.get i.opt.name = none)
    (h : ∀ o, ((items.filter fun i => i.opt = o).map (·.val)).length ≤ 1) : New a items := by
  induction items generalizing a with
  | nil => trivial
  | cons i items ih =>
    refine ⟨ha i (by simp), ih (fun j hj => ?_) fun o => ?_⟩
    · rw [Map.get, if_neg, ha j (List.mem_cons_of_mem _ hj)]
      intro e
      have e := name_inj e
      have h1 := h i.opt
      have h2 : j ∈ items.filter fun k => k.opt = i.opt := List.mem_filter.2 ⟨hj, by simp [e]⟩
      have h3 := List.length_pos_of_mem h2
      rw [List.filter_cons, if_pos (by simp), List.map_cons, List.length_cons, List.length_map] at h1
      omega
    · have := h o
      rw [List.filter_cons] at this
      split at this
      · rw [List.map_cons, List.length_cons] at this
        omega
      · exact this

theorem collect_get (items : List Item) (a : Map) (hn : New a items) (o : Opt) :
    (collect a items).get o.name = match (items.filter fun i => i.opt = o).map (·.val) with
      | [] => a.get o.name
      | v :: _ => some v := by
  induction items generalizing a with
  | nil => rfl
  | cons i items ih =>
    obtain ⟨h1, h2⟩ := hn
    rw [collect, List.foldl_cons, ← collect, ih _ h2, List.filter_cons]
    by_cases e : i.opt = o
    · subst e
      have hno : (items.filter fun j => j.opt = i.opt) = [] := by
        rw [List.filter_eq_nil_iff]
        intro j hj
        have key : ∀ (l : List Item) (b : Map), New b l → b.get i.opt.name ≠ none → ∀ j ∈ l, j.opt ≠ i.opt := by
          intro l
          induction l with
          | nil => intro b _ _ j hj; cases hj
          | cons x l ihl =>
            rintro b ⟨k1, k2⟩ hb j hj e
            rcases List.mem_cons.1 hj with rfl | hj
            · rw [e] at k1
              exact hb k1
            · refine ihl _ k2 ?_ j hj e
              rw [Map.get]
              split
              · simp
              · exact hb
        simpa using key items _ h2 (by simp [Map.get]) j hj
      simp [hno, Map.get]
    · have hne : ¬ i.opt.name = o.name := fun h => e (name_inj h)
      simp only [e, decide_false, Bool.false_eq_true, if_false, Map.get, if_neg hne]

theorem collect_keys (items : List Item) (a : Map) (ha : ∀ e ∈ a, ∃ o : Opt, e.1 = o.name) : ∀ e ∈ collect a items, ∃ o : Opt, e.1 = o.name := by
  induction items generalizing a with
  | nil => exact ha
  | cons i items ih =>
    refine ih _ ?_
    intro e he
    rcases List.mem_cons.1 he with rfl | he
    · exact ⟨i.opt, rfl⟩
    · exact ha e he

/-- The map holds what is wished and nothing else. -/
structure Holds (a : Map) (w : Wish) : Prop where
  get : ∀ o, a.get o.name = w.value o
  keys : ∀ k, a.get k ≠ none → ∃ o : Opt, k = o.name

theorem says_holds {w : Wish} {items : List Item} (h : Says w items) : New [] items ∧ Holds (collect [] items) w := by
  have hn : New [] items := new_of (fun i _ => rfl) fun o => by
    rw [h o]
    cases w.value o <;> simp
  refine ⟨hn, fun o => ?_, fun k hk => ?_⟩
  · rw [collect_get items [] hn o, h o]
    cases w.value o <;> rfl
  · by_cases hex : ∃ o : Opt, k = o.name
    · exact hex
    · refine absurd (get_none.2 fun e he ek => hex ?_) hk
      obtain ⟨o, ho⟩ := collect_keys items [] (by simp) e he
      exact ⟨o, by rw [← ek, ho]⟩

theorem bind_iff {ε α β : Type} {x : Res ε α} {f : α → Res ε β} {b : β} : x.bind f = .ok b ↔ ∃ a, x = .ok a ∧ f a = .ok b := by
  cases x <;> simp [Res.bind]

theorem endpointOf_iff {ep pr h : Str} {p : Nat} : endpointOf ep = .ok (pr, h, p) ↔
    ∃ port, ep = pr ++ '@' :: (h ++ ':' :: port) ∧ '@' ∉ pr ∧ '@' ∉ h ∧ ':' ∉ h ∧ Denotes maxU16 port p := by
  constructor
  · intro hp
    unfold endpointOf at hp
    split at hp
    · rename_i protocol hostport h1
      split at hp
      · rename_i host port h2
        obtain ⟨e1, hp1, hp2⟩ := splitOn_two.1 h1
        obtain ⟨e2, hh1, hh2⟩ := splitOn_two.1 h2
        split at hp
        · rename_i n hn
          injection hp with hp
          injection hp with hb hp
          injection hp with hh hp
          subst hb hh hp
          exact ⟨port, by rw [e1, e2], hp1, fun hm => hp2 (by rw [e2]; exact List.mem_append_left _ hm), hh1, Config.parseNum_iff.1 hn⟩
        · cases hp
      · cases hp
    · cases hp
  · rintro ⟨port, rfl, h1, h2, h3, h4⟩
    have hat : '@' ∉ h ++ ':' :: port := by
      simp only [List.mem_append, List.mem_cons, not_or]
      exact ⟨h2, by decide, h4.chars '@' (by decide) (by decide)⟩
    have hcol : ':' ∉ port := h4.chars ':' (by decide) (by decide)
    unfold endpointOf
    rw [splitOn_two.2 ⟨rfl, h1, hat⟩]
    dsimp only
    rw [splitOn_two.2 ⟨rfl, h3, hcol⟩]
    dsimp only
    rw [Config.parseNum_iff.2 h4]

theorem readPassword_char (c : Char) (es : List Event) (p : Str) :
    readPassword (.key (.char c) .none true :: es) p = readPassword es (p ++ [c]) := by
  rw [readPassword]

theorem text_read (upper : Char → Bool) (ks : List Key) (hk : ∀ c, Key.char c ∈ ks → upper c = false) (rest : List Event) (p : Str) :
    readPassword (types upper ks rest) p = .ok (.password (text ks p)) := by
  induction ks generalizing p with
  | nil => rfl
  | cons k ks ih =>
    have ih := ih fun c hc => hk c (List.mem_cons_of_mem _ hc)
    cases k with
    | back => exact ih p.dropLast
    | char c =>
      have hc := hk c (by simp)
      have e : types upper (.char c :: ks) rest = .key (.char c) .none true :: types upper ks rest := by
        simp [types, press, hc]
      rw [e, readPassword_char]
      exact ih (p ++ [c])

theorem password_iff (upper : Char → Bool) (ks : List Key) (hk : ∀ c, Key.char c ∈ ks → upper c = false) (rest : List Event)
    (env : Var) (o : Option Str) (t : Typed) :
    password env (types upper ks rest) o = .ok t ↔ ∃ p, t = .password p ∧ IsPass env (text ks []) o p := by
  cases o with
  | some q =>
    simp only [password, IsPass, Res.ok.injEq]
    exact ⟨fun h => ⟨q, h.symm, rfl⟩, by rintro ⟨p, rfl, rfl⟩; rfl⟩
  | none =>
    cases env with
    | val v =>
      simp only [password, IsPass, Res.ok.injEq]
      exact ⟨fun h => ⟨v, h.symm, rfl⟩, by rintro ⟨p, rfl, rfl⟩; rfl⟩
    | absent =>
      simp only [password, IsPass, text_read upper ks hk, Res.ok.injEq]
      exact ⟨fun h => ⟨_, h.symm, rfl⟩, by rintro ⟨p, rfl, rfl⟩; rfl⟩
    | notUnicode =>
      simp only [password, IsPass, text_read upper ks hk, Res.ok.injEq]
      exact ⟨fun h => ⟨_, h.symm, rfl⟩, by rintro ⟨p, rfl, rfl⟩; rfl⟩

/-- Two characters with a special meaning do not occur in the name of the host. -/
def Wish.Clean (w : Wish) : Prop := ∀ p, w.place = some p → p.2.Clean

/-- A certificate is for TLS. -/
def Wish.Fitting (w : Wish) : Prop := ∀ s, w.place = some (false, s) → w.cert = none

/-- What is left of the map. -/
def Left (a a' : Map) (w : Wish) : Prop :=
  (w.place = none → a' = a) ∧ (w.place ≠ none → a' = (a.remove optEndpoint).remove optCert)

theorem target_iff {fs : Fs} {a a' : Map} {w : Wish} {k : Kind} (h : Holds a w) (hc : w.Clean) (hf : w.Fitting) :
    target fs a = .ok (k, a') ↔
      Left a a' w ∧ (IsKind fs w.place w.cert k ∨ w.place = none ∧ w.cert ≠ none ∧ k = .tcp "127.0.0.1".toList 2003) := by
  have he : a.get optEndpoint = w.place.map fun p => epText p.1 p.2 := h.get .endpoint
  have hcert : a.get optCert = w.cert := h.get .cert
  unfold target
  rw [he, hcert]
  rcases hp : w.place with _ | ⟨b, s⟩
  · simp only [Option.map_none, Left, hp, Res.ok.injEq, Prod.mk.injEq, ne_eq, not_true, forall_const, true_and]
    constructor
    · rintro ⟨rfl, rfl⟩
      refine ⟨⟨rfl, fun h => h.elim⟩, ?_⟩
      cases w.cert with
      | none => exact .inl rfl
      | some c => exact .inr ⟨by simp, rfl⟩
    · rintro ⟨⟨rfl, -⟩, hk | ⟨-, rfl⟩⟩
      · cases hw : w.cert with
        | none => rw [hw] at hk; exact ⟨hk.symm, rfl⟩
        | some c => rw [hw] at hk; exact hk.elim
      · exact ⟨rfl, rfl⟩
  · have hcl := hc _ hp
    have hL : Left a a' w ↔ a' = (a.remove optEndpoint).remove optCert := by simp [Left, hp]
    rw [hL]
    simp only [Option.map_some, reduceCtorEq, false_and, or_false]
    show Res.bind _ _ = _ ↔ _
    rw [bind_iff]
    constructor
    · rintro ⟨⟨pr, host, port⟩, h1, h2⟩
      obtain ⟨q, e, hpr, hat, hcol, hd⟩ := endpointOf_iff.1 h1
      replace h2 : Res.bind (kindOf fs w.cert pr host port) (fun k => Res.ok (k, (a.remove optEndpoint).remove optCert)) = .ok (k, a') := h2
      obtain ⟨k', hk, e2⟩ := bind_iff.1 h2
      injection e2 with e2
      injection e2 with e2 e3
      subst e2 e3
      refine ⟨rfl, ?_⟩
      have hq : '@' ∉ (if b = true then "tls".toList else "tcp".toList) := by cases b <;> decide
      have hs : '@' ∉ s.host ++ ':' :: s.port ∨ '@' ∈ s.port := by
        by_cases hm : '@' ∈ s.port
        · exact .inr hm
        · exact .inl (by simp only [List.mem_append, List.mem_cons, not_or]; exact ⟨hcl.1, by decide, hm⟩)
      have e' : splitOn '@' (epText b s) = [pr, host ++ ':' :: q] := by
        rw [e]
        exact splitOn_two.2 ⟨rfl, hpr, by
          simp only [List.mem_append, List.mem_cons, not_or]
          exact ⟨hat, by decide, hd.chars '@' (by decide) (by decide)⟩⟩
      have hs' : '@' ∉ s.host ++ ':' :: s.port := by
        unfold epText at e'
        rw [Config.splitOn_append hq] at e'
        injection e' with _ e'
        exact (splitOn_one.1 e').1 ▸ (splitOn_one.1 e').2
      have e'' := e'
      unfold epText at e''
      rw [splitOn_two.2 ⟨rfl, hq, hs'⟩] at e''
      injection e'' with e1 e2
      injection e2 with e2
      have c1 : splitOn ':' (s.host ++ ':' :: s.port) = [host, q] := by
        rw [e2]
        exact splitOn_two.2 ⟨rfl, hcol, hd.chars ':' (by decide) (by decide)⟩
      rw [Config.splitOn_append hcl.2] at c1
      injection c1 with c1 c2
      have c3 := (splitOn_one.1 c2).1
      subst c1 c3
      unfold kindOf at hk
      cases b with
      | false =>
        replace e1 : "tcp".toList = pr := e1
        rw [if_pos e1.symm] at hk
        rw [hf s hp]
        injection hk with hk
        exact ⟨port, hd, hk.symm⟩
      | true =>
        replace e1 : "tls".toList = pr := e1
        rw [if_neg (by rw [← e1]; decide), if_pos e1.symm] at hk
        cases hw : w.cert with
        | none => rw [hw] at hk; cases hk
        | some path =>
          rw [hw] at hk
          simp only [readCert] at hk
          split at hk
          · rename_i c hc
            injection hk with hk
            exact ⟨port, c, hd, hc, hk.symm⟩
          · cases hk
    · rintro ⟨rfl, hk⟩
      cases b with
      | false =>
        have hw := hf s hp
        rw [hw] at hk ⊢
        obtain ⟨p, hd, rfl⟩ := hk
        exact ⟨("tcp".toList, s.host, p), endpointOf_iff.2 ⟨s.port, rfl, by decide, hcl.1, hcl.2, hd⟩, rfl⟩
      | true =>
        cases hw : w.cert with
        | none => rw [hw] at hk; exact hk.elim
        | some path =>
          rw [hw] at hk
          obtain ⟨p, c, hd, hc, rfl⟩ := hk
          refine ⟨("tls".toList, s.host, p), endpointOf_iff.2 ⟨s.port, rfl, by decide, hcl.1, hcl.2, hd⟩, ?_⟩
          show Res.bind (kindOf fs (some path) "tls".toList s.host p) _ = _
          unfold kindOf
          rw [if_neg (by decide), if_pos rfl]
          simp only [readCert, hc]
          rfl

theorem left_get {a a' : Map} {w : Wish} (h : Holds a w) (hl : Left a a' w) {o : Opt} (ho : o ≠ .endpoint) (hc : o ≠ .cert) :
    a'.get o.name = w.value o := by
  by_cases hp : w.place = none
  · rw [hl.1 hp]
    exact h.get o
  · rw [hl.2 hp, get_remove, get_remove, if_neg, if_neg]
    · exact h.get o
    · exact fun e => ho (name_inj (o' := .endpoint) e)
    · exact fun e => hc (name_inj (o' := .cert) e)

theorem left_empty {a a' : Map} {w : Wish} (h : Holds a w) (hl : Left a a' w) :
    (((a'.remove optUser).remove optPass).remove optEval).isEmpty = true ↔ (w.place = none → w.cert = none) := by
  rw [isEmpty_iff]
  have key : ∀ k, (((a'.remove optUser).remove optPass).remove optEval).get k =
      if k = optEval then none else if k = optPass then none else if k = optUser then none else a'.get k := fun k => by
    rw [get_remove, get_remove, get_remove]
  constructor
  · intro hk hp
    have := hk optCert
    rw [key, if_neg (by decide), if_neg (by decide), if_neg (by decide), hl.1 hp] at this
    exact (h.get .cert).symm.trans this
  · intro hw k
    rw [key]
    split
    · rfl
    split
    · rfl
    split
    · rfl
    rename_i n1 n2 n3
    by_cases hp : w.place = none
    · rw [hl.1 hp]
      by_cases hg : a.get k = none
      · exact hg
      · obtain ⟨o, rfl⟩ := h.keys k hg
        cases o with
        | endpoint => rw [h.get .endpoint]; simp [Wish.value, hp]
        | cert => rw [h.get .cert]; exact hw hp
        | user => exact absurd rfl n3
        | pass => exact absurd rfl n2
        | eval => exact absurd rfl n1
    · rw [hl.2 hp, get_remove, get_remove]
      split
      · rfl
      split
      · rfl
      rename_i n4 n5
      by_cases hg : a.get k = none
      · exact hg
      · obtain ⟨o, rfl⟩ := h.keys k hg
        cases o with
        | endpoint => exact absurd rfl n5
        | cert => exact absurd rfl n4
        | user => exact absurd rfl n3
        | pass => exact absurd rfl n2
        | eval => exact absurd rfl n1

theorem decode_iff {fs : Fs} {env : Var} (upper : Char → Bool) (ks : List Key) (hk : ∀ c, Key.char c ∈ ks → upper c = false)
    (rest : List Event) {a : Map} {w : Wish} (h : Holds a w) (hc : w.Clean) (hf : w.Fitting) (t : Task) :
    decode fs env (types upper ks rest) a = .ok t ↔ ∃ c, Means fs env (text ks []) w c ∧ t = taskOf c w.eval := by
  unfold decode
  show Res.bind _ _ = _ ↔ _
  rw [bind_iff]
  constructor
  · rintro ⟨⟨k, a'⟩, h1, h2⟩
    obtain ⟨hl, hkind⟩ := (target_iff h hc hf).1 h1
    have hu := left_get h hl (o := .user) (by decide) (by decide)
    have hp := left_get h hl (o := .pass) (by decide) (by decide)
    have he := left_get h hl (o := .eval) (by decide) (by decide)
    replace h2 : Res.bind (password env (types upper ks rest) (a'.get optPass))
      (finish k ((a'.get optUser).getD "root".toList) (a'.get optEval) (((a'.remove optUser).remove optPass).remove optEval)) = .ok t := h2
    obtain ⟨ty, h3, h4⟩ := bind_iff.1 h2
    obtain ⟨p, rfl, hpass⟩ := (password_iff upper ks hk rest env _ _).1 h3
    unfold finish at h4
    simp only at h4
    split at h4
    · rename_i hem
      have hem := (left_empty h hl).1 hem
      have hkind : IsKind fs w.place w.cert k := by
        rcases hkind with hkind | ⟨h1, h2, -⟩
        · exact hkind
        · exact absurd (hem h1) h2
      replace hpass : IsPass env (text ks []) w.pass p := by
        have e : a'.get optPass = w.pass := hp
        rw [e] at hpass
        exact hpass
      refine ⟨⟨k, (a'.get optUser).getD "root".toList, p⟩, ⟨hkind, ?_, hpass⟩, ?_⟩
      · have e : a'.get optUser = w.user := hu
        rw [e]
      · have e : a'.get optEval = w.eval := he
        rw [e] at h4
        cases hw : w.eval with
        | none => rw [hw] at h4; injection h4 with h4; exact h4.symm
        | some q => rw [hw] at h4; injection h4 with h4; exact h4.symm
    · cases h4
  · rintro ⟨⟨k, u, p⟩, hm, rfl⟩
    have hcert : w.place = none → w.cert = none := fun hp => by
      have := hm.kind
      rw [hp] at this
      cases hw : w.cert with
      | none => rfl
      | some c => rw [hw] at this; exact this.elim
    have hex : ∃ a', Left a a' w := by
      by_cases hp : w.place = none
      · exact ⟨a, fun _ => rfl, fun h => absurd hp h⟩
      · exact ⟨_, fun h => absurd h hp, fun _ => rfl⟩
    obtain ⟨a', hl⟩ := hex
    have hu := left_get h hl (o := .user) (by decide) (by decide)
    have hp := left_get h hl (o := .pass) (by decide) (by decide)
    have he := left_get h hl (o := .eval) (by decide) (by decide)
    refine ⟨(k, a'), (target_iff h hc hf).2 ⟨hl, .inl hm.kind⟩, ?_⟩
    show Res.bind (password env (types upper ks rest) (a'.get optPass))
      (finish k ((a'.get optUser).getD "root".toList) (a'.get optEval) (((a'.remove optUser).remove optPass).remove optEval)) = _
    refine bind_iff.2 ⟨.password p, (password_iff upper ks hk rest env _ _).2 ⟨p, rfl, ?_⟩, ?_⟩
    · have e : a'.get optPass = w.pass := hp
      rw [e]
      exact hm.pass
    · unfold finish
      simp only
      rw [if_pos ((left_empty h hl).2 hcert)]
      have e : a'.get optEval = w.eval := he
      have e2 : a'.get optUser = w.user := hu
      have e3 : w.user.getD "root".toList = u := hm.user.symm
      rw [e, e2, e3]
      cases w.eval <;> rfl

/-- C64, with exceptions. Whatever a person asks for, in any order of the options, the shell does exactly that: it starts if and
only if the wish has a meaning, and then with the client that is meant. Excepted: values with an equals sign in one word with
their option, passwords with capital letters that are typed, a certificate without TLS, and host names with
the characters of the syntax (IPv6). -/
theorem C64_settings_partial (fs : Fs) (env : Var) (upper : Char → Bool) (ks : List Key) (rest : List Event)
    (hk : ∀ c, Key.char c ∈ ks → upper c = false) (prog : Str) (items : List Item) (w : Wish) (hs : Says w items)
    (hj : ∀ i ∈ items, i.joined = true → '=' ∉ i.val) (hc : w.Clean) (hf : w.Fitting) (t : Task) :
    parse fs env (types upper ks rest) (prog :: items.flatMap Item.words) = .ok t ↔
      ∃ c, Means fs env (text ks []) w c ∧ t = taskOf c w.eval := by
  obtain ⟨hn, hh⟩ := says_holds hs
  rw [← decode_iff upper ks hk rest hh hc hf t]
  unfold parse
  have := loop_items items hj [] hn []
  rw [List.append_nil] at this
  rw [List.drop_one, List.tail_cons, this]
  rfl

/-- A request for help or for the version is answered wherever it stands among the options, if none before it is given twice. -/
theorem C64_help (fs : Fs) (env : Var) (keys : List Event) (prog : Str) (items : List Item) (w : Wish) (hs : Says w items)
    (hj : ∀ i ∈ items, i.joined = true → '=' ∉ i.val) (v : Str) (hv : v = "--help".toList ∨ v = "--version".toList) (rest : List Str) :
    parse fs env keys (prog :: (items.flatMap Item.words ++ v :: rest)) = .ok .message := by
  obtain ⟨hn, -⟩ := says_holds hs
  unfold parse
  rw [List.drop_one, List.tail_cons, loop_items items hj [] hn (v :: rest), loop.eq_def]
  rcases hv with rfl | rfl
  · rfl
  · rfl

/-- Options of any name. -/
structure Raw where
  key : Str
  val : Str
  joined : Bool

theorem enter_ok {a a' : Map} {k v : Str} (h : a.enter k v = .ok a') : a.get k = none ∧ a' = (k, v) :: a := by
  unfold Map.enter at h
  split at h
  · rename_i hg
    injection h with h
    exact ⟨hg, h.symm⟩
  · cases h

/-- Every option is new. -/
def NewRaw (a : Map) : List Raw → Prop
  | [] => True
  | i :: items => a.get i.key = none ∧ NewRaw ((i.key, i.val) :: a) items

theorem loop_raw (n : Nat) {ws : List Str} (hn : ws.length ≤ n) {a a' : Map} (h : loop ws a = .ok (.action a')) :
    ∃ raws : List Raw, ws = raws.flatMap (fun x => wordsOf x.key x.val x.joined) ∧ NewRaw a raws ∧
      (∀ x ∈ raws, x.joined = true → '=' ∉ x.val) ∧ a' = raws.foldl (fun a x => (x.key, x.val) :: a) a := by
  induction n generalizing ws a with
  | zero =>
    have : ws = [] := List.eq_nil_of_length_eq_zero (by omega)
    subst this
    injection h with h
    injection h with h
    exact ⟨[], rfl, trivial, by simp, h.symm⟩
  | succ n ih =>
    cases ws with
    | nil =>
      injection h with h
      injection h with h
      exact ⟨[], rfl, trivial, by simp, h.symm⟩
    | cons w rest =>
      simp only [List.length_cons] at hn
      rw [loop.eq_def] at h
      simp only at h
      split at h
      · cases h
      · split at h
        · cases h
        · split at h
          · rename_i k v hs
            obtain ⟨a1, he, h⟩ := bind_iff.1 h
            obtain ⟨hg, rfl⟩ := enter_ok he
            obtain ⟨raws, e, hnew, hj, hr⟩ := ih (by omega) h
            obtain ⟨e1, -, hv⟩ := splitOn_two.1 hs
            refine ⟨⟨k, v, true⟩ :: raws, by rw [List.flatMap_cons, ← e, e1]; rfl, ⟨hg, hnew⟩, ?_, hr⟩
            intro x hx hxj
            rcases List.mem_cons.1 hx with rfl | hx
            · exact hv
            · exact hj x hx hxj
          · split at h
            · cases h
            · rename_i v rest' 
              obtain ⟨a1, he, h⟩ := bind_iff.1 h
              obtain ⟨hg, rfl⟩ := enter_ok he
              obtain ⟨raws, e, hnew, hj, hr⟩ := ih (by simp only [List.length_cons] at hn; omega) h
              refine ⟨⟨w, v, false⟩ :: raws, by rw [List.flatMap_cons, ← e]; rfl, ⟨hg, hnew⟩, ?_, hr⟩
              intro x hx hxj
              rcases List.mem_cons.1 hx with rfl | hx
              · cases hxj
              · exact hj x hx hxj
          · cases h

theorem foldl_get_mono (raws : List Raw) (a : Map) (k : Str) (h : a.get k ≠ none ∨ ∃ x ∈ raws, x.key = k) :
    (raws.foldl (fun (a : Map) x => (x.key, x.val) :: a) a).get k ≠ none := by
  induction raws generalizing a with
  | nil =>
    rcases h with h | ⟨x, hx, _⟩
    · exact h
    · cases hx
  | cons y raws ih =>
    refine ih _ ?_
    rcases h with h | ⟨x, hx, e⟩
    · left
      rw [Map.get]
      split
      · simp
      · exact h
    · rcases List.mem_cons.1 hx with rfl | hx
      · left
        simp [Map.get, e]
      · exact .inr ⟨x, hx, e⟩

/-- If nothing is left of a map, its keys are those of the options. -/
theorem decode_keys {fs : Fs} {env : Var} {keys : List Event} {a : Map} {t : Task} (h : decode fs env keys a = .ok t) (ht : t ≠ .interrupted) :
    ∀ k, a.get k ≠ none → ∃ o : Opt, k = o.name := by
  unfold decode at h
  obtain ⟨⟨k, a'⟩, h1, h2⟩ := bind_iff.1 (show Res.bind _ _ = _ from h)
  obtain ⟨ty, h3, h4⟩ := bind_iff.1 (show Res.bind (password env keys (a'.get optPass))
      (finish k ((a'.get optUser).getD "root".toList) (a'.get optEval) (((a'.remove optUser).remove optPass).remove optEval)) = .ok t from h2)
  have hem : (((a'.remove optUser).remove optPass).remove optEval).isEmpty = true := by
    unfold finish at h4
    split at h4
    · injection h4 with h4
      exact absurd h4.symm ht
    · split at h4
      · assumption
      · cases h4
  rw [isEmpty_iff] at hem
  have hsub : ∀ k, k ≠ optEndpoint → k ≠ optCert → a'.get k = a.get k := by
    unfold target at h1
    split at h1
    · injection h1 with h1
      injection h1 with h1 h5
      intro k _ _
      rw [h5]
    · obtain ⟨x, hx, h5⟩ := bind_iff.1 (show Res.bind _ _ = _ from h1)
      obtain ⟨y, hy, h6⟩ := bind_iff.1 (show Res.bind _ _ = _ from h5)
      injection h6 with h6
      injection h6 with h6 h7
      intro k n1 n2
      rw [← h7, get_remove, get_remove, if_neg n2, if_neg n1]
  intro k hk
  by_cases n1 : k = optEndpoint
  · exact ⟨.endpoint, n1⟩
  by_cases n2 : k = optCert
  · exact ⟨.cert, n2⟩
  by_cases n3 : k = optUser
  · exact ⟨.user, n3⟩
  by_cases n4 : k = optPass
  · exact ⟨.pass, n4⟩
  by_cases n5 : k = optEval
  · exact ⟨.eval, n5⟩
  have := hem k
  rw [get_remove, get_remove, get_remove, if_neg n5, if_neg n4, if_neg n3, hsub k n1 n2] at this
  exact absurd this hk

theorem raws_items (raws : List Raw) (h : ∀ x ∈ raws, ∃ o : Opt, x.key = o.name) :
    ∃ items : List Item, items.map (fun i => (⟨i.opt.name, i.val, i.joined⟩ : Raw)) = raws := by
  induction raws with
  | nil => exact ⟨[], rfl⟩
  | cons x raws ih =>
    obtain ⟨items, e⟩ := ih fun y hy => h y (List.mem_cons_of_mem _ hy)
    obtain ⟨o, ho⟩ := h x (by simp)
    exact ⟨⟨o, x.val, x.joined⟩ :: items, by rw [List.map_cons, e, ← ho]⟩

theorem newRaw_new (items : List Item) (a : Map) (h : NewRaw a (items.map fun i => (⟨i.opt.name, i.val, i.joined⟩ : Raw))) : New a items := by
  induction items generalizing a with
  | nil => trivial
  | cons i items ih => exact ⟨h.1, ih _ h.2⟩

theorem new_not_mem (o : Opt) : ∀ (l : List Item) (b : Map), New b l → b.get o.name ≠ none → (l.filter fun i => i.opt = o) = []
  | [], _, _, _ => rfl
  | x :: l, b, ⟨k1, k2⟩, hb => by
    have ne : x.opt ≠ o := by
      rintro rfl
      exact hb k1
    rw [List.filter_cons, if_neg (by simpa using ne)]
    refine new_not_mem o l _ k2 ?_
    rw [Map.get]
    split
    · simp
    · exact hb

theorem new_says (items : List Item) (a : Map) (h : New a items) (o : Opt) (ha : a.get o.name = none) :
    (items.filter fun i => i.opt = o).map (·.val) = ((collect a items).get o.name).toList := by
  induction items generalizing a with
  | nil => rw [show collect a [] = a from rfl, ha]; rfl
  | cons i items ih =>
    obtain ⟨h1, h2⟩ := h
    rw [collect, List.foldl_cons, ← collect]
    by_cases e : i.opt = o
    · subst e
      have hno := new_not_mem i.opt items _ h2 (by simp [Map.get])
      rw [collect_get items _ h2, List.filter_cons, if_pos (by simp), hno]
      simp [Map.get]
    · rw [List.filter_cons, if_neg (by simpa using e)]
      refine ih _ h2 ?_
      rw [Map.get, if_neg (fun h => e (name_inj h)), ha]

/-- The shell starts for nothing else: if it does, the words are options that say something, and it does what they say. -/
theorem C64_nothing_else_partial (fs : Fs) (env : Var) (upper : Char → Bool) (ks : List Key) (rest : List Event)
    (hk : ∀ c, Key.char c ∈ ks → upper c = false) (prog : Str) (ws : List Str) (t : Task) (ht : t ≠ .message)
    (h : parse fs env (types upper ks rest) (prog :: ws) = .ok t) :
    ∃ (items : List Item) (w : Wish), ws = items.flatMap Item.words ∧ Says w items ∧ w.Clean ∧
      (w.Fitting → ∃ c, Means fs env (text ks []) w c ∧ t = taskOf c w.eval) := by
  unfold parse at h
  obtain ⟨act, h1, h2⟩ := bind_iff.1 (show Res.bind _ _ = _ from h)
  rw [List.drop_one, List.tail_cons] at h1
  cases act with
  | help => injection h2 with h2; exact absurd h2.symm ht
  | version => injection h2 with h2; exact absurd h2.symm ht
  | action a =>
    replace h2 : decode fs env (types upper ks rest) a = .ok t := h2
    obtain ⟨raws, e, hnew, hj, ha⟩ := loop_raw _ (Nat.le_refl _) h1
    have hti : t ≠ .interrupted := by
      rintro rfl
      unfold decode at h2
      obtain ⟨⟨k, a'⟩, -, h3⟩ := bind_iff.1 (show Res.bind _ _ = _ from h2)
      obtain ⟨ty, h4, h5⟩ := bind_iff.1 (show Res.bind (password env (types upper ks rest) (a'.get optPass))
        (finish k ((a'.get optUser).getD "root".toList) (a'.get optEval) (((a'.remove optUser).remove optPass).remove optEval)) = _ from h3)
      obtain ⟨p, rfl, -⟩ := (password_iff upper ks hk rest env _ _).1 h4
      unfold finish at h5
      simp only at h5
      split at h5
      · split at h5 <;> cases h5
      · cases h5
    have hkeys := decode_keys h2 hti
    obtain ⟨items, ei⟩ := raws_items raws fun x hx => hkeys x.key (by rw [ha]; exact foldl_get_mono raws [] _ (.inr ⟨x, hx, rfl⟩))
    subst ei
    have hn := newRaw_new items [] hnew
    have hcol : a = collect [] items := by rw [ha, List.foldl_map]; rfl
    have hplace : ∃ pl : Option (Bool × Site), a.get optEndpoint = pl.map (fun p => epText p.1 p.2) ∧ ∀ p, pl = some p → p.2.Clean := by
      cases hg : a.get optEndpoint with
      | none => exact ⟨none, rfl, by simp⟩
      | some ep =>
        unfold decode at h2
        obtain ⟨⟨k, a'⟩, h3, -⟩ := bind_iff.1 (show Res.bind _ _ = _ from h2)
        unfold target at h3
        rw [hg] at h3
        obtain ⟨⟨pr, host, port⟩, hx, h5⟩ := bind_iff.1 (show Res.bind _ _ = _ from h3)
        obtain ⟨y, hy, -⟩ := bind_iff.1 (show Res.bind (kindOf fs (a.get optCert) pr host port) _ = _ from h5)
        obtain ⟨q, e1, -, c1, c2, -⟩ := endpointOf_iff.1 hx
        unfold kindOf at hy
        split at hy
        · rename_i hpr
          refine ⟨some (false, ⟨host, q⟩), by rw [e1, hpr]; rfl, ?_⟩
          rintro _ ⟨⟩
          exact ⟨c1, c2⟩
        · split at hy
          · rename_i hpr
            refine ⟨some (true, ⟨host, q⟩), by rw [e1, hpr]; rfl, ?_⟩
            rintro _ ⟨⟩
            exact ⟨c1, c2⟩
          · cases hy
    obtain ⟨pl, hpl, hcl⟩ := hplace
    have hval : ∀ o : Opt, a.get o.name = (Wish.mk pl (a.get optCert) (a.get optUser) (a.get optPass) (a.get optEval)).value o := by
      intro o
      cases o with
      | endpoint => exact hpl
      | cert => rfl
      | user => rfl
      | pass => rfl
      | eval => rfl
    refine ⟨items, ⟨pl, a.get optCert, a.get optUser, a.get optPass, a.get optEval⟩, ?_, fun o => ?_, hcl, fun hf => ?_⟩
    · rw [e, List.flatMap_map]
      rfl
    · rw [new_says items [] hn o rfl, ← hcol, hval]
    · exact (decode_iff upper ks hk rest ⟨hval, hkeys⟩ hcl hf t).1 h2

/-- Reading the settings never crashes the shell, and it only waits for keys. -/
theorem C64_no_crash (fs : Fs) (env : Var) (keys : List Event) (args : List Str) : parse fs env keys args ≠ .panic := by
  have bind_np : ∀ {α β : Type} {x : Res Err α} {f : α → Res Err β}, x ≠ .panic → (∀ a, f a ≠ .panic) → x.bind f ≠ .panic := by
    intro α β x f hx hf
    cases x with
    | ok a => exact hf a
    | err e => simp [Res.bind]
    | panic => exact absurd rfl hx
    | hang => simp [Res.bind]
  have henter : ∀ (a : Map) k v, a.enter k v ≠ .panic := by
    intro a k v
    unfold Map.enter
    split <;> simp
  have hloop : ∀ (n : Nat) (ws : List Str) (a : Map), ws.length ≤ n → loop ws a ≠ .panic := by
    intro n
    induction n with
    | zero =>
      intro ws a hn
      have : ws = [] := List.eq_nil_of_length_eq_zero (by omega)
      subst this
      simp [loop]
    | succ n ih =>
      intro ws a hn
      cases ws with
      | nil => simp [loop]
      | cons w rest =>
        simp only [List.length_cons] at hn
        rw [loop.eq_def]
        simp only
        split
        · simp
        split
        · simp
        split
        · exact bind_np (henter _ _ _) fun a => ih _ _ (by omega)
        · split
          · simp
          · exact bind_np (henter _ _ _) fun a => ih _ _ (by simp only [List.length_cons] at hn; omega)
        · simp
  have hread : ∀ (es : List Event) (p : Str), readPassword es p ≠ .panic := by
    intro es
    induction es with
    | nil => intro p; simp [readPassword]
    | cons e es ih =>
      intro p
      rw [readPassword.eq_def]
      split <;> first | (simp; done) | (rename_i heq; cases heq; exact ih _) | (rename_i heq _; cases heq; exact ih _) | skip
      all_goals simp_all
  have htarget : ∀ a, target fs a ≠ .panic := by
    intro a
    unfold target
    split
    · simp
    · refine bind_np ?_ fun x => bind_np ?_ fun y => by simp
      · unfold endpointOf
        split
        · split
          · split <;> simp
          · simp
        · simp
      · unfold kindOf
        split
        · simp
        · split
          · split
            · unfold readCert
              split <;> simp
            · simp
          · simp
  unfold parse
  refine bind_np (hloop _ _ _ (Nat.le_refl _)) fun act => ?_
  cases act with
  | help => simp
  | version => simp
  | action a =>
    refine bind_np (htarget a) fun x => bind_np ?_ fun ty => ?_
    · unfold password
      split
      · simp
      · split
        · simp
        · exact hread _ _
    · unfold finish
      split
      · simp
      · split
        · split <;> simp
        · simp

/-- A query without literals: on the command line it is answered as it is in the interactive shell. -/
theorem C64_eval_partial (enc : Cli.Item → Bytes) (o : Outside) (s : Srv) (x : Sess) (prompt q : Bytes) (k : Cli.Kind)
    (hq : parameterize o.pf q = .send k q []) (hs : q ≠ Lex.ascii "!help" ∧ q ≠ Lex.ascii "exit" ∧ q ≠ Lex.ascii "clear" ∧ q ≠ []) :
    line enc o s x prompt q = respond k prompt (runOnce o s x q) := by
  unfold line runOnce
  rw [if_neg hs.1, if_neg hs.2.1, if_neg hs.2.2.1, if_neg hs.2.2.2, hq]
  rfl

section Example

private def fs : Fs := fun p => if p = "cert.pem".toList then some "CERT".toList else none
private def upper (c : Char) : Bool := 'A' ≤ c ∧ c ≤ 'Z'
private def str (s : String) : Str := s.toList
private def keysOf (s : String) : List Key := s.toList.map .char

/-- Words in two styles, and a password that is typed, with a correction. -/
example : parse fs .absent (types upper (keysOf "passwort" ++ [.back] ++ keysOf "d") [])
    (["skysh", "--endpoint=tls@db.example:2004", "--tls-cert", "cert.pem", "--user", "a=b"].map str) =
    .ok (.shell ⟨.tls (str "db.example") 2004 (str "CERT"), str "a=b", str "password"⟩) := by decide +kernel

example : Says { place := some (true, ⟨str "db.example", str "2004"⟩), cert := some (str "cert.pem"), user := some (str "a=b") }
    [⟨.endpoint, str "tls@db.example:2004", true⟩, ⟨.cert, str "cert.pem", false⟩, ⟨.user, str "a=b", false⟩] := by
  intro o
  cases o <;> decide +kernel

example : parse fs (.val (str "secret")) [] (["skysh", "--eval", "sysctl report status"].map str) =
    .ok (.once ⟨.tcp (str "127.0.0.1") 2003, str "root", str "secret"⟩ (str "sysctl report status")) := by decide +kernel

/-- What is refused. -/
example : parse fs .absent [] (["skysh", "--user", "a", "--user", "b"].map str) = .err (.duplicate (str "--user")) ∧
    parse fs .absent [] (["skysh", "--user"].map str) = .err (.missingValue (str "--user")) ∧
    parse fs (.val []) [] (["skysh", "--usr", "a"].map str) = .err .unknownArgs ∧
    parse fs (.val []) [] (["skysh", "--endpoint", "tls@a:1"].map str) = .err .noCert ∧
    parse fs (.val []) [] (["skysh", "--endpoint", "udp@a:1"].map str) = .err .protocol ∧
    parse fs (.val []) [] (["skysh", "--endpoint", "tcp@a:65536"].map str) = .err .port := by
  constructor <;> decide +kernel

/-- The shell violates C64: capital letters of a password that is typed are left out. -/
theorem C64_capitals_violated (up : Char → Bool) (h : up 'P' = true) (h' : ∀ c ∈ "assword".toList, up c = false) (rest : List Event) :
    parse fs .absent (types up (keysOf "Password") rest) [str "skysh"] = .ok (.shell ⟨.tcp (str "127.0.0.1") 2003, str "root", str "assword"⟩) ∧
    text (keysOf "Password") [] = str "Password" := by
  refine ⟨?_, by decide +kernel⟩
  have e : types up (keysOf "Password") rest = .key (.char 'P') .shift true :: types up (keysOf "assword") rest := by
    have : keysOf "Password" = .char 'P' :: keysOf "assword" := by decide +kernel
    rw [this]
    simp [types, press, h]
  have r : readPassword (types up (keysOf "Password") rest) [] = .ok (.password (str "assword")) := by
    rw [e]
    show readPassword (types up (keysOf "assword") rest) [] = _
    rw [text_read up _ _ rest []]
    · have : text (keysOf "assword") [] = str "assword" := by decide +kernel
      rw [this]
    · intro c hc
      refine h' c ?_
      unfold keysOf at hc
      obtain ⟨d, hd, e⟩ := List.mem_map.1 hc
      cases e
      exact hd
  show Res.bind (readPassword (types up (keysOf "Password") rest) []) _ = _
  rw [r]
  rfl

/-- A password with an equals sign is refused in one word and accepted in two. -/
theorem C64_equals_violated :
    parse fs .absent [] (["skysh", "--password=a=b"].map str) = .err (.missingValue (str "--password=a=b")) ∧
    parse fs .absent [] (["skysh", "--password", "a=b"].map str) = .ok (.shell ⟨.tcp (str "127.0.0.1") 2003, str "root", str "a=b"⟩) := by
  constructor <;> decide +kernel

/-- A certificate is ignored, without a message, if the endpoint is one without TLS; the file need not even exist. -/
theorem C64_certificate_violated :
    parse fs (.val (str "p")) [] (["skysh", "--endpoint", "tcp@db.example:2004", "--tls-cert", "nofile.pem"].map str) =
      .ok (.shell ⟨.tcp (str "db.example") 2004, str "root", str "p"⟩) ∧
    ∀ c, ¬ Means fs (.val (str "p")) [] { place := some (false, ⟨str "db.example", str "2004"⟩), cert := some (str "nofile.pem") } c := by
  refine ⟨by decide +kernel, fun c h => ?_⟩
  exact h.kind

/-- An address of IPv6 is refused. -/
theorem C64_ipv6_violated : parse fs (.val (str "p")) [] (["skysh", "--endpoint", "tcp@[::1]:2003"].map str) = .err .endpoint := by decide +kernel

private def ofl : Dml.FloatOps := ⟨fun a _ => a, fun a _ => a, fun a _ => a, fun a _ => a⟩
private def out : Outside :=
  ⟨Gns.fine 1, id, List.reverse, ofl, fun _ => none, fun _ => "", fun _ => [], fun _ => 0, true, fun _ => [], fun _ => [],
    fun sp => sp.models⟩
private def root : Sess := ⟨⟨"root", true⟩, none⟩
private def srv : Srv := ⟨Gns.Cat.empty, fun _ _ => Server.Rows.none⟩

private def q (s : String) : Bytes := Lex.ascii s

/-- The server after some queries. -/
private def after (qs : List String) : Srv := qs.foldl (fun s t => (runOnce out s root (q t)).1) srv

example : parameterize out.pf (q "create space a") = .send .standard (q "create space a") [] ∧
    got (runOnce out srv root (q "create space a")).2.2.1 = .fine := by
  constructor <;> decide +kernel

/-- A query with a literal works in the interactive shell, where it is sent with a parameter, and is refused on the command
line; and the exit code does not tell. -/
theorem C64_eval_violated :
    let s := after ["create space a", "create model a.b(id: uint8, n: uint8)"]
    let t := q "insert into a.b(1, 1)"
    (match parameterize out.pf t with
      | .send _ t is => got (Server.serve out s root t (is.map fun _ => q "\x021\n").flatten).2.2.1
      | _ => .gone) = .fine ∧
    got (runOnce out s root t).2.2.1 = .error ∧
    exitCode (runOnce out s root t) = 0 := by
  refine ⟨?_, ?_, ?_⟩ <;> decide +kernel

end Example

end Verif.Cli.Start

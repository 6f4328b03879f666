import Verif.Config.Model
/-!
C55: the server starts with exactly the settings that it is given. Paths are relative to
`/repo/server/src/engine`.
-/
namespace Verif.Config

/-! ### What settings are and how they are written -/

/-- The number that digits stand for. -/
def value (ds : Str) : Nat := ds.foldl (fun n c => n * 10 + (c.toNat - '0'.toNat)) 0

/-- A text stands for a number of at most `max`. -/
def Denotes (max : Nat) (t : Str) (n : Nat) : Prop :=
  ∃ ds, (t = ds ∨ t = '+' :: ds) ∧ ds ≠ [] ∧ (∀ c ∈ ds, '0' ≤ c ∧ c ≤ '9') ∧ value ds = n ∧ n ≤ max

/-- Where to listen: a host and the text of a port. -/
structure Site where
  host : Str
  port : Str

/-- Where to listen with TLS, and the paths of the files that this needs. -/
structure TlsSite where
  site : Site
  cert : Str
  key : Str
  keyPass : Str

/-- What the administrator wants. -/
structure Settings where
  /-- the plugin is given explicitly -/
  plugin : Bool := false
  pass : Str
  mode : Option Mode := none
  window : Option Str := none
  tcp : Option Site := none
  tls : Option TlsSite := none

/-- The text of an endpoint. -/
def epText (tls : Bool) (s : Site) : Str := (if tls then "tls".toList else "tcp".toList) ++ '@' :: (s.host ++ ':' :: s.port)

/-- The text of a mode. -/
def modeText : Mode → Str
  | .dev => "dev".toList
  | .prod => "prod".toList

/-- The values of the options that say so. -/
def Settings.values (s : Settings) : Opt → List Str
  | .plugin => if s.plugin then ["pwd".toList] else []
  | .pass => [s.pass]
  | .mode => (s.mode.map modeText).toList
  | .window => s.window.toList
  | .ep => (s.tcp.map (epText false)).toList ++ (s.tls.map fun t => epText true t.site).toList
  | .cert => (s.tls.map (·.cert)).toList
  | .key => (s.tls.map (·.key)).toList
  | .keyPass => (s.tls.map (·.keyPass)).toList

/-- The server listens there. -/
def IsTcp (s : Site) (t : Tcp) : Prop := t.host = s.host ∧ Denotes maxU16 s.port t.port

def IsTls (fs : Fs) (s : TlsSite) (t : Tls) : Prop :=
  IsTcp s.site t.tcp ∧ fs s.cert = some t.cert ∧ fs s.key = some t.key ∧ fs s.keyPass = some t.keyPass

/-- The endpoints are those that are wanted, or one on the local host if none are wanted. -/
def IsEndpoint (fs : Fs) : Option Site → Option TlsSite → Endpoint → Prop
  | none, none, .insecure t => t = { host := "127.0.0.1".toList, port := 2003 }
  | some a, none, .insecure t => IsTcp a t
  | none, some b, .secure t => IsTls fs b t
  | some a, some b, .multi t u => IsTcp a t ∧ IsTls fs b u
  | _, _, _ => False

/-- The limits are those of the machine types: ports are `u16`, the window is a `u64`. -/
theorem C55_limits : maxU16 = 2 ^ 16 - 1 ∧ maxU64 = 2 ^ 64 - 1 := by decide

/-- The window is the one that is wanted, or five minutes. -/
def IsWindow : Option Str → Nat → Prop
  | none, n => n = 300
  | some t, n => Denotes maxU64 t n

/-- The configuration is what the settings mean; `len` measures passwords. -/
structure MeansBy (len : Str → Nat) (fs : Fs) (s : Settings) (c : Cfg) : Prop where
  pass : c.pass = s.pass
  long : 16 ≤ len s.pass
  mode : c.mode = s.mode.getD .dev
  window : IsWindow s.window c.window
  nonzero : c.window ≠ 0
  endpoint : IsEndpoint fs s.tcp s.tls c.endpoint

/-- The configuration is what the settings mean: the root password has at least 16 characters. -/
abbrev Means := MeansBy List.length

/-- The host has neither of the characters that end it in the text of an endpoint. -/
def Site.Clean (s : Site) : Prop := '@' ∉ s.host ∧ ':' ∉ s.host

def Settings.Clean (s : Settings) : Prop := (∀ x, s.tcp = some x → x.Clean) ∧ ∀ x, s.tls = some x → x.site.Clean

/-! ### Proof -/

def IsTcpC (s : Site) (t : Tcp) : Prop := t.host = s.host ∧ Denotes maxU16 s.port t.port ∧ s.Clean

def IsTlsC (fs : Fs) (s : TlsSite) (t : Tls) : Prop :=
  IsTcpC s.site t.tcp ∧ fs s.cert = some t.cert ∧ fs s.key = some t.key ∧ fs s.keyPass = some t.keyPass

/-! ### Texts -/

theorem splitOn_ne_nil (c : Char) (s : Str) : splitOn c s ≠ [] := by
  cases s with
  | nil => simp [splitOn]
  | cons x xs =>
    unfold splitOn
    split
    · simp
    · split <;> simp

theorem splitOn_one {c : Char} {s x : Str} : splitOn c s = [x] ↔ s = x ∧ c ∉ x := by
  induction s generalizing x with
  | nil =>
    simp only [splitOn]
    constructor
    · intro h; injection h with h; subst h; simp
    · rintro ⟨rfl, _⟩; rfl
  | cons y ys ih =>
    unfold splitOn
    split
    · rename_i hy
      subst hy
      constructor
      · intro h; injection h with _ h; exact absurd h (splitOn_ne_nil _ _)
      · rintro ⟨rfl, h⟩; simp at h
    · rename_i hy
      cases hs : splitOn c ys with
      | nil => exact absurd hs (splitOn_ne_nil _ _)
      | cons z zs =>
        constructor
        · intro h
          injection h with h1 h2
          subst h2
          obtain ⟨h3, h4⟩ := ih.1 hs
          subst h3
          subst h1
          exact ⟨rfl, by simp [Ne.symm hy, h4]⟩
        · rintro ⟨rfl, h⟩
          have := ih.2 ⟨rfl, fun hm => h (List.mem_cons_of_mem _ hm)⟩
          rw [hs] at this
          injection this with h1 h2
          rw [h1, h2]

theorem splitOn_append {c : Char} {x r : Str} (h : c ∉ x) : splitOn c (x ++ c :: r) = x :: splitOn c r := by
  induction x with
  | nil => simp [splitOn]
  | cons y ys ih =>
    have hy : y ≠ c := fun e => h (by simp [e])
    rw [List.cons_append, splitOn, if_neg hy, ih fun hm => h (List.mem_cons_of_mem _ hm)]

theorem splitOn_cons {c : Char} {s x y : Str} {l : List Str} (h : splitOn c s = x :: y :: l) :
    ∃ r, s = x ++ c :: r ∧ c ∉ x ∧ splitOn c r = y :: l := by
  induction s generalizing x with
  | nil => simp [splitOn] at h
  | cons z zs ih =>
    unfold splitOn at h
    split at h
    · rename_i hz
      subst hz
      injection h with h1 h2
      subst h1
      exact ⟨zs, rfl, by simp, h2⟩
    · rename_i hz
      cases hs : splitOn c zs with
      | nil => exact absurd hs (splitOn_ne_nil _ _)
      | cons w ws =>
        rw [hs] at h
        injection h with h1 h2
        subst h2
        obtain ⟨r, e, hn, hr⟩ := ih hs
        subst h1
        exact ⟨r, by rw [e]; rfl, by simp [Ne.symm hz, hn], hr⟩

theorem splitOn_two {c : Char} {s x y : Str} : splitOn c s = [x, y] ↔ s = x ++ c :: y ∧ c ∉ x ∧ c ∉ y := by
  constructor
  · intro h
    obtain ⟨r, e, hn, hr⟩ := splitOn_cons h
    obtain ⟨rfl, hy⟩ := splitOn_one.1 hr
    exact ⟨e, hn, hy⟩
  · rintro ⟨rfl, h1, h2⟩
    rw [splitOn_append h1, splitOn_one.2 ⟨rfl, h2⟩]

theorem digit_some {c : Char} {d : Nat} : digit c = some d ↔ ('0' ≤ c ∧ c ≤ '9') ∧ d = c.toNat - '0'.toNat := by
  unfold digit
  split
  · rename_i h
    simp [h, eq_comm]
  · rename_i h
    simp [h]

theorem foldl_mono (ds : Str) (n : Nat) : n ≤ ds.foldl (fun n c => n * 10 + (c.toNat - '0'.toNat)) n := by
  induction ds generalizing n with
  | nil => exact Nat.le_refl _
  | cons c ds ih => exact Nat.le_trans (by dsimp only; omega) (ih _)

theorem parseLoop_iff {max acc n : Nat} {ds : Str} (ha : acc ≤ max) : parseLoop max acc ds = some n ↔
    (∀ c ∈ ds, '0' ≤ c ∧ c ≤ '9') ∧ ds.foldl (fun n c => n * 10 + (c.toNat - '0'.toNat)) acc = n ∧ n ≤ max := by
  induction ds generalizing acc with
  | nil =>
    simp only [parseLoop, List.foldl_nil]
    constructor
    · intro h; injection h with h; subst h; exact ⟨by simp, rfl, ha⟩
    · rintro ⟨_, rfl, _⟩; rfl
  | cons c cs ih =>
    unfold parseLoop
    cases hd : digit c with
    | none =>
      constructor
      · intro h; cases h
      · rintro ⟨h, _⟩
        have := digit_some.2 ⟨h c (by simp), rfl⟩
        rw [hd] at this
        cases this
    | some d =>
      obtain ⟨hc, hdd⟩ := digit_some.1 hd
      have hrange : ∀ k, acc * 10 + d > max → (c :: cs).foldl (fun n c => n * 10 + (c.toNat - '0'.toNat)) acc = k → ¬ k ≤ max := by
        intro k hk e
        rw [List.foldl_cons] at e
        have := foldl_mono cs (acc * 10 + (c.toNat - '0'.toNat))
        rw [e] at this
        omega
      dsimp only
      split
      · split
        · rename_i h1 h2
          rw [ih h2, List.foldl_cons, ← hdd]
          constructor
          · rintro ⟨h3, h4⟩
            refine ⟨fun x hx => ?_, h4⟩
            rcases List.mem_cons.1 hx with rfl | hx
            · exact hc
            · exact h3 x hx
          · rintro ⟨h3, h4⟩
            exact ⟨fun x hx => h3 x (List.mem_cons_of_mem _ hx), h4⟩
        · rename_i h1 h2
          constructor
          · intro h; cases h
          · rintro ⟨_, e, hn⟩
            exact absurd hn (hrange n (by omega) e)
      · rename_i h1
        constructor
        · intro h; cases h
        · rintro ⟨_, e, hn⟩
          exact absurd hn (hrange n (by omega) e)

theorem plus_not_digit : ¬ ('0' ≤ '+' ∧ '+' ≤ '9') := by decide

theorem parseNum_iff {max n : Nat} {t : Str} : parseNum max t = some n ↔ Denotes max t n := by
  cases t with
  | nil =>
    constructor
    · intro h; cases h
    · rintro ⟨ds, h | h, hne, _⟩
      · exact absurd h.symm hne
      · cases h
  | cons c cs =>
    unfold parseNum
    dsimp only
    split
    · rename_i hc
      subst hc
      split
      · rename_i hn
        subst hn
        constructor
        · intro h; cases h
        · rintro ⟨ds, h | h, hne, hd, _⟩
          · subst h
            exact absurd (hd '+' (by simp)) plus_not_digit
          · injection h with _ h
            exact absurd h.symm hne
      · rename_i hn
        rw [parseLoop_iff (Nat.zero_le _)]
        constructor
        · rintro ⟨h1, h2, h3⟩
          exact ⟨cs, .inr rfl, hn, h1, h2, h3⟩
        · rintro ⟨ds, h | h, hne, hd, hv, hm⟩
          · subst h
            exact absurd (hd '+' (by simp)) plus_not_digit
          · injection h with _ h
            subst h
            exact ⟨hd, hv, hm⟩
    · rename_i hc
      rw [parseLoop_iff (Nat.zero_le _)]
      constructor
      · rintro ⟨h1, h2, h3⟩
        exact ⟨_, .inl rfl, by simp, h1, h2, h3⟩
      · rintro ⟨ds, h | h, hne, hd, hv, hm⟩
        · subst h
          exact ⟨hd, hv, hm⟩
        · injection h with h _
          exact absurd h hc

theorem Denotes.chars {max n : Nat} {t : Str} (h : Denotes max t n) (c : Char) (hc : ¬ ('0' ≤ c ∧ c ≤ '9')) (hp : c ≠ '+') : c ∉ t := by
  obtain ⟨ds, h | h, _, hd, _⟩ := h
  · subst h
    exact fun hm => hc (hd c hm)
  · subst h
    intro hm
    rcases List.mem_cons.1 hm with h | h
    · exact hp h
    · exact hc (hd c h)

/-- What `parse_endpoint` accepts. -/
def IsEp (b : Bool) (e h : Str) (p : Nat) : Prop := ∃ port, e = epText b ⟨h, port⟩ ∧ IsTcpC ⟨h, port⟩ ⟨h, p⟩

theorem parseEndpoint_iff {o : Origin} {e h : Str} {b : Bool} {p : Nat} :
    parseEndpoint o e = .ok (b, h, p) ↔ IsEp b e h p := by
  constructor
  · intro hp
    unfold parseEndpoint at hp
    split at hp
    · rename_i protocol hostport h1
      split at hp
      · rename_i host port h2
        obtain ⟨e1, hp1, hp2⟩ := splitOn_two.1 h1
        obtain ⟨e2, hh1, hh2⟩ := splitOn_two.1 h2
        split at hp
        · cases hp
        · rename_i n hn
          have hd := parseNum_iff.1 hn
          have hat : '@' ∉ host := fun hm => hp2 (by rw [e2]; exact List.mem_append_left _ hm)
          split at hp
          · rename_i ht
            injection hp with hp
            injection hp with hb hp
            injection hp with hh hp
            subst hb hh hp
            exact ⟨port, by rw [e1, e2, ht]; rfl, rfl, hd, hat, hh1⟩
          · split at hp
            · rename_i ht
              injection hp with hp
              injection hp with hb hp
              injection hp with hh hp
              subst hb hh hp
              exact ⟨port, by rw [e1, e2, ht]; rfl, rfl, hd, hat, hh1⟩
            · cases hp
      · cases hp
    · cases hp
  · rintro ⟨port, rfl, _, hd, hat, hcol⟩
    dsimp only at hd hat hcol
    have hat' : '@' ∉ h ++ ':' :: port := by
      simp only [List.mem_append, List.mem_cons, not_or]
      exact ⟨hat, by decide, hd.chars '@' (by decide) (by decide)⟩
    have hcol' : ':' ∉ port := hd.chars ':' (by decide) (by decide)
    unfold parseEndpoint epText
    cases b with
    | false =>
      have : splitOn '@' ((if false = true then "tls".toList else "tcp".toList) ++ '@' :: (h ++ ':' :: port)) = ["tcp".toList, h ++ ':' :: port] :=
        splitOn_two.2 ⟨rfl, by decide, hat'⟩
      rw [this]
      dsimp only
      rw [splitOn_two.2 ⟨rfl, hcol, hcol'⟩]
      dsimp only
      rw [parseNum_iff.2 hd]
      simp
    | true =>
      have : splitOn '@' ((if true = true then "tls".toList else "tcp".toList) ++ '@' :: (h ++ ':' :: port)) = ["tls".toList, h ++ ':' :: port] :=
        splitOn_two.2 ⟨rfl, by decide, hat'⟩
      rw [this]
      dsimp only
      rw [splitOn_two.2 ⟨rfl, hcol, hcol'⟩]
      dsimp only
      rw [parseNum_iff.2 hd]
      dsimp only
      rw [if_neg (by decide), if_pos rfl]

/-! ### Maps -/

theorem get_remove (a : Args) (k k' : Str) : (a.remove k).get k' = if k' = k then none else a.get k' := by
  induction a with
  | nil => simp [Args.remove, Args.get]
  | cons e a ih =>
    unfold Args.remove at ih ⊢
    rw [List.filter_cons]
    split
    · rename_i h
      have h : e.1 ≠ k := by simpa using h
      simp only [Args.get]
      split
      · rename_i h2
        rw [if_neg]
        rintro rfl
        exact h h2
      · exact ih
    · rename_i h
      have h : e.1 = k := by simpa using h
      rw [ih]
      simp only [Args.get]
      split
      · rfl
      · rename_i h2
        rw [if_neg]
        rw [h]
        exact fun h3 => h2 h3.symm

theorem isEmpty_iff (a : Args) : a.isEmpty = true ↔ ∀ k, a.get k = none := by
  cases a with
  | nil => simp [Args.get]
  | cons e a =>
    simp only [List.isEmpty_cons, Bool.false_eq_true, false_iff]
    intro h
    have := h e.1
    simp [Args.get] at this

theorem get_push (a : Args) (k v k' : Str) :
    (a.push k v).get k' = if k' = k then some ((a.get k).getD [] ++ [v]) else a.get k' := by
  induction a with
  | nil =>
    simp only [Args.push, Args.get]
    by_cases h : k = k'
    · simp [h]
    · rw [if_neg h, if_neg (Ne.symm h)]
  | cons e a ih =>
    unfold Args.push
    split
    · rename_i he
      simp only [Args.get]
      by_cases h : k' = k
      · subst h; simp [he]
      · rw [if_neg h, if_neg (by rw [he]; exact Ne.symm h)]
        rw [if_neg (by rw [he]; exact Ne.symm h)]
    · rename_i he
      simp only [Args.get]
      split
      · rename_i h
        rw [if_neg (by rw [← h]; exact he)]
      · rw [ih]

/-! ### The steps -/

theorem single_iff {src : Src} {o : Opt} {vs : List Str} {v : Str} : single src o vs = .ok v ↔ vs = [v] := by
  unfold single
  cases vs with
  | nil => simp
  | cons x l =>
    cases l with
    | nil => simp
    | cons y l => simp

theorem readFile_iff {fs : Fs} {p s : Str} : readFile fs p = .ok s ↔ fs p = some s := by
  unfold readFile
  split
  · rename_i h; rw [h]; simp
  · rename_i h; rw [h]; simp

theorem bind_iff {ε α β : Type} {x : Res ε α} {f : α → Res ε β} {b : β} : x.bind f = .ok b ↔ ∃ a, x = .ok a ∧ f a = .ok b := by
  cases x <;> simp

theorem decodeAuth_iff {src : Src} {a a' : Args} {d d' : Decoded} : decodeAuth src a d = .ok (a', d') ↔
    (a.get (src.name .plugin) = none ∨ a.get (src.name .plugin) = some ["pwd".toList]) ∧
    ∃ p, (a.remove (src.name .plugin)).get (src.name .pass) = some [p] ∧
      a' = (a.remove (src.name .plugin)).remove (src.name .pass) ∧ d' = { d with auth := some p } := by
  unfold decodeAuth
  dsimp only
  cases hr : (a.remove (src.name .plugin)).get (src.name .pass) with
  | none => simp
  | some root =>
    simp only [Res.bind_eq, bind_iff]
    cases hd : a.get (src.name .plugin) with
    | none =>
      simp only [atMostOne, decodePlugin, single_iff]
      constructor
      · rintro ⟨_, _, p, rfl, _, _, h⟩
        injection h with h; injection h with h1 h2
        exact ⟨.inl trivial, p, rfl, h1.symm, h2.symm⟩
      · rintro ⟨_, p, h, rfl, rfl⟩
        injection h with h
        exact ⟨(), trivial, p, h, (), trivial, rfl⟩
    | some vs =>
      simp only [atMostOne, decodePlugin, single_iff, Res.bind_eq, bind_iff]
      constructor
      · rintro ⟨_, ⟨v, rfl, _⟩, p, rfl, _, ⟨v', hv, h2⟩, h⟩
        split at h2
        · rename_i hp
          injection h with h; injection h with h1 h3
          refine ⟨.inr ?_, p, rfl, h1.symm, h3.symm⟩
          rw [hv, hp]
        · cases h2
      · rintro ⟨h | h, p, hp, rfl, rfl⟩
        · cases h
        · injection h with h
          injection hp with hp
          exact ⟨(), ⟨_, h, trivial⟩, p, hp, (), ⟨_, h, by simp⟩, rfl⟩

theorem mode_iff {src : Src} {a a' : Args} {k : Str} {d d' : Decoded} : simple a k d (decodeMode src) = .ok (a', d') ↔
    (a.get k = none ∧ a' = a ∧ d' = d) ∨ ∃ m, a.get k = some [modeText m] ∧ a' = a.remove k ∧ d' = { d with mode := some m } := by
  unfold simple
  cases hk : a.get k with
  | none => simp [eq_comm]
  | some vs =>
    simp only [Res.bind_eq, bind_iff, decodeMode, single_iff]
    constructor
    · rintro ⟨d1, ⟨v, rfl, hv⟩, h⟩
      injection h with h; injection h with h1 h2
      right
      split at hv
      · rename_i hm
        injection hv with hv
        exact ⟨.dev, by rw [hm]; rfl, h1.symm, by rw [← h2, ← hv]⟩
      · split at hv
        · rename_i hm
          injection hv with hv
          exact ⟨.prod, by rw [hm]; rfl, h1.symm, by rw [← h2, ← hv]⟩
        · cases hv
    · rintro (⟨h, _⟩ | ⟨m, h, rfl, rfl⟩)
      · cases h
      · injection h with h
        refine ⟨_, ⟨_, h, ?_⟩, rfl⟩
        cases m
        · rfl
        · rw [if_neg (by decide)]; rfl

theorem window_iff {src : Src} {a a' : Args} {k : Str} {d d' : Decoded} : simple a k d (decodeWindow src) = .ok (a', d') ↔
    (a.get k = none ∧ a' = a ∧ d' = d) ∨ ∃ t n, a.get k = some [t] ∧ Denotes maxU64 t n ∧ a' = a.remove k ∧
      d' = { d with window := some n } := by
  unfold simple
  cases hk : a.get k with
  | none => simp [eq_comm]
  | some vs =>
    simp only [Res.bind_eq, bind_iff, decodeWindow, single_iff]
    constructor
    · rintro ⟨d1, ⟨v, rfl, hv⟩, h⟩
      injection h with h; injection h with h1 h2
      right
      split at hv
      · rename_i n hn
        injection hv with hv
        exact ⟨v, n, rfl, parseNum_iff.1 hn, h1.symm, by rw [← h2, ← hv]⟩
      · cases hv
    · rintro (⟨h, _⟩ | ⟨t, n, h, hd, rfl, rfl⟩)
      · cases h
      · injection h with h
        refine ⟨_, ⟨_, h, ?_⟩, rfl⟩
        rw [parseNum_iff.2 hd]

/-- The arguments without those for TLS. -/
def noTls (src : Src) (a : Args) : Args := ((a.remove (src.name .cert)).remove (src.name .key)).remove (src.name .keyPass)

theorem decodeTls_iff {src : Src} (hinj : ∀ o o', src.name o = src.name o' → o = o') {fs : Fs} {a a' : Args} {h : Str} {p : Nat}
    {t : Tls} : decodeTls src fs a h p = .ok (a', t) ↔ ∃ c k q, a.get (src.name .cert) = some [c] ∧
      a.get (src.name .key) = some [k] ∧ a.get (src.name .keyPass) = some [q] ∧ a' = noTls src a ∧ t.tcp = ⟨h, p⟩ ∧
      fs c = some t.cert ∧ fs k = some t.key ∧ fs q = some t.keyPass := by
  have ne : ∀ o o', o ≠ o' → src.name o ≠ src.name o' := fun o o' h e => h (hinj o o' e)
  unfold decodeTls
  dsimp only
  rw [get_remove, get_remove, get_remove, if_neg (ne _ _ (by decide)), if_neg (ne _ _ (by decide)), if_neg (ne _ _ (by decide))]
  cases hc : a.get (src.name .cert) with
  | none => simp
  | some cs =>
    cases hk : a.get (src.name .key) with
    | none => simp
    | some ks =>
      cases hq : a.get (src.name .keyPass) with
      | none => simp
      | some qs =>
        simp only [Res.bind_eq, bind_iff, single_iff, decodeTlsEp, readFile_iff]
        constructor
        · rintro ⟨c, rfl, k, rfl, q, rfl, t', ⟨key, h1, cert, h2, kp, h3, h4⟩, h5⟩
          injection h5 with h5; injection h5 with h5 h6
          injection h4 with h4
          subst h4 h6
          exact ⟨c, k, q, rfl, rfl, rfl, h5.symm, rfl, h2, h1, h3⟩
        · rintro ⟨c, k, q, h1, h2, h3, rfl, h4, h5, h6, h7⟩
          injection h1 with h1
          injection h2 with h2
          injection h3 with h3
          refine ⟨c, h1, k, h2, q, h3, t, ⟨_, h6, _, h5, _, h7, ?_⟩, rfl⟩
          rw [← h4]

/-- What the endpoints may be, and what is decoded from them. -/
inductive Eps (src : Src) (fs : Fs) (a : Args) : List Str → Args → Option Tcp → Option Tls → Prop where
  | tcp {s t} (h : IsTcpC s t) : Eps src fs a [epText false s] a (some t) none
  | tls {b t} (h : IsTlsC fs b t) (h1 : a.get (src.name .cert) = some [b.cert]) (h2 : a.get (src.name .key) = some [b.key])
      (h3 : a.get (src.name .keyPass) = some [b.keyPass]) : Eps src fs a [epText true b.site] (noTls src a) none (some t)
  | both {s t b u eps} (h : IsTcpC s t) (hb : IsTlsC fs b u) (h1 : a.get (src.name .cert) = some [b.cert])
      (h2 : a.get (src.name .key) = some [b.key]) (h3 : a.get (src.name .keyPass) = some [b.keyPass])
      (he : eps = [epText false s, epText true b.site] ∨ eps = [epText true b.site, epText false s]) :
      Eps src fs a eps (noTls src a) (some t) (some u)

theorem decodeEps_iff {src : Src} (hinj : ∀ o o', src.name o = src.name o' → o = o') {fs : Fs} {a a' : Args} {eps : List Str}
    {tcp : Option Tcp} {tls : Option Tls} (hne : eps ≠ []) (hl : eps.length ≤ 2) :
    decodeEps src fs eps a none none = .ok (a', tcp, tls) ↔ Eps src fs a eps a' tcp tls := by
  constructor
  · intro h
    match eps, hne, hl with
    | [e], _, _ =>
      simp only [decodeEps, Res.bind_eq, bind_iff] at h
      obtain ⟨⟨b, host, port⟩, hp, h⟩ := h
      obtain ⟨pt, rfl, ht⟩ := parseEndpoint_iff.1 hp
      cases b with
      | false =>
        simp only [Bool.false_eq_true, if_false] at h
        injection h with h; injection h with h1 h; injection h with h2 h3
        subst h1 h2 h3
        exact .tcp ht
      | true =>
        simp only [if_true, bind_iff] at h
        obtain ⟨⟨a1, t⟩, hd, h⟩ := h
        injection h with h; injection h with h1 h; injection h with h2 h3
        subst h1 h2 h3
        obtain ⟨c, k, q, g1, g2, g3, rfl, g4, g5, g6, g7⟩ := (decodeTls_iff hinj).1 hd
        exact .tls (b := ⟨⟨host, pt⟩, c, k, q⟩) ⟨by rw [g4]; exact ht, g5, g6, g7⟩ g1 g2 g3
    | [e, e2], _, _ =>
      simp only [decodeEps, Res.bind_eq, bind_iff] at h
      obtain ⟨⟨b, host, port⟩, hp, h⟩ := h
      obtain ⟨pt, rfl, ht⟩ := parseEndpoint_iff.1 hp
      cases b with
      | false =>
        simp only [Bool.false_eq_true, if_false, bind_iff] at h
        obtain ⟨⟨b, host2, port2⟩, hp2, h⟩ := h
        obtain ⟨pt2, rfl, ht2⟩ := parseEndpoint_iff.1 hp2
        cases b with
        | false => simp at h
        | true =>
          simp only [if_true, bind_iff] at h
          obtain ⟨⟨a1, t⟩, hd, h⟩ := h
          injection h with h; injection h with h1 h; injection h with h2 h3
          subst h1 h2 h3
          obtain ⟨c, k, q, g1, g2, g3, rfl, g4, g5, g6, g7⟩ := (decodeTls_iff hinj).1 hd
          exact .both (b := ⟨⟨host2, pt2⟩, c, k, q⟩) ht ⟨by rw [g4]; exact ht2, g5, g6, g7⟩ g1 g2 g3 (.inl rfl)
      | true =>
        simp only [if_true, bind_iff] at h
        obtain ⟨⟨a1, t⟩, hd, ⟨b, host2, port2⟩, hp2, h⟩ := h
        obtain ⟨c, k, q, g1, g2, g3, rfl, g4, g5, g6, g7⟩ := (decodeTls_iff hinj).1 hd
        obtain ⟨pt2, rfl, ht2⟩ := parseEndpoint_iff.1 hp2
        cases b with
        | false =>
          simp only [Bool.false_eq_true, if_false] at h
          injection h with h; injection h with h1 h; injection h with h2 h3
          subst h1 h2 h3
          exact .both (b := ⟨⟨host, pt⟩, c, k, q⟩) ht2 ⟨by rw [g4]; exact ht, g5, g6, g7⟩ g1 g2 g3 (.inr rfl)
        | true => simp at h
    | _ :: _ :: _ :: _, _, hl => simp at hl
  · intro h
    have ep : ∀ (b : Bool) (s : Site) (t : Tcp), IsTcpC s t → parseEndpoint src.origin (epText b s) = .ok (b, t.host, t.port) := by
      intro b s t h
      refine parseEndpoint_iff.2 ⟨s.port, by rw [h.1], ?_⟩
      obtain ⟨h1, h2, h3, h4⟩ := h
      exact ⟨rfl, h2, by rw [h1]; exact h3, by rw [h1]; exact h4⟩
    have tl : ∀ (b : TlsSite) (t : Tls), IsTlsC fs b t → a.get (src.name .cert) = some [b.cert] →
        a.get (src.name .key) = some [b.key] → a.get (src.name .keyPass) = some [b.keyPass] →
        decodeTls src fs a t.tcp.host t.tcp.port = .ok (noTls src a, t) := by
      intro b t h h1 h2 h3
      exact (decodeTls_iff hinj).2 ⟨_, _, _, h1, h2, h3, rfl, rfl, h.2⟩
    cases h with
    | tcp h => simp [decodeEps, ep _ _ _ h]
    | tls h h1 h2 h3 => simp [decodeEps, ep _ _ _ h.1, tl _ _ h h1 h2 h3]
    | both h hb h1 h2 h3 he =>
      rcases he with rfl | rfl
      · simp [decodeEps, ep _ _ _ h, ep _ _ _ hb.1, tl _ _ hb h1 h2 h3]
      · simp [decodeEps, ep _ _ _ h, ep _ _ _ hb.1, tl _ _ hb h1 h2 h3]

theorem decodeEndpoints_iff {src : Src} (hinj : ∀ o o', src.name o = src.name o' → o = o') {fs : Fs} {a a' : Args}
    (hne : a.get (src.name .ep) ≠ some []) {d d' : Decoded} : decodeEndpoints src fs a d = .ok (a', d') ↔
      (a.get (src.name .ep) = none ∧ a' = a ∧ d' = d) ∨
      ∃ eps tcp tls, a.get (src.name .ep) = some eps ∧ Eps src fs (a.remove (src.name .ep)) eps a' tcp tls ∧
        d' = { d with tcp, tls } := by
  unfold decodeEndpoints
  cases hk : a.get (src.name .ep) with
  | none => simp [eq_comm]
  | some eps =>
    have hn : eps ≠ [] := by rintro rfl; exact hne hk
    dsimp only
    split
    · rename_i hl
      constructor
      · intro h; cases h
      · rintro (⟨h, _⟩ | ⟨eps', tcp, tls, h, he, _⟩)
        · cases h
        · injection h with h
          subst h
          cases he with
          | tcp => simp at hl
          | tls => simp at hl
          | both _ _ _ _ _ he => rcases he with rfl | rfl <;> simp at hl
    · rename_i hl
      simp only [Res.bind_eq, bind_iff]
      constructor
      · rintro ⟨⟨a1, tcp, tls⟩, h1, h2⟩
        injection h2 with h2; injection h2 with h2 h3
        subst h2
        exact .inr ⟨eps, tcp, tls, rfl, (decodeEps_iff hinj hn (by omega)).1 h1, h3.symm⟩
      · rintro (⟨h, _⟩ | ⟨eps', tcp, tls, h, he, rfl⟩)
        · cases h
        · injection h with h
          subst h
          exact ⟨_, (decodeEps_iff hinj hn (by omega)).2 he, rfl⟩

/-! ### All steps -/

/-- The arguments say what the settings are, and nothing else. -/
structure Fits (src : Src) (a : Args) (s : Settings) : Prop where
  vals : ∀ o, ((a.get (src.name o)).getD []).Perm (s.values o)
  only : ∀ k, a.get k ≠ none → ∃ o, k = src.name o

/-- An option that is there has a value. -/
def Full (a : Args) : Prop := ∀ k, a.get k ≠ some []

theorem validate_iff {o : Origin} {d : Decoded} {c : Cfg} : validate o d = .ok c ↔ ∃ p, d.auth = some p ∧ 16 ≤ byteLen p ∧
    d.window.getD 300 ≠ 0 ∧ c = { endpoint := endpoints d.tcp d.tls, mode := d.mode.getD .dev, window := d.window.getD 300, pass := p } := by
  unfold validate
  cases ha : d.auth with
  | none => simp
  | some p =>
    dsimp only
    split
    · rename_i h0
      simp [h0]
    · rename_i h0
      split
      · rename_i h1
        constructor
        · intro h; cases h
        · rintro ⟨p', h, hl, _⟩
          injection h with h
          subst h
          omega
      · rename_i h1
        constructor
        · intro h
          injection h with h
          exact ⟨p, rfl, by omega, h0, h.symm⟩
        · rintro ⟨p', h, _, _, rfl⟩
          injection h with h
          subst h
          rfl

theorem getD_nil {x : Option (List Str)} (h : x ≠ some []) (hp : (x.getD []).Perm []) : x = none := by
  cases x with
  | none => rfl
  | some l =>
    have : l = [] := List.Perm.eq_nil hp
    subst this
    exact absurd rfl h

theorem getD_one {x : Option (List Str)} {v : Str} (hp : (x.getD []).Perm [v]) : x = some [v] := by
  cases x with
  | none => simp at hp
  | some l => exact congrArg some (List.perm_singleton.1 hp)

theorem perm_two {l : List Str} {x y : Str} (h : l.Perm [x, y]) : l = [x, y] ∨ l = [y, x] := by
  have hl := h.length_eq
  match l, hl with
  | [u, v], _ =>
    have hu : u ∈ [x, y] := h.mem_iff.1 (by simp)
    simp only [List.mem_cons, List.not_mem_nil, or_false] at hu
    rcases hu with rfl | rfl
    · have := (List.perm_cons u).1 h
      rw [List.perm_singleton] at this
      left; rw [this]
    · have h2 : [u, v].Perm [u, x] := h.trans (List.Perm.swap _ _ _)
      have := (List.perm_cons u).1 h2
      rw [List.perm_singleton] at this
      right; rw [this]

/-- Both or none are there. -/
def OptRel {α β : Type} (R : α → β → Prop) : Option α → Option β → Prop
  | none, none => True
  | some a, some b => R a b
  | _, _ => False

theorem endpoints_iff {fs : Fs} {s : Option Site} {b : Option TlsSite} {e : Endpoint} :
    IsEndpoint fs s b e ↔ ∃ t u, e = endpoints t u ∧ OptRel IsTcp s t ∧ OptRel (IsTls fs) b u := by
  constructor
  · intro h
    unfold IsEndpoint at h
    split at h
    · exact ⟨none, none, by rw [h]; rfl, trivial, trivial⟩
    · exact ⟨some _, none, rfl, h, trivial⟩
    · exact ⟨none, some _, rfl, trivial, h⟩
    · exact ⟨some _, some _, rfl, h.1, h.2⟩
    · exact h.elim
  · rintro ⟨t, u, rfl, h1, h2⟩
    cases s <;> cases t <;> cases b <;> cases u <;> simp_all [IsEndpoint, endpoints, OptRel]

theorem optRel_tcp {s : Option Site} {t : Option Tcp} (h : OptRel IsTcpC s t) : OptRel IsTcp s t := by
  cases s <;> cases t <;> simp_all [OptRel, IsTcp, IsTcpC]

theorem optRel_tls {fs : Fs} {s : Option TlsSite} {t : Option Tls} (h : OptRel (IsTlsC fs) s t) : OptRel (IsTls fs) s t := by
  cases s <;> cases t <;> simp_all [OptRel, IsTcp, IsTcpC, IsTls, IsTlsC]

theorem optRel_tcpC {s : Option Site} {t : Option Tcp} (hc : ∀ x, s = some x → x.Clean) (h : OptRel IsTcp s t) : OptRel IsTcpC s t := by
  cases s <;> cases t <;> simp_all [OptRel, IsTcp, IsTcpC]

theorem optRel_tlsC {fs : Fs} {s : Option TlsSite} {t : Option Tls} (hc : ∀ x, s = some x → x.site.Clean) (h : OptRel (IsTls fs) s t) :
    OptRel (IsTlsC fs) s t := by
  cases s <;> cases t <;> simp_all [OptRel, IsTcp, IsTcpC, IsTls, IsTlsC]

theorem optRel_clean {fs : Fs} {s : Option Site} {t : Option Tcp} {b : Option TlsSite} {u : Option Tls} (h : OptRel IsTcpC s t)
    (h2 : OptRel (IsTlsC fs) b u) : (∀ x, s = some x → x.Clean) ∧ ∀ x, b = some x → x.site.Clean := by
  cases s <;> cases t <;> cases b <;> cases u <;> simp_all [OptRel, IsTcpC, IsTlsC]

/-- The options for TLS. -/
def isTlsOpt : Opt → Bool
  | .cert | .key | .keyPass => true
  | _ => false

theorem mode_fwd {src : Src} {a a' : Args} {k : Str} {d d' : Decoded} (h : simple a k d (decodeMode src) = .ok (a', d'))
    (hd : d.mode = none) : ∃ om : Option Mode, (a.get k).getD [] = (om.map modeText).toList ∧
      (∀ k', a'.get k' = if k' = k then none else a.get k') ∧ d' = { d with mode := om } := by
  rcases mode_iff.1 h with ⟨h1, rfl, rfl⟩ | ⟨m, h1, rfl, rfl⟩
  · refine ⟨none, by rw [h1]; rfl, fun k' => ?_, by rw [← hd]⟩
    split
    · rename_i e; rw [e, h1]
    · rfl
  · exact ⟨some m, by rw [h1]; rfl, fun k' => get_remove _ _ _, rfl⟩

theorem mode_bwd {src : Src} {a : Args} {k : Str} {d : Decoded} {om : Option Mode} (hn : a.get k ≠ some [])
    (h : ((a.get k).getD []).Perm (om.map modeText).toList) (hd : d.mode = none) :
    ∃ a', simple a k d (decodeMode src) = .ok (a', { d with mode := om }) ∧ ∀ k', a'.get k' = if k' = k then none else a.get k' := by
  cases om with
  | none =>
    have h1 := getD_nil hn h
    refine ⟨a, mode_iff.2 (.inl ⟨h1, rfl, by rw [← hd]⟩), fun k' => ?_⟩
    split
    · rename_i e; rw [e, h1]
    · rfl
  | some m => exact ⟨_, mode_iff.2 (.inr ⟨m, getD_one h, rfl, rfl⟩), fun k' => get_remove _ _ _⟩

theorem window_fwd {src : Src} {a a' : Args} {k : Str} {d d' : Decoded} (h : simple a k d (decodeWindow src) = .ok (a', d'))
    (hd : d.window = none) : ∃ (ow : Option Str) (on : Option Nat), (a.get k).getD [] = ow.toList ∧ OptRel (Denotes maxU64) ow on ∧
      (∀ k', a'.get k' = if k' = k then none else a.get k') ∧ d' = { d with window := on } := by
  rcases window_iff.1 h with ⟨h1, rfl, rfl⟩ | ⟨t, n, h1, hn, rfl, rfl⟩
  · refine ⟨none, none, by rw [h1]; rfl, trivial, fun k' => ?_, by rw [← hd]⟩
    split
    · rename_i e; rw [e, h1]
    · rfl
  · exact ⟨some t, some n, by rw [h1]; rfl, hn, fun k' => get_remove _ _ _, rfl⟩

theorem window_bwd {src : Src} {a : Args} {k : Str} {d : Decoded} {ow : Option Str} {on : Option Nat} (hn : a.get k ≠ some [])
    (h : ((a.get k).getD []).Perm ow.toList) (hr : OptRel (Denotes maxU64) ow on) (hd : d.window = none) :
    ∃ a', simple a k d (decodeWindow src) = .ok (a', { d with window := on }) ∧ ∀ k', a'.get k' = if k' = k then none else a.get k' := by
  cases ow with
  | none =>
    cases on with
    | some _ => exact hr.elim
    | none =>
      have h1 := getD_nil hn h
      refine ⟨a, window_iff.2 (.inl ⟨h1, rfl, by rw [← hd]⟩), fun k' => ?_⟩
      split
      · rename_i e; rw [e, h1]
      · rfl
  | some t =>
    cases on with
    | none => exact hr.elim
    | some n => exact ⟨_, window_iff.2 (.inr ⟨t, n, getD_one h, hr, rfl, rfl⟩), fun k' => get_remove _ _ _⟩

/-- What is left after the endpoints were read. -/
def Left (src : Src) (a : Args) (tls : Bool) (a' : Args) : Prop :=
  ∀ k, a'.get k = if k = src.name .ep then none
    else if tls = true ∧ (k = src.name .cert ∨ k = src.name .key ∨ k = src.name .keyPass) then none else a.get k

theorem left_noTls (src : Src) (a : Args) : Left src a true (noTls src (a.remove (src.name .ep))) := by
  intro k
  unfold noTls
  rw [get_remove, get_remove, get_remove, get_remove]
  by_cases h1 : k = src.name .ep
  · simp [h1]
  · by_cases h2 : k = src.name .cert
    · simp [h2]
    · by_cases h3 : k = src.name .key
      · simp [h3]
      · by_cases h4 : k = src.name .keyPass
        · simp [h4]
        · simp [h1, h2, h3, h4]

theorem left_remove (src : Src) (a : Args) : Left src a false (a.remove (src.name .ep)) := by
  intro k
  rw [get_remove]
  simp

theorem ep_fwd {src : Src} (hinj : ∀ o o', src.name o = src.name o' → o = o') {fs : Fs} {a a' : Args}
    (hne : a.get (src.name .ep) ≠ some []) {d d' : Decoded} (h : decodeEndpoints src fs a d = .ok (a', d'))
    (hd : d.tcp = none ∧ d.tls = none) : ∃ (s : Option Site) (b : Option TlsSite) (t : Option Tcp) (u : Option Tls),
      ((a.get (src.name .ep)).getD []).Perm ((s.map (epText false)).toList ++ (b.map fun x => epText true x.site).toList) ∧
      OptRel IsTcpC s t ∧ OptRel (IsTlsC fs) b u ∧
      (∀ x, b = some x → a.get (src.name .cert) = some [x.cert] ∧ a.get (src.name .key) = some [x.key] ∧
        a.get (src.name .keyPass) = some [x.keyPass]) ∧
      Left src a b.isSome a' ∧ d' = { d with tcp := t, tls := u } := by
  have ne : ∀ o o', o ≠ o' → src.name o ≠ src.name o' := fun o o' h e => h (hinj o o' e)
  have gets : ∀ o, o ≠ .ep → (a.remove (src.name .ep)).get (src.name o) = a.get (src.name o) := by
    intro o ho
    rw [get_remove, if_neg (ne _ _ ho)]
  rcases (decodeEndpoints_iff hinj hne).1 h with ⟨h1, rfl, rfl⟩ | ⟨eps, t, u, h1, he, rfl⟩
  · refine ⟨none, none, none, none, by rw [h1]; exact List.Perm.refl _, trivial, trivial, by simp, fun k => ?_, by rw [← hd.1, ← hd.2]⟩
    split
    · rename_i e; rw [e, h1]
    · simp
  · rw [h1]
    cases he with
    | tcp hs => exact ⟨some _, none, some _, none, List.Perm.refl _, hs, trivial, by simp, left_remove _ _, rfl⟩
    | tls hb g1 g2 g3 =>
      rw [gets _ (by decide)] at g1 g2 g3
      refine ⟨none, some _, none, some _, List.Perm.refl _, trivial, hb, ?_, left_noTls _ _, rfl⟩
      intro x hx
      injection hx with hx
      subst hx
      exact ⟨g1, g2, g3⟩
    | both hs hb g1 g2 g3 hp =>
      rw [gets _ (by decide)] at g1 g2 g3
      refine ⟨some _, some _, some _, some _, ?_, hs, hb, ?_, left_noTls _ _, rfl⟩
      · rcases hp with rfl | rfl
        · exact List.Perm.refl _
        · exact List.Perm.swap _ _ _
      · intro x hx
        injection hx with hx
        subst hx
        exact ⟨g1, g2, g3⟩

theorem ep_bwd {src : Src} (hinj : ∀ o o', src.name o = src.name o' → o = o') {fs : Fs} {a : Args}
    (hne : a.get (src.name .ep) ≠ some []) {d : Decoded} (hd : d.tcp = none ∧ d.tls = none)
    {s : Option Site} {b : Option TlsSite} {t : Option Tcp} {u : Option Tls}
    (hp : ((a.get (src.name .ep)).getD []).Perm ((s.map (epText false)).toList ++ (b.map fun x => epText true x.site).toList))
    (hs : OptRel IsTcpC s t) (hb : OptRel (IsTlsC fs) b u)
    (hg : ∀ x, b = some x → a.get (src.name .cert) = some [x.cert] ∧ a.get (src.name .key) = some [x.key] ∧
        a.get (src.name .keyPass) = some [x.keyPass]) :
    ∃ a', decodeEndpoints src fs a d = .ok (a', { d with tcp := t, tls := u }) ∧ Left src a b.isSome a' := by
  have ne : ∀ o o', o ≠ o' → src.name o ≠ src.name o' := fun o o' h e => h (hinj o o' e)
  have gets : ∀ o, o ≠ .ep → (a.remove (src.name .ep)).get (src.name o) = a.get (src.name o) := by
    intro o ho
    rw [get_remove, if_neg (ne _ _ ho)]
  cases s with
  | none =>
    cases t with
    | some _ => exact hs.elim
    | none =>
      cases b with
      | none =>
        cases u with
        | some _ => exact hb.elim
        | none =>
          have h1 := getD_nil hne hp
          refine ⟨a, (decodeEndpoints_iff hinj hne).2 (.inl ⟨h1, rfl, by rw [← hd.1, ← hd.2]⟩), fun k => ?_⟩
          split
          · rename_i e; rw [e, h1]
          · simp
      | some b =>
        cases u with
        | none => exact hb.elim
        | some u =>
          obtain ⟨g1, g2, g3⟩ := hg b rfl
          refine ⟨_, (decodeEndpoints_iff hinj hne).2 (.inr ⟨_, none, some u, getD_one hp, .tls hb ?_ ?_ ?_, rfl⟩), left_noTls _ _⟩
          · rw [gets _ (by decide)]; exact g1
          · rw [gets _ (by decide)]; exact g2
          · rw [gets _ (by decide)]; exact g3
  | some s =>
    cases t with
    | none => exact hs.elim
    | some t =>
      cases b with
      | none =>
        cases u with
        | some _ => exact hb.elim
        | none => exact ⟨_, (decodeEndpoints_iff hinj hne).2 (.inr ⟨_, some t, none, getD_one hp, .tcp hs, rfl⟩), left_remove _ _⟩
      | some b =>
        cases u with
        | none => exact hb.elim
        | some u =>
          obtain ⟨g1, g2, g3⟩ := hg b rfl
          have h1 : ∃ eps, a.get (src.name .ep) = some eps ∧ (eps = [epText false s, epText true b.site] ∨ eps = [epText true b.site, epText false s]) := by
            cases hx : a.get (src.name .ep) with
            | none => rw [hx] at hp; have := hp.length_eq; simp at this
            | some l => rw [hx] at hp; exact ⟨l, rfl, perm_two hp⟩
          obtain ⟨eps, he, hp'⟩ := h1
          refine ⟨_, (decodeEndpoints_iff hinj hne).2 (.inr ⟨eps, some t, some u, he, .both hs hb ?_ ?_ ?_ hp', rfl⟩), left_noTls _ _⟩
          · rw [gets _ (by decide)]; exact g1
          · rw [gets _ (by decide)]; exact g2
          · rw [gets _ (by decide)]; exact g3

theorem isWindow_iff {ow : Option Str} {n : Nat} : IsWindow ow n ↔ ∃ on, OptRel (Denotes maxU64) ow on ∧ n = on.getD 300 := by
  cases ow with
  | none =>
    constructor
    · intro h; exact ⟨none, trivial, h⟩
    · rintro ⟨on, h, e⟩
      cases on with
      | none => exact e
      | some _ => exact h.elim
  | some t =>
    constructor
    · intro h; exact ⟨some n, h, rfl⟩
    · rintro ⟨on, h, e⟩
      cases on with
      | none => exact h.elim
      | some m => rw [show n = m from e]; exact h

/-- **The reading of settings from a map of arguments**, with the length of the password in bytes. -/
theorem apply_iff {src : Src} (hinj : ∀ o o', src.name o = src.name o' → o = o') {fs : Fs} {a : Args} (hfull : Full a) {c : Cfg} :
    applyAndValidate src fs a = .ok c ↔ ∃ s : Settings, Fits src a s ∧ s.Clean ∧ MeansBy byteLen fs s c := by
  have ne : ∀ o o', o ≠ o' → src.name o ≠ src.name o' := fun o o' h e => h (hinj o o' e)
  unfold applyAndValidate applyChanges
  simp only [Res.bind_eq, bind_iff]
  constructor
  · rintro ⟨d, ⟨⟨a1, d1⟩, h1, ⟨a2, d2⟩, h2, ⟨a3, d3⟩, h3, ⟨a4, d4⟩, h4, h5⟩, h6⟩
    split at h5
    · rename_i hemp
      injection h5 with h5
      subst h5
      obtain ⟨hplug, p, hpass, rfl, rfl⟩ := decodeAuth_iff.1 h1
      obtain ⟨om, m1, m2, rfl⟩ := mode_fwd h2 rfl
      obtain ⟨ow, on, w1, w2, w3, rfl⟩ := window_fwd h3 rfl
      have g1 : ∀ k, ((a.remove (src.name .plugin)).remove (src.name .pass)).get k =
          if k = src.name .pass then none else if k = src.name .plugin then none else a.get k := fun k => by
        rw [get_remove, get_remove]
      have g3 : ∀ o, o ≠ .plugin → o ≠ .pass → o ≠ .mode → o ≠ .window → a3.get (src.name o) = a.get (src.name o) := by
        intro o o1 o2 o3 o4
        rw [w3, if_neg (ne _ _ o4), m2, if_neg (ne _ _ o3), g1, if_neg (ne _ _ o2), if_neg (ne _ _ o1)]
      have hne : a3.get (src.name .ep) ≠ some [] := by
        rw [g3 .ep (by decide) (by decide) (by decide) (by decide)]
        exact hfull _
      obtain ⟨s, b, t, u, e1, e2, e3, e4, e5, rfl⟩ := ep_fwd hinj hne h4 ⟨rfl, rfl⟩
      obtain ⟨p', hp', hlen, hzero, rfl⟩ := validate_iff.1 h6
      injection hp' with hp'
      subst hp'
      rw [isEmpty_iff] at hemp
      have hk : ∀ k, (if k = src.name .ep then none
          else if b.isSome = true ∧ (k = src.name .cert ∨ k = src.name .key ∨ k = src.name .keyPass) then none
          else if k = src.name .window then none else if k = src.name .mode then none
          else if k = src.name .pass then none else if k = src.name .plugin then none else a.get k) = none := by
        intro k
        have := hemp k
        rw [e5 k, w3, m2, g1] at this
        exact this
      have tlsv : ∀ (o : Opt) (f : TlsSite → Str), isTlsOpt o = true →
          (∀ x, b = some x → a3.get (src.name o) = some [f x]) → ((a.get (src.name o)).getD []).Perm (b.map f).toList := by
        intro o f ho hx
        cases hb : b with
        | some x =>
          have := hx x hb
          rw [g3 o (by rintro rfl; cases ho) (by rintro rfl; cases ho) (by rintro rfl; cases ho) (by rintro rfl; cases ho)] at this
          rw [this]
          exact List.Perm.refl _
        | none =>
          have := hk (src.name o)
          rw [hb] at this
          rw [if_neg (ne _ _ (by rintro rfl; cases ho)), if_neg (by simp), if_neg (ne _ _ (by rintro rfl; cases ho)),
            if_neg (ne _ _ (by rintro rfl; cases ho)), if_neg (ne _ _ (by rintro rfl; cases ho)), if_neg (ne _ _ (by rintro rfl; cases ho))] at this
          rw [this]
          exact List.Perm.refl _
      refine ⟨{ plugin := (a.get (src.name .plugin)).isSome, pass := p, mode := om, window := ow, tcp := s, tls := b }, ⟨?_, ?_⟩, optRel_clean e2 e3, ?_⟩
      · intro o
        cases o with
        | plugin => rcases hplug with h | h <;> rw [h] <;> exact List.Perm.refl _
        | pass =>
          rw [get_remove, if_neg (ne _ _ (by decide))] at hpass
          rw [hpass]
          exact List.Perm.refl _
        | mode =>
          rw [g1, if_neg (ne _ _ (by decide)), if_neg (ne _ _ (by decide))] at m1
          rw [m1]
          exact List.Perm.refl _
        | window =>
          rw [m2, if_neg (ne _ _ (by decide)), g1, if_neg (ne _ _ (by decide)), if_neg (ne _ _ (by decide))] at w1
          rw [w1]
          exact List.Perm.refl _
        | ep =>
          rw [g3 .ep (by decide) (by decide) (by decide) (by decide)] at e1
          exact e1
        | cert => exact tlsv .cert _ rfl fun x hx => (e4 x hx).1
        | key => exact tlsv .key _ rfl fun x hx => (e4 x hx).2.1
        | keyPass => exact tlsv .keyPass _ rfl fun x hx => (e4 x hx).2.2
      · intro k hn
        have := hk k
        split at this
        · exact ⟨_, by assumption⟩
        · split at this
          · rename_i h
            rcases h.2 with h | h | h <;> exact ⟨_, h⟩
          · split at this
            · exact ⟨_, by assumption⟩
            · split at this
              · exact ⟨_, by assumption⟩
              · split at this
                · exact ⟨_, by assumption⟩
                · split at this
                  · exact ⟨_, by assumption⟩
                  · exact absurd this hn
      · exact ⟨rfl, hlen, rfl, isWindow_iff.2 ⟨on, w2, rfl⟩, hzero, endpoints_iff.2 ⟨t, u, rfl, optRel_tcp e2, optRel_tls e3⟩⟩
    · cases h5
  · rintro ⟨s, hf, hcl, hm⟩
    obtain ⟨on, w1, w2⟩ := isWindow_iff.1 hm.window
    obtain ⟨t, u, e1, e2, e3⟩ := endpoints_iff.1 hm.endpoint
    have hplug : a.get (src.name .plugin) = none ∨ a.get (src.name .plugin) = some ["pwd".toList] := by
      have := hf.vals .plugin
      unfold Settings.values at this
      cases hp : s.plugin with
      | true => rw [hp] at this; exact .inr (getD_one this)
      | false => rw [hp] at this; exact .inl (getD_nil (hfull _) this)
    have hpass : (a.remove (src.name .plugin)).get (src.name .pass) = some [s.pass] := by
      rw [get_remove, if_neg (ne _ _ (by decide))]
      exact getD_one (hf.vals .pass)
    have g1 : ∀ k, ((a.remove (src.name .plugin)).remove (src.name .pass)).get k =
        if k = src.name .pass then none else if k = src.name .plugin then none else a.get k := fun k => by
      rw [get_remove, get_remove]
    have h1 := (decodeAuth_iff (src := src) (a := a) (d := {})).2 ⟨hplug, s.pass, hpass, rfl, rfl⟩
    have q1 : ((a.remove (src.name .plugin)).remove (src.name .pass)).get (src.name .mode) = a.get (src.name .mode) := by
      rw [g1, if_neg (ne _ _ (by decide)), if_neg (ne _ _ (by decide))]
    obtain ⟨a2, h2, m2⟩ := mode_bwd (src := src) (a := (a.remove (src.name .plugin)).remove (src.name .pass)) (k := src.name .mode)
      (d := { auth := some s.pass }) (om := s.mode) (by rw [q1]; exact hfull _) (by rw [q1]; exact hf.vals .mode) rfl
    have q2 : a2.get (src.name .window) = a.get (src.name .window) := by
      rw [m2, if_neg (ne _ _ (by decide)), g1, if_neg (ne _ _ (by decide)), if_neg (ne _ _ (by decide))]
    obtain ⟨a3, h3, w3⟩ := window_bwd (src := src) (a := a2) (k := src.name .window)
      (d := { auth := some s.pass, mode := s.mode }) (ow := s.window) (by rw [q2]; exact hfull _) (by rw [q2]; exact hf.vals .window) w1 rfl
    have g3 : ∀ o, o ≠ .plugin → o ≠ .pass → o ≠ .mode → o ≠ .window → a3.get (src.name o) = a.get (src.name o) := by
      intro o o1 o2 o3 o4
      rw [w3, if_neg (ne _ _ o4), m2, if_neg (ne _ _ o3), g1, if_neg (ne _ _ o2), if_neg (ne _ _ o1)]
    have q3 := g3 .ep (by decide) (by decide) (by decide) (by decide)
    obtain ⟨a4, h4, l4⟩ := ep_bwd hinj (fs := fs) (a := a3) (by rw [q3]; exact hfull _)
      (d := { auth := some s.pass, mode := s.mode, window := on }) ⟨rfl, rfl⟩ (by rw [q3]; exact hf.vals .ep) (optRel_tcpC hcl.1 e2) (optRel_tlsC hcl.2 e3) (by
        intro x hx
        rw [g3 .cert (by decide) (by decide) (by decide) (by decide), g3 .key (by decide) (by decide) (by decide) (by decide),
          g3 .keyPass (by decide) (by decide) (by decide) (by decide)]
        have k1 := hf.vals .cert
        have k2 := hf.vals .key
        have k3 := hf.vals .keyPass
        unfold Settings.values at k1 k2 k3
        rw [hx] at k1 k2 k3
        exact ⟨getD_one k1, getD_one k2, getD_one k3⟩)
    refine ⟨{ auth := some s.pass, mode := s.mode, window := on, tcp := t, tls := u }, ⟨_, h1, _, h2, _, h3, _, h4, ?_⟩, validate_iff.2 ⟨s.pass, rfl, hm.long, by dsimp only; rw [← w2]; exact hm.nonzero, ?_⟩⟩
    · rw [if_pos]
      rw [isEmpty_iff]
      intro k
      rw [l4 k, w3, m2, g1]
      cases hk : a.get k with
      | none => simp
      | some vs =>
        obtain ⟨o, rfl⟩ := hf.only k (by rw [hk]; simp)
        have nt : s.tls = none → isTlsOpt o = true → a.get (src.name o) = none := by
          intro ht ho
          have := hf.vals o
          unfold Settings.values at this
          rw [ht] at this
          refine getD_nil (hfull _) ?_
          cases o <;> first | exact this | cases ho
        cases ht : s.tls with
        | none =>
          have := nt ht
          rw [hk] at this
          cases o <;> simp_all [isTlsOpt]
        | some b => cases o <;> simp
    · have e := hm.pass
      have e' := hm.mode
      cases c
      simp_all

/-! ### The command line -/

/-- An option on the command line, as one word or two. -/
structure Item where
  opt : Opt
  val : Str
  joined : Bool

/-- The words of an option: `--name=value` or `--name value`. -/
def wordsOf (k v : Str) (joined : Bool) : List Str := if joined then [k ++ '=' :: v] else [k, v]

def Item.words (i : Item) : List Str := wordsOf (cliName i.opt).toList i.val i.joined

/-- The options say what the settings are. -/
def Says (s : Settings) (items : List Item) : Prop :=
  ∀ o, ((items.filter fun i => i.opt = o).map (·.val)).Perm (s.values o)

theorem cli_inj : ∀ o o', cli.name o = cli.name o' → o = o' := by
  intro o o'
  cases o <;> cases o' <;> decide

theorem env_inj : ∀ o o', envSrc.name o = envSrc.name o' → o = o' := by
  intro o o'
  cases o <;> cases o' <;> decide

theorem byteLen_ge (s : Str) : s.length ≤ byteLen s := by
  unfold byteLen
  induction s with
  | nil => simp
  | cons c s ih =>
    simp only [List.map_cons, List.sum_cons, List.length_cons]
    have := Char.utf8Size_pos c
    omega

theorem classify_alone (o : Opt) : classify (cliName o).toList = .alone := by
  cases o <;> decide +kernel

theorem name_facts (o : Opt) : '=' ∉ (cliName o).toList ∧ (cliName o).toList.take 2 = ['-', '-'] ∧ 5 ≤ (cliName o).toList.length := by
  cases o <;> decide +kernel

theorem classify_joined (o : Opt) {v : Str} (hv : '=' ∉ v) : classify ((cliName o).toList ++ '=' :: v) = .joined (cliName o).toList v := by
  obtain ⟨h1, h2, h3⟩ := name_facts o
  have ne : ∀ t : Str, '=' ∉ t → (cliName o).toList ++ '=' :: v ≠ t := by
    rintro t ht rfl
    exact ht (by simp)
  unfold classify
  rw [if_neg, if_neg, if_neg, splitOn_two.2 ⟨rfl, h1, hv⟩]
  · dsimp only
    rw [if_pos]
    refine Nat.le_trans ?_ (byteLen_ge _)
    rw [List.length_append]
    omega
  · rw [List.take_append_of_le_length (by omega), h2]
    simp
  · rintro (h | h) <;> exact ne _ (by decide) h
  · rintro (h | h) <;> exact ne _ (by decide) h

/-- The map of the options. -/
def collect (a : Args) (items : List Item) : Args := items.foldl (fun a i => a.push (cliName i.opt).toList i.val) a

theorem ok_bind {ε α β : Type} (a : α) (f : α → Res ε β) : (Res.ok a).bind f = f a := rfl

theorem cliLoop_joined {w k v : Str} (h : classify w = .joined k v) (rest : List Str) (a : Args) :
    cliLoop (w :: rest) a = cliLoop rest (a.push k v) := by
  rw [cliLoop.eq_def]
  simp only [h]

theorem cliLoop_alone {w : Str} (h : classify w = .alone) (v : Str) (rest : List Str) (a : Args) :
    cliLoop (w :: v :: rest) a = cliLoop rest (a.push w v) := by
  rw [cliLoop.eq_def]
  simp only [h]

theorem cliLoop_items (items : List Item) (hj : ∀ i ∈ items, i.joined = true → '=' ∉ i.val) (a : Args) :
    cliLoop (items.flatMap Item.words) a =
      .ok (if (collect a items).isEmpty then .default
        else .args (collect a items)) := by
  induction items generalizing a with
  | nil => rfl
  | cons i items ih =>
    rw [List.flatMap_cons, collect, List.foldl_cons, ← collect, ← ih fun j hj' => hj j (List.mem_cons_of_mem _ hj')]
    unfold Item.words wordsOf
    cases hb : i.joined with
    | true =>
      have := classify_joined i.opt (hj i (by simp) hb)
      simp only [if_true, List.cons_append, List.nil_append]
      exact cliLoop_joined this _ _
    | false =>
      simp only [Bool.false_eq_true, if_false, List.cons_append, List.nil_append]
      exact cliLoop_alone (classify_alone _) _ _ _

theorem foldl_push (items : List Item) (a : Args) (k : Str) :
    ((collect a items).get k).getD [] =
      (a.get k).getD [] ++ ((items.filter fun i => (cliName i.opt).toList = k).map (·.val)) := by
  induction items generalizing a with
  | nil => simp [collect]
  | cons i items ih =>
    rw [collect, List.foldl_cons, ← collect, ih, get_push, List.filter_cons]
    by_cases h : (cliName i.opt).toList = k
    · simp [h]
    · simp [h, Ne.symm h]

theorem foldl_push_full (items : List Item) {a : Args} (h : Full a) : Full (collect a items) := by
  induction items generalizing a with
  | nil => exact h
  | cons i items ih =>
    refine ih ?_
    intro k
    rw [get_push]
    split
    · simp
    · exact h k

theorem foldl_push_keys (items : List Item) {a : Args} (h : ∀ k, a.get k ≠ none → ∃ o, k = cli.name o) :
    ∀ k, (collect a items).get k ≠ none → ∃ o, k = cli.name o := by
  induction items generalizing a with
  | nil => exact h
  | cons i items ih =>
    refine ih ?_
    intro k
    rw [get_push]
    split
    · rename_i e
      exact fun _ => ⟨i.opt, e⟩
    · exact h k

theorem toList_perm {α : Type} {x y : Option α} (h : x.toList.Perm y.toList) : x = y := by
  cases x <;> cases y
  · rfl
  · simp at h
  · simp at h
  · simp only [Option.toList_some, List.perm_singleton, List.cons.injEq, and_true] at h
    rw [h]

theorem map_modeText_inj {x y : Option Mode} (h : x.map modeText = y.map modeText) : x = y := by
  cases x with
  | none => cases y <;> simp_all
  | some x =>
    cases y with
    | none => simp at h
    | some y => cases x <;> cases y <;> first | rfl | (exact absurd h (by decide))

theorem epText_inj {b b' : Bool} {s s' : Site} {p : Nat} (h : epText b s = epText b' s') (hc : s.Clean) (hp : Denotes maxU16 s.port p) :
    b = b' ∧ s = s' := by
  have hb : b = b' := by
    cases b <;> cases b' <;> first | rfl | (simp [epText] at h)
  refine ⟨hb, ?_⟩
  subst hb
  unfold epText at h
  have h := List.append_cancel_left h
  injection h with _ h
  have h1 : ':' ∉ s.port := hp.chars ':' (by decide) (by decide)
  have hcount := congrArg (List.count ':') h
  rw [List.count_append, List.count_append, List.count_cons_self, List.count_cons_self, List.count_eq_zero_of_not_mem hc.2,
    List.count_eq_zero_of_not_mem h1] at hcount
  have h2 : ':' ∉ s'.host := List.count_eq_zero.1 (by omega)
  have h3 : ':' ∉ s'.port := List.count_eq_zero.1 (by omega)
  have e1 := splitOn_two.2 ⟨rfl, hc.2, h1⟩
  have e2 := splitOn_two.2 ⟨rfl, h2, h3⟩
  rw [h, e2] at e1
  injection e1 with e1 e3
  injection e3 with e3
  cases s; cases s'
  simp_all

/-- Settings that are said by the same values are the same. -/
theorem means_unique {len : Str → Nat} {fs : Fs} {s s' : Settings} {c : Cfg} (hv : ∀ o, (s'.values o).Perm (s.values o))
    (hc : s'.Clean) (h : MeansBy len fs s' c) : MeansBy len fs s c := by
  have v1 := hv .pass
  have v2 := hv .mode
  have v3 := toList_perm (hv .window)
  have v4 := hv .ep
  have v5 := toList_perm (hv .cert)
  have v6 := toList_perm (hv .key)
  have v7 := toList_perm (hv .keyPass)
  unfold Settings.values at v1 v2 v4
  have v1 : s'.pass = s.pass := by simpa using v1
  have v2 := map_modeText_inj (toList_perm v2)
  suffices hE : s'.tcp = s.tcp ∧ s'.tls = s.tls by
    refine ⟨by rw [h.pass, v1], by rw [← v1]; exact h.long, by rw [h.mode, v2], by rw [← v3]; exact h.window, h.nonzero, ?_⟩
    rw [← hE.1, ← hE.2]
    exact h.endpoint
  obtain ⟨t, u, _, r1, r2⟩ := endpoints_iff.1 h.endpoint
  have tlsEq : ∀ x y : TlsSite, s'.tls = some x → s.tls = some y → x.site = y.site → x = y := by
    intro x y hx hy hs
    rw [hx, hy] at v5 v6 v7
    simp only [Option.map_some, Option.some.injEq] at v5 v6 v7
    cases x; cases y
    simp_all
  cases h1' : s'.tls with
  | none =>
    have h1 : s.tls = none := by
      rw [h1'] at v5
      cases h1 : s.tls with
      | none => rfl
      | some y => rw [h1] at v5; simp at v5
    rw [h1', h1] at v4
    simp only [Option.map_none, Option.toList_none, List.append_nil] at v4
    have v4 := toList_perm v4
    refine ⟨?_, h1.symm⟩
    cases h2' : s'.tcp with
    | none =>
      rw [h2'] at v4
      cases h2 : s.tcp with
      | none => rfl
      | some y => rw [h2] at v4; simp at v4
    | some x =>
      rw [h2'] at v4
      cases h2 : s.tcp with
      | none => rw [h2] at v4; simp at v4
      | some y =>
        rw [h2] at v4
        simp only [Option.map_some, Option.some.injEq] at v4
        rw [h2'] at r1
        cases t with
        | none => exact r1.elim
        | some t => rw [(epText_inj v4 (hc.1 x h2') r1.2).2]
  | some x =>
    cases u with
    | none => rw [h1'] at r2; exact r2.elim
    | some u =>
      rw [h1'] at r2
      cases h1 : s.tls with
      | none => rw [h1', h1] at v5; simp at v5
      | some y =>
        rw [h1', h1] at v4
        have hx := hc.2 x h1'
        cases h2' : s'.tcp with
        | none =>
          cases h2 : s.tcp with
          | some z => rw [h2', h2] at v4; have := v4.length_eq; simp at this
          | none =>
            rw [h2', h2] at v4
            simp only [Option.map_none, Option.toList_none, List.nil_append, Option.map_some, Option.toList_some,
              List.perm_singleton, List.cons.injEq, and_true] at v4
            refine ⟨rfl, ?_⟩
            rw [tlsEq x y h1' h1 (epText_inj v4 hx r2.1.2).2]
        | some w =>
          cases t with
          | none => rw [h2'] at r1; exact r1.elim
          | some t =>
            rw [h2'] at r1
            cases h2 : s.tcp with
            | none => rw [h2', h2] at v4; have := v4.length_eq; simp at this
            | some z =>
              rw [h2', h2] at v4
              simp only [Option.map_some, Option.toList_some, List.cons_append, List.nil_append] at v4
              have hw := hc.1 w h2'
              rcases perm_two v4 with e | e
              · injection e with e1 e2
                injection e2 with e2
                rw [(epText_inj e1 hw r1.2).2, tlsEq x y h1' h1 (epText_inj e2 hx r2.1.2).2]
                exact ⟨rfl, rfl⟩
              · injection e with e1 _
                have := (epText_inj e1 hw r1.2).1
                cases this

theorem long_iff {p : Str} (hp : byteLen p < 16 ∨ 16 ≤ p.length) : 16 ≤ byteLen p ↔ 16 ≤ p.length := by
  have := byteLen_ge p
  omega

theorem meansBy_iff {fs : Fs} {s : Settings} {c : Cfg} (hp : byteLen s.pass < 16 ∨ 16 ≤ s.pass.length) :
    MeansBy byteLen fs s c ↔ Means fs s c := by
  constructor
  · intro h; exact ⟨h.pass, (long_iff hp).1 h.long, h.mode, h.window, h.nonzero, h.endpoint⟩
  · intro h; exact ⟨h.pass, (long_iff hp).2 h.long, h.mode, h.window, h.nonzero, h.endpoint⟩

theorem parseEnv_none {env : Str → Var} (h : ∀ o, env (envSrc.name o) = .absent) : parseEnv env = .ok none := by
  unfold parseEnv envKeys
  simp [envLoop, h]

theorem applied {src : Src} (hinj : ∀ o o', src.name o = src.name o' → o = o') {fs : Fs} {a : Args} (hfull : Full a) {s : Settings}
    {c : Cfg} (hf : Fits src a s) (hc : s.Clean) (hp : byteLen s.pass < 16 ∨ 16 ≤ s.pass.length) :
    applyAndValidate src fs a = .ok c ↔ Means fs s c := by
  rw [apply_iff hinj hfull, ← meansBy_iff hp]
  constructor
  · rintro ⟨s', hf', hc', hm⟩
    exact means_unique (fun o => (hf'.vals o).symm.trans (hf.vals o)) hc' hm
  · intro hm
    exact ⟨s, hf, hc, hm⟩

theorem says_fits {s : Settings} {items : List Item} (h : Says s items) :
    Fits cli (collect [] items) s := by
  refine ⟨fun o => ?_, foldl_push_keys items (by simp [Args.get])⟩
  rw [foldl_push]
  simp only [Args.get, Option.getD_none, List.nil_append]
  have : (items.filter fun i => decide ((cliName i.opt).toList = cli.name o)) = items.filter fun i => decide (i.opt = o) := by
    congr 1
    funext i
    exact decide_eq_decide.2 ⟨fun e => cli_inj _ _ e, fun e => by rw [e]; rfl⟩
  rw [this]
  exact h o

/-- **C55, command line.** Whatever the settings, in whatever order the options stand, and whether each is
written as one word or two: the server is configured with exactly these settings, and refuses them if they
mean nothing (a port that is no number, a file that cannot be read, a window of zero, a short password).
Partial: values with `=` are written as a word of their own; hosts contain neither `@` nor `:`; the root
password does not have fewer than 16 characters but 16 bytes; no setting comes from the environment. -/
theorem C55_cli_partial (fs : Fs) (yaml : Str → Option Decoded) (prog : Str) (items : List Item) (env : Str → Var) (s : Settings)
    (c : Cfg) (hs : Says s items) (hj : ∀ i ∈ items, i.joined = true → '=' ∉ i.val) (hc : s.Clean)
    (hp : byteLen s.pass < 16 ∨ 16 ≤ s.pass.length) (henv : ∀ o, env (envSrc.name o) = .absent) :
    check fs yaml (prog :: items.flatMap Item.words) env = .ok (.config c) ↔ Means fs s c := by
  have hf := says_fits hs
  have hfull : Full (collect [] items) :=
    foldl_push_full items (by intro k; simp [Args.get])
  rw [← applied cli_inj hfull hf hc hp]
  have hne : (collect [] items).isEmpty = false := by
    cases he : (collect [] items).isEmpty with
    | false => rfl
    | true =>
      have h1 := (isEmpty_iff _).1 he (cli.name .pass)
      have h2 := hf.vals .pass
      rw [h1] at h2
      simp [Settings.values] at h2
  have hconf : (collect [] items).get configOpt = none := by
    cases h : (collect [] items).get configOpt with
    | none => rfl
    | some _ =>
      obtain ⟨o, ho⟩ := hf.only configOpt (by rw [h]; simp)
      cases o <;> exact absurd ho (by decide)
  unfold check parseCli
  rw [parseEnv_none henv, List.drop_one, List.tail_cons, cliLoop_items items hj, hne]
  simp only [Res.bind_eq, ok_bind, Bool.false_eq_true, if_false, hconf]
  rw [bind_iff]
  constructor
  · rintro ⟨c', h, e⟩
    injection e with e
    injection e with e
    rw [← e]
    exact h
  · intro h
    exact ⟨c, h, rfl⟩

/-! ### The environment -/

/-- Values with commas between them. -/
def joinComma : List Str → Str
  | [] => []
  | [v] => v
  | v :: vs => v ++ ',' :: joinComma vs

/-- The environment says what the settings are. -/
def EnvSays (s : Settings) (env : Str → Var) : Prop :=
  ∀ o, ∃ vs, vs.Perm (s.values o) ∧ env (envName o).toList = (if vs = [] then .absent else .val (joinComma vs))

theorem splitOn_join {vs : List Str} (hne : vs ≠ []) (h : ∀ v ∈ vs, ',' ∉ v) : splitOn ',' (joinComma vs) = vs := by
  induction vs with
  | nil => exact absurd rfl hne
  | cons v vs ih =>
    cases vs with
    | nil => exact splitOn_one.2 ⟨rfl, h v (by simp)⟩
    | cons w ws =>
      rw [joinComma, splitOn_append (h v (by simp)), ih (by simp) fun x hx => h x (List.mem_cons_of_mem _ hx)]
      simp

theorem join_splitOn (s : Str) : joinComma (splitOn ',' s) = s := by
  induction s with
  | nil => rfl
  | cons c s ih =>
    unfold splitOn
    split
    · rename_i h
      cases hs : splitOn ',' s with
      | nil => exact absurd hs (splitOn_ne_nil _ _)
      | cons x xs =>
        rw [hs] at ih
        rw [joinComma, ih, h]
        · rfl
        · simp
    · cases hs : splitOn ',' s with
      | nil => exact absurd hs (splitOn_ne_nil _ _)
      | cons x xs =>
        rw [hs] at ih
        dsimp only
        cases xs with
        | nil =>
          simp only [joinComma] at ih ⊢
          rw [ih]
        | cons y ys =>
          simp only [joinComma] at ih ⊢
          rw [← ih]
          rfl

theorem envLoop_ok {env : Str → Var} {os : List Opt} {a : Args} (h : envLoop env os = .ok a) :
    (∀ o ∈ os, env (envSrc.name o) ≠ .notUnicode) ∧
    (∀ o ∈ os, ∀ t, env (envSrc.name o) = .val t → a.get (envSrc.name o) = some (splitOn ',' t)) ∧
    (∀ k vs, a.get k = some vs → ∃ o ∈ os, ∃ t, k = envSrc.name o ∧ env k = .val t ∧ vs = splitOn ',' t) := by
  induction os generalizing a with
  | nil =>
    injection h with h
    subst h
    simp [Args.get]
  | cons o os ih =>
    unfold envLoop at h
    split at h
    · rename_i hv
      obtain ⟨h1, h2, h3⟩ := ih h
      refine ⟨?_, ?_, ?_⟩
      · intro x hx
        rcases List.mem_cons.1 hx with rfl | hx
        · rw [hv]; simp
        · exact h1 x hx
      · intro x hx t ht
        rcases List.mem_cons.1 hx with rfl | hx
        · rw [hv] at ht; cases ht
        · exact h2 x hx t ht
      · intro k vs hk
        obtain ⟨x, hx, t, r⟩ := h3 k vs hk
        exact ⟨x, List.mem_cons_of_mem _ hx, t, r⟩
    · cases h
    · rename_i t hv
      obtain ⟨a1, ha, hb⟩ := bind_iff.1 h
      injection hb with hb
      subst hb
      obtain ⟨h1, h2, h3⟩ := ih ha
      refine ⟨?_, ?_, ?_⟩
      · intro x hx
        rcases List.mem_cons.1 hx with rfl | hx
        · rw [hv]; simp
        · exact h1 x hx
      · intro x hx t' ht
        simp only [Args.get]
        by_cases hxo : x = o
        · subst hxo
          rw [hv] at ht
          injection ht with ht
          rw [if_pos rfl, ht]
        · rw [if_neg fun e => hxo (env_inj _ _ e).symm]
          rcases List.mem_cons.1 hx with rfl | hx
          · exact absurd rfl hxo
          · exact h2 x hx t' ht
      · intro k vs hk
        simp only [Args.get] at hk
        split at hk
        · rename_i e
          injection hk with hk
          refine ⟨o, by simp, t, e.symm, by rw [← e]; exact hv, hk.symm⟩
        · obtain ⟨x, hx, t, r⟩ := h3 k vs hk
          exact ⟨x, List.mem_cons_of_mem _ hx, t, r⟩

theorem envLoop_total {env : Str → Var} (os : List Opt) (h : ∀ o ∈ os, env (envSrc.name o) ≠ .notUnicode) : ∃ a, envLoop env os = .ok a := by
  induction os with
  | nil => exact ⟨[], rfl⟩
  | cons o os ih =>
    obtain ⟨a, e⟩ := ih fun x hx => h x (List.mem_cons_of_mem _ hx)
    unfold envLoop
    cases hv : env (envSrc.name o) with
    | absent => exact ⟨a, e⟩
    | notUnicode => exact absurd hv (h o (by simp))
    | val t => exact ⟨_, by simp [e]; rfl⟩

theorem mem_envKeys (o : Opt) : o ∈ envKeys := by cases o <;> decide

theorem env_full {env : Str → Var} {a : Args} (h : envLoop env envKeys = .ok a) : Full a := by
  intro k hk
  obtain ⟨_, _, t, _, _, e⟩ := (envLoop_ok h).2.2 k [] hk
  exact splitOn_ne_nil _ _ e.symm

theorem env_fits {env : Str → Var} {a : Args} (h : envLoop env envKeys = .ok a) {s : Settings} (hs : EnvSays s env)
    (hcomma : ∀ o, ∀ v ∈ s.values o, ',' ∉ v) : Fits envSrc a s := by
  obtain ⟨_, h2, h3⟩ := envLoop_ok h
  refine ⟨fun o => ?_, fun k hk => ?_⟩
  · obtain ⟨vs, hp, he⟩ := hs o
    split at he
    · rename_i hn
      subst hn
      cases hg : a.get (envSrc.name o) with
      | none => exact hp
      | some ws =>
        obtain ⟨_, _, t, _, ht, _⟩ := h3 _ _ hg
        rw [show env (envSrc.name o) = .absent from he] at ht
        cases ht
    · rename_i hn
      rw [h2 o (mem_envKeys o) _ he, splitOn_join hn fun v hv => hcomma o v (hp.mem_iff.1 hv)]
      exact hp
  · cases hg : a.get k with
    | none => exact absurd hg hk
    | some ws =>
      obtain ⟨o, _, t, e, _⟩ := h3 _ _ hg
      exact ⟨o, e⟩

/-- **C55, environment.** The same for settings in environment variables. Partial: values without commas;
hosts and password as above. -/
theorem C55_env_partial (fs : Fs) (yaml : Str → Option Decoded) (prog : Str) (env : Str → Var) (s : Settings)
    (c : Cfg) (hs : EnvSays s env) (hcomma : ∀ o, ∀ v ∈ s.values o, ',' ∉ v) (hc : s.Clean)
    (hp : byteLen s.pass < 16 ∨ 16 ≤ s.pass.length) :
    check fs yaml [prog] env = .ok (.config c) ↔ Means fs s c := by
  have hu : ∀ o ∈ envKeys, env (envSrc.name o) ≠ .notUnicode := by
    intro o _
    obtain ⟨vs, _, he⟩ := hs o
    rw [show env (envSrc.name o) = _ from he]
    split <;> simp
  obtain ⟨a, ha⟩ := envLoop_total envKeys hu
  have hf := env_fits ha hs hcomma
  have hfull := env_full ha
  rw [← applied env_inj hfull hf hc hp]
  have hne : a.isEmpty = false := by
    cases he : a.isEmpty with
    | false => rfl
    | true =>
      have h1 := (isEmpty_iff _).1 he (envSrc.name .pass)
      have h2 := hf.vals .pass
      rw [h1] at h2
      simp [Settings.values] at h2
  unfold check parseEnv parseCli
  rw [ha]
  simp only [Res.bind_eq, ok_bind, hne, Bool.false_eq_true, if_false, List.drop_one, List.tail_cons, cliLoop, List.isEmpty_nil, if_true]
  rw [bind_iff]
  constructor
  · rintro ⟨c', h, e⟩
    injection e with e
    injection e with e
    rw [← e]
    exact h
  · intro h
    exact ⟨c, h, rfl⟩

/-! ### The file -/

/-- A configuration file says what the settings are. -/
structure FileSays (s : Settings) (d : Decoded) : Prop where
  pass : d.auth = some s.pass
  mode : d.mode = s.mode
  window : OptRel (Denotes maxU64) s.window d.window
  tcp : OptRel IsTcp s.tcp d.tcp
  tls : OptRel (fun x t => IsTcp x.site t.tcp ∧ t.cert = x.cert ∧ t.key = x.key ∧ t.keyPass = x.keyPass) s.tls d.tls

theorem Denotes.unique {max n m : Nat} {t : Str} (h : Denotes max t n) (h' : Denotes max t m) : n = m := by
  have h := parseNum_iff.2 h
  have h' := parseNum_iff.2 h'
  rw [h] at h'
  injection h'

/-- **C55, file.** The same for settings in a file. Partial: the password as above. -/
theorem C55_file_partial (fs : Fs) (yaml : Str → Option Decoded) (prog file text : Str) (joined : Bool) (env : Str → Var) (s : Settings)
    (d : Decoded) (c : Cfg) (hfile : fs file = some text) (hy : yaml text = some d) (hs : FileSays s d)
    (hj : joined = true → '=' ∉ file) (hp : byteLen s.pass < 16 ∨ 16 ≤ s.pass.length) (henv : ∀ o, env (envSrc.name o) = .absent) :
    check fs yaml (prog :: wordsOf configOpt file joined) env = .ok (.config c) ↔ Means fs s c := by
  rw [← meansBy_iff hp]
  have hcl : cliLoop (wordsOf configOpt file joined) [] = .ok (.args [(configOpt, [file])]) := by
    unfold wordsOf
    cases joined with
    | false =>
      have : classify configOpt = .alone := by decide +kernel
      simp only [Bool.false_eq_true, if_false]
      rw [cliLoop_alone this]
      rfl
    | true =>
      have ne : ∀ t : Str, '=' ∉ t → configOpt ++ '=' :: file ≠ t := by
        rintro t ht rfl
        exact ht (by simp)
      have : classify (configOpt ++ '=' :: file) = .joined configOpt file := by
        unfold classify
        rw [if_neg, if_neg, if_neg, splitOn_two.2 ⟨rfl, by decide, hj rfl⟩]
        · dsimp only
          rw [if_pos]
          refine Nat.le_trans ?_ (byteLen_ge _)
          rw [List.length_append]
          exact Nat.le_trans (show 5 ≤ configOpt.length by decide) (Nat.le_add_right _ _)
        · rw [List.take_append_of_le_length (by decide)]
          decide
        · rintro (h | h) <;> exact ne _ (by decide) h
        · rintro (h | h) <;> exact ne _ (by decide) h
      simp only [if_true]
      rw [cliLoop_joined this]
      rfl
  have hread : readFile fs file = .ok text := readFile_iff.2 hfile
  have key : ∀ u : Option Tls, OptRel (IsTls fs) s.tls u →
      (validate .file { d with tls := u } = .ok c ↔ MeansBy byteLen fs s c) := by
    intro u hu
    rw [validate_iff]
    constructor
    · rintro ⟨p, h1, h2, h3, rfl⟩
      rw [show ({ d with tls := u } : Decoded).auth = d.auth from rfl, hs.pass] at h1
      injection h1 with h1
      subst h1
      exact ⟨rfl, h2, by rw [← hs.mode], isWindow_iff.2 ⟨_, hs.window, rfl⟩, h3, endpoints_iff.2 ⟨_, _, rfl, hs.tcp, hu⟩⟩
    · intro h
      obtain ⟨on, w1, w2⟩ := isWindow_iff.1 h.window
      obtain ⟨t', u', e1, e2, e3⟩ := endpoints_iff.1 h.endpoint
      have hon : on = d.window := by
        have := hs.window
        cases hw : s.window <;> cases hd : d.window <;> cases on <;> simp_all [OptRel]
        exact Denotes.unique w1 this
      have ht : t' = d.tcp := by
        have := hs.tcp
        cases hw : s.tcp with
        | none => cases hd : d.tcp <;> cases t' <;> simp_all [OptRel]
        | some x =>
          rw [hw] at this e2
          cases hd : d.tcp with
          | none => rw [hd] at this; exact this.elim
          | some y =>
            cases t' with
            | none => exact e2.elim
            | some z =>
              rw [hd] at this
              have h1 := this.1
              have h2 := e2.1
              have h3 := Denotes.unique this.2 e2.2
              cases y; cases z
              simp_all
      have hu' : u' = u := by
        cases hw : s.tls with
        | none => rw [hw] at hu e3; cases u <;> cases u' <;> simp_all [OptRel]
        | some x =>
          rw [hw] at hu e3
          cases u with
          | none => exact hu.elim
          | some y =>
            cases u' with
            | none => exact e3.elim
            | some z =>
              obtain ⟨⟨a1, a2⟩, a3, a4, a5⟩ := hu
              obtain ⟨⟨b1, b2⟩, b3, b4, b5⟩ := e3
              have h3 := Denotes.unique a2 b2
              obtain ⟨⟨_, _⟩, _, _, _⟩ := y
              obtain ⟨⟨_, _⟩, _, _, _⟩ := z
              simp_all
      subst hon ht hu'
      refine ⟨s.pass, hs.pass, h.long, by dsimp only; rw [← w2]; exact h.nonzero, ?_⟩
      have p1 := h.pass
      have p2 := h.mode
      rw [← hs.mode] at p2
      cases c
      simp_all
  unfold check parseCli
  rw [parseEnv_none henv, List.drop_one, List.tail_cons, hcl]
  simp only [Res.bind_eq, ok_bind, Args.get, if_true, checkFile, List.length_singleton, true_and, ne_eq, not_true_eq_false,
    if_false, hread, hy]
  have fin : ∀ r : Res Err Cfg, ((r.bind fun c => .ok (Ret.config c)) = .ok (.config c)) ↔ r = .ok c := by
    intro r
    rw [bind_iff]
    constructor
    · rintro ⟨c', h, e⟩
      injection e with e
      injection e with e
      rw [← e]
      exact h
    · intro h
      exact ⟨c, h, rfl⟩
  have ht := hs.tls
  cases hd : d.tls with
  | none =>
    have hn : s.tls = none := by
      rw [hd] at ht
      cases hx : s.tls with
      | none => rfl
      | some _ => rw [hx] at ht; exact ht.elim
    dsimp only
    rw [fin, ← key none (by rw [hn]; trivial), ← hd]
  | some t =>
    rw [hd] at ht
    cases hx : s.tls with
    | none => rw [hx] at ht; exact ht.elim
    | some x =>
      rw [hx] at ht
      obtain ⟨r1, r2, r3, r4⟩ := ht
      dsimp only
      constructor
      · intro h
        obtain ⟨cert, c1, h⟩ := bind_iff.1 h
        obtain ⟨ky, c2, h⟩ := bind_iff.1 h
        obtain ⟨kp, c3, h⟩ := bind_iff.1 h
        refine (key (some { tcp := t.tcp, cert, key := ky, keyPass := kp }) ?_).1 ((fin _).1 h)
        rw [hx]
        exact ⟨r1, by rw [← r2]; exact readFile_iff.1 c1, by rw [← r3]; exact readFile_iff.1 c2, by rw [← r4]; exact readFile_iff.1 c3⟩
      · intro h
        obtain ⟨t', u', e1, e2, e3⟩ := endpoints_iff.1 h.endpoint
        rw [hx] at e3
        cases u' with
        | none => exact e3.elim
        | some z =>
          refine bind_iff.2 ⟨z.cert, readFile_iff.2 (by rw [r2]; exact e3.2.1), bind_iff.2 ⟨z.key, readFile_iff.2 (by rw [r3]; exact e3.2.2.1),
            bind_iff.2 ⟨z.keyPass, readFile_iff.2 (by rw [r4]; exact e3.2.2.2), (fin _).2 ((key _ ?_).2 h)⟩⟩⟩
          rw [hx]
          exact ⟨r1, e3.2⟩

end Verif.Config

import Verif.Config.Theorems
/-!
C55, continued: nothing but settings is accepted, the reading of settings never panics, and where the code
does not do what C55 says.
-/
namespace Verif.Config

/-- Options on the command line of any name. -/
structure Raw where
  key : Str
  val : Str
  joined : Bool

theorem classify_joined_eq {w k v : Str} (h : classify w = .joined k v) : w = k ++ '=' :: v := by
  unfold classify at h
  split at h
  · cases h
  · split at h
    · cases h
    · split at h
      · cases h
      · split at h
        · rename_i hs
          split at h
          · injection h with h1 h2
            subst h1 h2
            exact (splitOn_two.1 hs).1
          · cases h
        · cases h
        · cases h

/-- What the loop over the arguments accepts. -/
theorem cliLoop_raw (n : Nat) {ws : List Str} (hn : ws.length ≤ n) {a : Args} {r : CliRet} (h : cliLoop ws a = .ok r) (hh : r ≠ .help) (hv : r ≠ .version) :
    ∃ raws : List Raw, ws = raws.flatMap (fun x => wordsOf x.key x.val x.joined) ∧
      r = (if (raws.foldl (fun (a : Args) x => a.push x.key x.val) a).isEmpty then .default
        else .args (raws.foldl (fun (a : Args) x => a.push x.key x.val) a)) := by
  induction n generalizing ws a with
  | zero =>
    have : ws = [] := List.eq_nil_of_length_eq_zero (by omega)
    subst this
    injection h with h
    exact ⟨[], rfl, h.symm⟩
  | succ n ih =>
    cases ws with
    | nil =>
      injection h with h
      exact ⟨[], rfl, h.symm⟩
    | cons w rest =>
      simp only [List.length_cons] at hn
      cases hc : classify w with
      | help =>
        rw [cliLoop.eq_def] at h
        simp only [hc] at h
        injection h with h
        exact absurd h.symm hh
      | version =>
        rw [cliLoop.eq_def] at h
        simp only [hc] at h
        injection h with h
        exact absurd h.symm hv
      | unexpected =>
        rw [cliLoop.eq_def] at h
        simp only [hc] at h
        cases h
      | bad =>
        rw [cliLoop.eq_def] at h
        simp only [hc] at h
        cases h
      | joined k v =>
        rw [cliLoop_joined hc] at h
        obtain ⟨raws, e, hr⟩ := ih (by omega) h
        exact ⟨⟨k, v, true⟩ :: raws, by rw [List.flatMap_cons, ← e, classify_joined_eq hc]; rfl, hr⟩
      | alone =>
        cases rest with
        | nil =>
          rw [cliLoop.eq_def] at h
          simp only [hc] at h
          cases h
        | cons v rest =>
          rw [cliLoop_alone hc] at h
          obtain ⟨raws, e, hr⟩ := ih (by simp only [List.length_cons] at hn; omega) h
          exact ⟨⟨w, v, false⟩ :: raws, by rw [List.flatMap_cons, ← e]; rfl, hr⟩

theorem push_key (raws : List Raw) (a : Args) (k : Str) (h : a.get k ≠ none ∨ ∃ x ∈ raws, x.key = k) :
    (raws.foldl (fun (a : Args) x => a.push x.key x.val) a).get k ≠ none := by
  induction raws generalizing a with
  | nil =>
    rcases h with h | ⟨x, hx, _⟩
    · exact h
    · cases hx
  | cons y raws ih =>
    refine ih _ ?_
    rw [get_push]
    rcases h with h | ⟨x, hx, e⟩
    · left
      split
      · simp
      · exact h
    · rcases List.mem_cons.1 hx with rfl | hx
      · left
        rw [if_pos e.symm]
        simp
      · exact .inr ⟨x, hx, e⟩

theorem raws_items (raws : List Raw) (h : ∀ x ∈ raws, ∃ o, x.key = cli.name o) :
    ∃ items : List Item, raws = items.map fun i => ⟨(cliName i.opt).toList, i.val, i.joined⟩ := by
  induction raws with
  | nil => exact ⟨[], rfl⟩
  | cons x raws ih =>
    obtain ⟨items, e⟩ := ih fun y hy => h y (List.mem_cons_of_mem _ hy)
    obtain ⟨o, ho⟩ := h x (by simp)
    refine ⟨⟨o, x.val, x.joined⟩ :: items, ?_⟩
    rw [List.map_cons, ← e]
    cases x
    simp only at ho
    simp only [ho]
    rfl

theorem fits_says {s : Settings} {items : List Item} (h : Fits cli (collect [] items) s) : Says s items := by
  intro o
  have := h.vals o
  rw [foldl_push] at this
  simp only [Args.get, Option.getD_none, List.nil_append] at this
  have e : (items.filter fun i => decide ((cliName i.opt).toList = cli.name o)) = items.filter fun i => decide (i.opt = o) := by
    congr 1
    funext i
    exact decide_eq_decide.2 ⟨fun e => cli_inj _ _ e, fun e => by rw [e]; rfl⟩
  rw [e] at this
  exact this

theorem fits_envSays {env : Str → Var} {a : Args} (h : envLoop env envKeys = .ok a) {s : Settings} (hf : Fits envSrc a s) : EnvSays s env := by
  obtain ⟨h1, h2, h3⟩ := envLoop_ok h
  intro o
  have hv := hf.vals o
  cases he : env (envSrc.name o) with
  | notUnicode => exact absurd he (h1 o (mem_envKeys o))
  | absent =>
    refine ⟨[], ?_, by rw [if_pos rfl]; exact he⟩
    cases hg : a.get (envSrc.name o) with
    | none => rw [hg] at hv; exact hv
    | some ws =>
      obtain ⟨_, _, t, _, ht, _⟩ := h3 _ _ hg
      rw [he] at ht
      cases ht
  | val t =>
    rw [h2 o (mem_envKeys o) t he] at hv
    exact ⟨splitOn ',' t, hv, by rw [if_neg (splitOn_ne_nil _ _), join_splitOn]; exact he⟩

theorem parseEnv_cases {env : Str → Var} {x : Option Args} (h : parseEnv env = .ok x) :
    (x = none ∧ ∀ o, env (envSrc.name o) = .absent) ∨ ∃ a, x = some a ∧ envLoop env envKeys = .ok a := by
  unfold parseEnv at h
  obtain ⟨a, ha, hx⟩ := bind_iff.1 h
  injection hx with hx
  subst hx
  cases he : a.isEmpty with
  | false => exact .inr ⟨a, by simp, ha⟩
  | true =>
    left
    refine ⟨by simp, fun o => ?_⟩
    obtain ⟨h1, h2, _⟩ := envLoop_ok ha
    cases hv : env (envSrc.name o) with
    | absent => rfl
    | notUnicode => exact absurd hv (h1 o (mem_envKeys o))
    | val t =>
      have := h2 o (mem_envKeys o) t hv
      rw [(isEmpty_iff a).1 he] at this
      cases this

/-- **C55, nothing else.** Whatever configuration the server starts with: it is the meaning of settings that
the command line says and nothing else is on it or in the environment; or that the environment says, and the
command line is empty; or it comes from a file that is named by the command line, and nothing else is there. No
option is ignored. (The password has at least 16 bytes.) -/
theorem C55_nothing_else (fs : Fs) (yaml : Str → Option Decoded) (args : List Str) (env : Str → Var) (c : Cfg)
    (h : check fs yaml args env = .ok (.config c)) :
    (∃ (items : List Item) (s : Settings), args.drop 1 = items.flatMap Item.words ∧ Says s items ∧ MeansBy byteLen fs s c ∧
      ∀ o, env (envName o).toList = .absent) ∨
    (args.drop 1 = [] ∧ ∃ s, EnvSays s env ∧ MeansBy byteLen fs s c) ∨
    (∃ file joined text d, args.drop 1 = wordsOf configOpt file joined ∧ fs file = some text ∧ yaml text = some d ∧
      ∀ o, env (envName o).toList = .absent) := by
  unfold check at h
  obtain ⟨e, he, h⟩ := bind_iff.1 h
  obtain ⟨r, hr, h⟩ := bind_iff.1 h
  unfold parseCli at hr
  have conf : ∀ {src : Src} {a : Args}, ((applyAndValidate src fs a).bind fun c => .ok (Ret.config c)) = .ok (.config c) →
      applyAndValidate src fs a = .ok c := by
    intro src a h
    obtain ⟨c', h, e⟩ := bind_iff.1 h
    injection e with e
    injection e with e
    rw [← e]
    exact h
  have raw := fun hh hv => cliLoop_raw (args.drop 1).length (Nat.le_refl _) (a := []) hr hh hv
  cases r with
  | help => cases h
  | version => cases h
  | default =>
    obtain ⟨raws, e1, e2⟩ := raw (by simp) (by simp)
    have hnil : raws = [] := by
      cases raws with
      | nil => rfl
      | cons x l =>
        exfalso
        have hk := push_key (x :: l) [] x.key (.inr ⟨x, by simp, rfl⟩)
        split at e2
        · rename_i hemp
          exact hk ((isEmpty_iff _).1 hemp _)
        · cases e2
    subst hnil
    rcases parseEnv_cases he with ⟨rfl, _⟩ | ⟨a, rfl, ha⟩
    · cases h
    · have hc := conf h
      obtain ⟨s, hf, _, hm⟩ := (apply_iff env_inj (env_full ha)).1 hc
      exact .inr (.inl ⟨e1, s, fits_envSays ha hf, hm⟩)
  | args a =>
    obtain ⟨raws, e1, e2⟩ := raw (by simp) (by simp)
    have hfold : raws.foldl (fun (a : Args) x => a.push x.key x.val) [] = a := by
      split at e2
      · cases e2
      · injection e2 with e2
        exact e2.symm
    dsimp only at h
    split at h
    · rename_i files hg
      unfold checkFile at h
      split at h
      · rename_i hone
        split at h
        · cases h
        · rename_i hlen
          split at h
          · cases h
          · rename_i file rest
            have hrest : rest = [] := by
              simp only [List.length_cons, ne_eq, Nat.add_eq_right, Decidable.not_not] at hlen
              exact List.eq_nil_of_length_eq_zero hlen
            subst hrest
            obtain ⟨text, ht, h⟩ := bind_iff.1 h
            split at h
            · cases h
            · rename_i d hd
              rcases parseEnv_cases he with ⟨_, habs⟩ | ⟨a', hx, _⟩
              · right; right
                suffices hraw : ∃ j, raws = [⟨configOpt, file, j⟩] by
                  obtain ⟨j, rfl⟩ := hraw
                  refine ⟨file, j, text, d, ?_, readFile_iff.1 ht, hd, habs⟩
                  rw [e1]
                  simp
                -- one key, one value
                have hkeys : ∀ x ∈ raws, x.key = configOpt := by
                  intro x hx
                  have h1 := push_key raws [] x.key (.inr ⟨x, hx, rfl⟩)
                  rw [hfold] at h1
                  match a, hone.1, hg, h1 with
                  | [p], _, hg, h1 =>
                    simp only [Args.get] at hg h1
                    split at hg
                    · rename_i hp
                      by_cases hq : p.1 = x.key
                      · rw [← hq, hp]
                      · simp [hq] at h1
                    · cases hg
                have hcount : ∀ (l : List Raw) (a : Args), (∀ x ∈ l, x.key = configOpt) →
                    ((l.foldl (fun (a : Args) x => a.push x.key x.val) a).get configOpt).getD [] = (a.get configOpt).getD [] ++ l.map (·.val) := by
                  intro l
                  induction l with
                  | nil => simp
                  | cons x l ih =>
                    intro a hk
                    rw [List.foldl_cons, ih _ fun y hy => hk y (List.mem_cons_of_mem _ hy), get_push, hk x (by simp)]
                    simp
                have := hcount raws [] hkeys
                rw [hfold, hg] at this
                simp only [Option.getD_some, Args.get, Option.getD_none, List.nil_append] at this
                match raws, this, hkeys with
                | [x], this, hkeys =>
                  have hk := hkeys x (by simp)
                  simp only [List.map_cons, List.map_nil, List.cons.injEq, and_true] at this
                  refine ⟨x.joined, ?_⟩
                  cases x
                  simp only at this hk
                  rw [this, hk]
                | [], this, _ => simp at this
                | _ :: _ :: _, this, _ => simp at this
              · rw [hone.2] at hx; cases hx
      · cases h
    · rename_i hg
      split at h
      · cases h
      · have hc := conf h
        have habs : ∀ o, env (envSrc.name o) = .absent := by
          rcases parseEnv_cases he with ⟨_, habs⟩ | ⟨a', hx, _⟩
          · exact habs
          · cases hx
        have hfull : Full a := by
          rw [← hfold]
          have : ∀ (l : List Raw) (a : Args), Full a → Full (l.foldl (fun (a : Args) x => a.push x.key x.val) a) := by
            intro l
            induction l with
            | nil => intro a h; exact h
            | cons x l ih =>
              intro a h
              refine ih _ ?_
              intro k
              rw [get_push]
              split
              · simp
              · exact h k
          exact this raws [] (by intro k; simp [Args.get])
        obtain ⟨s, hf, _, hm⟩ := (apply_iff cli_inj hfull).1 hc
        obtain ⟨items, rfl⟩ := raws_items raws (by
          intro x hx
          refine hf.only x.key ?_
          rw [← hfold]
          exact push_key raws [] x.key (.inr ⟨x, hx, rfl⟩))
        refine .inl ⟨items, s, ?_, fits_says ?_, hm, habs⟩
        · rw [e1, List.flatMap_map]
          rfl
        · rw [collect]
          rw [List.foldl_map] at hfold
          rw [hfold]
          exact hf

/-! ### No panic -/

theorem returns_bind {ε α β : Type} {x : Res ε α} {f : α → Res ε β} (hx : x.returns = true) (hf : ∀ a, (f a).returns = true) :
    (x.bind f).returns = true := by
  cases x with
  | ok a => exact hf a
  | err e => rfl
  | panic => cases hx
  | hang => cases hx

theorem single_returns (src : Src) (o : Opt) (vs : List Str) : (single src o vs).returns = true := by
  unfold single
  match vs with
  | [] => rfl
  | [_] => rfl
  | _ :: _ :: _ => simp [Res.returns]

theorem readFile_returns (fs : Fs) (p : Str) : (readFile fs p).returns = true := by
  unfold readFile
  split <;> rfl

theorem parseEndpoint_returns (o : Origin) (s : Str) : (parseEndpoint o s).returns = true := by
  unfold parseEndpoint
  repeat' split
  all_goals rfl

theorem decodeTls_returns (src : Src) (fs : Fs) (a : Args) (h : Str) (p : Nat) : (decodeTls src fs a h p).returns = true := by
  unfold decodeTls
  dsimp only
  split
  · refine returns_bind (single_returns _ _ _) fun _ => returns_bind (single_returns _ _ _) fun _ => returns_bind (single_returns _ _ _) fun _ =>
      returns_bind ?_ fun _ => rfl
    exact returns_bind (readFile_returns _ _) fun _ => returns_bind (readFile_returns _ _) fun _ => returns_bind (readFile_returns _ _) fun _ => rfl
  · rfl

theorem decodeEps_returns (src : Src) (fs : Fs) (eps : List Str) (a : Args) (t : Option Tcp) (u : Option Tls) :
    (decodeEps src fs eps a t u).returns = true := by
  induction eps generalizing a t u with
  | nil => rfl
  | cons e eps ih =>
    unfold decodeEps
    refine returns_bind (parseEndpoint_returns _ _) fun ⟨b, h, p⟩ => ?_
    dsimp only
    split
    · split
      · exact returns_bind (decodeTls_returns _ _ _ _ _) fun _ => ih _ _ _
      · rfl
    · split
      · exact ih _ _ _
      · rfl

theorem applyAndValidate_returns (src : Src) (fs : Fs) (a : Args) : (applyAndValidate src fs a).returns = true := by
  have hval : ∀ d, (validate src.origin d).returns = true := by
    intro d
    unfold validate
    split
    · rfl
    · dsimp only
      split
      · rfl
      · split <;> rfl
  refine returns_bind ?_ hval
  refine returns_bind ?_ fun ⟨a, d⟩ => returns_bind ?_ fun ⟨a, d⟩ => returns_bind ?_ fun ⟨a, d⟩ => returns_bind ?_ fun ⟨a, d⟩ => ?_
  · unfold decodeAuth
    dsimp only
    split
    · rfl
    · refine returns_bind ?_ fun _ => returns_bind (single_returns _ _ _) fun _ => returns_bind ?_ fun _ => rfl
      · unfold atMostOne
        split
        · rfl
        · exact returns_bind (single_returns _ _ _) fun _ => rfl
      · unfold decodePlugin
        split
        · rfl
        · refine returns_bind (single_returns _ _ _) fun _ => ?_
          split <;> rfl
  · unfold simple
    split
    · refine returns_bind ?_ fun _ => rfl
      refine returns_bind (single_returns _ _ _) fun _ => ?_
      split
      · rfl
      · split <;> rfl
    · rfl
  · unfold simple
    split
    · refine returns_bind ?_ fun _ => rfl
      refine returns_bind (single_returns _ _ _) fun _ => ?_
      split <;> rfl
    · rfl
  · unfold decodeEndpoints
    split
    · rfl
    · dsimp only
      split
      · rfl
      · exact returns_bind (decodeEps_returns _ _ _ _ _ _) fun _ => rfl
  · dsimp only
    split <;> rfl

/-- **C55, no panic.** Whatever the command line, the environment and the files are, the server gets a
configuration, a message or an error. -/
theorem C55_no_panic (fs : Fs) (yaml : Str → Option Decoded) (args : List Str) (env : Str → Var) : (check fs yaml args env).returns = true := by
  have hval : ∀ d, (validate .file d).returns = true := by
    intro d
    unfold validate
    split
    · rfl
    · dsimp only
      split
      · rfl
      · split <;> rfl
  unfold check
  refine returns_bind ?_ fun env => returns_bind ?_ fun r => ?_
  · refine returns_bind ?_ fun _ => rfl
    generalize envKeys = os
    induction os with
    | nil => rfl
    | cons o os ih =>
      unfold envLoop
      split
      · exact ih
      · rfl
      · exact returns_bind ih fun _ => rfl
  · unfold parseCli
    generalize args.drop 1 = ws
    have : ∀ (n : Nat) (ws : List Str) (a : Args), ws.length ≤ n → (cliLoop ws a).returns = true := by
      intro n
      induction n with
      | zero =>
        intro ws a hn
        have : ws = [] := List.eq_nil_of_length_eq_zero (by omega)
        subst this
        rfl
      | succ n ih =>
        intro ws a hn
        cases ws with
        | nil => rfl
        | cons w rest =>
          simp only [List.length_cons] at hn
          cases hc : classify w with
          | joined k v => rw [cliLoop_joined hc]; exact ih _ _ (by omega)
          | alone =>
            cases rest with
            | nil => rw [cliLoop.eq_def]; simp only [hc]; rfl
            | cons v rest => rw [cliLoop_alone hc]; exact ih _ _ (by simp only [List.length_cons] at hn; omega)
          | _ => rw [cliLoop.eq_def]; simp only [hc]; rfl
    exact this _ ws [] (Nat.le_refl _)
  · split
    · rfl
    · rfl
    · split
      · unfold checkFile
        split
        · split
          · rfl
          · rename_i hl
            split
            · exact absurd (by simp) hl
            · refine returns_bind (readFile_returns _ _) fun _ => ?_
              split
              · rfl
              · split
                · exact returns_bind (hval _) fun _ => rfl
                · exact returns_bind (readFile_returns _ _) fun _ => returns_bind (readFile_returns _ _) fun _ =>
                    returns_bind (readFile_returns _ _) fun _ => returns_bind (hval _) fun _ => rfl
        · rfl
      · split
        · rfl
        · exact returns_bind (applyAndValidate_returns _ _ _) fun _ => rfl
    · split
      · exact returns_bind (applyAndValidate_returns _ _ _) fun _ => rfl
      · rfl

/-! ### Cases and disagreements -/

/-- Files. -/
def exFs : Fs := fun p => if p = "c.pem".toList then some "CERT".toList else if p = "k.pem".toList then some "KEY".toList
  else if p = "p.txt".toList then some "PASS".toList else none

def noEnv : Str → Var := fun _ => .absent

/-- Settings with everything. -/
def exSettings : Settings :=
  { plugin := true, pass := "sixteen letters!".toList, mode := some .prod, window := some "0600".toList,
    tcp := some ⟨"127.0.0.1".toList, "2003".toList⟩,
    tls := some ⟨⟨"example.com".toList, "+2004".toList⟩, "c.pem".toList, "k.pem".toList, "p.txt".toList⟩ }

def exItems : List Item :=
  [⟨.ep, "tls@example.com:+2004".toList, true⟩, ⟨.keyPass, "p.txt".toList, false⟩, ⟨.pass, "sixteen letters!".toList, false⟩,
   ⟨.ep, "tcp@127.0.0.1:2003".toList, false⟩, ⟨.mode, "prod".toList, true⟩, ⟨.window, "0600".toList, true⟩,
   ⟨.cert, "c.pem".toList, true⟩, ⟨.plugin, "pwd".toList, false⟩, ⟨.key, "k.pem".toList, false⟩]

def exCfg : Cfg :=
  { endpoint := .multi ⟨"127.0.0.1".toList, 2003⟩ ⟨⟨"example.com".toList, 2004⟩, "CERT".toList, "KEY".toList, "PASS".toList⟩,
    mode := .prod, window := 600, pass := "sixteen letters!".toList }

theorem exSays : Says exSettings exItems := by
  intro o
  cases o <;> decide +kernel

theorem denotes_of {max n : Nat} {t : Str} (h : parseNum max t = some n) : Denotes max t n := parseNum_iff.1 h

theorem exMeans : Means exFs exSettings exCfg := by
  refine ⟨rfl, by decide, rfl, denotes_of (by decide +kernel), by decide, ⟨⟨rfl, denotes_of (by decide +kernel)⟩, ⟨rfl, denotes_of (by decide +kernel)⟩, ?_, ?_, ?_⟩⟩ <;> decide +kernel

/-- The theorem on the command line applies to a command line with everything. -/
example : check exFs (fun _ => none) ("skyd".toList :: exItems.flatMap Item.words) noEnv = .ok (.config exCfg) := by
  refine (C55_cli_partial exFs _ _ exItems noEnv exSettings exCfg exSays ?_ ⟨?_, ?_⟩ ?_ fun _ => rfl).2 exMeans
  · decide +kernel
  · intro x hx
    injection hx with hx
    subst hx
    exact ⟨by decide +kernel, by decide +kernel⟩
  · intro x hx
    injection hx with hx
    subst hx
    exact ⟨by decide +kernel, by decide +kernel⟩
  · decide +kernel

/-- The environment with everything, too. -/
def exEnv : Str → Var := fun k =>
  if k = "SKYDB_ENDPOINTS".toList then .val "tls@example.com:+2004,tcp@127.0.0.1:2003".toList
  else if k = "SKYDB_AUTH_PLUGIN".toList then .val "pwd".toList
  else if k = "SKYDB_AUTH_ROOT_PASSWORD".toList then .val "sixteen letters!".toList
  else if k = "SKYDB_TLS_CERT".toList then .val "c.pem".toList
  else if k = "SKYDB_TLS_KEY".toList then .val "k.pem".toList
  else if k = "SKYDB_TLS_PRIVATE_KEY_PASSWORD".toList then .val "p.txt".toList
  else if k = "SKYDB_RUN_MODE".toList then .val "prod".toList
  else if k = "SKYDB_SERVICE_WINDOW".toList then .val "0600".toList
  else .absent

example : check exFs (fun _ => none) ["skyd".toList] exEnv = .ok (.config exCfg) := by decide +kernel

/-- And an option that is not known, a missing value, and both command line and environment are refused. -/
example : check exFs (fun _ => none) ["skyd".toList, "--auth-root-password=sixteen letters!".toList, "--speed".toList, "9".toList] noEnv =
    .err (.unknownArgs .cli) := by decide +kernel
example : check exFs (fun _ => none) ["skyd".toList, "--auth-root-password".toList] noEnv =
    .err (.missingValue "--auth-root-password".toList) := by decide +kernel
example : check exFs (fun _ => none) ["skyd".toList, "--mode".toList, "dev".toList] (fun k => if k = "SKYDB_RUN_MODE".toList then .val "dev".toList else .absent) =
    .err .conflict := by decide +kernel

/-- A password with an equals sign. -/
def eqSettings : Settings := { pass := "letters=sixteen!".toList }

/-- **The code violates C55**: a value that contains `=` cannot be given as `--name=value`
(`config.rs:693-706` splits at every `=`). -/
theorem C55_equals_violated : ∃ items c, Says eqSettings items ∧ Means exFs eqSettings c ∧
    check exFs (fun _ => none) ("skyd".toList :: items.flatMap Item.words) noEnv = .err (.badFormat "--auth-root-password=letters=sixteen!".toList) := by
  refine ⟨[⟨.pass, "letters=sixteen!".toList, true⟩],
    { endpoint := .insecure ⟨"127.0.0.1".toList, 2003⟩, mode := .dev, window := 300, pass := "letters=sixteen!".toList }, ?_,
    ⟨rfl, by decide, rfl, rfl, by decide, rfl⟩, by decide +kernel⟩
  intro o
  cases o <;> decide +kernel

/-- A password with a comma. -/
def commaSettings : Settings := { pass := "letters, sixteen".toList }

/-- **The code violates C55**: a value that contains a comma cannot be given in the environment (`config.rs:765`
splits every variable), and the message blames another option. -/
theorem C55_comma_violated : ∃ env c, EnvSays commaSettings env ∧ Means exFs commaSettings c ∧
    check exFs (fun _ => none) ["skyd".toList] env = .err (.tooMany .env .plugin) := by
  refine ⟨fun k => if k = "SKYDB_AUTH_ROOT_PASSWORD".toList then .val "letters, sixteen".toList else .absent,
    { endpoint := .insecure ⟨"127.0.0.1".toList, 2003⟩, mode := .dev, window := 300, pass := "letters, sixteen".toList }, ?_,
    ⟨rfl, by decide, rfl, rfl, by decide, rfl⟩, by decide +kernel⟩
  intro o
  refine ⟨commaSettings.values o, List.Perm.refl _, ?_⟩
  cases o <;> decide +kernel

/-- An address of version 6. -/
def v6Settings : Settings := { pass := "sixteen letters!".toList, tcp := some ⟨"::1".toList, "2003".toList⟩ }
def v6Cfg : Cfg := { endpoint := .insecure ⟨"::1".toList, 2003⟩, mode := .dev, window := 300, pass := "sixteen letters!".toList }

def v6File : Decoded := { auth := some "sixteen letters!".toList, tcp := some ⟨"::1".toList, 2003⟩ }

/-- **The code violates C55**: a host with a colon, such as an address of version 6, is accepted from a file and
refused on the command line (`config.rs:446-449`). -/
theorem C55_ipv6_violated :
    (∃ yaml d, FileSays v6Settings d ∧ yaml "c.pem".toList = some d ∧
      check (fun _ => some "c.pem".toList) yaml ["skyd".toList, "--config".toList, "f".toList] noEnv = .ok (.config v6Cfg)) ∧
    ∃ items, Says v6Settings items ∧ Means exFs v6Settings v6Cfg ∧
      check exFs (fun _ => none) ("skyd".toList :: items.flatMap Item.words) noEnv = .err (.endpointSyntax .cli) := by
  refine ⟨⟨fun _ => some v6File, v6File, ⟨?_, rfl, ?_, ?_, ?_⟩, rfl, by decide +kernel⟩,
    [⟨.pass, "sixteen letters!".toList, false⟩, ⟨.ep, "tcp@::1:2003".toList, false⟩], ?_,
    ⟨rfl, by decide, rfl, rfl, by decide, ⟨rfl, denotes_of (by decide +kernel)⟩⟩, by decide +kernel⟩
  · rfl
  · exact trivial
  · exact ⟨rfl, denotes_of (by decide +kernel)⟩
  · exact trivial
  · intro o
    cases o <;> decide +kernel

/-- **The code violates C55**: a password of eight characters is accepted although "the root password must have
at least 16 characters": bytes are counted (`config.rs:962`). -/
theorem C55_short_password_violated : ∃ c, c.pass.length = 8 ∧
    check exFs (fun _ => none) ["skyd".toList, "--auth-root-password".toList, "éééééééé".toList] noEnv = .ok (.config c) :=
  ⟨{ endpoint := .insecure ⟨"127.0.0.1".toList, 2003⟩, mode := .dev, window := 300, pass := "éééééééé".toList }, by decide, by decide +kernel⟩

/-- Messages that name the wrong option or source: two root passwords are reported as too many values for the
plugin (`config.rs:542`), and missing files for TLS in the environment as an error of the command line
(`config.rs:496`). -/
theorem C55_messages_violated :
    check exFs (fun _ => none) ["skyd".toList, "--auth-root-password".toList, "a".toList, "--auth-root-password".toList, "b".toList] noEnv =
      .err (.tooMany .cli .plugin) ∧
    check exFs (fun _ => none) ["skyd".toList] (fun k => if k = "SKYDB_AUTH_ROOT_PASSWORD".toList then .val "sixteen letters!".toList
      else if k = "SKYDB_ENDPOINTS".toList then .val "tls@a:1".toList else .absent) = .err (.needTls .cli) := by
  constructor <;> decide +kernel

end Verif.Config

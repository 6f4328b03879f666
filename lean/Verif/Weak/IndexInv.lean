/-
What holds in every reachable state of the primary index under weak memory (C76). The newest words form the tree of C40
(`Shared`). For what threads and words know (`View`): what a walk from the root that respects the view finds of a key
is not older than the last change of the key in the view.
-/
import Verif.Weak.Index
import Verif.Trie.Conc.Steps
set_option linter.unusedSectionVars false
namespace Verif.Weak.Index
open Verif.Conc Verif.Trie Verif.Trie.Conc

variable {K V : Type} [DecidableEq K]

/-! ## Changes of one key -/

def isKey (c : Option (Option (Chg K V))) (k : K) : Bool :=
  match c with
  | some (some c) => opKey c.op = k
  | _ => false

/-- The number of the last exchange among the first `n` that was for the key. -/
def lastChg (chg : List (Option (Chg K V))) (k : K) : Nat → Nat
  | 0 => 0
  | n + 1 => if isKey chg[n]? k then n + 1 else lastChg chg k n

variable {chg : List (Option (Chg K V))} {k : K}

theorem lastChg_le : ∀ n, lastChg chg k n ≤ n
  | 0 => Nat.le_refl _
  | n + 1 => by
    simp only [lastChg]
    split
    · exact Nat.le_refl _
    · have := lastChg_le n; omega

theorem lastChg_mono {m : Nat} : ∀ {n}, m ≤ n → lastChg chg k m ≤ lastChg chg k n
  | 0, h => by
    have : m = 0 := by omega
    subst this; exact Nat.le_refl _
  | n + 1, h => by
    by_cases e : m = n + 1
    · subst e; exact Nat.le_refl _
    · have := lastChg_mono (m := m) (n := n) (by omega)
      have h2 := lastChg_le (chg := chg) (k := k) n
      simp only [lastChg]
      split <;> omega

theorem lastChg_append {x : List (Option (Chg K V))} : ∀ {n}, n ≤ chg.length → lastChg (chg ++ x) k n = lastChg chg k n
  | 0, _ => rfl
  | n + 1, h => by
    simp only [lastChg, lastChg_append (n := n) (by omega), List.getElem?_append_left (show n < chg.length by omega)]

theorem lastChg_fix : ∀ n, lastChg chg k (lastChg chg k n) = lastChg chg k n
  | 0 => rfl
  | n + 1 => by
    by_cases h : isKey chg[n]? k = true
    · simp [lastChg, h]
    · simp only [lastChg, h]; exact lastChg_fix n

theorem apply_other {m : K → Option V} {op : Op K V} (h : opKey op ≠ k) : (dict.apply m op).1 k = m k := by
  cases op with
  | insert k' v =>
    simp only [opKey] at h
    simp only [dict]
    split
    · rfl
    · simp [Ne.symm h]
  | upsert k' v => simp only [opKey] at h; simp [dict, Ne.symm h]
  | update k' v =>
    simp only [opKey] at h
    simp only [dict]
    split
    · simp [Ne.symm h]
    · rfl
  | delete k' => simp only [opKey] at h; simp [dict, Ne.symm h]
  | get k' => rfl

def mapStep (m : K → Option V) (c : Option (Chg K V)) : K → Option V :=
  match c with
  | some c => (dict.apply m c.op).1
  | none => m

theorem mapOf_append (x : Option (Chg K V)) : mapOf (chg ++ [x]) = mapStep (mapOf chg) x := by
  simp only [mapOf, List.foldl_append, List.foldl_cons, List.foldl_nil]
  cases x <;> rfl

theorem mapAt_append {x : List (Option (Chg K V))} {n : Nat} (h : n ≤ chg.length) : mapAt (chg ++ x) n = mapAt chg n := by
  simp only [mapAt]
  rw [List.take_append_of_le_length h]

theorem mapAt_all : mapAt chg chg.length = mapOf chg := by simp [mapAt]

theorem mapAt_all' (x : Option (Chg K V)) : mapAt (chg ++ [x]) (chg.length + 1) = mapOf (chg ++ [x]) := by
  rw [← mapAt_all (chg := chg ++ [x])]; simp

theorem mapAt_last : ∀ {n}, n ≤ chg.length → mapAt chg (lastChg chg k n) k = mapAt chg n k
  | 0, _ => rfl
  | n + 1, h => by
    simp only [lastChg]
    split
    · rfl
    · rename_i hk
      rw [mapAt_last (by omega)]
      have hn : n < chg.length := by omega
      have e : chg.take (n + 1) = chg.take n ++ [chg[n]] := by simp
      simp only [mapAt]
      rw [e, mapOf_append]
      simp only [List.getElem?_eq_getElem hn] at hk
      cases hc : chg[n] with
      | none => rfl
      | some c =>
        simp only [hc, isKey, decide_eq_true_eq] at hk
        exact (apply_other hk).symm

theorem lastChg_hit {x : Chg K V} (h : opKey x.op = k) : lastChg (chg ++ [some x]) k (chg.length + 1) = chg.length + 1 := by
  simp [lastChg, isKey, h]

theorem lastChg_miss {x : Option (Chg K V)} (h : ∀ c, x = some c → opKey c.op ≠ k) :
    lastChg (chg ++ [x]) k (chg.length + 1) = lastChg chg k chg.length := by
  have : isKey (chg ++ [x])[chg.length]? k = false := by
    simp only [List.getElem?_concat_length]
    cases x with
    | none => rfl
    | some c => simp [isKey, h c rfl]
  simp only [lastChg, this]
  exact lastChg_append (Nat.le_refl _)

/-! ## Walks -/

/-- The places that can be reached from the root by loads that respect the view. -/
inductive Walk (log : Slot → List (Msg K)) (v : View K) : Slot → Prop where
  | root : Walk log v .root
  | step {c : Slot} {j : Nat} {m : Msg K} {b : Addr} (i : Fin 16) : Walk log v c → v.at_ c ≤ j → (log c)[j]? = some m →
      m.w.p = .node b → Walk log v (.of b i)

def birth : List (Msg K) → Nat
  | [] => 0
  | m :: _ => m.time

theorem birth_eq {l : List (Msg K)} {m : Msg K} (h : l[0]? = some m) : birth l = m.time := by
  cases l with
  | nil => cases h
  | cons x l => cases h; rfl

variable {hash : K → UInt64} {s s' : St K V} {g g' : Gh} {v w : View K} {t : Tid}

/-- What has to be known to use the word. -/
structure Knows (hash : K → UInt64) (chg : List (Option (Chg K V))) (g : Gh) (v : View K) (σ : Slot) (m : Msg K) : Prop where
  ini : ∀ a, m.w.p = .leaf a ∨ m.w.p = .node a → v.ini a = true
  ev : m.w.p.term → ∀ k, OnP (hash k) (g.slot σ) → lastChg chg k m.time ≤ v.ev k

/-- The word at `d` is on the way of the key and tells about the place that is `n` levels down. -/
def Rel (hash : K → UInt64) (g : Gh) (k : K) (d : Slot) (p : Ptr) (n : Nat) : Prop :=
  OnP (hash k) (g.slot d) ∧ ((g.slot d).length = n ∨ (p.term ∧ (g.slot d).length ≤ n))

structure VOk (hash : K → UInt64) (s : St K V) (g : Gh) (v : View K) : Prop where
  at_ : ∀ σ, v.at_ σ ≤ (s.log σ).length - 1
  ini : ∀ a, v.ini a = true → s.mem.heap a ≠ none
  closed : ∀ b i m, v.ini b = true → (s.log (.of b i))[0]? = some m → Knows hash s.chg g v (.of b i) m
  lead : ∀ b i k d j m, v.ini b = true → s.log (.of b i) ≠ [] → OnP (hash k) (i :: g.path b) → Walk s.log v d → v.at_ d ≤ j →
    (s.log d)[j]? = some m → Rel hash g k d m.w.p ((g.path b).length + 1) → birth (s.log (.of b i)) ≤ m.time
  cov : ∀ k d j m, Walk s.log v d → v.at_ d ≤ j → (s.log d)[j]? = some m → m.w.p.term → OnP (hash k) (g.slot d) → v.ev k ≤ m.time
  ev : ∀ k, v.ev k ≤ s.chg.length ∧ lastChg s.chg k (v.ev k) = v.ev k

structure LOk (hash : K → UInt64) (s : St K V) (g : Gh) : Prop where
  sh : Shared hash s.mem g (mapOf s.chg)
  last : ∀ σ x, s.mem.load σ = some x → ∃ m, (s.log σ).getLast? = some m ∧ m.w = x
  noLog : ∀ σ, s.mem.load σ = none → s.log σ = []
  node : ∀ σ (j : Nat) (m : Msg K) c, (s.log σ)[j]? = some m → m.w.p = .node c → (∃ f, s.mem.heap c = some (.branch f)) ∧ g.path c = g.slot σ
  leaf : ∀ σ (j : Nat) (m : Msg K) a, (s.log σ)[j]? = some m → m.w.p = .leaf a → ∃ l, s.mem.heap a = some (.leaf l) ∧ LeafOk hash l (g.slot σ)
  val : ∀ σ (j : Nat) (m : Msg K) k, (s.log σ)[j]? = some m → m.w.p.term → OnP (hash k) (g.slot σ) → mapAt s.chg m.time k = s.mem.val m.w.p k
  time : ∀ σ (j : Nat) (m : Msg K), (s.log σ)[j]? = some m → m.time ≤ s.chg.length ∧ birth (s.log σ) ≤ m.time
  view : ∀ σ (j : Nat) (m : Msg K), (s.log σ)[j]? = some m → VOk hash s g m.view
  knows : ∀ σ (j : Nat) (m : Msg K), (s.log σ)[j]? = some m → σ = .root ∨ 0 < j → Knows hash s.chg g m.view σ m
  rootPend : ∀ (j : Nat) m, (s.log .root)[j]? = some m → m.w.pend = false
  loc : ∀ c p k d (j : Nat) (m : Msg K), s.mem.load c = some ⟨p, false⟩ → (s.log d)[j]? = some m → OnP (hash k) (g.slot c) →
    Rel hash g k d m.w.p (g.slot c).length → birth (s.log c) ≤ m.time → d = c
  live : ∀ σ (m : Msg K) k, g.Live σ → (s.log σ).getLast? = some m → m.w.p.term → OnP (hash k) (g.slot σ) →
    lastChg s.chg k m.time = lastChg s.chg k s.chg.length

/-- What a thread may use, in the terms of C40. -/
def gv (g : Gh) (v : View K) : Gh := ⟨fun a => if v.ini a then .live else .free, g.path⟩

theorem safe_gv {a : Addr} : Safe (gv g v) t a ↔ v.ini a = true := by
  simp only [Safe, gv]
  cases v.ini a <;> simp

theorem slot_gv (σ : Slot) : (gv g v).slot σ = g.slot σ := by cases σ <;> rfl

/-- `compress` knows the words that it has frozen. -/
def CzV (hash : K → UInt64) (s : St K V) (g : Gh) (v : View K) (c : Addr) (i : Nat) : Prop :=
  ∀ j : Fin 16, j.val < i → ∀ m, (s.log (.of c j)).getLast? = some m → Knows hash s.chg g v (.of c j) m

def CzsV (hash : K → UInt64) (s : St K V) (g : Gh) (v : View K) : Pc K V → Prop
  | .cz i x => CzV hash s g v x.c i
  | .czRead i _ x => CzV hash s g v x.c (i + 1)
  | _ => True

/-- The operation of `t` has had no effect. -/
def NoChg (s : St K V) (t : Tid) : Prop := ∀ (n : Nat) c, s.chg[n]? = some (some c) → c.t = t → c.num ≠ (s.thr t).num

structure Pend (hash : K → UInt64) (s : St K V) (g : Gh) (t : Tid) (op : Op K V) (v0 : View K) : Prop where
  job : (s.thr t).job = some (op, v0)
  ok : VOk hash s g v0
  le : ∀ σ, v0.at_ σ ≤ (s.thr t).view.at_ σ
  no : NoChg s t

/-- The answer of `op` is what it is at some moment `n`: not before what was known when it began, and not after what is
known now. -/
structure ReadAt (s : St K V) (t : Tid) (op : Op K V) (v0 : View K) (r : Option V) (n : Nat) : Prop where
  no : NoChg s t
  lo : v0.ev (opKey op) ≤ n
  hi : n ≤ (s.thr t).view.ev (opKey op)
  now : dict.apply (mapAt s.chg n) op = (mapAt s.chg n, r)

/-- `op` is change number `n`, and no other change is by this call. -/
structure ChangeAt (s : St K V) (t : Tid) (op : Op K V) (v0 : View K) (r : Option V) (n : Nat) : Prop where
  is : s.chg[n]? = some (some ⟨t, (s.thr t).num, op⟩)
  only : ∀ (n' : Nat) c, s.chg[n']? = some (some c) → c.t = t → c.num = (s.thr t).num → n' = n
  lo : v0.ev (opKey op) ≤ n
  hi : n < (s.thr t).view.ev (opKey op)
  ans : (dict.apply (mapAt s.chg n) op).2 = r

def Done (s : St K V) (t : Tid) (r : Option V) : Prop :=
  ∃ op v0, (s.thr t).job = some (op, v0) ∧ ((∃ n, ReadAt s t op v0 r n) ∨ ∃ n, ChangeAt s t op v0 r n)

/-- A list was found that has what the key was at some moment. -/
def Saw (s : St K V) (t : Tid) (k : K) (v0 : View K) (x : Option V) : Prop :=
  ∃ n, v0.ev k ≤ n ∧ n ≤ (s.thr t).view.ev k ∧ n ≤ s.chg.length ∧ mapAt s.chg n k = x

def KAbs (hash : K → UInt64) (s : St K V) (g : Gh) (t : Tid) : Kont K V → Prop
  | .patch m k v => ∃ v0, Pend hash s g t (opOf m k v) v0
  | .del k => ∃ v0, Pend hash s g t (.delete k) v0
  | .up _ r => Done s t r
  | .ret r => Done s t r

def WAbs (hash : K → UInt64) (s : St K V) (g : Gh) (t : Tid) : Pc K V → Prop
  | .idle => True
  | .ret r => Done s t r
  | .get k cur _ => ∃ v0, Pend hash s g t (.get k) v0 ∧ Walk s.log v0 cur
  | .getData k a => ∃ v0, Pend hash s g t (.get k) v0 ∧ Saw s t k v0 (s.mem.val (.leaf a) k)
  | .patch m k v _ cur _ => ∃ v0, Pend hash s g t (opOf m k v) v0 ∧ Walk s.log v0 cur
  | .patchNew m k v _ cur _ => (∃ v0, Pend hash s g t (opOf m k v) v0 ∧ Walk s.log v0 cur) ∧ m ≠ .refresh
  | .patchData m k v _ cur _ a =>
    ∃ v0, Pend hash s g t (opOf m k v) v0 ∧ Walk s.log v0 cur ∧ Saw s t k v0 (s.mem.val (.leaf a) k)
  | .patchSplit m k v _ cur _ _ _ => ∃ v0, Pend hash s g t (opOf m k v) v0 ∧ Walk s.log v0 cur
  | .patchPut m k v _ cur _ _ _ _ => ∃ v0, Pend hash s g t (opOf m k v) v0 ∧ Walk s.log v0 cur
  | .del k _ cur _ => ∃ v0, Pend hash s g t (.delete k) v0 ∧ Walk s.log v0 cur
  | .delData k _ cur _ _ => ∃ v0, Pend hash s g t (.delete k) v0 ∧ Walk s.log v0 cur
  | .delPut k _ cur _ _ _ _ => ∃ v0, Pend hash s g t (.delete k) v0 ∧ Walk s.log v0 cur
  | .count _ _ _ _ _ r => Done s t r
  | .cz _ x => KAbs hash s g t x.k
  | .czRead _ _ x => KAbs hash s g t x.k
  | .retire _ k => KAbs hash s g t k
  | .fault => False
  | .panic => False

structure TOk (hash : K → UInt64) (s : St K V) (g : Gh) (t : Tid) : Prop where
  view : VOk hash s g (s.thr t).view
  ok : PcOk hash s.mem (gv g (s.thr t).view) t (s.thr t).pc
  cz : CzsV hash s g (s.thr t).view (s.thr t).pc
  abs : WAbs hash s g t (s.thr t).pc
  num : ∀ (n : Nat) c, s.chg[n]? = some (some c) → c.t = t → c.num ≤ (s.thr t).num

structure Inv (hash : K → UInt64) (s : St K V) (g : Gh) : Prop where
  log : LOk hash s g
  thr : ∀ t, TOk hash s g t

/-! ## Simple facts -/

theorem Walk.anti {log : Slot → List (Msg K)} (h : ∀ σ, v.at_ σ ≤ w.at_ σ) {d : Slot} (hw : Walk log w d) : Walk log v d := by
  induction hw with
  | root => exact .root
  | step i _ h1 h2 h3 ih => exact .step i ih (Nat.le_trans (h _) h1) h2 h3

theorem Walk.log {log log' : Slot → List (Msg K)} (h : ∀ c (j : Nat) m, (log c)[j]? = some m → (log' c)[j]? = some m) {d : Slot}
    (hw : Walk log v d) : Walk log' v d := by
  induction hw with
  | root => exact .root
  | step i _ h1 h2 h3 ih => exact .step i ih h1 (h _ _ _ h2) h3

theorem Knows.mono {σ : Slot} {m : Msg K} (h : Knows hash chg g v σ m) (h1 : ∀ a, v.ini a = true → w.ini a = true)
    (h2 : ∀ k, v.ev k ≤ w.ev k) : Knows hash chg g w σ m :=
  ⟨fun a ha => h1 a (h.ini a ha), fun ht k ho => Nat.le_trans (h.ev ht k ho) (h2 k)⟩

theorem join_ini_l {a : Addr} (h : v.ini a = true) : (v.join w).ini a = true := by simp [View.join, h]
theorem join_ini_r {a : Addr} (h : w.ini a = true) : (v.join w).ini a = true := by simp [View.join, h]
theorem join_ev_l (k : K) : v.ev k ≤ (v.join w).ev k := Nat.le_max_left _ _
theorem join_ev_r (k : K) : w.ev k ≤ (v.join w).ev k := Nat.le_max_right _ _
theorem join_at_l (σ : Slot) : v.at_ σ ≤ (v.join w).at_ σ := Nat.le_max_left _ _
theorem join_at_r (σ : Slot) : w.at_ σ ≤ (v.join w).at_ σ := Nat.le_max_right _ _

theorem VOk.bot : VOk hash s g .bot where
  at_ _ := Nat.zero_le _
  ini a h := by cases h
  closed b i m h := by cases h
  lead b i k d j m h := by cases h
  cov _ _ _ _ _ _ _ _ _ := Nat.zero_le _
  ev k := ⟨Nat.zero_le _, rfl⟩

theorem VOk.join (hv : VOk hash s g v) (hw : VOk hash s g w) : VOk hash s g (v.join w) where
  at_ σ := by
    have := hv.at_ σ
    have := hw.at_ σ
    simp only [View.join]
    omega
  ini a h := by
    simp only [View.join, Bool.or_eq_true] at h
    exact h.elim (hv.ini a) (hw.ini a)
  closed b i m h hm := by
    simp only [View.join, Bool.or_eq_true] at h
    rcases h with h | h
    · exact (hv.closed b i m h hm).mono (fun _ => join_ini_l) join_ev_l
    · exact (hw.closed b i m h hm).mono (fun _ => join_ini_r) join_ev_r
  lead b i k d j m h h0 ho hd hj hm hr := by
    simp only [View.join, Bool.or_eq_true] at h
    rcases h with h | h
    · exact hv.lead b i k d j m h h0 ho (hd.anti join_at_l) (Nat.le_trans (join_at_l _) hj) hm hr
    · exact hw.lead b i k d j m h h0 ho (hd.anti join_at_r) (Nat.le_trans (join_at_r _) hj) hm hr
  cov k d j m hd hj hm ht ho := by
    have h1 := hv.cov k d j m (hd.anti join_at_l) (Nat.le_trans (join_at_l _) hj) hm ht ho
    have h2 := hw.cov k d j m (hd.anti join_at_r) (Nat.le_trans (join_at_r _) hj) hm ht ho
    exact Nat.max_le.2 ⟨h1, h2⟩
  ev k := by
    simp only [View.join]
    rcases Nat.le_total (v.ev k) (w.ev k) with h | h
    · rw [Nat.max_eq_right h]; exact hw.ev k
    · rw [Nat.max_eq_left h]; exact hv.ev k

theorem mark_at (v : View K) (σ : Slot) (i : Nat) (τ : Slot) : v.at_ τ ≤ (v.mark σ i).at_ τ := by
  simp only [View.mark]
  split
  · rename_i e; subst e; exact Nat.le_max_left _ _
  · exact Nat.le_refl _

theorem mark_self (v : View K) (σ : Slot) (i : Nat) : i ≤ (v.mark σ i).at_ σ := by
  simp only [View.mark, if_true]; exact Nat.le_max_right _ _

theorem VOk.mark (hv : VOk hash s g v) {σ : Slot} {i : Nat} (hi : i ≤ (s.log σ).length - 1) : VOk hash s g (v.mark σ i) where
  at_ τ := by
    simp only [View.mark]
    split
    · rename_i e; subst e; have := hv.at_ τ; omega
    · exact hv.at_ τ
  ini := hv.ini
  closed b i m h hm := (hv.closed b i m h hm).mono (fun _ h => h) (fun _ => Nat.le_refl _)
  lead b i k d j m h h0 ho hd hj hm hr :=
    hv.lead b i k d j m h h0 ho (hd.anti (mark_at v σ _)) (Nat.le_trans (mark_at v σ _ _) hj) hm hr
  cov k d j m hd hj hm ht ho := hv.cov k d j m (hd.anti (mark_at v σ _)) (Nat.le_trans (mark_at v σ _ _) hj) hm ht ho
  ev := hv.ev

theorem last_get {l : List (Msg K)} {m : Msg K} (h : l.getLast? = some m) : l[l.length - 1]? = some m := by
  rw [← h, List.getLast?_eq_getElem?]

theorem last_len {l : List (Msg K)} {m : Msg K} (h : l.getLast? = some m) : 0 < l.length := by
  cases l with
  | nil => cases h
  | cons => simp

theorem get_len {l : List (Msg K)} {m : Msg K} {j : Nat} (h : l[j]? = some m) : j < l.length :=
  (List.getElem?_eq_some_iff.1 h).1

/-- Words of places that are known can be used after an acquire. -/
theorem LOk.use (hl : LOk hash s g) {σ : Slot} {j : Nat} {m : Msg K} (hm : (s.log σ)[j]? = some m) (hv : VOk hash s g v)
    (hk : v.knows σ = true) : Knows hash s.chg g (v.join m.view) σ m := by
  cases σ with
  | root => exact (hl.knows _ _ _ hm (.inl rfl)).mono (fun _ => join_ini_r) join_ev_r
  | of b i =>
    cases j with
    | zero => exact (hv.closed b i m hk hm).mono (fun _ => join_ini_l) join_ev_l
    | succ j => exact (hl.knows _ _ _ hm (.inr (Nat.succ_pos j))).mono (fun _ => join_ini_r) join_ev_r

/-- A place with words is in memory. -/
theorem LOk.load_of_log (hl : LOk hash s g) {σ : Slot} {j : Nat} {m : Msg K} (hm : (s.log σ)[j]? = some m) : ∃ w, s.mem.load σ = some w := by
  cases h : s.mem.load σ with
  | none => rw [hl.noLog σ h] at hm; cases hm
  | some w => exact ⟨w, rfl⟩

theorem LOk.last_word (hl : LOk hash s g) {σ : Slot} {m : Msg K} (hm : (s.log σ).getLast? = some m) : s.mem.load σ = some m.w := by
  obtain ⟨w, hw⟩ := hl.load_of_log (last_get hm)
  obtain ⟨m', h1, h2⟩ := hl.last σ w hw
  rw [hm] at h1
  cases h1
  rw [hw, h2]

/-- A place that is not frozen is live. -/
theorem LOk.unfrozen (hl : LOk hash s g) {σ : Slot} {p : Ptr} (h : s.mem.load σ = some ⟨p, false⟩) : g.Live σ := by
  cases σ with
  | root => trivial
  | of b i =>
    obtain ⟨f, hf, hi⟩ := load_of h
    show g.st b = .live
    cases hb : g.st b with
    | live => rfl
    | free => rw [(hl.sh.free b).2 hb] at hf; cases hf
    | gone D => have := hl.sh.frozen b D f hb hf i; rw [hi] at this; cases this

/-- A walk passes every level. -/
theorem LOk.pass (hl : LOk hash s g) {d : Slot} (hw : Walk s.log v d) (ho : OnP (hash k) (g.slot d)) {n : Nat}
    (hn : n < (g.slot d).length) : ∃ c j m b, Walk s.log v c ∧ v.at_ c ≤ j ∧ (s.log c)[j]? = some m ∧ m.w.p = .node b ∧
      (g.slot c).length = n ∧ OnP (hash k) (g.slot c) := by
  induction hw with
  | root => simp [Gh.slot] at hn
  | @step c j m b i hc h1 h2 h3 ih =>
    have hp := (hl.node c j m b h2 h3).2
    simp only [Gh.slot] at ho hn
    have ho' : OnP (hash k) (g.slot c) := by rw [← hp]; exact ho.2
    by_cases e : n = (g.slot c).length
    · exact ⟨c, j, m, b, hc, h1, h2, h3, e.symm, ho'⟩
    · refine ih ho' ?_
      rw [hp] at hn
      simp only [List.length_cons] at hn
      omega

end Verif.Weak.Index

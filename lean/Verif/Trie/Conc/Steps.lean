/-
Every step of every thread keeps the invariant.
-/
import Verif.Trie.Conc.Moves
import Verif.Trie.Theorems
set_option linter.unusedSectionVars false
namespace Verif.Trie.Conc
open Verif.Conc
variable {K V : Type} [DecidableEq K]
variable {hash : K → UInt64} {s s' s1 : St K V} {g g' : Gh} {t : Tid} {a : Addr}
variable {e e' : ESt (K → Option V) (Op K V) (Option V)} {o : Option (Ev (Op K V) (Option V))}

theorem key_opOf (m : WMode) (k : K) (v : V) : key (opOf m k v) = k := by cases m <;> rfl

theorem list_of {l : List (K × V)} (h : s.heap a = some (.leaf l)) : s.list a = some l := by simp [St.list, h]

theorem kont_ok {k : Kont K V} (h : KontOk s g t k) : PcOk hash s g t (kontPc k) := by
  cases k with
  | patch m k v => exact ⟨⟨trivial, trivial, rfl⟩, fun x hx => (by cases hx), fun _ => rfl⟩
  | del k => exact ⟨⟨trivial, trivial, rfl⟩, fun x hx => (by cases hx), rfl⟩
  | ret r => trivial
  | up ls r =>
    cases ls with
    | nil => trivial
    | cons x ls =>
      obtain ⟨p, c⟩ := x
      exact ⟨h _ (List.mem_cons_self ..), fun y hy => h y (List.mem_cons_of_mem _ hy)⟩

theorem kont_abs {k : Kont K V} {b : EThr (Op K V) (Option V)} (h : KontAbs k b) : AbsOk s (kontPc k) b := by
  cases k with
  | patch m k v => exact h
  | del k => exact h
  | ret r => exact h
  | up ls r => cases ls <;> exact h

theorem kont_owns (k : Kont K V) : owns (kontPc k) = none := by
  cases k with
  | patch | del | ret => rfl
  | up ls r => cases ls <;> rfl

theorem kont_busy (k : Kont K V) : busy (kontPc k) = true := by
  cases k with
  | patch | del | ret => rfl
  | up ls r => cases ls <;> rfl

theorem cz0_ok {p : Slot} {c : Addr} {k : Kont K V} (h : LevOk s g t (p, c)) (hk : KontOk s g t k) :
    PcOk hash s g t (cz0 p c k) :=
  ⟨h, Nat.zero_le _, fun f _ j hj => by omega, fun _ j hj => by omega, fun _ h1 => by simp at h1, hk⟩

/-! ## Lookup -/

theorem step_get (hi : Inv hash s g e) {k : K} {cur : Slot} {h : UInt64} (hok : PcOk hash s g t (.get k cur h))
    (habs : AbsOk s (.get k cur h) (e.thr t)) (hpin : (s.thr t).pinned = true)
    (hg : goPc hash s t a (.get k cur h) = some (s', o)) : Good hash s g e s' o := by
  obtain ⟨hσ, ho, hh⟩ := hok
  obtain ⟨S, hS⟩ := habs
  obtain ⟨w, hw⟩ := hσ.load
  simp only [goPc, hw] at hg
  cases hp : w.p with
  | null =>
    simp only [hp, Option.some.injEq, Prod.mk.injEq] at hg
    obtain ⟨rfl, rfl⟩ := hg
    have := hi.readTerm hσ hw hS ho (by intro c hc; rw [hp] at hc; cases hc)
    rw [hp] at this
    exact hi.late hS hpin this.get
  | leaf b =>
    simp only [hp, Option.some.injEq, Prod.mk.injEq] at hg
    obtain ⟨rfl, rfl⟩ := hg
    have := hi.readTerm hσ hw hS ho (by intro c hc; rw [hp] at hc; cases hc)
    rw [hp] at this
    exact hi.stay t _ (fun _ => hpin) (hi.readLeaf hσ hw hp) rfl ⟨S, hS, this⟩
  | node b =>
    simp only [hp, Option.some.injEq, Prod.mk.injEq] at hg
    obtain ⟨rfl, rfl⟩ := hg
    obtain ⟨h1, h2, h3, h4, _⟩ := hi.down hσ hw hp ho
    have hh := hh (by omega)
    have hc : chunk h 0 = chunk (hash k) (LG * (g.slot cur).length) := by
      rw [hh, chunk_shift _ _ (by simp only [LG]; omega)]
    refine hi.stay t _ (fun _ => hpin) ?_ rfl ⟨S, hS⟩
    rw [hc]
    refine ⟨h1, h2, fun hlt => ?_⟩
    rw [h3] at hlt ⊢
    rw [hh]
    exact shift_shift _ _ 4 (by simp only [LG]; omega)

theorem step_getData (hi : Inv hash s g e) {k : K} {b : Addr} (hok : PcOk hash s g t (.getData k b))
    (habs : AbsOk s (.getData k b) (e.thr t)) (hpin : (s.thr t).pinned = true)
    (hg : goPc hash s t a (.getData k b) = some (s', o)) : Good hash s g e s' o := by
  obtain ⟨_, l, hl⟩ := hok
  obtain ⟨S, hS, hc⟩ := habs
  simp only [goPc, list_of hl, Option.some.injEq, Prod.mk.injEq] at hg
  obtain ⟨rfl, rfl⟩ := hg
  simp only [St.val, list_of hl] at hc
  exact hi.late hS hpin hc.get

/-! ## Writes -/

theorem step_patch (hi : Inv hash s g e) {m : WMode} {k : K} {v : V} {lvl : Nat} {cur : Slot} {par : Option Level}
    (hok : PcOk hash s g t (.patch m k v lvl cur par)) (habs : AbsOk s (.patch m k v lvl cur par) (e.thr t))
    (hpin : (s.thr t).pinned = true) (hg : goPc hash s t a (.patch m k v lvl cur par) = some (s', o)) :
    Good hash s g e s' o := by
  obtain ⟨hcur, hpar⟩ := hok
  obtain ⟨S, hS⟩ := habs
  obtain ⟨w, hw⟩ := hcur.slot.load
  simp only [goPc, hw] at hg
  by_cases hpe : w.pend = true
  · rw [if_pos hpe] at hg
    cases par with
    | none =>
      have := hpar.root rfl
      subst this
      simp only [St.load, Option.some.injEq] at hw
      rw [← hw, hi.sh.rootPend] at hpe
      cases hpe
    | some x =>
      obtain ⟨p, c⟩ := x
      simp only [Option.some.injEq, Prod.mk.injEq] at hg
      obtain ⟨rfl, rfl⟩ := hg
      exact hi.stay t _ (fun _ => hpin) (cz0_ok (hpar.ok _ rfl) trivial) rfl ⟨S, hS⟩
  · rw [if_neg hpe] at hg
    have hpe : w.pend = false := by simpa using hpe
    have ho : OnP (hash (key (opOf m k v))) (g.slot cur) := by rw [key_opOf]; exact hcur.on
    cases hp : w.p with
    | null =>
      simp only [hp] at hg
      split at hg
      · rename_i hm
        simp only [Option.some.injEq, Prod.mk.injEq] at hg
        obtain ⟨rfl, rfl⟩ := hg
        have := hi.readTerm hcur.slot hw hS ho (by intro c hc; rw [hp] at hc; cases hc)
        rw [hp] at this
        subst hm
        exact hi.late hS hpin this.refresh
      · rename_i hm
        simp only [Option.some.injEq, Prod.mk.injEq] at hg
        obtain ⟨rfl, rfl⟩ := hg
        exact hi.stay t _ (fun _ => hpin) ⟨hcur, hpar⟩ rfl ⟨⟨S, hS⟩, hm⟩
    | leaf b =>
      simp only [hp, Option.some.injEq, Prod.mk.injEq] at hg
      obtain ⟨rfl, rfl⟩ := hg
      have := hi.readTerm hcur.slot hw hS ho (by intro c hc; rw [hp] at hc; cases hc)
      rw [hp, key_opOf] at this
      exact hi.stay t _ (fun _ => hpin) ⟨⟨hcur, hpar⟩, hi.readLeafAt hcur.slot hw hp hpe⟩ rfl ⟨S, hS, this⟩
    | node b =>
      simp only [hp, Option.some.injEq, Prod.mk.injEq] at hg
      obtain ⟨rfl, rfl⟩ := hg
      obtain ⟨h1, h2, h3, h4, h5⟩ := hi.down hcur.slot hw hp hcur.on
      refine hi.stay t _ (fun _ => hpin) ?_ rfl ⟨S, hS⟩
      rw [hcur.lvl]
      exact ⟨⟨h1, h2, by rw [h3]; rfl⟩, fun x hx => (by cases hx; exact h5), fun h => (by cases h)⟩

/-- The writes of the indivisible map. -/
theorem apply_put {m : WMode} {k : K} {v : V} {q : K → Option V} (hf : q k ≠ none → m ≠ .fresh) (hr : q k = none → m ≠ .refresh) :
    dict.apply q (opOf m k v) = (fun x => if x = k then some v else q x, q k) := by
  cases hq : q k with
  | none =>
    have := hr hq
    cases m with
    | refresh => exact absurd rfl this
    | fresh | any => simp [dict, opOf, hq]
  | some x =>
    have := hf (by rw [hq]; simp)
    cases m with
    | fresh => exact absurd rfl this
    | refresh | any => simp [dict, opOf, hq]

theorem step_patchNew (hi : Inv hash s g e) {m : WMode} {k : K} {v : V} {lvl : Nat} {cur : Slot} {par : Option Level}
    (hok : PcOk hash s g t (.patchNew m k v lvl cur par)) (habs : AbsOk s (.patchNew m k v lvl cur par) (e.thr t))
    (hpin : (s.thr t).pinned = true) (hg : goPc hash s t a (.patchNew m k v lvl cur par) = some (s', o)) :
    Good hash s g e s' o := by
  obtain ⟨hcur, hpar⟩ := hok
  obtain ⟨⟨S, hS⟩, hm⟩ := habs
  obtain ⟨w, hw⟩ := hcur.slot.load
  simp only [goPc, hw] at hg
  by_cases hc : w = ⟨.null, false⟩
  · rw [if_pos hc] at hg
    subst hc
    have hlive := hi.sh.unfrozen hcur.slot hw
    split at hg
    · cases hg
    · rename_i hn
      simp only [Option.some.injEq, Prod.mk.injEq] at hg
      obtain ⟨rfl, rfl⟩ := hg
      have hval : ∀ k', OnP (hash k') (g.slot cur) → e.q k' = none := fun k' ho =>
        hi.sh.val cur _ k' hlive hw (by intro c hc; cases hc) ho
      have hap : dict.apply e.q (opOf m k v) = (fun x => if x = k then some v else e.q x, e.q k) :=
        apply_put (fun h => absurd (hval k hcur.on) h) (fun _ => hm)
      have hwr : WriteOk hash s (s.put (some (a, .leaf [(k, v)])) cur ⟨.leaf a, false⟩) g e.q
          (dict.apply e.q (opOf m k v)).1 cur .null (.leaf a) (some (a, .leaf [(k, v)])) none := by
        rw [hap]
        refine WriteOk.swap hlive hw (.inl ⟨rfl, rfl⟩) (l := [(k, v)]) (n := a)
          (.inr ⟨by simp, rfl, rfl, hn, ⟨by simp, by simp, fun x hx => ?_, fun _ => rfl⟩⟩) (fun k' ho => ?_) (fun k' ho => ?_)
        · simp only [List.mem_singleton] at hx
          subst hx; exact hcur.on
        · simp only [find, hval k' ho]
          by_cases hk : k' = k
          · simp [hk]
          · simp [hk, Ne.symm hk]
        · have : k' ≠ k := by rintro rfl; exact ho hcur.on
          simp [this]
      refine hi.writeLin hS hwr hpin trivial ?_ (fun _ h => by cases h)
      rw [hap]
      show EThr.done (e.q k) = .done none
      rw [hval k hcur.on]
  · rw [if_neg hc] at hg
    simp only [Option.some.injEq, Prod.mk.injEq] at hg
    obtain ⟨rfl, rfl⟩ := hg
    exact hi.stay t _ (fun _ => hpin) ⟨hcur, hpar⟩ rfl ⟨S, hS⟩

theorem step_patchData (hi : Inv hash s g e) {m : WMode} {k : K} {v : V} {lvl : Nat} {cur : Slot} {par : Option Level} {b : Addr}
    (hok : PcOk hash s g t (.patchData m k v lvl cur par b)) (habs : AbsOk s (.patchData m k v lvl cur par b) (e.thr t))
    (hpin : (s.thr t).pinned = true) (hg : goPc hash s t a (.patchData m k v lvl cur par b) = some (s', o)) :
    Good hash s g e s' o := by
  obtain ⟨⟨hcur, hpar⟩, hsafe, l, hl, hlok⟩ := hok
  obtain ⟨S, hS, hcov⟩ := habs
  simp only [St.val, list_of hl] at hcov
  simp only [goPc, list_of hl] at hg
  have hlen : (g.slot cur).length ≤ 16 := by
    cases cur with
    | root => simp [Gh.slot]
    | of c i =>
      obtain ⟨_, f, hf⟩ := hcur.slot
      have := hi.sh.depth c f hf
      simp only [Gh.slot, List.length_cons]
      omega
  cases l with
  | nil => exact absurd rfl hlok.ne
  | cons x l =>
    simp only at hg
    by_cases hc : x.1 ≠ k ∧ lvl < LG * HEIGHT
    · rw [if_pos hc] at hg
      have hlt : (g.slot cur).length < 16 := by
        have := hc.2
        rw [hcur.lvl] at this
        simp only [LG, HEIGHT] at this
        omega
      have hone : l = [] := by
        have := hlok.one hlt
        simpa using this
      subst hone
      split at hg
      · rename_i hm
        simp only [Option.some.injEq, Prod.mk.injEq] at hg
        obtain ⟨rfl, rfl⟩ := hg
        simp only [find, if_neg hc.1, Option.map_none] at hcov
        subst hm
        exact hi.late hS hpin hcov.refresh
      · simp only [Option.some.injEq, Prod.mk.injEq] at hg
        obtain ⟨rfl, rfl⟩ := hg
        exact hi.stay t _ (fun _ => hpin) ⟨⟨hcur, hpar⟩, hsafe, x, hl, hlok.on x (by simp), hlt, by rw [← hcur.lvl]⟩ rfl ⟨S, hS⟩
    · rw [if_neg hc] at hg
      cases hf : find (x :: l) k with
      | some y =>
        simp only [hf] at hg
        rw [hf] at hcov
        split at hg
        · rename_i hm
          simp only [Option.some.injEq, Prod.mk.injEq] at hg
          obtain ⟨rfl, rfl⟩ := hg
          subst hm
          exact hi.late hS hpin hcov.fresh
        · rename_i hm
          simp only [Option.some.injEq, Prod.mk.injEq] at hg
          obtain ⟨rfl, rfl⟩ := hg
          have hfw := find_without hlok.nodup k
          have hsub := without_sub (l := x :: l) (k := k)
          have hnk : k ∉ (without (x :: l) k).map (·.1) := by
            intro hk
            obtain ⟨z, hz, rfl⟩ := List.mem_map.1 hk
            have h1 := (find_mem (hlok.nodup.sublist (hsub.map _))).2 hz
            rw [hfw] at h1
            simp at h1
          refine hi.stay t _ (fun _ => hpin) ⟨⟨hcur, hpar⟩, hsafe, x :: l, hl, ⟨by simp, ?_, ?_, ?_⟩, ⟨by rw [hf]; rfl,
            fun _ => hm, fun h => (by cases h), fun k' => ?_⟩⟩ rfl ⟨S, hS⟩
          · rw [List.map_append, List.nodup_append]
            refine ⟨hlok.nodup.sublist (hsub.map _), by simp, fun z hz z' hz' => ?_⟩
            simp only [List.map_cons, List.map_nil, List.mem_singleton] at hz'
            subst hz'
            rintro rfl
            exact hnk hz
          · intro z hz
            rcases List.mem_append.1 hz with hz | hz
            · exact hlok.on z (hsub.subset hz)
            · simp only [List.mem_singleton] at hz
              subst hz; exact hcur.on
          · intro hlt
            have h1 := hlok.one hlt
            have h2 := without_length hf
            simp only [List.length_append, List.length_cons, List.length_nil] at *
            omega
          · rw [find_append, hfw]
            by_cases hk : k' = k
            · subst hk; simp [find]
            · simp only [if_neg hk, find, if_neg (Ne.symm hk), Option.or_none]
      | none =>
        simp only [hf] at hg
        rw [hf] at hcov
        split at hg
        · rename_i hm
          simp only [Option.some.injEq, Prod.mk.injEq] at hg
          obtain ⟨rfl, rfl⟩ := hg
          subst hm
          exact hi.late hS hpin hcov.refresh
        · rename_i hm
          simp only [Option.some.injEq, Prod.mk.injEq] at hg
          obtain ⟨rfl, rfl⟩ := hg
          have hne := find_none.1 hf
          refine hi.stay t _ (fun _ => hpin) ⟨⟨hcur, hpar⟩, hsafe, x :: l, hl, ⟨by simp, ?_, ?_, ?_⟩, ⟨by rw [hf]; rfl,
            fun h => absurd rfl h, fun _ => hm, fun k' => ?_⟩⟩ rfl ⟨S, hS⟩
          · rw [List.map_append, List.nodup_append]
            refine ⟨hlok.nodup, by simp, fun z hz z' hz' => ?_⟩
            simp only [List.map_cons, List.map_nil, List.mem_singleton] at hz'
            subst hz'
            rintro rfl
            obtain ⟨y, hy, hy'⟩ := List.mem_map.1 hz
            exact hne y hy hy'
          · intro z hz
            rcases List.mem_append.1 hz with hz | hz
            · exact hlok.on z hz
            · simp only [List.mem_singleton] at hz
              subst hz; exact hcur.on
          · intro hlt
            exfalso
            apply hc
            refine ⟨hne x (by simp), ?_⟩
            rw [hcur.lvl]
            simp only [LG, HEIGHT]
            omega
          · rw [find_append]
            by_cases hk : k' = k
            · subst hk; rw [hf]; simp [find]
            · simp only [if_neg hk, find, if_neg (Ne.symm hk), Option.or_none]

theorem step_patchSplit (hi : Inv hash s g e) {m : WMode} {k : K} {v : V} {lvl : Nat} {cur : Slot} {par : Option Level} {b : Addr}
    {i : Fin 16} (hok : PcOk hash s g t (.patchSplit m k v lvl cur par b i))
    (habs : AbsOk s (.patchSplit m k v lvl cur par b i) (e.thr t))
    (hpin : (s.thr t).pinned = true) (hg : goPc hash s t a (.patchSplit m k v lvl cur par b i) = some (s', o)) :
    Good hash s g e s' o := by
  obtain ⟨⟨hcur, hpar⟩, hsafe, x, hl, hx, hlt, hix⟩ := hok
  obtain ⟨S, hS⟩ := habs
  obtain ⟨w, hw⟩ := hcur.slot.load
  simp only [goPc, hw] at hg
  by_cases hc : w = ⟨.leaf b, false⟩
  · rw [if_pos hc] at hg
    subst hc
    have hlive := hi.sh.unfrozen hcur.slot hw
    split at hg
    · cases hg
    · rename_i hn
      simp only [Option.some.injEq, Prod.mk.injEq] at hg
      obtain ⟨rfl, rfl⟩ := hg
      have hwr := WriteOk.split hi.sh hlive hw hn hl hx hlt hix rfl
      have hk := hwr.keeps hi.sh ((hi.tok t).now hpin)
      exact hi.writeSame t hwr hpin ⟨hk.curOk hcur, hk.parOk hpar⟩ ⟨S, hS⟩ (fun _ h => by cases h)
  · rw [if_neg hc] at hg
    simp only [Option.some.injEq, Prod.mk.injEq] at hg
    obtain ⟨rfl, rfl⟩ := hg
    exact hi.stay t _ (fun _ => hpin) ⟨hcur, hpar⟩ rfl ⟨S, hS⟩

theorem step_patchPut (hi : Inv hash s g e) {m : WMode} {k : K} {v : V} {lvl : Nat} {cur : Slot} {par : Option Level} {b : Addr}
    {l : List (K × V)} {r : Option V} (hok : PcOk hash s g t (.patchPut m k v lvl cur par b l r))
    (habs : AbsOk s (.patchPut m k v lvl cur par b l r) (e.thr t))
    (hpin : (s.thr t).pinned = true) (hg : goPc hash s t a (.patchPut m k v lvl cur par b l r) = some (s', o)) :
    Good hash s g e s' o := by
  obtain ⟨⟨hcur, hpar⟩, hsafe, l0, hl, hlok, hput⟩ := hok
  obtain ⟨S, hS⟩ := habs
  obtain ⟨w, hw⟩ := hcur.slot.load
  simp only [goPc, hw] at hg
  by_cases hc : w = ⟨.leaf b, false⟩
  · rw [if_pos hc] at hg
    subst hc
    have hlive := hi.sh.unfrozen hcur.slot hw
    split at hg
    · cases hg
    · rename_i hn
      simp only [Option.some.injEq, Prod.mk.injEq] at hg
      obtain ⟨rfl, rfl⟩ := hg
      have hval : ∀ k', OnP (hash k') (g.slot cur) → e.q k' = (find l0 k').map (·.2) := by
        intro k' ho
        rw [hi.sh.val cur _ k' hlive hw (by intro c hc; cases hc) ho]
        simp only [St.val, list_of hl]
      have hr : e.q k = r := by rw [hval k hcur.on, hput.eq]
      have hap : dict.apply e.q (opOf m k v) = (fun x => if x = k then some v else e.q x, e.q k) :=
        apply_put (by rw [hr]; exact hput.fresh) (by rw [hr]; exact hput.refresh)
      have hwr : WriteOk hash s (s.put (some (a, .leaf l)) cur ⟨.leaf a, false⟩) g e.q
          (dict.apply e.q (opOf m k v)).1 cur (.leaf b) (.leaf a) (some (a, .leaf l)) (some b) := by
        rw [hap]
        refine WriteOk.swap hlive hw (.inr ⟨b, rfl, rfl⟩) (l := l) (n := a) (.inr ⟨hlok.ne, rfl, rfl, hn, hlok⟩)
          (fun k' ho => ?_) (fun k' ho => ?_)
        · simp only [hput.find k', hval k' ho]
        · have : k' ≠ k := by rintro rfl; exact ho hcur.on
          simp [this]
      refine hi.writeLin hS hwr hpin trivial ?_ (fun _ h => h)
      rw [hap]
      show EThr.done (e.q k) = .done r
      rw [hr]
  · rw [if_neg hc] at hg
    simp only [Option.some.injEq, Prod.mk.injEq] at hg
    obtain ⟨rfl, rfl⟩ := hg
    exact hi.stay t _ (fun _ => hpin) ⟨hcur, hpar⟩ rfl ⟨S, hS⟩

/-! ## Removal -/

theorem step_del (hi : Inv hash s g e) {k : K} {lvl : Nat} {cur : Slot} {levels : List Level}
    (hok : PcOk hash s g t (.del k lvl cur levels)) (habs : AbsOk s (.del k lvl cur levels) (e.thr t))
    (hpin : (s.thr t).pinned = true) (hg : goPc hash s t a (.del k lvl cur levels) = some (s', o)) :
    Good hash s g e s' o := by
  obtain ⟨hcur, hlvs, hlen⟩ := hok
  obtain ⟨S, hS⟩ := habs
  obtain ⟨w, hw⟩ := hcur.slot.load
  simp only [goPc, hw] at hg
  have hpend : w.pend = true → ∀ {r}, (match levels with
      | [] => some (s.at t .panic, none)
      | (p, c) :: _ => some (s.at t (cz0 p c (.del k)), none)) = some r → Good hash s g e r.1 r.2 := by
    intro hpe r hr
    cases levels with
    | nil =>
      cases cur with
      | of b i => simp [Gh.slot] at hlen
      | root =>
        simp only [St.load, Option.some.injEq] at hw
        rw [← hw, hi.sh.rootPend] at hpe
        cases hpe
    | cons x ls =>
      obtain ⟨p, c⟩ := x
      simp only [Option.some.injEq] at hr
      subst hr
      exact hi.stay t _ (fun _ => hpin) (cz0_ok (hlvs _ (List.mem_cons_self ..)) trivial) rfl ⟨S, hS⟩
  cases hp : w.p with
  | null =>
    simp only [hp, Option.some.injEq, Prod.mk.injEq] at hg
    obtain ⟨rfl, rfl⟩ := hg
    have := hi.readTerm hcur.slot hw hS hcur.on (by intro c hc; rw [hp] at hc; cases hc)
    rw [hp] at this
    exact hi.late hS hpin this.delete
  | leaf b =>
    simp only [hp] at hg
    by_cases hpe : w.pend = true
    · rw [if_pos hpe] at hg
      exact hpend hpe hg
    · rw [if_neg hpe] at hg
      simp only [Option.some.injEq, Prod.mk.injEq] at hg
      obtain ⟨rfl, rfl⟩ := hg
      exact hi.stay t _ (fun _ => hpin) ⟨⟨hcur, hlvs, hlen⟩, hi.readLeafAt hcur.slot hw hp (by simpa using hpe)⟩ rfl ⟨S, hS⟩
  | node b =>
    simp only [hp] at hg
    by_cases hpe : w.pend = true
    · rw [if_pos hpe] at hg
      exact hpend hpe hg
    · rw [if_neg hpe] at hg
      obtain ⟨h1, h2, h3, h4, h5⟩ := hi.down hcur.slot hw hp hcur.on
      rw [if_pos (by omega)] at hg
      simp only [Option.some.injEq, Prod.mk.injEq] at hg
      obtain ⟨rfl, rfl⟩ := hg
      refine hi.stay t _ (fun _ => hpin) ?_ rfl ⟨S, hS⟩
      rw [hcur.lvl]
      refine ⟨⟨h1, h2, by rw [h3]; rfl⟩, fun x hx => ?_, ?_⟩
      · rcases List.mem_cons.1 hx with rfl | hx
        · exact h5
        · exact hlvs x hx
      · rw [h3, List.length_cons, hlen]

theorem step_delData (hi : Inv hash s g e) {k : K} {lvl : Nat} {cur : Slot} {levels : List Level} {b : Addr}
    (hok : PcOk hash s g t (.delData k lvl cur levels b)) (habs : AbsOk s (.delData k lvl cur levels b) (e.thr t))
    (hpin : (s.thr t).pinned = true) (hg : goPc hash s t a (.delData k lvl cur levels b) = some (s', o)) :
    Good hash s g e s' o := by
  obtain ⟨hcur, hsafe, l, hl, hlok⟩ := hok
  obtain ⟨S, hS⟩ := habs
  simp only [goPc, list_of hl, Option.some.injEq, Prod.mk.injEq] at hg
  obtain ⟨rfl, rfl⟩ := hg
  have hsub : (l.filter fun x => x.1 ≠ k).Sublist l := List.filter_sublist ..
  refine hi.stay t _ (fun _ => hpin) ⟨hcur, hsafe, l, hl, fun hne => ⟨hne, hlok.nodup.sublist (hsub.map _),
    fun x hx => hlok.on x (hsub.subset hx), fun hlt => ?_⟩, ⟨by rw [findLast_eq hlok.nodup], fun k' => ?_⟩⟩ rfl ⟨S, hS⟩
  · have h1 := hlok.one hlt
    have h2 := hsub.length_le
    have h3 : 0 < (l.filter fun x => x.1 ≠ k).length := List.length_pos_iff.2 hne
    omega
  · rw [find_filter]
    by_cases hk : k' = k <;> simp [hk]

theorem apply_delete (q : K → Option V) (k : K) :
    (dict (K := K) (V := V)).apply q (.delete k) = (fun x => if x = k then none else q x, q k) := rfl

theorem step_delPut (hi : Inv hash s g e) {k : K} {lvl : Nat} {cur : Slot} {levels : List Level} {b : Addr}
    {l : List (K × V)} {r : Option V} (hok : PcOk hash s g t (.delPut k lvl cur levels b l r))
    (habs : AbsOk s (.delPut k lvl cur levels b l r) (e.thr t))
    (hpin : (s.thr t).pinned = true) (hg : goPc hash s t a (.delPut k lvl cur levels b l r) = some (s', o)) :
    Good hash s g e s' o := by
  obtain ⟨⟨hcur, hlvs, hlen⟩, hsafe, l0, hl, hlok, hcut⟩ := hok
  obtain ⟨S, hS⟩ := habs
  obtain ⟨w, hw⟩ := hcur.slot.load
  simp only [goPc, hw] at hg
  by_cases hc : w = ⟨.leaf b, false⟩
  · rw [if_pos hc] at hg
    subst hc
    have hlive := hi.sh.unfrozen hcur.slot hw
    have hval : ∀ k', OnP (hash k') (g.slot cur) → e.q k' = (find l0 k').map (·.2) := by
      intro k' ho
      rw [hi.sh.val cur _ k' hlive hw (by intro c hc; cases hc) ho]
      simp only [St.val, list_of hl]
    have hr : e.q k = r := by rw [hval k hcur.on, hcut.eq]
    have hv : ∀ k', OnP (hash k') (g.slot cur) →
        (dict.apply e.q (Op.delete k : Op K V)).1 k' = (find l k').map (·.2) := by
      intro k' ho
      simp only [apply_delete, hcut.find k', hval k' ho]
    have hv' : ∀ k', ¬ OnP (hash k') (g.slot cur) → (dict.apply e.q (Op.delete k : Op K V)).1 k' = e.q k' := by
      intro k' ho
      have : k' ≠ k := by rintro rfl; exact ho hcur.on
      simp [apply_delete, this]
    have habs : ∀ s1 : St K V, AbsOk s1 (.retire b (.up levels r)) (.done (dict.apply e.q (Op.delete k : Op K V)).2) := by
      intro s1
      show EThr.done (e.q k) = .done r
      rw [hr]
    cases l with
    | nil =>
      simp only [Option.some.injEq, Prod.mk.injEq] at hg
      obtain ⟨rfl, rfl⟩ := hg
      have hwr : WriteOk hash s (s.put none cur ⟨.null, false⟩) g e.q (dict.apply e.q (Op.delete k : Op K V)).1 cur (.leaf b) .null
          none (some b) := WriteOk.swap hlive hw (.inr ⟨b, rfl, rfl⟩) (l := []) (n := 0) (.inl ⟨rfl, rfl, rfl⟩) hv hv'
      have hk := hwr.keeps hi.sh ((hi.tok t).now hpin)
      exact hi.writeLin hS hwr hpin (pc := .retire b (.up levels r)) (hk.lvsOk hlvs) (habs _) (fun _ h => h)
    | cons x l =>
      simp only at hg
      split at hg
      · cases hg
      · rename_i hn
        simp only [Option.some.injEq, Prod.mk.injEq] at hg
        obtain ⟨rfl, rfl⟩ := hg
        have hwr : WriteOk hash s (s.put (some (a, .leaf (x :: l))) cur ⟨.leaf a, false⟩) g e.q
            (dict.apply e.q (Op.delete k : Op K V)).1 cur (.leaf b) (.leaf a) (some (a, .leaf (x :: l))) (some b) :=
          WriteOk.swap hlive hw (.inr ⟨b, rfl, rfl⟩) (l := x :: l) (n := a)
            (.inr ⟨by simp, rfl, rfl, hn, hlok (by simp)⟩) hv hv'
        have hk := hwr.keeps hi.sh ((hi.tok t).now hpin)
        exact hi.writeLin hS hwr hpin (pc := .retire b (.up levels r)) (hk.lvsOk hlvs) (habs _) (fun _ h => h)
  · rw [if_neg hc] at hg
    simp only [Option.some.injEq, Prod.mk.injEq] at hg
    obtain ⟨rfl, rfl⟩ := hg
    exact hi.stay t _ (fun _ => hpin) ⟨hcur, hlvs, hlen⟩ rfl ⟨S, hS⟩

theorem step_count (hi : Inv hash s g e) {levels : List Level} {p : Slot} {c : Addr} {i cnt : Nat} {r : Option V}
    (hok : PcOk hash s g t (.count levels p c i cnt r)) (habs : AbsOk s (.count levels p c i cnt r) (e.thr t))
    (hpin : (s.thr t).pinned = true) (hg : goPc hash s t a (.count levels p c i cnt r) = some (s', o)) :
    Good hash s g e s' o := by
  obtain ⟨hlev, hlvs⟩ := hok
  have habs : e.thr t = .done r := habs
  simp only [goPc] at hg
  split at hg
  · obtain ⟨f, hf⟩ := hlev.br
    simp only at hf
    simp only [St.load, hf, Option.some.injEq, Prod.mk.injEq] at hg
    obtain ⟨rfl, rfl⟩ := hg
    exact hi.stay t _ (fun _ => hpin) ⟨hlev, hlvs⟩ rfl habs
  · split at hg
    · simp only [Option.some.injEq, Prod.mk.injEq] at hg
      obtain ⟨rfl, rfl⟩ := hg
      exact hi.stay t _ (fun _ => hpin) trivial rfl habs
    · simp only [Option.some.injEq, Prod.mk.injEq] at hg
      obtain ⟨rfl, rfl⟩ := hg
      exact hi.stay t _ (fun _ => hpin) (cz0_ok hlev hlvs) rfl habs

/-! ## Compression -/

/-- What was found in the next pointer is recorded. -/
theorem CzOk.next {i : Nat} {x : Cz K V} (h : CzOk s g t i x) (hi : i < 16) {p : Ptr} {len : Nat}
    (hp : ∀ f, s.heap x.c = some (.branch f) → f ⟨i, hi⟩ = ⟨p, true⟩)
    (hl : ∀ b, p = .leaf b → Safe g t b ∧ ∃ l, s.heap b = some (.leaf l) ∧ l.length = len ∧ l ≠ []) :
    CzOk s g t (i + 1) (x.see ⟨i, hi⟩ p len) := by
  have hacc : ∀ j : Fin 16, (x.see ⟨i, hi⟩ p len).acc j = if j = ⟨i, hi⟩ then p else x.acc j := fun _ => rfl
  have hnei : ∀ j : Fin 16, j.val < i → j ≠ ⟨i, hi⟩ := by
    rintro j hj rfl
    simp at hj
  have hlt : ∀ j : Fin 16, j.val < i + 1 → j ≠ ⟨i, hi⟩ → j.val < i := by
    intro j hj hne
    have : j.val ≠ i := fun e => hne (Fin.ext e)
    omega
  refine ⟨h.lev, by omega, fun f hf j hj => ?_, fun hz j hj => ?_, fun hc h1 a ha => ?_, h.k⟩
  · rw [hacc]
    split
    · rename_i e
      subst e
      exact hp f hf
    · rename_i e
      exact h.acc f hf j (hlt j hj e)
  · rw [hacc]
    cases p with
    | null =>
      split
      · rfl
      · rename_i e
        exact h.zero hz j (hlt j hj e)
    | leaf b =>
      obtain ⟨_, l, _, h2, h3⟩ := hl b rfl
      have : 0 < l.length := List.length_pos_iff.2 h3
      have hz : x.cnt + len = 0 := hz
      omega
    | node b =>
      have hz : x.cnt + 1 = 0 := hz
      omega
  · cases p with
    | null =>
      obtain ⟨j, l, h2, h3, h4, h5⟩ := h.one hc h1 a ha
      refine ⟨j, l, by omega, by rw [hacc, if_neg (hnei j h2)]; exact h3, fun j' hj' hne => ?_, h5⟩
      rw [hacc]
      split
      · rfl
      · rename_i e
        exact h4 j' (hlt j' hj' e) hne
    | leaf b =>
      have hb : b = a := Option.some.inj ha
      subst hb
      obtain ⟨h2, l, h3, h4, h5⟩ := hl b rfl
      have h0 : 0 < l.length := List.length_pos_iff.2 h5
      have h1 : x.cnt + len = 1 := h1
      refine ⟨⟨i, hi⟩, l, by simp, by rw [hacc]; simp, fun j' hj' hne => ?_, h2, h3, by omega⟩
      rw [hacc, if_neg hne]
      exact h.zero (by omega) j' (hlt j' hj' hne)
    | node b =>
      have hc : false = true := hc
      cases hc

theorem step_cz (hi : Inv hash s g e) {i : Nat} {x : Cz K V} (hok : PcOk hash s g t (.cz i x)) (habs : AbsOk s (.cz i x) (e.thr t))
    (hpin : (s.thr t).pinned = true) (hg : goPc hash s t a (.cz i x) = some (s', o)) : Good hash s g e s' o := by
  replace hok : CzOk s g t i x := hok
  replace habs : KontAbs x.k (e.thr t) := habs
  obtain ⟨fc, hfc⟩ := hok.lev.br
  simp only at hfc
  simp only [goPc] at hg
  split at hg
  · rename_i hlt
    have hld : s.load (.of x.c ⟨i, hlt⟩) = some (fc ⟨i, hlt⟩) := by simp [St.load, hfc]
    simp only [hld] at hg
    have hkp : ∀ w : Word, w = fc ⟨i, hlt⟩ → Keeps s (s.store (.of x.c ⟨i, hlt⟩) ⟨w.p, true⟩) g g t := by
      intro w hw
      refine ⟨fun _ h => h, fun _ _ => rfl, fun b l _ h => store_leaf h _ _, fun b f _ h => ⟨_, store_branch h _ _, fun j hj => ?_⟩⟩
      by_cases he : Slot.of b j = .of x.c ⟨i, hlt⟩
      · simp only [he, if_true]
        cases he
        rw [hfc] at h
        cases h
        rw [hw]
        cases hx : fc ⟨i, hlt⟩ with | mk p q => rw [hx] at hj; simp only at hj; rw [hj]
      · simp only [he, if_false]
    have hnew : ∀ w : Word, w = fc ⟨i, hlt⟩ → ∀ f, (s.store (.of x.c ⟨i, hlt⟩) ⟨w.p, true⟩).heap x.c = some (.branch f) →
        f ⟨i, hlt⟩ = ⟨w.p, true⟩ := by
      intro w hw f hf
      rw [store_branch hfc] at hf
      cases hf
      simp
    cases hp : (fc ⟨i, hlt⟩).p with
    | leaf b =>
      simp only [hp, Option.some.injEq, Prod.mk.injEq] at hg
      obtain ⟨rfl, rfl⟩ := hg
      obtain ⟨h1, l, h2⟩ := hi.readLeaf (σ := .of x.c ⟨i, hlt⟩) ⟨hok.lev.safe, fc, hfc⟩ hld hp
      rw [← hp]
      have hk := hkp _ rfl
      refine hi.freeze hok.lev.safe hld hpin ?_ habs rfl
      refine ⟨hk.czOk hok, hk.safe _ h1, ⟨l, hk.leaf _ _ h1 h2⟩, hlt, fun f hf => ?_⟩
      rw [hnew _ rfl f hf, hp]
    | null =>
      simp only [hp, Option.some.injEq, Prod.mk.injEq] at hg
      obtain ⟨rfl, rfl⟩ := hg
      rw [← hp]
      have hk := hkp _ rfl
      refine hi.freeze hok.lev.safe hld hpin ?_ habs rfl
      exact (hk.czOk hok).next hlt (hnew _ rfl) (fun b hb => by rw [hp] at hb; cases hb)
    | node b =>
      simp only [hp, Option.some.injEq, Prod.mk.injEq] at hg
      obtain ⟨rfl, rfl⟩ := hg
      rw [← hp]
      have hk := hkp _ rfl
      refine hi.freeze hok.lev.safe hld hpin ?_ habs rfl
      exact (hk.czOk hok).next hlt (hnew _ rfl) (fun b hb => by rw [hp] at hb; cases hb)
  · rename_i hge
    have hi16 : i = 16 := by have := hok.le; omega
    subst hi16
    obtain ⟨w, hw⟩ := hok.lev.slot.load
    simp only at hw
    simp only [hw] at hg
    have hacc : ∀ j, fc j = ⟨x.acc j, true⟩ := fun j => hok.acc fc hfc j j.isLt
    by_cases hc : w = ⟨.node x.c, false⟩
    · rw [if_pos hc] at hg
      subst hc
      have hlive := hi.sh.unfrozen hok.lev.slot hw
      have hnow := (hi.tok t).now hpin
      cases hins : x.insert with
      | snode b =>
        simp only [hins, Option.some.injEq, Prod.mk.injEq] at hg
        obtain ⟨rfl, rfl⟩ := hg
        have : x.last = some b ∧ x.cont = true ∧ x.cnt = 1 := by
          simp only [Cz.insert] at hins
          split at hins
          · rename_i b' hb'
            split at hins
            · rename_i hcc
              cases hins
              exact ⟨hb', hcc⟩
            · cases hins
          · split at hins <;> cases hins
        obtain ⟨j, l, _, h2, h3, h4, h5, h6⟩ := hok.one this.2.1 this.2.2 b this.1
        have hwr := WriteOk.shrink hi.sh hlive hw hfc hacc (p' := .leaf b) (new := none)
          (.inr (.inl ⟨b, l, j, rfl, rfl, h2, fun j' hne => h3 j' j'.isLt hne, h5, h6⟩))
        exact hi.writeSame t hwr hpin (pc := .retire x.c x.k) ((hwr.keeps hi.sh hnow).kontOk hok.k) habs (fun _ h => h)
      | null =>
        simp only [hins, Option.some.injEq, Prod.mk.injEq] at hg
        obtain ⟨rfl, rfl⟩ := hg
        have hz : x.cnt = 0 := by
          simp only [Cz.insert] at hins
          split at hins
          · split at hins <;> cases hins
          · split at hins
            · assumption
            · cases hins
        have hwr := WriteOk.shrink hi.sh hlive hw hfc hacc (p' := .null) (new := none)
          (.inl ⟨rfl, rfl, fun j => hok.zero hz j j.isLt⟩)
        exact hi.writeSame t hwr hpin (pc := .retire x.c x.k) ((hwr.keeps hi.sh hnow).kontOk hok.k) habs (fun _ h => h)
      | restored =>
        simp only [hins] at hg
        split at hg
        · cases hg
        · rename_i hn
          simp only [Option.some.injEq, Prod.mk.injEq] at hg
          obtain ⟨rfl, rfl⟩ := hg
          have hwr := WriteOk.shrink hi.sh hlive hw hfc hacc (p' := .node a) (new := some (a, .branch fun j => ⟨x.acc j, false⟩))
            (.inr (.inr ⟨a, rfl, rfl, hn⟩))
          refine hi.writeSame t hwr hpin (pc := .retire x.c x.k.restored) ?_ ?_ (fun _ h => h)
          · have := (hwr.keeps hi.sh hnow).kontOk hok.k
            cases hk : x.k with
            | up ls r => trivial
            | patch | del | ret => rw [hk] at this; exact this
          · cases hk : x.k with
            | up ls r => rw [hk] at habs; exact habs
            | patch | del | ret => rw [hk] at habs; exact habs
    · rw [if_neg hc] at hg
      simp only [Option.some.injEq, Prod.mk.injEq] at hg
      obtain ⟨rfl, rfl⟩ := hg
      exact hi.stay t _ (fun _ => hpin) (kont_ok hok.k) (kont_owns _) (kont_abs habs)

theorem step_czRead (hi : Inv hash s g e) {i : Nat} {b : Addr} {x : Cz K V} (hok : PcOk hash s g t (.czRead i b x))
    (habs : AbsOk s (.czRead i b x) (e.thr t)) (hpin : (s.thr t).pinned = true)
    (hg : goPc hash s t a (.czRead i b x) = some (s', o)) : Good hash s g e s' o := by
  obtain ⟨h1, h2, ⟨l, h3⟩, hlt, h4⟩ := hok
  simp only [goPc, hlt, dite_true, list_of h3, Option.some.injEq, Prod.mk.injEq] at hg
  obtain ⟨rfl, rfl⟩ := hg
  refine hi.stay t _ (fun _ => hpin) (h1.next hlt h4 fun b' hb' => ?_) rfl habs
  cases hb'
  refine ⟨h2, l, h3, rfl, ?_⟩
  rintro rfl
  exact hi.sh.ne b h3

/-! ## Ends of operations -/

theorem step_ret (hi : Inv hash s g e) {r : Option V} (habs : AbsOk s (.ret r) (e.thr t))
    (hg : goPc hash s t a (.ret r) = some (s', o)) : Good hash s g e s' o := by
  have habs : e.thr t = .done r := habs
  simp only [goPc, Option.some.injEq, Prod.mk.injEq] at hg
  obtain ⟨rfl, rfl⟩ := hg
  have hk : ∀ u, Keeps s (s.at t .idle) g g u :=
    fun u => ⟨fun _ h => h, fun _ _ => rfl, fun _ _ _ h => h, fun _ f _ h => ⟨f, h, fun _ _ => rfl⟩⟩
  refine ⟨g, ⟨e.q, upd e.thr t .idle⟩, hi.move t (hi.sh.at t _) ⟨?_, ?_⟩ (fun u hu => by simp [St.at, hu]) (fun u _ _ => hk u)
    (fun u hu => by simp only [upd_other _ _ hu]; exact EMono.refl _) (fun _ _ h => h) (fun u _ a ha => (hi.tok u).own a ha)
    ?_ (fun u hu a ha => ?_), .inr (.ret habs), fun _ _ => rfl⟩
  · intro u op S r hu
    by_cases h : u = t
    · subst h; simp only [upd_same] at hu; cases hu
    · simp only [upd_other _ _ h] at hu; exact hi.seen.cur u op S r hu
  · intro u op S b' D f i hu
    by_cases h : u = t
    · subst h; simp only [upd_same] at hu; cases hu
    · simp only [upd_other _ _ h] at hu; exact hi.seen.gone u op S b' D f i hu
  · constructor
    · simp only [St.at, upd_same]; trivial
    · simp only [St.at, upd_same]; intro h; cases h
    · simp only [St.at, upd_same]; exact (hi.tok t).now
    · simp only [St.at, upd_same]; intro a ha; cases ha
    · simp only [St.at, upd_same]; rfl
  · simp only [St.at, upd_same] at ha; cases ha

theorem step_retire (hi : Inv hash s g e) {b : Addr} {k : Kont K V} (hpc : (s.thr t).pc = .retire b k)
    (hpin : (s.thr t).pinned = true) (hg : goPc hash s t a (.retire b k) = some (s', o)) : Good hash s g e s' o := by
  have ht := hi.tok t
  have hok := ht.ok
  have habs := ht.abs
  obtain ⟨⟨D, hD⟩, hnr⟩ := ht.own b (by rw [hpc]; rfl)
  rw [hpc] at hok habs
  simp only [goPc, Option.some.injEq, Prod.mk.injEq] at hg
  obtain ⟨rfl, rfl⟩ := hg
  have hk : ∀ u, Keeps s ({ s with retired := s.retired ++ [(b, s.pinnedNow)] }.at t (kontPc k)) g g u :=
    fun u => ⟨fun _ h => h, fun _ _ => rfl, fun _ _ _ h => h, fun _ f _ h => ⟨f, h, fun _ _ => rfl⟩⟩
  have hsh := hi.sh.at t (kontPc k)
  have hl : ∀ σ, ({ s with retired := s.retired ++ [(b, s.pinnedNow)] }.at t (kontPc k)).load σ = (s.at t (kontPc k)).load σ :=
    fun σ => by cases σ <;> rfl
  refine ⟨g, e, hi.move t ?_ ⟨hi.seen.cur, hi.seen.gone⟩ (fun u hu => by simp [St.at, hu]) (fun u _ _ => hk u)
    (fun _ _ => EMono.refl _) (fun _ _ h => h) (fun u hu c hc => ?_) ?_ (fun u hu c hc => ?_), .inl ⟨rfl, rfl⟩, fun _ _ => rfl⟩
  · refine ⟨hsh.rootPend, hsh.free, hsh.ne, hsh.depth, fun σ w c => by rw [hl]; exact hsh.node σ w c,
      fun σ w c => by rw [hl]; exact hsh.leaf σ w c, fun b f h1 h2 => ?_, hsh.uniq,
      fun σ w k => by rw [hl]; exact hsh.val σ w k, hsh.frozen, hsh.goneN, hsh.goneL, hsh.pinned, ?_, ?_⟩
    · obtain ⟨σ, w, h3⟩ := hsh.up b f h1 h2
      exact ⟨σ, w, by rw [hl]; exact h3⟩
    · intro c w hc
      have hc : (c, w) ∈ s.retired ++ [(b, s.pinnedNow)] := hc
      rcases List.mem_append.1 hc with hc | hc
      · exact hi.sh.ret c w hc
      · simp only [List.mem_singleton, Prod.mk.injEq] at hc
        obtain ⟨rfl, rfl⟩ := hc
        exact ⟨D, hD, fun u hu => hi.sh.pinned _ D u hD hu⟩
    · show ((s.retired ++ [(b, s.pinnedNow)]).map (·.1)).Nodup
      rw [List.map_append, List.nodup_append]
      refine ⟨hi.sh.nodup, by simp, fun x hx y hy => ?_⟩
      simp only [List.map_cons, List.map_nil, List.mem_singleton] at hy
      subst hy
      rintro rfl
      exact hnr hx
  · obtain ⟨h1, h2⟩ := (hi.tok u).own c hc
    refine ⟨h1, fun hx => ?_⟩
    have hx : c ∈ (s.retired ++ [(b, s.pinnedNow)]).map (·.1) := hx
    rw [List.map_append, List.mem_append] at hx
    rcases hx with hx | hx
    · exact h2 hx
    · simp only [List.map_cons, List.map_nil, List.mem_singleton] at hx
      subst hx
      exact hi.pair t u (Ne.symm hu) c (by rw [hpc]; rfl) hc
  · constructor
    · simp only [St.at, upd_same]; exact (hk t).pcOk (kont_ok hok)
    · simp only [St.at, upd_same]; exact fun _ => hpin
    · simp only [St.at, upd_same]; exact ht.now
    · simp only [St.at, upd_same, kont_owns]; intro a ha; cases ha
    · simp only [St.at, upd_same]; exact kont_abs habs
  · simp only [St.at, upd_same, kont_owns] at hc; cases hc

theorem step_go (hi : Inv hash s g e) (t : Tid) (a : Addr) (hg : goPc hash s t a (s.thr t).pc = some (s', o)) :
    Good hash s g e s' o := by
  have ht := hi.tok t
  have hok := ht.ok
  have habs := ht.abs
  have hpin := ht.pin
  cases hpc : (s.thr t).pc with
  | idle => rw [hpc] at hg; cases hg
  | fault => rw [hpc] at hg; cases hg
  | panic => rw [hpc] at hg; cases hg
  | ret r => rw [hpc] at hg habs; exact step_ret hi habs hg
  | retire b k => rw [hpc] at hg hpin; exact step_retire hi hpc (hpin rfl) hg
  | get => rw [hpc] at hg hok habs hpin; exact step_get hi hok habs (hpin rfl) hg
  | getData => rw [hpc] at hg hok habs hpin; exact step_getData hi hok habs (hpin rfl) hg
  | patch => rw [hpc] at hg hok habs hpin; exact step_patch hi hok habs (hpin rfl) hg
  | patchNew => rw [hpc] at hg hok habs hpin; exact step_patchNew hi hok habs (hpin rfl) hg
  | patchData => rw [hpc] at hg hok habs hpin; exact step_patchData hi hok habs (hpin rfl) hg
  | patchSplit => rw [hpc] at hg hok habs hpin; exact step_patchSplit hi hok habs (hpin rfl) hg
  | patchPut => rw [hpc] at hg hok habs hpin; exact step_patchPut hi hok habs (hpin rfl) hg
  | del => rw [hpc] at hg hok habs hpin; exact step_del hi hok habs (hpin rfl) hg
  | delData => rw [hpc] at hg hok habs hpin; exact step_delData hi hok habs (hpin rfl) hg
  | delPut => rw [hpc] at hg hok habs hpin; exact step_delPut hi hok habs (hpin rfl) hg
  | count => rw [hpc] at hg hok habs hpin; exact step_count hi hok habs (hpin rfl) hg
  | cz => rw [hpc] at hg hok habs hpin; exact step_cz hi hok habs (hpin rfl) hg
  | czRead => rw [hpc] at hg hok habs hpin; exact step_czRead hi hok habs (hpin rfl) hg

/-! ## Guards and memory -/

theorem step_pin (hi : Inv hash s g e) (t : Tid) :
    Good hash s g e { s with pinnedNow := t :: s.pinnedNow, thr := upd s.thr t ⟨true, (s.thr t).pc⟩ } none := by
  have hsh := hi.sh
  have hl : ∀ σ, St.load { s with pinnedNow := t :: s.pinnedNow, thr := upd s.thr t ⟨true, (s.thr t).pc⟩ } σ = s.load σ :=
    fun σ => by cases σ <;> rfl
  have hk : ∀ u, Keeps s { s with pinnedNow := t :: s.pinnedNow, thr := upd s.thr t ⟨true, (s.thr t).pc⟩ } g g u :=
    fun u => ⟨fun _ h => h, fun _ _ => rfl, fun _ _ _ h => h, fun _ f _ h => ⟨f, h, fun _ _ => rfl⟩⟩
  have ht := hi.tok t
  refine ⟨g, e, hi.move t ?_ ⟨hi.seen.cur, hi.seen.gone⟩ (fun u hu => by simp [hu]) (fun u _ _ => hk u)
    (fun _ _ => EMono.refl _) (fun _ _ h => List.mem_cons_of_mem _ h) (fun u _ c hc => (hi.tok u).own c hc) ?_
    (fun u hu c hc => ?_), .inl ⟨rfl, rfl⟩, fun _ _ => rfl⟩
  · refine ⟨hsh.rootPend, hsh.free, hsh.ne, hsh.depth, fun σ w c => by rw [hl]; exact hsh.node σ w c,
      fun σ w c => by rw [hl]; exact hsh.leaf σ w c, fun b f h1 h2 => ?_, hsh.uniq,
      fun σ w k => by rw [hl]; exact hsh.val σ w k, hsh.frozen, hsh.goneN, hsh.goneL,
      fun a D u h1 h2 => List.mem_cons_of_mem _ (hsh.pinned a D u h1 h2), hsh.ret, hsh.nodup⟩
    obtain ⟨σ, w, h3⟩ := hsh.up b f h1 h2
    exact ⟨σ, w, by rw [hl]; exact h3⟩
  · constructor
    · simp only [upd_same]; exact (hk t).pcOk ht.ok
    · simp only [upd_same]; exact fun _ => trivial
    · simp only [upd_same]; exact fun _ => List.mem_cons_self ..
    · simp only [upd_same]; exact ht.own
    · simp only [upd_same]; exact (hk t).absOk ht.ok (EMono.refl _) ht.abs
  · simp only [upd_same] at hc; exact hi.pair t u (Ne.symm hu) c hc

/-- Thread `t` no longer needs what was cut off. -/
def Gh.drop (g : Gh) (t : Tid) : Gh where
  st a := match g.st a with
    | .gone D => .gone (D.filter (· ≠ t))
    | x => x
  path := g.path

theorem drop_live {a : Addr} : (g.drop t).st a = .live ↔ g.st a = .live := by
  simp only [Gh.drop]
  cases g.st a <;> simp

theorem drop_free {a : Addr} : (g.drop t).st a = .free ↔ g.st a = .free := by
  simp only [Gh.drop]
  cases g.st a <;> simp

theorem drop_gone {a : Addr} {D' : List Tid} (h : (g.drop t).st a = .gone D') :
    ∃ D, g.st a = .gone D ∧ D' = D.filter (· ≠ t) := by
  simp only [Gh.drop] at h
  cases hs : g.st a with
  | free => rw [hs] at h; cases h
  | live => rw [hs] at h; cases h
  | gone D => rw [hs] at h; cases h; exact ⟨D, rfl, rfl⟩

theorem gone_drop {a : Addr} {D : List Tid} (h : g.st a = .gone D) : (g.drop t).st a = .gone (D.filter (· ≠ t)) := by
  simp only [Gh.drop, h]

theorem drop_safe {u : Tid} (hu : u ≠ t) {a : Addr} (h : Safe g u a) : Safe (g.drop t) u a := by
  rcases h with h | ⟨D, h, hD⟩
  · exact .inl (drop_live.2 h)
  · exact .inr ⟨_, gone_drop h, List.mem_filter.2 ⟨hD, by simpa using hu⟩⟩

theorem drop_Live {σ : Slot} : (g.drop t).Live σ ↔ g.Live σ := by
  cases σ with
  | root => exact Iff.rfl
  | of b i => exact drop_live

theorem drop_slot (σ : Slot) : (g.drop t).slot σ = g.slot σ := by cases σ <;> rfl

theorem Shared.drop {m : K → Option V} (h : Shared hash s g m) (t : Tid) : Shared hash s (g.drop t) m := by
  have hm : ∀ {u : Tid} {D : List Tid}, u ∈ D.filter (· ≠ t) → u ∈ D ∧ u ≠ t := by
    intro u D hu
    have := List.mem_filter.1 hu
    exact ⟨this.1, by simpa using this.2⟩
  refine ⟨h.rootPend, fun a => by rw [drop_free]; exact h.free a, h.ne, h.depth, ?_, ?_, ?_, ?_, ?_, ?_, ?_, ?_, ?_, ?_, h.nodup⟩
  · intro σ w c hσ hl hw
    obtain ⟨h1, h2, h3⟩ := h.node σ w c (drop_Live.1 hσ) hl hw
    exact ⟨drop_live.2 h1, by rw [drop_slot]; exact h2, h3⟩
  · intro σ w a hσ hl hw
    obtain ⟨h1, h2⟩ := h.leaf σ w a (drop_Live.1 hσ) hl hw
    exact ⟨drop_live.2 h1, by rw [drop_slot]; exact h2⟩
  · intro b f hb hf
    obtain ⟨σ, w, h1, h2⟩ := h.up b f (drop_live.1 hb) hf
    exact ⟨σ, w, drop_Live.2 h1, h2⟩
  · intro b b' f f' hb hb' hf hf' hp
    exact h.uniq b b' f f' (drop_live.1 hb) (drop_live.1 hb') hf hf' hp
  · intro σ w k hσ hl ht ho
    rw [drop_slot] at ho
    exact h.val σ w k (drop_Live.1 hσ) hl ht ho
  · intro b D f hb hf
    obtain ⟨D0, h1, _⟩ := drop_gone hb
    exact h.frozen b D0 f h1 hf
  · intro b D f u i c hb hf hu hc
    obtain ⟨D0, h1, rfl⟩ := drop_gone hb
    obtain ⟨h2, h3, h4⟩ := h.goneN b D0 f u i c h1 hf (hm hu).1 hc
    exact ⟨drop_safe (hm hu).2 h2, h3, h4⟩
  · intro b D f u i c hb hf hu hc
    obtain ⟨D0, h1, rfl⟩ := drop_gone hb
    obtain ⟨h2, h3⟩ := h.goneL b D0 f u i c h1 hf (hm hu).1 hc
    exact ⟨drop_safe (hm hu).2 h2, h3⟩
  · intro a D u ha hu
    obtain ⟨D0, h1, rfl⟩ := drop_gone ha
    exact h.pinned a D0 u h1 (hm hu).1
  · intro a w ha
    obtain ⟨D, h1, h2⟩ := h.ret a w ha
    exact ⟨_, gone_drop h1, fun u hu => h2 u (hm hu).1⟩

theorem step_unpin (hi : Inv hash s g e) (t : Tid) (hpc : (s.thr t).pc = .idle) :
    Good hash s g e { s with pinnedNow := s.pinnedNow.filter (· ≠ t)
                             retired := s.retired.map fun x => (x.1, x.2.filter (· ≠ t))
                             thr := upd s.thr t ⟨false, .idle⟩ } none := by
  have hsh := hi.sh.drop t
  have hl : ∀ σ, St.load { s with pinnedNow := s.pinnedNow.filter (· ≠ t)
                                  retired := s.retired.map fun x => (x.1, x.2.filter (· ≠ t))
                                  thr := upd s.thr t ⟨false, .idle⟩ } σ = s.load σ :=
    fun σ => by cases σ <;> rfl
  have hmap : (s.retired.map fun x => (x.1, x.2.filter (· ≠ t))).map (·.1) = s.retired.map (·.1) := by
    rw [List.map_map]; rfl
  have hab := (hi.tok t).abs
  rw [hpc] at hab
  refine ⟨g.drop t, e, hi.move t ?_ ⟨hi.seen.cur, ?_⟩ (fun u hu => by simp [hu]) (fun u hu _ => ?_)
    (fun _ _ => EMono.refl _) (fun u hu h => List.mem_filter.2 ⟨h, by simpa using hu⟩) (fun u _ c hc => ?_) ?_
    (fun u hu c hc => ?_), .inl ⟨rfl, rfl⟩, fun _ _ => rfl⟩
  · refine ⟨hsh.rootPend, hsh.free, hsh.ne, hsh.depth, fun σ w c => by rw [hl]; exact hsh.node σ w c,
      fun σ w c => by rw [hl]; exact hsh.leaf σ w c, fun b f h1 h2 => ?_, hsh.uniq,
      fun σ w k => by rw [hl]; exact hsh.val σ w k, hsh.frozen, hsh.goneN, hsh.goneL, ?_, ?_, ?_⟩
    · obtain ⟨σ, w, h3⟩ := hsh.up b f h1 h2
      exact ⟨σ, w, by rw [hl]; exact h3⟩
    · intro a D u ha hu
      obtain ⟨D0, h1, rfl⟩ := drop_gone ha
      have := List.mem_filter.1 hu
      exact List.mem_filter.2 ⟨hi.sh.pinned a D0 u h1 this.1, this.2⟩
    · intro a w ha
      obtain ⟨⟨a', w'⟩, h1, h2⟩ := List.mem_map.1 ha
      simp only [Prod.mk.injEq] at h2
      obtain ⟨rfl, rfl⟩ := h2
      obtain ⟨D, h3, h4⟩ := hi.sh.ret _ _ h1
      refine ⟨_, gone_drop h3, fun u hu => ?_⟩
      have := List.mem_filter.1 hu
      exact List.mem_filter.2 ⟨h4 u this.1, this.2⟩
    · show ((s.retired.map fun x => (x.1, x.2.filter (· ≠ t))).map (·.1)).Nodup
      rw [hmap]; exact hi.sh.nodup
  · intro u op S b D f i hu hb hD hf htm ho
    obtain ⟨D0, h1, rfl⟩ := drop_gone hb
    exact hi.seen.gone u op S b D0 f i hu h1 (List.mem_filter.1 hD).1 hf htm ho
  · exact ⟨fun a h => drop_safe hu h, fun _ _ => rfl, fun _ _ _ h => h, fun _ f _ h => ⟨f, h, fun _ _ => rfl⟩⟩
  · obtain ⟨⟨D, h1⟩, h2⟩ := (hi.tok u).own c hc
    refine ⟨⟨_, gone_drop h1⟩, ?_⟩
    show c ∉ (s.retired.map fun x => (x.1, x.2.filter (· ≠ t))).map (·.1)
    rw [hmap]; exact h2
  · constructor
    · simp only [upd_same]; trivial
    · simp only [upd_same]; intro h; cases h
    · simp only [upd_same]; intro h; cases h
    · simp only [upd_same]; intro a ha; cases ha
    · simp only [upd_same]; exact hab
  · simp only [upd_same] at hc; cases hc

theorem start_ok (op : Op K V) : PcOk hash s g t (startPc hash op) := by
  cases op with
  | insert k v => exact ⟨⟨trivial, trivial, rfl⟩, fun x hx => (by cases hx), fun _ => rfl⟩
  | upsert k v => exact ⟨⟨trivial, trivial, rfl⟩, fun x hx => (by cases hx), fun _ => rfl⟩
  | update k v => exact ⟨⟨trivial, trivial, rfl⟩, fun x hx => (by cases hx), fun _ => rfl⟩
  | delete k => exact ⟨⟨trivial, trivial, rfl⟩, fun x hx => (by cases hx), rfl⟩
  | get k => exact ⟨trivial, trivial, fun _ => by simp [Gh.slot]⟩

theorem start_abs (op : Op K V) (S : Option V → Prop) : AbsOk s (startPc hash op) (.pend op S) := by
  cases op <;> exact ⟨S, rfl⟩

theorem step_call (hi : Inv hash s g e) (t : Tid) (op : Op K V) (hpc : (s.thr t).pc = .idle) (hpin : (s.thr t).pinned = true) :
    Good hash s g e (s.at t (startPc hash op)) (some (.call t op)) := by
  have hab : e.thr t = .idle := by
    have := (hi.tok t).abs
    rw [hpc] at this; exact this
  have hown : owns (startPc hash op) = none := by cases op <;> rfl
  refine ⟨g.drop t, ⟨e.q, upd e.thr t (.pend op (now dict e.q op))⟩, hi.move t ((hi.sh.drop t).at t _) ⟨?_, ?_⟩
    (fun u hu => by simp [St.at, hu]) (fun u hu _ => ?_) (fun u hu => by simp only [upd_other _ _ hu]; exact EMono.refl _)
    (fun _ _ h => h) (fun u _ c hc => ?_) ?_ (fun u hu c hc => ?_), .inr (.call hab), fun _ _ => rfl⟩
  · intro u op' S r hu hn
    by_cases h : u = t
    · subst h
      simp only [upd_same] at hu
      cases hu
      exact hn
    · simp only [upd_other _ _ h] at hu; exact hi.seen.cur u op' S r hu hn
  · intro u op' S b D f i hu hb hD hf htm ho
    obtain ⟨D0, h1, rfl⟩ := drop_gone hb
    have hD := List.mem_filter.1 hD
    have hne : u ≠ t := by simpa using hD.2
    simp only [upd_other _ _ hne] at hu
    exact hi.seen.gone u op' S b D0 f i hu h1 hD.1 hf htm ho
  · exact ⟨fun a h => drop_safe hu h, fun _ _ => rfl, fun _ _ _ h => h, fun _ f _ h => ⟨f, h, fun _ _ => rfl⟩⟩
  · obtain ⟨⟨D, h1⟩, h2⟩ := (hi.tok u).own c hc
    exact ⟨⟨_, gone_drop h1⟩, h2⟩
  · constructor
    · simp only [St.at, upd_same]; exact start_ok op
    · simp only [St.at, upd_same]; exact fun _ => hpin
    · simp only [St.at, upd_same]; exact (hi.tok t).now
    · simp only [St.at, upd_same, hown]; intro a ha; cases ha
    · simp only [St.at, upd_same]; exact start_abs op _
  · simp only [St.at, upd_same, hown] at hc; cases hc

theorem nodup_eraseIdx {α β : Type} {f : α → β} : ∀ {l : List α} {n : Nat}, (l.map f).Nodup → ((l.eraseIdx n).map f).Nodup := by
  intro l n h
  exact h.sublist ((List.eraseIdx_sublist ..).map f)

theorem notMem_eraseIdx {α β : Type} {f : α → β} : ∀ {l : List α} {n : Nat} {x : α}, (l.map f).Nodup → l[n]? = some x →
    f x ∉ (l.eraseIdx n).map f
  | [], _, _, _, h => by simp at h
  | y :: l, 0, x, hn, h => by
    simp only [List.getElem?_cons_zero, Option.some.injEq] at h
    subst h
    simp only [List.map_cons, List.nodup_cons] at hn
    simpa using hn.1
  | y :: l, n + 1, x, hn, h => by
    simp only [List.getElem?_cons_succ] at h
    simp only [List.map_cons, List.nodup_cons] at hn
    simp only [List.eraseIdx_cons_succ, List.map_cons, List.mem_cons, not_or]
    refine ⟨fun he => hn.1 ?_, notMem_eraseIdx hn.2 h⟩
    rw [← he]
    exact List.mem_map_of_mem (List.mem_of_getElem? h)

theorem step_reclaim (hi : Inv hash s g e) {n : Nat} {c : Addr} (hn : s.retired[n]? = some (c, [])) :
    Good hash s g e { s with heap := setHeap s.heap c none, retired := s.retired.eraseIdx n } none := by
  have hsh := hi.sh
  have hmem := List.mem_of_getElem? hn
  obtain ⟨D, hD, hDw⟩ := hsh.ret c [] hmem
  have hD0 : ∀ u, u ∉ D := fun u hu => by simpa using hDw u hu
  let s1 : St K V := { s with heap := setHeap s.heap c none, retired := s.retired.eraseIdx n }
  let g1 : Gh := { g with st := fun a => if a = c then .free else g.st a }
  have hheap : ∀ a, a ≠ c → s1.heap a = s.heap a := fun a h => by simp [s1, setHeap, h]
  have hheapc : s1.heap c = none := by simp [s1, setHeap]
  have hst : ∀ a, a ≠ c → g1.st a = g.st a := fun a h => by simp [g1, h]
  have hstc : g1.st c = .free := by simp [g1]
  have hsafe : ∀ u a, Safe g u a → a ≠ c := by
    rintro u a h rfl
    rcases h with h | ⟨D', h, h'⟩
    · rw [hD] at h; cases h
    · rw [hD] at h; cases h; exact hD0 u h'
  have hsafe1 : ∀ u a, Safe g u a → Safe g1 u a := fun u a h => by
    simp only [Safe, hst a (hsafe u a h)]; exact h
  have hslot : ∀ σ, g1.slot σ = g.slot σ := fun σ => by cases σ <;> rfl
  have hlive : ∀ σ, g1.Live σ ↔ g.Live σ := by
    intro σ
    cases σ with
    | root => exact Iff.rfl
    | of b i =>
      by_cases hb : b = c
      · subst hb
        show g1.st b = .live ↔ g.st b = .live
        rw [hstc, hD]; simp
      · show g1.st b = .live ↔ g.st b = .live
        rw [hst b hb]
  have hload : ∀ σ, g.Live σ → s1.load σ = s.load σ := by
    intro σ hσ
    cases σ with
    | root => rfl
    | of b i =>
      have hσ : g.st b = .live := hσ
      have : b ≠ c := by rintro rfl; rw [hD] at hσ; cases hσ
      simp only [St.load, hheap b this]
  have hlst : ∀ a, g.st a = .live → a ≠ c := by
    rintro a h rfl
    rw [hD] at h; cases h
  have hval : ∀ a k, a ≠ c → s1.val (.leaf a) k = s.val (.leaf a) k := by
    intro a k h
    simp only [St.val, St.list, hheap a h]
  have hgone : ∀ b D' , g1.st b = .gone D' → b ≠ c ∧ g.st b = .gone D' := by
    intro b D' h
    have hb : b ≠ c := by rintro rfl; rw [hstc] at h; cases h
    rw [hst b hb] at h
    exact ⟨hb, h⟩
  have hsome : ∀ b x, s1.heap b = some x → b ≠ c ∧ s.heap b = some x := by
    intro b x h
    have hb : b ≠ c := by rintro rfl; rw [hheapc] at h; cases h
    rw [hheap b hb] at h
    exact ⟨hb, h⟩
  have hS : Shared hash s1 g1 e.q := by
    refine ⟨hsh.rootPend, ?_, ?_, ?_, ?_, ?_, ?_, ?_, ?_, ?_, ?_, ?_, ?_, ?_, nodup_eraseIdx hsh.nodup⟩
    · intro a
      by_cases h : a = c
      · subst h; rw [hheapc, hstc]; simp
      · rw [hheap a h, hst a h]; exact hsh.free a
    · intro a ha
      exact hsh.ne a (hsome a _ ha).2
    · intro b f hb
      exact hsh.depth b f (hsome b _ hb).2
    · intro σ w a hσ hl hw
      have hσ := (hlive σ).1 hσ
      rw [hload σ hσ] at hl
      obtain ⟨h1, h2, f, h3⟩ := hsh.node σ w a hσ hl hw
      exact ⟨by rw [hst a (hlst a h1)]; exact h1, by rw [hslot]; exact h2, f, by rw [hheap a (hlst a h1)]; exact h3⟩
    · intro σ w a hσ hl hw
      have hσ := (hlive σ).1 hσ
      rw [hload σ hσ] at hl
      obtain ⟨h1, l, h2, h3⟩ := hsh.leaf σ w a hσ hl hw
      exact ⟨by rw [hst a (hlst a h1)]; exact h1, l, by rw [hheap a (hlst a h1)]; exact h2, by rw [hslot]; exact h3⟩
    · intro b f hb hf
      obtain ⟨hbc, hf⟩ := hsome b _ hf
      rw [hst b hbc] at hb
      obtain ⟨σ, w, h1, h2, h3⟩ := hsh.up b f hb hf
      exact ⟨σ, w, (hlive σ).2 h1, by rw [hload σ h1]; exact h2, h3⟩
    · intro b b' f f' hb hb' hf hf' hp
      obtain ⟨hbc, hf⟩ := hsome b _ hf
      obtain ⟨hbc', hf'⟩ := hsome b' _ hf'
      rw [hst b hbc] at hb
      rw [hst b' hbc'] at hb'
      exact hsh.uniq b b' f f' hb hb' hf hf' hp
    · intro σ w k hσ hl ht ho
      have hσ := (hlive σ).1 hσ
      rw [hload σ hσ] at hl
      rw [hslot] at ho
      rw [hsh.val σ w k hσ hl ht ho]
      obtain ⟨p, q⟩ := w
      cases p with
      | null => rfl
      | node c => rfl
      | leaf a =>
        obtain ⟨h1, _⟩ := hsh.leaf σ _ a hσ hl rfl
        exact (hval a k (hlst a h1)).symm
    · intro b D' f hb hf
      exact hsh.frozen b D' f (hgone b D' hb).2 (hsome b _ hf).2
    · intro b D' f u i a hb hf hu ha
      obtain ⟨h1, h2, f', h3⟩ := hsh.goneN b D' f u i a (hgone b D' hb).2 (hsome b _ hf).2 hu ha
      exact ⟨hsafe1 u a h1, h2, f', by rw [hheap a (hsafe u a h1)]; exact h3⟩
    · intro b D' f u i a hb hf hu ha
      obtain ⟨h1, l, h3⟩ := hsh.goneL b D' f u i a (hgone b D' hb).2 (hsome b _ hf).2 hu ha
      exact ⟨hsafe1 u a h1, l, by rw [hheap a (hsafe u a h1)]; exact h3⟩
    · intro a D' u ha hu
      exact hsh.pinned a D' u (hgone a D' ha).2 hu
    · intro a w ha
      obtain ⟨D', h1, h2⟩ := hsh.ret a w ((List.eraseIdx_sublist ..).subset ha)
      have hac : a ≠ c := by
        rintro rfl
        exact notMem_eraseIdx (f := fun x : Addr × List Tid => x.1) hsh.nodup hn
          (List.mem_map.2 ⟨(a, w), ha, rfl⟩)
      exact ⟨D', by rw [hst a hac]; exact h1, h2⟩
  have hk : ∀ u, Keeps s s1 g g1 u := fun u =>
    ⟨fun a h => hsafe1 u a h, fun _ _ => rfl, fun a l h hl => by rw [hheap a (hsafe u a h)]; exact hl,
      fun b f h hb => ⟨f, by rw [hheap b (hsafe u b h)]; exact hb, fun _ _ => rfl⟩⟩
  have hown : ∀ u a, owns (s.thr u).pc = some a → (∃ D, g1.st a = .gone D) ∧ a ∉ s1.retired.map (·.1) := by
    intro u a ha
    obtain ⟨⟨D', h1⟩, h2⟩ := (hi.tok u).own a ha
    have hac : a ≠ c := by
      rintro rfl
      exact h2 (List.mem_map_of_mem hmem)
    exact ⟨⟨D', by rw [hst a hac]; exact h1⟩,
      fun hx => h2 (((List.eraseIdx_sublist ..).map _).subset hx)⟩
  refine ⟨g1, e, ⟨hS, ⟨hi.seen.cur, ?_⟩, fun u => (hi.tok u).mono rfl (fun _ => hk u) (EMono.refl _) (fun h => h) (hown u),
    hi.pair⟩, .inl ⟨rfl, rfl⟩, fun _ _ => rfl⟩
  intro u op S b D' f i hu hb hD' hf htm ho
  have hb' := (hgone b D' hb).2
  have hf' := (hsome b _ hf).2
  have := hi.seen.gone u op S b D' f i hu hb' hD' hf' htm ho
  cases hp : (f i).p with
  | null => rw [hp] at this; exact this
  | node c => rw [hp] at this; exact this
  | leaf a =>
    rw [hp] at this
    obtain ⟨h1, _⟩ := hsh.goneL b D' f u i a hb' hf' hD' hp
    show Covers S op (s1.val (.leaf a) (key op))
    rw [hval a _ (hsafe u a h1)]
    exact this

/-- Every step of the schedule. -/
theorem step (hi : Inv hash s g e) {x : Act K V} (hx : exec hash s x = some (s', o)) : Good hash s g e s' o := by
  cases x with
  | pin t =>
    simp only [exec] at hx
    split at hx
    · cases hx
    · simp only [Option.some.injEq, Prod.mk.injEq] at hx
      obtain ⟨rfl, rfl⟩ := hx
      exact step_pin hi t
  | unpin t =>
    simp only [exec] at hx
    split at hx
    · rename_i hpc
      split at hx
      · simp only [Option.some.injEq, Prod.mk.injEq] at hx
        obtain ⟨rfl, rfl⟩ := hx
        exact step_unpin hi t hpc
      · cases hx
    · cases hx
  | call t op =>
    simp only [exec] at hx
    split at hx
    · rename_i hpc
      split at hx
      · rename_i hpin
        simp only [Option.some.injEq, Prod.mk.injEq] at hx
        obtain ⟨rfl, rfl⟩ := hx
        exact step_call hi t op hpc hpin
      · cases hx
    · cases hx
  | go t a => exact step_go hi t a hx
  | reclaim n =>
    simp only [exec] at hx
    split at hx
    · rename_i c hc
      simp only [Option.some.injEq, Prod.mk.injEq] at hx
      obtain ⟨rfl, rfl⟩ := hx
      exact step_reclaim hi hc
    · cases hx

end Verif.Trie.Conc

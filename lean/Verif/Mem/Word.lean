/-!
C70, first part: the words that values are kept in (`mem/mod.rs:53-77`, `mem/word.rs`), on machines with pointers of 32 and of 64
bits. Paths are relative to `/repo/server/src/engine`.

A machine word is a natural number here; `as usize` and `as u64` are the remainders. Little endian is assumed where a quad is split
(`transmute` of a `u64`, `word.rs:34-47`).
-/
namespace Verif.Mem

/-! ### Model -/

/-- The pointer width of the target. -/
inductive Width where
  | w32 | w64
  deriving DecidableEq, Repr

/-- The number of values of `usize`. -/
def Width.size : Width → Nat
  | .w32 => 2 ^ 32
  | .w64 => 2 ^ 64

/-- `quadsplit` and `quadmerge` (`word.rs:34-47`). -/
def quadsplit (q : Nat) : Nat × Nat := (q % 2 ^ 32, q / 2 ^ 32 % 2 ^ 32)
def quadmerge (v : Nat × Nat) : Nat := v.1 % 2 ^ 32 + 2 ^ 32 * (v.2 % 2 ^ 32)

/-- `ZERO_BLOCK.as_ptr()`: some address that is not null, of an array without elements. -/
def ZERO_BLOCK : Nat := 1

/-- `NativeDword`, `NativeTword`, `NativeQword` and `SpecialPaddedWord` (`mem/mod.rs:53-65`). -/
structure Dword where
  w0 : Nat
  w1 : Nat
  deriving DecidableEq, Repr
structure Tword where
  w0 : Nat
  w1 : Nat
  w2 : Nat
  deriving DecidableEq, Repr
structure Qword where
  w0 : Nat
  w1 : Nat
  w2 : Nat
  w3 : Nat
  deriving DecidableEq, Repr
structure Padded where
  a : Nat
  b : Nat
  deriving DecidableEq, Repr

/-- `DwordNN` (`word.rs:61-88`): two native words, or a quad. -/
class NN (W : Type) where
  storeFull : Width → Nat → Nat → W
  storeQw : Width → Nat → W
  loadFull : Width → W → Nat × Nat
  loadQw : Width → W → Nat

/-- `DwordQN` (`word.rs:90-103`): a quad and a native word. `overQw` is `overridable_dwordnn_store_qw`. -/
class QN (W : Type) where
  storeQn : Width → Nat → Nat → W
  loadQn : Width → W → Nat × Nat
  overQw : Width → Nat → W

/-- `TwordNNN` (`word.rs:165-174`). -/
class NNN (W : Type) where
  store3 : Nat → Nat → Nat → W
  load3 : W → Nat × Nat × Nat

/-- `QwordNNNN` (`word.rs:226-277`). -/
class NNNN (W : Type) where
  store4 : Nat → Nat → Nat → Nat → W
  load4 : W → Nat × Nat × Nat × Nat

/-- `NativeQword` (`word.rs:297-304`). -/
instance : NNNN Qword where
  store4 a b c d := ⟨a, b, c, d⟩
  load4 q := (q.w0, q.w1, q.w2, q.w3)

/-- `impl<T: QwordNNNN> TwordNNN for T` (`word.rs:283-291`). -/
instance [NNNN W] : NNN W where
  store3 a b c := NNNN.store4 a b c 0
  load3 q := let (a, b, c, _) := NNNN.load4 q; (a, b, c)

/-- `NativeTword` (`word.rs:210-217`). -/
instance : NNN Tword where
  store3 a b c := ⟨a, b, c⟩
  load3 t := (t.w0, t.w1, t.w2)

/-- `impl<T: TwordNNN> DwordQN for T` (`word.rs:180-204`), with the default of `word.rs:95-97`. -/
instance [NNN W] : QN W where
  storeQn w a b :=
    match w with
    | .w32 => NNN.store3 (quadsplit a).1 (quadsplit a).2 b
    | .w64 => NNN.store3 (a % 2 ^ 64) b 0
  loadQn w x :=
    let (p, q, r) := NNN.load3 x
    match w with
    | .w32 => (quadmerge (p, q), r)
    | .w64 => (p, q)
  overQw w a :=
    match w with
    | .w32 => NNN.store3 (quadsplit a).1 (quadsplit a).2 0
    | .w64 => NNN.store3 (a % 2 ^ 64) 0 0

/-- `SpecialPaddedWord` (`word.rs:139-156`). -/
instance : QN Padded where
  storeQn _ a b := ⟨a, b⟩
  loadQn _ p := (p.a, p.b)
  overQw _ a := ⟨a, ZERO_BLOCK⟩

/-- `impl<T: DwordQN> DwordNN for T` (`word.rs:109-124`). -/
instance [QN W] : NN W where
  storeFull w a b := QN.storeQn w a b
  storeQw w a := QN.overQw w a
  loadFull w x := ((QN.loadQn w x).1 % w.size, (QN.loadQn w x).2)
  loadQw w x := (QN.loadQn w x).1

/-- `NativeDword` (`word.rs:130-137`), with the defaults of `word.rs:64-87`. -/
instance : NN Dword where
  storeFull _ a b := ⟨a, b⟩
  storeQw w a :=
    match w with
    | .w32 => ⟨(quadsplit a).1, (quadsplit a).2⟩
    | .w64 => ⟨a % 2 ^ 64, 0⟩
  loadFull _ x := (x.w0, x.w1)
  loadQw w x :=
    match w with
    | .w32 => quadmerge (x.w0, x.w1)
    | .w64 => x.w0

/-- `dwordqn_promote` (`word.rs:99-102`). -/
def promote {V W : Type} [QN V] [QN W] (w : Width) (x : V) : W :=
  QN.storeQn w (QN.loadQn w x).1 (QN.loadQn w x).2

/-- `tword_promote` (`word.rs:170-173`). -/
def promote3 {V W : Type} [NNN V] [NNN W] (x : V) : W :=
  let (a, b, c) := NNN.load3 x
  NNN.store3 a b c

/-- `qwordnnnn_store_qw_qw` and `qwordnnnn_load_qw_qw` (`word.rs:229-240, 253-264`). -/
def storeQq [NNNN W] (w : Width) (a b : Nat) : W :=
  match w with
  | .w32 => NNNN.store4 (quadsplit a).1 (quadsplit a).2 (quadsplit b).1 (quadsplit b).2
  | .w64 => NNNN.store4 (a % 2 ^ 64) (b % 2 ^ 64) 0 0
def loadQq [NNNN W] (w : Width) (x : W) : Nat × Nat :=
  let (a, b, c, d) := NNNN.load4 x
  match w with
  | .w32 => (quadmerge (a, b), quadmerge (c, d))
  | .w64 => (a, b)

/-- `qwordnnnn_store_qw_nw_nw` and `qwordnnnn_load_qw_nw_nw` (`word.rs:241-251, 265-276`). -/
def storeQnn [NNNN W] (w : Width) (a b c : Nat) : W :=
  match w with
  | .w32 => NNNN.store4 (quadsplit a).1 (quadsplit a).2 b c
  | .w64 => NNNN.store4 (a % 2 ^ 64) b c 0
def loadQnn [NNNN W] (w : Width) (x : W) : Nat × Nat × Nat :=
  let (a, b, c, d) := NNNN.load4 x
  match w with
  | .w32 => (quadmerge (a, b), c, d)
  | .w64 => (a, b, c)

/-- `WordIO` for the unsigned types and for the bits of floats (`word.rs:310-319, 330-339`). -/
def storeUint [NN W] {k : Nat} (w : Width) (v : BitVec k) : W := NN.storeQw w (v.setWidth 64).toNat
def loadUint [NN W] (k : Nat) (w : Width) (x : W) : BitVec k := BitVec.ofNat k (NN.loadQw w x)

/-- `WordIO` for the signed types: `as u64` extends the sign, and the way back cuts off. -/
def storeSint [NN W] {k : Nat} (w : Width) (v : BitVec k) : W := NN.storeQw w (v.signExtend 64).toNat
def loadSint [NN W] (k : Nat) (w : Width) (x : W) : BitVec k := BitVec.ofNat k (NN.loadQw w x)

/-- `WordIO` for `bool` (`word.rs:321-328`). -/
def storeBool [NN W] (w : Width) (v : Bool) : W := NN.storeQw w (if v then 1 else 0)
def loadBool [NN W] (w : Width) (x : W) : Bool := NN.loadQw w x = 1

/-! ### Theorems -/

theorem quadmerge_split {q : Nat} (h : q < 2 ^ 64) : quadmerge (quadsplit q) = q := by
  simp only [quadmerge, quadsplit]
  omega

/-- The two parts of a quad are words of 32 bits. -/
theorem C70_split_fits (q : Nat) : (quadsplit q).1 < 2 ^ 32 ∧ (quadsplit q).2 < 2 ^ 32 := by
  simp only [quadsplit]
  omega

/-- What is needed from a word: quads and pairs of native words come back. -/
structure NN.Good (W : Type) [NN W] : Prop where
  qw : ∀ (w : Width) (a : Nat), a < 2 ^ 64 → NN.loadQw w (NN.storeQw w a : W) = a
  full : ∀ (w : Width) (a b : Nat), a < w.size → b < w.size → NN.loadFull w (NN.storeFull w a b : W) = (a, b)

theorem size_le (w : Width) : w.size ≤ 2 ^ 64 := by cases w <;> decide

/-- Quads with a native word come back from all three kinds of words that can hold them. -/
structure QN.Good (W : Type) [QN W] : Prop where
  qn : ∀ (w : Width) (a b : Nat), a < 2 ^ 64 → QN.loadQn w (QN.storeQn w a b : W) = (a, b)
  over : ∀ (w : Width) (a : Nat), a < 2 ^ 64 → (QN.loadQn w (QN.overQw w a : W)).1 = a

theorem good_padded : QN.Good Padded := ⟨fun _ _ _ _ => rfl, fun _ _ _ => rfl⟩

theorem good_tword : QN.Good Tword := by
  refine ⟨fun w a b h => ?_, fun w a h => ?_⟩ <;> cases w <;> simp only [QN.loadQn, QN.storeQn, QN.overQw, NNN.load3, NNN.store3]
  · rw [quadmerge_split h]
  · rw [Nat.mod_eq_of_lt h]
  · rw [quadmerge_split h]
  · rw [Nat.mod_eq_of_lt h]

theorem good_qword : QN.Good Qword := by
  refine ⟨fun w a b h => ?_, fun w a h => ?_⟩ <;> cases w <;>
    simp only [QN.loadQn, QN.storeQn, QN.overQw, NNN.load3, NNN.store3, NNNN.load4, NNNN.store4]
  · rw [quadmerge_split h]
  · rw [Nat.mod_eq_of_lt h]
  · rw [quadmerge_split h]
  · rw [Nat.mod_eq_of_lt h]

theorem QN.Good.nn {W : Type} [QN W] (g : QN.Good W) : NN.Good W := by
  refine ⟨fun w a h => g.over w a h, fun w a b ha hb => ?_⟩
  simp only [NN.loadFull, NN.storeFull]
  rw [g.qn w a b (Nat.lt_of_lt_of_le ha (size_le w)), Nat.mod_eq_of_lt ha]

theorem good_dword : NN.Good Dword := by
  refine ⟨fun w a h => ?_, fun _ _ _ _ _ => rfl⟩
  cases w <;> simp only [NN.loadQw, NN.storeQw]
  · rw [quadmerge_split h]
  · rw [Nat.mod_eq_of_lt h]

/-- **C70, words.** In every kind of word, on both kinds of machines: integers of every width up to 64 bits, signed or not, the bits of
floats, booleans, and pairs of a length and a pointer are loaded as they were stored. -/
theorem C70_words (W : Type) [NN W] (g : NN.Good W) (w : Width) :
    (∀ {k : Nat} (v : BitVec k), k ≤ 64 → loadUint k w (storeUint w v : W) = v) ∧
    (∀ {k : Nat} (v : BitVec k), k ≤ 64 → loadSint k w (storeSint w v : W) = v) ∧
    (∀ v : Bool, loadBool w (storeBool w v : W) = v) ∧
    (∀ a b : Nat, a < w.size → b < w.size → NN.loadFull w (NN.storeFull w a b : W) = (a, b)) := by
  refine ⟨fun v hk => ?_, fun v hk => ?_, fun v => ?_, g.full w⟩
  · rw [loadUint, storeUint, g.qw w _ (BitVec.isLt _), BitVec.ofNat_toNat]
    exact BitVec.setWidth_setWidth_of_le _ hk |>.trans (BitVec.setWidth_eq _)
  · rw [loadSint, storeSint, g.qw w _ (BitVec.isLt _), BitVec.ofNat_toNat]
    ext i hi
    rw [BitVec.getElem_setWidth, BitVec.getLsbD_signExtend]
    simp [hi, show i < 64 from by omega]
  · rw [loadBool, storeBool, g.qw w _ (by cases v <;> decide)]
    cases v <;> decide

/-- **C70, words.** All four kinds of words keep what is stored. -/
theorem C70_all_words : NN.Good Dword ∧ NN.Good Tword ∧ NN.Good Qword ∧ NN.Good Padded :=
  ⟨good_dword, good_tword.nn, good_qword.nn, good_padded.nn⟩

/-- **C70, promotions.** A word that is made wider, or padded, holds the same quad and native word; a quad that was stored is loaded with
any of the loads. -/
theorem C70_promotions {V W : Type} [QN V] [QN W] (gv : QN.Good V) (gw : QN.Good W) (w : Width) {a b : Nat} (h : a < 2 ^ 64) :
    QN.loadQn w (promote w (QN.storeQn w a b : V) : W) = (a, b) ∧
    NN.loadQw w (promote w (NN.storeQw w a : V) : W) = a ∧
    (a < w.size → NN.loadFull w (promote w (QN.storeQn w a b : V) : W) = (a, b)) := by
  refine ⟨?_, ?_, fun ha => ?_⟩
  · rw [promote, gv.qn w a b h, gw.qn w a b h]
  · simp only [NN.loadQw, NN.storeQw, promote]
    rw [gv.over w a h, gw.qn w a _ h]
  · simp only [NN.loadFull, promote]
    rw [gv.qn w a b h, gw.qn w a b h, Nat.mod_eq_of_lt ha]

/-- Wide words: three native words, two quads, a quad and two native words. -/
theorem C70_wide_words (w : Width) {a b : Nat} (ha : a < 2 ^ 64) (c d : Nat) :
    (NNN.load3 (promote3 (NNN.store3 c d b : Tword) : Qword) = (c, d, b)) ∧
    (b < 2 ^ 64 → loadQq w (storeQq w a b : Qword) = (a, b)) ∧
    loadQnn w (storeQnn w a c d : Qword) = (a, c, d) := by
  refine ⟨rfl, fun hb => ?_, ?_⟩ <;> cases w <;> simp only [loadQq, storeQq, loadQnn, storeQnn, NNNN.load4, NNNN.store4]
  · rw [quadmerge_split ha, quadmerge_split hb]
  · rw [Nat.mod_eq_of_lt ha, Nat.mod_eq_of_lt hb]
  · rw [quadmerge_split ha]
  · rw [Nat.mod_eq_of_lt ha]

/-- On a machine with 32 bits the largest quad takes two of the four words. -/
example : (QN.storeQn .w32 (2 ^ 64 - 2) 7 : Qword) = ⟨2 ^ 32 - 2, 2 ^ 32 - 1, 7, 0⟩ ∧
    loadSint 8 .w32 (storeSint .w32 (BitVec.ofInt 8 (-3)) : Padded) = BitVec.ofInt 8 (-3) ∧
    (storeSint .w64 (BitVec.ofInt 8 (-3)) : Padded) = ⟨2 ^ 64 - 3, ZERO_BLOCK⟩ := by decide

/-- Words that are not used are zero. -/
example : (storeQnn .w64 5 6 7 : Qword) = ⟨5, 6, 7, 0⟩ ∧ (storeQnn .w32 (2 ^ 33 + 5) 6 7 : Qword) = ⟨5, 2, 6, 7⟩ ∧
    (storeQq .w64 5 6 : Qword) = ⟨5, 6, 0, 0⟩ ∧ (storeQq .w32 (2 ^ 33 + 5) 6 : Qword) = ⟨5, 2, 6, 0⟩ := by decide

end Verif.Mem

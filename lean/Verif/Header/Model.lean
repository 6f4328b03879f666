import Verif.Base.Res
import Verif.Base.Utf8
import Verif.Journal.Raw
/-!
Model of the file header: `storage/common/sdss/impls/sdss_r1/mod.rs`, `storage/common/static_meta.rs`,
`storage/v2/raw/spec.rs`, `storage/common/versions/*`.
-/
namespace Verif.Header

/-- `HeaderV1Spec` (`sdss_r1/mod.rs:59-84`): the versions that are written and accepted, and the largest
discriminants of the two enumerations. The compatibility checks are the default ones (equality). -/
structure Spec where
  server : Nat
  driver : Nat
  maxClass : Nat
  maxKind : Nat

/-- `HostOS`, `HostArch`, `HostPointerWidth`, `HostEndian` (`static_meta.rs`) as their discriminants. -/
structure Host where
  os : Fin 14
  arch : Fin 6
  ptrWidth : Fin 2
  endian : Fin 2
  deriving DecidableEq, Repr

/-- `HeaderV1` (`sdss_r1/mod.rs:109-129`) -/
structure Hdr where
  headerVersion : Nat
  server : Nat
  driver : Nat
  host : Host
  cls : Nat
  kind : Nat
  kindVersion : Nat
  epoch : Nat
  padding : Bytes
  deriving DecidableEq, Repr

/-- `SDSS_MAGIC_8B` (`static_meta.rs:33`) -/
def MAGIC : Nat := 0x4F48534159414E21

/-- `_encode_auto_raw` (`sdss_r1/mod.rs:200-232`). The code copies the parts to their positions in a
block of 64 zeroes; here they are concatenated in that order. -/
def encode (s : Spec) (h : Host) (cls kind kindVersion epoch : Nat) (padding : Bytes) : Bytes :=
  le 8 MAGIC ++ le 8 0 ++ le 8 s.server ++ le 8 s.driver ++
  [UInt8.ofNat h.os, UInt8.ofNat h.arch, UInt8.ofNat h.ptrWidth, UInt8.ofNat h.endian,
    UInt8.ofNat cls, UInt8.ofNat kind] ++
  le 2 kindVersion ++ le 16 epoch ++ padding

/-- `block[a..b]` -/
def seg (a b : Nat) (block : Bytes) : Bytes := (block.drop a).take (b - a)

/-- One byte of the block. -/
def byteAt (i : Nat) (block : Bytes) : Nat := unle (seg i (i + 1) block)

/-- Errors of `decode` and `validate_metadata`; `io` is a file that is too short. -/
inductive HErr where
  | corrupted | versionMismatch | io
  deriving DecidableEq, Repr

/-- `HeaderV1::decode` (`sdss_r1/mod.rs:267-350`). `from_raw` with a valid discriminant is the value with
this discriminant. -/
def decode (s : Spec) (b : Bytes) : Res HErr Hdr :=
  let verOk := unle (seg 8 16 b) = 0 ∧ unle (seg 16 24 b) = s.server ∧ unle (seg 24 32 b) = s.driver
  if h : unle (seg 0 8 b) = MAGIC ∧ verOk ∧ byteAt 32 b < 14 ∧ byteAt 33 b < 6 ∧ byteAt 34 b < 2 ∧
      byteAt 35 b < 2 ∧ byteAt 36 b ≤ s.maxClass ∧ byteAt 37 b ≤ s.maxKind then
    .ok { headerVersion := unle (seg 8 16 b), server := unle (seg 16 24 b), driver := unle (seg 24 32 b)
          host := ⟨⟨byteAt 32 b, h.2.2.1⟩, ⟨byteAt 33 b, h.2.2.2.1⟩, ⟨byteAt 34 b, h.2.2.2.2.1⟩,
            ⟨byteAt 35 b, h.2.2.2.2.2.1⟩⟩
          cls := byteAt 36 b, kind := byteAt 37 b, kindVersion := unle (seg 38 40 b)
          epoch := unle (seg 40 56 b), padding := seg 56 64 b }
  else .err (if verOk then .corrupted else .versionMismatch)

/-- `SimpleFileSpecV1` (`sdss_r1/mod.rs:436-450`). -/
structure FileSpec where
  cls : Nat
  kind : Nat
  version : Nat

/-- `validate_metadata` (`sdss_r1/mod.rs:457-471`). -/
def validate (f : FileSpec) (h : Hdr) : Res HErr Hdr :=
  if h.kindVersion = f.version then
    if h.cls = f.cls ∧ h.kind = f.kind then .ok h else .err .versionMismatch
  else .err .versionMismatch

/-- `read_metadata` (`sdss_r1/mod.rs:407-413`): `fread_exact_block` fails on a shorter file. -/
def readMeta (s : Spec) (f : FileSpec) (file : Bytes) : Res HErr Hdr :=
  if file.length < 64 then .err .io
  else (decode s (file.take 64)).bind (validate f)

/-- `write_metadata` (`sdss_r1/mod.rs:472-479`): the block, with a padding of zeroes. -/
def writeMeta (s : Spec) (f : FileSpec) (h : Host) (epoch : Nat) : Bytes :=
  encode s h f.cls f.kind f.version epoch (List.replicate 8 0)

/-! ### The version numbers (`versions/server_version.rs`) -/

/-- `VERSION_TAGS` (lines 27-80) -/
def tags : List String :=
  ["v0.1.0", "v0.2.0", "v0.3.0", "v0.3.1", "v0.3.2", "v0.4.0-alpha.1", "v0.4.0-alpha.2", "v0.4.0",
   "v0.4.1-alpha.1", "v0.4.1", "v0.4.2-alpha.1", "v0.4.2", "v0.4.3-alpha.1", "v0.4.3", "v0.4.4",
   "v0.4.5-alpha.1", "v0.4.5-alpha.2", "v0.4.5", "v0.5.0-alpha.1", "v0.5.0-alpha.2", "v0.5.0",
   "v0.5.1-alpha.1", "v0.5.1", "v0.5.2", "v0.5.3", "v0.6.0", "v0.6.1", "v0.6.2-testrelease.1", "v0.6.2",
   "v0.6.3-alpha.1", "v0.6.3", "v0.6.4-alpha.1", "v0.6.4", "v0.7.0-RC.1", "v0.7.0-alpha.1",
   "v0.7.0-alpha.2", "v0.7.0-beta.1", "v0.7.0", "v0.7.1-alpha.1", "v0.7.1", "v0.7.2-alpha.1", "v0.7.2",
   "v0.7.3-alpha.1", "v0.7.3-alpha.2", "v0.7.3-alpha.3", "v0.7.3", "v0.7.4", "v0.7.5", "v0.7.6", "v0.7.7",
   "v0.8.0-alpha.1", "v0.8.0"]

/-- The inner loop of `fetch_id` (lines 89-96) for the tag number `i`. Both comparisons use the index `i`
of the outer loop instead of `j`, so that all rounds do the same; there is no round at all if the lengths
differ. -/
def sameTag (i : Nat) (tag given : Bytes) : Res Unit Bool :=
  if tag.length ≠ given.length ∨ tag = [] then .ok true
  else
    match tag[i]?, given[i]? with
    | some a, some b => .ok (a == b)
    | _, _ => .panic

/-- `fetch_id` (lines 82-103). It runs at compile time, a panic is a compilation error. -/
def fetchFrom (i : Nat) (given : Bytes) : List String → Res Unit Nat
  | [] => .panic
  | t :: ts => (sameTag i (encStr t) given).bind fun eq => if eq then .ok i else fetchFrom (i + 1) given ts

def fetchId (given : Bytes) : Res Unit Nat := fetchFrom 0 given tags

/-- `V1_SERVER_VERSION` = `V2_SERVER_VERSION` (`versions/mod.rs:98-99, 113`) -/
def serverVersion : Nat :=
  match fetchId (encStr "v0.8.0") with
  | .ok n => n
  | _ => 0

/-- `HeaderImplV2` (`v2/raw/spec.rs:72-77`): driver version 1, two classes, two kinds. -/
def v2 : Spec := ⟨serverVersion, 1, 1, 1⟩
/-- `SystemDatabaseV1` (`v2/raw/spec.rs:80-85`). -/
def gnsLog : FileSpec := ⟨0, 0, 0⟩
/-- `ModelDataBatchAofV1` (`v2/raw/spec.rs:88-93`). -/
def modelLog : FileSpec := ⟨1, 1, 0⟩

end Verif.Header

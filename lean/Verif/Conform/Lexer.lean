import Verif.Conform.Base
/-!
The unit tests of the lexer (`ql/tests/lexer_tests.rs`), run on the model. The expected results are those
of the authors. Lines 43-164 are about `InsecureLexer`, the rest about the lexer of the server.
-/
namespace Verif.Conform
open Verif.Lex

deriving instance DecidableEq for Except

def str (s : String) : Token := .lit (.str s)
def uint (n : UInt64) : Token := .lit (.uint n)

/-- Lines 44-176. -/
theorem insecure_lexer_tests :
    lexIns "hello" = .ok [.ident (ascii "hello")] ∧
    lexIns "123456" = .ok [uint 123456] ∧
    lexIns "-123456" = .ok [.lit (.sint (-123456))] ∧
    lexIns "true" = .ok [.lit (.bool true)] ∧
    lexIns "false" = .ok [.lit (.bool false)] ∧
    lexIns " \"hello, world\" " = .ok [str "hello, world"] ∧
    lexIns " 'hello, world' " = .ok [str "hello, world"] ∧
    lexIns " \"\\\"hello world\\\"\" " = .ok [str "\"hello world\""] ∧
    lexIns " '\\'hello world\\'' " = .ok [str "'hello world'"] ∧
    lexIns " \"he's on it\" " = .ok [str "he's on it"] ∧
    lexIns " 'he thinks that \"that girl\" fixed it' " = .ok [str "he thinks that \"that girl\" fixed it"] ∧
    lexIns " \"windows has c:\\\\\" " = .ok [str "windows has c:\\"] ∧
    lexIns " 'windows has c:\\\\' " = .ok [str "windows has c:\\"] ∧
    lexIns "'\\\\\\\\\\\\\\\\\\\\'" = .ok [str "\\\\\\\\\\"] ∧
    lexIns " '\\a should be an alert on windows apparently' " = .error .invalidInput ∧
    lexIns " 'omg where did the end go " = .error .invalidInput ∧
    lexIns " 'see, we escaped the end\\' " = .error .invalidInput ∧
    lexIns "\r0\n" = .ok [.lit (.bin [])] ∧
    lexIns "\r9\nabcdefghi" = .ok [.lit (.bin (ascii "abcdefghi"))] ∧
    lexIns "\r18\nabcdefghi123456789" = .ok [.lit (.bin (ascii "abcdefghi123456789"))] := by
  decide +kernel

/-- `f64::from_str` for the texts in the tests. -/
def testFloat (s : String) : Option F64 :=
  if s = "1234.5678" then some 0x40934A456D5CFAAD
  else if s = "3.141592654" then some 0x400921FB54524550
  else none

/-- `lex_secure` of `n` question marks. -/
def marks (n : Nat) (params : Bytes) : Except LexError (List Token) :=
  lex testFloat (List.replicate n 63) params

def qmark : Token := .sym .symQuestion

/-- Lines 185-195: without parameters, question marks are symbols. -/
theorem safe_query_param_empty : (List.range 100).all fun n =>
    marks n [] == .ok (List.replicate n qmark) := by
  decide +kernel

def sayan : Bytes := [6] ++ ascii "5\nsayan"

/-- Lines 197-220: `i` question marks and `j` parameters. -/
theorem safe_query_less_param : (List.range 11).all fun i => (List.range (i + 1)).all fun j =>
    i == 0 || j == 0 || marks i (List.replicate j sayan).flatten ==
      .ok (List.replicate j (str "sayan") ++ List.replicate (i - j) qmark) := by
  decide +kernel

/-- Lines 222-242. -/
theorem safe_query_all_literals :
    lex testFloat (ascii "? ? ? ? ? ? ?")
      ([0, 1, 1, 2] ++ ascii "1234\n" ++ [3] ++ ascii "-1234\n" ++ [4] ++ ascii "1234.5678\n" ++ [5] ++
        ascii "13\nbinarywithlf\n" ++ [6] ++ ascii "5\nsayan") =
    .ok [nullTok, .lit (.bool true), uint 1234, .lit (.sint (-1234)), .lit (.float 0x40934A456D5CFAAD),
      .lit (.bin (ascii "binarywithlf\n")), str "sayan"] := by
  decide +kernel

/-- The encoded parameters and the expected tokens (lines 244-251, 320-345). -/
def samples : List (Bytes × Token) := [
  ([0], nullTok),
  ([1, 0], .lit (.bool false)),
  ([1, 1], .lit (.bool true)),
  ([2] ++ ascii "18446744073709551615\n", uint 18446744073709551615),
  ([3] ++ ascii "-9223372036854775808\n", .lit (.sint Int64.minValue)),
  ([4] ++ ascii "3.141592654\n", .lit (.float 0x400921FB54524550)),
  ([5] ++ encStr "46\ncringe😃😄😁😆😅😂🤣😊😸😺", .lit (.bin (encStr "cringe😃😄😁😆😅😂🤣😊😸😺"))),
  ([6] ++ encStr "46\ncringe😃😄😁😆😅😂🤣😊😸😺", str "cringe😃😄😁😆😅😂🤣😊😸😺")]

/-- Lines 252-317: each parameter alone. -/
theorem safe_query_single : samples.all fun x => marks 1 x.1 == .ok [x.2] := by
  decide +kernel

/-- The text `? ? ...` with `n` question marks. -/
def spaced : Nat → Bytes
  | 0 => []
  | n + 1 => [63, 32] ++ spaced n

/-- Lines 319-358 use random orders of the eight parameters; here all lists of up to three of them, and
all rotations of the whole list. -/
theorem safe_params_shuffled :
    (samples.all fun x => samples.all fun y => samples.all fun z =>
      lex testFloat (spaced 3) (x.1 ++ y.1 ++ z.1) == .ok [x.2, y.2, z.2]) ∧
    (List.range 8).all fun k =>
      lex testFloat (spaced 8) ((samples.rotateLeft k).map (·.1)).flatten ==
        .ok ((samples.rotateLeft k).map (·.2)) := by
  decide +kernel

end Verif.Conform

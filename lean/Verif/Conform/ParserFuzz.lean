import Verif.Conform.ParserSchema
/-!
The tests of the parser with the fuzzer (`ql/tests.rs:103-143` in /repo/server/src/engine), run on the model.
-/
namespace Verif.Conform
open Verif.Lex Verif.Ql Verif.Dml

/-- Lines 190-231. -/
theorem fuzz_dict :
    fuzz (fun ts => full true (rfoldDict .ob) { toks := ts })
      [("the_tradition_is", ds "hello, world"),
        ("could_have_been", dm [("this", db true), ("or_maybe_this", du 100), ("even_this", ds "hello, universe!")]),
        ("but_oh_well", ds "it continues to be the 'annoying' phrase"),
        ("lorem", dm [("ipsum", dm [("dolor", ds "sit amet")])])]
      "{ the_tradition_is: \"hello, world\", could_have_been: { this: true, or_maybe_this: 100, even_this: \"hello, universe!\"\x01 }, but_oh_well: \"it continues to be the 'annoying' phrase\", lorem: { ipsum: { dolor: \"sit amet\"\x01 }\x01 }\x01 }" := by
  decide +kernel

/-- Lines 233-267. -/
theorem fuzz_layer :
    fuzz (multiple rfoldLayers) [plain "string", withProps "list", withProps "list"]
      "list { type: list { maxlen: 100, type: string\x01 }, unique: true\x01 }" := by
  decide +kernel

end Verif.Conform

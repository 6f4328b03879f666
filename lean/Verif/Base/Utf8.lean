import Verif.Base.Bytes
/-!
Text: Lean's `String` is a byte array with a proof that it is valid UTF-8, as Rust's `str` is.
-/
namespace Verif

/-- `str::as_bytes`. -/
def encStr (s : String) : Bytes := s.toByteArray.data.toList

/-- `core::str::from_utf8`. -/
def decStr (b : Bytes) : Option String := String.fromUTF8? ⟨b.toArray⟩

theorem decStr_eq_some {b : Bytes} {s : String} : decStr b = some s ↔ b = encStr s := by
  unfold decStr String.fromUTF8? encStr
  constructor
  · intro h
    split at h
    · cases h; rfl
    · cases h
  · rintro rfl
    rw [dif_pos (by simpa using s.isValidUTF8)]
    congr 1

@[simp] theorem decStr_encStr (s : String) : decStr (encStr s) = some s := decStr_eq_some.2 rfl

theorem encStr_inj {s t : String} (h : encStr s = encStr t) : s = t := by
  have := decStr_encStr s
  rw [h, decStr_encStr] at this
  exact (Option.some.inj this).symm

example : decStr [0x68, 0x69] = some "hi" ∧ decStr [0xFF] = none := by decide +kernel

end Verif

import Verif.Common
/-!
# Model of `src/lib/util/utf8.c`

A `const char **pos, const char *end` pair is modelled by the list of the bytes
from `*pos` up to `end`; advancing `*pos` drops bytes.  `uint32_t` code point
values are modelled by `Nat` (all values computed are below 2^21, so no wrap).
A return value of 0 is `some`, a return value of 1 is `none`.
-/
namespace Verif.Utf8
open Verif

/-- `util/utf8.c:28-85 __rrr_utf8_get_character_continue`: `c` is the lead byte,
`rest` the bytes from `*pos` to `end`. Result: code point and remaining bytes. -/
def getCharacterContinue (c : Nat) (rest : Bytes) : Option (Nat × Bytes) :=
  match rest with
  | [] => none                                             -- L29-31
  | d8 :: rest =>
    let d := d8.toNat                                      -- L33-34
    if 0xC2 ≤ c ∧ c ≤ 0xDF ∧ 0x80 ≤ d ∧ d ≤ 0xBF then      -- L36
      some (((c &&& 0x1F) <<< 6) ||| (d &&& 0x3F), rest)   -- L37-41
    else match rest with
    | [] => none                                           -- L44-46
    | e8 :: rest =>
      let e := e8.toNat                                    -- L48-49
      if (c = 0xE0 ∧ 0xA0 ≤ d ∧ d ≤ 0xBF ∧ 0x80 ≤ e ∧ e ≤ 0xBF) ∨
         (0xE1 ≤ c ∧ c ≤ 0xEC ∧ 0x80 ≤ d ∧ d ≤ 0xBF ∧ 0x80 ≤ e ∧ e ≤ 0xBF) ∨
         (c = 0xED ∧ 0x80 ≤ d ∧ d ≤ 0x9F ∧ 0x80 ≤ e ∧ e ≤ 0xBF) ∨
         (0xEE ≤ c ∧ c ≤ 0xEF ∧ 0x80 ≤ d ∧ d ≤ 0xBF ∧ 0x80 ≤ e ∧ e ≤ 0xBF) then   -- L51-55
        some (((c &&& 0x0F) <<< 12) ||| ((d &&& 0x3F) <<< 6) ||| (e &&& 0x3F), rest)  -- L56-61
      else match rest with
      | [] => none                                         -- L64-66
      | f8 :: rest =>
        let f := f8.toNat                                  -- L68-69
        if (c = 0xF0 ∧ 0x90 ≤ d ∧ d ≤ 0xBF ∧ 0x80 ≤ e ∧ e ≤ 0xBF ∧ 0x80 ≤ f ∧ f ≤ 0xBF) ∨
           (0xF1 ≤ c ∧ c ≤ 0xF3 ∧ 0x80 ≤ d ∧ d ≤ 0xBF ∧ 0x80 ≤ e ∧ e ≤ 0xBF ∧ 0x80 ≤ f ∧ f ≤ 0xBF) ∨
           (c = 0xF4 ∧ 0x80 ≤ d ∧ d ≤ 0x8F ∧ 0x80 ≤ e ∧ e ≤ 0xBF ∧ 0x80 ≤ f ∧ f ≤ 0xBF) then  -- L71-74
          some (((c &&& 0x07) <<< 18) ||| ((d &&& 0x3F) <<< 12) |||
                ((e &&& 0x3F) <<< 6) ||| (f &&& 0x3F), rest)    -- L75-81
        else none                                          -- L84

/-- `util/utf8.c:87-103 rrr_utf8_get_character`. At the end of the buffer the
result is 0 with success (L88-92). -/
def getCharacter (s : Bytes) : Option (Nat × Bytes) :=
  match s with
  | [] => some (0, [])                                     -- L90-92
  | c :: rest =>
    if c.toNat ≤ 0x7F then some (c.toNat, rest)            -- L97-100
    else getCharacterContinue c.toNat rest                 -- L102

/-- `util/utf8.c:105-117 rrr_utf8_validate`; loop bounded by `fuel` (every round
consumes a byte, so `length + 1` rounds are never exhausted: `validate`).
`true` is return value 0. -/
def validateLoop : Nat → Bytes → Bool
  | 0, _ => false
  | fuel + 1, s =>
    match getCharacter s with
    | none => false
    | some (r, rest) => if r = 0 then true else validateLoop fuel rest   -- L114

/-- `util/utf8.c:105-117 rrr_utf8_validate`. -/
def validate (s : Bytes) : Bool := validateLoop (s.length + 1) s

/-- `util/utf8.c:119-142 rrr_utf8_validate_and_iterate`. The callback is a
function on a state `σ` (its `void *arg`) which either fails (`none`) or returns
the new state. -/
def iterateLoop {σ : Type} (cb : σ → Nat → Option σ) : Nat → Bytes → σ → Option σ
  | 0, _, _ => none
  | fuel + 1, s, st =>
    match getCharacter s with
    | none => none                                         -- L133-135
    | some (r, rest) =>
      if r = 0 then some st                                -- L133-135
      else match cb st r with
        | none => none                                     -- L136-138
        | some st' => iterateLoop cb fuel rest st'         -- L139

/-- `util/utf8.c:119-142 rrr_utf8_validate_and_iterate`. -/
def validateAndIterate {σ : Type} (cb : σ → Nat → Option σ) (s : Bytes) (st : σ) : Option σ :=
  iterateLoop cb (s.length + 1) s st

end Verif.Utf8

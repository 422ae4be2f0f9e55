import Verif.Common
/-!
# Model of `src/lib/parse.c`: primitives of the parsers of configuration text

A position in the text (`struct rrr_parse_pos`) is given by the bytes from it to the end of the text. Line numbers
are only used in error messages and are not modelled. Some of the functions read the byte after the end of the text, this
has no effect on what they do and is not modelled.
-/
namespace Verif.Parse
open Verif

/-- `parse.h:46-47 RRR_PARSE_MATCH_C_SPACE_TAB`. -/
def isSpaceTab (c : UInt8) : Bool := c == 0x20 || c == 0x09

/-- `parse.h:48-49 RRR_PARSE_MATCH_C_NEWLINES`. -/
def isNewline (c : UInt8) : Bool := c == 0x0d || c == 0x0a

/-- `parse.h:54-57 RRR_PARSE_MATCH_C_LETTER`. -/
def isLetter (c : UInt8) : Bool := (0x61 ≤ c && c ≤ 0x7a) || (0x41 ≤ c && c ≤ 0x5a) || c == 0x5f

/-- `parse.h:62-63 RRR_PARSE_MATCH_C_NUMBER`. -/
def isDigit (c : UInt8) : Bool := 0x30 ≤ c && c ≤ 0x39

/-- `parse.h:66-67 RRR_PARSE_MATCH_C_CONTROL` of an `unsigned char`. -/
def isControl (c : UInt8) : Bool := c ≤ 0x1f

/-- `parse.h:66-67 RRR_PARSE_MATCH_C_CONTROL` of a `char`, which is signed: bytes from 0x80 are negative and therefore match. -/
def isControlSigned (c : UInt8) : Bool := c ≤ 0x1f || 0x80 ≤ c

/-- `parse.h:41 RRR_PARSE_MATCH_TAG` with `parse.c:226-237 __rrr_parse_match_char`. -/
def isTagChar (c : UInt8) : Bool := isLetter c || isDigit c

/-- `parse.h:40 RRR_PARSE_MATCH_NAME` with `parse.c:226-237 __rrr_parse_match_char`. -/
def isNameChar (c : UInt8) : Bool := isLetter c || isDigit c || c == 0x2d

/-- `RRR_PARSE_MATCH_SPACE_TAB|RRR_PARSE_MATCH_CONTROL` with `parse.c:226-237 __rrr_parse_match_char`. -/
def isSpaceControl (c : UInt8) : Bool := isSpaceTab c || isControlSigned c

/-- `parse.c:50-54 __rrr_parse_is_spaces`. -/
def isSpaces (c : UInt8) : Bool := isSpaceTab c || isNewline c

/-- `parse.c:62-102 __rrr_parse_ignore_and_increment_line`. -/
def ignore (p : UInt8 → Bool) : Bytes → Bytes
  | [] => []
  | c :: t =>
    if p c then
      match t with
      | n :: t' => if c == 0x0d && n == 0x0a then ignore p t' else ignore p (n :: t')
      | [] => []
    else c :: t

/-- `parse.c:110-114 rrr_parse_ignore_control_and_increment_line`. -/
def ignoreControl (b : Bytes) : Bytes := ignore isControl b

/-- `parse.c:116-120 rrr_parse_ignore_spaces_and_increment_line`. -/
def ignoreSpaces (b : Bytes) : Bytes := ignore isSpaces b

/-- `parse.c:122-137 rrr_parse_comment`. -/
def comment (b : Bytes) : Bytes :=
  if b = [] then [] else ignoreSpaces (b.dropWhile fun c => !isNewline c)

/-- `parse.c:178-207 rrr_parse_match_word`: the rest of the text if the word matches. -/
def matchWord (word b : Bytes) : Option Bytes :=
  if word.isPrefixOf b then some (b.drop word.length) else none

/-- `parse.c:239-257 rrr_parse_match_letters_peek`. -/
def peek (p : UInt8 → Bool) (b : Bytes) : Nat := (b.takeWhile p).length

/-- `parse.c:259-271 rrr_parse_match_letters`: the letters and the rest of the text. There are no letters if `end` becomes less than `start`. -/
def matchLetters (p : UInt8 → Bool) (b : Bytes) : Bytes × Bytes := (b.take (peek p b), b.drop (peek p b))

/-- `parse.c:334-356 rrr_parse_non_control`. -/
def nonControl (b : Bytes) : Bytes × Bytes := (b.takeWhile fun c => !isControlSigned c, b.dropWhile fun c => !isControlSigned c)

end Verif.Parse

import Verif.Acl.Model
import Verif.Parse.Model
/-!
# Model of ACL files: `src/lib/mqtt/mqtt_acl.c` L143-505

A position in the text is the bytes from it to the end, as in the model of `parse.c`. A newline has been passed when the line number of the position changes; here it is looked for in the bytes which are skipped. Not modelled: allocation
failure, log messages, and reading of the file itself.
-/
namespace Verif.AclFile
open Acl Topic

/-- The result: the value, a syntax error, or a process abort (`RRR_BUG`). -/
inductive Out (α : Type) where
  | ok (x : α) | err | abort
deriving DecidableEq, Repr

def Out.bind {α β : Type} (x : Out α) (f : α → Out β) : Out β :=
  match x with
  | .ok a => f a
  | .err => .err
  | .abort => .abort

/-- `parse.c:139-176 rrr_parse_match_word_case`: the other case of the character is also compared to the word. -/
def other (c : UInt8) : UInt8 := if 0x61 ≤ c && c ≤ 0x7a then c - 32 else if 0x41 ≤ c && c ≤ 0x5a then c + 32 else 0

/-- `parse.c:139-176 rrr_parse_match_word_case`: what follows the word, if it is there. -/
def matchCase : Bytes → Bytes → Option Bytes
  | [], b => some b
  | _ :: _, [] => none
  | w :: ws, c :: b => if w ≠ c ∧ w ≠ other c then none else matchCase ws b

/-- `DENY`, `READ`, `WRITE`, `DEFAULT`, `USER` and `TOPIC`. -/
def wDeny : Bytes := [68, 69, 78, 89]
def wRead : Bytes := [82, 69, 65, 68]
def wWrite : Bytes := [87, 82, 73, 84, 69]
def wDefault : Bytes := [68, 69, 70, 65, 85, 76, 84]
def wUser : Bytes := [85, 83, 69, 82]
def wTopic : Bytes := [84, 79, 80, 73, 67]

/-- `mqtt_acl.c:143-156 __rrr_mqtt_acl_parse_spaces_and_comments`. The first argument bounds the number of comments. -/
def spacesComments : Nat → Bytes → Bytes
  | 0, b => b
  | k + 1, b =>
    match Parse.ignoreSpaces b with
    | [] => []
    | c :: t => if c = 35 then spacesComments k (Parse.comment (c :: t)) else Parse.ignoreSpaces (c :: t)

/-- Whether a newline is among the spaces which `rrr_parse_ignore_spaces_and_increment_line` skips: then `pos->line` changes. -/
def newLine (b : Bytes) : Bool := (b.takeWhile Parse.isSpaces).any Parse.isNewline

/-- `mqtt_acl.c:158-186 __rrr_mqtt_acl_parse_require_newline_or_eof`. -/
def requireNewline (b : Bytes) : Out Bytes :=
  let b' := Parse.ignoreSpaces b
  if b' = [] then .ok b'
  else if b'.length = b.length then .err
  else if newLine b then .ok b'
  else .err

/-- `mqtt_acl.c:188-206 __rrr_mqtt_acl_parse_require_space_then_non_newline`. -/
def requireSpace (b : Bytes) : Out Bytes :=
  let b' := Parse.ignoreSpaces b
  if b'.length = b.length ∨ newLine b = true then .err else .ok b'

/-- `mqtt_acl.c:208-234 __rrr_mqtt_acl_parse_acl_action`. -/
def action (b : Bytes) : Out (Action × Bytes) :=
  match matchCase wDeny b with
  | some r => .ok (.deny, r)
  | none =>
    match matchCase wRead b with
    | some r => .ok (.ro, r)
    | none =>
      match matchCase wWrite b with
      | some r => .ok (.rw, r)
      | none => .err

/-- `mqtt_acl.c:236-263 __rrr_mqtt_acl_parse_keyword_default`. -/
def keywordDefault (b : Bytes) : Out (Action × Bytes) :=
  (requireSpace b).bind fun b1 => (action b1).bind fun x => (requireNewline x.2).bind fun b2 => .ok (x.1, b2)

/-- Characters of usernames, `RRR_PARSE_MATCH_LETTERS|RRR_PARSE_MATCH_NUMBERS`. -/
def isUserChar (c : UInt8) : Bool := Parse.isLetter c || Parse.isDigit c

/-- `mqtt_acl.c:265-319 __rrr_mqtt_acl_parse_keyword_user`. -/
def keywordUser (b : Bytes) : Out (UserEntry × Bytes) :=
  let x := Parse.matchLetters isUserChar (Parse.ignore Parse.isSpaceTab b)
  if x.1 = [] then .err
  else
    (requireSpace x.2).bind fun b1 => (action b1).bind fun y => (requireNewline y.2).bind fun b2 =>
      if cstr x.1 = [] then .abort else .ok (⟨cstr x.1, y.1⟩, b2)

/-- `mqtt_acl.c:321-372 __rrr_mqtt_acl_parse_topic_block_body`: the entry, whether its default is set, and the text. The first argument bounds the number of rounds. -/
def body : Nat → Entry → Bool → Bytes → Out (Entry × Bytes)
  | 0, _, _, _ => .err
  | k + 1, e, set, b =>
    if b = [] then .ok (e, [])
    else
      match spacesComments (b.length + 1) b with
      | [] => .ok (e, [])
      | c :: t =>
        match matchCase wDefault (c :: t) with
        | some r => if set then .err else (keywordDefault r).bind fun x => body k { e with defaultAction := x.1 } true x.2
        | none =>
          match matchCase wUser (c :: t) with
          | some r => (keywordUser r).bind fun x => body k { e with users := e.users ++ [x.1] } set x.2
          | none =>
            match matchCase wTopic (c :: t) with
            | some _ => .ok (e, b)
            | none => .err

/-- `mqtt_acl.c:374-459 __rrr_mqtt_acl_parse_topic_blocks`. The first argument bounds the number of blocks. -/
def blocks : Nat → List Entry → Bytes → Out (List Entry)
  | 0, _, _ => .err
  | k + 1, acl, b =>
    match spacesComments (b.length + 1) b with
    | [] => .ok acl
    | c :: t =>
      match matchCase wTopic (c :: t) with
      | none => .err
      | some r =>
        (requireSpace r).bind fun b1 =>
          let topic := b1.takeWhile fun c => !Parse.isNewline c
          let b2 := b1.dropWhile fun c => !Parse.isNewline c
          if topic = [] then .err
          else if filterValidateName (cstr topic) = false then .err
          else (body (b2.length + 1) { defaultAction := .deny, users := [], tokens := tokensClone (tokenize (cstr topic)) } false b2).bind fun x => blocks k (acl ++ [x.1]) x.2

/-- `mqtt_acl.c:461-505 rrr_mqtt_acl_entry_collection_populate_from_file` with the bytes of the file; an empty file gives no rules. -/
def readFile (b : Bytes) : Out (List Entry) := if b = [] then .ok [] else blocks (b.length + 1) [] b

end Verif.AclFile

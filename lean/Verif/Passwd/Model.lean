import Verif.Parse.Model
import Verif.Topic.Model
import Verif.Base64.Model
/-!
# Model of `src/lib/passwd.c` and `src/rrr_passwd.c`: password files

The function for the derivation of keys from passwords, PBKDF2 of the OpenSSL library with fixed settings, is a parameter, and so is the random salt.
Memory is always available. Reading of passwords from the terminal is not modelled.
-/
namespace Verif.Passwd
open Verif

/-! ## Checking a password -/

/-- What a check may end with. `abort` is `RRR_BUG`, `beyond` is when memory is compared beyond what has been written to it. -/
inductive Res where
  | yes
  | no
  | abort
  | beyond
deriving DecidableEq, Repr

/-- The build: whether OpenSSL is used (`RRR_WITH_OPENSSL_CRYPT`), and `PKCS5_PBKDF2_HMAC` of a password and a salt with the settings of
`passwd.c:228-235`, which gives `RRR_PASSWD_HASH_KEY_LENGTH` bytes or fails. -/
structure Crypt where
  openssl : Bool
  kdf : Bytes → Bytes → Option Bytes

/-- `RRR_PASSWD_HASH_KEY_LENGTH`, `passwd.c:45` -/
def keyLength : Nat := 256

/-- The pieces of a text between the characters `c` -/
def pieces (c : UInt8) : Bytes → List Bytes
  | [] => [[]]
  | d :: t =>
    if d = c then [] :: pieces c t
    else
      match pieces c t with
      | [] => [[d]]
      | x :: xs => (d :: x) :: xs

/-- `parse.c:386-448 rrr_parse_str_split`: the elements which are handed to the callback, `none` when there are too many -/
def split (c : UInt8) (most : Nat) (s : Bytes) : Option (List Bytes) :=
  if s = [] then some []
  else if (pieces c s).length > most then none
  else some (pieces c s)

/-- `passwd.c:148-178 __rrr_passwd_check_base64`. The length of the stored text decides how much is compared (L168). -/
def checkBase64 (hash password : Bytes) : Res :=
  if password.length > keyLength then .no
  else
    match Base64.encode password with
    | none => .no
    | some e => if hash.length > e.length + 1 then .beyond else if hash = (e ++ [0]).take hash.length then .yes else .no

/-- `passwd.c:181-245 __rrr_passwd_openssl_encrypt`, with the outcome of what is wrong as error -/
def derive (cr : Crypt) (password salt : Bytes) : Except Res Bytes :=
  if password = [] || salt = [] then .error .abort
  else
    match Base64.decode salt with
    | none => .error .no
    | some s =>
      if s.length > 2 ^ 31 - 1 then .error .no
      else if s.length < 32 then .error .abort
      else if password.length > 2 ^ 31 - 1 then .error .no
      else
        match cr.kdf password s with
        | none => .error .no
        | some k => .ok k

/-- `passwd.c:248-291 __rrr_passwd_check_openssl`. The length of what is decoded is not looked at (L271). -/
def checkOpenssl (cr : Crypt) (salt hash password : Bytes) : Res :=
  if !cr.openssl then .no
  else
    match Base64.decode hash with
    | none => .no
    | some raw =>
      match derive cr password salt with
      | .error r => r
      | .ok k => if raw.length < keyLength then .beyond else if k.take keyLength = raw.take keyLength then .yes else .no

/-- `passwd.c:297-351 __rrr_passwd_check_callback` -/
def checkElements (cr : Crypt) (password : Bytes) : List Bytes → Res
  | [before, enctype, salt, hash] =>
    if before ≠ [] then .no
    else if hash = [] then .no
    else
      match enctype.head? with
      | some 48 => if salt ≠ [] then .no else checkBase64 hash password
      | some 49 => if salt = [] then .no else checkOpenssl cr salt hash password
      | _ => .no
  | _ => .no

/-- `passwd.c:353-370 rrr_passwd_check` -/
def check (cr : Crypt) (hash password : Bytes) : Res :=
  if password = [] then .no
  else if hash = [] then .no
  else
    match split 36 4 hash with
    | none => .no
    | some l => checkElements cr password l

/-- What `rrr_passwd_encrypt` ends with: an error, success without a result, or a result -/
inductive Enc where
  | err
  | abort
  | nothing
  | done (hash : Bytes)
deriving DecidableEq, Repr

/-- `passwd.c:372-450 rrr_passwd_encrypt`, where `salt` is random. A failure to derive the key is not returned as an error (L412-414). -/
def encrypt (cr : Crypt) (salt password : Bytes) : Enc :=
  if cr.openssl then
    match Base64.encode salt with
    | none => .err
    | some s =>
      match derive cr password s with
      | .error .abort => .abort
      | .error _ => .nothing
      | .ok k =>
        match Base64.encode (k.take keyLength) with
        | none => .err
        | some h => .done ([36, 49, 36] ++ s ++ [36] ++ h)
  else if password.length > keyLength then .err
  else
    match Base64.encode password with
    | none => .err
    | some h => .done ([36, 48, 36, 36] ++ h)

/-- `parse.c:634-652 rrr_parse_str_strip_newlines` -/
def stripNewlines (s : Bytes) : Bytes := s.filter fun c => !(c == 13 || c == 10)

/-! ## Lines of a password file -/

/-- `passwd.c:542-566`, the loop of `rrr_passwd_iterate_lines`: the lines which are split. The callbacks do not influence this. The first argument bounds
the number of rounds. -/
def lineLoop : Nat → Bytes → List Bytes
  | 0, _ => []
  | n + 1, b =>
    match Parse.ignoreSpaces b with
    | [] => []
    | c :: t =>
      Topic.cstr ((c :: t).takeWhile fun c => !Parse.isNewline c) :: lineLoop n ((c :: t).dropWhile fun c => !Parse.isNewline c)

/-- `passwd.c:512-589 rrr_passwd_iterate_lines`, the lines -/
def fileLines (b : Bytes) : List Bytes := lineLoop (b.length + 1) b

/-- A user in a password file -/
structure User where
  name : Bytes
  permissions : List Bytes
  hash : Bytes
deriving DecidableEq, Repr

/-- `passwd.c:470-510`: a line is split, `none` is an error -/
def user (line : Bytes) : Option User :=
  match split 58 3 line with
  | some [name, perms, hash] =>
    match split 44 32 perms with
    | none => none
    | some ps => some ⟨name, ps, hash⟩
  | _ => none

/-! ## Authentication -/

/-- `passwd.c:600-655 __rrr_passwd_authenticate_callback` in the loop of `rrr_passwd_iterate_lines` (L568-584), and what is made of its result
(L703-746) -/
def authLines (cr : Crypt) (name password : Bytes) (permission : Option Bytes) : List Bytes → Res
  | [] => .no
  | l :: ls =>
    match user l with
    | none => .no
    | some u =>
      if u.name ≠ name then authLines cr name password permission ls
      else
        match check cr u.hash password with
        | .yes =>
          match permission with
          | none => .yes
          | some p => if u.permissions.any (· == p) then .yes else .no
        | r => r

/-- `passwd.c:657-755 rrr_passwd_authenticate`, of the contents of the file, or `none` when it cannot be read. A check of a constant when there is no
such user, which has no effect, is left out (L718-726). -/
def authenticate (cr : Crypt) (file : Option Bytes) (name password : Bytes) (permission : Option Bytes) : Res :=
  if name = [] || password = [] then .no
  else
    match file with
    | none => .no
    | some b => if b.length = 0 || b.length > 2 ^ 32 - 1 then .no else authLines cr name password permission (fileLines b)

/-! ## The program for changes -/

/-- `passwd.c:126-146 rrr_passwd_permission_collection_remove_duplicates`: an element goes when there is another one which is equal among those which
remain -/
def removeDuplicates : List Bytes → List Bytes → List Bytes
  | _, [] => []
  | kept, p :: ps => if kept.contains p || ps.contains p then removeDuplicates kept ps else p :: removeDuplicates (kept ++ [p]) ps

/-- `rrr_passwd.c:68-79 struct rrr_passwd_data`, where the password is the hash which is to be stored (`rrr_passwd.c:538-560`) -/
structure Job where
  name : Bytes
  hash : Option Bytes
  create : Bool
  remove : Bool
  append : Bool
  permissions : List Bytes
deriving DecidableEq, Repr

/-- `rrr_passwd.c:115-128 __rrr_passwd_validate_str` -/
def validStr (s : Bytes) : Bool := !s.contains 58 && !s.contains 44

/-- `rrr_passwd.c:164-247`, the checks of `__rrr_passwd_parse_config` -/
def jobOk (j : Job) : Bool :=
  j.name ≠ [] && j.permissions.all validStr && validStr j.name
    && !(j.remove && (j.create || j.append || j.permissions ≠ [] || j.hash.isSome)) && !(j.append && j.permissions = [])

/-- Texts with commas between, `rrr_passwd.c:300-309` -/
def joinComma : List Bytes → Bytes
  | [] => []
  | [x] => x
  | x :: y :: t => x ++ 44 :: joinComma (y :: t)

/-- `rrr_passwd.c:267-320 __rrr_passwd_write_user` -/
def writeUser (j : Job) (name : Bytes) (permissions : List Bytes) (hash : Option Bytes) : Bytes :=
  let ps := (if j.append || j.permissions = [] then permissions else []) ++ j.permissions
  name ++ [58] ++ joinComma ((removeDuplicates [] ps).filter (· ≠ [])) ++ [58] ++ hash.getD []

/-- `rrr_passwd.c:322-385 __rrr_passwd_process_line_callback` in the loop of `rrr_passwd_iterate_lines`: what is written, and whether the user was found.
`none` is an error. -/
def processLines (j : Job) : Bool → List Bytes → Option (Bytes × Bool)
  | found, [] => some ([], found)
  | found, l :: ls =>
    match user l with
    | none => none
    | some u =>
      if u.name = j.name then
        if j.create || found then none
        else
          match processLines j true ls with
          | none => none
          | some (out, f) =>
            if j.remove then some (out, f)
            else some (writeUser j u.name u.permissions (j.hash.or (some u.hash)) ++ 10 :: out, f)
      else
        match processLines j found ls with
        | none => none
        | some (out, f) => some (l ++ 10 :: out, f)

/-- `rrr_passwd.c:387-433 __rrr_passwd_process` -/
def process (j : Job) (b : Bytes) : Option Bytes :=
  match processLines j false (fileLines b) with
  | none => none
  | some (out, found) =>
    if j.create then some (out ++ writeUser j j.name [] j.hash ++ [10])
    else if !found then none
    else some out

/-! ## Files -/

/-- The files which the program touches, `none` when there is no such file -/
structure Files where
  file : Option Bytes
  temp : Option Bytes
  old : Option Bytes
deriving DecidableEq, Repr

/-- `rename`, from the place `a` to the place `b` -/
def moveFileOld (f : Files) : Files := { f with file := none, old := f.file }
def moveTempFile (f : Files) : Files := { f with temp := none, file := f.temp }
def moveOldFile (f : Files) : Files := { f with old := none, file := f.old }

/-- `rrr_passwd.c:572-611`: the states of the files from when the new contents are in the temporary file, one after each call to the operating system,
where `r1`, `r2` and `r3` tell whether the calls to `rename` succeed -/
def install (f : Files) (r1 r2 r3 : Bool) : List Files :=
  let clean (g : Files) (old : Bool) : List Files :=
    [{ g with temp := none }] ++ (if old then [{ g with temp := none, old := none }] else [])
  if !r1 then f :: clean f true
  else
    let f1 := moveFileOld f
    if r2 then
      let f2 := moveTempFile f1
      f :: f1 :: f2 :: clean f2 true
    else if r3 then
      let f2 := moveOldFile f1
      f :: f1 :: f2 :: clean f2 true
    else f :: f1 :: clean f1 false

end Verif.Passwd

import Verif.Modbus.Model
/-!
# What a user of the modbus client relies on

A ledger of all accepted requests, in the order in which they were pushed, without positions, slots or reuse of memory. The number of a
request is its place in the ledger, its transaction id on the wire is this number modulo 65536.
-/
namespace Verif.Modbus.Spec
open Verif

/-- Calls which keep to the limits of the protocol. -/
def Fine : Call → Prop
  | .coils _ n | .discrete _ n => 1 ≤ n.toNat ∧ n.toNat ≤ 2000
  | .holding _ n | .input _ n => 1 ≤ n.toNat ∧ n.toNat ≤ 125
  | .writeSingle _ d => d.length = 2
  | .writeMultiple _ n d => 1 ≤ n.toNat ∧ n.toNat ≤ 123 ∧ d.length = 2 * n.toNat

/-- Two bytes, most significant first. -/
def word (n : Nat) : Bytes := [UInt8.ofNat (n / 256), UInt8.ofNat (n % 256)]

/-- Function code. -/
def code : Call → UInt8
  | .coils .. => 1 | .discrete .. => 2 | .holding .. => 3 | .input .. => 4 | .writeSingle .. => 6 | .writeMultiple .. => 16

/-- The request (PDU) of the modbus specification. -/
def pdu (c : Call) : Bytes :=
  code c :: match c with
  | .coils a n | .discrete a n | .holding a n | .input a n => word a.toNat ++ word n.toNat
  | .writeSingle a d => word a.toNat ++ d
  | .writeMultiple a n d => word a.toNat ++ word n.toNat ++ [UInt8.ofNat (2 * n.toNat)] ++ d

/-- The frame (MBAP header and PDU): transaction id, protocol 0, number of bytes which follow, unit 255. -/
def frame (id : Nat) (p : Bytes) : Bytes := word id ++ word 0 ++ word (1 + p.length) ++ [255] ++ p

/-- What a received stream begins with. -/
inductive Received where
  | more
  | bad
  | frame (id : UInt16) (pdu : Bytes) (size : Nat)

/-- Length of the frame at the beginning, by its length field. -/
def announced (b : Bytes) : Nat := 6 + (256 * (b.getD 4 0).toNat + (b.getD 5 0).toNat)

/-- Frames have a PDU of 1 to 252 bytes. -/
def received (b : Bytes) : Received :=
  if b.length < 7 then .more
  else if announced b = 6 then .bad
  else if b.length < announced b then .more
  else if announced b < 8 ∨ 259 < announced b then .bad
  else .frame (UInt16.ofNat (256 * (b.getD 0 0).toNat + (b.getD 1 0).toNat)) ((b.take (announced b)).drop 7) (announced b)

/-- How many bytes of data a response to a read request must have. -/
def dataSize : Call → Nat
  | .coils _ n | .discrete _ n => (n.toNat + 7) / 8
  | .holding _ n | .input _ n => 2 * n.toNat
  | _ => 0

/-- What becomes of a response. -/
inductive Verdict (P : Type) where
  /-- It does not belong to the request, the private data is never destroyed. -/
  | foreign
  /-- It is malformed, the private data is destroyed. -/
  | malformed
  /-- The callback is called. -/
  | call (e : Event P)

/-- The verdict for the response `r` to the request. -/
def verdict {P : Type} (c : Call) (id : UInt16) (p : P) (r : Bytes) : Verdict P :=
  match r with
  | [] => .foreign
  | fn :: rest =>
    if fn = code c + 128 then
      match rest with
      | [] => .call (.error (code c) id none p)
      | [x] => .call (.error (code c) id (some x) p)
      | _ => .foreign
    else if fn ≠ code c then .foreign
    else match c with
    | .writeSingle .. =>
      match rest with
      | [a, b, x, y] => .call (.value (code c) id (UInt16.ofNat (256 * a.toNat + b.toNat)) [x, y] p)
      | _ => if rest.length < 4 then .malformed else .foreign
    | .writeMultiple .. =>
      match rest with
      | [a, b, x, y] => .call (.quantity (code c) id (UInt16.ofNat (256 * a.toNat + b.toNat)) (UInt16.ofNat (256 * x.toNat + y.toNat)) p)
      | _ => if rest.length < 4 then .malformed else .foreign
    | _ =>
      match rest with
      | [] => .malformed
      | count :: data => if count.toNat = data.length ∧ data.length = dataSize c then .call (.bytes (code c) id data p) else .malformed

/-- State of a request. -/
inductive Status where
  | waiting
  | sent (time : UInt64)
  | finished
deriving DecidableEq

/-- An accepted request. -/
structure Entry (P : Type) where
  call : Call
  priv : P
  status : Status

/-- The requests, in the order in which they were accepted. -/
abbrev Ledger (P : Type) := List (Entry P)

variable {P : Type}

/-- Whether the request with this number is sent and not finished. -/
def live (l : Ledger P) (i : Nat) : Prop := ∃ e t, l[i]? = some e ∧ e.status = .sent t

/-- Changing the state of one request. -/
def mark (l : Ledger P) (i : Nat) (s : Status) : Ledger P := l.modify i fun e => { e with status := s }

/-- Pushing a request: there may be no more than 32 requests from the first unfinished one on. If the request which is in the way was sent
more than one second ago, this is an error. -/
inductive Push (l : Ledger P) (now : UInt64) (c : Call) : Except Ret P → Out P → Ledger P → Prop where
  | failed (r : Ret) : Push l now c (.error r) (.push r []) l
  | accepted (p : P) (h : ∀ i e, i + 32 = l.length → l[i]? = some e → e.status = .finished) :
      Push l now c (.ok p) (.push .ok []) (l ++ [⟨c, p, .waiting⟩])
  | timeout (p : P) (i : Nat) (e : Entry P) (t : UInt64) (h : i + 32 = l.length) (he : l[i]? = some e) (hs : e.status = .sent t)
      (ht : t.toNat + 1000000 < now.toNat) : Push l now c (.ok p) (.push .soft [.destroy p]) l
  | full (p : P) (i : Nat) (e : Entry P) (h : i + 32 = l.length) (he : l[i]? = some e) (hs : e.status ≠ .finished)
      (ht : ∀ t, e.status = .sent t → now.toNat ≤ t.toNat + 1000000) : Push l now c (.ok p) (.push .busy [.destroy p]) l

/-- Writing: the first request which waits is sent, with its number as id. -/
inductive Write (l : Ledger P) (now : UInt64) : Out P → Ledger P → Prop where
  | nothing (h : ∀ e ∈ l, e.status ≠ .waiting) : Write l now (.write .done []) l
  | send (i : Nat) (e : Entry P) (he : l[i]? = some e) (hw : e.status = .waiting)
      (hf : ∀ j f, j < i → l[j]? = some f → f.status ≠ .waiting) :
      Write l now (.write .ok (frame (i % 65536) (pdu e.call))) (mark l i (.sent now))

/-- Reading: a response is given to the only request with its id which was sent and is not finished, and which is finished thereby. -/
inductive Read (l : Ledger P) (cb : Ret) (b : Bytes) : Out P → Ledger P → Prop where
  | more (h : received b = .more) : Read l cb b (.read .incomplete none []) l
  | bad (h : received b = .bad) : Read l cb b (.read .soft none []) l
  | unknown (id : UInt16) (r : Bytes) (n : Nat) (h : received b = .frame id r n) (hu : ∀ i, live l i → i % 65536 ≠ id.toNat) :
      Read l cb b (.read .soft none []) l
  | foreign (id : UInt16) (r : Bytes) (n : Nat) (h : received b = .frame id r n) (i : Nat) (hl : live l i) (hi : i % 65536 = id.toNat)
      (hu : ∀ j, live l j → j % 65536 = id.toNat → j = i) (e : Entry P) (he : l[i]? = some e)
      (hv : verdict e.call id e.priv r = .foreign) : Read l cb b (.read .soft none []) (mark l i .finished)
  | malformed (id : UInt16) (r : Bytes) (n : Nat) (h : received b = .frame id r n) (i : Nat) (hl : live l i) (hi : i % 65536 = id.toNat)
      (hu : ∀ j, live l j → j % 65536 = id.toNat → j = i) (e : Entry P) (he : l[i]? = some e)
      (hv : verdict e.call id e.priv r = .malformed) :
      Read l cb b (.read .soft none [.destroy e.priv]) (mark l i .finished)
  | call (id : UInt16) (r : Bytes) (n : Nat) (h : received b = .frame id r n) (i : Nat) (hl : live l i) (hi : i % 65536 = id.toNat)
      (hu : ∀ j, live l j → j % 65536 = id.toNat → j = i) (e : Entry P) (he : l[i]? = some e) (ev : Event P)
      (hv : verdict e.call id e.priv r = .call ev) :
      Read l cb b (.read cb (if cb = .ok then some n else none) [ev, .destroy e.priv]) (mark l i .finished)

/-- One operation. -/
inductive Step (l : Ledger P) : Op P → Out P → Ledger P → Prop where
  | push {now c created o l'} (h : Push l now c created o l') : Step l (.push now c created) o l'
  | write {now room o l'} (h : Write l now o l') : Step l (.write now room) o l'
  | read {cb b o l'} (h : Read l cb b o l') : Step l (.read cb b) o l'

/-- A history. -/
inductive Run : Ledger P → List (Op P) → List (Out P) → Ledger P → Prop where
  | nil {l} : Run l [] [] l
  | cons {l op o l' ops os l''} (h : Step l op o l') (t : Run l' ops os l'') : Run l (op :: ops) (o :: os) l''

/-- Operations as the interface demands: calls within the limits of the protocol, a clock which is past its first second, and room for the largest frame. -/
def OpFine : Op P → Prop
  | .push now c _ => 1000000 ≤ now.toNat ∧ Fine c
  | .write now room => now ≠ 0 ∧ 259 ≤ room
  | .read .. => True

/-- The requests which were accepted, in order. -/
def accepted : List (Op P) → List (Out P) → List (Call × P)
  | .push _ c (.ok p) :: ops, .push .ok _ :: os => (c, p) :: accepted ops os
  | _ :: ops, _ :: os => accepted ops os
  | _, _ => []

/-- The frames which were written. -/
def frames (os : List (Out P)) : List Bytes := os.filterMap fun | .write .ok f => some f | _ => none

/-- The calls of callbacks for responses, those of each response together. -/
def answers (os : List (Out P)) : List (List (Event P)) :=
  os.filterMap fun | .read _ _ es => if es.isEmpty then none else some es | _ => none

/-- Whether an event is a response or error given to the user, with this function code, id and private data. -/
def Concerns (fn : UInt8) (id : Nat) (p : P) : Event P → Prop
  | .bytes f i _ q | .value f i _ _ q | .quantity f i _ _ q | .error f i _ q => f = fn ∧ i.toNat = id ∧ q = p
  | .destroy _ => False

end Verif.Modbus.Spec

import Verif.Endian
/-!
# Model of `src/lib/modbus/rrr_modbus.c`

The modbus client: requests are pushed, written to the connection, and responses are read.

Pointers to private data of transactions are values of a type `P`; a transaction which has been cleared holds none. The
callbacks are taken to be set. What the callbacks for creation of private data and for responses return is given as argument, and calls of the
callbacks are recorded. The clock is an argument. Debug output and allocation are not modelled.
-/
namespace Verif.Modbus
open Verif Endian

/-- `modbus.h:31-36`, return values. -/
inductive Ret where
  | ok | hard | soft | busy | done | incomplete
deriving DecidableEq, Repr

/-- Calls of callbacks. The content of a field which was never set (read from uninitialised memory) is `none`. -/
inductive Event (P : Type) where
  | bytes (fn : UInt8) (id : UInt16) (data : Bytes) (priv : P)
  | value (fn : UInt8) (id : UInt16) (addr : UInt16) (contents : Bytes) (priv : P)
  | quantity (fn : UInt8) (id : UInt16) (addr n : UInt16) (priv : P)
  | error (fn : UInt8) (id : UInt16) (code : Option UInt8) (priv : P)
  | destroy (priv : P)
deriving DecidableEq, Repr

/-- `rrr_modbus.c:105-111 struct rrr_modbus_client_transaction`. `req` holds the first `req_size` bytes of the request. A cleared
transaction has `priv = none`, and no bytes. -/
structure Transaction (P : Type) where
  id : UInt16
  req : Bytes
  time : UInt64
  priv : Option P
deriving DecidableEq, Repr

/-- `memset` to zero. -/
def Transaction.zero {P : Type} : Transaction P := ⟨0, [], 0, none⟩

/-- `rrr_modbus.c:33 RRR_MODBUS_CLIENT_TRANSACTION_MAX`. -/
def slotCount : Nat := 32

/-- `rrr_modbus.c:113-119 struct rrr_modbus_client`. -/
structure Client (P : Type) where
  idPos : UInt16
  slots : List (Transaction P)
  writePos : Nat
  transmitPos : Nat
deriving DecidableEq, Repr

/-- `rrr_modbus.c:150-168 rrr_modbus_client_new`. -/
def Client.new {P : Type} : Client P := ⟨0, List.replicate slotCount .zero, 0, 0⟩

variable {P : Type}

/-! ## Requests -/

/-- `rrr_modbus.c:642-675 __rrr_modbus_client_transaction_reserve`: position, or the error. -/
def reserve (c : Client P) (now : UInt64) : Except Ret (Nat × Client P) :=
  let t := c.slots.getD c.writePos .zero
  if t.req.length > 0 then
    if t.time > 0 ∧ t.time < now - 1 * 1000 * 1000 then .error .soft
    else .error .busy
  else
    let w := c.writePos + 1
    .ok (c.writePos, { c with writePos := if w = slotCount then 0 else w })

/-- `rrr_modbus.c:677-714 __rrr_modbus_client_req_push`. `created` is the result of the callback which creates the private data. -/
def reqPush (c : Client P) (now : UInt64) (req : Bytes) (created : Except Ret P) : Ret × List (Event P) × Client P :=
  match created with
  | .error r => (r, [], c)
  | .ok p =>
    match reserve c now with
    | .error r => (r, [.destroy p], c)
    | .ok (pos, c) => (.ok, [], { c with idPos := c.idPos + 1, slots := c.slots.set pos ⟨c.idPos, req, 0, some p⟩ })

/-- `rrr_modbus.c:716-732 __rrr_modbus_client_read_req`: the request. -/
def readReq (fn : UInt8) (addr amount : UInt16) : Bytes := fn :: (be16 addr ++ be16 amount)

/-- `rrr_modbus.c:734-750 __rrr_modbus_client_write_single_reg_req`. -/
def writeSingleReq (addr : UInt16) (contents : Bytes) : Bytes := 6 :: (be16 addr ++ contents.take 2)

/-- `rrr_modbus.c:752-777 __rrr_modbus_client_write_multiple_regs_req`. The byte count is truncated to 8 bits. -/
def writeMultipleReq (addr amount : UInt16) (contents : Bytes) : Bytes :=
  let byteCount : UInt8 := (amount * 2).toUInt8
  16 :: (be16 addr ++ be16 amount ++ [byteCount] ++ contents.take byteCount.toNat)

/-- The functions of the interface which push a request. -/
inductive Call where
  | coils (addr amount : UInt16)
  | discrete (addr amount : UInt16)
  | holding (addr amount : UInt16)
  | input (addr amount : UInt16)
  | writeSingle (addr : UInt16) (contents : Bytes)
  | writeMultiple (addr amount : UInt16) (contents : Bytes)
deriving DecidableEq, Repr

/-- `rrr_modbus.c:779-876`: the assertions of the functions and the request they push. `none` when an assertion fails. -/
def Call.req : Call → Option Bytes
  | .coils a n => if 1 ≤ n ∧ n ≤ 2000 then some (readReq 1 a n) else none
  | .discrete a n => if 1 ≤ n ∧ n ≤ 2000 then some (readReq 2 a n) else none
  | .holding a n => if 1 ≤ n ∧ n ≤ 125 then some (readReq 3 a n) else none
  | .input a n => if 1 ≤ n ∧ n ≤ 125 then some (readReq 4 a n) else none
  | .writeSingle a d => some (writeSingleReq a d)
  | .writeMultiple a n d => if 1 ≤ n ∧ n ≤ 123 then some (writeMultipleReq a n d) else none

/-- `rrr_modbus.c:779-876 rrr_modbus_client_req_*`. -/
def push (c : Client P) (now : UInt64) (call : Call) (created : Except Ret P) : Option (Ret × List (Event P) × Client P) :=
  call.req.map fun req => reqPush c now req created

/-- `rrr_modbus.c:598-640 rrr_modbus_client_write`. `room` is the size of the buffer; the assertion at L627 fails when it is too
small. -/
def write (c : Client P) (now : UInt64) (room : Nat) : Option (Ret × Bytes × Client P) :=
  let t := c.slots.getD c.transmitPos .zero
  if t.req.length = 0 ∨ t.time ≠ 0 then some (.done, [], c)
  else
    let length := t.req.length + 1
    if ¬ (length ≤ 0xffff ∧ length > 1) then none
    else if ¬ 7 + t.req.length ≤ room then none
    else
      let pos := c.transmitPos + 1
      some (.ok, be16 t.id ++ be16 0 ++ be16 (UInt16.ofNat length) ++ [0xff] ++ t.req,
        { c with transmitPos := if pos = slotCount then 0 else pos, slots := c.slots.set c.transmitPos { t with time := now } })

/-! ## Responses -/

/-- `rrr_modbus.c:193-214 __rrr_modbus_client_transaction_find_and_consume`, the loop from position `i`. -/
def findConsume (id : UInt16) : List (Transaction P) → Option (Transaction P × List (Transaction P))
  | [] => none
  | t :: ts =>
    if t.time ≠ 0 ∧ id = t.id then some (t, .zero :: ts)
    else (findConsume id ts).map fun (r, ts') => (r, t :: ts')

/-- `rrr_modbus.c:132-140 __rrr_modbus_client_transaction_reset`. -/
def reset (t : Transaction P) : List (Event P) :=
  match t.priv with
  | none => []
  | some p => [.destroy p]

/-- The private data given to a callback: for a transaction without private data there is none to record, the call is dropped. -/
def call (t : Transaction P) (cb : Ret) (f : P → Event P) : Ret × List (Event P) :=
  (cb, (t.priv.map f).toList)

/-- `rrr_modbus.c:216-264 __rrr_modbus_client_receive_byte_count_and_status`. `pdu` holds the function code and what follows. When there is
no more than the function code, the byte count is not set, and any value is refused: zero, and others because of L234. -/
def receiveBytes (t : Transaction P) (cb : Ret) (fn : UInt8) (isRegister : Bool) (pdu : Bytes) : Ret × List (Event P) :=
  match pdu.drop 1 with
  | [] => (.soft, [])
  | count :: data =>
    if count = 0 then (.soft, [])
    else if count.toNat ≠ pdu.length - 2 then (.soft, [])
    else
      let amount := at16 t.req 3
      let expected : UInt16 := if isRegister then amount * 2 else (amount + 7) / 8
      if count.toUInt16 ≠ expected then (.soft, [])
      else call t cb (.bytes fn t.id (data.take count.toNat))

/-- `rrr_modbus.c:266-293 __rrr_modbus_client_receive_starting_address_and_register_value`. -/
def receiveValue (t : Transaction P) (cb : Ret) (pdu : Bytes) : Ret × List (Event P) :=
  if pdu.length ≠ 5 then (.soft, [])
  else call t cb (.value 6 t.id (at16 pdu 1) ((pdu.drop 3).take 2))

/-- `rrr_modbus.c:295-321 __rrr_modbus_client_receive_starting_address_and_quantity`. -/
def receiveQuantity (t : Transaction P) (cb : Ret) (pdu : Bytes) : Ret × List (Event P) :=
  if pdu.length ≠ 5 then (.soft, [])
  else call t cb (.quantity 16 t.id (at16 pdu 1) (at16 pdu 3))

/-- `rrr_modbus.c:475-511`, the `switch` and the end of `__rrr_modbus_client_receive`: private data is destroyed after the callback, but not
when the frame size is refused (macro with `return`). `none` for the abort at L505. -/
def dispatch (t : Transaction P) (cb : Ret) (pdu : Bytes) : Option (Ret × List (Event P)) :=
  let fn := pdu.headD 0
  let frameSize := 7 + pdu.length
  let finish : Ret × List (Event P) → Option (Ret × List (Event P)) := fun (r, es) => some (r, es ++ reset t)
  if fn = 1 then if frameSize > 7 + 251 + 1 then some (.soft, []) else finish (receiveBytes t cb 1 false pdu)
  else if fn = 2 then if frameSize > 7 + 251 + 1 then some (.soft, []) else finish (receiveBytes t cb 2 false pdu)
  else if fn = 3 then if frameSize > 7 + 251 + 1 then some (.soft, []) else finish (receiveBytes t cb 3 true pdu)
  else if fn = 4 then if frameSize > 7 + 251 + 1 then some (.soft, []) else finish (receiveBytes t cb 4 true pdu)
  else if fn = 6 then if frameSize > 7 + 4 + 1 then some (.soft, []) else finish (receiveValue t cb pdu)
  else if fn = 16 then if frameSize > 7 + 4 + 1 then some (.soft, []) else finish (receiveQuantity t cb pdu)
  else none

/-- `rrr_modbus.c:438-515 __rrr_modbus_client_receive`, for the transaction which was found. The checks of frame size and function code leave the function
without destroying the private data (`return` in the macros, L422-436). -/
def receiveFor (t : Transaction P) (cb : Ret) (pdu : Bytes) : Option (Ret × List (Event P)) :=
  let fn := pdu.headD 0
  if fn > 0x80 then
    if 7 + pdu.length > 7 + 1 + 1 then some (.soft, [])
    else if fn - 0x80 ≠ t.req.headD 0 then some (.soft, [])
    else
      let (r, es) := call t cb (.error (fn - 0x80) t.id (pdu[1]?))
      some (r, es ++ reset t)
  else if fn ≠ t.req.headD 0 then some (.soft, [])
  else if ¬ pdu.length ≤ 0xfffe then none
  else dispatch t cb pdu

/-- `rrr_modbus.c:438-515 __rrr_modbus_client_receive`. -/
def receive (c : Client P) (cb : Ret) (id : UInt16) (pdu : Bytes) : Option (Ret × List (Event P) × Client P) :=
  match findConsume id c.slots with
  | none => some (.soft, [], c)
  | some (t, slots) => (receiveFor t cb pdu).map fun (r, es) => (r, es, { c with slots := slots })

/-- `rrr_modbus.c:517-596 rrr_modbus_client_read`: return value, the size of the frame when it was accepted, callbacks. -/
def read (c : Client P) (cb : Ret) (data : Bytes) : Option (Ret × Option Nat × List (Event P) × Client P) :=
  if data.length < 7 then some (.incomplete, none, [], c)
  else
    let id := at16 data 0
    let length := (at16 data 4).toNat
    let frameSize := 6 + length
    if length < 1 then some (.soft, none, [], c)
    else if data.length < frameSize then some (.incomplete, none, [], c)
    else if frameSize - 7 < 1 then some (.soft, none, [], c)
    else if frameSize - 7 > 252 then some (.soft, none, [], c)
    else
      (receive c cb id ((data.drop 7).take (frameSize - 7))).map fun (r, es, c) =>
        (r, if r = .ok then some frameSize else none, es, c)

/-! ## Histories -/

/-- What may happen to a client. -/
inductive Op (P : Type) where
  | push (now : UInt64) (call : Call) (created : Except Ret P)
  | write (now : UInt64) (room : Nat)
  | read (cb : Ret) (data : Bytes)

/-- What can be seen of an operation. -/
inductive Out (P : Type) where
  | push (r : Ret) (es : List (Event P))
  | write (r : Ret) (frame : Bytes)
  | read (r : Ret) (used : Option Nat) (es : List (Event P))
deriving DecidableEq, Repr

/-- One operation; `none` when the program aborts. -/
def step (c : Client P) : Op P → Option (Out P × Client P)
  | .push now call created => (push c now call created).map fun (r, es, c) => (.push r es, c)
  | .write now room => (write c now room).map fun (r, f, c) => (.write r f, c)
  | .read cb data => (read c cb data).map fun (r, n, es, c) => (.read r n es, c)

/-- A history, from the given state. -/
def run (c : Client P) : List (Op P) → Option (List (Out P) × Client P)
  | [] => some ([], c)
  | op :: ops => (step c op).bind fun (o, c) => (run c ops).map fun (os, c) => (o :: os, c)

end Verif.Modbus

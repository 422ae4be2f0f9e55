import Verif.Topic.Model
/-!
# Model of access checking in `src/lib/mqtt/mqtt_acl.c` and its use in `mqtt_broker.c`
-/
namespace Verif.Acl
open Verif Topic

/-- `mqtt_acl.h:27-30`: the three values of `RRR_MQTT_ACL_ACTION_*`. -/
inductive Action where
  | deny | ro | rw
deriving DecidableEq, Repr

/-- `mqtt_acl.h:32-35`: `RRR_MQTT_ACL_RESULT_*`; `abort` is a process abort (`RRR_BUG`). -/
inductive Result where
  | allow | deny | disconnect | abort
deriving DecidableEq, Repr

/-- `mqtt_acl.h:39-43 struct rrr_mqtt_acl_user_entry`. -/
structure UserEntry where
  username : Bytes
  action : Action
deriving DecidableEq, Repr

/-- `mqtt_acl.h:45-52 struct rrr_mqtt_acl_entry`; `topic_orig` is only used in messages. -/
structure Entry where
  defaultAction : Action
  users : List UserEntry
  tokens : List Bytes
deriving DecidableEq, Repr

/-- `mqtt_acl.c:532-569 __rrr_mqtt_acl_check_access_single`. -/
def checkSingle (action requested : Action) : Result :=
  let allowWrite := match action with | .rw => true | _ => false
  let allowRead := match action with | .rw => true | .ro => true | .deny => false
  match requested with
  | .ro => if allowRead then .allow else .deny
  | .rw => if allowWrite then .allow else .deny
  | .deny => .abort

/-- `mqtt_acl.c:593-602`: the loop over the user entries of one rule. -/
def checkUsers (requested : Action) (username : Bytes) : Result → List UserEntry → Result
  | ret, [] => ret
  | ret, u :: us =>
    checkUsers requested username
      (if u.username = username then checkSingle u.action requested else ret) us

/-- `mqtt_acl.c:582-606`: the loop over rules. `username = none` is `NULL`.
A `match_function` which aborts aborts the check. -/
def checkLoop (matchFn : List Bytes → List Bytes → Res) (topic : List Bytes) (requested : Action)
    (username : Option Bytes) : Result → List Entry → Result
  | ret, [] => ret
  | ret, e :: es =>
    match matchFn e.tokens topic with
    | .abort => .abort
    | .mismatch => checkLoop matchFn topic requested username ret es
    | .match =>
      let ret := checkSingle e.defaultAction requested                     -- L587
      let ret := match username with
        | none => ret
        | some u => if u = [] then ret else checkUsers requested u ret e.users   -- L592
      checkLoop matchFn topic requested username ret es

/-- `mqtt_acl.c:571-609 rrr_mqtt_acl_check_access`. -/
def checkAccess (matchFn : List Bytes → List Bytes → Res) (acl : List Entry) (topic : List Bytes)
    (requested : Action) (username : Option Bytes) : Result :=
  checkLoop matchFn topic requested username .deny acl

/-- `mqtt_acl.c:507-530 rrr_mqtt_acl_entry_collection_push_allow_all` (no allocation failure). -/
def pushAllowAll (acl : List Entry) : List Entry :=
  acl ++ [{ defaultAction := .rw, users := [], tokens := tokenize [hash] }]

/-- The boolean ACL matcher as `match_function`. -/
def matchFnAcl (m s : List Bytes) : Res := if matchTokensAcl m s then .match else .mismatch

/-- `mqtt_broker.c:1054-1081 __rrr_mqtt_broker_acl_handler_subscribe`: the
verdict for each requested subscription (`true` = allowed, otherwise its reason
becomes NOT_AUTHORIZED). -/
def handlerSubscribe (acl : List Entry) (username : Option Bytes) (filters : List (List Bytes)) : List Bool :=
  filters.map fun f => checkAccess matchFnAcl acl f .ro username = .allow

/-- `mqtt_broker.c:1083-1101 __rrr_mqtt_broker_acl_handler_publish`. -/
def handlerPublish (acl : List Entry) (username : Option Bytes) (topic : List Bytes)
    (isV5 disconnectOnV31Deny : Bool) : Result :=
  let ret := checkAccess matchTokens acl topic .rw username
  if ret = .deny ∧ isV5 = false ∧ disconnectOnV31Deny = true then .disconnect else ret

end Verif.Acl

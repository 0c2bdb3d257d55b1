import Verif.Model.Rpc
/-
JSON-RPC 2.0 messages, independently of the dispatcher.
-/
namespace Verif.JsonRpc
open Rpc

/-- A message object: its `jsonrpc` member is the string "2.0". -/
def IsMessage (fields : List (Bytes × Json)) : Prop := fields.lookup b!"jsonrpc" = some (.str b!"2.0")

/-- The member `k`, `null` if absent. -/
def memberOrNull (fields : List (Bytes × Json)) (k : Bytes) : Json := (fields.lookup k).getD .null

/-- A notification: a method and no id. -/
inductive IsNotification : Json → Bytes → Json → Prop
  | mk (fields method) : IsMessage fields → fields.lookup b!"method" = some (.str method) → fields.lookup b!"id" = none →
    IsNotification (.obj fields) method (memberOrNull fields b!"params")

/-- A request: a method and an id. -/
inductive IsRequest : Json → Json → Bytes → Json → Prop
  | mk (fields method id) : IsMessage fields → fields.lookup b!"method" = some (.str method) →
    fields.lookup b!"id" = some id → IsRequest (.obj fields) id method (memberOrNull fields b!"params")

/-- `method` is absent or not a string. -/
def NoMethod (fields : List (Bytes × Json)) : Prop := ∀ s, fields.lookup b!"method" ≠ some (.str s)

/-- A response: no method, an id, and an error object or a result (`null` if absent). -/
inductive IsResponse : Json → Json → Result → Prop
  | ok (fields id) : IsMessage fields → NoMethod fields → fields.lookup b!"id" = some id →
    (∀ e, fields.lookup b!"error" ≠ some (.obj e)) → IsResponse (.obj fields) id (.ok (memberOrNull fields b!"result"))
  | error (fields id e msg code) : IsMessage fields → NoMethod fields → fields.lookup b!"id" = some id →
    fields.lookup b!"error" = some (.obj e) →
    ((∃ m, e.lookup b!"message" = some (.str m) ∧ msg = m) ∨
      ((∀ m, e.lookup b!"message" ≠ some (.str m)) ∧ msg = b!"Unspecified error")) →
    code = (e.lookup b!"code").bind Json.asInteger →
    IsResponse (.obj fields) id (.error ⟨msg, code⟩)

/-- The three well-formed kinds of messages. -/
def WellFormed (m : Json) : Prop :=
  (∃ method params, IsNotification m method params) ∨ (∃ id method params, IsRequest m id method params) ∨
    (∃ id r, IsResponse m id r)

end Verif.JsonRpc

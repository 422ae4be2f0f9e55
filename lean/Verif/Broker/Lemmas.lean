import Verif.Broker.Spec
import Verif.Session.Received
import Verif.Session.SendProps
/-!
# Lemmas about the broker: lists, histories and the invariant
-/
namespace Verif.Broker
open Verif Session Spec

/-! ## Histories -/

theorem foldl_same {α β : Type} (f : β → α → β) (x : β) : ∀ (l : List α), (∀ e ∈ l, ∀ y, f y e = y) → l.foldl f x = x := by
  intro l
  induction l with
  | nil => intro _; rfl
  | cons e l ih =>
    intro h
    rw [List.foldl_cons, h e List.mem_cons_self]
    exact ih fun e' he => h e' (List.mem_cons_of_mem _ he)

/-- An event which says nothing about the session of the client. -/
structure Foreign (c : Bytes) (e : Ev) : Prop where
  subs : ∀ l, subsStep c l e = l
  settings : ∀ x, settingsStep c x e = x
  heard : ∀ t, heardStep c t e = t
  ended : ∀ t, endedStep c t e = t
  will : ∀ w, willStep c w e = w
  ops : ∀ l, opsStep c l e = l

theorem subscriptions_app (c : Bytes) (h e : List Ev) : subscriptions c (h ++ e) = e.foldl (subsStep c) (subscriptions c h) := List.foldl_append
theorem settings_app (c : Bytes) (h e : List Ev) : settings c (h ++ e) = e.foldl (settingsStep c) (settings c h) := List.foldl_append
theorem heard_app (c : Bytes) (h e : List Ev) : heard c (h ++ e) = e.foldl (heardStep c) (heard c h) := List.foldl_append
theorem ended_app (c : Bytes) (h e : List Ev) : ended c (h ++ e) = e.foldl (endedStep c) (ended c h) := List.foldl_append
theorem will_app (c : Bytes) (h e : List Ev) : will c (h ++ e) = e.foldl (willStep c) (will c h) := List.foldl_append
theorem ops_app (c : Bytes) (h e : List Ev) : ops c (h ++ e) = e.foldl (opsStep c) (ops c h) := List.foldl_append
theorem user_app (c : Bytes) (h e : List Ev) : user c (h ++ e) = e.foldl (userStep c) (user c h) := List.foldl_append
theorem live_app (h e : List Ev) : live (h ++ e) = e.foldl liveStep (live h) := List.foldl_append
theorem retained_app (h e : List Ev) : retained (h ++ e) = e.foldl retainStep (retained h) := List.foldl_append

theorem foreign_op {c d : Bytes} (h : d ≠ c) (o : Session.Op) (r : Out) (v : Option Nat) : Foreign c (.op d o r v) where
  subs := by
    intro l
    cases o with
    | init m r t g cl => cases cl <;> simp [subsStep, h]
    | _ => rfl
  settings := fun _ => rfl
  heard := fun _ => rfl
  ended := fun _ => rfl
  will := fun _ => rfl
  ops := by intro l; simp [opsStep, h]

theorem foreign_created {c d : Bytes} (h : d ≠ c) (t : Nat) : Foreign c (.created d t) := by
  constructor <;> intro x <;> simp [subsStep, settingsStep, heardStep, endedStep, willStep, opsStep, h]

theorem foreign_connected {c d : Bytes} (h : d ≠ c) (u : Bytes) (e m : Nat) (w : Option Will) : Foreign c (.connected d u e m w) := by
  constructor <;> intro x <;> simp [subsStep, settingsStep, heardStep, endedStep, willStep, opsStep, h]

theorem foreign_disconnected {c d : Bytes} (h : d ≠ c) (t : Nat) (r : UInt8) : Foreign c (.disconnected d t r) := by
  constructor <;> intro x <;> simp [subsStep, settingsStep, heardStep, endedStep, willStep, opsStep, h]

theorem foreign_subscribed {c d : Bytes} (h : d ≠ c) (t : Nat) (x n : List Subscription.Sub) : Foreign c (.subscribed d t x n) := by
  constructor <;> intro x <;> simp [subsStep, settingsStep, heardStep, endedStep, willStep, opsStep, h]

theorem foreign_unsubscribed {c d : Bytes} (h : d ≠ c) (f : List (Bytes × Nat)) : Foreign c (.unsubscribed d f) := by
  constructor <;> intro x <;> simp [subsStep, settingsStep, heardStep, endedStep, willStep, opsStep, h]

theorem foreign_heartbeat {c d : Bytes} (h : d ≠ c) (t : Nat) : Foreign c (.heartbeat d t) := by
  constructor <;> intro x <;> simp [subsStep, settingsStep, heardStep, endedStep, willStep, opsStep, h]

theorem foreign_removed (c d : Bytes) (t : Nat) : Foreign c (.removed d t) := by
  constructor <;> intro x <;> rfl

theorem foreign_connack (c : Bytes) (k : Nat) (d : Bytes) (r : UInt8) (p : Bool) : Foreign c (.connack k d r p) := by
  constructor <;> intro x <;> rfl

theorem foreign_suback (c : Bytes) (k : Nat) (l : List Nat) : Foreign c (.suback k l) := by
  constructor <;> intro x <;> rfl

theorem foreign_published (c : Bytes) (t : Nat) (p : Pub) (src : Source) (h : src ≠ .will c) : Foreign c (.published t p src) := by
  constructor <;> intro x <;> try rfl
  cases src with
  | client => rfl
  | will d => simp only [willStep]; rw [if_neg]; rintro rfl; exact h rfl

/-- An event after which the same sessions and retained messages exist. -/
structure Still (e : Ev) : Prop where
  live : ∀ l, liveStep l e = l
  retained : ∀ l, retainStep l e = l

/-- An event which is not about a successful CONNECT. -/
def Quiet : Ev → Prop
  | .connack _ _ r _ => r ≠ 0
  | .connected _ _ _ _ _ => False
  | _ => True

theorem user_quiet (c : Bytes) (h e : List Ev) (hq : ∀ x ∈ e, Quiet x) : user c (h ++ e) = user c h := by
  rw [user_app]
  refine foldl_same _ _ _ fun x hx y => ?_
  have := hq x hx
  cases x <;> first | rfl | exact absurd this (by simp [Quiet])

/-! ## What holds at each event -/

/-- All of it. -/
structure Ok (cfg : Config) (before : List Ev) (e : Ev) (after : List Ev) : Prop where
  forwards : Forwards before e after
  onlyForwarded : OnlyForwarded before e after
  retains : Retains before e after
  onlyRetained : OnlyRetained before e after
  loggedIn : LoggedIn cfg before e after
  mayWrite : MayWrite cfg before e after
  mayRead : MayRead cfg before e after
  wasReceived : WasReceived before e after
  willOnce : WillOnce before e after
  removedWhen : RemovedWhen before e after
  own : OwnConnection before e after
  present : Present before e after
  distributes : Distributes before e after
  suback : SubAcked before e after
  onlyDistributed : OnlyDistributed before e after

theorem Ok.more {cfg : Config} {a : List Ev} {e : Ev} {b : List Ev} (o : Ok cfg a e b) (c : List Ev) : Ok cfg a e (b ++ c) where
  forwards := fun now p src he => by obtain ⟨r, hr⟩ := o.forwards now p src he; exact ⟨r ++ c, by rw [hr]; simp⟩
  onlyForwarded := o.onlyForwarded
  retains := fun d now xs new he => by
    obtain ⟨h1, r, hr⟩ := o.retains d now xs new he; exact ⟨h1, r ++ c, by rw [hr]; simp⟩
  onlyRetained := o.onlyRetained
  loggedIn := o.loggedIn
  mayWrite := o.mayWrite
  mayRead := o.mayRead
  wasReceived := o.wasReceived
  willOnce := fun now p d he => by
    obtain ⟨a, u, x, m, w, b', t, r, d', h1, h2, h3, h4, h5, h6, h7, h8⟩ := o.willOnce now p d he
    refine ⟨a, u, x, m, w, b', t, r, d', h1, h2, h3, h4, h5, h6, h7, ?_⟩
    rcases h8 with h8 | h8 | ⟨rest, h8⟩
    · exact .inl h8
    · exact .inr (.inl h8)
    · exact .inr (.inr ⟨rest ++ c, by rw [h8]; simp⟩)
  removedWhen := o.removedWhen
  own := o.own
  present := o.present
  distributes := fun d x r k he => by obtain ⟨n, rest, hr⟩ := o.distributes d x r k he; exact ⟨n, rest ++ c, by rw [hr]; simp⟩
  suback := o.suback
  onlyDistributed := o.onlyDistributed

/-- Append events. -/
theorem atEach_app {cfg : Config} {h e : List Ev} (h1 : Spec.AtEach (Ok cfg) h) (h2 : ∀ e1 x e2, e = e1 ++ x :: e2 → Ok cfg (h ++ e1) x e2) :
    Spec.AtEach (Ok cfg) (h ++ e) := by
  intro before x after heq
  rcases split_append heq with ⟨k, hk⟩ | ⟨e1, hk, hb⟩
  · have : after = k ++ e := by
      rw [hk, List.append_assoc, List.cons_append] at heq
      have := List.append_cancel_left heq
      simpa using this.symm
    rw [this]
    exact (h1 before x k hk).more e
  · rw [hb]; exact h2 e1 x after hk

theorem atEach_snoc {cfg : Config} {h : List Ev} {x : Ev} (h1 : Spec.AtEach (Ok cfg) h) (h2 : Ok cfg h x []) : Spec.AtEach (Ok cfg) (h ++ [x]) := by
  refine atEach_app h1 fun e1 y e2 he => ?_
  cases e1 with
  | nil => simp at he; obtain ⟨rfl, rfl⟩ := he; simpa using h2
  | cons z e1 => simp at he

/-- An event about which nothing needs to be shown. -/
macro "ok_rest" : tactic => `(tactic| (intro _; intros; first | contradiction | (rename_i he; cases he; done)))

end Verif.Broker

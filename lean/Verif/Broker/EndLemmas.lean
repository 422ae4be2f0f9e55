import Verif.Broker.PublishLemmas
/-!
# Wills, ends of connections and ends of sessions keep the invariant
-/
namespace Verif.Broker
open Verif Session Spec

/-- Events about which nothing needs to be shown. -/
def Boring : Ev → Prop
  | .created _ _ => True
  | .heartbeat _ _ => True
  | .unsubscribed _ _ => True
  | .disconnected _ _ _ => True
  | .connack _ _ r _ => r ≠ 0
  | .op _ (.tick _) _ none => True
  | .op _ (.init _ _ _ _ _) _ none => True
  | _ => False

theorem ok_boring (cfg : Config) (a b : List Ev) {e : Ev} (he : Boring e) : Ok cfg a e b := by
  unfold Boring at he
  split at he <;> first
    | exact he.elim
    | (constructor <;> first | ok_rest | (intro _ _ _ h'; cases h'; exact absurd rfl he))

theorem atEach_boring {cfg : Config} {h es : List Ev} (hh : Spec.AtEach (Ok cfg) h) (hb : ∀ e ∈ es, Boring e) : Spec.AtEach (Ok cfg) (h ++ es) :=
  atEach_app hh fun _ x _ he => ok_boring cfg _ _ (hb x (by rw [he]; simp))

/-! ## Wills -/

theorem FreshWills.more {h : List Ev} (f : FreshWills h) (e : List Ev) (he : ∀ x ∈ e, Quiet x) : FreshWills (h ++ e) := by
  intro c u x m w hm
  rcases List.mem_append.mp hm with hm | hm
  · exact f c u x m w hm
  · exact (he _ hm).elim

/-- Nothing has happened to the will of the client. -/
def Untouched (c : Bytes) (l : List Ev) : Prop :=
  (∀ e ∈ l, ∀ u x m w, e ≠ .connected c u x m w) ∧ (∀ e ∈ l, ∀ t p, e ≠ .published t p (.will c)) ∧ (∀ e ∈ l, ∀ t, e ≠ .disconnected c t 0)

theorem Untouched.snoc {c : Bytes} {l : List Ev} {e : Ev} (h : Untouched c l) (h1 : ∀ u x m w, e ≠ .connected c u x m w)
    (h2 : ∀ t p, e ≠ .published t p (.will c)) (h3 : ∀ t, e ≠ .disconnected c t 0) : Untouched c (l ++ [e]) := by
  refine ⟨fun y hy => ?_, fun y hy => ?_, fun y hy => ?_⟩ <;> rcases List.mem_append.mp hy with hy | hy
  · exact h.1 y hy
  · simp at hy; subst hy; exact h1
  · exact h.2.1 y hy
  · simp at hy; subst hy; exact h2
  · exact h.2.2 y hy
  · simp at hy; subst hy; exact h3

/-- Where a will comes from. -/
theorem will_hist (c : Bytes) : ∀ (n : Nat) (h : List Ev), h.length = n → FreshWills h → ∀ w, will c h = some w →
    ∃ a u x m w0 b, h = a ++ .connected c u x m (some w0) :: b ∧ w.pub = w0.pub ∧ w.delay = w0.delay ∧ Untouched c b ∧
      (w.planned ≠ 0 → ∃ b1 t r d, b = b1 ++ .disconnected c t r :: d ∧ r ≠ 0 ∧ r ≠ 0x8E ∧ w.planned = t + w0.delay * 1000000 % 2 ^ 32) := by
  intro n
  induction n with
  | zero =>
    intro h hl _ w hw
    rw [List.eq_nil_of_length_eq_zero hl] at hw
    cases hw
  | succ n ih =>
    intro h hl hf w hw
    rcases List.eq_nil_or_concat h with rfl | ⟨h0, e, rfl⟩
    · cases hl
    rw [List.concat_eq_append] at *
    have hl0 : h0.length = n := by simpa using hl
    have hf0 : FreshWills h0 := fun c u x m w hm => hf c u x m w (List.mem_append.mpr (.inl hm))
    rw [will_app, List.foldl_cons, List.foldl_nil] at hw
    -- an event which does not change the will
    have keep : will c h0 = some w → (∀ u x m w, e ≠ .connected c u x m w) → (∀ t p, e ≠ .published t p (.will c)) → (∀ t, e ≠ .disconnected c t 0) →
        ∃ a u x m w0 b, h0 ++ [e] = a ++ .connected c u x m (some w0) :: b ∧ w.pub = w0.pub ∧ w.delay = w0.delay ∧ Untouched c b ∧
          (w.planned ≠ 0 → ∃ b1 t r d, b = b1 ++ .disconnected c t r :: d ∧ r ≠ 0 ∧ r ≠ 0x8E ∧ w.planned = t + w0.delay * 1000000 % 2 ^ 32) := by
      intro hw h1 h2 h3
      obtain ⟨a, u, x, m, w0, b, rfl, hp, hd, hu, ht⟩ := ih h0 hl0 hf0 w hw
      refine ⟨a, u, x, m, w0, b ++ [e], by simp, hp, hd, hu.snoc h1 h2 h3, fun hne => ?_⟩
      obtain ⟨b1, t, r, d, rfl, hr⟩ := ht hne
      exact ⟨b1, t, r, d ++ [e], by simp, hr⟩
    cases e with
    | created d t =>
      simp only [willStep] at hw
      split at hw
      · cases hw
      · exact keep hw (by rintro _ _ _ _ ⟨⟩) (by rintro _ _ ⟨⟩) (by rintro _ ⟨⟩)
    | connected d u x m w' =>
      simp only [willStep] at hw
      split at hw
      · next hd =>
        subst hd hw
        refine ⟨h0, u, x, m, w, [], rfl, rfl, rfl, ⟨by simp, by simp, by simp⟩, fun hne => ?_⟩
        exact absurd (hf d u x m w (by simp)) hne
      · next hd => exact keep hw (by rintro _ _ _ _ ⟨⟩; exact hd rfl) (by rintro _ _ ⟨⟩) (by rintro _ ⟨⟩)
    | disconnected d t r =>
      simp only [willStep] at hw
      split at hw
      · next hd =>
        obtain ⟨rfl, hr⟩ := hd
        split at hw
        · cases hw
        · next hr0 =>
          obtain ⟨w1, hw1, rfl⟩ := Option.map_eq_some_iff.mp hw
          obtain ⟨a, u, x, m, w0, b, rfl, hp, hd, hu, _⟩ := ih h0 hl0 hf0 w1 hw1
          refine ⟨a, u, x, m, w0, b ++ [.disconnected d t r], by simp, hp, hd,
            hu.snoc (by rintro _ _ _ _ ⟨⟩) (by rintro _ _ ⟨⟩) (by rintro _ ⟨⟩; exact hr0 rfl), fun _ => ?_⟩
          exact ⟨b, t, r, [], by simp, hr0, hr, by rw [← hd]⟩
      · next hd =>
        exact keep hw (by rintro _ _ _ _ ⟨⟩) (by rintro _ _ ⟨⟩) (by rintro _ ⟨⟩; exact hd ⟨rfl, by decide⟩)
    | published t p src =>
      cases src with
      | client d u => exact keep hw (by rintro _ _ _ _ ⟨⟩) (by rintro _ _ ⟨⟩) (by rintro _ ⟨⟩)
      | will d =>
        simp only [willStep] at hw
        split at hw
        · cases hw
        · next hd => exact keep hw (by rintro _ _ _ _ ⟨⟩) (by rintro _ _ ⟨⟩; exact hd rfl) (by rintro _ ⟨⟩)
    | connack _ _ _ _ => exact keep hw (by rintro _ _ _ _ ⟨⟩) (by rintro _ _ ⟨⟩) (by rintro _ ⟨⟩)
    | removed _ _ => exact keep hw (by rintro _ _ _ _ ⟨⟩) (by rintro _ _ ⟨⟩) (by rintro _ ⟨⟩)
    | op _ _ _ _ => exact keep hw (by rintro _ _ _ _ ⟨⟩) (by rintro _ _ ⟨⟩) (by rintro _ ⟨⟩)
    | subscribed _ _ _ _ => exact keep hw (by rintro _ _ _ _ ⟨⟩) (by rintro _ _ ⟨⟩) (by rintro _ ⟨⟩)
    | suback _ _ => exact keep hw (by rintro _ _ _ _ ⟨⟩) (by rintro _ _ ⟨⟩) (by rintro _ ⟨⟩)
    | unsubscribed _ _ => exact keep hw (by rintro _ _ _ _ ⟨⟩) (by rintro _ _ ⟨⟩) (by rintro _ ⟨⟩)
    | heartbeat _ _ => exact keep hw (by rintro _ _ _ _ ⟨⟩) (by rintro _ _ ⟨⟩) (by rintro _ ⟨⟩)

/-- A will which is due is published for a reason. -/
theorem willOnce_of {c : Bytes} {h : List Ev} {now : Nat} {w : Will} (hf : FreshWills h) (hw : will c h = some w) (hp : w.planned ≠ 0) (after : List Ev)
    (hdue : w.planned ≤ now ∨ c ∉ live h ∨ ∃ rest, after = forwarded h w.pub ++ .removed c now :: rest) :
    WillOnce h (.published now w.pub (.will c)) after := by
  intro now' p c' he
  cases he
  obtain ⟨a, u, x, m, w0, b, rfl, hpub, hdel, hu, ht⟩ := will_hist c _ h rfl hf w hw
  obtain ⟨b1, t, r, d, rfl, hr0, hr1, hpl⟩ := ht hp
  have sub : ∀ e ∈ b1 ++ d, e ∈ b1 ++ .disconnected c t r :: d := by
    intro e he
    rcases List.mem_append.mp he with he | he
    · exact List.mem_append.mpr (.inl he)
    · exact List.mem_append.mpr (.inr (List.mem_cons_of_mem _ he))
  refine ⟨a, u, x, m, w0, b1, t, r, d, rfl, hpub, hr0, hr1, fun e he => hu.1 e (sub e he), fun e he => hu.2.1 e (sub e he), fun e he => hu.2.2 e (sub e he), ?_⟩
  rcases hdue with h1 | h1 | h1
  · exact .inl (by rw [← hpl]; exact h1)
  · exact .inr (.inl h1)
  · exact .inr (.inr h1)

/-- What is not changed by the publication of a will. -/
structure Like (s s' : Sess) : Prop where
  ref : s'.ref = s.ref
  client : s'.client = s.client
  expireTime : s'.expireTime = s.expireTime
  expiry : s'.expiry = s.expiry
  heartbeat : s'.heartbeat = s.heartbeat

theorem Like.rfl' (s : Sess) : Like s s := ⟨rfl, rfl, rfl, rfl, rfl⟩

/-- A session loses its will. -/
theorem Base.noWill {b : Broker} {h : List Ev} (G : Base b h) {s : Sess} (hs : s ∈ b.sessions) : Base (b.put { s with will := none }) h := by
  have c := G.core s hs
  have t := G.tail s hs
  have := G.put (s' := { s with will := none }) hs rfl rfl [] (by simp) (by rw [List.append_nil]; exact ⟨c.subs, c.subsOk, c.filters, c.heartbeat, c.q, c.valid, c.recv⟩)
    (by rw [List.append_nil]; exact ⟨t.maxPacket, t.expiry, t.expireTime, t.notZero⟩) (by intro w hw; cases hw)
  rwa [List.append_nil] at this

/-- The will of a session, which may have been removed, is published if it is due. -/
theorem willMaintain_base {b : Broker} {h : List Ev} (G : Base b h) (W : Wills b h) (s : Sess) (now : Nat) (force : Bool)
    (hv : ∀ w, s.will = some w → ValidPub w.pub)
    (h1 : ∀ t ∈ b.sessions, t.client = s.client ↔ t.ref = s.ref) :
    ∃ b' es, willMaintain now force s b = some (b', es) ∧ Base b' (h ++ es) ∧ Wills b' (h ++ es) ∧ b'.conns = b.conns ∧ b'.serial = b.serial ∧
      (∀ t' ∈ b'.sessions, ∃ t ∈ b.sessions, Like t t') ∧ (∀ t ∈ b.sessions, ∃ t' ∈ b'.sessions, Like t t') ∧
      (es = [] ∨ ∃ w, willDue now force s = some w ∧ es = .published now w.pub (.will s.client) :: forwarded h w.pub) := by
  unfold willMaintain
  cases hd : willDue now force s with
  | none =>
    exact ⟨b, [], rfl, by rwa [List.append_nil], by rwa [List.append_nil], rfl, rfl, fun t ht => ⟨t, ht, .rfl' t⟩, fun t ht => ⟨t, ht, .rfl' t⟩, .inl rfl⟩
  | some w =>
    have hw : s.will = some w := by
      unfold willDue at hd
      split at hd
      · next w' hw' => split at hd <;> simp at hd; rw [hw', hd]
      · cases hd
    obtain ⟨b', hb', G', hc, hser, hse⟩ := publish_base G (hv w hw) now (.will s.client)
    simp only [hb', Option.map_some]
    have hmap : ∀ t' ∈ b'.sessions, ∃ t ∈ b.sessions, Like t t' ∧ t'.will = t.will := by
      rw [hse]
      intro t' ht'
      obtain ⟨t, ht, rfl⟩ := List.mem_map.mp ht'
      exact ⟨t, ht, ⟨rfl, rfl, rfl, rfl, rfl⟩, rfl⟩
    have hmap2 : ∀ t ∈ b.sessions, ∃ t' ∈ b'.sessions, Like t t' := by
      rw [hse]
      intro t ht
      exact ⟨_, List.mem_map.mpr ⟨t, ht, rfl⟩, ⟨rfl, rfl, rfl, rfl, rfl⟩⟩
    have W' : ∀ t' ∈ b'.sessions, t'.ref ≠ s.ref → t'.will = will t'.client (h ++ .published now w.pub (.will s.client) :: forwarded h w.pub) := by
      intro t' ht' hne
      obtain ⟨t, ht, hl, hw⟩ := hmap t' ht'
      rw [will_published, if_neg, hw, hl.client]
      · exact W t ht
      · intro heq
        simp only [Source.will.injEq] at heq
        exact hne (by rw [hl.ref]; exact (h1 t ht).mp (by rw [← hl.client, heq]))
    cases hf : b'.find s.ref with
    | none =>
      refine ⟨_, _, rfl, G', fun t ht => W' t ht (find_none hf t ht), hc, hser, fun t' ht' => ?_, hmap2, .inr ⟨w, rfl, rfl⟩⟩
      obtain ⟨t, ht, hl, _⟩ := hmap t' ht'
      exact ⟨t, ht, hl⟩
    | some s1 =>
      obtain ⟨hs1, hr1⟩ := find_mem hf
      refine ⟨_, _, rfl, G'.noWill hs1, ?_, hc, hser, ?_, ?_, .inr ⟨w, rfl, rfl⟩⟩
      · intro t' ht'
        rcases mem_put ht' with rfl | ⟨ht', hne⟩
        · obtain ⟨t, ht, hl, _⟩ := hmap s1 hs1
          rw [will_published, if_pos]
          rw [Source.will.injEq]
          show s.client = s1.client
          rw [hl.client]; exact ((h1 t ht).mpr (by rw [← hl.ref, hr1])).symm
        · exact W' t' ht' (by rw [← hr1]; exact hne)
      · intro t' ht'
        rcases mem_put ht' with rfl | ⟨ht', hne⟩
        · obtain ⟨t, ht, hl, _⟩ := hmap s1 hs1
          exact ⟨t, ht, hl.1, hl.2, hl.3, hl.4, hl.5⟩
        · obtain ⟨t, ht, hl, _⟩ := hmap t' ht'
          exact ⟨t, ht, hl⟩
      · intro t ht
        obtain ⟨t', ht', hl⟩ := hmap2 t ht
        by_cases he : t'.ref = s1.ref
        · have : t' = s1 := map_nodup_inj (·.ref) G'.refs ht' hs1 he
          subst this
          exact ⟨_, put_self (s := { t' with will := none }) ht' rfl, hl.1, hl.2, hl.3, hl.4, hl.5⟩
        · exact ⟨t', put_mem ht' he, hl⟩

theorem willDue_spec {now : Nat} {force : Bool} {s : Sess} {w : Will} (h : willDue now force s = some w) :
    s.will = some w ∧ w.planned ≠ 0 ∧ (force = true ∨ w.planned ≤ now) := by
  unfold willDue at h
  split at h
  · next w' hw' =>
    split at h
    · next hc => simp only [Option.some.injEq] at h; subst h; exact ⟨hw', hc.1, hc.2⟩
    · cases h
  · cases h

/-! ## Removal -/

theorem remove_clients {b : Broker} {h : List Ev} (G : Base b h) {s : Sess} (hs : s ∈ b.sessions) :
    (b.remove s.ref).sessions.map (·.client) = (live h).filter (· ≠ s.client) := by
  unfold Broker.remove
  rw [← G.clients, List.filter_map]
  congr 1
  refine List.filter_congr fun t ht => ?_
  simp only [Function.comp]
  by_cases hr : t.ref = s.ref
  · have : t = s := map_nodup_inj (·.ref) G.refs ht hs hr
    subst this; simp
  · have : t.client ≠ s.client := fun he => hr (by rw [map_nodup_inj (·.client) (by rw [G.clients]; exact G.nodup) ht hs he])
    simp [hr, this]

theorem mem_remove {b : Broker} {r : Nat} {t : Sess} : t ∈ (b.remove r).sessions ↔ t ∈ b.sessions ∧ t.ref ≠ r := by
  unfold Broker.remove
  simp

/-- A session is removed, after some events which are only about this session. -/
theorem Base.remove {b : Broker} {h : List Ev} (G : Base b h) {s : Sess} (hs : s ∈ b.sessions) (es : List Ev) (now : Nat)
    (hf : ∀ e ∈ es, (∀ d, d ≠ s.client → Foreign d e) ∧ Still e ∧ Quiet e) : Base (b.remove s.ref) (h ++ (es ++ [.removed s.client now])) := by
  have hother : ∀ t ∈ (b.remove s.ref).sessions, t ∈ b.sessions ∧ ∀ e ∈ es ++ [.removed s.client now], Foreign t.client e := by
    intro t ht
    obtain ⟨ht, hne⟩ := mem_remove.mp ht
    refine ⟨ht, fun e he => ?_⟩
    rcases List.mem_append.mp he with he | he
    · refine (hf e he).1 _ fun h => hne ?_
      rw [map_nodup_inj (·.client) (by rw [G.clients]; exact G.nodup) ht hs h]
    · simp at he; subst he; exact foreign_removed _ _ _
  have hlive : live (h ++ (es ++ [.removed s.client now])) = (live h).filter (· ≠ s.client) := by
    rw [← List.append_assoc, live_app, live_still h es fun e he => (hf e he).2.1]; rfl
  have hret : retained (h ++ (es ++ [.removed s.client now])) = retained h := by
    rw [← List.append_assoc, retained_app, retained_still h es fun e he => (hf e he).2.1]; rfl
  constructor
  · rw [hlive]; exact remove_clients G hs
  · rw [hlive]; exact G.nodup.sublist List.filter_sublist
  · exact G.refs.sublist ((List.filter_sublist).map _)
  · exact fun t ht => (G.core t (hother t ht).1).foreign _ (hother t ht).2
  · exact fun t ht => (G.tail t (hother t ht).1).foreign _ (hother t ht).2
  · exact fun t ht => G.willOk t (hother t ht).1
  · rw [hret]; exact G.retain
  · exact G.retainOk
  · exact G.handles
  · intro x hx
    refine (G.conns x hx).quiet _ fun e he => ?_
    rcases List.mem_append.mp he with he | he
    · exact (hf e he).2.2
    · simp at he; subst he; trivial
  · exact fun x hx r hr t ht => G.link x hx r hr t (hother t ht).1

theorem Wills.remove {b : Broker} {h : List Ev} (G : Base b h) (W : Wills b h) {s : Sess} (hs : s ∈ b.sessions) (es : List Ev) (now : Nat)
    (hf : ∀ e ∈ es, ∀ d, d ≠ s.client → Foreign d e) : Wills (b.remove s.ref) (h ++ (es ++ [.removed s.client now])) := by
  intro t ht
  obtain ⟨ht, hne⟩ := mem_remove.mp ht
  rw [W t ht, will_foreign]
  intro e he
  rcases List.mem_append.mp he with he | he
  · refine hf e he _ fun h => hne ?_
    rw [map_nodup_inj (·.client) (by rw [G.clients]; exact G.nodup) ht hs h]
  · simp at he; subst he; exact foreign_removed _ _ _

end Verif.Broker

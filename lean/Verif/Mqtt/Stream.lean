import Verif.Mqtt.Props
import Verif.Read.Props
/-!
# C44 for MQTT: packets on a connection

The MQTT parser as user of the read framework (`mqtt_connection.c:603-778`).
-/
namespace Verif.Mqtt
open Verif

/-- A connection: the protocol version when it is known and the packets given to the handler. -/
structure MState where
  ver : Option Nat
  got : List Packet
deriving DecidableEq, Repr

/-- The handler gets a packet; CONNECT fixes the protocol version (set by the connect handler,
`mqtt_broker.c`, from `rrr_mqtt_conn_set_data_from_connect_and_connack`, not modelled further). -/
def MState.push (st : MState) (p : Packet) : MState where
  ver := match p with | .connect v .. => some v | _ => st.ver
  got := st.got ++ [p]

/-- `mqtt_connection.c:648-682 __rrr_mqtt_conn_read_get_target_size`. The parse session continues where
it stopped when there is more data; the model parses from the start again. An abort of
the parser is given as error here (see C43). -/
def mqttTgt (st : MState) (b : Bytes) : Read.Tgt :=
  match parsePacket st.ver b with
  | .soft => .error
  | .bug => .error
  | .oob => .error
  | _ => match fixedHeader b with
    | .ok x => .size x.target
    | _ => .incomplete

/-- `mqtt_connection.c:698-778 __rrr_mqtt_conn_read_complete_callback`: a packet which was
completely parsed before (L609-612) is not parsed again; INCOMPLETE is an error now (L715-718). -/
def mqttComplete (st : MState) (seen msg : Bytes) : Option MState :=
  match parsePacket st.ver seen with
  | .ok (p, _) => some (st.push p)
  | _ => match parsePacket st.ver msg with
    | .ok (p, _) => some (st.push p)
    | _ => none

/-- `mqtt_connection.c:780-823 rrr_mqtt_conn_iterator_ctx_read`: no maximum size. -/
def mqttUser (step : Nat) : Read.User MState where
  tgt := mqttTgt
  complete := mqttComplete
  step := step
  max := 0

/-- Packets one may send with protocol version `v`, as in `packet_roundtrip_partial`. -/
structure Fine (v : Nat) (p : Packet) : Prop where
  sendable : Spec.Sendable v p
  noBinary : ∀ q ∈ Spec.allProps p, ¬ Spec.IsBinary q
  short : ∀ b, Asm.body v p = some b → b.length + (Asm.payload p).length ≤ 268435455

/-- The bytes of the packets, one after another. -/
def wire (v : Nat) (ps : List Packet) : Bytes := ps.flatMap fun p => (Asm.packet v p).getD []

/-- What may be sent on a connection: if the version is not known, CONNECT comes first. -/
def Conversation (v : Nat) (ver : Option Nat) (ps : List Packet) : Prop :=
  (ver = some v ∨ (ver = none ∧ ∀ p, ps.head? = some p → p.ty = 1)) ∧ ∀ p ∈ ps, Fine v p

theorem parsePacket_none_eq {v : Nat} {b : Bytes} (h : ∀ x, fixedHeader b = .ok x → x.ty = 1) :
    parsePacket none b = parsePacket (some v) b := by
  unfold parsePacket
  cases hf : fixedHeader b with
  | ok x =>
    have e := h x hf
    have hb : ∀ flags, parseBody none 1 flags = parseBody (some v) 1 flags := fun _ => rfl
    simp only [Res.bind, e, hb]
  | _ => rfl

/-- The bytes of a packet sent, and how the receiver sees them. -/
theorem sent_packet {v : Nat} (hv : v = 3 ∨ v = 4 ∨ v = 5) {ver : Option Nat} {p : Packet}
    (hver : ver = some v ∨ (ver = none ∧ p.ty = 1)) (h : Fine v p) :
    ∃ bytes, Asm.packet v p = some bytes ∧ bytes ≠ [] ∧
      (∀ rest, parsePacket ver (bytes ++ rest) = .ok (p, bytes.length)) ∧
      (∀ got more, bytes = got ++ more → more ≠ [] → parsePacket ver got = .incomplete) := by
  obtain ⟨bytes, h1, h2, h3⟩ := packet_roundtrip_partial v hv p h.sendable h.noBinary h.short
  have hne : bytes ≠ [] := by
    intro e
    have := h2 []
    rw [e] at this
    cases this
  rcases hver with rfl | ⟨rfl, hty⟩
  · exact ⟨bytes, h1, hne, h2, h3⟩
  · obtain ⟨bs, g1, g2⟩ := connect_roundtrip_partial v hv p hty h.sendable h.noBinary h.short
    rw [h1] at g1
    cases g1
    refine ⟨bytes, h1, hne, g2, fun got more hb hm => ?_⟩
    rw [parsePacket_none_eq (v := v), h3 got more hb hm]
    intro x hx
    have hfull : fixedHeader bytes = .ok x := by rw [hb]; exact fixedHeader_mono got more _ hx (by simp)
    have := g2 []
    rw [List.append_nil] at this
    unfold parsePacket at this
    rw [hfull] at this
    simp only [Res.bind] at this
    apply Classical.byContradiction
    intro hty'
    have hb : ∀ e pos r, parseBody none x.ty x.flags e pos ≠ .ok r := by
      intro e pos r hr
      unfold parseBody at hr
      rw [if_neg hty'] at hr
      split at hr <;> cases hr
    cases hp : parseBody none x.ty x.flags ⟨bytes, x.target⟩ x.vpos with
    | ok r => exact hb _ _ _ hp
    | _ => rw [hp] at this; cases this

theorem push_ver {v : Nat} {st : MState} {p : Packet} (h : Spec.Sendable v p)
    (hver : st.ver = some v ∨ (st.ver = none ∧ p.ty = 1)) : (st.push p).ver = some v := by
  cases p with
  | connect v' _ _ _ _ _ _ _ => show some v' = some v; rw [h.1]
  | _ =>
    rcases hver with hver | ⟨_, hver⟩
    · exact hver
    · first | (simp [Packet.ty] at hver; done) | (simp only [Packet.ty] at hver; obtain ⟨h1, h2, _⟩ := h; omega)

theorem fixedHeader_target {ver : Option Nat} {b : Bytes} {p : Packet} {n : Nat} (h : parsePacket ver b = .ok (p, n)) :
    ∃ x, fixedHeader b = .ok x ∧ x.target = n := by
  unfold parsePacket at h
  cases hf : fixedHeader b with
  | ok x =>
    rw [hf] at h
    simp only [Res.bind] at h
    cases hb : parseBody ver x.ty x.flags ⟨b, x.target⟩ x.vpos with
    | ok y => rw [hb] at h; cases h; exact ⟨x, rfl, rfl⟩
    | _ => rw [hb] at h; cases h
  | _ => rw [hf] at h; cases h

/-- How a beginning of the bytes of some packets looks to the receiver. -/
theorem conversation_prefix {v : Nat} (hv : v = 3 ∨ v = 4 ∨ v = 5) {st : MState} {p : Packet} {ps : List Packet}
    (h : Conversation v st.ver (p :: ps)) :
    ∃ bytes, wire v (p :: ps) = bytes ++ wire v ps ∧ bytes ≠ [] ∧ parsePacket st.ver bytes = .ok (p, bytes.length) ∧
      mqttTgt st (bytes ++ wire v ps) = .size bytes.length ∧
      ∀ b, b <+: bytes ++ wire v ps → (parsePacket st.ver b = .incomplete ∨ parsePacket st.ver b = .ok (p, bytes.length)) ∧
        (mqttTgt st b = .incomplete ∨ mqttTgt st b = .size bytes.length) := by
  obtain ⟨hver, hall⟩ := h
  have hver' : st.ver = some v ∨ (st.ver = none ∧ p.ty = 1) := hver.imp_right fun ⟨a, b⟩ => ⟨a, b p rfl⟩
  obtain ⟨bytes, h1, hne, h2, h3⟩ := sent_packet hv hver' (hall p (by simp))
  have htgt : ∀ b n, parsePacket st.ver b = .ok (p, n) → mqttTgt st b = .size n := by
    intro b n hp
    obtain ⟨x, hx, rfl⟩ := fixedHeader_target hp
    unfold mqttTgt
    rw [hp]
    simp only
    rw [hx]
  refine ⟨bytes, by simp [wire, h1], hne, by simpa using h2 [], htgt _ _ (h2 _), fun b hb => ?_⟩
  rcases Nat.lt_or_ge b.length bytes.length with hlt | hge
  · have hpre : b <+: bytes := by
      rcases List.prefix_or_prefix_of_prefix hb (List.prefix_append bytes _) with h | h
      · exact h
      · have := h.length_le; omega
    obtain ⟨more, rfl⟩ := hpre
    have hm : more ≠ [] := by rintro rfl; simp at hlt
    have hinc := h3 b more rfl hm
    refine ⟨Or.inl hinc, ?_⟩
    unfold mqttTgt
    rw [hinc]
    simp only
    cases hf : fixedHeader b with
    | ok x =>
      right
      have hfull := fixedHeader_mono b more _ hf (by simp)
      obtain ⟨y, hy, hyt⟩ := fixedHeader_target (h2 [])
      rw [List.append_nil, hfull] at hy
      cases hy
      simp only [hyt]
    | _ => left; rfl
  · have hpre : bytes <+: b := by
      rcases List.prefix_or_prefix_of_prefix hb (List.prefix_append bytes _) with h | h
      · have := h.length_le
        have e := List.IsPrefix.eq_of_length h (by omega)
        rw [e]
        exact List.prefix_refl _
      · exact h
    obtain ⟨r, rfl⟩ := hpre
    exact ⟨Or.inr (h2 r), Or.inr (htgt _ _ (h2 r))⟩

theorem conversation_next {v : Nat} {st : MState} {p : Packet} {ps : List Packet}
    (h : Conversation v st.ver (p :: ps)) : Conversation v (st.push p).ver ps := by
  obtain ⟨hver, hall⟩ := h
  refine ⟨Or.inl (push_ver (hall p (by simp)).sendable (hver.imp_right fun ⟨a, b⟩ => ⟨a, b p rfl⟩)), ?_⟩
  exact fun q hq => hall q (by simp [hq])

theorem mqtt_fits (v : Nat) (hv : v = 3 ∨ v = 4 ∨ v = 5) (step : Nat) :
    Read.Fits (mqttUser step) (fun st s => ∃ ps, Conversation v st.ver ps ∧ s = wire v ps) where
  stable := by
    rintro st s b ⟨ps, hc, rfl⟩ hpre hne hni
    cases ps with
    | nil => exact absurd (List.prefix_nil.mp hpre) hne
    | cons p ps =>
      obtain ⟨bytes, e1, e2, e3, e4, e5⟩ := conversation_prefix hv hc
      rw [e1] at hpre ⊢
      rcases (e5 b hpre).2 with h | h
      · exact absurd h hni
      · exact e4.trans h.symm
  pos := by
    rintro st s n ⟨ps, hc, rfl⟩ ht
    cases ps with
    | nil => cases ht
    | cons p ps =>
      obtain ⟨bytes, e1, e2, e3, e4, e5⟩ := conversation_prefix hv hc
      rw [e1] at ht
      have := e4.symm.trans ht
      cases this
      exact List.length_pos_iff.mpr e2
  skip := by
    rintro st s b k ⟨ps, hc, rfl⟩ hpre hne ht
    cases ps with
    | nil => exact absurd (List.prefix_nil.mp hpre) hne
    | cons p ps =>
      obtain ⟨bytes, e1, e2, e3, e4, e5⟩ := conversation_prefix hv hc
      rw [e1] at hpre
      rcases (e5 b hpre).2 with h | h
      · exact absurd (h.symm.trans ht) (by simp)
      · exact absurd (h.symm.trans ht) (by simp)
  own := by
    rintro st s b n ⟨ps, hc, rfl⟩ hpre hne ht hl
    cases ps with
    | nil => exact absurd (List.prefix_nil.mp hpre) hne
    | cons p ps =>
      obtain ⟨bytes, e1, e2, e3, e4, e5⟩ := conversation_prefix hv hc
      rw [e1] at hpre ⊢
      obtain ⟨h1, h2⟩ := e5 b hpre
      have hn : n = bytes.length := by
        rcases h2 with h | h
        · exact absurd (h.symm.trans ht) (by simp)
        · have := h.symm.trans ht; cases this; rfl
      subst hn
      rw [List.take_left]
      have hok : mqttComplete st bytes bytes = some (st.push p) := by unfold mqttComplete; rw [e3]
      show mqttComplete st b bytes = mqttComplete st bytes bytes
      rw [hok]
      unfold mqttComplete
      rcases h1 with h | h
      · rw [h]; simp only; rw [e3]
      · rw [h]
  next := by
    rintro st s n st' ⟨ps, hc, rfl⟩ hne ht hl hcm
    cases ps with
    | nil => exact absurd rfl hne
    | cons p ps =>
      obtain ⟨bytes, e1, e2, e3, e4, e5⟩ := conversation_prefix hv hc
      rw [e1] at ht hcm ⊢
      have hn := e4.symm.trans ht
      cases hn
      rw [List.take_left] at hcm
      rw [List.drop_left]
      have hok : mqttComplete st bytes bytes = some (st.push p) := by unfold mqttComplete; rw [e3]
      have := hok.symm.trans hcm
      cases this
      exact ⟨ps, conversation_next hc, rfl⟩
  nextSkip := by
    rintro st s k ⟨ps, hc, rfl⟩ hne ht
    cases ps with
    | nil => exact absurd rfl hne
    | cons p ps =>
      obtain ⟨bytes, e1, e2, e3, e4, e5⟩ := conversation_prefix hv hc
      rw [e1] at ht
      exact absurd (e4.symm.trans ht) (by simp)

theorem mqtt_deliverAll (v : Nat) (hv : v = 3 ∨ v = 4 ∨ v = 5) (step : Nat) : ∀ (ps : List Packet) (st : MState),
    Conversation v st.ver ps → (mqttUser step).deliverAll st (wire v ps) = (ps.foldl MState.push st, .waiting [])
  | [], st, _ => rfl
  | p :: ps, st, hc => by
    obtain ⟨bytes, e1, e2, e3, e4, e5⟩ := conversation_prefix hv hc
    have hok : mqttComplete st bytes bytes = some (st.push p) := by unfold mqttComplete; rw [e3]
    rw [e1, Read.deliverAll_size (mqtt_fits v hv step) (n := bytes.length) (st' := st.push p) ⟨p :: ps, hc, e1.symm⟩
      (by simp [e2]) e4 (by rw [List.length_append]; omega) (by rw [List.take_left]; exact hok), List.drop_left]
    exact mqtt_deliverAll v hv step ps _ (conversation_next hc)

theorem foldl_push_got : ∀ (ps : List Packet) (st : MState), (ps.foldl MState.push st).got = st.got ++ ps
  | [], st => by simp
  | p :: ps, st => by rw [List.foldl_cons, foldl_push_got ps]; simp [MState.push]

/-- **C44** (MQTT) However the bytes of a sequence of packets are cut into pieces on the way, after enough calls
the handler has got exactly those packets, in order, nothing is left over and the connection is still
open. `ver` is `none` when the receiver waits for CONNECT. Missing for full strength: packets outside of `Fine` (binary properties,
see C47, and malformed packets, see `verdict_uses_next_packet`). -/
theorem mqtt_conversation_partial (v : Nat) (hv : v = 3 ∨ v = 4 ∨ v = 5) (ver : Option Nat) (ps : List Packet)
    (hc : Conversation v ver ps) (step : Nat) (chunks : List Bytes) (hch : chunks.flatten = wire v ps) (n : Nat)
    (hn : chunks.length + chunks.flatten.length < n) :
    ∃ s st', Read.calls (mqttUser step) n (.open .init ⟨ver, []⟩ chunks) = .open s st' [] ∧ st'.got = ps ∧ s.pending = [] := by
  have hd := mqtt_deliverAll v hv step ps ⟨ver, []⟩ hc
  rcases Read.chunks_irrelevant (mqttUser step) _ (mqtt_fits v hv step) ⟨ver, []⟩ chunks ⟨ps, hc, hch⟩ (Or.inl rfl) n hn with
    ⟨s, st', h1, _, h3⟩ | ⟨st', _, h2⟩
  · rw [hch, hd] at h3
    refine ⟨s, st', h1, ?_, ?_⟩
    · have := congrArg Prod.fst h3
      simp only at this
      rw [← this, foldl_push_got]
      rfl
    · have := congrArg Prod.snd h3
      simp only at this
      injection this with this
      exact this.symm
  · rw [hch, hd] at h2
    cases h2

/-- **C44** fails at full strength: the same bytes, a SUBSCRIBE without its last options byte and a PINGREQ, give a
subscription or close the connection, depending on the cut. -/
theorem mqtt_chunks_matter :
    (match Read.calls (mqttUser 100) 20 (.open .init ⟨some 4, []⟩ [[0x82, 0x05, 0x00, 0x01, 0x00, 0x01, 0x61, 0x00]]) with
      | .open _ st [] => st.got.length | _ => 0) = 1 ∧
    Read.calls (mqttUser 100) 20 (.open .init ⟨some 4, []⟩ [[0x82, 0x05, 0x00, 0x01, 0x00, 0x01, 0x61], [0x00]]) =
      .closed ⟨some 4, []⟩ := by decide +kernel

-- CONNECT, SUBSCRIBE and PUBLISH on the wire, in three pieces
def exampleConversation : List Packet :=
  [.connect 4 0x02 60 [] [0x61] none none none, .subscribe 1 [] [⟨[0x61], 0, 0, 0, 1⟩], .publish 0 [0x61] 0 [] [0x68, 0x69]]

example : (match Read.calls (mqttUser 100) 60 (.open .init ⟨none, []⟩ [(wire 4 exampleConversation).take 5,
      ((wire 4 exampleConversation).drop 5).take 20, (wire 4 exampleConversation).drop 25]) with
    | .open s st [] => some (st.got, s.pending) | _ => none) = some (exampleConversation, []) := by decide +kernel

end Verif.Mqtt

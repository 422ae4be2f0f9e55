import Verif.MqttReceive.Spec
import Verif.Msg.Props
/-!
# C154: what the MQTT client module delivers for a received PUBLISH
-/
namespace Verif.MqttReceive
open Verif Verif.Msg Endian

theorem made (time : UInt64) (topic data : Bytes) (ht : Spec.TopicOk topic) (hs : 30 + topic.length + data.length ≤ 0xffffffff) :
    ∃ m, newWithData 1 1 time topic data = some m ∧ Spec.Plain m time topic data := by
  obtain ⟨m, _, h1, _, _, _, _, h3, h4, h5, h6, h7⟩ := message_roundtrip 1 1 time topic data (by decide) (.inl rfl) ht.2.2 ht.1 ht.2.1 hs
  exact ⟨m, h1, ⟨h3, h4, h5, h6, h7⟩⟩

theorem isTopic : Spec.TopicOk [0x61, 0x2F, 0x62] :=
  ⟨(Utf8.validate_iff_of_no_nul _ (by decide)).mp (by decide +kernel), by decide, by decide⟩

/-- **C154** Without an array definition and if RRR messages are neither expected nor announced by the content type, a publish with a payload
gives one message with the topic of the publish and the payload as data, also if the payload is the bytes of an RRR message. -/
theorem plain_exact (c : Conf) (p : Publish) (b : Bytes) (htree : c.tree = none) (he : c.expect = false)
    (hct : p.contentType ≠ some mime) (hp : p.payload = some b) (hb : b ≠ []) (ht : Spec.TopicOk p.topic)
    (hs : 30 + p.topic.length + b.length ≤ 0xffffffff) :
    ∃ m, receive c p = .done [m] false ∧ Spec.Plain m p.created p.topic b := by
  obtain ⟨m, h1, h2⟩ := made p.created p.topic b ht hs
  refine ⟨m, ?_, h2⟩
  unfold receive other
  rw [if_neg (by simp [he, hct]), htree, hp]
  simp only
  rw [if_neg (by simpa using hb), h1]

example : ∃ m, receive ⟨false, false, none⟩ ⟨[0x61, 0x2F, 0x62], some [1, 2], some [0x78], 5⟩ = .done [m] false ∧
    Spec.Plain m 5 [0x61, 0x2F, 0x62] [1, 2] :=
  plain_exact _ _ _ rfl rfl (by decide) rfl (by decide) isTopic (by decide)

/-- **C154** Without an array definition and if RRR messages are not expected, a publish without payload gives one message with the topic
of the publish, and the topic with a zero after it as data. -/
theorem empty_exact (c : Conf) (p : Publish) (htree : c.tree = none) (he : c.expect = false)
    (hp : p.payload = none) (ht : Spec.TopicOk p.topic) :
    ∃ m, receive c p = .done [m] false ∧ Spec.Plain m p.created p.topic (p.topic ++ [0]) := by
  obtain ⟨m, h1, h2⟩ := made p.created p.topic (p.topic ++ [0]) ht (by have := ht.2.2; simp; omega)
  refine ⟨m, ?_, h2⟩
  unfold receive other
  rw [htree, hp, he]
  simp only [h1]
  simp

example : ∃ m, receive ⟨false, true, none⟩ ⟨[0x61, 0x2F, 0x62], none, some mime, 5⟩ = .done [m] false ∧
    Spec.Plain m 5 [0x61, 0x2F, 0x62] [0x61, 0x2F, 0x62, 0] :=
  empty_exact _ _ rfl rfl rfl isTopic

theorem tryGet_of_receive (b : Bytes) (m : MsgMsg) (h : Msg.receive b = .ok (.msg m, b.length)) : tryGet b = .message m := by
  unfold Msg.receive at h
  obtain ⟨sz, hg, h⟩ := bind_eq_ok h
  split at h
  · cases h
  split at h
  · cases h
  split at h
  · cases h
  rename_i h18
  obtain ⟨r, h1, he⟩ := map_eq_ok h
  injection he with he1 he2
  subst he1
  rw [he2, List.take_length] at h1
  unfold toHost at h1
  obtain ⟨⟨hd, dc⟩, hh, h2⟩ := bind_eq_ok h1
  obtain ⟨rest, hc, h3⟩ := bind_eq_ok h2
  have hm : msgToHost hd rest = .ok m := by
    split at h3
    · obtain ⟨m', h4, h5⟩ := map_eq_ok h3
      injection h5 with h5
      rw [h4, h5]
    · split at h3
      · cases h3
      · split at h3
        · obtain ⟨m', _, h5⟩ := map_eq_ok h3; cases h5
        · split at h3
          · obtain ⟨m', _, h5⟩ := map_eq_ok h3; cases h5
          · split at h3
            · obtain ⟨m', _, h5⟩ := map_eq_ok h3; cases h5
            · cases h3
  unfold tryGet
  rw [if_neg (by omega), hg]
  simp only
  rw [if_neg (by omega), hh]
  simp only
  rw [hc]
  simp only
  rw [hm]

/-- **C154** A message of any type and class with valid topic which another instance has sent as a publish arrives as it was if RRR messages are expected or announced
by the content type, whatever the array definition; with `mqtt_receive_publish_topic` the topic is that of the publish and all else is as it was. -/
theorem message_exact (c : Conf) (p : Publish) (type class_ : UInt8) (time : UInt64) (topic data : Bytes)
    (htype : 1 ≤ type ∧ type ≤ 5) (hclass : class_ = 1 ∨ class_ = 11) (ht : Spec.TopicOk topic)
    (hs : 30 + topic.length + data.length ≤ 0xffffffff) (hp : p.topic.length ≤ 0xffff)
    (hs' : 30 + p.topic.length + data.length ≤ 0xffffffff)
    (h : c.expect = true ∨ p.contentType = some mime) :
    ∃ m bytes, newWithData type class_ time topic data = some m ∧ msgToNetwork m = .ok bytes ∧
      (p.payload = some bytes → ∃ r, receive c p = .done [r] false ∧
        (c.useTopic = false → r = m) ∧ (c.useTopic = true → r.topic = p.topic) ∧
        r.data = data ∧ r.timestamp = time ∧ r.type = type ∧ r.class_ = class_) := by
  obtain ⟨m, bytes, h1, h2, hl, hr, _, t1, t2, t3, t4, t5⟩ := message_roundtrip type class_ time topic data htype hclass ht.2.2 ht.1 ht.2.1 hs
  refine ⟨m, bytes, h1, h2, fun hpay => ?_⟩
  have hg : tryGet bytes = .message m := tryGet_of_receive _ _ (by simpa using hr [])
  have hcons : Consistent m := newWithData_consistent _ _ _ _ _ _ ht.2.2 (by omega) h1
  have hcond : (c.expect || p.contentType == some mime) = true := by
    rcases h with h | h <;> simp [h]
  unfold receive
  rw [if_pos hcond, hpay]
  simp only [hg]
  cases hu : c.useTopic with
  | false => exact ⟨m, by simp, fun _ => rfl, (fun h => by cases h), t5, t3, t1, t2⟩
  | true =>
    rcases topicSet_eq m hcons p.topic hp with ⟨hbig, _⟩ | ⟨r, e, _, r1, r2, r3, r4, r5, _⟩
    · rw [t5] at hbig; omega
    · exact ⟨r, by simp [e], (fun h => by cases h), fun _ => r1, r2.trans t5, r3.trans t3, r4.trans t1, r5.trans t2⟩

example : ∃ m bytes, newWithData 1 11 7 [0x61, 0x2F, 0x62] [1, 2] = some m ∧ msgToNetwork m = .ok bytes ∧
    ∃ r, receive ⟨false, true, none⟩ ⟨[0x78], some bytes, some mime, 5⟩ = .done [r] false ∧ r.topic = [0x78] ∧ r.data = [1, 2] :=
  ⟨⟨⟨35, 2, 0⟩, 7, 0xB1, 0, 3, [0x61, 0x2F, 0x62, 1, 2]⟩, wireOf ⟨35, 2, 0⟩ (msgRest ⟨⟨35, 2, 0⟩, 7, 0xB1, 0, 3, [0x61, 0x2F, 0x62, 1, 2]⟩),
    by decide +kernel, by decide +kernel, ⟨⟨33, 2, 0⟩, 7, 0xB1, 0, 1, [0x78, 1, 2]⟩, by decide +kernel, by decide +kernel, by decide +kernel⟩

/-- **C154** If RRR messages are expected, at most one message is delivered for a publish, the module goes on, and what is delivered is a message the size of which
is the size of the payload and of which both checksums are right; topic and data are the bytes of the payload, except for the topic if
that of the publish is to be used. -/
theorem expect_only_messages (c : Conf) (p : Publish) (he : c.expect = true) (out : List MsgMsg) (stop : Bool)
    (h : receive c p = .done out stop) : stop = false ∧ (out = [] ∨
      ∃ b m, p.payload = some b ∧ m.head.size.toNat = b.length ∧ 30 ≤ b.length ∧
        Crc32.crc32buf ((b.drop 4).take 14) = (at32 b 0).toBitVec ∧ Crc32.crc32buf (b.drop 18) = (at32 b 14).toBitVec ∧
        m.body = b.drop 30 ∧ m.topicLength.toNat ≤ m.body.length ∧ (1 ≤ m.type ∧ m.type ≤ 5) ∧ (m.class_ = 1 ∨ m.class_ = 11) ∧
        ((c.useTopic = false ∧ out = [m]) ∨ (c.useTopic = true ∧ ∃ r, topicSet m p.topic = .ok r ∧ out = [r]))) := by
  unfold receive at h
  rw [he, Bool.true_or, if_pos rfl] at h
  cases hp : p.payload with
  | none =>
    rw [hp] at h
    simp only [if_true] at h
    injection h with h1 h2
    exact ⟨h2.symm, .inl h1.symm⟩
  | some b =>
    rw [hp] at h
    simp only [if_true] at h
    cases hg : tryGet b with
    | none left =>
      rw [hg] at h
      injection h with h1 h2
      exact ⟨h2.symm, .inl h1.symm⟩
    | outside => rw [hg] at h; cases h
    | message m =>
      rw [hg] at h
      simp only at h
      have key : m.head.size.toNat = b.length ∧ 30 ≤ b.length ∧
        Crc32.crc32buf ((b.drop 4).take 14) = (at32 b 0).toBitVec ∧ Crc32.crc32buf (b.drop 18) = (at32 b 14).toBitVec ∧
        m.body = b.drop 30 ∧ m.topicLength.toNat ≤ m.body.length ∧ (1 ≤ m.type ∧ m.type ≤ 5) ∧ (m.class_ = 1 ∨ m.class_ = 11) := by
        unfold tryGet at hg
        split at hg
        · cases hg
        rename_i h18
        split at hg
        case h_2 => cases hg
        rename_i n hn
        split at hg
        · cases hg
        split at hg
        case h_2 => cases hg
        rename_i hd crc hh
        split at hg
        case h_2 => cases hg
        rename_i rest hc
        split at hg
        case h_2 => cases hg
        case h_3 => cases hg
        rename_i m' hm
        injection hg with hg
        subst hg
        have c1 : Crc32.crc32buf ((b.drop 4).take 14) = (at32 b 0).toBitVec := by
          unfold getTargetSize at hn
          split at hn
          · cases hn
          split at hn
          · cases hn
          rename_i hx
          exact ((Crc32.crc32cmp_iff _ _).mp (Classical.not_not.mp hx)).symm
        have c0 : crc = at32 b 14 := by
          unfold headToHost at hh
          split at hh
          · cases hh
          dsimp only at hh
          split at hh
          · injection hh with hh; exact (congrArg Prod.snd hh).symm
          · cases hh
        have c2 : Crc32.crc32buf (b.drop 18) = (at32 b 14).toBitVec ∧ hd.size.toNat = b.length ∧ rest = b.drop 18 := by
          unfold checkData at hc
          split at hc
          · cases hc
          split at hc
          · cases hc
          rename_i hz
          split at hc
          · cases hc
          rename_i hx
          injection hc with hc
          exact ⟨c0 ▸ ((Crc32.crc32cmp_iff _ _).mp (Classical.not_not.mp hx)).symm, Classical.not_not.mp hz, hc.symm⟩
        obtain ⟨c2, c3, rfl⟩ := c2
        unfold msgToHost at hm
        split at hm
        · cases hm
        rename_i h30
        split at hm
        · cases hm
        unfold msgValidate at hm
        split at hm
        · cases hm
        split at hm
        · cases hm
        rename_i htl
        dsimp only at hm
        split at hm
        case isFalse => cases hm
        rename_i hok
        injection hm with hm
        simp only [Bool.and_eq_true, Bool.or_eq_true, beq_iff_eq, decide_eq_true_eq] at hok
        rw [hm] at hok htl
        refine ⟨?_, ?_, c1, c2, ?_, by omega, hok.1.2, hok.1.1⟩
        · rw [← hm]; exact c3
        · simp only [List.length_drop, headSize, msgMinSize] at h30 h18; omega
        · rw [← hm]; simp only [List.drop_drop]
      cases hu : c.useTopic with
      | false =>
        rw [hu] at h
        simp only [Bool.false_eq_true, if_false] at h
        injection h with h1 h2
        obtain ⟨k1, k2, k3, k4, k5, k6, k7, k8⟩ := key
        exact ⟨h2.symm, .inr ⟨b, m, rfl, k1, k2, k3, k4, k5, k6, k7, k8, .inl ⟨rfl, h1.symm⟩⟩⟩
      | true =>
        rw [hu] at h
        simp only [if_true] at h
        obtain ⟨k1, k2, k3, k4, k5, k6, k7, k8⟩ := key
        cases ht : topicSet m p.topic with
        | ok r =>
          rw [ht] at h
          injection h with h1 h2
          exact ⟨h2.symm, .inr ⟨b, m, rfl, k1, k2, k3, k4, k5, k6, k7, k8, .inr ⟨rfl, r, ht, h1.symm⟩⟩⟩
        | _ => rw [ht] at h; cases h

example : receive ⟨true, false, none⟩ ⟨[0x61], some (List.replicate 40 1), none, 5⟩ = .done [] false := by decide +kernel

/-- Bytes which are not an RRR message: too short, or a wrong checksum of the head, or a wrong size. -/
def HeadWrong (b : Bytes) : Prop :=
  b.length < 18 ∨ Crc32.crc32buf ((b.drop 4).take 14) ≠ (at32 b 0).toBitVec ∨ b.length ≠ (at32 b 4).toNat

theorem tryGet_headWrong (b : Bytes) (h : HeadWrong b) : tryGet b = .none b := by
  unfold tryGet
  by_cases h18 : b.length < headSize
  · rw [if_pos h18]
  · rw [if_neg h18]
    unfold getTargetSize
    rw [if_neg h18]
    by_cases hc : Crc32.crc32cmp ((b.drop 4).take 14) (at32 b 0).toBitVec ≠ 0
    · rw [if_pos hc]
    · rw [if_neg hc]
      simp only
      rw [if_pos]
      rcases h with h | h | h
      · exact absurd h h18
      · exact absurd ((Crc32.crc32cmp_iff _ _).mp (Classical.not_not.mp hc)).symm h
      · exact h

/-- **C154** (partial) A payload which is announced as an RRR message by the content type only and does not have the head of one is delivered as data as if it had not been announced, bytes unchanged.
Missing: the same where the head is right but something else is wrong (`fallback_altered`). -/
theorem fallback_partial (c : Conf) (p : Publish) (b : Bytes) (he : c.expect = false)
    (hp : p.payload = some b) (hw : HeadWrong b) : receive c p = receive c { p with contentType := none } := by
  unfold receive
  simp only [he, hp, Bool.false_or, tryGet_headWrong b hw]
  split <;> simp

example : HeadWrong [1, 2, 3] := .inl (by decide)

/-- **C154** fails at full strength: a payload which is announced as an RRR message, has the head of one but a wrong checksum of the data is delivered as
data with the bytes of the head altered. -/
theorem fallback_altered : ∃ b m, receive ⟨false, false, none⟩ ⟨[0x61], some b, some mime, 5⟩ = .done [m] false ∧
    m.data.length = b.length ∧ m.data ≠ b ∧ m.data.take 4 = [0, 0, 0, 0] ∧ b.take 4 ≠ [0, 0, 0, 0] ∧
    (m.data.drop 4).take 4 = ((b.drop 4).take 4).reverse ∧ m.data.drop 18 = b.drop 18 :=
  ⟨wireC ⟨20, 2, 0⟩ 0 [1, 2], ⟨⟨51, 2, 0⟩, 5, 0x11, 0, 1, 0x61 :: swapHead (wireC ⟨20, 2, 0⟩ 0 [1, 2])⟩,
    by decide +kernel, by decide +kernel, by decide +kernel, by decide +kernel, by decide +kernel, by decide +kernel, by decide +kernel⟩

/-- **C154** fails at full strength: if head and checksums are right but the class is unknown, also the bytes of the timestamp are in reverse order and the checksum of
the data is lost. -/
theorem fallback_altered_body : ∃ b m, receive ⟨false, false, none⟩ ⟨[0x61], some b, some mime, 5⟩ = .done [m] false ∧
    (m.data.drop 18).take 8 = ((b.drop 18).take 8).reverse ∧ m.data.drop 18 ≠ b.drop 18 ∧
    (m.data.drop 14).take 4 = [0, 0, 0, 0] ∧ (b.drop 14).take 4 ≠ [0, 0, 0, 0] ∧
    (m.data.drop 28).take 2 = ((b.drop 28).take 2).reverse ∧ m.data.drop 30 = b.drop 30 :=
  ⟨wireOf ⟨32, 2, 0⟩ (be64 7 ++ ([0x21, 0] ++ (be16 1 ++ [0x61, 9]))),
    ⟨⟨63, 2, 0⟩, 5, 0x11, 0, 1, 0x61 :: swapMsg (wireOf ⟨32, 2, 0⟩ (be64 7 ++ ([0x21, 0] ++ (be16 1 ++ [0x61, 9]))))⟩,
    by decide +kernel, by decide +kernel, by decide +kernel, by decide +kernel, by decide +kernel, by decide +kernel, by decide +kernel⟩

/-- **C154** fails at full strength: an RRR message which is not a data message by its head (an address message, type 8) is delivered as a data message. -/
theorem any_type_accepted : ∃ b m, receive ⟨true, false, none⟩ ⟨[0x61], some b, none, 5⟩ = .done [m] false ∧ m.head.type = 8 :=
  ⟨wireOf ⟨30, 8, 0⟩ (be64 0 ++ ([0x11, 0] ++ be16 0)), ⟨⟨30, 8, 0⟩, 0, 0x11, 0, 0, []⟩, by decide +kernel, by decide +kernel⟩

/-- **C154** fails at full strength: a payload with correct checksums and a topic length larger than the message makes the module look at memory
behind the payload. -/
theorem reads_outside : ∃ b, receive ⟨true, false, none⟩ ⟨[0x61], some b, none, 5⟩ = .outside :=
  ⟨wireOf ⟨30, 2, 0⟩ (be64 0 ++ ([0x11, 0] ++ be16 1)), by decide +kernel⟩

/-! ## Array definitions -/

theorem records_iff (imp : Bytes → Import) : ∀ (n : Nat) (b : Bytes), b.length ≤ n → ∀ out stop,
    (records imp b = .done out stop ↔ Spec.Records imp b out stop) := by
  intro n
  induction n with
  | zero =>
    intro b hb out stop
    have : b = [] := List.length_eq_zero_iff.mp (by omega)
    subst this
    unfold records
    rw [if_pos (show ([] : Bytes).length = 0 from rfl)]
    constructor
    · intro h; injection h with h1 h2; subst h1 h2; exact .nothing
    · intro h
      cases h with
      | nothing => rfl
      | bad _ h _ => exact absurd rfl h
      | hard _ h _ => exact absurd rfl h
      | record _ _ _ _ _ h _ _ _ => exact absurd rfl h
  | succ n ih =>
    intro b hb out stop
    by_cases h0 : b = []
    · exact h0 ▸ ih [] (by simp) out stop |> fun h => by subst h0; exact h
    · unfold records
      rw [if_neg (by simpa using h0)]
      have hpos : 0 < b.length := by cases b with | nil => exact absurd rfl h0 | cons => simp
      cases hi : imp b with
      | soft =>
        constructor
        · intro h; injection h with h1 h2; subst h1 h2; exact .bad _ h0 (.inl hi)
        · intro h; cases h <;> simp_all
      | incomplete =>
        constructor
        · intro h; injection h with h1 h2; subst h1 h2; exact .bad _ h0 (.inr hi)
        · intro h; cases h <;> simp_all
      | hard =>
        constructor
        · intro h; injection h with h1 h2; subst h1 h2; exact .hard _ h0 hi
        · intro h; cases h <;> simp_all
      | ok k m =>
        simp only
        by_cases hk : k = 0
        · rw [if_pos hk]
          constructor
          · intro h; cases h
          · intro h
            cases h with
            | nothing => exact absurd rfl h0
            | bad _ _ h => rw [hi] at h; rcases h with h | h <;> cases h
            | hard _ _ h => rw [hi] at h; cases h
            | record k' _ _ _ _ _ hk' h _ => rw [hi] at h; injection h with h; omega
        · rw [if_neg hk]
          have hd : (b.drop k).length ≤ n := by simp; omega
          constructor
          · intro h
            cases hr : records imp (b.drop k) with
            | done o s =>
              rw [hr] at h
              injection h with h1 h2
              subst h1 h2
              exact .record k b m o s h0 (by omega) hi ((ih _ hd _ _).mp hr)
            | _ => rw [hr] at h; cases h
          · intro h
            cases h with
            | nothing => exact absurd rfl h0
            | bad _ _ h => rw [hi] at h; rcases h with h | h <;> cases h
            | hard _ _ h => rw [hi] at h; cases h
            | record k' _ m' l _ _ _ h hr =>
              rw [hi] at h
              injection h with e1 e2
              subst e1 e2
              rw [(ih _ hd _ _).mpr hr]

/-- **C154** With an array definition and if RRR messages are neither expected nor announced, the messages delivered are those of the records at the beginning of
the payload, one for each and in their order, up to the first place which is not a record. -/
theorem records_exact (c : Conf) (p : Publish) (b : Bytes) (imp : Bytes → Bytes → Import) (htree : c.tree = some imp) (he : c.expect = false)
    (hct : p.contentType ≠ some mime) (hp : p.payload = some b) (hb : b ≠ []) (out : List MsgMsg) (stop : Bool) :
    receive c p = .done out stop ↔ Spec.Records (imp p.topic) b out stop := by
  unfold receive other
  rw [if_neg (by simp [he, hct]), htree, hp]
  simp only
  rw [if_neg (by simpa using hb)]
  exact records_iff _ _ _ (Nat.le_refl _) _ _

theorem records_end (imp : Bytes → Import) (h : ∀ b k m, imp b = .ok k m → 0 < k) : ∀ (n : Nat) (b : Bytes), b.length ≤ n →
    ∃ out stop, records imp b = .done out stop := by
  intro n
  induction n with
  | zero => intro b hb; unfold records; rw [if_pos (by omega)]; exact ⟨_, _, rfl⟩
  | succ n ih =>
    intro b hb
    unfold records
    by_cases h0 : b.length = 0
    · rw [if_pos h0]; exact ⟨_, _, rfl⟩
    · rw [if_neg h0]
      cases hi : imp b with
      | soft => exact ⟨_, _, rfl⟩
      | incomplete => exact ⟨_, _, rfl⟩
      | hard => exact ⟨_, _, rfl⟩
      | ok k m =>
        have hk := h _ _ _ hi
        obtain ⟨o, s, e⟩ := ih (b.drop k) (by simp; omega)
        simp only
        rw [if_neg (by omega), e]
        exact ⟨_, _, rfl⟩

/-- **C154** The work with an array definition of which each record takes at least one byte comes to an end for every payload, and without such messages being
expected or announced no memory outside of the payload is read. -/
theorem array_ends (c : Conf) (p : Publish) (imp : Bytes → Bytes → Import) (htree : c.tree = some imp) (he : c.expect = false)
    (hct : p.contentType ≠ some mime) (himp : ∀ t b k m, imp t b = .ok k m → 0 < k) :
    ∃ out stop, receive c p = .done out stop := by
  unfold receive other
  rw [if_neg (by simp [he, hct]), htree]
  cases p.payload with
  | none => exact ⟨_, _, rfl⟩
  | some b =>
    simp only
    by_cases hb : b.length = 0
    · rw [if_pos hb]; exact ⟨_, _, rfl⟩
    · rw [if_neg hb]; exact records_end _ (himp _) _ _ (Nat.le_refl _)

/-- **C154** With an array definition, nothing is delivered for a publish without payload and the module goes on. -/
theorem array_no_payload (c : Conf) (p : Publish) (imp : Bytes → Bytes → Import) (htree : c.tree = some imp) (hp : p.payload = none) :
    receive c p = .done [] false := by
  unfold receive other
  rw [htree, hp]
  cases c.expect <;> simp

/-- Two bytes are a record, unless the first is zero. -/
def two : Bytes → Bytes → Import := fun t b => match b with
  | x :: y :: _ => if x = 0 then .soft else .ok 2 ⟨⟨0, 2, 0⟩, 0, 0x11, 0, 0, t ++ [x, y]⟩
  | _ => .incomplete

-- two records and a byte more
example : ∃ m n, receive ⟨false, false, some two⟩ ⟨[], some [1, 2, 3, 4, 5], none, 0⟩ = .done [m, n] false ∧ m.body = [1, 2] ∧ n.body = [3, 4] ∧
    Spec.Records (two []) [1, 2, 3, 4, 5] [m, n] false := by
  have h : receive ⟨false, false, some two⟩ ⟨[], some [1, 2, 3, 4, 5], none, 0⟩ =
      .done [⟨⟨0, 2, 0⟩, 0, 0x11, 0, 0, [1, 2]⟩, ⟨⟨0, 2, 0⟩, 0, 0x11, 0, 0, [3, 4]⟩] false := by decide +kernel
  refine ⟨_, _, h, rfl, rfl, ?_⟩
  exact (records_exact ⟨false, false, some two⟩ ⟨[], some [1, 2, 3, 4, 5], none, 0⟩ _ two rfl rfl (by decide) rfl (by decide) _ _).mp h

example : ∀ t b k m, two t b = .ok k m → 0 < k := by
  intro t b k m h
  unfold two at h
  split at h
  · split at h
    · cases h
    · injection h with h; omega
  · cases h

end Verif.MqttReceive

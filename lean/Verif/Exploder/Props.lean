import Verif.Exploder.Model
import Verif.Types.Props
/-!
# Properties of the exploder
-/
namespace Verif.Exploder
open Verif Types Types.Spec Msg

/-! ## Specification, after the manual -/

/-- The topic of the message for a value: the original topic if it is preserved, then the configured topic, then the tag if it is appended. No slashes are added. -/
def wantedTopic (c : Config) (m : MsgMsg) (v : Value) : Bytes :=
  (if c.preserveTopic then m.topic else []) ++ c.topic ++ (if c.appendTag then v.tag else [])

/-- The message for a value: an array with this value only, with the topic, and with the original or current time. -/
def Wanted (le : Bool) (c : Config) (now : UInt64) (m : MsgMsg) (v : Value) (n : MsgMsg) : Prop :=
  n.class_ = 11 ∧ n.type = 1 ∧ toArray le n = .ok [v] ∧ n.topic = wantedTopic c m v ∧
  n.timestamp = (if c.preserveTimestamp then m.timestamp else now)

/-- A value which can be stored, in a message which is not too big. -/
def Fits (c : Config) (m : MsgMsg) (v : Value) : Prop :=
  Content v ∧ (∀ b ∈ v.tag, b ≠ 0) ∧ (wantedTopic c m v).length ≤ 0xffff ∧ 30 + (wantedTopic c m v).length + packedSize v ≤ 0xffffffff

/-! ## Proofs -/

theorem cstr_all (b : Bytes) (h : ∀ c ∈ b, c ≠ 0) : cstr b = b := by
  unfold cstr
  induction b with
  | nil => rfl
  | cons c t ih =>
    rw [List.takeWhile_cons, if_pos (by simpa using h c (by simp)), ih fun x hx => h x (by simp [hx])]

theorem topic_eq (c : Config) (m : MsgMsg) (v : Value) (hc : ∀ b ∈ c.topic, b ≠ 0) (hv : ∀ b ∈ v.tag, b ≠ 0) :
    topicOf c (topicPrefix c m) v = wantedTopic c m v := by
  have h0 : m.topicLength = 0 → m.topic = [] := by
    intro h
    unfold MsgMsg.topic
    rw [h]
    rfl
  have hp : topicPrefix c m = (if c.preserveTopic then m.topic else []) ++ c.topic := by
    unfold topicPrefix
    rw [cstr_all _ hc]
    congr 1
    · by_cases hl : m.topicLength = 0
      · rw [h0 hl]; simp
      · have : m.topicLength > 0 := UInt16.pos_iff_ne_zero.mpr hl
        simp [this]
    · by_cases he : c.topic = [] <;> simp [he]
  unfold topicOf wantedTopic
  rw [hp, cstr_all _ hv]
  by_cases ha : c.appendTag = true
  · by_cases he : v.tag = [] <;> simp [ha, he]
  · simp [ha]

theorem processValue_ok (le : Bool) (c : Config) (now : UInt64) (m : MsgMsg) (v : Value) (hc : ∀ b ∈ c.topic, b ≠ 0) (h : Fits c m v) :
    ∃ n, processValue le c (topicPrefix c m) (if c.preserveTimestamp then m.timestamp else now) v = .ok n ∧ Wanted le c now m v n := by
  obtain ⟨h1, h2, h3, h4⟩ := h
  unfold processValue
  simp only
  rw [topic_eq c m v hc h2, if_neg (by omega)]
  obtain ⟨n, hn, ha, ht, hs, hcl, hty, _⟩ := (array_roundtrip_partial le [v] (if c.preserveTimestamp then m.timestamp else now) (wantedTopic c m v)
    (by simpa using h1) h3 (by simp only [List.mem_singleton, forall_eq]; omega)).1 (by simpa using h4)
  exact ⟨n, hn, hcl, hty, ha, ht, hs⟩

/-- For each value one message is written, in the same order, and nothing else but the original message at the end if that is configured. -/
theorem explode_exact (le : Bool) (c : Config) (now : UInt64) (m : MsgMsg) (vs : List Value) (hc : ∀ b ∈ c.topic, b ≠ 0) (hm : m.class_ = 11)
    (ha : toArray le m = .ok vs) (h : ∀ v ∈ vs, Fits c m v) :
    ∃ ns, poll le c now m = ⟨ns ++ (if c.originalPassthrough then [m] else []), .ok⟩ ∧
      ns.length = vs.length ∧ ∀ x ∈ vs.zip ns, Wanted le c now m x.1 x.2 := by
  have key : ∃ ns, processAll le c (topicPrefix c m) (if c.preserveTimestamp then m.timestamp else now) vs = ⟨ns, .ok⟩ ∧
      ns.length = vs.length ∧ ∀ x ∈ vs.zip ns, Wanted le c now m x.1 x.2 := by
    clear ha
    induction vs with
    | nil => exact ⟨[], rfl, rfl, by simp⟩
    | cons v vs ih =>
      obtain ⟨ns, h1, h2, h3⟩ := ih fun x hx => h x (by simp [hx])
      obtain ⟨n, hn, hw⟩ := processValue_ok le c now m v hc (h v (by simp))
      refine ⟨n :: ns, ?_, by simp [h2], ?_⟩
      · unfold processAll
        rw [hn, h1]
      · intro x hx
        rw [List.zip_cons_cons, List.mem_cons] at hx
        rcases hx with rfl | hx
        · exact hw
        · exact h3 x hx
  obtain ⟨ns, h1, h2, h3⟩ := key
  refine ⟨ns, ?_, h2, h3⟩
  unfold poll
  rw [if_neg (by simp [hm]), ha]
  simp only
  rw [h1]
  cases c.originalPassthrough <;> simp

/-- Other messages are passed through without modification or dropped. -/
theorem non_array (le : Bool) (c : Config) (now : UInt64) (m : MsgMsg) (hm : m.class_ ≠ 11) :
    poll le c now m = ⟨if c.nonArrayPassthrough then [m] else [], .ok⟩ := by
  unfold poll
  rw [if_pos hm]
  cases c.nonArrayPassthrough <;> rfl

/-- When the topic of a value becomes too long, the messages for the values before it have been written already, and the module fails. Nothing is written for the values after it, nor the
original message. -/
theorem too_long (le : Bool) (c : Config) (now : UInt64) (m : MsgMsg) (as bs : List Value) (v : Value) (hc : ∀ b ∈ c.topic, b ≠ 0) (hm : m.class_ = 11)
    (ha : toArray le m = .ok (as ++ v :: bs)) (h : ∀ a ∈ as, Fits c m a) (hv : ∀ b ∈ v.tag, b ≠ 0) (hl : (wantedTopic c m v).length > 0xffff) :
    ∃ ns, poll le c now m = ⟨ns, .fail⟩ ∧ ns.length = as.length ∧ ∀ x ∈ as.zip ns, Wanted le c now m x.1 x.2 := by
  have key : ∃ ns, processAll le c (topicPrefix c m) (if c.preserveTimestamp then m.timestamp else now) (as ++ v :: bs) = ⟨ns, .fail⟩ ∧
      ns.length = as.length ∧ ∀ x ∈ as.zip ns, Wanted le c now m x.1 x.2 := by
    clear ha
    induction as with
    | nil =>
      refine ⟨[], ?_, rfl, by simp⟩
      have : processValue le c (topicPrefix c m) (if c.preserveTimestamp then m.timestamp else now) v = .soft := by
        unfold processValue
        simp only
        rw [topic_eq c m v hc hv, if_pos hl]
      rw [List.nil_append, processAll, this]
    | cons a as ih =>
      obtain ⟨ns, h1, h2, h3⟩ := ih fun x hx => h x (by simp [hx])
      obtain ⟨n, hn, hw⟩ := processValue_ok le c now m a hc (h a (by simp))
      refine ⟨n :: ns, ?_, by simp [h2], ?_⟩
      · rw [List.cons_append, processAll, hn, h1]
      · intro x hx
        rw [List.zip_cons_cons, List.mem_cons] at hx
        rcases hx with rfl | hx
        · exact hw
        · exact h3 x hx
  obtain ⟨ns, h1, h2, h3⟩ := key
  refine ⟨ns, ?_, h2, h3⟩
  unfold poll
  rw [if_neg (by simp [hm]), ha]
  simp only
  rw [h1]
  simp

/-! ## Examples -/

/-- A number with tag `a` and a string without tag. -/
def two : List Value := [⟨.h, 0, [97], 1, [5, 0, 0, 0, 0, 0, 0, 0], []⟩, ⟨.str, 0, [], 1, [120, 121], []⟩]

/-- Topics are preserved, `t/` and tags are appended. -/
def exampleConfig : Config := ⟨false, true, true, true, true, [116, 47]⟩

/-- The message which the examples use, with topic `s/`. -/
def example1 : MsgMsg := messageOf true two 5 [115, 47]

theorem two_content : ∀ v ∈ two, Content v := by
  intro v hv
  simp [two] at hv
  rcases hv with rfl | rfl <;> simp [Content]

theorem example1_topic : example1.topic = [115, 47] := by decide +kernel

example : toArray true example1 = .ok two ∧ ∀ v ∈ two, Fits exampleConfig example1 v := by
  refine ⟨by decide +kernel, fun v hv => ?_⟩
  have hcont := two_content v hv
  unfold Fits wantedTopic
  rw [example1_topic]
  simp [two] at hv
  rcases hv with rfl | rfl
  · exact ⟨hcont, by decide, by decide, by decide⟩
  · exact ⟨hcont, by decide, by decide, by decide⟩

example : (poll true exampleConfig 9 example1).written.map (fun m => (m.topic, m.timestamp)) =
    [([115, 47, 116, 47, 97], 5), ([115, 47, 116, 47], 5), ([115, 47], 5)] := by decide +kernel

/-- A tag of 65533 characters makes the topic too long. -/
def long : Value := ⟨.str, 0, List.replicate 65533 97, 1, [120], []⟩

example : (∀ b ∈ long.tag, b ≠ 0) ∧ (wantedTopic exampleConfig example1 long).length > 0xffff := by
  refine ⟨fun b hb => ?_, ?_⟩
  · rw [long] at hb
    rw [(List.mem_replicate.mp hb).2]
    decide
  · unfold wantedTopic
    rw [example1_topic]
    have hl : long.tag.length = 65533 := List.length_replicate
    generalize long.tag = t at hl
    rw [show (if exampleConfig.appendTag then t else []) = t from rfl, List.length_append, hl]
    decide

end Verif.Exploder

import Verif.Udpstream.Props
/-!
# C103: what is lost is sent again

The send event is removed when all frames have been looked at (`udpstream.c:2115-2117`) and it is added only when a message is queued (`udpstream.c:2059`); the periodic event does not send (`udpstream.c:2149-2172`).
-/
namespace Verif.Udpstream
open Verif

/-! ## What holds -/

/-- **C103.** Queueing a message makes the sender look at its frames. -/
theorem queue_wakes (tx : Tx) (data : Bytes) (app : UInt64) (h : (tx.queue data app).2 = true) : (tx.queue data app).1.event = true := by
  unfold Tx.queue at h ⊢
  split at h
  · cases h
  · split at h
    · cases h
    · rename_i h1 h2
      rw [if_neg h1, if_neg h2]

/-- **C103.** When the sender looks at its frames, the oldest one is sent again, unless this was done within the last second. -/
theorem oldest_resent_partial (tx : Tx) (e : Entry) (r : List Entry) (now : Nat) (he : tx.event = true) (hb : tx.buf = e :: r) (hw : 2 ≤ tx.window) :
    e.frame ∈ (tx.send now).2 ∨ (e.last ≠ 0 ∧ e.last ≤ now ∧ now ≤ e.last + 1000000) := by
  unfold Tx.send
  rw [if_pos he, hb]
  by_cases h0 : e.last = 0
  · left
    simp only [sendLoop, h0, if_true]
    rw [if_pos (by simp; omega)]
    split <;> exact List.mem_cons_self ..
  · by_cases ht : (tooLong now e.last || decide (e.unack ≥ 5)) = true
    · left
      simp only [sendLoop, h0, if_false]
      rw [if_pos ht]
      split <;> exact List.mem_cons_self ..
    · right
      simp only [tooLong, Bool.or_eq_true, decide_eq_true_eq] at ht
      exact ⟨h0, by omega, by omega⟩

/-- **C103.** No more than 100 frames are sent in one turn. -/
theorem burst_limit (tx : Tx) (now : Nat) : (tx.send now).2.length ≤ 100 := by
  have key : ∀ (l : List Entry) (w missing sent : Nat), sent < 100 → (sendLoop now w missing sent l).2.1.length + sent ≤ 100 := by
    intro l
    induction l with
    | nil => intro w missing sent h; simp [sendLoop]; omega
    | cons e r ih =>
      intro w missing sent h
      unfold sendLoop
      extract_lets missing' doSend
      split
      · split
        · simp; omega
        · have := ih w missing' (sent + 1) (by omega)
          show (e.frame :: (sendLoop now w missing' (sent + 1) r).2.1).length + sent ≤ 100
          rw [List.length_cons]; omega
      · exact ih w missing' sent h
  unfold Tx.send
  split
  · exact key tx.buf tx.window 0 0 (by omega)
  · simp

/-- **C103.** The window a receiver asks for is between 10 and 1500 frames. -/
theorem window_range (rx : Rx) (v : Msg → Verdict) (ready : List Bool) : ∀ a ∈ (rx.process v ready).1, a.window = 0 ∨ (10 ≤ a.window ∧ a.window ≤ 1500) := by
  have hr : ∀ (w : Nat) (adj : Int), 10 ≤ regulate w adj ∧ regulate w adj ≤ 1500 := by
    intro w adj
    unfold regulate
    extract_lets t t1 t2
    have : t1 = if t < 10 then 10 else t := rfl
    have h2 : t2 = if t1 > 1500 then 1500 else t1 := rfl
    have : 10 ≤ t1 := by rw [this]; split <;> omega
    have : 10 ≤ t2 ∧ t2 ≤ 1500 := by rw [h2]; split <;> omega
    omega
  have key : ∀ (l : List (Nat × Nat)) (adj : Int) (w : Nat), ∀ a ∈ (sendAcks adj w l).2, a.window = 0 ∨ (10 ≤ a.window ∧ a.window ≤ 1500) := by
    intro l
    induction l with
    | nil => intro adj w a ha; cases ha
    | cons p r ih =>
      intro adj w a ha
      cases ha with
      | head =>
        show (if adj ≠ 0 then regulate w adj else 0) = 0 ∨ _
        by_cases h : adj = 0
        · left; rw [if_neg (by simpa using h)]
        · right
          show 10 ≤ (if adj ≠ 0 then regulate w adj else 0) ∧ (if adj ≠ 0 then regulate w adj else 0) ≤ 1500
          rw [if_pos h]; exact hr w adj
      | tail _ h => exact ih adj _ a h
  unfold Rx.process
  exact key _ _ _

/-- The first loop never asks for more than one more frame. -/
theorem ackLoop_change (prev first last : Nat) (l : List RFrame) : (ackLoop prev first last l).2.2 ≤ 1 := by
  induction l generalizing first last with
  | nil => simp [ackLoop]
  | cons n r ih =>
    rw [ackLoop]
    split
    · have := ih n.frame.id n.frame.id; simp only; omega
    · split
      · have := ih n.frame.id n.frame.id; simp only; omega
      · split
        · split <;> simp
        · exact ih _ _

/-- The second loop with a reduction. -/
theorem sendAcks_reduced (adj : Int) (hadj : adj < 0) (l : List (Nat × Nat)) (w B : Nat) (hB : 10 ≤ B) (hw : (w : Int) + adj ≤ B) : ∀ a ∈ (sendAcks adj w l).2, 10 ≤ a.window ∧ a.window ≤ B := by
  induction l generalizing w with
  | nil => intro a ha; cases ha
  | cons p r ih =>
    intro a ha
    have hreg : 10 ≤ regulate w adj ∧ regulate w adj ≤ B := by
      unfold regulate
      extract_lets t t1 t2
      have h1 : t1 = if t < 10 then 10 else t := rfl
      have h2 : t2 = if t1 > 1500 then 1500 else t1 := rfl
      have h0 : t = (w : Int) + adj := rfl
      have : 10 ≤ t1 ∧ t1 ≤ B := by rw [h1]; split <;> omega
      have : 10 ≤ t2 ∧ t2 ≤ B := by rw [h2]; split <;> omega
      omega
    cases ha with
    | head =>
      show 10 ≤ (if adj ≠ 0 then regulate w adj else 0) ∧ (if adj ≠ 0 then regulate w adj else 0) ≤ B
      rw [if_pos (by omega)]; exact hreg
    | tail _ h => exact ih _ (by omega) a h

/-- **C103.** When the application of the receiver asks for a window which is `d` frames smaller, every acknowledgement of the next pass asks the sender for the smaller window, one frame more at most and ten frames
at least. -/
theorem regulation_applied (rx : Rx) (v : Msg → Verdict) (ready : List Bool) (d : Nat) (hd : 2 ≤ d) (hr : rx.regulation = -(d : Int)) :
    ∀ a ∈ (rx.process v ready).1, 10 ≤ a.window ∧ a.window ≤ max 10 (rx.window + 1 - d) := by
  unfold Rx.process
  have h := ackLoop_change rx.prev 0 0 rx.buf
  exact sendAcks_reduced _ (by omega) _ _ _ (by omega) (by omega)

example : ((⟨[⟨⟨3, true, [3], 0⟩, 0⟩], 1, 1, 376, -100⟩ : Rx).process (fun _ => .take) [true]).1 = [⟨1, 1, 274⟩] := by decide

/-- The first acknowledgement when the frame after the last delivered one is missing. -/
theorem hole_ack (rx : Rx) (v : Msg → Verdict) (ready : List Bool) (x : RFrame) (r : List RFrame) (hb : rx.buf = x :: r) (hp : rx.prev ≠ 0) (hx : x.frame.id > rx.prev + 1) :
    ∃ a rest, (rx.process v ready).1 = a :: rest ∧ a.first = rx.prev ∧ a.last = rx.prev := by
  unfold Rx.process
  extract_lets y adjust acks z
  have hy : y.1 = (rx.prev, rx.prev) :: (ackLoop rx.prev x.frame.id x.frame.id r).1 := by
    show (ackLoop rx.prev 0 0 rx.buf).1 = _
    rw [hb, ackLoop, if_pos ⟨rfl, hp, by omega, by omega⟩]
  show ∃ a rest, acks.2 = a :: rest ∧ _
  have ha : acks = sendAcks adjust rx.window y.1 := rfl
  rw [ha, hy]
  exact ⟨_, _, rfl, rfl, rfl⟩

theorem ackFrames_nag (a : Ack) (n now : Nat) (l : List Entry) (e : Entry) (he : e ∈ l) (hid : e.frame.id = n + 1) (hn : ¬ (n + 1 ≥ a.first ∧ n + 1 ≤ a.last)) : e.frame ∈ (ackFrames a (some n) now l).2 := by
  induction l with
  | nil => cases he
  | cons x r ih =>
    unfold ackFrames
    cases he with
    | head =>
      rw [if_neg (by rw [hid]; exact hn), if_pos (by rw [hid]; rfl)]
      exact List.mem_cons_self ..
    | tail _ h =>
      have := ih h
      split
      · exact this
      · split
        · exact List.mem_cons_of_mem _ this
        · exact this

/-- **C103.** A frame is missing after the last message which was handed over, and a later frame has arrived. Then the receiver repeats an acknowledgement, and when it arrives for the second time the
sender sends the missing frame again. -/
theorem hole_resent_partial (h : List Ev) (rx : Rx) (x : RFrame) (r : List RFrame) (hr : (run .new h).rx = .ok rx) (hb : rx.buf = x :: r) (hp : rx.prev ≠ 0) (hx : x.frame.id > rx.prev + 1)
    (v : Msg → Verdict) (ready : List Bool) (now now' : Nat) :
    ∃ f, f.id = rx.prev + 1 ∧
      f ∈ (run (run .new h) [.process v ready, .ack (run .new h).acks.length now, .ack (run .new h).acks.length now']).frames.drop (run .new h).frames.length := by
  have hi := inv_run inv_new h
  generalize run Sys.new h = s at *
  have hx2 := hi.rx
  rw [hr] at hx2
  obtain ⟨r1, r2, r3, r4⟩ := hx2
  obtain ⟨a, rest, ha, hf, hl⟩ := hole_ack rx v ready x r hb hp hx
  -- the missing frame is in the send buffer
  have hplace := r1.place x (by rw [hb]; exact List.mem_cons_self ..)
  have hle := hplace.le
  have hmiss : ¬ Covered rx (rx.prev + 1) := by
    rintro (h | ⟨y, hy, ey⟩)
    · omega
    · rw [hb] at hy
      cases hy with
      | head => omega
      | tail _ hy =>
        have := r1.sorted
        rw [hb] at this
        have := List.rel_of_pairwise_cons this hy
        omega
  obtain ⟨e, he, eid⟩ := (r4 (rx.prev + 1) (by omega) (by omega)).resolve_left hmiss
  -- the acknowledgement arrives
  have s1 : step s (.process v ready) = { s with rx := (rx.process v ready).2.2, acks := s.acks ++ (rx.process v ready).1, handed := s.handed ++ (rx.process v ready).2.1 } := by
    show s.process v ready = _
    unfold Sys.process
    rw [hr]
  have hget : (s.acks ++ (rx.process v ready).1)[s.acks.length]? = some a := by rw [ha]; simp
  have s2 : ∀ (t : Sys) (n : Nat), t.acks = s.acks ++ (rx.process v ready).1 → step t (.ack s.acks.length n) = { t with tx := (t.tx.ack a n).1, frames := t.frames ++ (t.tx.ack a n).2 } := by
    intro t n ht
    show t.ack s.acks.length n = _
    unfold Sys.ack
    rw [ht, hget]
  refine ⟨e.frame, eid, ?_⟩
  show e.frame ∈ List.drop s.frames.length (step (step (step s (.process v ready)) (.ack s.acks.length now)) (.ack s.acks.length now')).frames
  have e2 := s2 { s with rx := (rx.process v ready).2.2, acks := s.acks ++ (rx.process v ready).1, handed := s.handed ++ (rx.process v ready).2.1 } now rfl
  have e3 := s2 { s with rx := (rx.process v ready).2.2, acks := s.acks ++ (rx.process v ready).1, handed := s.handed ++ (rx.process v ready).2.1, tx := (s.tx.ack a now).1, frames := s.frames ++ (s.tx.ack a now).2 } now' rfl
  rw [s1, e2, e3]
  show e.frame ∈ List.drop s.frames.length ((s.frames ++ (s.tx.ack a now).2) ++ (((s.tx.ack a now).1).ack a now').2)
  rw [List.append_assoc, List.drop_left]
  have hout : ¬ (rx.prev + 1 ≥ a.first ∧ rx.prev + 1 ≤ a.last) := by rw [hf, hl]; omega
  refine List.mem_append_right _ ?_
  -- the sender still has it
  have hkeep : e.frame ∈ (s.tx.ack a now).1.buf.map (·.frame) := by
    show e.frame ∈ (ackFrames a _ now s.tx.buf).1.map (·.frame)
    rw [ackFrames_frames]
    refine List.mem_filter.mpr ⟨List.mem_map_of_mem he, ?_⟩
    rw [eid, decide_eq_false hout]; rfl
  obtain ⟨e', he', ee⟩ := List.mem_map.mp hkeep
  have hlast : (s.tx.ack a now).1.lastAck = rx.prev := by
    show (if a.first = a.last then a.last else s.tx.lastAck) = _
    rw [if_pos (by rw [hf, hl]), hl]
  rw [← ee]
  show e'.frame ∈ (ackFrames a (if a.first = a.last ∧ a.last = (s.tx.ack a now).1.lastAck then some (s.tx.ack a now).1.lastAck else none) now' (s.tx.ack a now).1.buf).2
  rw [hlast, if_pos ⟨by rw [hf, hl], hl⟩]
  exact ackFrames_nag a rx.prev now' _ e' he' (by rw [ee]; exact eid) hout

/-- Beside `hole_resent_partial`: a message was handed over, the frame of the second is lost, that of the third arrives. -/
def exHole : List Ev := [.queue [1] 0, .queue [2] 0, .queue [3] 0, .send 1, .frame 0, .process (fun _ => .take) [true], .frame 2]

example : (run .new exHole).rx = .ok ⟨[⟨⟨3, true, [3], 0⟩, 0⟩], 1, 1, 376, 0⟩ := by decide +kernel
example : (run (run .new exHole) [.process (fun _ => .take) [true], .ack 1 5, .ack 1 6]).frames.drop 3 = [⟨2, true, [2], 0⟩] := by decide +kernel

/-! ## What does not hold -/

theorem sendLoop_complete (now w missing sent : Nat) (l : List Entry) (h : sent + l.length < 100) : (sendLoop now w missing sent l).2.2 = true := by
  induction l generalizing missing sent with
  | nil => rfl
  | cons e r ih =>
    rw [List.length_cons] at h
    unfold sendLoop
    extract_lets missing' doSend
    split
    · rw [if_neg (by omega)]
      exact ih _ _ (by omega)
    · exact ih _ _ (by omega)

/-- Nothing more happens: the sender does not look at its frames, and nothing is on the way. -/
structure Silent (s : Sys) (frames : List Frame) (handed : List (Msg × Verdict)) (acks : List Ack) : Prop where
  event : s.tx.event = false
  frames : s.frames = frames
  handed : s.handed = handed
  acks : s.acks = acks
  rx : ∃ rx, s.rx = .ok rx ∧ rx.buf = []

theorem deliverLoop_empty (v : Msg → Verdict) (ready : List Bool) (rx : Rx) (h : rx.buf = []) : deliverLoop v ready rx = ([], .ok rx) := by
  cases ready with
  | nil => rfl
  | cons b r =>
    cases b with
    | false => rfl
    | true =>
      simp only [deliverLoop, h, scan]
      cases rx; simp_all

theorem silent_step {s : Sys} {f : List Frame} {g : List (Msg × Verdict)} {a : List Ack} (hs : Silent s f g a) (e : Ev) (h1 : ∀ d x, e ≠ .queue d x) (h2 : ∀ i, e ≠ .frame i) (h3 : ∀ i n, e ≠ .ack i n) :
    Silent (step s e) f g a := by
  cases e with
  | queue d x => exact absurd rfl (h1 d x)
  | frame i => exact absurd rfl (h2 i)
  | ack i n => exact absurd rfl (h3 i n)
  | send now =>
    have hns : s.tx.send now = (s.tx, []) := by unfold Tx.send; rw [hs.event]; rfl
    refine ⟨?_, ?_, hs.handed, hs.acks, hs.rx⟩
    · show (s.tx.send now).1.event = false
      rw [hns]; exact hs.event
    · show s.frames ++ (s.tx.send now).2 = f
      rw [hns, List.append_nil]; exact hs.frames
  | process v ready =>
    obtain ⟨rx, hr, hb⟩ := hs.rx
    have hp : ∃ rx', rx.process v ready = ([], [], .ok rx') ∧ rx'.buf = [] := by
      unfold Rx.process
      rw [hb]
      simp only [ackLoop, sendAcks]
      rw [deliverLoop_empty _ _ _ rfl]
      exact ⟨_, rfl, rfl⟩
    obtain ⟨rx', hp, hb'⟩ := hp
    have hst : step s (.process v ready) = { s with rx := .ok rx', acks := s.acks ++ [], handed := s.handed ++ [] } := by
      show s.process v ready = _
      unfold Sys.process
      rw [hr]
      simp only [hp]
    rw [hst]
    exact ⟨hs.event, hs.frames, by show s.handed ++ [] = g; rw [List.append_nil]; exact hs.handed, by show s.acks ++ [] = a; rw [List.append_nil]; exact hs.acks, rx', rfl, hb'⟩
  | regulate c =>
    obtain ⟨rx, hr, hb⟩ := hs.rx
    have hst : step s (.regulate c) = { s with rx := .ok { rx with regulation := rx.regulation + c } } := by
      show s.regulate c = _
      unfold Sys.regulate
      rw [hr]
    rw [hst]
    exact ⟨hs.event, hs.frames, hs.handed, hs.acks, _, rfl, hb⟩

theorem silent_run {s : Sys} {f : List Frame} {g : List (Msg × Verdict)} {a : List Ack} (hs : Silent s f g a) (h : List Ev) (h1 : ∀ e ∈ h, ∀ d x, e ≠ .queue d x) (h2 : ∀ e ∈ h, ∀ i, e ≠ .frame i)
    (h3 : ∀ e ∈ h, ∀ i n, e ≠ .ack i n) : Silent (run s h) f g a := by
  induction h generalizing s with
  | nil => exact hs
  | cons e r ih =>
    exact ih (silent_step hs e (h1 e (List.mem_cons_self ..)) (h2 e (List.mem_cons_self ..)) (h3 e (List.mem_cons_self ..)))
      (fun x hx => h1 x (List.mem_cons_of_mem _ hx)) (fun x hx => h2 x (List.mem_cons_of_mem _ hx)) (fun x hx => h3 x (List.mem_cons_of_mem _ hx))

theorem sub_arith (X D : Nat) (h1 : D > 1024) (h : X ≤ D - 1024 + 1023) : X + 1024 ≤ D + 1023 := by
  rw [← Nat.sub_add_comm (Nat.le_of_lt h1)] at h
  exact Nat.add_le_of_le_sub (Nat.le_trans (Nat.le_of_lt h1) (Nat.le_add_right ..)) h

theorem cut_arith (L D : Nat) (h1 : D > 1024) (h : L * 1024 ≤ D - 1024 + 1023) : (L + 1) * 1024 ≤ D + 1023 := by
  rw [Nat.add_mul, Nat.one_mul]
  exact sub_arith _ _ h1 h

theorem cut_arith' (D : Nat) (h : D > 0) : (0 + 1) * 1024 ≤ D + 1023 := by
  have := Nat.add_le_add_right h 1023
  rw [Nat.zero_add, Nat.one_mul]
  rw [Nat.add_comm] at this
  exact this

/-- **C103 is violated.** A message is queued and sent, and the frames are lost. If no other message is queued then, however often and however much later the send event, the deliver event and all others are due,
the frames are not sent again and the message is not handed over. (As no frame arrives there are no acknowledgements either.) -/
theorem lost_never_resent (data : Bytes) (app : UInt64) (now : Nat) (hl : data.length ≤ 90000) (h : List Ev) (hq : ∀ e ∈ h, ∀ d a, e ≠ .queue d a) (hf : ∀ e ∈ h, ∀ i, e ≠ .frame i) :
    (run .new (.queue data app :: .send now :: h)).frames = (run .new [.queue data app, .send now]).frames ∧ (run .new (.queue data app :: .send now :: h)).handed = [] := by
  have hcut : ∀ (fuel c : Nat) (d : Bytes), (cutLoop app fuel c d).length * 1024 ≤ d.length + 1023 := by
    intro fuel
    induction fuel with
    | zero => intro c d; simp [cutLoop]
    | succ n ih =>
      intro c d
      unfold cutLoop
      split
      · have := ih (c + 1) (d.drop (if d.length > 1024 then 1024 else d.length))
        by_cases hgt : d.length > 1024
        · rw [if_pos hgt] at this ⊢
          rw [List.length_drop] at this
          rw [List.length_cons]
          exact cut_arith _ _ hgt this
        · rw [if_neg hgt] at this ⊢
          have h0 : (cutLoop app n (c + 1) (d.drop d.length)).length = 0 := by
            rw [List.drop_length]
            cases n <;> rfl
          rw [List.length_cons, h0]
          exact cut_arith' _ (by assumption)
      · simp
  have hlen : (markLast (cutLoop app data.length 0 data)).length < 100 := by
    rw [markLast_length]
    have := hcut data.length 0 data
    omega
  have hq1 : Tx.new.queue data app = ({ Tx.new with buf := [] ++ (markLast (cutLoop app data.length 0 data)).map (fun f => ⟨f, 0, 0⟩), counter := 0 + (markLast (cutLoop app data.length 0 data)).length, event := true }, true) := by
    unfold Tx.queue
    rw [if_neg (by decide), if_neg (by show ¬ 0 + (data.length / 1024 + 1) > 50000000; omega)]
    rfl
  have hs : Silent (run .new [.queue data app, .send now]) (run .new [.queue data app, .send now]).frames [] [] := by
    refine ⟨?_, rfl, rfl, rfl, Rx.new, rfl, rfl⟩
    show ((Tx.new.queue data app).1.send now).1.event = false
    rw [hq1]
    show (Tx.send { Tx.new with buf := [] ++ (markLast (cutLoop app data.length 0 data)).map (fun f => (⟨f, 0, 0⟩ : Entry)), counter := _, event := true } now).1.event = false
    unfold Tx.send
    show (!(sendLoop now _ 0 0 ([] ++ (markLast (cutLoop app data.length 0 data)).map (fun f => (⟨f, 0, 0⟩ : Entry)))).2.2) = false
    rw [sendLoop_complete _ _ _ _ _ (by simp; exact hlen)]
    rfl
  -- acknowledgements which do not exist do nothing
  have key : ∀ (h : List Ev) (s : Sys), Silent s (run .new [.queue data app, .send now]).frames [] [] → (∀ e ∈ h, ∀ d a, e ≠ .queue d a) → (∀ e ∈ h, ∀ i, e ≠ .frame i) →
      Silent (run s h) (run .new [.queue data app, .send now]).frames [] [] := by
    intro h
    induction h with
    | nil => intro s hs _ _; exact hs
    | cons e r ih =>
      intro s hs h1 h2
      refine ih (step s e) ?_ (fun x hx => h1 x (List.mem_cons_of_mem _ hx)) (fun x hx => h2 x (List.mem_cons_of_mem _ hx))
      by_cases hack : ∃ i n, e = .ack i n
      · obtain ⟨i, n, e1⟩ := hack
        subst e1
        have : step s (.ack i n) = s := by
          show s.ack i n = s
          unfold Sys.ack
          rw [hs.acks]; rfl
        rw [this]; exact hs
      · exact silent_step hs e (h1 e (List.mem_cons_self ..)) (h2 e (List.mem_cons_self ..)) (fun i n x => hack ⟨i, n, x⟩)
  have hfin := key h _ hs hq hf
  have e : run .new (.queue data app :: .send now :: h) = run (run .new [.queue data app, .send now]) h := rfl
  rw [e]
  exact ⟨hfin.frames, hfin.handed⟩

/-- 380 messages of one byte are queued and sent, in turns of up to 100; all that is sent arrives, is handed over and acknowledged. -/
def exWindow : List Ev :=
  (List.range 380).map (fun i => .queue [i.toUInt8] 0) ++ [.send 1, .send 2, .send 3, .send 4, .send 5] ++ (List.range 380).map (fun i => .frame i) ++
    [.process (fun _ => .take) (List.replicate 380 true), .ack 0 6]

/-- What is asked below. -/
def summary (s : Sys) : Bool × Res Rx × Nat × Nat × Nat := (s.tx.event, s.rx, s.queued.length, s.handed.length, s.tx.buf.length)

theorem exWindow_summary : summary (run .new exWindow) = (false, .ok ⟨[], 374, 374, 376, 0⟩, 380, 374, 6) := by decide +kernel

theorem stall_of (s : Sys) (rx : Rx) (hb : rx.buf = []) (q d k : Nat) (hsum : summary s = (false, .ok rx, q, d, k))
    (h : List Ev) (hq : ∀ e ∈ h, ∀ d a, e ≠ .queue d a) (hf : ∀ e ∈ h, ∀ i, e ≠ .frame i) (ha : ∀ e ∈ h, ∀ i n, e ≠ .ack i n) :
    s.queued.length = q ∧ s.handed.length = d ∧ s.tx.buf.length = k ∧ (run s h).handed.length = d := by
  unfold summary at hsum
  simp only [Prod.mk.injEq] at hsum
  obtain ⟨e1, e2, e3, e4, e5⟩ := hsum
  have hs : Silent s s.frames s.handed s.acks := ⟨e1, rfl, rfl, rfl, rx, e2, hb⟩
  refine ⟨e3, e4, e5, ?_⟩
  rw [(silent_run hs h hq hf ha).handed, e4]

/-- **C103 is violated**, without any loss. Of 380 messages 374 are sent, as many as the window allows. When they have been handed over and acknowledged the sender keeps the other 6, but it does not send them: whatever
happens later, if no other message is queued, nothing is sent and nothing more is handed over. -/
theorem window_stall (h : List Ev) (hq : ∀ e ∈ h, ∀ d a, e ≠ .queue d a) (hf : ∀ e ∈ h, ∀ i, e ≠ .frame i) (ha : ∀ e ∈ h, ∀ i n, e ≠ .ack i n) :
    (run .new exWindow).queued.length = 380 ∧ (run .new exWindow).handed.length = 374 ∧ (run .new exWindow).tx.buf.length = 6 ∧
    (run (run .new exWindow) h).handed.length = 374 :=
  stall_of (run .new exWindow) ⟨[], 374, 374, 376, 0⟩ rfl 380 374 6 exWindow_summary h hq hf ha

end Verif.Udpstream

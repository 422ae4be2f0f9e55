import Verif.Udpstream.Invariant
/-!
# C102, C103: messages over a stream

C102: whatever is lost, duplicated or put out of order, the messages handed over are those queued, in order, each once. C103: what is lost is sent again; this is not so in general.

Both are about the messages queued with success (`Sys.queued`) and those handed over (`Sys.handed`), for every history of events.
-/
namespace Verif.Udpstream
open Verif

/-! ## C102 -/

theorem progress_prefix {Q h : List Msg} {p : Nat} (hp : Progress Q h p) : h <+: Q.filter (fun m => m.data != []) := by
  obtain ⟨d, r, e1, e2, _⟩ := hp
  exact ⟨nonEmpty r, by rw [e1, e2, ← nonEmpty_append]; rfl⟩

/-- **C102.** The messages handed over are the first of those which were queued and are not empty: in the same order, each once, with the same data and the same number from the application. -/
theorem in_order (h : List Ev) : (run .new h).handed.map (·.1) <+: (run .new h).queued.filter (fun m => m.data != []) := by
  have hi := (inv_run inv_new h).rx
  cases hr : (run .new h).rx with
  | ok rx => rw [hr] at hi; exact progress_prefix hi.2.1
  | destroyed => rw [hr] at hi; obtain ⟨p, hp⟩ := hi; exact progress_prefix hp
  | overrun => rw [hr] at hi; obtain ⟨⟨p, hp⟩, _⟩ := hi; exact progress_prefix hp
  | bug => rw [hr] at hi; exact hi.elim

/-- **C102.** The checks of the receiver for its own errors never fail. -/
theorem never_bug (h : List Ev) : (run .new h).rx ≠ .bug := by
  intro e
  have hi := (inv_run inv_new h).rx
  rw [e] at hi
  exact hi

/-- **C102.** The receiver writes outside of its memory only if a message of at least 4 GiB was sent. -/
theorem overrun_partial (h : List Ev) (hs : ∀ m ∈ (run .new h).queued, m.data.length < 2 ^ 32) : (run .new h).rx ≠ .overrun := by
  intro e
  have hi := (inv_run inv_new h).rx
  rw [e] at hi
  obtain ⟨_, m, hm, hl⟩ := hi
  have := hs m hm
  omega

/-- **C102.** Nothing is lost while the stream exists: each frame which was queued is still kept by the sender, or it was received. -/
theorem nothing_lost (h : List Ev) (rx : Rx) (hr : (run .new h).rx = .ok rx) (i : Nat) (h1 : 1 ≤ i) (h2 : i ≤ (run .new h).tx.counter) :
    (∃ e ∈ (run .new h).tx.buf, e.frame.id = i) ∨ (∃ x ∈ rx.buf, x.frame.id = i) ∨ i ≤ rx.prev := by
  have hi := inv_run inv_new h
  have hx := hi.rx
  rw [hr] at hx
  rw [hi.count] at h2
  rcases hx.2.2.2 i h1 h2 with (h | h) | h
  · exact Or.inr (Or.inr h)
  · exact Or.inr (Or.inl h)
  · exact Or.inl h

theorem no_boundary {p : Nat} {l : List Msg} (h : ∀ f ∈ allFrames p l, f.boundary = false) : nonEmpty l = [] := by
  induction l generalizing p with
  | nil => rfl
  | cons m r ih =>
    have hr := ih (fun f hf => h f (List.mem_append_right _ hf))
    unfold nonEmpty at hr ⊢
    by_cases hm : m.data = []
    · rw [List.filter_cons_of_neg (by simp [hm])]; exact hr
    · exfalso
      have hb := framesOf_boundary p m hm
      have : true ∈ (framesOf p m).map (·.boundary) := by rw [hb]; simp
      obtain ⟨f, hf, e⟩ := List.mem_map.mp this
      have := h f (List.mem_append_left _ hf)
      rw [e] at this; cases this

theorem deliverLoop_all {Q : List Msg} (v : Msg → Verdict) (hv : ∀ m, v m ≠ .error) (hs : ∀ m ∈ Q, m.data.length < 2 ^ 32) (n : Nat) {h : List Msg} {rx : Rx}
    (hi : RxInv (allFrames 0 Q) rx) (hp : Progress Q h rx.prev) (hc : ∀ i, 1 ≤ i → i ≤ (allFrames 0 Q).length → Covered rx i) (hn : (nonEmpty Q).length < n + h.length) :
    h ++ (deliverLoop v (List.replicate n true) rx).1.map (·.1) = nonEmpty Q := by
  induction n generalizing h rx with
  | zero =>
    obtain ⟨d, r, e1, e2, _⟩ := hp
    rw [e1, nonEmpty_append, ← e2, List.length_append] at hn
    omega
  | succ n ih =>
    obtain ⟨buf, r, hsc, i1, i2, i3⟩ := scan_turn hi hp
    rw [List.replicate_succ]
    cases r with
    | none =>
      simp only [deliverLoop, hsc, List.map_nil, List.append_nil]
      obtain ⟨d, rest, e1, e2, e3⟩ := hp
      obtain ⟨old, new, q1, q2, q3, q4⟩ := scan_skip rx.prev rx.buf hi.sorted
      have hbuf : scan rx.prev 0 0 new = some (buf, none) := by rw [← q4]; exact hsc
      have hsn : Sorted new := by have := hi.sorted; rw [q1] at this; exact (List.pairwise_append.mp this).2.1
      have := scan_none (allFrames 0 Q) rx.prev 0 0 new hsn (fun x hx => hi.place x (by rw [q1]; exact List.mem_append_right _ hx)) q3 (by
        intro i a b
        rcases hc i (by omega) b with hh | hh
        · omega
        · rw [q1] at hh
          rcases Has.append.mp hh with ⟨x, hx, ex⟩ | hh
          · have := q2 x hx; omega
          · exact hh) buf hbuf
      rw [Nat.add_zero] at this
      have hF : (allFrames 0 Q).drop rx.prev = allFrames rx.prev rest := by
        rw [e1, allFrames_append, Nat.zero_add, ← e3, e3, List.drop_left]
      rw [hF] at this
      rw [e1, nonEmpty_append, no_boundary this, List.append_nil, e2]
    | some k =>
      obtain ⟨j1, j2, j3, j4⟩ := i3 k rfl
      simp only [deliverLoop, hsc]
      rw [if_neg (by have := hs _ j1; omega)]
      have goal := ih j3 j2 (fun i a b => j4 i (hc i a b)) (by rw [List.length_append]; simp; omega)
      rw [List.append_assoc] at goal
      cases hvm : v (join (buf.take k)) with
      | error => exact absurd hvm (hv _)
      | take => exact goal
      | refuse => exact goal

/-- **C102.** When everything has been acknowledged, the application is ready and there are no errors, then all messages which are not empty are handed over the next time the receive buffer is
processed. -/
theorem all_delivered_partial (h : List Ev) (rx : Rx) (hr : (run .new h).rx = .ok rx) (hs : ∀ m ∈ (run .new h).queued, m.data.length < 2 ^ 32) (hb : (run .new h).tx.buf = [])
    (v : Msg → Verdict) (hv : ∀ m, v m ≠ .error) (n : Nat) (hn : (run .new h).queued.length < n) :
    (run .new (h ++ [.process v (List.replicate n true)])).handed.map (·.1) = (run .new h).queued.filter (fun m => m.data != []) := by
  have hi := inv_run inv_new h
  have hx := hi.rx
  unfold run at hr hs hb hn hi hx ⊢
  rw [List.foldl_append]
  generalize List.foldl step Sys.new h = s at *
  show (s.process v (List.replicate n true)).handed.map (·.1) = _
  rw [hr, hb] at hx
  obtain ⟨r1, r2, r3, r4⟩ := hx
  have hfr := ackLoop_frames rx.prev 0 0 rx.buf
  unfold Sys.process
  rw [hr]
  show (s.handed ++ (rx.process v (List.replicate n true)).2.1).map (·.1) = _
  rw [List.map_append]
  refine deliverLoop_all v hv hs n (rx := { rx with buf := (ackLoop rx.prev 0 0 rx.buf).2.1, window := _, regulation := 0 }) ⟨?_, ?_⟩ r2 ?_ ?_
  · exact sorted_frames hfr.symm r1.sorted
  · intro x hx
    have : x.frame ∈ rx.buf.map (·.frame) := by rw [← hfr]; exact List.mem_map_of_mem hx
    obtain ⟨y, hy, ey⟩ := List.mem_map.mp this
    rw [← ey]; exact r1.place y hy
  · intro i a b
    rcases r4 i a b with (hc | hc) | ⟨e, he, _⟩
    · exact Or.inl hc
    · exact Or.inr (has_frames hfr.symm hc)
    · cases he
  · have : (nonEmpty s.queued).length ≤ s.queued.length := List.length_filter_le ..
    omega

/-! ### Where C102 does not hold -/

/-- **C102 is violated.** An empty message is accepted, but it is never handed over: whatever happens, if no other message is queued, then nothing is. -/
theorem empty_lost (app : UInt64) : (Tx.new.queue [] app).2 = true ∧ ∀ h : List Ev, (∀ e ∈ h, ∀ d a, e ≠ .queue d a) → (run .new (.queue [] app :: h)).handed = [] := by
  refine ⟨rfl, ?_⟩
  intro h hq
  have hQ : ∀ (s : Sys), s.queued = [⟨[], app⟩] → (run s h).queued = [⟨[], app⟩] := by
    intro s hs
    induction h generalizing s with
    | nil => exact hs
    | cons e r ih =>
      refine ih (fun x hx => hq x (List.mem_cons_of_mem _ hx)) (step s e) ?_
      cases e with
      | queue d a => exact absurd rfl (hq _ (List.mem_cons_self ..) d a)
      | send now => exact hs
      | frame i =>
        show (s.frame i).queued = _
        unfold Sys.frame
        split <;> exact hs
      | ack i now =>
        show (s.ack i now).queued = _
        unfold Sys.ack
        split <;> exact hs
      | process v ready =>
        show (s.process v ready).queued = _
        unfold Sys.process
        split <;> exact hs
      | regulate c =>
        show (s.regulate c).queued = _
        unfold Sys.regulate
        split <;> exact hs
  have e : (run .new (.queue [] app :: h)).queued = [⟨[], app⟩] := hQ (step .new (.queue [] app)) (by rfl)
  have hp := in_order (.queue [] app :: h)
  rw [e] at hp
  have : [(⟨[], app⟩ : Msg)].filter (fun m => m.data != []) = [] := rfl
  rw [this] at hp
  exact List.map_eq_nil_iff.mp (List.prefix_nil.mp hp)

/-- **C102 is violated.** Two messages are queued and sent. The network exchanges the two frames: the receiver destroys the stream, and nothing is ever handed over. -/
theorem reordered_first_frames :
    (run .new [.queue [1] 0, .queue [2] 0, .send 1, .frame 1]).rx = .destroyed ∧
    ∀ h, (run (run .new [.queue [1] 0, .queue [2] 0, .send 1, .frame 1]) h).handed = [] := by
  have key : ∀ (h : List Ev) (s : Sys), s.rx = .destroyed → s.handed = [] → (run s h).handed = [] := by
    intro h
    induction h with
    | nil => intro s _ h2; exact h2
    | cons e r ih =>
      intro s h1 h2
      refine ih (step s e) ?_ ?_
      · cases e with
        | queue d a => exact h1
        | send now => exact h1
        | frame i => show (s.frame i).rx = _; unfold Sys.frame; rw [h1]; exact h1
        | ack i now => show (s.ack i now).rx = _; unfold Sys.ack; split <;> exact h1
        | process v ready => show (s.process v ready).rx = _; unfold Sys.process; rw [h1]; exact h1
        | regulate c => show (s.regulate c).rx = _; unfold Sys.regulate; rw [h1]; exact h1
      · cases e with
        | queue d a => exact h2
        | send now => exact h2
        | frame i => show (s.frame i).handed = _; unfold Sys.frame; rw [h1]; exact h2
        | ack i now => show (s.ack i now).handed = _; unfold Sys.ack; split <;> exact h2
        | process v ready => show (s.process v ready).handed = _; unfold Sys.process; rw [h1]; exact h2
        | regulate c => show (s.regulate c).handed = _; unfold Sys.regulate; rw [h1]; exact h2
  exact ⟨by decide, fun h => key h _ (by decide) (by decide)⟩

/-- Frames arrive one after another. -/
def receiveAll : Rx → List Frame → Res Rx
  | rx, [] => .ok rx
  | rx, f :: r => match rx.receive f with
    | .ok rx' => receiveAll rx' r
    | x => x

theorem receive_next (F : List Frame) (p : Nat) (hn : Num p F) (hp : F ≠ []) (rx : Rx) (hlast : ∀ x ∈ rx.buf, x.frame.id ≤ p) (hs : Sorted rx.buf) (hc : rx.counter = p) :
    ∃ rx', receiveAll rx F = .ok rx' ∧ rx'.buf = rx.buf ++ F.map (fun f => ⟨f, 0⟩) ∧ rx'.prev = rx.prev := by
  induction F generalizing p rx with
  | nil => exact absurd rfl hp
  | cons f r ih =>
    have hid : f.id = p + 1 := by have := hn 0 f (by rfl); omega
    have hn' : Num (p + 1) r := by
      intro i g hg
      have := hn (i + 1) g (by simpa using hg)
      omega
    have hins : insert ⟨f, 0⟩ rx.buf = some (rx.buf ++ [⟨f, 0⟩]) := by
      unfold insert
      cases hl : rx.buf.getLast? with
      | none =>
        rw [List.getLast?_eq_none_iff] at hl
        rw [hl]; rfl
      | some l =>
        have := hlast l (List.mem_of_getLast? hl)
        simp only
        rw [if_pos (by show f.id > _; omega)]
    have hrec : rx.receive f = .ok { rx with buf := rx.buf ++ [⟨f, 0⟩], counter := p + 1 } := by
      unfold Rx.receive
      rw [if_neg (by omega), if_neg (by omega), hins]
      simp only [hc, hid, if_true]
    simp only [receiveAll, hrec]
    by_cases hr : r = []
    · subst hr
      exact ⟨_, rfl, rfl, rfl⟩
    · obtain ⟨rx', e1, e2, e3⟩ := ih (p + 1) hn' hr { rx with buf := rx.buf ++ [⟨f, 0⟩], counter := p + 1 }
        (by
          intro x hx
          rcases List.mem_append.mp hx with h | h
          · have := hlast x h; omega
          · rw [List.mem_singleton] at h; subst h; show f.id ≤ _; omega)
        (by
          refine List.pairwise_append.mpr ⟨hs, List.pairwise_singleton .., ?_⟩
          intro x hx y hy
          rw [List.mem_singleton] at hy; subst hy
          have := hlast x hx
          show x.frame.id < f.id
          omega) rfl
      refine ⟨rx', e1, ?_, e3⟩
      rw [e2]; simp

/-- **C102 is violated.** A message of at least 4 GiB is received, with all frames in order; the receiver writes outside of the memory which it has allocated. The sender accepts messages of up to 47 GiB. -/
theorem large_overrun (m : Msg) (hl : m.data.length ≥ 2 ^ 32) (hu : m.data.length < 49999999 * 1024) (v : Msg → Verdict) (ready : List Bool) :
    (Tx.new.queue m.data m.app).2 = true ∧
    ∃ rx, receiveAll .new ((Tx.new.queue m.data m.app).1.buf.map (·.frame)) = .ok rx ∧ (rx.process v (true :: ready)).2.2 = .overrun := by
  have hq : Tx.new.queue m.data m.app = ({ Tx.new with buf := [] ++ (framesOf 0 m).map (fun f => ⟨f, 0, 0⟩), counter := 0 + (framesOf 0 m).length, event := true }, true) := by
    unfold Tx.queue
    rw [if_neg (by decide), if_neg (by show ¬ 0 + (m.data.length / 1024 + 1) > 50000000; omega)]
    rfl
  rw [hq]
  refine ⟨rfl, ?_⟩
  have hne : m.data ≠ [] := by intro e; rw [e] at hl; simp at hl
  have hm : (([] ++ (framesOf 0 m).map (fun f => (⟨f, 0, 0⟩ : Entry))).map Entry.frame) = framesOf 0 m := by
    rw [List.nil_append, List.map_map]; exact List.map_id _
  show ∃ rx, receiveAll .new (([] ++ (framesOf 0 m).map (fun f => (⟨f, 0, 0⟩ : Entry))).map Entry.frame) = _ ∧ _
  rw [hm]
  obtain ⟨rx, e1, e2, e3⟩ := receive_next (framesOf 0 m) 0 (framesOf_num 0 m) (framesOf_ne 0 m hne) Rx.new (fun x hx => nomatch hx) List.Pairwise.nil rfl
  refine ⟨rx, e1, ?_⟩
  have hfr := ackLoop_frames rx.prev 0 0 rx.buf
  have hF : allFrames 0 [m] = framesOf 0 m := by simp [allFrames]
  have hbuf : rx.buf.map (·.frame) = framesOf 0 m := by
    rw [e2]
    show (([] : List RFrame) ++ _).map _ = _
    rw [List.nil_append, List.map_map]; exact List.map_id _
  have hp0 : rx.prev = 0 := e3
  unfold Rx.process
  extract_lets x adjust acks y
  show y.2 = .overrun
  have hy : y = deliverLoop v (true :: ready) { rx with buf := (ackLoop rx.prev 0 0 rx.buf).2.1, window := acks.1, regulation := 0 } := rfl
  rw [hy]
  generalize acks.1 = w
  have hmid : ((ackLoop rx.prev 0 0 rx.buf).2.1).map (·.frame) = framesOf 0 m := by rw [hfr, hbuf]
  generalize (ackLoop rx.prev 0 0 rx.buf).2.1 = b at hmid ⊢
  have hsorted : Sorted b := by
    have : (framesOf 0 m).Pairwise (fun a b : Frame => a.id < b.id) := by
      rw [List.pairwise_iff_getElem]
      intro i j hi hj hij
      have a1 := framesOf_num 0 m i _ (List.getElem?_eq_getElem hi)
      have a2 := framesOf_num 0 m j _ (List.getElem?_eq_getElem hj)
      omega
    rw [← hmid] at this
    exact (List.pairwise_map (f := fun x : RFrame => x.frame) (R := fun a b : Frame => a.id < b.id)).mp this
  have hplace : ∀ x ∈ b, At (allFrames 0 [m]) x.frame := by
    intro x hx
    refine At.of_mem (allFrames_num 0 [m]) ?_
    rw [hF, ← hmid]; exact List.mem_map_of_mem hx
  have hprog : Progress [m] [] rx.prev := ⟨[], [m], rfl, rfl, hp0⟩
  obtain ⟨buf, r, hsc, i1, i2, i3⟩ := scan_turn (Q := [m]) (h := []) (rx := { rx with buf := b, window := w, regulation := 0 }) ⟨hsorted, hplace⟩ hprog
  have hsc' : scan rx.prev 0 0 b = some (buf, r) := hsc
  cases r with
  | none =>
    exfalso
    have := scan_none (allFrames 0 [m]) 0 0 0 b hsorted hplace (fun x hx => by have := (hplace x hx).1; omega) (by
      intro i h1 h2
      rw [hF] at h2
      have hlt : i - 1 < (framesOf 0 m).length := by omega
      have hmem : (framesOf 0 m)[i - 1] ∈ b.map (·.frame) := by rw [hmid]; exact List.getElem_mem hlt
      obtain ⟨x, hx, ex⟩ := List.mem_map.mp hmem
      have := framesOf_num 0 m _ _ (List.getElem?_eq_getElem hlt)
      exact ⟨x, hx, by rw [ex, this]; omega⟩) buf (by rw [hp0] at hsc'; exact hsc')
    have := no_boundary (p := 0) (l := [m]) (by simpa using this)
    unfold nonEmpty at this
    rw [List.filter_cons_of_pos (by simpa using hne)] at this
    cases this
  | some n =>
    obtain ⟨j1, _⟩ := i3 n rfl
    rw [List.mem_singleton] at j1
    simp only [deliverLoop, hsc']
    rw [if_pos (by rw [j1]; exact hl)]

/-! ### Examples -/

/-- Three messages, one of two frames, over a network which loses, exchanges and repeats frames and repeats acknowledgements. -/
def exHistory : List Ev :=
  [.queue (List.replicate 1500 7) 5, .queue [1, 2] 6, .queue [3] 7, .send 1, .frame 0, .frame 2, .frame 0, .process (fun _ => .take) [true, true, true], .ack 0 2, .process (fun _ => .take) [true],
   .ack 1 3, .frame 1, .frame 1, .process (fun _ => .take) [true, true, false], .ack 0 4, .frame 3, .frame 2, .process (fun _ => .take) [true, true], .frame 3, .process (fun _ => .take) [true, true]]

example : (run .new exHistory).handed = [(⟨List.replicate 1500 7, 5⟩, .take), (⟨[1, 2], 6⟩, .take), (⟨[3], 7⟩, .take)] := by decide +kernel
example : (run .new exHistory).queued = [⟨List.replicate 1500 7, 5⟩, ⟨[1, 2], 6⟩, ⟨[3], 7⟩] := by decide +kernel

/-- Beside `all_delivered_partial`: everything is acknowledged, the application was not ready; then it is. -/
def exAcked : List Ev := [.queue [1, 2] 6, .queue [3] 7, .send 1, .frame 0, .frame 1, .process (fun _ => .take) [false], .ack 0 2]

example : (run .new exAcked).tx.buf = [] ∧ (run .new exAcked).handed = [] ∧ (run .new exAcked).rx ≠ .destroyed := by decide +kernel
example : (run .new (exAcked ++ [.process (fun _ => .take) (List.replicate 3 true)])).handed.map (·.1) = [⟨[1, 2], 6⟩, ⟨[3], 7⟩] := by decide +kernel

end Verif.Udpstream

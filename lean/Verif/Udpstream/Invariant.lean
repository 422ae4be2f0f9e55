import Verif.Udpstream.Lemmas
/-!
# The invariant of a stream
-/
namespace Verif.Udpstream
open Verif

/-- The messages before some point have been handed over, except for empty ones, and `prev` is the number of their last frame. -/
def Progress (Q handed : List Msg) (prev : Nat) : Prop := ∃ done rest, Q = done ++ rest ∧ handed = nonEmpty done ∧ prev = (allFrames 0 done).length

/-- The frame was received. -/
def Covered (rx : Rx) (id : Nat) : Prop := id ≤ rx.prev ∨ Has rx.buf id

structure RxInv (F : List Frame) (rx : Rx) : Prop where
  sorted : Sorted rx.buf
  place : ∀ x ∈ rx.buf, At F x.frame

theorem first_true (a b : Nat) (x y : List Bool) (h : List.replicate a false ++ true :: x = List.replicate b false ++ true :: y) : a = b := by
  induction a generalizing b with
  | zero =>
    cases b with
    | zero => rfl
    | succ b => simp [List.replicate_succ] at h
  | succ a ih =>
    cases b with
    | zero => simp [List.replicate_succ] at h
    | succ b =>
      simp only [List.replicate_succ, List.cons_append, List.cons.injEq, true_and] at h
      rw [ih b h]

theorem Has.append {a b : List RFrame} {i : Nat} : Has (a ++ b) i ↔ Has a i ∨ Has b i := by
  unfold Has
  constructor
  · rintro ⟨x, hx, e⟩
    rcases List.mem_append.mp hx with h | h
    · exact Or.inl ⟨x, h, e⟩
    · exact Or.inr ⟨x, h, e⟩
  · rintro (⟨x, h, e⟩ | ⟨x, h, e⟩)
    · exact ⟨x, List.mem_append_left _ h, e⟩
    · exact ⟨x, List.mem_append_right _ h, e⟩

theorem join_of (p : Nat) (m : Msg) (l : List RFrame) (hm : m.data ≠ []) (h : l.map (·.frame) = framesOf p m) :
    join l = m ∧ (l.getLast?.map (fun n => n.frame.id)).getD 0 = p + (framesOf p m).length := by
  have hne : l ≠ [] := by
    intro e; subst e
    exact framesOf_ne p m hm h.symm
  obtain ⟨a, x, e⟩ := (List.eq_nil_or_concat l).resolve_left hne
  rw [List.concat_eq_append] at e
  have hlast : l.getLast? = some x := by rw [e, List.getLast?_append]; rfl
  have hx : x.frame ∈ framesOf p m := by rw [← h]; exact List.mem_map_of_mem (by rw [e]; simp)
  constructor
  · unfold join
    have hd : l.map (fun n => n.frame.data) = (framesOf p m).map (·.data) := by rw [← h, List.map_map]; rfl
    rw [hd, framesOf_data, hlast]
    show Msg.mk m.data x.frame.app = m
    rw [framesOf_app p m _ hx]
  · rw [hlast]
    show x.frame.id = _
    have hi : (framesOf p m)[a.length]? = some x.frame := by rw [← h, e]; simp
    have hl : (framesOf p m).length = a.length + 1 := by rw [← h, e]; simp
    rw [framesOf_num p m _ _ hi, hl]
    omega

/-- One turn of the delivery loop. -/
theorem scan_turn {Q h : List Msg} {rx : Rx} (hi : RxInv (allFrames 0 Q) rx) (hp : Progress Q h rx.prev) :
    ∃ buf r, scan rx.prev 0 0 rx.buf = some (buf, r) ∧ RxInv (allFrames 0 Q) { rx with buf := buf } ∧ (∀ i, Covered rx i → Covered { rx with buf := buf } i) ∧
      ∀ n, r = some n → join (buf.take n) ∈ Q ∧ Progress Q (h ++ [join (buf.take n)]) (((buf.take n).getLast?.map (fun n => n.frame.id)).getD 0) ∧
        RxInv (allFrames 0 Q) { rx with buf := buf.drop n, prev := ((buf.take n).getLast?.map (fun n => n.frame.id)).getD 0 } ∧
        (∀ i, Covered rx i → Covered { rx with buf := buf.drop n, prev := ((buf.take n).getLast?.map (fun n => n.frame.id)).getD 0 } i) := by
  obtain ⟨old, new, e, h1, h2, h3⟩ := scan_skip rx.prev rx.buf hi.sorted
  have hs : Sorted new := by have := hi.sorted; rw [e] at this; exact (List.pairwise_append.mp this).2.1
  have hat : ∀ x ∈ new, At (allFrames 0 Q) x.frame := fun x hx => hi.place x (by rw [e]; exact List.mem_append_right _ hx)
  obtain ⟨r, hr, hn⟩ := scan_new (allFrames 0 Q) rx.prev 0 0 new hs hat h2
  refine ⟨new, r, by rw [h3, hr], ⟨hs, hat⟩, ?_, ?_⟩
  · intro i hc
    rcases hc with hc | hc
    · exact Or.inl hc
    · rw [e] at hc
      rcases Has.append.mp hc with ⟨x, hx, hid⟩ | hc
      · exact Or.inl (by have := h1 x hx; show i ≤ rx.prev; omega)
      · exact Or.inr hc
  intro n hrn
  obtain ⟨j, e1, e2, e3⟩ := hn n hrn
  simp only [Nat.add_zero, Nat.zero_add] at e1 e2 e3
  subst e1
  obtain ⟨done, rest, q1, q2, q3⟩ := hp
  have hF : allFrames 0 Q = allFrames 0 done ++ allFrames rx.prev rest := by rw [q1, allFrames_append, Nat.zero_add, ← q3]
  have hdrop : (allFrames 0 Q).drop rx.prev = allFrames rx.prev rest := by rw [hF, q3, List.drop_left]
  rw [hdrop] at e2 e3
  have hne : allFrames rx.prev rest ≠ [] := by
    intro x; rw [x] at e3; simp at e3
  obtain ⟨pre, m, post, p1, p2, p3, p4, p5⟩ := allFrames_first rx.prev rest hne
  have hb := framesOf_boundary rx.prev m p4
  have hL : 0 < (framesOf rx.prev m).length := List.length_pos_iff.mpr (framesOf_ne rx.prev m p4)
  have hj : j + 1 = (framesOf rx.prev m).length := by
    have x1 : (allFrames rx.prev rest).map (·.boundary) = List.replicate j false ++ true :: ((allFrames rx.prev rest).map (·.boundary)).drop (j + 1) := by
      have := (List.take_append_drop (j + 1) ((allFrames rx.prev rest).map (·.boundary))).symm
      rw [← List.map_take, e3] at this
      simpa using this
    have x2 : (allFrames rx.prev rest).map (·.boundary) = List.replicate ((framesOf rx.prev m).length - 1) false ++ true :: (allFrames (rx.prev + (framesOf rx.prev m).length) post).map (·.boundary) := by
      rw [p5, List.map_append, hb]; simp
    have := first_true _ _ _ _ (x1.symm.trans x2)
    omega
  have htake : (new.take (j + 1)).map (·.frame) = framesOf rx.prev m := by
    rw [e2, p5, hj, List.take_left]
  obtain ⟨g1, g2⟩ := join_of rx.prev m _ p4 htake
  rw [g1, g2]
  refine ⟨?_, ⟨done ++ (pre ++ [m]), post, ?_, ?_, ?_⟩, ⟨?_, ?_⟩, ?_⟩
  · rw [q1, p1]; simp
  · rw [q1, p1]; simp
  · rw [q2, nonEmpty_append, nonEmpty_append, p3]
    have : nonEmpty [m] = [m] := by unfold nonEmpty; rw [List.filter_cons_of_pos (by simpa using p4)]; rfl
    rw [this]; rfl
  · rw [allFrames_append, Nat.zero_add, ← q3, allFrames_append, p2]
    simp [allFrames, ← q3]
  · exact hs.sublist (List.drop_sublist _ _)
  · intro x hx; exact hat x (List.mem_of_mem_drop hx)
  · intro i hc
    show i ≤ rx.prev + _ ∨ _
    rcases hc with hc | hc
    · exact Or.inl (by omega)
    · rw [e] at hc
      rcases Has.append.mp hc with ⟨x, hx, hid⟩ | hc
      · exact Or.inl (by have := h1 x hx; omega)
      · rw [← List.take_append_drop (j + 1) new] at hc
        rcases Has.append.mp hc with ⟨x, hx, hid⟩ | hc
        · refine Or.inl ?_
          have hx' : x.frame ∈ framesOf rx.prev m := by rw [← htake]; exact List.mem_map_of_mem hx
          obtain ⟨ix, hix, ex⟩ := List.mem_iff_getElem.mp hx'
          have := framesOf_num rx.prev m ix x.frame (by rw [List.getElem?_eq_getElem hix, ex])
          omega
        · exact Or.inr hc

/-- What the delivery loop leaves behind. -/
def Delivered (Q h : List Msg) (rx : Rx) : Res Rx → Prop
  | .ok rx' => RxInv (allFrames 0 Q) rx' ∧ Progress Q h rx'.prev ∧ (∀ i, Covered rx i → Covered rx' i) ∧ rx.counter = rx'.counter
  | .destroyed => ∃ prev, Progress Q h prev
  | .overrun => (∃ prev, Progress Q h prev) ∧ ∃ m ∈ Q, m.data.length ≥ 2 ^ 32
  | .bug => False

theorem Delivered.weaken {Q h : List Msg} {rx rx0 : Rx} {r : Res Rx} (hd : Delivered Q h rx r) (hc : ∀ i, Covered rx0 i → Covered rx i) (hk : rx0.counter = rx.counter) : Delivered Q h rx0 r := by
  cases r with
  | ok rx' => exact ⟨hd.1, hd.2.1, fun i h => hd.2.2.1 i (hc i h), hk.trans hd.2.2.2⟩
  | destroyed => exact hd
  | overrun => exact hd
  | bug => exact hd

theorem deliverLoop_inv {Q : List Msg} (v : Msg → Verdict) (ready : List Bool) {h : List Msg} {rx : Rx} (hi : RxInv (allFrames 0 Q) rx) (hp : Progress Q h rx.prev) :
    Delivered Q (h ++ (deliverLoop v ready rx).1.map (·.1)) rx (deliverLoop v ready rx).2 := by
  induction ready generalizing h rx with
  | nil =>
    simp only [deliverLoop, List.map_nil, List.append_nil]
    exact ⟨hi, hp, fun i hc => hc, rfl⟩
  | cons b ready ih =>
    cases b with
    | false =>
      simp only [deliverLoop, List.map_nil, List.append_nil]
      exact ⟨hi, hp, fun i hc => hc, rfl⟩
    | true =>
      obtain ⟨buf, r, hs, i1, i2, i3⟩ := scan_turn hi hp
      cases r with
      | none =>
        simp only [deliverLoop, hs, List.map_nil, List.append_nil]
        exact ⟨i1, hp, i2, rfl⟩
      | some n =>
        obtain ⟨j1, j2, j3, j4⟩ := i3 n rfl
        simp only [deliverLoop, hs]
        by_cases hb : (join (buf.take n)).data.length ≥ 2 ^ 32
        · rw [if_pos hb]
          simp only [List.map_nil, List.append_nil]
          exact ⟨⟨_, hp⟩, _, j1, hb⟩
        · rw [if_neg hb]
          cases hv : v (join (buf.take n)) with
          | error => exact ⟨_, j2⟩
          | take =>
            have := (ih j3 j2).weaken j4 rfl
            rw [List.append_assoc] at this
            exact this
          | refuse =>
            have := (ih j3 j2).weaken j4 rfl
            rw [List.append_assoc] at this
            exact this

/-- The receiver, with what was sent to it. -/
def RxPart (Q : List Msg) (sendBuf : List Entry) (acks : List Ack) (handed : List (Msg × Verdict)) : Res Rx → Prop
  | .ok rx => RxInv (allFrames 0 Q) rx ∧ Progress Q (handed.map (·.1)) rx.prev ∧ (∀ a ∈ acks, ∀ i, a.first ≤ i → i ≤ a.last → Covered rx i) ∧
      ∀ i, 1 ≤ i → i ≤ (allFrames 0 Q).length → Covered rx i ∨ ∃ e ∈ sendBuf, e.frame.id = i
  | .destroyed => ∃ prev, Progress Q (handed.map (·.1)) prev
  | .overrun => (∃ prev, Progress Q (handed.map (·.1)) prev) ∧ ∃ m ∈ Q, m.data.length ≥ 2 ^ 32
  | .bug => False

structure Inv (s : Sys) : Prop where
  count : s.tx.counter = (allFrames 0 s.queued).length
  buf : ∀ e ∈ s.tx.buf, At (allFrames 0 s.queued) e.frame
  net : ∀ f ∈ s.frames, At (allFrames 0 s.queued) f
  rx : RxPart s.queued s.tx.buf s.acks s.handed s.rx

theorem Progress.more {Q h : List Msg} {p : Nat} (hp : Progress Q h p) (x : List Msg) : Progress (Q ++ x) h p := by
  obtain ⟨d, r, e1, e2, e3⟩ := hp
  exact ⟨d, r ++ x, by rw [e1, List.append_assoc], e2, e3⟩

theorem inv_new : Inv Sys.new where
  count := rfl
  buf := fun e h => nomatch h
  net := fun f h => nomatch h
  rx := ⟨⟨List.Pairwise.nil, fun x h => nomatch h⟩, ⟨[], [], rfl, rfl, rfl⟩, fun a h => (nomatch h), fun i h1 h2 => by
    have : (allFrames 0 Sys.new.queued).length = 0 := rfl
    omega⟩

theorem has_frames {l l' : List RFrame} (h : l.map (·.frame) = l'.map (·.frame)) {i : Nat} (hi : Has l i) : Has l' i := by
  obtain ⟨x, hx, e⟩ := hi
  have : x.frame ∈ l'.map (·.frame) := by rw [← h]; exact List.mem_map_of_mem hx
  obtain ⟨y, hy, e2⟩ := List.mem_map.mp this
  exact ⟨y, hy, by rw [e2, e]⟩

theorem sorted_frames {l l' : List RFrame} (h : l.map (·.frame) = l'.map (·.frame)) (hs : Sorted l) : Sorted l' := by
  unfold Sorted at hs ⊢
  have h1 : (l.map (·.frame)).Pairwise (fun a b : Frame => a.id < b.id) := List.pairwise_map.mpr hs
  rw [h] at h1
  exact (List.pairwise_map (f := fun x : RFrame => x.frame) (R := fun a b : Frame => a.id < b.id)).mp h1

theorem inv_step {s : Sys} (hi : Inv s) (e : Ev) : Inv (step s e) := by
  cases e with
  | queue data app =>
    show Inv { s with tx := (s.tx.queue data app).1, queued := if (s.tx.queue data app).2 then s.queued ++ [⟨data, app⟩] else s.queued }
    unfold Tx.queue
    split
    · exact hi
    · split
      · exact hi
      · simp only [if_true]
        have hF : allFrames 0 (s.queued ++ [⟨data, app⟩]) = allFrames 0 s.queued ++ framesOf s.tx.counter ⟨data, app⟩ := by
          rw [allFrames_append, Nat.zero_add, ← hi.count]
          simp [allFrames]
        have hnum := allFrames_num 0 (s.queued ++ [⟨data, app⟩])
        refine ⟨?_, ?_, ?_, ?_⟩
        · show s.tx.counter + _ = _
          rw [hF, List.length_append, hi.count]; rfl
        · intro x hx
          show At (allFrames 0 (s.queued ++ [⟨data, app⟩])) x.frame
          rcases List.mem_append.mp hx with h | h
          · rw [hF]; exact (hi.buf x h).append _
          · obtain ⟨f, hf, ef⟩ := List.mem_map.mp h
            subst ef
            refine At.of_mem hnum ?_
            rw [hF]; exact List.mem_append_right _ hf
        · intro f hf
          show At (allFrames 0 (s.queued ++ [⟨data, app⟩])) f
          rw [hF]; exact (hi.net f hf).append _
        · have := hi.rx
          show RxPart (s.queued ++ [⟨data, app⟩]) (s.tx.buf ++ _) s.acks s.handed s.rx
          cases hr : s.rx with
          | ok rx =>
            rw [hr] at this
            obtain ⟨r1, r2, r3, r4⟩ := this
            refine ⟨⟨r1.sorted, fun x hx => ?_⟩, r2.more _, r3, ?_⟩
            · rw [hF]; exact (r1.place x hx).append _
            · intro i h1 h2
              by_cases h3 : i ≤ (allFrames 0 s.queued).length
              · rcases r4 i h1 h3 with h | ⟨x, hx, ex⟩
                · exact Or.inl h
                · exact Or.inr ⟨x, List.mem_append_left _ hx, ex⟩
              · right
                rw [hF, List.length_append] at h2
                have hl : i - (allFrames 0 s.queued).length - 1 < (framesOf s.tx.counter ⟨data, app⟩).length := by omega
                refine ⟨⟨(framesOf s.tx.counter ⟨data, app⟩)[i - (allFrames 0 s.queued).length - 1], 0, 0⟩, ?_, ?_⟩
                · refine List.mem_append_right _ (List.mem_map.mpr ⟨_, List.getElem_mem hl, rfl⟩)
                · have := framesOf_num s.tx.counter ⟨data, app⟩ _ _ (List.getElem?_eq_getElem hl)
                  show ((framesOf s.tx.counter ⟨data, app⟩)[i - (allFrames 0 s.queued).length - 1]).id = i
                  rw [this, hi.count]
                  omega
          | destroyed => rw [hr] at this; obtain ⟨p, hp⟩ := this; exact ⟨p, hp.more _⟩
          | overrun =>
            rw [hr] at this
            obtain ⟨⟨p, hp⟩, m, hm, hl⟩ := this
            exact ⟨⟨p, hp.more _⟩, m, List.mem_append_left _ hm, hl⟩
          | bug => rw [hr] at this; exact this
  | send now =>
    show Inv { s with tx := (s.tx.send now).1, frames := s.frames ++ (s.tx.send now).2 }
    unfold Tx.send
    split
    · have hfr := sendLoop_frames now s.tx.window 0 0 s.tx.buf
      have hsent := sendLoop_sent now s.tx.window 0 0 s.tx.buf
      have hmem : ∀ f ∈ s.tx.buf.map (·.frame), At (allFrames 0 s.queued) f := by
        intro f hf
        obtain ⟨x, hx, ex⟩ := List.mem_map.mp hf
        rw [← ex]; exact hi.buf x hx
      refine ⟨hi.count, ?_, ?_, ?_⟩
      · intro x hx
        refine hmem _ ?_
        rw [← hfr]; exact List.mem_map_of_mem hx
      · intro f hf
        rcases List.mem_append.mp hf with h | h
        · exact hi.net f h
        · exact hmem f (hsent f h)
      · have := hi.rx
        show RxPart s.queued (sendLoop now s.tx.window 0 0 s.tx.buf).1 s.acks s.handed s.rx
        cases hr : s.rx with
        | ok rx =>
          rw [hr] at this
          obtain ⟨r1, r2, r3, r4⟩ := this
          refine ⟨r1, r2, r3, ?_⟩
          intro i h1 h2
          rcases r4 i h1 h2 with h | ⟨x, hx, ex⟩
          · exact Or.inl h
          · right
            have : x.frame ∈ (sendLoop now s.tx.window 0 0 s.tx.buf).1.map (·.frame) := by rw [hfr]; exact List.mem_map_of_mem hx
            obtain ⟨y, hy, ey⟩ := List.mem_map.mp this
            exact ⟨y, hy, by rw [ey, ex]⟩
        | destroyed => rw [hr] at this; exact this
        | overrun => rw [hr] at this; exact this
        | bug => rw [hr] at this; exact this
    · simp only [List.append_nil]; exact hi
  | frame i =>
    show Inv (s.frame i)
    unfold Sys.frame
    split
    · rename_i rx f hr hf
      have hrx := hi.rx
      rw [hr] at hrx
      obtain ⟨r1, r2, r3, r4⟩ := hrx
      have hat := hi.net f (List.mem_of_getElem? hf)
      refine ⟨hi.count, hi.buf, hi.net, ?_⟩
      show RxPart s.queued s.tx.buf s.acks s.handed (rx.receive f)
      unfold Rx.receive
      split
      · exact ⟨r1, r2, r3, r4⟩
      · split
        · exact ⟨_, r2⟩
        · obtain ⟨l', e1, e2, e3, e4, e5⟩ := insert_spec ⟨f, 0⟩ rx.buf r1.sorted
          rw [e1]
          have hc : ∀ i, Covered rx i → Covered { rx with buf := l', counter := if f.id = rx.counter + 1 then rx.counter + 1 else rx.counter } i := by
            intro i hc
            rcases hc with hc | ⟨x, hx, ex⟩
            · exact Or.inl hc
            · exact Or.inr ⟨x, e4 x hx, ex⟩
          refine ⟨⟨e2, ?_⟩, r2, fun a ha i x y => hc i (r3 a ha i x y), ?_⟩
          · intro x hx
            rcases e3 x hx with h | h
            · rw [h]; exact hat
            · exact r1.place x h
          · intro i x y
            rcases r4 i x y with h | h
            · exact Or.inl (hc i h)
            · exact Or.inr h
    · exact hi
  | ack i now =>
    show Inv (s.ack i now)
    unfold Sys.ack
    cases ha : s.acks[i]? with
    | none => exact hi
    | some a =>
      have hfr := ackFrames_frames a (if a.first = a.last ∧ a.last = s.tx.lastAck then some s.tx.lastAck else none) now s.tx.buf
      have hsent := ackFrames_sent a (if a.first = a.last ∧ a.last = s.tx.lastAck then some s.tx.lastAck else none) now s.tx.buf
      have hmem : ∀ f ∈ s.tx.buf.map (·.frame), At (allFrames 0 s.queued) f := by
        intro f hf
        obtain ⟨x, hx, ex⟩ := List.mem_map.mp hf
        rw [← ex]; exact hi.buf x hx
      refine ⟨hi.count, ?_, ?_, ?_⟩
      · intro x hx
        have : x.frame ∈ (ackFrames a (if a.first = a.last ∧ a.last = s.tx.lastAck then some s.tx.lastAck else none) now s.tx.buf).1.map (·.frame) := List.mem_map_of_mem hx
        rw [hfr] at this
        exact hmem _ (List.mem_filter.mp this).1
      · intro f hf
        rcases List.mem_append.mp hf with h | h
        · exact hi.net f h
        · exact hmem f (hsent f h)
      · have := hi.rx
        show RxPart s.queued (ackFrames a (if a.first = a.last ∧ a.last = s.tx.lastAck then some s.tx.lastAck else none) now s.tx.buf).1 s.acks s.handed s.rx
        cases hr : s.rx with
        | ok rx =>
          rw [hr] at this
          obtain ⟨r1, r2, r3, r4⟩ := this
          refine ⟨r1, r2, r3, ?_⟩
          intro j h1 h2
          rcases r4 j h1 h2 with h | ⟨x, hx, ex⟩
          · exact Or.inl h
          · by_cases hin : j ≥ a.first ∧ j ≤ a.last
            · exact Or.inl (r3 a (List.mem_of_getElem? ha) j hin.1 hin.2)
            · right
              have : x.frame ∈ (ackFrames a (if a.first = a.last ∧ a.last = s.tx.lastAck then some s.tx.lastAck else none) now s.tx.buf).1.map (·.frame) := by
                rw [hfr]
                refine List.mem_filter.mpr ⟨List.mem_map_of_mem hx, ?_⟩
                rw [ex, decide_eq_false hin]; rfl
              obtain ⟨y, hy, ey⟩ := List.mem_map.mp this
              exact ⟨y, hy, by rw [ey, ex]⟩
        | destroyed => rw [hr] at this; exact this
        | overrun => rw [hr] at this; exact this
        | bug => rw [hr] at this; exact this
  | process v ready =>
    show Inv (s.process v ready)
    unfold Sys.process
    cases hr : s.rx with
    | ok rx =>
      have hrx := hi.rx
      rw [hr] at hrx
      obtain ⟨r1, r2, r3, r4⟩ := hrx
      refine ⟨hi.count, hi.buf, hi.net, ?_⟩
      show RxPart s.queued s.tx.buf (s.acks ++ (rx.process v ready).1) (s.handed ++ (rx.process v ready).2.1) (rx.process v ready).2.2
      have hfr := ackLoop_frames rx.prev 0 0 rx.buf
      -- the state between the two loops
      have key : ∀ w reg, Delivered s.queued ((s.handed.map (·.1)) ++ (deliverLoop v ready { rx with buf := (ackLoop rx.prev 0 0 rx.buf).2.1, window := w, regulation := reg }).1.map (·.1)) rx
          (deliverLoop v ready { rx with buf := (ackLoop rx.prev 0 0 rx.buf).2.1, window := w, regulation := reg }).2 := by
        intro w reg
        refine (deliverLoop_inv v ready (rx := { rx with buf := (ackLoop rx.prev 0 0 rx.buf).2.1, window := w, regulation := reg }) ⟨?_, ?_⟩ r2).weaken ?_ rfl
        · exact sorted_frames hfr.symm r1.sorted
        · intro x hx
          have : x.frame ∈ rx.buf.map (·.frame) := by rw [← hfr]; exact List.mem_map_of_mem hx
          obtain ⟨y, hy, ey⟩ := List.mem_map.mp this
          rw [← ey]; exact r1.place y hy
        · intro i hc
          rcases hc with hc | hc
          · exact Or.inl hc
          · exact Or.inr (has_frames hfr.symm hc)
      unfold Rx.process
      extract_lets x adjust acks y
      have hk := key acks.1 0
      have hy : y = deliverLoop v ready { rx with buf := (ackLoop rx.prev 0 0 rx.buf).2.1, window := acks.1, regulation := 0 } := rfl
      rw [← hy] at hk
      have hacks : ∀ a ∈ acks.2, ∀ i, a.first ≤ i → i ≤ a.last → Covered rx i := by
        intro a ha i h1 h2
        have hm := sendAcks_mem adjust rx.window x.1 a ha
        exact ackLoop_sound (Covered rx) rx.prev 0 0 rx.buf r1.sorted (Or.inl (Nat.le_refl _)) (fun z hz => (r1.place z hz).1) (fun z hz => (r1.place z hz).1)
          (fun z hz => Or.inr ⟨z, hz, rfl⟩) (Or.inl ⟨rfl, rfl⟩) _ hm i h1 h2
      show RxPart s.queued s.tx.buf (s.acks ++ acks.2) (s.handed ++ y.1) y.2
      cases hy2 : y.2 with
      | ok rx' =>
        rw [hy2] at hk
        obtain ⟨k1, k2, k3, _⟩ := hk
        refine ⟨k1, by rw [List.map_append]; exact k2, ?_, ?_⟩
        · intro a ha i h1 h2
          rcases List.mem_append.mp ha with h | h
          · exact k3 i (r3 a h i h1 h2)
          · exact k3 i (hacks a h i h1 h2)
        · intro i h1 h2
          rcases r4 i h1 h2 with h | h
          · exact Or.inl (k3 i h)
          · exact Or.inr h
      | destroyed => rw [hy2] at hk; show ∃ prev, _; rw [List.map_append]; exact hk
      | overrun => rw [hy2] at hk; show (∃ prev, _) ∧ _; rw [List.map_append]; exact hk
      | bug => rw [hy2] at hk; exact hk
    | destroyed => exact hi
    | overrun => exact hi
    | bug => exact hi
  | regulate change =>
    show Inv (s.regulate change)
    unfold Sys.regulate
    cases hr : s.rx with
    | ok rx =>
      have hrx := hi.rx
      rw [hr] at hrx
      exact ⟨hi.count, hi.buf, hi.net, ⟨hrx.1.sorted, hrx.1.place⟩, hrx.2.1, hrx.2.2.1, hrx.2.2.2⟩
    | destroyed => exact hi
    | overrun => exact hi
    | bug => exact hi

theorem inv_run {s : Sys} (hi : Inv s) (h : List Ev) : Inv (run s h) := by
  induction h generalizing s with
  | nil => exact hi
  | cons e r ih => exact ih (inv_step hi e)

end Verif.Udpstream

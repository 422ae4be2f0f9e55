import Verif.Channel.Lemmas
/-!
# The invariants are kept
-/
namespace Verif.Channel
open Verif

theorem sent_returns (s : State) (m : Bytes) (r : Ret) (hr : wasPut r = false)
    (hw : inFlight s.writer = []) : sent (s.writeReturns m r) = sent s := by
  simp only [sent, State.writeReturns, List.filter_append, List.map_append, hw]
  simp [hr, inFlight]

theorem startWrite_inv {s : State} (h : Inv s) {m : Bytes} (hm : m ≠ []) : Inv (startWrite s m) := by
  unfold startWrite
  split
  · rename_i hw
    have hlw : ∀ i, (s.blocks i).lock ≠ some .writer := fun i e => by
      obtain ⟨m', e'⟩ := h.lock.w i e
      rw [hw] at e'; cases e'
    cases hc : s.cleanup <;>
    · refine h.frame (by simp [sent, hw, inFlight]) rfl (by simp [hw, wLag]) rfl rfl rfl rfl
        (fun i => rfl) (fun i _ => rfl) h.clean ?_ h.rok ?_
      · simp [WriterOk, hm]
      · exact ⟨fun i e => absurd e (hlw i), h.lock.r⟩
  · exact h

theorem cleanOne_inv {s : State} (h : Inv s) {m : Bytes} {b i : Nat} (f : Bool)
    (hw : s.writer = .cleaning m b i) : Inv (cleanOne s m b i f) := by
  have hlw : ∀ i, (s.blocks i).lock ≠ some .writer := fun i e => by
    obtain ⟨m', e'⟩ := h.lock.w i e
    rw [hw] at e'; cases e'
  have hwok := h.wok
  simp only [WriterOk, hw] at hwok
  have hskip : ∀ w', (w' = .cleaning m b (i + 1) ∨ w' = .locking m b) →
      Inv { s with writer := w' } := by
    intro w' hw'
    refine h.frame ?_ rfl ?_ rfl rfl rfl rfl (fun i => rfl) (fun i _ => rfl) h.clean ?_ h.rok ?_
    · rcases hw' with e | e <;> simp [sent, hw, inFlight, e]
    · rcases hw' with e | e <;> simp [wLag, hw, e]
    · rcases hw' with e | e <;> simp [WriterOk, e, hwok]
    · exact ⟨fun i e => absurd e (hlw i), h.lock.r⟩
  have hupd : ∀ (blk : Block) (s' : State), blk.lock = (s.blocks i).lock → blk.cleanup = false →
      (s.blocks i).size = 0 → blk.size = 0 → s'.blocks = (s.set i blk).blocks →
      sent s' = sent s → s'.delivered = s.delivered → wLag s'.writer = 0 → s'.reader = s.reader →
      s'.wpos = s.wpos → s'.rpos = s.rpos → s'.count = s.count → WriterOk s' → Inv s' := by
    intro blk s' hl hcl hz hz' hb hs hd hwl hr hwp hrp hc hwk
    have hbi : ∀ j, s'.blocks j = if j = i then blk else s.blocks j := fun j => by rw [hb]; rfl
    refine h.frame hs hd (by rw [hwl, hw]; rfl) (by rw [hr]) hwp hrp hc ?_ ?_ ?_ hwk ?_ ?_
    · intro j; rw [hbi]; split
      · rename_i e; rw [e, hz, hz']
      · rfl
    · intro j hj; rw [hbi]; split
      · rename_i e; rw [e] at hj; exact absurd hz hj
      · rfl
    · intro j; rw [hbi]; split
      · intro _; exact hz'
      · exact h.clean j
    · have := h.rok
      unfold ReaderOk at this ⊢
      rw [hr]
      cases hrr : s.reader with
      | locked b' =>
        rw [hrr] at this
        simp only at this ⊢
        refine ⟨by rw [hrp]; exact this.1, ?_⟩
        rw [hbi]; split
        · rename_i e; rw [hl, ← e]; exact this.2
        · exact this.2
      | _ => rw [hrr] at this; simp only [hrp] at this ⊢ <;> exact this
    · constructor
      · intro j; rw [hbi]; split
        · rw [hl]; exact fun e => absurd e (hlw i)
        · exact fun e => absurd e (hlw j)
      · intro j; rw [hbi, hr]; split
        · rename_i e; rw [hl, e]; exact h.lock.r i
        · exact h.lock.r j
  unfold cleanOne
  dsimp only
  split
  · split
    · exact hskip _ (.inl rfl)
    · split
      · rename_i hcl
        have hz := h.clean i hcl
        split
        · exact hupd { (s.blocks i).free with cleanup := false } _ rfl rfl hz rfl rfl
            (by simp [sent, State.set, hw, inFlight]) rfl rfl rfl rfl rfl rfl
            (by simp [WriterOk, State.set, hwok])
        · exact hupd { s.blocks i with cleanup := false } _ rfl rfl hz hz rfl
            (by rw [sent_returns _ _ _ rfl (by simp [State.set, hw, inFlight])]; rfl)
            rfl rfl rfl rfl rfl rfl trivial
      · exact hskip _ (.inl rfl)
  · exact hskip _ (.inr rfl)

/-- One block is changed by the writer, which keeps what is in it. -/
theorem writer_block {s : State} (h : Inv s) {b : Nat} {blk : Block} {s' : State}
    (hlr : (s.blocks b).lock ≠ some .reader) (hsz : blk.size = (s.blocks b).size)
    (hdt : (s.blocks b).size ≠ 0 → blk.data = (s.blocks b).data)
    (hcl : blk.cleanup = true → blk.size = 0)
    (hb : s'.blocks = (s.set b blk).blocks) (hs : sent s' = sent s)
    (hd : s'.delivered = s.delivered) (hwl : wLag s'.writer = wLag s.writer)
    (hr : s'.reader = s.reader) (hwp : s'.wpos = s.wpos) (hrp : s'.rpos = s.rpos)
    (hc : s'.count = s.count) (hwk : WriterOk s')
    (hl : (blk.lock = none ∧ s'.writer = .idle ∧ ∀ i, (s.blocks i).lock = some .writer → i = b) ∨
      (blk.lock = some .writer ∧ (∃ m, s'.writer = .locked m b) ∧
        ∀ i, (s.blocks i).lock ≠ some .writer)) : Inv s' := by
  have hbi : ∀ j, s'.blocks j = if j = b then blk else s.blocks j := fun j => by rw [hb]; rfl
  refine h.frame hs hd hwl (by rw [hr]) hwp hrp hc ?_ ?_ ?_ hwk ?_ ?_
  · intro j; rw [hbi]; split
    · rename_i e; rw [e, hsz]
    · rfl
  · intro j hj; rw [hbi]; split
    · rename_i e; rw [e] at hj ⊢; exact hdt hj
    · rfl
  · intro j; rw [hbi]; split
    · exact hcl
    · exact h.clean j
  · have := h.rok
    unfold ReaderOk at this ⊢
    rw [hr]
    cases hrr : s.reader with
    | locked b' =>
      rw [hrr] at this
      simp only at this ⊢
      refine ⟨by rw [hrp]; exact this.1, ?_⟩
      rw [hbi]; split
      · rename_i e; rw [e] at this; exact absurd this.2 hlr
      · exact this.2
    | _ => rw [hrr] at this; simp only [hrp] at this ⊢ <;> exact this
  · constructor
    · intro j; rw [hbi]; split
      · rename_i e
        rcases hl with ⟨l1, _⟩ | ⟨_, l2, _⟩
        · rw [l1]; exact fun e => nomatch e
        · rw [e]; exact fun _ => l2
      · rename_i e
        rcases hl with ⟨_, _, l3⟩ | ⟨_, _, l3⟩
        · exact fun h2 => absurd (l3 j h2) e
        · exact fun h2 => absurd h2 (l3 j)
    · intro j; rw [hbi, hr]; split
      · rcases hl with ⟨l1, _⟩ | ⟨l1, _⟩ <;> rw [l1] <;> exact fun e => nomatch e
      · exact h.lock.r j

theorem stepWriter_inv {s : State} (h : Inv s) (hsafe : Safe s) (f : Bool) (y : Sys) (c n : Bool) :
    Inv (stepWriter s f y c n) := by
  unfold stepWriter
  split
  · exact h
  · rename_i m b i hw
    exact cleanOne_inv h f hw
  · rename_i m b hw
    have hlw : ∀ i, (s.blocks i).lock ≠ some .writer := fun i e => by
      obtain ⟨m', e'⟩ := h.lock.w i e
      rw [hw] at e'; cases e'
    have hwok := h.wok
    simp only [WriterOk, hw] at hwok
    dsimp only
    split
    · refine h.frame (sent_returns _ _ _ rfl (by simp [hw, inFlight])) rfl (by rw [hw]; rfl) rfl rfl
        rfl rfl (fun i => rfl) (fun i _ => rfl) h.clean trivial h.rok ?_
      exact ⟨fun i e => absurd e (hlw i), h.lock.r⟩
    · rename_i hl
      have hl : (s.blocks b).lock = none := Classical.not_not.1 hl
      refine writer_block h (b := b) (blk := { s.blocks b with lock := some .writer })
        (by rw [hl]; exact fun e => nomatch e) rfl (fun _ => rfl) (h.clean b) rfl
        (by simp [sent, State.set, hw, inFlight]) rfl (by rw [hw]; rfl) rfl rfl rfl rfl ?_
        (.inr ⟨rfl, ⟨m, rfl⟩, hlw⟩)
      simp [WriterOk, State.set, hwok]
  · rename_i m b hw
    have hwok := h.wok
    simp only [WriterOk, hw] at hwok
    obtain ⟨hm, hb, hlb⟩ := hwok
    have hlw : ∀ i, (s.blocks i).lock = some .writer → i = b := fun i e => by
      obtain ⟨m', e'⟩ := h.lock.w i e
      rw [hw] at e'; cases e'; rfl
    have hlr : (s.blocks b).lock ≠ some .reader := by rw [hlb]; exact fun e => nomatch e
    dsimp only
    split
    · exact writer_block h (b := b) (blk := { s.blocks b with lock := none }) hlr rfl (fun _ => rfl)
        (h.clean b) rfl (sent_returns _ _ _ rfl (by simp [State.set, hw, inFlight])) rfl
        (by rw [hw]; rfl) rfl rfl rfl rfl trivial (.inl ⟨rfl, rfl, hlw⟩)
    · rename_i hz
      have hz : (s.blocks b).size = 0 := Classical.not_not.1 hz
      have ha := allocate_safe (s.blocks b) m.length f y (hsafe.cap b) hz
      split
      · rename_i b' hal
        rw [hal] at ha
        simp only at ha
        exact writer_block h (b := b) (blk := { b' with lock := none }) hlr (by rw [hz]; exact ha.2.1)
          (fun e => absurd hz e) (fun _ => ha.2.1) rfl
          (sent_returns _ _ _ rfl (by simp [State.set, hw, inFlight])) rfl
          (by rw [hw]; rfl) rfl rfl rfl rfl trivial (.inl ⟨rfl, rfl, hlw⟩)
      · rename_i b' hal
        rw [hal] at ha
        simp only at ha
        split
        · -- The message is put
          have hsent : ∀ s' : State, s'.writes = s.writes → s'.writer = .stored m →
              sent s' = sent s ++ [m] := by
            intro s' e1 e2
            simp [sent, e1, e2, hw, inFlight]
          have hwp := h.wpos
          rw [hw] at hwp
          simp only [wLag, Nat.sub_zero] at hwp
          have hbw : b = (sent s).length % 1024 := by rw [hb, hwp]
          have hz' := hz
          rw [hbw] at hz'
          have hlt := h.ring.notFull h.room hz'
          have hcnt := h.count
          rw [hw] at hcnt
          simp only [wLag] at hcnt
          let s' : State := { ({ s with overrun := s.overrun || decide (b'.store.room < m.length) }).set b
            { b' with lock := none, cleanup := false, size := m.length, data := m }
            with writer := .stored m }
          have hss : sent s' = sent s ++ [m] := hsent s' rfl rfl
          have hsl : (sent s').length = (sent s).length + 1 := by rw [hss]; simp
          show Inv s'
          have hbi : ∀ j, s'.blocks j = if j = b then { b' with lock := none, cleanup := false, size := m.length, data := m } else s.blocks j := fun j => rfl
          exact {
            order := by
              rw [hss]
              show s.delivered = List.take s.delivered.length (sent s ++ [m])
              rw [List.take_append_of_le_length h.le]
              exact h.order
            le := by rw [hsl]; exact Nat.le_succ_of_le h.le
            room := by rw [hsl]; exact hlt
            ring := by
              rw [hsl, hss]
              refine h.ring.push h.le rfl h.room hz' hm ?_ ?_ ?_
              · intro i hi
                rw [hbi, if_neg (by rw [hbw]; exact hi)]
              · rw [hbi, if_pos hbw.symm]
              · rw [hbi, if_pos hbw.symm]
            wlag := by rw [hsl]; show 1 ≤ _; omega
            rlag := h.rlag
            wpos := by
              rw [hsl]
              show s.wpos = ((sent s).length + 1 - 1) % 1024
              rw [Nat.add_sub_cancel]; exact hwp
            rpos := h.rpos
            count := by
              rw [hsl]
              show s.count = (((sent s).length + 1 : Nat) : Int) - (1 : Nat) - (s.delivered.length - rLag s.reader)
              rw [hcnt]; omega
            wok := hm
            rok := by
              have := h.rok
              unfold ReaderOk at this ⊢
              show match s.reader with
                | .idle => True
                | .locking b => b = s.rpos
                | .locked b => b = s.rpos ∧ (s'.blocks b).lock = some .reader
                | .consumed _ => True
              cases hrr : s.reader with
              | locked b2 =>
                rw [hrr] at this
                simp only at this ⊢
                refine ⟨this.1, ?_⟩
                rw [hbi, if_neg]
                · exact this.2
                · intro e; rw [e] at this; exact hlr this.2
              | _ => rw [hrr] at this; exact this
            lock := by
              constructor
              · intro j; rw [hbi]; split
                · exact fun e => nomatch e
                · rename_i e; exact fun h2 => absurd (hlw j h2) e
              · intro j; rw [hbi]; split
                · exact fun e => nomatch e
                · exact h.lock.r j
            clean := by
              intro j; rw [hbi]; split
              · exact fun e => nomatch e
              · exact h.clean j }
        · exact writer_block h (b := b) (blk := { b' with lock := none }) hlr
            (by rw [hz]; exact ha.2.1) (fun e => absurd hz e) (fun _ => ha.2.1) rfl
            (sent_returns _ _ _ rfl (by simp [State.set, hw, inFlight])) rfl
            (by rw [hw]; rfl) rfl rfl rfl rfl trivial (.inl ⟨rfl, rfl, hlw⟩)
  · rename_i m hw
    have hlw : ∀ i, (s.blocks i).lock ≠ some .writer := fun i e => by
      obtain ⟨m', e'⟩ := h.lock.w i e
      rw [hw] at e'; cases e'
    have hwok := h.wok
    simp only [WriterOk, hw] at hwok
    have hss : sent { s with count := s.count + 1, wpos := next s.wpos, writer := Writer.notify m }
        = sent s := by simp [sent, hw, inFlight]
    have hwl := h.wlag
    have hwp := h.wpos
    have hcnt := h.count
    rw [hw] at hwl hwp hcnt
    simp only [wLag] at hwl hwp hcnt
    exact {
      order := by rw [hss]; exact h.order
      le := by rw [hss]; exact h.le
      room := by rw [hss]; exact h.room
      ring := by rw [hss]; exact h.ring
      wlag := Nat.zero_le _
      rlag := h.rlag
      wpos := by
        rw [hss]
        show next s.wpos = ((sent s).length - 0) % 1024
        rw [hwp, next_mod]; congr 1; omega
      rpos := h.rpos
      count := by
        rw [hss]
        show s.count + 1 = ((sent s).length : Int) - (0 : Nat) - (s.delivered.length - rLag s.reader)
        rw [hcnt]; omega
      wok := hwok
      rok := h.rok
      lock := ⟨fun i e => absurd e (hlw i), h.lock.r⟩
      clean := h.clean }
  · rename_i m hw
    have hlw : ∀ i, (s.blocks i).lock ≠ some .writer := fun i e => by
      obtain ⟨m', e'⟩ := h.lock.w i e
      rw [hw] at e'; cases e'
    refine h.frame ?_ rfl (by rw [hw]; rfl) rfl rfl rfl rfl (fun i => rfl) (fun i _ => rfl) h.clean
      trivial h.rok ⟨fun i e => absurd e (hlw i), h.lock.r⟩
    cases n <;> simp [sent, State.writeReturns, hw, inFlight, wasPut]

theorem startRead_inv {s : State} (h : Inv s) : Inv (startRead s) := by
  unfold startRead
  split
  · rename_i hr
    have hlr : ∀ i, (s.blocks i).lock ≠ some .reader := fun i e => by
      have e' := h.lock.r i e
      rw [hr] at e'; cases e'
    split
    · exact h.frame rfl rfl rfl (by rw [hr]; rfl) rfl rfl rfl (fun i => rfl) (fun i _ => rfl) h.clean
        h.wok trivial ⟨h.lock.w, fun i e => absurd e (hlr i)⟩
    · exact h.frame rfl rfl rfl (by rw [hr]; rfl) rfl rfl rfl (fun i => rfl) (fun i _ => rfl) h.clean
        h.wok rfl ⟨h.lock.w, fun i e => absurd e (hlr i)⟩
  · exact h

/-- One block is changed by the reader, which keeps what is in it. -/
theorem reader_block {s : State} (h : Inv s) {b : Nat} {blk : Block} {s' : State}
    (hlr : (s.blocks b).lock ≠ some .writer) (hsz : blk.size = (s.blocks b).size)
    (hdt : blk.data = (s.blocks b).data)
    (hcl : blk.cleanup = true → blk.size = 0)
    (hb : s'.blocks = (s.set b blk).blocks) (hws : s'.writes = s.writes)
    (hd : s'.delivered = s.delivered) (hrl : rLag s'.reader = rLag s.reader)
    (hr : s'.writer = s.writer) (hwp : s'.wpos = s.wpos) (hrp : s'.rpos = s.rpos)
    (hc : s'.count = s.count) (hrk : ReaderOk s')
    (hl : (blk.lock = none ∧ s'.reader = .idle ∧ ∀ i, (s.blocks i).lock = some .reader → i = b) ∨
      (blk.lock = some .reader ∧ s'.reader = .locked b ∧
        ∀ i, (s.blocks i).lock ≠ some .reader)) : Inv s' := by
  have hbi : ∀ j, s'.blocks j = if j = b then blk else s.blocks j := fun j => by rw [hb]; rfl
  refine h.frame (by simp [sent, hr, hws]) hd (by rw [hr]) hrl hwp hrp hc ?_ ?_ ?_ ?_ hrk ?_
  · intro j; rw [hbi]; split
    · rename_i e; rw [e, hsz]
    · rfl
  · intro j hj; rw [hbi]; split
    · rename_i e; rw [e, hdt]
    · rfl
  · intro j; rw [hbi]; split
    · exact hcl
    · exact h.clean j
  · have := h.wok
    unfold WriterOk at this ⊢
    rw [hr]
    cases hrr : s.writer with
    | locked m b' =>
      rw [hrr] at this
      simp only at this ⊢
      refine ⟨this.1, by rw [hwp]; exact this.2.1, ?_⟩
      rw [hbi]; split
      · rename_i e; rw [e] at this; exact absurd this.2.2 hlr
      · exact this.2.2
    | _ => rw [hrr] at this; simp only [hwp] at this ⊢ <;> exact this
  · constructor
    · intro j; rw [hbi, hr]; split
      · rcases hl with ⟨l1, _⟩ | ⟨l1, _⟩ <;> rw [l1] <;> exact fun e => nomatch e
      · exact h.lock.w j
    · intro j; rw [hbi]; split
      · rename_i e
        rcases hl with ⟨l1, _⟩ | ⟨_, l2, _⟩
        · rw [l1]; exact fun e => nomatch e
        · rw [e]; exact fun _ => l2
      · rename_i e
        rcases hl with ⟨_, _, l3⟩ | ⟨_, _, l3⟩
        · exact fun h2 => absurd (l3 j h2) e
        · exact fun h2 => absurd h2 (l3 j)

theorem stepReader_inv {s : State} (h : Inv s) (a c : Bool) : Inv (stepReader s a c) := by
  unfold stepReader
  split
  · exact h
  · rename_i b hr
    have hlr : ∀ i, (s.blocks i).lock ≠ some .reader := fun i e => by
      have e' := h.lock.r i e
      rw [hr] at e'; cases e'
    have hrok := h.rok
    simp only [ReaderOk, hr] at hrok
    dsimp only
    split
    · exact h.frame rfl rfl rfl (by rw [hr]; rfl) rfl rfl rfl (fun i => rfl) (fun i _ => rfl) h.clean
        h.wok trivial ⟨h.lock.w, fun i e => absurd e (hlr i)⟩
    · rename_i hl
      have hl : (s.blocks b).lock = none := Classical.not_not.1 hl
      refine reader_block h (b := b) (blk := { s.blocks b with lock := some .reader })
        (by rw [hl]; exact fun e => nomatch e) rfl rfl (h.clean b) rfl rfl
        rfl (by rw [hr]; rfl) rfl rfl rfl rfl ?_ (.inr ⟨rfl, rfl, hlr⟩)
      simp [ReaderOk, State.set, hrok]
  · rename_i b hr
    have hrok := h.rok
    simp only [ReaderOk, hr] at hrok
    obtain ⟨hb, hlb⟩ := hrok
    have hlr : ∀ i, (s.blocks i).lock = some .reader → i = b := fun i e => by
      have e' := h.lock.r i e
      rw [hr] at e'; cases e'; rfl
    have hlw : (s.blocks b).lock ≠ some .writer := by rw [hlb]; exact fun e => nomatch e
    dsimp only
    have hback : ∀ (s' : State), s'.blocks = (s.set b { s.blocks b with lock := none }).blocks →
        s'.writes = s.writes → s'.delivered = s.delivered → s'.reader = .idle →
        s'.writer = s.writer → s'.wpos = s.wpos → s'.rpos = s.rpos → s'.count = s.count →
        Inv s' := by
      intro s' e1 e2 e3 e4 e5 e6 e7 e8
      exact reader_block h (b := b) (blk := { s.blocks b with lock := none }) hlw rfl rfl (h.clean b)
        e1 e2 e3 (by rw [hr, e4]; rfl) e5 e6 e7 e8 (by simp [ReaderOk, e4]) (.inl ⟨rfl, e4, hlr⟩)
    split
    · exact hback _ rfl rfl rfl rfl rfl rfl rfl rfl
    · rename_i hz
      split
      · exact hback _ rfl rfl rfl rfl rfl rfl rfl rfl
      · split
        · have hrp := h.rpos
          rw [hr] at hrp
          simp only [rLag, Nat.sub_zero] at hrp
          have hbr : b = s.delivered.length % 1024 := by rw [hb, hrp]
          have hz' := hz
          rw [hbr] at hz'
          have hlt := h.ring.head h.le hz'
          obtain ⟨m, m1, m2, m3, m4⟩ := h.ring.held _ (Nat.le_refl _) hlt
          rw [← hbr] at m3 m4
          have hcnt := h.count
          rw [hr] at hcnt
          simp only [rLag] at hcnt
          let s' : State := { ({ s with overrun := s.overrun || decide ((s.blocks b).store.room < (s.blocks b).size) }).set b
            { s.blocks b with lock := none, cleanup := decide (maxPersistent < (s.blocks b).capacity), size := 0 }
            with delivered := s.delivered ++ [(s.blocks b).data.take (s.blocks b).size],
                 reader := .consumed (decide (maxPersistent < (s.blocks b).capacity)) }
          show Inv s'
          have hss : sent s' = sent s := rfl
          have hdl : s'.delivered.length = s.delivered.length + 1 := by
            show (s.delivered ++ [_]).length = _
            simp
          have hbi : ∀ j, s'.blocks j = if j = b then { s.blocks b with lock := none, cleanup := decide (maxPersistent < (s.blocks b).capacity), size := 0 } else s.blocks j := fun j => rfl
          exact {
            order := by
              rw [hdl, hss]
              show s.delivered ++ [(s.blocks b).data.take (s.blocks b).size] = _
              rw [List.take_add_one, m1, m4, ← h.order]; rfl
            le := by rw [hdl, hss]; exact hlt
            room := by rw [hdl, hss]; exact Nat.le_trans h.room (by omega)
            ring := by
              rw [hdl, hss]
              refine h.ring.pop h.room ?_ ?_
              · intro i hi
                rw [hbi, if_neg (by rw [hbr]; exact hi)]
              · rw [hbi, if_pos hbr.symm]
            wlag := h.wlag
            rlag := by rw [hdl]; show 1 ≤ _; omega
            wpos := h.wpos
            rpos := by
              rw [hdl]
              show s.rpos = (s.delivered.length + 1 - 1) % 1024
              rw [Nat.add_sub_cancel]; exact hrp
            count := by
              rw [hdl]
              show s.count = ((sent s).length : Int) - wLag s.writer - (((s.delivered.length + 1 : Nat) : Int) - (1 : Nat))
              rw [hcnt]; omega
            wok := by
              have := h.wok
              unfold WriterOk at this ⊢
              show match s.writer with
                | .idle => True
                | .cleaning m b _ => m ≠ [] ∧ b = s.wpos
                | .locking m b => m ≠ [] ∧ b = s.wpos
                | .locked m b => m ≠ [] ∧ b = s.wpos ∧ (s'.blocks b).lock = some .writer
                | .stored m => m ≠ []
                | .notify m => m ≠ []
              cases hrr : s.writer with
              | locked m' b2 =>
                rw [hrr] at this
                simp only at this ⊢
                refine ⟨this.1, this.2.1, ?_⟩
                rw [hbi, if_neg]
                · exact this.2.2
                · intro e; rw [e] at this; exact hlw this.2.2
              | _ => rw [hrr] at this; exact this
            rok := trivial
            lock := by
              constructor
              · intro j; rw [hbi]; split
                · exact fun e => nomatch e
                · exact h.lock.w j
              · intro j; rw [hbi]; split
                · exact fun e => nomatch e
                · rename_i e; exact fun h2 => absurd (hlr j h2) e
            clean := by
              intro j; rw [hbi]; split
              · exact fun _ => rfl
              · exact h.clean j }
        · exact hback _ rfl rfl rfl rfl rfl rfl rfl rfl
  · rename_i cl hr
    have hlr : ∀ i, (s.blocks i).lock ≠ some .reader := fun i e => by
      have e' := h.lock.r i e
      rw [hr] at e'; cases e'
    have hrl := h.rlag
    have hrp := h.rpos
    have hcnt := h.count
    rw [hr] at hrl hrp hcnt
    simp only [rLag] at hrl hrp hcnt
    exact {
      order := h.order
      le := h.le
      room := h.room
      ring := h.ring
      wlag := h.wlag
      rlag := Nat.zero_le _
      wpos := h.wpos
      rpos := by
        show next s.rpos = (s.delivered.length - 0) % 1024
        rw [hrp, next_mod]; congr 1; omega
      count := by
        show s.count - 1 = ((sent s).length : Int) - wLag s.writer - (s.delivered.length - (0 : Nat))
        rw [hcnt]; omega
      wok := h.wok
      rok := trivial
      lock := ⟨h.lock.w, fun i e => absurd e (hlr i)⟩
      clean := h.clean }

theorem init_inv : Inv init where
  order := rfl
  le := Nat.le_refl _
  room := by decide
  ring := ⟨fun k _ h => absurd h (Nat.not_lt_zero _), fun i _ => rfl⟩
  wlag := Nat.le_refl _
  rlag := Nat.le_refl _
  wpos := rfl
  rpos := rfl
  count := rfl
  wok := trivial
  rok := trivial
  lock := ⟨fun i e => (nomatch e), fun i e => (nomatch e)⟩
  clean := fun i _ => rfl

/-! ## The memory of the blocks -/

theorem Safe.block {s s' : State} (h : Safe s) {b : Nat} {blk : Block}
    (hb : s'.blocks = (s.set b blk).blocks) (hc : blk.capacity ≤ blk.store.room)
    (hf : blk.size ≤ blk.capacity) (ho : s'.overrun = false) : Safe s' := by
  have hbi : ∀ j, s'.blocks j = if j = b then blk else s.blocks j := fun j => by rw [hb]; rfl
  refine ⟨fun i => ?_, fun i => ?_, ho⟩
  · rw [hbi]; split
    · exact hc
    · exact h.cap i
  · rw [hbi]; split
    · exact hf
    · exact h.fits i

theorem step_safe {s : State} (h : Safe s) (a : Act) : Safe (step s a) := by
  cases a with
  | write m =>
    show Safe (startWrite s m)
    unfold startWrite
    split <;> exact ⟨h.cap, h.fits, h.safe⟩
  | read =>
    show Safe (startRead s)
    unfold startRead
    (repeat' split) <;> exact ⟨h.cap, h.fits, h.safe⟩
  | writer f y c n =>
    show Safe (stepWriter s f y c n)
    unfold stepWriter
    split
    · exact h
    · rename_i m b i hw
      unfold cleanOne
      dsimp only
      split
      · split
        · exact ⟨h.cap, h.fits, h.safe⟩
        · split
          · split
            · exact h.block (b := i) (blk := { (s.blocks i).free with cleanup := false }) rfl
                (Nat.zero_le _) (Nat.zero_le _) h.safe
            · exact h.block (b := i) (blk := { s.blocks i with cleanup := false }) rfl (h.cap i)
                (h.fits i) h.safe
          · exact ⟨h.cap, h.fits, h.safe⟩
      · exact ⟨h.cap, h.fits, h.safe⟩
    · rename_i m b hw
      dsimp only
      split
      · exact ⟨h.cap, h.fits, h.safe⟩
      · exact h.block (b := b) (blk := { s.blocks b with lock := some .writer }) rfl (h.cap b)
          (h.fits b) h.safe
    · rename_i m b hw
      dsimp only
      split
      · exact h.block (b := b) (blk := { s.blocks b with lock := none }) rfl (h.cap b)
          (h.fits b) h.safe
      · rename_i hz
        have hz : (s.blocks b).size = 0 := Classical.not_not.1 hz
        have ha := allocate_safe (s.blocks b) m.length f y (h.cap b) hz
        split
        · rename_i b' hal
          rw [hal] at ha
          exact h.block (b := b) (blk := { b' with lock := none }) rfl ha.1
            (by rw [show ({ b' with lock := none } : Block).size = 0 from ha.2.1]; exact Nat.zero_le _)
            h.safe
        · rename_i b' hal
          rw [hal] at ha
          have hn : m.length ≤ b'.capacity := ha.2.2.2.2 rfl
          have ho : (s.overrun || decide (b'.store.room < m.length)) = false := by
            rw [h.safe]
            have : ¬ b'.store.room < m.length := Nat.not_lt.2 (Nat.le_trans hn ha.1)
            simp [this]
          split
          · exact h.block (b := b) (blk := { b' with lock := none, cleanup := false, size := m.length, data := m }) rfl ha.1 hn ho
          · exact h.block (b := b) (blk := { b' with lock := none }) rfl ha.1
              (by rw [show ({ b' with lock := none } : Block).size = 0 from ha.2.1]; exact Nat.zero_le _)
              ho
    · exact ⟨h.cap, h.fits, h.safe⟩
    · exact ⟨h.cap, h.fits, h.safe⟩
  | reader a c =>
    show Safe (stepReader s a c)
    unfold stepReader
    split
    · exact h
    · rename_i b hr
      dsimp only
      split
      · exact ⟨h.cap, h.fits, h.safe⟩
      · exact h.block (b := b) (blk := { s.blocks b with lock := some .reader }) rfl (h.cap b)
          (h.fits b) h.safe
    · rename_i b hr
      dsimp only
      have ho : (s.overrun || decide ((s.blocks b).store.room < (s.blocks b).size)) = false := by
        rw [h.safe]
        have : ¬ (s.blocks b).store.room < (s.blocks b).size :=
          Nat.not_lt.2 (Nat.le_trans (h.fits b) (h.cap b))
        simp [this]
      split
      · exact h.block (b := b) (blk := { s.blocks b with lock := none }) rfl (h.cap b)
          (h.fits b) h.safe
      · split
        · exact h.block (b := b) (blk := { s.blocks b with lock := none }) rfl (h.cap b)
            (h.fits b) h.safe
        · split
          · exact h.block (b := b) (blk := { s.blocks b with lock := none, cleanup := decide (maxPersistent < (s.blocks b).capacity), size := 0 })
              rfl (h.cap b) (Nat.zero_le _) ho
          · exact h.block (b := b) (blk := { s.blocks b with lock := none }) rfl (h.cap b)
              (h.fits b) ho
    · exact ⟨h.cap, h.fits, h.safe⟩

theorem init_safe : Safe init := ⟨fun _ => Nat.le_refl _, fun _ => Nat.le_refl _, rfl⟩

theorem run_safe {s : State} (h : Safe s) (acts : List Act) : Safe (run s acts) := by
  induction acts generalizing s with
  | nil => exact h
  | cons a as ih => exact ih (step_safe h a)

theorem run_inv {s : State} (h : Inv s) (hs : Safe s) (acts : List Act) (hn : NonEmpty acts) :
    Inv (run s acts) := by
  induction acts generalizing s with
  | nil => exact h
  | cons a as ih =>
    refine ih ?_ (step_safe hs a) (fun m hm => hn m (List.mem_cons_of_mem _ hm))
    cases a with
    | write m => exact startWrite_inv h (hn m List.mem_cons_self)
    | writer f y c n => exact stepWriter_inv h hs f y c n
    | read => exact startRead_inv h
    | reader a c => exact stepReader_inv h a c

end Verif.Channel

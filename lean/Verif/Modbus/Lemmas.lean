import Verif.Modbus.Spec
/-!
# Lemmas about the modbus client
-/
namespace Verif.Modbus
open Verif Endian Spec

variable {P : Type}

theorem be16_word (x : UInt16) : be16 x = word x.toNat := by
  have := x.toNat_lt
  have h1 : byteOf x.toNat 1 = UInt8.ofNat (x.toNat / 256) := by unfold byteOf; rw [Nat.pow_one]
  have h2 : byteOf x.toNat 0 = UInt8.ofNat (x.toNat % 256) := by
    unfold byteOf
    apply UInt8.toNat_inj.mp
    rw [UInt8.toNat_ofNat', UInt8.toNat_ofNat']
    omega
  unfold be16 word
  rw [h1, h2]

theorem word_length (n : Nat) : (word n).length = 2 := rfl

theorem at16_eq (b : Bytes) (k : Nat) : at16 b k = UInt16.ofNat (256 * (b.getD k 0).toNat + (b.getD (k + 1) 0).toNat) := by
  have : ofBytes [b.getD k 0, b.getD (k + 1) 0] = 256 * (b.getD k 0).toNat + (b.getD (k + 1) 0).toNat := by
    show (0 * 256 + (b.getD k 0).toNat) * 256 + (b.getD (k + 1) 0).toNat = _
    omega
  unfold at16
  rw [this]

theorem at16_toNat (b : Bytes) (k : Nat) : (at16 b k).toNat = 256 * (b.getD k 0).toNat + (b.getD (k + 1) 0).toNat := by
  have h1 := (b.getD k 0).toNat_lt
  have h2 := (b.getD (k + 1) 0).toNat_lt
  rw [at16_eq, UInt16.toNat_ofNat']
  omega

theorem at16_word {p : Bytes} {k : Nat} (h : p.length = k) (x : UInt16) (s : Bytes) : at16 (p ++ (word x.toNat ++ s)) k = x := by
  rw [← be16_word, at16_append h]

/-- The request of a call within the limits. -/
theorem req_fine (c : Call) (h : Fine c) : c.req = some (pdu c) := by
  cases c with
  | coils a n =>
    have h : 1 ≤ n.toNat ∧ n.toNat ≤ 2000 := h
    unfold Call.req
    dsimp only
    rw [if_pos ⟨UInt16.le_iff_toNat_le.mpr h.1, UInt16.le_iff_toNat_le.mpr h.2⟩]
    simp [readReq, pdu, be16_word, code]
  | discrete a n =>
    have h : 1 ≤ n.toNat ∧ n.toNat ≤ 2000 := h
    unfold Call.req
    dsimp only
    rw [if_pos ⟨UInt16.le_iff_toNat_le.mpr h.1, UInt16.le_iff_toNat_le.mpr h.2⟩]
    simp [readReq, pdu, be16_word, code]
  | holding a n =>
    have h : 1 ≤ n.toNat ∧ n.toNat ≤ 125 := h
    unfold Call.req
    dsimp only
    rw [if_pos ⟨UInt16.le_iff_toNat_le.mpr h.1, UInt16.le_iff_toNat_le.mpr h.2⟩]
    simp [readReq, pdu, be16_word, code]
  | input a n =>
    have h : 1 ≤ n.toNat ∧ n.toNat ≤ 125 := h
    unfold Call.req
    dsimp only
    rw [if_pos ⟨UInt16.le_iff_toNat_le.mpr h.1, UInt16.le_iff_toNat_le.mpr h.2⟩]
    simp [readReq, pdu, be16_word, code]
  | writeSingle a d =>
    have h : d.length = 2 := h
    unfold Call.req writeSingleReq pdu
    simp only [be16_word, code]
    rw [List.take_of_length_le (by omega)]
  | writeMultiple a n d =>
    have h : 1 ≤ n.toNat ∧ n.toNat ≤ 123 ∧ d.length = 2 * n.toNat := h
    unfold Call.req
    dsimp only
    rw [if_pos ⟨UInt16.le_iff_toNat_le.mpr h.1, UInt16.le_iff_toNat_le.mpr h.2.1⟩]
    unfold writeMultipleReq pdu
    have hb : (n * 2).toUInt8 = UInt8.ofNat (2 * n.toNat) := by
      apply UInt8.toNat_inj.mp
      rw [UInt16.toNat_toUInt8, UInt16.toNat_mul, UInt8.toNat_ofNat']
      show n.toNat * 2 % 65536 % 256 = _
      omega
    have hb2 : (UInt8.ofNat (2 * n.toNat)).toNat = 2 * n.toNat := by rw [UInt8.toNat_ofNat']; omega
    simp only [be16_word, code, hb, hb2]
    rw [List.take_of_length_le (by omega)]

theorem pdu_length (c : Call) (h : Fine c) : 5 ≤ (pdu c).length ∧ (pdu c).length ≤ 252 := by
  cases c with
  | coils a n | discrete a n | holding a n | input a n => simp [pdu, word]
  | writeSingle a d =>
    have h : d.length = 2 := h
    simp [pdu, word, h]
  | writeMultiple a n d =>
    have h : 1 ≤ n.toNat ∧ n.toNat ≤ 123 ∧ d.length = 2 * n.toNat := h
    simp [pdu, word]
    omega

theorem pdu_head (c : Call) : (pdu c).headD 0 = code c := rfl

theorem code_lt (c : Call) : (code c).toNat ≤ 16 ∧ 1 ≤ (code c).toNat := by
  cases c <;> exact ⟨by show _ ≤ 16; simp [code], by show 1 ≤ _; simp [code]⟩

/-! ## Finding the transaction -/

/-- A transaction which a response with this id is for. -/
def Matches (id : UInt16) (t : Transaction P) : Prop := t.time ≠ 0 ∧ id = t.id

instance (id : UInt16) (t : Transaction P) : Decidable (Matches id t) := inferInstanceAs (Decidable (_ ∧ _))

theorem findConsume_none (id : UInt16) : ∀ (ts : List (Transaction P)), (∀ t ∈ ts, ¬ Matches id t) → findConsume id ts = none := by
  intro ts
  induction ts with
  | nil => intro _; rfl
  | cons t ts ih =>
    intro h
    unfold findConsume
    rw [if_neg (show ¬ (t.time ≠ 0 ∧ id = t.id) from h t (by simp)), ih fun x hx => h x (by simp [hx])]
    rfl

theorem findConsume_some (id : UInt16) : ∀ (ts : List (Transaction P)) (s : Nat) (t : Transaction P), ts[s]? = some t → Matches id t →
    (∀ j u, j < s → ts[j]? = some u → ¬ Matches id u) → findConsume id ts = some (t, ts.set s .zero) := by
  intro ts
  induction ts with
  | nil => intro s t h; simp at h
  | cons x ts ih =>
    intro s t h hm hn
    unfold findConsume
    cases s with
    | zero =>
      simp at h
      subst h
      rw [if_pos (show x.time ≠ 0 ∧ id = x.id from hm)]
      rfl
    | succ s =>
      rw [if_neg (show ¬ (x.time ≠ 0 ∧ id = x.id) from hn 0 x (by omega) rfl), ih s t (by simpa using h) hm fun j u hj hu => hn (j + 1) u (by omega) (by simpa using hu)]
      rfl

/-! ## The verdict -/

theorem amount_at (fn : UInt8) (a n : UInt16) : at16 (fn :: (word a.toNat ++ word n.toNat)) 3 = n := by
  have := at16_word (p := fn :: word a.toNat) (k := 3) rfl n []
  simpa using this

/-- What the client does, by the verdict. -/
def verdictOut (cb : Ret) (p : P) : Verdict P → Ret × List (Event P)
  | .foreign => (.soft, [])
  | .malformed => (.soft, [.destroy p])
  | .call e => (cb, [e, .destroy p])

theorem receiveBytes_eq (id : UInt16) (tm : UInt64) (p : P) (cb : Ret) (fn : UInt8) (a n : UInt16) (isReg : Bool) (rest : Bytes)
    (k : Nat) (hk : (if isReg then n * 2 else (n + 7) / 8 : UInt16).toNat = k) (hpos : 0 < k) :
    receiveBytes ⟨id, fn :: (word a.toNat ++ word n.toNat), tm, some p⟩ cb fn isReg (fn :: rest) =
      match rest with
      | [] => (.soft, [])
      | count :: data => if count.toNat = data.length ∧ data.length = k then (cb, [.bytes fn id data p]) else (.soft, []) := by
  unfold receiveBytes
  cases rest with
  | nil => rfl
  | cons count data =>
    simp only [List.drop_succ_cons, List.drop_zero, amount_at, List.length_cons]
    by_cases h0 : count = 0
    · subst h0
      rw [if_pos rfl, if_neg (by rintro ⟨h1, h2⟩; have : (0 : UInt8).toNat = 0 := rfl; omega)]
    · rw [if_neg h0]
      by_cases h1 : count.toNat = data.length
      · rw [if_neg (by omega)]
        by_cases h2 : data.length = k
        · rw [if_neg, if_pos ⟨h1, h2⟩]
          · unfold call
            rw [List.take_of_length_le (by omega)]
            rfl
          · rw [Classical.not_not]
            apply UInt16.toNat_inj.mp
            rw [hk, UInt8.toNat_toUInt16]
            omega
        · rw [if_pos, if_neg (fun h => h2 h.2)]
          intro e
          have := congrArg UInt16.toNat e
          rw [hk, UInt8.toNat_toUInt16] at this
          omega
      · rw [if_pos (by omega), if_neg (fun h => h1 h.1)]

theorem receiveFor_eq (c : Call) (hc : Fine c) (id : UInt16) (tm : UInt64) (p : P) (cb : Ret) (r : Bytes) (h0 : r ≠ [])
    (hl : r.length ≤ 252) :
    receiveFor ⟨id, pdu c, tm, some p⟩ cb r = some (verdictOut cb p (verdict c id p r)) := by
  cases r with
  | nil => exact absurd rfl h0
  | cons fn rest =>
    have hcode := code_lt c
    rw [List.length_cons] at hl
    unfold receiveFor verdict
    dsimp only [List.headD_cons, List.length_cons]
    rw [pdu_head]
    by_cases hbig : fn > 0x80
    · rw [if_pos hbig]
      have hb := UInt8.lt_iff_toNat_lt.mp hbig
      have hb' : 128 < fn.toNat := hb
      have hflt := fn.toNat_lt
      have hne : fn ≠ code c := by intro e; rw [e] at hb'; omega
      have hsub : fn - 0x80 = code c ↔ fn = code c + 128 := by
        constructor
        · intro e; rw [← e]; simp
        · intro e; rw [e]; simp
      by_cases he : fn = code c + 128
      · rw [if_pos he]
        cases rest with
        | nil =>
          rw [if_neg (by simp), if_neg (by rw [Classical.not_not]; exact hsub.mpr he), hsub.mpr he]
          rfl
        | cons x rest =>
          cases rest with
          | nil =>
            rw [if_neg (by simp), if_neg (by rw [Classical.not_not]; exact hsub.mpr he), hsub.mpr he]
            rfl
          | cons y rest =>
            rw [if_pos (by simp only [List.length_cons]; omega)]
            rfl
      · rw [if_neg he, if_pos hne]
        split
        · rfl
        · rw [if_pos (by rw [ne_eq, hsub]; exact he)]
          rfl
    · rw [if_neg hbig]
      have hb : ¬ 128 < fn.toNat := fun h => hbig (UInt8.lt_iff_toNat_lt.mpr h)
      have he : fn ≠ code c + 128 := by
        intro e
        rw [e, UInt8.toNat_add] at hb
        have : (128 : UInt8).toNat = 128 := rfl
        omega
      rw [if_neg he]
      by_cases hfn : fn = code c
      · rw [if_neg (by simpa using hfn), if_neg (by omega), if_neg (by simpa using hfn)]
        unfold dispatch
        dsimp only [List.headD_cons, List.length_cons]
        subst hfn
        cases c with
        | coils a n =>
          have h : 1 ≤ n.toNat ∧ n.toNat ≤ 2000 := hc
          rw [if_pos (show code (.coils a n) = 1 from rfl), if_neg (by omega)]
          have := receiveBytes_eq id tm p cb 1 a n false rest ((n.toNat + 7) / 8) (by
            simp only [Bool.false_eq_true, if_false]
            rw [UInt16.toNat_div, UInt16.toNat_add]
            show (n.toNat + 7) % 65536 / 8 = _
            omega) (by omega)
          unfold pdu
          simp only [code] at this ⊢
          rw [this]
          cases rest with
          | nil => rfl
          | cons x rest =>
            dsimp only
            by_cases hh : x.toNat = rest.length ∧ rest.length = (n.toNat + 7) / 8
            · rw [if_pos hh, if_pos (show _ ∧ rest.length = dataSize (.coils a n) from hh)]; rfl
            · rw [if_neg hh, if_neg (show ¬ (_ ∧ rest.length = dataSize (.coils a n)) from hh)]; rfl
        | discrete a n =>
          have h : 1 ≤ n.toNat ∧ n.toNat ≤ 2000 := hc
          simp only [show code (.discrete a n) = 2 from rfl]
          rw [if_neg (by decide), if_pos trivial, if_neg (by omega)]
          have := receiveBytes_eq id tm p cb 2 a n false rest ((n.toNat + 7) / 8) (by
            simp only [Bool.false_eq_true, if_false]
            rw [UInt16.toNat_div, UInt16.toNat_add]
            show (n.toNat + 7) % 65536 / 8 = _
            omega) (by omega)
          unfold pdu
          simp only [code] at this ⊢
          rw [this]
          cases rest with
          | nil => rfl
          | cons x rest =>
            dsimp only
            by_cases hh : x.toNat = rest.length ∧ rest.length = (n.toNat + 7) / 8
            · rw [if_pos hh, if_pos (show _ ∧ rest.length = dataSize (.discrete a n) from hh)]; rfl
            · rw [if_neg hh, if_neg (show ¬ (_ ∧ rest.length = dataSize (.discrete a n)) from hh)]; rfl
        | holding a n =>
          have h : 1 ≤ n.toNat ∧ n.toNat ≤ 125 := hc
          simp only [show code (.holding a n) = 3 from rfl]
          rw [if_neg (by decide), if_neg (by decide), if_pos trivial, if_neg (by omega)]
          have := receiveBytes_eq id tm p cb 3 a n true rest (2 * n.toNat) (by
            simp only [if_true]
            rw [UInt16.toNat_mul]
            show n.toNat * 2 % 65536 = _
            omega) (by omega)
          unfold pdu
          simp only [code] at this ⊢
          rw [this]
          cases rest with
          | nil => rfl
          | cons x rest =>
            dsimp only
            by_cases hh : x.toNat = rest.length ∧ rest.length = 2 * n.toNat
            · rw [if_pos hh, if_pos (show _ ∧ rest.length = dataSize (.holding a n) from hh)]; rfl
            · rw [if_neg hh, if_neg (show ¬ (_ ∧ rest.length = dataSize (.holding a n)) from hh)]; rfl
        | input a n =>
          have h : 1 ≤ n.toNat ∧ n.toNat ≤ 125 := hc
          simp only [show code (.input a n) = 4 from rfl]
          rw [if_neg (by decide), if_neg (by decide), if_neg (by decide), if_pos trivial, if_neg (by omega)]
          have := receiveBytes_eq id tm p cb 4 a n true rest (2 * n.toNat) (by
            simp only [if_true]
            rw [UInt16.toNat_mul]
            show n.toNat * 2 % 65536 = _
            omega) (by omega)
          unfold pdu
          simp only [code] at this ⊢
          rw [this]
          cases rest with
          | nil => rfl
          | cons x rest =>
            dsimp only
            by_cases hh : x.toNat = rest.length ∧ rest.length = 2 * n.toNat
            · rw [if_pos hh, if_pos (show _ ∧ rest.length = dataSize (.input a n) from hh)]; rfl
            · rw [if_neg hh, if_neg (show ¬ (_ ∧ rest.length = dataSize (.input a n)) from hh)]; rfl
        | writeSingle a d =>
          simp only [show code (.writeSingle a d) = 6 from rfl]
          rw [if_neg (by decide), if_neg (by decide), if_neg (by decide), if_neg (by decide), if_pos trivial]
          unfold receiveValue
          simp only [List.length_cons, at16_eq]
          match rest with
          | [] | [_] | [_, _] | [_, _, _] => rfl
          | [a, b, x, y] => rfl
          | a :: b :: x :: y :: z :: rest =>
            rw [if_pos (by simp only [List.length_cons]; omega)]
            simp only [List.length_cons]
            rw [if_neg (by omega)]
            rfl
        | writeMultiple a n d =>
          simp only [show code (.writeMultiple a n d) = 16 from rfl]
          rw [if_neg (by decide), if_neg (by decide), if_neg (by decide), if_neg (by decide), if_neg (by decide), if_pos trivial]
          unfold receiveQuantity
          simp only [List.length_cons, at16_eq]
          match rest with
          | [] | [_] | [_, _] | [_, _, _] => rfl
          | [a, b, x, y] => rfl
          | a :: b :: x :: y :: z :: rest =>
            rw [if_pos (by simp only [List.length_cons]; omega)]
            simp only [List.length_cons]
            rw [if_neg (by omega)]
            rfl
      · rw [if_pos hfn, if_pos hfn]
        rfl

end Verif.Modbus

import Verif.Stats.Lemmas

/-!
# C139: statistics messages arrive as sent. C140: the tree holds the last values, and drops those which are not heard of
-/
namespace Verif.Stats
open Verif Verif.Endian Spec

/-! ## Messages -/

theorem drop_append_length {a b : Bytes} {n : Nat} (h : a.length = n) : (a ++ b).drop n = b := by
  subst h; simp

/-- A message which is made from any path and data, of a known type and with known flags, is read as the same message on the other side. -/
theorem message_roundtrip (type : UInt8) (flags : UInt32) (path data : Bytes) (m : Message) (stamp : UInt64) (hm : init type flags path data = some m)
    (ht : type.toNat ≤ 3) (hf : flags.toNat < 16) (hp : (0 : UInt8) ∉ path) : unpack (pack m) stamp = .ok { m with timestamp := stamp } := by
  have hpl : path.length ≤ 512 ∧ data.length ≤ 512 ∧ m = { type := type, flags := flags, timestamp := 0, path := path, data := data } := by
    unfold init pathMax dataMax at hm
    split at hm
    · cases hm
    · split at hm
      · cases hm
      · cases hm
        exact ⟨by omega, by omega, rfl⟩
  obtain ⟨h1, h2, rfl⟩ := hpl
  have hpk : pack { type := type, flags := flags, timestamp := 0, path := path, data := data } =
      [type] ++ (be32 flags ++ (be16 (UInt16.ofNat (path.length + 1)) ++ (path ++ [0] ++ data))) := by
    simp [pack]
  have hlen : (pack { type := type, flags := flags, timestamp := 0, path := path, data := data }).length = 7 + (path.length + 1 + data.length) := by
    rw [hpk]; simp only [List.length_append, be32_length, be16_length, List.length_cons, List.length_nil]; omega
  have e32 : at32 (pack { type := type, flags := flags, timestamp := 0, path := path, data := data }) 1 = flags := by
    rw [hpk]; exact at32_append rfl _ _
  have e16 : at16 (pack { type := type, flags := flags, timestamp := 0, path := path, data := data }) 5 = UInt16.ofNat (path.length + 1) := by
    rw [hpk, ← List.append_assoc]; exact at16_append (by simp [be32_length]) _ _
  have e0 : (pack { type := type, flags := flags, timestamp := 0, path := path, data := data }).getD 0 0 = type := by
    rw [hpk]; rfl
  have ed : (pack { type := type, flags := flags, timestamp := 0, path := path, data := data }).drop 7 = path ++ [0] ++ data := by
    rw [hpk, ← List.append_assoc, ← List.append_assoc]
    exact drop_append_length (by simp [be32_length, be16_length])
  have hsz : (UInt16.ofNat (path.length + 1)).toNat = path.length + 1 := by
    rw [UInt16.toNat_ofNat']
    exact Nat.mod_eq_of_lt (by omega)
  unfold unpack pathMax dataMax
  rw [hlen, e32, e16, e0, ed, hsz]
  have hdd : (path ++ [0] ++ data).drop (path.length + 1) = data := drop_append_length (by simp)
  have htt : (path ++ [0] ++ data).take (path.length + 1) = path ++ [0] := by
    rw [List.take_append_of_le_length (by simp)]
    exact List.take_of_length_le (by simp)
  have hg : (path ++ [0] ++ data).getD (path.length + 1 - 1) 0 = 0 := by
    simp [List.getD_eq_getElem?_getD]
  have htw : (path ++ [0]).takeWhile (· ≠ 0) = path := by
    rw [List.takeWhile_append_of_pos]
    · simp
    · intro a ha
      simp only [ne_eq, decide_eq_true_eq]
      exact fun h => hp (h ▸ ha)
  simp only [hdd, htt, hg, htw]
  rw [if_neg (by omega), if_neg (by omega), if_neg (by omega), if_neg (by omega), if_neg (by simp), if_neg (by omega), if_neg (by simp), if_neg (by omega)]

example : init 1 8 "log_hook".toUTF8.toList "Hello".toUTF8.toList = some ⟨1, 8, 0, "log_hook".toUTF8.toList, "Hello".toUTF8.toList⟩ ∧ (0 : UInt8) ∉ "log_hook".toUTF8.toList := by decide +kernel

/-- Exactly which received messages are written beyond the buffers they are read into: those with more than 512 bytes of data, or with a path of more than 512 characters and its end. -/
theorem unpack_overflow_iff (b : Bytes) (stamp : UInt64) : unpack b stamp = .overflow ↔
    7 ≤ b.length ∧ b.length ≤ 1032 ∧ (at32 b 1).toNat < 16 ∧ (b.getD 0 0).toNat ≤ 3 ∧ 7 + (at16 b 5).toNat ≤ b.length ∧
    (b.length - 7 - (at16 b 5).toNat > 512 ∨ ((at16 b 5).toNat > 513 ∧ b.getD (7 + (at16 b 5).toNat - 1) 0 = 0)) := by
  unfold unpack pathMax dataMax
  simp only [List.length_drop]
  by_cases h1 : b.length < 7
  · simp only [h1, if_true]; constructor
    · intro h; cases h
    · intro h; omega
  · by_cases h2 : b.length > 7 + 512 + 1 + 512
    · simp only [h1, h2, if_false]; constructor
      · intro h; cases h
      · intro h; omega
    · by_cases h3 : (at32 b 1).toNat ≥ 16
      · simp only [h1, h2, h3, if_false]; constructor
        · intro h; cases h
        · intro h; omega
      · by_cases h4 : (b.getD 0 0).toNat > 3
        · simp only [h1, h2, h3, h4, if_false]; constructor
          · intro h; cases h
          · intro h; omega
        · by_cases h5 : (at16 b 5).toNat > b.length - 7
          · simp only [h1, h2, h3, h4, h5, if_false]; constructor
            · intro h; cases h
            · intro h; omega
          · by_cases h6 : b.length - 7 - (at16 b 5).toNat > 512
            · simp only [h1, h2, h3, h4, h5, h6, if_false]
              constructor
              · intro _; exact ⟨by omega, by omega, by omega, by omega, by omega, .inl trivial⟩
              · intro _; trivial
            · by_cases h7 : (at16 b 5).toNat > 513
              · have e : (b.drop 7).getD ((at16 b 5).toNat - 1) 0 = b.getD (7 + (at16 b 5).toNat - 1) 0 := by
                  simp only [List.getD_eq_getElem?_getD, List.getElem?_drop]
                  congr 2; omega
                rw [e]
                have h8 : (at16 b 5).toNat > 0 := by omega
                by_cases h9 : b.getD (7 + (at16 b 5).toNat - 1) 0 = 0
                · simp only [h1, h2, h3, h4, h5, h6, h7, h8, h9, if_false, ne_eq, not_true_eq_false, and_false]
                  constructor
                  · intro _; exact ⟨by omega, by omega, by omega, by omega, by omega, .inr ⟨trivial, trivial⟩⟩
                  · intro _; trivial
                · simp only [h1, h2, h3, h4, h5, h6, h8, h9, if_false, ne_eq, not_false_eq_true, and_self, and_false, or_false]
                  constructor
                  · intro h; cases h
                  · intro h; exact h.elim
              · simp only [h1, h2, h3, h4, h5, h6, h7, if_false, false_and, or_false, and_false]
                constructor
                · intro h; split at h <;> cases h
                · intro h; exact h.elim

/-- Messages of up to 519 bytes after the header are safe to read, whatever is in them. -/
theorem unpack_safe_partial (b : Bytes) (stamp : UInt64) (h : b.length ≤ 519) : unpack b stamp ≠ .overflow := by
  rw [Ne, unpack_overflow_iff]
  intro hx
  omega

/-- A message with no path and 1025 bytes of data passes all checks, and is copied into a buffer of 512 bytes. -/
theorem unpack_overflows : unpack ([1] ++ [0, 0, 0, 0] ++ [0, 0] ++ List.replicate 1025 65) 0 = .overflow := by decide +kernel

/-- What is accepted can be sent on, and is the same again. -/
theorem accepted_sendable (b : Bytes) (stamp stamp' : UInt64) (m : Message) (h : unpack b stamp = .ok m) : unpack (pack m) stamp' = .ok { m with timestamp := stamp' } := by
  have key : m.type.toNat ≤ 3 ∧ m.flags.toNat < 16 ∧ m.path.length ≤ 512 ∧ m.data.length ≤ 512 ∧ (0 : UInt8) ∉ m.path := by
    unfold unpack pathMax dataMax at h
    simp only at h
    split at h
    · cases h
    · split at h
      · cases h
      · split at h
        · cases h
        · next h3 =>
          split at h
          · cases h
          · next h4 =>
            split at h
            · cases h
            · next h5 =>
              split at h
              · cases h
              · next h6 =>
                split at h
                · cases h
                · next h7 =>
                  split at h
                  · cases h
                  · next h8 =>
                    cases h
                    refine ⟨by simpa using h4, by simpa using h3, ?_, by simpa using h6, ?_⟩
                    · show (((b.drop 7).take (at16 b 5).toNat).takeWhile (· ≠ 0)).length ≤ 512
                      by_cases hz : (at16 b 5).toNat = 0
                      · simp [hz]
                      · have hlast : (b.drop 7).getD ((at16 b 5).toNat - 1) 0 = 0 := by
                          apply Classical.byContradiction
                          intro hne
                          exact h7 ⟨by omega, hne⟩
                        have hle : (at16 b 5).toNat ≤ (b.drop 7).length := by omega
                        have hlt : (((b.drop 7).take (at16 b 5).toNat).takeWhile (· ≠ 0)).length < (at16 b 5).toNat := by
                          apply Classical.byContradiction
                          intro hge
                          have hpre := List.takeWhile_prefix (l := (b.drop 7).take (at16 b 5).toNat) (p := fun x : UInt8 => decide (x ≠ 0))
                          have hl2 : ((b.drop 7).take (at16 b 5).toNat).length = (at16 b 5).toNat := by rw [List.length_take]; omega
                          have heq := hpre.eq_of_length (by have := hpre.length_le; omega)
                          have hmem : (0 : UInt8) ∈ ((b.drop 7).take (at16 b 5).toNat) := by
                            have : ((b.drop 7).take (at16 b 5).toNat)[(at16 b 5).toNat - 1]? = some 0 := by
                              rw [List.getElem?_take_of_lt (by omega)]
                              rw [List.getD_eq_getElem?_getD] at hlast
                              rw [List.getElem?_eq_getElem (by omega)] at hlast ⊢
                              simpa using hlast
                            exact List.mem_of_getElem? this
                          rw [← heq] at hmem
                          have := List.all_takeWhile (l := (b.drop 7).take (at16 b 5).toNat) (p := fun x : UInt8 => decide (x ≠ 0))
                          rw [List.all_eq_true] at this
                          have := this _ hmem
                          simp at this
                        omega
                    · intro hmem
                      have := List.all_takeWhile (l := (b.drop 7).take (at16 b 5).toNat) (p := fun x : UInt8 => decide (x ≠ 0))
                      rw [List.all_eq_true] at this
                      have := this _ hmem
                      simp at this
  obtain ⟨a, b', c, d, e⟩ := key
  rcases m with ⟨t, f, ts, p, dt⟩
  have := message_roundtrip t f p dt ⟨t, f, 0, p, dt⟩ stamp' (by unfold init pathMax dataMax; rw [if_neg (by simp only at c; omega), if_neg (by simp only at d; omega)]) a b' e
  exact this

example : unpack (pack ⟨1, 8, 0, "log_hook".toUTF8.toList, "Hello".toUTF8.toList⟩) 5 = .ok ⟨1, 8, 5, "log_hook".toUTF8.toList, "Hello".toUTF8.toList⟩ := by decide +kernel

/-- A text of 512 bytes is sent and accepted, but when it is printed bytes after its buffer are read. -/
theorem printing_overreads : ∃ m, init 1 0 "ab".toUTF8.toList (List.replicate 512 65) = some m ∧ unpack (pack m) 0 = .ok m ∧ printed m = none :=
  ⟨⟨1, 0, 0, "ab".toUTF8.toList, List.replicate 512 65⟩, by decide +kernel⟩

end Verif.Stats

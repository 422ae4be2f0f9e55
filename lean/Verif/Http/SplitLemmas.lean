import Verif.Http.ParseLemmas
/-!
# Reception of a message in pieces
-/
namespace Verif.Http
open Verif Verif.HttpUtil

/-- What the result of the loop says. -/
def outOf (x : Res × Nat) : Ret × Part × Nat × Nat :=
  (x.1.ret, x.1.part, if x.1.ret = .ok then x.1.target else 0, if x.1.ret = .incomplete then x.2 else 0)

/-- The loop run to its end. -/
def run (lim : Limits) (kind : Kind) (base : Nat) (buf : Bytes) (p : Part) (pos : Nat) : Ret × Part × Nat × Nat :=
  outOf (parseLoop lim kind base (buf.length + 2) p buf pos)

theorem loop_fuel (lim : Limits) (kind : Kind) (base : Nat) (buf : Bytes) : ∀ (fuel fuel' : Nat) (p : Part) (pos : Nat), Good p → pos ≤ buf.length →
    buf.length - pos + 2 ≤ fuel → buf.length - pos + 2 ≤ fuel' → parseLoop lim kind base fuel p buf pos = parseLoop lim kind base fuel' p buf pos
  | 0, _, _, _, _, _, h, _ => by omega
  | _ + 1, 0, _, _, _, _, _, h => by omega
  | fuel + 1, fuel' + 1, p, pos, hg, hp, h, h' => by
    obtain ⟨h1, -, h3⟩ := parse_len lim kind base p buf pos hp hg
    rw [parseLoop, parseLoop]
    split
    · exact loop_fuel lim kind base buf fuel fuel' _ _ h3 h1 (by omega) (by omega)
    · rfl

theorem run_eq (lim : Limits) (kind : Kind) (base : Nat) (buf : Bytes) (p : Part) (pos : Nat) (hg : Good p) (hp : pos ≤ buf.length) :
    run lim kind base buf p pos =
      if (parse lim kind base p buf pos).parsed ≠ 0 ∧ (parse lim kind base p buf pos).ret = .incomplete then
        run lim kind base buf (parse lim kind base p buf pos).part (pos + (parse lim kind base p buf pos).parsed)
      else outOf (parse lim kind base p buf pos, pos + (parse lim kind base p buf pos).parsed) := by
  obtain ⟨h1, -, h3⟩ := parse_len lim kind base p buf pos hp hg
  unfold run
  rw [parseLoop]
  split
  · rw [loop_fuel lim kind base buf (buf.length + 1) (buf.length + 2) _ _ h3 h1 (by omega) (by omega)]
  · rfl

/-- Where parsing has come to in relation to the header. -/
structure At (p : Part) (pos : Nat) : Prop where
  before : p.started = false → pos = 0 ∧ p.headerLength = 0
  inside : p.started = true → p.complete = false → p.chunked = false → pos = p.headroom + p.headerLength

theorem at_empty : At {} 0 := ⟨fun _ => ⟨rfl, rfl⟩, by simp⟩

theorem run_step (lim : Limits) (kind : Kind) (base : Nat) (buf b : Bytes) (p : Part) (pos : Nat) (hg : Good p) (hp : pos ≤ buf.length)
    (hl0 : (buf ++ b).length ≤ lim.headroom) (hl1 : (buf ++ b).length ≤ lim.header) (hl2 : (buf ++ b).length ≤ lengthMax) :
    ((parse lim kind base p buf pos).ret = .incomplete →
      run lim kind base (buf ++ b) p pos =
        run lim kind base (buf ++ b) (parse lim kind base p buf pos).part (pos + (parse lim kind base p buf pos).parsed)) ∧
    ((parse lim kind base p buf pos).ret ≠ .incomplete → parse lim kind base p (buf ++ b) pos = parse lim kind base p buf pos) := by
  have hlen : (buf ++ b).length = buf.length + b.length := List.length_append
  obtain ⟨a1, a2, a3⟩ := parse_len lim kind base p buf pos hp hg
  have hp' : pos ≤ (buf ++ b).length := by omega
  rcases parse_app lim kind base p buf b pos hp hg hl0 hl1 hl2 with h | ⟨hi, hs⟩
  · refine ⟨fun hi => ?_, fun _ => h⟩
    rw [run_eq lim kind base (buf ++ b) p pos hg hp', h]
    by_cases hz : (parse lim kind base p buf pos).parsed = 0
    · rw [if_neg (by simp [hz])]
      rw [a2 hi hz, hz, Nat.add_zero, run_eq lim kind base (buf ++ b) p pos hg hp', h, if_neg (by simp [hz]), hz, Nat.add_zero]
    · rw [if_pos ⟨hz, hi⟩]
  · refine ⟨fun _ => ?_, fun hn => absurd hi hn⟩
    generalize parse lim kind base p buf pos = r0 at *
    obtain ⟨c1, c2, c3⟩ := parse_len lim kind base r0.part (buf ++ b) (pos + r0.parsed) (by omega) a3
    obtain ⟨d1, d2, d3⟩ := parse_len lim kind base p (buf ++ b) pos hp' hg
    obtain ⟨e1, e2, e3, e4⟩ := hs
    rw [run_eq lim kind base (buf ++ b) p pos hg hp', run_eq lim kind base (buf ++ b) r0.part (pos + r0.parsed) a3 (by omega)]
    generalize hr : parse lim kind base p (buf ++ b) pos = r at *
    generalize hr' : parse lim kind base r0.part (buf ++ b) (pos + r0.parsed) = r' at *
    by_cases hri : r.ret = .incomplete
    · have hri' : r'.ret = .incomplete := by rw [← e1, hri]
      have e4 := e4 hri
      by_cases hz' : r'.parsed = 0
      · have hA : ¬ (r'.parsed ≠ 0 ∧ r'.ret = .incomplete) := fun h => h.1 hz'
        rw [if_neg hA]
        by_cases hz : r.parsed = 0
        · have hB : ¬ (r.parsed ≠ 0 ∧ r.ret = .incomplete) := fun h => h.1 hz
          rw [if_neg hB]
          simp only [outOf, e1, e2, e3, e4]
        · have hB : r.parsed ≠ 0 ∧ r.ret = .incomplete := ⟨hz, hri⟩
          rw [if_pos hB]
          have hpart := c2 hri' hz'
          rw [e2, e4, hpart, hz', Nat.add_zero, run_eq lim kind base (buf ++ b) r0.part (pos + r0.parsed) a3 (by omega), hr', if_neg hA, hz',
            Nat.add_zero]
      · have hA : r'.parsed ≠ 0 ∧ r'.ret = .incomplete := ⟨hz', hri'⟩
        have hB : r.parsed ≠ 0 ∧ r.ret = .incomplete := ⟨by omega, hri⟩
        rw [if_pos hA, if_pos hB, e2, e4]
    · have hri' : ¬ r'.ret = .incomplete := by rw [← e1]; exact hri
      rw [if_neg (fun h => hri h.2), if_neg (fun h => hri' h.2)]
      simp only [outOf, e1, e2, e3]
      rw [if_neg hri', if_neg hri']

/-- With more data the result is the same or, if data was missing, parsing goes on from where it had come. -/
theorem run_app (lim : Limits) (kind : Kind) (base : Nat) (buf b : Bytes)
    (hl0 : (buf ++ b).length ≤ lim.headroom) (hl1 : (buf ++ b).length ≤ lim.header) (hl2 : (buf ++ b).length ≤ lengthMax) :
    ∀ (n : Nat) (p : Part) (pos : Nat), Good p → pos ≤ buf.length → buf.length - pos ≤ n →
      ((run lim kind base buf p pos).1 = .incomplete →
        run lim kind base (buf ++ b) p pos = run lim kind base (buf ++ b) (run lim kind base buf p pos).2.1 (run lim kind base buf p pos).2.2.2 ∧
        Good (run lim kind base buf p pos).2.1 ∧ pos ≤ (run lim kind base buf p pos).2.2.2 ∧ (run lim kind base buf p pos).2.2.2 ≤ buf.length ∧
        ((run lim kind base buf p pos).2.2.2 = pos → (run lim kind base buf p pos).2.1 = p)) ∧
      ((run lim kind base buf p pos).1 ≠ .incomplete → run lim kind base (buf ++ b) p pos = run lim kind base buf p pos) := by
  have hlen : (buf ++ b).length = buf.length + b.length := List.length_append
  intro n
  induction n using Nat.strongRecOn with
  | _ n ih =>
  intro p pos hg hp hn
  obtain ⟨a1, a2, a3⟩ := parse_len lim kind base p buf pos hp hg
  obtain ⟨b1, b2⟩ := run_step lim kind base buf b p pos hg hp hl0 hl1 hl2
  rw [run_eq lim kind base buf p pos hg hp]
  by_cases hi : (parse lim kind base p buf pos).ret = .incomplete
  · have b1 := b1 hi
    by_cases hz : (parse lim kind base p buf pos).parsed = 0
    · rw [if_neg (fun h => h.1 hz)]
      have hpart := a2 hi hz
      simp only [outOf, hi, hpart, hz, Nat.add_zero, if_true]
      exact ⟨fun _ => ⟨trivial, hg, Nat.le_refl _, hp, fun _ => trivial⟩, by simp⟩
    · rw [if_pos ⟨hz, hi⟩, b1]
      obtain ⟨c1, c2⟩ := ih (buf.length - (pos + (parse lim kind base p buf pos).parsed)) (by omega) _ _ a3 a1 (Nat.le_refl _)
      refine ⟨fun h => ?_, c2⟩
      obtain ⟨d1, d2, d3, d4, d5⟩ := c1 h
      exact ⟨d1, d2, by omega, d4, fun he => by omega⟩
  · rw [if_neg (fun h => hi h.2)]
    refine ⟨fun h => absurd h hi, fun _ => ?_⟩
    rw [run_eq lim kind base (buf ++ b) p pos hg (by omega), b2 hi, if_neg (fun h => hi h.2)]

/-- Nothing more is parsed when the length of the body is unknown. -/
theorem run_unknown (lim : Limits) (kind : Kind) (base : Nat) (buf : Bytes) (p : Part) (pos : Nat) (hg : Good p) (hp : pos ≤ buf.length)
    (hu : p.unknownLength = true) : run lim kind base buf p pos = (.incomplete, p, 0, pos) := by
  obtain ⟨h1, h2⟩ := hg.unknown hu
  have : parse lim kind base p buf pos = { ret := .incomplete, part := p } := by
    unfold parse
    rw [if_neg (by simp [h2]), if_neg (by simp [hg.complete h1])]
    unfold parseHeader
    rw [if_pos h1]
  rw [run_eq lim kind base buf p pos hg hp, this]
  simp [outOf]

/-- The answer of the target size function. -/
def sizeOf (kind : Kind) (o : Ret × Part × Nat × Nat) : Size :=
  match o with
  | (.ok, p, t, _) =>
    match kind with
    | .response => .message p t
    | .request =>
      match validate p with
      | none => .crash
      | some true => .message p t
      | some false => .bad p.top
  | (.incomplete, p, _, pos) => if p.unknownLength then .untilClose p else .need p pos
  | (.bug, _, _, _) => .crash
  | (.fault, _, _, _) => .crash
  | (_, _, _, _) => .error

theorem targetSize_eq (lim : Limits) (kind : Kind) (base : Nat) (p : Part) (pos : Nat) (buf : Bytes) :
    targetSize lim kind base p pos buf = sizeOf kind (run lim kind base buf (if kind = .request ∧ pos = 0 then {} else p) pos) := by
  unfold targetSize run
  simp only
  generalize parseLoop lim kind base (buf.length + 2) (if kind = .request ∧ pos = 0 then {} else p) buf pos = x
  obtain ⟨⟨r, q, t, k⟩, z⟩ := x
  cases r <;> first | rfl | simp [outOf, sizeOf]

end Verif.Http

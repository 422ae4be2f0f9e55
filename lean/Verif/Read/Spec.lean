import Verif.Read.Model
/-!
# What reading a stream means, without buffers and chunks
-/
namespace Verif.Read.Spec
open Verif Read

/-- How the stream ends: waiting for more data (with the bytes left over), or closed by an error. -/
inductive End where
  | waiting (rest : Bytes)
  | closed
deriving DecidableEq, Repr

/-- The messages of a stream, one after another, given to the user. `fuel` bounds the number of
messages and skips (each takes at least one byte, so the length of the stream is enough). -/
def deliver {σ : Type} (tgt : σ → Bytes → Tgt) (complete : σ → Bytes → Option σ) : Nat → σ → Bytes → σ × End
  | 0, st, stream => (st, .waiting stream)
  | fuel + 1, st, stream =>
    if stream = [] then (st, .waiting [])
    else match tgt st stream with
    | .incomplete => (st, .waiting stream)
    | .error => (st, .closed)
    | .skip k => deliver tgt complete fuel st (stream.drop k)
    | .size n =>
      if stream.length < n then (st, .waiting stream)
      else match complete st (stream.take n) with
        | none => (st, .closed)
        | some st' => deliver tgt complete fuel st' (stream.drop n)

/-- All messages of a stream. -/
def deliverAll {σ : Type} (tgt : σ → Bytes → Tgt) (complete : σ → Bytes → Option σ) (st : σ) (stream : Bytes) : σ × End :=
  deliver tgt complete (stream.length + 1) st stream

end Verif.Read.Spec

import Verif.Util.Bytes
/-! # Adler-32 — model of core/include/gnuradio-4.0/Compression.hpp:112-135 -/
namespace Verif.Deflate
open Verif.Bytes (Byte)

/-- one byte of the inner loop, in 32-bit arithmetic — Compression.hpp:119-122 -/
def adlerByte (s : Nat × Nat) (x : Byte) : Nat × Nat :=
  let a := (s.1 + x.toNat) % 2 ^ 32
  (a, (s.2 + a) % 2 ^ 32)

/-- one run of at most 5552 bytes with the reduction at its end — Compression.hpp:117-125 -/
def adlerRun (s : Nat × Nat) (run : List Byte) : Nat × Nat :=
  let r := run.foldl adlerByte s
  (r.1 % 65521, r.2 % 65521)

/-- `detail::updateAdler` — Compression.hpp:113-128 -/
def updateAdler (s : Nat × Nat) (input : List Byte) : Nat × Nat :=
  if h : input = [] then s
  else updateAdler (adlerRun s (input.take (min 5552 input.length))) (input.drop (min 5552 input.length))
termination_by input.length
decreasing_by
  have := List.length_pos_iff.2 h
  rw [List.length_drop]; omega

/-- `(b << 16) | a` in 32 bits — Compression.hpp:133, 1574 -/
def adlerWord (s : Nat × Nat) : Nat := (s.2 <<< 16) % 2 ^ 32 ||| s.1

/-- `adler32` — Compression.hpp:131-134 -/
def adler32 (input : List Byte) : Nat := adlerWord (updateAdler (1, 0) input)

end Verif.Deflate

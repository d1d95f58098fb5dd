import Verif.Util.Bytes
/-!
# RFC 1950 checksum

"s1 is the sum of all bytes, s2 is the sum of all s1 values. Both sums are done modulo 65521. s1 is initialized to 1, s2 to zero. The
Adler-32 checksum is stored as s2*65536 + s1."
-/
namespace Verif.Deflate.Spec
open Verif.Bytes (Byte)

def s1 (data : List Byte) : Nat := (1 + (data.map (·.toNat)).sum) % 65521
def s2 (data : List Byte) : Nat := ((List.range data.length).map (fun i => s1 (data.take (i + 1)))).sum % 65521
def adler (data : List Byte) : Nat := s2 data * 65536 + s1 data

/-- the two accumulators after some bytes without any reduction, in unbounded numbers -/
def wide (a b : Nat) : List Byte → Nat × Nat
  | [] => (a, b)
  | x :: r => wide (a + x.toNat) (b + (a + x.toNat)) r

end Verif.Deflate.Spec

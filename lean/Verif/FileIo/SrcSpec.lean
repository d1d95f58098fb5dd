import Verif.FileIo.BlockModel
import Verif.Deflate.Decode
/-!
What a source of files has to publish.
-/
namespace Verif.FileIo
open Verif.Bytes (Byte)
open Verif.Deflate (decompressSpan)

/-- A file that holds the bytes `D`: as they are, or compressed. -/
def Holds (limit : Nat) (f : File) (D : List Byte) : Prop :=
  (f.gzip = false ∧ f.content = some D) ∨
  (f.gzip = true ∧ ∃ F, f.content = some F ∧ ((F = [] ∧ D = []) ∨ (F ≠ [] ∧ ∃ W n, decompressSpan W F limit .gzip = .ok (n, D))))

/-- The whole samples from the offset on, at most as many as asked for (all of them for 0). -/
def part (c : SrcCfg) (D : List Byte) : List Byte :=
  let avail := D.drop (c.offset * c.size)
  let k := avail.length / c.size
  avail.take ((if c.length = 0 then k else min k c.length) * c.size)

/-- The parts of the first `h` files played, going round. -/
def played (c : SrcCfg) (Ds : List (List Byte)) (h : Nat) : List (List Byte) := (List.range h).map fun i => part c (Ds.getD (i % Ds.length) [])

/-- Where the parts that are not empty start. -/
def starts : Nat → List (List Byte) → List Nat
  | _, [] => []
  | p, x :: xs => (if x = [] then [] else [p]) ++ starts (p + x.length) xs

end Verif.FileIo

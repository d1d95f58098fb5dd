import Verif.Crc.Model
/-!
# Specification: the CRC as a bit-serial linear feedback shift register

This is the textbook definition of a reflected CRC: message bits, least significant bit of each byte first, are
shifted through a register with feedback polynomial `poly`.
-/
namespace Verif.Crc

/-- one message bit. -/
def lfsr {w : Nat} (poly c : BitVec w) (b : Bool) : BitVec w :=
  if (c.getLsbD 0 ^^ b) then (c >>> 1) ^^^ poly else c >>> 1

/-- bits of a byte, least significant first. -/
def bits (b : Byte) : List Bool :=
  [b.getLsbD 0, b.getLsbD 1, b.getLsbD 2, b.getLsbD 3, b.getLsbD 4, b.getLsbD 5, b.getLsbD 6, b.getLsbD 7]

/-- message bits. -/
def msgBits (m : List Byte) : List Bool := m.flatMap bits

/-- The bit-serial CRC with polynomial, initial value and final xor. -/
def crcSpec {w : Nat} (poly init xorOut : BitVec w) (m : List Byte) : BitVec w :=
  (msgBits m).foldl (lfsr poly) init ^^^ xorOut

/-- parameters of the flavours in the usual (reflected) notation. -/
def crc32 : List Byte → BitVec 32 := crcSpec 0xEDB88320#32 0xFFFFFFFF#32 0xFFFFFFFF#32
def crc32c : List Byte → BitVec 32 := crcSpec 0x82F63B78#32 0xFFFFFFFF#32 0xFFFFFFFF#32
def crc16modbus : List Byte → BitVec 16 := crcSpec 0xA001#16 0xFFFF#16 0#16

end Verif.Crc

/-!
# Model of `gr::crc` (core/include/gnuradio-4.0/CRC.hpp)

Registers are `BitVec w`, bytes are `BitVec 8`, the 64-bit block is `BitVec 64`. Table look-up `kTables[i][b]` is
function application. Only reflected flavours exist (`kReflected = true` in all three `Traits`), so the non-reflected
branches (CRC.hpp:90-103, 119-121, 201-204) are not modelled.
-/
namespace Verif.Crc

abbrev Byte := BitVec 8

/-- One iteration of the innermost table loop `c = (c >> 1) ^ ((c & 1U) ? poly : 0)` — CRC.hpp:79-81. -/
def bitStep {w : Nat} (poly c : BitVec w) : BitVec w :=
  (c >>> 1) ^^^ (if c.getLsbD 0 then poly else 0#w)

/-- `k` iterations of the loop at CRC.hpp:79-81. -/
def bitSteps {w : Nat} (poly : BitVec w) : Nat → BitVec w → BitVec w
  | 0, c => c
  | k + 1, c => bitSteps poly k (bitStep poly c)

/-- `computeTables`, reflected branch — CRC.hpp:77-90; `table poly i b` is `t[i][b]`. -/
def table {w : Nat} (poly : BitVec w) : Nat → Byte → BitVec w
  | 0, b => bitSteps poly 8 (b.setWidth w)
  | i + 1, b =>
    let c := table poly i b
    (c >>> 8) ^^^ bitSteps poly 8 ((c.setWidth 8).setWidth w)

/-- `step`, reflected branch — CRC.hpp:112-117. -/
def step {w : Nat} (poly crc : BitVec w) (byte : Byte) : BitVec w :=
  (crc >>> 8) ^^^ table poly 0 ((crc ^^^ byte.setWidth w).setWidth 8)

/-- `advance8` for a 16-bit register — CRC.hpp:128-139. -/
def advance8_16 (poly crc0 : BitVec 16) (block : BitVec 64) : BitVec 16 :=
  let crc := crc0 ^^^ block.setWidth 16
  table poly 7 (crc.setWidth 8)
  ^^^ table poly 6 ((crc >>> 8).setWidth 8)
  ^^^ table poly 5 ((block >>> 16).setWidth 8)
  ^^^ table poly 4 ((block >>> 24).setWidth 8)
  ^^^ table poly 3 ((block >>> 32).setWidth 8)
  ^^^ table poly 2 ((block >>> 40).setWidth 8)
  ^^^ table poly 1 ((block >>> 48).setWidth 8)
  ^^^ table poly 0 ((block >>> 56).setWidth 8)

/-- `advance8` for a 32-bit register — CRC.hpp:140-150. -/
def advance8_32 (poly crc0 : BitVec 32) (block : BitVec 64) : BitVec 32 :=
  let crc := crc0 ^^^ block.setWidth 32
  let hi : BitVec 32 := (block >>> 32).setWidth 32
  table poly 0 ((hi >>> 24).setWidth 8)
  ^^^ table poly 1 ((hi >>> 16).setWidth 8)
  ^^^ table poly 2 ((hi >>> 8).setWidth 8)
  ^^^ table poly 3 (hi.setWidth 8)
  ^^^ table poly 4 ((crc >>> 24).setWidth 8)
  ^^^ table poly 5 ((crc >>> 16).setWidth 8)
  ^^^ table poly 6 ((crc >>> 8).setWidth 8)
  ^^^ table poly 7 (crc.setWidth 8)

/-- The little-endian block assembled from eight bytes — CRC.hpp:175-178 (and the `memcpy` at 200-201 on a
little-endian machine; big-endian machines are not modelled). -/
def block (b0 b1 b2 b3 b4 b5 b6 b7 : Byte) : BitVec 64 :=
  0#64 ||| (b0.setWidth 64 <<< 0) ||| (b1.setWidth 64 <<< 8) ||| (b2.setWidth 64 <<< 16) ||| (b3.setWidth 64 <<< 24)
    ||| (b4.setWidth 64 <<< 32) ||| (b5.setWidth 64 <<< 40) ||| (b6.setWidth 64 <<< 48) ||| (b7.setWidth 64 <<< 56)

/-- A CRC flavour: `Traits<F>` — CRC.hpp:30-60 — with the `advance8` selected by `sizeof(Reg)`. -/
structure Engine where
  w : Nat
  poly : BitVec w
  init : BitVec w
  xorOut : BitVec w
  advance8 : BitVec w → BitVec 64 → BitVec w

/-- `Traits<CRC32_IEEE>` — CRC.hpp:30-38. -/
def ieee : Engine := ⟨32, 0xEDB88320#32, 0xFFFFFFFF#32, 0xFFFFFFFF#32, advance8_32 0xEDB88320#32⟩
/-- `Traits<CRC32C_CASTAGNOLI>` — CRC.hpp:40-48. -/
def castagnoli : Engine := ⟨32, 0x82F63B78#32, 0xFFFFFFFF#32, 0xFFFFFFFF#32, advance8_32 0x82F63B78#32⟩
/-- `Traits<CRC16_MODBUS>` — CRC.hpp:50-58. -/
def modbus : Engine := ⟨16, 0xA001#16, 0xFFFF#16, 0x0000#16, advance8_16 0xA001#16⟩

/-- `enum class Flavour` — CRC.hpp:25. -/
inductive Flavour where | ieee | castagnoli | modbus
  deriving DecidableEq, Repr

/-- selection of the traits — CRC.hpp:27-61. -/
def Flavour.engine : Flavour → Engine
  | .ieee => Verif.Crc.ieee
  | .castagnoli => Verif.Crc.castagnoli
  | .modbus => Verif.Crc.modbus

/-- `updateScalar` — CRC.hpp:168-188: eight bytes at a time, then single bytes. -/
def updateScalar (e : Engine) (crc : BitVec e.w) : List Byte → BitVec e.w
  | b0 :: b1 :: b2 :: b3 :: b4 :: b5 :: b6 :: b7 :: rest =>
    updateScalar e (e.advance8 crc (block b0 b1 b2 b3 b4 b5 b6 b7)) rest
  | rest => rest.foldl (step e.poly) crc

/-- The loop over one SIMD register's worth of staged bytes — CRC.hpp:198-203. A trailing group of fewer than eight
bytes cannot occur because the width is a multiple of eight; it is ignored as in the code. -/
def staged (e : Engine) (crc : BitVec e.w) : List Byte → BitVec e.w
  | b0 :: b1 :: b2 :: b3 :: b4 :: b5 :: b6 :: b7 :: rest =>
    staged e (e.advance8 crc (block b0 b1 b2 b3 b4 b5 b6 b7)) rest
  | _ => crc

/-- The `while (end - p >= W)` loop of `updateSimd` with the final call of `updateScalar` — CRC.hpp:196-216,
for a width `W ≥ 1`. -/
def simdLoop (e : Engine) (W : Nat) (hW : 0 < W) (crc : BitVec e.w) (p : List Byte) : BitVec e.w :=
  if h : W ≤ p.length then simdLoop e W hW (staged e crc (p.take W)) (p.drop W)
  else updateScalar e crc p
termination_by p.length
decreasing_by simp; omega

/-- `updateSimd` — CRC.hpp:190-217; `W` is `native_simd<uint8_t>::size()`. -/
def updateSimd (e : Engine) (W : Nat) (crc : BitVec e.w) (input : List Byte) : BitVec e.w :=
  if h : 8 ≤ W ∧ W % 8 = 0 then simdLoop e W (by omega) crc input
  else updateScalar e crc input

/-- `compute` — CRC.hpp:219-222. -/
def compute (f : Flavour) (W : Nat) (input : List Byte) : BitVec f.engine.w :=
  updateSimd f.engine W f.engine.init input ^^^ f.engine.xorOut

/-- `computeScalar` — CRC.hpp:224-227. -/
def computeScalar (f : Flavour) (input : List Byte) : BitVec f.engine.w :=
  updateScalar f.engine f.engine.init input ^^^ f.engine.xorOut

end Verif.Crc

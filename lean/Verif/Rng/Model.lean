/-!
# Random numbers and noise

Model of /repo/algorithm/include/gnuradio-4.0/algorithm/rng/Xoshiro256pp.hpp,
rng/GaussianNoise.hpp and signal/NoiseGenerator.hpp. Floating point numbers are exact rationals.
-/
namespace Verif.Rng

/-- `_state`. Xoshiro256pp.hpp:27 -/
structure Xo where
  s0 : BitVec 64
  s1 : BitVec 64
  s2 : BitVec 64
  s3 : BitVec 64
deriving DecidableEq, Repr

/-- `splitMix64` without the increment. Xoshiro256pp.hpp:97-99 -/
def mix (x : BitVec 64) : BitVec 64 :=
  let z := (x ^^^ (x >>> 30)) * 0xbf58476d1ce4e5b9#64
  let z := (z ^^^ (z >>> 27)) * 0x94d049bb133111eb#64
  z ^^^ (z >>> 31)

/-- The increment of `splitMix64`. Xoshiro256pp.hpp:96 -/
def increment : BitVec 64 := 0x9e3779b97f4a7c15#64

/-- `seed`. Xoshiro256pp.hpp:32-38 -/
def seed (x : BitVec 64) : Xo :=
  let x0 := x + increment
  let x1 := x0 + increment
  let x2 := x1 + increment
  let x3 := x2 + increment
  ⟨mix x0, mix x1, mix x2, mix x3⟩

/-- `next`: the number and the new state. Xoshiro256pp.hpp:40-50 -/
def next (s : Xo) : BitVec 64 × Xo :=
  let result := (s.s0 + s.s3).rotateLeft 23 + s.s0
  let t := s.s1 <<< 17
  let s2 := s.s2 ^^^ s.s0
  let s3 := s.s3 ^^^ s.s1
  let s1 := s.s1 ^^^ s2
  let s0 := s.s0 ^^^ s3
  let s2 := s2 ^^^ t
  let s3 := s3.rotateLeft 45
  (result, ⟨s0, s1, s2, s3⟩)

/-- `fillRaw`. Xoshiro256pp.hpp:83-92 -/
def fillRaw : Nat → Xo → List (BitVec 64) × Xo
  | 0, s => ([], s)
  | n + 1, s =>
    let (r, s) := next s
    let (rs, s) := fillRaw n s
    (r :: rs, s)

/-- Single and double precision. -/
inductive Prec where
  | single
  | double
deriving DecidableEq, Repr

/-- `toUniform01`; both factors and the product are exact. Xoshiro256pp.hpp:54-61 -/
def uniform01 (F : Prec) (raw : BitVec 64) : Rat :=
  match F with
  | .single => ((raw >>> 40).toNat : Rat) / (2 ^ 24 : Nat)
  | .double => ((raw >>> 11).toNat : Rat) / (2 ^ 53 : Nat)

/-- `toUniformM11`. Xoshiro256pp.hpp:63-66 -/
def uniformM11 (F : Prec) (raw : BitVec 64) : Rat := 2 * uniform01 F raw - 1

/-- `triangularM11`: the value and the new state. Xoshiro256pp.hpp:78-81 -/
def triangular (F : Prec) (s : Xo) : Rat × Xo :=
  let (a, s) := next s
  let (b, s) := next s
  (uniform01 F a + uniform01 F b - 1, s)

/-! ## Normally distributed numbers -/

/-- One pass of the loop: the two numbers and the sum of their squares. GaussianNoise.hpp:41-43 -/
def tryPair (F : Prec) (s : Xo) : (Rat × Rat × Rat) × Xo :=
  let (a, s) := next s
  let (b, s) := next s
  let u := uniformM11 F a
  let v := uniformM11 F b
  ((u, v, u * u + v * v), s)

/-- The loop and what follows it, `none` if it has not ended after `fuel` passes. `factor` stands for
the root of `-2 log(s) / s`. GaussianNoise.hpp:39-49, 67-76, 102-111 -/
def polarPair (F : Prec) (factor : Rat → Rat) : Nat → Xo → Option ((Rat × Rat) × Xo)
  | 0, _ => none
  | fuel + 1, s =>
    let ((u, v, q), s) := tryPair F s
    if q ≥ 1 ∨ q = 0 then polarPair F factor fuel s
    else some ((u * factor q, v * factor q), s)

/-- `GaussianNoise` with its generator. GaussianNoise.hpp:24-27 -/
structure Gauss where
  rng : Xo
  spare : Option Rat := none
deriving DecidableEq

/-- `operator()`. GaussianNoise.hpp:33-50 -/
def Gauss.sample (F : Prec) (factor : Rat → Rat) (fuel : Nat) (g : Gauss) : Option (Rat × Gauss) :=
  match g.spare with
  -- 34-37
  | some x => some (x, { g with spare := none })
  | none =>
    match polarPair F factor fuel g.rng with
    | none => none
    | some ((a, b), s) => some (a, ⟨s, some b⟩)

/-- The loop of `fill`. GaussianNoise.hpp:61-77 -/
def Gauss.fillLoop (F : Prec) (factor : Rat → Rat) (fuel : Nat) (amp off : Rat) :
    Nat → Xo → Option Rat → Option (List Rat × Xo × Option Rat)
  | 0, s, spare => some ([], s, spare)
  | n + 1, s, some x =>
    -- 62-66
    match Gauss.fillLoop F factor fuel amp off n s none with
    | none => none
    | some (xs, s, spare) => some ((amp * x + off) :: xs, s, spare)
  | n + 1, s, none =>
    -- 67-76
    match polarPair F factor fuel s with
    | none => none
    | some ((a, b), s) =>
      match Gauss.fillLoop F factor fuel amp off n s (some b) with
      | none => none
      | some (xs, s, spare) => some ((amp * a + off) :: xs, s, spare)

/-- `fill`: what is left over from before is not used. GaussianNoise.hpp:57-84 -/
def Gauss.fill (F : Prec) (factor : Rat → Rat) (fuel : Nat) (amp off : Rat) (n : Nat) (g : Gauss) :
    Option (List Rat × Gauss) :=
  match Gauss.fillLoop F factor fuel amp off n g.rng none with
  | none => none
  | some (xs, s, spare) => some (xs, ⟨s, spare⟩)

/-- The loop of `fillComplex`; `scale` stands for the root of one half. GaussianNoise.hpp:88-93 -/
def Gauss.complexLoop (F : Prec) (factor : Rat → Rat) (scale : Rat) (fuel : Nat) (amp off : Rat) :
    Nat → Xo → Option (List (Rat × Rat) × Xo)
  | 0, s => some ([], s)
  | n + 1, s =>
    match polarPair F factor fuel s with
    | none => none
    | some ((a, b), s) =>
      match Gauss.complexLoop F factor scale fuel amp off n s with
      | none => none
      | some (xs, s) => some ((amp * scale * a + off, amp * scale * b) :: xs, s)

/-- `fillComplex`. GaussianNoise.hpp:86-99 -/
def Gauss.fillComplex (F : Prec) (factor : Rat → Rat) (scale : Rat) (fuel : Nat) (amp off : Rat) (n : Nat)
    (g : Gauss) : Option (List (Rat × Rat) × Gauss) :=
  match Gauss.complexLoop F factor scale fuel amp off n g.rng with
  | none => none
  | some (xs, s) => some (xs, ⟨s, none⟩)

/-- `complexSample`. GaussianNoise.hpp:52-55 -/
def Gauss.complexSample (F : Prec) (factor : Rat → Rat) (scale : Rat) (fuel : Nat) (g : Gauss) :
    Option ((Rat × Rat) × Gauss) :=
  match g.sample F factor fuel with
  | none => none
  | some (a, g) =>
    match g.sample F factor fuel with
    | none => none
    | some (b, g) => some ((a * scale, b * scale), g)

/-! ## The noise generator -/

/-- `NoiseType`. NoiseGenerator.hpp:14 -/
inductive Noise where
  | uniform
  | triangular
  | gaussian
deriving DecidableEq, Repr

/-- What the mathematical functions and the precision are. -/
structure Env where
  F : Prec
  factor : Rat → Rat
  scale : Rat
  fuel : Nat

/-- `NoiseGenerator`. NoiseGenerator.hpp:24-29 -/
structure Gen where
  type : Noise := .uniform
  amp : Rat := 1
  off : Rat := 0
  gauss : Gauss := ⟨seed 0, none⟩
deriving DecidableEq

/-- `configure`. NoiseGenerator.hpp:65-71 -/
def Gen.configure (_ : Gen) (type : Noise) (amp off : Rat) (x : BitVec 64) : Gen :=
  ⟨type, amp, off, ⟨seed x, none⟩⟩

/-- `reset`. NoiseGenerator.hpp:73-76 -/
def Gen.reset (g : Gen) (x : BitVec 64) : Gen := { g with gauss := ⟨seed x, none⟩ }

/-- `rawSample`. NoiseGenerator.hpp:157-164 -/
def Gen.raw (e : Env) (g : Gen) : Option (Rat × Gen) :=
  match g.type with
  | .uniform =>
    let (r, s) := next g.gauss.rng
    some (uniformM11 e.F r, { g with gauss := { g.gauss with rng := s } })
  | .triangular =>
    let (x, s) := Rng.triangular e.F g.gauss.rng
    some (x, { g with gauss := { g.gauss with rng := s } })
  | .gaussian =>
    match g.gauss.sample e.F e.factor e.fuel with
    | none => none
    | some (x, q) => some (x, { g with gauss := q })

/-- `generateSample`. NoiseGenerator.hpp:78 -/
def Gen.sample (e : Env) (g : Gen) : Option (Rat × Gen) :=
  match g.raw e with
  | none => none
  | some (x, g') => some (g.amp * x + g.off, g')

/-- The loop of `fill` for uniform noise. NoiseGenerator.hpp:86-88 -/
def fillUniform (F : Prec) (amp off : Rat) : Nat → Xo → List Rat × Xo
  | 0, s => ([], s)
  | n + 1, s =>
    let (r, s) := next s
    let (xs, s) := fillUniform F amp off n s
    ((amp * uniformM11 F r + off) :: xs, s)

/-- The loop of `fill` for triangular noise. NoiseGenerator.hpp:97-101 -/
def fillTriangular (F : Prec) (amp off : Rat) : Nat → Xo → List Rat × Xo
  | 0, s => ([], s)
  | n + 1, s =>
    let (a, s) := next s
    let (b, s) := next s
    let (xs, s) := fillTriangular F amp off n s
    ((amp * (uniform01 F a + uniform01 F b - 1) + off) :: xs, s)

/-- `fill`. NoiseGenerator.hpp:80-110 -/
def Gen.fill (e : Env) (n : Nat) (g : Gen) : Option (List Rat × Gen) :=
  match g.type with
  | .uniform =>
    let (xs, s) := fillUniform e.F g.amp g.off n g.gauss.rng
    some (xs, { g with gauss := { g.gauss with rng := s } })
  | .triangular =>
    let (xs, s) := fillTriangular e.F g.amp g.off n g.gauss.rng
    some (xs, { g with gauss := { g.gauss with rng := s } })
  | .gaussian =>
    match g.gauss.fill e.F e.factor e.fuel g.amp g.off n with
    | none => none
    | some (xs, q) => some (xs, { g with gauss := q })

/-- `generateComplexSample`. NoiseGenerator.hpp:112-118 -/
def Gen.complexSample (e : Env) (g : Gen) : Option ((Rat × Rat) × Gen) :=
  match g.type with
  | .gaussian =>
    match g.gauss.complexSample e.F e.factor e.scale e.fuel with
    | none => none
    | some ((a, b), q) => some ((g.amp * a + g.off, g.amp * b), { g with gauss := q })
  | _ =>
    match g.raw e with
    | none => none
    | some (a, g1) =>
      match g1.raw e with
      | none => none
      | some (b, g2) => some ((g.amp * a + g.off, g.amp * b), g2)

/-- The loop of `fillComplex` for uniform noise. NoiseGenerator.hpp:126-130 -/
def complexUniform (F : Prec) (amp off : Rat) : Nat → Xo → List (Rat × Rat) × Xo
  | 0, s => ([], s)
  | n + 1, s =>
    let (a, s) := next s
    let (b, s) := next s
    let (xs, s) := complexUniform F amp off n s
    ((amp * uniformM11 F a + off, amp * uniformM11 F b) :: xs, s)

/-- The loop of `fillComplex` for triangular noise. NoiseGenerator.hpp:139-145 -/
def complexTriangular (F : Prec) (amp off : Rat) : Nat → Xo → List (Rat × Rat) × Xo
  | 0, s => ([], s)
  | n + 1, s =>
    let (a, s) := next s
    let (b, s) := next s
    let (c, s) := next s
    let (d, s) := next s
    let (xs, s) := complexTriangular F amp off n s
    ((amp * (uniform01 F a + uniform01 F b - 1) + off, amp * (uniform01 F c + uniform01 F d - 1)) :: xs, s)

/-- `fillComplex`. NoiseGenerator.hpp:120-154 -/
def Gen.fillComplex (e : Env) (n : Nat) (g : Gen) : Option (List (Rat × Rat) × Gen) :=
  match g.type with
  | .uniform =>
    let (xs, s) := complexUniform e.F g.amp g.off n g.gauss.rng
    some (xs, { g with gauss := { g.gauss with rng := s } })
  | .triangular =>
    let (xs, s) := complexTriangular e.F g.amp g.off n g.gauss.rng
    some (xs, { g with gauss := { g.gauss with rng := s } })
  | .gaussian =>
    match g.gauss.fillComplex e.F e.factor e.scale e.fuel g.amp g.off n with
    | none => none
    | some (xs, q) => some (xs, { g with gauss := q })

end Verif.Rng

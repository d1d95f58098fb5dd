import Verif.Deflate.Tables
/-!
# Matcher and tokenizer — model of core/include/gnuradio-4.0/Compression.hpp:284-433

The scratch arrays `head` and `previous` are functions from index to content. The tokens are the list of those written to `scratch.tokens`.
-/
namespace Verif.Deflate
open Verif.Bytes (Byte)

/-- `Token`, 16-bit fields — Compression.hpp:284-289 -/
structure Token where
  value : Nat
  distance : Nat
deriving DecidableEq, Repr

/-- `Match` — Compression.hpp:291-294 -/
structure Match where
  length : Nat
  distance : Nat
deriving DecidableEq, Repr

inductive Level where | fast | balanced | best
deriving DecidableEq, Repr

/-- `matchPolicy`: candidates and lazy matching — Compression.hpp:301-308 -/
def Level.maxCandidates : Level → Nat
  | .fast => 4 | .balanced => 16 | .best => 128
def Level.lazyMatching : Level → Bool
  | .best => true | _ => false

/-- `historyBound` — Compression.hpp:310 -/
def historyBound (size : Nat) : Nat := max 1 (min size kWindowSize)

/-- the hash chains -/
structure Chains where
  head : Nat → Nat
  previous : Nat → Nat

/-- fresh scratch tables -/
def Chains.fresh : Chains := ⟨fun _ => 0, fun _ => 0⟩

/-- what does not change while a block is tokenized — Compression.hpp:334-341 -/
structure Window where
  data : List Byte
  base : Nat
  chainSize : Nat
  level : Level

/-- `Matcher::hash`, 32-bit arithmetic — Compression.hpp:343-349 -/
def Window.hash (w : Window) (pos : Nat) : Nat :=
  let a := (w.data.getD pos 0).toNat
  let b := (w.data.getD (pos + 1) 0).toNat
  let c := (w.data.getD (pos + 2) 0).toNat
  ((((a <<< 16) ||| (b <<< 8) ||| c) * 2654435761) % 2 ^ 32) >>> 16

/-- `Matcher::insert` — Compression.hpp:351-359 -/
def Window.insert (w : Window) (t : Chains) (pos : Nat) : Chains :=
  if pos + 2 ≥ w.data.length then t
  else
    let key := w.hash pos
    let absolute := w.base + pos
    ⟨fun k => if k = key then absolute + 1 else t.head k, fun k => if k = absolute % w.chainSize then t.head key else t.previous k⟩

/-- the comparison loop — Compression.hpp:376-379 -/
def matchLen (data : List Byte) : Nat → Nat → Nat → Nat
  | 0, _, _ => 0
  | n + 1, o, p => if data[o]? = data[p]? then matchLen data n (o + 1) (p + 1) + 1 else 0

/-- the loop of `Matcher::find`; the first argument is the number of candidates still allowed — Compression.hpp:372-388 -/
def Window.findGo (w : Window) (t : Chains) (pos limit oldest : Nat) : Nat → Nat → Match → Match
  | 0, _, best => best
  | n + 1, candidate, best =>
    if oldest < candidate ∧ candidate ≤ w.base + pos then
      let c := candidate - 1
      let length := matchLen w.data limit (c - w.base) pos
      if 3 ≤ length ∧ best.length < length then
        if length = kMaxMatchLength then ⟨length, w.base + pos - c⟩
        else w.findGo t pos limit oldest n (t.previous (c % w.chainSize)) ⟨length, w.base + pos - c⟩
      else w.findGo t pos limit oldest n (t.previous (c % w.chainSize)) best
    else best

/-- `Matcher::find` — Compression.hpp:361-390 -/
def Window.find (w : Window) (t : Chains) (pos : Nat) : Match :=
  if pos + 2 ≥ w.data.length then ⟨0, 0⟩
  else
    let absolute := w.base + pos
    let oldest := max w.base (if kWindowSize < absolute then absolute - kWindowSize else 0)
    w.findGo t pos (min kMaxMatchLength (w.data.length - pos)) oldest w.level.maxCandidates (t.head (w.hash pos)) ⟨0, 0⟩

/-- a run of `insert`s — Compression.hpp:408-411, 424-426 -/
def Window.insertRun (w : Window) (t : Chains) (pos : Nat) : Nat → Chains
  | 0 => t
  | n + 1 => w.insertRun (w.insert t pos) (pos + 1) n

/-- a literal token — Compression.hpp:420, 429 -/
def Window.literal (w : Window) (pos : Nat) : Token := ⟨(w.data.getD pos 0).toNat, 0⟩
/-- a match token — Compression.hpp:424 -/
def Match.token (m : Match) : Token := ⟨m.length % 65536, m.distance % 65536⟩

/-- the second loop of `tokenize`; every iteration advances, so `size - pos` iterations are enough — Compression.hpp:412-433 -/
def Window.tokenGo (w : Window) : Nat → Nat → Chains → List Token × Chains
  | 0, _, t => ([], t)
  | n + 1, pos, t =>
    if pos < w.data.length then
      let m := w.find t pos
      if w.level.lazyMatching && decide (3 ≤ m.length) then
        let t1 := w.insert t pos
        if m.length < (w.find t1 (pos + 1)).length then
          let r := w.tokenGo n (pos + 1) t1
          (w.literal pos :: r.1, r.2)
        else
          let r := w.tokenGo n (pos + m.length) (w.insertRun t1 (pos + 1) (m.length - 1))
          (m.token :: r.1, r.2)
      else if 3 ≤ m.length then
        let r := w.tokenGo n (pos + m.length) (w.insertRun t pos m.length)
        (m.token :: r.1, r.2)
      else
        let r := w.tokenGo n (pos + 1) (w.insert t pos)
        (w.literal pos :: r.1, r.2)
    else ([], t)

/-- `tokenize` — Compression.hpp:400-434 -/
def Window.tokenize (w : Window) (t : Chains) (indexedFrom tokenFrom : Nat) : List Token × Chains :=
  w.tokenGo (w.data.length - max indexedFrom tokenFrom) (max indexedFrom tokenFrom) (w.insertRun t indexedFrom (tokenFrom - indexedFrom))

end Verif.Deflate

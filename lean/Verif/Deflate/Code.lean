import Verif.Deflate.Match
/-!
# Prefix codes of the encoder — model of core/include/gnuradio-4.0/Compression.hpp:436-672

Arrays used as tables are functions from index to content; 16- and 32-bit counters wrap.
-/
namespace Verif.Deflate

/-- assignment to an array element -/
def upd {α : Type} (f : Nat → α) (i : Nat) (v : α) : Nat → α := fun j => if j = i then v else f j

/-- `CanonicalCodes` — Compression.hpp:436-440 -/
structure Codes where
  lengths : List Nat
  bits : List Nat
deriving DecidableEq

/-- number of codes of a width — Compression.hpp:447-451 -/
def widthCount (lengths : List Nat) (w : Nat) : Nat := if w = 0 then 0 else lengths.count w

/-- `next[width]` before the assignment of codes — Compression.hpp:452-456 -/
def nextCode (c : Nat → Nat) : Nat → Nat
  | 0 => 0
  | w + 1 => (((nextCode c w + c w) % 65536) <<< 1) % 65536

/-- the loop assigning the codes — Compression.hpp:457-462 -/
def assignCodes : List Nat → (Nat → Nat) → List Nat
  | [], _ => []
  | w :: r, next =>
    if w ≠ 0 then reverseBits (next w) w :: assignCodes r (upd next w ((next w + 1) % 65536))
    else 0 :: assignCodes r next

/-- `makeCanonicalCodes` — Compression.hpp:442-464 -/
def makeCanonicalCodes (lengths : List Nat) : Codes := ⟨lengths, assignCodes lengths (nextCode (widthCount lengths))⟩

/-- at least two symbols get a frequency — Compression.hpp:469-475; the first argument is `active` -/
def activate : Nat → List Nat → List Nat
  | _, [] => []
  | active, f :: r => if active < 2 ∧ f = 0 then 1 :: activate (active + 1) r else f :: activate active r

/-- a node in the heap: frequency and index -/
abbrev Node := Nat × Nat

/-- the order of the heap: least frequency first, then least index — Compression.hpp:483 -/
def Node.before (a b : Node) : Bool := decide (a.1 < b.1) || (decide (a.1 = b.1) && decide (a.2 < b.2))

/-- the least node of a non-empty heap -/
def least (x : Node) : List Node → Node
  | [] => x
  | y :: r => if y.before x then least y r else least x r

/-- `pop`: `pop_heap` yields the least node, and no two are equal because the indices differ, so the layout of the heap does not matter —
Compression.hpp:491-494 -/
def pop (x : Node) (h : List Node) : Node × List Node := (least x h, (x :: h).erase (least x h))

/-- merging loop: the parents, and the number of nodes — Compression.hpp:502-509; every iteration removes one element, so as many
iterations as there are elements are enough -/
def mergeGo : Nat → List Node → Nat → (Nat → Option Nat) → (Nat → Option Nat) × Nat
  | 0, _, count, parent => (parent, count)
  | n + 1, heap, count, parent =>
    match heap with
    | x :: y :: r =>
      let p := pop x (y :: r)
      match p.2 with
      | [] => (parent, count)
      | z :: r' =>
        let q := pop z r'
        mergeGo n ((p.1.1 + q.1.1, count) :: q.2) (count + 1) (upd (upd parent p.1.2 (some count)) q.1.2 (some count))
    | _ => (parent, count)

/-- the nodes of the symbols in use — Compression.hpp:496-500 -/
def leaves (f : List Nat) : List Node := (f.zipIdx).filter (fun e => decide (e.1 ≠ 0))

/-- depths, from the last node down — Compression.hpp:513-517 -/
def depthGo (parent : Nat → Option Nat) : Nat → List Nat → List Nat
  | 0, d => d
  | n + 1, d =>
    match parent n with
    | none => depthGo parent n d
    | some p => depthGo parent n (d.set n (d.getD p 0 + 1))

/-- `depths` — Compression.hpp:477-517 -/
def treeDepths (f : List Nat) : List Nat :=
  let m := mergeGo (leaves f).length (leaves f) f.length (fun _ => none)
  depthGo m.1 m.2 (List.replicate (2 * f.length) 0)

/-- `lengthCounts` — Compression.hpp:518-522 -/
def depthCount (depths : List Nat) (f : List Nat) (maxBits w : Nat) : Nat :=
  ((leaves f).filter (fun e => decide (min (depths.getD e.2 0) maxBits = w))).length

/-- `usedCodeSpace` — Compression.hpp:524-527 -/
def codeSpace (c : Nat → Nat) (maxBits : Nat) : Nat → Nat
  | 0 => 0
  | w + 1 => codeSpace c maxBits w + c (w + 1) <<< (maxBits - (w + 1))

/-- the search for a width to split, downwards — Compression.hpp:530-533 -/
def splitWidth (c : Nat → Nat) : Nat → Nat
  | 0 => 0
  | w + 1 => if c (w + 1) = 0 then splitWidth c w else w + 1

/-- decrement of an `unsigned` -/
def dec32 (n : Nat) : Nat := (n + (2 ^ 32 - 1)) % 2 ^ 32

/-- one iteration of the repair — Compression.hpp:530-536 -/
def repairStep (maxBits : Nat) (c : Nat → Nat) : Nat → Nat :=
  let w := splitWidth c (maxBits - 1)
  let c1 := upd c w (dec32 (c w))
  let c2 := upd c1 (w + 1) ((c1 (w + 1) + 2) % 2 ^ 32)
  upd c2 maxBits (dec32 (c2 maxBits))

/-- the repair loop runs once per unit of code space used in excess — Compression.hpp:528-538 -/
def repair (maxBits : Nat) : Nat → (Nat → Nat) → (Nat → Nat)
  | 0, c => c
  | n + 1, c => repair maxBits n (repairStep maxBits c)

/-- insertion into a sorted list -/
def Node.insert (a : Node) : List Node → List Node
  | [] => [a]
  | b :: r => if Node.before b a then b :: Node.insert a r else a :: b :: r

/-- the symbols in use by rising frequency, ties by index: the order is total, so the sorting algorithm does not matter —
Compression.hpp:540-547 -/
def ordered (f : List Nat) : List Nat := ((leaves f).foldr Node.insert []).map (·.2)

/-- the widths from `maxBits` down to 1, each as often as counted — Compression.hpp:551-552 -/
def widthsDown (c : Nat → Nat) : Nat → List Nat
  | 0 => []
  | w + 1 => List.replicate (c (w + 1)) (w + 1) ++ widthsDown c w

/-- the assignment of widths — Compression.hpp:549-555 -/
def assignWidths : List Nat → List Nat → List Nat → List Nat
  | s :: r, w :: ws, lengths => assignWidths r ws (lengths.set s w)
  | _, _, lengths => lengths

/-- `makeCodeLengths` — Compression.hpp:466-558 -/
def makeCodeLengths (maxBits : Nat) (frequencies : List Nat) : List Nat :=
  let f := activate (frequencies.countP (fun x => decide (x ≠ 0))) frequencies
  let depths := treeDepths f
  let c := depthCount depths f maxBits
  let c' := repair maxBits (codeSpace c maxBits maxBits - 2 ^ maxBits) c
  assignWidths (ordered f) (widthsDown c' maxBits) (List.replicate f.length 0)

/-- `CodeLengthToken` — Compression.hpp:560-564 -/
structure LenToken where
  symbol : Nat
  extraValue : Nat
  extraBits : Nat
deriving DecidableEq, Repr

/-- length of the run at the head — Compression.hpp:582-585 -/
def runLength (l : Nat) : List Nat → Nat
  | [] => 0
  | x :: r => if x = l then runLength l r + 1 else 0

/-- long runs of zeros — Compression.hpp:588-592; at most `run` iterations -/
def zeroRuns : Nat → Nat → List LenToken × Nat
  | 0, run => ([], run)
  | n + 1, run =>
    if 11 ≤ run then
      let count := min run 138
      let r := zeroRuns n (run - count)
      (⟨18, count - 11, 7⟩ :: r.1, r.2)
    else ([], run)

/-- repetitions of a length — Compression.hpp:600-604 -/
def copyRuns : Nat → Nat → List LenToken × Nat
  | 0, run => ([], run)
  | n + 1, run =>
    if 3 ≤ run then
      let count := min run 6
      let r := copyRuns n (run - count)
      (⟨16, count - 3, 2⟩ :: r.1, r.2)
    else ([], run)

/-- the tokens of one run — Compression.hpp:587-608 -/
def runTokens (length run : Nat) : List LenToken :=
  if length = 0 then
    let z := zeroRuns run run
    if 3 ≤ z.2 then z.1 ++ [⟨17, z.2 - 3, 3⟩] else z.1 ++ List.replicate z.2 ⟨length, 0, 0⟩
  else
    let z := copyRuns (run - 1) (run - 1)
    ⟨length, 0, 0⟩ :: z.1 ++ List.replicate z.2 ⟨length, 0, 0⟩

/-- `encodeCodeLengths` — Compression.hpp:576-611; every iteration advances -/
def encodeLensGo : Nat → List Nat → List LenToken
  | 0, _ => []
  | _ + 1, [] => []
  | n + 1, l :: r =>
    let run := runLength l r + 1
    runTokens l run ++ encodeLensGo n ((l :: r).drop run)

def encodeCodeLengths (lengths : List Nat) : List LenToken := encodeLensGo lengths.length lengths

/-- `DynamicCoding` — Compression.hpp:613-621 -/
structure Coding where
  literals : Codes
  distances : Codes
  codeLengths : Codes
  encoded : List LenToken
  literalCount : Nat
  distanceCount : Nat
  codeLengthCount : Nat

/-- increment of a 32-bit counter in an array -/
def bump (f : List Nat) (i : Nat) : List Nat := f.set i ((f.getD i 0 + 1) % 2 ^ 32)

/-- frequencies of literals and lengths — Compression.hpp:624-634 -/
def literalFreq (tokens : List Token) : List Nat :=
  bump (tokens.foldl (fun f t => if t.distance = 0 then bump f t.value else bump f (encodeLength t.value).symbol) (List.replicate 286 0)) 256
/-- frequencies of distances — Compression.hpp:625-632 -/
def distanceFreq (tokens : List Token) : List Nat :=
  tokens.foldl (fun f t => if t.distance = 0 then f else bump f (encodeDistance t.distance).symbol) (List.replicate 30 0)

/-- number of entries down to `least` without trailing zeros — Compression.hpp:640-647, 664-667 -/
def trimmed (lengths : List Nat) (least : Nat) : Nat → Nat
  | 0 => 0
  | n + 1 => if least < n + 1 ∧ lengths.getD n 0 = 0 then trimmed lengths least n else n + 1

/-- `makeDynamicCoding` — Compression.hpp:623-670 -/
def makeDynamicCoding (tokens : List Token) : Coding :=
  let lits := makeCodeLengths 15 (literalFreq tokens)
  let dists := makeCodeLengths 15 (distanceFreq tokens)
  let literalCount := trimmed lits 257 286
  let distanceCount := trimmed dists 1 30
  let encoded := encodeCodeLengths (lits.take literalCount ++ dists.take distanceCount)
  let cl := makeCodeLengths 7 (encoded.foldl (fun f t => bump f t.symbol) (List.replicate 19 0))
  ⟨makeCanonicalCodes lits, makeCanonicalCodes dists, makeCanonicalCodes cl, encoded, literalCount, distanceCount,
    trimmed (kCodeLengthOrder.map (fun i => cl.getD i 0)) 4 19⟩

end Verif.Deflate

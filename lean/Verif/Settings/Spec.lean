import Verif.Settings.Model
/-!
# What the settings properties say

Independent of the search and expiry code: sets of stored parameters are taken as plain lists.
-/
namespace Verif.Settings

open Verif.Work.Tags (Key Map settingsKey)

/-- the sets stored for a context -/
def entriesOf {V : Type} (s : Stored V) (c : Nat) : List (Entry V) := (storedFind s c).getD []

/-- `e` is in effect at time `t` among `l`: not later than `t`, and nothing else not later than `t` is later than `e` -/
def InEffect {V : Type} (l : List (Entry V)) (t : Nat) (e : Entry V) : Prop :=
  e ∈ l ∧ e.ctx.time ≤ t ∧ ∀ x ∈ l, x.ctx.time ≤ t → x.ctx.time ≤ e.ctx.time

/-- `c` is the stored name the user's predicate decides for: in some attempt it is the first name answered `true`, and before
that answer every question was answered `false` -/
def Chosen (pred : Nat → Nat → Nat → Option Bool) (search : Nat) (names : List Nat) (c : Nat) : Prop :=
  ∃ n pre post, names = pre ++ c :: post ∧ pred c search n = some true ∧ (∀ x ∈ pre, pred x search n = some false) ∧
    ∀ m, m < n → ∀ x ∈ names, pred x search m = some false

/-- the predicate gives up: the first answer other than `false` is "no decision" -/
def GivesUp (pred : Nat → Nat → Nat → Option Bool) (search : Nat) (names : List Nat) : Prop :=
  ∃ n pre c post, names = pre ++ c :: post ∧ pred c search n = none ∧ (∀ x ∈ pre, pred x search n = some false) ∧
    ∀ m, m < n → ∀ x ∈ names, pred x search m = some false

/-- `cfg.best` is what the retry loop over the user's predicate yields (so the loop ends) -/
def BestBy {V : Type} (cfg : Cfg V) (pred : Nat → Nat → Nat → Option Bool) : Prop :=
  ∀ names c, ∃ fuel, names ≠ [] → matchLoop pred c names fuel 0 = some (cfg.best names c)

/-- the value `ps` gives to member `k`: the last usable one -/
def given {V : Type} (cfg : Cfg V) (ps : Map V) (k : Key) : Option V :=
  (ps.reverse.find? (fun e => !cfg.isMono e.2 && decide (settingsKey e.1 = k))).map (·.2)

/-- the members named by `ps` with a value -/
def namedKeys {V : Type} (cfg : Cfg V) (ps : Map V) : List Key :=
  (ps.filter (fun e => !cfg.isMono e.2 && cfg.writable.contains (settingsKey e.1))).map (fun e => settingsKey e.1)

end Verif.Settings

namespace Verif.Settings

open Verif.Work.Tags (Key Map settingsKey)

/-- the name whose sets answer a request for `c`: `c` itself when something is stored for it, else what the predicate decides for -/
def Answers {V : Type} (pred : Nat → Nat → Nat → Option Bool) (s : Stored V) (c d : Nat) : Prop :=
  (d = c ∧ c ∈ s.map (·.1)) ∨ (c ∉ s.map (·.1) ∧ Chosen pred c (s.map (·.1)) d)

/-- nothing answers a request for `c` -/
def Unanswered {V : Type} (pred : Nat → Nat → Nat → Option Bool) (s : Stored V) (c : Nat) : Prop :=
  c ∉ s.map (·.1) ∧ (s.map (·.1) = [] ∨ GivesUp pred c (s.map (·.1)))

/-- the value a member has after applying `staged` to a block whose members are `fields` -/
def fieldAfter {V : Type} (cfg : Cfg V) (staged : Map V) (fields : Key → V) (k : Key) : V :=
  match get staged k with
  | none => fields k
  | some x => if cfg.writable.contains k then (cfg.accept k x).getD (fields k) else fields k

/-- the staged values that pass -/
def accepted {V : Type} (cfg : Cfg V) (staged : Map V) (k : Key) : Option V :=
  match get staged k with
  | none => none
  | some x => if cfg.writable.contains k && (cfg.accept k x).isSome then some x else none

/-- the set of parameters a call stores, if any -/
def storesAt {V : Type} (cfg : Cfg V) (s : St V) : Op V → Option (Entry V)
  | .set n _ ps ctx =>
    let c := setCtx cfg s.stored n ctx
    if (setResult cfg s ps c).2.2.2 then none else some ⟨c, (setResult cfg s ps c).1⟩
  | .reset n1 _ _ _ => some ⟨if cfg.wasm then resolveDup s.stored ⟨n1, 0⟩ else ⟨n1, 0⟩, s.defaults⟩
  | _ => none

/-- the clock readings of a call -/
def clocks {V : Type} : Op V → List Nat
  | .set n n' _ _ => [n, n']
  | .activate n _ => [n]
  | .remove n n' _ => [n, n']
  | .tag n _ => [n]
  | .reset n1 n2 n3 _ => [n1, n2, n3]
  | _ => []

/-- the call erases a stored set on request -/
def isRemove {V : Type} : Op V → Bool
  | .remove _ _ _ => true
  | _ => false

/-- histories: a sequence of calls from a fresh object with a clock that does not run backwards, in which no two sets are stored for
the same context under the same time stamp and none is removed on request; with the log of all sets ever stored, newest first, and
the latest clock reading -/
inductive Hist {V : Type} [DecidableEq V] (cfg : Cfg V) (f : Key → V) : St V → List (Entry V) → Nat → Prop
  | init : Hist cfg f (St.fresh f) [] 0
  | step {s : St V} {log : List (Entry V)} {clk : Nat} (o : Op V) (s' : St V) (clk' : Nat) (h : Hist cfg f s log clk)
      (hrem : isRemove o = false) (hs : step cfg s o = some s') (hc : ∀ t ∈ clocks o, clk ≤ t ∧ t ≤ clk') (hle : clk ≤ clk')
      (hd : ∀ e, storesAt cfg s o = some e → ∀ x ∈ log, x.ctx.context = e.ctx.context → x.ctx.time ≠ e.ctx.time) :
      Hist cfg f s' ((storesAt cfg s o).toList ++ log) clk'

/-- the logged sets of a context -/
def logOf {V : Type} (log : List (Entry V)) (c : Nat) : List (Entry V) := log.filter (fun e => decide (e.ctx.context = c))

end Verif.Settings

namespace Verif.Settings

open Verif.Work.Tags (Key Map settingsKey)

/-- the context a call files parameters under and the members it sets explicitly (none when it throws or restores defaults) -/
def callOf {V : Type} (cfg : Cfg V) (s : St V) : Op V → Option (Ctx × List Key)
  | .set n _ ps ctx =>
    let c := setCtx cfg s.stored n ctx
    some (c, if (setResult cfg s ps c).2.2.2 then [] else namedKeys cfg ps)
  | .reset n1 _ _ _ => some (if cfg.wasm then resolveDup s.stored ⟨n1, 0⟩ else ⟨n1, 0⟩, [])
  | _ => none

/-- sequences of calls without removals in which every set for a context carries a later time stamp than all earlier ones; with the
list of those calls -/
inductive Calls {V : Type} [DecidableEq V] (cfg : Cfg V) (f : Key → V) : St V → List (Ctx × List Key) → Prop
  | init : Calls cfg f (St.fresh f) []
  | step {s : St V} {calls : List (Ctx × List Key)} (o : Op V) (s' : St V) (h : Calls cfg f s calls)
      (hrem : isRemove o = false) (hs : step cfg s o = some s')
      (hd : ∀ x, callOf cfg s o = some x → 0 < x.1.time ∧ ∀ y ∈ calls, y.1.context = x.1.context → y.1.time < x.1.time) :
      Calls cfg f s' ((callOf cfg s o).toList ++ calls)

end Verif.Settings

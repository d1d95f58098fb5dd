import Verif.Plug.Model
/-!
# What the registry, the loader and the cache are for

Nothing here uses the functions of the model, only its data.
-/
namespace Verif.Plug.Spec
open Verif.Plug

/-- A registration: the name of a type and the alias for it, empty if there is none. -/
abbrev Reg := Name × Name

/-- A registration lays claim to the name of its type and to its alias. -/
def Claims (r : Reg) (n : Name) : Prop := r.1 = n ∨ (r.2 = n ∧ n ≠ "")

/-- The last registration that claims a name. -/
def Last (regs : List Reg) (n : Name) (r : Reg) : Prop :=
  ∃ before later, regs = before ++ r :: later ∧ Claims r n ∧ ∀ x ∈ later, ¬ Claims x n

/-- No name is claimed for two types. -/
def NoClash (regs : List Reg) : Prop :=
  ∀ r ∈ regs, ∀ r' ∈ regs, ∀ n, Claims r n → Claims r' n → r.1 = r'.1

/-- A name is known to a registry, for a type. -/
def Knows (m : Registry) (n : Name) : Prop := ∃ h, (n, h) ∈ m

/-- The blocks that can be made: those of the registry, those of plugins, and those with a definition that has
a block and of which all parts can be made.  Finite derivations only. -/
inductive Makeable (l : Loader) : Name → Prop where
  | builtin {n : Name} : Knows l.registry n → Makeable l n
  | plugin {n : Name} {r : Registry} : (n, r) ∈ l.plugins → Makeable l n
  | defined {n : Name} {d : Def} : (n, d) ∈ l.defs → d.blocks ≠ 0 → (∀ x ∈ d.inner, Makeable l x) → Makeable l n

/-- Maps have one entry for a key, and a plugin is listed under names it knows. -/
structure Ok (l : Loader) : Prop where
  registry : (l.registry.map Prod.fst).Nodup
  plugins : (l.plugins.map Prod.fst).Nodup
  defs : (l.defs.map Prod.fst).Nodup
  knows : ∀ n r, (n, r) ∈ l.plugins → Knows r n

/-- What loading has done, given the files asked for: every one was opened once, the broken ones are listed with
their status, the blocks of the others are there, each with a plugin that brought it. -/
structure Done (d : Disk) (asked : List Name) (s : Load) : Prop where
  once : s.opened.Nodup
  all : ∀ f, f ∈ s.opened ↔ f ∈ asked
  failed : ∀ f e, (f, e) ∈ s.failed ↔ f ∈ asked ∧ d f = .error e
  blocks : ∀ n, (∃ r, (n, r) ∈ s.plugins) ↔ ∃ f ∈ asked, ∃ r, d f = .ok r ∧ n ∈ r.map Prod.fst
  origin : ∀ n r, (n, r) ∈ s.plugins → ∃ f ∈ asked, d f = .ok r ∧ n ∈ r.map Prod.fst

/-- The first error of several results, or success. -/
def first : List (Except String Unit) → Except String Unit
  | [] => .ok ()
  | .error e :: _ => .error e
  | .ok _ :: rs => first rs

/-- The parts of a text between separators. -/
def split : List Char → List (List Char)
  | [] => [[]]
  | c :: s =>
    match split s with
    | [] => [[c]]
    | p :: ps => if c = ':' then [] :: p :: ps else (c :: p) :: ps

/-- The time in the index says the truth: what the source has now is what it had ever since then. -/
def Honest (source : Nat → Option (List UInt8)) (modified : Nat → Option Nat) : Prop :=
  ∀ t m, modified t = some m → ∀ t', m ≤ t' → t' ≤ t → source t' = source t

end Verif.Plug.Spec

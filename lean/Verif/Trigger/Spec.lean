import Verif.Trigger.Model
/-!
# Trigger expressions: documented rules

An expression is one side `name/ctx` or two sides `start, stop`; a leading `^` on a name or context asks for the *end* of the
matching tags instead of their begin (StreamToDataSet.hpp:61, qa_TriggerMatcher.cpp).
-/
namespace Verif.Trigger

/-- an expression -/
inductive Expr where
  | one (p : Part)
  | two (a b : Part)

/-- the tag's trigger name and context: the value under the prefixed key if there is such a key, else under the plain one; empty when there
is neither or it is not a string -/
def tagField (t : Tag) (long short : String) : Str := (((t.lookup long.toList).or (t.lookup short.toList)).getD none).getD []
def tagName (t : Tag) : Str := tagField t "gr:trigger_name" "trigger_name"
def tagCtx (t : Tag) : Str := tagField t "gr:context" "context"

/-- a tag meets a side: its name is the given one and its context contains the given one (an absent one is met by all) -/
def Meets (p : Part) (t : Tag) : Prop := (p.name = [] ∨ tagName t = p.name) ∧ (p.ctx = [] ∨ p.ctx <:+: tagCtx t)

instance (p : Part) (t : Tag) : Decidable (Meets p t) := by unfold Meets; infer_instance

/-- the side asks for the end of the matching tags -/
def Part.ends (p : Part) : Bool := p.nameEnds || p.ctxEnds

/-- phases of a two-sided expression -/
inductive Phase where
  | off      -- waiting for a tag that meets the start side
  | opening  -- `^`: it came, waiting for one that does not
  | on       -- waiting for a tag that meets the stop side
  | closing  -- `^`: it came, waiting for one that does not
deriving DecidableEq

/-- the rule for two sides -/
def ruleTwo (a b : Part) : Phase → Tag → Phase × Result
  | .off, t => if Meets a t then (if a.ends then (.opening, .ignore) else (.on, .matching)) else (.off, .ignore)
  | .opening, t => if Meets a t then (.opening, .ignore) else (.on, .matching)
  | .on, t => if Meets b t then (if b.ends then (.closing, .ignore) else (.off, .notMatching)) else (.on, .ignore)
  | .closing, t => if Meets b t then (.closing, .ignore) else (.off, .notMatching)

/-- the answers for a sequence of tags; empty tags are ignored -/
def answersTwo (a b : Part) : Phase → List Tag → List Result
  | _, [] => []
  | ph, t :: r =>
    if t = [] then .ignore :: answersTwo a b ph r
    else (ruleTwo a b ph t).2 :: answersTwo a b (ruleTwo a b ph t).1 r

/-- the rule for one side: every tag is judged alone -/
def answerOne (p : Part) (t : Tag) : Result := if t ≠ [] ∧ Meets p t then .matching else .ignore

/-- white space -/
def spaces : Str := [' ', '\t', '\n', '\r', '\x0c', '\x0b']
/-- a text of only white space -/
def Blank (w : Str) : Prop := ∀ c ∈ w, c ∈ spaces
instance (w : Str) : Decidable (Blank w) := inferInstanceAs (Decidable (∀ c ∈ w, c ∈ spaces))

/-- a word that can be written in an expression: no separators, no white space at its ends, no leading `^` -/
structure Word (w : Str) : Prop where
  noSlash : '/' ∉ w
  noComma : ',' ∉ w
  head : ∀ c, w.head? = some c → c ∉ spaces ∧ c ≠ '^'
  last : ∀ c, w.getLast? = some c → c ∉ spaces

/-- a side that can be written -/
structure Part.Ok (p : Part) : Prop where
  name : Word p.name
  ctx : Word p.ctx
  ctxFlag : p.ctx = [] → p.ctxEnds = false
  some : p.name ≠ [] ∨ p.ctx ≠ []

/-- `^` or nothing -/
def mark (b : Bool) : Str := if b then ['^'] else []

/-- the text of a side -/
def Part.text (p : Part) : Str := mark p.nameEnds ++ p.name ++ (if p.ctx = [] then [] else '/' :: (mark p.ctxEnds ++ p.ctx))

/-- texts of an expression: any white space around the sides -/
inductive IsText : Expr → Str → Prop
  | one (p : Part) (w1 w2 : Str) (h1 : Blank w1) (h2 : Blank w2) : IsText (.one p) ('[' :: (w1 ++ p.text ++ w2 ++ [']']))
  | comma (p : Part) (w1 w2 w3 : Str) (h1 : Blank w1) (h2 : Blank w2) (h3 : Blank w3) :
      IsText (.one p) ('[' :: (w1 ++ [','] ++ w2 ++ p.text ++ w3 ++ [']']))
  | two (a b : Part) (w1 w2 w3 w4 : Str) (h1 : Blank w1) (h2 : Blank w2) (h3 : Blank w3) (h4 : Blank w4) :
      IsText (.two a b) ('[' :: (w1 ++ a.text ++ w2 ++ [','] ++ w3 ++ b.text ++ w4 ++ [']']))

end Verif.Trigger

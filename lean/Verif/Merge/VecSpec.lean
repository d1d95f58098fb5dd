import Verif.Merge.VecModel
import Verif.Merge.Spec

/- What is assumed of the blocks that accept vectors. -/
namespace Verif.Merge

variable {K S V : Type}

/-- The vector forms of the blocks treat every lane as a single call would: lane `j` of the result
of `vec` is the result for lane `j` of the inputs, and the state stays; `gen` with width `w` is the
result of `w` single calls. -/
structure VLib.Lawful (L : VLib K S V) : Prop where
  base : L.toLib.Lawful
  vec : ∀ k s w cs, L.simd k = true → 0 < L.nIn k → cs.length = L.nIn k → (∀ c ∈ cs, c.length = w) →
    (L.vec k s cs).length = L.nOut k ∧ (∀ c ∈ L.vec k s cs, c.length = w) ∧
    ∀ j, j < w → L.step k s (cs.map (fun c => pick L.toLib c j))
      = (s, (L.vec k s cs).map (fun c => pick L.toLib c j))
  gen : ∀ k s w, L.wide k = true → L.nIn k = 0 →
    (L.gen k s w).2.length = L.nOut k ∧ (∀ c ∈ (L.gen k s w).2, c.length = w) ∧
    runAll L.toLib (.leaf k s) (List.replicate w [])
      = (.leaf k (L.gen k s w).1, rows L.toLib w (L.gen k s w).2)

/-- A vector form is only instantiated for a left block with one output: BlockMerging.hpp:230 asserts
it, and 245-251 store its result in an array of samples. -/
def VecCompiles (L : VLib K S V) : Blk K S V → Prop
  | .merge l o r i => VecCompiles L l ∧ VecCompiles L r ∧
      (isVec L (.merge l o r i) = true ∨ isWide L (.merge l o r i) = true → nOut L.toLib l = 1)
  | _ => True

end Verif.Merge

import Verif.Model.AccSet
import Verif.Model.Serial

/-!
# Serialization of a whole set

Paths are relative to `/repo/include/boost/accumulators/framework/`.
-/

namespace Acc

namespace Lib

variable {K F σ : Type} [DecidableEq F] (L : Lib F)

/-- `serialize_accumulator` (`accumulator_set.hpp:103-119`) for the accumulator of one feature; `p` gives the
function `serialize` of every accumulator.  `droppable_accumulator` has no `serialize` of its own and inherits that
of the accumulator (`accumulators/droppable_accumulator.hpp:108-162`), so `ref_count_` is not part of the archive. -/
def accSer (p : F → Ser K σ) (t : Tag F) : Ser K (SetState F σ) where
  save s := match s.env (L.tkey t) with
    | some (f, x) => (p f).save x
    | none => []
  load l s := match s.env (L.tkey t) with
    | some (f, x) => do
      let (x', l) ← (p f).load l x
      pure ({ s with env := Function.update s.env (L.tkey t) (some (f, x')) }, l)
    | none => some (s, l)

/-- `accumulator_set::serialize` (`accumulator_set.hpp:448-453`). -/
def setSer (p : F → Ser K σ) (S : List (Tag F)) : Ser K (SetState F σ) := Ser.all (S.map (L.accSer p))

end Lib

end Acc

import Verif.Model.AccSet

/-!
# Accumulators writing into other accumulators

Paths are relative to `/repo/include/boost/accumulators/`.  `tail_impl::operator()` stores the current variates in the
`tail_variate` accumulators of the set (`statistics/tail.hpp:237-246`): it visits those accumulators that
`is_tail_variate` selects (`tail.hpp:226-235`) and calls their `assign`.  This is a push with such visits.
-/

namespace Acc

/-- Implementations with writing: `assign f env a t s` is what the update of the accumulator of feature `f`, which sees
`env` and the arguments `a`, makes of the state `s` of the accumulator `t`.  The selection (`is_tail_variate`) looks at
the tag `t` as it was installed, `droppable` included (`framework/depends_on.hpp:311-317`: the feature tag of the
accumulator of `droppable<F>` is `droppable<F>`). -/
structure XImpl (F σ A : Type) extends Impl F σ A where
  assign : F → Env F σ → A → Tag F → σ → σ

namespace Lib

variable {F σ A : Type} [DecidableEq F] (L : Lib F)

/-- One accumulator is visited: it is updated, and writes into others. -/
def visitX (I : XImpl F σ A) (S : List (Tag F)) (refs : F → ℕ) (a : A) (env : Env F σ) (t : Tag F) : Env F σ :=
  if t.drop && decide (refs (L.tkey t) = 0) then env
  else fun k =>
    if k = L.tkey t then some (t.base, I.upd t.base env a)
    else match S.find? fun t' => decide (L.tkey t' = k) with
      | some t' => (env k).map fun c => (c.1, I.assign t.base env a t' c.2)
      | none => env k

/-- `operator()` of the set (`framework/accumulator_set.hpp:329-378`); `S'` is the part of the set that is visited. -/
def pushX (I : XImpl F σ A) (S : List (Tag F)) (refs : F → ℕ) (S' : List (Tag F)) (env : Env F σ) (a : A) : Env F σ :=
  S'.foldl (L.visitX I S refs a) env

/-- One operation. -/
def stepX (I : XImpl F σ A) (S : List (Tag F)) (s : SetState F σ) : SetOp F A → Res (SetState F σ)
  | .push a => .val { s with env := L.pushX I S s.refs S s.env a }
  | .drop f => (L.dropFeature S s.refs f).bind fun c => .val { s with refs := c }

/-- A history of operations. -/
def runX (I : XImpl F σ A) (S : List (Tag F)) (s : SetState F σ) (ops : List (SetOp F A)) : Res (SetState F σ) :=
  ops.foldlM (L.stepX I S) s

end Lib

end Acc

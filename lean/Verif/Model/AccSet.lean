import Verif.Model.Framework
import Mathlib.Logic.Function.Basic

/-!
# Model of `accumulator_set` as a whole

Paths are relative to `/repo/include/boost/accumulators/framework/`.  The accumulators themselves are abstract
here: an `Impl` says how an accumulator is constructed and how it is updated.  While it is updated it can look at
every accumulator of the set (the argument pack contains `accumulator = *this`, `accumulator_set.hpp:329-378`).
-/

namespace Acc

/-- What an accumulator of the set sees of the set: for every abstract feature the accumulator providing it and
the state of that accumulator. -/
abbrev Env (F σ : Type) := F → Option (F × σ)

/-- The implementations (`tag::...::impl`) of the features: the constructor and `operator()`. -/
structure Impl (F σ A : Type) where
  init : F → σ
  upd : F → Env F σ → A → σ

/-- The state of a set: the accumulators and the reference counts of the droppable ones. -/
structure SetState (F σ : Type) where
  env : Env F σ
  refs : F → ℕ

/-- What a user can do with a set. -/
inductive SetOp (F A : Type) where
  | push (a : A)
  | drop (f : Tag F)

namespace Lib

variable {F σ A : Type} [DecidableEq F] (L : Lib F)

/-- The constructor (`accumulator_set.hpp:171-183`), for constructors of accumulators that do not look at other
accumulators. -/
def construct (I : Impl F σ A) (S req : List (Tag F)) : SetState F σ where
  env k := (S.find? fun t => decide (L.tkey t = k)).map fun t => (t.base, I.init t.base)
  refs := L.initRefs S req

/-- One accumulator is visited by `accumulator_visitor`; a droppable one does nothing when it is dropped
(`accumulators/droppable_accumulator.hpp:129-136, 155-158`). -/
def visit1 (I : Impl F σ A) (refs : F → ℕ) (a : A) (env : Env F σ) (t : Tag F) : Env F σ :=
  if t.drop && decide (refs (L.tkey t) = 0) then env
  else Function.update env (L.tkey t) (some (t.base, I.upd t.base env a))

/-- `operator()` (`accumulator_set.hpp:329-378`, `visit` `305-309`): the accumulators are visited in the order
of the list. -/
def pushEnv (I : Impl F σ A) (S : List (Tag F)) (refs : F → ℕ) (env : Env F σ) (a : A) : Env F σ :=
  S.foldl (L.visit1 I refs a) env

/-- One operation. -/
def step (I : Impl F σ A) (S : List (Tag F)) (s : SetState F σ) : SetOp F A → Res (SetState F σ)
  | .push a => .val { s with env := L.pushEnv I S s.refs s.env a }
  | .drop f => (L.dropFeature S s.refs f).bind fun c => .val { s with refs := c }

/-- A history of operations. -/
def runOps (I : Impl F σ A) (S : List (Tag F)) (s : SetState F σ) (ops : List (SetOp F A)) :
    Res (SetState F σ) :=
  ops.foldlM (L.step I S) s

end Lib

end Acc

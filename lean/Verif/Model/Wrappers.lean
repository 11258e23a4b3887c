import Verif.Model.Framework

/-!
# Construction of the accumulators, cached results, references to other sets

Paths are relative to `/repo/include/boost/accumulators/framework/`.
-/

namespace Acc

/-! ## Construction -/

/-- What happens while the list of accumulators is built: an accumulator is constructed (a temporary, from the
argument pack) or stored in the set. -/
inductive BuildEvent (F : Type) where
  | ctor (t : Tag F)
  | store (t : Tag F)
deriving DecidableEq, Repr

/-- `build_acc_list::call` (`depends_on.hpp:236-254`) evaluates `type(args, next::call(args, ...))`, where `type` is
`fusion::cons<Accumulator, ...>`: the first argument is converted to a temporary accumulator, the second is the
list of the others.  C++ leaves open which argument is evaluated first; `headFirst` is the compiler's choice, for
the remaining length of the list.  (Copies between temporaries are left out.) -/
def buildTemps {F : Type} (headFirst : ℕ → Bool) : List (Tag F) → List (BuildEvent F)
  | [] => []
  | t :: l =>
    if headFirst l.length then .ctor t :: buildTemps headFirst l else buildTemps headFirst l ++ [.ctor t]

/-- The constructor of `accumulator_set` (`accumulator_set.hpp:171-183`): only when the whole list has been built
is it moved into the member `accumulators`. -/
def buildSet {F : Type} (headFirst : ℕ → Bool) (S : List (Tag F)) : List (BuildEvent F) :=
  buildTemps headFirst S ++ S.map .store

/-! ## `with_cached_result` -/

section cached
variable {S A E R : Type}

/-- An accumulator as seen by `with_cached_result`: `E` is what it reads from the other accumulators of the set. -/
structure Inner (S A E R : Type) where
  upd : S → A → E → S
  result : S → E → R

/-- `droppable_accumulator<with_cached_result<Accumulator>>` (`accumulators/droppable_accumulator.hpp:108-255`).
`cache = none` is storage in which no result has been constructed. -/
structure Cached (S R : Type) where
  inner : S
  refs : ℕ
  cache : Option R

namespace Cached

/-- A freshly constructed object (`113-121`, `191-197`). -/
def fresh (s : S) : Cached S R := ⟨s, 0, none⟩

/-- `has_result` is `is_dropped` (`247-252`, `155-158`). -/
def hasResult (c : Cached S R) : Bool := decide (c.refs = 0)

/-- `get` (`242-245`): reading storage without an object is undefined. -/
def get (c : Cached S R) : Res R :=
  match c.cache with
  | some r => .val r
  | none => .ub

/-- The copy constructor (`198-206`, `123-127`). -/
def copy (c : Cached S R) : Res (Cached S R) :=
  if c.hasResult then c.get.bind fun r => .val ⟨c.inner, c.refs, some r⟩
  else .val ⟨c.inner, c.refs, none⟩

/-- `add_ref` (`138-142`). -/
def addRef (c : Cached S R) : Cached S R := { c with refs := c.refs + 1 }

/-- `drop` with `on_drop` (`144-153`, `219-226`): the assertion on the count, the assertion that there is no result
yet, and storing the result when the last reference goes. -/
def drop (I : Inner S A E R) (c : Cached S R) (e : E) : Res (Cached S R) :=
  if c.refs = 0 then .ub
  else if c.refs = 1 then
    if c.hasResult then .ub else .val ⟨c.inner, c.refs - 1, some (I.result c.inner e)⟩
  else .val { c with refs := c.refs - 1 }

/-- `operator()` (`129-136`). -/
def push (I : Inner S A E R) (c : Cached S R) (a : A) (e : E) : Cached S R :=
  if c.refs = 0 then c else { c with inner := I.upd c.inner a e }

/-- `result` (`228-232`). -/
def result (I : Inner S A E R) (c : Cached S R) (e : E) : Res R :=
  if c.hasResult then c.get else .val (I.result c.inner e)

/-- What can happen to the object; every event carries what the rest of the set looks like. -/
inductive Op (A : Type) where
  | push (a : A)
  | addRef
  | drop
  | copy

/-- One operation, when the rest of the set is `e`. -/
def step (I : Inner S A E R) (c : Cached S R) : Op A × E → Res (Cached S R)
  | (.push a, e) => .val (push I c a e)
  | (.addRef, _) => .val c.addRef
  | (.drop, e) => drop I c e
  | (.copy, _) => c.copy

def run (I : Inner S A E R) (c : Cached S R) (ops : List (Op A × E)) : Res (Cached S R) :=
  ops.foldlM (step I) c

end Cached

end cached

/-! ## References to other sets -/

section external
variable {Loc S A R V : Type} [DecidableEq Loc]

/-- A set with a `reference<Set, Tag>`, an `external<F, Tag, Set>` and a `value<V, Tag>` accumulator among others
(state `own`); the other sets live at locations `Loc`.  The lifetime of the other sets is not modelled. -/
structure RefWorld (Loc S V : Type) where
  heap : Loc → S
  own : S
  ref : Loc
  val : V

namespace RefWorld

/-- Construction with the named arguments `Tag = set`, `ValueTag = v`
(`accumulators/reference_accumulator.hpp:32-36`, `accumulators/value_accumulator.hpp:31-35`). -/
def construct (heap : Loc → S) (own : S) (ref : Loc) (v : V) : RefWorld Loc S V := ⟨heap, own, ref, v⟩

/-- Pushing to the referring set or to one of the others: the wrappers inherit the empty `operator()` of
`accumulator_base` (`accumulator_base.hpp:43-46`). -/
inductive Op (Loc A : Type) where
  | own (a : A)
  | other (l : Loc) (a : A)

def step (upd : S → A → S) (s : RefWorld Loc S V) : Op Loc A → RefWorld Loc S V
  | .own a => { s with own := upd s.own a }
  | .other l a => { s with heap := Function.update s.heap l (upd (s.heap l) a) }

def run (upd : S → A → S) (s : RefWorld Loc S V) (ops : List (Op Loc A)) : RefWorld Loc S V :=
  ops.foldl (step upd) s

/-- `external_impl::result` (`accumulators/external_accumulator.hpp:34-58`): of the set passed by name, if there is
one, else of the set held by reference. -/
def external (result : S → R) (s : RefWorld Loc S V) (named : Option Loc) : R :=
  match named with
  | some l => result (s.heap l)
  | none => result (s.heap s.ref)

/-- `value_accumulator_impl::result` (`accumulators/value_accumulator.hpp:37-40`). -/
def value (s : RefWorld Loc S V) : V := s.val

end RefWorld

end external

end Acc

import Verif.Model.Res

/-!
# Model of the framework: dependency resolution, update order, reference counts

Paths are relative to `/repo/include/boost/accumulators/framework/`.

Features are C++ types and everything here happens at compile time, except reference counting.  A *library*
says for every feature which abstract feature it provides (`feature_of`), which features it depends on
(`depends_on<...>`), and what replaces it in a set with weights (`as_weighted_feature`).  `droppable<F>` is the
pair of `F` and a flag.

Simplifications: the `as_feature` aliases (`feature(modifier)`) are resolved before, see `Model/Modifiers`;
nested sequences of features in the request list are flat; sets of external weights are in `Model/ExtWeights`.
-/

namespace Acc

/-- A feature as it appears in a request or a dependency list: `droppable<base>` or `base`. -/
structure Tag (F : Type) where
  base : F
  drop : Bool
deriving DecidableEq, Repr

/-- A library of features: specialisations of `feature_of` (`depends_on.hpp:67-71`), the `dependencies` of
each feature (`depends_on.hpp:156-172`) and the specialisations of `as_weighted_feature`
(`depends_on.hpp:58-63`).  `rank` bounds the depth of the dependencies of the features with a given abstract
feature; C++ has no such number, it serves as the bound of the recursions below. -/
structure Lib (F : Type) where
  key : F → F
  deps : F → List (Tag F)
  weighted : F → F
  rank : F → ℕ

/-- What every library must satisfy to compile: `feature_of` of an abstract feature is itself, dependencies are
not circular (whatever provides them), and weighted features provide the same abstract feature
(`BOOST_MPL_ASSERT` in `depends_on.hpp:288-294`). -/
structure Lib.Ok {F : Type} (L : Lib F) : Prop where
  idem : ∀ f, L.key (L.key f) = L.key f
  down : ∀ f, ∀ d ∈ L.deps f, L.rank (L.key d.base) < L.rank (L.key f)
  weighted_key : ∀ f, L.key (L.weighted f) = L.key f

namespace Lib

variable {F : Type} [DecidableEq F] (L : Lib F)

/-- `feature_of<tag>`; `droppable<F>` provides what `F` provides
(`accumulators/droppable_accumulator.hpp:319-323`). -/
def tkey (t : Tag F) : F := L.key t.base

/-- `tag::dependencies`; those of `droppable<F>` are made droppable
(`accumulators/droppable_accumulator.hpp:273-285`). -/
def tdeps (t : Tag F) : List (Tag F) :=
  if t.drop then (L.deps t.base).map fun d => ⟨d.base, true⟩ else L.deps t.base

/-- `as_feature_list<Features, Weight>` (`depends_on.hpp:283-309`): with weights every feature is replaced by
its weighted flavour, droppable or not (`accumulators/droppable_accumulator.hpp:311-315`). -/
def asList (w : Bool) (ts : List (Tag F)) : List (Tag F) :=
  if w then ts.map fun t => ⟨L.weighted t.base, t.drop⟩ else ts

/-- `insert_feature` (`depends_on.hpp:373-381`): a feature map is the list of its entries, in the order of
insertion; the key of an entry is determined by the feature. -/
def insertFeature (m : List (Tag F)) (t : Tag F) : List (Tag F) :=
  if m.any fun e => decide (L.tkey e = L.tkey t) then m else m ++ [t]

/-- `insert_dependencies` (`depends_on.hpp:383-395`); the first argument bounds the recursion. -/
def insertDeps (w : Bool) : ℕ → List (Tag F) → Tag F → List (Tag F)
  | 0, m, _ => m
  | n + 1, m, t =>
    (L.asList w (L.tdeps t)).foldl (fun m d => insertDeps w n (L.insertFeature m d) d) m

/-- `make_accumulator_tuple::feature_map` (`depends_on.hpp:411-420`). -/
def featureMap (w : Bool) (req : List (Tag F)) : List (Tag F) :=
  (L.asList w req).foldl L.insertFeature []

/-- `feature_map_with_dependencies` (`depends_on.hpp:423-429`).  `ord` is the order in which `mpl::map` is
iterated, which differs between compilers. -/
def withDeps (w : Bool) (ord : List (Tag F) → List (Tag F)) (req : List (Tag F)) : List (Tag F) :=
  (ord (L.featureMap w req)).foldl (fun m t => L.insertDeps w (L.rank (L.tkey t) + 1) m t)
    (L.featureMap w req)

/-- `collect_abstract_features` (`depends_on.hpp:121-131`) of the dependencies of a feature. -/
def collect : ℕ → F → List F
  | 0, _ => []
  | n + 1, f => (L.deps f).flatMap fun d => L.key d.base :: collect n d.base

/-- The base classes a feature inherits from `depends_on` (`depends_on.hpp:133-151`): the abstract features
collected from its dependencies and their base classes. -/
def basesN : ℕ → F → List F
  | 0, _ => []
  | n + 1, f => (L.collect (n + 1) f).flatMap fun g => g :: basesN n g

def bases (f : F) : List F := L.basesN (L.rank (L.key f) + 1) f

/-- `is_dependent_on<A, B>` (`depends_on.hpp:95-103`): is the abstract feature of `B` a base class of `A`? -/
def dependentOn (a b : Tag F) : Bool := decide (L.tkey b ∈ L.bases a.base)

end Lib

/-- `mpl::sort` is quicksort (`boost/mpl/aux_/sort_impl.hpp`, not part of this repository): the first element
is the pivot, the others are partitioned by `pred(x, pivot)` keeping their order.  The first argument bounds
the recursion. -/
def quickSort {α : Type} (pred : α → α → Bool) : ℕ → List α → List α
  | 0, _ => []
  | _ + 1, [] => []
  | n + 1, p :: l =>
    quickSort pred n (l.filter fun x => pred x p) ++ [p] ++ quickSort pred n (l.filter fun x => !pred x p)

namespace Lib

variable {F : Type} [DecidableEq F] (L : Lib F)

/-- `make_accumulator_tuple<Features, Sample, Weight>::sorted_feature_vector` (`depends_on.hpp:407-446`): the
accumulators of the set in the order in which they are stored and updated. -/
def accumulators (w : Bool) (ord : List (Tag F) → List (Tag F)) (req : List (Tag F)) : List (Tag F) :=
  let v := ord (L.withDeps w ord req)
  quickSort (fun x y => L.dependentOn y x) v.length v

/-- `fusion::find_if<matches_feature<Feature>>` (`accumulator_set.hpp:399-422`,
`depends_on.hpp:176-186`): the first accumulator of the list providing the abstract feature of `f`. -/
def find (S : List (Tag F)) (f : Tag F) : Option (Tag F) :=
  S.find? fun a => decide (L.tkey f = L.tkey a)

/-- `visit_if<contains_feature_of_<Features>>` (`accumulator_set.hpp:315-320`, `depends_on.hpp:188-214`): the
accumulators of the list providing one of the features. -/
def visitIf (S : List (Tag F)) (fs : List (Tag F)) : List (Tag F) :=
  S.filter fun a => decide (L.tkey a ∈ fs.map L.tkey)

/-! ## Reference counts -/

/-- `add_ref_visitor` (`accumulators/droppable_accumulator.hpp:42-54`): the accumulator itself, then
recursively every accumulator of the set providing a dependency.  Reference counts are kept per abstract
feature (a set has one accumulator for each, `C42_unique`); `add_ref` does nothing on an accumulator that is
not droppable (`accumulator_base.hpp:50-52`). -/
def addRef (S : List (Tag F)) : ℕ → (F → ℕ) → Tag F → (F → ℕ)
  | 0, c, _ => c
  | n + 1, c, t =>
    (L.visitIf S (L.tdeps t)).foldl (addRef S n)
      (if t.drop then Function.update c (L.tkey t) (c (L.tkey t) + 1) else c)

/-- The constructor of `accumulator_set` (`accumulator_set.hpp:171-183`): counts start at 0 (`119`), then the
accumulators providing user-specified features are visited. -/
def initRefs (S req : List (Tag F)) : F → ℕ :=
  (L.visitIf S req).foldl (fun c t => L.addRef S (L.rank (L.tkey t) + 1) c t) fun _ => 0

/-- `droppable_accumulator_base::drop` (`accumulators/droppable_accumulator.hpp:144-153`): with a zero count the
assertion fails.  (The callback `on_drop` is in `Model/AccSet`.) -/
def drop1 (c : F → ℕ) (t : Tag F) : Res (F → ℕ) :=
  if t.drop then
    if c (L.tkey t) = 0 then .ub else .val (Function.update c (L.tkey t) (c (L.tkey t) - 1))
  else .val c

/-- `drop_visitor` (`accumulators/droppable_accumulator.hpp:78-92`): only droppable accumulators are dropped, and
only for those the visitor goes on to the dependencies. -/
def dropRef (S : List (Tag F)) : ℕ → (F → ℕ) → Tag F → Res (F → ℕ)
  | 0, c, _ => .val c
  | n + 1, c, t =>
    if t.drop then do
      let c' ← L.drop1 c t
      (L.visitIf S (L.tdeps t)).foldlM (dropRef S n) c'
    else .val c

/-- `accumulator_set::drop<Feature>` (`accumulator_set.hpp:426-445`): the accumulator providing the feature is
dropped; then the dependencies *of the abstract feature* — not those of the accumulator — are visited. -/
def dropFeature (S : List (Tag F)) (c : F → ℕ) (f : Tag F) : Res (F → ℕ) :=
  match L.find S f with
  | none => .ub
  | some t => do
    let c' ← L.drop1 c t
    (L.visitIf S (L.tdeps ⟨L.tkey f, false⟩)).foldlM (fun c a => L.dropRef S (L.rank (L.tkey a) + 1) c a) c'

end Lib

end Acc

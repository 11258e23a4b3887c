import Verif.Model.AccSet

/-! # Specification: what a set of features should contain and in which order

Stated in terms of the dependency lists only. -/

namespace Acc.Spec

variable {F : Type} [DecidableEq F]

/-- `d` is a declared dependency of `t`, directly or indirectly; in a set with weights (`w`) every dependency is
replaced by its weighted flavour. -/
inductive Needs (L : Lib F) (w : Bool) : Tag F → Tag F → Prop
  | direct {t d : Tag F} : d ∈ L.asList w (L.tdeps t) → Needs L w t d
  | step {t d e : Tag F} : d ∈ L.asList w (L.tdeps t) → Needs L w d e → Needs L w t e

/-- `r` is the first in the list among those providing the same abstract feature. -/
def FirstOfKind (L : Lib F) (req : List (Tag F)) (r : Tag F) : Prop :=
  ∃ a b, req = a ++ r :: b ∧ ∀ q ∈ a, L.tkey q ≠ L.tkey r

/-- `a` stands before `b` in the list. -/
def Before {α : Type} (l : List α) (a b : α) : Prop :=
  ∃ x y z, l = x ++ a :: y ++ b :: z

/-- Abstract feature `g` is a (direct or indirect) dependency of feature `f`, where an abstract feature counts
with the dependencies of its default provider (the feature of that name). -/
inductive Ancestor (L : Lib F) : F → F → Prop
  | direct {f : F} {d : Tag F} : d ∈ L.deps f → Ancestor L f (L.key d.base)
  | dep {f g : F} {d : Tag F} : d ∈ L.deps f → Ancestor L d.base g → Ancestor L f g
  | default {f g : F} {d : Tag F} : d ∈ L.deps f → Ancestor L (L.key d.base) g → Ancestor L f g

/-- Of the accumulators `S` of a set, `t` provides a feature that `u` declares as a dependency, or that another
accumulator of the set used by `u` declares. -/
inductive Uses (L : Lib F) (S : List (Tag F)) : Tag F → Tag F → Prop
  | direct {u t d : Tag F} : t ∈ S → d ∈ L.deps u.base → L.tkey d = L.tkey t → Uses L S u t
  | step {u a t d : Tag F} : a ∈ S → d ∈ L.deps u.base → L.tkey d = L.tkey a → Uses L S a t → Uses L S u t

/-- Some tag of the list stands for abstract feature `k`. -/
def Mentions (L : Lib F) (ts : List (Tag F)) (k : F) : Prop := ∃ r ∈ ts, L.tkey r = k

/-- Every accumulator stands after the accumulators of the list it uses. -/
def Ordered (L : Lib F) (S : List (Tag F)) : Prop := ∀ u ∈ S, ∀ t ∈ S, Uses L S u t → Before S t u

/-- Abstract feature `k` can be reached from feature `f` in a set: `f` declares it, or the accumulator that
provides a declared dependency reaches it. -/
inductive Visible {σ : Type} (L : Lib F) (env : Env F σ) : F → F → Prop
  | dep {f : F} {d : Tag F} : d ∈ L.deps f → Visible L env f (L.tkey d)
  | via {f g k : F} {d : Tag F} {s : σ} : d ∈ L.deps f → env (L.tkey d) = some (g, s) → Visible L env g k →
      Visible L env f k

/-- A function of the set, computed by an accumulator for feature `f`, looks only at this accumulator and at the
features visible from it. -/
def Local {σ ρ : Type} (L : Lib F) (obs : F → Env F σ → ρ) : Prop :=
  ∀ f env env', env (L.key f) = env' (L.key f) → (∀ k, Visible L env f k → env k = env' k) →
    obs f env = obs f env'

end Acc.Spec

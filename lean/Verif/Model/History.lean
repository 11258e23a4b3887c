import Verif.Model.Res

/-!
# Histories of an accumulator set

A user's interaction with one accumulator set: pushing samples (`accumulator_set.hpp:329-378`,
`operator()`) and extracting results (`accumulator_set.hpp:482-538`, `extract_result`), in any
order.  Extraction may change `mutable` members, so it is a state transformer too.
-/

namespace Acc

universe u v w

/-- One call on an accumulator set: push a sample or extract a result (with query argument `q`). -/
inductive Op (X : Type u) (Q : Type v) where
  | push (x : X)
  | query (q : Q)
  deriving Repr, DecidableEq

/-- An accumulator set as seen by a user. -/
structure Machine (X : Type u) (Q : Type u) (R : Type u) where
  St : Type v
  init : St
  push : St → X → St
  query : St → Q → St × R

namespace Machine

variable {X Q R : Type u} (M : Machine.{u, v} X Q R)

/-- Effect of one call on the state. -/
def exec1 (s : M.St) : Op X Q → M.St
  | .push x => M.push s x
  | .query q => (M.query s q).1

/-- State after a history of calls. -/
def exec (s : M.St) (h : List (Op X Q)) : M.St := h.foldl M.exec1 s

/-- What a query `q` returns after history `h`. -/
def answer (h : List (Op X Q)) (q : Q) : R := (M.query (M.exec M.init h) q).2

end Machine

/-- The samples pushed in a history, in order. -/
def pushes {X : Type u} {Q : Type v} : List (Op X Q) → List X
  | [] => []
  | .push x :: h => x :: pushes h
  | .query _ :: h => pushes h

/-- The history that only pushes `xs`. -/
def onlyPushes {X : Type u} {Q : Type v} (xs : List X) : List (Op X Q) := xs.map .push

/-- Extraction is transparent: what a query returns after any history depends only on the samples
pushed, not on the queries made in between. -/
def Machine.Transparent {X Q R : Type u} (M : Machine.{u, v} X Q R) : Prop :=
  ∀ (h : List (Op X Q)) (q : Q), M.answer h q = M.answer (onlyPushes (pushes h)) q

/-! ## Sets whose calls can go wrong -/

/-- An accumulator set whose pushes and extractions may have an abnormal outcome. -/
structure RMachine (X Q S R : Type) where
  init : S
  push : S → X → Res S
  query : S → Q → Res (S × R)

namespace RMachine

variable {X Q S R : Type} (M : RMachine X Q S R)

/-- Effect of one call on the state. -/
def exec1 (s : S) : Op X Q → Res S
  | .push x => M.push s x
  | .query q => do
    let r ← M.query s q
    pure r.1

/-- State after a history of calls; the first abnormal outcome ends the history. -/
def exec (s : S) : List (Op X Q) → Res S
  | [] => .val s
  | o :: os => do
    let s' ← M.exec1 s o
    exec s' os

/-- What a query `q` returns after history `h` on a freshly constructed set. -/
def answer (h : List (Op X Q)) (q : Q) : Res R := do
  let s ← M.exec M.init h
  let r ← M.query s q
  pure r.2

/-- Everything a user sees of a history: the results of the extractions in order; an abnormal outcome of a call
ends the list. -/
def trace (s : S) : List (Op X Q) → List (Res R)
  | [] => []
  | .push x :: h =>
    match M.push s x with
    | .val s' => trace s' h
    | e => [e.bind fun _ => .ub]
  | .query q :: h =>
    match M.query s q with
    | .val r => .val r.2 :: trace r.1 h
    | e => [e.bind fun _ => .ub]

/-- Rule of induction for invariants: if every push extends a relation between states and samples and
every query preserves it, it holds after every history. -/
theorem exec_inv (I : S → List X → Prop)
    (hpush : ∀ s xs x, I s xs → ∃ s', M.push s x = .val s' ∧ I s' (xs ++ [x]))
    (hquery : ∀ s xs q, I s xs → ∃ s' r, M.query s q = .val (s', r) ∧ I s' xs)
    (s : S) (xs : List X) (h0 : I s xs) (h : List (Op X Q)) :
    ∃ s', M.exec s h = .val s' ∧ I s' (xs ++ pushes h) := by
  induction h generalizing s xs with
  | nil => exact ⟨s, rfl, by simpa [pushes] using h0⟩
  | cons o os ih =>
    cases o with
    | push x =>
      obtain ⟨s', e, i⟩ := hpush s xs x h0
      obtain ⟨s'', e', i'⟩ := ih s' (xs ++ [x]) i
      refine ⟨s'', ?_, by simpa [pushes] using i'⟩
      simp only [exec, exec1, e, Res.val_bind, e']
    | query q =>
      obtain ⟨s', r, e, i⟩ := hquery s xs q h0
      obtain ⟨s'', e', i'⟩ := ih s' xs i
      refine ⟨s'', ?_, by simpa [pushes] using i'⟩
      simp only [exec, exec1, e, Res.val_bind, Res.pure_eq, e']

/-- The same for histories that may go wrong: the relation holds whenever the history comes to an end. -/
theorem exec_inv_of_val (I : S → List X → Prop)
    (hpush : ∀ s xs x s', I s xs → M.push s x = .val s' → I s' (xs ++ [x]))
    (hquery : ∀ s xs q s' r, I s xs → M.query s q = .val (s', r) → I s' xs)
    (s : S) (xs : List X) (h0 : I s xs) (h : List (Op X Q)) {t : S} (e : M.exec s h = .val t) :
    I t (xs ++ pushes h) := by
  induction h generalizing s xs with
  | nil =>
    simp only [exec, Res.val.injEq] at e
    subst e
    simpa [pushes] using h0
  | cons o os ih =>
    cases o with
    | push x =>
      simp only [exec, exec1] at e
      cases hp : M.push s x with
      | val s' =>
        rw [hp, Res.val_bind] at e
        simpa [pushes] using ih s' (xs ++ [x]) (hpush s xs x s' h0 hp) e
      | _ => rw [hp] at e; cases e
    | query q =>
      simp only [exec, exec1] at e
      cases hq : M.query s q with
      | val r =>
        rw [hq, Res.val_bind, Res.pure_eq, Res.val_bind] at e
        simpa [pushes] using ih r.1 xs (hquery s xs q r.1 r.2 h0 hq) e
      | _ => rw [hq] at e; cases e

end RMachine

end Acc

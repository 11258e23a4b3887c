import Verif.Model.Res
import Mathlib.Order.Defs.LinearOrder
import Mathlib.Data.List.Basic

/-!
# Containers with checked access

`std::vector` members as lists.  Element access outside the bounds is undefined behaviour.
-/

namespace Acc

variable {α : Type}

/-- `v[i]`, `*(v.begin() + i)`: undefined outside the bounds. -/
def getAt (l : List α) (i : ℕ) : Res α :=
  match l[i]? with
  | some a => .val a
  | none => .ub

/-- `v[i] = a`. -/
def setAt (l : List α) (i : ℕ) (a : α) : Res (List α) :=
  if i < l.length then .val (l.set i a) else .ub

/-- `v[i] = f(v[i])` (for `+=`, `++`). -/
def modifyAt (l : List α) (i : ℕ) (f : α → α) : Res (List α) := do
  let a ← getAt l i
  setAt l i (f a)

/-- `std::distance(v.begin(), std::upper_bound(v.begin(), v.end(), x))`: the first position whose
element is greater than `x`.  The standard requires the range to be partitioned (elements not greater
than `x` first); otherwise the call is undefined. -/
def upperBound [LT α] [DecidableLT α] (l : List α) (x : α) : Res ℕ :=
  let k := l.findIdx (fun e => decide (x < e))
  if (l.drop k).all (fun e => decide (x < e)) then .val k else .ub

/-- A `for` loop with an accumulating state. -/
def foldRes {S : Type} (f : S → α → Res S) (s : S) : List α → Res S
  | [] => .val s
  | x :: xs => do
    let s' ← f s x
    foldRes f s' xs

/-- A `for` loop writing one result per iteration. -/
def mapRes {β : Type} (f : α → Res β) : List α → Res (List β)
  | [] => .val []
  | x :: xs => do
    let b ← f x
    let bs ← mapRes f xs
    pure (b :: bs)

theorem getAt_lt {l : List α} {i : ℕ} (h : i < l.length) : getAt l i = .val l[i] := by
  simp [getAt, h]

theorem getAt_ge {l : List α} {i : ℕ} (h : l.length ≤ i) : getAt l i = .ub := by
  simp [getAt, h]

theorem setAt_lt {l : List α} {i : ℕ} (h : i < l.length) (a : α) :
    setAt l i a = .val (l.set i a) := by
  simp [setAt, h]

theorem modifyAt_lt {l : List α} {i : ℕ} (h : i < l.length) (f : α → α) :
    modifyAt l i f = .val (l.set i (f l[i])) := by
  simp [modifyAt, getAt_lt h, setAt_lt h]

theorem upperBound_sorted [LinearOrder α] {l : List α} (h : l.Pairwise (· ≤ ·)) (x : α) :
    upperBound l x = .val (l.findIdx (fun e => decide (x < e))) := by
  unfold upperBound
  rw [if_pos]
  rw [List.all_eq_true]
  intro e he
  obtain ⟨i, hi, rfl⟩ := List.mem_iff_getElem.mp he
  rw [List.getElem_drop]
  rw [List.length_drop] at hi
  set k := l.findIdx (fun e => decide (x < e)) with hk
  have hkl : k < l.length := by omega
  have h1 : x < l[k] := by
    have := List.findIdx_getElem (w := hkl)
    simpa using this
  rcases Nat.eq_zero_or_pos i with rfl | hpos
  · simpa using h1
  · have := List.pairwise_iff_getElem.mp h k (k + i) hkl (by omega) (by omega)
    simpa using lt_of_lt_of_le h1 this

theorem mapRes_val {β : Type} {f : α → Res β} {g : α → β} {l : List α}
    (h : ∀ a ∈ l, f a = .val (g a)) : mapRes f l = .val (l.map g) := by
  induction l with
  | nil => rfl
  | cons a l ih =>
    simp only [mapRes, h a (by simp), Res.val_bind, ih (fun b hb => h b (by simp [hb])),
      Res.pure_eq, List.map_cons]

theorem foldRes_append {S : Type} (f : S → α → Res S) (s : S) (l r : List α) :
    foldRes f s (l ++ r) = (foldRes f s l >>= fun s' => foldRes f s' r) := by
  induction l generalizing s with
  | nil => rfl
  | cons a l ih =>
    simp only [List.cons_append, foldRes]
    cases f s a <;> simp [ih]

end Acc

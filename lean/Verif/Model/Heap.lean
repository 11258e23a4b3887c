import Mathlib.Data.List.Sort
import Mathlib.Data.List.Basic

/-!
# The standard heap algorithms as a contract

`tail.hpp` calls `std::push_heap`, `std::pop_heap` and `std::sort_heap`.  Their source is not part
of the repository, so they are modelled by what the C++ standard promises ([alg.heap.operations]):
the theorems hold for *every* implementation fulfilling the contract `HeapImpl`.  `HeapImpl.simple`
shows that the contract can be fulfilled.
-/

namespace Acc

universe u

/-- The comparison handed to the algorithm is a strict weak order (a precondition in the C++
standard). -/
structure StrictWeak {ι : Type u} (c : ι → ι → Bool) : Prop where
  asymm : ∀ a b, c a b = true → c b a = false
  negTrans : ∀ a b d, c a b = false → c b d = false → c a d = false

/-- [alg.heap.operations]/1: `comp(a[(i-1)/2], a[i])` is false for every `0 < i < n`. -/
def IsHeap {ι : Type u} (c : ι → ι → Bool) (l : List ι) : Prop :=
  ∀ i, 0 < i → ∀ (h : i < l.length), c (l[(i - 1) / 2]'(by omega)) l[i] = false

/-- Any implementation of the heap algorithms that conforms to the C++ standard. -/
structure HeapImpl (ι : Type u) where
  /-- `std::push_heap(first, last, comp)` -/
  push : (ι → ι → Bool) → List ι → List ι
  /-- `std::pop_heap(first, last, comp)` -/
  pop : (ι → ι → Bool) → List ι → List ι
  /-- `std::sort_heap(first, last, comp)` -/
  sort : (ι → ι → Bool) → List ι → List ι
  push_perm : ∀ c l a, StrictWeak c → IsHeap c l → (push c (l ++ [a])).Perm (l ++ [a])
  push_heap : ∀ c l a, StrictWeak c → IsHeap c l → IsHeap c (push c (l ++ [a]))
  /-- `pop_heap` swaps the first element to the back and makes the rest a heap. -/
  pop_spec : ∀ c a l, StrictWeak c → IsHeap c (a :: l) →
    ∃ l', pop c (a :: l) = l' ++ [a] ∧ l'.Perm l ∧ IsHeap c l'
  sort_perm : ∀ c l, StrictWeak c → IsHeap c l → (sort c l).Perm l
  sort_sorted : ∀ c l, StrictWeak c → IsHeap c l → (sort c l).Pairwise (fun a b => c b a = false)

section
variable {ι : Type u}

theorem isHeap_of_pairwise {c : ι → ι → Bool} {l : List ι}
    (h : l.Pairwise (fun a b => c a b = false)) : IsHeap c l := by
  intro i hi hl
  exact List.pairwise_iff_getElem.mp h _ _ _ hl (by omega)

/-- In a heap the first element precedes every element. -/
theorem IsHeap.root {c : ι → ι → Bool} (hc : StrictWeak c) {a : ι} {l : List ι}
    (h : IsHeap c (a :: l)) : ∀ b ∈ a :: l, c a b = false := by
  have key : ∀ i, ∀ (hi : i < (a :: l).length), c a ((a :: l)[i]) = false := by
    intro i
    induction i using Nat.strong_induction_on with
    | _ i ih =>
      intro hi
      rcases Nat.eq_zero_or_pos i with rfl | hpos
      · simp only [List.getElem_cons_zero]
        by_contra hne
        have : c a a = true := by simpa using hne
        have := hc.asymm a a this
        simp_all
      · exact hc.negTrans _ _ _ (ih ((i - 1) / 2) (by omega) (by omega)) (h i hpos hi)
  intro b hb
  obtain ⟨i, hi, rfl⟩ := List.getElem_of_mem hb
  exact key i hi

/-- `c a b = false`, read as a total preorder. -/
private def le (c : ι → ι → Bool) (a b : ι) : Prop := c a b = false
private instance (c : ι → ι → Bool) : DecidableRel (le c) := fun a b => by
  unfold le; infer_instance

private theorem sorted_le {c : ι → ι → Bool} (hc : StrictWeak c) (l : List ι) :
    (l.insertionSort (le c)).Pairwise (le c) := by
  have : Std.Total (le c) := ⟨fun a b => by
    by_cases h : c a b = true
    · exact Or.inr (hc.asymm _ _ h)
    · exact Or.inl (by simpa [le] using h)⟩
  have : IsTrans ι (le c) := ⟨fun a b d h1 h2 => hc.negTrans _ _ _ h1 h2⟩
  exact List.pairwise_insertionSort _ _

/-- A (slow) conforming implementation: keep the heap sorted. -/
def HeapImpl.simple : HeapImpl ι where
  push c l := l.insertionSort (le c)
  pop c l := match l with
    | [] => []
    | a :: l => l.insertionSort (le c) ++ [a]
  sort c l := (l.insertionSort (le c)).reverse
  push_perm c l a _ _ := List.perm_insertionSort _ _
  push_heap c l a hc _ := isHeap_of_pairwise (sorted_le hc _)
  pop_spec c a l hc _ :=
    ⟨_, rfl, List.perm_insertionSort _ _, isHeap_of_pairwise (sorted_le hc _)⟩
  sort_perm c l _ _ := (List.reverse_perm _).trans (List.perm_insertionSort _ _)
  sort_sorted c l hc _ := by
    rw [List.pairwise_reverse]
    exact sorted_le hc _

theorem HeapImpl.simple_sort_sorted {c : ι → ι → Bool} (hc : StrictWeak c) (l : List ι) :
    ((HeapImpl.simple : HeapImpl ι).sort c l).Pairwise (fun a b => c b a = false) := by
  simp only [HeapImpl.simple]
  rw [List.pairwise_reverse]
  exact sorted_le hc _

end

end Acc

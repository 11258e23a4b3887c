import Verif.Proofs.Tail
import Verif.Spec.Stats
import Mathlib.Tactic.FieldSimp
import Mathlib.Tactic.Ring
import Mathlib.Tactic.NormNum

/-!
# Properties of the tail cache and its estimators (C15–C21, tail part of C10, C54, C55, C56)

`H : HeapImpl ℕ` ranges over all standard-conforming heap implementations, `h` over all histories
of pushes and extractions, `(pushes h).map Prod.fst` are the samples pushed.
-/

set_option linter.unusedSectionVars false

namespace Acc

section cache
variable {α : Type} [LinearOrder α] {V : Type}

/-- Everything known about the two extractors at once (helper). -/
theorem extract_both (H : HeapImpl ℕ) (side : Side) {k : ℕ} (hk : 1 ≤ k) (x0 : α) (v0 : V)
    (h : List (Op (α × V) Unit)) :
    ∃ (s : TailSt α V) (out : List (α × V)), tailRun H side k x0 v0 h = .val s ∧
      tailResult H side s = .val (out.map Prod.fst) ∧
      tailVariateResult H side s = .val (out.map Prod.snd) ∧
      out.map Prod.fst = Spec.extremes side k ((pushes h).map Prod.fst) ∧
      ∃ D, (out ++ D).Perm (pushes h) ∧ ∀ d ∈ D, ∀ c ∈ out, Spec.geExt side c.1 d.1 := by
  obtain ⟨s, slots, hr, hi⟩ := tailRun_inv H side hk x0 v0 h
  obtain ⟨out, h1, h2, h3, h4, D, h5, h6⟩ := hi.result H
  refine ⟨s, out, hr, h1, h2, ?_, D, h5, h6⟩
  have hp := h5.map Prod.fst
  rw [List.map_append] at hp
  refine eq_extremes hp (by simpa using h3) (List.pairwise_map.mpr h4) ?_
  intro d hd c hc
  obtain ⟨d', hd', rfl⟩ := List.mem_map.mp hd
  obtain ⟨c', hc', rfl⟩ := List.mem_map.mp hc
  exact h6 d' hd' c' hc'

/-- **C15** `tail(acc)` is the list of the `k` most extreme samples of the whole stream, most extreme
first. -/
theorem C15_tail (H : HeapImpl ℕ) (side : Side) {k : ℕ} (hk : 1 ≤ k) (x0 : α) (v0 : V)
    (h : List (Op (α × V) Unit)) :
    extractTail H side k x0 v0 h = .val (Spec.extremes side k ((pushes h).map Prod.fst)) := by
  obtain ⟨s, out, hr, h1, _, h3, _⟩ := extract_both H side hk x0 v0 h
  simp only [extractTail, hr, Res.val_bind, h1, h3]

example : Spec.extremes Side.right 2 ([3, 1, 4, 1, 5] : List ℤ) = [5, 4] := by decide
example : Spec.extremes Side.left 3 ([3, 1, 4, 1, 5] : List ℤ) = [1, 1, 3] := by decide
example : extractTail HeapImpl.simple Side.left 3 (0 : ℤ) ()
    [.push (3, ()), .push (1, ()), .query (), .push (4, ()), .push (1, ()), .query (),
     .push (5, ())] = .val [1, 1, 3] := C15_tail _ _ (by norm_num) _ _ _

/-- **C15** (meaning of `Spec.extremes`) it is sorted, has `min n k` entries, is part of the stream,
and no sample left out is more extreme than one kept. -/
theorem C15_extremes (side : Side) (k : ℕ) (xs : List α) :
    (Spec.extremes side k xs).length = min k xs.length ∧
    (Spec.extremes side k xs).Pairwise (Spec.geExt side) ∧
    ∃ rest, (Spec.extremes side k xs ++ rest).Perm xs ∧
      ∀ r ∈ rest, ∀ e ∈ Spec.extremes side k xs, Spec.geExt side e r := by
  have hs := byExtremity_sorted side xs
  have hp := byExtremity_perm side xs
  refine ⟨by simp [Spec.extremes, hp.length_eq], hs.sublist (List.take_sublist _ _),
    (Spec.byExtremity side xs).drop k, ?_, ?_⟩
  · unfold Spec.extremes; rw [List.take_append_drop]; exact hp
  · intro r hr e he
    rw [← List.take_append_drop k (Spec.byExtremity side xs), List.pairwise_append] at hs
    exact hs.2.2 e he r hr

/-- **C15/C56** A cache of size 0 is not legal: the first sample reads `indices[0]` of an empty
vector. -/
theorem C15_cache_size_zero_ub (H : HeapImpl ℕ) (side : Side) (x0 : α) (v0 : V) (p : α × V)
    (h : List (Op (α × V) Unit)) : extractTail H side 0 x0 v0 (.push p :: h) = .ub := by
  simp [extractTail, tailRun, tailExec, tailStep, tailPush, tailInit]

/-- **C16** Asking for the tail, at any points of the history, changes no later answer. -/
theorem C16_tail_transparent (H : HeapImpl ℕ) (side : Side) {k : ℕ} (hk : 1 ≤ k) (x0 : α) (v0 : V)
    (h : List (Op (α × V) Unit)) :
    extractTail H side k x0 v0 h = extractTail H side k x0 v0 (onlyPushes (pushes h)) := by
  rw [C15_tail H side hk, C15_tail H side hk, pushes_onlyPushes]

/-- **C17** Position by position, `tail_variate(acc)` lists the variate pushed together with the
sample listed by `tail(acc)`: the pairs read off are pairs that were pushed, each used at most as
often as it was pushed. -/
theorem C17_aligned (H : HeapImpl ℕ) (side : Side) {k : ℕ} (hk : 1 ≤ k) (x0 : α) (v0 : V)
    (h : List (Op (α × V) Unit)) :
    ∃ t v, extractTail H side k x0 v0 h = .val t ∧ extractTailVariate H side k x0 v0 h = .val v ∧
      t.length = v.length ∧ (t.zip v).Subperm (pushes h) := by
  obtain ⟨s, out, hr, h1, h2, _, D, h5, _⟩ := extract_both H side hk x0 v0 h
  refine ⟨out.map Prod.fst, out.map Prod.snd, by simp only [extractTail, hr, Res.val_bind, h1],
    by simp only [extractTailVariate, hr, Res.val_bind, h2], by simp, ?_⟩
  have e : (out.map Prod.fst).zip (out.map Prod.snd) = out := by
    rw [List.zip_map', List.map_id'']; intro p; rfl
  rw [e]
  exact (List.sublist_append_left out D).subperm.trans h5.subperm

/-- **C17** When all samples differ, the variates are determined exactly: order the pushed pairs by
extremity of the sample and take the first `k` variates. -/
theorem C17_distinct (H : HeapImpl ℕ) (side : Side) {k : ℕ} (hk : 1 ≤ k) (x0 : α) (v0 : V)
    (h : List (Op (α × V) Unit)) (hnd : ((pushes h).map Prod.fst).Nodup)
    (sortedPairs : List (α × V)) (hp : sortedPairs.Perm (pushes h))
    (hs : sortedPairs.Pairwise (fun a b => Spec.geExt side a.1 b.1)) :
    extractTailVariate H side k x0 v0 h = .val ((sortedPairs.take k).map Prod.snd) := by
  obtain ⟨s, out, hr, h1, h2, h3, D, h5, _⟩ := extract_both H side hk x0 v0 h
  simp only [extractTailVariate, hr, Res.val_bind, h2]
  have hfst : (sortedPairs.take k).map Prod.fst = out.map Prod.fst := by
    rw [h3, List.map_take, Spec.extremes]
    congr 1
    exact byExtremity_unique (hp.map _) (List.pairwise_map.mpr hs)
  have hinj : ∀ a ∈ pushes h, ∀ b ∈ pushes h, a.1 = b.1 → a = b := by
    intro a ha b hb hab
    exact List.inj_on_of_nodup_map hnd ha hb hab
  have hout : out = sortedPairs.take k := by
    apply List.ext_getElem
    · simpa using (congrArg List.length hfst).symm
    · intro i hi1 hi2
      apply hinj
      · exact h5.mem_iff.mp (List.mem_append_left _ (List.getElem_mem _))
      · exact hp.mem_iff.mp (List.mem_of_mem_take (List.getElem_mem _))
      · have hl : i < (out.map Prod.fst).length := by simpa using hi1
        have h' : i < ((sortedPairs.take k).map Prod.fst).length := by
          rw [List.length_map]; exact hi2
        have e1 : (out.map Prod.fst)[i] = ((sortedPairs.take k).map Prod.fst)[i]'h' := by
          simp only [← hfst]
        simpa using e1
  rw [hout]

example : extractTailVariate HeapImpl.simple Side.right 2 (0 : ℤ) 'z'
    [.push (3, 'a'), .query (), .push (1, 'b'), .push (4, 'c')] = .val ['c', 'a'] :=
  C17_distinct _ _ (by norm_num) _ _ _ (by decide) [(4, 'c'), (3, 'a'), (1, 'b')] (by decide)
    (by decide)

/-- **C16/C28** When all samples differ, asking for results changes no later list of variates
either.  Missing for the full claim: streams with equal samples, see
`C16_variate_ties_order_dependent`. -/
theorem C16_variate_transparent_partial (H : HeapImpl ℕ) (side : Side) {k : ℕ} (hk : 1 ≤ k) (x0 : α)
    (v0 : V) (h : List (Op (α × V) Unit)) (hnd : ((pushes h).map Prod.fst).Nodup) :
    extractTailVariate H side k x0 v0 h =
      extractTailVariate H side k x0 v0 (onlyPushes (pushes h)) := by
  let r : α × V → α × V → Prop := fun a b => Spec.geExt side a.1 b.1
  have : DecidableRel r := fun a b => inferInstanceAs (Decidable (Spec.geExt side a.1 b.1))
  have : Std.Total r := ⟨fun a b => Std.Total.total (r := Spec.geExt side) a.1 b.1⟩
  have : IsTrans (α × V) r := ⟨fun a b c h1 h2 =>
    IsTrans.trans (r := Spec.geExt side) a.1 b.1 c.1 h1 h2⟩
  have hp := List.perm_insertionSort r (pushes h)
  have hs := List.pairwise_insertionSort r (pushes h)
  rw [C17_distinct H side hk x0 v0 h hnd _ hp hs,
    C17_distinct H side hk x0 v0 (onlyPushes (pushes h)) (by simpa using hnd) _
      (by simpa using hp) hs]

end cache

/-- A second conforming heap implementation, whose `sort` breaks ties the other way round. -/
def HeapImpl.simple' : HeapImpl ℕ :=
  { (HeapImpl.simple : HeapImpl ℕ) with
    sort := fun c l => HeapImpl.simple.sort c l.reverse
    sort_perm := fun c l hc hl => by
      have h1 : (HeapImpl.simple.sort c l.reverse).Perm l.reverse := by
        simp only [HeapImpl.simple]
        exact (List.reverse_perm _).trans (List.perm_insertionSort _ _)
      exact h1.trans (List.reverse_perm _)
    sort_sorted := fun c l hc hl => HeapImpl.simple_sort_sorted hc _ }

/-- **C16/C28 fail for tied samples**: with a conforming heap implementation, which of several
variates belonging to equal samples survives in the cache depends on whether results were extracted
in between. -/
theorem C16_variate_ties_order_dependent :
    ∃ (H : HeapImpl ℕ) (h : List (Op (ℤ × ℕ) Unit)),
      extractTailVariate H Side.right 2 0 0 h ≠
        extractTailVariate H Side.right 2 0 0 (onlyPushes (pushes h)) := by
  refine ⟨HeapImpl.simple', [.push (1, 10), .push (1, 20), .query (), .push (2, 30)], ?_⟩
  have h1 : extractTailVariate HeapImpl.simple' Side.right 2 (0 : ℤ) 0
    [.push (1, 10), .push (1, 20), .query (), .push (2, 30)] = .val [30, 10] := by decide
  have h2 : extractTailVariate HeapImpl.simple' Side.right 2 (0 : ℤ) 0
    (onlyPushes (pushes ([.push (1, 10), .push (1, 20), .query (), .push (2, 30)] :
      List (Op (ℤ × ℕ) Unit)))) = .val [30, 20] := by decide
  rw [h1, h2]
  decide

end Acc

import Verif.Model.FullSet
import Verif.Proofs.TailMap
import Verif.Proofs.Pot

/-!
# The tail and what is cached along with it, kept by separate accumulators
-/

set_option linter.unusedSectionVars false

namespace Acc

/-- One more push. -/
theorem RMachine.exec_snoc {X Q S R : Type} (M : RMachine X Q S R) (s : S) (xs : List X) (x : X) :
    M.exec s (onlyPushes (xs ++ [x])) = (M.exec s (onlyPushes xs)).bind fun s' => M.push s' x := by
  have e : (onlyPushes (xs ++ [x]) : List (Op X Q)) = onlyPushes xs ++ [.push x] := by simp [onlyPushes]
  rw [e, RMachine.exec_append]
  show (M.exec s (onlyPushes xs)).bind _ = _
  congr 1
  funext s'
  show (M.push s' x).bind _ = _
  cases M.push s' x <;> rfl

section
variable {α V : Type} [LinearOrder α]

/-- The members of the tail itself. -/
def TailSt.own (s : TailSt α V) : TailOwn α := ⟨s.isSorted, s.indices, s.samples⟩

@[simp] theorem TailSt.join_own (s : TailSt α V) : s.own.join s.variates = s := rfl

theorem tailExec_append (H : HeapImpl ℕ) (side : Side) (s : TailSt α V) (h h' : List (Op (α × V) Unit)) :
    tailExec H side s (h ++ h') = (tailExec H side s h).bind fun s1 => tailExec H side s1 h' := by
  induction h generalizing s with
  | nil => rfl
  | cons o h ih =>
    simp only [List.cons_append, tailExec]
    cases tailStep H side s o with
    | val s1 => exact ih s1
    | _ => rfl

theorem tailRun_snoc (H : HeapImpl ℕ) (side : Side) (k : ℕ) (x0 : α) (v0 : V) (ps : List (α × V)) (p : α × V) :
    tailRun H side k x0 v0 (onlyPushes (ps ++ [p]))
      = (tailRun H side k x0 v0 (onlyPushes ps)).bind fun s => tailPush H side s p.1 p.2 := by
  have e : (onlyPushes (ps ++ [p]) : List (Op (α × V) Unit)) = onlyPushes ps ++ [.push p] := by simp [onlyPushes]
  rw [tailRun, tailRun, e, tailExec_append]
  congr 1
  funext s
  show (tailPush H side s p.1 p.2).bind _ = _
  cases tailPush H side s p.1 p.2 <;> rfl

theorem tailAssign_own (H : HeapImpl ℕ) (side : Side) {s s' : TailSt α V} {x : α} {v : V} {i : ℕ}
    (h : tailAssign H side s x v i = .val s') :
    TailOwn.assign H side s.own x i = .val (s'.own, some i) ∧ i < s.variates.length ∧
      s'.variates = s.variates.set i v := by
  unfold tailAssign at h
  split at h
  · rename_i hi
    injection h with h
    subst h
    refine ⟨?_, hi.2, rfl⟩
    unfold TailOwn.assign
    rw [if_pos (show i < s.own.samples.length from hi.1)]
    rfl
  · cases h

/-- A push of the tail alone. -/
theorem tailPush_own (H : HeapImpl ℕ) (side : Side) {s s' : TailSt α V} {x : α} {v : V}
    (h : tailPush H side s x v = .val s') :
    ∃ sl, TailOwn.push H side s.own x = .val (s'.own, sl) ∧
      (∀ i, sl = some i → i < s.variates.length ∧ s'.variates = s.variates.set i v) ∧
      (sl = none → s'.variates = s.variates) := by
  unfold tailPush at h
  unfold TailOwn.push
  have e1 : s.own.indices = s.indices := rfl
  have e2 : s.own.samples = s.samples := rfl
  rw [e1, e2]
  split at h
  · rename_i hlt
    rw [if_pos hlt]
    obtain ⟨h1, h2, h3⟩ := tailAssign_own H side h
    refine ⟨_, h1, ?_, by simp⟩
    rintro i hi
    injection hi with hi
    subst hi
    exact ⟨h2, h3⟩
  · rename_i hlt
    rw [if_neg hlt]
    cases hidx : s.indices with
    | nil => rw [hidx] at h; cases h
    | cons i0 is =>
      rw [hidx] at h
      dsimp only at h ⊢
      cases hs : s.samples[i0]? with
      | none => rw [hs] at h; cases h
      | some y =>
        rw [hs] at h
        dsimp only at h ⊢
        split at h
        · rename_i hp
          rw [if_pos hp]
          cases hl : (H.pop (tailCmp side s.samples) (i0 :: is)).getLast? with
          | none => rw [hl] at h; cases h
          | some i =>
            rw [hl] at h
            dsimp only at h ⊢
            obtain ⟨h1, h2, h3⟩ := tailAssign_own H side h
            refine ⟨_, h1, ?_, by simp⟩
            rintro j hj
            injection hj with hj
            subst hj
            exact ⟨h2, h3⟩
        · rename_i hp
          rw [if_neg hp]
          injection h with h
          subst h
          exact ⟨none, rfl, by simp, fun _ => rfl⟩

/-- The tail's own step, and the slot. -/
theorem tailPush_next (H : HeapImpl ℕ) (side : Side) {s s' : TailSt α V} {x : α} {v : V}
    (h : tailPush H side s x v = .val s') : TailOwn.next H side (.val s.own) x = .val s'.own := by
  obtain ⟨sl, h1, -⟩ := tailPush_own H side h
  simp [TailOwn.next, h1, Res.bind]

/-- What is written along. -/
theorem tailPush_slot (H : HeapImpl ℕ) (side : Side) {s s' : TailSt α V} {x : α} {v : V} {W : Type} (g : V → W)
    (h : tailPush H side s x v = .val s') :
    assignSlot (TailOwn.slot H side (.val s.own) x) (g v) (.val (s.variates.map g)) = .val (s'.variates.map g) := by
  obtain ⟨sl, h1, h2, h3⟩ := tailPush_own H side h
  simp only [TailOwn.slot, h1, assignSlot, Res.bind]
  cases sl with
  | none => rw [h3 rfl]
  | some i =>
    obtain ⟨h4, h5⟩ := h2 i rfl
    rw [h5]
    simp [setAt, h4, List.map_set]

/-- The result of the tail does not depend on what is cached along. -/
theorem tailResult_own (H : HeapImpl ℕ) (side : Side) {W : Type} (s : TailSt α V) (l : List W) :
    tailResult H side (s.own.join l) = tailResult H side s := by
  unfold tailResult tailSort TailOwn.join TailSt.own
  dsimp only
  split <;> rfl

theorem tailVariateResult_join (H : HeapImpl ℕ) (side : Side) {W : Type} (g : V → W) (s : TailSt α V) :
    tailVariateResult H side (s.own.join (s.variates.map g)) = (List.map g) <$> tailVariateResult H side s := by
  have e : s.own.join (s.variates.map g) = s.map id g := by
    simp [TailSt.own, TailOwn.join, TailSt.map]
  rw [e]
  exact tailVariateResult_map (side := side) (f := id) (fun _ _ => rfl) g H s

/-- Forgetting part of what is cached along. -/
theorem tailRun_forget (H : HeapImpl ℕ) (side : Side) (k : ℕ) (x0 : α) (v0 : V) {W : Type} (g : V → W)
    (ps : List (α × V)) :
    tailRun H side k x0 (g v0) (onlyPushes (ps.map fun p => (p.1, g p.2)))
      = (TailSt.map id g) <$> tailRun H side k x0 v0 (onlyPushes ps) := by
  have := tailRun_map (side := side) (side' := side) (f := id) (fun _ _ => rfl) g H k x0 v0 (onlyPushes ps)
  rw [← this]
  congr 1
  simp [onlyPushes, Spec.mapPairs, List.map_map, Function.comp_def]

end

end Acc

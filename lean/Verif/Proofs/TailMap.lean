import Verif.Props.TailEst

/-!
# The tail cache commutes with order isomorphisms

If every sample is mapped by `f` and everything cached along with it by `g`, where `f` turns the order used
on one side into the order used on the other, then the whole cache is mapped, for every heap
implementation, whatever its choices among equal samples.
-/

set_option linter.unusedSectionVars false

namespace Acc

variable {α β V W : Type} [LT α] [DecidableLT α] [LT β] [DecidableLT β]

/-- The history with samples mapped by `f` and attached data mapped by `g`. -/
def Spec.mapPairs (f : α → β) (g : V → W) (h : List (Op (α × V) Unit)) : List (Op (β × W) Unit) :=
  h.map fun o => match o with
    | .push p => .push (f p.1, g p.2)
    | .query q => .query q

theorem pushes_mapPairs (f : α → β) (g : V → W) (h : List (Op (α × V) Unit)) :
    pushes (Spec.mapPairs f g h) = (pushes h).map fun p => (f p.1, g p.2) := by
  induction h with
  | nil => rfl
  | cons o h ih => cases o <;> simpa [Spec.mapPairs, pushes] using ih

def TailSt.map (f : α → β) (g : V → W) (s : TailSt α V) : TailSt β W :=
  ⟨s.isSorted, s.indices, s.samples.map f, s.variates.map g⟩

section
variable {side side' : Side} {f : α → β} (hf : ∀ a b, tailPred side' (f a) (f b) = tailPred side a b)
  (g : V → W) (H : HeapImpl ℕ)
include hf

theorem tailCmp_map (samples : List α) : tailCmp side' (samples.map f) = tailCmp side samples := by
  funext i j
  unfold tailCmp
  rw [List.getElem?_map, List.getElem?_map]
  cases samples[i]? <;> cases samples[j]? <;> simp [hf]

theorem tailAssign_map (s : TailSt α V) (x : α) (v : V) (i : ℕ) :
    tailAssign H side' (s.map f g) (f x) (g v) i = (TailSt.map f g) <$> tailAssign H side s x v i := by
  unfold tailAssign
  simp only [TailSt.map, List.length_map]
  split
  · rw [← List.map_set, ← List.map_set, tailCmp_map hf]
    rfl
  · rfl

theorem tailPush_map (s : TailSt α V) (x : α) (v : V) :
    tailPush H side' (s.map f g) (f x) (g v) = (TailSt.map f g) <$> tailPush H side s x v := by
  unfold tailPush
  have e1 : (s.map f g).indices = s.indices := rfl
  have e2 : (s.map f g).samples = s.samples.map f := rfl
  rw [e1, e2, List.length_map]
  split
  · exact tailAssign_map hf g H { s with indices := s.indices ++ [s.indices.length] } x v _
  · cases hidx : s.indices with
    | nil => rfl
    | cons i0 is =>
      simp only [List.getElem?_map]
      cases s.samples[i0]? with
      | none => rfl
      | some y =>
        simp only [Option.map_some, hf, tailCmp_map hf]
        split
        · cases ((H.pop (tailCmp side s.samples) (i0 :: is)).getLast?) with
          | none => rfl
          | some i =>
            exact tailAssign_map hf g H
              { s with indices := H.pop (tailCmp side s.samples) (i0 :: is) } x v i
        · rfl

theorem tailSort_map (s : TailSt α V) :
    tailSort H side' (s.map f g) = (tailSort H side s).map f g := by
  unfold tailSort
  by_cases hs : s.isSorted = true
  · rw [if_pos hs, if_pos (show (s.map f g).isSorted = true from hs)]
  · rw [if_neg hs, if_neg (show ¬(s.map f g).isSorted = true from hs)]
    simp only [TailSt.map, tailCmp_map hf]

theorem tailExec_map (s : TailSt α V) (h : List (Op (α × V) Unit)) :
    tailExec H side' (s.map f g) (Spec.mapPairs f g h) = (TailSt.map f g) <$> tailExec H side s h := by
  induction h generalizing s with
  | nil => rfl
  | cons o h ih =>
    cases o with
    | push p =>
      simp only [Spec.mapPairs, List.map_cons, tailExec, tailStep]
      rw [tailPush_map hf]
      cases tailPush H side s p.1 p.2 with
      | val s' => exact ih s'
      | _ => rfl
    | query q =>
      simp only [Spec.mapPairs, List.map_cons, tailExec, tailStep, tailSort_map hf, Res.val_bind]
      exact ih _

theorem tailRun_map (k : ℕ) (x0 : α) (v0 : V) (h : List (Op (α × V) Unit)) :
    tailRun H side' k (f x0) (g v0) (Spec.mapPairs f g h)
      = (TailSt.map f g) <$> tailRun H side k x0 v0 h := by
  unfold tailRun
  rw [← tailExec_map hf g H]
  simp [tailInit, TailSt.map]

omit hf in
theorem readSlots_map {γ δ : Type} (u : γ → δ) (l : List γ) (is : List ℕ) :
    readSlots (l.map u) is = (List.map u) <$> readSlots l is := by
  induction is with
  | nil => rfl
  | cons i is ih =>
    simp only [readSlots, List.getElem?_map]
    cases l[i]? with
    | none => rfl
    | some b =>
      simp only [Option.map_some, ih]
      cases readSlots l is <;> rfl

theorem tailResult_map (s : TailSt α V) :
    tailResult H side' (s.map f g) = (List.map f) <$> tailResult H side s := by
  unfold tailResult
  rw [tailSort_map hf]
  exact readSlots_map _ _ _

theorem tailVariateResult_map (s : TailSt α V) :
    tailVariateResult H side' (s.map f g) = (List.map g) <$> tailVariateResult H side s := by
  unfold tailVariateResult
  rw [tailSort_map hf]
  exact readSlots_map _ _ _

end

end Acc

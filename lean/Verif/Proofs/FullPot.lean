import Verif.Proofs.FullRuns
import Verif.Props.Pot
import Verif.Spec.FullSets

/-!
# Peaks over threshold: reading the fit several times
-/

set_option linter.unusedSectionVars false

namespace Acc

section
variable {K : Type} [Field K] [LinearOrder K] [IsStrictOrderedRing K]

/-- Calling the fit extractor again gives the same, unless the first call gave NaN. -/
def PotSteady {S : Type} (qf : S → Res (S × PotFit K)) (s : S) : Prop :=
  ∀ t r, qf s = .val (t, r) →
    qf t = .val (t, r) ∨ (r.1 = .nonfinite ∧ r.2.1 = .nonfinite ∧ ∃ r', qf t = .val (t, r'))

theorem potQuantile_steady {S : Type} (pw : K → K → Res K) (side : Side) {qf : S → Res (S × PotFit K)} {s : S}
    (h : PotSteady qf s) (p : K) :
    ((potQuantile pw side qf s p).bind fun r => r.2)
      = (qf s).bind fun r => potQuantileValue pw side r.2 p := by
  unfold potQuantile potRead
  cases hq : qf s with
  | val r =>
    obtain ⟨t, r⟩ := r
    rcases h t r hq with h1 | ⟨h1, -, r', h2⟩
    · simp [h1, Res.bind, bind, pure]
    · simp only [Res.bind, bind, pure, h2]
      simp [potQuantileValue, h1, bind, Res.bind]
  | _ => rfl

theorem potTailMean_steady {S : Type} (pw : K → K → Res K) (side : Side) {qf : S → Res (S × PotFit K)} {s : S}
    (h : PotSteady qf s) (p : K) :
    ((potTailMean pw side qf s p).bind fun r => r.2)
      = (qf s).bind fun r => potTailMeanValue pw side r.2.2.1 r.2.2.2 (potQuantileValue pw side r.2 p) p := by
  unfold potTailMean potQuantile potRead
  cases hq : qf s with
  | val r =>
    obtain ⟨t, r⟩ := r
    rcases h t r hq with h1 | ⟨-, h1, r', h2⟩
    · simp [h1, Res.bind, bind, pure]
    · simp only [Res.bind, bind, pure, h2]
      simp [potTailMeanValue, h1, bind, Res.bind]
  | _ => rfl

theorem pot_steady (pw : K → K → Res K) (side : Side) (thr : K) (s : PotSt K) :
    PotSteady (fun s => (potSet pw side thr).query s ()) s := by
  intro t r h
  left
  have h' : Res.val (potQuery pw side s) = .val (t, r) := h
  injection h' with h'
  show Res.val (potQuery pw side t) = _
  have := pot_requery pw side s
  rw [h'] at this
  rw [this]

theorem wpot_steady (pw : K → K → Res K) (side : Side) (thr : K) (s : WPotSt K) :
    PotSteady (fun s => (wpotSet pw side thr).query s ()) s := by
  intro t r h
  left
  have h' : Res.val (wpotQuery pw side s) = .val (t, r) := h
  injection h' with h'
  show Res.val (wpotQuery pw side t) = _
  have := wpot_requery pw side s
  rw [h'] at this
  rw [this]

theorem wpotProb_steady (pw : K → K → Res K) (H : HeapImpl ℕ) (side : Side) (hasNaN : Bool) (k : ℕ) (tp : K)
    (s : WPotProbSt K) : PotSteady (fun s => (wpotProbSet pw H side hasNaN k tp).query s ()) s := by
  intro t r h
  have h' : wpotProbQuery pw H side hasNaN s = .val (t, r) := h
  show wpotProbQuery pw H side hasNaN t = _ ∨ (_ ∧ _ ∧ ∃ r', wpotProbQuery pw H side hasNaN t = _)
  have hclean : ∀ t : WPotProbSt K, t.dirty = false → wpotProbQuery pw H side hasNaN t = .val (t, t.fit) := by
    intro t ht
    unfold wpotProbQuery
    rw [if_neg (by simp [ht])]
    rfl
  unfold wpotProbQuery at h'
  split at h'
  · obtain ⟨tl, -, h'⟩ := Res.bind_eq_val.1 h'
    obtain ⟨ws, -, h'⟩ := Res.bind_eq_val.1 h'
    dsimp only at h'
    split at h'
    · split at h'
      · cases h'
      · split at h'
        · cases h'
        · obtain ⟨rfl, rfl⟩ := Prod.mk.inj (Res.val.inj h')
          exact Or.inl (hclean _ rfl)
    · obtain ⟨f, hf, h'⟩ := Res.bind_eq_val.1 h'
      obtain ⟨rfl, rfl⟩ := Prod.mk.inj (Res.val.inj h')
      unfold potNaN at hf
      split at hf
      · obtain rfl := Res.val.inj hf
        exact Or.inr ⟨rfl, rfl, _, hclean _ rfl⟩
      · cases hf
  · obtain ⟨rfl, rfl⟩ := Prod.mk.inj (Res.val.inj h')
    rename_i hd
    exact Or.inl (hclean _ (by simpa using hd))

variable [FloorRing K] {V : Type}

theorem potProb_steady (pw : K → K → Res K) (H : HeapImpl ℕ) (side : Side) (hasNaN : Bool) (k : ℕ) (v0 : V) (tp : K)
    (s : PotProbSt K V) : PotSteady (fun s => (potProbSet pw H side hasNaN k v0 tp).query s ()) s := by
  intro t r h
  have h' : potProbQuery pw H side hasNaN s = .val (t, r) := h
  show potProbQuery pw H side hasNaN t = _ ∨ (_ ∧ _ ∧ ∃ r', potProbQuery pw H side hasNaN t = _)
  have hclean : ∀ t : PotProbSt K V, t.dirty = false → potProbQuery pw H side hasNaN t = .val (t, t.fit) := by
    intro t ht
    unfold potProbQuery
    rw [if_neg (by simp [ht])]
    rfl
  unfold potProbQuery at h'
  split at h'
  · obtain ⟨n, -, h'⟩ := Res.bind_eq_val.1 h'
    obtain ⟨tl, -, h'⟩ := Res.bind_eq_val.1 h'
    dsimp only at h'
    split at h'
    · obtain ⟨f, hf, h'⟩ := Res.bind_eq_val.1 h'
      obtain ⟨rfl, rfl⟩ := Prod.mk.inj (Res.val.inj h')
      unfold potNaN at hf
      split at hf
      · obtain rfl := Res.val.inj hf
        exact Or.inr ⟨rfl, rfl, _, hclean _ rfl⟩
      · cases hf
    · split at h'
      · cases h'
      · split at h'
        · cases h'
        · obtain ⟨rfl, rfl⟩ := Prod.mk.inj (Res.val.inj h')
          exact Or.inl (hclean _ rfl)
  · obtain ⟨rfl, rfl⟩ := Prod.mk.inj (Res.val.inj h')
    rename_i hd
    exact Or.inl (hclean _ (by simpa using hd))

/-- The fit depends on the tail only through its result. -/
theorem potProb_fit_congr {W : Type} (pw : K → K → Res K) (H : HeapImpl ℕ) (side : Side) (hasNaN : Bool) (n : ℕ)
    {t : TailSt K V} {t' : TailSt K W} (h : tailResult H side t = tailResult H side t') (mu sigma2 : Res K) (tp : K)
    (fit : PotFit K) (d : Bool) :
    ((potProbQuery pw H side hasNaN ⟨n, t, mu, sigma2, tp, fit, d⟩).bind fun r => .val r.2)
      = (potProbQuery pw H side hasNaN ⟨n, t', mu, sigma2, tp, fit, d⟩).bind fun r => .val r.2 := by
  cases d with
  | false => rfl
  | true =>
    unfold potProbQuery
    dsimp only
    rw [if_pos rfl, if_pos rfl, h]
    cases tailN side n tp with
    | val m =>
      cases tailResult H side t' with
      | val l =>
        simp only [Res.val_bind]
        split
        · unfold potNaN
          split <;> rfl
        · split
          · rfl
          · cases l[m - 1]? <;> rfl
      | _ => rfl
    | _ => rfl

end

section
variable {K : Type} [Field K] [LinearOrder K] [IsStrictOrderedRing K]

theorem potQuantileSet_exec {X S : Type} (pw : K → K → Res K) (side : Side) (M : RMachine X Unit S (PotFit K)) (s : S)
    (xs : List X) :
    (potQuantileSet pw side M).exec s (onlyPushes xs) = M.exec s (onlyPushes xs) := by
  induction xs using List.reverseRecOn with
  | nil => rfl
  | append_singleton xs x ih => rw [RMachine.exec_snoc, RMachine.exec_snoc, ih]; rfl

theorem potTailMeanSet_exec {X S : Type} (pw : K → K → Res K) (side : Side) (M : RMachine X Unit S (PotFit K)) (s : S)
    (xs : List X) :
    (potTailMeanSet pw side M).exec s (onlyPushes xs) = M.exec s (onlyPushes xs) := by
  induction xs using List.reverseRecOn with
  | nil => rfl
  | append_singleton xs x ih => rw [RMachine.exec_snoc, RMachine.exec_snoc, ih]; rfl

theorem potQuantile_answer {X S : Type} (pw : K → K → Res K) (side : Side) (M : RMachine X Unit S (PotFit K))
    (h : ∀ s, PotSteady (fun s => M.query s ()) s) (xs : List X) (p : K) :
    Spec.flat ((potQuantileSet pw side M).answer (onlyPushes xs) p)
      = (M.answer (onlyPushes xs) ()).bind fun r => potQuantileValue pw side r p := by
  unfold RMachine.answer
  rw [show (potQuantileSet pw side M).init = M.init from rfl, potQuantileSet_exec]
  cases M.exec M.init (onlyPushes xs) with
  | val s =>
    have := potQuantile_steady pw side (h s) p
    simp only [Res.val_bind]
    show Spec.flat ((potQuantile pw side (fun s => M.query s ()) s p).bind fun r => .val r.2) = _
    rw [show Spec.flat ((potQuantile pw side (fun s => M.query s ()) s p).bind fun r => .val r.2)
        = (potQuantile pw side (fun s => M.query s ()) s p).bind fun r => r.2 by
      cases potQuantile pw side (fun s => M.query s ()) s p <;> rfl, this]
    show ((M.query s ()).bind _) = ((M.query s ()).bind _).bind _
    cases M.query s () <;> rfl
  | _ => rfl

theorem potTailMean_answer {X S : Type} (pw : K → K → Res K) (side : Side) (M : RMachine X Unit S (PotFit K))
    (h : ∀ s, PotSteady (fun s => M.query s ()) s) (xs : List X) (p : K) :
    Spec.flat ((potTailMeanSet pw side M).answer (onlyPushes xs) p)
      = (M.answer (onlyPushes xs) ()).bind fun r =>
        potTailMeanValue pw side r.2.1 r.2.2 (potQuantileValue pw side r p) p := by
  unfold RMachine.answer
  rw [show (potTailMeanSet pw side M).init = M.init from rfl, potTailMeanSet_exec]
  cases M.exec M.init (onlyPushes xs) with
  | val s =>
    have := potTailMean_steady pw side (h s) p
    simp only [Res.val_bind]
    show Spec.flat ((potTailMean pw side (fun s => M.query s ()) s p).bind fun r => .val r.2) = _
    rw [show Spec.flat ((potTailMean pw side (fun s => M.query s ()) s p).bind fun r => .val r.2)
        = (potTailMean pw side (fun s => M.query s ()) s p).bind fun r => r.2 by
      cases potTailMean pw side (fun s => M.query s ()) s p <;> rfl, this]
    show ((M.query s ()).bind _) = ((M.query s ()).bind _).bind _
    cases M.query s () <;> rfl
  | _ => rfl

/-- The threshold given by value. -/
theorem pot_exec_foldl (pw : K → K → Res K) (side : Side) (thr : K) (xs : List K) :
    (potSet pw side thr).exec (potSet pw side thr).init (onlyPushes xs)
      = .val (xs.foldl (potPush side) (potInit side thr)) := by
  induction xs using List.reverseRecOn with
  | nil => rfl
  | append_singleton xs x ih =>
    rw [RMachine.exec_snoc, ih, List.foldl_append]
    rfl

theorem wpot_exec_foldl (pw : K → K → Res K) (side : Side) (thr : K) (xs : List (K × K)) :
    (wpotSet pw side thr).exec (wpotSet pw side thr).init (onlyPushes xs)
      = .val (xs.foldl (wpotPush side) (wpotInit side thr)) := by
  induction xs using List.reverseRecOn with
  | nil => rfl
  | append_singleton xs x ih =>
    rw [RMachine.exec_snoc, ih, List.foldl_append]
    rfl

theorem potFold_cnt (side : Side) (thr : K) (xs : List K) :
    (xs.foldl (potPush side) (potInit side thr)).cnt = xs.length := by
  induction xs using List.reverseRecOn with
  | nil => rfl
  | append_singleton xs x ih =>
    rw [List.foldl_append, List.foldl_cons, List.foldl_nil]
    generalize List.foldl (potPush side) (potInit side thr) xs = s at ih
    unfold potPush
    split <;> simp [ih]

theorem wpotFold_total (side : Side) (thr : K) (ps : List (K × K)) :
    (ps.foldl (wpotPush side) (wpotInit side thr)).total = (ps.map Prod.snd).sum := by
  induction ps using List.reverseRecOn with
  | nil => rfl
  | append_singleton ps p ih =>
    rw [List.foldl_append, List.foldl_cons, List.foldl_nil]
    generalize List.foldl (wpotPush side) (wpotInit side thr) ps = s at ih
    unfold wpotPush
    split <;> simp [ih]

theorem pot_answer (pw : K → K → Res K) (side : Side) (thr : K) (xs : List K) :
    (potSet pw side thr).answer (onlyPushes xs) ()
      = .val (potQuery pw side { xs.foldl (potPush side) (potInit side thr) with cnt := xs.length }).2 := by
  unfold RMachine.answer
  rw [pot_exec_foldl]
  have : ({ xs.foldl (potPush side) (potInit side thr) with cnt := xs.length } : PotSt K)
      = xs.foldl (potPush side) (potInit side thr) := by
    rw [← potFold_cnt side thr xs]
  rw [this]
  rfl

theorem wpot_answer (pw : K → K → Res K) (side : Side) (thr : K) (ps : List (K × K)) :
    (wpotSet pw side thr).answer (onlyPushes ps) ()
      = .val (wpotQuery pw side
          { ps.foldl (wpotPush side) (wpotInit side thr) with total := (ps.map Prod.snd).sum }).2 := by
  unfold RMachine.answer
  rw [wpot_exec_foldl]
  have : ({ ps.foldl (wpotPush side) (wpotInit side thr) with total := (ps.map Prod.snd).sum } : WPotSt K)
      = ps.foldl (wpotPush side) (wpotInit side thr) := by
    rw [← wpotFold_total side thr ps]
  rw [this]
  rfl

end

end Acc

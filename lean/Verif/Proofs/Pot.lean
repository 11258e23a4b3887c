import Verif.Model.Pot
import Verif.Spec.Pareto
import Verif.Proofs.Basic
import Verif.Proofs.Weighted
import Verif.Props.TailEst
import Verif.Proofs.WTail

/-! # Helper lemmas for the peaks-over-threshold estimators -/

set_option linter.unusedSectionVars false

namespace Acc

variable {K : Type} [Field K] [LinearOrder K] [IsStrictOrderedRing K]

theorem potSign_sq (side : Side) : (potSign side : K) * potSign side = 1 := by
  cases side <;> simp [potSign]

theorem potSign_mul (side : Side) (x : K) : potSign side * x = Spec.mirrored side x := by
  cases side <;> simp [potSign, Spec.mirrored]

/-- The fit parameters when everything is finite. -/
theorem potParams_val {pw : K → K → Res K} {u m v t a b : K} (hv : v ≠ 0) (hx : Spec.momentXi u m v ≠ 0)
    (ha : pw (1 - t) (Spec.momentXi u m v) = .val a) (hb : pw (1 - t) (-Spec.momentXi u m v) = .val b) :
    potParams pw u (.val m) (.val v) (.val t)
      = (.val (u - Spec.momentBeta u m v * a * (b - 1) / Spec.momentXi u m v),
          .val (Spec.momentBeta u m v * a), .val (Spec.momentXi u m v)) := by
  have hxi : 1 / 2 * (1 - (m - u) * (m - u) / v) = Spec.momentXi u m v := by
    unfold Spec.momentXi; ring
  have hbe : 1 / 2 * (m - u) * (1 + (m - u) * (m - u) / v) = Spec.momentBeta u m v := by
    unfold Spec.momentBeta; ring
  unfold potParams
  simp only [Res.val_bind, fdiv_ne hv, Res.pure_eq, hxi, hbe, ha, hb, fdiv_ne hx]

theorem potParams_nonfinite (pw : K → K → Res K) (u : K) (v t : Res K) :
    potParams pw u .nonfinite v t = (.nonfinite, .nonfinite, .nonfinite) := rfl

theorem mirrored_mean_var (side : Side) {E : List K} (hE : E ≠ []) :
    potSign side * (E.sum / (E.length : K)) = Spec.mean (E.map fun x => potSign side * x) ∧
    (E.map fun x => x * x).sum / (E.length : K)
        - potSign side * (E.sum / (E.length : K)) * (potSign side * (E.sum / (E.length : K)))
      = Spec.variance (E.map fun x => potSign side * x) := by
  have hm : potSign side * (E.sum / (E.length : K)) = Spec.mean (E.map fun x => potSign side * x) := by
    unfold Spec.mean
    rw [List.sum_map_mul_left, List.length_map, List.map_id', mul_div_assoc]
  refine ⟨hm, ?_⟩
  have hne : (E.map fun x => potSign side * x) ≠ [] := by simpa using hE
  unfold Spec.variance
  rw [centralTwo_eq hne, hm]
  have h2 : (E.map fun x => x * x).sum / (E.length : K)
      = Spec.rawMoment 2 (E.map fun x => potSign side * x) := by
    unfold Spec.rawMoment
    rw [List.length_map, List.map_map]
    congr 2
    apply List.map_congr_left
    intro x _
    simp only [Function.comp_apply]
    have := potSign_sq (K := K) side
    calc x * x = (potSign side * potSign side) * (x * x) := by rw [this, one_mul]
      _ = _ := by ring
  rw [h2]

/-- The samples the accumulator takes into account. -/
def potHits (side : Side) (thr : K) (xs : List K) : List K :=
  xs.filter fun x => decide (potSign side * x > potSign side * thr)

theorem potHits_map (side : Side) (thr : K) (xs : List K) :
    (potHits side thr xs).map (fun x => potSign side * x) = Spec.exceedances side thr xs := by
  cases side
  · simp only [potHits, potSign, Spec.exceedances]
    have e1 : (fun x : K => (-1 : K) * x) = fun x => -x := by funext x; ring
    rw [e1]
    congr 1
    apply List.filter_congr
    intro x _
    simp
  · simp only [potHits, potSign, Spec.exceedances, one_mul, List.map_id']

theorem pot_exec_pushes (pw : K → K → Res K) (side : Side) (thr : K) (xs : List K)
    (s : PotSt K) (hs : s.thr = potSign side * thr) :
    (potSet pw side thr).exec s (onlyPushes xs)
      = .val { s with
          cnt := s.cnt + xs.length
          nu := s.nu + (potHits side thr xs).length
          mu := (do let m ← s.mu; pure (m + (potHits side thr xs).sum))
          sigma2 := (do let v ← s.sigma2; pure (v + ((potHits side thr xs).map fun x => x * x).sum))
          dirty := if xs = [] then s.dirty else true } := by
  induction xs generalizing s with
  | nil =>
    have hb : ∀ r : Res K, (r >>= fun m => Res.val m) = r := by
      intro r; cases r <;> simp
    simp [onlyPushes, RMachine.exec, potHits, hb]
  | cons x xs ih =>
    simp only [onlyPushes, List.map_cons, RMachine.exec, RMachine.exec1]
    have hp : (potSet pw side thr).push s x = .val (potPush side s x) := rfl
    rw [hp, Res.val_bind]
    have hs' : (potPush side s x).thr = potSign side * thr := by
      unfold potPush; split <;> exact hs
    have := ih (potPush side s x) hs'
    rw [show List.map Op.push xs = onlyPushes (Q := Unit) xs from rfl, this]
    by_cases hx : potSign side * x > potSign side * thr
    · have hh : potHits side thr (x :: xs) = x :: potHits side thr xs := by
        simp [potHits, hx]
      have hpush : potPush side s x = { s with
          cnt := s.cnt + 1, dirty := true
          mu := (do let m ← s.mu; pure (m + x))
          sigma2 := (do let v ← s.sigma2; pure (v + x * x))
          nu := s.nu + 1 } := by
        unfold potPush; rw [hs, if_pos hx]
      rw [hh, hpush]
      congr 1
      have h1 : s.cnt + 1 + xs.length = s.cnt + (x :: xs).length := by simp; omega
      have h2 : s.nu + 1 + (potHits side thr xs).length
          = s.nu + (x :: potHits side thr xs).length := by simp; omega
      simp only [h1, h2]
      congr 1
      · cases s.mu <;> simp [add_assoc]
      · cases s.sigma2 <;> simp [add_assoc]
      · simp
    · have hh : potHits side thr (x :: xs) = potHits side thr xs := by
        simp [potHits, hx]
      have hpush : potPush side s x = { s with cnt := s.cnt + 1, dirty := true } := by
        unfold potPush; rw [hs, if_neg hx]
      rw [hh, hpush]
      congr 1
      have h1 : s.cnt + 1 + xs.length = s.cnt + (x :: xs).length := by simp; omega
      simp only [h1]
      congr 1
      simp

/-- Once extracted, extracting again changes nothing. -/
theorem pot_requery (pw : K → K → Res K) (side : Side) (s : PotSt K) :
    potQuery pw side (potQuery pw side s).1 = ((potQuery pw side s).1, (potQuery pw side s).2) := by
  by_cases h : s.dirty = true
  · simp [potQuery, h]
  · simp [potQuery, h]

/-- A history that pushes and then only extracts gives, at the end, the answer of the first extraction. -/
theorem RMachine.answer_after_queries {X S R : Type} (M : RMachine X Unit S R) (xs : List X) (q : ℕ) {s t : S}
    {r : R} (e : M.exec M.init (onlyPushes xs) = .val s) (e1 : M.query s () = .val (t, r))
    (e2 : M.query t () = .val (t, r)) :
    M.answer (onlyPushes xs ++ List.replicate q (.query ())) () = .val r := by
  have happ : ∀ (h h' : List (Op X Unit)) (s0 : S), M.exec s0 (h ++ h') = (M.exec s0 h >>= fun s1 => M.exec s1 h') := by
    intro h
    induction h with
    | nil => intro h' s0; rfl
    | cons o h ih =>
      intro h' s0
      simp only [List.cons_append, RMachine.exec]
      cases M.exec1 s0 o with
      | val s1 => exact ih h' s1
      | _ => rfl
  have hq : ∀ q, M.exec t (List.replicate q (.query ())) = .val t := by
    intro q
    induction q with
    | zero => rfl
    | succ q ih =>
      simp only [List.replicate_succ, RMachine.exec, RMachine.exec1, e2, Res.val_bind, Res.pure_eq, ih]
  unfold RMachine.answer
  rw [happ, e, Res.val_bind]
  cases q with
  | zero => simp only [List.replicate_zero, RMachine.exec, Res.val_bind, e1, Res.pure_eq]
  | succ q =>
    simp only [List.replicate_succ, RMachine.exec, RMachine.exec1, e1, Res.val_bind, Res.pure_eq, hq, e2]

theorem RMachine.exec_append {X Q S R : Type} (M : RMachine X Q S R) (h h' : List (Op X Q)) (s : S) :
    M.exec s (h ++ h') = (M.exec s h >>= fun s1 => M.exec s1 h') := by
  induction h generalizing s with
  | nil => rfl
  | cons o h ih =>
    simp only [List.cons_append, RMachine.exec]
    cases M.exec1 s o with
    | val s1 => exact ih s1
    | _ => rfl

/-! ### Weighted -/

def wpotHits (side : Side) (thr : K) (ps : List (K × K)) : List (K × K) :=
  ps.filter fun p => decide (potSign side * p.1 > potSign side * thr)

theorem wpotHits_map (side : Side) (thr : K) (ps : List (K × K)) :
    (wpotHits side thr ps).map (fun p => (potSign side * p.1, p.2)) = Spec.wexceedances side thr ps := by
  cases side
  · simp only [wpotHits, potSign, Spec.wexceedances]
    have e1 : (fun p : K × K => ((-1 : K) * p.1, p.2)) = fun p => (-p.1, p.2) := by funext p; simp
    rw [e1]
    congr 1
    apply List.filter_congr
    intro x _
    simp
  · simp only [wpotHits, potSign, Spec.wexceedances, one_mul, List.map_id']

theorem wmirrored_mean_var (side : Side) {E : List (K × K)} (hE : Spec.wtotal E ≠ 0) :
    potSign side * ((E.map fun p => p.2 * p.1).sum / Spec.wtotal E)
      = Spec.wmean (E.map fun p => (potSign side * p.1, p.2)) ∧
    (E.map fun p => p.2 * p.1 * p.1).sum / Spec.wtotal E
        - potSign side * ((E.map fun p => p.2 * p.1).sum / Spec.wtotal E)
          * (potSign side * ((E.map fun p => p.2 * p.1).sum / Spec.wtotal E))
      = Spec.wvariance (E.map fun p => (potSign side * p.1, p.2)) := by
  have ht : Spec.wtotal (E.map fun p => (potSign side * p.1, p.2)) = Spec.wtotal E := by
    simp [Spec.wtotal, Function.comp_def]
  have hm : potSign side * ((E.map fun p => p.2 * p.1).sum / Spec.wtotal E)
      = Spec.wmean (E.map fun p => (potSign side * p.1, p.2)) := by
    unfold Spec.wmean
    rw [ht, List.map_map, ← mul_div_assoc, ← List.sum_map_mul_left]
    congr 2
    apply List.map_congr_left
    intro p _
    simp only [Function.comp_apply]
    ring
  refine ⟨hm, ?_⟩
  unfold Spec.wvariance
  rw [wcentralTwo_eq (by rw [ht]; exact hE), hm]
  have h2 : (E.map fun p => p.2 * p.1 * p.1).sum / Spec.wtotal E
      = Spec.wrawMoment 2 (E.map fun p => (potSign side * p.1, p.2)) := by
    unfold Spec.wrawMoment
    rw [ht, List.map_map]
    congr 2
    apply List.map_congr_left
    intro p _
    simp only [Function.comp_apply]
    have := potSign_sq (K := K) side
    calc p.2 * p.1 * p.1 = (potSign side * potSign side) * (p.2 * p.1 * p.1) := by rw [this, one_mul]
      _ = _ := by ring
  rw [h2]

theorem wpot_exec_pushes (pw : K → K → Res K) (side : Side) (thr : K) (ps : List (K × K))
    (s : WPotSt K) (hs : s.thr = potSign side * thr) :
    (wpotSet pw side thr).exec s (onlyPushes ps)
      = .val { s with
          total := s.total + (ps.map Prod.snd).sum
          wsum := s.wsum + ((wpotHits side thr ps).map Prod.snd).sum
          mu := (do let m ← s.mu; pure (m + ((wpotHits side thr ps).map fun p => p.2 * p.1).sum))
          sigma2 := (do let v ← s.sigma2; pure (v + ((wpotHits side thr ps).map fun p => p.2 * p.1 * p.1).sum))
          dirty := if ps = [] then s.dirty else true } := by
  induction ps generalizing s with
  | nil =>
    have hb : ∀ r : Res K, (r >>= fun m => Res.val m) = r := by
      intro r; cases r <;> simp
    simp [onlyPushes, RMachine.exec, wpotHits, hb]
  | cons x xs ih =>
    simp only [onlyPushes, List.map_cons, RMachine.exec, RMachine.exec1]
    have hp : (wpotSet pw side thr).push s x = .val (wpotPush side s x) := rfl
    rw [hp, Res.val_bind]
    have hs' : (wpotPush side s x).thr = potSign side * thr := by
      unfold wpotPush; split <;> exact hs
    have := ih (wpotPush side s x) hs'
    rw [show List.map Op.push xs = onlyPushes (Q := Unit) xs from rfl, this]
    by_cases hx : potSign side * x.1 > potSign side * thr
    · have hh : wpotHits side thr (x :: xs) = x :: wpotHits side thr xs := by
        simp [wpotHits, hx]
      have hpush : wpotPush side s x = { s with
          total := s.total + x.2, dirty := true
          mu := (do let m ← s.mu; pure (m + x.2 * x.1))
          sigma2 := (do let v ← s.sigma2; pure (v + x.2 * x.1 * x.1))
          wsum := s.wsum + x.2 } := by
        unfold wpotPush; rw [hs, if_pos hx]
      rw [hh, hpush]
      congr 1
      simp only [List.map_cons, List.sum_cons, add_assoc]
      congr 1
      · cases s.mu <;> simp [add_assoc]
      · cases s.sigma2 <;> simp [add_assoc]
      · simp
    · have hh : wpotHits side thr (x :: xs) = wpotHits side thr xs := by
        simp [wpotHits, hx]
      have hpush : wpotPush side s x = { s with total := s.total + x.2, dirty := true } := by
        unfold wpotPush; rw [hs, if_neg hx]
      rw [hh, hpush]
      congr 1
      simp only [List.sum_cons, add_assoc]
      congr 1
      simp

theorem wpot_requery (pw : K → K → Res K) (side : Side) (s : WPotSt K) :
    wpotQuery pw side (wpotQuery pw side s).1 = ((wpotQuery pw side s).1, (wpotQuery pw side s).2) := by
  by_cases h : s.dirty = true
  · simp [wpotQuery, h]
  · simp [wpotQuery, h]

/-! ### Threshold probability -/

section prob
variable {V : Type}

theorem potProb_exec_pushes [FloorRing K] (pw : K → K → Res K) (H : HeapImpl ℕ) (side : Side) (hasNaN : Bool)
    (k : ℕ) (v0 : V) (tp : K) (ps : List (K × V)) (s : PotProbSt K V) {t : TailSt K V}
    (ht : tailExec H side s.tail (onlyPushes ps) = .val t) :
    (potProbSet pw H side hasNaN k v0 tp).exec s (onlyPushes ps)
      = .val { s with cnt := s.cnt + ps.length, tail := t, dirty := if ps = [] then s.dirty else true } := by
  induction ps generalizing s with
  | nil =>
    simp only [onlyPushes, List.map_nil, tailExec, Res.val.injEq] at ht
    subst ht
    simp [onlyPushes, RMachine.exec]
  | cons p ps ih =>
    simp only [onlyPushes, List.map_cons, tailExec, tailStep] at ht
    simp only [onlyPushes, List.map_cons, RMachine.exec, RMachine.exec1]
    have hpush : (potProbSet pw H side hasNaN k v0 tp).push s p = potProbPush H side s p := rfl
    rw [hpush]
    unfold potProbPush
    cases htp : tailPush H side s.tail p.1 p.2 with
    | val t1 =>
      rw [htp, Res.val_bind] at ht
      rw [Res.val_bind, Res.pure_eq, Res.val_bind]
      have := ih { s with cnt := s.cnt + 1, tail := t1, dirty := true } ht
      rw [show List.map Op.push ps = onlyPushes (Q := Unit) ps from rfl, this]
      have h1 : s.cnt + 1 + ps.length = s.cnt + (p :: ps).length := by simp; omega
      simp only [h1]
      simp
    | _ => rw [htp] at ht; cases ht

theorem foldl_add_sum (l : List K) (m : K) : l.foldl (· + ·) m = m + l.sum := by
  induction l generalizing m with
  | nil => simp
  | cons x l ih => simp [ih, add_assoc]

theorem foldl_sq_sum (l : List K) (m : K) :
    l.foldl (fun a x => a + x * x) m = m + (l.map fun x => x * x).sum := by
  induction l generalizing m with
  | nil => simp
  | cons x l ih => simp [ih, add_assoc]

end prob

end Acc

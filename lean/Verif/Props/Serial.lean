import Verif.Model.SetSerial
import Verif.Model.StdLib
import Verif.Proofs.Tail
import Verif.Props.AccSet
import Mathlib.Algebra.Order.Ring.Rat

/-!
# C52: saving and restoring

For every serializable set: save it after any history and load the archive into a set of the same type with the
same construction arguments, at whatever point of its own life.  From then on the two cannot be told apart.
-/

set_option linter.unusedSectionVars false

namespace Acc

open Ser Codec

/-! ## Reading back -/

/-- The codec reads back what it wrote, if it satisfies `P`. -/
def Codec.OkOn {K A : Type} (c : Codec K A) (P : A → Prop) : Prop :=
  ∀ a rest, P a → c.dec (c.enc a ++ rest) = some (a, rest)

/-- Loading what `s` saved turns `t` into `f s t`. -/
def Ser.Reads {K S : Type} (p : Ser K S) (P : S → Prop) (f : S → S → S) : Prop :=
  ∀ s t rest, P s → p.load (p.save s ++ rest) t = some (f s t, rest)

section
variable {K A B S T : Type}

theorem Codec.nat_ok : (nat : Codec K ℕ).OkOn fun _ => True := fun _ _ _ => rfl

theorem Codec.bool_ok : (bool : Codec K Bool).OkOn fun _ => True := fun _ _ _ => rfl

theorem Codec.res_ok : (res : Codec K (Res K)).OkOn fun _ => True := fun _ _ _ => rfl

theorem Codec.num_ok : (num : Codec K K).OkOn fun _ => True := fun _ _ _ => rfl

theorem Codec.pair_ok {c : Codec K A} {d : Codec K B} (hc : c.OkOn fun _ => True)
    (hd : d.OkOn fun _ => True) : (pair c d).OkOn fun _ => True := by
  intro a rest _
  simp only [pair, List.append_assoc, hc a.1 _ trivial, hd a.2 _ trivial, Option.bind_eq_bind,
    Option.bind_some, Option.pure_def]

theorem Codec.decMany_ok {c : Codec K A} (hc : c.OkOn fun _ => True) (as : List A) (rest : List (Tok K)) :
    c.decMany as.length (as.flatMap c.enc ++ rest) = some (as, rest) := by
  induction as with
  | nil => rfl
  | cons a as ih =>
    simp only [List.length_cons, decMany, List.flatMap_cons, List.append_assoc, hc a _ trivial, ih,
      Option.bind_eq_bind, Option.bind_some, Option.pure_def]

theorem Codec.list_ok {c : Codec K A} (hc : c.OkOn fun _ => True) : (list c).OkOn fun _ => True := by
  intro as rest _
  simp only [list, List.cons_append, decMany_ok hc]

theorem Codec.ring_ok {c : Codec K A} (hc : c.OkOn fun _ => True) (split : List A → ℕ) :
    (ring c split).OkOn fun b => b.elems.length ≤ b.cap := by
  intro b rest h
  simp only [ring, List.cons_append, ← List.flatMap_append, List.take_append_drop, decMany_ok hc,
    Option.bind_eq_bind, Option.bind_some, Option.pure_def, h, if_true]

theorem Ser.nil_reads (P : S → Prop) : (nil : Ser K S).Reads P fun _ t => t := fun _ _ _ _ => rfl

theorem Ser.member_reads {c : Codec K A} {Q : A → Prop} (hc : c.OkOn Q) {P : S → Prop} {get : S → A}
    (hP : ∀ s, P s → Q (get s)) (set : S → A → S) :
    (member c get set).Reads P fun s t => set t (get s) := by
  intro s t rest h
  simp only [member, hc _ _ (hP s h), Option.bind_eq_bind, Option.bind_some, Option.pure_def]

theorem Ser.andThen_reads {p q : Ser K S} {P : S → Prop} {f g : S → S → S} (hp : p.Reads P f)
    (hq : q.Reads P g) : (andThen p q).Reads P fun s t => g s (f s t) := by
  intro s t rest h
  simp only [andThen, List.append_assoc, hp s t _ h, hq s _ _ h, Option.bind_eq_bind, Option.bind_some]

theorem Ser.part_reads {p : Ser K T} {Q : T → Prop} {f : T → T → T} (hp : p.Reads Q f) {P : S → Prop}
    {get : S → T} (hP : ∀ s, P s → Q (get s)) (set : S → T → S) :
    (part p get set).Reads P fun s t => set t (f (get s) (get t)) := by
  intro s t rest h
  simp only [part, hp _ _ _ (hP s h), Option.bind_eq_bind, Option.bind_some, Option.pure_def]

theorem Ser.Reads.mono {p : Ser K S} {P Q : S → Prop} {f : S → S → S} (hp : p.Reads Q f)
    (h : ∀ s, P s → Q s) : p.Reads P f := fun s t rest hs => hp s t rest (h s hs)

theorem Ser.Reads.restore {p : Ser K S} {P : S → Prop} {f : S → S → S} (hp : p.Reads P f) {s t : S}
    (h : P s) : p.restore s t = some (f s t) := by
  have := hp s t [] h
  rw [List.append_nil] at this
  simp only [Ser.restore, this]

end

/-- A set that goes on after `restore` exactly as the one that was saved: `h` is the history of the saved set, `h0`
that of the set into which the archive is loaded, `h'` what happens afterwards. -/
def Resumes {K X Q S R : Type} (M : RMachine X Q S R) (p : Ser K S) : Prop :=
  ∀ (h h0 h' : List (Op X Q)) (s t : S), M.exec M.init h = .val s → M.exec M.init h0 = .val t →
    ∃ s', p.restore s t = some s' ∧ M.trace s' h' = M.trace s h'

theorem Ser.Reads.congr {K S : Type} {p : Ser K S} {P : S → Prop} {f g : S → S → S} (hp : p.Reads P f)
    (h : ∀ s t, f s t = g s t) : p.Reads P g := fun s t rest hs => by rw [hp s t rest hs, h]

/-- Loading what `s` saved makes every set equal to `s`. -/
def Ser.Faithful {K S : Type} (p : Ser K S) : Prop := p.Reads (fun _ => True) fun s _ => s

/-- Proves `Reads` of the sequence of members in the definition `d`; hypotheses prove it for the parts. -/
macro "reads" d:ident : tactic => `(tactic|
  (unfold Ser.Faithful $d Ser.all
   simp only [List.foldr_cons, List.foldr_nil]
   apply Ser.Reads.congr
   · repeat' first
      | exact Ser.nil_reads _
      | exact Ser.member_reads Codec.nat_ok (fun _ _ => trivial) _
      | exact Ser.member_reads Codec.bool_ok (fun _ _ => trivial) _
      | exact Ser.member_reads Codec.res_ok (fun _ _ => trivial) _
      | exact Ser.member_reads Codec.num_ok (fun _ _ => trivial) _
      | exact Ser.member_reads (Codec.list_ok Codec.nat_ok) (fun _ _ => trivial) _
      | exact Ser.member_reads (Codec.list_ok Codec.num_ok) (fun _ _ => trivial) _
      | exact Ser.member_reads (Codec.list_ok (Codec.pair_ok Codec.num_ok Codec.res_ok)) (fun _ _ => trivial) _
      | exact Ser.member_reads (Codec.list_ok (Codec.pair_ok Codec.num_ok Codec.num_ok)) (fun _ _ => trivial) _
      | exact Ser.member_reads (Codec.pair_ok Codec.res_ok (Codec.pair_ok Codec.res_ok Codec.res_ok))
          (fun _ _ => trivial) _
      | exact Ser.part_reads (Q := fun _ => True) (by assumption) (fun _ _ => trivial) _
      | apply Ser.andThen_reads
   · intro s t
     rfl))

theorem Ser.Faithful.resumes {K X Q S R : Type} {p : Ser K S} (hp : p.Faithful) (M : RMachine X Q S R) :
    Resumes M p := by
  intro h h0 h' s t _ _
  exact ⟨_, hp.restore trivial, rfl⟩

section
variable {K : Type}

theorem numSer_faithful : (numSer : Ser K K).Faithful :=
  Ser.member_reads Codec.num_ok (fun _ _ => trivial) _

theorem kahanSer_faithful : (kahanSer : Ser K (Kahan K)).Faithful := by
  reads kahanSer

theorem countSumSer_faithful : (countSumSer : Ser K (CountSum K)).Faithful := by
  reads countSumSer

theorem countMeanSer_faithful : (countMeanSer : Ser K (CountMean K)).Faithful := by
  reads countMeanSer

theorem momentSer_faithful : (momentSer : Ser K (MomentSt K)).Faithful := by
  reads momentSer

theorem varianceSer_faithful {S : Type} {m : Ser K S} (hm : m.Faithful) : (varianceSer m).Faithful := by
  have hm' : m.Reads (fun _ => True) fun s _ => s := hm
  reads varianceSer

theorem covSer_faithful {S T : Type} {mx : Ser K S} {my : Ser K T} (hx : mx.Faithful) (hy : my.Faithful) :
    (covSer mx my).Faithful := by
  have hx' : mx.Reads (fun _ => True) fun s _ => s := hx
  have hy' : my.Reads (fun _ => True) fun s _ => s := hy
  reads covSer

theorem wmeanSer_faithful : (wmeanSer : Ser K (WMean K)).Faithful := by
  reads wmeanSer

theorem wmomentSer_faithful : (wmomentSer : Ser K (WMomentSt K)).Faithful := by
  reads wmomentSer

theorem wvarianceSer_faithful {S : Type} {m : Ser K S} (hm : m.Faithful) : (wvarianceSer m).Faithful := by
  have hm' : m.Reads (fun _ => True) fun s _ => s := hm
  reads wvarianceSer

theorem wcovSer_faithful {S T : Type} {mx : Ser K S} {my : Ser K T} (hx : mx.Faithful) (hy : my.Faithful) :
    (wcovSer mx my).Faithful := by
  have hx' : mx.Reads (fun _ => True) fun s _ => s := hx
  have hy' : my.Reads (fun _ => True) fun s _ => s := hy
  reads wcovSer

theorem densitySer_faithful : (densitySer : Ser K (DensitySt K)).Faithful := by
  reads densitySer

theorem wdensitySer_faithful : (wdensitySer : Ser K (WDensitySt K)).Faithful := by
  reads wdensitySer

theorem dmedianSer_faithful : (dmedianSer : Ser K (DMedianSt K)).Faithful := by
  have h : (densitySer : Ser K _).Reads (fun _ => True) fun s _ => s := densitySer_faithful
  reads dmedianSer

theorem wdmedianSer_faithful : (wdmedianSer : Ser K (WDMedianSt K)).Faithful := by
  have h : (wdensitySer : Ser K _).Reads (fun _ => True) fun s _ => s := wdensitySer_faithful
  reads wdmedianSer

theorem psqSer_faithful : (psqSer : Ser K (PsqSt K)).Faithful := by
  reads psqSer

theorem psqCumulSer_faithful : (psqCumulSer : Ser K (PsqCumulSt K)).Faithful := by
  have h : (psqSer : Ser K _).Reads (fun _ => True) fun s _ => s := psqSer_faithful
  reads psqCumulSer

theorem wpsqSer_faithful : (wpsqSer : Ser K (WPsqSt K)).Faithful := by
  reads wpsqSer

theorem wpsqCumulSer_faithful : (wpsqCumulSer : Ser K (WPsqCumulSt K)).Faithful := by
  have h : (wpsqSer : Ser K _).Reads (fun _ => True) fun s _ => s := wpsqSer_faithful
  reads wpsqCumulSer

theorem cmedianSer_faithful : (cmedianSer : Ser K (CMedianSt K)).Faithful := by
  have h : (psqCumulSer : Ser K _).Reads (fun _ => True) fun s _ => s := psqCumulSer_faithful
  reads cmedianSer

theorem wcmedianSer_faithful : (wcmedianSer : Ser K (WCMedianSt K)).Faithful := by
  have h : (wpsqCumulSer : Ser K _).Reads (fun _ => True) fun s _ => s := wpsqCumulSer_faithful
  reads wcmedianSer

theorem potSer_faithful : (potSer : Ser K (PotSt K)).Faithful := by
  reads potSer

end

/-! ## C52 for the sets without rolling window and tail cache -/

section basic
variable {K : Type} [Field K] [DecidableEq K]

/-- **C52** for `sum`, `weighted_sum`, `min` and `max`: one number, whatever the update and the extraction. -/
theorem C52_number {X R : Type} (x0 : K) (push : K → X → K) (read : K → R) :
    Resumes (plainSet x0 push read) (numSer : Ser K K) := numSer_faithful.resumes _

/-- **C52** for `sum_kahan` and `weighted_sum_kahan`: the compensation is saved, too. -/
theorem C52_kahan (x0 : K) :
    Resumes (plainSet (Kahan.init x0) Kahan.step Kahan.sum) (kahanSer : Ser K _)
      ∧ Resumes (plainSet ⟨x0 * 1, 0⟩ (weightedKahanStep (M := K)) Kahan.sum) (kahanSer : Ser K _) :=
  ⟨kahanSer_faithful.resumes _, kahanSer_faithful.resumes _⟩

/-- **C52** for the means. -/
theorem C52_mean (x0 : K) : Resumes (meanSet (lazyMean x0)) countSumSer
    ∧ Resumes (meanSet (immMean x0)) countMeanSer
    ∧ Resumes (meanSet (immWMean x0)) wmeanSer :=
  ⟨countSumSer_faithful.resumes _, countMeanSer_faithful.resumes _, wmeanSer_faithful.resumes _⟩

/-- **C52** for the moments. -/
theorem C52_moment (N : ℕ) (x0 : K) :
    Resumes (momentSet N x0) momentSer ∧ Resumes (wmomentSet N x0) wmomentSer :=
  ⟨momentSer_faithful.resumes _, wmomentSer_faithful.resumes _⟩

/-- **C52** for `variance`, with either mean, and `weighted_variance` with the immediate mean. -/
theorem C52_variance (x0 m0 : K) : Resumes (varianceSet (lazyMean m0) x0) (varianceSer countSumSer)
    ∧ Resumes (varianceSet (immMean m0) x0) (varianceSer countMeanSer)
    ∧ Resumes (wvarianceSet (immWMean m0) x0) (wvarianceSer wmeanSer) :=
  ⟨(varianceSer_faithful countSumSer_faithful).resumes _, (varianceSer_faithful countMeanSer_faithful).resumes _,
    (wvarianceSer_faithful wmeanSer_faithful).resumes _⟩

/-- **C52** for the covariances. -/
theorem C52_covariance (x0 y0 m0 v0 : K) :
    Resumes (covSet (lazyMean m0) (lazyMean v0) x0 y0) (covSer countSumSer countSumSer)
    ∧ Resumes (covSet (immMean m0) (immMean v0) x0 y0) (covSer countMeanSer countMeanSer)
    ∧ Resumes (wcovSet (immWMean m0) (immWMean v0)) (wcovSer wmeanSer wmeanSer) :=
  ⟨(covSer_faithful countSumSer_faithful countSumSer_faithful).resumes _,
    (covSer_faithful countMeanSer_faithful countMeanSer_faithful).resumes _,
    (wcovSer_faithful wmeanSer_faithful wmeanSer_faithful).resumes _⟩

end basic

section estimators
variable {K : Type} [Field K] [LinearOrder K]

/-- **C52** for the histograms and the medians derived from them. -/
theorem C52_density (lo hi : K) (cacheSize numBins : ℕ) (x0 : K) :
    Resumes (densitySet lo hi cacheSize numBins x0) densitySer
    ∧ Resumes (wdensitySet lo hi cacheSize numBins x0) wdensitySer
    ∧ Resumes (dmedianSet lo hi cacheSize numBins x0) dmedianSer
    ∧ Resumes (wdmedianSet lo hi cacheSize numBins x0) wdmedianSer :=
  ⟨densitySer_faithful.resumes _, wdensitySer_faithful.resumes _, dmedianSer_faithful.resumes _,
    wdmedianSer_faithful.resumes _⟩

/-- **C52** for the P-square estimators. -/
theorem C52_psquare (p : K) (ps : List K) (kind : Interp) (nan : Bool) :
    Resumes (psqQuantileSet p) psqSer
    ∧ Resumes (epsqSet ps) psqSer
    ∧ Resumes (epsqQuantileSet kind nan ps) psqSer
    ∧ Resumes (wpsqQuantileSet p) wpsqSer
    ∧ Resumes (wepsqSet ps) wpsqSer
    ∧ Resumes (wepsqQuantileSet kind nan ps) wpsqSer :=
  ⟨psqSer_faithful.resumes _, psqSer_faithful.resumes _, psqSer_faithful.resumes _, wpsqSer_faithful.resumes _,
    wpsqSer_faithful.resumes _, wpsqSer_faithful.resumes _⟩

/-- **C52** for the cumulative distributions and the medians derived from them. -/
theorem C52_cumulative (b : ℕ) :
    Resumes (psqCumulSet (K := K) b) psqCumulSer
    ∧ Resumes (wpsqCumulSet (K := K) b) wpsqCumulSer
    ∧ Resumes (cmedianSet (K := K) b) cmedianSer
    ∧ Resumes (wcmedianSet (K := K) b) wcmedianSer :=
  ⟨psqCumulSer_faithful.resumes _, wpsqCumulSer_faithful.resumes _, cmedianSer_faithful.resumes _,
    wcmedianSer_faithful.resumes _⟩

/-- **C52** for `peaks_over_threshold` and the quantile and tail mean on top of it. -/
theorem C52_pot (pw : K → K → Res K) (side : Side) (thr : K) :
    Resumes (potSet pw side thr) potSer
    ∧ Resumes (potQuantileSet pw side (potSet pw side thr)) potSer
    ∧ Resumes (potTailMeanSet pw side (potSet pw side thr)) potSer :=
  ⟨potSer_faithful.resumes _, potSer_faithful.resumes _, potSer_faithful.resumes _⟩

end estimators

/-! ## C52 for the rolling window -/

section rolling
variable {K : Type}

theorem moments_reads (ms : List ℕ) (P : RollSt K → Prop) :
    (all (ms.map fun M => member res (fun s : RollSt K => s.moment M)
      (fun s a => { s with moment := Function.update s.moment M a }))).Reads P
      fun s t => { t with moment := fun M => if M ∈ ms then s.moment M else t.moment M } := by
  induction ms with
  | nil => intro s t rest _; simp [all, nil]
  | cons M ms ih =>
    have h1 := Ser.andThen_reads (Ser.member_reads (P := P) Codec.res_ok
      (get := fun s : RollSt K => s.moment M) (fun _ _ => trivial)
      (fun s a => { s with moment := Function.update s.moment M a })) ih
    refine h1.congr ?_
    intro s t
    simp only [RollSt.mk.injEq, true_and, and_true]
    funext N
    by_cases h : N ∈ ms
    · simp [h]
    · by_cases h' : N = M
      · subst h'; simp [h]
      · simp [h, h']

theorem rollSer_reads (split : List K → ℕ) (ms : List ℕ) :
    (rollSer split ms).Reads (fun s => s.b.elems.length ≤ s.b.cap)
      fun s t => { s with moment := fun M => if M ∈ ms then s.moment M else t.moment M } := by
  have h1 : (all [member (ring num split) RollSt.b (fun (s : RollSt K) a => { s with b := a }),
      member res RollSt.sum (fun s a => { s with sum := a })]).Reads (fun s => s.b.elems.length ≤ s.b.cap)
      fun s t => { t with b := s.b, sum := s.sum } :=
    Ser.andThen_reads (Ser.member_reads (Codec.ring_ok Codec.num_ok split) (fun _ h => h) _)
      (Ser.andThen_reads (Ser.member_reads Codec.res_ok (fun _ _ => trivial) _) (Ser.nil_reads _))
  have h3 : (all [member res RollSt.imean (fun (s : RollSt K) a => { s with imean := a }),
        member res (fun s => s.var.prevMean) (fun s a => { s with var := { s.var with prevMean := a } }),
        member res (fun s => s.var.ss) (fun s a => { s with var := { s.var with ss := a } })]).Reads
        (fun s => s.b.elems.length ≤ s.b.cap) fun s t => { t with imean := s.imean, var := s.var } :=
    Ser.andThen_reads (Ser.member_reads Codec.res_ok (fun _ _ => trivial) _)
      (Ser.andThen_reads (Ser.member_reads Codec.res_ok (fun _ _ => trivial) _)
      (Ser.andThen_reads (Ser.member_reads Codec.res_ok (fun _ _ => trivial) _) (Ser.nil_reads _)))
  exact (Ser.andThen_reads h1 (Ser.andThen_reads (moments_reads ms _) h3)).congr fun _ _ => rfl

variable [Field K] [LinearOrder K]

/-- Queries that concern the moments of the orders `ms` only. -/
def RollQuery.In (ms : List ℕ) : RollQuery → Prop
  | .moment M => M ∈ ms
  | .lazyVariance => 2 ∈ ms
  | _ => True

/-- The states agree on all members a set with the moments `ms` has. -/
def RollSt.Same (ms : List ℕ) (s t : RollSt K) : Prop :=
  s.b = t.b ∧ s.sum = t.sum ∧ (∀ M ∈ ms, s.moment M = t.moment M) ∧ s.imean = t.imean ∧ s.var = t.var

theorem RollSt.Same.push {ms : List ℕ} {s t : RollSt K} (h : s.Same ms t) (kind : RollMeanKind) (x : K) :
    (s.push kind x).Same ms (t.push kind x) := by
  obtain ⟨h1, h2, h3, h4, h5⟩ := h
  refine ⟨?_, ?_, ?_, ?_, ?_⟩ <;> simp only [RollSt.push, h1, h2, h4, h5]
  intro M hM
  rw [h3 M hM]

theorem RollSt.Same.read {ms : List ℕ} {s t : RollSt K} (h : s.Same ms t) (kind : RollMeanKind)
    (q : RollQuery) (hq : q.In ms) : s.read kind q = t.read kind q := by
  obtain ⟨h1, h2, h3, h4, h5⟩ := h
  cases q with
  | moment M => simp only [RollSt.read, h1, h3 M hq]
  | lazyVariance => cases kind <;> simp only [RollSt.read, RollSt.mean, h1, h2, h3 2 hq, h4]
  | mean => cases kind <;> simp only [RollSt.read, RollSt.mean, h1, h2, h4]
  | _ => simp only [RollSt.read, h1, h2, h5]

theorem RollSt.Same.trace {ms : List ℕ} {kind : RollMeanKind} {N : ℕ} {x0 : K}
    (h : List (Op K RollQuery)) {s t : RollSt K} (hs : s.Same ms t)
    (hq : ∀ q, Op.query q ∈ h → q.In ms) :
    (rollSet kind N x0).trace s h = (rollSet kind N x0).trace t h := by
  induction h generalizing s t with
  | nil => rfl
  | cons o h ih =>
    cases o with
    | push x =>
      simp only [RMachine.trace, rollSet]
      exact ih (hs.push kind x) fun q hq' => hq q (List.mem_cons_of_mem _ hq')
    | query q =>
      simp only [RMachine.trace, rollSet]
      rw [hs.read kind q (hq q List.mem_cons_self)]
      exact congrArg _ (ih hs fun q hq' => hq q (List.mem_cons_of_mem _ hq'))

/-- **C52** for the rolling accumulators: the archive contains capacity and contents of the window, in two parts
split anywhere. -/
theorem C52_rolling (kind : RollMeanKind) (N : ℕ) (x0 : K) (split : List K → ℕ) (ms : List ℕ)
    (h h0 h' : List (Op K RollQuery)) (s t : RollSt K)
    (hs : (rollSet kind N x0).exec (rollSet kind N x0).init h = .val s)
    (_ht : (rollSet kind N x0).exec (rollSet kind N x0).init h0 = .val t)
    (hq : ∀ q, Op.query q ∈ h' → q.In ms) :
    ∃ s', (rollSer split ms).restore s t = some s' ∧
      (rollSet kind N x0).trace s' h' = (rollSet kind N x0).trace s h' := by
  have inv : s.b.elems.length ≤ s.b.cap := by
    refine RMachine.exec_inv_of_val (rollSet kind N x0) (fun s _ => s.b.elems.length ≤ s.b.cap) ?_ ?_ _ []
      (by simp [rollSet, RollSt.init, windowInit]) h hs
    · intro s _ x s' hi he
      simp only [rollSet, Res.val.injEq] at he
      subst he
      simp only [RollSt.push, windowPush, Ring.pushBack]
      split_ifs with h1 h2
      · simp; omega
      · exact hi
      · simp; omega
    · intro s _ q s' r hi he
      simp only [rollSet, Res.val.injEq, Prod.mk.injEq] at he
      rw [← he.1]; exact hi
  refine ⟨_, (rollSer_reads split ms).restore inv, RollSt.Same.trace h' ⟨rfl, rfl, ?_, rfl, rfl⟩ hq⟩
  intro M hM
  simp [hM]

end rolling

/-! ## C52 for the tail cache -/

section tail
variable {K : Type}

theorem tailSer_reads : (tailSer : Ser K (TailSt K Unit)).Reads (fun _ => True)
    fun s t => { s with variates := t.variates } := by
  unfold tailSer Ser.all
  simp only [List.foldr_cons, List.foldr_nil]
  apply Ser.Reads.congr
  · exact Ser.andThen_reads (Ser.member_reads Codec.bool_ok (fun _ _ => trivial) _)
      (Ser.andThen_reads (Ser.member_reads (Codec.list_ok Codec.nat_ok) (fun _ _ => trivial) _)
      (Ser.andThen_reads (Ser.member_reads (Codec.list_ok Codec.num_ok) (fun _ _ => trivial) _)
        (Ser.nil_reads _)))
  · intro s t; rfl

theorem unit_list_eq {a b : List Unit} (h : a.length = b.length) : a = b :=
  List.ext_getElem h fun _ _ _ => rfl

theorem tail_variates_eq {s t : TailSt K Unit} {k : ℕ} (hs : s.variates.length = k)
    (ht : t.variates.length = k) : ({ s with variates := t.variates } : TailSt K Unit) = s := by
  rw [unit_list_eq (ht.trans hs.symm)]

variable [LinearOrder K]

theorem tailPush_variates_length {V : Type} {H : HeapImpl ℕ} {side : Side} {s s' : TailSt K V} {x : K} {v : V}
    (h : tailPush H side s x v = .val s') : s'.variates.length = s.variates.length := by
  unfold tailPush tailAssign at h
  split_ifs at h with h1 h2
  · simp only [Res.val.injEq] at h; rw [← h]; simp
  · split at h
    · cases h
    · split at h
      · cases h
      · split_ifs at h with h3
        · dsimp only at h
          split at h
          · cases h
          · split_ifs at h
            simp only [Res.val.injEq] at h; rw [← h]; simp
        · simp only [Res.val.injEq] at h; rw [← h]

theorem tailSort_variates {V : Type} (H : HeapImpl ℕ) (side : Side) (s : TailSt K V) :
    (tailSort H side s).variates = s.variates := by
  unfold tailSort; split_ifs <;> rfl

variable [Field K]

/-- **C52** for the tail cache (of a set without variates). -/
theorem C52_tail (H : HeapImpl ℕ) (side : Side) (k : ℕ) (x0 : K) :
    Resumes (tailSet H side k x0) tailSer := by
  have inv : ∀ (h : List (Op K Unit)) (s : TailSt K Unit),
      (tailSet H side k x0).exec (tailSet H side k x0).init h = .val s → s.variates.length = k := by
    intro h s hs
    refine RMachine.exec_inv_of_val (tailSet H side k x0) (fun s _ => s.variates.length = k) ?_ ?_ _ []
      (by simp [tailSet, tailInit]) h hs
    · intro s _ x s' hi he
      rw [tailPush_variates_length he, hi]
    · intro s _ q s' r hi he
      simp only [tailSet] at he
      cases hr : tailResult H side s with
      | val l =>
        rw [hr] at he
        simp only [Res.val_bind, Res.pure_eq, Res.val.injEq, Prod.mk.injEq] at he
        rw [← he.1, tailSort_variates, hi]
      | _ => rw [hr] at he; cases he
  intro h h0 h' s t hs ht
  refine ⟨_, tailSer_reads.restore trivial, ?_⟩
  rw [tail_variates_eq (inv h s hs) (inv h0 t ht)]

theorem potProbSer_reads : (potProbSer : Ser K (PotProbSt K Unit)).Reads (fun _ => True)
    fun s t => { s with tail := { s.tail with variates := t.tail.variates } } := by
  unfold potProbSer Ser.all
  simp only [List.foldr_cons, List.foldr_nil]
  apply Ser.Reads.congr
  · exact Ser.andThen_reads (Ser.member_reads Codec.nat_ok (fun _ _ => trivial) _)
      (Ser.andThen_reads (Ser.part_reads tailSer_reads (fun _ _ => trivial) _)
      (Ser.andThen_reads (Ser.member_reads Codec.res_ok (fun _ _ => trivial) _)
      (Ser.andThen_reads (Ser.member_reads Codec.res_ok (fun _ _ => trivial) _)
      (Ser.andThen_reads (Ser.member_reads Codec.num_ok (fun _ _ => trivial) _)
      (Ser.andThen_reads (Ser.member_reads Codec.res_ok (fun _ _ => trivial) _)
      (Ser.andThen_reads (Ser.member_reads Codec.res_ok (fun _ _ => trivial) _)
      (Ser.andThen_reads (Ser.member_reads Codec.res_ok (fun _ _ => trivial) _)
      (Ser.andThen_reads (Ser.member_reads Codec.bool_ok (fun _ _ => trivial) _) (Ser.nil_reads _)))))))))
  · intro s t; rfl

variable [FloorRing K]

/-- **C52** for `peaks_over_threshold_prob`. -/
theorem C52_pot_prob (pw : K → K → Res K) (H : HeapImpl ℕ) (side : Side) (hasNaN : Bool) (k : ℕ) (tp : K) :
    Resumes (potProbSet pw H side hasNaN k () tp) potProbSer := by
  have inv : ∀ (h : List (Op (K × Unit) Unit)) (s : PotProbSt K Unit),
      (potProbSet pw H side hasNaN k () tp).exec (potProbSet pw H side hasNaN k () tp).init h = .val s →
        s.tail.variates.length = k := by
    intro h s hs
    refine RMachine.exec_inv_of_val (potProbSet pw H side hasNaN k () tp)
      (fun s _ => s.tail.variates.length = k) ?_ ?_ _ [] (by simp [potProbSet, potProbInit, tailInit]) h hs
    · intro s _ p s' hi he
      simp only [potProbSet, potProbPush] at he
      cases hp : tailPush H side s.tail p.1 p.2 with
      | val t =>
        rw [hp] at he
        simp only [Res.val_bind, Res.pure_eq, Res.val.injEq] at he
        rw [← he]
        exact (tailPush_variates_length hp).trans hi
      | _ => rw [hp] at he; cases he
    · intro s _ q s' r hi he
      suffices h : s'.tail.variates = s.tail.variates by rw [h, hi]
      simp only [potProbSet, potProbQuery] at he
      split_ifs at he with h1
      · cases h2 : tailN side s.cnt s.tp with
        | val n =>
          cases h3 : tailResult H side s.tail with
          | val l =>
            rw [h2, h3] at he
            simp only [Res.val_bind] at he
            split_ifs at he with h4 h5
            · unfold potNaN at he
              split_ifs at he
              · simp only [Res.val_bind, Res.pure_eq, Res.val.injEq, Prod.mk.injEq] at he
                rw [← he.1]
                exact tailSort_variates ..
              · cases he
            · split at he
              · cases he
              · simp only [Res.pure_eq, Res.val.injEq, Prod.mk.injEq] at he
                rw [← he.1]
                exact tailSort_variates ..
          | _ => rw [h2, h3] at he; cases he
        | _ => rw [h2] at he; cases he
      · simp only [Res.pure_eq, Res.val.injEq, Prod.mk.injEq] at he
        rw [← he.1]
  intro h h0 h' s t hs ht
  refine ⟨_, potProbSer_reads.restore trivial, ?_⟩
  rw [tail_variates_eq (inv h s hs) (inv h0 t ht)]

end tail

/-! ## C52 fails for the weighted peaks over threshold -/

/-- C52 fails for `weighted_peaks_over_threshold`: the accumulated weight `w_sum_` is not saved.  Saved after three
samples over the threshold and restored into a new set, the fit is not finite any more. -/
theorem C52_fails :
    let M := wpotSet (K := ℚ) (fun _ _ => .val 1) .right 1
    let pushes : List (Op (ℚ × ℚ) Unit) := [.push (2, 1), .push (3, 2), .push (5, 1)]
    ∃ s s' : WPotSt ℚ, M.exec M.init pushes = .val s ∧ wpotSer.restore s M.init = some s' ∧
      M.trace s [.query ()] ≠ M.trace s' [.query ()] ∧
      M.trace s' [.query ()] = [.val (.nonfinite, .nonfinite, .nonfinite)] :=
  ⟨_, _, rfl, rfl, by decide +kernel, by decide +kernel⟩

/-! ## C52 for sets of accumulators -/

section set
variable {K F σ A : Type} [DecidableEq F] {L : Lib F}

/-- The accumulators of the set have their places, and there are no others. -/
def Housed (L : Lib F) (S : List (Tag F)) (env : Env F σ) : Prop :=
  Lib.Seated L S env ∧ ∀ k, k ∉ S.map L.tkey → env k = none

theorem runOps_housed (I : Impl F σ A) {S : List (Tag F)} (hnd : (S.map L.tkey).Nodup) (ops : List (SetOp F A))
    {s s' : SetState F σ} (hs : Housed L S s.env) (h : L.runOps I S s ops = .val s') : Housed L S s'.env := by
  induction ops generalizing s with
  | nil =>
    rw [Lib.runOps, List.foldlM_nil] at h
    injection h with h
    exact h ▸ hs
  | cons o ops ih =>
    rw [Lib.runOps, List.foldlM_cons] at h
    cases o with
    | push a =>
      rw [Lib.step, Res.val_bind] at h
      refine ih ⟨Lib.seated_pushEnv I hnd _ a hs.1 fun t ht => ht, fun k hk => ?_⟩ h
      dsimp only
      rw [Lib.pushEnv_of_notMem I S _ _ a hk]
      exact hs.2 k hk
    | drop f =>
      rw [Lib.step] at h
      cases hc : L.dropFeature S s.refs f with
      | val c =>
        rw [hc] at h
        exact ih (s := { s with refs := c }) hs h
      | _ => rw [hc] at h; cases h

theorem construct_housed (I : Impl F σ A) {S : List (Tag F)} (hnd : (S.map L.tkey).Nodup) (req : List (Tag F)) :
    Housed L S (L.construct I S req).env := by
  refine ⟨Lib.seated_construct I hnd req, fun k hk => ?_⟩
  simp only [Lib.construct, Option.map_eq_none_iff, List.find?_eq_none, decide_eq_true_eq]
  intro t ht e
  exact hk (List.mem_map.2 ⟨t, ht, e⟩)

theorem accSers_load {p : F → Ser K σ} (hp : ∀ f, (p f).Faithful) (S' : List (Tag F)) (s t : SetState F σ)
    (hs : Lib.Seated L S' s.env) (ht : Lib.Seated L S' t.env) (hnd : (S'.map L.tkey).Nodup)
    (rest : List (Tok K)) :
    (L.setSer p S').load ((L.setSer p S').save s ++ rest) t =
      some ({ t with env := fun k => if k ∈ S'.map L.tkey then s.env k else t.env k }, rest) := by
  induction S' generalizing t with
  | nil => simp [Lib.setSer, Ser.all, Ser.nil]
  | cons u S' ih =>
    obtain ⟨x, hx⟩ := hs u List.mem_cons_self
    obtain ⟨y, hy⟩ := ht u List.mem_cons_self
    rw [List.map_cons, List.nodup_cons] at hnd
    have h1 : L.setSer p (u :: S') = Ser.andThen (L.accSer p u) (L.setSer p S') := rfl
    have h2 : (L.accSer p u).load ((L.accSer p u).save s ++ ((L.setSer p S').save s ++ rest)) t =
        some ({ t with env := Function.update t.env (L.tkey u) (some (u.base, x)) },
          (L.setSer p S').save s ++ rest) := by
      simp only [Lib.accSer, hx, hy, hp u.base x y _ trivial, Option.bind_eq_bind, Option.bind_some,
        Option.pure_def]
    rw [h1]
    simp only [Ser.andThen, List.append_assoc, h2, Option.bind_eq_bind, Option.bind_some]
    rw [ih _ (fun t' ht' => hs t' (List.mem_cons_of_mem _ ht')) _ hnd.2]
    · congr 3
      funext k
      simp only [List.map_cons, List.mem_cons]
      by_cases hk : k = L.tkey u
      · subst hk
        rw [if_neg hnd.1, Function.update_self, if_pos (Or.inl rfl), hx]
      · simp only [Function.update_of_ne hk, hk, false_or]
    · intro t' ht'
      have hne : L.tkey t' ≠ L.tkey u := fun e => hnd.1 (e ▸ List.mem_map_of_mem ht')
      dsimp only
      rw [Function.update_of_ne hne]
      exact ht t' (List.mem_cons_of_mem _ ht')

/-- What is restored: every accumulator, but not the reference counts. -/
theorem restore_set (I : Impl F σ A) {p : F → Ser K σ} (hp : ∀ f, (p f).Faithful) {S : List (Tag F)}
    (hnd : (S.map L.tkey).Nodup) (req : List (Tag F)) (ops ops0 : List (SetOp F A)) {s t : SetState F σ}
    (hs : L.runOps I S (L.construct I S req) ops = .val s)
    (ht : L.runOps I S (L.construct I S req) ops0 = .val t) :
    (L.setSer p S).restore s t = some { env := s.env, refs := t.refs } := by
  have h1 := runOps_housed I hnd ops (construct_housed I hnd req) hs
  have h2 := runOps_housed I hnd ops0 (construct_housed I hnd req) ht
  have h := accSers_load hp S s t h1.1 h2.1 hnd []
  rw [List.append_nil] at h
  simp only [Ser.restore, h]
  congr 2
  funext k
  by_cases hk : k ∈ S.map L.tkey
  · rw [if_pos hk]
  · rw [if_neg hk, h1.2 k hk, h2.2 k hk]

/-- **C52** for any set of accumulators each of which can be restored: save it after any stream of samples and load
the archive into a set of the same type, constructed in the same way, at whatever point of its own life; from then
on any sequence of samples and drops has the same effect on both.  Partial: nothing has been dropped in either set
before. -/
theorem C52_set_partial (hL : L.Ok) (I : Impl F σ A) {p : F → Ser K σ} (hp : ∀ f, (p f).Faithful) (w : Bool)
    {ord : List (Tag F) → List (Tag F)} (hord : ∀ l, (ord l).Perm l) (req : List (Tag F)) (xs ys : List A) :
    let S := L.accumulators w ord req
    ∃ s t s', L.runOps I S (L.construct I S req) (xs.map SetOp.push) = .val s ∧
      L.runOps I S (L.construct I S req) (ys.map SetOp.push) = .val t ∧
      (L.setSer p S).restore s t = some s' ∧ ∀ ops, L.runOps I S s' ops = L.runOps I S s ops := by
  intro S
  have hnd : (S.map L.tkey).Nodup := C42_unique hL w hord req
  refine ⟨_, _, _, runOps_pushes I S _ xs, runOps_pushes I S _ ys,
    restore_set I hp hnd req _ _ (runOps_pushes I S _ xs) (runOps_pushes I S _ ys), fun ops => rfl⟩

end set

/-- Counters for every feature. -/
def countingImpl : Impl StdF ℕ Unit where
  init _ := 0
  upd f env _ := match env (stdLib.key f) with
    | some (_, n) => n + 1
    | none => 0

/-- C52 fails after a drop: the reference count is not saved, so that a dropped accumulator is alive again in the
restored set. The count of `features<droppable<count>>` is frozen at 1 in the saved set and goes on counting in the
restored one. -/
theorem C52_drop_fails :
    let S := stdLib.accumulators false id [⟨.count, true⟩]
    let new := stdLib.construct countingImpl S [⟨.count, true⟩]
    let p : StdF → Ser ℚ ℕ := fun _ => Ser.member nat (fun n => n) (fun _ n => n)
    ∃ s s' r r', stdLib.runOps countingImpl S new [.push (), .drop ⟨.count, true⟩] = .val s ∧
      (stdLib.setSer p S).restore s new = some s' ∧
      stdLib.runOps countingImpl S s [.push (), .push ()] = .val r ∧
      stdLib.runOps countingImpl S s' [.push (), .push ()] = .val r' ∧
      r.env .count = some (.count, 1) ∧ r'.env .count = some (.count, 3) :=
  ⟨_, _, _, _, rfl, rfl, rfl, rfl, by decide +kernel, by decide +kernel⟩

/-! ## The hypotheses are met -/

/-- C52: a full tail cache, restored into a set with a history of its own. -/
example : ∃ s t s' : TailSt ℚ Unit,
    (tailSet HeapImpl.simple Side.right 2 (0 : ℚ)).exec (tailInit 2 0 ()) [.push 1, .push 5, .push 3] = .val s ∧
    (tailSet HeapImpl.simple Side.right 2 (0 : ℚ)).exec (tailInit 2 0 ()) [.push 7] = .val t ∧
    tailSer.restore s t = some s' ∧
    (tailSet HeapImpl.simple Side.right 2 (0 : ℚ)).trace s' [.push 4, .query ()] = [.val [5, 4]] :=
  ⟨_, _, _, rfl, rfl, rfl, by decide +kernel⟩

/-- C52: the window in the middle of a stream. -/
example : ∃ s s' : RollSt ℚ,
    (rollSet RollMeanKind.lazy 2 (0 : ℚ)).exec (RollSt.init 2 0) [.push 1, .push 5, .push 3] = .val s ∧
    (rollSer (fun _ => 1) [2]).restore s (RollSt.init 2 0) = some s' ∧
    (rollSet RollMeanKind.lazy 2 (0 : ℚ)).trace s' [.push 4, .query .mean, .query (.moment 2)]
      = [.val [.val (7 / 2)], .val [.val (25 / 2)]] :=
  ⟨_, _, rfl, rfl, by decide +kernel⟩

end Acc

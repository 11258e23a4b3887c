import Verif.Model.VecStats
import Mathlib.Data.List.Induction
import Mathlib.Tactic.Ring
import Mathlib.Algebra.Order.Ring.Rat

/-!
# C53: vector samples are treated componentwise

With samples of one dimension `d`, and an initial sample of that dimension, component `i` of every result is what the
scalar accumulator delivers for the stream of the components `i`.
-/

set_option linter.unusedSectionVars false

namespace Acc

variable {K : Type} [Field K] [DecidableEq K] [Container]

/-- Component `i` of a vector. -/
def coord (i : ℕ) (x : List K) : K := x.getD i 0

/-- The vector with `d` components `f 0, f 1, ...`. -/
def byCoord {α : Type} (d : ℕ) (f : ℕ → α) : List α := (List.range d).map f

section ops

theorem byCoord_length {α : Type} (d : ℕ) (f : ℕ → α) : (byCoord d f).length = d := by simp [byCoord]

theorem byCoord_congr {α : Type} {d : ℕ} {f g : ℕ → α} (h : ∀ i < d, f i = g i) : byCoord d f = byCoord d g :=
  List.map_congr_left fun i hi => h i (List.mem_range.1 hi)

theorem map_byCoord {α β : Type} (d : ℕ) (f : ℕ → α) (g : α → β) :
    (byCoord d f).map g = byCoord d fun i => g (f i) := by simp [byCoord]

theorem zipWith_byCoord {α β γ : Type} (h : α → β → γ) (d : ℕ) (f : ℕ → α) (g : ℕ → β) :
    List.zipWith h (byCoord d f) (byCoord d g) = byCoord d fun i => h (f i) (g i) := by
  simp [byCoord, List.zipWith_map_left, List.zipWith_map_right, List.zipWith_self]

theorem byCoord_getD {α : Type} (x : List α) (z : α) : byCoord x.length (fun i => x.getD i z) = x := by
  apply List.ext_getElem (by simp [byCoord])
  intro i h1 h2
  simp [byCoord, List.getElem?_eq_getElem h2]

theorem vec_eq {d : ℕ} {x : List K} (h : x.length = d) : vec x = byCoord d fun i => .val (coord i x) := by
  subst h
  conv_lhs => rw [vec, ← byCoord_getD x 0]
  rw [map_byCoord]
  rfl

theorem vzip_byCoord (f : K → K → K) (d : ℕ) (a b : ℕ → Res K) :
    vzip f (byCoord d a) (byCoord d b) = .val (byCoord d fun i => lift2 f (a i) (b i)) := by
  simp only [vzip, byCoord_length, Container.fits_self, if_true, zipWith_byCoord]

theorem vplusAssign_byCoord (d : ℕ) (a b : ℕ → Res K) :
    vplusAssign (byCoord d a) (byCoord d b) = .val (byCoord d fun i => lift2 (· + ·) (a i) (b i)) := by
  simp only [vplusAssign, byCoord_length, if_true, zipWith_byCoord]

theorem vmulS_byCoord (d : ℕ) (a : ℕ → Res K) (c : K) :
    vmulS (byCoord d a) c = byCoord d fun i => (a i >>= fun x => pure (x * c)) := by
  simp only [vmulS, map_byCoord]

theorem vdivS_byCoord (d : ℕ) (a : ℕ → Res K) (c : K) :
    vdivS (byCoord d a) c = byCoord d fun i => (a i >>= fun x => fdiv x c) := by
  simp only [vdivS, map_byCoord]

end ops

/-- A value or NaN. -/
def Plain (r : Res K) : Prop := (∃ a, r = .val a) ∨ r = .nonfinite

theorem plain_fdiv (a b : K) : Plain (fdiv a b) := by
  unfold fdiv Plain
  split_ifs <;> simp

theorem plain_val (a : K) : Plain (Res.val a) := Or.inl ⟨a, rfl⟩

/-! ## Sum, minimum, maximum, moments -/

section simple
variable {d : ℕ} {x0 : List K} (h0 : x0.length = d) {xs : List (List K)} (h : ∀ x ∈ xs, x.length = d)
include h0 h

theorem vsumRun_eq : vsumRun x0 xs = .val (byCoord d fun i => .val (sumRun id (coord i x0) (xs.map (coord i)))) := by
  unfold vsumRun
  rw [vec_eq h0]
  have key : ∀ (xs : List (List K)) (a : ℕ → K), (∀ x ∈ xs, x.length = d) →
      foldRes (fun s x => vplusAssign s (vec x)) (byCoord d fun i => .val (a i)) xs =
        .val (byCoord d fun i => .val (sumRun id (a i) (xs.map (coord i)))) := by
    intro xs
    induction xs with
    | nil => intro a _; rfl
    | cons x xs ih =>
      intro a hx
      simp only [foldRes, vec_eq (hx x (by simp)), vplusAssign_byCoord, Res.val_bind, lift2, Res.pure_eq]
      exact ih (fun i => a i + coord i x) fun y hy => hx y (by simp [hy])
  exact key xs (fun i => coord i x0) h

/-- **C53**, sum. -/
theorem C53_sum : vsumRun x0 xs =
    .val ((List.range d).map fun i => .val (sumRun id (x0.getD i 0) (xs.map fun x => x.getD i 0))) :=
  vsumRun_eq h0 h

end simple

theorem foldRes_vassign {α : Type} (pick : α → α → α) (z : α) {d : ℕ} (xs : List (List α)) (a : ℕ → α)
    (h : ∀ x ∈ xs, x.length = d) :
    foldRes (vassign pick) (byCoord d a) xs =
      .val (byCoord d fun i => (xs.map fun x => x.getD i z).foldl pick (a i)) := by
  induction xs generalizing a with
  | nil => rfl
  | cons x xs ih =>
    have hx : x.length = d := h x (by simp)
    conv_lhs => rw [foldRes, ← byCoord_getD x z, hx]
    simp only [vassign, byCoord_length, if_true, zipWith_byCoord, Res.val_bind]
    exact ih _ fun y hy => h y (by simp [hy])

theorem vlimit_eq {α : Type} (x0 : List α) (l : α) : vlimit x0 l = byCoord x0.length fun _ => l := by
  unfold vlimit byCoord
  split_ifs with h
  · simp [h]
  · apply List.ext_getElem <;> simp

/-- **C53**, minimum and maximum: for any comparison and any limits of the component type. -/
theorem C53_min_max {α : Type} (less : α → α → Bool) (lo hi z : α) {d : ℕ} {x0 : List α} (h0 : x0.length = d)
    {xs : List (List α)} (h : ∀ x ∈ xs, x.length = d) :
    vminRun less hi x0 xs = .val ((List.range d).map fun i => minRun less hi (xs.map fun x => x.getD i z))
    ∧ vmaxRun less lo x0 xs = .val ((List.range d).map fun i => maxRun less lo (xs.map fun x => x.getD i z)) := by
  subst h0
  unfold vminRun vmaxRun
  rw [vlimit_eq, vlimit_eq]
  exact ⟨foldRes_vassign _ z xs _ h, foldRes_vassign _ z xs _ h⟩

theorem vpow_eq {d : ℕ} (a : ℕ → K) (n : ℕ) (hn : n ≠ 0) :
    vpow (byCoord d fun i => .val (a i)) n = .val (byCoord d fun i => .val (mpow (a i) n)) := by
  induction n using Nat.strong_induction_on with
  | _ n ih =>
    unfold vpow
    rw [dif_neg hn]
    by_cases h1 : n = 1
    · subst h1
      rw [dif_pos rfl]
      congr 1
      apply byCoord_congr
      intro i _
      unfold mpow
      simp
    · rw [dif_neg h1, ih (n / 2) (by omega) (by omega)]
      have e : ∀ i, mpow (a i) n = if n % 2 = 1 then mpow (a i) (n / 2) * mpow (a i) (n / 2) * a i
          else mpow (a i) (n / 2) * mpow (a i) (n / 2) := by
        intro i
        conv_lhs => unfold mpow
        rw [dif_neg hn, dif_neg h1]
      simp only [Res.val_bind, vzip_byCoord, lift2, Res.pure_eq, e]
      split_ifs <;> rfl

theorem momentSt_cnt (N : ℕ) (y0 : K) (ys : List K) :
    (ys.foldl (MomentSt.push N) (MomentSt.init y0)).cnt = ys.length := by
  induction ys using List.reverseRecOn with
  | nil => rfl
  | append_singleton ys y ih => simp [List.foldl_append, MomentSt.push, ih]

section simple
variable {d : ℕ} {x0 : List K} (h0 : x0.length = d) {xs : List (List K)} (h : ∀ x ∈ xs, x.length = d)
include h0 h

theorem vmoment_fold {N : ℕ} (hN : N ≠ 0) : foldRes (VMomentSt.push N) ⟨0, vec x0⟩ xs =
    .val ⟨xs.length, byCoord d fun i =>
      .val ((xs.map (coord i)).foldl (MomentSt.push N) (MomentSt.init (coord i x0))).sum⟩ := by
  induction xs using List.reverseRecOn with
  | nil => simp only [foldRes, vec_eq h0]; rfl
  | append_singleton xs x ih =>
    rw [foldRes_append, ih (fun y hy => h y (by simp [hy]))]
    simp only [Res.val_bind, foldRes, VMomentSt.push, vec_eq (h x (by simp)), vpow_eq _ N hN, vplusAssign_byCoord,
      lift2, Res.pure_eq]
    simp [MomentSt.push, List.foldl_append]

/-- **C53**, moments. -/
theorem C53_moment {N : ℕ} (hN : 0 < N) : vmomentRun N x0 xs =
    .val ((List.range d).map fun i => momentRun N (x0.getD i 0) (xs.map fun x => x.getD i 0)) := by
  unfold vmomentRun
  rw [vmoment_fold h0 h (by omega)]
  simp only [Res.val_bind, vdivS_byCoord, Res.pure_eq]
  congr 1
  apply byCoord_congr
  intro i _
  have := momentSt_cnt N (x0.getD i 0) (xs.map fun x => x.getD i 0)
  rw [momentRun, MomentSt.result, this, List.length_map]
  rfl

end simple

/-! ## Means -/

/-- A provider of vector means delivers in every component what a scalar provider delivers. -/
def Tracks {X Y : Type} (V : VMeanProvider X K) (P : ℕ → MeanProvider Y K) (c : ℕ → X → Y) (d : ℕ)
    (ok : X → Prop) : Prop :=
  ∀ xs, (∀ x ∈ xs, ok x) → ∃ s, foldRes V.push V.init xs = .val s ∧
    V.read s = (List.range d).map fun i => (P i).read ((P i).run (xs.map (c i)))

/-- The means of the scalar provider are numbers or NaN. -/
def PlainMeans {Y : Type} (P : MeanProvider Y K) : Prop := ∀ ys, Plain (P.read (P.run ys))

theorem run_snoc {Y : Type} (P : MeanProvider Y K) (ys : List Y) (y : Y) :
    P.run (ys ++ [y]) = P.push (P.run ys) y := by
  simp [MeanProvider.run, List.foldl_append]

theorem lazyMean_plain (x0 : K) : PlainMeans (lazyMean x0) := fun _ => plain_fdiv _ _

theorem plain_bind {a : Res K} (ha : Plain a) {f : K → Res K} (hf : ∀ x, Plain (f x)) : Plain (a >>= f) := by
  obtain ⟨x, rfl⟩ | rfl := ha
  · exact hf x
  · exact Or.inr rfl

theorem immMean_plain (x0 : K) : PlainMeans (immMean x0) := by
  intro ys
  induction ys using List.reverseRecOn with
  | nil => exact plain_fdiv _ _
  | append_singleton ys y ih =>
    rw [run_snoc]
    exact plain_bind (a := ((immMean x0).run ys).mean) ih fun _ => plain_fdiv _ _

theorem lazyWMean_plain (x0 : K) : PlainMeans (lazyWMean x0) := fun _ => plain_fdiv _ _

theorem immWMean_plain (x0 : K) : PlainMeans (immWMean x0) := by
  intro ys
  induction ys using List.reverseRecOn with
  | nil => exact plain_fdiv _ _
  | append_singleton ys y ih =>
    rw [run_snoc]
    exact plain_bind (a := ((immWMean x0).run ys).mean) ih fun _ => plain_fdiv _ _

/-- **C53**, means of unweighted samples: lazy and immediate. -/
theorem C53_mean {d : ℕ} {x0 : List K} (h0 : x0.length = d) :
    Tracks (lazyVMean x0) (fun i => lazyMean (x0.getD i 0)) (fun i x => x.getD i 0) d (fun x => x.length = d)
    ∧ Tracks (immVMean x0) (fun i => immMean (x0.getD i 0)) (fun i x => x.getD i 0) d (fun x => x.length = d) := by
  constructor
  · intro xs h
    have key : ∃ s, foldRes (lazyVMean x0).push (lazyVMean x0).init xs = .val s ∧ s.cnt = xs.length ∧
        (∀ i, ((lazyMean (coord i x0)).run (xs.map (coord i))).cnt = xs.length) ∧
        s.v = byCoord d fun i => .val ((lazyMean (coord i x0)).run (xs.map (coord i))).sum := by
      induction xs using List.reverseRecOn with
      | nil => exact ⟨_, rfl, rfl, fun _ => rfl, vec_eq h0⟩
      | append_singleton xs x ih =>
        obtain ⟨s, hs, h1, h2, h3⟩ := ih fun y hy => h y (by simp [hy])
        have hp : (lazyVMean x0).push s x = .val (⟨s.cnt + 1, byCoord d fun i =>
            .val (((lazyMean (coord i x0)).run (xs.map (coord i))).sum + coord i x)⟩ : VCount K) := by
          simp only [lazyVMean, h3, vec_eq (h x (by simp)), vplusAssign_byCoord, lift2, Res.val_bind, Res.pure_eq]
        refine ⟨_, by rw [foldRes_append, hs]; simp only [Res.val_bind, foldRes]; rw [hp]; rfl, ?_, ?_, ?_⟩
        · simp [h1]
        · intro i
          rw [List.map_append, List.map_singleton, run_snoc]
          simp [lazyMean] at h2 ⊢
          exact h2 i
        · apply byCoord_congr
          intro i _
          rw [List.map_append, List.map_singleton, run_snoc]
          rfl
    obtain ⟨s, hs, h1, h2, h3⟩ := key
    refine ⟨s, hs, ?_⟩
    change vdivS s.v (s.cnt : K) = _
    rw [h3, vdivS_byCoord]
    apply byCoord_congr
    intro i _
    have := h2 i
    simp only [Res.val_bind, lazyMean, h1] at this ⊢
    exact congrArg _ (by rw [← this]; rfl)
  · intro xs h
    have key : ∃ s, foldRes (immVMean x0).push (immVMean x0).init xs = .val s ∧ s.cnt = xs.length ∧
        (∀ i, ((immMean (coord i x0)).run (xs.map (coord i))).cnt = xs.length) ∧
        s.v = byCoord d fun i => ((immMean (coord i x0)).run (xs.map (coord i))).mean := by
      induction xs using List.reverseRecOn with
      | nil =>
        refine ⟨_, rfl, rfl, fun _ => rfl, ?_⟩
        change vdivS (vec x0) 1 = _
        rw [vec_eq h0, vdivS_byCoord]
        rfl
      | append_singleton xs x ih =>
        obtain ⟨s, hs, h1, h2, h3⟩ := ih fun y hy => h y (by simp [hy])
        have hp : (immVMean x0).push s x = .val (⟨s.cnt + 1, byCoord d fun i =>
            immMeanStep (s.cnt + 1) ((immMean (coord i x0)).run (xs.map (coord i))).mean (coord i x)⟩ :
              VCount K) := by
          simp only [immVMean, h3, vec_eq (h x (by simp)), vmulS_byCoord, vzip_byCoord, vdivS_byCoord,
            Res.val_bind, Res.pure_eq]
          congr 2
          apply byCoord_congr
          intro i _
          generalize ((immMean (coord i x0)).run (xs.map (coord i))).mean = m
          cases m <;> rfl
        refine ⟨_, by rw [foldRes_append, hs]; simp only [Res.val_bind, foldRes]; rw [hp]; rfl, ?_, ?_, ?_⟩
        · simp [h1]
        · intro i
          rw [List.map_append, List.map_singleton, run_snoc]
          simp [immMean] at h2 ⊢
          exact h2 i
        · apply byCoord_congr
          intro i _
          rw [List.map_append, List.map_singleton, run_snoc, h1, ← h2 i]
          rfl
    obtain ⟨s, hs, h1, h2, h3⟩ := key
    exact ⟨s, hs, h3⟩

/-- **C53**, means of weighted samples: lazy and immediate. -/
theorem C53_weighted_mean {d : ℕ} {x0 : List K} (h0 : x0.length = d) :
    Tracks (lazyVWMean x0) (fun i => lazyWMean (x0.getD i 0)) (fun i p => (p.1.getD i 0, p.2)) d
      (fun p => p.1.length = d)
    ∧ Tracks (immVWMean x0) (fun i => immWMean (x0.getD i 0)) (fun i p => (p.1.getD i 0, p.2)) d
      (fun p => p.1.length = d) := by
  constructor
  · intro xs h
    have key : ∃ s, foldRes (lazyVWMean x0).push (lazyVWMean x0).init xs = .val s ∧
        (∀ i, ((lazyWMean (coord i x0)).run (xs.map fun p => (coord i p.1, p.2))).sumW = s.sumW) ∧
        s.v = byCoord d fun i => .val ((lazyWMean (coord i x0)).run (xs.map fun p => (coord i p.1, p.2))).wsum := by
      induction xs using List.reverseRecOn with
      | nil =>
        refine ⟨_, rfl, fun _ => rfl, ?_⟩
        change vmulS (vec x0) 1 = _
        rw [vec_eq h0, vmulS_byCoord]
        rfl
      | append_singleton xs x ih =>
        obtain ⟨s, hs, h2, h3⟩ := ih fun y hy => h y (by simp [hy])
        have hp : (lazyVWMean x0).push s x = .val (⟨sumStep s.sumW x.2, byCoord d fun i => .val (weightedSumStep
            ((lazyWMean (coord i x0)).run (xs.map fun p => (coord i p.1, p.2))).wsum (coord i x.1, x.2))⟩ :
              VWeight K) := by
          simp only [lazyVWMean, h3, vec_eq (h x (by simp)), vmulS_byCoord, vplusAssign_byCoord, lift2,
            Res.val_bind, Res.pure_eq]
          rfl
        refine ⟨_, by rw [foldRes_append, hs]; simp only [Res.val_bind, foldRes]; rw [hp]; rfl, ?_, ?_⟩
        · intro i
          rw [List.map_append, List.map_singleton, run_snoc]
          exact congrArg (sumStep · x.2) (h2 i)
        · apply byCoord_congr
          intro i _
          rw [List.map_append, List.map_singleton, run_snoc]
          rfl
    obtain ⟨s, hs, h2, h3⟩ := key
    refine ⟨s, hs, ?_⟩
    change vdivS s.v s.sumW = _
    rw [h3, vdivS_byCoord]
    apply byCoord_congr
    intro i _
    rw [← h2 i]
    rfl
  · intro xs h
    have key : ∃ s, foldRes (immVWMean x0).push (immVWMean x0).init xs = .val s ∧
        (∀ i, ((immWMean (coord i x0)).run (xs.map fun p => (coord i p.1, p.2))).sumW = s.sumW) ∧
        s.v = byCoord d fun i => ((immWMean (coord i x0)).run (xs.map fun p => (coord i p.1, p.2))).mean := by
      induction xs using List.reverseRecOn with
      | nil =>
        refine ⟨_, rfl, fun _ => rfl, ?_⟩
        change vdivS (vmulS (vec x0) 1) 1 = _
        rw [vec_eq h0, vmulS_byCoord, vdivS_byCoord]
        rfl
      | append_singleton xs x ih =>
        obtain ⟨s, hs, h2, h3⟩ := ih fun y hy => h y (by simp [hy])
        have hp : (immVWMean x0).push s x = .val (⟨sumStep s.sumW x.2, byCoord d fun i =>
            immWMeanStep (sumStep s.sumW x.2)
              ((immWMean (coord i x0)).run (xs.map fun p => (coord i p.1, p.2))).mean (coord i x.1, x.2)⟩ :
              VWeight K) := by
          simp only [immVWMean, h3, vec_eq (h x (by simp)), vmulS_byCoord, vzip_byCoord, vdivS_byCoord,
            Res.val_bind, Res.pure_eq]
          congr 2
          apply byCoord_congr
          intro i _
          generalize ((immWMean (coord i x0)).run (xs.map fun p => (coord i p.1, p.2))).mean = m
          cases m <;> rfl
        refine ⟨_, by rw [foldRes_append, hs]; simp only [Res.val_bind, foldRes]; rw [hp]; rfl, ?_, ?_⟩
        · intro i
          rw [List.map_append, List.map_singleton, run_snoc]
          exact congrArg (sumStep · x.2) (h2 i)
        · apply byCoord_congr
          intro i _
          rw [List.map_append, List.map_singleton, run_snoc]
          simp only [immWMean] at h2 ⊢
          rw [← h2 i]
    obtain ⟨s, hs, h2, h3⟩ := key
    exact ⟨s, hs, h3⟩

/-! ## Variances -/

theorem Tracks.snoc {X Y : Type} {V : VMeanProvider X K} {P : ℕ → MeanProvider Y K} {c : ℕ → X → Y} {d : ℕ}
    {ok : X → Prop} (hT : Tracks V P c d ok) {xs : List X} {x : X} (h : ∀ y ∈ xs ++ [x], ok y) {s : V.St}
    (hs : foldRes V.push V.init xs = .val s) :
    ∃ s', V.push s x = .val s' ∧ foldRes V.push V.init (xs ++ [x]) = .val s' ∧
      V.read s' = byCoord d fun i => (P i).read ((P i).run (xs.map (c i) ++ [c i x])) := by
  obtain ⟨s', h1, h2⟩ := hT (xs ++ [x]) h
  refine ⟨s', ?_, h1, ?_⟩
  · rw [foldRes_append, hs] at h1
    simp only [Res.val_bind, foldRes] at h1
    cases hp : V.push s x with
    | val a => rw [hp] at h1; exact h1
    | _ => rw [hp] at h1; cases h1
  · rw [h2]
    simp [byCoord]

theorem varianceStep_plain (cnt : ℕ) {m v : Res K} (hm : Plain m) (hv : Plain v) (x : K) :
    varianceStep cnt m v x = if cnt > 1 then
      lift2 (· + ·) (v >>= fun v => fdiv (v * ((cnt : K) - 1)) (cnt : K))
        (lift2 (· * ·) (lift2 (· - ·) (.val x) m) (lift2 (· - ·) (.val x) m) >>= fun q =>
          fdiv q ((cnt : K) - 1)) else v := by
  unfold varianceStep
  split_ifs
  · obtain ⟨m, rfl⟩ | rfl := hm <;> obtain ⟨v, rfl⟩ | rfl := hv <;>
      simp only [lift2, Res.val_bind, Res.nonfinite_bind, Res.pure_eq]
    unfold fdiv
    split_ifs <;> rfl
  · rfl

theorem variance_state (P : MeanProvider K K) (x0 : K) (xs : List K) :
    (xs.foldl (VarianceSt.push P) (VarianceSt.init P x0)).m = P.run xs ∧
    (xs.foldl (VarianceSt.push P) (VarianceSt.init P x0)).cnt = xs.length := by
  induction xs using List.reverseRecOn with
  | nil => exact ⟨rfl, rfl⟩
  | append_singleton xs x ih =>
    rw [List.foldl_append, run_snoc]
    simp only [List.foldl_cons, List.foldl_nil, VarianceSt.push, ih.1, ih.2, List.length_append]
    simp

theorem variance_snoc (P : MeanProvider K K) (x0 : K) (xs : List K) (x : K) :
    varianceRun P x0 (xs ++ [x]) =
      varianceStep (xs.length + 1) (P.read (P.run (xs ++ [x]))) (varianceRun P x0 xs) x := by
  have h := variance_state P x0 xs
  unfold varianceRun
  rw [List.foldl_append, run_snoc]
  simp only [List.foldl_cons, List.foldl_nil, VarianceSt.push, h.1, h.2]

theorem variance_plain {P : MeanProvider K K} (hP : PlainMeans P) (x0 : K) (xs : List K) :
    Plain (varianceRun P x0 xs) := by
  induction xs using List.reverseRecOn with
  | nil => exact plain_fdiv _ _
  | append_singleton xs x ih =>
    rw [variance_snoc, varianceStep_plain _ (hP _) ih]
    split_ifs
    · have hm := hP (xs ++ [x])
      refine plain_bind (plain_bind ih fun _ => plain_fdiv _ _) fun a => plain_bind ?_ fun b => plain_val _
      refine plain_bind (plain_bind (plain_bind (plain_val _) fun _ => plain_bind hm fun _ => plain_val _) fun _ =>
        plain_bind (plain_bind (plain_val _) fun _ => plain_bind hm fun _ => plain_val _) fun _ =>
          plain_val _) fun _ => plain_fdiv _ _
    · exact ih

/-- **C53**, variance, recursive and from moments, on top of any mean that is taken componentwise. -/
theorem C53_variance {d : ℕ} {x0 : List K} (h0 : x0.length = d) {V : VMeanProvider (List K) K}
    {P : ℕ → MeanProvider K K}
    (hT : Tracks V P (fun i x => x.getD i 0) d fun x => x.length = d) (hP : ∀ i, PlainMeans (P i))
    {xs : List (List K)} (h : ∀ x ∈ xs, x.length = d) :
    vvarianceRun V x0 xs =
      .val ((List.range d).map fun i => varianceRun (P i) (x0.getD i 0) (xs.map fun x => x.getD i 0))
    ∧ vlazyVarianceRun V x0 xs =
      .val ((List.range d).map fun i => lazyVarianceRun (P i) (x0.getD i 0) (xs.map fun x => x.getD i 0)) := by
  constructor
  · have key : ∃ m, foldRes V.push V.init xs = .val m ∧
        foldRes (VVarianceSt.push V) ⟨V.init, 0, vdivS (vec x0) 1⟩ xs =
          .val ⟨m, xs.length, byCoord d fun i => varianceRun (P i) (coord i x0) (xs.map (coord i))⟩ := by
      induction xs using List.reverseRecOn with
      | nil =>
        refine ⟨_, rfl, ?_⟩
        rw [vec_eq h0, vdivS_byCoord]
        rfl
      | append_singleton xs x ih =>
        obtain ⟨m, h1, h2⟩ := ih fun y hy => h y (by simp [hy])
        obtain ⟨m', h3, h4, h5⟩ := hT.snoc h h1
        refine ⟨m', h4, ?_⟩
        rw [foldRes_append, h2]
        simp only [Res.val_bind, foldRes, VVarianceSt.push, h3]
        have e : ∀ i, varianceRun (P i) (coord i x0) ((xs ++ [x]).map (coord i)) =
            if xs.length + 1 > 1 then
              lift2 (· + ·) (varianceRun (P i) (coord i x0) (xs.map (coord i)) >>= fun v =>
                  fdiv (v * (((xs.length + 1 : ℕ) : K) - 1)) ((xs.length + 1 : ℕ) : K))
                (lift2 (· * ·)
                  (lift2 (· - ·) (.val (coord i x)) ((P i).read ((P i).run (xs.map (coord i) ++ [coord i x]))))
                  (lift2 (· - ·) (.val (coord i x)) ((P i).read ((P i).run (xs.map (coord i) ++ [coord i x]))))
                  >>= fun q => fdiv q (((xs.length + 1 : ℕ) : K) - 1))
            else varianceRun (P i) (coord i x0) (xs.map (coord i)) := by
          intro i
          rw [List.map_append, List.map_singleton, variance_snoc,
            varianceStep_plain _ (hP i _) (variance_plain (hP i) _ _), List.length_map]
        split_ifs with hc
        · rw [h5, vec_eq (h x (by simp))]
          simp only [vzip_byCoord, vmulS_byCoord, vdivS_byCoord, Res.val_bind, Res.pure_eq, List.length_append,
            List.length_singleton]
          congr 2
          apply byCoord_congr
          intro i _
          rw [e i, if_pos hc]
          generalize varianceRun (P i) (coord i x0) (xs.map (coord i)) = v
          congr 1
          cases v <;> rfl
        · simp only [Res.pure_eq, Res.val_bind, List.length_append, List.length_singleton]
          congr 2
          apply byCoord_congr
          intro i _
          rw [e i, if_neg hc]
    obtain ⟨m, -, h2⟩ := key
    unfold vvarianceRun
    rw [h2]
    rfl
  · obtain ⟨s, hs, hr⟩ := hT xs h
    unfold vlazyVarianceRun
    rw [hs, C53_moment h0 h (by norm_num), Res.val_bind, Res.val_bind, hr]
    change (vzip _ (byCoord d _) (byCoord d _) >>= fun t => vzip _ (byCoord d _) t) = _
    simp only [vzip_byCoord, Res.val_bind]
    congr 1
    apply byCoord_congr
    intro i _
    unfold lazyVarianceRun lazyVarianceResult
    have h1 : Plain (momentRun 2 (x0.getD i 0) (xs.map fun x => x.getD i 0)) := plain_fdiv _ _
    have h2 := hP i (xs.map fun x => x.getD i 0)
    revert h1 h2
    generalize momentRun 2 (x0.getD i 0) (xs.map fun x => x.getD i 0) = a
    generalize (P i).read ((P i).run (xs.map fun x => x.getD i 0)) = b
    rintro (⟨a, rfl⟩ | rfl) (⟨b, rfl⟩ | rfl) <;> rfl

end Acc

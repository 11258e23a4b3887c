import Verif.Model.IntSamples
import Verif.Proofs.Rolling
import Verif.Proofs.Basic
import Mathlib.Data.List.Induction
import Mathlib.Algebra.Order.BigOperators.Group.List
import Mathlib.Tactic.Push

/-! # Integral samples: helper lemmas -/

set_option linter.unusedSectionVars false

namespace Acc

theorem foldlM_res_append {α β : Type} (f : β → α → Res β) (b : β) (l m : List α) :
    (l ++ m).foldlM f b = (l.foldlM f b).bind fun c => m.foldlM f c := by
  induction l generalizing b with
  | nil => rfl
  | cons a l ih =>
    rw [List.cons_append, List.foldlM_cons, List.foldlM_cons]
    show (f b a).bind _ = ((f b a).bind _).bind _
    cases f b a <;> first | exact ih _ | rfl

theorem foldlM_res_snoc {α β : Type} (f : β → α → Res β) (b : β) (l : List α) (a : α) :
    (l ++ [a]).foldlM f b = (l.foldlM f b).bind fun c => f c a := by
  rw [foldlM_res_append]
  congr 1
  funext c
  show (f c a).bind _ = _
  cases f c a <;> rfl

namespace IntTy

/-- A value of the type. -/
def InR (T : IntTy) (z : ℤ) : Prop := T.lo ≤ z ∧ z ≤ T.hi

theorem two_pow_pred {n : ℕ} (h : 0 < n) : (2 : ℤ) ^ n = 2 * 2 ^ (n - 1) := by
  rw [← pow_succ']
  congr 1
  omega

theorem wrap_of_inR {T : IntTy} (hT : 0 < T.bits) {z : ℤ} (h : T.InR z) : T.wrap z = z := by
  unfold InR lo hi at h
  unfold wrap
  split_ifs at h ⊢ with hs
  · have e := two_pow_pred hT
    have e' : ((2 ^ T.bits : ℕ) : ℤ) = 2 ^ T.bits := by push_cast; rfl
    refine Int.bmod_eq_of_le_mul_two ?_ ?_ <;> rw [e', e] <;> omega
  · exact Int.emod_eq_of_lt h.1 (by omega)

theorem inR_wrap {T : IntTy} (hT : 0 < T.bits) (z : ℤ) : T.InR (T.wrap z) := by
  unfold InR lo hi wrap
  split_ifs with hs
  · have e := two_pow_pred hT
    have e' : ((2 ^ T.bits : ℕ) : ℤ) = 2 ^ T.bits := by push_cast; rfl
    have h1 := Int.le_bmod (x := z) (m := 2 ^ T.bits) (by positivity)
    have h2 := Int.bmod_lt (x := z) (m := 2 ^ T.bits) (by positivity)
    rw [e', e] at h1 h2
    constructor <;> omega
  · have hp : (0 : ℤ) < 2 ^ T.bits := by positivity
    exact ⟨Int.emod_nonneg _ hp.ne', by have := Int.emod_lt_of_pos z hp; omega⟩

theorem promote_wide {T : IntTy} (h : 32 ≤ T.bits) : T.promote = T := by
  unfold promote; rw [if_neg (by omega)]

theorem promote_bits (T : IntTy) : 32 ≤ T.promote.bits := by
  unfold promote
  split_ifs with h
  · simp [int]
  · omega

theorem lo_int : int.lo = -2 ^ 31 := rfl
theorem hi_int : int.hi = 2 ^ 31 - 1 := rfl

/-- Promotion preserves values. -/
theorem inR_promote {T : IntTy} {z : ℤ} (h : T.InR z) : T.promote.InR z := by
  unfold promote
  split_ifs with hb
  · have h1 : (2 : ℤ) ^ T.bits ≤ 2 ^ 31 := pow_le_pow_right₀ (by norm_num) (by omega)
    have h2 : (2 : ℤ) ^ (T.bits - 1) ≤ 2 ^ 31 := pow_le_pow_right₀ (by norm_num) (by omega)
    unfold InR lo hi at h
    unfold InR
    rw [lo_int, hi_int]
    split_ifs at h <;> constructor <;> omega
  · exact h

theorem arith_inR {T : IntTy} (hT : 0 < T.bits) {z : ℤ} (h : T.InR z) : T.arith z = .val z := by
  unfold arith
  split_ifs with h1 h2
  · rfl
  · exact absurd h h2
  · rw [wrap_of_inR hT h]

theorem arith_signed {T : IntTy} (hs : T.signed = true) {z : ℤ} (h : ¬ T.InR z) : T.arith z = .ub := by
  unfold arith
  rw [if_pos hs]
  exact if_neg h

theorem arith_promote {T : IntTy} {z : ℤ} (h : T.InR z) : T.promote.arith z = .val z :=
  arith_inR (by have := promote_bits T; omega) (inR_promote h)

theorem add_inR {T : IntTy} (hT : 0 < T.bits) {a b : ℤ} (h : T.InR (a + b)) : T.add a b = .val (a + b) := by
  unfold add
  rw [arith_promote h]
  exact congrArg Res.val (wrap_of_inR hT h)

theorem sub_inR {T : IntTy} (hT : 0 < T.bits) {a b : ℤ} (h : T.InR (a - b)) : T.sub a b = .val (a - b) := by
  unfold sub
  rw [arith_promote h]
  exact congrArg Res.val (wrap_of_inR hT h)

theorem mul_inR {T : IntTy} (hT : 0 < T.bits) {a b : ℤ} (h : T.InR (a * b)) : T.mul a b = .val (a * b) := by
  unfold mul
  rw [arith_promote h]
  exact congrArg Res.val (wrap_of_inR hT h)

/-- The types whose sums wrap around: the unsigned ones, and those clearly narrower than `int`. -/
def Wraps (T : IntTy) : Prop := 0 < T.bits ∧ (T.bits ≤ 30 ∨ 32 ≤ T.bits ∧ T.signed = false)

theorem Wraps.pos {T : IntTy} (h : T.Wraps) : 0 < T.bits := h.1

theorem narrow_abs {T : IntTy} (hT : 0 < T.bits) (h : T.bits ≤ 30) {a : ℤ} (ha : T.InR a) : -2 ^ 30 ≤ a ∧ a < 2 ^ 30 := by
  have h1 : (2 : ℤ) ^ T.bits ≤ 2 ^ 30 := pow_le_pow_right₀ (by norm_num) (by omega)
  have h2 : (2 : ℤ) ^ (T.bits - 1) ≤ 2 ^ 30 := pow_le_pow_right₀ (by norm_num) (by omega)
  unfold InR lo hi at ha
  split_ifs at ha <;> constructor <;> omega

theorem wraps_arith {T : IntTy} (hw : T.Wraps) {z : ℤ} (h : T.bits ≤ 30 → -2 ^ 31 ≤ z ∧ z < 2 ^ 31) :
    ∃ y, T.promote.arith z = .val y ∧ T.wrap y = T.wrap z := by
  obtain ⟨hT, hn | ⟨hb, hs⟩⟩ := hw
  · refine ⟨z, ?_, rfl⟩
    have hp : T.promote = int := by unfold promote; rw [if_pos (by omega)]
    rw [hp]
    have := h hn
    refine arith_inR (by simp [int]) ⟨?_, ?_⟩
    · rw [lo_int]; omega
    · rw [hi_int]; omega
  · rw [promote_wide hb]
    refine ⟨T.wrap z, ?_, ?_⟩
    · unfold arith; rw [hs]; rfl
    · unfold wrap; rw [hs]; simp

theorem add_wraps {T : IntTy} (hw : T.Wraps) {a b : ℤ} (ha : T.InR a) (hb : T.InR b) :
    T.add a b = .val (T.wrap (a + b)) := by
  obtain ⟨y, h1, h2⟩ := wraps_arith hw (z := a + b) (fun hn => by
    have := narrow_abs hw.pos hn ha
    have := narrow_abs hw.pos hn hb
    omega)
  unfold add
  rw [h1]
  exact congrArg Res.val h2

theorem sub_wraps {T : IntTy} (hw : T.Wraps) {a b : ℤ} (ha : T.InR a) (hb : T.InR b) :
    T.sub a b = .val (T.wrap (a - b)) := by
  obtain ⟨y, h1, h2⟩ := wraps_arith hw (z := a - b) (fun hn => by
    have := narrow_abs hw.pos hn ha
    have := narrow_abs hw.pos hn hb
    omega)
  unfold sub
  rw [h1]
  exact congrArg Res.val h2

theorem wrap_add_left (T : IntTy) (a b : ℤ) : T.wrap (T.wrap a + b) = T.wrap (a + b) := by
  unfold wrap
  split_ifs
  · exact Int.bmod_add_bmod
  · simp

theorem wrap_mul (T : IntTy) (a b : ℤ) : T.wrap (T.wrap a * T.wrap b) = T.wrap (a * b) := by
  unfold wrap
  split_ifs
  · simp
  · exact (Int.mul_emod _ _ _).symm

end IntTy

open IntTy

/-! ## Sums -/

theorem sumInt_snoc (T : IntTy) (xs : List ℤ) (x : ℤ) : sumInt T (xs ++ [x]) = (sumInt T xs).bind fun s => T.add s x :=
  foldlM_res_snoc _ _ _ _

theorem sumInt_exact {T : IntTy} (hT : 0 < T.bits) (xs : List ℤ) (h : ∀ p, p <+: xs → T.InR p.sum) :
    sumInt T xs = .val xs.sum := by
  induction xs using List.reverseRecOn with
  | nil => rfl
  | append_singleton xs x ih =>
    rw [sumInt_snoc, ih fun p hp => h p (hp.trans (List.prefix_append _ _)), Res.bind, List.sum_append, List.sum_singleton]
    refine add_inR hT ?_
    have := h _ (List.prefix_refl _)
    rwa [List.sum_append, List.sum_singleton] at this

theorem sumInt_overflow {T : IntTy} (hb : 32 ≤ T.bits) (hs : T.signed = true) (xs : List ℤ)
    (h : ∃ p, p <+: xs ∧ ¬ T.InR p.sum) : sumInt T xs = .ub := by
  induction xs using List.reverseRecOn with
  | nil =>
    obtain ⟨p, hp, h⟩ := h
    rw [List.prefix_nil.1 hp] at h
    refine absurd ⟨?_, ?_⟩ h
    · unfold lo; rw [if_pos hs]; simp
    · unfold hi; rw [if_pos hs]
      have : (0 : ℤ) < 2 ^ (T.bits - 1) := by positivity
      simp; omega
  | append_singleton xs x ih =>
    rw [sumInt_snoc]
    by_cases hc : ∃ p, p <+: xs ∧ ¬ T.InR p.sum
    · rw [ih hc]; rfl
    · push Not at hc
      rw [sumInt_exact (by omega) xs hc]
      obtain ⟨p, hp, hn⟩ := h
      rcases List.prefix_concat_iff.1 hp with rfl | hp
      · rw [List.sum_append, List.sum_singleton] at hn
        show T.add xs.sum x = .ub
        unfold add
        rw [promote_wide hb, arith_signed hs hn]
        rfl
      · exact absurd (hc p hp) hn

theorem sumInt_wraps {T : IntTy} (hw : T.Wraps) (xs : List ℤ) (hx : ∀ x ∈ xs, T.InR x) :
    sumInt T xs = .val (T.wrap xs.sum) := by
  induction xs using List.reverseRecOn with
  | nil =>
    refine congrArg Res.val (wrap_of_inR hw.pos ⟨?_, ?_⟩).symm
    · unfold lo; split_ifs <;> simp
    · unfold hi
      have h1 : (0 : ℤ) < 2 ^ (T.bits - 1) := by positivity
      have h2 : (0 : ℤ) < 2 ^ T.bits := by positivity
      split_ifs <;> simp <;> omega
  | append_singleton xs x ih =>
    rw [sumInt_snoc, ih fun x hx' => hx x (by simp [hx'])]
    show T.add _ _ = _
    rw [add_wraps hw (inR_wrap hw.pos _) (hx x (by simp)), wrap_add_left, List.sum_append, List.sum_singleton]

/-! ## Powers -/

theorem inR_of_abs {T : IntTy} {z : ℤ} (h : |z| ≤ T.hi) (h0 : T.signed = false → 0 ≤ z) : T.InR z := by
  refine ⟨?_, (le_abs_self z).trans h⟩
  unfold lo
  unfold hi at h
  split_ifs with hs
  · rw [if_pos hs] at h
    have := neg_abs_le z
    omega
  · exact h0 (by simpa using hs)

theorem abs_pow_le {x : ℤ} {m n : ℕ} (hm : 0 < m) (h : m ≤ n) : |x ^ m| ≤ |x| ^ n := by
  rw [abs_pow]
  rcases eq_or_ne x 0 with rfl | hx
  · rw [abs_zero, zero_pow (by omega), zero_pow (by omega)]
  · exact pow_le_pow_right₀ (Int.one_le_abs hx) h

theorem powInt_exact {T : IntTy} (hT : 0 < T.bits) {x : ℤ} (hx : T.signed = false → 0 ≤ x) (n : ℕ)
    (h : |x| ^ n ≤ T.hi) : powInt T x n = .val (x ^ n) := by
  induction n using Nat.strong_induction_on with
  | _ n ih =>
    unfold powInt
    by_cases h0 : n = 0
    · rw [dif_pos h0, h0, pow_zero]
    by_cases h1 : n = 1
    · rw [dif_neg h0, dif_pos h1, h1, pow_one]
    · rw [dif_neg h0, dif_neg h1]
      have hle : ∀ m, 0 < m → m ≤ n → T.InR (x ^ m) := fun m hm hn =>
        inR_of_abs ((abs_pow_le hm hn).trans h) fun hs => pow_nonneg (hx hs) _
      have hh : |x| ^ (n / 2) ≤ T.hi := by
        rw [← abs_pow]; exact (abs_pow_le (by omega) (by omega)).trans h
      have e2 : x ^ (n / 2) * x ^ (n / 2) = x ^ (2 * (n / 2)) := by rw [← pow_add]; congr 1; omega
      have hm : T.mul (x ^ (n / 2)) (x ^ (n / 2)) = .val (x ^ (2 * (n / 2))) := by
        rw [mul_inR hT (by rw [e2]; exact hle _ (by omega) (by omega)), e2]
      rw [ih (n / 2) (by omega) hh, Res.val_bind, hm, Res.val_bind]
      split_ifs with h2
      · have e3 : x ^ (2 * (n / 2)) * x = x ^ n := by rw [← pow_succ]; congr 1; omega
        rw [mul_inR hT (by rw [e3]; exact hle _ (by omega) (by omega)), e3]
      · congr 2; omega

theorem momentSumInt_exact {T : IntTy} (hT : 0 < T.bits) {N : ℕ} (xs : List ℤ)
    (hx : T.signed = false → ∀ x ∈ xs, 0 ≤ x) (h : (xs.map fun x => |x| ^ N).sum ≤ T.hi) :
    momentSumInt T N xs = .val (xs.map (· ^ N)).sum := by
  induction xs using List.reverseRecOn with
  | nil => rfl
  | append_singleton xs x ih =>
    simp only [List.map_append, List.map_cons, List.map_nil, List.sum_append, List.sum_singleton] at h ⊢
    have hxs : 0 ≤ (xs.map fun x => |x| ^ N).sum := List.sum_nonneg fun z hz => by
      obtain ⟨y, -, rfl⟩ := List.mem_map.1 hz; positivity
    have hxx : 0 ≤ |x| ^ N := by positivity
    unfold momentSumInt at ih ⊢
    rw [foldlM_res_snoc, ih (fun hs y hy => hx hs y (by simp [hy])) (by omega)]
    show (powInt T x N).bind _ = _
    rw [powInt_exact hT (fun hs => hx hs x (by simp)) N (by omega)]
    refine add_inR hT (inR_of_abs ?_ fun hs => ?_)
    · refine (abs_add_le _ _).trans (le_trans (add_le_add ?_ (le_of_eq (abs_pow x N))) h)
      clear ih h hx hxs
      induction xs with
      | nil => simp
      | cons y ys ih =>
        simp only [List.map_cons, List.sum_cons]
        exact (abs_add_le _ _).trans (add_le_add (le_of_eq (abs_pow y N)) ih)
    · refine add_nonneg (List.sum_nonneg fun z hz => ?_) (pow_nonneg (hx hs x (by simp)) _)
      obtain ⟨y, hy, rfl⟩ := List.mem_map.1 hz
      exact pow_nonneg (hx hs y (by simp [hy])) _

/-! ## Rolling -/

theorem windowPush_lastN {X : Type} (N : ℕ) (xs : List X) (x : X) :
    windowPush ⟨N + 1, Spec.lastN (N + 1) xs⟩ x = nextRing N (Spec.lastN N xs) x := by
  have h1 := window_run N (xs ++ [x])
  rw [List.foldl_append, window_run] at h1
  rw [nextRing, ← lastN_snoc_succ]
  exact h1

theorem rollingSumInt_snoc (T : IntTy) (N : ℕ) (xs : List ℤ) (x : ℤ) {s : ℤ}
    (h : rollingSumInt T N xs = .val (⟨N + 1, Spec.lastN (N + 1) xs⟩, s)) {s' : ℤ}
    (h' : rollingSumIntStep T (nextRing N (Spec.lastN N xs) x) s x = .val s') :
    rollingSumInt T N (xs ++ [x]) = .val (⟨N + 1, Spec.lastN (N + 1) (xs ++ [x])⟩, s') := by
  unfold rollingSumInt at *
  rw [foldlM_res_snoc, h]
  show (rollingSumIntStep T (windowPush ⟨N + 1, Spec.lastN (N + 1) xs⟩ x) s x).bind _ = _
  rw [windowPush_lastN, h', lastN_snoc_succ]
  rfl

theorem rollingSumInt_nil (T : IntTy) (N : ℕ) :
    rollingSumInt T N [] = .val (⟨N + 1, Spec.lastN (N + 1) []⟩, 0) := by
  simp [rollingSumInt, windowInit, Spec.lastN]

/-- Dropping the oldest of a full window leaves the last `N - 1`. -/
theorem lastN_pred {X : Type} {N : ℕ} (xs : List X) (h : N ≤ xs.length) :
    (Spec.lastN N xs).tail = Spec.lastN (N - 1) xs := by
  unfold Spec.lastN
  rw [List.tail_drop]
  by_cases h0 : N = 0
  · subst h0
    simp
  · congr 1; omega

theorem rollingSumIntStep_eq (T : IntTy) {N : ℕ} (hN : 0 < N) (W : List ℤ) (x s : ℤ) :
    rollingSumIntStep T (nextRing N W x) s x =
      if W.length = N then (T.sub s (W.sum - W.tail.sum)).bind fun t => T.add t x else T.add s x := by
  unfold rollingSumIntStep
  rw [nextRing_full]
  by_cases h : W.length = N
  · obtain ⟨f, t, rfl⟩ : ∃ f t, W = f :: t := by
      cases W with
      | nil => simp at h; omega
      | cons f t => exact ⟨f, t, rfl⟩
    have hf : (nextRing N (f :: t) x).front = .val f := by simp [Ring.front, nextRing]
    simp only [h, decide_true, if_true, hf]
    simp
    rfl
  · simp only [h, decide_false, if_false]
    rfl

theorem nextWin_sum {N : ℕ} (hN : 0 < N) (W : List ℤ) (x : ℤ) :
    (nextWin N W x).sum = if W.length = N then W.tail.sum + x else W.sum + x := by
  unfold nextWin
  split_ifs with h
  · cases W with
    | nil => simp at h; omega
    | cons f t => simp
  · simp

theorem rollingSumInt_exact {T : IntTy} (hT : 0 < T.bits) {N : ℕ} (hN : 0 < N) (xs : List ℤ)
    (h : ∀ p, p <+: xs → T.InR (Spec.lastN N p).sum ∧ T.InR (Spec.lastN (N - 1) p).sum) :
    rollingSumInt T N xs = .val (⟨N + 1, Spec.lastN (N + 1) xs⟩, (Spec.lastN N xs).sum) := by
  induction xs using List.reverseRecOn with
  | nil =>
    rw [rollingSumInt_nil]
    simp [Spec.lastN]
  | append_singleton xs x ih =>
    refine rollingSumInt_snoc T N xs x (ih fun p hp => h p (hp.trans (List.prefix_append _ _))) ?_
    have h1 := (h _ (List.prefix_refl _)).1
    have h2 := (h _ (List.prefix_append xs [x])).2
    rw [lastN_snoc] at h1 ⊢
    change T.InR (nextWin N _ x).sum at h1
    show _ = Res.val (nextWin N _ x).sum
    rw [rollingSumIntStep_eq T hN]
    rw [nextWin_sum hN] at h1 ⊢
    split_ifs at h1 ⊢ with hl
    · have hxl : N ≤ xs.length := by rw [lastN_length] at hl; omega
      rw [← lastN_pred xs hxl] at h2
      rw [sub_inR hT (by simpa using h2)]
      show T.add _ _ = _
      rw [add_inR hT (by simpa using h1)]
      simp
    · exact add_inR hT h1

theorem rollingSumInt_wraps {T : IntTy} (hw : T.Wraps) {N : ℕ} (hN : 0 < N) (xs : List ℤ) (hx : ∀ x ∈ xs, T.InR x) :
    rollingSumInt T N xs = .val (⟨N + 1, Spec.lastN (N + 1) xs⟩, T.wrap (Spec.lastN N xs).sum) := by
  induction xs using List.reverseRecOn with
  | nil =>
    have := sumInt_wraps hw [] (by simp)
    have h0 : T.wrap 0 = 0 := (Res.val.inj this).symm
    rw [rollingSumInt_nil]
    simp [Spec.lastN, h0]
  | append_singleton xs x ih =>
    refine rollingSumInt_snoc T N xs x (ih fun x hx' => hx x (by simp [hx'])) ?_
    rw [lastN_snoc]
    show _ = Res.val (T.wrap (nextWin N _ x).sum)
    rw [rollingSumIntStep_eq T hN, nextWin_sum hN]
    have hxx : T.InR x := hx x (by simp)
    split_ifs with hl
    · have hf : T.InR ((Spec.lastN N xs).sum - (Spec.lastN N xs).tail.sum) := by
        cases hW : Spec.lastN N xs with
        | nil => rw [hW] at hl; simp at hl; omega
        | cons f t =>
          simp only [List.sum_cons, List.tail_cons, add_sub_cancel_right]
          refine hx f (List.mem_append_left _ ?_)
          have : f ∈ Spec.lastN N xs := by rw [hW]; simp
          exact List.mem_of_mem_drop this
      rw [sub_wraps hw (inR_wrap hw.pos _) hf]
      show T.add _ _ = _
      rw [add_wraps hw (inR_wrap hw.pos _) hxx]
      congr 1
      rw [wrap_add_left, sub_eq_add_neg, add_assoc, wrap_add_left]
      congr 1
      ring
    · rw [add_wraps hw (inR_wrap hw.pos _) hxx, wrap_add_left]

section mean
variable {K : Type} [Field K] [LinearOrder K] [IsStrictOrderedRing K]

theorem immRollingMeanIntStep_eq {T : IntTy} {N : ℕ} (W : List ℤ) (x : ℤ) (m : K)
    (h : ∀ a ∈ W, |a - x| ≤ T.promote.hi) :
    immRollingMeanIntStep T (nextRing N W x) m x
      = immRollingMeanStep (nextRing N (W.map (fun z : ℤ => (z : K))) (x : K)) (.val m) (x : K) := by
  have hcount : rollingCount (nextRing N W x) = rollingCount (nextRing N (W.map (fun z : ℤ => (z : K))) (x : K)) := by
    rw [nextRing_count, nextRing_count]
    unfold nextWin
    rw [List.length_map]
    split_ifs <;> simp
  have hpos : 0 < T.promote.bits := by have := promote_bits T; omega
  have har : ∀ z : ℤ, 0 ≤ z → z ≤ T.promote.hi → T.promote.arith z = .val z := by
    intro z h0 h1
    exact arith_inR hpos (inR_of_abs (by rwa [abs_of_nonneg h0]) fun _ => h0)
  unfold immRollingMeanIntStep immRollingMeanStep
  rw [nextRing_full, nextRing_full, List.length_map, hcount, Res.val_bind]
  generalize (rollingCount (nextRing N (W.map (fun z : ℤ => (z : K))) (x : K)) : K) = n
  by_cases hl : W.length = N
  · cases W with
    | nil =>
      have h1 : (nextRing N [] x).front = .val x := rfl
      have h2 : (nextRing N (([] : List ℤ).map (fun z : ℤ => (z : K))) (x : K)).front = .val (x : K) := rfl
      simp only [hl, decide_true, if_true, h1, h2, Res.val_bind, gt_iff_lt, lt_irrefl, if_false]
    | cons f t =>
      have h1 : (nextRing N (f :: t) x).front = .val f := by simp [Ring.front, nextRing]
      have h2 : (nextRing N ((f :: t).map (fun z : ℤ => (z : K))) (x : K)).front = .val (f : K) := by
        simp [Ring.front, nextRing]
      have hd := h f (by simp)
      simp only [hl, decide_true, if_true, h1, h2, Res.val_bind, gt_iff_lt, Int.cast_lt]
      split_ifs with c1 c2
      · rw [har (f - x) (by omega) ((le_abs_self _).trans hd), Res.val_bind, Int.cast_sub]
      · rw [har (x - f) (by omega) (by rw [← neg_sub]; exact (neg_le_abs _).trans hd), Res.val_bind, Int.cast_sub]
      · rfl
  · simp only [hl, decide_false]
    rfl

theorem immRollingMeanInt_exact {T : IntTy} {N : ℕ} (hN : 0 < N) (xs : List ℤ)
    (h : ∀ a ∈ xs, ∀ b ∈ xs, |a - b| ≤ T.promote.hi) :
    immRollingMeanInt (K := K) T N xs
      = .val (⟨N + 1, Spec.lastN (N + 1) xs⟩, Spec.mean ((Spec.lastN N xs).map fun z : ℤ => (z : K))) := by
  induction xs using List.reverseRecOn with
  | nil => simp [immRollingMeanInt, windowInit, Spec.lastN, Spec.mean]
  | append_singleton xs x ih =>
    have ih := ih fun a ha b hb => h a (by simp [ha]) b (by simp [hb])
    unfold immRollingMeanInt at ih ⊢
    rw [foldlM_res_snoc, ih]
    show (immRollingMeanIntStep T (windowPush ⟨N + 1, Spec.lastN (N + 1) xs⟩ x) _ x).bind _ = _
    rw [windowPush_lastN, immRollingMeanIntStep_eq, immRollingMeanStep_next hN, lastN_snoc_succ, lastN_snoc]
    · have : (nextWin N (Spec.lastN N xs) x).map (fun z : ℤ => (z : K))
          = nextWin N ((Spec.lastN N xs).map fun z : ℤ => (z : K)) (x : K) := by
        unfold nextWin
        rw [List.length_map]
        split_ifs
        · rw [List.map_tail, List.map_append]; rfl
        · rw [List.map_append]; rfl
      rw [← this]
      rfl
    · intro a ha
      exact h a (List.mem_append_left _ (List.mem_of_mem_drop ha)) x (by simp)

end mean

/-! ## Weighted -/

theorem common_bits (S T : IntTy) : 32 ≤ (common S T).bits := by
  unfold common
  have h1 := promote_bits S
  have h2 := promote_bits T
  dsimp only
  split_ifs <;> assumption

theorem weightedSumInt_snoc (S T : IntTy) (ps : List (ℤ × ℤ)) (p : ℤ × ℤ) :
    weightedSumInt S T (ps ++ [p]) = (weightedSumInt S T ps).bind fun s =>
      (mul2 S T p.1 p.2).bind fun q => (common S T).arith (s + q) :=
  foldlM_res_snoc _ _ _ _

theorem weightedSumInt_wraps {S T : IntTy} (hu : (common S T).signed = false) (ps : List (ℤ × ℤ)) :
    weightedSumInt S T ps = .val ((ps.map fun p => p.1 * p.2).sum % 2 ^ (common S T).bits) := by
  induction ps using List.reverseRecOn with
  | nil => simp [weightedSumInt]
  | append_singleton ps p ih =>
    have hm : mul2 S T p.1 p.2 = .val ((p.1 * p.2) % 2 ^ (common S T).bits) := by
      unfold mul2
      have : ∀ z, (common S T).arith z = .val ((common S T).wrap z) := by
        intro z; unfold arith; rw [hu]; rfl
      rw [this, wrap_mul]
      unfold wrap
      rw [hu]
      rfl
    rw [weightedSumInt_snoc, ih, hm]
    show (common S T).arith _ = _
    unfold arith wrap
    rw [hu]
    simp

theorem weightedSumInt_exact {S T : IntTy}
    (ps : List (ℤ × ℤ)) (hx : ∀ p ∈ ps, (common S T).InR p.1 ∧ (common S T).InR p.2 ∧ (common S T).InR (p.1 * p.2))
    (h : ∀ q, q <+: ps → (common S T).InR (q.map fun p => p.1 * p.2).sum) :
    weightedSumInt S T ps = .val (ps.map fun p => p.1 * p.2).sum := by
  have hC : 0 < (common S T).bits := by have := common_bits S T; omega
  induction ps using List.reverseRecOn with
  | nil => rfl
  | append_singleton ps p ih =>
    obtain ⟨h1, h2, h3⟩ := hx p (by simp)
    have hm : mul2 S T p.1 p.2 = .val (p.1 * p.2) := by
      unfold mul2
      dsimp only
      rw [wrap_of_inR hC h1, wrap_of_inR hC h2, arith_inR hC h3]
    rw [weightedSumInt_snoc, ih (fun q hq => hx q (by simp [hq])) fun q hq => h q (hq.trans (List.prefix_append _ _)), hm]
    have := h _ (List.prefix_refl _)
    simp only [List.map_append, List.map_cons, List.map_nil, List.sum_append, List.sum_singleton] at this ⊢
    exact arith_inR hC this

end Acc

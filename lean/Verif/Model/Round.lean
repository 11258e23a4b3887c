import Verif.Model.Res
import Mathlib.Algebra.Order.Floor.Ring
import Mathlib.Data.Rat.Floor
import Mathlib.Algebra.Order.Field.Power
import Mathlib.Tactic.Linarith
import Mathlib.Tactic.Positivity
import Mathlib.Tactic.FieldSimp

/-!
# Floating point numbers

The number types of the code are `float`, `double`, ...: every operation delivers the exact result rounded to a
representable number.  `Rounding K` is such a rounding of the numbers `K`, `Fl R` the type of representable numbers
with the rounded operations.  Everything in `Model/` that needs only `Arith` can be run on `Fl R`.

Not modelled: overflow to infinity, signed zeros, NaN as an operand.  Underflow is outside of the theorems that
assume `RelErr`.
-/

namespace Acc

section
variable {K : Type} [Field K] [LinearOrder K]

/-- A rounding of `K`: monotone, its values are fixed points, 0 and 1 are representable, and with a number its
negative is.  All rounding modes of IEEE 754 are of this kind (as long as nothing overflows). -/
structure Rounding (K : Type) [Field K] [LinearOrder K] where
  rd : K → K
  mono : Monotone rd
  idem : ∀ x, rd (rd x) = rd x
  zero : rd 0 = 0
  one : rd 1 = 1
  neg : ∀ x, rd x = x → rd (-x) = -x

/-- The relative error of every operation is at most `u` (the unit roundoff): `2⁻⁵³` for `double` rounded to
nearest, in the absence of underflow. -/
def Rounding.RelErr (R : Rounding K) (u : K) : Prop := ∀ x, |R.rd x - x| ≤ u * |x|

/-- The integers `0, …, n` are representable (`n ≤ 2⁵³` for `double`). -/
def Rounding.Counts (R : Rounding K) (n : ℕ) : Prop := ∀ k ≤ n, R.rd (k : K) = k

/-- The representable numbers. -/
def Fl (R : Rounding K) : Type := {x : K // R.rd x = x}

namespace Fl
variable {R : Rounding K}

/-- The number itself. -/
def val (a : Fl R) : K := a.1

/-- A number rounded. -/
def ofK (R : Rounding K) (x : K) : Fl R := ⟨R.rd x, R.idem x⟩

instance : LinearOrder (Fl R) := inferInstanceAs (LinearOrder {x : K // R.rd x = x})

/-- The operations of the type: the exact result, rounded. -/
instance : Arith (Fl R) where
  add a b := ofK R (a.val + b.val)
  sub a b := ofK R (a.val - b.val)
  mul a b := ofK R (a.val * b.val)
  div a b := ofK R (a.val / b.val)
  neg a := ⟨-a.val, R.neg _ a.2⟩
  zero := ⟨0, R.zero⟩
  one := ⟨1, R.one⟩
  natCast n := ofK R n

/-- `std::ceil` of a representable number. -/
instance [FloorRing K] : Ceil (Fl R) := ⟨fun a => ⌈a.val⌉⟩

theorem rd_val (a : Fl R) : R.rd a.val = a.val := a.2

@[simp] theorem val_ofK (x : K) : (ofK R x).val = R.rd x := rfl
theorem val_add (a b : Fl R) : (a + b).val = R.rd (a.val + b.val) := rfl
theorem val_sub (a b : Fl R) : (a - b).val = R.rd (a.val - b.val) := rfl
theorem val_mul (a b : Fl R) : (a * b).val = R.rd (a.val * b.val) := rfl
theorem val_div (a b : Fl R) : (a / b).val = R.rd (a.val / b.val) := rfl
@[simp] theorem val_neg (a : Fl R) : (-a).val = -a.val := rfl
@[simp] theorem val_zero : (0 : Fl R).val = 0 := rfl
@[simp] theorem val_one : (1 : Fl R).val = 1 := rfl
theorem val_natCast (n : ℕ) : ((n : ℕ) : Fl R).val = R.rd n := rfl
theorem le_iff {a b : Fl R} : a ≤ b ↔ a.val ≤ b.val := Iff.rfl
theorem lt_iff {a b : Fl R} : a < b ↔ a.val < b.val := Iff.rfl
theorem ext {a b : Fl R} (h : a.val = b.val) : a = b := Subtype.ext h
theorem ext_iff {a b : Fl R} : a = b ↔ a.val = b.val := ⟨fun h => h ▸ rfl, ext⟩
theorem eq_zero_iff {a : Fl R} : a = 0 ↔ a.val = 0 := ext_iff

end Fl
end

/-! ## Binary floating point with `p` significant bits, rounding to nearest, ties to even -/

/-- The exponent of `x > 0`: `2 ^ e ≤ x < 2 ^ (e + 1)`. -/
def expo (x : ℚ) : ℤ :=
  let e : ℤ := (Nat.log2 x.num.natAbs : ℤ) - Nat.log2 x.den
  if (2 : ℚ) ^ e ≤ x then e else e - 1

theorem expo_spec {x : ℚ} (hx : 0 < x) : (2 : ℚ) ^ expo x ≤ x ∧ x < (2 : ℚ) ^ (expo x + 1) := by
  have hn : x.num.natAbs ≠ 0 := by
    have := Rat.num_pos.2 hx
    omega
  have hd : x.den ≠ 0 := x.den_nz
  have e : x = (x.num.natAbs : ℚ) / x.den := by
    have h1 : ((x.num.natAbs : ℤ) : ℚ) = (x.num : ℚ) := by
      rw [Int.natAbs_of_nonneg (Rat.num_pos.2 hx).le]
    rw [← Int.cast_natCast, h1]
    exact (Rat.num_div_den x).symm
  have hd' : (0 : ℚ) < x.den := by exact_mod_cast Nat.pos_of_ne_zero hd
  have n1 : (2 : ℚ) ^ Nat.log2 x.num.natAbs ≤ x.num.natAbs := by
    exact_mod_cast Nat.log2_self_le hn
  have n2 : (x.num.natAbs : ℚ) < 2 ^ (Nat.log2 x.num.natAbs + 1) := by
    exact_mod_cast Nat.lt_log2_self
  have d1 : (2 : ℚ) ^ Nat.log2 x.den ≤ x.den := by exact_mod_cast Nat.log2_self_le hd
  have d2 : (x.den : ℚ) < 2 ^ (Nat.log2 x.den + 1) := by exact_mod_cast Nat.lt_log2_self
  have lo : (2 : ℚ) ^ ((Nat.log2 x.num.natAbs : ℤ) - Nat.log2 x.den - 1) ≤ x := by
    rw [show ((Nat.log2 x.num.natAbs : ℤ) - Nat.log2 x.den - 1)
      = (Nat.log2 x.num.natAbs : ℕ) - (Nat.log2 x.den + 1 : ℕ) by push_cast; ring,
      zpow_sub₀ (by norm_num), zpow_natCast, zpow_natCast]
    nth_rewrite 3 [e]
    exact div_le_div₀ (by positivity) n1 hd' d2.le
  have hi : x < (2 : ℚ) ^ ((Nat.log2 x.num.natAbs : ℤ) - Nat.log2 x.den + 1) := by
    rw [show ((Nat.log2 x.num.natAbs : ℤ) - Nat.log2 x.den + 1)
      = (Nat.log2 x.num.natAbs + 1 : ℕ) - (Nat.log2 x.den : ℕ) by push_cast; ring,
      zpow_sub₀ (by norm_num), zpow_natCast, zpow_natCast]
    nth_rewrite 1 [e]
    exact div_lt_div₀ n2 d1 (by positivity) (by positivity)
  unfold expo
  dsimp only
  split
  · exact ⟨by assumption, hi⟩
  · refine ⟨lo, ?_⟩
    rw [sub_add_cancel]
    exact not_le.1 (by assumption)

theorem expo_unique {x : ℚ} (hx : 0 < x) {e : ℤ} (h1 : (2 : ℚ) ^ e ≤ x) (h2 : x < (2 : ℚ) ^ (e + 1)) :
    expo x = e := by
  obtain ⟨s1, s2⟩ := expo_spec hx
  apply le_antisymm
  · by_contra hc
    have : (2 : ℚ) ^ (e + 1) ≤ 2 ^ expo x := zpow_le_zpow_right₀ (by norm_num) (by omega)
    linarith
  · by_contra hc
    have : (2 : ℚ) ^ (expo x + 1) ≤ 2 ^ e := zpow_le_zpow_right₀ (by norm_num) (by omega)
    linarith

theorem expo_mono {x y : ℚ} (hx : 0 < x) (h : x ≤ y) : expo x ≤ expo y := by
  by_contra hc
  have : (2 : ℚ) ^ (expo y + 1) ≤ 2 ^ expo x := zpow_le_zpow_right₀ (by norm_num) (by omega)
  have h1 := (expo_spec hx).1
  have h2 := (expo_spec (hx.trans_le h)).2
  linarith

/-- Distance of neighbouring numbers around `x > 0`. -/
def ulp (p : ℕ) (x : ℚ) : ℚ := (2 : ℚ) ^ (expo x - p + 1)

/-- The nearest integer; of two nearest ones the even one. -/
def roundEven (x : ℚ) : ℤ :=
  let n := ⌊x + 1 / 2⌋
  if (n : ℚ) = x + 1 / 2 ∧ n % 2 = 1 then n - 1 else n

/-- A positive number rounded. -/
def roundPos (p : ℕ) (x : ℚ) : ℚ := (roundEven (x / ulp p x) : ℤ) * ulp p x

/-- `x` rounded to `p` bits (unbounded exponent). -/
def roundBits (p : ℕ) (x : ℚ) : ℚ :=
  if 0 < x then roundPos p x else if x < 0 then -roundPos p (-x) else 0

theorem ulp_pos (p : ℕ) (x : ℚ) : 0 < ulp p x := zpow_pos (by norm_num) _

theorem pow_eq_ulp (p : ℕ) (x : ℚ) : (2 : ℚ) ^ (expo x) = 2 ^ ((p : ℤ) - 1) * ulp p x := by
  rw [ulp, ← zpow_add₀ (by norm_num)]; congr 1; ring

theorem pow_succ_eq_ulp (p : ℕ) (x : ℚ) : (2 : ℚ) ^ (expo x + 1) = 2 ^ (p : ℤ) * ulp p x := by
  rw [ulp, ← zpow_add₀ (by norm_num)]; congr 1; ring

theorem pow_le {x : ℚ} (hx : 0 < x) : (2 : ℚ) ^ (expo x) ≤ x := (expo_spec hx).1

theorem lt_pow {x : ℚ} (hx : 0 < x) : x < (2 : ℚ) ^ (expo x + 1) := (expo_spec hx).2

theorem roundEven_mono {x y : ℚ} (h : x ≤ y) : roundEven x ≤ roundEven y := by
  have hm : ⌊x + 1 / 2⌋ ≤ ⌊y + 1 / 2⌋ := Int.floor_mono (by linarith)
  unfold roundEven
  dsimp only
  split_ifs with h1 h2 h2
  · omega
  · omega
  · rcases hm.eq_or_lt with e | l
    · exfalso
      apply h1
      have h3 := Int.floor_le (x + 1 / 2)
      rw [e] at h3 ⊢
      refine ⟨?_, h2.2⟩
      rw [h2.1] at h3 ⊢
      linarith
    · omega
  · exact hm

theorem roundEven_intCast (n : ℤ) : roundEven (n : ℚ) = n := by
  have e : ⌊(n : ℚ) + 1 / 2⌋ = n := by
    rw [Int.floor_eq_iff]
    constructor <;> linarith
  unfold roundEven
  dsimp only
  rw [e, if_neg]
  rintro ⟨h, _⟩
  linarith

theorem abs_sub_roundEven (x : ℚ) : |x - roundEven x| ≤ 1 / 2 := by
  have h1 := Int.floor_le (x + 1 / 2)
  have h2 := Int.lt_floor_add_one (x + 1 / 2)
  unfold roundEven
  dsimp only
  split_ifs with h
  · rw [abs_le]
    push_cast
    constructor <;> linarith [h.1]
  · rw [abs_le]
    constructor <;> linarith

theorem roundPos_bounds {p : ℕ} (hp : 0 < p) {x : ℚ} (hx : 0 < x) :
    (2 : ℚ) ^ (expo x) ≤ roundPos p x ∧ roundPos p x ≤ (2 : ℚ) ^ (expo x + 1) := by
  have hu := ulp_pos p x
  obtain ⟨q, rfl⟩ : ∃ q, p = q + 1 := ⟨p - 1, by omega⟩
  have e1 : (2 : ℚ) ^ (expo x) = ((2 ^ q : ℤ) : ℚ) * ulp (q + 1) x := by
    rw [pow_eq_ulp (q + 1) x]; congr 1; push_cast; rw [← zpow_natCast]; congr 1; ring
  have e2 : (2 : ℚ) ^ (expo x + 1) = ((2 ^ (q + 1) : ℤ) : ℚ) * ulp (q + 1) x := by
    rw [pow_succ_eq_ulp (q + 1) x]; congr 1; push_cast; rw [← zpow_natCast]; rfl
  rw [e1, e2, roundPos]
  have h1 : ((2 ^ q : ℤ) : ℚ) ≤ x / ulp (q + 1) x := by
    rw [le_div_iff₀ hu, ← e1]; exact pow_le hx
  have h2 : x / ulp (q + 1) x ≤ ((2 ^ (q + 1) : ℤ) : ℚ) := by
    rw [div_le_iff₀ hu, ← e2]; exact (lt_pow hx).le
  refine ⟨mul_le_mul_of_nonneg_right ?_ hu.le, mul_le_mul_of_nonneg_right ?_ hu.le⟩
  · have := roundEven_mono h1; rw [roundEven_intCast] at this; exact_mod_cast this
  · have := roundEven_mono h2; rw [roundEven_intCast] at this; exact_mod_cast this

theorem roundPos_pos {p : ℕ} (hp : 0 < p) {x : ℚ} (hx : 0 < x) : 0 < roundPos p x :=
  lt_of_lt_of_le (zpow_pos (by norm_num) _) (roundPos_bounds hp hx).1

theorem roundPos_mono {p : ℕ} (hp : 0 < p) {x y : ℚ} (hx : 0 < x) (h : x ≤ y) :
    roundPos p x ≤ roundPos p y := by
  have hy := lt_of_lt_of_le hx h
  have hl : expo x ≤ expo y := expo_mono hx h
  rcases hl.eq_or_lt with e | l
  · have eu : ulp p x = ulp p y := by rw [ulp, ulp, e]
    rw [roundPos, roundPos, eu]
    refine mul_le_mul_of_nonneg_right ?_ (ulp_pos p y).le
    exact_mod_cast roundEven_mono (div_le_div_of_nonneg_right h (ulp_pos p y).le)
  · refine (roundPos_bounds hp hx).2.trans (le_trans ?_ (roundPos_bounds hp hy).1)
    exact zpow_le_zpow_right₀ (by norm_num) (by omega)

theorem roundPos_err (p : ℕ) (x : ℚ) : |roundPos p x - x| ≤ ulp p x / 2 := by
  have hu := ulp_pos p x
  have h : roundPos p x - x = -((x / ulp p x - roundEven (x / ulp p x)) * ulp p x) := by
    rw [sub_mul, div_mul_cancel₀ _ hu.ne', roundPos]; ring
  rw [h, abs_neg, abs_mul, abs_of_pos hu]
  have := abs_sub_roundEven (x / ulp p x)
  nlinarith

/-- A number of the form `m * 2 ^ e` with `m ≤ 2 ^ p` is not changed. -/
theorem roundPos_fix {p : ℕ} {x : ℚ} (m : ℤ) (h : x = m * ulp p x) : roundPos p x = x := by
  rw [roundPos]
  have hu := ulp_pos p x
  have : x / ulp p x = m := by rw [div_eq_iff hu.ne']; exact h
  rw [this, roundEven_intCast, ← h]

theorem roundPos_idem {p : ℕ} (hp : 0 < p) {x : ℚ} (hx : 0 < x) :
    roundPos p (roundPos p x) = roundPos p x := by
  have hb := roundPos_bounds hp hx
  have hy := roundPos_pos hp hx
  rcases hb.2.eq_or_lt with e | l
  · -- the result is the next power of two
    obtain ⟨q, rfl⟩ : ∃ q, p = q + 1 := ⟨p - 1, by omega⟩
    have hl : expo (roundPos (q + 1) x) = expo x + 1 := by
      refine expo_unique hy e.ge ?_
      rw [e]
      exact zpow_lt_zpow_right₀ (by norm_num) (by omega)
    apply roundPos_fix (2 ^ q)
    nth_rewrite 1 [e]
    rw [ulp, hl]
    push_cast
    rw [← zpow_natCast, ← zpow_add₀ (by norm_num)]
    congr 1; ring
  · have hl : expo (roundPos p x) = expo x := expo_unique hy hb.1 l
    have eu : ulp p (roundPos p x) = ulp p x := by rw [ulp, ulp, hl]
    apply roundPos_fix (roundEven (x / ulp p x))
    rw [eu]; rfl

theorem roundBits_neg (p : ℕ) (x : ℚ) : roundBits p (-x) = -roundBits p x := by
  rcases lt_trichotomy x 0 with h | rfl | h
  · simp [roundBits, h, not_lt.2 h.le]
  · simp [roundBits]
  · simp [roundBits, h, not_lt.2 h.le]

theorem roundBits_pos {p : ℕ} {x : ℚ} (h : 0 < x) : roundBits p x = roundPos p x := if_pos h

/-- Rounding to nearest (ties to even) with `p ≥ 1` bits: the default rounding of IEEE 754 with an unbounded range of
exponents; `p = 53` is `double`. -/
def nearest (p : ℕ) (hp : 0 < p) : Rounding ℚ where
  rd := roundBits p
  mono := by
    have key : ∀ x y : ℚ, 0 ≤ x → x ≤ y → roundBits p x ≤ roundBits p y := by
      intro x y hx h
      rcases hx.eq_or_lt with rfl | hx
      · rcases h.eq_or_lt with rfl | hy
        · rfl
        · rw [roundBits_pos hy]
          simpa [roundBits] using (roundPos_pos hp hy).le
      · rw [roundBits_pos hx, roundBits_pos (hx.trans_le h)]
        exact roundPos_mono hp hx h
    have nonneg : ∀ x : ℚ, 0 ≤ x → 0 ≤ roundBits p x := by
      intro x hx
      have := key 0 x le_rfl hx
      simpa [roundBits] using this
    intro x y h
    rcases le_total 0 x with hx | hx
    · exact key x y hx h
    · rcases le_total 0 y with hy | hy
      · have h1 := nonneg (-x) (by linarith)
        rw [roundBits_neg] at h1
        have := nonneg y hy
        linarith
      · have := key (-y) (-x) (by linarith) (by linarith)
        rw [roundBits_neg, roundBits_neg] at this
        linarith
  idem := by
    have key : ∀ x : ℚ, 0 < x → roundBits p (roundBits p x) = roundBits p x := by
      intro x hx
      rw [roundBits_pos hx, roundBits_pos (roundPos_pos hp hx), roundPos_idem hp hx]
    intro x
    rcases lt_trichotomy x 0 with h | rfl | h
    · have := key (-x) (by linarith)
      rwa [roundBits_neg, roundBits_neg, neg_inj] at this
    · simp [roundBits]
    · exact key x h
  zero := by simp [roundBits]
  one := by
    obtain ⟨q, rfl⟩ : ∃ q, p = q + 1 := ⟨p - 1, by omega⟩
    rw [roundBits_pos one_pos]
    apply roundPos_fix (2 ^ q)
    have : expo (1 : ℚ) = 0 := expo_unique one_pos (by norm_num) (by norm_num)
    rw [ulp, this]
    push_cast
    rw [← zpow_natCast, ← zpow_add₀ (by norm_num)]
    have : ((q : ℕ) : ℤ) + (0 - (q + 1) + 1) = 0 := by ring
    rw [this, zpow_zero]
  neg x h := by rw [roundBits_neg, h]

theorem nearest_relErr (p : ℕ) (hp : 0 < p) : (nearest p hp).RelErr (1 / 2 ^ p) := by
  have key : ∀ x : ℚ, 0 < x → |roundBits p x - x| ≤ 1 / 2 ^ p * |x| := by
    intro x hx
    rw [roundBits_pos hx]
    refine (roundPos_err p x).trans ?_
    have h1 := pow_le hx
    rw [pow_eq_ulp p x, zpow_sub_one₀ (by norm_num), zpow_natCast] at h1
    rw [abs_of_pos hx, div_mul_eq_mul_div, one_mul, le_div_iff₀ (by positivity)]
    linarith
  intro x
  change |roundBits p x - x| ≤ _
  rcases lt_trichotomy x 0 with h | rfl | h
  · have := key (-x) (by linarith)
    rw [roundBits_neg, abs_neg] at this
    rw [show roundBits p x - x = -(-roundBits p x - -x) by ring, abs_neg]
    exact this
  · simp [roundBits]
  · exact key x h

/-- The integers up to `2 ^ p` are representable. -/
theorem nearest_counts (p : ℕ) (hp : 0 < p) : (nearest p hp).Counts (2 ^ p) := by
  intro k hk
  change roundBits p (k : ℚ) = k
  rcases Nat.eq_zero_or_pos k with rfl | hk0
  · simp [roundBits]
  have hkq : (0 : ℚ) < k := by exact_mod_cast hk0
  rw [roundBits_pos hkq]
  rcases hk.eq_or_lt with e | l
  · obtain ⟨q, rfl⟩ : ∃ q, p = q + 1 := ⟨p - 1, by omega⟩
    have hq : (k : ℚ) = 2 ^ ((q : ℤ) + 1) := by rw [e]; push_cast; rw [← zpow_natCast]; push_cast; rfl
    have he : expo (k : ℚ) = q + 1 := expo_unique hkq hq.ge (by
      rw [hq]; exact zpow_lt_zpow_right₀ (by norm_num) (by omega))
    apply roundPos_fix (2 ^ q)
    rw [ulp, he, hq]
    push_cast
    rw [← zpow_natCast, ← zpow_add₀ (by norm_num)]
    congr 1; ring
  · have he : expo (k : ℚ) < p := by
      by_contra hc
      have h1 : (2 : ℚ) ^ (p : ℤ) ≤ 2 ^ expo (k : ℚ) := zpow_le_zpow_right₀ (by norm_num) (by omega)
      have h2 := pow_le hkq
      have h3 : (k : ℚ) < 2 ^ (p : ℤ) := by rw [zpow_natCast]; exact_mod_cast l
      linarith
    obtain ⟨j, hj⟩ : ∃ j : ℕ, expo (k : ℚ) - p + 1 = -(j : ℤ) :=
      ⟨(-(expo (k : ℚ) - p + 1)).toNat, by omega⟩
    apply roundPos_fix (k * 2 ^ j)
    rw [ulp, hj, zpow_neg, zpow_natCast]
    push_cast
    rw [mul_inv_cancel_right₀ (by positivity)]

end Acc

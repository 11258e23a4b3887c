import Verif.Model.Rolling
import Mathlib.Data.Int.Order.Basic

/-!
# Samples of an integral type

`accumulator_set<int, ...>`, `accumulator_set<unsigned, ...>` and so on.  The other model files take a field for the
sample type; here the sample is an integer of a C++ type, and arithmetic is done in that type wherever the code does it
before `numeric::fdiv` promotes to `double`
(`/repo/include/boost/accumulators/numeric/functional.hpp:249-259`).  Paths are relative to
`/repo/include/boost/accumulators/statistics/`.

Rules of the language used: integral promotion (a type narrower than `int` computes in `int`), the usual arithmetic
conversions, overflow of a signed type is undefined, of an unsigned type modulo `2 ^ bits`; assigning an integer to a
narrower type is modulo `2 ^ bits` (implementation-defined before C++20).  `int` has 32 bits.

Simplification: `double` is exact (a field `K`).
-/

namespace Acc

/-- An integral type. -/
structure IntTy where
  bits : ℕ
  signed : Bool
  deriving DecidableEq, Repr

namespace IntTy

/-- `int`. -/
def int : IntTy := ⟨32, true⟩
/-- `unsigned`. -/
def uint : IntTy := ⟨32, false⟩
/-- `unsigned short`. -/
def ushort : IntTy := ⟨16, false⟩

/-- `numeric_limits<T>::min()`. -/
def lo (T : IntTy) : ℤ := if T.signed then -2 ^ (T.bits - 1) else 0
/-- `numeric_limits<T>::max()`. -/
def hi (T : IntTy) : ℤ := if T.signed then 2 ^ (T.bits - 1) - 1 else 2 ^ T.bits - 1

/-- Conversion to `T`. -/
def wrap (T : IntTy) (z : ℤ) : ℤ := if T.signed then Int.bmod z (2 ^ T.bits) else z % 2 ^ T.bits

/-- Integral promotion. -/
def promote (T : IntTy) : IntTy := if T.bits < 32 then int else T

/-- An operation in the (promoted) type `T` whose mathematical result is `z`. -/
def arith (T : IntTy) (z : ℤ) : Res ℤ :=
  if T.signed then (if T.lo ≤ z ∧ z ≤ T.hi then .val z else .ub) else .val (T.wrap z)

/-- The type in which operands of types `S` and `T` are combined. -/
def common (S T : IntTy) : IntTy :=
  let S := S.promote
  let T := T.promote
  if S.signed = T.signed then (if S.bits < T.bits then T else S)
  else
    let s := if S.signed then S else T
    let u := if S.signed then T else S
    if s.bits ≤ u.bits then u else s

/-- `a = a + b` with `a`, `b` of type `T`. -/
def add (T : IntTy) (a b : ℤ) : Res ℤ := do let z ← T.promote.arith (a + b); return T.wrap z

/-- `a = a - b`. -/
def sub (T : IntTy) (a b : ℤ) : Res ℤ := do let z ← T.promote.arith (a - b); return T.wrap z

/-- `T c = a * b`. -/
def mul (T : IntTy) (a b : ℤ) : Res ℤ := do let z ← T.promote.arith (a * b); return T.wrap z

/-- `a * b` with `a` of type `S`, `b` of type `T`: a value of type `common S T`. -/
def mul2 (S T : IntTy) (a b : ℤ) : Res ℤ :=
  let C := common S T
  C.arith (C.wrap a * C.wrap b)

end IntTy

/-! ## sum and mean -/

/-- `sum(acc)` with samples of type `T`: `sum.hpp:36-52`, the member is a `Sample`. -/
def sumInt (T : IntTy) (xs : List ℤ) : Res ℤ := xs.foldlM (T.add) 0

section
variable {K : Type} [Arith K] [LinearOrder K] [IntCast K]

/-- `mean(acc)`, lazy: `mean.hpp:38-43`, `fdiv(sum(args), count(args))` with both integral. -/
def lazyMeanInt (T : IntTy) (xs : List ℤ) : Res K := do
  let s ← sumInt T xs
  fdiv (s : K) (xs.length : K)

/-- `immediate_mean(acc)`: `mean.hpp:63-71`, `fdiv(mean * (cnt - 1) + args[sample], cnt)`; the mean is a
`double`, which makes the sum one. -/
def immMeanInt (xs : List ℤ) : Res K :=
  (xs.foldl (fun s (x : ℤ) => (immMean (0 : K)).push s (x : K)) (immMean (0 : K)).init).mean

/-! ## moment -/

/-- `moment.hpp:27-42`: `pow(x, int_<N>)` with intermediate results of type `T`. -/
def powInt (T : IntTy) (x : ℤ) (n : ℕ) : Res ℤ :=
  if _h0 : n = 0 then .val 1
  else if _h1 : n = 1 then .val x
  else do
    let y ← powInt T x (n / 2)
    let z ← T.mul y y
    if n % 2 = 1 then T.mul z x else .val z
  termination_by n
  decreasing_by omega

/-- The member `sum` of `moment<N>`: a `Sample` (`moment.hpp:60-70`, 86). -/
def momentSumInt (T : IntTy) (N : ℕ) (xs : List ℤ) : Res ℤ :=
  xs.foldlM (fun s x => do let p ← powInt T x N; T.add s p) 0

/-- `moment<N>(acc)`: `moment.hpp:72-76`. -/
def momentInt (T : IntTy) (N : ℕ) (xs : List ℤ) : Res K := do
  let s ← momentSumInt T N xs
  fdiv (s : K) (xs.length : K)

/-! ## Rolling statistics -/

/-- `rolling_sum.hpp:38-46`, the member is a `Sample`. -/
def rollingSumIntStep (T : IntTy) (b : Ring ℤ) (s : ℤ) (x : ℤ) : Res ℤ := do
  let s ← if b.full then (do let f ← b.front; T.sub s f) else .val s
  T.add s x

/-- `rolling_mean.hpp:69-87`: the difference of two samples is computed in their type, the member `mean_` is a
`double`. -/
def immRollingMeanIntStep (T : IntTy) (b : Ring ℤ) (m : K) (x : ℤ) : Res K :=
  if b.full then do
    let f ← b.front
    if f > x then (do let d ← T.promote.arith (f - x); let d ← fdiv (d : K) (rollingCount b : K); return m - d)
    else if f < x then (do let d ← T.promote.arith (x - f); let d ← fdiv (d : K) (rollingCount b : K); return m + d)
    else return m
  else
    if m > (x : K) then (do let d ← fdiv (m - (x : K)) (rollingCount b : K); return m - d)
    else if m < (x : K) then (do let d ← fdiv ((x : K) - m) (rollingCount b : K); return m + d)
    else return m

/-- `features<tag::rolling_sum>` with window size `N` after the samples: the window and the sum. -/
def rollingSumInt (T : IntTy) (N : ℕ) (xs : List ℤ) : Res (Ring ℤ × ℤ) :=
  xs.foldlM (fun s x => do
    let b := windowPush s.1 x
    let r ← rollingSumIntStep T b s.2 x
    return (b, r)) (windowInit N, 0)

/-- `features<tag::immediate_rolling_mean>`. -/
def immRollingMeanInt (T : IntTy) (N : ℕ) (xs : List ℤ) : Res (Ring ℤ × K) :=
  xs.foldlM (fun s x => do
    let b := windowPush s.1 x
    let r ← immRollingMeanIntStep T b s.2 x
    return (b, r)) (windowInit N, 0)

/-! ## Weighted sum and mean -/

/-- `weighted_sum.hpp:37-56`: samples of type `S`, weights of type `T`; the member has the type of the product. -/
def weightedSumInt (S T : IntTy) (ps : List (ℤ × ℤ)) : Res ℤ :=
  ps.foldlM (fun s p => do
    let q ← IntTy.mul2 S T p.1 p.2
    (IntTy.common S T).arith (s + q)) 0

/-- `weighted_mean.hpp:43-57`: `fdiv(weighted_sum(args), sum_of_weights(args))`. -/
def weightedMeanInt (S T : IntTy) (ps : List (ℤ × ℤ)) : Res K := do
  let s ← weightedSumInt S T ps
  let w ← sumInt T (ps.map Prod.snd)
  fdiv (s : K) (w : K)

end

end Acc

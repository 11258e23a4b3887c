import Verif.Model.Round

/-!
# Floating point numbers with infinities and NaN

`Fl R` (`Model/Round.lean`) has only finite numbers.  `Ext F` adds the infinities, NaN and overflow: every operation
follows IEEE 754, a result that is too large becomes infinite.  Everything in `Model/` that needs only `Arith` and `<`
can be run on `Ext F`.

Simplifications: zero has no sign (`1/0` is `+∞`); NaNs are not distinguished; a finite number need not be
representable (samples are arbitrary numbers of `K`, the results of operations are rounded).  In the models a division
by zero through `fdiv` is the outcome `Res.nonfinite`, as everywhere else.
-/

namespace Acc

section
variable {K : Type} [Field K] [LinearOrder K]

/-- A floating point format: a rounding that keeps 2, and which numbers are too large to be represented. -/
structure Fmt (K : Type) [Field K] [LinearOrder K] extends Rounding K where
  two : rd 2 = 2
  huge : K → Bool
  huge_mono : ∀ x y, x ≤ y → huge x = true → huge y = true
  huge_zero : huge 0 = false
  huge_one : huge 1 = false

/-- The format without rounding and without overflow: exact arithmetic with infinities and NaN. -/
def Fmt.exact (K : Type) [Field K] [LinearOrder K] : Fmt K where
  rd := id
  mono := monotone_id
  idem _ := rfl
  zero := rfl
  one := rfl
  neg _ _ := rfl
  two := rfl
  huge _ := false
  huge_mono _ _ _ h := h
  huge_zero := rfl
  huge_one := rfl

/-- The format without rounding whose largest finite number is `M`. -/
def Fmt.upTo (M : K) (h0 : 0 ≤ M) (h1 : 1 ≤ M) : Fmt K where
  toRounding := (Fmt.exact K).toRounding
  two := rfl
  huge x := decide (M < x)
  huge_mono x y h := by simpa using fun h' => lt_of_lt_of_le h' h
  huge_zero := by simpa using h0
  huge_one := by simpa using h1

/-- A number of the format `F`: finite, infinite or NaN. -/
inductive Ext (F : Fmt K) where
  | fin (a : K)
  | pinf
  | ninf
  | nan

namespace Ext
variable {F : Fmt K}

instance : DecidableEq (Ext F)
  | fin a, fin b => decidable_of_iff (a = b) ⟨fun h => h ▸ rfl, Ext.fin.inj⟩
  | pinf, pinf => .isTrue rfl
  | ninf, ninf => .isTrue rfl
  | nan, nan => .isTrue rfl
  | fin _, pinf => .isFalse nofun
  | fin _, ninf => .isFalse nofun
  | fin _, nan => .isFalse nofun
  | pinf, fin _ => .isFalse nofun
  | pinf, ninf => .isFalse nofun
  | pinf, nan => .isFalse nofun
  | ninf, fin _ => .isFalse nofun
  | ninf, pinf => .isFalse nofun
  | ninf, nan => .isFalse nofun
  | nan, fin _ => .isFalse nofun
  | nan, pinf => .isFalse nofun
  | nan, ninf => .isFalse nofun

/-- The result of an operation whose exact value is `x`. -/
def of (F : Fmt K) (x : K) : Ext F :=
  if F.huge (F.rd x) then pinf else if F.huge (-F.rd x) then ninf else fin (F.rd x)

/-- The infinity with the sign of `a` (NaN for 0): `a * ∞`. -/
def infSign (a : K) : Ext F := if 0 < a then pinf else if a < 0 then ninf else nan

/-- `-x`. -/
def neg : Ext F → Ext F
  | fin a => fin (-a)
  | pinf => ninf
  | ninf => pinf
  | nan => nan

/-- `x + y`: `∞ + (-∞)` is NaN. -/
def add : Ext F → Ext F → Ext F
  | fin a, fin b => of F (a + b)
  | nan, _ => nan
  | _, nan => nan
  | pinf, ninf => nan
  | ninf, pinf => nan
  | pinf, _ => pinf
  | _, pinf => pinf
  | ninf, _ => ninf
  | _, ninf => ninf

/-- `x - y`. -/
def sub : Ext F → Ext F → Ext F
  | fin a, fin b => of F (a - b)
  | x, y => add x (neg y)

/-- `x * y`: `0 * ∞` is NaN. -/
def mul : Ext F → Ext F → Ext F
  | fin a, fin b => of F (a * b)
  | nan, _ => nan
  | _, nan => nan
  | pinf, pinf => pinf
  | pinf, ninf => ninf
  | ninf, pinf => ninf
  | ninf, ninf => pinf
  | pinf, fin a => infSign a
  | fin a, pinf => infSign a
  | ninf, fin a => infSign (-a)
  | fin a, ninf => infSign (-a)

/-- `x / y`: `∞ / ∞` is NaN, a finite number divided by `∞` is 0. -/
def div : Ext F → Ext F → Ext F
  | fin a, fin b => if b = 0 then infSign a else of F (a / b)
  | nan, _ => nan
  | _, nan => nan
  | fin _, _ => fin 0
  | pinf, fin b => if b < 0 then ninf else pinf
  | ninf, fin b => if b < 0 then pinf else ninf
  | _, _ => nan

/-- `x < y`: false if one of them is NaN. -/
def lt : Ext F → Ext F → Bool
  | fin a, fin b => decide (a < b)
  | nan, _ => false
  | _, nan => false
  | pinf, _ => false
  | _, pinf => true
  | _, ninf => false
  | ninf, _ => true

instance : Arith (Ext F) where
  add := add
  sub := sub
  mul := mul
  div := div
  neg := neg
  zero := fin 0
  one := fin 1
  natCast n := of F n

instance : LT (Ext F) := ⟨fun a b => lt a b = true⟩

instance : DecidableLT (Ext F) := fun a b => inferInstanceAs (Decidable (lt a b = true))

/-- `x <= y`: false if one of them is NaN. -/
def le : Ext F → Ext F → Bool
  | fin a, fin b => decide (a ≤ b)
  | nan, _ => false
  | _, nan => false
  | _, pinf => true
  | ninf, _ => true
  | _, _ => false

instance : LE (Ext F) := ⟨fun a b => le a b = true⟩

instance : DecidableLE (Ext F) := fun a b => inferInstanceAs (Decidable (le a b = true))

/-- The number is neither infinite nor NaN (`std::isfinite`). -/
def IsFinite : Ext F → Prop
  | fin _ => True
  | _ => False

end Ext

end

end Acc

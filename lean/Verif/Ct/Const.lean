import Mathlib.Data.Rat.Lemmas
import Mathlib.Data.Int.GCD
import Mathlib.Algebra.Order.Field.Basic
import Mathlib.Tactic.FieldSimp
import Mathlib.Tactic.Ring
import Mathlib.Tactic.NormNum

/-!
# Model: compile-time rational constants (`stator/symbolic/constants.hpp`)

The template arguments of `C<Num, Denom>` are values of `std::intmax_t`; here they are integers. The
arithmetic of `std::ratio` rejects an overflow at compile time, so that an instantiation which
compiles has the values computed here. A program that does not compile is `none`.
-/

namespace Stator.Ct

/-- `C<Num, Denom>`; the base class `std::ratio<Num, Denom>` requires `Denom ≠ 0`.
models: constants.hpp:30-35. -/
structure C where
  num : ℤ
  den : ℤ
  ok : den ≠ 0
  deriving DecidableEq

namespace C

/-- `C<Num>`. -/
def ofInt (n : ℤ) : C := ⟨n, 1, one_ne_zero⟩

/-- models: constants.hpp:51. -/
def null : C := ofInt 0

/-- models: constants.hpp:53. -/
def unity : C := ofInt 1

/-- `std::ratio<Num, Denom>::num` (the numerator in lowest terms, carrying the sign). -/
def rnum (a : C) : ℤ := a.den.sign * a.num / (Int.gcd a.num a.den : ℤ)

/-- `std::ratio<Num, Denom>::den` (the positive denominator in lowest terms). -/
def rden (a : C) : ℤ := |a.den| / (Int.gcd a.num a.den : ℤ)

theorem rden_ne (a : C) : a.rden ≠ 0 := by
  have hg : ((Int.gcd a.num a.den : ℕ) : ℤ) ∣ |a.den| := (dvd_abs _ _).2 (Int.gcd_dvd_right _ _)
  obtain ⟨k, hk⟩ := hg
  have h0 : |a.den| ≠ 0 := abs_ne_zero.2 a.ok
  have hg0 : ((Int.gcd a.num a.den : ℕ) : ℤ) ≠ 0 := by
    rintro h; rw [h, zero_mul] at hk; exact h0 hk
  unfold rden
  rw [hk, Int.mul_ediv_cancel_left _ hg0]
  rintro rfl
  exact h0 (by simpa using hk)

/-- `C_wrap<stdratio>::type`: the constant in lowest terms. models: constants.hpp:37-43. -/
def wrap (a : C) : C := ⟨a.rnum, a.rden, a.rden_ne⟩

/-- `operator+`. models: constants.hpp:114-117, with `std::ratio_add` as the C++ standard defines it:
`ratio<R1::num * R2::den + R2::num * R1::den, R1::den * R2::den>`. -/
def add (a b : C) : C :=
  wrap ⟨a.rnum * b.rden + b.rnum * a.rden, a.rden * b.rden, mul_ne_zero a.rden_ne b.rden_ne⟩

/-- `operator-`. models: constants.hpp:119-122. -/
def sub (a b : C) : C :=
  wrap ⟨a.rnum * b.rden - b.rnum * a.rden, a.rden * b.rden, mul_ne_zero a.rden_ne b.rden_ne⟩

/-- `operator*`. models: constants.hpp:124-127. -/
def mul (a b : C) : C :=
  wrap ⟨a.rnum * b.rnum, a.rden * b.rden, mul_ne_zero a.rden_ne b.rden_ne⟩

/-- `operator/`; division by zero does not compile. models: constants.hpp:129-132. -/
def div (a b : C) : Option C :=
  if h : b.rnum = 0 then none
  else some (wrap ⟨a.rnum * b.rden, a.rden * b.rnum, mul_ne_zero a.rden_ne h⟩)

/-- `operator==`, `std::ratio_equal`. models: constants.hpp:134-136. -/
def eq (a b : C) : Bool := a.rnum == b.rnum && a.rden == b.rden

/-- Unary `operator-`: no reduction to lowest terms. models: constants.hpp:108-109. -/
def neg (a : C) : C := ⟨-a.num, a.den, a.ok⟩

/-- `abs`. models: constants.hpp:202-203. -/
def abs (a : C) : C :=
  ⟨(1 - 2 * (if a.num < 0 then 1 else 0)) * a.num, (1 - 2 * (if a.den < 0 then 1 else 0)) * a.den, by
    have := a.ok; split <;> simpa using this⟩

/-- `Factorial<i>::value`. models: constants.hpp:91-106. -/
def factorial : ℕ → C
  | 0 => ofInt 1
  | 1 => ofInt 1
  | i + 2 => ofInt (((i + 2 : ℕ) : ℤ) * (factorial (i + 1)).rnum)

/-- `InvFactorial<i>::value = C<Factorial<i>::value::den, Factorial<i>::value::num>`.
models: constants.hpp:156-163. -/
def invFactorial (i : ℕ) : Option C :=
  if h : (factorial i).rnum = 0 then none else some ⟨(factorial i).rden, (factorial i).rnum, h⟩

/-- `toArithmetic` when the constant is an integer. models: simplify.hpp:336-338. -/
def toInt (a : C) : Option ℤ := if a.num.tmod a.den = 0 then some (a.num.tdiv a.den) else none

/-- `pi`. models: constants.hpp:56, stator/constants.hpp:93. -/
def pi : C := wrap ⟨47627751, 15160384, by decide⟩

/-- `e`. models: constants.hpp:59, stator/constants.hpp:103. -/
def e : C := wrap ⟨28245729, 10391023, by decide⟩

/-- `is_whole_factor<C_arg, factor, offset>`. models: constants.hpp:174-177. -/
def isWholeFactor (arg factor offset : C) : Bool :=
  match (arg.sub offset).div factor with
  | some q => q.rden == 1
  | none => false

/-- `pi() / C<2>()`. -/
def halfPi : C := wrap ⟨pi.rnum * 1, pi.rden * 2, mul_ne_zero pi.rden_ne (by decide)⟩

/-- `sin` of a constant; `none`: no overload, the program does not compile.
models: constants.hpp:180-186, 197-198. -/
def sin (a : C) : Option C :=
  if isWholeFactor a pi null then some null
  else if isWholeFactor a pi halfPi then some unity
  else none

/-- `cos` of a constant. models: constants.hpp:188-194, 200-201. -/
def cos (a : C) : Option C :=
  if isWholeFactor a pi null then some unity
  else if isWholeFactor a pi halfPi then some null
  else none

/-! ## Specification -/

/-- The rational number a constant stands for. -/
def toRat (a : C) : ℚ := (a.num : ℚ) / (a.den : ℚ)

/-- A rational number as a constant in lowest terms. -/
def ofRat (q : ℚ) : C := ⟨q.num, q.den, by exact_mod_cast q.den_nz⟩

end C

end Stator.Ct

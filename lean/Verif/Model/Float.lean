import Verif.Model.Util
/-!
# Binary floating point (IEEE 754) for values that are not negative

A finite value of a format is a natural number of smallest units: `v` stands for `v * 2^-1074` in
`double` and for `v * 2^-149` in `float` (all values of a format, also the subnormal ones, are whole
multiples of its unit).  Overflow is left out: nothing in the code comes near it.
-/
namespace Sliced

/-- `num / den` rounded to an integer, ties to the even one -/
def halfEven (num den : Nat) : Nat :=
  if 2 * (num % den) < den then num / den
  else if den < 2 * (num % den) then num / den + 1
  else num / den + num / den % 2

/-- exponent of the last of `p` significant bits of a value with integer part `f` -/
def lastBit (p f : Nat) : Nat := Nat.log2 f + 1 - p

/-- `num / den` rounded to `p` significant bits, and to an integer: round to nearest, ties to even -/
def rnd (p num den : Nat) : Nat :=
  halfEven num (den * 2 ^ lastBit p (num / den)) * 2 ^ lastBit p (num / den)

/-- one `double` in units -/
def dunit : Nat := 2 ^ 1074
/-- one `float` in units -/
def funit : Nat := 2 ^ 149

/-- conversion of an unsigned integer to `double` -/
def dofNat (n : Nat) : Nat := rnd 53 (n * dunit) 1
/-- division of `double` values, the second one not 0 -/
def ddiv (x y : Nat) : Nat := rnd 53 (x * dunit) y
/-- conversion of a `double` to an unsigned integer -/
def dtoNat (x : Nat) : Nat := x / dunit
/-- conversion of an unsigned integer to `float` -/
def fofNat (n : Nat) : Nat := rnd 24 (n * funit) 1
/-- division of `float` values, the second one not 0 -/
def fdiv (x y : Nat) : Nat := rnd 24 (x * funit) y
/-- sum of `float` values -/
def fadd (x y : Nat) : Nat := rnd 24 (x + y) 1
/-- conversion of a `double` to `float` -/
def fofDouble (x : Nat) : Nat := rnd 24 x (2 ^ 925)
/-- a decimal literal `num / den` of type `double` -/
def dlit (num den : Nat) : Nat := rnd 53 (num * dunit) den

/-- a `double` that is the value of an option: not a number, below zero (also minus infinity), a finite
number of units (also `-0.0`), or infinity -/
inductive Dbl
  | nan
  | neg
  | fin (v : Nat)
  | inf
  deriving DecidableEq

/-- util.hpp:78 `double(n) / universe > params.density` for a density that is at least `0.0`.  With
`universe == 0` the quotient is infinite (`n` is not 0 then: `pass` excludes 0/0). -/
def density_test : Dbl → Option (Nat → Nat → Bool)
  | .nan => none
  | .neg => none
  | .fin v => some (fun n u => u == 0 || decide (v < ddiv (dofNat n) (dofNat u)))
  | .inf => some (fun _ _ => false)

/-- util.hpp:212-213: `uint64_t avg = static_cast<double>(num) / den`; undefined for a NaN or an infinity -/
def quotient64 (num den : Nat) : Res Nat :=
  if den = 0 then .error .ub else .ok (dtoNat (ddiv (dofNat num) (dofNat den)))

end Sliced

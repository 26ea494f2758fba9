import Verif.Model.Np
import Mathlib.Algebra.Order.Field.Rat

/-!
# NaN, axiomatically

The arithmetic of the model has no laws; NaN is any predicate that the operations used by the filters propagate.  IEEE
doubles with numpy's `sign` satisfy this; `Option ℚ` with `none` as NaN is a small instance.
-/

namespace Padasip

/-- `+`, `-`, `*`, `/` return a NaN when an operand is a NaN, `np.sign` and `np.tanh` when the argument is one.
(`**` is not in the list: `nan ** 0` is 1.) -/
structure NanLaws {K : Type} [Transc K] (nan : K → Prop) : Prop where
  add_left : ∀ a b, nan a → nan (a + b)
  add_right : ∀ a b, nan b → nan (a + b)
  sub_left : ∀ a b, nan a → nan (a - b)
  sub_right : ∀ a b, nan b → nan (a - b)
  mul_left : ∀ a b, nan a → nan (a * b)
  mul_right : ∀ a b, nan b → nan (a * b)
  div_left : ∀ a b, nan a → nan (a / b)
  div_right : ∀ a b, nan b → nan (a / b)
  sgn : ∀ a, nan a → nan (Scalar.sgn a)
  tanh : ∀ a, nan a → nan (Transc.tanh a)

/-- rationals with a NaN -/
def NanRat : Type := Option ℚ

namespace NanRat

/-- operations on `NanRat` propagate the NaN; division by zero is a NaN -/
def lift1 (f : ℚ → ℚ) : NanRat → NanRat := Option.map f
/-- binary operations -/
def lift2 (f : ℚ → ℚ → Option ℚ) : NanRat → NanRat → NanRat
  | some a, some b => f a b
  | _, _ => none

/-- arithmetic with a NaN (arbitrary rational stand-ins for the transcendental functions) -/
instance : Transc NanRat where
  zero := some (0 : ℚ)
  one := some (1 : ℚ)
  add := lift2 fun a b => some (a + b)
  sub := lift2 fun a b => some (a - b)
  neg := lift1 fun a => -a
  mul := lift2 fun a b => some (a * b)
  div := lift2 fun a b => if b = 0 then none else some (a / b)
  abs := lift1 fun a => |a|
  sgn := lift1 fun a => if 0 < a then 1 else if a < 0 then -1 else 0
  lt | some a, some b => decide (a < b)
     | _, _ => false
  nat k := some (k : ℚ)
  eqz | some a => decide (a = 0)
      | none => false
  isnan := Option.isNone
  exp := id
  tanh := id
  sqrt := id
  log10 := id
  pow a _ := a

/-- the instance satisfies the laws -/
theorem laws : NanLaws (fun a : NanRat => a = none) where
  add_left a b h := by subst h; rfl
  add_right a b h := by subst h; cases a <;> rfl
  sub_left a b h := by subst h; rfl
  sub_right a b h := by subst h; cases a <;> rfl
  mul_left a b h := by subst h; rfl
  mul_right a b h := by subst h; cases a <;> rfl
  div_left a b h := by subst h; rfl
  div_right a b h := by subst h; cases a <;> rfl
  sgn a h := by subst h; rfl
  tanh a h := by subst h; rfl

end NanRat

end Padasip

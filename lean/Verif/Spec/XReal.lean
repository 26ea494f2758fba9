import Verif.Spec.Nan
import Mathlib.Analysis.SpecialFunctions.Pow.Real
import Mathlib.Analysis.SpecialFunctions.Log.Base
import Mathlib.Analysis.Complex.Trigonometric

/-!
# Infinities

`AbsorbLaws bad`: what IEEE arithmetic guarantees about the values that are not finite numbers (infinities and NaN).  `XReal`: the real numbers with two infinities and a NaN and
the operations of IEEE 754 (without rounding, overflow and the sign of zero: every zero is positive).
-/

set_option linter.unusedSimpArgs false
set_option linter.unusedVariables false

namespace Padasip

/-- `+`, `-`, `*` with an operand that is not a finite number never return a finite number (`inf - inf = nan`, `0 * inf = nan`), and so does `/` if it is the numerator.
(Not in the list: `1 / inf = 0`, `sign(inf) = 1`, `tanh(inf) = 1`.) -/
structure AbsorbLaws {K : Type} [Scalar K] (bad : K → Prop) : Prop where
  add_left : ∀ a b, bad a → bad (a + b)
  add_right : ∀ a b, bad b → bad (a + b)
  sub_left : ∀ a b, bad a → bad (a - b)
  sub_right : ∀ a b, bad b → bad (a - b)
  mul_left : ∀ a b, bad a → bad (a * b)
  mul_right : ∀ a b, bad b → bad (a * b)
  div_left : ∀ a b, bad a → bad (a / b)

/-- real numbers, `inf true` = +infinity, `inf false` = -infinity, NaN -/
inductive XReal where
  | num (r : ℝ)
  | inf (pos : Bool)
  | nan

namespace XReal

/-- the value is a finite number -/
def Finite : XReal → Prop
  | num _ => True
  | _ => False

/-- negation -/
def neg : XReal → XReal
  | num a => num (-a)
  | inf p => inf !p
  | nan => nan

/-- addition -/
def add : XReal → XReal → XReal
  | num a, num b => num (a + b)
  | inf p, inf q => if p = q then inf p else nan
  | inf p, num _ => inf p
  | num _, inf q => inf q
  | _, _ => nan

/-- multiplication -/
noncomputable def mul : XReal → XReal → XReal
  | num a, num b => num (a * b)
  | inf p, inf q => inf (p == q)
  | num a, inf q => if a = 0 then nan else inf (q == decide (0 < a))
  | inf p, num b => if b = 0 then nan else inf (p == decide (0 < b))
  | _, _ => nan

/-- division -/
noncomputable def div : XReal → XReal → XReal
  | num a, num b => if b = 0 then (if a = 0 then nan else inf (decide (0 < a))) else num (a / b)
  | num _, inf _ => num 0
  | inf p, num b => if b = 0 then inf p else inf (p == decide (0 < b))
  | _, _ => nan

/-- sign -/
noncomputable def sgn : XReal → XReal
  | num a => num (if 0 < a then 1 else if a < 0 then -1 else 0)
  | inf p => num (if p then 1 else -1)
  | nan => nan

/-- the power `a ** b` for `a >= 0` and finite `b` (the only case the code uses, `gmcc.py` l. 83-84); NaN stands for the others -/
noncomputable def pow : XReal → XReal → XReal
  | num a, num b => if a < 0 then nan else if a = 0 ∧ b < 0 then inf true else num (a ^ b)
  | inf true, num b => if 0 < b then inf true else if b = 0 then num 1 else num 0
  | _, _ => nan

open Classical in
/-- IEEE arithmetic on the real numbers with infinities and NaN -/
noncomputable instance : Transc XReal where
  zero := num 0
  one := num 1
  add := add
  sub a b := add a (neg b)
  neg := neg
  mul := mul
  div := div
  abs | num a => num |a|
      | inf _ => inf true
      | nan => nan
  sgn := sgn
  lt | num a, num b => decide (a < b)
     | inf p, inf q => !p && q
     | inf p, num _ => !p
     | num _, inf q => q
     | _, _ => false
  nat k := num k
  eqz | num a => decide (a = 0)
      | _ => false
  isnan | nan => true
        | _ => false
  exp | num a => num (Real.exp a)
      | inf p => if p then inf true else num 0
      | nan => nan
  tanh | num a => num (Real.tanh a)
       | inf p => num (if p then 1 else -1)
       | nan => nan
  sqrt | num a => if a < 0 then nan else num (Real.sqrt a)
       | inf p => if p then inf true else nan
       | nan => nan
  log10 | num a => if a < 0 then nan else if a = 0 then inf false else num (Real.logb 10 a)
        | inf p => if p then inf true else nan
        | nan => nan
  pow := pow

@[simp] theorem zero_def : (0 : XReal) = num 0 := rfl
@[simp] theorem one_def : (1 : XReal) = num 1 := rfl
@[simp] theorem add_num (a b : ℝ) : num a + num b = num (a + b) := rfl
@[simp] theorem mul_num (a b : ℝ) : num a * num b = num (a * b) := rfl
@[simp] theorem neg_num (a : ℝ) : -num a = num (-a) := rfl
@[simp] theorem sub_num (a b : ℝ) : num a - num b = num (a - b) := by
  show num (a + -b) = _
  rw [sub_eq_add_neg]
theorem div_num (a b : ℝ) (h : b ≠ 0) : num a / num b = num (a / b) := if_neg h
@[simp] theorem sgn_num (a : ℝ) : Scalar.sgn (num a) = num (if 0 < a then 1 else if a < 0 then -1 else 0) := rfl
@[simp] theorem sgn_inf (p : Bool) : Scalar.sgn (inf p) = num (if p then 1 else -1) := rfl
@[simp] theorem tanh_inf (p : Bool) : Transc.tanh (inf p) = num (if p then 1 else -1) := rfl
@[simp] theorem tanh_num (a : ℝ) : Transc.tanh (num a) = num (Real.tanh a) := rfl
@[simp] theorem inf_sub_num (p : Bool) (b : ℝ) : inf p - num b = inf p := rfl

theorem not_finite_cases {a : XReal} (h : ¬ a.Finite) : (∃ p, a = inf p) ∨ a = nan := by
  cases a with
  | num r => exact absurd trivial h
  | inf p => exact Or.inl ⟨p, rfl⟩
  | nan => exact Or.inr rfl

theorem finite_cases {a : XReal} (h : a.Finite) : ∃ r, a = num r := by
  cases a with
  | num r => exact ⟨r, rfl⟩
  | inf p => exact h.elim
  | nan => exact h.elim

theorem add_bad (a b : XReal) (h : ¬ a.Finite ∨ ¬ b.Finite) : ¬ (add a b).Finite := by
  cases a <;> cases b <;> simp only [Finite, not_true_eq_false, not_false_eq_true, or_self, or_true, true_or, or_false, false_or] at h <;>
    simp only [add] <;> first | exact id | (split <;> exact id)

theorem neg_bad (a : XReal) (h : ¬ a.Finite) : ¬ (neg a).Finite := by
  cases a
  · exact absurd trivial h
  · exact id
  · exact id

theorem mul_bad (a b : XReal) (h : ¬ a.Finite ∨ ¬ b.Finite) : ¬ (mul a b).Finite := by
  cases a <;> cases b <;> simp only [Finite, not_true_eq_false, not_false_eq_true, or_self, or_true, true_or, or_false, false_or] at h <;>
    simp only [mul] <;> first | exact id | (split <;> exact id)

theorem div_bad (a b : XReal) (h : ¬ a.Finite) : ¬ (div a b).Finite := by
  cases a <;> cases b <;> simp only [Finite, not_true_eq_false, not_false_eq_true] at h <;>
    simp only [div] <;> first | exact id | (split <;> exact id)

/-- the values that are not finite numbers absorb -/
theorem laws : AbsorbLaws (fun a : XReal => ¬ a.Finite) where
  add_left a b h := add_bad a b (Or.inl h)
  add_right a b h := add_bad a b (Or.inr h)
  sub_left a b h := add_bad a _ (Or.inl h)
  sub_right a b h := add_bad a _ (Or.inr (neg_bad b h))
  mul_left a b h := mul_bad a b (Or.inl h)
  mul_right a b h := mul_bad a b (Or.inr h)
  div_left a b h := div_bad a b h

end XReal

end Padasip

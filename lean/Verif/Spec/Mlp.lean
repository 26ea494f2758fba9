import Mathlib.Analysis.SpecialFunctions.Pow.Real
import Mathlib.Analysis.SpecialFunctions.Trigonometric.DerivHyp
import Verif.Model.Mlp

/-!
# Specification of a feed-forward network, independent of the model's state

Textbook definitions: a layer maps `x` to `act (W x + b)`, the output layer is affine, the loss is half of the squared error.
-/

namespace Padasip

open Finset

/-- the documented activation functions: `1 / (1 + e^(-t))` and the hyperbolic tangent -/
noncomputable def actSpec : Act → ℝ → ℝ
  | .sigmoid => fun t => 1 / (1 + Real.exp (-t))
  | .tanh => Real.tanh

/-- `b + W x`; column 0 of the weights is the bias `b` -/
def affine {n m : ℕ} (W : Mat ℝ m (n + 1)) (x : Vec ℝ n) : Vec ℝ m := fun i => W i 0 + ∑ j, W i j.succ * x j

/-- output of a layer of nodes -/
def nodes {n m : ℕ} (act : ℝ → ℝ) (W : Mat ℝ m (n + 1)) (x : Vec ℝ n) : Vec ℝ m := fun i => act (affine W x i)

/-- half of the squared error of the outputs `o` for the target `d` -/
noncomputable def halfSq {p : ℕ} (d o : Vec ℝ p) : ℝ := ∑ k, (d k - o k) ^ 2 / 2

/-- loss of a network with one hidden layer `W` and output weights `V` -/
noncomputable def loss1 {n m p : ℕ} (act : ℝ → ℝ) (W : Mat ℝ m (n + 1)) (V : Mat ℝ p (m + 1)) (x : Vec ℝ n) (d : Vec ℝ p) : ℝ :=
  halfSq d (affine V (nodes act W x))

/-- loss of a network with two hidden layers `W1`, `W2` and output weights `V` -/
noncomputable def loss2 {n m q p : ℕ} (act : ℝ → ℝ) (W1 : Mat ℝ m (n + 1)) (W2 : Mat ℝ q (m + 1)) (V : Mat ℝ p (q + 1)) (x : Vec ℝ n) (d : Vec ℝ p) : ℝ :=
  halfSq d (affine V (nodes act W2 (nodes act W1 x)))

/-- the weights `W` with entry `(i, j)` replaced by `t` -/
def setEntry {m n : ℕ} (W : Mat ℝ m n) (i : Fin m) (j : Fin n) (t : ℝ) : Mat ℝ m n := fun a b => if a = i ∧ b = j then t else W a b

/-- `g` is the partial derivative of the loss `L` with respect to entry `(i, j)` of the weights, at `W` -/
def IsPartial {m n : ℕ} (L : Mat ℝ m n → ℝ) (W : Mat ℝ m n) (i : Fin m) (j : Fin n) (g : ℝ) : Prop :=
  HasDerivAt (fun t => L (setEntry W i j t)) g (W i j)

end Padasip

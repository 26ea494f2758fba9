import Verif.Spec.Mlp
import Verif.Model.Mlp

/-!
# Networks with any number of hidden layers: textbook output, and the slope of the error along the step of the code

A node with output `z`, whose output has the derivative `-g` of the loss, has the textbook error signal `a * g`, `a` the derivative of the activation.  The code computes another
signal `a * (1 - z) * c` from the signals `c` it has propagated (without the factor `1 - z` in the last hidden layer of a network with one output).
-/

namespace Padasip

open Finset

/-- the weights of the hidden layers, from the input on -/
inductive Deep : ℕ → ℕ → Type where
  | one {nin m : ℕ} (w : Mat ℝ m (nin + 1)) : Deep nin m
  | snoc {nin m q : ℕ} (D : Deep nin m) (w : Mat ℝ q (m + 1)) : Deep nin q

/-- the hidden layers as the constructor creates them, all with activation `f` and learning rate `η` -/
noncomputable def Deep.hidden {nin m : ℕ} (f : Act) (η : ℝ) : Deep nin m → Hidden ℝ nin m
  | .one w => .one (mkLayer w f η)
  | .snoc D w => .snoc (D.hidden f η) (mkLayer w f η)

/-- the outputs of the last hidden layer -/
noncomputable def Deep.out {nin m : ℕ} (f : Act) : Deep nin m → Vec ℝ nin → Vec ℝ m
  | .one w, x => nodes (actSpec f) w x
  | .snoc D w, x => nodes (actSpec f) w (D.out f x)

/-- the derivative of the activation at a node with output `z` -/
noncomputable def actDer : Act → ℝ → ℝ
  | .sigmoid, z => z * (1 - z)
  | .tanh, z => 1 - z ^ 2

/-- the factor of the code at a node with output `z` -/
noncomputable def codeFactor (last : Bool) (z : ℝ) : ℝ := if last then 1 else 1 - z

/-- `1 + |x|^2` -/
noncomputable def sizeOf1 {n : ℕ} (x : Vec ℝ n) : ℝ := 1 + ∑ j, x j ^ 2

/-- Sum over all nodes of textbook signal times signal of the code times (1 + |input of the layer|^2), where the last hidden layer receives the signals `g` and `c`
(`last`: it is the last hidden layer of a network with one output). -/
noncomputable def Deep.slope {nin m : ℕ} (f : Act) (x : Vec ℝ nin) : Bool → Deep nin m → Vec ℝ m → Vec ℝ m → ℝ
  | last, .one w, g, c =>
    ∑ i, (actDer f (nodes (actSpec f) w x i) * g i) *
      (actDer f (nodes (actSpec f) w x i) * codeFactor last (nodes (actSpec f) w x i) * c i) * sizeOf1 x
  | last, .snoc D w, g, c =>
    let z := nodes (actSpec f) w (D.out f x)
    let δ : Vec ℝ _ := fun i => actDer f (z i) * g i
    let δ' : Vec ℝ _ := fun i => actDer f (z i) * codeFactor last (z i) * c i
    (∑ i, δ i * δ' i * sizeOf1 (D.out f x)) + D.slope f x false (fun j => ∑ i, δ i * w i j.succ) (fun j => ∑ i, δ' i * w i j.succ)

/-- In every hidden layer but the first, all nodes give the same output for `x` (in particular: they have one node each). -/
def Deep.Uniform {nin m : ℕ} (f : Act) (x : Vec ℝ nin) : Deep nin m → Prop
  | .one _ => True
  | .snoc D w => (∀ i j, nodes (actSpec f) w (D.out f x) i = nodes (actSpec f) w (D.out f x) j) ∧ D.Uniform f x

/-- the same for the hidden layers but the first and the last -/
def Deep.UniformBelow {nin m : ℕ} (f : Act) (x : Vec ℝ nin) : Deep nin m → Prop
  | .one _ => True
  | .snoc D _ => D.Uniform f x

end Padasip

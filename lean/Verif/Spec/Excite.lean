import Verif.Spec.Stream

/-!
# Persistent excitation

The standard condition under which a linear system can be identified from its inputs: in every window of `T` consecutive samples the
inputs excite every direction with energy at least `α`.
-/

namespace Padasip

variable {K : Type} [Field K] [LinearOrder K] {n : ℕ}

/-- Every window of `T` consecutive inputs satisfies `sum_j <v, x(k+j)>^2 >= α |v|^2` for every vector `v`. -/
def Exciting (x : ℕ → Vec K n) (T : ℕ) (α : K) : Prop :=
  ∀ (k : ℕ) (v : Vec K n), α * ∑ i, v i ^ 2 ≤ ∑ j ∈ Finset.range T, (∑ i, v i * x (k + j) i) ^ 2

end Padasip

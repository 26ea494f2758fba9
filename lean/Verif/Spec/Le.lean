import Verif.Model.Detection

/-!
# Learning entropy, written down directly from its description
-/

namespace Padasip

variable {K : Type} [Scalar K] {n : ℕ}

/-- entry `i` of row `k` of a history (0 outside) -/
def histAt (w : List (Vec K n)) (k : ℕ) (i : Fin n) : K :=
  match w[k]? with
  | some r => r i
  | none => 0

/-- the difference of order `p` of a sequence, ending at index `k` -/
def incr (f : ℕ → K) : ℕ → ℕ → K
  | 0, k => f k
  | p + 1, k => incr f p k - incr f p (k - 1)

/-- The quantity whose unusual size is detected: the absolute difference of order `order` of weight `i` at sample `k` -
except in the first `order` samples, where it is the weight itself. -/
def leInc (order : ℕ) (w : List (Vec K n)) (k : ℕ) (i : Fin n) : K :=
  if k < order then histAt w k i else Scalar.abs (incr (fun k => histAt w k i) order k)

/-- the values of `leInc` at the `m` samples before sample `k` -/
def lePast (m order : ℕ) (w : List (Vec K n)) (k : ℕ) (i : Fin n) : List K :=
  (List.range m).map fun t => leInc order w (k - m + t) i

/-- the number of pairs (weight, sensitivity) for which the increment at `k` exceeds the sensitivity times the mean of the past -/
def leCount (m order : ℕ) (w : List (Vec K n)) (alphas : List K) (k : ℕ) : ℕ :=
  (alphas.map fun a => ((List.finRange n).filter fun i =>
    Scalar.lt (meanL (lePast m order w k i) * a) (leInc order w k i)).length).sum

end Padasip

import Verif.Spec.Stream

/-!
# What `run` reports, as streams

Most properties are about what `run` returns on the first `N` samples of an unbounded stream of samples, for every `N`.
-/

namespace Padasip

variable {K : Type} [Scalar K] {n : ℕ}

/-- `run`, called on the object `o` with the first `N` samples of the streams `d`, `x` (for any `N >= 1`), returns the outputs
`y 0 .. y (N-1)`, the errors `e 0 .. e (N-1)` and the weight history with rows `(S 0).w .. (S (N-1)).w`,
and leaves the filter with the attributes `S N`.  `S 0` are the attributes before the call. -/
def Runs (C : FilterClass K n) (o : Obj C) (d : ℕ → K) (x : ℕ → Vec K n)
    (y e : ℕ → K) (S : ℕ → Core K n C.Ext) : Prop :=
  S 0 = o.core.withN n ∧
  ∀ N, 0 < N →
    run C (series d N) (rows x N) o
      = (.ok (series y N, series e N, series (fun k => List.ofFn (S k).w) N),
         ⟨S N, series (fun k => List.ofFn (S k).w) N⟩)

/-- the value before sample `k`: `init` for `k = 0`, then the value of sample `k - 1` -/
def prev {α : Type} (init : α) (f : ℕ → α) : ℕ → α
  | 0 => init
  | k + 1 => f k

end Padasip

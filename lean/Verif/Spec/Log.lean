import Verif.Spec.Ready

/-!
# What a log of an adaptation is, in terms of `predict` and `adapt` only
-/

namespace Padasip

variable {K : Type} [Scalar K] {n : ℕ}

/-- `y`, `e`, `W` log the adaptation of a filter of class `C` from attributes `s0` to attributes `sN` over the first `N`
samples of `d`, `x`: there are states `σ 0 = s0, ..., σ N = sN` such that, for every sample `k`, row `k` of the history is the weight
vector before the sample, `y k` is what `predict (x k)` returns in that state, `e k` is `d k - y k`, and calling
`adapt (d k) (x k)` in that state succeeds and leads to the next one. -/
def IsLog (C : FilterClass K n) (s0 : Core K n C.Ext) (d : ℕ → K) (x : ℕ → Vec K n) (N : ℕ)
    (y e : ℕ → K) (W : ℕ → Vec K n) (sN : Core K n C.Ext) : Prop :=
  ∃ σ : ℕ → Core K n C.Ext, σ 0 = s0 ∧ σ N = sN ∧ ∀ k < N,
    W k = (σ k).w ∧
    (C.predict (List.ofFn (x k)) (σ k)).1 = .ok (y k) ∧
    e k = d k - y k ∧
    C.adapt (d k) (List.ofFn (x k)) (σ k) = (.ok (), σ (k + 1))

/-- `for k in range(N): f.adapt(d[k], x[k])` -/
def adaptAll (C : FilterClass K n) : List (K × List K) → M (Obj C) Unit
  | [] => pure ()
  | (d, x) :: t => do
    adapt C d x
    adaptAll C t

/-- The documented real-time use: `for k in range(N): y.append(f.predict(x[k])); f.adapt(d[k], x[k])`
(lms.py l. 121-130). -/
def realTime (C : FilterClass K n) : List (K × List K) → M (Obj C) (List K)
  | [] => pure []
  | (d, x) :: t => do
    let y ← predict C x
    adapt C d x
    let ys ← realTime C t
    pure (y :: ys)

end Padasip

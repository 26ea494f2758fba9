import Verif.Model.Pca
import Mathlib.Algebra.Order.Field.Basic
import Mathlib.Algebra.BigOperators.Fin
import Mathlib.Logic.Function.Basic

/-!
# Contracts of the numpy / Python routines used by PCA and LDA
-/

namespace Padasip

variable {K L : Type} [Field K] [LinearOrder K]

/-- The columns of `vecs` are eigenvectors of `A` with eigenvalues `vals`: `A v_j = vals_j v_j` (contract of `np.linalg.eig`). -/
def IsEig {c : ℕ} (A : Mat K c c) (vals : Vec K c) (vecs : Mat K c c) : Prop :=
  ∀ i j, ∑ b, A i b * vecs b j = vals j * vecs i j

/-- The columns of `vecs` are orthonormal. -/
def OrthoCols {c : ℕ} (vecs : Mat K c c) : Prop :=
  ∀ j l, ∑ i, vecs i j * vecs i l = if j = l then 1 else 0

/-- `v.argsort()` lists every index once, such that `v[v.argsort()]` is non-decreasing. -/
def ArgsortSpec (argsort : (c : ℕ) → Vec K c → Fin c → Fin c) : Prop :=
  ∀ c (v : Vec K c), Function.Bijective (argsort c v) ∧ ∀ i j, i ≤ j → v (argsort c v i) ≤ v (argsort c v j)

/-- Iterating a Python set built from `l` gives every member of `l` exactly once, in some order. -/
def SetOrderSpec {L : Type} (setOrder : List L → List L) : Prop :=
  ∀ l, (setOrder l).Nodup ∧ ∀ a, a ∈ setOrder l ↔ a ∈ l

/-- `np.linalg.inv` returns an inverse: `A * B = 1`. -/
def IsInv {c : ℕ} (A B : Mat K c c) : Prop := ∀ i j, ∑ k, A i k * B k j = if i = j then 1 else 0

end Padasip

import Verif.Lemmas.Log
import Mathlib.Algebra.BigOperators.Ring.Finset
import Mathlib.Algebra.Order.BigOperators.Group.Finset
import Mathlib.Tactic.Ring
import Mathlib.Tactic.Linarith
import Mathlib.Tactic.FieldSimp

/-!
# Exact arithmetic: the operations of the model in an ordered field
-/

set_option linter.unusedSectionVars false

namespace Padasip

open Finset

variable {K : Type} [Field K] [LinearOrder K] {n m p : ℕ}

theorem vsum_eq (f : Vec K n) : vsum f = ∑ i, f i := by
  unfold vsum
  exact List.sum_ofFn

theorem dot_eq (u v : Vec K n) : dot u v = ∑ i, u i * v i := vsum_eq _

theorem matVec_eq (A : Mat K n m) (v : Vec K m) (i : Fin n) : matVec A v i = ∑ j, A i j * v j :=
  vsum_eq _

theorem vecMat_eq (v : Vec K n) (A : Mat K n m) (j : Fin m) : vecMat v A j = ∑ i, v i * A i j :=
  vsum_eq _

theorem matMul_eq (A : Mat K n m) (B : Mat K m p) (i : Fin n) (j : Fin p) :
    matMul A B i j = ∑ k, A i k * B k j := vsum_eq _

theorem dot_comm (u v : Vec K n) : dot u v = dot v u := by
  simp only [dot_eq]; exact sum_congr rfl fun i _ => mul_comm _ _

theorem dot_add_left (u v w : Vec K n) : dot (fun i => u i + v i) w = dot u w + dot v w := by
  simp only [dot_eq, ← sum_add_distrib]
  exact sum_congr rfl fun i _ => by ring

theorem dot_sub_left (u v w : Vec K n) : dot (fun i => u i - v i) w = dot u w - dot v w := by
  simp only [dot_eq, ← sum_sub_distrib]
  exact sum_congr rfl fun i _ => by ring

theorem dot_smul_left (c : K) (u w : Vec K n) : dot (fun i => c * u i) w = c * dot u w := by
  simp only [dot_eq, mul_sum]
  exact sum_congr rfl fun i _ => by ring

variable [IsStrictOrderedRing K]

theorem dot_self_nonneg (u : Vec K n) : 0 ≤ dot u u := by
  rw [dot_eq]
  exact sum_nonneg fun i _ => mul_self_nonneg _

theorem dot_self_eq_zero {u : Vec K n} : dot u u = 0 ↔ ∀ i, u i = 0 := by
  rw [dot_eq, sum_eq_zero_iff_of_nonneg fun i _ => mul_self_nonneg _]
  simp

end Padasip

import Verif.Model.Filters

/-!
# Data sets as prefixes of sample streams

A data set of `N` samples is the first `N` values of a stream `ℕ → _` (every finite data set is such a prefix, see
`exists_stream`).  `series d N` is the Python list `[d(0), ..., d(N-1)]`, `rows x N` the input
matrix with rows `x(0), ..., x(N-1)`.
-/

namespace Padasip

/-- `[f 0, ..., f (N-1)]` -/
def series {α : Type} (f : ℕ → α) (N : ℕ) : List α := (List.range N).map f

/-- the input matrix with rows `x 0, ..., x (N-1)`, as the list of rows passed to `run` -/
def rows {K : Type} {n : ℕ} (x : ℕ → Vec K n) (N : ℕ) : List (List K) :=
  (List.range N).map fun k => List.ofFn (x k)

@[simp] theorem length_series {α : Type} (f : ℕ → α) (N : ℕ) : (series f N).length = N := by
  simp [series]

@[simp] theorem length_rows {K : Type} {n : ℕ} (x : ℕ → Vec K n) (N : ℕ) :
    (rows x N).length = N := by simp [rows]

/-- Every finite well-shaped data set is a prefix of a stream. -/
theorem exists_stream {K : Type} {n : ℕ} (X : List (List K)) (hX : ∀ r ∈ X, r.length = n)
    (d0 : List K) (hd : d0.length = X.length) (def0 : K) :
    ∃ (d : ℕ → K) (x : ℕ → Vec K n), d0 = series d X.length ∧ X = rows x X.length := by
  refine ⟨fun k => d0.getD k def0, fun k i => (X.getD k []).getD i def0, ?_, ?_⟩
  · apply List.ext_getElem <;> simp [series, hd]
    intro i h1
    rw [List.getElem?_eq_getElem (by omega)]; rfl
  · apply List.ext_getElem
    · simp
    · intro k h1 h2
      have hl : (X[k]).length = n := hX _ (List.getElem_mem h1)
      apply List.ext_getElem
      · simp [rows, hl]
      · intro i h3 h4
        simp [rows, h1, h3]

end Padasip

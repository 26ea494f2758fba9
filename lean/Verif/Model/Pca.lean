import Verif.Model.Np

/-!
# `padasip/preprocess/pca.py` and `padasip/preprocess/lda.py`

The external numerical routines are parameters; their contracts are in `Spec/Linalg.lean`.
-/

namespace Padasip

variable {K : Type}

/-- External calls of pca.py / lda.py: `np.linalg.eig` (eigenvalues, matrix of eigenvectors in columns), `np.linalg.inv`, `ndarray.argsort`
(the index array that sorts into non-decreasing order), and the iteration order of the Python set `set(labels)`.
Simplification: the eigenvalues and eigenvectors are of the number type of the data (no complex results). -/
structure LinEnv (K L : Type) where
  eig : (c : Nat) → Mat K c c → Except Err (Vec K c × Mat K c c)
  inv : (c : Nat) → Mat K c c → Except Err (Mat K c c)
  argsort : (c : Nat) → Vec K c → Fin c → Fin c
  setOrder : List L → List L

section pca
variable [Scalar K] {N c : Nat}

/-- `np.mean(x, axis=0)`. -/
def colMean (x : Mat K N c) : Vec K c := fun a => vsum (fun k => x k a) / Scalar.nat N

/-- `np.cov(x.T)` for `x` with `N >= 2` rows: deviations from the column means, divided by `N - 1`. -/
def covMat (x : Mat K N c) : Mat K c c := fun a b =>
  vsum (fun k => (x k a - colMean x a) * (x k b - colMean x b)) / Scalar.nat (N - 1)

/-- `np.linalg.eig(np.cov(x.T))`, pca.py l. 94, 122.  `np.cov` of one column is 0-dimensional, and of fewer than two rows contains NaN:
`LinAlgError` in both cases (without columns it is the empty matrix). -/
def eigCov {L : Type} (env : LinEnv K L) (x : Mat K N c) : Except Err (Vec K c × Mat K c c) :=
  if c = 1 ∨ (N ≤ 1 ∧ c ≠ 0) then .error .linAlgError else env.eig c (covMat x)

/-- `PCA_components(x)`, pca.py l. 75-98: `eigen_values[(-eigen_values).argsort()]`. -/
def pcaComponents {L : Type} (env : LinEnv K L) (x : Mat K N c) : Except Err (List K) :=
  match eigCov env x with
  | .error e => .error e
  | .ok (vals, _) => .ok (List.ofFn fun j => vals (env.argsort c (fun i => -vals i) j))

/-- `eigen_vectors.T[(-eigen_values).argsort()][:n].dot(x.T).T`, pca.py l. 124-126, lda.py l. 167-168. -/
def project {L : Type} (env : LinEnv K L) (vals : Vec K c) (vecs : Mat K c c) (x : Mat K N c) (n : Int) : List (List K) :=
  let order := pySliceTo (List.ofFn (env.argsort c fun i => -vals i)) n
  List.ofFn fun k => order.map fun j => dot (fun i => vecs i j) (x k)

/-- `PCA(x, n=False)`, pca.py l. 101-126 (`n=False` and `n=0` are the same). -/
def pca {L : Type} (env : LinEnv K L) (x : Mat K N c) (n : Int) : Except Err (List (List K)) :=
  let n : Int := if n = 0 then (c : Int) - 1 else n
  if ¬ (c : Int) > n then .error .assertionError
  else match eigCov env x with
    | .error e => .error e
    | .ok (vals, vecs) => .ok (project env vals vecs x n)

end pca

section lda
variable [Scalar K] {N c : Nat} {L : Type} [DecidableEq L]

/-- `x[labels == cl]`: the rows with label `cl`, as indices. -/
def rowsOf (labels : Fin N → L) (cl : L) : List (Fin N) := (List.finRange N).filter fun k => labels k = cl

/-- sum of matrices (accumulated with `+=`; simplification: one fixed order of summation) -/
def matSum (l : List (Mat K c c)) : Mat K c c := fun a b => (l.map fun m => m a b).sum

/-- `np.mean(x[labels == cl], axis=0)`, lda.py l. 119-121. -/
def classMean (x : Mat K N c) (labels : Fin N → L) (cl : L) : Vec K c := fun a =>
  ((rowsOf labels cl).map fun k => x k a).sum / Scalar.nat (rowsOf labels cl).length

/-- `scatter_within`, lda.py l. 122-129. -/
def scatterWithin (x : Mat K N c) (labels : Fin N → L) (classes : List L) : Mat K c c :=
  matSum (classes.map fun cl => matSum ((rowsOf labels cl).map fun k =>
    outer (fun a => x k a - classMean x labels cl a) (fun a => x k a - classMean x labels cl a)))

/-- `scatter_between`, lda.py l. 130-135. -/
def scatterBetween (x : Mat K N c) (labels : Fin N → L) (classes : List L) : Mat K c c :=
  matSum (classes.map fun cl => fun a b => Scalar.nat (rowsOf labels cl).length *
    outer (fun a => classMean x labels cl a - colMean x a) (fun a => classMean x labels cl a - colMean x a) a b)

/-- `LDA_base(x, labels)`, lda.py l. 99-139, for labels in a numpy array (l. 137-138: product and `eig`).  Simplification: the error numpy
raises for NaN scatter matrices of an empty data set is left to `env.inv` / `env.eig`. -/
def ldaBase (env : LinEnv K L) (x : Mat K N c) (labels : Fin N → L) : Except Err (Vec K c × Mat K c c) :=
  let classes := env.setOrder (List.ofFn labels)
  match env.inv c (scatterWithin x labels classes) with
  | .error e => .error e
  | .ok swInv => env.eig c (matMul swInv (scatterBetween x labels classes))

/-- `LDA(x, labels, n=False)`, lda.py l. 141-168. -/
def lda (env : LinEnv K L) (x : Mat K N c) (labels : Fin N → L) (n : Int) : Except Err (List (List K)) :=
  let n : Int := if n = 0 then (c : Int) - 1 else n
  if ¬ (c : Int) > n then .error .assertionError
  else match ldaBase env x labels with
    | .error e => .error e
    | .ok (vals, vecs) => .ok (project env vals vecs x n)

/-- `LDA_discriminants(x, labels)`, lda.py l. 171-195. -/
def ldaDiscriminants (env : LinEnv K L) (x : Mat K N c) (labels : Fin N → L) : Except Err (List K) :=
  match ldaBase env x labels with
  | .error e => .error e
  | .ok (vals, _) => .ok (List.ofFn fun j => vals (env.argsort c (fun i => -vals i) j))

end lda

end Padasip

import Verif.Spec.Stream
import Verif.Model.Factory

/-!
# Which filter objects are usable

`Ready` is the condition under which a filter object can process data: nothing for most filters; for RLS that `mu` is
not the number 0 (otherwise `1 / mu` raises `ZeroDivisionError`); for OCNLMS that its circular memory is intact and
non-empty (`mem >= 1`); for AP that the projection order is at least 1 and that
`np.linalg.solve` accepts every matrix `X^T X + ifc I` (theorem `C28` derives this from `ifc > 0`).
-/

namespace Padasip

variable {K : Type} [Transc K] {n : ℕ}

/-- see the module comment -/
def Ready (solve : Solver K) : (k : Kind) → Core K n (classOf (n := n) solve k).Ext → Prop
  | .rls, s => Scalar.eqz s.mu = false
  | .ocnlms, s =>
    let q : OcExt K n := s.ext
    q.memD.length = q.memX.length ∧ q.memIdx < q.memX.length
  | .ap order, s =>
    let q : ApExt K n order := s.ext
    0 < order ∧ ∀ X : Mat K n order, ∃ P, solve order (apGram q.ifc X) (eye order) = .ok P
  | _, _ => True

/-- A call a user can make on a filter object.  `x` need not have the right shape. -/
inductive Call (K : Type) where
  | predict (x : List K)
  | adapt (d : K) (x : List K)
  | run (d : List K) (x : List (List K))
  | pretrainedRun (d : List K) (x : List (List K)) (ntrain : ℚ) (epochs : ℕ)

/-- The object after one call, whether the call returned or raised. -/
def Call.exec (C : FilterClass K n) (o : Obj C) : Call K → Obj C
  | .predict x => (Padasip.predict C x o).2
  | .adapt d x => (Padasip.adapt C d x o).2
  | .run d x => (Padasip.run C d x o).2
  | .pretrainedRun d x q m => (Padasip.pretrainedRun C d x q m o).2

/-- The object after a history of calls (exceptions are caught by the caller). -/
def execAll (C : FilterClass K n) (o : Obj C) (calls : List (Call K)) : Obj C :=
  calls.foldl (Call.exec C) o

/-- The parameters with which a filter can be used: those that make the constructed object `Ready`. -/
def ParamsOk (env : Env K) (t : Tag) (kw : Kwargs K) : Prop :=
  (t = .rls → ∀ m, (kw.mu <|> defaultMu t) = some m → Scalar.eqz m = false) ∧
  (t = .ocnlms → 1 ≤ kw.mem.getD 100) ∧
  (t = .ap → 1 ≤ kw.order.getD 5 ∧ ∀ (n : ℕ) (X : Mat K n (kw.order.getD 5)),
    ∃ P, env.solve _ (apGram (kw.ifc.getD (lit 1 1000)) X) (eye _) = .ok P)

end Padasip

namespace Padasip

variable {K : Type} [Transc K] {n : ℕ}

/-- What a call returns or raises (a returned number `y` as `([y], [], [])`, `None` as `([], [], [])`). -/
def Call.outcome (C : FilterClass K n) (o : Obj C) : Call K → Except Err (List K × List K × List (List K))
  | .predict x => match (Padasip.predict C x o).1 with
    | .ok y => .ok ([y], [], [])
    | .error e => .error e
  | .adapt d x => match (Padasip.adapt C d x o).1 with
    | .ok _ => .ok ([], [], [])
    | .error e => .error e
  | .run d x => (Padasip.run C d x o).1
  | .pretrainedRun d x q m => (Padasip.pretrainedRun C d x q m o).1

/-- Everything a user can observe of an object through a history of calls. -/
def outcomes (C : FilterClass K n) : Obj C → List (Call K) →
    List (Except Err (List K × List K × List (List K)))
  | _, [] => []
  | o, c :: cs => c.outcome C o :: outcomes C (c.exec C o) cs

end Padasip

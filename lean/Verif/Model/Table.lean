import Verif.Model.Args

/-!
# Filters whose initial weights are a table

`init_weights` (base_filter.py l. 59-99) checks `len(w) == n` only, so an array with two dimensions and `n` rows is accepted: `self.w` then has shape `(n, c)`.
Modelled for the eight classes without a matrix or a memory of their own: LMS, LMF, SSLMS, NLMS, NLMF, NSSLMS, GMCC, Llncosh (`Plain` without `rls`).
-/

namespace Padasip

variable {K : Type} {m c : Nat}

/-- A filter object with a table of weights, base_filter.py l. 38-41: `self.w` (`m` rows, `c` columns), `self.n`, `self.mu`, the attributes of the class, `self.w_history`. -/
structure TabObj (C : FilterClass K c) (m : Nat) where
  w : Mat K m c
  nAttr : Nat
  mu : K
  ext : C.Ext
  wHist : List (List K)

/-- `AdaptiveFilter.init_weights`, base_filter.py l. 83-99, for a `w` that is a list of lists: `len(w) == n` (l. 92) and the conversion to an array (l. 93-96), which fails when the rows differ in
length.  Simplification: `w` has at least one row and holds numbers. -/
def initTable [Scalar K] (selfN : Nat) (rows : List (List K)) (n : Int) : Except Err (Σ m c, Mat K m c) :=
  let n : Int := if n = -1 then selfN else n
  if (rows.length : Int) = n then
    match rows with
    | [] => .error .valueError
    | r0 :: rest =>
      if rest.all (fun r => decide (r.length = r0.length)) then
        .ok ⟨(r0 :: rest).length, r0.length, fun a i => ((r0 :: rest).get a).getD i 0⟩
      else .error .valueError
  else .error .valueError

/-- `AdaptiveFilter.predict`, base_filter.py l. 114: `np.dot(self.w, x)` of a table and a vector is a vector with one entry per row. -/
def tabPredict [Scalar K] {C : FilterClass K c} (x : List K) : M (TabObj C m) (List K) := do
  let v ← M.lift (asVec c x)
  let o ← M.get
  pure (List.ofFn fun a => dot (o.w a) v)

/-- A call of the learning rule of the class with an array `e`; no rule of these classes reads `self.w` (see the rules `*RuleArr` in Model/Args.lean). -/
def tabRule [Transc K] (solve : Solver K) (p : Plain) (e x : List K) : M (TabObj (classOf (n := c) solve p.kind) m) (List K) := fun o =>
  match arrRule solve p e x ⟨zeros c, o.nAttr, o.mu, o.ext⟩ with
  | (r, s) => (r, { o with nAttr := s.nAttr, mu := s.mu, ext := s.ext })

/-- `self.w += dw`, base_filter.py l. 166 and 210: the in-place sum needs a `dw` that broadcasts to the shape `(m, c)` of `self.w`; it is added to every row. -/
def tabAdd [Scalar K] {C : FilterClass K c} (dw : List K) : M (TabObj C m) Unit := do
  let v ← M.lift (bcastVec c dw)
  M.modify fun o => { o with w := fun a i => o.w a i + v i }

/-- `AdaptiveFilter.adapt`, base_filter.py l. 164-166, with a number `d`. -/
def tabAdapt [Transc K] (solve : Solver K) (p : Plain) (d : K) (x : List K) : M (TabObj (classOf (n := c) solve p.kind) m) Unit := do
  let y ← tabPredict x
  let dw ← tabRule solve p (y.map (d - ·)) x
  tabAdd dw

/-- the assignment of an array to something with one dimension less needs an array of length 1, otherwise `ValueError` (base_filter.py l. 207, 208) -/
def onlyOne {α : Type} (l : List α) : Except Err α :=
  match l with
  | [r] => .ok r
  | _ => .error .valueError

/-- `self.w_history[k, :] = self.w`, base_filter.py l. 207: a table of one row is assigned like the row, a table of several rows cannot be assigned to a row. -/
def tabHist {C : FilterClass K c} (k : Nat) : M (TabObj C m) Unit := do
  let o ← M.get
  let r ← M.lift (onlyOne (List.ofFn o.w))
  let row ← M.lift (bcast o.nAttr (List.ofFn r))
  M.modify fun o => { o with wHist := o.wHist.set k row }

/-- Body of the loop of `run`, base_filter.py l. 208-210: `y[k] = ...` needs an array of one entry (numpy up to 2.x converts it, with a deprecation warning), otherwise `ValueError`; `e[k]` is a
number, for the rule the same as an array of one entry (C117). -/
def tabBody [Transc K] (solve : Solver K) (p : Plain) (d : K) (x : List K) : M (TabObj (classOf (n := c) solve p.kind) m) (K × K) := do
  let ys ← tabPredict x
  let y ← M.lift (onlyOne ys)
  let e := d - y
  let dw ← tabRule solve p [e] x
  tabAdd dw
  pure (y, e)

/-- The loop of `run`, base_filter.py l. 206-210. -/
def tabLoop [Transc K] (solve : Solver K) (p : Plain) : Nat → List (K × List K) → M (TabObj (classOf (n := c) solve p.kind) m) (List K × List K)
  | _, [] => pure ([], [])
  | k, (d, x) :: rest => do
    tabHist k
    let (y, e) ← tabBody solve p d x
    let (ys, es) ← tabLoop solve p (k + 1) rest
    pure (y :: ys, e :: es)

/-- `AdaptiveFilter.run`, base_filter.py l. 190-211. -/
def tabRun [Transc K] (solve : Solver K) (p : Plain) (d : List K) (x : List (List K)) : M (TabObj (classOf (n := c) solve p.kind) m) (List K × List K × List (List K)) :=
  if d.length ≠ x.length then M.raise .valueError
  else match x with
    | [] => M.raise .indexError
    | x0 :: _ => do
      M.modify fun o => { o with nAttr := x0.length }
      if x.any (fun r => decide (r.length ≠ x0.length)) then M.raise .valueError
      else do
        M.modify fun o => { o with wHist := List.replicate x.length (List.replicate o.nAttr 0) }
        let (ys, es) ← tabLoop solve p 0 (d.zip x)
        let o ← M.get
        pure (ys, es, o.wHist)

end Padasip

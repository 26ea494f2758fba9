import Verif.Model.Preprocess

/-!
# `padasip/ann/mlp.py`

Sizes are static: `nin` inputs of a layer, `m` nodes of a layer, `p` outputs of the network.  Simplifications for the whole file: the activation
is one of the two documented names (others: Model/MlpArgs); `update` is called after a `predict` (before the first `predict` the attribute `y` has another shape);
weights drawn by `np.random.normal` are arguments of the constructor.
-/

namespace Padasip

variable {K : Type}

/-- The documented values of `activation_f`. -/
inductive Act where
  | sigmoid | tanh
  deriving DecidableEq

/-- `Layer.activation(x, f, der)`, mlp.py l. 118-144, for one entry. -/
def activation [Transc K] (f : Act) (der : Bool) (x : K) : K :=
  match f with
  | .sigmoid => if der then x * (1 - x) else 1 / (1 + Transc.exp (-x))
  | .tanh => if der then 1 - x * x else (1 + 1) / (1 + Transc.exp (-(1 + 1) * x)) - 1

/-- Attributes of `Layer`, mlp.py l. 106-116: weights (one row per node, column 0 is the bias), last input with a leading 1, last output,
learning rate, activation. -/
structure Layer (K : Type) (nin m : Nat) where
  w : Mat K m (nin + 1)
  x : Vec K (nin + 1)
  y : Vec K m
  mu : K
  f : Act

/-- `Layer.__init__`, mlp.py l. 106-116, with the drawn weights and the resolved learning rate as arguments. -/
def mkLayer [Scalar K] {nin m : Nat} (w : Mat K m (nin + 1)) (f : Act) (mu : K) : Layer K nin m :=
  { w := w, x := fun _ => 1, y := fun _ => 0, mu := mu, f := f }

/-- `self.x[1:] = x`, mlp.py l. 160, 424. -/
def setTail {n : Nat} (old : Vec K (n + 1)) (x : Vec K n) : Vec K (n + 1) := Fin.cons (old 0) x

/-- `Layer.predict(x)`, mlp.py l. 146-162. -/
def Layer.predict [Transc K] {nin m : Nat} (l : Layer K nin m) (x : Vec K nin) : Layer K nin m :=
  let x' := setTail l.x x
  { l with x := x', y := fun i => activation l.f false (vsum fun j => l.w i j * x' j) }

/-- `self.w[:, 1:]`, mlp.py l. 188, 456. -/
def dropBias {nin m : Nat} (w : Mat K m (nin + 1)) : Mat K m nin := fun i j => w i j.succ

/-- lines 184/187 and 189: `self.w += self.mu * np.outer(e, self.x)`. -/
def Layer.apply [Scalar K] {nin m : Nat} (l : Layer K nin m) (e : Vec K m) : Layer K nin m :=
  { l with w := fun i j => l.w i j + l.mu * (e i * l.x j) }

/-- `Layer.update(w, e)` for a 1-d `w` (mlp.py l. 182-184): the error of the nodes. -/
def Layer.errFlat [Transc K] {nin m : Nat} (l : Layer K nin m) (w : Vec K m) (e : K) : Vec K m := fun i =>
  activation l.f true (l.y i) * e * w i

/-- `Layer.update(w, e)` for a 2-d `w` (mlp.py l. 185-187): the error of the nodes. -/
def Layer.errMat [Transc K] {nin m p : Nat} (l : Layer K nin m) (w : Mat K p m) (e : Vec K p) : Vec K m := fun i =>
  activation l.f true (l.y i) * (1 - l.y i) * vsum fun k => e k * w k i

/-- The hidden layers, from the input on (mlp.py l. 251-259). -/
inductive Hidden (K : Type) : Nat → Nat → Type where
  | one {nin m : Nat} (l : Layer K nin m) : Hidden K nin m
  | snoc {nin m q : Nat} (h : Hidden K nin m) (l : Layer K m q) : Hidden K nin q

/-- mlp.py l. 422-423: forward pass, returning the layers with their attributes assigned and the last output. -/
def Hidden.predict [Transc K] {nin m : Nat} : Hidden K nin m → Vec K nin → Hidden K nin m × Vec K m
  | .one l, x => let l' := l.predict x; (.one l', l'.y)
  | .snoc h l, x => let (h', z) := h.predict x; let l' := l.predict z; (.snoc h' l', l'.y)

/-- mlp.py l. 459-460 for a 2-d `w`: from the last hidden layer to the first.  The `w` handed on (l. 188) is a view of the layer's weights, and
l. 189 changes them in place before the next layer reads the view: the *updated* weights are used. -/
def Hidden.updateMat [Transc K] {nin m p : Nat} : Hidden K nin m → Mat K p m → Vec K p → Hidden K nin m
  | .one l, w, e => .one (l.apply (l.errMat w e))
  | .snoc h l, w, e =>
    let e' := l.errMat w e
    let l' := l.apply e'
    .snoc (h.updateMat (dropBias l'.w) e') l'

/-- mlp.py l. 459-460 when the network has one output: only the last hidden layer gets a 1-d `w`. -/
def Hidden.updateFlat [Transc K] {nin m : Nat} : Hidden K nin m → Vec K m → K → Hidden K nin m
  | .one l, w, e => .one (l.apply (l.errFlat w e))
  | .snoc h l, w, e =>
    let e' := l.errFlat w e
    let l' := l.apply e'
    .snoc (h.updateMat (dropBias l'.w) e') l'

/-- Attributes of `NetworkMLP`, mlp.py l. 224-259.  Simplification: with one output `w` is a matrix of one row (in the code: 1-d). -/
structure Net (K : Type) (nin m p : Nat) where
  hidden : Hidden K nin m
  w : Mat K p (m + 1)
  x : Vec K (m + 1)
  y : Vec K p
  mu : K

/-- hidden layers as the constructor creates them, mlp.py l. 251-259 -/
def Hidden.IsNew [Scalar K] {nin m : Nat} : Hidden K nin m → Prop
  | .one l => ∃ w f mu, l = mkLayer w f mu
  | .snoc h l => h.IsNew ∧ ∃ w f mu, l = mkLayer w f mu

/-- `NetworkMLP.__init__`, mlp.py l. 224-259, with the drawn weights and the resolved learning rate as arguments (in the code `y` starts as the
scalar 0). -/
def mkNet [Scalar K] {nin m p : Nat} (h : Hidden K nin m) (w : Mat K p (m + 1)) (mu : K) : Net K nin m p :=
  { hidden := h, w := w, x := fun _ => 1, y := fun _ => 0, mu := mu }

section net
variable [Transc K] {nin m p : Nat}

/-- `NetworkMLP.predict(x)`, mlp.py l. 407-430, for an input of the right length. -/
def Net.predictV (n : Net K nin m p) (x : Vec K nin) : Net K nin m p × Vec K p :=
  let (h', z) := n.hidden.predict x
  let x' := setTail n.x z
  let y := fun i => vsum fun j => n.w i j * x' j
  ({ n with hidden := h', x := x', y := y }, y)

/-- `NetworkMLP.predict(x)` for an input of run-time length: `self.x[1:] = x` in the first layer broadcasts an array of length 1 and rejects other
wrong lengths (before anything is assigned). -/
def Net.predict (n : Net K nin m p) (x : List K) : Except Err (Vec K p) × Net K nin m p :=
  match bcastVec nin x with
  | .error e => (.error e, n)
  | .ok v => let (n', y) := n.predictV v; (.ok y, n')

/-- `NetworkMLP.update(d)`, mlp.py l. 432-461; returns the error.  Simplification: the target has the right shape (others: Model/MlpArgs). -/
def Net.update (n : Net K nin m p) (d : Vec K p) : Net K nin m p × Vec K p :=
  let e : Vec K p := fun k => d k - n.y k
  let w' : Mat K p (m + 1) := fun k j => n.w k j + if p = 1 then n.mu * e k * n.x j else n.mu * (e k * n.x j)
  let hidden' :=
    if h : p = 1 then n.hidden.updateFlat (dropBias n.w (h ▸ 0)) (e (h ▸ 0))
    else n.hidden.updateMat (dropBias n.w) e
  ({ n with w := w', hidden := hidden' }, e)

/-- one pass of the inner loop of `train`, mlp.py l. 324-326: predict and update for every sample; the errors in order. -/
def Net.epoch (n : Net K nin m p) : List (Vec K nin × Vec K p) → Net K nin m p × List (Vec K p)
  | [] => (n, [])
  | (x, d) :: t =>
    let (n1, e) := (n.predictV x).1.update d
    let (n2, es) := n1.epoch t
    (n2, e :: es)

/-- `np.sum(e[epoch*N:(epoch+1)*N-1]**2) / N`, mlp.py l. 327: the slice leaves out the last sample of the epoch. -/
def epochMse (es : List (Vec K p)) : K :=
  ((es.dropLast.map fun e => vsum fun k => e k * e k).sum) / Scalar.nat es.length

/-- the adaptation loop of `train`, mlp.py l. 323-328. -/
def Net.trainLoop (n : Net K nin m p) (data : List (Vec K nin × Vec K p)) : Nat → Net K nin m p × List (Vec K p) × List K
  | 0 => (n, [], [])
  | k + 1 =>
    let (n1, es) := n.epoch data
    let (n2, es2, ms) := n1.trainLoop data k
    (n2, es ++ es2, epochMse es :: ms)

/-- the targets as rows: with one output `d` is 1-d. -/
def targetRows (p : Nat) (d : NArr K) : Except Err (List (List K)) :=
  match d with
  | .one l => if p = 1 then .ok (l.map fun a => [a]) else .error .indexError
  | .two cols rows => if p = 1 then .error .valueError else if cols = p then .ok rows else .error .valueError

/-- `len(d)` -/
def NArr.len : NArr K → Nat
  | .one l => l.length
  | .two _ rows => rows.length

/-- The checks of `train` and `test`, mlp.py l. 294-309, 381-396.  `d.shape[1]` of a 1-d array is an `IndexError`; `x[0]` of an empty `x` too.
`np.array` of rows of different lengths raises, which l. 309 turns into a `ValueError`.  Result: the samples. -/
def mlpCheck (nin p : Nat) (x : List (List K)) (d : NArr K) : Except Err (List (Vec K nin × Vec K p)) :=
  if ¬ d.len = x.length then .error .valueError
  else match x with
    | [] => .error .indexError
    | x0 :: _ =>
      if ¬ x0.length = nin then .error .valueError
      else match targetRows p d with
        | .error e => .error e
        | .ok rows =>
          match x.mapM (asVec nin), rows.mapM (asVec p) with
          | .ok xs, .ok ds => .ok (xs.zip ds)
          | _, _ => .error .valueError

/-- `x[randomize]` for an integer array `randomize`, mlp.py l. 320-321 (applied to the samples, i.e. to `x` and `d` alike).
Simplification: an index out of range (numpy: `IndexError`) is skipped; `randomize` is a shuffled `np.arange(N)`, so it has none. -/
def takeRows {α : Type} (rand : List Nat) (l : List α) : List α := rand.filterMap fun i => l[i]?

/-- `NetworkMLP.train(x, d, epochs, shuffle)`, mlp.py l. 261-328; `rand` is the outcome of `np.random.shuffle(np.arange(N))` (l. 318-319).
Simplification: `epochs >= 0` (all integers: `Net.trainZ` in Model/MlpArgs). -/
def Net.train (n : Net K nin m p) (rand : List Nat) (x : List (List K)) (d : NArr K) (epochs : Nat) (shuffle : Bool) :
    Except Err (List (Vec K p) × List K) × Net K nin m p :=
  match mlpCheck nin p x d with
  | .error e => (.error e, n)
  | .ok data =>
    let (n', es, ms) := n.trainLoop (if shuffle then takeRows rand data else data) epochs
    (.ok (es, ms), n')

/-- the loop of `run`, mlp.py l. 357-358 (a row of a wrong length raises in the middle, or is broadcast if it has length 1). -/
def Net.runLoop (n : Net K nin m p) : List (List K) → Except Err (List (Vec K p)) × Net K nin m p
  | [] => (.ok [], n)
  | x :: t =>
    match n.predict x with
    | (.error e, n1) => (.error e, n1)
    | (.ok y, n1) =>
      match n1.runLoop t with
      | (.error e, n2) => (.error e, n2)
      | (.ok ys, n2) => (.ok (y :: ys), n2)

/-- `NetworkMLP.run(x)`, mlp.py l. 330-359.  Simplification: the rows of `x` have equal lengths (otherwise `np.array(x)` raises). -/
def Net.run (n : Net K nin m p) (x : List (List K)) : Except Err (List (Vec K p)) × Net K nin m p := n.runLoop x

/-- the loop of `test`, mlp.py l. 403-405. -/
def Net.testLoop (n : Net K nin m p) : List (Vec K nin × Vec K p) → Net K nin m p × List (Vec K p)
  | [] => (n, [])
  | (x, d) :: t =>
    let (n1, y) := n.predictV x
    let (n2, es) := n1.testLoop t
    (n2, (fun k => d k - y k) :: es)

/-- `NetworkMLP.test(x, d)`, mlp.py l. 361-405. -/
def Net.test (n : Net K nin m p) (x : List (List K)) (d : NArr K) : Except Err (List (Vec K p)) × Net K nin m p :=
  match mlpCheck nin p x d with
  | .error e => (.error e, n)
  | .ok data => let (n', es) := n.testLoop data; (.ok es, n')

end net

end Padasip

import Verif.Model.Mlp

/-!
# `padasip/ann/mlp.py`: arguments outside the documented forms

`update` with a target of any length, `train` with a negative number of epochs, an unknown `activation`.
-/

namespace Padasip

variable {K : Type} [Transc K] {nin m p : Nat}

/-- The argument `d` of `update`: a number or a list (or 1-d array). -/
inductive TargetArg (K : Type) where
  | scalar (a : K)
  | list (l : List K)

/-- `NetworkMLP.update(d)`, mlp.py l. 432-461, for a network with several outputs that has predicted: `d - self.y` (l. 450) broadcasts a number or one value and
rejects other wrong lengths, before anything is assigned. -/
def Net.updateMany (n : Net K nin m p) (d : TargetArg K) : Except Err (Vec K p) × Net K nin m p :=
  match d with
  | .scalar a => let r := n.update fun _ => a; (.ok r.2, r.1)
  | .list l =>
    match bcastVec p l with
    | .error e => (.error e, n)
    | .ok v => let r := n.update v; (.ok r.2, r.1)

/-- `NetworkMLP.update(d)` for a network with one output that has predicted: `self.y` is a number, so `e = d - self.y` has the length of `d`.  `self.mu * e * self.x` (l. 452)
needs one value or as many as the output has weights (`m + 1`); in the second case `self.w` is changed (l. 457) and the last hidden layer raises `ValueError` (l. 183, or l. 189
if it has one node).  The result is the list of errors.  Simplification: `m >= 1` (the constructor accepts no other network). -/
def Net.updateOne (n : Net K nin m 1) (d : TargetArg K) : Except Err (List K) × Net K nin m 1 :=
  match d with
  | .scalar a => let r := n.update fun _ => a; (.ok [r.2 0], r.1)
  | .list [a] => let r := n.update fun _ => a; (.ok [r.2 0], r.1)
  | .list l =>
    if h : l.length = m + 1 then (.error .valueError, { n with w := fun k j => n.w k j + n.mu * (l[j.val]'(by omega) - n.y 0) * n.x j })
    else (.error .valueError, n)

/-- `NetworkMLP.train(x, d, epochs, shuffle)`, mlp.py l. 261-328, for every integer `epochs`: `np.zeros(epochs*N)` (l. 311-314) raises `ValueError` for a negative one. -/
def Net.trainZ (n : Net K nin m p) (rand : List Nat) (x : List (List K)) (d : NArr K) (epochs : Int) (shuffle : Bool) :
    Except Err (List (Vec K p) × List K) × Net K nin m p :=
  if epochs < 0 then
    match mlpCheck nin p x d with
    | .error e => (.error e, n)
    | .ok _ => (.error .valueError, n)
  else n.train rand x d epochs.toNat shuffle

/-! ## Unknown activation

`Layer.activation` returns `None` for a name it does not know (l. 138-144 have no other branch).  `self.x[1:] = None` stores a NaN (numpy); `None * e` and `1 - None` are a
`TypeError`.  `nan` is the NaN numpy stores. -/

/-- the forward pass of the hidden layers, mlp.py l. 422-423, 160-161: the first layer gets the input, the others (and the output layer) NaN. -/
def Hidden.predictOther {nin m : Nat} (nan : K) : Hidden K nin m → Vec K nin → Hidden K nin m
  | .one l, x => .one { l with x := setTail l.x x }
  | .snoc h l, x => .snoc (h.predictOther nan x) { l with x := setTail l.x fun _ => nan }

/-- `NetworkMLP.predict(x)`, mlp.py l. 407-430, with an unknown activation, for an input of the right length. -/
def Net.predictOther (nan : K) (n : Net K nin m p) (x : Vec K nin) : Net K nin m p × Vec K p :=
  let x' := setTail n.x fun _ => nan
  let y := fun i => vsum fun j => n.w i j * x' j
  ({ n with hidden := n.hidden.predictOther nan x, x := x', y := y }, y)

/-- `NetworkMLP.update(d)`, mlp.py l. 432-461, with an unknown activation: the output weights are changed (l. 457), then l. 183 or 186 raises. -/
def Net.updateOther (n : Net K nin m p) (d : Vec K p) : Except Err (Vec K p) × Net K nin m p :=
  (.error .typeError, { n with w := fun k j => n.w k j + if p = 1 then n.mu * (d k - n.y k) * n.x j else n.mu * ((d k - n.y k) * n.x j) })

/-- `NetworkMLP.run(x)`, mlp.py l. 330-359, with an unknown activation.  Simplification: rows of the right length. -/
def Net.runOther (nan : K) (n : Net K nin m p) : List (Vec K nin) → Net K nin m p × List (Vec K p)
  | [] => (n, [])
  | x :: t => let r := n.predictOther nan x; let q := r.1.runOther nan t; (q.1, r.2 :: q.2)

/-- `NetworkMLP.train(x, d, epochs, shuffle)`, mlp.py l. 261-328, with an unknown activation: the first `update` raises.
(`mlpCheck` accepts no empty data: the case without a sample does not occur.) -/
def Net.trainOther (nan : K) (n : Net K nin m p) (rand : List Nat) (x : List (List K)) (d : NArr K) (epochs : Nat) (shuffle : Bool) :
    Except Err (List (Vec K p) × List K) × Net K nin m p :=
  match mlpCheck nin p x d with
  | .error e => (.error e, n)
  | .ok data =>
    match epochs, if shuffle then takeRows rand data else data with
    | 0, _ => (.ok ([], []), n)
    | _ + 1, [] => (.ok ([], []), n)
    | _ + 1, (x0, d0) :: _ => let r := (n.predictOther nan x0).1.updateOther d0
                              (.error .typeError, r.2)

end Padasip

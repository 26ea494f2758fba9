import Verif.Model.Mlp

/-!
# `padasip/ann/mlp.py`: the constructor with run-time arguments, and `update` before the first `predict`
-/

namespace Padasip

variable {K : Type}

/-- The argument `mu` of `NetworkMLP`: the string `"auto"`, a number, another string that `float` accepts, anything else (`float(mu)` raises). -/
inductive MuArg (K : Type) where
  | auto
  | num (v : K)
  | numStr
  | bad
  deriving DecidableEq

/-- `n**(-0.5)` for a positive integer `n`, mlp.py l. 107, 229. -/
def invSqrt [Transc K] (n : Nat) : K := Transc.pow (Scalar.nat n) (-(1 / (1 + 1)))

/-- the learning rate assigned in mlp.py l. 108-111 and l. 231-240 (a string is stored as it is: it is represented by 0 here, and by the flag
`muNum` of the network). -/
def resolveMu [Transc K] (mu : MuArg K) (n : Nat) : K :=
  match mu with
  | .auto => invSqrt n
  | .num v => v
  | _ => 0

/-- The calls of `np.random.normal(0, sigma, (rows, cols))`, by their number. -/
abbrev Draw (K : Type) := Nat → K → (rows cols : Nat) → Mat K rows cols

/-- `Layer.__init__(n_layer, n_input, activation_f, mu)`, mlp.py l. 106-116.  `0**(-0.5)` is a `ZeroDivisionError`.
Simplification: natural numbers as sizes. -/
def newLayer [Transc K] (draw : Draw K) (call nLayer nInput : Nat) (f : Act) (mu : MuArg K) : Except Err (Layer K nInput nLayer) :=
  if nInput = 0 then .error .zeroDivisionError
  else .ok (mkLayer (draw call (invSqrt nInput) nLayer (nInput + 1)) f (resolveMu mu nInput))

/-- the loop of mlp.py l. 253-259, from the second layer on. -/
def growHidden [Transc K] (draw : Draw K) (f : Act) (mu : MuArg K) {nin : Nat} : {m : Nat} → Nat → Hidden K nin m → List Nat →
    Except Err ((q : Nat) × Hidden K nin q)
  | m, _, h, [] => .ok ⟨m, h⟩
  | m, call, h, s :: t =>
    match newLayer draw call s m f mu with
    | .error e => .error e
    | .ok l => growHidden draw f mu (call + 1) (.snoc h l) t

/-- A network with its run-time size; `muNum` is false if the attribute `mu` is a string. -/
structure AnyNet (K : Type) (nin p : Nat) where
  m : Nat
  net : Net K nin m p
  muNum : Bool

/-- `NetworkMLP.__init__(layers, n_input, outputs, activation, mu)`, mlp.py l. 224-259: `layers[-1]` of an empty list is an `IndexError` (l. 229),
`0**(-0.5)` a `ZeroDivisionError` (l. 229, 107).  The output weights are the first drawn (l. 244-246).  Simplifications: natural numbers as sizes; the
deprecation warning is left out. -/
def newNet [Transc K] (draw : Draw K) (layers : List Nat) (nin p : Nat) (f : Act) (mu : MuArg K) : Except Err (AnyNet K nin p) :=
  match layers with
  | [] => .error .indexError
  | s :: t =>
    if (s :: t).getLastD 0 = 0 then .error .zeroDivisionError
    else
      match mu with
      | .bad => .error .valueError
      | mu =>
        match newLayer draw 1 s nin f mu with
        | .error e => .error e
        | .ok l =>
          match growHidden draw f mu 2 (.one l) t with
          | .error e => .error e
          | .ok ⟨q, h⟩ => .ok
            { m := q, net := mkNet h (draw 0 (invSqrt ((s :: t).getLastD 0)) p (q + 1)) (resolveMu mu ((s :: t).getLastD 0))
              muNum := match mu with | .numStr => false | _ => true }

/-- mlp.py l. 459-460 on a network whose layers have not predicted yet, for a 2-d `w`.  The attribute `y` of such a layer is `np.zeros(n_input+1)`
(l. 115), so l. 186 and 189 raise `ValueError` unless the layer has `n_input+1` nodes.  Result: whether it went through. -/
def Hidden.freshMat [Transc K] {nin m p : Nat} : Hidden K nin m → Mat K p m → Vec K p → Bool × Hidden K nin m
  | .one l, w, e => if nin + 1 = m then (true, .one (l.apply (l.errMat w e))) else (false, .one l)
  | @Hidden.snoc _ _ a _ h l, w, e =>
    if a + 1 = m then
      let e' := l.errMat w e
      let l' := l.apply e'
      let (ok, h') := h.freshMat (dropBias l'.w) e'
      (ok, .snoc h' l')
    else (false, .snoc h l)

/-- the same for a 1-d `w`, mlp.py l. 182-184. -/
def Hidden.freshFlat [Transc K] {nin m : Nat} : Hidden K nin m → Vec K m → K → Bool × Hidden K nin m
  | .one l, w, e => if nin + 1 = m then (true, .one (l.apply (l.errFlat w e))) else (false, .one l)
  | @Hidden.snoc _ _ a _ h l, w, e =>
    if a + 1 = m then
      let e' := l.errFlat w e
      let l' := l.apply e'
      let (ok, h') := h.freshMat (dropBias l'.w) e'
      (ok, .snoc h' l')
    else (false, .snoc h l)

/-- `NetworkMLP.update(d)`, mlp.py l. 432-461, on a network that has not predicted yet (`y` is 0, l. 249): the output weights are changed (l. 457)
before the hidden layers may raise. -/
def Net.updateFresh [Transc K] {nin m p : Nat} (n : Net K nin m p) (d : Vec K p) : Except Err (Vec K p) × Net K nin m p :=
  let e : Vec K p := fun k => d k - n.y k
  let w' : Mat K p (m + 1) := fun k j => n.w k j + if p = 1 then n.mu * e k * n.x j else n.mu * (e k * n.x j)
  let r : Bool × Hidden K nin m :=
    if h : p = 1 then n.hidden.freshFlat (dropBias n.w (h ▸ 0)) (e (h ▸ 0))
    else n.hidden.freshMat (dropBias n.w) e
  (if r.1 then .ok e else .error .valueError, { n with w := w', hidden := r.2 })

/-- `update` of a network whose `mu` may be a string: `self.mu * e` (l. 452, 455) is a `TypeError` then, before anything is assigned. -/
def AnyNet.updateFresh [Transc K] {nin p : Nat} (n : AnyNet K nin p) (d : Vec K p) : Except Err (Vec K p) × AnyNet K nin p :=
  if n.muNum then let r := n.net.updateFresh d; (r.1, { n with net := r.2 })
  else (.error .typeError, n)

/-- `update` after a `predict` of a network whose `mu` may be a string. -/
def AnyNet.update [Transc K] {nin p : Nat} (n : AnyNet K nin p) (d : Vec K p) : Except Err (Vec K p) × AnyNet K nin p :=
  if n.muNum then let r := n.net.update d; (.ok r.2, { n with net := r.1 })
  else (.error .typeError, n)

end Padasip

import Verif.Model.Mlp
import Verif.Model.NdMem
import Verif.Model.NdRest

/-!
# `padasip/ann/mlp.py`: `predict` and `update` with arrays of any shape

For a network that has been constructed with positive sizes; `update` after a `predict` with the right number of values (then every layer's `y` is a vector with one entry per node).
-/

namespace Padasip

variable {K : Type} [Transc K] {nin m p : Nat}

/-- `NetworkMLP.predict(x)`, mlp.py l. 407-430, for an array `x` of any shape: `self.x[1:] = x` (l. 160) in the first layer decides. -/
def Net.predictNd (n : Net K nin m p) (x : Arr K) : Except Err (Vec K p) × Net K nin m p :=
  match assignVec nin x with
  | .error e => (.error e, n)
  | .ok v => let r := n.predictV v; (.ok r.2, r.1)

/-- `self.w += dw` for a matrix `self.w`, mlp.py l. 189, 457: the in-place sum must have the shape of `self.w`. -/
def iaddMat {r c : Nat} (W : Mat K r c) (dw : Arr K) : Except Err (Mat K r c) :=
  match bshape [r, c] dw.shape with
  | .error e => .error e
  | .ok s => if s = [r, c] then .ok fun i j => W i j + dw.entry (bidx dw.shape [i.val, j.val]) else .error .valueError

/-- the error of the nodes in `Layer.update(w, e)`, mlp.py l. 182-186 -/
def Layer.errNd (l : Layer K nin m) (w e : Arr K) : Except Err (Arr K) :=
  if w.shape.length = 1 then
    match (Arr.vec fun i => activation l.f true (l.y i)).zip (· * ·) e with
    | .error er => .error er
    | .ok a => a.zip (· * ·) w
  else
    match e.dot w with
    | .error er => .error er
    | .ok q => (Arr.vec fun i => activation l.f true (l.y i) * (1 - l.y i)).zip (· * ·) q

/-- `self.w += self.mu * np.outer(e, self.x)`, mlp.py l. 184, 187, 189 -/
def Layer.addNd (l : Layer K nin m) (e : Arr K) : Except Err (Mat K m (nin + 1)) := iaddMat l.w ((e.outer (Arr.vec l.x)).map (l.mu * ·))

/-- mlp.py l. 459-460: from the last hidden layer to the first; the layers updated before an exception stay updated.  As in `Hidden.updateMat`, the next layer sees the
updated weights. -/
def Hidden.updateNd {nin m : Nat} : Hidden K nin m → Arr K → Arr K → Except Err Unit × Hidden K nin m
  | .one l, w, e =>
    match l.errNd w e with
    | .error er => (.error er, .one l)
    | .ok e' =>
      match l.addNd e' with
      | .error er => (.error er, .one l)
      | .ok W => (.ok (), .one { l with w := W })
  | .snoc h l, w, e =>
    match l.errNd w e with
    | .error er => (.error er, .snoc h l)
    | .ok e' =>
      match l.addNd e' with
      | .error er => (.error er, .snoc h l)
      | .ok W => let r := h.updateNd (Arr.table (dropBias W)) e'; (r.1, .snoc r.2 { l with w := W })

/-- `NetworkMLP.update(d)`, mlp.py l. 432-461, for a network whose number of outputs is not 1 and an array `d` of any shape; returns the error array. -/
def Net.updateManyNd (n : Net K nin m p) (d : Arr K) : Except Err (Arr K) × Net K nin m p :=
  match d.zip (· - ·) (Arr.vec n.y) with
  | .error er => (.error er, n)
  | .ok e =>
    match iaddMat n.w ((e.outer (Arr.vec n.x)).map (n.mu * ·)) with
    | .error er => (.error er, n)
    | .ok W =>
      let r := n.hidden.updateNd (Arr.table (dropBias n.w)) e
      (r.1.map fun _ => e, { n with w := W, hidden := r.2 })

/-- `NetworkMLP.update(d)`, mlp.py l. 432-461, for a network with one output (`self.y` is a number, `self.w` a vector) and an array `d` of any shape. -/
def Net.updateOneNd (n : Net K nin m 1) (d : Arr K) : Except Err (Arr K) × Net K nin m 1 :=
  match d.zip (· - ·) (Arr.num (n.y 0)) with
  | .error er => (.error er, n)
  | .ok e =>
    match (e.map (n.mu * ·)).zip (· * ·) (Arr.vec n.x) with
    | .error er => (.error er, n)
    | .ok dw =>
      match iadd (n.w 0) dw with
      | .error er => (.error er, n)
      | .ok w =>
        let r := n.hidden.updateNd (Arr.vec (dropBias n.w 0)) e
        (r.1.map fun _ => e, { n with w := fun _ => w, hidden := r.2 })

end Padasip

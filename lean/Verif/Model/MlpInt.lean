import Verif.Model.MlpNew

/-!
# `padasip/ann/mlp.py`: the constructor with Python integers, possibly negative, as sizes
-/

namespace Padasip

variable {K : Type}

/-- `n**(-0.5)` for a Python integer, mlp.py l. 107, 229: `ZeroDivisionError` for 0, a complex number (`none`) for a negative `n`. -/
def invSqrtZ [Transc K] (n : Int) : Except Err (Option K) :=
  if n = 0 then .error .zeroDivisionError
  else if n < 0 then .ok none
  else .ok (some (invSqrt n.toNat))

/-- What `np.random.normal(0, sigma, (rows, n+1))` raises, if anything, mlp.py l. 113, 244, 246: `TypeError` for a complex `sigma` (it is converted to a
float before the size is looked at), `ValueError` for a negative dimension. -/
def normalErr (sigma : Option K) (rows n : Int) : Option Err :=
  match sigma with
  | none => some .typeError
  | some _ => if rows < 0 ∨ n + 1 < 0 then some .valueError else none

/-- `Layer.__init__(n_layer, n_input, activation_f, mu)`, mlp.py l. 106-116, for integers. -/
def newLayerZ [Transc K] (draw : Draw K) (call : Nat) (nLayer nInput : Int) (f : Act) (mu : MuArg K) : Except Err (Layer K nInput.toNat nLayer.toNat) :=
  match invSqrtZ (K := K) nInput with
  | .error e => .error e
  | .ok sigma =>
    match normalErr sigma nLayer nInput with
    | some e => .error e
    | none => .ok (mkLayer (draw call (sigma.getD 0) nLayer.toNat (nInput.toNat + 1)) f (match mu with | .auto => sigma.getD 0 | .num v => v | _ => 0))

/-- the loop of mlp.py l. 253-259, from the second layer on; `prev` is `layers[n-1]`. -/
def growHiddenZ [Transc K] (draw : Draw K) (f : Act) (mu : MuArg K) {nin : Nat} (prev : Int) (call : Nat) (h : Hidden K nin prev.toNat) :
    List Int → Except Err ((q : Nat) × Hidden K nin q)
  | [] => .ok ⟨prev.toNat, h⟩
  | s :: t =>
    match newLayerZ draw call s prev f mu with
    | .error e => .error e
    | .ok l => growHiddenZ draw f mu s (call + 1) (.snoc h l) t

/-- `NetworkMLP.__init__(layers, n_input, outputs, activation, mu)`, mlp.py l. 224-259, in the order of the code: `layers[-1]**(-0.5)` (l. 229), `mu`
(l. 231-240), the output weights (l. 243-246), the layers (l. 251-259).  Simplification: the sizes are Python integers (with numpy integers the power gives
`nan` or `inf` instead of raising); the deprecation warning is left out. -/
def newNetZ [Transc K] (draw : Draw K) (layers : List Int) (nin p : Int) (f : Act) (mu : MuArg K) : Except Err (AnyNet K nin.toNat p.toNat) :=
  match layers with
  | [] => .error .indexError
  | s :: t =>
    match invSqrtZ (K := K) ((s :: t).getLastD 0) with
    | .error e => .error e
    | .ok sigma =>
      match mu with
      | .bad => .error .valueError
      | mu =>
        match normalErr sigma p ((s :: t).getLastD 0) with
        | some e => .error e
        | none =>
          match newLayerZ draw 1 s nin f mu with
          | .error e => .error e
          | .ok l =>
            match growHiddenZ draw f mu s 2 (.one l) t with
            | .error e => .error e
            | .ok ⟨q, h⟩ => .ok
              { m := q
                net := mkNet h (draw 0 (sigma.getD 0) p.toNat (q + 1)) (match mu with | .auto => sigma.getD 0 | .num v => v | _ => 0)
                muNum := match mu with | .numStr => false | _ => true }

end Padasip

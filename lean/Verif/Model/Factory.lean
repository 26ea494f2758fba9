import Verif.Model.Filters

/-!
# Filter kinds, constructors and the factory functions of `padasip/filters/__init__.py`
-/

namespace Padasip

/-- The fifteen filter classes of `FILTER_CLASSES`, `filters/__init__.py` l. 267-283 (same order). -/
inductive Tag where
  | ap | gmcc | gngd | llncosh | lmf | lms | nlmf | nlms | nsslms | ocnlms | rls | sslms
  | vslmsAng | vslmsBenveniste | vslmsMathews
  deriving DecidableEq, Repr

/-- The class attribute `kind` of each filter (ap.py l. 155, gmcc.py l. 64, gngd.py l. 66, llncosh.py l. 78, lmf.py l. 93,
lms.py l. 158, nlmf.py l. 82, nlms.py l. 148, nsslms.py l. 84, ocnlms.py l. 79, rls.py l. 166, sslms.py l. 97,
vslms_ang.py l. 75, vslms_benveniste.py l. 75, vslms_mathews.py l. 75). -/
def Tag.kind : Tag → String
  | .ap => "AP" | .gmcc => "GMCC" | .gngd => "GNGD" | .llncosh => "Llncosh" | .lmf => "LMF"
  | .lms => "LMS" | .nlmf => "NLMF" | .nlms => "NLMS" | .nsslms => "NSSLMS" | .ocnlms => "OCNLMS"
  | .rls => "RLS" | .sslms => "SSLMS" | .vslmsAng => "VSLMS_Ang"
  | .vslmsBenveniste => "VSLMS_Benveniste" | .vslmsMathews => "VSLMS_Mathews"

/-- `FILTER_CLASSES`, `filters/__init__.py` l. 267-283. -/
def filterClasses : List Tag :=
  [.ap, .gmcc, .gngd, .llncosh, .lmf, .lms, .nlmf, .nlms, .nsslms, .ocnlms, .rls, .sslms,
   .vslmsAng, .vslmsBenveniste, .vslmsMathews]

/-- Insertion into a Python dict (insertion ordered; an existing key keeps its place and gets the new value). -/
def dictSet {α β : Type} [DecidableEq α] (k : α) (v : β) : List (α × β) → List (α × β)
  | [] => [(k, v)]
  | (k', v') :: t => if k' = k then (k, v) :: t else (k', v') :: dictSet k v t

/-- `d[k]` / `k in d.keys()`. -/
def dictGet {α β : Type} [DecidableEq α] (k : α) : List (α × β) → Option β
  | [] => none
  | (k', v) :: t => if k' = k then some v else dictGet k t

/-- `FILTERS = {f.kind.upper(): f for f in FILTER_CLASSES}`, `filters/__init__.py` l. 285.
`upper` stands for `str.upper`. -/
def filtersDict (upper : String → String) : List (String × Tag) :=
  filterClasses.foldl (fun dct t => dictSet (upper t.kind) t dct) []

/-- `get_filter`, `filters/__init__.py` l. 257-265 (any failure of the lookup is re-raised as `ValueError`). -/
def getFilter (upper : String → String) (name : String) : Except Err Tag :=
  match dictGet (upper name) (filtersDict upper) with
  | some t => .ok t
  | none => .error .valueError

/-! ## The class of an object -/

/-- A filter class together with the parameters that fix the shapes of its attributes (`order` of AP). -/
inductive Kind where
  | lms | lmf | sslms | nlms | nlmf | nsslms | gngd | mathews | ang | benveniste | gmcc | llncosh
  | rls | ocnlms | ap (order : Nat)
  deriving DecidableEq, Repr

/-- The methods of the class `k` (files as in `Model/Filters.lean`). -/
def classOf {K : Type} [Transc K] {n : Nat} (solve : Solver K) : Kind → FilterClass K n
  | .lms => Padasip.lms K n
  | .lmf => Padasip.lmf K n
  | .sslms => Padasip.sslms K n
  | .nlms => Padasip.nlms K n
  | .nlmf => Padasip.nlmf K n
  | .nsslms => Padasip.nsslms K n
  | .gngd => Padasip.gngd K n
  | .mathews => Padasip.mathews K n
  | .ang => Padasip.ang K n
  | .benveniste => Padasip.benveniste K n
  | .gmcc => Padasip.gmcc K n
  | .llncosh => Padasip.llncosh K n
  | .rls => Padasip.rls K n
  | .ocnlms => Padasip.ocnlms K n
  | .ap order => Padasip.ap K n solve order

/-! ## Constructors -/

/-- The keyword arguments of a constructor call; `other` says whether a keyword outside this list is present.
Simplification: the values have the documented types (`n`, `mem`, `order` are non-negative integers). -/
structure Kwargs (K : Type) where
  n : Option Nat := none
  mu : Option K := none
  w : Option (WArg K) := none
  eps : Option K := none
  ro : Option K := none
  a : Option K := none
  lambd : Option K := none
  alpha : Option K := none
  mem : Option Nat := none
  order : Option Nat := none
  ifc : Option K := none
  other : Bool := false

/-- External calls used by the constructors and AP: `np.random.normal(0, 0.5, n)` (base_filter.py l. 87) and
`np.linalg.solve` (base_filter.py l. 275, ap.py l. 162). -/
structure Env (K : Type) where
  rand : (n : Nat) → Vec K n
  solve : Solver K

/-- A filter object of any class and size. -/
structure AnyFilter (K : Type) [Transc K] (env : Env K) where
  n : Nat
  kind : Kind
  obj : Obj (classOf (K := K) (n := n) env.solve kind)

/-- A literal such as `0.001` (`lit 1 1000`). -/
def lit {K : Type} [Scalar K] (p q : Nat) : K := Scalar.nat p / Scalar.nat q

/-- A keyword that the constructor of the class does not take (its own parameters plus those of the base class,
to which `**kwargs` are forwarded): `TypeError`.  Signatures: base_filter.py l. 14, 219; nlms.py l. 150; nlmf.py l. 84;
nsslms.py l. 86; gngd.py l. 68; vslms_mathews.py l. 77; vslms_ang.py l. 77; vslms_benveniste.py l. 77; gmcc.py l. 66;
llncosh.py l. 80; rls.py l. 168; ocnlms.py l. 81. -/
def badKeyword {K : Type} (t : Tag) (kw : Kwargs K) : Bool :=
  kw.other
  || (kw.eps.isSome && !([Tag.nlms, .nlmf, .nsslms, .gngd, .rls, .ocnlms].contains t))
  || (kw.ro.isSome && !([Tag.gngd, .vslmsMathews, .vslmsAng, .vslmsBenveniste].contains t))
  || (kw.a.isSome && !([Tag.vslmsAng].contains t))
  || (kw.lambd.isSome && !([Tag.gmcc, .llncosh].contains t))
  || (kw.alpha.isSome && !([Tag.gmcc].contains t))
  || (kw.mem.isSome && !([Tag.ocnlms].contains t))
  || (kw.order.isSome && !([Tag.ap].contains t))
  || (kw.ifc.isSome && !([Tag.ap].contains t))

/-- Default of `mu` (same signatures as `badKeyword`); `none`: the parameter is required (base_filter.py l. 14). -/
def defaultMu {K : Type} [Scalar K] : Tag → Option K
  | .nlms | .nlmf | .nsslms | .rls | .ocnlms => some (lit 1 10)
  | .gngd | .vslmsMathews | .vslmsAng | .vslmsBenveniste => some (lit 1 1)
  | .gmcc | .llncosh => some (lit 1 100)
  | .lms | .lmf | .sslms | .ap => none

/-- `1 / self.eps * np.identity(n)`, rls.py l. 177 (`ZeroDivisionError` for a Python number `0`). -/
def rlsInit {K : Type} [Scalar K] {n : Nat} (eps : K) : Except Err (RlsExt K n) :=
  if Scalar.eqz eps then .error .zeroDivisionError
  else .ok { eps := eps, R := fun i j => 1 / eps * eye n i j }

/-- The attributes a constructor sets after `AdaptiveFilter.__init__` (lines cited at the `*Ext` structures), with the
default values of the signatures; AP: base_filter.py l. 219-238 (`y_mem`, `e_mem` are `False` until the first sample, here zeros). -/
def initExt {K : Type} [Transc K] (env : Env K) (n : Nat) (t : Tag) (kw : Kwargs K) (mu : K) (w : Vec K n) :
    Except Err (AnyFilter K env) :=
  match t with
  | .lms => .ok ⟨n, .lms, ⟨⟨w, n, mu, ()⟩, []⟩⟩
  | .lmf => .ok ⟨n, .lmf, ⟨⟨w, n, mu, ()⟩, []⟩⟩
  | .sslms => .ok ⟨n, .sslms, ⟨⟨w, n, mu, ()⟩, []⟩⟩
  | .nlms => .ok ⟨n, .nlms, ⟨⟨w, n, mu, (⟨kw.eps.getD (lit 1 1000)⟩ : EpsExt K)⟩, []⟩⟩
  | .nlmf => .ok ⟨n, .nlmf, ⟨⟨w, n, mu, (⟨kw.eps.getD (lit 1 1000)⟩ : EpsExt K)⟩, []⟩⟩
  | .nsslms => .ok ⟨n, .nsslms, ⟨⟨w, n, mu, (⟨kw.eps.getD (lit 1 1000)⟩ : EpsExt K)⟩, []⟩⟩
  | .gngd => .ok ⟨n, .gngd, ⟨⟨w, n, mu,
      (⟨kw.eps.getD (lit 1 1), kw.ro.getD (lit 1 10), 0, zeros n⟩ : GngdExt K n)⟩, []⟩⟩
  | .vslmsMathews => .ok ⟨n, .mathews, ⟨⟨w, n, mu,
      (⟨kw.ro.getD (lit 1 10), 0, zeros n, mu⟩ : MathewsExt K n)⟩, []⟩⟩
  | .vslmsAng => .ok ⟨n, .ang, ⟨⟨w, n, mu,
      (⟨kw.ro.getD (lit 2 10000), kw.a.getD (lit 95 100), 0, zeros n, zeros n, mu⟩ : AngExt K n)⟩, []⟩⟩
  | .vslmsBenveniste => .ok ⟨n, .benveniste, ⟨⟨w, n, mu,
      (⟨kw.ro.getD (lit 1 10), 0, zeros n, zeros n, mu⟩ : BenExt K n)⟩, []⟩⟩
  | .gmcc => .ok ⟨n, .gmcc, ⟨⟨w, n, mu,
      (⟨kw.lambd.getD (lit 3 100), kw.alpha.getD (Scalar.nat 2)⟩ : GmccExt K)⟩, []⟩⟩
  | .llncosh => .ok ⟨n, .llncosh, ⟨⟨w, n, mu, (⟨kw.lambd.getD (Scalar.nat 3)⟩ : LlncoshExt K)⟩, []⟩⟩
  | .rls =>
    match rlsInit (n := n) (kw.eps.getD (lit 1 1000)) with
    | .error e => .error e
    | .ok q => .ok ⟨n, .rls, ⟨⟨w, n, mu, q⟩, []⟩⟩
  | .ocnlms =>
    .ok ⟨n, .ocnlms, ⟨⟨w, n, mu,
      ocClear (kw.mem.getD 100) (⟨kw.eps.getD (lit 1 1), true, [], [], 0⟩ : OcExt K n)⟩, []⟩⟩
  | .ap =>
    .ok ⟨n, .ap (kw.order.getD 5), ⟨⟨w, n, mu,
      (⟨kw.ifc.getD (lit 1 1000), fun _ => zeros _, zeros _, zeros _, zeros _⟩ :
        ApExt K n (kw.order.getD 5))⟩, []⟩⟩

/-- Calling the class object: `FILTERS[...](**kwargs)`.  Python binds the arguments first (`TypeError`), then
`AdaptiveFilter.__init__` runs `init_weights` (base_filter.py l. 38), then the subclass sets its attributes. -/
def construct {K : Type} [Transc K] (env : Env K) (t : Tag) (kw : Kwargs K) :
    Except Err (AnyFilter K env) :=
  if badKeyword t kw then .error .typeError
  else match kw.n, kw.mu <|> defaultMu t with
    | some n, some mu =>
      match (initWeights env.rand 0 (kw.w.getD (.str "random")) n).bind (asVec n) with
      | .ok w => initExt env n t kw mu w
      | .error e => .error e
    | _, _ => .error .typeError

/-- `AdaptiveFilter(model, **kwargs)`, `filters/__init__.py` l. 219-255. -/
def adaptiveFilter {K : Type} [Transc K] (env : Env K) (upper : String → String) (model : String)
    (kw : Kwargs K) : Except Err (AnyFilter K env) :=
  match kw.n with
  | none => .error .valueError
  | some _ =>
    match dictGet (upper model) (filtersDict upper) with
    | none => .error .valueError
    | some t => construct env t kw

/-- `filter_data(d, x, model, **kwargs)`, `filters/__init__.py` l. 184-217.  `cols` is `x.shape[1]` (x is a 2-d array, which has
a column count even without rows). -/
def filterData {K : Type} [Transc K] (env : Env K) (upper : String → String) (d : List K)
    (x : List (List K)) (cols : Nat) (model : String) (kw : Kwargs K) :
    Except Err (List K × List K × List (List K)) :=
  match dictGet (upper model) (filtersDict upper) with
  | none => .error .valueError
  | some t =>
    match construct env t { kw with n := some cols } with
    | .error e => .error e
    | .ok f => (run (classOf env.solve f.kind) d x f.obj).1

end Padasip

# A Lean 4 model of padasip, and what is proved about it

Source: `/repo` (matousc89/padasip 1.2.2).  Nothing was executed; the model is a reading of the text,
every definition cites the file and lines it models.

## 1. How the code is modelled

* **Numbers.**  Definitions are written over an arbitrary scalar type `K` with *lawless* operations
  (`class Scalar K`: `0 1 + - * / abs sign < == 0` and conversion of sizes; `class Transc K` adds
  `exp tanh sqrt log10 pow`).  Structural theorems (log semantics, causality, chunking, adapt vs run,
  error branches, ...) are proved for every such `K`, so they do not depend on exact arithmetic: they
  also hold for IEEE-754 doubles with numpy's rounding.  Algebraic theorems (stability, least squares, ...) are proved for
  ordered fields or ℝ, i.e. for exact arithmetic.
* **Rounding** (C88–C91, C152, C155–C162).  `Model/Fl.lean` has a third kind of scalars: reals with operations of relative error at most `u` (the standard
  model of floating-point arithmetic, any rounding function; `binary p` rounds to `p` bits, `binary 53` is float64 with unbounded exponent; `Model/FlSub.lean`
  adds gradual underflow).
  The *same* model definitions are instantiated with it, and the results compared with those over ℝ.
* **Arrays.**  A 1-d array of static length is `Fin n → K`, a 2-d one `Fin n → Fin m → K`.  Arguments coming from
  the user are lists (`List K`, `List (List K)`) whose lengths are only known at run time; the numpy shape
  checks and broadcasting rules (length 1 broadcasts) are modelled where the code converts them.
* **Exceptions and state.**  A method is a function `State → Except Err α × State` (monad `M`): an
  exception does *not* roll back the attributes assigned before it, as in Python.
* **Classes.**  The base class `AdaptiveFilter` is modelled with its overridable methods (`predict`,
  `learning_rule`) as fields of a record; `run`, `adapt`, `pretrained_run` are written once, generically, as in the source.
  Each of the 15 filters is an instance.
* **External calls** are parameters with an explicit contract used as a hypothesis:
  `np.random.normal`, `np.random.shuffle` (any permutation), `np.linalg.solve` (unique solution or LinAlgError),
  `np.linalg.eig`, `scipy.stats.genpareto.fit/cdf`, iteration order of a Python `set`, `str.upper`.
* **Aliasing** (views, references kept to caller arrays) is modelled separately with an explicit heap where it is observable
  (GNGD/VSLMS `last_x`, MLP weight views, returned histories).
* **Integer dtypes** (wrap-around) are modelled with `BitVec` where data keep their integer dtype (MSE, NLMS power).

## 2. Trusted base

* **Lean's kernel** (4.33.0) accepts every theorem.  No axiom is declared in this project.  The axioms each theorem depends on are listed
  per theorem in `AXIOMS.md` (generated from `#print axioms` by `tools/mkaxioms.py`): subsets of `propext`, `Classical.choice`, `Quot.sound`.
  Witnesses are evaluated by the kernel (`decide +kernel`), never by compiled code.
* **The reading of the source**: that each definition in `lean/Verif/Model` says what the cited lines do.
* **Contracts of external routines**, always explicit hypotheses of the theorems that need them, with an example that they can be met:
  | contract | where | says |
  |---|---|---|
  | `SolveSpec` | Spec/Solve | `np.linalg.solve` returns a solution for a regular matrix, `LinAlgError` for a singular one |
  | `IsEig`, `OrthoCols` | Spec/Linalg | columns returned by `np.linalg.eig` are eigenvectors; orthonormal (PCA theorems about variances only) |
  | `IsInv` | Spec/Linalg | `np.linalg.inv` |
  | `ArgsortSpec` | Spec/Linalg | `argsort` returns a permutation that sorts |
  | `SetOrderSpec` | Spec/Linalg | a Python `set` is iterated in some order without repetition |
  | `NanLaws` | Spec/Nan | arithmetic with a NaN operand gives NaN, comparisons are false |
  | `AbsorbLaws` | Spec/XReal | `+`, `-`, `*` with a non-finite operand and `/` with a non-finite numerator are not finite |
  | cdf in [0,1] | Props/Ese | `genpareto.cdf` |
  | random numbers | Env, train | `np.random.normal` any vector, `np.random.shuffle` any permutation |

### Modelled

Every function and method of the package: `filters/base_filter.py` (both base classes), the fifteen filter files, `filters/__init__.py`
(`filter_data`, `AdaptiveFilter`, `get_filter`, registry), `misc/error_evaluation.py`, `preprocess/` (`input_from_history`, `standardize`,
`standardize_back`, `PCA*`, `LDA*`), `detection/` (`ELBND`, `learning_entropy`, `pot`, `ESE`), `ann/mlp.py`.

### Not modelled

* floating point: the structural theorems hold for any arithmetic, C88–C91, C152, C155–C162 are about rounded arithmetic, all other algebraic theorems about exact
  arithmetic. Underflow and subnormals are modelled only in C162, signed zeros not at all, overflow and infinities only in C131; a division by zero gives 0 in a field and inf/nan in numpy: theorems carry the
  hypothesis that it does not happen or say what it means;
* the order of summation inside `np.dot`, `np.sum` (one fixed order is modelled; `C88_any_order` covers all orders for `predict`);
* complex eigenvalues (C129: in exact arithmetic they do not occur; rounding could produce them in `LDA_base`);
* inputs that are not numeric arrays of the documented dimension (object arrays, 0-d or 3-d arrays, other Python types) unless a theorem says so (two-dimensional targets and series: C110, C111; arrays of any shape in `predict`/`adapt`: C146–C151);
* MLP: sizes that are not Python integers; arrays with two or more axes as target of `update` before the first `predict`;
* attributes written directly by the caller during a call; between calls this is covered where a theorem starts from an arbitrary object (`f.w = ...`, `f.mu = ...` make another object `o`); subclassing, threads (the library has none), `ese_not_imported` (raises if scipy is
  missing), warnings, plotting, `setup.py`, performance.

## 3. Layout

`lean/Verif/Model/*` the model; `lean/Verif/Spec/*` small independent specifications (documented formulas on
infinite sample streams); `lean/Verif/Lemmas/*` helper lemmas; `lean/Verif/Props/*` the property theorems, named `Cnn_...`, each
followed by an `example` showing its hypotheses are met.

## 4. Plan per property

| id | model | proof |
|----|-------|-------|
| C01–C06 | generic engine `run/adapt/predict` over any filter class | trajectory theorem: `run` on a prefix of a stream = log of the state trajectory, by induction on N; each filter proved "lawful" (never raises on well-shaped data) |
| C07–C09, C12 | error branches of the engine with state after the exception | case analysis; non-interference invariant ("later behaviour does not read `n`"); concrete ℚ witnesses for Benveniste, OCNLMS, AP |
| C10 | `pretrained_run` | unfolding to iterated `run` |
| C11 | `init_weights` | case analysis over all arguments |
| C13–C17 | learning rules | trajectory theorem instantiated; statement against `Spec` recursions |
| C18 | rules over ℝ | `HasDerivAt` of the cost along each coordinate |
| C19–C23 | LMS/NLMS trajectories over ordered fields / ℝ | energy identity, induction, summability ⇒ limit |
| C24–C26 | RLS over ℝ | Sherman–Morrison, induction; completing the square |
| C27–C30 | AP over ℝ | shift-register induction; Gram matrix positive definite; energy argument |
| C31–C37 | two-run relations | simulation relation, induction over the stream |
| C38 | any arithmetic with an absorbing NaN | induction |
| C39–C41 | GNGD, OCNLMS | invariants + ℚ witnesses |
| C42–C44 | factory: registry as association list keyed by upper-cased kind, keyword records | finite table lifted to all strings |
| C45–C50 | error measures over ordered fields/ℝ | list/Finset algebra, Cauchy–Schwarz, Minkowski |
| C51–C52 | `BitVec` arithmetic | no-overflow lemma + witnesses |
| C53–C56 | list functions | index arithmetic; field algebra |
| C57–C60 | PCA/LDA with `eig`, `set` order as parameters | sorting/permutation lemmas; matrix algebra |
| C61–C70 | detection functions over lists/functions | index reasoning, window lemmas, witnesses |
| C71–C77 | MLP state machine, ℝ for activations | induction, `HasDerivAt`, witnesses |
| C78–C79 | heap model: an array is an address, attributes and arguments may be the same address, the caller may write between calls | refinement: a well-formed heap run with frozen arguments equals the value model; frame lemma (addresses a method writes); witness with a reused buffer |
| C80 | ESE over histories | windows |
| C81 | `filter_data` on data multiplied by an orthogonal matrix | state map commuting with the loop body (`Lemmas/Hom`), one lemma per filter; ℚ witness for SSLMS |
| C82 | `filter_data` with changed units and parameters | the same; solver contract for AP |
| C83 | `predict; adapt; predict` on the object model | step lemma per filter, field algebra; tanh bound by monotonicity |
| C84–C87 | streams (`Runs`), cost functions as spec | completion of squares; induction; uniqueness of the minimiser; limits |
| C88–C90 | the model over `Fl F` and over ℝ | a calculus of accumulated relative errors (`Lemmas/Fl`: `Acc`, `Rel`), induction over the run; summation orders as an inductive relation |
| C91 | a sequence of arithmetics with `u → 0` | limits of every operation, induction over the run; for AP a contract of the solver, shown satisfiable; counterexample for the sign filters |
| C92 | constructors with optional keywords; a table of the documented signatures as spec | case analysis on the class, decimal literals over ℝ |
| C93 | `apPush`, `ocUpdateX`, `ocRead` error branches | evaluation of the error path, for any arithmetic |
| C94 | LMS, NLMS, RLS, AP; `Spec/Excite.lean` | energy bound plus Cauchy-Schwarz over one excitation window gives a contraction; RLS from the normal equations; AP from the vanishing energy increments |
| C95 | all filters | every step adds a multiple of an input (RLS: from the normal equations; AP, OCNLMS: invariant on the memory) |
| C96 | `inputFromHistory` composed with `run` | windows as rows of a stream; FIR = reversed impulse response; composition with C19, C22, C94 |
| C97 | `run` of SSLMS/NSSLMS (and LMS/NLMS) on the explicit stream `carousel` | closed form of the trajectory by induction over rounds of three samples; limits over the reals; LMS/NLMS by C21/C22/C94 |
| C98 | `run` of LMF/NLMF on a repeated sample, and on noise-free streams | scalar recursion e' = e - a e^3, energy argument / geometric growth; invariant region by induction |
| C99 | `run` of 9 filters on noise-free data | exact change of the misalignment per sample; energy sums for the limits (tanh and exp inequalities) |
| C100 | `run` of LMS, NLMS, Llncosh, RLS on arbitrary data | potential |w-u|^2; convexity of log cosh; RLS: exact recursion of the minimal cost, matrix determinant lemma, log det <= n log(trace/n) |
| C101 | `run` of LMS, NLMS on noisy data of a drifting system | window contraction of C94 applied to the undisturbed recursion plus a disturbance bound; explicit fading-input witness |
| C102 | constructor with run-time layer list and `mu` argument (`Model/MlpNew`), `update` on a network that has not predicted | induction over the layer list; over the hidden layers |
| C103 | `predict`, `update`, `predict` of MLP | derivative of the loss along the update at learning rate 0 is negative; explicit first step; saturated-node witness for "auto" |
| C104 | `predict` of MLP of any depth | induction over the layers, mean value theorem for the activations |
| C105 | all methods of MLP | renumbering relation preserved by every method (inductive relation over the layers), induction over samples and epochs |
| C106 | `train`, `test`, `update` of MLP | fixed point of `update`; induction over samples and epochs |
| C107 | `pcaComponents`, `pca` with the contracts of `Spec/Linalg` | Ky Fan inequality by Bessel; characteristic polynomial for uniqueness of eigenvalues |
| C108 | `lda`, `ldaDiscriminants`; spec `within`, `between` of a list of numbers | generalised Rayleigh quotient, grouping equal eigenvalues; dimension of the span of class deviations |
| C109 | `lda`, `ldaDiscriminants` | scatter matrices transform by congruence, so the eigenvalue problem by similarity; characteristic polynomial |
| C110 | Model/Nd: `runNd` (rows of a 2-d target) for all fifteen filters | unfolding to `run` for one column; first iteration computed otherwise |
| C111 | Model/Nd: `getValidErrorNd`, `MAEnd`, `MSEnd`, `RMSEnd` with broadcasting | sums over pairs |
| C112 | filters as modelled | superposition (C37) turns the difference of two runs into a run on zero targets; then the noise-free theorems; Llncosh: tanh is monotone and 1-Lipschitz |
| C113 | filters as modelled | RLS: normal equations and 2ab <= a^2 + b^2; AP: regularised Gram system and completion of the square |
| C114 | filters as modelled | superposition (C37) and C23/C85/C113 |
| C115 | error measures as modelled | sums over lists and permutations, completion of the square, subgradient of the absolute value at a median |
| C116 | `Model/MiscArg.lean`: arguments are an int, another number or a series | case analysis; agreement with the model of C45 on series |
| C117 | `Model/Args.lean`: the nine learning rules with an array-valued error and numpy broadcasting | every rule is elementwise in the error; case analysis on lengths |
| C118 | `Model/Args.lean`: constructor with integer sizes | case analysis |
| C119 | whole `run` of the three VSLMS filters on a constant stream | reduction to scalar recursions of error, step and gradient state; an invariant (error at least doubles, step keeps growing) by induction |
| C120 | whole `run` of RLS | R is the inverse of the weighted autocorrelation matrix (C24); bounds on its quadratic form carried over to R by Cauchy-Schwarz |
| C121 | filter rules instantiated with numpy numbers (integer or float, `Model/IntArith.lean`); AP and OCNLMS excluded (they copy inputs into float arrays) | simulation: attributes stay floats except `last_x`; products of inputs are the only integer operations; iteration of the wrapped step for the witnesses |
| C122 | `Runs` of the LMS/NLMS models on every outcome of a probability space (Mathlib `Measure`, `iIndepFun`) | the weights are a function of the start and the past samples, hence independent of the next one; recursion for the mean; spectral theorem |
| C123 | same | exact recursion for `E|w-ws|^2`; moments of product measures and of the normal distribution (derivatives of its moment generating function); Borel-Cantelli style summation for almost sure convergence |
| C124 | `Runs` of the LMS/NLMS/RLS/AP models on every outcome of a probability space, the inputs fixed | the weights are an affine function of the targets and the start; for RLS the weighted normal equations (`rls_normal`, C24) give the weights as a combination of the noise |
| C125 | the detection, error and preprocessing models over an arithmetic with an absorbing NaN (`NanCmp`, Spec/Nan instance `NanRat`); `np.max` and `np.sort` as numpy treats NaN | the closed forms of C60-C70; sortedness of merge sort |
| C126 | the MLP model over an arithmetic with an absorbing NaN (`NanCmp`) | a NaN error makes all node errors NaN, hence all weights; induction over layers, samples, epochs and calls |
| C127 | `learningEntropyZ`, `eseZ` (Model/DetectArgs): the loops with Python's index and slice rules | what a loop of assignments leaves in the array; agreement with the closed forms; overwriting by the later, non-negative indices |
| C128 | `updateMany`, `updateOne`, `trainZ`, `predictOther`, `updateOther`, `trainOther` (Model/MlpArgs) | case analysis on the length; a `None` stored in a float array is a NaN, which the output layer propagates |
| C129 | as C57-C60, C107, C108 | the rank of the covariance matrix is that of the centred data (rank of A^T A) and the number of non-zero eigenvalues; Bessel / Parseval; for a complex eigenpair of a symmetric pencil the imaginary part times a positive definite form vanishes |
| C130 | `ocnlmsW`, `OcObj`, `OcObj.clear`, `OcObj.call` (Model/OcWidth): OCNLMS with a memory whose width is chosen at run time; for width n it is `ocnlms` by `rfl` | invariant: memory width differs from n; then `x - m_x` has the width of the memory and the product with `w` raises; induction over the calls |
| C131 | the filter models over any arithmetic with `AbsorbLaws`, and over `XReal` (real numbers with two infinities and NaN, IEEE operations without rounding and overflow) | (a), (b) as C38, (b) for each weight separately; (c) induction over the samples: the factor that depends on the error is finite unless the error is NaN; (d) evaluation of `exp(-inf) * inf**(alpha-1)` |
| C132 | `Net` of Model/Mlp with hidden layers built from a list of weight matrices (`Deep`); textbook output and slope in Spec/Deep | induction over the layers: the weights after `update` are `w + mu h(mu)` with `h` continuous, derivative of the outputs by the chain rule; (a) the signals of the code are a non-negative multiple of the textbook signals; (b) evaluation of the slope at explicit weights |
| C133 | `custom rule`, `customAp solve rule` (Model/Custom): the methods of the base classes with `learning_rule` an arbitrary function of the attributes | the loop of `run` is characterised by its trace, by induction over the data, for every class whose `adapt` is its loop body; the AP part by simulation |
| C134 | `sslms`, `nsslms` of Model/Filters | on two-level inputs sign(x) = x/c, so a step is a subgradient step for the absolute error: exact change of |w-u|^2, summed by induction; one weight: the distance changes by the step towards zero |
| C135 | the classes of Model/Filters | the update of the sample has a limit (for GMCC no change at all, the gain is |e|^(alpha-1) exp(-lambd |e|^alpha)), the later updates are continuous in the weights: induction over the later samples; the sign filters by induction; the others because a step is affine (cubic) in D |
| C136 | Model/Table: an object with a table of weights; `predict`, `adapt`, `run` with numpy broadcasting, the rules of Model/Args for arrays of errors | case analysis on the shapes; one row: the two programs are simulated call by call |
| C137 | Model/ListArg: the rules with a sequence tagged list/array (a number times a list raises `TypeError`), the attribute `last_x` with the same tag | the tagged program follows the untagged one while only arrays are passed (simulation through `run`); per class the order of the assignments and the first failing product |
| C138 | Model/BoolData: numpy numbers that are Booleans or floats as an instance of the scalars of Model/Filters; `np.sign` of a Boolean array raises | simulation of the run on Booleans by the run on floats; NLMS by LMS; divergence from C87 |
| C139 | the run of Model/Filters on random data (Props/Stochastic, Props/White) and `MSE` of Model/Misc | the deviation of the weights is independent of the sample (C122), so the mean of the squared error splits; limits from C123, Cesaro means; Markov's inequality |
| C140 | the runs of LMS, NLMS, RLS on periodic data, `pretrainedRun` | one epoch is an affine map whose linear part does not expand, and contracts strictly on the span of the inputs (compactness of the unit sphere of a subspace); Banach fixed point by hand; RLS from the exact normal equations (C36) |
| C141 | `filter_data` at two sizes, all fifteen classes | a relation between the states of two filters of different size kept by the loop body (one lemma per filter; for RLS the relation `R' Q = Q R`, `Q^T R' = R Q^T`), induction over the run |
| C142 | `run` of all classes composed with `learning_entropy`, `ELBND`, `ESE` | congruence of the trajectory under equal prefixes with the window theorems C65, C80; closed forms from the update rules; the fixed-point theorem C19 with targets changed after sample p, finite differences of a step sequence |
| C143 | `AdaptiveFilterAP.adapt`, `run` with exceptions and the state they leave | Gram matrix regular iff columns independent (quadratic form); invariant: the memory is the window whatever the outcomes; loop lemma for the first failing sample; span argument for the exact identification |
| C144 | `run` of all filters on data with zero rows | one-step lemma "zero input changes nothing" per class; induction along the embedding of the shorter data set; for GNGD/Mathews: states alike up to `last_e` while `last_x = 0` |
| C145 | `run` on families of data sets | induction over the samples with the continuity of all attributes as invariant; inverse matrices via adjugate and determinant (RLS: C24, AP: Gram matrix); `abs(e)**(alpha-1) * sign(e)` continuous iff alpha > 1 |
| C146 | Model/NdArr: arrays of any shape, numpy broadcasting on shapes and entries, `np.dot`, in-place `+=` | induction on shapes (the number of dimensions of a broadcast result), case analysis per rule; agreement with the one-dimensional model |
| C147 | `np.dot(w, x)` for `x` of any shape | unfolding; symmetric matrices via unit weight vectors |
| C148 | Model/NdMem: the four classes with attributes of any shape | "one value per weight" relation preserved by broadcasting, hence by the rules; refinement to the model with numbers by induction over the calls |
| C149 | the same | invariant "the last axis of the step size has the wrong length", preserved by every operation, whatever raises |
| C150 | Model/NdRest: AP and OCNLMS on arrays of any shape (numpy assignment into a row or an entry) | refinement to the model with numbers; Hoare-style invariant over the steps of OCNLMS: value with two axes or ValueError |
| C151 | the same: RLS whose matrix is whatever array the rule computed | axis counting through matmul, dot and broadcasting; invariant "the matrix has three axes" over all later calls |
| C152 | the functions of C55, C61 over `Fl F` | rounding factors; relation `Rel` lifted along lists (zipWith, fold of max, sum) |
| C153 | Model/MlpInt: the constructor with integers, in the order of the code | refinement to C102 for non-negative sizes; induction over the layers up to the first bad one |
| C154 | Model/MlpNd: the network on numpy arrays of any shape (broadcasting, dot, outer, in-place sums) | invariant "a vector with k leading axes of length 1" through all layers; counting entries for the rejected shapes |
| C155 | Net over rounded arithmetic (Model/Fl) against the net over the reals | error analysis of both activations (relative error of exp, Lipschitz constants), dot product lemma, induction over the layers; continuity of the bound at u = 0; contraction for the depth-independent bound |
| C156 | filter classes over rounded arithmetic (Model/Fl) against the same over the reals | induction over the samples with the accuracy relation Acc (tanh is a contraction; cubes triple the count; signs are exact away from 0) |
| C157 | Net.train over a family of rounded arithmetics (Model/Fl) | a relation "tends to" on layers, networks and lists, preserved by predict, update and the loops (all operations are continuous; no division by something that may be 0) |
| C158 | lms, nlms over rounded and exact arithmetic (Model/Fl) | the difference of the two runs obeys the exact error recursion plus a local rounding error relative to the current weights; the step is non-expansive, so the errors add up; with excitation, C101's window contraction and strong induction give the uniform bound |
| C159 | lms, nlms over rounded arithmetic (Model/Fl) | the rounded run obeys the exact error recursion with the disturbance of C101 plus a rounding error relative to the weights; strong induction for the bound, shifted windows and a geometric iteration for the steady state |
| C160 | lms, nlms, sslms over `binary p` (Model/Fl) | rounding to nearest returns the stored number when the increment is below a quarter of its last place (case analysis on the binade); induction over the samples |
| C161 | Layer, Net.train over `binary p` (Model/Fl) | bounds of the rounded exp put 1 + exp within a quarter of the last place of 1 (C160); zero errors propagate downwards; induction over layers, samples and epochs |
| C162 | lms, lmf, gmcc over `Sf p E` (Model/FlSub: gradual underflow) | error of one operation; induction over the sum; results below half the smallest number round to 0, numbers of the arithmetic are not changed by rounding |

No property is considered inexpressible; those proved for exact arithmetic only say so.

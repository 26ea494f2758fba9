{"id": "C01", "title": "run() accepts every well-shaped data set and returns arrays of the promised sizes", "statement": "For every one of the 15 filters, run(d, x) with N>=1 samples, len(d)==N and every row of x as long as the filter, does not raise and returns y and e of length N and a weight history of N rows of filter length.", "quantifier": "every filter class, every filter size, every reachable filter state, every N>=1 and every data set", "why_tests_cant": "sizes, filter states and data are unbounded; a test fixes one shape", "anchors": ["padasip/filters/base_filter.py: AdaptiveFilter.run, AdaptiveFilterAP.run", "padasip/filters/*.py: learning_rule"]}
{"id": "C02", "title": "run() log semantics: history row k is the weight vector used for sample k", "statement": "In the result of run: history row 0 is the weight vector the filter had before the call; y[k] is the prediction made with history row k; e[k]=d[k]-y[k]; history row k+1 is row k plus the learning increment of sample k; the filter's weights after the call are the last row plus the last increment (so the final weights are never in the returned history).", "quantifier": "every filter, every initial state, every data length and content, every sample index k", "why_tests_cant": "an off-by-one in the logging (before/after update) is only visible for histories of every length", "anchors": ["padasip/filters/base_filter.py: AdaptiveFilter.run lines 205-211", "padasip/filters/base_filter.py: AdaptiveFilterAP.run lines 317-332"]}
{"id": "C03", "title": "run() is causal", "statement": "y[k], e[k] and history rows 0..k depend only on the samples up to k (y[k] and row k do not even depend on d[k]); changing later samples cannot change earlier output.", "quantifier": "every filter, every pair of data sets that agree on a prefix, every k", "why_tests_cant": "quantifies over pairs of arbitrary data sets", "anchors": ["padasip/filters/base_filter.py: AdaptiveFilter.run, AdaptiveFilterAP.run"]}
{"id": "C04", "title": "Filtering in chunks equals filtering in one call", "statement": "run(d1++d2, x1++x2) gives the concatenation of the results of run(d1,x1) followed by run(d2,x2) on the same filter, and leaves the filter in the same state.", "quantifier": "every filter, every state, every split of every data set", "why_tests_cant": "all split points of all data sets", "anchors": ["padasip/filters/base_filter.py: AdaptiveFilter.run, AdaptiveFilterAP.run"]}
{"id": "C05", "title": "run() and an adapt() loop are the same adaptation", "statement": "Calling adapt(d[k], x[k]) for k=0..N-1 leaves weights and all internal adaptation state exactly as run(d, x) does, for every filter including AP, whose adapt() re-implements the update instead of calling its learning rule.", "quantifier": "every filter, every state, every sample sequence", "why_tests_cant": "equality of two code paths over all histories", "anchors": ["padasip/filters/base_filter.py: AdaptiveFilter.adapt, AdaptiveFilterAP.adapt, run", "padasip/filters/ap.py: FilterAP.learning_rule"]}
{"id": "C06", "title": "The documented real-time protocol (y=predict(x); adapt(d,x)) reproduces run()", "statement": "For every filter except OCNLMS predict() has no side effect and the values logged by predict-then-adapt equal the y returned by run on the same data. For OCNLMS predict() advances the filter memory, so the protocol gives different outputs.", "quantifier": "every filter, every state, every sample sequence; for OCNLMS a concrete witness", "why_tests_cant": "side-effect freedom and equality over all histories", "anchors": ["padasip/filters/base_filter.py: AdaptiveFilter.predict", "padasip/filters/ocnlms.py: FilterOCNLMS.predict, read_memory", "padasip/filters/lms.py docs lines 99-135"]}
{"id": "C07", "title": "Rejected input (length mismatch, empty data) leaves the filter untouched", "statement": "run(d,x) with len(d)!=len(x) raises ValueError, and run on empty data raises IndexError, and run with a plain series of numbers in place of the input matrix raises TypeError; in all cases no attribute of the filter changes.", "quantifier": "every filter, every state, every pair of mismatched lengths", "why_tests_cant": "all states and all length pairs", "anchors": ["padasip/filters/base_filter.py: AdaptiveFilter.run lines 191-194"]}
{"id": "C08", "title": "Data of the wrong width is rejected without touching the weights", "statement": "run(d,x) with rows of a width different from the filter size, or with ragged rows, raises ValueError and never changes the weights; adapt(d,x) and predict(x) with a wrong-size x raise ValueError without changing the weights (OCNLMS and AP broadcast a length-1 x instead).", "quantifier": "every filter, every state, every wrong width", "why_tests_cant": "all widths and states, including the broadcasting corner cases", "anchors": ["padasip/filters/base_filter.py: AdaptiveFilter.run, adapt, predict"]}
{"id": "C09", "title": "A failed run() does not influence later calls", "statement": "After a run() rejected because of the row width, every later adapt/predict/run on well-shaped data behaves as if the failed call had not happened. True for all filters but AP of size 1 (its memory has been shifted, see C12), VSLMS_Benveniste and OCNLMS, which read the attribute n the failed call overwrote: Benveniste's next adapt() raises, or, when the bad width was 1, succeeds with the all-ones matrix in place of the identity in its recursion; OCNLMS is unaffected once its memory is in use, before that its next call raises ValueError once (width other than 1).", "quantifier": "every filter, every state, every rejected data set followed by any sequence of calls; concrete witnesses for the exceptions", "why_tests_cant": "crash-consistency over all histories", "anchors": ["padasip/filters/base_filter.py: AdaptiveFilter.run line 194", "padasip/filters/vslms_benveniste.py: learning_rule line 96", "padasip/filters/ocnlms.py: read_memory line 152"]}
{"id": "C10", "title": "pretrained_run() is epochs times run on the head, then run on the tail", "statement": "pretrained_run(d,x,ntrain,epochs) with Ntrain=int(len(d)*ntrain) strictly between 0 and len(d) equals epochs successive run calls on the first Ntrain samples followed by one run on the rest, whose output (of length len(d)-Ntrain) is returned; with Ntrain=0 (and epochs>0) it raises IndexError at once, with Ntrain=len(d) it raises IndexError after having trained the weights. A negative ntrain is accepted: trained on all but the last T = int(len(d)*|ntrain|) samples, tested on the last T; ntrain <= -1 raises IndexError at once (epochs > 0). In floating point Ntrain is the exact product rounded down or up to an integer, up only if it is not an integer.", "quantifier": "every filter, state, data set, epoch count and train size", "why_tests_cant": "all data sizes, all splits, all epoch counts", "anchors": ["padasip/filters/base_filter.py: AdaptiveFilter.pretrained_run lines 146-152"]}
{"id": "C11", "title": "Initial weights", "statement": "init_weights returns exactly n weights: zeros for 'zeros', n random draws for 'random', a copy of the given sequence if its length is n; any other string and any sequence of another length raises ValueError.", "quantifier": "every n, every weight argument", "why_tests_cant": "all strings and all sequence lengths", "anchors": ["padasip/filters/base_filter.py: AdaptiveFilter.init_weights"]}
{"id": "C12", "title": "A rejected adapt() on the AP filter corrupts its memory", "statement": "AdaptiveFilterAP.adapt shifts its input memory before the size of x is checked: a rejected call duplicates the newest column of the memory and drops the oldest, so the columns from the third on seen by the next accepted sample (order >= 3) differ from, and are misaligned with the targets compared to, those seen had the rejected call not happened (weights are not touched).", "quantifier": "every AP filter of order >= 2 and every wrong-size x; concrete witness of a differing later result", "why_tests_cant": "crash point inside a method", "anchors": ["padasip/filters/base_filter.py: AdaptiveFilterAP.adapt lines 266-269"]}
{"id": "C13", "title": "LMS, LMF and SSLMS follow their documented recursions", "statement": "For every sample index k: w(k+1)=w(k)+mu*e(k)*x(k) (LMS), w(k)+mu*e(k)^3*x(k) (LMF), w(k)+mu*sgn(e(k))*sgn(x(k)) (SSLMS), y(k)=sum_i w_i(k)x_i(k), e(k)=d(k)-y(k).", "quantifier": "every state, every data stream, every k", "why_tests_cant": "unbounded histories", "anchors": ["padasip/filters/lms.py", "padasip/filters/lmf.py", "padasip/filters/sslms.py"]}
{"id": "C14", "title": "NLMS, NLMF and NSSLMS follow their documented recursions", "statement": "The same recursions with mu replaced by eta(k)=mu/(eps+||x(k)||^2).", "quantifier": "every state, every data stream, every k", "why_tests_cant": "unbounded histories", "anchors": ["padasip/filters/nlms.py", "padasip/filters/nlmf.py", "padasip/filters/nsslms.py"]}
{"id": "C15", "title": "GNGD follows its recursion with adaptive compensation term", "statement": "eps(k)=eps(k-1)-ro*mu*e(k)e(k-1)<x(k),x(k-1)>/(||x(k-1)||^2+eps(k-1))^2 with x(-1)=0,e(-1)=0, and w(k+1)=w(k)+mu/(eps(k)+||x(k)||^2) e(k)x(k).", "quantifier": "every state, data stream and k", "why_tests_cant": "unbounded histories", "anchors": ["padasip/filters/gngd.py"]}
{"id": "C16", "title": "The three VSLMS filters follow their step-size recursions", "statement": "Mathews: mu(k)=mu(k-1)+ro e(k)e(k-1)<x(k-1),x(k)>. Ang: phi(k)=a phi(k-1)+e(k-1)x(k-1), mu(k)=mu(k-1)+ro e(k)<x(k-1),phi(k)>. Benveniste: phi(k)=(I-mu(k-1)x(k-1)x(k-1)^T)phi(k-1)+e(k-1)x(k-1), same mu(k). In all: w(k+1)=w(k)+mu(k)e(k)x(k). Consequently the step size after k samples is the initial one plus ro times the accumulated correlation sum.", "quantifier": "every state, data stream and k", "why_tests_cant": "unbounded histories", "anchors": ["padasip/filters/vslms_mathews.py", "padasip/filters/vslms_ang.py", "padasip/filters/vslms_benveniste.py"]}
{"id": "C17", "title": "GMCC and Llncosh follow their recursions", "statement": "GMCC: w(k+1)=w(k)+mu lambda alpha exp(-lambda|e|^alpha)|e|^(alpha-1)sgn(e)x; Llncosh: w(k+1)=w(k)+mu tanh(lambda e)x.", "quantifier": "every state, data stream and k", "why_tests_cant": "unbounded histories", "anchors": ["padasip/filters/gmcc.py", "padasip/filters/llncosh.py"]}
{"id": "C18", "title": "Updates are gradient descent on the documented cost", "statement": "The increment is -mu times the gradient with respect to the weights of: e^2/2 (LMS), e^4/4 (LMF), ln cosh(lambda e)/lambda (Llncosh, lambda != 0), -exp(-lambda|e|^alpha) (GMCC, alpha>1 resp. e != 0). The LMS doc's formula (1/2 mu d e^2/dw, without the minus sign) has the opposite sign and LMF's (1/2 mu d e^4/dw) in addition twice the magnitude.", "quantifier": "every weight vector, input, target and parameter", "why_tests_cant": "derivatives are statements about all nearby points", "anchors": ["padasip/filters/lms.py lines 40-52", "padasip/filters/lmf.py lines 41-53", "padasip/filters/llncosh.py", "padasip/filters/gmcc.py"]}
{"id": "C19", "title": "A filter that predicts perfectly never changes", "statement": "If the initial weights w* satisfy d(k)=<w*,x(k)> for all k, then run returns e=0, y=d and a constant history, for every filter whose output is linear in the weights (all but OCNLMS), as long as no normaliser can vanish (eps>0; mu>0 and a positive semidefinite R for RLS); AP from a fresh memory.", "quantifier": "every such filter, every data stream generated by the filter's own weights", "why_tests_cant": "all streams and lengths", "anchors": ["padasip/filters/*.py: learning_rule"]}
{"id": "C20", "title": "LMS stability criterion of the documentation", "statement": "After the update of sample k the error on the same sample is (1-mu||x||^2)e; hence it does not grow iff |1-mu||x||^2|<=1 or e=0 - the documented criterion is exact.", "quantifier": "every state and sample", "why_tests_cant": "an iff over all reals", "anchors": ["padasip/filters/lms.py lines 55-60"]}
{"id": "C21", "title": "LMS: misalignment never grows on noise-free data under the documented step-size bound", "statement": "If d(k)=<w*,x(k)> and 0<=mu||x(k)||^2<=2 for all k then ||w(k)-w*|| is non-increasing and sum_k mu(2-mu||x(k)||^2)e(k)^2 <= ||w(0)-w*||^2; with mu||x||^2 bounded away from 2 and mu>0 the error tends to 0.", "quantifier": "every state, target system and infinite data stream", "why_tests_cant": "limits over infinite streams", "anchors": ["padasip/filters/lms.py"]}
{"id": "C22", "title": "NLMS: misalignment never grows and the error vanishes for 0<mu<2 on bounded noise-free data", "statement": "If d(k)=<w*,x(k)>, eps>0 and 0<=mu<=2 then ||w(k)-w*|| is non-increasing; if 0<mu<2 and ||x(k)|| is bounded then e(k)->0. The documented bound mu<=2+2eps/||x||^2 is exact for the a-posteriori error.", "quantifier": "every state, target system and infinite data stream", "why_tests_cant": "limits over infinite streams", "anchors": ["padasip/filters/nlms.py lines 40-55"]}
{"id": "C23", "title": "LMS is energy-robust against arbitrary noise", "statement": "If d(k)=<w*,x(k)>+v(k) with arbitrary v and mu>0, mu||x(k)||^2<=1, then for every N: mu*sum(e(k)-v(k))^2 + ||w(N)-w*||^2 <= ||w(0)-w*||^2 + mu*sum v(k)^2.", "quantifier": "every noise sequence, every length", "why_tests_cant": "universally quantified adversarial noise", "anchors": ["padasip/filters/lms.py"]}
{"id": "C24", "title": "RLS keeps the exact inverse of the exponentially weighted autocorrelation matrix", "statement": "With eps>0, mu>0: after samples x(0..k-1), R is symmetric positive definite and R^{-1} = mu^k eps I + sum_i mu^(k-1-i) x(i)x(i)^T; the denominator mu+x^T R x never vanishes.", "quantifier": "every filter size, data stream and k", "why_tests_cant": "matrix identity over all histories", "anchors": ["padasip/filters/rls.py lines 38-65, learning_rule"]}
{"id": "C25", "title": "RLS weights are the exact regularised exponentially weighted least-squares solution", "statement": "With eps>0 and mu>0, from a fresh R=I/eps, w(k) is the unique minimiser of sum_i mu^(k-1-i)(d(i)-<w,x(i)>)^2 + mu^k eps ||w-w(0)||^2.", "quantifier": "every filter size, data stream and k", "why_tests_cant": "optimality over all weight vectors", "anchors": ["padasip/filters/rls.py"]}
{"id": "C26", "title": "RLS on noise-free data: misalignment bound", "statement": "If d(k)=<w*,x(k)>, eps>0, 0<mu<=1, then the weighted misalignment (w-w*)^T R^{-1} (w-w*) never grows and R(k)^{-1}(w(k)-w*) = mu^k eps (w(0)-w*).", "quantifier": "every system, stream and k", "why_tests_cant": "unbounded histories", "anchors": ["padasip/filters/rls.py"]}
{"id": "C27", "title": "AP memory is the window of the last `order` samples, newest first", "statement": "After k samples column j of the AP input memory is x(k-1-j) and entry j of the target memory is d(k-1-j) (initial content for j>=k), across run and adapt calls and across chunk borders.", "quantifier": "every order, size, stream and k", "why_tests_cant": "unbounded histories", "anchors": ["padasip/filters/base_filter.py: AdaptiveFilterAP.run lines 320-324, adapt lines 266-269"]}
{"id": "C28", "title": "AP never hits a singular matrix when ifc>0", "statement": "X^T X + ifc I is positive definite for every memory content when ifc>0, so np.linalg.solve always has a unique solution and run/adapt never raise LinAlgError; with ifc=0 a fresh filter of order>=2 (or a zero input) is singular and run raises LinAlgError on the first sample, after the memory has been overwritten.", "quantifier": "every memory content, order and size", "why_tests_cant": "all matrices", "anchors": ["padasip/filters/base_filter.py: AdaptiveFilterAP", "padasip/filters/ap.py"]}
{"id": "C29", "title": "AP of projection order 1 is NLMS", "statement": "FilterAP(order=1, ifc=c, mu) and FilterNLMS(eps=c, mu) started from the same weights produce identical y, e and weight histories on every data set (c>0).", "quantifier": "every data stream", "why_tests_cant": "equality over all histories", "anchors": ["padasip/filters/ap.py", "padasip/filters/nlms.py"]}
{"id": "C30", "title": "AP on noise-free data never increases the misalignment", "statement": "If d(k)=<w*,x(k)>, ifc>0, 0<=mu<=2 and the memory starts fresh, ||w(k)-w*|| is non-increasing.", "quantifier": "every stream, order, size", "why_tests_cant": "unbounded histories, all matrices", "anchors": ["padasip/filters/ap.py"]}
{"id": "C31", "title": "Degenerate parameters reduce filters to simpler ones", "statement": "GNGD with ro=0 is NLMS with the same eps>0; VSLMS_Mathews, VSLMS_Ang and VSLMS_Benveniste with ro=0 are LMS; identical y, e and histories on every data set.", "quantifier": "every data set, step size, eps and initial weights", "why_tests_cant": "equality of two programs over all histories", "anchors": ["padasip/filters/gngd.py", "padasip/filters/vslms_*.py"]}
{"id": "C32", "title": "GMCC with alpha=2 is not LMS (documentation claim)", "statement": "With alpha=2 the GMCC increment is the LMS increment times 2*lambda*exp(-lambda e^2); it equals LMS with step mu only when that factor is 1, so the documented 'alpha = 2 make the filter LMS' does not hold (witness).", "quantifier": "every sample; witness", "why_tests_cant": "an identity over the reals and a refutation", "anchors": ["padasip/filters/gmcc.py line 72"]}
{"id": "C33", "title": "Sign filters move every weight by at most mu per sample", "statement": "SSLMS: |w_i(k+1)-w_i(k)| <= |mu|, and after N samples |w_i(N)-w_i(0)| <= N|mu|; NSSLMS: the same with mu/(eps+||x||^2) (eps>0).", "quantifier": "every stream, weight, N", "why_tests_cant": "unbounded histories, arbitrarily large outliers", "anchors": ["padasip/filters/sslms.py", "padasip/filters/nsslms.py"]}
{"id": "C34", "title": "Llncosh and GMCC increments are bounded whatever the error", "statement": "Llncosh: |dw_i| <= |mu||x_i| for every error. GMCC (alpha>=1, lambda>0): |dw_i| <= |mu||x_i| * lambda alpha sup_t t^(alpha-1)exp(-lambda t^alpha); for alpha=2 <= |mu||x_i|sqrt(2 lambda/ e).", "quantifier": "every error value", "why_tests_cant": "sup over all reals", "anchors": ["padasip/filters/llncosh.py", "padasip/filters/gmcc.py"]}
{"id": "C35", "title": "Sign symmetry", "statement": "Negating the desired signal and the initial weights negates y, e and every weight in the history, for every filter (OCNLMS, GMCC, Llncosh, sign filters included).", "quantifier": "every filter, stream", "why_tests_cant": "relational property over all pairs of runs", "anchors": ["padasip/filters/*.py"]}
{"id": "C36", "title": "Permuting the input columns permutes the weights and changes nothing else", "statement": "If the columns of x and the initial weights are permuted by the same permutation, y and e are unchanged and the history rows are permuted, for every filter.", "quantifier": "every filter, permutation, stream", "why_tests_cant": "relational property", "anchors": ["padasip/filters/*.py"]}
{"id": "C37", "title": "Superposition for the linear-in-d filters", "statement": "LMS, NLMS, RLS and AP: for fixed x, the map (w0,d) -> (y,e,history) is linear.", "quantifier": "every pair of data sets, scalars", "why_tests_cant": "relational property", "anchors": ["padasip/filters/lms.py", "padasip/filters/nlms.py", "padasip/filters/rls.py", "padasip/filters/ap.py"]}
{"id": "C38", "title": "One NaN sample poisons a filter for ever", "statement": "If d(k) is NaN (or a component of x(k) with n>=1), every weight is NaN from sample k+1 on, and every later y and e is NaN, for LMS, NLMS and the other rules built from +,-,*,/ on the error; in any arithmetic in which NaN is absorbing.", "quantifier": "every stream, any later data", "why_tests_cant": "all continuations", "anchors": ["padasip/filters/base_filter.py: run", "padasip/filters/lms.py", "padasip/filters/nlms.py"]}
{"id": "C39", "title": "GNGD's compensation term can lose its sign", "statement": "eps(k) of GNGD is not kept positive: there is a finite input for which eps(k)+||x||^2 <= 0, so the normalised step is not positive; as long as eps stays positive the step is positive.", "quantifier": "witness and conditional invariant", "why_tests_cant": "needs a reachable state", "anchors": ["padasip/filters/gngd.py lines 89-92"]}
{"id": "C40", "title": "OCNLMS memory index: every processed sample advances it by two", "statement": "predict and learning_rule both advance the circular index, so run stores an input row only at every second slot of the memory; the stored target e+y is not the target d in general (witness); with mem=1 the mean of an empty slice (NaN) is used from the second read on. clear_memory() puts the filter into the state of one just constructed with the current weights, so its next prediction is not centred. Called directly, update_memory_x replaces only the row at the index and update_memory_d only the target one slot before it (cyclically).", "quantifier": "every history; witness", "why_tests_cant": "invariant over all histories", "anchors": ["padasip/filters/ocnlms.py: read_memory, update_memory_x, update_memory_d, learning_rule"]}
{"id": "C41", "title": "OCNLMS is not independent of the mean of the signal (documentation claim)", "statement": "Adding a constant to every input (and the matching constant to the target) changes the errors of the filter (witness), contrary to 'such a centering makes the filter independent of the nonzero mean value'.", "quantifier": "witness", "why_tests_cant": "refutation of a relational claim", "anchors": ["padasip/filters/ocnlms.py lines 26-33"]}
{"id": "C42", "title": "Filter lookup is total on the documented names, in any letter case", "statement": "get_filter, AdaptiveFilter and filter_data resolve a name iff its upper-case form is the upper-case form of the kind of one of the 15 classes; distinct classes have distinct keys, so every class is reachable and none shadows another; any other name raises ValueError.", "quantifier": "all strings", "why_tests_cant": "infinitely many names", "anchors": ["padasip/filters/__init__.py: get_filter, AdaptiveFilter, filter_data, FILTERS"]}
{"id": "C43", "title": "Constructor defaults: which filters can be created from n alone", "statement": "AdaptiveFilter(model, n=n) succeeds iff the class has a default for mu, i.e. not for LMS, LMF, SSLMS and AP, which raise TypeError although the docs show FilterLMS(n) (and LMS is the default model); a missing n raises ValueError before the model name is looked at; an unknown keyword raises TypeError.", "quantifier": "all models, all keyword sets", "why_tests_cant": "all combinations of keywords", "anchors": ["padasip/filters/__init__.py", "padasip/filters/*.py: __init__"]}
{"id": "C44", "title": "filter_data(d,x,model,...) is construction with n = number of columns followed by run", "statement": "filter_data overrides any n passed by the caller with the column count of x, and returns what run of a fresh filter returns; in particular its first history row is the initial weight vector.", "quantifier": "all models and data", "why_tests_cant": "all data", "anchors": ["padasip/filters/__init__.py: filter_data"]}
{"id": "C45", "title": "Error measures on two series equal those on their difference, and validation", "statement": "MSE/MAE/RMSE/logSE(x1,x2)=same(x1-x2); they are symmetric in x1,x2 and invariant under adding the same constant to both; series of different length raise ValueError.", "quantifier": "all series", "why_tests_cant": "all lengths and values", "anchors": ["padasip/misc/error_evaluation.py: get_valid_error, MSE, MAE, RMSE, logSE"]}
{"id": "C46", "title": "MSE and MAE are definite and scale as expected", "statement": "MSE>=0, MAE>=0, each is 0 iff every error is 0 (nonempty series); MSE(c e)=c^2 MSE(e), MAE(c e)=|c|MAE(e), RMSE(c e)=|c|RMSE(e).", "quantifier": "all series", "why_tests_cant": "all reals", "anchors": ["padasip/misc/error_evaluation.py"]}
{"id": "C47", "title": "MAE <= RMSE <= max|e| <= sqrt(N) RMSE and RMSE^2 = MSE", "statement": "Order of the measures for every non-empty series.", "quantifier": "all series", "why_tests_cant": "inequality over all reals", "anchors": ["padasip/misc/error_evaluation.py"]}
{"id": "C48", "title": "Triangle inequality for RMSE and MAE", "statement": "RMSE(a,c)<=RMSE(a,b)+RMSE(b,c), same for MAE.", "quantifier": "all triples of series of equal length", "why_tests_cant": "inequality over all reals", "anchors": ["padasip/misc/error_evaluation.py"]}
{"id": "C49", "title": "get_mean_error dispatch", "statement": "get_mean_error returns MSE/MAE/RMSE for exactly those names (case sensitive) and raises ValueError for every other name, including 'logSE'.", "quantifier": "all strings", "why_tests_cant": "infinitely many names", "anchors": ["padasip/misc/error_evaluation.py: get_mean_error"]}
{"id": "C50", "title": "logSE is 20 log10|e| and reports a zero error as -inf", "statement": "Each entry is 10 log10(e^2) = 20 log10|e| when e != 0 and -inf when e = 0; multiplying the error by 10 adds 20 dB.", "quantifier": "all series", "why_tests_cant": "all reals", "anchors": ["padasip/misc/error_evaluation.py: logSE"]}
{"id": "C51", "title": "Integer series: MSE is computed in the integer type of the data", "statement": "For fixed-width integer arrays the difference and the dot product wrap around: MSE of series whose errors do not overflow equals the true MSE; beyond that it can be 0 for different series or negative (witnesses for uint8 and int64).", "quantifier": "all widths, all series", "why_tests_cant": "overflow boundary", "anchors": ["padasip/misc/error_evaluation.py: get_valid_error, MSE"]}
{"id": "C52", "title": "Integer data: the power normalisation of NLMS-type filters wraps around", "statement": "With integer-typed x (int8/uint8/int16..) np.dot(x,x) is computed modulo 2^b, so the normalised step is not mu/(eps+||x||^2) once ||x||^2 exceeds the type's range (witness uint8 [16] gives power 0); it is right below the range.", "quantifier": "all widths and vectors", "why_tests_cant": "overflow boundary", "anchors": ["padasip/filters/nlms.py: learning_rule", "padasip/filters/base_filter.py: run lines 196-198"]}
{"id": "C53", "title": "input_from_history builds the sliding-window matrix", "statement": "For 1<=n<=len(a) the result has len(a)-n+1 rows, row i is a[i..i+n-1]; with bias a last column of ones is added and nothing else changes; the last column (without bias) is a[n-1:], consecutive rows overlap in n-1 entries, and a can be reconstructed.", "quantifier": "all series and n", "why_tests_cant": "all lengths", "anchors": ["padasip/preprocess/input_from_history.py"]}
{"id": "C54", "title": "input_from_history argument checking and degenerate lengths", "statement": "n that is not an int, or n<=0, raises ValueError; n>len(a) gives an empty 1-d array (and with bias an array of shape (0,2), not (0,n+1)).", "quantifier": "all n, all series", "why_tests_cant": "all lengths", "anchors": ["padasip/preprocess/input_from_history.py lines 62-73"]}
{"id": "C55", "title": "standardize / standardize_back are inverse", "statement": "standardize_back(standardize(x,a,b),a,b)=x and standardize(standardize_back(x,a,b),a,b)=x for every a and every b != 0; with the defaults the inverse takes the mean and standard deviation of x.", "quantifier": "all series and parameters", "why_tests_cant": "all reals", "anchors": ["padasip/preprocess/standardize.py", "padasip/preprocess/standardize_back.py"]}
{"id": "C56", "title": "Default standardisation gives mean 0 and standard deviation 1", "statement": "For every non-constant series the result of standardize(x) has mean 0 and standard deviation 1; it is idempotent and invariant under positive affine maps of x (a negative factor flips the sign); a constant series is divided by 0 (NaN).", "quantifier": "all series", "why_tests_cant": "all reals", "anchors": ["padasip/preprocess/standardize.py"]}
{"id": "C57", "title": "PCA output: shape, ordering and selection", "statement": "PCA(x,n) has one row per sample and n columns (columns-1 when n is omitted or 0), column j is the projection on the eigenvector of the j-th largest eigenvalue; n>=columns raises AssertionError; PCA_components is the decreasing rearrangement of the covariance eigenvalues.", "quantifier": "all data sets and n, every result np.linalg.eig may return", "why_tests_cant": "all matrices and eigen-decompositions", "anchors": ["padasip/preprocess/pca.py"]}
{"id": "C58", "title": "PCA components are uncorrelated with variances in decreasing order", "statement": "If np.linalg.eig returns an orthonormal eigenbasis of the covariance matrix, the covariance matrix of PCA(x,n) is diagonal with the n largest eigenvalues in decreasing order, and no unit direction has larger variance than the first component.", "quantifier": "all data sets", "why_tests_cant": "all matrices", "anchors": ["padasip/preprocess/pca.py lines 5-11"]}
{"id": "C59", "title": "LDA scatter decomposition and independence of class order", "statement": "within + between scatter = total scatter; both are symmetric positive semidefinite; they do not depend on the (hash-dependent) iteration order of the label set, nor on the order of the samples, nor on the names of the labels.", "quantifier": "all data sets and labelings, every iteration order", "why_tests_cant": "PYTHONHASHSEED-dependent order, all data", "anchors": ["padasip/preprocess/lda.py: LDA_base"]}
{"id": "C60", "title": "LDA output: shape, ordering", "statement": "LDA(x,labels,n) has one row per sample and n columns (columns-1 by default), column j the projection on the eigenvector of the j-th largest eigenvalue of inv(within-class scatter) times between-class scatter; n>=columns raises AssertionError; LDA_discriminants is decreasing and a rearrangement of these eigenvalues, none negative; a singular within-class scatter raises LinAlgError.", "quantifier": "all data", "why_tests_cant": "all matrices", "anchors": ["padasip/preprocess/lda.py: LDA, LDA_discriminants"]}
{"id": "C61", "title": "ELBND value of a sample", "statement": "ELBND(w,e)[k] is the maximum (resp. sum) over i of |w[k+1,i]-w[k,i]||e[k]| for k<N-1 and 0 for the last sample; it is non-negative and max<=sum<=n*max; any other function name raises ValueError.", "quantifier": "all histories", "why_tests_cant": "all sizes", "anchors": ["padasip/detection/elbnd.py"]}
{"id": "C62", "title": "ELBND length: broadcasting corner case", "statement": "With len(e)=len(w) the result has the length of w; for other lengths numpy raises ValueError except len(e)=1 (broadcast) and N=1, where the result has the length of e, not of w.", "quantifier": "all lengths", "why_tests_cant": "all length pairs", "anchors": ["padasip/detection/elbnd.py lines 117-120"]}
{"id": "C63", "title": "Multiscale learning entropy is a fraction and is zero on the first m samples", "statement": "learning_entropy(w,m,order,alpha) with a non-empty alpha lies in [0,1], is 0 for k<m, and for k>=m>=1 is the fraction of pairs (weight, sensitivity) with dw[k,i] > alpha*mean of the m previous dw; for k>=m+order it is non-increasing in every sensitivity.", "quantifier": "all histories, windows, orders, sensitivities", "why_tests_cant": "all sizes", "anchors": ["padasip/detection/le.py"]}
{"id": "C64", "title": "Direct learning entropy is the z-score of the increment", "statement": "Without alpha the result is an N x n matrix (not one value per sample as documented), zero for k<m and (dw-mean)/(std+1e-10) over the m previous rows otherwise.", "quantifier": "all histories", "why_tests_cant": "all sizes", "anchors": ["padasip/detection/le.py"]}
{"id": "C65", "title": "Learning entropy is causal and finitely windowed", "statement": "The value at k depends only on rows k-m-order..k of the history.", "quantifier": "all pairs of histories", "why_tests_cant": "relational property", "anchors": ["padasip/detection/le.py"]}
{"id": "C66", "title": "Learning entropy uses raw weights instead of increments in the first `order` rows", "statement": "For k>=m+order the value is invariant under adding a constant vector to every row of the history; for m<=k<m+order it is not (witness), because rows 0..order-1 of the increment array keep the weights themselves.", "quantifier": "all histories, all offsets; witness", "why_tests_cant": "relational property over all histories", "anchors": ["padasip/detection/le.py lines 166-167"]}
{"id": "C67", "title": "Multiscale learning entropy is scale invariant", "statement": "Multiplying the history by any c>0 leaves it unchanged.", "quantifier": "all histories", "why_tests_cant": "relational property", "anchors": ["padasip/detection/le.py"]}
{"id": "C68", "title": "ESE length and warm-up", "statement": "ESE(w,window) returns one value per row of w, the first `window` are 0; window larger than the history raises ValueError; an unknown pot_method - including the documented '30%' - raises IndexError as soon as one sample is evaluated.", "quantifier": "all histories, windows and methods", "why_tests_cant": "all sizes and strings", "anchors": ["padasip/detection/ese.py"]}
{"id": "C69", "title": "ESE is bounded below and is 0 for unsurprising samples", "statement": "If the fitted cdf is in [0,1], every ESE value is >= -n*log10(1+1e-20); a sample none of whose increments exceeds its threshold has value 0.", "quantifier": "all histories, every fitting result", "why_tests_cant": "all fits", "anchors": ["padasip/detection/ese.py"]}
{"id": "C70", "title": "pot returns the k largest values in decreasing order", "statement": "pot(data,method) is the decreasing list of the k largest entries, 1<=k<=n for '10%','35%','sqrt','log10' on non-empty data.", "quantifier": "all data", "why_tests_cant": "all sizes", "anchors": ["padasip/detection/ese.py: pot"]}
{"id": "C71", "title": "MLP epoch MSE omits the last sample of the epoch", "statement": "train's MSE[epoch] is (sum of squared errors of all but the last sample of the epoch)/N; it equals the mean squared error iff the last error is zero.", "quantifier": "all networks and data", "why_tests_cant": "all sizes", "anchors": ["padasip/ann/mlp.py: NetworkMLP.train line 327"]}
{"id": "C72", "title": "MLP train shuffles once, not every epoch; every sample is visited exactly once per epoch", "statement": "With shuffle=True all epochs use the same permutation of the data (the doc promises a different order in every epoch); each epoch visits every sample exactly once; train(shuffle=True) is train on the once-permuted data, and training a+b epochs is training a, then b.", "quantifier": "all permutations, epochs, data", "why_tests_cant": "every outcome of the random generator", "anchors": ["padasip/ann/mlp.py: NetworkMLP.train lines 317-327"]}
{"id": "C73", "title": "MLP activation functions", "statement": "'sigmoid' maps into (0,1), 'tanh' equals the hyperbolic tangent and maps into (-1,1); der=True applied to the output is the derivative at the input.", "quantifier": "all reals", "why_tests_cant": "all reals", "anchors": ["padasip/ann/mlp.py: Layer.activation"]}
{"id": "C74", "title": "One-hidden-layer single-output MLP update is gradient descent", "statement": "For one hidden layer and one output, predict(x); update(d) changes every weight by -mu times the partial derivative of (d-y)^2/2 (per-layer mu).", "quantifier": "all networks, inputs, targets", "why_tests_cant": "derivatives", "anchors": ["padasip/ann/mlp.py: NetworkMLP.update, Layer.update"]}
{"id": "C75", "title": "Deeper or multi-output MLP updates are not the gradient", "statement": "With several outputs every weight of hidden node i moves by (1-y_i) times the gradient step (a descent direction, but for the sigmoid never the gradient step unless the derivative is 0); with two hidden layers and one output the first layer has this factor too and a further term from using the already updated weights of the layer above (a view, not a copy); closed forms and witnesses.", "quantifier": "witness and closed form", "why_tests_cant": "refutation", "anchors": ["padasip/ann/mlp.py: Layer.update lines 186-190"]}
{"id": "C76", "title": "MLP run/test/predict do not change the weights and run is predict per row", "statement": "run, test and predict leave all weights unchanged; run(x)[k] = predict(x[k]), independent of the order of the rows; test(x,d)=d-run(x). run does not check the width: rows of length 1 are broadcast.", "quantifier": "all networks, data", "why_tests_cant": "all histories", "anchors": ["padasip/ann/mlp.py: NetworkMLP.run, test, predict"]}
{"id": "C77", "title": "MLP input validation", "statement": "train and test accept exactly: at least one sample, as many targets as samples, all rows of x of length n_input, d 1-d for one output resp. with one column per output. Everything else raises without changing the network: ValueError, except IndexError for empty data and for a 1-d d with several outputs.", "quantifier": "all shapes", "why_tests_cant": "all shapes", "anchors": ["padasip/ann/mlp.py: NetworkMLP.train, test"]}
{"id": "C78", "title": "GNGD and VSLMS keep a reference to the caller's input array", "statement": "adapt(d,x) of GNGD, VSLMS_* stores x itself: if the caller never overwrites an array after passing it, adapt behaves as with copies; if the caller reuses one buffer for every sample, the filter computes with the current sample in place of the previous one (witness of a different result). run is immune because it copies its input.", "quantifier": "all histories of caller writes and adapt calls; witness", "why_tests_cant": "aliasing over all interleavings", "anchors": ["padasip/filters/gngd.py line 93", "padasip/filters/vslms_*.py"]}
{"id": "C79", "title": "Caller arrays are never modified, returned arrays never change afterwards", "statement": "No filter call writes into an array supplied by the caller (initial weights, d, x), and the y, e, history returned by one run are not changed by later calls.", "quantifier": "all histories of calls", "why_tests_cant": "aliasing over all interleavings", "anchors": ["padasip/filters/base_filter.py: init_weights line 94, run lines 197-211"]}
{"id": "C80", "title": "ESE is causal and finitely windowed; offsets matter only in the first evaluated sample", "statement": "The ESE value of sample k depends only on rows k-window-1..k of the history; for k>window it is invariant under adding a constant vector to all rows, for k=window it is not (witness), because row 0 of the increments keeps the weights themselves.", "quantifier": "all pairs of histories, all fitting routines; witness", "why_tests_cant": "pairs of arbitrary histories", "anchors": ["padasip/detection/ese.py: ESE lines 125-141"]}
{"id": "C81", "title": "Rotating or reflecting the input space rotates the weights and changes nothing else", "statement": "For every filter except SSLMS and NSSLMS, filter_data with all input rows and the initial weights multiplied by the same orthogonal matrix returns the same outputs and errors and the weight history multiplied by that matrix; SSLMS is not invariant (witness).", "quantifier": "all orthogonal matrices, data, initial weights, admissible parameters", "why_tests_cant": "pairs of runs over a continuous group", "anchors": ["padasip/filters/*.py: learning_rule", "padasip/filters/base_filter.py: predict, run"]}
{"id": "C82", "title": "Change of units of the input and of the desired signal", "statement": "For every filter: multiplying x by c, d by a and the initial weights by a/c, and changing the parameters in a stated way (e.g. LMS mu/c^2, NLMS eps*c^2, LMF mu/(a^2 c^2), RLS eps*c^2, AP ifc*c^2, GMCC lambd/a^alpha and mu*a^2/c^2), multiplies outputs and errors by a and the weight history by a/c; without the change of parameters it does not (witness).", "quantifier": "all non-zero a, c (positive for the sign filters and GMCC), all data, weights, parameters", "why_tests_cant": "pairs of runs over continuous parameters", "anchors": ["padasip/filters/*.py: learning_rule, __init__", "padasip/filters/base_filter.py: run", "padasip/filters/__init__.py: filter_data"]}
{"id": "C83", "title": "Error on a sample after learning it", "statement": "For each filter, predicting x again right after adapt(d,x) leaves the error e' = factor * e with a stated factor: e.g. LMF 1-mu|x|^2 e^2, NLMS 1-mu|x|^2/(eps+|x|^2), SSLMS e-mu|x|_1 sign(e), RLS mu/(mu+x^T R x), so the error shrinks exactly under a stated condition (LMF diverges for large errors, SSLMS oscillates for small ones: witnesses). AP does not increase the energy of the errors on its memory for 0<=mu<=2.", "quantifier": "all states, samples, parameters", "why_tests_cant": "continuous inputs and states", "anchors": ["padasip/filters/*.py: learning_rule", "padasip/filters/base_filter.py: predict, adapt"]}
{"id": "C84", "title": "What an update optimises", "statement": "With mu=1 the NLMS update is the unique minimiser of eps|v-w|^2+(d-<v,x>)^2 (for eps=0: the smallest change that makes the error zero), and the AP update is the unique minimiser of ifc|v-w|^2 plus the squared errors on the last `order` samples.", "quantifier": "all histories, all competitors v", "why_tests_cant": "quantifies over all competitors", "anchors": ["padasip/filters/nlms.py", "padasip/filters/ap.py"]}
{"id": "C85", "title": "NLMS is robust against arbitrary noise", "statement": "If d(k)=<ws,x(k)>+v(k) with any noise v, 0<=mu<=1, eps>0, then at every time: mu * sum (e-v)^2/(eps+|x|^2) + |w(N)-ws|^2 <= |w(0)-ws|^2 + mu * sum v^2/(eps+|x|^2); in particular |w(N)-ws|^2 <= |w(0)-ws|^2 + mu/eps * sum v^2 for inputs of any size.", "quantifier": "all inputs, all noise sequences, all N", "why_tests_cant": "adversarial infinite noise sequences", "anchors": ["padasip/filters/nlms.py: learning_rule"]}
{"id": "C86", "title": "RLS with forgetting factor 1 does not depend on the order of the samples", "statement": "A fresh RLS filter with mu=1 given the same N samples in any order ends with the same weights and the same R; LMS does not (witness).", "quantifier": "all permutations of all data", "why_tests_cant": "all permutations", "anchors": ["padasip/filters/rls.py: learning_rule"]}
{"id": "C87", "title": "Learning one repeated sample", "statement": "Given the same sample (d,x) at every step the errors of LMS are (1-mu|x|^2)^k e(0), those of NLMS (1-mu|x|^2/(eps+|x|^2))^k e(0); LMS converges iff 0<mu|x|^2<2, NLMS for every 0<mu<2 whatever the scale of x.", "quantifier": "all samples, initial weights, k; limit", "why_tests_cant": "limit of an infinite run", "anchors": ["padasip/filters/lms.py", "padasip/filters/nlms.py"]}
{"id": "C88", "title": "Accuracy of predict in floating point", "statement": "In any arithmetic whose operations have relative error at most u (float64 without over- and underflow: u=2^-53) and (n+1) u < 1, |predict(x) - <w,x>| <= gamma(n+1) sum|w_i x_i| with gamma(k)=k u/(1-k u), for every filter but OCNLMS; the same holds (with the number of additions for n) whatever the order in which the products are added up (BLAS).", "quantifier": "all weights, inputs, sizes n, all rounding functions, all orders of summation", "why_tests_cant": "quantifies over all reals, all rounding behaviours and all summation trees", "anchors": ["padasip/filters/base_filter.py: predict"]}
{"id": "C89", "title": "Accuracy of MSE, MAE and RMSE in floating point", "statement": "On N samples MSE, MAE and RMSE computed in such an arithmetic have small relative error (gamma(N+c) with c<=5), for one error series and for two series: there is no cancellation.", "quantifier": "all series, lengths, rounding functions", "why_tests_cant": "all reals and all rounding behaviours", "anchors": ["padasip/misc/error_evaluation.py: MSE, MAE, RMSE"]}
{"id": "C90", "title": "Rounding error of a whole run of LMS and NLMS", "statement": "The weights, outputs and errors reported by run in such an arithmetic differ from those of exact arithmetic by at most gamma(m) times an explicit majorant which depends only on the data and parameters, where m grows linearly with the number of samples (k(n+5) resp. k(2n+8) for the weights after k samples).", "quantifier": "all data, initial weights, parameters, lengths, rounding functions", "why_tests_cant": "whole runs over all reals and all rounding behaviours", "anchors": ["padasip/filters/lms.py", "padasip/filters/nlms.py", "padasip/filters/base_filter.py: run"]}
{"id": "C91", "title": "Finite precision tends to exact arithmetic", "statement": "For every filter: computed in arithmetics with relative errors tending to 0, the output, error and weights of run at every sample tend to those of exact arithmetic (eps>0 where there is a regularisation; RLS: mu>0; GNGD: as long as no denominator of the exact run is 0; OCNLMS: mem>=2; AP: for a linear solver whose solutions of well-posed systems tend to the exact ones). For SSLMS, NSSLMS (and GMCC with alpha<=1) this needs non-zero errors: otherwise it fails (witness).", "quantifier": "all sequences of arithmetics, data, weights, parameters, samples", "why_tests_cant": "a limit over all arithmetics", "anchors": ["padasip/filters/*.py: learning_rule", "padasip/filters/base_filter.py: run"]}
{"id": "C92", "title": "Omitted parameters have the documented defaults", "statement": "For every filter class and every combination of given and omitted keyword arguments, constructing the filter (directly, via AdaptiveFilter or filter_data) gives the same result, or the same exception, as the call with each omitted parameter written out with its documented default (mu, eps, ro, a, lambd, alpha, mem, order, ifc, w='random').", "quantifier": "all classes, all argument combinations and values", "why_tests_cant": "all combinations of arguments and values", "anchors": ["padasip/filters/*.py: __init__", "padasip/filters/__init__.py: AdaptiveFilter, filter_data"]}
{"id": "C93", "title": "Sizes with which a filter can be created but not used", "statement": "AP with order=0 and OCNLMS with mem=0 are accepted by the constructor, but every adapt and every run on at least one sample raises IndexError and leaves the weights unchanged (OCNLMS predicts once, the second predict raises IndexError too, and so do update_memory_x and update_memory_d called directly).", "quantifier": "all weights, data, parameters", "why_tests_cant": "all data", "anchors": ["padasip/filters/base_filter.py: AdaptiveFilterAP.adapt, run", "padasip/filters/ocnlms.py: read_memory, update_memory_x"]}
{"id": "C94", "title": "Identification of the unknown system under persistent excitation", "statement": "On noise-free data d(k)=<ws,x(k)> whose inputs are persistently exciting (every window of T samples excites every direction with energy at least alpha>0) the weights converge to ws: LMS for 0<mu<2/B and NLMS for 0<mu<2 (|x|^2<=B) with an explicit contraction factor per window, RLS for 0<mu<=1 at least like eps/(eps+alpha floor(k/T)) and exponentially for mu<1, AP of any order for 0<mu<=2 on bounded inputs.", "quantifier": "all systems, inputs with the stated excitation, initial weights, sizes; limit", "why_tests_cant": "limit of an infinite run over all inputs", "anchors": ["padasip/filters/lms.py", "padasip/filters/nlms.py", "padasip/filters/rls.py", "padasip/filters/ap.py"]}
{"id": "C95", "title": "Weights move only within the span of the inputs", "statement": "For every filter but SSLMS and NSSLMS the weights before sample k are the initial ones plus a combination of the inputs seen so far (AP, OCNLMS: if the memory started with zeros); a direction orthogonal to all of them (AP, OCNLMS: and to the initial memory) is never changed. SSLMS and NSSLMS violate this (witness), but leave the weight of an always-zero input component alone.", "quantifier": "all data, initial weights, parameters, k, directions", "why_tests_cant": "all data and all directions", "anchors": ["padasip/filters/*.py: learning_rule"]}
{"id": "C96", "title": "input_from_history followed by run", "statement": "The history matrix of N+n-1 samples is a data set of N samples for a filter of size n (n+1 with bias); run with the untrimmed target raises ValueError and changes nothing; the output of an FIR system with n taps at time k+n-1 (and at no other fixed offset) is row k times the reversed impulse response; hence a filter with these weights makes no errors, NLMS never moves away from them and, e.g. for an impulse train as input, converges to them.", "quantifier": "all series, lengths, window sizes, impulse responses, filters", "why_tests_cant": "all series and lengths; limit", "anchors": ["padasip/preprocess/input_from_history.py: input_from_history", "padasip/filters/base_filter.py: run"]}
{"id": "C97", "title": "Sign-sign filters can diverge where LMS learns", "statement": "On the bounded, persistently exciting three-tap input (1,1,-3),(1,-3,1),(-3,1,1),... with the constant, perfectly predictable target 1, SSLMS and NSSLMS started at zero move away from the solution for EVERY mu>0: after k rounds all weights are +k*mu (NSSLMS k*mu/(eps+11)) and the errors tend to infinity; LMS (0<mu<2/11) and NLMS (0<mu<2) converge to the solution on the same data.", "quantifier": "all step sizes mu>0, all sample numbers; limit", "why_tests_cant": "every step size and an infinite run", "anchors": ["padasip/filters/sslms.py: learning_rule", "padasip/filters/nsslms.py: learning_rule", "padasip/filters/base_filter.py: run"]}
{"id": "C98", "title": "No step size is safe for LMF and NLMF", "statement": "LMF learns a repeated sample (v,c) iff mu|v|^2 e(0)^2 < 2, and if it is > 2 the error tends to infinity; so for every mu>0 and every input v!=0 all large enough targets make it diverge. NLMF: the same with mu|v|^2/(eps+|v|^2). Inside the region mu B^2 |w(0)-ws|^2 <= 2 (NLMF: mu B |w(0)-ws|^2 <= 2), |x|^2<=B, the misalignment never grows on noise-free data.", "quantifier": "all samples, step sizes, initial weights; all streams in the safe region; limit", "why_tests_cant": "infinite runs, all parameters", "anchors": ["padasip/filters/lmf.py: learning_rule", "padasip/filters/nlmf.py: learning_rule", "padasip/filters/base_filter.py: run"]}
{"id": "C99", "title": "Exact criterion for the misalignment not to grow", "statement": "On noise-free data, for a sample with non-zero error, |w-ws| does not grow iff 0<=m and m|x|^2<=2, where m is the effective step: mu (LMS), mu/(eps+|x|^2) (NLMS, GNGD with its current eps; denominator not 0), mu e^2 (LMF), mu e^2/(eps+|x|^2) (NLMF, denominator not 0), the current variable step (three VSLMS filters). Llncosh never increases it if mu lambd |x|^2 <= 2, GMCC (alpha=2) if mu lambd |x|^2 <= 1, whatever the error; with strict inequalities and bounded inputs their errors vanish, as do those of LMF in its safe region.", "quantifier": "all systems, inputs, weights, parameters, samples; limit", "why_tests_cant": "all data; limit of an infinite run", "anchors": ["padasip/filters/*.py: learning_rule"]}
{"id": "C100", "title": "Regret against the best fixed filter in hindsight", "statement": "For arbitrary data and any fixed weight vector u: LMS with mu|x|^2<=c<1: (1-c) sum e^2 <= sum (d-<u,x>)^2 + |w(0)-u|^2/mu; NLMS the same with errors weighted by 1/(eps+|x|^2), c=mu; Llncosh (mu, lambd > 0): its total log-cosh cost exceeds that of u by at most |w(0)-u|^2/(2mu) + mu/2 sum|x|^2; RLS: the minimal least-squares cost equals sum mu^(N-1-k) mu/(mu+x R x) e(k)^2, and for mu=1 the total squared error exceeds the regularised cost of the best u by at most E^2 n log(1+sum|x|^2/(n eps)), E a bound on the errors.", "quantifier": "all data sequences, all comparators u, all N", "why_tests_cant": "adversarial data and all competitors", "anchors": ["padasip/filters/lms.py", "padasip/filters/nlms.py", "padasip/filters/llncosh.py", "padasip/filters/rls.py", "padasip/filters/base_filter.py: run"]}
{"id": "C101", "title": "Tracking a drifting system from noisy data", "statement": "Target d(k)=<ws(k),x(k)>+v(k) with |v|<=V and |ws(k+1)-ws(k)|<=D, inputs bounded (|x|^2<=B) and persistently exciting with window T: the misalignment of LMS (0<mu<2/B) at sample k is at most rho^floor(k/T) times the initial one plus T(mu V sqrt B + D)(1+1/(1-rho)), with an explicit rho<1; NLMS (0<mu<2, eps>0) the same with noise gain mu/(2 sqrt eps). Without excitation bounded noise can make the LMS weight grow without bound, for every mu>0.", "quantifier": "all systems, drifts, noises, inputs, initial weights, sample numbers; limit", "why_tests_cant": "all noise sequences; infinite run", "anchors": ["padasip/filters/lms.py: learning_rule", "padasip/filters/nlms.py: learning_rule", "padasip/filters/base_filter.py: run"]}
{"id": "C102", "title": "Constructing a network, and update before the first predict", "statement": "NetworkMLP(layers, n_input, ...) is accepted iff there is a hidden layer, all sizes are positive and mu is 'auto' or accepted by float; otherwise IndexError / ZeroDivisionError / ValueError as stated. Layer i gets the size of the layer before as inputs; mu='auto' means 1/sqrt(inputs) per layer, a number is used for all layers; a numeric STRING is accepted but every update then raises TypeError and changes nothing. update before the first predict adds mu*d(k) to every weight of output k and then raises ValueError unless every layer has one node more than inputs; sigmoid hidden weights do not change.", "quantifier": "all layer lists, sizes, outputs, mu arguments, drawn weights, targets", "why_tests_cant": "all argument combinations", "anchors": ["padasip/ann/mlp.py: NetworkMLP.__init__, Layer.__init__, NetworkMLP.update, Layer.update"]}
{"id": "C103", "title": "A small learning rate reduces the error of the sample", "statement": "One hidden layer (any number of outputs) or two hidden layers (one output), sigmoid or tanh: if the network errs on (x,d), then for every small enough learning rate predict(x), update(d) makes the squared error of the next predict(x) smaller, although the steps are not the gradient in general (C75). With zero output weights the first update multiplies the error by 1-mu|z|^2 exactly; for every hidden size m>=2 there are weights for which mu='auto' makes every error larger.", "quantifier": "all weights, inputs, targets, sizes; all learning rates below an existing bound", "why_tests_cant": "continuum of weights and rates", "anchors": ["padasip/ann/mlp.py: Layer.update, NetworkMLP.update, NetworkMLP.predict"]}
{"id": "C104", "title": "Bounded outputs and sensitivity of a network", "statement": "For a network of any depth and any input, output k differs from its bias by at most the sum of the absolute values of its other weights, so targets beyond that are never reached; a change of the inputs by at most delta(j) changes the outputs by at most the sum over paths of absolute weights times the activation slopes (1/4 sigmoid, 1 tanh) times delta; an input with zero weights in the first layer has no influence.", "quantifier": "all networks, depths, inputs, perturbations", "why_tests_cant": "all inputs", "anchors": ["padasip/ann/mlp.py: Layer.activation, Layer.predict, NetworkMLP.predict"]}
{"id": "C105", "title": "Numbering of the hidden nodes is irrelevant; twins stay twins", "statement": "Renumbering the nodes of any hidden layers (with their incoming and outgoing weights) changes no result of predict, update, train, run, test, and the networks stay renumberings of each other; hence two nodes that start with equal incoming and outgoing weights have equal weights after any training.", "quantifier": "all networks, depths, permutations, data, epochs, shuffles", "why_tests_cant": "all training histories", "anchors": ["padasip/ann/mlp.py: NetworkMLP.train, run, test, predict, update; Layer.predict, update"]}
{"id": "C106", "title": "When training changes nothing", "statement": "With a non-zero learning rate, predict(x) and update(d) leave the weights unchanged iff the prediction equals d; training on data the network fits returns zero errors and zero MSE and changes no weight; with learning rate 0 an unshuffled train returns the errors of test once per epoch and changes no weight; with zero output weights the first update changes no hidden weight.", "quantifier": "all networks, data, epochs, shuffles", "why_tests_cant": "all training histories", "anchors": ["padasip/ann/mlp.py: NetworkMLP.train, test, update; Layer.update"]}
{"id": "C107", "title": "PCA keeps the most variance, and its components do not depend on the solver or the coordinate system", "statement": "Given eigenvectors that keep numpy's contract: the columns of PCA(x, n) have together at least the sample variance of the coordinates along any n orthonormal directions, equivalently the directions used lose least when samples are projected; the entries of PCA_components sum to the total variance; two solvers keeping the contract give the same PCA_components; rotating, reflecting and shifting the data leaves it unchanged and scaling by s multiplies it by s^2; shifting adds one fixed row to every row of PCA, reordering the samples reorders its rows.", "quantifier": "all data sets, n, orthonormal directions, solvers keeping the contract, similarity maps", "why_tests_cant": "all matrices of all sizes", "anchors": ["padasip/preprocess/pca.py: PCA, PCA_components"]}
{"id": "C108", "title": "LDA maximises Fisher's criterion", "statement": "Given an invertible within-class scatter and a basis of eigenvectors: for each column of LDA(x, labels, n) the scatter between classes is its discriminant times the (positive) scatter within classes; no linear function of the attributes has a larger ratio than the first column, none uncorrelated within classes with the first j columns a larger one than column j; columns with different discriminants are uncorrelated within classes; with q labels only the first q-1 discriminants can be non-zero.", "quantifier": "all data sets, labels, n, linear functions, solvers keeping the contract", "why_tests_cant": "all matrices and labellings of all sizes", "anchors": ["padasip/preprocess/lda.py: LDA, LDA_discriminants, LDA_base"]}
{"id": "C109", "title": "LDA discriminants are invariant under affine changes of the attributes", "statement": "LDA_discriminants is unchanged by every invertible affine map of the attributes (units, origin, rotation, mixing) and does not depend on which correct solvers are used; adding one vector to all samples adds one fixed row to every row of LDA.", "quantifier": "all data sets, labels, invertible affine maps, solvers keeping the contract", "why_tests_cant": "all matrices of all sizes", "anchors": ["padasip/preprocess/lda.py: LDA, LDA_discriminants, LDA_base"]}
{"id": "C110", "title": "A target stored as a table: one column is a series, several are refused", "statement": "run(d, x) with a target of shape (N, 1) behaves exactly like run with the series of its entries (result, exceptions, final state) for every filter. With any other number of columns it raises ValueError at the first sample and leaves the weights as they were; all attributes but n are unchanged, except that OCNLMS's memory position has moved on one slot and AP's input memory holds the new input while its target memory has been shifted without a new entry.", "quantifier": "all filters, object states, targets, inputs", "why_tests_cant": "all data and states of all sizes", "anchors": ["padasip/filters/base_filter.py: AdaptiveFilter.run, AdaptiveFilterAP.run", "padasip/filters/ocnlms.py: predict"]}
{"id": "C111", "title": "Error measures of a column against a series", "statement": "On series MAE, MSE, RMSE are the documented measures. A column (N, 1) against a series is not refused: MAE returns the sum of |a_i - b_j| over all pairs divided by N, which is never below the true value and non-zero for a perfect prediction of a non-constant series; MSE returns an N x N matrix with entries mean_k (a_i - b_k)(a_k - b_j), whose diagonal is negative for such a perfect prediction. Two columns: MAE is right, MSE and RMSE raise ValueError unless N = 1. Two tables of the same shape (N, c): MAE divides the sum over all entries by N; MSE and RMSE raise ValueError unless c = N. Tables (or a table and a series) whose column counts cannot be broadcast are refused with ValueError by all three. So MAE(d, y) after y, e, w = run(d, x) with a column d is wrong although run itself is right.", "quantifier": "all series and lengths, all filters", "why_tests_cant": "all arrays", "anchors": ["padasip/misc/error_evaluation.py: get_valid_error, MAE, MSE, RMSE"]}
{"id": "C112", "title": "The initial weights are forgotten", "statement": "Two filters of one class with the same parameters (and, for AP, the same memory) but different initial weights are run on the same data, whatever the targets are. LMS (mu >= 0, mu|x(k)|^2 <= 2), NLMS (0 <= mu <= 2), AP (0 <= mu <= 2), Llncosh (mu lambd |x(k)|^2 <= 2): the distance of their weights never grows. LMS: the weighted squared differences of outputs add up exactly to the lost distance; without excitation the outputs of two LMS or NLMS filters still approach each other. On persistently exciting inputs the difference of the weights tends to 0 for LMS, NLMS, RLS and AP, geometrically per window for LMS and NLMS, at least like eps/(eps + alpha floor(k/T)) and like mu^k for RLS.", "quantifier": "all initial weights, targets, inputs under the stated conditions, all numbers of samples", "why_tests_cant": "all pairs of initial weights and all data", "anchors": ["padasip/filters/base_filter.py: AdaptiveFilter.run", "padasip/filters/lms.py", "padasip/filters/nlms.py", "padasip/filters/rls.py", "padasip/filters/ap.py", "padasip/filters/llncosh.py"]}
{"id": "C113", "title": "Noise robustness of RLS and AP", "statement": "d(k) = <ws, x(k)> + v(k) with arbitrary noise v. RLS: the exponentially weighted misalignment is at most its forgotten initial value plus the weighted noise energy; with persistent excitation and |v| <= V the squared misalignment is at most (mu^k eps |w0-ws|^2 + V^2/(1-mu)) / (mu^(T-1) alpha). AP, 0 <= mu <= 2: the misalignment is at most the initial one plus mu order/(2 ifc) times the noise energy. Inputs may be of any size.", "quantifier": "all noise sequences, inputs, systems, numbers of samples", "why_tests_cant": "all noise sequences", "anchors": ["padasip/filters/rls.py", "padasip/filters/ap.py"]}
{"id": "C114", "title": "The effect of corrupted targets is bounded by the corruption", "statement": "Two filters of one class with the same parameters are run on the same inputs with different targets d, d' (and initial weights). LMS (mu|x|^2 <= 1): mu sum (y-y')^2 + |w(N)-w'(N)|^2 <= |w(0)-w'(0)|^2 + mu sum (d-d')^2. NLMS (mu <= 1): the same with every term divided by eps + |x(k)|^2. RLS: the same for the weighted cost. AP (mu <= 2): |w(N)-w'(N)|^2 <= |w(0)-w'(0)|^2 + mu order/(2 ifc) sum (d-d')^2. A finite corruption of the targets never destabilises these filters.", "quantifier": "all pairs of targets, inputs, initial weights, lengths", "why_tests_cant": "all pairs of data", "anchors": ["padasip/filters/base_filter.py: AdaptiveFilter.run", "padasip/filters/lms.py", "padasip/filters/nlms.py", "padasip/filters/rls.py", "padasip/filters/ap.py"]}
{"id": "C115", "title": "Laws of the error measures", "statement": "MSE and MAE of two series that are concatenated are the length-weighted averages of the values on the pieces (RMSE: of the squares); MSE, MAE, RMSE and get_mean_error do not depend on the order of the samples; MSE is the squared mean error plus the variance of the errors; among all constant predictions the mean of the series has the smallest MSE, and only it, and every median has the smallest MAE.", "quantifier": "all series of all lengths, all cuts, permutations and constants", "why_tests_cant": "all series", "anchors": ["padasip/misc/error_evaluation.py: get_valid_error", "padasip/misc/error_evaluation.py: MAE", "padasip/misc/error_evaluation.py: MSE", "padasip/misc/error_evaluation.py: RMSE"]}
{"id": "C116", "title": "A number where a series is expected", "statement": "MSE, MAE and RMSE called with a number as second argument: the Python integer -1 silently means 'no second series', so MSE(x, -1) is MSE(x) and not the error with respect to -1; every other number raises TypeError. A number as first argument always raises TypeError. On series the functions are those of C45 to C48.", "quantifier": "all series, integers and other numbers", "why_tests_cant": "all arguments of all admissible types", "anchors": ["padasip/misc/error_evaluation.py: get_valid_error", "padasip/misc/error_evaluation.py: MAE", "padasip/misc/error_evaluation.py: MSE", "padasip/misc/error_evaluation.py: RMSE"]}
{"id": "C117", "title": "adapt does not check that the target is a number", "statement": "adapt(d, x) of LMS, LMF, SSLMS, NLMS, NLMF, NSSLMS, GMCC, Llncosh and RLS with an array d: an array of as many values as the filter has weights is silently used as a separate target for each weight (weight i becomes what adapt(d[i], x) would have made of it, all other attributes as for a number); an array of one value is the same as the number; any other length raises ValueError with unchanged weights, but RLS has already updated its matrix.", "quantifier": "all nine classes, sizes, states, inputs and arrays", "why_tests_cant": "all arrays of all lengths and all filter states", "anchors": ["padasip/filters/base_filter.py: AdaptiveFilter.adapt", "padasip/filters/rls.py: FilterRLS.learning_rule"]}
{"id": "C118", "title": "Negative sizes", "statement": "With valid keywords, a constructor called with n=-1 raises AttributeError whatever the weights argument (the value is the marker for 'use the size of the filter', which is not set yet), with any other negative n, a negative order or a negative mem it raises ValueError; with non-negative sizes it behaves as in C43.", "quantifier": "all classes, keyword sets, integers", "why_tests_cant": "all integers and keyword combinations", "anchors": ["padasip/filters/base_filter.py: AdaptiveFilter.__init__", "padasip/filters/base_filter.py: AdaptiveFilter.init_weights", "padasip/filters/ocnlms.py: FilterOCNLMS.clear_memory"]}
{"id": "C119", "title": "No parameters are safe for the variable-step filters", "statement": "On one repeated sample (v,c), v!=0, a fresh VSLMS_Mathews, VSLMS_Benveniste or VSLMS_Ang filter with any mu, any ro!=0 (and any a) diverges (|e(k)| tends to infinity) for all c far enough from its first output, unless mu|v|^2=1 exactly; explicit thresholds for Mathews and Benveniste. With ro>=0, |1-mu|v|^2|<1 and ro|v|^4 e(0)^2<=2 VSLMS_Mathews learns the sample at least as fast as LMS. The second step size of VSLMS_Mathews is mu-ro|v|^2(mu|v|^2-1)e(0)^2, which is negative for large errors when mu|v|^2>1.", "quantifier": "all samples, parameters, initial weights; limit", "why_tests_cant": "infinite runs, all parameters", "anchors": ["padasip/filters/vslms_mathews.py: FilterVSLMS_Mathews.learning_rule", "padasip/filters/vslms_ang.py: FilterVSLMS_Ang.learning_rule", "padasip/filters/vslms_benveniste.py: FilterVSLMS_Benveniste.learning_rule", "padasip/filters/base_filter.py: AdaptiveFilter.run"]}
{"id": "C120", "title": "Gain of RLS: wind-up, bounds and switching off", "statement": "Fresh RLS, mu>0, eps>0. If all k inputs were orthogonal to v then R v = v/(mu^k eps) (k zero inputs give R = I/(mu^k eps) and unchanged weights), so for mu<1 the gain v'Rv exceeds every bound; the first sample in such a direction is learned up to the fraction mu^(k+1) eps/(mu^(k+1) eps+|x|^2) of its error. Always v'Rv <= |v|^2/(mu^k eps); under persistent excitation (T, alpha) and mu<=1, v'Rv <= |v|^2/(mu^(T-1) alpha) from sample T on; with |x|^2<=B and mu<1, v'Rv >= |v|^2/(eps+B/(1-mu)) for ever; with mu=1 under excitation v'Rv <= |v|^2/(eps+alpha floor(k/T)) and |dw(k)| <= |e||x|/(eps+alpha floor((k+1)/T)).", "quantifier": "all filter sizes, streams, directions and k; limit", "why_tests_cant": "all streams of any length", "anchors": ["padasip/filters/rls.py: FilterRLS.learning_rule", "padasip/filters/rls.py: FilterRLS.__init__"]}
{"id": "C121", "title": "Integer input data: which filters are safe", "statement": "Run on an input matrix of b-bit integers (float attributes, targets of either kind). LMS, LMF, SSLMS (b>=2), GMCC, Llncosh and VSLMS-Ang report exactly the outputs, errors and weights of the run on the same values as floats, whatever the size of the inputs. NLMS, NLMF, NSSLMS do if the power of every row is representable; VSLMS-Mathews, GNGD, VSLMS-Benveniste if n times the square of the largest input is; RLS if that square is. Beyond: NLMS performs the steps with the power wrapped to b bits; RLS on the constant uint8 input [16] never reduces R and its error is multiplied by 1-256 R(0)/mu^(k+1), diverging for 0<mu<=1; the step size of Mathews on 8-bit multiples of 16 never changes.", "quantifier": "all word lengths, signed and unsigned, filter sizes, filter attributes, streams of any length", "why_tests_cant": "every width and data set; the wrapped runs differ silently", "anchors": ["padasip/filters/base_filter.py: AdaptiveFilter.run", "padasip/filters/rls.py: FilterRLS.learning_rule", "padasip/filters/nlms.py: FilterNLMS.learning_rule", "padasip/filters/vslms_mathews.py: FilterVSLMS_Mathews.learning_rule", "padasip/filters/gngd.py: FilterGNGD.learning_rule"]}
{"id": "C122", "title": "Random data: the mean of the weights", "statement": "The data of the documented examples: d(k) = <ws, x(k)> + v(k), the samples (x(k), v(k)) independent random variables, the starting weights independent of them. (LMS) if all inputs have the second moment matrix R and the noise is uncorrelated with the input, the mean of the weights before sample k is ws + (I - mu R)^k (E w(0) - ws); it converges to ws when 0 < mu lam < 2 for every eigenvalue lam of R, and from E w(0) = ws + u, u an eigenvector violating this, it does not. (NLMS, eps > 0) the same formula with R = E x x^T / (eps + |x|^2), with no assumption on the moments of the inputs; for identically distributed inputs not confined to a hyperplane it converges to ws for every 0 < mu < 2.", "quantifier": "all probability spaces, distributions, filter sizes, step sizes, random starts and k", "why_tests_cant": "a statement about expectations over infinitely many data sets", "anchors": ["padasip/filters/lms.py: FilterLMS", "padasip/filters/nlms.py: FilterNLMS", "padasip/filters/base_filter.py: AdaptiveFilter.run"]}
{"id": "C123", "title": "Random data: mean square convergence", "statement": "Same data, zero mean noise independent of the input of its sample. (LMS) with E(u.x)^2 >= lam|u|^2, E|x|^2(u.x)^2 <= B E(u.x)^2, E|x|^2 <= T, E v^2 <= s2 and 0 < mu < 2/B: E|w(k)-ws|^2 <= (1 - mu(2 - mu B)lam)^k E|w(0)-ws|^2 + mu s2 T / ((2 - mu B) lam). For inputs with independent zero mean components of second moment s and fourth moment m4 exactly E|w(k+1)-ws|^2 = (1 - 2 mu s + mu^2(m4 + (n-1)s^2)) E|w(k)-ws|^2 + mu^2 n s s2; it converges to mu n s s2 / (2s - mu(m4 + (n-1)s^2)) when mu(m4+(n-1)s^2) < 2s and diverges to infinity when it is greater. In the documented example (four standard normal inputs, noise deviation 0.1, mu = 0.1) the factor is 0.86 and the limit 1/350. (NLMS, eps > 0, 0 < mu < 2, identically distributed inputs not confined to a hyperplane) E|w(k)-ws|^2 <= (1 - mu(2-mu)lam)^k E|w(0)-ws|^2 + mu s2/(4 eps (2-mu) lam) with lam > 0. Without noise both converge to ws with probability one.", "quantifier": "all probability spaces, distributions, filter sizes, step sizes, random starts and k", "why_tests_cant": "a statement about expectations over infinitely many data sets", "anchors": ["padasip/filters/lms.py: FilterLMS", "padasip/filters/nlms.py: FilterNLMS", "padasip/filters/base_filter.py: AdaptiveFilter.run"]}
{"id": "C124", "title": "Given inputs, random targets", "statement": "The input vectors are given, the targets (and possibly the starting weights) are random. (LMS, NLMS, RLS, AP) the means of the reported outputs, errors and weights are the outputs, errors and weights of the run on the mean targets from the mean start, whatever the dependence between the targets. (RLS, new filter, 0 < mu <= 1, eps > 0, d(k) = <ws, x(k)> + v(k), v zero mean, of variance s2, uncorrelated in time) the matrix R the filter keeps does not depend on the noise; in every direction u the mean of u.(w(k) - ws) is mu^k eps u^T R (w(0) - ws) and its variance is at most s2 u^T R u, for mu = 1 exactly s2 (u^T R u - eps |R u|^2); if sum_m mu^(k-1-m) (u.x(m))^2 >= lam |u|^2 then E|w(k)-ws|^2 <= (mu^k eps/(mu^k eps + lam))^2 |w(0)-ws|^2 + n s2/(mu^k eps + lam); for mu = 1 and lam growing without bound E|w(k)-ws|^2 tends to 0.", "quantifier": "all probability spaces, input sequences, filter sizes, step sizes, noise distributions and k", "why_tests_cant": "a statement about expectations over infinitely many data sets", "anchors": ["padasip/filters/lms.py: FilterLMS", "padasip/filters/nlms.py: FilterNLMS", "padasip/filters/rls.py: FilterRLS", "padasip/filters/ap.py: FilterAP", "padasip/filters/base_filter.py: AdaptiveFilter.run"]}
{"id": "C125", "title": "NaN in the detection tools, the error measures and standardize", "statement": "A NaN is any value that every arithmetic operation propagates and that compares false with everything. (error measures) a NaN in one of the series makes MAE, MSE and RMSE a NaN and logSE a NaN at that sample. (standardize) one NaN in the series makes the whole result NaN when the offset or the scale is estimated from the series; with both given only that sample. (ELBND, both functions) the value of a sample is NaN when its error is, and when one of its weights or of those of the next sample is. (learning entropy) a weight with a NaN in the rows sample k is computed from never counts as unusual in the multiscale version - when this holds for every weight the value is 0 / (n * number of alphas) - and has the value NaN in the direct version. (ESE) a NaN increment is never surprising: a sample all of whose increments are NaN has the value -log10 of a product of ones; pot returns the values in decreasing order with the NaN last; so the fitting routine is never given a NaN, and ESE succeeds whatever NaN the history contains (methods 10%, 35%, sqrt, log10; 1 <= window <= number of rows).", "quantifier": "all histories, series, positions of the NaN, m, orders, windows, alphas", "why_tests_cant": "NaN can appear at any position of an arbitrarily long history; the tests have none", "anchors": ["padasip/detection/le.py: learning_entropy", "padasip/detection/ese.py: ESE, pot", "padasip/detection/elbnd.py: ELBND", "padasip/misc/error_evaluation.py: MSE, MAE, RMSE, logSE, get_mean_error", "padasip/preprocess/standardize.py: standardize"]}
{"id": "C126", "title": "NaN in the training data of a multi-layer perceptron", "statement": "Every hidden layer has at least one node and the network at least one output. If the data given to train contain one sample with a NaN (in the input or in the target) and at least one epoch is made, train returns without complaint, and afterwards every prediction on every input is NaN, for ever: whatever sequence of predict, update, train, run and test follows, training with clean data included. One such sample is enough: a NaN input makes every output, error and weight NaN at once; a NaN in target component k makes the error of output k, its weights and all weights of all hidden layers NaN. In the returned errors everything after that sample is NaN in every component. The reported MSE of every later epoch is NaN when there are at least two samples, that of the first epoch when the sample is not the last one of the order used (the last sample is never counted); with a single sample the reported MSE is 0/1 whatever happens.", "quantifier": "all networks (any depth and widths >= 1, both activations), data, positions of the NaN, shuffles, numbers of epochs and later calls", "why_tests_cant": "the statement is about every later call sequence", "anchors": ["padasip/ann/mlp.py: NetworkMLP, Layer"]}
{"id": "C127", "title": "Every form of the arguments of learning_entropy and ESE", "statement": "m, order and window are any integers, alpha is absent (False, None), a number, a list or a one-dimensional numpy array. learning_entropy succeeds exactly when order >= 0, m >= -(number of rows), alpha is not an array of more than one element (ValueError: the documented form '1d array' is rejected) and not a non-zero number (TypeError); a negative order is a ValueError, a smaller m an IndexError. An array of one non-zero element acts like the list of it, a zero (or an array of one zero) like no alpha. For m <= 0 the call is accepted but carries no information: the multiscale values are all 0 (or 0/(n * len(alpha))), the direct values 0 in the first N+m rows (m < 0) and NaN in all others. For m >= 0 the loops written index by index with Python's rules for negative indices and slices give the results described by C60-C67. ESE with a negative window always raises; for window >= 0 the index-by-index loop is the function of C68-C70.", "quantifier": "all histories, integers m, order and window, forms of alpha", "why_tests_cant": "the domain of integers and argument forms is infinite", "anchors": ["padasip/detection/le.py: learning_entropy", "padasip/detection/ese.py: ESE"]}
{"id": "C128", "title": "Arguments of the multi-layer perceptron outside the documented forms", "statement": "(update after a predict, several outputs) a list is accepted exactly if it has one value per output, or one value, which then is the target of every output, as a number is; any other length is a ValueError that changes nothing. (one output) a number or one value is accepted; a list of m+1 values, m the size of the last hidden layer, raises ValueError only after every output weight has been changed, each with a target of its own; any other length is a ValueError that changes nothing. (train) a negative number of epochs is a ValueError that changes nothing. (unknown activation name) the constructor does not check it: predict and run succeed and return NaN for every input, update after a predict, and train with at least one epoch, raise TypeError after every output weight has become NaN, the hidden weights unchanged; train without an epoch returns empty results.", "quantifier": "all networks, inputs, targets of any length, integers epochs, data and shuffles", "why_tests_cant": "targets of every length, every network and every input", "anchors": ["padasip/ann/mlp.py: NetworkMLP, Layer"]}
{"id": "C129", "title": "How many columns PCA needs; the eigenproblems of PCA and LDA are real", "statement": "Given orthonormal eigenvectors: the number of non-zero entries of PCA_components(x) is the dimension of the data (of the space spanned by the differences of the samples); N samples have at most N-1 of them. PCA(x, n) never moves two samples apart, and keeps all distances between samples exactly if n is at least that dimension. The matrices whose eigenvalues PCA_components and LDA_discriminants list (the latter is not symmetric) have no eigenvalue in the complex numbers that is not a non-negative real number, so a complex or negative entry can only come from rounding.", "quantifier": "all data sets, labels with invertible within-class scatter, n, solvers keeping the contract, complex eigenpairs", "why_tests_cant": "the dimension of every data set, every pair of samples and every complex eigenpair", "anchors": ["padasip/preprocess/pca.py: PCA, PCA_components", "padasip/preprocess/lda.py: LDA_base, LDA_discriminants"]}
{"id": "C130", "title": "clear_memory after a rejected run makes an OCNLMS filter unusable", "statement": "For an OCNLMS filter with mem >= 1: if run rejects a data set because its first row has m values instead of n, and clear_memory is called next, then every following run, pretrained_run and adapt, with whatever data, raises and leaves the weights, mu, eps and mem unchanged; so does predict from its second call on, unless m = 1; calling clear_memory again does not help as long as no data set with a row of n values is given to run or pretrained_run. It is repaired by one run on a data set with a first row of n values (which raises) followed by clear_memory: then the filter is in the state of an ordinary filter with the same weights and parameters and an empty memory.", "quantifier": "all filters, rejected data sets and sequences of calls of any length", "why_tests_cant": "a statement about every sequence of later calls", "anchors": ["padasip/filters/ocnlms.py: FilterOCNLMS.clear_memory, learning_rule, read_memory", "padasip/filters/base_filter.py: AdaptiveFilter.run"]}
{"id": "C131", "title": "Infinite values", "statement": "(a) In the eleven filters in whose update the error is a factor (all but SSLMS, NSSLMS, Llncosh and GMCC): if the target of a sample or a component of its input is infinite or NaN, or if the error of a sample overflows, then after that sample no weight and no later output or error of the run is a finite number. (b) For all fifteen filters: a weight that is infinite or NaN never becomes finite again, whatever calls are made. (c) SSLMS, NSSLMS (eps > 0) and Llncosh (lambd != 0) survive infinite targets: with finite inputs and targets that are finite or infinite the weights and outputs stay finite, and an infinite target acts as its sign. (d) An infinite target leaves the weights of GMCC unchanged if 0 < alpha <= 1 and makes all of them NaN if alpha > 1 (lambd > 0).", "quantifier": "all filters, data and sequences of calls; (a), (b) in any arithmetic in which non-finite values absorb", "why_tests_cant": "an infinity can occur at any sample of any run; the consequences extend over all later calls", "anchors": ["padasip/filters/base_filter.py: AdaptiveFilter.run", "padasip/filters/sslms.py: FilterSSLMS.learning_rule", "padasip/filters/nsslms.py: FilterNSSLMS.learning_rule", "padasip/filters/llncosh.py: FilterLlncosh.learning_rule", "padasip/filters/gmcc.py: FilterGMCC.learning_rule"]}
{"id": "C132", "title": "One update of a network of any depth", "statement": "For networks with any number and size of hidden layers and outputs, sigmoid or tanh, all layers with the learning rate mu: the squared error of a sample after predict(x), update(d), as a function of mu, has at mu = 0 the slope -(|e|^2 (1+|z|^2) + S), z the outputs of the last hidden layer, S the sum over all hidden nodes of the textbook error signal times the signal the code computes times 1+|input of the layer|^2. Hence (a) the error decreases for every small enough mu if in every hidden layer but the first (and, with one output, but the last) all nodes give the same output for x, e.g. have one node each; (b) this fails in general: with hidden layers [1,2] and two outputs (sigmoid and tanh), and with [1,2,1] and one output, there are weights and samples for which every small enough learning rate makes the error of the sample larger. With output weights zero one update multiplies the errors by 1 - mu(1+|z|^2), whatever the depth.", "quantifier": "all depths, sizes, weights, inputs, targets; (b): existence", "why_tests_cant": "the set of networks and learning rates is infinite; (b) is about all small learning rates", "anchors": ["padasip/ann/mlp.py: Layer.update, NetworkMLP.predict, NetworkMLP.update"]}
{"id": "C133", "title": "Filters derived from the base classes", "statement": "For every subclass of AdaptiveFilter with its own learning_rule, which may read all attributes, assign mu and attributes of its own, raise, and return an array of any length: run leaves the same attributes as a loop of adapt and raises the same exception exactly if the loop does; what it returns is the log of that loop (row k of the history, output k and error k are the weights, the prediction and its error after k calls of adapt); a run over one data set and then another is the run over both. One adapt adds the array returned by the rule to the weights; one element is added to every weight; another length is a ValueError, and after it (and after an exception of the rule) the weights are as before but what the rule assigned stays assigned; a sample of a wrong size changes nothing. The library filters are such subclasses. AdaptiveFilter itself never learns. For subclasses of AdaptiveFilterAP: adapt never calls learning_rule, so a loop of adapt does what it does for FilterAP whatever the rule; run does call it; with the rule of FilterAP it runs like FilterAP; with the inherited rule run never learns, so run and a loop of adapt differ.", "quantifier": "all learning rules, own attributes, data, weights", "why_tests_cant": "the rule is an arbitrary function", "anchors": ["padasip/filters/base_filter.py: AdaptiveFilter, AdaptiveFilterAP"]}
{"id": "C134", "title": "When the sign-sign filters learn", "statement": "SSLMS, mu>0, inputs whose entries are c, 0 or -c (binary or pulse-shaped signals), arbitrary targets: for every fixed weight vector u and every N, sum|e| + c|w(N)-u|^2/(2mu) <= sum|d-<u,x>| + c|w(0)-u|^2/(2mu) + N mu c n/2; so on d=<ws,x>+v with any noise the mean absolute error is at most mean|v| + c|w(0)-ws|^2/(2 mu N) + mu c n/2. NSSLMS on entries c or -c: the same with the step mu/(eps+n c^2). With one weight and noise-free data with non-zero inputs of any size: |w(k)-ws| <= max(|w(0)-ws| - k mu, mu) (SSLMS), <= max(|w(0)-ws| - k mu/(eps+X^2), mu/eps) for |x|<=X (NSSLMS).", "quantifier": "all such inputs, targets, initial weights, step sizes, lengths", "why_tests_cant": "for every length and every comparison vector", "anchors": ["padasip/filters/sslms.py: FilterSSLMS.learning_rule", "padasip/filters/nsslms.py: FilterNSSLMS.learning_rule", "padasip/filters/base_filter.py: AdaptiveFilter.run"]}
{"id": "C135", "title": "The influence of one wrong target", "statement": "Replace the target of one sample j of a run by a number D. GMCC (lambd>0, alpha>1): as D goes to plus or minus infinity all later weights and outputs tend to those of the run on the data without sample j. Llncosh (lambd>0): they tend to those of the run of the remaining data started from v+mu*x(j) (D to plus infinity) or v-mu*x(j) (minus infinity), v the weights before j. SSLMS and NSSLMS: all D on the same side of the output at j give exactly the same later weights and outputs. LMS, LMF (mu not 0), NLMS, NLMF (also eps>0) and RLS (R x(j) in place of x(j)): after sample j every weight whose input at j is not 0 exceeds any bound once |D| is large enough.", "quantifier": "all data, objects, sample indices, sizes of the wrong target", "why_tests_cant": "a limit over unbounded targets and every later sample", "anchors": ["padasip/filters/gmcc.py: FilterGMCC.learning_rule", "padasip/filters/llncosh.py: FilterLlncosh.learning_rule", "padasip/filters/sslms.py: FilterSSLMS.learning_rule", "padasip/filters/nsslms.py: FilterNSSLMS.learning_rule", "padasip/filters/lms.py: FilterLMS.learning_rule", "padasip/filters/base_filter.py: AdaptiveFilter.run"]}
{"id": "C136", "title": "Initial weights given as a table", "statement": "init_weights checks the number of rows only: a w with two dimensions (n rows of one length c, e.g. a column vector) is accepted, other numbers of rows or ragged rows raise ValueError. Such a filter (LMS, LMF, SSLMS, NLMS, NLMF, NSSLMS, GMCC, Llncosh) fails later: predict takes inputs of length c, not n, and returns n numbers; with n>=2 run raises ValueError for all data (weights unchanged, w_history zeros), adapt raises ValueError unless c=n, and with c=n it silently adds to every row the increments whose column i is what the filter with the weights of row i would have added to its weight i; with n=1 adapt and run behave exactly as for the filter of size c with the weights of the row.", "quantifier": "all tables, eight classes, states, inputs, targets, lengths", "why_tests_cant": "for every table, class and input", "anchors": ["padasip/filters/base_filter.py: AdaptiveFilter.init_weights, predict, adapt, run"]}
{"id": "C137", "title": "A Python list as input of adapt", "statement": "run converts its inputs to arrays, adapt(d, x) does not: as long as arrays are passed all methods do what the other claims say; a list x of the right length is treated as the array by SSLMS, NSSLMS, OCNLMS and AP; LMS, LMF, NLMS, NLMF, GMCC, Llncosh and RLS raise TypeError and change nothing; GNGD and the three VSLMS filters raise TypeError, keep the weights, but leave behind the attributes of an accepted sample; after that GNGD and VSLMS_Mathews work again with arrays, while for VSLMS_Ang and VSLMS_Benveniste every later adapt and every later run raises (TypeError for well-shaped data), with weights unchanged, for ever; a list of a wrong length raises ValueError and changes nothing.", "quantifier": "all 15 filter classes, states, targets, inputs, later calls", "why_tests_cant": "for every class, state and history of calls", "anchors": ["padasip/filters/base_filter.py: AdaptiveFilter.adapt, run", "padasip/filters/vslms_ang.py: learning_rule", "padasip/filters/vslms_benveniste.py: learning_rule", "padasip/filters/gngd.py: learning_rule", "padasip/filters/lms.py: learning_rule"]}
{"id": "C138", "title": "Boolean input data", "statement": "Run on a Boolean input matrix (a binary signal; float attributes, targets of either kind). LMS, LMF, GMCC, Llncosh, VSLMS-Ang, VSLMS-Benveniste and RLS report exactly the outputs, errors and weights of the run on the same data as floats 0/1. np.dot of Boolean rows is a Boolean, so NLMS and NLMF with (mu, eps) behave as LMS and LMF with step size mu/(eps+1): with rows of n times True the error is multiplied by 1-n*mu/(eps+1) per sample and diverges if n*mu>2(eps+1), whatever 0<mu<2 promises; NLMS, NLMF and GNGD are safe if no row has two True, VSLMS-Mathews if no two successive rows share two True. SSLMS and NSSLMS raise TypeError (np.sign) and keep weights and attributes. MSE, MAE and RMSE of two Boolean series raise TypeError; of one Boolean error series MAE is the fraction of True, but MSE is 1/N as soon as there is one True.", "quantifier": "all filter sizes, attributes, Boolean rows, streams of any length, Boolean series", "why_tests_cant": "for every Boolean stream", "anchors": ["padasip/filters/nlms.py: learning_rule", "padasip/filters/sslms.py: learning_rule", "padasip/filters/gngd.py: learning_rule", "padasip/filters/base_filter.py: AdaptiveFilter.run", "padasip/misc/error_evaluation.py: MSE, MAE, get_valid_error"]}
{"id": "C139", "title": "Random data: the learning curve", "statement": "Random data as in C122/C123 (independent samples, d(k)=ws.x(k)+v(k), v(k) of zero mean and finite variance independent of x(k), random start independent of the data). The mean square of the error e(k) returned by run of LMS (inputs of finite fourth moments) and NLMS (eps>0, inputs of finite power) is exactly E v(k)^2 plus the mean of the quadratic form of the deviation w(k)-ws with the second moments of x(k); it is never below the noise power. Where C123 bounds the weights it decays geometrically to the noise power plus a floor proportional to the noise variance, and P(|w_i(k)-ws_i|>=delta), P(|e(k)|>=delta) are bounded accordingly. LMS on inputs with independent components of variance s and fourth moment m4: E e(k)^2 = s2 + s E|w(k)-ws|^2, which for 0<mu, mu(m4+(n-1)s^2)<2s converges to s2 + mu n s^2 s2/(2s-mu(m4+(n-1)s^2)), and the mean of misc.MSE of the errors of a run of N samples converges to the same number. The documented example (n=4, mu=0.1, noise 0.1) levels off at 0.01+1/350.", "quantifier": "all probability spaces, input and noise distributions, sizes, step sizes, samples", "why_tests_cant": "for every distribution and every sample", "anchors": ["padasip/filters/lms.py: FilterLMS.learning_rule, run", "padasip/filters/nlms.py: FilterNLMS.learning_rule", "padasip/filters/base_filter.py: AdaptiveFilter.run", "padasip/misc/error_evaluation.py: MSE"]}
{"id": "C140", "title": "Training on the same data again and again", "statement": "Data repeated with period T (epochs), arbitrary targets. LMS (mu>0, mu|x(k)|^2<2) and NLMS (0<mu<2, eps>0): there is a start o' such that the run from o' is periodic (weights, outputs and errors repeat every epoch), and the run from any start approaches it: |w(k)-w'(k)|^2 <= r^(k/T)|w(0)-w'(0)|^2 with r<1 that depends only on the inputs and mu (eps), not on the targets or the start; o' differs from the start by a combination of the inputs. When the targets are consistent (some weights give every target exactly), the weights converge to the exact solution closest to the initial weights and the errors to zero. When they are not consistent the limit is in general not the least squares solution: one input 1 with targets 0,1 gives 1/(2-mu), not 1/2. RLS with mu=1: after E epochs the weights satisfy the regularised normal equations and are within eps/(eps+E alpha) of the least squares solution. pretrained_run of LMS and NLMS: as epochs grows, the trained weights converge geometrically to weights reproduced by one training epoch, and every output, error and weight of the test part converges to that of a filter started there.", "quantifier": "all periodic inputs and targets, periods, sizes, starts, step sizes, numbers of epochs", "why_tests_cant": "the limit over infinitely many epochs cannot be run", "anchors": ["padasip/filters/lms.py: FilterLMS.learning_rule", "padasip/filters/nlms.py: FilterNLMS.learning_rule", "padasip/filters/rls.py: FilterRLS.learning_rule", "padasip/filters/base_filter.py: AdaptiveFilter.run, pretrained_run"]}
{"id": "C141", "title": "Redundant input columns", "statement": "filter_data on rows Q z, where the n x m matrix Q has orthonormal columns (n may exceed m), with initial weights u+Qw and u orthogonal to the columns of Q, returns the same outputs and errors as filter_data on the rows z with weights w, and the weight history with each row v replaced by u+Qv; for every filter except SSLMS and NSSLMS, and for these too if each row of Q is zero or plus/minus a unit vector. In particular: columns of zeros change nothing for any of the fifteen filters (the other weights, the outputs and the errors are those without them, and the weights of the zero columns never move); repeating a column c times (copies started with equal weights) is the same as multiplying it and its weight by sqrt(c): copies keep equal weights for ever. For SSLMS the latter fails.", "quantifier": "all data, sizes, matrices with orthonormal columns, filters, parameters for which the filter can process data", "why_tests_cant": "for all data and all embeddings", "anchors": ["padasip/filters/base_filter.py: AdaptiveFilter.run, AdaptiveFilterAP.run", "padasip/filters/*.py: learning_rule", "padasip/filters/__init__.py: filter_data"]}
{"id": "C142", "title": "Novelty detection on the history returned by run", "statement": "Put together with run, the detection functions behave as follows. Learning entropy (both forms) and ESE of the returned history lag one sample: their values up to sample j are determined by the samples before j, whatever sample j and later ones are. ELBND of the returned history and errors does not lag: its values up to sample j are determined by the samples up to j; its last value is always 0. For LMS it is |mu| e[k]^2 times the sum (greatest) of the |x[k,i]|, for NLMS the same with mu divided by eps+x.x, for SSLMS |mu| |e[k]| for each nonzero input. If the initial weights explain all samples before sample p and the rest is arbitrary, every filter but OCNLMS leaves history rows 0..p equal to the initial weights, ELBND is 0 before sample p and reports the change at p; learning entropy of every positive order and window (after its warm-up) is 0 up to p and at p+1 equals the share of the weights that moved (multiscale, any sensitivities), or 10^10 times the change of each weight (direct); for LMS, NLMS and SSLMS the share is the share of nonzero inputs of sample p.", "quantifier": "all data, sizes, windows, orders, sensitivities, filters, states for which the filter can process data", "why_tests_cant": "for all data and all histories that run can return", "anchors": ["padasip/filters/base_filter.py: AdaptiveFilter.run, AdaptiveFilterAP.run", "padasip/detection/le.py: learning_entropy", "padasip/detection/elbnd.py: ELBND", "padasip/detection/ese.py: ESE"]}
{"id": "C143", "title": "The AP filter without regularisation: exceptions and what they leave behind", "statement": "AP with ifc=0. Samples fed with adapt, exceptions caught: call k succeeds if and only if the order newest inputs (including those of rejected calls; before the first call the old memory) are linearly independent; otherwise LinAlgError is raised and the weights stay; in both cases the sample is in the memory afterwards. An accepted sample multiplies the errors of the order newest samples by 1-mu (mu=1: they are reproduced exactly) with a weight change in the span of these inputs. A fresh filter of order >= 2 rejects its first order-1 samples whatever they are; if order > n it rejects every sample for ever. With order = n, mu = 1 and noise-free targets the weights are exactly the unknown ones from the first accepted sample on. run returns iff the inputs of every window are independent; otherwise it raises at the first dependent window p, the weights are those before sample p, w_history has rows 0..p filled and zeros below, the sample is in the memory. With a fresh filter of order >= 2, calling run on the same data again and again never succeeds and never changes the weights.", "quantifier": "all data, sizes, orders, memory contents, numbers of calls; any solver meeting the contract", "why_tests_cant": "for all histories of accepted and rejected calls", "anchors": ["padasip/filters/base_filter.py: AdaptiveFilterAP.adapt, AdaptiveFilterAP.run", "padasip/filters/ap.py: FilterAP.learning_rule"]}
{"id": "C144", "title": "Samples with zero input (pauses)", "statement": "LMS, LMF, SSLMS, NLMS, NLMF, NSSLMS (eps not 0), GMCC, Llncosh and RLS with mu=1 ignore samples whose input vector is zero: leaving such samples out of a data set, or putting them in anywhere with any targets (e.g. zero-stuffing), gives the same outputs, errors, w_history rows and all attributes at all other samples and the same final state; at the silent samples y=0, e=d. Every filter but AP and OCNLMS outputs 0 there, reports e=d and keeps its weights. For GNGD and VSLMS-Mathews a pause matters for what follows, but neither its length nor the targets during it do; for VSLMS-Ang, VSLMS-Benveniste and RLS with mu<1 a pause matters too (witnesses). AP (order >= 2) and OCNLMS move their weights at a silent sample (witnesses).", "quantifier": "all data, targets of the silent samples, positions and numbers of the samples left out", "why_tests_cant": "for all data sets and all sets of silent samples", "anchors": ["padasip/filters/base_filter.py: AdaptiveFilter.run", "padasip/filters/*.py: learning_rule"]}
{"id": "C145", "title": "Small changes of the data have small effects", "statement": "Every output, error and weight of a run depends continuously on the data, the initial weights and the parameters, taken together: LMS, LMF, NLMS and NLMF (no zero denominator, e.g. eps>0), GNGD (no zero denominator in the run), VSLMS-Mathews, -Ang and -Benveniste, GMCC with alpha>1, Llncosh, fresh RLS (mu>0, eps>0), AP (ifc>0, any order, also in the old memory contents), OCNLMS (eps>0, memory of at least two samples). SSLMS, NSSLMS and GMCC with alpha=1 are exceptions: whatever the initial weights, the weights after the first sample jump when its target passes the predicted value.", "quantifier": "all topological spaces of parameters, all continuous families of data sets, all lengths", "why_tests_cant": "for all families of data sets and all samples", "anchors": ["padasip/filters/base_filter.py: AdaptiveFilter.run, AdaptiveFilterAP.run", "padasip/filters/*.py: learning_rule"]}
{"id": "C146", "title": "Which shapes adapt accepts", "statement": "For LMS, LMF, SSLMS, NLMS, NLMF, NSSLMS, GMCC and Llncosh with n weights, adapt(d, x) with arrays of any number of dimensions is accepted exactly if x is a number or a vector of length n, and d is a number, a vector of length 1 or a vector of length n; in every other case it raises ValueError and nothing has changed. With a vector x and a number d, or a vector d of length 1, it is the documented update; with d of length n, weight i is adapted to the target d[i]. With a number as x nothing is summed: each weight is adapted as a filter of length 1 with that input, silently.", "quantifier": "every shape and content of d and x, every filter state, every n", "why_tests_cant": "for all shapes (any number of dimensions) and all values", "anchors": ["padasip/filters/base_filter.py: AdaptiveFilter.adapt, AdaptiveFilter.predict", "padasip/filters/*.py: learning_rule"]}
{"id": "C147", "title": "predict of numbers, tables and larger arrays", "statement": "predict(x) = np.dot(w, x) leaves the object as it is for every x. A vector of length n gives the documented number, other vectors raise ValueError; a number gives the vector of all weights times that number. For an array of two or more dimensions the last axis but one must have length n (otherwise ValueError), and entry (.., j) of the result is the prediction for x[.., :, j]. Hence the input matrix of run (a row per sample) raises unless there are exactly n samples, its transpose gives the predictions of all samples, and a square matrix silently gives the predictions of its columns, which are those of the samples for all weights exactly if the matrix is symmetric.", "quantifier": "every shape and content of x, every filter state that inherits predict, every n", "why_tests_cant": "for all shapes and all values", "anchors": ["padasip/filters/base_filter.py: AdaptiveFilter.predict"]}
{"id": "C148", "title": "Targets stored as arrays: the filters that remember the last error", "statement": "adapt(d, x) of GNGD, VSLMS-Mathews, -Ang and -Benveniste with an input vector of the right length accepts a target d that is a number, an array of one value or a vector with one value per weight, whichever of these shapes the remembered attributes have. Numbers and arrays of one value can be mixed freely over any series of calls (d[k] of a column): the weights are exactly those obtained with the numbers. With one value per weight every weight gets its own error and its own compensation term (GNGD) or step size (VSLMS), each following the documented recursion with the shared prediction; these vectors stay in the object.", "quantifier": "every state, every series of samples, every number of weights", "why_tests_cant": "for all series of calls and all values", "anchors": ["padasip/filters/gngd.py: FilterGNGD.learning_rule", "padasip/filters/vslms_mathews.py", "padasip/filters/vslms_ang.py", "padasip/filters/vslms_benveniste.py", "padasip/filters/base_filter.py: AdaptiveFilter.adapt"]}
{"id": "C149", "title": "One rejected target breaks GNGD and the VSLMS filters for good", "statement": "If adapt(d, x) of GNGD, VSLMS-Mathews, -Ang or -Benveniste is called with a target of a wrong length (last axis neither 1 nor the number of weights), it raises ValueError and the weights are unchanged, but the compensation term or step size has already been replaced by an array: from then on every call of adapt, with whatever d and x (including the documented ones), raises ValueError and never changes a weight, and so does every sample of run. (LMS, LMF, SSLMS, NLMS, NLMF, NSSLMS, GMCC and Llncosh reject such targets without any effect, C146.)", "quantifier": "every state of a filter whose attributes are numbers or arrays of one value, every wrong target, every later history of calls", "why_tests_cant": "for all wrong shapes and all later histories", "anchors": ["padasip/filters/gngd.py: FilterGNGD.learning_rule", "padasip/filters/vslms_mathews.py", "padasip/filters/vslms_ang.py", "padasip/filters/vslms_benveniste.py"]}
{"id": "C150", "title": "Shapes of the arguments of adapt: AP and OCNLMS", "statement": "adapt(d, x) of AP accepts an input that fills a column of its memory (a number, one value or n values, with any number of leading axes of length 1) and a target with exactly one entry (any number of axes), and does exactly what it does with these numbers. Any other input raises ValueError after the memory has been shifted (the newest input is then there twice); any other target raises ValueError with the input already in the memory and the targets shifted; the weights stay. OCNLMS (self.n equal to the number of weights) accepts a number, one value or n values as input and a number or one value as target, with exactly the effect of the numbers; every other shape of either raises ValueError, leaves weights and step size as they are and the memory well formed, so that the filter goes on working (unlike C149).", "quantifier": "every shape and value of both arguments, every state", "why_tests_cant": "for all shapes, with any number of axes", "anchors": ["padasip/filters/base_filter.py: AdaptiveFilterAP.adapt", "padasip/filters/ocnlms.py: FilterOCNLMS.learning_rule, predict, update_memory_x, update_memory_d", "padasip/filters/base_filter.py: AdaptiveFilter.adapt"]}
{"id": "C151", "title": "RLS: a table as input breaks the filter for good", "statement": "adapt(d, x) of RLS (forgetting factor not 0, matrix of the right size) with a vector x of the right length accepts a number, an array of one value or one value per weight as target (each weight then uses its own error); over any series of calls numbers and arrays of one value give exactly the same filter. A target of any other shape raises ValueError and leaves the weights, but the matrix has been updated with x. A vector x of another length raises ValueError, a number as x TypeError (or IndexError, if it is a numpy number) and a forgetting factor 0 ZeroDivisionError, all without any effect. An x with two or more axes raises and leaves the weights, and the matrix either stays or gets a third axis; a square table of the filter's size always gives it a third axis. From then on every call of adapt, whatever d and x (including the documented ones), raises and never changes a weight.", "quantifier": "every state, every shape and value of both arguments, every later history of calls", "why_tests_cant": "for all shapes and all later histories", "anchors": ["padasip/filters/rls.py: FilterRLS.learning_rule", "padasip/filters/base_filter.py: AdaptiveFilter.adapt, predict"]}
{"id": "C152", "title": "Accuracy of standardize, standardize_back and ELBND in floating point", "statement": "In a floating-point arithmetic with unit roundoff u: standardize with a given offset o and scale s (not 0) gives every entry with relative error at most (1+u)^2-1, however close the entry is to the offset; standardize_back(standardize(x, o, s), o, s) gives every entry back up to ((1+u)^4-1)|x-o| + u|o|, whatever the scale; with the mean as default offset and a positive scale the error is at most gamma(N+3)(|x_i|+mean|x|)/s. ELBND has relative error at most gamma(2) for 'max' and gamma(n+2) for 'sum' with n weights, whenever it returns in exact arithmetic.", "quantifier": "all series, histories, offsets, scales, lengths, rounding functions", "why_tests_cant": "for every rounding and every data", "anchors": ["padasip/preprocess/standardize.py: standardize", "padasip/preprocess/standardize_back.py: standardize_back", "padasip/detection/elbnd.py: ELBND"]}
{"id": "C153", "title": "NetworkMLP: integer sizes, possibly negative", "statement": "NetworkMLP(layers, n_input, outputs, mu=...) with Python integers as sizes succeeds exactly if layers is not empty, all its sizes and n_input are positive, outputs is not negative and mu is 'auto' or accepted by float; for sizes that are not negative it is the network of C102. Otherwise, in this order: no layer: IndexError; last size 0: ZeroDivisionError; bad mu: ValueError; last size negative: TypeError (complex standard deviation); outputs negative: ValueError; n_input 0: ZeroDivisionError; n_input negative: TypeError; then the first size that is not positive decides: ValueError if negative, ZeroDivisionError if 0.", "quantifier": "all lists of integers, all numbers of inputs and outputs, every mu", "why_tests_cant": "for all integer sizes", "anchors": ["padasip/ann/mlp.py: NetworkMLP.__init__, Layer.__init__"]}
{"id": "C154", "title": "Shapes of the arguments of predict and update of the MLP", "statement": "predict(x) of an MLP accepts a number, one value or one value per input, with any number of leading axes of length 1, and does what it does with the vector; any other shape raises ValueError and changes nothing. update(d) after such a predict: with several outputs a number, one value or one value per output, with any number of leading axes of length 1, has exactly the effect of the vector (all layers; errors returned with the same axes), any other shape raises ValueError and changes nothing; so a whole series of predict/update calls with tables of one row gives the network of the plain vectors. With one output a number or an array of one value has the effect of the number; an array with as many values as the output node has weights raises ValueError after these weights have been changed, each with its own error; any other shape, also with leading axes of length 1, raises ValueError and changes nothing.", "quantifier": "every shape and value of the arguments, every network, every series of calls", "why_tests_cant": "for all shapes, with any number of axes", "anchors": ["padasip/ann/mlp.py: NetworkMLP.predict, NetworkMLP.update, Layer.predict, Layer.update"]}
{"id": "C155", "title": "Accuracy of the outputs of an MLP in floating point", "statement": "predict of an MLP of any depth, sigmoid or tanh, computed in floating point with unit roundoff u, for inputs in a box |x_j| <= X_j, differs from exact arithmetic by at most a bound that follows from the weights alone, layer by layer (the error of a node is that of its activation plus the slope times the error of the weighted sum). The bound goes to 0 with u. In sigmoid networks whose node weights add up to a bit less than 2 the errors of the hidden outputs do not grow with the number of layers.", "quantifier": "every network, every input of the box, every rounding with unit roundoff below 1", "why_tests_cant": "for all networks, depths, inputs and rounding modes", "anchors": ["padasip/ann/mlp.py: NetworkMLP.predict, Layer.predict, Layer.activation"]}
{"id": "C156", "title": "Rounding errors of whole runs of Llncosh, LMF, NLMF, SSLMS and NSSLMS", "statement": "A whole run in floating point (unit roundoff u) against the exact run on the same data. Llncosh: after k samples weights, outputs and errors differ by at most gamma_(k(n+7)+...) times those of the recursion without cancellation. LMF and NLMF (eps > 0): the same, but with a number of roundings that grows like 3^k (the error is cubed). SSLMS and NSSLMS: as long as no exact error is smaller than its own (explicit) rounding bound, all decisions sign(e) are the same in floating point, and the weights differ only by gamma_(k+2) (|w0| + k |mu|), resp. gamma_(k+n+5) with the normalised step sizes.", "quantifier": "every data, length, filter size, parameters and rounding with unit roundoff below 1", "why_tests_cant": "for all histories and rounding modes", "anchors": ["padasip/filters/llncosh.py: FilterLlncosh.learning_rule", "padasip/filters/lmf.py: FilterLMF.learning_rule", "padasip/filters/nlmf.py: FilterNLMF.learning_rule", "padasip/filters/sslms.py: FilterSSLMS.learning_rule", "padasip/filters/nsslms.py: FilterNSSLMS.learning_rule", "padasip/filters/base_filter.py: AdaptiveFilter.run"]}
{"id": "C157", "title": "Training an MLP in finite precision converges to exact training", "statement": "train of an MLP of any depth with any accepted data, number of epochs and drawn order, started from the same numbers in a sequence of arithmetics whose unit roundoffs tend to 0: all calls succeed, and all attributes of the trained network, all reported errors and all mean squared errors per epoch tend to those of exact arithmetic.", "quantifier": "every network, data, number of epochs, shuffle order, sequence of roundings with unit roundoff tending to 0", "why_tests_cant": "for all histories and rounding modes", "anchors": ["padasip/ann/mlp.py: NetworkMLP.train, NetworkMLP.predict, NetworkMLP.update, Layer.predict, Layer.update, Layer.activation"]}
{"id": "C158", "title": "Rounding errors of LMS and NLMS add up but are not amplified", "statement": "LMS with mu |x(k)|^2 <= 2 and NLMS with 0 <= mu <= 2 and eps > 0, run in finite precision: as long as the exact weights stay below W and the exact step sizes times targets below D, after k samples the weights differ from the exact ones by at most ((1+3g)^k - 1)(W + D/3), where g is a few n units in the last place: the error grows like k, not exponentially. On persistently exciting inputs the difference even stays below 2 C g (3 W + D) for ever, with C the gain of the exact filter for disturbances, if the arithmetic is precise enough (6 C g <= 1).", "quantifier": "every n, weights, targets, inputs, step size, number of samples, rounding", "why_tests_cant": "for all histories and rounding modes", "anchors": ["padasip/filters/lms.py: FilterLMS.learning_rule", "padasip/filters/nlms.py: FilterNLMS.learning_rule", "padasip/filters/base_filter.py: AdaptiveFilter.run"]}
{"id": "C159", "title": "LMS and NLMS track a changing system in finite precision", "statement": "LMS and NLMS run in finite precision on persistently exciting inputs, noisy targets of a drifting bounded system: the distance of the weights to the system stays below an explicit bound for ever, and in the end below C d/(1 - 3 C g) wherever the filter was started, where C is the gain of exact arithmetic, g a few n units in the last place, and d the exact disturbance plus g times the size of the system. For g -> 0 this is the bound of exact arithmetic.", "quantifier": "every n, start weights, drifting system, noise, inputs, step size, number of samples, rounding", "why_tests_cant": "for all histories and rounding modes", "anchors": ["padasip/filters/lms.py: FilterLMS.learning_rule", "padasip/filters/nlms.py: FilterNLMS.learning_rule", "padasip/filters/base_filter.py: AdaptiveFilter.run"]}
{"id": "C160", "title": "Finite precision: small updates are lost, filters stop learning", "statement": "In binary arithmetic with p-bit significands, rounded to nearest: a weight does not change when its update is below 2^-(p+3) of it. LMS, NLMS: |mu x_i e| (divided by eps + |x|^2) <= 2^-(p+3) |w_i|; LMS presented with one sample again and again then stops for ever whatever its error is (mu = 2^-60 in double precision from weight 1: the error stays 1). A weight of SSLMS that has reached 2^(p+3) mu is frozen for ever on any data, so all its weights stay below max(start, 2^(p+4) mu) although they can diverge in exact arithmetic.", "quantifier": "every p, n, weights, targets, inputs, step size, number of samples", "why_tests_cant": "for all histories", "anchors": ["padasip/filters/lms.py: FilterLMS.learning_rule", "padasip/filters/nlms.py: FilterNLMS.learning_rule", "padasip/filters/sslms.py: FilterSSLMS.learning_rule", "padasip/filters/base_filter.py: AdaptiveFilter.run, AdaptiveFilter.adapt"]}
{"id": "C161", "title": "In finite precision saturated nodes of an MLP stop learning", "statement": "In binary arithmetic with p-bit significands, rounded to nearest: a sigmoid node whose weighted sum is at least (p+6) log 2 (double precision: 41) answers exactly 1, a tanh node beyond it in either direction exactly 1 or -1, and the derivative used in training is then exactly 0: the weights of the node do not change, whatever the error. If all nodes of the last hidden layer are saturated on all training inputs, train changes no weight of any hidden layer, for any targets, depth, number of epochs and order of the samples: only the output layer learns.", "quantifier": "every p, network, data, number of epochs, shuffle order", "why_tests_cant": "for all inputs and histories", "anchors": ["padasip/ann/mlp.py: Layer.activation, Layer.predict, Layer.update, NetworkMLP.train, NetworkMLP.update"]}
{"id": "C162", "title": "Underflow: accuracy of predict, lost updates, outliers ignored by GMCC", "statement": "In arithmetic with p-bit significands and gradual underflow to multiples of 2^E (float64: p = 53, E = -1074), overflow aside: every operation is off by at most 2^-p of the exact result or half the smallest number, whichever is larger, so predict is off by the usual relative bound plus at most about 2n halves of the smallest number. One LMS step gives the exact new weight up to relative rounding errors plus about 2 + |e| halves of the smallest number. LMS does not change a weight whose mu x_i is below half the smallest number, whatever the error is, and if that holds for all samples it never changes it. LMF learns nothing at a sample whose squared error is below half the smallest number. GMCC does not change any weight at a sample whose lambd |e|^alpha exceeds (1-E) log 2 (double precision: 745.2) by the rounding error: such outliers are ignored completely, while in exact arithmetic they always have some influence.", "quantifier": "every p, E, filter length, initial weights and data", "why_tests_cant": "for all inputs and histories", "anchors": ["padasip/filters/gmcc.py: FilterGMCC.learning_rule", "padasip/filters/lms.py: FilterLMS.learning_rule", "padasip/filters/lmf.py: FilterLMF.learning_rule", "padasip/filters/base_filter.py: AdaptiveFilter.predict, AdaptiveFilter.run"]}

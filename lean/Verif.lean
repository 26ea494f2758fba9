import Verif.Model.Np
import Verif.Model.Base
import Verif.Model.Filters
import Verif.Model.Factory
import Verif.Model.Real
import Verif.Spec.Stream
import Verif.Spec.Ready
import Verif.Spec.Log
import Verif.Spec.Solve
import Verif.Spec.Example
import Verif.Lemmas.Engine
import Verif.Lemmas.Rules
import Verif.Lemmas.Ready
import Verif.Lemmas.Log
import Verif.Lemmas.Field
import Verif.Lemmas.Gram
import Verif.Props.Engine
import Verif.Lemmas.Insens
import Verif.Lemmas.Reject
import Verif.Props.Reject
import Verif.Spec.Runs
import Verif.Lemmas.Runs
import Verif.Lemmas.Steps
import Verif.Props.Recursion
import Verif.Props.Gradient
import Verif.Props.Stability
import Verif.Props.Fixpoint
import Verif.Props.Rls
import Verif.Props.Ap
import Verif.Lemmas.Hom
import Verif.Props.Symmetry
import Verif.Props.Permute
import Verif.Props.Linear
import Verif.Props.Special
import Verif.Spec.Nan
import Verif.Props.Nan
import Verif.Props.Oc
import Verif.Props.Factory
import Verif.Model.Misc
import Verif.Props.Misc
import Verif.Props.IntData
import Verif.Model.Preprocess
import Verif.Props.Preprocess
import Verif.Model.Pca
import Verif.Spec.Linalg
import Verif.Props.Pca
import Verif.Model.Detection
import Verif.Props.Elbnd
import Verif.Spec.Le
import Verif.Props.Le
import Verif.Props.Ese
import Verif.Model.Mlp
import Verif.Spec.Mlp
import Verif.Props.Mlp
import Verif.Props.MlpGrad
import Verif.Model.Heap
import Verif.Spec.Heap
import Verif.Props.Heap
import Verif.Props.Rotate
import Verif.Props.Units
import Verif.Props.Posteriori
import Verif.Props.Optimal
import Verif.Model.Fl
import Verif.Lemmas.Fl
import Verif.Props.Rounding
import Verif.Props.Consistency
import Verif.Props.Defaults
import Verif.Spec.Excite
import Verif.Props.Excitation
import Verif.Props.Span
import Verif.Props.Pipeline
import Verif.Props.Divergence
import Verif.Props.Monotone
import Verif.Props.Regret
import Verif.Props.Tracking
import Verif.Props.MlpNew
import Verif.Props.MlpDescent
import Verif.Props.MlpBound
import Verif.Props.MlpPerm
import Verif.Props.MlpFix
import Verif.Props.PcaOpt
import Verif.Props.LdaOpt
import Verif.Props.LdaAffine
import Verif.Model.Nd
import Verif.Props.Nd
import Verif.Props.Reject2
import Verif.Props.Robust
import Verif.Props.Initial
import Verif.Model.MiscArg
import Verif.Props.MiscLaws
import Verif.Model.Args
import Verif.Props.Args
import Verif.Props.VslmsDiverge
import Verif.Props.Gain
import Verif.Model.IntArith
import Verif.Props.IntRuns
import Verif.Props.Stochastic
import Verif.Props.White
import Verif.Props.RandomConv
import Verif.Props.NoisyTargets
import Verif.Props.NanTools
import Verif.Props.NanMlp
import Verif.Model.DetectArgs
import Verif.Props.DetectArgs
import Verif.Model.MlpArgs
import Verif.Props.MlpArgs
import Verif.Props.PcaDim
import Verif.Model.OcWidth
import Verif.Props.OcWidth
import Verif.Spec.XReal
import Verif.Props.Inf
import Verif.Spec.Deep
import Verif.Props.MlpDeep
import Verif.Model.Custom
import Verif.Props.Custom
import Verif.Props.SignLevels
import Verif.Props.Influence
import Verif.Model.Table
import Verif.Props.Table
import Verif.Model.ListArg
import Verif.Props.ListArg
import Verif.Model.BoolData
import Verif.Props.BoolData
import Verif.Props.LearningCurve
import Verif.Props.Epochs
import Verif.Props.Pretrained
import Verif.Props.Redundant
import Verif.Props.Novelty
import Verif.Props.ApBare
import Verif.Props.Silence
import Verif.Props.Continuity
import Verif.Props.NdArr
import Verif.Props.NdMem
import Verif.Props.NdRest
import Verif.Props.NdRls
import Verif.Props.RoundTools
import Verif.Props.MlpInt
import Verif.Props.MlpNd
import Verif.Props.MlpRound
import Verif.Props.RoundMore
import Verif.Props.MlpConsistency
import Verif.Props.RoundDrift
import Verif.Props.RoundTrack
import Verif.Props.Stall
import Verif.Props.MlpStall
import Verif.Props.Underflow

import Verif.Lemmas.Apery
import Verif.Lemmas.ContFrac
import Verif.Lemmas.ContFracObj
import Verif.Lemmas.Convergence
import Verif.Lemmas.Discriminant
import Verif.Lemmas.Documented
import Verif.Lemmas.EnumPoly
import Verif.Lemmas.EnumSparse
import Verif.Lemmas.Estimator
import Verif.Lemmas.Fit
import Verif.Lemmas.Hashtable
import Verif.Lemmas.Infinite
import Verif.Lemmas.Json
import Verif.Lemmas.Latex
import Verif.Lemmas.Limit
import Verif.Lemmas.Path
import Verif.Lemmas.Ratio
import Verif.Lemmas.RationalFunc
import Verif.Lemmas.Rounded
import Verif.Lemmas.Tables
import Verif.Lemmas.TestTable
import Verif.Model.Cancel
import Verif.Model.Concurrent
import Verif.Model.Config
import Verif.Model.ContFrac
import Verif.Model.DecStr
import Verif.Model.Dict
import Verif.Model.Distribute
import Verif.Model.DistributeMain
import Verif.Model.EnumPoly
import Verif.Model.Estimator
import Verif.Model.Expand
import Verif.Model.Fit
import Verif.Model.FloatRoots
import Verif.Model.Hashtable
import Verif.Model.Ini
import Verif.Model.Json
import Verif.Model.Latex
import Verif.Model.LoadCsv
import Verif.Model.Main
import Verif.Model.MainSteps
import Verif.Model.Mitm
import Verif.Model.Nips
import Verif.Model.Num
import Verif.Model.OldApproach
import Verif.Model.OldCsv
import Verif.Model.Output
import Verif.Model.Path
import Verif.Model.Pipeline
import Verif.Model.Plot
import Verif.Model.Postproc
import Verif.Model.Precision
import Verif.Model.Process
import Verif.Model.Promo
import Verif.Model.PyStr
import Verif.Model.RationalFunc
import Verif.Model.Rounded
import Verif.Model.RoundedInfo
import Verif.Model.RoundedLhs
import Verif.Model.RoundedPost
import Verif.Model.RoundedRf
import Verif.Model.Scripts
import Verif.Model.Ulcd
import Verif.Model.Utils
import Verif.Model.Workflow
import Verif.Props.Apery
import Verif.Props.Cancelled
import Verif.Props.Complete
import Verif.Props.CompleteRf
import Verif.Props.Concurrent
import Verif.Props.Config
import Verif.Props.ConfigFile
import Verif.Props.ConfigOrder
import Verif.Props.ConfigSave
import Verif.Props.ContFrac
import Verif.Props.ContFracConv
import Verif.Props.ContFracEval
import Verif.Props.Digits
import Verif.Props.Distinct
import Verif.Props.Distribute
import Verif.Props.DistributeMain
import Verif.Props.Documented
import Verif.Props.EmptyRange
import Verif.Props.EnumPoly
import Verif.Props.EnumSparse
import Verif.Props.Estimator
import Verif.Props.EstimatorDefault
import Verif.Props.EstimatorLimit
import Verif.Props.EstimatorRule
import Verif.Props.ExpFilter
import Verif.Props.Expand
import Verif.Props.FastTest
import Verif.Props.FastTestInf
import Verif.Props.FilterOrder
import Verif.Props.Fit
import Verif.Props.FloatRoots
import Verif.Props.Hashtable
import Verif.Props.Identity
import Verif.Props.InfoRefine
import Verif.Props.Ini
import Verif.Props.KeyAccuracy
import Verif.Props.LatexEqns
import Verif.Props.LatexLhs
import Verif.Props.Limit
import Verif.Props.LoadCsv
import Verif.Props.Main
import Verif.Props.MainSteps
import Verif.Props.Mirror
import Verif.Props.MitmBuild
import Verif.Props.MitmClicks
import Verif.Props.MitmExport
import Verif.Props.MitmFilters
import Verif.Props.MitmLhs
import Verif.Props.MitmRefine
import Verif.Props.Monotone
import Verif.Props.MoreDigits
import Verif.Props.OldApproach
import Verif.Props.OldCsv
import Verif.Props.OptionUse
import Verif.Props.Output
import Verif.Props.Pipeline
import Verif.Props.Plot
import Verif.Props.PostAccuracy
import Verif.Props.Postproc
import Verif.Props.Precision
import Verif.Props.Process
import Verif.Props.Promo
import Verif.Props.RationalFunc
import Verif.Props.Reinit
import Verif.Props.Repeat
import Verif.Props.Rounded
import Verif.Props.RoundedLhs
import Verif.Props.RoundedRf
import Verif.Props.Scaling
import Verif.Props.Scripts
import Verif.Props.SetOrder
import Verif.Props.Split
import Verif.Props.TestTable
import Verif.Props.Ulcd
import Verif.Props.Utils
import Verif.Props.Widen
import Verif.Props.Workflow
import Verif.Py
import Verif.Spec.Concurrent
import Verif.Spec.Config
import Verif.Spec.ContFrac
import Verif.Spec.Convergence
import Verif.Spec.EnumPoly
import Verif.Spec.Estimator
import Verif.Spec.Fit
import Verif.Spec.FloatRoots
import Verif.Spec.Hashtable
import Verif.Spec.Ini
import Verif.Spec.Latex
import Verif.Spec.Lhs
import Verif.Spec.Limit
import Verif.Spec.Main
import Verif.Spec.Margin
import Verif.Spec.Mitm
import Verif.Spec.Plot
import Verif.Spec.Post
import Verif.Spec.Rounded
import Verif.Spec.RoundedRf
import Verif.Spec.Scripts
import Verif.Spec.Tables
import Verif.Spec.TestTable
import Verif.Spec.Utils
import Verif.Validation.Canonalize
import Verif.Validation.EnumParams
import Verif.Validation.RepoTests
import Verif.Validation.RoundedExact

import Verif.Props.Utils2
import Verif.Props.Reduce
import Verif.Props.Contract
import Verif.Props.ContractEmpty
import Verif.Props.Slices
import Verif.Props.Slim
import Verif.Props.LogNorm
import Verif.Props.Init
import Verif.Props.ProbMps
import Verif.Props.ProbMps2
import Verif.Props.Embeddings
import Verif.Props.Embeddings2
import Verif.Props.Trainable
import Verif.Props.Svd
import Verif.Props.InitTensor
import Verif.Props.Data
import Verif.Props.HVData
import Verif.Props.Contractables
import Verif.Props.ContractableList
import Verif.Props.Mps
import Verif.Props.MpsInput
import Verif.Props.Adaptive
import Verif.Props.SvdIso
import Verif.Props.AdaptiveFlip
import Verif.Props.AdaptiveInactive
import Verif.Props.AdaptiveMore
import Verif.Props.AdaptiveTrunc
import Verif.Props.TiMps
import Verif.Props.ProbInit
import Verif.Props.SvdOptimal
import Verif.Props.Len
import Verif.Props.Mlp
import Verif.Props.Exact
import Verif.Props.TotalMass
import Verif.Props.AdaptiveExact
import Verif.Props.Witness
import Verif.Props.MpsStale
import Verif.Props.ProbEquiv
import Verif.Props.Canonical
import Verif.Props.Train
import Verif.Props.TrainAdaptive
import Verif.Props.AdaptiveRecover
import Verif.Props.Gauge
import Verif.Props.MpsParams
import Verif.Props.TiAsMps
import Verif.Spec.Fresh
import Verif.Lemmas.Fresh
import Verif.Props.Fresh
import Verif.Props.FreshAd
import Verif.Props.Rounded
import Verif.Props.RoundedFl
import Verif.Props.Autodiff
import Verif.Props.AutodiffMps
import Verif.Props.MpsGradient
import Verif.Props.LogNormSigned
import Verif.Model.AutodiffProb
import Verif.Spec.AutodiffProb
import Verif.Lemmas.AutodiffNorm
import Verif.Lemmas.AutodiffZ
import Verif.Lemmas.AutodiffPsi
import Verif.Props.AutodiffProb
import Verif.Props.AutodiffEmbed
import Verif.Props.AdaptiveHeap
import Verif.Spec.Registry
import Verif.Props.Registry
import Verif.Props.RegistryProb
import Verif.Props.RegistryEmb
import Verif.Props.RegistryAd
import Verif.Props.RegistryWitness
import Verif.Spec.FlipError
import Verif.Lemmas.FlipError
import Verif.Props.FlipError
import Verif.Model.RoundedProb
import Verif.Spec.RoundedProb
import Verif.Lemmas.RoundedProb
import Verif.Lemmas.RoundedNorm
import Verif.Lemmas.RoundedForward
import Verif.Props.RoundedProb
import Verif.Props.RoundedProbFl
import Verif.Props.Expressive
import Verif.Props.MpsExpress
import Verif.Model.Threads
import Verif.Lemmas.ThreadsRun
import Verif.Lemmas.ThreadsWp
import Verif.Lemmas.ThreadsList
import Verif.Lemmas.ThreadsModel
import Verif.Lemmas.ThreadsExec
import Verif.Spec.Threads
import Verif.Lemmas.ThreadsMps
import Verif.Props.Threads
import Verif.Lemmas.ThreadsRow
import Verif.Lemmas.ThreadsSim
import Verif.Lemmas.ThreadsSimList
import Verif.Lemmas.ThreadsSimMps
import Verif.Props.ThreadsSafe
import Verif.Model.RoundedMps
import Verif.Lemmas.NetExact
import Verif.Spec.RoundedMps
import Verif.Lemmas.NetRel
import Verif.Lemmas.NetSim
import Verif.Lemmas.NetSimList
import Verif.Lemmas.NetSimMps
import Verif.Lemmas.NetValue
import Verif.Lemmas.NetBound
import Verif.Lemmas.NetBoundTi
import Verif.Props.RoundedMps
import Verif.Spec.Sens
import Verif.Lemmas.Sens
import Verif.Props.Sens
import Verif.Spec.SensProb
import Verif.Lemmas.SensProb
import Verif.Props.SensProb
import Verif.Props.TiExpress
import Verif.Props.UnifExpress
import Verif.Props.TiGrad
import Verif.Model.Cost
import Verif.Spec.Cost
import Verif.Lemmas.Cost
import Verif.Props.Cost
import Verif.Spec.TrainGrad
import Verif.Props.TrainGrad
import Verif.Spec.Entropy
import Verif.Props.LossEntropy
import Verif.Props.AutodiffRefuse
import Verif.Model.CostMps
import Verif.Spec.CostMps
import Verif.Lemmas.CostMps
import Verif.Lemmas.CostMpsLoop
import Verif.Props.CostMps
import Verif.Model.CostTi
import Verif.Spec.CostTi
import Verif.Props.CostTi
import Verif.Spec.Symmetry
import Verif.Props.Symmetry
import Verif.Model.FeatureModule
import Verif.Spec.FeatureModule
import Verif.Props.FeatureModule
import Verif.Spec.Regression
import Verif.Props.Regression
import Verif.Spec.Identify
import Verif.Props.Identify
import Verif.Spec.TiTrain
import Verif.Props.TiTrain
import Verif.Spec.AdSens
import Verif.Props.AdSens
import Verif.Props.Agree
import Verif.Props.Balance
import Verif.Props.Closure
import Verif.Props.Sharp

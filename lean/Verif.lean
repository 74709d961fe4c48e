import Verif.Model.Basic
import Verif.Model.FuzzySet
import Verif.Model.Rule
import Verif.Lemmas.Basic
import Verif.Spec.Fuzzy
import Verif.Spec.Rules
import Verif.Lemmas.Rule
import Verif.Lemmas.Fuzzy
import Verif.Props.Fuzzy
import Verif.Props.FuzzyVars
import Verif.Props.Rule
import Verif.Props.RuleMap
import Verif.Props.FDTPredict
import Verif.Props.FDTFit
import Verif.Props.FDTFitted
import Verif.Props.Factual
import Verif.Props.Counterfactual
import Verif.Props.CfDistance
import Verif.Props.Metrics
import Verif.Props.Discretize
import Verif.Props.Entropy
import Verif.Props.EqualBins
import Verif.Props.Genetic
import Verif.Props.FDTSplits
import Verif.Props.Sampling
import Verif.Props.Neighborhood
import Verif.Props.Fuzzify
import Verif.Model.Utils
import Verif.Props.Distances
import Verif.Props.Encoding
import Verif.Props.Features
import Verif.Props.Datasets
import Verif.Model.GP
import Verif.Props.GP
import Verif.Props.GPFitness
import Verif.Model.ID3
import Verif.Spec.ID3
import Verif.Lemmas.ID3
import Verif.Props.ID3
import Verif.Props.ID3Predict
import Verif.Props.ID3Fit
import Verif.Props.ID3Gain
import Verif.Props.ID3More
import Verif.Model.FBDT
import Verif.Spec.FBDT
import Verif.Lemmas.FBDTShare
import Verif.Lemmas.FBDT
import Verif.Lemmas.FBDTFit
import Verif.Props.FBDTFit
import Verif.Props.FBDTPredict
import Verif.Props.FBDTSplits
import Verif.Model.Explainer
import Verif.Spec.Explainer
import Verif.Props.Explainer
import Verif.Props.Fidelity
import Verif.Model.Lore
import Verif.Model.TreeEq
import Verif.Model.Mixed
import Verif.Model.RuleJson
import Verif.Spec.Lore
import Verif.Spec.Mixed
import Verif.Props.Lore
import Verif.Props.TreeEq
import Verif.Props.Mixed
import Verif.Props.RuleJson
import Verif.Model.Distr
import Verif.Props.Distr
import Verif.Model.RandomNb
import Verif.Props.RandomNb
import Verif.Model.Artificial
import Verif.Props.Artificial
import Verif.Model.Loaders
import Verif.Props.Loaders
import Verif.Props.Score
import Verif.Props.Cuts
import Verif.Props.ID3Stats
import Verif.Props.Strengthen
import Verif.Props.Failures
import Verif.Model.LoreGen
import Verif.Props.LoreGen
import Verif.Props.Terminate
import Verif.Model.Show
import Verif.Model.FastFit
import Verif.Model.MadDistance
import Verif.Props.Show
import Verif.Props.ErrorKinds
import Verif.Props.CfTotal
import Verif.Props.SampFit
import Verif.Props.Pipeline
import Verif.Props.EndToEnd
import Verif.Props.Closest
import Verif.Props.FBDTPipeline
import Verif.Props.LorePipeline
import Verif.Props.FastFit
import Verif.Props.MadDistance
import Verif.Props.TreeEquiv
import Verif.Props.ExpClosest
import Verif.Props.FID3Hand
import Verif.Props.FID3Data
import Verif.Model.RuleTNorm
import Verif.Props.RuleTNorm
import Verif.Props.RowOrder
import Verif.Props.RowOrderB
import Verif.Props.RowOrderI
import Verif.Props.RenameID3
import Verif.Props.Units
import Verif.Props.UnitsDisc
import Verif.Props.FBDTCrisp
import Verif.Props.FastFitB
import Verif.Props.ClassNames
import Verif.Props.Coverage
import Verif.Props.TotalVote
import Verif.Props.Stability
import Verif.Props.ColumnOrder
import Verif.Props.Rounded
import Verif.Props.IEEE
import Verif.Props.RoundedPredict
import Verif.Props.RoundedFit
import Verif.Props.RoundedB
import Verif.Lemmas.RoundedB
import Verif.Spec.RoundedB
import Verif.Spec.IEEE
import Verif.Props.RoundedBFit
import Verif.Props.RoundedBNear
import Verif.Props.IEEEUse
import Verif.Model.RoundedRules
import Verif.Spec.RoundedRules
import Verif.Props.RoundedRules
import Verif.Model.RoundedCf
import Verif.Spec.RoundedCf
import Verif.Props.RoundedVote
import Verif.Props.RoundedCf
import Verif.Props.Misuse
import Verif.Props.FactualMeta
import Verif.Props.CfMeta
import Verif.Model.RoundedMetrics
import Verif.Props.RoundedMetrics
import Verif.Model.RoundedSets
import Verif.Spec.RoundedSets
import Verif.Props.RoundedSets
import Verif.Model.RoundedDisc
import Verif.Spec.RoundedDisc
import Verif.Props.RoundedDisc
import Verif.Props.RoundedCuts
import Verif.Props.RoundedSimm
import Verif.Props.RoundedFlow
import Verif.Props.RoundedFlowB
import Verif.Props.RoundedAlways
import Verif.Props.RoundedPipeline
import Verif.Props.RoundedSplits
import Verif.Props.RoundedBSplits

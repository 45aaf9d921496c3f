import Verif.Model.Activation
import Verif.Model.Benchmark
import Verif.Model.Binary64
import Verif.Model.Commands
import Verif.Model.Components
import Verif.Model.Configure
import Verif.Model.Console
import Verif.Model.Cpp
import Verif.Model.CppExporter
import Verif.Model.Data
import Verif.Model.Decimal
import Verif.Model.Defuzzifier
import Verif.Model.DoubleText
import Verif.Model.Engine
import Verif.Model.Ext
import Verif.Model.Factory
import Verif.Model.Fcl
import Verif.Model.Fis
import Verif.Model.Fll
import Verif.Model.Formula
import Verif.Model.FuzzyText
import Verif.Model.FuzzyValue
import Verif.Model.Hedge
import Verif.Model.Java
import Verif.Model.LawfulText
import Verif.Model.Memory
import Verif.Model.MemoryFormula
import Verif.Model.Norm
import Verif.Model.Op
import Verif.Model.Options
import Verif.Model.Parameters
import Verif.Model.RScript
import Verif.Model.Rendering
import Verif.Model.Results
import Verif.Model.Rounded
import Verif.Model.Rule
import Verif.Model.Scalar
import Verif.Model.Shape
import Verif.Model.Status
import Verif.Model.Term
import Verif.Model.Text
import Verif.Model.Variable
import Verif.Lemmas.Activation
import Verif.Lemmas.Antecedent
import Verif.Lemmas.Binary64
import Verif.Lemmas.Build
import Verif.Lemmas.Cpp
import Verif.Lemmas.CppExec
import Verif.Lemmas.CppExporter
import Verif.Lemmas.Decimal
import Verif.Lemmas.Defuzzify
import Verif.Lemmas.DoubleLaws
import Verif.Lemmas.DoubleText
import Verif.Lemmas.Errors
import Verif.Lemmas.Ext
import Verif.Lemmas.Fcl
import Verif.Lemmas.Fis
import Verif.Lemmas.Fll
import Verif.Lemmas.Frame
import Verif.Lemmas.Java
import Verif.Lemmas.Lines
import Verif.Lemmas.Memory
import Verif.Lemmas.MemoryAlike
import Verif.Lemmas.MemoryAssign
import Verif.Lemmas.MemoryClean
import Verif.Lemmas.MemoryConfigure
import Verif.Lemmas.MemoryCopy
import Verif.Lemmas.MemoryEngine
import Verif.Lemmas.MemoryFormula
import Verif.Lemmas.MemoryLoad
import Verif.Lemmas.MemoryRefine
import Verif.Lemmas.MemoryRule
import Verif.Lemmas.MemoryRules
import Verif.Lemmas.MemoryRulesCopy
import Verif.Lemmas.Norm
import Verif.Lemmas.NormReal
import Verif.Lemmas.RScript
import Verif.Lemmas.Rounded
import Verif.Lemmas.RoundedBounds
import Verif.Lemmas.ScalarOrd
import Verif.Lemmas.Shape
import Verif.Lemmas.Simulate
import Verif.Lemmas.Text
import Verif.Lemmas.Yard
import Verif.Props.Activation
import Verif.Props.Aggregated
import Verif.Props.Antecedent
import Verif.Props.Benchmark
import Verif.Props.Between
import Verif.Props.Clone
import Verif.Props.Commands
import Verif.Props.Compare
import Verif.Props.Components
import Verif.Props.Configure
import Verif.Props.Console
import Verif.Props.Converge
import Verif.Props.Cpp
import Verif.Props.CppText
import Verif.Props.Data
import Verif.Props.Degree
import Verif.Props.Discrete
import Verif.Props.Divide
import Verif.Props.DoubleText
import Verif.Props.Either
import Verif.Props.Enough
import Verif.Props.Extra
import Verif.Props.ExtraLoad
import Verif.Props.Factory
import Verif.Props.Fcl
import Verif.Props.FclStrict
import Verif.Props.Fis
import Verif.Props.FisEngine
import Verif.Props.FisLoad
import Verif.Props.FisRules
import Verif.Props.FisStrict
import Verif.Props.FisWitness
import Verif.Props.Fll
import Verif.Props.Formula
import Verif.Props.FuzzyText
import Verif.Props.FuzzyValue
import Verif.Props.Grid
import Verif.Props.Hedge
import Verif.Props.Idle
import Verif.Props.Increment
import Verif.Props.Integral
import Verif.Props.Java
import Verif.Props.Linear
import Verif.Props.Memory
import Verif.Props.MemoryFormula
import Verif.Props.MemoryRules
import Verif.Props.Monotone
import Verif.Props.More
import Verif.Props.MoreTerms
import Verif.Props.Mute
import Verif.Props.Norm
import Verif.Props.Options
import Verif.Props.Parameters
import Verif.Props.Process
import Verif.Props.RScript
import Verif.Props.Ready
import Verif.Props.Relative
import Verif.Props.Rename
import Verif.Props.Rendering
import Verif.Props.Restart
import Verif.Props.Results
import Verif.Props.Rounded
import Verif.Props.RoundedDefuzzify
import Verif.Props.RoundedEngine
import Verif.Props.RoundedMamdani
import Verif.Props.RoundedRules
import Verif.Props.RoundedShape
import Verif.Props.RuleOrder
import Verif.Props.RuleSet
import Verif.Props.RuleSetWeighted
import Verif.Props.RuleText
import Verif.Props.Run
import Verif.Props.Shape
import Verif.Props.Shift
import Verif.Props.Sound
import Verif.Props.Split
import Verif.Props.Statistics
import Verif.Props.Status
import Verif.Props.Strict
import Verif.Props.Support
import Verif.Props.Text
import Verif.Props.Total
import Verif.Props.Tune
import Verif.Props.Variable
import Verif.Props.Weighted

import Verif.Model.Comparisons
import Verif.Lemmas.Execute
import Verif.Lemmas.Gadgets
import Verif.Lemmas.Programs
import Verif.Lemmas.Forge
import Verif.Lemmas.Binary
import Verif.Spec.Examples
import Verif.Props.Field
import Verif.Props.Expression
import Verif.Props.Execute
import Verif.Props.Builder
import Verif.Props.Arithmetic
import Verif.Props.Binary
import Verif.Props.Comparisons
import Verif.Props.BinaryOps
import Verif.Props.Permutation
import Verif.Props.Permutations
import Verif.Props.Hashes
import Verif.Props.Matrices
import Verif.Props.HashBuilders
import Verif.Props.Lcg
import Verif.Props.Primes
import Verif.Props.Curves
import Verif.Props.Schnorr
import Verif.Props.Costs
import Verif.Props.Readme
import Verif.Props.Rounds
import Verif.Props.Floats
import Verif.Props.Text
import Verif.Props.HashCosts
import Verif.Props.Tidy
import Verif.Props.Relations
import Verif.Props.Language
import Verif.Props.Rigid
import Verif.Props.Outcome
import Verif.Props.Composite
import Verif.Validation.Small
import Verif.Validation.Large
import Verif.Audit
import Verif.Props.Passes
import Verif.Props.Plan
import Verif.Props.Admission
import Verif.Props.Columns
import Verif.Props.HashStructure
import Verif.Props.SignatureStructure
import Verif.Props.Generator
import Verif.Props.Strict
import Verif.Props.Renumber
import Verif.Props.Parallel
import Verif.Props.Loops
import Verif.Props.Words
import Verif.Props.Raw
import Verif.Props.RawGens
import Verif.Props.Setters
import Verif.Props.Ieee
import Verif.Props.Instance
import Verif.Props.Typed
import Verif.Props.OrderTwo
import Verif.Props.JubJubGroup
import Verif.Props.SoundGroups
import Verif.Props.Primality
import Verif.Props.OutOfRange
import Verif.Props.LcgLimits
import Verif.Props.SumWidth
import Verif.Props.Setting
import Verif.Props.Remainders
import Verif.Props.CurveCosts
import Verif.Props.Readable
import Verif.Props.Missing
import Verif.Props.AnyOrder
import Verif.Props.Stages
import Verif.Props.Foreign
import Verif.Props.PanicsApart

import Verif.Props.Overlap
import Verif.Props.Apply
import Verif.Props.Scope
import Verif.Props.Keywords
import Verif.Props.Search
import Verif.Props.Event
import Verif.Props.Scan
import Verif.Props.Validators
import Verif.Props.Validation
import Verif.Props.Store
import Verif.Props.Builder
import Verif.Props.Codec
import Verif.Props.Path
import Verif.Props.PathWords
import Verif.Props.PatternCheck
import Verif.Props.Parser
import Verif.Props.Normalize
import Verif.Model.GoRule
import Verif.Props.EndToEnd
import Verif.Model.Ffi
import Verif.Lemmas.Ffi
import Verif.Props.GoRule
import Verif.Props.Ffi
import Verif.Spec.Meaning
import Verif.Lemmas.AstEq
import Verif.Lemmas.Meaning
import Verif.Props.Meaning
import Verif.Model.RustSyntax
import Verif.Spec.RustSyntax
import Verif.Lemmas.RustSyntax
import Verif.Lemmas.RustLimits
import Verif.Lemmas.RustReject
import Verif.Lemmas.RustRead
import Verif.Lemmas.RustParts
import Verif.Lemmas.RustConvert
import Verif.Lemmas.ParserShape
import Verif.Props.RustSyntax
import Verif.Spec.Lossy
import Verif.Props.Lossy
import Verif.Spec.AwsSecret
import Verif.Props.AwsSecret
import Verif.Model.RuleJson
import Verif.Props.RuleJson
import Verif.Model.Metrics
import Verif.Props.Metrics
import Verif.Spec.Engine
import Verif.Props.PatternScan
import Verif.Spec.ScanValidate
import Verif.Props.ScanValidate
import Verif.Model.Gauges
import Verif.Spec.Gauges
import Verif.Lemmas.Gauges
import Verif.Props.Gauges
import Verif.Spec.Prefer
import Verif.Lemmas.Prefer
import Verif.Props.Prefer
import Verif.Model.Assemble
import Verif.Spec.Assemble
import Verif.Props.Assemble
import Verif.Spec.GoRun
import Verif.Lemmas.Response
import Verif.Props.GoRun
import Verif.Spec.Grammar
import Verif.Lemmas.Grammar
import Verif.Lemmas.GrammarLeaves
import Verif.Lemmas.GrammarClass
import Verif.Lemmas.GrammarBracket
import Verif.Lemmas.GrammarExpr
import Verif.Lemmas.GrammarComplete
import Verif.Props.Grammar
import Verif.Model.Kinds
import Verif.Spec.Kinds
import Verif.Lemmas.Kinds
import Verif.Lemmas.KindsScan
import Verif.Props.Kinds
import Verif.Model.Labels
import Verif.Spec.Labels
import Verif.Props.Labels
import Verif.Spec.Near
import Verif.Lemmas.Near
import Verif.Props.Near
import Verif.Model.JsonText
import Verif.Spec.JsonText
import Verif.Lemmas.JsonText
import Verif.Lemmas.JsonRead
import Verif.Lemmas.JsonWrite
import Verif.Props.JsonText
import Verif.Model.Goroutines
import Verif.Spec.Goroutines
import Verif.Lemmas.Goroutines
import Verif.Lemmas.GoroutinesInv
import Verif.Props.Goroutines
import Verif.Model.ParValidate
import Verif.Spec.ParValidate
import Verif.Lemmas.ParValidate
import Verif.Lemmas.ParResult
import Verif.Props.ParValidate
import Verif.Model.HttpPresets
import Verif.Spec.HttpPresets
import Verif.Props.HttpPresets
import Verif.Model.GoProgram
import Verif.Props.GoProgram
import Verif.Model.Work
import Verif.Spec.Work
import Verif.Lemmas.Work
import Verif.Props.Work
import Verif.Props.KeywordRegex
import Verif.Model.KeywordRegex
import Verif.Spec.KeywordRegex
import Verif.Lemmas.KeywordRegex
import Verif.Model.Building
import Verif.Spec.Building
import Verif.Lemmas.Building
import Verif.Lemmas.BuildingInv
import Verif.Props.Building
import Verif.Props.LargeResponse
import Verif.Model.Versions
import Verif.Lemmas.Versions
import Verif.Lemmas.VersionsRun
import Verif.Lemmas.VersionsStore
import Verif.Props.Versions
import Verif.Model.GoErrors
import Verif.Spec.GoErrors
import Verif.Props.GoErrors
import Verif.Model.GoHeap
import Verif.Spec.GoHeap
import Verif.Lemmas.GoHeap
import Verif.Props.GoHeap
import Verif.Model.Locks
import Verif.Spec.Locks
import Verif.Lemmas.Locks
import Verif.Props.Locks
import Verif.Model.AwsSign
import Verif.Spec.AwsSign
import Verif.Props.AwsSign
import Verif.Spec.LongText
import Verif.Props.LongText
import Verif.Spec.StoreSize
import Verif.Lemmas.StoreSize
import Verif.Props.StoreSize
import Verif.Lemmas.Typos
import Verif.Props.Typos
import Verif.Spec.Secrecy
import Verif.Props.Secrecy
import Verif.Spec.RuleOrder
import Verif.Props.RuleOrder
import Verif.Spec.Locality
import Verif.Props.Locality
import Verif.Spec.GoSecrecy
import Verif.Lemmas.GoRewrite
import Verif.Props.GoSecrecy
import Verif.Model.Unwind
import Verif.Props.Unwind
import Verif.Spec.MoreRules
import Verif.Props.MoreRules
import Verif.Spec.Again
import Verif.Props.Again
import Verif.Spec.Undo
import Verif.Props.Undo
import Verif.Spec.Lines
import Verif.Props.Lines
import Verif.Model.SharedList
import Verif.Spec.SharedList
import Verif.Lemmas.SharedList
import Verif.Props.SharedList
import Verif.Spec.Growth
import Verif.Props.Growth
import Verif.Spec.Names
import Verif.Props.Names
import Verif.Spec.Whereto
import Verif.Props.Whereto
import Verif.Spec.Revalidate
import Verif.Props.Revalidate
import Verif.Spec.Requests
import Verif.Props.Requests
import Verif.Spec.Batches
import Verif.Props.Batches
import Verif.Spec.Stricter
import Verif.Props.Stricter
import Verif.Spec.MoreKeywords
import Verif.Props.MoreKeywords
import Verif.Props.Veto
import Verif.Spec.Broader
import Verif.Props.Broader

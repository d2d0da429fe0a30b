import Verif.Examples.Loop
import Verif.Examples.Lost
import Verif.Examples.Order
import Verif.Examples.Pattern
import Verif.Examples.Round
import Verif.Examples.Signal
import Verif.Examples.Silent
import Verif.Examples.Window
import Verif.Examples.Zones
import Verif.Lemmas.Bounds
import Verif.Lemmas.Clusters
import Verif.Lemmas.Complete
import Verif.Lemmas.Constraint
import Verif.Lemmas.Container
import Verif.Lemmas.DNF
import Verif.Lemmas.DNFLang
import Verif.Lemmas.Dead
import Verif.Lemmas.DeepCopy
import Verif.Lemmas.Diverge
import Verif.Lemmas.Dot
import Verif.Lemmas.DotLoops
import Verif.Lemmas.Fuel
import Verif.Lemmas.IntermediateZone
import Verif.Lemmas.Intersection
import Verif.Lemmas.IntersectionSignal
import Verif.Lemmas.Interval
import Verif.Lemmas.KMP
import Verif.Lemmas.Lazy
import Verif.Lemmas.Loops
import Verif.Lemmas.LoopsOk
import Verif.Lemmas.Main
import Verif.Lemmas.Match
import Verif.Lemmas.Monaa
import Verif.Lemmas.NormalForm
import Verif.Lemmas.NormalFormConj
import Verif.Lemmas.NormalFormInit
import Verif.Lemmas.NormalFormLang
import Verif.Lemmas.NormalFormMono
import Verif.Lemmas.NormalFormTerm
import Verif.Lemmas.NormalFormTree
import Verif.Lemmas.Optional
import Verif.Lemmas.Order
import Verif.Lemmas.Parser
import Verif.Lemmas.Program
import Verif.Lemmas.Reader
import Verif.Lemmas.Run
import Verif.Lemmas.SNFShape
import Verif.Lemmas.SNFShared
import Verif.Lemmas.Signal
import Verif.Lemmas.SignalConsts
import Verif.Lemmas.SignalDead
import Verif.Lemmas.SignalTA
import Verif.Lemmas.SignalUpper
import Verif.Lemmas.Silent
import Verif.Lemmas.SilentTight
import Verif.Lemmas.SilentTotal
import Verif.Lemmas.Six
import Verif.Lemmas.Static
import Verif.Lemmas.Sunday
import Verif.Lemmas.TA
import Verif.Lemmas.TRE
import Verif.Lemmas.TREBase
import Verif.Lemmas.TREClusters
import Verif.Lemmas.TREClusters2
import Verif.Lemmas.TREConsts
import Verif.Lemmas.TREFront
import Verif.Lemmas.TRELabels
import Verif.Lemmas.TRELate
import Verif.Lemmas.TRELoops
import Verif.Lemmas.TREOps
import Verif.Lemmas.TREOps2
import Verif.Lemmas.TREReset
import Verif.Lemmas.TREWindow
import Verif.Lemmas.Total
import Verif.Lemmas.UnitMatch
import Verif.Lemmas.UnitNormal
import Verif.Lemmas.UnitSignal
import Verif.Lemmas.UnitSilent
import Verif.Lemmas.UnitSkip
import Verif.Lemmas.UnitTRE
import Verif.Lemmas.UnitZA
import Verif.Lemmas.UnitZone
import Verif.Lemmas.ZA
import Verif.Lemmas.ZAFinite
import Verif.Lemmas.ZAGraph
import Verif.Lemmas.ZAOneClock
import Verif.Lemmas.ZARow
import Verif.Lemmas.ZATerm
import Verif.Lemmas.Zone
import Verif.Lemmas.ZoneStable
import Verif.Model.Answers
import Verif.Model.Ascii2bin
import Verif.Model.Bounds
import Verif.Model.Constraint
import Verif.Model.Container
import Verif.Model.DNF
import Verif.Model.DeepCopy
import Verif.Model.Dot
import Verif.Model.Err
import Verif.Model.IntermediateZone
import Verif.Model.Intersection
import Verif.Model.IntersectionSignal
import Verif.Model.Interval
import Verif.Model.Main
import Verif.Model.Matcher
import Verif.Model.Monaa
import Verif.Model.NormalForm
import Verif.Model.Parser
import Verif.Model.Program
import Verif.Model.Reader
import Verif.Model.SNF
import Verif.Model.Signal
import Verif.Model.SignalTA
import Verif.Model.Skip
import Verif.Model.TA
import Verif.Model.TRE
import Verif.Model.Tre2ta
import Verif.Model.ZA
import Verif.Model.Zone
import Verif.Props.Answers
import Verif.Props.Ascii2bin
import Verif.Props.Constraint
import Verif.Props.Consts
import Verif.Props.Container
import Verif.Props.DNF
import Verif.Props.DeadCycles
import Verif.Props.DeepCopy
import Verif.Props.Dot
import Verif.Props.DotFile
import Verif.Props.DotText
import Verif.Props.Hang
import Verif.Props.IntermediateZone
import Verif.Props.IntersectionSignal
import Verif.Props.Interval
import Verif.Props.LogForm
import Verif.Props.Main
import Verif.Props.Matcher
import Verif.Props.Narrower
import Verif.Props.NormalForm
import Verif.Props.NormalFormLang
import Verif.Props.Order
import Verif.Props.OrderOptional
import Verif.Props.OrderProgram
import Verif.Props.Parser
import Verif.Props.ParserMatch
import Verif.Props.PatternComplete
import Verif.Props.PipelineReset
import Verif.Props.Prefix
import Verif.Props.Program
import Verif.Props.Reader
import Verif.Props.Refuted
import Verif.Props.SNF
import Verif.Props.SameLanguage
import Verif.Props.SameRuns
import Verif.Props.SameSignals
import Verif.Props.Signal
import Verif.Props.SignalConsts
import Verif.Props.SignalMatch
import Verif.Props.SignalPos
import Verif.Props.SignalTA
import Verif.Props.SignalUpper
import Verif.Props.Silent
import Verif.Props.Skip
import Verif.Props.TA
import Verif.Props.TRE
import Verif.Props.Total
import Verif.Props.Tre2ta
import Verif.Props.Unit
import Verif.Props.UnitDot
import Verif.Props.UnitPipe
import Verif.Props.UnitRun
import Verif.Props.UnitTRE
import Verif.Props.ZA
import Verif.Props.Zone
import Verif.Spec.Answers
import Verif.Spec.Bounds
import Verif.Spec.Constraint
import Verif.Spec.Consts
import Verif.Spec.Container
import Verif.Spec.DNF
import Verif.Spec.Dot
import Verif.Spec.DotFile
import Verif.Spec.DotText
import Verif.Spec.IntermediateZone
import Verif.Spec.IntersectionSignal
import Verif.Spec.Interval
import Verif.Spec.Loops
import Verif.Spec.Main
import Verif.Spec.Match
import Verif.Spec.Order
import Verif.Spec.Parser
import Verif.Spec.Program
import Verif.Spec.Reader
import Verif.Spec.SNF
import Verif.Spec.SignalTA
import Verif.Spec.Skip
import Verif.Spec.TA
import Verif.Spec.TRE
import Verif.Spec.TRELate
import Verif.Spec.Unit
import Verif.Spec.UnitTRE
import Verif.Spec.Upper
import Verif.Spec.ZA
import Verif.Spec.Zone

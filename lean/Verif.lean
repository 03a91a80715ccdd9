import Verif.Props.Search
import Verif.Props.Heaps
import Verif.Props.Util
import Verif.Props.Recognise
import Verif.Props.Pda
import Verif.Props.Cfg
import Verif.Props.Tsa
import Verif.Props.Approximation
import Verif.Props.Dyck
import Verif.Props.Pmcfg
import Verif.Props.Conversion
import Verif.Props.McfgLcfrs
import Verif.Props.FromPmcfg
import Verif.Props.CsChart
import Verif.Props.CsFill
import Verif.Props.CsRuleMask
import Verif.Props.CsKBest
import Verif.Props.CsWords
import Verif.Props.CsToderiv
import Verif.Props.CsParse
import Verif.Props.CsFallback
import Verif.Props.FromStr
import Verif.Props.FromStrTotal
import Verif.Props.Negra
import Verif.Props.Import
import Verif.Props.ImportTotal
import Verif.Props.AutomatonText
import Verif.Props.AutomatonTextPrint
import Verif.Props.AutomatonTextTotal
import Verif.Props.Ord
import Verif.Props.ClassText
import Verif.Props.RuleReads
import Verif.Props.CsCommand
import Verif.Props.Factorize
import Verif.Props.TsaOnce
import Verif.Props.McfgCommand
import Verif.Props.Fair
import Verif.Props.Ends
import Verif.Props.CfgEnds
import Verif.Props.CfgCommand
import Verif.Props.Relabel
import Verif.Props.Components
import Verif.Props.TsaCommand
import Verif.Props.Visits
import Verif.Props.VisitsEnd
import Verif.Props.ParseText
import Verif.Props.AutomatonCommand
import Verif.Props.CsCycles
import Verif.Props.CsLong
import Verif.Props.CsAny
import Verif.Props.CsCommandAny
import Verif.Tests.Csparsing
import Verif.Tests.Lcfrs
import Verif.Tests.Pmcfg
import Verif.Tests.Text
import Verif.Tests.Automata
import Verif.Tests.Recognise
import Verif.Props.Panics
import Verif.Props.CsExtract
import Verif.Props.CsEnds
import Verif.Props.CsExtractCycles
import Verif.Props.Rounding
import Verif.Props.Nested
import Verif.Props.CsStream
import Verif.Tests.CsStream
import Verif.Props.CsCommandStream
import Verif.Spec.CsCow
import Verif.Proofs.CsCowDeriv
import Verif.Props.CsCow
import Verif.Spec.ImportReads
import Verif.Proofs.ImportReads
import Verif.Props.ImportReads
import Verif.Model.Serde
import Verif.Props.Serde
import Verif.Spec.LcfrsNew
import Verif.Props.LcfrsNew
import Verif.Spec.Split
import Verif.Props.CfgArbitrary
import Verif.Model.MapNonterminals
import Verif.Props.MapNonterminals
import Verif.Proofs.Beam
import Verif.Props.Beam
import Verif.Spec.Unique
import Verif.Props.Unique
import Verif.Model.BracketText
import Verif.Props.BracketText
import Verif.Proofs.AnyWeights
import Verif.Props.AnyWeights
import Verif.Props.RoundedParser
import Verif.Spec.RoundedWeight
import Verif.Props.RoundedAll
import Verif.Spec.DerivationCost
import Verif.Proofs.CsKBestNear
import Verif.Proofs.TreeCost
import Verif.Proofs.CsNear
import Verif.Props.CsNear
import Verif.Model.RoundedFactorize
import Verif.Props.CsNearBest
import Verif.Props.CsCommandRounded

import Verif.Props.Trailing
import Verif.Model.EngMain
import Verif.Model.EngStart
import Verif.Model.EngEnd
import Verif.Model.EngTemplate
import Verif.Model.EngRaw
import Verif.Model.EngText
import Verif.Model.EngTree
import Verif.Model.EngAttrs
import Verif.Model.EngState
import Verif.Model.EngConst
import Verif.Model.Py
import Verif.Lemmas.Py
import Verif.Lemmas.Entities
import Verif.Lemmas.Numeric
import Verif.Props.Escape
import Verif.Model.Markup
import Verif.Spec.Tokenizer
import Verif.Props.Markup
import Verif.Props.RawText
import Verif.Props.StartTag
import Verif.Props.Serialize
import Verif.Model.Stream
import Verif.Spec.Events
import Verif.Props.Stream
import Verif.Props.Glob
import Verif.Props.TextOps
import Verif.Props.Markdown
import Verif.Props.Policy
import Verif.Props.Url
import Verif.Props.UrlList
import Verif.Props.Css
import Verif.Props.Encoding
import Verif.Props.SanMain
import Verif.Props.SanClean
import Verif.Props.SanDrop
import Verif.Props.SanText
import Verif.Props.SanOrigin
import Verif.Props.SanRel
import Verif.Props.SanKeep
import Verif.Props.SanRaw
import Verif.Props.SanIdem
import Verif.Props.UrlIdem
import Verif.Props.AttrIdem
import Verif.Props.Idempotent
import Verif.Model.OpenStack
import Verif.Props.OpenStack
import Verif.Props.DomForest
import Verif.Props.DomEffect
import Verif.Props.DomClone
import Verif.Props.Selector
import Verif.Props.SelLimits
import Verif.Props.SelOrder
import Verif.Props.SelSyntax
import Verif.Props.Linkify
import Verif.Props.LinkWalk
import Verif.Props.LinkValid
import Verif.Props.LinkHost
import Verif.Props.LinkFound
import Verif.Props.Pretty
import Verif.Props.EngFails
import Verif.Props.EngNodes
import Verif.Props.EngProgress
import Verif.Props.EngSafe
import Verif.Props.EngUrl
import Verif.Props.EngLinks
import Verif.Lemmas.EngFinal
import Verif.Props.EngInvent
import Verif.Props.EngRound
import Verif.Props.EngUrlIdem
import Verif.Props.EngRoundSafe
import Verif.Props.EngVisible
import Verif.Lemmas.EngFlowOps
import Verif.Props.Transforms
import Verif.Props.TransNodes
import Verif.Props.TransAttrs
import Verif.Props.Prune
import Verif.Props.Collapse
import Verif.Props.Pipeline
import Verif.Props.Stages
import Verif.Props.SafePipe
import Verif.Props.BlockText
import Verif.Props.Removing
import Verif.Spec.Removing
import Verif.Props.Fences
import Verif.Props.EngTree
import Verif.Props.Builder
import Verif.Props.CleanUrl
import Verif.Props.Context
import Verif.Model.Report
import Verif.Spec.Report
import Verif.Props.SanReport
import Verif.Props.Report
import Verif.Props.ReportQuiet
import Verif.Props.ReportTrue
import Verif.Props.ReportGaps
import Verif.Model.Errors
import Verif.Spec.Errors
import Verif.Lemmas.ErrScan
import Verif.Lemmas.ErrWhere
import Verif.Lemmas.ErrWritten
import Verif.Props.Errors
import Verif.Props.Reuse
import Verif.Spec.Reuse
import Verif.Lemmas.Reuse
import Verif.Model.Reuse
import Verif.Spec.Construct
import Verif.Model.Construct
import Verif.Lemmas.EngRootKeep
import Verif.Props.Construct
import Verif.Model.Cli
import Verif.Spec.Cli
import Verif.Props.Cli
import Verif.Spec.Reparse
import Verif.Props.Reparse
import Verif.Props.ReparseAttrs
import Verif.Props.Proxy
import Verif.Props.EngBatch
import Verif.Props.MdBlocks
import Verif.Props.MdWords

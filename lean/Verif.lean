import Verif.Props.Parser
import Verif.Props.Surface
import Verif.Props.Crlf
import Verif.Props.Content
import Verif.Props.Section
import Verif.Props.Load
import Verif.Props.Calls
import Verif.Props.Titles
import Verif.Props.Collect
import Verif.Props.Safe
import Verif.Props.Cache
import Verif.Props.Lazy
import Verif.Props.Output
import Verif.Props.Server
import Verif.Props.Templates
import Verif.Props.Serve
import Verif.Props.Outline
import Verif.Props.Prose
import Verif.Props.Errors
import Verif.Props.Chroma
import Verif.Props.Origin
import Verif.Props.Html
import Verif.Props.Looks
import Verif.Props.Renders
import Verif.Props.Json
import Verif.Props.Build
import Verif.Props.TextEngine
import Verif.Props.Answers
import Verif.Props.ErrorPage
import Verif.Props.SameTime
import Verif.Props.Shipped
import Verif.Props.Custom
import Verif.Props.Command
import Verif.Props.Fragment
import Verif.Props.Dev
import Verif.Props.Memo
import Verif.Props.Reload
import Verif.Props.Requests
import Verif.Props.SplitTree
import Verif.Props.Chain
import Verif.Props.Manuscript
import Verif.Props.MsIndex
import Verif.Props.Placeholders
import Verif.Props.Positions
import Verif.Props.Includes
import Verif.Props.MsFiles
import Verif.Props.Bytes
import Verif.Props.Expect
import Verif.Props.MsServer
import Verif.Props.MsTyped
import Verif.Props.MsRefs
import Verif.Props.MsLetters
import Verif.Props.MsShown
import Verif.Props.DocsSite
import Verif.Props.DocsPlugin
import Verif.Props.DocsSections
import Verif.Props.ContentExact
import Verif.Props.MsGrow
import Verif.Props.CallsAt
import Verif.Props.TemplateText
import Verif.Props.MsIndexEdit
import Verif.Props.MsRetitle
import Verif.Props.Suggest
import Verif.Props.SectionTag
import Verif.Props.Overwritten
import Verif.Props.SplitCalls
import Verif.Props.Below
import Verif.Props.DocsLit
import Verif.Props.Lexer
import Verif.Props.TmplLaws
import Verif.Props.DocsCode
import Verif.Props.Attributes

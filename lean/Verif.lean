import Verif.Props.Grep
import Verif.Props.Search
import Verif.Props.RegexpQuery
import Verif.Props.Sparse
import Verif.Props.Coding
import Verif.Props.BufferedIO
import Verif.Props.SortPost
import Verif.Props.Index
import Verif.Props.Searcher
import Verif.Props.Startup
import Verif.Props.Indexers
import Verif.Props.Matcher
import Verif.Props.ByteProg
import Verif.Props.Complete
import Verif.Props.Literal
import Verif.Props.TextFile
import Verif.Props.Walk
import Verif.Props.Api
import Verif.Props.Config
import Verif.Props.Web
import Verif.Props.Coalesce
import Verif.Props.Client
import Verif.Props.Vcs
import Verif.Props.Signal
import Verif.Props.Paging
import Verif.Props.Merge
import Verif.Props.UiLines
import Verif.Props.UiHtml
import Verif.Props.UrlQuery
import Verif.Props.UiUrl
import Verif.Props.UiLink
import Verif.Props.UiSession
import Verif.Props.UiRepos
import Verif.Props.Answer
import Verif.Props.GoCompile
import Verif.Props.PageStart
import Verif.Props.Excluded
import Verif.Props.GrepReader
import Verif.Props.HoundConf
import Verif.Props.HoundCmd
import Verif.Props.Shutdown
import Verif.Props.ConfigFile
import Verif.Props.WorkDir
import Verif.Props.Routes
import Verif.Props.OpenSearch
import Verif.Props.Notify
import Verif.Props.Pattern
import Verif.Props.Printed
import Verif.Props.OnPage
import Verif.Props.FileFilter
import Verif.Props.UiRepoList
import Verif.Props.UiBoxes
import Verif.Props.UiPanel
import Verif.Props.UiNumber
import Verif.Props.LiteralPage
import Verif.Props.Current
import Verif.Props.Restart
import Verif.Props.Words
import Verif.Props.FileByFile
import Verif.Props.Answered
import Verif.Props.Cost
import Verif.Props.Ansi
import Verif.Props.Fair
import Verif.Props.FairCases
import Verif.Props.FairSearch
import Verif.Props.Found
import Verif.Props.FoundPattern
import Verif.Props.Nodes
import Verif.Props.Race
import Verif.Props.LockWait
import Verif.Props.Fan
import Verif.Props.MakeAll
import Verif.Props.DevUi
import Verif.Props.Gate
import Verif.Props.CmdLine
import Verif.Props.Typed
import Verif.Props.Mmap
import Verif.Props.MmapWin

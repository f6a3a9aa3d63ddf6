import Verif.Model.Index
import Verif.Model.Repo
import Verif.Props.Analyze
import Verif.Props.Bare
import Verif.Props.Index
import Verif.Props.Search
import Verif.Props.SearchExact
import Verif.Props.Hash
import Verif.Props.Repo
import Verif.Props.IndexHeap
import Verif.Props.Stemmer
import Verif.Props.Json
import Verif.Props.JsonExact
import Verif.Props.JsonText
import Verif.Props.Conc
import Verif.Props.ConcData
import Verif.Props.ConcAtomic
import Verif.Props.Goroutines
import Verif.Props.Fine
import Verif.Props.FineMore
import Verif.Props.FineContents
import Verif.Props.FineRender
import Verif.Props.Render
import Verif.Props.Suite
import Verif.Props.Complete
import Verif.Props.Origin
import Verif.Props.RepoExact
import Verif.Props.Sort
import Verif.Props.Recover
import Verif.Props.Ask
import Verif.Props.EndToEnd
import Verif.Props.Reach
import Verif.Props.RepoIndex
import Verif.Props.Rows
import Verif.Props.Snapshot
import Verif.Props.Contents
import Verif.Props.RaceGuard
import Verif.Props.NoInvalid
import Verif.Props.Methods
import Verif.Props.Reenter
import Verif.Props.JsonEasy
import Verif.Props.LinearMem
import Verif.Props.StemmerMem
import Verif.Props.AnalyzeMem
import Verif.Props.Fair
import Verif.Props.PutCost
import Verif.Props.Twins
import Verif.Props.OneMoment
import Verif.Props.RestState
import Verif.Props.States
import Verif.Props.RowReads
import Verif.Props.Realised
import Verif.Props.OneMomentSets
import Verif.Props.SameContents
import Verif.Props.HappensBefore
import Verif.Props.GoroutineOrder
import Verif.Props.Indexer
import Verif.Props.AnyIndex
import Verif.Props.Width
import Verif.Props.Copies
import Verif.Props.UserPanic
import Verif.Props.Save
import Verif.Props.Request
import Verif.Props.OpenIndex
import Verif.Props.EveryConfig
import Verif.Props.EveryRows
import Verif.Props.EveryRefuted
import Verif.Props.FineLinear
import Verif.Props.FineResults
import Verif.Props.FineRest

import Verif.Util.OMap
import Verif.Util.Walk
import Verif.SymbolTable.Props
import Verif.Anno.Props
import Verif.DiskMap.Props
import Verif.Keys.Props
import Verif.OnDisk.Props
import Verif.Dfs.Props
import Verif.Util.Bnd
import Verif.Gs.SourceLemmas
import Verif.Adj.Props
import Verif.Util.Forest
import Verif.Gs.AdjSource
import Verif.Adj.Copy
import Verif.Linear.Props
import Verif.PrePost.Props
import Verif.Gs.DfsQuery
import Verif.Single.Props
import Verif.DiskAdj.Props
import Verif.Registry.Props
import Verif.Union.Props
import Verif.Update.Props
import Verif.Graph.Props
import Verif.Persist.Props
import Verif.Text.Props
import Verif.Regex.Props
import Verif.GraphML.Props
import Verif.Sort.CompareProps
import Verif.Find.Props
import Verif.Exec.ParallelProps
import Verif.Query.PlanOrder
import Verif.Query.Tree
import Verif.Op.GStore
import Verif.Op.Text
import Verif.Op.TextProps
import Verif.Sort.PermProps
import Verif.Token.Model
import Verif.Token.Props
import Verif.Token.Sorted
import Verif.Op.OverlapProps
import Verif.Op.Edge
import Verif.Op.EdgeProps
import Verif.Sort.Congr
import Verif.Index.Model
import Verif.Index.Lemmas
import Verif.Index.Spec
import Verif.Index.Loop
import Verif.Index.Reindex
import Verif.Index.Props
import Verif.Index.Check
import Verif.Index.Examples
import Verif.Storage.Model
import Verif.Storage.Spec
import Verif.Storage.Lemmas
import Verif.Storage.Props
import Verif.Storage.Conc
import Verif.Storage.Drop
import Verif.Subgraph.Model
import Verif.Subgraph.Window
import Verif.Subgraph.Seg
import Verif.Subgraph.Extract
import Verif.Subgraph.Gap
import Verif.Subgraph.Props
import Verif.Subgraph.Examples
import Verif.Locks.Model
import Verif.Locks.Lemmas
import Verif.Locks.Props
import Verif.Locks.Examples
import Verif.Import.Model
import Verif.Import.Props
import Verif.Import.Links
import Verif.NodeSearch.Model
import Verif.NodeSearch.Props
import Verif.NodeSearch.PartOf
import Verif.NodeSearch.Optional
import Verif.NodeSearch.Examples
import Verif.Aql.Model
import Verif.Aql.Spec
import Verif.Aql.Lemmas
import Verif.Aql.Props
import Verif.Aql.Whole
import Verif.Aql.Examples
import Verif.Web.Model
import Verif.Web.Props
import Verif.Web.Jobs
import Verif.Web.Files
import Verif.Web.Examples
import Verif.Load.Model
import Verif.Load.Props
import Verif.Load.Save
import Verif.Load.Examples
import Verif.Rel.Tab
import Verif.Rel.Rows
import Verif.Rel.Model
import Verif.Rel.Events
import Verif.Rel.Corpus
import Verif.Rel.Graph
import Verif.Rel.Order
import Verif.Rel.Texts
import Verif.Rel.Struct
import Verif.Rel.Names
import Verif.Rel.Examples
import Verif.Rel.Rank
import Verif.Rel.Cover
import Verif.Rel.Space
import Verif.Rel.Labels
import Verif.Rel.LabelExamples
import Verif.Util.Utf8
import Verif.Rel.KeyOrder
import Verif.Rel.Config
import Verif.Rel.Properties
import Verif.Rel.VisRows
import Verif.Est.Model
import Verif.Est.Lemmas
import Verif.Est.Props
import Verif.Est.Examples
import Verif.Est.Store
import Verif.Est.Stats
import Verif.Est.Cost
import Verif.Parse.LexProps
import Verif.Parse.Props
import Verif.Parse.Values
import Verif.Parse.Leaves
import Verif.Query.JoinOrder
import Verif.Import.Zip
import Verif.Import.ZipEx
import Verif.Token.Size
import Verif.Whole.Model
import Verif.Whole.Props
import Verif.Whole.Examples
import Verif.Whole.Tree
import Verif.Whole.TreeEx
import Verif.Capi.Model
import Verif.Capi.Strings
import Verif.Capi.Errors
import Verif.Parse.Alternatives
import Verif.Answer.Model
import Verif.Answer.Props
import Verif.Answer.Ops
import Verif.Answer.Trans
import Verif.Answer.Rows
import Verif.Answer.Main
import Verif.Answer.Examples
import Verif.Answer.Find
import Verif.Answer.FindLemmas
import Verif.Answer.FindProps
import Verif.Answer.FindEx
import Verif.Answer.Graph
import Verif.Answer.GraphProps
import Verif.Answer.GraphEx
import Verif.Cli.Model
import Verif.Cli.Settings
import Verif.Cli.Selection
import Verif.Cli.Completion
import Verif.Cli.Examples
import Verif.GsFiles.Examples
import Verif.Storage.Listing
import Verif.Storage.ListingProps
import Verif.Storage.ListingEx
import Verif.Answer.Describe
import Verif.Answer.DescribeEx
import Verif.Timeout.Model
import Verif.Timeout.Exec
import Verif.Timeout.Consume
import Verif.Timeout.Prompt
import Verif.Timeout.Props
import Verif.Timeout.Examples
import Verif.Query.Replaced
import Verif.Whole.Replace
import Verif.Whole.ReplaceEx
import Verif.Updated.Made
import Verif.Updated.Corpus
import Verif.Updated.Names
import Verif.Updated.Props
import Verif.Updated.Examples
import Verif.Answer.SegEx
import Verif.Queried.Rows
import Verif.Queried.History
import Verif.Queried.Props
import Verif.Queried.Examples
import Verif.Exported.Model
import Verif.Exported.Doc
import Verif.Exported.History
import Verif.Exported.Props
import Verif.Exported.Examples
import Verif.Info.Model
import Verif.Info.Props
import Verif.Info.Examples
import Verif.Web.Status
import Verif.Web.StatusExamples
import Verif.Text.Location
import Verif.LockFile.Props
import Verif.LockFile.Examples
import Verif.Settings.Props
import Verif.Settings.Examples
import Verif.Settings.Tokens
import Verif.Explain.Model
import Verif.Explain.Props
import Verif.Explain.Query
import Verif.Explain.Plan
import Verif.Explain.Examples
import Verif.Explain.Fragment
import Verif.Explain.Whole

import Verif.Proofs.Base
import Verif.Props.NBest
import Verif.Props.SetOps
import Verif.Props.WidCode
import Verif.Props.RiceCode
import Verif.Props.Field
import Verif.Props.Keyword
import Verif.Props.Topic
import Verif.Props.Snapshot
import Verif.Props.Lexicon
import Verif.Props.Query
import Verif.Props.TextIndex
import Verif.Props.TextSearch
import Verif.Props.ScoreLoop
import Verif.Props.TextScores
import Verif.Props.Wildcards
import Verif.Props.WordFound
import Verif.Props.Alias
import Verif.Props.Reject
import Verif.Props.Legacy
import Verif.Props.Txn
import Verif.Props.TxnText
import Verif.Props.Stored
import Verif.Props.SharedLexicon
import Verif.Props.Rounding
import Verif.Props.HtmlFound
import Verif.Props.Compose
import Verif.Props.Ranking
import Verif.Props.TxnTopic
import Verif.Props.SortGen
import Verif.Props.TxnClear
import Verif.Props.TxnAlone
import Verif.Props.ComposeScores
import Verif.Props.StopWords
import Verif.Props.Stack
import Verif.Props.Quoted
import Verif.Props.QuotedWild
import Verif.Props.OkaScore
import Verif.Props.ParserObj
import Verif.Props.SearchSort
import Verif.Props.Serial
import Verif.Props.TxnReplace
import Verif.Props.TxnContend
import Verif.Props.QueryErrors
import Verif.Props.QueryAlgebra
import Verif.Props.Apart
import Verif.Props.Writing
import Verif.Props.Rename
import Verif.Props.StoredSets
import Verif.Props.Catalog
import Verif.Props.Values
import Verif.Props.Formula
import Verif.Props.TxnClearReplace
import Verif.Props.RejectedText
import Verif.Props.Cleared
import Verif.Props.OneWord

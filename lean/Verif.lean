import Verif.Model.BpeEncode
import Verif.Spec.Bpe
import Verif.Proofs.Str
import Verif.Proofs.BpeEncode
import Verif.Props.BpeEncode
import Verif.Model.BpeLearn
import Verif.Proofs.BpeCore
import Verif.Spec.Counter
import Verif.Proofs.PriorityCounter
import Verif.Spec.BpeLearn
import Verif.Proofs.BpeLearn
import Verif.Model.BpeLearner
import Verif.Proofs.BpeLearnMore
import Verif.Props.BpeLearn
import Verif.Props.PriorityCounter
import Verif.Props.BpeResume
import Verif.Model.Literal
import Verif.Model.Files
import Verif.Proofs.Literal
import Verif.Proofs.Files
import Verif.Props.Files
import Verif.Model.Unicode
import Verif.Model.NonEng
import Verif.Model.Tokens
import Verif.Model.PrepConfig
import Verif.Model.Iterators
import Verif.Spec.Meta
import Verif.Spec.Config
import Verif.Spec.Tokens
import Verif.Proofs.Repr
import Verif.Proofs.Iterators
import Verif.Proofs.PrepConfig
import Verif.Proofs.ReprTotal
import Verif.Proofs.Units
import Verif.Props.Preprocess
import Verif.Model.Api
import Verif.Spec.Api
import Verif.Proofs.Congr
import Verif.Props.Config
import Verif.Spec.Marks
import Verif.Proofs.Marks
import Verif.Props.Marks
import Verif.Spec.Options
import Verif.Props.Options
import Verif.Model.Regex
import Verif.Model.Parse
import Verif.Model.Text
import Verif.Spec.Number
import Verif.Spec.Parse
import Verif.Spec.Dispatch
import Verif.Spec.Decode
import Verif.Proofs.Parse
import Verif.Proofs.ParseTok
import Verif.Proofs.Regex
import Verif.Proofs.ParseText
import Verif.Proofs.Dispatch
import Verif.Props.Parse
import Verif.Props.Basic
import Verif.Props.Strings
import Verif.Spec.Case
import Verif.Proofs.Case
import Verif.Props.Case
import Verif.Model.Vocab
import Verif.Spec.Vocab
import Verif.Proofs.Vocab
import Verif.Props.Vocab
import Verif.Model.VocabMerge
import Verif.Proofs.VocabDir
import Verif.Proofs.VocabStep
import Verif.Proofs.VocabRun
import Verif.Proofs.VocabInv
import Verif.Proofs.VocabStart
import Verif.Proofs.VocabProgress
import Verif.Proofs.VocabWorld
import Verif.Proofs.VocabGood
import Verif.Spec.Exec
import Verif.Spec.VocabExec
import Verif.Spec.VocabStats
import Verif.Proofs.VocabExec
import Verif.Proofs.VocabStats
import Verif.Props.VocabMerge
import Verif.Model.FileList
import Verif.Spec.FileList
import Verif.Proofs.FileList
import Verif.Proofs.FileSelect
import Verif.Props.FileList
import Verif.Model.Registry
import Verif.Spec.Registry
import Verif.Proofs.Registry
import Verif.Proofs.IdPattern
import Verif.Props.Registry
import Verif.Props.NewId
import Verif.Spec.DirNames
import Verif.Proofs.DirNames
import Verif.Props.DirNames
import Verif.Model.Workers
import Verif.Spec.Workers
import Verif.Proofs.Workers
import Verif.Proofs.WorkersProgress
import Verif.Proofs.WorkersNames
import Verif.Props.Workers
import Verif.Model.Gather
import Verif.Spec.Gather
import Verif.Proofs.Gather
import Verif.Props.Gather
import Verif.Model.BpeState
import Verif.Spec.BpeState
import Verif.Props.BpeState
import Verif.Spec.NoUnicode
import Verif.Proofs.NoUnicode
import Verif.Props.NoUnicode
import Verif.Model.CorpusSize
import Verif.Props.CorpusSize
import Verif.Model.Stages
import Verif.Spec.Stages
import Verif.Proofs.Stages
import Verif.Props.Stages
import Verif.Spec.Reference
import Verif.Proofs.Reference
import Verif.Props.Reference
import Verif.Model.WildBpe
import Verif.Spec.WildBpe
import Verif.Proofs.WildSeg
import Verif.Proofs.WildLists
import Verif.Proofs.WildKeys
import Verif.Proofs.WildQueue
import Verif.Proofs.WildLoc
import Verif.Proofs.WildLoops
import Verif.Proofs.WildIndex
import Verif.Proofs.WildUpdate
import Verif.Proofs.WildNb
import Verif.Proofs.WildNbUpdate
import Verif.Proofs.WildRun
import Verif.Proofs.WildInit
import Verif.Props.WildBpe
import Verif.Spec.Escapes
import Verif.Proofs.Escapes
import Verif.Props.Escapes
import Verif.Model.LearnDisk
import Verif.Spec.LearnDisk
import Verif.Proofs.LearnDisk
import Verif.Props.LearnDisk
import Verif.Model.Corpus
import Verif.Spec.Corpus
import Verif.Proofs.Corpus
import Verif.Proofs.CorpusProgress
import Verif.Props.Corpus
import Verif.Model.Cli
import Verif.Spec.Cli
import Verif.Props.Cli
import Verif.Props.CliLearn
import Verif.Model.SharedCounter
import Verif.Spec.SharedCounter
import Verif.Props.SharedCounter
import Verif.Model.Wear
import Verif.Spec.Wear
import Verif.Proofs.Wear
import Verif.Props.Wear
import Verif.Model.Overlap
import Verif.Spec.Overlap
import Verif.Proofs.Overlap
import Verif.Props.Overlap
import Verif.Props.Missing
import Verif.Model.Compare
import Verif.Props.Compare
import Verif.Model.Source
import Verif.Spec.Source
import Verif.Proofs.Source
import Verif.Props.Source
import Verif.Spec.Solid
import Verif.Proofs.Solid
import Verif.Props.Solid
import Verif.Spec.LearnText
import Verif.Proofs.Recorded
import Verif.Props.LearnText
import Verif.Model.VocabLoader
import Verif.Spec.VocabLoader
import Verif.Proofs.VocabLoader
import Verif.Props.VocabLoader
import Verif.Props.Refused
import Verif.Spec.LeftOver
import Verif.Proofs.LeftOver
import Verif.Props.LeftOver
import Verif.Model.Print
import Verif.Spec.Print
import Verif.Props.Print
import Verif.Model.Walk
import Verif.Spec.Walk
import Verif.Proofs.Walk
import Verif.Props.Walk
import Verif.Model.Learners
import Verif.Spec.Learners
import Verif.Props.Learners
import Verif.Model.Docopt
import Verif.Spec.Docopt
import Verif.Proofs.DocoptArgv
import Verif.Proofs.DocoptRun
import Verif.Proofs.DocoptFound
import Verif.Proofs.DocoptCmd
import Verif.Props.Docopt
import Verif.Model.Whole
import Verif.Props.Whole
import Verif.Spec.BytesLit
import Verif.Props.BytesLit
import Verif.Props.Shell
import Verif.Model.UserCodes
import Verif.Spec.UserCodes
import Verif.Proofs.Gathered
import Verif.Props.UserCodes
import Verif.Props.EndToEnd
import Verif.Props.LearnDirs
import Verif.Spec.Breaks
import Verif.Proofs.Breaks
import Verif.Props.Breaks
import Verif.Spec.AnyText
import Verif.Proofs.AnyText
import Verif.Props.AnyText
import Verif.Model.MetaObj
import Verif.Spec.MetaObj
import Verif.Props.MetaObj
import Verif.Spec.Closed
import Verif.Proofs.Closed
import Verif.Props.Closed
import Verif.Model.MergeObj
import Verif.Spec.MergeObj
import Verif.Props.MergeObj
import Verif.Props.MergeText
import Verif.Props.MergeTextDisk
import Verif.Props.ClosedLearnt
import Verif.Model.ObjSize
import Verif.Spec.ObjSize
import Verif.Proofs.ObjSize
import Verif.Props.ObjSize
import Verif.Props.Modes
import Verif.Props.WildStats
import Verif.Model.Live
import Verif.Spec.Live
import Verif.Proofs.Live
import Verif.Props.Live
import Verif.Model.Abort
import Verif.Spec.Abort
import Verif.Proofs.Abort
import Verif.Props.Abort
import Verif.Spec.Fewer
import Verif.Proofs.Fewer
import Verif.Props.Fewer
import Verif.Spec.Parts
import Verif.Proofs.Parts
import Verif.Props.Parts
import Verif.Spec.Ties
import Verif.Proofs.Ties
import Verif.Props.Ties
import Verif.Spec.Made
import Verif.Proofs.Made
import Verif.Props.Made
import Verif.Spec.Resplit
import Verif.Proofs.Resplit
import Verif.Props.Resplit
import Verif.Spec.WholeFile
import Verif.Proofs.WholeFile
import Verif.Props.WholeFile
import Verif.Spec.Saves
import Verif.Proofs.Saves
import Verif.Props.Saves
import Verif.Spec.Lookups
import Verif.Props.Lookups
import Verif.Spec.Total
import Verif.Proofs.Total
import Verif.Props.Total
import Verif.Spec.Occurs
import Verif.Proofs.Occurs
import Verif.Props.Occurs
import Verif.Spec.Rename
import Verif.Proofs.Rename
import Verif.Props.Rename
import Verif.Props.OccursText
import Verif.Model.EncodeDict
import Verif.Spec.EncodeDict
import Verif.Proofs.EncodeDict
import Verif.Props.EncodeDict
import Verif.Model.WildPairs
import Verif.Model.SharedSet
import Verif.Props.WildPairs
import Verif.Props.SharedSet
import Verif.Props.EncodeLearnt
import Verif.Props.AllWords
import Verif.Props.TokenCount
import Verif.Proofs.Scale
import Verif.Props.Scale
import Verif.Props.ScaleVocab
import Verif.Props.Kept
import Verif.Props.Alphabets
import Verif.Props.Order
import Verif.Props.OrderFile
import Verif.Props.LongLiterals

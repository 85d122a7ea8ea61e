import Verif.Model.Tools
import Verif.Model.Trace
import Verif.Spec.Deflate
import Verif.Spec.Faults
import Verif.Lemmas.CodeTree
import Verif.Lemmas.Huffman
import Verif.Props.Bits
import Verif.Props.Huffman
import Verif.Props.Parse
import Verif.Props.Serialise
import Verif.Props.Circles
import Verif.Props.CirclesEdge
import Verif.Props.CodeTreeAny
import Verif.Props.SerialiseTrace
import Verif.Lemmas.AllRefs
import Verif.Props.AllRefs
import Verif.Props.Technique
import Verif.Props.Trace
import Verif.Props.Gzip
import Verif.Props.Cat
import Verif.Props.Filter
import Verif.Props.Zero
import Verif.Props.EndToEnd
import Verif.Props.Lengths
import Verif.Props.Guess
import Verif.Props.Finish
import Verif.Model.Dump
import Verif.Spec.Dump
import Verif.Spec.Restore
import Verif.Props.Compact
import Verif.Props.Restore
import Verif.Props.Dump
import Verif.Props.Stream
import Verif.Props.Writer
import Verif.Props.ZeroTool
import Verif.Spec.GzipFile
import Verif.Props.GzipFile
import Verif.Model.Drivers
import Verif.Props.Drivers
import Verif.Spec.FileTrace
import Verif.Props.FileTrace
import Verif.Props.Own
import Verif.Model.TraceExample
import Verif.Model.TraceText
import Verif.Model.Quote
import Verif.Spec.TraceExample
import Verif.Spec.TraceText
import Verif.Spec.Quote
import Verif.Props.TraceExample
import Verif.Props.TraceText
import Verif.Props.Quote
import Verif.Props.Window
import Verif.Props.Rsync
import Verif.Props.TraceAny
import Verif.Model.Fuzz
import Verif.Props.Fuzz
import Verif.Spec.Sticky
import Verif.Props.Sticky
import Verif.Props.Drain
import Verif.Props.Complain
import Verif.Model.Reader
import Verif.Model.Writer
import Verif.Lemmas.Reader
import Verif.Lemmas.WriterOn
import Verif.Props.Reader
import Verif.Props.WriterOn
import Verif.Model.Debug
import Verif.Props.Debug
import Verif.Model.Collisions
import Verif.Props.Collisions
import Verif.Props.Normal
import Verif.Props.RepoTests
import Verif.Spec.Document
import Verif.Props.Document
import Verif.Model.Hard
import Verif.Props.Hard
import Verif.Model.Main
import Verif.Props.Main
import Verif.Model.Release
import Verif.Props.Release
import Verif.Model.CollisionsOutput
import Verif.Props.Edges
import Verif.Props.Runs
import Verif.Model.Stdout
import Verif.Lemmas.Stdout
import Verif.Props.Stdout
import Verif.Lemmas.ZeroFailing
import Verif.Props.ZeroFailing
import Verif.Props.ZeroWide
import Verif.Props.StickyText
import Verif.Spec.RefRestore
import Verif.Props.RestoreExact
import Verif.Spec.AnyConfig
import Verif.Lemmas.AnyConfig
import Verif.Props.AnyConfig
import Verif.Spec.TraceFormat
import Verif.Props.TraceFormat
import Verif.Lemmas.Stable
import Verif.Lemmas.HeaderErrors
import Verif.Props.Errors
import Verif.Lemmas.Faults
import Verif.Props.Faults
import Verif.Spec.GzipDeflate
import Verif.Lemmas.GzipDeflate
import Verif.Props.GzipDeflate
import Verif.Props.GzipFiles
import Verif.Lemmas.GzipLazy
import Verif.Props.GzipLazy
import Verif.Lemmas.Cut
import Verif.Props.Cut
import Verif.Props.CutReach
import Verif.Props.Beginning

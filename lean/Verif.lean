import Verif.Base
import Verif.Unicode
import Verif.Common
import Verif.Normalizer
import Verif.PreTokenizer
import Verif.WordPiece
import Verif.BPE
import Verif.Utils
import Verif.PostProcessor
import Verif.Decoder
import Verif.AddedVocabulary
import Verif.Tokenizer
import Verif.Config
import Verif.Sample
import Verif.Examples
import Verif.Props.Unicode
import Verif.Props.Split
import Verif.Props.Bert
import Verif.Props.ByteLevel
import Verif.Props.PreTokenizer
import Verif.Props.WordPiece
import Verif.Props.Utils
import Verif.Props.PostProcessor
import Verif.Props.BPE
import Verif.Props.Added
import Verif.Props.Extract
import Verif.Props.Decoder
import Verif.Props.Sequences
import Verif.Props.Normalizer
import Verif.Props.Encoding
import Verif.Props.Located
import Verif.Props.Independent
import Verif.Props.Construct
import Verif.Props.Inputs
import Verif.Props.Config
import Verif.Props.Jni
import Verif.Props.Streaming
import Verif.Props.Decodable
import Verif.Spec.Total
import Verif.Proofs.Total
import Verif.Proofs.Total2
import Verif.Props.Total
import Verif.Spec.Traced
import Verif.Proofs.Traced
import Verif.Proofs.Traced2
import Verif.Proofs.Traced3
import Verif.Props.Traced
import Verif.Concurrent
import Verif.Spec.Concurrent
import Verif.Proofs.Concurrent
import Verif.Proofs.Race
import Verif.Props.Concurrent
import Verif.Spec.Roundtrip
import Verif.Proofs.Roundtrip
import Verif.Props.Roundtrip
import Verif.Proofs.Roundtrip2
import Verif.Props.Roundtrip2
import Verif.Props.Truncation
import Verif.Props.FixedSize
import Verif.Cli
import Verif.Spec.Cli
import Verif.Props.Cli
import Verif.Spec.Recognized
import Verif.Proofs.Recognized
import Verif.Props.Recognized
import Verif.Spec.Merging
import Verif.Proofs.Merging
import Verif.Props.Merging
import Verif.Spec.Ordered
import Verif.Proofs.Ordered
import Verif.Props.Ordered
import Verif.Spec.Order
import Verif.Proofs.Order
import Verif.Props.Order
import Verif.Spec.Room
import Verif.Spec.Replace
import Verif.Proofs.Room
import Verif.Proofs.Room2
import Verif.Props.Room
import Verif.Props.Replace
import Verif.Props.Metaspace
import Verif.Spec.Truncation
import Verif.Props.TruncationAll
import Verif.Props.BPEAll
import Verif.Props.Outcome
import Verif.Props.ByteLevelAll
import Verif.Spec.Accents
import Verif.Proofs.Accents
import Verif.Props.Accents
import Verif.Spec.Clean
import Verif.Proofs.Clean
import Verif.Props.Clean
import Verif.Java
import Verif.Spec.Java
import Verif.Props.Java
import Verif.Props.Fallback
import Verif.Props.WordPieceAll
import Verif.Spec.Numbering
import Verif.Props.Numbering
import Verif.Spec.Reference
import Verif.Props.Reference
import Verif.Spec.Normalized
import Verif.Props.Normalized
import Verif.Spec.Pipeline
import Verif.Props.Pipeline
import Verif.Spec.Rows
import Verif.Props.Rows
import Verif.Props.NoModel
import Verif.Spec.AnyText
import Verif.Proofs.AnyText
import Verif.Props.AnyText
import Verif.Spec.Places
import Verif.Props.Places
import Verif.Spec.Decoding
import Verif.Props.Decoding
import Verif.Spec.Alike
import Verif.Props.Alike
import Verif.Spec.Chunks
import Verif.Props.Chunks
import Verif.Spec.Count
import Verif.Props.Count
import Verif.Spec.WellFormed
import Verif.Props.WellFormed
import Verif.Spec.Batches
import Verif.Props.Batches
import Verif.Spec.Absent
import Verif.Props.Absent
import Verif.Spec.Throws
import Verif.Props.Throws
import Verif.Spec.Hangs
import Verif.Props.Hangs
import Verif.Spec.Flag
import Verif.Props.Flag
import Verif.Spec.Memory
import Verif.Props.Memory
import Verif.Spec.Pruned
import Verif.Props.Pruned
import Verif.Spec.Portable
import Verif.Props.Portable
import Verif.Spec.Blanks
import Verif.Props.Blanks
import Verif.Spec.Control
import Verif.Props.Control
import Verif.Spec.Documents
import Verif.Props.Documents
import Verif.Props.Foreign
import Verif.Spec.Again
import Verif.Props.Again
import Verif.Spec.Warm
import Verif.Props.Warm
import Verif.Spec.Settings
import Verif.Props.Settings
import Verif.Access
import Verif.Spec.Access
import Verif.Props.Access
import Verif.Spec.Failing
import Verif.Props.Failing
import Verif.Props.OrderedBert
import Verif.Props.Search
import Verif.Props.Apostrophe
import Verif.Spec.Bounds
import Verif.Props.Bounds
import Verif.Spec.Limits
import Verif.Props.Limits
import Verif.Spec.Rounds
import Verif.Props.Rounds
import Verif.Props.Returns
import Verif.Spec.Lengthens
import Verif.Proofs.Lengthens
import Verif.Props.Lengthens
import Verif.Spec.Applied
import Verif.Props.Applied
import Verif.Spec.Behind
import Verif.Props.Behind
import Verif.Props.Distinct
import Verif.Props.MetaspaceAny
import Verif.Props.Rules
import Verif.Props.Separate
import Verif.Props.Renumber
import Verif.Props.Options
import Verif.Props.Ranks
import Verif.Spec.AddOrder
import Verif.Props.AddOrder
import Verif.Spec.Watched
import Verif.Props.Watched
import Verif.Props.Found
import Verif.Props.AddAgain
import Verif.Props.Configured

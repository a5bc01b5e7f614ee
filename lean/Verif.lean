import Verif.Lemmas.Accept
import Verif.Lemmas.Address
import Verif.Lemmas.Alike
import Verif.Lemmas.Answers
import Verif.Lemmas.AnyTypes
import Verif.Lemmas.Api
import Verif.Lemmas.Attributes
import Verif.Lemmas.Blowup
import Verif.Lemmas.Bounded
import Verif.Lemmas.Breaks
import Verif.Lemmas.Built
import Verif.Lemmas.BuiltIn
import Verif.Lemmas.Bytes
import Verif.Lemmas.BytesText
import Verif.Lemmas.CallSpec
import Verif.Lemmas.Callable
import Verif.Lemmas.Calls
import Verif.Lemmas.Canonical
import Verif.Lemmas.Classes
import Verif.Lemmas.Codec
import Verif.Lemmas.CoderAttributes
import Verif.Lemmas.Complaints
import Verif.Lemmas.Compose
import Verif.Lemmas.Composed
import Verif.Lemmas.Concurrent
import Verif.Lemmas.Cost
import Verif.Lemmas.CostOut
import Verif.Lemmas.DecOf
import Verif.Lemmas.Decimal
import Verif.Lemmas.DecimalContext
import Verif.Lemmas.DecimalValue
import Verif.Lemmas.Declined
import Verif.Lemmas.Depth
import Verif.Lemmas.Differs
import Verif.Lemmas.Direct
import Verif.Lemmas.DirectEnc
import Verif.Lemmas.Draws
import Verif.Lemmas.EncCost
import Verif.Lemmas.EncOf
import Verif.Lemmas.Encode
import Verif.Lemmas.Entries
import Verif.Lemmas.Errors
import Verif.Lemmas.Fault
import Verif.Lemmas.Final
import Verif.Lemmas.Frames
import Verif.Lemmas.Grammar
import Verif.Lemmas.Heap
import Verif.Lemmas.Imported
import Verif.Lemmas.Layout
import Verif.Lemmas.Leading
import Verif.Lemmas.Leaf
import Verif.Lemmas.LeafDec
import Verif.Lemmas.LeafSpec
import Verif.Lemmas.Lengths
import Verif.Lemmas.Located
import Verif.Lemmas.Looked
import Verif.Lemmas.Lookup
import Verif.Lemmas.LookupNorm
import Verif.Lemmas.Lookups
import Verif.Lemmas.Mapping
import Verif.Lemmas.Meaning
import Verif.Lemmas.Messages
import Verif.Lemmas.Mirror
import Verif.Lemmas.Normalize
import Verif.Lemmas.Numeral
import Verif.Lemmas.OpenFrames
import Verif.Lemmas.Order
import Verif.Lemmas.Outcome
import Verif.Lemmas.Packed
import Verif.Lemmas.PackedMode
import Verif.Lemmas.ParseCache
import Verif.Lemmas.Parts
import Verif.Lemmas.Peg
import Verif.Lemmas.PegFailures
import Verif.Lemmas.PegTree
import Verif.Lemmas.Pieces
import Verif.Lemmas.Pointing
import Verif.Lemmas.PosDec
import Verif.Lemmas.PosTrouble
import Verif.Lemmas.Printable
import Verif.Lemmas.PyM
import Verif.Lemmas.Readers
import Verif.Lemmas.Reads
import Verif.Lemmas.ReadsFacts
import Verif.Lemmas.Recast
import Verif.Lemmas.Refilled
import Verif.Lemmas.Registered
import Verif.Lemmas.Residue
import Verif.Lemmas.Sampled
import Verif.Lemmas.Settings
import Verif.Lemmas.Shadow
import Verif.Lemmas.Shift
import Verif.Lemmas.SpecFacts
import Verif.Lemmas.Steps
import Verif.Lemmas.Strategies
import Verif.Lemmas.StrictOnly
import Verif.Lemmas.Strings
import Verif.Lemmas.Taken
import Verif.Lemmas.Text
import Verif.Lemmas.Texts
import Verif.Lemmas.ThreadAlone
import Verif.Lemmas.ThreadChanges
import Verif.Lemmas.ThreadFinish
import Verif.Lemmas.ThreadLookups
import Verif.Lemmas.ThreadSystem
import Verif.Lemmas.Threads
import Verif.Lemmas.ToPy
import Verif.Lemmas.TupleStr
import Verif.Lemmas.Turned
import Verif.Lemmas.Unroll
import Verif.Lemmas.UnrollRead
import Verif.Lemmas.Utf8
import Verif.Lemmas.Utf8Table
import Verif.Lemmas.Widen
import Verif.Lemmas.Wider
import Verif.Lemmas.World
import Verif.Model.AnyTypes
import Verif.Model.Base
import Verif.Model.Classes
import Verif.Model.Codec
import Verif.Model.Complaints
import Verif.Model.Concurrent
import Verif.Model.Cost
import Verif.Model.DecimalContext
import Verif.Model.Decoding
import Verif.Model.Direct
import Verif.Model.EncCost
import Verif.Model.Encoding
import Verif.Model.EthUtils
import Verif.Model.Frames
import Verif.Model.Grammar
import Verif.Model.Located
import Verif.Model.Lookups
import Verif.Model.Messages
import Verif.Model.Numeric
import Verif.Model.ParseCache
import Verif.Model.Parts
import Verif.Model.Peg
import Verif.Model.PegFailures
import Verif.Model.Pointing
import Verif.Model.Py
import Verif.Model.Registry
import Verif.Model.Settings
import Verif.Model.Strategies
import Verif.Model.Threads
import Verif.Model.World
import Verif.Props.Alike
import Verif.Props.Answers
import Verif.Props.AnyTypes
import Verif.Props.Appended
import Verif.Props.Arrays
import Verif.Props.Attributes
import Verif.Props.Breaks
import Verif.Props.Caching
import Verif.Props.Canonical
import Verif.Props.Classes
import Verif.Props.Complaints
import Verif.Props.Composed
import Verif.Props.Concurrent
import Verif.Props.Conformance
import Verif.Props.Cost
import Verif.Props.Custom
import Verif.Props.DecimalContext
import Verif.Props.Declined
import Verif.Props.Decode
import Verif.Props.Depth
import Verif.Props.Differs
import Verif.Props.Direct
import Verif.Props.EncWork
import Verif.Props.Encodable
import Verif.Props.Entries
import Verif.Props.Examples
import Verif.Props.Fault
import Verif.Props.Final
import Verif.Props.Frames
import Verif.Props.Grammar
import Verif.Props.Leading
import Verif.Props.Leaves
import Verif.Props.Lengths
import Verif.Props.Located
import Verif.Props.Looked
import Verif.Props.Lookups
import Verif.Props.Messages
import Verif.Props.Order
import Verif.Props.Packed
import Verif.Props.PackedMode
import Verif.Props.ParseCache
import Verif.Props.Parts
import Verif.Props.Peg
import Verif.Props.PegFailures
import Verif.Props.Pieces
import Verif.Props.Pointing
import Verif.Props.Readers
import Verif.Props.Recast
import Verif.Props.Registrations
import Verif.Props.RoundTrip
import Verif.Props.Sampled
import Verif.Props.Settings
import Verif.Props.Strategies
import Verif.Props.Taken
import Verif.Props.Text
import Verif.Props.Threads
import Verif.Props.Turned
import Verif.Props.Utf8
import Verif.Props.Utils
import Verif.Props.Wider
import Verif.Props.Work
import Verif.Spec.Abi
import Verif.Spec.Alike
import Verif.Spec.AnyTypes
import Verif.Spec.Api
import Verif.Spec.Arrays
import Verif.Spec.Breaks
import Verif.Spec.BytesText
import Verif.Spec.Classes
import Verif.Spec.Complaints
import Verif.Spec.Composed
import Verif.Spec.Concurrent
import Verif.Spec.Cost
import Verif.Spec.Custom
import Verif.Spec.Declined
import Verif.Spec.Differs
import Verif.Spec.Direct
import Verif.Spec.Entries
import Verif.Spec.Fault
import Verif.Spec.Frames
import Verif.Spec.Grammar
import Verif.Spec.Leaves
import Verif.Spec.Lengths
import Verif.Spec.Located
import Verif.Spec.Looked
import Verif.Spec.Lookups
import Verif.Spec.Messages
import Verif.Spec.Order
import Verif.Spec.Packed
import Verif.Spec.ParseCache
import Verif.Spec.Parts
import Verif.Spec.Pieces
import Verif.Spec.Pointing
import Verif.Spec.Read
import Verif.Spec.Readers
import Verif.Spec.Recalled
import Verif.Spec.Recast
import Verif.Spec.Registry
import Verif.Spec.Sampled
import Verif.Spec.Settings
import Verif.Spec.Strategies
import Verif.Spec.Strings
import Verif.Spec.Taken
import Verif.Spec.Text
import Verif.Spec.Threads
import Verif.Spec.Tree
import Verif.Spec.Utf8
import Verif.Spec.Values
import Verif.Spec.Wider
import Verif.Suite.Checks
import Verif.Suite.Vectors

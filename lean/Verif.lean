import Verif.Props.RealNumber
import Verif.Props.Reclaim
import Verif.Props.Module
import Verif.Props.Element
import Verif.Props.Scalar
import Verif.Props.Storage
import Verif.Props.Convert
import Verif.Props.NumberField
import Verif.Props.Text
import Verif.Props.TrueDiv
import Verif.Props.Arf
import Verif.Props.ArfLong
import Verif.Props.Approx
import Verif.Props.ProductError
import Verif.Props.DoubleFewFactors
import Verif.Props.RandomRoundTrip
import Verif.Props.RandomElement
import Verif.Props.DoubleFaithful
import Verif.Props.Rank
import Verif.Props.Provenance
import Verif.Props.ProvenanceExact
import Verif.Props.Archive
import Verif.Props.ArchiveStream
import Verif.Props.ArchiveBytes
import Verif.Props.Random
import Verif.Props.Ball
import Verif.Props.RealOrder
import Verif.Props.ElementOrder
import Verif.Props.ElementOrderFails
import Verif.Props.ElementRound
import Verif.Props.ElementDouble
import Verif.Props.ElementDoubleFails
import Verif.Props.FloorDiv
import Verif.Props.Heap
import Verif.Props.ModuleHeap
import Verif.Props.ArfCache
import Verif.Props.ArfThreads
import Verif.Props.BallBounds
import Verif.Props.BallSpecial
import Verif.Props.BallRational
import Verif.Props.Counter
import Verif.Props.Yap
import Verif.Props.RationalCoefficients
import Verif.Props.Overflow
import Verif.Props.Assertions
import Verif.Props.RealOrderExact
import Verif.Props.RealOrderWeak
import Verif.Props.PyExpr
import Verif.Props.PyExprNumber
import Verif.Props.Python
import Verif.Props.Rand48
import Verif.Props.ArfSpecial
import Verif.Props.Print
import Verif.Props.Construct
import Verif.Props.Program
import Verif.Props.ProgramOrder
import Verif.Props.ProgramQuery
import Verif.Props.Builds
import Verif.Props.Progress
import Verif.Props.PrintReal
import Verif.Props.RandomSpecial
import Verif.Props.ProgramHeap
import Verif.Props.ProgramOrderHeap
import Verif.Props.ProcessThreads
import Verif.Props.Effort
import Verif.Props.EffortDivision
import Verif.Props.PythonSquare
import Verif.Props.PyBall
import Verif.Props.Embedding
import Verif.Props.EmbeddingEffort
import Verif.Props.Long
import Verif.Props.LongMore
import Verif.Props.Log2
import Verif.Props.PythonRound
import Verif.Props.PythonRing
import Verif.Conformance.Random
import Verif.Conformance.Numbers
import Verif.Conformance.Elements

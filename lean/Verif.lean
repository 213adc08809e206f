import Verif.Model.Rust
import Verif.Model.Vec
import Verif.Model.Iter
import Verif.Model.Mat
import Verif.Model.Det
import Verif.Model.Mem
import Verif.Model.Display
import Verif.Model.TypeLevel
import Verif.Spec
import Verif.Arith
import Verif.Props.Collect
import Verif.Props.Index
import Verif.Props.Static
import Verif.Props.Elementwise
import Verif.Props.BorrowIter
import Verif.Model.Examples
import Verif.Props.Products
import Verif.Props.Order
import Verif.Props.Misc
import Verif.Props.Shape
import Verif.Props.Det
import Verif.Props.DivZero
import Verif.Props.Inv
import Verif.Props.Own
import Verif.Props.FromIter
import Verif.Props.Consume
import Verif.Props.Chunks
import Verif.Props.Display
import Verif.Props.Norm
import Verif.Props.MachInt
import Verif.Props.Wrap
import Verif.Props.Unsigned
import Verif.Props.Ratio
import Verif.Props.Builds
import Verif.Props.IntDet
import Verif.Props.OwnExact
import Verif.Props.ConsumeMat
import Verif.Props.InvLaws
import Verif.Props.DisplayIO
import Verif.Lemmas.Param
import Verif.Rounding
import Verif.Props.Natural
import Verif.Props.Rounding
import Verif.Props.ExactInts
import Verif.Lemmas.ElimFree
import Verif.Props.FloatDet
import Verif.Props.FloatInv
import Verif.Float
import Verif.Lemmas.Ieee
import Verif.Props.Ieee
import Verif.Lemmas.GJFree
import Verif.Props.Special
import Verif.Props.Bitwise
import Verif.Model.Effects
import Verif.Counting
import Verif.Lemmas.Cost
import Verif.Props.Counts
import Verif.Props.DetCost
import Verif.Props.PowCost
import Verif.Props.Effects
import Verif.Props.Compare
import Verif.Props.CloneIter
import Verif.Props.Block
import Verif.Props.DebugIO
import Verif.Props.DebugAlt
import Verif.Props.Scaling
import Verif.Props.FloatOrder
import Verif.Props.FloatNorm
import Verif.Props.FloatSpecial
import Verif.Complex
import Verif.Props.Complex
import Verif.Model.Program
import Verif.ProgSpec
import Verif.Lemmas.Program
import Verif.Props.Programs
import Verif.SoftFloat
import Verif.Lemmas.SoftFloat
import Verif.Lemmas.FloatBits
import Verif.Lemmas.ProgramRel
import Verif.Props.Parametric
import Verif.Props.FloatBits
import Verif.Props.EffectsLoops
import Verif.Props.Ownership
import Verif.Model.OwnCollect
import Verif.Props.OwnCollect
import Verif.Props.AnyHistory
import Verif.OwnerSpec
import Verif.Props.OwnerRefine
import Verif.Model.Unwind
import Verif.Props.Unwind
import Verif.Props.UnwindCensus
import Verif.Props.Approx
import Verif.Conformance
import Verif.RewriteSpec
import Verif.Props.Rewrite
import Verif.ErrorSpec
import Verif.Props.ErrorBound
import Verif.PolySpec
import Verif.Props.Formula
import Verif.RingSpec
import Verif.VarSpec
import Verif.Lemmas.RingDiv
import Verif.Lemmas.Quotients
import Verif.Props.Rings
import Verif.Props.Variables
import Verif.Props.SafeTypes
import Verif.Props.Formulas

import Verif.Model.CInt
import Verif.Model.BigNum
import Verif.Model.BigMixed
import Verif.Model.Bit
import Verif.Model.Logic
import Verif.Model.IntIndex
import Verif.Model.Lifetime
import Verif.Model.Parse
import Verif.Model.Format
import Verif.Model.Array
import Verif.Spec
import Verif.Abs
import Verif.Show
import Verif.Lemmas.Prelude
import Verif.Lemmas.CInt
import Verif.Lemmas.Big
import Verif.Lemmas.BigOps
import Verif.Lemmas.Native
import Verif.Lemmas.BitOps
import Verif.Lemmas.BigArith
import Verif.Lemmas.BigMul
import Verif.Lemmas.BigDiv
import Verif.Lemmas.BitArith
import Verif.Lemmas.BitDiv
import Verif.Lemmas.Extend
import Verif.Lemmas.Shift
import Verif.Lemmas.LogicOps
import Verif.Lemmas.Planes
import Verif.Lemmas.Arith
import Verif.Lemmas.Access
import Verif.Lemmas.Compare
import Verif.Props.Access
import Verif.Props.Bitwise
import Verif.Props.Shift
import Verif.Props.Arith
import Verif.Lemmas.AccessExact
import Verif.Props.AccessExact
import Verif.Lemmas.ArithExact
import Verif.Props.ArithExact
import Verif.Lemmas.ShiftExact
import Verif.Props.ShiftExact
import Verif.Lemmas.CompareExact
import Verif.Props.CompareExact
import Verif.Props.ConcatExact
import Verif.Props.SliceExact
import Verif.Props.SliceOut
import Verif.Props.SliceBase
import Verif.Props.UpdateExact
import Verif.Props.MixedWidth
import Verif.Props.SignMix
import Verif.Props.Compare
import Verif.Model.Reduce
import Verif.Lemmas.OfBV
import Verif.Props.Truth
import Verif.Props.Extend
import Verif.Props.Conservative
import Verif.Props.Canonical
import Verif.Props.Reduction
import Verif.Lemmas.IntBits
import Verif.Lemmas.Slice
import Verif.Lemmas.Concat
import Verif.Props.Slice
import Verif.Props.Concat
import Verif.Lemmas.Update
import Verif.Props.Update
import Verif.Props.Convert
import Verif.Lemmas.Array
import Verif.Props.Array
import Verif.Lemmas.Parse
import Verif.Lemmas.Format
import Verif.Props.Parse
import Verif.Props.Format
import Verif.Props.FormatWide
import Verif.Props.FormatPad
import Verif.Props.FormatText
import Verif.Props.FormatRaw
import Verif.Props.FormatTwin
import Verif.Model.Static
import Verif.Props.Static
import Verif.Props.Assign
import Verif.Props.ConcatMany
import Verif.Props.Measure
import Verif.Props.LogicBit
import Verif.Props.ShiftAssign
import Verif.Props.PartSelect
import Verif.Props.Unary
import Verif.Props.BigMixed
import Verif.Props.Array2
import Verif.Model.Expr
import Verif.Props.Expr
import Verif.Model.Expr4
import Verif.Props.Expr4
import Verif.Model.Util
import Verif.Props.StringCtor
import Verif.Props.Util
import Verif.Conformance
import Verif.ConformanceDiv
import Verif.Props.RefuteAll
import Verif.Props.ExactMore
import Verif.Model.Alias
import Verif.Props.Alias
import Verif.Model.ExprI
import Verif.Props.ExprI
import Verif.Model.ExprL
import Verif.Props.ExprL
import Verif.Props.Members
import Verif.Props.RefuteMore
import Verif.Props.Lift
import Verif.Props.FillX
import Verif.Props.UpdateOut
import Verif.Props.SignedWide
import Verif.Props.RoundTrip
import Verif.Props.XSound
import Verif.Props.Laws
import Verif.Props.Compose
import Verif.Props.CanonicalExact
import Verif.Props.Exactly
import Verif.Props.Coherence
import Verif.Props.Gates
import Verif.Props.ArrayRuns
import Verif.Props.Counting
import Verif.Props.Programs
import Verif.Props.Refs
import Verif.Props.TextInj
import Verif.Props.Sorting
import Verif.Props.Queries
import Verif.Props.AccessLogic
import Verif.Props.UnpackExcess
import Verif.Model.BigChecked
import Verif.Props.Bounds
import Verif.Props.Crc
import Verif.Props.Gray
import Verif.Props.LongDivision
import Verif.Props.BaseLetters
import Verif.Props.SquareRoot
import Verif.Props.Lfsr
import Verif.Props.Idioms
import Verif.Props.ExprIExact
import Verif.Props.ExprLExact
import Verif.Props.LiteralsExact
import Verif.Props.UpdateDirections
import Verif.Props.Trichotomy
import Verif.Props.ArrayNative
import Verif.Props.FormatTwinExact
import Verif.Props.Tristate
import Verif.Props.Numbers
import Verif.Props.Selectors
import Verif.Props.IntIndex
import Verif.Props.Lifetime
import Verif.Model.UnpackAlias
import Verif.Props.UnpackAlias
import Verif.Props.WideDivSign
import Verif.Props.ArrayWrite
import Verif.Model.Layout
import Verif.Props.Layout
import Verif.Props.BigMixedExact
import Verif.Model.Overload
import Verif.Props.Overload
import Verif.Model.MultiDim
import Verif.Props.MultiDim
import Verif.Props.Context
import Verif.Props.ReductionAscending
import Verif.Props.DeMorgan
import Verif.Props.Clamp
import Verif.Props.Laws4
import Verif.Props.Undefined
import Verif.Props.CaseStmt
import Verif.Props.Hamming
import Verif.Props.Fifo
import Verif.Props.Bcd
import Verif.Props.Swar
import Verif.Props.CarrySave
import Verif.Props.Newton
import Verif.Props.ByteEnable
import Verif.Props.BcdText
import Verif.Props.ShiftReg
import Verif.Props.Majority
import Verif.Props.PrefixAdder
import Verif.Props.Flags
import Verif.Props.MultiLimb
import Verif.Props.Checksum
import Verif.Props.LimbSub
import Verif.Props.AluFlags
import Verif.Props.GateCompare
import Verif.Props.Arbiter
import Verif.Props.ResetReg
import Verif.Props.Booth
import Verif.Props.Horner
import Verif.Props.ModMul
import Verif.Props.BinaryGcd
import Verif.Props.MulHigh
import Verif.Props.CanonHistory
import Verif.Props.RoundTripSigned
import Verif.Props.CanonSigned
import Verif.Props.CanonHistory4
import Verif.Props.ProgRefute
import Verif.Props.CanonWide
import Verif.Props.ModPow
import Verif.Props.Feistel
import Verif.Props.StartUp
import Verif.Props.Zigzag
import Verif.Props.Reciprocal
import Verif.Props.FieldMul
import Verif.Props.FieldInv
import Verif.Props.Log2
import Verif.Props.SignField
import Verif.Props.Bias
import Verif.Props.Repair4
import Verif.Props.MuxGates
import Verif.Props.SlicedAdd
import Verif.Props.ZigzagWide
import Verif.Props.Repair4Uses
import Verif.Props.Enough4

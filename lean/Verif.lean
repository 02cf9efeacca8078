import Verif.Model.Algebra
import Verif.Model.Basic
import Verif.Model.Clifft
import Verif.Model.ComplexDisplay
import Verif.Model.ComplexExpF
import Verif.Model.ComplexNormF
import Verif.Model.Complexification
import Verif.Model.Cx
import Verif.Model.Debug
import Verif.Model.Dense
import Verif.Model.Display
import Verif.Model.Exp
import Verif.Model.FFT
import Verif.Model.FFTExpF
import Verif.Model.FFTShape
import Verif.Model.FFTTrace
import Verif.Model.Float
import Verif.Model.FloatDisplay
import Verif.Model.FloatDiv
import Verif.Model.FloatExp
import Verif.Model.FloatPga
import Verif.Model.GradeIterCast
import Verif.Model.Ieee
import Verif.Model.IndexUtils
import Verif.Model.Int
import Verif.Model.MakeArray
import Verif.Model.MatrixInv
import Verif.Model.Multivector
import Verif.Model.NdArray
import Verif.Model.Pga
import Verif.Model.Precomputed
import Verif.Model.Quaternion
import Verif.Model.QuaternionF
import Verif.Model.Retain
import Verif.Model.Storage
import Verif.Math.Bits
import Verif.Math.Clifft
import Verif.Math.Geo
import Verif.Math.Sgn
import Verif.Spec.Arrays
import Verif.Spec.CliffordAlg
import Verif.Spec.Decimal
import Verif.Spec.DecimalComplex
import Verif.Spec.Exterior
import Verif.Spec.NestedReader
import Verif.Spec.Reader
import Verif.Spec.Words
import Verif.Proofs.Adjoint
import Verif.Proofs.Blades
import Verif.Proofs.CliffordAlg
import Verif.Proofs.Clifft
import Verif.Proofs.ClifftOps
import Verif.Proofs.ComplexDisplay
import Verif.Proofs.ComplexExp
import Verif.Proofs.ComplexExpNear
import Verif.Proofs.Complexify
import Verif.Proofs.Construct
import Verif.Proofs.Debug
import Verif.Proofs.Declare
import Verif.Proofs.Dominant
import Verif.Proofs.Exp
import Verif.Proofs.ExpBound
import Verif.Proofs.ExpRotor
import Verif.Proofs.Exterior
import Verif.Proofs.FFT
import Verif.Proofs.FFTExpC
import Verif.Proofs.FFTExpF
import Verif.Proofs.FFTFlip
import Verif.Proofs.FFTFloat
import Verif.Proofs.FFTOps
import Verif.Proofs.FFTRel
import Verif.Proofs.FFTRelRev
import Verif.Proofs.FFTRepr
import Verif.Proofs.FFTRound
import Verif.Proofs.Float
import Verif.Proofs.FloatCx
import Verif.Proofs.FloatDisplay
import Verif.Proofs.FloatExp
import Verif.Proofs.FloatExpLoop
import Verif.Proofs.FloatInv
import Verif.Proofs.FloatMV
import Verif.Proofs.FloatNorm
import Verif.Proofs.FloatPga
import Verif.Proofs.FloatPgaMV
import Verif.Proofs.GA
import Verif.Proofs.Generic
import Verif.Proofs.GradeIter
import Verif.Proofs.GradeIterCast
import Verif.Proofs.HalfSpin
import Verif.Proofs.Ieee
import Verif.Proofs.Int
import Verif.Proofs.Lawful
import Verif.Proofs.Lift
import Verif.Proofs.Loose
import Verif.Proofs.MV
import Verif.Proofs.MatrixInv
import Verif.Proofs.Minors
import Verif.Proofs.NonFinite
import Verif.Proofs.Param
import Verif.Proofs.Pga
import Verif.Proofs.PgaMotion
import Verif.Proofs.Rotor
import Verif.Proofs.Sandwich
import Verif.Proofs.Sign
import Verif.Proofs.Spin
import Verif.Proofs.Trace
import Verif.Proofs.Wedge
import Verif.Proofs.Words
import Verif.Props.Access
import Verif.Props.Adjoint
import Verif.Props.Center
import Verif.Props.Change
import Verif.Props.CliffordAlgebra
import Verif.Props.Clifft
import Verif.Props.ClifftFloat
import Verif.Props.ComplexDisplay
import Verif.Props.ComplexExamples
import Verif.Props.ComplexExp
import Verif.Props.ComplexExpError
import Verif.Props.ComplexExpNull
import Verif.Props.ComplexNormF
import Verif.Props.ComplexScalar
import Verif.Props.ComplexTrace
import Verif.Props.ComplexifyFloat
import Verif.Props.Debug
import Verif.Props.Determinant
import Verif.Props.Display
import Verif.Props.DisplayNested
import Verif.Props.Dual
import Verif.Props.DualRound
import Verif.Props.Even
import Verif.Props.Examples
import Verif.Props.Exp
import Verif.Props.ExpBound
import Verif.Props.ExpFFT
import Verif.Props.ExpFFTRev
import Verif.Props.ExpRotor
import Verif.Props.Exterior
import Verif.Props.FFT
import Verif.Props.FFTExpC
import Verif.Props.FFTExpF
import Verif.Props.FFTExpNull
import Verif.Props.FFTFloat
import Verif.Props.FFTFloatPow
import Verif.Props.FFTFloatTrace
import Verif.Props.FFTGenerators
import Verif.Props.FFTMore
import Verif.Props.FFTPowC
import Verif.Props.FFTRevRound
import Verif.Props.FFTRing
import Verif.Props.FFTRound
import Verif.Props.FFTShape
import Verif.Props.Float
import Verif.Props.FloatComplex
import Verif.Props.FloatDisplay
import Verif.Props.FloatDiv
import Verif.Props.FloatDivMul
import Verif.Props.FloatExp
import Verif.Props.FloatExpNull
import Verif.Props.FloatExpr
import Verif.Props.FloatIEEE
import Verif.Props.FloatInv
import Verif.Props.FloatPga
import Verif.Props.FromArray
import Verif.Props.Grades
import Verif.Props.HalfSpinPow
import Verif.Props.Inverse
import Verif.Props.InverseGeneric
import Verif.Props.InverseWeak
import Verif.Props.Involutions
import Verif.Props.Lawful
import Verif.Props.Loose
import Verif.Props.MakeArray
import Verif.Props.MatrixInvRing
import Verif.Props.Nested
import Verif.Props.NonFinite
import Verif.Props.NonFiniteFFT
import Verif.Props.ParamComplex
import Verif.Props.Pga
import Verif.Props.PgaIncidence
import Verif.Props.PgaInfinity
import Verif.Props.PgaJoin
import Verif.Props.PgaMotion
import Verif.Props.PgaRotor
import Verif.Props.Pin
import Verif.Props.Product
import Verif.Props.QuatFloat
import Verif.Props.Quaternion
import Verif.Props.RealFftRound
import Verif.Props.Retain
import Verif.Props.Rotors
import Verif.Props.Sandwich
import Verif.Props.SignExact
import Verif.Props.SignExp
import Verif.Props.Signs
import Verif.Props.Spin
import Verif.Props.Storage
import Verif.Props.StorageDiv
import Verif.Props.StorageExp
import Verif.Props.Tests
import Verif.Props.TestsAll
import Verif.Props.TestsClifft
import Verif.Props.TestsDual
import Verif.Props.TestsExp
import Verif.Props.TestsMore
import Verif.Props.TestsRandom
import Verif.Props.TestsSparse
import Verif.Props.TestsVectors
import Verif.Props.Trace
import Verif.Props.Traits
import Verif.Props.Unwrap
import Verif.Props.VdotRound
import Verif.Props.WedgeFloat

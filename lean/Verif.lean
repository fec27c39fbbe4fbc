import Verif.Rt.ParserProps
import Verif.Rt.ParseWork
import Verif.Rt.RoundTripProps
import Verif.Rt.SimplifyProps
import Verif.Rt.SimplifyAll
import Verif.Rt.Settle
import Verif.Rt.SubstProps
import Verif.Rt.DerivProps
import Verif.Rt.NumericEval
import Verif.Rt.CompareProps
import Verif.Rt.UnitsProps
import Verif.Rt.LiteralProps
import Verif.Rt.ArrayProps
import Verif.Poly.OpsProps
import Verif.Poly.Descartes
import Verif.Poly.CountProps
import Verif.Poly.QuadraticProps
import Verif.Poly.CubicProps
import Verif.Poly.LmqProps
import Verif.Poly.VasProps
import Verif.Poly.VcaProps
import Verif.Poly.VcaTerm
import Verif.Poly.VasTerm
import Verif.Poly.SolveVas
import Verif.Poly.SolveMultiple
import Verif.Poly.SolveSafe
import Verif.Witness.Parse
import Verif.Witness.Calculus
import Verif.Witness.Poly
import Verif.Poly.SturmProps
import Verif.Poly.SturmGet
import Verif.Poly.SolveProps
import Verif.Num.RootFindProps
import Verif.Num.BisectUnique
import Verif.Num.Monotone
import Verif.Ad.Props
import Verif.Ct.ConstProps
import Verif.Ct.CalculusProps
import Verif.Ds.ArrayProps
import Verif.Ds.StackVector
import Verif.Ds.StaticList
import Verif.Ds.Config
import Verif.Ds.Strings
import Verif.Ds.Xml
import Verif.Ds.XmlError
import Verif.Ds.XmlEdit
import Verif.Geo.Shapes
import Verif.Rt.PythonProps
import Verif.Poly.Bairstow
import Verif.Rt.ForceParens
import Verif.Num.Residual
import Verif.Rt.Latex
import Verif.Fp.Format
import Verif.Fp.Simplify
import Verif.Fp.Bisect
import Verif.Fp.Horner
import Verif.Rt.Parens
import Verif.Ct.Convert
import Verif.Poly.Repr
import Verif.Fp.Precision
import Verif.Fp.FastSub
import Verif.Rt.Sharing
import Verif.Rt.Threads
import Verif.Ds.Dict
import Verif.Rt.Dispatch
import Verif.Rt.Higher
import Verif.Misc.UnitTest
import Verif.Ds.ArrayAccess
import Verif.Ds.CollText
import Verif.Rt.Reparse
import Verif.Fp.Decimal
import Verif.Fp.Quadratic
import Verif.Fp.QuadraticProps
import Verif.Ct.ExpandProps
import Verif.Ct.ExpandMany
import Verif.Ct.ExpandSums
import Verif.Ct.ExpandCollect
import Verif.Rt.ParseLike
import Verif.Fp.Accuracy
import Verif.Fp.PolyOps
import Verif.Rt.Sizes
import Verif.Fp.Newton
import Verif.Fp.NewtonResidual
import Verif.Fp.SimplifyEq
import Verif.Fp.SimplifyMachine
import Verif.Fp.Ieee
import Verif.Fp.IeeeSpec
import Verif.Fp.IeeeBisect
import Verif.Fp.IeeeNewton
import Verif.Fp.IeeeQuadratic
import Verif.Fp.IeeeHorner
import Verif.Fp.IeeeHalley
import Verif.Fp.EvalDeriv
import Verif.Fp.IeeeEvalDeriv
import Verif.Fp.IeeeNewtonPoly
import Verif.Ct.PolyCalculus
import Verif.Ct.Configs
import Verif.Ct.Orderly
import Verif.Ct.Numbers
import Verif.Ct.SameExpand
import Verif.Ct.Total
import Verif.Ct.TaylorPoly
import Verif.Ct.Definite
import Verif.Ct.Interval
import Verif.Ct.IntervalExact
import Verif.Ct.IntervalMany
import Verif.Conform.Basic
import Verif.Conform.Text
import Verif.Conform.Poly
import Verif.Conform.Data
import Verif.Conform.Ct
import Verif.Rt.KeepsValue
import Verif.Fp.KeepsDouble
import Verif.Ad.AnyArith
import Verif.Fp.AdAccuracy

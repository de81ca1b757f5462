import Verif.Model.Dense
import Verif.Props.DenseBasic
import Verif.Props.DenseMul
import Verif.Props.DenseShift
import Verif.Props.DenseCalc
import Verif.Lemmas.DenseDiv
import Verif.Props.DenseDiv
import Verif.Model.Sparse
import Verif.Lemmas.Sparse
import Verif.Props.SparseBasic
import Verif.Props.SparseDiv
import Verif.Props.Fixed
import Verif.Props.Mutation
import Verif.Props.ArrayPoly
import Verif.Model.Numerics
import Verif.Props.Sqrt
import Verif.Props.Convert
import Verif.Model.Upcast
import Verif.Props.Upcast
import Verif.Model.FindRoots
import Verif.Props.Roots
import Verif.Props.Cubic
import Verif.SpecRoots
import Verif.Lemmas.FindRoots
import Verif.Props.FindRoots
import Verif.Props.Parse
import Verif.Props.Display
import Verif.Props.DisplayMin
import Verif.Props.Laws
import Verif.Props.Congruence
import Verif.Props.Interchange
import Verif.Model.History
import Verif.Props.History
import Verif.Model.Checked
import Verif.Lemmas.Checked
import Verif.Props.Checked
import Verif.Props.Unsigned
import Verif.Props.Exact
import Verif.Model.Float
import Verif.SpecFloat
import Verif.Lemmas.Float
import Verif.Props.FloatEval
import Verif.Props.FloatArith
import Verif.Props.FloatDiv
import Verif.Props.FloatDivTerm
import Verif.Props.FloatDivAny
import Verif.Model.FloatRoots
import Verif.Lemmas.FloatSqrt
import Verif.SpecFloatRoots
import Verif.Props.FloatRoots
import Verif.Model.Usize
import Verif.Props.Usize
import Verif.Model.Machine
import Verif.Lemmas.Machine
import Verif.Props.Machine
import Verif.Props.MachineSparse
import Verif.Props.MachineLoops
import Verif.SpecMachineDiv
import Verif.Props.MachineDiv
import Verif.Props.MachineWrapDivExact
import Verif.Props.MachineScalar
import Verif.Props.MachineFixed
import Verif.Props.MachinePow
import Verif.Props.MachinePowExact
import Verif.Props.MachineWrap
import Verif.Props.MachineWrapDiv
import Verif.SpecFloatSparse
import Verif.Props.FloatSparse
import Verif.Props.FloatSparseDiv
import Verif.SpecFloatFixed
import Verif.Props.FloatFixed
import Verif.Props.EvalExact
import Verif.SpecFloatExact
import Verif.Props.FloatExact
import Verif.Model.FloatText
import Verif.SpecFloatText
import Verif.Props.FloatText
import Verif.SpecFloatPow
import Verif.Props.FloatPow
import Verif.SpecFloatFindRoots
import Verif.Props.FloatFindRoots
import Verif.SpecFloatBuild
import Verif.Props.FloatBuild
import Verif.Model.FloatCast
import Verif.SpecFloatCast
import Verif.Props.FloatShape
import Verif.SpecFloatIntegral
import Verif.Props.FloatIntegral
import Verif.SpecFloatFactors
import Verif.Props.FloatFactors
import Verif.SpecFloatCubic
import Verif.Props.FloatCubic
import Verif.Props.ApiLaws
import Verif.Model.Assign
import Verif.Model.Cost
import Verif.Props.Assign
import Verif.Props.AssignMore
import Verif.Props.Cost
import Verif.Props.FloatIeee
import Verif.SpecStored
import Verif.Props.Stored
import Verif.Props.StoredParse
import Verif.Validation
import Verif.Model.Powers
import Verif.Props.Powers
import Verif.Props.FloatPowi
import Verif.Model.FloatHistory
import Verif.SpecFloatHistory
import Verif.Props.FloatHistory
import Verif.Model.MachineBuild
import Verif.Model.MachineRoots
import Verif.SpecBuild
import Verif.Lemmas.MachineBuild
import Verif.Props.MachineBuild
import Verif.Props.MachineRoots
import Verif.Model.MachineHistory
import Verif.Props.MachineHistory
import Verif.Model.FixedHistory
import Verif.Props.FixedHistory
import Verif.Lemmas.CheckedAgree
import Verif.Props.CheckedAgree
import Verif.Props.MachineText
import Verif.Lemmas.MachineSink
import Verif.Props.MachineSink
import Verif.Model.Macros
import Verif.Props.CalculusLaws
import Verif.Props.DivisionLaws
import Verif.Props.DegreeLaws
import Verif.Props.ParseLaws
import Verif.SpecParseErrors
import Verif.Props.ParseErrors
import Verif.SpecRootLaws
import Verif.Props.RootLaws
import Verif.SpecFloatLaws
import Verif.Props.FloatLaws
import Verif.SpecFloatOrder
import Verif.Props.FloatOrder
import Verif.SpecRootSymmetry
import Verif.Lemmas.RootRel
import Verif.Props.RootSymmetry
import Verif.Props.FloatRootSymmetry
import Verif.Model.RoomHistory
import Verif.SpecRoomHistory
import Verif.Props.RoomHistory
import Verif.Props.StoredHistory
import Verif.Model.Expr
import Verif.SpecExpr
import Verif.Props.Expr
import Verif.SpecFloatExpr
import Verif.Props.FloatExpr
import Verif.Model.Calc
import Verif.SpecCalc
import Verif.Props.Calc
import Verif.Props.Values
import Verif.Props.CalculusPanics
import Verif.Model.Euclid
import Verif.SpecEuclid
import Verif.Props.Euclid
import Verif.SpecFloatCertify
import Verif.Props.FloatCertify
import Verif.Model.Compose
import Verif.Props.Compose
import Verif.SpecParam
import Verif.Lemmas.Param
import Verif.Props.Param
import Verif.Props.ParamFixed
import Verif.SpecFloatScale
import Verif.Props.FloatScale
import Verif.SpecFloatGrid
import Verif.Props.FloatGrid
import Verif.Props.Taylor
import Verif.Props.Modular
import Verif.Props.FloatBisect
import Verif.Props.FloatBounds
import Verif.Props.Sturm
import Verif.Props.Newton
import Verif.Model.Resultant
import Verif.Props.Resultant
import Verif.Model.Repaired
import Verif.Props.Repaired
import Verif.Props.FloatDivDrop
import Verif.Props.IntDivStop
import Verif.Props.FloatRepaired
import Verif.Props.FloatSparseDrop
import Verif.Props.Pseudo
import Verif.Props.PseudoMachine
import Verif.Props.RootNumber
import Verif.Props.RationalRoots
import Verif.Props.IntegerRoots
import Verif.Model.AllRoots
import Verif.Props.AllRoots
import Verif.Axioms

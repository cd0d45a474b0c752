import Verif.Props.Amo
import Verif.Enc.AmoSize
import Verif.Props.AmoSize
import Verif.Enc.TotSize
import Verif.Props.TotSize
import Verif.Enc.PbSize
import Verif.Props.PbSize
import Verif.Enc.CnSize
import Verif.Props.CnSize
import Verif.Enc.ModSize
import Verif.Props.ModSize
import Verif.Props.Card
import Verif.Props.Encoding
import Verif.Props.Factory
import Verif.Props.Ops
import Verif.F.Nodes
import Verif.Props.Nodes
import Verif.Props.Pb
import Verif.Props.Transform
import Verif.Props.DS
import Verif.Props.Bdd
import Verif.Props.Sat
import Verif.Props.SatFun
import Verif.Props.SatFormula
import Verif.Props.SatPred
import Verif.Props.Core
import Verif.Props.Expand
import Verif.Props.Text
import Verif.Props.Count
import Verif.Props.Dnnf
import Verif.Props.Order
import Verif.Props.BddCnf
import Verif.Ext.MaxSat
import Verif.Ext.SharpSat
import Verif.Props.MaxSat
import Verif.Props.SharpSat
import Verif.Sat.Zero
import Verif.Sat.OnSolver
import Verif.Props.OnSolver
import Verif.Util.Queens
import Verif.Props.Queens
import Verif.Util.Files
import Verif.Props.Files
import Verif.Util.Assign
import Verif.Props.Assign
import Verif.Sat.Term
import Verif.Sat.Conv
import Verif.Sat.ConvMini
import Verif.Props.Term
import Verif.Props.TermFun
import Verif.Props.SimpOverflow
import Verif.Dnnf.Pipe
import Verif.Props.DnnfPipe
import Verif.Util.Random
import Verif.Util.RandomOk
import Verif.Props.Random
import Verif.Bdd.Prime
import Verif.Bdd.PrimeOk
import Verif.Bdd.PrimeGap
import Verif.Props.Prime
import Verif.Bdd.Profile
import Verif.Props.BddCount
import Verif.Sat.Incr
import Verif.Props.SatIncr
import Verif.DS.Intern
import Verif.Props.Intern
import Verif.Props.FactoryLarge
import Verif.Props.FactoryCnf
import Verif.Enc.Up
import Verif.Enc.UpTot
import Verif.Enc.UpSort
import Verif.Enc.UpSort2
import Verif.Props.Up
import Verif.Enc.UpPb
import Verif.Enc.UpPbm
import Verif.Enc.UpPbm2
import Verif.Enc.UpPba
import Verif.Props.UpPb
import Verif.F.Propagate
import Verif.F.CnfUp
import Verif.Props.UpCnf
import Verif.F.PgSolverUp
import Verif.Props.UpSolver
import Verif.F.CnfSize
import Verif.F.TsSize
import Verif.F.PgSize
import Verif.Props.CnfSize
import Verif.Sat.EnumF
import Verif.F.PgVars
import Verif.Props.EnumF
import Verif.Enc.Clean2
import Verif.Enc.PbClean
import Verif.F.EncVars
import Verif.Props.EncVars
import Verif.Props.TransVars
import Verif.Props.SolverVars

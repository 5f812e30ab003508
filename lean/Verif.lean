import Verif.Props.Lattice
import Verif.Props.Exact
import Verif.Props.Par
import Verif.Props.History
import Verif.Props.MatH
import Verif.Props.Trunc
import Verif.Props.Wrap
import Verif.Props.Cond
import Verif.Props.Relations
import Verif.Props.Slll
import Verif.Props.SlllWrap
import Verif.Props.RelF
import Verif.Props.L1
import Verif.Props.MatPE
import Verif.Props.Fresh
import Verif.Props.Idem
import Verif.Props.Gen
import Verif.Props.Printed
import Verif.Props.Ldpe
import Verif.Props.Seysen
import Verif.Props.Mach
import Verif.Props.Swell
import Verif.Props.FpRun
import Verif.Props.FpErr
import Verif.Props.FpCert
import Verif.Props.Returns
import Verif.Props.Decomp
import Verif.Props.Nullspace
import Verif.Props.NullExact
import Verif.Props.HjlsLoop
import Verif.Props.HjlsExact
import Verif.Props.Lehmer
import Verif.Props.Hjls
import Verif.Props.NullShift
import Verif.Props.PHouse
import Verif.Props.Block
import Verif.Props.Lift
import Verif.Props.GenAlg
import Verif.Props.SlllExact
import Verif.Props.Mixed
import Verif.Props.InputGap
import Verif.Props.SwapTab
import Verif.Props.SlllSafe
import Verif.Props.MachSmall
import Verif.Props.FloatInt
import Verif.Props.Seysen0
import Verif.Props.Int128
import Verif.Props.Ntl
import Verif.Props.PrintDpe
import Verif.Props.SetcolFin
import Verif.Props.DpeCol
import Verif.Props.Maple

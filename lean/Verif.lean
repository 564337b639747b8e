import Verif.Props.Primes
import Verif.Props.Trig
import Verif.Props.Md5
import Verif.Props.PrintScan
import Verif.Props.MapFlags
import Verif.Props.Spawn
import Verif.Props.SpawnCallback
import Verif.Props.MpiBlock
import Verif.Props.MpiSched
import Verif.Props.MpiExchange
import Verif.Props.Kalloc
import Verif.Props.RowMajor
import Verif.Props.Tensor
import Verif.Props.Htab
import Verif.Props.Planner
import Verif.Props.Wisdom
import Verif.Props.FileScan
import Verif.Props.Twiddle
import Verif.Props.DftSolvers
import Verif.Props.Copy
import Verif.Props.Solvers
import Verif.Props.Api
import Verif.Props.ApiSplit
import Verif.Props.Genfft
import Verif.Props.Codelets
import Verif.Props.Buffered
import Verif.Props.Rader
import Verif.Props.Registered
import Verif.Props.Refcount
import Verif.Props.Pool
import Verif.Props.Reodft
import Verif.Props.Rdft
import Verif.Props.ApiR2r
import Verif.Props.RegisteredR2r
import Verif.Props.Transpose3
import Verif.Props.ApiR2c
import Verif.Props.Hc2hc
import Verif.Props.Hc2c
import Verif.Props.RegisteredRdft
import Verif.Props.CodeletsR
import Verif.Props.CodeletsR2r
import Verif.Props.RegisteredR2c
import Verif.Props.Threads
import Verif.Props.MpiTranspose
import Verif.Props.MpiDft
import Verif.Props.MpiApi
import Verif.Props.MpiApiInv
import Verif.Props.MpiPlanner
import Verif.Props.MpiWisdom
import Verif.Props.MpiRdft
import Verif.Props.MpiRdftApi
import Verif.Props.MpiRdftInv
import Verif.Props.F77
import Verif.Props.F77Guru
import Verif.Props.F77Wisdom
import Verif.Props.Estimate
import Verif.Props.RegisteredEstimate

import Verif.HashTbl.Props
import Verif.Tag.Props
import Verif.Arith.Props
import Verif.Arith.EvalProps
import Verif.Term.Props
import Verif.Sort.Props
import Verif.Mangle.Props
import Verif.SubAtom.Props
import Verif.BtString.Props
import Verif.RbMap.Props
import Verif.Unify.Props
import Verif.Wam.Props
import Verif.CopyTerm.Props
import Verif.Acyclic.Props
import Verif.Switch.Props
import Verif.Index.Props
import Verif.Atom.Props
import Verif.Oper.Props
import Verif.Dyn.Props
import Verif.FdRange.Props
import Verif.AllSol.Props
import Verif.AllSol.BagProps
import Verif.Fd.TellProps
import Verif.Fd.QueueProps
import Verif.Fd.TrailProps
import Verif.GVar.Props
import Verif.Quote.Props
import Verif.Rw.Props
import Verif.ListBip.Props
import Verif.RegAlloc.Props
import Verif.Stream.Props
import Verif.Catch.Props
import Verif.Path.Props
import Verif.Mirror.Props
import Verif.Format.Props
import Verif.FdMath.Props
import Verif.Label.Props
import Verif.Optim.Props
import Verif.CodeGen.Props
import Verif.CodeGen.Props2
import Verif.CodeGen.Props3
import Verif.CodeGen.Props4
import Verif.Control.Props
import Verif.ByteCode.Props
import Verif.Dcg.Props
import Verif.FdBool.Props
import Verif.TermInl.Props
import Verif.NumVars.Props
import Verif.FdSymb.Props
import Verif.Linedit.Props
import Verif.Compl.Table
import Verif.Between.Props
import Verif.Singl.Props
import Verif.TypeTest.Props
import Verif.CallN.Props
import Verif.CurPred.Props
import Verif.Random.Props
import Verif.THash.Model
import Verif.THash.Props
import Verif.THash.Murmur
import Verif.Flags.Model
import Verif.Flags.Props
import Verif.Environ.Model
import Verif.Environ.Props
import Verif.CharConv.Model
import Verif.CharConv.Props
import Verif.CurAtom.Model
import Verif.CurAtom.Props
import Verif.CharCode.Model
import Verif.CharCode.Props

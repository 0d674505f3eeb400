import Verif.Utils.Props
import Verif.Mpi.Props
import Verif.Fork.Props
import Verif.Sig.Props
import Verif.Queue.Props
import Verif.Lock.Props
import Verif.Attr.Props
import Verif.Shoot.Props
import Verif.Dl.Props
import Verif.Dl.PropsInit
import Verif.Fence.Props
import Verif.Script.Props
import Verif.Proc.PropsExit
import Verif.Proc.PropsStart
import Verif.Proc.PropsData
import Verif.Proc.PropsLib
import Verif.Proc.PropsFork
import Verif.Proc.OwnRec
import Verif.Proc.PropsThread
import Verif.Proc.PropsCreate
import Verif.Proc.PropsList
import Verif.Proc.PropsBroad
import Verif.Proc.PropsRec
import Verif.Proc.PropsFini
import Verif.Proc.PropsShoot
import Verif.Proc.PropsInfo
import Verif.Proc.PropsRepeat
import Verif.Proc.PropsKill
import Verif.Proc.PropsWait
import Verif.Proc.PropsRelease
import Verif.Proc.PropsFair
import Verif.Proc.PropsUb
import Verif.Proc.PropsPtr
import Verif.Err.Props
import Verif.Proc.PropsBottom
import Verif.Proc.PropsWeak
import Verif.Proc.PropsEnded
import Verif.Proc.PropsExits
import Verif.Proc.PropsSupport
import Verif.Names.Props
import Verif.MpiC.Props
import Verif.SigC.Props
import Verif.Args.Props
import Verif.Wrap.Props
import Verif.Term.Props
import Verif.Wm.PropsLock
import Verif.Wm.PropsFlag
import Verif.Start.Props
import Verif.SysC.Props
import Verif.AttrC.Props
import Verif.AttrC.PropsDefault
import Verif.EnvC.Props
import Verif.Once.Props
import Verif.Proc.PropsSource
import Verif.Proc.PropsReuse
import Verif.Proc.PropsNest
import Verif.Proc.PropsBlock
import Verif.Proc.PropsCancel
import Verif.Proc.PropsPt
import Verif.Proc.PropsCause
import Verif.SigI.Props
import Verif.Lock.PropsFair

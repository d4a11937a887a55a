import Verif.Value.Props
import Verif.IntArith.Props
import Verif.Sort.Props
import Verif.Rubymap.Props
import Verif.Hash.Props
import Verif.Gc.Props
import Verif.Random.Props
import Verif.Sample.Props
import Verif.Symbol.Props
import Verif.IoBuf.WProps
import Verif.IoBuf.RProps
import Verif.IoBuf.IoProps
import Verif.IoBuf.RwProps
import Verif.IoBuf.CharProps
import Verif.Signal.Props
import Verif.Rational.FloatProps
import Verif.Pack.Props
import Verif.Pack.TextProps
import Verif.Pack.FormatProps
import Verif.Fnmatch.Props
import Verif.Ivar.Props
import Verif.Eql.Props
import Verif.NativePool.Props
import Verif.Sched.Props
import Verif.Marshal.Props
import Verif.Classes.Props
import Verif.Args.Props
import Verif.Args.KwProps
import Verif.Args.Routes
import Verif.Args.JitProps
import Verif.Args.Delegate
import Verif.JitState.Defects
import Verif.JitState.MergeProps
import Verif.FixOps.Props
import Verif.Json.Props
import Verif.Ensure.Props
import Verif.Const.Props
import Verif.Closure.Props
import Verif.Sync.Props
import Verif.Sync.LiveProps
import Verif.Arr.Props
import Verif.Arr.SelectProps
import Verif.Arr.SearchProps
import Verif.Arr.IterProps
import Verif.Arr.FlattenProps
import Verif.Bop.Props
import Verif.IntMeth.BitProps
import Verif.IntMeth.FdivProps
import Verif.Str.JoinProps
import Verif.Str.PadProps
import Verif.Share.Props
import Verif.Rng.Props
import Verif.Text.SetProps
import Verif.Text.SuccProps
import Verif.Text.SearchProps
import Verif.Text.PieceProps
import Verif.Text.DumpProps
import Verif.Text.NumProps
import Verif.Lazy.Props
import Verif.Enumer.Props
import Verif.Enumer.PieceProps
import Verif.Enumer.TableProps
import Verif.SetAlg.Props
import Verif.Cmp.Props
import Verif.StructCls.Props
import Verif.DataCls.Props
import Verif.NumCmp.Props
import Verif.ClassVar.Props
import Verif.TimeCls.Props
import Verif.TimeCls.CivilProps
import Verif.PathName.Props
import Verif.PathName.ExpandProps
import Verif.PathName.CleanProps
import Verif.ComplexNum.Props
import Verif.Records.Props
import Verif.HashMeth.Props
import Verif.EnumCls.Props
import Verif.Callable.Props
import Verif.Glob.Props
import Verif.StrEdit.Props
import Verif.Fiber.Props
import Verif.ExtEnum.Props
import Verif.Sprintf.Props
import Verif.Sprintf.ParseProps
import Verif.ArrSet.Props
import Verif.Exit.Props
import Verif.Cause.Props
import Verif.Cause.MessageProps
import Verif.Exit.FinalizerProps
import Verif.Argf.Props
import Verif.DirObj.Props
import Verif.Env.Props
import Verif.Spawn.Props
import Verif.Spawn.CommandProps
import Verif.Spawn.PathProps

import Verif.Bytes.Model
import Verif.Bytes.Lemmas
import Verif.Bytes.Props
import Verif.HashTable.Model
import Verif.HashTable.Spec
import Verif.HashTable.Lemmas
import Verif.HashTable.Refine
import Verif.HashTable.Histories
import Verif.HashTable.Props
import Verif.Serializer.Model
import Verif.Serializer.Spec
import Verif.Serializer.Lemmas
import Verif.Serializer.Props
import Verif.Serializer.Lib
import Verif.Ops.Strings
import Verif.Std.Itoa
import Verif.Std.Rand
import Verif.Expr.Props
import Verif.Containers.Props
import Verif.Containers.Foreach
import Verif.Gc.Term
import Verif.Gc.Shared
import Verif.Gc.SharedDemo
import Verif.Util.Wild
import Verif.Util.NameTable
import Verif.Util.Array
import Verif.Util.SimpleLLProps
import Verif.Tables.Props
import Verif.Names.Props
import Verif.HostCont.Props
import Verif.Util.Str
import Verif.Util.StrFind
import Verif.Util.StrCmp
import Verif.Util.Args
import Verif.Vm.JumpProps
import Verif.Cc.LiteralProps
import Verif.Cc.ScannerProps
import Verif.Cc.SwitchProps
import Verif.Flow.Props
import Verif.Frames.Demo
import Verif.Frames.SliceDemo
import Verif.Frames.Stack
import Verif.Frames.StackDemo
import Verif.Frames.ImportDemo
import Verif.Link.Links
import Verif.Link.Demo
import Verif.Link.InstanceDemo
import Verif.Peep.Props
import Verif.Ops.IndexProps
import Verif.Ops.Stores
import Verif.Ops.BumpElem
import Verif.Host.ContextClaims
import Verif.Host.SchedClaims
import Verif.Host.Mailbox
import Verif.StrLib.Demo
import Verif.StrLib.FormatDemo
import Verif.Text.Props
import Verif.Compact.Assign
import Verif.Disasm.Props
import Verif.Flow.EntryProps
import Verif.Stmts.Braces
import Verif.Diag.Props
import Verif.Diag.Header
import Verif.Diag.Dump
import Verif.Cc.EnumProps
import Verif.Host.RegistryProps
import Verif.Host.RegistryDemo
import Verif.Host.Libs
import Verif.Host.LibsProps
import Verif.Host.LibsDemo
import Verif.Host.Blocks
import Verif.Host.BlocksProps
import Verif.Host.BlocksClaims
import Verif.Host.BlocksDemo
import Verif.Expr.FullProps
import Verif.Expr.FullDemo
import Verif.Ops.AccessProps
import Verif.Ops.AccessDemo
import Verif.Debug.LlProps
import Verif.Debug.LlDemo
import Verif.Debug.PacketProps
import Verif.Debug.PacketDemo
import Verif.Debug.ServerProps
import Verif.Debug.ServerDemo
import Verif.Debug.SymbolsProps
import Verif.Debug.SymbolsDemo
import Verif.Debug.SessionProps
import Verif.Debug.SessionDemo
import Verif.Std.NetProps
import Verif.Std.IoDemo
import Verif.Host.CleanupProps
import Verif.Debug.ListingProps
import Verif.Std.MathProps
import Verif.Containers.HashLibDemo
import Verif.Goto.Demo
import Verif.Whole.Demo
import Verif.Prog.Demo

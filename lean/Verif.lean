import Verif.Alloc.StackObjects
import Verif.Alloc.Writer
import Verif.Alloc.WriterProofs
import Verif.Alloc.Payload
import Verif.Alloc.Expr
import Verif.Alloc.ConstExpr
import Verif.Machine.Basic
import Verif.Machine.Var
import Verif.Machine.SeqCompute
import Verif.Machine.Image
import Verif.Machine.SeqVars
import Verif.Machine.Sym
import Verif.Machine.Prog
import Verif.Machine.InPlace
import Verif.Machine.VarOps
import Verif.Machine.View
import Verif.Machine.Struct
import Verif.Machine.StructEx
import Verif.Machine.Raw
import Verif.Machine.Mul
import Verif.Machine.Func
import Verif.Machine.MulEx
import Verif.Machine.FuncEx
import Verif.Machine.Negate
import Verif.Build.Blocks
import Verif.Build.Scope
import Verif.Build.Flatten
import Verif.Build.LineTable
import Verif.Build.Inline
import Verif.Map.Bytes
import Verif.Map.Chk
import Verif.Map.Tbl
import Verif.Map.Uprp
import Verif.Machine.Wp
import Verif.Lib.ConstMulDiv
import Verif.Lib.Div
import Verif.Machine.Emit
import Verif.Machine.VMask
import Verif.Machine.Call
import Verif.Lib.Ops
import Verif.Lib.Shift
import Verif.Ex.ConstMulDiv
import Verif.Ex.Div
import Verif.Ex.Ops
import Verif.Ex.Shift
import Verif.Lib.Compare
import Verif.Lib.Logic
import Verif.Lib.Loops
import Verif.Ex.Logic
import Verif.Machine.Redir
import Verif.Machine.Track
import Verif.Lib.Trigger
import Verif.Lib.PTrigger
import Verif.Lib.Once
import Verif.Lib.Switch
import Verif.Ex.Trigger
import Verif.Ex.PTrigger
import Verif.Ex.Once
import Verif.Ex.Switch
import Verif.Machine.Queue
import Verif.Machine.EmitP
import Verif.Machine.PVar
import Verif.Machine.Pin
import Verif.Machine.EmitG
import Verif.Lib.SDiv
import Verif.Lib.MulCall
import Verif.Lib.Pow
import Verif.Lib.BinSearch
import Verif.Ex.DivLib
import Verif.Ex.SDiv
import Verif.Ex.MulLib
import Verif.Ex.Pow
import Verif.Ex.BinSearch
import Verif.Lib.ReadTable
import Verif.Lib.Read
import Verif.Lib.CurPl
import Verif.Lib.MemBase
import Verif.Lib.MemRead
import Verif.Lib.MemReadCp
import Verif.Ex.Read
import Verif.Ex.CurPl
import Verif.Ex.Kit
import Verif.Ex.MemRead
import Verif.Ex.MemReadCp
import Verif.Lib.MemWrite
import Verif.Lib.SelfAdd
import Verif.Lib.ByteWrite
import Verif.Lib.Ring
import Verif.Ex.KitSw
import Verif.Ex.ByteWrite
import Verif.Ex.Ring
import Verif.Lib.Arr
import Verif.Ex.Arr
import Verif.Lib.VArr
import Verif.Ex.VArr
import Verif.Lib.EpdVar
import Verif.Lib.Pool
import Verif.Ex.Pool
import Verif.Lib.Stack
import Verif.Lib.RepMov
import Verif.Lib.Patch
import Verif.Lib.PatchFun
import Verif.Lib.PatchBlk
import Verif.Lib.PatchHist
import Verif.Ex.Patch
import Verif.Ex.Stack
import Verif.Ex.RepMov
import Verif.Lib.ByteRw
import Verif.Lib.ByteSeek
import Verif.Lib.ByteHist
import Verif.Lib.ByteBlock
import Verif.Ex.ByteRw
import Verif.Lib.StrLen
import Verif.Lib.MulDivFn
import Verif.Ex.MulDivFn
import Verif.Ex.StrLen
import Verif.Lib.FnPtr
import Verif.Ex.FnPtr
import Verif.Lib.NonSeq
import Verif.Ex.NonSeq
import Verif.Lib.ByteStream
import Verif.Lib.StrStr
import Verif.Ex.ByteStream
import Verif.Lib.CpWriter
import Verif.Ex.CpWriter
import Verif.Lib.SwitchAct
import Verif.Lib.SubRead
import Verif.Lib.FlagRead
import Verif.Ex.SubRead
import Verif.Ex.FlagRead
import Verif.Lib.DwBreak
import Verif.Ex.DwBreak
import Verif.Lib.WordWrite
import Verif.Lib.PtrMem
import Verif.Ex.WordWrite
import Verif.Lib.DwPtr
import Verif.Ex.DwPtr
import Verif.Lib.CpWrite
import Verif.Ex.CpWrite
import Verif.Lib.Random
import Verif.Lib.Print
import Verif.Lib.PrintAll
import Verif.Lib.PrintList
import Verif.Ex.Print
import Verif.Ex.PrintAll
import Verif.Ex.Random
import Verif.Lib.ReadEmpty
import Verif.Lib.ListLoop
import Verif.Ex.ListLoop
import Verif.Lib.LoopUnit2
import Verif.Ex.LoopUnit2
import Verif.Ex.SpriteLoop
import Verif.Lib.PlayerUnit
import Verif.Ex.PlayerUnit
import Verif.Lib.PlayerExist
import Verif.Ex.PlayerExist
import Verif.Lib.PlayerLoop
import Verif.Ex.PlayerLoop
import Verif.Lib.GameTick
import Verif.Ex.GameTick

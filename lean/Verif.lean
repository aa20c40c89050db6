import Verif.Props.RvEncoding
import Verif.Props.RvAlu
import Verif.Props.RvProgram
import Verif.Props.RvStartup
import Verif.Props.ArmEncoding
import Verif.Props.ArmAlu
import Verif.Props.ArmProgram
import Verif.Props.ArmStartup
import Verif.Props.Tables
import Verif.Props.Tables2
import Verif.Props.LibcStr
import Verif.Props.LibcFmt
import Verif.Props.LibcPrintf
import Verif.Props.LibcHeap
import Verif.Props.LibcMisc
import Verif.Props.Peephole
import Verif.Props.Elf
import Verif.Props.Lexer
import Verif.Props.Parser
import Verif.Props.Cfg
import Verif.Props.Live
import Verif.Props.ConstFold
import Verif.Props.Cse
import Verif.Lemmas.CseFn1
import Verif.Lemmas.CseFn2
import Verif.Props.CseFn
import Verif.Props.CseFnExample
import Verif.Props.Dce
import Verif.Props.RegAlloc
import Verif.Props.RaBlock
import Verif.Props.RaExample
import Verif.Props.RaWitness
import Verif.Props.RaFn
import Verif.Props.RaFnExample
import Verif.Props.RaSource
import Verif.Props.RaSourceExample
import Verif.Props.Driver
import Verif.Props.Inliner
import Verif.Props.Preproc
import Verif.Props.SsaBuild
import Verif.Props.Stmt
import Verif.Props.StmtExample
import Verif.Props.Types
import Verif.Spec.CEval
import Verif.Spec.CSyntax
import Verif.Model.ExprGen
import Verif.Lemmas.ExprGen1
import Verif.Lemmas.ExprGen2
import Verif.Lemmas.ExprGen3
import Verif.Lemmas.ExprGen4
import Verif.Lemmas.ExprGen5
import Verif.Lemmas.ExprGen6
import Verif.Lemmas.ExprGen7
import Verif.Props.ExprGen
import Verif.Props.ExprExample
import Verif.Props.SsaProgram
import Verif.Props.GlobalInit
import Verif.Props.SsaImage
import Verif.Props.SsaImageExample
import Verif.Props.SsaExec
import Verif.Props.Macro
import Verif.Props.LibcIo
import Verif.Props.Source
import Verif.Props.SsaReachImage
import Verif.Props.SsaReachExample
import Verif.Props.DceFn
import Verif.Props.DceFnExample
import Verif.Props.ConstFoldFn
import Verif.Spec.CProgram
import Verif.Model.Optimize
import Verif.Lemmas.Optimize
import Verif.Lemmas.Link
import Verif.Lemmas.LinkExec
import Verif.Props.CProgram
import Verif.Props.CProgramProg
import Verif.Props.CProgramExample
import Verif.Model.Body
import Verif.Spec.CBody
import Verif.Spec.CBodyProg
import Verif.Lemmas.Body1
import Verif.Lemmas.Body2
import Verif.Lemmas.Body3
import Verif.Lemmas.Body4
import Verif.Lemmas.Body5
import Verif.Lemmas.Fuel
import Verif.Props.Body
import Verif.Props.BodyExample
import Verif.Props.BodyValues
import Verif.Props.Diag
import Verif.Props.CBodyProg
import Verif.Props.CBodyProgExample
import Verif.Spec.CUnit
import Verif.Spec.CWhole
import Verif.Model.Top
import Verif.Lemmas.TopFuel
import Verif.Lemmas.Top1
import Verif.Lemmas.Top2
import Verif.Lemmas.Top3
import Verif.Props.Top
import Verif.Props.TopExample
import Verif.Props.Whole
import Verif.Props.WholeExample
import Verif.Model.Calls
import Verif.Model.Skip
import Verif.Spec.CEnds
import Verif.Lemmas.Ends
import Verif.Lemmas.TopEnds
import Verif.Lemmas.LexEnds
import Verif.Props.Ends
import Verif.Model.Names
import Verif.Props.Names
import Verif.Model.Release
import Verif.Lemmas.Release
import Verif.Props.Release
import Verif.Spec.CFlow
import Verif.Lemmas.StmtShape
import Verif.Lemmas.StmtShape2
import Verif.Lemmas.StmtWays
import Verif.Lemmas.StmtWays2
import Verif.Lemmas.StmtOut
import Verif.Lemmas.SsaStrict
import Verif.Lemmas.DceInput
import Verif.Props.Graph
import Verif.Model.UseChain
import Verif.Lemmas.UseChain
import Verif.Lemmas.CseInsn
import Verif.Props.UseChain

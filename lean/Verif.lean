import Verif.Lemmas.AciIdem
import Verif.Lemmas.AciLaw
import Verif.Lemmas.AciNormal
import Verif.Lemmas.AciSound
import Verif.Lemmas.Alpha
import Verif.Lemmas.Arith
import Verif.Lemmas.ArithSimplify
import Verif.Lemmas.Assoc
import Verif.Lemmas.AssumeStandard
import Verif.Lemmas.BfunAssign
import Verif.Lemmas.BfunElim
import Verif.Lemmas.Bitblast
import Verif.Lemmas.Bv
import Verif.Lemmas.Checker
import Verif.Lemmas.CheckerContext
import Verif.Lemmas.Cnf
import Verif.Lemmas.Coeffs
import Verif.Lemmas.Context
import Verif.Lemmas.ContextRules
import Verif.Lemmas.CpNormalize
import Verif.Lemmas.CtxAgree
import Verif.Lemmas.CuttingPlanes
import Verif.Lemmas.Drup
import Verif.Lemmas.ElabCong
import Verif.Lemmas.ElabPolyeq
import Verif.Lemmas.ElabPolyeqPass
import Verif.Lemmas.ElabPolyeqReord
import Verif.Lemmas.ElabReordering
import Verif.Lemmas.ElabResolution
import Verif.Lemmas.ElabSolver
import Verif.Lemmas.ElabTrans
import Verif.Lemmas.Equality
import Verif.Lemmas.Evaluate
import Verif.Lemmas.EvaluateBv
import Verif.Lemmas.EvaluateOps
import Verif.Lemmas.EvaluateTerm
import Verif.Lemmas.Expansion
import Verif.Lemmas.ExpansionProblem
import Verif.Lemmas.FileParser
import Verif.Lemmas.FileParserPrint
import Verif.Lemmas.FileParserProblem
import Verif.Lemmas.FreeVars
import Verif.Lemmas.FreeVarsModel
import Verif.Lemmas.Greedy
import Verif.Lemmas.Holds
import Verif.Lemmas.IdHelper
import Verif.Lemmas.Lexer
import Verif.Lemmas.LexerString
import Verif.Lemmas.LiaInstances
import Verif.Lemmas.LiaProblem
import Verif.Lemmas.Linear
import Verif.Lemmas.MapRes
import Verif.Lemmas.NoPanic
import Verif.Lemmas.NoPanicArith
import Verif.Lemmas.NoPanicAttr
import Verif.Lemmas.NoPanicCheck
import Verif.Lemmas.NoPanicPb
import Verif.Lemmas.NoPanicPolyeq
import Verif.Lemmas.NoPanicSorted
import Verif.Lemmas.Node
import Verif.Lemmas.NodeList
import Verif.Lemmas.NodeMirror
import Verif.Lemmas.Num
import Verif.Lemmas.Onepoint
import Verif.Lemmas.Parallel
import Verif.Lemmas.PbBlast
import Verif.Lemmas.PbChoice
import Verif.Lemmas.PbRules
import Verif.Lemmas.PlainSubst
import Verif.Lemmas.PolyBv
import Verif.Lemmas.PolyFuel
import Verif.Lemmas.Polyeq
import Verif.Lemmas.PolyeqPlain
import Verif.Lemmas.Polynomial
import Verif.Lemmas.Printer
import Verif.Lemmas.ProofParser
import Verif.Lemmas.ProofPrinter
import Verif.Lemmas.Quantifier
import Verif.Lemmas.Rare
import Verif.Lemmas.RareCheck
import Verif.Lemmas.RareMeaning
import Verif.Lemmas.RareParser
import Verif.Lemmas.RareParserPanic
import Verif.Lemmas.RareTerms
import Verif.Lemmas.ReordEquiv
import Verif.Lemmas.Resolution
import Verif.Lemmas.ResolutionExact
import Verif.Lemmas.ResolutionStrict
import Verif.Lemmas.RupExact
import Verif.Lemmas.Scheduler
import Verif.Lemmas.SchedulerIter
import Verif.Lemmas.SchedulerRun
import Verif.Lemmas.SchedulerTotal
import Verif.Lemmas.Scope
import Verif.Lemmas.SharedContext
import Verif.Lemmas.SharedLoads
import Verif.Lemmas.SharedPrinter
import Verif.Lemmas.SharedProgress
import Verif.Lemmas.SharedText
import Verif.Lemmas.Simplify
import Verif.Lemmas.Skolem
import Verif.Lemmas.SliceCopy
import Verif.Lemmas.SliceFiles
import Verif.Lemmas.SliceFold
import Verif.Lemmas.SliceKeep
import Verif.Lemmas.SliceLoop
import Verif.Lemmas.SliceNames
import Verif.Lemmas.SliceOut
import Verif.Lemmas.SlicePrem
import Verif.Lemmas.SolverProblem
import Verif.Lemmas.SolverProblemText
import Verif.Lemmas.Sorts
import Verif.Lemmas.StringRules
import Verif.Lemmas.Strings
import Verif.Lemmas.Subproof
import Verif.Lemmas.Substitution
import Verif.Lemmas.SubstitutionApply
import Verif.Lemmas.SubstitutionLet
import Verif.Lemmas.SubstitutionSort
import Verif.Lemmas.Subterms
import Verif.Lemmas.TermParser
import Verif.Lemmas.TermParserDef
import Verif.Lemmas.TermParserFuel
import Verif.Lemmas.TermParserMake
import Verif.Lemmas.TermParserPanic
import Verif.Lemmas.TermParserPool
import Verif.Lemmas.TermParserPrint
import Verif.Lemmas.TermParserReadSort
import Verif.Lemmas.TermParserReader
import Verif.Lemmas.TermParserSort
import Verif.Lemmas.Uncrowding
import Verif.Lemmas.UncrowdingTotal
import Verif.Lemmas.Unshared
import Verif.Lemmas.Utils
import Verif.Model.AciSimp
import Verif.Model.ArithSimplify
import Verif.Model.Base
import Verif.Model.BfunElim
import Verif.Model.BindLet
import Verif.Model.Bitvectors
import Verif.Model.Checker
import Verif.Model.CheckerContext
import Verif.Model.Cnf
import Verif.Model.Collections
import Verif.Model.Context
import Verif.Model.CuttingPlanes
import Verif.Model.Drup
import Verif.Model.ElabCong
import Verif.Model.ElabPolyeq
import Verif.Model.ElabPolyeqPass
import Verif.Model.ElabReordering
import Verif.Model.ElabResolution
import Verif.Model.ElabSolver
import Verif.Model.ElabTrans
import Verif.Model.Equality
import Verif.Model.Evaluate
import Verif.Model.FileParser
import Verif.Model.FreeVars
import Verif.Model.IdHelper
import Verif.Model.IteIntro
import Verif.Model.Lexer
import Verif.Model.LiaInstances
import Verif.Model.LiaProblem
import Verif.Model.Linear
import Verif.Model.Node
import Verif.Model.NodeList
import Verif.Model.Numbers
import Verif.Model.Parallel
import Verif.Model.PbBlast
import Verif.Model.Polyeq
import Verif.Model.Polynomial
import Verif.Model.Pool
import Verif.Model.Printer
import Verif.Model.Proof
import Verif.Model.ProofParser
import Verif.Model.ProofPrinter
import Verif.Model.Quantifier
import Verif.Model.Rare
import Verif.Model.RareParser
import Verif.Model.Resolution
import Verif.Model.RuleTable
import Verif.Model.Scheduler
import Verif.Model.SharedContext
import Verif.Model.SharedPrinter
import Verif.Model.Simplify
import Verif.Model.Slice
import Verif.Model.SliceFiles
import Verif.Model.SolverProblem
import Verif.Model.Sorts
import Verif.Model.Strings
import Verif.Model.Subproof
import Verif.Model.Substitution
import Verif.Model.Term
import Verif.Model.TermParser
import Verif.Model.Uncrowding
import Verif.Model.Utils
import Verif.Props.C01
import Verif.Props.C01Contexts
import Verif.Props.C03
import Verif.Props.C04
import Verif.Props.C05
import Verif.Props.C07
import Verif.Props.C08
import Verif.Props.C09
import Verif.Props.C10
import Verif.Props.C12
import Verif.Props.C12Bfun
import Verif.Props.C12Ite
import Verif.Props.C13
import Verif.Props.C14
import Verif.Props.C15
import Verif.Props.C16
import Verif.Props.C17
import Verif.Props.C18
import Verif.Props.C19
import Verif.Props.C19Fails
import Verif.Props.C20
import Verif.Props.C21
import Verif.Props.C22
import Verif.Props.C23
import Verif.Props.C24
import Verif.Props.C25
import Verif.Props.C26
import Verif.Props.C27
import Verif.Props.C28
import Verif.Props.C31
import Verif.Props.C32
import Verif.Props.C33
import Verif.Props.C34
import Verif.Props.C35
import Verif.Props.C36
import Verif.Props.C37
import Verif.Props.C38
import Verif.Props.C39
import Verif.Props.C40
import Verif.Props.C40Pb
import Verif.Props.C41
import Verif.Props.C42
import Verif.Props.C45
import Verif.Props.C46
import Verif.Props.C46Fails
import Verif.Props.C46Len
import Verif.Props.C46Prop
import Verif.Props.C46Re
import Verif.Props.C47
import Verif.Props.C48
import Verif.Props.C49
import Verif.Props.C50
import Verif.Props.C51
import Verif.Props.C52
import Verif.Props.C53
import Verif.Props.C54
import Verif.Props.C55
import Verif.Props.C56
import Verif.Props.C57
import Verif.Props.C58
import Verif.Props.C59
import Verif.Props.C60
import Verif.Props.C61
import Verif.Props.C62
import Verif.Props.C63
import Verif.Props.C64
import Verif.Props.C65
import Verif.Props.C66
import Verif.Props.C67
import Verif.Props.C68
import Verif.Spec.AciSimp
import Verif.Spec.Alpha
import Verif.Spec.Arith
import Verif.Spec.Context
import Verif.Spec.ContextHistory
import Verif.Spec.Elab
import Verif.Spec.ElabPolyeq
import Verif.Spec.ElabPolyeqPass
import Verif.Spec.ElabReordering
import Verif.Spec.ElabResolution
import Verif.Spec.ElabSolver
import Verif.Spec.Evaluate
import Verif.Spec.Expansion
import Verif.Spec.FileParser
import Verif.Spec.FreeVars
import Verif.Spec.Lexer
import Verif.Spec.NodeList
import Verif.Spec.PbBlast
import Verif.Spec.PlainSubst
import Verif.Spec.Polyeq
import Verif.Spec.Printer
import Verif.Spec.Proof
import Verif.Spec.ProofParser
import Verif.Spec.PseudoBoolean
import Verif.Spec.Rare
import Verif.Spec.RareParser
import Verif.Spec.Resolution
import Verif.Spec.Rule
import Verif.Spec.Scheduler
import Verif.Spec.Semantics
import Verif.Spec.SharedContext
import Verif.Spec.SharedLoads
import Verif.Spec.SharedPrinter
import Verif.Spec.Slice
import Verif.Spec.SolverProblem
import Verif.Spec.StringWitness
import Verif.Spec.Strings
import Verif.Spec.Substitution
import Verif.Spec.TermParser
import Verif.Spec.TermParserCalm
import Verif.Spec.Uncrowding
import Verif.Spec.UnitPropagation
import Verif.Spec.Witness

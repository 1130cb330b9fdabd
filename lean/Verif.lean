import Verif.Model.Basic
import Verif.Model.Ops
import Verif.Model.Node
import Verif.Model.Tree
import Verif.Model.SubsSimplifyDiff
import Verif.Model.Format
import Verif.Model.Num
import Verif.Spec.Expr
import Verif.Spec.Subst
import Verif.Spec.Tree
import Verif.Lemmas.Path
import Verif.Lemmas.Tree
import Verif.Lemmas.Dict
import Verif.Lemmas.Subs
import Verif.Lemmas.Simplify
import Verif.Lemmas.Diff
import Verif.Props.Tree
import Verif.Props.Subs
import Verif.Props.Simplify
import Verif.Props.Diff
import Verif.Spec.Real
import Verif.Lemmas.RealDiff
import Verif.Props.RealSimplify
import Verif.Props.RealDiff
import Verif.Model.Parse
import Verif.Spec.Grammar
import Verif.Spec.Lexing
import Verif.Lemmas.Lex
import Verif.Lemmas.Words
import Verif.Lemmas.Shunt
import Verif.Lemmas.Scan
import Verif.Lemmas.Columns
import Verif.Lemmas.Paren
import Verif.Lemmas.Shape
import Verif.Props.Parse
import Verif.Lemmas.MatBasic
import Verif.Lemmas.MatExact
import Verif.Lemmas.MatInverse
import Verif.Lemmas.Sylvester
import Verif.Model.Mat
import Verif.Props.Mat
import Verif.Spec.Exact
import Verif.Model.Nonlinear
import Verif.Model.SymMat
import Verif.Model.VarsTable
import Verif.Lemmas.SymMat
import Verif.Lemmas.VarsTable
import Verif.Props.SymMat
import Verif.Props.VarsTable
import Verif.Spec.SymMatrix
import Verif.Spec.Tables
import Verif.Lemmas.Fine
import Verif.Lemmas.Nonlinear
import Verif.Props.LineSearch
import Verif.Props.Nonlinear
import Verif.Spec.Solve
import Verif.Lemmas.LinearElim
import Verif.Lemmas.LinearExact
import Verif.Lemmas.LinearRun
import Verif.Lemmas.LinearSolve
import Verif.Props.Linear
import Verif.Spec.Linear
import Verif.Lemmas.Format
import Verif.Lemmas.Print
import Verif.Lemmas.RoundTrip
import Verif.Props.Format
import Verif.Props.Print
import Verif.Spec.Printing
import Verif.Lemmas.Links
import Verif.Lemmas.LinksCheck
import Verif.Lemmas.LinksClone
import Verif.Lemmas.LinksDiff
import Verif.Lemmas.LinksDiff2
import Verif.Lemmas.LinksMisc
import Verif.Lemmas.LinksPrint
import Verif.Lemmas.LinksSession
import Verif.Lemmas.LinksSession2
import Verif.Lemmas.LinksSession3
import Verif.Lemmas.LinksSimplify
import Verif.Lemmas.LinksSubs
import Verif.Model.Links
import Verif.Model.Session
import Verif.Props.Links
import Verif.Spec.Links
import Verif.Spec.Session
import Verif.Props.MatMisc
import Verif.Lemmas.Messages
import Verif.Model.Destroy
import Verif.Model.Messages
import Verif.Props.Destroy
import Verif.Props.Messages
import Verif.Props.Endless
import Verif.Props.Underflow
import Verif.Spec.Underflow
import Verif.Lemmas.RealSolve
import Verif.Props.LMSteps
import Verif.Props.RealSolve
import Verif.Spec.LMSteps
import Verif.Spec.RealSystem
import Verif.Lemmas.Safety
import Verif.Props.RealLM
import Verif.Props.Safety
import Verif.Spec.Safety
import Verif.Lemmas.Contract
import Verif.Lemmas.LMLocal
import Verif.Lemmas.LocalSmooth
import Verif.Props.Local
import Verif.Props.LocalLM
import Verif.Lemmas.RealDiffZero
import Verif.Props.DiffZero
import Verif.Spec.SmoothHere
import Verif.Lemmas.Double
import Verif.Lemmas.Ieee
import Verif.Model.Double
import Verif.Model.Ieee
import Verif.Props.IeeeUnderflow
import Verif.Lemmas.IeeeText
import Verif.Lemmas.Rounding
import Verif.Props.IeeePrint
import Verif.Spec.Rounding
import Verif.Props.Rounding
import Verif.Props.RoundingCases
import Verif.Lemmas.DoubleDet
import Verif.Lemmas.DoubleSum
import Verif.Lemmas.MatAny
import Verif.Props.DoubleDet
import Verif.Props.DoubleMat
import Verif.Props.IeeeSolve
import Verif.Spec.DoubleSum
import Verif.Lemmas.DoubleBack
import Verif.Lemmas.DoubleElim
import Verif.Lemmas.DoubleElimStep
import Verif.Lemmas.DoubleLoop
import Verif.Lemmas.DoubleResidual
import Verif.Lemmas.LinearAny
import Verif.Props.DoubleLinear
import Verif.Spec.DoubleLinear
import Verif.Lemmas.SumOrder
import Verif.Props.FindAlpha
import Verif.Model.Recursive
import Verif.Props.DoubleSimplify
import Verif.Props.Recursive
import Verif.Spec.Binary64
import Verif.Spec.DoubleSimplify
import Verif.Lemmas.Binary64
import Verif.Props.Binary64
import Verif.Props.IeeeOps
import Verif.Lemmas.FiniteLits
import Verif.Props.IeeeLM
import Verif.Props.IeeeSafety
import Verif.Spec.Anchored
import Verif.Lemmas.Blame
import Verif.Lemmas.DoubleSafe
import Verif.Props.DoubleSafe
import Verif.Spec.Moderate
import Verif.Lemmas.Logging
import Verif.Model.Logging
import Verif.Props.IeeeMat
import Verif.Props.IeeeTables
import Verif.Props.Logging
import Verif.Lemmas.DoubleDetErr
import Verif.Props.DoubleDetErr
import Verif.Spec.DoubleDet
import Verif.Lemmas.Visible
import Verif.Props.IeeeVisible
import Verif.Spec.Visible
import Verif.Model.Angles
import Verif.Model.Counters
import Verif.Model.TableIter
import Verif.Props.Angles
import Verif.Props.Counters
import Verif.Props.Schedule
import Verif.Props.TableIter
import Verif.Spec.Schedule
import Verif.Model.Buffer
import Verif.Props.Buffer
import Verif.Props.Size
import Verif.Spec.Size
import Verif.Props.AffineLM
import Verif.Props.DoubleDiff
import Verif.Props.TextValue
import Verif.Spec.Derivative
import Verif.Spec.DoubleDiff
import Verif.Spec.TextValue
import Verif.Model.DiffMachine
import Verif.Model.Examples
import Verif.Model.RandomTree
import Verif.Props.DiffMachine
import Verif.Props.Examples
import Verif.Props.RandomTree
import Verif.Spec.DiffMachine
import Verif.Props.DoubleDiffAll
import Verif.Props.Work
import Verif.Lemmas.Rename
import Verif.Model.EvalMessages
import Verif.Props.EvalMessages
import Verif.Props.Rename
import Verif.Spec.FirstFailure
import Verif.Spec.Rename
import Verif.Props.NearRoot
import Verif.Props.Quadratic
import Verif.Spec.NearRoot
import Verif.Lemmas.RoundedNewton
import Verif.Props.RoundedNewton
import Verif.Props.RoundedNewtonCase
import Verif.Spec.RoundedNewton
import Verif.Lemmas.SolveMessages
import Verif.Lemmas.Still
import Verif.Model.SolveMessages
import Verif.Props.SolveMessages
import Verif.Spec.SolverTexts
import Verif.Lemmas.MixedPartial
import Verif.Model.SymVec
import Verif.Props.MixedPartial
import Verif.Props.SymVec
import Verif.Spec.MixedPartial
import Verif.Lemmas.Combine
import Verif.Lemmas.CombineLines
import Verif.Model.Combine
import Verif.Props.Combine
import Verif.Props.CombineLines
import Verif.Spec.Combine
import Verif.Lemmas.Settings
import Verif.Model.Settings
import Verif.Props.NoOperator
import Verif.Props.Settings
import Verif.Spec.Settings
import Verif.Lemmas.PrintStable
import Verif.Props.PrintStable
import Verif.Props.ThreadObjects
import Verif.Spec.PrintStable
import Verif.Props.NewtonOrder
import Verif.Spec.NewtonPoints
import Verif.Lemmas.Compose
import Verif.Props.ChainRule
import Verif.Props.Compose
import Verif.Props.Resolve
import Verif.Spec.Replace
import Verif.Props.ConvexNewton
import Verif.Spec.ConvexNewton
import Verif.Props.TextSolve
import Verif.Spec.TextSolve
import Verif.Spec.Rewrite
import Verif.Props.KnownSolve
import Verif.Props.NewtonRewrite
import Verif.Model.SharedConfig
import Verif.Props.SharedConfig
import Verif.Spec.SharedConfig
import Verif.Lemmas.GlobalLM
import Verif.Props.GlobalLM
import Verif.Spec.Everywhere
import Verif.Props.MatProgram
import Verif.Props.SameFunction
import Verif.Spec.MatProgram
import Verif.Lemmas.RoundedLM
import Verif.Props.RoundedLM
import Verif.Props.RoundedLMCase
import Verif.Props.RoundedStart
import Verif.Props.RoundedStartCase
import Verif.Spec.RoundedLM
import Verif.Lemmas.ComputedLM
import Verif.Lemmas.ComputedNewton
import Verif.Props.TextDeriv
import Verif.Spec.TextDeriv
import Verif.Lemmas.SystemLM
import Verif.Props.WrittenSolve
import Verif.Props.WrittenSolveCase
import Verif.Spec.WrittenSolve
import Verif.Lemmas.SystemLMDirection
import Verif.Lemmas.SystemLMLoop
import Verif.Lemmas.SystemLMNumbers
import Verif.Lemmas.SystemLMStep
import Verif.Props.SystemLM
import Verif.Props.SystemLMCase
import Verif.Spec.SystemLM
import Verif.Props.Reread
import Verif.Props.RecursiveText
import Verif.Props.HigherDiff
import Verif.Props.WrittenSystemCase
import Verif.Spec.HigherDiff
import Verif.Spec.Reread
import Verif.Props.Platform
import Verif.Lemmas.SquareRoot
import Verif.Props.SquareRoot
import Verif.Spec.Platform
import Verif.Spec.SquareRoot
import Verif.Spec.Side
import Verif.Props.NoRoot
import Verif.Props.NoSquare
import Verif.Props.SquareText
import Verif.Lemmas.Shift
import Verif.Props.Shift
import Verif.Spec.Shift
import Verif.Lemmas.Affine
import Verif.Props.Affine
import Verif.Spec.Affine

import Verif.Props.Parse
import Verif.Props.Trees
import Verif.Props.Values
import Verif.Props.TermType
import Verif.Props.Api
import Verif.Props.Greedy
import Verif.Props.GreedyExact
import Verif.Props.Extract
import Verif.Props.Local
import Verif.Props.LocalExact
import Verif.Props.Refine
import Verif.Props.Lexer
import Verif.Props.LexerExact
import Verif.Props.Load
import Verif.Props.Loaded
import Verif.Props.Eval
import Verif.Props.Bracketed
import Verif.Props.Index
import Verif.Props.FrameWitness
import Verif.Props.Funcs
import Verif.Props.Conc
import Verif.Props.Once
import Verif.Props.Stringer
import Verif.Props.Prefix
import Verif.Props.TreeJson
import Verif.Props.Arith
import Verif.Props.ArithDec
import Verif.Props.Div
import Verif.Props.Prime
import Verif.Spec.NullSafe
import Verif.Proofs.NullSafe
import Verif.Props.NullSafe
import Verif.Props.Size
import Verif.Props.Mono
import Verif.Model.Bytes
import Verif.Spec.Position
import Verif.Proofs.BytesRun
import Verif.Proofs.BytesDisc
import Verif.Proofs.Utf8
import Verif.Proofs.BytesSim
import Verif.Props.Bytes
import Verif.Proofs.BytesLocal
import Verif.Props.BytesLocal
import Verif.Proofs.BytesLoud
import Verif.Props.BytesLoud
import Verif.Model.Print
import Verif.Spec.Shown
import Verif.Proofs.Print
import Verif.Proofs.PrintTree
import Verif.Proofs.PrintEnv
import Verif.Props.Print
import Verif.Spec.Whole
import Verif.Spec.TextTrees
import Verif.Spec.TextFrames
import Verif.Proofs.Whole
import Verif.Proofs.WholeDoc
import Verif.Proofs.WholeHeld
import Verif.Proofs.WholeSafe
import Verif.Proofs.TextTrees
import Verif.Proofs.TextFrames
import Verif.Props.Whole
import Verif.Props.EndToEnd
import Verif.Props.WholeDrivers
import Verif.Props.WholeWitness
import Verif.Props.TextTrees
import Verif.Props.TextTreesWitness
import Verif.Props.TextFrames
import Verif.Props.TextFramesWitness
import Verif.Spec.TextMeaning
import Verif.Proofs.TextMeaning
import Verif.Props.TextMeaning
import Verif.Props.TextMeaningWitness
import Verif.Spec.Accept
import Verif.Proofs.Accept
import Verif.Proofs.Unique
import Verif.Props.Accept
import Verif.Spec.IntText
import Verif.Props.IntText
import Verif.Props.Overflow
import Verif.Props.ArithShown
import Verif.Props.NumberZhWitness
import Verif.Props.Shipped
import Verif.Props.Epsilon
import Verif.Props.CalcWitness
import Verif.Props.NumberEn
import Verif.Props.Builtin
import Verif.Props.CnNum
import Verif.Props.Spines
import Verif.Props.Orders
import Verif.Props.Rename
import Verif.Props.Called
import Verif.Props.Pow
import Verif.Props.Program
import Verif.Props.ProgramWitness
import Verif.Props.PowAccurate
import Verif.Props.Answers
import Verif.Props.Library
import Verif.Props.MovedWitness
import Verif.Props.Alike
import Verif.Props.Separate
import Verif.Props.Visible
import Verif.Props.Json
import Verif.Props.FrameText
import Verif.Props.Extend
import Verif.Props.Qian
import Verif.Props.Alone
import Verif.Props.Tagged
import Verif.Props.Starts
import Verif.Props.Fraction
import Verif.Props.Meanwhile
import Verif.Props.LoadedBefore
import Verif.Props.Trimmed
import Verif.Props.Tagger
import Verif.Props.Agree
import Verif.Props.SlotPlaces
import Verif.Props.Utf8Text
import Verif.Props.FrameSpace
import Verif.Props.Layout
import Verif.Props.UnusedWitness
import Verif.Props.SayMoreWitness
import Verif.Props.PasteWitness

import Verif.Props.Prime
import Verif.Props.HashTable
import Verif.Props.HashCons
import Verif.Props.Scc
import Verif.Props.Dnc
import Verif.Props.Runtime
import Verif.Props.RuntimeMore
import Verif.Props.RuntimePhyla
import Verif.Props.Symbol
import Verif.Props.Alist
import Verif.Props.Rope
import Verif.Props.Alloc
import Verif.Props.Oag
import Verif.Props.IfCond
import Verif.Props.Phase
import Verif.Props.CType
import Verif.Props.Fiberset
import Verif.Props.Cycle
import Verif.Props.CycleBreak
import Verif.Props.Coll
import Verif.Props.CollSet
import Verif.Props.Str
import Verif.Props.Table
import Verif.Props.TableScala
import Verif.Props.Lattice
import Verif.Props.ScalaLib
import Verif.Props.ScalaEval
import Verif.Props.DynGen
import Verif.Props.Bind
import Verif.Props.Chunk
import Verif.Props.Static
import Verif.Props.Next
import Verif.Props.OagMain
import Verif.Props.EdgeGen
import Verif.Props.Points
import Verif.Props.Dfa
import Verif.Props.Fsa
import Verif.Props.Pipeline
import Verif.Props.Source
import Verif.Props.TypeCheck
import Verif.Props.Lex
import Verif.Props.Parse
import Verif.Props.Read
import Verif.Props.SccGen
import Verif.Props.SccPlan
import Verif.Props.CanonTy
import Verif.Props.CSig
import Verif.Props.SigInfer
import Verif.Props.Ast
import Verif.Props.Service
import Verif.Props.Qual
import Verif.Props.ScalaPat
import Verif.Props.ExprGen
import Verif.Props.Driver
import Verif.Props.Path
import Verif.Props.Traits
import Verif.Props.Rule
import Verif.Props.Util
import Verif.Props.Locals
import Verif.Props.Func
import Verif.Props.Layout
import Verif.Props.CService
import Verif.Props.Nodes
import Verif.Props.Start
import Verif.Props.Consts
import Verif.Props.TopTypes
import Verif.Props.TopVals
import Verif.Props.Objects

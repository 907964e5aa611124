import Verif.Term
import Verif.Val
import Verif.Midend.Equiv
import Verif.Midend.Substitution
import Verif.Midend.Inline
import Verif.Midend.Insertions
import Verif.Midend.Licm
import Verif.Midend.Cse
import Verif.Midend.InlineMemo
import Verif.Midend.Outline
import Verif.Midend.Coherent
import Verif.Midend.LicmCoherent
import Verif.Phi.Syntax
import Verif.Phi.Sem
import Verif.Phi.Run
import Verif.Props.C13
import Verif.Midend.OutlineOk
import Verif.Midend.Decide
import Verif.Midend.Strict
import Verif.Midend.SubstStrict
import Verif.Phi.Busy
import Verif.Toy
import Verif.Props.C08
import Verif.Props.C09
import Verif.Props.C10
import Verif.Props.C28
import Verif.Phi.Prim
import Verif.Exact
import Verif.FloatOrder
import Verif.Frontend.Scalar
import Verif.Frontend.Std
import Verif.Backend.Reduce
import Verif.Props.C05
import Verif.Props.C15
import Verif.Props.C17
import Verif.Props.C24
import Verif.Props.C25
import Verif.Props.C32
import Verif.Backend.Dict
import Verif.Backend.Naive
import Verif.Props.C19
import Verif.Props.C27
import Verif.Frontend.Layout
import Verif.Props.C16
import Verif.Value
import Verif.Props.C23
import Verif.Frontend.Functions
import Verif.Props.C18
import Verif.Codegen.Clip
import Verif.Props.C04
import Verif.Array.NArr
import Verif.Array.Ops
import Verif.Array.Shape
import Verif.Yarr.Syntax
import Verif.Yarr.Sem
import Verif.Yarr.Rank
import Verif.Yarr.Strict
import Verif.Yarr.Cancel
import Verif.Props.C08Array
import Verif.Props.C29
import Verif.Props.C31
import Verif.Array.Window
import Verif.Codegen.PadSlice
import Verif.Backend.EdgePad
import Verif.Props.C03
import Verif.Codegen.Axial
import Verif.Codegen.Align
import Verif.Codegen.AlignEval
import Verif.Codegen.Broadcast
import Verif.Codegen.AlongEval
import Verif.Props.C22
import Verif.Phi.Sound
import Verif.Props.C14
import Verif.Codegen.Tuples
import Verif.Codegen.GetEval
import Verif.Codegen.Reps
import Verif.Codegen.Compile
import Verif.Codegen.Means
import Verif.Codegen.MeansOps
import Verif.Codegen.MeansTup
import Verif.Codegen.MeansGet
import Verif.Codegen.Checked
import Verif.Codegen.Axes
import Verif.Codegen.Env
import Verif.Codegen.Correct
import Verif.Codegen.Compiled
import Verif.Codegen.Typed
import Verif.Codegen.Decl
import Verif.Props.C01
import Verif.Props.C02
import Verif.Props.C26
import Verif.Phi.Regular
import Verif.Midend.SizeClasses
import Verif.Midend.SizePath
import Verif.Midend.SizeMoment
import Verif.Props.C12
import Verif.Frontend.InferSizes
import Verif.Props.C21
import Verif.Codegen.Reduction
import Verif.Props.C06
import Verif.Codegen.Chain
import Verif.Codegen.Dot
import Verif.Codegen.Letters
import Verif.Codegen.Einsum
import Verif.Codegen.Contract
import Verif.Props.C07
import Verif.Backend.Memory
import Verif.Backend.Inplace
import Verif.Backend.InplaceSim
import Verif.Backend.InplacePass
import Verif.Props.C20
import Verif.Backend.Prims
import Verif.Backend.PrimsLe
import Verif.Backend.Careful
import Verif.Codegen.Generated
import Verif.Props.C30
import Verif.Midend.Structs
import Verif.Midend.StructsArr
import Verif.Midend.StructsCases
import Verif.Midend.StructsFine
import Verif.Midend.StructsLeaf
import Verif.Midend.StructsMain
import Verif.Midend.StructsOk
import Verif.Midend.StructsParts
import Verif.Midend.StructsReduce
import Verif.Midend.StructsSpec
import Verif.Midend.StructsSubst
import Verif.Midend.StructsVal
import Verif.Props.C11
import Verif.Midend.StructsTotal
import Verif.Codegen.Plan
import Verif.Codegen.AxesOf
import Verif.Codegen.Planned
import Verif.Props.C01Default
import Verif.Midend.OutlineHeads
import Verif.Midend.Lazy
import Verif.Props.C33
import Verif.Props.C34
import Verif.Midend.InsTree
import Verif.Midend.InsStages
import Verif.Midend.Renames
import Verif.Midend.OutlineTotal
import Verif.Midend.OutlineAtoms
import Verif.Codegen.Unused
import Verif.Codegen.Slices
import Verif.Codegen.RedLoop
import Verif.Codegen.Reduced
import Verif.Props.C01Reduce
import Verif.Backend.Staged
import Verif.Codegen.Memo
import Verif.Codegen.MemoAgree
import Verif.Codegen.MemoSim
import Verif.Codegen.MemoValid
import Verif.Props.C35
import Verif.Codegen.Built
import Verif.Codegen.Scoping
import Verif.Codegen.MemoBuilt
import Verif.Codegen.CodeScoped
import Verif.Yarr.CancelScoped
import Verif.Codegen.External
import Verif.Codegen.Calls
import Verif.Frontend.Extrinsic
import Verif.Props.C36
import Verif.Backend.Jax
import Verif.Props.C37
import Verif.Frontend.Objects
import Verif.Frontend.PyValue
import Verif.Frontend.ObjLemmas
import Verif.Props.C38
import Verif.Frontend.ObjSizes
import Verif.Props.C39
import Verif.Backend.Loaded
import Verif.Frontend.Decorated
import Verif.Props.C40
import Verif.Frontend.Script
import Verif.Frontend.ScriptLemmas
import Verif.Frontend.ScriptSound
import Verif.Frontend.ScriptMain
import Verif.Frontend.ScriptTraces
import Verif.Props.C41
import Verif.Frontend.ScriptInfer
import Verif.Frontend.ScriptAuto
import Verif.Frontend.ScriptKeeps
import Verif.Frontend.ScriptConforms
import Verif.Frontend.ScriptAgreeLemmas
import Verif.Frontend.ScriptAgree
import Verif.Props.C42
import Verif.Frontend.ScriptSays
import Verif.Frontend.ScriptClean
import Verif.Frontend.ScriptGives
import Verif.Frontend.ScriptStd
import Verif.Props.C43
import Verif.Props.C44
import Verif.Props.C45
import Verif.Props.C12Triggers

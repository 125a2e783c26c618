import Verif.Examples.Demo
import Verif.Lemmas.Accept
import Verif.Lemmas.Achieve
import Verif.Lemmas.ActionBuf
import Verif.Lemmas.App
import Verif.Lemmas.AxiomState
import Verif.Lemmas.Cascade
import Verif.Lemmas.CascadeBuilt
import Verif.Lemmas.CascadeCompare
import Verif.Lemmas.CascadeFire
import Verif.Lemmas.Closure
import Verif.Lemmas.ClosureMono
import Verif.Lemmas.Combination
import Verif.Lemmas.Commute
import Verif.Lemmas.Completion
import Verif.Lemmas.Construct
import Verif.Lemmas.Depth
import Verif.Lemmas.Derived
import Verif.Lemmas.DerivedTerm
import Verif.Lemmas.Detect
import Verif.Lemmas.EffectRel
import Verif.Lemmas.Effects
import Verif.Lemmas.Fire
import Verif.Lemmas.Formula
import Verif.Lemmas.FormulaBuf
import Verif.Lemmas.FormulaSim
import Verif.Lemmas.FormulaString
import Verif.Lemmas.Frame
import Verif.Lemmas.GenCopy
import Verif.Lemmas.HashSet
import Verif.Lemmas.HashSetIter
import Verif.Lemmas.Heap
import Verif.Lemmas.IndexIter
import Verif.Lemmas.IterRel
import Verif.Lemmas.KeepAxioms
import Verif.Lemmas.Least
import Verif.Lemmas.Load
import Verif.Lemmas.Monotone
import Verif.Lemmas.MoreObjects
import Verif.Lemmas.NormalAxioms
import Verif.Lemmas.NormalAxiomsEff
import Verif.Lemmas.NormalEff
import Verif.Lemmas.NormalForm
import Verif.Lemmas.NormalReturns
import Verif.Lemmas.NormalSat
import Verif.Lemmas.ObjRef
import Verif.Lemmas.Object
import Verif.Lemmas.OnePass
import Verif.Lemmas.Order
import Verif.Lemmas.Parse
import Verif.Lemmas.ParseAction
import Verif.Lemmas.PartialApply
import Verif.Lemmas.PartialAxiom
import Verif.Lemmas.Planner
import Verif.Lemmas.PlannerBack
import Verif.Lemmas.PlannerBuf
import Verif.Lemmas.Prepare
import Verif.Lemmas.Print
import Verif.Lemmas.Problem
import Verif.Lemmas.Propagate
import Verif.Lemmas.PropagateReturns
import Verif.Lemmas.PyIter
import Verif.Lemmas.PyLife
import Verif.Lemmas.Python
import Verif.Lemmas.Relevant
import Verif.Lemmas.RelevantBuf
import Verif.Lemmas.Rename
import Verif.Lemmas.RenameApi
import Verif.Lemmas.RenameDnf
import Verif.Lemmas.RenameIndex
import Verif.Lemmas.RenameMake
import Verif.Lemmas.RenameNorm
import Verif.Lemmas.RenamePddl
import Verif.Lemmas.Reorder
import Verif.Lemmas.Res
import Verif.Lemmas.Returns
import Verif.Lemmas.SameObjects
import Verif.Lemmas.Search
import Verif.Lemmas.SearchStar
import Verif.Lemmas.State
import Verif.Lemmas.StateIndex
import Verif.Lemmas.Strata
import Verif.Lemmas.StrataLow
import Verif.Lemmas.Stringify
import Verif.Lemmas.Symmetry
import Verif.Lemmas.Terminate
import Verif.Lemmas.Trigger
import Verif.Lemmas.TypeSound
import Verif.Lemmas.Universe
import Verif.Lemmas.UniverseBuf
import Verif.Lemmas.ValidPartial
import Verif.Lemmas.VecState
import Verif.Model.Action
import Verif.Model.ActionBuf
import Verif.Model.ApiBuf
import Verif.Model.App
import Verif.Model.Axiom
import Verif.Model.AxiomOne
import Verif.Model.Combination
import Verif.Model.Formula
import Verif.Model.FormulaBuf
import Verif.Model.FormulaString
import Verif.Model.GenCopy
import Verif.Model.HashSet
import Verif.Model.Heap
import Verif.Model.IndexIter
import Verif.Model.Load
import Verif.Model.NodeIter
import Verif.Model.NormalAxioms
import Verif.Model.NormalForm
import Verif.Model.Normalize
import Verif.Model.ObjRef
import Verif.Model.Object
import Verif.Model.Order
import Verif.Model.Parse
import Verif.Model.Pddl
import Verif.Model.PddlBuf
import Verif.Model.Planner
import Verif.Model.PlannerBack
import Verif.Model.Prelude
import Verif.Model.Print
import Verif.Model.Problem
import Verif.Model.PyIter
import Verif.Model.PyLife
import Verif.Model.Python
import Verif.Model.Search
import Verif.Model.State
import Verif.Model.StateIndex
import Verif.Model.StringApi
import Verif.Model.Syntax
import Verif.Model.VecState
import Verif.Props.App
import Verif.Props.AxiomOne
import Verif.Props.Axioms
import Verif.Props.AxiomsBuf
import Verif.Props.Buffers
import Verif.Props.BuffersApi
import Verif.Props.CallsBuf
import Verif.Props.Cascade
import Verif.Props.ChildrenBuf
import Verif.Props.Closure
import Verif.Props.Combinations
import Verif.Props.Commute
import Verif.Props.Complete
import Verif.Props.CompleteBuf
import Verif.Props.Completion
import Verif.Props.Conditional
import Verif.Props.Conformant
import Verif.Props.Construct
import Verif.Props.Depth
import Verif.Props.Derived
import Verif.Props.Detect
import Verif.Props.Effects
import Verif.Props.FormulaStrings
import Verif.Props.Formulas
import Verif.Props.Frame
import Verif.Props.GenCopy
import Verif.Props.HashSetInit
import Verif.Props.IndexIter
import Verif.Props.KeepAxioms
import Verif.Props.Knowledge
import Verif.Props.Least
import Verif.Props.Load
import Verif.Props.Monotone
import Verif.Props.MoreActions
import Verif.Props.MoreObjects
import Verif.Props.NodeIter
import Verif.Props.Normal
import Verif.Props.NormalAxioms
import Verif.Props.ObjRef
import Verif.Props.Objects
import Verif.Props.OnePass
import Verif.Props.Partial
import Verif.Props.PartialApply
import Verif.Props.PartialReturns
import Verif.Props.Passes
import Verif.Props.Planner
import Verif.Props.PlannerBack
import Verif.Props.Plans
import Verif.Props.PlansBuf
import Verif.Props.Print
import Verif.Props.Problem
import Verif.Props.Propagate
import Verif.Props.PyIter
import Verif.Props.PyLife
import Verif.Props.Python
import Verif.Props.Relevant
import Verif.Props.Rename
import Verif.Props.Reorder
import Verif.Props.ReorderRules
import Verif.Props.ReturnedSearch
import Verif.Props.ReturnedStar
import Verif.Props.Returns
import Verif.Props.Search
import Verif.Props.SearchBuf
import Verif.Props.StarBuf
import Verif.Props.StateIndex
import Verif.Props.States
import Verif.Props.Strata
import Verif.Props.StringApi
import Verif.Props.Strings
import Verif.Props.Symmetry
import Verif.Props.Triggers
import Verif.Props.Twice
import Verif.Props.TypeSound
import Verif.Props.Types
import Verif.Props.ValidPartial
import Verif.Props.VecState
import Verif.Spec.App
import Verif.Spec.Axioms
import Verif.Spec.Cascade
import Verif.Spec.Commute
import Verif.Spec.Conformant
import Verif.Spec.Construct
import Verif.Spec.Depth
import Verif.Spec.Derived
import Verif.Spec.Detect
import Verif.Spec.Effects
import Verif.Spec.Frame
import Verif.Spec.GenCopy
import Verif.Spec.IndexIter
import Verif.Spec.KeepAxioms
import Verif.Spec.Knowledge
import Verif.Spec.Least
import Verif.Spec.Load
import Verif.Spec.Monotone
import Verif.Spec.MoreActions
import Verif.Spec.MoreObjects
import Verif.Spec.NodeIter
import Verif.Spec.Normal
import Verif.Spec.ObjRef
import Verif.Spec.Objects
import Verif.Spec.OnePass
import Verif.Spec.Order
import Verif.Spec.Partial
import Verif.Spec.PartialApply
import Verif.Spec.Pddl
import Verif.Spec.Planner
import Verif.Spec.Plans
import Verif.Spec.Print
import Verif.Spec.Problem
import Verif.Spec.Product
import Verif.Spec.Propagate
import Verif.Spec.PyIter
import Verif.Spec.PyLife
import Verif.Spec.Relevant
import Verif.Spec.Rename
import Verif.Spec.Reorder
import Verif.Spec.Satisfaction
import Verif.Spec.Search
import Verif.Spec.SetHistory
import Verif.Spec.StateIndex
import Verif.Spec.Strata
import Verif.Spec.Strings
import Verif.Spec.Symmetry
import Verif.Spec.Trigger
import Verif.Spec.TypeChecked
import Verif.Spec.Typing
import Verif.Spec.WellFormed

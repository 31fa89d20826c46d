import Verif.Util.Props
import Verif.Util.Props2
import Verif.Constraints.Gen
import Verif.FE.Props5
import Verif.FE.Invariance
import Verif.FE.Collapse
import Verif.FE.Stayers
import Verif.FE.Components
import Verif.FE.Direction
import Verif.FEControl.Props2
import Verif.FEControl.TraceModel
import Verif.FEControl.Design
import Verif.FEControl.Traces
import Verif.FEControl.Traces2
import Verif.FEControl.Traces3
import Verif.FEControl.Tolerance
import Verif.FEControl.Probes
import Verif.FEControl.Efficient
import Verif.FEControl.ManyMovers
import Verif.FEControl.FewObs
import Verif.FEControl.LimitedMobility
import Verif.FEControl.Mobility
import Verif.FEControl.Balance
import Verif.FEControl.StdErr
import Verif.FEControl.TraceSpread
import Verif.FE.Bridges
import Verif.FEControl.NoControls
import Verif.FEControl.Net
import Verif.FEControl.Direction
import Verif.FEControl.Invariance
import Verif.FE.Props7
import Verif.CRE.Props2
import Verif.CRE.Prep
import Verif.CRE.Invariance
import Verif.BS.Props
import Verif.BS.Invariance
import Verif.BS.Rows
import Verif.Sorkin.Props
import Verif.Sorkin.Converge
import Verif.FE.Props6
import Verif.FE.Tolerance
import Verif.FE.Probes
import Verif.FE.Lagged
import Verif.FE.Early
import Verif.FE.Results
import Verif.FE.ResultsLemmas
import Verif.FE.ResultsProps
import Verif.FE.ResultsValues
import Verif.FE.ResultsMore
import Verif.FE.ResultsClash
import Verif.BLM.Realloc
import Verif.BLM.Select
import Verif.BLM.Estim
import Verif.BLM.EstimProps
import Verif.BLM.Plots
import Verif.BLM.PlotsProps
import Verif.BLM.PlotsBoot
import Verif.BLM.Start
import Verif.BLM.Restore
import Verif.BLM.Connect
import Verif.BLM.Stop
import Verif.BLM.Ends
import Verif.BLM.Stationary
import Verif.BLM.Rate
import Verif.BLM.Prior
import Verif.BLM.Range
import Verif.BLM.Converge
import Verif.BLM.Settle
import Verif.BLM.Critical
import Verif.BLM.Controls
import Verif.BLM.ControlProps
import Verif.BLM.ControlLoop
import Verif.BLM.ControlVars
import Verif.BLM.ControlFalls
import Verif.BLM.Torch
import Verif.BLM.TorchProps
import Verif.BLM.TorchControls
import Verif.BLM.Invariance
import Verif.BLM.InvarianceControls
import Verif.BLM.Repeat
import Verif.BLM.RepeatControls
import Verif.BLM.OneType
import Verif.Interacted.Linear
import Verif.Interacted.Invariance
import Verif.Interacted.FixedPoint
import Verif.Interacted.FixedB
import Verif.Interacted.Alpha
import Verif.Interacted.Other
import Verif.Interacted.OtherLemmas
import Verif.Interacted.OtherProps
import Verif.Interacted.OtherCoarse
import Verif.Interacted.OtherHful
import Verif.Interacted.OtherJack
import Verif.Interacted.OtherEx
import Verif.Interacted.OtherReturns
import Verif.Interacted.OtherHfulEx
import Verif.Interacted.OtherHfulPairs
import Verif.Interacted.OtherProf
import Verif.Interacted.OtherProfEx
import Verif.Interacted.OtherProfFree
import Verif.Sim.Ids
import Verif.Sim.DynIds
import Verif.Sim.GenParams
import Verif.Sim.Wages
import Verif.Sim.Columns
import Verif.Sim.DynParams
import Verif.CLI.Model
import Verif.CLI.Props
import Verif.Diagnostics.EventStudy
import Verif.Constraints.GenDyn
import Verif.BLMDyn.Model
import Verif.BLMDyn.Wages
import Verif.BLMDyn.Rho
import Verif.BLMDyn.Normalize
import Verif.BLMDyn.EM
import Verif.BLMDyn.EMProps
import Verif.BLMDyn.EMBad
import Verif.BLMDyn.Ends
import Verif.BLMDyn.EMTight
import Verif.BLMDyn.Sort
import Verif.BLMDyn.Solver
import Verif.BLMDyn.Wrappers
import Verif.BLMDyn.WrappersProps
import Verif.BLM.Forced
import Verif.BLM.ForcedProps
import Verif.BLM.Atomic
import Verif.BLMDyn.Order
import Verif.BLMDyn.Controls
import Verif.BLMDyn.ControlsProps
import Verif.BLMDyn.ControlsStay
import Verif.BLMDyn.Atomic
import Verif.BLMDyn.StayLoop
import Verif.BLMDyn.Invariance
import Verif.BLMDyn.InvarianceControls
import Verif.BLMDyn.InvarianceStay
import Verif.BLMDyn.Repeat
import Verif.BLMDyn.Twins
import Verif.BLMDyn.ControlsTight
import Verif.Attrition.Model
import Verif.Attrition.Subsets
import Verif.Attrition.Results
import Verif.Attrition.Plots
import Verif.Attrition.MonteCarlo
import Verif.Attrition.Params
import Verif.Attrition.Interior
import Verif.Attrition.MonteInterior
import Verif.Sorkin.Attrition
import Verif.Sorkin.AttritionProps
import Verif.Sorkin.AttritionRuns
import Verif.Sim.BS
import Verif.Precond.Simple
import Verif.Precond.Estimator
import Verif.Precond.IChol
import Verif.Precond.ICholDense
import Verif.Precond.Backsub
import Verif.Precond.ICholRefine
import Verif.Precond.ICholProps
import Verif.Options.FE
import Verif.Options.FEProps
import Verif.Options.Control
import Verif.Options.Interacted

import Verif.Basic.Loop
import Verif.Basic.Steps
import Verif.Components.Guide
import Verif.Components.Linear
import Verif.Components.Model
import Verif.Components.Stage
import Verif.Control.Feedback
import Verif.Control.Lemmas
import Verif.Control.Loop
import Verif.Control.Model
import Verif.Control.Names
import Verif.Control.Rebind
import Verif.Control.Sharing
import Verif.Control.Text
import Verif.Control.Settle
import Verif.Control.XReal
import Verif.Conv.Compose
import Verif.Conv.Estimate
import Verif.Conv.Flow
import Verif.Conv.Global
import Verif.Conv.Inexact
import Verif.Conv.Leading
import Verif.Conv.Local
import Verif.Conv.Nearby
import Verif.Conv.Perturbed
import Verif.Conv.Rounded
import Verif.Conv.Tree
import Verif.Conv.Uniform
import Verif.Conv.UniformPair
import Verif.File.Callback
import Verif.File.Layout
import Verif.File.Lemmas
import Verif.File.Model
import Verif.File.Read
import Verif.File.Slab
import Verif.Float.Deriv
import Verif.Float.DerivCalls
import Verif.Float.DerivError
import Verif.Float.DerivRuns
import Verif.Float.Lawful
import Verif.Float.Model
import Verif.Float.Round
import Verif.Float.Near
import Verif.Float.Runs
import Verif.Float.Values
import Verif.Integrator.Accepted
import Verif.Integrator.Chain
import Verif.Integrator.Component
import Verif.Integrator.ComponentLemmas
import Verif.Integrator.Core
import Verif.Integrator.Examples
import Verif.Integrator.FaultPoints
import Verif.Integrator.Faults
import Verif.Integrator.History
import Verif.Integrator.Lawful
import Verif.Integrator.Model
import Verif.Integrator.Path
import Verif.Integrator.Pyrevolve
import Verif.Integrator.PyrevolveRK
import Verif.Integrator.Misconfig
import Verif.Integrator.Messages
import Verif.Integrator.Printed
import Verif.Integrator.RK
import Verif.Integrator.Revolve
import Verif.Integrator.Run
import Verif.Integrator.Sensitivity
import Verif.Integrator.Simulate
import Verif.Integrator.Steps
import Verif.Integrator.Trajectory
import Verif.Metadata.Lemmas
import Verif.Metadata.Model
import Verif.OpenMDAO.Exact
import Verif.OpenMDAO.Exchange
import Verif.OpenMDAO.Lemmas
import Verif.OpenMDAO.Model
import Verif.OpenMDAO.Norm
import Verif.OpenMDAO.NormLemmas
import Verif.OpenMDAO.Ode
import Verif.OpenMDAO.Spec
import Verif.Parallel.Lockstep
import Verif.Parallel.Model
import Verif.Parallel.Pyrevolve
import Verif.Parallel.RK
import Verif.Parallel.Serial
import Verif.Problems.Lemmas
import Verif.Problems.Model
import Verif.Problems.Study
import Verif.Problems.Imports
import Verif.Problems.Parse
import Verif.Props.Accuracy
import Verif.Props.AdaptiveDeriv
import Verif.Props.Component
import Verif.Props.Components
import Verif.Props.Control
import Verif.Props.Convergence
import Verif.Props.Deriv
import Verif.Props.Estimate
import Verif.Props.Exchange
import Verif.Props.Faults
import Verif.Props.FileRun
import Verif.Props.FileWriter
import Verif.Props.FinalTime
import Verif.Props.Finish
import Verif.Props.Float
import Verif.Props.FloatDeriv
import Verif.Props.FloatHistory
import Verif.Props.Guide
import Verif.Props.GuideAdaptive
import Verif.Props.GuideDeriv
import Verif.Props.History
import Verif.Props.Inexact
import Verif.Props.Integrator
import Verif.Props.Invariants
import Verif.Props.KapsDeriv
import Verif.Props.Metadata
import Verif.Props.Norm
import Verif.Props.OpenMDAO
import Verif.Props.OpenMDAODeriv
import Verif.Props.Parallel
import Verif.Props.ParallelPyrevolve
import Verif.Props.Problems
import Verif.Props.ProblemsDeriv
import Verif.Props.Pseudo
import Verif.Props.Pyrevolve
import Verif.Props.PyrevolveChain
import Verif.Props.Rounded
import Verif.Props.Runs
import Verif.Props.Schedules
import Verif.Props.Sensitivity
import Verif.Props.Settle
import Verif.Props.Shipped
import Verif.Props.Stability
import Verif.Props.State
import Verif.Props.StateChain
import Verif.Props.Starting
import Verif.Props.Step
import Verif.Props.StepDeriv
import Verif.Props.Stiff
import Verif.Props.Study
import Verif.Props.StudyErrors
import Verif.Props.StudyPlots
import Verif.Props.Tableau
import Verif.Props.TestProblems
import Verif.Props.Tolerance
import Verif.Props.Values
import Verif.RK.Examples
import Verif.RK.Fderiv
import Verif.RK.Model
import Verif.RK.Spec
import Verif.RK.StepLemmas
import Verif.RK.Sweep
import Verif.RK.Trajectory
import Verif.Stab.AlgShipped
import Verif.Stab.Algebraic
import Verif.Stab.Explicit
import Verif.Stab.HalfPlane
import Verif.Stab.Linear
import Verif.Stab.Poly
import Verif.Stab.Shipped
import Verif.Stab.Stiff
import Verif.Stab.StiffRun
import Verif.Stab.StiffShipped
import Verif.State.Checkpoint
import Verif.State.Lemmas
import Verif.State.Equality
import Verif.State.Model
import Verif.State.Options
import Verif.Tableau.Accuracy
import Verif.Tableau.Model
import Verif.Tableau.Text
import Verif.Tableau.Order
import Verif.Tableau.Shipped
import Verif.Tableau.ShippedChecks
import Verif.Tableau.ShippedSharp
import Verif.Props.FaultFile
import Verif.RK.Memory
import Verif.OpenMDAO.Memory
import Verif.Integrator.Memory
import Verif.Integrator.MemoryRK
import Verif.Props.Memory
import Verif.OpenMDAO.Poison
import Verif.Props.Poison
import Verif.Integrator.MemoryPyrevolve
import Verif.Integrator.Cost
import Verif.Props.Cost
import Verif.Props.MemoryParams
import Verif.Float.Control
import Verif.Props.FloatControl
import Verif.Props.FloatEstimate
import Verif.Float.Norm
import Verif.Float.NormOrders
import Verif.Props.FloatNorm
import Verif.Props.FloatAdaptive
import Verif.Float.Double
import Verif.Props.FloatDouble
import Verif.Props.Misconfig
import Verif.Props.Printed
import Verif.Props.FloatUnder
import Verif.Props.Imports
import Verif.Props.Messages
import Verif.Props.TableauText
import Verif.Props.ControlText
import Verif.Props.Parse
import Verif.Props.FloatNormOrders
import Verif.Props.Sharing
import Verif.Props.Names
import Verif.Props.Equality
import Verif.Props.Rebind

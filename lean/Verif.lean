import Verif.Comb.Props
import Verif.PairBranch.Props
import Verif.Buffer.Props
import Verif.FieldHistory.Props
import Verif.FieldHistory.Windows
import Verif.Restart.Props
import Verif.Stack.Props
import Verif.Thermal.Props
import Verif.Thermal.Discrete
import Verif.Slater.Props
import Verif.Slater.Hirsch
import Verif.Slater.ThermalHS
import Verif.Weights.Props
import Verif.Weights.Gaussian
import Verif.Mixed.Props
import Verif.Output.Props
import Verif.Energy.Props
import Verif.Energy.Stoch
import Verif.Energy.Var
import Verif.Input.Props
import Verif.Setup.Props
import Verif.ChemPot.Props
import Verif.Chol.Props
import Verif.Analysis.Props
import Verif.UEG.Props
import Verif.UEG.Integrals
import Verif.UEG.Real
import Verif.UEG.File
import Verif.Lattice.Props
import Verif.Driver.Props
import Verif.Files.Sparse
import Verif.Files.FcidumpProps
import Verif.Files.WfnProps
import Verif.CI.Props
import Verif.Step.Generator
import Verif.Step.Model
import Verif.Step.Props
import Verif.Step.Hubbard
import Verif.Step.PlaneWave
import Verif.Step.Shift
import Verif.Step.Bias
import Verif.Step.Optimal
import Verif.Step.Tensor
import Verif.Step.Trotter
import Verif.Step.Operators
import Verif.Step.States
import Verif.Step.Converge
import Verif.Step.Ground
import Verif.Step.Run
import Verif.Grand.Fock
import Verif.Grand.Wick
import Verif.Grand.Sector
import Verif.Grand.Null
import Verif.Grand.Path
import Verif.Grand.Model
import Verif.Grand.Walk
import Verif.Grand.Mean
import Verif.Grand.Thermo
import Verif.Grand.Systems
import Verif.Grand.Bias
import Verif.Grand.Phaseless
import Verif.Grand.PhaselessProps
import Verif.Grand.PhaselessHub
import Verif.Grand.Lie
import Verif.Grand.DiscreteModel
import Verif.Grand.Discrete
import Verif.Grand.Dimer
import Verif.MultiDet.Run
import Verif.MultiDet.Bias
import Verif.CI.ExpansionExamples
import Verif.CI.NonorthoExamples
import Verif.Freeze.Examples
import Verif.AoChol.Outcore
import Verif.OrthoAO.Examples
import Verif.CasWfn.Props
import Verif.PWFFT.Fourier
import Verif.PWFFT.Model
import Verif.PWFFT.Geometry
import Verif.PWFFT.Energy
import Verif.PWFFT.Propagation
import Verif.PWFFT.Steps
import Verif.PWFFT.Cases
import Verif.Itcf.Model
import Verif.Itcf.Props
import Verif.Itcf.Cases
import Verif.Holstein.Model
import Verif.Holstein.Oscillator
import Verif.Holstein.Local
import Verif.Holstein.Steps
import Verif.Holstein.Dmc
import Verif.Holstein.Metropolis
import Verif.Holstein.Coherent
import Verif.Holstein.Permuted
import Verif.Holstein.Cases
import Verif.LangFirsov.Tuples
import Verif.LangFirsov.Model
import Verif.LangFirsov.Props
import Verif.LangFirsov.Momentum
import Verif.LangFirsov.Cases
import Verif.Ekt.Operators
import Verif.Ekt.Model
import Verif.Ekt.Props
import Verif.Ekt.Code
import Verif.Ekt.Cases
import Verif.Ekt.Analysis
import Verif.Ekt.Affinity
import Verif.Convert.Model
import Verif.Convert.Props
import Verif.Convert.Main
import Verif.Convert.Cases
import Verif.TrialRho.Gibbs
import Verif.TrialRho.Ensemble
import Verif.TrialRho.Model
import Verif.TrialRho.Props
import Verif.TrialRho.Field
import Verif.TrialRho.Mean
import Verif.TrialRho.Cases
import Verif.LowRank.Model
import Verif.LowRank.Green
import Verif.LowRank.Update
import Verif.LowRank.Run
import Verif.LowRank.Exist
import Verif.LowRank.Findings
import Verif.BoseCI.Model
import Verif.BoseCI.Fock
import Verif.BoseCI.Enum
import Verif.BoseCI.Matrix
import Verif.BoseCI.Embed
import Verif.BoseCI.Energy
import Verif.BoseCI.Run
import Verif.BoseCI.Bounds
import Verif.BoseCI.Exist
import Verif.BoseCI.Findings
import Verif.BoseCI.Examples
import Verif.Uhf.Model
import Verif.Uhf.Aufbau
import Verif.Uhf.Props
import Verif.Uhf.Variational
import Verif.Uhf.Checker
import Verif.Uhf.Findings
import Verif.Uhf.Examples
import Verif.Fft.Model
import Verif.Fft.Props
import Verif.Fft.Findings
import Verif.Fft.Examples
import Verif.HubDump.Model
import Verif.HubDump.Props
import Verif.HubDump.Energy
import Verif.KPoint.Model
import Verif.KPoint.Props
import Verif.KPoint.Write
import Verif.KPoint.Findings
import Verif.BackProp.Model
import Verif.BackProp.Props
import Verif.BackProp.Window
import Verif.BackProp.Average
import Verif.BackProp.Limit
import Verif.BackProp.Example
import Verif.BackProp.Findings
import Verif.Stats.Model
import Verif.Stats.Props
import Verif.Stats.Runs
import Verif.Stats.Errors
import Verif.Stats.Unbiased
import Verif.Stats.Chem
import Verif.LocalOpts.Model
import Verif.LocalOpts.Props
import Verif.LocalOpts.Runs
import Verif.LocalOpts.Pno
import Verif.LocalOpts.PnoRun
import Verif.LocalOpts.Examples
import Verif.Fields.Mean
import Verif.Fields.Fock
import Verif.HolStep.Model
import Verif.HolStep.Sweep
import Verif.HolStep.Step
import Verif.HolStep.Cases
import Verif.Fields.Positive
import Verif.Fields.Minor
import Verif.Fields.Chain
import Verif.Fields.Sector
import Verif.Fields.Perron
import Verif.HubRun.Step
import Verif.HubRun.Run
import Verif.HubRun.Ground
import Verif.HubRun.Chain
import Verif.PairBranch.Rows
import Verif.HubRun.Population
import Verif.HubRun.Calm
import Verif.HubRun.Charge
import Verif.HubRun.Pair
import Verif.HubRun.PairFree
import Verif.HubHalf.Half
import Verif.HubHalf.Props
import Verif.HubHalf.Trials
import Verif.HubHalf.Run
import Verif.HubHalf.Cases
import Verif.HubHalf.Energy
import Verif.HubHalf.EnergyCases
import Verif.HubHalf.FreeRows
import Verif.HubHalf.Alive
import Verif.HubHalf.AliveCharge
import Verif.HubHalf.Node
import Verif.SpinProj.Model
import Verif.SpinProj.Wave
import Verif.SpinProj.Props
import Verif.SpinProj.Parts
import Verif.SpinProj.Examples
import Verif.Ghf.Model
import Verif.Ghf.Props
import Verif.Ghf.Site
import Verif.Ghf.Cases
import Verif.TrialFile.Model
import Verif.TrialFile.Props
import Verif.TrialFile.Fortran
import Verif.HubBack.Model
import Verif.HubBack.Path
import Verif.HubBack.Window
import Verif.HubBack.Ground
import Verif.HubBack.Chain
import Verif.HubBack.Printed
import Verif.HubBack.Population
import Verif.HubBack.PopChain
import Verif.Slices.Model
import Verif.Slices.Props
import Verif.Slices.Cases
import Verif.Meta.Model
import Verif.Meta.Props
import Verif.Meta.Cases

import Verif.Props.FftSize
import Verif.Props.Grid
import Verif.Props.Mask
import Verif.Props.Cell
import Verif.Props.Mesh
import Verif.Props.Proj
import Verif.Props.Occupation
import Verif.Props.Convergence
import Verif.Props.Entropy
import Verif.Props.Band
import Verif.Props.Const
import Verif.Props.Utils
import Verif.Props.Config
import Verif.Props.Crystal
import Verif.Props.Planewave
import Verif.Props.Braket
import Verif.Props.Energy
import Verif.Props.Xc
import Verif.Props.Ewald
import Verif.Props.Hamiltonian
import Verif.Props.DensityR
import Verif.Props.Shape
import Verif.Props.Spmd
import Verif.Props.Spherical
import Verif.Props.Sbt
import Verif.Props.Nonlocal
import Verif.Props.Local
import Verif.Props.NcHamiltonian
import Verif.Props.Load
import Verif.Props.Driver
import Verif.Props.BandOpt
import Verif.Props.BandOptNC
import Verif.Props.SbtFft
import Verif.Props.Symmetry
import Verif.Props.Run
import Verif.Props.Origin
import Verif.Props.TimeReversal
import Verif.Props.Spin
import Verif.Props.NonlocalRotate
import Verif.Props.RunNC
import Verif.Props.KohnSham
import Verif.Props.Reach
import Verif.Props.GroundState
import Verif.Props.BandRun
import Verif.Props.BandSymmetry
import Verif.Props.BandRunNC
import Verif.Props.BandObjective
import Verif.Props.BandSymmetryNC
import Verif.Props.EwaldLimit
import Verif.Props.EwaldRun
import Verif.Props.Variational
import Verif.Props.Smearing
import Verif.Props.FermiLevel
import Verif.Props.Limit
import Verif.Props.KohnShamNC
import Verif.Props.LowestBands
import Verif.Props.SpmdCall
import Verif.Props.Main
import Verif.Props.SbtHankel
import Verif.Props.BandContinuity
import Verif.Props.BandContinuityNC
import Verif.Props.Stability
import Verif.Props.Thermo
import Verif.Props.StabilityNC
import Verif.Props.Supercell
import Verif.Props.BandPeriodic
import Verif.Props.CellContinuity
import Verif.Props.Scaling
import Verif.Props.Axes
import Verif.Props.AxesNC
import Verif.Props.Optimizers
import Verif.Props.AxesBand
import Verif.Props.OptimizersNC
import Verif.Props.Workspace
import Verif.Props.CacheRace
import Verif.Props.ForcesNC
import Verif.Props.XcNames
import Verif.Props.UpfFile
import Verif.Props.OptimizersBand
import Verif.Props.Accepted
import Verif.Props.AcceptedNC
import Verif.Props.AcceptedBand
import Verif.Props.XcGga
import Verif.Props.ProjGrad
import Verif.Props.OccStationary
import Verif.Props.BandGradient
import Verif.Props.EnergyGradient
import Verif.Props.SelfConsistent
import Verif.Props.XcPotential
import Verif.Props.KohnShamStates
import Verif.Props.SpinGradient
import Verif.Props.SpinGround
import Verif.Props.EwaldCell
import Verif.Props.CellContinuityNC
import Verif.Props.Forces
import Verif.Props.PseudoFile
import Verif.Props.XcStationary
import Verif.Props.PseudoFileBand
import Verif.Props.BandPathNC
import Verif.Props.RandomStart
import Verif.Props.IdemGrad
import Verif.Props.Descent
import Verif.Props.BandDescent
import Verif.Props.BandLowest
import Verif.Props.BandGround

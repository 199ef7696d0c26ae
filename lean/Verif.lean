import Verif.Py
import Verif.Mpi.Props
import Verif.RankFiles.Props
import Verif.RankFiles.Life
import Verif.Pairing.Props
import Verif.Matsubara.Props
import Verif.Matsubara.Props2
import Verif.Matsubara.Sums
import Verif.Bz.Props
import Verif.Bz.Props2
import Verif.Bz.Mean
import Verif.Bz.Count
import Verif.Bz.AnyList
import Verif.Bz.IrrQ
import Verif.Bubble.Props
import Verif.KPath.Props2
import Verif.KPath.Crossing
import Verif.KPath.Figures
import Verif.Bubble.AsymptProps2
import Verif.FourPoint.Props
import Verif.FourPoint.Props2
import Verif.FourPoint.Link
import Verif.FourPoint.Props3
import Verif.FourPoint.Extra
import Verif.Lambda.Props
import Verif.Lambda.Returned
import Verif.Lambda.Complex
import Verif.Eliash.Props
import Verif.Eliash.Props2
import Verif.TwoPoint.Props
import Verif.Paths.Props
import Verif.Loggers.Props
import Verif.Config.Props
import Verif.Optics.Props2
import Verif.Symm.Props3
import Verif.Symm.Run
import Verif.Symm.RunProps
import Verif.Symm.RunProps2
import Verif.Symm.RunProps3
import Verif.Symm.Command
import Verif.Sde.Props3
import Verif.Eliash.Props3
import Verif.Eliash.Converge2
import Verif.TwoPoint.Props2
import Verif.Pade.Props2
import Verif.Pade.Nonlin
import Verif.Pade.Solver
import Verif.Pade.DriverProps2
import Verif.Mpi.Flat
import Verif.AnaCont.Props2
import Verif.AnaCont.Props4
import Verif.AnaCont.Kkt
import Verif.AnaCont.Local
import Verif.Oz.Props
import Verif.Pipeline.Examples
import Verif.Wannier.Props3
import Verif.Wannier.Presets
import Verif.WanIo.Props2
import Verif.WanIo.HkProps
import Verif.WanIo.SaveHk
import Verif.Wannier.Moments
import Verif.Pipeline.SquareLattice
import Verif.Pipeline.Rpa3
import Verif.TwoPoint.FillProps2
import Verif.Optics.RealProps
import Verif.TwoPoint.RealProps
import Verif.TwoPoint.RealPost
import Verif.TwoPoint.SigmaPost
import Verif.Whole.SigmaPostRun
import Verif.Whole.ContsFigs
import Verif.Whole.MainPlots
import Verif.Whole.PlotsEx
import Verif.Whole.PlotsHang
import Verif.TwoPoint.GfState
import Verif.TwoPoint.Const
import Verif.Matsubara.NdCut
import Verif.Eliash.Sector
import Verif.Eliash.Driver
import Verif.Eliash.ConjSector
import Verif.Pairing.Symmetry
import Verif.Pairing.SymmetryRun
import Verif.MaxEnt.Examples
import Verif.MaxEnt.KernelProps
import Verif.MaxEnt.Blur
import Verif.MaxEnt.InitReal
import Verif.MaxEnt.RootProps
import Verif.Spmd.Main2
import Verif.Spmd.Grid
import Verif.Config.NamespaceProps
import Verif.Input.Model
import Verif.Input.Props
import Verif.Pipeline.AuxChi
import Verif.Pipeline.Uasympt
import Verif.Pipeline.UasymptEx
import Verif.Pipeline.LamRunEx
import Verif.Pipeline.FromFilesEx
import Verif.Pipeline.Wannier90
import Verif.Pipeline.Program
import Verif.Pipeline.ProgramEx
import Verif.PolyFit.Props
import Verif.Eliash.Converge3
import Verif.Pairing.Leading
import Verif.Pairing.LadderLink
import Verif.Pairing.FromFiles
import Verif.Pairing.FromFilesChain
import Verif.Pairing.FromFilesProps
import Verif.Pairing.FromFilesEx
import Verif.Optics.FromFiles
import Verif.Optics.FromFilesChain
import Verif.Optics.FromFilesProps
import Verif.Optics.FromFilesEx
import Verif.Config.Build
import Verif.Writes.Model
import Verif.Writes.PathLemmas
import Verif.Writes.Cmds
import Verif.Writes.Props
import Verif.Writes.Success
import Verif.Writes.Examples
import Verif.Writes.Link
import Verif.Config.GapStart
import Verif.TwoPoint.Energies
import Verif.Report.Model
import Verif.Report.Props
import Verif.Report.Ex
import Verif.Whole.Model
import Verif.Whole.Props
import Verif.Whole.Program
import Verif.Whole.Ex
import Verif.Whole.One
import Verif.Whole.OneProps
import Verif.Whole.OneProgram
import Verif.Whole.FitsProgram
import Verif.Shared.Model
import Verif.Shared.Lemmas
import Verif.Shared.Props
import Verif.Shared.Run
import Verif.Shared.Ex
import Verif.Shared.FullVertex
import Verif.Shared.FullProps
import Verif.Optics.MeshProps
import Verif.Optics.MeshKinds
import Verif.Whole.Conts
import Verif.Whole.ContsProps
import Verif.Whole.ContsRun
import Verif.Whole.ContsMain
import Verif.Whole.ContsAll
import Verif.Whole.ContsReturn
import Verif.Whole.ContsEx
import Verif.Whole.ContsProgram
import Verif.Whole.StartReport

import Verif.Sweep.Props
import Verif.Results.Props
import Verif.Toolbox.Vec
import Verif.Toolbox.EvolutionProps
import Verif.Evol.Props
import Verif.Evol.Time
import Verif.Evol.Sampling
import Verif.NMat.Props
import Verif.Toolbox.Spin
import Verif.Toolbox.Boson
import Verif.Toolbox.Embed
import Verif.Toolbox.RotationProps
import Verif.Toolbox.SuperPos
import Verif.Toolbox.StateProps
import Verif.PTrace.Props
import Verif.Toolbox.JCProps
import Verif.Names.Recurse
import Verif.Names.Lookup
import Verif.Bound.Props
import Verif.Flags.Props
import Verif.Cache.Findings
import Verif.Cache.Open
import Verif.Tree.Props
import Verif.Tree.Heap
import Verif.Tree.Pauli
import Verif.Tree.Ham
import Verif.Tree.Hermitian
import Verif.Init.Access
import Verif.Tree.Copy
import Verif.Sim.Pool
import Verif.Sim.Couplings
import Verif.Sim.FreeEvol
import Verif.Sim.Remove
import Verif.Sim.Csv
import Verif.Toolbox.Rmt
import Verif.Toolbox.PowExp
import Verif.Toolbox.Positivity
import Verif.Toolbox.Wigner
import Verif.Toolbox.WignerProps
import Verif.Toolbox.Husimi
import Verif.Toolbox.Mixed
import Verif.Toolbox.TraceDist
import Verif.Toolbox.Steady
import Verif.Toolbox.Concurrence
import Verif.Toolbox.Gates
import Verif.Toolbox.Thermo
import Verif.Toolbox.EigStat
import Verif.Toolbox.Spread
import Verif.Env.Drive
import Verif.Env.Bath
import Verif.Ham.Model
import Verif.Ham.Props
import Verif.Ham.Current
import Verif.Old.Model
import Verif.Old.Coupling
import Verif.Old.Dims
import Verif.Whole.Model
import Verif.Whole.Props
import Verif.Whole.Schroedinger
import Verif.TimeDep.Model
import Verif.TimeDep.Lemmas
import Verif.TimeDep.Props
import Verif.TimeDep.Clock
import Verif.TimeDep.Findings
import Verif.TimeDep.Schroedinger
import Verif.Obj.Classes
import Verif.Obj.Attr
import Verif.Obj.AttrProps
import Verif.Obj.Pickle
import Verif.Sim.Create
import Verif.Cache.OpenModel
import Verif.Cache.OpenProps
import Verif.Whole.Open
import Verif.Whole.Lindblad
import Verif.Env.JumpProps
import Verif.Init.Composite
import Verif.Old.Three
import Verif.Toolbox.Fidelity
import Verif.Whole.Sampled
import Verif.Whole.SampledProps
import Verif.Whole.TimeSweep
import Verif.Whole.TimeSweepProps
import Verif.Whole.Inner
import Verif.Whole.InnerLemmas
import Verif.Whole.InnerProps
import Verif.Toolbox.OpPow
import Verif.Sweep.Double
import Verif.Sweep.Range
import Verif.Sweep.Create
import Verif.Sweep.Hist
import Verif.Results.Return
import Verif.Bound.State
import Verif.Bound.StateProps
import Verif.Args.Model
import Verif.Args.Props
import Verif.Term.Setters
import Verif.Term.SettersProps
import Verif.Term.First
import Verif.Term.Remove
import Verif.Toolbox.Loop
import Verif.Term.Shared
import Verif.Tree.Plus
import Verif.Tree.PlusMem
import Verif.Names.Gc
import Verif.Results.Record
import Verif.Cache.Undo
import Verif.Old.Init
import Verif.Old.InitProps
import Verif.Old.InitSame
import Verif.Gate.Model
import Verif.Gate.Props
import Verif.Names.Reset
import Verif.Units.Model
import Verif.Units.Props
import Verif.Names.Results
import Verif.SpinJ.Model
import Verif.SpinJ.Props
import Verif.Evol.OpenSampling
import Verif.Names.CopyDict
import Verif.Evol.SweepClock
import Verif.Tree.FloatDims
import Verif.Bound.StateNone

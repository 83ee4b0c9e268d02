import Verif.Py
import Verif.Space
import Verif.Props.Space
import Verif.Grid
import Verif.Props.Grid
import Verif.Feasible
import Verif.Best
import Verif.DE
import Verif.Props.DE
import Verif.SegTree
import Verif.Props.SegTree
import Verif.Replay
import Verif.Props.Replay
import Verif.PER
import Verif.Props.PER
import Verif.HER
import Verif.Props.HER
import Verif.Sort
import Verif.ER
import Verif.Props.ER
import Verif.GWO
import Verif.Props.GWO
import Verif.Swarm
import Verif.WOA
import Verif.Props.WOA
import Verif.SSA
import Verif.Props.SSA
import Verif.BAT
import Verif.Props.BAT
import Verif.HHO
import Verif.Props.HHO
import Verif.Round
import Verif.JAYA
import Verif.Props.JAYA
import Verif.MFO
import Verif.Props.MFO
import Verif.CS
import Verif.Props.CS
import Verif.ACO
import Verif.Props.ACO
import Verif.PSO
import Verif.Props.PSO
import Verif.Variation
import Verif.ES
import Verif.Props.ES
import Verif.SA
import Verif.Props.SA
import Verif.Cooling
import Verif.Props.Cooling
import Verif.TS
import Verif.Props.TS
import Verif.XNES
import Verif.Props.XNES
import Verif.NDSort
import Verif.LogSort
import Verif.Props.NDSort
import Verif.Props.LogSort
import Verif.Crowd
import Verif.Props.Crowd
import Verif.Refs
import Verif.Props.Refs
import Verif.Niche
import Verif.Props.Niche
import Verif.NSGA
import Verif.Props.NSGA
import Verif.Env
import Verif.Props.Env
import Verif.Rms
import Verif.Props.Rms
import Verif.Returns
import Verif.Props.Returns
import Verif.Schedule
import Verif.Props.Schedule
import Verif.Dataset
import Verif.Props.Dataset
import Verif.AEO
import Verif.Props.AEO
import Verif.Props.AEOMigration
import Verif.Props.AEOOrder
import Verif.AEOMembers
import Verif.Props.AEOMembers
import Verif.Props.AEORun
import Verif.Latin
import Verif.Props.Latin
import Verif.EDEVCore
import Verif.EDEV
import Verif.Props.EDEVCore
import Verif.Props.EDEV
import Verif.Props.EDEVGain
import Verif.Particles
import Verif.HCLPSO
import Verif.EPSO
import Verif.Props.HCLPSO
import Verif.Props.EPSO
import Verif.Props.HCLPSOMove
import Verif.Props.EPSOMove
import Verif.Tune
import Verif.Props.Tune
import Verif.TSP
import Verif.KP
import Verif.Props.TSP
import Verif.Props.KP
import Verif.Moves
import Verif.SwarmTrace
import Verif.Props.GWOMove
import Verif.Props.WOAMove
import Verif.Props.HHOMove
import Verif.Props.PSOMove
import Verif.Props.SSAMove
import Verif.Props.JAYAMove
import Verif.Props.CSMove
import Verif.Props.BATMove
import Verif.Props.ACOMove
import Verif.Memory
import Verif.PESA
import Verif.Props.PESA
import Verif.Seeded
import Verif.PESA2
import Verif.Props.Seeded
import Verif.Props.PESA2
import Verif.NHHO
import Verif.Props.NHHO
import Verif.NGA
import Verif.Props.NGA
import Verif.Logger
import Verif.Props.Logger
import Verif.Informed
import Verif.Props.Informed
import Verif.Props.PESAMove
import Verif.Classic
import Verif.Schwefel
import Verif.CEC17
import Verif.CEC08
import Verif.DTLZ
import Verif.Props.Classic
import Verif.Props.CEC17
import Verif.Props.CEC08
import Verif.Props.DTLZ
import Verif.Neat
import Verif.Props.Neat
import Verif.CG
import Verif.Props.CG
import Verif.VecEnv
import Verif.Props.VecEnv
import Verif.VecNorm
import Verif.Props.VecNorm
import Verif.VecStack
import Verif.Props.VecStack
import Verif.Callbacks
import Verif.Props.Callbacks
import Verif.Rollout
import Verif.Props.Rollout
import Verif.DQN
import Verif.Props.DQN
import Verif.Monitor
import Verif.Props.Monitor
import Verif.PESAX
import Verif.Props.PESAX
import Verif.Assoc
import Verif.Props.Assoc
import Verif.Dist
import Verif.Props.Dist
import Verif.MathUtil
import Verif.Props.MathUtil
import Verif.Atari
import Verif.Props.Atari
import Verif.ESTune
import Verif.Props.ESTune
import Verif.PPOLoss
import Verif.Props.PPOLoss
import Verif.QLoss
import Verif.Props.QLoss
import Verif.ACERLoss
import Verif.Props.ACERLoss
import Verif.InputFile
import Verif.Props.InputFile
import Verif.Reactivity
import Verif.Props.Reactivity
import Verif.ToyEnvs
import Verif.Props.ToyEnvs
import Verif.Traj
import Verif.Props.Traj
import Verif.Lstm
import Verif.Props.Lstm
import Verif.ActProb
import Verif.Props.ActProb
import Verif.Save
import Verif.Props.Save
import Verif.RunId
import Verif.Props.RunId
import Verif.TextLog
import Verif.Props.TextLog
import Verif.Attach
import Verif.Props.Attach
import Verif.Anneal
import Verif.Props.Anneal
import Verif.Kfac
import Verif.Props.Kfac
import Verif.GARun
import Verif.Props.GARun
import Verif.TuneFile
import Verif.Props.TuneFile
import Verif.TuneRun
import Verif.Props.TuneRun
import Verif.PGLoss
import Verif.Props.PGLoss
import Verif.RunFiles
import Verif.Props.RunFiles
import Verif.SavePlot
import Verif.Props.SavePlot
import Verif.Nets
import Verif.Props.Nets
import Verif.Pretrain
import Verif.Props.Pretrain
import Verif.DQNNet
import Verif.Props.DQNNet
import Verif.VecAttr
import Verif.Props.VecAttr
import Verif.EPSPool
import Verif.Props.EPSPool
import Verif.BenchMore
import Verif.Props.BenchMore
import Verif.MonLoad
import Verif.Props.MonLoad
import Verif.Seeds
import Verif.Props.Seeds
import Verif.Compare
import Verif.Props.Compare
import Verif.Units
import Verif.Props.Units
import Verif.InitPop
import Verif.Props.InitPop
import Verif.Props.InitRuns
import Verif.Rescale
import Verif.RescaleMore
import Verif.Props.Rescale
import Verif.Props.Mutation
import Verif.Mpi
import Verif.Props.Mpi
import Verif.EnvCheck
import Verif.Props.EnvCheck
import Verif.Reorder
import Verif.ReorderMore
import Verif.Props.Reorder
import Verif.Longer
import Verif.Props.Longer
import Verif.Local
import Verif.Props.Local
import Verif.Parallel
import Verif.Props.Parallel
import Verif.VideoRec
import Verif.Props.VideoRec
import Verif.ParamNoise
import Verif.Props.ParamNoise
import Verif.Gmatmul
import Verif.Props.Gmatmul
import Verif.ConvStats
import Verif.Props.ConvStats
import Verif.LocalMore
import Verif.Props.LocalMore
import Verif.DeepMind
import Verif.Props.DeepMind
import Verif.RescaleACO
import Verif.Props.RescaleACO
import Verif.SAMap
import Verif.Props.SAMap
import Verif.ReorderACO
import Verif.Props.ReorderACO
import Verif.Props.InitRunsMore
import Verif.TrajSeg
import Verif.Props.TrajSeg
import Verif.GATune
import Verif.Props.GATune
import Verif.AEOStart
import Verif.Props.AEOStart
import Verif.LogConf
import Verif.Props.LogConf
import Verif.MakeEnv
import Verif.Props.MakeEnv
import Verif.Ortho
import Verif.Props.Ortho
import Verif.ConvLayer
import Verif.Props.ConvLayer

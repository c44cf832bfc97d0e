import Verif.Loop
import Verif.Props.Limb
import Verif.Props.Adders
import Verif.Props.Arith
import Verif.Props.Mult
import Verif.Props.NumTheory
import Verif.Props.Isqrt
import Verif.Props.Circ
import Verif.Props.CircData
import Verif.Props.Passes
import Verif.Props.Oper
import Verif.Props.Iface
import Verif.Props.Types
import Verif.Props.Shor
import Verif.Comp.Dag
import Verif.Comp.Kahn
import Verif.Comp.Topo
import Verif.Comp.Quantum
import Verif.Comp.Light
import Verif.Comp.Prob
import Verif.Comp.Fuse
import Verif.Circ.FuseMat
import Verif.Circ.FuseOps
import Verif.Circ.FusePass
import Verif.Props.Fuse
import Verif.Props.Comp
import Verif.Comp.Alloc
import Verif.Props.Compile
import Verif.Mcx.Balauca
import Verif.Mcx.Khattar
import Verif.Mcx.Hybrid
import Verif.Mcx.Lib
import Verif.Mcx.Yong
import Verif.Props.Mcx
import Verif.Fourier.Basic
import Verif.Fourier.QFT
import Verif.Fourier.Adder
import Verif.Fourier.QPE
import Verif.Fourier.IQPE
import Verif.Fourier.Grover
import Verif.Props.Fourier
import Verif.Sbp.Basic
import Verif.Sbp.Encode
import Verif.Sbp.Value
import Verif.Sbp.Arith
import Verif.Props.Sbp
import Verif.Iter.Shift
import Verif.Iter.Perm
import Verif.Iter.Demux
import Verif.Props.Iter
import Verif.Sbp.InplMult
import Verif.Props.InplMult
import Verif.Sbp.Compare
import Verif.Sbp.Order
import Verif.Sbp.Equal
import Verif.Props.Compare
import Verif.Sbp.Thapliyal
import Verif.Sbp.InplAdd
import Verif.Props.Ripple
import Verif.Sbp.Divide
import Verif.Props.Divide
import Verif.Ctl.Switch
import Verif.Props.Control
import Verif.Ctl.Lcu
import Verif.Props.Lcu
import Verif.Circ.Inter
import Verif.Circ.WState
import Verif.Circ.Dicke
import Verif.Props.StatePrep
import Verif.Prep.BitRev
import Verif.Prep.QSwitch
import Verif.Props.Prepare
import Verif.Ham.Simulate
import Verif.Props.Simulate
import Verif.Ham.Coloring
import Verif.Props.Grouping
import Verif.Ham.ActMat
import Verif.Ham.Basis
import Verif.Ham.BasisMat
import Verif.Ham.Conj
import Verif.Props.ChangeBasis
import Verif.Ham.Trotter
import Verif.Props.Trotter
import Verif.Ham.LieTrotter
import Verif.Props.Trotter2
import Verif.Fourier.GroverAlg
import Verif.Props.Grover
import Verif.Blk.Basic
import Verif.Blk.Arith
import Verif.Blk.Walk
import Verif.Props.BlockEnc
import Verif.Blk.Nlft
import Verif.Blk.Gqsp
import Verif.Props.Gqsp
import Verif.Blk.Cheb
import Verif.Props.ChebConv
import Verif.Blk.Gqet
import Verif.Props.Gqet
import Verif.Blk.Parity
import Verif.Blk.Svt
import Verif.Blk.Svt2
import Verif.Props.Svt
import Verif.Blk.Cks
import Verif.Blk.Inv
import Verif.Props.Inversion
import Verif.Blk.Fejer
import Verif.Props.Completion
import Verif.Blk.Lcu
import Verif.Blk.CksCirc
import Verif.Props.CksCircuit
import Verif.Blk.FromLcu
import Verif.Props.Constructors
import Verif.Oper.ToPauli
import Verif.Oper.ToPauli2
import Verif.Blk.FromOp
import Verif.Props.FromArray
import Verif.Rev.Vent
import Verif.Rev.VentDirty
import Verif.Props.Vent
import Verif.Qaoa.Basic
import Verif.Qaoa.Cost
import Verif.Qaoa.Mixers
import Verif.Props.Qaoa
import Verif.Rev.QclaMain
import Verif.Props.Qcla
import Verif.Circ.Logic
import Verif.Circ.LogicPprm
import Verif.Types.QDict
import Verif.Props.Logic
import Verif.Comp.UnqompSem
import Verif.Comp.UnqompDag
import Verif.Comp.Unqomp
import Verif.Comp.UnqompInv
import Verif.Comp.UnqompRun
import Verif.Comp.UnqompOrder
import Verif.Comp.UnqompMain
import Verif.Props.Unqomp
import Verif.Env.Sem
import Verif.Env.Control
import Verif.Env.Proof
import Verif.Env.Bounds
import Verif.Env.Main
import Verif.Props.Env
import Verif.Sim.Sem
import Verif.Sim.Group
import Verif.Sim.Reorder
import Verif.Sim.Multi
import Verif.Sim.MultiProof
import Verif.Sim.MultiMain
import Verif.Sim.MultiLoop
import Verif.Sim.Pipeline
import Verif.Sim.Classical
import Verif.Props.Sim
import Verif.Jasp.Prog
import Verif.Jasp.Invert
import Verif.Jasp.InvertProof
import Verif.Jasp.Control
import Verif.Jasp.ControlProof
import Verif.Props.Jasp
import Verif.Jasp.Metric
import Verif.Jasp.MetricSim
import Verif.Jasp.MetricProof
import Verif.Jasp.MetricDepth
import Verif.Props.Metric
import Verif.Jasp.Boolean
import Verif.Jasp.BooleanProof
import Verif.Props.Boolean
import Verif.Jasp.Jrange
import Verif.Jasp.JrangeProof
import Verif.Jasp.JrangeLoop
import Verif.Props.Jrange
import Verif.Sess.Model
import Verif.Sess.Names
import Verif.Sess.Trace
import Verif.Sess.Inv
import Verif.Sess.Step
import Verif.Sess.Exec
import Verif.Props.Session
import Verif.Tens.Index
import Verif.Tens.Array
import Verif.Tens.Lazy
import Verif.Tens.Mul
import Verif.Tens.Contract
import Verif.Tens.Eager
import Verif.Props.Tensor
import Verif.Tens.Factor
import Verif.Tens.Measure
import Verif.Tens.Outcome
import Verif.Tens.Disent
import Verif.Tens.State
import Verif.Tens.Steps
import Verif.Tens.Readout
import Verif.Tens.Many
import Verif.Tens.Run
import Verif.Props.State
import Verif.Jasp.Extract
import Verif.Jasp.ExtractBase
import Verif.Jasp.ExtractPost
import Verif.Jasp.ExtractQc
import Verif.Jasp.ExtractSim
import Verif.Jasp.ExtractEval
import Verif.Props.Extract
import Verif.Iqae.Model
import Verif.Iqae.Table
import Verif.Iqae.Run
import Verif.Iqae.Budget
import Verif.Iqae.Prob
import Verif.Iqae.Coin
import Verif.Props.Iqae
import Verif.Samp.Model
import Verif.Samp.Lemmas
import Verif.Props.Sampling
import Verif.Circ.Prx
import Verif.Circ.Phases
import Verif.Props.Prx
import Verif.Props.Phases
import Verif.Qiro.Model
import Verif.Qiro.Lemmas
import Verif.Qiro.Sat
import Verif.Props.Qiro
import Verif.Fourier.QaeBound
import Verif.Fourier.QAE
import Verif.Props.Qae
import Verif.Fourier.QMCI
import Verif.Props.Qmci
import Verif.Oper.FermOp
import Verif.Oper.FermSwap
import Verif.Oper.FermMatch
import Verif.Oper.FermGroup
import Verif.Oper.FermPerm
import Verif.Props.FermOp
import Verif.Props.FermSwap
import Verif.Ctl.QRange
import Verif.Props.QRange
import Verif.Types.Rounding
import Verif.Props.Rounding
import Verif.Types.MaxMin
import Verif.Props.MaxMin
import Verif.Opt.Qubo
import Verif.Props.Qubo
import Verif.Tree.Backtrack
import Verif.Props.Backtrack
import Verif.Tree.FindSol
import Verif.Props.FindSol
import Verif.Iface.Stim
import Verif.Props.Stim
import Verif.Iface.Jobs
import Verif.Props.Jobs
import Verif.Props.Tight

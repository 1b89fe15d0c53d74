import Verif.Util.Pairwise
import Verif.Props.AD
import Verif.Props.Mech
import Verif.Props.Pairwise
import Verif.Props.CacheMem
import Verif.Props.CacheSerial
import Verif.Props.CacheDisk
import Verif.Props.EopSw
import Verif.Props.Dense
import Verif.Props.ContinuousOutput
import Verif.Props.Step
import Verif.Props.Propagate
import Verif.Props.Grid
import Verif.Props.Timestep
import Verif.Props.Events
import Verif.Props.Kepler
import Verif.Props.Arith
import Verif.Props.Diff
import Verif.Props.Reg
import Verif.Props.Partials
import Verif.Props.Traverse
import Verif.Props.Query
import Verif.Props.Order
import Verif.Props.Subs
import Verif.Props.Rewrite
import Verif.Props.Decompose
import Verif.Props.CFunc
import Verif.Props.ArgGen
import Verif.Props.Segments
import Verif.Props.Compact
import Verif.Props.Callback
import Verif.Props.Ensemble
import Verif.Props.OdeSys
import Verif.Props.DFloat
import Verif.Props.Dtens
import Verif.Props.VarIcs
import Verif.Props.Taylor
import Verif.Taylor.JetLemmas
import Verif.Taylor.Congr
import Verif.Props.Jet
import Verif.Props.CJet
import Verif.Props.Hidden
import Verif.Props.VarSys
import Verif.Props.VarFlow
import Verif.Props.Models
import Verif.Props.NBody
import Verif.Props.Ffnn
import Verif.Props.Rsw
import Verif.Props.Lagrange
import Verif.Props.Geo
import Verif.Props.BatchDef
import Verif.Props.BatchGrid
import Verif.Props.Parse
import Verif.Props.ParseSw
import Verif.Props.Reanchor
import Verif.Props.ShGravity
import Verif.Props.Frames
import Verif.Props.Theory
import Verif.Props.Cart
import Verif.Props.EoDyn
import Verif.Props.Ctor
import Verif.Props.Calendar
import Verif.Props.EvCtor
import Verif.Props.Thermo
import Verif.Props.DFloatMul
import Verif.Props.TrigReduce

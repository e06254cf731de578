import Verif.Props.Linear
import Verif.Props.Result
import Verif.Props.Queue
import Verif.Props.Deque
import Verif.Props.QueueConc
import Verif.Props.Dependency
import Verif.Props.WeightManager
import Verif.Props.Heuristics
import Verif.Props.TwoOpt
import Verif.Props.InitialResult
import Verif.Props.LP
import Verif.Props.Fixing
import Verif.Props.Cuts
import Verif.Props.Integral
import Verif.Props.Comb
import Verif.Props.GomoryHu
import Verif.Props.Search
import Verif.Props.SearchRefuted
import Verif.Proof.Tied
import Verif.Proof.Solvable
import Verif.Props.Solvable
import Verif.Props.CApi
import Verif.Props.Python
import Verif.Props.CApiRefuted
import Verif.Props.EndToEnd
import Verif.Props.Asserts
import Verif.Props.TimeoutRefuted
import Verif.Props.Termination
import Verif.Props.EndlessRefuted
import Verif.Props.LostRefuted
import Verif.Props.Solved
import Verif.Props.Clp
import Verif.Props.Callback
import Verif.Props.Noise
import Verif.Model.Doubles
import Verif.Spec.Doubles
import Verif.Proof.DoublesRound
import Verif.Proof.Doubles
import Verif.Proof.DoublesNI
import Verif.Props.Doubles
import Verif.Props.DoublesSolver
import Verif.Props.DoublesBound
import Verif.Props.NoiseRelative
import Verif.Spec.TwoMatching
import Verif.Spec.Inequalities
import Verif.Proof.GHSpan
import Verif.Proof.CombExact
import Verif.Props.CutTree
import Verif.Props.Exact
import Verif.Model.Python
import Verif.Props.Certified
import Verif.Props.Symmetry
import Verif.Props.PythonLengths
import Verif.Props.PythonArgs
import Verif.Props.QueueWake
import Verif.Model.QueueOnce
import Verif.Props.QueueWakeThree
import Verif.Spec.Exchange
import Verif.Props.LocalOpt
import Verif.Props.PairRefuted
import Verif.Model.Checked
import Verif.Proof.CheckedTwoOpt
import Verif.Proof.CheckedNI
import Verif.Props.Checked
import Verif.Model.CutsRounded
import Verif.Spec.CutsRounded
import Verif.Proof.CutsRounded
import Verif.Props.CutsRounded
import Verif.Model.Blocking
import Verif.Spec.Blocking
import Verif.Proof.Blocking
import Verif.Proof.BlockingSim
import Verif.Props.Blocking
import Verif.Model.Locks
import Verif.Spec.Locks
import Verif.Proof.Locks
import Verif.Proof.LocksSim
import Verif.Proof.LocksComplete
import Verif.Props.Locks
import Verif.Props.Failures
import Verif.Props.CutsNear
import Verif.Props.CutsNearCase
import Verif.Props.SearchRounded
import Verif.Props.SearchSmall
import Verif.Props.SearchRoundedRefuted
import Verif.Props.CheckedCuts
import Verif.Props.Bench
import Verif.Props.CallbackCost
import Verif.Props.Progress

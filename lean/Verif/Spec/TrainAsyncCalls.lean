import Verif.Model.TrainAsyncCalls
import Verif.Spec.TrainCalls
import Verif.Spec.NStep
import Verif.Spec.OnlineReplay
set_option autoImplicit false

/-!
# Specification for C125: the record of one process of an asynchronous run

Someone watches the environment of one process and writes down its episodes, and what had
been written down when the agent was last called.
-/

namespace Verif.TrainAsyncCalls
open DQN (EnvStep)
variable {O A R K X D : Type}

/-- What the watcher has written down. -/
structure Record (O A R : Type) where
  finished : List (List (EnvStep O A R)) := []
  current : List (EnvStep O A R) := []
  obs : Option O := none
  /-- finished episodes and unfinished episode as far as the agent knows -/
  told : List (List (EnvStep O A R)) × List (EnvStep O A R) := ([], [])

/-- A reset begins a new episode, a step adds to the current one; a call of
`act_and_train` tells the agent everything so far, and `stop_episode_and_train`
also that the episode is over. -/
def Record.watch (w : Record O A R) : TrainAsync.Ev O A R → Record O A R
  | .reset o => { w with finished := if w.current.isEmpty then w.finished else w.finished ++ [w.current], current := [], obs := some o }
  | .step a out =>
    match w.obs with
    | none => w
    | some o => { w with current := w.current ++ [⟨o, a, out.r, out.obs, out.done⟩], obs := some out.obs }
  | .act .. => { w with told := (w.finished, w.current) }
  | .stop .. => { w with told := (w.finished ++ [w.current], []) }
  | _ => w

/-- The record of the calls of a process. -/
def record (evs : List (TrainAsync.Ev O A R)) : Record O A R := evs.foldl Record.watch {}

/-- The number of calls that tell of whole episodes: one for each step and one for the end. -/
def callsBefore (eps : List (List (EnvStep O A R))) : Nat := (eps.map fun e => e.length + 1).sum

/-! ## A3C and NSQ -/

/-- The steps of an episode whose first call has number `k`. -/
def nSteps (boot : Nat → K) (x : Nat → X) : Nat → List (EnvStep O A K) → List (NStepAgent.Step X K)
  | _, [] => []
  | k, s :: l => ⟨boot k, x k, s.reward⟩ :: nSteps boot x (k + 1) l

/-- An episode whose first call has number `k`. -/
def nEpisode (boot : Nat → K) (x : Nat → X) (k : Nat) (l : List (EnvStep O A K)) : NStepAgent.Episode X K :=
  ⟨nSteps boot x k l, (l.getLast?.map (·.terminal)).getD false, boot (k + l.length)⟩

/-- Episodes, numbered from `k` on; an episode of `n` steps is `n + 1` calls. -/
def nEpisodes (boot : Nat → K) (x : Nat → X) : Nat → List (List (EnvStep O A K)) → List (NStepAgent.Episode X K)
  | _, [] => []
  | k, e :: eps => nEpisode boot x k e :: nEpisodes boot x (k + e.length + 1) eps

/-- The updates of an episode: it is cut into rollouts, and each step has its n-step return as target. -/
def NUpdates [CommSemiring K] (gamma : K) (tMax : Nat) (e : NStepAgent.Episode X K) (ups : List (List (X × K))) : Prop :=
  ∃ us, NStepAgent.Rollouts tMax e.endValue e.steps us ∧ ups = us.map fun u => (NStepAgent.returnsOf gamma u.2 u.1).reverse

/-! ## ACER and PCL -/

/-- The steps of an episode whose first call has number `k`. -/
def oSteps (dist : Nat → D) : Nat → List (EnvStep O A R) → List (OnlineReplay.Step O A D × R)
  | _, [] => []
  | k, s :: l => (⟨s.state, dist k, s.action⟩, s.reward) :: oSteps dist (k + 1) l

/-- An episode of at least one step whose first call has number `k`. -/
def oEpisode (dist : Nat → D) (k : Nat) (s : EnvStep O A R) (l : List (EnvStep O A R)) : OnlineReplay.Episode O A D R :=
  ⟨oSteps dist k (s :: l), ((s :: l).getLast?.map (·.nextState)).getD s.nextState, ((s :: l).getLast?.map (·.terminal)).getD false⟩

/-- Episodes, numbered from `k` on. -/
def oEpisodes (dist : Nat → D) : Nat → List (List (EnvStep O A R)) → List (OnlineReplay.Episode O A D R)
  | _, [] => []
  | k, [] :: eps => oEpisodes dist (k + 1) eps
  | k, (s :: l) :: eps => oEpisode dist k s l :: oEpisodes dist (k + (s :: l).length + 1) eps

/-- What C98 says of ACER and PCL after whole episodes: every episode is cut into rollouts, the updates use them in order, the replay buffer
gets every transition and the end of every episode, the actions are returned, and experience is replayed at the right times. -/
def OnlineRight {B : Type} (c : OnlineReplay.Args) (b : OnlineReplay.Buf B O A D R) (buf : Option B) (eps : List (OnlineReplay.Episode O A D R))
    (es : List (OnlineReplay.Ev O A D R)) : Prop :=
  ∃ rss rest, List.Forall₂ (fun (e : OnlineReplay.Episode O A D R) rs => OnlineReplay.Rollouts c.tMax e.boot e.steps rs) eps rss ∧
    OnlineReplay.Batches (if c.kind = .acer then 1 else c.batchsize) [] rss.flatten (OnlineReplay.updatesOf es) rest ∧
    OnlineReplay.bufferCalls es = (if buf.isSome then
      eps.flatMap fun e => (OnlineReplay.transitions e.final e.done e.steps).map some ++ [none] else []) ∧
    OnlineReplay.returned es = (eps.flatMap fun e => e.steps.map fun y => y.1.action) ∧ OnlineReplay.Timed c b buf es

end Verif.TrainAsyncCalls

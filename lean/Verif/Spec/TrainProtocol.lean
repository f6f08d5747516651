import Verif.Model.TrainAgent
set_option autoImplicit false

/-!
# The agent/environment protocol of a training run, as a state machine

What an author of an agent or an environment is promised: which of `reset`,
`act_and_train`, `step`, `stop_episode_and_train` may be called next, and with
which arguments.  Written without reference to the loop's code.
-/

namespace Verif.Train
variable {O A K S : Type}

/-- Where a training run is. -/
inductive Phase (O A K : Type) where
  /-- nothing happened yet -/
  | fresh
  /-- the agent must act on `obs` with reward `r`; the episode has `len` steps
  and the run is at step `t` -/
  | ready (obs : O) (r : K) (len t : Nat)
  /-- the agent chose `a` -/
  | chosen (a : A) (len t : Nat)
  /-- the environment's last answer `out` ended the episode -/
  | ended (out : StepOut O K) (t : Nat)
  /-- the agent was told so -/
  | stopped (t : Nat)

/-- When an answer ends the episode: the environment says so, the episode has
its maximal length, or the run reached its last step. -/
def Ends (steps : Nat) (maxLen : Option Nat) (out : StepOut O K) (len t : Nat) : Prop :=
  out.done = true ∨ out.needsReset = true ∨ maxLen = some len ∨ t = steps

/-- The allowed calls. -/
inductive Next [Zero K] (steps offset : Nat) (maxLen : Option Nat) :
    Phase O A K → Ev O A K S → Phase O A K → Prop where
  | first (o : O) : Next steps offset maxLen .fresh (.reset o) (.ready o 0 0 offset)
  | act (o : O) (r : K) (len t : Nat) (a : A) (h : t < steps) :
      Next steps offset maxLen (.ready o r len t) (.act o r a) (.chosen a len t)
  | stepOn (a : A) (len t : Nat) (out : StepOut O K) (h : ¬ Ends steps maxLen out (len + 1) (t + 1)) :
      Next steps offset maxLen (.chosen a len t) (.step a out) (.ready out.obs out.r (len + 1) (t + 1))
  | stepEnd (a : A) (len t : Nat) (out : StepOut O K) (h : Ends steps maxLen out (len + 1) (t + 1)) :
      Next steps offset maxLen (.chosen a len t) (.step a out) (.ended out (t + 1))
  | stop (out : StepOut O K) (t : Nat) :
      Next steps offset maxLen (.ended out t) (.stop out.obs out.r out.done) (.stopped t)
  | again (t : Nat) (o : O) (h : t < steps) :
      Next steps offset maxLen (.stopped t) (.reset o) (.ready o 0 0 t)

/-- A sequence of allowed calls. -/
inductive Path [Zero K] (steps offset : Nat) (maxLen : Option Nat) :
    Phase O A K → List (Ev O A K S) → Phase O A K → Prop where
  | nil (p : Phase O A K) : Path steps offset maxLen p [] p
  | cons {p q r : Phase O A K} {e : Ev O A K S} {es : List (Ev O A K S)}
      (h : Next steps offset maxLen p e q) (t : Path steps offset maxLen q es r) :
      Path steps offset maxLen p (e :: es) r

/-- The calls the protocol is about. -/
def Ev.isProtocol : Ev O A K S → Bool
  | .reset _ | .act .. | .step .. | .stop .. => true
  | _ => false

/-- Calls of `env.step`. -/
def Ev.isStep : Ev O A K S → Bool
  | .step .. => true
  | _ => false

/-- Calls of `stop_episode_and_train`. -/
def Ev.isStop : Ev O A K S → Bool
  | .stop .. => true
  | _ => false

/-- Hook calls. -/
def Ev.isHook : Ev O A K S → Bool
  | .hook .. => true
  | _ => false

/-- Snapshots. -/
def Ev.isSave : Ev O A K S → Bool
  | .save .. => true
  | _ => false

end Verif.Train

import Verif.Model.TrainAgentBatch
set_option autoImplicit false

/-!
# The protocol of `train_agent_batch`, as a state machine

Which calls are made, in which order and with which arguments.  Written from
the documentation, without reference to the loop's code.
-/

namespace Verif.TrainBatch
open Train (StepOut Suffix)
variable {O A K S : Type}

/-- Where a run is. -/
inductive Phase (O A K S : Type) where
  | fresh
  /-- the agent must act on `obss`; `lens`: lengths of the current episodes;
  `t` steps done; `k` episodes finished -/
  | ready (obss : List O) (lens : List Nat) (t k : Nat)
  | chosen (actions : List A) (lens : List Nat) (t k : Nat)
  /-- the environments answered; `lens` includes the new step -/
  | stepped (outs : List (StepOut O K)) (lens : List Nat) (t k : Nat)
  /-- the agent observed; `ends` says whose episodes ended; the calls `todo`
  (checkpoints and hooks of the new steps) are still to be made; `t` and `k`
  include the new steps and episodes -/
  | counting (todo : List (Ev O A K S)) (ends : List Bool) (lens : List Nat) (t k : Nat)
  /-- the evaluator was asked; `success`: training has to stop -/
  | judged (success : Bool) (ends : List Bool) (lens : List Nat) (t k : Nat)
  /-- the final snapshot was taken -/
  | finished (t : Nat)
  /-- an exception occurred and its snapshot was taken -/
  | failed (t : Nat)

/-- The checkpoints and hook calls due for the steps `t+1 .. t+n`. -/
def due (n numHooks : Nat) (freq : Option Nat) (t : Nat) : List (Ev O A K S) :=
  (List.range n).flatMap fun j =>
    (match freq with
      | none => []
      | some f => if f ≠ 0 ∧ f ∣ t + j + 1 then [.save (t + j + 1) .checkpoint] else []) ++
    (List.range numHooks).map fun i => .hook i (t + j + 1)

/-- The step number of a due call. -/
def Ev.stamp : Ev O A K S → Option Nat
  | .save t _ => some t
  | .hook _ t => some t
  | _ => none

/-- The number of steps counted so far. -/
def Phase.time (offset : Nat) : Phase O A K S → Nat
  | .fresh => offset
  | .ready _ _ t _ | .chosen _ _ t _ | .stepped _ _ t _ | .judged _ _ _ t _ | .finished t | .failed t => t
  | .counting todo _ _ t _ => ((todo.head?.bind Ev.stamp).getD t)

/-- Whether the episode of an environment must be reset: it has the maximal
length or the environment asks for it. -/
def mustReset (maxLen : Option Nat) (len : Nat) (o : StepOut O K) : Bool :=
  o.needsReset || decide (maxLen = some len)

/-- What counts as success: a score is returned and the best score reaches
`successful_score`; a score of 0.0 counts as none (see C24 for this defect). -/
def success [Zero S] [LinearOrder S] (target : Option S) (score : Option S) (maxScore : S) : Bool :=
  match score, target with
  | some x, some s => decide (x ≠ 0) && decide (s ≤ maxScore)
  | _, _ => false

/-- The allowed calls. -/
inductive Next [Zero S] [LinearOrder S] (c : Cfg S) : Phase O A K S → Ev O A K S → Phase O A K S → Prop where
  | first (obss : List O) :
      Next c .fresh (.reset none obss) (.ready obss (List.replicate c.numEnvs 0) c.stepOffset 0)
  | setT (obss : List O) (lens : List Nat) :
      Next c (.ready obss lens c.stepOffset 0) (.setT c.stepOffset) (.ready obss lens c.stepOffset 0)
  | act (obss : List O) (lens : List Nat) (t k : Nat) (a : List A) :
      Next c (.ready obss lens t k) (.act obss a) (.chosen a lens t k)
  | step (a : List A) (lens : List Nat) (t k : Nat) (outs : List (StepOut O K)) :
      Next c (.chosen a lens t k) (.step a outs) (.stepped outs (lens.map (· + 1)) t k)
  | observe (outs : List (StepOut O K)) (lens : List Nat) (t k : Nat) (resets ends : List Bool)
      (hr : resets = (lens.zip outs).map fun x => mustReset c.maxEpisodeLen x.1 x.2)
      (he : ends = (resets.zip outs).map fun x => x.1 || x.2.done) :
      Next c (.stepped outs lens t k)
        (.observe (outs.map (·.obs)) (outs.map (·.r)) (outs.map (·.done)) resets)
        (.counting (due c.numEnvs c.numHooks c.checkpointFreq t) ends lens
          (t + c.numEnvs) (k + ends.countP id))
  | count (e : Ev O A K S) (todo : List (Ev O A K S)) (ends : List Bool) (lens : List Nat) (t k : Nat) :
      Next c (.counting (e :: todo) ends lens t k) e (.counting todo ends lens t k)
  | evaluate (ends : List Bool) (lens : List Nat) (t k : Nat) (score : Option S) (m : S)
      (h : c.hasEvaluator = true) :
      Next c (.counting [] ends lens t k) (.evaluate t k score m)
        (.judged (success c.successfulScore score m) ends lens t k)
  | noEvaluator {ends : List Bool} {lens : List Nat} {t k : Nat} {e : Ev O A K S} {q : Phase O A K S}
      (h : c.hasEvaluator = false) (hn : Next c (.judged false ends lens t k) e q) :
      Next c (.counting [] ends lens t k) e q
  | reset (ends : List Bool) (lens : List Nat) (t k : Nat) (obss : List O) (h : t < c.steps) :
      Next c (.judged false ends lens t k) (.reset (some (ends.map not)) obss)
        (.ready obss ((ends.zip lens).map fun x => if x.1 then 0 else x.2) t k)
  | finish (s : Bool) (ends : List Bool) (lens : List Nat) (t k : Nat) (h : s = true ∨ c.steps ≤ t) :
      Next c (.judged s ends lens t k) (.save t .finish) (.finished t)
  | fail (p : Phase O A K S) (hp : p ≠ .fresh ∧ (∀ t, p ≠ .finished t) ∧ ∀ t, p ≠ .failed t) :
      Next c p (.save (p.time c.stepOffset) .except) (.failed (p.time c.stepOffset))
  | closeEnv (t : Nat) : Next c (.failed t) .closeEnv (.failed t)
  | closeEvalEnv (t : Nat) : Next c (.failed t) .closeEvalEnv (.failed t)

end Verif.TrainBatch

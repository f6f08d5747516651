import Verif.Model.TrainAgentAsync
set_option autoImplicit false

/-!
# The protocol of one process of asynchronous training, as a state machine
-/

namespace Verif.TrainAsync
open Train (StepOut)
variable {O A K S : Type}

/-- Where a process is. -/
inductive Phase (O A K : Type) where
  | fresh
  | ready (obs : O) (r : K) (len : Nat)
  | chosen (a : A) (len : Nat)
  | stepped (out : StepOut O K) (len : Nat)
  /-- the step has the global number `n`, `i` hooks were called -/
  | counted (out : StepOut O K) (len n i : Nat)
  /-- the episode ended at the global step `n`; `ev`: an evaluation was asked for -/
  | stopped (n : Nat) (ev : Bool)
  | saved
  | over

/-- When a step must end the episode. -/
def MustEnd (c : Cfg S) (out : StepOut O K) (len n : Nat) : Prop :=
  out.done = true ∨ out.needsReset = true ∨ c.maxEpisodeLen = some len ∨ c.steps ≤ n

/-- The allowed calls of one process.  `early`: some process has succeeded, so
episodes may be cut short and training may stop before `steps`. -/
inductive Next [Zero K] (c : Cfg S) (early : Bool) : Phase O A K → Ev O A K → Phase O A K → Prop where
  | first (o : O) : Next c early .fresh (.reset o) (.ready o 0 0)
  | act (o : O) (r : K) (len : Nat) (a : A) : Next c early (.ready o r len) (.act o r a) (.chosen a len)
  | step (a : A) (len : Nat) (out : StepOut O K) :
      Next c early (.chosen a len) (.step a out) (.stepped out (len + 1))
  | count (out : StepOut O K) (len n : Nat) :
      Next c early (.stepped out len) (.count n) (.counted out len n 0)
  | hook (out : StepOut O K) (len n i : Nat) (h : i < c.numHooks) :
      Next c early (.counted out len n i) (.hook i n) (.counted out len n (i + 1))
  | go (out : StepOut O K) (len n : Nat) (a : A) (h : ¬ MustEnd c out len n) :
      Next c early (.counted out len n c.numHooks) (.act out.obs out.r a) (.chosen a len)
  | stop (out : StepOut O K) (len n : Nat) (h : MustEnd c out len n ∨ early = true) :
      Next c early (.counted out len n c.numHooks) (.stop out.obs out.r out.done) (.stopped n false)
  | evaluate (n k : Nat) (h : c.hasEvaluator = true) :
      Next c early (.stopped n false) (.evaluate n k) (.stopped n true)
  | again (n : Nat) (o : O) (h : n < c.steps) :
      Next c early (.stopped n c.hasEvaluator) (.reset o) (.ready o 0 0)
  | finish (h : c.steps ≠ 0) :
      Next c early (.stopped c.steps c.hasEvaluator) (.saveFinish c.steps) .saved
  | successful (n : Nat) (h : early = true) (h' : n ≠ c.steps) :
      Next c early (.stopped n true) .saveSuccessful .over
  | successful' (h : early = true) : Next c early .saved .saveSuccessful .over
  | except (p : Phase O A K) (t : Nat) : Next c early p (.saveExcept t) .over

end Verif.TrainAsync

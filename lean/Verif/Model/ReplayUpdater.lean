import Verif.Model.Py
set_option autoImplicit false

/-!
# Model of `ReplayUpdater` (`chainerrl/replay_buffer.py:230-280`)
-/

namespace Verif

/-- `replay_buffer.py:248-260`. -/
structure UpdaterCfg where
  batchsize : Nat
  episodic : Bool
  nTimes : Nat
  startSize : Nat
  interval : Nat

/-- What `update_if_necessary` does to the outside: a request to the buffer
(for transitions or for episodes) and a call of `update_func` (replay_buffer.py:262-280). -/
inductive UpdEvent where
  | sample (n : Nat)
  | sampleEpisodes (n : Nat)
  | update
  deriving DecidableEq

/-- `replay_buffer.py:252`: the constructor's assertion. -/
def UpdaterCfg.mk? (c : UpdaterCfg) : Py UpdaterCfg :=
  if c.batchsize ≤ c.startSize then .ok c else .error .assertionError

/-- `replay_buffer.py:273-280`: the loop. -/
def UpdaterCfg.loop (c : UpdaterCfg) : Nat → List UpdEvent
  | 0 => []
  | k + 1 =>
    (if c.episodic then [.sampleEpisodes c.batchsize, .update] else [.sample c.batchsize, .update])
      ++ c.loop k

/-- `replay_buffer.py:262-280` `update_if_necessary(iteration)` when the buffer
holds `len` transitions and `nEpisodes` episodes.  The updates do not change
these numbers. -/
def UpdaterCfg.updateIfNecessary (c : UpdaterCfg) (len nEpisodes : Nat) (iteration : Int) :
    Py (List UpdEvent) :=
  if len < c.startSize then .ok []
  else if c.episodic && nEpisodes < c.batchsize then .ok []
  else if c.interval = 0 then .error .zeroDivisionError
  else if iteration % (c.interval : Int) ≠ 0 then .ok []
  else .ok (c.loop c.nTimes)

end Verif

import Verif.Model.ActionValue
import Verif.Model.BatchExperiences
set_option autoImplicit false

/-!
# Model of the bootstrap targets of the Q-learning agents

`exp_batch` is the model of `batch_experiences` (`ExpBatch`); its entries `reward`,
`is_state_terminal` and `discount` are lists with one number per entry of the
batch, and numpy's arithmetic on them is elementwise.  Networks are arbitrary
functions of a state (and action): the model `q` and the target model `qt` give
the row of action values of a state.  Not modelled: gradients, floats, the
recurrent variants (which evaluate the same formulas on other batches).
-/

namespace Verif.Targets
open ActionValue
variable {F A K : Type} [Field K] [LinearOrder K]

/-- The common expression
`batch_rewards + discount * (1.0 - batch_terminal) * next_q`
(`dqn.py:304`, `double_dqn.py:42`, `sarsa.py:37`, `al.py:60-61`, `pal.py:58-59`,
`double_pal.py:50-51`, `dpp.py:35-36`, `residual_dqn.py:31-32`, `td3.py:197-198`,
`soft_actor_critic.py:227-228`). -/
def bellman (b : ExpBatch F A K) (discount nextQ : List K) : List K :=
  List.zipWith (· + ·) b.reward
    (List.zipWith (· * ·) (List.zipWith (· * ·) discount (b.terminal.map (1 - ·))) nextQ)

/-- `dqn.py:289-304`. -/
def dqn (qt : F → List K) (b : ExpBatch F A K) : List K :=
  bellman b b.discount (b.nextState.map (fun s => maxQ (qt s)))

/-- `residual_dqn.py:15-32`: as DQN, with the model instead of the target model. -/
def residualDqn (q : F → List K) (b : ExpBatch F A K) : List K :=
  bellman b b.discount (b.nextState.map (fun s => maxQ (q s)))

/-- `double_dqn.py:12-42`. -/
def doubleDqn (q qt : F → List K) (b : ExpBatch F A K) : List K :=
  bellman b b.discount (b.nextState.map (fun s => evaluate (qt s) (greedy (q s))))

/-- `sarsa.py:13-37`; `acts` are the actions that the explorer selects. -/
def sarsa (qt : F → List K) (acts : List Nat) (b : ExpBatch F A K) : List K :=
  bellman b b.discount (List.zipWith (fun s a => evaluate (qt s) a) b.nextState acts)

/-- `al.py:39-66`. -/
def al (alpha : K) (qt : F → List K) (b : ExpBatch F Nat K) : List K :=
  List.zipWith (fun t adv => t + alpha * adv)
    (bellman b b.discount (b.nextState.map (fun s => maxQ (qt s))))
    (List.zipWith (fun s a => advantage (qt s) a) b.state b.action)

/-- `pal.py:38-68`. -/
def pal (alpha : K) (qt : F → List K) (b : ExpBatch F Nat K) : List K :=
  List.zipWith (fun t adv => t + alpha * adv)
    (bellman b b.discount (b.nextState.map (fun s => maxQ (qt s))))
    (List.zipWith max
      (List.zipWith (fun s a => advantage (qt s) a) b.state b.action)
      (List.zipWith (fun s a => advantage (qt s) a) b.nextState b.action))

/-- `double_pal.py:26-60`. -/
def doublePal (alpha : K) (q qt : F → List K) (b : ExpBatch F Nat K) : List K :=
  List.zipWith (fun t adv => t + alpha * adv)
    (bellman b b.discount (b.nextState.map (fun s => evaluate (qt s) (greedy (q s)))))
    (List.zipWith max
      (List.zipWith (fun s a => advantage (qt s) a) b.state b.action)
      (List.zipWith (fun s a => advantage (qt s) a) b.nextState b.action))

/-- `dpp.py:20-79`; `L` is `_l_operator` (an arbitrary function of the action
values covers `DPP`, `DPPL` and `DPPGreedy`). -/
def dpp (L : List K → K) (qt : F → List K) (b : ExpBatch F Nat K) : List K :=
  List.zipWith (fun t e => t - e)
    (List.zipWith (· + ·)
      (List.zipWith (fun s a => evaluate (qt s) a) b.state b.action)
      (bellman b b.discount (b.nextState.map (fun s => L (qt s)))))
    (b.state.map (fun s => L (qt s)))

/-- `td3.py:190-198`; `acts` are the smoothed actions of the target policy. -/
def td3 {U : Type} (q1 q2 : F → U → K) (acts : List U) (b : ExpBatch F A K) : List K :=
  bellman b b.discount (List.zipWith (fun s a => min (q1 s a) (q2 s a)) b.nextState acts)

/-- `soft_actor_critic.py:217-228`; `acts` are the sampled actions with their log
probabilities. -/
def sac {U : Type} (temperature : K) (q1 q2 : F → U → K) (acts : List (U × K))
    (b : ExpBatch F A K) : List K :=
  bellman b b.discount (List.zipWith
    (fun s a => min (q1 s a.1) (q2 s a.1) - temperature * a.2) b.nextState acts)

/-- `ddpg.py:181-198`: the factor is `self.gamma`, not the discount of the batch. -/
def ddpg {U : Type} (gamma : K) (qt : F → U → K) (acts : List U) (b : ExpBatch F A K) : List K :=
  bellman b (b.reward.map (fun _ => gamma)) (List.zipWith qt b.nextState acts)

/-- `iqn.py:300-340` for one quantile threshold `tau'` per entry: `greedyQ s` are the
action values of the target model averaged over `taus_tilde`, `z s tau` its
action values at `tau`. -/
def iqn {T : Type} (greedyQ : F → List K) (z : F → T → List K) (taus : List T)
    (b : ExpBatch F A K) : List K :=
  bellman b b.discount
    (List.zipWith (fun s tau => evaluate (z s tau) (greedy (greedyQ s))) b.nextState taus)

/-- `categorical_dqn.py:144-147` (and `categorical_double_dqn.py:41-44`): the
shifted atoms of each entry,
`Tz = rewards[..., None] + (1.0 - terminal[..., None]) * expand_dims(discount, 1) * z_values[None]`. -/
def categoricalAtoms (z : List K) (b : ExpBatch F A K) : List (List K) :=
  List.zipWith (fun r td => z.map (fun zi => r + td * zi)) b.reward
    (List.zipWith (fun t d => (1 - t) * d) b.terminal b.discount)

end Verif.Targets

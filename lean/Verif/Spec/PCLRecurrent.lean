import Verif.Model.PCLRecurrent
import Verif.Spec.PCL
set_option autoImplicit false

/-! # Specification: an episode as a recurrent model sees it (C126) -/

namespace Verif.PCLRecurrent
open PCL (Tr)
variable {H O A K : Type}

/-- The observations of an episode up to time `t`: the first one, and those after the first `t` steps. -/
def seen (ep : List (Tr O A K)) (t : Nat) : List O := (ep.head?.map Tr.state).toList ++ (ep.take t).map Tr.nextState

/-- The hidden state after a reset and the observations of this episode alone, up to time `t`. -/
def hiddenAt (m : Net H O A K) (ep : List (Tr O A K)) (t : Nat) : H := (seen ep t).foldl m.cell m.h0

/-- The episode with hidden states in the place of observations. -/
def alone (m : Net H O A K) (ep : List (Tr O A K)) : List (Tr H A K) :=
  ep.mapIdx fun t tr => ⟨hiddenAt m ep t, tr.action, tr.reward, hiddenAt m ep (t + 1), tr.terminal⟩

end Verif.PCLRecurrent

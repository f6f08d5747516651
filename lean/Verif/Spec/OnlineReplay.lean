import Verif.Model.OnlineReplay
set_option autoImplicit false

/-! # Specification: on-policy updates, recorded transitions and replay of ACER and PCL -/

namespace Verif.OnlineReplay
variable {B O A D R : Type}

/-- An episode: steps with the rewards that followed them, the last observation and whether it is terminal. -/
structure Episode (O A D R : Type) where
  steps : List (Step O A D × R)
  final : O
  done : Bool

/-- The calls from a point in an episode on; `reward` is the one of the step before. -/
def callsFrom (e : Episode O A D R) : R → List (Step O A D × R) → List (Call O A D R)
  | reward, [] => [.stop e.final reward e.done]
  | reward, (x, r) :: rest => .act x reward :: callsFrom e r rest

/-- The calls of an episode; the reward of the first call belongs to no step. -/
def Episode.calls (e : Episode O A D R) (reward₀ : R) : List (Call O A D R) := callsFrom e reward₀ e.steps

/-- The state whose value continues the return at the end of the episode. -/
def Episode.boot (e : Episode O A D R) : Option O := if e.done then none else some e.final

/-- The transitions of steps ended by `final`, each with the distribution its action was drawn from. -/
def transitions (final : O) (done : Bool) : List (Step O A D × R) → List (Transition O A R × D)
  | [] => []
  | [(x, r)] => [(⟨x.obs, x.action, r, final, some x.action, done⟩, x.dist)]
  | (x, r) :: (y, r') :: rest =>
    (⟨x.obs, x.action, r, y.obs, some y.action, false⟩, x.dist) :: transitions final done ((y, r') :: rest)

/-- Rollouts cut from steps: `t_max` steps each, bootstrapped from the observation that follows; the rest of the steps at
the end of the episode. -/
inductive Rollouts (tMax : Option Nat) (boot : Option O) : List (Step O A D × R) → List (Rollout O A D R) → Prop
  | last (c : List (Step O A D × R)) : c ≠ [] → (∀ n, tMax = some n → c.length ≤ n) → Rollouts tMax boot c [⟨c, boot⟩]
  | more (c : List (Step O A D × R)) (x : Step O A D × R) (rest : List (Step O A D × R)) (rs : List (Rollout O A D R)) :
      tMax = some c.length → Rollouts tMax boot (x :: rest) rs →
      Rollouts tMax boot (c ++ x :: rest) (⟨c, some x.1.obs⟩ :: rs)

/-- The on-policy updates among events. -/
def updatesOf (es : List (Ev O A D R)) : List (List (Rollout O A D R)) :=
  es.filterMap fun e => match e with
    | .update u => some u
    | _ => none

/-- The replay buffer calls among events (`none`: end of an episode). -/
def bufferCalls (es : List (Ev O A D R)) : List (Option (Transition O A R × D)) :=
  es.filterMap fun e => match e with
    | .append tr mu => some (some (tr, mu))
    | .stopEpisode => some none
    | _ => none

/-- The returned actions. -/
def returned (es : List (Ev O A D R)) : List A :=
  es.filterMap fun e => match e with
    | .ret a => some a
    | _ => none

/-- `ups` are the full batches of the rollouts `pending ++ rs`, in order, and `rest` is what is left over. -/
structure Batches (n : Nat) (pending rs : List (Rollout O A D R)) (ups : List (List (Rollout O A D R)))
    (rest : List (Rollout O A D R)) : Prop where
  all : ups.flatten ++ rest = pending ++ rs
  full : ∀ u ∈ ups, u.length = n
  left : rest.length < n

/-- How often experience is replayed after an update, given the buffer. -/
def replayCount (c : Args) (b : Buf B O A D R) : Option B → Nat
  | none => 0
  | some x => if c.replayStartSize ≤ b.len x ∧ (c.kind = .pcl → c.batchsize ≤ b.nEpisodes x) then c.nTimesReplay else 0

/-- The buffer after events. -/
def bufAfter (b : Buf B O A D R) : Option B → List (Option (Transition O A R × D)) → Option B
  | buf, [] => buf
  | buf, some (tr, mu) :: es => bufAfter b (buf.map fun x => b.append x tr mu) es
  | buf, none :: es => bufAfter b (buf.map b.stop) es

/-- Experience is replayed after every on-policy update, as often as configured if the buffer has enough, and at no other
time. -/
inductive Timed (c : Args) (b : Buf B O A D R) : Option B → List (Ev O A D R) → Prop
  | nil (buf : Option B) : Timed c b buf []
  | update (buf : Option B) (u : List (Rollout O A D R)) (es : List (Ev O A D R)) : Timed c b buf es →
      Timed c b buf (.update u :: (List.replicate (replayCount c b buf) .replay ++ es))
  | append (x : B) (tr : Transition O A R) (mu : D) (es : List (Ev O A D R)) : Timed c b (some (b.append x tr mu)) es →
      Timed c b (some x) (.append tr mu :: es)
  | stop (x : B) (es : List (Ev O A D R)) : Timed c b (some (b.stop x)) es → Timed c b (some x) (.stopEpisode :: es)
  | ret (buf : Option B) (a : A) (es : List (Ev O A D R)) : Timed c b buf es → Timed c b buf (.ret a :: es)

end Verif.OnlineReplay

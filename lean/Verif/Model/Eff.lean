set_option autoImplicit false

/-!
# Imperative code with calls of user objects

Not code of `/repo`: how the models of `/repo/chainerrl/experiments` express
Python code that mutates local variables and calls an agent, an environment,
hooks and the file system.  Such code produces the list of the calls that
returned, the final values of its variables `S` (which survive an exception,
because an `except` block can read them) and either a value or the exception
that left it.  What a call returns (or raises) is decided by the outside world
and is an input of the models.
-/

namespace Verif

/-- Code with variables `S`, observable calls `E`, exceptions `X`
(the control flow of train_agent.py:22-84 and evaluator.py:218-455). -/
def Eff (S E X α : Type) := S → List E × S × Except X α

namespace Eff
variable {S E X α β : Type}

/-- The code that does nothing and evaluates to `a` (for train_agent.py:22-84). -/
def pure (a : α) : Eff S E X α := fun s => ([], s, .ok a)

/-- Sequencing; an exception skips the rest (for train_agent.py:22-84). -/
def bind (m : Eff S E X α) (f : α → Eff S E X β) : Eff S E X β := fun s =>
  match m s with
  | (l, s', .ok a) => let r := f a s'; (l ++ r.1, r.2.1, r.2.2)
  | (l, s', .error e) => (l, s', .error e)

instance : Monad (Eff S E X) where
  pure := pure
  bind := bind

/-- A call whose outcome is `r`: recorded as the event `ev v` when it returns
`v`; a call that raises leaves no event (for the calls of train_agent.py:22-84). -/
def call (ev : α → E) (r : Except X α) : Eff S E X α := fun s =>
  match r with
  | .ok a => ([ev a], s, .ok a)
  | .error e => ([], s, .error e)

/-- The current values of the variables (for the variables of train_agent.py:22-84). -/
def get : Eff S E X S := fun s => ([], s, .ok s)

/-- Assignment (for the assignments of train_agent.py:22-84). -/
def set (s : S) : Eff S E X Unit := fun _ => ([], s, .ok ())

/-- `for i in range(n): f(i)`, counted from `i` (`for hook in step_hooks`, train_agent.py:51-52). -/
def forN (f : Nat → Eff S E X Unit) : Nat → Nat → Eff S E X Unit
  | _, 0 => pure ()
  | i, n + 1 => bind (f i) fun _ => forN f (i + 1) n

/-- `try: m  except (Exception, KeyboardInterrupt): h; raise` (train_agent.py:78-81). -/
def onError (m : Eff S E X α) (h : Eff S E X Unit) : Eff S E X α := fun s =>
  match m s with
  | (l, s', .ok a) => (l, s', .ok a)
  | (l, s', .error e) =>
    match h s' with
    | (l', s'', .ok _) => (l ++ l', s'', .error e)
    | (l', s'', .error e') => (l ++ l', s'', .error e')

end Eff
end Verif

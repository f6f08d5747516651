import Verif.Model.Py

/-!
# Models of small helpers

`chainerrl/misc/ask_yes_no.py`, the helpers for replay buffers of `chainerrl/experiments/train_agent.py` (lines 9-19), `collect_variables` of
`chainerrl/misc/draw_computational_graph.py` and `chainerrl/links/branched.py`.
-/

set_option autoImplicit false

namespace Verif.Helpers

/-! ## Asking -/

/-- `ask_yes_no(question)` (ask_yes_no.py lines 2-8).  The argument holds the lines that the user will type, as lists of characters; `none` is `EOFError` when they end.  Returns the answer, the number of
times the question was asked and the lines that are left.  `lower()` is for ASCII letters here; no other letters give the compared words. -/
def askYesNo : List (List Char) → Option (Bool × Nat × List (List Char))
  | [] => none
  | line :: rest =>
    let choice := line.map Char.toLower
    if choice = ['y'] ∨ choice = ['y', 'e'] ∨ choice = ['y', 'e', 's'] then some (true, 1, rest)
    else if choice = ['n'] ∨ choice = ['n', 'o'] then some (false, 1, rest)
    else (askYesNo rest).map fun (b, n, r) => (b, n + 1, r)

/-- A directory of files: contents by the name of the file (train_agent.py:9-19). -/
abbrev Files (B : Type) := String → Option B

/-- `save_agent_replay_buffer` (train_agent.py lines 9-13): the file `<t><suffix>.replay.pkl` of `outdir` gets the contents of the buffer. -/
def saveReplayBuffer {B : Type} (buf : B) (t : Nat) (suffix : String) (fs : Files B) : Files B :=
  fun name => if name = toString t ++ suffix ++ ".replay.pkl" then some buf else fs name

/-- `ask_and_save_agent_replay_buffer` (train_agent.py lines 16-19); `buf` is `none` for an agent without `replay_buffer`.  Returns the files, the number of times the question was
asked and the lines that are left; `none` is `EOFError`. -/
def askAndSave {B : Type} (buf : Option B) (t : Nat) (suffix : String) (lines : List (List Char)) (fs : Files B) : Option (Files B × Nat × List (List Char)) :=
  match buf with
  | none => some (fs, 0, lines)
  | some b =>
    match askYesNo lines with
    | none => none
    | some (true, n, rest) => some (saveReplayBuffer b t suffix fs, n, rest)
    | some (false, n, rest) => some (fs, n, rest)

/-! ## Collecting variables -/

mutual
/-- A Python object, for `collect_variables` (draw_computational_graph.py:7-26). -/
inductive Obj (V : Type)
  | variable (v : V)
  | actionValue (params : List V)
  | distribution (params : List V)
  | seq (l : Objs V)
  | other

/-- The elements of a list or tuple (draw_computational_graph.py:7-26). -/
inductive Objs (V : Type)
  | nil
  | cons (o : Obj V) (os : Objs V)
end

mutual
/-- `collect_variables(obj)` (draw_computational_graph.py lines 7-26); `none` is the value `None` that the function returns for other objects. -/
def collect {V : Type} : Obj V → Py (Option (List V))
  | .variable v => .ok (some [v])
  | .actionValue ps => .ok (some ps)
  | .distribution ps => .ok (some ps)
  | .seq l => do
    let vs ← collectAll l []
    .ok (some vs)
  | .other => .ok none

/-- The loop of lines 23-25; `extend(None)` raises `TypeError`. -/
def collectAll {V : Type} : Objs V → List V → Py (List V)
  | .nil, acc => .ok acc
  | .cons o os, acc =>
    match collect o with
    | .error e => .error e
    | .ok none => .error .typeError
    | .ok (some vs) => collectAll os (acc ++ vs)
end

/-! ## Branched -/

/-- `Branched.__call__` (branched.py lines 16-26): the generator calls the children one after the other. -/
def branchedCall {A B : Type} : List (A → Py B) → A → Py (List B)
  | [], _ => .ok []
  | f :: fs, x => do
    let y ← f x
    let ys ← branchedCall fs x
    .ok (y :: ys)

end Verif.Helpers

import Verif.Model.Optimizers
set_option autoImplicit false

/-!
# Model of the asynchronous updates of A3C, NSQ, ACER and PCL

`chainerrl/agents/a3c.py`, `nsq.py`, `acer.py` (`update`, `sync_parameters`, `load`) and `pcl.py`
with `train_async=True`, run by any number of processes that share the arrays of the global model,
of the optimizer state and of ACER's average model (see C83), without locks.

The unit of execution is one numpy operation that reads or changes one shared array in place.  The
schedule may switch between processes after every one of them.  That a single in-place operation is
not interrupted is an assumption.  The optimizer is `RMSpropAsync` (`optimizers/rmsprop_async.py`)
without hooks.  Gradients are arbitrary functions of the process-local parameters; a parameter
that the loss does not reach has no gradient.  `copy_grad` copies them exactly (C56) to the gradient
arrays of the global model, which are private to the process, so both are one field here.
-/

namespace Verif.AsyncUpdate
open Real
open Optimizers (Hyper)

/-- An array (the arrays of rmsprop_async.py:29-38). -/
abbrev Arr (ι : Type) := ι → ℝ

/-- Shared memory: the parameters of the global model by number, the optimizer's state
`ms` and the parameters of ACER's `shared_average_model` (rmsprop_async.py:24-38, a3c.py:92-125). -/
structure Shared (ι : Type) where
  params : Nat → Arr ι
  ms : Nat → Arr ι
  avg : Nat → Arr ι

/-- Where a process is: outside `update`, in the four steps of the update rule for a parameter
(`rmsprop_async.py:36-38`), in `copy_param` (`copy_param.py:14`) or in the two steps of
`soft_copy_param` (`copy_param.py:35-36`). -/
inductive Pc (ι : Type) where
  | idle
  | decay (p : Nat)
  | square (p : Nat)
  | read (p : Nat)
  | sub (p : Nat) (d : Arr ι)
  | copy (p : Nat)
  | mul (p : Nat)
  | add (p : Nat)

/-- A process: its own model, its gradients and where it is (a3c.py:109-125, 206-215). -/
structure Proc (ι : Type) where
  model : Nat → Arr ι
  grad : Nat → Option (Arr ι)
  pc : Pc ι

/-- The number of parameters, the optimizer's arguments, and `trust_region_alpha` for ACER
(rmsprop_async.py:14-22, 61-70). -/
structure Cfg where
  numParams : Nat
  hp : Hyper
  trustRegionAlpha : Option ℝ

/-- The global model and all processes that update it by a3c.py:212-228. -/
structure World (ι : Type) where
  shared : Shared ι
  procs : Nat → Proc ι

/-- A change of a global parameter: process, parameter, its gradient there and what was subtracted
(made by rmsprop_async.py:29-38). -/
structure Change (ι : Type) where
  proc : Nat
  param : Nat
  grad : Arr ι
  delta : Arr ι

variable {ι : Type}

/-- The next numpy operation of a process; `G` gives the gradients if it starts an update now
(the operations of a3c.py:212-228, copy_param.py:4-14, 49-62 and rmsprop_async.py:29-38). -/
noncomputable def procStep (c : Cfg) (G : (Nat → Arr ι) → Nat → Option (Arr ι)) (sh : Shared ι) (q : Proc ι) :
    Shared ι × Proc ι × Option (Nat × Arr ι × Arr ι) :=
  match q.pc with
  -- a3c.py:212-217, nsq.py:108-112, acer.py:496-500, pcl.py:242-247
  | .idle => (sh, { q with grad := G q.model, pc := .decay 0 }, none)
  -- `self.optimizer.update()`: a3c.py:224, nsq.py:114, acer.py:507, pcl.py:254; rmsprop_async.py:30-36
  | .decay p =>
    if p = c.numParams then (sh, { q with pc := .copy 0 }, none)
    else match q.grad p with
      | none => (sh, { q with pc := .decay (p + 1) }, none)
      | some _ =>
        ({ sh with ms := Function.update sh.ms p fun i => sh.ms p i * c.hp.alpha }, { q with pc := .square p }, none)
  -- rmsprop_async.py:37
  | .square p =>
    match q.grad p with
    | none => (sh, { q with pc := .decay (p + 1) }, none)
    | some g =>
      ({ sh with ms := Function.update sh.ms p fun i => sh.ms p i + (1 - c.hp.alpha) * g i * g i },
        { q with pc := .read p }, none)
  -- the right hand side of rmsprop_async.py:38
  | .read p =>
    match q.grad p with
    | none => (sh, { q with pc := .decay (p + 1) }, none)
    | some g => (sh, { q with pc := .sub p fun i => c.hp.lr * g i / sqrt (sh.ms p i + c.hp.eps) }, none)
  -- `param.data -= ...`
  | .sub p d =>
    match q.grad p with
    | none => (sh, { q with pc := .decay (p + 1) }, none)
    | some g =>
      ({ sh with params := Function.update sh.params p fun i => sh.params p i - d i },
        { q with pc := .decay (p + 1) }, some (p, g, d))
  -- `sync_parameters`: a3c.py:148-150, nsq.py:72-74, acer.py:354-355, pcl.py:173-175
  | .copy p =>
    if p = c.numParams then (sh, { q with pc := if c.trustRegionAlpha.isSome then .mul 0 else .idle }, none)
    else (sh, { q with model := Function.update q.model p (sh.params p), pc := .copy (p + 1) }, none)
  -- acer.py:356-358 with `tau = 1 - trust_region_alpha`
  | .mul p =>
    if p = c.numParams then (sh, { q with pc := .idle }, none)
    else
      let tau := 1 - c.trustRegionAlpha.getD 0
      ({ sh with avg := Function.update sh.avg p fun i => sh.avg p i * (1 - tau) }, { q with pc := .add p }, none)
  | .add p =>
    let tau := 1 - c.trustRegionAlpha.getD 0
    ({ sh with avg := Function.update sh.avg p fun i => sh.avg p i + tau * q.model p i },
      { q with pc := .mul (p + 1) }, none)

/-- A turn of the schedule: which process, and the gradients if it starts an update
(which process goes on in a3c.py:212-228). -/
structure Turn (ι : Type) where
  proc : Nat
  grads : (Nat → Arr ι) → Nat → Option (Arr ι)

/-- One turn of a process in a3c.py:212-228. -/
noncomputable def step (c : Cfg) (w : World ι) (t : Turn ι) : World ι × List (Change ι) :=
  let r := procStep c t.grads w.shared (w.procs t.proc)
  (⟨r.1, Function.update w.procs t.proc r.2.1⟩, r.2.2.toList.map fun x => ⟨t.proc, x.1, x.2.1, x.2.2⟩)

/-- The execution of a schedule, with all changes of the global parameters (interleaves the updates of a3c.py:212-228). -/
noncomputable def run (c : Cfg) : World ι → List (Turn ι) → World ι × List (Change ι)
  | w, [] => (w, [])
  | w, t :: l =>
    let r := step c w t
    let r' := run c r.1 l
    (r'.1, r.2 ++ r'.2)

/-- `load(dirname)` by process `i`: `super().load` fills its model, which is copied to the global model
(a3c.py:294-297, nsq.py:184-187, acer.py:699-702, pcl.py:478-482).  `saved_attributes` of ACER
(acer.py:273) does not contain the average model.  The optimizer state (also loaded) is an argument. -/
def load (file ms : Nat → Arr ι) (i : Nat) (w : World ι) : World ι :=
  ⟨{ w.shared with params := file, ms := ms },
   Function.update w.procs i { w.procs i with model := file }⟩

end Verif.AsyncUpdate

import Verif.Model.OutputDir
set_option autoImplicit false

/-!
# What `prepare_output_dir` promises
-/

namespace Verif.OutputDir

variable {Path Text : Type} [DecidableEq Path]

/-- Before any call: the file system is arbitrary. -/
def initial (kind : Path → Option Kind) (files : Path → String → Option Text) : State Path Text :=
  ⟨kind, files, fun _ => none⟩

/-- The states that can be reached. -/
inductive Reach (join : Path → Text → Path) (s₀ : State Path Text) : State Path Text → Prop
  | refl : Reach join s₀ s₀
  | step {s s' : State Path Text} (a : Act Path Text) : Reach join s₀ s → step join s a = some s' → Reach join s₀ s'

/-- The documented contents of the output directory. -/
def Documented (c : Call Path Text) (f : String → Option Text) : Prop :=
  c.args.isSome ∧ f "args.txt" = c.args ∧ f "environ.txt" = some c.environ ∧ f "command.txt" = some c.command ∧
    ∀ g, c.git = some g → f "git-head.txt" = some g.head ∧ f "git-status.txt" = some g.status ∧
      f "git-log.txt" = some g.log ∧ f "git-diff.txt" = some g.diff

end Verif.OutputDir

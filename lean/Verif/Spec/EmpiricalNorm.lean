import Verif.Model.EmpiricalNorm
set_option autoImplicit false

/-! # Specification: empirical normalisation (C57, C58) -/

namespace Verif.EmpNorm
variable {K I : Type} [Field K] [LinearOrder K]

/-- The mean of one component of a collection of values. -/
def populationMean (xs : List (I → K)) (i : I) : K := (xs.map (fun v => v i)).sum / (xs.length : K)

/-- The population variance of one component: the mean squared deviation from the mean. -/
def populationVar (xs : List (I → K)) (i : I) : K :=
  (xs.map (fun v => (v i - populationMean xs i) ^ 2)).sum / (xs.length : K)

/-- The values learned from a sequence of batches under a limit: whole batches, as long as
fewer than `limit` values have been learned before. -/
def learned (limit : Option Nat) (soFar : List (I → K)) : List (List (I → K)) → List (I → K)
  | [] => soFar
  | b :: bs =>
    if limit.all (fun u => decide (soFar.length < u)) then learned limit (soFar ++ b) bs
    else soFar

/-- The statistics of a nonempty collection; mean zero and variance one before any value. -/
def Tracks (s : State K I) (xs : List (I → K)) : Prop :=
  s.count = xs.length ∧
  (xs = [] → s.mean = (fun _ => 0) ∧ s.var = fun _ => 1) ∧
  (xs ≠ [] → ∀ i, s.mean i = populationMean xs i ∧ s.var i = populationVar xs i)

/-- Normalisation of one value with given statistics. -/
def normalised (r : Roots K) (eps : K) (mean var : I → K) (v : I → K) : I → K :=
  fun i => (v i - mean i) * r.invSqrt (var i + eps)

/-- A value cut to `[-t, t]`. -/
def clamped (t v : K) : K := if t < v then t else if v < -t then -t else v

/-- What a user can do with a link. -/
inductive Op (K I : Type) where
  | experience (x : List (I → K))
  | call (x : List (I → K)) (update : Bool)
  | load (mean var : I → K) (count : Nat)

/-- The state after an operation. -/
def step (r : Roots K) (c : Config K) (s : State K I) : Op K I → State K I
  | .experience x => experience c s x
  | .call x u => (call r c s x u).1
  | .load m v n => load s m v n

end Verif.EmpNorm

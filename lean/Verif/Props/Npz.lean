import Verif.Spec.Npz
set_option autoImplicit false
set_option linter.unusedSectionVars false

/-! # C128: `load_npz_no_strict` -/

namespace Verif.Npz
variable {κ V : Type} [DecidableEq κ]

theorem strict_false (f : File κ V) : ∀ o : Entries κ V, (loadStrict f o).2 = false →
    (loadStrict f o).1 = loadLenient f o ∧ ∀ k ∈ names o, f k ≠ none
  | [], _ => ⟨rfl, fun k h => by simp [names] at h⟩
  | (k, v) :: o, h => by
    cases hk : f k with
    | none => simp [loadStrict, hk] at h
    | some v' =>
      simp only [loadStrict, hk] at h ⊢
      obtain ⟨h1, h2⟩ := strict_false f o h
      refine ⟨by simp [loadLenient, hk, h1], fun k' hk' => ?_⟩
      rcases List.mem_cons.1 hk' with rfl | hk'
      · simp [hk]
      · exact h2 k' hk'

theorem strict_true (f : File κ V) : ∀ o : Entries κ V, (loadStrict f o).2 = true →
    loadLenient f (loadStrict f o).1 = loadLenient f o ∧ ∃ k ∈ names o, f k = none
  | [], h => by simp [loadStrict] at h
  | (k, v) :: o, h => by
    cases hk : f k with
    | none => exact ⟨by simp only [loadStrict, hk], k, by simp [names], hk⟩
    | some v' =>
      simp only [loadStrict, hk] at h ⊢
      obtain ⟨h1, k', hk', h2⟩ := strict_true f o h
      refine ⟨?_, k', List.mem_cons_of_mem _ hk', h2⟩
      simp only [loadLenient, List.map_cons, hk, Option.getD_some, List.cons.injEq, true_and] at h1 ⊢
      exact h1

theorem load_eq (f : File κ V) (o : Entries κ V) :
    ∃ w, loadNoStrict (some f) o = .ok (loadLenient f o, w) ∧ (w = true ↔ ∃ k ∈ names o, f k = none) := by
  cases h : (loadStrict f o).2 with
  | false =>
    obtain ⟨h1, h2⟩ := strict_false f o h
    refine ⟨false, ?_, by simpa using h2⟩
    have : loadStrict f o = (loadLenient f o, false) := Prod.ext h1 h
    simp only [loadNoStrict, this]
  | true =>
    obtain ⟨h1, h2⟩ := strict_true f o h
    refine ⟨true, ?_, by simpa using h2⟩
    have : loadStrict f o = ((loadStrict f o).1, true) := Prod.ext rfl h
    simp only [loadNoStrict]
    rw [this]
    simp only [h1]

theorem value_lenient (f : File κ V) (k : κ) : ∀ o : Entries κ V,
    value (loadLenient f o) k = (value o k).map fun v => (f k).getD v
  | [] => rfl
  | (k', v) :: o => by
    have ih := value_lenient f k o
    simp only [value, loadLenient, List.map_cons, List.find?_cons] at ih ⊢
    by_cases h : k' = k
    · simp [h]
    · simpa [h] using ih

theorem value_some (o : Entries κ V) (k : κ) : value o k ≠ none ↔ k ∈ names o := by
  simp only [value, names, ne_eq, Option.map_eq_none_iff, List.find?_eq_none, List.mem_map]
  constructor
  · intro h
    simp only [Classical.not_forall, Classical.not_not] at h
    obtain ⟨e, he, h⟩ := h
    exact ⟨e, he, by simpa using h⟩
  · rintro ⟨e, he, rfl⟩ h
    exact h e he (by simp)

/-- **C128.** Loading a readable file never raises, whatever names the file and the object have.  The object keeps its names; each of its entries that the
file has is that of the file, each other one is what it was; and there is a warning exactly when the file lacks one of the object's entries.
Entries of the file that the object does not have are ignored. -/
theorem C128_load (f : File κ V) (o : Entries κ V) :
    ∃ o' w, loadNoStrict (some f) o = .ok (o', w) ∧ names o' = names o ∧
      (∀ k v, k ∈ names o → f k = some v → value o' k = some v) ∧
      (∀ k, f k = none → value o' k = value o k) ∧
      (w = true ↔ ∃ k ∈ names o, f k = none) := by
  obtain ⟨w, h1, h2⟩ := load_eq f o
  refine ⟨_, w, h1, by simp [names, loadLenient], fun k v hk hv => ?_, fun k hk => ?_, h2⟩
  · rw [value_lenient]
    have := (value_some o k).2 hk
    cases h : value o k with
    | none => exact absurd h this
    | some v0 => simp [hv]
  · rw [value_lenient, hk]
    simp

/-- **C128.** A file that cannot be read raises. -/
theorem C128_unreadable (o : Entries κ V) : loadNoStrict none o = .error .runtimeError := rfl

/-- **C128.** Round trip: what was saved by an object with at least the names of `o` is restored completely and without a warning. -/
theorem C128_round_trip (saved o : Entries κ V) (hn : ∀ k ∈ names o, k ∈ names saved) :
    ∃ o', loadNoStrict (some (save saved)) o = .ok (o', false) ∧ names o' = names o ∧ ∀ k ∈ names o, value o' k = value saved k := by
  obtain ⟨o', w, h1, h2, h3, _, h5⟩ := C128_load (save saved) o
  have hs : ∀ k, save saved k = value saved k := fun _ => rfl
  have hw : w = false := by
    cases w with
    | false => rfl
    | true =>
      obtain ⟨k, hk, h⟩ := h5.1 rfl
      exact absurd h ((hs k) ▸ (value_some saved k).2 (hn k hk))
  subst hw
  refine ⟨o', h1, h2, fun k hk => ?_⟩
  cases hv : value saved k with
  | none => exact absurd hv ((value_some saved k).2 (hn k hk))
  | some v => exact h3 k v hk (by rw [hs, hv])

/-- **C128 is violated** as a round trip when the saved object had fewer entries, as an optimizer has before its first update: loading into an object that has an additional one leaves
this one as it was, so that the loaded object is not in the state that was saved; there is only a warning. -/
theorem C128_violated_missing (saved o : Entries κ V) (k : κ) (hk : k ∈ names o) (hm : k ∉ names saved) :
    ∃ o', loadNoStrict (some (save saved)) o = .ok (o', true) ∧ value o' k = value o k ∧ value o' k ≠ value saved k := by
  obtain ⟨o', w, h1, h2, _, h4, h5⟩ := C128_load (save saved) o
  have hn : save saved k = none := by
    by_cases h : save saved k = none
    · exact h
    · exact absurd ((value_some saved k).1 h) hm
  have hw : w = true := h5.2 ⟨k, hk, hn⟩
  subst hw
  refine ⟨o', h1, h4 k hn, ?_⟩
  rw [h4 k hn]
  show value o k ≠ save saved k
  rw [hn]
  exact (value_some o k).2 hk

/-! ## A concrete case -/

/-- An optimizer saved before its first update, loaded after ten updates: the count is restored, the moments are not. -/
example : (loadNoStrict (some (save [("t", 0), ("lr", 7)])) [("t", 10), ("m", 3), ("v", 4), ("lr", 6)]).toOption =
    some ([("t", 0), ("m", 3), ("v", 4), ("lr", 7)], true) := by decide +kernel

/-- Complete, with an entry more in the file. -/
example : (loadNoStrict (some (save [("t", 5), ("m", 1), ("old", 9)])) [("t", 10), ("m", 3)]).toOption = some ([("t", 5), ("m", 1)], false) := by
  decide +kernel

example := C128_violated_missing [("t", 0)] [("t", 10), ("m", 3)] "m" (by simp [names]) (by simp [names])

end Verif.Npz

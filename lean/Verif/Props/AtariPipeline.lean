import Mathlib.MeasureTheory.Measure.Lebesgue.Basic
import Mathlib.Algebra.BigOperators.Field
import Mathlib.Tactic.Linarith
import Mathlib.Tactic.Ring
import Mathlib.Tactic.FieldSimp
import Mathlib.Tactic.NormNum
import Verif.Model.AtariPipeline
import Verif.Props.FrameStack
import Verif.Props.Wrappers

/-!
C93: what an agent sees of an environment through `wrap_deepmind`'s wrappers, and what reaches an environment through
`RandomizeAction`.
-/

set_option autoImplicit false
set_option linter.unusedSectionVars false

namespace Verif.AtariPipeline
open Verif.Wrappers (Op Out run)
open Verif.Train (StepOut)
open Verif.FrameStack (lastFrames)

variable {T X Y A : Type}

/-! ### Specification -/

/-- The reward an agent sees. -/
noncomputable def seenReward (cfg : Config) (r : ℝ) : ℝ := if cfg.clipRewards then clipReward r else r

/-- The image of a raw observation, before flickering. -/
noncomputable def seenImage (cfg : Config) (warp : X → Frame) (o : X) : Frame :=
  if cfg.scale then scaled (warp o) else warp o

/-- One call of the game and the image it shows (blank with `flicker` when a number below 1/2 is drawn after the
call), reward and flags. -/
noncomputable def seen (cfg : Config) (draw : T → T × ℝ) (warp : X → Frame) (call : T → Op A → T × Out X ℝ) (t : T) (op : Op A) :
    T × Out Frame ℝ :=
  let t' := (call t op).1
  let image (o : X) : Frame :=
    if cfg.flicker = true ∧ (draw t').2 < 1 / 2 then zerosLike (seenImage cfg warp o) else seenImage cfg warp o
  match (call t op).2 with
  | .error => (t', .error)
  | .obs o => (if cfg.flicker then (draw t').1 else t', .obs (image o))
  | .step out => (if cfg.flicker then (draw t').1 else t',
      .step ⟨image out.obs, seenReward cfg out.r, out.done, out.needsReset⟩)

/-- The images since the last reset in a list of results: the first one and the later ones. -/
def episodeOf : List (Out X ℝ) → Option (X × List X) → Option (X × List X)
  | [], e => e
  | .obs o :: outs, _ => episodeOf outs (some (o, []))
  | .step out :: outs, e => episodeOf outs (e.map fun x => (x.1, x.2 ++ [out.obs]))
  | .error :: outs, e => episodeOf outs e

/-- A result with the image replaced by the last `k` images of the episode. -/
def stacked (k : Nat) (e : Option (X × List X)) : Out X ℝ → Out (List X) ℝ
  | .obs o => .obs (lastFrames k o [])
  | .step out =>
    match e with
    | some (first, later) => .step ⟨lastFrames k first (later ++ [out.obs]), out.r, out.done, out.needsReset⟩
    | none => .error
  | .error => .error

/-! ### Proofs -/

theorem preprocess_eq (cfg : Config) (draw : T → T × ℝ) (warp : X → Frame) (call : T → Op A → T × Out X ℝ) (t : T) (op : Op A) :
    preprocess cfg draw warp call t op = seen cfg draw warp call t op := by
  obtain ⟨c, s, f⟩ := cfg
  unfold preprocess seen seenReward seenImage
  rcases h : (call t op).2 with o | out | _ <;> cases c <;> cases s <;> cases f <;>
    simp [observationWrapper, rewardWrapper, flickerFrame, h]

theorem episodeOf_append : ∀ (a b : List (Out X ℝ)) (e : Option (X × List X)),
    episodeOf (a ++ b) e = episodeOf b (episodeOf a e)
  | [], _, _ => rfl
  | .obs _ :: a, b, _ => episodeOf_append a b _
  | .step _ :: a, b, _ => episodeOf_append a b _
  | .error :: a, b, _ => episodeOf_append a b _

/-- The deque of a stack: fewer than `k` frames before the first reset, then the last `k`. -/
def Deque (k steps : Nat) (q : List X) : Option (X × List X) → Prop
  | none => q.length ≤ k ∧ q.length ≤ steps
  | some (f, later) => q = lastFrames k f later

theorem lastFrames_length (k : Nat) (f : X) (l : List X) : (lastFrames k f l).length = k := by simp [lastFrames]

theorem frameStack_state (k : Nat) (call : T → Op A → T × Out X ℝ) : ∀ (ops : List (Op A)) (t : T) (q : List X)
    (n : Nat) (e : Option (X × List X)), Deque k n q e →
    (run (frameStack k call) (t, q) ops).1.1 = (run call t ops).1 ∧
    Deque k (n + ops.length) (run (frameStack k call) (t, q) ops).1.2 (episodeOf (run call t ops).2 e)
  | [], _, _, _, _, h => ⟨rfl, h⟩
  | op :: ops, t, q, n, e, h => by
    have hlen : q.length ≤ k := by
      rcases e with _ | ⟨f, l⟩
      · exact h.1
      · have h' : q = lastFrames k f l := h
        rw [h', lastFrames_length]
    have hstep : ∃ q', (frameStack k call (t, q) op).1 = ((call t op).1, q') ∧
        Deque k (n + 1) q' (episodeOf [(call t op).2] e) := by
      unfold frameStack
      rcases hr : (call t op).2 with o | out | _
      · refine ⟨FrameStack.pushN k o k q, ?_, ?_⟩
        · simp only [hr]
        · exact FrameStack.pushN_full k o q hlen
      · refine ⟨FrameStack.push k q out.obs, ?_, ?_⟩
        · simp only [hr]
        · rcases e with _ | ⟨f, l⟩
          · refine ⟨FrameStack.push_length k q _ hlen, ?_⟩
            have := h.2
            simp [FrameStack.push]; omega
          · have h' : q = lastFrames k f l := h
            show FrameStack.push k q out.obs = lastFrames k f (l ++ [out.obs])
            rw [h', FrameStack.push_last]
      · refine ⟨q, ?_, ?_⟩
        · simp only [hr]
        · rcases e with _ | ⟨f, l⟩
          · exact ⟨h.1, Nat.le_succ_of_le h.2⟩
          · exact h
    obtain ⟨q', h1, h2⟩ := hstep
    have ih := frameStack_state k call ops (call t op).1 q' (n + 1) _ h2
    simp only [run]
    rw [h1]
    refine ⟨ih.1, ?_⟩
    have := ih.2
    rw [← episodeOf_append] at this
    have e1 : n + (op :: ops).length = n + 1 + ops.length := by simp; omega
    rw [e1]
    exact this

/-- **C93.** For every game, every configuration of `wrap_deepmind` with frame stacking and every history of calls: the
wrapped game is in the state the same calls (with the flicker draws between them) would leave it in, and the next call
returns the images of the last four frames of the current episode, oldest first, the first frame of the episode standing
in for those before it; reward and flags are those of the call, the reward clipped if configured. A step before any
reset (with fewer than four steps so far) is an error. -/
theorem C93_pipeline (cfg : Config) (draw : T → T × ℝ) (warp : X → Frame) (call : T → Op A → T × Out X ℝ)
    (hreset : ∀ t out, (call t .reset).2 ≠ .step out) (t : T) (ops : List (Op A)) (op : Op A) :
    let w := (run (wrapDeepmind cfg draw warp call) (t, []) ops).1
    let before := run (seen cfg draw warp call) t ops
    let now := seen cfg draw warp call before.1 op
    w.1 = before.1 ∧
    (wrapDeepmind cfg draw warp call w op).1.1 = now.1 ∧
    ((episodeOf before.2 none).isSome = true ∨ op = .reset ∨ ops.length < 3 →
      (wrapDeepmind cfg draw warp call w op).2 = stacked 4 (episodeOf before.2 none) now.2) := by
  intro w before now
  have hpre : preprocess cfg draw warp call = seen cfg draw warp call := by
    funext t op; exact preprocess_eq cfg draw warp call t op
  have hs := frameStack_state 4 (seen cfg draw warp call) ops t [] 0 none ⟨by simp, by simp⟩
  have hw : w.1 = before.1 := by
    simp only [w, before, wrapDeepmind, hpre]; exact hs.1
  have hd : Deque 4 (0 + ops.length) w.2 (episodeOf before.2 none) := by
    simp only [w, before, wrapDeepmind, hpre]; exact hs.2
  refine ⟨hw, ?_, ?_⟩
  · simp only [wrapDeepmind, hpre, frameStack, hw]
    rcases hr : now.2 with o | out | _ <;> simp only [now] at hr <;> simp only [hr, now]
  · intro hcase
    simp only [wrapDeepmind, hpre, frameStack, hw]
    have hnow : seen cfg draw warp call before.1 op = now := rfl
    rw [hnow]
    have hl4 : w.2.length ≤ 4 := by
      rcases he : episodeOf before.2 none with _ | ⟨f, l⟩ <;> rw [he] at hd
      · exact hd.1
      · have h' : w.2 = lastFrames 4 f l := hd
        rw [h', lastFrames_length]
    rcases hr : now.2 with o | out | _
    · simp only [stacked]
      rw [FrameStack.pushN_full 4 o w.2 hl4, if_pos (lastFrames_length 4 o [])]
    · by_cases hop : op = .reset
      · exfalso
        subst hop
        simp only [now, seen] at hr
        rcases hc : (call before.1 .reset).2 with o | out' | _
        · simp [hc] at hr
        · exact hreset _ _ hc
        · simp [hc] at hr
      simp only [stacked]
      rcases he : episodeOf before.2 none with _ | ⟨f, l⟩
      · have : ops.length < 3 := by
          rcases hcase with h | h | h
          · rw [he] at h; simp at h
          · exact absurd h hop
          · exact h
        rw [he] at hd
        have h2 := hd.2
        have hne : (FrameStack.push 4 w.2 out.obs).length ≠ 4 := by
          simp [FrameStack.push]; omega
        rw [if_neg hne]
      · rw [he] at hd
        have h' : w.2 = lastFrames 4 f l := hd
        rw [h', FrameStack.push_last]
        simp only
        rw [if_pos (lastFrames_length 4 f _)]
    · simp only [stacked]

/-- **C93.** Clipped rewards are -1, 0 or 1 and have the sign of the reward. -/
theorem C93_clip (r : ℝ) :
    (clipReward r = -1 ∨ clipReward r = 0 ∨ clipReward r = 1) ∧
    (clipReward r = 1 ↔ 0 < r) ∧ (clipReward r = -1 ↔ r < 0) ∧ (clipReward r = 0 ↔ r = 0) := by
  unfold clipReward
  rcases lt_trichotomy r 0 with h | h | h
  · rw [if_neg (not_lt.2 h.le), if_pos h]
    refine ⟨by simp, ⟨fun h' => by norm_num at h', fun h' => absurd h' (not_lt.2 h.le)⟩, by simp [h],
      ⟨fun h' => by norm_num at h', fun h' => absurd h' h.ne⟩⟩
  · subst h; norm_num
  · rw [if_pos h]
    refine ⟨by simp, by simp [h], ⟨fun h' => by norm_num at h', fun h' => absurd h' (not_lt.2 h.le)⟩,
      ⟨fun h' => by norm_num at h', fun h' => absurd h' h.ne'⟩⟩

/-- All entries of a frame. -/
def entries (f : Frame) : List ℝ := f.flatten.flatten

theorem entries_scaled (f : Frame) : entries (scaled f) = (entries f).map (· / 255) := by
  unfold entries scaled
  simp [List.map_flatten, List.map_map, Function.comp_def]

/-- **C93.** Scaled frames of byte values have values in `[0, 1]`, in the same places, and no two values are identified. -/
theorem C93_scaled (f : Frame) (hf : ∀ x ∈ entries f, 0 ≤ x ∧ x ≤ 255) :
    (∀ y ∈ entries (scaled f), 0 ≤ y ∧ y ≤ 1) ∧ entries (scaled f) = (entries f).map (· / 255) ∧
    (∀ f', scaled f' = scaled f → f' = f) := by
  refine ⟨?_, entries_scaled f, ?_⟩
  · rw [entries_scaled]
    intro y hy
    obtain ⟨x, hx, rfl⟩ := List.mem_map.1 hy
    obtain ⟨h0, h1⟩ := hf x hx
    exact ⟨by positivity, by rw [div_le_one (by norm_num)]; exact h1⟩
  · intro f' h
    have inj : Function.Injective (fun x : ℝ => x / 255) := fun a b hab => by
      have : a / 255 = b / 255 := hab
      field_simp at this
      exact this
    exact (List.map_injective_iff.2 (List.map_injective_iff.2 (List.map_injective_iff.2 inj))) h

/-! ### LazyFrames -/

theorem foldl_axis0 : ∀ (fs : List Frame) (f : Frame), fs.foldl (concat2 0) f = f ++ fs.flatten
  | [], f => by simp
  | g :: fs, f => by
    rw [List.foldl_cons, foldl_axis0 fs, List.flatten_cons]
    simp [concat2, List.append_assoc]

/-- The row and column of a frame of shape (h, w, 1). -/
def Shape (h w : Nat) (f : Frame) : Prop :=
  f.length = h ∧ ∀ row ∈ f, row.length = w ∧ ∀ px ∈ row, px.length = 1

theorem foldl_axis2 (h w : Nat) : ∀ (fs : List Frame) (f : Frame), f.length = h → (∀ row ∈ f, row.length = w) →
    (∀ g ∈ fs, Shape h w g) → ∀ (y x : Nat) (hy : y < h) (hx : x < w) (row : List (List ℝ)) (px : List ℝ),
    f[y]? = some row → row[x]? = some px →
    ∃ row', (fs.foldl (concat2 2) f)[y]? = some row' ∧
      row'[x]? = some (px ++ (fs.map fun g => (((g[y]?.getD [])[x]?.getD []))).flatten)
  | [], f, _, _, _, y, x, _, _, row, px, h1, h2 => ⟨row, h1, by simpa using h2⟩
  | g :: fs, f, hf, hrows, hfs, y, x, hy, hx, row, px, h1, h2 => by
    obtain ⟨hg, hgrows⟩ := hfs g (by simp)
    have hgy : g[y]? = some g[y] := List.getElem?_eq_getElem (by omega)
    have hgrow := hgrows g[y] (List.getElem_mem _)
    have hgx : g[y][x]? = some g[y][x] := List.getElem?_eq_getElem (by omega)
    have hlen : (concat2 2 f g).length = h := by simp [concat2, hf, hg]
    have hrows' : ∀ r ∈ concat2 2 f g, r.length = w := by
      intro r hr
      obtain ⟨i, hi, rfl⟩ := List.getElem_of_mem hr
      simp only [concat2, List.getElem_zipWith, List.length_zipWith] at hi ⊢
      have a := hrows (f[i]'(by omega)) (List.getElem_mem _)
      have b := (hgrows (g[i]'(by omega)) (List.getElem_mem _)).1
      omega
    have e1 : (concat2 2 f g)[y]? = some (List.zipWith (· ++ ·) row g[y]) := by
      simp [concat2, List.getElem?_zipWith, h1, hgy]
    have e2 : (List.zipWith (· ++ ·) row g[y])[x]? = some (px ++ g[y][x]) := by
      simp [List.getElem?_zipWith, h2, hgx]
    obtain ⟨row', r1, r2⟩ := foldl_axis2 h w fs (concat2 2 f g) hlen hrows' (fun g' hg' => hfs g' (by simp [hg'])) y x hy hx
      _ _ e1 e2
    refine ⟨row', by simpa using r1, ?_⟩
    rw [r2]
    simp [hgy, hgx, List.append_assoc]

/-- **C93.** The array of a stacked observation. In order `hwc`, with frames of shape `(h, w, 1)`, the entry at row `y`,
column `x` and channel `i` is the pixel of the `i`-th frame; in order `chw` with frames of shape `(1, h, w)` the `i`-th
plane is the plane of the `i`-th frame. -/
theorem C93_lazy (h w : Nat) (fs : List Frame) (hne : fs ≠ []) :
    ((∀ f ∈ fs, Shape h w f) → ∃ out, lazyArray ChannelOrder.hwc.axis fs = some out ∧
      ∀ y x i, y < h → x < w → i < fs.length → ∃ row px v, out[y]? = some row ∧ row[x]? = some px ∧
        px.length = fs.length ∧ px[i]? = some v ∧
        ∃ f row' px', fs[i]? = some f ∧ f[y]? = some row' ∧ row'[x]? = some px' ∧ px'[0]? = some v) ∧
    ((∀ f ∈ fs, f.length = 1) → ∃ out, lazyArray ChannelOrder.chw.axis fs = some out ∧
      out.length = fs.length ∧
      ∀ i, i < fs.length → ∃ f plane, fs[i]? = some f ∧ f[0]? = some plane ∧ out[i]? = some plane) := by
  obtain ⟨f, rest, rfl⟩ : ∃ f rest, fs = f :: rest := List.exists_cons_of_ne_nil hne
  refine ⟨fun hs => ⟨_, rfl, ?_⟩, fun hs => ⟨_, rfl, ?_⟩⟩
  · intro y x i hy hx hi
    obtain ⟨hf, hfr⟩ := hs f (by simp)
    have hfy : f[y]? = some f[y] := List.getElem?_eq_getElem (by omega)
    have hfrow := hfr f[y] (List.getElem_mem _)
    have hfx : f[y][x]? = some f[y][x] := List.getElem?_eq_getElem (by omega)
    obtain ⟨row', r1, r2⟩ := foldl_axis2 h w rest f hf (fun r hr => (hfr r hr).1) (fun g hg => hs g (by simp [hg])) y x hy hx
      _ _ hfy hfx
    -- the pixels of all frames
    let pix : Frame → List ℝ := fun g => ((g[y]?.getD [])[x]?.getD [])
    have hall : f[y][x] ++ (rest.map fun g => ((g[y]?.getD [])[x]?.getD [])).flatten = ((f :: rest).map pix).flatten := by
      simp [pix, hfy, hfx]
    have hone : ∀ g ∈ f :: rest, ∃ v, pix g = [v] := by
      intro g hg
      obtain ⟨hgl, hgr⟩ := hs g hg
      have a := hgr (g[y]'(by omega)) (List.getElem_mem _)
      have b := a.2 ((g[y]'(by omega))[x]'(by omega)) (List.getElem_mem _)
      refine List.length_eq_one_iff.1 ?_
      have e1 : g[y]? = some (g[y]'(by omega)) := List.getElem?_eq_getElem (by omega)
      have e2 : (g[y]'(by omega))[x]? = some ((g[y]'(by omega))[x]'(by omega)) := List.getElem?_eq_getElem (by omega)
      simp only [pix, e1, e2, Option.getD_some]
      exact b
    have hflat : ∀ l : List Frame, (∀ g ∈ l, ∃ v, pix g = [v]) → (l.map pix).flatten = l.map fun g => (pix g).headD 0 := by
      intro l hl
      induction l with
      | nil => rfl
      | cons g l ih =>
        obtain ⟨v, hv⟩ := hl g (by simp)
        rw [List.map_cons, List.flatten_cons, List.map_cons, ih (fun g' hg' => hl g' (by simp [hg'])), hv]
        rfl
    rw [hall, hflat _ hone] at r2
    obtain ⟨v, hv⟩ := hone ((f :: rest)[i]) (List.getElem_mem _)
    refine ⟨row', _, v, r1, r2, by simp, ?_, (f :: rest)[i], ?_⟩
    · rw [List.getElem?_map, List.getElem?_eq_getElem hi]
      simp [hv]
    · obtain ⟨hgl, hgr⟩ := hs ((f :: rest)[i]) (List.getElem_mem _)
      have a := hgr (((f :: rest)[i])[y]'(by omega)) (List.getElem_mem _)
      have e1 : ((f :: rest)[i])[y]? = some (((f :: rest)[i])[y]'(by omega)) := List.getElem?_eq_getElem (by omega)
      have e2 : (((f :: rest)[i])[y]'(by omega))[x]? = some ((((f :: rest)[i])[y]'(by omega))[x]'(by omega)) :=
        List.getElem?_eq_getElem (by omega)
      refine ⟨_, _, List.getElem?_eq_getElem hi, e1, e2, ?_⟩
      simp only [pix, e1, e2, Option.getD_some] at hv
      rw [hv]; rfl
  · have e : (rest.foldl (concat2 ChannelOrder.chw.axis) f) = (f :: rest).flatten := by
      rw [List.flatten_cons]; exact foldl_axis0 rest f
    rw [e]
    have key : ∀ l : List Frame, (∀ g ∈ l, g.length = 1) → l.flatten = l.map fun g => g.headD [] := by
      intro l hl
      induction l with
      | nil => rfl
      | cons g l ih =>
        obtain ⟨v, hv⟩ := List.length_eq_one_iff.1 (hl g (by simp))
        rw [List.flatten_cons, List.map_cons, ih (fun g' hg' => hl g' (by simp [hg'])), hv]
        rfl
    rw [key _ hs]
    refine ⟨by simp, fun i hi => ?_⟩
    obtain ⟨v, hv⟩ := List.length_eq_one_iff.1 (hs ((f :: rest)[i]) (List.getElem_mem _))
    refine ⟨_, v, List.getElem?_eq_getElem hi, by rw [hv]; rfl, ?_⟩
    rw [List.getElem?_map, List.getElem?_eq_getElem hi]
    simp [hv]

/-! ### RandomizeAction -/

/-- One generator whose next uniform number and next integer are fixed. -/
def fixedRng : Rng (ℝ × Nat) := ⟨fun _ => (0, 0), fun r => (r, r.1), fun r _ => (r, r.2)⟩

/-- **C93.** The wrapped environment gets a reset for each reset and a step for each step; the executed action is the
agent's unless the number drawn for this step is below the fraction, and it is always in the action space. -/
theorem C93_randomize {R : Type} (g : Rng R) (p : ℝ) (n : Nat) (hint : ∀ r, (g.randint r n).2 < n) :
    ∀ (ops : List (Op Nat)) (rng : R), (∀ a, Op.step a ∈ ops → a < n) →
    (randomizeAll g p n rng ops).2.length = ops.length ∧
    ∀ (i : Nat) (op op' : Op Nat), ops[i]? = some op → (randomizeAll g p n rng ops).2[i]? = some op' →
      let d := g.rand (randomizeAll g p n rng (ops.take i)).1
      (op = .reset → op' = .reset) ∧
      (∀ a, op = .step a → ∃ b, op' = .step b ∧ b < n ∧ (p ≤ d.2 → b = a) ∧
        (d.2 < p → b = (g.randint d.1 n).2))
  | [], _, _ => ⟨rfl, by simp⟩
  | op :: ops, rng, hops => by
    have ih := C93_randomize g p n hint ops (randomizeCall g p n rng op).1 (fun a ha => hops a (by simp [ha]))
    refine ⟨by simp [randomizeAll, ih.1], ?_⟩
    intro i op1 op2 h1 h2
    cases i with
    | zero =>
      simp only [List.getElem?_cons_zero, Option.some.injEq] at h1
      simp only [randomizeAll, List.getElem?_cons_zero, Option.some.injEq] at h2
      subst h1; subst h2
      simp only [List.take_zero, randomizeAll]
      refine ⟨fun h => by subst h; rfl, fun a h => ?_⟩
      subst h
      refine ⟨_, rfl, ?_, ?_, ?_⟩
      · unfold randomized
        simp only
        split
        · exact hint _
        · exact hops a (by simp)
      · intro hp
        unfold randomized
        simp only
        rw [if_neg (not_lt.2 hp)]
      · intro hp
        unfold randomized
        simp only
        rw [if_pos hp]
    | succ i =>
      simp only [List.getElem?_cons_succ] at h1
      simp only [randomizeAll, List.getElem?_cons_succ] at h2
      have := ih.2 i op1 op2 h1 h2
      simpa only [List.take_succ_cons, randomizeAll] using this

/-- **C93.** For a uniform number in `[0, 1)` and a uniform action, the probability that action `b` is executed when the
agent chose `a` is `p/n`, plus `1 - p` if `b = a`. -/
theorem C93_randomize_probability (p : ℝ) (hp0 : 0 ≤ p) (hp1 : p ≤ 1) (n a b : Nat) (hb : b < n) :
    ∑ k ∈ Finset.range n, (1 / n : ℝ) * MeasureTheory.volume.real {u : ℝ | 0 ≤ u ∧ u < 1 ∧ (randomized fixedRng p n (u, k) a).2 = b} =
      p / n + if a = b then 1 - p else 0 := by
  have hn : (n : ℝ) ≠ 0 := by
    have : 0 < n := by omega
    exact_mod_cast this.ne'
  have key : ∀ k : Nat, MeasureTheory.volume.real {u : ℝ | 0 ≤ u ∧ u < 1 ∧ (randomized fixedRng p n (u, k) a).2 = b} =
      (if k = b then p else 0) + if a = b then 1 - p else 0 := by
    intro k
    have hset : {u : ℝ | 0 ≤ u ∧ u < 1 ∧ (randomized fixedRng p n (u, k) a).2 = b} =
        (if k = b then Set.Ico 0 p else ∅) ∪ (if a = b then Set.Ico p 1 else ∅) := by
      ext u
      simp only [Set.mem_ofPred_eq, randomized, fixedRng, Set.mem_union]
      by_cases hu : u < p
      · simp only [hu, if_true]
        have h1 : u < 1 := by linarith
        have h2 : ¬ p ≤ u := not_le.2 hu
        by_cases hk : k = b <;> by_cases ha : a = b <;> simp [hk, ha, hu, h1, h2]
      · simp only [hu, if_false]
        have h1 : p ≤ u := not_lt.1 hu
        have h2 : 0 ≤ u := by linarith
        by_cases hk : k = b <;> by_cases ha : a = b <;> simp [hk, ha, hu, h1, h2]
    rw [hset]
    by_cases hk : k = b <;> by_cases ha : a = b <;> simp [hk, ha, hp0, hp1, MeasureTheory.measureReal_def]
  rw [← Finset.mul_sum]
  rw [Finset.sum_congr rfl fun k _ => key k]
  rw [Finset.sum_add_distrib, Finset.sum_ite_eq' , if_pos (Finset.mem_range.2 hb), Finset.sum_const, Finset.card_range,
    nsmul_eq_mul]
  field_simp

/-- Rewards from -3 to 3 by action, frames of one pixel that shows the number of steps. -/
noncomputable def exGame : Nat → Op Nat → Nat × Out ℝ ℝ
  | _, .reset => (0, .obs 0)
  | t, .step a => (t + 1, .step ⟨t + 1, (a : ℝ) - 3, false, false⟩)

-- two steps after a reset: the first frame twice, then the two later ones; the reward 2 is clipped to 1
example : (wrapDeepmind ⟨true, false, false⟩ (fun t => (t, 0)) (fun o => [[[o]]]) exGame
    (run (wrapDeepmind ⟨true, false, false⟩ (fun t => (t, 0)) (fun o => [[[o]]]) exGame) (7, []) [.reset, .step 1]).1 (.step 5)).2 =
    .step ⟨[[[[0]]], [[[0]]], [[[1]]], [[[2]]]], 1, false, false⟩ := by
  have h := (C93_pipeline ⟨true, false, false⟩ (fun t => (t, (0 : ℝ))) (fun o : ℝ => [[[o]]]) exGame
    (fun t out => by simp [exGame]) 7 [.reset, .step 1] (.step 5)).2.2 (by simp)
  rw [h]
  simp [run, seen, exGame, episodeOf, stacked, seenImage, seenReward, clipReward, lastFrames, List.replicate]
  norm_num

-- with flicker and a draw below 1/2 the image is blank
example : (preprocess ⟨false, true, true⟩ (fun t => (t, 0)) (fun o => [[[o]]]) exGame 50 (.step 5)).2 =
    .step ⟨[[[0]]], 5 - 3, false, false⟩ := by
  rw [preprocess_eq]
  simp [seen, exGame, seenImage, seenReward, scaled, zerosLike]

/-- **C93**: a frame that flickers is black: it has the shape of the frame and all its entries are 0. -/
theorem C93_flicker (f : Frame) :
    (zerosLike f).map (·.map List.length) = f.map (·.map List.length) ∧ ∀ x ∈ entries (zerosLike f), x = 0 := by
  constructor
  · simp [zerosLike, Function.comp_def]
  · intro x hx
    simp only [entries, zerosLike, List.mem_flatten, List.mem_map] at hx
    obtain ⟨l, ⟨l', ⟨a, -, rfl⟩, hl⟩, hx⟩ := hx
    obtain ⟨b, -, rfl⟩ := List.mem_map.1 hl
    obtain ⟨_, -, rfl⟩ := List.mem_map.1 hx
    rfl

end Verif.AtariPipeline

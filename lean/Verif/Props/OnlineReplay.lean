import Verif.Spec.OnlineReplay
set_option autoImplicit false
set_option linter.unusedSectionVars false

/-! # C98: training loops of ACER and PCL -/

namespace Verif.OnlineReplay
variable {B O A D R V : Type}

/-! ## Dictionaries with consecutive keys -/

/-- The dict `{k: v₀, k + 1: v₁, …}`. -/
def enum (k : Int) : List V → Dict V
  | [] => []
  | v :: vs => (k, v) :: enum (k + 1) vs

theorem enum_length (k : Int) (l : List V) : (enum k l).length = l.length := by
  induction l generalizing k with
  | nil => rfl
  | cons v l ih => simp [enum, ih]

theorem enum_snoc (k : Int) (l : List V) (v : V) : enum k (l ++ [v]) = enum k l ++ [(k + l.length, v)] := by
  induction l generalizing k with
  | nil => simp [enum]
  | cons w l ih =>
    simp only [List.cons_append, enum, ih, List.length_cons]
    congr 4
    push_cast; omega

theorem enum_keys (k : Int) (l : List V) : ∀ e ∈ enum k l, k ≤ e.1 ∧ e.1 < k + l.length := by
  induction l generalizing k with
  | nil => simp [enum]
  | cons v l ih =>
    intro e he
    simp only [enum, List.mem_cons] at he
    rcases he with rfl | he
    · simp; omega
    · have := ih (k + 1) e he
      simp only [List.length_cons]
      push_cast
      omega

theorem put_new (d : Dict V) (k : Int) (v : V) (h : ∀ e ∈ d, e.1 ≠ k) : put d k v = d ++ [(k, v)] := by
  have : d.any (fun e => e.1 == k) = false := by
    rw [List.any_eq_false]
    intro e he
    simpa using h e he
  unfold put
  rw [this]
  rfl

theorem look_of_mem (pre : Dict V) (k : Int) (v : V) (post : Dict V) (h : ∀ e ∈ pre, e.1 ≠ k) :
    look (pre ++ (k, v) :: post) k = .ok v := by
  unfold look
  have : pre.find? (fun e => e.1 == k) = none := by
    rw [List.find?_eq_none]
    intro e he
    simpa using h e he
  rw [List.find?_append, this]
  simp

theorem collect_enum (l : List V) : ∀ (pre : Dict V) (k : Int), (∀ e ∈ pre, e.1 < k) →
    collect (pre ++ enum k l) k l.length = .ok l := by
  induction l with
  | nil => intro pre k _; rfl
  | cons v l ih =>
    intro pre k h
    have h1 := look_of_mem pre k v (enum (k + 1) l) fun e he => by have := h e he; omega
    have h2 := ih (pre ++ [(k, v)]) (k + 1) (by
      intro e he
      rcases List.mem_append.1 he with he | he
      · have := h e he; omega
      · have := List.mem_singleton.1 he; subst this; show k < k + 1; omega)
    rw [List.append_assoc] at h2
    simp only [List.length_cons, collect, enum]
    rw [h1]
    show (do let vs ← collect (pre ++ (k, v) :: enum (k + 1) l) (k + 1) l.length; pure (v :: vs)) = _
    rw [show pre ++ (k, v) :: enum (k + 1) l = pre ++ ([(k, v)] ++ enum (k + 1) l) from rfl, h2]
    rfl

/-! ## Batches and timing -/

theorem Batches.trans {n : Nat} {p r1 r2 p1 p2 : List (Rollout O A D R)} {u1 u2 : List (List (Rollout O A D R))}
    (h1 : Batches n p r1 u1 p1) (h2 : Batches n p1 r2 u2 p2) : Batches n p (r1 ++ r2) (u1 ++ u2) p2 :=
  ⟨by rw [List.flatten_append, List.append_assoc, h2.all, ← List.append_assoc, h1.all, List.append_assoc],
   fun u hu => (List.mem_append.1 hu).elim (h1.full u) (h2.full u), h2.left⟩

/-- The number of rollouts in an on-policy update. -/
def batchOf (c : Args) : Nat := if c.kind = .acer then 1 else c.batchsize

theorem replays_eq (c : Args) (b : Buf B O A D R) (s : St B O A D R) (h : s.pending = []) :
    replays c b s = List.replicate (replayCount c b s.buf) .replay := by
  unfold replays
  rw [if_pos (.inr (by rw [h]; rfl))]
  cases hb : s.buf with
  | none => simp [canReplay, replayCount]
  | some x =>
    unfold replayCount canReplay
    by_cases h1 : c.replayStartSize ≤ b.len x
    · cases hk : c.kind with
      | acer => simp [h1]
      | pcl => by_cases h2 : c.batchsize ≤ b.nEpisodes x <;> simp [h1, h2]
    · simp [h1]

theorem replays_nil (c : Args) (b : Buf B O A D R) (s : St B O A D R) (h : s.pending ≠ []) (hk : c.kind ≠ .acer) :
    replays c b s = [] := by
  unfold replays
  rw [if_neg]
  rintro (h1 | h1)
  · exact hk h1
  · exact h (List.length_eq_zero_iff.1 h1)

/-- What an update with the calls of replay contributes to the events. -/
structure UpdateEvs (c : Args) (b : Buf B O A D R) (buf : Option B) (es : List (Ev O A D R)) : Prop where
  timed : ∀ es', Timed c b buf es' → Timed c b buf (es ++ es')
  noBuf : bufferCalls es = []
  noRet : returned es = []

theorem updateEvs_nil (c : Args) (b : Buf B O A D R) (buf : Option B) : UpdateEvs c b buf [] :=
  ⟨fun _ h => h, rfl, rfl⟩

theorem filter_replicate (n : Nat) :
    updatesOf (List.replicate n (Ev.replay : Ev O A D R)) = [] ∧ bufferCalls (List.replicate n (Ev.replay : Ev O A D R)) = [] ∧
    returned (List.replicate n (Ev.replay : Ev O A D R)) = [] := by
  induction n with
  | zero => exact ⟨rfl, rfl, rfl⟩
  | succ n ih =>
    rw [List.replicate_succ]
    exact ih

theorem updateEvs_one (c : Args) (b : Buf B O A D R) (buf : Option B) (u : List (Rollout O A D R)) :
    UpdateEvs c b buf ([.update u] ++ List.replicate (replayCount c b buf) .replay) := by
  refine ⟨?_, ?_, ?_⟩
  · intro es' h
    have := Timed.update buf u es' h
    simpa using this
  · exact (filter_replicate (replayCount c b buf)).2.1
  · exact (filter_replicate (replayCount c b buf)).2.2

theorem updatesOf_append (a b : List (Ev O A D R)) : updatesOf (a ++ b) = updatesOf a ++ updatesOf b :=
  List.filterMap_append
theorem bufferCalls_append (a b : List (Ev O A D R)) : bufferCalls (a ++ b) = bufferCalls a ++ bufferCalls b :=
  List.filterMap_append
theorem returned_append (a b : List (Ev O A D R)) : returned (a ++ b) = returned a ++ returned b :=
  List.filterMap_append

/-! ## The book -/

/-- The book has the pending steps `cur` with their rewards, the last one's reward recorded too. -/
structure Book (c : Args) (s : St B O A D R) (cur : List (Step O A D × R)) : Prop where
  ne : cur ≠ []
  len : s.t = s.tStart + cur.length
  past : s.past = enum s.tStart (cur.map Prod.fst)
  rewards : ∃ stale : Dict R, s.pastRewards = stale ++ enum s.tStart (cur.map Prod.snd) ∧
    (∀ e ∈ stale, e.1 < (s.tStart : Int)) ∧ (c.kind = .pcl → stale = [])
  bound : s.pending.length < batchOf c
  acer : c.kind = .acer → s.pending = []

theorem update_spec (c : Args) (b : Buf B O A D R) (hon : c.disableOnline = false) (s : St B O A D R)
    (cur : List (Step O A D × R)) (h : Book c s cur) (boot : Option O) :
    ∃ p u, updateOnPolicy c s boot =
        .ok ({ s with past := [], pastRewards := [], tStart := s.t, pending := p }, u) ∧
      Batches (batchOf c) s.pending [⟨cur, boot⟩] (updatesOf u) p ∧ (c.kind = .acer → p = []) ∧
      UpdateEvs c b s.buf
        (u ++ replays c b { s with past := [], pastRewards := [], tStart := s.t, pending := p }) ∧
      updatesOf (u ++ replays c b { s with past := [], pastRewards := [], tStart := s.t, pending := p }) = updatesOf u := by
  obtain ⟨stale, hr, hst, hpcl⟩ := h.rewards
  have hpos : 0 < cur.length := List.length_pos_iff.2 h.ne
  have hn : s.t - s.tStart = cur.length := by have := h.len; omega
  have hroll : rollout c s boot = .ok ⟨cur, boot⟩ := by
    unfold rollout
    rw [if_neg]
    · rw [hn, h.past, hr]
      have e1 := collect_enum (cur.map Prod.fst) [] s.tStart (by simp)
      have e2 := collect_enum (cur.map Prod.snd) stale s.tStart hst
      rw [List.length_map] at e1 e2
      rw [List.nil_append] at e1
      rw [e1, e2]
      show Except.ok _ = _
      congr 2
      have : ∀ l : List (Step O A D × R), List.zip (l.map Prod.fst) (l.map Prod.snd) = l := by
        intro l; induction l with
        | nil => rfl
        | cons x l ih => simp [ih]
      exact this cur
    · rintro ⟨hk, hc⟩
      apply hc
      rw [h.past, hr, hpcl hk, List.nil_append, enum_length, enum_length, hn]
      simp
  have hupd : updateOnPolicy c s boot =
      .ok ((learn c s ⟨cur, boot⟩).1.initHistory, (learn c s ⟨cur, boot⟩).2) := by
    unfold updateOnPolicy
    rw [if_pos (by have := h.len; omega), hon, hroll]
    rfl
  rw [hupd]
  by_cases hk : c.kind = .acer
  · have hp := h.acer hk
    have hl : learn c s ⟨cur, boot⟩ = (s, [.update [⟨cur, boot⟩]]) := by unfold learn; rw [if_pos hk]
    rw [hl]
    refine ⟨[], [.update [⟨cur, boot⟩]], ?_, ?_, fun _ => rfl, ?_, ?_⟩
    · rw [← hp]; rfl
    · refine ⟨by rw [hp]; rfl, ?_, by simp [batchOf, hk]⟩
      intro u hu
      have : u = [⟨cur, boot⟩] := by simpa [updatesOf] using hu
      simp [this, batchOf, hk]
    · rw [replays_eq c b _ rfl]
      exact updateEvs_one c b s.buf _
    · rw [replays_eq c b _ rfl, updatesOf_append, (filter_replicate _).1, List.append_nil]
  · have hb : batchOf c = c.batchsize := by unfold batchOf; rw [if_neg hk]
    have hl : learn c s ⟨cur, boot⟩ = join c s ⟨cur, boot⟩ := by unfold learn; rw [if_neg hk]
    rw [hl]
    unfold join
    by_cases hfull : (s.pending ++ [(⟨cur, boot⟩ : Rollout O A D R)]).length = c.batchsize
    · rw [if_pos hfull]
      refine ⟨[], [.update (s.pending ++ [⟨cur, boot⟩])], rfl, ?_, fun _ => rfl, ?_, ?_⟩
      · refine ⟨by simp [updatesOf], ?_, ?_⟩
        · intro u hu
          have : u = s.pending ++ [⟨cur, boot⟩] := by simpa [updatesOf] using hu
          rw [this, hfull, hb]
        · rw [List.length_append, List.length_singleton] at hfull
          simp only [List.length_nil]; omega
      · rw [replays_eq c b _ rfl]
        exact updateEvs_one c b s.buf _
      · rw [replays_eq c b _ rfl, updatesOf_append, (filter_replicate _).1, List.append_nil]
    · rw [if_neg hfull]
      have hr0 : ∀ t : St B O A D R, t.pending = s.pending ++ [⟨cur, boot⟩] → replays c b t = [] :=
        fun t ht => replays_nil c b t (by rw [ht]; simp) hk
      refine ⟨s.pending ++ [⟨cur, boot⟩], [], rfl, ?_, fun h => absurd h hk, ?_, ?_⟩
      · refine ⟨rfl, by simp [updatesOf], ?_⟩
        have := h.bound
        rw [List.length_append, List.length_singleton] at hfull ⊢
        omega
      · rw [hr0 _ rfl]; exact updateEvs_nil c b s.buf
      · rw [hr0 _ rfl]; rfl

/-! ## Episodes -/

/-- Between episodes. -/
structure Clean (c : Args) (s : St B O A D R) : Prop where
  t : s.tStart = s.t
  past : s.past = []
  rewards : s.pastRewards = []
  last : s.last = none
  bound : s.pending.length < batchOf c
  acer : c.kind = .acer → s.pending = []
  buf : c.kind = .acer ∨ s.buf.isSome

/-- Inside an episode: pending steps `cur` and then `x`, whose reward is not known yet. -/
structure Inside (c : Args) (s : St B O A D R) (cur : List (Step O A D × R)) (x : Step O A D) : Prop where
  len : s.t = s.tStart + cur.length + 1
  past : s.past = enum s.tStart (cur.map Prod.fst ++ [x])
  rewards : ∃ stale : Dict R, s.pastRewards = stale ++ enum s.tStart (cur.map Prod.snd) ∧
    (∀ e ∈ stale, e.1 < (s.tStart : Int)) ∧ (c.kind = .pcl → stale = [])
  last : s.last = some x
  bound : s.pending.length < batchOf c
  acer : c.kind = .acer → s.pending = []
  buf : c.kind = .acer ∨ s.buf.isSome

theorem Inside.book {c : Args} {s : St B O A D R} {cur : List (Step O A D × R)} {x : Step O A D} (h : Inside c s cur x)
    (r : R) : Book c { s with pastRewards := put s.pastRewards ((s.t : Int) - 1) r } (cur ++ [(x, r)]) := by
  obtain ⟨stale, h1, h2, h3⟩ := h.rewards
  have hlen := h.len
  refine ⟨by simp, by simp; omega, by rw [List.map_append]; exact h.past, ⟨stale, ?_, h2, h3⟩, h.bound, h.acer⟩
  show put s.pastRewards _ r = _
  rw [put_new, h1, List.map_append, List.map_cons, List.map_nil, enum_snoc, List.append_assoc]
  · congr 3
    rw [List.length_map]; simp; omega
  · intro e he
    rw [h1] at he
    rcases List.mem_append.1 he with he | he
    · have := h2 e he; omega
    · have := (enum_keys _ _ e he).2
      rw [List.length_map] at this
      omega

/-- The buffer calls recorded with a buffer. -/
def recorded (buf : Option B) (l : List (Option (Transition O A R × D))) : List (Option (Transition O A R × D)) :=
  if buf.isSome then l else []

theorem append_spec (c : Args) (b : Buf B O A D R) (s : St B O A D R) (tr : Transition O A R) (mu : D)
    (hb : c.kind = .acer ∨ s.buf.isSome) :
    ∃ es, appendTo c b s tr mu = .ok ({ s with buf := s.buf.map fun x => b.append x tr mu }, es) ∧
      bufferCalls es = recorded s.buf [some (tr, mu)] ∧ updatesOf es = [] ∧ returned es = [] ∧
      ∀ es', Timed c b (s.buf.map fun x => b.append x tr mu) es' → Timed c b s.buf (es ++ es') := by
  cases hs : s.buf with
  | none =>
    rw [hs] at hb
    have hk : c.kind = .acer := by simpa using hb
    refine ⟨[], ?_, rfl, rfl, rfl, fun _ h => h⟩
    unfold appendTo
    rw [hs]
    show (if c.kind = .acer then _ else _) = _
    rw [if_pos hk]
    congr 2
    obtain ⟨t, tStart, past, pastRewards, last, pending, buf⟩ := s
    simp only at hs
    subst hs
    rfl
  | some x =>
    refine ⟨[.append tr mu], ?_, rfl, rfl, rfl, fun es' h => Timed.append x tr mu es' h⟩
    unfold appendTo
    rw [hs]
    rfl

theorem stopBuf_spec (c : Args) (b : Buf B O A D R) (s : St B O A D R) :
    (stopBuf b s).1 = { s with buf := s.buf.map b.stop } ∧ bufferCalls (stopBuf b s).2 = recorded s.buf [none] ∧
    updatesOf (stopBuf b s).2 = [] ∧ returned (stopBuf b s).2 = [] ∧
    ∀ es', Timed c b (s.buf.map b.stop) es' → Timed c b s.buf ((stopBuf b s).2 ++ es') := by
  unfold stopBuf
  cases hs : s.buf with
  | none => exact ⟨by
      obtain ⟨t, tStart, past, pastRewards, last, pending, buf⟩ := s
      simp only at hs
      subst hs
      rfl, rfl, rfl, rfl, fun _ h => h⟩
  | some x => exact ⟨rfl, rfl, rfl, rfl, fun es' h => Timed.stop x es' h⟩

theorem stop_eq (c : Args) (b : Buf B O A D R) (s : St B O A D R) (l : Step O A D) (h : s.last = some l) (obs : O)
    (reward : R) (done : Bool) : stopEpisodeAndTrain c b s obs reward done = (do
      let u ← updateOnPolicy c { s with pastRewards := put s.pastRewards ((s.t : Int) - 1) reward }
        (if done then none else some obs)
      let e1 := replays c b u.1
      let a ← appendTo c b u.1 ⟨l.obs, l.action, reward, obs, some l.action, done⟩ l.dist
      let h := stopBuf b a.1
      pure ({ h.1 with last := none }, u.2 ++ e1 ++ a.2 ++ h.2)) := by
  unfold stopEpisodeAndTrain
  split
  · rename_i h'; rw [h] at h'; cases h'
  · rename_i l' h'
    rw [h] at h'
    cases h'
    rfl

theorem recordLast_eq (c : Args) (b : Buf B O A D R) (s : St B O A D R) (l : Step O A D) (h : s.last = some l) (obs : O)
    (reward : R) (a : A) :
    recordLast c b s obs reward a = appendTo c b s ⟨l.obs, l.action, reward, obs, some a, false⟩ l.dist := by
  unfold recordLast
  split
  · rename_i h'; rw [h] at h'; cases h'
  · rename_i l' h'
    rw [h] at h'
    cases h'
    rfl

/-- The result of the calls of (the rest of) an episode. -/
structure Result (c : Args) (b : Buf B O A D R) (s s' : St B O A D R) (es : List (Ev O A D R))
    (rs : List (Rollout O A D R)) (trs : List (Option (Transition O A R × D))) (acts : List A) : Prop where
  batches : Batches (batchOf c) s.pending rs (updatesOf es) s'.pending
  buffer : bufferCalls es = recorded s.buf trs
  buf : s'.buf = bufAfter b s.buf trs
  rets : returned es = acts
  timed : ∀ es', Timed c b s'.buf es' → Timed c b s.buf (es ++ es')

theorem transitions_cons (final : O) (done : Bool) (x : Step O A D) (r : R) (y : Step O A D × R)
    (rest : List (Step O A D × R)) :
    transitions final done ((x, r) :: y :: rest) =
      (⟨x.obs, x.action, r, y.1.obs, some y.1.action, false⟩, x.dist) :: transitions final done (y :: rest) := rfl

/-- The whole rest of an episode. -/
theorem run_rest (c : Args) (b : Buf B O A D R) (hon : c.disableOnline = false)
    (htm : ∀ n, c.tMax = some n → 1 ≤ n) (e : Episode O A D R) :
    ∀ (steps : List (Step O A D × R)) (s : St B O A D R) (cur : List (Step O A D × R)) (x : Step O A D) (r : R),
      Inside c s cur x → (∀ n, c.tMax = some n → cur.length + 1 ≤ n) →
      ∃ s' es rs, run c b s (callsFrom e r steps) = .ok (s', es) ∧ Clean c s' ∧
        Rollouts c.tMax e.boot (cur ++ (x, r) :: steps) rs ∧
        Result c b s s' es rs ((transitions e.final e.done ((x, r) :: steps)).map some ++ [none])
          (steps.map fun y => y.1.action) := by
  intro steps
  induction steps with
  | nil =>
    intro s cur x r h hlen
    obtain ⟨p, u, hu, hbat, hac, hev, hupd⟩ := update_spec c b hon _ _ (h.book r) e.boot
    obtain ⟨es, ha, ha1, ha2, ha3, ha4⟩ := append_spec c b
      { s with past := [], pastRewards := [], tStart := s.t, pending := p }
      ⟨x.obs, x.action, r, e.final, some x.action, e.done⟩ x.dist h.buf
    obtain ⟨hs1, hs2, hs3, hs4, hs5⟩ := stopBuf_spec c b
      { s with past := [], pastRewards := [], tStart := s.t, pending := p,
               buf := s.buf.map fun y => b.append y ⟨x.obs, x.action, r, e.final, some x.action, e.done⟩ x.dist }
    have hcall : ∀ S : St B O A D R,
        S = { s with past := [], pastRewards := [], tStart := s.t, pending := p,
                     buf := s.buf.map fun y =>
                       b.append y ⟨x.obs, x.action, r, e.final, some x.action, e.done⟩ x.dist } →
        run c b s (callsFrom e r []) = .ok ({ (stopBuf b S).1 with last := none },
         (u ++ replays c b { s with past := [], pastRewards := [], tStart := s.t, pending := p } ++ es ++
          (stopBuf b S).2) ++ []) := by
      rintro S rfl
      show (do
        let q ← stopEpisodeAndTrain c b s e.final r e.done
        let rs ← run c b q.1 []
        pure (rs.1, q.2 ++ rs.2)) = _
      rw [stop_eq c b s x h.last]
      show (do
        let q ← (do
          let u ← updateOnPolicy c { s with pastRewards := put s.pastRewards ((s.t : Int) - 1) r } e.boot
          let e1 := replays c b u.1
          let a ← appendTo c b u.1 ⟨x.obs, x.action, r, e.final, some x.action, e.done⟩ x.dist
          let h := stopBuf b a.1
          pure ({ h.1 with last := none }, u.2 ++ e1 ++ a.2 ++ h.2))
        let rs ← run c b q.1 []
        pure (rs.1, q.2 ++ rs.2)) = _
      rw [hu]
      show (do
        let q ← (do
          let a ← appendTo c b { s with past := [], pastRewards := [], tStart := s.t, pending := p }
            ⟨x.obs, x.action, r, e.final, some x.action, e.done⟩ x.dist
          let h := stopBuf b a.1
          pure ({ h.1 with last := none },
            u ++ replays c b { s with past := [], pastRewards := [], tStart := s.t, pending := p } ++ a.2 ++ h.2))
        let rs ← run c b q.1 []
        pure (rs.1, q.2 ++ rs.2)) = _
      rw [ha]
      rfl
    refine ⟨_, _, [⟨cur ++ [(x, r)], e.boot⟩], hcall _ rfl, ?_,
      .last _ (by simp) (by intro n hn; have := hlen n hn; simp; omega), ?_⟩
    · rw [hs1]
      refine ⟨rfl, rfl, rfl, rfl, hbat.left, hac, ?_⟩
      rcases h.buf with hb | hb
      · exact .inl hb
      · right; simpa using hb
    · refine ⟨?_, ?_, ?_, ?_, ?_⟩
      · rw [List.append_nil, updatesOf_append, updatesOf_append, hupd, ha2, hs3, hs1, List.append_nil, List.append_nil]
        exact hbat
      · rw [List.append_nil, bufferCalls_append, bufferCalls_append, hev.noBuf, ha1, hs2]
        cases hb : s.buf <;> simp [recorded, transitions]
      · rw [hs1]
        cases hb : s.buf <;> simp [bufAfter, transitions]
      · rw [List.append_nil, returned_append, returned_append, hev.noRet, ha3, hs4]
        rfl
      · intro es' ht
        rw [hs1] at ht
        rw [List.append_nil, List.append_assoc, List.append_assoc]
        apply hev.timed
        apply ha4
        apply hs5
        exact ht
  | cons y rest ih =>
    intro s cur x r h hlen
    obtain ⟨y, r'⟩ := y
    have hrec : recordReward c s r = { s with pastRewards := put s.pastRewards ((s.t : Int) - 1) r } := by
      unfold recordReward
      rw [if_pos (.inr (by rw [h.last]; rfl))]
    have hbk := h.book r
    have hl := h.len
    by_cases hfull : some (s.t - s.tStart) = c.tMax
    · obtain ⟨p, u, hu, hbat, hac, hev, hupd⟩ := update_spec c b hon _ _ hbk (some y.obs)
      obtain ⟨es, ha, ha1, ha2, ha3, ha4⟩ := append_spec c b
        { s with past := put [] s.t y, pastRewards := [], tStart := s.t, pending := p, t := s.t + 1 }
        ⟨x.obs, x.action, r, y.obs, some y.action, false⟩ x.dist h.buf
      obtain ⟨s', es2, rs, hrun, hcl, hro, hres⟩ := ih
        { s with past := put [] s.t y, pastRewards := [], tStart := s.t, pending := p, t := s.t + 1,
                 buf := s.buf.map fun z => b.append z ⟨x.obs, x.action, r, y.obs, some y.action, false⟩ x.dist,
                 last := some y } [] y r'
        ⟨rfl, rfl, ⟨[], rfl, by simp, fun _ => rfl⟩, rfl, hbat.left, hac, by
          rcases h.buf with hb | hb
          · exact .inl hb
          · right; simpa using hb⟩ (by intro n hn; simpa using htm n hn)
      have hcall : actAndTrain c b s y r = .ok
          ({ s with past := put [] s.t y, pastRewards := [], tStart := s.t, pending := p, t := s.t + 1,
                    buf := s.buf.map fun z => b.append z ⟨x.obs, x.action, r, y.obs, some y.action, false⟩ x.dist,
                    last := some y },
           (u ++ replays c b { s with past := [], pastRewards := [], tStart := s.t, pending := p }) ++ es ++
            [.ret y.action]) := by
        unfold actAndTrain maybeUpdate
        rw [hrec]
        show (do
          let u ← (if some (s.t - s.tStart) = c.tMax then do
              let u ← updateOnPolicy c { s with pastRewards := put s.pastRewards ((s.t : Int) - 1) r } (some y.obs)
              pure (u.1, u.2 ++ replays c b u.1)
            else pure ({ s with pastRewards := put s.pastRewards ((s.t : Int) - 1) r }, []))
          let s := { u.1 with past := put u.1.past u.1.t y, t := u.1.t + 1 }
          let a ← recordLast c b s y.obs r y.action
          pure ({ a.1 with last := some y }, u.2 ++ a.2 ++ [Ev.ret y.action])) = _
        rw [if_pos hfull, hu]
        show (do
          let a ← recordLast c b
            { s with past := put [] s.t y, pastRewards := [], tStart := s.t, pending := p, t := s.t + 1 } y.obs r y.action
          pure ({ a.1 with last := some y }, (u ++ replays c b
            { s with past := [], pastRewards := [], tStart := s.t, pending := p }) ++ a.2 ++ [Ev.ret y.action])) = _
        rw [recordLast_eq c b
          { s with past := put [] s.t y, pastRewards := [], tStart := s.t, pending := p, t := s.t + 1 } x h.last, ha]
        rfl
      have hall : run c b s (callsFrom e r ((y, r') :: rest)) = .ok (s',
          ((u ++ replays c b { s with past := [], pastRewards := [], tStart := s.t, pending := p }) ++ es ++
            [.ret y.action]) ++ es2) := by
        show (do
          let q ← actAndTrain c b s y r
          let rs ← run c b q.1 (callsFrom e r' rest)
          pure (rs.1, q.2 ++ rs.2)) = _
        rw [hcall]
        show (do
          let rs ← run c b _ (callsFrom e r' rest)
          pure (rs.1, _ ++ rs.2)) = _
        rw [hrun]
        rfl
      refine ⟨s', _, ⟨cur ++ [(x, r)], some y.obs⟩ :: rs, hall, hcl, ?_, ?_⟩
      · have := Rollouts.more (boot := e.boot) (tMax := c.tMax) (cur ++ [(x, r)]) (y, r') rest rs
          (by rw [← hfull]; simp; omega) (by simpa using hro)
        simpa using this
      · refine ⟨?_, ?_, ?_, ?_, ?_⟩
        · rw [updatesOf_append, updatesOf_append, updatesOf_append, hupd, ha2, List.append_nil]
          show Batches _ _ ([_] ++ rs) _ _
          rw [show updatesOf [Ev.ret y.action] = ([] : List (List (Rollout O A D R))) from rfl, List.append_nil]
          exact hbat.trans hres.batches
        · rw [bufferCalls_append, bufferCalls_append, bufferCalls_append, hev.noBuf, ha1, hres.buffer]
          show [] ++ recorded s.buf _ ++ [] ++ _ = _
          rw [transitions_cons]
          cases hb : s.buf <;> simp [recorded]
        · rw [hres.buf, transitions_cons]
          rfl
        · rw [returned_append, returned_append, returned_append, hev.noRet, ha3, hres.rets]
          rfl
        · intro es' ht
          have := hres.timed es' ht
          rw [List.append_assoc, List.append_assoc, List.append_assoc]
          apply hev.timed
          apply ha4
          exact Timed.ret _ _ _ this
    · obtain ⟨es, ha, ha1, ha2, ha3, ha4⟩ := append_spec c b
        { s with past := put s.past s.t y, pastRewards := put s.pastRewards ((s.t : Int) - 1) r, t := s.t + 1 }
        ⟨x.obs, x.action, r, y.obs, some y.action, false⟩ x.dist h.buf
      have hput : put s.past s.t y = enum s.tStart ((cur ++ [(x, r)]).map Prod.fst ++ [y]) := by
        rw [put_new, enum_snoc, h.past, List.map_append]
        · congr 3
          simp; omega
        · intro e he
          rw [h.past] at he
          have := (enum_keys _ _ e he).2
          simp at this
          omega
      obtain ⟨s', es2, rs, hrun, hcl, hro, hres⟩ := ih
        { s with past := put s.past s.t y, pastRewards := put s.pastRewards ((s.t : Int) - 1) r, t := s.t + 1,
                 buf := s.buf.map fun z => b.append z ⟨x.obs, x.action, r, y.obs, some y.action, false⟩ x.dist,
                 last := some y } (cur ++ [(x, r)]) y r'
        ⟨by simp; omega, hput, hbk.rewards, rfl, h.bound, h.acer, by
          rcases h.buf with hb | hb
          · exact .inl hb
          · right; simpa using hb⟩ (by
          intro n hn
          have h1 := hlen n hn
          have h2 : s.t - s.tStart ≠ n := by intro h2; apply hfull; rw [h2, hn]
          simp; omega)
      have hcall : actAndTrain c b s y r = .ok
          ({ s with past := put s.past s.t y, pastRewards := put s.pastRewards ((s.t : Int) - 1) r, t := s.t + 1,
                    buf := s.buf.map fun z => b.append z ⟨x.obs, x.action, r, y.obs, some y.action, false⟩ x.dist,
                    last := some y }, [] ++ es ++ [.ret y.action]) := by
        unfold actAndTrain maybeUpdate
        rw [hrec]
        show (do
          let u ← (if some (s.t - s.tStart) = c.tMax then do
              let u ← updateOnPolicy c { s with pastRewards := put s.pastRewards ((s.t : Int) - 1) r } (some y.obs)
              pure (u.1, u.2 ++ replays c b u.1)
            else pure ({ s with pastRewards := put s.pastRewards ((s.t : Int) - 1) r }, []))
          let s := { u.1 with past := put u.1.past u.1.t y, t := u.1.t + 1 }
          let a ← recordLast c b s y.obs r y.action
          pure ({ a.1 with last := some y }, u.2 ++ a.2 ++ [Ev.ret y.action])) = _
        rw [if_neg hfull]
        show (do
          let a ← recordLast c b
            { s with past := put s.past s.t y, pastRewards := put s.pastRewards ((s.t : Int) - 1) r, t := s.t + 1 }
            y.obs r y.action
          pure ({ a.1 with last := some y }, [] ++ a.2 ++ [Ev.ret y.action])) = _
        rw [recordLast_eq c b
          { s with past := put s.past s.t y, pastRewards := put s.pastRewards ((s.t : Int) - 1) r, t := s.t + 1 }
          x h.last, ha]
        rfl
      have hall : run c b s (callsFrom e r ((y, r') :: rest)) = .ok (s', ([] ++ es ++ [.ret y.action]) ++ es2) := by
        show (do
          let q ← actAndTrain c b s y r
          let rs ← run c b q.1 (callsFrom e r' rest)
          pure (rs.1, q.2 ++ rs.2)) = _
        rw [hcall]
        show (do
          let rs ← run c b _ (callsFrom e r' rest)
          pure (rs.1, _ ++ rs.2)) = _
        rw [hrun]
        rfl
      refine ⟨s', _, rs, hall, hcl, by simpa using hro, ?_⟩
      · refine ⟨?_, ?_, ?_, ?_, ?_⟩
        · rw [List.nil_append, updatesOf_append, updatesOf_append, ha2]
          exact hres.batches
        · rw [List.nil_append, bufferCalls_append, bufferCalls_append, ha1, hres.buffer]
          show recorded s.buf _ ++ [] ++ _ = _
          rw [transitions_cons]
          cases hb : s.buf <;> simp [recorded]
        · rw [hres.buf, transitions_cons]
          rfl
        · rw [List.nil_append, returned_append, returned_append, ha3, hres.rets]
          rfl
        · intro es' ht
          have := hres.timed es' ht
          rw [List.nil_append, List.append_assoc, List.append_assoc]
          apply ha4
          exact Timed.ret _ _ _ this

theorem first_call (c : Args) (b : Buf B O A D R) (htm : ∀ n, c.tMax = some n → 1 ≤ n) (s : St B O A D R) (x : Step O A D)
    (reward₀ : R) (ht : s.tStart = s.t) (hpast : s.past = []) (hrew : s.pastRewards = []) (hlast : s.last = none)
    (hbound : s.pending.length < batchOf c) (hacer : c.kind = .acer → s.pending = []) :
    ∃ rw : Dict R, actAndTrain c b s x reward₀ =
        .ok ({ s with pastRewards := rw, past := put s.past s.t x, t := s.t + 1, last := some x }, [.ret x.action]) ∧
      (∀ e ∈ rw, e.1 < (s.tStart : Int)) ∧ (c.kind = .pcl → rw = []) := by
  have hne : ¬ some (s.t - s.tStart) = c.tMax := by
    intro h
    have := htm _ h.symm
    omega
  have hmain : ∀ rw : Dict R, recordReward c s reward₀ = { s with pastRewards := rw } →
      actAndTrain c b s x reward₀ =
        .ok ({ s with pastRewards := rw, past := put s.past s.t x, t := s.t + 1, last := some x }, [.ret x.action]) := by
    intro rw h
    unfold actAndTrain
    rw [h]
    unfold maybeUpdate
    rw [if_neg hne]
    show (do
      let a ← recordLast c b { s with pastRewards := rw, past := put s.past s.t x, t := s.t + 1 } x.obs reward₀ x.action
      pure ({ a.1 with last := some x }, [] ++ a.2 ++ [Ev.ret x.action])) = _
    have hl : recordLast c b { s with pastRewards := rw, past := put s.past s.t x, t := s.t + 1 } x.obs reward₀ x.action =
        .ok ({ s with pastRewards := rw, past := put s.past s.t x, t := s.t + 1 }, []) := by
      unfold recordLast
      split
      · rfl
      · rename_i l h'
        have : s.last = some l := h'
        rw [hlast] at this
        cases this
    rw [hl]
    rfl
  by_cases hk : c.kind = .acer
  · refine ⟨put s.pastRewards ((s.t : Int) - 1) reward₀, hmain _ ?_, ?_, ?_⟩
    · unfold recordReward; rw [if_pos (.inl hk)]
    · rw [hrew]
      intro e he
      have : e = ((s.t : Int) - 1, reward₀) := by simpa [put] using he
      subst this
      rw [ht]
      show (s.t : Int) - 1 < s.t
      omega
    · intro h; rw [hk] at h; cases h
  · refine ⟨[], hmain _ ?_, by simp, fun _ => rfl⟩
    unfold recordReward
    rw [if_neg (by rw [hlast]; simp [hk]), ← hrew]

theorem run_append (c : Args) (b : Buf B O A D R) : ∀ (xs ys : List (Call O A D R)) (s s1 s2 : St B O A D R)
    (e1 e2 : List (Ev O A D R)), run c b s xs = .ok (s1, e1) → run c b s1 ys = .ok (s2, e2) →
    run c b s (xs ++ ys) = .ok (s2, e1 ++ e2)
  | [], ys, s, s1, s2, e1, e2, h1, h2 => by
    cases h1
    exact h2
  | x :: xs, ys, s, s1, s2, e1, e2, h1, h2 => by
    have h1' : (do
      let r ← call c b s x
      let rs ← run c b r.1 xs
      pure (rs.1, r.2 ++ rs.2)) = Except.ok (s1, e1) := h1
    show (do
      let r ← call c b s x
      let rs ← run c b r.1 (xs ++ ys)
      pure (rs.1, r.2 ++ rs.2)) = _
    cases hc : call c b s x with
    | error e => rw [hc] at h1'; cases h1'
    | ok r =>
      rw [hc] at h1'
      have h1'' : (do
        let rs ← run c b r.1 xs
        pure (rs.1, r.2 ++ rs.2)) = Except.ok (s1, e1) := h1'
      show (do
        let rs ← run c b r.1 (xs ++ ys)
        pure (rs.1, r.2 ++ rs.2)) = _
      cases hr : run c b r.1 xs with
      | error e => rw [hr] at h1''; cases h1''
      | ok q =>
        rw [hr] at h1''
        cases h1''
        rw [run_append c b xs ys r.1 q.1 s2 q.2 e2 hr h2]
        show Except.ok _ = _
        rw [List.append_assoc]

theorem run_episode (c : Args) (b : Buf B O A D R) (hon : c.disableOnline = false)
    (htm : ∀ n, c.tMax = some n → 1 ≤ n) (e : Episode O A D R) (hne : e.steps ≠ []) (reward₀ : R) (s : St B O A D R)
    (h : Clean c s) :
    ∃ s' es rs, run c b s (e.calls reward₀) = .ok (s', es) ∧ Clean c s' ∧ Rollouts c.tMax e.boot e.steps rs ∧
      Result c b s s' es rs ((transitions e.final e.done e.steps).map some ++ [none])
        (e.steps.map fun y => y.1.action) := by
  obtain ⟨steps, final, done⟩ := e
  cases steps with
  | nil => exact absurd rfl hne
  | cons y rest =>
    obtain ⟨x, r⟩ := y
    obtain ⟨rw, hcall, hst, hpcl⟩ := first_call c b htm s x reward₀ h.t h.past h.rewards h.last h.bound h.acer
    obtain ⟨s', es, rs, hrun, hcl, hro, hres⟩ := run_rest c b hon htm ⟨(x, r) :: rest, final, done⟩ rest
      { s with pastRewards := rw, past := put s.past s.t x, t := s.t + 1, last := some x } [] x r
      ⟨by rw [h.t]; rfl, by rw [h.past, h.t]; rfl, ⟨rw, by simp [enum], hst, hpcl⟩, rfl, h.bound, h.acer, h.buf⟩
      (by intro n hn; simpa using htm n hn)
    refine ⟨s', [.ret x.action] ++ es, rs, ?_, hcl, hro, ?_⟩
    · show (do
        let q ← actAndTrain c b s x reward₀
        let rs ← run c b q.1 (callsFrom _ r rest)
        pure (rs.1, q.2 ++ rs.2)) = _
      rw [hcall]
      show (do
        let rs ← run c b _ (callsFrom _ r rest)
        pure (rs.1, _ ++ rs.2)) = _
      rw [hrun]
      rfl
    · refine ⟨?_, ?_, hres.buf, ?_, ?_⟩
      · rw [updatesOf_append]; exact hres.batches
      · rw [bufferCalls_append]; exact hres.buffer
      · rw [returned_append, hres.rets]; rfl
      · intro es' ht
        exact Timed.ret _ _ _ (hres.timed es' ht)

theorem recorded_append (buf : Option B) (l l' : List (Option (Transition O A R × D))) :
    recorded buf (l ++ l') = recorded buf l ++ recorded buf l' := by
  unfold recorded; split <;> simp

theorem bufAfter_isSome (b : Buf B O A D R) : ∀ (l : List (Option (Transition O A R × D))) (buf : Option B),
    (bufAfter b buf l).isSome = buf.isSome
  | [], buf => rfl
  | some _ :: l, buf => by unfold bufAfter; rw [bufAfter_isSome b l]; simp
  | none :: l, buf => by unfold bufAfter; rw [bufAfter_isSome b l]; simp

theorem bufAfter_append (b : Buf B O A D R) : ∀ (l l' : List (Option (Transition O A R × D))) (buf : Option B),
    bufAfter b buf (l ++ l') = bufAfter b (bufAfter b buf l) l'
  | [], l', buf => rfl
  | some (tr, mu) :: l, l', buf => bufAfter_append b l l' (buf.map fun x => b.append x tr mu)
  | none :: l, l', buf => bufAfter_append b l l' (buf.map b.stop)

theorem run_history (c : Args) (b : Buf B O A D R) (hon : c.disableOnline = false)
    (htm : ∀ n, c.tMax = some n → 1 ≤ n) : ∀ (eps : List (Episode O A D R × R)), (∀ e ∈ eps, e.1.steps ≠ []) →
    ∀ (s : St B O A D R), Clean c s →
    ∃ s' es rss, run c b s (eps.flatMap fun e => e.1.calls e.2) = .ok (s', es) ∧ Clean c s' ∧
      List.Forall₂ (fun (e : Episode O A D R × R) rs => Rollouts c.tMax e.1.boot e.1.steps rs) eps rss ∧
      Result c b s s' es rss.flatten
        (eps.flatMap fun e => (transitions e.1.final e.1.done e.1.steps).map some ++ [none])
        (eps.flatMap fun e => e.1.steps.map fun y => y.1.action)
  | [], _, s, h => ⟨s, [], [], rfl, h, .nil, ⟨by simp [updatesOf], by simp [updatesOf], h.bound⟩, by simp [recorded, bufferCalls], rfl, rfl,
      fun _ h => h⟩
  | e :: eps, hne, s, h => by
    obtain ⟨s1, es1, rs, h1, h2, h3, h4⟩ := run_episode c b hon htm e.1 (hne e (by simp)) e.2 s h
    obtain ⟨s2, es2, rss, g1, g2, g3, g4⟩ := run_history c b hon htm eps (fun e he => hne e (by simp [he])) s1 h2
    refine ⟨s2, es1 ++ es2, rs :: rss, ?_, g2, .cons h3 g3, ⟨?_, ?_, ?_, ?_, ?_⟩⟩
    · rw [List.flatMap_cons]
      exact run_append c b _ _ s s1 s2 es1 es2 h1 g1
    · rw [updatesOf_append, List.flatten_cons]
      exact h4.batches.trans g4.batches
    · rw [bufferCalls_append, h4.buffer, g4.buffer, List.flatMap_cons]
      unfold recorded
      rw [h4.buf, bufAfter_isSome]
      split <;> simp
    · rw [g4.buf, h4.buf, List.flatMap_cons, ← bufAfter_append]
    · rw [returned_append, h4.rets, g4.rets, List.flatMap_cons]
    · intro es' ht
      rw [List.append_assoc]
      exact h4.timed _ (g4.timed es' ht)

/-- **C98.** For every sequence of episodes of at least one step, a new ACER agent (with or without a replay buffer) or PCL
agent (with one) accepts the calls of `train_agent` and returns the actions it chose. Every episode is cut into
consecutive rollouts of `t_max` steps (the last may be shorter), each bootstrapped from the observation that follows it and
the last one not at a terminal state. Every rollout enters exactly one on-policy update, in order: one per update in ACER,
`batchsize` in PCL, where an incomplete batch waits. The replay buffer gets every transition, once and in order, with the
distribution its action was drawn from, and the end of every episode. Experience is replayed after every
on-policy update, as often as configured if the buffer has enough, and at no other time. -/
theorem C98_history_partial (c : Args) (b : Buf B O A D R) (hon : c.disableOnline = false)
    (htm : ∀ n, c.tMax = some n → 1 ≤ n) (buf : Option B)
    (hkind : c.kind = .acer ∨ (c.kind = .pcl ∧ buf.isSome ∧ 1 ≤ c.batchsize))
    (eps : List (Episode O A D R × R)) (hne : ∀ e ∈ eps, e.1.steps ≠ []) :
    ∃ s' es rss rest, run c b (St.init buf) (eps.flatMap fun e => e.1.calls e.2) = .ok (s', es) ∧
      List.Forall₂ (fun (e : Episode O A D R × R) rs => Rollouts c.tMax e.1.boot e.1.steps rs) eps rss ∧
      Batches (if c.kind = .acer then 1 else c.batchsize) [] rss.flatten (updatesOf es) rest ∧
      bufferCalls es = (if buf.isSome then
        eps.flatMap fun e => (transitions e.1.final e.1.done e.1.steps).map some ++ [none] else []) ∧
      returned es = (eps.flatMap fun e => e.1.steps.map fun y => y.1.action) ∧ Timed c b buf es := by
  have hcl : Clean c (St.init buf : St B O A D R) := by
    refine ⟨rfl, rfl, rfl, rfl, ?_, fun _ => rfl, ?_⟩
    · show 0 < batchOf c
      unfold batchOf
      rcases hkind with h | ⟨h, _, h2⟩
      · rw [if_pos h]; omega
      · rw [if_neg (by rw [h]; simp)]; omega
    · rcases hkind with h | ⟨_, h, _⟩
      · exact .inl h
      · exact .inr h
  obtain ⟨s', es, rss, h1, h2, h3, h4⟩ := run_history c b hon htm eps hne (St.init buf) hcl
  exact ⟨s', es, rss, s'.pending, h1, h3, h4.batches, h4.buffer, h4.rets, by
    have := h4.timed [] (Timed.nil _)
    rwa [List.append_nil] at this⟩

/-- **C98.** What cutting into rollouts means: together they are the steps in order; none is empty; all but the last have
`t_max` steps, the last at most as many. -/
theorem C98_rollouts (tMax : Option Nat) (boot : Option O) (steps : List (Step O A D × R)) (rs : List (Rollout O A D R))
    (h : Rollouts tMax boot steps rs) :
    (rs.map Rollout.steps).flatten = steps ∧ (∀ n, tMax = some n → ∀ r ∈ rs, r.steps.length ≤ n) ∧
    (∀ r ∈ rs.dropLast, tMax = some r.steps.length) ∧ rs.getLast?.map Rollout.boot = some boot := by
  induction h with
  | last c h1 h2 => exact ⟨by simp, by intro n hn r hr; simp at hr; subst hr; exact h2 n hn, by simp, rfl⟩
  | more c x rest rs hc hr ih =>
    obtain ⟨i1, i2, i3, i4⟩ := ih
    cases rs with
    | nil => simp at i4
    | cons u us =>
      refine ⟨?_, ?_, ?_, ?_⟩
      · rw [List.map_cons, List.flatten_cons, i1]
      · intro n hn w hw
        rcases List.mem_cons.1 hw with rfl | hw
        · rw [hc] at hn; cases hn; exact Nat.le_refl _
        · exact i2 n hn w hw
      · intro w hw
        rw [List.dropLast_cons_cons] at hw
        rcases List.mem_cons.1 hw with rfl | hw
        · exact hc
        · exact i3 w hw
      · rw [List.getLast?_cons_cons]; exact i4

/-! ## Replay only -/

/-- Everything but on-policy updates. -/
def withoutUpdates (es : List (Ev O A D R)) : List (Ev O A D R) :=
  es.filter fun e => match e with
    | .update _ => false
    | _ => true

theorem withoutUpdates_append (a b : List (Ev O A D R)) :
    withoutUpdates (a ++ b) = withoutUpdates a ++ withoutUpdates b := List.filter_append _ _

theorem withoutUpdates_one (u : List (Rollout O A D R)) : withoutUpdates [Ev.update u] = [] := rfl

theorem replays_noUpdates (c : Args) (b : Buf B O A D R) (s : St B O A D R) :
    withoutUpdates (replays c b s) = replays c b s := by
  unfold replays
  split
  · split
    · generalize c.nTimesReplay = n
      induction n with
      | zero => rfl
      | succ n ih =>
        rw [List.replicate_succ]
        show Ev.replay :: withoutUpdates (List.replicate n Ev.replay) = _
        rw [ih]
    · rfl
  · rfl

/-- The configuration with on-policy updates of single rollouts. -/
def Args.online (c : Args) : Args := { c with disableOnline := false, batchsize := 1 }

/-- `n_episodes` matters only through `batchsize`; here: the conditions of the two configurations agree. -/
def SameReplay (c : Args) (b : Buf B O A D R) : Prop :=
  c.kind = .acer ∨ ∀ x, c.batchsize ≤ b.nEpisodes x ↔ 1 ≤ b.nEpisodes x

theorem canReplay_online (c : Args) (b : Buf B O A D R) (hsame : SameReplay c b) (buf : Option B) :
    canReplay c b buf = canReplay c.online b buf := by
  cases buf with
  | none => rfl
  | some x =>
    unfold canReplay Args.online
    rcases hsame with h | h
    · simp [h]
    · have := h x
      simp only [this]

theorem replays_online (c : Args) (b : Buf B O A D R) (hsame : SameReplay c b) (s : St B O A D R) :
    replays c b s = replays c.online b s := by
  unfold replays
  rw [canReplay_online c b hsame]
  rfl

theorem update_online (c : Args) (hdis : c.disableOnline = true) (s s' : St B O A D R) (boot : Option O)
    (es : List (Ev O A D R)) (hp : s.pending = []) (h : updateOnPolicy c.online s boot = .ok (s', es)) :
    updateOnPolicy c s boot = .ok (s', []) ∧ withoutUpdates es = [] ∧ s'.pending = [] := by
  unfold updateOnPolicy at h ⊢
  split at h
  · rename_i ht
    rw [if_pos ht, if_pos hdis]
    rw [if_neg (by simp [Args.online])] at h
    cases hr : rollout c.online s boot with
    | error e => rw [hr] at h; cases h
    | ok r =>
      rw [hr] at h
      have h' : Except.ok ((learn c.online s r).1.initHistory, (learn c.online s r).2) = (Except.ok (s', es) : Py _) := h
      have hl : learn c.online s r = (s, [.update [r]]) := by
        unfold learn
        split
        · rfl
        · unfold join
          rw [if_pos (by rw [hp]; rfl), hp, ← hp]
          obtain ⟨t, tStart, past, pastRewards, last, pending, buf⟩ := s
          simp only at hp
          subst hp
          rfl
      rw [hl] at h'
      cases h'
      exact ⟨rfl, rfl, hp⟩
  · cases h

theorem append_same (c : Args) (b : Buf B O A D R) (s : St B O A D R) (tr : Transition O A R) (mu : D) :
    appendTo c b s tr mu = appendTo c.online b s tr mu := rfl

theorem append_ok (c : Args) (b : Buf B O A D R) (s : St B O A D R) (tr : Transition O A R) (mu : D)
    (q : St B O A D R × List (Ev O A D R)) (h : appendTo c b s tr mu = .ok q) :
    withoutUpdates q.2 = q.2 ∧ q.1.pending = s.pending := by
  unfold appendTo at h
  split at h
  · cases h; exact ⟨rfl, rfl⟩
  · split at h
    · cases h; exact ⟨rfl, rfl⟩
    · cases h

theorem recordLast_ok (c : Args) (b : Buf B O A D R) (s : St B O A D R) (obs : O) (r : R) (a : A)
    (q : St B O A D R × List (Ev O A D R)) (h : recordLast c b s obs r a = .ok q) :
    withoutUpdates q.2 = q.2 ∧ q.1.pending = s.pending := by
  unfold recordLast at h
  split at h
  · cases h; exact ⟨rfl, rfl⟩
  · exact append_ok c b s _ _ q h

theorem maybeUpdate_online (c : Args) (b : Buf B O A D R) (hdis : c.disableOnline = true) (hsame : SameReplay c b)
    (s : St B O A D R) (obs : O) (q : St B O A D R × List (Ev O A D R)) (hp : s.pending = [])
    (h : maybeUpdate c.online b s obs = .ok q) :
    maybeUpdate c b s obs = .ok (q.1, withoutUpdates q.2) ∧ q.1.pending = [] := by
  unfold maybeUpdate at h ⊢
  have htm : c.online.tMax = c.tMax := rfl
  rw [htm] at h
  split at h
  · rename_i hf
    rw [if_pos hf]
    cases hu : updateOnPolicy c.online s (some obs) with
    | error e => rw [hu] at h; cases h
    | ok u =>
      rw [hu] at h
      cases h
      obtain ⟨h1, h2, h3⟩ := update_online c hdis s u.1 (some obs) u.2 hp hu
      rw [h1]
      refine ⟨?_, h3⟩
      show Except.ok _ = _
      rw [withoutUpdates_append, h2, replays_noUpdates, replays_online c b hsame]
  · rename_i hf
    rw [if_neg hf]
    cases h
    exact ⟨rfl, hp⟩

theorem call_online (c : Args) (b : Buf B O A D R) (hdis : c.disableOnline = true) (hsame : SameReplay c b)
    (s : St B O A D R) (x : Call O A D R) (q : St B O A D R × List (Ev O A D R)) (hp : s.pending = [])
    (h : call c.online b s x = .ok q) : call c b s x = .ok (q.1, withoutUpdates q.2) ∧ q.1.pending = [] := by
  cases x with
  | act x r =>
    have h' : actAndTrain c.online b s x r = .ok q := h
    show actAndTrain c b s x r = _ ∧ _
    unfold actAndTrain at h' ⊢
    have hrec : recordReward c.online s r = recordReward c s r := rfl
    have hrp : (recordReward c s r).pending = [] := by unfold recordReward; split <;> exact hp
    rw [hrec] at h'
    cases hu : maybeUpdate c.online b (recordReward c s r) x.obs with
    | error e => rw [hu] at h'; cases h'
    | ok u =>
      obtain ⟨h1, h2⟩ := maybeUpdate_online c b hdis hsame _ x.obs u hrp hu
      rw [hu] at h'
      rw [h1]
      have h'' : (do
        let a ← recordLast c.online b { u.1 with past := put u.1.past u.1.t x, t := u.1.t + 1 } x.obs r x.action
        pure ({ a.1 with last := some x }, u.2 ++ a.2 ++ [Ev.ret x.action])) = Except.ok q := h'
      show (do
        let a ← recordLast c b { u.1 with past := put u.1.past u.1.t x, t := u.1.t + 1 } x.obs r x.action
        pure ({ a.1 with last := some x }, withoutUpdates u.2 ++ a.2 ++ [Ev.ret x.action])) = _ ∧ _
      have hsl : recordLast c.online b { u.1 with past := put u.1.past u.1.t x, t := u.1.t + 1 } x.obs r x.action =
        recordLast c b { u.1 with past := put u.1.past u.1.t x, t := u.1.t + 1 } x.obs r x.action := rfl
      rw [hsl] at h''
      cases ha : recordLast c b { u.1 with past := put u.1.past u.1.t x, t := u.1.t + 1 } x.obs r x.action with
      | error e => rw [ha] at h''; cases h''
      | ok a =>
        rw [ha] at h''
        cases h''
        obtain ⟨a1, a2⟩ := recordLast_ok c b _ x.obs r x.action a ha
        refine ⟨?_, a2.trans h2⟩
        show Except.ok _ = _
        rw [withoutUpdates_append, withoutUpdates_append, a1]
        rfl
  | stop o r d =>
    have h' : stopEpisodeAndTrain c.online b s o r d = .ok q := h
    show stopEpisodeAndTrain c b s o r d = _ ∧ _
    cases hl : s.last with
    | none =>
      unfold stopEpisodeAndTrain at h'
      split at h'
      · cases h'
      · rename_i l hl'; rw [hl] at hl'; cases hl'
    | some l =>
      rw [stop_eq c.online b s l hl] at h'
      rw [stop_eq c b s l hl]
      cases hu : updateOnPolicy c.online { s with pastRewards := put s.pastRewards ((s.t : Int) - 1) r }
          (if d then none else some o) with
      | error e => rw [hu] at h'; cases h'
      | ok u =>
        obtain ⟨h1, h2, h3⟩ := update_online c hdis { s with pastRewards := put s.pastRewards ((s.t : Int) - 1) r } u.1 _ u.2 hp hu
        rw [hu] at h'
        rw [h1]
        have h'' : (do
          let a ← appendTo c b u.1 ⟨l.obs, l.action, r, o, some l.action, d⟩ l.dist
          pure ({ (stopBuf b a.1).1 with last := none },
            u.2 ++ replays c.online b u.1 ++ a.2 ++ (stopBuf b a.1).2)) = Except.ok q := h'
        show (do
          let a ← appendTo c b u.1 ⟨l.obs, l.action, r, o, some l.action, d⟩ l.dist
          pure ({ (stopBuf b a.1).1 with last := none },
            [] ++ replays c b u.1 ++ a.2 ++ (stopBuf b a.1).2)) = _ ∧ _
        cases ha : appendTo c b u.1 ⟨l.obs, l.action, r, o, some l.action, d⟩ l.dist with
        | error e => rw [ha] at h''; cases h''
        | ok a =>
          rw [ha] at h''
          cases h''
          obtain ⟨a1, a2⟩ := append_ok c b _ _ _ a ha
          have hsb : withoutUpdates (stopBuf b a.1).2 = (stopBuf b a.1).2 := by
            unfold stopBuf; split <;> rfl
          have hsp : (stopBuf b a.1).1.pending = a.1.pending := by unfold stopBuf; split <;> rfl
          refine ⟨?_, hsp.trans (a2.trans h3)⟩
          show Except.ok _ = _
          rw [withoutUpdates_append, withoutUpdates_append, withoutUpdates_append, h2, replays_noUpdates, a1, hsb,
            replays_online c b hsame]

theorem run_online (c : Args) (b : Buf B O A D R) (hdis : c.disableOnline = true) (hsame : SameReplay c b) :
    ∀ (xs : List (Call O A D R)) (s : St B O A D R) (q : St B O A D R × List (Ev O A D R)), s.pending = [] →
    run c.online b s xs = .ok q → run c b s xs = .ok (q.1, withoutUpdates q.2)
  | [], s, q, _, h => by cases h; rfl
  | x :: xs, s, q, hp, h => by
    have h' : (do
      let r ← call c.online b s x
      let rs ← run c.online b r.1 xs
      pure (rs.1, r.2 ++ rs.2)) = Except.ok q := h
    show (do
      let r ← call c b s x
      let rs ← run c b r.1 xs
      pure (rs.1, r.2 ++ rs.2)) = _
    cases hc : call c.online b s x with
    | error e => rw [hc] at h'; cases h'
    | ok r =>
      obtain ⟨h1, h2⟩ := call_online c b hdis hsame s x r hp hc
      rw [hc] at h'
      rw [h1]
      have h'' : (do
        let rs ← run c.online b r.1 xs
        pure (rs.1, r.2 ++ rs.2)) = Except.ok q := h'
      show (do
        let rs ← run c b r.1 xs
        pure (rs.1, withoutUpdates r.2 ++ rs.2)) = _
      cases hr : run c.online b r.1 xs with
      | error e => rw [hr] at h''; cases h''
      | ok w =>
        rw [hr] at h''
        cases h''
        rw [run_online c b hdis hsame xs r.1 w h2 hr]
        show Except.ok _ = _
        rw [withoutUpdates_append]

/-- **C98.** With `disable_online_update` (and, in PCL, `batchsize` 1 or a buffer whose number of episodes does not
matter) the agent does exactly what it does with on-policy updates of single rollouts, except for these updates: the same
buffer calls, replays and returned actions, in the same order. -/
theorem C98_replay_only (c : Args) (b : Buf B O A D R) (hdis : c.disableOnline = true) (hsame : SameReplay c b)
    (htm : ∀ n, c.tMax = some n → 1 ≤ n) (buf : Option B) (hkind : c.kind = .acer ∨ (c.kind = .pcl ∧ buf.isSome))
    (eps : List (Episode O A D R × R)) (hne : ∀ e ∈ eps, e.1.steps ≠ []) :
    ∃ s' es, run c.online b (St.init buf) (eps.flatMap fun e => e.1.calls e.2) = .ok (s', es) ∧
      run c b (St.init buf) (eps.flatMap fun e => e.1.calls e.2) = .ok (s', withoutUpdates es) := by
  obtain ⟨s', es, rss, rest, h1, _⟩ := C98_history_partial c.online b rfl htm buf
    (hkind.imp id fun h => ⟨h.1, h.2, Nat.le_refl 1⟩) eps hne
  exact ⟨s', es, h1, run_online c b hdis hsame _ _ _ rfl h1⟩

/-! ## PCL without a replay buffer -/

/-- **C98**, violated: a PCL agent without a replay buffer, the default, raises AttributeError at its second call,
whatever the episode and the configuration. -/
theorem C98_violated_pcl_without_buffer (c : Args) (b : Buf B O A D R) (hk : c.kind = .pcl) (hb : 1 ≤ c.batchsize)
    (htm : ∀ n, c.tMax = some n → 1 ≤ n) (e : Episode O A D R) (hne : e.steps ≠ []) (reward₀ : R) :
    run c b (St.init none) ((e.calls reward₀).take 2) = .error .attributeError := by
  have hbound : ([] : List (Rollout O A D R)).length < batchOf c := by
    unfold batchOf; rw [if_neg (by rw [hk]; simp)]; exact hb
  have hupd : ∀ (s : St B O A D R) cur boot, Book c s cur → ∃ s' u, updateOnPolicy c s boot = .ok (s', u) ∧
      s'.buf = s.buf ∧ s'.last = s.last := by
    intro s cur boot hbk
    cases hd : c.disableOnline with
    | false =>
      obtain ⟨p, u, hu, _⟩ := update_spec c b hd s cur hbk boot
      exact ⟨_, u, hu, rfl, rfl⟩
    | true =>
      refine ⟨s.initHistory, [], ?_, rfl, rfl⟩
      unfold updateOnPolicy
      rw [if_pos (by have := hbk.len; have := List.length_pos_iff.2 hbk.ne; omega), if_pos hd]
  have happ : ∀ (s : St B O A D R) tr mu, s.buf = none → appendTo c b s tr mu = .error .attributeError := by
    intro s tr mu h
    unfold appendTo
    split
    · rename_i h'; rw [h] at h'; cases h'
    · rw [if_neg (by rw [hk]; simp)]
  obtain ⟨steps, final, done⟩ := e
  cases steps with
  | nil => exact absurd rfl hne
  | cons y rest =>
    obtain ⟨x, r⟩ := y
    obtain ⟨rw, hcall, hst, hpcl⟩ := first_call c b htm (St.init none) x reward₀ rfl rfl rfl rfl hbound (fun _ => rfl)
    have hrw : rw = [] := hpcl hk
    subst hrw
    let s1 : St B O A D R := ⟨1, 0, put [] (0 : Nat) x, [], some x, [], none⟩
    have hs1 : actAndTrain c b (St.init none) x reward₀ = .ok (s1, [.ret x.action]) := hcall
    have hbk : Book c { s1 with pastRewards := put s1.pastRewards ((s1.t : Int) - 1) r } [(x, r)] := by
      refine ⟨by simp, rfl, rfl, ⟨[], rfl, by simp, fun _ => rfl⟩, hbound, fun _ => rfl⟩
    cases rest with
    | nil =>
      show (do
        let q ← actAndTrain c b (St.init none) x reward₀
        let rs ← (do
          let q ← stopEpisodeAndTrain c b q.1 final r done
          let rs ← run c b q.1 []
          pure (rs.1, q.2 ++ rs.2))
        pure (rs.1, q.2 ++ rs.2)) = _
      rw [hs1]
      show (do
        let rs ← (do
          let q ← stopEpisodeAndTrain c b s1 final r done
          let rs ← run c b q.1 []
          pure (rs.1, q.2 ++ rs.2))
        pure (rs.1, [Ev.ret x.action] ++ rs.2)) = _
      rw [stop_eq c b s1 x rfl]
      obtain ⟨s', u, hu, hbuf, _⟩ := hupd _ _ (if done then none else some final) hbk
      rw [hu]
      show (do
        let rs ← (do
          let q ← (do
            let a ← appendTo c b s' ⟨x.obs, x.action, r, final, some x.action, done⟩ x.dist
            let h := stopBuf b a.1
            pure ({ h.1 with last := none }, u ++ replays c b s' ++ a.2 ++ h.2))
          let rs ← run c b q.1 []
          pure (rs.1, q.2 ++ rs.2))
        pure (rs.1, [Ev.ret x.action] ++ rs.2)) = _
      rw [happ s' _ _ hbuf]
      rfl
    | cons z rest =>
      obtain ⟨z, r'⟩ := z
      show (do
        let q ← actAndTrain c b (St.init none) x reward₀
        let rs ← (do
          let q ← actAndTrain c b q.1 z r
          let rs ← run c b q.1 []
          pure (rs.1, q.2 ++ rs.2))
        pure (rs.1, q.2 ++ rs.2)) = _
      rw [hs1]
      have hact : actAndTrain c b s1 z r = .error .attributeError := by
        have hrec : recordReward c s1 r = { s1 with pastRewards := put s1.pastRewards ((s1.t : Int) - 1) r } := by
          unfold recordReward
          rw [if_pos (.inr rfl)]
        have hmu : ∃ s' u, maybeUpdate c b { s1 with pastRewards := put s1.pastRewards ((s1.t : Int) - 1) r } z.obs =
            .ok (s', u) ∧ s'.buf = none ∧ s'.last = some x := by
          unfold maybeUpdate
          split
          · obtain ⟨s', u, hu, h1, h2⟩ := hupd _ _ (some z.obs) hbk
            exact ⟨s', _, by rw [hu]; rfl, h1, h2⟩
          · exact ⟨_, _, rfl, rfl, rfl⟩
        obtain ⟨s', u, hmu, hb', hl'⟩ := hmu
        unfold actAndTrain
        rw [hrec, hmu]
        show (do
          let a ← recordLast c b { s' with past := put s'.past s'.t z, t := s'.t + 1 } z.obs r z.action
          pure ({ a.1 with last := some z }, u ++ a.2 ++ [Ev.ret z.action])) = _
        rw [recordLast_eq c b { s' with past := put s'.past s'.t z, t := s'.t + 1 } x hl',
          happ { s' with past := put s'.past s'.t z, t := s'.t + 1 } _ _ hb']
        rfl
      show (do
        let rs ← (do
          let q ← actAndTrain c b s1 z r
          let rs ← run c b q.1 []
          pure (rs.1, q.2 ++ rs.2))
        pure (rs.1, [Ev.ret x.action] ++ rs.2)) = _
      rw [hact]
      rfl

/-! ## Concrete cases -/

/-- A buffer that counts transitions and episodes. -/
def countBuf : Buf (Nat × Nat) Nat Nat Nat Nat := ⟨fun x _ _ => (x.1 + 1, x.2), fun x => (x.1, x.2 + 1), Prod.fst, Prod.snd⟩

def exEpisode : Episode Nat Nat Nat Nat :=
  ⟨[(⟨0, 10, 100⟩, 1), (⟨1, 11, 101⟩, 2), (⟨2, 12, 102⟩, 4)], 3, false⟩

/-- ACER with `t_max` 2: two on-policy updates and one replay, when the second one is made. -/
example : ((run ⟨.acer, some 2, 0, 1, 2, false⟩ countBuf (St.init (some (0, 0))) (exEpisode.calls 9)).toOption.map
    fun r => (updatesOf r.2).map fun u => u.map fun q => (q.steps.map Prod.snd, q.boot)) =
    some [[([1, 2], some 2)], [([4], some 3)]] := by decide +kernel

/-- PCL with batches of two rollouts. -/
example : ((run ⟨.pcl, some 2, 2, 1, 2, false⟩ countBuf (St.init (some (0, 0))) (exEpisode.calls 9)).toOption.map
    fun r => (updatesOf r.2).map fun u => u.map fun q => (q.steps.map Prod.snd, q.boot)) =
    some [[([1, 2], some 2), ([4], some 3)]] := by decide +kernel

example := C98_history_partial ⟨.pcl, some 2, 2, 1, 2, false⟩ countBuf rfl (by simp) (some (0, 0))
  (.inr ⟨rfl, rfl, by decide⟩) [(exEpisode, 9), (exEpisode, 0)] (by simp [exEpisode])
example := C98_replay_only ⟨.acer, some 2, 0, 1, 2, true⟩ countBuf rfl (.inl rfl) (by simp) (some (0, 0))
  (.inl rfl) [(exEpisode, 9), (exEpisode, 0)] (by simp [exEpisode])

end Verif.OnlineReplay

import Verif.Model.ConvHeads
import Mathlib.Tactic
set_option autoImplicit false
set_option linter.unusedSectionVars false

/-! # C131: which images the convolutional heads accept, and which pixels they read -/

namespace Verif.ConvHeads

variable {K : Type} [CommSemiring K]

/-! ## Specification -/

/-- Heights and widths that `NatureDQNHead` and `DuelingDQN` accept. -/
def NatureSize (h w : Nat) : Prop :=
  (84 ≤ h ∧ h ≤ 91 ∧ 84 ≤ w ∧ w ≤ 91) ∨
  (36 ≤ h ∧ h ≤ 43 ∧ 420 ≤ w ∧ w ≤ 427) ∨ (420 ≤ h ∧ h ≤ 427 ∧ 36 ≤ w ∧ w ≤ 43)

/-- Heights and widths that `NIPSDQNHead` accepts. -/
def NipsSize (h w : Nat) : Prop :=
  (84 ≤ h ∧ h ≤ 91 ∧ 84 ≤ w ∧ w ≤ 91) ∨
  (20 ≤ h ∧ h ≤ 27 ∧ 660 ≤ w ∧ w ≤ 667) ∨ (660 ≤ h ∧ h ≤ 667 ∧ 20 ≤ w ∧ w ≤ 27) ∨
  (36 ≤ h ∧ h ≤ 43 ∧ 228 ≤ w ∧ w ≤ 235) ∨ (228 ≤ h ∧ h ≤ 235 ∧ 36 ≤ w ∧ w ≤ 43)

/-- Two images have the same pixels in the first `n` rows and columns. -/
def SameCorner (n : Nat) (x y : Img K) : Prop :=
  x.ch = y.ch ∧ ∀ c i j, c < x.ch → i < n → j < n → x.px c i j = y.px c i j

/-- An image of the documented kind, up to seven rows and columns more. -/
def Square84 (x : Img K) : Prop := 84 ≤ x.h ∧ x.h ≤ 91 ∧ 84 ≤ x.w ∧ x.w ≤ 91

/-! ## One convolution -/

theorem conv_ok (l : Conv K) (x : Img K) (hc : x.ch = l.inCh) (hh : l.k ≤ x.h) (hw : l.k ≤ x.w) :
    ∃ y, l.call x = .ok y ∧ y.ch = l.outCh ∧ y.h = outSize x.h l.k l.stride ∧ y.w = outSize x.w l.k l.stride := by
  refine ⟨_, by simp [Conv.call, hc, Nat.not_lt.mpr hh, Nat.not_lt.mpr hw]; rfl, rfl, rfl, rfl⟩

theorem conv_inv (l : Conv K) (x y : Img K) (h : l.call x = .ok y) :
    x.ch = l.inCh ∧ l.k ≤ x.h ∧ l.k ≤ x.w ∧ y.ch = l.outCh ∧ y.h = outSize x.h l.k l.stride ∧
      y.w = outSize x.w l.k l.stride := by
  unfold Conv.call at h
  split_ifs at h with h1 h2
  injection h with h
  subst h
  push Not at h1 h2
  exact ⟨h1, h2.1, h2.2, rfl, rfl, rfl⟩

theorem conv_same (l : Conv K) (x y x' y' : Img K) (n m : Nat) (hx : l.call x = .ok x') (hy : l.call y = .ok y')
    (hs : SameCorner n x y) (hm : (m - 1) * l.stride + l.k ≤ n) : SameCorner m x' y' := by
  have ⟨a1, _, _, _, _, _⟩ := conv_inv l x x' hx
  unfold Conv.call at hx hy
  split_ifs at hx with h1 h2
  split_ifs at hy with h3 h4
  injection hx with hx
  injection hy with hy
  subst hx hy
  refine ⟨rfl, fun o i j _ hi hj => ?_⟩
  dsimp only
  congr 1
  refine Finset.sum_congr rfl fun c hc => Finset.sum_congr rfl fun u hu => Finset.sum_congr rfl fun v hv => ?_
  rw [Finset.mem_range] at hc hu hv
  congr 1
  have hi' : i * l.stride ≤ (m - 1) * l.stride := Nat.mul_le_mul_right _ (by omega)
  have hj' : j * l.stride ≤ (m - 1) * l.stride := Nat.mul_le_mul_right _ (by omega)
  exact hs.2 c _ _ (by omega) (by omega) (by omega)

theorem act_same (f : K → K) (x y : Img K) (n : Nat) (hs : SameCorner n x y) : SameCorner n (x.act f) (y.act f) :=
  ⟨hs.1, fun c i j hc hi hj => by simp only [Img.act]; rw [hs.2 c i j hc hi hj]⟩

/-! ## The convolutions -/

theorem nature_convs_inv (p : Params K) (f : K → K) (channels : Nat) (x y : Img K)
    (h : convs f (natureConvs p channels) x = .ok y) :
    x.ch = channels ∧ y.ch = 64 ∧ 36 ≤ x.h ∧ 36 ≤ x.w ∧ y.h = ((x.h - 8) / 4 + 1 - 4) / 2 + 1 - 2 ∧
      y.w = ((x.w - 8) / 4 + 1 - 4) / 2 + 1 - 2 := by
  simp only [natureConvs, convs, bind, Except.bind] at h
  split at h
  · cases h
  next y1 h1 =>
    split at h
    · cases h
    next y2 h2 =>
      split at h
      · cases h
      next y3 h3 =>
        injection h with h
        subst h
        obtain ⟨a1, a2, a3, a4, a5, a6⟩ := conv_inv _ _ _ h1
        obtain ⟨b1, b2, b3, b4, b5, b6⟩ := conv_inv _ _ _ h2
        obtain ⟨c1, c2, c3, c4, c5, c6⟩ := conv_inv _ _ _ h3
        simp only [Img.act, outSize] at *
        refine ⟨a1, c4, ?_, ?_, ?_, ?_⟩ <;> omega

theorem nature_convs_ok (p : Params K) (f : K → K) (channels : Nat) (x : Img K) (hc : x.ch = channels)
    (hh : 36 ≤ x.h) (hw : 36 ≤ x.w) : ∃ y, convs f (natureConvs p channels) x = .ok y := by
  obtain ⟨y1, h1, a1, a2, a3⟩ := conv_ok ⟨channels, 32, 8, 4, p.W 0, p.b 0⟩ x hc (by dsimp only; omega) (by dsimp only; omega)
  simp only [outSize] at a1 a2 a3
  obtain ⟨y2, h2, b1, b2, b3⟩ := conv_ok ⟨32, 64, 4, 2, p.W 1, p.b 1⟩ (y1.act f) (by simpa [Img.act] using a1)
    (by simp only [Img.act]; omega) (by simp only [Img.act]; omega)
  simp only [outSize, Img.act] at b1 b2 b3
  obtain ⟨y3, h3, _⟩ := conv_ok ⟨64, 64, 3, 1, p.W 2, p.b 2⟩ (y2.act f) (by simpa [Img.act] using b1)
    (by simp only [Img.act]; omega) (by simp only [Img.act]; omega)
  exact ⟨y3.act f, by simp [natureConvs, convs, bind, Except.bind, h1, h2, h3]⟩

theorem nature_convs_same (p : Params K) (f : K → K) (channels : Nat) (x y x' y' : Img K)
    (hx : convs f (natureConvs p channels) x = .ok x') (hy : convs f (natureConvs p channels) y = .ok y')
    (hs : SameCorner 84 x y) : SameCorner 7 x' y' := by
  simp only [natureConvs, convs, bind, Except.bind] at hx hy
  split at hx
  · cases hx
  next x1 h1 =>
    split at hx
    · cases hx
    next x2 h2 =>
      split at hx
      · cases hx
      next x3 h3 =>
        injection hx with hx
        subst hx
        split at hy
        · cases hy
        next y1 g1 =>
          split at hy
          · cases hy
          next y2 g2 =>
            split at hy
            · cases hy
            next y3 g3 =>
              injection hy with hy
              subst hy
              have s1 := act_same f _ _ _ (conv_same _ _ _ _ _ 84 20 h1 g1 hs (by norm_num))
              have s2 := act_same f _ _ _ (conv_same _ _ _ _ _ 20 9 h2 g2 s1 (by norm_num))
              exact act_same f _ _ _ (conv_same _ _ _ _ _ 9 7 h3 g3 s2 (by norm_num))

theorem nips_convs_inv (p : Params K) (f : K → K) (channels : Nat) (x y : Img K)
    (h : convs f (nipsConvs p channels) x = .ok y) :
    x.ch = channels ∧ y.ch = 32 ∧ 20 ≤ x.h ∧ 20 ≤ x.w ∧ y.h = ((x.h - 8) / 4 + 1 - 4) / 2 + 1 ∧
      y.w = ((x.w - 8) / 4 + 1 - 4) / 2 + 1 := by
  simp only [nipsConvs, convs, bind, Except.bind] at h
  split at h
  · cases h
  next y1 h1 =>
    split at h
    · cases h
    next y2 h2 =>
      injection h with h
      subst h
      obtain ⟨a1, a2, a3, a4, a5, a6⟩ := conv_inv _ _ _ h1
      obtain ⟨b1, b2, b3, b4, b5, b6⟩ := conv_inv _ _ _ h2
      simp only [Img.act, outSize] at *
      refine ⟨a1, b4, ?_, ?_, ?_, ?_⟩ <;> omega

theorem nips_convs_ok (p : Params K) (f : K → K) (channels : Nat) (x : Img K) (hc : x.ch = channels)
    (hh : 20 ≤ x.h) (hw : 20 ≤ x.w) : ∃ y, convs f (nipsConvs p channels) x = .ok y := by
  obtain ⟨y1, h1, a1, a2, a3⟩ := conv_ok ⟨channels, 16, 8, 4, p.W 0, p.b 0⟩ x hc (by dsimp only; omega) (by dsimp only; omega)
  simp only [outSize] at a1 a2 a3
  obtain ⟨y2, h2, _⟩ := conv_ok ⟨16, 32, 4, 2, p.W 1, p.b 1⟩ (y1.act f) (by simpa [Img.act] using a1)
    (by simp only [Img.act]; omega) (by simp only [Img.act]; omega)
  exact ⟨y2.act f, by simp [nipsConvs, convs, bind, Except.bind, h1, h2]⟩

theorem nips_convs_same (p : Params K) (f : K → K) (channels : Nat) (x y x' y' : Img K)
    (hx : convs f (nipsConvs p channels) x = .ok x') (hy : convs f (nipsConvs p channels) y = .ok y')
    (hs : SameCorner 84 x y) : SameCorner 9 x' y' := by
  simp only [nipsConvs, convs, bind, Except.bind] at hx hy
  split at hx
  · cases hx
  next x1 h1 =>
    split at hx
    · cases hx
    next x2 h2 =>
      injection hx with hx
      subst hx
      split at hy
      · cases hy
      next y1 g1 =>
        split at hy
        · cases hy
        next y2 g2 =>
          injection hy with hy
          subst hy
          have s1 := act_same f _ _ _ (conv_same _ _ _ _ _ 84 20 h1 g1 hs (by norm_num))
          exact act_same f _ _ _ (conv_same _ _ _ _ _ 20 9 h2 g2 s1 (by norm_num))

theorem flat_same (n : Nat) (x y : Img K) (hs : SameCorner n x y) (hn : 0 < n) (hx : x.h = n) (hx' : x.w = n)
    (hy : y.h = n) (hy' : y.w = n) (i : Nat) (hi : i < x.ch * x.h * x.w) : x.flat i = y.flat i := by
  unfold Img.flat
  rw [hx, hx', hy, hy']
  apply hs.2
  · rw [hx, hx', mul_assoc] at hi
    exact Nat.div_lt_of_lt_mul (by rwa [mul_comm] at hi)
  · exact Nat.mod_lt _ hn
  · exact Nat.mod_lt _ hn

/-! ## The theorems -/

theorem nature_size (h w : Nat) (hh : 36 ≤ h) (hw : 36 ≤ w) :
    64 * (((h - 8) / 4 + 1 - 4) / 2 + 1 - 2) * (((w - 8) / 4 + 1 - 4) / 2 + 1 - 2) = 3136 ↔ NatureSize h w := by
  generalize ha : ((h - 8) / 4 + 1 - 4) / 2 + 1 - 2 = a
  generalize hb : ((w - 8) / 4 + 1 - 4) / 2 + 1 - 2 = b
  unfold NatureSize
  constructor
  · intro e
    have e' : a * b = 49 := by nlinarith
    have hd : a ∣ 7 ^ 2 := ⟨b, by omega⟩
    obtain ⟨k, hk, rfl⟩ := (Nat.dvd_prime_pow (by norm_num)).mp hd
    interval_cases k <;> norm_num at e' ha <;> omega
  · rintro (h | h | h)
    · have e1 : a = 7 := by omega
      have e2 : b = 7 := by omega
      rw [e1, e2]
    · have e1 : a = 1 := by omega
      have e2 : b = 49 := by omega
      rw [e1, e2]
    · have e1 : a = 49 := by omega
      have e2 : b = 1 := by omega
      rw [e1, e2]

theorem nips_size (h w : Nat) (hh : 20 ≤ h) (hw : 20 ≤ w) :
    32 * (((h - 8) / 4 + 1 - 4) / 2 + 1) * (((w - 8) / 4 + 1 - 4) / 2 + 1) = 2592 ↔ NipsSize h w := by
  generalize ha : ((h - 8) / 4 + 1 - 4) / 2 + 1 = a
  generalize hb : ((w - 8) / 4 + 1 - 4) / 2 + 1 = b
  unfold NipsSize
  constructor
  · intro e
    have e' : a * b = 81 := by nlinarith
    have hd : a ∣ 3 ^ 4 := ⟨b, by omega⟩
    obtain ⟨k, hk, rfl⟩ := (Nat.dvd_prime_pow (by norm_num)).mp hd
    interval_cases k <;> norm_num at e' ha <;> omega
  · rintro (h | h | h | h | h)
    · have e1 : a = 9 := by omega
      have e2 : b = 9 := by omega
      rw [e1, e2]
    · have e1 : a = 1 := by omega
      have e2 : b = 81 := by omega
      rw [e1, e2]
    · have e1 : a = 81 := by omega
      have e2 : b = 1 := by omega
      rw [e1, e2]
    · have e1 : a = 3 := by omega
      have e2 : b = 27 := by omega
      rw [e1, e2]
    · have e1 : a = 27 := by omega
      have e2 : b = 3 := by omega
      rw [e1, e2]

/-- `NatureDQNHead` accepts exactly these images, whatever its parameters, activation and number of outputs, and returns
so many features. -/
theorem C131_nature_accepts (p : Params K) (f : K → K) (channels outputs : Nat) (x : Img K) :
    (∃ y, nature p f channels outputs x = .ok y ∧ y.length = outputs) ↔ x.ch = channels ∧ NatureSize x.h x.w := by
  constructor
  · rintro ⟨y, hy, _⟩
    simp only [nature, bind, Except.bind] at hy
    split at hy
    · cases hy
    next z hz =>
      obtain ⟨a, b, c, d, e, g⟩ := nature_convs_inv p f channels x z hz
      refine ⟨a, (nature_size x.h x.w c d).mp ?_⟩
      by_contra hne
      rw [← e, ← g, ← b] at hne
      simp [Lin.call, hne] at hy
  · rintro ⟨hc, hs⟩
    have hh : 36 ≤ x.h ∧ 36 ≤ x.w := by unfold NatureSize at hs; omega
    obtain ⟨z, hz⟩ := nature_convs_ok p f channels x hc hh.1 hh.2
    obtain ⟨a, b, c, d, e, g⟩ := nature_convs_inv p f channels x z hz
    have hn := (nature_size x.h x.w hh.1 hh.2).mpr hs
    rw [← e, ← g, ← b] at hn
    exact ⟨_, by simp only [nature, hz, bind, Except.bind, Lin.call, hn, ne_eq, not_true_eq_false, if_false]; rfl, by simp⟩

/-- Of an image of 84 to 91 rows and columns it reads the first 84 rows and columns: two such images that agree there give
the same features, also if their sizes differ. -/
theorem C131_nature_reads (p : Params K) (f : K → K) (channels outputs : Nat) (x y : Img K) (hx : Square84 x)
    (hy : Square84 y) (hs : SameCorner 84 x y) : nature p f channels outputs x = nature p f channels outputs y := by
  unfold Square84 at hx hy
  by_cases hc : x.ch = channels
  · obtain ⟨x', hx'⟩ := nature_convs_ok p f channels x hc (by omega) (by omega)
    obtain ⟨y', hy'⟩ := nature_convs_ok p f channels y (hs.1 ▸ hc) (by omega) (by omega)
    obtain ⟨_, a, _, _, c, d⟩ := nature_convs_inv p f channels x x' hx'
    obtain ⟨_, a', _, _, c', d'⟩ := nature_convs_inv p f channels y y' hy'
    have hsame := nature_convs_same p f channels x y x' y' hx' hy' hs
    have e1 : x'.h = 7 := by omega
    have e2 : x'.w = 7 := by omega
    have e3 : y'.h = 7 := by omega
    have e4 : y'.w = 7 := by omega
    simp only [nature, hx', hy', bind, Except.bind]
    have hflat : ∀ i, i < 3136 → x'.flat i = y'.flat i := fun i hi =>
      flat_same 7 x' y' hsame (by norm_num) e1 e2 e3 e4 i (by rw [a, e1, e2]; exact hi)
    have : Lin.call (Lin.mk 3136 outputs p.linW p.linb) x' = Lin.call (Lin.mk 3136 outputs p.linW p.linb) y' := by
      have key : 64 * 7 * 7 = 3136 := by norm_num
      simp only [Lin.call, a, a', e1, e2, e3, e4, key, ne_eq, not_true_eq_false, if_false]
      refine congrArg Except.ok (List.map_congr_left fun o _ => congrArg (p.linb o + ·) (Finset.sum_congr rfl fun i hi => ?_))
      rw [hflat i (Finset.mem_range.mp hi)]
    rw [this]
  · have hc' : y.ch ≠ channels := fun h => hc (hs.1.trans h)
    simp [nature, convs, natureConvs, Conv.call, hc, hc', bind, Except.bind]

/-- The same for `DuelingDQN`'s action values. -/
theorem C131_dueling {Y : Type} (p : Params K) (f : K → K) (channels : Nat) (heads : (Nat → K) → Y) (x : Img K) :
    (∃ q, dueling p f channels heads x = .ok q) ↔ x.ch = channels ∧ NatureSize x.h x.w := by
  constructor
  · rintro ⟨y, hy⟩
    simp only [dueling, bind, Except.bind] at hy
    split at hy
    · cases hy
    next z hz =>
      obtain ⟨a, b, c, d, e, g⟩ := nature_convs_inv p f channels x z hz
      refine ⟨a, (nature_size x.h x.w c d).mp ?_⟩
      by_contra hne
      rw [← e, ← g, ← b] at hne
      simp [hne] at hy
  · rintro ⟨hc, hs⟩
    have hh : 36 ≤ x.h ∧ 36 ≤ x.w := by unfold NatureSize at hs; omega
    obtain ⟨z, hz⟩ := nature_convs_ok p f channels x hc hh.1 hh.2
    obtain ⟨a, b, c, d, e, g⟩ := nature_convs_inv p f channels x z hz
    have hn := (nature_size x.h x.w hh.1 hh.2).mpr hs
    rw [← e, ← g, ← b] at hn
    exact ⟨_, by simp only [dueling, hz, bind, Except.bind, hn, ne_eq, not_true_eq_false, if_false]; rfl⟩

theorem C131_dueling_reads {Y : Type} (p : Params K) (f : K → K) (channels : Nat) (heads : (Nat → K) → Y) (x y : Img K)
    (hx : Square84 x) (hy : Square84 y) (hs : SameCorner 84 x y) :
    dueling p f channels heads x = dueling p f channels heads y := by
  unfold Square84 at hx hy
  by_cases hc : x.ch = channels
  · obtain ⟨x', hx'⟩ := nature_convs_ok p f channels x hc (by omega) (by omega)
    obtain ⟨y', hy'⟩ := nature_convs_ok p f channels y (hs.1 ▸ hc) (by omega) (by omega)
    obtain ⟨_, a, _, _, c, d⟩ := nature_convs_inv p f channels x x' hx'
    obtain ⟨_, a', _, _, c', d'⟩ := nature_convs_inv p f channels y y' hy'
    have hsame := nature_convs_same p f channels x y x' y' hx' hy' hs
    have e1 : x'.h = 7 := by omega
    have e2 : x'.w = 7 := by omega
    have e3 : y'.h = 7 := by omega
    have e4 : y'.w = 7 := by omega
    have hflat : (fun i => if i < 3136 then x'.flat i else 0) = fun i => if i < 3136 then y'.flat i else 0 := by
      funext i
      split_ifs with hi
      · exact flat_same 7 x' y' hsame (by norm_num) e1 e2 e3 e4 i (by rw [a, e1, e2]; exact hi)
      · rfl
    simp only [dueling, hx', hy', bind, Except.bind, hflat, a, a', e1, e2, e3, e4]
  · have hc' : y.ch ≠ channels := fun h => hc (hs.1.trans h)
    simp [dueling, convs, natureConvs, Conv.call, hc, hc', bind, Except.bind]

/-- `NIPSDQNHead`. -/
theorem C131_nips_accepts (p : Params K) (f : K → K) (channels outputs : Nat) (x : Img K) :
    (∃ y, nips p f channels outputs x = .ok y ∧ y.length = outputs) ↔ x.ch = channels ∧ NipsSize x.h x.w := by
  constructor
  · rintro ⟨y, hy, _⟩
    simp only [nips, bind, Except.bind] at hy
    split at hy
    · cases hy
    next z hz =>
      obtain ⟨a, b, c, d, e, g⟩ := nips_convs_inv p f channels x z hz
      refine ⟨a, (nips_size x.h x.w c d).mp ?_⟩
      by_contra hne
      rw [← e, ← g, ← b] at hne
      simp [Lin.call, hne] at hy
  · rintro ⟨hc, hs⟩
    have hh : 20 ≤ x.h ∧ 20 ≤ x.w := by unfold NipsSize at hs; omega
    obtain ⟨z, hz⟩ := nips_convs_ok p f channels x hc hh.1 hh.2
    obtain ⟨a, b, c, d, e, g⟩ := nips_convs_inv p f channels x z hz
    have hn := (nips_size x.h x.w hh.1 hh.2).mpr hs
    rw [← e, ← g, ← b] at hn
    exact ⟨_, by simp only [nips, hz, bind, Except.bind, Lin.call, hn, ne_eq, not_true_eq_false, if_false]; rfl, by simp⟩

theorem C131_nips_reads (p : Params K) (f : K → K) (channels outputs : Nat) (x y : Img K) (hx : Square84 x)
    (hy : Square84 y) (hs : SameCorner 84 x y) : nips p f channels outputs x = nips p f channels outputs y := by
  unfold Square84 at hx hy
  by_cases hc : x.ch = channels
  · obtain ⟨x', hx'⟩ := nips_convs_ok p f channels x hc (by omega) (by omega)
    obtain ⟨y', hy'⟩ := nips_convs_ok p f channels y (hs.1 ▸ hc) (by omega) (by omega)
    obtain ⟨_, a, _, _, c, d⟩ := nips_convs_inv p f channels x x' hx'
    obtain ⟨_, a', _, _, c', d'⟩ := nips_convs_inv p f channels y y' hy'
    have hsame := nips_convs_same p f channels x y x' y' hx' hy' hs
    have e1 : x'.h = 9 := by omega
    have e2 : x'.w = 9 := by omega
    have e3 : y'.h = 9 := by omega
    have e4 : y'.w = 9 := by omega
    simp only [nips, hx', hy', bind, Except.bind]
    have hflat : ∀ i, i < 2592 → x'.flat i = y'.flat i := fun i hi =>
      flat_same 9 x' y' hsame (by norm_num) e1 e2 e3 e4 i (by rw [a, e1, e2]; exact hi)
    have : Lin.call (Lin.mk 2592 outputs p.linW p.linb) x' = Lin.call (Lin.mk 2592 outputs p.linW p.linb) y' := by
      have key : 32 * 9 * 9 = 2592 := by norm_num
      simp only [Lin.call, a, a', e1, e2, e3, e4, key, ne_eq, not_true_eq_false, if_false]
      refine congrArg Except.ok (List.map_congr_left fun o _ => congrArg (p.linb o + ·) (Finset.sum_congr rfl fun i hi => ?_))
      rw [hflat i (Finset.mem_range.mp hi)]
    rw [this]
  · have hc' : y.ch ≠ channels := fun h => hc (hs.1.trans h)
    simp [nips, convs, nipsConvs, Conv.call, hc, hc', bind, Except.bind]

/-! ## Concrete cases -/

/-- An image of 90 rows and 84 columns whose pixels are all 1 is accepted, and its last rows may be anything. -/
def ones (h w : Nat) : Img Nat := ⟨4, h, w, fun _ i j => if i < 84 ∧ j < 84 then 1 else i + j⟩

example : Square84 (ones 90 84) ∧ Square84 (ones 84 84) ∧ SameCorner 84 (ones 90 84) (ones 84 84) := by
  refine ⟨?_, ?_, rfl, fun _ _ _ _ _ _ => rfl⟩ <;> simp [Square84, ones]
example : NatureSize 84 84 ∧ NatureSize 91 88 ∧ ¬ NatureSize 92 84 ∧ ¬ NatureSize 83 84 ∧ ¬ NatureSize 210 160 ∧ NatureSize 40 420 := by
  unfold NatureSize; omega
example : NipsSize 84 84 ∧ ¬ NipsSize 80 80 ∧ NipsSize 40 230 := by unfold NipsSize; omega

/-- C131, the features of the linear layer are the values of the image in row-major order: channel by channel, row by row, column by column. -/
theorem C131_flatten (x : Img K) (c i j : Nat) (hi : i < x.h) (hj : j < x.w) : x.flat ((c * x.h + i) * x.w + j) = x.px c i j := by
  have e1 : ((c * x.h + i) * x.w + j) / x.w = c * x.h + i := by
    rw [Nat.add_comm, Nat.add_mul_div_right _ _ (by omega), Nat.div_eq_of_lt hj, Nat.zero_add]
  have e2 : (c * x.h + i) / x.h = c := by
    rw [Nat.add_comm, Nat.add_mul_div_right _ _ (by omega), Nat.div_eq_of_lt hi, Nat.zero_add]
  have e3 : ((c * x.h + i) * x.w + j) / (x.h * x.w) = c := by
    rw [Nat.mul_comm x.h, ← Nat.div_div_eq_div_mul, e1, e2]
  have e4 : (c * x.h + i) % x.h = i := by
    rw [Nat.add_comm, Nat.add_mul_mod_self_right, Nat.mod_eq_of_lt hi]
  have e5 : ((c * x.h + i) * x.w + j) % x.w = j := by
    rw [Nat.add_comm, Nat.add_mul_mod_self_right, Nat.mod_eq_of_lt hj]
  unfold Img.flat
  rw [e3, e1, e4, e5]

/-- C131, the features: whatever a head accepts, it returns as many features as it was built with, and each of them is a value
of the activation, as the specification of the network has it (with ReLU: no feature is negative). -/
theorem C131_activated (p : Params K) (f : K → K) (channels outputs : Nat) (x : Img K) (y : List K)
    (h : nature p f channels outputs x = .ok y ∨ nips p f channels outputs x = .ok y) :
    y.length = outputs ∧ ∀ v ∈ y, ∃ u, v = f u := by
  have key : ∀ (n : Nat) (z : Img K) (w : List K), (Lin.mk n outputs p.linW p.linb).call z = .ok w → w.length = outputs := by
    intro n z w hw
    simp only [Lin.call] at hw
    split at hw
    · cases hw
    · cases hw; simp
  have fin : ∀ (n : Nat) (c : Py (Img K)),
      (do let y ← c
          let z ← (Lin.mk n outputs p.linW p.linb).call y
          pure (z.map f)) = Except.ok y → y.length = outputs ∧ ∀ v ∈ y, ∃ u, v = f u := by
    intro n c hc
    cases c with
    | error e => cases hc
    | ok z =>
      cases hz : (Lin.mk n outputs p.linW p.linb).call z with
      | error e =>
        simp only [Bind.bind, Except.bind, hz] at hc
        cases hc
      | ok w =>
        simp only [Bind.bind, Except.bind, hz] at hc
        cases hc
        refine ⟨by rw [List.length_map]; exact key n z w hz, ?_⟩
        intro v hv
        obtain ⟨u, _, rfl⟩ := List.mem_map.1 hv
        exact ⟨u, rfl⟩
  rcases h with h | h
  · exact fin 3136 _ h
  · exact fin 2592 _ h

end Verif.ConvHeads

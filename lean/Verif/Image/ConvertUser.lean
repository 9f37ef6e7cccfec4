import Verif.Image.ConvertProps
import Mathlib.Data.List.Basic

namespace VW.Convert

open VW.Float

/-! ### Layouts -/

theorem digit {n k k' q q' : Nat} (hk : k < n) (hk' : k' < n) (h : q * n + k = q' * n + k') : q = q' ∧ k = k' := by
  have h1 : (q * n + k) % n = k := by rw [Nat.mul_comm, Nat.mul_add_mod, Nat.mod_eq_of_lt hk]
  have h2 : (q' * n + k') % n = k' := by rw [Nat.mul_comm, Nat.mul_add_mod, Nat.mod_eq_of_lt hk']
  have e : k = k' := by rw [← h1, ← h2, h]
  subst e
  exact ⟨Nat.eq_of_mul_eq_mul_right (by omega : 0 < n) (by omega), rfl⟩

/-- Buffers made by `ImageBuffer(format, data)` do not overlap themselves. -/
theorem packed_separate (f : Format) (base : Int) (planes : Nat) : Separate (Buffer.packed f base) planes := by
  intro p r c k p' r' c' k' _ hr hc hk _ hr' hc' hk' h
  have e : ∀ p r c k : Nat, (Buffer.packed f base).addr p r c k =
      base + ((((p * f.rows + r) * f.cols + c) * channels f.pixel + k : Nat) : Int) := by
    intro p r c k
    simp only [Buffer.addr, Buffer.packed]
    push_cast
    ring
  rw [e, e] at h
  have h' : ((p * f.rows + r) * f.cols + c) * channels f.pixel + k = ((p' * f.rows + r') * f.cols + c') * channels f.pixel + k' := by
    have := Int.add_left_cancel h
    exact_mod_cast this
  obtain ⟨h1, hk⟩ := digit hk hk' h'
  obtain ⟨h2, hc⟩ := digit hc hc' h1
  obtain ⟨h3, hr⟩ := digit hr hr' h2
  exact ⟨h3, hr, hc, hk⟩

theorem cropped_addr (b : Buffer) (x y w h p r c k : Nat) : (b.cropped x y w h).addr p r c k = b.addr p (y + r) (x + c) k := by
  simp only [Buffer.addr, Buffer.cropped]
  push_cast
  ring

/-- A part of a buffer. -/
theorem cropped_separate {b : Buffer} {planes : Nat} (hb : Separate b planes) {x y w h : Nat} (hx : x + w ≤ b.format.cols)
    (hy : y + h ≤ b.format.rows) : Separate (b.cropped x y w h) planes := by
  intro p r c k p' r' c' k' hp hr hc hk hp' hr' hc' hk' he
  rw [cropped_addr, cropped_addr] at he
  simp only [Buffer.cropped] at hr hc hk hr' hc' hk'
  obtain ⟨h1, h2, h3, h4⟩ := hb p (y + r) (x + c) k p' (y + r') (x + c') k' hp (by omega) (by omega) hk hp' (by omega) (by omega) hk' he
  exact ⟨h1, by omega, by omega, h4⟩

theorem asPlanes_addr (b : Buffer) (n p r c : Nat) : (b.asPlanes n).addr p r c 0 = b.addr 0 r c p := by
  simp only [Buffer.addr, Buffer.asPlanes]
  push_cast
  ring

theorem asPlanes_separate {b : Buffer} {planes : Nat} (hp : 0 < planes) (hb : Separate b planes) :
    Separate (b.asPlanes (channels b.format.pixel)) (channels b.format.pixel) := by
  intro p r c k p' r' c' k' hp1 hr hc hk hp' hr' hc' hk' he
  have k0 : k = 0 := by simpa [Buffer.asPlanes, channels] using hk
  have k0' : k' = 0 := by simpa [Buffer.asPlanes, channels] using hk'
  subst k0; subst k0'
  rw [asPlanes_addr, asPlanes_addr] at he
  obtain ⟨_, h2, h3, h4⟩ := hb 0 r c p 0 r' c' p' hp hr hc hp1 hp hr' hc' hp' he
  exact ⟨h4, h2, h3, rfl⟩

/-! ### Channels -/

/-- A value of a channel type. -/
def Fits : CT → ℚ → Prop
  | .int s b, x => ∃ n : Int, x = n ∧ (if s then -2 ^ (b - 1) else 0) ≤ n ∧ n ≤ maxInt s b
  | .f32, x => rnd 24 x = x
  | .f64, x => rnd 53 x = x
  | .other _, _ => True

theorem trunc_int (n : Int) : trunc (n : ℚ) = n := by
  unfold trunc
  by_cases h : (0 : ℚ) ≤ n
  · rw [if_pos h]; simp
  · rw [if_neg h]
    have : (-(n : ℚ)) = ((-n : Int) : ℚ) := by push_cast; rfl
    rw [this]; simp

theorem wrap_fits {s : Bool} {b : Nat} (hb : 8 ≤ b) {n : Int} (h1 : (if s then -2 ^ (b - 1) else 0) ≤ n) (h2 : n ≤ maxInt s b) :
    wrap s b n = n := by
  unfold wrap
  unfold maxInt at h2
  cases s
  · simp only [Bool.false_eq_true, if_false] at h1 h2 ⊢
    exact Int.emod_eq_of_lt h1 (by omega)
  · simp only [if_true] at h1 h2 ⊢
    have e : (2 : Int) ^ b = 2 * 2 ^ (b - 1) := by rw [← pow_succ']; congr 1; omega
    rw [Int.emod_eq_of_lt (by omega) (by rw [e]; omega)]; omega

theorem cast_fits {t : CT} (ht : t.Known) {x : ℚ} (h : Fits t x) : cast t x = x := by
  cases t with
  | int s b =>
    obtain ⟨n, rfl, h1, h2⟩ := h
    simp only [cast, trunc_int]
    rw [wrap_fits ht h1 h2]
  | f32 => exact h
  | f64 => exact h
  | other n => exact ht.elim

theorem conv_same (r : Bool) {t : CT} (ht : t.Known) : convFunc r t t = some (cast t) := by
  cases t with
  | int s b =>
    simp only [convFunc]
    split
    · rename_i h; simp at h; omega
    split
    · rename_i h; simp at h; omega
    rfl
  | f32 => rfl
  | f64 => rfl
  | other n => exact ht.elim

/-! ### Images -/

/-- **C61**: an image converted to its own format is copied, whatever the strides of the two buffers. -/
theorem convert_copies {dst src : Buffer} (r : Bool) (sm dm : Memory) (hf : dst.format = src.format)
    (hc : 0 < channels src.format.pixel) (hk : src.format.channel.Known) (hsep : Separate dst src.format.planes)
    (hv : ∀ p i j k, p < src.format.planes → i < src.format.rows → j < src.format.cols → k < channels src.format.pixel →
      Fits src.format.channel (sm (src.addr p i j k))) :
    ∃ m, convert dst src r sm dm = .ok m ∧
      (∀ p i j k, p < src.format.planes → i < src.format.rows → j < src.format.cols → k < channels src.format.pixel →
        m (dst.addr p i j k) = sm (src.addr p i j k)) ∧
      (∀ a, (∀ p i j k, p < src.format.planes → i < src.format.rows → j < src.format.cols → k < channels src.format.pixel →
        a ≠ dst.addr p i j k) → m a = dm a) := by
  obtain ⟨F, m, hF, hm, h1, h2⟩ := convert_spec (dst := dst) (src := src) r sm dm (asIs_same (by rw [hf]; exact ⟨rfl, rfl⟩) (by rw [hf]))
    (by rw [hf]; exact hc) hc (by rw [hf]; exact hk) hk hsep
  rw [hf] at h1 h2 hF
  obtain ⟨F', hF', hconv, _⟩ := funcs_known r hk hk
  rw [hF] at hF'; cases hF'
  rw [conv_same r hk] at hconv
  refine ⟨m, hm, fun p i j k hp hi hj hkk => ?_, h2⟩
  rw [h1 p i j k hp hi hj hkk]
  have e1 : unpremultiplySrc src.format src.format = false := by
    unfold unpremultiplySrc; cases src.format.premultiplied <;> simp
  have e2 : premultiplySrc src.format src.format = false := by
    unfold premultiplySrc srcAlpha dstAlpha
    cases (src.format.pixel == PF.graya) <;> cases (src.format.pixel == PF.rgba) <;> rfl
  have e3 : premultiplyDst src.format src.format = false := by
    unfold premultiplyDst; cases src.format.premultiplied <;> simp
  unfold outChan prepared
  simp only [e1, e2, e3, Bool.false_eq_true, if_false]
  unfold target
  rw [if_pos rfl, ← Option.some.inj hconv]
  exact cast_fits hk (hv p i j k hp hi hj hkk)

/-- **C61**: premultiplied images of the core formats: gray, gray with alpha, RGB, RGBA, XYZ, in any combination. `conv` is the function
for the two channel types, `full` the greatest value of the destination type. -/
theorem convert_core {dst src : Buffer} (r : Bool) (sm dm : Memory) (hsz : dst.format.cols = src.format.cols ∧ dst.format.rows = src.format.rows)
    (cd : core dst.format.pixel = true) (cs : core src.format.pixel = true) (kd : dst.format.channel.Known) (ks : src.format.channel.Known)
    (pd : dst.format.premultiplied = true) (ps : src.format.premultiplied = true) (hsep : Separate dst src.format.planes) :
    ∃ conv full mean m, convFunc r src.format.channel dst.format.channel = some conv ∧ setMax dst.format.channel = some full ∧
      average dst.format.channel = some mean ∧ convert dst src r sm dm = .ok m ∧
      ∀ p i j k, p < src.format.planes → i < dst.format.rows → j < dst.format.cols → k < channels dst.format.pixel →
        m (dst.addr p i j k) = target conv full mean (channels src.format.pixel) (channels dst.format.pixel)
          (fun ch => sm (src.addr p i j ch)) k := by
  have pos : ∀ f, core f = true → 0 < channels f := by
    intro f hf
    unfold core at hf
    simp only [List.mem_cons, List.not_mem_nil, or_false, decide_eq_true_eq] at hf
    rcases hf with rfl | rfl | rfl | rfl | rfl <;> decide
  obtain ⟨F, m, hF, hm, h1, _⟩ := convert_spec r sm dm (asIs_core hsz cd cs) (pos _ cd) (pos _ cs) kd ks hsep
  obtain ⟨F', hF', a1, a2, a3, _⟩ := funcs_known r ks kd
  rw [hF] at hF'; cases hF'
  refine ⟨_, _, _, m, a1, a2, a3, hm, fun p i j k hp hi hj hk => ?_⟩
  rw [h1 p i j k hp hi hj hk]
  unfold outChan prepared unpremultiplySrc premultiplySrc premultiplyDst
  simp [pd, ps]

/-- **C61**: alpha is multiplied into the other channels when an image with alpha is converted to premultiplied form, and divided out
of them when it is converted back. -/
theorem convert_alpha {dst src : Buffer} (r : Bool) (sm dm : Memory) (hsz : dst.format.cols = src.format.cols ∧ dst.format.rows = src.format.rows)
    (hpix : dst.format.pixel = src.format.pixel) (ha : src.format.pixel = .graya ∨ src.format.pixel = .rgba)
    (kd : dst.format.channel.Known) (ks : src.format.channel.Known) (hsep : Separate dst src.format.planes) :
    ∃ conv pre unpre m, convFunc r src.format.channel dst.format.channel = some conv ∧ premul dst.format.channel = some pre ∧
      unpremul src.format.channel = some unpre ∧ convert dst src r sm dm = .ok m ∧
      ∀ p i j k, p < src.format.planes → i < dst.format.rows → j < dst.format.cols → k + 1 < channels src.format.pixel →
        (let alpha := sm (src.addr p i j (channels src.format.pixel - 1))
         m (dst.addr p i j (channels src.format.pixel - 1)) = conv alpha ∧
         (src.format.premultiplied = dst.format.premultiplied → m (dst.addr p i j k) = conv (sm (src.addr p i j k))) ∧
         (src.format.premultiplied = false → dst.format.premultiplied = true →
           m (dst.addr p i j k) = pre (conv (sm (src.addr p i j k))) (conv alpha)) ∧
         (src.format.premultiplied = true → dst.format.premultiplied = false →
           m (dst.addr p i j k) = conv (unpre (sm (src.addr p i j k)) alpha))) := by
  have pos : 0 < channels src.format.pixel := by rcases ha with h | h <;> rw [h] <;> decide
  obtain ⟨F, m, hF, hm, h1, _⟩ := convert_spec r sm dm (asIs_same hsz hpix) (by rw [hpix]; exact pos) pos kd ks hsep
  obtain ⟨F', hF', a1, _, _, a4, _, a6⟩ := funcs_known r ks kd
  rw [hF] at hF'; cases hF'
  refine ⟨_, _, _, m, a1, a6, a4, hm, fun p i j k hp hi hj hk => ?_⟩
  have sa : srcAlpha src.format dst.format = true := by
    unfold srcAlpha; rw [hpix]; rcases ha with h | h <;> rw [h] <;> rfl
  have da : dstAlpha dst.format = true := by
    unfold dstAlpha; rw [hpix]; rcases ha with h | h <;> rw [h] <;> rfl
  have hl : channels src.format.pixel - 1 < channels dst.format.pixel := by rw [hpix]; omega
  have hk' : k < channels dst.format.pixel := by rw [hpix]; omega
  dsimp only
  rw [h1 p i j k hp hi hj hk', h1 p i j _ hp hi hj hl]
  have n1 : ¬ channels src.format.pixel - 1 + 1 < channels src.format.pixel := by omega
  unfold outChan prepared unpremultiplySrc premultiplySrc premultiplyDst
  rw [sa, da, hpix]
  unfold target scaled
  cases src.format.premultiplied <;> cases dst.format.premultiplied <;>
    simp [hk, n1]

/-- **C61**: gray pixels with alpha lose it by being multiplied with it. -/
theorem graya_to_opaque {dst src : Buffer} (r : Bool) (sm dm : Memory)
    (hsz : dst.format.cols = src.format.cols ∧ dst.format.rows = src.format.rows) (hs : src.format.pixel = .graya)
    (hd : dst.format.pixel = .gray ∨ dst.format.pixel = .rgb) (ps : src.format.premultiplied = false)
    (kd : dst.format.channel.Known) (ks : src.format.channel.Known) (hsep : Separate dst src.format.planes) :
    ∃ conv pre m, convFunc r src.format.channel dst.format.channel = some conv ∧ premul src.format.channel = some pre ∧
      convert dst src r sm dm = .ok m ∧
      ∀ p i j k, p < src.format.planes → i < dst.format.rows → j < dst.format.cols → k < channels dst.format.pixel →
        m (dst.addr p i j k) = conv (pre (sm (src.addr p i j 0)) (sm (src.addr p i j 1))) := by
  have cd : core dst.format.pixel = true := by rcases hd with h | h <;> rw [h] <;> decide
  have pd : 0 < channels dst.format.pixel := by rcases hd with h | h <;> rw [h] <;> decide
  obtain ⟨F, m, hF, hm, h1, _⟩ := convert_spec r sm dm (asIs_core hsz cd (by rw [hs]; decide)) pd (by rw [hs]; decide) kd ks hsep
  obtain ⟨F', hF', a1, _, _, _, a5, _⟩ := funcs_known r ks kd
  rw [hF] at hF'; cases hF'
  refine ⟨_, _, m, a1, a5, hm, fun p i j k hp hi hj hk => ?_⟩
  rw [h1 p i j k hp hi hj hk]
  unfold outChan prepared unpremultiplySrc premultiplySrc premultiplyDst
  rcases hd with h | h <;> simp [srcAlpha, dstAlpha, hs, h, ps, target, scaled, channels]

/-- Refuted for RGBA: its alpha is simply dropped, as the code tests the destination for being RGBA. -/
theorem rgba_alpha_ignored {dst src : Buffer} (r : Bool) (sm dm : Memory)
    (hsz : dst.format.cols = src.format.cols ∧ dst.format.rows = src.format.rows) (hs : src.format.pixel = .rgba)
    (hd : dst.format.pixel = .rgb) (kd : dst.format.channel.Known) (ks : src.format.channel.Known) (hsep : Separate dst src.format.planes) :
    ∃ conv m, convFunc r src.format.channel dst.format.channel = some conv ∧ convert dst src r sm dm = .ok m ∧
      ∀ p i j k, p < src.format.planes → i < dst.format.rows → j < dst.format.cols → k < 3 →
        m (dst.addr p i j k) = conv (sm (src.addr p i j k)) := by
  obtain ⟨F, m, hF, hm, h1, _⟩ := convert_spec r sm dm (asIs_core hsz (by rw [hd]; decide) (by rw [hs]; decide)) (by rw [hd]; decide)
    (by rw [hs]; decide) kd ks hsep
  obtain ⟨F', hF', a1, _⟩ := funcs_known r ks kd
  rw [hF] at hF'; cases hF'
  refine ⟨_, m, a1, hm, fun p i j k hp hi hj hk => ?_⟩
  rw [h1 p i j k hp hi hj (by rw [hd]; exact hk)]
  unfold outChan prepared unpremultiplySrc premultiplySrc premultiplyDst
  simp [srcAlpha, dstAlpha, hs, hd, target, channels]

/-- Refuted: an opaque RGB image converted to RGBA that is not premultiplied has its red and green divided by its blue. -/
theorem rgb_divided_by_blue {dst src : Buffer} (r : Bool) (sm dm : Memory)
    (hsz : dst.format.cols = src.format.cols ∧ dst.format.rows = src.format.rows) (hs : src.format.pixel = .rgb)
    (hd : dst.format.pixel = .rgba) (ps : src.format.premultiplied = true) (pd : dst.format.premultiplied = false)
    (kd : dst.format.channel.Known) (ks : src.format.channel.Known) (hsep : Separate dst src.format.planes) :
    ∃ conv unpre m, convFunc r src.format.channel dst.format.channel = some conv ∧ unpremul src.format.channel = some unpre ∧
      convert dst src r sm dm = .ok m ∧
      ∀ p i j k, p < src.format.planes → i < dst.format.rows → j < dst.format.cols → k < 2 →
        m (dst.addr p i j k) = conv (unpre (sm (src.addr p i j k)) (sm (src.addr p i j 2))) := by
  obtain ⟨F, m, hF, hm, h1, _⟩ := convert_spec r sm dm (asIs_core hsz (by rw [hd]; decide) (by rw [hs]; decide)) (by rw [hd]; decide)
    (by rw [hs]; decide) kd ks hsep
  obtain ⟨F', hF', a1, _, _, a4, _⟩ := funcs_known r ks kd
  rw [hF] at hF'; cases hF'
  refine ⟨_, _, m, a1, a4, hm, fun p i j k hp hi hj hk => ?_⟩
  rw [h1 p i j k hp hi hj (by rw [hd]; show k < 4; omega)]
  unfold outChan prepared unpremultiplySrc premultiplySrc premultiplyDst
  have n3 : k ≠ 3 := by omega
  have n2 : k + 1 < 3 := by omega
  simp [srcAlpha, dstAlpha, hs, hd, ps, pd, target, scaled, channels, n3, n2]

/-! ### Channels and planes -/

theorem scalar_out (F : Funcs) (s d : Format) (sp : Nat → ℚ) (hs : s.pixel = .scalar) (hd : d.pixel = .scalar) :
    outChan F s d sp 0 = F.conv (sp 0) := by
  unfold outChan prepared unpremultiplySrc premultiplySrc premultiplyDst
  simp [srcAlpha, hs, hd, target, channels]

/-- **C61**: a multi-channel image of one plane converted to one scalar plane for each channel. -/
theorem channels_to_planes {dst src : Buffer} (r : Bool) (sm dm : Memory)
    (hsz : dst.format.cols = src.format.cols ∧ dst.format.rows = src.format.rows) (hd : dst.format.pixel = .scalar)
    (hs : src.format.pixel ≠ .scalar) (hs0 : 0 < channels src.format.pixel) (hp : src.format.planes = 1)
    (hn : dst.format.planes = channels src.format.pixel) (kd : dst.format.channel.Known) (ks : src.format.channel.Known)
    (hsep : Separate dst dst.format.planes) :
    ∃ conv m, convFunc false src.format.channel dst.format.channel = some conv ∧ convert dst src r sm dm = .ok m ∧
      ∀ i j k, i < dst.format.rows → j < dst.format.cols → k < channels src.format.pixel →
        m (dst.addr k i j 0) = conv (sm (src.addr 0 i j k)) := by
  obtain ⟨F, hF, hc⟩ := convertAsIs_ok (dst := dst) (src := src.asPlanes dst.format.planes) (r := false) (sm := sm) (dm := dm)
    (by show 0 < channels .scalar; decide) (by rw [hd]; decide) ks kd
  obtain ⟨F', hF', a1, _⟩ := funcs_known false ks kd
  have : F = F' := by
    have h : (Except.ok F : Except Err Funcs) = .ok F' := by rw [← hF, ← hF']; rfl
    exact Except.ok.inj h
  subst this
  obtain ⟨l1, _⟩ := loops_spec F dst (src.asPlanes dst.format.planes) sm dm ⟨hsz.2, hsz.1⟩
    (by rw [hd]; exact ⟨by decide, .inl rfl⟩) hsep
  refine ⟨F.conv, loops F dst (src.asPlanes dst.format.planes) sm dm, a1, ?_, fun i j k hi hj hk => ?_⟩
  · unfold convert
    rw [srcPlanes_of hsz hd hs hs0 hp hn]
    have : channelSize src.format.channel = .ok (size src.format.channel) := by
      unfold channelSize; rw [if_pos (size_known ks)]
    simp only [bind, Except.bind, this]
    exact hc
  · rw [l1 k i j 0 (by rw [← hn] at hk; exact hk) hi hj (by rw [hd]; decide), scalar_out _ _ _ _ rfl hd, asPlanes_addr]

/-- **C61**: scalar planes converted to one multi-channel plane. -/
theorem planes_to_channels {dst src : Buffer} (r : Bool) (sm dm : Memory)
    (hsz : dst.format.cols = src.format.cols ∧ dst.format.rows = src.format.rows) (hs : src.format.pixel = .scalar)
    (hd : dst.format.pixel ≠ .scalar) (hd0 : 0 < channels dst.format.pixel) (hp : dst.format.planes = 1)
    (hn : src.format.planes = channels dst.format.pixel) (kd : dst.format.channel.Known) (ks : src.format.channel.Known)
    (hsep : Separate dst 1) :
    ∃ conv m, convFunc false src.format.channel dst.format.channel = some conv ∧ convert dst src r sm dm = .ok m ∧
      ∀ i j k, i < dst.format.rows → j < dst.format.cols → k < channels dst.format.pixel →
        m (dst.addr 0 i j k) = conv (sm (src.addr k i j 0)) := by
  obtain ⟨F, hF, hc⟩ := convertAsIs_ok (dst := dst.asPlanes src.format.planes) (src := src) (r := false) (sm := sm) (dm := dm)
    (by rw [hs]; decide) (by show 0 < channels .scalar; decide) ks kd
  obtain ⟨F', hF', a1, _⟩ := funcs_known false ks kd
  have : F = F' := by
    have h : (Except.ok F : Except Err Funcs) = .ok F' := by rw [← hF, ← hF']; rfl
    exact Except.ok.inj h
  subst this
  obtain ⟨l1, _⟩ := loops_spec F (dst.asPlanes src.format.planes) src sm dm ⟨hsz.2, hsz.1⟩
    (by rw [hs]; exact ⟨by show 0 < channels .scalar; decide, .inl rfl⟩) (by rw [hn]; exact asPlanes_separate (by decide) hsep)
  refine ⟨F.conv, loops F (dst.asPlanes src.format.planes) src sm dm, a1, ?_, fun i j k hi hj hk => ?_⟩
  · unfold convert
    rw [(dstPlanes_iff hd0).mpr ⟨hsz, hs, hd, hp, hn⟩]
    have : channelSize dst.format.channel = .ok (size dst.format.channel) := by
      unfold channelSize; rw [if_pos (size_known kd)]
    simp only [bind, Except.bind, this]
    exact hc
  · rw [← asPlanes_addr dst src.format.planes, l1 k i j 0 (by rw [← hn] at hk; exact hk) hi hj (by show 0 < channels .scalar; decide),
      scalar_out _ _ _ _ hs rfl]

/-- Refuted: `rescale` is dropped on the way, unlike in the conversion of the same channels as they are: 255 becomes 255 in `uint16`
planes, but 65535 in `uint16` pixels. -/
theorem planes_not_rescaled :
    let src := Buffer.packed ⟨1, 1, 1, .rgb, .u8, true⟩ 0
    let planes := Buffer.packed ⟨1, 1, 3, .scalar, .u16, true⟩ 0
    let pixels := Buffer.packed ⟨1, 1, 1, .rgb, .u16, true⟩ 0
    (convert planes src true (fun _ => 255) (fun _ => 0)).toOption.map (fun m => [m 0, m 1, m 2]) = some [255, 255, 255] ∧
    (convert pixels src true (fun _ => 255) (fun _ => 0)).toOption.map (fun m => [m 0, m 1, m 2]) = some [65535, 65535, 65535] := by
  decide +kernel

/-- Refuted: nothing checks that the destination has as many planes as the source. Two planes written to a buffer with one go past its
end. -/
theorem planes_unchecked :
    let src := Buffer.packed ⟨1, 1, 2, .gray, .u8, true⟩ 0
    let dst := Buffer.packed ⟨1, 1, 1, .gray, .u8, true⟩ 0
    canConvert dst.format src.format = .ok () ∧
    (convert dst src false (fun _ => 7) (fun _ => 0)).toOption.map (fun m => [m 0, m 1, m 2]) = some [7, 7, 0] := by
  decide +kernel

/-- The two findings about alpha in numbers: fully transparent white stays white in RGB (but becomes black from gray); an opaque colour
converted to RGBA that is not premultiplied changes. -/
theorem alpha_examples :
    (convert (Buffer.packed ⟨1, 1, 1, .rgb, .u8, true⟩ 0) (Buffer.packed ⟨1, 1, 1, .rgba, .u8, false⟩ 0) false
      (fun a => if a = 3 then 0 else 255) (fun _ => 9)).toOption.map (fun m => [m 0, m 1, m 2]) = some [255, 255, 255] ∧
    (convert (Buffer.packed ⟨1, 1, 1, .rgb, .u8, true⟩ 0) (Buffer.packed ⟨1, 1, 1, .graya, .u8, false⟩ 0) false
      (fun a => if a = 1 then 0 else 255) (fun _ => 9)).toOption.map (fun m => [m 0, m 1, m 2]) = some [0, 0, 0] ∧
    (convert (Buffer.packed ⟨1, 1, 1, .rgba, .u8, false⟩ 0) (Buffer.packed ⟨1, 1, 1, .rgb, .u8, true⟩ 0) false
      (fun a => if a = 0 then 10 else if a = 1 then 20 else 51) (fun _ => 9)).toOption.map (fun m => [m 0, m 1, m 2, m 3]) =
        some [50, 100, 51, 255] := by
  decide +kernel

/-! ### Parts of buffers -/

/-- **C61**: what `ImageBuffer::write` puts into a part of a buffer, `ImageBuffer::read` gets from it, and the rest of the buffer is as
it was. -/
theorem write_read {self buf out : Buffer} {x y w h : Nat} (bm sm om : Memory) (hx : x + w ≤ self.format.cols)
    (hy : y + h ≤ self.format.rows) (hbf : buf.format = { self.format with cols := w, rows := h }) (hof : out.format = buf.format)
    (hc : 0 < channels self.format.pixel) (hk : self.format.channel.Known) (hsep : Separate self self.format.planes)
    (hosep : Separate out out.format.planes)
    (hv : ∀ p i j k, p < self.format.planes → i < h → j < w → k < channels self.format.pixel →
      Fits self.format.channel (bm (buf.addr p i j k))) :
    ∃ sm' om', write self buf x y w h bm sm = .ok sm' ∧ read self out x y w h sm' om = .ok om' ∧
      (∀ p i j k, p < self.format.planes → i < h → j < w → k < channels self.format.pixel →
        om' (out.addr p i j k) = bm (buf.addr p i j k)) ∧
      (∀ p i j k, p < self.format.planes → i < self.format.rows → j < self.format.cols → k < channels self.format.pixel →
        ¬ (y ≤ i ∧ i < y + h ∧ x ≤ j ∧ j < x + w) → sm' (self.addr p i j k) = sm (self.addr p i j k)) := by
  obtain ⟨sm', h1, h2, h3⟩ := convert_copies (dst := self.cropped x y w h) (src := buf) false bm sm (by rw [hbf]; rfl)
    (by rw [hbf]; exact hc) (by rw [hbf]; exact hk) (by rw [hbf]; exact cropped_separate hsep hx hy)
    (by rw [hbf]; exact hv)
  rw [hbf] at h2 h3
  obtain ⟨om', g1, g2, _⟩ := convert_copies (dst := out) (src := self.cropped x y w h) false sm' om (by rw [hof, hbf]; rfl)
    (by exact hc) (by exact hk) (by rw [hof, hbf] at hosep; exact hosep)
    (by
      intro p i j k hp hi hj hk
      rw [h2 p i j k hp hi hj hk]
      exact hv p i j k hp hi hj hk)
  refine ⟨sm', om', h1, g1, fun p i j k hp hi hj hk => ?_, fun p i j k hp hi hj hk hout => ?_⟩
  · rw [g2 p i j k hp hi hj hk, h2 p i j k hp hi hj hk]
  · refine h3 _ fun p' i' j' k' hp' hi' hj' hk' he => hout ?_
    rw [cropped_addr] at he
    dsimp only at hp' hi' hj' hk'
    obtain ⟨_, e2, e3, _⟩ := hsep p i j k p' (y + i') (x + j') k' hp hi hj hk hp' (by omega) (by omega) hk' he
    omega

/-! ### Which conversions are possible -/

theorem check_known {d s : Format} {v : View} (h : checkFormats d s = .ok v) (hne : d.pixel ≠ s.pixel) :
    0 < channels d.pixel ∧ 0 < channels s.pixel := by
  unfold checkFormats at h
  split at h
  · cases h
  have key : (if generic s.pixel d.pixel = true then (Except.ok View.asIs : Except Err View)
      else if (!core s.pixel || !core d.pixel) = true then Except.error Err.argument else Except.ok View.asIs) = .ok v →
      0 < channels d.pixel ∧ 0 < channels s.pixel := by
    intro h
    by_cases hg : generic s.pixel d.pixel = true
    · unfold generic at hg
      simp only [List.mem_cons, List.not_mem_nil, or_false, decide_eq_true_eq, Prod.mk.injEq] at hg
      rcases hg with hg | hg | hg | hg | hg | hg | hg | hg | hg | hg | hg | hg | hg | hg | hg | hg <;> (rw [hg.1, hg.2]; decide)
    · rw [if_neg hg] at h
      by_cases hc : (!core s.pixel || !core d.pixel) = true
      · rw [if_pos hc] at h; cases h
      · have hc' : core s.pixel = true ∧ core d.pixel = true := by simpa [not_or] using hc
        unfold core at hc'
        simp only [List.mem_cons, List.not_mem_nil, or_false, decide_eq_true_eq] at hc'
        have h4 : ∀ f : PF, (f = .gray ∨ f = .graya ∨ f = .rgb ∨ f = .rgba ∨ f = .xyz) → 0 < channels f := by
          rintro f (rfl | rfl | rfl | rfl | rfl) <;> decide
        exact ⟨h4 _ hc'.2, h4 _ hc'.1⟩
  have scal : 0 < channels .scalar := by decide
  unfold numChannels at h
  by_cases a1 : s.pixel = .scalar ∧ d.planes = 1
  · by_cases hd : 0 < channels d.pixel
    · exact ⟨hd, by rw [a1.1]; exact scal⟩
    · rw [if_pos a1, if_neg hd] at h
      simp [bind, Except.bind] at h
  rw [if_neg a1] at h
  by_cases a2 : d.pixel = .scalar ∧ s.planes = 1
  · by_cases hs : 0 < channels s.pixel
    · exact ⟨by rw [a2.1]; exact scal, hs⟩
    · rw [if_pos a2, if_neg hs] at h
      simp [bind, Except.bind, pure, Except.pure] at h
  rw [if_neg a2] at h
  simp only [bind, Except.bind, pure, Except.pure, Bool.false_eq_true, if_false] at h
  exact key h

theorem check_scalar {d s : Format} {v : View} (h : checkFormats d s = .ok v) :
    (v = .dstPlanes → s.pixel = .scalar) ∧ (v = .srcPlanes → d.pixel = .scalar) := by
  unfold checkFormats at h
  by_cases a1 : s.pixel = .scalar
  · refine ⟨fun _ => a1, ?_⟩
    rintro rfl
    by_contra a2
    split at h
    · cases h
    split at h
    · cases h
    simp only [a1, a2, true_and, false_and, if_false, bind, Except.bind, pure, Except.pure, Bool.false_eq_true] at h
    revert h
    (repeat' split) <;> simp
  · refine ⟨?_, ?_⟩
    · rintro rfl
      split at h
      · cases h
      split at h
      · cases h
      simp only [a1, false_and, if_false, bind, Except.bind, pure, Except.pure, Bool.false_eq_true] at h
      exfalso
      revert h
      (repeat' split) <;> simp
    · rintro rfl
      by_contra a2
      split at h
      · cases h
      split at h
      · cases h
      simp only [a1, a2, false_and, if_false, bind, Except.bind, pure, Except.pure, Bool.false_eq_true] at h
      revert h
      (repeat' split) <;> simp

theorem canConvert_iff {d s : Format} (hs : s.channel.Wf) (hd : d.channel.Wf) :
    canConvert d s = .ok () ↔ (∃ v, checkFormats d s = .ok v) ∧ s.channel.Known ∧ d.channel.Known := by
  unfold canConvert
  cases hc : checkFormats d s with
  | error e => simp [bind, Except.bind]
  | ok v =>
    simp only [bind, Except.bind]
    by_cases hk : s.channel.Known ∧ d.channel.Known
    · obtain ⟨F, _, a1, a2, _⟩ := funcs_known false hk.1 hk.2
      rw [a1, a2]
      exact ⟨fun _ => ⟨⟨v, rfl⟩, hk⟩, fun _ => rfl⟩
    · rw [convFunc_unknown false hs hd hk]
      constructor
      · intro h; cases h
      · rintro ⟨_, h⟩; exact absurd h hk

/-- **C61**: `convert` succeeds exactly if `can_convert` passes, for known pixel formats. -/
theorem convert_iff_can {dst src : Buffer} (r : Bool) (sm dm : Memory) (hs : src.format.channel.Wf) (hd : dst.format.channel.Wf) :
    (∃ m, convert dst src r sm dm = .ok m) ↔
      canConvert dst.format src.format = .ok () ∧ 0 < channels src.format.pixel ∧ 0 < channels dst.format.pixel := by
  rw [canConvert_iff hs hd]
  have scal : 0 < channels .scalar := by decide
  cases hc : checkFormats dst.format src.format with
  | error e =>
    unfold convert
    rw [hc]
    simp [bind, Except.bind]
  | ok v =>
    obtain ⟨c1, c2⟩ := check_scalar hc
    cases v with
    | asIs =>
      rw [convert_asIs r sm dm hc]
      constructor
      · rintro ⟨m, hm⟩
        by_cases hall : 0 < channels src.format.pixel ∧ 0 < channels dst.format.pixel ∧ src.format.channel.Known ∧ dst.format.channel.Known
        · exact ⟨⟨⟨_, rfl⟩, hall.2.2⟩, hall.1, hall.2.1⟩
        · obtain ⟨e, he⟩ := convertAsIs_bad (r := r) (sm := sm) (dm := dm) hs hd hall
          rw [he] at hm; cases hm
      · rintro ⟨⟨_, k1, k2⟩, h1, h2⟩
        obtain ⟨F, _, h⟩ := convertAsIs_ok (r := r) (sm := sm) (dm := dm) h1 h2 k1 k2
        exact ⟨_, h⟩
    | dstPlanes =>
      have hsp := c1 rfl
      have hne : dst.format.pixel ≠ src.format.pixel := by
        intro he
        unfold checkFormats at hc
        rw [if_pos he] at hc
        split at hc <;> cases hc
      have hch := check_known hc hne
      constructor
      · rintro ⟨m, hm⟩
        refine ⟨⟨⟨_, rfl⟩, ?_⟩, hch.2, hch.1⟩
        by_contra hk
        have hall : ¬ (0 < channels src.format.pixel ∧ 0 < channels (dst.asPlanes src.format.planes).format.pixel ∧
            src.format.channel.Known ∧ (dst.asPlanes src.format.planes).format.channel.Known) := fun h => hk ⟨h.2.2.1, h.2.2.2⟩
        obtain ⟨e, he⟩ := convertAsIs_bad (dst := dst.asPlanes src.format.planes) (src := src) (r := false) (sm := sm) (dm := dm) hs hd hall
        unfold convert channelSize at hm
        rw [hc] at hm
        simp only [bind, Except.bind] at hm
        split at hm
        · cases hm
        · rw [he] at hm; cases hm
      · rintro ⟨⟨_, k1, k2⟩, h1, h2⟩
        obtain ⟨F, _, h⟩ := convertAsIs_ok (dst := dst.asPlanes src.format.planes) (src := src) (r := false) (sm := sm) (dm := dm)
          h1 scal k1 k2
        refine ⟨loops F (dst.asPlanes src.format.planes) src sm dm, ?_⟩
        unfold convert channelSize
        rw [hc, if_pos (size_known k2)]
        exact h
    | srcPlanes =>
      have hsp := c2 rfl
      have hne : dst.format.pixel ≠ src.format.pixel := by
        intro he
        unfold checkFormats at hc
        rw [if_pos he] at hc
        split at hc <;> cases hc
      have hch := check_known hc hne
      constructor
      · rintro ⟨m, hm⟩
        refine ⟨⟨⟨_, rfl⟩, ?_⟩, hch.2, hch.1⟩
        by_contra hk
        have hall : ¬ (0 < channels (src.asPlanes dst.format.planes).format.pixel ∧ 0 < channels dst.format.pixel ∧
            (src.asPlanes dst.format.planes).format.channel.Known ∧ dst.format.channel.Known) := fun h => hk ⟨h.2.2.1, h.2.2.2⟩
        obtain ⟨e, he⟩ := convertAsIs_bad (dst := dst) (src := src.asPlanes dst.format.planes) (r := false) (sm := sm) (dm := dm) hs hd hall
        unfold convert channelSize at hm
        rw [hc] at hm
        simp only [bind, Except.bind] at hm
        split at hm
        · cases hm
        · rw [he] at hm; cases hm
      · rintro ⟨⟨_, k1, k2⟩, h1, h2⟩
        obtain ⟨F, _, h⟩ := convertAsIs_ok (dst := dst) (src := src.asPlanes dst.format.planes) (r := false) (sm := sm) (dm := dm)
          scal h2 k1 k2
        refine ⟨loops F dst (src.asPlanes dst.format.planes) sm dm, ?_⟩
        unfold convert channelSize
        rw [hc, if_pos (size_known k1)]
        exact h

/-- Images of an unknown pixel format pass `can_convert` and are refused by `convert`. -/
theorem can_convert_unknown :
    canConvert ⟨1, 1, 1, .unknown, .u8, true⟩ ⟨1, 1, 1, .unknown, .u8, true⟩ = .ok () ∧
    (convert (Buffer.packed ⟨1, 1, 1, .unknown, .u8, true⟩ 0) (Buffer.packed ⟨1, 1, 1, .unknown, .u8, true⟩ 0) false (fun _ => 0)
      (fun _ => 0)).toOption.isNone = true := by decide

/-! ### Concrete cases -/

/-- The hypotheses of `write_read` for writing 2 x 1 RGB pixels of a byte per channel into the middle of an image of 4 x 3, and reading
them into a third buffer. -/
example : let self := Buffer.packed ⟨4, 3, 1, .rgb, .u8, true⟩ 0
    let buf := Buffer.packed ⟨2, 1, 1, .rgb, .u8, true⟩ 0
    1 + 2 ≤ self.format.cols ∧ 1 + 1 ≤ self.format.rows ∧ buf.format = { self.format with cols := 2, rows := 1 } ∧
      0 < channels self.format.pixel ∧ self.format.channel.Known ∧ Separate self self.format.planes ∧ Separate buf buf.format.planes ∧
      (∀ p i j k, p < self.format.planes → i < 1 → j < 2 → k < channels self.format.pixel →
        Fits self.format.channel ((fun a => if a = 2 then 255 else 7 : Memory) (buf.addr p i j k))) := by
  refine ⟨by decide, by decide, rfl, by decide, (by show 8 ≤ 8; omega), packed_separate _ _ _, packed_separate _ _ _, ?_⟩
  intro p i j k _ _ _ _
  dsimp only
  split
  · exact ⟨255, by norm_num, by decide, by decide⟩
  · exact ⟨7, by norm_num, by decide, by decide⟩

/-- The hypotheses of `convert_core`: RGB bytes to gray floating point. -/
example : let src := Buffer.packed ⟨4, 3, 2, .rgb, .u8, true⟩ 0
    let dst := Buffer.packed ⟨4, 3, 2, .gray, .f32, true⟩ 0
    core dst.format.pixel = true ∧ core src.format.pixel = true ∧ dst.format.channel.Known ∧ src.format.channel.Known ∧
      Separate dst src.format.planes := ⟨by decide, by decide, trivial, (by show 8 ≤ 8; omega), packed_separate _ _ _⟩

/-- And what comes out: the mean of the three. -/
example : (convert (Buffer.packed ⟨2, 1, 1, .gray, .u8, true⟩ 0) (Buffer.packed ⟨2, 1, 1, .rgb, .u8, true⟩ 0) false
      (fun a => if a < 3 then 10 * a else 250) (fun _ => 9)).toOption.map (fun m => [m 0, m 1, m 2]) = some [10, 250, 9] := by
  decide +kernel

end VW.Convert

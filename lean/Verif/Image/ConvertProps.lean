import Verif.Image.Convert
import Mathlib.Tactic.IntervalCases

namespace VW.Convert

open VW.Float

/-! ### Specification -/

/-- The channels of an image format, as colours: what a channel of the destination becomes, before alpha is applied. Pixels with the
same number of channels are converted channel by channel; gray is repeated for every colour; colours are averaged to gray; alpha is
kept, or set to opaque if there is none. -/
def target (conv : ℚ → ℚ) (full : ℚ) (mean : List ℚ → ℚ) (sc dc : Nat) (s : Nat → ℚ) (k : Nat) : ℚ :=
  if sc = dc then conv (s k)
  else if dc % 2 = 0 ∧ k = dc - 1 then (if sc % 2 = 0 then conv (s (sc - 1)) else full)
  else if sc < 3 then conv (s 0)
  else if 3 ≤ dc then conv (s k)
  else mean [conv (s 0), conv (s 1), conv (s 2)]

/-- No channel of the image is stored at the address of another. -/
def Separate (b : Buffer) (planes : Nat) : Prop :=
  ∀ p r c k p' r' c' k', p < planes → r < b.format.rows → c < b.format.cols → k < channels b.format.pixel → p' < planes →
    r' < b.format.rows → c' < b.format.cols → k' < channels b.format.pixel →
    b.addr p r c k = b.addr p' r' c' k' → p = p' ∧ r = r' ∧ c = c' ∧ k = k'

/-! ### One pixel -/

theorem fold_set (n : Nat) (a : Int) (v : Nat → ℚ) (m : Memory) (i : Int) :
    (List.range n).foldl (fun m (ch : Nat) => Memory.set m (a + ch) (v ch)) m i =
      if a ≤ i ∧ i < a + n then v (i - a).toNat else m i := by
  induction n with
  | zero => simp
  | succ n ih =>
    rw [List.range_succ, List.foldl_append, List.foldl_cons, List.foldl_nil]
    unfold Memory.set
    by_cases h : i = a + n
    · rw [if_pos h, if_pos (by omega)]; congr 1; omega
    · rw [if_neg h]
      have : (fun m (ch : Nat) => Memory.set m (a + ch) (v ch)) = fun m (ch : Nat) => (fun i => if i = a + ch then v ch else m i) := rfl
      rw [← this, ih]
      by_cases h2 : a ≤ i ∧ i < a + n
      · rw [if_pos h2, if_pos (by omega)]
      · rw [if_neg h2, if_neg (by omega)]

theorem fold_scale (f : ℚ → ℚ → ℚ) (al : ℚ) (n : Nat) (a : Int) (m : Memory) (i : Int) :
    (List.range n).foldl (fun m (j : Nat) => Memory.set m (a + j) (f (m (a + j)) al)) m i =
      if a ≤ i ∧ i < a + n then f (m i) al else m i := by
  induction n generalizing i with
  | zero => simp
  | succ n ih =>
    rw [List.range_succ, List.foldl_append, List.foldl_cons, List.foldl_nil]
    generalize (List.range n).foldl (fun m (j : Nat) => Memory.set m (a + j) (f (m (a + j)) al)) m = M at ih ⊢
    unfold Memory.set
    by_cases h : i = a + n
    · rw [if_pos h, if_pos (by omega), ih, if_neg (by omega), h]
    · rw [if_neg h, ih]
      by_cases h2 : a ≤ i ∧ i < a + n
      · rw [if_pos h2, if_pos (by omega)]
      · rw [if_neg h2, if_neg (by omega)]

theorem scaleInPlace_eq (f : ℚ → ℚ → ℚ) (n : Nat) (hn : 0 < n) (a : Int) (m : Memory) (i : Int) :
    scaleInPlace f n a m i = if a ≤ i ∧ i < a + (n - 1 : Nat) then f (m i) (m (a + (n - 1 : Nat))) else m i := by
  unfold scaleInPlace
  rw [Memory.set, fold_scale]
  by_cases h : i = a + (n - 1 : Nat)
  · rw [if_pos h, if_neg (by omega), h]
  · rw [if_neg h]

/-- The source channels after alpha was taken out of or put into them. -/
def prepared (F : Funcs) (s d : Format) (sp : Nat → ℚ) : Nat → ℚ :=
  if unpremultiplySrc s d then scaled F.unpre (channels s.pixel) sp
  else if premultiplySrc s d then scaled F.preSrc (channels s.pixel) sp else sp

/-- A channel of the destination pixel. -/
def outChan (F : Funcs) (s d : Format) (sp : Nat → ℚ) (k : Nat) : ℚ :=
  let t := target F.conv F.max F.avg (channels s.pixel) (channels d.pixel) (prepared F s d sp)
  if premultiplyDst s d then scaled F.preDst (channels d.pixel) t k else t k

/-- Pairs of numbers of channels that occur. -/
def Pair (sc dc : Nat) : Prop := 0 < dc ∧ (sc = dc ∨ (0 < sc ∧ sc ≤ 4 ∧ dc ≤ 4))

theorem pixel_eq (F : Funcs) (s d : Format) (sp : Nat → ℚ) (a : Int) (m : Memory) (hp : Pair (channels s.pixel) (channels d.pixel))
    (i : Int) : pixel F s d sp a m i =
      if a ≤ i ∧ i < a + channels d.pixel then outChan F s d sp (i - a).toNat else m i := by
  have base : ∀ i : Int,
      (let m1 := (List.range (copyLength (channels s.pixel) (channels d.pixel))).foldl
          (fun m (ch : Nat) => Memory.set m (a + ch) (F.conv (prepared F s d sp ch))) m
        let m2 := if triplicate (channels s.pixel) (channels d.pixel) then
            (m1.set (a + 1) (F.conv (prepared F s d sp 0))).set (a + 2) (F.conv (prepared F s d sp 0))
          else if averaging (channels s.pixel) (channels d.pixel) then
            m1.set a (F.avg [F.conv (prepared F s d sp 0), F.conv (prepared F s d sp 1), F.conv (prepared F s d sp 2)]) else m1
        if copyAlpha (channels s.pixel) (channels d.pixel) then
          m2.set (a + (channels d.pixel - 1 : Nat)) (F.conv (prepared F s d sp (channels s.pixel - 1)))
        else if addAlpha (channels s.pixel) (channels d.pixel) then m2.set (a + (channels d.pixel - 1 : Nat)) F.max else m2) i =
      if a ≤ i ∧ i < a + channels d.pixel then
        target F.conv F.max F.avg (channels s.pixel) (channels d.pixel) (prepared F s d sp) (i - a).toNat
      else m i := by
    intro i
    generalize channels s.pixel = sc at *
    generalize channels d.pixel = dc at *
    generalize prepared F s d sp = v
    obtain ⟨hd, rfl | ⟨h1, h2, h3⟩⟩ := hp
    · have e1 : copyLength sc sc = sc := by simp [copyLength]
      have e2 : triplicate sc sc = false := by simp [triplicate]
      have e3 : averaging sc sc = false := by simp [averaging]
      have e4 : copyAlpha sc sc = false := by simp [copyAlpha]
      have e5 : addAlpha sc sc = false := by simp [addAlpha]
      simp only [e1, e2, e3, e4, e5, Bool.false_eq_true, if_false]
      rw [fold_set]
      simp [target]
    · by_cases hin : a ≤ i ∧ i < a + dc
      · obtain ⟨k, rfl⟩ : ∃ k : Nat, i = a + k := ⟨(i - a).toNat, by omega⟩
        have hk : k < dc := by omega
        rw [if_pos hin, show (a + (k : Int) - a).toNat = k by omega]
        interval_cases sc <;> interval_cases dc <;> interval_cases k <;>
          simp [copyLength, triplicate, averaging, copyAlpha, addAlpha, target, Memory.set, List.range_succ]
      · rw [if_neg hin]
        have hne : ∀ k : Nat, k < dc → i ≠ a + k := fun k hk h => hin (by omega)
        have n0 := hne 0
        have n1 := hne 1
        have n2 := hne 2
        have n3 := hne 3
        interval_cases sc <;> interval_cases dc <;>
          simp [copyLength, triplicate, averaging, copyAlpha, addAlpha, Memory.set, List.range_succ] <;> simp_all
  unfold pixel
  dsimp only at base ⊢
  rw [show (if unpremultiplySrc s d = true then scaled F.unpre (channels s.pixel) sp
    else if premultiplySrc s d = true then scaled F.preSrc (channels s.pixel) sp else sp) = prepared F s d sp from rfl]
  unfold outChan
  dsimp only
  by_cases hq : premultiplyDst s d = true
  · rw [if_pos hq, if_pos hq, scaleInPlace_eq _ _ hp.1, base, base]
    have hd := hp.1
    unfold scaled
    by_cases hin : a ≤ i ∧ i < a + channels d.pixel
    · rw [if_pos hin, if_pos hin, if_pos (show a ≤ a + ((channels d.pixel - 1 : Nat) : Int) ∧ _ by omega)]
      rw [show (a + ((channels d.pixel - 1 : Nat) : Int) - a).toNat = channels d.pixel - 1 by omega]
      by_cases h2 : a ≤ i ∧ i < a + ((channels d.pixel - 1 : Nat) : Int)
      · rw [if_pos h2, if_pos (by omega)]
      · rw [if_neg h2, if_neg (by omega)]
    · rw [if_neg hin, if_neg hin, if_neg (by omega)]
  · rw [if_neg hq, base]
    by_cases hin : a ≤ i ∧ i < a + channels d.pixel
    · rw [if_pos hin, if_pos hin, if_neg hq]
    · rw [if_neg hin, if_neg hin]

/-! ### All pixels -/

theorem fold_regions {α : Type} (step : α → Memory → Memory) (reg : α → Int → Prop) (val : α → Int → ℚ) (L : List α)
    (h1 : ∀ x ∈ L, ∀ m i, reg x i → step x m i = val x i) (h2 : ∀ x ∈ L, ∀ m i, ¬ reg x i → step x m i = m i)
    (h3 : ∀ x ∈ L, ∀ y ∈ L, ∀ i, reg x i → reg y i → x = y) (m : Memory) (i : Int) :
    (∀ x ∈ L, reg x i → L.foldl (fun m x => step x m) m i = val x i) ∧
    ((∀ x ∈ L, ¬ reg x i) → L.foldl (fun m x => step x m) m i = m i) := by
  induction L generalizing m with
  | nil => simp
  | cons y L ih =>
    have ih := ih (fun x hx => h1 x (by simp [hx])) (fun x hx => h2 x (by simp [hx]))
      (fun x hx y hy => h3 x (by simp [hx]) y (by simp [hy]))
    rw [List.foldl_cons]
    refine ⟨?_, fun h => ?_⟩
    · intro x hx hr
      by_cases hL : ∃ z ∈ L, reg z i
      · obtain ⟨z, hz, hzr⟩ := hL
        have : x = z := h3 x hx z (by simp [hz]) i hr hzr
        rw [this]; exact (ih _).1 z hz hzr
      · have hno : ∀ z ∈ L, ¬ reg z i := fun z hz hzr => hL ⟨z, hz, hzr⟩
        rw [(ih _).2 hno]
        rcases List.mem_cons.mp hx with rfl | hx
        · exact h1 x (by simp) m i hr
        · exact absurd hr (hno x hx)
    · rw [(ih _).2 fun x hx => h x (by simp [hx])]
      exact h2 y (by simp) m i (h y (by simp))

/-- The pixels in the order of the loops. -/
def triples (P R C : Nat) : List (Nat × Nat × Nat) :=
  (List.range P).flatMap fun p => (List.range R).flatMap fun r => (List.range C).map fun c => (p, r, c)

theorem mem_triples {P R C p r c : Nat} : (p, r, c) ∈ triples P R C ↔ p < P ∧ r < R ∧ c < C := by
  simp [triples, List.mem_flatMap]

theorem loops_eq (F : Funcs) (dst src : Buffer) (sm dm : Memory) : loops F dst src sm dm =
    (triples src.format.planes src.format.rows src.format.cols).foldl (fun m x =>
      pixel F src.format dst.format (fun ch => sm (src.addr x.1 x.2.1 x.2.2 ch)) (dst.addr x.1 x.2.1 x.2.2 0) m) dm := by
  unfold loops triples
  simp only [List.foldl_flatMap, List.foldl_map]

/-- What the loops do, for destinations whose channels do not overlap. -/
theorem loops_spec (F : Funcs) (dst src : Buffer) (sm dm : Memory) (hsz : dst.format.rows = src.format.rows ∧ dst.format.cols = src.format.cols)
    (hp : Pair (channels src.format.pixel) (channels dst.format.pixel)) (hs : Separate dst src.format.planes) :
    (∀ p r c k, p < src.format.planes → r < dst.format.rows → c < dst.format.cols → k < channels dst.format.pixel →
      loops F dst src sm dm (dst.addr p r c k) = outChan F src.format dst.format (fun ch => sm (src.addr p r c ch)) k) ∧
    (∀ i, (∀ p r c k, p < src.format.planes → r < dst.format.rows → c < dst.format.cols → k < channels dst.format.pixel →
      i ≠ dst.addr p r c k) → loops F dst src sm dm i = dm i) := by
  rw [loops_eq]
  have addr0 : ∀ p r c k : Nat, dst.addr p r c k = dst.addr p r c 0 + k := by intros; unfold Buffer.addr; omega
  have key := fold_regions
    (fun (x : Nat × Nat × Nat) m => pixel F src.format dst.format (fun ch => sm (src.addr x.1 x.2.1 x.2.2 ch)) (dst.addr x.1 x.2.1 x.2.2 0) m)
    (fun x i => dst.addr x.1 x.2.1 x.2.2 0 ≤ i ∧ i < dst.addr x.1 x.2.1 x.2.2 0 + channels dst.format.pixel)
    (fun x i => outChan F src.format dst.format (fun ch => sm (src.addr x.1 x.2.1 x.2.2 ch)) (i - dst.addr x.1 x.2.1 x.2.2 0).toNat)
    (triples src.format.planes src.format.rows src.format.cols)
    (fun x _ m i h => by rw [pixel_eq _ _ _ _ _ _ hp, if_pos h])
    (fun x _ m i h => by rw [pixel_eq _ _ _ _ _ _ hp, if_neg h])
    (by
      rintro ⟨p, r, c⟩ hx ⟨p', r', c'⟩ hy i ⟨a1, a2⟩ ⟨b1, b2⟩
      rw [mem_triples] at hx hy
      dsimp only at a1 a2 b1 b2
      have := hs p r c (i - dst.addr p r c 0).toNat p' r' c' (i - dst.addr p' r' c' 0).toNat hx.1 (hsz.1 ▸ hx.2.1) (hsz.2 ▸ hx.2.2)
        (by omega) hy.1 (hsz.1 ▸ hy.2.1) (hsz.2 ▸ hy.2.2) (by omega) (by rw [addr0, addr0 p' r' c']; omega)
      rw [this.1, this.2.1, this.2.2.1])
    dm
  refine ⟨fun p r c k h1 h2 h3 h4 => ?_, fun i h => ?_⟩
  · have := (key (dst.addr p r c k)).1 (p, r, c) (mem_triples.mpr ⟨h1, hsz.1 ▸ h2, hsz.2 ▸ h3⟩) (by dsimp only; rw [addr0 p r c k]; omega)
    rw [this]
    dsimp only
    congr 1
    rw [addr0 p r c k]; omega
  · refine (key i).2 ?_
    rintro ⟨p, r, c⟩ hx ⟨a1, a2⟩
    rw [mem_triples] at hx
    dsimp only at a1 a2
    exact h p r c (i - dst.addr p r c 0).toNat hx.1 (hsz.1 ▸ hx.2.1) (hsz.2 ▸ hx.2.2) (by omega) (by rw [addr0]; omega)

/-! ### Acceptance -/

/-- The channel types of the library: integers have 8 bits or more. -/
def CT.Wf : CT → Prop
  | .int _ b => 8 ≤ b
  | _ => True

/-- A channel type with conversion functions. -/
def CT.Known : CT → Prop
  | .int _ b => 8 ≤ b
  | .f32 => True
  | .f64 => True
  | .other _ => False

theorem size_known {t : CT} (h : t.Known) : 0 < size t := by
  cases t with
  | int s b => simp only [CT.Known] at h; simp only [size]; omega
  | f32 => decide
  | f64 => decide
  | other n => cases h

theorem funcs_known (r : Bool) {s d : CT} (hs : s.Known) (hd : d.Known) :
    ∃ F, funcs r s d = .ok F ∧ convFunc r s d = some F.conv ∧ setMax d = some F.max ∧ average d = some F.avg ∧
      unpremul s = some F.unpre ∧ premul s = some F.preSrc ∧ premul d = some F.preDst := by
  have hc : ∃ c, convFunc r s d = some c := by
    cases s <;> cases d <;> first | exact (hs.elim) | exact (hd.elim) | skip
    all_goals simp only [convFunc]
    all_goals first
      | exact ⟨_, rfl⟩
      | (split <;> first | exact ⟨_, rfl⟩ | (split <;> exact ⟨_, rfl⟩))
  obtain ⟨c, hc⟩ := hc
  have h1 : ∃ m, setMax d = some m := by cases d <;> first | exact hd.elim | exact ⟨_, rfl⟩
  have h2 : ∃ m, average d = some m := by cases d <;> first | exact hd.elim | exact ⟨_, rfl⟩
  have h3 : ∃ m, unpremul s = some m := by cases s <;> first | exact hs.elim | exact ⟨_, rfl⟩
  have h4 : ∃ m, premul s = some m := by cases s <;> first | exact hs.elim | exact ⟨_, rfl⟩
  have h5 : ∃ m, premul d = some m := by cases d <;> first | exact hd.elim | exact ⟨_, rfl⟩
  obtain ⟨m, h1⟩ := h1
  obtain ⟨a, h2⟩ := h2
  obtain ⟨u, h3⟩ := h3
  obtain ⟨p, h4⟩ := h4
  obtain ⟨q, h5⟩ := h5
  refine ⟨⟨c, m, a, u, p, q⟩, ?_, hc, h1, h2, h3, h4, h5⟩
  unfold funcs
  rw [hc, h1, h2, h3, h4, h5]

theorem convFunc_unknown (r : Bool) {s d : CT} (hs : s.Wf) (hd : d.Wf) (h : ¬ (s.Known ∧ d.Known)) : convFunc r s d = none := by
  cases s <;> cases d <;> first | rfl | exact absurd ⟨hs, hd⟩ h

theorem funcs_unknown (r : Bool) {s d : CT} (hs : s.Wf) (hd : d.Wf) (h : ¬ (s.Known ∧ d.Known)) : funcs r s d = .error .noImpl := by
  unfold funcs
  rw [convFunc_unknown r hs hd h]

theorem convertAsIs_ok {dst src : Buffer} {r : Bool} {sm dm : Memory} (h1 : 0 < channels src.format.pixel)
    (h2 : 0 < channels dst.format.pixel) (h3 : src.format.channel.Known) (h4 : dst.format.channel.Known) :
    ∃ F, funcs r src.format.channel dst.format.channel = .ok F ∧ convertAsIs dst src r sm dm = .ok (loops F dst src sm dm) := by
  obtain ⟨F, hF, _⟩ := funcs_known r h3 h4
  refine ⟨F, hF, ?_⟩
  unfold convertAsIs numChannels channelSize
  rw [if_pos h1, if_pos h2, if_pos (size_known h3), if_pos (size_known h4), hF]
  rfl

theorem convertAsIs_bad {dst src : Buffer} {r : Bool} {sm dm : Memory} (hw : src.format.channel.Wf) (hw' : dst.format.channel.Wf)
    (h : ¬ (0 < channels src.format.pixel ∧ 0 < channels dst.format.pixel ∧ src.format.channel.Known ∧ dst.format.channel.Known)) :
    ∃ e, convertAsIs dst src r sm dm = .error e := by
  unfold convertAsIs numChannels channelSize
  by_cases h1 : 0 < channels src.format.pixel
  swap
  · rw [if_neg h1]; exact ⟨_, rfl⟩
  rw [if_pos h1]
  by_cases h2 : 0 < channels dst.format.pixel
  swap
  · rw [if_neg h2]; exact ⟨_, rfl⟩
  rw [if_pos h2]
  by_cases h3 : size src.format.channel > 0
  swap
  · rw [if_neg h3]; exact ⟨_, rfl⟩
  rw [if_pos h3]
  by_cases h4 : size dst.format.channel > 0
  swap
  · rw [if_neg h4]; exact ⟨_, rfl⟩
  rw [if_pos h4, funcs_unknown r hw hw' fun hk => h ⟨h1, h2, hk⟩]
  exact ⟨_, rfl⟩

/-- The pixel formats accepted as they are. -/
theorem asIs_pair {d s : Format} (h : checkFormats d s = .ok .asIs) (hd : 0 < channels d.pixel) :
    Pair (channels s.pixel) (channels d.pixel) ∧ d.rows = s.rows ∧ d.cols = s.cols := by
  unfold checkFormats at h
  by_cases hsz : d.cols = s.cols ∧ d.rows = s.rows
  swap
  · rw [if_pos hsz] at h; cases h
  rw [if_neg (not_not.mpr hsz)] at h
  refine ⟨⟨hd, ?_⟩, hsz.2, hsz.1⟩
  by_cases he : d.pixel = s.pixel
  · rw [he]; exact .inl rfl
  rw [if_neg he] at h
  have key : (if generic s.pixel d.pixel = true then Except.ok View.asIs
      else if (!core s.pixel || !core d.pixel) = true then Except.error Err.argument else Except.ok View.asIs) = .ok .asIs →
      channels s.pixel = channels d.pixel ∨ (0 < channels s.pixel ∧ channels s.pixel ≤ 4 ∧ channels d.pixel ≤ 4) := by
    intro h
    by_cases hg : generic s.pixel d.pixel = true
    · left
      unfold generic at hg
      simp only [List.mem_cons, List.not_mem_nil, or_false, decide_eq_true_eq, Prod.mk.injEq] at hg
      rcases hg with hg | hg | hg | hg | hg | hg | hg | hg | hg | hg | hg | hg | hg | hg | hg | hg <;> (rw [hg.1, hg.2]; rfl)
    · rw [if_neg hg] at h
      by_cases hc : (!core s.pixel || !core d.pixel) = true
      · rw [if_pos hc] at h; cases h
      · right
        have hc' : core s.pixel = true ∧ core d.pixel = true := by
          simpa [not_or] using hc
        unfold core at hc'
        simp only [List.mem_cons, List.not_mem_nil, or_false, decide_eq_true_eq] at hc'
        have h4 : ∀ f : PF, (f = .gray ∨ f = .graya ∨ f = .rgb ∨ f = .rgba ∨ f = .xyz) → 0 < channels f ∧ channels f ≤ 4 := by
          rintro f (rfl | rfl | rfl | rfl | rfl) <;> decide
        exact ⟨(h4 _ hc'.1).1, (h4 _ hc'.1).2, (h4 _ hc'.2).2⟩
  apply key
  by_cases a1 : s.pixel = .scalar ∧ d.planes = 1
  · rw [if_pos a1] at h
    unfold numChannels at h
    rw [if_pos hd] at h
    by_cases e1 : s.planes = channels d.pixel
    · simp [bind, Except.bind, pure, Except.pure, e1] at h
    · have a2 : ¬ (d.pixel = .scalar ∧ s.planes = 1) := fun a2 => he (a2.1.trans a1.1.symm)
      simp only [bind, Except.bind, pure, Except.pure, e1, decide_false, Bool.false_eq_true, if_false, if_neg a2] at h
      exact h
  · rw [if_neg a1] at h
    by_cases a2 : d.pixel = .scalar ∧ s.planes = 1
    · rw [if_pos a2] at h
      unfold numChannels at h
      by_cases hs : 0 < channels s.pixel
      · rw [if_pos hs] at h
        by_cases e1 : d.planes = channels s.pixel
        · simp [bind, Except.bind, pure, Except.pure, e1] at h
        · simp only [bind, Except.bind, pure, Except.pure, e1, decide_false, Bool.false_eq_true, if_false] at h
          exact h
      · rw [if_neg hs] at h
        simp [bind, Except.bind, pure, Except.pure] at h
    · rw [if_neg a2] at h
      simp only [bind, Except.bind, pure, Except.pure, Bool.false_eq_true, if_false] at h
      exact h

/-- What it takes to be seen as planes. -/
theorem dstPlanes_iff {d s : Format} (hd : 0 < channels d.pixel) : checkFormats d s = .ok .dstPlanes ↔
    (d.cols = s.cols ∧ d.rows = s.rows) ∧ s.pixel = .scalar ∧ d.pixel ≠ .scalar ∧ d.planes = 1 ∧ s.planes = channels d.pixel := by
  unfold checkFormats
  by_cases hsz : d.cols = s.cols ∧ d.rows = s.rows
  swap
  · rw [if_pos hsz]; constructor
    · intro h; cases h
    · intro h; exact absurd h.1 hsz
  rw [if_neg (not_not.mpr hsz)]
  by_cases he : d.pixel = s.pixel
  · rw [if_pos he]; constructor
    · intro h; cases h
    · rintro ⟨_, h1, h2, _⟩; exact absurd (he.trans h1) h2
  rw [if_neg he]
  by_cases a1 : s.pixel = .scalar ∧ d.planes = 1
  · rw [if_pos a1]
    unfold numChannels
    rw [if_pos hd]
    by_cases e1 : s.planes = channels d.pixel
    · simp only [bind, Except.bind, pure, Except.pure, e1, decide_true, if_true]
      exact ⟨fun _ => ⟨hsz, a1.1, fun h => he (h.trans a1.1.symm), a1.2, trivial⟩, fun _ => trivial⟩
    · constructor
      · intro h
        simp only [bind, Except.bind, pure, Except.pure, e1, decide_false, Bool.false_eq_true, if_false] at h
        exact absurd h (by (repeat' split) <;> simp)
      · rintro ⟨_, _, _, _, h⟩; exact absurd h e1
  · rw [if_neg a1]
    constructor
    · intro h
      simp only [bind, Except.bind, pure, Except.pure, Bool.false_eq_true, if_false] at h
      exact absurd h (by (repeat' split) <;> simp)
    · rintro ⟨_, h1, _, h2, _⟩; exact absurd ⟨h1, h2⟩ a1

theorem srcPlanes_of {d s : Format} (hsz : d.cols = s.cols ∧ d.rows = s.rows) (hd : d.pixel = .scalar) (hs : s.pixel ≠ .scalar)
    (hs0 : 0 < channels s.pixel) (h1 : s.planes = 1) (h2 : d.planes = channels s.pixel) : checkFormats d s = .ok .srcPlanes := by
  unfold checkFormats
  rw [if_neg (not_not.mpr hsz), if_neg (fun h => hs (h.symm.trans hd)), if_neg (fun h => hs h.1), if_pos ⟨hd, h1⟩]
  unfold numChannels
  rw [if_pos hs0]
  simp [bind, Except.bind, pure, Except.pure, h2]

theorem asIs_same {d s : Format} (hsz : d.cols = s.cols ∧ d.rows = s.rows) (h : d.pixel = s.pixel) : checkFormats d s = .ok .asIs := by
  unfold checkFormats
  rw [if_neg (not_not.mpr hsz), if_pos h]

theorem asIs_core {d s : Format} (hsz : d.cols = s.cols ∧ d.rows = s.rows) (hd : core d.pixel = true) (hs : core s.pixel = true) :
    checkFormats d s = .ok .asIs := by
  have ns : ∀ f, core f = true → f ≠ .scalar := by rintro f hf rfl; revert hf; decide
  unfold checkFormats
  rw [if_neg (not_not.mpr hsz)]
  by_cases he : d.pixel = s.pixel
  · rw [if_pos he]
  rw [if_neg he, if_neg (fun h => ns _ hs h.1), if_neg (fun h => ns _ hd h.1)]
  simp only [bind, Except.bind, pure, Except.pure, Bool.false_eq_true, if_false, hd, hs, Bool.not_true, Bool.or_self]
  split <;> rfl

theorem convert_asIs {dst src : Buffer} (r : Bool) (sm dm : Memory) (h : checkFormats dst.format src.format = .ok .asIs) :
    convert dst src r sm dm = convertAsIs dst src r sm dm := by
  unfold convert; rw [h]; rfl

/-- **C61**: conversion of accepted formats. Every channel of every pixel of the destination gets its value from the source pixel at
the same place, and nothing else in memory is changed. -/
theorem convert_spec {dst src : Buffer} (r : Bool) (sm dm : Memory) (h : checkFormats dst.format src.format = .ok .asIs)
    (hd : 0 < channels dst.format.pixel) (hs : 0 < channels src.format.pixel) (kd : dst.format.channel.Known) (ks : src.format.channel.Known)
    (hsep : Separate dst src.format.planes) :
    ∃ F m, funcs r src.format.channel dst.format.channel = .ok F ∧ convert dst src r sm dm = .ok m ∧
      (∀ p i j k, p < src.format.planes → i < dst.format.rows → j < dst.format.cols → k < channels dst.format.pixel →
        m (dst.addr p i j k) = outChan F src.format dst.format (fun ch => sm (src.addr p i j ch)) k) ∧
      (∀ a, (∀ p i j k, p < src.format.planes → i < dst.format.rows → j < dst.format.cols → k < channels dst.format.pixel →
        a ≠ dst.addr p i j k) → m a = dm a) := by
  obtain ⟨F, hF, hc⟩ := convertAsIs_ok (r := r) (sm := sm) (dm := dm) hs hd ks kd
  obtain ⟨hp, hsz⟩ := asIs_pair h hd
  obtain ⟨l1, l2⟩ := loops_spec F dst src sm dm hsz hp hsep
  exact ⟨F, _, hF, (convert_asIs r sm dm h).trans hc, l1, l2⟩

end VW.Convert

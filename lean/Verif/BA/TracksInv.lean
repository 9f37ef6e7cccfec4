import Mathlib.Logic.Relation
import Verif.BA.Tracks

/-
The invariant of `buildTracks`.
-/

namespace Verif.BA

/-- A feature: image and number in the image. -/
abbrev Feat := Nat × Nat

/-- Outer and inner keys ascending. -/
def Ok2 (m : AMap Nat (AMap Nat Nat)) : Prop := AMap.Ok m ∧ ∀ a n, m.find a = some n → AMap.Ok n

theorem Ok2.getD {m : AMap Nat (AMap Nat Nat)} (hm : Ok2 m) (a : Nat) : AMap.Ok ((m.find a).getD []) := by
  cases h : m.find a with
  | none => exact AMap.ok_nil
  | some n => exact hm.2 a n h

theorem find2_eq (m : AMap Nat (AMap Nat Nat)) (a b : Nat) : find2 m a b = AMap.find ((m.find a).getD []) b := by
  unfold find2
  cases m.find a <;> rfl

theorem Ok2.set2 {m : AMap Nat (AMap Nat Nat)} (hm : Ok2 m) (a b v : Nat) : Ok2 (set2 m a b v) := by
  refine ⟨hm.1.set _ _, ?_⟩
  intro a' n hn
  unfold Verif.BA.set2 at hn
  rw [AMap.find_set hm.1] at hn
  split_ifs at hn with h
  · cases hn
    exact (hm.getD a).set _ _
  · exact hm.2 a' n hn

theorem find2_set2 {m : AMap Nat (AMap Nat Nat)} (hm : Ok2 m) (a b v a' b' : Nat) :
    find2 (set2 m a b v) a' b' = if a = a' ∧ b = b' then some v else find2 m a' b' := by
  rw [find2_eq, find2_eq]
  unfold set2
  rw [AMap.find_set hm.1]
  by_cases h : a = a'
  · subst h
    rw [if_pos rfl, Option.getD_some, AMap.find_set (hm.getD a)]
    by_cases h2 : b = b'
    · simp [h2]
    · simp [h2]
  · rw [if_neg h, if_neg (fun hc => h hc.1)]

/-- The number of entries of an inner map. -/
def inner (m : AMap Nat (AMap Nat Nat)) (a : Nat) : Nat := ((m.find a).getD []).length

theorem inner_set2 {m : AMap Nat (AMap Nat Nat)} (hm : Ok2 m) (a b v a' : Nat) :
    inner (set2 m a b v) a' =
      if a = a' ∧ find2 m a b = none then inner m a' + 1 else inner m a' := by
  unfold inner
  have : (set2 m a b v).find a' = if a = a' then some (((m.find a).getD []).set b v) else m.find a' :=
    AMap.find_set hm.1 _ _ _
  rw [this, find2_eq]
  by_cases h : a = a'
  · subst h
    rw [if_pos rfl, Option.getD_some, AMap.length_set (hm.getD a)]
    by_cases h2 : AMap.find ((m.find a).getD []) b = none
    · rw [if_pos h2, if_pos ⟨rfl, h2⟩]
    · rw [if_neg h2, if_neg (fun hc => h2 hc.2)]
  · rw [if_neg h, if_neg (fun hc => h hc.1)]

theorem length_set2 {m : AMap Nat (AMap Nat Nat)} (hm : Ok2 m) (a b v : Nat) :
    (set2 m a b v).length = if m.find a = none then m.length + 1 else m.length :=
  AMap.length_set hm.1 _ _

theorem isSome_set2 {m : AMap Nat (AMap Nat Nat)} (hm : Ok2 m) (a b v a' : Nat) :
    ((set2 m a b v).find a' = none) ↔ a ≠ a' ∧ m.find a' = none := by
  have : (set2 m a b v).find a' = if a = a' then some (((m.find a).getD []).set b v) else m.find a' :=
    AMap.find_set hm.1 _ _ _
  rw [this]
  by_cases h : a = a' <;> simp [h]

/-- One match of two features, as `trackOne`. -/
def stepMatch (st : Tracks) (e : Feat × Feat) : Tracks := trackOne e.1.1 e.2.1 st (e.1.2, e.2.2)

/-- The matches of a map in the order in which they are read. -/
def flat (mvg : AMap Pair (List (Nat × Nat))) : List (Feat × Feat) :=
  mvg.flatMap (fun e => e.2.map (fun m => (((ofLex e.1).1, m.1), ((ofLex e.1).2, m.2))))

theorem buildTracks_eq (mvg : AMap Pair (List (Nat × Nat))) : buildTracks mvg = (flat mvg).foldl stepMatch ⟨[], []⟩ := by
  unfold buildTracks flat
  generalize (⟨[], []⟩ : Tracks) = st
  induction mvg generalizing st with
  | nil => rfl
  | cons e m ih =>
    rw [List.foldl_cons, List.flatMap_cons, List.foldl_append, ih, List.foldl_map]
    rfl

/-- Matched with each other. -/
def Linked (ms : List (Feat × Feat)) (u v : Feat) : Prop := (u, v) ∈ ms

/-- Occurs in a match. -/
def Occurs (ms : List (Feat × Feat)) (u : Feat) : Prop := ∃ v, (u, v) ∈ ms ∨ (v, u) ∈ ms

structure TInv (ms : List (Feat × Feat)) (st : Tracks) : Prop where
  okp : Ok2 st.pcf
  okc : Ok2 st.cfp
  dom : ∀ p, st.pcf.find p = none ↔ st.pcf.length ≤ p
  lt : ∀ c f p, find2 st.cfp c f = some p → p < st.pcf.length
  occ : ∀ c f, (∃ p, find2 st.cfp c f = some p) ↔ Occurs ms (c, f)
  back : ∀ p c f, find2 st.pcf p c = some f → find2 st.cfp c f = some p
  kept : ∀ c f p, find2 st.cfp c f = some p → ∃ f', find2 st.pcf p c = some f'
  conn : ∀ c f c' f' p, find2 st.cfp c f = some p → find2 st.cfp c' f' = some p →
    Relation.EqvGen (Linked ms) (c, f) (c', f')
  two : ∀ p, p < st.pcf.length → 2 ≤ inner st.pcf p

theorem tinv_empty : TInv [] ⟨[], []⟩ := by
  have ok : Ok2 ([] : AMap Nat (AMap Nat Nat)) := ⟨AMap.ok_nil, fun a n h => by cases h⟩
  refine ⟨ok, ok, fun p => by simp [AMap.find], ?_, ?_, ?_, ?_, ?_, ?_⟩
  · intro c f p h; cases h
  · intro c f
    constructor
    · rintro ⟨p, h⟩; cases h
    · rintro ⟨v, h | h⟩ <;> cases h
  · intro p c f h; cases h
  · intro c f p h; cases h
  · intro c f c' f' p h; cases h
  · intro p h; cases h

theorem Linked.mono {ms ms' : List (Feat × Feat)} (h : ∀ e ∈ ms, e ∈ ms') {u v : Feat}
    (he : Relation.EqvGen (Linked ms) u v) : Relation.EqvGen (Linked ms') u v :=
  he.mono (fun _ _ hab => h _ hab)

theorem occurs_snoc {ms : List (Feat × Feat)} {u v w : Feat} :
    Occurs (ms ++ [(u, v)]) w ↔ Occurs ms w ∨ w = u ∨ w = v := by
  unfold Occurs
  constructor
  · rintro ⟨x, h | h⟩
    · rcases List.mem_append.1 h with h | h
      · exact Or.inl ⟨x, Or.inl h⟩
      · have := List.mem_singleton.1 h
        exact Or.inr (Or.inl (congrArg Prod.fst this))
    · rcases List.mem_append.1 h with h | h
      · exact Or.inl ⟨x, Or.inr h⟩
      · have := List.mem_singleton.1 h
        exact Or.inr (Or.inr (congrArg Prod.snd this))
  · rintro (⟨x, h | h⟩ | rfl | rfl)
    · exact ⟨x, Or.inl (by simp [h])⟩
    · exact ⟨x, Or.inr (by simp [h])⟩
    · exact ⟨v, Or.inl (by simp)⟩
    · exact ⟨u, Or.inr (by simp)⟩

/-- A feature joins the track of another. -/
theorem TInv.join {ms : List (Feat × Feat)} {st : Tracks} (hi : TInv ms st) {u v : Feat} {p : Nat}
    (hu : find2 st.cfp u.1 u.2 = some p) (hv : find2 st.cfp v.1 v.2 = none) {e : Feat × Feat}
    (he : e = (u, v) ∨ e = (v, u)) :
    TInv (ms ++ [e]) ⟨set2 st.pcf p v.1 v.2, set2 st.cfp v.1 v.2 p⟩ := by
  have hlt := hi.lt _ _ _ hu
  have hpn : st.pcf.find p ≠ none := fun h => absurd ((hi.dom p).1 h) (by omega)
  have hlen : (set2 st.pcf p v.1 v.2).length = st.pcf.length := by
    rw [length_set2 hi.okp, if_neg hpn]
  have hF : ∀ c f, find2 (set2 st.cfp v.1 v.2 p) c f = if v = (c, f) then some p else find2 st.cfp c f := by
    intro c f
    rw [find2_set2 hi.okc]
    by_cases h : v = (c, f)
    · rw [if_pos h, if_pos]; subst h; exact ⟨rfl, rfl⟩
    · rw [if_neg h, if_neg]; intro hc; exact h (Prod.ext hc.1 hc.2)
  have hmono : ∀ x ∈ ms, x ∈ ms ++ [e] := fun x hx => by simp [hx]
  have hlink : Relation.EqvGen (Linked (ms ++ [e])) u v := by
    rcases he with rfl | rfl
    · exact Relation.EqvGen.rel _ _ (by unfold Linked; simp)
    · exact Relation.EqvGen.symm _ _ (Relation.EqvGen.rel _ _ (by unfold Linked; simp))
  have hocc : ∀ w, Occurs (ms ++ [e]) w ↔ Occurs ms w ∨ w = v := by
    intro w
    have hou : Occurs ms u := (hi.occ u.1 u.2).1 ⟨p, hu⟩
    rcases he with rfl | rfl
    · rw [occurs_snoc]
      constructor
      · rintro (h | rfl | h)
        · exact Or.inl h
        · exact Or.inl hou
        · exact Or.inr h
      · rintro (h | h)
        · exact Or.inl h
        · exact Or.inr (Or.inr h)
    · rw [occurs_snoc]
      constructor
      · rintro (h | h | rfl)
        · exact Or.inl h
        · exact Or.inr h
        · exact Or.inl hou
      · rintro (h | h)
        · exact Or.inl h
        · exact Or.inr (Or.inl h)
  have hconn : ∀ c f, find2 st.cfp c f = some p → Relation.EqvGen (Linked (ms ++ [e])) (c, f) v :=
    fun c f h => Relation.EqvGen.trans _ _ _ (Linked.mono hmono (hi.conn _ _ _ _ p h hu)) hlink
  refine ⟨hi.okp.set2 _ _ _, hi.okc.set2 _ _ _, ?_, ?_, ?_, ?_, ?_, ?_, ?_⟩
  · intro q
    show (set2 st.pcf p v.1 v.2).find q = none ↔ (set2 st.pcf p v.1 v.2).length ≤ q
    rw [isSome_set2 hi.okp, hi.dom, hlen]
    constructor
    · exact fun h => h.2
    · intro h; exact ⟨by omega, h⟩
  · intro c f q
    show find2 (set2 st.cfp v.1 v.2 p) c f = some q → q < (set2 st.pcf p v.1 v.2).length
    rw [hF, hlen]
    split_ifs
    · intro h; cases h; exact hlt
    · exact hi.lt c f q
  · intro c f
    show (∃ q, find2 (set2 st.cfp v.1 v.2 p) c f = some q) ↔ _
    rw [hF, hocc]
    split_ifs with h
    · rw [← h]; simp
    · rw [hi.occ]
      constructor
      · exact Or.inl
      · rintro (h' | h')
        · exact h'
        · exact absurd h'.symm h
  · intro q c f
    show find2 (set2 st.pcf p v.1 v.2) q c = some f → find2 (set2 st.cfp v.1 v.2 p) c f = some q
    rw [find2_set2 hi.okp, hF]
    split_ifs with h1 h2 h2
    · intro _; rw [h1.1]
    · intro h
      exfalso
      have h3 := Option.some.inj h
      exact h2 (Prod.ext h1.2 h3)
    · intro h
      exfalso
      have := hi.back q c f h
      rw [h2] at hv
      rw [hv] at this
      cases this
    · exact hi.back q c f
  · intro c f q
    show find2 (set2 st.cfp v.1 v.2 p) c f = some q → ∃ f', find2 (set2 st.pcf p v.1 v.2) q c = some f'
    rw [hF]
    intro h
    rw [find2_set2 hi.okp]
    split_ifs at h with h1
    · cases h
      rw [h1, if_pos ⟨rfl, rfl⟩]
      exact ⟨_, rfl⟩
    · split_ifs
      · exact ⟨_, rfl⟩
      · exact hi.kept c f q h
  · intro c f c' f' q
    show find2 (set2 st.cfp v.1 v.2 p) c f = some q → find2 (set2 st.cfp v.1 v.2 p) c' f' = some q → _
    rw [hF, hF]
    split_ifs with h1 h2 h2
    · intro _ _; rw [← h1, ← h2]; exact Relation.EqvGen.refl _
    · intro h3 h4; cases h3; rw [← h1]; exact Relation.EqvGen.symm _ _ (hconn c' f' h4)
    · intro h3 h4; cases h4; rw [← h2]; exact hconn c f h3
    · intro h3 h4; exact Linked.mono hmono (hi.conn _ _ _ _ q h3 h4)
  · intro q
    show q < (set2 st.pcf p v.1 v.2).length → 2 ≤ inner (set2 st.pcf p v.1 v.2) q
    rw [hlen, inner_set2 hi.okp]
    intro hq
    have := hi.two q hq
    split_ifs <;> omega

/-- A new track. -/
theorem TInv.fresh {ms : List (Feat × Feat)} {st : Tracks} (hi : TInv ms st) {u v : Feat} (huv : u.1 ≠ v.1)
    (hu : find2 st.cfp u.1 u.2 = none) (hv : find2 st.cfp v.1 v.2 = none) :
    TInv (ms ++ [(u, v)])
      ⟨set2 (set2 st.pcf st.pcf.length u.1 u.2) st.pcf.length v.1 v.2,
        set2 (set2 st.cfp u.1 u.2 st.pcf.length) v.1 v.2 st.pcf.length⟩ := by
  generalize hp : st.pcf.length = p
  have hne : u ≠ v := fun h => huv (by rw [h])
  have okp1 := hi.okp.set2 p u.1 u.2
  have okc1 := hi.okc.set2 u.1 u.2 p
  have hpn : st.pcf.find p = none := (hi.dom p).2 (by omega)
  have hlen : (set2 (set2 st.pcf p u.1 u.2) p v.1 v.2).length = p + 1 := by
    rw [length_set2 okp1, if_neg (by rw [isSome_set2 hi.okp]; simp), length_set2 hi.okp, if_pos hpn, hp]
  have hF : ∀ c f, find2 (set2 (set2 st.cfp u.1 u.2 p) v.1 v.2 p) c f =
      if v = (c, f) then some p else if u = (c, f) then some p else find2 st.cfp c f := by
    intro c f
    rw [find2_set2 okc1, find2_set2 hi.okc]
    have e1 : (v.1 = c ∧ v.2 = f) ↔ v = (c, f) := ⟨fun h => Prod.ext h.1 h.2, fun h => by rw [h]; exact ⟨rfl, rfl⟩⟩
    have e2 : (u.1 = c ∧ u.2 = f) ↔ u = (c, f) := ⟨fun h => Prod.ext h.1 h.2, fun h => by rw [h]; exact ⟨rfl, rfl⟩⟩
    simp only [e1, e2]
  have hP : ∀ q c, find2 (set2 (set2 st.pcf p u.1 u.2) p v.1 v.2) q c =
      if p = q ∧ v.1 = c then some v.2 else if p = q ∧ u.1 = c then some u.2 else find2 st.pcf q c := by
    intro q c
    rw [find2_set2 okp1, find2_set2 hi.okp]
  have hPp : ∀ c, find2 st.pcf p c = none := by
    intro c; unfold find2; rw [hpn]; rfl
  have hmono : ∀ x ∈ ms, x ∈ ms ++ [(u, v)] := fun x hx => by simp [hx]
  have hlink : Relation.EqvGen (Linked (ms ++ [(u, v)])) u v :=
    Relation.EqvGen.rel _ _ (by unfold Linked; simp)
  have hltp : ∀ c f q, find2 st.cfp c f = some q → q < p := fun c f q h => hp ▸ hi.lt c f q h
  refine ⟨okp1.set2 _ _ _, okc1.set2 _ _ _, ?_, ?_, ?_, ?_, ?_, ?_, ?_⟩
  · intro q
    show (set2 (set2 st.pcf p u.1 u.2) p v.1 v.2).find q = none ↔ (set2 (set2 st.pcf p u.1 u.2) p v.1 v.2).length ≤ q
    rw [isSome_set2 okp1, isSome_set2 hi.okp, hi.dom, hlen]
    constructor
    · rintro ⟨h1, _, h2⟩; omega
    · intro h; exact ⟨by omega, by omega, by omega⟩
  · intro c f q
    show find2 (set2 (set2 st.cfp u.1 u.2 p) v.1 v.2 p) c f = some q →
      q < (set2 (set2 st.pcf p u.1 u.2) p v.1 v.2).length
    rw [hF, hlen]
    split_ifs
    · intro h; cases h; omega
    · intro h; cases h; omega
    · intro h; have := hltp c f q h; omega
  · intro c f
    show (∃ q, find2 (set2 (set2 st.cfp u.1 u.2 p) v.1 v.2 p) c f = some q) ↔ _
    rw [hF, occurs_snoc]
    split_ifs with h1 h2
    · rw [← h1]; simp
    · rw [← h2]; simp
    · rw [hi.occ]
      constructor
      · exact Or.inl
      · rintro (h' | h' | h')
        · exact h'
        · exact absurd h'.symm h2
        · exact absurd h'.symm h1
  · intro q c f
    show find2 (set2 (set2 st.pcf p u.1 u.2) p v.1 v.2) q c = some f →
      find2 (set2 (set2 st.cfp u.1 u.2 p) v.1 v.2 p) c f = some q
    rw [hP, hF]
    by_cases hq : p = q
    · subst hq
      rw [hPp]
      by_cases h1 : v.1 = c
      · rw [if_pos ⟨rfl, h1⟩]
        intro h
        rw [if_pos (Prod.ext h1 (Option.some.inj h))]
      · rw [if_neg (fun hc => h1 hc.2)]
        by_cases h2 : u.1 = c
        · rw [if_pos ⟨rfl, h2⟩]
          intro h
          rw [if_neg (fun hc => h1 (by rw [hc])), if_pos (Prod.ext h2 (Option.some.inj h))]
        · rw [if_neg (fun hc => h2 hc.2)]
          intro h; cases h
    · rw [if_neg (fun hc => hq hc.1), if_neg (fun hc => hq hc.1)]
      intro h
      have hb := hi.back q c f h
      rw [if_neg, if_neg, hb]
      · intro hc; rw [hc] at hu; rw [hu] at hb; cases hb
      · intro hc; rw [hc] at hv; rw [hv] at hb; cases hb
  · intro c f q
    show find2 (set2 (set2 st.cfp u.1 u.2 p) v.1 v.2 p) c f = some q →
      ∃ f', find2 (set2 (set2 st.pcf p u.1 u.2) p v.1 v.2) q c = some f'
    rw [hF, hP]
    split_ifs with h1 h2 h3 h4 h5 h6 h7 h8
    all_goals first
      | (intro _; exact ⟨_, rfl⟩)
      | (intro h; exact hi.kept c f q h)
      | skip
    · intro h; cases h; exfalso; exact h2 ⟨rfl, by rw [h1]⟩
    · intro h; cases h; exfalso; exact h6 ⟨rfl, by rw [h4]⟩
  · intro c f c' f' q
    show find2 (set2 (set2 st.cfp u.1 u.2 p) v.1 v.2 p) c f = some q →
      find2 (set2 (set2 st.cfp u.1 u.2 p) v.1 v.2 p) c' f' = some q → _
    have key : ∀ c f, (if v = (c, f) then some p else if u = (c, f) then some p else find2 st.cfp c f) = some p →
        Relation.EqvGen (Linked (ms ++ [(u, v)])) (c, f) u := by
      intro c f h
      split_ifs at h with h1 h2
      · rw [← h1]; exact Relation.EqvGen.symm _ _ hlink
      · rw [← h2]; exact Relation.EqvGen.refl _
      · have := hltp c f p h; omega
    rw [hF, hF]
    intro h1 h2
    by_cases hq : p = q
    · subst hq
      exact Relation.EqvGen.trans _ _ _ (key c f h1) (Relation.EqvGen.symm _ _ (key c' f' h2))
    · have old : ∀ c f, (if v = (c, f) then some p else if u = (c, f) then some p else find2 st.cfp c f) = some q →
          find2 st.cfp c f = some q := by
        intro c f h
        split_ifs at h with k1 k2
        · exact absurd (Option.some.inj h) hq
        · exact absurd (Option.some.inj h) hq
        · exact h
      exact Linked.mono hmono (hi.conn _ _ _ _ q (old c f h1) (old c' f' h2))
  · intro q
    show q < (set2 (set2 st.pcf p u.1 u.2) p v.1 v.2).length → 2 ≤ inner (set2 (set2 st.pcf p u.1 u.2) p v.1 v.2) q
    rw [hlen, inner_set2 okp1, inner_set2 hi.okp]
    intro hq
    by_cases h : p = q
    · subst h
      have h1 : find2 (set2 st.pcf p u.1 u.2) p v.1 = none := by
        rw [find2_set2 hi.okp, if_neg (fun hc => huv hc.2)]
        exact hPp _
      rw [if_pos ⟨rfl, h1⟩, if_pos ⟨rfl, hPp _⟩]
      omega
    · rw [if_neg (fun hc => h hc.1), if_neg (fun hc => h hc.1)]
      exact hi.two q (by omega)

theorem TInv.step {ms : List (Feat × Feat)} {st : Tracks} (hi : TInv ms st) {u v : Feat} (huv : u.1 ≠ v.1) :
    TInv (ms ++ [(u, v)]) (stepMatch st (u, v)) := by
  unfold stepMatch trackOne
  cases hu : find2 st.cfp u.1 u.2 with
  | some p =>
    cases hv : find2 st.cfp v.1 v.2 with
    | some q =>
      dsimp only
      have hmono : ∀ x ∈ ms, x ∈ ms ++ [(u, v)] := fun x hx => by simp [hx]
      refine ⟨hi.okp, hi.okc, hi.dom, hi.lt, ?_, hi.back, hi.kept, ?_, hi.two⟩
      · intro c f
        rw [hi.occ, occurs_snoc]
        constructor
        · exact Or.inl
        · rintro (h | h | h)
          · exact h
          · rw [h]; exact (hi.occ u.1 u.2).1 ⟨p, hu⟩
          · rw [h]; exact (hi.occ v.1 v.2).1 ⟨q, hv⟩
      · intro c f c' f' r h1 h2
        exact Linked.mono hmono (hi.conn _ _ _ _ r h1 h2)
    | none =>
      dsimp only
      exact hi.join hu hv (Or.inl rfl)
  | none =>
    cases hv : find2 st.cfp v.1 v.2 with
    | some q =>
      dsimp only
      exact hi.join hv hu (Or.inr rfl)
    | none =>
      dsimp only
      exact hi.fresh huv hu hv

theorem TInv.run {ms : List (Feat × Feat)} (h : ∀ e ∈ ms, e.1.1 ≠ e.2.1) :
    TInv ms (ms.foldl stepMatch ⟨[], []⟩) := by
  suffices ∀ (rest seen : List (Feat × Feat)) (st : Tracks), TInv seen st → (∀ e ∈ rest, e.1.1 ≠ e.2.1) →
      TInv (seen ++ rest) (rest.foldl stepMatch st) by
    simpa using this ms [] ⟨[], []⟩ tinv_empty h
  intro rest
  induction rest with
  | nil => intro seen st hi _; simpa using hi
  | cons e rest ih =>
    intro seen st hi hr
    have := ih (seen ++ [e]) (stepMatch st e) (hi.step (u := e.1) (v := e.2) (hr e (by simp)))
      (fun x hx => hr x (by simp [hx]))
    simpa using this

end Verif.BA

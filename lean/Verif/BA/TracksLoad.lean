import Verif.BA.TracksInv

/-
What is loaded from the match files, the numbering of the interest points and the regrouping by pairs of images.
-/

namespace Verif.BA

variable {X : Type} [LinearOrder X]

/-! ### mapM -/

theorem mapM_some_iff {A B : Type} {f : A → Option B} : ∀ {l : List A} {r : List B},
    l.mapM f = some r ↔ List.Forall₂ (fun a b => f a = some b) l r
  | [], r => by
    rw [List.mapM_nil, List.forall₂_nil_left_iff]
    constructor
    · intro h; exact (Option.some.inj h).symm
    · intro h; rw [h]; rfl
  | a :: l, r => by
    rw [List.mapM_cons]
    cases ha : f a with
    | none =>
      simp only [Option.bind_eq_bind, Option.bind_none]
      constructor
      · intro h; cases h
      · intro h; cases h with | cons h1 _ => rw [ha] at h1; cases h1
    | some b =>
      simp only [Option.bind_eq_bind, Option.bind_some]
      constructor
      · intro h
        cases hl : List.mapM f l with
        | none => rw [hl] at h; cases h
        | some r' =>
          rw [hl] at h
          have := (Option.some.inj h).symm
          rw [this]
          exact List.Forall₂.cons ha (mapM_some_iff.1 hl)
      · intro h
        cases h with
        | cons h1 h2 =>
          rw [ha] at h1
          cases h1
          rw [mapM_some_iff.2 h2]
          rfl

theorem mapM_total {A B : Type} {f : A → Option B} {g : A → B} {l : List A} (h : ∀ a ∈ l, f a = some (g a)) :
    l.mapM f = some (l.map g) := by
  induction l with
  | nil => rfl
  | cons a l ih =>
    rw [List.mapM_cons, h a (by simp), ih (fun x hx => h x (by simp [hx]))]
    rfl

/-! ### Loading -/

/-- What is kept of a match file. -/
def keep (minMatches : Nat) (maxMatches : Int) (shuffled : Nat → List Nat) (safe : X → X) (raw : List (X × X)) :
    Option (List (X × X)) :=
  if raw.length < minMatches then none
  else some (thin shuffled maxMatches (raw.map (fun m => (safe m.1, safe m.2))))

variable {mn : Nat} {mx : Int} {sh : Nat → List Nat} {safe : X → X}

theorem loadOne_none {st : Load X} {file : Pair × List (X × X)} (h : keep mn mx sh safe file.2 = none) :
    loadOne mn mx sh safe st file = st := by
  unfold keep at h
  unfold loadOne
  split_ifs at h with h1
  rw [if_pos h1]

theorem loadOne_some {st : Load X} {file : Pair × List (X × X)} {ms} (h : keep mn mx sh safe file.2 = some ms) :
    loadOne mn mx sh safe st file =
      ⟨ms.foldl (fun kp m => addKey (addKey kp (ofLex file.1).1 m.1) (ofLex file.1).2 m.2) st.keys,
        st.found.set file.1 ms⟩ := by
  unfold keep at h
  unfold loadOne
  split_ifs at h with h1
  cases h
  rw [if_neg h1]

/-- All values are zero before the numbering. -/
def Zeros (m : AMap X Nat) : Prop := AMap.Ok m ∧ ∀ x f, m.find x = some f → f = 0

theorem Zeros.set {m : AMap X Nat} (hm : Zeros m) (x : X) : Zeros (m.set x 0) := by
  refine ⟨hm.1.set _ _, ?_⟩
  intro y f
  rw [AMap.find_set hm.1]
  split_ifs
  · intro h; cases h; rfl
  · exact hm.2 y f

theorem Zeros.keys_set {m : AMap X Nat} (hm : Zeros m) (x y : X) : y ∈ (m.set x 0).keys ↔ y = x ∨ y ∈ m.keys := by
  rw [AMap.mem_keys, AMap.mem_keys]
  simp only [AMap.find_set hm.1]
  by_cases h : x = y
  · simp [h]
  · simp [h, Ne.symm h]

theorem Zeros.ext {m n : AMap X Nat} (hm : Zeros m) (hn : Zeros n) (h : ∀ x, x ∈ m.keys ↔ x ∈ n.keys) : m = n := by
  refine AMap.ext hm.1 hn.1 (fun x => ?_)
  have := h x
  rw [AMap.mem_keys, AMap.mem_keys] at this
  cases h1 : m.find x with
  | none =>
    cases h2 : n.find x with
    | none => rfl
    | some b =>
      obtain ⟨v, hv⟩ := this.2 ⟨b, h2⟩
      rw [h1] at hv; cases hv
  | some a =>
    obtain ⟨v, hv⟩ := this.1 ⟨a, h1⟩
    rw [hv, hm.2 x a h1, hn.2 x v hv]

theorem addKey_zeros {kp : Nat → AMap X Nat} (h : ∀ i, Zeros (kp i)) (i : Nat) (x : X) (j : Nat) :
    Zeros (addKey kp i x j) := by
  unfold addKey
  split_ifs
  · exact (h j).set x
  · exact h j

theorem addKey_keys {kp : Nat → AMap X Nat} (h : ∀ i, Zeros (kp i)) (i : Nat) (x : X) (j : Nat) (y : X) :
    y ∈ (addKey kp i x j).keys ↔ (j = i ∧ y = x) ∨ y ∈ (kp j).keys := by
  unfold addKey
  split_ifs with hj
  · rw [(h j).keys_set]; simp [hj]
  · simp [hj]

theorem addAll_spec (i j : Nat) : ∀ (ms : List (X × X)) {kp : Nat → AMap X Nat}, (∀ i, Zeros (kp i)) →
    (∀ q, Zeros (ms.foldl (fun kp m => addKey (addKey kp i m.1) j m.2) kp q)) ∧
    ∀ q y, y ∈ (ms.foldl (fun kp m => addKey (addKey kp i m.1) j m.2) kp q).keys ↔
      (∃ m ∈ ms, (q = i ∧ y = m.1) ∨ (q = j ∧ y = m.2)) ∨ y ∈ (kp q).keys
  | [], kp, h => ⟨h, by simp⟩
  | m :: ms, kp, h => by
    have h1 := addKey_zeros h i m.1
    have h2 := addKey_zeros h1 j m.2
    obtain ⟨a, b⟩ := addAll_spec i j ms h2
    refine ⟨a, fun q y => ?_⟩
    rw [List.foldl_cons, b, addKey_keys h1, addKey_keys h]
    constructor
    · rintro (⟨n, hn, hh⟩ | hh | hh | hh)
      · exact Or.inl ⟨n, by simp [hn], hh⟩
      · exact Or.inl ⟨m, by simp, Or.inr hh⟩
      · exact Or.inl ⟨m, by simp, Or.inl hh⟩
      · exact Or.inr hh
    · rintro (⟨n, hn, hh⟩ | hh)
      · rcases List.mem_cons.1 hn with rfl | hn
        · rcases hh with hh | hh
          · exact Or.inr (Or.inr (Or.inl hh))
          · exact Or.inr (Or.inl hh)
        · exact Or.inl ⟨n, hn, hh⟩
      · exact Or.inr (Or.inr (Or.inr hh))

/-- Occurs in what is kept of the files of a list. -/
def InFiles (mn : Nat) (mx : Int) (sh : Nat → List Nat) (safe : X → X) (files : AMap Pair (List (X × X)))
    (q : Nat) (y : X) : Prop :=
  ∃ file ∈ files, ∃ ms, keep mn mx sh safe file.2 = some ms ∧
    ∃ m ∈ ms, (q = (ofLex file.1).1 ∧ y = m.1) ∨ (q = (ofLex file.1).2 ∧ y = m.2)

theorem load_aux : ∀ (files : AMap Pair (List (X × X))) (st : Load X), AMap.Ok files → AMap.Ok st.found →
    (∀ i, Zeros (st.keys i)) →
    (AMap.Ok (files.foldl (loadOne mn mx sh safe) st).found ∧
      (∀ i, Zeros ((files.foldl (loadOne mn mx sh safe) st).keys i)) ∧
      (∀ k, (files.foldl (loadOne mn mx sh safe) st).found.find k =
        ((files.find k).bind (keep mn mx sh safe)).or (st.found.find k)) ∧
      ∀ q y, y ∈ ((files.foldl (loadOne mn mx sh safe) st).keys q).keys ↔
        InFiles mn mx sh safe files q y ∨ y ∈ (st.keys q).keys)
  | [], st, _, h1, h2 => ⟨h1, h2, fun k => by simp [AMap.find], fun q y => by simp [InFiles]⟩
  | file :: files, st, hf, h1, h2 => by
    have hf' := List.pairwise_cons.1 hf
    rw [List.foldl_cons]
    have hnone : AMap.find files file.1 = none := AMap.find_none_of_lt hf'.1
    cases hk : keep mn mx sh safe file.2 with
    | none =>
      rw [loadOne_none hk]
      obtain ⟨a, b, c, d⟩ := load_aux files st hf'.2 h1 h2
      refine ⟨a, b, fun k => ?_, fun q y => ?_⟩
      · rw [c]
        by_cases e : file.1 = k
        · subst e
          rw [hnone]
          simp [AMap.find, hk]
        · simp [AMap.find, e]
      · rw [d]
        unfold InFiles
        constructor
        · rintro (⟨g, hg, hh⟩ | hh)
          · exact Or.inl ⟨g, by simp [hg], hh⟩
          · exact Or.inr hh
        · rintro (⟨g, hg, ms, hm, hh⟩ | hh)
          · rcases List.mem_cons.1 hg with rfl | hg
            · rw [hk] at hm; cases hm
            · exact Or.inl ⟨g, hg, ms, hm, hh⟩
          · exact Or.inr hh
    | some ms =>
      rw [loadOne_some hk]
      obtain ⟨z1, z2⟩ := addAll_spec (ofLex file.1).1 (ofLex file.1).2 ms h2
      obtain ⟨a, b, c, d⟩ := load_aux files ⟨_, st.found.set file.1 ms⟩ hf'.2 (h1.set _ _) z1
      refine ⟨a, b, fun k => ?_, fun q y => ?_⟩
      · rw [c, AMap.find_set h1]
        by_cases e : file.1 = k
        · subst e
          rw [hnone]
          simp [AMap.find, hk]
        · simp [AMap.find, e]
      · rw [d, z2]
        unfold InFiles
        constructor
        · rintro (⟨g, hg, hh⟩ | hh | hh)
          · exact Or.inl ⟨g, by simp [hg], hh⟩
          · exact Or.inl ⟨file, by simp, ms, hk, hh⟩
          · exact Or.inr hh
        · rintro (⟨g, hg, ms', hm, hh⟩ | hh)
          · rcases List.mem_cons.1 hg with rfl | hg
            · rw [hk] at hm; cases hm
              exact Or.inr (Or.inl hh)
            · exact Or.inl ⟨g, hg, ms', hm, hh⟩
          · exact Or.inr (Or.inr hh)

theorem zeros_nil : Zeros ([] : AMap X Nat) := ⟨AMap.ok_nil, fun x f h => by cases h⟩

theorem load_spec {files : AMap Pair (List (X × X))} (hf : AMap.Ok files) :
    AMap.Ok (load mn mx sh safe files).found ∧ (∀ i, Zeros ((load mn mx sh safe files).keys i)) ∧
      (∀ k, (load mn mx sh safe files).found.find k = (files.find k).bind (keep mn mx sh safe)) ∧
      ∀ q y, y ∈ ((load mn mx sh safe files).keys q).keys ↔ InFiles mn mx sh safe files q y := by
  obtain ⟨a, b, c, d⟩ := load_aux (mn := mn) (mx := mx) (sh := sh) (safe := safe) files ⟨fun _ => [], []⟩ hf AMap.ok_nil
    (fun _ => zeros_nil)
  refine ⟨a, b, fun k => ?_, fun q y => ?_⟩
  · unfold load; rw [c]; simp [AMap.find]
  · unfold load; rw [d]; simp [AMap.keys]

/-! ### Numbering -/

theorem number_ok {kp : AMap X Nat} (h : AMap.Ok kp) : AMap.Ok (number kp) := by
  unfold number AMap.Ok
  have : (kp.keys.zipIdx.map Prod.fst).Pairwise (· < ·) := by
    rw [List.zipIdx_map_fst]
    exact h.keys_sorted
  rwa [List.pairwise_map] at this

theorem number_find {kp : AMap X Nat} (h : AMap.Ok kp) (x : X) (f : Nat) :
    (number kp).find x = some f ↔ kp.keys[f]? = some x := by
  rw [← AMap.mem_iff (number_ok h)]
  unfold number
  rw [List.mem_zipIdx_iff_getElem?]

theorem number_some {kp : AMap X Nat} (h : AMap.Ok kp) {x : X} (hx : x ∈ kp.keys) :
    ∃ f, (number kp).find x = some f := by
  obtain ⟨f, hf⟩ := List.mem_iff_getElem?.1 hx
  exact ⟨f, (number_find h x f).2 hf⟩

/-! ### Regrouping -/

/-- The number of an interest point. -/
def fid (kp : Nat → AMap X Nat) (i : Nat) (x : X) : Nat := ((kp i).find x).getD 0

/-- Joining what is known for a key with what is added. -/
def app {A : Type} : Option (List A) → Option (List A) → Option (List A)
  | none, b => b
  | some a, none => some a
  | some a, some b => some (a ++ b)

theorem app_assoc {A : Type} (a b c : Option (List A)) : app (app a b) c = app a (app b c) := by
  cases a <;> cases b <;> cases c <;> simp [app]

theorem app_none {A : Type} (a : Option (List A)) : app a none = a := by cases a <;> rfl

/-- The key under which the matches of a pair of images are put. -/
def outKey (k : Pair) : Pair := if (ofLex k).2 < (ofLex k).1 then toLex ((ofLex k).2, (ofLex k).1) else k

/-- The numbered matches of a pair of images. -/
def outIds (kp : Nat → AMap X Nat) (k : Pair) (ms : List (X × X)) : List (Nat × Nat) :=
  ms.map (fun m => if (ofLex k).2 < (ofLex k).1 then (fid kp (ofLex k).2 m.2, fid kp (ofLex k).1 m.1)
    else (fid kp (ofLex k).1 m.1, fid kp (ofLex k).2 m.2))

/-- What the entries of a list add to a key. -/
def contrib (kp : Nat → AMap X Nat) (k : Pair) : List (Pair × List (X × X)) → Option (List (Nat × Nat))
  | [] => none
  | e :: E => app (if outKey e.1 = k then some (outIds kp e.1 e.2) else none) (contrib kp k E)

/-- The entries are between different images and all their interest points are numbered. -/
def Good (kp : Nat → AMap X Nat) (e : Pair × List (X × X)) : Prop :=
  (ofLex e.1).1 ≠ (ofLex e.1).2 ∧ ∀ m ∈ e.2, (∃ a, (kp (ofLex e.1).1).find m.1 = some a) ∧
    ∃ b, (kp (ofLex e.1).2).find m.2 = some b

theorem toMvgOne_eq {kp : Nat → AMap X Nat} {e : Pair × List (X × X)} (he : Good kp e)
    (out : AMap Pair (List (Nat × Nat))) :
    toMvgOne kp out e = some (out.set (outKey e.1) ((out.find (outKey e.1)).getD [] ++ outIds kp e.1 e.2)) := by
  unfold toMvgOne
  simp only [if_neg he.1]
  rw [mapM_total (g := fun m => if (ofLex e.1).2 < (ofLex e.1).1 then
      (fid kp (ofLex e.1).2 m.2, fid kp (ofLex e.1).1 m.1) else (fid kp (ofLex e.1).1 m.1, fid kp (ofLex e.1).2 m.2))]
  · rfl
  · intro m hm
    obtain ⟨⟨a, ha⟩, b, hb⟩ := he.2 m hm
    simp only [ha, hb, Option.bind_eq_bind, Option.bind_some, fid, Option.getD_some]

theorem contrib_cons (kp : Nat → AMap X Nat) (k : Pair) (e : Pair × List (X × X)) (E : List (Pair × List (X × X))) :
    contrib kp k (e :: E) = app (if outKey e.1 = k then some (outIds kp e.1 e.2) else none) (contrib kp k E) := rfl

theorem toMvg_aux {kp : Nat → AMap X Nat} : ∀ (E : List (Pair × List (X × X))) (out : AMap Pair (List (Nat × Nat))),
    (∀ e ∈ E, Good kp e) → AMap.Ok out →
    ∃ out', E.foldlM (toMvgOne kp) out = some out' ∧ AMap.Ok out' ∧
      ∀ k, out'.find k = app (out.find k) (contrib kp k E)
  | [], out, _, ho => ⟨out, rfl, ho, fun k => (app_none _).symm⟩
  | e :: E, out, hE, ho => by
    obtain ⟨out', a, b, c⟩ := toMvg_aux E
      (out.set (outKey e.1) ((out.find (outKey e.1)).getD [] ++ outIds kp e.1 e.2))
      (fun x hx => hE x (by simp [hx])) (ho.set _ _)
    refine ⟨out', ?_, b, fun k => ?_⟩
    · rw [List.foldlM_cons, toMvgOne_eq (hE e (by simp))]
      exact a
    · rw [c, AMap.find_set ho, contrib_cons, ← app_assoc]
      congr 1
      by_cases h : outKey e.1 = k
      · rw [if_pos h, if_pos h, h]
        cases out.find k <;> simp [app]
      · rw [if_neg h, if_neg h, app_none]

theorem contrib_lt {kp : Nat → AMap X Nat} {l r : Nat} (hlr : l < r) : ∀ (E : AMap Pair (List (X × X))), AMap.Ok E →
    (∀ e ∈ E, (ofLex e.1).1 ≠ (ofLex e.1).2) →
    contrib kp (toLex (l, r)) E = app ((E.find (toLex (l, r))).map (outIds kp (toLex (l, r))))
      ((E.find (toLex (r, l))).map (outIds kp (toLex (r, l))))
  | [], _, _ => rfl
  | e :: E, hE, hne => by
    have hE' := List.pairwise_cons.1 hE
    have ih := contrib_lt (kp := kp) hlr E hE'.2 (fun x hx => hne x (by simp [hx]))
    rw [contrib_cons, ih]
    have hkey : outKey e.1 = toLex (l, r) ↔ e.1 = toLex (l, r) ∨ e.1 = toLex (r, l) := by
      unfold outKey
      have hrl : ¬ r < l := by omega
      constructor
      · intro h
        split_ifs at h with h1
        · right
          have h2 := congrArg ofLex h
          simp only [ofLex_toLex, Prod.mk.injEq] at h2
          apply ofLex.injective
          exact Prod.ext h2.2 h2.1
        · exact Or.inl h
      · rintro (h | h)
        · rw [h]; simp [hrl]
        · rw [h]; simp [hlr]
    have hlt : toLex (l, r) < (toLex (r, l) : Pair) := by
      rw [Prod.Lex.toLex_lt_toLex]
      exact Or.inl hlr
    by_cases h1 : e.1 = toLex (l, r)
    · have h2 : e.1 ≠ toLex (r, l) := by rw [h1]; exact ne_of_lt hlt
      rw [if_pos (hkey.2 (Or.inl h1))]
      have hn : AMap.find E (toLex (l, r)) = none := AMap.find_none_of_lt (fun x hx => by
        have := hE'.1 x hx; rw [h1] at this; exact this)
      have e1 : AMap.find (e :: E) (toLex (l, r)) = some e.2 := if_pos h1
      have e2 : AMap.find (e :: E) (toLex (r, l)) = AMap.find E (toLex (r, l)) := if_neg h2
      rw [hn, e1, e2, h1]
      rfl
    · by_cases h2 : e.1 = toLex (r, l)
      · rw [if_pos (hkey.2 (Or.inr h2))]
        have hn : AMap.find E (toLex (r, l)) = none := AMap.find_none_of_lt (fun x hx => by
          have := hE'.1 x hx; rw [h2] at this; exact this)
        have hn' : AMap.find E (toLex (l, r)) = none := AMap.find_none_of_lt (fun x hx => by
          have := hE'.1 x hx; rw [h2] at this; exact lt_trans hlt this)
        have e1 : AMap.find (e :: E) (toLex (l, r)) = AMap.find E (toLex (l, r)) := if_neg h1
        have e2 : AMap.find (e :: E) (toLex (r, l)) = some e.2 := if_pos h2
        rw [hn, e1, e2, hn', h2]
        rfl
      · rw [if_neg (fun hc => (hkey.1 hc).elim h1 h2)]
        simp only [AMap.find, if_neg h1, if_neg h2]
        rfl

theorem contrib_ge {kp : Nat → AMap X Nat} {l r : Nat} (hlr : ¬ l < r) : ∀ (E : AMap Pair (List (X × X))),
    (∀ e ∈ E, (ofLex e.1).1 ≠ (ofLex e.1).2) → contrib kp (toLex (l, r)) E = none
  | [], _ => rfl
  | e :: E, hne => by
    rw [contrib_cons, contrib_ge hlr E (fun x hx => hne x (by simp [hx])), app_none, if_neg]
    intro h
    have := hne e (by simp)
    unfold outKey at h
    split_ifs at h with h1
    · have h2 := congrArg ofLex h
      simp only [ofLex_toLex, Prod.mk.injEq] at h2
      omega
    · have h2 := congrArg ofLex h
      rw [ofLex_toLex] at h2
      rw [h2] at this h1
      simp only at this h1
      omega

/-- The matches grouped by pairs of images, smaller index first. -/
theorem toMvg_spec {kp : Nat → AMap X Nat} {found : AMap Pair (List (X × X))} (hf : AMap.Ok found)
    (hg : ∀ e ∈ found, Good kp e) :
    ∃ out, toMvg kp found = some out ∧ AMap.Ok out ∧ ∀ l r, out.find (toLex (l, r)) =
      if l < r then app ((found.find (toLex (l, r))).map (outIds kp (toLex (l, r))))
        ((found.find (toLex (r, l))).map (outIds kp (toLex (r, l)))) else none := by
  obtain ⟨out, a, b, c⟩ := toMvg_aux (kp := kp) found [] hg AMap.ok_nil
  refine ⟨out, a, b, fun l r => ?_⟩
  rw [c]
  have hne : ∀ e ∈ found, (ofLex e.1).1 ≠ (ofLex e.1).2 := fun e he => (hg e he).1
  split_ifs with h
  · rw [contrib_lt h found hf hne]; rfl
  · rw [contrib_ge h found hne]; rfl

end Verif.BA

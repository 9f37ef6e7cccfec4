import Verif.BA.TracksLoad

/-
The tie points in terms of the matches in the files.
-/

namespace Verif.BA

variable {X : Type} [LinearOrder X] {mn : Nat} {mx : Int} {sh : Nat → List Nat} {safe : X → X}

/-- The match files of `files` with at least `minMatches` matches hold, after the thinning, a match of the interest
point `u.2` of image `u.1` with the interest point `v.2` of image `v.1`. -/
def Matched (minMatches : Nat) (maxMatches : Int) (shuffled : Nat → List Nat) (safe : X → X)
    (files : AMap Pair (List (X × X))) (u v : Nat × X) : Prop :=
  ∃ raw, files.find (toLex (u.1, v.1)) = some raw ∧ minMatches ≤ raw.length ∧
    (u.2, v.2) ∈ thin shuffled maxMatches (raw.map (fun m => (safe m.1, safe m.2)))

omit [LinearOrder X] in
theorem matched_iff {files : AMap Pair (List (X × X))} {u v : Nat × X} :
    Matched mn mx sh safe files u v ↔ ∃ ms, (files.find (toLex (u.1, v.1))).bind (keep mn mx sh safe) = some ms ∧
      (u.2, v.2) ∈ ms := by
  unfold Matched
  constructor
  · rintro ⟨raw, a, b, c⟩
    refine ⟨_, ?_, c⟩
    rw [a]
    simp [keep, show ¬ raw.length < mn by omega]
  · rintro ⟨ms, a, c⟩
    cases h : files.find (toLex (u.1, v.1)) with
    | none => rw [h] at a; cases a
    | some raw =>
      rw [h] at a
      simp only [Option.bind_some, keep] at a
      split_ifs at a with h1
      cases a
      exact ⟨raw, rfl, by omega, c⟩

omit [LinearOrder X] in
theorem matched_inFiles {files : AMap Pair (List (X × X))} (hf : AMap.Ok files) {q : Nat} {y : X} :
    InFiles mn mx sh safe files q y ↔
      ∃ w, Matched mn mx sh safe files (q, y) w ∨ Matched mn mx sh safe files w (q, y) := by
  unfold InFiles
  constructor
  · rintro ⟨file, hm, ms, hk, m, hms, h | h⟩
    · refine ⟨((ofLex file.1).2, m.2), Or.inl (matched_iff.2 ⟨ms, ?_, ?_⟩)⟩
      · rw [h.1]
        have := (AMap.mem_iff hf).1 hm
        change (files.find file.1).bind _ = _
        rw [this]; exact hk
      · rw [h.2]; exact hms
    · refine ⟨((ofLex file.1).1, m.1), Or.inr (matched_iff.2 ⟨ms, ?_, ?_⟩)⟩
      · rw [h.1]
        have := (AMap.mem_iff hf).1 hm
        change (files.find file.1).bind _ = _
        rw [this]; exact hk
      · rw [h.2]; exact hms
  · rintro ⟨w, h | h⟩
    · obtain ⟨ms, a, b⟩ := matched_iff.1 h
      cases h1 : files.find (toLex (q, w.1)) with
      | none => rw [h1] at a; cases a
      | some raw =>
        rw [h1] at a
        exact ⟨(toLex (q, w.1), raw), AMap.find_mem h1, ms, a, _, b, Or.inl ⟨rfl, rfl⟩⟩
    · obtain ⟨ms, a, b⟩ := matched_iff.1 h
      cases h1 : files.find (toLex (w.1, q)) with
      | none => rw [h1] at a; cases a
      | some raw =>
        rw [h1] at a
        exact ⟨(toLex (w.1, q), raw), AMap.find_mem h1, ms, a, _, b, Or.inr ⟨rfl, rfl⟩⟩

theorem mem_flat {mvg : AMap Pair (List (Nat × Nat))} (hm : AMap.Ok mvg) {u v : Feat} :
    (u, v) ∈ flat mvg ↔ ∃ l, mvg.find (toLex (u.1, v.1)) = some l ∧ (u.2, v.2) ∈ l := by
  unfold flat
  rw [List.mem_flatMap]
  constructor
  · rintro ⟨e, he, h⟩
    obtain ⟨m, hml, hmu⟩ := List.mem_map.1 h
    have h1 : ((ofLex e.1).1, m.1) = u := congrArg Prod.fst hmu
    have h2 : ((ofLex e.1).2, m.2) = v := congrArg Prod.snd hmu
    subst h1
    subst h2
    exact ⟨e.2, (AMap.mem_iff hm).1 he, hml⟩
  · rintro ⟨l, hl, h⟩
    exact ⟨(toLex (u.1, v.1), l), AMap.find_mem hl, List.mem_map.2 ⟨_, h, rfl⟩⟩

theorem outIds_lt {kp : Nat → AMap X Nat} {u v : Nat} (h : u < v) (ms : List (X × X)) :
    outIds kp (toLex (u, v)) ms = ms.map (fun m => (fid kp u m.1, fid kp v m.2)) := by
  unfold outIds
  exact List.map_congr_left (fun m _ => if_neg (by simp only [ofLex_toLex]; omega))

theorem outIds_gt {kp : Nat → AMap X Nat} {u v : Nat} (h : u < v) (ms : List (X × X)) :
    outIds kp (toLex (v, u)) ms = ms.map (fun m => (fid kp u m.2, fid kp v m.1)) := by
  unfold outIds
  exact List.map_congr_left (fun m _ => if_pos (by simp only [ofLex_toLex]; omega))

/-- What the function returns, in terms of the tracks. -/
structure Core (M : Nat × X → Nat × X → Prop) (net : List (List (Nat × X))) (K : Nat → List X)
    (ms : List (Feat × Feat)) (st : Tracks) : Prop where
  nodup : ∀ i, (K i).Nodup
  inv : TInv ms st
  pts : List.Forall₂ (fun (t : Nat × AMap Nat Nat) p =>
    List.Forall₂ (fun (e : Nat × Nat) (m : Nat × X) => e.1 = m.1 ∧ (K e.1)[e.2]? = some m.2) t.2 p) st.pcf net
  lnk : ∀ u v : Feat, (u, v) ∈ ms ↔ u.1 < v.1 ∧ ∃ x y, (K u.1)[u.2]? = some x ∧ (K v.1)[v.2]? = some y ∧
    (M (u.1, x) (v.1, y) ∨ M (v.1, y) (u.1, x))
  num : ∀ u v, M u v → u.1 ≠ v.1 ∧ (∃ a : Nat, (K u.1)[a]? = some u.2) ∧ ∃ b : Nat, (K v.1)[b]? = some v.2

theorem network_core {files : AMap Pair (List (X × X))} (hf : AMap.Ok files)
    (hne : ∀ i, files.find (toLex (i, i)) = none) :
    ∃ net K ms st, buildNetwork mn mx sh safe files = some net ∧ Core (Matched mn mx sh safe files) net K ms st := by
  obtain ⟨o1, o2, o3, o4⟩ := load_spec (mn := mn) (mx := mx) (sh := sh) (safe := safe) hf
  generalize hL : load mn mx sh safe files = L at o1 o2 o3 o4
  have hfound : ∀ i j m, m ∈ (L.found.find (toLex (i, j))).getD [] ↔ Matched mn mx sh safe files (i, m.1) (j, m.2) := by
    intro i j m
    rw [matched_iff, o3]
    cases (files.find (toLex (i, j))).bind (keep mn mx sh safe) with
    | none => simp
    | some ms => simp
  have hnum : ∀ u v, Matched mn mx sh safe files u v → u.2 ∈ (L.keys u.1).keys ∧ v.2 ∈ (L.keys v.1).keys := by
    intro u v h
    exact ⟨(o4 _ _).2 ((matched_inFiles hf).2 ⟨v, Or.inl h⟩), (o4 _ _).2 ((matched_inFiles hf).2 ⟨u, Or.inr h⟩)⟩
  have hgood : ∀ e ∈ L.found, Good (fun i => number (L.keys i)) e := by
    intro e he
    have he' := (AMap.mem_iff o1).1 he
    refine ⟨?_, fun m hm => ?_⟩
    · intro h
      rw [o3] at he'
      have : files.find e.1 = none := by
        have := hne (ofLex e.1).1
        have h2 : e.1 = toLex ((ofLex e.1).1, (ofLex e.1).1) := by
          apply ofLex.injective
          exact Prod.ext rfl h.symm
        rw [h2]; exact this
      rw [this] at he'
      cases he'
    · have hM := (hfound (ofLex e.1).1 (ofLex e.1).2 m).1 (by
        change m ∈ (L.found.find e.1).getD []
        rw [he']; exact hm)
      obtain ⟨a, b⟩ := hnum _ _ hM
      exact ⟨number_some (o2 _).1 a, number_some (o2 _).1 b⟩
  obtain ⟨mvg, m1, m2, m3⟩ := toMvg_spec (kp := fun i => number (L.keys i)) o1 hgood
  have hinv : TInv (flat mvg) (buildTracks mvg) := by
    rw [buildTracks_eq]
    refine TInv.run (fun e he => ?_)
    obtain ⟨l, hl, _⟩ := (mem_flat m2 (u := e.1) (v := e.2)).1 he
    rw [m3] at hl
    split_ifs at hl with h
    omega
  have hfid : ∀ i x, x ∈ (L.keys i).keys → ∀ f, fid (fun i => number (L.keys i)) i x = f ↔
      (L.keys i).keys[f]? = some x := by
    intro i x hx f
    obtain ⟨g, hg⟩ := number_some (o2 i).1 hx
    unfold fid
    rw [hg]
    constructor
    · intro h
      rw [← number_find (o2 i).1, hg]
      exact congrArg some h
    · intro h
      rw [← number_find (o2 i).1, hg] at h
      exact Option.some.inj h
  have hlnk : ∀ u v : Feat, (u, v) ∈ flat mvg ↔ u.1 < v.1 ∧ ∃ x y, (L.keys u.1).keys[u.2]? = some x ∧
      (L.keys v.1).keys[v.2]? = some y ∧
      (Matched mn mx sh safe files (u.1, x) (v.1, y) ∨ Matched mn mx sh safe files (v.1, y) (u.1, x)) := by
    intro u v
    rw [mem_flat m2, m3]
    by_cases hlt : u.1 < v.1
    · rw [if_pos hlt]
      have happ : ∀ (a b : Option (List (Nat × Nat))) (z : Nat × Nat), (∃ l, app a b = some l ∧ z ∈ l) ↔
          z ∈ a.getD [] ∨ z ∈ b.getD [] := by
        intro a b z
        cases a <;> cases b <;> simp [app]
      rw [happ]
      have hmap : ∀ (a : Option (List (X × X))) (g : List (X × X) → List (Nat × Nat)), g [] = [] →
          (a.map g).getD [] = g (a.getD []) := by
        intro a g hg
        cases a <;> simp [hg]
      rw [hmap _ _ rfl, hmap _ _ rfl]
      rw [outIds_lt hlt, outIds_gt hlt]
      simp only [List.mem_map, Prod.mk.injEq]
      constructor
      · rintro (⟨m, hm, h1, h2⟩ | ⟨m, hm, h1, h2⟩)
        · have hM := (hfound _ _ m).1 hm
          obtain ⟨k1, k2⟩ := hnum _ _ hM
          exact ⟨hlt, m.1, m.2, (hfid _ _ k1 _).1 h1, (hfid _ _ k2 _).1 h2, Or.inl hM⟩
        · have hM := (hfound _ _ m).1 hm
          obtain ⟨k1, k2⟩ := hnum _ _ hM
          exact ⟨hlt, m.2, m.1, (hfid _ _ k2 _).1 h1, (hfid _ _ k1 _).1 h2, Or.inr hM⟩
      · rintro ⟨_, x, y, hx, hy, hM | hM⟩
        · obtain ⟨k1, k2⟩ := hnum _ _ hM
          exact Or.inl ⟨(x, y), (hfound _ _ (x, y)).2 hM, (hfid _ _ k1 _).2 hx, (hfid _ _ k2 _).2 hy⟩
        · obtain ⟨k1, k2⟩ := hnum _ _ hM
          exact Or.inr ⟨(y, x), (hfound _ _ (y, x)).2 hM, (hfid _ _ k2 _).2 hx, (hfid _ _ k1 _).2 hy⟩
    · rw [if_neg hlt]
      constructor
      · rintro ⟨l, h, _⟩; cases h
      · exact fun h => absurd h.1 hlt
  -- the points
  have hname : ∀ t ∈ (buildTracks mvg).pcf, ∃ p, toPoint (fun i => (L.keys i).keys) t.2 = some p := by
    intro t ht
    have hok := hinv.okp.2 t.1 t.2 ((AMap.mem_iff hinv.okp.1).1 ht)
    have hex : ∀ e ∈ t.2, ∃ x, (L.keys e.1).keys[e.2]? = some x := by
      intro e he
      have h1 : find2 (buildTracks mvg).pcf t.1 e.1 = some e.2 := by
        unfold find2
        rw [(AMap.mem_iff hinv.okp.1).1 ht]
        exact (AMap.mem_iff hok).1 he
      obtain ⟨w, h | h⟩ := (hinv.occ e.1 e.2).1 ⟨_, hinv.back _ _ _ h1⟩
      · obtain ⟨_, x, y, hx, _⟩ := (hlnk _ _).1 h
        exact ⟨x, hx⟩
      · obtain ⟨_, x, y, _, hx, _⟩ := (hlnk _ _).1 h
        exact ⟨y, hx⟩
    clear hok ht
    unfold toPoint
    generalize t.2 = l at hex
    induction l with
    | nil => exact ⟨[], rfl⟩
    | cons e l ih =>
      obtain ⟨x, hx⟩ := hex e (by simp)
      obtain ⟨p, hp⟩ := ih (fun a ha => hex a (by simp [ha]))
      exact ⟨(e.1, x) :: p, by rw [List.mapM_cons, hp]; simp [hx]⟩
  have hpts : ∃ pts, (buildTracks mvg).pcf.mapM (fun t => toPoint (fun i => (L.keys i).keys) t.2) = some pts := by
    revert hname
    generalize (buildTracks mvg).pcf = l
    intro hname
    induction l with
    | nil => exact ⟨[], rfl⟩
    | cons e l ih =>
      obtain ⟨x, hx⟩ := hname e (by simp)
      obtain ⟨p, hp⟩ := ih (fun a ha => hname a (by simp [ha]))
      exact ⟨x :: p, by rw [List.mapM_cons, hp, hx]; rfl⟩
  obtain ⟨pts, hp⟩ := hpts
  have hF : List.Forall₂ (fun (t : Nat × AMap Nat Nat) p => List.Forall₂ (fun (e : Nat × Nat) (m : Nat × X) =>
      e.1 = m.1 ∧ (L.keys e.1).keys[e.2]? = some m.2) t.2 p) (buildTracks mvg).pcf pts := by
    refine (mapM_some_iff.1 hp).imp (fun t p h => ?_)
    unfold toPoint at h
    refine (mapM_some_iff.1 h).imp (fun e m h => ?_)
    cases hx : (L.keys e.1).keys[e.2]? with
    | none => simp [hx] at h
    | some x =>
      simp [hx] at h
      rw [← h]
      exact ⟨rfl, rfl⟩
  have hfil : pts.filter (fun p => decide (0 < p.length)) = pts := by
    rw [List.filter_eq_self]
    intro p hpp
    obtain ⟨k, hk, rfl⟩ := List.mem_iff_getElem.1 hpp
    have hk' : k < (buildTracks mvg).pcf.length := by rw [hF.length_eq]; exact hk
    have := List.forall₂_iff_get.1 hF
    have h2 := (this.2 k hk' hk).length_eq
    have hmem := List.getElem_mem hk'
    have hfd := (AMap.mem_iff hinv.okp.1).1 (show (((buildTracks mvg).pcf[k]).1, ((buildTracks mvg).pcf[k]).2) ∈ _ from hmem)
    have h3 : (buildTracks mvg).pcf[k].1 < (buildTracks mvg).pcf.length := by
      by_contra hc
      rw [(hinv.dom _).2 (by omega)] at hfd
      cases hfd
    have h4 := hinv.two _ h3
    unfold inner at h4
    rw [hfd] at h4
    simp only [Option.getD_some] at h4
    have h5 : (pts.get ⟨k, hk⟩).length = pts[k].length := rfl
    have h6 : (List.get (buildTracks mvg).pcf ⟨k, hk'⟩).2.length = (buildTracks mvg).pcf[k].2.length := rfl
    rw [decide_eq_true_eq]
    omega
  refine ⟨pts, fun i => (L.keys i).keys, flat mvg, buildTracks mvg, ?_, ?_, hinv, hF, hlnk, ?_⟩
  · unfold buildNetwork
    rw [hL]
    simp only [m1, Option.bind_eq_bind, Option.bind_some]
    unfold toCnet
    simp only [hp, Option.bind_eq_bind, Option.bind_some, hfil]
  · exact fun i => ((o2 i).1.keys_sorted).imp (fun h => ne_of_lt h)
  · intro u v h
    obtain ⟨a, b⟩ := hnum u v h
    refine ⟨?_, List.mem_iff_getElem?.1 a, List.mem_iff_getElem?.1 b⟩
    intro hc
    obtain ⟨raw, hr, _⟩ := h
    rw [hc, hne] at hr
    cases hr

end Verif.BA

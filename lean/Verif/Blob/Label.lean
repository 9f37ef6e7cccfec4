import Verif.Blob.Model
import Mathlib.Tactic.ByContra
/-
The first pass: two valid pixels are linked iff their labels are connected in the graph of labels.
-/
namespace VW.Blob
open VW.Grassfire (Pos raster inImage before mem_raster mem_prefix raster_sorted raster_nodup before_asymm not_mem_prefix)
open VW.Graph

theorem near_symm {p q : Pos} (h : near p q) : near q p := by unfold near at *; omega

theorem Linked.right {V : Pos → Prop} {p q : Pos} (h : Linked V p q) : V q := by
  cases h <;> assumption

theorem Linked.left {V : Pos → Prop} {p q : Pos} (h : Linked V p q) : V p := by
  induction h <;> assumption

theorem Linked.trans {V : Pos → Prop} {p q r : Pos} (h : Linked V p q) (g : Linked V q r) : Linked V p r := by
  induction g with
  | refl _ => exact h
  | step _ hv hn ih => exact ih.step hv hn

theorem Linked.single {V : Pos → Prop} {p q : Pos} (hp : V p) (hq : V q) (h : near p q) : Linked V p q :=
  (Linked.refl hp).step hq h

theorem Linked.symm {V : Pos → Prop} {p q : Pos} (h : Linked V p q) : Linked V q p := by
  induction h with
  | refl hv => exact .refl hv
  | step hpq hv hn ih => exact (Linked.single hv hpq.right (near_symm hn)).trans ih

/-- The invariant of the first pass, after the places of a. -/
structure Inv (valid : Pos → Bool) (V : Pos → Prop) (a : List Pos) (s : Labels) : Prop where
  zero : ∀ p, p ∉ a ∨ valid p = false → s.lab p = 0
  pos : ∀ p ∈ a, valid p = true → s.lab p ≠ 0
  lt : ∀ p, s.lab p < s.count
  used : ∀ l, l ≠ 0 → l < s.count → ∃ p ∈ a, valid p = true ∧ s.lab p = l
  adj : ∀ p ∈ a, ∀ q ∈ a, valid p = true → valid q = true → near p q → Conn s.edges (s.lab p) (s.lab q)
  same : ∀ p ∈ a, ∀ q ∈ a, valid p = true → valid q = true → s.lab p = s.lab q → Linked V p q
  edge : ∀ e ∈ s.edges, ∃ p ∈ a, ∃ q ∈ a, valid p = true ∧ valid q = true ∧ s.lab p = e.1 ∧ s.lab q = e.2 ∧ Linked V p q

theorem Inv.start (valid : Pos → Bool) (V : Pos → Prop) : Inv valid V [] { lab := fun _ => 0, count := 1, edges := [] } where
  zero := fun _ _ => rfl
  pos := fun _ h => by cases h
  lt := fun _ => by dsimp only; omega
  used := fun l h1 h2 => by dsimp only at h2; omega
  adj := fun _ h => by cases h
  same := fun _ h => by cases h
  edge := fun _ h => by cases h

/-- Invalid pixels change nothing. -/
theorem Inv.skip {valid : Pos → Bool} {V : Pos → Prop} {a : List Pos} {s : Labels} {p : Pos} (h : Inv valid V a s)
    (hp : valid p = false) : Inv valid V (a ++ [p]) s := by
  have hin : ∀ q, q ∈ a ++ [p] → valid q = true → q ∈ a := by
    intro q hq hv
    rcases List.mem_append.1 hq with hq | hq
    · exact hq
    · simp at hq; subst hq; rw [hp] at hv; cases hv
  refine ⟨?_, ?_, h.lt, ?_, ?_, ?_, ?_⟩
  · rintro q (hq | hq)
    · exact h.zero q (Or.inl (fun hqa => hq (List.mem_append_left _ hqa)))
    · exact h.zero q (Or.inr hq)
  · exact fun q hq hv => h.pos q (hin q hq hv) hv
  · intro l h1 h2
    obtain ⟨q, hq, h⟩ := h.used l h1 h2
    exact ⟨q, List.mem_append_left _ hq, h⟩
  · exact fun q hq r hr hqv hrv => h.adj q (hin q hq hqv) r (hin r hr hrv) hqv hrv
  · exact fun q hq r hr hqv hrv => h.same q (hin q hq hqv) r (hin r hr hrv) hqv hrv
  · intro e he
    obtain ⟨q, hq, r, hr, h⟩ := h.edge e he
    exact ⟨q, List.mem_append_left _ hq, r, List.mem_append_left _ hr, h⟩

/-- A valid pixel gets a label d: that of a valid neighbour connected to the labels of all valid neighbours, or a new one
when there is none. -/
theorem Inv.add {valid : Pos → Bool} {V : Pos → Prop} {a : List Pos} {s : Labels} {p : Pos} (h : Inv valid V a s)
    (hp : valid p = true) (hpa : p ∉ a) (hV : ∀ q ∈ a ++ [p], valid q = true → V q) (d cnt : Nat) (es : List (Nat × Nat))
    (hsub : ∀ e ∈ s.edges, e ∈ es)
    (hnew : ∀ e ∈ es, e ∉ s.edges → ∃ q ∈ a, ∃ r ∈ a, valid q = true ∧ valid r = true ∧ near q p ∧ near r p ∧ e = (s.lab q, s.lab r))
    (hconn : ∀ q ∈ a, valid q = true → near q p → Conn es (s.lab q) d)
    (hd : (d = s.count ∧ cnt = s.count + 1 ∧ ∀ q ∈ a, valid q = true → ¬ near q p) ∨
      (cnt = s.count ∧ ∃ q ∈ a, valid q = true ∧ near q p ∧ s.lab q = d)) :
    Inv valid V (a ++ [p]) { lab := set s.lab p d, count := cnt, edges := es } := by
  have hVp : V p := hV p (by simp) hp
  have hVa : ∀ q ∈ a, valid q = true → V q := fun q hq => hV q (List.mem_append_left _ hq)
  have hne : ∀ q ∈ a, set s.lab p d q = s.lab q := by
    intro q hq; unfold set; rw [if_neg]; rintro rfl; exact hpa hq
  have hse : set s.lab p d p = d := by unfold set; rw [if_pos rfl]
  have hdpos : d ≠ 0 := by
    rcases hd with ⟨h1, h2, _⟩ | ⟨_, q, hq, hv, _, e⟩
    · have := h.lt p; omega
    · rw [← e]; exact h.pos q hq hv
  have hdlt : d < cnt ∧ s.count ≤ cnt := by
    rcases hd with ⟨h1, h2, _⟩ | ⟨h0, q, hq, hv, _, e⟩
    · omega
    · rw [← e, h0]; exact ⟨h.lt q, Nat.le_refl _⟩
  have hsameP : ∀ q ∈ a, valid q = true → s.lab q = d → Linked V q p := by
    intro q hq hv e
    rcases hd with ⟨h1, h2, _⟩ | ⟨h0, r, hr, hrv, hn, e'⟩
    · have := h.lt q; omega
    · exact (h.same q hq r hr hv hrv (e.trans e'.symm)).step hVp hn
  refine ⟨?_, ?_, ?_, ?_, ?_, ?_, ?_⟩
  · intro q hq
    dsimp only
    by_cases e : q = p
    · subst e; simp [hp] at hq
    · unfold set; rw [if_neg e]
      apply h.zero
      rcases hq with hq | hq
      · exact Or.inl (fun hqa => hq (List.mem_append_left _ hqa))
      · exact Or.inr hq
  · intro q hq hv
    dsimp only
    rcases List.mem_append.1 hq with hq | hq
    · rw [hne q hq]; exact h.pos q hq hv
    · simp at hq; subst hq; rw [hse]; exact hdpos
  · intro q
    dsimp only
    unfold set
    by_cases e : q = p
    · rw [if_pos e]; exact hdlt.1
    · rw [if_neg e]; have := h.lt q; omega
  · intro l h1 h2
    dsimp only at h2 ⊢
    by_cases hl : l < s.count
    · obtain ⟨q, hq, hv, e⟩ := h.used l h1 hl
      exact ⟨q, List.mem_append_left _ hq, hv, by rw [hne q hq]; exact e⟩
    · refine ⟨p, by simp, hp, ?_⟩
      rw [hse]
      rcases hd with ⟨h1, h2, _⟩ | ⟨h0, _⟩ <;> omega
  · have key : ∀ q ∈ a, valid q = true → near q p → Conn es (set s.lab p d q) (set s.lab p d p) := by
      intro q hq hv hn
      rw [hne q hq, hse]; exact hconn q hq hv hn
    intro q hq r hr hqv hrv hn
    dsimp only
    rcases List.mem_append.1 hq with hq' | hq' <;> rcases List.mem_append.1 hr with hr' | hr' <;> clear hq hr <;> rename' hq' => hq, hr' => hr
    · rw [hne q hq, hne r hr]
      exact (h.adj q hq r hr hqv hrv hn).mono hsub
    · simp at hr; subst hr; exact key q hq hqv hn
    · simp at hq; subst hq; exact (key r hr hrv (near_symm hn)).symm
    · simp at hq hr; subst hq; subst hr; exact .refl _ _
  · intro q hq r hr hqv hrv e
    dsimp only at e
    rcases List.mem_append.1 hq with hq' | hq' <;> rcases List.mem_append.1 hr with hr' | hr' <;> clear hq hr <;> rename' hq' => hq, hr' => hr
    · rw [hne q hq, hne r hr] at e
      exact h.same q hq r hr hqv hrv e
    · simp at hr; subst hr
      rw [hne q hq, hse] at e
      exact hsameP q hq hqv e
    · simp at hq; subst hq
      rw [hne r hr, hse] at e
      exact (hsameP r hr hrv e.symm).symm
    · simp at hq hr; subst hq; subst hr; exact .refl hVp
  · intro e he
    dsimp only at he ⊢
    by_cases hes : e ∈ s.edges
    · obtain ⟨q, hq, r, hr, hqv, hrv, e1, e2, hl⟩ := h.edge e hes
      exact ⟨q, List.mem_append_left _ hq, r, List.mem_append_left _ hr, hqv, hrv, by rw [hne q hq]; exact e1,
        by rw [hne r hr]; exact e2, hl⟩
    · obtain ⟨q, hq, r, hr, hqv, hrv, hn1, hn2, e⟩ := hnew e he hes
      refine ⟨q, List.mem_append_left _ hq, r, List.mem_append_left _ hr, hqv, hrv, ?_, ?_, ?_⟩
      · rw [hne q hq, e]
      · rw [hne r hr, e]
      · exact (Linked.single (hVa q hq hqv) hVp hn1).step (hVa r hr hrv) (near_symm hn2)

/-- What the visit of the earlier neighbours does. -/
theorem look_fold (valid : Pos → Bool) (lab : Pos → Nat) (ns : List Pos) (hpos : ∀ n ∈ ns, valid n = true → lab n ≠ 0)
    (es : List (Nat × Nat)) :
    let a := ns.foldl (look valid lab) (0, es)
    (∀ e ∈ es, e ∈ a.2) ∧
    (∀ e ∈ a.2, e ∉ es → ∃ q ∈ ns, ∃ r ∈ ns, valid q = true ∧ valid r = true ∧ e = (lab q, lab r)) ∧
    (∀ n ∈ ns, valid n = true → Conn a.2 (lab n) a.1) ∧
    ((a.1 = 0 ∧ (∀ n ∈ ns, valid n = false) ∧ a.2 = es) ∨ (a.1 ≠ 0 ∧ ∃ n ∈ ns, valid n = true ∧ lab n = a.1)) := by
  induction ns using List.reverseRecOn with
  | nil => exact ⟨fun e h => h, fun e h h' => absurd h h', by simp, Or.inl ⟨rfl, by simp, rfl⟩⟩
  | append_singleton ns n ih =>
    have hpos' : ∀ m ∈ ns, valid m = true → lab m ≠ 0 := fun m hm => hpos m (List.mem_append_left _ hm)
    have := ih hpos'
    rw [List.foldl_append]
    simp only [List.foldl_cons, List.foldl_nil]
    generalize ns.foldl (look valid lab) (0, es) = a at this
    obtain ⟨h1, h2, h3, h4⟩ := this
    have h2' : ∀ e ∈ a.2, e ∉ es → ∃ q ∈ ns ++ [n], ∃ r ∈ ns ++ [n], valid q = true ∧ valid r = true ∧ e = (lab q, lab r) := by
      intro e he hes
      obtain ⟨q, hq, r, hr, h⟩ := h2 e he hes
      exact ⟨q, List.mem_append_left _ hq, r, List.mem_append_left _ hr, h⟩
    unfold look
    by_cases hv : valid n = true
    · rw [if_pos hv]
      by_cases hc : a.1 ≠ 0 ∧ a.1 ≠ lab n
      · rw [if_pos hc]
        dsimp only
        have h4' : ∃ m ∈ ns, valid m = true ∧ lab m = a.1 := by
          rcases h4 with h4 | h4
          · exact absurd h4.1 hc.1
          · exact h4.2
        obtain ⟨m, hm, hmv, hme⟩ := h4'
        refine ⟨fun e he => List.mem_cons_of_mem _ (h1 e he), ?_, ?_, Or.inr ⟨hc.1, m, List.mem_append_left _ hm, hmv, hme⟩⟩
        · intro e he hes
          rcases List.mem_cons.1 he with he | he
          · exact ⟨n, by simp, m, List.mem_append_left _ hm, hv, hmv, by rw [he, hme]⟩
          · exact h2' e he hes
        · intro q hq hqv
          rcases List.mem_append.1 hq with hq | hq
          · exact (h3 q hq hqv).mono (fun e he => List.mem_cons_of_mem _ he)
          · simp at hq; subst hq
            exact .of_mem (List.mem_cons_self ..)
      · rw [if_neg hc]
        dsimp only
        refine ⟨h1, h2', ?_, Or.inr ⟨hpos n (by simp) hv, n, by simp, hv, rfl⟩⟩
        intro q hq hqv
        rcases List.mem_append.1 hq with hq | hq
        · rcases h4 with h4 | h4
          · rw [h4.2.1 q hq] at hqv; cases hqv
          · have e : a.1 = lab n := by
              by_contra hne; exact hc ⟨h4.1, hne⟩
            rw [← e]; exact h3 q hq hqv
        · simp at hq; subst hq; exact .refl _ _
    · rw [if_neg hv]
      have hvf : valid n = false := by simpa using hv
      refine ⟨h1, h2', ?_, ?_⟩
      · intro q hq hqv
        rcases List.mem_append.1 hq with hq | hq
        · exact h3 q hq hqv
        · simp at hq; subst hq; exact absurd hqv hv
      · rcases h4 with ⟨e, h4, h5⟩ | ⟨e, m, hm, h4⟩
        · refine Or.inl ⟨e, ?_, h5⟩
          intro q hq
          rcases List.mem_append.1 hq with hq | hq
          · exact h4 q hq
          · simp at hq; subst hq; exact hvf
        · exact Or.inr ⟨e, m, List.mem_append_left _ hm, h4⟩

/-- A place with earlier neighbours as listed. -/
theorem inv_visit {valid : Pos → Bool} {V : Pos → Prop} {a : List Pos} {s : Labels} {p : Pos} {W : Nat}
    (h : Inv valid V a s) (hpa : p ∉ a) (hV : ∀ q ∈ a ++ [p], valid q = true → V q)
    (hns : ∀ q, q ∈ neighbours W p ↔ q ∈ a ∧ near q p) :
    Inv valid V (a ++ [p]) (visit valid W s p) := by
  unfold visit
  by_cases hv : valid p = true
  · rw [if_pos hv]
    have h0 : s.lab p = 0 := h.zero p (Or.inl hpa)
    rw [h0]
    have := look_fold valid s.lab (neighbours W p) (fun n hn hnv => h.pos n ((hns n).1 hn).1 hnv) s.edges
    dsimp only at this ⊢
    generalize (neighbours W p).foldl (look valid s.lab) (0, s.edges) = r at this
    obtain ⟨h1, h2, h3, h4⟩ := this
    have hnew : ∀ e ∈ r.2, e ∉ s.edges → ∃ q ∈ a, ∃ t ∈ a, valid q = true ∧ valid t = true ∧ near q p ∧ near t p ∧
        e = (s.lab q, s.lab t) := by
      intro e he hes
      obtain ⟨q, hq, t, ht, hqv, htv, e⟩ := h2 e he hes
      exact ⟨q, ((hns q).1 hq).1, t, ((hns t).1 ht).1, hqv, htv, ((hns q).1 hq).2, ((hns t).1 ht).2, e⟩
    rcases h4 with ⟨e, h4, _⟩ | ⟨e, m, hm, hmv, hme⟩
    · rw [if_pos e]
      have hno : ∀ q ∈ a, valid q = true → ¬ near q p := by
        intro q hq hqv hn
        have := h4 q ((hns q).2 ⟨hq, hn⟩)
        rw [hqv] at this; cases this
      exact h.add hv hpa hV s.count (s.count + 1) r.2 h1 hnew (fun q hq hqv hn => absurd hn (hno q hq hqv))
        (Or.inl ⟨rfl, rfl, hno⟩)
    · rw [if_neg e]
      exact h.add hv hpa hV r.1 s.count r.2 h1 hnew (fun q hq hqv hn => h3 q ((hns q).2 ⟨hq, hn⟩) hqv)
        (Or.inr ⟨rfl, m, ((hns m).1 hm).1, hmv, ((hns m).1 hm).2, hme⟩)
  · rw [if_neg hv]
    exact h.skip (by simpa using hv)

theorem inv_visitTop {valid : Pos → Bool} {V : Pos → Prop} {a : List Pos} {s : Labels} {p : Pos}
    (h : Inv valid V a s) (hpa : p ∉ a) (hV : ∀ q ∈ a ++ [p], valid q = true → V q)
    (hns : ∀ q, q ∈ a ∧ near q p ↔ p.1 ≠ 0 ∧ q = (p.1 - 1, p.2)) :
    Inv valid V (a ++ [p]) (visitTop valid s p) := by
  unfold visitTop
  by_cases hv : valid p = true
  · rw [if_pos hv]
    by_cases hc : p.1 ≠ 0 ∧ valid (p.1 - 1, p.2) = true
    · rw [if_pos hc]
      obtain ⟨hqa, hqn⟩ := (hns _).2 ⟨hc.1, rfl⟩
      refine h.add hv hpa hV _ _ _ (fun e he => he) (fun e he hes => absurd he hes) ?_
        (Or.inr ⟨rfl, _, hqa, hc.2, hqn, rfl⟩)
      intro q hq hqv hn
      rw [((hns q).1 ⟨hq, hn⟩).2]
      exact .refl _ _
    · rw [if_neg hc]
      have hno : ∀ q ∈ a, valid q = true → ¬ near q p := by
        intro q hq hqv hn
        have := (hns q).1 ⟨hq, hn⟩
        exact hc ⟨this.1, by rw [← this.2]; exact hqv⟩
      exact h.add hv hpa hV _ _ _ (fun e he => he) (fun e he hes => absurd he hes)
        (fun q hq hqv hn => absurd hn (hno q hq hqv)) (Or.inl ⟨rfl, rfl, hno⟩)
  · rw [if_neg hv]
    exact h.skip (by simpa using hv)

theorem mem_neighbours {W : Nat} {p q : Pos} : q ∈ neighbours W p ↔
    (p.1 ≠ 0 ∧ (q = (p.1 - 1, p.2) ∨ q = (p.1 - 1, p.2 - 1))) ∨ q = (p.1, p.2 - 1) ∨ (p.1 ≠ (W : Int) - 1 ∧ q = (p.1 + 1, p.2 - 1)) := by
  unfold neighbours
  by_cases h1 : p.1 ≠ 0 <;> by_cases h2 : p.1 ≠ (W : Int) - 1 <;> simp [h1, h2] <;> tauto

theorem raster_split {W H : Nat} (hH : 1 ≤ H) : raster 0 W 0 H = raster 0 W 0 1 ++ raster 0 W 1 H := by
  unfold raster
  rw [← List.flatMap_append]
  congr 1
  obtain ⟨k, rfl⟩ : ∃ k, H = k + 1 := ⟨H - 1, by omega⟩
  simp [List.range'_succ]

/-- The first pass establishes the invariant. -/
theorem label_inv (valid : Pos → Bool) {W H : Nat} (hH : 1 ≤ H) :
    Inv valid (Valid valid W H) (raster 0 W 0 H)
      ((raster 0 W 1 H).foldl (visit valid W) ((raster 0 W 0 1).foldl (visitTop valid) { lab := fun _ => 0, count := 1, edges := [] })) := by
  have hsort := raster_sorted 0 W 0 H
  have hnd := raster_nodup 0 W 0 H
  have hmem : ∀ q, q ∈ raster 0 W 0 H ↔ inImage W H q := by
    intro q; rw [mem_raster]; unfold inImage; simp
  have hVal : ∀ q, q ∈ raster 0 W 0 H → valid q = true → Valid valid W H q := fun q hq hv => ⟨(hmem q).1 hq, hv⟩
  have beforeIff : ∀ a p b, raster 0 W 0 H = a ++ p :: b → ∀ q, q ∈ a ↔ inImage W H q ∧ before q p := by
    intro a p b e q
    constructor
    · intro hq
      refine ⟨(hmem q).1 (by rw [e]; exact List.mem_append_left _ hq), ?_⟩
      have := hsort; rw [e] at this
      exact (List.pairwise_append.1 this).2.2 q hq p (by simp)
    · rintro ⟨hq, hb⟩
      exact mem_prefix before_asymm hsort e ((hmem q).2 hq) hb
  -- the top row
  have top : ∀ a b, raster 0 W 0 1 = a ++ b → Inv valid (Valid valid W H) a
      (a.foldl (visitTop valid) { lab := fun _ => 0, count := 1, edges := [] }) := by
    intro a
    induction a using List.reverseRecOn with
    | nil => intro b _; exact Inv.start _ _
    | append_singleton a p ih =>
      intro b e
      have e' : raster 0 W 0 1 = a ++ p :: b := by rw [e]; simp
      have eH : raster 0 W 0 H = a ++ p :: (b ++ raster 0 W 1 H) := by rw [raster_split hH, e']; simp
      rw [List.foldl_append]
      have hp : p ∈ raster 0 W 0 1 := by rw [e']; simp
      rw [mem_raster] at hp
      refine inv_visitTop (ih (p :: b) e') (not_mem_prefix hnd eH) ?_ ?_
      · intro q hq hv
        exact hVal q (by rw [eH]; simp at hq ⊢; tauto) hv
      · intro q
        rw [beforeIff _ _ _ eH]
        constructor
        · rintro ⟨⟨h1, h2⟩, h3⟩
          unfold inImage before near at *
          refine ⟨by omega, Prod.ext (by dsimp only; omega) (by dsimp only; omega)⟩
        · rintro ⟨h1, rfl⟩
          unfold inImage before near
          dsimp only
          omega
  have rest : ∀ a b, raster 0 W 1 H = a ++ b → Inv valid (Valid valid W H) (raster 0 W 0 1 ++ a)
      (a.foldl (visit valid W) ((raster 0 W 0 1).foldl (visitTop valid) { lab := fun _ => 0, count := 1, edges := [] })) := by
    intro a
    induction a using List.reverseRecOn with
    | nil => intro b _; simpa using top (raster 0 W 0 1) [] (by simp)
    | append_singleton a p ih =>
      intro b e
      have e' : raster 0 W 1 H = a ++ p :: b := by rw [e]; simp
      have eH : raster 0 W 0 H = (raster 0 W 0 1 ++ a) ++ p :: b := by rw [raster_split hH, e']; simp
      rw [List.foldl_append]
      have hp : p ∈ raster 0 W 1 H := by rw [e']; simp
      rw [mem_raster] at hp
      rw [← List.append_assoc]
      refine inv_visit (ih (p :: b) e') (not_mem_prefix hnd eH) ?_ ?_
      · intro q hq hv
        exact hVal q (by rw [eH]; simp at hq ⊢; tauto) hv
      · intro q
        rw [beforeIff _ _ _ eH, mem_neighbours]
        constructor
        · rintro (⟨h1, rfl | rfl⟩ | rfl | ⟨h1, rfl⟩) <;> unfold inImage before near <;> dsimp only <;> omega
        · rintro ⟨⟨h1, h2⟩, h3⟩
          unfold inImage before near at *
          obtain ⟨x, y⟩ := p
          obtain ⟨u, v⟩ := q
          simp only [Prod.mk.injEq] at *
          omega
  have := rest (raster 0 W 1 H) [] (by simp)
  rw [← raster_split hH] at this
  exact this

/-- The label image: 0 for invalid pixels and outside. -/
theorem label_zero (valid : Pos → Bool) {W H : Nat} (hH : 1 ≤ H) (p : Pos) :
    (label valid W H).lab p ≠ 0 ↔ Valid valid W H p := by
  have h := label_inv valid (W := W) hH
  have hmem : p ∈ raster 0 W 0 H ↔ inImage W H p := by rw [mem_raster]; unfold inImage; simp
  constructor
  · intro hne
    by_contra hc
    refine hne (h.zero p ?_)
    unfold Valid at hc
    rw [hmem]
    by_cases hi : inImage W H p
    · right; simpa using fun hv => hc ⟨hi, hv⟩
    · exact Or.inl hi
  · rintro ⟨h1, h2⟩
    exact h.pos p (hmem.2 h1) h2

theorem label_lt (valid : Pos → Bool) {W H : Nat} (hH : 1 ≤ H) (p : Pos) :
    (label valid W H).lab p < (label valid W H).count := (label_inv valid (W := W) hH).lt p

theorem label_used (valid : Pos → Bool) {W H : Nat} (hH : 1 ≤ H) (l : Nat) (h1 : l ≠ 0) (h2 : l < (label valid W H).count) :
    ∃ p, Valid valid W H p ∧ (label valid W H).lab p = l := by
  obtain ⟨p, hp, hv, e⟩ := (label_inv valid (W := W) hH).used l h1 h2
  exact ⟨p, ⟨by rw [mem_raster] at hp; unfold inImage; simpa using hp, hv⟩, e⟩

/-- Labels in one edge are the labels of valid pixels, or the last edge. -/
theorem label_conn_field (valid : Pos → Bool) {W H : Nat} (hH : 1 ≤ H) {x y : Nat}
    (g : Conn (label valid W H).edges x y) : x = y ∨ (x ≠ 0 ∧ y ≠ 0 ∧ x < (label valid W H).count ∧ y < (label valid W H).count) := by
  have h := label_inv valid (W := W) hH
  have : Conn ((raster 0 W 1 H).foldl (visit valid W) ((raster 0 W 0 1).foldl (visitTop valid) { lab := fun _ => 0, count := 1, edges := [] })).edges x y := by
    refine g.le ?_
    intro e he
    rcases List.mem_cons.1 he with he | he
    · rw [he]; exact .refl _ _
    · exact .of_mem he
  rcases this.field (P := fun x => x ≠ 0 ∧ x < (label valid W H).count) (fun e he => by
    obtain ⟨p, hp, q, hq, hpv, hqv, e1, e2, _⟩ := h.edge e he
    exact ⟨⟨e1 ▸ h.pos p hp hpv, e1 ▸ h.lt p⟩, ⟨e2 ▸ h.pos q hq hqv, e2 ▸ h.lt q⟩⟩) with h | h
  · exact Or.inl h
  · exact Or.inr ⟨h.1.1, h.2.1, h.1.2, h.2.2⟩

/-- Valid pixels are linked iff their labels are connected. -/
theorem label_conn (valid : Pos → Bool) {W H : Nat} (hH : 1 ≤ H) (p q : Pos) (hp : Valid valid W H p) (hq : Valid valid W H q) :
    Conn (label valid W H).edges ((label valid W H).lab p) ((label valid W H).lab q) ↔ Linked (Valid valid W H) p q := by
  have h := label_inv valid (W := W) hH
  have hmem : ∀ q, inImage W H q → q ∈ raster 0 W 0 H := by
    intro q hq; rw [mem_raster]; unfold inImage at hq; simpa using hq
  have e1 : (label valid W H).lab = ((raster 0 W 1 H).foldl (visit valid W) ((raster 0 W 0 1).foldl (visitTop valid) { lab := fun _ => 0, count := 1, edges := [] })).lab := rfl
  have e2 : ∀ x y, Conn (label valid W H).edges x y ↔ Conn ((raster 0 W 1 H).foldl (visit valid W) ((raster 0 W 0 1).foldl (visitTop valid) { lab := fun _ => 0, count := 1, edges := [] })).edges x y := by
    intro x y
    constructor
    · intro g
      refine g.le ?_
      intro e he
      rcases List.mem_cons.1 he with he | he
      · rw [he]; exact .refl _ _
      · exact .of_mem he
    · exact fun g => g.mono (fun e he => List.mem_cons_of_mem _ he)
  rw [e2, e1]
  generalize ((raster 0 W 1 H).foldl (visit valid W) ((raster 0 W 0 1).foldl (visitTop valid) { lab := fun _ => 0, count := 1, edges := [] })) = s at *
  constructor
  · intro g
    have key : ∀ x y, Conn s.edges x y → x = y ∨ ∃ p ∈ raster 0 W 0 H, ∃ q ∈ raster 0 W 0 H, valid p = true ∧ valid q = true ∧
        s.lab p = x ∧ s.lab q = y ∧ Linked (Valid valid W H) p q := by
      intro x y g
      induction g with
      | rel x y k => exact Or.inr (h.edge _ k)
      | refl x => exact Or.inl rfl
      | symm x y _ ih =>
        rcases ih with e | ⟨p, hp, q, hq, hpv, hqv, e1, e2, hl⟩
        · exact Or.inl e.symm
        · exact Or.inr ⟨q, hq, p, hp, hqv, hpv, e2, e1, hl.symm⟩
      | trans x y z _ _ ih1 ih2 =>
        rcases ih1 with e | ⟨p, hp, q, hq, hpv, hqv, e1, e2, hl⟩
        · rw [e]; exact ih2
        · rcases ih2 with e | ⟨p', hp', q', hq', hpv', hqv', e1', e2', hl'⟩
          · rw [← e]; exact Or.inr ⟨p, hp, q, hq, hpv, hqv, e1, e2, hl⟩
          · exact Or.inr ⟨p, hp, q', hq', hpv, hqv', e1, e2',
              (hl.trans (h.same q hq p' hp' hqv hpv' (e2.trans e1'.symm))).trans hl'⟩
    rcases key _ _ g with e | ⟨p', hp', q', hq', hpv', hqv', e1, e2, hl⟩
    · exact h.same p (hmem p hp.1) q (hmem q hq.1) hp.2 hq.2 e
    · exact ((h.same p (hmem p hp.1) p' hp' hp.2 hpv' e1.symm).trans hl).trans
        (h.same q' hq' q (hmem q hq.1) hqv' hq.2 e2)
  · intro g
    clear hq
    induction g with
    | refl _ => exact .refl _ _
    | step hpq hr hn ih =>
      exact ih.trans (h.adj _ (hmem _ hpq.right.1) _ (hmem _ hr.1) hpq.right.2 hr.2 hn)

theorem label_same (valid : Pos → Bool) {W H : Nat} (hH : 1 ≤ H) (p q : Pos) (hp : Valid valid W H p) (hq : Valid valid W H q)
    (e : (label valid W H).lab p = (label valid W H).lab q) : Linked (Valid valid W H) p q :=
  (label_conn valid hH p q hp hq).1 (by rw [e]; exact .refl _ _)

end VW.Blob

import Verif.Pool.Props
/-!
C15: `OrderedWorkQueue`.
-/
namespace VW.Pool
variable {α : Type} {n : Nat}

abbrev OState (α : Type) := State (List (Int × α) × Int) (Int × α)

/-- reachable states of an `OrderedWorkQueue` with `n` threads -/
abbrev OReach (n : Nat) (s : OState α) : Prop := Reach (ordered α) n ([], 0) s

/-- the indices 0, 1, ..., k-1 -/
def firstIndices (k : Nat) : List Int := (List.range k).map Int.ofNat

theorem mapSet_mem {m : List (Int × α)} {e x : Int × α} (h : x ∈ mapSet m e) : x = e ∨ x ∈ m := by
  induction m with
  | nil => simpa [mapSet] using h
  | cons y m ih =>
    obtain ⟨k, v⟩ := y
    simp only [mapSet] at h
    split at h
    · simpa using h
    · split at h
      · simp at h ⊢; tauto
      · simp at h ⊢; tauto

theorem ordered_next_some {q q' : List (Int × α) × Int} {e : Int × α}
    (h : (ordered α).next q = some (e, q')) : q.1 = e :: q'.1 ∧ e.1 = q.2 ∧ q'.2 = q.2 + 1 := by
  obtain ⟨m, nx⟩ := q
  rcases m with _ | ⟨x, m⟩
  · simp [ordered] at h
  · simp only [ordered] at h
    split at h
    · simp at h
    · simp at h
      obtain ⟨rfl, rfl⟩ := h
      rename_i h
      simp at h
      simp [h]

structure OInv (s : OState α) : Prop where
  idx : ∃ k : Nat, s.src.2 = k ∧ s.dispatched.map (·.1) = firstIndices k
  mem : ∀ e, e ∈ s.dispatched ∨ e ∈ s.src.1 → e ∈ s.added

theorem firstIndices_succ (k : Nat) : firstIndices (k + 1) = firstIndices k ++ [(k : Int)] := by
  simp [firstIndices, List.range_succ]

theorem oinv_get {s : OState α} (h : OInv s) {e : Int × α} {q : List (Int × α) × Int}
    (hq : (ordered α).next s.src = some (e, q)) :
    (∃ k : Nat, q.2 = k ∧ (s.dispatched ++ [e]).map (·.1) = firstIndices k) ∧
    (∀ x, x ∈ s.dispatched ++ [e] ∨ x ∈ q.1 → x ∈ s.added) := by
  obtain ⟨h1, h2, h3⟩ := ordered_next_some hq
  obtain ⟨⟨k, hk, hd⟩, hm⟩ := h
  refine ⟨⟨k + 1, by rw [h3, hk]; simp, ?_⟩, ?_⟩
  · rw [firstIndices_succ, List.map_append, hd]
    simp [h2, hk]
  · intro x hx
    apply hm
    rw [h1]
    simp at hx ⊢
    tauto

theorem oreach_inv {s : OState α} (h : OReach n s) : OInv s := by
  induction h with
  | init => exact ⟨⟨0, rfl, rfl⟩, by simp [State.init]⟩
  | step hr hs ih =>
    rcases hs with hs | hs
    · cases hs
      case add t _ =>
        obtain ⟨h1, h2⟩ := ih
        refine ⟨h1, ?_⟩
        rintro e (he | he)
        · simp [h2 e (.inl he)]
        · rcases mapSet_mem he with he | he
          · simp [he]
          · simp [h2 e (.inr he)]
      all_goals exact ⟨ih.1, ih.2⟩
    · cases hs
      case getSome hq => obtain ⟨a, b⟩ := oinv_get ih hq; exact ⟨a, b⟩
      case nTask hq => obtain ⟨a, b⟩ := oinv_get ih hq; exact ⟨a, b⟩
      all_goals exact ⟨ih.1, ih.2⟩

/-- C15 (order in which tasks are handed to workers): the indices handed out are exactly
0, 1, ..., k-1 in this order, every one of them was added, and the count is what the queue expects
next — whatever the order of the `add_task` calls and the schedule. -/
theorem ordered_dispatch_order {s : OState α} (h : OReach n s) :
    (∃ k : Nat, s.src.2 = k ∧ s.dispatched.map (·.1) = firstIndices k) ∧
    (∀ e ∈ s.dispatched, e ∈ s.added) :=
  ⟨(oreach_inv h).idx, fun e he => (oreach_inv h).mem e (.inl he)⟩

/-- C15: a task is entered only if tasks with all smaller non-negative indices have been added and
handed out before. -/
theorem ordered_no_gap {s : OState α} (h : OReach n s) (e : Int × α) (he : e ∈ s.begun) :
    0 ≤ e.1 ∧ ∀ j : Int, 0 ≤ j → j ≤ e.1 → ∃ x ∈ s.dispatched, x ∈ s.added ∧ x.1 = j := by
  have hi := reach_inv h
  have h1 : e ∈ s.dispatched := by
    have h2 := hi.begun.subset he
    refine hi.tasks.symm.subset ?_
    simp at h2 ⊢
    tauto
  obtain ⟨k, -, hk⟩ := (oreach_inv h).idx
  have h3 : e.1 ∈ firstIndices k := by rw [← hk]; exact List.mem_map_of_mem h1
  simp [firstIndices] at h3
  obtain ⟨i, hik, hi'⟩ := h3
  refine ⟨by omega, fun j hj hje => ?_⟩
  have h4 : j ∈ s.dispatched.map (·.1) := by
    rw [hk]; simp [firstIndices]
    exact ⟨j.toNat, by omega, by omega⟩
  simp at h4
  obtain ⟨a, ha⟩ := h4
  exact ⟨(j, a), ha, (oreach_inv h).mem _ (.inl ha), rfl⟩

/-- C15, partial: with one thread tasks are *entered* in the order 0, 1, 2, ... without gaps.
Missing: several threads (`ordered_start_order_refuted`). -/
theorem ordered_start_order_partial {s : OState α} (hn : n ≤ 1) (h : OReach n s) :
    ∃ k, s.begun.map (·.1) = firstIndices k := by
  obtain ⟨k, -, hk⟩ := (oreach_inv h).idx
  rw [single_order hn h] at hk
  refine ⟨s.begun.length, ?_⟩
  have : s.begun.map (·.1) <+: firstIndices k := by
    rw [← hk]; simp only [List.map_append, List.append_assoc]; exact List.prefix_append _ _
  have h2 := List.prefix_iff_eq_take.1 this
  have h3 := List.IsPrefix.length_le this
  simp [firstIndices] at h3
  rw [h2, List.length_map]
  simp [firstIndices, ← List.map_take, List.take_range, h3]

/-- C15 is false for the order in which tasks are entered when there are two threads. -/
theorem ordered_start_order_refuted :
    ∃ s : OState Unit, OReach 2 s ∧ s.begun.map (·.1) = [1] := by
  have r := Reach.init (S := ordered Unit) (n := 2) (src := ([], 0))
  have r := r.step (.call (.add (0, ()) rfl))
  have r := r.step (.call (.add (1, ()) rfl))
  have r := r.step (.internal (.nAcquire (by decide) rfl))
  have r := r.step (.internal (.nTask (t := (0, ())) (q := ([(1, ())], 1)) rfl (by decide) rfl rfl))
  have r := r.step (.internal (.nSpawn (t := (0, ())) (k := 0) (rest := [1]) rfl rfl))
  have r := r.step (.internal (.nTask (t := (1, ())) (q := ([], 2)) rfl (by decide) rfl rfl))
  have r := r.step (.internal (.nSpawn (t := (1, ())) (k := 1) (rest := []) rfl rfl))
  have r := r.step (.internal (.begin (a := [⟨0, .ready (0, ())⟩]) (b := []) (k := 1) (t := (1, ())) rfl))
  exact ⟨_, r, rfl⟩

/-! ### Every task whose predecessors are present is run -/

/-- keys strictly increasing -/
def Sorted (m : List (Int × α)) : Prop := m.Pairwise (fun a b => a.1 < b.1)

theorem mapSet_sorted {m : List (Int × α)} {e : Int × α} (h : Sorted m) : Sorted (mapSet m e) := by
  induction m with
  | nil => simp [mapSet, Sorted]
  | cons y m ih =>
    obtain ⟨k, v⟩ := y
    simp only [Sorted, List.pairwise_cons] at h
    simp only [mapSet]
    split
    · simp only [Sorted, List.pairwise_cons]
      refine ⟨?_, h⟩
      intro x hx
      simp at hx
      rcases hx with rfl | hx
      · assumption
      · have := h.1 x hx
        omega
    · split
      · rename_i heq
        simp only [Sorted, List.pairwise_cons]
        exact ⟨fun x hx => heq ▸ h.1 x hx, h.2⟩
      · simp only [Sorted, List.pairwise_cons]
        refine ⟨?_, ih h.2⟩
        intro x hx
        rcases mapSet_mem hx with rfl | hx
        · show k < x.1
          omega
        · exact h.1 x hx

theorem mapSet_perm {m : List (Int × α)} {e : Int × α} (h : ∀ x ∈ m, x.1 ≠ e.1) :
    (mapSet m e).Perm (e :: m) := by
  induction m with
  | nil => simp [mapSet]
  | cons y m ih =>
    obtain ⟨k, v⟩ := y
    simp only [mapSet]
    split
    · exact List.Perm.refl _
    · split
      · have := h (k, v) (by simp)
        simp at this
        omega
      · exact ((ih (fun x hx => h x (by simp [hx]))).cons _).trans (List.Perm.swap _ _ _)

theorem osorted {s : OState α} (h : OReach n s) : Sorted s.src.1 := by
  induction h with
  | init => simp [State.init, Sorted]
  | step hr hs ih =>
    rcases hs with hs | hs
    · cases hs
      case add => exact mapSet_sorted ih
      all_goals exact ih
    · cases hs
      case getSome hq =>
        rw [(ordered_next_some hq).1, Sorted, List.pairwise_cons] at ih
        exact ih.2
      case nTask hq =>
        rw [(ordered_next_some hq).1, Sorted, List.pairwise_cons] at ih
        exact ih.2
      all_goals exact ih

/-- clients use each index once and no negative one -/
def ProperIndices (added : List (Int × α)) : Prop :=
  (added.map (·.1)).Nodup ∧ ∀ e ∈ added, 0 ≤ e.1

/-- With proper indices nothing is overwritten or stale. -/
theorem oproper {s : OState α} (h : OReach n s) (hp : ProperIndices s.added) :
    s.added.Perm (s.dispatched ++ s.src.1) ∧ ∀ e ∈ s.src.1, s.src.2 ≤ e.1 := by
  induction h with
  | init => simp [State.init]
  | step hr hs ih =>
    rcases hs with hs | hs
    · cases hs
      case add s t _ =>
        obtain ⟨h1, h2⟩ := hp
        simp only [List.map_append, List.nodup_append, List.mem_append, or_imp, forall_and] at h1 h2
        obtain ⟨ih1, ih2⟩ := ih ⟨h1.1, h2.1⟩
        have hne : ∀ x ∈ s.added, x.1 ≠ t.1 := fun x hx =>
          h1.2.2 x.1 (List.mem_map_of_mem hx) t.1 (by simp)
        have hm : ∀ x ∈ s.src.1, x.1 ≠ t.1 := fun x hx =>
          hne x (ih1.symm.subset (by simp [hx]))
        constructor
        · show (s.added ++ [t]).Perm (s.dispatched ++ mapSet s.src.1 t)
          refine List.Perm.trans ?_ ((mapSet_perm hm).symm.append_left _)
          refine (ih1.append_right [t]).trans ?_
          rw [List.append_assoc]
          exact (List.perm_append_comm).append_left _
        · intro e he
          rcases mapSet_mem he with rfl | he
          · -- its index is not among the dispatched ones 0..k-1
            show s.src.2 ≤ e.1
            obtain ⟨k, hk, hd⟩ := (oreach_inv hr).idx
            by_contra hc
            have h0 := h2.2 e (by simp)
            have : e.1 ∈ s.dispatched.map (·.1) := by
              rw [hd]; simp [firstIndices]; exact ⟨e.1.toNat, by omega, by omega⟩
            obtain ⟨x, hx, hxe⟩ := List.mem_map.1 this
            exact hne x (ih1.symm.subset (by simp [hx])) hxe
          · exact ih2 e he
      all_goals exact ih hp
    · cases hs
      case getSome s _ _ _ _ _ _ _ hq =>
        obtain ⟨ih1, ih2⟩ := ih hp
        have hso := osorted hr
        obtain ⟨e1, e2, e3⟩ := ordered_next_some hq
        rw [e1] at ih1 ih2 hso
        simp only [Sorted, List.pairwise_cons] at hso
        refine ⟨by simpa using ih1, ?_⟩
        intro e he
        have := hso.1 e he
        show _ ≤ _
        rw [e3]; omega
      case nTask s _ _ _ _ _ hq =>
        obtain ⟨ih1, ih2⟩ := ih hp
        have hso := osorted hr
        obtain ⟨e1, e2, e3⟩ := ordered_next_some hq
        rw [e1] at ih1 ih2 hso
        simp only [Sorted, List.pairwise_cons] at hso
        refine ⟨by simpa using ih1, ?_⟩
        intro e he
        have := hso.1 e he
        show _ ≤ _
        rw [e3]; omega
      all_goals exact ih hp

/-- Every added task whose predecessors have all been added is finished, the others never started. -/
def OrderedDone (s : OState α) : Prop :=
  s.workers = [] ∧ s.jwant = 0 ∧ s.jwait = 0 ∧
  ∀ e ∈ s.added, (e ∈ s.finished ↔ ∀ j : Int, 0 ≤ j → j < e.1 → ∃ x ∈ s.added, x.1 = j)

/-- C15 (liveness): if clients use each index once, no kill, and no further calls are made, then every
schedule ends with exactly those tasks finished whose predecessors have all been added. -/
theorem ordered_completes {s : OState α} (hn : 1 ≤ n) (h : OReach n s) (hd : s.die = false)
    (ha : s.alive = true) (hp : ProperIndices s.added) :
    Inevitable (Internal (ordered α)) OrderedDone s := by
  refine inevitable (n := n) (S := ordered α) (size := fun q => q.1.length)
    (G := fun s => OReach n s ∧ s.die = false ∧ s.alive = true ∧ ProperIndices s.added)
    ?_ ?_ ?_ ?_ s ⟨h, hd, ha, hp⟩
  · intro q t q' hq
    simp [(ordered_next_some hq).1]
  · exact fun s hg => ⟨reach_inv hg.1, hg.2.2.1⟩
  · intro s s' hg hs
    obtain ⟨h1, h2, h3⟩ := internal_const hs
    exact ⟨hg.1.step (.internal hs), h1 ▸ hg.2.1, h2 ▸ hg.2.2.1, h3 ▸ hg.2.2.2⟩
  · rintro s ⟨hr, hd, ha, hp⟩ hs
    have hi := reach_inv hr
    have hl : s.lost = [] := by
      by_contra hc
      have := hi.lostDie hc
      simp_all
    obtain ⟨h1, h2, h3, h4, h5, h6⟩ := stuck (S := ordered α) hi ha hl hs
    refine ⟨h1, h5, h6, ?_⟩
    have hdf : s.dispatched.Perm s.finished := by
      have := hi.tasks
      simpa [State.assigned, State.running, State.ran, h1, h2, hl] using this
    have hnone : (ordered α).next s.src = none := by
      by_contra hc
      rcases reach_fetch hn rfl hr hd hc with h | h | h
      · omega
      · simp [h2] at h
      · simp [State.fetchers, h1] at h
    obtain ⟨hperm, hge⟩ := oproper hr hp
    obtain ⟨k, hk, hidx⟩ := (oreach_inv hr).idx
    have hso := osorted hr
    -- no queued task has the next index
    have hmiss : ∀ e ∈ s.src.1, e.1 ≠ k := by
      intro e he hek
      rcases hsrc : s.src with ⟨m, nx⟩
      simp only [hsrc] at *
      rcases m with _ | ⟨x, m⟩
      · simp at he
      · have hx : k ≤ x.1 := by have := hge x (by simp); omega
        have hxk : x.1 = k := by
          simp at he
          rcases he with rfl | he
          · exact hek
          · simp only [Sorted, List.pairwise_cons] at hso
            have := hso.1 e he
            omega
        simp [ordered, hxk, hk] at hnone
    intro e he
    constructor
    · intro hf j hj hje
      have h7 : e.1 ∈ firstIndices k := by
        rw [← hidx]; exact List.mem_map_of_mem (hdf.symm.subset hf)
      simp [firstIndices] at h7
      obtain ⟨i, hik, hi'⟩ := h7
      have h8 : j ∈ s.dispatched.map (·.1) := by
        rw [hidx]; simp [firstIndices]; exact ⟨j.toNat, by omega, by omega⟩
      obtain ⟨x, hx, hxj⟩ := List.mem_map.1 h8
      exact ⟨x, hperm.symm.subset (by simp [hx]), hxj⟩
    · intro hall
      have := hperm.subset he
      simp at this
      rcases this with hd' | hq
      · exact hdf.subset hd'
      · exfalso
        have hge' := hge e hq
        have hne := hmiss e hq
        obtain ⟨x, hx, hxk⟩ := hall k (by omega) (by omega)
        have := hperm.subset hx
        simp at this
        rcases this with h9 | h9
        · have h10 : (k : Int) ∈ firstIndices k := by
            rw [← hidx, ← hxk]; exact List.mem_map_of_mem h9
          simp [firstIndices] at h10
          obtain ⟨i, hik, hii⟩ := h10
          omega
        · exact hmiss x h9 hxk

/-- A stale entry (index below the next expected one) blocks the queue for good: whatever happens
afterwards, nothing is handed out any more. -/
theorem ordered_stale_blocks {s s' : OState α} (h : OReach n s) (hst : ∃ e ∈ s.src.1, e.1 < s.src.2)
    (hs : Steps (Step (ordered α)) s s') : s'.dispatched = s.dispatched := by
  have key : ∀ s : OState α, OReach n s → (∃ e ∈ s.src.1, e.1 < s.src.2) → (ordered α).next s.src = none := by
    rintro s hr ⟨e, he, hlt⟩
    have hso := osorted hr
    rcases hsrc : s.src with ⟨m, nx⟩
    simp only [hsrc] at *
    rcases m with _ | ⟨x, m⟩
    · simp at he
    · have : x.1 ≠ nx := by
        simp at he
        rcases he with rfl | he
        · omega
        · simp only [Sorted, List.pairwise_cons] at hso
          have := hso.1 e he
          omega
      simp [ordered, this]
  have hadd : ∀ (m : List (Int × α)) (nx : Int) (e : Int × α), (∃ x ∈ m, x.1 < nx) →
      ∃ x ∈ mapSet m e, x.1 < nx := by
    intro m nx e
    induction m with
    | nil => simp
    | cons y m ih =>
      obtain ⟨k, v⟩ := y
      rintro ⟨x, hx, hlt⟩
      simp only [mapSet]
      split
      · exact ⟨x, by simp at hx ⊢; tauto, hlt⟩
      · split
        · rename_i h1 h2
          simp at hx
          rcases hx with rfl | hx
          · exact ⟨e, by simp, by simp at hlt; omega⟩
          · exact ⟨x, by simp [hx], hlt⟩
        · simp at hx
          rcases hx with rfl | hx
          · exact ⟨(k, v), by simp, hlt⟩
          · obtain ⟨z, hz, hzl⟩ := ih ⟨x, hx, hlt⟩
            exact ⟨z, by simp [hz], hzl⟩
  have : OReach n s' ∧ (∃ e ∈ s'.src.1, e.1 < s'.src.2) ∧ s'.dispatched = s.dispatched := by
    induction hs with
    | refl => exact ⟨h, hst, rfl⟩
    | tail _ h2 ih =>
      obtain ⟨hr, hst', hj⟩ := ih
      have hno := key _ hr hst'
      refine ⟨hr.step h2, ?_⟩
      rcases h2 with h2 | h2
      · cases h2
        case add => exact ⟨hadd _ _ _ hst', hj⟩
        all_goals exact ⟨hst', hj⟩
      · cases h2
        case getSome hq => rw [hno] at hq; simp at hq
        case nTask hq => rw [hno] at hq; simp at hq
        all_goals exact ⟨hst', hj⟩
  exact this.2.2

/-- the most recently added task with a given index -/
def latest (added : List (Int × α)) (i : Int) : Option (Int × α) :=
  added.reverse.find? (fun x => x.1 == i)

theorem mapSet_key {m : List (Int × α)} {e x : Int × α} (hs : Sorted m) (h : x ∈ mapSet m e) :
    x = e ∨ (x ∈ m ∧ x.1 ≠ e.1) := by
  induction m with
  | nil => left; simpa [mapSet] using h
  | cons y m ih =>
    obtain ⟨k, v⟩ := y
    simp only [Sorted, List.pairwise_cons] at hs
    simp only [mapSet] at h
    split at h
    · simp only [List.mem_cons] at h
      rcases h with h | h | h
      · exact .inl h
      · right; subst h; exact ⟨by simp, by simp; omega⟩
      · right
        have := hs.1 x h
        exact ⟨by simp [h], by simp at this ⊢; omega⟩
    · split at h
      · simp only [List.mem_cons] at h
        rcases h with h | h
        · exact .inl h
        · right
          have := hs.1 x h
          exact ⟨by simp [h], by simp at this ⊢; omega⟩
      · simp only [List.mem_cons] at h
        rcases h with h | h
        · right; subst h; exact ⟨by simp, by simp; omega⟩
        · rcases ih hs.2 h with h | h
          · exact .inl h
          · right; exact ⟨by simp [h.1], h.2⟩

theorem queued_latest {s : OState α} (h : OReach n s) : ∀ e ∈ s.src.1, latest s.added e.1 = some e := by
  induction h with
  | init => simp [State.init]
  | step hr hs ih =>
    rcases hs with hs | hs
    · cases hs
      case add t _ =>
        intro e he
        rcases mapSet_key (osorted hr) he with rfl | ⟨h1, h2⟩
        · simp [latest]
        · have := ih e h1
          simp only [latest] at this ⊢
          simp [List.find?_cons, Ne.symm h2, this]
      all_goals exact ih
    · cases hs
      case getSome hq => exact fun e he => ih e (by rw [(ordered_next_some hq).1]; simp [he])
      case nTask hq => exact fun e he => ih e (by rw [(ordered_next_some hq).1]; simp [he])
      all_goals exact ih

/-- C15: when a task is handed out, it is the one most recently added under its index (a later
`add_task` with the same index replaces the earlier one as long as that has not been handed out). -/
theorem ordered_latest_wins {s s' : OState α} (h : OReach n s) (hs : Step (ordered α) s s')
    {e : Int × α} (hd : s'.dispatched = s.dispatched ++ [e]) : latest s.added e.1 = some e := by
  rcases hs with hs | hs
  · cases hs <;> simp at hd
  · cases hs
    case getSome hq =>
      simp at hd; subst hd
      exact queued_latest h _ (by rw [(ordered_next_some hq).1]; simp)
    case nTask hq =>
      simp at hd; subst hd
      exact queued_latest h _ (by rw [(ordered_next_some hq).1]; simp)
    all_goals simp at hd

/-- Non-vacuity: indices 1 and 0 added in this order; a reachable state of a one-thread pool. -/
example : ∃ s : OState Nat, OReach 1 s ∧ s.die = false ∧ s.alive = true ∧ ProperIndices s.added ∧
    s.added = [(1, 10), (0, 20)] ∧ s.begun = [(0, 20)] := by
  have r := Reach.init (S := ordered Nat) (n := 1) (src := ([], 0))
  have r := r.step (.call (.add (1, 10) rfl))
  have r := r.step (.call (.add (0, 20) rfl))
  have r := r.step (.internal (.nAcquire (by decide) rfl))
  have r := r.step (.internal (.nTask (t := (0, 20)) (q := ([(1, 10)], 1)) rfl (by decide) rfl rfl))
  have r := r.step (.internal (.nSpawn (t := (0, 20)) (k := 0) (rest := []) rfl rfl))
  have r := r.step (.internal (.begin (a := []) (b := []) (k := 0) (t := (0, 20)) rfl))
  refine ⟨_, r, rfl, rfl, ⟨?_, ?_⟩, rfl, rfl⟩ <;> simp [State.init]

/-- Non-vacuity of `ordered_stale_blocks`: index 0 used twice, the second time after the first task
was handed out. -/
example : ∃ s : OState Nat, OReach 1 s ∧ (∃ e ∈ s.src.1, e.1 < s.src.2) ∧ s.added.length = 3 := by
  have r := Reach.init (S := ordered Nat) (n := 1) (src := ([], 0))
  have r := r.step (.call (.add (0, 20) rfl))
  have r := r.step (.internal (.nAcquire (by decide) rfl))
  have r := r.step (.internal (.nTask (t := (0, 20)) (q := ([], 1)) rfl (by decide) rfl rfl))
  have r := r.step (.call (.add (0, 30) rfl))
  have r := r.step (.call (.add (1, 40) rfl))
  exact ⟨_, r, ⟨(0, 30), by simp [ordered, mapSet], by simp [ordered]⟩, rfl⟩

end VW.Pool

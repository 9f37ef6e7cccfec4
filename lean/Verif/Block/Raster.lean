import Verif.Block.Cover
import Verif.Cache.Lines
import Mathlib.Tactic.Tauto
/-! C26: rasterizing and reading through `block_rasterize` / `block_cache` is transparent. -/
namespace VW.Block
open VW.Cache (Id)
variable {α : Type}

theorem index_inj {W ix iy jx jy : Int} (h1 : 0 ≤ ix) (h2 : ix < W) (h3 : 0 ≤ jx) (h4 : jx < W)
    (e : ix + iy * W = jx + jy * W) : ix = jx ∧ iy = jy := by
  have hy : iy = jy := by
    by_contra hne
    rcases lt_or_gt_of_ne hne with h | h
    · have := Int.mul_le_mul_of_nonneg_right (show iy + 1 ≤ jy by omega) (show 0 ≤ W by omega)
      have e2 : (iy + 1) * W = iy * W + W := by ring
      omega
    · have := Int.mul_le_mul_of_nonneg_right (show jy + 1 ≤ iy by omega) (show 0 ≤ W by omega)
      have e2 : (jy + 1) * W = jy * W + W := by ring
      omega
  subst hy
  exact ⟨by omega, rfl⟩

/-- Every table entry is a live line whose generator makes the block of its index. -/
def TableOk (c : Child α) (bs : Size) (W H : Int) (t : Int → Option Id) (s : Cache.State (Img α)) : Prop :=
  ∀ k id, t k = some id → ∃ ix iy, k = ix + iy * W ∧ 0 ≤ ix ∧ ix < W ∧ 0 ≤ iy ∧ iy < H ∧
    ∃ l, s.lines id = some l ∧ ∀ j, l.generate j = some (c.generate (cellBox c bs ix iy))

theorem fillTable_spec (c : Child α) (psz : Nat) (bs : Size) (W H : Int) {m : Nat} :
    ∀ (L : List (Int × Int)) (s : Cache.State (Img α)) (t : Int → Option Id), Cache.Reach m s →
      (∀ q ∈ L, 0 ≤ q.1 ∧ q.1 < W ∧ 0 ≤ q.2 ∧ q.2 < H) → TableOk c bs W H t s →
      ∃ s' t', fillTable c psz bs W L s t = some (s', t') ∧ Cache.Reach m s' ∧ TableOk c bs W H t' s' ∧
        (∀ k, (t k).isSome → (t' k).isSome) ∧ ∀ q ∈ L, (t' (q.1 + q.2 * W)).isSome := by
  intro L
  induction L with
  | nil => intro s t hr _ ht; exact ⟨s, t, rfl, hr, ht, fun _ h => h, by simp⟩
  | cons q L ih =>
    obtain ⟨ix, iy⟩ := q
    intro s t hr hq ht
    obtain ⟨V, I, k⟩ := Cache.reach_inv hr
    obtain ⟨s1, e, _, hlines, _⟩ := Cache.insert_spec k (c.blockBytes psz (cellBox c bs ix iy))
      (fun _ => some (c.generate (cellBox c bs ix iy)))
    have hst : Cache.step s (.insert (c.blockBytes psz (cellBox c bs ix iy))
      (fun _ => some (c.generate (cellBox c bs ix iy)))) = .ok s1 (.id s.nextId) := by
      simp only [Cache.step, e, Cache.Res.map]
    have hr1 : Cache.Reach m s1 := .ok hr hst
    have ht1 : TableOk c bs W H (fun k => if k = ix + iy * W then some s.nextId else t k) s1 := by
      intro k' id hk
      dsimp only at hk
      split at hk
      · rename_i hk'
        cases hk
        have := hq (ix, iy) List.mem_cons_self
        refine ⟨ix, iy, hk', this.1, this.2.1, this.2.2.1, this.2.2.2,
          ⟨c.blockBytes psz (cellBox c bs ix iy), (fun _ => some (c.generate (cellBox c bs ix iy))), none, 0, 0, false⟩, ?_, fun _ => rfl⟩
        rw [hlines, Cache.upd_eq]
      · obtain ⟨jx, jy, h1, h2, h3, h4, h4', l, h5, h6⟩ := ht k' id hk
        obtain ⟨l', h7, h8⟩ := Cache.line_kept hr h5 _ (by intro hc; cases hc) (.inl ⟨_, hst⟩)
        exact ⟨jx, jy, h1, h2, h3, h4, h4', l', h7, by rw [h8]; exact h6⟩
    obtain ⟨s', t', e', hr', ht', hk', hL'⟩ := ih s1 _ hr1 (fun q hq' => hq q (List.mem_cons_of_mem _ hq')) ht1
    refine ⟨s', t', ?_, hr', ht', ?_, ?_⟩
    · simp only [fillTable, e]; exact e'
    · intro k' hk0
      apply hk'
      split <;> simp [hk0]
    · intro q hq'
      rcases List.mem_cons.1 hq' with rfl | hq'
      · apply hk'; simp
      · exact hL' q hq'

theorem mem_indices {W H : Int} {q : Int × Int} :
    q ∈ indices W H ↔ 0 ≤ q.1 ∧ q.1 < W ∧ 0 ≤ q.2 ∧ q.2 < H := by
  obtain ⟨a, b⟩ := q
  simp only [indices, List.mem_flatMap, List.mem_map, List.mem_range, Prod.mk.injEq]
  constructor
  · rintro ⟨iy, h1, ix, h2, rfl, rfl⟩; omega
  · rintro ⟨h1, h2, h3, h4⟩
    exact ⟨b.toNat, by omega, a.toNat, by omega, by omega, by omega⟩

/-- What the theorems need of a view and the cache. -/
structure ViewOk (v : View α) (m : Nat) (s : Cache.State (Img α)) : Prop where
  reach : Cache.Reach m s
  bx : 0 < v.bs.x
  by' : 0 < v.bs.y
  mgr : ∀ g, v.mgr = some g → g.bs = v.bs ∧ g.W = (v.child.cols - 1).tdiv g.bs.x + 1 ∧
    g.H = (v.child.rows - 1).tdiv g.bs.y + 1 ∧ TableOk v.child g.bs g.W g.H g.table s ∧
    ∀ ix iy, 0 ≤ ix → ix < g.W → 0 ≤ iy → iy < g.H → (g.table (ix + iy * g.W)).isSome

theorem effective_pos (b : Size) (rows cols planes psz : Int) (hr : 0 < rows) (hc : 0 < cols) :
    0 < (effectiveBlockSize b rows cols planes psz).x ∧ (effectiveBlockSize b rows cols planes psz).x ≤ 5120 ∧
    0 < (effectiveBlockSize b rows cols planes psz).y ∧ (effectiveBlockSize b rows cols planes psz).y ≤ 5120 := by
  unfold effectiveBlockSize adjustBlockSize
  split
  · unfold defaultBlockSize
    dsimp only
    generalize (2097152 : Int).tdiv (planes * cols * psz) = r
    split
    · omega
    · split <;> omega
  · dsimp only; omega

theorem plain_ok {m : Nat} (c : Child α) (b : Size) (psz : Nat) (hr : 0 < c.rows) (hc : 0 < c.cols)
    {s : Cache.State (Img α)} (h : Cache.Reach m s) : ViewOk (View.plain c b psz) m s := by
  have := effective_pos b c.rows c.cols c.planes psz hr hc
  exact ⟨h, this.1, this.2.2.1, by intro g hg; cases hg⟩

theorem cached_ok {m : Nat} (c : Child α) (b : Size) (psz : Nat) (hr : 0 < c.rows) (hc : 0 < c.cols)
    {s : Cache.State (Img α)} (h : Cache.Reach m s) :
    ∃ s' v, View.cached c b psz s = some (s', v) ∧ ViewOk v m s' ∧ v.child = c := by
  have hp := effective_pos b c.rows c.cols c.planes psz hr hc
  obtain ⟨bs, hbs⟩ : ∃ bs, effectiveBlockSize b c.rows c.cols c.planes psz = bs := ⟨_, rfl⟩
  rw [hbs] at hp
  obtain ⟨W, hW⟩ : ∃ W, (c.cols - 1).tdiv bs.x + 1 = W := ⟨_, rfl⟩
  obtain ⟨H, hH⟩ : ∃ H, (c.rows - 1).tdiv bs.y + 1 = H := ⟨_, rfl⟩
  obtain ⟨s', t', e, hr', ht', _, hL⟩ := fillTable_spec c psz bs W H (indices W H) s (fun _ => none) h
    (fun q hq => mem_indices.1 hq) (by intro k id hk; cases hk)
  refine ⟨s', ⟨c, bs, some ⟨bs, W, H, t'⟩⟩, ?_, ⟨hr', hp.1, hp.2.2.1, ?_⟩, rfl⟩
  · simp only [View.cached, initTable, hbs, hW, hH, e]
    rw [if_neg (by omega)]
  · intro g hg
    cases hg
    refine ⟨rfl, hW.symm, hH.symm, ht', fun ix iy h1 h2 h3 h4 => hL (ix, iy) (mem_indices.2 ⟨h1, h2, h3, h4⟩)⟩

/-- Any cache call by anybody, except destroying lines of the view, keeps the view intact. -/
theorem viewOk_step {v : View α} {m : Nat} {s s' : Cache.State (Img α)} (h : ViewOk v m s)
    {op : Cache.Op (Img α)} (hop : ∀ id, v.Owns id → op ≠ .destroy id)
    (hp : Cache.Post (Cache.step s op) s') : ViewOk v m s' := by
  refine ⟨?_, h.bx, h.by', fun g hg => ?_⟩
  · rcases hp with ⟨o, e⟩ | e | e
    · exact .ok h.reach e
    · exact .thrown h.reach e
    · exact .blocked h.reach e
  · obtain ⟨h1, h2, h3, h4, h5⟩ := h.mgr g hg
    refine ⟨h1, h2, h3, fun k id hk => ?_, h5⟩
    obtain ⟨ix, iy, a1, a2, a3, a4, a4', l, a5, a6⟩ := h4 k id hk
    obtain ⟨l', h7, h8⟩ := Cache.line_kept h.reach a5 op (hop id ⟨g, k, hg, hk⟩) hp
    exact ⟨ix, iy, a1, a2, a3, a4, a4', l', h7, by rw [h8]; exact a6⟩

theorem generate_read (c : Child α) (b : Rect) (i j p : Int) (hp : 0 ≤ p ∧ p < c.planes)
    (hb : b.has (b.x0 + i) (b.y0 + j) = true) (hi : 0 ≤ i) (hj : 0 ≤ j) :
    (c.generate b).read i j p = some (c.px (b.x0 + i) (b.y0 + j) p) := by
  rw [has_iff] at hb
  have he : b.empty = false := by
    simp only [Rect.empty, Bool.or_eq_false_iff, decide_eq_false_iff_not]; omega
  unfold Img.read Child.generate Rect.width Rect.height
  simp only [he, Bool.false_eq_true, if_false]
  rw [if_pos]
  omega

/-- Reading through the block table: the block of an in-image pixel is in the table, and dereferencing it
gives, at the local position, the child's pixel. -/
theorem block_read {v : View α} {m : Nat} {s s' : Cache.State (Img α)} (h : ViewOk v m s) {g : Manager}
    (hg : v.mgr = some g) {x y : Int} (hx : 0 ≤ x ∧ x < v.child.cols) (hy : 0 ≤ y ∧ y < v.child.rows) :
    ∃ id, g.lookup (g.blockIndex x y) = some id ∧
      ∀ img, Cache.step s (.deref id) = .ok s' (.val img) →
        ∀ x' y' p, g.blockIndex x' y' = g.blockIndex x y → 0 ≤ x' ∧ x' < v.child.cols →
          0 ≤ y' ∧ y' < v.child.rows → 0 ≤ p ∧ p < v.child.planes →
          img.read (x' - (g.startPixel (g.blockIndex x y)).1) (y' - (g.startPixel (g.blockIndex x y)).2) p =
            some (v.child.px x' y' p) := by
  obtain ⟨h1, h2, h3, h4, h5⟩ := h.mgr g hg
  have bx := h.bx
  have by' := h.by'
  rw [← h1] at bx by'
  have c1 := cell_in_table bx hx.1 hx.2
  have c2 := cell_in_table by' hy.1 hy.2
  rw [← h2] at c1
  rw [← h3] at c2
  obtain ⟨id, hid⟩ := Option.isSome_iff_exists.1 (h5 _ _ c1.1 c1.2.1 c2.1 c2.2.1)
  refine ⟨id, ?_, ?_⟩
  · unfold Manager.lookup Manager.blockIndex
    dsimp only
    rw [if_neg (by omega)]
    exact hid
  · intro img hd x' y' p hidx hx' hy' hp
    obtain ⟨jx, jy, a1, a2, a3, a4, _, l, a5, a6⟩ := h4 _ _ hid
    obtain ⟨e1, e2⟩ := index_inj c1.1 c1.2.1 a2 a3 a1
    subst e1 e2
    have hd' : Cache.deref s id = .ok s' img := by
      rcases hdd : Cache.deref s id with ⟨t, w⟩ | _ | _ | _ <;>
        simp only [Cache.step, hdd, Cache.Res.map] at hd <;> cases hd
      rfl
    obtain ⟨l0, l', k, b1, _, _, _, _, _, b2, _⟩ := Cache.deref_returns_generated h.reach hd'
    rw [a5] at b1; cases b1
    rw [a6] at b2; cases b2
    simp only [Manager.startPixel, Manager.blockIndex, Prod.mk.injEq] at hidx ⊢
    have d1 := cell_in_table bx hx'.1 hx'.2
    have d2 := cell_in_table by' hy'.1 hy'.2
    rw [hidx.1] at d1
    rw [hidx.2] at d2
    have n1 := mul_nonneg c1.1 bx.le
    have n2 := mul_nonneg c2.1 by'.le
    generalize hX : x.tdiv g.bs.x = X at *
    generalize hY : y.tdiv g.bs.y = Y at *
    have ex : (cellBox v.child g.bs X Y).x0 = X * g.bs.x := by
      unfold cellBox Rect.crop; dsimp only; split <;> omega
    have ey : (cellBox v.child g.bs X Y).y0 = Y * g.bs.y := by
      unfold cellBox Rect.crop; dsimp only; split <;> omega
    have hb : (cellBox v.child g.bs X Y).has x' y' = true := by
      unfold cellBox
      rw [crop_has, has_iff, has_iff]
      dsimp only
      omega
    have key := generate_read v.child (cellBox v.child g.bs X Y) (x' - X * g.bs.x) (y' - Y * g.bs.y) p hp
      (by rw [ex, ey, add_sub_cancel, add_sub_cancel]; exact hb) (by omega) (by omega)
    rw [key, ex, ey, add_sub_cancel, add_sub_cancel]

/-- C25: the block table accepts exactly the indices of the grid (anything else throws), and the line it
returns makes the block of that index. -/
theorem lookup_exact {v : View α} {m : Nat} {s : Cache.State (Img α)} (h : ViewOk v m s) {g : Manager}
    (hg : v.mgr = some g) (ix iy : Int) :
    ((g.lookup (ix, iy)).isSome ↔ 0 ≤ ix ∧ ix < g.W ∧ 0 ≤ iy ∧ iy < g.H) ∧
    ∀ id, g.lookup (ix, iy) = some id → ∃ l, s.lines id = some l ∧
      ∀ j, l.generate j = some (v.child.generate (cellBox v.child g.bs ix iy)) := by
  obtain ⟨h1, h2, h3, h4, h5⟩ := h.mgr g hg
  have key : ∀ id, g.lookup (ix, iy) = some id →
      (0 ≤ ix ∧ ix < g.W ∧ 0 ≤ iy ∧ iy < g.H) ∧ g.table (ix + iy * g.W) = some id := by
    intro id hid
    unfold Manager.lookup at hid
    dsimp only at hid
    split at hid
    · cases hid
    · exact ⟨by omega, hid⟩
  refine ⟨⟨fun hs => ?_, fun hr => ?_⟩, fun id hid => ?_⟩
  · obtain ⟨id, hid⟩ := Option.isSome_iff_exists.1 hs
    exact (key id hid).1
  · unfold Manager.lookup
    dsimp only
    rw [if_neg (by omega)]
    exact h5 _ _ hr.1 hr.2.1 hr.2.2.1 hr.2.2.2
  · obtain ⟨k1, k2⟩ := key id hid
    obtain ⟨jx, jy, a1, a2, a3, a4, _, l, a5, a6⟩ := h4 _ _ k2
    obtain ⟨e1, e2⟩ := index_inj k1.1 k1.2.1 a2 a3 a1
    subst e1 e2
    exact ⟨l, a5, a6⟩

/-! ### Pixel reads -/

/-- C26 (pixel access): after any history of the cache, reading a pixel of the image through the view
gives the child's pixel. -/
theorem read_transparent {v : View α} {m : Nat} {s s' : Cache.State (Img α)} (h : ViewOk v m s)
    {x y p : Int} (hx : 0 ≤ x ∧ x < v.child.cols) (hy : 0 ≤ y ∧ y < v.child.rows)
    (hp : 0 ≤ p ∧ p < v.child.planes) {r : Option α} (hr : v.ReadPixel s x y p s' r) :
    r = some (v.child.px x y p) := by
  cases hr with
  | @single g id _ img hg h1 hid hd =>
    obtain ⟨id', e, k⟩ := block_read (s' := s') h hg hx hy
    obtain ⟨k1, k2, k3, k4, k5⟩ := h.mgr g hg
    have bx := h.bx
    have by' := h.by'
    rw [← k1] at bx by'
    have c1 := cell_in_table bx hx.1 hx.2
    have c2 := cell_in_table by' hy.1 hy.2
    rw [← k2] at c1
    rw [← k3] at c2
    simp only [Manager.onlyOne, decide_eq_true_eq] at h1
    have hW : g.W = 1 := by
      have h0 : 0 < g.W := by omega
      have h0' : 1 ≤ g.H := by omega
      have := Int.mul_le_mul_of_nonneg_left h0' h0.le
      omega
    rw [hW, one_mul] at h1
    have z1 : x.tdiv g.bs.x = 0 := by omega
    have z2 : y.tdiv g.bs.y = 0 := by omega
    have : id' = id := by
      unfold Manager.lookup Manager.blockIndex at e
      dsimp only at e
      rw [z1, z2] at e
      split at e
      · cases e
      · simp only [zero_mul, add_zero] at e
        rw [hid] at e; cases e; rfl
    subst this
    have := k img hd x y p rfl hx hy hp
    simpa [Manager.startPixel, Manager.blockIndex, z1, z2] using this
  | @block g id _ img hg h1 hid hd =>
    obtain ⟨id', e, k⟩ := block_read (s' := s') h hg hx hy
    rw [hid] at e; cases e
    exact k img hd x y p rfl hx hy hp
  | direct => rfl

/-- C26 (pixel access never fails): the read always gets through. -/
theorem read_total {v : View α} {m : Nat} {s : Cache.State (Img α)} (h : ViewOk v m s)
    {x y : Int} (p : Int) (hx : 0 ≤ x ∧ x < v.child.cols) (hy : 0 ≤ y ∧ y < v.child.rows) :
    ∃ s' r, v.ReadPixel s x y p s' r := by
  rcases hg : v.mgr with _ | g
  · exact ⟨_, _, .direct hg⟩
  · obtain ⟨k1, k2, k3, k4, k5⟩ := h.mgr g hg
    have bx := h.bx
    have by' := h.by'
    rw [← k1] at bx by'
    have c1 := cell_in_table bx hx.1 hx.2
    have c2 := cell_in_table by' hy.1 hy.2
    rw [← k2] at c1
    rw [← k3] at c2
    have tot : ∀ k id, g.table k = some id → ∃ s' v, Cache.step s (.deref id) = .ok s' (.val v) := by
      intro k id hid
      obtain ⟨ix, iy, _, _, _, _, _, l, a5, a6⟩ := k4 k id hid
      exact Cache.deref_total h.reach a5 (fun k => by rw [a6]; simp)
    cases h1 : g.onlyOne
    · obtain ⟨id, hid, _⟩ := block_read (s' := s) h hg hx hy
      have hid' := hid
      unfold Manager.lookup at hid'
      split at hid'
      · cases hid'
      · obtain ⟨s', v, e⟩ := tot _ _ hid'
        exact ⟨_, _, .block hg h1 hid e⟩
    · obtain ⟨id, hid⟩ := Option.isSome_iff_exists.1 (k5 0 0 (by omega) (by omega) (by omega) (by omega))
      rw [zero_mul, zero_add] at hid
      obtain ⟨s', v, e⟩ := tot _ _ hid
      exact ⟨_, _, .single hg h1 hid e⟩

/-! ### Rasterizing -/

/-- Forgetting what the functor does inside. -/
def proj (s : RState α) : PState :=
  { info := s.info, idle := s.idle, running := s.running.map Work.box, stopped := s.stopped,
    finished := s.finished }

/-- A pixel of a box, in local coordinates. -/
def Local (v : View α) (b : Rect) (i j p : Int) : Prop :=
  0 ≤ i ∧ i < b.width ∧ 0 ≤ j ∧ j < b.height ∧ 0 ≤ p ∧ p < v.child.planes

theorem mem_pixels {w h pl i j p : Int} :
    (i, j, p) ∈ pixels w h pl ↔ 0 ≤ i ∧ i < w ∧ 0 ≤ j ∧ j < h ∧ 0 ≤ p ∧ p < pl := by
  simp only [pixels, List.mem_flatMap, List.mem_map, List.mem_range, Prod.mk.injEq]
  constructor
  · rintro ⟨p', h1, j', h2, i', h3, rfl, rfl, rfl⟩; omega
  · rintro ⟨h1, h2, h3, h4, h5, h6⟩
    exact ⟨p.toNat, by omega, j.toNat, by omega, i.toNat, by omega, by omega, by omega, by omega⟩

def WorkOk (v : View α) (bbox : Rect) (dest : Int → Int → Int → Option α) : Work α → Prop
  | .fetch _ => True
  | .copy b _ src todo =>
    (∀ i j p, (i, j, p) ∈ todo → Local v b i j p) ∧
    (∀ i j p, Local v b i j p → src i j p = some (v.child.px (b.x0 + i) (b.y0 + j) p)) ∧
    ∀ i j p, Local v b i j p → (i, j, p) ∈ todo ∨
      dest (b.x0 - bbox.x0 + i) (b.y0 - bbox.y0 + j) p = some (v.child.px (b.x0 + i) (b.y0 + j) p)

structure RInv (v : View α) (bbox : Rect) (n m : Nat) (s : RState α) : Prop where
  proj : PReach bbox v.bs n (proj s)
  view : ViewOk v m s.cache
  good : s.bad = false
  work : ∀ w ∈ s.running, WorkOk v bbox s.dest w
  fin : ∀ b ∈ s.finished, ∀ i j p, Local v b i j p →
    s.dest (b.x0 - bbox.x0 + i) (b.y0 - bbox.y0 + j) p = some (v.child.px (b.x0 + i) (b.y0 + j) p)
  sound : ∀ i j p a, s.dest i j p = some a → inDest bbox.width bbox.height v.child.planes i j p ∧
    a = v.child.px (bbox.x0 + i) (bbox.y0 + j) p

/-- The requested box lies in the image. -/
def Within (c : Child α) (bbox : Rect) : Prop :=
  bbox.empty = false ∧ 0 ≤ bbox.x0 ∧ bbox.x1 ≤ c.cols ∧ 0 ≤ bbox.y0 ∧ bbox.y1 ≤ c.rows

theorem local_bounds {v : View α} {b : Rect} {i j p : Int} (h : Local v b i j p) :
    b.empty = false ∧ b.x0 + i < b.x1 ∧ b.y0 + j < b.y1 ∧ b.x0 ≤ b.x0 + i ∧ b.y0 ≤ b.y0 + j := by
  obtain ⟨h1, h2, h3, h4, h5, h6⟩ := h
  unfold Rect.width at h2
  unfold Rect.height at h4
  cases he : b.empty
  · simp only [he, Bool.false_eq_true, if_false] at h2 h4
    exact ⟨rfl, by omega, by omega, by omega, by omega⟩
  · simp only [he, if_true] at h2; omega

theorem rstep_inv {v : View α} {bbox : Rect} {n m : Nat} (hw : Within v.child bbox)
    {s s' : RState α} (k : RInv v bbox n m s)
    (st : RStep v bbox bbox.width bbox.height v.child.planes s s') : RInv v bbox n m s' := by
  obtain ⟨k1, k2, k3, k4, k5, k6⟩ := k
  have pin := preach_inv k2.bx k2.by' k1
  have hbw : bbox.width = bbox.x1 - bbox.x0 ∧ bbox.height = bbox.y1 - bbox.y0 := by
    unfold Rect.width Rect.height; simp [hw.1]
  have hbox : ∀ w ∈ s.running, w.box.empty = false ∧ bbox.x0 ≤ w.box.x0 ∧ bbox.y0 ≤ w.box.y0 ∧
      w.box.x1 ≤ bbox.x1 ∧ w.box.y1 ≤ bbox.y1 := by
    intro w hwm
    have hm : w.box ∈ (proj s).running ++ (proj s).finished :=
      List.mem_append_left _ (List.mem_map_of_mem hwm)
    exact ⟨pin.solid hw.1 _ hm, pin.inside _ hm⟩
  cases st with
  | grab hi hc =>
    refine ⟨?_, k2, k3, ?_, k5, k6⟩
    · exact .step k1 (PStep.grab (s := proj s) hi hc)
    · intro w hwm
      rcases List.mem_cons.1 hwm with rfl | hwm
      · trivial
      · exact k4 w hwm
  | stop hi hc => exact ⟨.step k1 (PStep.stop (s := proj s) hi hc), k2, k3, k4, k5, k6⟩
  | @fetchCached l1 b l2 g id c' img hr hg hid hd =>
    have hmem : Work.fetch b ∈ s.running := by rw [hr]; simp
    have hb := hbox _ hmem
    simp only [Work.box] at hb
    simp only [Rect.empty, Bool.or_eq_false_iff, decide_eq_false_iff_not] at hb
    obtain ⟨_, hw1, hw2, hw3, hw4⟩ := hw
    refine ⟨?_, viewOk_step k2 (by intro _ _ hc; cases hc) (.inl ⟨_, hd⟩), k3, ?_, k5, k6⟩
    · have : (proj s).running = l1.map Work.box ++ b :: l2.map Work.box := by simp [proj, hr, Work.box]
      have e : proj s = ⟨s.info, s.idle, l1.map Work.box ++ b :: l2.map Work.box, s.stopped, s.finished⟩ := by
        simp [proj, hr, Work.box]
      rw [e] at k1
      simpa [proj, Work.box] using k1
    · intro w hwm
      have hold : w ∈ s.running ∨ w = .copy b (some id) (fun i j p =>
          img.read (b.x0 - (g.startPixel (g.blockIndex b.x0 b.y0)).1 + i)
            (b.y0 - (g.startPixel (g.blockIndex b.x0 b.y0)).2 + j) p)
          (pixels b.width b.height v.child.planes) := by
        rw [hr]
        simp only [List.mem_append, List.mem_cons] at hwm ⊢
        rcases hwm with h | h | h
        · exact .inl (.inl h)
        · exact .inr h
        · exact .inl (.inr (.inr h))
      rcases hold with hold | rfl
      · exact k4 w hold
      · refine ⟨fun i j p hm => mem_pixels.1 hm, fun i j p hl => ?_, fun i j p hl => .inl (mem_pixels.2 hl)⟩
        have lb := local_bounds hl
        have hmm : b ∈ (proj s).running ++ (proj s).finished :=
          List.mem_append_left _ (List.mem_map_of_mem hmem)
        obtain ⟨e1, e2, e3, e4, e5⟩ := k2.mgr g hg
        have bx := k2.bx
        have by' := k2.by'
        rw [← e1] at bx by' k1
        have cell := block_index_right v.child g bx by' e2 e3 (fun x y hxy => by
          rw [has_iff] at hxy; omega) k1 hmm lb.1
        obtain ⟨id', f1, f2⟩ := block_read (s' := c') k2 hg (x := b.x0) (y := b.y0)
          ⟨by omega, by omega⟩ ⟨by omega, by omega⟩
        rw [hid] at f1; cases f1
        have := f2 img hd (b.x0 + i) (b.y0 + j) p
          (cell.2 (b.x0 + i) (b.y0 + j) (by rw [has_iff]; omega)).1
          ⟨by omega, by omega⟩ ⟨by omega, by omega⟩ hl.2.2.2.2
        rw [← this]
        congr 1 <;> ring
  | @fetchThrow l1 b l2 g hr hg hid =>
    exfalso
    have hmem : Work.fetch b ∈ s.running := by rw [hr]; simp
    have hb := hbox _ hmem
    simp only [Work.box] at hb
    simp only [Rect.empty, Bool.or_eq_false_iff, decide_eq_false_iff_not] at hb
    obtain ⟨_, hw1, hw2, hw3, hw4⟩ := hw
    obtain ⟨id', f1, _⟩ := block_read (s' := s.cache) k2 hg (x := b.x0) (y := b.y0)
      ⟨by omega, by omega⟩ ⟨by omega, by omega⟩
    rw [hid] at f1; cases f1
  | @fetchPlain l1 b l2 hr hg =>
    refine ⟨?_, k2, k3, ?_, k5, k6⟩
    · have e : proj s = ⟨s.info, s.idle, l1.map Work.box ++ b :: l2.map Work.box, s.stopped, s.finished⟩ := by
        simp [proj, hr, Work.box]
      rw [e] at k1
      simpa [proj, Work.box] using k1
    · intro w hwm
      simp only [List.mem_append, List.mem_cons] at hwm
      rcases hwm with h | rfl | h
      · exact k4 w (by rw [hr]; simp [h])
      · exact ⟨fun i j p hm => mem_pixels.1 hm, fun i j p hl => rfl, fun i j p hl => .inl (mem_pixels.2 hl)⟩
      · exact k4 w (by rw [hr]; simp [h])
  | @write l1 b h src i j p rest l2 a hr ha hin =>
    have hmem : Work.copy b h src ((i, j, p) :: rest) ∈ s.running := by rw [hr]; simp
    have hwk := k4 _ hmem
    obtain ⟨q1, q2, q3⟩ := hwk
    have hl := q1 i j p List.mem_cons_self
    have hav : a = v.child.px (b.x0 + i) (b.y0 + j) p := by
      have := q2 i j p hl
      rw [ha] at this; cases this; rfl
    have hpos : ∀ x y q, x = b.x0 - bbox.x0 + i → y = b.y0 - bbox.y0 + j → q = p →
        a = v.child.px (bbox.x0 + x) (bbox.y0 + y) q := by
      intro x y q hx hy hq
      rw [hav, hx, hy, hq]
      congr 1 <;> ring
    -- values already written stay correct
    have keep : ∀ (c : Rect) i' j' p', s.dest (c.x0 - bbox.x0 + i') (c.y0 - bbox.y0 + j') p' =
        some (v.child.px (c.x0 + i') (c.y0 + j') p') →
        (if c.x0 - bbox.x0 + i' = b.x0 - bbox.x0 + i ∧ c.y0 - bbox.y0 + j' = b.y0 - bbox.y0 + j ∧ p' = p
          then some a else s.dest (c.x0 - bbox.x0 + i') (c.y0 - bbox.y0 + j') p') =
        some (v.child.px (c.x0 + i') (c.y0 + j') p') := by
      intro c i' j' p' hd
      split
      · rename_i hh
        rw [hpos _ _ _ hh.1 hh.2.1 hh.2.2]
        congr 2 <;> ring
      · exact hd
    refine ⟨?_, k2, k3, ?_, fun c hc i' j' p' hl' => keep c i' j' p' (k5 c hc i' j' p' hl'), ?_⟩
    · have e : proj s = ⟨s.info, s.idle, l1.map Work.box ++ b :: l2.map Work.box, s.stopped, s.finished⟩ := by
        simp [proj, hr, Work.box]
      rw [e] at k1
      simpa [proj, Work.box] using k1
    · have other : ∀ w ∈ s.running, WorkOk v bbox (fun x y q => if x = b.x0 - bbox.x0 + i ∧
          y = b.y0 - bbox.y0 + j ∧ q = p then some a else s.dest x y q) w := by
        intro w hwm
        have := k4 w hwm
        cases w with
        | fetch _ => trivial
        | copy c h' src' todo' =>
          obtain ⟨r1, r2, r3⟩ := this
          refine ⟨r1, r2, fun i' j' p' hl' => ?_⟩
          rcases r3 i' j' p' hl' with r | r
          · exact .inl r
          · exact .inr (keep c i' j' p' r)
      intro w hwm
      simp only [List.mem_append, List.mem_cons] at hwm
      rcases hwm with hh | rfl | hh
      · exact other w (by rw [hr]; simp [hh])
      · refine ⟨fun i' j' p' hm => q1 i' j' p' (List.mem_cons_of_mem _ hm), q2, fun i' j' p' hl' => ?_⟩
        rcases q3 i' j' p' hl' with r | r
        · rcases List.mem_cons.1 r with r | r
          · right
            simp only [Prod.mk.injEq] at r
            obtain ⟨rfl, rfl, rfl⟩ := r
            dsimp only
            rw [if_pos ⟨rfl, rfl, rfl⟩, hav]
          · exact .inl r
        · exact .inr (keep b i' j' p' r)
      · exact other w (by rw [hr]; simp [hh])
    · intro x y q a' hd
      dsimp only at hd
      split at hd
      · rename_i hh
        cases hd
        refine ⟨?_, hpos _ _ _ hh.1 hh.2.1 hh.2.2⟩
        rw [hh.1, hh.2.1, hh.2.2]; exact hin
      · exact k6 x y q a' hd
  | @writeBad l1 b h src i j p rest l2 hr hbad =>
    exfalso
    have hmem : Work.copy b h src ((i, j, p) :: rest) ∈ s.running := by rw [hr]; simp
    obtain ⟨q1, q2, q3⟩ := k4 _ hmem
    have hl := q1 i j p List.mem_cons_self
    have lb := local_bounds hl
    have hb := hbox _ hmem
    simp only [Work.box] at hb
    rcases hbad with hh | hh
    · rw [q2 i j p hl] at hh; cases hh
    · apply hh
      obtain ⟨g1, g2, g3, g4, g5, g6⟩ := hl
      unfold inDest
      rw [hbw.1, hbw.2]
      omega
  | @finishCached l1 b id src l2 c' o hr hd =>
    have hmem : Work.copy b (some id) src [] ∈ s.running := by rw [hr]; simp
    obtain ⟨q1, q2, q3⟩ := k4 _ hmem
    refine ⟨?_, viewOk_step k2 (by intro _ _ hc; cases hc) (.inl ⟨_, hd⟩), k3, ?_, ?_, k6⟩
    · have hpr : (proj s).running = l1.map Work.box ++ b :: l2.map Work.box := by
        simp [proj, hr, Work.box]
      have := k1.step (.finish hpr)
      simpa [proj] using this
    · intro w hwm
      exact k4 w (by rw [hr]; simp only [List.mem_append, List.mem_cons] at hwm ⊢; tauto)
    · intro c hc i j p hl
      rcases List.mem_cons.1 hc with rfl | hc
      · rcases q3 i j p hl with r | r
        · cases r
        · exact r
      · exact k5 c hc i j p hl
  | @finishPlain l1 b src l2 hr =>
    have hmem : Work.copy b none src [] ∈ s.running := by rw [hr]; simp
    obtain ⟨q1, q2, q3⟩ := k4 _ hmem
    refine ⟨?_, k2, k3, ?_, ?_, k6⟩
    · have hpr : (proj s).running = l1.map Work.box ++ b :: l2.map Work.box := by
        simp [proj, hr, Work.box]
      have := k1.step (.finish hpr)
      simpa [proj] using this
    · intro w hwm
      exact k4 w (by rw [hr]; simp only [List.mem_append, List.mem_cons] at hwm ⊢; tauto)
    · intro c hc i j p hl
      rcases List.mem_cons.1 hc with rfl | hc
      · rcases q3 i j p hl with r | r
        · cases r
        · exact r
      · exact k5 c hc i j p hl
  | env hop hp => exact ⟨k1, viewOk_step k2 hop hp, k3, k4, k5, k6⟩

theorem rreach_inv {v : View α} {bbox : Rect} {n m : Nat} (hw : Within v.child bbox)
    {c : Cache.State (Img α)} (hv : ViewOk v m c) {s : RState α}
    (h : RReach v bbox bbox.width bbox.height v.child.planes n c s) : RInv v bbox n m s := by
  induction h with
  | init =>
    refine ⟨?_, hv, rfl, ?_, ?_, ?_⟩
    · exact .init
    · intro w hwm; cases hwm
    · intro b hb; cases hb
    · intro i j p a ha; cases ha
  | step _ st ih => exact rstep_inv hw ih st

/-- C26 (safety): at every moment of every schedule, whatever other users do with the cache, no
exception and no access outside a buffer has happened, and every destination pixel written so far is the
child's pixel. -/
theorem rasterize_safe {v : View α} {bbox : Rect} {n m : Nat} (hw : Within v.child bbox)
    {c : Cache.State (Img α)} (hv : ViewOk v m c) {s : RState α}
    (h : RReach v bbox bbox.width bbox.height v.child.planes n c s) :
    s.bad = false ∧ ∀ i j p a, s.dest i j p = some a → a = v.child.px (bbox.x0 + i) (bbox.y0 + j) p := by
  have k := rreach_inv hw hv h
  exact ⟨k.good, fun i j p a ha => (k.sound i j p a ha).2⟩

/-- C26: when `rasterize(dest, bbox)` returns, dest holds exactly the child's pixels of `bbox`, for every
block size, thread count, schedule, cache size and history of the cache. -/
theorem rasterize_transparent {v : View α} {bbox : Rect} {n m : Nat} (hn : 0 < n)
    (hw : Within v.child bbox) {c : Cache.State (Img α)} (hv : ViewOk v m c) {s : RState α}
    (h : RReach v bbox bbox.width bbox.height v.child.planes n c s) (hj : s.joined)
    {i j p : Int} (hin : inDest bbox.width bbox.height v.child.planes i j p) :
    s.dest i j p = some (v.child.px (bbox.x0 + i) (bbox.y0 + j) p) := by
  have k := rreach_inv hw hv h
  obtain ⟨h1, h2, h3, h4, h5, h6⟩ := hin
  have hbw : bbox.width = bbox.x1 - bbox.x0 ∧ bbox.height = bbox.y1 - bbox.y0 := by
    unfold Rect.width Rect.height; simp [hw.1]
  have hj' : (proj s).joined := ⟨hj.1, by simp [proj, hj.2]⟩
  have cov := blocks_cover hv.bx hv.by' hn k.proj hj' (bbox.x0 + i) (bbox.y0 + j)
  rw [if_pos (by rw [has_iff]; omega)] at cov
  obtain ⟨b, hb, hbh⟩ := List.countP_pos_iff.1 (show 0 < List.countP _ _ by
    rw [hits] at cov; rw [cov]; exact Nat.one_pos)
  have hbh' : b.has (bbox.x0 + i) (bbox.y0 + j) = true := hbh
  rw [has_iff] at hbh'
  have he : b.empty = false := by
    simp only [Rect.empty, Bool.or_eq_false_iff, decide_eq_false_iff_not]; omega
  have := k.fin b hb (bbox.x0 + i - b.x0) (bbox.y0 + j - b.y0) p
    ⟨by omega, by simp only [Rect.width, he, Bool.false_eq_true, if_false]; omega, by omega,
      by simp only [Rect.height, he, Bool.false_eq_true, if_false]; omega, h5, h6⟩
  have e1 : b.x0 - bbox.x0 + (bbox.x0 + i - b.x0) = i := by ring
  have e2 : b.y0 - bbox.y0 + (bbox.y0 + j - b.y0) = j := by ring
  have e3 : b.x0 + (bbox.x0 + i - b.x0) = bbox.x0 + i := by ring
  have e4 : b.y0 + (bbox.y0 + j - b.y0) = bbox.y0 + j := by ring
  rw [e1, e2, e3, e4] at this
  exact this

/-- C26: the view returned by `prerasterize(bbox)` has, at every pixel of `bbox` in image coordinates,
the child's pixel. -/
theorem prerasterize_transparent {v : View α} {bbox : Rect} {n m : Nat} (hn : 0 < n)
    (hw : Within v.child bbox) {c : Cache.State (Img α)} (hv : ViewOk v m c) {s : RState α}
    (h : RReach v bbox bbox.width bbox.height v.child.planes n c s) (hj : s.joined)
    {x y p : Int} (hxy : bbox.has x y = true) (hp : 0 ≤ p ∧ p < v.child.planes) :
    prerasterized bbox s.dest x y p = some (v.child.px x y p) := by
  have hbw : bbox.width = bbox.x1 - bbox.x0 ∧ bbox.height = bbox.y1 - bbox.y0 := by
    unfold Rect.width Rect.height; simp [hw.1]
  rw [has_iff] at hxy
  unfold prerasterized
  rw [rasterize_transparent hn hw hv h hj ⟨by omega, by omega, by omega, by omega, hp.1, hp.2⟩]
  congr 2 <;> ring

end VW.Block

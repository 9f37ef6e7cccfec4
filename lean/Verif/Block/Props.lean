import Verif.Block.Raster
/-! C26 for the public constructors, and concrete runs. -/
namespace VW.Block
variable {α : Type}

/-- Any history of cache calls by anybody, except destroying the lines the view holds handles to. -/
inductive History (v : View α) : Cache.State (Img α) → Cache.State (Img α) → Prop
  | nil {s} : History v s s
  | call {s s' s'' op} : History v s s' → (∀ id, v.Owns id → op ≠ .destroy id) →
      ((∃ o, Cache.step s' op = .ok s'' o) ∨ Cache.step s' op = .thrown s'' ∨
        Cache.step s' op = .blocked s'') → History v s s''

theorem history_ok {v : View α} {m : Nat} {s s' : Cache.State (Img α)} (h : ViewOk v m s)
    (hh : History v s s') : ViewOk v m s' := by
  induction hh with
  | nil => exact h
  | call _ hop hp ih => exact viewOk_step ih hop hp

/-- C26 for `block_cache(image, block_size, threads, cache)`: the constructor succeeds on every
non-empty image, for every block size (non-positive ones select the default) and every reachable cache;
after any history, `rasterize` of any box within the image leaves exactly the image's pixels in dest
whenever it returns; `operator()` on any pixel succeeds and returns the image's pixel. -/
theorem block_cache_transparent (c : Child α) (b : Size) (psz : Nat) (hr : 0 < c.rows) (hc : 0 < c.cols)
    {m : Nat} {s0 : Cache.State (Img α)} (h0 : Cache.Reach m s0) :
    ∃ s1 v, View.cached c b psz s0 = some (s1, v) ∧ ∀ s2, History v s1 s2 →
      (∀ bbox n st, Within c bbox → 0 < n →
        RReach v bbox bbox.width bbox.height c.planes n s2 st →
        st.bad = false ∧ (st.joined → ∀ i j p, inDest bbox.width bbox.height c.planes i j p →
          st.dest i j p = some (c.px (bbox.x0 + i) (bbox.y0 + j) p))) ∧
      (∀ x y p, 0 ≤ x ∧ x < c.cols → 0 ≤ y ∧ y < c.rows → 0 ≤ p ∧ p < c.planes →
        (∃ s3 r, v.ReadPixel s2 x y p s3 r) ∧
        ∀ s3 r, v.ReadPixel s2 x y p s3 r → r = some (c.px x y p)) := by
  obtain ⟨s1, v, e, hv, rfl⟩ := cached_ok c b psz hr hc h0
  refine ⟨s1, v, e, fun s2 hh => ?_⟩
  have hv2 := history_ok hv hh
  exact ⟨fun bbox n st hw hn hreach => ⟨(rasterize_safe hw hv2 hreach).1,
      fun hj i j p hin => rasterize_transparent hn hw hv2 hreach hj hin⟩,
    fun x y p hx hy hp => ⟨read_total hv2 p hx hy, fun s3 r hrd => read_transparent hv2 hx hy hp hrd⟩⟩

/-- C26 for `block_rasterize(image, block_size, threads)` (no cache). -/
theorem block_rasterize_transparent (c : Child α) (b : Size) (psz : Nat) (hr : 0 < c.rows)
    (hc : 0 < c.cols) {m : Nat} {s0 : Cache.State (Img α)} (h0 : Cache.Reach m s0)
    (bbox : Rect) (n : Nat) (hw : Within c bbox) (hn : 0 < n) (st : RState α)
    (h : RReach (View.plain c b psz) bbox bbox.width bbox.height c.planes n s0 st) :
    st.bad = false ∧ (st.joined → ∀ i j p, inDest bbox.width bbox.height c.planes i j p →
      st.dest i j p = some (c.px (bbox.x0 + i) (bbox.y0 + j) p)) := by
  have hv := plain_ok c b psz hr hc h0
  exact ⟨(rasterize_safe hw hv h).1, fun hj i j p hin => rasterize_transparent hn hw hv h hj hin⟩

/-! ### Concrete runs -/

/-- a 3×1 image with pixel values 10, 11, 12 -/
def exChild : Child Int := { cols := 3, rows := 1, planes := 1, px := fun x _ _ => 10 + x }

/-- its cached view with 2×2 blocks, in a cache of 2 bytes, and the cache after the constructor -/
def exView : Cache.State (Img Int) × View Int :=
  (View.cached exChild ⟨2, 2⟩ 1 (Cache.State.init 2)).get rfl

/-- Non-vacuity: a cached view of the 3×1 image with 2×2 blocks; one thread rasterizes columns 1..2, which
lie in two blocks, with room for only one block in the cache. -/
example : ∃ s1 v st, View.cached exChild ⟨2, 2⟩ 1 (Cache.State.init 2) = some (s1, v) ∧
    Within exChild ⟨1, 0, 3, 1⟩ ∧ RReach v ⟨1, 0, 3, 1⟩ 2 1 1 1 s1 st ∧ st.joined ∧
    st.dest 0 0 0 = some 11 ∧ st.dest 1 0 0 = some 12 := by
  refine ⟨exView.1, exView.2, ?_⟩
  have r := RReach.init (v := exView.2) (bbox := ⟨1, 0, 3, 1⟩) (dw := 2) (dh := 1)
    (dp := 1) (threads := 1) (c := exView.1)
  have r := r.step (.grab (by decide) (by decide))
  have r := r.step (.fetchCached (l1 := []) rfl rfl rfl rfl)
  have r := r.step (.write (l1 := []) rfl rfl (by unfold inDest; decide))
  have r := r.step (.finishCached (l1 := []) rfl rfl)
  have r := r.step (.grab (by decide) (by decide))
  have r := r.step (.fetchCached (l1 := []) rfl rfl rfl rfl)
  have r := r.step (.write (l1 := []) rfl rfl (by unfold inDest; decide))
  have r := r.step (.finishCached (l1 := []) rfl rfl)
  have r := r.step (.stop (by decide) (by decide))
  exact ⟨_, rfl, ⟨rfl, by decide, by decide, by decide, by decide⟩, r, ⟨rfl, rfl⟩, rfl, rfl⟩

end VW.Block

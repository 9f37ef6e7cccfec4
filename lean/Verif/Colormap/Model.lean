import Mathlib.Algebra.Order.Floor.Ring
import Mathlib.Data.Rat.Floor
/-
Model of src/vw/Image/Colormap.cc.

Arithmetic is exact. Colours are treated channel by channel: a colour is an integer. A `std::map` is the list of its entries in
ascending order of keys.
-/
namespace VW.Colormap

/-- An entry of the map: key and colour. -/
abbrev Entry := ℚ × Int

/-- `lut_map[k] = c`. -/
def assign (k : ℚ) (c : Int) : List Entry → List Entry
  | [] => [(k, c)]
  | e :: l => if k < e.1 then (k, c) :: e :: l else if k = e.1 then (k, c) :: l else e :: assign k c l

/-- The key of a line as the two conversions see it: a number with a percent sign, a number, or something else (for which
`atof` gives `a` and `lexical_cast` throws). -/
inductive Key
  | pct (q : ℚ)
  | num (q : ℚ)
  | bad (a : ℚ)

/-- `atof(pair.first.c_str())`. -/
def Key.atof : Key → ℚ
  | .pct q => q
  | .num q => q
  | .bad a => a

/-- The loop over the lines for the least key, Colormap.cc:1252-1259, from `max` of `double`. -/
def minVal (dmax : ℚ) (lut : List (Key × Int)) : ℚ := lut.foldl (fun m p => min m p.1.atof) dmax

/-- The same for the greatest key. -/
def maxVal (dmax : ℚ) (lut : List (Key × Int)) : ℚ := lut.foldl (fun m p => max m p.1.atof) (-dmax)

/-- One line of the second loop, Colormap.cc:1261-1278; `none` is a division by 0 (a key that is not a number). -/
def addLine (lo hi : ℚ) (m : Option (List Entry)) (p : Key × Int) : Option (List Entry) :=
  match p.1 with
  | .pct q => m.map (assign (q / 100) p.2)
  | .num q => if hi - lo = 0 then none else m.map (assign ((q - lo) / (hi - lo)) p.2)
  | .bad _ => m

/-- `populate_lut_map`, Colormap.cc:1247-1279, from an empty map. -/
def populate (dmax : ℚ) (lut : List (Key × Int)) : Option (List Entry) :=
  lut.foldl (addLine (minVal dmax lut) (maxVal dmax lut)) (some [])

/-- `round`: halves away from zero. -/
def round (q : ℚ) : Int := if 0 ≤ q then ⌊q + 1 / 2⌋ else ⌈q - 1 / 2⌉

/-- The clamping of the value, Colormap.cc:1360-1361. -/
def clamp (v : ℚ) : ℚ :=
  let v := if v > 1 then 1 else v
  if v < 0 then 0 else v

/-- `upper_bound(val)` and the entry before it: `prev` is the entry before the rest of the list. -/
def bounds (val : ℚ) : Option Entry → List Entry → Option Entry × Option Entry
  | prev, [] => (prev, none)
  | prev, e :: l => if val < e.1 then (prev, some e) else bounds val (some e) l

/-- `Colormap::operator()` for a valid pixel, Colormap.cc:1355-1382; `none` is a step before the first entry (undefined). -/
def colorAt (m : List Entry) (v : ℚ) : Option Int :=
  let val := clamp v
  match bounds val none m with
  | (none, _) => none
  | (some bot, none) => some bot.2
  | (some bot, some top) =>
    let ratio := (val - bot.1) / (top.1 - bot.1)
    some (bot.2 + round (ratio * ((top.2 : ℚ) - bot.2)))

/-- The lines that the loop of `parseColorStyle` uses, Colormap.cc:1333-1350: `cur` is the line read so far. A line is used only
if the stream is still good after `getline`, that is if it ended at an end of line and not at the end of the file. Lines of
blanks are skipped. -/
def lutLines (blank : List Char → Bool) : List Char → List Char → List (List Char)
  | _, [] => []
  | cur, c :: cs =>
    if c = '\n' then (if blank cur then lutLines blank [] cs else cur :: lutLines blank [] cs)
    else lutLines blank (cur ++ [c]) cs

end VW.Colormap

import Verif.Image.Float

/-! Model of the conversion of image buffers (src/vw/Image/ImageResource.cc, ImageResource.h, PixelTypeInfo.cc).

A channel is a rational number: an integer for the integer types, a binary floating point number for `float` and `double` (with the
rounding of Verif.Image.Float; no infinities, NaN, subnormal numbers). A memory is a map from addresses to channels; addresses and
strides are counted in channels, i.e. byte strides are taken to be multiples of the size of a channel. The source and the destination
are in different memories (`convert` is not meant to work in place). -/

namespace VW.Convert

open VW.Float

/-- `ChannelTypeEnum` (PixelTypeInfo.h:584-604). `other s` stands for all the types for which there are no conversion functions, with
`channel_size_nothrow` s (0 for unknown and user types). -/
inductive CT where
  | int (signed : Bool) (bits : Nat)
  | f32
  | f64
  | other (size : Nat)
deriving DecidableEq, Repr

abbrev CT.i8 : CT := .int true 8
abbrev CT.u8 : CT := .int false 8
abbrev CT.i16 : CT := .int true 16
abbrev CT.u16 : CT := .int false 16
abbrev CT.i32 : CT := .int true 32
abbrev CT.u32 : CT := .int false 32
abbrev CT.i64 : CT := .int true 64
abbrev CT.u64 : CT := .int false 64

/-- `boost::integer_traits<T>::const_max`. -/
def maxInt (signed : Bool) (bits : Nat) : Int := if signed then 2 ^ (bits - 1) - 1 else 2 ^ bits - 1

/-- The value an integer type keeps of an integer. -/
def wrap (signed : Bool) (bits : Nat) (x : Int) : Int :=
  if signed then (x + 2 ^ (bits - 1)) % 2 ^ bits - 2 ^ (bits - 1) else x % 2 ^ bits

/-- Conversion of a number to an integer, towards zero. -/
def trunc (x : ℚ) : Int := if 0 ≤ x then x.num / (x.den : Int) else -((-x).num / ((-x).den : Int))

/-- The cast `T(x)`. A floating point number whose integer part does not fit in the integer type is undefined behaviour in C++; here it
wraps. -/
def cast (t : CT) (x : ℚ) : ℚ :=
  match t with
  | .int s b => wrap s b (trunc x)
  | .f32 => rnd 24 x
  | .f64 => rnd 53 x
  | .other _ => x

/-- `round(x)`: to the nearest integer, halves away from zero. -/
def roundAway (x : ℚ) : Int := if 0 ≤ x then trunc (x + 1 / 2) else trunc (x - 1 / 2)

/-- An operation on doubles. -/
def dbl (x : ℚ) : ℚ := rnd 53 x

/-- `channel_convert_uint16_to_uint8` (ImageResource.cc:57-59). -/
def u16ToU8 (x : ℚ) : ℚ := cast .u8 (trunc (x / 257) : Int)

/-- `channel_convert_uint8_to_uint16` (ImageResource.cc:60-62). -/
def u8ToU16 (x : ℚ) : ℚ := cast .u16 (x * 257)

/-- `channel_convert_int_to_float` (ImageResource.cc:66-69). -/
def intToFloat (s : Bool) (b : Nat) (dst : CT) (x : ℚ) : ℚ := cast dst (dbl (dbl x * dbl (1 / dbl (maxInt s b))))

/-- `channel_convert_float_to_int` (ImageResource.cc:72-80). -/
def floatToInt (s : Bool) (b : Nat) (x : ℚ) : ℚ :=
  if 1 < x then maxInt s b else if x < 0 then 0 else cast (.int s b) (dbl (x * dbl (maxInt s b)))

/-- The conversion functions, `channel_convert_map` and `channel_convert_rescale_map` (ImageResource.cc:84-220); `none` is a null
pointer. -/
def convFunc (rescale : Bool) : CT → CT → Option (ℚ → ℚ)
  | .other _, _ => none
  | _, .other _ => none
  | .int s b, .int s' b' =>
    if rescale && !s && !s' && b == 8 && b' == 16 then some u8ToU16
    else if rescale && !s && !s' && b == 16 && b' == 8 then some u16ToU8
    else some (cast (.int s' b'))
  | .int s b, t => if rescale then some (intToFloat s b t) else some (cast t)
  | _, .int s b => if rescale then some (floatToInt s b) else some (cast (.int s b))
  | _, t => some (cast t)

/-- `channel_set_max_map` (ImageResource.cc:231-266). -/
def setMax : CT → Option ℚ
  | .int s b => some (maxInt s b)
  | .f32 => some 1
  | .f64 => some 1
  | .other _ => none

/-- `channel_average` (ImageResource.cc:275-306). The sum is not limited to 64 bits here. -/
def average : CT → Option (List ℚ → ℚ)
  | .int s b => some fun l => cast (.int s b) (trunc (l.sum / l.length) : Int)
  | .f32 => some fun l => rnd 24 (dbl (l.foldl (fun a x => dbl (a + x)) 0 / l.length))
  | .f64 => some fun l => dbl (l.foldl (fun a x => dbl (a + x)) 0 / l.length)
  | .other _ => none

/-- `channel_premultiply_int` and `_float` (ImageResource.cc:316-354): the new value of a channel that is not alpha, from its value and
alpha. -/
def premul : CT → Option (ℚ → ℚ → ℚ)
  | .int s b => some fun x a => cast (.int s b) (roundAway (dbl (x * dbl (a / dbl (maxInt s b)))) : Int)
  | .f32 => some fun x a => rnd 24 (dbl (x * a))
  | .f64 => some fun x a => dbl (x * a)
  | .other _ => none

/-- `channel_unpremultiply_int` and `_float` (ImageResource.cc:363-401). With alpha 0 the code divides by zero; here the quotient is 0. -/
def unpremul : CT → Option (ℚ → ℚ → ℚ)
  | .int s b => some fun x a => cast (.int s b) (roundAway (dbl (x / dbl (a / dbl (maxInt s b)))) : Int)
  | .f32 => some fun x a => rnd 24 (dbl (x / a))
  | .f64 => some fun x a => dbl (x / a)
  | .other _ => none

/-- `PixelFormatEnum` (PixelTypeInfo.h:551-582); `unknown` also stands for `VW_PIXEL_UNKNOWN_MASKED` and user formats, `generic n` for
`VW_PIXEL_GENERIC_(n+1)_CHANNEL`. -/
inductive PF where
  | unknown | scalar | gray | graya | rgb | rgba | xyz | lab
  | scalarMasked | grayMasked | grayaMasked | rgbMasked | rgbaMasked | xyzMasked | labMasked
  | generic (n : Fin 13)
deriving DecidableEq, Repr

/-- `num_channels_nothrow` (PixelTypeInfo.cc:163-199). -/
def channels : PF → Nat
  | .unknown => 0
  | .scalar => 1
  | .gray => 1
  | .graya => 2
  | .scalarMasked => 2
  | .grayMasked => 2
  | .rgb => 3
  | .xyz => 3
  | .lab => 3
  | .grayaMasked => 3
  | .rgba => 4
  | .rgbMasked => 4
  | .xyzMasked => 4
  | .labMasked => 4
  | .rgbaMasked => 5
  | .generic n => n.val + 1

/-- `channel_size_nothrow` (PixelTypeInfo.cc:105-131). -/
def size : CT → Nat
  | .int _ b => b / 8
  | .f32 => 4
  | .f64 => 8
  | .other s => s

/-- Exceptions. -/
inductive Err where
  | argument
  | noImpl
deriving DecidableEq, Repr

/-- `num_channels` (PixelTypeInfo.cc:201-206). -/
def numChannels (f : PF) : Except Err Nat := if channels f > 0 then .ok (channels f) else .error .argument

/-- `channel_size` (PixelTypeInfo.cc:133-137). -/
def channelSize (t : CT) : Except Err Nat := if size t > 0 then .ok (size t) else .error .argument

/-- `ImageFormat` (ImageResource.h:42-54). -/
structure Format where
  cols : Nat
  rows : Nat
  planes : Nat
  pixel : PF
  channel : CT
  premultiplied : Bool
deriving DecidableEq, Repr

/-- `ImageBuffer` (ImageResource.h:196-212) without its memory: the address of the first channel, and the strides, in channels. -/
structure Buffer where
  base : Int
  format : Format
  cstride : Int
  rstride : Int
  pstride : Int

/-- `ImageBuffer(format, data)` (ImageResource.h:206-212). -/
def Buffer.packed (f : Format) (base : Int) : Buffer :=
  ⟨base, f, channels f.pixel, channels f.pixel * f.cols, channels f.pixel * f.cols * f.rows⟩

/-- `cropped` (ImageResource.h:232-239), `x y w h` being the box. -/
def Buffer.cropped (b : Buffer) (x y : Int) (w h : Nat) : Buffer :=
  { b with base := b.base + b.cstride * x + b.rstride * y, format := { b.format with cols := w, rows := h } }

abbrev Memory := Int → ℚ

/-- A write. -/
def Memory.set (m : Memory) (a : Int) (v : ℚ) : Memory := fun i => if i = a then v else m i

/-- The pairs of different pixel formats that are converted channel by channel (ImageResource.cc:438-455). -/
def generic (s d : PF) : Bool :=
  (s, d) ∈ [(PF.scalarMasked, PF.graya), (.graya, .scalarMasked), (.grayMasked, .graya), (.graya, .grayMasked),
    (.rgbMasked, .rgba), (.rgba, .rgbMasked), (.generic 0, .gray), (.gray, .generic 0), (.generic 1, .graya), (.graya, .generic 1),
    (.generic 2, .rgb), (.rgb, .generic 2), (.generic 2, .xyz), (.xyz, .generic 2), (.generic 3, .rgba), (.rgba, .generic 3)]

/-- The core pixel formats (ImageResource.cc:457-462). -/
def core (f : PF) : Bool := f ∈ [PF.gray, .graya, .rgb, .rgba, .xyz]

/-- What the first part of `convert` does about the pixel formats (ImageResource.cc:410-466): the format `dst` is seen as one plane
for each channel, the format `src` is, neither, or an exception. -/
inductive View where
  | dstPlanes
  | srcPlanes
  | asIs
deriving DecidableEq, Repr

def checkFormats (d s : Format) : Except Err View :=
  if ¬ (d.cols = s.cols ∧ d.rows = s.rows) then .error .argument
  else if d.pixel = s.pixel then .ok .asIs
  else do
    let alias1 ← if s.pixel = .scalar ∧ d.planes = 1 then (do let n ← numChannels d.pixel; pure (decide (s.planes = n))) else pure false
    if alias1 then pure .dstPlanes
    else
      let alias2 ← if d.pixel = .scalar ∧ s.planes = 1 then (do let n ← numChannels s.pixel; pure (decide (d.planes = n))) else pure false
      if alias2 then pure .srcPlanes
      else if generic s.pixel d.pixel then pure .asIs
      else if !core s.pixel || !core d.pixel then .error .argument
      else pure .asIs

/-- How the channels are handled (ImageResource.cc:474-490). `srcAlpha` looks at the destination for RGBA, as the code does. -/
def srcAlpha (s d : Format) : Bool := s.pixel == .graya || d.pixel == .rgba
def dstAlpha (d : Format) : Bool := d.pixel == .graya || d.pixel == .rgba
def unpremultiplySrc (s d : Format) : Bool := srcAlpha s d && s.premultiplied && !d.premultiplied
def premultiplySrc (s d : Format) : Bool := srcAlpha s d && !dstAlpha d && !s.premultiplied
def premultiplyDst (s d : Format) : Bool := srcAlpha s d && dstAlpha d && !s.premultiplied && d.premultiplied
def copyLength (sc dc : Nat) : Nat := if sc = dc then sc else if sc < 3 then 1 else if dc ≥ 3 then 3 else 0
def triplicate (sc dc : Nat) : Bool := decide (sc < 3) && decide (dc ≥ 3)
def averaging (sc dc : Nat) : Bool := decide (sc ≥ 3) && decide (dc < 3)
def addAlpha (sc dc : Nat) : Bool := decide (sc % 2 = 1) && decide (dc % 2 = 0)
def copyAlpha (sc dc : Nat) : Bool := decide (sc ≠ dc) && decide (sc % 2 = 0) && decide (dc % 2 = 0)

/-- The functions for the channel types (ImageResource.cc:494-503). -/
structure Funcs where
  conv : ℚ → ℚ
  max : ℚ
  avg : List ℚ → ℚ
  unpre : ℚ → ℚ → ℚ
  preSrc : ℚ → ℚ → ℚ
  preDst : ℚ → ℚ → ℚ

def funcs (rescale : Bool) (s d : CT) : Except Err Funcs :=
  match convFunc rescale s d, setMax d, average d, unpremul s, premul s, premul d with
  | some c, some m, some a, some u, some p, some q => .ok ⟨c, m, a, u, p, q⟩
  | _, _, _, _, _, _ => .error .noImpl

/-- `channel_premultiply` and `channel_unpremultiply` on the channels of a pixel: all but the last are changed. -/
def scaled (f : ℚ → ℚ → ℚ) (n : Nat) (s : Nat → ℚ) : Nat → ℚ := fun i => if i + 1 < n then f (s i) (s (n - 1)) else s i

/-- `premultiply_dst_func(dst_ptr, dst_ptr, n)`: in place, one channel after the other. -/
def scaleInPlace (f : ℚ → ℚ → ℚ) (n : Nat) (a : Int) (m : Memory) : Memory :=
  let al := m (a + (n - 1 : Nat))
  (((List.range (n - 1)).foldl (fun m (i : Nat) => m.set (a + i) (f (m (a + i)) al)) m)).set (a + (n - 1 : Nat)) (m (a + (n - 1 : Nat)))

/-- One pixel (ImageResource.cc:522-581): `s` gives the source channels, `a` is the address of the destination pixel. -/
def pixel (F : Funcs) (s d : Format) (sp : Nat → ℚ) (a : Int) (m : Memory) : Memory :=
  let sc := channels s.pixel
  let dc := channels d.pixel
  let sp := if unpremultiplySrc s d then scaled F.unpre sc sp else if premultiplySrc s d then scaled F.preSrc sc sp else sp
  let m := (List.range (copyLength sc dc)).foldl (fun m (ch : Nat) => m.set (a + ch) (F.conv (sp ch))) m
  let m := if triplicate sc dc then (m.set (a + 1) (F.conv (sp 0))).set (a + 2) (F.conv (sp 0))
    else if averaging sc dc then m.set a (F.avg [F.conv (sp 0), F.conv (sp 1), F.conv (sp 2)]) else m
  let m := if copyAlpha sc dc then m.set (a + (dc - 1 : Nat)) (F.conv (sp (sc - 1)))
    else if addAlpha sc dc then m.set (a + (dc - 1 : Nat)) F.max else m
  if premultiplyDst s d then scaleInPlace F.preDst dc a m else m

/-- The address of a channel of a pixel. -/
def Buffer.addr (b : Buffer) (p r c ch : Nat) : Int := b.base + p * b.pstride + r * b.rstride + c * b.cstride + ch

/-- The loops over the pixels (ImageResource.cc:510-591). -/
def loops (F : Funcs) (dst src : Buffer) (sm dm : Memory) : Memory :=
  (List.range src.format.planes).foldl (fun m p =>
    (List.range src.format.rows).foldl (fun m r =>
      (List.range src.format.cols).foldl (fun m c =>
        pixel F src.format dst.format (fun ch => sm (src.addr p r c ch)) (dst.addr p r c 0) m) m) m) dm

/-- The second part of `convert` (ImageResource.cc:468-592), for formats that were accepted. -/
def convertAsIs (dst src : Buffer) (rescale : Bool) (sm dm : Memory) : Except Err Memory := do
  let _ ← numChannels src.format.pixel
  let _ ← numChannels dst.format.pixel
  let _ ← channelSize src.format.channel
  let _ ← channelSize dst.format.channel
  let F ← funcs rescale src.format.channel dst.format.channel
  pure (loops F dst src sm dm)

/-- A buffer seen as one plane for each channel (ImageResource.cc:422-425, 430-433). -/
def Buffer.asPlanes (b : Buffer) (planes : Nat) : Buffer :=
  { b with format := { b.format with pixel := .scalar, planes := planes }, pstride := 1 }

/-- `convert` (ImageResource.cc:410-592): the memory of the destination afterwards. The calls in the middle leave `rescale` at its
default. -/
def convert (dst src : Buffer) (rescale : Bool) (sm dm : Memory) : Except Err Memory := do
  match ← checkFormats dst.format src.format with
  | .asIs => convertAsIs dst src rescale sm dm
  | .dstPlanes =>
    let _ ← channelSize dst.format.channel
    convertAsIs (dst.asPlanes src.format.planes) src false sm dm
  | .srcPlanes =>
    let _ ← channelSize src.format.channel
    convertAsIs dst (src.asPlanes dst.format.planes) false sm dm

/-- `can_convert` (ImageResource.cc:596-659); its recursive calls get two scalar formats of the same size. -/
def canConvert (d s : Format) : Except Err Unit := do
  let _ ← checkFormats d s
  match convFunc false s.channel d.channel, setMax d.channel with
  | some _, some _ => pure ()
  | _, _ => .error .noImpl

/-- `ImageBuffer::read` (ImageResource.h:242-244). -/
def read (self buf : Buffer) (x y : Int) (w h : Nat) (sm bm : Memory) : Except Err Memory := convert buf (self.cropped x y w h) false sm bm

/-- `ImageBuffer::write` (ImageResource.h:247-249). -/
def write (self buf : Buffer) (x y : Int) (w h : Nat) (bm sm : Memory) : Except Err Memory := convert (self.cropped x y w h) buf false bm sm

end VW.Convert

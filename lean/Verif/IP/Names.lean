/-! Model of the names of interest point and match files (`src/vw/InterestPoint/MatcherIO.cc:36-220`).

A `std::string` is a list of characters that stand for its bytes. Simplifications: a path is taken apart at its last `/`, so that the
last component of `a/` is empty (as with the fourth version of `boost::filesystem::path`; the third gives `.`), and repeated
slashes before the last component are kept as they are; the warning printed when names are shortened is left out. -/

namespace VW.Names

abbrev Str := List Char

/-- `g_name_budget` (MatcherIO.cc:39). -/
def budget : Nat := 240

/-- One round of the loop of `fnv1a64Hex` (MatcherIO.cc:46-49), in 64 bit arithmetic. -/
def fnvStep (h : Nat) (c : Char) : Nat := (h ^^^ c.toNat) * 1099511628211 % 2 ^ 64

/-- A hexadecimal digit. -/
def hexDigit (n : Nat) : Char :=
  if n < 10 then Char.ofNat (48 + n) else Char.ofNat (87 + n)

/-- `os << std::hex << std::setw(k) << std::setfill('0') << h` for a number of at most `k` hexadecimal digits. -/
def hex : Nat → Nat → Str
  | 0, _ => []
  | k + 1, h => hex k (h / 16) ++ [hexDigit (h % 16)]

/-- The hash (MatcherIO.cc:45-49). -/
def fnv (s : Str) : Nat := s.foldl fnvStep 14695981039346656037

/-- `fnv1a64Hex` (MatcherIO.cc:44-53). -/
def fnvHex (s : Str) : Str := hex 16 (fnv s)

/-- `shortenName` (MatcherIO.cc:59-71). -/
def shorten (name : Str) (maxLen : Nat) : Str :=
  if name.length ≤ maxLen then name else
  let hash := fnvHex name
  if maxLen ≤ hash.length + 1 then hash.take (if maxLen < hash.length then maxLen else hash.length)
  else name.take (maxLen - hash.length - 1) ++ ['_'] ++ hash

/-- `fs::path(s).filename()`: what follows the last slash. -/
def fileName (s : Str) : Str := (s.reverse.takeWhile (· != '/')).reverse

/-- What precedes the file name, with its slash: `fs::path(s).parent_path()`, ready to be put before a name. -/
def dirPart (s : Str) : Str := (s.reverse.dropWhile (· != '/')).reverse

/-- `s.substr(0, s.rfind("."))`, or all of `s` if there is no dot (MatcherIO.cc:103-108). -/
def stem (s : Str) : Str := if '.' ∈ s then ((s.reverse.dropWhile (· != '.')).drop 1).reverse else s

/-- `s.find(pat)`. -/
def find (pat : Str) : Str → Option Nat
  | [] => if pat = [] then some 0 else none
  | c :: s => if pat <+: c :: s then some 0 else (find pat s).map (· + 1)

/-- `shorten_vwip_name` (MatcherIO.cc:78-85). -/
def shortenVwip (path : Str) : Str := dirPart path ++ (shorten (fileName path) (budget - 5) ++ ".vwip".toList)

/-- `strip_path` (MatcherIO.cc:89-111). -/
def stripPath (pre file : Str) : Str :=
  let ss := pre ++ ['-']
  let file := match find ss file with
    | some n => if pre ≠ [] then file.take n ++ file.drop (n + ss.length) else file
    | none => file
  stem (fileName file)

/-- `capPrefixBase` (MatcherIO.cc:118-129). -/
def capPrefix (pre : Str) (reserve : Nat) : Str :=
  if pre = [] then pre else
  let base := fileName pre
  let maxBase := if budget > reserve then budget - reserve else 0
  if base.length ≤ maxBase then pre else dirPart pre ++ base.take maxBase

/-- The extension of match files (MatcherIO.cc:139). -/
def ext (plainText : Bool) : Str := if plainText then ".txt".toList else ".match".toList

/-- `match_filename` (MatcherIO.cc:131-171). -/
def matchName (pre file1 file2 : Str) (plainText : Bool) : Str :=
  let name1 := stripPath pre file1
  let name2 := stripPath pre file2
  let e := ext plainText
  let p := capPrefix pre (1 + 2 + e.length + 2 * 16)
  let overhead := (fileName p).length + 2 + e.length + (if p ≠ [] then 1 else 0)
  let cap := if overhead + 2 < budget then (budget - overhead) / 2 else 16
  let suffix := shorten name1 cap ++ "__".toList ++ shorten name2 cap ++ e
  if p = [] then suffix else p ++ ['-'] ++ suffix

/-- `clean_match_filename(match_file, plain_text)` (MatcherIO.cc:174-182); `replace_extension("")` drops what follows the last dot of
the file name. -/
def cleanName (file : Str) (plainText : Bool) : Str :=
  dirPart file ++ stem (fileName file) ++ (if plainText then "-clean.txt".toList else "-clean.match".toList)

/-- `ip_filename` (MatcherIO.cc:194-211). -/
def ipName (pre file : Str) : Str :=
  let name := stripPath pre file
  let p := capPrefix pre (1 + 5 + 16)
  let overhead := (fileName p).length + 1 + 5
  let cap := if overhead < budget then budget - overhead else 16
  p ++ ['-'] ++ shorten name cap ++ ".vwip".toList

end VW.Names

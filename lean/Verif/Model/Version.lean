import Mathlib.Data.List.Sort
import Mathlib.Data.List.Lex
import Mathlib.Data.Char
import Mathlib.Data.Nat.Digits.Defs

/-!
# `pyotf/_version.py`: where `pyotf.__version__` comes from

Text is a list of characters.  What the operating system and git answer is an input (`Git`).  Simplified: white space and digits are the ASCII
ones, `int(s)` takes decimal digits only, the verbose messages are left out, a path is the list of its components, innermost first.
-/

namespace PyOTF.Version

/-- Text. -/
abbrev Str := List Char

/-- A string literal as text. -/
abbrev str (s : String) : Str := s.toList

/-- The exceptions this module meets. -/
inductive VErr
  | notThisMethod
  | keyError
  | typeError
  | attributeError
  | valueError
deriving DecidableEq, Repr

/-- The dictionary with the keys version, full-revisionid, dirty, error, date (`none` is None). -/
structure Info where
  version : Str
  fullRevisionid : Option Str
  dirty : Option Bool
  error : Option Str
  date : Option Str
deriving DecidableEq, Repr

/-! ## String methods (external) -/

/-- ASCII white space. -/
def isSpace (c : Char) : Bool := c = ' ' || c = '\t' || c = '\n' || c = '\r' || c = '\x0b' || c = '\x0c'

/-- `s.lstrip(chars)`. -/
def lstripP (p : Char → Bool) (s : Str) : Str := s.dropWhile p

/-- `s.strip(chars)`. -/
def stripP (p : Char → Bool) (s : Str) : Str := ((s.dropWhile p).reverse.dropWhile p).reverse

/-- `s.strip()`. -/
def strip (s : Str) : Str := stripP isSpace s

/-- `s.startswith(p)`. -/
def startsWith (p s : Str) : Bool := p.isPrefixOf s

/-- `s.endswith(p)`. -/
def endsWith (p s : Str) : Bool := p.isSuffixOf s

/-- `s.split(sep)` for one character. -/
def splitOn (sep : Char) : Str → List Str
  | [] => [[]]
  | c :: l => if c = sep then [] :: splitOn sep l else
    match splitOn sep l with
    | [] => [[c]]
    | h :: t => (c :: h) :: t

/-- `s.replace(c, by, 1)`: the first occurrence only. -/
def replaceOnce (c : Char) (by_ : Str) : Str → Str
  | [] => []
  | d :: l => if d = c then by_ ++ l else d :: replaceOnce c by_ l

/-- `"%d" % n`. -/
def decimal (n : ℕ) : Str := if n = 0 then ['0'] else (Nat.digits 10 n).reverse.map Nat.digitChar

/-- A decimal digit, `\d`. -/
def isDigit (c : Char) : Bool := decide ('0' ≤ c) && decide (c ≤ '9')

/-- `[0-9a-f]`. -/
def isHex (c : Char) : Bool := isDigit c || (decide ('a' ≤ c) && decide (c ≤ 'f'))

/-- The value of decimal digits. -/
def decimalValue (s : Str) : ℕ := s.foldl (fun a c => 10 * a + (c.toNat - '0'.toNat)) 0

/-- `int(s)`. -/
def pyInt (s : Str) : Except VErr ℕ :=
  let t := strip s
  if t ≠ [] ∧ t.all isDigit then .ok (decimalValue t) else .error .valueError

/-! ## Keywords -/

/-- The dictionary of keywords (`none`: the key is missing). -/
structure Keywords where
  refnames : Option Str
  full : Option Str
  date : Option Str
deriving DecidableEq, Repr

/-- `get_keywords()` (_version.py:19-29), as committed. -/
def getKeywords : Keywords := ⟨some (str "$Format:%d$"), some (str "$Format:%H$"), some (str "$Format:%ci$")⟩

/-- `get_config()` (_version.py:36-47): tag_prefix, style, parentdir_prefix. -/
structure Config where
  style : Str
  tagPrefix : Str
  parentdirPrefix : Str

/-- The committed configuration (_version.py:41-46). -/
def getConfig : Config := ⟨str "pep440", [], []⟩

/-- `d[k]`. -/
def key {α : Type} (o : Option α) : Except VErr α :=
  match o with
  | some a => .ok a
  | none => .error .keyError

/-- `date.strip().replace(" ", "T", 1).replace(" ", "", 1)` (_version.py:183, 315). -/
def isoDate (s : Str) : Str := replaceOnce ' ' [] (replaceOnce ' ' ['T'] (strip s))

/-- `refs` (_version.py:189): the comma separated names between the parentheses. -/
def refs (refnames : Str) : List Str := ((splitOn ',' (stripP (fun c => c = '(' || c = ')') refnames)).map strip).dedup

/-- `tags` (_version.py:192-202): what follows `tag: `, or if there is none the refs with a digit. -/
def tags (refs : List Str) : List Str :=
  let t := ((refs.filter (startsWith (str "tag: "))).map (List.drop 5)).dedup
  if t = [] then refs.filter fun r => r.any isDigit else t

/-- `git_versions_from_keywords(keywords, tag_prefix, verbose)` (_version.py:170-229). -/
def gitVersionsFromKeywords (k : Keywords) (tagPrefix : Str) : Except VErr Info := do
  if k = ⟨none, none, none⟩ then throw .notThisMethod
  let date := k.date.map isoDate
  let refnames := strip (← key k.refnames)
  if startsWith (str "$Format") refnames then throw .notThisMethod
  match ((tags (refs refnames)).insertionSort (· ≤ ·)).find? (startsWith tagPrefix) with
  | some ref => return ⟨ref.drop tagPrefix.length, some (strip (← key k.full)), some false, none, date⟩
  | none => return ⟨str "0+unknown", some (strip (← key k.full)), some false, some (str "no suitable tags"), none⟩

/-- The regular expression `=\s*"(.*)"` searched in a line (_version.py:153): from the first `=` that is followed by white space and a quote
with another quote after it, the text up to the last quote (`.` stops at a line feed). -/
def quoted : Str → Option Str
  | [] => none
  | c :: l =>
    let tryHere : Option Str :=
      if c = '=' then
        match l.dropWhile isSpace with
        | '"' :: rest =>
          match ((rest.takeWhile (· ≠ '\n')).reverse.dropWhile (· ≠ '"')) with
          | '"' :: r => some r.reverse
          | _ => none
        | _ => none
      else none
    match tryHere with
    | some r => some r
    | none => quoted l

/-- One line of `git_get_keywords` (_version.py:151-163). -/
def keywordLine (k : Keywords) (line : Str) : Keywords :=
  let k := if startsWith (str "git_refnames =") (strip line) then
    match quoted line with | some v => { k with refnames := some v } | none => k else k
  let k := if startsWith (str "git_full =") (strip line) then
    match quoted line with | some v => { k with full := some v } | none => k else k
  if startsWith (str "git_date =") (strip line) then
    match quoted line with | some v => { k with date := some v } | none => k else k

/-- `git_get_keywords(versionfile_abs)` (_version.py:141-167) of the lines of the file, `none` if it cannot be opened. -/
def gitGetKeywords (lines : Option (List Str)) : Keywords := (lines.getD []).foldl keywordLine ⟨none, none, none⟩

/-! ## git -/

/-- What starting one program leads to: it does not exist (`ENOENT`), another `EnvironmentError`, or it ran with a return code and output. -/
inductive Launch
  | notFound
  | failed
  | ran (rc : ℤ) (stdout : Str)
deriving DecidableEq, Repr

/-- `run_command(commands, args, ...)` (_version.py:71-107), given what starting each command leads to: `(stdout, returncode)`. -/
def runCommand : List Launch → Option Str × Option ℤ
  | [] => (none, none)
  | .notFound :: l => runCommand l
  | .failed :: _ => (none, none)
  | .ran rc out :: _ => if rc ≠ 0 then (none, some rc) else (some (strip out), some rc)

/-- The answers of git to the five questions (_version.py:244, 252, 261, 310, 314). -/
structure Git where
  /-- `rev-parse --git-dir` -/
  gitDir : List Launch
  /-- `describe --tags --dirty --always --long --match PREFIX*` -/
  describe : List Launch
  /-- `rev-parse HEAD` -/
  head : List Launch
  /-- `rev-list HEAD --count` -/
  count : List Launch
  /-- `show -s --format=%ci HEAD` -/
  date : List Launch

/-- `pieces` (`none`: the key is missing; the value of closest-tag may itself be None). -/
structure Pieces where
  long : Str
  short : Str
  error : Option Str
  dirty : Bool
  closestTag : Option (Option Str) := none
  distance : Option ℕ := none
  date : Option Str := none
deriving DecidableEq, Repr

/-- The text `$` sees as the end of: without one final line feed. -/
def chomp (s : Str) : Str := if s.getLast? = some '\n' then s.dropLast else s

/-- The regular expression `^(.+)-(\d+)-g([0-9a-f]+)$` (_version.py:285): `$` may match before one final line feed; neither `g` is a hexadecimal
digit nor `-` a decimal digit, so the last group is the longest hexadecimal suffix and the middle one the longest digit run before it. -/
def matchDescribe (s : Str) : Option (Str × Str × Str) :=
  let r := (chomp s).reverse
  let hex := r.takeWhile isHex
  match r.dropWhile isHex with
  | 'g' :: '-' :: r =>
    let num := r.takeWhile isDigit
    match r.dropWhile isDigit with
    | '-' :: tag =>
      if hex ≠ [] ∧ num ≠ [] ∧ tag ≠ [] ∧ '\n' ∉ tag then some (tag.reverse, num.reverse, hex.reverse) else none
    | _ => none
  | _ => none

/-- `git_pieces_from_vcs(tag_prefix, root, verbose)` (_version.py:232-317). -/
def gitPiecesFromVcs (tagPrefix : Str) (g : Git) : Except VErr Pieces := do
  if (runCommand g.gitDir).2 ≠ some 0 then throw .notThisMethod
  let describeOut ← match (runCommand g.describe).1 with
    | some s => pure (strip s)
    | none => throw .notThisMethod
  let fullOut ← match (runCommand g.head).1 with
    | some s => pure (strip s)
    | none => throw .notThisMethod
  let dirty := endsWith (str "-dirty") describeOut
  let base : Pieces := { long := fullOut, short := fullOut.take 7, error := none, dirty := dirty }
  let gitDescribe := if dirty then describeOut.take (describeOut.length - 6) else describeOut
  let addDate (p : Pieces) : Except VErr Pieces :=
    match (runCommand g.date).1 with
    | some s => .ok { p with date := some (isoDate (strip s)) }
    | none => .error .attributeError
  if '-' ∈ gitDescribe then
    match matchDescribe gitDescribe with
    | none => return { base with error := some (str "unable to parse git-describe output: '" ++ describeOut ++ str "'") }
    | some (fullTag, num, hex) =>
      if !startsWith tagPrefix fullTag then
        return { base with error := some (str "tag '" ++ fullTag ++ str "' doesn't start with prefix '" ++ tagPrefix ++ str "'") }
      else
        addDate { base with closestTag := some (some (fullTag.drop tagPrefix.length)), distance := some (decimalValue num), short := hex }
  else
    match (runCommand g.count).1 with
    | none => throw .typeError
    | some s =>
      let n ← pyInt s
      addDate { base with closestTag := some none, distance := some n }

/-! ## Rendering -/

/-- `pieces["closest-tag"]` as a truth value: None and the empty string are false. -/
def truthy : Option Str → Bool
  | some (_ :: _) => true
  | _ => false

/-- `plus_or_dot(pieces)` (_version.py:320-324); for a tag that is None, `"+" in None` is a `TypeError`. -/
def plusOrDot (p : Pieces) : Except VErr Str :=
  match p.closestTag with
  | none => .ok ['+']
  | some none => .error .typeError
  | some (some t) => .ok (if '+' ∈ t then ['.'] else ['+'])

/-- `render_pep440(pieces)` (_version.py:327-348). -/
def renderPep440 (p : Pieces) : Except VErr Str := do
  let tag ← key p.closestTag
  let dirty := if p.dirty then str ".dirty" else []
  if truthy tag then
    let n ← key p.distance
    if n ≠ 0 ∨ p.dirty then
      return tag.getD [] ++ (← plusOrDot p) ++ decimal n ++ str ".g" ++ p.short ++ dirty
    else return tag.getD []
  else
    let n ← key p.distance
    return str "0+untagged." ++ decimal n ++ str ".g" ++ p.short ++ dirty

/-- `render_pep440_pre(pieces)` (_version.py:351-364). -/
def renderPep440Pre (p : Pieces) : Except VErr Str := do
  let tag ← key p.closestTag
  let n ← key p.distance
  if truthy tag then
    return tag.getD [] ++ if n ≠ 0 then str ".post.dev" ++ decimal n else []
  else return str "0.post.dev" ++ decimal n

/-- `render_pep440_post(pieces)` (_version.py:367-391). -/
def renderPep440Post (p : Pieces) : Except VErr Str := do
  let tag ← key p.closestTag
  let n ← key p.distance
  let dev := if p.dirty then str ".dev0" else []
  if truthy tag then
    if n ≠ 0 ∨ p.dirty then
      return tag.getD [] ++ str ".post" ++ decimal n ++ dev ++ (← plusOrDot p) ++ str "g" ++ p.short
    else return tag.getD []
  else return str "0.post" ++ decimal n ++ dev ++ str "+g" ++ p.short

/-- `render_pep440_old(pieces)` (_version.py:394-413). -/
def renderPep440Old (p : Pieces) : Except VErr Str := do
  let tag ← key p.closestTag
  let n ← key p.distance
  let dev := if p.dirty then str ".dev0" else []
  if truthy tag then
    if n ≠ 0 ∨ p.dirty then return tag.getD [] ++ str ".post" ++ decimal n ++ dev
    else return tag.getD []
  else return str "0.post" ++ decimal n ++ dev

/-- `render_git_describe(pieces)` (_version.py:416-433). -/
def renderGitDescribe (p : Pieces) : Except VErr Str := do
  let tag ← key p.closestTag
  let suffix := if p.dirty then str "-dirty" else []
  if truthy tag then
    let n ← key p.distance
    return tag.getD [] ++ (if n ≠ 0 then str "-" ++ decimal n ++ str "-g" ++ p.short else []) ++ suffix
  else return p.short ++ suffix

/-- `render_git_describe_long(pieces)` (_version.py:436-453). -/
def renderGitDescribeLong (p : Pieces) : Except VErr Str := do
  let tag ← key p.closestTag
  let suffix := if p.dirty then str "-dirty" else []
  if truthy tag then
    let n ← key p.distance
    return tag.getD [] ++ str "-" ++ decimal n ++ str "-g" ++ p.short ++ suffix
  else return p.short ++ suffix

/-- `render(pieces, style)` (_version.py:456-491). -/
def render (p : Pieces) (style : Str) : Except VErr Info := do
  match p.error with
  | some (c :: e) => return ⟨str "unknown", some p.long, none, some (c :: e), none⟩
  | _ =>
    let style := if style = [] ∨ style = str "default" then str "pep440" else style
    let rendered ←
      if style = str "pep440" then renderPep440 p
      else if style = str "pep440-pre" then renderPep440Pre p
      else if style = str "pep440-post" then renderPep440Post p
      else if style = str "pep440-old" then renderPep440Old p
      else if style = str "git-describe" then renderGitDescribe p
      else if style = str "git-describe-long" then renderGitDescribeLong p
      else throw .valueError
    return ⟨rendered, some p.long, some p.dirty, none, p.date⟩

/-- `versions_from_parentdir(parentdir_prefix, root, verbose)` (_version.py:110-132); `root` is the list of the names of the directories, innermost
first; the name of the file system root is empty. -/
def versionsFromParentdir (parentdirPrefix : Str) (root : List Str) : Except VErr Info :=
  match ((List.range 3).map fun i => root.getD i []).find? (startsWith parentdirPrefix) with
  | some dirname => .ok ⟨dirname.drop parentdirPrefix.length, none, some false, none, none⟩
  | none => .error .notThisMethod

/-- `get_versions()` (_version.py:494-543) for a configuration and keywords; `file` is `os.path.realpath(__file__)` as components, innermost
first (`none` if the interpreter does not define `__file__`). -/
def getVersionsWith (cfg : Config) (k : Keywords) (file : Option (List Str)) (g : Git) : Except VErr Info :=
  match gitVersionsFromKeywords k cfg.tagPrefix with
  | .error .notThisMethod =>
    match file with
    | none => .ok ⟨str "0+unknown", none, none, some (str "unable to find root of source tree"), none⟩
    | some path =>
      let root := path.drop 2
      match (do render (← gitPiecesFromVcs cfg.tagPrefix g) cfg.style) with
      | .error .notThisMethod =>
        let none_ : Info := ⟨str "0+unknown", none, none, some (str "unable to compute version"), none⟩
        if cfg.parentdirPrefix ≠ [] then
          match versionsFromParentdir cfg.parentdirPrefix root with
          | .error .notThisMethod => .ok none_
          | r => r
        else .ok none_
      | r => r
  | r => r

/-- `get_versions()` as committed. -/
def getVersions (file : Option (List Str)) (g : Git) : Except VErr Info := getVersionsWith getConfig getKeywords file g

end PyOTF.Version

import Verif.Model.Buffer
/-!
# Completion

Models completion/main.go and completion/file.go.
-/
namespace Readline

/-- `strings.Contains(s, t)`. -/
def containsBytes (t : Bytes) : Bytes → Bool
  | [] => t.isEmpty
  | b :: s => t.isPrefixOf (b :: s) || containsBytes t s

/-- `strings.EqualFold`: compares rune by rune (malformed bytes count as U+FFFD). -/
def equalFold (U : Uni) (s t : Bytes) : Bool := (runesOf s).map U.fold == (runesOf t).map U.fold

/-- The reading loop of `commonPrefix`, completion/main.go:40-51: the common leading runes,
in the spelling of `common`. -/
def commonRunes (U : Uni) : List Rune → List Rune → List Rune
  | c :: cs, f :: fs => if U.upper c = U.upper f then c :: commonRunes U cs fs else []
  | _, _ => []

/-- The loop of `commonPrefix`, completion/main.go:27-57. -/
def commonLoop (U : Uni) : List Bytes → Nat → Bytes → Nat → Nat → Bytes × Nat
  | [], _, common, _, minI => (common, minI)
  | f :: fs, index, common, minL, minI =>
    let common' := encodeRunes (commonRunes U (runesOf common) (runesOf f))
    if f.length < minL then commonLoop U fs (index + 1) common' f.length (index + 1)
    else commonLoop U fs (index + 1) common' minL minI

/-- `commonPrefix`, completion/main.go:18-59; `none` is the panic of line 58. -/
def commonPrefix (U : Uni) (list : List Bytes) : Option Bytes :=
  match list with
  | [] => some []
  | first :: rest =>
    let (common, minI) := commonLoop U rest 0 first first.length 0
    match list[minI]? with
    | none => none
    | some s => if common.length ≤ s.length then some (s.take common.length) else none

/-- `removeQuotes`, completion/main.go:61-69. -/
def removeQuotes (s q : Bytes) : Bytes :=
  encodeRunes ((runesOf s).filter (fun c => !(runesOf q).contains c))

/-- `strings.Index`. -/
def indexOf (needle : Bytes) : Bytes → Nat → Option Nat
  | [], i => if needle = [] then some i else none
  | b :: t, i => if needle.isPrefixOf (b :: t) then some i else indexOf needle t (i + 1)

/-- `spaces`, completion/main.go:73. -/
def splitSpaces : Bytes := [0x20, 0x09, 0x0D, 0x0A, 0x0B, 0x0C]

/-- The word being scanned by `split`: `start`, `Buffer[start:i]` and `bits`. -/
structure SplitWord where
  start : Nat
  text : Bytes
  bits : Nat
deriving Repr, DecidableEq

/-- `split`, completion/main.go:75-115, over the texts of the cells `i..Cursor-1`.  The nested
loops are one recursion: `none` is the space-skipping loop (77-86), `some` the word loop
(89-113).  Leaving a word at a space does not advance `i` in Go, but the skipping loop then
does. -/
def splitLoop (quotes del : Bytes) :
    List Bytes → Nat → Option SplitWord → List Bytes → Nat → List Bytes × Nat
  | [], _, none, fields, last => (fields, last)
  | [], _, some w, fields, _ => (fields ++ [removeQuotes w.text quotes], w.start)
  | c :: cs, i, mode, fields, last =>
    if mode.isNone && containsBytes c splitSpaces then
      splitLoop quotes del cs (i + 1) none fields last
    else
      let w := mode.getD { start := i, text := [], bits := 0 }
      match indexOf c quotes 0 with
      | some j =>
        splitLoop quotes del cs (i + 1)
          (some { w with text := w.text ++ c, bits := Nat.xor w.bits (2 ^ j % 2 ^ 64) }) fields last
      | none =>
        if w.bits = 0 && containsBytes c splitSpaces then
          splitLoop quotes del cs (i + 1) none (fields ++ [removeQuotes w.text quotes]) w.start
        else if w.bits = 0 && containsBytes c del then
          splitLoop quotes del cs (i + 1) none (fields ++ [removeQuotes w.text quotes, c]) i
        else
          splitLoop quotes del cs (i + 1) (some { w with text := w.text ++ c }) fields last

/-- `split`, completion/main.go:71-116: the fields and `lastWordStart`. -/
def split (quotes del : Bytes) (s : St) : M (List Bytes × Nat) :=
  if s.cursor > s.len then .error ⟨.bounds, s⟩
  else .ok (splitLoop quotes del
    ((s.buf.take s.cursor.toNat).map (fun c => c.moji.write)) 0 none [] 0)

/-- `strings.ContainsAny`. -/
def containsAny (s chars : Bytes) : Bool := (runesOf s).any (fun r => (runesOf chars).contains r)

/-- `hasToInsertQuotation`, completion/main.go:118-125. -/
def hasToInsertQuotation (list : List Bytes) (chars : Bytes) : Bool :=
  list.any (fun s => containsAny s chars)

/-- `removeUnmatches`, completion/main.go:127-135 (`base[i]` is bounds-checked). -/
def removeUnmatches (U : Uni) (s : St) (source : Bytes) :
    List Bytes → List Bytes → M (List Bytes × List Bytes)
  | [], _ => .ok ([], [])
  | name :: full, base => do
    if name.length ≥ source.length ∧ equalFold U source (name.take source.length) = true then
      match base with
      | [] => .error ⟨.bounds, s⟩
      | b0 :: _ =>
        let (f, bs) ← removeUnmatches U s source full base.tail
        return (name :: f, b0 :: bs)
    else removeUnmatches U s source full base.tail

/-- `complete`, completion/main.go:137-175: the state and the list to show. -/
def complete (U : Uni) (E : Env) (K : Completer) (postfix_ : Bytes) (s : St) :
    M (St × List Bytes) := do
  let quotes := K.enclosures
  let del := K.delimiters
  let (fields, lastWordStart) ← split quotes del s
  match fields.getLast? with
  | none => return (s, [])
  | some field =>
    let (list, baselist) := K.list fields
    let baselist := if baselist.length = 0 then list else baselist
    let (list, baselist) ← removeUnmatches U s field list baselist
    match list with
    | [] => return (s, [])
    | [str] =>
      if equalFold U field str then return (s.emit (.lit [0x07]), [])
      else
        let str :=
          match quotes with
          | q :: _ =>
            if del.length > 0 && containsAny str (splitSpaces ++ del) then
              encodeRune q.toNat ++ str ++ encodeRune q.toNat
            else str
          | [] => str
        let s ← replaceAndRepaint E s lastWordStart (str ++ postfix_)
        return (s, [])
    | _ =>
      match commonPrefix U list with
      | none => .error ⟨.bounds, s⟩
      | some prefix_ =>
        if equalFold U field prefix_ then return (s.emit (.lit [0x07]), baselist)
        else
          let p :=
            match quotes with
            | q :: _ =>
              if hasToInsertQuotation list (splitSpaces ++ del) then encodeRune q.toNat ++ prefix_
              else prefix_
            | [] => prefix_
          let s ← replaceAndRepaint E s lastWordStart p
          return (s, [])

/-- `(CmdCompletion).Call`, completion/main.go:186-189. -/
def cmdCompletion (U : Uni) (E : Env) (K : Completer) (postfix_ : Bytes) (s : St) :
    M (St × Result) := do
  let (s, _) ← complete U E K postfix_ s
  return (s, .cont)

/-- `(CmdCompletionOrList).Call`, completion/main.go:200-208; `box` is what `box.Print`
writes (third-party package). -/
def cmdCompletionOrList (U : Uni) (E : Env) (K : Completer) (box : List Bytes → Bytes)
    (postfix_ : Bytes) (s : St) : M (St × Result) := do
  let (s, list) ← complete U E K postfix_ s
  if list.length > 0 then
    let s := (s.emit (.lit [0x0A])).emit (.lit (box list))
    let s ← repaintAll E s
    return (s, .cont)
  else return (s, .cont)

/-- `Call` of the two completion commands. -/
def cmdComplete (E : Env) (P : Completing) (s : St) : M (St × Result) :=
  match P.box with
  | none => cmdCompletion P.uni E P.completer P.postfix_ s
  | some box => cmdCompletionOrList P.uni E P.completer box P.postfix_ s

/-! ## completion/file.go -/

/-- What `os.ReadDir` answers: `none` is an error; names with "is a directory or a symbolic
link". -/
abbrev ReadDir := Bytes → Option (List (Bytes × Bool))

/-- Text after the last `/`: `filepath.Base` for a path that is not empty and does not end
in a separator (Unix; `os.PathSeparator` is `/`). -/
def afterLastSlash (t : Bytes) : Bytes := (t.reverse.takeWhile (· != 0x2F)).reverse

/-- `zeroToOneDot`, completion/file.go:19-24. -/
def zeroToOneDot (d : Bytes) : Bytes := if d = [] then [0x2E] else d

/-- The loop over the directory entries, completion/file.go:52-81: the new candidates
(full name, base name). -/
def matchEntries (U : Uni) (dir base : Bytes) (entries : List (Bytes × Bool)) :
    List (Bytes × Bytes) :=
  entries.filterMap (fun (name, isDir) =>
    if name = [0x2E] ∨ name = [0x2E, 0x2E] then none
    else if name.length < base.length then none
    else if !equalFold U base (name.take base.length) then none
    else if isDir then some (dir ++ name ++ [0x2F], name ++ [0x2F])
    else some (dir ++ name, name))

/-- `strings.HasSuffix(s, "/")`. -/
def endsSlash (s : Bytes) : Bool := s.getLast? == some 0x2F

/-- The outer loop of `List`, completion/file.go:47-87, `fuel` rounds; `none` = still
running. -/
def fileLoop (U : Uni) (rd : ReadDir) : Nat → Bytes → Bytes → List (Bytes × Bytes) →
    Option (List (Bytes × Bytes))
  | 0, _, _, _ => none
  | fuel + 1, dir, base, acc =>
    match rd (zeroToOneDot dir) with
    | none => some acc
    | some entries =>
      match acc ++ matchEntries U dir base entries with
      | [(full, b0)] =>
        if endsSlash full then fileLoop U rd fuel full [] [(full, b0)] else some [(full, b0)]
      | acc' => some acc'

/-- How `File.List` ends. -/
inductive FileRes where
  | done (l : List (Bytes × Bytes))
  | panic
  | running
deriving Repr, DecidableEq

/-- `(File).List`, completion/file.go:26-88, on a Unix system, observed for `fuel` rounds of
the outer loop. -/
def fileList (U : Uni) (rd : ReadDir) (fuel : Nat) (field : List Bytes) : FileRes :=
  match field.getLast? with
  | none => .done []
  | some target =>
    match target.getLast? with
    | none => .panic
    | some tail =>
      let base := if tail = 0x2F then [] else afterLastSlash target
      let dir := if tail = 0x2F then target else target.take (target.length - base.length)
      match fileLoop U rd fuel dir base [] with
      | some l => .done l
      | none => .running

end Readline

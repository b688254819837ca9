import Verif.Model.Shell
/-!
# The predictor of examples/example160.go

Models examples/example160.go:11-40: a predictor of the caller that ignores blanks at the ends of the line and of the history
lines.  `strings.TrimSpace` and `strings.HasPrefix` are Go library functions.
-/
namespace Readline

/-- `strings.TrimLeftFunc(s, unicode.IsSpace)` (Go library); the fuel `len(s)` suffices. -/
def trimLeftLoop : Nat → Bytes → Bytes
  | 0, t => t
  | n + 1, t =>
    let d := decodeRune t
    if isSpaceRune d.1 then trimLeftLoop n (t.drop d.2) else t

/-- `strings.TrimRightFunc(s, unicode.IsSpace)` (Go library); the fuel `len(s)` suffices. -/
def trimRightLoop : Nat → Bytes → Bytes
  | 0, t => t
  | n + 1, t =>
    let d := decodeLastRune t
    if isSpaceRune d.1 then trimRightLoop n (t.take (t.length - d.2)) else t

/-- `strings.TrimSpace` (Go library), used in examples/example160.go:12, 14.  Go's loops over leading and trailing ASCII
bytes do the same as `TrimFunc` and are left out. -/
def trimSpace (t : Bytes) : Bytes :=
  let u := trimLeftLoop t.length t
  trimRightLoop u.length u

/-- The loop of `predictByHistory`, examples/example160.go:13-18, over the history, newest first. -/
def predictTrimmedLoop (current : Bytes) : List Bytes → Bytes
  | [] => []
  | line :: rest =>
    let h := trimSpace line
    if current.isPrefixOf h then h.drop current.length else predictTrimmedLoop current rest

/-- `predictByHistory`, examples/example160.go:11-20. -/
def predictTrimmed (history : List Bytes) (text : Bytes) : Bytes :=
  predictTrimmedLoop (trimSpace text) history.reverse

/-- The editor of examples/example160.go:25-30 with the given history: `"\x1B[3;22;34m"`, `"\x1B[23;39m"`. -/
def example160 (E : Env) (history : List Bytes) : Env :=
  { E with
    history := history
    predictColor := ([0x1B, 0x5B, 0x33, 0x3B, 0x32, 0x32, 0x3B, 0x33, 0x34, 0x6D], [0x1B, 0x5B, 0x32, 0x33, 0x3B, 0x33, 0x39, 0x6D])
    predictor := some predictTrimmed }

/-- The loop of examples/example160.go:31-39; simplifications and fuel as for `readLines`. -/
def readLines160 (E : Env) : Nat → Container → World → M (Container × RLErr × World)
  | 0, _, w => .error ⟨.diverge, promptSt E w⟩
  | fuel + 1, c, w => do
    let (s, r) ← readLine (example160 E c.buffer) w
    match r.err with
    | .nil => readLines160 E fuel (c.add r.text) s.world
    | err => return (c, err, s.world)

end Readline

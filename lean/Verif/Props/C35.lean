import Verif.Proof.Strings
import Verif.Props.C34
/-!
# C35: file completion terminates

False: `completion.File.List` (completion/file.go:26-88) runs for ever when the typed word has a
single match and that is a readable directory without entries, and it panics when the last field
is empty (`""` typed, or a delimiter at the start of a word).  `C35_partial` proves that it
returns in all other cases, within two rounds of its loop; `C35_stuck` that it does not in these.

The file system is a function from directory names to their entries and does not change while
`List` runs.
-/
namespace Readline
open Spec

namespace Spec

/-- The part of the word up to the last slash. -/
def dirPart (w : Bytes) : Bytes := w.take (w.length - (w.reverse.takeWhile (· != 0x2F)).length)
/-- The part of the word behind the last slash. -/
def basePart (w : Bytes) : Bytes := (w.reverse.takeWhile (· != 0x2F)).reverse

/-- The entries whose name begins with `base`, ignoring case. -/
def matching (U : Uni) (base : Bytes) (entries : List (Bytes × Bool)) : List (Bytes × Bool) :=
  entries.filter fun e => decide (e.1 ≠ [0x2E] ∧ e.1 ≠ [0x2E, 0x2E] ∧ base.length ≤ e.1.length) &&
    sameIgnoringCase U base (e.1.take base.length)

/-- The only entry that the word matches is a directory (or symbolic link) that can be read and
is empty. -/
def OnlyEmptyDir (U : Uni) (rd : ReadDir) (w : Bytes) : Prop :=
  ∃ entries name sub, rd (if dirPart w = [] then [0x2E] else dirPart w) = some entries ∧
    matching U (basePart w) entries = [(name, true)] ∧
    rd (dirPart w ++ name ++ [0x2F]) = some sub ∧
    ∀ e ∈ sub, e.1 = [0x2E] ∨ e.1 = [0x2E, 0x2E]

end Spec

theorem matchEntries_eq (U : Uni) (dir base : Bytes) (entries : List (Bytes × Bool)) :
    matchEntries U dir base entries = (matching U base entries).map fun e =>
      if e.2 then (dir ++ e.1 ++ [0x2F], e.1 ++ [0x2F]) else (dir ++ e.1, e.1) := by
  induction entries with
  | nil => rfl
  | cons e entries ih =>
    obtain ⟨name, isDir⟩ := e
    have ih : matchEntries U dir base entries = _ := ih
    unfold matchEntries at ih ⊢
    unfold matching at ih ⊢
    rw [List.filterMap_cons, ih, List.filter_cons]
    dsimp only
    by_cases h1 : name = [0x2E] ∨ name = [0x2E, 0x2E]
    · rw [if_pos h1, if_neg (by
        simp only [Bool.and_eq_true, decide_eq_true_eq]
        rintro ⟨⟨a, b, -⟩, -⟩
        rcases h1 with h1 | h1
        · exact a h1
        · exact b h1)]
    · rw [if_neg h1]
      simp only [not_or] at h1
      by_cases h2 : name.length < base.length
      · rw [if_pos h2, if_neg (by
          simp only [Bool.and_eq_true, decide_eq_true_eq]
          rintro ⟨⟨-, -, c⟩, -⟩
          omega)]
      · rw [if_neg h2]
        rw [← equalFold_eq]
        cases h3 : equalFold U base (name.take base.length) with
        | false => simp
        | true =>
          have : base.length ≤ name.length := by omega
          simp [h1.1, h1.2, this]
          cases isDir <;> simp

theorem matching_nil (U : Uni) {entries : List (Bytes × Bool)} :
    matching U [] entries = entries.filter fun e => decide (e.1 ≠ [0x2E] ∧ e.1 ≠ [0x2E, 0x2E]) := by
  unfold matching
  congr 1
  funext e
  simp [sameIgnoringCase]

theorem dirPart_slash {w : Bytes} (h : w.getLast? = some 0x2F) : dirPart w = w ∧ basePart w = [] := by
  obtain ⟨l, rfl⟩ := List.getLast?_eq_some_iff.mp h
  simp [dirPart, basePart, List.take_of_length_le]

theorem fileList_eq (U : Uni) (rd : ReadDir) (fuel : Nat) {field : List Bytes} {w : Bytes}
    (h : field.getLast? = some w) (hw : w ≠ []) :
    fileList U rd fuel field = match fileLoop U rd fuel (dirPart w) (basePart w) [] with
      | some l => .done l
      | none => .running := by
  unfold fileList
  rw [h]
  dsimp only
  cases ht : w.getLast? with
  | none => exact absurd (List.getLast?_eq_none_iff.mp ht) hw
  | some tail =>
    dsimp only
    by_cases hs : tail = 0x2F
    · subst hs
      obtain ⟨h1, h2⟩ := dirPart_slash ht
      rw [h1, h2, if_pos rfl, if_pos rfl]
      rfl
    · rw [if_neg hs, if_neg hs]
      have : (afterLastSlash w).length = (w.reverse.takeWhile (· != 0x2F)).length := by
        simp [afterLastSlash]
      rw [this]
      rfl

theorem endsSlash_append (a : Bytes) : endsSlash (a ++ [0x2F]) = true := by simp [endsSlash]

theorem fileLoop_again (U : Uni) (rd : ReadDir) (x b0 : Bytes) (n : Nat) :
    fileLoop U rd (n + 1) (x ++ [0x2F]) [] [(x ++ [0x2F], b0)] =
      match rd (x ++ [0x2F]) with
      | none => some [(x ++ [0x2F], b0)]
      | some sub =>
        if matching U [] sub = [] then fileLoop U rd n (x ++ [0x2F]) [] [(x ++ [0x2F], b0)]
        else some ((x ++ [0x2F], b0) :: matchEntries U (x ++ [0x2F]) [] sub) := by
  rw [fileLoop]
  have hz : zeroToOneDot (x ++ [0x2F]) = x ++ [0x2F] := by
    unfold zeroToOneDot
    rw [if_neg (by simp)]
  rw [hz]
  cases hr : rd (x ++ [0x2F]) with
  | none => rfl
  | some sub =>
    dsimp only
    by_cases hm : matching U [] sub = []
    · rw [if_pos hm]
      have : matchEntries U (x ++ [0x2F]) [] sub = [] := by rw [matchEntries_eq, hm]; rfl
      rw [this]
      show (if endsSlash (x ++ [0x2F]) = true then _ else _) = _
      rw [if_pos (endsSlash_append x)]
    · rw [if_neg hm]
      cases hme : matchEntries U (x ++ [0x2F]) [] sub with
      | nil =>
        rw [matchEntries_eq, List.map_eq_nil_iff] at hme
        exact absurd hme hm
      | cons a l => rfl

theorem matching_dots (U : Uni) {sub : List (Bytes × Bool)} :
    matching U [] sub = [] ↔ ∀ e ∈ sub, e.1 = [0x2E] ∨ e.1 = [0x2E, 0x2E] := by
  rw [matching_nil, List.filter_eq_nil_iff]
  constructor
  · intro h e he
    have := h e he
    simp only [decide_eq_true_eq] at this
    by_cases h1 : e.1 = [0x2E]
    · exact Or.inl h1
    · by_cases h2 : e.1 = [0x2E, 0x2E]
      · exact Or.inr h2
      · exact absurd ⟨h1, h2⟩ this
  · intro h e he
    simp only [decide_eq_true_eq]
    rintro ⟨h1, h2⟩
    rcases h e he with h | h
    · exact h1 h
    · exact h2 h

/-- What the first round leads to. -/
theorem fileLoop_first (U : Uni) (rd : ReadDir) (dir base : Bytes) (n : Nat) :
    fileLoop U rd (n + 1) dir base [] =
      match rd (if dir = [] then [0x2E] else dir) with
      | none => some []
      | some entries =>
        match matching U base entries with
        | [(name, true)] =>
          fileLoop U rd n (dir ++ name ++ [0x2F]) [] [(dir ++ name ++ [0x2F], name ++ [0x2F])]
        | [(name, false)] =>
          if endsSlash (dir ++ name) then fileLoop U rd n (dir ++ name) [] [(dir ++ name, name)]
          else some [(dir ++ name, name)]
        | _ => some (matchEntries U dir base entries) := by
  rw [fileLoop]
  have hz : zeroToOneDot dir = if dir = [] then [0x2E] else dir := rfl
  rw [hz]
  cases hr : rd (if dir = [] then [0x2E] else dir) with
  | none => rfl
  | some entries =>
    dsimp only
    rw [List.nil_append, matchEntries_eq]
    cases hm : matching U base entries with
    | nil => rfl
    | cons e l =>
      obtain ⟨name, d⟩ := e
      cases l with
      | nil =>
        cases d with
        | true =>
          show (if endsSlash (dir ++ name ++ [0x2F]) = true then _ else _) = _
          rw [if_pos (endsSlash_append _)]
        | false => rfl
      | cons e2 l => cases d <;> rfl

/-- **C35** when the word does not only match an empty directory: `List` returns, after at most
two rounds of its loop.  Names of directory entries do not contain slashes. -/
theorem C35_partial {U : Uni} {rd : ReadDir} {field : List Bytes}
    (hn : ∀ d es, rd d = some es → ∀ e ∈ es, e.1 ≠ [] ∧ (0x2F : UInt8) ∉ e.1)
    (hw : ∀ w, field.getLast? = some w → w ≠ [] ∧ ¬ OnlyEmptyDir U rd w) :
    ∃ l, ∀ fuel, 2 ≤ fuel → fileList U rd fuel field = .done l := by
  cases hf : field.getLast? with
  | none => exact ⟨[], fun fuel _ => by unfold fileList; rw [hf]⟩
  | some w =>
    obtain ⟨hne, hno⟩ := hw w hf
    suffices h : ∃ l, ∀ fuel, 2 ≤ fuel →
        fileLoop U rd fuel (dirPart w) (basePart w) [] = some l by
      obtain ⟨l, h⟩ := h
      exact ⟨l, fun fuel hfu => by rw [fileList_eq U rd fuel hf hne, h fuel hfu]⟩
    have two : ∀ fuel, 2 ≤ fuel → ∃ m, fuel = m + 1 + 1 := fun fuel h => ⟨fuel - 2, by omega⟩
    cases hr : rd (if dirPart w = [] then [0x2E] else dirPart w) with
    | none =>
      refine ⟨[], fun fuel h => ?_⟩
      obtain ⟨m, rfl⟩ := two fuel h
      rw [fileLoop_first, hr]
    | some entries =>
      cases hm : matching U (basePart w) entries with
      | nil =>
        refine ⟨matchEntries U (dirPart w) (basePart w) entries, fun fuel h => ?_⟩
        obtain ⟨m, rfl⟩ := two fuel h
        rw [fileLoop_first, hr]
        dsimp only
        rw [hm]
      | cons e l =>
        obtain ⟨name, d⟩ := e
        have hmem : (name, d) ∈ entries := by
          have : (name, d) ∈ matching U (basePart w) entries := by rw [hm]; simp
          exact (List.mem_filter.mp this).1
        obtain ⟨hname, hslash⟩ := hn _ _ hr _ hmem
        cases l with
        | nil =>
          cases d with
          | true =>
            cases hs : rd (dirPart w ++ name ++ [0x2F]) with
            | none =>
              refine ⟨[(dirPart w ++ name ++ [0x2F], name ++ [0x2F])], fun fuel h => ?_⟩
              obtain ⟨m, rfl⟩ := two fuel h
              rw [fileLoop_first, hr]
              dsimp only
              rw [hm]
              dsimp only
              rw [fileLoop_again, hs]
            | some sub =>
              have hx : matching U [] sub ≠ [] := by
                intro he
                exact hno ⟨entries, name, sub, hr, hm, hs, (matching_dots U).mp he⟩
              refine ⟨(dirPart w ++ name ++ [0x2F], name ++ [0x2F]) ::
                matchEntries U (dirPart w ++ name ++ [0x2F]) [] sub, fun fuel h => ?_⟩
              obtain ⟨m, rfl⟩ := two fuel h
              rw [fileLoop_first, hr]
              dsimp only
              rw [hm]
              dsimp only
              rw [fileLoop_again, hs]
              dsimp only
              rw [if_neg hx]
          | false =>
            refine ⟨[(dirPart w ++ name, name)], fun fuel h => ?_⟩
            obtain ⟨m, rfl⟩ := two fuel h
            rw [fileLoop_first, hr]
            dsimp only
            rw [hm]
            dsimp only
            rw [if_neg]
            intro he
            unfold endsSlash at he
            obtain ⟨a, z, rfl⟩ := (List.eq_nil_or_concat name).resolve_left hname
            rw [List.concat_eq_append, ← List.append_assoc] at he
            have he : z = 0x2F := by simpa using he
            exact hslash (by simp [he])
        | cons e2 l =>
          refine ⟨matchEntries U (dirPart w) (basePart w) entries, fun fuel h => ?_⟩
          obtain ⟨m, rfl⟩ := two fuel h
          rw [fileLoop_first, hr]
          dsimp only
          rw [hm]
          cases d <;> rfl

/-- ... and otherwise it never returns. -/
theorem C35_stuck {U : Uni} {rd : ReadDir} {field : List Bytes} {w : Bytes}
    (hf : field.getLast? = some w) (hw : w ≠ []) (h : OnlyEmptyDir U rd w) (fuel : Nat) :
    fileList U rd fuel field = .running := by
  rw [fileList_eq U rd fuel hf hw]
  obtain ⟨entries, name, sub, h1, h2, h3, h4⟩ := h
  have hrun : ∀ n, fileLoop U rd n (dirPart w ++ name ++ [0x2F]) []
      [(dirPart w ++ name ++ [0x2F], name ++ [0x2F])] = none := by
    intro n
    induction n with
    | zero => rfl
    | succ n ih =>
      rw [fileLoop_again, h3]
      dsimp only
      rw [if_pos ((matching_dots U).mpr h4), ih]
  cases fuel with
  | zero => rfl
  | succ n =>
    rw [fileLoop_first, h1]
    dsimp only
    rw [h2]
    dsimp only
    rw [hrun n]

/-- An empty last field makes it panic. -/
theorem C35_empty {U : Uni} {rd : ReadDir} {field : List Bytes} (hf : field.getLast? = some [])
    (fuel : Nat) : fileList U rd fuel field = .panic := by
  unfold fileList
  rw [hf]
  rfl

namespace Example

/-- A directory with an empty directory `new`, a directory `src` with a file, and two files. -/
def tree : ReadDir := fun d =>
  if d = b "." then some [(b "new", true), (b "src", true), (b "a.txt", false), (b "ab.txt", false)]
  else if d = b "new/" then some []
  else if d = b "src/" then some [(b "main.go", false)]
  else none

example : fileList uni tree 2 [b "cat", b "S"] =
    .done [(b "src/", b "src/"), (b "src/main.go", b "main.go")] := by decide +kernel
example : fileList uni tree 2 [b "a"] =
    .done [(b "a.txt", b "a.txt"), (b "ab.txt", b "ab.txt")] := by decide +kernel

end Example
open Example

/-- `cd ne` and the completion key: the editor hangs. -/
theorem C35_refuted (fuel : Nat) : fileList uni tree fuel [b "cd", b "ne"] = .running :=
  C35_stuck (w := b "ne") rfl (by decide +kernel)
    ⟨[(b "new", true), (b "src", true), (b "a.txt", false), (b "ab.txt", false)], b "new", [],
      by decide +kernel, by decide +kernel, by decide +kernel, by simp⟩ fuel

end Readline

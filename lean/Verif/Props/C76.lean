import Verif.Proof.Tab
import Verif.Proof.Steady
/-!
# C76: the completion key completes file names

False in two cases: an empty last word (`""` typed, or a delimiter at the start of a word) makes the
editor panic, and a word that only fits an empty directory makes it hang.  `C76_partial` says what
the key does in all other cases; `C76_panics` and `C76_hangs` that the two cases are as bad as that;
`C76_session` that a session in which neither comes up is a session with a completer that always
answers, so that all other theorems hold for it.
-/
namespace Readline
open Spec

/-- **C76** where the key returns: the word before the cursor is completed from the directory
listings as `Spec.tabOutcome` and `Spec.candidates` say, and the rest of the line stays. -/
theorem C76_partial {U : Uni} {rd : ReadDir} {post : Bytes} {box : Option (List Bytes → Bytes)} {E : Env} {s s' : St}
    {rc : Result} {l r : List Bytes} {ws : List (Nat × Bytes)} (hn : FileNames rd)
    (h : cmdFile U rd post box E s = .ok (s', rc)) (hat : At s l r)
    (hw : Words fileMarks.enclosures fileMarks.delimiters l ws) :
    rc = .cont ∧ (ws = [] → s' = s) ∧ ∀ w, (ws.map Prod.snd).getLast? = some w → w ≠ [] ∧
      ∃ cands, candidates U rd w = some cands ∧
        Completed E.cfg box l r s s' (tabOutcome U post w (startOfLast ws) cands) := by
  rw [cmdFile_eq hat.le_len (by rw [hat.take_units]; exact hw)] at h
  cases hf : (ws.map Prod.snd).getLast? with
  | none =>
    have hws : ws = [] := by simpa using List.getLast?_eq_none_iff.mp hf
    rw [fileList_nil U rd 2 hf] at h
    obtain ⟨h1, h2⟩ := C33 h hat hw
    refine ⟨h1, fun _ => ?_, fun w hw => nomatch hw⟩
    unfold completionFor at h2
    rw [hf] at h2
    exact h2
  | some w =>
    have hws : ws ≠ [] := by rintro rfl; cases hf
    by_cases hne : w = []
    · subst hne
      rw [C35_empty hf] at h
      cases h
    · have hl := fileList_candidates (U := U) hn hf hne 0
      rw [hl] at h
      cases hc : candidates U rd w with
      | none => rw [hc] at h; cases h
      | some cands =>
        rw [hc] at h
        obtain ⟨h1, h2⟩ := C33 h hat hw
        refine ⟨h1, fun e => absurd e hws, fun w' e => ?_⟩
        cases e
        refine ⟨hne, cands, hc, ?_⟩
        have e := completionFor_file hn (post := post) hf hne hc (startOfLast ws)
        rw [← e]
        exact h2

/-- An empty last word: the editor panics. -/
theorem C76_panics {U : Uni} {rd : ReadDir} {post : Bytes} {box : Option (List Bytes → Bytes)} {E : Env} {s : St}
    {l r : List Bytes} {ws : List (Nat × Bytes)} (hat : At s l r)
    (hw : Words fileMarks.enclosures fileMarks.delimiters l ws) (he : (ws.map Prod.snd).getLast? = some []) :
    cmdFile U rd post box E s = .error ⟨.bounds, s⟩ := by
  rw [cmdFile_eq hat.le_len (by rw [hat.take_units]; exact hw), C35_empty he]

/-- A word that only fits an empty directory: the editor hangs, however long one waits. -/
theorem C76_hangs {U : Uni} {rd : ReadDir} {post : Bytes} {box : Option (List Bytes → Bytes)} {E : Env} {s : St}
    {l r : List Bytes} {ws : List (Nat × Bytes)} {w : Bytes} (hn : FileNames rd) (hat : At s l r)
    (hw : Words fileMarks.enclosures fileMarks.delimiters l ws) (he : (ws.map Prod.snd).getLast? = some w) (hne : w ≠ [])
    (hc : candidates U rd w = none) :
    cmdFile U rd post box E s = .error ⟨.diverge, s⟩ ∧ ∀ n, fileList U rd n (ws.map Prod.snd) = .running := by
  have h2 : ∀ n, fileList U rd (n + 2) (ws.map Prod.snd) = .running := fun n => by
    rw [fileList_candidates hn he hne n, hc]
  refine ⟨?_, fun n => ?_⟩
  · rw [cmdFile_eq hat.le_len (by rw [hat.take_units]; exact hw), h2 0]
  · exact C35_stuck he hne (onlyEmptyDir_of_none hc) n

/-- The only entry that fits is a directory with something in it: the word becomes that directory
with a slash, so that completing can go on. -/
theorem C76_directory {U : Uni} {rd : ReadDir} {post w : Bytes} {start : Nat} {entries sub : List (Bytes × Bool)}
    {name : Bytes} (h1 : rd (dirOf w) = some entries) (h2 : matching U (basePart w) entries = [(name, true)])
    (h3 : rd (dirPart w ++ name ++ [0x2F]) = some sub) (h4 : proper sub ≠ [])
    (hv : ValidUtf8 (dirPart w ++ name ++ [0x2F])) :
    ∃ cands, candidates U rd w = some cands ∧ tabOutcome U post w start cands =
      if sameIgnoringCase U w (dirPart w ++ name ++ [0x2F]) then
        .bell (written [] (name, true) :: (proper sub).map (written []))
      else .insert start (quoted fileMarks (cands.any fun x => needsQuote fileMarks x.1) false
        (dirPart w ++ name ++ [0x2F])) := by
  have hc : candidates U rd w = some (fileEntry (dirPart w) (name, true) ::
      (proper sub).map (fileEntry (dirPart w ++ name ++ [0x2F]))) := by
    unfold candidates
    rw [h1]
    dsimp only
    rw [h2]
    dsimp only
    rw [h3]
    dsimp only
    rw [if_neg h4]
  refine ⟨_, hc, ?_⟩
  have hp : commonPrefix U ((fileEntry (dirPart w) (name, true) ::
      (proper sub).map (fileEntry (dirPart w ++ name ++ [0x2F]))).map Prod.fst) = some (dirPart w ++ name ++ [0x2F]) := by
    have := commonPrefix_dir (U := U) hv ((proper sub).map (written []))
    rw [List.map_map] at this
    rw [List.map_cons, List.map_map]
    rw [← this]
    congr 2
    apply List.map_congr_left
    intro e _
    simp [fileEntry, written]
  have hs : (fileEntry (dirPart w) (name, true) ::
      (proper sub).map (fileEntry (dirPart w ++ name ++ [0x2F]))).map Prod.snd =
      written [] (name, true) :: (proper sub).map (written []) := by
    rw [List.map_cons, List.map_map]
    rfl
  rw [← hs]
  unfold tabOutcome
  rw [hp]
  cases hq : proper sub with
  | nil => exact absurd hq h4
  | cons e es => rfl

/-- The editor with a completer that answers like `completion.File` when that does, on the key `k`. -/
def bindAnswering (U : Uni) (rd : ReadDir) (post : Bytes) (box : Option (List Bytes → Bytes)) (k : Bytes) (E : Env) :
    Env :=
  { E with keyMap := some fun x => if x = k then some (.completion (fileCompleting U rd post box)) else KeyMap.lookup E.keyMap x }

/-- How the search for files goes wrong with these units before the cursor. -/
inductive Spec.BadWord (U : Uni) (rd : ReadDir) (l : List Bytes) : PanicKind → Prop where
  | empty {ws} : Words fileMarks.enclosures fileMarks.delimiters l ws → (ws.map Prod.snd).getLast? = some [] →
      BadWord U rd l .bounds
  | endless {ws w} : Words fileMarks.enclosures fileMarks.delimiters l ws → (ws.map Prod.snd).getLast? = some w → w ≠ [] →
      candidates U rd w = none → BadWord U rd l .diverge

theorem badWord_or {U : Uni} {rd : ReadDir} (hn : FileNames rd) {post : Bytes} {box : Option (List Bytes → Bytes)} {E : Env}
    (s : St) : cmdFile U rd post box E s = cmdComplete E (fileCompleting U rd post box) s ∨
    ∃ kd, BadWord U rd (s.units.take s.cursor.toNat) kd ∧ cmdFile U rd post box E s = .error ⟨kd, s⟩ := by
  by_cases hc : s.cursor ≤ s.len
  · obtain ⟨ws, hw, -⟩ := C33_words fileMarks.enclosures fileMarks.delimiters (s.units.take s.cursor.toNat)
    rw [cmdFile_eq hc hw]
    cases hf : (ws.map Prod.snd).getLast? with
    | none => rw [fileList_nil U rd 2 hf]; exact .inl rfl
    | some w =>
      by_cases hne : w = []
      · subst hne
        rw [C35_empty hf]
        exact .inr ⟨_, .empty hw hf, rfl⟩
      · have hl := fileList_candidates (U := U) hn hf hne 0
        rw [hl]
        cases hc : candidates U rd w with
        | none => exact .inr ⟨_, .endless hw hf hne hc, rfl⟩
        | some cands => exact .inl rfl
  · left
    have hs : ∀ q d, split q d s = .error ⟨.bounds, s⟩ := fun q d => by
      unfold split
      rw [if_pos (by omega)]
    have h1 : complete U E (fileCompleter U rd) post s = .error ⟨.bounds, s⟩ := by
      unfold complete
      dsimp only
      rw [hs]
      rfl
    have h2 : cmdComplete E (fileCompleting U rd post box) s = .error ⟨.bounds, s⟩ := by
      cases box with
      | none =>
        show cmdCompletion U E (fileCompleter U rd) post s = _
        unfold cmdCompletion
        rw [h1]
        rfl
      | some bx =>
        show cmdCompletionOrList U E (fileCompleter U rd) bx post s = _
        unfold cmdCompletionOrList
        rw [h1]
        rfl
    unfold cmdFile
    rw [hs, h2]
    rfl

/-! The commands do not look at the bindings. -/

theorem isearchUpdate_map (E : Env) (km : KeyMap) (it : ISt) (n : Nat) :
    isearchUpdate { E with keyMap := km } it n = isearchUpdate E it n := by
  induction n with
  | zero => rfl
  | succ n ih => rw [isearchUpdate, isearchUpdate, ih]; rfl

theorem isearchPrev_map (E : Env) (km : KeyMap) (s : St) (it : ISt) (n : Nat) : ∀ i : Int,
    isearchPrev { E with keyMap := km } s it n i = isearchPrev E s it n i := by
  induction n with
  | zero => intro i; rfl
  | succ n ih =>
    intro i
    rw [isearchPrev, isearchPrev]
    simp only [ih]
    rfl

theorem isearchNext_map (E : Env) (km : KeyMap) (s : St) (it : ISt) (n : Nat) : ∀ i : Int,
    isearchNext { E with keyMap := km } s it n i = isearchNext E s it n i := by
  induction n with
  | zero => intro i; rfl
  | succ n ih =>
    intro i
    rw [isearchNext, isearchNext]
    simp only [ih]
    rfl

theorem isearchLoop_map (E : Env) (km : KeyMap) (n : Nat) : ∀ (it : ISt) (s : St),
    isearchLoop { E with keyMap := km } n it s = isearchLoop E n it s := by
  induction n with
  | zero => intro it s; rfl
  | succ n ih =>
    intro it s
    rw [isearchLoop, isearchLoop]
    simp only [ih, isearchUpdate_map, isearchPrev_map, isearchNext_map]
    rfl

theorem call_map (E : Env) (km : KeyMap) (c : Cmd) (s : St) : Cmd.call { E with keyMap := km } c s = Cmd.call E c s := by
  cases c
  case isearchBackward => exact isearchLoop_map E km _ _ _
  all_goals rfl

theorem finish_map (E : Env) (km : KeyMap) (s : St) (rc : Result) : finish { E with keyMap := km } s rc = finish E s rc := rfl

theorem execCmd_map (E : Env) (km : KeyMap) (c : Cmd) (s : St) : execCmd { E with keyMap := km } c s = execCmd E c s := by
  unfold execCmd
  simp only [call_map, finish_map]

theorem lookup_files {U : Uni} {rd : ReadDir} {post : Bytes} {box : Option (List Bytes → Bytes)} {k : Bytes} (E : Env)
    (x : Bytes) : (x ≠ k ∧ lookupCommand (bindFiles U rd post box k E) x = lookupCommand (bindAnswering U rd post box k E) x) ∨
    (x = k ∧ lookupCommand (bindFiles U rd post box k E) x = .custom (cmdFile U rd post box E) ∧
      lookupCommand (bindAnswering U rd post box k E) x = .completion (fileCompleting U rd post box)) := by
  by_cases h : x = k
  · subst h
    refine .inr ⟨rfl, ?_, ?_⟩
    · simp [lookupCommand, bindFiles, KeyMap.lookup]
    · simp [lookupCommand, bindAnswering, KeyMap.lookup]
  · refine .inl ⟨h, ?_⟩
    simp [lookupCommand, bindFiles, bindAnswering, KeyMap.lookup, h]

theorem step_files {U : Uni} {rd : ReadDir} (hn : FileNames rd) {post : Bytes} {box : Option (List Bytes → Bytes)} {k : Bytes}
    (E : Env) (s : St) : step (bindFiles U rd post box k E) s = step (bindAnswering U rd post box k E) s ∨
    ∃ p rest, step (bindFiles U rd post box k E) s = .error p ∧ s.input = .key k :: rest ∧
      BadWord U rd (s.units.take s.cursor.toNat) p.kind := by
  unfold step
  cases hi : s.input with
  | nil => exact .inl rfl
  | cons ev rest =>
    cases ev with
    | err e => exact .inl rfl
    | resize w => exact .inl rfl
    | key x =>
      dsimp only
      generalize hs1 : ({ s.emit .await with input := rest } : St) = s1
      have e1 : ∀ c, execCmd (bindFiles U rd post box k E) c s1 = execCmd E c s1 := fun c => execCmd_map E _ c _
      have e2 : ∀ c, execCmd (bindAnswering U rd post box k E) c s1 = execCmd E c s1 := fun c => execCmd_map E _ c _
      rw [e1, e2]
      rcases lookup_files (U := U) (rd := rd) (post := post) (box := box) (k := k) E x with ⟨-, h⟩ | ⟨rfl, h1, h2⟩
      · rw [h]; exact .inl rfl
      · rw [h1, h2]
        rcases badWord_or hn (post := post) (box := box) (E := E) (s1.emit .cursorOff) with h | ⟨kd, hb, h⟩
        · left
          unfold execCmd
          have e3 : Cmd.call E (.custom (cmdFile U rd post box E)) (s1.emit .cursorOff) =
              cmdFile U rd post box E (s1.emit .cursorOff) := rfl
          have e4 : Cmd.call E (.completion (fileCompleting U rd post box)) (s1.emit .cursorOff) =
              cmdComplete E (fileCompleting U rd post box) (s1.emit .cursorOff) := rfl
          dsimp only
          rw [e3, e4, h]
        · right
          refine ⟨⟨kd, s1.emit .cursorOff⟩, rest, ?_, rfl, ?_⟩
          · unfold execCmd
            have e3 : Cmd.call E (.custom (cmdFile U rd post box E)) (s1.emit .cursorOff) =
                cmdFile U rd post box E (s1.emit .cursorOff) := rfl
            dsimp only
            rw [e3, h]
            rfl
          · have : (s1.emit .cursorOff).units.take (s1.emit .cursorOff).cursor.toNat = s.units.take s.cursor.toNat := by
              rw [← hs1]; rfl
            rw [← this]
            exact hb

theorem loop_files {U : Uni} {rd : ReadDir} (hn : FileNames rd) {post : Bytes} {box : Option (List Bytes → Bytes)} {k : Bytes}
    (E : Env) (w : World) (n : Nat) : ∀ s, Reachable (bindAnswering U rd post box k E) w s →
    loop (bindFiles U rd post box k E) n s = loop (bindAnswering U rd post box k E) n s ∨
    ∃ p s1 rest, loop (bindFiles U rd post box k E) n s = .error p ∧ Reachable (bindAnswering U rd post box k E) w s1 ∧
      s1.input = .key k :: rest ∧ BadWord U rd (s1.units.take s1.cursor.toNat) p.kind := by
  induction n with
  | zero => intro s _; exact .inl rfl
  | succ n ih =>
    intro s hr
    rw [loop, loop]
    rcases step_files hn (post := post) (box := box) (k := k) E s with h | ⟨p, rest, h, hi, hb⟩
    · rw [h]
      cases hs : step (bindAnswering U rd post box k E) s with
      | error p => exact .inl rfl
      | ok x =>
        obtain ⟨s1, o⟩ := x
        cases o with
        | some r => exact .inl rfl
        | none => exact ih s1 (.step hr hs)
    · rw [h]
      exact .inr ⟨p, s, rest, rfl, hr, hi, hb⟩

/-- **C76** for a whole session: it is one with a completer that always answers, or it panics or
hangs because the key was pressed behind a word that is empty or only fits an empty directory. -/
theorem C76_session_partial {U : Uni} {rd : ReadDir} (hn : FileNames rd) (post : Bytes) (box : Option (List Bytes → Bytes))
    (k : Bytes) (E : Env) (w : World) :
    readLine (bindFiles U rd post box k E) w = readLine (bindAnswering U rd post box k E) w ∨
    ∃ p s rest, readLine (bindFiles U rd post box k E) w = .error p ∧ Reachable (bindAnswering U rd post box k E) w s ∧
      s.input = .key k :: rest ∧ BadWord U rd (s.units.take s.cursor.toNat) p.kind := by
  have e : startSt (bindFiles U rd post box k E) w = startSt (bindAnswering U rd post box k E) w := rfl
  unfold readLine
  rw [e]
  cases h : startSt (bindAnswering U rd post box k E) w with
  | error p => exact .inl rfl
  | ok s => exact loop_files hn E w _ s (.start h)

namespace Example

theorem tree_names : FileNames tree := by
  intro d es h e he
  unfold tree at h
  split at h
  · cases h; simp at he; rcases he with rfl | rfl | rfl | rfl <;> decide +kernel
  · split at h
    · cases h; simp at he
    · split at h
      · cases h; simp at he; subst he; decide +kernel
      · cases h

/-- The names below each other. -/
def column : Option (List Bytes → Bytes) := some fun l => (l.map (· ++ b "\n")).flatten

/-- Tab completes file names, as in examples/example2.go. -/
def filesEnv : Env := bindFiles uni tree (b " ") column (b "\t") (env plain)

/-- `cat s`, twice Tab: the directory, then its file and a blank. -/
example : outcome (readLine filesEnv { input := keys ["c", "a", "t", " ", "s", "\t", "\x0d"] }) = .inr (b "cat src/", .nil) := by
  decide +kernel
example : outcome (readLine filesEnv { input := keys ["c", "a", "t", " ", "s", "\t", "m", "\t", "\x0d"] }) =
    .inr (b "cat src/main.go ", .nil) := by decide +kernel
example : outcome (readLine filesEnv { input := keys ["A", "B", "\t", "\x0d"] }) = .inr (b "ab.txt ", .nil) := by
  decide +kernel
/-- What `C76_partial` says of `x s` and the key: the word at 2 becomes `src/`. -/
example : (candidates uni tree (b "s")).map (tabOutcome uni (b " ") (b "s") 2) = some (.insert 2 (b "src/")) := by
  decide +kernel
example : (candidates uni tree (b "src/m")).map (tabOutcome uni (b " ") (b "src/m") 0) =
    some (.insert 0 (b "src/main.go ")) := by decide +kernel
example : (candidates uni tree (b "a")).map (tabOutcome uni (b " ") (b "a") 0) =
    some (.bell [b "a.txt", b "ab.txt"]) := by decide +kernel
example : candidates uni tree (b "new") = none := by decide +kernel
example : (candidates uni tree (b "x/y")).map (tabOutcome uni (b " ") (b "x/y") 0) = some .nothing := by decide +kernel

end Example
open Example

/-- `cat ""` and Tab: the session ends in a panic. -/
theorem C76_refuted_empty :
    outcome (readLine filesEnv { input := keys ["c", "a", "t", " ", "\"", "\"", "\t", "\x0d"] }) = .inl .bounds := by
  decide +kernel

/-- `cd n` and Tab: the session never ends. -/
theorem C76_refuted_hang :
    outcome (readLine filesEnv { input := keys ["c", "d", " ", "n", "\t", "\x0d"] }) = .inl .diverge := by
  decide +kernel

end Readline

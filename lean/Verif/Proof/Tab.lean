import Verif.Proof.Source
import Verif.Model.FileTab
import Verif.Spec.Tab
import Verif.Props.C33
/-!
# Lemmas about completing file names
-/
namespace Readline
open Spec

theorem fileEntry_eq (dir : Bytes) (e : Bytes × Bool) :
    fileEntry dir e = if e.2 then (dir ++ e.1 ++ [0x2F], e.1 ++ [0x2F]) else (dir ++ e.1, e.1) := by
  obtain ⟨n, d⟩ := e
  cases d <;> simp [fileEntry, written]

theorem matchEntries_map (U : Uni) (dir base : Bytes) (entries : List (Bytes × Bool)) :
    matchEntries U dir base entries = (matching U base entries).map (fileEntry dir) := by
  rw [matchEntries_eq]
  congr 1
  funext e
  rw [fileEntry_eq]

/-- Names of directory entries are not empty and have no slashes. -/
def Spec.FileNames (rd : ReadDir) : Prop := ∀ d es, rd d = some es → ∀ e ∈ es, e.1 ≠ [] ∧ (0x2F : UInt8) ∉ e.1

theorem endsSlash_name {dir name : Bytes} (h1 : name ≠ []) (h2 : (0x2F : UInt8) ∉ name) :
    endsSlash (dir ++ name) = false := by
  unfold endsSlash
  obtain ⟨a, z, rfl⟩ := (List.eq_nil_or_concat name).resolve_left h1
  rw [List.concat_eq_append, ← List.append_assoc]
  simp only [List.getLast?_append, List.getLast?_singleton]
  simp only [List.concat_eq_append, List.mem_append, List.mem_singleton, not_or] at h2
  simp
  exact fun e => h2.2 e.symm

theorem matching_mem {U : Uni} {base : Bytes} {entries : List (Bytes × Bool)} {e : Bytes × Bool}
    (h : e ∈ matching U base entries) : e ∈ entries ∧ base.length ≤ e.1.length ∧
    sameIgnoringCase U base (e.1.take base.length) = true := by
  unfold matching at h
  rw [List.mem_filter] at h
  simp only [Bool.and_eq_true, decide_eq_true_eq] at h
  exact ⟨h.1, h.2.1.2.2, h.2.2⟩

/-- The listing is that of `Spec.candidates`, after two rounds or more. -/
theorem fileList_candidates {U : Uni} {rd : ReadDir} (hn : FileNames rd) {fields : List Bytes} {w : Bytes}
    (hf : fields.getLast? = some w) (hw : w ≠ []) (n : Nat) :
    fileList U rd (n + 2) fields = match candidates U rd w with
      | some l => .done l
      | none => .running := by
  cases hc : candidates U rd w with
  | none =>
    refine C35_stuck hf hw ?_ _
    unfold candidates at hc
    split at hc
    · cases hc
    · rename_i entries hr
      split at hc
      · rename_i name hm
        split at hc
        · cases hc
        · rename_i sub hs
          split at hc
          · rename_i hp
            refine ⟨entries, name, sub, hr, hm, hs, ?_⟩
            rw [← matching_dots U, matching_nil]
            exact hp
          · cases hc
      · cases hc
  | some l =>
    dsimp only
    rw [fileList_eq U rd _ hf hw]
    suffices h : fileLoop U rd (n + 2) (dirPart w) (basePart w) [] = some l by rw [h]
    rw [fileLoop_first]
    unfold candidates at hc
    have hd : (if dirPart w = [] then [0x2E] else dirPart w) = dirOf w := rfl
    rw [hd]
    cases hr : rd (dirOf w) with
    | none => rw [hr] at hc; exact hc
    | some entries =>
      rw [hr] at hc
      dsimp only at hc ⊢
      cases hm : matching U (basePart w) entries with
      | nil => rw [hm] at hc; dsimp only at hc ⊢; rw [matchEntries_map, hm]; exact hc
      | cons e es =>
        obtain ⟨name, d⟩ := e
        have hmem : (name, d) ∈ matching U (basePart w) entries := by rw [hm]; simp
        obtain ⟨h1, h2⟩ := hn _ _ hr _ (matching_mem hmem).1
        rw [hm] at hc
        cases es with
        | nil =>
          cases d with
          | true =>
            dsimp only at hc ⊢
            rw [fileLoop_again]
            cases hs : rd (dirPart w ++ name ++ [0x2F]) with
            | none =>
              rw [hs] at hc
              dsimp only at hc ⊢
              rw [fileEntry_eq] at hc
              exact hc
            | some sub =>
              rw [hs] at hc
              dsimp only at hc ⊢
              have hp : matching U [] sub = proper sub := matching_nil U
              rw [hp]
              by_cases hz : proper sub = []
              · rw [if_pos hz] at hc; cases hc
              · rw [if_neg hz] at hc ⊢
                rw [matchEntries_map, hp]
                rw [fileEntry_eq] at hc
                exact hc
          | false =>
            dsimp only at hc ⊢
            rw [endsSlash_name h1 h2]
            rw [List.map_singleton, fileEntry_eq] at hc
            exact hc
        | cons e2 es =>
          rw [matchEntries_map, hm]
          cases d <;> exact hc

theorem dirPart_eq (w : Bytes) : dirPart w = (w.reverse.dropWhile (· != 0x2F)).reverse := by
  unfold dirPart
  have h := List.takeWhile_append_dropWhile (p := (· != (0x2F : UInt8))) (l := w.reverse)
  generalize w.reverse.takeWhile (· != 0x2F) = x at h
  generalize w.reverse.dropWhile (· != 0x2F) = y at h
  have hw : w = y.reverse ++ x.reverse := by
    rw [← List.reverse_append, h, List.reverse_reverse]
  rw [hw]
  apply List.take_left'
  simp

theorem dirPart_append (w : Bytes) : dirPart w ++ basePart w = w := by
  rw [dirPart_eq, basePart, ← List.reverse_append, List.takeWhile_append_dropWhile, List.reverse_reverse]

theorem dirPart_end (w : Bytes) : dirPart w = [] ∨ ∃ a, dirPart w = a ++ [0x2F] := by
  rw [dirPart_eq]
  cases h : w.reverse.dropWhile (· != 0x2F) with
  | nil => exact .inl rfl
  | cons c l =>
    refine .inr ⟨l.reverse, ?_⟩
    have := List.head?_dropWhile_not (· != (0x2F : UInt8)) w.reverse
    rw [h] at this
    have : c = 0x2F := by simpa using this
    rw [List.reverse_cons, this]

/-- Runes in front of a slash are read on their own. -/
theorem runesOf_dir {d : Bytes} (h : d = [] ∨ ∃ a, d = a ++ [0x2F]) (t : Bytes) :
    runesOf (d ++ t) = runesOf d ++ runesOf t := by
  rcases h with rfl | ⟨a, rfl⟩
  · simp [runesOf_nil]
  · have e : (0x2F : UInt8).toNat < 0x80 := by decide
    rw [List.append_assoc, List.singleton_append, runesOf_stop a _ t e, runesOf_stop a _ [] e, runesOf_nil]
    simp

theorem sameIgnoringCase_dir {U : Uni} {d x y : Bytes} (h : d = [] ∨ ∃ a, d = a ++ [0x2F])
    (he : sameIgnoringCase U x y = true) : sameIgnoringCase U (d ++ x) (d ++ y) = true := by
  unfold sameIgnoringCase at he ⊢
  rw [decide_eq_true_eq] at he ⊢
  rw [runesOf_dir h, runesOf_dir h, List.map_append, List.map_append, he]

/-- A name that begins like the last part of the word, with the directory in front, begins like the word. -/
theorem beginsWith_entry {U : Uni} {w name z : Bytes} (hl : (basePart w).length ≤ name.length)
    (he : sameIgnoringCase U (basePart w) (name.take (basePart w).length) = true) :
    beginsWith U w (dirPart w ++ name ++ z) = true := by
  unfold beginsWith
  have hw := dirPart_append w
  have hlen : w.length = (dirPart w).length + (basePart w).length := by
    rw [← List.length_append, hw]
  have ht : (dirPart w ++ name ++ z).take w.length = dirPart w ++ name.take (basePart w).length := by
    rw [hlen, List.append_assoc, List.take_append, List.take_of_length_le (by omega)]
    simp [List.take_append, Nat.sub_eq_zero_of_le hl]
  rw [ht]
  have := sameIgnoringCase_dir (dirPart_end w) he
  rw [hw] at this
  rw [this]
  simp
  omega

/-- All candidates begin like the word. -/
theorem candidates_begin {U : Uni} {rd : ReadDir} {w : Bytes} {l : List (Bytes × Bytes)}
    (h : candidates U rd w = some l) : ∀ x ∈ l, beginsWith U w x.1 = true := by
  unfold candidates at h
  split at h
  · cases h; simp
  · rename_i entries hr
    split at h
    · rename_i name hm
      have hmem : (name, true) ∈ matching U (basePart w) entries := by rw [hm]; simp
      obtain ⟨-, h1, h2⟩ := matching_mem hmem
      have hd : beginsWith U w (fileEntry (dirPart w) (name, true)).1 = true := beginsWith_entry h1 h2
      split at h
      · cases h
        intro x hx
        cases List.mem_singleton.mp hx
        exact hd
      · rename_i sub hs
        split at h
        · cases h
        · cases h
          intro x hx
          rcases List.mem_cons.mp hx with rfl | hx
          · exact hd
          · obtain ⟨e, -, rfl⟩ := List.mem_map.mp hx
            show beginsWith U w (dirPart w ++ name ++ [0x2F] ++ e.1 ++ _) = true
            rw [List.append_assoc, List.append_assoc]
            exact beginsWith_entry h1 h2
    · cases h
      intro x hx
      obtain ⟨e, he, rfl⟩ := List.mem_map.mp hx
      obtain ⟨-, h1, h2⟩ := matching_mem he
      exact beginsWith_entry h1 h2

theorem needsQuote_marks (U : Uni) (rd : ReadDir) (t : Bytes) :
    needsQuote (fileCompleter U rd) t = needsQuote fileMarks t := rfl

theorem quoted_marks (U : Uni) (rd : ReadDir) (a c : Bool) (t : Bytes) :
    quoted (fileCompleter U rd) a c t = quoted fileMarks a c t := rfl

theorem zip_map_fst_snd (l : List (Bytes × Bytes)) : (l.map Prod.fst).zip (l.map Prod.snd) = l := by
  induction l with
  | nil => rfl
  | cons x l ih => rw [List.map_cons, List.map_cons, List.zip_cons_cons, ih]

/-- Completion with `completion.File` is what `Spec.tabOutcome` says. -/
theorem completionFor_file {U : Uni} {rd : ReadDir} (hn : FileNames rd) {post : Bytes} {fields : List Bytes} {w : Bytes}
    (hf : fields.getLast? = some w) (hw : w ≠ []) {l : List (Bytes × Bytes)} (hc : candidates U rd w = some l)
    (start : Nat) : completionFor U (fileCompleter U rd) post fields start = tabOutcome U post w start l := by
  have hb := candidates_begin hc
  have hl : (fileCompleter U rd).list fields = (l.map Prod.fst, l.map Prod.snd) := by
    show (match fileList U rd (0 + 2) fields with
      | .done l => (l.map Prod.fst, l.map Prod.snd)
      | _ => ([], [])) = _
    rw [fileList_candidates hn hf hw 0, hc]
  have hbase : baseNames (fileCompleter U rd) fields = l.map Prod.snd := by
    unfold baseNames
    rw [hl]
    cases l <;> rfl
  have hfil : (l.map Prod.fst).filter (beginsWith U w) = l.map Prod.fst := by
    rw [List.filter_eq_self]
    intro x hx
    obtain ⟨e, he, rfl⟩ := List.mem_map.mp hx
    exact hb e he
  have hfil2 : l.filter (fun q => beginsWith U w q.1) = l := by
    rw [List.filter_eq_self]
    exact hb
  have hdrop : (l.map Prod.fst).drop (l.map Prod.snd).length = [] := by simp
  unfold completionFor
  rw [hf]
  dsimp only
  rw [hbase, hl]
  dsimp only
  rw [hdrop, hfil, zip_map_fst_snd, hfil2]
  rw [if_neg (by simp)]
  match l with
  | [] => rfl
  | [x] => rfl
  | x :: y :: l =>
    show (match commonPrefix U ((x :: y :: l).map Prod.fst) with
      | none => Outcome.crash
      | some p => _) = (match commonPrefix U ((x :: y :: l).map Prod.fst) with
      | none => Outcome.crash
      | some p => _)
    cases commonPrefix U ((x :: y :: l).map Prod.fst) with
    | none => rfl
    | some p =>
      dsimp only
      have e : x.fst :: List.map Prod.fst (y :: l) = List.map Prod.fst (x :: y :: l) := rfl
      rw [e, List.any_map]
      rfl

theorem commonRunes_self (U : Uni) (a b : List Rune) : commonRunes U a (a ++ b) = a := by
  induction a with
  | nil => cases b <;> rfl
  | cons c a ih =>
    rw [List.cons_append, commonRunes, if_pos rfl, ih]

/-- The common prefix of a directory and what is in it is the directory. -/
theorem commonPrefix_dir {U : Uni} {a : Bytes} (hv : ValidUtf8 (a ++ [0x2F])) (l : List Bytes) :
    commonPrefix U ((a ++ [0x2F]) :: l.map ((a ++ [0x2F]) ++ ·)) = some (a ++ [0x2F]) := by
  have h : ∀ (l : List Bytes) (i : Nat), commonLoop U (l.map ((a ++ [0x2F]) ++ ·)) i (a ++ [0x2F]) (a ++ [0x2F]).length 0 =
      (a ++ [0x2F], 0) := by
    intro l
    induction l with
    | nil => intro i; rfl
    | cons x l ih =>
      intro i
      rw [List.map_cons, commonLoop]
      rw [runesOf_dir (.inr ⟨a, rfl⟩), commonRunes_self, encodeRunes_runesOf hv, if_neg (by simp)]
      exact ih (i + 1)
  unfold commonPrefix
  dsimp only
  rw [h]
  simp only [List.getElem?_cons_zero, Nat.le_refl, if_true, List.take_length]

theorem fileList_nil (U : Uni) (rd : ReadDir) (n : Nat) {fields : List Bytes} (h : fields.getLast? = none) :
    fileList U rd n fields = .done [] := by
  unfold fileList
  rw [h]

/-- The command, when the cursor is inside the line. -/
theorem cmdFile_eq {U : Uni} {rd : ReadDir} {post : Bytes} {box : Option (List Bytes → Bytes)} {E : Env} {s : St}
    {ws : List (Nat × Bytes)} (hc : s.cursor ≤ s.len)
    (hw : Words fileMarks.enclosures fileMarks.delimiters (s.units.take s.cursor.toNat) ws) :
    cmdFile U rd post box E s = match fileList U rd 2 (ws.map Prod.snd) with
      | .panic => .error ⟨.bounds, s⟩
      | .running => .error ⟨.diverge, s⟩
      | .done _ => cmdComplete E (fileCompleting U rd post box) s := by
  unfold cmdFile split
  rw [if_neg (by omega)]
  have e : (s.buf.take s.cursor.toNat).map (fun c => c.moji.write) = s.units.take s.cursor.toNat := by
    rw [List.map_take]; rfl
  rw [e]
  have := hw.run
  have e1 : fileMarks.enclosures = (fileCompleter U rd).enclosures := rfl
  have e2 : fileMarks.delimiters = (fileCompleter U rd).delimiters := rfl
  rw [e1, e2] at this
  rw [this]
  rfl

theorem onlyEmptyDir_of_none {U : Uni} {rd : ReadDir} {w : Bytes} (hc : candidates U rd w = none) :
    OnlyEmptyDir U rd w := by
  unfold candidates at hc
  split at hc
  · cases hc
  · rename_i entries hr
    split at hc
    · rename_i name hm
      split at hc
      · cases hc
      · rename_i sub hs
        split at hc
        · rename_i hp
          refine ⟨entries, name, sub, hr, hm, hs, ?_⟩
          rw [← matching_dots U, matching_nil]
          exact hp
        · cases hc
    · cases hc

theorem Spec.At.le_len {s : St} {l r : List Bytes} (h : Spec.At s l r) : s.cursor ≤ s.len := by
  have hu := congrArg List.length h.units
  have e : s.units.length = s.buf.length := by unfold St.units; simp
  rw [e, List.length_append] at hu
  unfold St.len
  rw [h.cursor, hu]
  omega

theorem Spec.At.take_units {s : St} {l r : List Bytes} (h : Spec.At s l r) : s.units.take s.cursor.toNat = l := by
  rw [h.units, h.cursor]
  simp

end Readline

import Verif.Proof.LastWord
import Verif.Proof.Shift
import Verif.Proof.Split
import Verif.Proof.RefineCall
import Verif.Props.C17
import Verif.Props.C34
/-!
# C33: completion changes only the word before the cursor

`Spec.Words` says how the units before the cursor are cut into words, `Spec.completionFor` what is
to be done with them, `Completed` what it means to have done it.  The words are unique
(`C33_words`).  The blanks between the last word and the cursor are replaced too (`C33_blanks`):
with the cursor after `ls ` and a blank, completion works on `ls`, not on an empty word.
-/
namespace Readline
open Spec

/-- Before completion the units left of the cursor were `l` and those right of it `r`, and the
state was `s`; this is what holds afterwards:

* when there is nothing to do, nothing has changed;
* when there is nothing to insert, the bell has rung, and CmdCompletionOrList has shown the names
  if there are several, leaving the line and the cursor alone;
* else the units from `pos` up to the cursor have been replaced by the text. -/
def Spec.Completed (C : Cfg) (box : Option (List Bytes → Bytes)) (l r : List Bytes) (s s' : St) : Outcome → Prop
  | .crash => False
  | .nothing => s' = s
  | .bell shown =>
    match box with
    | none => s' = s.emit (.lit [0x07])
    | some box =>
      if shown = [] then s' = s.emit (.lit [0x07])
      else At s' l r ∧ ∃ redraw, s'.out = s.out ++ [.lit [0x07], .lit [0x0A], .lit (box shown)] ++ redraw
  | .insert pos t => At s' (l.take pos ++ unitsOf C t) r

theorem repaintAll_out {E : Env} {s s' : St} (h : repaintAll E s = .ok s') : ∃ t, s'.out = s.out ++ t := by
  have h1 := repaintAll_io (E := E) (i := s.input) (p := s.out) { s with out := [] }
  have h2 : ({ s with out := [] } : St).io s.input s.out = s := by
    show ({ s with out := s.out ++ [] } : St) = s
    rw [List.append_nil]
  rw [h2, h] at h1
  cases hr : repaintAll E { s with out := [] } with
  | error e => rw [hr] at h1; cases h1
  | ok s1 =>
    rw [hr] at h1
    injection h1 with h1
    exact ⟨s1.out, by rw [h1]; rfl⟩

/-- **C33** for both completion commands. -/
theorem C33 {E : Env} {P : Completing} {s s' : St} {rc : Result} {l r : List Bytes} {ws : List (Nat × Bytes)}
    (h : cmdComplete E P s = .ok (s', rc)) (hat : At s l r)
    (hw : Words P.completer.enclosures P.completer.delimiters l ws) :
    rc = .cont ∧ Completed E.cfg P.box l r s s'
      (completionFor P.uni P.completer P.postfix_ (ws.map Prod.snd) (startOfLast ws)) := by
  have hin := hat.inside
  have hbef : s.before = l := by
    unfold St.before
    have e1 : s.buf.map (fun c => c.moji.write) = s.units := rfl
    rw [List.map_take, e1, hat.units, hat.cursor]
    simp
  have hlen : s.cursor ≤ s.len := by
    have := hin.2
    rw [units_length] at this
    have e : s.len = (s.ed.line.length : Int) := by
      unfold St.len St.ed
      simp [St.line]
    omega
  rw [cmdComplete_eq hlen, hbef] at h
  have ho : completionOf P.uni P.completer P.postfix_ l =
      completionFor P.uni P.completer P.postfix_ (ws.map Prod.snd) (startOfLast ws) := by
    unfold completionOf
    rw [hw.run]
  rw [← ho]
  cases hx : completionOf P.uni P.completer P.postfix_ l with
  | crash => rw [hx] at h; cases h
  | nothing =>
    rw [hx] at h
    cases h
    exact ⟨rfl, rfl⟩
  | bell shown =>
    rw [hx] at h
    unfold Outcome.call at h
    unfold Completed
    cases hb : P.box with
    | none =>
      rw [hb] at h
      cases h
      exact ⟨rfl, rfl⟩
    | some box =>
      rw [hb] at h
      dsimp only at h ⊢
      by_cases hs : shown = []
      · rw [if_pos hs] at h
        cases h
        exact ⟨rfl, by rw [if_pos hs]⟩
      · rw [if_neg hs] at h
        rw [if_neg hs]
        obtain ⟨s1, h1, h⟩ := bind_ok.mp h
        simp only [pure_ok, Prod.mk.injEq] at h
        obtain ⟨rfl, rfl⟩ := h
        refine ⟨rfl, ⟨?_, ?_⟩, ?_⟩
        · have ho := Obs.of_predict (repaintAll_ed h1)
          rw [ho.units, ← hat.units, ← ed_units]
          rfl
        · have ho := Obs.of_predict (repaintAll_ed h1)
          rw [ho.cursor, ← hat.cursor]
          rfl
        · obtain ⟨t, ht⟩ := repaintAll_out h1
          refine ⟨t, ?_⟩
          rw [ht]
          show ((s.out ++ _) ++ _) ++ _ ++ _ = _
          simp
  | insert pos t =>
    rw [hx] at h
    obtain ⟨s1, hr, h⟩ := bind_ok.mp h
    simp only [pure_ok, Prod.mk.injEq] at h
    obtain ⟨rfl, rfl⟩ := h
    refine ⟨rfl, ?_⟩
    have hpos := completionOf_pos hx
    have hed := replaceAndRepaint_ed hr
    obtain ⟨l', r', ha, hl', hr'⟩ := hat.ed
    have hsp : l' = l'.take pos ++ l'.drop pos := (List.take_append_drop _ _).symm
    rw [hsp] at ha
    have hlp : (pos : Int) = ((l'.take pos).length : Int) := by
      rw [List.length_take]
      have : l'.length = l.length := by rw [← hl', List.length_map]
      omega
    rw [hlp] at hed
    have := Obs.at (Obs.of_ed hed) (ha.replace (t := t) (L := E.logic))
    rw [List.map_append, List.map_take, hl', hr'] at this
    have hu : (segs E.logic.cfg t).map Moji.write = unitsOf E.cfg t := segs_units _ _
    rw [hu] at this
    exact this

/-- There is one way to cut the units into words. -/
theorem C33_words (quotes del : Bytes) (l : List Bytes) : ∃ ws, Words quotes del l ws ∧
    ∀ ws', Words quotes del l ws' → ws'.map Prod.snd = ws.map Prod.snd ∧ startOfLast ws' = startOfLast ws := by
  obtain ⟨ws, h, -⟩ := words_exist quotes del l
  refine ⟨ws, h, fun ws' h' => ?_⟩
  have := h'.run.symm.trans h.run
  exact ⟨(Prod.ext_iff.mp this).1, (Prod.ext_iff.mp this).2⟩

namespace Example

/-- A completer for three commands, with the marks and delimiters of `completion.File`. -/
def cmds : Completer :=
  { delimiters := b "&|><;", enclosures := [0x22, 0x27]
    list := fun _ => ([b "list", b "listen", b "my file"], []) }

/-- CmdCompletionOrList with that completer. -/
def completing : Completing :=
  { uni := uni, completer := cmds, postfix_ := b " ", box := some fun l => (l.map (· ++ b "\n")).flatten }

/-- A state with the cursor after `l` of `l ++ r`. -/
def midway (l r : List String) : St :=
  { buf := (l ++ r).flatMap fun t => mojis2cells (stringToMoji plain (b t))
    cursor := l.length, termWidth := 80 }

/-- Text and cursor after completion. -/
def completed (s : St) : Option (Bytes × Int) :=
  match cmdComplete (env plain) completing s with
  | .ok (s', _) => some (s'.text, s'.cursor)
  | .error _ => none

/-- A common prefix: `a|li;x` with the cursor before the semicolon becomes `a|list;x`. -/
example : completed (midway ["a", "|", "l", "i"] [";", "x"]) = some (b "a|list;x", 6) := by
  decide +kernel
/-- A single candidate that needs quotation marks: `x 'm` becomes `x "my file" `. -/
example : completed (midway ["x", " ", "'", "m"] ["y"]) = some (b "x \"my file\" y", 12) := by
  decide +kernel
example : At (midway ["a", "|", "l", "i"] [";", "x"]) [b "a", b "|", b "l", b "i"] [b ";", b "x"] :=
  ⟨by decide +kernel, rfl⟩

instance (c : Bytes) : Decidable (Separator c) := by unfold Separator; infer_instance

/-- The words of `a|l` and a quotation mark, `i x`: the mark is still open. -/
example : Words cmds.enclosures cmds.delimiters [b "a", b "|", b "l", b "\"", b "i", b " ", b "x"]
    [(0, b "a"), (1, b "|"), (2, b "li x")] := by
  have h0 : Cut cmds.enclosures cmds.delimiters [b "a", b "|"] [(0, b "a"), (1, b "|")] := by
    have e : without [b "a"].flatten cmds.enclosures = b "a" := by decide +kernel
    have := Cut.delim (quotes := cmds.enclosures) (del := cmds.delimiters) (w := [b "a"]) (c := b "|") .start (Or.inr (IsWord.single (by decide +kernel) (fun _ => by decide +kernel)))
      (by rintro ⟨j, -, hj⟩
          have : position (b "a") cmds.enclosures = none := by decide +kernel
          simp [this] at hj)
      (by decide +kernel) ⟨by decide +kernel, by decide +kernel⟩
    rw [e] at this
    exact this
  have e : without [b "l", b "\"", b "i", b " ", b "x"].flatten cmds.enclosures = b "li x" := by decide +kernel
  have := Words.last (w := [b "l", b "\"", b "i", b " ", b "x"]) h0 ⟨by simp, ?_, ?_⟩
  · rw [e] at this
    exact this
  · intro c hc
    cases hc
    decide +kernel
  · intro a c r e hq hc
    have e1 : position (b "\"") cmds.enclosures = some 0 := by decide +kernel
    have e2 : position (b "l") cmds.enclosures = none := by decide +kernel
    have e3 : position (b "i") cmds.enclosures = none := by decide +kernel
    have n1 : ¬ (Separator (b "l") ∨ Occurs (b "l") cmds.delimiters) := by decide +kernel
    have n3 : ¬ (Separator (b "i") ∨ Occurs (b "i") cmds.delimiters) := by decide +kernel
    have n5 : ¬ (Separator (b "x") ∨ Occurs (b "x") cmds.delimiters) := by decide +kernel
    match a with
    | [] => cases e; exact absurd hc n1
    | [_] => cases e; rw [e1] at hq; cases hq
    | [_, _] => cases e; exact absurd hc n3
    | [_, _, _] => cases e; exact ⟨0, by omega, by simp [e1, e2, e3]⟩
    | [_, _, _, _] => cases e; exact absurd hc n5
    | [_, _, _, _, _] => simp at e
    | _ :: _ :: _ :: _ :: _ :: _ :: _ => simp at e

/-- When the common prefix is already there, the names are shown and the line stays. -/
example : (match cmdComplete (env plain) completing (midway ["l", "i", "s", "t"] ["x"]) with
    | .ok (s', _) => (s'.text, s'.cursor, s'.out.take 3)
    | .error _ => ([], 0, [])) =
    (b "listx", 4, [.lit [7], .lit [0x0A], .lit (b "list\nlisten\n")]) := by decide +kernel

/-- A session with completion on Ctrl-I. -/
def tabEnv : Env := { env plain with keyMap := some fun k => if k = [0x09] then some (.completion completing) else none }

example : outcome (readLine tabEnv { input := keys ["x", " ", "l", "\t", "e", "\t", "\x1a", "\x0d"] }) =
    .inr (b "x liste", .nil) := by decide +kernel

end Example
open Example in
/-- The blanks between the last word and the cursor are replaced too: completing after `listen`
and a blank works on `listen`, and completing after `my` and a blank gives the whole name. -/
theorem C33_blanks : completed (midway ["m", "y", " "] []) = some (b "\"my file\" ", 10) ∧
    completed (midway ["l", "i", " "] []) = some (b "list", 4) := by decide +kernel

end Readline

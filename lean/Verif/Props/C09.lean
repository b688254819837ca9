import Verif.Proof.Observe
import Verif.Spec.Example
/-!
# C09: moving the cursor never changes the text

`C09`: the moving commands change neither the units of the line nor the undo log nor the
clipboard, and put the cursor where they say.  `C09_resize`: a resize changes neither the units
nor the cursor.  `C09_word_motion` gives the result of the word motions (C14 says where they go).
-/
namespace Readline
open Spec

/-- Everything a user has entered is the same in both states. -/
structure Spec.SameText (s s' : St) : Prop where
  units : s'.units = s.units
  undoes : s'.undoes = s.undoes
  clip : s'.clip = s.clip
  pending : s'.pending = s.pending
  histPtr : s'.histPtr = s.histPtr
  modHist : s'.modHist = s.modHist
  input : s'.input = s.input

/-- Where the moving commands put the cursor. -/
inductive Spec.MovesTo (s : St) : Cmd → Int → Prop where
  | home : MovesTo s .beginningOfLine 0
  | end_ : MovesTo s .endOfLine s.units.length
  | left : 0 < s.cursor → MovesTo s .backwardChar (s.cursor - 1)
  | left0 : s.cursor ≤ 0 → MovesTo s .backwardChar s.cursor
  | right : s.cursor < s.units.length → MovesTo s .forwardChar (s.cursor + 1)
  | right_end : s.units.length ≤ s.cursor → MovesTo s .forwardChar s.cursor
  | clear : MovesTo s .clearScreen s.cursor
  | newline : MovesTo s .repaintOnNewline s.cursor

theorem sameText_of {s s' : St} {e : Ed} (h : Obs s' e) (h1 : e.line = s.ed.line)
    (h2 : e.undoes = s.undoes) (h3 : e.clip = s.clip) (h4 : e.pending = s.pending)
    (h5 : e.histPtr = s.histPtr) (h6 : e.modHist = s.modHist) (h7 : e.input = s.input) :
    SameText s s' :=
  ⟨by rw [h.units, h1, ed_units], h.undoes.trans h2, h.clip.trans h3, h.pending.trans h4,
   h.histPtr.trans h5, h.modHist.trans h6, h.input.trans h7⟩

theorem moves_obs {E : Env} {c : Cmd} {s s' : St} {rc : Result}
    (hm : c = .beginningOfLine ∨ c = .endOfLine ∨ c = .backwardChar ∨ c = .forwardChar ∨
      c = .clearScreen ∨ c = .repaintOnNewline)
    (hp : c = .forwardChar → s.units.length ≤ s.cursor → s.suffixList = [])
    (ho : Obs s' (Ed.call E.logic c s.ed).1) (hr : rc = (Ed.call E.logic c s.ed).2) :
    SameText s s' ∧ MovesTo s c s'.cursor ∧ rc = .cont := by
  rcases hm with rfl | rfl | rfl | rfl | rfl | rfl
  · refine ⟨sameText_of ho ?_ ?_ ?_ ?_ ?_ ?_ ?_, ?_, hr⟩
    all_goals first
      | (simp [Ed.call] <;> rfl)
      | (rw [ho.cursor]; simp only [Ed.call, Ed.predict_cursor]; exact .home)
  · refine ⟨sameText_of ho rfl rfl rfl rfl rfl rfl rfl, ?_, hr⟩
    rw [ho.cursor]
    show MovesTo s .endOfLine (s.ed.line.length : Int)
    rw [← units_length]
    exact .end_
  · by_cases hc : s.cursor ≤ 0
    · have e : (Ed.call E.logic .backwardChar s.ed).1 = s.ed := by
        simp only [Ed.call]; rw [if_pos (by exact hc)]
      rw [e] at ho
      refine ⟨sameText_of ho rfl rfl rfl rfl rfl rfl rfl, ?_, hr⟩
      rw [ho.cursor]
      exact .left0 hc
    · have e : (Ed.call E.logic .backwardChar s.ed).1 =
          Ed.predict E.logic { s.ed with cursor := s.cursor - 1 } := by
        simp only [Ed.call]; rw [if_neg (by exact hc)]; rfl
      rw [e] at ho
      refine ⟨sameText_of ho ?_ ?_ ?_ ?_ ?_ ?_ ?_, ?_, hr⟩
      all_goals first
        | (simp <;> rfl)
        | (rw [ho.cursor, Ed.predict_cursor]; exact .left (by omega))
  · by_cases hc : s.cursor < s.units.length
    · have e : (Ed.call E.logic .forwardChar s.ed).1 = { s.ed with cursor := s.cursor + 1 } := by
        simp only [Ed.call]
        rw [if_neg]
        · rfl
        · rw [Ed.len, ← units_length]
          show ¬ s.cursor ≥ _
          omega
      rw [e] at ho
      exact ⟨sameText_of ho rfl rfl rfl rfl rfl rfl rfl, by rw [ho.cursor]; exact .right hc, hr⟩
    · have hs : s.ed.suffixList = [] := hp rfl (by omega)
      have e : (Ed.call E.logic .forwardChar s.ed).1 = s.ed := by
        simp only [Ed.call]
        rw [if_pos, hs, if_neg]
        · simp
        · rw [Ed.len, ← units_length]
          show s.cursor ≥ _
          omega
      rw [e] at ho
      exact ⟨sameText_of ho rfl rfl rfl rfl rfl rfl rfl,
        by rw [ho.cursor]; exact .right_end (by omega), hr⟩
  · refine ⟨sameText_of ho ?_ ?_ ?_ ?_ ?_ ?_ ?_, ?_, hr⟩
    all_goals first
      | (simp [Ed.call] <;> rfl)
      | (rw [ho.cursor]; simp only [Ed.call, Ed.predict_cursor]; exact .clear)
  · refine ⟨sameText_of ho ?_ ?_ ?_ ?_ ?_ ?_ ?_, ?_, hr⟩
    all_goals first
      | (simp [Ed.call] <;> rfl)
      | (rw [ho.cursor]; simp only [Ed.call, Ed.predict_cursor]; exact .newline)

/-- A moving command, ForwardChar at the end of the line only without a prediction: nothing but
the cursor changes, and the editing goes on. -/
theorem C09 {E : Env} {c : Cmd} {s s' : St} {rc : Result}
    (hm : c = .beginningOfLine ∨ c = .endOfLine ∨ c = .backwardChar ∨ c = .forwardChar ∨
      c = .clearScreen ∨ c = .repaintOnNewline)
    (hp : c = .forwardChar → s.units.length ≤ s.cursor → s.suffixList = [])
    (h : Cmd.call E c s = .ok (s', rc)) :
    SameText s s' ∧ MovesTo s c s'.cursor ∧ rc = .cont := by
  have hb : c.builtin = true := by rcases hm with rfl | rfl | rfl | rfl | rfl | rfl <;> rfl
  obtain ⟨ho, hr⟩ := call_obs hb h
  exact moves_obs hm hp ho hr

/-- A key that is bound to a moving command does the same, and is taken from the input. -/
theorem C09_key {E : Env} {s s' : St} {k : Bytes} {rest : List Ev} {o : Option RLRes}
    (hi : s.input = .key k :: rest)
    (hm : lookupCommand E k ∈ [.beginningOfLine, .endOfLine, .backwardChar, .forwardChar, .clearScreen, .repaintOnNewline])
    (hp : lookupCommand E k = .forwardChar → s.units.length ≤ s.cursor → s.suffixList = [])
    (h : step E s = .ok (s', o)) :
    SameText { s with input := rest } s' ∧ MovesTo s (lookupCommand E k) s'.cursor ∧ o = none := by
  generalize hc : lookupCommand E k = c at hm hp
  have hm : c = .beginningOfLine ∨ c = .endOfLine ∨ c = .backwardChar ∨ c = .forwardChar ∨
      c = .clearScreen ∨ c = .repaintOnNewline := by simpa using hm
  have hb : c.builtin = true := by rcases hm with rfl | rfl | rfl | rfl | rfl | rfl <;> rfl
  obtain ⟨g1, g2⟩ := step_key_ed hi hc hb h
  by_cases hx : (Ed.call E.logic c { s.ed with input := rest }).2 = .cont
  · obtain ⟨f1, f2⟩ := g1 hx
    have ho : Obs s' (Ed.call E.logic c { s.ed with input := rest }).1 := by
      rcases f2 with f | ⟨-, f⟩
      · exact .of_ed f
      · exact .of_predict f
    obtain ⟨k1, k2, -⟩ := moves_obs (s := { s with input := rest }) hm hp ho rfl
    refine ⟨k1, ?_, f1⟩
    generalize s'.cursor = q at k2
    cases k2 with
    | home => exact .home
    | end_ => exact .end_
    | left h => exact .left h
    | left0 h => exact .left0 h
    | right h => exact .right h
    | right_end h => exact .right_end h
    | clear => exact .clear
    | newline => exact .newline
  · exfalso
    apply hx
    rcases hm with rfl | rfl | rfl | rfl | rfl | rfl <;> simp only [Ed.call] <;> (repeat' split) <;> rfl

/-- The word motions: nothing but the cursor changes. -/
theorem C09_word_motion {E : Env} {c : Cmd} {s s' : St} {rc : Result}
    (hm : c = .backwardWord ∨ c = .forwardWord) (h : Cmd.call E c s = .ok (s', rc)) :
    SameText s s' ∧ rc = .cont := by
  have hb : c.builtin = true := by rcases hm with rfl | rfl <;> rfl
  obtain ⟨ho, hr⟩ := call_obs hb h
  rcases hm with rfl | rfl
  · refine ⟨sameText_of ho ?_ ?_ ?_ ?_ ?_ ?_ ?_, hr⟩
    all_goals (simp [Ed.call] <;> rfl)
  · exact ⟨sameText_of ho rfl rfl rfl rfl rfl rfl rfl, hr⟩

/-- A key that is bound to a word motion. -/
theorem C09_word_key {E : Env} {s s' : St} {k : Bytes} {rest : List Ev} {o : Option RLRes}
    (hi : s.input = .key k :: rest) (hm : lookupCommand E k ∈ [.backwardWord, .forwardWord])
    (h : step E s = .ok (s', o)) : SameText { s with input := rest } s' ∧ o = none := by
  have hm : lookupCommand E k = .backwardWord ∨ lookupCommand E k = .forwardWord := by simpa using hm
  rcases hm with hc | hc
  · obtain ⟨f1, f2⟩ := (step_key_ed hi hc rfl h).1 rfl
    have ho : Obs s' (Ed.call E.logic .backwardWord { s.ed with input := rest }).1 := by
      rcases f2 with f | ⟨-, f⟩
      · exact .of_ed f
      · exact .of_predict f
    refine ⟨sameText_of (s := { s with input := rest }) ho ?_ ?_ ?_ ?_ ?_ ?_ ?_, f1⟩
    all_goals (simp [Ed.call] <;> rfl)
  · obtain ⟨f1, f2⟩ := (step_key_ed hi hc rfl h).1 rfl
    have ho : Obs s' (Ed.call E.logic .forwardWord { s.ed with input := rest }).1 := by
      rcases f2 with f | ⟨-, f⟩
      · exact .of_ed f
      · exact .of_predict f
    exact ⟨sameText_of (s := { s with input := rest }) ho rfl rfl rfl rfl rfl rfl rfl, f1⟩

/-- A resize changes neither the text nor the cursor. -/
theorem C09_resize {E : Env} {s s' : St} {n : Int} (h : onResize E s n = .ok s') :
    SameText s s' ∧ s'.cursor = s.cursor := by
  have ho := Obs.of_predict (onResize_ed h)
  exact ⟨sameText_of ho rfl rfl rfl rfl rfl rfl rfl, ho.cursor⟩

section
open Example
/-- Every motion on a line that is wider than the screen, which scrolls in both directions. -/
example :
    let w : World := { termWidth := 8, input := keys ["a", "b", "あ", "\t", "c", "d", "\x01", "\x05", "\x02", "\x06", "\x06"] }
    [look (after (env plain) w 6), look (after (env plain) w 7), look (after (env plain) w 8),
     look (after (env plain) w 9), look (after (env plain) w 11)] =
    [.inr ([b "a", b "b", b "あ", b "\t", b "c", b "d"], 6, 4),
     .inr ([b "a", b "b", b "あ", b "\t", b "c", b "d"], 0, 0),
     .inr ([b "a", b "b", b "あ", b "\t", b "c", b "d"], 6, 4),
     .inr ([b "a", b "b", b "あ", b "\t", b "c", b "d"], 5, 4),
     .inr ([b "a", b "b", b "あ", b "\t", b "c", b "d"], 6, 4)] := by decide +kernel
/-- The condition on the prediction is needed: with one, ForwardChar at the end accepts it. -/
example :
    let E : Env := { env plain with history := [b "abc"], predictColor := (b "\x1b[2m", b "\x1b[0m") }
    look (after E { input := keys ["a", "\x06"] } 2) = .inr ([b "a", b "b", b "c"], 3, 0) := by
  decide +kernel
end
end Readline

import Verif.Proof.Carry
import Verif.Spec.Example
/-!
# C11: the deletion commands remove exactly what they name

`Spec.deleted` says what each deletion command makes of the units left of the cursor and of those
from the cursor on; `C11` is that the command does this and nothing else to the line, and
`C11_clip` what is put into the clipboard.
-/
namespace Readline
open Spec

/-- What a deletion command leaves of the two halves of the line. -/
def Spec.deleted : Cmd → List Bytes → List Bytes → Option (List Bytes × List Bytes)
  | .backwardDeleteChar, l, r => some (l.dropLast, r)
  | .deleteChar, l, r => some (l, r.tail)
  | .deleteOrAbort, l, r => some (l, r.tail)
  | .killLine, l, _ => some (l, [])
  | .unixLineDiscard, _, r => some ([], r)
  | .killWholeLine, _, _ => some ([], [])
  | _, _, _ => none

/-- The removed text that a deletion command offers to the clipboard. -/
def Spec.killed : Cmd → List Bytes → List Bytes → Option Bytes
  | .killLine, _, r => some r.flatten
  | .unixLineDiscard, l, _ => some l.flatten
  | _, _, _ => none

theorem deleted_leads {E : Env} {c : Cmd} {s s' : St} {l r l' r' : List Bytes}
    (ho : Leads s' (Ed.call E.logic c s.ed).1) (hat : At s l r) (hd : deleted c l r = some (l', r')) :
    At s' l' r' := by
  obtain ⟨ml, mr, ha, rfl, rfl⟩ := hat.ed
  cases c with
  | backwardDeleteChar =>
    cases hd
    have := ho.at (l := ml.dropLast) (r := mr) ha.backspace
    rwa [List.map_dropLast] at this
  | deleteChar =>
    cases hd
    have := ho.at (l := ml) (r := mr.tail) ha.deleteChar.predict
    rwa [List.map_tail] at this
  | deleteOrAbort =>
    cases hd
    simp only [Ed.call] at ho
    by_cases hl : s.ed.len > 0
    · rw [if_pos hl] at ho
      have := ho.at (l := ml) (r := mr.tail) ha.deleteChar.predict
      rwa [List.map_tail] at this
    · rw [if_neg hl] at ho
      have hr : mr = [] := by
        rw [ha.len] at hl
        exact List.length_eq_zero_iff.mp (by omega)
      subst hr
      exact ho.at ha
  | killLine =>
    cases hd
    exact ho.at (l := ml) (r := []) ha.killLine
  | unixLineDiscard =>
    cases hd
    refine ho.at (l := []) (r := mr) ?_
    simp only [Ed.call]
    apply Ed.At.predict
    refine ⟨?_, rfl⟩
    have := Ed.delete_left (l := []) (ha.setClip (c := E.logic.clipSet s.ed.clip
      (lineText (s.ed.line.take s.ed.cursor.toNat))))
    simpa using this
  | killWholeLine =>
    cases hd
    exact ho.at (l := []) (r := []) ⟨rfl, rfl⟩
  | _ => cases hd

theorem C11 {E : Env} {c : Cmd} {s s' : St} {rc : Result} {l r l' r' : List Bytes}
    (h : Performs E c s s' rc) (hat : At s l r) (hd : deleted c l r = some (l', r')) :
    At s' l' r' := by
  have hb : c.builtin = true := by cases c <;> first | rfl | cases hd
  obtain ⟨i, x, ho, -⟩ := h.leads hb
  exact deleted_leads (s := s.but i x) ho (hat.but i x) hd

theorem killed_leads {E : Env} {c : Cmd} {s s' : St} {rc : Result} {l r : List Bytes}
    (ho : Leads s' (Ed.call E.logic c s.ed).1) (hr : rc = (Ed.call E.logic c s.ed).2) (hat : At s l r)
    (hd : (deleted c l r).isSome) :
    s'.clip = (match killed c l r with | some t => E.clipSet s.clip t | none => s.clip) ∧
    (rc = .cont ∨ (c = .deleteOrAbort ∧ s.units = [] ∧ rc = .abort)) := by
  obtain ⟨ml, mr, ha, rfl, rfl⟩ := hat.ed
  cases c with
  | backwardDeleteChar =>
    refine ⟨?_, Or.inl hr⟩
    rw [ho.clip]
    exact Ed.backspace_clip
  | deleteChar =>
    refine ⟨?_, Or.inl hr⟩
    rw [ho.clip]
    simp only [Ed.call, Ed.predict_clip]
    exact Ed.delete_clip
  | deleteOrAbort =>
    simp only [Ed.call] at ho hr
    by_cases hl : s.ed.len > 0
    · rw [if_pos hl] at ho hr
      refine ⟨?_, Or.inl hr⟩
      rw [ho.clip]
      simp only [Ed.predict_clip]
      exact Ed.delete_clip
    · rw [if_neg hl] at ho hr
      refine ⟨ho.clip, Or.inr ⟨rfl, ?_, hr⟩⟩
      rw [ha.len] at hl
      have h1 : ml = [] := List.length_eq_zero_iff.mp (by omega)
      have h2 : mr = [] := List.length_eq_zero_iff.mp (by omega)
      rw [hat.units, h1, h2]; rfl
  | killLine =>
    refine ⟨?_, Or.inl hr⟩
    rw [ho.clip]
    simp only [Ed.call, Ed.killLine, killed]
    rw [ha.drop]
    rfl
  | unixLineDiscard =>
    refine ⟨?_, Or.inl hr⟩
    rw [ho.clip]
    simp only [Ed.call, Ed.predict_clip, killed]
    rw [Ed.delete_clip]
    dsimp only
    rw [ha.take]
    rfl
  | killWholeLine => exact ⟨ho.clip, Or.inl hr⟩
  | _ => cases hd

/-- The clipboard is offered the text removed by KillLine and UnixLineDiscard; the other deletion
commands leave it alone.  UnixWordRubout is in C15. -/
theorem C11_clip {E : Env} {c : Cmd} {s s' : St} {rc : Result} {l r : List Bytes}
    (h : Performs E c s s' rc) (hat : At s l r) (hd : (deleted c l r).isSome) :
    s'.clip = (match killed c l r with | some t => E.clipSet s.clip t | none => s.clip) ∧
    (rc = .cont ∨ (c = .deleteOrAbort ∧ s.units = [] ∧ rc = .abort)) := by
  have hb : c.builtin = true := by cases c <;> first | rfl | cases hd
  obtain ⟨i, x, ho, hr⟩ := h.leads hb
  exact killed_leads (s := s.but i x) ho hr (hat.but i x) hd

section
open Example
/-- The line `a`, `あ`, a joined emoji, `b` with the cursor before the emoji: each deletion. -/
example :
    let go (k : String) := look (after (env full) { input := keys ["a", "あ", "👩", "‍", "🚀", "b", "\x02", "\x02", k] } 9)
    [go "\x08", go "\x04", go "\x0b", go "\x15", go "\x1b"] =
    [.inr ([b "a", b "👩‍🚀", b "b"], 1, 0),
     .inr ([b "a", b "あ", b "b"], 2, 0),
     .inr ([b "a", b "あ"], 2, 0),
     .inr ([b "👩‍🚀", b "b"], 0, 0),
     .inr ([], 0, 0)] := by decide +kernel
end
end Readline

import Verif.Props.C76
/-!
# C76: calls that return

Where the search for file names returns, the editor is one with a completer that always answers, whatever the file system says.
-/
namespace Readline
open Spec

variable {E : Env} {w : World} {U : Uni} {rd : ReadDir} {post : Bytes} {box : Option (List Bytes → Bytes)} {k : Bytes}

theorem cmdFile_answers {s : St} {p : St × Result} (h : cmdFile U rd post box E s = .ok p) : cmdComplete E (fileCompleting U rd post box) s = .ok p := by
  unfold cmdFile at h
  obtain ⟨⟨fields, n⟩, -, h⟩ := bind_ok.mp h
  dsimp only at h
  split at h
  · cases h
  · cases h
  · exact h

theorem step_answers {s : St} {p : St × Option RLRes} (h : step (bindFiles U rd post box k E) s = .ok p) :
    step (bindAnswering U rd post box k E) s = .ok p := by
  unfold step at h ⊢
  cases hi : s.input with
  | nil => rw [hi] at h; exact h
  | cons ev rest =>
    rw [hi] at h
    cases ev with
    | err e => exact h
    | resize w => exact h
    | key x =>
      dsimp only at h ⊢
      rw [show ∀ c s1, execCmd (bindFiles U rd post box k E) c s1 = execCmd E c s1 from fun c _ => execCmd_map E _ c _] at h
      rw [show ∀ c s1, execCmd (bindAnswering U rd post box k E) c s1 = execCmd E c s1 from fun c _ => execCmd_map E _ c _]
      rcases lookup_files (U := U) (rd := rd) (post := post) (box := box) (k := k) E x with ⟨-, e⟩ | ⟨rfl, e1, e2⟩
      · rw [e] at h; exact h
      · rw [e1] at h
        rw [e2]
        unfold execCmd at h ⊢
        obtain ⟨q, hq, h⟩ := bind_ok.mp h
        exact bind_ok.mpr ⟨q, cmdFile_answers hq, h⟩

theorem reachable_answers {s : St} (h : Reachable (bindFiles U rd post box k E) w s) : Reachable (bindAnswering U rd post box k E) w s := by
  induction h with
  | start h => exact .start h
  | step _ h ih => exact .step ih (step_answers h)

theorem loop_answers {p : St × RLRes} (n : Nat) : ∀ {s : St}, loop (bindFiles U rd post box k E) n s = .ok p →
    loop (bindAnswering U rd post box k E) n s = .ok p := by
  induction n with
  | zero => intro s h; exact h
  | succ n ih =>
    intro s h
    rw [loop] at h ⊢
    obtain ⟨⟨s', o⟩, hs, h⟩ := bind_ok.mp h
    refine bind_ok.mpr ⟨(s', o), step_answers hs, ?_⟩
    cases o with
    | some r => exact h
    | none => exact ih h

theorem readLine_answers {p : St × RLRes} (h : readLine (bindFiles U rd post box k E) w = .ok p) :
    readLine (bindAnswering U rd post box k E) w = .ok p := by
  unfold readLine at h ⊢
  obtain ⟨s, hs, h⟩ := bind_ok.mp h
  exact bind_ok.mpr ⟨s, hs, loop_answers _ h⟩

theorem answering_builtin (hb : BuiltinKeys E) : BuiltinKeys (bindAnswering U rd post box k E) := by
  intro x f h
  rcases lookup_files (U := U) (rd := rd) (post := post) (box := box) (k := k) E x with ⟨hne, -⟩ | ⟨rfl, -, e2⟩
  · refine hb x f ?_
    rw [← h]
    simp [lookupCommand, bindAnswering, KeyMap.lookup, hne]
  · rw [e2] at h; cases h

/-- **File completion where it returns** is a completion with a completer that always answers, in every state of the call and in its result.  Nothing is
assumed of the names in the file system. -/
theorem C76_returns : (∀ s, Reachable (bindFiles U rd post box k E) w s → Reachable (bindAnswering U rd post box k E) w s) ∧
    ∀ p, readLine (bindFiles U rd post box k E) w = .ok p → readLine (bindAnswering U rd post box k E) w = .ok p :=
  ⟨fun _ => reachable_answers, fun _ => readLine_answers⟩

namespace Example

/-- `cat s`, Tab, Enter: both editors give the same line. -/
example : ((match readLine filesEnv { input := keys ["c", "a", "t", " ", "s", "\t", "\r"] } with
    | .ok p => some p.2.text
    | .error _ => none),
    (match readLine (bindAnswering uni tree (b " ") column (b "\t") (env plain)) { input := keys ["c", "a", "t", " ", "s", "\t", "\r"] } with
    | .ok p => some p.2.text
    | .error _ => none)) = (some (b "cat src/"), some (b "cat src/")) := by decide +kernel

end Example

end Readline

import Verif.Props.C38
import Verif.Props.C16
/-!
# C42: consecutive calls of ReadLine are independent

`C42_start`: whatever world the earlier calls left, a call starts with the default text as its
units, with nothing to undo but the default text, nothing pending and no modified history
entries, and with the `Cursor` of the world cut down to the length of the line.

`C42_same_partial`: after any two pasts that left the same clipboard and `Cursor`s that are cut
down to the same position, the same keys give the same result, text, cursor and undo history
(under the conditions of C38, which are about predictions).
-/
namespace Readline
open Spec

/-- **C42**, the start: `w` is the world after any earlier calls. -/
theorem C42_start {E : Env} {w : World} {s : St} (h : startSt E w = .ok s) :
    s.units = unitsOf E.cfg E.default ∧
    s.cursor = min w.cursor (unitsOf E.cfg E.default).length ∧ 0 ≤ s.cursor ∧
    s.undoes = [{ pos := 0, del := (unitsOf E.cfg E.default).length, text := [] }] ∧
    s.pending = [] ∧ (∀ i, s.modHist i = none) ∧ s.histPtr = E.history.length ∧
    s.clip = w.clip ∧ s.input = w.input := by
  obtain ⟨he, hc⟩ := startSt_ed h
  have hl : s.line = segs E.cfg E.default := by
    have := congrArg Ed.line he
    unfold Ed.start at this
    simp only [Ed.predict_line] at this
    exact this
  have hu : s.units = unitsOf E.cfg E.default := by
    rw [St.units_eq, hl, segs_units]
  have hlen : (segs E.cfg E.default).length = (unitsOf E.cfg E.default).length := by
    rw [← segs_units, List.length_map]
  refine ⟨hu, ?_, hc, ?_, ?_, ?_, ?_, ?_, ?_⟩
  · have := congrArg Ed.cursor he
    unfold Ed.start at this
    simp only [Ed.predict_cursor] at this
    have h2 : s.cursor = if w.cursor > ((segs E.cfg E.default).length : Int)
      then ((segs E.cfg E.default).length : Int) else w.cursor := this
    rw [h2, hlen]
    split <;> omega
  · have := congrArg Ed.undoes he
    unfold Ed.start at this
    simp only [Ed.predict_undoes] at this
    rw [← hlen]
    exact this
  · have := congrArg Ed.pending he
    unfold Ed.start at this
    simp only [Ed.predict_pending] at this
    exact this
  · intro i
    have := congrArg (fun e => Ed.modHist e i) he
    unfold Ed.start at this
    simp only [Ed.predict_modHist] at this
    exact this
  · have := congrArg Ed.histPtr he
    unfold Ed.start at this
    simp only [Ed.predict_histPtr] at this
    exact this
  · have := congrArg Ed.clip he
    unfold Ed.start at this
    simp only [Ed.predict_clip] at this
    exact this
  · have := congrArg Ed.input he
    unfold Ed.start at this
    simp only [Ed.predict_input] at this
    exact this

/-- **C42**, the rest: `w₁` and `w₂` are what two different pasts left. -/
theorem C42_same_partial {E : Env} {w₁ w₂ : World} (hb : BuiltinKeys E)
    (hcur : min w₁.cursor (unitsOf E.cfg E.default).length =
      min w₂.cursor (unitsOf E.cfg E.default).length)
    (hclip : w₁.clip = w₂.clip) (hin : noResize w₁.input = noResize w₂.input)
    (hs : E.logic.predictOn = false ∨
      ∀ k, Ev.key k ∈ w₁.input → stales (lookupCommand E k) = false)
    {s₁ s₂ : St} {r₁ r₂ : RLRes}
    (h₁ : readLine E w₁ = .ok (s₁, r₁)) (h₂ : readLine E w₂ = .ok (s₂, r₂)) :
    r₁ = r₂ ∧ s₁.units = s₂.units ∧ s₁.cursor = s₂.cursor ∧ s₁.undoes = s₂.undoes := by
  -- a world with the smaller cursor starts the same way
  have clamp : ∀ w : World, Ed.start E.logic w = Ed.start E.logic
      { w with cursor := min w.cursor (unitsOf E.cfg E.default).length } := by
    intro w
    have hlen : (segs E.cfg E.default).length = (unitsOf E.cfg E.default).length := by
      rw [← segs_units, List.length_map]
    unfold Ed.start
    dsimp only
    congr 2
    have h2 : (segs E.logic.cfg E.logic.default).length = (unitsOf E.cfg E.default).length := hlen
    rw [h2]
    split <;> split <;> omega
  unfold readLine at h₁ h₂
  obtain ⟨t₁, g₁, h₁⟩ := bind_ok.mp h₁
  obtain ⟨t₂, g₂, h₂⟩ := bind_ok.mp h₂
  have e₁ := (startSt_ed g₁).1
  have e₂ := (startSt_ed g₂).1
  have i₁ := (C42_start g₁).2.2.2.2.2.2.2.2
  have i₂ := (C42_start g₂).2.2.2.2.2.2.2.2
  have mem : ∀ k (a : List Ev), Ev.key k ∈ a ↔ Ev.key k ∈ noResize a := by
    intro k a
    induction a with
    | nil => rfl
    | cons x a ih => cases x <;> simp [noResize, ih]
  refine (loop_alike rfl hb hb ?_ ?_ ?_ ?_ ?_ h₁ h₂).elim
  · rw [e₁, e₂, clamp w₁, clamp w₂, hcur]
    unfold Ed.start
    dsimp only
    rw [← Ed.predict_see, ← Ed.predict_see]
    unfold Ed.see Ed.withInput
    dsimp only
    rw [hin, hclip]
  · rw [i₁]; exact hs
  · rw [i₂]
    refine hs.imp id fun h k hm => h k ?_
    rw [mem, hin, ← mem]; exact hm
  · rw [e₁]; exact Ed.predict_fresh _
  · rw [e₂]; exact Ed.predict_fresh _

namespace Example

/-- Not vacuous: a first call that browses the history, changes an entry, leaves a joiner
pending and the cursor at 3; then a second call with a default text of two units. -/
def twice : M (St × St) := do
  let E : Env := { env full with history := [b "abc"] }
  let (s, _) ← readLine E { input := keys ["x", "\x10", "d", "‍", "\x04", "\r"] }
  let t ← startSt { E with default := b "yz" }
    { cursor := s.cursor, clip := s.clip, input := keys ["q"], out := s.out, promptN := s.promptN }
  return (s, t)

example : (match twice with
      | .ok (s, t) => decide (s.units = [b "a", b "b", b "c"] ∧ s.cursor = 3 ∧ s.pending = b "d‍" ∧
          t.units = [b "y", b "z"] ∧ t.cursor = 2 ∧ t.pending = [] ∧ t.undoes.length = 1)
      | .error _ => false) = true := by
  decide +kernel

/-- Not vacuous: two pasts, cursors 2 and 7 on a default text of two units. -/
example : outcome (readLine { env full with default := b "yz" }
      { cursor := 2, input := keys ["q", "\r"] }) = .inr (b "yzq", .nil) ∧
    outcome (readLine { env full with default := b "yz" }
      { cursor := 7, promptN := 4, out := [.lit (b "old")], input := keys ["q", "\r"] }) =
      .inr (b "yzq", .nil) := by
  decide +kernel

end Example
end Readline

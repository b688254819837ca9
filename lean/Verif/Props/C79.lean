import Verif.Proof.Notebook
/-!
# C79: a program that reads lines is the program of the textbook

The loops of examples/example3.go and examples/example160.go, from the keys to the history, against `Spec/Notebook`.
-/
namespace Readline
open Spec

variable {E : Env} {w : World} {D : Desk} {t : List Char} {n : Nat} {clip : Option (List Char)} {ks : List (List Char)}

/-- **The whole program**: with any keys, ordinary characters and eight columns it ends with the history and the error
of the textbook's program, or panics where that one crashes. -/
theorem C79_partial {keep : Bytes → Bool} {keepC : List Char → Bool} (hkeep : ∀ l, keep (utf8 l) = keepC l)
    (h : PlainDesk { E with history := [] } w { D with history := [] } t n clip ks) :
    (∃ x, program E keep w = .ok x ∧ x.1.buffer = (notebook D keepC t (ks.length + 1) [] n clip ks).1.map utf8 ∧
        ∃ u, (notebook D keepC t (ks.length + 1) [] n clip ks).2.answer = some ⟨u, x.2.1⟩) ∨
      ((∃ x, program E keep w = .error x) ∧ (notebook D keepC t (ks.length + 1) [] n clip ks).2 = .crashed) :=
  readLines_notebook hkeep _ (c := {}) h (Nat.lt_succ_self _) (Nat.lt_succ_self _)

/-- What one call leaves to the next: the keys it did not take, the cursor and the clipboard. -/
theorem C79_next_partial (h : PlainDesk E w D t n clip ks) {s : St} {r : RLRes} (hr : readLine E w = .ok (s, r)) (hn : r.err = .nil) :
    ∃ l p rest, oneLine D t n clip ks = (.entered l, p, rest) ∧ r.text = utf8 l ∧ s.cursor = (p.left.length : Int) ∧
      s.clip = p.clip.map utf8 ∧ keysIn s.input = rest.map utf8 ∧ rest.length < ks.length := by
  obtain ⟨l, p, rest, h1, h2, h3, h4, h5, -, -, h6⟩ := line_entered h.setting hr hn
  exact ⟨l, p, rest, h1, h2, h3, h4, h5, h6⟩

/-- The program never waits for a line without having read a key: the fuel of the textbook's program does not matter. -/
theorem C79_fuel {keepC : List Char → Bool} (f : Nat) : ∀ {g : Nat} {hist : List (List Char)} {n : Nat} {clip : Option (List Char)}
    {ks : List (List Char)}, ks.length < f → f ≤ g →
    notebook D keepC t f hist n clip ks = notebook D keepC t g hist n clip ks := by
  induction f with
  | zero => intro g hist n clip ks h; omega
  | succ f ih =>
    intro g hist n clip ks h hg
    obtain ⟨g, rfl⟩ : ∃ x, g = x + 1 := ⟨g - 1, by omega⟩
    rw [notebook, notebook]
    have hlen : ∀ l p rest, oneLine { D with history := hist } t n clip ks = (.entered l, p, rest) → rest.length < ks.length :=
      fun l p rest he => plays_shorter he
    generalize oneLine { D with history := hist } t n clip ks = o at hlen
    obtain ⟨a, p, rest⟩ := o
    cases a with
    | entered l =>
      have := hlen l p rest rfl
      exact ih (by omega) (by omega)
    | _ => rfl

section
open Example

/-- Three lines: `one`, entered with a wrong letter taken away; the first again, fetched, with a word added; then a blank
line that is not kept; then Ctrl-D. -/
def sampleSession : List (List Char) :=
  ["o", "n", "x", "\x08", "e", "\r", "\x10", " ", "世", "\r", " ", "\r", "\x12", "世", "\r", "\x17", "\x19", "\x19", "\r", "\x04"].map String.toList

def notBlank (l : List Char) : Bool := l.any fun c => decide (c ≠ ' ')

def emptyDesk : Desk := { history := [], cycling := false, guessing := false, marks := ['"', '\''], upper := id, verb := usualVerb }

theorem sample_program {evs : List Ev} (hk : keysIn evs = ks.map utf8) (hf : ∀ k ∈ ks, k ≠ []) (ht : ∀ k ∈ ks, '\t' ∉ k) (he : NoErr evs)
    (hr : ∀ v, .resize v ∈ evs → 7 < v) :
    UsualDesk { env plain with history := [] } { input := evs } { emptyDesk with history := [] } [] 0 none ks where
  keyMap := rfl
  globalKeyMap := rfl
  verb := rfl
  history := rfl
  cycling := rfl
  guessing := by decide
  predictor := foresees_usual rfl rfl
  plainGuess := within_newest rfl _
  prompt := rfl
  marks := by decide +kernel
  noNul := by decide +kernel
  upper := fun _ => rfl
  clipSet := rfl
  default := by decide +kernel
  cursor := rfl
  clipboard := rfl
  keys := hk
  noErr := he
  full := hf
  plain := by
    intro u hu c hc
    refine plain_but_tabs fun hx => ?_
    have hx : c = '\t' := Char.toNat_inj.mp hx
    subst hx
    rcases hu with rfl | hu | hu
    · cases hc
    · cases hu
    · cases hu
  plainTyped := fun k hk _ c hc => plain_but_tabs fun hx => ht k hk (by
    have hx : c = '\t' := Char.toNat_inj.mp hx
    exact hx ▸ hc)
  plainLiteral := fun _ k hk c hc => plain_but_tabs fun hx => ht k hk (by
    have hx : c = '\t' := Char.toNat_inj.mp hx
    exact hx ▸ hc)
  quote := plain_but_tabs (by decide)
  fresh := .inl rfl
  room := show (7 : Int) < 80 by decide
  resized := hr

/-- What the program of the textbook makes of it. -/
example : notebook emptyDesk notBlank [] 21 [] 0 none sampleSession =
    (["one".toList, "one 世".toList, "one 世世".toList], .closed) := by decide +kernel

/-- So the history of the program is this. -/
example : ∃ x, program (env plain) (fun b => (runesOf b).any fun r => decide (r ≠ 0x20)) { input := sampleSession.map fun k => .key (utf8 k) } = .ok x ∧
    x.1.buffer = ["one".toList, "one 世".toList, "one 世世".toList].map utf8 ∧ x.2.1 = .eof := by
  have hn : notebook emptyDesk notBlank [] 21 [] 0 none sampleSession =
    (["one".toList, "one 世".toList, "one 世世".toList], .closed) := by decide +kernel
  have := C79_partial (E := env plain) (D := emptyDesk) (keep := fun b => (runesOf b).any fun r => decide (r ≠ 0x20)) (keepC := notBlank)
    (by
      intro l
      rw [runesOf_utf8]
      unfold notBlank
      induction l with
      | nil => rfl
      | cons c l ih =>
        rw [List.map_cons, List.any_cons, List.any_cons, ih]
        congr 1
        by_cases hc : c = ' '
        · subst hc; rfl
        · rw [decide_eq_true hc, decide_eq_true]
          exact fun hx => hc (Char.toNat_inj.mp hx))
    (sample_program (ks := sampleSession) (evs := sampleSession.map fun k => .key (utf8 k)) (by decide +kernel) (by decide +kernel)
      (by decide +kernel) (by intro x hx; simp at hx) (by intro x hx; simp at hx)).desk
  rw [show sampleSession.length + 1 = 21 from rfl, hn] at this
  rcases this with ⟨x, h1, h2, u, h3⟩ | ⟨-, h2⟩
  · refine ⟨x, h1, h2, ?_⟩
    injection h3 with h3
    exact (congrArg RLRes.err h3).symm
  · cases h2

end

end Readline

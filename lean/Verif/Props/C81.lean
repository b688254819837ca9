import Verif.Proof.Layout
import Verif.Props.C02
/-!
# C81: how the runtime lays out the memory of the line does not influence what ReadLine does

Go's `append` may give a slice any capacity that is large enough, and `Buffer[i:j]` is allowed up to the
capacity, where cells that were deleted before, or cells that never held a character, are found.
`Model/Memory.lean` keeps this memory and takes the growth of `append` as a parameter.

`C81_lists`, `C81_panics`: the model without memory is right about every call that does not stop with `stale`.
`C81_no_undo`, `C81_calm`, `C81_texts`: which calls these are.
`C81_layout`: for built-in commands, two runtimes that grow slices differently return the same line, leave the
same state and write the same to the terminal; when one panics the other does, after writing the same.
`C81_cells`: a cell that never held a character is touched by no command but Ctrl-T.
`C81_partial`: without Ctrl-T the panic is the same one, too.
`C81_refuted`: with Ctrl-T it is not; what the program dies of depends on the runtime.
`C81_behind`, `C81_ghost`, `C81_crash`: what really happens where the model without memory says `stale`: a key is
awaited with the cursor behind the end of the line, a deleted character is on the screen again, and the next
letter ends the program.
-/
namespace Readline
open Spec

/-- The model with lists tells what happens, whatever the runtime does. -/
theorem C81_lists {E : Env} {w : World} {s : St} {r : RLRes} (h : readLine E w = .ok (s, r)) (G : Grow) :
    ∃ sp, memReadLine E G w = .ok (⟨s, sp⟩, r) := by
  have hm := readLine_matches E G w
  rw [h] at hm
  obtain ⟨⟨⟨s', sp⟩, r'⟩, h1, h2, h3⟩ := hm
  cases h2; cases h3
  exact ⟨sp, h1⟩

/-- The same for panics, except at a slice that ends behind the line. -/
theorem C81_panics {E : Env} {w : World} {p : Panic} (h : readLine E w = .error p) (hs : p.kind ≠ .stale) (G : Grow) :
    ∃ m, memReadLine E G w = .error (.go p.kind, m) := by
  have hm := readLine_matches E G w
  rw [h] at hm
  exact hm.resolve_left hs

/-- A line that comes back from the real editor without a slice behind its end is the line of the model: the
converse of `C81_lists`. -/
theorem C81_back {E : Env} {G : Grow} {w : World} {m : Mem} {r : RLRes} (h : memReadLine E G w = .ok (m, r)) :
    readLine E w = .ok (m.st, r) ∨ ∃ p, readLine E w = .error p ∧ p.kind = .stale := by
  cases hr : readLine E w with
  | ok x =>
    obtain ⟨sp, e⟩ := C81_lists hr G
    rw [e] at h
    cases h
    exact Or.inl rfl
  | error p =>
    by_cases hs : p.kind = .stale
    · exact Or.inr ⟨p, rfl, hs⟩
    · obtain ⟨m', e⟩ := C81_panics hr hs G
      rw [e] at h
      cases h

/-- What the model with lists says is all there is to say about the call. -/
def Exact (E : Env) (w : World) : Prop :=
  ∀ G : Grow, (∃ s sp r, readLine E w = .ok (s, r) ∧ memReadLine E G w = .ok (⟨s, sp⟩, r)) ∨
    ∃ p m, readLine E w = .error p ∧ memReadLine E G w = .error (.go p.kind, m)

theorem exact_of {E : Env} {w : World} (h : ∀ p, readLine E w = .error p → p.kind ≠ .stale) : Exact E w := by
  intro G
  cases hr : readLine E w with
  | ok x =>
    obtain ⟨sp, e⟩ := C81_lists hr G
    exact Or.inl ⟨x.1, sp, x.2, rfl, e⟩
  | error p =>
    obtain ⟨m, e⟩ := C81_panics hr (h p hr) G
    exact Or.inr ⟨p, m, rfl, e⟩

/-- No slice reaches beyond the line unless the key is Undo. -/
theorem C81_no_undo {E : Env} {w : World} (hb : BuiltinKeys E) (hc : 0 ≤ w.cursor)
    (hu : ∀ k, .key k ∈ w.input → lookupCommand E k ≠ .undo) : Exact E w := by
  refine exact_of fun p h hs => ?_
  rcases C01_no_undo_partial hb hc hu h with h | h | ⟨k, P, _, h, _⟩
  · rw [h.1] at hs; cases hs
  · rw [h.1] at hs; cases hs
  · rw [h] at hs; cases hs

/-- Nor in a calm session (C01). -/
theorem C81_calm {E : Env} {w : World} (hb : BuiltinKeys E) (hc : 0 ≤ w.cursor)
    (hcalm : ∀ s, Reachable E w s → Calm E s) : Exact E w := by
  refine exact_of fun p h hs => ?_
  rcases C01_partial hb hc hcalm h with h | h | ⟨k, P, _, h, _⟩
  · rw [h.1] at hs; cases hs
  · rw [h.1] at hs; cases hs
  · rw [h] at hs; cases hs

/-- `C01_texts_partial` for the editor with its memory: with ordinary texts and any keys but Ctrl-T the call
returns in every runtime. -/
theorem C81_texts {E : Env} {w : World} (hk : E.keyMap = none) (hg : E.globalKeyMap = defaultGlobalKeyMap)
    (hq : E.predictor = none) (hc : E.clipSet = fun _ t => some t) (hp : E.prompt = none)
    (ht : ∀ t, t = E.default ∨ t ∈ E.history ∨ w.clip = some t ∨ FromKey E w t → Over (Plain E.cfg) t)
    (h22 : Plain E.cfg 0x22) (hs : .key [0x14] ∉ w.input) (hw : 7 < w.termWidth) (hr : ∀ n, .resize n ∈ w.input → 7 < n)
    (hcur : 0 ≤ w.cursor) : ∃ s r, ∀ G, ∃ sp, memReadLine E G w = .ok (⟨s, sp⟩, r) := by
  obtain ⟨s, r, h⟩ := C01_texts_partial hk hg hq hc hp ht h22 hs hw hr hcur
  exact ⟨s, r, fun G => C81_lists h G⟩

/-- Two runtimes: the same line and the same state, or a panic in both, after the same output. -/
theorem C81_layout {E : Env} (hb : BuiltinKeys E) (G G' : Grow) (w : World) :
    (∃ s sp sp' r, memReadLine E G w = .ok (⟨s, sp⟩, r) ∧ memReadLine E G' w = .ok (⟨s, sp'⟩, r)) ∨
    (∃ f f' m m', memReadLine E G w = .error (f, m) ∧ memReadLine E G' w = .error (f', m') ∧ m.st.out = m'.st.out) := by
  have h := readLine_twin (X := True) hb (fun _ _ => trivial) G G' w
  cases h1 : memReadLine E G w with
  | ok a =>
    cases h2 : memReadLine E G' w with
    | ok b =>
      rw [h1, h2] at h
      obtain ⟨⟨s, sp⟩, r⟩ := a
      obtain ⟨⟨s', sp'⟩, r'⟩ := b
      obtain ⟨e1, _, e2⟩ := h
      cases e1; cases e2
      exact Or.inl ⟨s, sp, sp', r, rfl, rfl⟩
    | error e => rw [h1, h2] at h; exact h.elim
  | error e =>
    cases h2 : memReadLine E G' w with
    | ok b => rw [h1, h2] at h; exact h.elim
    | error e' => rw [h1, h2] at h; exact Or.inr ⟨e.1, e'.1, e.2, e'.2, rfl, rfl, h.1⟩

/-- Without Ctrl-T: the same panic.  Missing: Ctrl-T with the cursor behind the end (`C81_refuted`). -/
theorem C81_partial {E : Env} (hb : BuiltinKeys E) (ht : ∀ k, lookupCommand E k ≠ .swapChar) (G G' : Grow) (w : World) :
    (∃ s sp sp' r, memReadLine E G w = .ok (⟨s, sp⟩, r) ∧ memReadLine E G' w = .ok (⟨s, sp'⟩, r)) ∨
    (∃ k m m', memReadLine E G w = .error (.go k, m) ∧ memReadLine E G' w = .error (.go k, m') ∧ m.st.out = m'.st.out) := by
  have h := readLine_twin (X := False) hb (fun k hk => ht k hk) G G' w
  rcases C81_layout hb G G' w with h1 | ⟨f, f', m, m', h1, h2, h3⟩
  · exact Or.inl h1
  · rw [h1, h2] at h
    obtain ⟨_, hX | ⟨e1, k, e2⟩⟩ := h
    · exact hX.elim
    · dsimp only at e1 e2
      subst e1; subst e2
      exact Or.inr ⟨k, m, m', h1, h2, h3⟩

/-- A method of a nil `Moji` is called by no command but Ctrl-T. -/
theorem C81_cells {E : Env} (hb : BuiltinKeys E) (ht : ∀ k, lookupCommand E k ≠ .swapChar) (G : Grow) (w : World) (m : Mem) :
    memReadLine E G w ≠ .error (.nilMoji, m) := by
  intro h
  rcases C81_partial hb ht G G w with ⟨s, sp, sp', r, h1, _⟩ | ⟨k, m1, _, h1, _⟩
  · rw [h] at h1; cases h1
  · rw [h] at h1; cases h1

/-- In the middle of a call: every key finds both runtimes in the same state. -/
theorem C81_awaited {E : Env} (hb : BuiltinKeys E) (G G' : Grow) {w : World} {n : Nat} {m : Mem} (h : memAfter E G w n = .ok m) :
    ∃ sp, memAfter E G' w n = .ok ⟨m.st, sp⟩ := by
  have hl := after_twin (X := True) hb (fun _ _ => trivial) G G' w n
  rw [h] at hl
  cases h2 : memAfter E G' w n with
  | error e => rw [h2] at hl; exact hl.elim
  | ok b =>
    rw [h2] at hl
    obtain ⟨s, sp⟩ := b
    obtain ⟨e, _⟩ := hl
    cases e
    exact ⟨sp, rfl⟩

section
open Example

/-- The growth of the current runtime for short slices, without rounding to size classes. -/
def doubling : Grow := fun c n => if 2 * c < n then n else 2 * c

/-- An emoji modifier typed first, a letter typed before it, Ctrl-K at the end, Ctrl-U and two times Undo. -/
def ghostKeys : List String := ["🏻", "\x01", "X", "\x05", "\x0b", "\x15", "\x1a", "\x1a"]

def seen (x : HM Mem) : Option (List Bytes × Int × List (Option Bytes)) :=
  match x with
  | .ok m => some (m.st.buf.map (·.moji.write), m.st.cursor, (m.spare.take 2).map (·.map (·.moji.write)))
  | .error _ => none

theorem ghost_builtin : BuiltinKeys (env full) := defaultKeys_builtin full

theorem ghost_seen : ∃ m, memAfter (env full) doubling { input := keys ghostKeys } 8 = .ok m ∧
    m.st.buf.length = 1 ∧ m.st.cursor = 2 ∧
    (m.st.out.reverse.take 3) = [.cursorOn, .glyph (.raw 0x1F3FB), .glyph (.modi (.raw 0x58) (.raw 0x1F3FB))] := by
  have : (match memAfter (env full) doubling { input := keys ghostKeys } 8 with
      | .ok m => decide (m.st.buf.length = 1 ∧ m.st.cursor = 2 ∧
          (m.st.out.reverse.take 3) = [.cursorOn, .glyph (.raw 0x1F3FB), .glyph (.modi (.raw 0x58) (.raw 0x1F3FB))])
      | .error _ => false) = true := by decide +kernel
  cases h : memAfter (env full) doubling { input := keys ghostKeys } 8 with
  | error e => rw [h] at this; cases this
  | ok m =>
    rw [h] at this
    exact ⟨m, rfl, of_decide_eq_true this⟩

/-- A key is awaited with the cursor behind the end of the line, in every runtime: the full claim of C02 is
false. -/
theorem C81_behind (G : Grow) : ∃ m, memAfter (env full) G { input := keys ghostKeys } 8 = .ok m ∧
    m.st.cursor > m.st.buf.length := by
  obtain ⟨m, h, h1, h2, _⟩ := ghost_seen
  obtain ⟨sp, h3⟩ := C81_awaited ghost_builtin doubling G h
  exact ⟨_, h3, by dsimp only; rw [h1, h2]; decide⟩

/-- The line is one unit, and behind it the modifier deleted before is printed once more. -/
theorem C81_ghost (G : Grow) : ∃ m, memAfter (env full) G { input := keys ghostKeys } 8 = .ok m ∧ m.st.buf.length = 1 ∧
    (m.st.out.reverse.take 3) = [.cursorOn, .glyph (.raw 0x1F3FB), .glyph (.modi (.raw 0x58) (.raw 0x1F3FB))] := by
  obtain ⟨m, h, h1, _, h2⟩ := ghost_seen
  obtain ⟨sp, h3⟩ := C81_awaited ghost_builtin doubling G h
  exact ⟨_, h3, h1, h2⟩

/-- How a call ends. -/
def fault (x : HM (Mem × RLRes)) : Option Fault :=
  match x with
  | .error e => some e.1
  | .ok _ => none

/-- The next letter ends the program, in every runtime. -/
theorem C81_crash (G : Grow) : ∃ f m, memReadLine (env full) G { input := keys (ghostKeys ++ ["a"]) } = .error (f, m) := by
  have h : fault (memReadLine (env full) doubling { input := keys (ghostKeys ++ ["a"]) }) = some (.go .bounds) := by
    decide +kernel
  rcases C81_layout ghost_builtin doubling G { input := keys (ghostKeys ++ ["a"]) } with ⟨s, sp, _, r, h1, _⟩ | ⟨_, f, _, m, _, h1, _⟩
  · rw [h1] at h; cases h
  · exact ⟨f, m, h1⟩

/-- A line of 24 units that begins with the modifier. -/
def longGhost : Env := { env full with default := b "🏻aaaaaaaaaaaaaaaaaaaaaaa" }

/-- Ctrl-T in that state touches a cell that has never held a character, unless the runtime gave the slice no
room behind the line: the program dies of a nil pointer in one runtime and of a bounds check in another. -/
theorem C81_refuted : ∃ (w : World) (G G' : Grow),
    fault (memReadLine longGhost G w) = some .nilMoji ∧ fault (memReadLine longGhost G' w) = some (.go .bounds) :=
  ⟨{ input := keys ["\x01", "X", "\x05", "\x0b", "\x15", "\x1a", "\x1a", "\x14"] }, doubling, fun _ n => n,
    by decide +kernel, by decide +kernel⟩

/-- A call in which `append` grows the slice: 24 cells where 20 fit, then two more. -/
example : (match memAfter longGhost (fun _ n => n) { input := keys ["b", "c"] } 2 with
    | .ok m => some (m.st.buf.length, m.spare.length) | .error _ => none) = some (26, 0) ∧
    (match memAfter longGhost doubling { input := keys ["b", "c"] } 2 with
    | .ok m => some (m.st.buf.length, m.spare.length) | .error _ => none) = some (26, 14) := by
  constructor <;> decide +kernel

/-- Deleted cells stay behind the line. -/
example : seen (memAfter (env plain) doubling { input := keys ["a", "b", "c", "\x08", "\x08"] } 5) =
    some ([[97]], 1, [some [98], some [99]]) := by decide +kernel

end
end Readline

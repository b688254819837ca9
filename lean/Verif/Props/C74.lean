import Verif.Proof.BurstCall
import Verif.Proof.Invariant
import Verif.Spec.Example
import Verif.Props.C01
/-!
# C74: a key prints at most four rows of the line

However long the line, the history, the clipboard text and the prediction are: between two waits for
a key at most `4 * max 1 (width - 4)` units of text are shown, and at most four more colours than
that are set (`C74_step`, `C74_start`).  In a session without resizes the same holds of the whole
output (`C74_session`, `C74_returns`).

Assumed: no code point has a negative width, and a joined unit takes at least one column, as with the
width the library gives by default.  A program that sets another width for joined units can make the
output as long as the line (`C74_needs_width`).

Reason: every unit takes at least one column (`C74_units`), because code points without a width are
shown as `<...>`.  Proof in `Proof/BurstCall.lean`.
-/
namespace Readline
open Spec

variable {E : Env} {w : World} {s s' : St}

/-- Every unit a text is cut into takes at least one column. -/
theorem C74_units {C : Cfg} (h1 : ∀ r, 0 ≤ C.width r) (h2 : ∀ a b, 0 ≤ a → 0 ≤ b → 1 ≤ C.zwjWidth a b) (t : Bytes) :
    ∀ m ∈ stringToMoji C t, 1 ≤ m.width C := stringToMoji_wide ⟨h1, h2⟩ t

/-- What a state must be for the next step. -/
structure Slim (E : Env) (s : St) : Prop where
  top : 0 ≤ s.topColumn
  stout : Stout E.cfg s.buf
  pred : ∀ m ∈ s.suffixList, 1 ≤ m.width E.cfg
  near : Near (perRow s.termWidth) s

theorem gauge (h : Broad E.cfg) (W : Int) (a b : Nat) : Gauge E W (perRow W) a b ((a + b) * perRow W + b) :=
  ⟨h, by unfold perRow; omega, by unfold perRow; omega, rfl⟩

theorem Frugal.slim {W : Int} {a b D g : Nat} {s0 : St} (h : Frugal E W a b D s0 g s) (hn : Near (perRow W) s) : Slim E s :=
  ⟨h.top, h.stout, h.pred, by rw [h.width]; exact hn⟩

/-- A key, or the end of the input. -/
theorem step_f {W : Int} {m a b D g : Nat} {s0 : St} {r : Option RLRes} (G : Gauge E W m a b D)
    (hb : BuiltinKeys E) (h : Frugal E W a b D s0 g s) (hn : Near m s)
    (hr : ∀ n rest, s.input ≠ .resize n :: rest) (hs : step E s = .ok (s', r)) :
    Frugal E W a b D s0 (4 * D) s' ∧ (r = none → Near m s') := by
  unfold step at hs
  cases hi : s.input with
  | nil =>
    rw [hi] at hs
    cases hs
    exact ⟨((h.wait.emit (x := .cursorOn)).emit (x := .flush)).le (Nat.zero_le _), fun e => nomatch e⟩
  | cons ev rest =>
    rw [hi] at hs
    cases ev with
    | err x =>
      cases hs
      refine ⟨Frugal.le (g := 0) (Frugal.emit (x := .flush) (Frugal.emit (x := .cursorOn) ?_)) (Nat.zero_le _),
        fun e => nomatch e⟩
      exact h.wait.of
    | resize n => exact absurd hi (hr n rest)
    | key k =>
      dsimp only at hs
      unfold execCmd at hs
      have h0 : Frugal E W a b D s0 0 (({ s.emit .await with input := rest }).emit .cursorOff) :=
        Frugal.emit (h.wait.of)
      obtain ⟨⟨s1, rc⟩, h1, hs⟩ := bind_ok.mp hs
      obtain ⟨k1, k2, k3⟩ := (call_f G (BuiltinKeys.builtin hb k) h0 hn).ok h1
      dsimp only at k1 k2 k3 hs
      have fin : rc ≠ .cont → (do
          let p ← finish E (s1.emit .cursorOn) rc
          return (p.1, some p.2) : M (St × Option RLRes)) = .ok (s', r) →
          Frugal E W a b D s0 (4 * D) s' ∧ (r = none → Near m s') := by
        intro hc hf
        obtain ⟨⟨s2, x⟩, h2, hf⟩ := bind_ok.mp hf
        cases pure_ok.mp hf
        have := (finish_f G (s := s1.emit .cursorOn) (Frugal.emit (k3 hc)) k2 rc).ok h2
        exact ⟨Frugal.le this (by omega), fun e => nomatch e⟩
      cases rc
      · cases pure_ok.mp hs
        exact ⟨Frugal.emit k1, fun _ => k2⟩
      · exact fin (fun e => nomatch e) hs
      · exact fin (fun e => nomatch e) hs
      · exact fin (fun e => nomatch e) hs

/-- A resize. -/
theorem resize_f {W : Int} {m a b D : Nat} {s0 : St} {r : Option RLRes} {rest : List Ev} (G : Gauge E W m a b D)
    (h : Frugal E W a b D s0 0 { s with termWidth := W, input := rest }) (hi : s.input = .resize W :: rest)
    (hs : step E s = .ok (s', r)) : Frugal E W a b D s0 (4 * D) s' ∧ Near m s' ∧ r = none := by
  unfold step at hs
  rw [hi] at hs
  dsimp only at hs
  obtain ⟨s1, h1, hs⟩ := bind_ok.mp hs
  cases pure_ok.mp hs
  unfold onResize at h1
  obtain ⟨k1, k2⟩ := (repaintLastLine_f G (s := resetViewStart E { s with termWidth := W, input := rest })
    (s0 := s0) (g := 0) (h.of) (reset_f G h) (by omega)).ok h1
  exact ⟨k1.le (by omega), k2, rfl⟩

/-- The start. -/
theorem start_f {a b : Nat} (hB : Broad E.cfg) (h : startSt E w = .ok s) :
    Frugal E w.termWidth a b ((a + b) * perRow w.termWidth + b) ({ out := w.out } : St)
      (2 * ((a + b) * perRow w.termWidth + b)) s ∧ Near (perRow w.termWidth) s := by
  have G := gauge hB w.termWidth a b
  unfold startSt at h
  obtain ⟨⟨s1, n⟩, h1, h⟩ := bind_ok.mp h
  generalize hD : (a + b) * perRow w.termWidth + b = D at *
  have h0 : Frugal E w.termWidth a b D ({ out := w.out } : St) 0 (promptSt E w) := by
    unfold promptSt
    have hr : Frugal E w.termWidth a b D ({ out := w.out } : St) 0
        { cursor := w.cursor, clip := w.clip, termWidth := w.termWidth, input := w.input,
          out := w.out, promptN := w.promptN, histPtr := E.histLen } :=
      ⟨rfl, Int.le_refl 0, (fun _ hm => nomatch hm), (fun _ hm => nomatch hm), [], by simp, Nat.le_refl 0, .nil⟩
    have hp := (promptWriter_f G hr).1
    dsimp only
    generalize callPromptWriter E _ = q at hp
    obtain ⟨top, s2⟩ := q
    dsimp only at hp ⊢
    cases E.promptErr with
    | some e =>
      have := Frugal.emit (x := .lit (e ++ [0x0A, 0x24, 0x20])) hp
      exact { this with top := by show (0 : Int) ≤ 2; omega }
    | none =>
      dsimp only
      split
      · have := Frugal.emit (x := .lit [0x0A]) hp
        exact { this with top := Int.le_refl 0 }
      · exact hp
  have h1' := ((insertString_f G h0 _ _).ok h1).1
  obtain ⟨s2, h2, h⟩ := bind_ok.mp h
  cases pure_ok.mp h
  have h3 : Frugal E w.termWidth a b D ({ out := w.out } : St) 0
      (if s1.cursor > s1.len then { s1 with cursor := s1.len } else s1) := by
    split
    · exact h1'.of
    · exact h1'
  obtain ⟨k1, k2⟩ := (repaint_f (s := resetViewStart E _) G (h3.of) (reset_f G h3) (by omega)).ok h2
  exact ⟨Frugal.emit (k1.le (by omega)), k2⟩

/-- Two ways of counting give `Sparse`. -/
theorem sparse_of {W : Int} {g1 g2 m : Nat} {s0 : St}
    (h1 : Frugal E W 1 0 m s0 g1 s) (h2 : Frugal E W 0 1 (m + 1) s0 g2 s) :
    ∃ t, s.out = s0.out ++ t ∧ Sparse (4 * m) (4 * (m + 1)) t := by
  obtain ⟨t, e, _, p⟩ := h1.out
  obtain ⟨u, e', _, q⟩ := h2.out
  have : t = u := List.append_cancel_left (e.symm.trans e')
  subst this
  refine ⟨t, e, fun x hx ha => ⟨?_, ?_⟩⟩
  · rw [← weigh_shows]; exact p.infix hx ha
  · rw [← weigh_tints]; exact q.infix hx ha

theorem slim_frugal {W : Int} {a b D : Nat} (h : Slim E s) (hW : s.termWidth = W) : Frugal E W a b D s 0 s :=
  ⟨hW, h.top, h.stout, h.pred, [], by simp, Nat.le_refl 0, .nil⟩

theorem slim_step {r : Option RLRes} (hB : Broad E.cfg) (hb : BuiltinKeys E) (h : Slim E s)
    (hs : step E s = .ok (s', r)) (a b : Nat) :
    Frugal E s'.termWidth a b ((a + b) * perRow s'.termWidth + b) s (4 * ((a + b) * perRow s'.termWidth + b)) s' ∧
      (r = none → Slim E s') := by
  by_cases hi : ∃ n rest, s.input = .resize n :: rest
  · obtain ⟨n, rest, hi⟩ := hi
    have G := gauge hB n a b
    have f : Frugal E n a b ((a + b) * perRow n + b) s 0 { s with termWidth := n, input := rest } :=
      ⟨rfl, h.top, h.stout, h.pred, [], by simp, Nat.le_refl 0, .nil⟩
    obtain ⟨k1, k2, _⟩ := resize_f G f hi hs
    refine ⟨?_, fun _ => k1.slim k2⟩
    rw [k1.width]; exact k1
  · have G := gauge hB s.termWidth a b
    obtain ⟨k1, k2⟩ := step_f G hb (slim_frugal h rfl) h.near (fun n rest e => hi ⟨n, rest, e⟩) hs
    refine ⟨?_, fun e => k1.slim (k2 e)⟩
    rw [k1.width]; exact k1

theorem slim_reachable (hB : Broad E.cfg) (hb : BuiltinKeys E) (h : Reachable E w s) : Slim E s := by
  induction h with
  | start h => exact (start_f (a := 0) (b := 0) hB h).1.slim (start_f (a := 0) (b := 0) hB h).2
  | step _ h ih => exact (slim_step hB hb ih h 0 0).2 rfl

/-- One step of a session: a key with everything its command reads, or a resize. -/
theorem C74_step (h1 : ∀ r, 0 ≤ E.cfg.width r) (h2 : ∀ a b, 0 ≤ a → 0 ≤ b → 1 ≤ E.cfg.zwjWidth a b)
    (hb : BuiltinKeys E) (h : Reachable E w s) {r : Option RLRes} (hs : step E s = .ok (s', r)) :
    ∃ t, s'.out = s.out ++ t ∧ Sparse (4 * perRow s'.termWidth) (4 * (perRow s'.termWidth + 1)) t := by
  have hl := slim_reachable ⟨h1, h2⟩ hb h
  have k1 := (slim_step ⟨h1, h2⟩ hb hl hs 1 0).1
  have k2 := (slim_step ⟨h1, h2⟩ hb hl hs 0 1).1
  simp only [Nat.add_zero, Nat.zero_add, Nat.one_mul] at k1 k2
  exact sparse_of k1 k2

/-- What is printed before the first wait. -/
theorem C74_start (h1 : ∀ r, 0 ≤ E.cfg.width r) (h2 : ∀ a b, 0 ≤ a → 0 ≤ b → 1 ≤ E.cfg.zwjWidth a b)
    (h : startSt E w = .ok s) :
    ∃ t, s.out = w.out ++ t ∧ Sparse (4 * perRow w.termWidth) (4 * (perRow w.termWidth + 1)) t := by
  have k1 := (start_f (a := 1) (b := 0) ⟨h1, h2⟩ h).1
  have k2 := (start_f (a := 0) (b := 1) ⟨h1, h2⟩ h).1
  simp only [Nat.add_zero, Nat.zero_add, Nat.one_mul] at k1 k2
  exact sparse_of k1 k2

theorem session_f {a b D : Nat} (hD : (a + b) * perRow w.termWidth + b = D) (hB : Broad E.cfg)
    (hb : BuiltinKeys E) (hi : ∀ n, .resize n ∉ w.input) (h : Reachable E w s) :
    Frugal E w.termWidth a b D ({ out := w.out } : St) (4 * D) s ∧ Near (perRow w.termWidth) s := by
  have G := gauge hB w.termWidth a b
  rw [hD] at G
  induction h with
  | start h =>
    have := start_f (a := a) (b := b) hB h
    rw [hD] at this
    exact ⟨this.1.le (by omega), this.2⟩
  | @step s s' hr hs ih =>
    obtain ⟨k1, k2⟩ := step_f G hb ih.1 ih.2 (fun n rest e => hi n
      ((reachable_input hb hr).subset (by rw [e]; simp))) hs
    exact ⟨k1, k2 rfl⟩

/-- A session without resizes, up to any state in which a key is awaited. -/
theorem C74_session (h1 : ∀ r, 0 ≤ E.cfg.width r) (h2 : ∀ a b, 0 ≤ a → 0 ≤ b → 1 ≤ E.cfg.zwjWidth a b)
    (hb : BuiltinKeys E) (hi : ∀ n, .resize n ∉ w.input) (h : Reachable E w s) :
    ∃ t, s.out = w.out ++ t ∧ Sparse (4 * perRow w.termWidth) (4 * (perRow w.termWidth + 1)) t :=
  sparse_of (session_f (a := 1) (b := 0) (by simp) ⟨h1, h2⟩ hb hi h).1
    (session_f (a := 0) (b := 1) (by simp) ⟨h1, h2⟩ hb hi h).1

/-- A whole session without resizes. -/
theorem C74_returns (h1 : ∀ r, 0 ≤ E.cfg.width r) (h2 : ∀ a b, 0 ≤ a → 0 ≤ b → 1 ≤ E.cfg.zwjWidth a b)
    (hb : BuiltinKeys E) (hi : ∀ n, .resize n ∉ w.input) {p : St × RLRes}
    (h : readLine E w = .ok p) :
    ∃ t, p.1.out = w.out ++ t ∧ Sparse (4 * perRow w.termWidth) (4 * (perRow w.termWidth + 1)) t := by
  obtain ⟨s, hr, hs⟩ := readLine_reachable h
  have key : ∀ a b D, (a + b) * perRow w.termWidth + b = D →
      Frugal E w.termWidth a b D ({ out := w.out } : St) (4 * D) p.1 := by
    intro a b D hD
    obtain ⟨k1, k2⟩ := session_f hD ⟨h1, h2⟩ hb hi hr
    have G := gauge (E := E) ⟨h1, h2⟩ w.termWidth a b
    rw [hD] at G
    exact (step_f G hb k1 k2 (fun n rest e => hi n
      ((reachable_input hb hr).subset (by rw [e]; simp))) hs).1
  exact sparse_of (key 1 0 _ (by simp)) (key 0 1 _ (by simp))

section
open Example

/-- How many units were shown since the last wait. -/
def shownSince (x : M St) : Option Nat :=
  match x with
  | .ok s => some (since 1 0 s.out)
  | .error _ => none

/-- The hypotheses hold of the settings of the examples. -/
example : (∀ r, 0 ≤ full.width r) ∧ ∀ a b, 0 ≤ a → 0 ≤ b → 1 ≤ full.zwjWidth a b :=
  ⟨plain_widths.1, fun a b ha hb => by show 1 ≤ a + 1 + b; omega⟩

/-- A row of 12 columns takes eight units.  At the end of a line of forty letters: a letter more shows twelve units of it (the view and what
is left of the cursor), a variation selector twenty. -/
example : perRow 12 = 8 ∧
    shownSince (after { env full with default := b "aaaaaaaaaaaaaaaaaaaaaaaaaaaaaaaaaaaaaaaa" } { termWidth := 12, input := keys ["\x05", "b"] } 2) = some 12 ∧
    shownSince (after { env full with default := b "aaaaaaaaaaaaaaaaaaaaaaaaaaaaaaaaaaaaaaaa" } { termWidth := 12, input := keys ["\x05", "\ufe0f"] } 2) = some 20 := by
  decide +kernel

/-- With a prompt without a width the row is used up: more than three rows for one key. -/
example : shownSince (after { env full with prompt := some fun _ => [], default := b "aaaaaaaaaaaaaaaaaaaaaaaaaaaaaaaaaaaaaaaa" }
    { termWidth := 12, input := keys ["\x05", "\ufe0f"] } 2) = some 28 := by decide +kernel

/-- Forty units joined of two letters each. -/
def joinedLine : Bytes := (List.replicate 40 (b "a\u200db")).flatten

/-- When joined units take no columns at all, everything is printed. -/
theorem C74_needs_width :
    shownSince (startSt { env { full with zwjWidth := fun _ _ => 0 } with default := joinedLine } { termWidth := 12 }) = some 40 := by
  decide +kernel

/-- With the width of the library it is not. -/
example : shownSince (startSt { env full with default := joinedLine } { termWidth := 12 }) = some 2 := by
  decide +kernel

end

end Readline

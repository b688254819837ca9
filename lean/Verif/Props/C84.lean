import Verif.Props.C71
import Verif.Props.C83
/-!
# C84: the dialogue with examples/example160.go

From the keys to all the rows of the terminal, for the program whose predictions leave blanks at the ends aside.
-/
namespace Readline
open Spec

variable {E : Env} {w : World} {clip : Option (List Char)} {ks : List (List Char)} {adv : Rune → Int} {v : Vt} {up : List Char → List Char}

/-! ## The predictor -/

theorem dropWhile_split (p : Char → Bool) (t : List Char) : ∃ a, t = a ++ t.dropWhile p ∧ ∀ c ∈ a, p c = true :=
  ⟨t.takeWhile p, List.takeWhile_append_dropWhile.symm, fun c hc => by
    induction t with
    | nil => cases hc
    | cons d t ih =>
      rw [List.takeWhile_cons] at hc
      split at hc
      · rcases List.mem_cons.mp hc with rfl | hc
        · assumption
        · exact ih hc
      · cases hc⟩

theorem dropWhile_front (p : Char → Bool) (t : List Char) : ∀ c, (t.dropWhile p).head? = some c → p c = false := by
  intro c hc
  induction t with
  | nil => cases hc
  | cons d t ih =>
    rw [List.dropWhile_cons] at hc
    split at hc
    · exact ih hc
    · rename_i hd
      injection hc with hc
      subst hc
      simpa using hd

/-- The text without the blanks at its ends. -/
theorem strip_split (t : List Char) : ∃ a z, t = a ++ strip t ++ z ∧ (∀ c ∈ a, White c) ∧ (∀ c ∈ z, White c) ∧
    (∀ c, (strip t).head? = some c → ¬ White c) ∧ ∀ c, (strip t).getLast? = some c → ¬ White c := by
  obtain ⟨a, ha, ha'⟩ := dropWhile_split (fun c => decide (White c)) t
  obtain ⟨z, hz, hz'⟩ := dropWhile_split (fun c => decide (White c)) (t.dropWhile fun c => decide (White c)).reverse
  have hs : t.dropWhile (fun c => decide (White c)) = strip t ++ z.reverse := by
    have := congrArg List.reverse hz
    rw [List.reverse_reverse, List.reverse_append] at this
    exact this
  refine ⟨a, z.reverse, by rw [List.append_assoc, ← hs]; exact ha, fun c hc => of_decide_eq_true (ha' c hc),
    fun c hc => of_decide_eq_true (hz' c (by simpa using hc)), fun c hc => ?_, fun c hc => ?_⟩
  · refine of_decide_eq_false (dropWhile_front (fun c => decide (White c)) t c ?_)
    rw [hs]
    cases hst : strip t with
    | nil => rw [hst] at hc; cases hc
    | cons d r => rw [hst] at hc; exact hc
  · unfold strip at hc
    rw [List.getLast?_reverse] at hc
    exact of_decide_eq_false (dropWhile_front (fun c => decide (White c)) _ c hc)

theorem strip_sub {t : List Char} {c : Char} (h : c ∈ strip t) : c ∈ t := by
  obtain ⟨a, z, e, -⟩ := strip_split t
  rw [e]
  simp [h]

theorem trim_chars (t : List Char) : trimSpace (utf8 t) = utf8 (strip t) := by
  obtain ⟨a, z, e, ha, hz, h1, h2⟩ := strip_split t
  refine (C71_trim _ _).mp ⟨⟨a, z, ha, hz, ?_⟩, fun c hc => ⟨fun hp => ?_, fun hp => ?_⟩⟩
  · rw [← utf8_append, ← utf8_append, ← e]
  · obtain ⟨r, hr⟩ := utf8_prefix.mp hp
    exact h1 c (by rw [← hr]; rfl) hc
  · obtain ⟨x, hx⟩ := hp
    obtain ⟨es, he, -⟩ := text_cancel_behind hx
    exact h2 c (by rw [he]; simp) hc

/-- **What is predicted** from characters to characters. -/
theorem C84_foresees (hist : List (List Char)) (t : List Char) : predictTrimmed (hist.map utf8) (utf8 t) = utf8 (strippedRest hist t) := by
  have hloop : ∀ hs : List (List Char), predictTrimmedLoop (utf8 (strip t)) (hs.map utf8) =
      utf8 (match hs.find? (fun h => (strip t).isPrefixOf (strip h)) with | some h => (strip h).drop (strip t).length | none => []) := by
    intro hs
    induction hs with
    | nil => rfl
    | cons h hs ih =>
      rw [List.map_cons, predictTrimmedLoop, trim_chars]
      rw [prefix_bool, List.find?_cons]
      cases hp : (strip t).isPrefixOf (strip h) with
      | true =>
        obtain ⟨z, hz⟩ := List.isPrefixOf_iff_prefix.mp hp
        rw [← hz]
        simp [utf8_append, ← hz]
      | false => simpa using ih
  unfold predictTrimmed
  rw [trim_chars, ← List.map_reverse, hloop]
  rfl

/-- The desk of the program. -/
def Spec.guessDesk (up : List Char → List Char) : Desk :=
  { history := [], cycling := false, guessing := true, foresee := strippedRest, marks := ['"', '\''], upper := up, verb := usualVerb }

theorem guess_within (P : Char → Prop) : (guessDesk up).Within P := by
  intro hist t c hc
  have hc : c ∈ strippedRest hist t := hc
  unfold strippedRest at hc
  split at hc
  · rename_i h hf
    exact .inr (.inl ⟨h, by simpa using List.mem_of_find?_eq_some hf, strip_sub (List.mem_of_mem_drop hc)⟩)
  · cases hc

/-- What the program is given: a table of widths, keys, and a clipboard, all of ordinary characters that are printable. -/
structure Spec.GuessTable (E : Env) (w : World) (up : List Char → List Char) (clip : Option (List Char)) (ks : List (List Char)) (adv : Rune → Int)
    (v : Vt) : Prop where
  upper : ∀ t, E.toUpper (utf8 t) = utf8 (up t)
  clipSet : E.clipSet = fun _ t => some t
  cursor : w.cursor = 0
  clipboard : w.clip = clip.map utf8
  clipText : ∀ u, clip = some u → ∀ c ∈ u, Readable E.cfg c.toNat
  keys : keysIn w.input = ks.map utf8
  noErr : NoErr w.input
  full : ∀ k ∈ ks, k ≠ []
  /-- what is typed can be printed; the others are keys other than Ctrl-L, Ctrl-Q, Ctrl-V and Ctrl-T -/
  typed : ∀ k ∈ ks, (usualVerb k = .type k ∧ ∀ c ∈ k, Readable E.cfg c.toNat) ∨
    ((∀ u, usualVerb k ≠ .type u) ∧ usualVerb k ∉ [.redraw, .literally, .exchange])
  /-- no prediction is taken, or no key leaves an old one -/
  fresh : (∀ k ∈ ks, usualVerb k ≠ .right) ∨ ∀ k ∈ ks, usualVerb k ∉ [.killRight, .killAll, .exchange, .older, .newer]
  begins : ∀ k ∈ ks, ∀ c ∈ k.head?, isControlRune c.toNat = true ∨ Plain E.cfg c.toNat
  agrees : AgreesPlain E.cfg adv
  ascii : ∀ r, 0x20 ≤ r → r ≤ 0x7E → Plain E.cfg r
  width : ∀ r, 0 ≤ E.cfg.width r
  zwj : ∀ a b, 0 ≤ a → 0 ≤ b → 0 ≤ E.cfg.zwjWidth a b
  room : 7 < w.termWidth
  wide : w.termWidth ≤ v.width
  resized : ∀ n, .resize n ∈ w.input → 7 < n ∧ n ≤ v.width
  ground : v.mode = .ground
  col : 0 ≤ v.col
  inside : v.row < v.height
  clear : Clear v

theorem guess_desk (h : GuessTable E w up clip ks adv v) : PlainDesk { foreseeing E with history := [] } w (guessDesk up) [] 0 clip ks :=
  Spec.UsualDesk.desk {
    keyMap := rfl
    globalKeyMap := rfl
    verb := rfl
    history := rfl
    cycling := rfl
    guessing := by
      show decide (([0x1B, 0x5B, 0x33, 0x3B, 0x32, 0x32, 0x3B, 0x33, 0x34, 0x6D] : Bytes) ≠ []) = true
      decide
    predictor := fun hist t => C84_foresees hist t
    plainGuess := guess_within _
    prompt := rfl
    marks := by show ([0x22, 0x27] : List Rune) = ['"', '\''].map Char.toNat; decide +kernel
    noNul := by show '\x00' ∉ ['"', '\'']; decide
    upper := h.upper
    clipSet := h.clipSet
    default := rfl
    cursor := h.cursor
    clipboard := h.clipboard
    keys := h.keys
    noErr := h.noErr
    full := h.full
    plain := by
      rintro u (rfl | hu | hu) c hc
      · cases hc
      · cases hu
      · exact (h.clipText u hu c hc).1
    plainTyped := by
      intro k hk hu c hc
      rcases h.typed k hk with ⟨-, h2⟩ | ⟨h1, -⟩
      · exact (h2 c hc).1
      · exact absurd hu (h1 k)
    plainLiteral := by
      rintro ⟨k, hk, hx⟩
      rcases h.typed k hk with ⟨h1, -⟩ | ⟨-, h2⟩
      · rw [hx] at h1; cases h1
      · exact absurd (hx ▸ by simp) h2
    quote := h.ascii _ (by decide) (by decide)
    fresh := .inr h.fresh
    room := h.room
    resized := fun n hn => (h.resized n hn).1 }

theorem guess_never {x : Verb} (hx : x = .redraw ∨ x = .literally ∨ x = .exchange) (h : GuessTable E w up clip ks adv v) : ∀ k ∈ ks, usualVerb k ≠ x := by
  intro k hk e
  rcases h.typed k hk with ⟨h1, -⟩ | ⟨-, h2⟩
  · rw [e] at h1; subst h1; rcases hx with hx | hx | hx <;> cases hx
  · exact h2 (by rw [e]; rcases hx with rfl | rfl | rfl <;> simp)

theorem guess_console (h : GuessTable E w up clip ks adv v) :
    Console usualSign { foreseeing E with history := [] } w (guessDesk up) [] clip ks adv v where
  promptErr := rfl
  colourOn := by
    show Sgr [0x1B, 0x5B, 0x33, 0x3B, 0x32, 0x32, 0x3B, 0x33, 0x34, 0x6D]
    exact .inr ⟨[0x33, 0x3B, 0x32, 0x32, 0x3B, 0x33, 0x34], by decide, by decide⟩
  colourOff := by
    show Sgr [0x1B, 0x5B, 0x32, 0x33, 0x3B, 0x33, 0x39, 0x6D]
    exact .inr ⟨[0x32, 0x33, 0x3B, 0x33, 0x39], by decide, by decide⟩
  agrees := h.agrees
  ascii := h.ascii
  width := h.width
  zwj := h.zwj
  begins := h.begins
  narrow := fun ⟨k, hk, hx⟩ => absurd hx (guess_never (.inr (.inr rfl)) h k hk)
  narrowGuess := fun _ => guess_within _
  ground := h.ground
  col := h.col
  sign := usual_sign h.agrees h.ascii rfl (by have := h.room; have := h.wide; omega)
  start := .inl rfl
  wide := h.wide
  resized := fun n hn => (h.resized n hn).2

theorem guess_legible (h : GuessTable E w up clip ks adv v) : Legible (guessDesk up) [] clip ks where
  texts := by
    rintro u (rfl | hu | hu) c hc
    · cases hc
    · cases hu
    · exact (h.clipText u hu c hc).2
  typed := by
    intro k hk u hu c hc
    have hu : usualVerb k = .type u := hu
    rcases h.typed k hk with ⟨h1, h2⟩ | ⟨h1, -⟩
    · have : Verb.type u = .type k := hu.symm.trans h1
      injection this with e
      exact (h2 c (e ▸ hc)).2
    · exact absurd hu (h1 u)
  literal := guess_never (.inr (.inl rfl)) h
  guess := guess_within _

/-! ## The dialogue of example160 -/

/-- A program without letters exchanged does not crash. -/
theorem notebook_safe {D : Desk} {keepC : List Char → Bool} {t : List Char} (hne : ∀ k ∈ ks, D.verb k ≠ .exchange) (f : Nat) :
    ∀ {hist : List (List Char)} {n : Nat} {clip : Option (List Char)} {rs : List (List Char)} {c : Container} {w : World},
      rs <:+ ks → PlainDesk { E with history := c.buffer } w { D with history := hist } t n clip rs → (∀ l, keepC l = true) →
      (notebook D keepC t f hist n clip rs).2 ≠ .crashed := by
  induction f with
  | zero => intro hist n clip rs c w _ _ _; rw [notebook]; simp
  | succ f ih =>
    intro hist n clip rs c w hs hd hk
    rw [notebook]
    obtain ⟨s, r, h1, h2⟩ := C80_result_partial hd fun k hk => hne k (hs.subset hk)
    rw [← oneLine_textbook] at h2
    cases ho : oneLine { D with history := hist } t n clip rs with
    | mk a q =>
      obtain ⟨p, rest⟩ := q
      rw [ho] at h2
      cases a with
      | entered l =>
        have hn : r.err = .nil := by cases h2; rfl
        obtain ⟨l', p', rest', g1, g2, g3, g4, g5, g6, g7, g8⟩ := line_entered hd.setting h1 hn
        rw [ho] at g1
        injection g1 with g1 g1'
        injection g1 with g1
        injection g1' with g1' g1''
        subst g1 g1' g1''
        have hnext := desk_next (keep := keepC) hd h1 hn g2 g3 g4 g5 g7
        refine ih (c := c.add r.text) (w := s.world) (g7.trans hs) ?_ hk
        rw [hk] at hnext ⊢
        exact hnext
      | crashed => cases h2
      | _ => simp

/-- **The program does not fail**, and its history and its error are those of the textbook's program that predicts in this way. -/
theorem C84_partial (h : GuessTable E w up clip ks adv v) :
    ∃ x, main160 E w = .ok x ∧ x.1.buffer = (notebook (guessDesk up) (fun _ => true) [] (ks.length + 1) [] 0 clip ks).1.map utf8 ∧
      ∃ u, (notebook (guessDesk up) (fun _ => true) [] (ks.length + 1) [] 0 clip ks).2.answer = some ⟨u, x.2.1⟩ := by
  rcases replyLines_notebook (E := foreseeing E) (D := guessDesk up) (t := []) (keep := fun _ => true) (keepC := fun _ => true) (fun _ => rfl)
    (w.input.length + 1) (c := {}) (guess_desk h) (Nat.lt_succ_self _) (Nat.lt_succ_self _) with hx | ⟨-, h2⟩
  · exact hx
  · exact absurd h2 (notebook_safe (E := foreseeing E) (D := guessDesk up) (guess_never (.inr (.inr rfl)) h) _ (List.suffix_refl ks) (c := {}) (guess_desk h)
      fun _ => rfl)

/-- **Whenever it waits for a key**: the line that is edited in the row of the cursor, and behind it, if no key leaves an old
one, what the textbook foresees from the lines entered before, as far as there is room; an empty row; what was printed about the last line; that
line behind its prompt; an empty row; and so on up to what stood there before. -/
theorem C84_waits_partial (h : GuessTable E w up clip ks adv v) {s : St} (ha : Midst (foreseeing E) (fun _ => true) {} w s)
    (hn : noResize s.input ≠ []) :
    ∃ ps p r o hint, Opened (guessDesk up) (fun _ => true) [] [] [] 0 clip ks ps p r ∧ keysIn s.input = r.map utf8 ∧ s.out = w.out ++ o ∧
      ShowsPage usualSign E.cfg adv (v.run adv (bytesOf E.cfg o)) (s.termWidth - 5) p hint ∧
      ((∀ k ∈ ks, usualVerb k ∉ [.killRight, .killAll, .exchange, .older, .newer]) →
        hint = if p.text = [] then [] else (strippedRest (ps.reverse.map Page.text) p.text).map Char.toNat) ∧
      Dialogue usualSign E.cfg adv (roomsOf usualSign E.cfg w) v (v.run adv (bytesOf E.cfg o)) 1 ps := by
  obtain ⟨ps, p, r, o, hint, h1, h2, h3, h4, h5, h6⟩ := C83_partial (E := foreseeing E) (D := guessDesk up) (keep := fun _ => true) (keepC := fun _ => true)
    (fun _ => rfl) rfl (guess_desk h) (guess_console h) (guess_legible h) (guess_never (.inl rfl) h) h.inside h.clear ha hn
  have hc : usualSign.columns (foreseeing E).cfg = 2 := usual_columns h.agrees h.ascii
  rw [hc, show s.termWidth - 2 - 3 = s.termWidth - 5 by omega] at h4
  refine ⟨ps, p, r, o, hint, h1, h2, h3, h4, fun hf => ?_, h6⟩
  rw [h5 (.inr hf)]
  have hh : heard (fun _ => true) ps = ps.reverse.map Page.text := List.filter_eq_self.mpr fun _ _ => rfl
  rw [hh]
  unfold Page.offer
  by_cases h0 : p.text = []
  · rw [if_pos h0, if_pos (.inr h0)]; rfl
  · rw [if_neg h0, if_neg (by rintro (hx | hx); cases hx; exact h0 hx)]
    rfl

/-- **When it has ended** with Ctrl-C or Ctrl-D: the cursor is in an empty row; above it stands `ERR=^C` or `ERR=EOF`, then the row of the line
that was given up, which Ctrl-C has emptied unless a key has left an old prediction; then the dialogue. -/
theorem C84_end_partial (h : GuessTable E w up clip ks adv v) {x : Container × RLErr × World} (hx : main160 E w = .ok x) (he : ∀ e, x.2.1 ≠ .tty e) :
    ∃ o a p, parting (guessDesk up) (fun _ => true) [] (ks.length + 1) [] 0 clip ks = (a, p) ∧
      (a = .interrupted ∧ x.2.1 = .ctrlC ∨ a = .closed ∧ x.2.1 = .eof) ∧
      x.2.2.out = w.out ++ o ∧ (v.run adv (bytesOf E.cfg o)).mode = .ground ∧ (v.run adv (bytesOf E.cfg o)).col = 0 ∧
      (∀ x, (v.run adv (bytesOf E.cfg o)).cells (v.run adv (bytesOf E.cfg o)).row x = none) ∧
      Above adv (v.run adv (bytesOf E.cfg o)) 1 [farewellLine a] ∧
      (∃ room l m, roomsOf usualSign E.cfg w room ∧ (l = p.text ∧ m = p.left.length ∨ a = .interrupted ∧ l = [] ∧ m = 0) ∧
        ((∀ k ∈ ks, usualVerb k ∉ [.killRight, .killAll, .exchange, .older, .newer]) → l = if a = .interrupted then [] else p.text) ∧
        RowShows usualSign E.cfg adv (v.run adv (bytesOf E.cfg o)) ((v.run adv (bytesOf E.cfg o)).row - 2) room (l.map Char.toNat) m) ∧
      Dialogue usualSign E.cfg adv (roomsOf usualSign E.cfg w) v (v.run adv (bytesOf E.cfg o)) 3 (leaves (guessDesk up) (fun _ => true) [] (ks.length + 1) [] [] 0 clip ks) := by
  obtain ⟨o, a, p, h1, h2, h3, h4, h5, h6, h7, ⟨room, l, m, j1, ⟨j2, j3⟩, j4⟩, h9⟩ := C83_end_partial (E := foreseeing E) (D := guessDesk up)
    (keep := fun _ => true) (keepC := fun _ => true)
    (fun _ => rfl) rfl (guess_desk h) (guess_console h) (by have := h.room; have := h.wide; omega) (guess_legible h) (guess_never (.inl rfl) h) h.inside h.clear hx he
  refine ⟨o, a, p, h1, h2, h3, h4, h5, h6, h7, ⟨room, l, m, j1, j2.imp id fun x => x.2, fun hf => ?_, j4⟩, h9⟩
  have := j3 (.inr hf)
  by_cases hi : a = .interrupted
  · rw [if_pos ⟨rfl, hi⟩] at this
    rw [if_pos hi, this]
  · rw [if_neg fun hx => hi hx.2] at this
    rw [if_neg hi, this]

/-- **Every page** is shown: whatever page the textbook's program comes to before a key, the program is in a state with it. -/
theorem C84_pages_partial (h : GuessTable E w up clip ks adv v) {ps : List Page} {p : Page} {k : List Char} {r : List (List Char)}
    (ho : Opened (guessDesk up) (fun _ => true) [] [] [] 0 clip ks ps p (k :: r)) :
    ∃ s, Midst (foreseeing E) (fun _ => true) {} w s ∧ noResize s.input ≠ [] ∧ keysIn s.input = (k :: r).map utf8 ∧ s.text = utf8 p.text ∧
      s.cursor = (p.left.length : Int) := by
  obtain ⟨s, h1, h2, h3⟩ := opened_midst (E := foreseeing E) (keep := fun _ => true) (c := {}) (fun _ => rfl) ho (guess_desk h)
  exact ⟨s, h1, upcoming_awaits h2, h2.keys, h3⟩

section
open Example

/-- `" 世a "`; then `世`, made longer by what is predicted; then `z`, given up. -/
def guessKeys : List (List Char) := [" ", "世", "a", " ", "\r", "世", "\x06", "\r", "z", "\x03"].map String.toList

theorem guessKeys_ready : GuessTable (env table) { termWidth := 11, input := guessKeys.map fun k => .key (utf8 k) } id none guessKeys (plainColumns table)
    { fourRows with width := 11 } := by
  have h := shown_console (ks := []) (evs := []) (by simp) (by simp) (by simp)
  refine ⟨fun _ => rfl, rfl, rfl, rfl, (fun u hu => by cases hu), by decide +kernel, (by intro x hx; simp at hx), by decide +kernel, ?_, .inr (by decide +kernel), ?_,
    table_agrees, h.ascii, h.width, h.zwj, by decide, by decide, (by intro x hx; simp at hx), rfl, by decide, by decide, ?_⟩
  · have : ∀ k ∈ guessKeys, (usualVerb k = .type k ∧ ∀ c ∈ k, 0x20 ≤ c.toNat ∧ (c.toNat < 0x7F ∨ 0x9F < c.toNat)) ∨
        usualVerb k ∈ [.enter, .right, .interrupt] := by decide +kernel
    intro k hk
    rcases this k hk with ⟨h1, h2⟩ | h1
    · exact .inl ⟨h1, fun c hc => ⟨table_plain (h2 c hc).2 (by have := (h2 c hc).1; omega), (h2 c hc).1⟩⟩
    · right
      simp only [List.mem_cons, List.not_mem_nil, or_false] at h1
      rcases h1 with h1 | h1 | h1 <;> rw [h1] <;> exact ⟨(fun u hu => by cases hu), by decide⟩
  · intro k hk c hc
    have : ∀ k ∈ guessKeys, ∀ c ∈ k.head?, (c.toNat < 0x7F ∨ 0x9F < c.toNat) ∧ c.toNat ≠ 9 := by decide +kernel
    exact .inr (table_plain (this k hk c hc).1 (this k hk c hc).2)
  · intro y hy x
    have hy : (3 : Int) < y := hy
    show (if y = 3 ∧ x = 0 then some (0x24, 0) else none) = none
    rw [if_neg (by omega)]

/-- What the textbook foresees. -/
example : strippedRest [" 世a ".toList, "x".toList] "世".toList = ['a'] ∧ strippedRest ["make all".toList] "  ".toList = "make all".toList ∧
    notebook (guessDesk id) (fun _ => true) [] 11 [] 0 none guessKeys = ([" 世a ".toList, "世a".toList], .interrupted) := by decide +kernel

def guessRows (o : List Tok) : List (List (Option (Char × Int))) :=
  let v := ({ fourRows with width := 11 } : Vt).run (plainColumns table) (bytesOf table o)
  (List.range 9).map fun (k : Nat) => (List.range 10).map fun (i : Nat) => (v.cells (v.row - k) i).map fun c => (Char.ofNat c.1, c.2)

/-- The rows in the end, from the cursor upwards: the `z` is gone. -/
example : (match main160 (env table) { termWidth := 11, input := guessKeys.map fun k => .key (utf8 k) } with
    | .ok x => (x.1.buffer, guessRows x.2.2.out)
    | .error _ => ([], [])) =
    ([" 世a ", "世a"].map b,
     [[none, none, none, none, none, none, none, none, none, none],
      [some ('E', 0), some ('R', 0), some ('R', 0), some ('=', 0), some ('^', 0), some ('C', 0), none, none, none, none],
      [some ('>', 0), some (' ', 0), none, none, none, none, none, none, none, none],
      [none, none, none, none, none, none, none, none, none, none],
      [some ('T', 0), some ('E', 0), some ('X', 0), some ('T', 0), some ('=', 0), some ('世', 0), some ('世', 1), some ('a', 0), none, none],
      [some ('>', 0), some (' ', 0), some ('世', 0), some ('世', 1), some ('a', 0), none, none, none, none, none],
      [none, none, none, none, none, none, none, none, none, none],
      [some ('T', 0), some ('E', 0), some ('X', 0), some ('T', 0), some ('=', 0), some (' ', 0), some ('世', 0), some ('世', 1), some ('a', 0), some (' ', 0)],
      [some ('>', 0), some (' ', 0), some (' ', 0), some ('世', 0), some ('世', 1), some ('a', 0), some (' ', 0), none, none, none]]) := by decide +kernel

/-- While `世` is typed, `a` stands behind it. -/
example : (match readLine { foreseeing (env table) with history := [b " 世a "] } { termWidth := 11, input := [.key (b "世")] } with
    | .ok (s, _) => (guessRows s.out)[0]?
    | .error _ => none) = some [some ('>', 0), some (' ', 0), some ('世', 0), some ('世', 1), some ('a', 0), none, none, none, none, none] := by decide +kernel

/-- **The line that is given up** stays in its row or not as the keys before it were: `a` fetched with Ctrl-P stays, `a` typed goes. -/
theorem C84_refuted :
    (match main160 (env table) { termWidth := 11, input := ["a", "\r", "\x10", "\x03"].map fun k => .key (b k) } with
    | .ok x => (guessRows x.2.2.out)[2]?
    | .error _ => none) = some [some ('>', 0), some (' ', 0), some ('a', 0), none, none, none, none, none, none, none] ∧
    (match main160 (env table) { termWidth := 11, input := ["a", "\r", "a", "\x03"].map fun k => .key (b k) } with
    | .ok x => (guessRows x.2.2.out)[2]?
    | .error _ => none) = some [some ('>', 0), some (' ', 0), none, none, none, none, none, none, none, none] := by decide +kernel

end

end Readline

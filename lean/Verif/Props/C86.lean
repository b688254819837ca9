import Verif.Proof.Lone
import Verif.Proof.Sign
import Verif.Props.C85
/-!
# C86: the programs that read one line

examples/example1.go, examples/example4.go and completion/example.go from the keys to the rows of the terminal, and what the key that starts a text
editor does.
-/
namespace Readline
open Spec

variable {E : Env} {w : World} {clip : Option (List Char)} {ks : List (List Char)} {adv : Rune → Int} {v : Vt}
  {up : List Char → List Char} {edit : Bytes → Option Bytes}

/-- What the program is given: a table of widths, keys, and a clipboard, all of ordinary characters that are printable. -/
structure Spec.LoneTable (E : Env) (w : World) (up : List Char → List Char) (clip : Option (List Char)) (ks : List (List Char)) (adv : Rune → Int)
    (v : Vt) : Prop where
  upper : ∀ t, E.toUpper (utf8 t) = utf8 (up t)
  clipSet : E.clipSet = fun _ t => some t
  cursor : w.cursor = 0
  clipboard : w.clip = clip.map utf8
  clipText : ∀ u, clip = some u → ∀ c ∈ u, Readable E.cfg c.toNat
  keys : keysIn w.input = ks.map utf8
  noErr : NoErr w.input
  full : ∀ k ∈ ks, k ≠ []
  /-- what is typed can be printed; the others are keys other than Ctrl-L, Ctrl-Q, Ctrl-V and Ctrl-T -/
  typed : ∀ k ∈ ks, (usualVerb k = .type k ∧ ∀ c ∈ k, Readable E.cfg c.toNat) ∨
    ((∀ u, usualVerb k ≠ .type u) ∧ usualVerb k ∉ [.redraw, .literally, .exchange])
  begins : ∀ k ∈ ks, ∀ c ∈ k.head?, isControlRune c.toNat = true ∨ Plain E.cfg c.toNat
  agrees : AgreesPlain E.cfg adv
  ascii : ∀ r, 0x20 ≤ r → r ≤ 0x7E → Plain E.cfg r
  width : ∀ r, 0 ≤ E.cfg.width r
  zwj : ∀ a b, 0 ≤ a → 0 ≤ b → 0 ≤ E.cfg.zwjWidth a b
  room : 7 < w.termWidth
  wide : w.termWidth ≤ v.width
  resized : ∀ n, .resize n ∈ w.input → 7 < n ∧ n ≤ v.width
  ground : v.mode = .ground
  col : 0 ≤ v.col
  inside : v.row < v.height
  clear : Clear v

/-- The desk of the three programs: no history, no predictions. -/
def Spec.loneDesk (up : List Char → List Char) : Desk :=
  { history := [], cycling := false, guessing := false, marks := ['"', '\''], upper := up, verb := usualVerb }

/-- `> ` at the beginning of the row, examples/example4.go:67. -/
def Spec.backSign : Sign := posterSign .back [.letter '>', .letter ' ']

theorem lone_desk (h : LoneTable E w up clip ks adv v) : PlainDesk (bareEditor E) w (loneDesk up) [] 0 clip ks :=
  Spec.UsualDesk.desk {
    keyMap := rfl
    globalKeyMap := rfl
    verb := rfl
    history := rfl
    cycling := rfl
    guessing := by
      show decide (([] : Bytes) ≠ []) = false
      decide
    predictor := foresees_usual rfl rfl
    plainGuess := within_newest rfl _
    prompt := rfl
    marks := by show ([0x22, 0x27] : List Rune) = ['"', '\''].map Char.toNat; decide +kernel
    noNul := by show '\x00' ∉ ['"', '\'']; decide
    upper := h.upper
    clipSet := h.clipSet
    default := rfl
    cursor := h.cursor
    clipboard := h.clipboard
    keys := h.keys
    noErr := h.noErr
    full := h.full
    plain := by
      rintro u (rfl | hu | hu) c hc
      · cases hc
      · cases hu
      · exact (h.clipText u hu c hc).1
    plainTyped := by
      intro k hk hu c hc
      rcases h.typed k hk with ⟨-, h2⟩ | ⟨h1, -⟩
      · exact (h2 c hc).1
      · exact absurd hu (h1 k)
    plainLiteral := by
      rintro ⟨k, hk, hx⟩
      rcases h.typed k hk with ⟨h1, -⟩ | ⟨-, h2⟩
      · rw [hx] at h1; cases h1
      · exact absurd (hx ▸ by simp) h2
    quote := h.ascii _ (by decide) (by decide)
    fresh := .inl rfl
    room := h.room
    resized := fun n hn => (h.resized n hn).1 }

theorem lone_never {x : Verb} (hx : x = .redraw ∨ x = .literally ∨ x = .exchange) (h : LoneTable E w up clip ks adv v) : ∀ k ∈ ks, usualVerb k ≠ x := by
  intro k hk e
  rcases h.typed k hk with ⟨h1, -⟩ | ⟨-, h2⟩
  · rw [e] at h1; subst h1; rcases hx with hx | hx | hx <;> cases hx
  · exact h2 (by rw [e]; rcases hx with rfl | rfl | rfl <;> simp)

theorem lone_console (h : LoneTable E w up clip ks adv v) : Console usualSign (bareEditor E) w (loneDesk up) [] clip ks adv v where
  promptErr := rfl
  colourOn := .inl rfl
  colourOff := .inl rfl
  agrees := h.agrees
  ascii := h.ascii
  width := h.width
  zwj := h.zwj
  begins := h.begins
  narrow := fun ⟨k, hk, hx⟩ => absurd hx (lone_never (.inr (.inr rfl)) h k hk)
  narrowGuess := fun _ => within_newest rfl _
  ground := h.ground
  col := h.col
  sign := usual_sign h.agrees h.ascii rfl (by have := h.room; have := h.wide; omega)
  start := .inl rfl
  wide := h.wide
  resized := fun n hn => (h.resized n hn).2

theorem lone_legible (h : LoneTable E w up clip ks adv v) : Legible (loneDesk up) [] clip ks where
  texts := by
    rintro u (rfl | hu | hu) c hc
    · cases hc
    · cases hu
    · exact (h.clipText u hu c hc).2
  typed := by
    intro k hk u hu c hc
    have hu : usualVerb k = .type u := hu
    rcases h.typed k hk with ⟨h1, h2⟩ | ⟨h1, -⟩
    · have : Verb.type u = .type k := hu.symm.trans h1
      injection this with e
      exact (h2 c (e ▸ hc)).2
    · exact absurd hu (h1 u)
  literal := lone_never (.inr (.inl rfl)) h
  guess := within_newest rfl _

theorem back_columns (h : LoneTable E w up clip ks adv v) : backSign.columns E.cfg = 2 := by
  have hone : ∀ r, 0x20 ≤ r → r ≤ 0x7E → plainColumns E.cfg r = 1 := by
    intro r h1 h2
    rw [← h.agrees.plain r (h.ascii _ h1 h2) h1 (by unfold Padded; omega)]
    exact h.agrees.ascii _ h1 h2
  show plainColumns E.cfg 0x3E + (plainColumns E.cfg 0x20 + 0) = 2
  rw [hone _ (by decide) (by decide), hone _ (by decide) (by decide)]
  rfl

theorem back_sign (h : LoneTable E w up clip ks adv v) : backSign.Of (promptedEditor E) adv v.width := by
  refine poster_sign (E := promptedEditor E) h.agrees (l := .back) (ss := [.letter '>', .letter ' ']) ?_ ?_ ?_
  · show some (fun _ => _) = some (fun _ => _)
    have : poster .back [.letter '>', .letter ' '] = [0x0D, 0x3E, 0x20] := by decide +kernel
    rw [this]
  · intro s hs
    simp only [List.mem_cons, List.not_mem_nil, or_false] at hs
    rcases hs with rfl | rfl
    · exact ⟨h.ascii _ (by decide) (by decide), by decide, by unfold Padded; simp⟩
    · exact ⟨h.ascii _ (by decide) (by decide), by decide, by unfold Padded; simp⟩
  · have := back_columns h
    have h1 := h.room
    have h2 := h.wide
    show backSign.columns E.cfg ≤ v.width
    omega

theorem back_desk (h : LoneTable E w up clip ks adv v) : PlainDesk (promptedEditor E) w (loneDesk up) [] 0 clip ks where
  builtin := (lone_desk h).builtin
  noCompletion := (lone_desk h).noCompletion
  means := (lone_desk h).means
  history := rfl
  cycling := rfl
  guessing := (lone_desk h).guessing
  predictor := foresees_usual rfl rfl
  plainGuess := within_newest rfl _
  top := .inl rfl
  prompt := fun _ => rfl
  marks := (lone_desk h).marks
  noNul := (lone_desk h).noNul
  upper := h.upper
  clipSet := h.clipSet
  default := rfl
  cursor := h.cursor
  clipboard := h.clipboard
  keys := h.keys
  noErr := h.noErr
  full := h.full
  plain := (lone_desk h).plain
  plainTyped := (lone_desk h).plainTyped
  plainLiteral := (lone_desk h).plainLiteral
  quote := h.ascii _ (by decide) (by decide)
  fresh := .inl rfl
  room := by
    rw [(back_sign h).width, show (promptedEditor E).cfg = E.cfg from rfl, back_columns h]
    exact h.room
  resized := fun n hn => by
    rw [(back_sign h).width, show (promptedEditor E).cfg = E.cfg from rfl, back_columns h]
    exact (h.resized n hn).1

theorem back_console (h : LoneTable E w up clip ks adv v) (hv : v.col = 0) :
    Console backSign (promptedEditor E) w (loneDesk up) [] clip ks adv v where
  promptErr := rfl
  colourOn := .inl rfl
  colourOff := .inl rfl
  agrees := h.agrees
  ascii := h.ascii
  width := h.width
  zwj := h.zwj
  begins := h.begins
  narrow := fun ⟨k, hk, hx⟩ => absurd hx (lone_never (.inr (.inr rfl)) h k hk)
  narrowGuess := fun _ => within_newest rfl _
  ground := h.ground
  col := h.col
  sign := back_sign h
  start := .inr hv
  wide := h.wide
  resized := fun n hn => (h.resized n hn).2

/-! ## Keys that are not pressed -/

/-- The states of a call do not depend on bindings of keys that are not pressed. -/
theorem reachable_unbound {E : Env} {km : KeyMap} (hb : BuiltinKeys E) {w : World}
    (hl : ∀ k, .key k ∈ w.input → lookupCommand { E with keyMap := km } k = lookupCommand E k) {s : St} :
    Reachable { E with keyMap := km } w s ↔ Reachable E w s := by
  constructor
  · intro h
    refine (?_ : Reachable E w s ∧ ∀ e ∈ s.input, e ∈ w.input).1
    induction h with
    | start h => exact ⟨.start h, by rw [startSt_input (E := E) h]; exact fun e h => h⟩
    | @step s s' hr hs ih =>
      have hs : step E s = .ok (s', none) := by
        rw [← hs]
        exact (step_unbound fun k hk => hl k (ih.2 _ hk)).symm
      obtain ⟨ev, rest, h1, h2⟩ := step_sublist hb hs
      exact ⟨.step ih.1 hs, fun e he => ih.2 e (by rw [h1]; exact List.mem_cons_of_mem _ (h2.subset he))⟩
  · intro h
    refine (?_ : Reachable { E with keyMap := km } w s ∧ ∀ e ∈ s.input, e ∈ w.input).1
    induction h with
    | start h => exact ⟨.start h, by rw [startSt_input (E := E) h]; exact fun e h => h⟩
    | @step s s' hr hs ih =>
      have hs' : step { E with keyMap := km } s = .ok (s', none) := by
        rw [← hs]
        exact step_unbound fun k hk => hl k (ih.2 _ hk)
      obtain ⟨ev, rest, h1, h2⟩ := step_sublist hb hs
      exact ⟨.step ih.1 hs', fun e he => ih.2 e (by rw [h1]; exact List.mem_cons_of_mem _ (h2.subset he))⟩

theorem pressed {k : List Char} {b : Bytes} (h : LoneTable E w up clip ks adv v) (hb : b = utf8 k) (hk : k ∉ ks) : .key b ∉ w.input := by
  intro hx
  have : b ∈ keysIn w.input := mem_keysIn.mp hx
  rw [h.keys] at this
  obtain ⟨q, hq, e⟩ := List.mem_map.mp this
  rw [hb] at e
  exact hk (utf8_injective e ▸ hq)

theorem editing_lookup (h : LoneTable E w up clip ks adv v) (hk : ['\x1b'] ∉ ks) :
    ∀ k, .key k ∈ w.input → lookupCommand (editingEditor edit E) k = lookupCommand (promptedEditor E) k := by
  intro k hx
  have hne : k ≠ [0x1B] := by rintro rfl; exact pressed h (by decide +kernel) hk hx
  show lookupCommand { promptedEditor E with keyMap := _ } k = _
  simp only [lookupCommand, KeyMap.lookup, hne, if_false]

theorem lone_noTab (h : LoneTable E w up clip ks adv v) : ['\t'] ∉ ks := by
  intro hk
  have hv : usualVerb ['\t'] = .type ['\t'] := by decide +kernel
  rcases h.typed _ hk with ⟨-, h2⟩ | ⟨h1, -⟩
  · have := (h2 '\t' (by simp)).2
    revert this
    decide
  · exact h1 _ hv

theorem files_lookup {U : Uni} {rd : ReadDir} {box : List Bytes → Bytes} (h : LoneTable E w up clip ks adv v) :
    ∀ k, .key k ∈ w.input → lookupCommand (bindFiles U rd [] (some box) [0x09] (bareEditor E)) k = lookupCommand (bareEditor E) k := by
  intro k hx
  have hne : k ≠ [0x09] := by rintro rfl; exact pressed h (by decide +kernel) (lone_noTab h) hx
  show lookupCommand { bareEditor E with keyMap := _ } k = _
  simp only [lookupCommand, KeyMap.lookup, hne, if_false]

theorem editing_reads (h : LoneTable E w up clip ks adv v) (hk : ['\x1b'] ∉ ks) : readLine (editingEditor edit E) w = readLine (promptedEditor E) w :=
  readLine_unbound (E := promptedEditor E) (back_desk h).builtin (editing_lookup h hk)

theorem files_reads {U : Uni} {rd : ReadDir} {box : List Bytes → Bytes} (h : LoneTable E w up clip ks adv v) :
    readLine (bindFiles U rd [] (some box) [0x09] (bareEditor E)) w = readLine (bareEditor E) w :=
  readLine_unbound (E := bareEditor E) (lone_desk h).builtin (files_lookup h)

/-! ## What is printed -/

theorem verdict_told {a : Ending} {r : RLRes} (ha : a.answer = some r) (he : ∀ e, r.err ≠ .tty e) : verdict r = utf8 (a.told ['='] ++ ['\n']) := by
  cases a with
  | entered l =>
    cases ha
    show ([0x54, 0x45, 0x58, 0x54, 0x3D] : Bytes) ++ utf8 l ++ [0x0A] = utf8 ("TEXT".toList ++ ['='] ++ l ++ ['\n'])
    rw [utf8_append, utf8_append, show utf8 ("TEXT".toList ++ ['=']) = [0x54, 0x45, 0x58, 0x54, 0x3D] by decide +kernel, show utf8 ['\n'] = [0x0A] by decide +kernel]
  | interrupted => cases ha; decide +kernel
  | closed => cases ha; decide +kernel
  | starved => cases ha; exact absurd rfl (he _)
  | crashed => cases ha

theorem verdictErr_told {a : Ending} {r : RLRes} (ha : a.answer = some r) (he : ∀ e, r.err ≠ .tty e) :
    verdictErr r = utf8 (a.told [':', ' '] ++ ['\n']) := by
  cases a with
  | entered l =>
    cases ha
    show ([0x54, 0x45, 0x58, 0x54, 0x3A, 0x20] : Bytes) ++ utf8 l ++ [0x0A] = utf8 ("TEXT".toList ++ [':', ' '] ++ l ++ ['\n'])
    rw [utf8_append, utf8_append, show utf8 ("TEXT".toList ++ [':', ' ']) = [0x54, 0x45, 0x58, 0x54, 0x3A, 0x20] by decide +kernel, show utf8 ['\n'] = [0x0A] by decide +kernel]
  | interrupted => cases ha; decide +kernel
  | closed => cases ha; decide +kernel
  | starved => cases ha; exact absurd rfl (he _)
  | crashed => cases ha

/-- What is said about the line can be printed. -/
theorem told_readable {S : Sign} {F : Env} {sep : List Char} {a : Ending} {s : St} {r : RLRes} (hd : PlainDesk F w (loneDesk up) [] 0 clip ks)
    (hg : Legible (loneDesk up) [] clip ks) (hC : Console S F w (loneDesk up) [] clip ks adv v) (hs : ∀ c ∈ sep, 0x20 ≤ c.toNat ∧ c.toNat ≤ 0x7E)
    (hrl : readLine F w = .ok (s, r)) (ha : a.answer = some r) : ∀ c ∈ a.told sep, Readable F.cfg c.toNat := by
  have ok : ∀ c : Char, 0x20 ≤ c.toNat ∧ c.toNat ≤ 0x7E → Readable F.cfg c.toNat := fun c hc => ⟨hC.ascii _ hc.1 hc.2, hc.1⟩
  have capitals : ∀ c : Char, c ∈ "TEXT".toList ∨ c ∈ "ERR".toList → 0x20 ≤ c.toNat ∧ c.toNat ≤ 0x7E := by
    have h1 : ∀ c ∈ "TEXT".toList ++ "ERR".toList, 0x20 ≤ c.toNat ∧ c.toNat ≤ 0x7E := by decide +kernel
    exact fun c hc => h1 c (List.mem_append.mpr hc)
  have okT : ∀ c ∈ "TEXT".toList ++ sep, Readable F.cfg c.toNat := by
    intro c hc
    rcases List.mem_append.mp hc with hc | hc
    · exact ok c (capitals c (.inl hc))
    · exact ok c (hs c hc)
  have okE : ∀ x : List Char, (∀ c ∈ x, 0x20 ≤ c.toNat ∧ c.toNat ≤ 0x7E) → ∀ c ∈ "ERR".toList ++ sep ++ x, Readable F.cfg c.toNat := by
    intro x hx c hc
    rcases List.mem_append.mp hc with hc | hc
    · rcases List.mem_append.mp hc with hc | hc
      · exact ok c (capitals c (.inr hc))
      · exact ok c (hs c hc)
    · exact ok c (hx c hc)
  cases a with
  | entered l =>
    intro c hc
    rcases List.mem_append.mp hc with hc | hc
    · exact okT c hc
    · have ha : (⟨utf8 l, .nil⟩ : RLRes) = r := by injection ha
      obtain ⟨l', p, rest, g1, g2, -, g4, -, -, g7, -⟩ := line_entered hd.setting hrl (by rw [← ha])
      have hl : l' = l := utf8_injective (by rw [← g2, ← ha])
      exact (legible_next (keep := fun _ => true) hd hg hrl g2 g4 g7).1 c (hl ▸ hc)
  | interrupted => exact okE _ (by decide +kernel)
  | closed => exact okE _ (by decide +kernel)
  | starved => intro c hc; cases hc
  | crashed => intro c hc; cases hc

/-- The line and what is said about it. -/
theorem lone_told {S : Sign} {F : Env} {s : St} {r : RLRes} (hd : PlainDesk F w (loneDesk up) [] 0 clip ks)
    (hC : Console S F w (loneDesk up) [] clip ks adv v) (hl : ∀ k ∈ ks, usualVerb k ≠ .redraw) (hlf : F.lineFeed = none) (hv : v.row < v.height) (hcl : Clear v)
    (hrl : readLine F w = .ok (s, r)) (he : ∀ e, r.err ≠ .tty e) (f : Ending → List (List Char))
    (hf : ∀ a, a.answer = some r → ∀ x ∈ f a, ∀ c ∈ x, Readable F.cfg c.toNat) :
    ∃ a p rest o, oneLine (loneDesk up) [] 0 clip ks = (a, p, rest) ∧ a.answer = some r ∧
      s.out ++ (f a).map (fun x => .lit (utf8 (x ++ ['\n']))) = w.out ++ o ∧ LoneRows S F.cfg adv (roomsOf S F.cfg w) v (v.run adv (bytesOf F.cfg o)) p (f a) := by
  obtain ⟨a, p, rest, -, h1, h2, -⟩ := lone_rows (rooms := roomsOf S F.cfg w) hd hC hl hlf rfl hv hcl roomsOf_all hrl he [] (by simp)
  obtain ⟨a', p', rest', o, g1, g2, g3, g4⟩ := lone_rows (rooms := roomsOf S F.cfg w) hd hC hl hlf rfl hv hcl roomsOf_all hrl he (f a) (hf a h2)
  obtain ⟨rfl, rfl, rfl⟩ : a = a' ∧ p = p' ∧ rest = rest' := by
    rw [h1] at g1
    injection g1 with g1 g1'
    injection g1' with g1' g1''
    exact ⟨g1, g1', g1''⟩
  exact ⟨a, p, rest, o, h1, h2, g3, g4⟩

/-! ## The programs -/

/-- **examples/example1.go**: the program does not fail, and the line it reads is that of the textbook. -/
theorem C86_partial (h : LoneTable E w up clip ks adv v) :
    ∃ r w', main1 E w = .ok (r, w') ∧ (textbook (loneDesk up) [] 0 clip ks).answer = some r := by
  obtain ⟨s, r, h1, h2⟩ := C80_result_partial (lone_desk h) (lone_never (.inr (.inr rfl)) h)
  exact ⟨r, _, by unfold main1; rw [h1]; rfl, h2⟩

/-- In the end the line stands behind its prompt, and below it what the program says about it. -/
theorem C86_rows_partial (h : LoneTable E w up clip ks adv v) {r : RLRes} {w' : World} (hm : main1 E w = .ok (r, w')) (he : ∀ e, r.err ≠ .tty e) :
    ∃ a p rest o, oneLine (loneDesk up) [] 0 clip ks = (a, p, rest) ∧ a.answer = some r ∧ w'.out = w.out ++ o ∧
      LoneRows usualSign E.cfg adv (roomsOf usualSign E.cfg w) v (v.run adv (bytesOf E.cfg o)) p [a.told ['=']] := by
  unfold main1 at hm
  obtain ⟨⟨s, r'⟩, hrl, hm⟩ := bind_ok.mp hm
  cases hm
  obtain ⟨a, p, rest, o, h1, h2, g3, g4⟩ := lone_told (lone_desk h) (lone_console h) (lone_never (.inl rfl) h) rfl h.inside h.clear hrl he
    (fun a => [a.told ['=']]) fun a ha x hx => by
      rw [List.mem_singleton.mp hx]
      exact told_readable (lone_desk h) (lone_legible h) (lone_console h) (by decide) hrl ha
  refine ⟨a, p, rest, o, h1, h2, ?_, g4⟩
  rw [← g3]
  show s.out ++ [.lit (verdict r)] = _
  rw [verdict_told h2 he]
  rfl

/-- **completion/example.go** without the Tab key. -/
theorem C86_files_partial {U : Uni} {rd : ReadDir} {box : List Bytes → Bytes} (h : LoneTable E w up clip ks adv v) :
    ∃ r w', mainFiles U rd box E w = .ok (r, w') ∧ (textbook (loneDesk up) [] 0 clip ks).answer = some r ∧
      ((∀ e, r.err ≠ .tty e) → ∃ a p rest o, oneLine (loneDesk up) [] 0 clip ks = (a, p, rest) ∧ a.answer = some r ∧ w'.out = w.out ++ o ∧
        LoneRows usualSign E.cfg adv (roomsOf usualSign E.cfg w) v (v.run adv (bytesOf E.cfg o)) p [a.told [':', ' ']]) := by
  obtain ⟨s, r, hrl, h2⟩ := C80_result_partial (lone_desk h) (lone_never (.inr (.inr rfl)) h)
  refine ⟨r, _, by unfold mainFiles; rw [files_reads h, hrl]; rfl, h2, fun he => ?_⟩
  obtain ⟨a, p, rest, o, h1, h2, g3, g4⟩ := lone_told (lone_desk h) (lone_console h) (lone_never (.inl rfl) h) rfl h.inside h.clear hrl he
    (fun a => [a.told [':', ' ']]) fun a ha x hx => by
      rw [List.mem_singleton.mp hx]
      exact told_readable (lone_desk h) (lone_legible h) (lone_console h) (by decide) hrl ha
  refine ⟨a, p, rest, o, h1, h2, ?_, g4⟩
  rw [← g3]
  show s.out ++ [.lit (verdictErr r)] = _
  rw [verdictErr_told h2 he]
  rfl

/-- **examples/example4.go** without the Escape key, on a terminal whose cursor is at the beginning of a row. -/
theorem C86_editor_partial (h : LoneTable E w up clip ks adv v) (hv : v.col = 0) (hk : ['\x1b'] ∉ ks) :
    ∃ r w', main4 edit E w = .ok (r, w') ∧ (textbook (loneDesk up) [] 0 clip ks).answer = some r ∧
      ((∀ e, r.err ≠ .tty e) → ∃ a p rest o, oneLine (loneDesk up) [] 0 clip ks = (a, p, rest) ∧ a.answer = some r ∧ w'.out = w.out ++ o ∧
        LoneRows backSign E.cfg adv (roomsOf backSign E.cfg w) v (v.run adv (bytesOf E.cfg o)) p ["ENTER_STATUS=0".toList, a.told ['=']]) := by
  obtain ⟨s, r, hrl, h2⟩ := C80_result_partial (back_desk h) (lone_never (.inr (.inr rfl)) h)
  refine ⟨r, _, by unfold main4; rw [editing_reads h hk, hrl]; rfl, h2, fun he => ?_⟩
  obtain ⟨a, p, rest, o, h1, h2, g3, g4⟩ := lone_told (back_desk h) (back_console h hv) (lone_never (.inl rfl) h) rfl h.inside h.clear hrl he
    (fun a => ["ENTER_STATUS=0".toList, a.told ['=']]) fun a ha x hx => by
      simp only [List.mem_cons, List.not_mem_nil, or_false] at hx
      rcases hx with rfl | rfl
      · intro c hc
        have : ∀ c ∈ "ENTER_STATUS=0".toList, 0x20 ≤ c.toNat ∧ c.toNat ≤ 0x7E := by decide +kernel
        exact ⟨h.ascii _ (this c hc).1 (this c hc).2, (this c hc).1⟩
      · exact told_readable (back_desk h) (lone_legible h) (back_console h hv) (by decide) hrl ha
  refine ⟨a, p, rest, o, h1, h2, ?_, g4⟩
  rw [← g3]
  show (s.out ++ [.lit statusLine]) ++ [.lit (verdict r)] = _
  rw [verdict_told h2 he, show statusLine = utf8 ("ENTER_STATUS=0".toList ++ ['\n']) by decide +kernel, List.append_assoc]
  rfl

/-- **Whenever the first or the last program waits for a key**: the page of the textbook. -/
theorem C86_waits_partial {U : Uni} {rd : ReadDir} {box : List Bytes → Bytes} (h : LoneTable E w up clip ks adv v) {s : St}
    (hr : Reachable (bareEditor E) w s ∨ Reachable (bindFiles U rd [] (some box) [0x09] (bareEditor E)) w s) (hn : noResize s.input ≠ []) :
    ∃ p k r o, Turned (loneDesk up) (opening (loneDesk up) [] 0 clip) ks p (k :: r) ∧ keysIn s.input = (k :: r).map utf8 ∧ s.out = w.out ++ o ∧
      ShowsPage usualSign E.cfg adv (v.run adv (bytesOf E.cfg o)) (s.termWidth - 5) p [] := by
  have hr : Reachable (bareEditor E) w s := hr.elim id fun hr => (reachable_unbound (E := bareEditor E) (lone_desk h).builtin (files_lookup h)).mp hr
  obtain ⟨p, k, r, o, hint, h1, h2, h3, h4, h5⟩ := C80_partial (lone_desk h) (lone_console h) hr hn
  have h5 := h5 (.inl rfl)
  rw [show p.offer (loneDesk up) = [] by unfold Page.offer; rw [if_pos (.inl rfl)]] at h5
  subst h5
  have hc : usualSign.columns (bareEditor E).cfg = 2 := usual_columns h.agrees h.ascii
  rw [hc, show s.termWidth - 2 - 3 = s.termWidth - 5 by omega] at h4
  exact ⟨p, k, r, o, h1, h2, h3, h4⟩

/-- **Whenever examples/example4.go waits for a key** and Escape was not pressed. -/
theorem C86_editing_partial (h : LoneTable E w up clip ks adv v) (hv : v.col = 0) (hk : ['\x1b'] ∉ ks) {s : St}
    (hr : Reachable (editingEditor edit E) w s) (hn : noResize s.input ≠ []) :
    ∃ p k r o, Turned (loneDesk up) (opening (loneDesk up) [] 0 clip) ks p (k :: r) ∧ keysIn s.input = (k :: r).map utf8 ∧ s.out = w.out ++ o ∧
      ShowsPage backSign E.cfg adv (v.run adv (bytesOf E.cfg o)) (s.termWidth - 5) p [] := by
  have hr : Reachable (promptedEditor E) w s := (reachable_unbound (E := promptedEditor E) (back_desk h).builtin (editing_lookup h hk)).mp hr
  obtain ⟨p, k, r, o, hint, h1, h2, h3, h4, h5⟩ := C80_partial (back_desk h) (back_console h hv) hr hn
  have h5 := h5 (.inl rfl)
  rw [show p.offer (loneDesk up) = [] by unfold Page.offer; rw [if_pos (.inl rfl)]] at h5
  subst h5
  rw [show (promptedEditor E).cfg = E.cfg from rfl, back_columns h, show s.termWidth - 2 - 3 = s.termWidth - 5 by omega] at h4
  exact ⟨p, k, r, o, h1, h2, h3, h4⟩

/-! ## The key that starts a text editor -/

theorem same_tabless {s s' : St} (h9 : ∀ x ∈ s.buf, 9 ∉ x.moji.write) (h : Same s s') : ∀ x ∈ s'.buf, 9 ∉ x.moji.write := by
  intro x hx
  have hl : x.moji.norm ∈ s'.line := List.mem_map.mpr ⟨x, hx, rfl⟩
  rw [h.1] at hl
  obtain ⟨y, hy, e⟩ := List.mem_map.mp hl
  rw [← Moji.norm_write, ← e, Moji.norm_write]
  exact h9 y hy

theorem puts_tabless {s : St} (h9 : ∀ x ∈ s.buf, 9 ∉ x.moji.write) (lo hi : Int) :
    Wp (fun p => p.kind ≠ .tabPos) (puts E s lo hi) (fun _ => True) := by
  unfold puts
  refine Wp.bind ((slice_here.weaken fun _ hp => hp.1).mono fun _ _ _ => ?_)
  refine Wp.bind (Wp.mono (P := fun s' => Same s s') ?_ fun s1 _ h1 => ?_)
  · have hs := @refreshColor_same E s
    unfold refreshColor at *
    split
    · rename_i hx
      obtain ⟨x, hx, hp⟩ := List.any_eq_true.mp hx
      exfalso
      apply h9 x hx
      apply printPanics_nine
      unfold Cell.refreshPanics at hp
      split at hp
      · cases hp
      · simp only [Bool.and_eq_true] at hp; exact hp.2
    · rename_i hx
      rw [if_neg hx] at hs
      exact hs rfl
  · have h9' : ∀ x ∈ s1.buf, 9 ∉ x.moji.write := same_tabless h9 h1
    refine Wp.bind ((slice_here.weaken fun _ hp => hp.1).mono fun cs _ hcs => ?_)
    exact Wp.bind ((putsLoop_mild cs _ s1 fun x hx => h9' x (hcs x hx)).mono fun _ _ _ => trivial)

/-- Without tabs and predictions nothing goes wrong when the line is painted, if the cursor is in the view. -/
theorem repaint_tabless {s : St} (hp : E.predictColor.1 = []) (h9 : ∀ x ∈ s.buf, 9 ∉ x.moji.write) (hin : s.inside) : ∃ s', repaint E s = .ok s' := by
  have h2 : Wp (fun p => p.kind ≠ .tabPos) (repaint E s) (fun _ => True) := by
    unfold repaint updateSuffix
    rw [if_pos hp]
    unfold repaintNoSuffix
    refine Wp.bind ((getView2_here.weaken fun _ hp => hp.1).mono fun x _ _ => ?_)
    obtain ⟨n, w⟩ := x
    dsimp only
    refine Wp.bind (Wp.mono (puts_tabless (s := gotoHead s) h9 _ _) fun s1 hs1 _ => ?_)
    rw [if_neg (fun hx => hx.1 hp)]
    have h9' : ∀ x ∈ s1.buf, 9 ∉ x.moji.write := same_tabless (s := gotoHead s) h9 (puts_same hs1).1
    exact Wp.bind (Wp.pure (puts_tabless (s := gotoHead (eraseline s1)) h9' _ _))
  have h1 := repaint_wp E s hin
  cases hx : repaint E s with
  | ok s' => exact ⟨s', rfl⟩
  | error p =>
    rw [hx] at h1 h2
    exact absurd h1.1 h2

theorem own_act {a : Api} {f : Reply → Own} {s s' : St} {r : Reply} (h : a.run E s = .ok (s', r)) : (Own.act a f).run E s = (f r).run E s' := by
  rw [Own.run, h]
  rfl

/-- What the command does when the editor has given back a text. -/
theorem edited_run {E : Env} {s : St} {t : Bytes} (he : edit s.text = some t) :
    (startEditor edit).run E s = (do
      let s2 ← repaintAll E { s with
        buf := mojis2cells (stringToMoji E.cfg t), undoes := ⟨0, (mojis2cells (stringToMoji E.cfg t)).length, []⟩ :: s.undoes
        cursor := (stringToMoji E.cfg t).length }
      return (s2, Result.cont)) := by
  have hins : insertString E { s with buf := [] } 0 t =
      .ok ({ s with
        buf := mojis2cells (stringToMoji E.cfg t), undoes := ⟨0, (mojis2cells (stringToMoji E.cfg t)).length, []⟩ :: s.undoes },
        mojis2cells (stringToMoji E.cfg t)) := by
    rw [insertString_of (b := mojis2cells (stringToMoji E.cfg t))]
    · unfold bufInsert
      rw [if_pos ⟨Int.le_refl _, by show (0 : Int) ≤ ((_ : Nat) : Int); omega⟩]
      show Except.ok (sliceInsert [] 0 (mojis2cells (stringToMoji E.cfg t))) = _
      rw [sliceInsert_eq _ _ _ (Nat.zero_le _)]
      simp
  simp only [startEditor, Own.run]
  rw [he]
  dsimp only
  rw [own_act (a := .setBuffer []) rfl, own_act (a := .insertString 0 t) (show Api.run _ _ _ = _ by rw [Api.run, hins]; rfl), Own.run,
    own_act (a := .setCursor _) rfl]
  rw [Own.run, Api.run]
  have hs1 : ∀ a b : St, a = b → ((do
      let s ← repaintAll E a
      return (s, Reply.unit)) >>= fun (x : St × Reply) => Own.run E (.ret .cont) x.1) = (do
      let s2 ← repaintAll E b
      return (s2, Result.cont)) := by
    rintro a b rfl
    rcases repaintAll E a with p | q <;> rfl
  exact hs1 _ _ (by
    show St.mk .. = St.mk ..
    simp [St.len, mojis2cells])

theorem exec_custom {E : Env} {f : St → M (St × Result)} {s : St} {X : M St} (h : f (s.emit .cursorOff) = (do
      let s2 ← X
      return (s2, Result.cont))) : execCmd E (.custom f) s = (do
      let s2 ← X
      return (s2.emit .cursorOn, none)) := by
  unfold execCmd
  simp only [Cmd.call]
  rw [h]
  rcases X with p | q <;> rfl

/-- **The editor has given back a text** of ordinary characters: it is the line, and the cursor is at its end; nothing scrolls.  If fewer characters are left than
are scrolled out of the view, the program panics. -/
theorem C86_edited {s : St} {rest : List Ev} {t : List Char} (hi : s.input = .key [0x1B] :: rest) (he : edit s.text = some (utf8 t))
    (ht : ∀ c ∈ t, Plain E.cfg c.toNat) (hv : 0 ≤ s.viewStart) :
    (s.viewStart ≤ t.length → ∃ s', step (editingEditor edit E) s = .ok (s', none) ∧ s'.text = utf8 t ∧ s'.units = t.map (fun c => utf8 [c]) ∧
      s'.cursor = t.length ∧ s'.viewStart = s.viewStart ∧ s'.input = rest ∧ s'.clip = s.clip ∧ s'.suffix = s.suffix) ∧
    (t.length < s.viewStart → ∃ p, step (editingEditor edit E) s = .error p ∧ p.kind = .bounds) := by
  have hseg : (stringToMoji E.cfg (utf8 t)).map Moji.norm = t.map (unit E.cfg) := segs_alone fun c hc => (ht c hc).alone
  have hlen : (stringToMoji E.cfg (utf8 t)).length = t.length := by
    have := congrArg List.length hseg
    rwa [List.length_map, List.length_map] at this
  have h9 : ∀ x ∈ mojis2cells (stringToMoji E.cfg (utf8 t)), 9 ∉ x.moji.write := by
    intro x hx h9
    obtain ⟨m, hm, rfl⟩ := List.mem_map.mp hx
    have := stringToMoji_nine hm h9
    exact over_nine (P := fun r => Plain E.cfg r) (E := E) (fun _ h => h) (over_plain ht) this
  let s1 : St := { { s.emit .await with input := rest }.emit .cursorOff with
    buf := mojis2cells (stringToMoji E.cfg (utf8 t)), undoes := ⟨0, (mojis2cells (stringToMoji E.cfg (utf8 t))).length, []⟩ :: s.undoes
    cursor := (stringToMoji E.cfg (utf8 t)).length }
  have hrun : step (editingEditor edit E) s = (do
      let s2 ← repaintAll (promptedEditor E) s1
      return (s2.emit .cursorOn, none)) := by
    rw [step, hi]
    exact exec_custom (edited_run he)
  rw [hrun]
  have hall : repaintAll (promptedEditor E) s1 = repaint (promptedEditor E)
      { (callPromptWriter (promptedEditor E) (s1.emit .flush)).2 with topColumn := (callPromptWriter (promptedEditor E) (s1.emit .flush)).1 } := rfl
  constructor
  · intro hle
    obtain ⟨s2, h2⟩ := repaint_tabless (E := promptedEditor E)
      (s := { (callPromptWriter (promptedEditor E) (s1.emit .flush)).2 with topColumn := (callPromptWriter (promptedEditor E) (s1.emit .flush)).1 }) rfl h9
      ⟨hv, by show s.viewStart ≤ ((stringToMoji E.cfg (utf8 t)).length : Int); omega, by
        show ((stringToMoji E.cfg (utf8 t)).length : Int) ≤ (((mojis2cells (stringToMoji E.cfg (utf8 t))).length : Nat) : Int)
        rw [mojis2cells, List.length_map]; omega⟩
    obtain ⟨g, -⟩ := repaint_same h2
    obtain ⟨g1, b, o, g2⟩ := g
    have hline : s2.line = t.map (unit E.cfg) := by
      rw [g1]
      show (mojis2cells (stringToMoji E.cfg (utf8 t))).map _ = _
      rw [← hseg, mojis2cells, List.map_map]
      rfl
    refine ⟨s2.emit .cursorOn, by rw [hall, h2]; rfl, ?_, ?_, ?_, ?_, ?_, ?_, ?_⟩
    · show s2.text = _
      rw [St.text_eq, hline, lineText_chars]
    · show s2.units = _
      rw [St.units_eq, hline, List.map_map]
      exact List.map_congr_left fun c _ => unit_write E.cfg c
    · rw [g2]; show ((stringToMoji E.cfg (utf8 t)).length : Int) = _; rw [hlen]
    · rw [g2]; rfl
    · rw [g2]; rfl
    · rw [g2]; rfl
    · rw [g2]; rfl
  · intro hlt
    rw [hall]
    refine ⟨⟨.bounds, { (callPromptWriter (promptedEditor E) (s1.emit .flush)).2 with topColumn := (callPromptWriter (promptedEditor E) (s1.emit .flush)).1 }⟩, ?_, rfl⟩
    unfold repaint updateSuffix
    rw [if_pos (by rfl)]
    unfold repaintNoSuffix getView2 getView slice
    rw [if_neg (fun hx => by
      have : s.viewStart ≤ (((mojis2cells (stringToMoji E.cfg (utf8 t))).length : Nat) : Int) := hx.2
      rw [mojis2cells, List.length_map] at this
      omega)]
    rfl

/-- **Without a text editor** the key does nothing but show and hide the cursor. -/
theorem C86_noEditor {s : St} {rest : List Ev} (hi : s.input = .key [0x1B] :: rest) (he : edit s.text = none) :
    step (editingEditor edit E) s = .ok ({ s with input := rest, out := s.out ++ [.await, .cursorOff, .cursorOn] }, none) := by
  rw [step, hi]
  show execCmd _ (.custom ((startEditor edit).run (promptedEditor E))) _ = _
  unfold execCmd
  simp only [Cmd.call, startEditor, Own.run]
  have : edit ({ s.emit .await with input := rest }.emit .cursorOff).text = none := he
  rw [this]
  show Except.ok _ = Except.ok _
  simp [St.emit]

/-- Escape and then Enter: the result is the text of the text editor. -/
theorem C86_enter_partial {s : St} {rest : List Ev} {t : List Char} (hi : s.input = .key [0x1B] :: .key [0x0D] :: rest) (he : edit s.text = some (utf8 t))
    (ht : ∀ c ∈ t, Plain E.cfg c.toNat) (hv : 0 ≤ s.viewStart ∧ s.viewStart ≤ t.length) (hs : s.suffix = none) :
    ∃ s1 s2, step (editingEditor edit E) s = .ok (s1, none) ∧ step (editingEditor edit E) s1 = .ok (s2, some ⟨utf8 t, .nil⟩) := by
  obtain ⟨s1, h1, h2, -, -, -, h3, -, h4⟩ := (C86_edited (E := E) hi he ht hv.1).1 hv.2
  rw [hs] at h4
  refine ⟨s1, deferred ((((({ s1.emit .await with input := rest }.emit .cursorOff).emit .cursorOn)).emit (.lit [0x0A])).emit .flush), h1, ?_⟩
  rw [step, h3]
  show execCmd _ .acceptLine _ = _
  unfold execCmd finish
  simp only [Cmd.call, cmdAcceptLine]
  have : s1.text = utf8 t := h2
  rw [← this]
  cases s1
  cases h4
  rfl

/-- **What is left of the file**: of its end one line feed is taken away, and then one carriage return. -/
theorem C86_trim {run : Bytes → Option Bytes} {source t e : Bytes} (hr : run source = some (t ++ e)) :
    (e = [0x0D, 0x0A] → runEditor run source = some t) ∧
    (e = [0x0A] → t.getLast? ≠ some 0x0D → runEditor run source = some t) ∧
    (e = [0x0D] → runEditor run source = some t) ∧
    (e = [] → t.getLast? ≠ some 0x0D → t.getLast? ≠ some 0x0A → runEditor run source = some t) := by
  have h1 : ∀ b (u : Bytes), trimSuffix b (u ++ [b]) = u := by
    intro b u
    unfold trimSuffix
    simp
  have h2 : ∀ b (u : Bytes), u.getLast? ≠ some b → trimSuffix b u = u := by
    intro b u hu
    unfold trimSuffix
    split
    · rename_i c hc
      rw [if_neg (by rintro rfl; exact hu hc)]
    · rfl
  unfold runEditor
  rw [hr]
  refine ⟨?_, ?_, ?_, ?_⟩
  · rintro rfl
    show some (trimSuffix _ (trimSuffix _ (t ++ [0x0D, 0x0A]))) = _
    rw [show t ++ [0x0D, 0x0A] = (t ++ [0x0D]) ++ [(0x0A : UInt8)] by simp, h1, h1]
  · rintro rfl hn
    show some (trimSuffix _ (trimSuffix _ (t ++ [0x0A]))) = _
    rw [h1, h2 _ _ hn]
  · rintro rfl
    show some (trimSuffix _ (trimSuffix _ (t ++ [0x0D]))) = _
    rw [h2 _ (t ++ [0x0D]) (by simp), h1]
  · rintro rfl hn hm
    show some (trimSuffix _ (trimSuffix _ (t ++ []))) = _
    rw [List.append_nil, h2 _ t hm, h2 _ _ hn]

/-- **If the text editor cannot be started or fails**, the line stays as it is. -/
theorem C86_fails {run : Bytes → Option Bytes} {s : St} {rest : List Ev} (hi : s.input = .key [0x1B] :: rest) (hr : run s.text = none) :
    step (editingEditor (runEditor run) E) s = .ok ({ s with input := rest, out := s.out ++ [.await, .cursorOff, .cursorOn] }, none) :=
  C86_noEditor hi (by unfold runEditor; rw [hr])

/-! ## Cases -/

section
open Example

/-- A wide character, Ctrl-B, two letters, Enter. -/
def loneKeys : List (List Char) := ["世", "\x02", "a", "b", "\r"].map String.toList

def loneRow : Vt := { fourRows with width := 20, col := 0 }

theorem loneKeys_ready : LoneTable (env table) { termWidth := 20, input := loneKeys.map fun k => .key (utf8 k) } id none loneKeys (plainColumns table)
    loneRow := by
  have h := shown_console (ks := []) (evs := []) (by simp) (by simp) (by simp)
  refine ⟨fun _ => rfl, rfl, rfl, rfl, (fun u hu => by cases hu), by decide +kernel, (by intro x hx; simp at hx), by decide +kernel, ?_, ?_,
    table_agrees, h.ascii, h.width, h.zwj, by decide, by decide, (by intro x hx; simp at hx), rfl, by decide, by decide, ?_⟩
  · have : ∀ k ∈ loneKeys, (usualVerb k = .type k ∧ ∀ c ∈ k, 0x20 ≤ c.toNat ∧ (c.toNat < 0x7F ∨ 0x9F < c.toNat)) ∨
        usualVerb k ∈ [.enter, .left] := by decide +kernel
    intro k hk
    rcases this k hk with ⟨h1, h2⟩ | h1
    · exact .inl ⟨h1, fun c hc => ⟨table_plain (h2 c hc).2 (by have := (h2 c hc).1; omega), (h2 c hc).1⟩⟩
    · right
      simp only [List.mem_cons, List.not_mem_nil, or_false] at h1
      rcases h1 with h1 | h1 <;> rw [h1] <;> exact ⟨(fun u hu => by cases hu), by decide⟩
  · intro k hk c hc
    have : ∀ k ∈ loneKeys, ∀ c ∈ k.head?, (c.toNat < 0x7F ∨ 0x9F < c.toNat) ∧ c.toNat ≠ 9 := by decide +kernel
    exact .inr (table_plain (this k hk c hc).1 (this k hk c hc).2)
  · intro y hy x
    have hy : (3 : Int) < y := hy
    show (if y = 3 ∧ x = 0 then some (0x24, 0) else none) = none
    rw [if_neg (by omega)]

example : ['\x1b'] ∉ loneKeys ∧ loneRow.col = 0 ∧ (textbook (loneDesk id) [] 0 none loneKeys).answer = some ⟨utf8 "ab世".toList, .nil⟩ := by
  decide +kernel

def loneRows (W : Nat) (o : List Tok) : List String :=
  let v := ({ loneRow with width := W } : Vt).run (plainColumns table) (bytesOf table o)
  (List.range 5).map fun (k : Nat) => String.ofList ((List.range W).filterMap fun (i : Nat) => (v.cells (v.row - k) i).bind fun c => if c.2 = 0 then some (Char.ofNat c.1) else none)

/-- The rows in the end, from the cursor upwards. -/
example : (match main1 (env table) { termWidth := 20, input := loneKeys.map fun k => .key (utf8 k) } with
    | .ok (_, w) => (loneRows 20 w.out).take 3
    | .error _ => []) = ["", "TEXT=ab世", "> ab世"] ∧
    (match mainFiles Example.uni (fun _ => none) (fun _ => []) (env table) { termWidth := 20, input := loneKeys.map fun k => .key (utf8 k) } with
    | .ok (_, w) => (loneRows 20 w.out).take 3
    | .error _ => []) = ["", "TEXT: ab世", "> ab世"] ∧
    (match main4 (fun _ => none) (env table) { termWidth := 20, input := loneKeys.map fun k => .key (utf8 k) } with
    | .ok (_, w) => (loneRows 20 w.out).take 4
    | .error _ => []) = ["", "TEXT=ab世", "ENTER_STATUS=0", "> ab世"] := by
  decide +kernel

/-- Escape: the text editor has made the line longer by a word and a line feed. -/
example : (match main4 (runEditor fun t => some (t ++ utf8 " 世界\n".toList)) (env table)
      { termWidth := 20, input := ["a", "\x1b", "\r"].map fun k => .key (b k) } with
    | .ok (r, w) => (r.text, (loneRows 20 w.out).take 4)
    | .error _ => ([], [])) = (utf8 "a 世界".toList, ["", "TEXT=a 世界", "ENTER_STATUS=0", "> a 世界"]) := by
  decide +kernel

/-- Two line feeds at the end of the file: one of them gets into the line. -/
example : runEditor (fun t => some (t ++ [0x0A, 0x0A])) [0x61] = some [0x61, 0x0A] ∧
    runEditor (fun t => some (t ++ [0x0A, 0x0D])) [0x61] = some [0x61, 0x0A] ∧ runEditor (fun t => some (t ++ [0x0D, 0x0D, 0x0A])) [0x61] = some [0x61, 0x0D] := by
  decide +kernel

/-- **A text that is longer than the row**: `ViewStart` stays where it was, examples/example4.go:58-60, so the text is written beyond the row,
and the next key is awaited in the row below.  Two keys Ctrl-B later the line stands in four rows. -/
theorem C86_refuted_long :
    (match after (editingEditor (fun _ => some (utf8 "0123456789ABCDEF".toList)) (env table)) { termWidth := 12, input := [.key [0x1B], .key [0x02]] } 1 with
    | .ok s => (loneRows 12 s.out).take 2
    | .error _ => []) = ["ABCDEF", "> 0123456789"] ∧
    (match after (editingEditor (fun _ => some (utf8 "0123456789ABCDEF".toList)) (env table))
        { termWidth := 12, input := [.key [0x1B], .key [0x02], .key [0x02]] } 3 with
    | .ok s => (loneRows 12 s.out).take 4
    | .error _ => []) = ["ABCD", "AB0123456789", "AB0123456789", "> 0123456789"] := by
  decide +kernel

end

end Readline

import Verif.Spec.TinyRows
import Verif.Proof.Sign
import Verif.Props.C77
import Verif.Props.C84
/-!
# C85: the shell of examples/example2.go on the terminal

From the keys to the commands that are run and to the row of the line, with the coloured prompt of the example.
-/
namespace Readline
open Spec

variable {σ : Type} {Y : System σ} {E : Env} {w : World} {clip : Option (List Char)} {ks : List (List Char)} {adv : Rune → Int} {v : Vt}
  {up : List Char → List Char} {rooms : Int → Prop}

/-! ## Words -/

theorem fields_blank {t : List Char} (h : Spec.Fields t []) : ∀ c ∈ t, White c := by
  cases h with
  | none h => exact h

theorem fields_wordy {t : List Char} {ws : List (List Char)} (h : Spec.Fields t ws) : wordy t = true ↔ ws ≠ [] := by
  unfold wordy
  rw [List.any_eq_true]
  constructor
  · rintro ⟨c, hc, hw⟩ rfl
    have := fields_blank h c hc
    simp [this] at hw
  · intro hn
    cases h with
    | none => exact absurd rfl hn
    | @word a w t ws h1 h2 h3 _ _ =>
      obtain ⟨c, w, rfl⟩ := List.exists_cons_of_ne_nil h2
      exact ⟨c, by simp, by simpa using h3 c (by simp)⟩

theorem wordy_fields (l : List Char) : decide (fields (utf8 l) ≠ []) = wordy l := by
  obtain ⟨ws, h1, -⟩ := C77_unique l
  rw [C77_fields h1]
  have := fields_wordy h1
  cases hw : wordy l with
  | true => exact decide_eq_true (by simpa using this.mp hw)
  | false =>
    rw [hw] at this
    refine decide_eq_false fun hx => ?_
    have := this.mpr (by simpa using hx)
    cases this

/-! ## The desk of the shell -/

/-- The desk of the program. -/
def Spec.shellDesk (up : List Char → List Char) : Desk :=
  { history := [], cycling := true, guessing := true, marks := ['"', '\''], upper := up, verb := usualVerb }

/-- `$ ` in cyan. -/
def Spec.shellPrompt : List Stroke := [.colour [0x31, 0x3B, 0x33, 0x36], .letter '$', .letter ' ', .colour [0x30]]

/-- It is seen as `$ `, where the cursor is. -/
def Spec.shellSign : Sign := posterSign .straight shellPrompt

theorem shell_columns (h : GuessTable E w up clip ks adv v) : shellSign.columns E.cfg = 2 := by
  have hone : ∀ r, 0x20 ≤ r → r ≤ 0x7E → plainColumns E.cfg r = 1 := by
    intro r h1 h2
    rw [← h.agrees.plain r (h.ascii _ h1 h2) h1 (by unfold Padded; omega)]
    exact h.agrees.ascii _ h1 h2
  show plainColumns E.cfg 0x24 + (plainColumns E.cfg 0x20 + 0) = 2
  rw [hone _ (by decide) (by decide), hone _ (by decide) (by decide)]
  rfl

theorem shell_sign (h : GuessTable E w up clip ks adv v) (l : List Bytes) : shellSign.Of (tinyBase E l) adv v.width := by
  refine poster_sign (E := tinyBase E l) h.agrees (l := .straight) (ss := shellPrompt) ?_ ?_ ?_
  · show some (fun _ => _) = some (fun _ => _)
    have : poster .straight shellPrompt = [0x1B, 0x5B, 0x31, 0x3B, 0x33, 0x36, 0x6D, 0x24, 0x20, 0x1B, 0x5B, 0x30, 0x6D] := by decide +kernel
    rw [this]
  · intro s hs
    simp only [shellPrompt, List.mem_cons, List.not_mem_nil, or_false] at hs
    rcases hs with rfl | rfl | rfl | rfl
    · show ∀ x ∈ ([0x31, 0x3B, 0x33, 0x36] : Bytes), 0x30 ≤ x.toNat ∧ x.toNat ≤ 0x3B
      decide
    · exact ⟨h.ascii _ (by decide) (by decide), by decide, by unfold Padded; simp⟩
    · exact ⟨h.ascii _ (by decide) (by decide), by decide, by unfold Padded; simp⟩
    · show ∀ x ∈ ([0x30] : Bytes), 0x30 ≤ x.toNat ∧ x.toNat ≤ 0x3B
      decide
  · have := shell_columns h
    have h1 := h.room
    have h2 := h.wide
    show shellSign.columns E.cfg ≤ v.width
    omega

theorem shell_desk (h : GuessTable E w up clip ks adv v) : PlainDesk (tinyBase E []) w (shellDesk up) [] 0 clip ks where
  builtin := tinyBase_builtin E []
  noCompletion := tinyBase_completion E []
  means := fun k hk => usual_means (E := tinyBase E []) rfl rfl (h.full k hk)
  history := rfl
  cycling := rfl
  guessing := by
    show decide (([0x1B, 0x5B, 0x33, 0x3B, 0x32, 0x32, 0x3B, 0x33, 0x34, 0x6D] : Bytes) ≠ []) = true
    decide
  predictor := foresees_usual rfl rfl
  plainGuess := within_newest rfl _
  top := .inl rfl
  prompt := fun _ => rfl
  marks := by show ([0x22, 0x27] : List Rune) = ['"', '\''].map Char.toNat; decide +kernel
  noNul := by show '\x00' ∉ ['"', '\'']; decide
  upper := h.upper
  clipSet := h.clipSet
  default := rfl
  cursor := h.cursor
  clipboard := h.clipboard
  keys := h.keys
  noErr := h.noErr
  full := h.full
  plain := (guess_desk h).plain
  plainTyped := (guess_desk h).plainTyped
  plainLiteral := (guess_desk h).plainLiteral
  quote := h.ascii _ (by decide) (by decide)
  fresh := .inr h.fresh
  room := by
    rw [(shell_sign h []).width, show (tinyBase E []).cfg = E.cfg from rfl, shell_columns h]
    exact h.room
  resized := fun n hn => by
    rw [(shell_sign h []).width, show (tinyBase E []).cfg = E.cfg from rfl, shell_columns h]
    exact (h.resized n hn).1

theorem shell_console (h : GuessTable E w up clip ks adv v) (hv : v.col = 0) :
    Console shellSign (tinyBase E []) w (shellDesk up) [] clip ks adv v where
  promptErr := rfl
  colourOn := (guess_console h).colourOn
  colourOff := (guess_console h).colourOff
  agrees := h.agrees
  ascii := h.ascii
  width := h.width
  zwj := h.zwj
  begins := h.begins
  narrow := fun ⟨k, hk, hx⟩ => absurd hx (guess_never (.inr (.inr rfl)) h k hk)
  narrowGuess := fun _ => within_newest rfl _
  ground := h.ground
  col := h.col
  sign := shell_sign h []
  start := .inr hv
  wide := h.wide
  resized := fun n hn => (h.resized n hn).2

theorem shell_noTab (h : GuessTable E w up clip ks adv v) : .key [0x09] ∉ w.input := by
  intro hx
  have : [0x09] ∈ keysIn w.input := mem_keysIn.mp hx
  rw [h.keys] at this
  obtain ⟨k, hk, e⟩ := List.mem_map.mp this
  have e : utf8 k = utf8 ['\t'] := by rw [e]; decide +kernel
  have e := utf8_injective e
  subst e
  have hv : usualVerb ['\t'] = .type ['\t'] := by decide +kernel
  rcases h.typed _ hk with ⟨-, h2⟩ | ⟨h1, -⟩
  · have := (h2 '\t' (by simp)).2
    revert this
    decide
  · exact h1 _ hv

/-! ## From call to call -/

/-- Without the Tab key the states of a call are those of the editor without file completion. -/
theorem tiny_reachable {x : σ} {l : List Bytes} {w : World} (ht : .key [0x09] ∉ w.input) {s : St} (h : Reachable (tinyEnv Y E x l) w s) :
    Reachable (tinyBase E l) w s ∧ ∀ e ∈ s.input, e ∈ w.input := by
  have hl : ∀ {k : Bytes}, k ≠ [0x09] → lookupCommand (tinyEnv Y E x l) k = lookupCommand (tinyBase E l) k := by
    intro k hne
    show lookupCommand { tinyBase E l with keyMap := _ } k = _
    simp only [lookupCommand, KeyMap.lookup, hne, if_false]
  induction h with
  | start h => exact ⟨.start h, by rw [startSt_input h]; exact fun e h => h⟩
  | @step s s' hr hs ih =>
    have hs : step (tinyBase E l) s = .ok (s', none) := by
      rw [← hs]
      refine (step_unbound (E := tinyBase E l) fun k hk => hl ?_).symm
      rintro rfl
      exact ht (ih.2 _ hk)
    obtain ⟨ev, rest, h1, h2⟩ := step_sublist (tinyBase_builtin E l) hs
    exact ⟨.step ih.1 hs, fun e he => ih.2 e (by rw [h1]; exact List.mem_cons_of_mem _ (h2.subset he))⟩

/-- The conditions between two calls. -/
structure Spec.Aboard (E : Env) (c : Container) (w : World) (D : Desk) (hist : List (List Char)) (n : Nat) (clip : Option (List Char))
    (ks : List (List Char)) (rooms : Int → Prop) (adv : Rune → Int) (v : Vt) : Prop where
  desk : PlainDesk (tinyBase E c.buffer) w { D with history := hist } [] n clip ks
  console : Console shellSign (tinyBase E c.buffer) w { D with history := hist } [] clip ks adv v
  legible : Legible { D with history := hist } [] clip ks
  row : AtRow v
  noTab : .key [0x09] ∉ w.input
  wide : 7 ≤ v.width
  rooms : ∀ x, x = w.termWidth ∨ .resize x ∈ w.input → rooms (x - shellSign.columns E.cfg - 3)

theorem Spec.Aboard.exec {c : Container} {D : Desk} {hist : List (List Char)} {n : Nat} {x : σ} (h : Aboard E c w D hist n clip ks rooms adv v)
    (hY : HandsOff Y) (hM : Mannered adv Y) (argv : List Bytes) :
    ∃ o, (Y.exec argv (x, w)).2.out = w.out ++ o ∧ (∃ rs, Readline.Reads (bytesOf E.cfg o) rs) ∧
      Aboard E c (Y.exec argv (x, w)).2 D hist n clip ks rooms adv (v.run adv (bytesOf E.cfg o)) ∧ (Y.exec argv (x, w)).2.input = w.input := by
  obtain ⟨b, h1, h2, h3⟩ := hM argv (x, w)
  have hr := h3 v h.row
  have hb : bytesOf E.cfg [.lit b] = b := by unfold bytesOf; rw [List.flatMap_cons, List.flatMap_nil, List.append_nil]; rfl
  generalize ho : ([.lit b] : List Tok) = o at hb h1
  rw [← hb] at h2 hr
  have hw : (v.run adv (bytesOf E.cfg o)).width = v.width := feed_width _ _
  refine ⟨o, h1, h2, ⟨?_, ?_, h.legible, hr, ?_, by rw [hw]; exact h.wide, ?_⟩, ?_⟩
  · rw [hY argv (x, w)]
    exact { h.desk with }
  · rw [hY argv (x, w)]
    exact { h.console with
      ground := hr.ground, col := by rw [hr.col]; decide, start := .inr hr.col, sign := by rw [hw]; exact h.console.sign
      wide := by rw [hw]; exact h.console.wide, resized := by rw [hw]; exact h.console.resized }
  · rw [hY argv (x, w)]; exact h.noTab
  · rw [hY argv (x, w)]; exact h.rooms
  · rw [hY argv (x, w)]

/-- A line is entered. -/
theorem Spec.Aboard.enters {c : Container} {D : Desk} {hist : List (List Char)} {n : Nat} (h : Aboard E c w D hist n clip ks rooms adv v)
    (hl : ∀ k ∈ ks, D.verb k ≠ .redraw) {s : St} {r : RLRes} (hrl : readLine (tinyBase E c.buffer) w = .ok (s, r)) (hn : r.err = .nil) :
    ∃ p rest o, oneLine { D with history := hist } [] n clip ks = (.entered p.text, p, rest) ∧ r.text = utf8 p.text ∧ s.out = w.out ++ o ∧
      (∃ rs, Readline.Reads (bytesOf E.cfg o) rs) ∧ rest <:+ ks ∧ rest.length < ks.length ∧ s.input.length < w.input.length ∧
      Aboard E (if fields r.text = [] then c else c.add r.text) s.world D (if wordy p.text then hist ++ [p.text] else hist) p.left.length p.clip rest rooms adv
        (v.run adv (bytesOf E.cfg o)) ∧
      ∃ room, rooms room ∧ RowShows shellSign E.cfg adv (v.run adv (bytesOf E.cfg o)) ((v.run adv (bytesOf E.cfg o)).row - 1) room (p.text.map Char.toNat) p.left.length := by
  obtain ⟨l, p, rest, o, g1, g2, g3, g3', g4, g5, g6, g7, g8, g9, g10, ⟨⟨room, g0, g11⟩, -⟩, -⟩ :=
    call_entered (keepC := wordy) (rooms := rooms) (ps := []) h.desk h.console hl rfl h.row.inside h.rooms trivial hrl hn
  obtain ⟨o', u, a1, a2, a3, a4, a5, a6, a7, a8, a9, -⟩ := call_end h.desk h.console hl rfl hrl (by rw [hn]; intro e; simp)
  obtain rfl := List.append_cancel_left (g3.symm.trans a1)
  have hur : u.row < u.height := by rw [a3.row, a3.height]; exact base_row shellSign h.row.inside
  obtain ⟨c1, c2⟩ := newline_clear hur (level_clear a3 (base_clear shellSign h.row.inside h.row.clear))
  obtain ⟨-, hnext⟩ := legible_next (keep := wordy) h.desk h.legible hrl g2 (entered_clip h.desk.setting hrl hn g1) g8
  have hlt : l = p.text := plays_entered g1
  subst hlt
  have hbuf : (if fields r.text = [] then c else c.add r.text).buffer = if wordy p.text then c.buffer ++ [r.text] else c.buffer := by
    have := wordy_fields p.text
    rw [g2]
    by_cases hf : fields (utf8 p.text) = []
    · rw [if_pos hf, ← this]; simp [hf]
    · rw [if_neg hf, ← this]; simp [hf]; rfl
  have hin : ∀ e ∈ s.input, e ∈ w.input := by
    obtain ⟨-, x, -, -, -, hsub⟩ := readLine_takes (tinyBase_builtin E c.buffer) hrl hn
    exact fun e he => hsub.subset (List.mem_cons_of_mem _ he)
  refine ⟨p, rest, o, g1, g2, g3, g3', g8, g9, g10, ⟨?_, ?_, hnext, ⟨a7, a6, g6, ?_⟩, fun hx => h.noTab (hin _ hx), ?_, g7⟩, room, g0, g11⟩
  · rw [hbuf]; exact g4
  · rw [hbuf]; exact g5
  · intro y hy x
    rw [show (v.run adv (bytesOf E.cfg o)).row = _ from a5] at hy
    rw [show (v.run adv (bytesOf E.cfg o)).cells = _ from a4]
    exact c1 y hy x
  · rw [show (v.run adv (bytesOf E.cfg o)).width = _ from a8]; exact h.wide

theorem run_none : v.run adv [] = v := by
  unfold Vt.run
  rw [runesOf_nil]
  rfl

theorem cut_run {C : Cfg} {o o' : List Tok} {rs : List Rune} (h : Readline.Reads (bytesOf C o) rs) :
    v.run adv (bytesOf C (o ++ o')) = (v.run adv (bytesOf C o)).run adv (bytesOf C o') := by
  unfold bytesOf at h ⊢
  rw [List.flatMap_append, h.cut]

theorem reads_join {C : Cfg} {o o' : List Tok} {rs rs' : List Rune} (h : Readline.Reads (bytesOf C o) rs) (h' : Readline.Reads (bytesOf C o') rs') :
    Readline.Reads (bytesOf C (o ++ o')) (rs ++ rs') := by
  unfold bytesOf at h h' ⊢
  rw [List.flatMap_append]
  exact h.append h'

/-- **From call to call**: the shell and the textbook's program with its pages. -/
theorem underway_aboard (hY : HandsOff Y) (hM : Mannered adv Y) {D : Desk} {c c' : Container} {x x' : σ × World} {ran : List (List Bytes)}
    (hu : Underway Y E c x ran c' x') : ∀ {hist : List (List Char)} {n : Nat} {clip : Option (List Char)} {ks : List (List Char)} {v : Vt} (ps : List Page),
      Aboard E c x.2 D hist n clip ks rooms adv v → (∀ k ∈ ks, D.verb k ≠ .redraw) →
      ∃ qs hist' n' clip' ks' o cs, x'.2.out = x.2.out ++ o ∧ (∃ rs, Readline.Reads (bytesOf E.cfg o) rs) ∧
        Aboard E c' x'.2 D hist' n' clip' ks' rooms adv (v.run adv (bytesOf E.cfg o)) ∧ ks' <:+ ks ∧
        hist' = hist ++ (qs.reverse.map Page.text).filter wordy ∧
        Commands (qs.reverse.map Page.text) cs ∧ ran = cs.map (List.map utf8) ∧
        (∀ {ps' p r}, Opened D wordy [] (qs ++ ps) hist' n' clip' ks' ps' p r → Opened D wordy [] ps hist n clip ks ps' p r) ∧
        ∀ f, ks.length < f → ∃ f', ks'.length < f' ∧ notebook D wordy [] f hist n clip ks = notebook D wordy [] f' hist' n' clip' ks' ∧
          parting D wordy [] f hist n clip ks = parting D wordy [] f' hist' n' clip' ks' ∧
          leaves D wordy [] f ps hist n clip ks = leaves D wordy [] f' (qs ++ ps) hist' n' clip' ks' := by
  have key : ∀ {c c1 : Container} {x x1 : σ × World} {s : St} {r : RLRes} {ran : List (List Bytes)} {hist : List (List Char)} {n : Nat} {clip : Option (List Char)}
      {ks : List (List Char)} {v : Vt} (ps : List Page), readLine (tinyEnv Y E x.1 c.buffer) x.2 = .ok (s, r) → r.err = .nil →
      Aboard E c x.2 D hist n clip ks rooms adv v → (∀ k ∈ ks, D.verb k ≠ .redraw) →
      (fields r.text = [] ∧ c1 = c ∧ x1 = (x.1, s.world) ∨ fields r.text ≠ [] ∧ c1 = c.add r.text ∧ x1 = Y.exec (fields r.text) (x.1, s.world)) →
      (∀ {hist : List (List Char)} {n : Nat} {clip : Option (List Char)} {ks : List (List Char)} {v : Vt} (ps : List Page),
        Aboard E c1 x1.2 D hist n clip ks rooms adv v → (∀ k ∈ ks, D.verb k ≠ .redraw) →
        ∃ qs hist' n' clip' ks' o cs, x'.2.out = x1.2.out ++ o ∧ (∃ rs, Readline.Reads (bytesOf E.cfg o) rs) ∧
          Aboard E c' x'.2 D hist' n' clip' ks' rooms adv (v.run adv (bytesOf E.cfg o)) ∧ ks' <:+ ks ∧
          hist' = hist ++ (qs.reverse.map Page.text).filter wordy ∧
          Commands (qs.reverse.map Page.text) cs ∧ ran = cs.map (List.map utf8) ∧
          (∀ {ps' p r}, Opened D wordy [] (qs ++ ps) hist' n' clip' ks' ps' p r → Opened D wordy [] ps hist n clip ks ps' p r) ∧
          ∀ f, ks.length < f → ∃ f', ks'.length < f' ∧ notebook D wordy [] f hist n clip ks = notebook D wordy [] f' hist' n' clip' ks' ∧
            parting D wordy [] f hist n clip ks = parting D wordy [] f' hist' n' clip' ks' ∧
            leaves D wordy [] f ps hist n clip ks = leaves D wordy [] f' (qs ++ ps) hist' n' clip' ks') →
      ∃ qs hist' n' clip' ks' o cs, x'.2.out = x.2.out ++ o ∧ (∃ rs, Readline.Reads (bytesOf E.cfg o) rs) ∧
        Aboard E c' x'.2 D hist' n' clip' ks' rooms adv (v.run adv (bytesOf E.cfg o)) ∧ ks' <:+ ks ∧
        hist' = hist ++ (qs.reverse.map Page.text).filter wordy ∧
        Commands (qs.reverse.map Page.text) cs ∧ (if fields r.text = [] then ran else fields r.text :: ran) = cs.map (List.map utf8) ∧
        (∀ {ps' p r}, Opened D wordy [] (qs ++ ps) hist' n' clip' ks' ps' p r → Opened D wordy [] ps hist n clip ks ps' p r) ∧
        ∀ f, ks.length < f → ∃ f', ks'.length < f' ∧ notebook D wordy [] f hist n clip ks = notebook D wordy [] f' hist' n' clip' ks' ∧
          parting D wordy [] f hist n clip ks = parting D wordy [] f' hist' n' clip' ks' ∧
          leaves D wordy [] f ps hist n clip ks = leaves D wordy [] f' (qs ++ ps) hist' n' clip' ks' := by
    intro c c1 x x1 s r ran hist n clip ks v ps hrl hn hA hl hcase ih
    rw [tiny_reads hA.noTab] at hrl
    obtain ⟨p, rest, o, g1, g2, g3, ⟨rs, hrs⟩, g4, g5, g6, g7, -⟩ := hA.enters hl hrl hn
    have hstep : ∃ o1, x1.2.out = x.2.out ++ (o ++ o1) ∧ (∃ rs, Readline.Reads (bytesOf E.cfg o1) rs) ∧
        Aboard E c1 x1.2 D (if wordy p.text then hist ++ [p.text] else hist) p.left.length p.clip rest rooms adv ((v.run adv (bytesOf E.cfg o)).run adv (bytesOf E.cfg o1)) := by
      rcases hcase with ⟨hf, rfl, rfl⟩ | ⟨hf, rfl, rfl⟩
      · rw [if_pos hf] at g7
        exact ⟨[], by rw [List.append_nil]; exact g3, ⟨[], Reads.nil⟩, by rw [show bytesOf E.cfg ([] : List Tok) = [] from rfl, run_none]; exact g7⟩
      · rw [if_neg hf] at g7
        obtain ⟨o1, j1, j2, j3, -⟩ := g7.exec (x := x.1) hY hM (fields r.text)
        exact ⟨o1, by rw [j1]; show s.out ++ o1 = _; rw [g3, List.append_assoc], j2, j3⟩
    obtain ⟨o1, j1, ⟨rs1, hrs1⟩, j2⟩ := hstep
    obtain ⟨qs, hist', n', clip', ks', o2, cs, q1, ⟨rs2, hrs2⟩, q3, q4, q5, q6, q7, q8, q9⟩ := ih (p :: ps) j2 fun k hk => hl k (g4.subset hk)
    obtain ⟨ws, hw1, hw2⟩ := C77_unique p.text
    have hfw : fields r.text = ws.map utf8 := by rw [g2]; exact C77_fields hw1
    have hwy := fields_wordy hw1
    refine ⟨qs ++ [p], hist', n', clip', ks', o ++ o1 ++ o2, if ws = [] then cs else ws :: cs, by rw [q1, j1]; simp,
      ⟨_, reads_join (reads_join hrs hrs1) hrs2⟩, ?_, q4.trans g4, ?_, ?_, ?_, ?_, ?_⟩
    · rw [cut_run (reads_join hrs hrs1), cut_run hrs]
      exact q3
    · rw [q5, List.reverse_append, List.map_append, List.filter_append]
      by_cases hy : wordy p.text = true
      · simp [hy]
      · simp [hy]
    · rw [List.reverse_append]
      by_cases hy : ws = []
      · rw [if_pos hy]; subst hy; exact .skip hw1 q6
      · rw [if_neg hy]; exact .run hw1 hy q6
    · rw [hfw]
      by_cases hy : ws = []
      · rw [if_pos hy, if_pos (by rw [hy]; rfl)]; exact q7
      · rw [if_neg hy, if_neg (by simpa using hy), q7]; rfl
    · intro ps' p' r' ho
      rw [List.append_assoc] at ho
      exact .next g1 (q8 ho)
    · intro f hf
      obtain ⟨f, rfl⟩ : ∃ y, f = y + 1 := ⟨f - 1, by omega⟩
      obtain ⟨f', k1, k2, k3, k4⟩ := q9 f (by omega)
      refine ⟨f', k1, ?_, ?_, ?_⟩
      · rw [notebook, g1]; exact k2
      · rw [parting, g1]; exact k3
      · rw [leaves, g1, List.append_assoc]; exact k4
  induction hu with
  | @start c x =>
    intro hist n clip ks v ps h hl
    exact ⟨[], hist, n, clip, ks, [], [], by simp, ⟨[], Reads.nil⟩, by rw [show bytesOf E.cfg ([] : List Tok) = [] from rfl, run_none]; exact h, List.suffix_refl _, by simp, .nil, rfl, fun ho => ho,
      fun f hf => ⟨f, hf, rfl, rfl, rfl⟩⟩
  | @blank c x s r ran c' x' hrl hn hf hu ih =>
    intro hist n clip ks v ps h hl
    have := key ps hrl hn h hl (.inl ⟨hf, rfl, rfl⟩) (fun {_ _ _ _ _} ps => ih key ps)
    rw [if_pos hf] at this
    exact this
  | @run c x s r ran c' x' hrl hn hf hu ih =>
    intro hist n clip ks v ps h hl
    have := key ps hrl hn h hl (.inr ⟨hf, rfl, rfl⟩) (fun {_ _ _ _ _} ps => ih key ps)
    rw [if_neg hf] at this
    exact this

/-- The states of a call are the same without the Tab key. -/
theorem reachable_tiny {x : σ} {l : List Bytes} {w : World} (ht : .key [0x09] ∉ w.input) {s : St} (h : Reachable (tinyBase E l) w s) :
    Reachable (tinyEnv Y E x l) w s ∧ ∀ e ∈ s.input, e ∈ w.input := by
  have hl : ∀ {k : Bytes}, k ≠ [0x09] → lookupCommand (tinyEnv Y E x l) k = lookupCommand (tinyBase E l) k := by
    intro k hne
    show lookupCommand { tinyBase E l with keyMap := _ } k = _
    simp only [lookupCommand, KeyMap.lookup, hne, if_false]
  induction h with
  | start h => exact ⟨.start h, by rw [startSt_input h]; exact fun e h => h⟩
  | @step s s' hr hs ih =>
    have hs' : step (tinyEnv Y E x l) s = .ok (s', none) := by
      rw [← hs]
      refine step_unbound (E := tinyBase E l) fun k hk => hl ?_
      rintro rfl
      exact ht (ih.2 _ hk)
    obtain ⟨ev, rest, h1, h2⟩ := step_sublist (tinyBase_builtin E l) hs
    exact ⟨.step ih.1 hs', fun e he => ih.2 e (by rw [h1]; exact List.mem_cons_of_mem _ (h2.subset he))⟩

/-- The loop is a walk from call to call, with a last call that gives an error. -/
theorem tinyLoop_underway (m : Nat) : ∀ {c c' : Container} {x y : σ × World} {ran : List (List Bytes)} {err : RLErr},
    tinyLoop Y E m c x = .ok (ran, c', err, y) →
    ∃ x' s r, Underway Y E c x ran c' x' ∧ readLine (tinyEnv Y E x'.1 c'.buffer) x'.2 = .ok (s, r) ∧ r.err = err ∧ err ≠ .nil ∧ y = (x'.1, s.world) := by
  induction m with
  | zero => intro c c' x y ran err h; cases h
  | succ m ih =>
    intro c c' x y ran err h
    rw [tinyLoop] at h
    obtain ⟨⟨s, r⟩, hrl, h⟩ := bind_ok.mp h
    have h : (match r.err with
        | .nil =>
          match fields r.text with
          | [] => tinyLoop Y E m c (x.1, s.world)
          | argv => do
            let (ran, rest) ← tinyLoop Y E m (c.add r.text) (Y.exec argv (x.1, s.world))
            return (argv :: ran, rest)
        | err => return ([], c, err, (x.1, s.world))) = Except.ok (ran, c', err, y) := h
    by_cases hn : r.err = .nil
    · rw [hn] at h
      by_cases hf : fields r.text = []
      · rw [hf] at h
        obtain ⟨x', s', r', g1, g2⟩ := ih h
        exact ⟨x', s', r', .blank hrl hn hf g1, g2⟩
      · have h : (do
            let (ran, rest) ← tinyLoop Y E m (c.add r.text) (Y.exec (fields r.text) (x.1, s.world))
            return (fields r.text :: ran, rest)) = Except.ok (ran, c', err, y) := by
          cases hg : fields r.text with
          | nil => exact absurd hg hf
          | cons a l => rw [hg] at h; exact h
        obtain ⟨⟨ran', rest⟩, h1, h2⟩ := bind_ok.mp h
        cases h2
        obtain ⟨x', s', r', g1, g2⟩ := ih h1
        exact ⟨x', s', r', .run hrl hn hf g1, g2⟩
    · have h : ([], c, r.err, (x.1, s.world)) = (ran, c', err, y) := by
        cases he : r.err with
        | nil => exact absurd he hn
        | _ => rw [he] at h; injection h
      injection h with h1 h
      injection h with h2 h
      injection h with h3 h4
      subst h1 h2 h4
      exact ⟨x, s, r, .start, hrl, h3, h3 ▸ hn, rfl⟩

/-- Without letters exchanged the loop comes to an end. -/
theorem tinyLoop_ends (hY : HandsOff Y) (hM : Mannered adv Y) {D : Desk} (m : Nat) :
    ∀ {c : Container} {x : σ × World} {hist : List (List Char)} {n : Nat} {clip : Option (List Char)} {ks : List (List Char)} {v : Vt},
      Aboard E c x.2 D hist n clip ks rooms adv v → (∀ k ∈ ks, D.verb k ≠ .redraw) → (∀ k ∈ ks, D.verb k ≠ .exchange) → x.2.input.length < m →
      ∃ z, tinyLoop Y E m c x = .ok z := by
  induction m with
  | zero => intro c x hist n clip ks v _ _ _ h; omega
  | succ m ih =>
    intro c x hist n clip ks v h hl he hm
    obtain ⟨s, r, h1, -⟩ := C80_result_partial h.desk he
    have hrl : readLine (tinyEnv Y E x.1 c.buffer) x.2 = .ok (s, r) := by rw [tiny_reads h.noTab]; exact h1
    rw [tinyLoop, hrl]
    show ∃ z, (match r.err with
        | .nil =>
          match fields r.text with
          | [] => tinyLoop Y E m c (x.1, s.world)
          | argv => do
            let (ran, rest) ← tinyLoop Y E m (c.add r.text) (Y.exec argv (x.1, s.world))
            return (argv :: ran, rest)
        | err => return ([], c, err, (x.1, s.world))) = Except.ok z
    by_cases hn : r.err = .nil
    · obtain ⟨p, rest, o, -, -, -, -, g4, -, g6, g7, -⟩ := h.enters hl h1 hn
      rw [hn]
      cases hf : fields r.text with
      | nil =>
        rw [if_pos hf] at g7
        exact ih (x := (x.1, s.world)) g7 (fun k hk => hl k (g4.subset hk)) (fun k hk => he k (g4.subset hk)) (by show s.input.length < m; omega)
      | cons a l =>
        rw [if_neg (by rw [hf]; simp)] at g7
        obtain ⟨o1, -, -, j3, j4⟩ := g7.exec (x := x.1) hY hM (a :: l)
        obtain ⟨z, hz⟩ := ih (x := Y.exec (a :: l) (x.1, s.world)) j3 (fun k hk => hl k (g4.subset hk)) (fun k hk => he k (g4.subset hk))
          (by rw [j4]; show s.input.length < m; omega)
        exact ⟨((a :: l) :: z.1, z.2), by show (tinyLoop Y E m (c.add r.text) (Y.exec (a :: l) (x.1, s.world)) >>= _) = _; rw [hz]; rfl⟩
    · cases he : r.err with
      | nil => exact absurd he hn
      | _ => exact ⟨_, rfl⟩

/-! ## The shell -/

/-- `Tiny Shell. Type Ctrl-D to quit.` -/
def Spec.shellTitle : List Char := "Tiny Shell. Type Ctrl-D to quit.".toList

/-- After the title has been printed. -/
theorem shell_aboard (h : GuessTable E w up clip ks adv v) (h0 : v.col = 0) (hrow : ∀ y, v.cells v.row y = none) :
    (∃ rs, Readline.Reads tinyBanner rs) ∧ Aboard E {} (w.print tinyBanner) (shellDesk up) [] 0 clip ks (roomsOf shellSign E.cfg w) adv (v.run adv tinyBanner) ∧
      ∃ rows, Folded adv v.width (shellTitle.map Char.toNat) rows ∧ Above adv (v.run adv tinyBanner) rows.length rows ∧
        ∀ k, 1 ≤ k → (v.run adv tinyBanner).cells ((v.run adv tinyBanner).row - (rows.length + k)) = v.cells (v.row - k) := by
  have h1 := h.room
  have h2 := h.wide
  obtain ⟨g1, rows, g2, g3, g4, g5, g6, g7, -, g9, g10⟩ := run_prints_line (adv := adv) (v := v) (x := shellTitle) (b := tinyBanner) (by decide +kernel) (by
      intro c hc
      have hr : 0x20 ≤ c.toNat ∧ c.toNat ≤ 0x7E := by
        revert c
        have : ∀ c ∈ shellTitle, 0x20 ≤ c.toNat ∧ c.toNat ≤ 0x7E := by unfold shellTitle; decide +kernel
        exact this
      rw [h.agrees.ascii _ hr.1 hr.2]
      omega) h.ground h.inside h.clear h0 (by omega) hrow
  refine ⟨g1, ⟨?_, ?_, ?_, ⟨g3, g6, g4, g5⟩, fun hx => shell_noTab h hx, by omega, roomsOf_all⟩, rows, g2, g9, g10⟩
  · exact (shell_desk h).print _
  · exact (shell_console h h0).print _ g3 g6 g7
  · exact { guess_legible h with guess := within_newest rfl _ }

/-- Where the shell is when it calls `ReadLine`. -/
theorem shell_underway (h : GuessTable E w up clip ks adv v) (h0 : v.col = 0) (hrow : ∀ y, v.cells v.row y = none) (hY : HandsOff Y)
    (hM : Mannered adv Y) {x : σ} {ran : List (List Bytes)} {c' : Container} {x' : σ × World} (hu : Underway Y E {} (x, w.print tinyBanner) ran c' x') :
    ∃ qs hist' n' clip' ks' o cs, x'.2.out = w.out ++ o ∧ (∃ rs, Readline.Reads (bytesOf E.cfg o) rs) ∧
      Aboard E c' x'.2 (shellDesk up) hist' n' clip' ks' (roomsOf shellSign E.cfg w) adv (v.run adv (bytesOf E.cfg o)) ∧ ks' <:+ ks ∧
      hist' = heard wordy qs ∧ Commands (qs.reverse.map Page.text) cs ∧ ran = cs.map (List.map utf8) ∧
      (∀ {ps' p r}, Opened (shellDesk up) wordy [] qs hist' n' clip' ks' ps' p r → Opened (shellDesk up) wordy [] [] [] 0 clip ks ps' p r) ∧
      ∃ f', ks'.length < f' ∧ notebook (shellDesk up) wordy [] (ks.length + 1) [] 0 clip ks = notebook (shellDesk up) wordy [] f' hist' n' clip' ks' ∧
        parting (shellDesk up) wordy [] (ks.length + 1) [] 0 clip ks = parting (shellDesk up) wordy [] f' hist' n' clip' ks' ∧
        leaves (shellDesk up) wordy [] (ks.length + 1) [] [] 0 clip ks = leaves (shellDesk up) wordy [] f' qs hist' n' clip' ks' := by
  obtain ⟨⟨rs, hrs⟩, hA, -⟩ := shell_aboard h h0 hrow
  have hb : bytesOf E.cfg [.lit tinyBanner] = tinyBanner := by unfold bytesOf; rw [List.flatMap_cons, List.flatMap_nil, List.append_nil]; rfl
  rw [← hb] at hrs
  obtain ⟨qs, hist', n', clip', ks', o, cs, q1, ⟨rs', hrs'⟩, q3, q4, q5, q6, q7, q8, q9⟩ :=
    underway_aboard hY hM hu [] hA (guess_never (.inl rfl) h)
  rw [List.append_nil] at q8
  obtain ⟨f', k1, k2, k3, k4⟩ := q9 _ (Nat.lt_succ_self _)
  rw [List.append_nil] at k4
  refine ⟨qs, hist', n', clip', ks', [.lit tinyBanner] ++ o, cs, ?_, ⟨_, reads_join hrs hrs'⟩, ?_, q4, ?_, q6, q7, q8, f', k1, k2, k3, k4⟩
  · rw [q1, ← List.append_assoc]; rfl
  · rw [cut_run hrs, hb]; exact q3
  · rw [q5]; rfl

/-- **Whenever the shell waits for a key**, the row of the cursor shows `$ ` and the page the textbook's program has come to after the keys
that were read; the commands that were run are the words of the lines entered before. -/
theorem C85_waits_partial (h : GuessTable E w up clip ks adv v) (h0 : v.col = 0) (hrow : ∀ y, v.cells v.row y = none) (hY : HandsOff Y)
    (hM : Mannered adv Y) {x : σ} {ran : List (List Bytes)} {c' : Container} {x' : σ × World} (hu : Underway Y E {} (x, w.print tinyBanner) ran c' x')
    {s : St} (hs : Reachable (tinyEnv Y E x'.1 c'.buffer) x'.2 s) (hn : noResize s.input ≠ []) :
    ∃ ps p r o hint cs, Opened (shellDesk up) wordy [] [] [] 0 clip ks ps p r ∧ keysIn s.input = r.map utf8 ∧ s.out = w.out ++ o ∧
      ShowsPage shellSign E.cfg adv (v.run adv (bytesOf E.cfg o)) (s.termWidth - 5) p hint ∧
      ((∀ k ∈ ks, usualVerb k ∉ [.killRight, .killAll, .exchange, .older, .newer]) →
        hint = (p.offer { shellDesk up with history := heard wordy ps }).map Char.toNat) ∧
      Commands (ps.reverse.map Page.text) cs ∧ ran = cs.map (List.map utf8) := by
  obtain ⟨qs, hist', n', clip', ks', o, cs, q1, ⟨rs, hrs⟩, q3, q4, q5, q6, q7, q8, -⟩ := shell_underway h h0 hrow hY hM hu
  obtain ⟨hs, -⟩ := tiny_reachable q3.noTab hs
  obtain ⟨p, r, h1, h2, h3⟩ := reachable_drawn q3.desk.setting hs
  obtain ⟨o', hint, h4, h5, hh⟩ := portrays_shows q3.desk q3.console hs h2 hn
  have hc : shellSign.columns (tinyBase E c'.buffer).cfg = 2 := by show shellSign.columns E.cfg = 2; exact shell_columns h
  rw [hc, show s.termWidth - 2 - 3 = s.termWidth - 5 by omega] at h5
  refine ⟨qs, p, r, o ++ o', hint, cs, q8 (.here h1), h3.keys, by rw [h4, q1, List.append_assoc], by rw [cut_run hrs]; exact h5, fun hf => ?_, q6, q7⟩
  rw [hh (.inr fun k hk => hf k (q4.subset hk)), q5]

/-- **When a line has been entered**, and before its command is started, the cursor is at the beginning of a row with nothing below, and the
row above shows `$ ` and the line; its words are the command. -/
theorem C85_entered_partial (h : GuessTable E w up clip ks adv v) (h0 : v.col = 0) (hrow : ∀ y, v.cells v.row y = none) (hY : HandsOff Y)
    (hM : Mannered adv Y) {x : σ} {ran : List (List Bytes)} {c' : Container} {x' : σ × World} (hu : Underway Y E {} (x, w.print tinyBanner) ran c' x')
    {s : St} {r : RLRes} (hrl : readLine (tinyEnv Y E x'.1 c'.buffer) x'.2 = .ok (s, r)) (hn : r.err = .nil) :
    ∃ ps p rest o ws room, Opened (shellDesk up) wordy [] [] [] 0 clip ks (p :: ps)
        (opening { shellDesk up with history := heard wordy (p :: ps) } [] p.left.length p.clip) rest ∧
      keysIn s.input = rest.map utf8 ∧ r.text = utf8 p.text ∧ Spec.Fields p.text ws ∧ fields r.text = ws.map utf8 ∧ s.out = w.out ++ o ∧
      AtRow (v.run adv (bytesOf E.cfg o)) ∧ roomsOf shellSign E.cfg w room ∧
      RowShows shellSign E.cfg adv (v.run adv (bytesOf E.cfg o)) ((v.run adv (bytesOf E.cfg o)).row - 1) room (p.text.map Char.toNat) p.left.length := by
  obtain ⟨qs, hist', n', clip', ks', o, cs, q1, ⟨rs, hrs⟩, q3, q4, q5, -, -, q8, -⟩ := shell_underway h h0 hrow hY hM hu
  rw [tiny_reads q3.noTab] at hrl
  obtain ⟨p, rest, o', g1, g2, g3, -, -, -, -, g7, room, g8, g9⟩ := q3.enters (fun k hk => guess_never (.inl rfl) h k (q4.subset hk)) hrl hn
  obtain ⟨ws, hw, -⟩ := C77_unique p.text
  have hnew : heard wordy (p :: qs) = if wordy p.text then hist' ++ [p.text] else hist' := by
    rw [q5]
    unfold heard
    rw [List.reverse_cons, List.map_append, List.filter_append, List.map_cons, List.map_nil, List.filter_cons, List.filter_nil]
    split <;> simp
  refine ⟨qs, p, rest, o ++ o', ws, room, q8 (.next g1 (.here ?_)), g7.desk.keys, g2, hw, by rw [g2]; exact C77_fields hw, by rw [g3, q1, List.append_assoc],
    by rw [cut_run hrs]; exact g7.row, g8, by rw [cut_run hrs]; exact g9⟩
  rw [hnew]
  exact .start

/-- **The shell comes to an end**, and its commands, its history and its error are those of the textbook's program that keeps the lines with
words; the command of each line is its words. -/
theorem C85_partial (h : GuessTable E w up clip ks adv v) (h0 : v.col = 0) (hrow : ∀ y, v.cells v.row y = none) (hY : HandsOff Y)
    (hM : Mannered adv Y) (x : σ) :
    ∃ ran c err y cs u, main2 Y E (x, w) = .ok (ran, c, err, y) ∧ c.buffer = (notebook (shellDesk up) wordy [] (ks.length + 1) [] 0 clip ks).1.map utf8 ∧
      (notebook (shellDesk up) wordy [] (ks.length + 1) [] 0 clip ks).2.answer = some ⟨u, err⟩ ∧
      Commands ((leaves (shellDesk up) wordy [] (ks.length + 1) [] [] 0 clip ks).reverse.map Page.text) cs ∧ ran = cs.map (List.map utf8) := by
  obtain ⟨-, hA, -⟩ := shell_aboard h h0 hrow
  obtain ⟨⟨ran, c, err, y⟩, hz⟩ := tinyLoop_ends hY hM (w.input.length + 1) (x := (x, w.print tinyBanner)) hA (guess_never (.inl rfl) h)
    (guess_never (.inr (.inr rfl)) h) (Nat.lt_succ_self _)
  obtain ⟨x', s, r, hu, hrl, h1, h2, -⟩ := tinyLoop_underway _ hz
  obtain ⟨qs, hist', n', clip', ks', o, cs, q1, -, q3, q4, q5, q6, q7, -, f', k1, k2, k3, k4⟩ := shell_underway h h0 hrow hY hM hu
  rw [tiny_reads q3.noTab] at hrl
  obtain ⟨s', r', e1, e2⟩ := C80_result_partial q3.desk fun k hk => guess_never (.inr (.inr rfl)) h k (q4.subset hk)
  rw [hrl] at e1
  cases e1
  obtain ⟨f', rfl⟩ : ∃ x, f' = x + 1 := ⟨f' - 1, by omega⟩
  rw [← oneLine_textbook] at e2
  have hone : ∀ l, (oneLine { shellDesk up with history := hist' } [] n' clip' ks').1 ≠ .entered l := by
    intro l hl
    rw [hl] at e2
    cases e2
    exact h2 h1.symm
  have hend : notebook (shellDesk up) wordy [] (f' + 1) hist' n' clip' ks' = (hist', (oneLine { shellDesk up with history := hist' } [] n' clip' ks').1) ∧
      leaves (shellDesk up) wordy [] (f' + 1) qs hist' n' clip' ks' = qs := by
    rw [notebook, leaves]
    generalize oneLine { shellDesk up with history := hist' } [] n' clip' ks' = a at hone
    obtain ⟨a, p, rest⟩ := a
    cases a with
    | entered l => exact absurd rfl (hone l)
    | _ => exact ⟨rfl, rfl⟩
  rw [k2, k4, hend.1, hend.2]
  refine ⟨ran, c, err, (y.1, y.2.print (replyErr err)), cs, r.text, by unfold main2; rw [hz]; rfl, ?_, ?_, q6, q7⟩
  · exact q3.desk.history
  · rw [← h1]; exact e2

/-- **When the shell has ended** with Ctrl-C or Ctrl-D: the cursor is in an empty row; above it stands `ERR=^C` or `ERR=EOF`, and above that the
row of the line that was given up, which Ctrl-C has emptied unless a key has left an old prediction. -/
theorem C85_end_partial (h : GuessTable E w up clip ks adv v) (h0 : v.col = 0) (hrow : ∀ y, v.cells v.row y = none) (hY : HandsOff Y)
    (hM : Mannered adv Y) {x : σ} {z : List (List Bytes) × Container × RLErr × (σ × World)} (hz : main2 Y E (x, w) = .ok z)
    (he : ∀ e, z.2.2.1 ≠ .tty e) :
    ∃ o a p, parting (shellDesk up) wordy [] (ks.length + 1) [] 0 clip ks = (a, p) ∧
      (a = .interrupted ∧ z.2.2.1 = .ctrlC ∨ a = .closed ∧ z.2.2.1 = .eof) ∧
      z.2.2.2.2.out = w.out ++ o ∧ (v.run adv (bytesOf E.cfg o)).mode = .ground ∧ (v.run adv (bytesOf E.cfg o)).col = 0 ∧
      (∀ x, (v.run adv (bytesOf E.cfg o)).cells (v.run adv (bytesOf E.cfg o)).row x = none) ∧
      Above adv (v.run adv (bytesOf E.cfg o)) 1 [farewellLine a] ∧
      ∃ room l m, roomsOf shellSign E.cfg w room ∧ (l = p.text ∧ m = p.left.length ∨ a = .interrupted ∧ l = [] ∧ m = 0) ∧
        ((∀ k ∈ ks, usualVerb k ∉ [.killRight, .killAll, .exchange, .older, .newer]) → l = if a = .interrupted then [] else p.text) ∧
        RowShows shellSign E.cfg adv (v.run adv (bytesOf E.cfg o)) ((v.run adv (bytesOf E.cfg o)).row - 2) room (l.map Char.toNat) m := by
  unfold main2 at hz
  obtain ⟨⟨ran, c, err, y⟩, hzl, hz'⟩ := bind_ok.mp hz
  cases hz'
  obtain ⟨x', s, r, hu, hrl, h1, h2, rfl⟩ := tinyLoop_underway _ hzl
  subst h1
  obtain ⟨qs, hist', n', clip', ks', o, cs, q1, ⟨rs, hrs⟩, q3, q4, q5, -, -, -, f', k1, -, k3, -⟩ := shell_underway h h0 hrow hY hM hu
  rw [tiny_reads q3.noTab] at hrl
  obtain ⟨a, p, rest, o', g1, g2, g3, g4, g5, g6, g7, ⟨room, l, m, j1, ⟨j2, j3⟩, j4⟩, -⟩ := call_abandoned (v0 := v.run adv (bytesOf E.cfg o)) (ps := [])
    q3.desk q3.console q3.wide (fun k hk => guess_never (.inl rfl) h k (q4.subset hk)) rfl q3.row.inside q3.row.clear q3.rooms dialogue_start hrl he h2
  obtain ⟨f', rfl⟩ : ∃ x, f' = x + 1 := ⟨f' - 1, by omega⟩
  have hp : parting (shellDesk up) wordy [] (f' + 1) hist' n' clip' ks' = (a, p) := by
    rw [parting, g1]
    rcases g2 with ⟨rfl, -⟩ | ⟨rfl, -⟩ <;> rfl
  rw [k3, hp]
  have hcut := cut_run (adv := adv) (v := v) (o' := o') hrs
  refine ⟨o ++ o', a, p, rfl, g2, ?_, by rw [hcut]; exact g4, by rw [hcut]; exact g5, by rw [hcut]; exact g6, by rw [hcut]; exact g7,
    room, l, m, j1, j2.imp id fun x => x.2, fun hf => ?_, by rw [hcut]; exact j4⟩
  · show s.out ++ [.lit (replyErr r.err)] = _
    rw [g3, q1, List.append_assoc]
  · have := j3 (.inr fun k hk => hf k (q4.subset hk))
    by_cases hi : a = .interrupted
    · rw [if_pos ⟨rfl, hi⟩] at this
      rw [if_pos hi, this]
    · rw [if_neg fun hx => hi hx.2] at this
      rw [if_neg hi, this]

/-- **Every page** the textbook's program comes to before a key is a state of the shell. -/
theorem opened_underway (hY : HandsOff Y) (hM : Mannered adv Y) {D : Desk} {ps ps' : List Page} {hist : List (List Char)} {n : Nat} {p : Page} {r : List (List Char)}
    (ho : Opened D wordy [] ps hist n clip ks ps' p r) : ∀ {c : Container} {x : σ × World} {v : Vt}, Aboard E c x.2 D hist n clip ks rooms adv v →
      (∀ k ∈ ks, D.verb k ≠ .redraw) →
      ∃ ran c' x' s, Underway Y E c x ran c' x' ∧ Reachable (tinyEnv Y E x'.1 c'.buffer) x'.2 s ∧ Upcoming s.input r ∧ s.text = utf8 p.text ∧
        s.cursor = (p.left.length : Int) := by
  induction ho with
  | here ht =>
    intro c x v h _
    obtain ⟨s, h1, h2, h3⟩ := turned_reached h.desk.setting (fails_there h.desk.setting h.desk.noCompletion h.desk.modest) ht
    exact ⟨[], c, x, s, .start, (reachable_tiny h.noTab h1).1, h3, by rw [← h2.text]; exact St.text_eq s, h2.cursor⟩
  | @next ps h n clip ks l q rest ps' p r g1 _ ih =>
    intro c x v hA hl
    rcases C78_bound_partial hA.desk with ⟨s, res, h1, h2⟩ | ⟨-, h2⟩
    · have hn : res.err = .nil := by
        rw [← oneLine_textbook, g1] at h2
        cases h2
        rfl
      obtain ⟨q', rest', o, k1, k2, -, -, k4, -, -, k7, -⟩ := hA.enters hl h1 hn
      rw [g1] at k1
      injection k1 with k1 k1'
      injection k1 with k1
      injection k1' with k1' k1''
      subst k1' k1'' k1
      have hrl : readLine (tinyEnv Y E x.1 c.buffer) x.2 = .ok (s, res) := by rw [tiny_reads hA.noTab]; exact h1
      by_cases hf : fields res.text = []
      · rw [if_pos hf] at k7
        obtain ⟨ran, c', x', s', j1, j2⟩ := ih (x := (x.1, s.world)) k7 fun k hk => hl k (k4.subset hk)
        exact ⟨ran, c', x', s', .blank hrl hn hf j1, j2⟩
      · rw [if_neg hf] at k7
        obtain ⟨o1, -, -, j3, -⟩ := k7.exec (x := x.1) hY hM (fields res.text)
        obtain ⟨ran, c', x', s', j1, j2⟩ := ih (x := Y.exec (fields res.text) (x.1, s.world)) j3 fun k hk => hl k (k4.subset hk)
        exact ⟨fields res.text :: ran, c', x', s', .run hrl hn hf j1, j2⟩
    · rw [← oneLine_textbook, g1] at h2
      cases h2

theorem C85_pages_partial (h : GuessTable E w up clip ks adv v) (h0 : v.col = 0) (hrow : ∀ y, v.cells v.row y = none) (hY : HandsOff Y)
    (hM : Mannered adv Y) (x : σ) {ps : List Page} {p : Page} {k : List Char} {r : List (List Char)}
    (ho : Opened (shellDesk up) wordy [] [] [] 0 clip ks ps p (k :: r)) :
    ∃ ran c' x' s, Underway Y E {} (x, w.print tinyBanner) ran c' x' ∧ Reachable (tinyEnv Y E x'.1 c'.buffer) x'.2 s ∧ noResize s.input ≠ [] ∧
      keysIn s.input = (k :: r).map utf8 ∧ s.text = utf8 p.text ∧ s.cursor = (p.left.length : Int) := by
  obtain ⟨-, hA, -⟩ := shell_aboard h h0 hrow
  obtain ⟨ran, c', x', s, h1, h2, h3, h4⟩ := opened_underway hY hM ho (x := (x, w.print tinyBanner)) hA (guess_never (.inl rfl) h)
  exact ⟨ran, c', x', s, h1, h2, upcoming_awaits h3, h3.keys, h4⟩

/-! ## Commands that write lines -/

theorem feed_roams (rs : List Rune) : ∀ {v : Vt}, (∀ r ∈ rs, r = 0x0A ∨ 0x20 ≤ r ∧ ¬ (0x7F ≤ r ∧ r ≤ 0x9F)) → v.mode = .ground → v.row < v.height →
    Clear v → (v.feed adv rs).mode = .ground ∧ (v.feed adv rs).row < (v.feed adv rs).height ∧ Clear (v.feed adv rs) := by
  induction rs with
  | nil => intro v _ h1 h2 h3; exact ⟨h1, h2, h3⟩
  | cons r rs ih =>
    intro v h h1 h2 h3
    rw [feed_cons]
    have hput : ∀ {u : Vt} {n : Int}, u.mode = .ground → u.row < u.height → Clear u →
        (u.put n r).mode = .ground ∧ (u.put n r).row < (u.put n r).height ∧ Clear (u.put n r) := by
      intro u n g1 g2 g3
      refine ⟨g1, g2, fun y hy x => ?_⟩
      have hy : u.row < y := hy
      show (if y = u.row ∧ u.col ≤ x ∧ x < u.col + n then some (r, x - u.col) else u.cells y x) = none
      rw [if_neg (by omega)]
      exact g3 y hy x
    have hnl : v.newline.mode = .ground ∧ v.newline.row < v.newline.height ∧ Clear v.newline :=
      ⟨by rw [newline_mode]; exact h1, newline_row v h2, (newline_clear h2 h3).1⟩
    have hr : (v.receive adv r).mode = .ground ∧ (v.receive adv r).row < (v.receive adv r).height ∧ Clear (v.receive adv r) := by
      rcases h r (by simp) with rfl | ⟨g1, g2⟩
      · have e : v.receive adv 0x0A = v.newline := by unfold Vt.receive; rw [h1]; rfl
        rw [e]; exact hnl
      · have e : v.receive adv r = v.print (adv r) r := by
          unfold Vt.receive
          rw [h1]
          dsimp only
          rw [if_neg (by omega), if_neg (by omega), if_neg (by omega), if_neg (by omega), if_neg (by omega)]
        rw [e]
        unfold Vt.print
        split
        · exact hput h1 h2 h3
        · exact hput hnl.1 hnl.2.1 hnl.2.2
    exact ih (fun r hr => h r (by simp [hr])) hr.1 hr.2.1 hr.2.2

/-- **Commands that write lines** of printable characters, each ended by a line feed, are such as the theorems ask for, whatever the widths. -/
theorem C85_lines {Y : System σ} (h : ∀ argv x, ∃ ls : List (List Char), (∀ l ∈ ls, ∀ c ∈ l, 0x20 ≤ c.toNat ∧ ¬ (0x7F ≤ c.toNat ∧ c.toNat ≤ 0x9F)) ∧
      (Y.exec argv x).2.out = x.2.out ++ [.lit (utf8 (ls.flatMap fun l => l ++ ['\n']))]) : Mannered adv Y := by
  intro argv x
  obtain ⟨ls, h1, h2⟩ := h argv x
  refine ⟨_, h2, ⟨_, Reads.valid ⟨_, rfl⟩⟩, ?_⟩
  clear h2
  intro v hv
  have e : v.run adv (utf8 (ls.flatMap fun l => l ++ ['\n'])) = v.feed adv ((ls.flatMap fun l => l ++ ['\n']).map Char.toNat) := by
    unfold Vt.run Vt.feed
    rw [runesOf_utf8]
  rw [e]
  clear e
  induction ls generalizing v with
  | nil => exact hv
  | cons l ls ih =>
    rw [List.flatMap_cons, List.map_append, feed_append]
    refine ih (fun l hl => h1 l (by simp [hl])) _ ?_
    rw [List.map_append, feed_append]
    obtain ⟨g1, g2, g3⟩ := feed_roams (adv := adv) (l.map Char.toNat) (fun r hr => by
      obtain ⟨c, hc, rfl⟩ := List.mem_map.mp hr
      exact .inr (h1 l (by simp) c hc)) hv.ground hv.inside hv.clear
    have e : (v.feed adv (l.map Char.toNat)).feed adv (['\n'].map Char.toNat) = (v.feed adv (l.map Char.toNat)).newline := by
      show (v.feed adv (l.map Char.toNat)).receive adv 0x0A = _
      unfold Vt.receive
      rw [g1]
      rfl
    rw [e]
    exact ⟨by rw [newline_mode]; exact g1, newline_col _, newline_row _ g2, (newline_clear g2 g3).1⟩

section
open Example

/-- Every command writes `ok` and ends the line. -/
def okSystem : System Unit :=
  { tinySystem with exec := fun _ x => (x.1, { x.2 with out := x.2.out ++ [.lit [0x6F, 0x6B, 0x0A]] }) }

/-- The same without ending the line. -/
def rudeSystem : System Unit :=
  { tinySystem with exec := fun _ x => (x.1, { x.2 with out := x.2.out ++ [.lit [0x6F, 0x6B]] }) }

theorem ok_ready : HandsOff okSystem ∧ Mannered adv okSystem :=
  ⟨fun _ _ => rfl, C85_lines fun _ _ => ⟨["ok".toList], by decide +kernel, by
    have : utf8 (["ok".toList].flatMap fun l => l ++ ['\n']) = [0x6F, 0x6B, 0x0A] := by decide +kernel
    rw [this]; rfl⟩⟩

/-- `ls 世`; a blank; then `l`, given up. -/
def shellKeys : List (List Char) := ["l", "s", " ", "世", "\r", " ", "\r", "l", "\x03"].map String.toList

def emptyRows : Vt := { width := 40, height := 4, row := 3, col := 0, cells := fun _ _ => none }

theorem shellKeys_ready : GuessTable (env table) { termWidth := 11, input := shellKeys.map fun k => .key (utf8 k) } id none shellKeys (plainColumns table)
    emptyRows := by
  have h := shown_console (ks := []) (evs := []) (by simp) (by simp) (by simp)
  refine ⟨fun _ => rfl, rfl, rfl, rfl, (fun u hu => by cases hu), by decide +kernel, (by intro x hx; simp at hx), by decide +kernel, ?_, .inr (by decide +kernel), ?_,
    table_agrees, h.ascii, h.width, h.zwj, by decide, by decide, (by intro x hx; simp at hx), rfl, by decide, by decide, fun y _ x => rfl⟩
  · have : ∀ k ∈ shellKeys, (usualVerb k = .type k ∧ ∀ c ∈ k, 0x20 ≤ c.toNat ∧ (c.toNat < 0x7F ∨ 0x9F < c.toNat)) ∨
        usualVerb k ∈ [.enter, .interrupt] := by decide +kernel
    intro k hk
    rcases this k hk with ⟨h1, h2⟩ | h1
    · exact .inl ⟨h1, fun c hc => ⟨table_plain (h2 c hc).2 (by have := (h2 c hc).1; omega), (h2 c hc).1⟩⟩
    · right
      simp only [List.mem_cons, List.not_mem_nil, or_false] at h1
      rcases h1 with h1 | h1 <;> rw [h1] <;> exact ⟨(fun u hu => by cases hu), by decide⟩
  · intro k hk c hc
    have : ∀ k ∈ shellKeys, ∀ c ∈ k.head?, (c.toNat < 0x7F ∨ 0x9F < c.toNat) ∧ c.toNat ≠ 9 := by decide +kernel
    exact .inr (table_plain (this k hk c hc).1 (this k hk c hc).2)

/-- What the textbook's program does with these keys: two lines are entered, one is kept, the third is given up. -/
example : notebook (shellDesk id) wordy [] 10 [] 0 none shellKeys = (["ls 世".toList], .interrupted) ∧
    (leaves (shellDesk id) wordy [] 10 [] [] 0 none shellKeys).map Page.text = [" ".toList, "ls 世".toList] := by decide +kernel

/-- The first columns of the rows from the cursor upwards. -/
def shellRows (m : Nat) (o : List Tok) : List (List (Option (Char × Int))) :=
  let v := emptyRows.run (plainColumns table) (bytesOf table o)
  (List.range m).map fun (k : Nat) => (List.range 8).map fun (i : Nat) => (v.cells (v.row - k) i).map fun c => (Char.ofNat c.1, c.2)

/-- The commands, the history and the rows in the end. -/
example : (match main2 okSystem (env table) ((), { termWidth := 11, input := shellKeys.map fun k => .key (utf8 k) }) with
    | .ok z => (z.1, z.2.1.buffer, shellRows 7 z.2.2.2.2.out)
    | .error _ => ([], [], [])) =
    ([[b "ls", b "世"]], [b "ls 世"],
     [[none, none, none, none, none, none, none, none],
      [some ('E', 0), some ('R', 0), some ('R', 0), some ('=', 0), some ('^', 0), some ('C', 0), none, none],
      [some ('$', 0), some (' ', 0), none, none, none, none, none, none],
      [some ('$', 0), some (' ', 0), some (' ', 0), none, none, none, none, none],
      [some ('o', 0), some ('k', 0), none, none, none, none, none, none],
      [some ('$', 0), some (' ', 0), some ('l', 0), some ('s', 0), some (' ', 0), some ('世', 0), some ('世', 1), none],
      [some ('T', 0), some ('i', 0), some ('n', 0), some ('y', 0), some (' ', 0), some ('S', 0), some ('h', 0), some ('e', 0)]]) := by decide +kernel

/-- **A command that does not end its line** takes the place of the prompt: the first key erases the prompt behind what the command has written, and the
line is shown from the third column on.  After `l`, whose output is `ok`, and then `z` the row is `okz`, not `$ z`. -/
theorem C85_refuted :
    (match main2 rudeSystem (env table) ((), { termWidth := 11, input := ["l", "\r", "z", "\r", "\x04"].map fun k => .key (b k) }) with
    | .ok z => shellRows 5 z.2.2.2.2.out
    | .error _ => []) =
     [[none, none, none, none, none, none, none, none],
      [some ('E', 0), some ('R', 0), some ('R', 0), some ('=', 0), some ('E', 0), some ('O', 0), some ('F', 0), none],
      [some ('o', 0), some ('k', 0), none, none, none, none, none, none],
      [some ('o', 0), some ('k', 0), some ('z', 0), none, none, none, none, none],
      [some ('$', 0), some (' ', 0), some ('l', 0), none, none, none, none, none]] := by decide +kernel

end

end Readline

import Verif.Model.Ruler
import Verif.Proof.LedgeEnd
import Verif.Props.C86
import Verif.Props.C88
import Verif.Props.C39
/-!
# C90: prompts of two rows, and the programs that test the widths of characters

With a prompt of two rows the first one stays above the line.  test/unicodetest and test/unicodetest10 have such a prompt, a ruler: whenever a key is
awaited, the digit `i` stands above the column `i` of the line.
-/
namespace Readline
open Spec

variable {E : Env} {w : World} {D : Desk} {t : List Char} {n : Nat} {clip : Option (List Char)} {ks : List (List Char)} {adv : Rune → Int} {v : Vt}
  {top mark : List Stroke} {up : List Char → List Char} {zwjs : Bool}

/-! ## Prompts of two rows -/

/-- **Whenever a key is awaited** and the prompt has two rows, the terminal shows the page of the textbook behind the second row of the prompt, the first
row of the prompt is above it, and the rows above that one are as before.  The hypotheses are those for the editor that has only the second row as its
prompt. -/
theorem C90_partial (ht : ∀ s ∈ top, s.Fine E.cfg) (hm : ∀ s ∈ mark, s.Fine E.cfg) (h : PlainDesk (markOnly E mark) w D t n clip ks)
    (hC : Console (markSign mark) (markOnly E mark) w D t clip ks adv v) (hft : textColumns E.cfg (top.flatMap Stroke.seen) ≤ v.width)
    (hi : v.row < v.height) (hl : ∀ k ∈ ks, D.verb k ≠ .redraw) {s : St} (hr : Reachable (ledged E top mark) w s) (hn : noResize s.input ≠ []) :
    ∃ p k r o hint, Turned D (opening D t n clip) ks p (k :: r) ∧ keysIn s.input = (k :: r).map utf8 ∧ s.out = w.out ++ o ∧
      ShowsPage (markSign mark) E.cfg adv (v.run adv (bytesOf E.cfg o)) (s.termWidth - (markSign mark).columns E.cfg - 3) p hint ∧
      Topped E.cfg adv (top.flatMap Stroke.seen) v (v.run adv (bytesOf E.cfg o)) ∧
      ((D.guessing = false ∨ ∀ k ∈ ks, D.verb k ∉ [.killRight, .killAll, .exchange, .older, .newer]) → hint = (p.offer D).map Char.toNat) := by
  have hw := hC.sign.width w.promptN
  have hd := ledge_desk ht hm h hw
  have hb := hd.setting.builtin
  have hA : AgreesPlain E.cfg adv := hC.agrees
  obtain ⟨ho, hx⟩ := ledge_ordinary ht hm h hC
  have hroom := h.room
  have hcols : promptWidth (markOnly E mark) w.promptN = (markSign mark).columns E.cfg := hw
  have hwide := hC.wide
  have h0 : 0 ≤ (markSign mark).columns E.cfg := hC.sign.nonneg
  have hfm : (markSign mark).columns E.cfg < v.width := by omega
  have hnn : ∀ m : Moji, 0 ≤ m.width E.cfg := width_nonneg hC.width hC.zwj
  have hv0 : v.col = 0 := hC.start.resolve_left (fun h => by cases h)
  obtain ⟨p, r, g1, g2, g3⟩ := reachable_drawn hd.setting hr
  -- the row of the line
  obtain ⟨o, e1, h2, h3⟩ := C58_prompt_partial (E := ledged E top mark) (ps := mark.flatMap Stroke.seen) hb ho hx hA hnn hC.colourOn hC.colourOff
    (hC.sign.plain) (ledged_width ht hm _) (fun b hb => ledge_announces hA ht hm hft (Int.le_of_lt hfm) hb) hC.ground hC.col hC.wide hC.resized hr hn
  -- the other rows
  have hun : ∀ k, .key k ∈ w.input → lookupCommand (ledged E top mark) k ≠ .clearScreen ∧ lookupCommand (ledged E top mark) k ≠ .repaintOnNewline :=
    console_unfed hd hl
  obtain ⟨ts, e, hts⟩ := (ordinary_rowed hun hb ho.scalar hx.scalar (ledged_width ht hm) hr).out
  have e : s.out = w.out ++ .lit (signBytes (ledged E top mark) w.promptN) :: ts := by rw [e]; simp
  obtain ⟨t1, e2, hin⟩ := session_within (E := ledged E top mark) (blur_sane (E := ledged E top mark) (adv := adv) (W := v.width) hnn) hb
    (ordinary_steady hb ho) hC.wide hC.resized hr hn
  obtain rfl := List.append_cancel_left (e.symm.trans e2)
  obtain rfl := List.append_cancel_left (e.symm.trans e1)
  obtain ⟨hlev, -⟩ := ledge_rows (v := v) (n := w.promptN) hA hC.colourOn hC.colourOff ht hm hft hfm
    (fun t ht => rowed_weaken (fun r hr => ⟨hr.1.1, hr.2⟩) (hts t ht)) hC.ground hv0 (Int.le_trans (hin _) (by
      show max (0 : Int) (v.width - 3) ≤ v.width
      omega))
  cases r with
  | nil => exact absurd rfl (awaits_upcoming g3 hn)
  | cons k r =>
    have htx : s.text = utf8 p.text := by rw [← g2.text]; exact St.text_eq s
    have hcu : s.cursor = (p.left.length : Int) := g2.cursor
    refine ⟨p, k, r, _, runesOf (lineText s.suffixList), g1, g3.keys, e1, ⟨h3, ?_⟩, level_topped hA ht hC.ground hv0 hi hft hlev, fun hf => ?_⟩
    · rw [htx, runesOf_utf8, hcu] at h2
      exact h2
    · have := offers hd.setting hr g2 (hf.imp id fun hx k hk => stales_means (hd.means k hk) (hx k hk))
      have e : lineText s.suffixList = utf8 (p.offer D) := this.text
      rw [e, runesOf_utf8]

/-- **When the call has ended**, the two rows of the prompt stay where they are, the second with the line, and what a program prints afterwards stands below
them.  Only after Ctrl-C, and only if predictions are shown, the line is gone (`Remains`). -/
theorem C90_end_partial {rooms : Int → Prop} (ht : ∀ s ∈ top, s.Fine E.cfg) (hm : ∀ s ∈ mark, s.Fine E.cfg) (h : PlainDesk (markOnly E mark) w D t n clip ks)
    (hC : Console (markSign mark) (markOnly E mark) w D t clip ks adv v) (hft : textColumns E.cfg (top.flatMap Stroke.seen) ≤ v.width)
    (hl : ∀ k ∈ ks, D.verb k ≠ .redraw) (hlf : E.lineFeed = none) (hi : v.row < v.height) (hcl : Clear v)
    (hrooms : ∀ x, x = w.termWidth ∨ .resize x ∈ w.input → rooms (x - (markSign mark).columns E.cfg - 3)) {s : St} {r : RLRes}
    (hrl : readLine (ledged E top mark) w = .ok (s, r)) (he : ∀ e, r.err ≠ .tty e) (f : Ending → List (List Char))
    (hf : ∀ a, a.answer = some r → ∀ x ∈ f a, ∀ c ∈ x, Readable E.cfg c.toNat) :
    ∃ a p, ∃ q : Page, ∃ rest o, oneLine D t n clip ks = (a, p, rest) ∧ Remains D ks a p q.text q.left.length ∧ a.answer = some r ∧
      s.out ++ (f a).map (fun x => .lit (utf8 (x ++ ['\n']))) = w.out ++ o ∧
      LedgeRows (markSign mark) E.cfg adv rooms (top.flatMap Stroke.seen) v (v.run adv (bytesOf E.cfg o)) q (f a) :=
  ledge_end ht hm h hC hft hl hlf hi hcl hrooms hrl he f hf

/-! ## The ruler -/

/-- The first row of the prompt of test/unicodetest. -/
def Spec.rulerTop : List Stroke := "  0123456789ABCDEF".toList.map .letter

/-- The second row. -/
def Spec.rulerMark : List Stroke := [.letter '$', .letter ' ']

/-- What the program starts from: the functions of strings and the widths. -/
def Spec.ruled (zwjs : Bool) (E : Env) : Env := { E with cfg := rulerCfg zwjs E.cfg }

theorem ruler_bytes : ledge rulerTop rulerMark = rulerPrompt := by decide +kernel

/-- The editor without its prompt. -/
def rulerBase (zwjs : Bool) (E : Env) : Env := { bareEditor (ruled zwjs E) with coloring := vimBatch }

theorem ruler_ledged (zwjs : Bool) (E : Env) : rulerEditor zwjs E = ledged (rulerBase zwjs E) rulerTop rulerMark := by
  unfold ledged
  rw [ruler_bytes]
  rfl

theorem letters_fine {C : Cfg} (ha : ∀ r, 0x20 ≤ r → r ≤ 0x7E → Plain C r) {cs : List Char} (h : ∀ c ∈ cs, 0x20 ≤ c.toNat ∧ c.toNat ≤ 0x7E) :
    ∀ s ∈ cs.map Stroke.letter, s.Fine C := by
  intro s hs
  obtain ⟨c, hc, rfl⟩ := List.mem_map.mp hs
  obtain ⟨h1, h2⟩ := h c hc
  exact ⟨ha _ h1 h2, h1, by unfold Padded; omega⟩

theorem ruler_fine {C : Cfg} (ha : ∀ r, 0x20 ≤ r → r ≤ 0x7E → Plain C r) : (∀ s ∈ rulerTop, s.Fine C) ∧ ∀ s ∈ rulerMark, s.Fine C :=
  ⟨letters_fine ha (by decide +kernel), letters_fine (cs := ['$', ' ']) ha (by decide)⟩

theorem letters_seen (cs : List Char) : (cs.map Stroke.letter).flatMap Stroke.seen = cs.map Char.toNat := by
  induction cs with
  | nil => rfl
  | cons c cs ih => rw [List.map_cons, List.flatMap_cons, ih]; rfl

theorem ascii_columns {C : Cfg} (hA : AgreesPlain C adv) (ha : ∀ r, 0x20 ≤ r → r ≤ 0x7E → Plain C r) {r : Rune} (h1 : 0x20 ≤ r) (h2 : r ≤ 0x7E) :
    plainColumns C r = 1 := by
  rw [← hA.plain r (ha _ h1 h2) h1 (by unfold Padded; omega)]
  exact hA.ascii _ h1 h2

theorem text_columns {C : Cfg} (hA : AgreesPlain C adv) (ha : ∀ r, 0x20 ≤ r → r ≤ 0x7E → Plain C r) {rs : List Rune}
    (h : ∀ r ∈ rs, 0x20 ≤ r ∧ r ≤ 0x7E) : textColumns C rs = rs.length := by
  induction rs with
  | nil => rfl
  | cons r rs ih =>
    show plainColumns C r + textColumns C rs = _
    rw [ih (fun x hx => h x (by simp [hx])), ascii_columns hA ha (h r (by simp)).1 (h r (by simp)).2, List.length_cons]
    omega

/-- Printable ASCII on the terminal: one character per column. -/
theorem ascii_picture {C : Cfg} (hA : AgreesPlain C adv) (ha : ∀ r, 0x20 ≤ r → r ≤ 0x7E → Plain C r) {rs : List Rune}
    (h : ∀ r ∈ rs, 0x20 ≤ r ∧ r ≤ 0x7E) (start : Int) (i : Nat) (hi : i < rs.length) : picture C adv rs start (start + i) = some (rs[i], 0) := by
  induction rs generalizing start i with
  | nil => cases hi
  | cons r rs ih =>
    obtain ⟨h1, h2⟩ := h r (by simp)
    have hc := ascii_columns hA ha h1 h2
    show (if start ≤ start + i ∧ start + i < start + plainColumns C r then some (seenOf adv r (start + i - start))
      else picture C adv rs (start + plainColumns C r) (start + i)) = _
    cases i with
    | zero =>
      rw [if_pos (by omega)]
      unfold seenOf
      rw [if_neg (by omega), if_pos (by rw [hA.ascii _ h1 h2]; omega)]
      simp
    | succ i =>
      rw [if_neg (by omega), hc, show start + ((i + 1 : Nat) : Int) = start + 1 + (i : Int) by omega,
        ih (fun x hx => h x (by simp [hx])) _ i (by simpa using hi)]
      rfl

theorem ruler_columns {C : Cfg} (hA : AgreesPlain C adv) (ha : ∀ r, 0x20 ≤ r → r ≤ 0x7E → Plain C r) :
    textColumns C (rulerTop.flatMap Stroke.seen) = 18 ∧ (markSign rulerMark).columns C = 2 :=
  ⟨text_columns hA ha (by decide +kernel), text_columns hA ha (rs := [0x24, 0x20]) (by decide)⟩

theorem ruler_sign (h : LoneTable (ruled zwjs E) w up clip ks adv v) :
    (markSign rulerMark).Of (markOnly (rulerBase zwjs E) rulerMark) adv v.width := by
  refine poster_sign (E := markOnly (rulerBase zwjs E) rulerMark) h.agrees (l := .straight) (ss := rulerMark) rfl (ruler_fine h.ascii).2 ?_
  have h1 := h.room
  have h2 := h.wide
  have h3 : textColumns (ruled zwjs E).cfg (rulerMark.flatMap Stroke.seen) = 2 := (ruler_columns h.agrees h.ascii).2
  show textColumns (ruled zwjs E).cfg (rulerMark.flatMap Stroke.seen) ≤ v.width
  omega

theorem ruler_desk (h : LoneTable (ruled zwjs E) w up clip ks adv v) :
    PlainDesk (markOnly (rulerBase zwjs E) rulerMark) w (loneDesk up) [] 0 clip ks :=
  have hd := lone_desk h
  have hw : promptWidth (markOnly (rulerBase zwjs E) rulerMark) w.promptN = 2 :=
    ((ruler_sign h).width _).trans (ruler_columns h.agrees h.ascii).2
  { hd with
    predictor := foresees_usual rfl rfl
    top := .inl rfl
    prompt := fun _ => rfl
    room := by rw [hw]; exact h.room
    resized := fun n hn => by rw [hw]; exact (h.resized n hn).1 }

theorem ruler_console (h : LoneTable (ruled zwjs E) w up clip ks adv v) (hv : v.col = 0) :
    Console (markSign rulerMark) (markOnly (rulerBase zwjs E) rulerMark) w (loneDesk up) [] clip ks adv v where
  promptErr := rfl
  colourOn := .inl rfl
  colourOff := .inl rfl
  agrees := h.agrees
  ascii := h.ascii
  width := h.width
  zwj := h.zwj
  begins := h.begins
  narrow := fun ⟨k, hk, hx⟩ => absurd hx (lone_never (.inr (.inr rfl)) h k hk)
  narrowGuess := fun _ => within_newest rfl _
  ground := h.ground
  col := h.col
  sign := ruler_sign h
  start := .inr hv
  wide := h.wide
  resized := fun n hn => (h.resized n hn).2

theorem ruler_full (h : LoneTable (ruled zwjs E) w up clip ks adv v) :
    PlainDesk (ledged (rulerBase zwjs E) rulerTop rulerMark) w (loneDesk up) [] 0 clip ks :=
  ledge_desk (ruler_fine h.ascii).1 (ruler_fine h.ascii).2 (ruler_desk h) ((ruler_sign h).width _)

/-- **Whenever test/unicodetest waits for a key** the terminal shows the page of the textbook behind `$ `, and the digit `i` stands above the column `i`
of the line. -/
theorem C90_ruler_partial (h : LoneTable (ruled zwjs E) w up clip ks adv v) (hv : v.col = 0) (hw : 18 ≤ v.width) {s : St}
    (hr : Reachable (rulerEditor zwjs E) w s) (hn : noResize s.input ≠ []) :
    ∃ p k r o, Turned (loneDesk up) (opening (loneDesk up) [] 0 clip) ks p (k :: r) ∧ keysIn s.input = (k :: r).map utf8 ∧ s.out = w.out ++ o ∧
      let u := v.run adv (bytesOf (rulerCfg zwjs E.cfg) o)
      ShowsPage ⟨false, [0x24, 0x20]⟩ (rulerCfg zwjs E.cfg) adv u (s.termWidth - 5) p [] ∧
      (∀ (i : Nat) (hi : i < 16), u.cells (u.row - 1) (2 + i) = some ("0123456789ABCDEF".toList[i].toNat, 0)) ∧
      u.cells (u.row - 1) 0 = some (0x20, 0) ∧ u.cells (u.row - 1) 1 = some (0x20, 0) ∧
      (∀ x, 18 ≤ x → u.cells (u.row - 1) x = v.cells v.row x) ∧
      ∀ k, 1 ≤ k → u.cells (u.row - (1 + k)) = v.cells (v.row - k) := by
  have hA : AgreesPlain (rulerCfg zwjs E.cfg) adv := h.agrees
  have ha : ∀ r, 0x20 ≤ r → r ≤ 0x7E → Plain (rulerCfg zwjs E.cfg) r := h.ascii
  obtain ⟨hc1, hc2⟩ := ruler_columns hA ha
  rw [ruler_ledged] at hr
  obtain ⟨p, k, r, o, hint, h1, h2, h3, h4, ⟨t1, t2, t3⟩, h5⟩ := C90_partial (E := rulerBase zwjs E) (ruler_fine h.ascii).1 (ruler_fine h.ascii).2
    (ruler_desk h) (ruler_console h hv) (by
      show textColumns (rulerCfg zwjs E.cfg) _ ≤ _
      omega) h.inside (lone_never (.inl rfl) h) hr hn
  have h5 := h5 (.inl rfl)
  rw [show p.offer (loneDesk up) = [] by unfold Page.offer; rw [if_pos (.inl rfl)]] at h5
  subst h5
  rw [show (rulerBase zwjs E).cfg = rulerCfg zwjs E.cfg from rfl] at h4 t1 t2
  rw [hc2, show s.termWidth - 2 - 3 = s.termWidth - 5 by omega] at h4
  rw [hc1] at t1 t2
  have e : rulerTop.flatMap Stroke.seen = [0x20, 0x20] ++ "0123456789ABCDEF".toList.map Char.toNat := by decide +kernel
  have hlen : ("0123456789ABCDEF".toList.map Char.toNat).length = 16 := by decide +kernel
  have hpic := fun i hi => ascii_picture hA ha (rs := rulerTop.flatMap Stroke.seen) (by decide +kernel) 0 i hi
  have hl : (rulerTop.flatMap Stroke.seen).length = 18 := by decide +kernel
  refine ⟨p, k, r, o, h1, h2, h3, h4, fun i hi => ?_, ?_, ?_, t2, t3⟩
  · rw [show (rulerBase zwjs E).cfg = rulerCfg zwjs E.cfg from rfl] at *
    rw [t1 (2 + i) (by omega) (by omega)]
    have := hpic (i + 2) (by omega)
    rw [show (0 : Int) + ((i + 2 : Nat) : Int) = 2 + i by omega] at this
    rw [this]
    have hd : ∀ i (hi : i < 16), (rulerTop.flatMap Stroke.seen)[i + 2]? = some "0123456789ABCDEF".toList[i].toNat := by decide +kernel
    have := hd i hi
    rw [List.getElem?_eq_getElem (by omega)] at this
    injection this with this
    rw [this]
  · rw [t1 0 (by omega) (by omega)]
    exact (hpic 0 (by omega)).trans (by congr 1)
  · rw [t1 1 (by omega) (by omega)]
    exact (hpic 1 (by omega)).trans (by congr 1)

/-- **What test/unicodetest does in the end**: it says what the textbook says was entered, or why there is nothing, and its status tells which. -/
theorem C90_main_partial (h : LoneTable (ruled zwjs E) w up clip ks adv v) :
    ∃ r status w' o, mainRuler zwjs none E w = .ok (some r, status, w') ∧ (textbook (loneDesk up) [] 0 clip ks).answer = some r ∧
      (r.err = .nil ↔ status = 0) ∧ (r.err ≠ .nil ↔ status = 1) ∧
      w'.out = w.out ++ o ++ [.lit (if r.err = .nil then b "TEXT=" ++ r.text ++ b "\n" else r.err.message ++ b "\n")] := by
  obtain ⟨s, r, hrl, h2⟩ := C80_result_partial (ruler_full h) (lone_never (.inr (.inr rfl)) h)
  obtain ⟨o, ho, -⟩ := C39 (ruler_full h).builtin hrl true
  unfold mainRuler
  rw [ruler_ledged, hrl]
  have hb1 : b "TEXT=" = [0x54, 0x45, 0x58, 0x54, 0x3D] := by decide +kernel
  have hb2 : b "\n" = [0x0A] := by decide +kernel
  cases he : r.err with
  | nil =>
    refine ⟨r, 0, s.world.print (replyText r.text), o, ?_, h2, by simp [he], by simp [he], ?_⟩
    · show (match r.err with | .nil => _ | err => _) = _
      rw [he]
      rfl
    · rw [if_pos he, hb1, hb2, ← ho]
      rfl
  | _ =>
    refine ⟨r, 1, s.world.print (r.err.message ++ [0x0A]), o, ?_, h2, by simp [he], by simp [he], ?_⟩
    · show (match r.err with | .nil => _ | err => _) = _
      rw [he]
      rfl
    · rw [if_neg (by simp [he]), hb2, ← ho]
      rfl

/-- What the program says about the line. -/
def Spec.ruleTold : Ending → List Char
  | .entered l => "TEXT=".toList ++ l
  | .interrupted => "^C".toList
  | .closed => "EOF".toList
  | _ => []

theorem rule_told {a : Ending} {r : RLRes} (ha : a.answer = some r) (he : ∀ e, r.err ≠ .tty e) :
    (if r.err = .nil then b "TEXT=" ++ r.text ++ b "\n" else r.err.message ++ b "\n") = utf8 (ruleTold a ++ ['\n']) := by
  have hn : b "\n" = utf8 ['\n'] := by decide +kernel
  cases a with
  | entered l =>
    cases ha
    show b "TEXT=" ++ utf8 l ++ b "\n" = utf8 ("TEXT=".toList ++ l ++ ['\n'])
    rw [utf8_append, utf8_append, hn, show b "TEXT=" = utf8 "TEXT=".toList by decide +kernel]
  | interrupted => cases ha; decide +kernel
  | closed => cases ha; decide +kernel
  | starved => cases ha; exact absurd rfl (he _)
  | crashed => cases ha

theorem rule_readable (h : LoneTable (ruled zwjs E) w up clip ks adv v) {a : Ending} {s : St} {r : RLRes}
    (hrl : readLine (ledged (rulerBase zwjs E) rulerTop rulerMark) w = .ok (s, r)) (ha : a.answer = some r) :
    ∀ c ∈ ruleTold a, Readable (rulerCfg zwjs E.cfg) c.toNat := by
  have ok : ∀ x : List Char, (∀ c ∈ x, 0x20 ≤ c.toNat ∧ c.toNat ≤ 0x7E) → ∀ c ∈ x, Readable (rulerCfg zwjs E.cfg) c.toNat :=
    fun x hx c hc => ⟨h.ascii _ (hx c hc).1 (hx c hc).2, (hx c hc).1⟩
  have hg := lone_legible h
  have hd := ruler_full h
  cases a with
  | entered l =>
    intro c hc
    rcases List.mem_append.mp hc with hc | hc
    · exact ok _ (by decide +kernel) c hc
    · have ha : (⟨utf8 l, .nil⟩ : RLRes) = r := by injection ha
      obtain ⟨l', p, rest, g1, g2, -, g4, -, -, g7, -⟩ := line_entered hd.setting hrl (by rw [← ha])
      have hl : l' = l := utf8_injective (by rw [← g2, ← ha])
      exact (legible_next (keep := fun _ => true) hd hg hrl g2 g4 g7).1 c (hl ▸ hc)
  | interrupted => exact ok _ (by decide +kernel)
  | closed => exact ok _ (by decide +kernel)
  | starved => intro c hc; cases hc
  | crashed => intro c hc; cases hc

/-- **The rows in the end**: the ruler, below it the line behind `$ `, and below it what the program says. -/
theorem C90_rows_partial (h : LoneTable (ruled zwjs E) w up clip ks adv v) (hv : v.col = 0) (hw : 18 ≤ v.width) {r : RLRes} {status : Nat} {w' : World}
    (hm : mainRuler zwjs none E w = .ok (some r, status, w')) (he : ∀ e, r.err ≠ .tty e) :
    ∃ a p rest o, oneLine (loneDesk up) [] 0 clip ks = (a, p, rest) ∧ a.answer = some r ∧ w'.out = w.out ++ o ∧
      LedgeRows ⟨false, [0x24, 0x20]⟩ (rulerCfg zwjs E.cfg) adv (fun x => x = w.termWidth - 5 ∨ .resize (x + 5) ∈ w.input)
        ("  0123456789ABCDEF".toList.map Char.toNat) v (v.run adv (bytesOf (rulerCfg zwjs E.cfg) o)) p [ruleTold a] := by
  obtain ⟨hc1, hc2⟩ := ruler_columns (C := rulerCfg zwjs E.cfg) h.agrees h.ascii
  obtain ⟨s, r', hrl, -⟩ := C80_result_partial (ruler_full h) (lone_never (.inr (.inr rfl)) h)
  have hout : r' = r ∧ w'.out = s.out ++ [.lit (if r.err = .nil then b "TEXT=" ++ r.text ++ b "\n" else r.err.message ++ b "\n")] := by
    have hb1 : b "TEXT=" = [0x54, 0x45, 0x58, 0x54, 0x3D] := by decide +kernel
    have hb2 : b "\n" = [0x0A] := by decide +kernel
    unfold mainRuler at hm
    rw [ruler_ledged, hrl] at hm
    have hm : (match r'.err with
      | .nil => Except.ok (some r', 0, s.world.print (replyText r'.text))
      | err => Except.ok (some r', 1, s.world.print (err.message ++ [0x0A]))) = (Except.ok (some r, status, w') : M _) := hm
    cases hx : r'.err <;> rw [hx] at hm <;> cases hm
    · rw [if_pos hx, hb1, hb2]; exact ⟨rfl, rfl⟩
    all_goals rw [if_neg (by rw [hx]; simp), hb2, hx]; exact ⟨rfl, rfl⟩
  obtain ⟨rfl, hout⟩ := hout
  obtain ⟨a, p, q, rest, o, h1, hq, h2, h3, h4⟩ := C90_end_partial (E := rulerBase zwjs E) (rooms := fun x => x = w.termWidth - 5 ∨ .resize (x + 5) ∈ w.input)
    (ruler_fine h.ascii).1 (ruler_fine h.ascii).2 (ruler_desk h) (ruler_console h hv)
    (by
      show textColumns (rulerCfg zwjs E.cfg) _ ≤ _
      omega) (lone_never (.inl rfl) h) rfl h.inside h.clear
    (fun x hx => by
      rw [show (rulerBase zwjs E).cfg = rulerCfg zwjs E.cfg from rfl, hc2]
      rcases hx with rfl | hx
      · left; omega
      · right; rw [show x - 2 - 3 + 5 = x by omega]; exact hx) hrl he (fun a => [ruleTold a])
    (fun a ha x hx => by rw [List.mem_singleton.mp hx]; exact rule_readable h hrl ha)
  obtain ⟨e1, e2⟩ := hq.1.resolve_right fun hx => by cases hx.1
  refine ⟨a, p, rest, o, h1, h2, ?_, ?_⟩
  · rw [← h3, hout, rule_told h2 he]
    rfl
  · rw [← letters_seen]
    unfold LedgeRows at h4 ⊢
    rw [e1, e2] at h4
    exact h4

/-- If the file cannot be made, no key is read. -/
theorem C90_log {err : Bytes} : mainRuler zwjs (some err) E w = .ok (none, 1, { w with out := w.out ++ [.lit (err ++ b "\n")] }) := by
  have hb2 : b "\n" = [0x0A] := by decide +kernel
  rw [hb2]
  rfl

/-! ## Joined characters -/

/-- `c` with the characters `cs` joined to it. -/
def Spec.chain (c : Char) (cs : List Char) : List Char := c :: cs.flatMap fun d => ['\u200d', d]

theorem chain_loop {C : Cfg} (hz : C.zwjOk = true) (cs : List Char) (last : Moji) (pos : Int) :
    segLoop C ((cs.flatMap fun d => ['\u200d', d]).map Char.toNat) false [last] pos = [cs.foldl (fun m d => .zwj m (.raw d.toNat)) last] := by
  induction cs generalizing last with
  | nil => rfl
  | cons d cs ih =>
    have h1 : isZeroWidthJoin C 0x200D = true := by unfold isZeroWidthJoin; rw [hz]; rfl
    have h2 : isJoiner C 0x200D = true := by unfold isJoiner; rw [h1]; rfl
    show segLoop C (0x200D :: d.toNat :: (cs.flatMap fun d => ['\u200d', d]).map Char.toNat) false [last] pos = _
    rw [segLoop, if_neg (by decide), if_neg (by rw [h2]; simp), if_pos h1, segLoop, if_pos rfl]
    exact ih _

theorem chain_unit {C : Cfg} (hz : C.zwjOk = true) (c : Char) (cs : List Char) :
    stringToMoji C (utf8 (chain c cs)) = [cs.foldl (fun m d => .zwj m (.raw d.toNat)) (rune2moji C c.toNat 0)] := by
  unfold stringToMoji
  rw [stringToMojiLoop_eq, runesOf_utf8]
  show segLoop C (c.toNat :: _) false [] 0 = _
  rw [segLoop, if_neg (by decide), if_pos (.inl rfl)]
  exact chain_loop hz cs _ _

/-- **What `ZWJS` is for**: characters that are joined are one unit on every terminal where joining is enabled; with the environment variable it has the
columns of the widest of them, without it (moji.go:20-22) one more column for every joiner than they have together. -/
theorem C90_joined (hz : E.cfg.zwjOk = true) {c : Char} (hc : Plain E.cfg c.toNat) (cs : List Char) :
    (∃ m, stringToMoji (rulerEditor true E).cfg (utf8 (chain c cs)) = [m] ∧
      m.width (rulerEditor true E).cfg = cs.foldl (fun x d => max x (E.cfg.width d.toNat)) (plainColumns E.cfg c.toNat)) ∧
    (E.cfg.zwjWidth = defaultZwjWidth → ∃ m, stringToMoji (rulerEditor false E).cfg (utf8 (chain c cs)) = [m] ∧
      m.width (rulerEditor false E).cfg = cs.length + (cs.map fun d => E.cfg.width d.toNat).sum + plainColumns E.cfg c.toNat) := by
  have hp := (plain_columns hc).2.1
  refine ⟨⟨_, chain_unit (C := (rulerEditor true E).cfg) hz c cs, ?_⟩, fun hd => ⟨_, chain_unit (C := (rulerEditor false E).cfg) hz c cs, ?_⟩⟩
  · have key : ∀ (cs : List Char) (m : Moji) (x : Int), m.width (rulerEditor true E).cfg = x →
        (cs.foldl (fun m d => Moji.zwj m (.raw d.toNat)) m).width (rulerEditor true E).cfg = cs.foldl (fun x d => max x (E.cfg.width d.toNat)) x := by
      intro cs
      induction cs with
      | nil => exact fun m x h => h
      | cons d cs ih =>
        intro m x h
        refine ih _ _ ?_
        show (if E.cfg.width d.toNat > m.width (rulerEditor true E).cfg then E.cfg.width d.toNat else m.width (rulerEditor true E).cfg) = _
        rw [h]
        show _ = max x (E.cfg.width d.toNat)
        split <;> omega
    exact key cs _ _ (plain_columns (C := (rulerEditor true E).cfg) ⟨hc.alone, hc.noTab, hc.shown, hc.columns⟩).2.1
  · have key : ∀ (cs : List Char) (m : Moji), (cs.foldl (fun m d => Moji.zwj m (.raw d.toNat)) m).width E.cfg =
        cs.length + (cs.map fun d => E.cfg.width d.toNat).sum + m.width E.cfg := by
      intro cs
      induction cs with
      | nil =>
        intro m
        show m.width E.cfg = ((0 : Nat) : Int) + 0 + m.width E.cfg
        omega
      | cons d cs ih =>
        intro m
        rw [List.foldl_cons, ih, List.map_cons, List.sum_cons, List.length_cons]
        show _ + E.cfg.zwjWidth (m.width E.cfg) (E.cfg.width d.toNat) = _
        rw [hd]
        unfold defaultZwjWidth
        omega
    rw [← hp]
    exact key cs _

theorem ruler_builtin (E : Env) : BuiltinKeys (rulerEditor zwjs E) := (defaultKeys_builtin E.cfg : BuiltinKeys (Example.env E.cfg))

theorem ruler_says {P : Type} {ren : List Nat → P → P} : ∀ b, Uttered (rulerEditor zwjs E) b → Rounded ren adv b := by
  refine said_rounded (fun b hb => ?_) (fun e he => by cases he) (fun f rc hf => by cases hf)
    fun k K f l' e1 _ => absurd e1 (env_completion (E := rulerEditor zwjs E) rfl rfl)
  obtain ⟨n, rfl | rfl⟩ := hb
  · exact text_rounded (b := rulerPrompt) (ascii_over (by decide))
  · exact text_rounded (b := (0x0D :: rulerPrompt).map _) (ascii_over (by decide))

/-- C61 for the program: the width of joined characters does not matter where none are joined. -/
theorem ruler_harmless {rw : Bool → Rune → Int} {vs : Rune → Bool} {e : Environ} (hE : E.cfg = startCfg rw vs e) (he : Unnamed e)
    (hw : ∀ b r, 0x7F ≤ r → r ≤ 0x9F → rw b r = 0) :
    (∀ s, Reachable (rulerEditor zwjs E) w s → ∃ ts, s.out = w.out ++ ts ∧
      ∀ t ∈ ts, Given (rulerEditor zwjs E) t ∨ Harmless (t.bytes (rulerEditor zwjs E).cfg)) ∧
    ∀ s r, readLine (rulerEditor zwjs E) w = .ok (s, r) → ∃ ts, s.out = w.out ++ ts ∧
      ∀ t ∈ ts, Given (rulerEditor zwjs E) t ∨ Harmless (t.bytes (rulerEditor zwjs E).cfg) := by
  cases zwjs with
  | false => exact C61_unnamed (E := rulerEditor false E) hE he hw (ruler_builtin E)
  | true =>
    have hj : ∀ r, ¬ Joins (rulerEditor true E).cfg r := fun r h => by
      have h : Joins E.cfg r := h
      rw [hE] at h
      exact unnamed_joins he r h
    have hz : (rulerEditor true E).cfg.zwjOk = false := by
      show E.cfg.zwjOk = false
      rw [hE]; exact (unnamed_off he).2.1
    have hany : ∀ t : Bytes, Over (fun _ => True) t := fun _ _ _ => trivial
    have hs : Sources (fun _ => True) (rulerEditor true E) w := ⟨hany _, fun _ _ => hany _, fun _ _ => hany _,
      fun _ _ _ _ => Or.inr (Or.inr (hany _)), fun _ _ _ _ _ => hany _, fun _ _ => hany _, fun _ _ _ _ _ _ _ _ => hany _, fun _ _ _ => trivial,
      fun _ _ => ⟨trivial, trivial⟩, fun h => by rw [hz] at h; cases h⟩
    have hx : Searching (fun _ => True) (rulerEditor true E) w := fun _ _ _ => ⟨fun _ _ => trivial, fun _ _ => Or.inr trivial⟩
    have hQ := given_allows (E := rulerEditor true E) (P := fun _ => True) fun m hm _ => lone_harmless hj (fun r hc h0 => by
      show E.cfg.width r = 0
      rw [hE]
      unfold Control at hc
      exact hw _ r (by omega) (by omega)) hm
    exact ⟨fun s h => (session_written (ruler_builtin E) hs hx hQ.toPermits h).out, fun s r h => (result_written (ruler_builtin E) hs hx hQ h).out⟩

/-- **The pen is put back** in a terminal of which nothing is known, whatever is typed. -/
theorem C90_pen_partial {rw : Bool → Rune → Int} {vs : Rune → Bool} {e : Environ} (hE : E.cfg = startCfg rw vs e) (he : Unnamed e)
    (hw : ∀ b r, 0x7F ≤ r → r ≤ 0x9F → rw b r = 0) (g : Glass Pen) (hm : g.vt.mode = .ground) {log : Option Bytes} {r : Option RLRes} {status : Nat}
    {w' : World} (h : mainRuler zwjs log E w = .ok (r, status, w')) :
    (∀ s, Reachable (rulerEditor zwjs E) w s → ∃ ts, s.out = w.out ++ ts ∧ (g.run Pen.sgr adv (bytesOf (rulerCfg zwjs E.cfg) ts)).vt.mode = .ground ∧
      (g.run Pen.sgr adv (bytesOf (rulerCfg zwjs E.cfg) ts)).pen = {}) ∧
    (log = none → ∃ ts said, w'.out = w.out ++ ts ++ [.lit said] ∧ (g.run Pen.sgr adv (bytesOf (rulerCfg zwjs E.cfg) ts)).vt.mode = .ground ∧
      (g.run Pen.sgr adv (bytesOf (rulerCfg zwjs E.cfg) ts)).pen = {}) := by
  have hb := ruler_builtin (zwjs := zwjs) E
  have := C88_vimBatch_partial (adv := adv) (w := w) hb rfl (ruler_harmless hE he hw) ruler_says ⟨.inl rfl, .inl rfl⟩
    (fun f rc hf => by cases hf) g hm
  refine ⟨this.1, fun hl => ?_⟩
  subst hl
  unfold mainRuler at h
  obtain ⟨⟨s, r'⟩, hrl, h⟩ := bind_ok.mp h
  obtain ⟨ts, h1, h2, h3⟩ := this.2 s r' hrl
  dsimp only at h
  cases hx : r'.err <;> rw [hx] at h <;> cases h <;> exact ⟨ts, _, by rw [← h1]; rfl, h2, h3⟩

/-! ## Cases -/

section
open Example

theorem rulerKeys_ready : LoneTable (ruled false (env table)) { termWidth := 20, input := loneKeys.map fun k => .key (utf8 k) } id none loneKeys
    (plainColumns table) loneRow := loneKeys_ready

/-- `世`, Ctrl-B and `a` have been typed: from the cursor upwards. -/
example : (match after (rulerEditor false (env table)) { termWidth := 20, input := loneKeys.map fun k => .key (utf8 k) } 3 with
    | .ok s => (loneRows 20 s.out).take 2
    | .error _ => []) = ["$ a世", "  0123456789ABCDEF"] ∧ 18 ≤ loneRow.width ∧ loneRow.col = 0 := by decide +kernel

/-- In the end, with the line entered, given up, and without the file. -/
example : (match mainRuler false none (env table) { termWidth := 20, input := loneKeys.map fun k => .key (utf8 k) } with
    | .ok (_, n, w) => (n, (loneRows 20 w.out).take 4)
    | .error _ => (9, [])) = (0, ["", "TEXT=ab世", "$ ab世", "  0123456789ABCDEF"]) ∧
    (match mainRuler false none (env table) { termWidth := 20, input := [.key [0x61], .key [0x03]] } with
    | .ok (_, n, w) => (n, (loneRows 20 w.out).take 4)
    | .error _ => (9, [])) = (1, ["", "^C", "$ a", "  0123456789ABCDEF"]) ∧
    (match mainRuler false (some (b "no")) (env table) { termWidth := 20, input := [.key [0x61], .key [0x03]] } with
    | .ok (_, n, w) => (n, (loneRows 20 w.out).take 2)
    | .error _ => (9, [])) = (1, ["", "no"]) := by decide +kernel

example := C90_main_partial rulerKeys_ready

example {r : RLRes} {n : Nat} {w' : World}
    (h : mainRuler false none (env table) { termWidth := 20, input := loneKeys.map fun k => .key (utf8 k) } = .ok (some r, n, w'))
    (he : ∀ e, r.err ≠ .tty e) := C90_rows_partial rulerKeys_ready rfl (by decide) h he

/-- With the history `abc`: `a` and Enter; `a` and Ctrl-C, with predictions and without.  Where a prediction was shown, the line is gone. -/
def ledgeLeft (colours : Bytes × Bytes) (ks : List Bytes) : List String :=
  match readLine { rulerEditor false (env table) with history := [b "abc"], predictColor := colours } { termWidth := 20, input := ks.map .key } with
  | .ok (s, _) => (loneRows 20 s.out).take 3
  | .error _ => []

example : ledgeLeft blueItalic [[0x61], [0x0D]] = ["", "$ a", "  0123456789ABCDEF"] ∧
    ledgeLeft blueItalic [[0x61], [0x03]] = ["", "$ ", "  0123456789ABCDEF"] ∧
    ledgeLeft ([], []) [[0x61], [0x03]] = ["", "$ a", "  0123456789ABCDEF"] := by decide +kernel

/-- The pen in Visual Studio Code's terminal, whatever is typed. -/
example {w w' : World} {r : Option RLRes} {n : Nat} (h : mainRuler true none (env (started inCode)) w = .ok (r, n, w')) :=
  C90_pen_partial (adv := fun _ => 1) (E := env (started inCode)) (rw := orgRuneWidth tables) (vs := fun r => 0xFE00 ≤ r ∧ r ≤ 0xFE0F) (e := inCode)
    rfl inCode_unnamed (fun _ _ h1 h2 => c1_width h1 h2) glassRow rfl h

/-- Three emoji of two columns, joined: 2 columns, and 8 columns without the environment variable. -/
example : full.zwjOk = true ∧ Plain full 0x1F468 ∧ plainColumns full 0x1F468 = 2 ∧
    [(stringToMoji (rulerEditor true (env full)).cfg (utf8 (chain '👨' ['👩', '👦']))).map (Moji.width (rulerEditor true (env full)).cfg),
      (stringToMoji (rulerEditor false (env full)).cfg (utf8 (chain '👨' ['👩', '👦']))).map (Moji.width (rulerEditor false (env full)).cfg)] =
      [[2], [8]] := by
  exact ⟨rfl, ⟨by decide, by decide, .inr rfl, .inr (by decide)⟩, by decide, by decide +kernel⟩

/-- After a resize the ruler is written over the line, and the line over it again. -/
example : (match after (rulerEditor true (env table)) { termWidth := 20, input := [.key [0x61], .resize 19, .key [0x62], .key [0x63]] } 3 with
    | .ok s => (loneRows 20 s.out).take 2
    | .error _ => []) = ["$ ab", "  0123456789ABCDEF"] := by decide +kernel

/-- **In fewer than 18 columns** a resize leaves the rest of the ruler, and the line goes to the next row: `18 ≤ v.width` is needed. -/
theorem C90_refuted_narrow :
    (match after (rulerEditor false (env table)) { termWidth := 12, input := [.key [0x61], .resize 12, .key [0x62], .key [0x63]] } 3 with
    | .ok s => (loneRows 12 s.out).take 3
    | .error _ => []) = ["$ ab", "  0123456789", "ABCDEF"] := by decide +kernel

end

end Readline
